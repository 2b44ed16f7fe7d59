import Verif.Files.Model

/-!
# File streams: a file with a position
-/

namespace Verif.Files

/-! ### Specification -/

/-- What is in the file as far as the program can tell, and where in it the program is. -/
structure Abs where
  content : List Nat
  pos : Nat
  deriving DecidableEq, Repr

/-- Bytes `d` are stored from position `p` on; what is between the end of the file and `p` becomes zero. -/
def store (f : List Nat) (p : Nat) (d : List Nat) : List Nat :=
  if d = [] then f
  else (List.range (max f.length (p + d.length))).map fun i =>
    if p ≤ i ∧ i < p + d.length then d.getD (i - p) 0 else f.getD i 0

/-! ### Writing -/

theorem getD_eq (l : List Nat) (i : Nat) : l.getD i 0 = (l[i]?).getD 0 := List.getD_eq_getElem?_getD

theorem store_length (f : List Nat) (p : Nat) {d : List Nat} (h : d ≠ []) :
    (store f p d).length = max f.length (p + d.length) := by
  rw [store, if_neg h, List.length_map, List.length_range]

theorem ext_length (f : List Nat) (p : Nat) : (ext f p).length = max f.length p := by
  rw [ext, List.length_append, List.length_replicate]
  omega

theorem writeAt_nil (f : List Nat) (p : Nat) : writeAt f p [] = f := by rw [writeAt, if_pos rfl]

theorem writeAt_length (f : List Nat) (p : Nat) {d : List Nat} (h : d ≠ []) :
    (writeAt f p d).length = max f.length (p + d.length) := by
  rw [writeAt, if_neg h, List.length_append, List.length_append, List.length_take, ext_length, List.length_drop]
  omega

theorem ext_get (f : List Nat) (p i : Nat) : ((ext f p)[i]?).getD 0 = (f[i]?).getD 0 := by
  unfold ext
  by_cases h : i < f.length
  · rw [List.getElem?_append_left h]
  · rw [List.getElem?_append_right (by omega), List.getElem?_eq_none (l := f) (by omega), List.getElem?_replicate]
    split <;> rfl

theorem writeAt_eq (f : List Nat) (p : Nat) (d : List Nat) : writeAt f p d = store f p d := by
  by_cases h : d = []
  · rw [h, writeAt_nil, store, if_pos rfl]
  · apply List.ext_getElem?
    intro i
    have hl := writeAt_length f p h
    have hs := store_length f p h
    have hd : 0 < d.length := List.length_pos_iff.mpr h
    by_cases hi : i < max f.length (p + d.length)
    · have e1 : (store f p d)[i]? = some (if p ≤ i ∧ i < p + d.length then d.getD (i - p) 0 else f.getD i 0) := by
        rw [store, if_neg h, List.getElem?_map, List.getElem?_range hi]
        rfl
      rw [e1]
      have e2 : (writeAt f p d)[i]? = some (((writeAt f p d)[i]?).getD 0) := by
        rw [List.getElem?_eq_getElem (by omega)]
        rfl
      rw [e2]
      congr 1
      rw [writeAt, if_neg h]
      have ht : ((ext f p).take p).length = p := by rw [List.length_take, ext_length]; omega
      by_cases h1 : i < p
      · rw [if_neg (by omega), List.append_assoc, List.getElem?_append_left (by omega), List.getElem?_take,
          if_pos h1, ext_get, getD_eq]
      · by_cases h2 : i < p + d.length
        · rw [if_pos ⟨by omega, h2⟩, List.append_assoc, List.getElem?_append_right (by omega), ht,
            List.getElem?_append_left (by omega), getD_eq]
        · rw [if_neg (by omega), List.getElem?_append_right (by rw [List.length_append]; omega), List.length_append, ht,
            List.getElem?_drop, getD_eq]
          congr 2
          omega
    · rw [List.getElem?_eq_none (by omega), List.getElem?_eq_none (by omega)]

theorem writeAt_append (f : List Nat) (p : Nat) (d e : List Nat) :
    writeAt f p (d ++ e) = writeAt (writeAt f p d) (p + d.length) e := by
  by_cases hd : d = []
  · subst hd
    rw [writeAt_nil, List.nil_append, List.length_nil, Nat.add_zero]
  by_cases he : e = []
  · subst he
    rw [writeAt_nil, List.append_nil]
  have hl := writeAt_length f p hd
  have ht : ((ext f p).take p).length = p := by rw [List.length_take, ext_length]; omega
  have hx : ext (writeAt f p d) (p + d.length) = writeAt f p d := by
    rw [ext, hl, Nat.sub_eq_zero_of_le (by omega), List.replicate_zero, List.append_nil]
  rw [writeAt, if_neg (by simp [hd]), writeAt, if_neg he, hx, writeAt, if_neg hd]
  rw [List.take_append_of_le_length (by rw [List.length_append]; omega),
    List.take_of_length_le (l := (ext f p).take p ++ d) (by rw [List.length_append]; omega),
    List.drop_append, List.drop_eq_nil_of_le (as := (ext f p).take p ++ d) (by rw [List.length_append]; omega),
    List.nil_append, List.drop_drop, List.length_append, List.length_append, ht, List.append_assoc, List.append_assoc,
    List.append_assoc, List.append_assoc,
    show p + d.length + (p + d.length + e.length - (p + d.length)) = p + (d.length + e.length) by omega]

/-! ### The relation -/

/-- What was written and is only in the buffer. -/
def pend (s : St) : List Nat :=
  match s.writePtr with
  | none => []
  | some w => slice s.buf (w - 1) s.writeEnd

/-- The stream `s` is the file `a`, and nothing that was read is still to be used when something was written. -/
structure Good (s : St) (a : Abs) : Prop where
  room : 0 < s.buf.length
  one : 1 ≤ s.ptr
  le : s.endPtr ≤ s.fd
  endB : s.endPtr ≤ s.buf.length
  ptrB : s.ptr ≤ s.buf.length + 1
  seen : s.buf.take s.endPtr = (s.file.drop (s.fd - s.endPtr)).take s.endPtr
  reads : s.writePtr = none → s.ptr ≤ s.endPtr + 1
  writes : ∀ w, s.writePtr = some w → w = s.endPtr + 1 ∧ w ≤ s.ptr ∧ s.writeEnd = s.ptr - 1
  cont : a.content = writeAt s.file s.fd (pend s)
  pos : a.pos + s.endPtr + 1 = s.fd + s.ptr

/-- All that was read was used, or there is something written. -/
def Used (s : St) : Prop := s.writePtr = none → s.ptr = s.endPtr + 1

/-- Nothing is in the buffer. -/
structure Empty (s : St) (a : Abs) : Prop where
  room : 0 < s.buf.length
  ptr : s.ptr = 1
  endP : s.endPtr = 0
  wr : s.writePtr = none
  file : s.file = a.content
  fd : s.fd = a.pos

theorem Empty.good {s : St} {a : Abs} (h : Empty s a) : Good s a := by
  obtain ⟨h1, h2, h3, h4, h5, h6⟩ := h
  refine ⟨h1, by omega, by omega, by omega, by omega, by rw [h3]; simp, by omega, ?_, ?_, by omega⟩
  · intro w hw
    rw [h4] at hw
    cases hw
  · rw [pend, h4, writeAt_nil, h5]

theorem Empty.used {s : St} {a : Abs} (h : Empty s a) : Used s := fun _ => by rw [h.ptr, h.endP]

theorem slice_length (l : List Nat) (i j : Nat) : (slice l i j).length = min (j - i) (l.length - i) := by
  rw [slice, List.length_take, List.length_drop]

theorem Good.pend_length {s : St} {a : Abs} (h : Good s a) {w : Nat} (hw : s.writePtr = some w) :
    (pend s).length = s.ptr - w := by
  obtain ⟨h1, h2, h3⟩ := h.writes w hw
  have := h.ptrB
  rw [pend, hw]
  show (slice s.buf (w - 1) s.writeEnd).length = _
  rw [slice_length, h3]
  omega

theorem Good.file_eq {s : St} {a : Abs} (h : Good s a) (hw : s.writePtr = none) : a.content = s.file := by
  rw [h.cont, pend, hw, writeAt_nil]

/-- What is in the buffer was read from the file. -/
theorem Good.fd_le {s : St} {a : Abs} (h : Good s a) (he : 0 < s.endPtr) : s.fd ≤ s.file.length := by
  have := congrArg List.length h.seen
  rw [List.length_take, List.length_take, List.length_drop] at this
  have := h.endB
  have := h.le
  omega

/-- `flush` empties the buffer. -/
theorem flush_used {s : St} {a : Abs} (h : Good s a) (hu : Used s) (n : Nat) :
    ∃ s', flush (n + 1) s = some s' ∧ Empty s' a ∧ s'.buf = s.buf := by
  have hp := h.pos
  have ho := h.one
  rw [flush]
  cases hw : s.writePtr with
  | none =>
    have hx := hu hw
    refine ⟨reset s, ?_, ⟨h.room, rfl, rfl, rfl, (h.file_eq hw).symm, ?_⟩, rfl⟩
    · dsimp only
      rw [flushEnd, if_pos (by omega)]
      rfl
    · show s.fd = a.pos
      omega
  | some w =>
    obtain ⟨h1, h2, h3⟩ := h.writes w hw
    have hl := h.pend_length hw
    have hd : pend s = slice s.buf (w - 1) s.writeEnd := by rw [pend, hw]
    dsimp only
    rw [if_pos (by omega), if_pos (by omega)]
    dsimp only
    rw [hw]
    dsimp only
    refine ⟨_, rfl, ⟨h.room, rfl, rfl, rfl, ?_, ?_⟩, rfl⟩
    · show writeAt s.file s.fd (slice s.buf (w - 1) s.writeEnd) = a.content
      rw [h.cont, hd]
    · show s.fd + (slice s.buf (w - 1) s.writeEnd).length = a.pos
      rw [← hd]
      omega

theorem settle_good {s : St} {a : Abs} (h : Good s a) (n : Nat) :
    ∃ s', settle (n + 1) s = some s' ∧ Good s' a ∧ s'.writePtr = none ∧ (Used s → Used s') := by
  unfold settle
  by_cases hw : s.writePtr = none
  · rw [hw]
    exact ⟨s, rfl, h, hw, id⟩
  · obtain ⟨w, hw'⟩ := Option.ne_none_iff_exists'.mp hw
    obtain ⟨s', h1, h2, h3⟩ := flush_used h (fun h => absurd h hw) n
    rw [hw']
    exact ⟨s', h1, h2.good, h2.wr, fun _ => h2.used⟩

theorem replace_length {l d : List Nat} {i : Nat} (h : i + d.length ≤ l.length) : (replace l i d).length = l.length := by
  rw [replace, List.length_append, List.length_append, List.length_take, List.length_drop]
  omega

theorem replace_take {l d : List Nat} {i : Nat} (h : i + d.length ≤ l.length) :
    (replace l i d).take (i + d.length) = l.take i ++ d := by
  rw [replace, List.take_append_of_le_length (by rw [List.length_append, List.length_take]; omega),
    List.take_of_length_le (by rw [List.length_append, List.length_take]; omega)]

/-- `fill` when all was used: something is in the buffer, unless there is nothing. -/
theorem fill_used {s : St} {a : Abs} (h : Good s a) (hx : s.ptr = s.endPtr + 1) (n : Nat) :
    ∃ s', fill (n + 1) s = some s' ∧ Good s' a ∧ s'.writePtr = none ∧ s'.ptr = 1 ∧
      s'.endPtr = min s.buf.length (a.content.length - a.pos) ∧ s'.buf.length = s.buf.length := by
  obtain ⟨t, h1, h2, h3⟩ := flush_used h (fun _ => hx) n
  have hr := h2.room
  unfold fill
  rw [if_pos (by omega), h1]
  simp only [Option.bind_some]
  rw [h2.endP, Nat.sub_zero, if_neg (by omega)]
  have hl : ((t.file.drop t.fd).take t.buf.length).length = min t.buf.length (a.content.length - a.pos) := by
    rw [List.length_take, List.length_drop, h2.file, h2.fd]
  refine ⟨_, rfl, ⟨?_, ?_, ?_, ?_, ?_, ?_, ?_, ?_, ?_, ?_⟩, h2.wr, h2.ptr, ?_, ?_⟩
  · show 0 < (replace t.buf 0 _).length
    rw [replace_length (by rw [List.length_take]; omega)]
    exact hr
  · show 1 ≤ t.ptr
    rw [h2.ptr]
    exact Nat.le_refl 1
  · show 0 + _ ≤ t.fd + _
    omega
  · show 0 + _ ≤ (replace t.buf 0 _).length
    rw [replace_length (by rw [List.length_take]; omega), List.length_take]
    omega
  · show t.ptr ≤ (replace t.buf 0 _).length + 1
    rw [h2.ptr]
    omega
  · show (replace t.buf 0 _).take (0 + _) = (t.file.drop (t.fd + _ - (0 + _))).take (0 + _)
    rw [replace_take (by rw [List.length_take]; omega), List.take_zero, List.nil_append, Nat.zero_add,
      Nat.add_sub_cancel, List.length_take, List.take_eq_take_iff]
    omega
  · intro _
    show t.ptr ≤ 0 + _ + 1
    rw [h2.ptr]
    omega
  · intro w hw'
    rw [show (_ : Option Nat) = t.writePtr from rfl, h2.wr] at hw'
    cases hw'
  · show a.content = writeAt t.file _ (pend _)
    rw [show pend { t with
        buf := replace t.buf 0 ((t.file.drop t.fd).take t.buf.length),
        endPtr := 0 + ((t.file.drop t.fd).take t.buf.length).length,
        fd := t.fd + ((t.file.drop t.fd).take t.buf.length).length } = [] by rw [pend]; simp only [h2.wr],
      writeAt_nil, h2.file]
  · show a.pos + (0 + _) + 1 = t.fd + _ + t.ptr
    rw [h2.ptr, h2.fd]
    omega
  · show 0 + _ = _
    rw [Nat.zero_add, hl, h3]
  · show (replace t.buf 0 _).length = _
    rw [replace_length (by rw [List.length_take]; omega), h3]

/-- At the end or not, for files where the position is not beyond the end. -/
theorem atEnd_good {s : St} {a : Abs} (h : Good s a) (hw : s.writePtr = none) (hp : a.pos ≤ a.content.length) :
    atEnd s = decide (a.content.length ≤ a.pos) := by
  have h1 := h.reads hw
  have h2 := h.pos
  have h3 := h.le
  have h4 := h.one
  have hf := h.file_eq hw
  rw [hf] at hp ⊢
  have hfd : 0 < s.endPtr → s.fd ≤ s.file.length := h.fd_le
  rw [Bool.eq_iff_iff]
  simp only [atEnd, Bool.and_eq_true, decide_eq_true_eq, beq_iff_eq]
  omega

/-- What is left in the buffer is what comes next in the file. -/
theorem Good.ahead {s : St} {a : Abs} (h : Good s a) (hw : s.writePtr = none) :
    slice s.buf (s.ptr - 1) s.endPtr = (a.content.drop a.pos).take (s.endPtr + 1 - s.ptr) := by
  have h1 := h.reads hw
  have h2 := h.pos
  have h3 := h.le
  have h4 := h.one
  rw [h.file_eq hw, slice]
  have := congrArg (List.drop (s.ptr - 1)) h.seen
  rw [List.drop_take, List.drop_take, List.drop_drop] at this
  rw [this, show s.fd - s.endPtr + (s.ptr - 1) = a.pos by omega,
    show s.endPtr - (s.ptr - 1) = s.endPtr + 1 - s.ptr by omega]

/-- Some of what is in the buffer is used. -/
theorem Good.use {s : St} {a : Abs} (h : Good s a) (hw : s.writePtr = none) {k : Nat} (hk : s.ptr + k ≤ s.endPtr + 1) :
    Good { s with ptr := s.ptr + k } ⟨a.content, a.pos + k⟩ := by
  have h2 := h.pos
  have h4 := h.one
  have h5 := h.endB
  refine ⟨h.room, ?_, h.le, h5, ?_, h.seen, ?_, ?_, ?_, ?_⟩
  · show 1 ≤ s.ptr + k; omega
  · show s.ptr + k ≤ s.buf.length + 1; omega
  · intro _; exact hk
  · intro w hw'
    rw [show (_ : Option Nat) = s.writePtr from rfl, hw] at hw'
    cases hw'
  · show a.content = writeAt s.file s.fd (pend _)
    rw [show pend { s with ptr := s.ptr + k } = [] by rw [pend]; simp only [hw], writeAt_nil, h.file_eq hw]
  · show a.pos + k + s.endPtr + 1 = s.fd + (s.ptr + k); omega

end Verif.Files
