import Verif.Files.Reads

/-!
# File streams: writing and moving
-/

namespace Verif.Files

/-- At the end all that was read was used. -/
theorem Good.used_end {s : St} {a : Abs} (h : Good s a) (he : a.content.length ≤ a.pos) : Used s := by
  intro hw
  have hp1 := h.pos
  have hp2 := h.reads hw
  rw [h.file_eq hw] at he
  have := h.one
  by_cases he : 0 < s.endPtr
  · have := h.fd_le he
    omega
  · omega

theorem startWrite_good {s : St} {a : Abs} (h : Good s a) (hu : Used s) :
    Good (startWrite s) a ∧ ∃ w, (startWrite s).writePtr = some w := by
  unfold startWrite
  cases hw : s.writePtr with
  | some w => exact ⟨h, w, hw⟩
  | none =>
    have hx := hu hw
    have ho := h.one
    refine ⟨⟨h.room, ho, h.le, h.endB, h.ptrB, h.seen, ?_, ?_, ?_, h.pos⟩, s.ptr, rfl⟩
    · intro h; cases h
    · intro w h
      cases h
      exact ⟨hx, Nat.le_refl _, rfl⟩
    · show a.content = writeAt s.file s.fd (slice s.buf (s.ptr - 1) (s.ptr - 1))
      rw [slice, Nat.sub_self, List.take_zero, writeAt_nil]
      exact h.file_eq hw

/-- Bytes go into the buffer. -/
theorem bufferAll_good {s : St} {a : Abs} (h : Good s a) (hu : Used s) (l : List Nat)
    (hl : s.ptr + l.length ≤ s.buf.length + 1) :
    Good (bufferAll s l) ⟨store a.content a.pos l, a.pos + l.length⟩ ∧ ∃ w, (bufferAll s l).writePtr = some w := by
  obtain ⟨g, w, hw⟩ := startWrite_good h hu
  unfold bufferAll
  have hptr : (startWrite s).ptr = s.ptr := by unfold startWrite; split <;> rfl
  have hbuf : (startWrite s).buf = s.buf := by unfold startWrite; split <;> rfl
  generalize startWrite s = t at *
  dsimp only
  split
  · rename_i he
    subst he
    refine ⟨?_, w, hw⟩
    rw [List.length_nil, Nat.add_zero, store, if_pos rfl]
    exact g
  · obtain ⟨h1, h2, h3⟩ := g.writes w hw
    have ho := g.one
    have hps := g.pos
    have hpl := g.pend_length hw
    have hbound : t.ptr - 1 + l.length ≤ t.buf.length := by rw [hbuf, hptr]; have := h.one; omega
    have hrep := replace_length (l := t.buf) (d := l) (i := t.ptr - 1) hbound
    have htake := replace_take (l := t.buf) (d := l) (i := t.ptr - 1) hbound
    refine ⟨⟨?_, ?_, g.le, ?_, ?_, ?_, ?_, ?_, ?_, ?_⟩, w, hw⟩
    · show 0 < (replace _ _ _).length
      rw [hrep]
      exact g.room
    · show 1 ≤ t.ptr + l.length
      omega
    · show t.endPtr ≤ (replace _ _ _).length
      rw [hrep]
      exact g.endB
    · show t.ptr + l.length ≤ (replace _ _ _).length + 1
      rw [hrep]
      omega
    · show (replace _ _ _).take t.endPtr = _
      rw [← g.seen]
      have e := congrArg (List.take t.endPtr) htake
      rw [List.take_take, Nat.min_eq_left (by omega), List.take_append_of_le_length
        (by rw [List.length_take]; omega), List.take_take, Nat.min_eq_left (by omega)] at e
      exact e
    · intro h
      rw [show (_ : Option Nat) = t.writePtr from rfl, hw] at h
      cases h
    · intro v hv
      rw [show (_ : Option Nat) = t.writePtr from rfl, hw] at hv
      cases hv
      refine ⟨h1, ?_, rfl⟩
      show w ≤ t.ptr + l.length
      omega
    · show store a.content a.pos l = writeAt t.file t.fd (pend _)
      have hp : pend { t with
          buf := replace t.buf (t.ptr - 1) l, ptr := t.ptr + l.length, writeEnd := t.ptr + l.length - 1 } =
            pend t ++ l := by
        rw [pend, pend]
        simp only [hw]
        have hs : ∀ (x : List Nat) j, slice x (w - 1) j = (x.take j).drop (w - 1) := fun _ _ => List.drop_take.symm
        rw [hs, hs, h3, show t.ptr + l.length - 1 = t.ptr - 1 + l.length by omega, htake, List.drop_append,
          List.length_take, show w - 1 - min (t.ptr - 1) t.buf.length = 0 by omega, List.drop_zero]
      rw [hp, writeAt_append, ← g.cont, ← writeAt_eq]
      congr 1
      omega
    · show a.pos + l.length + t.endPtr + 1 = t.fd + (t.ptr + l.length)
      omega

theorem nextPut_good {s : St} {a : Abs} (h : Good s a) (hu : Used s) (n c : Nat) :
    ∃ s', nextPut (n + 1) s c = some s' ∧ Good s' ⟨store a.content a.pos [c], a.pos + 1⟩ ∧ Used s' := by
  have key : ∀ t, Good t a → Used t → t.ptr ≤ t.buf.length →
      ∃ s', some ({ startWrite t with
          buf := (startWrite t).buf.set ((startWrite t).ptr - 1) c, ptr := (startWrite t).ptr + 1,
          writeEnd := (startWrite t).ptr + 1 - 1 }) = some s' ∧
        Good s' ⟨store a.content a.pos [c], a.pos + 1⟩ ∧ Used s' := by
    intro t ht hut hb
    obtain ⟨g, w, hw⟩ := bufferAll_good ht hut [c] (by rw [List.length_singleton]; omega)
    refine ⟨bufferAll t [c], ?_, g, fun h => by rw [hw] at h; cases h⟩
    have hptr : (startWrite t).ptr = t.ptr := by unfold startWrite; split <;> rfl
    have hbuf : (startWrite t).buf = t.buf := by unfold startWrite; split <;> rfl
    have ho := ht.one
    rw [bufferAll]
    dsimp only
    rw [if_neg (by simp), List.length_singleton, hptr, hbuf, replace, List.set_eq_take_append_cons_drop, if_pos (by omega),
      List.append_assoc]
    rfl
  unfold nextPut
  by_cases hx : s.ptr > s.buf.length
  · obtain ⟨t, g1, g2, g3⟩ := flush_used h hu n
    rw [if_pos hx, g1]
    exact key t g2.good g2.used (by rw [g2.ptr]; exact g2.room)
  · rw [if_neg hx]
    exact key s h hu (by omega)

theorem store_append (f : List Nat) (p : Nat) (d e : List Nat) :
    store f p (d ++ e) = store (store f p d) (p + d.length) e := by
  rw [← writeAt_eq, ← writeAt_eq, ← writeAt_eq, writeAt_append]

theorem putAll_good {s : St} {a : Abs} (h : Good s a) (hu : Used s) (n : Nat) (l : List Nat) :
    ∃ s', putAll (n + 1) s l = some s' ∧ Good s' ⟨store a.content a.pos l, a.pos + l.length⟩ ∧ Used s' := by
  unfold putAll
  dsimp only
  have hb := h.ptrB
  generalize hq : min (s.buf.length + 1 - s.ptr) l.length = q
  have hlq : (l.take q).length = q := by rw [List.length_take]; omega
  obtain ⟨g, w, hw⟩ := bufferAll_good h hu (l.take q) (by omega)
  have hgu : Used (bufferAll s (l.take q)) := fun h => by rw [hw] at h; cases h
  split
  · rename_i he
    refine ⟨_, rfl, ?_, hgu⟩
    rwa [List.take_of_length_le (by omega)] at g ⊢
  · rename_i he
    obtain ⟨t, g1, g2, g3⟩ := flush_used g hgu n
    have e1 : store a.content a.pos l = store (store a.content a.pos (l.take q)) (a.pos + (l.take q).length)
        (l.drop q) := by
      rw [← store_append, List.take_append_drop]
    have e2 : a.pos + l.length = a.pos + (l.take q).length + (l.drop q).length := by
      rw [hlq, List.length_drop]
      omega
    rw [g1, Option.map_some, e1, e2]
    split
    · rename_i hr
      obtain ⟨g4, v, hv⟩ := bufferAll_good g2.good g2.used (l.drop q) (by rw [g2.ptr]; omega)
      exact ⟨_, rfl, g4, fun h => by rw [hv] at h; cases h⟩
    · have hem : Empty { t with file := writeAt t.file t.fd (l.drop q), fd := t.fd + (l.drop q).length }
          ⟨store (store a.content a.pos (l.take q)) (a.pos + (l.take q).length) (l.drop q),
            a.pos + (l.take q).length + (l.drop q).length⟩ := by
        refine ⟨g2.room, g2.ptr, g2.endP, g2.wr, ?_, ?_⟩
        · show writeAt t.file t.fd (l.drop q) = _
          rw [g2.file, g2.fd, writeAt_eq]
        · show t.fd + _ = _
          rw [g2.fd]
      exact ⟨_, rfl, hem.good, hem.used⟩

theorem position_good {s : St} {a : Abs} (h : Good s a) : position s = a.pos := by
  have := h.pos
  unfold position bufferStart
  omega

theorem positionTo_good {s : St} {a : Abs} (h : Good s a) {p : Int} (hp : 0 ≤ p) :
    Empty (positionTo s p) ⟨a.content, p.toNat⟩ := by
  have hle := h.le
  unfold positionTo
  cases hw : s.writePtr with
  | none =>
    refine ⟨?_, rfl, rfl, rfl, ?_, ?_⟩
    · show 0 < (lseek s p).buf.length
      rw [lseek, if_neg (by omega)]
      exact h.room
    · show (lseek s p).file = _
      rw [lseek, if_neg (by omega)]
      exact (h.file_eq hw).symm
    · show (lseek s p).fd = _
      rw [lseek, if_neg (by omega)]
  | some w =>
    obtain ⟨h1, h2, h3⟩ := h.writes w hw
    have hf : (pwrite s w).file = a.content := by
      show writeAt s.file (bufferStart s + w - 1).toNat (slice s.buf (w - 1) s.writeEnd) = _
      rw [h.cont, pend, hw, bufferStart, show ((s.fd : Int) - s.endPtr + w - 1).toNat = s.fd by omega]
    dsimp only
    split
    · rename_i he
      refine ⟨h.room, rfl, rfl, rfl, hf, ?_⟩
      show s.fd = p.toNat
      unfold bufferStart at he
      omega
    · refine ⟨?_, rfl, rfl, rfl, ?_, ?_⟩
      · show 0 < (lseek (pwrite s w) p).buf.length
        rw [lseek, if_neg (by omega)]
        exact h.room
      · show (lseek (pwrite s w) p).file = _
        rw [lseek, if_neg (by omega)]
        exact hf
      · show (lseek (pwrite s w) p).fd = _
        rw [lseek, if_neg (by omega)]

theorem skip_good {s : St} {a : Abs} (h : Good s a) (n : Nat) {k : Int} (h0 : 0 ≤ a.pos + k)
    (h1 : a.pos + k < a.content.length) :
    ∃ s', skipWith (flush (n + 1)) s k = some s' ∧ Empty s' ⟨a.content, (a.pos + k).toNat⟩ := by
  obtain ⟨t, g1, g2, g3, -⟩ := settle_good h n
  unfold settle at g1
  unfold skipWith
  rw [g1, Option.map_some, position_good h, ← g2.file_eq g3,
    show min (max ((a.pos : Int) + k) 0) ((a.content.length : Int) - 1) = a.pos + k by omega]
  exact ⟨_, rfl, positionTo_good g2 h0⟩

/-- The file as long as `p` bytes. -/
def cut (f : List Nat) (p : Nat) : List Nat := (List.range p).map fun i => f.getD i 0

theorem resize_eq (f : List Nat) (p : Nat) : resize f p = cut f p := by
  have hl : (resize f p).length = p := by rw [resize, List.length_take, ext_length]; omega
  apply List.ext_getElem?
  intro i
  by_cases hi : i < p
  · rw [cut, List.getElem?_map, List.getElem?_range hi, Option.map_some, getD_eq, ← ext_get f p, resize,
      List.getElem?_take, if_pos hi, List.getElem?_eq_getElem (by rw [ext_length]; omega)]
    rfl
  · rw [List.getElem?_eq_none (by omega), List.getElem?_eq_none (by rw [cut, List.length_map, List.length_range]; omega)]

theorem truncate_good {s : St} {a : Abs} (h : Good s a) (hu : Used s) (n : Nat) :
    ∃ s', truncate (n + 1) s = some s' ∧ Good s' ⟨cut a.content a.pos, a.pos⟩ ∧ s'.writePtr = none ∧ Used s' := by
  obtain ⟨t, g1, g2, g3, g4⟩ := settle_good h n
  have hx := g4 hu g3
  have hps := g2.pos
  have hle := g2.le
  unfold truncate
  rw [g1, Option.map_some]
  have hfd : a.pos = t.fd := by omega
  refine ⟨_, rfl, ⟨g2.room, g2.one, hle, g2.endB, g2.ptrB, ?_, ?_, ?_, ?_, hps⟩, g3, ?_⟩
  · show t.buf.take t.endPtr = ((resize t.file t.fd).drop (t.fd - t.endPtr)).take t.endPtr
    rw [g2.seen]
    by_cases he : 0 < t.endPtr
    · have := g2.fd_le he
      rw [resize, ext, Nat.sub_eq_zero_of_le this, List.replicate_zero, List.append_nil, List.drop_take, List.take_take,
        Nat.min_eq_left (by omega)]
    · rw [show t.endPtr = 0 by omega, List.take_zero, List.take_zero]
  · exact g2.reads
  · exact g2.writes
  · show cut a.content a.pos = writeAt (resize t.file t.fd) t.fd (pend _)
    rw [show pend { t with file := resize t.file t.fd } = [] by rw [pend]; simp only [g3], writeAt_nil, resize_eq,
      hfd, g2.file_eq g3]
  · exact fun _ => hx

theorem writeAt_take {f : List Nat} {p : Nat} (h : p ≤ f.length) (d : List Nat) : (writeAt f p d).take p = f.take p := by
  unfold writeAt
  split
  · rfl
  · rw [ext, Nat.sub_eq_zero_of_le h, List.replicate_zero, List.append_nil, List.append_assoc,
      List.take_append_of_le_length (by rw [List.length_take]; omega), List.take_take, Nat.min_self]

theorem copyFromTo_good {s : St} {a : Abs} (h : Good s a) (n : Nat) {i j : Nat} (hij : i ≤ j + 1)
    (hj : i ≤ j → j < a.content.length) :
    ∃ s', copyFromTo (n + 1) s i j = some (.bytes ((a.content.drop i).take (j + 1 - i)), s') ∧ Good s' a ∧
      (s.writePtr = none → s'.writePtr = none) ∧ (Used s → Used s') := by
  have hle := h.le
  unfold copyFromTo
  split
  · rename_i hgt
    rw [if_pos (by omega)]
    refine ⟨s, ?_, h, id, id⟩
    rw [show j + 1 - i = 0 by omega, List.take_zero]
  · dsimp only
    split
    · rename_i hc
      obtain ⟨c1, c2, c3⟩ := hc
      refine ⟨s, ?_, h, id, id⟩
      unfold bufferStart at c2 c3 ⊢
      rw [show ((i : Int) - ((s.fd : Int) - s.endPtr - 1) - 1).toNat = i - (s.fd - s.endPtr) by omega,
        show ((j : Int) - ((s.fd : Int) - s.endPtr - 1)).toNat = j + 1 - (s.fd - s.endPtr) by omega]
      have hfd := h.fd_le (by omega)
      have e := congrArg (fun l => (l.drop (i - (s.fd - s.endPtr))).take (j + 1 - i)) h.seen
      rw [List.drop_take, List.drop_take, List.take_take, List.take_take, List.drop_drop,
        Nat.min_eq_left (by omega), show s.fd - s.endPtr + (i - (s.fd - s.endPtr)) = i by omega] at e
      rw [slice, show j + 1 - (s.fd - s.endPtr) - (i - (s.fd - s.endPtr)) = j + 1 - i by omega, e]
      have ht := congrArg (fun l => (l.drop i).take (j + 1 - i)) (writeAt_take hfd (pend s))
      rw [List.drop_take, List.drop_take, List.take_take, List.take_take, Nat.min_eq_left (by omega), ← h.cont] at ht
      rw [ht]
    · obtain ⟨t, g1, g2, g3, g4⟩ := settle_good h n
      have hf := g2.file_eq g3
      have hj := hj (by omega)
      rw [g1, Option.map_some]
      refine ⟨t, ?_, g2, fun _ => g3, g4⟩
      rw [← hf]
      have hl : ((a.content.drop i).take (j + 1 - i)).length = j + 1 - i := by
        rw [List.length_take, List.length_drop]
        omega
      rw [hl, Nat.sub_self, List.replicate_zero, List.append_nil]

end Verif.Files
