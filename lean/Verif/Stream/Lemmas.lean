import Verif.Stream.Spec
/-!
# Every message refines its specification
-/

namespace Verif.Stream

set_option linter.unusedSectionVars false

variable {α : Type} [DecidableEq α]

/-- The pointer is between the first place and one past the end, and the end is in the buffer. -/
structure Inv (s : St α) : Prop where
  lo : 1 ≤ s.ptr
  hi : s.ptr ≤ s.endPtr + 1
  fits : s.endPtr ≤ s.buf.length

/-- The tape a state stands for. -/
def tape (s : St α) : Tape α := ⟨s.kind, s.buf.take s.endPtr, s.ptr - 1⟩

/-- The places of the buffer past the end satisfy `P`. -/
def Spare (P : α → Prop) (s : St α) : Prop := ∀ y ∈ s.buf.drop s.endPtr, P y

theorem data_length {s : St α} (h : Inv s) : (tape s).data.length = s.endPtr := by
  have := h.fits
  simp only [tape, List.length_take]; omega

theorem rest_length {s : St α} (h : Inv s) :
    (tape s).rest.length = s.endPtr + 1 - s.ptr := by
  have h1 := data_length h; have h2 := h.lo
  simp only [Tape.rest, List.length_drop, h1]
  simp only [tape]; omega

theorem rest_nil {s : St α} (h : Inv s) : (tape s).rest = [] ↔ s.endPtr < s.ptr := by
  have := rest_length h
  rw [← List.length_eq_zero_iff, this]; omega

theorem rest_head {s : St α} (h : Inv s) (hlt : ¬ s.endPtr < s.ptr) :
    ∃ x, at1 s.buf s.ptr = some x ∧ (tape s).rest.head? = some x := by
  have h1 := h.lo; have h2 := h.fits
  have hb : s.ptr - 1 < s.buf.length := by omega
  refine ⟨s.buf[s.ptr - 1], ?_, ?_⟩
  · rw [at1, if_neg (by omega), List.getElem?_eq_getElem hb]
  · simp only [Tape.rest, tape, List.head?_drop]
    rw [List.getElem?_take, if_pos (by omega), List.getElem?_eq_getElem hb]

theorem canRead_eq (s : St α) : s.canRead = true ↔ s.kind ≠ .write := by
  cases hk : s.kind <;> simp [St.canRead, hk]

theorem canWrite_eq (s : St α) : s.canWrite = true ↔ s.kind ≠ .read := by
  cases hk : s.kind <;> simp [St.canWrite, hk]

theorem reads_w {s : St α} (hk : s.kind = .write) (r : Out α × Tape α) :
    (tape s).reads r = (.err, tape s) := if_pos hk

theorem reads_r {s : St α} (hk : s.kind ≠ .write) (r : Out α × Tape α) :
    (tape s).reads r = r := if_neg hk

theorem writes_r {s : St α} (hk : s.kind = .read) (r : Out α × Tape α) :
    (tape s).writes r = (.err, tape s) := if_pos hk

theorem writes_w {s : St α} (hk : s.kind ≠ .read) (r : Out α × Tape α) :
    (tape s).writes r = r := if_neg hk

/-- What a step must satisfy: same answer, same tape afterwards, and the invariants kept. -/
def Good (P : α → Prop) (s : St α) (o : Op α) (r : Out α × St α) : Prop :=
  (tape s).step o = (r.1, tape r.2) ∧ Inv r.2 ∧ Spare P r.2 ∧ r.2.kind = s.kind

theorem Inv.movePtr {s : St α} (h : Inv s) {p : Nat} (h1 : 1 ≤ p) (h2 : p ≤ s.endPtr + 1) :
    Inv { s with ptr := p } := ⟨h1, h2, h.fits⟩

theorem next_read {s : St α} (h : Inv s) (hk : s.kind ≠ .write) (hlt : ¬ s.endPtr < s.ptr) :
    ∃ x, next s = some (some x, { s with ptr := s.ptr + 1 }) ∧
      (tape s).rest.head? = some x := by
  obtain ⟨x, hx, hh⟩ := rest_head h hlt
  exact ⟨x, by rw [next, if_pos ((canRead_eq s).2 hk), if_neg hlt, hx], hh⟩

theorem next_end {s : St α} (hk : s.kind ≠ .write) (hlt : s.endPtr < s.ptr) :
    next s = some (none, s) := by
  rw [next, if_pos ((canRead_eq s).2 hk), if_pos hlt]

theorem next_write {s : St α} (hk : s.kind = .write) : next s = none := by
  rw [next, if_neg]; rw [canRead_eq]; simp [hk]

theorem good_next {P : α → Prop} {s : St α} (h : Inv s) (hs : Spare P s) (fill : α) :
    Good P s .next (step fill s .next) := by
  have h1 := h.lo
  by_cases hk : s.kind = .write
  · simp only [step, next_write hk, ans]
    refine ⟨?_, h, hs, rfl⟩
    simp only [Tape.step]; rw [reads_w hk]
  · by_cases hlt : s.endPtr < s.ptr
    · simp only [step, next_end hk hlt, ans]
      refine ⟨?_, h, hs, rfl⟩
      simp only [Tape.step]; rw [reads_r hk, (rest_nil h).2 hlt]; rfl
    · obtain ⟨x, hx, hh⟩ := next_read h hk hlt
      simp only [step, hx, ans]
      refine ⟨?_, h.movePtr (by omega) (by omega), hs, rfl⟩
      simp only [Tape.step]; rw [reads_r hk, hh]
      simp only [tape, Option.toList, List.length_singleton]
      rw [Nat.sub_add_cancel h1]; rfl

theorem good_peek {P : α → Prop} {s : St α} (h : Inv s) (hs : Spare P s) (fill : α) :
    Good P s .peek (step fill s .peek) := by
  by_cases hk : s.kind = .write
  · have : peek s = none := by rw [peek, if_neg]; rw [canRead_eq]; simp [hk]
    simp only [step, this, ans]
    refine ⟨?_, h, hs, rfl⟩
    simp only [Tape.step]; rw [reads_w hk]
  · by_cases hlt : s.endPtr < s.ptr
    · have : peek s = some none := by
        rw [peek, if_pos ((canRead_eq s).2 hk), if_pos hlt]
      simp only [step, this, ans]
      refine ⟨?_, h, hs, rfl⟩
      simp only [Tape.step]; rw [reads_r hk, (rest_nil h).2 hlt]; rfl
    · obtain ⟨x, hx, hh⟩ := rest_head h hlt
      have : peek s = some (some x) := by
        rw [peek, if_pos ((canRead_eq s).2 hk), if_neg hlt, hx]
      simp only [step, this, ans]
      refine ⟨?_, h, hs, rfl⟩
      simp only [Tape.step]; rw [reads_r hk, hh]

theorem setPosition_ok {s : St α} (h : Inv s) {n : Int} (hn : 0 ≤ n ∧ n ≤ s.endPtr) :
    setPosition s n = some { s with ptr := n.toNat + 1 } ∧
      Inv { s with ptr := n.toNat + 1 } :=
  ⟨by rw [setPosition, if_pos hn], h.movePtr (by omega) (by omega)⟩

theorem skip_ok {s : St α} (h : Inv s) (n : Int) :
    skip s n = some { s with ptr := (min (max ((position s : Int) + n) 0) s.endPtr).toNat + 1 } ∧
      Inv { s with ptr := (min (max ((position s : Int) + n) 0) s.endPtr).toNat + 1 } :=
  setPosition_ok h ⟨by omega, by omega⟩

theorem good_skip {P : α → Prop} {s : St α} (h : Inv s) (hs : Spare P s) (fill : α) (n : Int) :
    Good P s (.skip n) (step fill s (.skip n)) := by
  obtain ⟨e, hi⟩ := skip_ok h n
  simp only [step, e, ans]
  refine ⟨?_, hi, hs, rfl⟩
  simp only [Tape.step, data_length h]; rfl

theorem good_setPosition {P : α → Prop} {s : St α} (h : Inv s) (hs : Spare P s) (fill : α)
    (n : Int) : Good P s (.setPosition n) (step fill s (.setPosition n)) := by
  by_cases hn : 0 ≤ n ∧ n ≤ s.endPtr
  · obtain ⟨e, hi⟩ := setPosition_ok h hn
    simp only [step, e, ans]
    refine ⟨?_, hi, hs, rfl⟩
    simp only [Tape.step, data_length h]; rw [if_pos hn]; rfl
  · have e : setPosition s n = none := by rw [setPosition, if_neg hn]
    simp only [step, e, ans]
    refine ⟨?_, h, hs, rfl⟩
    simp only [Tape.step, data_length h]; rw [if_neg hn]

theorem good_reset {P : α → Prop} {s : St α} (h : Inv s) (hs : Spare P s) (fill : α) :
    Good P s .reset (step fill s .reset) := by
  obtain ⟨e, hi⟩ := setPosition_ok h (n := 0) ⟨by omega, by omega⟩
  simp only [step, reset, e, ans]
  exact ⟨rfl, hi, hs, rfl⟩

theorem good_setToEnd {P : α → Prop} {s : St α} (h : Inv s) (hs : Spare P s) (fill : α) :
    Good P s .setToEnd (step fill s .setToEnd) := by
  obtain ⟨e, hi⟩ := setPosition_ok h (n := (s.endPtr : Int)) ⟨by omega, by omega⟩
  simp only [step, setToEnd, e, ans]
  refine ⟨?_, hi, hs, rfl⟩
  simp only [Tape.step, data_length h]; rfl

theorem good_peekFor {P : α → Prop} {s : St α} (h : Inv s) (hs : Spare P s) (fill : α) (x : α) :
    Good P s (.peekFor x) (step fill s (.peekFor x)) := by
  have h1 := h.lo; have h2 := h.hi
  by_cases hlt : s.endPtr < s.ptr
  · have e : peekFor s x = some (false, s) := by
      rw [peekFor, if_pos]; simp [atEnd, hlt]
    simp only [step, e, ans]
    refine ⟨?_, h, hs, rfl⟩
    simp only [Tape.step]; rw [if_pos ((rest_nil h).2 hlt)]
  · have hne : ¬ (tape s).rest = [] := fun e => hlt ((rest_nil h).1 e)
    have ha : ¬ atEnd s = true := by simp [atEnd, hlt]
    by_cases hk : s.kind = .write
    · have e : peekFor s x = none := by rw [peekFor, if_neg ha, next_write hk]
      simp only [step, e, ans]
      refine ⟨?_, h, hs, rfl⟩
      simp only [Tape.step]; rw [if_neg hne, reads_w hk]
    · obtain ⟨y, hy, hh⟩ := next_read h hk hlt
      have h' : Inv { s with ptr := s.ptr + 1 } := h.movePtr (by omega) (by omega)
      by_cases hxy : y = x
      · have e : peekFor s x = some (true, { s with ptr := s.ptr + 1 }) := by
          rw [peekFor, if_neg ha, hy]; simp only [hxy, if_pos]
        simp only [step, e, ans]
        refine ⟨?_, h', hs, rfl⟩
        simp only [Tape.step]
        rw [if_neg hne, reads_r hk, hh, if_pos (by rw [hxy])]
        simp only [tape]; rw [Nat.sub_add_cancel h1]; rfl
      · have hb := (skip_ok h' (-1)).1
        have hp : (min (max ((position { s with ptr := s.ptr + 1 } : Int) + (-1)) 0)
            (s.endPtr : Int)).toNat + 1 = s.ptr := by
          simp only [position]; omega
        have e : peekFor s x = some (false, s) := by
          rw [peekFor, if_neg ha, hy]
          simp only [Option.some.injEq, hxy, if_false, hb]
          simp only [Option.map_some, hp]
        simp only [step, e, ans]
        refine ⟨?_, h, hs, rfl⟩
        simp only [Tape.step]
        rw [if_neg hne, reads_r hk, hh, if_neg (by simp [hxy])]

theorem avail_eq {s : St α} (h : Inv s) (n : Nat) : avail s n = min n (tape s).rest.length := by
  rw [avail, rest_length h]

/-- The block of the buffer read in one go is the corresponding part of the rest. -/
theorem block_eq {s : St α} (h : Inv s) {n : Nat} (hn : n ≤ s.endPtr + 1 - s.ptr) :
    (s.buf.drop (s.ptr - 1)).take n = (tape s).rest.take n := by
  have := h.lo; have := h.fits
  simp only [Tape.rest, tape, List.drop_take, List.take_take]
  congr 1; omega

theorem nextAvailInto_replicate {s : St α} (h : Inv s) (hk : s.kind ≠ .write) (fill : α) (n : Nat) :
    nextAvailInto s n (List.replicate n fill) 1 =
      some (min n (tape s).rest.length,
        (tape s).rest.take n ++ List.replicate (n - (tape s).rest.length) fill,
        { s with ptr := s.ptr + min n (tape s).rest.length }) := by
  have h1 := h.lo; have h2 := h.fits; have h3 := rest_length h
  have hle : min n (tape s).rest.length ≤ s.endPtr + 1 - s.ptr := by omega
  rw [nextAvailInto, if_pos ((canRead_eq s).2 hk), avail_eq h, replace1]
  by_cases h0 : min n (tape s).rest.length = 0
  · rw [if_pos h0, h0]
    have : (tape s).rest.take n = [] := by
      rw [← List.length_eq_zero_iff, List.length_take]; omega
    have h4 : n - (tape s).rest.length = n := by omega
    rw [this, h4]; rfl
  · rw [if_neg h0, if_neg (by simp only [List.length_replicate]; omega)]
    simp only [Option.map_some, Option.some.injEq, Prod.mk.injEq, true_and, and_true]
    rw [block_eq h hle]
    simp only [Nat.sub_self, List.take_zero, List.nil_append, Nat.zero_add, List.drop_replicate]
    congr 1
    · rw [List.take_eq_take_iff]; omega
    · congr 1; omega

theorem nextN_ok {s : St α} (h : Inv s) (hk : s.kind ≠ .write) (fill : α) {n : Nat}
    (hn : n ≤ (tape s).rest.length) :
    nextN fill s n = some ((tape s).rest.take n, { s with ptr := s.ptr + n }) := by
  have h3 := rest_length h
  rw [nextN, nextInto]
  by_cases h0 : 0 = n
  · subst h0; rw [if_pos rfl]; simp
  · rw [if_neg h0]
    have ha : ¬ atEnd s = true := by simp [atEnd]; omega
    simp only [if_neg ha, Nat.sub_zero, Nat.zero_add]
    rw [nextAvailInto_replicate h hk]
    have e : min n (tape s).rest.length = n := by omega
    have e2 : n - (tape s).rest.length = 0 := by omega
    simp only [e, e2, List.replicate_zero, List.append_nil]
    cases n with
    | zero => exact absurd rfl h0
    | succ n => rw [nextInto, if_pos (by omega)]

theorem nextN_short {s : St α} (h : Inv s) (hk : s.kind ≠ .write) (fill : α) {n : Nat}
    (hn : (tape s).rest.length < n) : nextN fill s n = none := by
  have h3 := rest_length h
  have h1 := h.hi
  rw [nextN, nextInto, if_neg (by omega)]
  by_cases ha : atEnd s = true
  · simp only [if_pos ha]
  · simp only [if_neg ha, Nat.sub_zero, Nat.zero_add]
    rw [nextAvailInto_replicate h hk]
    have e : min n (tape s).rest.length = (tape s).rest.length := by omega
    simp only [e]
    have hend : atEnd { s with ptr := s.ptr + (tape s).rest.length } = true := by
      simp only [atEnd, decide_eq_true_eq]; omega
    cases n with
    | zero => omega
    | succ n =>
      rw [nextInto, if_neg (by omega)]
      simp only [if_pos hend]

theorem nextN_write {s : St α} (hk : s.kind = .write) (fill : α) {n : Nat} (hn : n ≠ 0) :
    nextN fill s n = none := by
  rw [nextN, nextInto, if_neg (by omega)]
  by_cases ha : atEnd s = true
  · simp only [if_pos ha]
  · have : nextAvailInto s n (List.replicate n fill) 1 = none := by
      rw [nextAvailInto, if_neg]; rw [canRead_eq]; simp [hk]
    simp only [if_neg ha, Nat.sub_zero, Nat.zero_add, this]

theorem nextN_zero (s : St α) (fill : α) : nextN fill s 0 = some ([], s) := by
  rw [nextN, nextInto, if_pos rfl]; rfl

theorem good_nextN {P : α → Prop} {s : St α} (h : Inv s) (hs : Spare P s) (fill : α) (n : Nat) :
    Good P s (.nextN n) (step fill s (.nextN n)) := by
  have h3 := rest_length h; have h1 := h.lo; have h2 := h.hi
  by_cases h0 : n = 0
  · subst h0
    simp only [step, nextN_zero, ans]
    exact ⟨rfl, h, hs, rfl⟩
  by_cases hk : s.kind = .write
  · simp only [step, nextN_write hk fill h0, ans]
    refine ⟨?_, h, hs, rfl⟩
    simp only [Tape.step]; rw [if_neg h0, reads_w hk]
  by_cases hn : n ≤ (tape s).rest.length
  · simp only [step, nextN_ok h hk fill hn, ans]
    refine ⟨?_, h.movePtr (by omega) (by omega), hs, rfl⟩
    simp only [Tape.step]; rw [if_neg h0, reads_r hk, if_pos hn]
    have e : s.ptr - 1 + n = s.ptr + n - 1 := by omega
    simp only [tape, e]
  · simp only [step, nextN_short h hk fill (Nat.lt_of_not_le hn), ans]
    refine ⟨?_, h, hs, rfl⟩
    simp only [Tape.step]; rw [if_neg h0, reads_r hk, if_neg hn]

theorem copy1_take {l : List α} {n : Nat} (h : n ≤ l.length) : copy1 l 1 n = some (l.take n) := by
  rw [copy1]
  by_cases h0 : n = 0
  · subst h0; rw [if_pos rfl]; rfl
  · rw [if_neg (by omega), if_neg (by omega), if_neg (by omega)]; rfl

theorem good_nextAvail {P : α → Prop} {s : St α} (h : Inv s) (hs : Spare P s) (fill : α) (n : Nat) :
    Good P s (.nextAvail n) (step fill s (.nextAvail n)) := by
  have h3 := rest_length h; have h1 := h.lo; have h2 := h.hi
  by_cases hk : s.kind = .write
  · have : nextAvail fill s n = none := by
      rw [nextAvail, nextAvailInto, if_neg]; rw [canRead_eq]; simp [hk]
    simp only [step, this, ans]
    refine ⟨?_, h, hs, rfl⟩
    simp only [Tape.step]; rw [reads_w hk]
  · have e : nextAvail fill s n = some ((tape s).rest.take n,
        { s with ptr := s.ptr + min n (tape s).rest.length }) := by
      rw [nextAvail, nextAvailInto_replicate h hk]
      by_cases hn : min n (tape s).rest.length < n
      · simp only [if_pos hn]
        rw [copy1_take (by simp only [List.length_append, List.length_take,
          List.length_replicate]; omega)]
        simp only [Option.map_some, Option.some.injEq, Prod.mk.injEq, and_true]
        rw [List.take_append_of_le_length (by rw [List.length_take]; omega), List.take_take,
          List.take_eq_take_iff]; omega
      · have e2 : n - (tape s).rest.length = 0 := by omega
        simp only [if_neg hn, e2, List.replicate_zero, List.append_nil]
    simp only [step, e, ans]
    refine ⟨?_, h.movePtr (by omega) (by omega), hs, rfl⟩
    simp only [Tape.step, data_length h]; rw [reads_r hk]
    have e2 : min (s.ptr - 1 + n) s.endPtr = s.ptr + min n (tape s).rest.length - 1 := by omega
    simp only [tape] at e2 ⊢; rw [e2]

theorem upToEnd_ok {s : St α} (h : Inv s) (hk : s.kind ≠ .write) (fill : α) :
    upToEnd fill s = some ((tape s).rest, { s with ptr := s.endPtr + 1 }) := by
  have h3 := rest_length h; have h2 := h.hi
  rw [upToEnd, nextN_ok h hk fill (by omega), ← h3, List.take_length]
  have : s.ptr + (tape s).rest.length = s.endPtr + 1 := by omega
  rw [this]

theorem good_upToEnd {P : α → Prop} {s : St α} (h : Inv s) (hs : Spare P s) (fill : α) :
    Good P s .upToEnd (step fill s .upToEnd) := by
  have h3 := rest_length h
  by_cases hr : (tape s).rest = []
  · have e : s.endPtr + 1 - s.ptr = 0 := by rw [← h3, hr]; rfl
    simp only [step, upToEnd, e, nextN_zero, ans]
    refine ⟨?_, h, hs, rfl⟩
    simp only [Tape.step]; rw [if_pos hr]
  · have e : s.endPtr + 1 - s.ptr ≠ 0 := by
      rw [← h3]; exact fun hh => hr (List.length_eq_zero_iff.1 hh)
    by_cases hk : s.kind = .write
    · simp only [step, upToEnd, nextN_write hk fill e, ans]
      refine ⟨?_, h, hs, rfl⟩
      simp only [Tape.step]; rw [if_neg hr, reads_w hk]
    · simp only [step, upToEnd_ok h hk, ans]
      refine ⟨?_, h.movePtr (by omega) (by omega), hs, rfl⟩
      simp only [Tape.step, data_length h]; rw [if_neg hr, reads_r hk]; rfl

/-! ## `upTo:` and `skipTo:` -/

theorem scanFrom_eq (x : α) (l : List α) (k : Nat) :
    scanFrom x l k = if x ∈ l then k + (before x l).length else 0 := by
  induction l generalizing k with
  | nil => rfl
  | cons y l ih =>
    rw [scanFrom]
    by_cases hy : y = x
    · subst hy; rw [if_pos rfl, if_pos (by simp)]; simp [before]
    · rw [if_neg hy, ih]
      have hm : x ∈ y :: l ↔ x ∈ l := by simp [Ne.symm hy]
      by_cases hx : x ∈ l
      · rw [if_pos hx, if_pos (hm.2 hx)]
        simp only [before, List.takeWhile_cons, ne_eq, hy, not_false_eq_true, decide_true,
          if_true, List.length_cons]
        omega
      · rw [if_neg hx, if_neg (fun h => hx (hm.1 h))]

theorem before_prefix (x : α) (l : List α) : before x l = l.take (before x l).length :=
  (List.prefix_iff_eq_take).1 (List.takeWhile_prefix _)

theorem before_length_lt {x : α} {l : List α} (h : x ∈ l) : (before x l).length < l.length := by
  induction l with
  | nil => simp at h
  | cons y l ih =>
    by_cases hy : y = x
    · simp [before, hy]
    · have hx : x ∈ l := by simpa [Ne.symm hy] using h
      have := ih hx
      simp only [before, List.takeWhile_cons, ne_eq, hy, not_false_eq_true, decide_true,
        if_true, List.length_cons] at this ⊢
      omega

theorem before_absent {x : α} {l : List α} (h : x ∉ l) : before x l = l := by
  induction l with
  | nil => rfl
  | cons y l ih =>
    simp only [List.mem_cons, not_or] at h
    have := ih h.2
    simp only [before, List.takeWhile_cons, ne_eq, Ne.symm h.1, not_false_eq_true, decide_true,
      if_true] at this ⊢
    rw [this]

/-- If `x` is not in the spare places, looking for it in the whole buffer is looking for it in
the rest of the stream. -/
theorem buf_split {s : St α} (h : Inv s) :
    s.buf.drop (s.ptr - 1) = (tape s).rest ++ s.buf.drop s.endPtr := by
  have h1 := h.lo; have h2 := h.hi; have h3 := h.fits
  have : s.buf = s.buf.take s.endPtr ++ s.buf.drop s.endPtr := (List.take_append_drop _ _).symm
  conv => lhs; rw [this]
  rw [List.drop_append_of_le_length (by rw [List.length_take]; omega)]
  rfl

theorem before_append {x : α} {l m : List α} (h : x ∈ l) : before x (l ++ m) = before x l := by
  induction l with
  | nil => simp at h
  | cons y l ih =>
    by_cases hy : y = x
    · simp [before, hy]
    · have hx : x ∈ l := by simpa [Ne.symm hy] using h
      have := ih hx
      simp only [before, List.cons_append, List.takeWhile_cons, ne_eq, hy, not_false_eq_true,
        decide_true, if_true] at this ⊢
      rw [this]

theorem before_absent_append {x : α} {l m : List α} (h : x ∉ l) :
    before x (l ++ m) = l ++ before x m := by
  induction l with
  | nil => rfl
  | cons y l ih =>
    simp only [List.mem_cons, not_or] at h
    have := ih h.2
    simp only [before, List.cons_append, List.takeWhile_cons, ne_eq, Ne.symm h.1,
      not_false_eq_true, decide_true, if_true] at this ⊢
    rw [this]

theorem upTo_ok {s : St α} (h : Inv s) (hk : s.kind ≠ .write) (fill : α) {x : α}
    (hx : x ∈ s.buf.drop s.endPtr → (s.buf.drop s.endPtr).head? = some x) :
    upTo fill s x = some (before x (tape s).rest,
      { s with ptr := s.ptr + passed x (tape s).rest }) := by
  have h1 := h.lo; have h2 := h.hi; have h3 := h.fits; have h4 := rest_length h
  have hend : ∀ (hm : x ∉ (tape s).rest),
      upToEnd fill s = some (before x (tape s).rest,
        { s with ptr := s.ptr + passed x (tape s).rest }) := by
    intro hm
    rw [upToEnd_ok h hk, passed, before_absent hm, if_neg hm, h4]
    have : s.endPtr + 1 = s.ptr + (s.endPtr + 1 - s.ptr + 0) := by omega
    rw [← this]
  rw [upTo, indexOf]
  by_cases hi : s.ptr < 1 ∨ s.buf.length < s.ptr
  · have e : s.ptr = s.buf.length + 1 := by omega
    rw [if_pos hi, if_pos e]
    simp only [if_true]
    have hr : (tape s).rest = [] := (rest_nil h).2 (by omega)
    exact hend (by rw [hr]; simp)
  · rw [if_neg hi]
    simp only [buf_split h, scanFrom_eq]
    by_cases hm : x ∈ (tape s).rest
    · have hma : x ∈ (tape s).rest ++ s.buf.drop s.endPtr := List.mem_append_left _ hm
      have hlt := before_length_lt hm
      have hne : ¬ s.ptr + (before x (tape s).rest).length = 0 := by omega
      have hsub : s.ptr + (before x (tape s).rest).length - s.ptr
          = (before x (tape s).rest).length := by omega
      simp only [if_pos hma, before_append hm, if_neg hne, hsub]
      rw [nextN_ok h hk fill (by omega)]
      have h' : Inv { s with ptr := s.ptr + (before x (tape s).rest).length } :=
        h.movePtr (by omega) (by omega)
      obtain ⟨y, hy, _⟩ := next_read h' hk (by simp only; omega)
      simp only [hy, ← before_prefix, passed, if_pos hm]
      rfl
    · by_cases hsp : x ∈ s.buf.drop s.endPtr
      · -- the element is found just past the end: `next:` reads everything, `next` nothing
        have hma : x ∈ (tape s).rest ++ s.buf.drop s.endPtr := List.mem_append_right _ hsp
        have hb : before x ((tape s).rest ++ s.buf.drop s.endPtr) = (tape s).rest := by
          have hh := hx hsp
          cases hd : s.buf.drop s.endPtr with
          | nil => rw [hd] at hsp; simp at hsp
          | cons y l =>
            rw [hd] at hh
            simp only [List.head?_cons, Option.some.injEq] at hh
            rw [before_absent_append hm, hh]
            simp [before]
        have hne : ¬ s.ptr + (tape s).rest.length = 0 := by omega
        have hsub : s.ptr + (tape s).rest.length - s.ptr = (tape s).rest.length := by omega
        simp only [if_pos hma, hb, if_neg hne, hsub]
        rw [nextN_ok h hk fill (Nat.le_refl _), List.take_length]
        have h5 : s.endPtr < s.ptr + (tape s).rest.length := by omega
        have e := next_end (s := { s with ptr := s.ptr + (tape s).rest.length }) hk h5
        simp only [e, passed, before_absent hm, if_neg hm, Nat.add_zero]
      · have hma : ¬ x ∈ (tape s).rest ++ s.buf.drop s.endPtr := by
          rw [List.mem_append]; exact fun hh => hh.elim hm hsp
        simp only [if_neg hma, if_true]
        exact hend hm

theorem passed_le (x : α) (l : List α) : passed x l ≤ l.length := by
  rw [passed]
  by_cases h : x ∈ l
  · rw [if_pos h]; exact before_length_lt h
  · rw [if_neg h, before_absent h]; omega

theorem good_upTo {P : α → Prop} {s : St α} (h : Inv s) (hs : Spare P s) (fill : α) (x : α)
    (hk : s.kind ≠ .write) (hx : ¬ P x ∨ ∀ y, P y → y = x) : Good P s (.upTo x) (step fill s (.upTo x)) := by
  have h1 := h.lo; have h2 := h.hi; have h4 := rest_length h; have h5 := passed_le x (tape s).rest
  have hx' : x ∈ s.buf.drop s.endPtr → (s.buf.drop s.endPtr).head? = some x := by
    intro hm
    rcases hx with hx | hx
    · exact absurd (hs x hm) hx
    · cases hd : s.buf.drop s.endPtr with
      | nil => rw [hd] at hm; simp at hm
      | cons y l =>
        have : y = x := hx y (hs y (by rw [hd]; simp))
        rw [this]; rfl
  simp only [step, upTo_ok h hk fill hx', ans]
  refine ⟨?_, h.movePtr (by omega) (by omega), hs, rfl⟩
  simp only [Tape.step]; rw [reads_r hk]
  have e : s.ptr - 1 + passed x (tape s).rest = s.ptr + passed x (tape s).rest - 1 := by omega
  simp only [tape] at e ⊢; rw [e]

theorem rest_cons {s : St α} (h : Inv s) {y : α} (hh : (tape s).rest.head? = some y) :
    (tape s).rest = y :: (tape { s with ptr := s.ptr + 1 }).rest := by
  have h1 := h.lo
  have e : (tape { s with ptr := s.ptr + 1 }).rest = (tape s).rest.tail := by
    simp only [Tape.rest, tape, List.tail_drop]; congr 1; omega
  rw [e]
  cases hr : (tape s).rest with
  | nil => rw [hr] at hh; simp at hh
  | cons a l => rw [hr] at hh; simp at hh; rw [hh]; rfl

theorem skipToLoop_ok (x : α) (fuel : Nat) :
    ∀ (s : St α), Inv s → s.kind ≠ .write → s.endPtr + 1 - s.ptr < fuel →
      skipToLoop fuel s x = some (decide (x ∈ (tape s).rest),
        { s with ptr := s.ptr + passed x (tape s).rest }) := by
  induction fuel with
  | zero => intro s _ _ hf; omega
  | succ fuel ih =>
    intro s h hk hf
    have h1 := h.lo; have h2 := h.hi
    rw [skipToLoop]
    by_cases hlt : s.endPtr < s.ptr
    · have hr := (rest_nil h).2 hlt
      rw [if_pos (by simp [atEnd, hlt]), hr]
      simp [passed, before]
    · obtain ⟨y, hy, hh⟩ := next_read h hk hlt
      have h' : Inv { s with ptr := s.ptr + 1 } := h.movePtr (by omega) (by omega)
      rw [if_neg (by simp [atEnd, hlt]), hy, rest_cons h hh]
      by_cases hxy : y = x
      · simp only [hxy, if_true]; simp [passed, before]
      · have hf' : s.endPtr + 1 - (s.ptr + 1) < fuel := by omega
        have := ih { s with ptr := s.ptr + 1 } h' hk hf'
        simp only [Option.some.injEq, hxy, if_false, this]
        have hm : x ∈ y :: (tape { s with ptr := s.ptr + 1 }).rest ↔
            x ∈ (tape { s with ptr := s.ptr + 1 }).rest := by simp [Ne.symm hxy]
        have hp : passed x (y :: (tape { s with ptr := s.ptr + 1 }).rest) =
            1 + passed x (tape { s with ptr := s.ptr + 1 }).rest := by
          simp only [passed, before, List.takeWhile_cons, ne_eq, hxy, not_false_eq_true,
            decide_true, if_true, List.length_cons, hm]
          omega
        simp only [hp, hm, Nat.add_assoc]

theorem good_skipTo {P : α → Prop} {s : St α} (h : Inv s) (hs : Spare P s) (fill : α) (x : α) :
    Good P s (.skipTo x) (step fill s (.skipTo x)) := by
  have h1 := h.lo; have h2 := h.hi; have h4 := rest_length h; have h5 := passed_le x (tape s).rest
  by_cases hr : (tape s).rest = []
  · have hlt := (rest_nil h).1 hr
    have e : skipTo s x = some (false, s) := by
      rw [skipTo, skipToLoop, if_pos (by simp [atEnd, hlt])]
    simp only [step, e, ans]
    refine ⟨?_, h, hs, rfl⟩
    simp only [Tape.step]; rw [if_pos hr]
  · have hlt : ¬ s.endPtr < s.ptr := fun e => hr ((rest_nil h).2 e)
    by_cases hk : s.kind = .write
    · have e : skipTo s x = none := by
        rw [skipTo, skipToLoop, if_neg (by simp [atEnd, hlt]), next_write hk]
      simp only [step, e, ans]
      refine ⟨?_, h, hs, rfl⟩
      simp only [Tape.step]; rw [if_neg hr, reads_w hk]
    · simp only [step, skipTo, skipToLoop_ok x (s.endPtr + 2) s h hk (by omega), ans]
      refine ⟨?_, h.movePtr (by omega) (by omega), hs, rfl⟩
      simp only [Tape.step]; rw [if_neg hr, reads_r hk]
      have e : s.ptr - 1 + passed x (tape s).rest = s.ptr + passed x (tape s).rest - 1 := by omega
      simp only [tape] at e ⊢; rw [e]

/-! ## Writing -/

theorem growBuf_prefix (fill : α) (l : List α) (n : Nat) : l <+: growBuf fill l n :=
  List.prefix_append _ _

theorem growBuf_length (fill : α) (l : List α) (n : Nat) :
    (growBuf fill l n).length = max l.length n := by
  simp only [growBuf, List.length_append, List.length_replicate]; omega

/-- `b` extends `l` with fill. -/
def Ext (fill : α) (l b : List α) : Prop := ∃ k, b = l ++ List.replicate k fill

theorem Ext.refl (fill : α) (l : List α) : Ext fill l l := ⟨0, by simp⟩

theorem growBuf_ext (fill : α) (l : List α) (n : Nat) : Ext fill l (growBuf fill l n) := ⟨_, rfl⟩

theorem Ext.spare {P : α → Prop} {fill : α} {l b : List α} (he : Ext fill l b) (hf : P fill)
    {n : Nat} (h : ∀ y ∈ l.drop n, P y) : ∀ y ∈ b.drop n, P y := by
  obtain ⟨k, rfl⟩ := he
  intro y hy
  rw [List.drop_append, List.mem_append] at hy
  rcases hy with hy | hy
  · exact h y hy
  · rw [List.drop_replicate] at hy
    rw [List.eq_of_mem_replicate hy]; exact hf

theorem Ext.take {fill : α} {l b : List α} (he : Ext fill l b) {n : Nat} (h : n ≤ l.length) :
    b.take n = l.take n := by
  obtain ⟨k, rfl⟩ := he
  exact List.take_append_of_le_length h

theorem Ext.length_le {fill : α} {l b : List α} (he : Ext fill l b) : l.length ≤ b.length := by
  obtain ⟨k, rfl⟩ := he
  simp

/-- Overwriting a piece of the buffer, seen from the data. -/
theorem overwrite (b l : List α) (p e : Nat) (hp : p ≤ e) (hb : p + l.length ≤ b.length) :
    (b.take p ++ l ++ b.drop (p + l.length)).take (max e (p + l.length)) =
      (b.take e).take p ++ l ++ (b.take e).drop (p + l.length) := by
  have h1 : (b.take p ++ l).length = p + l.length := by
    rw [List.length_append, List.length_take]; omega
  rw [List.take_append, h1, List.take_of_length_le (by rw [h1]; omega), List.take_take,
    List.drop_take]
  congr 1
  · rw [Nat.min_eq_left hp]
  · congr 1; omega

theorem overwrite_drop (b l : List α) (p e : Nat) (hb : p + l.length ≤ b.length) :
    (b.take p ++ l ++ b.drop (p + l.length)).drop (max e (p + l.length)) =
      b.drop (max e (p + l.length)) := by
  have h1 : (b.take p ++ l).length = p + l.length := by
    rw [List.length_append, List.length_take]; omega
  rw [List.drop_append, h1, List.drop_of_length_le (by rw [h1]; omega), List.nil_append,
    List.drop_drop]
  congr 1; omega

/-- The state after overwriting `l` in a buffer `b` that extends the stream's. -/
theorem write_good {P : α → Prop} {s : St α} (h : Inv s) (hs : Spare P s) (fill : α)
    (hf : P fill) {b l : List α} (he : Ext fill s.buf b) (hb : s.ptr - 1 + l.length ≤ b.length) :
    let s' : St α := ⟨s.kind, b.take (s.ptr - 1) ++ l ++ b.drop (s.ptr - 1 + l.length),
      s.ptr + l.length, max s.endPtr (s.ptr - 1 + l.length)⟩
    (tape s).write l = tape s' ∧ Inv s' ∧ Spare P s' := by
  have h1 := h.lo; have h2 := h.hi; have h3 := h.fits
  have h4 := he.length_le
  refine ⟨?_, ⟨?_, ?_, ?_⟩, ?_⟩
  · simp only [Tape.write, tape, Tape.mk.injEq, true_and]
    refine ⟨?_, by omega⟩
    rw [overwrite b l (s.ptr - 1) s.endPtr (by omega) hb, he.take h3]
  · simp only; omega
  · simp only; omega
  · simp only [List.length_append, List.length_take, List.length_drop]; omega
  · simp only [Spare]
    rw [overwrite_drop b l (s.ptr - 1) s.endPtr hb]
    intro y hy
    refine he.spare hf hs y ?_
    have : b.drop (max s.endPtr (s.ptr - 1 + l.length)) =
        (b.drop s.endPtr).drop (max s.endPtr (s.ptr - 1 + l.length) - s.endPtr) := by
      rw [List.drop_drop]; congr 1; omega
    rw [this] at hy
    exact List.mem_of_mem_drop hy

theorem extend_facts (fill : α) {s : St α} (h : Inv s) :
    Ext fill s.buf (extend fill s).buf ∧ (extend fill s).endPtr = max s.endPtr s.ptr ∧
      (extend fill s).kind = s.kind ∧ (extend fill s).ptr = s.ptr ∧
      s.ptr ≤ (extend fill s).buf.length := by
  have h1 := h.lo; have h2 := h.hi; have h3 := h.fits
  rw [extend]
  by_cases hlt : s.endPtr < s.ptr
  · rw [if_pos hlt]
    by_cases hb : s.buf.length < s.ptr
    · rw [if_pos hb]
      refine ⟨growBuf_ext _ _ _, by simp only; omega, rfl, rfl, ?_⟩
      simp only [grow, growBuf_length]; omega
    · rw [if_neg hb]
      exact ⟨.refl _ _, by simp only; omega, rfl, rfl, by simp only; omega⟩
  · rw [if_neg hlt]
    exact ⟨.refl _ _, by omega, rfl, rfl, by omega⟩

theorem good_nextPut {P : α → Prop} {s : St α} (h : Inv s) (hs : Spare P s) (fill : α)
    (hf : s.kind = .read ∨ P fill) (x : α) : Good P s (.nextPut x) (step fill s (.nextPut x)) := by
  have h1 := h.lo
  by_cases hk : s.kind = .read
  · have e : nextPut fill s x = none := by
      rw [nextPut, if_neg]; rw [canWrite_eq]; simp [hk]
    simp only [step, e, ans]
    refine ⟨?_, h, hs, rfl⟩
    simp only [Tape.step]; rw [writes_r hk]
  · have hf' : P fill := hf.resolve_left hk
    obtain ⟨e1, e2, e3, e4, e5⟩ := extend_facts fill h
    have hlen : s.ptr - 1 + [x].length ≤ (extend fill s).buf.length := by
      simp only [List.length_singleton]; omega
    obtain ⟨w1, w2, w3⟩ := write_good h hs fill hf' e1 hlen
    have hset : (extend fill s).buf.set (s.ptr - 1) x =
        (extend fill s).buf.take (s.ptr - 1) ++ [x] ++
          (extend fill s).buf.drop (s.ptr - 1 + [x].length) := by
      rw [List.set_eq_take_append_cons_drop, if_pos (by omega)]; simp
    have hp : s.ptr - 1 + 1 = s.ptr := by omega
    have e : nextPut fill s x = some ⟨s.kind, (extend fill s).buf.take (s.ptr - 1) ++ [x] ++
          (extend fill s).buf.drop (s.ptr - 1 + [x].length), s.ptr + [x].length,
          max s.endPtr (s.ptr - 1 + [x].length)⟩ := by
      rw [nextPut, if_pos ((canWrite_eq s).2 hk), if_neg (by omega), hset]
      simp only [e2, e3, List.length_singleton, hp]
    simp only [step, e, ans]
    refine ⟨?_, w2, w3, rfl⟩
    simp only [Tape.step]; rw [writes_w hk]
    rw [w1]

theorem room_facts (fill : α) {s : St α} (h : Inv s) (n : Nat) :
    Ext fill s.buf (room fill s n).buf ∧ s.ptr - 1 + n ≤ (room fill s n).buf.length := by
  have h1 := h.lo; have h2 := h.hi; have h3 := h.fits
  rw [room]
  by_cases hlt : s.buf.length < s.ptr + n
  · rw [if_pos hlt, growTo]
    by_cases ha : s.ptr + n - 1 ≤ s.buf.length
    · rw [if_pos ha]; exact ⟨.refl _ _, by omega⟩
    · rw [if_neg ha]
      by_cases hb : s.ptr + n - 1 < s.buf.length * 2
      · rw [if_pos hb]
        refine ⟨growBuf_ext _ _ _, ?_⟩
        simp only [grow, growBuf_length]; omega
      · rw [if_neg hb]
        refine ⟨growBuf_ext _ _ _, ?_⟩
        simp only [growBuf_length]; omega
  · rw [if_neg hlt]; exact ⟨.refl _ _, by omega⟩

theorem putAll_ok (fill : α) {s : St α} (h : Inv s) (hk : s.kind ≠ .read) {n k : Nat}
    {src : List α} (hk1 : 1 ≤ k) (hn : k - 1 + n ≤ src.length) :
    putAll fill s n src k = some ⟨s.kind, (room fill s n).buf.take (s.ptr - 1) ++
      (src.drop (k - 1)).take n ++ (room fill s n).buf.drop (s.ptr - 1 + n), s.ptr + n,
      max s.endPtr (s.ptr - 1 + n)⟩ := by
  have h1 := h.lo; have h2 := h.hi
  obtain ⟨e1, e2⟩ := room_facts fill h n
  rw [putAll, if_pos ((canWrite_eq s).2 hk), replace1]
  have hmax : (if s.endPtr < s.ptr + n then s.ptr + n - 1 else s.endPtr) =
      max s.endPtr (s.ptr - 1 + n) := by
    by_cases hc : s.endPtr < s.ptr + n
    · rw [if_pos hc]; omega
    · rw [if_neg hc]; omega
  by_cases h0 : n = 0
  · subst h0
    simp only [Nat.add_zero] at hmax
    rw [if_pos rfl]
    simp only [Option.map_some, Nat.add_zero, hmax, List.take_zero, List.append_nil, Nat.add_zero,
      List.take_append_drop]
  · have hc : ¬ (s.ptr = 0 ∨ k = 0 ∨ (room fill s n).buf.length < s.ptr + n - 1 ∨
        src.length < k + n - 1) := by omega
    rw [if_neg h0, if_neg hc]
    simp only [Option.map_some, hmax]

theorem good_nextPutAll {P : α → Prop} {s : St α} (h : Inv s) (hs : Spare P s) (fill : α)
    (hf : s.kind = .read ∨ P fill) (l : List α) :
    Good P s (.nextPutAll l) (step fill s (.nextPutAll l)) := by
  by_cases hk : s.kind = .read
  · have e : nextPutAll fill s l = none := by
      rw [nextPutAll, putAll, if_neg]; rw [canWrite_eq]; simp [hk]
    simp only [step, e, ans]
    refine ⟨?_, h, hs, rfl⟩
    simp only [Tape.step]; rw [writes_r hk]
  · obtain ⟨e1, e2⟩ := room_facts fill h l.length
    obtain ⟨w1, w2, w3⟩ := write_good h hs fill (hf.resolve_left hk) e1 e2
    have e := putAll_ok fill h hk (n := l.length) (k := 1) (src := l) (by omega) (by omega)
    simp only [Nat.sub_self, List.drop_zero, List.take_length] at e
    simp only [step, nextPutAll, e, ans]
    refine ⟨?_, w2, w3, rfl⟩
    simp only [Tape.step]; rw [writes_w hk]
    rw [w1]

theorem good_truncate {P : α → Prop} {s : St α} (h : Inv s) (hs : Spare P s) (fill : α)
    (hp : s.kind = .read ∨ ∀ y, P y) : Good P s .truncate (step fill s .truncate) := by
  have h1 := h.lo; have h2 := h.hi; have h3 := h.fits
  by_cases hk : s.kind = .read
  · have e : truncate s = none := by rw [truncate, if_neg]; rw [canWrite_eq]; simp [hk]
    simp only [step, e, ans]
    refine ⟨?_, h, hs, rfl⟩
    simp only [Tape.step]; rw [writes_r hk]
  · have e : truncate s = some { s with endPtr := s.ptr - 1 } := by
      rw [truncate, if_pos ((canWrite_eq s).2 hk)]
    simp only [step, e, ans]
    refine ⟨?_, ⟨h1, by simp only; omega, by simp only; omega⟩,
      fun y _ => hp.resolve_left hk y, rfl⟩
    simp only [Tape.step]; rw [writes_w hk]
    simp only [tape, List.take_take]
    rw [Nat.min_eq_left (by omega)]

theorem good_emptyStream {P : α → Prop} {s : St α} (h : Inv s) (hs : Spare P s) (fill : α)
    (hp : s.kind = .read ∨ ∀ y, P y) : Good P s .emptyStream (step fill s .emptyStream) := by
  by_cases hk : s.kind = .read
  · have e : emptyStream s = none := by rw [emptyStream, if_neg]; rw [canWrite_eq]; simp [hk]
    simp only [step, e, ans]
    refine ⟨?_, h, hs, rfl⟩
    simp only [Tape.step]; rw [writes_r hk]
  · have e : emptyStream s = some { s with ptr := 1, endPtr := 0 } := by
      rw [emptyStream, if_pos ((canWrite_eq s).2 hk)]
    simp only [step, e, ans]
    refine ⟨?_, ⟨by simp only; omega, by simp only; omega, by simp only; omega⟩,
      fun y _ => hp.resolve_left hk y, rfl⟩
    simp only [Tape.step]; rw [writes_w hk]
    simp only [tape, List.take_zero, Nat.sub_self]

theorem contents_ok {s : St α} (h : Inv s) :
    contents s = some (if s.kind = .write then (tape s).data.take (tape s).pos
      else (tape s).data) := by
  have h1 := h.lo; have h2 := h.hi; have h3 := h.fits
  cases hk : s.kind <;> simp only [contents, hk, reduceCtorEq, if_false, if_true]
  · rw [copy1_take h3]; rfl
  · rw [copy1_take (by omega)]
    simp only [tape, List.take_take]
    rw [Nat.min_eq_left (by omega)]
  · rw [copy1_take h3]; rfl

theorem good_contents {P : α → Prop} {s : St α} (h : Inv s) (hs : Spare P s) (fill : α) :
    Good P s .contents (step fill s .contents) := by
  simp only [step, contents_ok h, ans]
  exact ⟨rfl, h, hs, rfl⟩

/-- The messages for which the spare places matter: `upTo:` must not look for something that may
be there, unless nothing else can be; `truncate` and `emptyStream` put anything there. -/
def Allowed (k : Kind) (P : α → Prop) : Op α → Prop
  | .upTo x => k ≠ .write ∧ (¬ P x ∨ ∀ y, P y → y = x)
  | .truncate => k = .read ∨ ∀ y, P y
  | .emptyStream => k = .read ∨ ∀ y, P y
  | _ => True

theorem step_good {P : α → Prop} {s : St α} (h : Inv s) (hs : Spare P s) (fill : α)
    (hf : s.kind = .read ∨ P fill) (o : Op α) (ho : Allowed s.kind P o) :
    Good P s o (step fill s o) := by
  have h1 := h.lo
  cases o with
  | next => exact good_next h hs fill
  | peek => exact good_peek h hs fill
  | peekFor x => exact good_peekFor h hs fill x
  | atEnd =>
    refine ⟨?_, h, hs, rfl⟩
    simp only [Tape.step, step, rest_nil h, atEnd]
  | nextN n => exact good_nextN h hs fill n
  | nextAvail n => exact good_nextAvail h hs fill n
  | upToEnd => exact good_upToEnd h hs fill
  | upTo x => exact good_upTo h hs fill x ho.1 ho.2
  | skipTo x => exact good_skipTo h hs fill x
  | position => exact ⟨rfl, h, hs, rfl⟩
  | setPosition n => exact good_setPosition h hs fill n
  | skip n => exact good_skip h hs fill n
  | reset => exact good_reset h hs fill
  | setToEnd => exact good_setToEnd h hs fill
  | size =>
    refine ⟨?_, h, hs, rfl⟩
    simp only [Tape.step, step, data_length h]
  | isEmpty =>
    refine ⟨?_, h, hs, rfl⟩
    have : (tape s).data = [] ↔ s.endPtr = 0 := by
      rw [← List.length_eq_zero_iff, data_length h]
    simp only [Tape.step, step, this]
  | contents => exact good_contents h hs fill
  | nextPut x => exact good_nextPut h hs fill hf x
  | nextPutAll l => exact good_nextPutAll h hs fill hf l
  | truncate => exact good_truncate h hs fill ho
  | emptyStream => exact good_emptyStream h hs fill ho

theorem run_good {P : α → Prop} (fill : α) (ops : List (Op α)) :
    ∀ (s : St α), Inv s → Spare P s → (s.kind = .read ∨ P fill) →
      (∀ o ∈ ops, Allowed s.kind P o) → run fill ops s = Tape.run ops (tape s) := by
  induction ops with
  | nil => intro s _ _ _ _; rfl
  | cons o os ih =>
    intro s h hs hf ho
    obtain ⟨g1, g2, g3, g4⟩ := step_good h hs fill hf o (ho o (by simp))
    rw [run, Tape.run, g1]
    rw [ih _ g2 g3 (by rw [g4]; exact hf) (fun o' ho' => by rw [g4]; exact ho o' (by simp [ho']))]

end Verif.Stream
