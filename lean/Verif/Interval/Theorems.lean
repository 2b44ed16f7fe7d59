import Verif.Interval.Model
import Mathlib.Tactic.Linarith
import Mathlib.Tactic.FieldSimp
import Mathlib.Tactic.Ring
import Mathlib.Tactic.IntervalCases
import Mathlib.Data.List.GetD

/-
Intervals against the lists of numbers they stand for.
-/

namespace Verif.Interval

/-! ### Specification -/

/-- `x` has not passed the end. -/
def Within (I : Ivl) (x : Rat) : Prop := if 0 < I.step then x ≤ I.stop else I.stop ≤ x

/-- `l` lists the Interval: `start`, `start + step`, … as long as the end is not passed. -/
structure Lists (I : Ivl) (l : List Rat) : Prop where
  elem : ∀ (k : Nat) (h : k < l.length), l[k] = I.start + I.step * k
  ends : ∀ k : Nat, k < l.length ↔ Within I (I.start + I.step * k)

/-- There is at most one such list. -/
theorem Lists.unique {I : Ivl} {l m : List Rat} (hl : Lists I l) (hm : Lists I m) : l = m := by
  have hlen : l.length = m.length := by
    rcases Nat.lt_trichotomy l.length m.length with h | h | h
    · exact absurd ((hl.ends _).2 ((hm.ends _).1 h)) (lt_irrefl _)
    · exact h
    · exact absurd ((hm.ends _).2 ((hl.ends _).1 h)) (lt_irrefl _)
  apply List.ext_getElem hlen
  intro k h1 h2
  rw [hl.elem k h1, hm.elem k h2]

/-- The list for a given number of elements. -/
def prog (I : Ivl) (n : Nat) : List Rat := (List.range n).map (fun k : Nat => I.start + I.step * k)

theorem prog_lists (I : Ivl) (n : Nat) (h : ∀ k : Nat, k < n ↔ Within I (I.start + I.step * k)) :
    Lists I (prog I n) := by
  constructor
  · intro k hk; simp [prog]
  · intro k; simp only [prog, List.length_map, List.length_range]; exact h k

/-! ### The number of elements -/

theorem count_spec (I : Ivl) (h : I.step ≠ 0) :
    ∃ n : Nat, size I = .ok n ∧ ∀ k : Nat, k < n ↔ Within I (I.start + I.step * k) := by
  rcases lt_or_gt_of_ne h with hs | hs
  · have hs' : ¬ I.step > 0 := not_lt.2 hs.le
    by_cases hc : I.start ≥ I.stop
    · have h0 : 0 ≤ (I.stop - I.start) / I.step := div_nonneg_of_nonpos (by linarith) hs.le
      refine ⟨(⌊(I.stop - I.start) / I.step⌋ + 1).toNat, ?_, ?_⟩
      · simp only [size, count, if_neg hs', if_pos hc, floorDiv, if_neg h, Except.map]
        have := Int.floor_nonneg.2 h0
        congr 1; omega
      · intro k
        have e : k < (⌊(I.stop - I.start) / I.step⌋ + 1).toNat ↔ ((k : Int) ≤ ⌊(I.stop - I.start) / I.step⌋) := by
          have := Int.floor_nonneg.2 h0
          omega
        rw [e, Int.le_floor, Within, if_neg hs', le_div_iff_of_neg hs]
        push_cast
        constructor <;> intro h' <;> linarith
    · refine ⟨0, by simp only [size, count, if_neg hs', if_neg hc]; rfl, ?_⟩
      intro k
      rw [Within, if_neg hs']
      refine ⟨fun h' => absurd h' (Nat.not_lt_zero _), fun h' => absurd h' ?_⟩
      have : I.step * k ≤ 0 := mul_nonpos_of_nonpos_of_nonneg hs.le (by positivity)
      linarith
  · by_cases hc : I.stop ≥ I.start
    · have h0 : 0 ≤ (I.stop - I.start) / I.step := div_nonneg (by linarith) hs.le
      refine ⟨(⌊(I.stop - I.start) / I.step⌋ + 1).toNat, ?_, ?_⟩
      · simp only [size, count, if_pos hs, if_pos hc, floorDiv, if_neg h, Except.map]
        have := Int.floor_nonneg.2 h0
        congr 1; omega
      · intro k
        have e : k < (⌊(I.stop - I.start) / I.step⌋ + 1).toNat ↔ ((k : Int) ≤ ⌊(I.stop - I.start) / I.step⌋) := by
          have := Int.floor_nonneg.2 h0
          omega
        rw [e, Int.le_floor, Within, if_pos hs, le_div_iff₀ hs]
        push_cast
        constructor <;> intro h' <;> linarith
    · refine ⟨0, by simp only [size, count, if_pos hs, if_neg hc]; rfl, ?_⟩
      intro k
      rw [Within, if_pos hs]
      refine ⟨fun h' => absurd h' (Nat.not_lt_zero _), fun h' => absurd h' ?_⟩
      have : 0 ≤ I.step * k := mul_nonneg hs.le (by positivity)
      linarith

/-- Every Interval with a step other than zero has a list. -/
theorem lists_exists (I : Ivl) (h : I.step ≠ 0) : ∃ l, Lists I l := by
  obtain ⟨n, -, hn⟩ := count_spec I h
  exact ⟨_, prog_lists I n hn⟩

theorem Lists.eq_prog {I : Ivl} {l : List Rat} (hl : Lists I l) : l = prog I l.length := by
  apply List.ext_getElem (by simp [prog])
  intro k h1 h2
  rw [hl.elem k h1]; simp [prog]

/-- `size` answers the number of elements. -/
theorem size_correct (I : Ivl) (h : I.step ≠ 0) (l : List Rat) (hl : Lists I l) : size I = .ok l.length := by
  obtain ⟨n, hs, hn⟩ := count_spec I h
  rw [hs, hl.unique (prog_lists I n hn)]
  simp [prog]

theorem demo : Lists ⟨1, 6, 2⟩ [1, 3, 5] := by
  constructor
  · intro k hk
    simp only [List.length_cons, List.length_nil] at hk
    interval_cases k <;> norm_num
  · intro k
    simp only [List.length_cons, List.length_nil, Within, if_pos (show (0 : Rat) < 2 by norm_num)]
    constructor
    · intro hk
      have : (k : Rat) ≤ 2 := by exact_mod_cast (by omega : k ≤ 2)
      linarith
    · intro hk
      by_contra hc
      have : (3 : Rat) ≤ k := by exact_mod_cast (by omega : 3 ≤ k)
      linarith

example : size ⟨1, 6, 2⟩ = .ok 3 := size_correct _ (by norm_num) _ demo

/-! ### Iteration -/

theorem loop_prog (up : Bool) (stop step : Rat) : ∀ (n : Nat) (i : Rat),
    (∀ k : Nat, k < n ↔ (if up then i + step * k ≤ stop else i + step * k ≥ stop)) →
    ∀ f, n < f → loop up stop step f i = some ((List.range n).map (fun k : Nat => i + step * k)) := by
  intro n
  induction n with
  | zero =>
    intro i h f hf
    cases f with
    | zero => omega
    | succ f =>
      have h0 := h 0
      simp only [Nat.cast_zero, mul_zero, add_zero, lt_irrefl, false_iff] at h0
      simp only [loop, if_neg h0, List.range_zero, List.map_nil]
  | succ n ih =>
    intro i h f hf
    cases f with
    | zero => omega
    | succ f =>
      have h0 := (h 0).1 (Nat.succ_pos _)
      simp only [Nat.cast_zero, mul_zero, add_zero] at h0
      have hn := ih (i + step) (by
        intro k
        have := h (k + 1)
        rw [Nat.add_lt_add_iff_right] at this
        rw [this]
        have e : i + step * ((k + 1 : Nat) : Rat) = i + step + step * k := by push_cast; ring
        rw [e]) f (by omega)
      simp only [loop, if_pos h0, hn]
      rw [List.range_succ_eq_map, List.map_cons, List.map_map]
      congr 1
      congr 1
      · simp
      · apply List.map_congr_left
        intro k _
        simp only [Function.comp]
        push_cast; ring

theorem Within.iff_loop (I : Ivl) (x : Rat) :
    Within I x ↔ (if (decide (I.step > 0)) = true then x ≤ I.stop else x ≥ I.stop) := by
  simp only [Within, decide_eq_true_eq, gt_iff_lt, ge_iff_le]

/-- `do:` gives the block every element, in order, and comes to an end. -/
theorem do_correct (I : Ivl) (l : List Rat) (hl : Lists I l) (f : Nat) (hf : l.length < f) :
    doo I f = some l := by
  rw [doo, loop_prog _ _ _ l.length I.start (fun k => (hl.ends k).trans (Within.iff_loop I _)) f hf]
  exact congrArg some hl.eq_prog.symm

/-- So does `to:by:do:`. -/
theorem toByDo_correct (self stop step : Rat) (l : List Rat) (hl : Lists ⟨self, stop, step⟩ l) (f : Nat)
    (hf : l.length < f) : toByDo f self stop step = some l := do_correct ⟨self, stop, step⟩ l hl f hf

/-- And `to:do:`, with a step of one. -/
theorem toDo_correct (self stop : Rat) (l : List Rat) (hl : Lists ⟨self, stop, 1⟩ l) (f : Nat)
    (hf : l.length < f) : toDo f self stop = some l := by
  have := do_correct ⟨self, stop, 1⟩ l hl f hf
  have e : decide ((1 : Rat) > 0) = true := by simp
  simpa only [doo, e, toDo] using this

example : doo ⟨1, 6, 2⟩ 4 = some [1, 3, 5] := do_correct _ _ demo 4 (by simp)
example : toByDo 4 1 6 2 = some [1, 3, 5] := toByDo_correct _ _ _ _ demo 4 (by simp)

/-- With a step of zero the loop goes on for ever when the start is not before the
stop. -/
theorem do_zero_step_endless (a b : Rat) (h : b ≤ a) (f : Nat) : doo ⟨a, b, 0⟩ f = none := by
  simp only [doo]
  induction f with
  | zero => rfl
  | succ f ih =>
    have e : decide ((0 : Rat) > 0) = false := by simp
    simp only [e] at ih ⊢
    rw [loop, add_zero, ih]
    simp [h]

example : doo ⟨3, 3, 0⟩ 1000000 = none := do_zero_step_endless 3 3 (le_refl _) _

/-! ### Indexing -/

/-- `at:` answers the element of that index, and an error for any other index. -/
theorem at_correct (I : Ivl) (h : I.step ≠ 0) (l : List Rat) (hl : Lists I l) (i : Int) :
    at_ I i = if 1 ≤ i ∧ i ≤ l.length then .ok (l.getD (i - 1).toNat 0) else .error .index := by
  rw [at_, size_correct I h l hl]
  simp only
  by_cases hi : i ≥ 1 ∧ i ≤ (l.length : Int)
  · rw [if_pos hi, if_pos hi]
    have hk : (i - 1).toNat < l.length := by omega
    rw [List.getD_eq_getElem _ _ hk, hl.elem _ hk]
    have : (((i - 1).toNat : Nat) : Rat) = (i : Rat) - 1 := by
      have : (((i - 1).toNat : Nat) : Int) = i - 1 := by omega
      exact_mod_cast congrArg (Int.cast (R := Rat)) this
    rw [this]
  · rw [if_neg hi, if_neg hi]

theorem at_ok (I : Ivl) (h : I.step ≠ 0) (l : List Rat) (hl : Lists I l) (k : Nat) (hk : k < l.length) :
    at_ I (k + 1) = .ok l[k] := by
  rw [at_correct I h l hl, if_pos ⟨by omega, by omega⟩]
  congr 1
  have : ((k : Int) + 1 - 1).toNat = k := by omega
  rw [this, List.getD_eq_getElem _ _ hk]

example : at_ ⟨1, 6, 2⟩ 3 = .ok 5 := at_ok ⟨1, 6, 2⟩ (by norm_num) _ demo 2 (by simp)

/-! ### Collecting -/

theorem fill_spec {β : Type} (g : Rat → β) (l : List Rat) : ∀ (done : List β) (i : Nat), i = done.length + 1 →
    fill g l i (done.map some ++ List.replicate l.length none) = .ok ((done ++ l.map g).map some) := by
  induction l with
  | nil => intro done i hi; simp [fill]
  | cons x xs ih =>
    intro done i hi
    rw [fill, if_neg (by simp; omega)]
    have e : (done.map some ++ List.replicate (x :: xs).length none).set (i - 1) (some (g x))
        = (done ++ [g x]).map some ++ List.replicate xs.length none := by
      subst hi
      rw [Nat.add_sub_cancel, List.set_append_right _ _ (by simp)]
      simp [List.replicate_succ]
    rw [e, ih (done ++ [g x]) (i + 1) (by simp; omega)]
    simp

theorem fill_all {β : Type} (g : Rat → β) (l : List Rat) :
    fill g l 1 (List.replicate l.length none) = .ok (l.map (some ∘ g)) := by
  have := fill_spec g l [] 1 rfl
  simpa using this

/-- `collect:` answers an Array with the block's answer for each element, in order: no
place is left nil and no index is out of range. -/
theorem collect_correct {β : Type} (g : Rat → β) (I : Ivl) (h : I.step ≠ 0) (l : List Rat) (hl : Lists I l) (f : Nat)
    (hf : l.length < f) : collect g I f = some (.ok (l.map (some ∘ g))) := by
  rw [collect, size_correct I h l hl]
  simp only [do_correct I l hl f hf]
  rw [Int.toNat_natCast, fill_all]

theorem countLoop_eq (step : Rat) : ∀ (n : Nat) (i : Rat),
    countLoop step n i = (List.range n).map (fun k : Nat => i + step * k) := by
  intro n
  induction n with
  | zero => intro i; rfl
  | succ n ih =>
    intro i
    rw [countLoop, ih, List.range_succ_eq_map, List.map_cons, List.map_map]
    congr 1
    · simp
    · apply List.map_congr_left
      intro k _
      simp only [Function.comp]
      push_cast; ring

/-- So does `to:by:collect:`. -/
theorem toByCollect_correct {β : Type} (g : Rat → β) (self stop step : Rat) (h : step ≠ 0) (l : List Rat)
    (hl : Lists ⟨self, stop, step⟩ l) : toByCollect g self stop step = .ok (l.map (some ∘ g)) := by
  have hs := size_correct ⟨self, stop, step⟩ h l hl
  simp only [size] at hs
  rw [toByCollect, hs]
  simp only [Int.toNat_natCast]
  rw [countLoop_eq]
  have e := hl.eq_prog
  simp only [prog] at e
  rw [← e, fill_all]

example : collect (· + 1) ⟨1, 6, 2⟩ 4 = some (.ok [some (1 + 1), some (3 + 1), some (5 + 1)]) :=
  collect_correct (· + 1) ⟨1, 6, 2⟩ (by norm_num) _ demo 4 (by simp)

/-- `to:collect:` does so too when the receiver is at most the argument, or the two
differ by a whole number. -/
theorem toCollect_partial {β : Type} (g : Rat → β) (self stop : Rat) (h : self ≤ stop ∨ ∃ d : Int, stop - self = d)
    (l : List Rat) (hl : Lists ⟨self, stop, 1⟩ l) : toCollect g self stop = .ok (l.map (some ∘ g)) := by
  have hn : (max (truncated (stop - self) + 1) 0).toNat = l.length := by
    have hs := size_correct ⟨self, stop, 1⟩ one_ne_zero l hl
    simp only [size, count, gt_iff_lt, zero_lt_one, if_true, floorDiv, one_ne_zero, if_false, div_one, Except.map] at hs
    by_cases hc : stop ≥ self
    · rw [if_pos hc] at hs
      simp only [Except.ok.injEq] at hs
      rw [truncated, if_pos (by linarith)]
      omega
    · rw [if_neg hc] at hs
      simp only [Except.ok.injEq] at hs
      rcases h with h | ⟨d, hd⟩
      · exact absurd h hc
      · have hlt : (d : Rat) < 0 := by rw [← hd]; linarith [not_le.1 hc]
        have hlt' : d < 0 := by exact_mod_cast hlt
        rw [truncated, if_neg (by linarith [not_le.1 hc]), hd, Int.ceil_intCast]
        omega
  rw [toCollect]
  simp only [hn]
  rw [countLoop_eq]
  have e := hl.eq_prog
  simp only [prog] at e
  rw [← e, fill_all]

/-- `to:collect:` evaluates the block once for a start less than one after the
stop, where `to:do:` does not: `1 to: 1/2 collect: [...]`. -/
theorem toCollect_not_correct : Lists ⟨1, 1 / 2, 1⟩ [] ∧ toCollect (fun x => x) 1 (1 / 2) = .ok [some 1] := by
  constructor
  · constructor
    · intro k hk; exact absurd hk (Nat.not_lt_zero _)
    · intro k
      simp only [List.length_nil, Within, if_pos (zero_lt_one (α := Rat))]
      refine ⟨fun h => absurd h (Nat.not_lt_zero _), fun h => ?_⟩
      have : (0 : Rat) ≤ k := by positivity
      linarith
  · have e : ⌈(1 / 2 - 1 : Rat)⌉ = 0 := by rw [Int.ceil_eq_iff]; norm_num
    have e' : ¬ (0 : Rat) ≤ 1 / 2 - 1 := by norm_num
    simp only [toCollect, truncated, if_neg e', e]
    rfl

/-! ### Emptiness, first and last -/

theorem lists_nil_iff (I : Ivl) (l : List Rat) (hl : Lists I l) : l = [] ↔ ¬ Within I I.start := by
  have := hl.ends 0
  simp only [Nat.cast_zero, mul_zero, add_zero] at this
  rw [← this, List.length_pos_iff]
  simp

/-- `isEmpty` is right when the step is positive or the start is not the stop. -/
theorem isEmpty_partial (I : Ivl) (h : 0 < I.step ∨ I.start ≠ I.stop) (l : List Rat)
    (hl : Lists I l) : isEmpty I = true ↔ l = [] := by
  rw [lists_nil_iff I l hl, Within, isEmpty]
  by_cases hs : I.step > 0
  · simp [hs]
  · have hne : I.start ≠ I.stop := by
      rcases h with h | h
      · exact absurd h hs
      · exact h
    rw [if_neg hs]
    by_cases hc : I.stop < I.start
    · simp [hs, hc, le_of_lt hc]
    · have : I.start < I.stop := lt_of_le_of_ne (not_lt.1 hc) hne
      simp [hs, hc, not_le.2 this]

/-- A one-element Interval with a negative step says it is empty: `(1 to: 1 by: -1) isEmpty`. -/
theorem isEmpty_not_correct (a s : Rat) (h : s < 0) : isEmpty ⟨a, a, s⟩ = true ∧ size ⟨a, a, s⟩ = .ok 1 ∧
    Lists ⟨a, a, s⟩ [a] := by
  have hs : ¬ s > 0 := not_lt.2 h.le
  refine ⟨by simp [isEmpty, hs], ?_, ?_⟩
  · simp only [size, count, if_neg hs, ge_iff_le, le_refl, if_true, floorDiv, if_neg h.ne, sub_self, zero_div,
      Int.floor_zero, Except.map, zero_add]
  · constructor
    · intro k hk
      have : k = 0 := by simpa using hk
      subst this; simp
    · intro k
      simp only [List.length_cons, List.length_nil, Within, if_neg hs]
      constructor
      · intro hk
        have : k = 0 := by omega
        subst this; simp
      · intro hk
        by_contra hc
        have h1 : (1 : Rat) ≤ k := by exact_mod_cast (by omega : 1 ≤ k)
        have := mul_le_mul_of_nonpos_left h1 h.le
        linarith

/-- `first` and `last` answer the first and the last element, and an error for an empty
Interval, under the same condition. -/
theorem first_partial (I : Ivl) (h : 0 < I.step ∨ I.start ≠ I.stop) (l : List Rat)
    (hl : Lists I l) : first I = match l.head? with | some x => .ok x | none => .error .index := by
  have he := isEmpty_partial I h l hl
  cases hl' : l with
  | nil => rw [first, if_pos (he.2 hl')]; rfl
  | cons x xs =>
    rw [first, if_neg (by rw [he, hl']; simp)]
    simp only [List.head?_cons]
    have := hl.elem 0 (by rw [hl']; simp)
    simp only [hl', List.getElem_cons_zero, Nat.cast_zero, mul_zero, add_zero] at this
    rw [this]

theorem last_partial (I : Ivl) (hne : I.step ≠ 0) (h : 0 < I.step ∨ I.start ≠ I.stop) (l : List Rat)
    (hl : Lists I l) : last I = match l.getLast? with | some x => .ok x | none => .error .index := by
  have he := isEmpty_partial I h l hl
  by_cases hn : l = []
  · rw [last, if_pos (he.2 hn), hn]; rfl
  · rw [last, if_neg (by rw [he]; exact hn)]
    have hs := size_correct I hne l hl
    have hlen : 0 < l.length := List.length_pos_iff.2 hn
    have hfl : ⌊(I.stop - I.start) / I.step⌋ + 1 = l.length := by
      simp only [size, count, floorDiv, if_neg hne, Except.map] at hs
      split at hs <;> split at hs <;> simp only [Except.ok.injEq] at hs <;> omega
    rw [List.getLast?_eq_getElem?, List.getElem?_eq_getElem (by omega)]
    simp only [floorMod, if_neg hne, Except.map]
    rw [hl.elem _ (by omega)]
    congr 1
    have : ((l.length - 1 : Nat) : Rat) = ((⌊(I.stop - I.start) / I.step⌋ : Int) : Rat) := by
      have : ((l.length - 1 : Nat) : Int) = ⌊(I.stop - I.start) / I.step⌋ := by omega
      exact_mod_cast congrArg (Int.cast (R := Rat)) this
    rw [this]
    ring

example : last ⟨1, 6, 2⟩ = .ok 5 ∧ first ⟨1, 6, 2⟩ = .ok 1 :=
  ⟨last_partial ⟨1, 6, 2⟩ (by norm_num) (.inl (by norm_num)) _ demo, first_partial ⟨1, 6, 2⟩ (.inl (by norm_num)) _ demo⟩

/-! ### Reversal and copies -/

theorem lists_of_endpoints (a s : Rat) (hs : s ≠ 0) (n : Nat) :
    Lists ⟨a, a + s * n, s⟩ ((List.range (n + 1)).map (fun k : Nat => a + s * k)) := by
  constructor
  · intro k hk; simp
  · intro k
    simp only [List.length_map, List.length_range, Within]
    rcases lt_or_gt_of_ne hs with h | h
    · rw [if_neg (not_lt.2 h.le)]
      constructor
      · intro hk
        have : (k : Rat) ≤ n := by exact_mod_cast (by omega : k ≤ n)
        have := mul_le_mul_of_nonpos_left this h.le
        linarith
      · intro hk
        have : s * n ≤ s * k := by linarith
        have := (mul_le_mul_left_of_neg h).1 this
        have : k ≤ n := by exact_mod_cast this
        omega
    · rw [if_pos h]
      constructor
      · intro hk
        have : (k : Rat) ≤ n := by exact_mod_cast (by omega : k ≤ n)
        have := mul_le_mul_of_nonneg_left this h.le
        linarith
      · intro hk
        have : s * k ≤ s * n := by linarith
        have := (mul_le_mul_iff_right₀ h).1 this
        have : k ≤ n := by exact_mod_cast this
        omega

/-- `reverse` of an Interval with elements lists them backwards. -/
theorem reverse_partial (I : Ivl) (h : I.step ≠ 0) (l : List Rat) (hl : Lists I l) (hn : l ≠ []) :
    ∃ J, reverse I = .ok J ∧ Lists J l.reverse := by
  obtain ⟨n, hlen⟩ : ∃ n, l.length = n + 1 := ⟨l.length - 1, by have := List.length_pos_iff.2 hn; omega⟩
  have h1 : at_ I l.length = .ok l[n] := by
    have := at_ok I h l hl n (by omega)
    rw [← this]; congr 1; omega
  have h2 : at_ I 1 = .ok l[0] := by
    have := at_ok I h l hl 0 (by omega)
    simpa using this
  have e : reverse I = .ok ⟨l[n], l[0], -I.step⟩ := by
    rw [reverse, size_correct I h l hl]
    simp only [h1, h2]
  refine ⟨_, e, ?_⟩
  have h3 := hl.elem n (by omega)
  have h4 := hl.elem 0 (by omega)
  have hL := lists_of_endpoints l[n] (-I.step) (neg_ne_zero.2 h) n
  have e1 : l[n] + -I.step * n = l[0] := by rw [h3, h4]; push_cast; ring
  rw [e1] at hL
  have e2 : l.reverse = (List.range (n + 1)).map (fun k : Nat => l[n] + -I.step * k) := by
    apply List.ext_getElem (by simp [hlen])
    intro k hk1 hk2
    have hk : k < n + 1 := by simpa using hk2
    simp only [List.getElem_reverse, List.getElem_map, List.getElem_range]
    rw [hl.elem _ (by omega), h3]
    have : ((l.length - 1 - k : Nat) : Rat) = (n : Rat) - k := by
      rw [hlen, show n + 1 - 1 - k = n - k by omega, Nat.cast_sub (by omega)]
    rw [this]; ring
  rw [e2]
  exact hL

/-- `reverse` of an empty Interval is an error. -/
theorem reverse_empty_fails (I : Ivl) (h : I.step ≠ 0) (hl : Lists I []) : reverse I = .error .index := by
  rw [reverse, size_correct I h [] hl]
  simp [at_, size_correct I h [] hl]

example : reverse ⟨1, 6, 2⟩ = .ok ⟨5, 1, -2⟩ := by
  have e : ⌊(5 / 2 : Rat)⌋ = 2 := by rw [Int.floor_eq_iff]; norm_num
  simp only [reverse, size, count, at_, floorDiv]
  norm_num [Except.map, e]

/-- `copyFrom:to:` of a range of indices inside the Interval lists that part of it. -/
theorem copyFromTo_correct (I : Ivl) (h : I.step ≠ 0) (l : List Rat) (hl : Lists I l) (a b : Nat) (ha : 1 ≤ a)
    (hab : a ≤ b) (hb : b ≤ l.length) :
    ∃ J, copyFromTo I a b = .ok J ∧ Lists J ((l.drop (a - 1)).take (b + 1 - a)) := by
  obtain ⟨k, rfl⟩ : ∃ k, a = k + 1 := ⟨a - 1, by omega⟩
  obtain ⟨n, rfl⟩ : ∃ n, b = k + 1 + n := ⟨b - (k + 1), by omega⟩
  have h1 : at_ I ((k + 1 + n : Nat) : Int) = .ok l[k + n] := by
    have := at_ok I h l hl (k + n) (by omega)
    rw [← this]; congr 1; push_cast; ring
  have h2 : at_ I ((k + 1 : Nat) : Int) = .ok l[k] := by
    have := at_ok I h l hl k (by omega)
    rw [← this]; congr 1
  have e : copyFromTo I ((k + 1 : Nat) : Int) ((k + 1 + n : Nat) : Int) = .ok ⟨l[k], l[k + n], I.step⟩ := by
    rw [copyFromTo, if_neg (by push_cast; omega), h1, h2]
  refine ⟨_, e, ?_⟩
  have hL := lists_of_endpoints l[k] I.step h n
  have e1 : l[k] + I.step * n = l[k + n] := by rw [hl.elem k (by omega), hl.elem (k + n) (by omega)]; push_cast; ring
  rw [e1] at hL
  have e2 : (l.drop (k + 1 - 1)).take (k + 1 + n + 1 - (k + 1)) = (List.range (n + 1)).map (fun j : Nat => l[k] + I.step * j) := by
    apply List.ext_getElem (by simp; omega)
    intro j hj1 hj2
    have hj : j < n + 1 := by simpa using hj2
    simp only [List.getElem_take, List.getElem_drop, List.getElem_map, List.getElem_range]
    rw [hl.elem k (by omega), hl.elem _ (by omega)]
    push_cast
    ring
  rw [e2]
  exact hL

example : ∃ J, copyFromTo ⟨1, 6, 2⟩ 2 3 = .ok J ∧ Lists J [3, 5] :=
  copyFromTo_correct ⟨1, 6, 2⟩ (by norm_num) _ demo 2 3 (by norm_num) (by norm_num) (by simp)

/-- A copy of no elements lists nothing. -/
theorem copyFromTo_empty (I : Ivl) (h : I.step ≠ 0) (a : Int) :
    ∃ J, copyFromTo I a (a - 1) = .ok J ∧ Lists J [] := by
  refine ⟨⟨I.start, I.start - I.step, I.step⟩, ?_, ?_⟩
  · rw [copyFromTo, if_pos (by omega), if_pos rfl]
  · constructor
    · intro k hk; exact absurd hk (Nat.not_lt_zero _)
    · intro k
      refine ⟨fun hk => absurd hk (Nat.not_lt_zero _), fun hk => ?_⟩
      simp only [Within] at hk
      have h0 : (0 : Rat) ≤ k := by positivity
      rcases lt_or_gt_of_ne h with hs | hs
      · rw [if_neg (not_lt.2 hs.le)] at hk
        have := mul_nonpos_of_nonpos_of_nonneg hs.le h0
        linarith
      · rw [if_pos hs] at hk
        have := mul_nonneg hs.le h0
        linarith

/-- Indices outside the Interval are refused, unless the copy is empty. -/
theorem copyFromTo_range (I : Ivl) (h : I.step ≠ 0) (l : List Rat) (hl : Lists I l) (a b : Int)
    (hbad : b < a - 1 ∨ (a ≤ b ∧ (a < 1 ∨ (l.length : Int) < b))) :
    ∃ e, copyFromTo I a b = .error e := by
  rcases hbad with hb | ⟨hab, hb⟩
  · exact ⟨.argument, by rw [copyFromTo, if_pos (by omega), if_neg (by omega)]⟩
  · rw [copyFromTo, if_neg (by omega), at_correct I h l hl, at_correct I h l hl]
    by_cases h1 : 1 ≤ b ∧ b ≤ (l.length : Int)
    · rw [if_pos h1]
      have : ¬ (1 ≤ a ∧ a ≤ (l.length : Int)) := by omega
      simp only [if_neg this]
      exact ⟨_, rfl⟩
    · simp only [if_neg h1]
      exact ⟨_, rfl⟩

/-! ### Equality, hash and printing -/

/-- Intervals that answer true to `=` list the same elements, when neither is a
one-element Interval with a negative step. -/
theorem eq_same_elements_partial (I J : Ivl) (hI : I.step ≠ 0) (hJ : J.step ≠ 0) (hI' : 0 < I.step ∨ I.start ≠ I.stop)
    (hJ' : 0 < J.step ∨ J.start ≠ J.stop) (l m : List Rat) (hl : Lists I l) (hm : Lists J m)
    (h : eq I J = .ok true) : l = m := by
  have eI := isEmpty_partial I hI' l hl
  have eJ := isEmpty_partial J hJ' m hm
  rw [eq] at h
  by_cases h1 : isEmpty I = true
  · rw [if_pos h1] at h
    simp only [Except.ok.injEq] at h
    rw [eI.1 h1, eJ.1 h]
  · rw [if_neg h1] at h
    by_cases h2 : isEmpty J = true
    · rw [if_pos h2] at h; simp at h
    · rw [if_neg h2] at h
      have hln : l ≠ [] := fun c => h1 (eI.2 c)
      have hmn : m ≠ [] := fun c => h2 (eJ.2 c)
      have hl0 := List.length_pos_iff.2 hln
      have hm0 := List.length_pos_iff.2 hmn
      have l1 := last_partial I hI hI' l hl
      have l2 := last_partial J hJ hJ' m hm
      rw [List.getLast?_eq_getElem?, List.getElem?_eq_getElem (by omega)] at l1 l2
      simp only at l1 l2
      simp only [first, if_neg h1, if_neg h2, l1, l2] at h
      by_cases h3 : I.start = J.start
      · simp only [h3, ne_eq, not_true_eq_false, if_false, Except.ok.injEq, Bool.and_eq_true, beq_iff_eq] at h
        obtain ⟨h4, h5⟩ := h
        rw [hl.elem _ (by omega), hm.elem _ (by omega), h3, h5] at h4
        have h6 : ((l.length - 1 : Nat) : Rat) = ((m.length - 1 : Nat) : Rat) := by
          have := add_left_cancel h4
          exact mul_left_cancel₀ hJ this
        have h7 : l.length - 1 = m.length - 1 := by exact_mod_cast h6
        apply List.ext_getElem (by omega)
        intro k hk1 hk2
        rw [hl.elem k hk1, hm.elem k hk2, h3, h5]
      · simp [h3] at h

/-- Intervals with the same two or more elements answer true to `=`. -/
theorem eq_of_same_elements_partial (I J : Ivl) (hI : I.step ≠ 0) (hJ : J.step ≠ 0) (l : List Rat) (hl : Lists I l)
    (hm : Lists J l) (h2 : 2 ≤ l.length) : eq I J = .ok true := by
  have hstart : I.start = J.start := by
    have a := hl.elem 0 (by omega)
    have b := hm.elem 0 (by omega)
    rw [a] at b
    simpa using b
  have hstep : I.step = J.step := by
    have a := hl.elem 1 (by omega)
    have b := hm.elem 1 (by omega)
    rw [a, hstart] at b
    simpa using b
  have key : ∀ K : Ivl, K.step ≠ 0 → Lists K l → (0 < K.step ∨ K.start ≠ K.stop) := by
    intro K hK hlK
    by_contra hc
    push Not at hc
    obtain ⟨h3, h4⟩ := hc
    have h5 : K.step < 0 := lt_of_le_of_ne h3 hK
    have := (hlK.ends 1).1 (by omega)
    rw [Within, if_neg (not_lt.2 h3), h4] at this
    norm_num at this
    linarith
  have kI := key I hI hl
  have kJ := key J hJ hm
  have hne : l ≠ [] := fun c => by rw [c] at h2; simp at h2
  have e1 : ¬ isEmpty I = true := fun c => hne ((isEmpty_partial I kI l hl).1 c)
  have e2 : ¬ isEmpty J = true := fun c => hne ((isEmpty_partial J kJ l hm).1 c)
  have l1 := last_partial I hI kI l hl
  have l2 := last_partial J hJ kJ l hm
  rw [List.getLast?_eq_getElem?, List.getElem?_eq_getElem (by omega)] at l1 l2
  simp only at l1 l2
  rw [eq, if_neg e1, if_neg e2]
  simp [first, if_neg e1, if_neg e2, l1, l2, hstart, hstep]

/-- Equal Intervals can have different hash values: `(1 to: 5 by: 2)` and
`(1 to: 6 by: 2)` list the same elements and answer true to `=`. -/
theorem hash_not_compatible : eq ⟨1, 5, 2⟩ ⟨1, 6, 2⟩ = .ok true ∧ hash 1 5 2 ≠ hash 1 6 2 := by
  constructor
  · have e : ⌊(5 / 2 : Rat)⌋ = 2 := by rw [Int.floor_eq_iff]; norm_num
    have e1 : ⌊(4 / 2 : Rat)⌋ = 2 := by rw [Int.floor_eq_iff]; norm_num
    norm_num [eq, isEmpty, first, last, floorMod, Except.map, e, e1]
  · decide

/-- One-element Intervals with the same element and different steps are not equal. -/
theorem eq_not_complete : eq ⟨1, 1, 1⟩ ⟨1, 1, 2⟩ = .ok false := by
  norm_num [eq, isEmpty, first, last, floorMod, Except.map]

/-- An Interval whose stop is its last element prints its first two elements and its
last. -/
theorem printed_partial (I : Ivl) (h : I.step ≠ 0) (l : List Rat) (hl : Lists I l) (h3 : 3 ≤ l.length)
    (hlast : l.getLast? = some I.stop) :
    printed I = .ok ([l[0]?, l[1]?] ++ (if l.length = 3 then [] else [none]) ++ [l.getLast?]) := by
  rw [printed, size_correct I h l hl]
  have hat : at_ I 3 = .ok l[2] := by simpa using at_ok I h l hl 2 (by omega)
  simp only [if_pos (show (l.length : Int) > 0 by omega), if_pos (show (l.length : Int) > 1 by omega),
    if_pos (show (l.length : Int) > 2 by omega), hat]
  rw [List.getElem?_eq_getElem (by omega), List.getElem?_eq_getElem (by omega), hlast,
    hl.elem 0 (by omega), hl.elem 1 (by omega)]
  rw [List.getLast?_eq_getElem?, List.getElem?_eq_getElem (by omega), Option.some.injEq, hl.elem _ (by omega)] at hlast
  have e : (l[2] = I.stop) ↔ l.length = 3 := by
    rw [hl.elem 2 (by omega), ← hlast, add_right_inj]
    constructor
    · intro hh
      have := mul_left_cancel₀ h hh
      have : 2 = l.length - 1 := by exact_mod_cast this
      omega
    · intro hh; rw [hh]
  by_cases hc : l.length = 3
  · rw [if_pos (e.2 hc), if_pos hc]; simp
  · rw [if_neg (fun c => hc (e.1 c)), if_neg hc]; simp

/-- Otherwise it prints a number that it does not hold: `(1 to: 6 by: 2) printString` is
`(1 3 ... 6)`. -/
theorem printed_not_correct : printed ⟨1, 6, 2⟩ = .ok [some 1, some 3, none, some 6] := by
  have e : ⌊(5 / 2 : Rat)⌋ = 2 := by rw [Int.floor_eq_iff]; norm_num
  norm_num [printed, size, count, at_, floorDiv, Except.map, e]

/-! ### Making an Interval from a collection -/

theorem progression_spec (d : Rat) : ∀ (n : Nat) (y : Rat),
    progression (some (-d)) (some y) ((List.range n).map (fun k : Nat => y + d * (k + 1))) = true := by
  intro n
  induction n with
  | zero => intro y; rfl
  | succ n ih =>
    intro y
    rw [List.range_succ_eq_map, List.map_cons, List.map_map]
    simp only [progression]
    rw [if_pos (by push_cast; ring)]
    have := ih (y + d * ((0 : Nat) + 1))
    have e : ((fun k : Nat => y + d * ((k : Rat) + 1)) ∘ Nat.succ)
        = (fun k : Nat => y + d * (((0 : Nat) : Rat) + 1) + d * ((k : Rat) + 1)) := by
      funext k; simp only [Function.comp]; push_cast; ring
    rw [e]
    exact this

theorem progression_elems : ∀ (xs : List Rat) (d y : Rat), progression (some (-d)) (some y) xs = true →
    ∀ (k : Nat) (h : k < xs.length), xs[k] = y + d * (k + 1) := by
  intro xs
  induction xs with
  | nil => intro d y _ k h; exact absurd h (Nat.not_lt_zero _)
  | cons x xs ih =>
    intro d y hp k h
    simp only [progression] at hp
    by_cases hx : y - x = -d
    · rw [if_pos hx] at hp
      cases k with
      | zero => simp; linarith
      | succ k =>
        have := ih d x hp k (by simpa using h)
        simp only [List.getElem_cons_succ, this]
        push_cast
        have : x = y + d := by linarith
        rw [this]; ring
    · rw [if_neg hx] at hp; simp at hp

/-- Made from two or more elements an integral distance apart, an Interval lists just those
elements; a list that is not an arithmetic progression is refused. -/
theorem withAll_partial (x y : Rat) (zs : List Rat) :
    (∀ I, withAll x (y :: zs) = .ok I → (∃ d : Int, d ≠ 0 ∧ y - x = d) → Lists I (x :: y :: zs)) ∧
    ((∃ I, withAll x (y :: zs) = .ok I) ↔
      ∀ (k : Nat) (h : k < (x :: y :: zs).length), (x :: y :: zs)[k] = x + (y - x) * k) := by
  have hprog : progression none none (x :: y :: zs) = progression (some (-(y - x))) (some y) zs := by
    simp only [progression]; congr 2; ring
  have hdef : withAll x (y :: zs) = if progression (some (-(y - x))) (some y) zs = true then
      .ok ⟨x, (x :: y :: zs).getLast (by simp), ⌊((x :: y :: zs).getLast (by simp) - x) / ((y :: zs).length : Rat)⌋⟩
      else .error .argument := by
    rw [withAll, hprog]
    have : ((y :: zs).length : Rat) ≠ 0 := by simp only [List.length_cons]; positivity
    simp only [floorDiv, if_neg this]
  have helem : progression (some (-(y - x))) (some y) zs = true →
      ∀ (k : Nat) (h : k < (x :: y :: zs).length), (x :: y :: zs)[k] = x + (y - x) * k := by
    intro hp k hk
    match k, hk with
    | 0, _ => simp
    | 1, _ => simp
    | k + 2, hk =>
      have := progression_elems zs (y - x) y hp k (by simpa using hk)
      simp only [List.getElem_cons_succ, this]
      push_cast; ring
  constructor
  · intro I hI ⟨d, hd0, hd⟩
    rw [hdef] at hI
    by_cases hp : progression (some (-(y - x))) (some y) zs = true
    · rw [if_pos hp] at hI
      have hel := helem hp
      have hlast : (x :: y :: zs).getLast (by simp) = x + d * ((zs.length + 1 : Nat) : Rat) := by
        rw [List.getLast_eq_getElem, hel, hd]
        simp
      have hq : ((x :: y :: zs).getLast (by simp) - x) / ((y :: zs).length : Rat) = d := by
        rw [hlast]
        have : ((y :: zs).length : Rat) = ((zs.length + 1 : Nat) : Rat) := by simp
        rw [this]
        have h0 : ((zs.length + 1 : Nat) : Rat) ≠ 0 := by positivity
        field_simp
        ring
      simp only [hq, Int.floor_intCast, Except.ok.injEq] at hI
      subst hI
      rw [hlast]
      have hL := lists_of_endpoints x (d : Rat) (by exact_mod_cast hd0) (zs.length + 1)
      have e : x :: y :: zs = (List.range (zs.length + 1 + 1)).map (fun k : Nat => x + (d : Rat) * k) := by
        apply List.ext_getElem (by simp)
        intro k h1 h2
        rw [hel k h1, hd]; simp
      rw [e]
      exact hL
    · rw [if_neg hp] at hI; simp at hI
  · constructor
    · rintro ⟨I, hI⟩
      rw [hdef] at hI
      by_cases hp : progression (some (-(y - x))) (some y) zs = true
      · exact helem hp
      · rw [if_neg hp] at hI; simp at hI
    · intro hel
      have hp : progression (some (-(y - x))) (some y) zs = true := by
        have e : zs = (List.range zs.length).map (fun k : Nat => y + (y - x) * (k + 1)) := by
          apply List.ext_getElem (by simp)
          intro k h1 h2
          have := hel (k + 2) (by simpa using h1)
          simp only [List.getElem_cons_succ] at this
          rw [this]; simp; ring
        rw [e]
        exact progression_spec _ _ _
      rw [hdef, if_pos hp]
      exact ⟨_, rfl⟩

/-- One element is not enough, although an Interval can hold one. -/
theorem withAll_single_fails (x : Rat) : withAll x [] = .error .zeroDivide := by
  simp [withAll, progression, floorDiv]

/-- Fractional distances are rounded down: the Interval made from 1/2, 1 and 3/2 has step
zero. -/
theorem withAll_fraction_wrong : withAll (1 / 2) [1, 3 / 2] = .ok ⟨1 / 2, 3 / 2, 0⟩ := by
  have e : ⌊(1 / 2 : Rat)⌋ = 0 := by rw [Int.floor_eq_iff]; norm_num
  norm_num [withAll, progression, floorDiv, e]

/-- A collection of equal elements is accepted, and the Interval made from it is not
listable: iterating never ends. -/
theorem withAll_constant_wrong (x : Rat) :
    withAll x [x] = .ok ⟨x, x, 0⟩ ∧ ∀ f, doo ⟨x, x, 0⟩ f = none := by
  constructor
  · norm_num [withAll, progression, floorDiv]
  · exact do_zero_step_endless x x (le_refl _)

end Verif.Interval
