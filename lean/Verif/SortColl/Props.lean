import Verif.SortColl.Theorems
import Mathlib.Data.List.Induction
/-!
# What readers see, and where the class goes wrong
-/
namespace Verif.SortColl
open Verif.OrdColl
set_option linter.unusedSectionVars false
variable {V : Type} [Inhabited V]

theorem swaps_nothing {i j : Int} {l m : List V} (h : Swaps i j l m) (hij : j < i) : m = l := by
  induction h with
  | refl => rfl
  | step _ a b => omega

theorem beConsistent_fix {blk : V → V → Bool} (ho : IsOrder blk) (up : Int → Int → Bool) {c : SC V} {a b : Nat} {xs : List V} (h : Consistent blk c a xs b) :
    c.beConsistent blk up = .ok c := by
  obtain ⟨hr, hpw, hs, hlo⟩ := h
  have hb := repAB_bounds hr
  rw [SC.beConsistent]
  by_cases e : c.lastOrdered < c.oc.first
  · rw [if_pos e]
    obtain ⟨l', s1, s2, _⟩ := sortSlots_spec ho c.oc.first c.oc.last c.oc.slots hb.1 hb.2.2
    have := swaps_nothing s2 (by omega)
    subst this
    rw [s1]
    simp only [Except.map]
    obtain ⟨⟨s, f, l⟩, lo, st⟩ := c
    simp only at hs hlo
    rw [hs, hlo]
  · rw [if_neg e, if_pos hlo]
    simp only [Except.bind, hs, if_true]

/-- C52. Once the elements have been listed, reading by index, listing again, and asking for the first or the last give the same elements, and no reader changes the collection;
`indexOf:` answers an index at which `at:` finds an equal element. -/
theorem reads_agree {blk eq : V → V → Bool} (ho : IsOrder blk) (he : EqOk blk eq) (up : Int → Int → Bool) {c : SC V} {M : List V} {d : Bool} (h : Holds blk c M d) :
    ∃ l c', c.run blk eq up .elements = (.ok (.list l), c') ∧ Arranged blk M l
      ∧ (∀ i, c'.run blk eq up (.at i) = ((match atIndex l i with | none => .error .index | some x => .ok (.val x)), c'))
      ∧ c'.run blk eq up .elements = (.ok (.list l), c')
      ∧ (∀ x, l.head? = some x → c'.run blk eq up .first = (.ok (.val x), c'))
      ∧ (∀ x, l.getLast? = some x → c'.run blk eq up .last = (.ok (.val x), c'))
      ∧ (∀ v, ∀ i : Int, 1 ≤ i → i ≤ l.length → ∃ r, c'.run blk eq up (.indexOf v i) = (.ok (.idx r), c') ∧ ∀ j, r = some j → i ≤ j ∧ ∃ y, c'.run blk eq up (.at j) = (.ok (.val y), c') ∧ eq v y = true) := by
  obtain ⟨c', a, b, xs, q1, q2, q3⟩ := beConsistent_spec ho up h
  have fix := beConsistent_fix ho up q2
  have el := elements_rep ⟨a, b, q2.1⟩
  have hat : ∀ i, c'.run blk eq up (.at i) = ((match atIndex xs i with | none => .error .index | some x => .ok (.val x)), c') := by
    intro i
    rw [SC.run, withConsistent, fix]
    simp only [at_rep ⟨a, b, q2.1⟩ i]
    rw [atIndex]
    cases (if 1 ≤ i then xs[(i - 1).toNat]? else none) <;> rfl
  have hf := q2.1.2.1
  have hl := q2.1.2.2
  refine ⟨xs, c', ?_, ⟨q3, q2.2.1⟩, hat, ?_, ?_, ?_, ?_⟩
  · rw [SC.run, withConsistent, q1]; simp only [el, Except.map]
  · rw [SC.run, withConsistent, fix]; simp only [el, Except.map]
  · intro x hx
    cases xs with
    | nil => cases hx
    | cons y xs =>
      cases hx
      have e : c'.oc.getFirst = .ok x := by
        rw [OC.getFirst, if_pos (by rw [List.length_cons] at hl; omega), q2.1.1]
        simp only [List.append_assoc, List.cons_append]
        exact basicAt_mid _ _ x _ (by rw [List.length_replicate]; omega)
      rw [SC.run, withConsistent, fix]; simp only [e, Except.map]
  · intro x hx
    obtain ⟨ys, rfl⟩ := List.getLast?_eq_some_iff.1 hx
    have e : c'.getLast blk up = .ok (x, c') := by
      rw [SC.getLast, SC.order, if_pos q2.2.2.2]
      simp only [Except.bind, q2.2.2.1, if_true]
      rw [q2.1.1, show List.replicate a nil ++ (ys ++ [x]) ++ List.replicate b nil = (List.replicate a nil ++ ys) ++ x :: List.replicate b nil by simp,
        basicAt_mid _ _ x _ (by simp only [List.length_append, List.length_replicate, List.length_cons, List.length_nil] at hl ⊢; omega)]
      rfl
    rw [SC.run, e]; rfl
  · intro v i h1 h2
    have hsz := size_rep q2.1
    obtain ⟨r, r1, r2⟩ := indexOfIn_spec ho he q2 v i h1 (by omega)
    refine ⟨r, ?_, ?_⟩
    · rw [SC.run, if_neg (by omega), withConsistent, fix]; simp only [r1, Except.map]
    · rintro j rfl
      obtain ⟨j1, y, j2, j3⟩ := r2
      exact ⟨j1, y, by rw [hat, j2], j3⟩

/-! ## A case that meets the hypotheses -/

def leNat (a b : Nat) : Bool := decide (a ≤ b)

theorem leNat_order : IsOrder leNat := by
  refine ⟨fun a b c h1 h2 => ?_, .inl fun a b => ?_⟩ <;> simp only [Le, leNat, decide_eq_true_eq, decide_eq_false_iff_not] at * <;> omega

theorem leNat_eq : EqOk leNat (· == ·) := by
  refine ⟨fun a b => ?_, fun a b h => ?_⟩
  · exact Bool.eq_iff_iff.2 (by simp only [beq_iff_eq]; exact eq_comm)
  · rw [beq_iff_eq] at h; rw [h]

/-- Sorting downwards, with a strict block. -/
def gtNat (a b : Nat) : Bool := decide (a > b)

theorem gtNat_order : IsOrder gtNat := by
  refine ⟨fun a b c h1 h2 => ?_, .inr fun a b h => ?_⟩ <;> simp only [Le, gtNat, decide_eq_true_eq, decide_eq_false_iff_not] at * <;> omega

def sample : List (Op Nat) := [.addAll [5, 3, 9, 1], .last, .removeLast, .elements, .add 4, .add 3, .first, .indexOf 3 1, .remove 3, .elements, .removeFirst, .size]

set_option maxRecDepth 8000 in
/-- The sequence is safe, and the answers are those of the specification. -/
example : Safe false sample ∧ Trace leNat (· == ·) [] sample ((SC.new 16).runs leNat (· == ·) (fun _ _ => true) sample).1
    ∧ ((SC.new 16).runs leNat (· == ·) (fun _ _ => true) sample).1
      = [.ok .done, .ok (.val 9), .ok (.val 9), .ok (.list [1, 3, 5]), .ok .done, .ok .done, .ok (.val 1), .ok (.idx (some 2)), .ok (.val 3), .ok (.list [1, 3, 4, 5]), .ok (.val 1), .ok (.int 3)] :=
  ⟨by simp [sample, Safe], sorted_collection_partial leNat_order leNat_eq _ 16 sample (by simp [sample, Safe]), by decide +kernel⟩

/-! ## What goes wrong -/

/-- What `sorted_collection_partial` says, without its proviso. -/
def SortedAlways : Prop := ∀ (n : Nat) (os : List (Op Nat)), Trace leNat (· == ·) [] os ((SC.new n).runs leNat (· == ·) (fun _ _ => true) os).1

def bad : List (Op Nat) := [.addAll [1, 2, 3, 4, 5, 6], .elements, .removeLast, .add 0, .elements]

set_option maxRecDepth 8000 in
/-- The witness: after `removeLast` the new element counts as ordered and is listed last. -/
theorem bad_listed : ((SC.new 16).runs leNat (· == ·) (fun _ _ => true) bad).1
    = [.ok .done, .ok (.list [1, 2, 3, 4, 5, 6]), .ok (.val 6), .ok .done, .ok (.list [1, 2, 3, 4, 5, 0])] := by decide +kernel

/-- C51. The proviso is needed: `removeLast` followed by `add:` can leave the collection out of order, because `removeLast` lowers `lastIndex` and not `lastOrdered`. -/
theorem removeLast_add_unsorted : ¬ SortedAlways := by
  intro h
  have := h 16 bad
  rw [bad_listed] at this
  simp only [bad, Trace, Spec] at this
  obtain ⟨r, rs, M, e, _, r2, rs2, M2, e2, _, r3, rs3, M3, e3, _, r4, rs4, M4, e4, _, r5, rs5, M5, e5, ⟨_, l, hl, hr⟩, _⟩ := this
  simp only [List.cons.injEq] at e
  obtain ⟨rfl, rfl⟩ := e
  simp only [List.cons.injEq] at e2
  obtain ⟨rfl, rfl⟩ := e2
  simp only [List.cons.injEq] at e3
  obtain ⟨rfl, rfl⟩ := e3
  simp only [List.cons.injEq] at e4
  obtain ⟨rfl, rfl⟩ := e4
  simp only [List.cons.injEq] at e5
  obtain ⟨rfl, _⟩ := e5
  simp only [Except.ok.injEq, Ans.list.injEq] at hr
  subst hr
  have := hl.2
  simp [Le, leNat] at this

/-- `occurrencesOf:` counts the equal elements. -/
def CountsOccurrences : Prop := ∀ (c : SC Nat) (a b : Nat) (xs : List Nat) (v : Nat), Consistent leNat c a xs b → c.occurrencesIn leNat (· == ·) v = .ok (xs.count v : Int)

def three : SC Nat := ⟨⟨[1, 2, 3], 1, 3⟩, 3, true⟩

theorem three_consistent : Consistent leNat three 0 [1, 2, 3] 0 :=
  ⟨⟨rfl, rfl, rfl⟩, by simp [Le, leNat], rfl, rfl⟩

/-- C53. `occurrencesOf:` of the greatest element of `1 2 3` answers 0. -/
theorem occurrences_wrong : ¬ CountsOccurrences := by
  intro h
  have e : three.occurrencesIn leNat (· == ·) 3 = .ok 0 := by decide +kernel
  have := h three 0 0 [1, 2, 3] 3 three_consistent
  rw [e] at this
  exact absurd this (by decide)

/-- `last` of an empty collection is an error. -/
def LastOfEmptyFails : Prop := ∀ n : Nat, ∃ e, ((SC.new n : SC Nat).run leNat (· == ·) (fun _ _ => true) .last).1 = .error e

/-- C53. It answers the contents of an unused slot. -/
theorem last_of_empty : ¬ LastOfEmptyFails := by
  intro h
  obtain ⟨e, he⟩ := h 16
  have : ((SC.new 16 : SC Nat).run leNat (· == ·) (fun _ _ => true) .last).1 = .ok (.val nil) := by decide +kernel
  rw [this] at he
  cases he

/-- `at:put:` keeps the collection in order (or is refused). -/
def PutKeepsOrder : Prop := ∀ (c c' : SC Nat) (a b : Nat) (xs : List Nat) (i : Int) (v : Nat), Consistent leNat c a xs b → c.put leNat (fun _ _ => true) i v = .ok c' →
  ∃ l c'', c'.run leNat (· == ·) (fun _ _ => true) .elements = (.ok (.list l), c'') ∧ l.Pairwise (Le leNat)

/-- C53. `at:put:` is not refused and puts the collection out of order. -/
theorem put_breaks_order : ¬ PutKeepsOrder := by
  intro h
  obtain ⟨l, c'', e, hl⟩ := h three ⟨⟨[9, 2, 3], 1, 3⟩, 3, true⟩ 0 0 [1, 2, 3] 1 9 three_consistent (by decide +kernel)
  have : ((⟨⟨[9, 2, 3], 1, 3⟩, 3, true⟩ : SC Nat).run leNat (· == ·) (fun _ _ => true) .elements).1 = .ok (.list [9, 2, 3]) := by decide +kernel
  rw [e] at this
  simp only [Except.ok.injEq, Ans.list.injEq] at this
  rw [this] at hl
  simp [Le, leNat] at hl

/-- `indexOf:` answers the first index of an equal element. -/
def IndexIsFirst : Prop := ∀ (blk eq : Nat → Nat → Bool), IsOrder blk → EqOk blk eq → ∀ (c : SC Nat) (a b : Nat) (xs : List Nat) (v : Nat) (j : Int), Consistent blk c a xs b →
  c.indexOfIn blk eq v 1 = .ok (some j) → ∀ k, 1 ≤ k → k < j → ∀ y, atIndex xs k = some y → ¬ eq v y = true

theorem backLoop_stop (eq : V → V → Bool) (l : List V) (x : V) (index : Int) :
    ∀ (n : Nat) (i j j' : Int), index ≤ j → j - index ≤ n → backLoop eq l x index n i j = .ok j' →
      j' = index ∨ (j' ≤ j ∧ ∃ e, basicAt l (i - j + j' - 1) = .ok e ∧ ¬ eq e x = true) := by
  intro n
  induction n with
  | zero => intro i j j' h1 h2 h; simp only [backLoop, Except.ok.injEq] at h; left; omega
  | succ n ih =>
    intro i j j' h1 h2 h
    rw [backLoop] at h
    by_cases c : j = index
    · rw [if_pos c] at h; cases h; exact .inl c
    · rw [if_neg c] at h
      cases hb : basicAt l (i - 1) with
      | error e => rw [hb] at h; cases h
      | ok e =>
        rw [hb] at h
        simp only [Except.bind] at h
        by_cases q : eq e x = true
        · rw [if_pos q] at h
          rcases ih (i - 1) (j - 1) j' (by omega) (by omega) h with h' | ⟨h', e', h1', h2'⟩
          · exact .inl h'
          · exact .inr ⟨by omega, e', by rw [← h1']; congr 1; omega, h2'⟩
        · rw [if_neg q] at h
          cases h
          exact .inr ⟨by omega, e, by rw [← hb]; congr 1; omega, q⟩

/-- C53. When the elements that sort alike are equal, `indexOf:` answers the first index of an equal element at or after the given one. -/
theorem index_first_partial {blk eq : V → V → Bool} (ho : IsOrder blk) (he : EqOk blk eq) (hq : ∀ a b, Le blk a b → Le blk b a → eq a b = true)
    {c : SC V} {a b : Nat} {xs : List V} (h : Consistent blk c a xs b) (v : V) (i j : Int) (h1 : 1 ≤ i) (h2 : i ≤ xs.length + 1) (hj : c.indexOfIn blk eq v i = .ok (some j)) :
    i ≤ j ∧ (∃ y, atIndex xs j = some y ∧ eq v y = true) ∧ ∀ k, i ≤ k → k < j → ∀ y, atIndex xs k = some y → ¬ eq v y = true := by
  obtain ⟨r, r1, r2⟩ := indexOfIn_spec ho he h v i h1 h2
  rw [hj] at r1
  cases r1
  obtain ⟨j1, y, j2, j3⟩ := r2
  refine ⟨j1, ⟨y, j2, j3⟩, fun k k1 k2 z hz hvz => ?_⟩
  obtain ⟨hr, hpw, hsrt, hlo⟩ := h
  have hb := repAB_bounds hr
  have hseg := (sorted_pairwise (blk := blk) hr).2 hpw
  have hf := hr.2.1
  have hl := hr.2.2
  rw [SC.indexOfIn] at hj
  obtain ⟨r, s1, s2⟩ := binarySearch_spec ho he c.oc.slots v (i + c.oc.first - 1) c.oc.last (by omega) hb.2.2 (by omega)
    (fun p q p1 p2 p3 => hseg p q (by omega) p2 p3)
  rw [s1] at hj
  simp only [Except.bind] at hj
  cases r with
  | none => cases hj
  | some m =>
    obtain ⟨m1, m2, m3⟩ := s2
    simp only at hj
    cases hbk : backLoop eq c.oc.slots v i (m - c.oc.first + 1).toNat m (m - c.oc.first + 1) with
    | error e => rw [hbk] at hj; cases hj
    | ok j' =>
      rw [hbk] at hj
      simp only [Except.map, Except.ok.injEq, Option.some.injEq] at hj
      subst hj
      rcases backLoop_stop eq c.oc.slots v i _ m (m - c.oc.first + 1) j' (by omega) (by omega) hbk with e | ⟨e0, e, e1, e2⟩
      · omega
      · obtain ⟨_, hjl, hy⟩ := (slot_atIndex hr j' y).1 j2
        obtain ⟨hk0, hkl, hzk⟩ := (slot_atIndex hr k z).1 hz
        have hb3 := hb.2.2
        rw [show m - (m - c.oc.first + 1) + j' - 1 = j' + c.oc.first - 2 by omega, basicAt_in (by omega) (by omega)] at e1
        cases e1
        apply e2
        have cz := (he.sort v z hvz)
        have cy := (he.sort v y j3)
        have z1 : compare blk v z = 0 := by rw [compare, if_pos cz]
        have y1 : compare blk v y = 0 := by rw [compare, if_pos cy]
        rw [← hzk] at z1
        rw [← hy] at y1
        have := between ho hseg (a := k + c.oc.first - 1) (b := j' + c.oc.first - 2) (c := j' + c.oc.first - 1) (by omega) (by omega) (by omega) (by omega) z1 y1
        rw [he.sym]
        exact hq _ _ ((compare_zero ..).1 this).1 ((compare_zero ..).1 this).2

example : (∀ a b, Le leNat a b → Le leNat b a → (a == b) = true) ∧ (⟨⟨[1, 3, 3, 3, 7], 1, 5⟩, 5, true⟩ : SC Nat).indexOfIn leNat (· == ·) 3 1 = .ok (some 2) := by
  refine ⟨fun a b h1 h2 => ?_, by decide +kernel⟩
  simp only [Le, leNat, decide_eq_true_eq, decide_eq_false_iff_not] at h1 h2
  rw [beq_iff_eq]; omega

def tens (a b : Nat) : Bool := decide (a / 10 ≤ b / 10)

theorem tens_order : IsOrder tens := by
  refine ⟨fun a b c h1 h2 => ?_, .inl fun a b => ?_⟩ <;> simp only [Le, tens, decide_eq_true_eq, decide_eq_false_iff_not] at * <;> omega

theorem tens_eq : EqOk tens (· == ·) := by
  refine ⟨fun a b => ?_, fun a b h => ?_⟩
  · exact Bool.eq_iff_iff.2 (by simp only [beq_iff_eq]; exact eq_comm)
  · rw [beq_iff_eq] at h; rw [h]

def five : SC Nat := ⟨⟨[10, 11, 10, 11, 11], 1, 5⟩, 5, true⟩

/-- C53. With elements sorted by tens, the equal element that `indexOf:` finds need not be the first. -/
theorem index_not_first : ¬ IndexIsFirst := by
  intro h
  exact h tens (· == ·) tens_order tens_eq five 0 0 [10, 11, 10, 11, 11] 10 3 ⟨⟨rfl, rfl, rfl⟩, by simp [Le, tens], rfl, rfl⟩ (by decide +kernel) 1 (by omega) (by omega) 10 rfl rfl

end Verif.SortColl
