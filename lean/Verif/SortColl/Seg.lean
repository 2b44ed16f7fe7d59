import Mathlib.Data.List.Induction
import Verif.OrdColl.Theorems
import Verif.SortColl.Model
/-!
# Slots as an array indexed from 1, and rearrangements of a segment of it
-/
namespace Verif.SortColl
open Verif.OrdColl
set_option linter.unusedSectionVars false
variable {V : Type} [Inhabited V]

def get (l : List V) (i : Int) : V := if i < 1 then nil else l.getD (i - 1).toNat nil
def setI (l : List V) (i : Int) (v : V) : List V := l.set (i - 1).toNat v
def swap (l : List V) (i j : Int) : List V := setI (setI l i (get l j)) j (get l i)

theorem get_eq {l : List V} {i : Int} (h1 : 1 ≤ i) (h2 : i ≤ l.length) : get l i = l[(i - 1).toNat]'(by omega) := by
  have : (i - 1).toNat < l.length := by omega
  rw [get, if_neg (by omega), List.getD_eq_getElem?_getD, List.getElem?_eq_getElem this]; rfl

theorem basicAt_in {l : List V} {i : Int} (h1 : 1 ≤ i) (h2 : i ≤ l.length) : basicAt l i = .ok (get l i) := by
  have : (i - 1).toNat < l.length := by omega
  rw [get_eq h1 h2, basicAt, if_pos h1, List.getElem?_eq_getElem this]

theorem basicPut_in {l : List V} {i : Int} (v : V) (h1 : 1 ≤ i) (h2 : i ≤ l.length) : basicPut l i v = .ok (setI l i v) := by
  rw [basicPut, if_pos ⟨h1, h2⟩]; rfl

theorem length_setI (l : List V) (i : Int) (v : V) : (setI l i v).length = l.length := List.length_set
theorem length_swap (l : List V) (i j : Int) : (swap l i j).length = l.length := by rw [swap, length_setI, length_setI]

theorem get_setI {l : List V} {i : Int} (v : V) (h1 : 1 ≤ i) (h2 : i ≤ l.length) (j : Int) : get (setI l i v) j = if j = i then v else get l j := by
  rw [get, get]
  by_cases hj : j < 1
  · rw [if_pos hj, if_neg (by omega), if_pos hj]
  · rw [if_neg hj, if_neg hj, setI, List.getD_eq_getElem?_getD, List.getD_eq_getElem?_getD, List.getElem?_set]
    by_cases e : j = i
    · subst e; rw [if_pos rfl, if_pos rfl, if_pos (by omega)]; rfl
    · rw [if_neg (by omega), if_neg e]

theorem get_swap {l : List V} {i j : Int} (hi : 1 ≤ i) (hi2 : i ≤ l.length) (hj : 1 ≤ j) (hj2 : j ≤ l.length) (k : Int) :
    get (swap l i j) k = if k = j then get l i else if k = i then get l j else get l k := by
  rw [swap, get_setI _ hj (by rw [length_setI]; exact hj2), get_setI _ hi hi2]

theorem ext_get {l m : List V} (hlen : l.length = m.length) (h : ∀ i : Int, 1 ≤ i → i ≤ l.length → get l i = get m i) : l = m := by
  apply List.ext_getElem hlen
  intro k h1 h2
  have := h (k + 1) (by omega) (by omega)
  rw [get_eq (by omega) (by omega), get_eq (by omega) (by omega)] at this
  simpa using this

theorem swap_self {l : List V} {i : Int} (hi : 1 ≤ i) (hi2 : i ≤ l.length) : swap l i i = l := by
  apply ext_get (length_swap ..)
  intro k _ _
  rw [get_swap hi hi2 hi hi2]
  split
  · next h => rw [h]
  · rfl

theorem swapWith_in {l : List V} {i j : Int} (hi : 1 ≤ i) (hi2 : i ≤ l.length) (hj : 1 ≤ j) (hj2 : j ≤ l.length) : swapWith l i j = .ok (swap l i j) := by
  rw [swapWith, basicAt_in hi hi2, basicAt_in hj hj2]
  simp only [Except.bind]
  rw [basicPut_in _ hi hi2]
  simp only
  rw [basicPut_in _ hj (by rw [length_setI]; exact hj2)]; rfl

theorem swapIfAfter_in (blk : V → V → Bool) {l : List V} {i j : Int} (hi : 1 ≤ i) (hi2 : i ≤ l.length) (hj : 1 ≤ j) (hj2 : j ≤ l.length) :
    swapIfAfter blk l i j = .ok (if blk (get l i) (get l j) then l else swap l i j) := by
  rw [swapIfAfter, basicAt_in hi hi2, basicAt_in hj hj2]
  simp only [Except.bind]
  by_cases e : blk (get l i) (get l j) = true
  · rw [if_pos e, if_pos e]
  · rw [if_neg e, if_neg e, basicPut_in _ hi hi2]
    simp only
    rw [basicPut_in _ hj (by rw [length_setI]; exact hj2)]; rfl

/-! ## Rearrangements -/

/-- `m` comes of `l` by swaps at positions between `i` and `j`. -/
inductive Swaps (i j : Int) : List V → List V → Prop
  | refl (l) : Swaps i j l l
  | step {l m p q} : Swaps i j l m → i ≤ p → p ≤ j → i ≤ q → q ≤ j → 1 ≤ p → p ≤ m.length → 1 ≤ q → q ≤ m.length → Swaps i j l (swap m p q)

theorem Swaps.length {i j : Int} {l m : List V} (h : Swaps i j l m) : m.length = l.length := by
  induction h with
  | refl => rfl
  | step _ _ _ _ _ _ _ _ _ ih => rw [length_swap, ih]

theorem Swaps.trans {i j : Int} {l m n : List V} (h : Swaps i j l m) (h2 : Swaps i j m n) : Swaps i j l n := by
  induction h2 with
  | refl => exact h
  | step _ a b c d e f g k ih => exact ih.step a b c d e f g k

theorem Swaps.mono {i j i' j' : Int} {l m : List V} (h : Swaps i j l m) (hi : i' ≤ i) (hj : j ≤ j') : Swaps i' j' l m := by
  induction h with
  | refl => exact .refl _
  | step _ a b c d e f g k ih => exact ih.step (by omega) (by omega) (by omega) (by omega) e f g k

theorem Swaps.one {i j p q : Int} {l : List V} (h1 : i ≤ p) (h2 : p ≤ j) (h3 : i ≤ q) (h4 : q ≤ j) (hi : 1 ≤ i) (hj : j ≤ l.length) :
    Swaps i j l (swap l p q) := (Swaps.refl l).step h1 h2 h3 h4 (by omega) (by omega) (by omega) (by omega)

theorem Swaps.outside {i j : Int} {l m : List V} (h : Swaps i j l m) (k : Int) (hk : k < i ∨ j < k) : get m k = get l k := by
  induction h with
  | refl => rfl
  | step _ a b c d e f g k' ih => rw [get_swap e f g k', if_neg (by omega), if_neg (by omega), ih]

theorem Swaps.all {i j : Int} {l m : List V} (h : Swaps i j l m) (P : V → Prop) (hl : ∀ k, i ≤ k → k ≤ j → P (get l k)) :
    ∀ k, i ≤ k → k ≤ j → P (get m k) := by
  induction h with
  | refl => exact hl
  | step _ a b c d e f g k' ih =>
    intro k h1 h2
    rw [get_swap e f g k']
    split
    · exact ih _ a b
    · split
      · exact ih _ c d
      · exact ih _ h1 h2

theorem swap_perm {l : List V} {i j : Int} (hi : 1 ≤ i) (hi2 : i ≤ l.length) (hj : 1 ≤ j) (hj2 : j ≤ l.length) : (swap l i j).Perm l := by
  rw [swap, setI, setI, get_eq hi hi2, get_eq hj hj2]
  exact List.set_set_perm (by omega) (by omega)

theorem get_append {A xs B : List V} {k : Int} (h1 : A.length < k) (h2 : k ≤ A.length + xs.length) : get (A ++ xs ++ B) k = get xs (k - A.length) := by
  rw [get, get, if_neg (by omega), if_neg (by omega), List.getD_eq_getElem?_getD, List.getD_eq_getElem?_getD, List.append_assoc,
    List.getElem?_append_right (by omega), List.getElem?_append_left (by omega)]
  congr 2; omega

theorem setI_append {A xs B : List V} {k : Int} (v : V) (h1 : A.length < k) (h2 : k ≤ A.length + xs.length) :
    setI (A ++ xs ++ B) k v = A ++ setI xs (k - A.length) v ++ B := by
  rw [setI, setI, List.append_assoc, List.set_append_right _ _ (by omega), List.set_append_left _ _ (by omega), List.append_assoc]
  congr 3; omega

theorem swap_append {A xs B : List V} {p q : Int} (h1 : A.length < p) (h2 : p ≤ A.length + xs.length) (h3 : A.length < q) (h4 : q ≤ A.length + xs.length) :
    swap (A ++ xs ++ B) p q = A ++ swap xs (p - A.length) (q - A.length) ++ B := by
  rw [swap, get_append h1 h2, get_append h3 h4, setI_append _ h1 h2, setI_append _ h3 (by rw [length_setI]; exact h4), swap]

/-- Rearranging a segment of a list rearranges the part of the list in it. -/
theorem Swaps.mid {A xs B m : List V} {i j : Int} (h : Swaps i j (A ++ xs ++ B) m) (hi : A.length < i) (hj : j ≤ A.length + xs.length) :
    ∃ xs', m = A ++ xs' ++ B ∧ xs'.Perm xs := by
  generalize hl : A ++ xs ++ B = l at h
  induction h with
  | refl => exact ⟨xs, hl.symm, List.Perm.refl _⟩
  | step h a b c d e f g k ih =>
    obtain ⟨xs', hm, hp⟩ := ih
    have hlen := hp.length_eq
    refine ⟨_, by rw [hm, swap_append (by omega) (by omega) (by omega) (by omega)], ?_⟩
    exact (swap_perm (by omega) (by omega) (by omega) (by omega)).trans hp

/-! ## The order -/

/-- `a` may come before `b`. -/
def Le (blk : V → V → Bool) (a b : V) : Prop := blk a b = true ∨ blk b a = false

/-- A sort block that is an order: either like `<=` (of any two one is related to the other) or like `<` (never both ways), and transitive. -/
structure IsOrder (blk : V → V → Bool) : Prop where
  trans : ∀ a b c, Le blk a b → Le blk b c → Le blk a c
  kind : (∀ a b, blk a b = true ∨ blk b a = true) ∨ (∀ a b, blk a b = true → blk b a = false)

theorem le_of_true {blk : V → V → Bool} {a b : V} (h : blk a b = true) : Le blk a b := .inl h
theorem le_of_false {blk : V → V → Bool} {a b : V} (h : ¬ blk a b = true) : Le blk b a := .inr (by simpa using h)
theorem le_total (blk : V → V → Bool) (a b : V) : Le blk a b ∨ Le blk b a := by
  by_cases h : blk a b = true
  · exact .inl (.inl h)
  · exact .inr (le_of_false h)
theorem le_refl (blk : V → V → Bool) (a : V) : Le blk a a := by cases le_total blk a a <;> assumption

/-- Positions `i` to `j` are in order. -/
def SegSorted (blk : V → V → Bool) (l : List V) (i j : Int) : Prop := ∀ p q, i ≤ p → p ≤ q → q ≤ j → Le blk (get l p) (get l q)

end Verif.SortColl
