/-
Lemmas on the search for handlers.
-/
import Verif.Handlers.Model

namespace Verif.Handlers

/-! ### How well a class handles an exception -/

theorem goodLoop_eq (t c : Cls) (d : Int) :
    goodLoop t c d = if t <:+ c then (t.length : Int) else d + c.length := by
  induction c generalizing d with
  | nil =>
    rw [goodLoop]
    by_cases h : ([] : Cls) = t
    · subst h; simp
    · rw [if_neg h, if_neg (by rw [List.suffix_nil]; exact fun e => h e.symm)]
      simp
  | cons n c ih =>
    rw [goodLoop, ih]
    by_cases h : n :: c = t
    · subst h
      rw [if_pos rfl, if_pos (List.suffix_refl _), if_neg]
      · rw [List.length_cons]; omega
      · intro hs
        have := hs.length_le
        rw [List.length_cons] at this
        omega
    · rw [if_neg h]
      have : t <:+ n :: c ↔ t <:+ c := by
        rw [List.suffix_cons_iff]
        exact ⟨fun h' => h'.resolve_left (fun e => h e.symm), Or.inr⟩
      by_cases hs : t <:+ c
      · rw [if_pos hs, if_pos (this.2 hs)]
      · rw [if_neg hs, if_neg (fun h' => hs (this.1 h')), List.length_cons]
        omega

theorem fold_max (c : Cls) (s : Spec) (b : Int) :
    let g := s.foldl (fun old each => max old (goodness each c)) b
    b ≤ g ∧ (∀ h ∈ s, goodness h c ≤ g) ∧ (g = b ∨ ∃ h ∈ s, goodness h c = g) := by
  induction s generalizing b with
  | nil => simp
  | cons x s ih =>
    obtain ⟨h1, h2, h3⟩ := ih (max b (goodness x c))
    simp only [List.foldl_cons]
    refine ⟨by omega, fun h hh => ?_, ?_⟩
    · rcases List.mem_cons.1 hh with rfl | hh
      · omega
      · exact h2 h hh
    · rcases h3 with h3 | ⟨h, hh, h3⟩
      · rcases Int.le_total b (goodness x c) with hb | hb
        · right
          exact ⟨x, List.mem_cons_self .., by rw [h3]; omega⟩
        · left; rw [h3]; omega
      · exact Or.inr ⟨h, List.mem_cons_of_mem _ hh, h3⟩

/-! ### The search in one context -/

/-- The goodness with active handlers left out. -/
def eff (c : Cls) (active k : Nat) (s : Spec) : Int :=
  if setGoodness s c > -1 then (if isActive active k then -1 else setGoodness s c)
  else setGoodness s c

theorem selectLoop_spec (c : Cls) (active : Nat) (specs : List Spec) (k : Nat) (best : Option Nat)
    (bg : Int) :
    (selectLoop c active specs k best bg = best ∧
      ∀ i s, specs[i]? = some s → eff c active (k + i) s ≤ bg) ∨
    ∃ j s, specs[j]? = some s ∧ selectLoop c active specs k best bg = some (k + j) ∧
      bg < eff c active (k + j) s ∧
      ∀ i s', specs[i]? = some s' → eff c active (k + i) s' ≤ eff c active (k + j) s ∧
        (i < j → eff c active (k + i) s' < eff c active (k + j) s) := by
  induction specs generalizing k best bg with
  | nil => left; simp [selectLoop]
  | cons s specs ih =>
    rw [selectLoop]
    rw [show (if setGoodness s c > -1 then if isActive active k = true then -1 else setGoodness s c
      else setGoodness s c) = eff c active k s from rfl]
    by_cases hg : eff c active k s > bg
    · rw [if_pos hg]
      rcases ih (k + 1) (some k) (eff c active k s) with ⟨h1, h2⟩ | ⟨j, s1, h1, h2, h3, h4⟩
      · right
        refine ⟨0, s, rfl, by rw [h1]; rfl, hg, ?_⟩
        intro i s' hi
        cases i with
        | zero =>
          simp only [List.getElem?_cons_zero, Option.some.injEq] at hi
          subst hi
          exact ⟨Int.le_refl _, fun h => absurd h (Nat.lt_irrefl _)⟩
        | succ i =>
          rw [List.getElem?_cons_succ] at hi
          have := h2 i s' hi
          rw [show k + 1 + i = k + (i + 1) by omega] at this
          exact ⟨this, fun h => by omega⟩
      · right
        refine ⟨j + 1, s1, by rw [List.getElem?_cons_succ]; exact h1,
          by rw [h2]; congr 1; omega, ?_, ?_⟩
        · rw [show k + (j + 1) = k + 1 + j by omega]; omega
        · intro i s' hi
          rw [show k + (j + 1) = k + 1 + j by omega]
          cases i with
          | zero =>
            simp only [List.getElem?_cons_zero, Option.some.injEq] at hi
            subst hi
            rw [Nat.add_zero]
            exact ⟨by omega, fun _ => h3⟩
          | succ i =>
            rw [List.getElem?_cons_succ] at hi
            have := h4 i s' hi
            rw [show k + 1 + i = k + (i + 1) by omega] at this
            exact ⟨this.1, fun h => this.2 (by omega)⟩
    · rw [if_neg hg]
      rcases ih (k + 1) best bg with ⟨h1, h2⟩ | ⟨j, s1, h1, h2, h3, h4⟩
      · left
        refine ⟨h1, ?_⟩
        intro i s' hi
        cases i with
        | zero =>
          simp only [List.getElem?_cons_zero, Option.some.injEq] at hi
          subst hi
          rw [Nat.add_zero]; omega
        | succ i =>
          rw [List.getElem?_cons_succ] at hi
          have := h2 i s' hi
          rw [show k + 1 + i = k + (i + 1) by omega] at this
          exact this
      · right
        refine ⟨j + 1, s1, by rw [List.getElem?_cons_succ]; exact h1,
          by rw [h2]; congr 1; omega, ?_, ?_⟩
        · rw [show k + (j + 1) = k + 1 + j by omega]; exact h3
        · intro i s' hi
          rw [show k + (j + 1) = k + 1 + j by omega]
          cases i with
          | zero =>
            simp only [List.getElem?_cons_zero, Option.some.injEq] at hi
            subst hi
            rw [Nat.add_zero]
            exact ⟨by omega, fun _ => by omega⟩
          | succ i =>
            rw [List.getElem?_cons_succ] at hi
            have := h4 i s' hi
            rw [show k + 1 + i = k + (i + 1) by omega] at this
            exact ⟨this.1, fun h => this.2 (by omega)⟩

/-! ### The search over contexts -/

theorem get_rev_cons (f : Frame) (fs : List Frame) (h : Nat) :
    (f :: fs).reverse[h]? = if h = fs.length then some f else fs.reverse[h]? := by
  rw [List.reverse_cons, List.getElem?_append, List.length_reverse]
  by_cases h1 : h < fs.length
  · rw [if_pos h1, if_neg (by omega)]
  · rw [if_neg h1]
    by_cases h2 : h = fs.length
    · subst h2; simp
    · rw [if_neg h2, List.getElem?_eq_none (by simp; omega), List.getElem?_eq_none (by simp; omega)]

theorem search_some {c : Cls} {fs : List Frame} {h k m : Nat} (hs : search c fs = some (h, k, m)) :
    (∃ f, fs.reverse[h]? = some f ∧ select f c = some k ∧ m = f.active) ∧ h < fs.length ∧
    ∀ j f, h < j → fs.reverse[j]? = some f → select f c = none := by
  induction fs with
  | nil => cases hs
  | cons f fs ih =>
    rw [search] at hs
    cases hsel : select f c with
    | some k' =>
      rw [hsel] at hs
      simp only [Option.some.injEq, Prod.mk.injEq] at hs
      obtain ⟨rfl, rfl, rfl⟩ := hs
      refine ⟨⟨f, by rw [get_rev_cons, if_pos rfl], hsel, rfl⟩, by simp, ?_⟩
      intro j f' hj hf'
      rw [List.getElem?_eq_none (by simp; omega)] at hf'
      cases hf'
    | none =>
      rw [hsel] at hs
      obtain ⟨⟨f', h1, h2⟩, h3, h4⟩ := ih hs
      refine ⟨⟨f', by rw [get_rev_cons, if_neg (by omega)]; exact h1, h2⟩,
        by rw [List.length_cons]; omega, ?_⟩
      intro j g hj hg
      rw [get_rev_cons] at hg
      by_cases hjl : j = fs.length
      · rw [if_pos hjl] at hg
        cases hg
        exact hsel
      · rw [if_neg hjl] at hg
        exact h4 j g hj hg

theorem search_none {c : Cls} {fs : List Frame} (hs : search c fs = none) :
    ∀ f ∈ fs, select f c = none := by
  induction fs with
  | nil => intro f hf; cases hf
  | cons f fs ih =>
    rw [search] at hs
    cases hsel : select f c with
    | some k' => rw [hsel] at hs; cases hs
    | none =>
      rw [hsel] at hs
      intro g hg
      rcases List.mem_cons.1 hg with rfl | hg
      · exact hsel
      · exact ih hs g hg

theorem put_length (h m : Nat) (fs : List Frame) : (put h m fs).length = fs.length := by
  induction fs with
  | nil => rfl
  | cons f fs ih =>
    rw [put]
    by_cases hh : fs.length = h
    · rw [if_pos hh]; rfl
    · rw [if_neg hh, List.length_cons, ih, List.length_cons]

theorem put_get (h m : Nat) (fs : List Frame) (j : Nat) :
    (put h m fs).reverse[j]? =
      if j = h then (fs.reverse[j]?).map ({ · with active := m }) else fs.reverse[j]? := by
  induction fs with
  | nil => simp [put]
  | cons f fs ih =>
    rw [put]
    by_cases hh : fs.length = h
    · rw [if_pos hh, get_rev_cons, get_rev_cons]
      by_cases hj : j = fs.length
      · rw [if_pos hj, if_pos hj, if_pos (hj.trans hh)]; rfl
      · rw [if_neg hj, if_neg hj, if_neg (by omega)]
    · rw [if_neg hh, get_rev_cons, get_rev_cons, put_length, ih]
      by_cases hj : j = fs.length
      · rw [if_pos hj, if_pos hj, if_neg (by omega)]
      · rw [if_neg hj, if_neg hj]

theorem outside_get (h : Nat) (fs : List Frame) (hh : h ≤ fs.length) (j : Nat) :
    (outside h fs).reverse[j]? = if j < h then fs.reverse[j]? else none := by
  rw [outside, List.reverse_drop, List.getElem?_take, show fs.length - (fs.length - h) = h by omega]

theorem outside_length (h : Nat) (fs : List Frame) (hh : h ≤ fs.length) :
    (outside h fs).length = h := by
  rw [outside, List.length_drop]; omega

theorem frames_ext {a b : List Frame} (h : ∀ j : Nat, a.reverse[j]? = b.reverse[j]?) : a = b :=
  List.reverse_inj.1 (List.ext_getElem? h)

end Verif.Handlers
