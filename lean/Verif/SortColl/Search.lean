import Verif.SortColl.Merge
/-!
# Searching a sorted segment
-/
namespace Verif.SortColl
open Verif.OrdColl
set_option linter.unusedSectionVars false
variable {V : Type} [Inhabited V]

/-- What `=` has to do with the sort block: equal objects sort alike, and `=` is symmetric. -/
structure EqOk (blk eq : V → V → Bool) : Prop where
  sym : ∀ a b, eq a b = eq b a
  sort : ∀ a b, eq a b = true → blk a b = blk b a

/-- The answer of a search for `x` among positions `low` to `high`. -/
def Found (eq : V → V → Bool) (l : List V) (x : V) (low high : Int) : Option Int → Prop
  | none => ∀ p, low ≤ p → p ≤ high → ¬ eq x (get l p) = true
  | some k => low ≤ k ∧ k ≤ high ∧ eq x (get l k) = true

theorem compare_zero (blk : V → V → Bool) (x e : V) : compare blk x e = 0 ↔ Le blk x e ∧ Le blk e x := by
  unfold compare Le
  cases blk x e <;> cases blk e x <;> simp

theorem compare_neg {blk : V → V → Bool} {x e : V} (h0 : ¬ compare blk x e = 0) (h : compare blk x e < 0) : ¬ Le blk e x := by
  unfold compare at *
  unfold Le
  revert h0 h
  cases blk x e <;> cases blk e x <;> simp

theorem compare_pos {blk : V → V → Bool} {x e : V} (h0 : ¬ compare blk x e = 0) (h : ¬ compare blk x e < 0) : ¬ Le blk x e := by
  unfold compare at *
  unfold Le
  revert h0 h
  cases blk x e <;> cases blk e x <;> simp

theorem search_spec {blk : V → V → Bool} (ho : IsOrder blk) (l : List V) (x : V) (low high : Int) (h1 : 1 ≤ low) (h2 : high ≤ l.length) (hs : SegSorted blk l low high) :
    ∀ (n : Nat) (i j : Int), low ≤ i → i ≤ j + 1 → j ≤ high → 1 ≤ n → j - i + 2 ≤ n →
      (∀ p, low ≤ p → p ≤ high → (p < i ∨ j < p) → ¬ compare blk x (get l p) = 0) →
      ∃ r, search blk l x n i j = .ok r ∧ (match r with
        | none => ∀ p, low ≤ p → p ≤ high → ¬ compare blk x (get l p) = 0
        | some m => low ≤ m ∧ m ≤ high ∧ compare blk x (get l m) = 0) := by
  intro n
  induction n with
  | zero => intro i j _ _ _ h; omega
  | succ n ih =>
    intro i j a1 a2 a3 _ a4 hout
    rw [search]
    by_cases c : i > j
    · rw [if_pos c]
      exact ⟨none, rfl, fun p p1 p2 => hout p p1 p2 (by omega)⟩
    · rw [if_neg c]
      have hm : i ≤ (i + j + 1) / 2 ∧ (i + j + 1) / 2 ≤ j := by omega
      generalize (i + j + 1) / 2 = mid at hm ⊢
      rw [basicAt_in (by omega) (by omega)]
      simp only [Except.bind]
      by_cases e : compare blk x (get l mid) = 0
      · rw [if_pos e]
        exact ⟨some mid, rfl, by omega, by omega, e⟩
      · rw [if_neg e]
        by_cases f : compare blk x (get l mid) < 0
        · rw [if_pos f]
          refine ih i (mid - 1) a1 (by omega) (by omega) (by omega) (by omega) (fun p p1 p2 p3 => ?_)
          by_cases g : p < i ∨ j < p
          · exact hout p p1 p2 g
          · intro h0
            exact compare_neg e f (ho.trans _ _ _ (hs mid p (by omega) (by omega) p2) ((compare_zero ..).1 h0).2)
        · rw [if_neg f]
          refine ih (mid + 1) j (by omega) (by omega) a3 (by omega) (by omega) (fun p p1 p2 p3 => ?_)
          by_cases g : p < i ∨ j < p
          · exact hout p p1 p2 g
          · intro h0
            exact compare_pos e f (ho.trans _ _ _ ((compare_zero ..).1 h0).1 (hs p mid p1 (by omega) (by omega)))

/-- The elements that sort like `x` lie together. -/
theorem between {blk : V → V → Bool} (ho : IsOrder blk) {l : List V} {x : V} {low high : Int} (hs : SegSorted blk l low high) {a b c : Int}
    (h1 : low ≤ a) (h2 : a ≤ b) (h3 : b ≤ c) (h4 : c ≤ high) (ha : compare blk x (get l a) = 0) (hc : compare blk x (get l c) = 0) : compare blk x (get l b) = 0 :=
  (compare_zero ..).2 ⟨ho.trans _ _ _ ((compare_zero ..).1 ha).1 (hs a b h1 h2 (by omega)),
    ho.trans _ _ _ (hs b c (by omega) h3 h4) ((compare_zero ..).1 hc).2⟩

theorem goUp_spec {blk eq : V → V → Bool} (ho : IsOrder blk) (he : EqOk blk eq) (l : List V) (x : V) (low high : Int) (h1 : 1 ≤ low) (h2 : high ≤ l.length)
    (hs : SegSorted blk l low high) (mid : Int) (hm : low ≤ mid) (h0 : compare blk x (get l mid) = 0) :
    ∀ (n : Nat) (i : Int), mid ≤ i → i + n = high + 1 →
      ∃ r, goUp blk eq l x n i = .ok r ∧ Found eq l x i high r := by
  intro n
  induction n with
  | zero => intro i _ h; exact ⟨none, rfl, fun p p1 p2 => by push_cast at h; omega⟩
  | succ n ih =>
    intro i hi h
    push_cast at h
    rw [goUp, basicAt_in (by omega) (by omega)]
    simp only [Except.bind]
    by_cases c : compare blk x (get l i) = 0
    · rw [if_pos c]
      by_cases e : eq x (get l i) = true
      · rw [if_pos e]; exact ⟨some i, rfl, by omega, by omega, e⟩
      · rw [if_neg e]
        obtain ⟨r, r1, r2⟩ := ih (i + 1) (by omega) (by omega)
        refine ⟨r, r1, ?_⟩
        cases r with
        | none =>
          intro p p1 p2
          by_cases hp : p = i
          · rw [hp]; exact e
          · exact r2 p (by omega) p2
        | some k => exact ⟨by have := r2.1; omega, r2.2⟩
    · rw [if_neg c]
      refine ⟨none, rfl, fun p p1 p2 hp => c ?_⟩
      have : compare blk x (get l p) = 0 := by rw [compare, if_pos (he.sort _ _ hp)]
      exact between ho hs hm hi p1 p2 h0 this

theorem goDown_spec {blk eq : V → V → Bool} (ho : IsOrder blk) (he : EqOk blk eq) (l : List V) (x : V) (low high : Int) (h1 : 1 ≤ low) (h2 : high ≤ l.length)
    (hs : SegSorted blk l low high) (mid : Int) (hml : low ≤ mid) (hm : mid ≤ high) (h0 : compare blk x (get l mid) = 0) (other : Res (Option Int)) (o : Option Int) (ho' : other = .ok o)
    (hother : Found eq l x mid high o) :
    ∀ (n : Nat) (i : Int), i ≤ mid → i - n = low - 1 → (∀ p, i < p → p ≤ mid → ¬ eq x (get l p) = true) →
      ∃ r, goDown blk eq l x other n i = .ok r ∧ Found eq l x low high r := by
  intro n
  have fin : ∀ i : Int, low - 1 ≤ i → i ≤ mid → (∀ p, i < p → p ≤ mid → ¬ eq x (get l p) = true) → (∀ p, low ≤ p → p ≤ i → ¬ eq x (get l p) = true) →
      ∃ r, other = .ok r ∧ Found eq l x low high r := by
    intro i hi0 hi ha hb
    refine ⟨o, ho', ?_⟩
    cases o with
    | none =>
      intro p p1 p2
      by_cases c1 : p ≤ i
      · exact hb p p1 c1
      · by_cases c2 : p ≤ mid
        · exact ha p (by omega) c2
        · exact hother p (by omega) p2
    | some k =>
      have := hother.1
      exact ⟨by omega, hother.2⟩
  induction n with
  | zero =>
    intro i hi h ha
    push_cast at h
    exact fin i (by omega) hi ha (fun p p1 p2 => by omega)
  | succ n ih =>
    intro i hi h ha
    push_cast at h
    rw [goDown, basicAt_in (by omega) (by omega)]
    simp only [Except.bind]
    by_cases c : compare blk x (get l i) = 0
    · rw [if_pos c]
      by_cases e : eq x (get l i) = true
      · rw [if_pos e]; exact ⟨some i, rfl, by omega, by omega, e⟩
      · rw [if_neg e]
        refine ih (i - 1) (by omega) (by omega) (fun p p1 p2 => ?_)
        by_cases hp : p = i
        · rw [hp]; exact e
        · exact ha p (by omega) p2
    · rw [if_neg c]
      refine fin i (by omega) hi ha (fun p p1 p2 hp => c ?_)
      have : compare blk x (get l p) = 0 := by rw [compare, if_pos (he.sort _ _ hp)]
      exact between ho hs p1 p2 hi hm this h0

/-- The search finds an equal element if there is one. -/
theorem binarySearch_spec {blk eq : V → V → Bool} (ho : IsOrder blk) (he : EqOk blk eq) (l : List V) (x : V) (low high : Int) (h1 : 1 ≤ low) (h2 : high ≤ l.length)
    (h3 : low ≤ high + 1) (hs : SegSorted blk l low high) :
    ∃ r, binarySearch blk eq l x low high = .ok r ∧ Found eq l x low high r := by
  obtain ⟨r, r1, r2⟩ := search_spec ho l x low high h1 h2 hs ((high - low).toNat + 2) low high (by omega) h3 (by omega) (by omega) (by omega) (fun p _ _ _ => by omega)
  rw [binarySearch, r1]
  simp only [Except.bind]
  cases r with
  | none =>
    refine ⟨none, rfl, fun p p1 p2 hp => r2 p p1 p2 ?_⟩
    rw [compare, if_pos (he.sort _ _ hp)]
  | some mid =>
    obtain ⟨m1, m2, m3⟩ := r2
    obtain ⟨o, o1, o2⟩ := goUp_spec ho he l x low high h1 h2 hs mid m1 m3 (high - mid + 1).toNat mid (by omega) (by omega)
    exact goDown_spec ho he l x low high h1 h2 hs mid m1 m2 m3 _ o o1 o2 (mid - low + 1).toNat mid (by omega) (by omega) (fun p p1 p2 => by omega)

theorem backLoop_spec {blk eq : V → V → Bool} (he : EqOk blk eq) (l : List V) (x : V) (first index last : Int) (h1 : 1 ≤ first) (h2 : last ≤ l.length) (hx : 1 ≤ index) :
    ∀ (n : Nat) (i j : Int), i = j + first - 1 → index ≤ j → i ≤ last → eq x (get l i) = true →
      ∃ j', backLoop eq l x index n i j = .ok j' ∧ index ≤ j' ∧ j' ≤ j ∧ eq x (get l (j' + first - 1)) = true := by
  intro n
  induction n with
  | zero => intro i j hi hj hl hq; exact ⟨j, rfl, hj, by omega, by rw [← hi]; exact hq⟩
  | succ n ih =>
    intro i j hi hj hl hq
    rw [backLoop]
    by_cases c : j = index
    · rw [if_pos c]; exact ⟨j, rfl, hj, by omega, by rw [← hi]; exact hq⟩
    · rw [if_neg c, basicAt_in (by omega) (by omega)]
      simp only [Except.bind]
      by_cases e : eq (get l (i - 1)) x = true
      · rw [if_pos e]
        obtain ⟨j', a, b, d, f⟩ := ih (i - 1) (j - 1) (by omega) (by omega) (by omega) (by rw [he.sym]; exact e)
        exact ⟨j', a, b, by omega, f⟩
      · rw [if_neg e]; exact ⟨j, rfl, hj, by omega, by rw [← hi]; exact hq⟩

end Verif.SortColl
