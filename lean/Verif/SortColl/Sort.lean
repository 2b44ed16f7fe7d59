import Verif.SortColl.Seg
/-!
# The quicksort of SortedCollection sorts, and ends
-/
namespace Verif.SortColl
open Verif.OrdColl
set_option linter.unusedSectionVars false
variable {V : Type} [Inhabited V]

theorem scanUp_spec (blk : V → V → Bool) (l : List V) (pivot : V) (last : Int) (hl : last ≤ l.length) :
    ∀ (n : Nat) (s : Int), 1 ≤ s → s ≤ last + 1 → last - s + 2 ≤ n →
      ∃ s', scanUp blk l pivot last n s = .ok s' ∧ s ≤ s' ∧ s' ≤ last + 1 ∧ (∀ p, s ≤ p → p < s' → blk (get l p) pivot = true)
        ∧ (s' ≤ last → ¬ blk (get l s') pivot = true) := by
  intro n
  induction n with
  | zero => intro s h1 h2 h3; omega
  | succ n ih =>
    intro s h1 h2 h3
    rw [scanUp]
    by_cases e : s ≤ last
    · rw [if_pos e, basicAt_in h1 (by omega)]
      simp only [Except.bind]
      by_cases b : blk (get l s) pivot = true
      · rw [if_pos b]
        obtain ⟨s', e1, e2, e3, e4, e5⟩ := ih (s + 1) (by omega) (by omega) (by omega)
        refine ⟨s', e1, by omega, e3, fun p hp hp2 => ?_, e5⟩
        by_cases hps : p = s
        · rw [hps]; exact b
        · exact e4 p (by omega) hp2
      · rw [if_neg b]
        exact ⟨s, rfl, by omega, by omega, fun p _ _ => by omega, fun _ => b⟩
    · rw [if_neg e]
      exact ⟨s, rfl, by omega, by omega, fun p _ _ => by omega, fun h => absurd h e⟩

theorem scanDown_spec (blk : V → V → Bool) (l : List V) (pivot : V) (first : Int) (hf : 1 ≤ first) :
    ∀ (n : Nat) (g : Int), g ≤ l.length → first - 1 ≤ g → g - first + 2 ≤ n →
      ∃ g', scanDown blk l pivot first n g = .ok g' ∧ g' ≤ g ∧ first - 1 ≤ g' ∧ (∀ p, g' < p → p ≤ g → blk pivot (get l p) = true)
        ∧ (first ≤ g' → ¬ blk pivot (get l g') = true) := by
  intro n
  induction n with
  | zero => intro g h1 h2 h3; omega
  | succ n ih =>
    intro g h1 h2 h3
    rw [scanDown]
    by_cases e : g ≥ first
    · rw [if_pos e, basicAt_in (by omega) h1]
      simp only [Except.bind]
      by_cases b : blk pivot (get l g) = true
      · rw [if_pos b]
        obtain ⟨g', e1, e2, e3, e4, e5⟩ := ih (g - 1) (by omega) (by omega) (by omega)
        refine ⟨g', e1, by omega, e3, fun p hp hp2 => ?_, e5⟩
        by_cases hps : p = g
        · rw [hps]; exact b
        · exact e4 p hp (by omega)
      · rw [if_neg b]
        exact ⟨g, rfl, by omega, by omega, fun p _ _ => by omega, fun _ => b⟩
    · rw [if_neg e]
      exact ⟨g, rfl, by omega, by omega, fun p _ _ => by omega, fun h => absurd h (by omega)⟩

/-- What the partition loop leaves. -/
structure Parted (blk : V → V → Bool) (pivot : V) (first last : Int) (l : List V) (s g : Int) (l' : List V) : Prop where
  swaps : Swaps first last l l'
  cross : g ≤ s
  sb : first ≤ s ∧ s ≤ last + 1
  gb : first - 1 ≤ g ∧ g ≤ last
  small : ∀ p, first ≤ p → p < s → Le blk (get l' p) pivot
  large : ∀ p, g < p → p ≤ last → Le blk pivot (get l' p)
  atS : s ≤ last → Le blk pivot (get l' s)
  atG : first ≤ g → Le blk (get l' g) pivot

theorem partition_spec (blk : V → V → Bool) (pivot : V) (first last : Int) (hf : 1 ≤ first) :
    ∀ (n : Nat) (s g : Int) (l : List V), last ≤ l.length → first ≤ s → s ≤ last + 1 → first - 1 ≤ g → g ≤ last → 1 ≤ n → g - s + 2 ≤ n →
      (∀ p, first ≤ p → p < s → Le blk (get l p) pivot) → (∀ p, g < p → p ≤ last → Le blk pivot (get l p)) →
      ∃ s' g' l', partition blk pivot first last n s g l = .ok (s', g', l') ∧ Parted blk pivot first last l s' g' l' ∧ s ≤ s' ∧ g' ≤ g := by
  intro n
  induction n with
  | zero => intro s g l _ _ _ _ _ h; omega
  | succ n ih =>
    intro s g l hl h1 h2 h3 h4 _ h5 hs hg
    obtain ⟨s1, a1, a2, a3, a4, a5⟩ := scanUp_spec blk l pivot last hl (last - s + 2).toNat s (by omega) h2 (by omega)
    obtain ⟨g1, b1, b2, b3, b4, b5⟩ := scanDown_spec blk l pivot first hf (g - first + 2).toNat g (by omega) h3 (by omega)
    have small : ∀ p, first ≤ p → p < s1 → Le blk (get l p) pivot := by
      intro p p1 p2
      by_cases c : p < s
      · exact hs p p1 c
      · exact le_of_true (a4 p (by omega) p2)
    have large : ∀ p, g1 < p → p ≤ last → Le blk pivot (get l p) := by
      intro p p1 p2
      by_cases c : g < p
      · exact hg p c p2
      · exact le_of_true (b4 p p1 (by omega))
    rw [partition, a1]
    simp only [Except.bind]
    rw [b1]
    simp only
    by_cases c : s1 < g1
    · rw [if_pos c, swapWith_in (by omega) (by omega) (by omega) (by omega)]
      simp only
      obtain ⟨s', g', l', e1, e2, e3, e4⟩ := ih (s1 + 1) (g1 - 1) (swap l s1 g1) (by rw [length_swap]; exact hl) (by omega) (by omega) (by omega) (by omega)
        (by omega) (by omega)
        (fun p p1 p2 => by
          rw [get_swap (by omega) (by omega) (by omega) (by omega), if_neg (by omega)]
          split
          · exact le_of_false (b5 (by omega))
          · exact small p p1 (by omega))
        (fun p p1 p2 => by
          rw [get_swap (by omega) (by omega) (by omega) (by omega)]
          split
          · exact le_of_false (a5 (by omega))
          · rw [if_neg (by omega)]; exact large p (by omega) p2)
      exact ⟨s', g', l', e1, ⟨(Swaps.one (by omega) (by omega) (by omega) (by omega) hf hl).trans e2.swaps, e2.cross, e2.sb, e2.gb, e2.small, e2.large, e2.atS, e2.atG⟩,
        by omega, by omega⟩
    · rw [if_neg c]
      exact ⟨s1, g1, l, rfl, ⟨.refl _, by omega, by omega, by omega, small, large, fun h => le_of_false (a5 h), fun h => le_of_false (b5 h)⟩, a2, b2⟩

theorem blk_of_le {blk : V → V → Bool} (ht : ∀ a b, blk a b = true ∨ blk b a = true) {a b : V} (h : Le blk a b) : blk a b = true := by
  rcases h with h | h
  · exact h
  · rcases ht a b with h2 | h2
    · exact h2
    · rw [h] at h2; cases h2

/-- The partition of a segment whose pivot is its middle element: both parts are shorter, except that when the pivot is least the part above may be everything. -/
theorem partition_top {blk : V → V → Bool} (ho : IsOrder blk) {first last : Int} {l : List V} (hf : 1 ≤ first) (hl : last ≤ l.length) (hd : 2 ≤ last - first)
    (hlast : Le blk (get l ((first + last) / 2)) (get l last)) :
    ∃ s g l', partition blk (get l ((first + last) / 2)) first last (last - first + 2).toNat first last l = .ok (s, g, l')
      ∧ Parted blk (get l ((first + last) / 2)) first last l s g l'
      ∧ (if s > g then g else g - 1) < last
      ∧ (first < (if s > g then s else s + 1) ∨
          (l' = l ∧ (∀ a b, blk a b = true ∨ blk b a = true) ∧ (∀ e, first ≤ e → e ≤ last → Le blk (get l ((first + last) / 2)) (get l e))
            ∧ ¬ blk (get l first) (get l ((first + last) / 2)) = true)) := by
  generalize hm : (first + last) / 2 = mid at *
  have hmid : first < mid ∧ mid < last := by omega
  -- the first turn
  obtain ⟨s1, a1, a2, a3, a4, a5⟩ := scanUp_spec blk l (get l mid) last hl (last - first + 2).toNat first hf (by omega) (by omega)
  obtain ⟨g1, b1, b2, b3, b4, b5⟩ := scanDown_spec blk l (get l mid) first hf (last - first + 2).toNat last hl (by omega) (by omega)
  obtain ⟨n, hn⟩ : ∃ n, (last - first + 2).toNat = n + 1 := ⟨(last - first + 2).toNat - 1, by omega⟩
  by_cases c : s1 < g1
  · obtain ⟨s, g, l', e1, e2, e3, e4⟩ := partition_spec blk (get l mid) first last hf n (s1 + 1) (g1 - 1) (swap l s1 g1) (by rw [length_swap]; exact hl) (by omega)
      (by omega) (by omega) (by omega) (by omega) (by omega)
      (fun p p1 p2 => by
        rw [get_swap (by omega) (by omega) (by omega) (by omega), if_neg (by omega)]
        split
        · exact le_of_false (b5 (by omega))
        · exact le_of_true (a4 p p1 (by omega)))
      (fun p p1 p2 => by
        rw [get_swap (by omega) (by omega) (by omega) (by omega)]
        split
        · exact le_of_false (a5 (by omega))
        · rw [if_neg (by omega)]; exact le_of_true (b4 p (by omega) p2))
    refine ⟨s, g, l', ?_, ⟨(Swaps.one (by omega) (by omega) (by omega) (by omega) hf hl).trans e2.swaps, e2.cross, e2.sb, e2.gb, e2.small, e2.large, e2.atS, e2.atG⟩, ?_, ?_⟩
    · rw [hn] at a1 b1
      rw [hn, partition, show (last - first + 2).toNat = n + 1 from hn, a1]
      simp only [Except.bind]
      rw [b1]
      simp only
      rw [if_pos c, swapWith_in (by omega) (by omega) (by omega) (by omega)]
      exact e1
    · split <;> omega
    · left; split <;> omega
  · refine ⟨s1, g1, l, ?_, ?_, ?_, ?_⟩
    · rw [hn, partition, a1]
      simp only [Except.bind]
      rw [b1]
      simp only
      rw [if_neg c]
    · exact ⟨.refl _, by omega, by omega, by omega, fun p p1 p2 => le_of_true (a4 p p1 p2), fun p p1 p2 => le_of_true (b4 p p1 p2),
        fun h => le_of_false (a5 h), fun h => le_of_false (b5 h)⟩
    · by_cases d : s1 > g1
      · rw [if_pos d]
        by_cases hg : g1 = last
        · exfalso
          have hpp : blk (get l mid) (get l mid) = true := a4 mid (by omega) (by omega)
          rcases ho.kind with ht | ha
          · exact b5 (by omega) (by rw [hg]; exact blk_of_le ht hlast)
          · have := ha _ _ hpp; rw [hpp] at this; cases this
        · omega
      · rw [if_neg d]; omega
    · by_cases d : s1 > g1
      · rw [if_pos d]
        by_cases hs : s1 = first
        · right
          have hpp : blk (get l mid) (get l mid) = true := b4 mid (by omega) (by omega)
          refine ⟨rfl, ?_, fun e e1 e2 => le_of_true (b4 e (by omega) e2), by have := a5 (by omega); rw [hs] at this; exact this⟩
          rcases ho.kind with ht | ha
          · exact ht
          · have := ha _ _ hpp; rw [hpp] at this; cases this
        · left; omega
      · left; rw [if_neg d]; omega

theorem swapIfAfter_swaps (blk : V → V → Bool) {l : List V} {i j f t : Int} (hf : 1 ≤ f) (ht : t ≤ l.length) (h1 : f ≤ i) (h2 : i ≤ t) (h3 : f ≤ j) (h4 : j ≤ t)
    (hij : i ≠ j) :
    ∃ l', swapIfAfter blk l i j = .ok l' ∧ Swaps f t l l' ∧ Le blk (get l' i) (get l' j) ∧ (∀ k, k ≠ i → k ≠ j → get l' k = get l k)
      ∧ (blk (get l i) (get l j) = true → l' = l) ∧ (¬ blk (get l i) (get l j) = true → get l' i = get l j ∧ get l' j = get l i) := by
  rw [swapIfAfter_in blk (by omega) (by omega) (by omega) (by omega)]
  by_cases e : blk (get l i) (get l j) = true
  · rw [if_pos e]
    exact ⟨l, rfl, .refl _, le_of_true e, fun _ _ _ => rfl, fun _ => rfl, fun h => absurd e h⟩
  · rw [if_neg e]
    have g := get_swap (l := l) (i := i) (j := j) (by omega) (by omega) (by omega) (by omega)
    have gi : get (swap l i j) i = get l j := by rw [g, if_neg hij, if_pos rfl]
    have gj : get (swap l i j) j = get l i := by rw [g, if_pos rfl]
    refine ⟨_, rfl, Swaps.one h1 h2 h3 h4 hf ht, ?_, fun k a b => ?_, fun h => absurd h e, fun _ => ⟨gi, gj⟩⟩
    · rw [gi, gj]; exact le_of_false e
    · rw [g, if_neg b, if_neg a]

theorem sortFrom_spec {blk : V → V → Bool} (ho : IsOrder blk) : ∀ (n : Nat) (first last : Int) (l : List V), 1 ≤ first → last ≤ l.length → 1 ≤ n →
    (2 * (last - first) + 3 ≤ n ∨ (2 * (last - first) + 2 ≤ n ∧ (∀ a b, blk a b = true ∨ blk b a = true) ∧
      (∀ e, first ≤ e → e ≤ last → Le blk (get l ((first + last) / 2)) (get l e)))) →
    ∃ l', sortFrom blk n first last l = .ok l' ∧ Swaps first last l l' ∧ SegSorted blk l' first last := by
  intro n
  induction n with
  | zero => intro first last l _ _ h; omega
  | succ n ih =>
    intro first last l hf hl _ hn
    rw [sortFrom]
    by_cases hd : last - first < 2
    · rw [if_pos hd]
      by_cases hgt : last > first
      · rw [if_pos hgt]
        obtain ⟨l', e1, e2, e3, _⟩ := swapIfAfter_swaps blk hf hl (Int.le_refl first) (by omega) (by omega) (Int.le_refl last) (by omega)
        refine ⟨l', e1, e2, fun p q h1 h2 h3 => ?_⟩
        by_cases hpq : p = q
        · rw [hpq]; exact le_refl _ _
        · rw [show p = first by omega, show q = last by omega]; exact e3
      · rw [if_neg hgt]
        refine ⟨l, rfl, .refl _, fun p q h1 h2 h3 => ?_⟩
        rw [show p = q by omega]; exact le_refl _ _
    · rw [if_neg hd]
      have hm : first < (first + last) / 2 ∧ (first + last) / 2 < last := by omega
      generalize hmm : (first + last) / 2 = mid at hm hn ⊢
      obtain ⟨l1, a1, a2, a3, a4, a5, a6⟩ := swapIfAfter_swaps blk (i := first) (j := mid) hf hl (by omega) (by omega) (by omega) (by omega) (by omega)
      obtain ⟨l2, b1, b2, b3, b4, b5, b6⟩ := swapIfAfter_swaps blk (l := l1) (i := mid) (j := last) hf (by rw [a2.length]; exact hl) (by omega) (by omega) (by omega) (by omega) (by omega)
      obtain ⟨l3, c1, c2, c3, c4, c5, c6⟩ := swapIfAfter_swaps blk (l := l2) (i := first) (j := last) hf (by rw [b2.length, a2.length]; exact hl) (by omega) (by omega) (by omega) (by omega) (by omega)
      have hlen3 : l3.length = l.length := by rw [c2.length, b2.length, a2.length]
      have sw3 : Swaps first last l l3 := (a2.trans b2).trans c2
      have hlast3 : Le blk (get l3 mid) (get l3 last) := by
        rw [c4 mid (by omega) (by omega)]
        by_cases e : blk (get l2 first) (get l2 last) = true
        · rw [c5 e]; exact b3
        · rw [(c6 e).2]; exact ho.trans _ _ _ b3 (le_of_false e)
      obtain ⟨s, g, l4, d1, d2, d3, d4⟩ := partition_top ho (first := first) (last := last) (l := l3) hf (by omega) (by omega) (by rw [hmm]; exact hlast3)
      rw [hmm] at d1 d2 d4
      simp only [a1, Except.bind, b1, c1]
      rw [basicAt_in (l := l3) (i := mid) (by omega) (by omega)]
      simp only [d1]
      have hlen4 : l4.length = l.length := by rw [d2.swaps.length, hlen3]
      -- in the second case for the bound, the first element is least after the three swaps, so the part above starts after it
      have hprog : first < (if s > g then s else s + 1) ∨ (2 * (last - first) + 2 ≤ n ∧ (∀ a b, blk a b = true ∨ blk b a = true) ∧
          (∀ e, first ≤ e → e ≤ last → Le blk (get l4 mid) (get l4 e))) := by
        rcases d4 with d4 | ⟨rfl, ht, hmin, hnot⟩
        · exact .inl d4
        · rcases hn with hn | ⟨hn, ht', hmin'⟩
          · exact .inr ⟨by omega, ht, hmin⟩
          · exfalso
            have m1 : ∀ e, first ≤ e → e ≤ last → Le blk (get l1 first) (get l1 e) := by
              intro e h1 h2
              have hall := a2.all (fun v => Le blk (get l mid) v) hmin' e h1 h2
              by_cases c : blk (get l first) (get l mid) = true
              · have he := a5 c
                have : Le blk (get l1 first) (get l mid) := by rw [he]; exact le_of_true c
                exact ho.trans _ _ _ this hall
              · rw [(a6 c).1]; exact hall
            have m2 : ∀ e, first ≤ e → e ≤ last → Le blk (get l2 first) (get l2 e) := by
              intro e h1 h2
              rw [b4 first (by omega) (by omega)]
              exact b2.all (fun v => Le blk (get l1 first) v) m1 e h1 h2
            have e3 : l4 = l2 := c5 (blk_of_le ht (m2 last (by omega) (by omega)))
            apply hnot
            rw [e3]
            exact blk_of_le ht (m2 mid (by omega) (by omega))
      generalize hS : (if s > g then s else s + 1) = S at *
      generalize hG : (if s > g then g else g - 1) = G at *
      have hcross := d2.cross
      have hGS : G < S ∧ first ≤ S ∧ G ≤ last ∧ first - 2 ≤ G ∧ G ≤ g ∧ s ≤ S := by
        have := d2.sb; have := d2.gb
        rw [← hS, ← hG]; split <;> omega
      have hsmall : ∀ p, first ≤ p → p < S → Le blk (get l4 p) (get l3 mid) := by
        intro p p1 p2
        by_cases c : p < s
        · exact d2.small p p1 c
        · have : ¬ s > g := by intro h; rw [if_pos h] at hS; omega
          rw [if_neg this] at hS
          rw [show p = g by omega]
          exact d2.atG (by omega)
      have hlarge : ∀ p, G < p → p ≤ last → Le blk (get l3 mid) (get l4 p) := by
        intro p p1 p2
        by_cases c : g < p
        · exact d2.large p c p2
        · have : ¬ s > g := by intro h; rw [if_pos h] at hG; omega
          rw [if_neg this] at hG
          rw [show p = s by omega]
          exact d2.atS (by omega)
      -- the lower part
      obtain ⟨l5, e1, e2, e3⟩ : ∃ l5, (if first < G then sortFrom blk n first G l4 else .ok l4) = .ok l5 ∧ Swaps first G l4 l5 ∧ SegSorted blk l5 first G := by
        by_cases c : first < G
        · rw [if_pos c]
          exact ih first G l4 hf (by omega) (by omega) (.inl (by omega))
        · rw [if_neg c]
          refine ⟨l4, rfl, .refl _, fun p q h1 h2 h3 => ?_⟩
          rw [show p = q by omega]; exact le_refl _ _
      rw [e1]
      simp only
      have hlen5 : l5.length = l.length := by rw [e2.length, hlen4]
      -- the upper part
      obtain ⟨l6, f1, f2, f3⟩ : ∃ l6, (if S < last then sortFrom blk n S last l5 else .ok l5) = .ok l6 ∧ Swaps S last l5 l6 ∧ SegSorted blk l6 S last := by
        by_cases c : S < last
        · rw [if_pos c]
          refine ih S last l5 (by omega) (by omega) (by omega) ?_
          rcases hprog with h | ⟨h1, h2, h3⟩
          · left; omega
          · by_cases hSf : first < S
            · left; omega
            · right
              have hSf : S = first := by omega
              have e45 : l5 = l4 := by
                rw [if_neg (by omega)] at e1; exact (Except.ok.inj e1).symm
              rw [hSf, hmm, e45]
              exact ⟨h1, h2, h3⟩
        · rw [if_neg c]
          refine ⟨l5, rfl, .refl _, fun p q h1 h2 h3 => ?_⟩
          rw [show p = q by omega]; exact le_refl _ _
      refine ⟨l6, f1, ((sw3.trans d2.swaps).trans (e2.mono (by omega) (by omega))).trans (f2.mono (by omega) (by omega)), ?_⟩
      have low6 : ∀ p, p < S → get l6 p = get l5 p := fun p h => f2.outside p (.inl h)
      have high5 : ∀ p, G < p → get l5 p = get l4 p := fun p h => e2.outside p (.inr h)
      have hsmall6 : ∀ p, first ≤ p → p < S → Le blk (get l6 p) (get l3 mid) := by
        intro p p1 p2
        rw [low6 p p2]
        by_cases c : p ≤ G
        · exact e2.all (fun v => Le blk v (get l3 mid)) (fun k k1 k2 => hsmall k k1 (by omega)) p p1 c
        · rw [high5 p (by omega)]; exact hsmall p p1 p2
      have hlarge6 : ∀ p, G < p → p ≤ last → Le blk (get l3 mid) (get l6 p) := by
        intro p p1 p2
        by_cases c : S ≤ p
        · exact f2.all (fun v => Le blk (get l3 mid) v) (fun k k1 k2 => by rw [high5 k (by omega)]; exact hlarge k (by omega) k2) p c p2
        · rw [low6 p (by omega), high5 p p1]; exact hlarge p p1 p2
      intro p q h1 h2 h3
      by_cases c1 : q ≤ G
      · rw [low6 p (by omega), low6 q (by omega)]; exact e3 p q h1 h2 c1
      · by_cases c2 : S ≤ p
        · exact f3 p q c2 h2 h3
        · exact ho.trans _ _ _ (hsmall6 p h1 (by omega)) (hlarge6 q (by omega) h3)

/-- The whole sort: it ends, rearranges the segment and leaves it in order. -/
theorem sortSlots_spec {blk : V → V → Bool} (ho : IsOrder blk) (first last : Int) (l : List V) (hf : 1 ≤ first) (hl : last ≤ l.length) :
    ∃ l', sortSlots blk first last l = .ok l' ∧ Swaps first last l l' ∧ SegSorted blk l' first last :=
  sortFrom_spec ho _ first last l hf hl (by omega) (.inl (by omega))

end Verif.SortColl
