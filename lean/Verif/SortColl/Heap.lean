import Verif.SortColl.Sort
/-!
# The heap of SortedCollection
-/
namespace Verif.SortColl
open Verif.OrdColl
set_option linter.unusedSectionVars false
variable {V : Type} [Inhabited V]

/-- Among the elements 1 to `n` that follow position `d`, every child of an element from `k` on may come before it. -/
def HeapFrom (blk : V → V → Bool) (l : List V) (d n k : Int) : Prop :=
  ∀ i j, k ≤ i → (j = 2 * i ∨ j = 2 * i + 1) → j ≤ n → Le blk (get l (d + j)) (get l (d + i))

theorem sift_spec {blk : V → V → Bool} (ho : IsOrder blk) (d n k : Int) (hd : 0 ≤ d) (hk : 1 ≤ k) :
    ∀ (m : Nat) (p : Int) (l : List V), d + n ≤ l.length → k ≤ p → d + p ≤ l.length → 1 ≤ m → n - p + 2 ≤ m →
      (∀ i j, k ≤ i → i ≠ p → (j = 2 * i ∨ j = 2 * i + 1) → j ≤ n → Le blk (get l (d + j)) (get l (d + i))) →
      (∀ q j, k ≤ q → (p = 2 * q ∨ p = 2 * q + 1) → (j = 2 * p ∨ j = 2 * p + 1) → j ≤ n → Le blk (get l (d + j)) (get l (d + q))) →
      ∃ l', sift blk d n (get l (d + p)) m p l = .ok l' ∧ Swaps (d + k) (d + n) l l' ∧ HeapFrom blk l' d n k := by
  intro m
  induction m with
  | zero => intro p l _ _ _ h; omega
  | succ m ih =>
    intro p l hl hp hpl _ hm h1 h2
    rw [sift]
    by_cases c : p + p > n
    · rw [if_pos c]
      refine ⟨l, rfl, .refl _, fun i j a b e => ?_⟩
      by_cases hi : i = p
      · omega
      · exact h1 i j a hi b e
    · rw [if_neg c, basicAt_in (by omega) (by omega)]
      simp only [Except.bind]
      -- the greater child
      obtain ⟨ci, hc, hci, hcn, hsib⟩ : ∃ ci, ((if p + p = n then (.ok (get l (d + (p + p)), p + p) : Res (V × Int))
          else (basicAt l (d + (p + p) + 1)).map fun childB =>
            if blk (get l (d + (p + p))) childB then (childB, p + p + 1) else (get l (d + (p + p)), p + p))) = .ok (get l (d + ci), ci)
          ∧ (ci = 2 * p ∨ ci = 2 * p + 1) ∧ ci ≤ n ∧ (∀ j, (j = 2 * p ∨ j = 2 * p + 1) → j ≤ n → Le blk (get l (d + j)) (get l (d + ci))) := by
        by_cases e : p + p = n
        · rw [if_pos e]
          refine ⟨p + p, rfl, by omega, by omega, fun j hj hjn => ?_⟩
          rw [show j = p + p by omega]; exact le_refl _ _
        · rw [if_neg e, basicAt_in (by omega) (by omega)]
          simp only [Except.map]
          by_cases b : blk (get l (d + (p + p))) (get l (d + (p + p) + 1)) = true
          · rw [if_pos b]
            refine ⟨p + p + 1, by rw [show d + (p + p + 1) = d + (p + p) + 1 by omega], by omega, by omega, fun j hj hjn => ?_⟩
            rcases hj with hj | hj
            · rw [show d + j = d + (p + p) by omega, show d + (p + p + 1) = d + (p + p) + 1 by omega]; exact le_of_true b
            · rw [show j = p + p + 1 by omega]; exact le_refl _ _
          · rw [if_neg b]
            refine ⟨p + p, rfl, by omega, by omega, fun j hj hjn => ?_⟩
            rcases hj with hj | hj
            · rw [show j = p + p by omega]; exact le_refl _ _
            · rw [show d + j = d + (p + p) + 1 by omega]; exact le_of_false b
      rw [hc]
      simp only
      by_cases b : blk (get l (d + ci)) (get l (d + p)) = true
      · rw [if_pos b]
        refine ⟨l, rfl, .refl _, fun i j a b' e => ?_⟩
        by_cases hi : i = p
        · subst hi
          exact ho.trans _ _ _ (hsib j b' e) (le_of_true b)
        · exact h1 i j a hi b' e
      · rw [if_neg b, basicPut_in _ (by omega) (by omega)]
        simp only
        rw [basicPut_in _ (by omega) (by rw [length_setI]; omega)]
        simp only
        have e1 : setI (setI l (d + ci) (get l (d + p))) (d + p) (get l (d + ci)) = swap l (d + ci) (d + p) := rfl
        rw [e1]
        have g := get_swap (l := l) (i := d + ci) (j := d + p) (by omega) (by omega) (by omega) (by omega)
        have gc : get (swap l (d + ci) (d + p)) (d + ci) = get l (d + p) := by rw [g, if_neg (by omega), if_pos rfl]
        have gp : get (swap l (d + ci) (d + p)) (d + p) = get l (d + ci) := by rw [g, if_pos rfl]
        have go : ∀ x, x ≠ p → x ≠ ci → get (swap l (d + ci) (d + p)) (d + x) = get l (d + x) := by
          intro x a b; rw [g, if_neg (by omega), if_neg (by omega)]
        obtain ⟨l', f1, f2, f3⟩ := ih ci (swap l (d + ci) (d + p)) (by rw [length_swap]; exact hl) (by omega) (by rw [length_swap]; omega) (by omega) (by omega)
          (fun i j a b' e f => by
            by_cases hi : i = p
            · subst hi
              rw [gp]
              by_cases hj : j = ci
              · rw [hj, gc]; exact le_of_false b
              · rw [go j (by omega) hj]; exact hsib j e f
            · rw [go i hi b']
              by_cases hj : j = p
              · rw [hj, gp]; exact h2 i ci a (by omega) hci hcn
              · by_cases hj2 : j = ci
                · exfalso; omega
                · rw [go j hj hj2]; exact h1 i j a hi e f)
          (fun q j a b' e f => by
            have hq : q = p := by omega
            subst hq
            rw [gp, go j (by omega) (by omega)]
            exact h1 ci j (by omega) (by omega) e f)
        rw [gc] at f1
        exact ⟨l', f1, (Swaps.one (by omega) (by omega) (by omega) (by omega) (by omega) (by omega)).trans f2, f3⟩

theorem buildLoop_spec {blk : V → V → Bool} (ho : IsOrder blk) (d n : Int) (hd : 0 ≤ d) :
    ∀ (s : Nat) (l : List V), d + n ≤ l.length → s ≤ max n 0 → HeapFrom blk l d n (s + 1) →
      ∃ l', buildLoop blk d n s l = .ok l' ∧ Swaps (d + 1) (d + n) l l' ∧ HeapFrom blk l' d n 1 := by
  intro s
  induction s with
  | zero => intro l _ _ h; exact ⟨l, rfl, .refl _, h⟩
  | succ s ih =>
    intro l hl hs h
    have hn : ((s : Int) + 1) ≤ n := by omega
    obtain ⟨l1, a1, a2, a3⟩ := sift_spec ho d n (s + 1) hd (by omega) (n.toNat + 2) (s + 1) l hl (by omega) (by omega) (by omega) (by omega)
      (fun i j a b e f => h i j (by push_cast; omega) e f) (fun q j a b e f => by omega)
    obtain ⟨l2, b1, b2, b3⟩ := ih l1 (by rw [a2.length]; exact hl) (by omega) a3
    refine ⟨l2, ?_, (a2.mono (by omega) (by omega)).trans b2, b3⟩
    rw [buildLoop, basicAt_in (by omega) (by omega)]
    simp only [Except.bind]
    rw [a1]
    exact b1

theorem upLoop_spec {blk : V → V → Bool} (ho : IsOrder blk) (first : Int) (hf : 1 ≤ first) (m : Int) (item : V) :
    ∀ (n : Nat) (hole : Int) (l : List V), 0 ≤ hole → hole < m → first + m - 1 ≤ l.length → 1 ≤ n → hole + 1 ≤ n →
      (∀ i j, 1 ≤ i → (j = 2 * i ∨ j = 2 * i + 1) → j ≤ m → j ≠ hole + 1 →
        Le blk (get (setI l (first + hole) item) (first - 1 + j)) (get (setI l (first + hole) item) (first - 1 + i))) →
      (∀ q j, 1 ≤ q → (hole + 1 = 2 * q ∨ hole + 1 = 2 * q + 1) → (j = 2 * (hole + 1) ∨ j = 2 * (hole + 1) + 1) → j ≤ m →
        Le blk (get (setI l (first + hole) item) (first - 1 + j)) (get (setI l (first + hole) item) (first - 1 + q))) →
      ∃ l', upLoop blk first item n hole l = .ok l' ∧ Swaps first (first + m - 1) (setI l (first + hole) item) l' ∧ HeapFrom blk l' (first - 1) m 1 := by
  intro n
  induction n with
  | zero => intro hole l _ _ _ h; omega
  | succ n ih =>
    intro hole l hh hm hl _ hn h1 h2
    rw [upLoop]
    have stop : ∀ hole : Int, 0 ≤ hole → hole < m → basicPut l (first + hole) item = .ok (setI l (first + hole) item) :=
      fun hole a b => basicPut_in _ (by omega) (by omega)
    by_cases hpos : hole > 0
    · rw [if_pos hpos]
      simp only
      generalize hq : (hole - 1) / 2 = pi
      have hpi : 0 ≤ pi ∧ pi < hole ∧ (hole + 1 = 2 * (pi + 1) ∨ hole + 1 = 2 * (pi + 1) + 1) := by omega
      have gl := get_setI (l := l) (i := first + hole) item (by omega) (by omega)
      have hpar : get l (first + pi) = get (setI l (first + hole) item) (first - 1 + (pi + 1)) := by
        rw [gl, if_neg (by omega)]; congr 1; omega
      have hhole : get (setI l (first + hole) item) (first - 1 + (hole + 1)) = item := by rw [gl, if_pos (by omega)]
      rw [basicAt_in (by omega) (by omega)]
      simp only [Except.bind]
      by_cases b : blk (get l (first + pi)) item = true
      · rw [if_pos b, basicPut_in _ (by omega) (by omega)]
        simp only
        have ev : setI (setI l (first + hole) (get l (first + pi))) (first + pi) item
            = swap (setI l (first + hole) item) (first + pi) (first + hole) := by
          apply ext_get
          · simp only [length_setI, length_swap]
          · intro x _ _
            rw [get_setI _ (by omega) (by rw [length_setI]; omega), get_setI _ (by omega) (by omega),
              get_swap (by omega) (by rw [length_setI]; omega) (by omega) (by rw [length_setI]; omega), gl, gl, gl]
            by_cases x1 : x = first + pi
            · subst x1; rw [if_pos rfl, if_neg (by omega), if_pos rfl, if_pos rfl]
            · rw [if_neg x1, if_neg x1]
              by_cases x2 : x = first + hole
              · subst x2; rw [if_pos rfl, if_pos rfl, if_neg (by omega)]
              · rw [if_neg x2, if_neg x2, if_neg x2]
        generalize hlv : setI l (first + hole) item = lv at *
        have hlen : lv.length = l.length := by rw [← hlv, length_setI]
        have g := get_swap (l := lv) (i := first + pi) (j := first + hole) (by omega) (by omega) (by omega) (by omega)
        have gk : get (swap lv (first + pi) (first + hole)) (first - 1 + (hole + 1)) = get lv (first - 1 + (pi + 1)) := by
          rw [g, if_pos (by omega)]; congr 1; omega
        have gq : get (swap lv (first + pi) (first + hole)) (first - 1 + (pi + 1)) = item := by
          rw [g, if_neg (by omega), if_pos (by omega), ← hhole]; congr 1; omega
        have go : ∀ x, x ≠ hole + 1 → x ≠ pi + 1 → get (swap lv (first + pi) (first + hole)) (first - 1 + x) = get lv (first - 1 + x) := by
          intro x a b; rw [g, if_neg (by omega), if_neg (by omega)]
        rw [hpar] at b
        obtain ⟨l', e1, e2, e3⟩ := ih pi (setI l (first + hole) (get l (first + pi))) (by omega) (by omega) (by rw [length_setI]; exact hl) (by omega) (by omega)
          (by
            rw [ev]
            intro i j a b' e f
            by_cases hi : i = pi + 1
            · subst hi
              rw [gq]
              by_cases hj : j = hole + 1
              · subst hj; rw [gk]; exact le_of_true b
              · rw [go j hj f]; exact ho.trans _ _ _ (h1 (pi + 1) j a b' e hj) (le_of_true b)
            · by_cases hi2 : i = hole + 1
              · subst hi2
                rw [gk, go j (by omega) (by omega)]
                exact h2 (pi + 1) j (by omega) hpi.2.2 b' e
              · rw [go i hi2 hi]
                by_cases hj : j = hole + 1
                · exfalso; omega
                · rw [go j hj f]; exact h1 i j a b' e hj)
          (by
            rw [ev]
            intro q j a b' e f
            rw [go q (by omega) (by omega)]
            have hup := h1 q (pi + 1) a b' (by omega) (by omega)
            by_cases hj : j = hole + 1
            · subst hj; rw [gk]; exact hup
            · rw [go j hj (by omega)]
              exact ho.trans _ _ _ (h1 (pi + 1) j (by omega) e f hj) hup)
        rw [ev] at e2
        exact ⟨l', e1, (Swaps.one (by omega) (by omega) (by omega) (by omega) (by omega) (by omega)).trans e2, e3⟩
      · rw [if_neg b, stop hole hh hm]
        refine ⟨_, rfl, .refl _, fun i j a b' e => ?_⟩
        by_cases hj : j = hole + 1
        · have : i = pi + 1 := by omega
          subst this; subst hj
          rw [hhole, ← hpar]
          exact le_of_false b
        · exact h1 i j a b' e hj
    · rw [if_neg hpos, stop hole hh hm]
      refine ⟨_, rfl, .refl _, fun i j a b' e => h1 i j a b' e (by omega)⟩

/-- The first element of a heap is a greatest. -/
theorem heap_max {blk : V → V → Bool} (ho : IsOrder blk) {l : List V} {d n : Int} (h : HeapFrom blk l d n 1) :
    ∀ j, 1 ≤ j → j ≤ n → Le blk (get l (d + j)) (get l (d + 1)) := by
  have : ∀ (k : Nat) (j : Int), j = k → 1 ≤ j → j ≤ n → Le blk (get l (d + j)) (get l (d + 1)) := by
    intro k
    induction k using Nat.strongRecOn with
    | ind k ih =>
      intro j hj h1 h2
      by_cases e : j = 1
      · rw [e]; exact le_refl _ _
      · exact ho.trans _ _ _ (h (j / 2) j (by omega) (by omega) h2) (ih (j / 2).toNat (by omega) (j / 2) (by omega) (by omega) (by omega))
  intro j h1 h2
  exact this j.toNat j (by omega) h1 h2

/-! ## On collections -/

/-- Only the slots between `first` and `last` are rearranged, and nothing else changes. -/
structure SameBut (c c' : SC V) : Prop where
  first : c'.oc.first = c.oc.first
  last : c'.oc.last = c.oc.last
  swaps : Swaps c.oc.first c.oc.last c.oc.slots c'.oc.slots

theorem SameBut.refl (c : SC V) : SameBut c c := ⟨rfl, rfl, .refl _⟩
theorem SameBut.trans {a b c : SC V} (h : SameBut a b) (h2 : SameBut b c) : SameBut a c :=
  ⟨h2.first.trans h.first, h2.last.trans h.last, h.swaps.trans (by have := h2.swaps; rwa [h.first, h.last] at this)⟩

def InBounds (c : SC V) : Prop := 1 ≤ c.oc.first ∧ c.oc.first - 1 ≤ c.oc.last ∧ c.oc.last ≤ c.oc.slots.length

theorem SameBut.inBounds {c c' : SC V} (h : SameBut c c') (hb : InBounds c) : InBounds c' := by
  obtain ⟨a, b, d⟩ := hb
  refine ⟨by rw [h.first]; exact a, by rw [h.first, h.last]; exact b, by rw [h.last, h.swaps.length]; exact d⟩

/-- `first` to `upTo` is a heap. -/
def HeapUpTo (blk : V → V → Bool) (c : SC V) (upTo : Int) : Prop := HeapFrom blk c.oc.slots (c.oc.first - 1) (upTo - (c.oc.first - 1)) 1

theorem setI_same {l : List V} {i : Int} (h1 : 1 ≤ i) (h2 : i ≤ l.length) : setI l i (get l i) = l := by
  apply ext_get (length_setI ..)
  intro k _ _
  rw [get_setI _ h1 h2]
  split
  · next h => rw [h]
  · rfl

theorem percolateUp_spec {blk : V → V → Bool} (ho : IsOrder blk) {c : SC V} (hb : InBounds c) (h0 : 0 ≤ c.lastOrdered) (hlt : c.lastOrdered < c.oc.last)
    (hh : HeapUpTo blk c c.lastOrdered) :
    ∃ c', c.percolateUp blk = .ok c' ∧ SameBut c c' ∧ c'.lastOrdered = c.lastOrdered + 1 ∧ HeapUpTo blk c' c'.lastOrdered := by
  obtain ⟨b1, b2, b3⟩ := hb
  rw [SC.percolateUp, basicAt_in (by omega) (by omega)]
  simp only [Except.bind]
  by_cases e : c.lastOrdered + 1 < c.oc.first
  · -- slots before the elements stay as they are
    have : upLoop blk c.oc.first (get c.oc.slots (c.lastOrdered + 1)) ((c.lastOrdered + 1).toNat + 2) (c.lastOrdered + 1 - c.oc.first) c.oc.slots = .ok c.oc.slots := by
      rw [upLoop, if_neg (by omega), show c.oc.first + (c.lastOrdered + 1 - c.oc.first) = c.lastOrdered + 1 by omega, basicPut_in _ (by omega) (by omega),
        setI_same (by omega) (by omega)]
    rw [this]
    exact ⟨_, rfl, ⟨rfl, rfl, .refl _⟩, rfl, fun i j a b' e' => by simp only at e'; omega⟩
  · have hpos : c.oc.first + (c.lastOrdered + 1 - c.oc.first) = c.lastOrdered + 1 := by omega
    obtain ⟨l', e1, e2, e3⟩ := upLoop_spec ho c.oc.first b1 (c.lastOrdered + 1 - (c.oc.first - 1)) (get c.oc.slots (c.lastOrdered + 1)) ((c.lastOrdered + 1).toNat + 2)
      (c.lastOrdered + 1 - c.oc.first) c.oc.slots (by omega) (by omega) (by omega) (by omega) (by omega)
      (by
        rw [hpos, setI_same (by omega) (by omega)]
        intro i j a b' e' f
        exact hh i j a b' (by omega))
      (fun q j a b' e' f => by omega)
    rw [hpos, setI_same (by omega) (by omega)] at e2
    rw [e1]
    exact ⟨_, rfl, ⟨rfl, rfl, e2.mono (by omega) (by omega)⟩, rfl, e3⟩

theorem percolateUps_spec {blk : V → V → Bool} (ho : IsOrder blk) : ∀ (n : Nat) {c : SC V}, InBounds c → 0 ≤ c.lastOrdered → c.lastOrdered + n = c.oc.last →
    HeapUpTo blk c c.lastOrdered → ∃ c', SC.percolateUps blk n c = .ok c' ∧ SameBut c c' ∧ HeapUpTo blk c' c'.oc.last := by
  intro n
  induction n with
  | zero => intro c hb h0 h hh; exact ⟨c, rfl, .refl c, by rw [← h]; simpa using hh⟩
  | succ n ih =>
    intro c hb h0 h hh
    obtain ⟨c1, a1, a2, a3, a4⟩ := percolateUp_spec ho hb h0 (by omega) hh
    obtain ⟨c2, d1, d2, d3⟩ := ih (a2.inBounds hb) (by omega) (by rw [a2.last]; push_cast at h; omega) a4
    refine ⟨c2, ?_, a2.trans d2, d3⟩
    rw [SC.percolateUps, a1]
    exact d1

theorem buildHeap_spec {blk : V → V → Bool} (ho : IsOrder blk) {c : SC V} (hb : InBounds c) :
    ∃ c', c.buildHeap blk = .ok c' ∧ SameBut c c' ∧ HeapUpTo blk c' c'.oc.last := by
  obtain ⟨b1, b2, b3⟩ := hb
  obtain ⟨l', e1, e2, e3⟩ := buildLoop_spec ho (c.oc.first - 1) (c.oc.last - (c.oc.first - 1)) (by omega) ((c.oc.size + 1) / 2).toNat c.oc.slots (by omega)
    (by rw [OC.size]; omega) (fun i j a b' e => by rw [OC.size] at a; omega)
  rw [SC.buildHeap, e1]
  exact ⟨_, rfl, ⟨rfl, rfl, e2.mono (by omega) (by omega)⟩, e3⟩

theorem makeHeap_spec {blk : V → V → Bool} (ho : IsOrder blk) (up : Int → Int → Bool) {c : SC V} (hb : InBounds c) (h0 : 0 ≤ c.lastOrdered)
    (hle : c.lastOrdered ≤ c.oc.last) (hh : HeapUpTo blk c c.lastOrdered) :
    ∃ c', c.makeHeap blk up = .ok c' ∧ SameBut c c' ∧ c'.lastOrdered = c'.oc.last ∧ c'.sorted = false ∧ HeapUpTo blk c' c'.oc.last := by
  rw [SC.makeHeap]
  by_cases e : up (c.oc.last - c.lastOrdered) c.oc.size = true
  · rw [if_pos e]
    obtain ⟨c1, a1, a2, a3⟩ := percolateUps_spec ho (c.oc.last - c.lastOrdered).toNat hb h0 (by omega) hh
    rw [a1]
    exact ⟨_, rfl, ⟨a2.first, a2.last, a2.swaps⟩, rfl, rfl, a3⟩
  · rw [if_neg e]
    obtain ⟨c1, a1, a2, a3⟩ := buildHeap_spec ho hb
    rw [a1]
    exact ⟨_, rfl, ⟨a2.first, a2.last, a2.swaps⟩, rfl, rfl, a3⟩

/-- `percolateDown` moves a greatest element of the heap to its end and leaves a heap before it. -/
theorem percolateDown_spec {blk : V → V → Bool} (ho : IsOrder blk) {c : SC V} (hb : InBounds c) (h1 : c.oc.first ≤ c.lastOrdered) (h2 : c.lastOrdered ≤ c.oc.last)
    (hh : HeapUpTo blk c c.lastOrdered) :
    ∃ c', c.percolateDown blk = .ok c' ∧ c'.oc.first = c.oc.first ∧ c'.oc.last = c.oc.last ∧ c'.sorted = c.sorted
      ∧ Swaps c.oc.first c.lastOrdered c.oc.slots c'.oc.slots
      ∧ c'.lastOrdered = c.lastOrdered - 1 ∧ HeapUpTo blk c' c'.lastOrdered
      ∧ get c'.oc.slots c.lastOrdered = get c.oc.slots c.oc.first
      ∧ (∀ p, c.oc.first ≤ p → p ≤ c.lastOrdered → Le blk (get c.oc.slots p) (get c.oc.slots c.oc.first)) := by
  obtain ⟨b1, b2, b3⟩ := hb
  have hmax : ∀ p, c.oc.first ≤ p → p ≤ c.lastOrdered → Le blk (get c.oc.slots p) (get c.oc.slots c.oc.first) := by
    intro p p1 p2
    have := heap_max ho hh (p - (c.oc.first - 1)) (by omega) (by omega)
    rw [show c.oc.first - 1 + (p - (c.oc.first - 1)) = p by omega, show c.oc.first - 1 + 1 = c.oc.first by omega] at this
    exact this
  have g := get_swap (l := c.oc.slots) (i := c.lastOrdered) (j := c.oc.first) (by omega) (by omega) (by omega) (by omega)
  have hlen := length_swap c.oc.slots c.lastOrdered c.oc.first
  obtain ⟨l', e1, e2, e3⟩ := sift_spec ho (c.oc.first - 1) (c.lastOrdered - 1 - (c.oc.first - 1)) 1 (by omega) (by omega)
    ((c.lastOrdered - 1 - (c.oc.first - 1)).toNat + 2) 1 (swap c.oc.slots c.lastOrdered c.oc.first) (by omega) (by omega) (by omega) (by omega) (by omega)
    (fun i j a b' e f => by
      rw [g, g, if_neg (by omega), if_neg (by omega), if_neg (by omega), if_neg (by omega)]
      exact hh i j a e (by omega))
    (fun q j a b' e f => by omega)
  rw [SC.percolateDown, swapWith_in (by omega) (by omega) (by omega) (by omega)]
  simp only [Except.bind]
  rw [basicAt_in (by omega) (by omega)]
  simp only
  rw [e1]
  refine ⟨_, rfl, rfl, rfl, rfl, ?_, rfl, e3, ?_, hmax⟩
  · exact (Swaps.one (by omega) (by omega) (by omega) (by omega) (by omega) (by omega)).trans (e2.mono (by omega) (by omega))
  · simp only
    rw [e2.outside _ (.inr (by omega)), g]
    split
    · next h => rw [h]
    · rw [if_pos rfl]

theorem percolateDowns_spec {blk : V → V → Bool} (ho : IsOrder blk) : ∀ (n : Nat) {c : SC V}, InBounds c → c.oc.first + n ≤ c.lastOrdered → c.lastOrdered ≤ c.oc.last →
    HeapUpTo blk c c.lastOrdered → SegSorted blk c.oc.slots (c.lastOrdered + 1) c.oc.last →
    (∀ p q, c.oc.first ≤ p → p ≤ c.lastOrdered → c.lastOrdered < q → q ≤ c.oc.last → Le blk (get c.oc.slots p) (get c.oc.slots q)) →
    ∃ c', SC.percolateDowns blk n c = .ok c' ∧ SameBut c c' ∧ c'.lastOrdered = c.lastOrdered - n
      ∧ SegSorted blk c'.oc.slots (c'.lastOrdered + 1) c.oc.last
      ∧ (∀ p q, c.oc.first ≤ p → p ≤ c'.lastOrdered → c'.lastOrdered < q → q ≤ c.oc.last → Le blk (get c'.oc.slots p) (get c'.oc.slots q)) := by
  intro n
  induction n with
  | zero => intro c hb h1 h2 hh hs hx; exact ⟨c, rfl, .refl c, by simp, hs, hx⟩
  | succ n ih =>
    intro c hb h1 h2 hh hs hx
    push_cast at h1
    obtain ⟨c1, a1, a2, a3, _, a4, a5, a6, a7, a8⟩ := percolateDown_spec ho hb (by omega) h2 hh
    have same : SameBut c c1 := ⟨a2, a3, a4.mono (by omega) h2⟩
    have hout : ∀ p, c.lastOrdered < p → get c1.oc.slots p = get c.oc.slots p := fun p h => a4.outside p (.inr h)
    have hin : ∀ p, c.oc.first ≤ p → p ≤ c.lastOrdered → Le blk (get c1.oc.slots p) (get c.oc.slots c.oc.first) := a4.all (fun v => Le blk v (get c.oc.slots c.oc.first)) a8
    have hs1 : SegSorted blk c1.oc.slots (c1.lastOrdered + 1) c1.oc.last := by
      intro p q p1 p2 p3
      rw [a5] at p1
      rw [a3] at p3
      by_cases e : p = c.lastOrdered
      · by_cases e2 : q = c.lastOrdered
        · rw [e, e2]; exact le_refl _ _
        · rw [e, a7, hout q (by omega)]; exact hx _ q (by omega) (by omega) (by omega) p3
      · rw [hout p (by omega), hout q (by omega)]; exact hs p q (by omega) p2 p3
    have hx1 : ∀ p q, c1.oc.first ≤ p → p ≤ c1.lastOrdered → c1.lastOrdered < q → q ≤ c1.oc.last → Le blk (get c1.oc.slots p) (get c1.oc.slots q) := by
      intro p q p1 p2 p3 p4
      rw [a2] at p1
      rw [a5] at p2 p3
      rw [a3] at p4
      have := hin p p1 (by omega)
      by_cases e : q = c.lastOrdered
      · rw [e, a7]; exact this
      · rw [hout q (by omega)]
        exact ho.trans _ _ _ this (hx _ q (by omega) (by omega) (by omega) p4)
    obtain ⟨c2, d1, d2, d3, d4, d5⟩ := ih (same.inBounds hb) (by omega) (by omega) a6 hs1 hx1
    refine ⟨c2, ?_, same.trans d2, by rw [d3, a5]; push_cast; omega, by rw [← a3]; exact d4, by rw [← a2, ← a3]; exact d5⟩
    rw [SC.percolateDowns, a1]
    exact d1

theorem sortHeap_spec {blk : V → V → Bool} (ho : IsOrder blk) {c : SC V} (hb : InBounds c) (hne : c.oc.first ≤ c.oc.last) (hlo : c.lastOrdered = c.oc.last)
    (hh : HeapUpTo blk c c.oc.last) :
    ∃ c', c.sortHeap blk = .ok c' ∧ SameBut c c' ∧ c'.lastOrdered = c'.oc.last ∧ c'.sorted = true ∧ SegSorted blk c'.oc.slots c'.oc.first c'.oc.last := by
  obtain ⟨c1, d1, d2, d3, d4, d5⟩ := percolateDowns_spec ho (c.oc.size - 1).toNat hb (by rw [OC.size]; omega) (by omega) (by rw [hlo]; exact hh)
    (fun p q h1 h2 h3 => by omega) (fun p q h1 h2 h3 h4 => by omega)
  rw [SC.sortHeap, d1]
  refine ⟨_, rfl, ⟨d2.first, d2.last, d2.swaps⟩, rfl, rfl, ?_⟩
  simp only [d2.first, d2.last]
  have hl1 : c1.lastOrdered = c.oc.first := by rw [d3, hlo, OC.size]; omega
  rw [hl1] at d4 d5
  intro p q h1 h2 h3
  by_cases e : p = c.oc.first
  · by_cases e2 : q = c.oc.first
    · rw [e, e2]; exact le_refl _ _
    · exact d5 p q h1 (by omega) (by omega) h3
  · exact d4 p q (by omega) h2 h3

end Verif.SortColl
