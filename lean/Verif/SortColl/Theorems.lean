import Verif.SortColl.Spec
/-!
# A SortedCollection behaves as its specification, unless an addition follows `removeLast`
-/
namespace Verif.SortColl
open Verif.OrdColl
set_option linter.unusedSectionVars false
variable {V : Type} [Inhabited V]

/-- The slots up to `lastOrdered` are in the order that `sorted` says. -/
def Clean (blk : V → V → Bool) (c : SC V) (a : Nat) (xs : List V) : Prop :=
  0 ≤ c.lastOrdered ∧ c.lastOrdered ≤ c.oc.last ∧
    (c.sorted = true → ∃ O N, xs = O ++ N ∧ c.lastOrdered = a + O.length ∧ O.Pairwise (Le blk)) ∧
    (c.sorted = false → HeapUpTo blk c c.lastOrdered)

/-- The state that `removeLast` leaves when the collection was sorted: `lastOrdered` is one beyond `lastIndex`. -/
def Dirty (blk : V → V → Bool) (c : SC V) (xs : List V) : Prop :=
  c.sorted = true ∧ c.lastOrdered = c.oc.last + 1 ∧ xs.Pairwise (Le blk) ∧ xs ≠ []

def Holds (blk : V → V → Bool) (c : SC V) (M : List V) (d : Bool) : Prop :=
  ∃ a b xs, RepAB c.oc a xs b ∧ xs.Perm M ∧ (Clean blk c a xs ∨ (d = true ∧ Dirty blk c xs))

def Consistent (blk : V → V → Bool) (c : SC V) (a : Nat) (xs : List V) (b : Nat) : Prop :=
  RepAB c.oc a xs b ∧ xs.Pairwise (Le blk) ∧ c.sorted = true ∧ c.lastOrdered = c.oc.last

theorem repAB_bounds {c : SC V} {a b : Nat} {xs : List V} (h : RepAB c.oc a xs b) : InBounds c := by
  obtain ⟨hs, hf, hl⟩ := h
  refine ⟨by omega, by omega, ?_⟩
  rw [hs]; simp only [List.length_append, List.length_replicate]; omega

theorem sameBut_rep {c c' : SC V} {a b : Nat} {xs : List V} (h : RepAB c.oc a xs b) (hs : SameBut c c') : ∃ xs', RepAB c'.oc a xs' b ∧ xs'.Perm xs := by
  obtain ⟨e, hf, hl⟩ := h
  have sw := hs.swaps
  rw [e] at sw
  obtain ⟨xs', e', hp⟩ := sw.mid (by simp only [List.length_replicate]; omega) (by simp only [List.length_replicate]; omega)
  exact ⟨xs', ⟨e', by rw [hs.first, hf], by rw [hs.last, hl, hp.length_eq]⟩, hp⟩

theorem sorted_pairwise {blk : V → V → Bool} {c : OC V} {a b : Nat} {xs : List V} (h : RepAB c a xs b) : SegSorted blk c.slots c.first c.last ↔ xs.Pairwise (Le blk) := by
  obtain ⟨e, hf, hl⟩ := h
  rw [e]
  exact segSorted_iff blk _ xs _ _ _ (by rw [List.length_replicate]; exact hf) (by rw [List.length_replicate]; exact hl)

theorem consistent_holds {blk : V → V → Bool} {c : SC V} {a b : Nat} {xs M : List V} (h : Consistent blk c a xs b) (hp : xs.Perm M) (d : Bool) : Holds blk c M d := by
  obtain ⟨h1, h2, h3, h4⟩ := h
  have hl := h1.2.2
  exact ⟨a, b, xs, h1, hp, .inl ⟨by omega, by omega, fun _ => ⟨xs, [], by simp, by omega, h2⟩, fun h => by rw [h3] at h; cases h⟩⟩

theorem reset_holds {blk : V → V → Bool} {o : OC V} {xs M : List V} (h : Rep o xs) (hp : xs.Perm M) (d : Bool) : Holds blk ⟨o, 0, false⟩ M d := by
  obtain ⟨a, b, h⟩ := h
  have hf := h.2.1
  have hl := h.2.2
  refine ⟨a, b, xs, h, hp, .inl ⟨by simp, by simp only; omega, fun h => (by cases h), fun _ i j h1 h2 h3 => ?_⟩⟩
  simp only at h3
  omega

/-- After the test that `last` and `removeLast` start with. -/
theorem order_spec {blk : V → V → Bool} (ho : IsOrder blk) (up : Int → Int → Bool) {c : SC V} {M : List V} {d : Bool} (h : Holds blk c M d) :
    ∃ c' a b xs, c.order blk up = .ok c' ∧ RepAB c'.oc a xs b ∧ xs.Perm M ∧ c'.lastOrdered = c'.oc.last
      ∧ (c'.sorted = true → xs.Pairwise (Le blk)) ∧ (c'.sorted = false → HeapUpTo blk c' c'.oc.last) := by
  obtain ⟨a, b, xs, hr, hp, hcd⟩ := h
  rw [SC.order]
  by_cases e : c.lastOrdered = c.oc.last
  · rw [if_pos e]
    rcases hcd with ⟨_, _, h3, h4⟩ | ⟨_, _, h2, _⟩
    · refine ⟨c, a, b, xs, rfl, hr, hp, e, fun hs => ?_, fun hs => by rw [← e]; exact h4 hs⟩
      obtain ⟨O, N, rfl, hlo, hO⟩ := h3 hs
      have := hr.2.2
      have hN : N = [] := List.length_eq_zero_iff.1 (by rw [List.length_append] at this; omega)
      rw [hN, List.append_nil]; exact hO
    · omega
  · rw [if_neg e]
    by_cases hs : c.sorted = true
    · rw [if_pos hs]
      rcases hcd with ⟨_, _, h3, _⟩ | ⟨_, _, h2, h3, _⟩
      · obtain ⟨O, N, rfl, hlo, hO⟩ := h3 hs
        obtain ⟨he, hf, hl⟩ := hr
        rw [List.length_append] at hl
        obtain ⟨K, m1, m2, m3⟩ := merge_spec ho (c := c) (List.replicate a nil) O N (List.replicate b nil) (by rw [he]; simp only [List.append_assoc])
          (by rw [List.length_replicate]; exact hf) (by rw [List.length_replicate]; exact hlo) (by rw [List.length_replicate]; omega) hO
        refine ⟨_, a, b, K, m1, ⟨rfl, hf, ?_⟩, m2.trans hp, rfl, fun _ => m3, fun h => by cases h⟩
        have := m2.length_eq
        rw [List.length_append] at this
        simp only; omega
      · exact ⟨_, a, b, xs, merge_none (by omega), hr, hp, rfl, fun _ => h3, fun h => by cases h⟩
    · rw [if_neg hs]
      have hs' : c.sorted = false := by simpa using hs
      rcases hcd with ⟨h1, h2, _, h4⟩ | ⟨_, h1, _⟩
      · obtain ⟨c', m1, m2, m3, m4, m5⟩ := makeHeap_spec ho up (repAB_bounds hr) h1 h2 (h4 hs')
        obtain ⟨xs', r1, r2⟩ := sameBut_rep hr m2
        exact ⟨c', a, b, xs', m1, r1, r2.trans hp, m3, fun h => (by rw [m4] at h; cases h), fun _ => m5⟩
      · rw [h1] at hs'; cases hs'

theorem beConsistent_spec {blk : V → V → Bool} (ho : IsOrder blk) (up : Int → Int → Bool) {c : SC V} {M : List V} {d : Bool} (h : Holds blk c M d) :
    ∃ c' a b xs, c.beConsistent blk up = .ok c' ∧ Consistent blk c' a xs b ∧ xs.Perm M := by
  rw [SC.beConsistent]
  by_cases e : c.lastOrdered < c.oc.first
  · rw [if_pos e]
    obtain ⟨a, b, xs, hr, hp, _⟩ := h
    obtain ⟨b1, b2, b3⟩ := repAB_bounds hr
    obtain ⟨l', s1, s2, s3⟩ := sortSlots_spec ho c.oc.first c.oc.last c.oc.slots b1 b3
    rw [s1]
    obtain ⟨xs', r1, r2⟩ := sameBut_rep (c' := ⟨⟨l', c.oc.first, c.oc.last⟩, c.oc.last, true⟩) hr ⟨rfl, rfl, s2⟩
    exact ⟨_, a, b, xs', rfl, ⟨r1, (sorted_pairwise r1).1 s3, rfl, rfl⟩, r2.trans hp⟩
  · rw [if_neg e]
    have hne : M ≠ [] := by
      obtain ⟨a, b, xs, hr, hp, hcd⟩ := h
      intro hM
      rw [hM] at hp
      have hx := List.perm_nil.1 hp
      have := hr.2.1
      have := hr.2.2
      rw [hx, List.length_nil] at this
      rcases hcd with ⟨_, h2, _⟩ | ⟨_, _, _, _, h3⟩
      · omega
      · exact h3 hx
    obtain ⟨c1, a, b, xs, o1, hr, hp, hlo, h1, h2⟩ := order_spec ho up h
    rw [SC.order] at o1
    rw [o1]
    simp only [Except.bind]
    by_cases hs : c1.sorted = true
    · rw [if_pos hs]
      exact ⟨c1, a, b, xs, rfl, ⟨hr, h1 hs, hs, hlo⟩, hp⟩
    · rw [if_neg hs]
      have hpos : 0 < xs.length := by
        rw [hp.length_eq]; exact List.length_pos_iff.2 hne
      have hf := hr.2.1
      have hl := hr.2.2
      obtain ⟨c2, s1, s2, s3, s4, s5⟩ := sortHeap_spec ho (repAB_bounds hr) (by omega) hlo (h2 (by simpa using hs))
      obtain ⟨xs', r1, r2⟩ := sameBut_rep hr s2
      exact ⟨c2, a, b, xs', s1, ⟨r1, (sorted_pairwise r1).1 s5, s4, s3⟩, r2.trans hp⟩

/-! ## Adding -/

theorem heap_congr {blk : V → V → Bool} {l l' : List V} {d n : Int} (h : HeapFrom blk l d n 1) (he : ∀ p, d + 1 ≤ p → p ≤ d + n → get l' p = get l p) : HeapFrom blk l' d n 1 := by
  intro i j h1 h2 h3
  rw [he _ (by omega) (by omega), he _ (by omega) (by omega)]
  exact h i j h1 h2 h3

/-- More elements after the last. -/
theorem clean_more {blk : V → V → Bool} {c : SC V} {a b b' : Nat} {xs vs : List V} (hr : RepAB c.oc a xs b) (hc : Clean blk c a xs) :
    Clean blk { c with oc := ⟨List.replicate a nil ++ (xs ++ vs) ++ List.replicate b' nil, c.oc.first, c.oc.last + vs.length⟩ } a (xs ++ vs) := by
  obtain ⟨h1, h2, h3, h4⟩ := hc
  refine ⟨h1, by simp only; omega, fun hs => ?_, fun hs => heap_congr (h4 hs) fun p p1 p2 => ?_⟩
  · obtain ⟨O, N, e, hl, hO⟩ := h3 hs
    exact ⟨O, N ++ vs, by rw [e, List.append_assoc], hl, hO⟩
  · obtain ⟨e, hf, hl⟩ := hr
    simp only at p1 p2 ⊢
    have e2 : List.replicate a nil ++ (xs ++ vs) ++ List.replicate b' nil = List.replicate a nil ++ xs ++ (vs ++ List.replicate b' nil) := by simp only [List.append_assoc]
    rw [e, e2, get_append (by rw [List.length_replicate]; omega) (by rw [List.length_replicate]; omega),
      get_append (by rw [List.length_replicate]; omega) (by rw [List.length_replicate]; omega)]

theorem add_spec {blk : V → V → Bool} {c : SC V} {M : List V} (h : Holds blk c M false) (v : V) : ∃ c', c.add v = .ok c' ∧ Holds blk c' (v :: M) false := by
  obtain ⟨a, b, xs, hr, hp, hcd⟩ := h
  have hc : Clean blk c a xs := by rcases hcd with h | ⟨h, _⟩; exact h; cases h
  obtain ⟨hs, hf, hl⟩ := hr
  have hpv : (xs ++ [v]).Perm (v :: M) := List.perm_append_comm.trans (List.Perm.cons v hp)
  rw [SC.add]
  by_cases e : c.oc.last = c.oc.basicSize
  · rw [if_pos e]
    obtain ⟨o, b', g1, g2⟩ := roomOne ⟨hs, hf, hl⟩
    rw [if_pos e] at g1
    rw [SC.growBy, g1]
    simp only [Except.map, Except.bind]
    obtain ⟨gs, gf, gl⟩ := g2
    rw [gs, List.replicate_succ, basicPut_mid _ _ _ v _ (by simp only [List.length_append, List.length_replicate]; omega)]
    have hrep : Rep ⟨List.replicate a nil ++ xs ++ v :: List.replicate b' nil, o.first, o.last + 1⟩ (xs ++ [v]) :=
      ⟨a, b', by simp, gf, by simp only [List.length_append, List.length_cons, List.length_nil]; omega⟩
    exact ⟨_, rfl, reset_holds hrep hpv false⟩
  · rw [if_neg e]
    simp only [Except.bind]
    have hb := basicSize_rep (c := c.oc) ⟨hs, hf, hl⟩
    obtain ⟨b', rfl⟩ : ∃ b', b = b' + 1 := ⟨b - 1, by omega⟩
    refine ⟨{ c with oc := ⟨List.replicate a nil ++ (xs ++ [v]) ++ List.replicate b' nil, c.oc.first, c.oc.last + 1⟩ }, ?_, a, b', xs ++ [v], ⟨rfl, hf, ?_⟩, hpv,
      .inl (clean_more (vs := [v]) (b := b' + 1) ⟨hs, hf, hl⟩ hc)⟩
    · rw [hs, List.replicate_succ, basicPut_mid _ _ _ v _ (by simp only [List.length_append, List.length_replicate]; omega)]
      simp [Except.map]
    · simp only [List.length_append, List.length_cons, List.length_nil]; omega

theorem addAll_spec {blk : V → V → Bool} {c : SC V} {M : List V} (h : Holds blk c M false) (vs : List V) : ∃ c', c.addAll vs = .ok c' ∧ Holds blk c' (vs ++ M) false := by
  obtain ⟨a, b, xs, hr, hp, hcd⟩ := h
  have hc : Clean blk c a xs := by rcases hcd with h | ⟨h, _⟩; exact h; cases h
  have hb := basicSize_rep hr
  have hpv : (xs ++ vs).Perm (vs ++ M) := List.perm_append_comm.trans (List.Perm.append_left vs hp)
  rw [SC.addAll, SC.makeRoomLast]
  by_cases e : c.oc.last + vs.length > c.oc.basicSize
  · rw [if_pos e]
    have hf := hr.2.1
    have hl := hr.2.2
    obtain ⟨o, g1, gs, gf, gl⟩ := growBy_rep hr (max vs.length c.oc.growSize) (1 - c.oc.first) 0 (vs.length + (a + b + max vs.length (max xs.length 8) - vs.length)) (by omega)
      (by rw [growSize_rep hr]; omega)
    rw [SC.growBy, g1]
    simp only [Except.map, Except.bind]
    rw [gs, ← List.replicate_append_replicate, ← List.append_assoc]
    rw [fillLoop_mid _ _ vs _ _ (by simp) (by simp only [List.length_append, List.length_replicate]; omega)]
    have hrep : Rep ⟨List.replicate 0 nil ++ xs ++ vs ++ List.replicate (a + b + max vs.length (max xs.length 8) - vs.length) nil, o.first, o.last + vs.length⟩ (xs ++ vs) :=
      ⟨0, a + b + max vs.length (max xs.length 8) - vs.length, by simp, gf, by simp only [List.length_append]; omega⟩
    exact ⟨_, rfl, reset_holds hrep hpv false⟩
  · rw [if_neg e]
    simp only [Except.bind]
    obtain ⟨hs, hf, hl⟩ := hr
    obtain ⟨b', rfl⟩ : ∃ b', b = vs.length + b' := ⟨b - vs.length, by omega⟩
    refine ⟨{ c with oc := ⟨List.replicate a nil ++ (xs ++ vs) ++ List.replicate b' nil, c.oc.first, c.oc.last + vs.length⟩ }, ?_, a, b', xs ++ vs, ⟨rfl, hf, ?_⟩, hpv,
      .inl (clean_more (vs := vs) (b := vs.length + b') ⟨hs, hf, hl⟩ hc)⟩
    · rw [hs, ← List.replicate_append_replicate, ← List.append_assoc]
      rw [fillLoop_mid _ _ vs _ _ (by simp) (by simp only [List.length_append, List.length_replicate]; omega)]
      simp [Except.map]
    · simp only [List.length_append]; omega

/-! ## Removing -/

theorem maybeShrink_spec {blk : V → V → Bool} {c : SC V} {M : List V} {d : Bool} (h : Holds blk c M d) : ∃ c', c.maybeShrink = .ok c' ∧ Holds blk c' M d := by
  rw [SC.maybeShrink]
  by_cases e : c.oc.size < c.oc.basicSize / 3
  · rw [if_pos e]
    obtain ⟨a, b, xs, hr, hp, _⟩ := h
    obtain ⟨o, m1, m2⟩ := maybeShrink_rep hr
    rw [OC.maybeShrink, if_pos e] at m1
    rw [m1]
    exact ⟨_, rfl, reset_holds m2 hp d⟩
  · rw [if_neg e]; exact ⟨c, rfl, h⟩

theorem init_holds {blk : V → V → Bool} (n : Nat) (d : Bool) : Holds blk (SC.initIndices (List.replicate n nil : List V)) [] d :=
  reset_holds (xs := []) ⟨0, n, by simp, rfl, rfl⟩ (List.Perm.refl _) d

theorem removeFirst_spec {blk : V → V → Bool} {c : SC V} {a b : Nat} {x : V} {xs : List V} (h : Consistent blk c a (x :: xs) b) :
    ∃ c', c.superRemoveFirst = .ok (x, c') ∧ Holds blk c' xs false := by
  obtain ⟨⟨hs, hf, hl⟩, hpw, hsrt, hlo⟩ := h
  have hlen : c.oc.last = a + (xs.length + 1) := by rw [hl, List.length_cons]; omega
  have hs' : c.oc.slots = List.replicate a nil ++ x :: (xs ++ List.replicate b nil) := by rw [hs]; simp
  have hh : Holds blk (if c.oc.last = c.oc.first then SC.initIndices (List.replicate a nil ++ nil :: (xs ++ List.replicate b nil))
      else { c with oc := { c.oc with slots := List.replicate a nil ++ nil :: (xs ++ List.replicate b nil), first := c.oc.first + 1 } }) xs false := by
    by_cases e : c.oc.last = c.oc.first
    · have : xs = [] := List.length_eq_zero_iff.1 (by omega)
      subst this
      rw [if_pos e, replicate_comm_cons, List.nil_append, List.replicate_append_replicate]
      exact init_holds _ _
    · rw [if_neg e]
      refine consistent_holds (c := ⟨⟨_, c.oc.first + 1, _⟩, _, _⟩) (a := a + 1) (b := b) ⟨⟨?_, by show c.oc.first + 1 = _; omega, by show c.oc.last = _; omega⟩, (List.pairwise_cons.1 hpw).2, hsrt, hlo⟩ (List.Perm.refl _) false
      simp only [replicate_comm_cons, List.append_assoc]
  obtain ⟨c', e, hc⟩ := maybeShrink_spec hh
  refine ⟨c', ?_, hc⟩
  rw [SC.superRemoveFirst, if_neg (by omega), hs', basicAt_mid _ _ x _ (by simp only [List.length_replicate]; omega)]
  simp only [Except.bind]
  rw [basicPut_mid _ _ x nil _ (by simp only [List.length_replicate]; omega)]
  simp only [e, Except.map]

theorem removeAt_spec {blk : V → V → Bool} {c : SC V} {a b : Nat} {x : V} {us ws : List V} (h : Consistent blk c a (us ++ x :: ws) b) (i : Int) (hi : i = us.length + 1) :
    ∃ c', c.removeAt i = .ok (x, c') ∧ Holds blk c' (us ++ ws) false := by
  obtain ⟨hr, hpw, hsrt, hlo⟩ := h
  have hsz := size_rep hr
  obtain ⟨hs, hf, hl⟩ := hr
  have hn : (us ++ x :: ws).length = us.length + ws.length + 1 := by simp only [List.length_append, List.length_cons]; omega
  rw [hn] at hsz hl
  have hs' : c.oc.slots = (List.replicate a nil ++ us) ++ x :: (ws ++ List.replicate b nil) := by rw [hs]; simp
  have hpw' : (us ++ ws).Pairwise (Le blk) := hpw.sublist (List.Sublist.append_left (List.sublist_cons_self _ _) us)
  generalize hc0 : (if c.oc.last = c.oc.first then SC.initIndices ((List.replicate a nil ++ (us ++ ws)) ++ nil :: List.replicate b nil)
      else { c with oc := { c.oc with slots := (List.replicate a nil ++ (us ++ ws)) ++ nil :: List.replicate b nil, last := c.oc.last - 1 } }) = c0
  have hh : Holds blk { c0 with lastOrdered := c0.oc.last } (us ++ ws) false := by
    rw [← hc0]
    by_cases e : c.oc.last = c.oc.first
    · have e1 : us ++ ws = [] := List.length_eq_zero_iff.1 (by rw [List.length_append]; omega)
      rw [if_pos e, e1, List.append_nil, replicate_comm_cons, List.replicate_append_replicate]
      exact init_holds _ _
    · rw [if_neg e]
      refine consistent_holds (c := ⟨⟨_, _, _⟩, _, _⟩) (a := a) (b := b + 1) ⟨⟨rfl, hf, ?_⟩, hpw', hsrt, rfl⟩ (List.Perm.refl _) false
      simp only [List.length_append]; omega
  obtain ⟨c', e, hc⟩ := maybeShrink_spec hh
  refine ⟨c', ?_, hc⟩
  rw [SC.removeAt, SC.basicRemoveAt, if_neg (by omega), if_neg (by omega), hs',
    basicAt_mid _ _ x _ (by simp only [List.length_append, List.length_replicate]; omega)]
  simp only [Except.bind]
  rcases List.eq_nil_or_concat (x :: ws) with hnil | ⟨M, z, hM⟩
  · cases hnil
  rw [List.concat_eq_append] at hM
  have hlM : M.length = ws.length := by have := congrArg List.length hM; simp at this; omega
  have e1 : (List.replicate a nil ++ us) ++ x :: (ws ++ List.replicate b nil) = (List.replicate a nil ++ us) ++ M ++ (z :: List.replicate b nil) := by
    rw [← List.cons_append, hM]; simp
  have e2 : (List.replicate a nil ++ us) ++ x :: (ws ++ List.replicate b nil) = (List.replicate a nil ++ us ++ [x]) ++ ws ++ List.replicate b nil := by simp
  have e3 : replace ((List.replicate a nil ++ us) ++ x :: (ws ++ List.replicate b nil)) (i + c.oc.first - 1) (c.oc.last - 1)
      ((List.replicate a nil ++ us) ++ x :: (ws ++ List.replicate b nil)) (i + c.oc.first)
      = .ok ((List.replicate a nil ++ us) ++ ws ++ (z :: List.replicate b nil)) := by
    conv_lhs => arg 4; rw [e2]
    rw [e1]
    exact replace_mid _ _ _ _ _ _ _ _ _ (by simp only [List.length_append, List.length_replicate]; omega)
      (by simp only [List.length_append, List.length_replicate]; omega)
      (by simp only [List.length_append, List.length_replicate, List.length_cons, List.length_nil]; omega) hlM.symm
  rw [e3]
  simp only
  rw [basicPut_mid _ _ z nil _ (by simp only [List.length_append, List.length_replicate]; omega)]
  simp only [Except.map]
  rw [List.append_assoc _ us ws, hc0, e]

theorem removeLast_spec {blk : V → V → Bool} (ho : IsOrder blk) (up : Int → Int → Bool) {c : SC V} {M : List V} {d : Bool} (h : Holds blk c M d) (hne : M ≠ []) :
    ∃ x c' M', c.removeLast blk up = .ok (x, c') ∧ M.Perm (x :: M') ∧ (∀ y ∈ M, Le blk y x) ∧ Holds blk c' M' true := by
  obtain ⟨c1, a, b, xs, o1, hr, hp, hlo, h1, h2⟩ := order_spec ho up h
  rw [SC.removeLast, o1]
  simp only [Except.bind]
  have hpos : 0 < xs.length := by rw [hp.length_eq]; exact List.length_pos_iff.2 hne
  have hf1 := hr.2.1
  have hl1 := hr.2.2
  -- the collection in which a greatest element is last
  obtain ⟨c2, ys, y, e2, hr2, hp2, hmax, hrest⟩ : ∃ c2 ys y, (if c1.sorted = true then (.ok c1 : Res (SC V)) else c1.percolateDown blk) = .ok c2 ∧ RepAB c2.oc a (ys ++ [y]) b
      ∧ (ys ++ [y]).Perm xs ∧ (∀ v ∈ ys ++ [y], Le blk v y)
      ∧ ((c2.sorted = true ∧ c2.lastOrdered = c2.oc.last ∧ ys.Pairwise (Le blk)) ∨ (c2.sorted = false ∧ c2.lastOrdered = c2.oc.last - 1 ∧ HeapUpTo blk c2 c2.lastOrdered)) := by
    by_cases hs : c1.sorted = true
    · rw [if_pos hs]
      rcases List.eq_nil_or_concat xs with rfl | ⟨ys, y, rfl⟩
      · simp at hpos
      · rw [List.concat_eq_append] at *
        have hpw := h1 hs
        rw [List.pairwise_append] at hpw
        refine ⟨c1, ys, y, rfl, hr, List.Perm.refl _, fun v hv => ?_, .inl ⟨hs, hlo, hpw.1⟩⟩
        rcases List.mem_append.1 hv with hv | hv
        · exact hpw.2.2 v hv y List.mem_cons_self
        · rw [List.mem_singleton.1 hv]; exact le_refl _ _
    · rw [if_neg hs]
      obtain ⟨c2, p1, p2, p3, p4, p5, p6, p7, p8, p9⟩ := percolateDown_spec ho (repAB_bounds hr) (by omega) (by omega) (by rw [hlo]; exact h2 (by simpa using hs))
      have same : SameBut c1 c2 := ⟨p2, p3, by rw [hlo] at p5; exact p5⟩
      obtain ⟨zs, r1, r2⟩ := sameBut_rep hr same
      rcases List.eq_nil_or_concat zs with rfl | ⟨ys, y, rfl⟩
      · have := r2.length_eq; simp at this; omega
      · rw [List.concat_eq_append] at r1 r2
        have hy : y = get c1.oc.slots c1.oc.first := by
          rw [← p8, hlo, ← p3]
          have e := r1.1
          have l2 := r1.2.2
          rw [List.length_append, List.length_cons, List.length_nil] at l2
          rw [show List.replicate a nil ++ (ys ++ [y]) ++ List.replicate b nil = (List.replicate a nil ++ ys) ++ [y] ++ List.replicate b nil by simp] at e
          rw [e, get_append (by simp only [List.length_append, List.length_replicate]; omega)
            (by simp only [List.length_append, List.length_replicate, List.length_cons, List.length_nil]; omega)]
          rw [show c2.oc.last - ((List.replicate a (nil : V) ++ ys).length : Int) = 1 by simp only [List.length_append, List.length_replicate]; omega]
          rfl
        refine ⟨c2, ys, y, p1, r1, r2, fun v hv => ?_, .inr ⟨by rw [p4]; simpa using hs, by rw [p6, hlo, p3], p7⟩⟩
        have hv2 : v ∈ xs := r2.mem_iff.1 hv
        have e := hr.1
        obtain ⟨k, k1, k2, rfl⟩ := mem_seg (List.replicate a nil) xs (List.replicate b nil) v hv2
        rw [← e, hy]
        rw [List.length_replicate] at k1 k2
        exact p9 k (by omega) (by omega)
  rw [e2]
  simp only
  have hpM : M.Perm (y :: ys) := (hp.symm.trans hp2.symm).trans List.perm_append_comm
  obtain ⟨hs, hf, hl⟩ := hr2
  have hlen : c2.oc.last = a + (ys.length + 1) := by rw [hl]; simp only [List.length_append, List.length_cons, List.length_nil]; omega
  have hs' : c2.oc.slots = (List.replicate a nil ++ ys) ++ y :: List.replicate b nil := by rw [hs]; simp
  have hh : Holds blk (if c2.oc.last = c2.oc.first then SC.initIndices ((List.replicate a nil ++ ys) ++ nil :: List.replicate b nil)
      else { c2 with oc := { c2.oc with slots := (List.replicate a nil ++ ys) ++ nil :: List.replicate b nil, last := c2.oc.last - 1 } }) ys true := by
    by_cases e : c2.oc.last = c2.oc.first
    · have : ys = [] := List.length_eq_zero_iff.1 (by omega)
      subst this
      rw [if_pos e, List.append_nil, replicate_comm_cons, List.replicate_append_replicate]
      exact init_holds _ _
    · rw [if_neg e]
      refine ⟨a, b + 1, ys, ⟨rfl, hf, by simp only; omega⟩, List.Perm.refl _, ?_⟩
      rcases hrest with ⟨q1, q2, q3⟩ | ⟨q1, q2, q3⟩
      · refine .inr ⟨rfl, q1, by simp only; omega, q3, ?_⟩
        intro h0; rw [h0, List.length_nil] at hlen; omega
      · refine .inl ⟨by simp only; omega, by simp only; omega, fun h => (by simp only [q1] at h; cases h), fun _ => heap_congr q3 fun p p1' p2' => ?_⟩
        simp only at p1' p2' ⊢
        have e3 : (List.replicate a nil ++ ys) ++ nil :: List.replicate b nil = List.replicate a nil ++ ys ++ (nil :: List.replicate b nil) := rfl
        rw [hs', e3, get_append (by rw [List.length_replicate]; omega) (by rw [List.length_replicate]; omega),
          get_append (by rw [List.length_replicate]; omega) (by rw [List.length_replicate]; omega)]
  obtain ⟨c', e, hc⟩ := maybeShrink_spec hh
  refine ⟨y, c', ys, ?_, hpM, fun v hv => hmax v (hp2.mem_iff.2 (hp.mem_iff.2 hv)), hc⟩
  rw [SC.basicRemoveLast, if_neg (by omega), hs', basicAt_mid _ _ y _ (by simp only [List.length_append, List.length_replicate]; omega)]
  simp only [Except.bind]
  rw [basicPut_mid _ _ y nil _ (by simp only [List.length_append, List.length_replicate]; omega)]
  simp only [e, Except.map]

theorem holds_mono {blk : V → V → Bool} {c : SC V} {M : List V} {d : Bool} (h : Holds blk c M d) (d' : Bool) (hd : d = true → d' = true) : Holds blk c M d' := by
  obtain ⟨a, b, xs, h1, h2, h3⟩ := h
  refine ⟨a, b, xs, h1, h2, ?_⟩
  rcases h3 with h | ⟨h, h'⟩
  · exact .inl h
  · exact .inr ⟨hd h, h'⟩

theorem holds_perm {blk : V → V → Bool} {c : SC V} {M M' : List V} {d : Bool} (h : Holds blk c M d) (hp : M.Perm M') : Holds blk c M' d := by
  obtain ⟨a, b, xs, h1, h2, h3⟩ := h
  exact ⟨a, b, xs, h1, h2.trans hp, h3⟩

theorem holds_empty {blk : V → V → Bool} {c : SC V} {d : Bool} (h : Holds blk c [] d) (d' : Bool) : Holds blk c [] d' := by
  obtain ⟨a, b, xs, h1, h2, h3⟩ := h
  refine ⟨a, b, xs, h1, h2, .inl ?_⟩
  rcases h3 with h | ⟨_, _, _, _, h⟩
  · exact h
  · exact absurd (List.perm_nil.1 h2) h

theorem holds_size {blk : V → V → Bool} {c : SC V} {M : List V} {d : Bool} (h : Holds blk c M d) : c.oc.size = M.length := by
  obtain ⟨a, b, xs, h1, h2, _⟩ := h
  rw [size_rep h1, h2.length_eq]

theorem getLast_spec {blk : V → V → Bool} (ho : IsOrder blk) (up : Int → Int → Bool) {c : SC V} {M : List V} {d : Bool} (h : Holds blk c M d) (hne : M ≠ []) :
    ∃ x c', c.getLast blk up = .ok (x, c') ∧ x ∈ M ∧ (∀ y ∈ M, Le blk y x) ∧ Holds blk c' M false := by
  obtain ⟨c1, a, b, xs, o1, hr, hp, hlo, h1, h2⟩ := order_spec ho up h
  have hpos : 0 < xs.length := by rw [hp.length_eq]; exact List.length_pos_iff.2 hne
  rw [SC.getLast, o1]
  simp only [Except.bind]
  have hb := repAB_bounds hr
  obtain ⟨hs, hf, hl⟩ := hr
  have hH : Holds blk c1 M false := by
    refine ⟨a, b, xs, ⟨hs, hf, hl⟩, hp, .inl ⟨by omega, by omega, fun e => ⟨xs, [], by simp, by omega, h1 e⟩, fun e => by rw [hlo]; exact h2 e⟩⟩
  have inM : ∀ k : Int, c1.oc.first ≤ k → k ≤ c1.oc.last → get c1.oc.slots k ∈ M := fun k k1 k2 => by
    rw [hs]
    exact hp.mem_iff.1 (seg_mem _ _ _ k (by rw [List.length_replicate]; omega) (by rw [List.length_replicate]; omega))
  have ofM : ∀ y ∈ M, ∃ k, c1.oc.first ≤ k ∧ k ≤ c1.oc.last ∧ get c1.oc.slots k = y := fun y hy => by
    obtain ⟨k, k1, k2, k3⟩ := mem_seg (List.replicate a nil) xs (List.replicate b nil) y (hp.mem_iff.2 hy)
    rw [List.length_replicate] at k1 k2
    exact ⟨k, by omega, by omega, by rw [hs]; exact k3⟩
  by_cases e : c1.sorted = true
  · rw [if_pos e, basicAt_in (by omega) hb.2.2]
    refine ⟨_, c1, rfl, inM _ (by omega) (by omega), fun y hy => ?_, hH⟩
    obtain ⟨k, k1, k2, rfl⟩ := ofM y hy
    exact (sorted_pairwise (blk := blk) ⟨hs, hf, hl⟩).2 (h1 e) k _ k1 k2 (by omega)
  · rw [if_neg e, basicAt_in (by omega) (by have := hb.2.2; omega)]
    refine ⟨_, c1, rfl, inM _ (by omega) (by omega), fun y hy => ?_, hH⟩
    obtain ⟨k, k1, k2, rfl⟩ := ofM y hy
    have := heap_max ho (h2 (by simpa using e)) (k - (c1.oc.first - 1)) (by omega) (by omega)
    rwa [show c1.oc.first - 1 + (k - (c1.oc.first - 1)) = k by omega, show c1.oc.first - 1 + 1 = c1.oc.first by omega] at this

theorem removeLast_empty {blk : V → V → Bool} (ho : IsOrder blk) (up : Int → Int → Bool) {c : SC V} {d : Bool} (h : Holds blk c [] d) :
    ∃ e, c.removeLast blk up = .error e := by
  obtain ⟨c1, a, b, xs, o1, hr, hp, hlo, h1, h2⟩ := order_spec ho up h
  have hx := List.perm_nil.1 hp
  subst hx
  have hf := hr.2.1
  have hl := hr.2.2
  rw [List.length_nil] at hl
  rw [SC.removeLast, o1]
  simp only [Except.bind]
  have fin : ∀ c2 : SC V, c2.oc.first = c1.oc.first → c2.oc.last = c1.oc.last → ∃ e, c2.basicRemoveLast = .error e := fun c2 e1 e2 =>
    ⟨_, by rw [SC.basicRemoveLast, if_pos (by omega)]⟩
  by_cases e : c1.sorted = true
  · rw [if_pos e]; exact fin c1 rfl rfl
  · rw [if_neg e, SC.percolateDown]
    cases swapWith c1.oc.slots c1.lastOrdered c1.oc.first with
    | error e => exact ⟨e, rfl⟩
    | ok s =>
      simp only [Except.bind]
      cases basicAt s (c1.oc.first - 1 + 1) with
      | error e => exact ⟨e, rfl⟩
      | ok p =>
        simp only
        cases sift blk (c1.oc.first - 1) (c1.lastOrdered - 1 - (c1.oc.first - 1)) p ((c1.lastOrdered - 1 - (c1.oc.first - 1)).toNat + 2) 1 s with
        | error e => exact ⟨e, rfl⟩
        | ok s2 => exact fin _ rfl rfl

/-- Positions in the slots and indices. -/
theorem slot_atIndex {c : OC V} {a b : Nat} {xs : List V} (h : RepAB c a xs b) (i : Int) (y : V) :
    atIndex xs i = some y ↔ 1 ≤ i ∧ i ≤ xs.length ∧ get c.slots (i + c.first - 1) = y := by
  obtain ⟨hs, hf, hl⟩ := h
  rw [atIndex]
  by_cases e : 1 ≤ i
  · rw [if_pos e]
    by_cases e2 : i ≤ xs.length
    · rw [List.getElem?_eq_getElem (by omega), hs, get_append (by rw [List.length_replicate]; omega) (by rw [List.length_replicate]; omega), get_eq (by rw [List.length_replicate]; omega) (by rw [List.length_replicate]; omega)]
      have : (i + c.first - 1 - ((List.replicate a (nil : V)).length : Int) - 1).toNat = (i - 1).toNat := by rw [List.length_replicate]; omega
      simp only [this]
      constructor
      · intro h; exact ⟨e, e2, by simpa using h⟩
      · rintro ⟨_, _, h⟩; rw [h]
    · rw [List.getElem?_eq_none (by omega)]
      constructor
      · intro h; cases h
      · rintro ⟨_, h, _⟩; exact absurd h e2
  · rw [if_neg e]
    constructor
    · intro h; cases h
    · rintro ⟨h, _⟩; exact absurd h e

theorem indexOfIn_spec {blk eq : V → V → Bool} (ho : IsOrder blk) (he : EqOk blk eq) {c : SC V} {a b : Nat} {xs : List V} (h : Consistent blk c a xs b) (v : V) (i : Int) (h1 : 1 ≤ i) (h2 : i ≤ xs.length + 1) :
    ∃ r, c.indexOfIn blk eq v i = .ok r ∧ (match r with
      | none => ∀ j, i ≤ j → ∀ y, atIndex xs j = some y → ¬ eq v y = true
      | some j => i ≤ j ∧ ∃ y, atIndex xs j = some y ∧ eq v y = true) := by
  obtain ⟨hr, hpw, hsrt, hlo⟩ := h
  have hb := repAB_bounds hr
  have hseg := (sorted_pairwise (blk := blk) hr).2 hpw
  have hf := hr.2.1
  have hl := hr.2.2
  obtain ⟨r, r1, r2⟩ := binarySearch_spec ho he c.oc.slots v (i + c.oc.first - 1) c.oc.last (by omega) hb.2.2 (by omega)
    (fun p q p1 p2 p3 => hseg p q (by omega) p2 p3)
  rw [SC.indexOfIn, r1]
  simp only [Except.bind]
  cases r with
  | none =>
    refine ⟨none, rfl, fun j hj y hy => ?_⟩
    obtain ⟨_, q2, rfl⟩ := (slot_atIndex hr j y).1 hy
    exact r2 _ (by omega) (by omega)
  | some k =>
    obtain ⟨k1, k2, k3⟩ := r2
    obtain ⟨j, j1, j2, j3, j4⟩ := backLoop_spec he c.oc.slots v c.oc.first i c.oc.last (by omega) hb.2.2 h1 (k - c.oc.first + 1).toNat k (k - c.oc.first + 1) (by omega) (by omega) k2 k3
    simp only [j1, Except.map]
    exact ⟨some j, rfl, j2, _, (slot_atIndex hr j _).2 ⟨by omega, by omega, rfl⟩, j4⟩

theorem split_at {xs : List V} {i : Int} {y : V} (h : atIndex xs i = some y) : ∃ us ws, xs = us ++ y :: ws ∧ i = us.length + 1 ∧ xs.take (i - 1).toNat = us ∧ xs.drop i.toNat = ws := by
  rw [atIndex] at h
  by_cases e : 1 ≤ i
  · rw [if_pos e] at h
    obtain ⟨hlt, hy⟩ := List.getElem?_eq_some_iff.1 h
    refine ⟨xs.take (i - 1).toNat, xs.drop i.toNat, ?_, by rw [List.length_take]; omega, rfl, rfl⟩
    rw [← hy, show i.toNat = (i - 1).toNat + 1 by omega, List.getElem_cons_drop, List.take_append_drop]
  · rw [if_neg e] at h; cases h

/-! ## One message, many messages -/

/-- Whether the next message finds the state that `removeLast` leaves. -/
def after (d : Bool) : Op V → Bool
  | .removeLast => true
  | .size => d
  | .indexOf _ _ => d
  | _ => false

/-- Whether the message may be sent after `removeLast`. -/
def allowed (d : Bool) : Op V → Prop
  | .add _ => d = false
  | .addAll _ => d = false
  | _ => True

theorem run_spec {blk eq : V → V → Bool} (ho : IsOrder blk) (he : EqOk blk eq) (up : Int → Int → Bool) {c : SC V} {M : List V} {d : Bool} (h : Holds blk c M d) (o : Op V) (ha : allowed d o) :
    ∃ M', Spec blk eq M o (c.run blk eq up o).1 M' ∧ Holds blk (c.run blk eq up o).2 M' (after d o) := by
  obtain ⟨cc, a, b, xs, q1, q2, q3⟩ := beConsistent_spec ho up h
  have hcc : Holds blk cc M false := consistent_holds q2 q3 false
  have harr : Arranged blk M xs := ⟨q3, q2.2.1⟩
  cases o with
  | add v =>
    rw [allowed] at ha; subst ha
    obtain ⟨c', e1, e2⟩ := add_spec h v
    refine ⟨v :: M, ?_, ?_⟩ <;> rw [SC.run, e1]
    · exact ⟨rfl, List.Perm.refl _⟩
    · exact e2
  | addAll vs =>
    rw [allowed] at ha; subst ha
    obtain ⟨c', e1, e2⟩ := addAll_spec h vs
    refine ⟨vs ++ M, ?_, ?_⟩ <;> rw [SC.run, e1]
    · exact ⟨rfl, List.Perm.refl _⟩
    · exact e2
  | removeFirst =>
    cases xs with
    | nil =>
      have hM := List.nil_perm.1 q3
      subst hM
      have e : cc.superRemoveFirst = .error .empty := by
        have hf := q2.1.2.1
        have hl := q2.1.2.2
        rw [List.length_nil] at hl
        rw [SC.superRemoveFirst, if_pos (by omega)]
      refine ⟨[], ?_, ?_⟩ <;> rw [SC.run, withConsistent, q1]
      · simp only [e, Except.map, Spec, if_true, and_self]
      · simp only [e, Except.map]; exact hcc
    | cons x xs =>
      obtain ⟨c', e1, e2⟩ := removeFirst_spec q2
      have hne : M ≠ [] := fun h0 => by rw [h0] at q3; simpa using q3.length_eq
      refine ⟨xs, ?_, ?_⟩ <;> rw [SC.run, withConsistent, q1]
      · simp only [e1, Except.map, Spec, if_neg hne]
        refine ⟨x, rfl, q3.symm, fun y hy => ?_⟩
        rcases List.mem_cons.1 (q3.mem_iff.2 hy) with rfl | hy
        · exact le_refl _ _
        · exact (List.pairwise_cons.1 q2.2.1).1 y hy
      · simp only [e1, Except.map]; exact e2
  | removeLast =>
    by_cases hne : M = []
    · subst hne
      obtain ⟨e, e1⟩ := removeLast_empty ho up h
      refine ⟨[], ?_, ?_⟩ <;> rw [SC.run, e1]
      · simp only [Except.map, orElse, Spec, if_true, and_true]; exact ⟨e, rfl⟩
      · exact holds_empty h _
    · obtain ⟨x, c', M', e1, e2, e3, e4⟩ := removeLast_spec ho up h hne
      refine ⟨M', ?_, ?_⟩ <;> rw [SC.run, e1]
      · simp only [Except.map, orElse, Spec, if_neg hne]; exact ⟨x, rfl, e2, e3⟩
      · exact e4
  | removeAt i =>
    cases hx : atIndex xs i with
    | none =>
      have e1 : cc.removeAt i = .error (if M = [] then .empty else .index) := by
        have hsz := size_rep q2.1
        have hf := q2.1.2.1
        have hl := q2.1.2.2
        rw [SC.removeAt, SC.basicRemoveAt]
        by_cases hM : M = []
        · rw [hM] at q3
          rw [List.perm_nil.1 q3, List.length_nil] at hl
          rw [if_pos hM, if_pos (by omega)]; rfl
        · have hpos : 0 < xs.length := by rw [q3.length_eq]; exact List.length_pos_iff.2 hM
          rw [if_neg hM, if_neg (by omega), if_pos]
          · rfl
          · by_contra hc
            have hi : 1 ≤ i ∧ i ≤ xs.length := by omega
            have := (slot_atIndex q2.1 i _).2 ⟨hi.1, hi.2, rfl⟩
            rw [hx] at this; cases this
      refine ⟨M, ?_, ?_⟩ <;> rw [SC.run, withConsistent, q1]
      · simp only [e1, Except.map, Spec]
        exact ⟨xs, harr, by rw [hx]; exact ⟨by simp only [], List.Perm.refl _⟩⟩
      · simp only [e1, Except.map]; exact hcc
    | some x =>
      obtain ⟨us, ws, e0, ei, et, ed⟩ := split_at hx
      obtain ⟨c', e1, e2⟩ := removeAt_spec (x := x) (us := us) (ws := ws) (by rw [← e0]; exact q2) i ei
      refine ⟨us ++ ws, ?_, ?_⟩ <;> rw [SC.run, withConsistent, q1]
      · simp only [e1, Except.map, Spec]
        exact ⟨xs, harr, by rw [hx]; exact ⟨rfl, by rw [et, ed]⟩⟩
      · simp only [e1, Except.map]; exact e2
  | remove v =>
    have hsz := holds_size h
    by_cases hM : M = []
    · subst hM
      refine ⟨[], ?_, ?_⟩ <;> rw [SC.run, if_pos (by rw [hsz]; rfl)]
      · exact .inl ⟨rfl, List.Perm.refl _, by simp⟩
      · exact holds_empty h _
    · have hpos := List.length_pos_iff.2 hM
      obtain ⟨r, r1, r2⟩ := indexOfIn_spec ho he q2 v 1 (by omega) (by omega)
      cases r with
      | none =>
        refine ⟨M, ?_, ?_⟩ <;> rw [SC.run, if_neg (by omega), withConsistent, q1]
        · simp only [r1, Except.bind]
          refine .inl ⟨rfl, List.Perm.refl _, fun y hy => ?_⟩
          obtain ⟨n, hn, e⟩ := List.mem_iff_getElem.1 (q3.mem_iff.2 hy)
          refine r2 (n + 1) (by omega) y ?_
          rw [atIndex, if_pos (by omega), show ((n : Int) + 1 - 1).toNat = n by omega, List.getElem?_eq_getElem hn, e]
        · simp only [r1, Except.bind]; exact hcc
      | some j =>
        obtain ⟨_, y, hy, hq⟩ := r2
        obtain ⟨us, ws, e0, ei, et, ed⟩ := split_at hy
        obtain ⟨c', e1, e2⟩ := removeAt_spec (x := y) (us := us) (ws := ws) (by rw [← e0]; exact q2) j ei
        refine ⟨us ++ ws, ?_, ?_⟩ <;> rw [SC.run, if_neg (by omega), withConsistent, q1]
        · simp only [r1, Except.bind, e1, Except.map]
          exact .inr ⟨y, rfl, hq, q3.symm.trans (by rw [e0]; exact List.perm_middle)⟩
        · simp only [r1, Except.bind, e1, Except.map]; exact e2
  | first =>
    have hf := q2.1.2.1
    have hl := q2.1.2.2
    cases xs with
    | nil =>
      have hM := List.nil_perm.1 q3
      subst hM
      rw [List.length_nil] at hl
      have e : cc.oc.getFirst = .error .index := by rw [OC.getFirst, if_neg (by omega)]
      refine ⟨[], ?_, ?_⟩ <;> rw [SC.run, withConsistent, q1]
      · simp only [e, Except.map, Spec, if_true, and_true]; exact List.Perm.refl _
      · simp only [e, Except.map]; exact hcc
    | cons x xs =>
      have hne : M ≠ [] := fun h0 => by rw [h0] at q3; simpa using q3.length_eq
      have e : cc.oc.getFirst = .ok x := by
        rw [OC.getFirst, if_pos (by rw [List.length_cons] at hl; omega), q2.1.1]
        simp only [List.append_assoc, List.cons_append]
        exact basicAt_mid _ _ x _ (by rw [List.length_replicate]; omega)
      refine ⟨M, ?_, ?_⟩ <;> rw [SC.run, withConsistent, q1]
      · simp only [e, Except.map, Spec, if_neg hne]
        refine ⟨List.Perm.refl _, x, q3.mem_iff.1 List.mem_cons_self, rfl, fun y hy => ?_⟩
        rcases List.mem_cons.1 (q3.mem_iff.2 hy) with rfl | hy
        · exact le_refl _ _
        · exact (List.pairwise_cons.1 q2.2.1).1 y hy
      · simp only [e, Except.map]; exact hcc
  | last =>
    by_cases hM : M = []
    · subst hM
      refine ⟨[], ⟨List.Perm.refl _, fun h => absurd rfl h⟩, ?_⟩
      rw [SC.run]
      obtain ⟨c1, a, b, xs, o1, hr, hp, hlo, h1, h2⟩ := order_spec ho up h
      rw [SC.getLast, o1]
      simp only [Except.bind]
      have hl := hr.2.2
      have : Holds blk c1 [] false := ⟨a, b, xs, hr, hp, .inl ⟨by omega, by omega, fun e => ⟨xs, [], by simp, by omega, h1 e⟩, fun e => by rw [hlo]; exact h2 e⟩⟩
      cases (if c1.sorted then basicAt c1.oc.slots c1.oc.last else basicAt c1.oc.slots c1.oc.first) with
      | error e => simp only [Except.map, orElse]; exact holds_empty h _
      | ok v => simp only [Except.map, orElse]; exact this
    · obtain ⟨x, c', e1, e2, e3, e4⟩ := getLast_spec ho up h hM
      refine ⟨M, ?_, ?_⟩ <;> rw [SC.run, e1]
      · exact ⟨List.Perm.refl _, fun _ => ⟨x, e2, rfl, e3⟩⟩
      · exact e4
  | «at» i =>
    have e := at_rep ⟨a, b, q2.1⟩ i
    refine ⟨M, ?_, ?_⟩ <;> rw [SC.run, withConsistent, q1]
    · simp only [e, Spec]
      refine ⟨List.Perm.refl _, xs, harr, ?_⟩
      rw [atIndex]
      cases (if 1 ≤ i then xs[(i - 1).toNat]? else none) <;> rfl
    · simp only [e]
      cases (if 1 ≤ i then xs[(i - 1).toNat]? else none) <;> exact hcc
  | size =>
    refine ⟨M, ⟨List.Perm.refl _, ?_⟩, h⟩
    show Except.ok (Ans.int c.oc.size) = _
    rw [holds_size h]
  | elements =>
    have e := elements_rep ⟨a, b, q2.1⟩
    refine ⟨M, ?_, ?_⟩ <;> rw [SC.run, withConsistent, q1]
    · simp only [e, Except.map, Spec]; exact ⟨List.Perm.refl _, xs, harr, rfl⟩
    · simp only [e, Except.map]; exact hcc
  | includes v =>
    have hb := repAB_bounds q2.1
    have hf := q2.1.2.1
    have hl := q2.1.2.2
    obtain ⟨r, r1, r2⟩ := binarySearch_spec ho he cc.oc.slots v cc.oc.first cc.oc.last (by omega) hb.2.2 (by omega) ((sorted_pairwise (blk := blk) q2.1).2 q2.2.1)
    refine ⟨M, ?_, ?_⟩ <;> rw [SC.run, withConsistent, q1]
    · simp only [r1, Except.map, Spec]
      refine ⟨List.Perm.refl _, ?_, ?_⟩
      · rintro ⟨y, hy, hq⟩
        cases r with
        | none =>
          obtain ⟨k, k1, k2, k3⟩ := mem_seg (List.replicate a nil) xs (List.replicate b nil) y (q3.mem_iff.2 hy)
          rw [List.length_replicate] at k1 k2
          rw [← q2.1.1] at k3
          exact absurd (by rw [k3]; exact hq) (r2 k (by omega) (by omega))
        | some k => rfl
      · intro hall
        cases r with
        | none => rfl
        | some k =>
          obtain ⟨k1, k2, k3⟩ := r2
          rw [q2.1.1] at k3
          exact absurd k3 (hall _ (q3.mem_iff.1 (seg_mem _ xs _ k (by rw [List.length_replicate]; omega) (by rw [List.length_replicate]; omega))))
    · simp only [r1, Except.map]; exact hcc
  | indexOf v i =>
    have hsz := holds_size h
    have hlen := q3.length_eq
    by_cases hi : i < 1 ∨ i > c.oc.size
    · refine ⟨M, ⟨List.Perm.refl _, xs, harr, ?_⟩, ?_⟩ <;> rw [SC.run, if_pos hi]
      · by_cases hi2 : i = c.oc.size + 1
        · rw [if_pos hi2, if_neg (by omega)]
          refine .inl ⟨rfl, fun j hj y hy => ?_⟩
          have := ((slot_atIndex q2.1 j y).1 hy).2.1
          omega
        · rw [if_neg hi2, if_pos (by omega)]
      · by_cases hi2 : i = c.oc.size + 1
        · rw [if_pos hi2]; exact h
        · rw [if_neg hi2]; exact h
    · obtain ⟨r, r1, r2⟩ := indexOfIn_spec ho he q2 v i (by omega) (by omega)
      refine ⟨M, ⟨List.Perm.refl _, xs, harr, ?_⟩, ?_⟩ <;> rw [SC.run, if_neg hi, withConsistent, q1]
      · simp only [r1, Except.map]
        rw [if_neg (by omega)]
        cases r with
        | none => exact .inl ⟨rfl, r2⟩
        | some j => obtain ⟨j1, y, j2, j3⟩ := r2; exact .inr ⟨j, y, rfl, j1, j2, j3⟩
      · simp only [r1, Except.map]; exact holds_mono hcc _ (by simp)
  | sortBlockSame =>
    obtain ⟨a, b, xs, hr, hp, _⟩ := h
    obtain ⟨b1, b2, b3⟩ := repAB_bounds hr
    obtain ⟨l', s1, s2, s3⟩ := sortSlots_spec ho c.oc.first c.oc.last c.oc.slots b1 b3
    obtain ⟨xs', r1, r2⟩ := sameBut_rep (c' := ⟨⟨l', c.oc.first, c.oc.last⟩, c.oc.last, true⟩) hr ⟨rfl, rfl, s2⟩
    refine ⟨M, ?_, ?_⟩ <;> rw [SC.run, s1]
    · exact ⟨rfl, List.Perm.refl _⟩
    · exact consistent_holds ⟨r1, (sorted_pairwise r1).1 s3, rfl, rfl⟩ (r2.trans hp) _

theorem safe_step {d : Bool} {o : Op V} {os : List (Op V)} (h : Safe d (o :: os)) : allowed d o ∧ Safe (after d o) os := by
  cases o <;> simp only [Safe, allowed, after, true_and] at * <;> exact h

theorem runs_spec {blk eq : V → V → Bool} (ho : IsOrder blk) (he : EqOk blk eq) (up : Int → Int → Bool) :
    ∀ (os : List (Op V)) (c : SC V) (M : List V) (d : Bool), Holds blk c M d → Safe d os → Trace blk eq M os (c.runs blk eq up os).1 := by
  intro os
  induction os with
  | nil => intro c M d _ _; rfl
  | cons o os ih =>
    intro c M d h hs
    obtain ⟨h1, h2⟩ := safe_step hs
    obtain ⟨M', s1, s2⟩ := run_spec ho he up h o h1
    exact ⟨_, _, M', rfl, s1, ih _ M' _ s2 h2⟩

/-- C51. Every sequence of messages to a new SortedCollection is answered as the specification says, whatever the sort block (if it orders the elements) and whichever way `makeHeap`
chooses, provided no `add:` or `addAll:` comes right after a `removeLast`. -/
theorem sorted_collection_partial {blk eq : V → V → Bool} (ho : IsOrder blk) (he : EqOk blk eq) (up : Int → Int → Bool) (n : Nat) (os : List (Op V)) (hs : Safe false os) :
    Trace blk eq [] os ((SC.new n).runs blk eq up os).1 :=
  runs_spec ho he up os _ [] false (init_holds n false) hs

end Verif.SortColl
