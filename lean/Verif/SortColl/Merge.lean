import Verif.SortColl.Heap
/-!
# Merging the elements added since the collection was last in order
-/
namespace Verif.SortColl
open Verif.OrdColl
set_option linter.unusedSectionVars false
variable {V : Type} [Inhabited V]

theorem segSorted_iff (blk : V → V → Bool) (P O R : List V) (i j : Int) (hi : i = P.length + 1) (hj : j = P.length + O.length) :
    SegSorted blk (P ++ O ++ R) i j ↔ O.Pairwise (Le blk) := by
  subst hi hj
  rw [List.pairwise_iff_getElem]
  constructor
  · intro h p q hp hq hpq
    have := h (P.length + p + 1) (P.length + q + 1) (by omega) (by omega) (by omega)
    rw [get_append (by omega) (by omega), get_append (by omega) (by omega), get_eq (by omega) (by omega), get_eq (by omega) (by omega)] at this
    simpa [show ((P.length : Int) + p + 1 - P.length - 1).toNat = p by omega, show ((P.length : Int) + q + 1 - P.length - 1).toNat = q by omega] using this
  · intro h p q h1 h2 h3
    rw [get_append (by omega) (by omega), get_append (by omega) (by omega), get_eq (by omega) (by omega), get_eq (by omega) (by omega)]
    by_cases e : p = q
    · subst e; exact le_refl _ _
    · exact h _ _ _ _ (by omega)

theorem mem_seg (P O R : List V) (v : V) (hv : v ∈ O) : ∃ k, P.length < k ∧ k ≤ P.length + O.length ∧ get (P ++ O ++ R) k = v := by
  obtain ⟨n, hn, rfl⟩ := List.mem_iff_getElem.1 hv
  refine ⟨P.length + n + 1, by omega, by omega, ?_⟩
  rw [get_append (by omega) (by omega), get_eq (by omega) (by omega)]
  congr 1; omega

theorem seg_mem (P O R : List V) (k : Int) (h1 : P.length < k) (h2 : k ≤ P.length + O.length) : get (P ++ O ++ R) k ∈ O := by
  rw [get_append h1 h2, get_eq (by omega) (by omega)]
  exact List.getElem_mem _

theorem insertionIndex_spec {blk : V → V → Bool} (ho : IsOrder blk) (l : List V) (x : V) (first i : Int) (hf : 1 ≤ first) (hi : i ≤ l.length) (hs : SegSorted blk l first i) :
    ∀ (n : Nat) (low high : Int), first ≤ low → low ≤ high + 1 → high ≤ i → 1 ≤ n → high - low + 2 ≤ n →
      (∀ p, first ≤ p → p < low → Le blk (get l p) x) → (∀ p, high < p → p ≤ i → Le blk x (get l p)) →
      ∃ k, insertionIndex blk l x n low high = .ok k ∧ low ≤ k ∧ k ≤ high + 1 ∧ (∀ p, first ≤ p → p < k → Le blk (get l p) x) ∧ (∀ p, k ≤ p → p ≤ i → Le blk x (get l p)) := by
  intro n
  induction n with
  | zero => intro low high _ _ _ h; omega
  | succ n ih =>
    intro low high h1 h2 h3 _ h4 ha hb
    rw [insertionIndex]
    by_cases c : low > high
    · rw [if_pos c]
      exact ⟨low, rfl, by omega, by omega, ha, fun p p1 p2 => hb p (by omega) p2⟩
    · rw [if_neg c]
      have hm : low ≤ (high + low) / 2 ∧ (high + low) / 2 ≤ high := by omega
      generalize (high + low) / 2 = mid at hm ⊢
      rw [basicAt_in (by omega) (by omega)]
      simp only [Except.bind]
      by_cases b : blk (get l mid) x = true
      · rw [if_pos b]
        obtain ⟨k, e1, e2, e3, e4, e5⟩ := ih (mid + 1) high (by omega) (by omega) h3 (by omega) (by omega)
          (fun p p1 p2 => ho.trans _ _ _ (hs p mid p1 (by omega) (by omega)) (le_of_true b)) hb
        exact ⟨k, e1, by omega, e3, e4, e5⟩
      · rw [if_neg b]
        obtain ⟨k, e1, e2, e3, e4, e5⟩ := ih low (mid - 1) h1 (by omega) (by omega) (by omega) (by omega) ha
          (fun p p1 p2 => ho.trans _ _ _ (le_of_false b) (hs mid p (by omega) (by omega) p2))
        exact ⟨k, e1, e2, by omega, e4, e5⟩

theorem mergeLoop_spec {blk : V → V → Bool} (ho : IsOrder blk) (first : Int) (P Q : List V) (hP : first = P.length + 1) :
    ∀ (es O G T : List V) (i add : Int), i = P.length + O.length → add = G.length → G.length = es.length →
      O.Pairwise (Le blk) → T.Pairwise (Le blk) → (∀ o ∈ O, ∀ t ∈ T, Le blk o t) → es.Pairwise (fun a b => Le blk b a) → (∀ e ∈ es, ∀ t ∈ T, Le blk e t) →
      ∃ M, mergeLoop blk first es i add (P ++ O ++ G ++ T ++ Q) = .ok (P ++ M ++ Q) ∧ M.Perm (O ++ es ++ T) ∧ M.Pairwise (Le blk) := by
  intro es
  induction es with
  | nil =>
    intro O G T i add hi hadd hG hO hT hOT _ _
    rw [List.length_nil, List.length_eq_zero_iff] at hG
    subst hG
    refine ⟨O ++ T, by rw [mergeLoop]; simp, by simp, List.pairwise_append.2 ⟨hO, hT, hOT⟩⟩
  | cons e es ih =>
    intro O G T i add hi hadd hG hO hT hOT hes heT
    rw [List.length_cons] at hG
    have hseg : SegSorted blk (P ++ O ++ G ++ T ++ Q) first i := by
      have := (segSorted_iff blk P O (G ++ T ++ Q) first i hP hi).2 hO
      simpa only [List.append_assoc] using this
    have hl : i ≤ (P ++ O ++ G ++ T ++ Q).length := by simp only [List.length_append]; omega
    obtain ⟨k, a1, a2, a3, a4, a5⟩ := insertionIndex_spec ho (P ++ O ++ G ++ T ++ Q) e first i (by omega) hl hseg ((i - first).toNat + 2) first i
      (by omega) (by omega) (by omega) (by omega) (by omega) (fun p _ _ => by omega) (fun p _ _ => by omega)
    obtain ⟨A, B, rfl, hA⟩ : ∃ A B, O = A ++ B ∧ k = P.length + A.length + 1 := by
      refine ⟨O.take (k - first).toNat, O.drop (k - first).toNat, (List.take_append_drop _ _).symm, ?_⟩
      rw [List.length_take]; omega
    rw [List.length_append] at hi
    have hAe : ∀ v ∈ A, Le blk v e := by
      intro v hv
      obtain ⟨p, p1, p2, rfl⟩ := mem_seg P A (B ++ G ++ T ++ Q) v hv
      have := a4 p (by omega) (by omega)
      simpa only [List.append_assoc] using this
    have heB : ∀ v ∈ B, Le blk e v := by
      intro v hv
      obtain ⟨p, p1, p2, rfl⟩ := mem_seg (P ++ A) B (G ++ T ++ Q) v hv
      rw [List.length_append] at p1 p2
      have := a5 p (by omega) (by omega)
      simpa only [List.append_assoc] using this
    rw [mergeLoop, a1]
    simp only [Except.bind]
    -- B moves up over the gap
    obtain ⟨X, x, hX⟩ : ∃ X x, (B ++ G).take G.length = X ++ [x] := by
      rcases List.eq_nil_or_concat ((B ++ G).take G.length) with h | ⟨X, x, h⟩
      · have := congrArg List.length h
        rw [List.length_take, List.length_append, List.length_nil] at this; omega
      · exact ⟨X, x, by rw [h, List.concat_eq_append]⟩
    have hXl : X.length + 1 = G.length := by
      have := congrArg List.length hX
      rw [List.length_take, List.length_append, List.length_append, List.length_cons, List.length_nil] at this; omega
    have hYl : ((B ++ G).drop G.length).length = B.length := by rw [List.length_drop, List.length_append]; omega
    have e1 : P ++ (A ++ B) ++ G ++ T ++ Q = (P ++ A ++ (X ++ [x])) ++ (B ++ G).drop G.length ++ (T ++ Q) := by
      calc P ++ (A ++ B) ++ G ++ T ++ Q = (P ++ A) ++ (B ++ G) ++ (T ++ Q) := by simp only [List.append_assoc]
        _ = (P ++ A) ++ ((B ++ G).take G.length ++ (B ++ G).drop G.length) ++ (T ++ Q) := by rw [List.take_append_drop]
        _ = _ := by rw [hX]; simp only [List.append_assoc]
    have e2 : P ++ (A ++ B) ++ G ++ T ++ Q = (P ++ A) ++ B ++ (G ++ T ++ Q) := by simp only [List.append_assoc]
    have e3 : replace (P ++ (A ++ B) ++ G ++ T ++ Q) (k + add) (i + add) (P ++ (A ++ B) ++ G ++ T ++ Q) k
        = .ok ((P ++ A ++ (X ++ [x])) ++ B ++ (T ++ Q)) := by
      conv_lhs => arg 4; rw [e2]
      rw [e1]
      exact replace_mid _ _ _ _ _ _ _ _ _ (by simp only [List.length_append, List.length_cons, List.length_nil]; omega)
        (by simp only [List.length_append, List.length_cons, List.length_nil, hYl]; omega)
        (by simp only [List.length_append]; omega) hYl.symm
    rw [e3]
    simp only
    rw [show P ++ A ++ (X ++ [x]) ++ B ++ (T ++ Q) = (P ++ A ++ X) ++ x :: (B ++ (T ++ Q)) by simp]
    rw [basicPut_mid _ _ x e _ (by simp only [List.length_append]; omega)]
    simp only
    rw [List.pairwise_append] at hO
    rw [List.pairwise_cons] at hes
    obtain ⟨M, m1, m2, m3⟩ := ih A X (e :: B ++ T) (k - 1) (add - 1) (by omega) (by omega) (by omega) hO.1
      (by
        rw [List.cons_append, List.pairwise_cons]
        refine ⟨fun t ht => ?_, List.pairwise_append.2 ⟨hO.2.1, hT, fun o h t h2 => hOT o (List.mem_append_right _ h) t h2⟩⟩
        rcases List.mem_append.1 ht with ht | ht
        · exact heB t ht
        · exact heT e List.mem_cons_self t ht)
      (by
        intro o h t ht
        rw [List.cons_append, List.mem_cons, List.mem_append] at ht
        rcases ht with rfl | ht | ht
        · exact hAe o h
        · exact hO.2.2 o h t ht
        · exact hOT o (List.mem_append_left _ h) t ht)
      hes.2
      (by
        intro e' h t ht
        rw [List.cons_append, List.mem_cons, List.mem_append] at ht
        rcases ht with rfl | ht | ht
        · exact hes.1 e' h
        · exact ho.trans _ _ _ (hes.1 e' h) (heB t ht)
        · exact heT e' (List.mem_cons_of_mem _ h) t ht)
    refine ⟨M, ?_, m2.trans ?_, m3⟩
    · rw [← m1]; simp only [List.append_assoc, List.cons_append]
    · -- A ++ es ++ (e :: B ++ T)  and  A ++ B ++ e :: es ++ T
      simp only [List.append_assoc, List.cons_append]
      refine List.Perm.append_left A ?_
      have h1 : (es ++ e :: (B ++ T)).Perm (e :: (es ++ (B ++ T))) := List.perm_middle
      have h2 : (B ++ e :: (es ++ T)).Perm (e :: (B ++ (es ++ T))) := List.perm_middle
      refine h1.trans (List.Perm.trans (List.Perm.cons e ?_) h2.symm)
      rw [← List.append_assoc, ← List.append_assoc]
      exact List.Perm.append_right T List.perm_append_comm

theorem merge_spec {blk : V → V → Bool} (ho : IsOrder blk) {c : SC V} (A O N B : List V) (hs : c.oc.slots = A ++ O ++ N ++ B) (hf : c.oc.first = A.length + 1)
    (hlo : c.lastOrdered = A.length + O.length) (hl : c.oc.last = A.length + O.length + N.length) (hO : O.Pairwise (Le blk)) :
    ∃ M, c.merge blk = .ok ⟨⟨A ++ M ++ B, c.oc.first, c.oc.last⟩, c.oc.last, true⟩ ∧ M.Perm (O ++ N) ∧ M.Pairwise (Le blk) := by
  obtain ⟨s, a1, a2, a3⟩ := sortSlots_spec ho (c.lastOrdered + 1) c.oc.last c.oc.slots (by omega) (by rw [hs]; simp only [List.length_append]; omega)
  rw [hs] at a2
  obtain ⟨N', rfl, hN⟩ := a2.mid (A := A ++ O) (xs := N) (B := B) (by rw [List.length_append]; omega) (by rw [List.length_append]; omega)
  have hNl := hN.length_eq
  have hNs : N'.Pairwise (Le blk) := (segSorted_iff blk (A ++ O) N' B _ _ (by rw [List.length_append]; omega) (by rw [List.length_append]; omega)).1 a3
  have d1 : doLoop (A ++ O ++ N' ++ B) (c.oc.last - c.lastOrdered).toNat (c.lastOrdered + 1) = .ok N' := by
    rw [show (c.oc.last - c.lastOrdered).toNat = N'.length by omega]
    exact doLoop_mid _ _ N' _ (by rw [List.length_append]; omega)
  obtain ⟨N2, b1, b2, b3⟩ := sortSlots_spec ho 1 N'.length N' (by omega) (by omega)
  have b2' : Swaps 1 N'.length ([] ++ N' ++ []) N2 := by simpa using b2
  obtain ⟨N3, e3, hN2⟩ := b2'.mid (by simp) (by simp)
  have : N2 = N3 := by simpa using e3
  subst this
  have hN2l := hN2.length_eq
  have hN2s : N2.Pairwise (Le blk) := (segSorted_iff blk [] N2 [] 1 N'.length (by simp) (by simp [hN2l])).1 (by simpa using b3)
  obtain ⟨M, m1, m2, m3⟩ := mergeLoop_spec ho c.oc.first A B hf N2.reverse O N' [] (c.oc.last - N2.length) N2.length (by omega) (by omega)
    (by rw [List.length_reverse]; omega) hO List.Pairwise.nil (fun _ _ _ h => by cases h) (List.pairwise_reverse.2 hN2s) (fun _ _ _ h => by cases h)
  refine ⟨M, ?_, ?_, m3⟩
  · rw [SC.merge, a1]
    simp only [Except.bind]
    rw [d1]
    simp only
    rw [b1]
    simp only
    rw [List.append_nil] at m1
    rw [m1]
    rfl
  · refine m2.trans ?_
    rw [List.append_nil]
    exact List.Perm.append_left O ((List.reverse_perm _).trans (hN2.trans hN))

/-- With nothing new, as after `removeLast`. -/
theorem merge_none {blk : V → V → Bool} {c : SC V} (hlo : c.oc.last ≤ c.lastOrdered) : c.merge blk = .ok ⟨c.oc, c.oc.last, true⟩ := by
  have a1 : sortSlots blk (c.lastOrdered + 1) c.oc.last c.oc.slots = .ok c.oc.slots := by
    rw [sortSlots, sortFrom, if_pos (by omega), if_neg (by omega)]
  have b1 : sortSlots blk 1 (([] : List V).length) ([] : List V) = .ok [] := by
    rw [sortSlots, sortFrom, if_pos (by simp), if_neg (by simp)]
  rw [SC.merge, a1]
  simp only [Except.bind]
  rw [show (c.oc.last - c.lastOrdered).toNat = 0 by omega]
  simp only [doLoop]
  rw [b1]
  rfl

end Verif.SortColl
