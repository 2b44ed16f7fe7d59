import Verif.OrdColl.Proofs
/-!
# An OrderedCollection is a list, whatever messages it gets
-/
namespace Verif.OrdColl
set_option linter.unusedSectionVars false
variable {V : Type} [Inhabited V]

theorem new_rep (n : Nat) : Rep (OC.new n : OC V) [] := initIndices_rep _ _ _ n rfl

theorem add_rep {c : OC V} {xs : List V} (h : Rep c xs) (v : V) : ∃ c', c.add v = .ok c' ∧ Rep c' (xs ++ [v]) := by
  obtain ⟨a, b, h⟩ := h
  obtain ⟨c1, b1, e, hs, hf, hl⟩ := roomOne h
  refine ⟨{ c1 with slots := List.replicate a nil ++ (xs ++ [v]) ++ List.replicate b1 nil, last := c1.last + 1 }, ?_, a, b1, rfl, hf, ?_⟩
  · rw [OC.add, e]
    simp only [Except.bind]
    rw [hs, List.replicate_succ, basicPut_mid _ _ _ v _ (by simp only [List.length_append, List.length_replicate]; omega)]
    simp [Except.map]
  · simp only [List.length_append, List.length_cons, List.length_nil]; omega

theorem addFirst_rep {c : OC V} {xs : List V} (h : Rep c xs) (v : V) : ∃ c', c.addFirst v = .ok c' ∧ Rep c' (v :: xs) := by
  obtain ⟨a, b, h⟩ := h
  obtain ⟨c1, a1, e, hs, hf, hl⟩ := roomFirstOne h
  refine ⟨{ c1 with slots := List.replicate a1 nil ++ (v :: xs) ++ List.replicate b nil, first := c1.first - 1 }, ?_, a1, b, rfl, ?_, ?_⟩
  · rw [OC.addFirst, e]
    simp only [Except.bind]
    rw [hs, ← List.replicate_append_replicate]
    rw [show List.replicate a1 (nil : V) ++ List.replicate 1 nil ++ xs ++ List.replicate b nil = List.replicate a1 nil ++ nil :: (xs ++ List.replicate b nil) by simp]
    rw [basicPut_mid _ _ _ v _ (by simp only [List.length_replicate]; omega)]
    simp [Except.map]
  · simp only; omega
  · simp only [List.length_cons]; omega

theorem addAfter_rep {c : OC V} {xs : List V} (h : Rep c xs) (v : V) (i : Int) (hi : 0 ≤ i ∧ i ≤ xs.length) :
    ∃ c', c.addAfter v i = .ok c' ∧ Rep c' (xs.take i.toNat ++ v :: xs.drop i.toNat) := by
  obtain ⟨a, b, h⟩ := h
  have hsz := size_rep h
  have hcf := h.2.1
  obtain ⟨c1, b1, e, hs, hf, hl⟩ := roomOne h
  obtain ⟨k, rfl⟩ : ∃ k : Nat, i = k := ⟨i.toNat, by omega⟩
  rw [Int.toNat_natCast]
  have hk : (xs.take k).length = k := by rw [List.length_take]; omega
  have hd : (xs.drop k).length = xs.length - k := List.length_drop
  obtain ⟨W, hW, es⟩ := shiftLoop_mid (List.replicate a nil ++ xs.take k) 1 (xs.drop k) [nil] (List.replicate b1 nil) c1.last rfl
    (by simp only [List.length_append, List.length_replicate]; omega)
  have hsl : c1.slots = List.replicate a nil ++ xs.take k ++ xs.drop k ++ [nil] ++ List.replicate b1 nil := by
    rw [hs, List.replicate_succ]
    conv_lhs => rw [← List.take_append_drop k xs]
    simp only [List.append_assoc, List.cons_append, List.nil_append]
  refine ⟨{ c1 with slots := List.replicate a nil ++ (xs.take k ++ v :: xs.drop k) ++ List.replicate b1 nil, last := c1.last + 1 }, ?_, a, b1, rfl, hf, ?_⟩
  · rw [OC.addAfter, if_pos (by omega)]
    simp only [e, Except.bind]
    rw [show (c1.last - (↑k + c.first) + 1).toNat = (xs.drop k).length by omega, hsl]
    rw [show ((1 : Nat) : Int) = 1 from rfl] at es
    rw [es]
    obtain ⟨w, rfl⟩ := List.length_eq_one_iff.1 hW
    simp only
    rw [show List.replicate a nil ++ xs.take k ++ [w] ++ xs.drop k ++ List.replicate b1 nil
      = (List.replicate a nil ++ xs.take k) ++ w :: (xs.drop k ++ List.replicate b1 nil) by simp]
    rw [basicPut_mid _ _ _ v _ (by simp only [List.length_append, List.length_replicate]; omega)]
    simp [Except.map]
  · simp only [List.length_append, List.length_cons]; omega

theorem addAll_rep {c : OC V} {xs : List V} (h : Rep c xs) (vs : List V) : ∃ c', c.addAll vs = .ok c' ∧ Rep c' (xs ++ vs) := by
  obtain ⟨a, b, h⟩ := h
  obtain ⟨c1, b1, e, hs, hf, hl⟩ := makeRoomLast_rep h vs.length
  refine ⟨{ c1 with slots := List.replicate a nil ++ (xs ++ vs) ++ List.replicate b1 nil, last := c1.last + vs.length }, ?_, a, b1, rfl, hf, ?_⟩
  · rw [OC.addAll, e]
    simp only [Except.bind]
    rw [hs, ← List.replicate_append_replicate, ← List.append_assoc]
    rw [fillLoop_mid _ _ vs _ _ (by simp) (by simp only [List.length_append, List.length_replicate]; omega)]
    simp [Except.map]
  · simp only [List.length_append]; omega

theorem addAllFirst_rep {c : OC V} {xs : List V} (h : Rep c xs) (vs : List V) : ∃ c', c.addAllFirst vs = .ok c' ∧ Rep c' (vs ++ xs) := by
  obtain ⟨a, b, h⟩ := h
  obtain ⟨c1, a1, e, hs, hf, hl⟩ := makeRoomFirst_rep h vs.length
  refine ⟨{ c1 with slots := List.replicate a1 nil ++ (vs ++ xs) ++ List.replicate b nil, first := c1.first - vs.length }, ?_, a1, b, rfl, ?_, ?_⟩
  · rw [OC.addAllFirst, e]
    simp only [Except.bind]
    rw [hs, ← List.replicate_append_replicate, List.append_assoc _ xs]
    rw [fillLoop_mid _ _ vs _ _ (by simp) (by simp only [List.length_replicate]; omega)]
    simp [Except.map]
  · simp only; omega
  · simp only [List.length_append]; omega

theorem addAllAfter_rep {c : OC V} {xs : List V} (h : Rep c xs) (vs : List V) (i : Int) (hi : 0 ≤ i ∧ i ≤ xs.length) :
    ∃ c', c.addAllAfter vs i = .ok c' ∧ Rep c' (xs.take i.toNat ++ vs ++ xs.drop i.toNat) := by
  obtain ⟨a, b, h⟩ := h
  have hsz := size_rep h
  have hcf := h.2.1
  obtain ⟨c1, b1, e, hs, hf, hl⟩ := makeRoomLast_rep h vs.length
  obtain ⟨k, rfl⟩ : ∃ k : Nat, i = k := ⟨i.toNat, by omega⟩
  rw [Int.toNat_natCast]
  have hk : (xs.take k).length = k := by rw [List.length_take]; omega
  have hd : (xs.drop k).length = xs.length - k := List.length_drop
  obtain ⟨W, hW, es⟩ := shiftLoop_mid (List.replicate a nil ++ xs.take k) vs.length (xs.drop k) (List.replicate vs.length nil) (List.replicate b1 nil) c1.last
    List.length_replicate (by simp only [List.length_append, List.length_replicate]; omega)
  have hsl : c1.slots = List.replicate a nil ++ xs.take k ++ xs.drop k ++ List.replicate vs.length nil ++ List.replicate b1 nil := by
    rw [hs, ← List.replicate_append_replicate]
    conv_lhs => rw [← List.take_append_drop k xs]
    simp only [List.append_assoc]
  refine ⟨{ c1 with slots := List.replicate a nil ++ (xs.take k ++ vs ++ xs.drop k) ++ List.replicate b1 nil, last := c1.last + vs.length }, ?_, a, b1, rfl, hf, ?_⟩
  · rw [OC.addAllAfter, if_pos (by omega)]
    simp only [e, Except.bind]
    rw [show (c1.last - (↑k + c.first) + 1).toNat = (xs.drop k).length by omega, hsl, es]
    simp only
    rw [List.append_assoc _ (xs.drop k)]
    rw [fillLoop_mid _ _ vs W _ (by omega) (by simp only [List.length_append, List.length_replicate]; omega)]
    simp [Except.map]
  · simp only [List.length_append]; omega

theorem replicate_comm_cons (n : Nat) (l : List V) : List.replicate n nil ++ nil :: l = List.replicate (n + 1) nil ++ l := by
  rw [show List.replicate (n + 1) (nil : V) = List.replicate n nil ++ [nil] from List.replicate_succ']; simp

theorem removeFirst_rep {c : OC V} {x : V} {xs : List V} (h : Rep c (x :: xs)) : ∃ c', c.removeFirst = .ok (x, c') ∧ Rep c' xs := by
  obtain ⟨a, b, hs, hf, hl⟩ := h
  have hlen : c.last = a + (xs.length + 1) := by rw [hl, List.length_cons]; omega
  have hs' : c.slots = List.replicate a nil ++ x :: (xs ++ List.replicate b nil) := by rw [hs]; simp
  have hrep : Rep (if c.last = c.first then OC.initIndices ⟨List.replicate a nil ++ nil :: (xs ++ List.replicate b nil), c.first, c.last⟩
      else ⟨List.replicate a nil ++ nil :: (xs ++ List.replicate b nil), c.first + 1, c.last⟩) xs := by
    by_cases e : c.last = c.first
    · have : xs = [] := List.length_eq_zero_iff.1 (by omega)
      subst this
      rw [if_pos e]
      refine initIndices_rep _ _ _ (a + 1 + b) ?_
      rw [replicate_comm_cons, List.nil_append, List.replicate_append_replicate]
    · rw [if_neg e]
      refine ⟨a + 1, b, ?_, by simp only; omega, by simp only; omega⟩
      simp only [replicate_comm_cons, List.append_assoc]
  obtain ⟨a2, b2, hrep⟩ := hrep
  obtain ⟨c', e, hc⟩ := maybeShrink_rep hrep
  refine ⟨c', ?_, hc⟩
  rw [OC.removeFirst, if_neg (by omega), hs', basicAt_mid _ _ x _ (by simp only [List.length_replicate]; omega)]
  simp only [Except.bind]
  rw [basicPut_mid _ _ x nil _ (by simp only [List.length_replicate]; omega)]
  simp only [e, Except.map]

theorem removeLast_rep {c : OC V} {x : V} {xs : List V} (h : Rep c (xs ++ [x])) : ∃ c', c.removeLast = .ok (x, c') ∧ Rep c' xs := by
  obtain ⟨a, b, hs, hf, hl⟩ := h
  have hlen : c.last = a + (xs.length + 1) := by rw [hl]; simp only [List.length_append, List.length_cons, List.length_nil]; omega
  have hs' : c.slots = (List.replicate a nil ++ xs) ++ x :: List.replicate b nil := by rw [hs]; simp
  have hrep : Rep (if c.last = c.first then OC.initIndices ⟨(List.replicate a nil ++ xs) ++ nil :: List.replicate b nil, c.first, c.last⟩
      else ⟨(List.replicate a nil ++ xs) ++ nil :: List.replicate b nil, c.first, c.last - 1⟩) xs := by
    by_cases e : c.last = c.first
    · have : xs = [] := List.length_eq_zero_iff.1 (by omega)
      subst this
      rw [if_pos e]
      refine initIndices_rep _ _ _ (a + 1 + b) ?_
      rw [List.append_nil, replicate_comm_cons, List.replicate_append_replicate]
    · rw [if_neg e]
      exact ⟨a, b + 1, rfl, hf, by simp only; omega⟩
  obtain ⟨a2, b2, hrep⟩ := hrep
  obtain ⟨c', e, hc⟩ := maybeShrink_rep hrep
  refine ⟨c', ?_, hc⟩
  rw [OC.removeLast, if_neg (by omega), hs', basicAt_mid _ _ x _ (by simp only [List.length_append, List.length_replicate]; omega)]
  simp only [Except.bind]
  rw [basicPut_mid _ _ x nil _ (by simp only [List.length_append, List.length_replicate]; omega)]
  simp only [e, Except.map]

theorem removeAt_rep {c : OC V} {x : V} {us ws : List V} (h : Rep c (us ++ x :: ws)) (i : Int) (hi : i = us.length + 1) :
    ∃ c', c.removeAt i = .ok (x, c') ∧ Rep c' (us ++ ws) := by
  obtain ⟨a, b, h⟩ := h
  have hsz := size_rep h
  obtain ⟨hs, hf, hl⟩ := h
  have hn : (us ++ x :: ws).length = us.length + ws.length + 1 := by simp only [List.length_append, List.length_cons]; omega
  rw [hn] at hsz hl
  have hs' : c.slots = (List.replicate a nil ++ us) ++ x :: (ws ++ List.replicate b nil) := by rw [hs]; simp
  have hrep : Rep (if c.last = c.first then OC.initIndices ⟨(List.replicate a nil ++ (us ++ ws)) ++ nil :: List.replicate b nil, c.first, c.last⟩
      else ⟨(List.replicate a nil ++ (us ++ ws)) ++ nil :: List.replicate b nil, c.first, c.last - 1⟩) (us ++ ws) := by
    by_cases e : c.last = c.first
    · have e1 : us ++ ws = [] := List.length_eq_zero_iff.1 (by rw [List.length_append]; omega)
      rw [if_pos e, e1]
      refine initIndices_rep _ _ _ (a + 1 + b) ?_
      rw [List.append_nil, replicate_comm_cons, List.replicate_append_replicate]
    · rw [if_neg e]
      refine ⟨a, b + 1, rfl, hf, ?_⟩
      simp only [List.length_append]; omega
  obtain ⟨a2, b2, hrep⟩ := hrep
  obtain ⟨c', e, hc⟩ := maybeShrink_rep hrep
  refine ⟨c', ?_, hc⟩
  rw [OC.removeAt, OC.basicRemoveAt, if_neg (by omega), if_neg (by omega), hs',
    basicAt_mid _ _ x _ (by simp only [List.length_append, List.length_replicate]; omega)]
  simp only [Except.bind]
  -- the slots moved down: all of `ws`, onto `x` and all but the last of `ws`
  rcases List.eq_nil_or_concat (x :: ws) with hnil | ⟨M, z, hM⟩
  · cases hnil
  rw [List.concat_eq_append] at hM
  have hlM : M.length = ws.length := by have := congrArg List.length hM; simp at this; omega
  have e1 : (List.replicate a nil ++ us) ++ x :: (ws ++ List.replicate b nil) = (List.replicate a nil ++ us) ++ M ++ (z :: List.replicate b nil) := by
    rw [← List.cons_append, hM]; simp
  have e2 : (List.replicate a nil ++ us) ++ x :: (ws ++ List.replicate b nil) = (List.replicate a nil ++ us ++ [x]) ++ ws ++ List.replicate b nil := by simp
  have e3 : replace ((List.replicate a nil ++ us) ++ x :: (ws ++ List.replicate b nil)) (i + c.first - 1) (c.last - 1)
      ((List.replicate a nil ++ us) ++ x :: (ws ++ List.replicate b nil)) (i + c.first)
      = .ok ((List.replicate a nil ++ us) ++ ws ++ (z :: List.replicate b nil)) := by
    conv_lhs => arg 4; rw [e2]
    rw [e1]
    exact replace_mid _ _ _ _ _ _ _ _ _ (by simp only [List.length_append, List.length_replicate]; omega)
      (by simp only [List.length_append, List.length_replicate]; omega)
      (by simp only [List.length_append, List.length_replicate, List.length_cons, List.length_nil]; omega) hlM.symm
  rw [e3]
  simp only
  rw [basicPut_mid _ _ z nil _ (by simp only [List.length_append, List.length_replicate]; omega)]
  simp only [Except.map]
  rw [List.append_assoc _ us ws, e]

/-! ## Reading -/

theorem at_rep {c : OC V} {xs : List V} (h : Rep c xs) (i : Int) :
    c.at i = (match (if 1 ≤ i then xs[(i - 1).toNat]? else none) with | none => .error .index | some x => .ok x) := by
  obtain ⟨a, b, hs, hf, hl⟩ := h
  rw [OC.at]
  by_cases e : 1 ≤ i ∧ i ≤ xs.length
  · have hlt : (i - 1).toNat < xs.length := by omega
    rw [if_pos (by omega), if_pos e.1, List.getElem?_eq_getElem hlt, hs]
    refine basicAt_get _ _ (a + (i - 1).toNat) _ (by omega) ?_
    rw [List.append_assoc, List.getElem?_append_right (by simp only [List.length_replicate]; omega), List.length_replicate,
      List.getElem?_append_left (by omega), show a + (i - 1).toNat - a = (i - 1).toNat by omega, List.getElem?_eq_getElem hlt]
  · rw [if_neg (by omega)]
    by_cases e1 : 1 ≤ i
    · rw [if_pos e1, List.getElem?_eq_none (by omega)]
    · rw [if_neg e1]

theorem at_rep_get {c : OC V} {xs : List V} (h : Rep c xs) (k : Nat) (x : V) (e : xs[k]? = some x) (i : Int) (hi : i = k + 1) : c.at i = .ok x := by
  rw [at_rep h, if_pos (by omega), show (i - 1).toNat = k by omega, e]

theorem put_rep {c : OC V} {xs : List V} (h : Rep c xs) (i : Int) (v : V) (hi : 1 ≤ i ∧ i ≤ xs.length) :
    ∃ c', c.put i v = .ok c' ∧ Rep c' (xs.set (i - 1).toNat v) := by
  obtain ⟨a, b, hs, hf, hl⟩ := h
  have hlt : (i - 1).toNat < xs.length := by omega
  refine ⟨{ c with slots := List.replicate a nil ++ xs.set (i - 1).toNat v ++ List.replicate b nil }, ?_, a, b, rfl, hf, ?_⟩
  · rw [OC.put]
    rw [if_pos (by omega), hs, basicPut, if_pos (by simp only [List.length_append, List.length_replicate]; omega)]
    simp only [Except.map]
    have e2 : (i + c.first - 1 - 1).toNat = a + (i - 1).toNat := by omega
    rw [e2, List.append_assoc, List.set_append_right _ _ (by simp only [List.length_replicate]; omega), List.length_replicate,
      show a + (i - 1).toNat - a = (i - 1).toNat by omega, List.set_append_left _ _ hlt, List.append_assoc]
  · simp only [List.length_set]; exact hl

theorem elements_rep {c : OC V} {xs : List V} (h : Rep c xs) : c.elements = .ok xs := by
  obtain ⟨a, b, hs, hf, hl⟩ := h
  rw [OC.elements, show (c.last - c.first + 1).toNat = xs.length by omega, hs]
  exact doLoop_mid _ _ xs _ (by simp only [List.length_replicate]; omega)

theorem indexLoop_rep (eq : V → V → Bool) {c : OC V} {xs : List V} (h : Rep c xs) (x : V) :
    ∀ (n k : Nat), k + n = xs.length →
      indexLoop eq c x n ((k : Int) + 1) = .ok (((xs.drop k).findIdx? (eq · x)).map fun j => ((k + 1 + j : Nat) : Int)) := by
  intro n
  induction n with
  | zero => intro k hk; rw [List.drop_eq_nil_of_le (by omega)]; rfl
  | succ n ih =>
    intro k hk
    have hlt : k < xs.length := by omega
    rw [indexLoop, at_rep_get h k _ (List.getElem?_eq_getElem hlt) _ rfl]
    simp only [Except.bind]
    rw [List.drop_eq_getElem_cons hlt, List.findIdx?_cons]
    by_cases e : eq xs[k] x = true
    · rw [if_pos e, if_pos e]; simp
    · rw [if_neg e, if_neg e]
      have := ih (k + 1) (by omega)
      rw [show ((k + 1 : Nat) : Int) + 1 = (k : Int) + 1 + 1 by omega] at this
      rw [this, Option.map_map]
      congr 2
      funext j
      simp only [Function.comp]; omega

theorem indexOf_rep (eq : V → V → Bool) {c : OC V} {xs : List V} (h : Rep c xs) (x : V) (i : Int) :
    c.indexOf eq x i = if 1 ≤ i ∧ i ≤ xs.length + 1 then .ok (firstIndex eq xs x i.toNat) else .error .index := by
  obtain ⟨a, b, h'⟩ := h
  have hsz := size_rep h'
  have h : Rep c xs := ⟨a, b, h'⟩
  rw [OC.indexOf, hsz]
  by_cases e : i < 1 ∨ i > xs.length
  · rw [if_pos e]
    by_cases e2 : i = xs.length + 1
    · rw [if_pos e2, if_pos (by omega), firstIndex, List.drop_eq_nil_of_le (by omega)]; rfl
    · rw [if_neg e2, if_neg (by omega)]
  · rw [if_neg e, if_pos (by omega)]
    have := indexLoop_rep eq h x ((xs.length : Int) - i + 1).toNat (i - 1).toNat (by omega)
    rw [show (((i - 1).toNat : Nat) : Int) + 1 = i by omega] at this
    rw [this, firstIndex]
    congr 1
    rw [show (i - 1).toNat = i.toNat - 1 by omega, show i.toNat - 1 + 1 = i.toNat by omega]

theorem firstIndex_some (eq : V → V → Bool) {xs : List V} {x : V} {i : Int} (h : firstIndex eq xs x 1 = some i) :
    ∃ k : Nat, i = k + 1 ∧ k < xs.length := by
  simp only [firstIndex, Nat.sub_self, List.drop_zero, Option.map_eq_some_iff] at h
  obtain ⟨k, hk, rfl⟩ := h
  rw [List.findIdx?_eq_some_iff_getElem] at hk
  exact ⟨k, by omega, hk.1⟩

/-! ## The theorems -/

/-- Relation of an answer with its new collection to an answer with its new list. -/
def Matches : Res (Ans V × OC V) → Res (Ans V × List V) → Prop
  | .ok (a, c), .ok (a', xs) => a = a' ∧ Rep c xs
  | .error e, .error e' => e = e'
  | _, _ => False

theorem match_ok {r : Res (OC V)} {ys : List V} (h : ∃ c', r = .ok c' ∧ Rep c' ys) :
    Matches (r.map fun c => (.done, c)) (.ok (.done, ys)) := by
  obtain ⟨c', e, h⟩ := h; rw [e]; exact ⟨rfl, h⟩

theorem match_val {r : Res (V × OC V)} {x : V} {ys : List V} (h : ∃ c', r = .ok (x, c') ∧ Rep c' ys) :
    Matches (r.map fun r => (.val r.1, r.2)) (.ok (.val x, ys)) := by
  obtain ⟨c', e, h⟩ := h; rw [e]; exact ⟨rfl, h⟩

theorem removeAt_match {c : OC V} {xs : List V} (h : Rep c xs) (i : Int) (k : Nat) (hk : k < xs.length) (hi : i = k + 1) :
    ∃ c', c.removeAt i = .ok (xs[k], c') ∧ Rep c' (xs.take (i - 1).toNat ++ xs.drop i.toNat) := by
  have e1 : (i - 1).toNat = k := by omega
  have e2 : i.toNat = k + 1 := by omega
  rw [e1, e2]
  have hx : xs = xs.take k ++ xs[k] :: xs.drop (k + 1) := by rw [← List.drop_eq_getElem_cons hk, List.take_append_drop]
  rw [hx] at h
  exact removeAt_rep h i (by rw [List.length_take]; omega)

/-- **C49, one message**: every message answers what it would on the list of the elements, or raises the same error, and
leaves the collection holding the list that the message makes of it. -/
theorem run_refines (eq : V → V → Bool) {c : OC V} {xs : List V} (h : Rep c xs) (o : Op V) : Matches (c.run eq o) (spec eq xs o) := by
  have hsz : c.size = xs.length := by obtain ⟨a, b, h⟩ := h; exact size_rep h
  cases o with
  | add v => exact match_ok (add_rep h v)
  | addFirst v => exact match_ok (addFirst_rep h v)
  | addAfter v i =>
    simp only [OC.run, spec]
    by_cases hi : 0 ≤ i ∧ i ≤ xs.length
    · rw [if_pos hi]; exact match_ok (addAfter_rep h v i hi)
    · rw [if_neg hi, OC.addAfter, if_neg (by omega)]; rfl
  | addAll vs => exact match_ok (addAll_rep h vs)
  | addAllFirst vs => exact match_ok (addAllFirst_rep h vs)
  | addAllAfter vs i =>
    simp only [OC.run, spec]
    by_cases hi : 0 ≤ i ∧ i ≤ xs.length
    · rw [if_pos hi]; exact match_ok (addAllAfter_rep h vs i hi)
    · rw [if_neg hi, OC.addAllAfter, if_neg (by omega)]; rfl
  | addAfterObject v o =>
    simp only [OC.run, spec, OC.addAfterObject]
    rw [indexOf_rep eq h, if_pos (by omega)]
    simp only [Except.bind, Int.toNat_one]
    cases hf : firstIndex eq xs o 1 with
    | none => rfl
    | some i =>
      obtain ⟨k, rfl, hk⟩ := firstIndex_some eq hf
      exact match_ok (addAfter_rep h v _ (by omega))
  | addBeforeObject v o =>
    simp only [OC.run, spec, OC.addBeforeObject]
    rw [indexOf_rep eq h, if_pos (by omega)]
    simp only [Except.bind, Int.toNat_one]
    cases hf : firstIndex eq xs o 1 with
    | none => rfl
    | some i =>
      obtain ⟨k, rfl, hk⟩ := firstIndex_some eq hf
      exact match_ok (addAfter_rep h v _ (by omega))
  | removeFirst =>
    cases xs with
    | nil =>
      simp only [OC.run, spec]
      rw [OC.removeFirst, if_pos (by rw [OC.size, List.length_nil] at hsz; omega)]; rfl
    | cons x xs => exact match_val (removeFirst_rep h)
  | removeLast =>
    rcases List.eq_nil_or_concat xs with rfl | ⟨ys, y, rfl⟩
    · simp only [OC.run, spec]
      rw [OC.removeLast, if_pos (by rw [OC.size, List.length_nil] at hsz; omega)]; rfl
    · rw [List.concat_eq_append] at h ⊢
      simp only [OC.run, spec, List.getLast?_concat, List.dropLast_concat]
      exact match_val (removeLast_rep h)
  | removeAt i =>
    simp only [OC.run, spec]
    by_cases hn : xs = []
    · subst hn
      rw [if_pos rfl, OC.removeAt, OC.basicRemoveAt, if_pos (by rw [OC.size, List.length_nil] at hsz; omega)]; rfl
    · have hpos : 0 < xs.length := List.length_pos_iff.2 hn
      rw [if_neg hn]
      by_cases hi : 1 ≤ i ∧ i ≤ xs.length
      · have hlt : (i - 1).toNat < xs.length := by omega
        rw [if_pos hi.1, List.getElem?_eq_getElem hlt]
        exact match_val (removeAt_match h i _ hlt (by omega))
      · have : (if 1 ≤ i then xs[(i - 1).toNat]? else none) = none := by
          by_cases e1 : 1 ≤ i
          · rw [if_pos e1, List.getElem?_eq_none (by omega)]
          · rw [if_neg e1]
        rw [this, OC.removeAt, OC.basicRemoveAt, if_neg (by rw [OC.size] at hsz; omega), if_pos (by omega)]; rfl
  | remove v =>
    simp only [OC.run, spec, OC.remove]
    rw [indexOf_rep eq h, if_pos (by omega)]
    simp only [Except.bind, Int.toNat_one]
    cases hf : firstIndex eq xs v 1 with
    | none => rfl
    | some i =>
      obtain ⟨k, rfl, hk⟩ := firstIndex_some eq hf
      simp only
      rw [show ((k : Int) + 1 - 1).toNat = k by omega, List.getElem?_eq_getElem hk]
      have := match_val (removeAt_match h (k + 1) k hk rfl)
      rw [show ((k : Int) + 1 - 1).toNat = k by omega] at this
      exact this
  | «at» i =>
    simp only [OC.run, spec, at_rep h]
    cases (if 1 ≤ i then xs[(i - 1).toNat]? else none) with
    | none => rfl
    | some x => exact ⟨rfl, h⟩
  | put i v =>
    simp only [OC.run, spec]
    by_cases hi : 1 ≤ i ∧ i ≤ xs.length
    · rw [if_pos hi]; exact match_ok (put_rep h i v hi)
    · rw [if_neg hi, OC.put]
      rw [if_neg (by rw [OC.size] at hsz; omega)]; rfl
  | first =>
    simp only [OC.run, spec, OC.getFirst]
    obtain ⟨a, b, hs, hf, hl⟩ := h
    cases xs with
    | nil => rw [if_neg (by rw [List.length_nil] at hl; omega)]; rfl
    | cons x xs =>
      rw [List.length_cons] at hl
      rw [if_pos (by omega), hs, List.append_assoc, List.cons_append, basicAt_mid _ _ x _ (by rw [List.length_replicate]; omega)]
      exact ⟨rfl, a, b, hs, hf, by rw [List.length_cons]; omega⟩
  | last =>
    simp only [OC.run, spec, OC.getLast]
    obtain ⟨a, b, hs, hf, hl⟩ := h
    rcases List.eq_nil_or_concat xs with rfl | ⟨ys, y, rfl⟩
    · rw [if_neg (by rw [List.length_nil] at hl; omega)]; rfl
    · rw [List.concat_eq_append] at hs hl ⊢
      rw [List.getLast?_concat]
      have hl' := hl
      rw [List.length_append, List.length_cons, List.length_nil] at hl'
      rw [if_pos (by omega), hs, show List.replicate a nil ++ (ys ++ [y]) ++ List.replicate b nil = (List.replicate a nil ++ ys) ++ y :: List.replicate b nil by simp,
        basicAt_mid _ _ y _ (by simp only [List.length_append, List.length_replicate]; omega)]
      exact ⟨rfl, a, b, hs, hf, hl⟩
  | size => exact ⟨by rw [hsz], h⟩
  | indexOf v i =>
    simp only [OC.run, spec, indexOf_rep eq h]
    by_cases hi : 1 ≤ i ∧ i ≤ xs.length + 1
    · rw [if_pos hi, if_pos hi]; exact ⟨rfl, h⟩
    · rw [if_neg hi, if_neg hi]; rfl
  | elements => simp only [OC.run, spec, elements_rep h]; exact ⟨rfl, h⟩

theorem runs_refines (eq : V → V → Bool) : ∀ (os : List (Op V)) {c : OC V} {xs : List V}, Rep c xs →
    (c.runs eq os).1 = (specs eq xs os).1 ∧ Rep (c.runs eq os).2 (specs eq xs os).2 := by
  intro os
  induction os with
  | nil => intro c xs h; exact ⟨rfl, h⟩
  | cons o os ih =>
    intro c xs h
    have hm := run_refines eq h o
    rw [OC.runs, specs]
    revert hm
    cases hr : c.run eq o with
    | error e =>
      cases hs : spec eq xs o with
      | error e' => intro hm; have : e = e' := hm; subst this; exact ⟨by simp only [(ih h).1], (ih h).2⟩
      | ok p => intro hm; exact hm.elim
    | ok p =>
      obtain ⟨a, c'⟩ := p
      cases hs : spec eq xs o with
      | error e' => intro hm; exact hm.elim
      | ok q =>
        obtain ⟨a', xs'⟩ := q
        intro hm
        obtain ⟨rfl, h'⟩ := hm
        exact ⟨by simp only [(ih h').1], (ih h').2⟩

/-- **C49**: an OrderedCollection made by `new:` with any size answers to every sequence of messages as the list would that starts empty. -/
theorem collection_is_list (eq : V → V → Bool) (n : Nat) (os : List (Op V)) :
    ((OC.new n).runs eq os).1 = (specs eq [] os).1 := (runs_refines eq os (new_rep n)).1

/-- **C50**: after any sequence of messages every slot is nil except those holding the elements, in order and one for each: nothing that was removed is kept. -/
theorem no_stale_slots (eq : V → V → Bool) (n : Nat) (os : List (Op V)) :
    ∃ a b, ((OC.new n).runs eq os).2.slots = List.replicate a nil ++ (specs eq [] os).2 ++ List.replicate b nil := by
  obtain ⟨_, a, b, h, _⟩ := runs_refines eq os (new_rep n)
  exact ⟨a, b, h⟩

example : ((OC.new 3 : OC Nat).runs (· == ·) [.add 5, .add 6, .addFirst 4, .addAfter 9 1, .remove 6, .elements, .last, .removeAt 7]).1
    = [.ok .done, .ok .done, .ok .done, .ok .done, .ok (.val 6), .ok (.list [4, 9, 5]), .ok (.val 5), .error .index] := by decide

/-! ## The receiver as its own argument -/

/-- The claim that fails: adding a collection to itself doubles it. -/
def AddSelfDoubles : Prop := ∀ (c : OC Nat) (xs : List Nat), Rep c xs → ∃ c', c.addAllSelf = .ok c' ∧ c'.elements = .ok (xs ++ xs)

/-- **C49, refuted part**: `c addAll: c` on a collection of four elements raises an index error: `lastIndex` moves before the loop that walks up to it. -/
theorem addAllSelf_fails : ¬ AddSelfDoubles := by
  intro h
  have hr : Rep ((OC.new 16 : OC Nat).runs (· == ·) [.add 1, .add 2, .add 3, .add 4]).2 [1, 2, 3, 4] :=
    (runs_refines (V := Nat) (· == ·) [.add 1, .add 2, .add 3, .add 4] (new_rep 16)).2
  obtain ⟨c', h1, _⟩ := h _ _ hr
  have : (((OC.new 16 : OC Nat).runs (· == ·) [.add 1, .add 2, .add 3, .add 4]).2.addAllSelf) = .error .index := by decide
  rw [this] at h1
  cases h1

end Verif.OrdColl
