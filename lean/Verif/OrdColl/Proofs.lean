import Mathlib.Data.List.Induction
import Verif.OrdColl.Spec
/-!
# The slots of an OrderedCollection: nils, the elements, nils
-/
namespace Verif.OrdColl
set_option linter.unusedSectionVars false
variable {V : Type} [Inhabited V]

/-- The collection holds `xs`, with `a` free slots before and `b` after, all of them nil. -/
def RepAB (c : OC V) (a : Nat) (xs : List V) (b : Nat) : Prop :=
  c.slots = List.replicate a nil ++ xs ++ List.replicate b nil ∧ c.first = a + 1 ∧ c.last = a + xs.length

def Rep (c : OC V) (xs : List V) : Prop := ∃ a b, RepAB c a xs b

theorem basicAt_mid (A B : List V) (x : V) (i : Int) (h : i = A.length + 1) : basicAt (A ++ x :: B) i = .ok x := by
  subst h
  have e : ((A.length : Int) + 1 - 1).toNat = A.length := by omega
  rw [basicAt, if_pos (by omega), e, List.getElem?_append_right (Nat.le_refl _)]; simp

theorem basicAt_get (l : List V) (i : Int) (k : Nat) (x : V) (h : i = k + 1) (e : l[k]? = some x) : basicAt l i = .ok x := by
  subst h
  have e2 : ((k : Int) + 1 - 1).toNat = k := by omega
  rw [basicAt, if_pos (by omega), e2, e]

theorem basicPut_mid (A B : List V) (x y : V) (i : Int) (h : i = A.length + 1) : basicPut (A ++ x :: B) i y = .ok (A ++ y :: B) := by
  subst h
  have e : ((A.length : Int) + 1 - 1).toNat = A.length := by omega
  rw [basicPut, if_pos (by simp only [List.length_append, List.length_cons]; omega), e]
  simp

theorem replace_mid (A M B S X T : List V) (start stop s : Int) (h1 : start = A.length + 1) (h2 : stop = A.length + M.length)
    (h3 : s = S.length + 1) (h4 : X.length = M.length) :
    replace (A ++ M ++ B) start stop (S ++ X ++ T) s = .ok (A ++ X ++ B) := by
  subst h1 h2 h3
  have hl : ((A.length : Int) + M.length - (A.length + 1) + 1) = X.length := by omega
  rw [replace]
  rw [hl, if_neg (by simp only [List.length_append]; omega)]
  have e1 : ((A.length : Int) + 1 - 1).toNat = A.length := by omega
  have e2 : ((S.length : Int) + 1 - 1).toNat = S.length := by omega
  have e3 : ((A.length : Int) + M.length).toNat = (A ++ M).length := by simp only [List.length_append]; omega
  have e4 : (X.length : Int).toNat = X.length := by omega
  rw [e1, e2, e3, e4, List.drop_left, List.append_assoc A M B, List.take_left, List.append_assoc S X T, List.drop_left, List.take_left]

/-! ## Growing -/

theorem growBy_rep {c : OC V} {a b : Nat} {xs : List V} (h : RepAB c a xs b) (delta shift : Int) (a' b' : Nat)
    (ha : (a' : Int) = a + shift) (hb : (b' : Int) = b + delta - shift) :
    ∃ c', c.growBy delta shift = .ok c' ∧ RepAB c' a' xs b' := by
  obtain ⟨hs, hf, hl⟩ := h
  have hN : (c.basicSize + delta).toNat = a' + xs.length + b' := by
    simp only [OC.basicSize, hs, List.length_append, List.length_replicate]; omega
  refine ⟨⟨List.replicate a' nil ++ xs ++ List.replicate b' nil, c.first + shift, c.last + shift⟩, ?_, rfl, by simp only; omega, by simp only; omega⟩
  rw [OC.growBy, hN, ← List.replicate_append_replicate, ← List.replicate_append_replicate, hs]
  rw [replace_mid _ _ _ _ _ _ _ _ _ (by simp only [List.length_replicate]; omega) (by simp only [List.length_replicate]; omega)
    (by simp only [List.length_replicate]; omega) (by simp)]
  rfl

theorem size_rep {c : OC V} {a b : Nat} {xs : List V} (h : RepAB c a xs b) : c.size = xs.length := by
  obtain ⟨_, hf, hl⟩ := h; rw [OC.size]; omega

theorem basicSize_rep {c : OC V} {a b : Nat} {xs : List V} (h : RepAB c a xs b) : c.basicSize = a + xs.length + b := by
  obtain ⟨hs, _, _⟩ := h; simp only [OC.basicSize, hs, List.length_append, List.length_replicate]; omega

theorem growSize_rep {c : OC V} {a b : Nat} {xs : List V} (h : RepAB c a xs b) : c.growSize = max (xs.length : Int) 8 := by
  rw [OC.growSize, size_rep h]

/-- Make room at the end for one. -/
theorem roomOne {c : OC V} {a b : Nat} {xs : List V} (h : RepAB c a xs b) :
    ∃ c' b', (if c.last = c.basicSize then c.growBy c.growSize 0 else .ok c) = .ok c' ∧ RepAB c' a xs (b' + 1) := by
  have hb := basicSize_rep h
  have hl := h.2.2
  by_cases e : c.last = c.basicSize
  · rw [if_pos e]
    obtain ⟨c', h1, h2⟩ := growBy_rep h c.growSize 0 a (b + (max xs.length 8 - 1) + 1) (by omega) (by rw [growSize_rep h]; omega)
    exact ⟨c', _, h1, h2⟩
  · rw [if_neg e]
    obtain ⟨b', rfl⟩ : ∃ b', b = b' + 1 := ⟨b - 1, by omega⟩
    exact ⟨c, b', rfl, h⟩

theorem makeRoomLast_rep {c : OC V} {a b : Nat} {xs : List V} (h : RepAB c a xs b) (n : Nat) :
    ∃ c' b', c.makeRoomLast n = .ok c' ∧ RepAB c' a xs (n + b') := by
  have hb := basicSize_rep h
  have hl := h.2.2
  rw [OC.makeRoomLast]
  by_cases e : c.last + n > c.basicSize
  · rw [if_pos e]
    obtain ⟨c', h1, h2⟩ := growBy_rep h (max n c.growSize) 0 a (n + (b + (max n (max xs.length 8)) - n)) (by omega) (by rw [growSize_rep h]; omega)
    exact ⟨c', _, h1, h2⟩
  · rw [if_neg e]
    exact ⟨c, b - n, rfl, by rw [show n + (b - n) = b by omega]; exact h⟩

theorem makeRoomFirst_rep {c : OC V} {a b : Nat} {xs : List V} (h : RepAB c a xs b) (n : Nat) :
    ∃ c' a', c.makeRoomFirst n = .ok c' ∧ RepAB c' (a' + n) xs b := by
  have hf := h.2.1
  rw [OC.makeRoomFirst]
  by_cases e : c.first ≤ n
  · rw [if_pos e]
    obtain ⟨c', h1, h2⟩ := growBy_rep h (max n c.growSize) (max n c.growSize) (a + (max n (max xs.length 8)) - n + n) b (by rw [growSize_rep h]; omega) (by omega)
    exact ⟨c', _, h1, h2⟩
  · rw [if_neg e]
    exact ⟨c, a - n, rfl, by rw [show a - n + n = a by omega]; exact h⟩

theorem roomFirstOne {c : OC V} {a b : Nat} {xs : List V} (h : RepAB c a xs b) :
    ∃ c' a', (if c.first ≤ 1 then c.growBy c.growSize c.growSize else .ok c) = .ok c' ∧ RepAB c' (a' + 1) xs b := by
  have hf := h.2.1
  by_cases e : c.first ≤ 1
  · rw [if_pos e]
    obtain ⟨c', h1, h2⟩ := growBy_rep h c.growSize c.growSize (a + (max xs.length 8) - 1 + 1) b (by rw [growSize_rep h]; omega) (by omega)
    exact ⟨c', _, h1, h2⟩
  · rw [if_neg e]
    exact ⟨c, a - 1, rfl, by rw [show a - 1 + 1 = a by omega]; exact h⟩

theorem maybeShrink_rep {c : OC V} {a b : Nat} {xs : List V} (h : RepAB c a xs b) : ∃ c', c.maybeShrink = .ok c' ∧ Rep c' xs := by
  rw [OC.maybeShrink]
  by_cases e : c.size < c.basicSize / 3
  · rw [if_pos e, OC.shrink]
    have hb := basicSize_rep h
    have hf := h.2.1
    have hl := h.2.2
    obtain ⟨c', h1, h2⟩ := growBy_rep h (-(min (c.basicSize / 3) (c.basicSize - (c.last - min (c.first - 1) (c.basicSize / 3 / 2))))) (-(min (c.first - 1) (c.basicSize / 3 / 2)))
      (a - min (c.first - 1) (c.basicSize / 3 / 2)).toNat
      (b - (min (c.basicSize / 3) (c.basicSize - (c.last - min (c.first - 1) (c.basicSize / 3 / 2)))) + min (c.first - 1) (c.basicSize / 3 / 2)).toNat
      (by omega) (by omega)
    exact ⟨c', h1, _, _, h2⟩
  · rw [if_neg e]; exact ⟨c, rfl, a, b, h⟩

theorem initIndices_rep (s : List V) (f l : Int) (n : Nat) (hs : s = List.replicate n nil) :
    Rep (OC.initIndices ⟨s, f, l⟩) [] := by
  subst hs
  refine ⟨n / 2 - 1, n - (n / 2 - 1), ?_, ?_, ?_⟩
  · simp only [OC.initIndices, List.append_nil, List.replicate_append_replicate]
    congr 1; omega
  · simp only [OC.initIndices, OC.basicSize, List.length_replicate]; omega
  · simp only [OC.initIndices, OC.basicSize, List.length_replicate, List.length_nil]; omega

/-! ## The loops -/

theorem doLoop_mid (A B : List V) : ∀ (xs : List V) (i : Int), i = A.length + 1 → doLoop (A ++ xs ++ B) xs.length i = .ok xs := by
  intro xs
  induction xs generalizing A with
  | nil => intro i _; rfl
  | cons x xs ih =>
    intro i hi
    rw [List.length_cons, doLoop, List.append_assoc, List.cons_append, basicAt_mid A _ x i hi]
    have := ih (A ++ [x]) (i + 1) (by simp only [List.length_append, List.length_cons, List.length_nil]; omega)
    rw [show A ++ x :: (xs ++ B) = A ++ [x] ++ xs ++ B by simp]
    simp only [Except.bind, this, Except.map]

theorem fillLoop_mid (A B : List V) : ∀ (vs W : List V) (i : Int), W.length = vs.length → i = A.length + 1 →
    fillLoop vs i (A ++ W ++ B) = .ok (A ++ vs ++ B) := by
  intro vs
  induction vs generalizing A with
  | nil => intro W i hw _; rw [List.length_nil, List.length_eq_zero_iff] at hw; subst hw; rfl
  | cons v vs ih =>
    intro W i hw hi
    cases W with
    | nil => simp at hw
    | cons w W =>
      rw [fillLoop, List.append_assoc, List.cons_append, basicPut_mid A _ w v i hi]
      have := ih (A ++ [v]) W (i + 1) (by simpa using hw) (by simp only [List.length_append, List.length_cons, List.length_nil]; omega)
      rw [show A ++ v :: (W ++ B) = A ++ [v] ++ W ++ B by simp]
      simp only [Except.bind, this]
      simp

theorem shiftLoop_mid (A : List V) (k : Nat) : ∀ (ys G B : List V) (i : Int), G.length = k → i = A.length + ys.length →
    ∃ W, W.length = k ∧ shiftLoop k ys.length i (A ++ ys ++ G ++ B) = .ok (A ++ W ++ ys ++ B) := by
  intro ys
  induction ys using List.reverseRecOn with
  | nil => intro G B i hg _; exact ⟨G, hg, by simp [shiftLoop]⟩
  | append_singleton ys y ih =>
    intro G B i hg hi
    rw [List.length_append, List.length_cons, List.length_nil] at hi ⊢
    rw [show A ++ (ys ++ [y]) ++ G ++ B = (A ++ ys) ++ y :: (G ++ B) by simp]
    rw [shiftLoop, basicAt_mid _ _ y i (by simp only [List.length_append]; omega)]
    rcases List.eq_nil_or_concat G with rfl | ⟨G', g, rfl⟩
    · rw [List.length_nil] at hg
      subst hg
      obtain ⟨W, hW, e⟩ := ih [] (y :: B) (i - 1) rfl (by omega)
      refine ⟨W, hW, ?_⟩
      simp only [Except.bind, List.nil_append]
      rw [basicPut_mid _ _ y y _ (by simp only [List.length_append]; omega)]
      simp only
      rw [show A ++ ys ++ y :: B = A ++ ys ++ [] ++ (y :: B) by simp, e]
      simp
    · rw [List.concat_eq_append, List.length_append, List.length_cons, List.length_nil] at hg
      obtain ⟨W, hW, e⟩ := ih (y :: G') (y :: B) (i - 1) (by rw [List.length_cons]; omega) (by omega)
      refine ⟨W, hW, ?_⟩
      simp only [Except.bind]
      rw [show A ++ ys ++ y :: (G'.concat g ++ B) = (A ++ ys ++ y :: G') ++ g :: B by simp]
      rw [basicPut_mid _ _ g y _ (by simp only [List.length_append, List.length_cons]; omega)]
      simp only
      rw [show A ++ ys ++ y :: G' ++ y :: B = A ++ ys ++ (y :: G') ++ (y :: B) by simp, e]
      simp

end Verif.OrdColl
