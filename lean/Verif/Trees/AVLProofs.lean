import Verif.Trees.AVLRotate
/-!
# AVL trees: rebalancing after an insertion
-/
namespace Verif.Trees

variable {α : Type}

/-- The length of the longest path. -/
def hgt : Tr α → Nat
  | .nil => 0
  | .node _ _ _ l r => 1 + max (hgt l) (hgt r)

/-- Sibling heights differ by at most one and every node holds its height. -/
def AVL : Tr α → Prop
  | .nil => True
  | .node _ tag _ l r => tag = 1 + max (hgt l) (hgt r) ∧ hgt l ≤ hgt r + 1 ∧ hgt r ≤ hgt l + 1 ∧ AVL l ∧ AVL r

/-- A path that is right if the subtree has height `k`. -/
def CAVL : Nat → Ctx α → Prop
  | _, [] => True
  | k, f :: c => f.tag = 1 + max k (hgt f.sib) ∧ k ≤ hgt f.sib + 1 ∧ hgt f.sib ≤ k + 1 ∧ AVL f.sib ∧ CAVL f.tag c

theorem hgt_nd (d : Bool) (a tag : Nat) (v : α) (x y : Tr α) : hgt (nd d a tag v x y) = 1 + max (hgt x) (hgt y) := by
  cases d <;> simp only [nd, cond_true, cond_false, hgt]
  rw [Nat.max_comm]

theorem avl_nd (d : Bool) (a tag : Nat) (v : α) (x y : Tr α) :
    AVL (nd d a tag v x y) ↔ tag = 1 + max (hgt x) (hgt y) ∧ hgt x ≤ hgt y + 1 ∧ hgt y ≤ hgt x + 1 ∧ AVL x ∧ AVL y := by
  cases d <;> simp only [nd, cond_true, cond_false, AVL]
  rw [Nat.max_comm]
  tauto

theorem zip_avl {t : Tr α} {c : Ctx α} (h : AVL t) (hc : CAVL (hgt t) c) : AVL (zip t c) := by
  induction c generalizing t with
  | nil => exact h
  | cons f c ih =>
    obtain ⟨h1, h2, h3, h4, h5⟩ := hc
    refine ih ((avl_nd _ _ _ _ _ _).2 ⟨h1, h2, h3, h, h4⟩) ?_
    rw [hgt_nd, ← h1]
    exact h5

theorem unzip_avl {t : Tr α} {c : Ctx α} (h : AVL (zip t c)) : AVL t ∧ CAVL (hgt t) c := by
  induction c generalizing t with
  | nil => exact ⟨h, trivial⟩
  | cons f c ih =>
    obtain ⟨h1, h2⟩ := ih h
    obtain ⟨k1, k2, k3, k4, k5⟩ := (avl_nd _ _ _ _ _ _).1 h1
    rw [hgt_nd, ← k1] at h2
    exact ⟨k4, k1, k2, k3, k5, h2⟩

theorem height_avl {m : Mem α} {t : Tr α} {c : Ctx α} (h : At m t c) (ha : AVL t) : height m t.ptr = some (hgt t) := by
  rw [height_spec h]
  cases t with
  | nil => rfl
  | node a tag v l r => rw [hgt, ← ha.1]; rfl

/-- The code of the two rotations by side. -/
def fixD (d : Bool) (m : Mem α) (node kid h parent : Nat) (arc : Bool) : Option (Mem α) := do
  let c ← m.get kid
  let hi ← height m (c.kid (!d))
  let ho ← height m (c.kid d)
  if ho ≥ hi then singleD d m node kid (c.kid (!d)) hi parent arc
  else doubleD d m node kid (c.kid (!d)) h hi parent arc

theorem fixLeft_eq (m : Mem α) (n k h p : Nat) (arc : Bool) : fixLeft m n k h p arc = fixD false m n k h p arc := rfl
theorem fixRight_eq (m : Mem α) (n k h p : Nat) (arc : Bool) : fixRight m n k h p arc = fixD true m n k h p arc := rfl

/-- A subtree two higher than its sibling. -/
theorem fix_spec {m : Mem α} {d : Bool} {a ta : Nat} {va : α} {t z : Tr α} {c : Ctx α} (hA : At m (nd d a ta va t z) c)
    (ht : AVL t) (hz : AVL z) (hh : hgt t = hgt z + 2) :
    ∃ m' T, fixD d m a t.ptr (hgt t) (cptr c) (side c) = some m' ∧ At m' T c ∧ AVL T ∧ T ≠ .nil ∧
      (hgt T = hgt t ∨ hgt T = hgt t + 1) ∧ T.inorder = (nd d a ta va t z).inorder := by
  obtain rfl | ⟨b, tb, vb, x, y, rfl⟩ := Tr.split d t
  · simp [hgt] at hh
  have hb := At.up.2 hA
  have hx : At m x (⟨d, b, tb, vb, y⟩ :: ⟨d, a, ta, va, z⟩ :: c) := At.up.2 hb
  have hy : At m y (⟨!d, b, tb, vb, x⟩ :: ⟨d, a, ta, va, z⟩ :: c) := At.up.2 (by rw [nd_not]; exact hb)
  obtain ⟨t1, t2, t3, t4, t5⟩ := (avl_nd _ _ _ _ _ _).1 ht
  rw [hgt_nd] at hh
  rw [fixD, ptr_nd, hb.get]
  simp only [Option.bind_eq_bind, Option.bind_some, kid_mkCell, kid_not_mkCell]
  rw [height_avl hy t5, height_avl hx t4]
  simp only [Option.bind_some]
  by_cases hc : hgt x ≥ hgt y
  · rw [if_pos hc]
    obtain ⟨m', e1, e2⟩ := single_spec (h := hgt y) hA
    refine ⟨m', _, e1, e2, ?_, nd_ne_nil _ _ _ _ _ _, ?_, ?_⟩
    · rw [avl_nd, avl_nd, hgt_nd]
      refine ⟨by omega, by omega, by omega, t4, by omega, by omega, by omega, t5, hz⟩
    · rw [hgt_nd, hgt_nd, hgt_nd]
      omega
    · cases d <;> simp [nd, Tr.inorder]
  · rw [if_neg hc]
    obtain rfl | ⟨g, tg, vg, p, q, rfl⟩ := Tr.split d y
    · simp [hgt] at hc
    obtain ⟨g1, g2, g3, g4, g5⟩ := (avl_nd _ _ _ _ _ _).1 t5
    rw [ptr_nd, hgt_nd]
    simp only [hgt_nd] at hh hc t2 t3 ⊢
    obtain ⟨m', e1, e2⟩ := double_spec (h := 1 + max (hgt x) (1 + max (hgt p) (hgt q))) (hi := 1 + max (hgt p) (hgt q)) hA
    refine ⟨m', _, e1, e2, ?_, nd_ne_nil _ _ _ _ _ _, ?_, ?_⟩
    · rw [avl_nd, avl_nd, avl_nd, hgt_nd, hgt_nd]
      refine ⟨by omega, by omega, by omega, ⟨by omega, by omega, by omega, t4, g4⟩, by omega, by omega, by omega, g5, hz⟩
    · rw [hgt_nd, hgt_nd, hgt_nd]
      omega
    · cases d <;> simp [nd, Tr.inorder]

/-- The state of the loop: the subtrees are right, their heights have changed by one at most, and the path is right for the
height `k` the subtree had. -/
theorem avlLoop_spec (fuel : Nat) (m : Mem α) (d : Bool) (a tag : Nat) (v : α) (x y : Tr α) (c : Ctx α) (k : Nat)
    (hf : c.length + 1 < fuel) (hA : At m (nd d a tag v x y) c) (hx : AVL x) (hy : AVL y) (hc : CAVL k c) (htag : tag = k ∨ tag = 0)
    (h1 : hgt x ≤ hgt y + 2) (h2 : hgt y ≤ hgt x + 2)
    (h3 : hgt x ≤ hgt y + 1 → hgt y ≤ hgt x + 1 → k ≤ 2 + max (hgt x) (hgt y) ∧ max (hgt x) (hgt y) ≤ k)
    (h4 : hgt x = hgt y + 2 ∨ hgt y = hgt x + 2 → k = max (hgt x) (hgt y) ∨ k = max (hgt x) (hgt y) + 1) :
    ∃ m' T, avlLoop fuel m a = some m' ∧ Tree m' T ∧ AVL T ∧ T.inorder = (zip (nd d a tag v x y) c).inorder := by
  induction fuel generalizing m d a tag v x y c k with
  | zero => omega
  | succ fuel ih =>
    -- going on with the parent
    have up : ∀ (m1 : Mem α) (T : Tr α), At m1 T c → AVL T → T ≠ .nil → hgt T ≤ k + 1 → k ≤ hgt T + 1 →
        T.inorder = (nd d a tag v x y).inorder →
        ∃ m' T', avlLoop fuel m1 (cptr c) = some m' ∧ Tree m' T' ∧ AVL T' ∧ T'.inorder = (zip (nd d a tag v x y) c).inorder := by
      intro m1 T k1 k2 k3 k4 k5 k6
      cases c with
      | nil =>
        obtain ⟨fuel, rfl⟩ : ∃ n, fuel = n + 1 := ⟨fuel - 1, by simp at hf; omega⟩
        exact ⟨m1, T, by rw [avlLoop, if_pos (show cptr ([] : Ctx α) = 0 from rfl)], k1, k2, k6⟩
      | cons f c =>
        obtain ⟨q1, q2, q3, q4, q5⟩ := hc
        simp only [List.length_cons] at hf
        obtain ⟨m', T', w1, w2, w3, w4⟩ := ih m1 f.d f.a f.tag f.v T f.sib c f.tag (by omega) (At.up.1 k1) k2 q4 q5 (.inl rfl)
          (by omega) (by omega) (by omega) (by omega)
        exact ⟨m', T', w1, w2, w3, w4.trans (zip_congr (c := f :: c) k6)⟩
    have hga := hA.get
    have ha0 := hA.ne_zero
    obtain ⟨l, r, hlr, hl, hr, hhl⟩ : ∃ l r, nd d a tag v x y = .node a tag v l r ∧ AVL l ∧ AVL r ∧
        (hgt l = hgt x ∧ hgt r = hgt y ∨ hgt l = hgt y ∧ hgt r = hgt x) := by
      cases d
      · exact ⟨x, y, rfl, hx, hy, .inl ⟨rfl, rfl⟩⟩
      · exact ⟨y, x, rfl, hy, hx, .inr ⟨rfl, rfl⟩⟩
    rw [hlr] at hA
    have hA1 : At m (nd false a tag v l r) c := hA
    have hA2 : At m (nd true a tag v r l) c := hA
    have hg : m.get a = some ⟨cptr c, l.ptr, r.ptr, tag, v⟩ := hA1.get
    rw [avlLoop, if_neg ha0, hg]
    simp only [Option.bind_eq_bind, Option.bind_some]
    rw [height_avl (At.up.2 hA1) hl, height_avl (At.up.2 hA2) hr]
    simp only [Option.bind_some]
    rw [show arcOf m (cptr c) a = some (side c) from arcOf_spec hA (by simp)]
    simp only [Option.bind_some]
    by_cases c1 : hgt r + 1 < hgt l
    · rw [if_pos c1, fixLeft_eq]
      obtain ⟨m1, T, w1, w2, w3, w4, w5, w6⟩ := fix_spec hA1 hl hr (by omega)
      rw [w1, Option.bind_some]
      exact up m1 T w2 w3 w4 (by omega) (by omega) (by rw [w6, hlr]; rfl)
    · rw [if_neg c1]
      by_cases c2 : hgt l + 1 < hgt r
      · rw [if_pos c2, fixRight_eq]
        obtain ⟨m1, T, w1, w2, w3, w4, w5, w6⟩ := fix_spec hA2 hr hl (by omega)
        rw [w1, Option.bind_some]
        exact up m1 T w2 w3 w4 (by omega) (by omega) (by rw [w6, hlr]; rfl)
      · rw [if_neg c2]
        have hm : (if hgt l < hgt r then hgt r else hgt l) = max (hgt l) (hgt r) := by split <;> omega
        rw [hm]
        by_cases c3 : max (hgt l) (hgt r) + 1 = tag
        · rw [if_pos c3]
          have hT : AVL (.node a tag v l r) := ⟨by omega, by omega, by omega, hl, hr⟩
          refine ⟨m, zip (.node a tag v l r) c, rfl, at_zip.1 hA, zip_avl hT ?_, by rw [hlr]⟩
          rw [hgt]
          have : k = 1 + max (hgt l) (hgt r) := by omega
          rw [← this]
          exact hc
        · rw [if_neg c3]
          obtain ⟨m1, w1, w2⟩ := hA1.setTag (max (hgt l) (hgt r) + 1)
          rw [w1, Option.bind_some]
          refine up m1 _ w2 ?_ (nd_ne_nil _ _ _ _ _ _) ?_ ?_ ?_
          · rw [avl_nd]
            exact ⟨by omega, by omega, by omega, hl, hr⟩
          · rw [hgt_nd]; omega
          · rw [hgt_nd]; omega
          · rw [hlr, inorder_tag false a _ tag]; rfl

/-- `avl_rebalance` on a new leaf. -/
theorem avlRebalance_spec (fuel : Nat) (m : Mem α) (a tag : Nat) (v : α) (c : Ctx α) (hf : c.length + 1 < fuel)
    (h : At m (nd false a tag v .nil .nil) c) (hav : AVL (zip .nil c)) :
    ∃ m' T, avlRebalance fuel m a = some m' ∧ Tree m' T ∧ AVL T ∧ T.inorder = (zip (nd false a tag v .nil .nil) c).inorder := by
  obtain ⟨-, hc⟩ := unzip_avl hav
  obtain ⟨m1, s1, a1⟩ := h.setTag 0
  obtain ⟨m2, T, s2, t1, t2, t3⟩ := avlLoop_spec fuel m1 false a 0 v .nil .nil c 0 hf a1 trivial trivial hc (.inl rfl)
    (by simp [hgt]) (by simp [hgt]) (by simp [hgt]) (by simp [hgt])
  refine ⟨m2, T, ?_, t1, t2, t3.trans (zip_congr (inorder_tag _ _ _ _ _ _ _))⟩
  rw [avlRebalance, s1]
  exact s2

end Verif.Trees
