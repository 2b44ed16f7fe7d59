import Verif.Trees.RBOps
/-!
# Enumeration of the nodes of a tree (`rb_first`/`rb_next`, `avl_first`/`avl_next`)
-/
namespace Verif.Trees

variable {α : Type}

theorem rights_append (p c : Ctx α) : rights (p ++ c) = rights p ++ rights c := by
  induction p with
  | nil => rfl
  | cons f p ih => simp [rights, ih]

theorem lefts_append (p c : Ctx α) : lefts (p ++ c) = lefts c ++ lefts p := by
  induction p with
  | nil => simp [lefts]
  | cons f p ih => simp [lefts, ih]

theorem climb_spec {m : Mem α} {t : Tr α} {c : Ctx α} (h : At m t c) (ht : t ≠ .nil) :
    (rights c = [] ∧ ∀ fuel, c.length < fuel → climb fuel m t.ptr = some 0) ∨
    ∃ b bt bv l s c', At m (.node b bt bv l s) c' ∧ rights c = (b, bv) :: s.inorder ++ rights c' ∧
      zip (.node b bt bv l s) c' = zip t c ∧ ∀ fuel, c.length < fuel → climb fuel m t.ptr = some b := by
  induction c generalizing t with
  | nil =>
    left
    refine ⟨rfl, ?_⟩
    intro fuel hf
    obtain ⟨fuel, rfl⟩ : ∃ k, fuel = k + 1 := ⟨fuel - 1, by simp at hf; omega⟩
    obtain h' | ⟨a, tag, v, x, y, rfl⟩ := Tr.split false t
    · exact absurd h' ht
    · rw [climb, ptr_nd, h.get]
      rfl
  | cons f c ih =>
    obtain ⟨d, b, bt, bv, s⟩ := f
    have hu := At.up.1 h
    have hb0 : b ≠ 0 := hu.ne_zero
    have hgb := hu.get
    have step : ∀ fuel, climb (fuel + 1) m t.ptr = if t.ptr ≠ (mkCell d (cptr c) t.ptr s.ptr bt bv).left then climb fuel m b else some b := by
      intro fuel
      obtain h' | ⟨a, tag, v, x, y, rfl⟩ := Tr.split false t
      · exact absurd h' ht
      · rw [climb, ptr_nd, h.get]
        simp only [Option.bind_eq_bind, Option.bind_some, parent_mkCell]
        rw [show cptr (⟨d, b, bt, bv, s⟩ :: c) = b from rfl, if_neg hb0, hgb]
        simp only [ptr_nd, Option.bind_some]
    cases d with
    | false =>
      right
      refine ⟨b, bt, bv, t, s, c, hu, rfl, rfl, ?_⟩
      intro fuel hf
      obtain ⟨fuel, rfl⟩ : ∃ k, fuel = k + 1 := ⟨fuel - 1, by simp at hf; omega⟩
      rw [step, if_neg (by simp [mkCell])]
    | true =>
      have hne : t.ptr ≠ (mkCell true (cptr c) t.ptr s.ptr bt bv).left := fun e => h.sib_ne ht _ rfl e.symm
      have hs : ∀ fuel, climb (fuel + 1) m t.ptr = climb fuel m b := fun fuel => by rw [step, if_pos hne]
      rcases ih hu (nd_ne_nil _ _ _ _ _ _) with ⟨e1, e2⟩ | ⟨b', bt', bv', l', s', c', e1, e2, e3, e4⟩
      · left
        refine ⟨by simpa [rights] using e1, ?_⟩
        intro fuel hf
        obtain ⟨fuel, rfl⟩ : ∃ k, fuel = k + 1 := ⟨fuel - 1, by simp at hf; omega⟩
        rw [hs]
        have := e2 fuel (by simpa using hf)
        rwa [ptr_nd] at this
      · right
        refine ⟨b', bt', bv', l', s', c', e1, by simpa [rights] using e2, e3, ?_⟩
        intro fuel hf
        obtain ⟨fuel, rfl⟩ : ∃ k, fuel = k + 1 := ⟨fuel - 1, by simp at hf; omega⟩
        rw [hs]
        have := e4 fuel (by simpa using hf)
        rwa [ptr_nd] at this

theorem rights_leftPath_zip {b bt : Nat} {bv : α} {br : Tr α} {p : Ctx α} (h : LeftPath p) :
    (zip (.node b bt bv .nil br) p).inorder = (b, bv) :: br.inorder ++ rights p := by
  rw [inorder_zip, lefts_leftPath h]
  simp [Tr.inorder]

theorem walkFrom_spec (n : Nat) {m : Mem α} {a tag : Nat} {v : α} {l r : Tr α} {c : Ctx α} (fuel' fuel : Nat)
    (h : At m (.node a tag v l r) c) (hn : (r.inorder ++ rights c).length ≤ n) (hf : n + 1 < fuel)
    (hf' : (zip (.node a tag v l r) c).addrs.length < fuel') :
    walkFrom fuel fuel' m a = some (((a, v) :: r.inorder ++ rights c).map Prod.fst) := by
  induction n generalizing a tag v l r c fuel with
  | zero =>
    obtain ⟨hr, hc⟩ : r.inorder = [] ∧ rights c = [] := by
      have := List.eq_nil_of_length_eq_zero (Nat.le_zero.1 hn)
      exact List.append_eq_nil_iff.1 this
    have hr' : r = .nil := by
      cases r with
      | nil => rfl
      | node => simp [Tr.inorder] at hr
    subst hr'
    have hcl : c.length < fuel' := by
      have := (addrs_zip (.node a tag v l .nil) c).length_eq
      have := ctx_length_le c
      simp only [List.length_append] at *
      omega
    obtain ⟨fuel, rfl⟩ : ∃ k, fuel = k + 2 := ⟨fuel - 2, by omega⟩
    have ha0 : a ≠ 0 := (show At m (nd false a tag v l .nil) c from h).ne_zero
    have hg : m.get a = some ⟨cptr c, l.ptr, Tr.ptr (.nil : Tr α), tag, v⟩ := (show At m (nd false a tag v l .nil) c from h).get
    rcases climb_spec h (by simp) with ⟨-, e2⟩ | ⟨b', bt', bv', l', s', c', e1, e2, e3, e4⟩
    · rw [walkFrom, if_neg ha0, next, hg]
      simp only [Option.bind_eq_bind, Option.bind_some]
      rw [if_pos (show Tr.ptr (.nil : Tr α) = 0 from rfl), show climb fuel' m a = climb fuel' m (Tr.node a tag v l .nil).ptr from rfl, e2 fuel' hcl]
      simp [walkFrom, hc, Tr.inorder]
    · rw [hc] at e2
      simp at e2
  | succ n ih =>
    have hcl : c.length < fuel' := by
      have := (addrs_zip (.node a tag v l r) c).length_eq
      have := ctx_length_le c
      simp only [List.length_append] at *
      omega
    obtain ⟨fuel, rfl⟩ : ∃ k, fuel = k + 1 := ⟨fuel - 1, by omega⟩
    have ha0 : a ≠ 0 := (show At m (nd false a tag v l r) c from h).ne_zero
    have hg : m.get a = some ⟨cptr c, l.ptr, r.ptr, tag, v⟩ := (show At m (nd false a tag v l r) c from h).get
    have hrc : At m r (⟨true, a, tag, v, l⟩ :: c) := At.up.2 (show At m (nd true a tag v r l) c from h)
    rw [walkFrom, if_neg ha0, next, hg]
    simp only [Option.bind_eq_bind, Option.bind_some]
    by_cases hr : r = .nil
    · subst hr
      rw [if_pos (show Tr.ptr (.nil : Tr α) = 0 from rfl), show climb fuel' m a = climb fuel' m (Tr.node a tag v l .nil).ptr from rfl]
      rcases climb_spec h (by simp) with ⟨e1, e2⟩ | ⟨b, bt, bv, l', s, c', e1, e2, e3, e4⟩
      · rw [e2 fuel' hcl]
        obtain ⟨fuel, rfl⟩ : ∃ k, fuel = k + 1 := ⟨fuel - 1, by omega⟩
        simp [walkFrom, e1, Tr.inorder]
      · rw [e4 fuel' hcl]
        simp only [Option.bind_some]
        rw [e2] at hn
        rw [ih fuel e1 (by simp [Tr.inorder] at hn ⊢; omega) (by omega) (by rw [e3]; exact hf')]
        simp [e2, Tr.inorder]
    · have hrp : r.ptr ≠ 0 := fun e => hr (hrc.ptr_zero.1 e)
      rw [if_neg hrp]
      obtain ⟨p, b, bt, bv, br, e1, e2, e3, e4, e5⟩ := leftmost_spec hrc hr
      have hlen := (addrs_zip (.node a tag v l r) c).length_eq
      simp only [Tr.addrs, List.length_append, List.length_cons] at hlen
      rw [e5 fuel' (by omega)]
      simp only [Option.bind_some]
      have ei : r.inorder ++ rights c = (b, bv) :: br.inorder ++ rights (p ++ ⟨true, a, tag, v, l⟩ :: c) := by
        rw [e1, rights_leftPath_zip e2, rights_append]
        simp [rights]
      have hz : zip (.node b bt bv .nil br) (p ++ ⟨true, a, tag, v, l⟩ :: c) = zip (.node a tag v l r) c := by
        rw [zip_append, ← e1]
        rfl
      rw [ei] at hn
      rw [ih fuel e3 (by simp at hn ⊢; omega) (by omega) (by rw [hz]; exact hf')]
      rw [show (a, v) :: r.inorder ++ rights c = (a, v) :: (r.inorder ++ rights c) from rfl, ei]
      simp

/-- Enumerating the nodes gives each of them once, from left to right. -/
theorem walk_spec {m : Mem α} {T : Tr α} (h : Tree m T) (fuel : Nat) (hf : T.addrs.length + 1 < fuel) :
    walk fuel m = some (T.inorder.map Prod.fst) := by
  have hroot : m.root = T.ptr := h.crep
  cases hT : T with
  | nil =>
    subst hT
    obtain ⟨fuel, rfl⟩ : ∃ k, fuel = k + 1 := ⟨fuel - 1, by omega⟩
    simp [walk, first, hroot, Tr.ptr, walkFrom, Tr.inorder]
  | node a tag v l r =>
    rw [← hT]
    have ht : T ≠ .nil := by rw [hT]; simp
    obtain ⟨p, b, bt, bv, br, e1, e2, e3, e4, e5⟩ := leftmost_spec h ht
    have hp : T.ptr ≠ 0 := fun e => ht (At.ptr_zero h |>.1 e)
    rw [walk, first, hroot, if_neg hp, e5 fuel (by omega)]
    simp only [Option.bind_eq_bind, Option.bind_some]
    rw [List.append_nil] at e3
    have hlen : T.inorder.length = T.addrs.length := (addrs_inorder T).length_eq ▸ by simp
    have ei : T.inorder = (b, bv) :: br.inorder ++ rights p := by rw [e1, rights_leftPath_zip e2]
    rw [ei] at hlen
    rw [walkFrom_spec (br.inorder ++ rights p).length fuel fuel e3 (Nat.le_refl _)
      (by simp only [List.cons_append, List.length_cons] at hlen; omega) (by rw [← e1]; omega), ei]

end Verif.Trees
