import Verif.Trees.RB
import Mathlib.Tactic.Tauto
/-!
# Rotations of linked trees
-/
namespace Verif.Trees

variable {α : Type}

/-- Memory with a node replaced. -/
def Mem.put (m : Mem α) (p : Nat) (c : Cell α) : Mem α :=
  { m with heap := fun q => if q = p then some c else m.heap q }

theorem modify_eq {m : Mem α} {p : Nat} {c : Cell α} (h : m.heap p = some c) (hp : p ≠ 0) (f : Cell α → Cell α) :
    m.modify p f = some (m.put p (f c)) := by
  rw [Mem.modify, if_neg hp, h]
  rfl

theorem get_eq {m : Mem α} {p : Nat} {c : Cell α} (h : m.heap p = some c) (hp : p ≠ 0) : m.get p = some c := by
  rw [Mem.get, if_neg hp, h]

theorem put_same (m : Mem α) (p : Nat) (c : Cell α) : (m.put p c).heap p = some c := if_pos rfl
theorem put_other (m : Mem α) (p q : Nat) (c : Cell α) (h : q ≠ p) : (m.put p c).heap q = m.heap q := if_neg h

theorem rep_put {m : Mem α} {p q : Nat} {c : Cell α} {t : Tr α} (h : p ∉ t.addrs) (r : Rep m.heap q t) :
    Rep (m.put p c).heap q t := rep_congr (fun a ha => put_other m p a c (by rintro rfl; exact h ha)) r

theorem crep_put {m : Mem α} {p root hole : Nat} {c : Cell α} {k : Ctx α} (h : p ∉ caddrs k)
    (r : CRep m.heap root hole k) : CRep (m.put p c).heap root hole k :=
  crep_congr (fun a ha => put_other m p a c (by rintro rfl; exact h ha)) r

/-- The links by side. -/
def relinkD (d : Bool) (m : Mem α) (parent node child : Nat) : Option (Mem α) :=
  if parent ≠ 0 then do
    if node = (← m.get parent).kid d then m.setKid d parent child else m.setKid (!d) parent child
  else some { m with root := child }

theorem relink_eq (m : Mem α) (p n c : Nat) : relink m p n c = relinkD false m p n c := rfl
theorem relinkRight_eq (m : Mem α) (p n c : Nat) : relinkRight m p n c = relinkD true m p n c := rfl

/-- The two rotations by side. -/
def rotate (d : Bool) (m : Mem α) (node : Nat) : Option (Mem α) := do
  let right := (← m.get node).kid (!d)
  let m ← m.setKid (!d) node ((← m.get right).kid d)
  let m ← m.setParentIf ((← m.get node).kid (!d)) node
  let m ← m.setKid d right node
  let m ← m.setParent right (← m.get node).parent
  let m ← relinkD d m (← m.get right).parent node right
  m.setParent node right

theorem rotateLeft_eq (m : Mem α) (n : Nat) : rotateLeft m n = rotate false m n := rfl
theorem rotateRight_eq (m : Mem α) (n : Nat) : rotateRight m n = rotate true m n := rfl

def Cell.setKid (d : Bool) (c : Cell α) (v : Nat) : Cell α := bif d then { c with right := v } else { c with left := v }

theorem setKid_eq {m : Mem α} {p : Nat} {c : Cell α} (h : m.heap p = some c) (hp : p ≠ 0) (d : Bool) (v : Nat) :
    m.setKid d p v = some (m.put p (c.setKid d v)) := by
  cases d <;> exact modify_eq h hp _

theorem setParent_eq {m : Mem α} {p : Nat} {c : Cell α} (h : m.heap p = some c) (hp : p ≠ 0) (v : Nat) :
    m.setParent p v = some (m.put p { c with parent := v }) := modify_eq h hp _

theorem setTag_eq {m : Mem α} {p : Nat} {c : Cell α} (h : m.heap p = some c) (hp : p ≠ 0) (v : Nat) :
    m.setTag p v = some (m.put p { c with tag := v }) := modify_eq h hp _

@[simp] theorem setKid_mkCell (d : Bool) (p x y t : Nat) (v : α) (n : Nat) :
    (mkCell d p x y t v).setKid d n = mkCell d p n y t v := by cases d <;> rfl
@[simp] theorem setKid_not_mkCell (d : Bool) (p x y t : Nat) (v : α) (n : Nat) :
    (mkCell d p x y t v).setKid (!d) n = mkCell d p x n t v := by cases d <;> rfl
@[simp] theorem setParent_mkCell (d : Bool) (p x y t : Nat) (v : α) (n : Nat) :
    { mkCell d p x y t v with parent := n } = mkCell d n x y t v := by cases d <;> rfl

/-- Setting the parent of a subtree. -/
theorem rep_reparent {m : Mem α} {p q : Nat} {t : Tr α} (ht : t ≠ .nil) (h0 : 0 ∉ t.addrs) (nd : t.addrs.Nodup)
    (r : Rep m.heap p t) : ∃ c, m.heap t.ptr = some c ∧ m.setParent t.ptr q = some (m.put t.ptr { c with parent := q }) ∧
      Rep (m.put t.ptr { c with parent := q }).heap q t := by
  cases t with
  | nil => exact absurd rfl ht
  | node a tag v l r' =>
    obtain ⟨r1, r2, r3⟩ := r
    simp only [Tr.addrs, List.mem_cons, not_or, List.nodup_cons, List.mem_append] at h0 nd
    refine ⟨_, r1, setParent_eq r1 (Ne.symm h0.1) q, ?_⟩
    exact ⟨put_same _ _ _, rep_put nd.1.1 r2, rep_put nd.1.2 r3⟩

/-- Storing a new pointer in the link that leads to the subtree in focus. -/
theorem crep_relink {m : Mem α} {hole hole' : Nat} {d : Bool} {c : Ctx α} (nd : (caddrs c).Nodup) (h0 : 0 ∉ caddrs c)
    (hs : ∀ f ∈ c.head?, f.sib.ptr ≠ hole) (r : CRep m.heap m.root hole c) :
    ∃ m', relinkD d m (cptr c) hole hole' = some m' ∧ CRep m'.heap m'.root hole' c ∧
      (∀ q, q ∉ caddrs c → m'.heap q = m.heap q) ∧ (∀ f k, c = f :: k → ∀ q, q ≠ f.a → m'.heap q = m.heap q) := by
  cases c with
  | nil => exact ⟨_, rfl, rfl, fun _ _ => rfl, fun _ _ e => by simp at e⟩
  | cons f c =>
    obtain ⟨r1, r2, r3⟩ := r
    simp only [caddrs, List.nodup_cons, List.mem_append, not_or, List.mem_cons] at nd h0
    have hfa : f.a ≠ 0 := Ne.symm h0.1
    have hs' := hs f rfl
    rw [relinkD, if_pos (show cptr (f :: c) ≠ 0 from hfa), show cptr (f :: c) = f.a from rfl, get_eq r1 hfa]
    simp only [Option.bind_eq_bind, Option.bind_some]
    have main : ∀ v : Cell α, v = mkCell f.d (cptr c) hole' f.sib.ptr f.tag f.v →
        CRep (m.put f.a v).heap (m.put f.a v).root hole' (f :: c) := by
      rintro v rfl
      exact ⟨put_same _ _ _, rep_put nd.1.1 r2, crep_put nd.1.2 r3⟩
    have fr : ∀ v : Cell α, (∀ q, q ∉ caddrs (f :: c) → (m.put f.a v).heap q = m.heap q) ∧
        (∀ f' k, f :: c = f' :: k → ∀ q, q ≠ f'.a → (m.put f.a v).heap q = m.heap q) := by
      intro v
      constructor
      · intro q hq
        exact put_other _ _ _ _ fun e => hq (by simp [caddrs, e])
      · intro f' k e q hq
        simp only [List.cons.injEq] at e
        rw [← e.1] at hq
        exact put_other _ _ _ _ hq
    by_cases hd : f.d = d
    · subst hd
      rw [kid_mkCell, if_pos rfl, setKid_eq r1 hfa, setKid_mkCell]
      exact ⟨_, rfl, main _ rfl, fr _⟩
    · have hd' : f.d = !d := by
        revert hd
        cases f.d <;> cases d <;> simp
      have e1 : (mkCell f.d (cptr c) hole f.sib.ptr f.tag f.v).kid d = f.sib.ptr := by
        rw [hd', mkCell_not, kid_mkCell]
      rw [e1, if_neg (Ne.symm hs'), ← hd', setKid_eq r1 hfa, setKid_mkCell]
      exact ⟨_, rfl, main _ rfl, fr _⟩

/-- A rotation: the child on the other side takes the place of the node. -/
theorem At.rotate {m : Mem α} {d : Bool} {a t b t' : Nat} {v v' : α} {x y z : Tr α} {c : Ctx α}
    (h : At m (nd d a t v x (nd d b t' v' y z)) c) :
    ∃ m', rotate d m a = some m' ∧ At m' (nd d b t' v' (nd d a t v x y) z) c := by
  obtain ⟨ha, hx, hb'⟩ := (rep_nd _ _ _ _ _ _ _ _).1 h.rep
  obtain ⟨hb, hy, hz⟩ := (rep_nd _ _ _ _ _ _ _ _).1 hb'
  have hc := h.crep
  rw [ptr_nd] at hc ha
  have p1 : (Tr.addrs (nd d a t v x (nd d b t' v' y z)) ++ caddrs c).Perm
      (a :: b :: (x.addrs ++ y.addrs ++ z.addrs ++ caddrs c)) := by
    refine ((perm_addrs_nd _ _ _ _ _ _).append_right _).trans ?_
    simp only [List.cons_append]
    refine List.Perm.cons _ ?_
    refine (((perm_addrs_nd d b t' v' y z).append_left _).append_right _).trans ?_
    rw [show x.addrs ++ b :: (y.addrs ++ z.addrs) ++ caddrs c = x.addrs ++ b :: (y.addrs ++ z.addrs ++ caddrs c) by simp]
    refine List.perm_middle.trans (List.Perm.cons _ ?_)
    simp
  have p2 : (Tr.addrs (nd d b t' v' (nd d a t v x y) z) ++ caddrs c).Perm
      (a :: b :: (x.addrs ++ y.addrs ++ z.addrs ++ caddrs c)) := by
    refine ((perm_addrs_nd _ _ _ _ _ _).append_right _).trans ?_
    refine ((((perm_addrs_nd d a t v x y).append_right _).cons _).append_right _).trans ?_
    simp only [List.cons_append, List.append_assoc]
    exact List.Perm.swap _ _ _
  have hnd := p1.nodup_iff.1 h.nodup
  have h0 : 0 ∉ a :: b :: (x.addrs ++ y.addrs ++ z.addrs ++ caddrs c) := fun hm => h.nonnull (p1.mem_iff.2 hm)
  simp only [List.mem_cons, List.mem_append, not_or] at h0
  simp only [List.nodup_cons, List.mem_cons, List.mem_append, not_or] at hnd
  obtain ⟨⟨hab, ⟨⟨⟨hax, hay⟩, haz⟩, hac⟩⟩, ⟨⟨⟨hbx, hby⟩, hbz⟩, hbc⟩, hrest⟩ := hnd
  obtain ⟨h0a, h0b, ⟨⟨h0x, h0y⟩, h0z⟩, h0c⟩ := h0
  have hrest' := hrest
  rw [List.nodup_append', List.nodup_append', List.nodup_append'] at hrest'
  obtain ⟨⟨⟨ndx, ndy, dxy⟩, ndz, dxyz⟩, ndc, dc⟩ := hrest'
  have ha0 : a ≠ 0 := Ne.symm h0a
  have hb0 : b ≠ 0 := Ne.symm h0b
  -- step 1: node->right = right->left
  obtain ⟨m1, e1⟩ : ∃ m1, m1 = m.put a (mkCell d (cptr c) x.ptr y.ptr t v) := ⟨_, rfl⟩
  have s1 : m.setKid (!d) a y.ptr = some m1 := by rw [setKid_eq ha ha0, setKid_not_mkCell, e1]
  have a1 : m1.heap a = some (mkCell d (cptr c) x.ptr y.ptr t v) := by rw [e1]; exact put_same _ _ _
  have b1 : m1.heap b = some (mkCell d a y.ptr z.ptr t' v') := by rw [e1, put_other _ _ _ _ (Ne.symm hab), hb]
  have x1 : Rep m1.heap a x := by rw [e1]; exact rep_put hax hx
  have y1 : Rep m1.heap b y := by rw [e1]; exact rep_put hay hy
  have z1 : Rep m1.heap b z := by rw [e1]; exact rep_put haz hz
  have c1 : CRep m1.heap m1.root a c := by rw [e1]; exact crep_put hac hc
  -- step 2: the parent of right->left
  obtain ⟨m2, s2, a2, b2, x2, y2, z2, c2⟩ : ∃ m2, m1.setParentIf y.ptr a = some m2 ∧
      m2.heap a = some (mkCell d (cptr c) x.ptr y.ptr t v) ∧ m2.heap b = some (mkCell d a y.ptr z.ptr t' v') ∧
      Rep m2.heap a x ∧ Rep m2.heap a y ∧ Rep m2.heap b z ∧ CRep m2.heap m2.root a c := by
    by_cases hy0 : y = .nil
    · subst hy0
      exact ⟨m1, rfl, a1, b1, x1, trivial, z1, c1⟩
    · have hyp : y.ptr ≠ 0 := fun e => h0y (e ▸ ptr_mem hy0)
      have hm := ptr_mem hy0
      obtain ⟨cy, -, w2, w3⟩ := rep_reparent (q := a) hy0 h0y ndy y1
      refine ⟨_, by rw [Mem.setParentIf, if_pos hyp]; exact w2, ?_, ?_, ?_, w3, ?_, ?_⟩
      · rw [put_other _ _ _ _ (by rintro e; exact hay (e ▸ hm)), a1]
      · rw [put_other _ _ _ _ (by rintro e; exact hby (e ▸ hm)), b1]
      · exact rep_put (fun hx' => dxy hx' hm) x1
      · exact rep_put (fun hz' => dxyz (List.mem_append_right _ hm) hz') z1
      · exact crep_put (fun hc' => dc (List.mem_append_left _ (List.mem_append_right _ hm)) hc') c1
  -- step 3: right->left = node
  obtain ⟨m3, e3⟩ : ∃ m3, m3 = m2.put b (mkCell d a a z.ptr t' v') := ⟨_, rfl⟩
  have s3 : m2.setKid d b a = some m3 := by rw [setKid_eq b2 hb0, setKid_mkCell, e3]
  have a3 : m3.heap a = some (mkCell d (cptr c) x.ptr y.ptr t v) := by rw [e3, put_other _ _ _ _ hab, a2]
  have b3 : m3.heap b = some (mkCell d a a z.ptr t' v') := by rw [e3]; exact put_same _ _ _
  -- step 4: right->parent = node->parent
  obtain ⟨m4, e4⟩ : ∃ m4, m4 = m3.put b (mkCell d (cptr c) a z.ptr t' v') := ⟨_, rfl⟩
  have s4 : m3.setParent b (cptr c) = some m4 := by rw [setParent_eq b3 hb0, setParent_mkCell, e4]
  have a4 : m4.heap a = some (mkCell d (cptr c) x.ptr y.ptr t v) := by rw [e4, put_other _ _ _ _ hab, a3]
  have b4 : m4.heap b = some (mkCell d (cptr c) a z.ptr t' v') := by rw [e4]; exact put_same _ _ _
  have x4 : Rep m4.heap a x := by rw [e4, e3]; exact rep_put hbx (rep_put hbx x2)
  have y4 : Rep m4.heap a y := by rw [e4, e3]; exact rep_put hby (rep_put hby y2)
  have z4 : Rep m4.heap b z := by rw [e4, e3]; exact rep_put hbz (rep_put hbz z2)
  have c4 : CRep m4.heap m4.root a c := by rw [e4, e3]; exact crep_put hbc (crep_put hbc c2)
  -- step 5: the link from the parent
  obtain ⟨m5, s5, c5, f5, -⟩ := crep_relink (d := d) (hole' := b) ndc h0c (by
    intro f hf e
    cases c with
    | nil => simp at hf
    | cons g c =>
      simp only [List.head?_cons, Option.mem_def, Option.some.injEq] at hf
      subst hf
      have : g.sib ≠ .nil := by
        rintro e'
        rw [e'] at e
        exact ha0 e.symm
      have := ptr_mem this
      rw [e] at this
      exact hac (by simp [caddrs, this])) c4
  have a5 : m5.heap a = some (mkCell d (cptr c) x.ptr y.ptr t v) := by rw [f5 a hac, a4]
  have b5 : m5.heap b = some (mkCell d (cptr c) a z.ptr t' v') := by rw [f5 b hbc, b4]
  have x5 : Rep m5.heap a x :=
    rep_congr (fun q hq => f5 q fun hc' => dc (List.mem_append_left _ (List.mem_append_left _ hq)) hc') x4
  have y5 : Rep m5.heap a y :=
    rep_congr (fun q hq => f5 q fun hc' => dc (List.mem_append_left _ (List.mem_append_right _ hq)) hc') y4
  have z5 : Rep m5.heap b z := rep_congr (fun q hq => f5 q fun hc' => dc (List.mem_append_right _ hq) hc') z4
  refine ⟨m5.put a (mkCell d b x.ptr y.ptr t v), ?_, ?_, ?_, ?_, ?_⟩
  · simp only [Verif.Trees.rotate, get_eq ha ha0, Option.bind_eq_bind, Option.bind_some, kid_not_mkCell,
      get_eq hb hb0, kid_mkCell, s1, get_eq a1 ha0, s2, s3, get_eq a3 ha0, parent_mkCell, s4,
      get_eq b4 hb0, s5]
    rw [setParent_eq a5 ha0, setParent_mkCell]
  · rw [rep_nd, ptr_nd, rep_nd]
    refine ⟨?_, ⟨put_same _ _ _, rep_put hax x5, rep_put hay y5⟩, rep_put haz z5⟩
    rw [put_other _ _ _ _ (Ne.symm hab), b5]
  · rw [ptr_nd]
    exact crep_put hac c5
  · exact p2.nodup_iff.2 (p1.nodup_iff.1 h.nodup)
  · exact fun hm => h.nonnull (p1.mem_iff.2 (p2.mem_iff.1 hm))

end Verif.Trees
