import Verif.Trees.AVL
/-!
# AVL trees: the rotations
-/
namespace Verif.Trees

variable {α : Type}

/-! The code by side. -/

def singleD (d : Bool) (m : Mem α) (node kid inner h parent : Nat) (arc : Bool) : Option (Mem α) := do
  let m ← m.setKid d node inner
  let m ← m.setTag node (1 + h)
  let m ← m.setParentIf inner node
  let m ← m.setKid (!d) kid node
  let m ← m.setParent node kid
  let m ← m.setTag kid (1 + (← m.get node).tag)
  let m ← m.setParent kid parent
  storeArc m parent arc kid

theorem singleLeft_eq (m : Mem α) (n k i h p : Nat) (arc : Bool) : singleLeft m n k i h p arc = singleD false m n k i h p arc := rfl
theorem singleRight_eq (m : Mem α) (n k i h p : Nat) (arc : Bool) : singleRight m n k i h p arc = singleD true m n k i h p arc := rfl

def doubleD (d : Bool) (m : Mem α) (node kid inner h hi parent : Nat) (arc : Bool) : Option (Mem α) := do
  let m ← m.setKid (!d) kid ((← m.get inner).kid d)
  let m ← m.setKid d node ((← m.get inner).kid (!d))
  let m ← m.setParentIf ((← m.get kid).kid (!d)) kid
  let m ← m.setParentIf ((← m.get node).kid d) node
  let m ← m.setKid d inner kid
  let m ← m.setKid (!d) inner node
  let m ← m.setParent node inner
  let m ← m.setParent kid inner
  let m ← m.setTag node hi
  let m ← m.setTag kid hi
  let m ← m.setTag inner h
  let m ← m.setParent inner parent
  storeArc m parent arc inner

theorem doubleLeft_eq (m : Mem α) (n k i h hi p : Nat) (arc : Bool) : doubleLeft m n k i h hi p arc = doubleD false m n k i h hi p arc := rfl
theorem doubleRight_eq (m : Mem α) (n k i h hi p : Nat) (arc : Bool) : doubleRight m n k i h hi p arc = doubleD true m n k i h hi p arc := rfl

/-! ## The link to the subtree -/

theorem arcOf_spec {m : Mem α} {t : Tr α} {c : Ctx α} (h : At m t c) (ht : t ≠ .nil) : arcOf m (cptr c) t.ptr = some (side c) := by
  cases c with
  | nil => rfl
  | cons f c =>
    obtain ⟨d, b, bt, bv, s⟩ := f
    have hu := At.up.1 h
    have hne := h.sib_ne ht ⟨d, b, bt, bv, s⟩ rfl
    rw [arcOf, if_neg (show cptr (⟨d, b, bt, bv, s⟩ :: c) ≠ 0 from hu.ne_zero),
      show cptr (⟨d, b, bt, bv, s⟩ :: c) = b from rfl, hu.get, Option.map_some]
    cases d with
    | false => simp [mkCell, side]
    | true => simp [mkCell, side, show s.ptr ≠ t.ptr from hne]

theorem crep_store {m : Mem α} {hole : Nat} (hole' : Nat) {c : Ctx α} (ndc : (caddrs c).Nodup) (h0 : 0 ∉ caddrs c)
    (r : CRep m.heap m.root hole c) :
    ∃ m', storeArc m (cptr c) (side c) hole' = some m' ∧ CRep m'.heap m'.root hole' c ∧
      ∀ q, q ∉ caddrs c → m'.heap q = m.heap q := by
  cases c with
  | nil => exact ⟨_, rfl, rfl, fun _ _ => rfl⟩
  | cons f c =>
    obtain ⟨r1, r2, r3⟩ := r
    simp only [caddrs, List.nodup_cons, List.mem_append, not_or, List.mem_cons] at ndc h0
    have hfa : f.a ≠ 0 := Ne.symm h0.1
    rw [storeArc, if_neg (show cptr (f :: c) ≠ 0 from hfa)]
    refine ⟨_, setKid_eq r1 hfa _ _, ?_, ?_⟩
    · rw [show side (f :: c) = f.d from rfl, setKid_mkCell]
      exact ⟨put_same _ _ _, rep_put ndc.1.1 r2, crep_put ndc.1.2 r3⟩
    · intro q hq
      exact put_other _ _ _ _ fun e => hq (by rw [e]; simp [caddrs])

/-- The height a node holds. -/
def Tr.stored : Tr α → Nat
  | .nil => 0
  | .node _ tag _ _ _ => tag

theorem height_spec {m : Mem α} {t : Tr α} {c : Ctx α} (h : At m t c) :
    height m t.ptr = some t.stored := by
  cases t with
  | nil => rfl
  | node a tag v l r =>
    have hA : At m (nd false a tag v l r) c := h
    rw [height, if_neg (show (Tr.node a tag v l r).ptr ≠ 0 from hA.ne_zero), show (Tr.node a tag v l r).ptr = a from rfl, hA.get]
    rfl

/-- Giving a subtree, or nothing, a new parent. -/
theorem reparentIf {m : Mem α} {p q : Nat} {t : Tr α} (h0 : 0 ∉ t.addrs) (nd : t.addrs.Nodup) (r : Rep m.heap p t) :
    ∃ m', m.setParentIf t.ptr q = some m' ∧ Rep m'.heap q t ∧ m'.root = m.root ∧ ∀ b, b ∉ t.addrs → m'.heap b = m.heap b := by
  by_cases ht : t = .nil
  · subst ht
    exact ⟨m, rfl, trivial, rfl, fun _ _ => rfl⟩
  · have hp : t.ptr ≠ 0 := fun e => h0 (e ▸ ptr_mem ht)
    obtain ⟨cy, -, w2, w3⟩ := rep_reparent (q := q) ht h0 nd r
    refine ⟨_, by rw [Mem.setParentIf, if_pos hp]; exact w2, w3, rfl, ?_⟩
    intro b hb
    exact put_other _ _ _ _ (by rintro rfl; exact hb (ptr_mem ht))

/-! ## Single rotation -/

theorem single_spec {m : Mem α} {d : Bool} {a ta b tb h : Nat} {va vb : α} {x y z : Tr α} {c : Ctx α}
    (hA : At m (nd d a ta va (nd d b tb vb x y) z) c) :
    ∃ m', singleD d m a b y.ptr h (cptr c) (side c) = some m' ∧
      At m' (nd d b (1 + (1 + h)) vb x (nd d a (1 + h) va y z)) c := by
  obtain ⟨ha, hb', hz⟩ := (rep_nd _ _ _ _ _ _ _ _).1 hA.rep
  obtain ⟨hb, hx, hy⟩ := (rep_nd _ _ _ _ _ _ _ _).1 hb'
  have hc := hA.crep
  rw [ptr_nd] at hc ha
  have p1 : (Tr.addrs (nd d a ta va (nd d b tb vb x y) z) ++ caddrs c).Perm
      (a :: b :: (x.addrs ++ y.addrs ++ z.addrs ++ caddrs c)) := by
    refine ((perm_addrs_nd _ _ _ _ _ _).append_right _).trans ?_
    refine ((((perm_addrs_nd d b tb vb x y).append_right _).cons _).append_right _).trans ?_
    simp
  have p2 : (Tr.addrs (nd d b (1 + (1 + h)) vb x (nd d a (1 + h) va y z)) ++ caddrs c).Perm
      (a :: b :: (x.addrs ++ y.addrs ++ z.addrs ++ caddrs c)) := by
    refine ((perm_addrs_nd _ _ _ _ _ _).append_right _).trans ?_
    refine ((((perm_addrs_nd d a (1 + h) va y z).append_left _).cons _).append_right _).trans ?_
    rw [show b :: (x.addrs ++ a :: (y.addrs ++ z.addrs)) ++ caddrs c = (b :: x.addrs) ++ a :: (y.addrs ++ z.addrs ++ caddrs c) by simp]
    refine List.perm_middle.trans ?_
    simp
  have hnd := p1.nodup_iff.1 hA.nodup
  have h0 : 0 ∉ a :: b :: (x.addrs ++ y.addrs ++ z.addrs ++ caddrs c) := fun hm => hA.nonnull (p1.mem_iff.2 hm)
  simp only [List.mem_cons, List.mem_append, not_or] at h0
  simp only [List.nodup_cons, List.mem_cons, List.mem_append, not_or] at hnd
  obtain ⟨⟨hab, ⟨⟨⟨hax, hay⟩, haz⟩, hac⟩⟩, ⟨⟨⟨hbx, hby⟩, hbz⟩, hbc⟩, hrest⟩ := hnd
  obtain ⟨h0a, h0b, ⟨⟨h0x, h0y⟩, h0z⟩, h0c⟩ := h0
  rw [List.nodup_append', List.nodup_append', List.nodup_append'] at hrest
  obtain ⟨⟨⟨ndx, ndy, dxy⟩, ndz, dxyz⟩, ndc, dc⟩ := hrest
  have ha0 : a ≠ 0 := Ne.symm h0a
  have hb0 : b ≠ 0 := Ne.symm h0b
  let S := fun (m : Mem α) (ca cb : Cell α) (py : Nat) => m.heap a = some ca ∧ m.heap b = some cb ∧ Rep m.heap b x ∧
    Rep m.heap py y ∧ Rep m.heap a z ∧ CRep m.heap m.root a c
  have putA : ∀ {m : Mem α} {ca cb py} ca', S m ca cb py → S (m.put a ca') ca' cb py := by
    rintro m ca cb py ca' ⟨k1, k2, k3, k4, k5, k6⟩
    exact ⟨put_same _ _ _, by rw [put_other _ _ _ _ (Ne.symm hab), k2], rep_put hax k3, rep_put hay k4, rep_put haz k5, crep_put hac k6⟩
  have putB : ∀ {m : Mem α} {ca cb py} cb', S m ca cb py → S (m.put b cb') ca cb' py := by
    rintro m ca cb py cb' ⟨k1, k2, k3, k4, k5, k6⟩
    exact ⟨by rw [put_other _ _ _ _ hab, k1], put_same _ _ _, rep_put hbx k3, rep_put hby k4, rep_put hbz k5, crep_put hbc k6⟩
  have s0 : S m _ _ _ := ⟨ha, hb, hx, hy, hz, hc⟩
  have s1 := putA (mkCell d (cptr c) y.ptr z.ptr ta va) s0
  have s2 := putA (mkCell d (cptr c) y.ptr z.ptr (1 + h) va) s1
  obtain ⟨m3, e3, s3⟩ : ∃ m3, Mem.setParentIf ((m.put a (mkCell d (cptr c) y.ptr z.ptr ta va)).put a
      (mkCell d (cptr c) y.ptr z.ptr (1 + h) va)) y.ptr a = some m3 ∧
      S m3 (mkCell d (cptr c) y.ptr z.ptr (1 + h) va) (mkCell d a x.ptr y.ptr tb vb) a := by
    obtain ⟨k1, k2, k3, k4, k5, k6⟩ := s2
    obtain ⟨m3, w1, w2, w3, w4⟩ := reparentIf (q := a) h0y ndy k4
    refine ⟨m3, w1, by rw [w4 a hay, k1], by rw [w4 b hby, k2], rep_congr (fun q hq => w4 q fun hq' => dxy hq hq') k3, w2,
      rep_congr (fun q hq => w4 q fun hq' => dxyz (List.mem_append_right _ hq') hq) k5, ?_⟩
    rw [w3]
    exact crep_congr (fun q hq => w4 q fun hq' => dc (List.mem_append_left _ (List.mem_append_right _ hq')) hq) k6
  have s4 := putB (mkCell d a x.ptr a tb vb) s3
  have s5 := putA (mkCell d b y.ptr z.ptr (1 + h) va) s4
  have s6 := putB (mkCell d a x.ptr a (1 + (1 + h)) vb) s5
  have s7 := putB (mkCell d (cptr c) x.ptr a (1 + (1 + h)) vb) s6
  obtain ⟨m8, e8, c8, f8⟩ := crep_store b ndc h0c s7.2.2.2.2.2
  refine ⟨m8, ?_, ⟨?_, by rw [ptr_nd]; exact c8, p2.nodup_iff.2 (p1.nodup_iff.1 hA.nodup), fun hm => hA.nonnull (p1.mem_iff.2 (p2.mem_iff.1 hm))⟩⟩
  · rw [singleD, setKid_eq ha ha0, setKid_mkCell]
    simp only [Option.bind_eq_bind, Option.bind_some]
    rw [setTag_eq s1.1 ha0, show ({ mkCell d (cptr c) y.ptr z.ptr ta va with tag := 1 + h } : Cell α) = mkCell d (cptr c) y.ptr z.ptr (1 + h) va by cases d <;> rfl]
    simp only [Option.bind_some, e3]
    rw [setKid_eq s3.2.1 hb0, setKid_not_mkCell]
    simp only [Option.bind_some]
    rw [setParent_eq s4.1 ha0, setParent_mkCell]
    simp only [Option.bind_some]
    rw [get_eq s5.1 ha0]
    simp only [Option.bind_some, tag_mkCell]
    rw [setTag_eq s5.2.1 hb0, show ({ mkCell d a x.ptr a tb vb with tag := 1 + (1 + h) } : Cell α) = mkCell d a x.ptr a (1 + (1 + h)) vb by cases d <;> rfl]
    simp only [Option.bind_some]
    rw [setParent_eq s6.2.1 hb0, setParent_mkCell]
    simp only [Option.bind_some]
    exact e8
  · obtain ⟨k1, k2, k3, k4, k5, k6⟩ := s7
    rw [rep_nd, rep_nd, ptr_nd]
    refine ⟨by rw [f8 b hbc, k2], ?_, by rw [f8 a hac, k1], ?_, ?_⟩
    · exact rep_congr (fun q hq => f8 q fun hq' => dc (List.mem_append_left _ (List.mem_append_left _ hq)) hq') k3
    · exact rep_congr (fun q hq => f8 q fun hq' => dc (List.mem_append_left _ (List.mem_append_right _ hq)) hq') k4
    · exact rep_congr (fun q hq => f8 q fun hq' => dc (List.mem_append_right _ hq) hq') k5

/-! ## Double rotation -/

theorem double_spec {m : Mem α} {d : Bool} {a ta b tb g tg h hi : Nat} {va vb vg : α} {x y w z : Tr α} {c : Ctx α}
    (hA : At m (nd d a ta va (nd d b tb vb x (nd d g tg vg y w)) z) c) :
    ∃ m', doubleD d m a b g h hi (cptr c) (side c) = some m' ∧
      At m' (nd d g h vg (nd d b hi vb x y) (nd d a hi va w z)) c := by
  obtain ⟨ha, hb', hz⟩ := (rep_nd _ _ _ _ _ _ _ _).1 hA.rep
  obtain ⟨hb, hx, hg'⟩ := (rep_nd _ _ _ _ _ _ _ _).1 hb'
  obtain ⟨hg, hy, hw⟩ := (rep_nd _ _ _ _ _ _ _ _).1 hg'
  have hc := hA.crep
  rw [ptr_nd] at hc ha hb
  have p1 : (Tr.addrs (nd d a ta va (nd d b tb vb x (nd d g tg vg y w)) z) ++ caddrs c).Perm
      (a :: b :: g :: (x.addrs ++ y.addrs ++ w.addrs ++ z.addrs ++ caddrs c)) := by
    refine ((perm_addrs_nd _ _ _ _ _ _).append_right _).trans ?_
    refine ((((perm_addrs_nd d b tb vb x _).append_right _).cons _).append_right _).trans ?_
    simp only [List.cons_append]
    refine List.Perm.cons _ (List.Perm.cons _ ?_)
    refine ((((perm_addrs_nd d g tg vg y w).append_left _).append_right _).append_right _).trans ?_
    rw [show x.addrs ++ g :: (y.addrs ++ w.addrs) ++ z.addrs ++ caddrs c =
      x.addrs ++ g :: (y.addrs ++ w.addrs ++ z.addrs ++ caddrs c) by simp]
    refine List.perm_middle.trans ?_
    simp
  have p2 : (Tr.addrs (nd d g h vg (nd d b hi vb x y) (nd d a hi va w z)) ++ caddrs c).Perm
      (a :: b :: g :: (x.addrs ++ y.addrs ++ w.addrs ++ z.addrs ++ caddrs c)) := by
    refine ((perm_addrs_nd _ _ _ _ _ _).append_right _).trans ?_
    refine (((((perm_addrs_nd d b hi vb x y).append (perm_addrs_nd d a hi va w z))).cons _).append_right _).trans ?_
    rw [show g :: (b :: (x.addrs ++ y.addrs) ++ a :: (w.addrs ++ z.addrs)) ++ caddrs c =
      (g :: b :: (x.addrs ++ y.addrs)) ++ a :: (w.addrs ++ z.addrs ++ caddrs c) by simp]
    refine List.perm_middle.trans (List.Perm.cons _ ?_)
    simp only [List.cons_append, List.append_assoc]
    exact List.Perm.swap _ _ _
  have hnd := p1.nodup_iff.1 hA.nodup
  have h0 : 0 ∉ a :: b :: g :: (x.addrs ++ y.addrs ++ w.addrs ++ z.addrs ++ caddrs c) := fun hm => hA.nonnull (p1.mem_iff.2 hm)
  simp only [List.mem_cons, List.mem_append, not_or] at h0
  simp only [List.nodup_cons, List.mem_cons, List.mem_append, not_or] at hnd
  obtain ⟨⟨hab, hag, ⟨⟨⟨⟨hax, hay⟩, haw⟩, haz⟩, hac⟩⟩, ⟨hbg, ⟨⟨⟨hbx, hby⟩, hbw⟩, hbz⟩, hbc⟩, ⟨⟨⟨⟨hgx, hgy⟩, hgw⟩, hgz⟩, hgc⟩, hrest⟩ := hnd
  obtain ⟨h0a, h0b, h0g, ⟨⟨⟨h0x, h0y⟩, h0w⟩, h0z⟩, h0c⟩ := h0
  rw [List.nodup_append', List.nodup_append', List.nodup_append', List.nodup_append'] at hrest
  obtain ⟨⟨⟨⟨ndx, ndy, dxy⟩, ndw, dxyw⟩, ndz, dxywz⟩, ndc, dc⟩ := hrest
  have ha0 : a ≠ 0 := Ne.symm h0a
  have hb0 : b ≠ 0 := Ne.symm h0b
  have hg0 : g ≠ 0 := Ne.symm h0g
  let S := fun (m : Mem α) (ca cb cg : Cell α) (py pw : Nat) => m.heap a = some ca ∧ m.heap b = some cb ∧ m.heap g = some cg ∧
    Rep m.heap b x ∧ Rep m.heap py y ∧ Rep m.heap pw w ∧ Rep m.heap a z ∧ CRep m.heap m.root a c
  have putA : ∀ {m : Mem α} {ca cb cg py pw} ca', S m ca cb cg py pw → S (m.put a ca') ca' cb cg py pw := by
    rintro m ca cb cg py pw ca' ⟨k1, k2, k2', k3, k4, k4', k5, k6⟩
    exact ⟨put_same _ _ _, by rw [put_other _ _ _ _ (Ne.symm hab), k2], by rw [put_other _ _ _ _ (Ne.symm hag), k2'],
      rep_put hax k3, rep_put hay k4, rep_put haw k4', rep_put haz k5, crep_put hac k6⟩
  have putB : ∀ {m : Mem α} {ca cb cg py pw} cb', S m ca cb cg py pw → S (m.put b cb') ca cb' cg py pw := by
    rintro m ca cb cg py pw cb' ⟨k1, k2, k2', k3, k4, k4', k5, k6⟩
    exact ⟨by rw [put_other _ _ _ _ hab, k1], put_same _ _ _, by rw [put_other _ _ _ _ (Ne.symm hbg), k2'],
      rep_put hbx k3, rep_put hby k4, rep_put hbw k4', rep_put hbz k5, crep_put hbc k6⟩
  have putG : ∀ {m : Mem α} {ca cb cg py pw} cg', S m ca cb cg py pw → S (m.put g cg') ca cb cg' py pw := by
    rintro m ca cb cg py pw cg' ⟨k1, k2, k2', k3, k4, k4', k5, k6⟩
    exact ⟨by rw [put_other _ _ _ _ hag, k1], by rw [put_other _ _ _ _ hbg, k2], put_same _ _ _,
      rep_put hgx k3, rep_put hgy k4, rep_put hgw k4', rep_put hgz k5, crep_put hgc k6⟩
  have s0 : S m _ _ _ _ _ := ⟨ha, hb, hg, hx, hy, hw, hz, hc⟩
  have s1 := putB (mkCell d a x.ptr y.ptr tb vb) s0
  have s2 := putA (mkCell d (cptr c) w.ptr z.ptr ta va) s1
  obtain ⟨m2, e2⟩ : ∃ m2, m2 = (m.put b (mkCell d a x.ptr y.ptr tb vb)).put a (mkCell d (cptr c) w.ptr z.ptr ta va) := ⟨_, rfl⟩
  rw [← e2] at s2
  obtain ⟨m3, e3, s3⟩ : ∃ m3, m2.setParentIf y.ptr b = some m3 ∧
      S m3 (mkCell d (cptr c) w.ptr z.ptr ta va) (mkCell d a x.ptr y.ptr tb vb) (mkCell d b y.ptr w.ptr tg vg) b g := by
    obtain ⟨k1, k2, k2', k3, k4, k4', k5, k6⟩ := s2
    obtain ⟨m3, w1, w2, w3, w4⟩ := reparentIf (q := b) h0y ndy k4
    refine ⟨m3, w1, by rw [w4 a hay, k1], by rw [w4 b hby, k2], by rw [w4 g hgy, k2'],
      rep_congr (fun q hq => w4 q fun hq' => dxy hq hq') k3, w2,
      rep_congr (fun q hq => w4 q fun hq' => dxyw (List.mem_append_right _ hq') hq) k4',
      rep_congr (fun q hq => w4 q fun hq' => dxywz (List.mem_append_left _ (List.mem_append_right _ hq')) hq) k5, ?_⟩
    rw [w3]
    exact crep_congr (fun q hq => w4 q fun hq' =>
      dc (List.mem_append_left _ (List.mem_append_left _ (List.mem_append_right _ hq'))) hq) k6
  obtain ⟨m4, e4, s4⟩ : ∃ m4, m3.setParentIf w.ptr a = some m4 ∧
      S m4 (mkCell d (cptr c) w.ptr z.ptr ta va) (mkCell d a x.ptr y.ptr tb vb) (mkCell d b y.ptr w.ptr tg vg) b a := by
    obtain ⟨k1, k2, k2', k3, k4, k4', k5, k6⟩ := s3
    obtain ⟨m4, w1, w2, w3, w4⟩ := reparentIf (q := a) h0w ndw k4'
    refine ⟨m4, w1, by rw [w4 a haw, k1], by rw [w4 b hbw, k2], by rw [w4 g hgw, k2'],
      rep_congr (fun q hq => w4 q fun hq' => dxyw (List.mem_append_left _ hq) hq') k3,
      rep_congr (fun q hq => w4 q fun hq' => dxyw (List.mem_append_right _ hq) hq') k4, w2,
      rep_congr (fun q hq => w4 q fun hq' => dxywz (List.mem_append_right _ hq') hq) k5, ?_⟩
    rw [w3]
    exact crep_congr (fun q hq => w4 q fun hq' => dc (List.mem_append_left _ (List.mem_append_right _ hq')) hq) k6
  have s5 := putG (mkCell d b b w.ptr tg vg) s4
  have s6 := putG (mkCell d b b a tg vg) s5
  have s7 := putA (mkCell d g w.ptr z.ptr ta va) s6
  have s8 := putB (mkCell d g x.ptr y.ptr tb vb) s7
  have s9 := putA (mkCell d g w.ptr z.ptr hi va) s8
  have s10 := putB (mkCell d g x.ptr y.ptr hi vb) s9
  have s11 := putG (mkCell d b b a h vg) s10
  have s12 := putG (mkCell d (cptr c) b a h vg) s11
  obtain ⟨m13, e13, c13, f13⟩ := crep_store g ndc h0c s12.2.2.2.2.2.2.2
  have tagEq : ∀ p x y t t' (v : α), ({ mkCell d p x y t v with tag := t' } : Cell α) = mkCell d p x y t' v := by
    intros; cases d <;> rfl
  refine ⟨m13, ?_, ⟨?_, by rw [ptr_nd]; exact c13, p2.nodup_iff.2 (p1.nodup_iff.1 hA.nodup), fun hm => hA.nonnull (p1.mem_iff.2 (p2.mem_iff.1 hm))⟩⟩
  · rw [doubleD, get_eq hg hg0]
    simp only [Option.bind_eq_bind, Option.bind_some, kid_mkCell]
    rw [setKid_eq hb hb0, setKid_not_mkCell]
    simp only [Option.bind_some]
    rw [get_eq s1.2.2.1 hg0]
    simp only [Option.bind_some, kid_not_mkCell]
    rw [setKid_eq s1.1 ha0, setKid_mkCell]
    simp only [Option.bind_some]
    rw [← e2, get_eq s2.2.1 hb0]
    simp only [Option.bind_some, kid_not_mkCell, e3]
    rw [get_eq s3.1 ha0]
    simp only [Option.bind_some, kid_mkCell, e4]
    rw [setKid_eq s4.2.2.1 hg0, setKid_mkCell]
    simp only [Option.bind_some]
    rw [setKid_eq s5.2.2.1 hg0, setKid_not_mkCell]
    simp only [Option.bind_some]
    rw [setParent_eq s6.1 ha0, setParent_mkCell]
    simp only [Option.bind_some]
    rw [setParent_eq s7.2.1 hb0, setParent_mkCell]
    simp only [Option.bind_some]
    rw [setTag_eq s8.1 ha0, tagEq]
    simp only [Option.bind_some]
    rw [setTag_eq s9.2.1 hb0, tagEq]
    simp only [Option.bind_some]
    rw [setTag_eq s10.2.2.1 hg0, tagEq]
    simp only [Option.bind_some]
    rw [setParent_eq s11.2.2.1 hg0, setParent_mkCell]
    simp only [Option.bind_some]
    exact e13
  · obtain ⟨k1, k2, k2', k3, k4, k4', k5, k6⟩ := s12
    rw [rep_nd, rep_nd, rep_nd, ptr_nd, ptr_nd]
    refine ⟨by rw [f13 g hgc, k2'], ⟨by rw [f13 b hbc, k2], ?_, ?_⟩, by rw [f13 a hac, k1], ?_, ?_⟩
    · exact rep_congr (fun q hq => f13 q fun hq' => dc (by simp [hq]) hq') k3
    · exact rep_congr (fun q hq => f13 q fun hq' => dc (by simp [hq]) hq') k4
    · exact rep_congr (fun q hq => f13 q fun hq' => dc (by simp [hq]) hq') k4'
    · exact rep_congr (fun q hq => f13 q fun hq' => dc (by simp [hq]) hq') k5

end Verif.Trees
