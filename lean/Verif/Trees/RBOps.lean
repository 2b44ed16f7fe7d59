import Verif.Trees.RBErase
/-!
# Red-black trees: insertion, removal and enumeration
-/
namespace Verif.Trees

variable {α : Type}

theorem zip_append (t : Tr α) (p c : Ctx α) : zip t (p ++ c) = zip (zip t p) c := by
  induction p generalizing t with
  | nil => rfl
  | cons f p ih => exact ih _

/-! ## Insertion -/

/-- `rb_rebalance` on a new leaf. -/
theorem rebalance_spec (fuel : Nat) (m : Mem α) (a tag : Nat) (v : α) (c : Ctx α) (hf : c.length < fuel)
    (h : At m (nd false a tag v .nil .nil) c) (hrb : RBTree (zip .nil c)) :
    ∃ m' T, rebalance fuel m a = some m' ∧ Tree m' T ∧ RBTree T ∧ T.inorder = (zip (nd false a tag v .nil .nil) c).inorder := by
  obtain ⟨n, b1, b2, -, b4, -⟩ := unzip_rb hrb
  obtain ⟨m1, s1, a1⟩ := h.setTag RED
  obtain ⟨m2, T, s2, a2, o2, ⟨k, bk⟩, n2⟩ :=
    rebalanceLoop_spec fuel m1 false a v .nil .nil c n hf a1 rfl rfl trivial trivial b1 b1 b2 b4
  have hroot : m2.root = T.ptr := a2.crep
  have hT : T ≠ .nil := by
    rintro rfl
    rw [inorder_zip] at o2
    simp [Tr.inorder, nd] at o2
  obtain ⟨m3, s3, a3⟩ := At.blacken a2
  rw [Mem.setTagIf, if_pos (fun e => hT (a2.ptr_zero.1 e))] at s3
  refine ⟨m3, T.blacken, ?_, a3, ⟨bh_blacken bk, nr_blacken n2, blacken_red T⟩, ?_⟩
  · rw [rebalance, s1]
    simp only [Option.bind_eq_bind, Option.bind_some, s2, hroot, s3]
  · rw [inorder_blacken, o2]
    exact zip_congr (inorder_tag _ _ _ _ _ _ _)

/-! ## Taking nodes out and putting others in their place -/

theorem At.sib_ne {m : Mem α} {t : Tr α} {c : Ctx α} (h : At m t c) (ht : t ≠ .nil) : ∀ f ∈ c.head?, f.sib.ptr ≠ t.ptr := by
  intro f hf
  cases c with
  | nil => simp at hf
  | cons g c =>
    simp only [List.head?_cons, Option.mem_def, Option.some.injEq] at hf
    subst hf
    obtain ⟨fd, fa, ft, fv, fs⟩ := g
    exact (At.up.1 h).kids_ne ht

theorem nd_ne_nil (d : Bool) (a tag : Nat) (v : α) (x y : Tr α) : nd d a tag v x y ≠ .nil := by cases d <;> simp [nd]

/-- A node with one child at most is replaced by the child. -/
theorem unlink_spec {m : Mem α} {d : Bool} {a tag : Nat} {v : α} {x : Tr α} {c : Ctx α}
    (h : At m (nd d a tag v x .nil) c) :
    ∃ m', unlink m (cptr c) a x.ptr = some m' ∧ At m' x c ∧ ∀ q, q ∉ x.addrs ++ caddrs c → m'.heap q = m.heap q := by
  obtain ⟨ha, hx, -⟩ := (rep_nd _ _ _ _ _ _ _ _).1 h.rep
  have hc := h.crep
  have hsib := h.sib_ne (nd_ne_nil _ _ _ _ _ _)
  rw [ptr_nd] at hc hsib
  have p1 := (perm_addrs_nd d a tag v x .nil).append_right (caddrs c)
  have hnd := p1.nodup_iff.1 h.nodup
  have h0 : 0 ∉ a :: (x.addrs ++ Tr.addrs .nil) ++ caddrs c := fun hm => h.nonnull (p1.mem_iff.2 hm)
  simp only [Tr.addrs, List.append_nil, List.cons_append, List.nodup_cons, List.mem_cons, not_or, List.mem_append] at hnd h0
  obtain ⟨⟨hax, hac⟩, hnd'⟩ := hnd
  obtain ⟨h0a, h0x, h0c⟩ := h0
  have hnd2 := hnd'
  rw [List.nodup_append'] at hnd'
  obtain ⟨ndx, ndc, dxc⟩ := hnd'
  obtain ⟨m1, s1, x1, c1, f1⟩ : ∃ m1, m.setParentIf x.ptr (cptr c) = some m1 ∧ Rep m1.heap (cptr c) x ∧
      CRep m1.heap m1.root a c ∧ ∀ q, q ∉ x.addrs → m1.heap q = m.heap q := by
    by_cases hx0 : x = .nil
    · subst hx0
      exact ⟨m, rfl, trivial, hc, fun _ _ => rfl⟩
    · have hyp : x.ptr ≠ 0 := fun e => h0x (e ▸ ptr_mem hx0)
      have hm := ptr_mem hx0
      obtain ⟨cy, -, w2, w3⟩ := rep_reparent (q := cptr c) hx0 h0x ndx hx
      refine ⟨_, by rw [Mem.setParentIf, if_pos hyp]; exact w2, w3, crep_put (fun hc' => dxc hm hc') hc, ?_⟩
      intro q hq
      exact put_other _ _ _ _ (by rintro rfl; exact hq hm)
  obtain ⟨m2, s2, c2, f2, -⟩ := crep_relink (d := false) (hole' := x.ptr) ndc h0c hsib c1
  refine ⟨m2, ?_, ⟨?_, c2, hnd2, ?_⟩, ?_⟩
  · rw [unlink, s1]
    simp only [Option.bind_eq_bind, Option.bind_some]
    exact s2
  · exact rep_congr (fun q hq => f2 q fun hc' => dxc hq hc') x1
  · simp only [List.mem_append, not_or]
    exact ⟨h0x, h0c⟩
  · intro q hq
    simp only [List.mem_append, not_or] at hq
    rw [f2 q hq.2, f1 q hq.1]

/-- A node takes the place of another one. -/
theorem takePlace_spec {m : Mem α} {a tag b : Nat} {v : α} {l r : Tr α} {c : Ctx α} {cb : Cell α}
    (h : At m (.node a tag v l r) c) (hl : l ≠ .nil) (hb0 : b ≠ 0) (hb : m.heap b = some cb)
    (hfresh : b ∉ (Tr.node a tag v l r).addrs ++ caddrs c) :
    ∃ m', takePlace m a b = some m' ∧ At m' (.node b tag cb.data l r) c := by
  obtain ⟨ha, hl', hr'⟩ := h.rep
  have hc := h.crep
  have ha0 : a ≠ 0 := (show At m (nd false a tag v l r) c from h).ne_zero
  have hsib := h.sib_ne (by simp)
  simp only [Tr.ptr] at hc hsib
  have hnd := h.nodup
  have h0 := h.nonnull
  simp only [Tr.addrs, List.cons_append, List.nodup_cons, List.mem_cons, not_or, List.mem_append] at hnd h0 hfresh
  obtain ⟨⟨⟨hal, har⟩, hac⟩, hnd⟩ := hnd
  obtain ⟨h0a, ⟨h0l, h0r⟩, h0c⟩ := h0
  obtain ⟨hba, ⟨hbl, hbr⟩, hbc⟩ := hfresh
  have hnd' := hnd
  rw [List.nodup_append', List.nodup_append'] at hnd
  obtain ⟨⟨ndl, ndr, dlr⟩, ndc, dc⟩ := hnd
  have hlp : l.ptr ∈ l.addrs := ptr_mem hl
  -- the new node
  have ga : ∀ x : Cell α, (m.put b x).get a = some ⟨cptr c, l.ptr, r.ptr, tag, v⟩ := fun x => by
    rw [Mem.get, if_neg ha0, put_other _ _ _ _ (Ne.symm hba), ha]
  have pp : ∀ x y : Cell α, (m.put b x).put b y = m.put b y := by
    intro x y
    simp only [Mem.put]
    congr 1
    funext q
    split <;> rfl
  have s1 : m.setParent b (cptr c) = some (m.put b { cb with parent := cptr c }) := setParent_eq hb hb0 _
  obtain ⟨m4, e4⟩ : ∃ m4, m4 = m.put b ⟨cptr c, l.ptr, r.ptr, tag, cb.data⟩ := ⟨_, rfl⟩
  have b4 : m4.heap b = some ⟨cptr c, l.ptr, r.ptr, tag, cb.data⟩ := by rw [e4]; exact put_same _ _ _
  have a4 : m4.heap a = some ⟨cptr c, l.ptr, r.ptr, tag, v⟩ := by rw [e4, put_other _ _ _ _ (Ne.symm hba), ha]
  have l4 : Rep m4.heap a l := by rw [e4]; exact rep_put hbl hl'
  have r4 : Rep m4.heap a r := by rw [e4]; exact rep_put hbr hr'
  have c4 : CRep m4.heap m4.root a c := by rw [e4]; exact crep_put hbc hc
  obtain ⟨m5, s5, c5, f5, -⟩ := crep_relink (d := false) (hole' := b) ndc h0c hsib c4
  have b5 : m5.heap b = some ⟨cptr c, l.ptr, r.ptr, tag, cb.data⟩ := by rw [f5 b hbc, b4]
  have a5 : m5.heap a = some ⟨cptr c, l.ptr, r.ptr, tag, v⟩ := by rw [f5 a hac, a4]
  have l5 : Rep m5.heap a l := rep_congr (fun q hq => f5 q fun hc' => dc (List.mem_append_left _ hq) hc') l4
  have r5 : Rep m5.heap a r := rep_congr (fun q hq => f5 q fun hc' => dc (List.mem_append_right _ hq) hc') r4
  obtain ⟨cl, -, s6, l6⟩ := rep_reparent (q := b) hl h0l ndl l5
  obtain ⟨m6, e6⟩ : ∃ m6, m6 = m5.put l.ptr { cl with parent := b } := ⟨_, rfl⟩
  rw [← e6] at s6 l6
  have b6 : m6.heap b = some ⟨cptr c, l.ptr, r.ptr, tag, cb.data⟩ := by
    rw [e6, put_other _ _ _ _ (by intro e; exact hbl (e ▸ hlp)), b5]
  have a6 : m6.heap a = some ⟨cptr c, l.ptr, r.ptr, tag, v⟩ := by
    rw [e6, put_other _ _ _ _ (by intro e; exact hal (e ▸ hlp)), a5]
  have r6 : Rep m6.heap a r := by rw [e6]; exact rep_put (fun hr => dlr hlp hr) r5
  have c6 : CRep m6.heap m6.root b c := by rw [e6]; exact crep_put (fun hc' => dc (List.mem_append_left _ hlp) hc') c5
  obtain ⟨m7, s7, b7, l7, r7, c7⟩ : ∃ m7, m6.setParentIf r.ptr b = some m7 ∧
      m7.heap b = some ⟨cptr c, l.ptr, r.ptr, tag, cb.data⟩ ∧ Rep m7.heap b l ∧ Rep m7.heap b r ∧
      CRep m7.heap m7.root b c := by
    by_cases hr : r = .nil
    · subst hr
      exact ⟨m6, rfl, b6, l6, trivial, c6⟩
    · have hrp := ptr_mem hr
      have hr0 : r.ptr ≠ 0 := fun e => h0r (e ▸ hrp)
      obtain ⟨cr, -, w2, w3⟩ := rep_reparent (q := b) hr h0r ndr r6
      refine ⟨_, by rw [Mem.setParentIf, if_pos hr0]; exact w2, ?_, ?_, w3, ?_⟩
      · rw [put_other _ _ _ _ (by intro e; exact hbr (e ▸ hrp)), b6]
      · exact rep_put (fun hl' => dlr hl' hrp) l6
      · exact crep_put (fun hc' => dc (List.mem_append_right _ hrp) hc') c6
  refine ⟨m7, ?_, ⟨⟨b7, l7, r7⟩, c7, ?_, ?_⟩⟩
  · rw [takePlace, get_eq ha ha0]
    simp only [Option.bind_eq_bind, Option.bind_some, s1, ga]
    rw [setTag_eq (put_same _ _ _) hb0, pp]
    simp only [Option.bind_some, ga]
    rw [Mem.setRight, modify_eq (put_same _ _ _) hb0, pp]
    simp only [Option.bind_some, ga]
    rw [Mem.setLeft, modify_eq (put_same _ _ _) hb0, pp]
    simp only [Option.bind_some, ga]
    rw [← e4, relink_eq, s5]
    simp only [Option.bind_some]
    rw [get_eq a5 ha0]
    simp only [Option.bind_some, s6]
    rw [get_eq a6 ha0]
    simp only [Option.bind_some, s7]
  · simp only [Tr.addrs, List.cons_append, List.nodup_cons, List.mem_append, not_or]
    exact ⟨⟨⟨hbl, hbr⟩, hbc⟩, hnd'⟩
  · simp only [Tr.addrs, List.cons_append, List.mem_cons, List.mem_append, not_or]
    exact ⟨Ne.symm hb0, ⟨h0l, h0r⟩, h0c⟩

/-! ## Descending to the left -/

/-- A path that only goes left. -/
def LeftPath (p : Ctx α) : Prop := ∀ f ∈ p, f.d = false

theorem leftmost_spec {m : Mem α} {t : Tr α} {c : Ctx α} (h : At m t c) (ht : t ≠ .nil) :
    ∃ p b bt bv br, t = zip (.node b bt bv .nil br) p ∧ LeftPath p ∧ At m (.node b bt bv .nil br) (p ++ c) ∧
      p.length < t.addrs.length ∧ ∀ fuel, p.length < fuel → leftmost fuel m t.ptr = some b := by
  induction t generalizing c with
  | nil => exact absurd rfl ht
  | node a tag v l r ihl _ =>
    have hg : m.get a = some ⟨cptr c, l.ptr, r.ptr, tag, v⟩ := (show At m (nd false a tag v l r) c from h).get
    by_cases hl : l = .nil
    · subst hl
      refine ⟨[], a, tag, v, r, rfl, by simp [LeftPath], h, by simp [Tr.addrs], ?_⟩
      intro fuel hf
      obtain ⟨fuel, rfl⟩ : ∃ k, fuel = k + 1 := ⟨fuel - 1, by simp at hf; omega⟩
      simp only [leftmost, Tr.ptr, hg, Option.bind_eq_bind, Option.bind_some, if_true]
    · have hd : At m l (⟨false, a, tag, v, r⟩ :: c) := At.up.2 h
      obtain ⟨p, b, bt, bv, br, e1, e2, e3, e4, e5⟩ := ihl hd hl
      refine ⟨p ++ [⟨false, a, tag, v, r⟩], b, bt, bv, br, ?_, ?_, by simpa using e3, ?_, ?_⟩
      · rw [zip_append, ← e1]
        rfl
      · intro f hf
        rcases List.mem_append.1 hf with hf | hf
        · exact e2 f hf
        · simp only [List.mem_singleton] at hf
          rw [hf]
      · simp only [List.length_append, List.length_cons, List.length_nil, Tr.addrs]
        omega
      · intro fuel hf
        simp only [List.length_append, List.length_cons, List.length_nil] at hf
        obtain ⟨fuel, rfl⟩ : ∃ k, fuel = k + 1 := ⟨fuel - 1, by omega⟩
        have hlp : l.ptr ≠ 0 := fun e => hl (hd.ptr_zero.1 e)
        rw [show (Tr.node a tag v l r).ptr = a from rfl]
        simp only [leftmost, hg, Option.bind_eq_bind, Option.bind_some]
        rw [if_neg hlp]
        exact e5 fuel (by omega)

theorem lefts_leftPath {p : Ctx α} (h : LeftPath p) : lefts p = [] := by
  induction p with
  | nil => rfl
  | cons f p ih =>
    rw [lefts, ih (fun g hg => h g (List.mem_cons_of_mem _ hg)), h f (List.mem_cons_self)]
    rfl

/-! ## Removal -/

theorem ctx_length_le (c : Ctx α) : c.length ≤ (caddrs c).length := by
  induction c with
  | nil => simp
  | cons f c ih => simp only [List.length_cons, caddrs, List.length_append]; omega

theorem addrs_zip (t : Tr α) (c : Ctx α) : (zip t c).addrs.Perm (t.addrs ++ caddrs c) := by
  induction c generalizing t with
  | nil => simp [zip, caddrs]
  | cons f c ih => exact (ih _).trans (at_perm t f c).symm

theorem caddrs_append (p c : Ctx α) : (caddrs (p ++ c)).Perm (caddrs p ++ caddrs c) := by
  induction p with
  | nil => simp [caddrs]
  | cons f p ih =>
    simp only [List.cons_append, caddrs, List.append_assoc]
    exact List.Perm.cons _ (ih.append_left _)

theorem cbh_replace {n : Nat} {p c : Ctx α} {d : Bool} {a a' tag : Nat} {v v' : α} {s : Tr α}
    (h : CBH n (p ++ ⟨d, a, tag, v, s⟩ :: c)) : CBH n (p ++ ⟨d, a', tag, v', s⟩ :: c) := by
  induction p generalizing n with
  | nil => exact h
  | cons f p ih =>
    obtain ⟨h1, h2⟩ := h
    refine ⟨h1, ?_⟩
    split at h2
    · rename_i hf
      rw [if_pos hf]; exact ih h2
    · rename_i hf
      rw [if_neg hf]; exact ⟨h2.1, ih h2.2⟩

theorem headBlack_replace {p c : Ctx α} {d : Bool} {a a' tag : Nat} {v v' : α} {s : Tr α}
    (h : headBlack (p ++ ⟨d, a, tag, v, s⟩ :: c)) : headBlack (p ++ ⟨d, a', tag, v', s⟩ :: c) := by
  cases p <;> exact h

theorem cnr_replace {p c : Ctx α} {d : Bool} {a a' tag : Nat} {v v' : α} {s : Tr α}
    (h : CNR (p ++ ⟨d, a, tag, v, s⟩ :: c)) : CNR (p ++ ⟨d, a', tag, v', s⟩ :: c) := by
  induction p with
  | nil => exact h
  | cons f p ih =>
    obtain ⟨h1, h2, h3⟩ := h
    exact ⟨h1, fun hf => ⟨(h2 hf).1, headBlack_replace (h2 hf).2⟩, ih h3⟩

/-- When a node with at most one child has been taken out, the rest of `rb_erase`. -/
theorem erase_finish (fuel : Nat) (m : Mem α) (x : Tr α) (c : Ctx α) (n color : Nat) (hf : c.length < fuel)
    (h : At m x c) (bx : BH n x) (nx : NR x) (hcol : color = RED ∧ CBH n c ∧ x.red = false ∨ color = BLACK ∧ CBH (n + 1) c)
    (hc : CNR c) :
    ∃ m' T, (if color = BLACK then eraseRebalance fuel m x.ptr (cptr c) else some m) = some m' ∧ Tree m' T ∧ RBTree T ∧
      T.inorder = (zip x c).inorder := by
  rcases hcol with ⟨rfl, h1, h2⟩ | ⟨rfl, h1⟩
  · rw [if_neg (by simp)]
    exact ⟨m, _, rfl, at_zip.1 h, zip_rb bx h1 nx hc (by rw [h2]; simp), rfl⟩
  · rw [if_pos rfl]
    obtain ⟨m', T, e1, e2, e3, e4⟩ := eraseRebalance_spec fuel m x c n hf ⟨h, bx, h1, nr_blacken nx, hc⟩
    exact ⟨m', T, e1, e2, e3, e4⟩

theorem color_cases {n tag : Nat} {d : Bool} {a : Nat} {v : α} {x : Tr α} {c : Ctx α} (hb : BH n (nd d a tag v x .nil))
    (hc : CBH n c) (hn : NR (nd d a tag v x .nil)) :
    ∃ k, BH k x ∧ NR x ∧ (tag = RED ∧ CBH k c ∧ x.red = false ∨ tag = BLACK ∧ CBH (k + 1) c) := by
  rw [nr_nd] at hn
  by_cases ht : tag = RED
  · subst ht
    rw [bh_red] at hb
    exact ⟨n, hb.1, hn.2.1, .inl ⟨rfl, hc, (hn.1 rfl).1⟩⟩
  · have hbt : tag = BLACK := by
      cases d
      · simp only [nd, cond_false, BH, if_neg ht] at hb
        exact hb.1
      · simp only [nd, cond_true, BH, if_neg ht] at hb
        exact hb.1
    subst hbt
    rw [bh_black] at hb
    obtain ⟨k, rfl, hk, -⟩ := hb
    exact ⟨k, hk, hn.2.1, .inr ⟨rfl, hc⟩⟩

/-- `rb_erase` takes the node out and leaves a red-black tree. -/
theorem erase_spec (fuel : Nat) (m : Mem α) (a tag : Nat) (v : α) (l r : Tr α) (c : Ctx α)
    (h : At m (.node a tag v l r) c) (hrb : RBTree (zip (.node a tag v l r) c))
    (hf : (zip (.node a tag v l r) c).addrs.length < fuel) :
    ∃ m' T, erase fuel m a = some m' ∧ Tree m' T ∧ RBTree T ∧
      T.inorder = lefts c ++ l.inorder ++ r.inorder ++ rights c := by
  obtain ⟨n, b1, b2, b3, b4, -⟩ := unzip_rb hrb
  have hlen := (addrs_zip (.node a tag v l r) c).length_eq
  rw [List.length_append] at hlen
  have hcl := ctx_length_le c
  have hg : m.get a = some ⟨cptr c, l.ptr, r.ptr, tag, v⟩ := (show At m (nd false a tag v l r) c from h).get
  rw [erase, hg]
  simp only [Option.bind_eq_bind, Option.bind_some]
  have hlz : l.ptr = 0 ↔ l = .nil := (show At m l (⟨false, a, tag, v, r⟩ :: c) from At.up.2 h).ptr_zero
  have hrc : At m r (⟨true, a, tag, v, l⟩ :: c) := At.up.2 (show At m (nd true a tag v r l) c from h)
  have hrz : r.ptr = 0 ↔ r = .nil := hrc.ptr_zero
  by_cases hl : l = .nil
  · subst hl
    rw [if_neg (by simp [Tr.ptr]), if_pos (show Tr.ptr (.nil : Tr α) = 0 from rfl)]
    obtain ⟨m1, s1, a1, -⟩ := unlink_spec (show At m (nd true a tag v r .nil) c from h)
    rw [s1]
    simp only [Option.bind_some]
    obtain ⟨k, k1, k2, k3⟩ := color_cases (show BH n (nd true a tag v r .nil) from b1) b2 b3
    obtain ⟨m', T, e1, e2, e3, e4⟩ := erase_finish fuel m1 r c k tag (by omega) a1 k1 k2 k3 b4
    refine ⟨m', T, e1, e2, e3, e4.trans ?_⟩
    rw [inorder_zip]
    simp [Tr.inorder]
  · by_cases hr : r = .nil
    · subst hr
      rw [if_neg (by simp [Tr.ptr]), if_neg (fun e => hl (hlz.1 e))]
      obtain ⟨m1, s1, a1, -⟩ := unlink_spec (show At m (nd false a tag v l .nil) c from h)
      rw [s1]
      simp only [Option.bind_some]
      obtain ⟨k, k1, k2, k3⟩ := color_cases (show BH n (nd false a tag v l .nil) from b1) b2 b3
      obtain ⟨m', T, e1, e2, e3, e4⟩ := erase_finish fuel m1 l c k tag (by omega) a1 k1 k2 k3 b4
      refine ⟨m', T, e1, e2, e3, e4.trans ?_⟩
      rw [inorder_zip]
      simp [Tr.inorder]
    · rw [if_pos ⟨fun e => hl (hlz.1 e), fun e => hr (hrz.1 e)⟩]
      obtain ⟨p, b, bt, bv, br, e1, e2, e3, e4, e5⟩ := leftmost_spec hrc hr
      have hrlen : r.addrs.length < fuel := by
        simp only [Tr.addrs, List.length_cons, List.length_append] at hlen
        omega
      rw [e5 fuel (by omega)]
      simp only [Option.bind_some]
      have e3' : At m (nd true b bt bv br .nil) (p ++ ⟨true, a, tag, v, l⟩ :: c) := e3
      have hgb := e3'.get
      rw [hgb]
      simp only [Option.bind_some, parent_mkCell, tag_mkCell]
      rw [show (mkCell true (cptr (p ++ ⟨true, a, tag, v, l⟩ :: c)) br.ptr (Tr.ptr (.nil : Tr α)) bt bv).right = br.ptr from rfl]
      obtain ⟨m1, s1, a1, f1⟩ := unlink_spec e3'
      rw [s1]
      simp only [Option.bind_some]
      have hbfresh : b ∉ br.addrs ++ caddrs (p ++ ⟨true, a, tag, v, l⟩ :: c) := by
        have := e3.nodup
        simp only [Tr.addrs, List.nil_append, List.cons_append, List.nodup_cons] at this
        exact this.1
      have hb0 : b ≠ 0 := e3'.ne_zero
      have hb1 : m1.heap b = some (mkCell true (cptr (p ++ ⟨true, a, tag, v, l⟩ :: c)) br.ptr (Tr.ptr (.nil : Tr α)) bt bv) := by
        rw [f1 b hbfresh]
        rw [Mem.get, if_neg hb0] at hgb
        exact hgb
      rw [get_eq hb1 hb0]
      simp only [Option.bind_some, parent_mkCell]
      -- the tree without the successor
      have a2 : At m1 (.node a tag v l (zip br p)) c := by
        have : Tree m1 (zip (.node a tag v l (zip br p)) c) := by
          have := at_zip.1 a1
          rw [zip_append] at this
          exact this
        exact at_zip.2 this
      have hfresh2 : b ∉ (Tr.node a tag v l (zip br p)).addrs ++ caddrs c := by
        intro hm
        apply hbfresh
        have pz := addrs_zip br p
        have pc := caddrs_append p (⟨true, a, tag, v, l⟩ :: c)
        simp only [Tr.addrs, List.cons_append, List.mem_cons, List.mem_append] at hm
        rw [List.mem_append, pc.mem_iff, List.mem_append]
        simp only [caddrs, List.mem_cons, List.mem_append]
        rcases hm with h | ((h | h) | h)
        · tauto
        · tauto
        · rw [pz.mem_iff, List.mem_append] at h
          tauto
        · tauto
      obtain ⟨m3, s3, a3⟩ := takePlace_spec a2 hl hb0 hb1 hfresh2
      rw [s3]
      simp only [Option.bind_some]
      rw [data_mkCell] at a3
      have a4 : At m3 br (p ++ ⟨true, b, tag, bv, l⟩ :: c) := by
        apply at_zip.2
        rw [zip_append]
        exact (at_zip (t := .node b tag bv l (zip br p))).1 a3
      -- the variable parent
      have hpar : (if cptr (p ++ ⟨true, a, tag, v, l⟩ :: c) = a then b else cptr (p ++ ⟨true, a, tag, v, l⟩ :: c)) =
          cptr (p ++ ⟨true, b, tag, bv, l⟩ :: c) := by
        cases p with
        | nil => exact if_pos rfl
        | cons f p =>
          have : f.a ≠ a := by
            intro e
            have := e3.nodup
            rw [List.nodup_append'] at this
            have := this.2.1
            simp only [List.cons_append, caddrs, List.nodup_cons, List.mem_append, not_or] at this
            have hm := (caddrs_append p (⟨true, a, tag, v, l⟩ :: c)).mem_iff (a := f.a)
            exact this.1.2 (hm.2 (by simp [caddrs, e]))
          exact if_neg this
      rw [hpar]
      have hz : zip (.node a tag v l r) c = zip (nd true b bt bv br .nil) (p ++ ⟨true, a, tag, v, l⟩ :: c) := by
        rw [zip_append, e1]
        rfl
      rw [hz] at hrb
      obtain ⟨n', b1', b2', b3', b4', -⟩ := unzip_rb hrb
      obtain ⟨k, k1, k2, k3⟩ := color_cases b1' b2' b3'
      have k3' : bt = RED ∧ CBH k (p ++ ⟨true, b, tag, bv, l⟩ :: c) ∧ br.red = false ∨
          bt = BLACK ∧ CBH (k + 1) (p ++ ⟨true, b, tag, bv, l⟩ :: c) := by
        rcases k3 with ⟨q1, q2, q3⟩ | ⟨q1, q2⟩
        · exact .inl ⟨q1, cbh_replace q2, q3⟩
        · exact .inr ⟨q1, cbh_replace q2⟩
      obtain ⟨m', T, w1, w2, w3, w4⟩ := erase_finish fuel m3 br (p ++ ⟨true, b, tag, bv, l⟩ :: c) k bt
        (by
          simp only [Tr.addrs, List.length_cons, List.length_append] at hlen ⊢
          omega) a4 k1 k2 k3' (cnr_replace b4')
      refine ⟨m', T, w1, w2, w3, w4.trans ?_⟩
      rw [zip_append, inorder_zip]
      simp only [lefts, rights, cond_true, List.nil_append, inorder_zip, Tr.inorder, lefts_leftPath e2, e1]
      simp

end Verif.Trees
