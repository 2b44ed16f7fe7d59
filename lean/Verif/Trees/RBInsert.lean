import Verif.Trees.Rotate
/-!
# Red-black trees: insertion
-/
namespace Verif.Trees

variable {α : Type}

/-! ## Specification: red-black trees -/

def Tr.red : Tr α → Bool
  | .nil => false
  | .node _ tag _ _ _ => tag == RED

/-- Every path from the root to a null pointer has `n` black nodes. -/
def BH : Nat → Tr α → Prop
  | n, .nil => n = 0
  | n, .node _ tag _ l r => if tag = RED then BH n l ∧ BH n r else tag = BLACK ∧ ∃ k, n = k + 1 ∧ BH k l ∧ BH k r

/-- No red node has a red child. -/
def NR : Tr α → Prop
  | .nil => True
  | .node _ tag _ l r => (tag = RED → l.red = false ∧ r.red = false) ∧ NR l ∧ NR r

/-- A red-black tree. -/
def RBTree (t : Tr α) : Prop := (∃ n, BH n t) ∧ NR t ∧ t.red = false

/-! ## The same for paths -/

def CBH : Nat → Ctx α → Prop
  | _, [] => True
  | n, f :: c => BH n f.sib ∧ if f.tag = RED then CBH n c else f.tag = BLACK ∧ CBH (n + 1) c

/-- The node at the end of the path exists and is black. -/
def headBlack : Ctx α → Prop
  | [] => False
  | f :: _ => f.tag = BLACK

def CNR : Ctx α → Prop
  | [] => True
  | f :: c => NR f.sib ∧ (f.tag = RED → f.sib.red = false ∧ headBlack c) ∧ CNR c

@[simp] theorem red_nd (d : Bool) (a tag : Nat) (v : α) (x y : Tr α) : (nd d a tag v x y).red = (tag == RED) := by
  cases d <;> rfl

theorem bh_red (n : Nat) (d : Bool) (a : Nat) (v : α) (x y : Tr α) : BH n (nd d a RED v x y) ↔ BH n x ∧ BH n y := by
  cases d
  · simp [nd, BH]
  · simp [nd, BH, and_comm]

theorem bh_black (n : Nat) (d : Bool) (a : Nat) (v : α) (x y : Tr α) :
    BH n (nd d a BLACK v x y) ↔ ∃ k, n = k + 1 ∧ BH k x ∧ BH k y := by
  cases d
  · simp [nd, BH]
  · simp only [nd, BH, cond_true]
    simp [and_comm]

theorem nr_nd (d : Bool) (a tag : Nat) (v : α) (x y : Tr α) :
    NR (nd d a tag v x y) ↔ (tag = RED → x.red = false ∧ y.red = false) ∧ NR x ∧ NR y := by
  cases d
  · rfl
  · simp only [nd, cond_true, NR]
    rw [and_comm (a := NR y), and_comm (a := y.red = false)]

theorem zip_bh {n : Nat} {t : Tr α} {c : Ctx α} (h : BH n t) (hc : CBH n c) : ∃ k, BH k (zip t c) := by
  induction c generalizing n t with
  | nil => exact ⟨n, h⟩
  | cons f c ih =>
    obtain ⟨h1, h2⟩ := hc
    by_cases hf : f.tag = RED
    · rw [if_pos hf] at h2
      exact ih (n := n) (by rw [hf]; exact (bh_red _ _ _ _ _ _).2 ⟨h, h1⟩) h2
    · rw [if_neg hf] at h2
      exact ih (n := n + 1) (by rw [h2.1]; exact (bh_black _ _ _ _ _ _).2 ⟨n, rfl, h, h1⟩) h2.2

theorem zip_nr {t : Tr α} {c : Ctx α} (h : NR t) (hr : t.red = true → c = [] ∨ headBlack c) (hc : CNR c) :
    NR (zip t c) := by
  induction c generalizing t with
  | nil => exact h
  | cons f c ih =>
    obtain ⟨h1, h2, h3⟩ := hc
    apply ih _ _ h3
    · rw [nr_nd]
      refine ⟨fun hf => ⟨?_, (h2 hf).1⟩, h, h1⟩
      cases htr : t.red with
      | false => rfl
      | true =>
        rcases hr htr with h | h
        · simp at h
        · simp only [headBlack] at h
          rw [h] at hf
          simp at hf
    · intro hf
      rw [red_nd] at hf
      exact .inr (h2 (by simpa using hf)).2

theorem zip_red {t : Tr α} {c : Ctx α} (hc : CNR c) (h : c = [] → t.red = false) : (zip t c).red = false := by
  induction c generalizing t with
  | nil => exact h rfl
  | cons f c ih =>
    apply ih hc.2.2
    intro e
    rw [red_nd]
    by_contra hf
    have := (hc.2.1 (by simpa using hf)).2
    rw [e] at this
    exact this

theorem zip_congr {t t' : Tr α} {c : Ctx α} (h : t.inorder = t'.inorder) : (zip t c).inorder = (zip t' c).inorder := by
  rw [inorder_zip, inorder_zip, h]

theorem inorder_rotate (d : Bool) (a t b t' : Nat) (v v' : α) (x y z : Tr α) :
    (nd d b t' v' (nd d a t v x y) z).inorder = (nd d a t v x (nd d b t' v' y z)).inorder := by
  cases d <;> simp [inorder_nd]

theorem inorder_tag (d : Bool) (a t t' : Nat) (v : α) (x y : Tr α) :
    (nd d a t v x y).inorder = (nd d a t' v x y).inorder := by
  cases d <;> rfl

/-! ## One step of the loop, by side -/

def straightenD (d : Bool) (m : Mem α) (parent node : Nat) : Option (Mem α × Nat × Nat) := do
  if (← m.get parent).kid (!d) = node then (rotate d m parent).map fun m => (m, node, parent)
  else some (m, parent, node)

def stepD (k : Mem α → Nat → Option (Mem α)) (m : Mem α) (parent gparent node : Nat) (d : Bool) :
    Option (Mem α) := do
  let uncle := (← m.get gparent).kid (!d)
  let red ← nonNullRed m uncle
  if red then
    let m ← m.setTag uncle BLACK
    let m ← m.setTag parent BLACK
    let m ← m.setTag gparent RED
    k m gparent
  else
    let (m, parent, node) ← straightenD d m parent node
    let m ← m.setTag parent BLACK
    let m ← m.setTag gparent RED
    let m ← rotate (!d) m gparent
    k m node

theorem rebalanceLoop_succ (fuel : Nat) (m : Mem α) (node : Nat) :
    rebalanceLoop (fuel + 1) m node = (do
      let parent := (← m.get node).parent
      if parent = 0 then some m
      else if (← m.get parent).tag ≠ RED then some m
      else
        let gparent := (← m.get parent).parent
        if parent = (← m.get gparent).left then stepD (rebalanceLoop fuel) m parent gparent node false
        else stepD (rebalanceLoop fuel) m parent gparent node true) := rfl

/-! ## Symbolic execution -/

theorem At.kids_ne {m : Mem α} {d : Bool} {a tag : Nat} {v : α} {x y : Tr α} {c : Ctx α}
    (h : At m (nd d a tag v x y) c) (hx : x ≠ .nil) : y.ptr ≠ x.ptr := by
  intro e
  have hnd := ((perm_addrs_nd d a tag v x y).append_right _).nodup_iff.1 h.nodup
  have hx' := ptr_mem hx
  by_cases hy : y = .nil
  · rw [hy] at e
    rw [← e] at hx'
    apply h.nonnull
    rw [List.mem_append, (perm_addrs_nd d a tag v x y).mem_iff]
    simp [Tr.ptr] at hx' ⊢
    tauto
  · have hy' := ptr_mem hy
    rw [e] at hy'
    simp only [List.cons_append, List.nodup_cons, List.append_assoc] at hnd
    rw [List.nodup_append'] at hnd
    exact hnd.2.2.2 hx' (List.mem_append_left _ hy')

theorem branch {β : Type} (d : Bool) (p x y tag : Nat) (v : α) (h : y ≠ x) (f : Bool → β) :
    (if x = (mkCell d p x y tag v).left then f false else f true) = f d := by
  cases d
  · exact if_pos rfl
  · exact if_neg (fun e => h e.symm)

theorem nonNullRed_spec {m : Mem α} {t : Tr α} {c : Ctx α} (h : At m t c) : nonNullRed m t.ptr = some t.red := by
  rcases Tr.split false t with rfl | ⟨a, tag, v, x, y, rfl⟩
  · rfl
  · rw [nonNullRed, ptr_nd, if_neg h.ne_zero, h.get]
    simp

theorem nullOrBlack_spec {m : Mem α} {t : Tr α} {c : Ctx α} (h : At m t c) (n : Nat) (hb : BH n t) :
    nullOrBlack m t.ptr = some (!t.red) := by
  rcases Tr.split false t with rfl | ⟨a, tag, v, x, y, rfl⟩
  · rfl
  · rw [nullOrBlack, ptr_nd, if_neg h.ne_zero, h.get]
    simp only [Option.map_some, tag_mkCell, red_nd, Option.some.injEq]
    by_cases ht : tag = RED
    · rw [ht]; rfl
    · simp only [nd, cond_false, BH, if_neg ht] at hb
      rw [hb.1]; rfl

/-- The loop of `rb_rebalance`, when memory holds a tree in which only the red node in focus may have a red parent. -/
theorem rebalanceLoop_spec (fuel : Nat) (m : Mem α) (e : Bool) (a : Nat) (v : α) (x y : Tr α) (c : Ctx α) (n : Nat)
    (hf : c.length < fuel) (h : At m (nd e a RED v x y) c) (hx : x.red = false) (hy : y.red = false) (nx : NR x)
    (ny : NR y) (bx : BH n x) (by_ : BH n y) (hc : CBH n c) (hn : CNR c) :
    ∃ m' T, rebalanceLoop fuel m a = some m' ∧ Tree m' T ∧ T.inorder = (zip (nd e a RED v x y) c).inorder ∧
      (∃ k, BH k T) ∧ NR T := by
  have nt : NR (nd e a RED v x y) := (nr_nd _ _ _ _ _ _).2 ⟨fun _ => ⟨hx, hy⟩, nx, ny⟩
  have bt : BH n (nd e a RED v x y) := (bh_red _ _ _ _ _ _).2 ⟨bx, by_⟩
  induction fuel using Nat.strongRecOn generalizing m e a v x y c n with
  | _ fuel ih =>
  obtain ⟨fuel, rfl⟩ : ∃ k, fuel = k + 1 := ⟨fuel - 1, by omega⟩
  rw [rebalanceLoop_succ, h.get]
  simp only [Option.bind_eq_bind, Option.bind_some, parent_mkCell]
  cases c with
  | nil =>
    rw [if_pos (show cptr ([] : Ctx α) = 0 from rfl)]
    exact ⟨m, _, rfl, h, rfl, ⟨n, bt⟩, nt⟩
  | cons f c =>
    obtain ⟨fd, fa, ft, fv, fs⟩ := f
    have hp := At.up.1 h
    rw [show cptr ((⟨fd, fa, ft, fv, fs⟩ : Frame α) :: c) = fa from rfl, if_neg hp.ne_zero, hp.get]
    simp only [Option.bind_some, tag_mkCell, parent_mkCell]
    by_cases hft : ft = RED
    · subst hft
      rw [if_neg (by simp)]
      obtain ⟨hn1, hn2, hn3⟩ := hn
      obtain ⟨hn4, hn5⟩ := hn2 rfl
      obtain ⟨hb1, hb2⟩ := hc
      rw [if_pos rfl] at hb2
      cases c with
      | nil => exact hn5.elim
      | cons g k =>
        obtain ⟨gd, ga, gt, gv, u⟩ := g
        simp only [headBlack] at hn5
        subst hn5
        obtain ⟨hb3, hb4⟩ := hb2
        rw [if_neg (by simp)] at hb4
        obtain ⟨hn6, -, hn7⟩ := hn3
        have hg := At.up.1 hp
        have hne : u.ptr ≠ fa := by
          have := hg.kids_ne (by cases fd <;> simp [nd])
          rwa [ptr_nd] at this
        rw [show cptr ((⟨gd, ga, BLACK, gv, u⟩ : Frame α) :: k) = ga from rfl, hg.get]
        simp only [Option.bind_some]
        rw [ptr_nd, branch gd _ _ _ _ _ hne (stepD (rebalanceLoop fuel) m fa ga a)]
        rw [stepD, hg.get]
        simp only [Option.bind_eq_bind, Option.bind_some, kid_not_mkCell]
        have hu : At m u (⟨!gd, ga, BLACK, gv, nd fd fa RED fv (nd e a RED v x y) fs⟩ :: k) := At.across.1 hp
        rw [nonNullRed_spec hu]
        simp only [Option.bind_some]
        cases hur : u.red with
        | true =>
          rw [if_pos rfl]
          obtain rfl | ⟨ua, ut, uv, ux, uy, rfl⟩ := Tr.split false u
          · simp [Tr.red] at hur
          rw [red_nd] at hur
          obtain rfl : ut = RED := by simpa using hur
          obtain ⟨m1, s1, h1⟩ := hu.setTag BLACK
          rw [ptr_nd, s1]
          simp only [Option.bind_some]
          have h1' := At.across.1 h1
          rw [Bool.not_not] at h1'
          obtain ⟨m2, s2, h2⟩ := h1'.setTag BLACK
          rw [s2]
          simp only [Option.bind_some]
          obtain ⟨m3, s3, h3⟩ := (At.up.1 h2).setTag RED
          rw [s3]
          simp only [Option.bind_some]
          rw [nr_nd] at hn6
          rw [bh_red] at hb3
          have b1 : BH (n + 1) (nd fd fa BLACK fv (nd e a RED v x y) fs) := (bh_black _ _ _ _ _ _).2 ⟨n, rfl, bt, hb1⟩
          have b2 : BH (n + 1) (nd false ua BLACK uv ux uy) := (bh_black _ _ _ _ _ _).2 ⟨n, rfl, hb3.1, hb3.2⟩
          have n1 : NR (nd fd fa BLACK fv (nd e a RED v x y) fs) := (nr_nd _ _ _ _ _ _).2 ⟨by simp, nt, hn1⟩
          have n2 : NR (nd false ua BLACK uv ux uy) := (nr_nd _ _ _ _ _ _).2 ⟨by simp, hn6.2⟩
          obtain ⟨m', T, r1, r2, r3, r4, r5⟩ := ih fuel (by omega) m3 gd ga gv _ _ k (n + 1)
            (by simp only [List.length_cons] at hf; omega) h3 (by simp) (by simp) n1 n2 b1 b2 hb4.2 hn7
            ((nr_nd _ _ _ _ _ _).2 ⟨fun _ => ⟨by simp, by simp⟩, n1, n2⟩) ((bh_red _ _ _ _ _ _).2 ⟨b1, b2⟩)
          refine ⟨m', T, r1, r2, r3.trans ?_, r4, r5⟩
          simp only [zip]
          apply zip_congr
          cases gd <;> cases fd <;> simp [inorder_nd]
        | false =>
          rw [if_neg (by simp)]
          -- after straightening, `pa` is the red child of the grandparent and `na` its red child on the same side
          obtain ⟨m1, pa, pv, z, N, na, s1, h1, bz, nz, rz, bN, nN, eN, hin⟩ : ∃ m1 pa pv z N na,
              straightenD gd m fa a = some (m1, pa, na) ∧
              At m1 (nd gd pa RED pv N z) (⟨gd, ga, BLACK, gv, u⟩ :: k) ∧ BH n z ∧ NR z ∧ z.red = false ∧ BH n N ∧ NR N ∧
              (∃ nv p q, N = nd gd na RED nv p q) ∧
              (nd gd pa RED pv N z).inorder = (nd fd fa RED fv (nd e a RED v x y) fs).inorder := by
            rw [straightenD, hp.get]
            simp only [Option.bind_eq_bind, Option.bind_some]
            by_cases hd : fd = gd
            · subst hd
              rw [kid_not_mkCell, if_neg]
              · refine ⟨m, fa, fv, fs, _, a, rfl, hp, hb1, hn1, hn4, bt, nt, ?_, rfl⟩
                cases e <;> cases fd
                · exact ⟨v, x, y, rfl⟩
                · exact ⟨v, y, x, rfl⟩
                · exact ⟨v, y, x, rfl⟩
                · exact ⟨v, x, y, rfl⟩
              · have := hp.kids_ne (by cases e <;> simp [nd])
                rwa [ptr_nd] at this
            · have hd' : fd = !gd := by
                revert hd
                cases fd <;> cases gd <;> simp
              subst hd'
              rw [kid_mkCell, ptr_nd, if_pos rfl]
              rw [nd_not] at hp
              -- children of the node by side
              obtain ⟨p, q, hpq, bp, bq, np, nq, rp, rq⟩ : ∃ p q, nd e a RED v x y = nd gd a RED v p q ∧ BH n p ∧ BH n q ∧
                  NR p ∧ NR q ∧ p.red = false ∧ q.red = false := by
                by_cases hee : e = gd
                · subst hee
                  exact ⟨x, y, rfl, bx, by_, nx, ny, hx, hy⟩
                · have : e = !gd := by
                    revert hee
                    cases e <;> cases gd <;> simp
                  subst this
                  exact ⟨y, x, nd_not _ _ _ _ _ _, by_, bx, ny, nx, hy, hx⟩
              rw [hpq] at hp ⊢
              obtain ⟨m1, s1, h1⟩ := hp.rotate
              rw [s1]
              refine ⟨m1, a, v, q, nd gd fa RED fv fs p, fa, rfl, h1, bq, nq, rq, ?_, ?_, ⟨_, _, _, rfl⟩, ?_⟩
              · exact (bh_red _ _ _ _ _ _).2 ⟨hb1, bp⟩
              · exact (nr_nd _ _ _ _ _ _).2 ⟨fun _ => ⟨hn4, rp⟩, hn1, np⟩
              · rw [inorder_rotate, nd_not]
          rw [s1]
          simp only [Option.bind_some]
          obtain ⟨m2, s2, h2⟩ := h1.setTag BLACK
          rw [s2]
          simp only [Option.bind_some]
          obtain ⟨m3, s3, h3⟩ := (At.up.1 h2).setTag RED
          rw [s3]
          simp only [Option.bind_some]
          rw [← nd_not, ← nd_not gd pa] at h3
          obtain ⟨m4, s4, h4⟩ := h3.rotate
          rw [s4]
          simp only [Option.bind_some]
          obtain ⟨nv, p, q, rfl⟩ := eN
          -- the next iteration ends
          obtain ⟨fuel, rfl⟩ : ∃ k, fuel = k + 1 := ⟨fuel - 1, by simp only [List.length_cons] at hf; omega⟩
          rw [nd_not] at h4
          have h5 := At.up.2 h4
          have e1 : rebalanceLoop (fuel + 1) m4 na = some m4 := by
            rw [rebalanceLoop_succ, h5.get]
            simp only [Option.bind_eq_bind, Option.bind_some, parent_mkCell]
            rw [show cptr ((⟨gd, pa, BLACK, pv, nd (!gd) ga RED gv u z⟩ : Frame α) :: k) = pa from rfl,
              if_neg h4.ne_zero, h4.get]
            simp
          refine ⟨m4, _, e1, at_zip.1 h4, ?_, ?_, ?_⟩
          · simp only [zip]
            apply zip_congr
            cases gd
            · simp only [nd, Bool.not_false, cond_true, cond_false, Tr.inorder] at hin ⊢
              rw [← hin]
              simp
            · simp only [nd, Bool.not_true, cond_true, cond_false, Tr.inorder] at hin ⊢
              rw [← hin]
              simp
          · refine zip_bh (n := n + 1) ?_ hb4.2
            rw [bh_black]
            exact ⟨n, rfl, bN, (bh_red _ _ _ _ _ _).2 ⟨hb3, bz⟩⟩
          · refine zip_nr ?_ (by simp) hn7
            rw [nr_nd]
            exact ⟨by simp, nN, (nr_nd _ _ _ _ _ _).2 ⟨fun _ => ⟨hur, rz⟩, hn6, nz⟩⟩
    · rw [if_pos hft]
      refine ⟨m, _, rfl, at_zip.1 h, rfl, zip_bh bt hc, zip_nr nt ?_ hn⟩
      intro _
      right
      have := hc.2
      rw [if_neg hft] at this
      exact this.1

end Verif.Trees
