import Verif.Trees.RBInsert
/-!
# Red-black trees: removal
-/
namespace Verif.Trees

variable {α : Type}

/-! ## Red-black trees with a path -/

theorem unzip_rb {t : Tr α} {c : Ctx α} (h : RBTree (zip t c)) :
    ∃ n, BH n t ∧ CBH n c ∧ NR t ∧ CNR c ∧ (t.red = true → headBlack c) := by
  induction c generalizing t with
  | nil =>
    obtain ⟨⟨n, h1⟩, h2, h3⟩ := h
    refine ⟨n, h1, trivial, h2, trivial, ?_⟩
    intro hr
    simp only [zip] at h3
    rw [h3] at hr
    simp at hr
  | cons f c ih =>
    obtain ⟨fd, fa, ft, fv, fs⟩ := f
    obtain ⟨n, h1, h2, h3, h4, h5⟩ := ih h
    rw [nr_nd] at h3
    rw [red_nd] at h5
    by_cases hf : ft = RED
    · subst hf
      rw [bh_red] at h1
      refine ⟨n, h1.1, ⟨h1.2, by rw [if_pos rfl]; exact h2⟩, h3.2.1, ⟨h3.2.2, fun _ => ⟨(h3.1 rfl).2, h5 rfl⟩, h4⟩, ?_⟩
      intro hr
      rw [(h3.1 rfl).1] at hr
      simp at hr
    · have hb : ft = BLACK := by
        cases fd
        · simp only [nd, cond_false, BH, if_neg hf] at h1
          exact h1.1
        · simp only [nd, cond_true, BH, if_neg hf] at h1
          exact h1.1
      subst hb
      rw [bh_black] at h1
      obtain ⟨k, rfl, h6, h7⟩ := h1
      exact ⟨k, h6, ⟨h7, by rw [if_neg (by simp)]; exact ⟨rfl, h2⟩⟩, h3.2.1, ⟨h3.2.2, by simp, h4⟩, fun _ => rfl⟩

theorem zip_rb {n : Nat} {t : Tr α} {c : Ctx α} (h1 : BH n t) (h2 : CBH n c) (h3 : NR t) (h4 : CNR c)
    (h5 : t.red = true → headBlack c) : RBTree (zip t c) := by
  refine ⟨zip_bh h1 h2, zip_nr h3 (fun h => .inr (h5 h)) h4, zip_red h4 ?_⟩
  intro e
  cases hr : t.red with
  | false => rfl
  | true =>
    have := h5 hr
    rw [e] at this
    exact this.elim

/-- A tree with its root made black. -/
def Tr.blacken : Tr α → Tr α
  | .nil => .nil
  | .node a _ v l r => .node a BLACK v l r

@[simp] theorem blacken_nd (d : Bool) (a tag : Nat) (v : α) (x y : Tr α) :
    (nd d a tag v x y).blacken = nd d a BLACK v x y := by cases d <;> rfl

theorem blacken_red (t : Tr α) : t.blacken.red = false := by cases t <;> simp [Tr.blacken, Tr.red]

theorem inorder_blacken (t : Tr α) : t.blacken.inorder = t.inorder := by cases t <;> simp [Tr.blacken, Tr.inorder]

theorem nr_blacken {t : Tr α} (h : NR t) : NR t.blacken := by
  cases t with
  | nil => trivial
  | node a tag v l r => exact ⟨by simp, h.2⟩

theorem blacken_of_black {n : Nat} {t : Tr α} (h : BH n t) (hr : t.red = false) : t.blacken = t := by
  cases t with
  | nil => rfl
  | node a tag v l r =>
    simp only [Tr.red, beq_eq_false_iff_ne] at hr
    simp only [BH, if_neg hr] at h
    rw [Tr.blacken, h.1]

theorem bh_blacken_red {n : Nat} {t : Tr α} (h : BH n t) (hr : t.red = true) : BH (n + 1) t.blacken := by
  cases t with
  | nil => simp [Tr.red] at hr
  | node a tag v l r =>
    simp only [Tr.red, beq_iff_eq] at hr
    simp only [BH, if_pos hr] at h
    exact (bh_black (n + 1) false a v l r).2 ⟨n, rfl, h⟩

theorem bh_blacken {n : Nat} {t : Tr α} (h : BH n t) : ∃ k, BH k t.blacken := by
  cases hr : t.red with
  | true => exact ⟨n + 1, bh_blacken_red h hr⟩
  | false => exact ⟨n, by rw [blacken_of_black h hr]; exact h⟩

theorem At.blacken {m : Mem α} {t : Tr α} {c : Ctx α} (h : At m t c) :
    ∃ m', m.setTagIf t.ptr BLACK = some m' ∧ At m' t.blacken c := by
  rcases Tr.split false t with rfl | ⟨a, tag, v, x, y, rfl⟩
  · exact ⟨m, rfl, h⟩
  · obtain ⟨m', s, h'⟩ := h.setTag BLACK
    refine ⟨m', ?_, by simpa using h'⟩
    rw [Mem.setTagIf, ptr_nd, if_pos h.ne_zero, s]

/-! ## The loop by side -/

def liftRedD (d : Bool) (m : Mem α) (parent other : Nat) : Option (Mem α × Nat) := do
  if (← m.get other).tag = RED then
    let m ← m.setTag other BLACK
    let m ← m.setTag parent RED
    let m ← rotate d m parent
    pure (m, (← m.get parent).kid (!d))
  else some (m, other)

def liftInnerD (d : Bool) (m : Mem α) (parent other : Nat) : Option (Mem α × Nat) := do
  if ← nullOrBlack m ((← m.get other).kid (!d)) then
    let m ← m.setTagIf ((← m.get other).kid d) BLACK
    let m ← m.setTag other RED
    let m ← rotate (!d) m other
    pure (m, (← m.get parent).kid (!d))
  else some (m, other)

def finishD (d : Bool) (m : Mem α) (parent other : Nat) : Option (Mem α × Nat) := do
  let (m, other) ← liftInnerD d m parent other
  let m ← m.setTag other (← m.get parent).tag
  let m ← m.setTag parent BLACK
  let m ← m.setTagIf ((← m.get other).kid (!d)) BLACK
  let m ← rotate d m parent
  some (m, m.root)

def eStepD (k : Mem α → Nat → Nat → Option (Mem α × Nat)) (m : Mem α) (parent : Nat) (d : Bool) :
    Option (Mem α × Nat) := do
  let (m, other) ← liftRedD d m parent ((← m.get parent).kid (!d))
  if ← bothBlack m other then
    let m ← m.setTag other RED
    k m parent (← m.get parent).parent
  else finishD d m parent other

theorem eraseLoop_succ (fuel : Nat) (m : Mem α) (child parent : Nat) :
    eraseLoop (fuel + 1) m child parent = (do
      if !(← nullOrBlack m child) || child == m.root then some (m, child)
      else if (← m.get parent).left = child then eStepD (eraseLoop fuel) m parent false
      else eStepD (eraseLoop fuel) m parent true) := rfl

/-- What is known of memory in the loop: the tree in the focus is one black node short of what the path needs. -/
structure Short (m : Mem α) (t : Tr α) (c : Ctx α) (n : Nat) : Prop where
  at_ : At m t c
  bh : BH n t
  cbh : CBH (n + 1) c
  nr : NR t.blacken
  cnr : CNR c

/-- What the loop leaves. -/
def Done (m : Mem α) (child : Nat) (ord : List (Nat × α)) : Prop :=
  ∃ t c, child = t.ptr ∧ At m t c ∧ RBTree (zip t.blacken c) ∧ (zip t.blacken c).inorder = ord

theorem At.root_mem {m : Mem α} {t : Tr α} {c : Ctx α} (h : At m t c) (hc : c ≠ []) : m.root ∈ caddrs c := by
  have key : ∀ (c : Ctx α) (hole : Nat), CRep m.heap m.root hole c → c ≠ [] → m.root ∈ caddrs c := by
    intro c
    induction c with
    | nil => intro _ _ h; exact absurd rfl h
    | cons f c ih =>
      intro hole hr _
      cases c with
      | nil =>
        have := hr.2.2
        simp only [CRep] at this
        simp [caddrs, this]
      | cons g c =>
        have := ih f.a hr.2.2 (by simp)
        simp only [caddrs, List.mem_cons, List.mem_append] at this ⊢
        tauto
  exact key c _ h.crep hc

theorem At.not_root {m : Mem α} {t : Tr α} {c : Ctx α} (h : At m t c) (hc : c ≠ []) : t.ptr ≠ m.root := by
  have hm := h.root_mem hc
  intro e
  rw [← e] at hm
  by_cases ht : t = .nil
  · rw [ht] at hm
    exact h.nonnull (List.mem_append_right _ hm)
  · have := h.nodup
    rw [List.nodup_append'] at this
    exact this.2.2 (ptr_mem ht) hm

theorem At.head_ne {m : Mem α} {t : Tr α} {f : Frame α} {c : Ctx α} (h : At m t (f :: c)) (hs : f.sib ≠ .nil) :
    f.sib.ptr ≠ t.ptr := by
  obtain ⟨fd, fa, ft, fv, fs⟩ := f
  have h1 := At.up.1 (At.across.1 h)
  exact Ne.symm (h1.kids_ne hs)

theorem branch' {β : Type} (d : Bool) (p x y tag : Nat) (v : α) (h : y ≠ x) (f : Bool → β) :
    (if (mkCell d p x y tag v).left = x then f false else f true) = f d := by
  cases d
  · exact if_pos rfl
  · exact if_neg h

theorem liftRed_spec {m : Mem α} {t : Tr α} {d : Bool} {p ft : Nat} {pv : α} {s : Tr α} {c : Ctx α} {n : Nat}
    (h : Short m t (⟨d, p, ft, pv, s⟩ :: c) n) :
    ∃ m1 ft' s' c', liftRedD d m p s.ptr = some (m1, s'.ptr) ∧ Short m1 t (⟨d, p, ft', pv, s'⟩ :: c') n ∧
      s'.red = false ∧ (ft' = RED ∨ c' = c) ∧
      (zip t (⟨d, p, ft', pv, s'⟩ :: c')).inorder = (zip t (⟨d, p, ft, pv, s⟩ :: c)).inorder := by
  obtain ⟨h1, h2, ⟨h3, h4⟩, h5, h6, h7, h8⟩ := h
  simp only at h3 h4 h6 h7
  obtain rfl | ⟨sa, st, sv, sx, sy, rfl⟩ := Tr.split d s
  · simp [BH] at h3
  have hs := At.across.1 h1
  rw [liftRedD, ptr_nd, hs.get]
  simp only [Option.bind_eq_bind, Option.bind_some, tag_mkCell]
  by_cases hst : st = RED
  · subst hst
    rw [if_pos rfl]
    have hft : ft ≠ RED := by
      intro e
      have := (h7 e).1
      rw [red_nd] at this
      simp at this
    rw [if_neg hft] at h4
    obtain ⟨rfl, h4⟩ := h4
    rw [bh_red] at h3
    rw [nr_nd] at h6
    obtain ⟨r1, r2⟩ := h6.1 rfl
    obtain ⟨m1, s1, a1⟩ := hs.setTag BLACK
    rw [s1]
    simp only [Option.bind_some]
    have a1' := At.across.1 a1
    rw [Bool.not_not] at a1'
    obtain ⟨m2, s2, a2⟩ := (At.up.1 a1').setTag RED
    rw [s2]
    simp only [Option.bind_some]
    obtain ⟨m3, s3, a3⟩ := a2.rotate
    rw [s3]
    simp only [Option.bind_some]
    have a4 := At.up.2 a3
    rw [a4.get]
    simp only [Option.bind_some, kid_not_mkCell]
    refine ⟨m3, RED, sx, _, rfl, ⟨At.up.2 a4, h2, ?_, h5, ?_⟩, r1, .inl rfl, ?_⟩
    · exact ⟨h3.1, by rw [if_pos rfl]; exact ⟨h3.2, by rw [if_neg (by simp)]; exact ⟨rfl, h4⟩⟩⟩
    · exact ⟨h6.2.1, fun _ => ⟨r1, rfl⟩, h6.2.2, by simp, h8⟩
    · simp only [zip]
      apply zip_congr
      rw [inorder_rotate]
      cases d <;> simp [inorder_nd]
  · rw [if_neg hst]
    refine ⟨m, ft, _, c, by rw [ptr_nd], ⟨h1, h2, ⟨h3, h4⟩, h5, h6, h7, h8⟩, ?_, .inr rfl, rfl⟩
    rw [red_nd]
    simpa using hst

theorem bothBlack_spec {m : Mem α} {d : Bool} {a tag : Nat} {v : α} {x y : Tr α} {c : Ctx α} {n : Nat}
    (h : At m (nd d a tag v x y) c) (hx : BH n x) (hy : BH n y) : bothBlack m a = some (!x.red && !y.red) := by
  have h1 := nullOrBlack_spec (At.up.2 h) n hx
  rw [← nd_not] at h
  have h2 := nullOrBlack_spec (At.up.2 h) n hy
  rw [nd_not] at h
  rw [bothBlack, h.get]
  cases d
  · simp only [mkCell, cond_false, Option.bind_eq_bind, Option.bind_some, h1, h2]
    rfl
  · simp only [mkCell, cond_true, Option.bind_eq_bind, Option.bind_some, h1, h2, Bool.and_comm]
    rfl

/-- After the inner rotation the outer child of the sibling is red. -/
theorem liftInner_spec {m : Mem α} {t : Tr α} {d : Bool} {p ft sa : Nat} {pv sv : α} {sx sy : Tr α} {c : Ctx α} {n : Nat}
    (h : At m t (⟨d, p, ft, pv, nd d sa BLACK sv sx sy⟩ :: c)) (bx : BH n sx) (by_ : BH n sy) (nx : NR sx) (ny : NR sy)
    (hr : (!sx.red && !sy.red) = false) :
    ∃ m1 oa ov ox oy, liftInnerD d m p sa = some (m1, oa) ∧
      At m1 t (⟨d, p, ft, pv, nd d oa BLACK ov ox oy⟩ :: c) ∧ BH n ox ∧ BH n oy ∧ NR ox ∧ NR oy ∧ oy.red = true ∧
      (nd d oa BLACK ov ox oy).inorder = (nd d sa BLACK sv sx sy).inorder := by
  have hs := At.across.1 h
  have hs' := hs
  rw [← nd_not] at hs'
  rw [liftInnerD, hs.get]
  simp only [Option.bind_eq_bind, Option.bind_some, kid_not_mkCell, kid_mkCell]
  rw [nullOrBlack_spec (At.up.2 hs') n by_]
  simp only [Option.bind_some]
  cases hy : sy.red with
  | true =>
    rw [if_neg (by simp)]
    exact ⟨m, sa, sv, sx, sy, rfl, h, bx, by_, nx, ny, hy, rfl⟩
  | false =>
    rw [if_pos (by rfl)]
    have hx : sx.red = true := by
      rw [hy] at hr
      simpa using hr
    obtain rfl | ⟨xa, xt, xv, q, r, rfl⟩ := Tr.split d sx
    · simp [Tr.red] at hx
    rw [red_nd] at hx
    obtain rfl : xt = RED := by simpa using hx
    rw [bh_red] at bx
    rw [nr_nd] at nx
    obtain ⟨m1, s1, a1⟩ := (At.up.2 hs).blacken
    rw [s1]
    simp only [Option.bind_some]
    rw [blacken_nd] at a1
    obtain ⟨m2, s2, a2⟩ := (At.up.1 a1).setTag RED
    rw [s2]
    simp only [Option.bind_some]
    rw [← nd_not, ← nd_not d xa] at a2
    obtain ⟨m3, s3, a3⟩ := a2.rotate
    rw [s3]
    simp only [Option.bind_some]
    rw [nd_not] at a3
    have a4 := At.up.1 a3
    rw [nd_not] at a4
    rw [a4.get]
    simp only [Option.bind_some, kid_not_mkCell, ptr_nd]
    refine ⟨m3, xa, xv, q, nd (!d) sa RED sv sy r, rfl, At.up.2 a4, bx.1, ?_, nx.2.1, ?_, by simp, ?_⟩
    · exact (bh_red _ _ _ _ _ _).2 ⟨by_, bx.2⟩
    · exact (nr_nd _ _ _ _ _ _).2 ⟨fun _ => ⟨hy, (nx.1 rfl).2⟩, ny, nx.2.2⟩
    · cases d <;> simp [inorder_nd]

theorem finish_spec {m : Mem α} {t : Tr α} {d : Bool} {p ft sa : Nat} {pv sv : α} {sx sy : Tr α} {c : Ctx α} {n : Nat}
    (h : Short m t (⟨d, p, ft, pv, nd d sa BLACK sv sx sy⟩ :: c) n) (ht : t.red = false)
    (hr : (!sx.red && !sy.red) = false) :
    ∃ m', finishD d m p sa = some (m', m'.root) ∧
      Done m' m'.root (zip t (⟨d, p, ft, pv, nd d sa BLACK sv sx sy⟩ :: c)).inorder := by
  obtain ⟨h1, h2, ⟨h3, h4⟩, h5, h6, h7, h8⟩ := h
  simp only at h3 h4 h6 h7
  rw [bh_black] at h3
  obtain ⟨k, hk, b1, b2⟩ := h3
  obtain rfl : n = k := by omega
  rw [nr_nd] at h6
  obtain ⟨m1, oa, ov, ox, oy, s1, a1, box, boy, nox, noy, hoy, hin⟩ := liftInner_spec h1 b1 b2 h6.2.1 h6.2.2 hr
  rw [finishD, s1]
  simp only [Option.bind_eq_bind, Option.bind_some]
  rw [(At.up.1 a1).get]
  simp only [Option.bind_some, tag_mkCell]
  obtain ⟨m2, s2, a2⟩ := (At.across.1 a1).setTag ft
  rw [s2]
  simp only [Option.bind_some]
  have a2' := At.across.1 a2
  rw [Bool.not_not] at a2'
  obtain ⟨m3, s3, a3⟩ := (At.up.1 a2').setTag BLACK
  rw [s3]
  simp only [Option.bind_some]
  have a4 := At.across.1 (At.up.2 a3)
  rw [a4.get]
  simp only [Option.bind_some, kid_not_mkCell]
  rw [← nd_not] at a4
  obtain ⟨m5, s5, a5⟩ := (At.up.2 a4).blacken
  rw [s5]
  simp only [Option.bind_some]
  have a6 := At.up.1 a5
  rw [nd_not] at a6
  have a7 := At.up.1 a6
  rw [nd_not] at a7
  obtain ⟨m8, s8, a8⟩ := a7.rotate
  rw [s8]
  simp only [Option.bind_some]
  rw [blacken_of_black h2 ht] at h5
  have bo : BH (n + 1) oy.blacken := bh_blacken_red boy hoy
  have bp : BH (n + 1) (nd d p BLACK pv t ox) := (bh_black _ _ _ _ _ _).2 ⟨n, rfl, h2, box⟩
  have np : NR (nd d p BLACK pv t ox) := (nr_nd _ _ _ _ _ _).2 ⟨by simp, h5, nox⟩
  have hb : ∃ k, BH k (nd d oa ft ov (nd d p BLACK pv t ox) oy.blacken) ∧ CBH k c := by
    by_cases hft : ft = RED
    · subst hft
      rw [if_pos rfl] at h4
      exact ⟨n + 1, (bh_red _ _ _ _ _ _).2 ⟨bp, bo⟩, h4⟩
    · rw [if_neg hft] at h4
      obtain ⟨rfl, h4⟩ := h4
      exact ⟨n + 2, (bh_black _ _ _ _ _ _).2 ⟨n + 1, rfl, bp, bo⟩, h4⟩
  obtain ⟨k, hb1, hb2⟩ := hb
  have hrb : RBTree (zip (nd d oa ft ov (nd d p BLACK pv t ox) oy.blacken) c) := by
    refine zip_rb hb1 hb2 ?_ h8 ?_
    · exact (nr_nd _ _ _ _ _ _).2 ⟨fun _ => ⟨by simp, blacken_red _⟩, np, nr_blacken noy⟩
    · intro hr
      rw [red_nd] at hr
      exact (h7 (by simpa using hr)).2
  have hroot := at_zip.1 a8
  refine ⟨m8, rfl, zip (nd d oa ft ov (nd d p BLACK pv t ox) oy.blacken) c, [], hroot.crep, hroot, ?_, ?_⟩
  · obtain ⟨⟨k, hk⟩, q2, q3⟩ := hrb
    simp only [zip]
    rw [blacken_of_black hk q3]
    exact ⟨⟨k, hk⟩, q2, q3⟩
  · obtain ⟨⟨k, hk⟩, q2, q3⟩ := hrb
    simp only [zip]
    rw [blacken_of_black hk q3]
    apply zip_congr
    have e := inorder_blacken oy
    cases d
    · simp only [nd, cond_false, Tr.inorder] at hin ⊢
      rw [← hin, e]
      simp
    · simp only [nd, cond_true, Tr.inorder] at hin ⊢
      rw [← hin, e]
      simp

theorem eraseLoop_spec (fuel : Nat) (m : Mem α) (t : Tr α) (c : Ctx α) (n : Nat)
    (hf : t.red = true ∧ 0 < fuel ∨ c.length < fuel) (h : Short m t c n) :
    ∃ m' child, eraseLoop fuel m t.ptr (cptr c) = some (m', child) ∧ Done m' child (zip t c).inorder := by
  induction fuel generalizing m t c n with
  | zero => omega
  | succ fuel ih =>
    rw [eraseLoop_succ, nullOrBlack_spec h.at_ n h.bh]
    simp only [Option.bind_eq_bind, Option.bind_some, Bool.not_not]
    cases hr : t.red with
    | true =>
      rw [if_pos (by simp)]
      refine ⟨m, _, rfl, t, c, rfl, h.at_, ?_, zip_congr (inorder_blacken t)⟩
      exact zip_rb (bh_blacken_red h.bh hr) h.cbh h.nr h.cnr (by rw [blacken_red]; simp)
    | false =>
      cases c with
      | nil =>
        have hroot : m.root = t.ptr := h.at_.crep
        rw [if_pos (by simp [hroot])]
        refine ⟨m, _, rfl, t, [], rfl, h.at_, ?_, inorder_blacken t⟩
        exact ⟨bh_blacken h.bh, h.nr, blacken_red t⟩
      | cons f c =>
        have hne := h.at_.not_root (by simp)
        rw [if_neg (by simp [hne])]
        obtain ⟨d, p, ft, pv, s⟩ := f
        have hs : s ≠ .nil := by
          rintro rfl
          have := h.cbh.1
          simp [BH] at this
        have hp := At.up.1 h.at_
        rw [show cptr ((⟨d, p, ft, pv, s⟩ : Frame α) :: c) = p from rfl, hp.get]
        simp only [Option.bind_some]
        rw [branch' d _ _ _ _ _ (h.at_.head_ne hs) (eStepD (eraseLoop fuel) m p)]
        rw [eStepD, hp.get]
        simp only [Option.bind_eq_bind, Option.bind_some, kid_not_mkCell]
        obtain ⟨m1, ft', s', c', s1, sh1, hs', hft', hin⟩ := liftRed_spec h
        rw [s1]
        simp only [Option.bind_some]
        obtain ⟨k1, k2, ⟨k3, k4⟩, k5, k6, k7, k8⟩ := sh1
        simp only at k3 k4 k6 k7
        obtain rfl | ⟨sa, st, sv, sx, sy, rfl⟩ := Tr.split d s'
        · simp [BH] at k3
        have hst : st = BLACK := by
          rw [red_nd] at hs'
          have : st ≠ RED := by simpa using hs'
          cases d
          · simp only [nd, cond_false, BH, if_neg this] at k3
            exact k3.1
          · simp only [nd, cond_true, BH, if_neg this] at k3
            exact k3.1
        subst hst
        have k3' := k3
        rw [bh_black] at k3
        obtain ⟨k, hk, b1, b2⟩ := k3
        obtain rfl : n = k := by omega
        rw [ptr_nd, bothBlack_spec (At.across.1 k1) b1 b2]
        simp only [Option.bind_some]
        cases hb : (!sx.red && !sy.red) with
        | true =>
          rw [if_pos rfl]
          obtain ⟨m2, s2, a2⟩ := (At.across.1 k1).setTag RED
          rw [s2]
          simp only [Option.bind_some]
          have a2' := At.across.1 a2
          rw [Bool.not_not] at a2'
          have a3 := At.up.1 a2'
          rw [a3.get]
          simp only [Option.bind_some, parent_mkCell]
          simp only [Bool.and_eq_true, Bool.not_eq_true'] at hb
          rw [nr_nd] at k6
          rw [blacken_of_black k2 hr] at k5
          have ns : NR (nd d sa RED sv sx sy) := (nr_nd _ _ _ _ _ _).2 ⟨fun _ => hb, k6.2⟩
          have bs : BH n (nd d sa RED sv sx sy) := (bh_red _ _ _ _ _ _).2 ⟨b1, b2⟩
          have sh : ∃ n', Short m2 (nd d p ft' pv t (nd d sa RED sv sx sy)) c' n' := by
            have nb : NR (nd d p ft' pv t (nd d sa RED sv sx sy)).blacken := by
              rw [blacken_nd]
              exact (nr_nd _ _ _ _ _ _).2 ⟨by simp, k5, ns⟩
            by_cases hft : ft' = RED
            · subst hft
              rw [if_pos rfl] at k4
              exact ⟨n, a3, (bh_red _ _ _ _ _ _).2 ⟨k2, bs⟩, k4, nb, k8⟩
            · rw [if_neg hft] at k4
              obtain ⟨rfl, k4⟩ := k4
              exact ⟨n + 1, a3, (bh_black _ _ _ _ _ _).2 ⟨n, rfl, k2, bs⟩, k4, nb, k8⟩
          obtain ⟨n', sh⟩ := sh
          have hfuel : (nd d p ft' pv t (nd d sa RED sv sx sy)).red = true ∧ 0 < fuel ∨ c'.length < fuel := by
            rw [red_nd]
            rw [hr] at hf
            simp only [List.length_cons, Bool.false_eq_true, false_and, false_or] at hf
            rcases hft' with rfl | rfl
            · left
              exact ⟨rfl, by omega⟩
            · right
              omega
          obtain ⟨m', child, e1, e2⟩ := ih m2 _ c' n' hfuel sh
          rw [ptr_nd] at e1
          refine ⟨m', child, e1, ?_⟩
          rw [← hin]
          have : (zip t (⟨d, p, ft', pv, nd d sa BLACK sv sx sy⟩ :: c')).inorder =
              (zip (nd d p ft' pv t (nd d sa RED sv sx sy)) c').inorder := by
            simp only [zip]
            apply zip_congr
            cases d <;> simp [inorder_nd]
          rw [this]
          exact e2
        | false =>
          rw [if_neg (by simp)]
          obtain ⟨m', e1, e2⟩ := finish_spec ⟨k1, k2, ⟨k3', k4⟩, k5, k6, k7, k8⟩ hr hb
          rw [hin] at e2
          exact ⟨m', m'.root, e1, e2⟩

/-- `rb_erase_rebalance` makes a red-black tree out of one in which the subtree in focus is one black node short. -/
theorem eraseRebalance_spec (fuel : Nat) (m : Mem α) (t : Tr α) (c : Ctx α) (n : Nat) (hf : c.length < fuel)
    (h : Short m t c n) :
    ∃ m' T, eraseRebalance fuel m t.ptr (cptr c) = some m' ∧ Tree m' T ∧ RBTree T ∧ T.inorder = (zip t c).inorder := by
  obtain ⟨m1, child, s1, t1, c1, e1, a1, r1, o1⟩ := eraseLoop_spec fuel m t c n (.inr hf) h
  obtain ⟨m2, s2, a2⟩ := a1.blacken
  refine ⟨m2, _, ?_, at_zip.1 a2, r1, o1⟩
  rw [eraseRebalance, s1]
  simp only [Option.bind_eq_bind, Option.bind_some]
  rw [e1]
  exact s2

end Verif.Trees
