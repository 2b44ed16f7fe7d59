import Verif.Trees.RegistryProofs
/-!
# The registries: properties (C27, C38)
-/
namespace Verif.Trees

/-! ## Specification -/

/-- A path from a node down to a null pointer, of the given length. -/
inductive NullPath {α : Type} (m : Mem α) : Nat → Nat → Prop
  | null : NullPath m 0 0
  | left {p n : Nat} {c : Cell α} : m.get p = some c → NullPath m c.left n → NullPath m p (n + 1)
  | right {p n : Nat} {c : Cell α} : m.get p = some c → NullPath m c.right n → NullPath m p (n + 1)

/-- How many times each object has been registered and not unregistered. -/
def countStep (nilOOP : Nat) (s : Nat → Nat) : RegOp → Nat → Nat
  | .register oop => fun k => if k = oop ∧ oop ≠ 0 ∧ oop ≠ nilOOP then s k + 1 else s k
  | .unregister oop => fun k => if k = oop then s k - 1 else s k

def counts (nilOOP : Nat) (ops : List RegOp) : Nat → Nat := ops.foldl (countStep nilOOP) fun _ => 0

/-- Which objects are weak. -/
def weakStep (s : Nat → Bool) : WeakOp → Nat → Bool
  | .weak oop => fun k => if k = oop then true else s k
  | .nonWeak oop => fun k => if k = oop then false else s k

def weaks (ops : List WeakOp) : Nat → Bool := ops.foldl weakStep fun _ => false

/-! ## The tree is balanced -/

theorem nullPath_bound {α : Type} {m : Mem α} (t : Tr α) (c : Ctx α) (h : At m t c) (k : Nat) (hb : BH k t) (hn : NR t) (n : Nat)
    (hp : NullPath m t.ptr n) : k ≤ n ∧ n ≤ 2 * k + (bif t.red then 1 else 0) := by
  induction t generalizing c k n with
  | nil =>
    have hk : k = 0 := hb
    subst hk
    cases hp with
    | null => simp
    | left g _ => simp [Mem.get, Tr.ptr] at g
    | right g _ => simp [Mem.get, Tr.ptr] at g
  | node a tag v l r ihl ihr =>
    have hA : At m (nd false a tag v l r) c := h
    have ha0 : a ≠ 0 := hA.ne_zero
    have hg : m.get a = some ⟨cptr c, l.ptr, r.ptr, tag, v⟩ := hA.get
    have hl := At.up.2 hA
    have hr : At m r (⟨true, a, tag, v, l⟩ :: c) := At.up.2 (show At m (nd true a tag v r l) c from h)
    rw [show Tr.node a tag v l r = nd false a tag v l r from rfl, nr_nd] at hn
    have main : ∀ q, (q = l ∨ q = r) → ∀ j, NullPath m q.ptr j → n = j + 1 →
        k ≤ n ∧ n ≤ 2 * k + (bif (Tr.node a tag v l r).red then 1 else 0) := by
      intro q hq j hj hnj
      by_cases ht : tag = RED
      · subst ht
        rw [show Tr.node a RED v l r = nd false a RED v l r from rfl, bh_red] at hb
        have hred : (Tr.node a RED v l r).red = true := rfl
        rw [hred]
        obtain ⟨hrl, hrr⟩ := hn.1 rfl
        rcases hq with rfl | rfl
        · have := ihl _ hl k hb.1 hn.2.1 j hj
          rw [hrl] at this
          simp only [cond_false, cond_true] at this ⊢
          omega
        · have := ihr _ hr k hb.2 hn.2.2 j hj
          rw [hrr] at this
          simp only [cond_false, cond_true] at this ⊢
          omega
      · have hbt : tag = BLACK := by
          simp only [BH, if_neg ht] at hb
          exact hb.1
        subst hbt
        rw [show Tr.node a BLACK v l r = nd false a BLACK v l r from rfl, bh_black] at hb
        obtain ⟨k', rfl, hb1, hb2⟩ := hb
        rcases hq with rfl | rfl
        · have := ihl _ hl k' hb1 hn.2.1 j hj
          have h3 : (bif q.red then 1 else 0) ≤ 1 := by cases q.red <;> simp
          omega
        · have := ihr _ hr k' hb2 hn.2.2 j hj
          have h3 : (bif q.red then 1 else 0) ≤ 1 := by cases q.red <;> simp
          omega
    simp only [Tr.ptr] at hp
    generalize hpa : a = p at hp
    cases hp with
    | null => exact absurd hpa ha0
    | left g hp' =>
      subst hpa
      rw [hg] at g
      simp only [Option.some.injEq] at g
      subst g
      exact main l (.inl rfl) _ hp' rfl
    | right g hp' =>
      subst hpa
      rw [hg] at g
      simp only [Option.some.injEq] at g
      subst g
      exact main r (.inr rfl) _ hp' rfl

theorem Holds.balanced {α κ : Type} [LinearOrder κ] {key : α → κ} {m : Mem α} {l : List α} (h : Holds key m l) (n1 n2 : Nat)
    (h1 : NullPath m m.root n1) (h2 : NullPath m m.root n2) : n1 ≤ 2 * n2 := by
  obtain ⟨T, t1, ⟨⟨k, t2⟩, t3, t4⟩, -⟩ := h.tree
  rw [show m.root = T.ptr from t1.crep] at h1 h2
  have e1 := nullPath_bound T [] t1 k t2 t3 n1 h1
  have e2 := nullPath_bound T [] t1 k t2 t3 n2 h2
  rw [t4] at e1
  simp only [cond_false] at e1
  omega

/-! ## Registered objects -/

/-- The registry holds the objects with a positive count, with that count. -/
def RegInvL (m : Mem Entry) (s : Nat → Nat) (l : List Entry) : Prop :=
  Holds Entry.oop m l ∧ (∀ e ∈ l, e.usage ≠ 0 ∧ s e.oop = e.usage) ∧ ∀ k, s k ≠ 0 → ⟨k, s k⟩ ∈ l

theorem register_spec {nilOOP fuel : Nat} {m : Mem Entry} {s : Nat → Nat} {l : List Entry} (h : RegInvL m s l)
    (hf : l.length < fuel) (oop a tag : Nat) (hfr : m.fresh a) :
    ∃ m' l', register nilOOP fuel m oop a tag = some m' ∧ RegInvL m' (countStep nilOOP s (.register oop)) l' ∧
      l'.length ≤ l.length + 1 := by
  obtain ⟨h1, h2, h3⟩ := h
  rw [register]
  by_cases hz : oop = 0 ∨ oop = nilOOP
  · rw [if_pos hz]
    have : countStep nilOOP s (.register oop) = s := by
      funext k
      exact if_neg (by tauto)
    rw [this]
    exact ⟨m, l, rfl, ⟨h1, h2, h3⟩, by omega⟩
  rw [if_neg hz]
  have hst : ∀ k, countStep nilOOP s (.register oop) k = if k = oop then s k + 1 else s k := by
    intro k
    have : (k = oop ∧ oop ≠ 0 ∧ oop ≠ nilOOP) ↔ k = oop := by tauto
    simp only [countStep, this]
  rcases h1.descend oop with ⟨p, ptag, v, lt, rt, c, e1, e2, e3, e4, e5⟩ | ⟨c, e1, e2, e3, e4, e5, e6⟩
  · obtain ⟨q, sd, e5⟩ := e5 fuel hf
    rw [e5]
    have hp0 : p ≠ 0 := (show At m (nd false p ptag v lt rt) c from e1).ne_zero
    obtain ⟨p, rfl⟩ : ∃ n, p = n + 1 := ⟨p - 1, by omega⟩
    have hl : l = (lefts c ++ lt.inorder).map Prod.snd ++ v :: (rt.inorder ++ rights c).map Prod.snd := by rw [e3]; simp
    have hs := h1.sorted
    rw [hl] at hs
    obtain ⟨m', s1, s2⟩ := Holds.update e1 e2 _ _ rfl rfl hs ⟨v.oop, v.usage + 1⟩ rfl
    have hg : m.get (p + 1) = some ⟨cptr c, lt.ptr, rt.ptr, ptag, v⟩ := (show At m (nd false _ ptag v lt rt) c from e1).get
    dsimp only
    rw [hg, Option.bind_some]
    refine ⟨m', _, s1, ⟨s2, ?_, ?_⟩, by rw [hl]; simp⟩
    · intro e he
      have hne : e ∈ (lefts c ++ lt.inorder).map Prod.snd ∨ e ∈ (rt.inorder ++ rights c).map Prod.snd → e.oop ≠ v.oop := by
        rw [List.pairwise_append, List.pairwise_cons] at hs
        rintro (h | h) eq
        · have := hs.2.2 e h v List.mem_cons_self
          omega
        · have := hs.2.1.1 e h
          omega
      rw [List.mem_append, List.mem_cons] at he
      rw [hst]
      rcases he with he | rfl | he
      · rw [if_neg (by rw [← e4]; exact hne (.inl he))]
        exact h2 e (by rw [hl]; exact List.mem_append_left _ he)
      · dsimp only
        rw [if_pos e4]
        have := (h2 v (by rw [hl]; simp)).2
        exact ⟨by omega, by omega⟩
      · rw [if_neg (by rw [← e4]; exact hne (.inr he))]
        exact h2 e (by rw [hl]; exact List.mem_append_right _ (List.mem_cons_of_mem _ he))
    · intro k hk
      rw [hst] at hk ⊢
      rw [List.mem_append, List.mem_cons]
      by_cases hko : k = oop
      · rw [if_pos hko]
        right; left
        have := (h2 v (by rw [hl]; simp)).2
        rw [hko, ← e4, this]
      · rw [if_neg hko] at hk ⊢
        have := h3 k hk
        rw [hl, List.mem_append, List.mem_cons] at this
        rcases this with h | h | h
        · exact .inl h
        · exact absurd (by rw [← e4, ← h]) hko
        · exact .inr (.inr h)
  · rw [e6 fuel hf]
    dsimp only
    have hs := h1.sorted
    rw [e3] at hs
    obtain ⟨m', s1, s2⟩ := Holds.insert (v := ⟨oop, 1⟩) (tag := tag) e1 e2 hs e4 e5 hfr fuel (by rw [e3] at hf; simpa using hf)
    have hnot : ∀ e ∈ l, e.oop ≠ oop := by
      intro e he
      rw [e3] at he
      simp only [List.mem_map, List.mem_append] at he
      obtain ⟨x, hx | hx, rfl⟩ := he
      · exact ne_of_lt (e4 x hx)
      · exact ne_of_gt (e5 x hx)
    have hl : l = (lefts c).map Prod.snd ++ (rights c).map Prod.snd := by rw [e3]; simp
    have hs0 : s oop = 0 := by
      by_contra hne
      exact hnot _ (h3 oop hne) rfl
    refine ⟨m', _, s1, ⟨s2, ?_, ?_⟩, by rw [e3]; simp; omega⟩
    · intro e he
      rw [hst]
      rw [List.mem_append, List.mem_cons] at he
      rcases he with he | rfl | he
      · have hm : e ∈ l := by rw [hl]; exact List.mem_append_left _ he
        rw [if_neg (hnot e hm)]
        exact h2 e hm
      · rw [if_pos rfl, hs0]
        simp
      · have hm : e ∈ l := by rw [hl]; exact List.mem_append_right _ he
        rw [if_neg (hnot e hm)]
        exact h2 e hm
    · intro k hk
      rw [hst] at hk ⊢
      rw [List.mem_append, List.mem_cons]
      by_cases hko : k = oop
      · rw [if_pos hko, hko, hs0]
        exact .inr (.inl rfl)
      · rw [if_neg hko] at hk ⊢
        have := h3 k hk
        rw [hl, List.mem_append] at this
        tauto

theorem unregister_spec {nilOOP fuel : Nat} {m : Mem Entry} {s : Nat → Nat} {l : List Entry} (h : RegInvL m s l)
    (h0 : s 0 = 0 ∧ s nilOOP = 0) (hf : l.length < fuel) (oop : Nat) :
    ∃ m' l', unregister nilOOP fuel m oop = some m' ∧ RegInvL m' (countStep nilOOP s (.unregister oop)) l' ∧
      l'.length ≤ l.length := by
  obtain ⟨h1, h2, h3⟩ := h
  rw [unregister]
  have hsame : s oop = 0 → countStep nilOOP s (.unregister oop) = s := by
    intro h
    funext k
    simp only [countStep]
    split
    · next e => rw [e, h]
    · rfl
  by_cases hz : oop = 0 ∨ oop = nilOOP
  · rw [if_pos hz, hsame (by rcases hz with rfl | rfl; exacts [h0.1, h0.2])]
    exact ⟨m, l, rfl, ⟨h1, h2, h3⟩, by omega⟩
  rw [if_neg hz, lookup_eq_descend _ _ _ _ 0 false]
  have hst : ∀ k, countStep nilOOP s (.unregister oop) k = if k = oop then s k - 1 else s k := fun k => rfl
  rcases h1.descend oop with ⟨p, ptag, v, lt, rt, c, e1, e2, e3, e4, e5⟩ | ⟨c, e1, e2, e3, e4, e5, e6⟩
  · obtain ⟨q, sd, e5⟩ := e5 fuel hf
    rw [e5]
    have hp0 : p ≠ 0 := (show At m (nd false p ptag v lt rt) c from e1).ne_zero
    obtain ⟨p, rfl⟩ : ∃ n, p = n + 1 := ⟨p - 1, by omega⟩
    have hl : l = (lefts c ++ lt.inorder).map Prod.snd ++ v :: (rt.inorder ++ rights c).map Prod.snd := by rw [e3]; simp
    have hs := h1.sorted
    rw [hl] at hs
    have hg : m.get (p + 1) = some ⟨cptr c, lt.ptr, rt.ptr, ptag, v⟩ := (show At m (nd false _ ptag v lt rt) c from e1).get
    obtain ⟨hv0, hvs⟩ := h2 v (by rw [hl]; simp)
    have hne : ∀ e, e ∈ (lefts c ++ lt.inorder).map Prod.snd ∨ e ∈ (rt.inorder ++ rights c).map Prod.snd → e.oop ≠ oop := by
      rw [List.pairwise_append, List.pairwise_cons] at hs
      rintro e (h | h) eq
      · have := hs.2.2 e h v List.mem_cons_self
        omega
      · have := hs.2.1.1 e h
        omega
    simp only [Option.map_some]
    rw [hg, Option.bind_some]
    dsimp only
    by_cases hu : v.usage - 1 = 0
    · rw [if_pos hu]
      obtain ⟨m', s1, s2⟩ := Holds.remove e1 e2 _ _ rfl rfl hs fuel (by rw [← hl]; exact hf)
      refine ⟨m', _, s1, ⟨s2, ?_, ?_⟩, by rw [hl]; simp⟩
      · intro e he
        rw [List.mem_append] at he
        rw [hst, if_neg (hne e he)]
        apply h2
        rw [hl, List.mem_append, List.mem_cons]
        tauto
      · intro k hk
        rw [hst] at hk ⊢
        by_cases hko : k = oop
        · rw [if_pos hko, hko, ← e4] at hk
          omega
        · rw [if_neg hko] at hk ⊢
          have := h3 k hk
          rw [hl, List.mem_append, List.mem_cons] at this
          rw [List.mem_append]
          rcases this with h | h | h
          · exact .inl h
          · exact absurd (by rw [← e4, ← h]) hko
          · exact .inr h
    · rw [if_neg hu]
      obtain ⟨m', s1, s2⟩ := Holds.update e1 e2 _ _ rfl rfl hs ⟨v.oop, v.usage - 1⟩ rfl
      refine ⟨m', _, s1, ⟨s2, ?_, ?_⟩, by rw [hl]; simp⟩
      · intro e he
        rw [List.mem_append, List.mem_cons] at he
        rw [hst]
        rcases he with he | rfl | he
        · rw [if_neg (hne e (.inl he))]
          exact h2 e (by rw [hl]; exact List.mem_append_left _ he)
        · dsimp only
          rw [if_pos e4]
          exact ⟨by omega, by omega⟩
        · rw [if_neg (hne e (.inr he))]
          exact h2 e (by rw [hl]; exact List.mem_append_right _ (List.mem_cons_of_mem _ he))
      · intro k hk
        rw [hst] at hk ⊢
        rw [List.mem_append, List.mem_cons]
        by_cases hko : k = oop
        · rw [if_pos hko]
          right; left
          rw [hko, ← e4, hvs]
        · rw [if_neg hko] at hk ⊢
          have := h3 k hk
          rw [hl, List.mem_append, List.mem_cons] at this
          rcases this with h | h | h
          · exact .inl h
          · exact absurd (by rw [← e4, ← h]) hko
          · exact .inr (.inr h)
  · rw [e6 fuel hf]
    simp only [Option.map_some]
    rw [hsame]
    · exact ⟨m, l, rfl, ⟨h1, h2, h3⟩, by omega⟩
    · by_contra hne
      have := h3 oop hne
      rw [e3] at this
      simp only [List.mem_map, List.mem_append] at this
      obtain ⟨x, hx, hx'⟩ := this
      have hxo : x.2.oop = oop := by rw [hx']
      rcases hx with hx | hx
      · have := e4 x hx; omega
      · have := e5 x hx; omega

theorem runReg_inv {nilOOP fuel : Nat} (ops : List (RegOp × Nat × Nat)) (m m' : Mem Entry) (s : Nat → Nat) (l : List Entry)
    (h : RegInvL m s l) (h0 : s 0 = 0 ∧ s nilOOP = 0) (hf : l.length + ops.length < fuel)
    (hr : runReg nilOOP fuel m ops = some m') :
    ∃ l', RegInvL m' ((ops.map Prod.fst).foldl (countStep nilOOP) s) l' ∧ l'.length ≤ l.length + ops.length ∧
      (ops.map Prod.fst).foldl (countStep nilOOP) s 0 = 0 ∧ (ops.map Prod.fst).foldl (countStep nilOOP) s nilOOP = 0 := by
  induction ops generalizing m s l with
  | nil =>
    simp only [runReg, Option.some.injEq] at hr
    subst hr
    exact ⟨l, h, by simp, h0⟩
  | cons op ops ih =>
    obtain ⟨op, a, tag⟩ := op
    simp only [List.length_cons] at hf
    cases op with
    | register oop =>
      rw [runReg] at hr
      split at hr
      · next hfr =>
        obtain ⟨m1, l1, r1, r2, r3⟩ := register_spec (nilOOP := nilOOP) (fuel := fuel) h (by omega) oop a tag hfr
        rw [r1, Option.bind_some] at hr
        obtain ⟨l', q1, q2, q3⟩ := ih m1 _ l1 r2
          ⟨by simp only [countStep]; rw [if_neg (by rintro ⟨rfl, h, -⟩; exact h rfl)]; exact h0.1,
           by simp only [countStep]; rw [if_neg (by rintro ⟨rfl, -, h⟩; exact h rfl)]; exact h0.2⟩ (by omega) hr
        exact ⟨l', q1, by simp only [List.length_cons]; omega, q3⟩
      · simp at hr
    | unregister oop =>
      rw [runReg] at hr
      obtain ⟨m1, l1, r1, r2, r3⟩ := unregister_spec (nilOOP := nilOOP) (fuel := fuel) h h0 (by omega) oop
      rw [r1, Option.bind_some] at hr
      obtain ⟨l', q1, q2, q3⟩ := ih m1 _ l1 r2
        ⟨by simp only [countStep]; split <;> simp [h0.1], by simp only [countStep]; split <;> simp [h0.2]⟩ (by omega) hr
      exact ⟨l', q1, by simp only [List.length_cons]; omega, q3⟩

theorem regInv_empty : RegInvL (emptyMem Entry) (fun _ => 0) [] := ⟨holds_empty _, by simp, by simp⟩

/-- C38: after any sequence of calls, the objects the garbage collector finds in the registry are those registered more times than
they have been unregistered, each of them once. -/
theorem registry_counts (nilOOP fuel : Nat) (ops : List (RegOp × Nat × Nat)) (m : Mem Entry)
    (hr : runReg nilOOP fuel (emptyMem Entry) ops = some m) (hf : ops.length + 1 < fuel) :
    ∃ l, registered fuel m = some l ∧ l.Pairwise (· < ·) ∧ ∀ oop, oop ∈ l ↔ 0 < counts nilOOP (ops.map Prod.fst) oop := by
  obtain ⟨l, ⟨q1, q2, q3⟩, q4, -⟩ := runReg_inv ops _ _ _ _ regInv_empty ⟨rfl, rfl⟩ (by simp; omega) hr
  simp only [List.length_nil] at q4
  refine ⟨l.map Entry.oop, q1.data Entry.oop fuel (by omega), ?_, ?_⟩
  · rw [List.pairwise_map]; exact q1.sorted
  · intro oop
    rw [List.mem_map]
    constructor
    · rintro ⟨e, he, rfl⟩
      have h := q2 e he
      have : counts nilOOP (ops.map Prod.fst) e.oop = e.usage := h.2
      omega
    · intro h
      exact ⟨_, q3 oop (by exact Nat.ne_of_gt h), rfl⟩

/-- C38: the calls never crash and never loop. -/
theorem registry_defined (nilOOP fuel : Nat) (ops : List (RegOp × Nat × Nat)) (m : Mem Entry)
    (hr : runReg nilOOP fuel (emptyMem Entry) ops = some m) (hf : ops.length + 1 < fuel) (oop a tag : Nat) (hfr : m.fresh a) :
    (register nilOOP fuel m oop a tag).isSome ∧ (unregister nilOOP fuel m oop).isSome := by
  obtain ⟨l, q, q4, q5⟩ := runReg_inv ops _ _ _ _ regInv_empty ⟨rfl, rfl⟩ (by simp; omega) hr
  simp only [List.length_nil] at q4
  constructor
  · obtain ⟨m', -, h, -⟩ := register_spec (nilOOP := nilOOP) (fuel := fuel) q (by omega) oop a tag hfr
    rw [h]; rfl
  · obtain ⟨m', -, h, -⟩ := unregister_spec (nilOOP := nilOOP) (fuel := fuel) q q5 (by omega) oop
    rw [h]; rfl

/-- C27: the registry is balanced: no path from the root is more than twice as long as another. -/
theorem registry_balanced (nilOOP fuel : Nat) (ops : List (RegOp × Nat × Nat)) (m : Mem Entry)
    (hr : runReg nilOOP fuel (emptyMem Entry) ops = some m) (hf : ops.length + 1 < fuel) (n1 n2 : Nat)
    (h1 : NullPath m m.root n1) (h2 : NullPath m m.root n2) : n1 ≤ 2 * n2 := by
  obtain ⟨l, ⟨q1, -, -⟩, -⟩ := runReg_inv ops _ _ _ _ regInv_empty ⟨rfl, rfl⟩ (by simp; omega) hr
  exact q1.balanced n1 n2 h1 h2

/-! ## Weak objects -/

def WeakInv (m : Mem Nat) (s : Nat → Bool) (l : List Nat) : Prop := Holds id m l ∧ ∀ k, k ∈ l ↔ s k = true

theorem makeWeak_spec {fuel : Nat} {w : Weak} {s : Nat → Bool} {l : List Nat} (h : WeakInv w.mem s l) (hf : l.length < fuel)
    (oop a tag : Nat) (hfr : w.mem.fresh a) :
    ∃ w' l', makeWeak fuel w oop a tag = some w' ∧ WeakInv w'.mem (weakStep s (.weak oop)) l' ∧ w'.num = w.num + 1 ∧
      l'.length = l.length + (bif s oop then 0 else 1) := by
  obtain ⟨h1, h2⟩ := h
  rw [makeWeak]
  rcases h1.descend oop with ⟨p, ptag, v, lt, rt, c, e1, e2, e3, e4, e5⟩ | ⟨c, e1, e2, e3, e4, e5, e6⟩
  · obtain ⟨q, sd, e5⟩ := e5 fuel hf
    rw [e5]
    have hp0 : p ≠ 0 := (show At w.mem (nd false p ptag v lt rt) c from e1).ne_zero
    obtain ⟨p, rfl⟩ : ∃ n, p = n + 1 := ⟨p - 1, by omega⟩
    have hm : s oop = true := by
      rw [← h2, e3, ← e4]
      simp
    refine ⟨_, l, rfl, ⟨h1, ?_⟩, rfl, by rw [hm]; rfl⟩
    intro k
    rw [h2, weakStep]
    dsimp only
    split
    · next e => rw [e, hm]
    · rfl
  · rw [e6 fuel hf]
    dsimp only
    have hs := h1.sorted
    rw [e3] at hs
    obtain ⟨m', s1, s2⟩ := Holds.insert (v := oop) (tag := tag) e1 e2 hs e4 e5 hfr fuel (by rw [e3] at hf; simpa using hf)
    have hnot : oop ∉ l := by
      intro he
      rw [e3] at he
      simp only [List.mem_map, List.mem_append] at he
      obtain ⟨x, hx | hx, hxe⟩ := he
      · have := e4 x hx; simp only [id] at this; omega
      · have := e5 x hx; simp only [id] at this; omega
    have hso : s oop = false := by
      rw [h2] at hnot
      simpa using hnot
    rw [s1]
    refine ⟨_, _, rfl, ⟨s2, ?_⟩, rfl, by rw [e3, hso]; simp; omega⟩
    intro k
    have := h2 k
    rw [e3] at this
    simp only [List.map_append, List.mem_append] at this
    simp only [List.mem_append, List.mem_cons, weakStep]
    split
    · next e => simp [e]
    · next e => rw [← this]; tauto

theorem makeNonWeak_spec {fuel : Nat} {w : Weak} {s : Nat → Bool} {l : List Nat} (h : WeakInv w.mem s l) (hf : l.length < fuel)
    (oop : Nat) :
    ∃ w' l', makeNonWeak fuel w oop = some w' ∧ WeakInv w'.mem (weakStep s (.nonWeak oop)) l' ∧ w'.num = w.num - 1 ∧
      l'.length = l.length - (bif s oop then 1 else 0) := by
  obtain ⟨h1, h2⟩ := h
  rw [makeNonWeak, lookup_eq_descend _ _ _ _ 0 false]
  rcases h1.descend oop with ⟨p, ptag, v, lt, rt, c, e1, e2, e3, e4, e5⟩ | ⟨c, e1, e2, e3, e4, e5, e6⟩
  · obtain ⟨q, sd, e5⟩ := e5 fuel hf
    rw [e5]
    have hp0 : p ≠ 0 := (show At w.mem (nd false p ptag v lt rt) c from e1).ne_zero
    obtain ⟨p, rfl⟩ : ∃ n, p = n + 1 := ⟨p - 1, by omega⟩
    have hl : l = (lefts c ++ lt.inorder).map Prod.snd ++ v :: (rt.inorder ++ rights c).map Prod.snd := by rw [e3]; simp
    have hs := h1.sorted
    rw [hl] at hs
    have hvo : v = oop := e4
    have hm : s oop = true := by
      rw [← h2, hl, ← hvo]
      simp
    have hne : ∀ e, e ∈ (lefts c ++ lt.inorder).map Prod.snd ∨ e ∈ (rt.inorder ++ rights c).map Prod.snd → e ≠ oop := by
      rw [List.pairwise_append, List.pairwise_cons] at hs
      rintro e (h | h) eq
      · have := hs.2.2 e h v List.mem_cons_self
        simp only [id] at this
        omega
      · have := hs.2.1.1 e h
        simp only [id] at this
        omega
    obtain ⟨m', s1, s2⟩ := Holds.remove e1 e2 _ _ rfl rfl hs fuel (by rw [← hl]; exact hf)
    have s1' : Option.map (fun m => (⟨m.free (p + 1), w.num - 1⟩ : Weak)) (erase fuel w.mem (p + 1)) = some ⟨m', w.num - 1⟩ := by
      rw [Option.map_eq_some_iff] at s1 ⊢
      obtain ⟨m0, w1, w2⟩ := s1
      exact ⟨m0, w1, by rw [w2]⟩
    refine ⟨_, _, s1', ⟨s2, ?_⟩, rfl, by rw [hm, hl]; simp; omega⟩
    intro k
    have hk := h2 k
    rw [hl, List.mem_append, List.mem_cons] at hk
    rw [List.mem_append, weakStep]
    dsimp only
    split
    · next e =>
      simp only [Bool.false_eq_true, iff_false]
      intro h
      exact hne k h e
    · next e =>
      rw [← hk]
      have : k ≠ v := by rw [hvo]; exact e
      tauto
  · rw [e6 fuel hf]
    have hnot : oop ∉ l := by
      intro he
      rw [e3] at he
      simp only [List.mem_map, List.mem_append] at he
      obtain ⟨x, hx | hx, hxe⟩ := he
      · have := e4 x hx; simp only [id] at this; omega
      · have := e5 x hx; simp only [id] at this; omega
    have hso : s oop = false := by
      rw [h2] at hnot
      simpa using hnot
    refine ⟨_, l, rfl, ⟨h1, ?_⟩, rfl, by rw [hso]; simp⟩
    intro k
    rw [h2, weakStep]
    dsimp only
    split
    · next e => rw [e, hso]
    · rfl

theorem runWeak_inv {fuel : Nat} (ops : List (WeakOp × Nat × Nat)) (w w' : Weak) (s : Nat → Bool) (l : List Nat)
    (h : WeakInv w.mem s l) (hf : l.length + ops.length < fuel) (hr : runWeak fuel w ops = some w') :
    ∃ l', WeakInv w'.mem ((ops.map Prod.fst).foldl weakStep s) l' ∧ l'.length ≤ l.length + ops.length := by
  induction ops generalizing w s l with
  | nil =>
    simp only [runWeak, Option.some.injEq] at hr
    subst hr
    exact ⟨l, h, by simp⟩
  | cons op ops ih =>
    obtain ⟨op, a, tag⟩ := op
    simp only [List.length_cons] at hf
    cases op with
    | weak oop =>
      rw [runWeak] at hr
      split at hr
      · next hfr =>
        obtain ⟨w1, l1, r1, r2, -, r3⟩ := makeWeak_spec (fuel := fuel) h (by omega) oop a tag hfr
        have : l1.length ≤ l.length + 1 := by rw [r3]; cases s oop <;> simp
        rw [r1, Option.bind_some] at hr
        obtain ⟨l', q1, q2⟩ := ih w1 _ l1 r2 (by omega) hr
        exact ⟨l', q1, by simp only [List.length_cons]; omega⟩
      · simp at hr
    | nonWeak oop =>
      rw [runWeak] at hr
      obtain ⟨w1, l1, r1, r2, -, r3⟩ := makeNonWeak_spec (fuel := fuel) h (by omega) oop
      have : l1.length ≤ l.length := by rw [r3]; omega
      rw [r1, Option.bind_some] at hr
      obtain ⟨l', q1, q2⟩ := ih w1 _ l1 r2 (by omega) hr
      exact ⟨l', q1, by simp only [List.length_cons]; omega⟩

theorem weakInv_empty : WeakInv (emptyMem Nat) (fun _ => false) [] := ⟨holds_empty _, by simp⟩

/-- C27: after any sequence of insertions and removals, the tree enumerates the keys that are in it, in increasing order. -/
theorem weak_enumerates (fuel : Nat) (ops : List (WeakOp × Nat × Nat)) (w : Weak)
    (hr : runWeak fuel ⟨emptyMem Nat, 0⟩ ops = some w) (hf : ops.length + 1 < fuel) :
    ∃ l, weakOOPs fuel w.mem = some l ∧ l.Pairwise (· < ·) ∧ ∀ oop, oop ∈ l ↔ weaks (ops.map Prod.fst) oop = true := by
  obtain ⟨l, ⟨q1, q2⟩, q3⟩ := runWeak_inv ops _ _ _ _ weakInv_empty (by simp; omega) hr
  simp only [List.length_nil] at q3
  refine ⟨l, ?_, q1.sorted, q2⟩
  have := q1.data id fuel (by omega)
  rw [List.map_id] at this
  exact this

/-- C27: no path from the root is more than twice as long as another. -/
theorem weak_balanced (fuel : Nat) (ops : List (WeakOp × Nat × Nat)) (w : Weak)
    (hr : runWeak fuel ⟨emptyMem Nat, 0⟩ ops = some w) (hf : ops.length + 1 < fuel) (n1 n2 : Nat)
    (h1 : NullPath w.mem w.mem.root n1) (h2 : NullPath w.mem w.mem.root n2) : n1 ≤ 2 * n2 := by
  obtain ⟨l, ⟨q1, -⟩, -⟩ := runWeak_inv ops _ _ _ _ weakInv_empty (by simp; omega) hr
  exact q1.balanced n1 n2 h1 h2

/-- C27: insertions and removals never crash and never loop. -/
theorem weak_defined (fuel : Nat) (ops : List (WeakOp × Nat × Nat)) (w : Weak)
    (hr : runWeak fuel ⟨emptyMem Nat, 0⟩ ops = some w) (hf : ops.length + 1 < fuel) (oop a tag : Nat) (hfr : w.mem.fresh a) :
    (makeWeak fuel w oop a tag).isSome ∧ (makeNonWeak fuel w oop).isSome := by
  obtain ⟨l, q, q3⟩ := runWeak_inv ops _ _ _ _ weakInv_empty (by simp; omega) hr
  simp only [List.length_nil] at q3
  constructor
  · obtain ⟨w', -, h, -⟩ := makeWeak_spec (fuel := fuel) q (by omega) oop a tag hfr
    rw [h]; rfl
  · obtain ⟨w', -, h, -⟩ := makeNonWeak_spec (fuel := fuel) q (by omega) oop
    rw [h]; rfl

/-- No object is made weak that is weak already, and only weak objects are made strong. -/
def alternating (s : Nat → Bool) : List WeakOp → Prop
  | [] => True
  | .weak oop :: ops => s oop = false ∧ alternating (weakStep s (.weak oop)) ops
  | .nonWeak oop :: ops => s oop = true ∧ alternating (weakStep s (.nonWeak oop)) ops

theorem runWeak_num {fuel : Nat} (ops : List (WeakOp × Nat × Nat)) (w w' : Weak) (s : Nat → Bool) (l : List Nat)
    (h : WeakInv w.mem s l) (hf : l.length + ops.length + 1 < fuel) (hr : runWeak fuel w ops = some w')
    (ha : alternating s (ops.map Prod.fst)) (hn : w.num = l.length) :
    ∃ l', weakOOPs fuel w'.mem = some l' ∧ w'.num = l'.length := by
  induction ops generalizing w s l with
  | nil =>
    simp only [runWeak, Option.some.injEq] at hr
    subst hr
    refine ⟨l, ?_, hn⟩
    have := h.1.data id fuel (by simp at hf; omega)
    rw [List.map_id] at this
    exact this
  | cons op ops ih =>
    obtain ⟨op, a, tag⟩ := op
    simp only [List.length_cons] at hf
    cases op with
    | weak oop =>
      rw [runWeak] at hr
      split at hr
      · next hfr =>
        obtain ⟨w1, l1, r1, r2, r4, r3⟩ := makeWeak_spec (fuel := fuel) h (by omega) oop a tag hfr
        rw [r1, Option.bind_some] at hr
        obtain ⟨ha1, ha2⟩ := ha
        rw [ha1] at r3
        simp only [cond_false] at r3
        exact ih w1 _ l1 r2 (by omega) hr ha2 (by rw [r4, hn, r3]; simp)
      · simp at hr
    | nonWeak oop =>
      rw [runWeak] at hr
      obtain ⟨w1, l1, r1, r2, r4, r3⟩ := makeNonWeak_spec (fuel := fuel) h (by omega) oop
      rw [r1, Option.bind_some] at hr
      obtain ⟨ha1, ha2⟩ := ha
      have hpos : 0 < l.length := List.length_pos_of_mem ((h.2 oop).2 ha1)
      rw [ha1] at r3
      simp only [cond_true] at r3
      exact ih w1 _ l1 r2 (by omega) hr ha2 (by rw [r4, hn, r3]; omega)

/-- C39, partial: the number of weak objects the virtual machine reports is right if no object is made weak twice. -/
theorem weak_count_partial (fuel : Nat) (ops : List (WeakOp × Nat × Nat)) (w : Weak)
    (hr : runWeak fuel ⟨emptyMem Nat, 0⟩ ops = some w) (hf : ops.length + 1 < fuel)
    (ha : alternating (fun _ => false) (ops.map Prod.fst)) : ∃ l, weakOOPs fuel w.mem = some l ∧ w.num = l.length :=
  runWeak_num ops _ _ _ _ weakInv_empty (by simp; omega) hr ha rfl

/-- C39 is false: making the same object weak twice counts it twice. -/
theorem weak_count_wrong : ∃ w, runWeak 10 ⟨emptyMem Nat, 0⟩ [(.weak 500, 1, 0), (.weak 500, 2, 0)] = some w ∧
    weakOOPs 10 w.mem = some [500] ∧ w.num = 2 := by
  refine ⟨_, rfl, ?_, ?_⟩ <;> decide

/-! ## Registration of arrays -/

theorem array_runs {first : Nat} (n : Nat) (s : LoopState) (t : Tr ArrayEntry) (c : Ctx ArrayEntry) (h : At s.mem t c) (hc : s.cur = t.ptr)
    (hs : Sorted ArrayEntry.first t.inorder) (hm : ∃ x ∈ t.inorder, x.2.first = first) :
    ∃ s', arraySteps first n s = some (.inl s') := by
  induction n generalizing s t c with
  | zero => exact ⟨s, rfl⟩
  | succ n ih =>
    cases t with
    | nil => simp [Tr.inorder] at hm
    | node a tag v l r =>
      have hA : At s.mem (nd false a tag v l r) c := h
      have hg : s.mem.get a = some ⟨cptr c, l.ptr, r.ptr, tag, v⟩ := hA.get
      have hc' : s.cur = a := hc
      have hs0 := hs
      simp only [Sorted, Tr.inorder, List.pairwise_append, List.pairwise_cons, List.mem_cons] at hs
      obtain ⟨sl, ⟨sv, sr⟩, slr⟩ := hs
      obtain ⟨x, hx, hxf⟩ := hm
      simp only [Tr.inorder, List.mem_append, List.mem_cons] at hx
      rw [arraySteps, arrayStep, hc', if_neg hA.ne_zero, hg, Option.bind_some]
      dsimp only
      by_cases h1 : first < v.first
      · rw [if_pos h1]
        refine ih _ l _ (At.up.2 hA) rfl sl ⟨x, ?_, hxf⟩
        rcases hx with hx | rfl | hx
        · exact hx
        · dsimp only at hxf; omega
        · have := sv x hx; omega
      · rw [if_neg h1]
        by_cases h2 : v.first < first
        · rw [if_pos h2]
          refine ih _ r _ (At.up.2 (show At s.mem (nd true a tag v r l) c from h)) rfl sr ⟨x, ?_, hxf⟩
          rcases hx with hx | rfl | hx
          · have := slr x hx _ (.inl rfl); dsimp only at this; omega
          · dsimp only at hxf; omega
          · exact hx
        · rw [if_neg h2]
          obtain ⟨m', e1, e2⟩ := hA.setData ⟨v.first, v.last, v.usage + 1⟩
          rw [e1]
          dsimp only [Option.map]
          refine ih _ (.node a tag ⟨v.first, v.last, v.usage + 1⟩ l r) c e2 rfl ?_ ?_
          · simp only [Sorted, Tr.inorder, List.pairwise_append, List.pairwise_cons, List.mem_cons]
            refine ⟨sl, ⟨sv, sr⟩, fun x hx y hy => ?_⟩
            rcases hy with rfl | hy
            · exact slr x hx (a, v) (.inl rfl)
            · exact slr x hx y (.inr hy)
          · refine ⟨(a, ⟨v.first, v.last, v.usage + 1⟩), by simp [Tr.inorder], ?_⟩
            dsimp only
            omega

/-- C40 is false: registering an array that is registered already never returns.  In every registry that holds the array,
the search is still running after any number of iterations. -/
theorem array_reregistration_loops (m : Mem ArrayEntry) (l : List ArrayEntry) (h : Holds ArrayEntry.first m l) (first : Nat)
    (hm : ∃ e ∈ l, e.first = first) (n : Nat) : ∃ s, arraySteps first n (arrayLoopStart m) = some (.inl s) := by
  obtain ⟨T, t1, -, t3⟩ := h.tree
  obtain ⟨e, he, hef⟩ := hm
  rw [← t3, List.mem_map] at he
  obtain ⟨x, hx, rfl⟩ := he
  refine array_runs n _ T [] t1 t1.crep ?_ ⟨x, hx, hef⟩
  rw [← sorted_map, t3]
  exact h.sorted

theorem array_ends {first : Nat} (s : LoopState) (t : Tr ArrayEntry) (c : Ctx ArrayEntry) (h : At s.mem t c) (hc : s.cur = t.ptr)
    (hm : ∀ x ∈ t.inorder, x.2.first ≠ first) : ∃ n s', arraySteps first n s = some (.inr s') := by
  induction t generalizing s c with
  | nil => exact ⟨1, s, by rw [arraySteps, arrayStep, if_pos (show s.cur = 0 from hc)]⟩
  | node a tag v l r ihl ihr =>
    have hA : At s.mem (nd false a tag v l r) c := h
    have hg : s.mem.get a = some ⟨cptr c, l.ptr, r.ptr, tag, v⟩ := hA.get
    have hc' : s.cur = a := hc
    simp only [Tr.inorder, List.mem_append, List.mem_cons] at hm
    have hv : v.first ≠ first := hm (a, v) (.inr (.inl rfl))
    by_cases h1 : first < v.first
    · obtain ⟨n, s', e⟩ := ihl { s with par := s.cur, side := false, cur := l.ptr } _ (At.up.2 hA) rfl fun x hx => hm x (.inl hx)
      refine ⟨n + 1, s', ?_⟩
      rw [arraySteps, arrayStep, hc', if_neg hA.ne_zero, hg, Option.bind_some]
      dsimp only
      rw [if_pos h1]
      rw [hc'] at e
      exact e
    · obtain ⟨n, s', e⟩ := ihr { s with par := s.cur, side := true, cur := r.ptr } _
        (At.up.2 (show At s.mem (nd true a tag v r l) c from h)) rfl fun x hx => hm x (.inr (.inr hx))
      refine ⟨n + 1, s', ?_⟩
      rw [arraySteps, arrayStep, hc', if_neg hA.ne_zero, hg, Option.bind_some]
      dsimp only
      rw [if_neg h1, if_pos (show v.first < first by omega)]
      rw [hc'] at e
      exact e

/-- C40, partial: the search ends if the array is not registered yet. -/
theorem array_registration_ends_partial (m : Mem ArrayEntry) (l : List ArrayEntry) (h : Holds ArrayEntry.first m l) (first : Nat)
    (hm : ∀ e ∈ l, e.first ≠ first) : ∃ n s, arraySteps first n (arrayLoopStart m) = some (.inr s) := by
  obtain ⟨T, t1, -, t3⟩ := h.tree
  refine array_ends _ T [] t1 t1.crep fun x hx => hm _ ?_
  rw [← t3, List.mem_map]
  exact ⟨x, hx, rfl⟩

/-! ## The hypotheses can be met -/

/-- Eleven calls: objects registered twice, unregistered, in an order that makes rotations necessary. -/
def sampleCalls : List (RegOp × Nat × Nat) :=
  [(.register 50, 1, 7), (.register 40, 2, 0), (.register 30, 3, 0), (.register 20, 4, 1), (.register 10, 5, 0), (.register 30, 6, 0),
   (.unregister 40, 0, 0), (.unregister 30, 0, 0), (.register 5, 2, 0), (.unregister 50, 0, 0), (.unregister 99, 0, 0)]

example : (runReg 3 20 (emptyMem Entry) sampleCalls).isSome = true := by decide
example : ((runReg 3 20 (emptyMem Entry) sampleCalls).bind fun m => registered 20 m) = some [5, 10, 20, 30] := by decide
example : (List.range 100).filter (fun k => counts 3 (sampleCalls.map Prod.fst) k > 0) = [5, 10, 20, 30] := by decide

def sampleWeaks : List (WeakOp × Nat × Nat) :=
  [(.weak 1, 1, 0), (.weak 2, 2, 0), (.weak 3, 3, 0), (.weak 4, 4, 0), (.weak 5, 5, 0), (.nonWeak 1, 0, 0), (.nonWeak 2, 0, 0)]

example : ((runWeak 20 ⟨emptyMem Nat, 0⟩ sampleWeaks).bind fun w => weakOOPs 20 w.mem) = some [3, 4, 5] := by decide
example : alternating (fun _ => false) (sampleWeaks.map Prod.fst) := by simp [sampleWeaks, alternating, weakStep]

/-- A registry with one array. -/
def oneArray : Mem ArrayEntry := ⟨fun q => if q = 1 then some ⟨0, 0, 0, 1, ⟨70, 90, 1⟩⟩ else none, 1⟩

example : Holds ArrayEntry.first oneArray [⟨70, 90, 1⟩] :=
  ⟨⟨.node 1 1 ⟨70, 90, 1⟩ .nil .nil, ⟨⟨rfl, trivial, trivial⟩, rfl, by simp [Tr.addrs, caddrs], by simp [Tr.addrs, caddrs]⟩,
    ⟨⟨1, (bh_black 1 false 1 _ .nil .nil).2 ⟨0, rfl, rfl, rfl⟩⟩, (nr_nd false 1 1 _ .nil .nil).2 ⟨by simp, trivial, trivial⟩, rfl⟩, rfl⟩,
   List.pairwise_singleton _ _⟩

end Verif.Trees
