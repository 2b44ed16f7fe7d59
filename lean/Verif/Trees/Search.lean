import Verif.Trees.Walk
import Mathlib.Order.Defs.LinearOrder
/-!
# Looking up and adding nodes, as the clients of the tree libraries do
-/
namespace Verif.Trees

variable {α κ : Type} [LinearOrder κ]

/-! ## Code -/

/-- The loop `while (*p)` of libgst/callin.c l.986-1001 (`_gst_register_oop`), libgst/oop.c l.640-650
(`_gst_make_oop_weak`) and libgst/cint.c l.694-709 (`_gst_define_cfunc`).  The pointer `p` is the link on side `side` of the
node `par` (variable `entry`, `node` or `cfi`), or the root if `par` is 0; `cur` is `*p`.  The answer is the node with the
same key if there is one, with the link otherwise. -/
def descend (key : α → κ) (k : κ) : Nat → Mem α → Nat → Bool → Nat → Option (Nat × Nat × Bool)
  | 0, _, _, _, _ => none
  | fuel + 1, m, par, side, cur =>
    if cur = 0 then some (0, par, side)
    else match m.get cur with
      | none => none
      | some c =>
        if k < key c.data then descend key k fuel m cur false c.left
        else if key c.data < k then descend key k fuel m cur true c.right
        else some (cur, par, side)

/-- The loop `while (entry)` of libgst/callin.c l.1025-1039 (`_gst_unregister_oop`), libgst/oop.c l.616-627
(`_gst_make_oop_non_weak`) and libgst/cint.c l.728-738 (`_gst_lookup_function`); the answer is 0 if there is no such node. -/
def lookup (key : α → κ) (k : κ) : Nat → Mem α → Nat → Option Nat
  | 0, _, _ => none
  | fuel + 1, m, entry =>
    if entry = 0 then some 0
    else match m.get entry with
      | none => none
      | some c => if key c.data = k then some entry else lookup key k fuel m (if k < key c.data then c.left else c.right)

/-- libgst/callin.c l.1003-1008, libgst/oop.c l.652-656, libgst/cint.c l.711-716: a new node at address `a`, stored in the
link `*p`.  The colour is not initialized by the code (any value `tag`). -/
def attach (m : Mem α) (a par : Nat) (side : Bool) (tag : Nat) (v : α) : Option (Mem α) :=
  let m1 : Mem α := { m with heap := fun q => if q = a then some ⟨par, 0, 0, tag, v⟩ else m.heap q }
  if par = 0 then some { m1 with root := a } else m1.setKid side par a

/-- `xfree`. -/
def Mem.free (m : Mem α) (a : Nat) : Mem α := { m with heap := fun q => if q = a then none else m.heap q }

/-- What `xmalloc` can answer. -/
def Mem.fresh (m : Mem α) (a : Nat) : Prop := a ≠ 0 ∧ m.heap a = none

instance (m : Mem α) (a : Nat) : Decidable (m.fresh a) :=
  if h : a ≠ 0 then
    match e : m.heap a with
    | none => isTrue ⟨h, e⟩
    | some _ => isFalse fun x => by rw [x.2] at e; simp at e
  else isFalse fun x => h x.1

/-! ## Lemmas -/

/-- The side of the parent the hole is on. -/
def side : Ctx α → Bool
  | [] => false
  | f :: _ => f.d

def Sorted (key : α → κ) (l : List (Nat × α)) : Prop := l.Pairwise fun x y => key x.2 < key y.2

theorem rep_mem {h : Nat → Option (Cell α)} {p : Nat} {t : Tr α} (r : Rep h p t) : ∀ a ∈ t.addrs, ∃ c, h a = some c := by
  induction t generalizing p with
  | nil => intro a ha; simp [Tr.addrs] at ha
  | node b tag v l r' ihl ihr =>
    obtain ⟨r1, r2, r3⟩ := r
    intro a ha
    simp only [Tr.addrs, List.mem_cons, List.mem_append] at ha
    rcases ha with rfl | ha | ha
    · exact ⟨_, r1⟩
    · exact ihl r2 a ha
    · exact ihr r3 a ha

theorem Tree.fresh_notMem {m : Mem α} {T : Tr α} (h : Tree m T) {a : Nat} (hf : m.fresh a) : a ∉ T.addrs := by
  intro ha
  obtain ⟨c, hc⟩ := rep_mem h.rep a ha
  rw [hf.2] at hc
  simp at hc

theorem Tree.free {m : Mem α} {T : Tr α} (h : Tree m T) {a : Nat} (ha : a ∉ T.addrs) : Tree (m.free a) T := by
  refine ⟨rep_congr (fun b hb => if_neg (by rintro rfl; exact ha hb)) h.rep, h.crep, h.nodup, h.nonnull⟩

/-- A new leaf. -/
theorem attach_spec {m : Mem α} {c : Ctx α} {a tag : Nat} {v : α} (h : At m .nil c) (ha : a ∉ caddrs c) (ha0 : a ≠ 0) :
    ∃ m', attach m a (cptr c) (side c) tag v = some m' ∧ At m' (nd false a tag v .nil .nil) c := by
  have hc := h.crep
  have hnd := h.nodup
  have h0 := h.nonnull
  simp only [Tr.addrs, List.nil_append, Tr.ptr] at hc hnd h0
  have hn : ((nd false a tag v .nil .nil).addrs ++ caddrs c).Nodup ∧ 0 ∉ (nd false a tag v .nil .nil).addrs ++ caddrs c := by
    simp only [nd, cond_false, Tr.addrs, List.append_nil, List.cons_append, List.nil_append, List.nodup_cons, List.mem_cons, not_or]
    exact ⟨⟨ha, hnd⟩, Ne.symm ha0, h0⟩
  cases c with
  | nil =>
    refine ⟨_, rfl, ⟨⟨if_pos rfl, trivial, trivial⟩, rfl, hn.1, hn.2⟩⟩
  | cons f c =>
    obtain ⟨r1, r2, r3⟩ := hc
    have hfa : f.a ≠ 0 := fun e => h0 (by simp [caddrs, e])
    have haf : f.a ≠ a := fun e => ha (by simp [caddrs, e])
    simp only [caddrs, List.nodup_cons, List.mem_append, not_or] at hnd
    rw [attach, if_neg (show cptr (f :: c) ≠ 0 from hfa)]
    rw [show cptr (f :: c) = f.a from rfl, show side (f :: c) = f.d from rfl]
    have e : (m.put a ⟨f.a, 0, 0, tag, v⟩).heap f.a = some (mkCell f.d (cptr c) 0 f.sib.ptr f.tag f.v) := by
      rw [put_other _ _ _ _ haf, r1]
    refine ⟨_, setKid_eq e hfa _ _, ⟨?_, ?_, hn.1, hn.2⟩⟩
    · refine ⟨?_, trivial, trivial⟩
      rw [put_other _ _ _ _ (Ne.symm haf), put_same]
      rfl
    · rw [setKid_mkCell]
      have ha' : a ∉ f.sib.addrs ∧ a ∉ caddrs c := by
        simp only [caddrs, List.mem_cons, List.mem_append, not_or] at ha
        exact ha.2
      exact ⟨put_same _ _ _, rep_put hnd.1.1 (rep_put ha'.1 r2), crep_put hnd.1.2 (crep_put ha'.2 r3)⟩

/-- Where the search ends. -/
theorem descend_spec {m : Mem α} {t : Tr α} {c : Ctx α} (key : α → κ) (k : κ) (h : At m t c) (hs : Sorted key t.inorder) :
    (∃ a tag v l r c' p s, At m (.node a tag v l r) c' ∧ zip (.node a tag v l r) c' = zip t c ∧ key v = k ∧
      ∀ fuel, t.addrs.length < fuel → descend key k fuel m (cptr c) (side c) t.ptr = some (a, p, s)) ∨
    (∃ p, At m .nil (p ++ c) ∧ zip .nil p = t ∧ (∀ x ∈ lefts p, key x.2 < k) ∧ (∀ x ∈ rights p, k < key x.2) ∧
      ∀ fuel, t.addrs.length < fuel → descend key k fuel m (cptr c) (side c) t.ptr = some (0, cptr (p ++ c), side (p ++ c))) := by
  induction t generalizing c with
  | nil =>
    right
    refine ⟨[], h, rfl, by simp [lefts], by simp [rights], ?_⟩
    intro fuel hf
    obtain ⟨fuel, rfl⟩ : ∃ n, fuel = n + 1 := ⟨fuel - 1, by omega⟩
    exact if_pos rfl
  | node a tag v l r ihl ihr =>
    have ha0 : a ≠ 0 := (show At m (nd false a tag v l r) c from h).ne_zero
    have hg : m.get a = some ⟨cptr c, l.ptr, r.ptr, tag, v⟩ := (show At m (nd false a tag v l r) c from h).get
    have step : ∀ fuel, descend key k (fuel + 1) m (cptr c) (side c) a =
        if k < key v then descend key k fuel m a false l.ptr
        else if key v < k then descend key k fuel m a true r.ptr else some (a, cptr c, side c) := by
      intro fuel
      rw [descend, if_neg ha0, hg]
    simp only [Sorted, Tr.inorder, List.pairwise_append, List.pairwise_cons, List.mem_cons] at hs
    obtain ⟨sl, ⟨sv, sr⟩, slr⟩ := hs
    rcases lt_trichotomy k (key v) with hk | hk | hk
    · have hl : At m l (⟨false, a, tag, v, r⟩ :: c) := At.up.2 h
      rcases ihl hl sl with ⟨a', tag', v', l', r', c', p, s, e1, e2, e3, e4⟩ | ⟨p, e1, e2, e3, e4, e5⟩
      · left
        refine ⟨a', tag', v', l', r', c', p, s, e1, e2, e3, ?_⟩
        intro fuel hf
        obtain ⟨fuel, rfl⟩ : ∃ n, fuel = n + 1 := ⟨fuel - 1, by omega⟩
        rw [show (Tr.node a tag v l r).ptr = a from rfl, step, if_pos hk]
        exact e4 fuel (by simp only [Tr.addrs, List.length_cons, List.length_append] at hf; omega)
      · right
        refine ⟨p ++ [⟨false, a, tag, v, r⟩], by simpa using e1, ?_, ?_, ?_, ?_⟩
        · rw [zip_append, e2]; rfl
        · intro x hx
          rw [lefts_append] at hx
          simp only [lefts, cond_false, List.append_nil, List.nil_append] at hx
          exact e3 x hx
        · intro x hx
          rw [rights_append] at hx
          simp only [rights, cond_false, List.append_nil, List.mem_append, List.mem_cons] at hx
          rcases hx with hx | rfl | hx
          · exact e4 x hx
          · exact hk
          · exact lt_trans hk (sv x hx)
        · intro fuel hf
          obtain ⟨fuel, rfl⟩ : ∃ n, fuel = n + 1 := ⟨fuel - 1, by omega⟩
          rw [show (Tr.node a tag v l r).ptr = a from rfl, step, if_pos hk]
          have := e5 fuel (by simp only [Tr.addrs, List.length_cons, List.length_append] at hf; omega)
          rw [List.append_assoc]; exact this
    · left
      refine ⟨a, tag, v, l, r, c, cptr c, side c, h, rfl, hk.symm, ?_⟩
      intro fuel hf
      obtain ⟨fuel, rfl⟩ : ∃ n, fuel = n + 1 := ⟨fuel - 1, by omega⟩
      rw [show (Tr.node a tag v l r).ptr = a from rfl, step, if_neg (by rw [hk]; exact lt_irrefl _),
        if_neg (by rw [hk]; exact lt_irrefl _)]
    · have hr : At m r (⟨true, a, tag, v, l⟩ :: c) := At.up.2 (show At m (nd true a tag v r l) c from h)
      have hnk : ¬ k < key v := not_lt_of_gt hk
      rcases ihr hr sr with ⟨a', tag', v', l', r', c', p, s, e1, e2, e3, e4⟩ | ⟨p, e1, e2, e3, e4, e5⟩
      · left
        refine ⟨a', tag', v', l', r', c', p, s, e1, e2, e3, ?_⟩
        intro fuel hf
        obtain ⟨fuel, rfl⟩ : ∃ n, fuel = n + 1 := ⟨fuel - 1, by omega⟩
        rw [show (Tr.node a tag v l r).ptr = a from rfl, step, if_neg hnk, if_pos hk]
        exact e4 fuel (by simp only [Tr.addrs, List.length_cons, List.length_append] at hf; omega)
      · right
        refine ⟨p ++ [⟨true, a, tag, v, l⟩], by simpa using e1, ?_, ?_, ?_, ?_⟩
        · rw [zip_append, e2]; rfl
        · intro x hx
          rw [lefts_append] at hx
          simp only [lefts, cond_true, List.nil_append, List.mem_append, List.mem_singleton] at hx
          rcases hx with (hx | rfl) | hx
          · exact lt_trans (slr x hx _ (.inl rfl)) hk
          · exact hk
          · exact e3 x hx
        · intro x hx
          rw [rights_append] at hx
          simp only [rights, cond_true, List.append_nil] at hx
          exact e4 x hx
        · intro fuel hf
          obtain ⟨fuel, rfl⟩ : ∃ n, fuel = n + 1 := ⟨fuel - 1, by omega⟩
          rw [show (Tr.node a tag v l r).ptr = a from rfl, step, if_neg hnk, if_pos hk]
          have := e5 fuel (by simp only [Tr.addrs, List.length_cons, List.length_append] at hf; omega)
          rw [List.append_assoc]; exact this

/-- The other search loop finds the same. -/
theorem lookup_eq_descend (key : α → κ) (k : κ) (fuel : Nat) (m : Mem α) (p : Nat) (s : Bool) (cur : Nat) :
    lookup key k fuel m cur = (descend key k fuel m p s cur).map fun x => x.1 := by
  induction fuel generalizing p s cur with
  | zero => rfl
  | succ fuel ih =>
    rw [lookup, descend]
    split
    · rfl
    · split
      · rfl
      · next c _ =>
        rcases lt_trichotomy k (key c.data) with hk | hk | hk
        · rw [if_neg (ne_of_gt hk), if_pos hk, if_pos hk]; exact ih _ _ _
        · rw [if_pos hk.symm, if_neg (by rw [hk]; exact lt_irrefl _), if_neg (by rw [hk]; exact lt_irrefl _)]; rfl
        · rw [if_neg (ne_of_lt hk), if_neg (not_lt_of_gt hk), if_neg (not_lt_of_gt hk), if_pos hk]; exact ih _ _ _

end Verif.Trees
