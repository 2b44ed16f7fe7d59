import Verif.Trees.AVLProofs
import Verif.Trees.RegistryTheorems
import Mathlib.Data.List.Lex
/-!
# The table of C functions (libgst/cint.c): code and properties (C28, C41)
-/
namespace Verif.Trees

/-! ## Code -/

/-- `strcmp` of the C library, on the bytes before the final NUL. -/
def strcmp : List Nat → List Nat → Int
  | [], [] => 0
  | [], _ :: _ => -1
  | _ :: _, [] => 1
  | a :: as, b :: bs => if a = b then strcmp as bs else (a : Int) - b

/-- libgst/cint.c l.91-97 (`cfunc_info`). -/
structure CFunc where
  name : List Nat
  addr : Nat
  deriving DecidableEq, Repr

/-- libgst/cint.c l.694-709: the loop of `_gst_define_cfunc`. -/
def funcDescend (name : List Nat) : Nat → Mem CFunc → Nat → Bool → Nat → Option (Nat × Nat × Bool)
  | 0, _, _, _, _ => none
  | fuel + 1, m, par, side, cur =>
    if cur = 0 then some (0, par, side)
    else match m.get cur with
      | none => none
      | some c =>
        if strcmp name c.data.name < 0 then funcDescend name fuel m cur false c.left
        else if 0 < strcmp name c.data.name then funcDescend name fuel m cur true c.right
        else some (cur, par, side)

/-- libgst/cint.c l.685-719 (`_gst_define_cfunc`); `a` is what `xcalloc` answers (the node is zeroed). -/
def defineCFunc (fuel : Nat) (m : Mem CFunc) (name : List Nat) (addr a : Nat) : Option (Mem CFunc) :=
  match funcDescend name fuel m 0 false m.root with
  | none => none
  | some (0, par, side) => (attach m a par side 0 ⟨name, addr⟩).bind fun m => avlRebalance fuel m a
  | some (p + 1, _, _) => (m.get (p + 1)).bind fun c => m.setData (p + 1) { c.data with addr := addr }

/-- libgst/cint.c l.722-741 (`_gst_lookup_function`); the answer is 0 (`NULL`) if there is no such function. -/
def lookupFrom (name : List Nat) : Nat → Mem CFunc → Nat → Option Nat
  | 0, _, _ => none
  | fuel + 1, m, cfi =>
    if cfi = 0 then some 0
    else match m.get cfi with
      | none => none
      | some c =>
        if strcmp name c.data.name = 0 then some c.data.addr
        else lookupFrom name fuel m (if strcmp name c.data.name < 0 then c.left else c.right)

def lookupFunction (fuel : Nat) (m : Mem CFunc) (name : List Nat) : Option Nat := lookupFrom name fuel m m.root

/-- A sequence of definitions: name, address, and what `xcalloc` would answer. -/
def runDefs (fuel : Nat) : Mem CFunc → List (List Nat × Nat × Nat) → Option (Mem CFunc)
  | m, [] => some m
  | m, (name, addr, a) :: ds => if m.fresh a then (defineCFunc fuel m name addr a).bind fun m => runDefs fuel m ds else none

/-- The names of the functions from `avl_first` with `avl_next` (lib-src/avltrees.c l.213-246, the same code as for
red-black trees). -/
def funcNames (fuel : Nat) (m : Mem CFunc) : Option (List (List Nat)) :=
  (walk fuel m).bind fun l => l.mapM fun a => (m.get a).map fun c => c.data.name

/-! ## Lemmas -/

theorem strcmp_lt (a b : List Nat) : strcmp a b < 0 ↔ a < b := by
  induction a generalizing b with
  | nil => cases b <;> simp [strcmp]
  | cons x a ih =>
    cases b with
    | nil => simp [strcmp]
    | cons y b =>
      rw [strcmp, List.cons_lt_cons_iff]
      split
      · next h => subst h; simp [ih]
      · next h => simp only [h, false_and, or_false]; omega

theorem strcmp_anti (a b : List Nat) : strcmp b a < 0 ↔ 0 < strcmp a b := by
  induction a generalizing b with
  | nil => cases b <;> simp [strcmp]
  | cons x a ih =>
    cases b with
    | nil => simp [strcmp]
    | cons y b =>
      rw [strcmp, strcmp]
      by_cases h : x = y
      · subst h; simp only [if_true]; exact ih b
      · rw [if_neg h, if_neg (Ne.symm h)]; omega

theorem strcmp_eq (a b : List Nat) : strcmp a b = 0 ↔ a = b := by
  induction a generalizing b with
  | nil => cases b <;> simp [strcmp]
  | cons x a ih =>
    cases b with
    | nil => simp [strcmp]
    | cons y b =>
      rw [strcmp]
      split
      · next h => subst h; simp [ih]
      · next h => simp only [List.cons.injEq, h, false_and, iff_false]; omega

theorem funcDescend_eq (name : List Nat) (fuel : Nat) (m : Mem CFunc) (par : Nat) (side : Bool) (cur : Nat) :
    funcDescend name fuel m par side cur = descend CFunc.name name fuel m par side cur := by
  induction fuel generalizing par side cur with
  | zero => rfl
  | succ fuel ih =>
    rw [funcDescend, descend]
    split
    · rfl
    · cases m.get cur with
      | none => rfl
      | some c =>
        simp only [strcmp_lt, ← strcmp_anti, ih]
        by_cases h1 : name < c.data.name
        · rw [if_pos h1, if_pos h1]
        · rw [if_neg h1, if_neg h1]
          by_cases h2 : c.data.name < name
          · rw [if_pos h2, if_pos h2]
          · rw [if_neg h2, if_neg h2]

theorem lookupFrom_eq (name : List Nat) (fuel : Nat) (m : Mem CFunc) (cur : Nat) :
    lookupFrom name fuel m cur = (lookup CFunc.name name fuel m cur).bind fun p =>
      if p = 0 then some 0 else (m.get p).map fun c => c.data.addr := by
  induction fuel generalizing cur with
  | zero => rfl
  | succ fuel ih =>
    rw [lookupFrom, lookup]
    split
    · rfl
    · next h =>
      cases hc : m.get cur with
      | none => rfl
      | some c =>
        dsimp only
        simp only [strcmp_eq, strcmp_lt]
        by_cases hn : name = c.data.name
        · rw [if_pos hn, if_pos hn.symm, Option.bind_some, if_neg h, hc]
          rfl
        · rw [if_neg hn, if_neg (Ne.symm hn)]
          rw [ih]
          by_cases h1 : name < c.data.name
          · rw [if_pos h1, if_pos h1]
          · rw [if_neg h1, if_neg h1]

/-- Memory holds an AVL tree with the given functions in increasing order of names. -/
structure HoldsF (m : Mem CFunc) (l : List CFunc) : Prop where
  tree : ∃ T, Tree m T ∧ AVL T ∧ T.inorder.map Prod.snd = l
  sorted : l.Pairwise fun x y => x.name < y.name

theorem holdsF_empty : HoldsF (emptyMem CFunc) [] :=
  ⟨⟨.nil, ⟨trivial, rfl, by simp [Tr.addrs, caddrs], by simp [Tr.addrs, caddrs]⟩, trivial, rfl⟩, List.Pairwise.nil⟩

/-- Result of the search. -/
theorem HoldsF.descend {m : Mem CFunc} {l : List CFunc} (h : HoldsF m l) (k : List Nat) :
    (∃ a tag v lt rt c, At m (.node a tag v lt rt) c ∧ AVL (zip (.node a tag v lt rt) c) ∧
      l = (lefts c ++ lt.inorder).map Prod.snd ++ v :: (rt.inorder ++ rights c).map Prod.snd ∧ v.name = k ∧
      ∀ fuel, l.length < fuel → ∃ p s, Verif.Trees.descend CFunc.name k fuel m 0 false m.root = some (a, p, s)) ∨
    (∃ c, At m .nil c ∧ AVL (zip .nil c) ∧ l = (lefts c).map Prod.snd ++ (rights c).map Prod.snd ∧
      (∀ x ∈ (lefts c).map Prod.snd, x.name < k) ∧ (∀ x ∈ (rights c).map Prod.snd, k < x.name) ∧
      ∀ fuel, l.length < fuel → Verif.Trees.descend CFunc.name k fuel m 0 false m.root = some (0, cptr c, side c)) := by
  obtain ⟨⟨T, t1, t2, t3⟩, hs⟩ := h
  have hroot : m.root = T.ptr := t1.crep
  have hlen := length_addrs T
  rw [t3] at hlen
  have hs' : Sorted CFunc.name T.inorder := by rw [← sorted_map, t3]; exact hs
  rcases descend_spec CFunc.name k t1 hs' with ⟨a, tag, v, lt, rt, c, p, s, e1, e2, e3, e4⟩ | ⟨p, e1, e2, e3, e4, e5⟩
  · left
    refine ⟨a, tag, v, lt, rt, c, e1, by rw [e2]; exact t2, ?_, e3, ?_⟩
    · rw [← t3, show T = zip T [] from rfl, ← e2, inorder_zip]
      simp [Tr.inorder]
    · intro fuel hf
      rw [hroot]
      exact ⟨p, s, e4 fuel (by omega)⟩
  · right
    rw [List.append_nil] at e1 e5
    refine ⟨p, e1, by rw [e2]; exact t2, ?_, ?_, ?_, ?_⟩
    · rw [← t3, ← e2, inorder_zip]
      simp [Tr.inorder]
    · simpa using fun b a hx => e3 (a, b) hx
    · simpa using fun b a hx => e4 (a, b) hx
    · intro fuel hf
      rw [hroot]
      exact e5 fuel (by omega)

/-- What the list of functions becomes. -/
def defined (name : List Nat) (addr : Nat) (l l' : List CFunc) : Prop :=
  ∀ f, f ∈ l' ↔ f = ⟨name, addr⟩ ∨ f ∈ l ∧ f.name ≠ name

theorem define_spec {fuel : Nat} {m : Mem CFunc} {l : List CFunc} (h : HoldsF m l) (hf : l.length + 1 < fuel) (name : List Nat)
    (addr a : Nat) (hfr : m.fresh a) :
    ∃ m' l', defineCFunc fuel m name addr a = some m' ∧ HoldsF m' l' ∧ defined name addr l l' ∧ l'.length ≤ l.length + 1 := by
  rw [defineCFunc, funcDescend_eq]
  have hs := h.sorted
  rcases h.descend name with ⟨p, ptag, v, lt, rt, c, e1, e2, e3, e4, e5⟩ | ⟨c, e1, e2, e3, e4, e5, e6⟩
  · obtain ⟨q, sd, e5⟩ := e5 fuel (by omega)
    rw [e5]
    have hp0 : p ≠ 0 := (show At m (nd false p ptag v lt rt) c from e1).ne_zero
    obtain ⟨p, rfl⟩ : ∃ n, p = n + 1 := ⟨p - 1, by omega⟩
    have hg : m.get (p + 1) = some ⟨cptr c, lt.ptr, rt.ptr, ptag, v⟩ := (show At m (nd false _ ptag v lt rt) c from e1).get
    dsimp only
    rw [hg, Option.bind_some]
    obtain ⟨m', s1, a1⟩ := At.setData (d := false) e1 ⟨v.name, addr⟩
    obtain ⟨b1, b2⟩ := unzip_avl e2
    rw [e3] at hs
    refine ⟨m', (lefts c ++ lt.inorder).map Prod.snd ++ ⟨v.name, addr⟩ :: (rt.inorder ++ rights c).map Prod.snd, s1,
      ⟨⟨zip (.node (p + 1) ptag ⟨v.name, addr⟩ lt rt) c, at_zip.1 a1, zip_avl b1 b2, ?_⟩, ?_⟩, ?_, by rw [e3]; simp⟩
    · rw [inorder_zip]; simp [Tr.inorder]
    · simp only [List.pairwise_append, List.pairwise_cons, List.mem_cons] at hs ⊢
      refine ⟨hs.1, ⟨fun y hy => hs.2.1.1 y hy, hs.2.1.2⟩, fun x hx y hy => ?_⟩
      rcases hy with rfl | hy
      · exact hs.2.2 x hx v (.inl rfl)
      · exact hs.2.2 x hx _ (.inr hy)
    · intro f
      rw [List.pairwise_append, List.pairwise_cons] at hs
      rw [e3, List.mem_append, List.mem_cons, List.mem_append, List.mem_cons, e4]
      have n1 : f ∈ (lefts c ++ lt.inorder).map Prod.snd → f.name ≠ name := by
        intro hm
        rw [← e4]
        exact ne_of_lt (hs.2.2 f hm v List.mem_cons_self)
      have n2 : f ∈ (rt.inorder ++ rights c).map Prod.snd → f.name ≠ name := by
        intro hm
        rw [← e4]
        exact ne_of_gt (hs.2.1.1 f hm)
      have n3 : f = v → f.name = name := by rintro rfl; exact e4
      tauto
  · rw [e6 fuel (by omega)]
    dsimp only
    have ha : a ∉ caddrs c := by
      have := (at_zip.1 e1).fresh_notMem hfr
      rw [(addrs_zip .nil c).mem_iff] at this
      simpa [Tr.addrs] using this
    have hcl : c.length + 1 < fuel := by
      have h1 := ctx_length_le c
      have h2 := (addrs_zip .nil c).length_eq
      have h3 := length_addrs (zip .nil c)
      rw [e3] at hf
      rw [inorder_zip] at h3
      simp only [Tr.addrs, List.nil_append, Tr.inorder, List.append_nil, List.length_map, List.length_append] at h2 h3 hf
      omega
    obtain ⟨m1, s1, a1⟩ := attach_spec (tag := 0) (v := (⟨name, addr⟩ : CFunc)) e1 ha hfr.1
    obtain ⟨m2, T, s2, t1, t2, t3⟩ := avlRebalance_spec fuel m1 a 0 _ c hcl a1 e2
    rw [s1, Option.bind_some]
    rw [e3] at hs
    refine ⟨m2, (lefts c).map Prod.snd ++ ⟨name, addr⟩ :: (rights c).map Prod.snd, s2, ⟨⟨T, t1, t2, ?_⟩, ?_⟩, ?_, by rw [e3]; simp; omega⟩
    · rw [t3, inorder_zip]
      simp [nd, Tr.inorder]
    · rw [List.pairwise_append] at hs
      simp only [List.pairwise_append, List.pairwise_cons, List.mem_cons]
      refine ⟨hs.1, ⟨e5, hs.2.1⟩, fun x hx y hy => ?_⟩
      rcases hy with rfl | hy
      · exact e4 x hx
      · exact hs.2.2 x hx y hy
    · intro f
      rw [e3, List.mem_append, List.mem_cons, List.mem_append]
      have n1 : f ∈ (lefts c).map Prod.snd → f.name ≠ name := fun hm => ne_of_lt (e4 f hm)
      have n2 : f ∈ (rights c).map Prod.snd → f.name ≠ name := fun hm => ne_of_gt (e5 f hm)
      tauto

theorem lookup_spec {fuel : Nat} {m : Mem CFunc} {l : List CFunc} (h : HoldsF m l) (hf : l.length < fuel) (name : List Nat) :
    (∃ addr, lookupFunction fuel m name = some addr ∧ ⟨name, addr⟩ ∈ l) ∨
    (lookupFunction fuel m name = some 0 ∧ ∀ f ∈ l, f.name ≠ name) := by
  rw [lookupFunction, lookupFrom_eq, lookup_eq_descend _ _ _ _ 0 false]
  rcases h.descend name with ⟨p, ptag, v, lt, rt, c, e1, e2, e3, e4, e5⟩ | ⟨c, e1, e2, e3, e4, e5, e6⟩
  · left
    obtain ⟨q, sd, e5⟩ := e5 fuel hf
    rw [e5]
    have hA : At m (nd false p ptag v lt rt) c := e1
    have hg : m.get p = some ⟨cptr c, lt.ptr, rt.ptr, ptag, v⟩ := hA.get
    refine ⟨v.addr, ?_, by rw [e3, ← e4]; simp⟩
    simp only [Option.map_some, Option.bind_some]
    rw [if_neg hA.ne_zero, hg]
    rfl
  · right
    rw [e6 fuel hf]
    refine ⟨rfl, ?_⟩
    intro f hm
    rw [e3, List.mem_append] at hm
    rcases hm with hm | hm
    · exact ne_of_lt (e4 f hm)
    · exact ne_of_gt (e5 f hm)

/-! ## Specification -/

/-- The address last given to a name, 0 if none was. -/
def lastDefinition (name : List Nat) : List (List Nat × Nat) → Nat → Nat
  | [], cur => cur
  | (n, addr) :: ds, cur => lastDefinition name ds (if n = name then addr else cur)

/-- A path from a node down to a null pointer has at most this length; some path has it. -/
def TallIs {α : Type} (m : Mem α) (p h : Nat) : Prop := NullPath m p h ∧ ∀ n, NullPath m p n → n ≤ h

/-! ## Properties -/

structure FInv (m : Mem CFunc) (cur : List Nat → Option Nat) (l : List CFunc) : Prop where
  holds : HoldsF m l
  mem : ∀ n addr, ⟨n, addr⟩ ∈ l ↔ cur n = some addr

theorem runDefs_inv {fuel : Nat} (ds : List (List Nat × Nat × Nat)) (m m' : Mem CFunc) (cur : List Nat → Option Nat) (l : List CFunc)
    (h : FInv m cur l) (hf : l.length + ds.length + 1 < fuel) (hr : runDefs fuel m ds = some m') :
    ∃ l' cur', FInv m' cur' l' ∧ l'.length ≤ l.length + ds.length ∧
      (∀ n, (cur' n).getD 0 = lastDefinition n (ds.map fun d => (d.1, d.2.1)) ((cur n).getD 0)) ∧
      (∀ n, (cur' n).isSome ↔ (cur n).isSome ∨ n ∈ ds.map Prod.fst) := by
  induction ds generalizing m cur l with
  | nil =>
    simp only [runDefs, Option.some.injEq] at hr
    subst hr
    exact ⟨l, cur, h, by simp, fun n => rfl, by simp⟩
  | cons d ds ih =>
    obtain ⟨name, addr, a⟩ := d
    simp only [List.length_cons] at hf
    rw [runDefs] at hr
    split at hr
    · next hfr =>
      obtain ⟨m1, l1, r1, r2, r3, r4⟩ := define_spec (fuel := fuel) h.holds (by omega) name addr a hfr
      rw [r1, Option.bind_some] at hr
      have hinv : FInv m1 (fun n => if n = name then some addr else cur n) l1 := by
        refine ⟨r2, ?_⟩
        intro n ad
        rw [r3, h.mem]
        simp only [CFunc.mk.injEq]
        by_cases hn : n = name
        · simp only [hn, true_and, ne_eq, not_true_eq_false, and_false, or_false, if_true, Option.some.injEq]
          exact eq_comm
        · simp [hn]
      obtain ⟨l', cur', q1, q2, q3, q4⟩ := ih m1 _ l1 hinv (by omega) hr
      refine ⟨l', cur', q1, by simp only [List.length_cons]; omega, ?_, ?_⟩
      · intro n
        rw [q3]
        simp only [List.map_cons, lastDefinition]
        by_cases hn : n = name
        · simp [hn]
        · simp [hn, Ne.symm hn]
      · intro n
        rw [q4]
        simp only [List.map_cons, List.mem_cons]
        by_cases hn : n = name
        · simp [hn]
        · simp [hn]
    · simp at hr

theorem fInv_empty : FInv (emptyMem CFunc) (fun _ => none) [] := ⟨holdsF_empty, by simp⟩

/-- C41: looking up a function answers the address given by the last definition of that name, or 0. -/
theorem function_table (fuel : Nat) (ds : List (List Nat × Nat × Nat)) (m : Mem CFunc)
    (hr : runDefs fuel (emptyMem CFunc) ds = some m) (hf : ds.length + 1 < fuel) (name : List Nat) :
    lookupFunction fuel m name = some (lastDefinition name (ds.map fun d => (d.1, d.2.1)) 0) := by
  obtain ⟨l, cur, q1, q2, q3, -⟩ := runDefs_inv ds _ _ _ _ fInv_empty (by simp; omega) hr
  simp only [List.length_nil] at q2
  have hq := q3 name
  simp only [Option.getD_none] at hq
  rw [← hq]
  rcases lookup_spec (fuel := fuel) q1.holds (by omega) name with ⟨addr, h1, h2⟩ | ⟨h1, h2⟩
  · rw [h1, (q1.mem name addr).1 h2]; rfl
  · rw [h1]
    cases hc : cur name with
    | none => rfl
    | some addr => exact absurd rfl (h2 _ ((q1.mem name addr).2 hc))

/-- C28: the tree enumerates the names inserted, each once, in increasing order. -/
theorem function_names (fuel : Nat) (ds : List (List Nat × Nat × Nat)) (m : Mem CFunc)
    (hr : runDefs fuel (emptyMem CFunc) ds = some m) (hf : ds.length + 1 < fuel) :
    ∃ l, funcNames fuel m = some l ∧ l.Pairwise (· < ·) ∧ ∀ n, n ∈ l ↔ n ∈ ds.map Prod.fst := by
  obtain ⟨l, cur, q1, q2, -, q3⟩ := runDefs_inv ds _ _ _ _ fInv_empty (by simp; omega) hr
  simp only [List.length_nil] at q2
  obtain ⟨T, t1, -, t3⟩ := q1.holds.tree
  refine ⟨l.map CFunc.name, ?_, ?_, ?_⟩
  · rw [funcNames, walk_data t1 CFunc.name fuel (by rw [length_addrs, t3]; omega), ← t3, List.map_map]
    rfl
  · rw [List.pairwise_map]; exact q1.holds.sorted
  · intro n
    have := q3 n
    simp only [Option.isSome_none, Bool.false_eq_true, false_or] at this
    rw [← this, List.mem_map, Option.isSome_iff_exists]
    constructor
    · rintro ⟨f, hf1, rfl⟩
      exact ⟨f.addr, (q1.mem _ _).1 hf1⟩
    · rintro ⟨addr, ha⟩
      exact ⟨_, (q1.mem n addr).2 ha, rfl⟩

theorem tall_hgt {α : Type} {m : Mem α} (t : Tr α) (c : Ctx α) (h : At m t c) : TallIs m t.ptr (hgt t) := by
  induction t generalizing c with
  | nil =>
    refine ⟨.null, ?_⟩
    intro n hp
    cases hp with
    | null => simp [hgt]
    | left g _ => simp [Mem.get, Tr.ptr] at g
    | right g _ => simp [Mem.get, Tr.ptr] at g
  | node a tag v l r ihl ihr =>
    have hA : At m (nd false a tag v l r) c := h
    have ha0 : a ≠ 0 := hA.ne_zero
    have hg : m.get a = some ⟨cptr c, l.ptr, r.ptr, tag, v⟩ := hA.get
    obtain ⟨l1, l2⟩ := ihl _ (At.up.2 hA)
    obtain ⟨r1, r2⟩ := ihr _ (At.up.2 (show At m (nd true a tag v r l) c from h))
    constructor
    · rw [hgt, Nat.add_comm]
      by_cases hlr : hgt l ≤ hgt r
      · rw [Nat.max_eq_right hlr]; exact .right hg r1
      · rw [Nat.max_eq_left (by omega)]; exact .left hg l1
    · intro n hp
      rw [hgt]
      simp only [Tr.ptr] at hp
      generalize hpa : a = p at hp
      cases hp with
      | null => exact absurd hpa ha0
      | left g hp' =>
        subst hpa
        rw [hg] at g
        simp only [Option.some.injEq] at g
        subst g
        have := l2 _ hp'
        omega
      | right g hp' =>
        subst hpa
        rw [hg] at g
        simp only [Option.some.injEq] at g
        subst g
        have := r2 _ hp'
        omega

theorem avl_at {α : Type} {m : Mem α} (t : Tr α) (c : Ctx α) (h : At m t c) (ha : AVL t) (p : Nat) (hp : p ∈ t.addrs) (cell : Cell α)
    (hg : m.get p = some cell) :
    ∃ hl hr, TallIs m cell.left hl ∧ TallIs m cell.right hr ∧ hl ≤ hr + 1 ∧ hr ≤ hl + 1 ∧ TallIs m p cell.tag := by
  induction t generalizing c with
  | nil => simp [Tr.addrs] at hp
  | node a tag v l r ihl ihr =>
    have hA : At m (nd false a tag v l r) c := h
    have hl := At.up.2 hA
    have hr : At m r (⟨true, a, tag, v, l⟩ :: c) := At.up.2 (show At m (nd true a tag v r l) c from h)
    simp only [Tr.addrs, List.mem_cons, List.mem_append] at hp
    rcases hp with rfl | hp | hp
    · have hga : m.get p = some ⟨cptr c, l.ptr, r.ptr, tag, v⟩ := hA.get
      rw [hga] at hg
      simp only [Option.some.injEq] at hg
      subst hg
      refine ⟨hgt l, hgt r, tall_hgt l _ hl, tall_hgt r _ hr, ha.2.1, ha.2.2.1, ?_⟩
      have := tall_hgt _ _ h
      rw [hgt, ← ha.1] at this
      exact this
    · exact ihl _ hl ha.2.2.2.1 hp
    · exact ihr _ hr ha.2.2.2.2 hp

/-- A node that can be reached from the root. -/
inductive Below {α : Type} (m : Mem α) : Nat → Prop
  | root : m.root ≠ 0 → Below m m.root
  | left {p : Nat} {c : Cell α} : Below m p → m.get p = some c → c.left ≠ 0 → Below m c.left
  | right {p : Nat} {c : Cell α} : Below m p → m.get p = some c → c.right ≠ 0 → Below m c.right

theorem mem_kids {α : Type} {m : Mem α} (t : Tr α) (c : Ctx α) (h : At m t c) (p : Nat) (hp : p ∈ t.addrs) (cell : Cell α)
    (hg : m.get p = some cell) : (cell.left ≠ 0 → cell.left ∈ t.addrs) ∧ (cell.right ≠ 0 → cell.right ∈ t.addrs) := by
  induction t generalizing c with
  | nil => simp [Tr.addrs] at hp
  | node a tag v l r ihl ihr =>
    have hA : At m (nd false a tag v l r) c := h
    have hl := At.up.2 hA
    have hr : At m r (⟨true, a, tag, v, l⟩ :: c) := At.up.2 (show At m (nd true a tag v r l) c from h)
    have key : ∀ (s : Tr α) k, At m s k → s.ptr ≠ 0 → s.ptr ∈ s.addrs := fun s k hs h0 =>
      ptr_mem fun e => h0 (hs.ptr_zero.2 e)
    simp only [Tr.addrs, List.mem_cons, List.mem_append] at hp ⊢
    rcases hp with rfl | hp | hp
    · have hga : m.get p = some ⟨cptr c, l.ptr, r.ptr, tag, v⟩ := hA.get
      rw [hga] at hg
      simp only [Option.some.injEq] at hg
      subst hg
      exact ⟨fun h0 => .inr (.inl (key l _ hl h0)), fun h0 => .inr (.inr (key r _ hr h0))⟩
    · have := ihl _ hl hp
      tauto
    · have := ihr _ hr hp
      tauto

/-- C28: in every node that can be reached from the root, the heights of the two subtrees differ by at most one, and the height it
holds is its height. -/
theorem function_tree_balanced (fuel : Nat) (ds : List (List Nat × Nat × Nat)) (m : Mem CFunc)
    (hr : runDefs fuel (emptyMem CFunc) ds = some m) (hf : ds.length + 1 < fuel) (p : Nat) (hp : Below m p) :
    ∃ cell hl hr, m.get p = some cell ∧ TallIs m cell.left hl ∧ TallIs m cell.right hr ∧ hl ≤ hr + 1 ∧ hr ≤ hl + 1 ∧
      TallIs m p cell.tag := by
  obtain ⟨l, cur, q1, -⟩ := runDefs_inv ds _ _ _ _ fInv_empty (by simp; omega) hr
  obtain ⟨T, t1, t2, -⟩ := q1.holds.tree
  have hmem : p ∈ T.addrs := by
    clear hf hr
    induction hp with
    | root h =>
      have hroot : m.root = T.ptr := t1.crep
      rw [hroot] at h ⊢
      exact ptr_mem fun e => h (At.ptr_zero t1 |>.2 e)
    | left _ hg h ih => exact (mem_kids T [] t1 _ ih _ hg).1 h
    | right _ hg h ih => exact (mem_kids T [] t1 _ ih _ hg).2 h
  obtain ⟨cell, hc⟩ := rep_mem t1.rep p hmem
  have hp0 : p ≠ 0 := fun e => t1.nonnull (List.mem_append_left _ (e ▸ hmem))
  obtain ⟨hl, hr', w⟩ := avl_at T [] t1 t2 p hmem cell (get_eq hc hp0)
  exact ⟨cell, hl, hr', get_eq hc hp0, w⟩

/-- C28: insertions never crash and never loop. -/
theorem function_define_defined (fuel : Nat) (ds : List (List Nat × Nat × Nat)) (m : Mem CFunc)
    (hr : runDefs fuel (emptyMem CFunc) ds = some m) (hf : ds.length + 1 < fuel) (name : List Nat) (addr a : Nat) (hfr : m.fresh a) :
    (defineCFunc fuel m name addr a).isSome := by
  obtain ⟨l, cur, q1, q2, -⟩ := runDefs_inv ds _ _ _ _ fInv_empty (by simp; omega) hr
  simp only [List.length_nil] at q2
  obtain ⟨m', -, h, -⟩ := define_spec (fuel := fuel) q1.holds (by omega) name addr a hfr
  rw [h]; rfl

/-! ## The hypotheses can be met -/

def sampleDefs : List (List Nat × Nat × Nat) :=
  [([109], 11, 1), ([98], 12, 2), ([103], 13, 3), ([97], 14, 4), ([97, 98], 15, 5), ([109], 16, 6), ([122], 17, 7)]

example : (runDefs 20 (emptyMem CFunc) sampleDefs).isSome = true := by decide
example : ((runDefs 20 (emptyMem CFunc) sampleDefs).bind fun m => lookupFunction 20 m [109]) = some 16 := by decide
example : ((runDefs 20 (emptyMem CFunc) sampleDefs).bind fun m => funcNames 20 m) = some [[97], [97, 98], [98], [103], [109], [122]] := by
  decide

end Verif.Trees
