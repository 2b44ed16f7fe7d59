import Mathlib.Data.List.Nodup
import Mathlib.Data.List.Perm.Basic
/-!
# Linked binary trees in memory

Common ground of the models of lib-src/rbtrees.c and lib-src/avltrees.c: memory holding nodes with parent, left and
right pointers, and the tree a memory represents.
-/
namespace Verif.Trees

/-- lib-src/rbtrees.h l.88-95 (`rb_node_t`) and lib-src/avltrees.h (`avl_node_t`): the pointers, `rb_color` or `avl_height`
(`tag`), and the fields the user of the library puts after the node (`data`). -/
structure Cell (α : Type) where
  parent : Nat
  left : Nat
  right : Nat
  tag : Nat
  data : α
  deriving DecidableEq, Repr

/-- Memory and the variable that holds the root of the tree.  Addresses that hold no node are `none`; address 0 is
`NULL`. -/
structure Mem (α : Type) where
  heap : Nat → Option (Cell α)
  root : Nat

variable {α : Type}

/-- Dereferencing a pointer; `none` is a crash. -/
def Mem.get (m : Mem α) (p : Nat) : Option (Cell α) := if p = 0 then none else m.heap p

/-- Assigning to a field through a pointer; `none` is a crash. -/
def Mem.modify (m : Mem α) (p : Nat) (f : Cell α → Cell α) : Option (Mem α) :=
  if p = 0 then none
  else match m.heap p with
    | none => none
    | some c => some { m with heap := fun q => if q = p then some (f c) else m.heap q }

def Mem.setParent (m : Mem α) (p v : Nat) : Option (Mem α) := m.modify p fun c => { c with parent := v }
def Mem.setLeft (m : Mem α) (p v : Nat) : Option (Mem α) := m.modify p fun c => { c with left := v }
def Mem.setRight (m : Mem α) (p v : Nat) : Option (Mem α) := m.modify p fun c => { c with right := v }
def Mem.setTag (m : Mem α) (p v : Nat) : Option (Mem α) := m.modify p fun c => { c with tag := v }
def Mem.setData (m : Mem α) (p : Nat) (v : α) : Option (Mem α) := m.modify p fun c => { c with data := v }

/-! Fields by side: `false` is left, `true` is right. -/

def Cell.kid (d : Bool) (c : Cell α) : Nat := bif d then c.right else c.left
def Mem.setKid (d : Bool) (m : Mem α) (p v : Nat) : Option (Mem α) := bif d then m.setRight p v else m.setLeft p v

/-- A node with child `x` on side `d` and `y` on the other side. -/
def mkCell (d : Bool) (p x y tag : Nat) (v : α) : Cell α := bif d then ⟨p, y, x, tag, v⟩ else ⟨p, x, y, tag, v⟩

/-! ## Trees -/

/-- A tree whose nodes carry their address, tag and data. -/
inductive Tr (α : Type) where
  | nil
  | node (a tag : Nat) (v : α) (l r : Tr α)
  deriving DecidableEq, Repr

/-- A node with child `x` on side `d` and `y` on the other side. -/
def nd (d : Bool) (a tag : Nat) (v : α) (x y : Tr α) : Tr α := bif d then .node a tag v y x else .node a tag v x y

/-- One step from a subtree (the hole) to its parent: the hole is on side `d` of node `a`, `sib` on the other side. -/
structure Frame (α : Type) where
  d : Bool
  a : Nat
  tag : Nat
  v : α
  sib : Tr α

def Tr.ptr : Tr α → Nat
  | .nil => 0
  | .node a _ _ _ _ => a

def Tr.addrs : Tr α → List Nat
  | .nil => []
  | .node a _ _ l r => a :: (l.addrs ++ r.addrs)

/-- The path from a subtree to the root. -/
abbrev Ctx (α : Type) := List (Frame α)

def cptr : Ctx α → Nat
  | [] => 0
  | f :: _ => f.a

def caddrs : Ctx α → List Nat
  | [] => []
  | f :: c => f.a :: (f.sib.addrs ++ caddrs c)

/-- The tree with `t` in the hole of the path. -/
def zip (t : Tr α) : Ctx α → Tr α
  | [] => t
  | f :: c => zip (nd f.d f.a f.tag f.v t f.sib) c

/-- The nodes from left to right, with their data. -/
def Tr.inorder : Tr α → List (Nat × α)
  | .nil => []
  | .node a _ v l r => l.inorder ++ (a, v) :: r.inorder

/-- What comes before and after the hole. -/
def lefts : Ctx α → List (Nat × α)
  | [] => []
  | f :: c => lefts c ++ bif f.d then f.sib.inorder ++ [(f.a, f.v)] else []

def rights : Ctx α → List (Nat × α)
  | [] => []
  | f :: c => (bif f.d then [] else (f.a, f.v) :: f.sib.inorder) ++ rights c

/-! ## Representation of a tree in memory -/

def Rep (h : Nat → Option (Cell α)) : Nat → Tr α → Prop
  | _, .nil => True
  | p, .node a tag v l r => h a = some ⟨p, l.ptr, r.ptr, tag, v⟩ ∧ Rep h a l ∧ Rep h a r

def CRep (h : Nat → Option (Cell α)) (root : Nat) : Nat → Ctx α → Prop
  | hole, [] => root = hole
  | hole, f :: c => h f.a = some (mkCell f.d (cptr c) hole f.sib.ptr f.tag f.v) ∧ Rep h f.a f.sib ∧ CRep h root f.a c

/-- Memory holds the tree `zip t c`. -/
structure At (m : Mem α) (t : Tr α) (c : Ctx α) : Prop where
  rep : Rep m.heap (cptr c) t
  crep : CRep m.heap m.root t.ptr c
  nodup : (t.addrs ++ caddrs c).Nodup
  nonnull : 0 ∉ t.addrs ++ caddrs c

/-- Memory holds the tree `t`. -/
def Tree (m : Mem α) (t : Tr α) : Prop := At m t []

/-! ## Lemmas -/

@[simp] theorem ptr_nd (d : Bool) (a tag : Nat) (v : α) (x y : Tr α) : (nd d a tag v x y).ptr = a := by
  cases d <;> rfl

theorem nd_not (d : Bool) (a tag : Nat) (v : α) (x y : Tr α) : nd (!d) a tag v x y = nd d a tag v y x := by
  cases d <;> rfl

theorem mkCell_not (d : Bool) (p x y tag : Nat) (v : α) : mkCell (!d) p x y tag v = mkCell d p y x tag v := by
  cases d <;> rfl

theorem Tr.split (d : Bool) (t : Tr α) : t = .nil ∨ ∃ a tag v x y, t = nd d a tag v x y := by
  cases t with
  | nil => exact .inl rfl
  | node a tag v l r =>
    right
    cases d
    · exact ⟨a, tag, v, l, r, rfl⟩
    · exact ⟨a, tag, v, r, l, rfl⟩

@[simp] theorem kid_mkCell (d : Bool) (p x y tag : Nat) (v : α) : (mkCell d p x y tag v).kid d = x := by
  cases d <;> rfl
@[simp] theorem kid_not_mkCell (d : Bool) (p x y tag : Nat) (v : α) : (mkCell d p x y tag v).kid (!d) = y := by
  cases d <;> rfl
@[simp] theorem parent_mkCell (d : Bool) (p x y tag : Nat) (v : α) : (mkCell d p x y tag v).parent = p := by
  cases d <;> rfl
@[simp] theorem tag_mkCell (d : Bool) (p x y tag : Nat) (v : α) : (mkCell d p x y tag v).tag = tag := by
  cases d <;> rfl
@[simp] theorem data_mkCell (d : Bool) (p x y tag : Nat) (v : α) : (mkCell d p x y tag v).data = v := by
  cases d <;> rfl

theorem rep_nd (h : Nat → Option (Cell α)) (p : Nat) (d : Bool) (a tag : Nat) (v : α) (x y : Tr α) :
    Rep h p (nd d a tag v x y) ↔ h a = some (mkCell d p x.ptr y.ptr tag v) ∧ Rep h a x ∧ Rep h a y := by
  cases d
  · rfl
  · simp only [nd, mkCell, cond_true, Rep]
    exact and_congr_right fun _ => and_comm

theorem perm_addrs_nd (d : Bool) (a tag : Nat) (v : α) (x y : Tr α) :
    (nd d a tag v x y).addrs.Perm (a :: (x.addrs ++ y.addrs)) := by
  cases d
  · exact List.Perm.refl _
  · exact List.Perm.cons _ List.perm_append_comm

theorem at_perm (t : Tr α) (f : Frame α) (c : Ctx α) :
    (t.addrs ++ caddrs (f :: c)).Perm ((nd f.d f.a f.tag f.v t f.sib).addrs ++ caddrs c) := by
  refine List.Perm.trans ?_ ((perm_addrs_nd f.d f.a f.tag f.v t f.sib).append_right _).symm
  simp only [caddrs, List.cons_append, List.append_assoc]
  exact List.perm_middle

/-- Moving the point of view to the parent. -/
theorem At.up {m : Mem α} {d : Bool} {a tag : Nat} {v : α} {t s : Tr α} {c : Ctx α} :
    At m t (⟨d, a, tag, v, s⟩ :: c) ↔ At m (nd d a tag v t s) c := by
  have hp := at_perm t ⟨d, a, tag, v, s⟩ c
  constructor
  · intro h
    refine ⟨?_, ?_, hp.nodup_iff.1 h.nodup, fun hm => h.nonnull (hp.mem_iff.2 hm)⟩
    · rw [rep_nd]
      exact ⟨h.crep.1, h.rep, h.crep.2.1⟩
    · rw [ptr_nd]
      exact h.crep.2.2
  · intro h
    have h1 := (rep_nd _ _ _ _ _ _ _ _).1 h.rep
    refine ⟨h1.2.1, ⟨h1.1, h1.2.2, ?_⟩, hp.nodup_iff.2 h.nodup, fun hm => h.nonnull (hp.mem_iff.1 hm)⟩
    have := h.crep
    rw [ptr_nd] at this
    exact this

/-- Moving the point of view to the other child. -/
theorem At.across {m : Mem α} {d : Bool} {a tag : Nat} {v : α} {t s : Tr α} {c : Ctx α} :
    At m t (⟨d, a, tag, v, s⟩ :: c) ↔ At m s (⟨!d, a, tag, v, t⟩ :: c) := by
  rw [At.up, At.up, nd_not]

theorem at_zip {m : Mem α} {t : Tr α} {c : Ctx α} : At m t c ↔ Tree m (zip t c) := by
  induction c generalizing t with
  | nil => rfl
  | cons f c ih => rw [At.up, ih]; rfl

theorem inorder_nd (d : Bool) (a tag : Nat) (v : α) (x y : Tr α) :
    (nd d a tag v x y).inorder = bif d then y.inorder ++ (a, v) :: x.inorder else x.inorder ++ (a, v) :: y.inorder := by
  cases d <;> rfl

theorem inorder_zip (t : Tr α) (c : Ctx α) : (zip t c).inorder = lefts c ++ t.inorder ++ rights c := by
  induction c generalizing t with
  | nil => simp [zip, lefts, rights]
  | cons f c ih =>
    rw [zip, ih, inorder_nd]
    cases hd : f.d <;> simp [lefts, rights, hd]

theorem addrs_inorder (t : Tr α) : (t.inorder.map Prod.fst).Perm t.addrs := by
  induction t with
  | nil => exact List.Perm.refl _
  | node a tag v l r ihl ihr =>
    simp only [Tr.inorder, Tr.addrs, List.map_append, List.map_cons]
    exact List.perm_middle.trans (List.Perm.cons _ (ihl.append ihr))

theorem ptr_mem {t : Tr α} (h : t ≠ .nil) : t.ptr ∈ t.addrs := by
  cases t with
  | nil => exact absurd rfl h
  | node a tag v l r => simp [Tr.ptr, Tr.addrs]

theorem At.ptr_zero {m : Mem α} {t : Tr α} {c : Ctx α} (h : At m t c) : t.ptr = 0 ↔ t = .nil := by
  constructor
  · intro e
    by_contra hn
    have := ptr_mem hn
    rw [e] at this
    exact h.nonnull (List.mem_append_left _ this)
  · rintro rfl; rfl

theorem At.cptr_zero {m : Mem α} {t : Tr α} {c : Ctx α} (h : At m t c) : cptr c = 0 ↔ c = [] := by
  cases c with
  | nil => simp [cptr]
  | cons f c =>
    simp only [cptr, reduceCtorEq, iff_false]
    intro e
    exact h.nonnull (by simp [caddrs, e])

theorem At.ne_zero {m : Mem α} {d : Bool} {a tag : Nat} {v : α} {x y : Tr α} {c : Ctx α}
    (h : At m (nd d a tag v x y) c) : a ≠ 0 := by
  intro e
  apply h.nonnull
  rw [List.mem_append, (perm_addrs_nd d a tag v x y).mem_iff]
  simp [e]

/-- Reading a node. -/
theorem At.get {m : Mem α} {d : Bool} {a tag : Nat} {v : α} {x y : Tr α} {c : Ctx α}
    (h : At m (nd d a tag v x y) c) : m.get a = some (mkCell d (cptr c) x.ptr y.ptr tag v) := by
  rw [Mem.get, if_neg h.ne_zero]
  exact ((rep_nd _ _ _ _ _ _ _ _).1 h.rep).1

/-- Memory in which only nodes outside of `l` differ. -/
theorem rep_congr {h h' : Nat → Option (Cell α)} {p : Nat} {t : Tr α} (e : ∀ a ∈ t.addrs, h' a = h a) (r : Rep h p t) :
    Rep h' p t := by
  induction t generalizing p with
  | nil => trivial
  | node a tag v l r ihl ihr =>
    simp only [Tr.addrs, List.mem_cons, List.mem_append] at e
    obtain ⟨r1, r2, r3⟩ := r
    exact ⟨by rw [e a (.inl rfl), r1], ihl (fun b hb => e b (.inr (.inl hb))) r2,
      ihr (fun b hb => e b (.inr (.inr hb))) r3⟩

theorem crep_congr {h h' : Nat → Option (Cell α)} {root hole : Nat} {c : Ctx α} (e : ∀ a ∈ caddrs c, h' a = h a)
    (r : CRep h root hole c) : CRep h' root hole c := by
  induction c generalizing hole with
  | nil => exact r
  | cons f c ih =>
    simp only [caddrs, List.mem_cons, List.mem_append] at e
    obtain ⟨r1, r2, r3⟩ := r
    exact ⟨by rw [e _ (.inl rfl), r1], rep_congr (fun b hb => e b (.inr (.inl hb))) r2,
      ih (fun b hb => e b (.inr (.inr hb))) r3⟩

/-- Replacing the contents of the node in focus. -/
theorem At.write {m : Mem α} {d : Bool} {a tag : Nat} {v : α} {x y : Tr α} {c : Ctx α}
    (h : At m (nd d a tag v x y) c) (f : Cell α → Cell α) (tag' : Nat) (v' : α)
    (hf : f (mkCell d (cptr c) x.ptr y.ptr tag v) = mkCell d (cptr c) x.ptr y.ptr tag' v') :
    ∃ m', m.modify a f = some m' ∧ At m' (nd d a tag' v' x y) c := by
  obtain ⟨h1, h2, h3⟩ := (rep_nd _ _ _ _ _ _ _ _).1 h.rep
  have hnd : (a :: (x.addrs ++ y.addrs) ++ caddrs c).Nodup :=
    ((perm_addrs_nd d a tag v x y).append_right _).nodup_iff.1 h.nodup
  rw [List.cons_append] at hnd
  have hnot := (List.nodup_cons.1 hnd).1
  simp only [List.mem_append, not_or] at hnot
  refine ⟨_, by rw [Mem.modify, if_neg h.ne_zero, h1], ?_⟩
  have p1 := (perm_addrs_nd d a tag v x y).append_right (caddrs c)
  have p2 := (perm_addrs_nd d a tag' v' x y).append_right (caddrs c)
  have pp := p1.trans p2.symm
  refine ⟨?_, ?_, pp.nodup_iff.1 h.nodup, fun hm => h.nonnull (pp.mem_iff.2 hm)⟩
  · rw [rep_nd]
    refine ⟨by simp [hf], ?_, ?_⟩
    · exact rep_congr (fun b hb => if_neg (by rintro rfl; exact hnot.1.1 hb)) h2
    · exact rep_congr (fun b hb => if_neg (by rintro rfl; exact hnot.1.2 hb)) h3
  · rw [ptr_nd]
    have := h.crep
    rw [ptr_nd] at this
    exact crep_congr (fun b hb => if_neg (by rintro rfl; exact hnot.2 hb)) this

theorem At.setTag {m : Mem α} {d : Bool} {a tag : Nat} {v : α} {x y : Tr α} {c : Ctx α}
    (h : At m (nd d a tag v x y) c) (tag' : Nat) :
    ∃ m', m.setTag a tag' = some m' ∧ At m' (nd d a tag' v x y) c :=
  h.write _ tag' v (by cases d <;> rfl)

theorem At.setData {m : Mem α} {d : Bool} {a tag : Nat} {v : α} {x y : Tr α} {c : Ctx α}
    (h : At m (nd d a tag v x y) c) (v' : α) :
    ∃ m', m.setData a v' = some m' ∧ At m' (nd d a tag v' x y) c :=
  h.write _ tag v' (by cases d <;> rfl)

end Verif.Trees
