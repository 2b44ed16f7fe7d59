import Verif.Trees.Heap
/-!
# Red-black trees: the code
-/
namespace Verif.Trees

variable {α : Type}

/-- lib-src/rbtrees.h l.85-86. -/
abbrev RED : Nat := 0
abbrev BLACK : Nat := 1

/-- `if (p) p->rb_parent = v;`. -/
def Mem.setParentIf (m : Mem α) (p v : Nat) : Option (Mem α) := if p ≠ 0 then m.setParent p v else some m

/-- `if (p) p->rb_color = v;`. -/
def Mem.setTagIf (m : Mem α) (p v : Nat) : Option (Mem α) := if p ≠ 0 then m.setTag p v else some m

/-- lib-src/rbtrees.c l.41-49, l.256-264, l.273-281 and l.298-306: `child` takes the place of `node` in the link from
`parent`, which is looked for in the left pointer first. -/
def relink (m : Mem α) (parent node child : Nat) : Option (Mem α) :=
  if parent ≠ 0 then do
    if node = (← m.get parent).left then m.setLeft parent child else m.setRight parent child
  else some { m with root := child }

/-- lib-src/rbtrees.c l.62-70: the same, looked for in the right pointer first. -/
def relinkRight (m : Mem α) (parent node child : Nat) : Option (Mem α) :=
  if parent ≠ 0 then do
    if node = (← m.get parent).right then m.setRight parent child else m.setLeft parent child
  else some { m with root := child }

/-- lib-src/rbtrees.c l.32-51 (`rb_rotate_left`). -/
def rotateLeft (m : Mem α) (node : Nat) : Option (Mem α) := do
  let right := (← m.get node).right
  let m ← m.setRight node (← m.get right).left
  let m ← m.setParentIf (← m.get node).right node
  let m ← m.setLeft right node
  let m ← m.setParent right (← m.get node).parent
  let m ← relink m (← m.get right).parent node right
  m.setParent node right

/-- lib-src/rbtrees.c l.53-72 (`rb_rotate_right`). -/
def rotateRight (m : Mem α) (node : Nat) : Option (Mem α) := do
  let left := (← m.get node).left
  let m ← m.setLeft node (← m.get left).right
  let m ← m.setParentIf (← m.get node).left node
  let m ← m.setRight left node
  let m ← m.setParent left (← m.get node).parent
  let m ← relinkRight m (← m.get left).parent node left
  m.setParent node left

/-- A null pointer, or a black node: `!p || p->rb_color == RB_BLACK`. -/
def nullOrBlack (m : Mem α) (p : Nat) : Option Bool :=
  if p = 0 then some true else (m.get p).map fun c => c.tag == BLACK

/-- `p && p->rb_color == RB_RED`. -/
def nonNullRed (m : Mem α) (p : Nat) : Option Bool :=
  if p = 0 then some false else (m.get p).map fun c => c.tag == RED

/-- lib-src/rbtrees.c l.94-101 and l.121-128: a rotation when the node is an inner grandchild; answers the memory and
the variables `parent` and `node`, which are exchanged. -/
def straighten (m : Mem α) (parent node : Nat) : Option (Mem α × Nat × Nat) := do
  if (← m.get parent).right = node then (rotateLeft m parent).map fun m => (m, node, parent)
  else some (m, parent, node)

def straightenRight (m : Mem α) (parent node : Nat) : Option (Mem α × Nat × Nat) := do
  if (← m.get parent).left = node then (rotateRight m parent).map fun m => (m, node, parent)
  else some (m, parent, node)

/-- lib-src/rbtrees.c l.74-141 (`rb_rebalance`): the `while` loop; `none` is a crash or more than `fuel` iterations. -/
def rebalanceLoop : Nat → Mem α → Nat → Option (Mem α)
  | 0, _, _ => none
  | fuel + 1, m, node => do
    let parent := (← m.get node).parent
    if parent = 0 then some m
    else if (← m.get parent).tag ≠ RED then some m
    else
      let gparent := (← m.get parent).parent
      if parent = (← m.get gparent).left then
        let uncle := (← m.get gparent).right
        let red ← nonNullRed m uncle
        if red then
          let m ← m.setTag uncle BLACK
          let m ← m.setTag parent BLACK
          let m ← m.setTag gparent RED
          rebalanceLoop fuel m gparent
        else
          let (m, parent, node) ← straighten m parent node
          let m ← m.setTag parent BLACK
          let m ← m.setTag gparent RED
          let m ← rotateRight m gparent
          rebalanceLoop fuel m node
      else
        let uncle := (← m.get gparent).left
        let red ← nonNullRed m uncle
        if red then
          let m ← m.setTag uncle BLACK
          let m ← m.setTag parent BLACK
          let m ← m.setTag gparent RED
          rebalanceLoop fuel m gparent
        else
          let (m, parent, node) ← straightenRight m parent node
          let m ← m.setTag parent BLACK
          let m ← m.setTag gparent RED
          let m ← rotateLeft m gparent
          rebalanceLoop fuel m node

/-- lib-src/rbtrees.c l.74-141 (`rb_rebalance`). -/
def rebalance (fuel : Nat) (m : Mem α) (node : Nat) : Option (Mem α) := do
  let m ← m.setTag node RED
  let m ← rebalanceLoop fuel m node
  m.setTag m.root BLACK

/-- lib-src/rbtrees.c l.153-160: a red sibling is brought up; answers the memory and the variable `other`. -/
def liftRed (m : Mem α) (parent other : Nat) : Option (Mem α × Nat) := do
  if (← m.get other).tag = RED then
    let m ← m.setTag other BLACK
    let m ← m.setTag parent RED
    let m ← rotateLeft m parent
    pure (m, (← m.get parent).right)
  else some (m, other)

/-- lib-src/rbtrees.c l.191-198: the mirror image. -/
def liftRedRight (m : Mem α) (parent other : Nat) : Option (Mem α × Nat) := do
  if (← m.get other).tag = RED then
    let m ← m.setTag other BLACK
    let m ← m.setTag parent RED
    let m ← rotateRight m parent
    pure (m, (← m.get parent).left)
  else some (m, other)

/-- lib-src/rbtrees.c l.161-163 and l.199-201: both children of `other` are null or black.  Simplification: the second test
is evaluated even when the first fails; it has no effect. -/
def bothBlack (m : Mem α) (other : Nat) : Option Bool := do
  let l ← nullOrBlack m (← m.get other).left
  let r ← nullOrBlack m (← m.get other).right
  pure (l && r)

/-- lib-src/rbtrees.c l.170-178: when the outer child of `other` is null or black. -/
def liftInner (m : Mem α) (parent other : Nat) : Option (Mem α × Nat) := do
  if ← nullOrBlack m (← m.get other).right then
    let m ← m.setTagIf (← m.get other).left BLACK
    let m ← m.setTag other RED
    let m ← rotateRight m other
    pure (m, (← m.get parent).right)
  else some (m, other)

/-- lib-src/rbtrees.c l.208-216: the mirror image. -/
def liftInnerRight (m : Mem α) (parent other : Nat) : Option (Mem α × Nat) := do
  if ← nullOrBlack m (← m.get other).left then
    let m ← m.setTagIf (← m.get other).right BLACK
    let m ← m.setTag other RED
    let m ← rotateLeft m other
    pure (m, (← m.get parent).left)
  else some (m, other)

/-- lib-src/rbtrees.c l.144-230 (`rb_erase_rebalance`): the `while` loop.  Answers the memory and the variable `child`
when the loop ends. -/
def eraseLoop : Nat → Mem α → Nat → Nat → Option (Mem α × Nat)
  | 0, _, _, _ => none
  | fuel + 1, m, child, parent => do
    if !(← nullOrBlack m child) || child == m.root then some (m, child)
    else if (← m.get parent).left = child then
      let (m, other) ← liftRed m parent (← m.get parent).right
      if ← bothBlack m other then
        let m ← m.setTag other RED
        let child := parent
        eraseLoop fuel m child (← m.get child).parent
      else
        let (m, other) ← liftInner m parent other
        let m ← m.setTag other (← m.get parent).tag
        let m ← m.setTag parent BLACK
        let m ← m.setTagIf (← m.get other).right BLACK
        let m ← rotateLeft m parent
        some (m, m.root)
    else
      let (m, other) ← liftRedRight m parent (← m.get parent).left
      if ← bothBlack m other then
        let m ← m.setTag other RED
        let child := parent
        eraseLoop fuel m child (← m.get child).parent
      else
        let (m, other) ← liftInnerRight m parent other
        let m ← m.setTag other (← m.get parent).tag
        let m ← m.setTag parent BLACK
        let m ← m.setTagIf (← m.get other).left BLACK
        let m ← rotateRight m parent
        some (m, m.root)

/-- lib-src/rbtrees.c l.144-230 (`rb_erase_rebalance`). -/
def eraseRebalance (fuel : Nat) (m : Mem α) (child parent : Nat) : Option (Mem α) := do
  let (m, child) ← eraseLoop fuel m child parent
  m.setTagIf child BLACK

/-- Descending to the left as far as possible: lib-src/rbtrees.c l.247-249, l.330-332 and l.351-352. -/
def leftmost : Nat → Mem α → Nat → Option Nat
  | 0, _, _ => none
  | fuel + 1, m, node => do
    let left := (← m.get node).left
    if left = 0 then some node else leftmost fuel m left

/-- lib-src/rbtrees.c l.254-264 and l.296-306: `child` takes the place of its parent `node`. -/
def unlink (m : Mem α) (parent node child : Nat) : Option (Mem α) := do
  let m ← m.setParentIf child parent
  relink m parent node child

/-- lib-src/rbtrees.c l.268-285: `node`, which is not in the tree any more, takes the place of `old`. -/
def takePlace (m : Mem α) (old node : Nat) : Option (Mem α) := do
  let m ← m.setParent node (← m.get old).parent
  let m ← m.setTag node (← m.get old).tag
  let m ← m.setRight node (← m.get old).right
  let m ← m.setLeft node (← m.get old).left
  let m ← relink m (← m.get old).parent old node
  let m ← m.setParent (← m.get old).left node
  m.setParentIf (← m.get old).right node

/-- lib-src/rbtrees.c l.233-310 (`rb_erase`). -/
def erase (fuel : Nat) (m : Mem α) (node : Nat) : Option (Mem α) := do
  let nc ← m.get node
  if nc.left ≠ 0 ∧ nc.right ≠ 0 then
    let old := node
    let node ← leftmost fuel m nc.right
    let yc ← m.get node
    let child := yc.right
    let parent := yc.parent
    let color := yc.tag
    let m ← unlink m parent node child
    let parent := if (← m.get node).parent = old then node else parent
    let m ← takePlace m old node
    if color = BLACK then eraseRebalance fuel m child parent else some m
  else
    let child := if nc.left = 0 then nc.right else nc.left
    let parent := nc.parent
    let color := nc.tag
    let m ← unlink m parent node child
    if color = BLACK then eraseRebalance fuel m child parent else some m

/-- lib-src/rbtrees.c l.324-336 (`rb_first`); the answer is 0 for an empty tree. -/
def first (fuel : Nat) (m : Mem α) : Option Nat := if m.root = 0 then some 0 else leftmost fuel m m.root

/-- lib-src/rbtrees.c l.344-348 (`rb_next`): `while ((q = p->rb_parent) != NULL && p != q->rb_left) p = q`. -/
def climb : Nat → Mem α → Nat → Option Nat
  | 0, _, _ => none
  | fuel + 1, m, p => do
    let q := (← m.get p).parent
    if q = 0 then some 0
    else if p ≠ (← m.get q).left then climb fuel m q
    else some q

/-- lib-src/rbtrees.c l.338-357 (`rb_next`). -/
def next (fuel : Nat) (m : Mem α) (p : Nat) : Option Nat := do
  let q := (← m.get p).right
  if q = 0 then climb fuel m p else leftmost fuel m q

/-- `for (node = rb_first (root, &t); node; node = rb_next (&t))`, as in libgst/callin.c l.1102-1107: the nodes visited. -/
def walkFrom : Nat → Nat → Mem α → Nat → Option (List Nat)
  | 0, _, _, _ => none
  | fuel + 1, fuel', m, node =>
    if node = 0 then some []
    else do
      let q ← next fuel' m node
      (walkFrom fuel fuel' m q).map fun l => node :: l

def walk (fuel : Nat) (m : Mem α) : Option (List Nat) := do walkFrom fuel fuel m (← first fuel m)

end Verif.Trees
