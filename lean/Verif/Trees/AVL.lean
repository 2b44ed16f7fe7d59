import Verif.Trees.Search
/-!
# AVL trees: the code
-/
namespace Verif.Trees

variable {α : Type}

/-- lib-src/avltrees.c l.32 (`HEIGHT`).  Heights are `unsigned int` in the code, natural numbers here. -/
def height (m : Mem α) (p : Nat) : Option Nat := if p = 0 then some 0 else (m.get p).map fun c => c.tag

/-- lib-src/avltrees.c l.46-51: the link to `node`, as a side of `parent`. -/
def arcOf (m : Mem α) (parent node : Nat) : Option Bool :=
  if parent = 0 then some false
  else (m.get parent).map fun c => if c.left = node then false else true

/-- `*arc = v`. -/
def storeArc (m : Mem α) (parent : Nat) (arc : Bool) (v : Nat) : Option (Mem α) :=
  if parent = 0 then some { m with root := v } else m.setKid arc parent v

/-- lib-src/avltrees.c l.70-79: single rotation, left side. -/
def singleLeft (m : Mem α) (node nodeleft nodeleftright hgtLeftright parent : Nat) (arc : Bool) : Option (Mem α) := do
  let m ← m.setLeft node nodeleftright
  let m ← m.setTag node (1 + hgtLeftright)
  let m ← m.setParentIf nodeleftright node
  let m ← m.setRight nodeleft node
  let m ← m.setParent node nodeleft
  let m ← m.setTag nodeleft (1 + (← m.get node).tag)
  let m ← m.setParent nodeleft parent
  storeArc m parent arc nodeleft

/-- lib-src/avltrees.c l.113-122: single rotation, right side. -/
def singleRight (m : Mem α) (node noderight noderightleft hgtRightleft parent : Nat) (arc : Bool) : Option (Mem α) := do
  let m ← m.setRight node noderightleft
  let m ← m.setTag node (1 + hgtRightleft)
  let m ← m.setParentIf noderightleft node
  let m ← m.setLeft noderight node
  let m ← m.setParent node noderight
  let m ← m.setTag noderight (1 + (← m.get node).tag)
  let m ← m.setParent noderight parent
  storeArc m parent arc noderight

/-- lib-src/avltrees.c l.90-104: double rotation, left side. -/
def doubleLeft (m : Mem α) (node nodeleft nodeleftright hgtLeft hgtLeftright parent : Nat) (arc : Bool) : Option (Mem α) := do
  let m ← m.setRight nodeleft (← m.get nodeleftright).left
  let m ← m.setLeft node (← m.get nodeleftright).right
  let m ← m.setParentIf (← m.get nodeleft).right nodeleft
  let m ← m.setParentIf (← m.get node).left node
  let m ← m.setLeft nodeleftright nodeleft
  let m ← m.setRight nodeleftright node
  let m ← m.setParent node nodeleftright
  let m ← m.setParent nodeleft nodeleftright
  let m ← m.setTag node hgtLeftright
  let m ← m.setTag nodeleft hgtLeftright
  let m ← m.setTag nodeleftright hgtLeft
  let m ← m.setParent nodeleftright parent
  storeArc m parent arc nodeleftright

/-- lib-src/avltrees.c l.124-138: double rotation, right side. -/
def doubleRight (m : Mem α) (node noderight noderightleft hgtRight hgtRightleft parent : Nat) (arc : Bool) :
    Option (Mem α) := do
  let m ← m.setLeft noderight (← m.get noderightleft).right
  let m ← m.setRight node (← m.get noderightleft).left
  let m ← m.setParentIf (← m.get noderight).left noderight
  let m ← m.setParentIf (← m.get node).right node
  let m ← m.setRight noderightleft noderight
  let m ← m.setLeft noderightleft node
  let m ← m.setParent node noderightleft
  let m ← m.setParent noderight noderightleft
  let m ← m.setTag node hgtRightleft
  let m ← m.setTag noderight hgtRightleft
  let m ← m.setTag noderightleft hgtRight
  let m ← m.setParent noderightleft parent
  storeArc m parent arc noderightleft

/-- lib-src/avltrees.c l.53-105. -/
def fixLeft (m : Mem α) (node nodeleft hgtLeft parent : Nat) (arc : Bool) : Option (Mem α) := do
  let c ← m.get nodeleft
  let hgtLeftright ← height m c.right
  let hgtLeftleft ← height m c.left
  if hgtLeftleft ≥ hgtLeftright then singleLeft m node nodeleft c.right hgtLeftright parent arc
  else doubleLeft m node nodeleft c.right hgtLeft hgtLeftright parent arc

/-- lib-src/avltrees.c l.107-139. -/
def fixRight (m : Mem α) (node noderight hgtRight parent : Nat) (arc : Bool) : Option (Mem α) := do
  let c ← m.get noderight
  let hgtRightleft ← height m c.left
  let hgtRightright ← height m c.right
  if hgtRightright ≥ hgtRightleft then singleRight m node noderight c.left hgtRightleft parent arc
  else doubleRight m node noderight c.left hgtRight hgtRightleft parent arc

/-- lib-src/avltrees.c l.38-148: the loop of `avl_rebalance`. -/
def avlLoop : Nat → Mem α → Nat → Option (Mem α)
  | 0, _, _ => none
  | fuel + 1, m, node =>
    if node = 0 then some m
    else do
      let c ← m.get node
      let hgtLeft ← height m c.left
      let hgtRight ← height m c.right
      let arc ← arcOf m c.parent node
      if hgtRight + 1 < hgtLeft then (fixLeft m node c.left hgtLeft c.parent arc).bind fun m => avlLoop fuel m c.parent
      else if hgtLeft + 1 < hgtRight then (fixRight m node c.right hgtRight c.parent arc).bind fun m => avlLoop fuel m c.parent
      else
        let h := (if hgtLeft < hgtRight then hgtRight else hgtLeft) + 1
        if h = c.tag then some m else (m.setTag node h).bind fun m => avlLoop fuel m c.parent

/-- lib-src/avltrees.c l.34-149 (`avl_rebalance`). -/
def avlRebalance (fuel : Nat) (m : Mem α) (node : Nat) : Option (Mem α) := do
  let m ← m.setTag node 0
  avlLoop fuel m node

end Verif.Trees
