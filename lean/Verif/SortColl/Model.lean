import Verif.OrdColl.Model
/-!
# SortedCollection (kernel/SortCollect.st)

Sorting is put off: `add:` appends, and `lastOrdered` says how far the slots are in order — sorted if `sorted`, else a heap with its greatest element
first. `blk` is the sort block, assumed to have no effects and to raise no error. `up` is the floating-point test of `makeHeap`
(`added asFloatD * size asFloatD ln < size`), left open: the theorems hold for every `up`.

Loops and recursion carry a bound on the number of turns; running out gives the outcome `Err.loop`.
-/
namespace Verif.SortColl
open Verif.OrdColl

variable {V : Type} [Inhabited V]

/-! ## Sorting the slots -/

/-- kernel/SortCollect.st l.535-544 (`basicSwap:ifAfter:`). -/
def swapIfAfter (blk : V → V → Bool) (l : List V) (i j : Int) : Res (List V) :=
  (basicAt l i).bind fun a => (basicAt l j).bind fun b =>
    if blk a b then .ok l else (basicPut l i b).bind fun l => basicPut l j a

/-- kernel/SortCollect.st l.546-554 (`basicSwap:with:`). -/
def swapWith (l : List V) (i j : Int) : Res (List V) :=
  (basicAt l i).bind fun saved => (basicAt l j).bind fun b => (basicPut l i b).bind fun l => basicPut l j saved

/-- kernel/SortCollect.st l.628-632: the loop that moves `smaller` up. -/
def scanUp (blk : V → V → Bool) (l : List V) (pivot : V) (last : Int) : Nat → Int → Res Int
  | 0, _ => .error .loop
  | n + 1, s =>
    if s ≤ last then (basicAt l s).bind fun v => if blk v pivot then scanUp blk l pivot last n (s + 1) else .ok s else .ok s

/-- kernel/SortCollect.st l.634-638: the loop that moves `larger` down. -/
def scanDown (blk : V → V → Bool) (l : List V) (pivot : V) (first : Int) : Nat → Int → Res Int
  | 0, _ => .error .loop
  | n + 1, g =>
    if g ≥ first then (basicAt l g).bind fun v => if blk pivot v then scanDown blk l pivot first n (g - 1) else .ok g else .ok g

/-- kernel/SortCollect.st l.627-643: the partition loop, giving `smaller`, `larger` and the slots. -/
def partition (blk : V → V → Bool) (pivot : V) (first last : Int) : Nat → Int → Int → List V → Res (Int × Int × List V)
  | 0, _, _, _ => .error .loop
  | n + 1, s, g, l =>
    (scanUp blk l pivot last (last - s + 2).toNat s).bind fun s =>
      (scanDown blk l pivot first (g - first + 2).toNat g).bind fun g =>
        if s < g then (swapWith l s g).bind fun l => partition blk pivot first last n (s + 1) (g - 1) l
        else .ok (s, g, l)

/-- kernel/SortCollect.st l.602-650 (`sortFrom:to:`), `n` the bound on the depth of recursion. -/
def sortFrom (blk : V → V → Bool) : Nat → Int → Int → List V → Res (List V)
  | 0, _, _, _ => .error .loop
  | n + 1, first, last, l =>
    if last - first < 2 then (if last > first then swapIfAfter blk l first last else .ok l)
    else
      let mid := (first + last) / 2
      (swapIfAfter blk l first mid).bind fun l => (swapIfAfter blk l mid last).bind fun l => (swapIfAfter blk l first last).bind fun l =>
        (basicAt l mid).bind fun pivot =>
          (partition blk pivot first last (last - first + 2).toNat first last l).bind fun r =>
            let s := if r.1 > r.2.1 then r.1 else r.1 + 1
            let g := if r.1 > r.2.1 then r.2.1 else r.2.1 - 1
            (if first < g then sortFrom blk n first g r.2.2 else .ok r.2.2).bind fun l =>
              if s < last then sortFrom blk n s last l else .ok l

/-- The bound for a whole sort. -/
def sortSlots (blk : V → V → Bool) (first last : Int) (l : List V) : Res (List V) :=
  sortFrom blk ((2 * (last - first)).toNat + 4) first last l

/-! ## The collection -/

structure SC (V : Type) where
  oc : OC V
  lastOrdered : Int
  sorted : Bool
  deriving DecidableEq, Repr

/-- kernel/SortCollect.st l.353-359 (`initIndices`). -/
def SC.initIndices (s : List V) : SC V := ⟨⟨s, 1, 0⟩, 0, false⟩

/-- kernel/SortCollect.st l.68-79 (`new:`, `new` being `new: 16`). -/
def SC.new (n : Nat) : SC V := SC.initIndices (List.replicate n nil)

/-- kernel/OrderColl.st l.496-509 (`growBy:shiftBy:`) with kernel/SortCollect.st l.312-318 (`copyEmpty:`): the object that takes the place of the receiver was
made by `new:`, so its `lastOrdered` is 0 and its `sorted` false. -/
def SC.growBy (c : SC V) (delta shift : Int) : Res (SC V) := (c.oc.growBy delta shift).map fun o => ⟨o, 0, false⟩

/-- kernel/OrderColl.st l.473-486 (`shrink`, when `size < shrinkSize`), with the `growBy:shiftBy:` above. -/
def SC.maybeShrink (c : SC V) : Res (SC V) :=
  if c.oc.size < c.oc.basicSize / 3 then c.oc.shrink.map fun o => ⟨o, 0, false⟩ else .ok c

/-- kernel/OrderColl.st l.117-124 (`add:`). -/
def SC.add (c : SC V) (v : V) : Res (SC V) :=
  (if c.oc.last = c.oc.basicSize then c.growBy c.oc.growSize 0 else .ok c).bind fun c =>
    (basicPut c.oc.slots (c.oc.last + 1) v).map fun s => { c with oc := { c.oc with slots := s, last := c.oc.last + 1 } }

/-- kernel/SortCollect.st l.361-366 (`makeRoomLastFor:`). -/
def SC.makeRoomLast (c : SC V) (n : Int) : Res (SC V) :=
  if c.oc.last + n > c.oc.basicSize then c.growBy (max n c.oc.growSize) (1 - c.oc.first) else .ok c

/-- kernel/OrderColl.st l.171-184 (`addAll:`), of another collection. -/
def SC.addAll (c : SC V) (vs : List V) : Res (SC V) :=
  (c.makeRoomLast vs.length).bind fun c =>
    (fillLoop vs (c.oc.last + 1) c.oc.slots).map fun s => { c with oc := { c.oc with slots := s, last := c.oc.last + vs.length } }

/-! ## The heap -/

/-- kernel/SortCollect.st l.386-411, 478-499: the loop that moves an element down the heap; the child of `parentIndex` looked at first is `parentIndex + parentIndex`. -/
def sift (blk : V → V → Bool) (delta heapSize : Int) (parent : V) : Nat → Int → List V → Res (List V)
  | 0, _, _ => .error .loop
  | n + 1, parentIndex, l =>
    let childIndex := parentIndex + parentIndex
    if childIndex > heapSize then .ok l
    else (basicAt l (delta + childIndex)).bind fun child =>
      (if childIndex = heapSize then .ok (child, childIndex)
        else (basicAt l (delta + childIndex + 1)).map fun childB =>
          if blk child childB then (childB, childIndex + 1) else (child, childIndex)).bind fun p =>
        if blk p.1 parent then .ok l
        else (basicPut l (delta + p.2) parent).bind fun l => (basicPut l (delta + parentIndex) p.1).bind fun l =>
          sift blk delta heapSize parent n p.2 l

/-- kernel/SortCollect.st l.381-411: the loop of `buildHeap` from `start` down to 1. -/
def buildLoop (blk : V → V → Bool) (delta heapSize : Int) : Nat → List V → Res (List V)
  | 0, l => .ok l
  | start + 1, l => (basicAt l (delta + (start + 1))).bind fun parent =>
      (sift blk delta heapSize parent (heapSize.toNat + 2) (start + 1) l).bind fun l => buildLoop blk delta heapSize start l

/-- kernel/SortCollect.st l.374-411 (`buildHeap`). -/
def SC.buildHeap (blk : V → V → Bool) (c : SC V) : Res (SC V) :=
  (buildLoop blk (c.oc.first - 1) (c.oc.last - (c.oc.first - 1)) ((c.oc.size + 1) / 2).toNat c.oc.slots).map fun s =>
    { c with oc := { c.oc with slots := s } }

/-- kernel/SortCollect.st l.449-458: the loop of `percolateUp`. -/
def upLoop (blk : V → V → Bool) (first : Int) (item : V) : Nat → Int → List V → Res (List V)
  | 0, _, _ => .error .loop
  | n + 1, hole, l =>
    if hole > 0 then
      let parentIndex := (hole - 1) / 2
      (basicAt l (first + parentIndex)).bind fun parent =>
        if blk parent item then (basicPut l (first + hole) parent).bind fun l => upLoop blk first item n parentIndex l
        else basicPut l (first + hole) item
    else basicPut l (first + hole) item

/-- kernel/SortCollect.st l.440-458 (`percolateUp`). -/
def SC.percolateUp (blk : V → V → Bool) (c : SC V) : Res (SC V) :=
  (basicAt c.oc.slots (c.lastOrdered + 1)).bind fun item =>
    (upLoop blk c.oc.first item ((c.lastOrdered + 1).toNat + 2) (c.lastOrdered + 1 - c.oc.first) c.oc.slots).map fun s =>
      { c with oc := { c.oc with slots := s }, lastOrdered := c.lastOrdered + 1 }

def SC.percolateUps (blk : V → V → Bool) : Nat → SC V → Res (SC V)
  | 0, c => .ok c
  | n + 1, c => (c.percolateUp blk).bind fun c => SC.percolateUps blk n c

/-- kernel/SortCollect.st l.460-499 (`percolateDown`). -/
def SC.percolateDown (blk : V → V → Bool) (c : SC V) : Res (SC V) :=
  (swapWith c.oc.slots c.lastOrdered c.oc.first).bind fun s =>
    let delta := c.oc.first - 1
    (basicAt s (delta + 1)).bind fun parent =>
      (sift blk delta (c.lastOrdered - 1 - delta) parent ((c.lastOrdered - 1 - delta).toNat + 2) 1 s).map fun s =>
        { c with oc := { c.oc with slots := s }, lastOrdered := c.lastOrdered - 1 }

def SC.percolateDowns (blk : V → V → Bool) : Nat → SC V → Res (SC V)
  | 0, c => .ok c
  | n + 1, c => (c.percolateDown blk).bind fun c => SC.percolateDowns blk n c

/-- kernel/SortCollect.st l.413-429 (`makeHeap`). -/
def SC.makeHeap (blk : V → V → Bool) (up : Int → Int → Bool) (c : SC V) : Res (SC V) :=
  (if up (c.oc.last - c.lastOrdered) c.oc.size then SC.percolateUps blk (c.oc.last - c.lastOrdered).toNat c else c.buildHeap blk).map fun c =>
    { c with lastOrdered := c.oc.last, sorted := false }

/-- kernel/SortCollect.st l.431-438 (`sortHeap`). -/
def SC.sortHeap (blk : V → V → Bool) (c : SC V) : Res (SC V) :=
  (SC.percolateDowns blk (c.oc.size - 1).toNat c).map fun c => { c with lastOrdered := c.oc.last, sorted := true }

/-! ## Merging -/

/-- kernel/SortCollect.st l.732-748 (`insertionIndexFor:upTo:`). -/
def insertionIndex (blk : V → V → Bool) (l : List V) (x : V) : Nat → Int → Int → Res Int
  | 0, _, _ => .error .loop
  | n + 1, low, high =>
    if low > high then .ok low
    else (basicAt l ((high + low) / 2)).bind fun v =>
      if blk v x then insertionIndex blk l x n ((high + low) / 2 + 1) high else insertionIndex blk l x n low ((high + low) / 2 - 1)

/-- kernel/SortCollect.st l.571-578: the loop of `merge`; the list holds the new elements, greatest first. -/
def mergeLoop (blk : V → V → Bool) (first : Int) : List V → Int → Int → List V → Res (List V)
  | [], _, _, l => .ok l
  | e :: es, i, add, l =>
    (insertionIndex blk l e ((i - first).toNat + 2) first i).bind fun newIndex =>
      (replace l (newIndex + add) (i + add) l newIndex).bind fun l =>
        (basicPut l (newIndex + (add - 1)) e).bind fun l => mergeLoop blk first es (newIndex - 1) (add - 1) l

/-- kernel/SortCollect.st l.555-582 (`merge`). `asSortedCollection:` (kernel/Collection.st l.471-489) copies the elements to the slots from 1 of a new SortedCollection and sorts
them there; the slots it leaves free are not modelled. -/
def SC.merge (blk : V → V → Bool) (c : SC V) : Res (SC V) :=
  (sortSlots blk (c.lastOrdered + 1) c.oc.last c.oc.slots).bind fun s =>
    (doLoop s (c.oc.last - c.lastOrdered).toNat (c.lastOrdered + 1)).bind fun new =>
      (sortSlots blk 1 new.length new).bind fun new =>
        (mergeLoop blk c.oc.first new.reverse (c.oc.last - new.length) new.length s).map fun s =>
          ⟨{ c.oc with slots := s }, c.oc.last, true⟩

/-! ## Messages -/

/-- kernel/SortCollect.st l.233-247 (`beConsistent`). -/
def SC.beConsistent (blk : V → V → Bool) (up : Int → Int → Bool) (c : SC V) : Res (SC V) :=
  if c.lastOrdered < c.oc.first then
    (sortSlots blk c.oc.first c.oc.last c.oc.slots).map fun s => ⟨{ c.oc with slots := s }, c.oc.last, true⟩
  else
    (if c.lastOrdered = c.oc.last then .ok c else if c.sorted then c.merge blk else c.makeHeap blk up).bind fun c =>
      if c.sorted then .ok c else c.sortHeap blk

/-- kernel/SortCollect.st l.136-137, 172-173. -/
def SC.order (blk : V → V → Bool) (up : Int → Int → Bool) (c : SC V) : Res (SC V) :=
  if c.lastOrdered = c.oc.last then .ok c else if c.sorted then c.merge blk else c.makeHeap blk up

/-- kernel/SortCollect.st l.132-141 (`last`). -/
def SC.getLast (blk : V → V → Bool) (up : Int → Int → Bool) (c : SC V) : Res (V × SC V) :=
  (c.order blk up).bind fun c =>
    (if c.sorted then basicAt c.oc.slots c.oc.last else basicAt c.oc.slots c.oc.first).map fun v => (v, c)

/-- kernel/OrderColl.st l.284-299 (`removeFirst` of the superclass, with the `initIndices` and `growBy:shiftBy:` of SortedCollection). -/
def SC.superRemoveFirst (c : SC V) : Res (V × SC V) :=
  if c.oc.last < c.oc.first then .error .empty
  else (basicAt c.oc.slots c.oc.first).bind fun answer =>
    (basicPut c.oc.slots c.oc.first nil).bind fun s =>
      (if c.oc.last = c.oc.first then SC.initIndices s else { c with oc := { c.oc with slots := s, first := c.oc.first + 1 } }).maybeShrink.map fun c => (answer, c)

/-- kernel/OrderColl.st l.423-438 (`basicRemoveLast`, likewise). -/
def SC.basicRemoveLast (c : SC V) : Res (V × SC V) :=
  if c.oc.last < c.oc.first then .error .empty
  else (basicAt c.oc.slots c.oc.last).bind fun answer =>
    (basicPut c.oc.slots c.oc.last nil).bind fun s =>
      (if c.oc.last = c.oc.first then SC.initIndices s else { c with oc := { c.oc with slots := s, last := c.oc.last - 1 } }).maybeShrink.map fun c => (answer, c)

/-- kernel/SortCollect.st l.168-177 (`removeLast`). -/
def SC.removeLast (blk : V → V → Bool) (up : Int → Int → Bool) (c : SC V) : Res (V × SC V) :=
  (c.order blk up).bind fun c => (if c.sorted then .ok c else c.percolateDown blk).bind fun c => c.basicRemoveLast

/-- kernel/OrderColl.st l.360-378 (`basicRemoveAtIndex:`) and kernel/SortCollect.st l.320-335, on a consistent collection. -/
def SC.basicRemoveAt (c : SC V) (i : Int) : Res (V × SC V) :=
  if c.oc.last < c.oc.first then .error .empty
  else if i < 1 ∨ i > c.oc.size then .error .index
  else (basicAt c.oc.slots (i + c.oc.first - 1)).bind fun answer =>
    (replace c.oc.slots (i + c.oc.first - 1) (c.oc.last - 1) c.oc.slots (i + c.oc.first)).bind fun s =>
      (basicPut s c.oc.last nil).map fun s =>
        let c := if c.oc.last = c.oc.first then SC.initIndices s else { c with oc := { c.oc with slots := s, last := c.oc.last - 1 } }
        (answer, { c with lastOrdered := c.oc.last })

/-- kernel/OrderColl.st l.349-358 (`removeAtIndex:`), on a consistent collection. -/
def SC.removeAt (c : SC V) (i : Int) : Res (V × SC V) :=
  (c.basicRemoveAt i).bind fun r => r.2.maybeShrink.map fun c => (r.1, c)

/-- kernel/SortCollect.st l.501-522 (`compare:with:`). -/
def compare (blk : V → V → Bool) (a b : V) : Int := if blk a b = blk b a then 0 else if blk a b then -1 else 1

/-- kernel/SortCollect.st l.688-697: the binary search; `none` if nothing is sort-block-equal. -/
def search (blk : V → V → Bool) (l : List V) (x : V) : Nat → Int → Int → Res (Option Int)
  | 0, _, _ => .error .loop
  | n + 1, i, j =>
    if i > j then .ok none
    else (basicAt l ((i + j + 1) / 2)).bind fun e =>
      if compare blk x e = 0 then .ok (some ((i + j + 1) / 2))
      else if compare blk x e < 0 then search blk l x n i ((i + j + 1) / 2 - 1) else search blk l x n ((i + j + 1) / 2 + 1) j

/-- kernel/SortCollect.st l.709-716, 722-729: the loop that looks from `mid` up, `n` turns. -/
def goUp (blk eq : V → V → Bool) (l : List V) (x : V) : Nat → Int → Res (Option Int)
  | 0, _ => .ok none
  | n + 1, i => (basicAt l i).bind fun e =>
      if compare blk x e = 0 then (if eq x e then .ok (some i) else goUp blk eq l x n (i + 1)) else .ok none

/-- kernel/SortCollect.st l.700-720: the loop that looks from `mid` down; when it ends without a find, the other direction. -/
def goDown (blk eq : V → V → Bool) (l : List V) (x : V) (other : Res (Option Int)) : Nat → Int → Res (Option Int)
  | 0, _ => other
  | n + 1, i => (basicAt l i).bind fun e =>
      if compare blk x e = 0 then (if eq x e then .ok (some i) else goDown blk eq l x other n (i - 1)) else other

/-- kernel/SortCollect.st l.674-730 (`doBinarySearch:low:high:`; the sort block raises no error, so `binarySearch:low:high:` is the same). -/
def binarySearch (blk eq : V → V → Bool) (l : List V) (x : V) (low high : Int) : Res (Option Int) :=
  (search blk l x ((high - low).toNat + 2) low high).bind fun r =>
    match r with
    | none => .ok none
    | some mid => goDown blk eq l x (goUp blk eq l x (high - mid + 1).toNat mid) (mid - low + 1).toNat mid

/-- kernel/SortCollect.st l.270-274: walk back over equal elements. `n` bounds the turns. -/
def backLoop (eq : V → V → Bool) (l : List V) (x : V) (index : Int) : Nat → Int → Int → Res Int
  | 0, _, j => .ok j
  | n + 1, i, j => if j = index then .ok j else (basicAt l (i - 1)).bind fun e => if eq e x then backLoop eq l x index n (i - 1) (j - 1) else .ok j

/-- kernel/SortCollect.st l.264-275: the rest of `indexOf:startingAt:ifAbsent:` on a consistent collection. -/
def SC.indexOfIn (blk eq : V → V → Bool) (c : SC V) (x : V) (index : Int) : Res (Option Int) :=
  (binarySearch blk eq c.oc.slots x (index + c.oc.first - 1) c.oc.last).bind fun r =>
    match r with
    | none => .ok none
    | some i => (backLoop eq c.oc.slots x index (i - c.oc.first + 1).toNat i (i - c.oc.first + 1)).map some

/-- kernel/SortCollect.st l.303-309: the two loops and the answer of `occurrencesOf:`. -/
def lowerLoop (eq : V → V → Bool) (c : OC V) (x : V) : Nat → Int → Res Int
  | 0, i => .ok i
  | n + 1, i => if i > 1 then (c.at i).bind fun e => if eq e x then lowerLoop eq c x n (i - 1) else .ok i else .ok i
def upperLoop (eq : V → V → Bool) (c : OC V) (x : V) (max : Int) : Nat → Int → Res Int
  | 0, i => .ok i
  | n + 1, i => if i < max then (c.at i).bind fun e => if eq e x then upperLoop eq c x max n (i + 1) else .ok i else .ok i

/-- kernel/SortCollect.st l.289-310 (`occurrencesOf:`) on a consistent collection. -/
def SC.occurrencesIn (blk eq : V → V → Bool) (c : SC V) (x : V) : Res Int :=
  (binarySearch blk eq c.oc.slots x c.oc.first c.oc.last).bind fun r =>
    match r with
    | none => .ok 0
    | some upper =>
      (lowerLoop eq c.oc x upper.toNat (upper - 1)).bind fun lower =>
        (upperLoop eq c.oc x c.oc.size c.oc.size.toNat upper).map fun upper => upper - lower - 1

inductive Op (V : Type)
  | add (v : V) | addAll (vs : List V) | removeFirst | removeLast | removeAt (i : Int) | remove (v : V)
  | first | last | at (i : Int) | size | elements | includes (v : V) | indexOf (v : V) (i : Int) | sortBlockSame

/-- Make the collection consistent and go on with it; if that fails the collection is as it was. -/
def withConsistent (blk : V → V → Bool) (up : Int → Int → Bool) (c : SC V) (k : SC V → Res (Ans V × SC V)) : Res (Ans V) × SC V :=
  match c.beConsistent blk up with
  | .error e => (.error e, c)
  | .ok c' => match k c' with
    | .error e => (.error e, c')
    | .ok (a, c'') => (.ok a, c'')

/-- An answer with the collection after; after an error it is as before. -/
def orElse (c : SC V) (r : Res (Ans V × SC V)) : Res (Ans V) × SC V :=
  match r with
  | .error e => (.error e, c)
  | .ok (a, c') => (.ok a, c')

/-- Send one message: kernel/SortCollect.st l.116-177, 249-287, kernel/OrderColl.st l.110-124, 171-184, 338-358. -/
def SC.run (blk eq : V → V → Bool) (up : Int → Int → Bool) (c : SC V) : Op V → Res (Ans V) × SC V
  | .add v => orElse c ((c.add v).map fun c => (.done, c))
  | .addAll vs => orElse c ((c.addAll vs).map fun c => (.done, c))
  | .removeFirst => withConsistent blk up c fun c => c.superRemoveFirst.map fun r => (.val r.1, r.2)
  | .removeLast => orElse c ((c.removeLast blk up).map fun r => (.val r.1, r.2))
  | .removeAt i => withConsistent blk up c fun c => (c.removeAt i).map fun r => (.val r.1, r.2)
  | .remove v =>
    if c.oc.size = 0 then (.error .notFound, c)
    else withConsistent blk up c fun c => (c.indexOfIn blk eq v 1).bind fun r =>
      match r with | none => .error .notFound | some i => (c.removeAt i).map fun r => (.val r.1, r.2)
  | .first => withConsistent blk up c fun c => c.oc.getFirst.map fun v => (.val v, c)
  | .last => orElse c ((c.getLast blk up).map fun r => (.val r.1, r.2))
  | .at i => withConsistent blk up c fun c => (c.oc.at i).map fun v => (.val v, c)
  | .size => (.ok (.int c.oc.size), c)
  | .elements => withConsistent blk up c fun c => c.oc.elements.map fun l => (.list l, c)
  | .includes v => withConsistent blk up c fun c =>
      (binarySearch blk eq c.oc.slots v c.oc.first c.oc.last).map fun r => (.int (if r.isSome then 1 else 0), c)
  | .indexOf v i =>
    if i < 1 ∨ i > c.oc.size then (if i = c.oc.size + 1 then (.ok (.idx none), c) else (.error .index, c))
    else withConsistent blk up c fun c => (c.indexOfIn blk eq v i).map fun r => (.idx r, c)
  | .sortBlockSame => orElse c ((sortSlots blk c.oc.first c.oc.last c.oc.slots).map fun s => (.done, ⟨{ c.oc with slots := s }, c.oc.last, true⟩))

/-- Send messages one after the other. -/
def SC.runs (blk eq : V → V → Bool) (up : Int → Int → Bool) : SC V → List (Op V) → List (Res (Ans V)) × SC V
  | c, [] => ([], c)
  | c, o :: os => ((c.run blk eq up o).1 :: ((c.run blk eq up o).2.runs blk eq up os).1, ((c.run blk eq up o).2.runs blk eq up os).2)

/-- kernel/SortCollect.st l.151-157 (`at:put:`; the second definition in the class, which takes the place of the disabled one of l.91-94). -/
def SC.put (blk : V → V → Bool) (up : Int → Int → Bool) (c : SC V) (i : Int) (v : V) : Res (SC V) :=
  (c.beConsistent blk up).bind fun c => (c.oc.put i v).map fun o => { c with oc := o }

end Verif.SortColl
