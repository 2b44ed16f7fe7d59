/-!
# OrderedCollection (kernel/OrderColl.st)

An object with named instance variables `firstIndex` and `lastIndex` and a run of indexed slots. `V` is the type of
object references, with `default` in the role of nil. Integers are unbounded; the C primitive holds indices in an `int`, so the model is
faithful below 2^31 slots.
-/
namespace Verif.OrdColl

inductive Err
  | index      -- SystemExceptions.IndexOutOfRange
  | empty      -- SystemExceptions.EmptyCollection
  | notFound   -- SystemExceptions.NotFound
  | prim       -- a primitive failed
  | loop       -- not an error of the code: the bound that the model sets on a loop was reached
  deriving DecidableEq, Repr

abbrev Res := Except Err

structure OC (V : Type) where
  slots : List V
  first : Int
  last : Int
  deriving DecidableEq, Repr

variable {V : Type} [Inhabited V]

/-- nil -/
def nil : V := default

/-- `basicAt:`, `checkIndex:from:` included. -/
def basicAt (l : List V) (i : Int) : Res V :=
  if 1 ≤ i then (match l[(i - 1).toNat]? with | some v => .ok v | none => .error .index) else .error .index

/-- `basicAt:put:` -/
def basicPut (l : List V) (i : Int) (v : V) : Res (List V) :=
  if 1 ≤ i ∧ i ≤ l.length then .ok (l.set (i - 1).toNat v) else .error .index

/-- libgst/prims.def l.3354-3422 (`replaceFrom:to:with:startingAt:`): the checks and the memmove. -/
def replace (dst : List V) (start stop : Int) (src : List V) (srcIndex : Int) : Res (List V) :=
  let len := stop - start + 1
  if len < 0 ∨ stop > dst.length ∨ start ≤ 0 ∨ srcIndex + len - 1 > src.length ∨ (srcIndex ≤ 0 ∧ len > 0) then .error .prim
  else .ok (dst.take (start - 1).toNat ++ (src.drop (srcIndex - 1).toNat).take len.toNat ++ dst.drop stop.toNat)

def OC.basicSize (c : OC V) : Int := c.slots.length

/-- kernel/OrderColl.st l.110-115 (`size`). -/
def OC.size (c : OC V) : Int := c.last - c.first + 1

/-- kernel/OrderColl.st l.440-444 (`initIndices`). -/
def OC.initIndices (c : OC V) : OC V :=
  let f := max (c.basicSize / 2) 1
  { c with first := f, last := f - 1 }

/-- kernel/OrderColl.st l.45-57 (`new:`; `new` is `new: 16`). -/
def OC.new (n : Nat) : OC V := OC.initIndices ⟨List.replicate n nil, 0, 0⟩

/-- kernel/SeqCollect.st l.1113-1116 (`growSize`). -/
def OC.growSize (c : OC V) : Int := max c.size 8

/-- kernel/OrderColl.st l.496-509 (`growBy:shiftBy:`); `become:` puts the new object in the place of the old. -/
def OC.growBy (c : OC V) (delta shift : Int) : Res (OC V) :=
  (replace (List.replicate (c.basicSize + delta).toNat nil) (c.first + shift) (c.last + shift) c.slots c.first).map fun s =>
    ⟨s, c.first + shift, c.last + shift⟩

/-- kernel/OrderColl.st l.468-486 (`shrinkSize`, `shrink`). -/
def OC.shrink (c : OC V) : Res (OC V) :=
  let shrink := c.basicSize / 3
  let shift := min (c.first - 1) (shrink / 2)
  let shrink := min shrink (c.basicSize - (c.last - shift))
  c.growBy (-shrink) (-shift)

/-- `self size < self shrinkSize ifTrue: [self shrink]` -/
def OC.maybeShrink (c : OC V) : Res (OC V) := if c.size < c.basicSize / 3 then c.shrink else .ok c

/-- kernel/OrderColl.st l.452-466 (`makeRoomFirstFor:`, `makeRoomLastFor:`). -/
def OC.makeRoomFirst (c : OC V) (n : Int) : Res (OC V) :=
  if c.first ≤ n then c.growBy (max n c.growSize) (max n c.growSize) else .ok c
def OC.makeRoomLast (c : OC V) (n : Int) : Res (OC V) :=
  if c.last + n > c.basicSize then c.growBy (max n c.growSize) 0 else .ok c

/-- kernel/OrderColl.st l.59-68 (`do:`), `n` the turns left: the elements in the order in which the block gets them. -/
def doLoop (l : List V) : Nat → Int → Res (List V)
  | 0, _ => .ok []
  | n + 1, i => (basicAt l i).bind fun v => (doLoop l n (i + 1)).map (v :: ·)
def OC.elements (c : OC V) : Res (List V) := doLoop c.slots (c.last - c.first + 1).toNat c.first

/-- kernel/OrderColl.st l.70-86 (`first`, `last`). -/
def OC.getFirst (c : OC V) : Res V := if c.last ≥ c.first then basicAt c.slots c.first else .error .index
def OC.getLast (c : OC V) : Res V := if c.last ≥ c.first then basicAt c.slots c.last else .error .index

/-- kernel/OrderColl.st l.88-97 (`at:`). -/
def OC.at (c : OC V) (i : Int) : Res V :=
  let index := i + c.first - 1
  if index ≥ c.first ∧ index ≤ c.last then basicAt c.slots index else .error .index

/-- kernel/OrderColl.st l.99-108 (`at:put:`). -/
def OC.put (c : OC V) (i : Int) (v : V) : Res (OC V) :=
  let index := i + c.first - 1
  if index ≥ c.first ∧ index ≤ c.last then (basicPut c.slots index v).map fun s => { c with slots := s } else .error .index

/-- kernel/OrderColl.st l.117-124, 274-282, 380-388 (`add:`, `addLast:`, `basicAddLast:`). -/
def OC.add (c : OC V) (v : V) : Res (OC V) :=
  (if c.last = c.basicSize then c.growBy c.growSize 0 else .ok c).bind fun c =>
    (basicPut c.slots (c.last + 1) v).map fun s => { c with slots := s, last := c.last + 1 }

/-- kernel/OrderColl.st l.264-272 (`addFirst:`). -/
def OC.addFirst (c : OC V) (v : V) : Res (OC V) :=
  (if c.first ≤ 1 then c.growBy c.growSize c.growSize else .ok c).bind fun c =>
    (basicPut c.slots (c.first - 1) v).map fun s => { c with slots := s, first := c.first - 1 }

/-- The loops of kernel/OrderColl.st l.156-158, 206-208: move `n` slots from position `i` down up by `k`. -/
def shiftLoop (k : Int) : Nat → Int → List V → Res (List V)
  | 0, _, l => .ok l
  | n + 1, i, l => (basicAt l i).bind fun v => (basicPut l (i + k) v).bind fun l => shiftLoop k n (i - 1) l

/-- The loops of kernel/OrderColl.st l.179-182, 210-211, 241-244: store the elements of another collection from position `i` up. -/
def fillLoop : List V → Int → List V → Res (List V)
  | [], _, l => .ok l
  | v :: vs, i, l => (basicPut l i v).bind fun l => fillLoop vs (i + 1) l

/-- kernel/OrderColl.st l.146-161 (`add:afterIndex:`; `add:beforeIndex:` subtracts one from the index). -/
def OC.addAfter (c : OC V) (v : V) (i : Int) : Res (OC V) :=
  if 0 ≤ i ∧ i ≤ c.size then
    let index := i + c.first
    (if c.last = c.basicSize then c.growBy c.growSize 0 else .ok c).bind fun c =>
      (shiftLoop 1 (c.last - index + 1).toNat c.last c.slots).bind fun s =>
        (basicPut s index v).map fun s => { c with slots := s, last := c.last + 1 }
  else .error .index

/-- kernel/OrderColl.st l.171-184, 248-262, 390-404 (`addAll:`, `addAllLast:`, `basicAddAllLast:`), of another collection. -/
def OC.addAll (c : OC V) (vs : List V) : Res (OC V) :=
  (c.makeRoomLast vs.length).bind fun c =>
    (fillLoop vs (c.last + 1) c.slots).map fun s => { c with slots := s, last := c.last + vs.length }

/-- kernel/OrderColl.st l.233-246 (`addAllFirst:`), of another collection. -/
def OC.addAllFirst (c : OC V) (vs : List V) : Res (OC V) :=
  (c.makeRoomFirst vs.length).bind fun c =>
    (fillLoop vs (c.first - vs.length) c.slots).map fun s => { c with slots := s, first := c.first - vs.length }

/-- kernel/OrderColl.st l.196-213 (`addAll:afterIndex:`), of another collection. -/
def OC.addAllAfter (c : OC V) (vs : List V) (i : Int) : Res (OC V) :=
  if 0 ≤ i ∧ i ≤ c.size then
    let index := i + c.first
    (c.makeRoomLast vs.length).bind fun c =>
      (shiftLoop vs.length (c.last - index + 1).toNat c.last c.slots).bind fun s =>
        (fillLoop vs index s).map fun s => { c with slots := s, last := c.last + vs.length }
  else .error .index

/-- kernel/OrderColl.st l.284-299, 406-421 (`removeFirst`). -/
def OC.removeFirst (c : OC V) : Res (V × OC V) :=
  if c.last < c.first then .error .empty
  else (basicAt c.slots c.first).bind fun answer =>
    (basicPut c.slots c.first nil).bind fun s =>
      let c := { c with slots := s }
      (if c.last = c.first then c.initIndices else { c with first := c.first + 1 }).maybeShrink.map fun c => (answer, c)

/-- kernel/OrderColl.st l.301-316, 423-438 (`removeLast`). -/
def OC.removeLast (c : OC V) : Res (V × OC V) :=
  if c.last < c.first then .error .empty
  else (basicAt c.slots c.last).bind fun answer =>
    (basicPut c.slots c.last nil).bind fun s =>
      let c := { c with slots := s }
      (if c.last = c.first then c.initIndices else { c with last := c.last - 1 }).maybeShrink.map fun c => (answer, c)

/-- kernel/OrderColl.st l.360-378 (`basicRemoveAtIndex:`). -/
def OC.basicRemoveAt (c : OC V) (i : Int) : Res (V × OC V) :=
  if c.last < c.first then .error .empty
  else if i < 1 ∨ i > c.size then .error .index
  else (basicAt c.slots (i + c.first - 1)).bind fun answer =>
    (replace c.slots (i + c.first - 1) (c.last - 1) c.slots (i + c.first)).bind fun s =>
      (basicPut s c.last nil).map fun s =>
        let c := { c with slots := s }
        (answer, if c.last = c.first then c.initIndices else { c with last := c.last - 1 })

/-- kernel/OrderColl.st l.349-358 (`removeAtIndex:`). -/
def OC.removeAt (c : OC V) (i : Int) : Res (V × OC V) :=
  (c.basicRemoveAt i).bind fun r => r.2.maybeShrink.map fun c => (r.1, c)

/-- kernel/SeqCollect.st l.394-395: the loop of `indexOf:startingAt:ifAbsent:`, `n` turns from `i`; `eq` is `=`, sent to the element. -/
def indexLoop (eq : V → V → Bool) (c : OC V) (x : V) : Nat → Int → Res (Option Int)
  | 0, _ => .ok none
  | n + 1, i => (c.at i).bind fun v => if eq v x then .ok (some i) else indexLoop eq c x n (i + 1)

/-- kernel/SeqCollect.st l.380-397 (`indexOf:startingAt:ifAbsent:`); `none` when the block is evaluated. -/
def OC.indexOf (eq : V → V → Bool) (c : OC V) (x : V) (i : Int) : Res (Option Int) :=
  if i < 1 ∨ i > c.size then (if i = c.size + 1 then .ok none else .error .index)
  else indexLoop eq c x (c.size - i + 1).toNat i

/-- kernel/OrderColl.st l.338-347 (`remove:ifAbsent:`, the block raising NotFound). -/
def OC.remove (eq : V → V → Bool) (c : OC V) (x : V) : Res (V × OC V) :=
  (c.indexOf eq x 1).bind fun r => match r with | none => .error .notFound | some i => c.removeAt i

/-- kernel/OrderColl.st l.126-144 (`add:after:`, `add:before:`). -/
def OC.addAfterObject (eq : V → V → Bool) (c : OC V) (v old : V) : Res (OC V) :=
  (c.indexOf eq old 1).bind fun r => match r with | none => .error .notFound | some i => c.addAfter v i
def OC.addBeforeObject (eq : V → V → Bool) (c : OC V) (v old : V) : Res (OC V) :=
  (c.indexOf eq old 1).bind fun r => match r with | none => .error .notFound | some i => c.addAfter v (i - 1)

/-! ## A collection added to itself -/

/-- The loop of kernel/OrderColl.st l.179-182 when the argument is the receiver: `do:` (l.64-67) walks slots that the block fills. `n` is a bound on the turns. -/
def selfLoop (last : Int) : Nat → Int → Int → List V → Res (List V)
  | 0, _, _, l => .ok l
  | n + 1, src, dst, l =>
    if src ≤ last then (basicAt l src).bind fun v => (basicPut l dst v).bind fun l => selfLoop last n (src + 1) (dst + 1) l else .ok l

/-- kernel/OrderColl.st l.171-184 (`addAll:` of the receiver itself). -/
def OC.addAllSelf (c : OC V) : Res (OC V) :=
  (c.makeRoomLast c.size).bind fun c =>
    let last' := c.last + c.size
    (selfLoop last' (last' - c.first + 1).toNat c.first (c.last + 1) c.slots).map fun s => { c with slots := s, last := last' }

/-! ## Messages -/

inductive Op (V : Type)
  | add (v : V) | addFirst (v : V) | addAfter (v : V) (i : Int) | addAll (vs : List V) | addAllFirst (vs : List V)
  | addAllAfter (vs : List V) (i : Int) | addAfterObject (v old : V) | addBeforeObject (v old : V)
  | removeFirst | removeLast | removeAt (i : Int) | remove (v : V)
  | at (i : Int) | put (i : Int) (v : V) | first | last | size | indexOf (v : V) (i : Int) | elements

inductive Ans (V : Type)
  | done | val (v : V) | int (i : Int) | idx (i : Option Int) | list (l : List V)
  deriving DecidableEq, Repr

/-- Send one message. -/
def OC.run (eq : V → V → Bool) (c : OC V) : Op V → Res (Ans V × OC V)
  | .add v => (c.add v).map fun c => (.done, c)
  | .addFirst v => (c.addFirst v).map fun c => (.done, c)
  | .addAfter v i => (c.addAfter v i).map fun c => (.done, c)
  | .addAll vs => (c.addAll vs).map fun c => (.done, c)
  | .addAllFirst vs => (c.addAllFirst vs).map fun c => (.done, c)
  | .addAllAfter vs i => (c.addAllAfter vs i).map fun c => (.done, c)
  | .addAfterObject v o => (c.addAfterObject eq v o).map fun c => (.done, c)
  | .addBeforeObject v o => (c.addBeforeObject eq v o).map fun c => (.done, c)
  | .removeFirst => c.removeFirst.map fun r => (.val r.1, r.2)
  | .removeLast => c.removeLast.map fun r => (.val r.1, r.2)
  | .removeAt i => (c.removeAt i).map fun r => (.val r.1, r.2)
  | .remove v => (c.remove eq v).map fun r => (.val r.1, r.2)
  | .at i => (c.at i).map fun v => (.val v, c)
  | .put i v => (c.put i v).map fun c => (.done, c)
  | .first => c.getFirst.map fun v => (.val v, c)
  | .last => c.getLast.map fun v => (.val v, c)
  | .size => .ok (.int c.size, c)
  | .indexOf v i => (c.indexOf eq v i).map fun r => (.idx r, c)
  | .elements => c.elements.map fun l => (.list l, c)

/-- Send messages one after the other; a message that raises an error leaves the collection as it was (all checks come before the first store). -/
def OC.runs (eq : V → V → Bool) : OC V → List (Op V) → List (Res (Ans V)) × OC V
  | c, [] => ([], c)
  | c, o :: os =>
    match c.run eq o with
    | .ok (a, c') => ((.ok a) :: (c'.runs eq os).1, (c'.runs eq os).2)
    | .error e => ((.error e) :: (c.runs eq os).1, (c.runs eq os).2)

end Verif.OrdColl
