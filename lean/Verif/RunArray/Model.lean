/-
Model of kernel/RunArray.st: a list kept as runs of equal elements, with a
cursor on the run that was looked at last.

Elements are compared with `=`, which is taken to be equality of `α`.  The
Associations of the map belong to the RunArray alone (for a RunArray made from a
Bag they do not: that case is not modelled), so a run is changed in place.
When an operation fails the model does not say what state is left behind.
-/

namespace Verif.RunArray

variable {α : Type} [DecidableEq α]

/-- The only error of interest: an index out of range, of the receiver or of its
map. -/
inductive Err
  | index
  deriving DecidableEq, Repr

/-- The instance variables (kernel/RunArray.st:39).  A run is an element and the number
of its copies. -/
structure RA (α : Type) where
  map : List (α × Int)
  mapIndex : Int
  firstInRun : Int
  lastInRun : Int
  size : Int
  deriving DecidableEq, Repr

/-- `map at: i`. -/
def mapAt (m : List (α × Int)) (i : Int) : Except Err (α × Int) :=
  if i < 1 then .error .index
  else
    match m[(i - 1).toNat]? with
    | some p => .ok p
    | none => .error .index

/-- `(map at: i) value: n`. -/
def setRun (m : List (α × Int)) (i : Int) (n : Int) : List (α × Int) :=
  m.modify (i - 1).toNat (fun p => (p.1, n))

/-- `map add: p afterIndex: i` (kernel/OrderColl.st:146-161), for `i` in range. -/
def mapAdd (m : List (α × Int)) (i : Int) (p : α × Int) : List (α × Int) := m.insertIdx i.toNat p

/-- `map inject: 0 into: [...]` (kernel/RunArray.st:255). -/
def total (m : List (α × Int)) : Int := m.foldr (fun p s => p.2 + s) 0

/-- `map:` and `initialize` (kernel/RunArray.st:232-241, 250-256). -/
def ofMap (m : List (α × Int)) : RA α :=
  match m with
  | [] => ⟨[], 0, 0, 0, 0⟩
  | p :: ps => ⟨p :: ps, 1, 1, p.2, total (p :: ps)⟩

/-- The loop of `SequenceableCollection>>asRunArrayMap` (kernel/RunArray.st:460-470), from
the element `currIndex`. -/
def packLoop (prev : α) (startIndex currIndex : Nat) : List α → List (α × Int)
  | [] => [(prev, (currIndex : Int) - startIndex)]
  | each :: rest =>
    if each = prev then packLoop prev startIndex (currIndex + 1) rest
    else (prev, (currIndex : Int) - startIndex) :: packLoop each currIndex (currIndex + 1) rest

/-- `SequenceableCollection>>asRunArrayMap` (kernel/RunArray.st:450-472): `self at: 1`
fails for an empty collection. -/
def asRunArrayMap : List α → Except Err (List (α × Int))
  | [] => .error .index
  | x :: xs => .ok (packLoop x 1 2 xs)

/-- `asRunArray` (kernel/RunArray.st:402-411). -/
def asRunArray (l : List α) : Except Err (RA α) := (asRunArrayMap l).map ofMap

/-- The loop that goes back (kernel/RunArray.st:314-319).  The count is larger than
the number of runs; `map at:` fails before it is exhausted. -/
def backLoop (m : List (α × Int)) (anIndex : Int) : Nat → Int → Int → Except Err (Int × Int × Int)
  | 0, _, _ => .error .index
  | f + 1, mapIndex, firstInRun =>
    match mapAt m (mapIndex - 1) with
    | .error e => .error e
    | .ok run =>
      if anIndex < firstInRun - run.2 then backLoop m anIndex f (mapIndex - 1) (firstInRun - run.2)
      else .ok (mapIndex - 1, firstInRun - run.2, firstInRun - 1)

/-- The loop that goes on (kernel/RunArray.st:321-326). -/
def onLoop (m : List (α × Int)) (anIndex : Int) : Nat → Int → Int → Except Err (Int × Int × Int)
  | 0, _, _ => .error .index
  | f + 1, mapIndex, lastInRun =>
    match mapAt m (mapIndex + 1) with
    | .error e => .error e
    | .ok run =>
      if lastInRun + run.2 < anIndex then onLoop m anIndex f (mapIndex + 1) (lastInRun + run.2)
      else .ok (mapIndex + 1, lastInRun + 1, lastInRun + run.2)

/-- `updateMapIndexFor:` (kernel/RunArray.st:296-327). -/
def update (r : RA α) (anIndex : Int) : Except Err (RA α) :=
  if anIndex ≥ r.firstInRun ∧ anIndex ≤ r.lastInRun then .ok r
  else if anIndex = 0 then .ok { r with mapIndex := 0, firstInRun := 0, lastInRun := 0 }
  else if anIndex < 0 ∨ anIndex > r.size then .error .index
  else
    match (if anIndex < r.firstInRun then backLoop r.map anIndex (r.map.length + 1) r.mapIndex r.firstInRun
           else onLoop r.map anIndex (r.map.length + 1) r.mapIndex r.lastInRun) with
    | .error e => .error e
    | .ok (a, b, c) => .ok { r with mapIndex := a, firstInRun := b, lastInRun := c }

/-- `at:` (kernel/RunArray.st:67-73). -/
def at_ (r : RA α) (anIndex : Int) : Except Err (RA α × α) :=
  match update r anIndex with
  | .error e => .error e
  | .ok r =>
    match mapAt r.map r.mapIndex with
    | .error e => .error e
    | .ok run => .ok (r, run.1)

/-- `do:` (kernel/RunArray.st:196-201): the elements given to the block.  `timesRepeat:` does
nothing for a number that is not positive. -/
def elements (m : List (α × Int)) : List α := m.flatMap (fun p => List.replicate p.2.toNat p.1)

/-- `first` and `last` (kernel/RunArray.st:85-97). -/
def first (r : RA α) : Except Err α := (mapAt r.map 1).map (·.1)
def last (r : RA α) : Except Err α := (mapAt r.map r.map.length).map (·.1)

/-- `removeAtIndex:` (kernel/RunArray.st:345-367). -/
def removeAtIndex (r : RA α) (anIndex : Int) : Except Err (RA α × α) :=
  match update r anIndex with
  | .error e => .error e
  | .ok r =>
    match mapAt r.map r.mapIndex with
    | .error e => .error e
    | .ok run =>
      let sz := r.size - 1
      if run.2 ≠ 1 then
        .ok ({ r with map := setRun r.map r.mapIndex (run.2 - 1), lastInRun := r.lastInRun - 1, size := sz }, run.1)
      else
        let m := r.map.eraseIdx (r.mapIndex - 1).toNat
        if r.mapIndex > m.length then
          match mapAt m m.length with
          | .error e => .error e
          | .ok p => .ok (⟨m, m.length, sz - p.2 + 1, sz, sz⟩, run.1)
        else
          match mapAt m r.mapIndex with
          | .error e => .error e
          | .ok p => .ok (⟨m, r.mapIndex, r.firstInRun, r.firstInRun + p.2 - 1, sz⟩, run.1)

/-- `removeFirst` and `removeLast` (kernel/RunArray.st:369-381). -/
def removeFirst (r : RA α) : Except Err (RA α × α) := removeAtIndex r 1
def removeLast (r : RA α) : Except Err (RA α × α) := removeAtIndex r r.size

/-- `splitAt:decrementBy:` (kernel/RunArray.st:274-294).  `run` is the run the cursor was
on when the method was entered; nothing returns after either of the two special
cases. -/
def splitAt (r : RA α) (anIndex i : Int) : Except Err (RA α) :=
  if anIndex < 1 then .ok r
  else if anIndex > r.size then .ok r
  else
    match mapAt r.map r.mapIndex with
    | .error e => .error e
    | .ok run =>
      let runIndex := r.mapIndex
      let s : Except Err (RA α × Int) :=
        if anIndex = r.firstInRun then
          (update { r with map := setRun r.map runIndex (run.2 - i) } (anIndex - 1)).map (·, run.2 - i)
        else .ok (r, run.2)
      match s with
      | .error e => .error e
      | .ok (r, v) =>
        let r := if anIndex = r.lastInRun then { r with map := setRun r.map runIndex (v - i) } else r
        let r := { r with map := setRun r.map runIndex (anIndex - r.firstInRun + (1 - i)) }
        .ok { r with map := mapAdd r.map r.mapIndex (run.1, r.lastInRun - anIndex) }

/-- `at:splitAndPut:decrementBy:` (kernel/RunArray.st:212-230). -/
def splitAndPut (r : RA α) (anIndex : Int) (x : α) (i : Int) : Except Err (RA α) :=
  match at_ r (max 1 anIndex) with
  | .error e => .error e
  | .ok (r, y) =>
    if y = x then
      match mapAt r.map r.mapIndex with
      | .error e => .error e
      | .ok run => .ok { r with map := setRun r.map r.mapIndex (run.2 + (1 - i)) }
    else
      match splitAt r anIndex i with
      | .error e => .error e
      | .ok r => .ok { r with map := mapAdd r.map r.mapIndex (x, 1) }

/-- `at:put:` (kernel/RunArray.st:75-83). -/
def atPut (r : RA α) (anIndex : Int) (x : α) : Except Err (RA α) := splitAndPut r anIndex x 1

/-- `add:afterIndex:`, `addFirst:` and `addLast:` (kernel/RunArray.st:142-166). -/
def addAfterIndex (r : RA α) (x : α) (anIndex : Int) : Except Err (RA α) :=
  splitAndPut { r with size := r.size + 1 } anIndex x 0
def addFirst (r : RA α) (x : α) : Except Err (RA α) := addAfterIndex r x 0
def addLast (r : RA α) (x : α) : Except Err (RA α) := addAfterIndex r x r.size

/-- `=` (kernel/RunArray.st:383-388) of two RunArrays: the maps are compared. -/
def eq (r s : RA α) : Bool := r.map == s.map

/-- The loop of `indexOf:startingAt:ifAbsent:` (kernel/RunArray.st:329-343), on a RunArray
of Integers.  `anObject` is not looked at: the key is compared with the index. -/
def indexOfLoop (_anObject anIndex : Int) : Int → List (Int × Int) → Option Int
  | _, [] => none
  | last, each :: rest =>
    if last + 1 ≥ anIndex ∧ each.1 = anIndex then some (last + 1)
    else indexOfLoop _anObject anIndex (last + each.2) rest

def indexOf (r : RA Int) (anObject anIndex : Int) : Option Int := indexOfLoop anObject anIndex 0 r.map

end Verif.RunArray
