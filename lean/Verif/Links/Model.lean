import Mathlib.Logic.Function.Basic
import Mathlib.Data.Nat.Notation
import Mathlib.Data.List.Basic

/-!
# Linked lists (kernel/LinkedList.st, kernel/Link.st)

Links and lists are numbers and `nil` is 0.  Loops take a number of rounds; `endless` means that they did not end in so many.
-/

namespace Verif.Links

/-- The instance variables of all links and lists. -/
structure Heap where
  nextLink : ℕ → ℕ
  firstLink : ℕ → ℕ
  lastLink : ℕ → ℕ

/-- `nextLink:` (kernel/Link.st:100-105). -/
def Heap.setNext (h : Heap) (x y : ℕ) : Heap := { h with nextLink := Function.update h.nextLink x y }

/-- Assignment to `firstLink`. -/
def Heap.setFirst (h : Heap) (l x : ℕ) : Heap := { h with firstLink := Function.update h.firstLink l x }

/-- Assignment to `lastLink`. -/
def Heap.setLast (h : Heap) (l x : ℕ) : Heap := { h with lastLink := Function.update h.lastLink l x }

/-- How a message ends. -/
inductive Out (α : Type) where
  | done (a : α)
  /-- The block was evaluated, or an exception for an index or an empty list was signaled. -/
  | absent
  /-- `nil` did not understand. -/
  | wrong
  | endless
deriving DecidableEq

/-- `addFirst:` (kernel/LinkedList.st:65-72). -/
def addFirst (h : Heap) (l x : ℕ) : Heap :=
  let h := if h.lastLink l = 0 then h.setLast l x else h
  let h := h.setNext x (h.firstLink l)
  h.setFirst l x

/-- `add:`, `addLast:` (kernel/LinkedList.st:57-63, 74-81). -/
def addLast (h : Heap) (l x : ℕ) : Heap :=
  let h := if h.firstLink l = 0 then h.setFirst l x else h
  let h := if h.lastLink l ≠ 0 then h.setNext (h.lastLink l) x else h
  h.setLast l x

/-- The loop of `remove:ifAbsent:` (kernel/LinkedList.st:134-138): the link before, or nothing. -/
def findPrev (next : ℕ → ℕ) (x : ℕ) : ℕ → ℕ → Out ℕ
  | 0, _ => .endless
  | n + 1, prev => if prev = 0 then .absent else if next prev = x then .done prev else findPrev next x n (next prev)

/-- `remove:ifAbsent:` (kernel/LinkedList.st:121-143). -/
def remove (n : ℕ) (h : Heap) (l x : ℕ) : Out (Heap × ℕ) :=
  if x = h.firstLink l then
    if h.firstLink l = 0 then .absent
    else
      let h := h.setFirst l (h.nextLink (h.firstLink l))
      let h := if h.firstLink l = 0 then h.setLast l 0 else h
      .done (h.setNext x 0, x)
  else match findPrev h.nextLink x n (h.firstLink l) with
    | .absent => .absent
    | .wrong => .wrong
    | .endless => .endless
    | .done prev =>
      if x = 0 then .wrong
      else
        let h := h.setNext prev (h.nextLink x)
        let h := if x = h.lastLink l then h.setLast l prev else h
        .done (h.setNext x 0, x)

/-- `removeFirst` (kernel/LinkedList.st:103-110). -/
def removeFirst (n : ℕ) (h : Heap) (l : ℕ) : Out (Heap × ℕ) := remove n h l (h.firstLink l)

/-- `removeLast` (kernel/LinkedList.st:112-119). -/
def removeLast (n : ℕ) (h : Heap) (l : ℕ) : Out (Heap × ℕ) := remove n h l (h.lastLink l)

/-- `do:` of a link (kernel/Link.st:71-80): what the block is evaluated with. -/
def linkDo (next : ℕ → ℕ) : ℕ → ℕ → Out (List ℕ)
  | 0, _ => .endless
  | n + 1, item => if next item = 0 then .done [item] else match linkDo next n (next item) with
    | .done l => .done (item :: l)
    | r => r

/-- `do:` (kernel/LinkedList.st:145-150), `isEmpty` (kernel/LinkedList.st:175-180). -/
def doList (n : ℕ) (h : Heap) (l : ℕ) : Out (List ℕ) := if h.firstLink l = 0 then .done [] else linkDo h.nextLink n (h.firstLink l)

/-- The loop of `size` of a link (kernel/Link.st:82-91). -/
def sizeLoop (next : ℕ → ℕ) : ℕ → ℕ → ℕ → Out ℕ
  | 0, _, _ => .endless
  | n + 1, item, count => if next item = 0 then .done count else sizeLoop next n (next item) (count + 1)

/-- `size` (kernel/LinkedList.st:189-194). -/
def size (n : ℕ) (h : Heap) (l : ℕ) : Out ℕ := if h.firstLink l = 0 then .done 0 else sizeLoop h.nextLink n (h.firstLink l) 1

/-- The loop of `at:` of a link (kernel/Link.st:57-62); it ends with the index at the latest. -/
def atLoop (next : ℕ → ℕ) (index : ℕ) : ℕ → ℕ → ℕ → Out ℕ
  | 0, _, _ => .endless
  | n + 1, i, element =>
    if i = index then .done element
    else if next element = 0 then .absent
    else atLoop next index n (i + 1) (next element)

/-- `at:` (kernel/LinkedList.st:43-50, kernel/Link.st:50-64). -/
def at' (n : ℕ) (h : Heap) (l index : ℕ) : Out ℕ :=
  if h.firstLink l = 0 then .absent else if index ≥ 1 then atLoop h.nextLink index n 1 (h.firstLink l) else .absent

/-- `last` (kernel/LinkedList.st:93-101). -/
def last (h : Heap) (l : ℕ) : Out ℕ := if h.firstLink l = 0 then .absent else .done (h.lastLink l)

/-- The messages that change lists, with the list and the link. -/
inductive Msg where
  | addFirst (l x : ℕ)
  | addLast (l x : ℕ)
  | removeFirst (l : ℕ)
  | removeLast (l : ℕ)
  | remove (l x : ℕ)

/-- What they do and answer; a message that signals or evaluates the block changes nothing and answers 0. -/
def step (n : ℕ) (h : Heap) : Msg → Option (Heap × ℕ)
  | .addFirst l x => some (addFirst h l x, x)
  | .addLast l x => some (addLast h l x, x)
  | .removeFirst l => orSame h (removeFirst n h l)
  | .removeLast l => orSame h (removeLast n h l)
  | .remove l x => orSame h (remove n h l x)
where
  /-- The heap that is left. -/
  orSame (h : Heap) : Out (Heap × ℕ) → Option (Heap × ℕ)
    | .done r => some r
    | .absent => some (h, 0)
    | .wrong => none
    | .endless => none

end Verif.Links
