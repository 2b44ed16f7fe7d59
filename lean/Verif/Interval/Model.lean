import Mathlib.Data.Rat.Floor

/-
Model of kernel/Interval.st and of the iterators of kernel/Number.st, on exact
numbers (Integers and Fractions), whose arithmetic is that of the rationals.

A block is a pure function; what `do:` does is the list of the values it passes
to the block.  Loops take a number of steps; `none` means that it was not
enough.
-/

namespace Verif.Interval

/-- Errors: division by zero, IndexOutOfRange, ArgumentOutOfRange and
InvalidArgument. -/
inductive Err
  | zeroDivide | index | argument
  deriving DecidableEq, Repr

/-- The instance variables (kernel/Interval.st:35-36). -/
structure Ivl where
  start : Rat
  stop : Rat
  step : Rat
  deriving DecidableEq, Repr

/-- The loop of `do:`, `collect:` and `to:by:do:` (kernel/Interval.st:93-101,
kernel/Number.st:990-998): the test depends on the sign of the step. -/
def loop (up : Bool) (stop step : Rat) : Nat → Rat → Option (List Rat)
  | 0, _ => none
  | f + 1, i =>
    if (if up then i ≤ stop else i ≥ stop) then
      match loop up stop step f (i + step) with
      | none => none
      | some l => some (i :: l)
    else some []

/-- `do:` (kernel/Interval.st:87-101). -/
def doo (I : Ivl) (f : Nat) : Option (List Rat) := loop (I.step > 0) I.stop I.step f I.start

/-- `Number>>to:by:do:` (kernel/Number.st:982-999). -/
def toByDo (f : Nat) (self stop step : Rat) : Option (List Rat) := loop (step > 0) stop step f self

/-- `Number>>to:do:` (kernel/Number.st:1001-1012). -/
def toDo (f : Nat) (self stop : Rat) : Option (List Rat) := loop true stop 1 f self

/-- `//`, an error for zero (kernel/Number.st, kernel/Fraction.st). -/
def floorDiv (a b : Rat) : Except Err Int := if b = 0 then .error .zeroDivide else .ok ⌊a / b⌋
/-- `\\`, an error for zero. -/
def floorMod (a b : Rat) : Except Err Rat := if b = 0 then .error .zeroDivide else .ok (a - b * ⌊a / b⌋)

/-- The number of elements, of `Interval>>size` (kernel/Interval.st:141-148) and of
`to:by:collect:` (kernel/Number.st:1037-1039). -/
def count (start stop step : Rat) : Except Err Int :=
  if step > 0 then
    if stop ≥ start then (floorDiv (stop - start) step).map (· + 1) else .ok 0
  else if start ≥ stop then (floorDiv (stop - start) step).map (· + 1) else .ok 0

/-- `size` (kernel/Interval.st:141-148). -/
def size (I : Ivl) : Except Err Int := count I.start I.stop I.step

/-- `isEmpty` (kernel/Interval.st:134-139). -/
def isEmpty (I : Ivl) : Bool := (I.step > 0) == (I.stop < I.start)

/-- `at:` (kernel/Interval.st:165-172). -/
def at_ (I : Ivl) (index : Int) : Except Err Rat :=
  match size I with
  | .error e => .error e
  | .ok n => if index ≥ 1 ∧ index ≤ n then .ok (I.start + I.step * (index - 1)) else .error .index

/-- Storing the values of a block into an Array at consecutive indices. -/
def fill {β : Type} (g : Rat → β) : List Rat → Nat → List (Option β) → Except Err (List (Option β))
  | [], _, arr => .ok arr
  | x :: xs, i, arr => if i < 1 ∨ arr.length < i then .error .index else fill g xs (i + 1) (arr.set (i - 1) (some (g x)))

/-- `collect:` (kernel/Interval.st:103-123): an Array of `size` elements is filled
in the loop.  The outer `none` is an endless loop. -/
def collect {β : Type} (g : Rat → β) (I : Ivl) (f : Nat) : Option (Except Err (List (Option β))) :=
  match size I with
  | .error e => some (.error e)
  | .ok n =>
    match doo I f with
    | none => none
    | some l => some (fill g l 1 (List.replicate n.toNat none))

/-- The loop `[j <= size] whileTrue: [...]` of `to:collect:` and
`to:by:collect:` (kernel/Number.st:1024-1027, 1044-1047). -/
def countLoop (step : Rat) : Nat → Rat → List Rat
  | 0, _ => []
  | n + 1, i => i :: countLoop step n (i + step)

/-- `Number>>to:by:collect:` (kernel/Number.st:1030-1049). -/
def toByCollect {β : Type} (g : Rat → β) (self stop step : Rat) : Except Err (List (Option β)) :=
  match count self stop step with
  | .error e => .error e
  | .ok n => fill g (countLoop step n.toNat self) 1 (List.replicate n.toNat none)

/-- `truncated`: the integral part, towards zero. -/
def truncated (x : Rat) : Int := if 0 ≤ x then ⌊x⌋ else ⌈x⌉

/-- `Number>>to:collect:` (kernel/Number.st:1014-1028). -/
def toCollect {β : Type} (g : Rat → β) (self stop : Rat) : Except Err (List (Option β)) :=
  let n : Int := max (truncated (stop - self) + 1) 0
  fill g (countLoop 1 n.toNat self) 1 (List.replicate n.toNat none)

/-- `first` and `last` (kernel/Interval.st:242-255). -/
def first (I : Ivl) : Except Err Rat := if isEmpty I then .error .index else .ok I.start
def last (I : Ivl) : Except Err Rat :=
  if isEmpty I then .error .index
  else (floorMod (I.stop - I.start) I.step).map (I.stop - ·)

/-- `reverse` (kernel/Interval.st:150-158). -/
def reverse (I : Ivl) : Except Err Ivl :=
  match size I with
  | .error e => .error e
  | .ok n =>
    match at_ I n with
    | .error e => .error e
    | .ok a =>
      match at_ I 1 with
      | .error e => .error e
      | .ok b => .ok ⟨a, b, -I.step⟩

/-- `copyFrom:to:` (kernel/Interval.st:197-217), for exact Intervals. -/
def copyFromTo (I : Ivl) (startIndex stopIndex : Int) : Except Err Ivl :=
  if stopIndex < startIndex then
    if stopIndex = startIndex - 1 then .ok ⟨I.start, I.start - I.step, I.step⟩ else .error .argument
  else
    match at_ I stopIndex with
    | .error e => .error e
    | .ok l =>
      match at_ I startIndex with
      | .error e => .error e
      | .ok s => .ok ⟨s, l, I.step⟩

/-- `=` between two Intervals (kernel/Interval.st:179-188). -/
def eq (I J : Ivl) : Except Err Bool :=
  if isEmpty I then .ok (isEmpty J)
  else if isEmpty J then .ok false
  else
    match first I, first J with
    | .ok a, .ok b =>
      if a ≠ b then .ok false
      else
        match last I, last J with
        | .ok c, .ok d => .ok (c == d && I.step == J.step)
        | .error e, _ => .error e
        | _, .error e => .error e
    | .error e, _ => .error e
    | _, .error e => .error e

/-- `hash` (kernel/Interval.st:190-195), of an Interval of Integers: the low 30
bits. -/
def hash (start stop step : Int) : Int := ((start + stop + stop) * step) % 1073741824

/-- The part of `printOn:` between the parentheses (kernel/Interval.st:218-240): the
numbers printed, with `none` for the ellipsis. -/
def printed (I : Ivl) : Except Err (List (Option Rat)) :=
  match size I with
  | .error e => .error e
  | .ok n =>
    let a := if n > 0 then [some I.start] else []
    let b := if n > 1 then [some (I.start + I.step)] else []
    if n > 2 then
      match at_ I 3 with
      | .error e => .error e
      | .ok x => .ok (a ++ b ++ (if x = I.stop then [] else [none]) ++ [some I.stop])
    else .ok (a ++ b)

/-- The test of `withAll:` (kernel/Interval.st:71-80): every difference but the first
is compared with the one before it. -/
def progression (delta : Option Rat) (lst : Option Rat) : List Rat → Bool
  | [] => true
  | x :: xs =>
    match lst, delta with
    | none, _ => progression none (some x) xs
    | some y, none => progression (some (y - x)) (some x) xs
    | some y, some d => if y - x = d then progression (some d) (some x) xs else false

/-- `Interval class>>withAll:` (kernel/Interval.st:65-85) on a collection of
numbers with at least one element. -/
def withAll (x : Rat) (xs : List Rat) : Except Err Ivl :=
  if progression none none (x :: xs) then
    let l := (x :: xs).getLast (by simp)
    match floorDiv (l - x) xs.length with
    | .error e => .error e
    | .ok s => .ok ⟨x, l, s⟩
  else .error .argument

end Verif.Interval
