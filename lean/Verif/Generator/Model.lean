import Mathlib.Data.Nat.Notation

/-!
# Generators and continuations (kernel/Generator.st, kernel/Continuation.st)

The block of a generator is a machine with states `σ`: when it is resumed it gets to the next `yield:`, or to its end.
A block that runs forever without `yield:`, that signals an exception or that sends messages other than `yield:` to its own generator is left out.
-/

namespace Verif.Generator

/-- What happens when a block is resumed: it yields a value and stays suspended, or it ends. -/
inductive Step (σ V : Type) where
  | yield (v : V) (s : σ)
  | finish

/-- A generator (kernel/Generator.st:34): `next`, `genCC` (the suspended block) and `atEnd`; `none` is nil. -/
structure Gen (σ V : Type) where
  next : Option V
  genCC : Option σ
  atEnd : Option Bool

/-- `forkOn:` up to its `^self` (kernel/Generator.st:174-190). -/
def onBlock {σ V : Type} (s : σ) : Gen σ V := ⟨none, some s, none⟩

/-- `genCC := genCC callCC` (kernel/Generator.st:110): the code after `currentDo:` in `forkOn:`, or after `callCC` in `yield:`, clears `genCC` and sets `atEnd` (kernel/Generator.st:169-171, 191-194); then the block runs, up to the next `yield:` (lines 163-165) or to its end. When `genCC` is nil, nil does not understand `callCC`: nothing changes. -/
def resume {σ V : Type} (run : σ → Step σ V) (g : Gen σ V) : Gen σ V :=
  match g.genCC with
  | none => g
  | some s =>
    match run s with
    | .finish => { g with genCC := none, atEnd := some true }
    | .yield v s' => ⟨some v, some s', some false⟩

/-- The first line of `atEnd` (kernel/Generator.st:106-112). -/
def force {σ V : Type} (run : σ → Step σ V) (g : Gen σ V) : Gen σ V :=
  if g.atEnd.isNone then resume run g else g

/-- The messages for streams. -/
inductive Op (V : Type) where
  | atEnd
  | next
  | peek
  | peekFor (v : V)

/-- What they answer; `pastEnd` is what the notification answers. -/
inductive Ans (V : Type) where
  | bool (b : Bool)
  | value (v : Option V)
  | pastEnd
  deriving DecidableEq

/-- `atEnd`, `next`, `peek` and `peekFor:` (kernel/Generator.st:106-154). -/
def step {σ V : Type} [DecidableEq V] (run : σ → Step σ V) (g : Gen σ V) (o : Op V) : Gen σ V × Ans V :=
  let g' := force run g
  let ended := g'.atEnd = some true
  match o with
  | .atEnd => (g', .bool (decide ended))
  | .next => if ended then (g', .pastEnd) else ({ g' with next := none, atEnd := none }, .value g'.next)
  | .peek => if ended then (g', .value none) else (g', .value g'.next)
  | .peekFor v =>
    if ended then (g', .bool false)
    else if g'.next = some v then ({ g' with next := none, atEnd := none }, .bool true) else (g', .bool false)

/-- A sequence of messages. -/
def steps {σ V : Type} [DecidableEq V] (run : σ → Step σ V) : Gen σ V → List (Op V) → List (Ans V)
  | _, [] => []
  | g, o :: os => (step run g o).2 :: steps run (step run g o).1 os

/-- The block of `on:do:` (kernel/Generator.st:84-90) for a collection of which each element yields some values: what is left of the values of the current element, and the elements that follow. -/
def onDo {E V : Type} (block : E → List V) : List V → List E → Step (List V × List E) V
  | v :: vs, es => .yield v (vs, es)
  | [], [] => .finish
  | [], e :: es => onDo block (block e) es
termination_by vs es => (es.length, vs.length)

/-- The block of `inject:into:` (kernel/Generator.st:92-104): the state is what is to be yielded next. -/
def injectInto {V : Type} (block : V → V) (last : V) : Step V V := .yield last (block last)

/-! ## Continuations -/

/-- What sending a message to a continuation does. -/
inductive Outcome (V : Type) where
  | returned (v : Option V)
  | badReturn
  | invalidArgument
  deriving DecidableEq

/-- `resume:nextContinuation:` (kernel/Continuation.st:130-145): the continuation is whether its stack is not nil. -/
def resumeCC {V : Type} (stack : Bool) (v : Option V) (next : Bool) : Bool × Outcome V :=
  if stack then (next, .returned v) else (stack, .badReturn)

/-- `oneShotValue:` (kernel/Continuation.st:80-87). -/
def oneShotValue {V : Type} (stack : Bool) (v : Option V) : Bool × Outcome V := resumeCC stack v false

/-- `value:` (kernel/Continuation.st:110-116); the copy of a stack that is nil is nil. -/
def value {V : Type} (stack : Bool) (v : Option V) : Bool × Outcome V := resumeCC stack v stack

/-- `valueWithArguments:` (kernel/Continuation.st:118-128). -/
def valueWithArguments {V : Type} (stack : Bool) (args : List V) : Bool × Outcome V :=
  if args.length = 0 then value stack none
  else if args.length ≠ 1 then value stack args.head?
  else (stack, .invalidArgument)

end Verif.Generator
