/-
Model of WeakArray, kernel/WeakObjects.st:34-209.

Objects are any type `O`, `none` is nil.  An index `i` of the model is `i + 1` in
Smalltalk.  An error ends the operation and leaves what was stored until then.
-/
namespace Verif.Weak

/-- A WeakArray: the weak array and the bytes beside it,
    kernel/WeakObjects.st:35. -/
structure WArr (O : Type) where
  values : List (Option O)
  nilValues : List Nat
  deriving DecidableEq, Repr

/-- `initialize:`, kernel/WeakObjects.st:64-72. -/
def new (O : Type) (size : Nat) : WArr O :=
  { values := List.replicate size none, nilValues := List.replicate size 1 }

/-- `object isNil ifTrue: [1] ifFalse: [0]`, kernel/WeakObjects.st:102, 110, 121, 132. -/
def flag {O : Type} (o : Option O) : Nat := if o.isNone then 1 else 0

/-- `at:put:`, kernel/WeakObjects.st:114-123: with a wrong index the first of the
    two stores fails. -/
def atPut {O : Type} (w : WArr O) (i : Nat) (o : Option O) : WArr O :=
  if i < w.nilValues.length then
    { values := w.values.set i o, nilValues := w.nilValues.set i (flag o) }
  else w

/-- `atAll:put:` of a sequence, kernel/SeqCollect.st:197-202: the sequence after it
    and whether there was no error. -/
def seqAtAllPut {X : Type} (l : List X) (x : X) : List Nat → List X × Bool
  | [] => (l, true)
  | i :: is => if i < l.length then seqAtAllPut (l.set i x) x is else (l, false)

/-- `atAll:put:`, kernel/WeakObjects.st:98-104. -/
def atAllPut {O : Type} (w : WArr O) (is : List Nat) (o : Option O) : WArr O :=
  let n := seqAtAllPut w.nilValues (flag o) is
  if n.2 then { values := (seqAtAllPut w.values o is).1, nilValues := n.1 }
  else { w with nilValues := n.1 }

/-- `atAllPut:`, kernel/WeakObjects.st:106-112. -/
def fillAll {O : Type} (w : WArr O) (o : Option O) : WArr O :=
  { values := w.values.map fun _ => o, nilValues := w.nilValues.map fun _ => flag o }

/-- `clearGCFlag:`, kernel/WeakObjects.st:125-133. -/
def clearGCFlag {O : Type} (w : WArr O) (i : Nat) : WArr O :=
  match w.values[i]? with
  | some o => { w with nilValues := w.nilValues.set i (flag o) }
  | none => w

/-- What the garbage collector does to a weak array: the objects that died become
    nil, `check_weak_refs`, libgst/oop.c:1721-1733; which objects die is any
    predicate, and the message `mourn` is left out. -/
def collect {O : Type} (dead : O → Bool) (w : WArr O) : WArr O :=
  { w with values := w.values.map fun o => o.filter fun x => !dead x }

/-- `at:`, kernel/WeakObjects.st:90-96. -/
def at' {O : Type} (w : WArr O) (i : Nat) : Option O := w.values.getD i none

/-- `isAlive:`, kernel/WeakObjects.st:160-169. -/
def isAlive {O : Type} (w : WArr O) (i : Nat) : Bool :=
  (w.values.getD i none).isSome || w.nilValues.getD i 0 == 1

/-- What `aliveObjectsDo:` does for one index, kernel/WeakObjects.st:154-157. -/
def visit {O : Type} (w : WArr O) (i : Nat) : List (Option O) :=
  match w.values.getD i none with
  | some o => [some o]
  | none => if w.nilValues.getD i 0 = 0 then [] else [none]

/-- What `aliveObjectsDo:` passes to the block, kernel/WeakObjects.st:143-158. -/
def aliveObjects {O : Type} (w : WArr O) : List (Option O) :=
  (List.range w.values.length).flatMap (visit w)

/-- `values:whichAreNil:` with the copies that `shallowCopy` gives it,
    kernel/WeakObjects.st:74-88, 193-199: the bytes are copied one by one. -/
def shallowCopy {O : Type} (w : WArr O) : WArr O :=
  { values := w.values, nilValues := (List.range w.values.length).map fun i => w.nilValues.getD i 0 }

end Verif.Weak
