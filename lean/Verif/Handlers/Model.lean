/-
Exception handlers: how one is found, and what is left of the search
(kernel/BlkClosure.st:49-97, 186-251, kernel/ExcHandling.st).

A class of exceptions is given by the names on the way from it up to `Exception`, itself first;
the superclass is the tail, `Exception` the empty list.  The contexts of `on:do:` methods are a
list, the innermost first; one is told from the others by how many there are outside it.

Not modelled: exceptions signalled while a class is asked whether it handles an exception
(`active` is -1 then); handlers that are not classes of exceptions or sets of those; the
values passed; contexts of other methods, see `Verif.Unwind`.
-/

namespace Verif.Handlers

/-- A class of exceptions. -/
abbrev Cls := List Nat

/-- The loop of `Exception class>>goodness:` (kernel/ExcHandling.st:191-195). -/
def goodLoop (target : Cls) : Cls → Int → Int
  | [], depth => if ([] : Cls) = target then 0 else depth
  | n :: c, depth => goodLoop target c ((if n :: c = target then 0 else depth) + 1)

/-- `Exception class>>goodness:` (kernel/ExcHandling.st:182-201). -/
def goodness (target c : Cls) : Int := goodLoop target c (-100000)

/-- What is given to `on:do:`: a class, or an `ExceptionSet`. -/
abbrev Spec := List Cls

/-- `ExceptionSet>>goodness:` (kernel/ExcHandling.st:74-82).  For a class by itself the search
block treats values below -1 like -1. -/
def setGoodness (s : Spec) (c : Cls) : Int := s.foldl (fun old each => max old (goodness each c)) (-1)

/-- A context of an `on:do:` method: the exceptions, and `active`. -/
structure Frame where
  specs : List Spec
  active : Nat
  deriving DecidableEq

/-- `activeHandlers bitAt: i` for the `i`-th argument; the `k`-th exception is the argument
`2 * k + 1` (kernel/BlkClosure.st:66-67, kernel/Integer.st:75-81). -/
def isActive (active k : Nat) : Bool := active.testBit (2 * k)

/-- `activeHandlers setBit: best` (kernel/BlkClosure.st:84, kernel/Integer.st:162-167). -/
def setActive (active k : Nat) : Nat := active ||| 2 ^ (2 * k)

/-- The loop of the search block (kernel/BlkClosure.st:62-78). -/
def selectLoop (c : Cls) (active : Nat) : List Spec → Nat → Option Nat → Int → Option Nat
  | [], _, best, _ => best
  | s :: specs, k, best, bestGoodness =>
    let g := setGoodness s c
    let g' := if g > -1 then (if isActive active k then -1 else g) else g
    if g' > bestGoodness then selectLoop c active specs (k + 1) (some k) g'
    else selectLoop c active specs (k + 1) best bestGoodness

/-- The search block (kernel/BlkClosure.st:54-97). -/
def select (f : Frame) (c : Cls) : Option Nat := selectLoop c f.active f.specs 0 none (-1)

/-- A handler that runs: its `on:do:` context (how many there are outside it), which handler of
it, `previousState`, how many `on:do:` contexts there were when it was started, and
`resumeBoolean`. -/
structure Act where
  height : Nat
  which : Nat
  prev : Nat
  base : Nat
  resumes : Bool
  deriving DecidableEq

structure St where
  frames : List Frame
  acts : List Act
  deriving DecidableEq

/-- `instantiateNextHandlerFrom:` (kernel/ExcHandling.st:312-326) and
`scanBacktraceForAttribute:do:` (kernel/ContextPart.st:567-581): the first context that has a
handler. -/
def search (c : Cls) : List Frame → Option (Nat × Nat × Nat)
  | [] => none
  | f :: fs =>
    match select f c with
    | some k => some (fs.length, k, f.active)
    | none => search c fs

/-- `context at: context numArgs + 1 put: m`. -/
def put (h m : Nat) : List Frame → List Frame
  | [] => []
  | f :: fs => if fs.length = h then { f with active := m } :: fs else f :: put h m fs

/-- The contexts outside (and without) the one that has `h` contexts outside it. -/
def outside (h : Nat) (fs : List Frame) : List Frame := fs.drop (fs.length - h)

/-- What code does. -/
inductive Op where
  /-- `aBlock on: e1 do: b1 on: e2 do: b2 …`. -/
  | enter (specs : List Spec)
  /-- The block has ended. -/
  | leave
  /-- `signal`. -/
  | signal (c : Cls)
  /-- `outer`, in a handler (kernel/ExcHandling.st:340-357); the exception is of class `c`. -/
  | outer (c : Cls)
  /-- `resume:` (kernel/ExcHandling.st:406-426). -/
  | resume
  /-- The handler block ends without any of these. -/
  | finish
  /-- `return:` (kernel/ExcHandling.st:493-501). -/
  | return
  /-- `resetAllHandlers` as sent by `retry`, `retryUsing:` and `resignalAs:` before they go on
  (kernel/ExcHandling.st:123-130, 428-463). -/
  | reinstate

/-- A handler found by `search` is started (kernel/BlkClosure.st:82-91,
kernel/ExcHandling.st:503-521). -/
def start (s : St) (r : Nat × Nat × Nat) (resumes : Bool) : St :=
  { frames := put r.1 (setActive r.2.2 r.2.1) s.frames
    acts := ⟨r.1, r.2.1, r.2.2, s.frames.length, resumes⟩ :: s.acts }

/-- `resetHandler`, then control goes back to where the exception was signalled. -/
def resume (s : St) (a : Act) (acts : List Act) : St :=
  { frames := put a.height a.prev (outside a.base s.frames), acts }

/-- `context parentContext continue: result`: control leaves the `on:do:` method; handlers started
inside it are abandoned. -/
def exit (s : St) (a : Act) : St :=
  { frames := outside a.height s.frames, acts := s.acts.filter (·.base ≤ a.height) }

/-- `resetAllHandlers` (kernel/ExcHandling.st:123-130, kernel/BlkClosure.st:49-52). -/
def resetAll (s : St) : St := { s with frames := s.frames.map ({ · with active := 0 }) }

/-- One step.  An exception without a handler changes nothing: its default action either answers
or ends the process.  `none`: not possible. -/
def step (s : St) : Op → Option St
  | .enter specs => some { s with frames := ⟨specs, 0⟩ :: s.frames }
  | .leave =>
    match s.frames, s.acts with
    | [], _ => none
    | _ :: fs, [] => some { s with frames := fs }
    | _ :: fs, a :: _ => if a.base ≤ fs.length then some { s with frames := fs } else none
  | .signal c =>
    match search c s.frames with
    | none => some s
    | some r => some (start s r false)
  | .outer c =>
    match s.acts with
    | [] => none
    | a :: _ =>
      match search c (outside a.height s.frames) with
      | none => some s
      | some r => some (start s r true)
  | .resume =>
    match s.acts with
    | [] => none
    | a :: acts => some (resume s a acts)
  | .finish =>
    match s.acts with
    | [] => none
    | a :: acts => if a.resumes then some (resume s a acts) else some (exit s a)
  | .return =>
    match s.acts with
    | [] => none
    | a :: _ => some (exit (resetAll s) a)
  | .reinstate => some (resetAll s)

def run (s : St) : List Op → Option St
  | [] => some s
  | op :: ops =>
    match step s op with
    | none => none
    | some s' => run s' ops

/-- No handlers. -/
def empty : St := ⟨[], []⟩

end Verif.Handlers
