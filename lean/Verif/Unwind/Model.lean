/-
Contexts, returns and `ensure:` (libgst/interp.c:1019-1258, libgst/vm.def:838-861,
libgst/prims.def:2638-2726, kernel/BlkClosure.st:186-293).

The contexts of a process are linked by their parents.  Here the chain is a list, the
running context first.  A context that leaves the chain gets `nil` for its parent in the
code; here it is gone.  One exception: the context that `disable_non_unwind_contexts` jumps
over (see `skipDisabled`) keeps its parent in the code, but nothing on the chain refers to it
any more.

Not modelled: instruction pointers and stacks, except for the value a context is waiting
for; execution environments (contexts of calls from C); other processes.
-/

namespace Verif.Unwind

/-- What code a context runs, as far as it matters here. -/
inductive Role (V : Type) where
  /-- Any method or block. -/
  | plain
  /-- `BlockClosure>>ensure:` (kernel/BlkClosure.st:264-274) before the receiver's value has
  arrived. -/
  | waiting
  /-- `BlockClosure>>ensure:` evaluating its argument; the temporary `result`. -/
  | cleaning (result : V)
  /-- The `on:do:` methods (kernel/BlkClosure.st:186-251), which answer the receiver's
  value. -/
  | onDo
  deriving DecidableEq

/-- A context.  `meth`, `disabled` and `unwind` are the flags of libgst/interp.h:148-159;
`home` is the method context found by following the outer contexts of a block; for a
context of `ensure:` it is the home of the argument. -/
structure Ctx (V : Type) where
  id : Nat
  meth : Bool
  disabled : Bool
  unwind : Bool
  home : Nat
  role : Role V
  deriving DecidableEq

/-- A process: the contexts, the value on the top of the running context's stack, the
identity of the next context, a record of the `ensure:` contexts that have been made, and
one of those that have started to evaluate their arguments. -/
structure St (V : Type) where
  chain : List (Ctx V)
  acc : V
  next : Nat
  made : List Nat
  log : List Nat
  deriving DecidableEq

variable {V : Type}

/-- `CONTEXT_FLAGS (newContext) == (MCF_IS_METHOD_CONTEXT | MCF_IS_DISABLED_CONTEXT)`. -/
def Ctx.skipped (c : Ctx V) : Bool := c.meth && c.disabled && !c.unwind

/-- `CONTEXT_FLAGS (newContext) &= ~(MCF_IS_DISABLED_CONTEXT | MCF_IS_UNWIND_CONTEXT)`. -/
def Ctx.clear (c : Ctx V) : Ctx V := { c with disabled := false, unwind := false }

/-- `unwind_context` (libgst/interp.c:1019-1075) after the running context: pass the
disabled contexts, resume the next one.  `none`: there is none. -/
def resumeNext : List (Ctx V) → Option (List (Ctx V))
  | [] => none
  | c :: rest => if c.skipped then resumeNext rest else some (c.clear :: rest)

/-- `unwind_context` (libgst/interp.c:1019-1075). -/
def unwindContext : List (Ctx V) → Option (List (Ctx V))
  | [] => none
  | _ :: rest => resumeNext rest

/-- The end of `disable_non_unwind_contexts` (libgst/interp.c:1229-1256) for the contexts from
the one returned to: disabled contexts are passed, and the parent of the one returned to
becomes the *parent* of the first context that is not. -/
def skipDisabled (t : Ctx V) (rest : List (Ctx V)) : Option (List (Ctx V)) :=
  if t.skipped then
    match rest.dropWhile Ctx.skipped with
    | [] => none
    | _ :: below => some (t :: below)
  else some (t :: rest)

/-- The loop of `disable_non_unwind_contexts` (libgst/interp.c:1190-1227) for the contexts
below the running one: block contexts are taken out of the chain, method contexts are
disabled, up to the one returned to.  `none`: it is not there. -/
def disable (ret : Nat) : List (Ctx V) → Option (List (Ctx V))
  | [] => none
  | c :: rest =>
    if c.id = ret then skipDisabled c rest
    else if c.meth then (disable ret rest).map ({ c with disabled := true } :: ·)
    else disable ret rest

/-- `unwind_to` (libgst/interp.c:1119-1187).  `none`: the context returned to is not in the
chain; the loop runs into nil, or the caller is told that the return has failed. -/
def unwindTo (ret : Nat) : List (Ctx V) → Option (List (Ctx V))
  | [] => none
  | c :: rest =>
    if c.id = ret then some (c.clear :: rest)
    else
      match rest with
      | [] => none
      | d :: rest' =>
        if d.unwind then
          match disable ret (d :: rest') with
          | none => none
          | some l => resumeNext l
        else unwindTo ret (d :: rest')

/-- The parent of a context, `none` for nil. -/
def parentOf (id : Nat) : List (Ctx V) → Option Nat
  | [] => none
  | c :: rest => if c.id = id then rest.head?.map Ctx.id else parentOf id rest

/-- What the running context may do. -/
inductive Op (V : Type) where
  /-- Send a message that runs a method. -/
  | call
  /-- Evaluate a block created in the method context `home` or in a block in it. -/
  | block (home : Nat)
  /-- `aBlock ensure: anotherBlock`, given the homes of the two blocks. -/
  | ensure (home cleanup : Nat)
  /-- `aBlock on: anException do: anotherBlock`. -/
  | onDo (home : Nat)
  /-- Return a value from a method or block to its caller. -/
  | ret (v : V)
  /-- `^v` inside a block. -/
  | exit (v : V)
  /-- `aContext continue: v`, as done by `Exception>>return:`. -/
  | continue (id : Nat) (v : V)
  /-- What the code of `ensure:` and `on:do:` does next. -/
  | auto

/-- A new context on top. -/
def push (s : St V) (meth : Bool) (home : Nat) (role : Role V) (unwind : Bool) : St V :=
  { s with
    chain := { id := s.next, meth, disabled := false, unwind, home, role } :: s.chain
    next := s.next + 1 }

/-- `unwind_method` (libgst/interp.c:1079-1116) and `RETURN_METHOD_STACK_TOP`
(libgst/vm.def:838-852).  If the method has returned already the caller is resumed, but to
send `badReturnError`. -/
def exit (s : St V) (c : Ctx V) (v : V) : Option (St V) :=
  match parentOf c.home s.chain with
  | none =>
    match unwindContext s.chain with
    | none => none
    | some l => some (push { s with chain := l } true s.next .plain false)
  | some t =>
    match unwindTo t s.chain with
    | none => none
    | some l => some { s with chain := l, acc := v }

/-- `RETURN_CONTEXT_STACK_TOP` (libgst/vm.def:854-861). -/
def ret (s : St V) (v : V) : Option (St V) :=
  match unwindContext s.chain with
  | none => none
  | some l => some { s with chain := l, acc := v }

/-- `BlockClosure>>ensure:` and `on:do:` once the value they wait for has arrived
(kernel/BlkClosure.st:186-274): evaluate the argument, or return. -/
def auto (s : St V) : Option (St V) :=
  match s.chain with
  | [] => none
  | c :: rest =>
    match c.role with
    | .plain => none
    | .onDo => ret s s.acc
    | .cleaning r => ret s r
    | .waiting =>
      some (push { s with
        chain := { c with role := .cleaning s.acc } :: rest
        log := s.log ++ [c.id] } false c.home .plain false)

/-- One step of a process.  `none`: not possible, or not defined. -/
def step (s : St V) (op : Op V) : Option (St V) :=
  match s.chain with
  | [] => none
  | c :: _ =>
    match c.role, op with
    | _, .auto => auto s
    | .plain, .call => some (push s true s.next .plain false)
    | .plain, .block h => some (push s false h .plain false)
    | .plain, .ensure h k =>
      -- VMpr_BlockClosure_valueAndResumeOnUnwind, libgst/prims.def:2713-2726
      some { push (push s true k .waiting true) false h .plain false with
        made := s.made ++ [s.next] }
    | .plain, .onDo h => some (push (push s true h .onDo true) false h .plain false)
    | .plain, .ret v => ret s v
    | .plain, .exit v => if c.meth then none else exit s c v
    | .plain, .continue t v =>
      -- VMpr_ContextPart_continue, libgst/prims.def:2638-2658
      match unwindTo t s.chain with
      | none => none
      | some l => some { s with chain := l, acc := v }
    | _, _ => none

/-- A run. -/
def run (s : St V) : List (Op V) → Option (St V)
  | [] => some s
  | op :: ops =>
    match step s op with
    | none => none
    | some s' => run s' ops

/-- A process that has just started a method called by another one (so that there is
something to return to). -/
def start (v : V) : St V :=
  { chain := [⟨1, true, false, false, 1, .plain⟩, ⟨0, true, false, false, 0, .plain⟩]
    acc := v, next := 2, made := [], log := [] }

end Verif.Unwind
