/-!
# Method lookup and its caches: code

The classes and methods are kept apart from the caches.  The search in the method dictionary of one class is not modelled here (a
finite map); dictionaries are modelled in `Verif.Hash`.
-/
namespace Verif.Lookup

abbrev OOP := Nat

/-- libgst/comp.h l.94-101 (`MTH_NORMAL` and so on; `MTH_ANNOTATED` and `MTH_UNUSED` are treated as `MTH_NORMAL`): the values of `headerFlag`. -/
inductive Flag where
  | normal | returnSelf | returnInstVar | returnLiteral | primitive | userDefined
  deriving DecidableEq, Repr

/-- The fields of the header of a method that a send looks at. -/
structure Header where
  numArgs : Nat
  flag : Flag
  prim : Nat
  deriving DecidableEq, Repr

/-- What does not change: nil, the selectors the virtual machine itself sends, and which primitives succeed.  Simplification:
whether a primitive succeeds depends on its number, number of arguments and receiver only; running it has no effect on the caches. -/
structure Env where
  nil : OOP
  dnu : OOP
  value : OOP
  size : OOP
  cls : OOP
  ok : Nat → Nat → OOP → Bool
  dnu_ne : dnu ≠ 0
  value_ne : value ≠ 0
  size_ne : size ≠ 0
  cls_ne : cls ≠ 0

/-- Classes, methods and objects. -/
structure World where
  superclass : OOP → OOP
  /-- libgst/dict.c l.1416-1444 (`_gst_find_class_method`). -/
  methods : OOP → OOP → Option OOP
  header : OOP → Header
  /-- `OOP_INT_CLASS`. -/
  classOf : OOP → OOP
  /-- Every object has a class. -/
  class_ne : ∀ o, classOf o ≠ 0

/-- libgst/interp.h l.128-140 (`method_cache_entry`), without JIT translation. -/
structure Entry where
  selector : OOP
  startingClass : OOP
  method : OOP
  methodClass : OOP
  header : Header
  deriving DecidableEq, Repr

/-- Variables of libgst/interp.c l.160-239. -/
structure VM where
  world : World
  cache : Nat → Entry
  counter : Nat
  lastPrim : Nat
  sizeClass : OOP
  sizePrim : Nat
  clsClass : OOP
  clsPrim : Nat

/-- libgst/interp.c l.114 (`METHOD_CACHE_SIZE`). -/
def cacheSize : Nat := 2 ^ 11

/-- libgst/interp.c l.571-573 (`METHOD_CACHE_HASH`) on a 64-bit machine.  Simplification: `intptr_t` as natural numbers. -/
def cacheHash (sel cls : OOP) : Nat := (sel ^^^ (cls / 16)) &&& (cacheSize - 1)

/-- libgst/interp.c l.944-976 (`_gst_find_method`); `none` when the loop does not end in `fuel` iterations. -/
def find (env : Env) (w : World) (sel : OOP) : Nat → OOP → Option (Option (OOP × OOP))
  | 0, _ => none
  | fuel + 1, c =>
    if c = env.nil then some none
    else match w.methods c sel with
      | some m => some (some (m, c))
      | none => find env w sel fuel (w.superclass c)

/-- libgst/interp-bc.inl l.195-216 and libgst/interp.c l.1001-1014: the entry for a selector and class, from the cache or from the
method dictionaries; nothing if there is no method. -/
def cacheLookup (env : Env) (fuel : Nat) (vm : VM) (sel cls : OOP) : Option (VM × Option Entry) :=
  let i := cacheHash sel cls
  if (vm.cache i).selector ≠ sel ∨ (vm.cache i).startingClass ≠ cls then
    match find env vm.world sel fuel cls with
    | none => none
    | some none => some (vm, none)
    | some (some (m, mc)) =>
      let e : Entry := ⟨sel, cls, m, mc, vm.world.header m⟩
      some ({ vm with cache := fun j => if j = i then e else vm.cache j }, some e)
  else some (vm, some (vm.cache i))

/-- What a send does. -/
inductive Outcome where
  | abort
  | self
  | instVar (i : Nat)
  | literal (m : OOP) (i : Nat)
  | prim (p n : Nat)
  | run (m : OOP)
  | dnu (sel : OOP) (n : Nat) (cls : OOP) (o : Outcome)
  | user (m : OOP) (n : Nat) (o : Outcome)
  deriving DecidableEq, Repr

/-- libgst/interp-bc.inl l.181-316 (`_gst_send_message_internal`) and libgst/interp.c l.914-942 (`lookup_method`).  Whether the
number of arguments is checked depends on `OPTIMIZE`; here it is.  `none` is an endless search or recursion. -/
def send (env : Env) : Nat → VM → OOP → Nat → OOP → OOP → Option (VM × Outcome)
  | 0, _, _, _, _, _ => none
  | fuel + 1, vm, sel, n, cls, rcv =>
    match cacheLookup env fuel { vm with counter := vm.counter + 1 } sel cls with
    | none => none
    | some (vm, none) => (send env fuel vm env.dnu 1 cls rcv).map fun r => (r.1, .dnu sel n cls r.2)
    | some (vm, some e) =>
      if e.header.numArgs ≠ n then some (vm, .abort)
      else match e.header.flag with
        | .returnSelf => some (vm, .self)
        | .returnInstVar => some (vm, .instVar e.header.prim)
        | .returnLiteral => some (vm, .literal e.method e.header.prim)
        | .primitive =>
          if env.ok e.header.prim n rcv then some ({ vm with lastPrim := e.header.prim }, .prim e.header.prim n)
          else some ({ vm with lastPrim := 0 }, .run e.method)
        | .userDefined =>
          (send env fuel vm env.value 2 (vm.world.classOf e.method) e.method).map fun r => (r.1, .user e.method n r.2)
        | .normal => some (vm, .run e.method)

/-- libgst/interp.c l.992-1018 (`check_send_correctness`). -/
def checkSend (env : Env) (fuel : Nat) (vm : VM) (rcv sel : OOP) (n : Nat) : Option (VM × Bool) :=
  (cacheLookup env fuel vm sel (vm.world.classOf rcv)).map fun r =>
    match r.2 with
    | none => (r.1, true)
    | some e => (r.1, e.header.numArgs == n)

/-- libgst/prims.def l.2756-2800 (`VMpr_Object_perform`) for a symbol; `none` as outcome is a failure of the primitive.
The send of `perform:` itself is counted; what it puts in the cache is not modelled (a send like any other). -/
def perform (env : Env) (fuel : Nat) (vm : VM) (rcv sel : OOP) (n : Nat) : Option (VM × Option Outcome) :=
  match checkSend env fuel { vm with counter := vm.counter + 1 } rcv sel n with
  | none => none
  | some (vm, true) => (send env fuel vm sel n (vm.world.classOf rcv) rcv).map fun r => (r.1, some r.2)
  | some (vm, false) => some (vm, none)

/-- libgst/vm.def l.509-540 (`SIZE_SPECIAL`); `isInt` is `IS_INT (rec)`. -/
def sizeSpecial (env : Env) (fuel : Nat) (vm : VM) (rcv : OOP) (isInt : Bool) : Option (VM × Outcome) :=
  let c := vm.world.classOf rcv
  if isInt then send env fuel vm env.size 0 c rcv
  else if vm.sizeClass = c ∧ env.ok vm.sizePrim 0 rcv then some ({ vm with lastPrim := vm.sizePrim }, .prim vm.sizePrim 0)
  else (send env fuel { vm with lastPrim := 0 } env.size 0 c rcv).map fun r =>
    if r.1.lastPrim ≠ 0 then ({ r.1 with sizePrim := r.1.lastPrim, sizeClass := c }, r.2) else r

/-- libgst/vm.def l.542-573 (`CLASS_SPECIAL`).  The cached primitive is given one argument. -/
def clsSpecial (env : Env) (fuel : Nat) (vm : VM) (rcv : OOP) (isInt : Bool) : Option (VM × Outcome) :=
  let c := vm.world.classOf rcv
  if isInt then send env fuel vm env.cls 0 c rcv
  else if vm.clsClass = c ∧ env.ok vm.clsPrim 1 rcv then some ({ vm with lastPrim := vm.clsPrim }, .prim vm.clsPrim 1)
  else (send env fuel { vm with lastPrim := 0 } env.cls 0 c rcv).map fun r =>
    if r.1.lastPrim ≠ 0 then ({ r.1 with clsPrim := r.1.lastPrim, clsClass := c }, r.2) else r

/-- libgst/interp.c l.2352-2378 (`_gst_invalidate_method_cache`). -/
def invalidate (vm : VM) : VM :=
  if vm.counter = 0 then vm
  else { vm with sizeClass := 0, clsClass := 0, counter := 0, cache := fun j => { vm.cache j with selector := 0 } }

/-- kernel/Behavior.st l.1603-1609 and libgst/prims.def l.3049-3054: the send of `flushCache`, a primitive method.  The send itself
is counted; what it puts in the cache is not modelled (it is wiped). -/
def flushCache (vm : VM) : VM := invalidate { vm with counter := vm.counter + 1 }

def World.install (w : World) (cls sel : OOP) (m : Option OOP) : World :=
  { w with methods := fun c s => if c = cls ∧ s = sel then m else w.methods c s }

/-- kernel/MethodDict.st l.53-68 (`at:put:`) and l.91-107 (`removeKey:ifAbsent:`): the cache is flushed after the change. -/
def install (vm : VM) (cls sel : OOP) (m : Option OOP) : VM := flushCache { vm with world := vm.world.install cls sel m }

/-- libgst/comp.c l.2536-2550: before the kernel is initialized, methods are installed by C code. -/
def bootInstall (vm : VM) (cls sel m : OOP) : VM := invalidate { vm with world := vm.world.install cls sel (some m) }

/-- kernel/Behavior.st l.516-524 (`superclass:`): the cache is not flushed. -/
def setSuperclass (vm : VM) (cls super : OOP) : VM :=
  { vm with world := { vm.world with superclass := fun c => if c = cls then super else vm.world.superclass c } }

/-- libgst/comp.c l.520-573: evaluating a statement that is a constant; counters are reset and nothing is sent. -/
def evalConstant (vm : VM) : VM := { vm with counter := 0 }

inductive Op where
  | send (sel : OOP) (n : Nat) (cls rcv : OOP)
  | perform (sel : OOP) (n : Nat) (rcv : OOP)
  | size (rcv : OOP) (isInt : Bool)
  | cls (rcv : OOP) (isInt : Bool)
  | install (cls sel : OOP) (m : Option OOP)
  | bootInstall (cls sel m : OOP)
  | superclass (cls super : OOP)
  | flush
  | constant

def step (env : Env) (fuel : Nat) (vm : VM) : Op → Option VM
  | .send sel n cls rcv => (send env fuel vm sel n cls rcv).map Prod.fst
  | .perform sel n rcv => (perform env fuel vm rcv sel n).map Prod.fst
  | .size rcv isInt => (sizeSpecial env fuel vm rcv isInt).map Prod.fst
  | .cls rcv isInt => (clsSpecial env fuel vm rcv isInt).map Prod.fst
  | .install cls sel m => some (install vm cls sel m)
  | .bootInstall cls sel m => some (bootInstall vm cls sel m)
  | .superclass cls super => some (setSuperclass vm cls super)
  | .flush => some (flushCache vm)
  | .constant => some (evalConstant vm)

def run (env : Env) (fuel : Nat) : VM → List Op → Option VM
  | vm, [] => some vm
  | vm, op :: ops => (step env fuel vm op).bind fun vm => run env fuel vm ops

/-- The caches when the virtual machine starts (static variables). -/
def initial (w : World) : VM := ⟨w, fun _ => ⟨0, 0, 0, 0, ⟨0, .normal, 0⟩⟩, 0, 0, 0, 0, 0, 0⟩

end Verif.Lookup
