import Verif.Trees.Search
import Mathlib.Order.Basic
import Mathlib.Data.Nat.Log
/-!
# The registries of the virtual machine: code

Objects that C code holds on to (libgst/callin.c) and weak objects (libgst/oop.c), kept in red-black trees.
-/
namespace Verif.Trees

/-- libgst/callin.c l.74-79 (`oop_registry`).  The count is an `int` in the code, a natural number here. -/
structure Entry where
  oop : Nat
  usage : Nat
  deriving DecidableEq, Repr

/-- libgst/callin.c l.975-1011 (`_gst_register_oop`).  `nilOOP` is the address of nil, `a` is what `xmalloc` answers, `tag`
is the contents of the uninitialized colour. -/
def register (nilOOP fuel : Nat) (m : Mem Entry) (oop a tag : Nat) : Option (Mem Entry) :=
  if oop = 0 ∨ oop = nilOOP then some m
  else match descend Entry.oop oop fuel m 0 false m.root with
    | none => none
    | some (0, par, side) => (attach m a par side tag ⟨oop, 1⟩).bind fun m => rebalance fuel m a
    | some (p + 1, _, _) => (m.get (p + 1)).bind fun c => m.setData (p + 1) { c.data with usage := c.data.usage + 1 }

/-- libgst/callin.c l.1013-1040 (`_gst_unregister_oop`). -/
def unregister (nilOOP fuel : Nat) (m : Mem Entry) (oop : Nat) : Option (Mem Entry) :=
  if oop = 0 ∨ oop = nilOOP then some m
  else match lookup Entry.oop oop fuel m m.root with
    | none => none
    | some 0 => some m
    | some (p + 1) =>
      (m.get (p + 1)).bind fun c =>
        if c.data.usage - 1 = 0 then (erase fuel m (p + 1)).map fun m => m.free (p + 1)
        else m.setData (p + 1) { c.data with usage := c.data.usage - 1 }

/-- The objects libgst/callin.c l.1094-1107 (`_gst_copy_registered_oops`) and l.1124-1137 (`_gst_mark_registered_oops`) hand to the
garbage collector. -/
def registered (fuel : Nat) (m : Mem Entry) : Option (List Nat) :=
  (walk fuel m).bind fun l => l.mapM fun a => (m.get a).map fun c => c.data.oop

/-- Calls from C code. -/
inductive RegOp where
  | register (oop : Nat)
  | unregister (oop : Nat)

/-- A sequence of calls; with each of them, the address and the contents `xmalloc` would answer.  An address in use is not
a possible answer, and the sequence stops. -/
def runReg (nilOOP fuel : Nat) : Mem Entry → List (RegOp × Nat × Nat) → Option (Mem Entry)
  | m, [] => some m
  | m, (.register oop, a, tag) :: ops =>
    if m.fresh a then (register nilOOP fuel m oop a tag).bind fun m => runReg nilOOP fuel m ops else none
  | m, (.unregister oop, _, _) :: ops => (unregister nilOOP fuel m oop).bind fun m => runReg nilOOP fuel m ops

/-- `oop_registry_root` at the start. -/
def emptyMem (α : Type) : Mem α := ⟨fun _ => none, 0⟩

/-! ## Weak objects -/

/-- Memory and `_gst_mem.numWeakOOPs`. -/
structure Weak where
  mem : Mem Nat
  num : Int

/-- libgst/oop.c l.630-659 (`_gst_make_oop_weak`); the flag in the object table is not modelled. -/
def makeWeak (fuel : Nat) (w : Weak) (oop a tag : Nat) : Option Weak :=
  match descend id oop fuel w.mem 0 false w.mem.root with
  | none => none
  | some (0, par, side) => ((attach w.mem a par side tag oop).bind fun m => rebalance fuel m a).map fun m => ⟨m, w.num + 1⟩
  | some (_ + 1, _, _) => some ⟨w.mem, w.num + 1⟩

/-- libgst/oop.c l.609-628 (`_gst_make_oop_non_weak`). -/
def makeNonWeak (fuel : Nat) (w : Weak) (oop : Nat) : Option Weak :=
  match lookup id oop fuel w.mem w.mem.root with
  | none => none
  | some 0 => some ⟨w.mem, w.num - 1⟩
  | some (p + 1) => (erase fuel w.mem (p + 1)).map fun m => ⟨m.free (p + 1), w.num - 1⟩

inductive WeakOp where
  | weak (oop : Nat)
  | nonWeak (oop : Nat)

def runWeak (fuel : Nat) : Weak → List (WeakOp × Nat × Nat) → Option Weak
  | w, [] => some w
  | w, (.weak oop, a, tag) :: ops =>
    if w.mem.fresh a then (makeWeak fuel w oop a tag).bind fun w => runWeak fuel w ops else none
  | w, (.nonWeak oop, _, _) :: ops => (makeNonWeak fuel w oop).bind fun w => runWeak fuel w ops

/-- The weak objects libgst/oop.c l.1704-1742 (`check_weak_refs`) goes through. -/
def weakOOPs (fuel : Nat) (m : Mem Nat) : Option (List Nat) :=
  (walk fuel m).bind fun l => l.mapM fun a => (m.get a).map fun c => c.data

/-! ## Registry of arrays -/

/-- libgst/callin.c l.82-88 (`oop_array_registry`). -/
structure ArrayEntry where
  first : Nat
  last : Nat
  usage : Nat
  deriving DecidableEq, Repr

/-- State of the loop of libgst/callin.c l.1050-1060 (`_gst_register_oop_array`): memory, the node `entry`, the side of the
link `p`, and `*p`. -/
structure LoopState where
  mem : Mem ArrayEntry
  par : Nat
  side : Bool
  cur : Nat

/-- One iteration of the loop: `none` is a crash, `inr` is the state in which the loop ends.  When the key is found the
count is incremented and `p` does not change. -/
def arrayStep (first : Nat) (s : LoopState) : Option (LoopState ⊕ LoopState) :=
  if s.cur = 0 then some (.inr s)
  else (s.mem.get s.cur).bind fun c =>
    if first < c.data.first then some (.inl { s with par := s.cur, side := false, cur := c.left })
    else if c.data.first < first then some (.inl { s with par := s.cur, side := true, cur := c.right })
    else (s.mem.setData s.cur { c.data with usage := c.data.usage + 1 }).map fun m => .inl { s with mem := m }

/-- The first `n` iterations. -/
def arraySteps (first : Nat) : Nat → LoopState → Option (LoopState ⊕ LoopState)
  | 0, s => some (.inl s)
  | n + 1, s =>
    match arrayStep first s with
    | none => none
    | some (.inr s) => some (.inr s)
    | some (.inl s) => arraySteps first n s

def arrayLoopStart (m : Mem ArrayEntry) : LoopState := ⟨m, 0, false, m.root⟩

end Verif.Trees
