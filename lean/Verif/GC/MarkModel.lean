/-
Model of the mark phase of the global garbage collection (libgst/oop.c:2095-2326)
and of the treatment of weak objects that follows it (oop.c:1703-1738).

Entries of the object table are numbers below `size`.  The objects built into the
virtual machine (nil, true, false, the characters) are kept apart as `Ref.builtin`:
their entries lie before the table proper and are always marked.  The only thing lost
is that a built-in object used as the key of an ephemeron has its class marked again.
The fields of an object are the words the collector looks at: the pointer words
(`NUM_OOPS`) of an ordinary object, the words up to the stack pointer of a context.
The queue of ranges grows on demand (oop.c:2225-2237), so it is a list.
-/

namespace Verif.GC

/-- A word that the collector may follow: a SmallInteger, a built-in object, or an
entry of the object table (`IS_INT`/`IS_OOP`, libgst/gstpub.h). -/
inductive Ref
  | small
  | builtin
  | oop (n : Nat)
  deriving DecidableEq, Repr

/-- An object: the class pointer, the scanned fields, and the flags `F_CONTEXT`, `F_WEAK` and
`F_EPHEMERON` of its entry (libgst/gstpriv.h:268-342). -/
structure Obj where
  cls : Nat
  fields : List Ref
  context : Bool := false
  weak : Bool := false
  ephemeron : Bool := false
  deriving DecidableEq, Repr

/-- The object table: its length and its contents. -/
structure Heap where
  size : Nat
  obj : Nat → Obj

/-- The bits the mark phase changes, `F_REACHABLE` and (for a while) `F_EPHEMERON`, and the buffer of
`_gst_add_buf_pointer` (oop.c:2288). -/
structure Marks where
  marked : Nat → Bool
  eph : Nat → Bool
  buf : List Nat

/-- `!IS_INT (oop) && !IS_OOP_MARKED (oop)` (oop.c:2196, 2222; `MAYBE_MARK_OOP`, oop.inl:65-69). -/
def unmarkedRef (s : Marks) : Ref → Bool
  | .oop n => !s.marked n
  | _ => false

/-- `oop->flags |= F_REACHABLE`. -/
def setMark (s : Marks) (n : Nat) : Marks :=
  { s with marked := fun m => if m = n then true else s.marked m }

/-- `oop->flags &= ~F_REACHABLE`. -/
def clearMark (s : Marks) (n : Nat) : Marks :=
  { s with marked := fun m => if m = n then false else s.marked m }

/-- Set or clear `F_EPHEMERON`. -/
def setEph (s : Marks) (n : Nat) (b : Bool) : Marks :=
  { s with eph := fun m => if m = n then b else s.eph m }

/-- `_gst_add_buf_pointer (oop)`. -/
def addBuf (s : Marks) (n : Nat) : Marks := { s with buf := s.buf ++ [n] }

/-- The labels of `_gst_mark_an_oop_internal` with the variables they use. -/
inductive Ctl
  | one (o : Nat)
  | range (l : List Ref)
  | pop
  deriving DecidableEq, Repr

/-- The first loop of `markRange` (oop.c:2193-2202): the first unmarked object of a range and
what follows it. -/
def firstUnmarked (s : Marks) : List Ref → Option (Nat × List Ref)
  | [] => none
  | .oop n :: l => if s.marked n then firstUnmarked s l else some (n, l)
  | _ :: l => firstUnmarked s l

/-- The second loop of `markRange` (oop.c:2218-2247): what is left from the next unmarked
object on. -/
def dropMarked (s : Marks) : List Ref → List Ref
  | [] => []
  | r :: l => if unmarkedRef s r then r :: l else dropMarked s l

/-- Push the rest of the range if there is any (oop.c:2239-2242). -/
def pushRange (l : List Ref) (q : List (List Ref)) : List (List Ref) :=
  if l = [] then q else l :: q

/-- `markOne` (oop.c:2256-2307), after the mark has been set: where to go next. -/
def oneNext (h : Heap) (s : Marks) (o : Nat) : Ctl :=
  let ob := h.obj o
  if ob.context then .range (.oop ob.cls :: ob.fields)
  else if s.eph o || ob.weak then
    if s.marked ob.cls then .pop else .one ob.cls
  else if ob.fields = [] then
    if s.marked ob.cls then .pop else .one ob.cls
  else .range (.oop ob.cls :: ob.fields)

/-- `markOne` (oop.c:2256-2307): the mark, and the buffer of ephemerons. -/
def oneMarks (h : Heap) (s : Marks) (o : Nat) : Marks :=
  let s := setMark s o
  if (h.obj o).context then s
  else if s.eph o then addBuf s o
  else s

/-- `_gst_mark_an_oop_internal` (oop.c:2180-2317).  `none` means that the fuel ran out. -/
def markLoop (h : Heap) : Nat → Ctl → List (List Ref) → Marks → Option Marks
  | 0, _, _, _ => none
  | fuel + 1, .one o, q, s =>
    let s := oneMarks h s o
    markLoop h fuel (oneNext h s o) q s
  | fuel + 1, .range l, q, s =>
    match firstUnmarked s l with
    | none => markLoop h fuel .pop q s
    | some (o, rest) =>
      let s := setMark s o
      markLoop h fuel (.one o) (pushRange (dropMarked s rest) q) s
  | _ + 1, .pop, [], s => some s
  | fuel + 1, .pop, l :: q, s => markLoop h fuel (.range l) q s

/-- `MAYBE_MARK_OOP` (libgst/oop.inl:65-69). -/
def maybeMark (h : Heap) (fuel : Nat) (s : Marks) : Ref → Option Marks
  | .oop n => if s.marked n then some s else markLoop h fuel (.one n) [] s
  | _ => some s

/-- `_gst_mark_oop_range` (oop.c:2319-2326), also the loop over the other fields of an ephemeron
(oop.c:2139-2140). -/
def markRefs (h : Heap) (fuel : Nat) : List Ref → Marks → Option Marks
  | [], s => some s
  | r :: l, s =>
    match maybeMark h fuel s r with
    | none => none
    | some s => markRefs h fuel l s

/-- What the mark phase can come to: it ends, it follows a SmallInteger as if it were a pointer, or
the fuel ran out. -/
inductive Out (α : Type)
  | done (a : α)
  | crash
  | fuel
  deriving DecidableEq, Repr

/-- `key->flags & F_REACHABLE`, when the key is a pointer. -/
def keyMarked (s : Marks) : Ref → Bool
  | .oop n => s.marked n
  | _ => true

/-- `key->flags |= F_REACHABLE`. -/
def keySet (s : Marks) : Ref → Marks
  | .oop n => setMark s n
  | _ => s

/-- `key->flags &= ~F_REACHABLE` (undone later by `MAYBE_MARK_OOP (key)`). -/
def keyClear (s : Marks) : Ref → Marks
  | .oop n => clearMark s n
  | _ => s

/-- One turn of the first pass (oop.c:2117-2126). -/
def pass1Step (s : Marks) (e : Nat) (key : Ref) : Marks :=
  keySet (if keyMarked s key then setEph s e false else s) key

/-- The first pass of `mark_ephemeron_oops` (oop.c:2115-2127).  A key that is a SmallInteger is
dereferenced. -/
def pass1 (h : Heap) : List Nat → Marks → Out Marks
  | [], s => .done s
  | e :: l, s =>
    match (h.obj e).fields with
    | [] => .crash
    | .small :: _ => .crash
    | key :: _ => pass1 h l (pass1Step s e key)

/-- One turn of the second pass (oop.c:2131-2150): the state, and whether the ephemeron is to be
mourned. -/
def pass2Step (h : Heap) (fuel : Nat) (s : Marks) (e : Nat) (key : Ref) (data : List Ref) :
    Option (Marks × Bool) :=
  match markRefs h fuel data (keyClear s key) with
  | none => none
  | some s =>
    let dead := !keyMarked s key && s.eph e
    match maybeMark h fuel s key with
    | none => none
    | some s => some (setEph s e true, dead)

/-- The second pass (oop.c:2129-2151): the state and the ephemerons to be mourned. -/
def pass2 (h : Heap) (fuel : Nat) : List Nat → Marks → Out (Marks × List Nat)
  | [], s => .done (s, [])
  | e :: l, s =>
    match (h.obj e).fields with
    | [] => .crash
    | key :: data =>
      match pass2Step h fuel s e key data with
      | none => .fuel
      | some (s, dead) =>
        match pass2 h fuel l s with
        | .done (s, ds) => .done (s, if dead then e :: ds else ds)
        | .crash => .crash
        | .fuel => .fuel

/-- `mark_ephemeron_oops` (oop.c:2104-2158).  The first argument bounds the depth of its
recursion. -/
def markEphemerons (h : Heap) (fuel : Nat) : Nat → Marks → Out Marks
  | 0, _ => .fuel
  | depth + 1, s =>
    match pass1 h s.buf { s with buf := [] } with
    | .crash => .crash
    | .fuel => .fuel
    | .done s1 =>
      match pass2 h fuel s.buf s1 with
      | .crash => .crash
      | .fuel => .fuel
      | .done (s2, dead) =>
        if s2.buf = [] then .done { s2 with buf := dead }
        else
          match markEphemerons h fuel depth s2 with
          | .done s3 => .done { s3 with buf := s3.buf ++ dead }
          | o => o

/-- The state before the mark phase: no object of the table is marked. -/
def initMarks (h : Heap) : Marks :=
  { marked := fun _ => false, eph := fun n => (h.obj n).ephemeron, buf := [] }

/-- `mark_oops` (oop.c:2095-2102).  `roots` are the registered objects and the registers of the
interpreter, in the order in which they are marked. -/
def markOops (h : Heap) (fuel depth : Nat) (roots : List Ref) : Out Marks :=
  match markRefs h fuel roots (initMarks h) with
  | none => .fuel
  | some s => markEphemerons h fuel depth s

/-- `IS_OOP_VALID_GC`, after the mark phase (libgst/oop.inl:79-80). -/
def validRef (s : Marks) : Ref → Bool
  | .oop n => s.marked n
  | _ => true

/-- One weak object in `check_weak_refs` (oop.c:1718-1734): its new fields. -/
def weakFields (s : Marks) (l : List Ref) : List Ref :=
  l.map fun r => if validRef s r then r else .builtin

/-- The weak objects that `check_weak_refs` looks at (oop.c:1716-1717): those that are live. -/
def weakLive (h : Heap) (s : Marks) (n : Nat) : Bool := (h.obj n).weak && s.marked n

/-- Whether a weak object loses a field, so that it is mourned (oop.c:1727-1734). -/
def weakLoses (h : Heap) (s : Marks) (n : Nat) : Bool :=
  weakLive h s n && (h.obj n).fields.any (fun r => !validRef s r)

/-- One object after `check_weak_refs`. -/
def weakObj (h : Heap) (s : Marks) (n : Nat) : Obj :=
  if weakLive h s n then { h.obj n with fields := weakFields s (h.obj n).fields } else h.obj n

/-- `check_weak_refs` (oop.c:1703-1738): the objects after it.  The tree of weak areas is the set of
objects with the weak flag. -/
def checkWeakHeap (h : Heap) (s : Marks) : Heap := { h with obj := weakObj h s }

/-- `check_weak_refs`: the objects to be mourned.  The weak objects are added in the order of the table
here, in that of the tree of weak areas there. -/
def checkWeakBuf (h : Heap) (s : Marks) : List Nat :=
  s.buf ++ (List.range h.size).filter (weakLoses h s)

end Verif.GC
