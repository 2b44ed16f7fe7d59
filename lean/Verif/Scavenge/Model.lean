/-!
# The scavenger

Objects are born in eden.  A scavenge copies those still in use into one of two survivor
spaces; the survivor space is a ring, and when it is full the oldest survivor is tenured, that is
moved to old space, to make room.  A second ring, the tenuring queue, holds the same objects in the
same order; the scan pointer of Cheney's algorithm walks along it.

Addresses inside a ring are offsets from its `minPtr`.  What is kept of an object is what the
scavenger looks at: its class, its fields, its size and whether it is weak or an ephemeron.  The
words of the objects are not modelled a second time in the survivor space; the scavenger does not
change them, so reading a field of a copy is reading the field of the object.  `README`-like list of
what is left out: the `filled` and `allocated` counters (only used for statistics and by
`_gst_tenure_all_survivors`), the context pool, the incubator, the page protection that adds pages
written to by a tenuring to the grey list, and reads through stale pointers when an ephemeron is
tenured while its own fields are being copied.
-/

namespace Verif.Scavenge

/-- Objects are named by their entries in the object table. -/
scoped notation "Oop" => Nat

/-- The flags that matter for scanning: libgst/oop.h:104-145 `F_WEAK`, `F_EPHEMERON`. -/
inductive Kind | plain | weak | ephemeron
  deriving DecidableEq, Repr

/-- An object: libgst/gst.h:105-143.  A word is `none` when it is a SmallInteger.  `fields` are the
pointer fields, for a context those up to its stack pointer (libgst/oop.c:1937-1957
`scanned_fields_in`); `size` is `objSize`, in words, header included. -/
structure Obj where
  cls : Option Oop
  fields : List (Option Oop)
  size : Nat
  kind : Kind
  deriving Repr

/-- Where an object is.  `fresh`: in eden or in the survivor space being emptied, not yet copied;
`copied`: in the survivor space being filled; `old`: in old space, or not in the heap at all.
`IS_OOP_COPIED` (libgst/oop.inl:71-72) is `≠ fresh`, `IS_OOP_NEW` (oop.inl:74-75) is `≠ old`. -/
inductive Loc | fresh | copied | old
  deriving DecidableEq, Repr

/-- libgst/oop.h:155-164 `surv_space`, as offsets from `minPtr`. -/
structure Ring where
  tenure : Nat
  alloc : Nat
  top : Nat
  deriving DecidableEq, Repr

/-- libgst/oop.c:860-866 `reset_survivor_space`. -/
def Ring.empty : Ring := ⟨0, 0, 0⟩

/-- libgst/oop.c:1514 `IS_QUEUE_SPLIT`. -/
def Ring.split (q : Ring) : Prop := q.top ≠ q.alloc

instance (q : Ring) : Decidable q.split := inferInstanceAs (Decidable (_ ≠ _))

/-- libgst/oop.c:1516-1532 `queue_get`: the read pointer moves `n` words and wraps when it meets
`topPtr`. -/
def Ring.get (q : Ring) (n : Nat) : Ring :=
  if q.tenure + n = q.top then { q with tenure := 0, top := q.alloc }
  else { q with tenure := q.tenure + n }

/-- libgst/oop.c:1558-1567, the wrap in `queue_put`. -/
def Ring.wrap (q : Ring) : Ring := { q with top := q.alloc, alloc := 0 }

/-- libgst/oop.c:1572-1581, the end of `queue_put`. -/
def Ring.bump (q : Ring) (n : Nat) : Ring :=
  { q with top := if q.split then q.top else q.alloc + n, alloc := q.alloc + n }

/-- What a scavenge changes: `_gst_mem` (libgst/oop.h:186-290).  `qmem` is the memory of the
tenuring queue, `q` its pointers, `r` the pointers of the active survivor space, `addr` where in it
an object was put, `scanAt` is `scan.queue_at`, `grey` the list `grey_areas`, `mourn` the buffer of
objects to be finalized. -/
structure St where
  loc : Oop → Loc
  addr : Oop → Nat
  qmem : Nat → Oop
  q : Ring
  r : Ring
  scanAt : Nat
  current : Option Oop
  grey : List Oop
  mourn : List Oop

/-- What it does not change: the objects, the sizes in words of the tenuring queue and of a survivor
space (libgst/oop.c:250-330 `_gst_init_mem`), and a bound for the loops below, which are given
`none` when they exceed it. -/
structure Conf where
  obj : Oop → Obj
  qcap : Nat
  rcap : Nat
  fuel : Nat

variable (c : Conf)

/-- The words a Cheney scan looks at: libgst/oop.c:1937-1957 `scanned_fields_in`, counted from the
class. -/
def scanned (o : Oop) : List (Option Oop) :=
  match (c.obj o).kind with
  | .weak => [(c.obj o).cls]
  | _ => (c.obj o).cls :: (c.obj o).fields

/-- libgst/oop.c:747-768 `_gst_tenure_oop`, as far as the flags go. -/
def tenureOop (s : St) (o : Oop) : St :=
  { s with loc := fun x => if x = o then .old else s.loc x }

/-- libgst/oop.c:1585-1628 `tenure_one_object`.  `add_grey_object` (oop.c:1646-1674) always adds
an entry, as every object has at least its class. -/
def tenureOne (s : St) : St :=
  let o := s.qmem s.q.tenure
  let s1 :=
    if s.current = some o then tenureOop s o
    else if s.scanAt = s.q.tenure then
      let a := s.scanAt + 1
      { tenureOop s o with
        scanAt := if a ≥ s.q.top ∧ s.q.split then 0 else a
        grey := s.grey ++ [o] }
    else tenureOop s o
  { s1 with q := s1.q.get 1, r := s1.r.get (c.obj o).size }

/-- libgst/oop.c:1538-1570, the loop of `queue_put`, for the tenuring queue. -/
def roomQ : Nat → St → Option St
  | 0, _ => none
  | f + 1, s =>
    if s.q.split ∧ s.q.alloc + 1 > s.q.tenure then roomQ f (tenureOne c s)
    else if s.q.alloc + 1 > c.qcap then roomQ f { s with q := s.q.wrap }
    else some s

/-- The same loop for the survivor space and an object of `n` words. -/
def roomR (n : Nat) : Nat → St → Option St
  | 0, _ => none
  | f + 1, s =>
    if s.r.split ∧ s.r.alloc + n > s.r.tenure then roomR n f (tenureOne c s)
    else if s.r.alloc + n > c.rcap then roomR n f { s with r := s.r.wrap }
    else some s

/-- libgst/oop.c:1534-1583 `queue_put` on the tenuring queue. -/
def putQ (s : St) (o : Oop) : Option St :=
  match roomQ c c.fuel s with
  | none => none
  | some s => some { s with
      qmem := fun a => if a = s.q.alloc then o else s.qmem a
      q := s.q.bump 1 }

/-- `queue_put` on the survivor space; the answer is stored in `oop->object`. -/
def putR (s : St) (o : Oop) : Option St :=
  match roomR c (c.obj o).size c.fuel s with
  | none => none
  | some s => some { s with
      addr := fun x => if x = o then s.r.alloc else s.addr x
      r := s.r.bump (c.obj o).size }

/-- The children `_gst_copy_an_oop` may go on with: not the class, and nothing for a weak object. -/
def children (o : Oop) : List (Option Oop) := (scanned c o).tail

/-- Is this word an object that must be copied?  `!IS_OOP_COPIED` (libgst/oop.inl:71-72). -/
def isFresh (s : St) : Option Oop → Bool
  | none => false
  | some o => s.loc o = .fresh

/-- libgst/oop.c:2018-2092 `_gst_copy_an_oop`: copy the object, then go on with its first child that
was not copied. -/
def copyAn : Nat → Oop → St → Option St
  | 0, _, _ => none
  | f + 1, o, s =>
    match putQ c s o with
    | none => none
    | some s =>
      match putR c s o with
      | none => none
      | some s =>
        let s := { s with loc := fun x => if x = o then .copied else s.loc x }
        if (c.obj o).kind = .ephemeron then some { s with grey := s.grey ++ [o] }
        else
          match (children c o).find? (isFresh s) with
          | some (some o') => copyAn f o' s
          | _ => some s

/-- libgst/oop.inl:57-69 `MAYBE_COPY_OOP`. -/
def maybeCopy (s : St) (w : Option Oop) : Option St :=
  match w with
  | none => some s
  | some o => if s.loc o = .fresh then copyAn c c.fuel o s else some s

/-- libgst/oop.c:2009-2015 `_gst_copy_oop_range`, and the loop at oop.c:1999-2001. -/
def copyRange : List (Option Oop) → St → Option St
  | [], s => some s
  | w :: ws, s =>
    match maybeCopy c s w with
    | none => none
    | some s => copyRange ws s

/-- libgst/oop.c:1959-2007 `cheney_scan`. -/
def cheney : Nat → St → Option St
  | 0, _ => none
  | f + 1, s =>
    if s.scanAt = s.q.alloc then some s
    else
      let s := if s.scanAt ≥ s.q.top then { s with scanAt := 0 } else s
      if s.scanAt = s.q.alloc then some s
      else
        let o := s.qmem s.scanAt
        let s := { s with current := some o, scanAt := s.scanAt + 1 }
        if (c.obj o).kind = .ephemeron then cheney f s
        else
          match copyRange c (scanned c o) s with
          | none => none
          | some s => cheney f s

/-- Scan a list of words, then everything they led to. -/
def copyAndScan (ws : List (Option Oop)) (s : St) : Option St :=
  match copyRange c ws s with
  | none => none
  | some s => cheney c c.fuel s

/-- libgst/oop.c:1814-1890 `scan_grey_pages`.  A page is the list of the words on it that are
object pointers; `true` in the answer says that it stays on the list. -/
def scanPages : List (List (Option Oop)) → St → Option (St × List Bool)
  | [], s => some (s, [])
  | p :: ps, s =>
    match scanPage p s with
    | none => none
    | some (s, keep) =>
      match cheney c c.fuel s with
      | none => none
      | some s =>
        match scanPages ps s with
        | none => none
        | some (s, ks) => some (s, keep :: ks)
where
  /-- libgst/oop.c:1840-1856, the words of one page; the flag is `n != 0`. -/
  scanPage : List (Option Oop) → St → Option (St × Bool)
    | [], s => some (s, false)
    | none :: ws, s => scanPage ws s
    | some o :: ws, s =>
      if s.loc o = .old then scanPage ws s
      else
        match maybeCopy c s (some o) with
        | none => none
        | some s =>
          match scanPage ws s with
          | none => none
          | some (s, _) => some (s, true)

/-- libgst/oop.c:1901-1922, one grey object.  For an ephemeron the value is copied first; if the
key was not copied by then, it is copied and the ephemeron is going to be mourned. -/
def scanGrey (o : Oop) (s : St) : Option St :=
  if (c.obj o).kind = .ephemeron then
    match copyRange c ((c.obj o).fields.drop 1) s with
    | none => none
    | some s =>
      match (c.obj o).fields.head? with
      | some (some k) =>
        if s.loc k = .fresh then
          match copyAn c c.fuel k s with
          | none => none
          | some s => some { s with mourn := s.mourn ++ [o] }
        else some s
      | _ => some s
  else copyRange c (scanned c o) s

/-- libgst/oop.c:1892-1934 `scan_grey_objects`. -/
def scanGreys : Nat → St → Option St
  | 0, _ => none
  | f + 1, s =>
    match s.grey with
    | [] => some s
    | o :: _ =>
      match scanGrey c o s with
      | none => none
      | some s =>
        match cheney c c.fuel { s with grey := s.grey.tail } with
        | none => none
        | some s => scanGreys f s

/-- What a scavenge is given: the words on the grey pages, the registered objects
(libgst/callin.c:1096-1121) and the interpreter's registers (libgst/interp.c:2382-2413). -/
structure Roots where
  pages : List (List (Option Oop))
  registered : List (Option Oop)
  processor : List (Option Oop)

/-- libgst/oop.c:1741-1758, the start of `copy_oops`: after the flip everything that was in new
space counts as not copied, both rings are empty.  `scan.current` keeps the value that the last
scavenge left in it. -/
def start (young : Oop → Bool) (stale : Option Oop) (junk : Nat → Oop) : St where
  loc := fun o => if young o then .fresh else .old
  addr := fun _ => 0
  qmem := junk
  q := .empty
  r := .empty
  scanAt := 0
  current := stale
  grey := []
  mourn := []

/-- libgst/oop.c:1740-1774 `copy_oops`. -/
def copyOops (rt : Roots) (s : St) : Option (St × List Bool) :=
  match scanPages c rt.pages s with
  | none => none
  | some (s, ks) =>
    match copyAndScan c rt.registered s with
    | none => none
    | some s =>
      match copyAndScan c rt.processor s with
      | none => none
      | some s =>
        match scanGreys c c.fuel s with
        | none => none
        | some s => some (s, ks)

end Verif.Scavenge
