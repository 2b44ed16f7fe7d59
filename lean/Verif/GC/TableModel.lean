/-
Model of the object table: handing out entries while an incremental sweep is going on
(libgst/oop.inl:182-226, libgst/oop.c:1276-1475), `become:` (oop.c:661-715) and tenuring
(oop.c:720-768).

An entry is a number; `lo` is `last_swept_oop + 1`, `hi` is `next_oop_to_sweep + 1`, `top` is
`last_allocated_oop + 1`, so that the entries still to be swept are `lo ≤ p < hi`.  The table of the
model has no end: entries from `size` on are those the C code would write beyond its table.  Growing
the table, the native code of the JIT compiler and statistics are left out.  `obj` stands for the
object itself, wherever it is in memory: copying it elsewhere does not change it.
-/

namespace Verif.GC.Table

/-- The flags of an entry (libgst/gstpriv.h:268-342).  `active` and `inactive` are `F_EVEN` and `F_ODD`,
as seen from the half space in use. -/
structure Flags where
  reachable : Bool := false
  old : Bool := false
  active : Bool := false
  inactive : Bool := false
  fixed : Bool := false
  loaded : Bool := false
  weak : Bool := false
  readOnly : Bool := false
  context : Bool := false
  ephemeron : Bool := false
  pooled : Bool := false
  deriving DecidableEq, Repr

/-- An entry of the table (`struct oop_s`, libgst/gstpub.h). -/
structure Entry where
  obj : Nat := 0
  flags : Flags := {}
  deriving DecidableEq, Repr

/-- The part of `struct memory_space` that matters (libgst/oop.h:205-260). `liveOld` tells whether
`live_flags` has `F_OLD` or `F_REACHABLE`. -/
structure Mem where
  ent : Nat → Entry
  lo : Nat
  hi : Nat
  top : Nat
  numFree : Int
  size : Nat
  liveOld : Bool

/-- `IS_OOP_VALID_GC` (libgst/oop.inl:79-80). -/
def validGC (s : Mem) (p : Nat) : Bool :=
  (s.ent p).flags.active || (if s.liveOld then (s.ent p).flags.old else (s.ent p).flags.reachable)

/-- `IS_OOP_VALID` (oop.inl:85-89). -/
def valid (s : Mem) (p : Nat) : Bool :=
  validGC s p || ((s.ent p).flags.old && (decide (p < s.lo) || decide (s.hi ≤ p)))

/-- Replace an entry. -/
def setEnt (s : Mem) (p : Nat) (e : Entry) : Mem :=
  { s with ent := fun q => if q = p then e else s.ent q }

/-- Replace the flags of an entry. -/
def setFlags (s : Mem) (p : Nat) (f : Flags) : Mem := setEnt s p { s.ent p with flags := f }

/-- `oop->flags &= ~F_REACHABLE`. -/
def unreach (s : Mem) (p : Nat) : Mem := setFlags s p { (s.ent p).flags with reachable := false }

/-- `_gst_sweep_oop` (oop.c:1438-1475): the memory of the object is given back, the entry is free. -/
def sweep (s : Mem) (p : Nat) : Mem := setFlags s p {}

/-- `_gst_finished_incremental_gc` (oop.c:1316-1337). -/
def finished (s : Mem) : Mem := { s with liveOld := true }

/-- The second loop of `alloc_oop` (oop.inl:207-211). -/
def allocFast (s : Mem) : Nat → Nat → Option Nat
  | 0, _ => none
  | fuel + 1, p => if validGC s p then allocFast s fuel (p + 1) else some p

/-- The first loop of `alloc_oop` (oop.inl:191-206). -/
def allocSlow (s : Mem) : Nat → Nat → Option (Mem × Nat)
  | 0, _ => none
  | fuel + 1, p =>
    if validGC s p then
      let s := unreach s p
      if s.hi ≤ p + 1 then
        let s := finished s
        match allocFast s fuel (p + 1) with
        | none => none
        | some q => some (s, q)
      else allocSlow s fuel (p + 1)
    else
      let s := sweep s p
      some (if s.hi ≤ p + 1 then finished s else s, p)

/-- What `alloc_oop` does with the entry it found (oop.inl:213-225). -/
def handOut (s : Mem) (p : Nat) (obj : Nat) (f : Flags) : Mem :=
  setEnt { s with lo := p + 1, numFree := s.numFree - 1, top := if s.top ≤ p then p + 1 else s.top }
    p { obj := obj, flags := f }

/-- `alloc_oop` (oop.inl:182-226). -/
def alloc (s : Mem) (fuel : Nat) (obj : Nat) (f : Flags) : Option (Mem × Nat) :=
  if s.lo < s.hi then
    match allocSlow s fuel s.lo with
    | none => none
    | some (s, p) => some (handOut s p obj f, p)
  else
    match allocFast s fuel s.lo with
    | none => none
    | some p => some (handOut s p obj f, p)

/-- Sweep one entry in `_gst_incremental_gc_step` or `_gst_finish_incremental_gc` (oop.c:1305-1309,
1359-1362). -/
def sweepCount (s : Mem) (p : Nat) : Mem :=
  let s := sweep s p
  { s with numFree := s.numFree + 1, top := if s.top = p + 1 then p else s.top }

/-- The loop of `_gst_finish_incremental_gc` (oop.c:1294-1310); `q` is one more than the entry. -/
def finishLoop (s : Mem) : Nat → Mem
  | 0 => { s with hi := 0 }
  | p + 1 =>
    if s.lo < p + 1 then
      if validGC s p then finishLoop (unreach s p) p else finishLoop (sweepCount s p) p
    else { s with hi := p + 1 }

/-- `_gst_finish_incremental_gc` (oop.c:1283-1314). -/
def finish (s : Mem) : Mem := finished (finishLoop s s.hi)

/-- `INCREMENTAL_SWEEP_STEP` (oop.c:62). -/
def sweepStep : Nat := 100

/-- The loop of `_gst_incremental_gc_step` (oop.c:1350-1373). -/
def stepLoop (s : Mem) (i : Nat) : Nat → Mem × Bool
  | 0 => (finished { s with hi := 0 }, true)
  | p + 1 =>
    if s.lo < p + 1 then
      if validGC s p then stepLoop (unreach s p) i p
      else
        let s := sweepCount s p
        if i + 1 = sweepStep then ({ s with hi := p }, false)
        else stepLoop s (i + 1) p
    else (finished { s with hi := p + 1 }, true)

/-- `_gst_incremental_gc_step` (oop.c:1339-1374). -/
def step (s : Mem) : Mem × Bool :=
  if s.lo < s.hi then stepLoop s 0 s.hi else (s, true)

/-- The first loop of `reset_incremental_gc` (oop.c:1381-1404). -/
def resetLow (s : Mem) : Nat → Nat → Option (Mem × Nat)
  | 0, _ => none
  | fuel + 1, p => if validGC s p then resetLow (unreach s p) fuel (p + 1) else some (s, p)

/-- The second loop of `reset_incremental_gc` (oop.c:1413-1418).  Below the table lie the built-in
objects, which are always valid. -/
def resetHigh (s : Mem) : Nat → Mem
  | 0 => { s with top := 0, hi := 0 }
  | p + 1 =>
    if valid s p then { s with top := p + 1, hi := p + 1 } else resetHigh (sweep s p) p

/-- `reset_incremental_gc` (oop.c:1376-1435), called with the start of the table. -/
def reset (s : Mem) (fuel : Nat) : Option Mem :=
  match resetLow s fuel 0 with
  | none => none
  | some (s, p) =>
    let s := resetHigh { s with hi := s.top, lo := p } s.top
    some { s with numFree := (s.size : Int) - ((s.top : Int) - 1) }

/-- `_gst_tenure_oop` (oop.c:746-768).  The object is copied into old space. -/
def tenureFlags (f : Flags) : Flags :=
  if f.old then f else { f with active := false, inactive := false, pooled := false, old := true }

def tenure (s : Mem) (p : Nat) : Mem := setFlags s p (tenureFlags (s.ent p).flags)

/-- `_gst_make_oop_fixed` (oop.c:718-744). -/
def fixFlags (f : Flags) : Flags :=
  if f.fixed then f
  else { f with active := false, inactive := false, pooled := false, old := true, fixed := true }

def makeFixed (s : Mem) (p : Nat) : Mem := setFlags s p (fixFlags (s.ent p).flags)

/-- `_gst_make_oop_non_weak` (oop.c:609-628), as far as the flags go. -/
def nonWeak (s : Mem) (p : Nat) : Mem := setFlags s p { (s.ent p).flags with weak := false }

/-- `_gst_make_oop_weak` (oop.c:630-659), as far as the flags go. -/
def makeWeak (s : Mem) (p : Nat) : Mem := setFlags s p { (s.ent p).flags with weak := true }

/-- `if (oop->flags & F_WEAK) …`. -/
def ifWeak (s : Mem) (p : Nat) (act : Mem → Nat → Mem) : Mem :=
  if (s.ent p).flags.weak then act s p else s

/-- Put both objects in the same generation (oop.c:681-682). -/
def sameGeneration (s : Mem) (p q : Nat) : Mem :=
  if (s.ent p).flags.old != (s.ent q).flags.old then
    tenure s (if (s.ent p).flags.old then q else p)
  else s

/-- Exchange two entries (oop.c:695-697). -/
def exchange (s : Mem) (p q : Nat) : Mem :=
  let temp := s.ent q
  setEnt (setEnt s q (s.ent p)) p temp

/-- `oop->flags ^= F_REACHABLE`. -/
def flipReach (s : Mem) (p : Nat) : Mem :=
  setFlags s p { (s.ent p).flags with reachable := !(s.ent p).flags.reachable }

/-- Give `F_REACHABLE` back to the entry that had it (oop.c:702-706). -/
def fixReach (s : Mem) (p q : Nat) : Mem :=
  if (s.ent p).flags.reachable != (s.ent q).flags.reachable then flipReach (flipReach s p) q else s

/-- `_gst_swap_objects` (oop.c:661-715). -/
def become (s : Mem) (p q : Nat) : Mem :=
  let s := ifWeak s q nonWeak
  let s := ifWeak s p nonWeak
  let s := sameGeneration s p q
  let s := exchange s p q
  let s := fixReach s p q
  let s := ifWeak s q makeWeak
  ifWeak s p makeWeak

/-! ### The collections, as far as the table is concerned -/

/-- What `_gst_global_gc` (oop.c:1100-1110) does to the flags of an entry: `copy_oops` leaves the
unreachable new objects in the other half space, `_gst_tenure_all_survivors` makes old
objects of the others, `mark_oops` marks what is reachable. -/
def globalFlags (keep : Bool) (f : Flags) : Flags :=
  if keep then { tenureFlags f with reachable := true }
  else { f with active := false, inactive := f.active || f.inactive }

/-- `_gst_global_gc` (oop.c:1100-1112).  `keep` are the entries of the reachable objects (see
`marks_exactly_live`). -/
def globalGC (s : Mem) (fuel : Nat) (keep : Nat → Bool) : Option Mem :=
  let s := finish s
  let ent := fun p =>
    if (s.ent p).flags = {} then s.ent p
    else { s.ent p with flags := globalFlags (keep p) (s.ent p).flags }
  reset { s with ent := ent, liveOld := false } fuel

/-- What a scavenge does to the flags of an entry (`copy_oops`, oop.c:1741-1774): nothing to an old
object; a new object is copied to the other half space, or tenured, or left behind. -/
def scavengeFlags (keep tenured : Bool) (f : Flags) : Flags :=
  if f.old then f
  else if keep then if tenured then tenureFlags f else f
  else { f with active := false, inactive := true }

/-- `_gst_scavenge` (oop.c:1225-1230). -/
def scavenge (s : Mem) (fuel : Nat) (keep tenured : Nat → Bool) : Option Mem :=
  let s := finish s
  let ent := fun p =>
    if (s.ent p).flags = {} then s.ent p
    else { s.ent p with flags := scavengeFlags (keep p) (tenured p) (s.ent p).flags }
  reset { s with ent := ent } fuel

/-- The empty table (oop.c:469-489). -/
def initMem (size : Nat) : Mem :=
  { ent := fun _ => {}, lo := 0, hi := 0, top := 0, numFree := size, size := size, liveOld := true }

end Verif.GC.Table
