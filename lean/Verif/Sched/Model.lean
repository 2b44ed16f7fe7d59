/-!
# The process scheduler (libgst/interp.c, libgst/prims.def)

Processes are linked into lists (ready lists, one per priority, and semaphores) by raw
`nextLink` pointers; the model keeps those pointers.  `n` is the number of process objects;
it is arbitrary.  `none` as the result of an operation means undefined behaviour (following
a nil link) or an endless loop.

Simplifications, for the whole file: contexts are reduced to `live` (the process's
`suspendedContext` is not nil); the interpreter registers, the value left on the stack of a
resumed process and the except flag are left out; `_gst_check_process_state` (a debugging
aid that only aborts) is left out.
-/

namespace Verif.Sched

/-- The list objects: element `prio` of `Processor processLists`, or a semaphore. -/
inductive Lid
  | ready (prio : Nat)
  | sem (id : Nat)
  deriving DecidableEq

/-- `struct gst_process`: libgst/interp.h:202-217. -/
structure Proc (n : Nat) where
  prio : Nat
  myList : Option Lid
  next : Option (Fin n)
  live : Bool

/-- `struct gst_semaphore`: libgst/interp.h:192-200. -/
structure PList (n : Nat) where
  first : Option (Fin n)
  last : Option (Fin n)
  signals : Int

/-- Processes, lists, `processor->activeProcess` and `switch_to_process`.
`idle` is set when "No runnable process" is reached (interp.c:1707-1711); the emergency
process created there is not modelled and the run ends. -/
structure VM (n : Nat) where
  proc : Fin n → Proc n
  list : Lid → PList n
  scheduled : Option (Fin n)
  switchTo : Option (Fin n)
  idle : Bool

/-- `NUM_PRIORITIES`: libgst/interp.h:59. -/
def numPriorities : Nat := 9

variable {n : Nat}

def VM.setProc (s : VM n) (p : Fin n) (f : Proc n → Proc n) : VM n :=
  { s with proc := fun r => if r = p then f (s.proc r) else s.proc r }

def VM.setList (s : VM n) (l : Lid) (f : PList n → PList n) : VM n :=
  { s with list := fun m => if m = l then f (s.list m) else s.list m }

/-- `get_active_process`: interp.c:1368-1375. -/
def VM.active (s : VM n) : Option (Fin n) :=
  match s.switchTo with
  | some p => some p
  | none => s.scheduled

/-- The loop that finds the predecessor in `remove_process_from_list`: interp.c:1412-1419.
A list without repetition has at most `n` members, so `n` steps are enough. -/
def findPrev (s : VM n) (target : Fin n) : Nat → Fin n → Option (Fin n)
  | 0, _ => none
  | fuel + 1, cur =>
    match (s.proc cur).next with
    | none => none
    | some x => if x = target then some cur else findPrev s target fuel x

/-- The part of `remove_process_from_list` that unlinks from `l`: interp.c:1402-1423. -/
def unlink (s : VM n) (l : Lid) (p : Fin n) : Option (VM n) :=
  if (s.list l).first = some p then
    some (s.setList l fun L =>
      { L with first := (s.proc p).next, last := if L.last = some p then none else L.last })
  else do
    let f ← (s.list l).first
    let prev ← findPrev s p n f
    let s' := s.setProc prev fun P => { P with next := (s.proc p).next }
    some (if (s.list l).last = some p then s'.setList l fun L => { L with last := some prev }
      else s')

/-- `remove_process_from_list`: interp.c:1388-1429. -/
def removeProcess (s : VM n) (p : Fin n) : Option (VM n) := do
  let s ← (match (s.proc p).myList with
    | some l => (unlink s l p).map fun s => s.setProc p fun P => { P with myList := none }
    | none => some s : Option (VM n))
  some (s.setProc p fun P => { P with next := none })

/-- `add_first_link`: interp.c:1431-1448. -/
def addFirst (s : VM n) (l : Lid) (p : Fin n) : Option (VM n) := do
  let s ← removeProcess s p
  let s := s.setProc p fun P => { P with myList := some l, next := (s.list l).first }
  some (s.setList l fun L =>
    { L with first := some p, last := if L.last = none then some p else L.last })

/-- `add_last_link`: interp.c:1469-1492. -/
def addLast (s : VM n) (l : Lid) (p : Fin n) : Option (VM n) := do
  let s ← removeProcess s p
  let s := s.setProc p fun P => { P with myList := some l, next := none }
  match (s.list l).last with
  | none => some (s.setList l fun L => { L with first := some p, last := some p })
  | some q =>
    let s := s.setProc q fun P => { P with next := some p }
    some (s.setList l fun L => { L with last := some p })

/-- `is_empty`: interp.c:1495-1502. -/
def isEmpty (s : VM n) (l : Lid) : Bool := (s.list l).first.isNone

/-- `remove_first_link`: interp.c:1725-1744. -/
def removeFirst (s : VM n) (l : Lid) : Option (Fin n × VM n) := do
  let p ← (s.list l).first
  let s := s.setList l fun L =>
    { L with first := (s.proc p).next, last := if (s.proc p).next = none then none else L.last }
  some (p, s.setProc p fun P => { P with myList := none, next := none })

/-- `is_process_ready`: interp.c:1857-1872. -/
def isReady (s : VM n) (p : Fin n) : Bool := (s.proc p).myList = some (.ready (s.proc p).prio)

/-- `sleep_process`: interp.c:1874-1889. -/
def sleepProcess (s : VM n) (p : Fin n) : Option (VM n) :=
  addLast s (.ready (s.proc p).prio) p

/-- `activate_process`: interp.c:1813-1837; the answer is nil exactly for a nil argument. -/
def activate (s : VM n) : Option (Fin n) → Option (VM n)
  | none => some s
  | some p => do
    let s ← (if s.active = some p then some s
      else addFirst s (.ready (s.proc p).prio) p : Option (VM n))
    some { s with switchTo := some p }

/-- The loop of `highest_priority_process`, priorities `k` down to 1: interp.c:1939-1962. -/
def highestLoop (s : VM n) : Nat → Option (Option (Fin n) × VM n)
  | 0 => some (none, s)
  | k + 1 =>
    if isEmpty s (.ready (k + 1)) then highestLoop s k
    else do
      let (p, s) ← removeFirst s (.ready (k + 1))
      if some p = s.scheduled then do
        let s ← addLast s (.ready (k + 1)) p
        if (s.list (.ready (k + 1))).first = (s.list (.ready (k + 1))).last then highestLoop s k
        else do
          let (p, s) ← removeFirst s (.ready (k + 1))
          some (some p, s)
      else some (some p, s)

/-- `highest_priority_process`: interp.c:1930-1964. -/
def highestPriority (s : VM n) : Option (Option (Fin n) × VM n) := highestLoop s numPriorities

/-- `next_scheduled_process`: interp.c:1966-1983.  With a nil active process the C code asks
whether nil is ready; the model says it is not. -/
def nextScheduled (s : VM n) : Option (Option (Fin n) × VM n) := do
  let (p, s) ← highestPriority s
  match p with
  | some p => some (some p, s)
  | none =>
    match s.scheduled with
    | some a => if isReady s a then some (none, s) else some (none, { s with scheduled := none })
    | none => some (none, { s with scheduled := none })

/-- `ACTIVE_PROCESS_YIELD`: interp.c:543-544.  Also answers what was activated. -/
def yieldMacro (s : VM n) : Option (Option (Fin n) × VM n) := do
  let (p, s) ← nextScheduled s
  let s ← activate s p
  some (p, s)

/-- `suspend_process`: interp.c:1450-1457. -/
def suspend (s : VM n) (p : Fin n) : Option (VM n) := do
  let s ← removeProcess s p
  if s.scheduled = some p then (yieldMacro s).map Prod.snd else some s

/-- `_gst_terminate_process` (interp.c:1459-1467) and `Process >> primTerminate`
(kernel/Process.st:154-162). -/
def terminate (s : VM n) (p : Fin n) : Option (VM n) :=
  suspend (s.setProc p fun P => { P with live := false }) p

/-- `active_process_yield`: interp.c:1507-1517.  Only called by a running process. -/
def activeYield (s : VM n) : Option (VM n) := do
  let a ← s.active
  let (p, s) ← highestPriority s
  let s ← (if isReady s a then sleepProcess s a else some s : Option (VM n))
  activate s (match p with | none => some a | some p => some p)

/-- `resume_process`: interp.c:1746-1811; the answer tells whether the process was still
alive.  `alwaysPreempt` is as in C. -/
def resume (s : VM n) (p : Fin n) (alwaysPreempt : Bool) : Option (Bool × VM n) := do
  let active := s.active
  let s' ← (if active = some p then removeProcess s p else some s : Option (VM n))
  let preempt := if active = some p then alwaysPreempt
    else alwaysPreempt || (match active with
      | some a => decide ((s.proc p).prio ≥ (s.proc a).prio)
      | none => false)
  if !(s.proc p).live then some (false, s')
  else match active with
    | none => do
      let s' ← activate s' (some p)
      some (true, s')
    | some a =>
      if preempt then do
        let s' ← (if (s'.proc a).myList ≠ none then sleepProcess s' a else some s' : Option (VM n))
        let s' ← activate s' (some p)
        some (true, s')
      else do
        let s' ← addFirst s' (.ready (s.proc p).prio) p
        some (true, s')

/-- `_gst_sync_signal`: interp.c:1520-1555.  Answers the process resumed, nil if none.  Each
round removes a process from the semaphore, so `n + 1` rounds are enough. -/
def signalLoop (i : Nat) (incr : Bool) : Nat → VM n → Option (Option (Fin n) × VM n)
  | 0, _ => none
  | fuel + 1, s =>
    if isEmpty s (.sem i) then
      some (none, if incr then s.setList (.sem i) fun L => { L with signals := L.signals + 1 }
        else s)
    else do
      let (p, s) ← removeFirst s (.sem i)
      let (ok, s) ← resume s p false
      if ok then some (some p, s) else signalLoop i incr fuel s

def signal (s : VM n) (i : Nat) (incr : Bool) : Option (Option (Fin n) × VM n) :=
  signalLoop i incr (n + 1) s

/-- `VMpr_Semaphore_notifyAll`: prims.def:2858-2868. -/
def notifyLoop (i : Nat) : Nat → VM n → Option (VM n)
  | 0, _ => none
  | fuel + 1, s => do
    let (r, s) ← signal s i false
    match r with
    | some _ => notifyLoop i fuel s
    | none => some s

def notifyAll (s : VM n) (i : Nat) : Option (VM n) := notifyLoop i (n + 1) s

/-- `VMpr_Semaphore_lock`: prims.def:2883-2894. -/
def lock (s : VM n) (i : Nat) : Option (VM n) :=
  some (s.setList (.sem i) fun L => { L with signals := 0 })

/-- `sync_wait_process` for the process `p`: interp.c:1680-1717. -/
def syncWait (s : VM n) (i : Nat) (p : Fin n) : Option (VM n) :=
  if (s.list (.sem i)).signals ≤ 0 then do
    let isActive := s.active = some p
    let s ← removeProcess s p
    let s ← addLast s (.sem i) p
    if isActive then do
      let (r, s) ← yieldMacro s
      match r with
      | some _ => some s
      | none => some { s with idle := true }
    else some s
  else some (s.setList (.sem i) fun L => { L with signals := L.signals - 1 })

/-- `_gst_sync_wait`: interp.c:1719-1723; it waits in the name of `get_active_process`. -/
def wait (s : VM n) (i : Nat) : Option (VM n) := do
  let p ← s.active
  syncWait s i p

/-- `VMpr_Semaphore_waitAfterSignalling`: prims.def:2907-2918. -/
def waitAfterSignalling (s : VM n) (i j : Nat) : Option (VM n) := do
  let (_, s) ← signal s j true
  wait s i

/-- `VMpr_Process_yield`: prims.def:2972-2984. -/
def yield (s : VM n) (p : Fin n) : Option (VM n) :=
  if s.active = some p then activeYield s else some s

/-- `change_process_context`, the process bookkeeping: interp.c:1294-1347, called from
`monitor_byte_codes` (interp-bc.inl:533-537). -/
def switch (s : VM n) : VM n :=
  match s.switchTo with
  | none => s
  | some p => { s with scheduled := some p, switchTo := none }

/-- The loop of `would_reschedule_process`: interp.c:1908-1914, counting `d` down from
`activePriority + d = 9`; answers the priority reached. -/
def rescheduleLoop (s : VM n) (activePriority : Nat) : Nat → Nat
  | 0 => if isEmpty s (.ready activePriority) then activePriority - 1 else activePriority
  | d + 1 =>
    if isEmpty s (.ready (activePriority + d + 1)) then rescheduleLoop s activePriority d
    else activePriority + d + 1

/-- `would_reschedule_process`: interp.c:1892-1928. -/
def wouldReschedule (s : VM n) : Option Bool :=
  match s.switchTo with
  | some _ => some false
  | none => do
    let a ← s.scheduled
    let ap := (s.proc a).prio
    let k := rescheduleLoop s ap (numPriorities - ap)
    let L := s.list (.ready k)
    some (decide (k < ap) || (decide (k = ap) && decide (L.first = L.last) &&
      decide (L.first = some a)))

/-- What the interpreter can do to the scheduler, one at a time.  `signal`, `notify`... are
also what an asynchronous call does (interp.c:1558-1568).  `preempt` is the end of a time
slice (interp-bc.inl:530-531).  `switch` is the switch to the process chosen, before the
next bytecode.  `setPriority` is the range check and the assignment in
`Process >> priority:` (kernel/Process.st:243-257), which is followed by `resume`. -/
inductive Op (n : Nat)
  | signal (i : Nat)
  | notify (i : Nat)
  | notifyAll (i : Nat)
  | lock (i : Nat)
  | wait (i : Nat)
  | waitFor (i : Nat) (p : Fin n)
  | suspend (p : Fin n)
  | terminate (p : Fin n)
  | resume (p : Fin n)
  | yield (p : Fin n)
  | pause
  | preempt
  | switch
  | setPriority (p : Fin n) (k : Nat)

/-- One operation.  Operations that only a running process can perform do nothing when
there is none. -/
def step (s : VM n) : Op n → Option (VM n)
  | .signal i => (signal s i true).map Prod.snd
  | .notify i => (signal s i false).map Prod.snd
  | .notifyAll i => notifyAll s i
  | .lock i => lock s i
  | .wait i => if s.active = none then some s else wait s i
  | .waitFor i p => syncWait s i p
  | .suspend p => suspend s p
  | .terminate p => terminate s p
  | .resume p => (resume s p false).map Prod.snd
  | .yield p => yield s p
  | .pause => if s.active = none then some s else activeYield s
  | .preempt => (yieldMacro s).map Prod.snd
  | .switch => some (switch s)
  | .setPriority p k =>
    if 1 ≤ k ∧ k ≤ numPriorities then some (s.setProc p fun P => { P with prio := k }) else some s

/-- A history, newest operation first. -/
def run (s : VM n) : List (Op n) → Option (VM n)
  | [] => some s
  | op :: ops => do
    let s ← run s ops
    if s.idle then some s else step s op

end Verif.Sched
