import Verif.Sched.Model

/-!
# The scheduler on plain lists

The specification that the pointer code is compared with: every ready list and every
semaphore is a list of processes.
-/

namespace Verif.Sched

variable {n : Nat}

structure Abs (n : Nat) where
  q : Lid → List (Fin n)
  prio : Fin n → Nat
  live : Fin n → Bool
  signals : Lid → Int
  scheduled : Option (Fin n)
  switchTo : Option (Fin n)
  idle : Bool

namespace Abs

def set (a : Abs n) (l : Lid) (xs : List (Fin n)) : Abs n :=
  { a with q := fun m => if m = l then xs else a.q m }

/-- Take `p` out of whatever list it is on. -/
def remove (a : Abs n) (p : Fin n) : Abs n := { a with q := fun l => (a.q l).filter (· ≠ p) }

def addFirst (a : Abs n) (l : Lid) (p : Fin n) : Abs n :=
  (a.remove p).set l (p :: (a.remove p).q l)

def addLast (a : Abs n) (l : Lid) (p : Fin n) : Abs n :=
  (a.remove p).set l ((a.remove p).q l ++ [p])

def active (a : Abs n) : Option (Fin n) :=
  match a.switchTo with
  | some p => some p
  | none => a.scheduled

def sleep (a : Abs n) (p : Fin n) : Abs n := a.addLast (.ready (a.prio p)) p

def activate (a : Abs n) : Option (Fin n) → Abs n
  | none => a
  | some p =>
    let a := if a.active = some p then a else a.addFirst (.ready (a.prio p)) p
    { a with switchTo := some p }

def highestLoop (a : Abs n) : Nat → Option (Fin n) × Abs n
  | 0 => (none, a)
  | k + 1 =>
    match a.q (.ready (k + 1)) with
    | [] => highestLoop a k
    | p :: ps =>
      if some p = a.scheduled then
        match ps with
        | [] => highestLoop a k
        | r :: rs => (some r, a.set (.ready (k + 1)) (rs ++ [p]))
      else (some p, a.set (.ready (k + 1)) ps)

def highest (a : Abs n) : Option (Fin n) × Abs n := a.highestLoop numPriorities

def nextScheduled (a : Abs n) : Option (Fin n) × Abs n :=
  match a.highest with
  | (some p, a) => (some p, a)
  | (none, a) =>
    match a.scheduled with
    | some r => if r ∈ a.q (.ready (a.prio r)) then (none, a) else (none, { a with scheduled := none })
    | none => (none, { a with scheduled := none })

def yieldMacro (a : Abs n) : Option (Fin n) × Abs n :=
  (a.nextScheduled.1, a.nextScheduled.2.activate a.nextScheduled.1)

def suspend (a : Abs n) (p : Fin n) : Abs n :=
  if a.scheduled = some p then (a.remove p).yieldMacro.2 else a.remove p

def kill (a : Abs n) (p : Fin n) : Abs n :=
  { a with live := fun r => if r = p then false else a.live r }

def terminate (a : Abs n) (p : Fin n) : Abs n := (a.kill p).suspend p

def activeYield (a : Abs n) (r : Fin n) : Abs n :=
  let h := a.highest
  let a' := if r ∈ h.2.q (.ready (h.2.prio r)) then h.2.sleep r else h.2
  a'.activate (match h.1 with | none => some r | some p => some p)

open Classical in
noncomputable def resume (a : Abs n) (p : Fin n) (alwaysPreempt : Bool) : Bool × Abs n :=
  let a' := if a.active = some p then a.remove p else a
  if !a.live p then (false, a')
  else match a.active with
    | none => (true, a'.activate (some p))
    | some r =>
      if (if r = p then alwaysPreempt else alwaysPreempt || decide (a.prio p ≥ a.prio r)) then
        let a'' := if ∃ l, r ∈ a'.q l then a'.sleep r else a'
        (true, a''.activate (some p))
      else (true, a'.addFirst (.ready (a.prio p)) p)

def addSignals (a : Abs n) (i : Nat) (d : Int) : Abs n :=
  { a with signals := fun l => if l = .sem i then a.signals l + d else a.signals l }

noncomputable def signalLoop (i : Nat) (incr : Bool) : Nat → Abs n → Option (Fin n) × Abs n
  | 0, a => (none, a)
  | fuel + 1, a =>
    match a.q (.sem i) with
    | [] => (none, if incr then a.addSignals i 1 else a)
    | p :: ps =>
      let r := (a.set (.sem i) ps).resume p false
      if r.1 then (some p, r.2) else signalLoop i incr fuel r.2

noncomputable def signal (a : Abs n) (i : Nat) (incr : Bool) : Option (Fin n) × Abs n :=
  signalLoop i incr (n + 1) a

noncomputable def notifyLoop (i : Nat) : Nat → Abs n → Abs n
  | 0, a => a
  | fuel + 1, a =>
    match (a.signal i false).1 with
    | some _ => notifyLoop i fuel (a.signal i false).2
    | none => (a.signal i false).2

noncomputable def notifyAll (a : Abs n) (i : Nat) : Abs n := notifyLoop i (n + 1) a

def lock (a : Abs n) (i : Nat) : Abs n :=
  { a with signals := fun l => if l = .sem i then 0 else a.signals l }

def syncWait (a : Abs n) (i : Nat) (p : Fin n) : Abs n :=
  if a.signals (.sem i) ≤ 0 then
    let b := a.addLast (.sem i) p
    if a.active = some p then
      match b.yieldMacro.1 with
      | some _ => b.yieldMacro.2
      | none => { b.yieldMacro.2 with idle := true }
    else b
  else a.addSignals i (-1)

def switch (a : Abs n) : Abs n :=
  match a.switchTo with
  | none => a
  | some p => { a with scheduled := some p, switchTo := none }

noncomputable def step (a : Abs n) : Op n → Abs n
  | .signal i => (a.signal i true).2
  | .notify i => (a.signal i false).2
  | .notifyAll i => a.notifyAll i
  | .lock i => a.lock i
  | .wait i => match a.active with | none => a | some p => a.syncWait i p
  | .waitFor i p => a.syncWait i p
  | .suspend p => a.suspend p
  | .terminate p => a.terminate p
  | .resume p => (a.resume p false).2
  | .yield p => if a.active = some p then a.activeYield p else a
  | .pause => match a.active with | none => a | some p => a.activeYield p
  | .preempt => a.yieldMacro.2
  | .switch => a.switch
  | .setPriority p k =>
    if 1 ≤ k ∧ k ≤ numPriorities then { a with prio := fun r => if r = p then k else a.prio r }
    else a

noncomputable def run (a : Abs n) : List (Op n) → Abs n
  | [] => a
  | op :: ops => if (run a ops).idle then run a ops else (run a ops).step op

end Abs

end Verif.Sched
