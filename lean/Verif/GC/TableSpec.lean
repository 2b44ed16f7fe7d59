/-
What the object table is for, said without its flags and pointers: a map from the entries in use to
the objects they stand for, and what each operation of the memory does to that map.
-/
import Verif.GC.TableModel

namespace Verif.GC.Table

/-- Which object each entry stands for; `none` for a free entry. -/
abbrev Names := Nat → Option Nat

def Names.bind (a : Names) (p o : Nat) : Names := fun q => if q = p then some o else a q

def Names.swap (a : Names) (p q : Nat) : Names :=
  fun r => if r = p then a q else if r = q then a p else a r

def Names.keep (a : Names) (k : Nat → Bool) : Names := fun p => if k p then a p else none

/-- Whether a call of `_gst_incremental_gc_step` stops properly: it reports that it has finished, or
it leaves something to sweep. -/
def StopsWell (s : Mem) : Prop := (step s).2 = true ∨ (step s).1.lo < (step s).1.hi

/-- The runs of the memory, and what the program means by each entry: starting from an empty table,
allocations (while at least two entries are free: the machine collects when fewer than 2048
are), steps of the sweep that satisfy `R`, ends of the sweep, `become:` and
changes of the flags of objects in use, and collections that keep some of the objects. -/
inductive Exec (R : Mem → Prop) : Mem → Names → Prop
  | init (size : Nat) : Exec R (initMem size) (fun _ => none)
  | alloc {s a s' p} (fuel o : Nat) (f : Flags) : Exec R s a → 2 ≤ s.numFree →
      f.old = true ∨ f.active = true → f.reachable = false →
      alloc s fuel o f = some (s', p) → Exec R s' (a.bind p o)
  | step {s a} : Exec R s a → R s → Exec R (step s).1 a
  | finish {s a} : Exec R s a → Exec R (finish s) a
  | become {s a} (p q : Nat) : Exec R s a → (a p).isSome → (a q).isSome →
      Exec R (become s p q) (a.swap p q)
  | tenure {s a} (p : Nat) : Exec R s a → (a p).isSome → Exec R (tenure s p) a
  | makeFixed {s a} (p : Nat) : Exec R s a → (a p).isSome → Exec R (makeFixed s p) a
  | makeWeak {s a} (p : Nat) : Exec R s a → (a p).isSome → Exec R (makeWeak s p) a
  | nonWeak {s a} (p : Nat) : Exec R s a → (a p).isSome → Exec R (nonWeak s p) a
  | global {s a s'} (fuel : Nat) (keep : Nat → Bool) : Exec R s a →
      globalGC s fuel keep = some s' → Exec R s' (a.keep keep)
  | scavenge {s a s'} (fuel : Nat) (keep tenured : Nat → Bool) : Exec R s a →
      scavenge s fuel keep tenured = some s' →
      Exec R s' (a.keep fun p => (s.ent p).flags.old || keep p)

end Verif.GC.Table
