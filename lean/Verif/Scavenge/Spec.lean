import Verif.Scavenge.Model

/-!
# What a scavenge must do

The specification speaks about the objects only: which young objects can be reached, and how.
-/

namespace Verif.Scavenge

/-- The objects an object keeps alive: a weak object only its class, the others their class and
their fields. -/
def Obj.holds (x : Obj) : List (Option Oop) :=
  match x.kind with
  | .weak => [x.cls]
  | _ => x.cls :: x.fields

/-- A young object can be reached from the roots. -/
inductive Reach (obj : Oop → Obj) (young : Oop → Bool) (roots : List (Option Oop)) : Oop → Prop
  | root {o} : some o ∈ roots → young o → Reach obj young roots o
  | step {p o} : Reach obj young roots p → some o ∈ (obj p).holds → young o →
      Reach obj young roots o

/-- A young object can be reached without going through an ephemeron. -/
inductive Strong (obj : Oop → Obj) (young : Oop → Bool) (roots : List (Option Oop)) : Oop → Prop
  | root {o} : some o ∈ roots → young o → Strong obj young roots o
  | step {p o} : Strong obj young roots p → (obj p).kind ≠ .ephemeron →
      some o ∈ (obj p).holds → young o → Strong obj young roots o

/-- A young object can be reached without using the key of the ephemeron `e`. -/
inductive Avoid (obj : Oop → Obj) (young : Oop → Bool) (roots : List (Option Oop)) (e : Oop) :
    Oop → Prop
  | root {o} : some o ∈ roots → young o → Avoid obj young roots e o
  | step {p o} : Avoid obj young roots e p → p ≠ e ∨ (obj p).kind ≠ .ephemeron →
      some o ∈ (obj p).holds → young o → Avoid obj young roots e o
  | value {o} : Avoid obj young roots e e → (obj e).kind = .ephemeron →
      some o ∈ (obj e).fields.tail → young o → Avoid obj young roots e o

/-- The words of the roots. -/
def Roots.words (rt : Roots) : List (Option Oop) :=
  rt.pages.flatten ++ rt.registered ++ rt.processor

/-- No more than `n` different objects satisfy `P`. -/
def AtMost (P : Oop → Prop) (n : Nat) : Prop :=
  ∀ l : List Oop, l.Nodup → (∀ o ∈ l, P o) → l.length ≤ n

/-- The different objects that satisfy `P` have together at most `n` words. -/
def FitsIn (obj : Oop → Obj) (P : Oop → Prop) (n : Nat) : Prop :=
  ∀ l : List Oop, l.Nodup → (∀ o ∈ l, P o) → (l.map fun o => (obj o).size).sum ≤ n

/-- Two pieces of memory, given by start and length, have no word in common. -/
def Apart (a m b n : Nat) : Prop := a + m ≤ b ∨ b + n ≤ a

/-- The assumptions on the objects: each has a size, none is larger than a survivor space, and the
class of an ephemeron is not itself young. -/
structure Sound (c : Conf) (young : Oop → Bool) : Prop where
  pos : ∀ o, young o → 0 < (c.obj o).size
  small : ∀ o, young o → (c.obj o).size ≤ c.rcap
  ephClass : ∀ o k, young o → (c.obj o).kind = .ephemeron → (c.obj o).cls = some k → young k = false

end Verif.Scavenge
