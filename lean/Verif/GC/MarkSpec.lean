/-
What the mark phase is measured against: reachability in the graph of objects.
-/
import Verif.GC.MarkModel

namespace Verif.GC

/-- The words through which an object keeps others alive: its class, and all its fields unless it
is weak.  (A context is never weak; an object that is both weak and an ephemeron counts as an
ephemeron.) -/
def strong (o : Obj) : List Ref :=
  .oop o.cls :: (if o.weak && !o.ephemeron && !o.context then [] else o.fields)

/-- The same, but looking through no ephemeron: of these only the class counts. -/
def strongOut (o : Obj) : List Ref :=
  .oop o.cls :: (if (o.weak || o.ephemeron) && !o.context then [] else o.fields)

/-- The objects that can be reached from `roots` when object `m` leads to the words `next m`. -/
inductive Reach (next : Nat → List Ref) (roots : List Ref) : Nat → Prop
  | root {n} : .oop n ∈ roots → Reach next roots n
  | step {m n} : Reach next roots m → .oop n ∈ next m → Reach next roots n

/-- An object is live when it can be reached through strong references. -/
def Live (h : Heap) (roots : List Ref) : Nat → Prop := Reach (fun m => strong (h.obj m)) roots

/-- An object is live without the help of ephemerons. -/
def LiveOutside (h : Heap) (roots : List Ref) : Nat → Prop :=
  Reach (fun m => strongOut (h.obj m)) roots

/-- An object is live even when the key of the ephemeron `e` is not followed. -/
def LiveBut (h : Heap) (roots : List Ref) (e : Nat) : Nat → Prop :=
  Reach (fun m => if m = e then .oop (h.obj e).cls :: (h.obj e).fields.tail
    else strong (h.obj m)) roots

/-- The object table is closed: all pointers lead to entries of the table. -/
structure Closed (h : Heap) (roots : List Ref) : Prop where
  roots_lt : ∀ n, .oop n ∈ roots → n < h.size
  cls_lt : ∀ m, m < h.size → (h.obj m).cls < h.size
  fields_lt : ∀ m n, m < h.size → .oop n ∈ (h.obj m).fields → n < h.size

/-- Every ephemeron has a key, and it is not a SmallInteger. -/
def KeysPointers (h : Heap) : Prop :=
  ∀ m, (h.obj m).ephemeron = true → ∃ k l, (h.obj m).fields = k :: l ∧ k ≠ .small

/-- No ephemeron is the key of an ephemeron. -/
def KeysPlain (h : Heap) : Prop :=
  ∀ m k l, (h.obj m).ephemeron = true → (h.obj m).fields = .oop k :: l →
    (h.obj k).ephemeron = false

end Verif.GC
