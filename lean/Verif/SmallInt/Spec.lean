import Verif.SmallInt.Model

/-! # Specification of SmallInteger arithmetic: plain integers -/

namespace Verif.SmallInt

/-- The documented SmallInteger range on 64-bit machines: 63-bit signed
(`SmallInteger class >> largest` / `smallest`, kernel/SmallInt.st:55-71). -/
def InRange (i : Int) : Prop := -4611686018427387904 ≤ i ∧ i < 4611686018427387904

instance (i : Int) : Decidable (InRange i) := by unfold InRange; infer_instance

/-- The word `w` is the object reference of the integer `i`: read as a signed
number it is `2 i + 1`. -/
def Rep (w : Word) (i : Int) : Prop := w.toInt = 2 * i + 1

instance (w : Word) (i : Int) : Decidable (Rep w i) := by unfold Rep; infer_instance

/-- What a user expects of a checked operation: on references of integers it
either answers the reference of the exact result, or flags overflow, and it flags
overflow exactly when the exact result is not a SmallInteger. -/
def ExactOrOverflow (f : Word → Word → Word × Bool) (op : Int → Int → Int) : Prop :=
  ∀ a b i j, Rep a i → Rep b j →
    (InRange (op i j) → (f a b).2 = false ∧ Rep (f a b).1 (op i j)) ∧
    (¬ InRange (op i j) → (f a b).2 = true)

/-- The mathematical meaning of a comparison selector. -/
def Cmp.Holds : Cmp → Int → Int → Prop
  | .lt, i, j => i < j
  | .gt, i, j => i > j
  | .le, i, j => i ≤ j
  | .ge, i, j => i ≥ j
  | .eq, i, j => i = j
  | .ne, i, j => i ≠ j

/-- Bit `k` of an integer in infinite two's complement. -/
def bit (i : Int) (k : Nat) : Bool := (i / (2 : Int) ^ k) % 2 == 1

end Verif.SmallInt
