import Verif.CInt.Props

/-! # C06: which kind of object a C integer becomes, and which large integers are accepted -/

namespace Verif.CInt

/-- The integers that fit in 62 bits and a sign. -/
def FitsSmall (v : Int) : Prop := -(2 ^ 62) ≤ v ∧ v < 2 ^ 62

/-- The object is of the class that the class library would use for its value. -/
def RightClass (o : Oop) (v : Int) : Prop :=
  (FitsSmall v → ∃ i, o = .small i) ∧
  (¬ FitsSmall v → 0 ≤ v → ∃ b, o = .largePos b) ∧
  (¬ FitsSmall v → v < 0 → ∃ b, o = .largeNeg b)

theorem fromCInt64_class (i : Word) : RightClass (fromCInt64 i) i.toInt := by
  unfold RightClass FitsSmall fromCInt64 minStInt maxStInt
  refine ⟨fun h => ?_, fun h h0 => ?_, fun h h0 => ?_⟩
  · rw [if_pos (by omega)]; exact ⟨_, rfl⟩
  · rw [if_neg (by omega), if_neg (by omega)]; exact ⟨_, rfl⟩
  · rw [if_neg (by omega), if_pos (by omega)]; exact ⟨_, rfl⟩

theorem fromCUInt64_class (i : Word) : RightClass (fromCUInt64 i) i.toNat := by
  unfold RightClass FitsSmall fromCUInt64 maxStInt
  refine ⟨fun h => ?_, fun h _ => ?_, fun _ h0 => ?_⟩
  · rw [if_pos (by omega)]; exact ⟨_, rfl⟩
  · rw [if_neg (by omega)]
    split <;> exact ⟨_, rfl⟩
  · omega

theorem fromCInt32_class (i : BitVec 32) : RightClass (fromCInt32 i) i.toInt := by
  have h1 := BitVec.le_toInt i
  have h2 := @BitVec.toInt_lt 32 i
  simp at h1 h2
  unfold RightClass FitsSmall fromCInt32 minStInt maxStInt
  refine ⟨fun h => ?_, fun h h0 => ?_, fun h h0 => ?_⟩
  · rw [if_pos (by omega)]; exact ⟨_, rfl⟩
  · omega
  · omega

theorem fromCUInt32_class (i : BitVec 32) : RightClass (fromCUInt32 i) i.toNat := by
  have h1 := i.isLt
  unfold RightClass FitsSmall fromCUInt32 maxStInt
  refine ⟨fun h => ?_, fun h h0 => ?_, fun h h0 => ?_⟩
  · rw [if_pos (by omega)]; exact ⟨_, rfl⟩
  · omega
  · omega

/-- A large integer object (which a program can only make by hand, its value being a SmallInteger) is
accepted as a 32-bit integer when it has four bytes, and these are the C integer. -/
theorem large_int32 (pad : Nat → Byte) (b : List Byte) (neg : Bool) :
    (isCInt32 (if neg then .largeNeg b else .largePos b) = true ↔ b.length = 4) ∧
      (b.length = 4 →
        (toCInt32 pad (if neg then .largeNeg b else .largePos b)).toNat = le b) := by
  constructor
  · cases neg <;> simp [isCInt32]
  · intro h
    match b, h with
    | [b0, b1, b2, b3], _ =>
      have h0 := b0.isLt
      have h1 := b1.isLt
      have h2 := b2.isLt
      have h3 := b3.isLt
      cases neg <;>
      · simp [toCInt32, byteAt, le, BitVec.toNat_add, BitVec.toNat_shiftLeft,
          BitVec.toNat_setWidth, Nat.shiftLeft_eq] at *
        omega

example : fromCInt64 (-4611686018427387904#64) = .small (-4611686018427387904#64) := by decide
example : ∃ b, fromCInt64 4611686018427387904#64 = .largePos b := ⟨_, rfl⟩

end Verif.CInt
