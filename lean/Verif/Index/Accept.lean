import Verif.Index.Props

/-! # C08: which integers the elements of 8 and 16 bits accept -/

namespace Verif.Index

/-- The values of the C type of a shape of 8 or 16 bits. -/
def typeRange : Shape → Option (Int × Int)
  | .schar => some (-(2 ^ 7), 2 ^ 7)
  | .uchar => some (0, 2 ^ 8)
  | .short => some (-(2 ^ 15), 2 ^ 15)
  | .ushort => some (0, 2 ^ 16)
  | _ => none

theorem smallIn_iff (lo hi : Int) (o : CInt.Oop) (hn : Normal (.int o)) (h1 : -(2 ^ 62) ≤ lo)
    (h2 : hi < 2 ^ 62) :
    (∃ bits, smallIn lo hi o = some bits) ↔ ∃ v, CInt.value o = some v ∧ lo ≤ v ∧ v ≤ hi := by
  cases o with
  | small i =>
    simp only [smallIn, CInt.value, Option.some.injEq, exists_eq_left']
    constructor
    · rintro ⟨b, h⟩
      split at h
      · rename_i hc; exact hc
      · exact absurd h (by simp)
    · intro h; exact ⟨_, if_pos h⟩
  | largePos b =>
    simp only [smallIn, CInt.value, Option.some.injEq, exists_eq_left', reduceCtorEq, exists_false,
      false_iff]
    simp only [Normal] at hn
    omega
  | largeNeg b =>
    simp only [smallIn, CInt.value, Option.some.injEq, exists_eq_left', reduceCtorEq, exists_false,
      false_iff]
    simp only [Normal] at hn
    omega
  | other => simp [smallIn, CInt.value]

/-- **An element of 8 or 16 bits accepts exactly the integers of its C type.** -/
theorem narrow_accepts (pad : Nat → CInt.Byte) (sh : Shape) (lo hi : Int)
    (hr : typeRange sh = some (lo, hi)) (o : CInt.Oop) (hn : Normal (.int o)) :
    (∃ bits, encode pad sh (.int o) = some bits) ↔
      ∃ v, CInt.value o = some v ∧ lo ≤ v ∧ v < hi := by
  cases sh <;> simp only [typeRange, Option.some.injEq, Prod.mk.injEq, reduceCtorEq] at hr
  all_goals
    obtain ⟨rfl, rfl⟩ := hr
    simp only [encode]
    rw [smallIn_iff _ _ o hn (by decide) (by decide)]
    constructor
    · rintro ⟨v, h1, h2, h3⟩; exact ⟨v, h1, by omega, by omega⟩
    · rintro ⟨v, h1, h2, h3⟩; exact ⟨v, h1, by omega, by omega⟩

example : encode (fun _ => 0) .uchar (.int (.small 0#64)) = some 0 := by decide
example : encode (fun _ => 0) .uchar (.int (.small 256#64)) = none := by decide

end Verif.Index
