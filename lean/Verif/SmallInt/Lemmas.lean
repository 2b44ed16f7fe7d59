import Verif.SmallInt.Spec

namespace Verif.SmallInt

theorem bmod64_eq (x : Int) (h1 : -18446744073709551616 ≤ x) (h2 : x < 18446744073709551616) :
    x.bmod (2 ^ 64) =
      if x < -9223372036854775808 then x + 18446744073709551616
      else if x ≥ 9223372036854775808 then x - 18446744073709551616 else x := by
  unfold Int.bmod
  simp only [Nat.reducePow]
  split <;> split <;> (try split) <;> omega

theorem bmod64_of_fit (x : Int) (h1 : -9223372036854775808 ≤ x) (h2 : x < 9223372036854775808) :
    x.bmod (2 ^ 64) = x := by
  rw [bmod64_eq x (by omega) (by omega)]; split <;> (try split) <;> omega

theorem toInt_bounds (w : Word) :
    -9223372036854775808 ≤ w.toInt ∧ w.toInt < 9223372036854775808 := by
  have h1 := BitVec.le_toInt w
  have h2 := @BitVec.toInt_lt 64 w
  simp at h1 h2; omega

theorem Rep.inRange {w : Word} {i : Int} (h : Rep w i) : InRange i := by
  have := toInt_bounds w
  unfold Rep at h; unfold InRange; omega

theorem Rep.unique {w : Word} {i j : Int} (h : Rep w i) (h' : Rep w j) : i = j := by
  unfold Rep at *; omega

theorem Rep.inj {w w' : Word} {i : Int} (h : Rep w i) (h' : Rep w' i) : w = w' := by
  unfold Rep at *; apply BitVec.toInt_inj.mp; omega

theorem shl1_toInt (x : Word) : (x <<< 1).toInt = (2 * x.toInt).bmod (2 ^ 64) := by
  have : x <<< 1 = x + x := by
    apply BitVec.eq_of_toNat_eq
    simp [BitVec.toNat_shiftLeft, Nat.shiftLeft_eq]; omega
  rw [this, BitVec.toInt_add]; congr 1; omega

theorem fromInt_toInt (x : Word) : (fromInt x).toInt = (2 * x.toInt + 1).bmod (2 ^ 64) := by
  unfold fromInt
  rw [BitVec.toInt_add, shl1_toInt]
  simp

theorem rep_fromInt {x : Word} (h : InRange x.toInt) : Rep (fromInt x) x.toInt := by
  unfold Rep InRange at *
  rw [fromInt_toInt, bmod64_of_fit] <;> omega

theorem rep_fromInt' {x : Word} {i : Int} (hx : x.toInt = i) (h : InRange i) :
    Rep (fromInt x) i := by subst hx; exact rep_fromInt h

theorem toInt_toInt (w : Word) : (toInt w).toInt = w.toInt / 2 := by
  unfold toInt
  rw [BitVec.toInt_sshiftRight, Int.shiftRight_eq_div_pow]; simp

theorem Rep.toInt {w : Word} {i : Int} (h : Rep w i) : (toInt w).toInt = i := by
  rw [toInt_toInt]; unfold Rep at h; omega

theorem isInt_iff_odd (w : Word) : isInt w = true ↔ w.toInt % 2 = 1 := by
  have h1 : (w &&& 1#64).toNat = w.toNat % 2 := by
    rw [BitVec.toNat_and]; simp
  have h2 : w.toInt % 2 = ((w.toNat % 2 : Nat) : Int) := by
    rw [BitVec.toInt_eq_toNat_cond]; split <;> omega
  unfold isInt
  rw [h2, bne_iff_ne, Ne, ← BitVec.toNat_inj, h1]
  simp
  omega

theorem isInt_iff (w : Word) : isInt w = true ↔ ∃ i, Rep w i := by
  rw [isInt_iff_odd]; unfold Rep
  constructor
  · intro h; exact ⟨w.toInt / 2, by omega⟩
  · rintro ⟨i, h⟩; omega

theorem Rep.isInt {w : Word} {i : Int} (h : Rep w i) : isInt w = true :=
  (isInt_iff w).mpr ⟨i, h⟩

theorem maxStInt_toInt : maxStInt.toInt = 4611686018427387903 := by decide
theorem minStInt_toInt : minStInt.toInt = -4611686018427387904 := by decide

theorem xor_neg (a b : Word) : (a ^^^ b).toInt < 0 ↔ ((a.toInt < 0) ↔ ¬ (b.toInt < 0)) := by
  have h : (a ^^^ b).msb = (a.msb ^^ b.msb) := BitVec.msb_xor
  rw [BitVec.msb_eq_toInt, BitVec.msb_eq_toInt, BitVec.msb_eq_toInt] at h
  by_cases ha : a.toInt < 0 <;> by_cases hb : b.toInt < 0 <;> simp [ha, hb] at h <;> simp [*] 
  
theorem intOverflow_iff (x : Word) : intOverflow x = false ↔ InRange x.toInt := by
  unfold intOverflow InRange
  have hb := toInt_bounds x
  rw [decide_eq_false_iff_not, xor_neg, shl1_toInt, bmod64_eq _ (by omega) (by omega)]
  split
  · omega
  · split <;> omega

theorem sub_one_toInt {b : Word} {j : Int} (h : Rep b j) : (b - 1#64).toInt = 2 * j := by
  have := h.inRange
  unfold Rep at h; unfold InRange at this
  rw [BitVec.toInt_sub, h, show (1#64 : Word).toInt = 1 by decide, bmod64_of_fit] <;> omega

end Verif.SmallInt
