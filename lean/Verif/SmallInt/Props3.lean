import Verif.SmallInt.Props2

/-! # Property theorems C04–C05 continued: `//`, the wrong quotients, bit operations -/

namespace Verif.SmallInt

/-- Floor division of a negative dividend by a positive divisor, the "black magic"
of prims.def:253-254. -/
theorem black_magic (i j : Int) (hi : i < 0) (hj : 0 < j) :
    - ((j - 1 - i).tdiv j) = i / j := by
  rw [Int.tdiv_eq_ediv_of_nonneg (by omega)]
  have h1 := Int.mul_ediv_add_emod i j
  have h2 := Int.emod_nonneg i (show j ≠ 0 by omega)
  have h3 := Int.emod_lt_of_pos i hj
  have e : j - 1 - i = (j - 1 - i % j) + j * (- (i / j)) := by
    rw [Int.mul_neg]; omega
  rw [e, Int.add_mul_ediv_left _ _ (by omega), Int.ediv_eq_zero_of_lt (by omega) (by omega)]
  omega

/-- `//` answers the floor quotient and fails exactly for a zero divisor, for all
operands but one pair. -/
theorem intDiv_exact_partial (a b : Word) (i j : Int) (ha : Rep a i) (hb : Rep b j)
    (hno : ¬ Overflowing i j) :
    (j = 0 → primIntDiv a b = none) ∧
    (j ≠ 0 → ∃ r, primIntDiv a b = some r ∧ Rep r (i.fdiv j)) := by
  have hz := ne_fromInt_zero hb
  have ri := ha.inRange; have rj := hb.inRange
  unfold InRange at ri rj
  unfold primIntDiv
  rw [ha.isInt, hb.isInt]
  constructor
  · intro h
    have : (b != fromInt 0#64) = false := by
      rw [← Bool.not_eq_true, hz]; omega
    rw [this]; simp
  · intro hj
    rw [hz.mpr hj]
    simp only [Bool.and_self, if_true, hb.toInt]
    -- general fact for a positive divisor
    have pos : ∀ (x y : Word) (p q : Int), x.toInt = p → y.toInt = q → 0 < q →
        -4611686018427387904 ≤ p → p ≤ 4611686018427387904 → q ≤ 4611686018427387904 →
        ¬ (p = 4611686018427387904 ∧ q = 1) →
        ∃ r, (if x.toInt < 0 then some (fromInt (- ((y - 1#64 - x).sdiv y)))
              else some (fromInt (x.sdiv y))) = some r ∧ Rep r (p.fdiv q) := by
      intro x y p q hx hy hq h1 h2 h3 h4
      have hfd : p.fdiv q = p / q := Int.fdiv_eq_ediv_of_nonneg _ (by omega)
      have hm := Int.mul_ediv_add_emod p q
      have m1 := Int.emod_nonneg p (show q ≠ 0 by omega)
      have m2 := Int.emod_lt_of_pos p hq
      have hr : InRange (p / q) := by
        unfold InRange
        have habs : (p / q).natAbs ≤ p.natAbs := Int.natAbs_ediv_le_natAbs _ _
        by_cases hp : p / q = 4611686018427387904
        · rw [hp] at hm; omega
        · omega
      split
      · rename_i hneg
        refine ⟨_, rfl, ?_⟩
        rw [hfd]
        apply rep_fromInt' _ hr
        have e1 : (y - 1#64 - x).toInt = q - 1 - p := by
          rw [BitVec.toInt_sub, BitVec.toInt_sub, hx, hy, show (1#64 : Word).toInt = 1 by decide,
            bmod64_of_fit (q - 1) (by omega) (by omega), bmod64_of_fit] <;> omega
        have hbm := black_magic p q (by omega) hq
        have e2 : ((y - 1#64 - x).sdiv y).toInt = (q - 1 - p).tdiv q := by
          have := natAbs_tdiv_le (q - 1 - p) q
          rw [BitVec.toInt_sdiv, e1, hy, bmod64_of_fit] <;> (unfold InRange at hr; omega)
        rw [BitVec.toInt_neg, e2, hbm, bmod64_of_fit] <;> (unfold InRange at hr; omega)
      · rename_i hneg
        refine ⟨_, rfl, ?_⟩
        rw [hfd]
        apply rep_fromInt' _ hr
        have := natAbs_tdiv_le p q
        rw [BitVec.toInt_sdiv, hx, hy, bmod64_of_fit _ (by omega) (by omega)]
        exact Int.tdiv_eq_ediv_of_nonneg (by omega)
    by_cases hneg : j < 0
    · simp only [if_pos hneg]
      have e : i.fdiv j = (-i).fdiv (-j) := by rw [Int.neg_fdiv_neg]
      rw [e]
      apply pos (- toInt a) (- toInt b) (-i) (-j) _ _ (by omega) (by omega) (by omega) (by omega)
      · unfold Overflowing at hno; omega
      · rw [BitVec.toInt_neg, ha.toInt, bmod64_of_fit] <;> omega
      · rw [BitVec.toInt_neg, hb.toInt, bmod64_of_fit] <;> omega
    · simp only [if_neg hneg]
      exact pos (toInt a) (toInt b) i j ha.toInt hb.toInt (by omega) (by omega) (by omega)
        (by omega) (by omega)

/-- The full claim C04 is false of the code: the smallest SmallInteger divided by
-1 answers itself, by `//`, by `quo:` and by `/`. -/
theorem division_wrong_at_minimum :
    Rep (fromInt minStInt) (-4611686018427387904) ∧ Rep (fromInt (-1)) (-1) ∧
    primIntDiv (fromInt minStInt) (fromInt (-1)) = some (fromInt minStInt) ∧
    primQuo (fromInt minStInt) (fromInt (-1)) = some (fromInt minStInt) ∧
    primDivide (fromInt minStInt) (fromInt (-1)) = some (fromInt minStInt) ∧
    ¬ Rep (fromInt minStInt) ((-4611686018427387904 : Int).fdiv (-1)) := by
  decide

example : ∃ r, primIntDiv (fromInt (-7)) (fromInt 2) = some r ∧ Rep r ((-7 : Int).fdiv 2) :=
  (intDiv_exact_partial (fromInt (-7)) (fromInt 2) (-7) 2 (by decide)
    (by decide) (by decide)).2 (by decide)

example : ∃ r, primModulo (fromInt (-7)) (fromInt 2) = some r ∧ Rep r ((-7 : Int).fmod 2) :=
  (modulo_exact (fromInt (-7)) (fromInt 2) (-7) 2 (by decide)
    (by decide)).2 (by decide)

example : ∃ r, primQuo (fromInt (-7)) (fromInt 2) = some r ∧ Rep r ((-7 : Int).tdiv 2) :=
  (quo_exact_partial (fromInt (-7)) (fromInt 2) (-7) 2 (by decide)
    (by decide) (by decide)).2 (by decide)

example : primDivide (fromInt (-8)) (fromInt 2) = some (fromInt (-4)) :=
  (divide_exact_partial (fromInt (-8)) (fromInt 2) (-8) 2 (by decide)
    (by decide) (by decide) _).mpr
    ⟨-4, by decide, by decide, by decide⟩

/-! ## C05: bit operations -/

theorem bit_word (w : Word) (k : Nat) :
    bit w.toInt k = if k < 64 then w.getLsbD k else w.msb := by
  unfold bit
  split
  · rename_i hk
    rw [BitVec.getLsbD, Nat.testBit_eq_decide_div_mod_eq, BitVec.toInt_eq_toNat_cond]
    have hp : (0 : Int) < (2 : Int) ^ k := Int.pow_pos (by decide)
    have e3 : (w.toNat : Int) / 2 ^ k = ((w.toNat / 2 ^ k : Nat) : Int) := by
      rw [Int.natCast_ediv, Int.natCast_pow]; rfl
    split
    · rw [e3, Bool.eq_iff_iff]; simp; omega
    · have e : ((w.toNat : Int) - ((2 ^ 64 : Nat) : Int)) / 2 ^ k =
          (w.toNat : Int) / 2 ^ k - 2 ^ (64 - k) := by
        have : ((2 ^ 64 : Nat) : Int) = 2 ^ k * 2 ^ (64 - k) := by
          rw [Int.natCast_pow, ← Int.pow_add]; congr 1; omega
        rw [this]
        have := Int.add_mul_ediv_left (w.toNat : Int) (-(2 ^ (64 - k))) (show (2:Int) ^ k ≠ 0 by omega)
        rw [Int.mul_neg] at this
        rw [Int.sub_eq_add_neg, this]; omega
      rw [e]
      have e2 : (2 : Int) ^ (64 - k) = 2 * 2 ^ (63 - k) := by
        rw [show 64 - k = (63 - k) + 1 by omega, Int.pow_succ, Int.mul_comm]
      rw [e2]
      rw [e3, Bool.eq_iff_iff]; simp; omega
  · rename_i hk
    have hb := toInt_bounds w
    rw [BitVec.msb_eq_toInt]
    have hp : (9223372036854775808 : Int) ≤ (2 : Int) ^ k := by
      have : (2:Nat) ^ 63 ≤ 2 ^ k := Nat.pow_le_pow_right (by decide) (by omega)
      have h2 : ((2 ^ k : Nat) : Int) = (2 : Int) ^ k := by rw [Int.natCast_pow]; rfl
      rw [← h2]; simp at this; omega
    by_cases hn : w.toInt < 0
    · have : w.toInt / 2 ^ k = -1 := by
        rw [Int.ediv_eq_iff_of_pos (by omega)]; omega
      rw [this]; simp [hn]
    · rw [Int.ediv_eq_zero_of_lt (by omega) (by omega)]; simp [hn]

theorem bit_rep {w : Word} {i : Int} (h : Rep w i) (k : Nat) : bit w.toInt (k + 1) = bit i k := by
  unfold bit Rep at *
  rw [h, Int.pow_succ, Int.mul_comm ((2:Int)^k) 2, Int.ediv_ediv_of_nonneg (by decide) |>.symm]
  congr 3; omega

/-- Two integers with the same bits are equal, so the bitwise specification below
determines the answer. -/
theorem bit_ext (i j : Int) (hi : InRange i) (hj : InRange j) (h : ∀ k, bit i k = bit j k) :
    i = j := by
  have wi : (BitVec.ofInt 64 i).toInt = i := by
    unfold InRange at hi
    rw [BitVec.toInt_ofInt, bmod64_of_fit] <;> omega
  have wj : (BitVec.ofInt 64 j).toInt = j := by
    unfold InRange at hj
    rw [BitVec.toInt_ofInt, bmod64_of_fit] <;> omega
  rw [← wi, ← wj]
  congr 1
  apply BitVec.eq_of_getLsbD_eq
  intro k hk
  have h1 := bit_word (BitVec.ofInt 64 i) k
  have h2 := bit_word (BitVec.ofInt 64 j) k
  rw [wi, if_pos hk] at h1
  rw [wj, if_pos hk] at h2
  rw [← h1, ← h2, h]

/-- A tagged bit operation on two references answers the reference of the integer
whose bits are obtained by the Boolean operation from the operands' bits. -/
def BitwiseExact (f : Word → Word → Word) (op : Bool → Bool → Bool) : Prop :=
  ∀ a b i j, Rep a i → Rep b j →
    ∃ r n, intBinOpNoOv f a b = some r ∧ Rep r n ∧ ∀ k, bit n k = op (bit i k) (bit j k)

theorem getLsbD_zero_of_rep {w : Word} {i : Int} (h : Rep w i) : w.getLsbD 0 = true := by
  have h1 := bit_word w 0
  rw [if_pos (by decide)] at h1
  rw [← h1]; unfold bit Rep at *; simp; omega

theorem bitwise_of_bits (f : Word → Word → Word) (op : Bool → Bool → Bool)
    (h0 : ∀ a b : Word, a.getLsbD 0 = true → b.getLsbD 0 = true → (f a b).getLsbD 0 = true)
    (hs : ∀ (a b : Word), b.getLsbD 0 = true →
      ∀ k, 0 < k → k < 64 → (f a b).getLsbD k = op (a.getLsbD k) (b.getLsbD k)) :
    BitwiseExact f op := by
  intro a b i j ha hb
  have za := getLsbD_zero_of_rep ha
  have zb := getLsbD_zero_of_rep hb
  have hodd : isInt (f a b) = true := by
    rw [isInt_iff_odd]
    have h1 := bit_word (f a b) 0
    rw [if_pos (by decide), h0 a b za zb] at h1
    unfold bit at h1; simp at h1; omega
  obtain ⟨n, hn⟩ := (isInt_iff _).mp hodd
  refine ⟨f a b, n, ?_, hn, ?_⟩
  · unfold intBinOpNoOv; rw [ha.isInt, hb.isInt]; rfl
  · intro k
    rw [← bit_rep hn, ← bit_rep ha, ← bit_rep hb, bit_word, bit_word, bit_word]
    split
    · exact hs a b zb _ (by omega) (by assumption)
    · rw [BitVec.msb_eq_getLsbD_last, BitVec.msb_eq_getLsbD_last, BitVec.msb_eq_getLsbD_last]
      exact hs a b zb _ (by decide) (by decide)

theorem bitAnd_exact : BitwiseExact taggedAnd (· && ·) := by
  apply bitwise_of_bits
  · intro a b ha hb; simp [taggedAnd, ha, hb]
  · intro a b _ k _ _; simp [taggedAnd]

theorem bitOr_exact : BitwiseExact taggedOr (· || ·) := by
  apply bitwise_of_bits
  · intro a b ha hb; simp [taggedOr, ha]
  · intro a b _ k _ _; simp [taggedOr]

/-- Subtracting the tag clears bit 0 and leaves the others alone. -/
theorem untag_bits (b : Word) (hb : b.getLsbD 0 = true) (k : Nat) :
    (b - 1#64).getLsbD k = (decide (0 < k) && b.getLsbD k) := by
  have hodd : b.toNat % 2 = 1 := by
    rw [BitVec.getLsbD, Nat.testBit_eq_decide_div_mod_eq] at hb; simp at hb; exact hb
  have hsub : (b - 1#64).toNat = b.toNat - 1 := by
    rw [BitVec.toNat_sub]; have := b.isLt; simp; omega
  rw [BitVec.getLsbD, BitVec.getLsbD, hsub, Nat.testBit_eq_decide_div_mod_eq,
    Nat.testBit_eq_decide_div_mod_eq]
  cases k with
  | zero => simp; omega
  | succ k =>
    rw [Nat.pow_succ, Nat.mul_comm, ← Nat.div_div_eq_div_mul, ← Nat.div_div_eq_div_mul]
    have : (b.toNat - 1) / 2 = b.toNat / 2 := by omega
    rw [this]; simp

theorem bitXor_exact : BitwiseExact taggedXor Bool.xor := by
  apply bitwise_of_bits
  · intro a b ha hb; simp only [taggedXor, BitVec.getLsbD_xor, untag_bits b hb, ha]; simp
  · intro a b hb k hk _; simp only [taggedXor, BitVec.getLsbD_xor, untag_bits b hb]; simp [hk]

example : intBinOpNoOv taggedXor (fromInt (-6)) (fromInt 3) = some (fromInt (-7)) := by decide

/-- `BIT_AND_SPECIAL` (libgst/vm.def:417-427) tests the tag of the result only;
that is the same as testing both operands. -/
theorem bitAnd_tag_test (a b : Word) : isInt (taggedAnd a b) = (isInt a && isInt b) := by
  rw [Bool.eq_iff_iff, Bool.and_eq_true]
  have key (w : Word) : isInt w = true ↔ w.getLsbD 0 = true := by
    rw [isInt_iff_odd]
    have h1 := bit_word w 0
    rw [if_pos (by decide)] at h1
    rw [← h1]; unfold bit; simp
  rw [key, key, key]; simp [taggedAnd]

example : isInt (taggedAnd (fromInt 5) 0x1000#64) = false := by
  rw [bitAnd_tag_test]; decide

theorem shl_toInt (x : Word) (n : Nat) :
    ∃ k : Int, (x <<< n).toInt = x.toInt * 2 ^ n + k * 18446744073709551616 := by
  induction n with
  | zero => exact ⟨0, by simp⟩
  | succ n ih =>
    obtain ⟨k, hk⟩ := ih
    have e : x <<< (n + 1) = (x <<< n) <<< 1 := by rw [BitVec.shiftLeft_add]
    rw [e, shl1_toInt, hk]
    have : ∃ c : Int, (2 * (x.toInt * 2 ^ n + k * 18446744073709551616)).bmod (2 ^ 64) =
        2 * (x.toInt * 2 ^ n + k * 18446744073709551616) + c * 18446744073709551616 := by
      generalize 2 * (x.toInt * 2 ^ n + k * 18446744073709551616) = y
      unfold Int.bmod
      simp only [Nat.reducePow]
      split
      · exact ⟨-(y / 18446744073709551616), by omega⟩
      · exact ⟨-(y / 18446744073709551616) - 1, by omega⟩
    obtain ⟨c, hc⟩ := this
    refine ⟨2 * k + c, ?_⟩
    rw [hc, Int.pow_succ]
    have : x.toInt * (2 ^ n * 2) = 2 * (x.toInt * 2 ^ n) := by
      rw [← Int.mul_assoc, Int.mul_comm]
    omega

/-- `bitShift:` with a negative argument always succeeds with the floor of the
division by the power of two. -/
theorem bitShift_right_exact (a b : Word) (i j : Int) (ha : Rep a i) (hb : Rep b j) (hj : j < 0) :
    ∃ r, primBitShift a b = some r ∧ Rep r (i / 2 ^ (-j).toNat) := by
  have ri := ha.inRange; have rj := hb.inRange
  unfold primBitShift
  rw [ha.isInt, hb.isInt]
  simp only [Bool.and_self, if_true, hb.toInt, if_pos hj]
  have e62 : ((stIntSize : Nat) : Int) = 62 := by decide
  have rng : ∀ n : Nat, InRange (i / 2 ^ n) := by
    intro n
    have habs : (i / 2 ^ n).natAbs ≤ i.natAbs := Int.natAbs_ediv_le_natAbs _ _
    have hpos : (0:Int) < 2 ^ n := Int.pow_pos (by decide)
    unfold InRange at *
    by_cases h0 : 0 ≤ i
    · omega
    · have : i / 2 ^ n < 0 := Int.ediv_neg_of_neg_of_pos (by omega) hpos
      omega
  split
  · rename_i h62
    refine ⟨_, rfl, ?_⟩
    rw [e62] at h62
    have en : (- toInt b).toNat = (-j).toNat := by
      have h1 : (- toInt b).toInt = -j := by
        unfold InRange at rj
        rw [BitVec.toInt_neg, hb.toInt, bmod64_of_fit] <;> omega
      rw [BitVec.toInt_eq_toNat_cond] at h1
      have := (- toInt b).isLt
      split at h1 <;> omega
    apply rep_fromInt' _ (rng _)
    rw [BitVec.toInt_sshiftRight, Int.shiftRight_eq_div_pow, ha.toInt, en]; simp
  · rename_i h62
    refine ⟨_, rfl, ?_⟩
    rw [e62] at h62
    apply rep_fromInt' _ (rng _)
    rw [BitVec.toInt_sshiftRight, Int.shiftRight_eq_div_pow, ha.toInt]
    unfold InRange at ri
    have hp : (4611686018427387904 : Int) ≤ 2 ^ (-j).toNat := by
      have : (2:Nat) ^ 62 ≤ 2 ^ (-j).toNat := Nat.pow_le_pow_right (by decide) (by omega)
      have h2 : ((2 ^ (-j).toNat : Nat) : Int) = (2 : Int) ^ (-j).toNat := by
        rw [Int.natCast_pow]; rfl
      rw [← h2]; simp at this; omega
    have e : ((2 ^ stIntSize : Nat) : Int) = 4611686018427387904 := by decide
    rw [e]
    by_cases h0 : 0 ≤ i
    · rw [Int.ediv_eq_zero_of_lt h0 (by omega), Int.ediv_eq_zero_of_lt h0 (by omega)]
    · have e1 : i / 4611686018427387904 = -1 := by omega
      have e2 : i / 2 ^ (-j).toNat = -1 := by
        rw [Int.ediv_eq_iff_of_pos (by omega)]; omega
      rw [e1, e2]

/-- `bitShift:` with a non-negative argument below 62 succeeds exactly when the
shifted integer is a SmallInteger, and answers it; from 62 on it always defers to
the LargeInteger fallback. -/
theorem bitShift_left_exact (a b : Word) (i j : Int) (ha : Rep a i) (hb : Rep b j) (hj : 0 ≤ j) :
    (j < 62 → InRange (i * 2 ^ j.toNat) →
      ∃ r, primBitShift a b = some r ∧ Rep r (i * 2 ^ j.toNat)) ∧
    (¬ (j < 62 ∧ InRange (i * 2 ^ j.toNat)) → primBitShift a b = none) := by
  have ri := ha.inRange; have rj := hb.inRange
  unfold primBitShift
  rw [ha.isInt, hb.isInt]
  have e62 : ((stIntSize : Nat) : Int) = 62 := by decide
  simp only [Bool.and_self, if_true, hb.toInt, if_neg (show ¬ j < 0 by omega), e62]
  have en : (toInt b).toNat = j.toNat := by
    have h1 := hb.toInt
    rw [BitVec.toInt_eq_toNat_cond] at h1
    have := (toInt b).isLt
    split at h1 <;> omega
  rw [en]
  obtain ⟨k, hk⟩ := shl_toInt (toInt a) j.toNat
  rw [ha.toInt] at hk
  have hback : ((toInt a <<< j.toNat).sshiftRight j.toNat).toInt =
      (i * 2 ^ j.toNat + k * 18446744073709551616) / 2 ^ j.toNat := by
    rw [BitVec.toInt_sshiftRight, Int.shiftRight_eq_div_pow, hk]; simp
  have hpos : (0:Int) < 2 ^ j.toNat := Int.pow_pos (by decide)
  have hcond : j < 62 → (((toInt a <<< j.toNat).sshiftRight j.toNat = toInt a ∧
      intOverflow (toInt a <<< j.toNat) = false) ↔ InRange (i * 2 ^ j.toNat)) := by
    intro h62
    rw [intOverflow_iff, hk, ← BitVec.toInt_inj, hback, ha.toInt]
    have hk64 : (18446744073709551616 : Int) = 2 ^ j.toNat * 2 ^ (64 - j.toNat) := by
      rw [← Int.pow_add]
      rw [show j.toNat + (64 - j.toNat) = 64 by omega]; rfl
    have hdiv : (i * 2 ^ j.toNat + k * 18446744073709551616) / 2 ^ j.toNat =
        i + k * 2 ^ (64 - j.toNat) := by
      have e : i * 2 ^ j.toNat + k * 18446744073709551616 =
          (i + k * 2 ^ (64 - j.toNat)) * 2 ^ j.toNat := by
        rw [hk64, Int.add_mul, Int.mul_assoc k, Int.mul_comm (2 ^ (64 - j.toNat))]
      rw [e, Int.mul_ediv_cancel _ (by omega)]
    rw [hdiv]
    constructor
    · rintro ⟨h1, h2⟩
      have hk0 : k = 0 := by
        have : k * 2 ^ (64 - j.toNat) = 0 := by omega
        rcases Int.mul_eq_zero.mp this with h | h
        · exact h
        · have : (0:Int) < 2 ^ (64 - j.toNat) := Int.pow_pos (by decide)
          omega
      subst hk0; simpa using h2
    · intro h
      have hk0 : k = 0 := by
        have hb := toInt_bounds (toInt a <<< j.toNat)
        rw [hk] at hb
        unfold InRange at h; omega
      subst hk0; simpa using h
  constructor
  · intro h62 hr
    rw [if_pos h62, if_pos ((hcond h62).mpr hr)]
    refine ⟨_, rfl, rep_fromInt' ?_ hr⟩
    have := ((intOverflow_iff _).mp ((hcond h62).mpr hr).2)
    rw [hk] at this ⊢
    have hb := toInt_bounds (toInt a <<< j.toNat)
    unfold InRange at hr this; omega
  · intro h
    by_cases h62 : j < 62
    · rw [if_pos h62, if_neg (by rw [hcond h62]; exact fun hr => h ⟨h62, hr⟩)]
    · rw [if_neg h62]

example : primBitShift (fromInt 1) (fromInt 61) = some (fromInt 2305843009213693952) ∧
    primBitShift (fromInt 1) (fromInt 62) = none ∧
    primBitShift (fromInt (-1)) (fromInt 61) = some (fromInt (-2305843009213693952)) ∧
    primBitShift (fromInt (-5)) (fromInt (-1)) = some (fromInt (-3)) := by decide

end Verif.SmallInt
