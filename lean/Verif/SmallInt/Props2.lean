import Verif.SmallInt.Props

/-! # Property theorems C02–C05 continued -/

namespace Verif.SmallInt

theorem sdiv_mul_small {a b : Int} (hb : b ≠ 0) (k : Int)
    (h : (a * b + k * 18446744073709551616).tdiv b = a)
    (hbb : b.natAbs ≤ 4611686018427387904) : k = 0 := by
  have h1 := Int.mul_tdiv_add_tmod (a * b + k * 18446744073709551616) b
  rw [h] at h1
  have h2 : (a * b + k * 18446744073709551616).tmod b = k * 18446744073709551616 := by
    have : b * a = a * b := Int.mul_comm _ _
    omega
  have h3 : ((a * b + k * 18446744073709551616).tmod b).natAbs < b.natAbs := by
    rw [Int.natAbs_tmod]
    exact Nat.mod_lt _ (by omega)
  rw [h2] at h3
  omega

/-- The division-based overflow check is exact too. -/
theorem mul_exact_div : ExactOrOverflow mulWithCheckDiv (· * ·) := by
  intro a b i j ha hb
  have ta := ha.toInt; have tb := hb.toInt
  have ri := ha.inRange; have rj := hb.inRange
  simp only [mulWithCheckDiv]
  have hm : (toInt a * toInt b).toInt = (i * j).bmod (2 ^ 64) := by
    rw [BitVec.toInt_mul, ta, tb]
  have hz : toInt b = 0#64 ↔ j = 0 := by
    rw [← BitVec.toInt_inj, tb]; simp
  have hd : ((toInt a * toInt b).sdiv (toInt b)).toInt =
      ((((i * j).bmod (2 ^ 64)).tdiv j).bmod (2 ^ 64)) := by
    rw [BitVec.toInt_sdiv, hm, tb]
  constructor
  · intro h
    have h' := h
    unfold InRange at h
    have e : (toInt a * toInt b).toInt = i * j := by
      rw [hm, bmod64_of_fit] <;> omega
    rw [if_pos]
    · exact ⟨rfl, rep_fromInt' e h'⟩
    · refine ⟨?_, ?_⟩
      · right
        by_cases hj : j = 0
        · left; exact hz.mpr hj
        · right
          rw [← BitVec.toInt_inj, hd, ta, bmod64_of_fit (i * j) (by omega) (by omega),
            Int.mul_tdiv_cancel _ hj, bmod64_of_fit]
          · unfold InRange at ri; omega
          · unfold InRange at ri; omega
      · rw [intOverflow_iff, e]; exact h'
  · intro h
    have hk : ∃ k : Int, (i * j).bmod (2 ^ 64) = i * j + k * 18446744073709551616 := by
      unfold Int.bmod
      simp only [Nat.reducePow]
      split
      · exact ⟨-(i * j / 18446744073709551616), by omega⟩
      · exact ⟨-(i * j / 18446744073709551616) - 1, by omega⟩
    obtain ⟨k, hk⟩ := hk
    rw [if_neg]
    rintro ⟨h1, h2⟩
    rw [intOverflow_iff, hm, hk] at h2
    have kz : k = 0 := by
      rcases h1 with h1 | h1 | h1
      · -- both operands small and non-negative
        have hor := BitVec.toNat_or (toInt a) (toInt b)
        have p31 : 2 ^ (stIntSize / 2) = 2147483648 := by decide
        rw [p31] at h1
        have l1 : (toInt a).toNat ≤ (toInt a ||| toInt b).toNat := by
          rw [hor]; exact Nat.left_le_or
        have l2 : (toInt b).toNat ≤ (toInt a ||| toInt b).toNat := by
          rw [hor]; exact Nat.right_le_or
        have ea := BitVec.toInt_eq_toNat_cond (toInt a)
        have eb := BitVec.toInt_eq_toNat_cond (toInt b)
        simp only [Nat.reducePow] at ea eb
        rw [if_pos (by omega), ta] at ea
        rw [if_pos (by omega), tb] at eb
        have h5 : i * j ≤ 2147483648 * 2147483648 := by
          have := Nat.mul_le_mul (by omega : (toInt a).toNat ≤ 2147483648)
            (by omega : (toInt b).toNat ≤ 2147483648)
          rw [ea, eb, ← Int.natCast_mul]
          omega
        have h6 : 0 ≤ i * j := Int.mul_nonneg (by omega) (by omega)
        unfold InRange at h2
        omega
      · have : j = 0 := hz.mp h1
        rw [this, Int.mul_zero] at h2
        unfold InRange at h2
        omega
      · rw [← BitVec.toInt_inj, hd, ta] at h1
        by_cases hj : j = 0
        · rw [hj, Int.mul_zero] at h2
          unfold InRange at h2
          omega
        · apply sdiv_mul_small hj k (a := i)
          · rw [← hk]
            rw [bmod64_of_fit] at h1
            · exact h1
            · have hb1 := @Int.le_bmod (i * j) (2 ^ 64) (by decide)
              have hb2 := @Int.bmod_lt (i * j) (2 ^ 64) (by decide)
              have hq : (((i * j).bmod (2 ^ 64)).tdiv j).natAbs ≤
                  ((i * j).bmod (2 ^ 64)).natAbs := by
                rw [Int.natAbs_tdiv]; exact Nat.div_le_self _ _
              simp only [Nat.reducePow] at *
              omega
            · have hb1 := @Int.le_bmod (i * j) (2 ^ 64) (by decide)
              have hb2 := @Int.bmod_lt (i * j) (2 ^ 64) (by decide)
              rw [← hk] at h2
              have hq : (((i * j).bmod (2 ^ 64)).tdiv j).natAbs ≤
                  ((i * j).bmod (2 ^ 64)).natAbs := by
                rw [Int.natAbs_tdiv]; exact Nat.div_le_self _ _
              unfold InRange at h2
              simp only [Nat.reducePow] at *
              omega
          · unfold InRange at rj; omega
    subst kz
    simp at h2
    exact h h2

/-- C02 at the level of the primitives: on any two references, the primitive
`+`, `-` or `*` succeeds exactly when both are SmallIntegers and the exact result
is a SmallInteger, and then answers its reference. -/
theorem arith_prim_spec (f : Word → Word → Word × Bool) (op : Int → Int → Int)
    (hf : ExactOrOverflow f op) (a b r : Word) :
    intBinOp f a b = some r ↔
      ∃ i j, Rep a i ∧ Rep b j ∧ InRange (op i j) ∧ Rep r (op i j) := by
  unfold intBinOp
  constructor
  · intro h
    split at h
    · rename_i hi
      rw [Bool.and_eq_true, isInt_iff, isInt_iff] at hi
      obtain ⟨⟨i, hi⟩, ⟨j, hj⟩⟩ := hi
      obtain ⟨h1, h2⟩ := hf a b i j hi hj
      by_cases hr : InRange (op i j)
      · obtain ⟨h3, h4⟩ := h1 hr
        simp only [h3] at h
        simp at h
        subst h
        exact ⟨i, j, hi, hj, hr, h4⟩
      · simp [h2 hr] at h
    · cases h
  · rintro ⟨i, j, hi, hj, hr, hrep⟩
    obtain ⟨h1, _⟩ := hf a b i j hi hj
    obtain ⟨h3, h4⟩ := h1 hr
    rw [hi.isInt, hj.isInt]
    simp [h3]
    exact h4.inj hrep

/-- C02, assembled: all six code paths. -/
theorem plus_minus_times_exact (a b r : Word) :
    (∀ f ∈ [addWithCheck, addWithCheckX86],
      intBinOp f a b = some r ↔ ∃ i j, Rep a i ∧ Rep b j ∧ InRange (i + j) ∧ Rep r (i + j)) ∧
    (∀ f ∈ [subWithCheck, subWithCheckX86],
      intBinOp f a b = some r ↔ ∃ i j, Rep a i ∧ Rep b j ∧ InRange (i - j) ∧ Rep r (i - j)) ∧
    (∀ f ∈ [mulWithCheck, mulWithCheckWide, mulWithCheckDiv],
      intBinOp f a b = some r ↔ ∃ i j, Rep a i ∧ Rep b j ∧ InRange (i * j) ∧ Rep r (i * j)) := by
  refine ⟨?_, ?_, ?_⟩ <;> intro f hf <;> simp only [List.mem_cons, List.not_mem_nil, or_false] at hf
  · rcases hf with rfl | rfl
    · exact arith_prim_spec _ _ add_exact a b r
    · exact arith_prim_spec _ _ add_exact_x86 a b r
  · rcases hf with rfl | rfl
    · exact arith_prim_spec _ _ sub_exact a b r
    · exact arith_prim_spec _ _ sub_exact_x86 a b r
  · rcases hf with rfl | rfl | rfl
    · exact arith_prim_spec _ _ mul_exact a b r
    · exact arith_prim_spec _ _ mul_exact_wide a b r
    · exact arith_prim_spec _ _ mul_exact_div a b r

/-- Non-vacuity: the largest SmallInteger plus one falls back, minus one works. -/
example : intBinOp addWithCheck (fromInt maxStInt) (fromInt 1) = none ∧
    intBinOp subWithCheck (fromInt maxStInt) (fromInt 1) =
      some (fromInt 4611686018427387902) ∧
    intBinOp mulWithCheckDiv (fromInt 3037000500) (fromInt 3037000500) = none ∧
    intBinOp mulWithCheckDiv (fromInt (-3)) (fromInt 5) = some (fromInt (-15)) := by decide

/-! ## C03: comparisons -/

/-- The answer of a comparison primitive is the mathematical one; it fails
exactly when an operand is not a SmallInteger. -/
theorem compare_exact (c : Cmp) (a b : Word) (r : Bool) :
    boolBinOp c a b = some r ↔
      ∃ i j, Rep a i ∧ Rep b j ∧ (r = true ↔ c.Holds i j) := by
  have key : ∀ i j, Rep a i → Rep b j → (c.eval a b = true ↔ c.Holds i j) := by
    intro i j ha hb
    cases c <;> simp only [Cmp.eval, Cmp.Holds, decide_eq_true_iff, ← BitVec.toInt_inj, Ne] <;>
      unfold Rep at ha hb <;> omega
  unfold boolBinOp
  constructor
  · intro h
    split at h
    · rename_i hi
      rw [Bool.and_eq_true, isInt_iff, isInt_iff] at hi
      obtain ⟨⟨i, hi⟩, ⟨j, hj⟩⟩ := hi
      simp at h; subst h
      exact ⟨i, j, hi, hj, key i j hi hj⟩
    · cases h
  · rintro ⟨i, j, hi, hj, hr⟩
    rw [hi.isInt, hj.isInt]
    have := key i j hi hj
    simp
    rw [Bool.eq_iff_iff, this, hr]

example : boolBinOp .lt (fromInt minStInt) (fromInt 0) = some true ∧
    boolBinOp .ge (fromInt (-1)) (fromInt 1) = some false := by decide

/-! ## C04: division -/

theorem ne_fromInt_zero {b : Word} {j : Int} (hb : Rep b j) :
    (b != fromInt 0#64) = true ↔ j ≠ 0 := by
  rw [bne_iff_ne, Ne, ← BitVec.toInt_inj]
  have : (fromInt 0#64).toInt = 1 := by decide
  unfold Rep at hb
  omega

/-- The only operand pair for which a quotient of SmallIntegers is not one. -/
def Overflowing (i j : Int) : Prop := i = -4611686018427387904 ∧ j = -1

instance (i j : Int) : Decidable (Overflowing i j) := by unfold Overflowing; infer_instance

theorem natAbs_tdiv_le (i j : Int) : (i.tdiv j).natAbs ≤ i.natAbs := by
  rw [Int.natAbs_tdiv]; exact Nat.div_le_self _ _

theorem tdiv_inRange {i j : Int} (hi : InRange i) (h : ¬ Overflowing i j) (hj : j ≠ 0) :
    InRange (i.tdiv j) := by
  have h1 := natAbs_tdiv_le i j
  unfold InRange Overflowing at *
  by_cases h2 : i.tdiv j = 4611686018427387904
  · exfalso
    have h3 := Int.mul_tdiv_add_tmod i j
    have h4 : (i.tmod j).natAbs < j.natAbs := by
      rw [Int.natAbs_tmod]; exact Nat.mod_lt _ (by omega)
    rw [h2] at h3
    omega
  · omega

theorem sdiv_val {a b : Word} {i j : Int} (ha : Rep a i) (hb : Rep b j) :
    ((toInt a).sdiv (toInt b)).toInt = i.tdiv j := by
  have h1 := natAbs_tdiv_le i j
  have ri := ha.inRange
  unfold InRange at ri
  rw [BitVec.toInt_sdiv, ha.toInt, hb.toInt, bmod64_of_fit] <;> omega

/-- `quo:` answers the truncated quotient, and fails exactly for a zero divisor,
for all operands but one pair. -/
theorem quo_exact_partial (a b : Word) (i j : Int) (ha : Rep a i) (hb : Rep b j)
    (hno : ¬ Overflowing i j) :
    (j = 0 → primQuo a b = none) ∧
    (j ≠ 0 → ∃ r, primQuo a b = some r ∧ Rep r (i.tdiv j)) := by
  unfold primQuo
  rw [ha.isInt, hb.isInt]
  have hz : toInt b ≠ 0#64 ↔ j ≠ 0 := by
    rw [Ne, ← BitVec.toInt_inj, hb.toInt]; simp
  simp only [Bool.and_self, if_true]
  constructor
  · intro h; rw [if_neg (by rw [hz]; omega)]
  · intro h
    rw [if_pos (hz.mpr h)]
    exact ⟨_, rfl, rep_fromInt' (sdiv_val ha hb) (tdiv_inRange ha.inRange hno h)⟩

/-- `/` succeeds exactly when the divisor is non-zero and the division is exact,
and answers the exact quotient, for all operands but one pair. -/
theorem divide_exact_partial (a b : Word) (i j : Int) (ha : Rep a i) (hb : Rep b j)
    (hno : ¬ Overflowing i j) :
    (∀ r, primDivide a b = some r ↔ ∃ q, j ≠ 0 ∧ q * j = i ∧ Rep r q) := by
  intro r
  have hz := ne_fromInt_zero hb
  have hq := sdiv_val ha hb
  have hmul : j ≠ 0 → ((toInt a = toInt b * (toInt a).sdiv (toInt b)) ↔ j * (i.tdiv j) = i) := by
    intro hj
    rw [← BitVec.toInt_inj, BitVec.toInt_mul, hq, ha.toInt, hb.toInt, bmod64_of_fit]
    · omega
    · have h3 := Int.mul_tdiv_add_tmod i j
      have h4 : (i.tmod j).natAbs < j.natAbs := by
        rw [Int.natAbs_tmod]; exact Nat.mod_lt _ (by omega)
      have ri := ha.inRange; have rj := hb.inRange
      unfold InRange at ri rj; omega
    · have h3 := Int.mul_tdiv_add_tmod i j
      have h4 : (i.tmod j).natAbs < j.natAbs := by
        rw [Int.natAbs_tmod]; exact Nat.mod_lt _ (by omega)
      have ri := ha.inRange; have rj := hb.inRange
      unfold InRange at ri rj; omega
  unfold primDivide
  rw [ha.isInt, hb.isInt]
  by_cases hj : j = 0
  · have : (b != fromInt 0#64) = false := by
      rw [← Bool.not_eq_true, hz]; omega
    rw [this]
    simp [hj]
  · rw [hz.mpr hj]
    simp only [Bool.and_self, if_true]
    constructor
    · intro h
      split at h
      · rename_i h1
        rw [hmul hj] at h1
        simp at h; subst h
        refine ⟨i.tdiv j, hj, by rw [Int.mul_comm]; exact h1, ?_⟩
        exact rep_fromInt' hq (tdiv_inRange ha.inRange hno hj)
      · cases h
    · rintro ⟨q, _, hqi, hr⟩
      have : i.tdiv j = q := by rw [← hqi]; exact Int.mul_tdiv_cancel _ hj
      rw [if_pos (by rw [hmul hj, this, Int.mul_comm]; exact hqi)]
      congr 1
      exact (rep_fromInt' (hq.trans this) hr.inRange).inj hr

/-- `\\` answers the floor remainder (the sign of the divisor), for every pair. -/
theorem modulo_exact (a b : Word) (i j : Int) (ha : Rep a i) (hb : Rep b j) :
    (j = 0 → primModulo a b = none) ∧
    (j ≠ 0 → ∃ r, primModulo a b = some r ∧ Rep r (i.fmod j)) := by
  have hz := ne_fromInt_zero hb
  unfold primModulo
  rw [ha.isInt, hb.isInt]
  constructor
  · intro h
    have : (b != fromInt 0#64) = false := by
      rw [← Bool.not_eq_true, hz]; omega
    rw [this]; simp
  · intro hj
    rw [hz.mpr hj]
    simp only [Bool.and_self, if_true]
    refine ⟨_, rfl, ?_⟩
    have hrem : ((toInt a).srem (toInt b)).toInt = i.tmod j := by
      rw [BitVec.toInt_srem, ha.toInt, hb.toInt]
    have h4 : (i.tmod j).natAbs < j.natAbs := by
      rw [Int.natAbs_tmod]; exact Nat.mod_lt _ (by omega)
    have rj := hb.inRange
    unfold InRange at rj
    have hx := xor_neg ((toInt a).srem (toInt b)) (toInt b)
    rw [hrem, hb.toInt] at hx
    have hne : (toInt a).srem (toInt b) ≠ 0#64 ↔ i.tmod j ≠ 0 := by
      rw [Ne, ← BitVec.toInt_inj, hrem]; simp
    have hsum : ((toInt a).srem (toInt b) + toInt b).toInt = i.tmod j + j ∨
        ¬ (i.tmod j < 0 ↔ ¬ j < 0) := by
      by_cases h : (i.tmod j < 0 ↔ ¬ j < 0)
      · left
        rw [BitVec.toInt_add, hrem, hb.toInt, bmod64_of_fit] <;> omega
      · right; exact h
    -- uniqueness of floor remainder
    have hdvd : j ∣ i - i.tmod j := ⟨i.tdiv j, by have := Int.mul_tdiv_add_tmod i j; omega⟩
    have hf := Int.mul_fdiv_add_fmod i j
    have hdvd2 : j ∣ i - i.fmod j := ⟨i.fdiv j, by omega⟩
    have hd3 : j ∣ i.fmod j - i.tmod j := by
      have := Int.dvd_sub hdvd hdvd2
      have e : i - i.tmod j - (i - i.fmod j) = i.fmod j - i.tmod j := by omega
      rwa [e] at this
    obtain ⟨c, hc⟩ := hd3
    have hlo : 0 < j → 0 ≤ i.fmod j ∧ i.fmod j < j := fun h =>
      ⟨Int.fmod_nonneg_of_pos _ h, Int.fmod_lt_of_pos _ h⟩
    have hhi : j < 0 → i.fmod j ≤ 0 ∧ j < i.fmod j := by
      intro h
      have e : i.fmod j = - ((-i).fmod (-j)) := by rw [Int.neg_fmod_neg]; omega
      have h1 := Int.fmod_nonneg_of_pos (-i) (show (0 : Int) < -j by omega)
      have h2 := Int.fmod_lt_of_pos (-i) (show (0 : Int) < -j by omega)
      omega
    have cbound : c = 0 ∨ c = 1 ∨ c = -1 := by
      have hcn : (j * c).natAbs < 2 * j.natAbs := by
        rw [← hc]; rcases Int.lt_or_gt_of_ne hj with h | h
        · have := hhi h; omega
        · have := hlo h; omega
      rw [Int.natAbs_mul] at hcn
      have : c.natAbs < 2 := by
        rw [Nat.mul_comm] at hcn
        exact Nat.lt_of_mul_lt_mul_right hcn
      omega
    split
    · rename_i hcond
      rw [hne, hx] at hcond
      have hs := hsum.resolve_right (fun h => h hcond.2)
      apply rep_fromInt'
      · rw [hs]
        rcases cbound with rfl | rfl | rfl <;> rcases Int.lt_or_gt_of_ne hj with h | h <;>
          (first | (have := hhi h) | (have := hlo h)) <;> simp at hc <;> omega
      · unfold InRange
        rcases Int.lt_or_gt_of_ne hj with h | h
        · have := hhi h; omega
        · have := hlo h; omega
    · rename_i hcond
      rw [hne, hx] at hcond
      apply rep_fromInt'
      · rw [hrem]
        rcases cbound with rfl | rfl | rfl <;> rcases Int.lt_or_gt_of_ne hj with h | h <;>
          (first | (have := hhi h) | (have := hlo h)) <;> simp at hc <;> omega
      · unfold InRange
        rcases Int.lt_or_gt_of_ne hj with h | h
        · have := hhi h; omega
        · have := hlo h; omega

end Verif.SmallInt
