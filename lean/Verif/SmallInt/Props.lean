import Verif.SmallInt.Lemmas

/-! # Property theorems C01–C05: SmallInteger primitives -/

namespace Verif.SmallInt

/-! ## C01: tagging is lossless -/

/-- Storing an in-range integer in a reference and reading it back is the
identity. -/
theorem tag_roundtrip (x : Word) (h : InRange x.toInt) : toInt (fromInt x) = x := by
  apply BitVec.toInt_inj.mp
  exact (rep_fromInt h).toInt

example : toInt (fromInt (-4611686018427387904)) = (-4611686018427387904) :=
  tag_roundtrip _ (by decide)

/-- Every in-range integer has a reference, it is unique, and every word with the
tag bit is the reference of exactly one in-range integer. -/
theorem tag_bijective :
    (∀ i, InRange i → ∃ w, Rep w i ∧ isInt w = true ∧ fromInt (toInt w) = w) ∧
    (∀ w w' i, Rep w i → Rep w' i → w = w') ∧
    (∀ w, isInt w = true → ∃ i, InRange i ∧ Rep w i ∧ (toInt w).toInt = i) := by
  refine ⟨?_, fun w w' i h h' => h.inj h', ?_⟩
  · intro i hi
    have hx : (BitVec.ofInt 64 i).toInt = i := by
      rw [BitVec.toInt_ofInt, bmod64_of_fit] <;> (unfold InRange at hi; omega)
    have hr : Rep (fromInt (BitVec.ofInt 64 i)) i := rep_fromInt' hx hi
    refine ⟨_, hr, hr.isInt, ?_⟩
    rw [tag_roundtrip _ (by rw [hx]; exact hi)]
  · intro w hw
    obtain ⟨i, hi⟩ := (isInt_iff w).mp hw
    exact ⟨i, hi.inRange, hi, hi.toInt⟩

/-- Distinct in-range integers have distinct references. -/
theorem tag_injective (x y : Word) (hx : InRange x.toInt) (hy : InRange y.toInt)
    (h : fromInt x = fromInt y) : x = y := by
  rw [← tag_roundtrip x hx, ← tag_roundtrip y hy, h]

example : fromInt 3#64 ≠ fromInt 4#64 := fun h =>
  absurd (tag_injective 3#64 4#64 (by decide) (by decide) h) (by decide)

/-- The tag test is true of every reference made from an integer and false of
every even address, hence of every address of an aligned object. -/
theorem tag_disjoint (x addr : Word) (hal : addr.toNat % 2 = 0) :
    isInt (fromInt x) = true ∧ isInt addr = false ∧ fromInt x ≠ addr := by
  have h1 : isInt (fromInt x) = true := by
    rw [isInt_iff_odd, fromInt_toInt, bmod64_eq] <;> (have := toInt_bounds x)
    · split
      · omega
      · split <;> omega
    · omega
    · omega
  have h2 : isInt addr = false := by
    rw [← Bool.not_eq_true, isInt_iff_odd, BitVec.toInt_eq_toNat_cond]
    split <;> omega
  exact ⟨h1, h2, fun h => by rw [h, h2] at h1; cases h1⟩

example : isInt (0x7f0000001230#64) = false := (tag_disjoint 0 _ (by decide)).2.1

/-- `MIN_ST_INT`/`MAX_ST_INT` delimit the range exactly, and `INT_OVERFLOW` is
exactly the out-of-range test. -/
theorem range_limits (x : Word) :
    (InRange x.toInt ↔ minStInt.toInt ≤ x.toInt ∧ x.toInt ≤ maxStInt.toInt) ∧
    (intOverflow x = true ↔ ¬ InRange x.toInt) := by
  constructor
  · rw [minStInt_toInt, maxStInt_toInt]; unfold InRange; omega
  · rw [← intOverflow_iff]; simp

/-! ## C02: + - * never silently wrap -/

theorem add_exact : ExactOrOverflow addWithCheck (· + ·) := by
  intro a b i j ha hb
  have ri := ha.inRange; have rj := hb.inRange
  have hb1 := sub_one_toInt hb
  have hr : (a + (b - 1#64)).toInt = (2 * (i + j) + 1).bmod (2 ^ 64) := by
    rw [BitVec.toInt_add, hb1]; unfold Rep at ha; rw [ha]; congr 1; omega
  unfold InRange at *
  rw [bmod64_eq _ (by omega) (by omega)] at hr
  have x1 := xor_neg a b
  have x2 := xor_neg a (a + (b - 1#64))
  simp only [addWithCheck, Rep] at *
  constructor
  · intro h
    refine ⟨?_, ?_⟩
    · rw [Bool.and_eq_false_iff, decide_eq_false_iff_not, decide_eq_false_iff_not, x2]
      by_cases h0 : (a ^^^ b).toInt < 0
      · left; omega
      · right; rw [x1] at h0; split at hr <;> (try split at hr) <;> omega
    · split at hr <;> (try split at hr) <;> omega
  · intro h
    rw [Bool.and_eq_true, decide_eq_true_iff, decide_eq_true_iff, x2]
    refine ⟨?_, ?_⟩
    · by_cases h0 : (a ^^^ b).toInt < 0
      · rw [x1] at h0; omega
      · omega
    · split at hr <;> (try split at hr) <;> omega

theorem add_exact_x86 : ExactOrOverflow addWithCheckX86 (· + ·) := by
  intro a b i j ha hb
  have ri := ha.inRange; have rj := hb.inRange
  have hb1 := sub_one_toInt hb
  have hr : (a + (b - 1#64)).toInt = (2 * (i + j) + 1).bmod (2 ^ 64) := by
    rw [BitVec.toInt_add, hb1]; unfold Rep at ha; rw [ha]; congr 1; omega
  unfold InRange at *
  rw [bmod64_eq _ (by omega) (by omega)] at hr
  simp only [addWithCheckX86, x86AddOF, Rep, decide_eq_false_iff_not, decide_eq_true_iff] at *
  split at hr <;> (try split at hr) <;> omega

theorem sub_exact : ExactOrOverflow subWithCheck (· - ·) := by
  intro a b i j ha hb
  have ri := ha.inRange; have rj := hb.inRange
  have hb1 := sub_one_toInt hb
  have hr : (a - (b - 1#64)).toInt = (2 * (i - j) + 1).bmod (2 ^ 64) := by
    rw [BitVec.toInt_sub, hb1]; unfold Rep at ha; rw [ha]; congr 1; omega
  unfold InRange at *
  rw [bmod64_eq _ (by omega) (by omega)] at hr
  have x1 := xor_neg a b
  have x2 := xor_neg a (a - (b - 1#64))
  simp only [subWithCheck, Rep] at *
  constructor
  · intro h
    refine ⟨?_, ?_⟩
    · rw [Bool.and_eq_false_iff, decide_eq_false_iff_not, decide_eq_false_iff_not, x2]
      by_cases h0 : (a ^^^ b).toInt < 0
      · right; rw [x1] at h0; split at hr <;> (try split at hr) <;> omega
      · left; omega
    · split at hr <;> (try split at hr) <;> omega
  · intro h
    rw [Bool.and_eq_true, decide_eq_true_iff, decide_eq_true_iff, x2]
    refine ⟨?_, ?_⟩
    · rw [x1]; omega
    · split at hr <;> (try split at hr) <;> omega

theorem sub_exact_x86 : ExactOrOverflow subWithCheckX86 (· - ·) := by
  intro a b i j ha hb
  have ri := ha.inRange; have rj := hb.inRange
  have hb1 := sub_one_toInt hb
  have hr : (a - (b - 1#64)).toInt = (2 * (i - j) + 1).bmod (2 ^ 64) := by
    rw [BitVec.toInt_sub, hb1]; unfold Rep at ha; rw [ha]; congr 1; omega
  unfold InRange at *
  rw [bmod64_eq _ (by omega) (by omega)] at hr
  simp only [subWithCheckX86, x86SubOF, Rep, decide_eq_false_iff_not, decide_eq_true_iff] at *
  split at hr <;> (try split at hr) <;> omega

theorem mul_exact : ExactOrOverflow mulWithCheck (· * ·) := by
  intro a b i j ha hb
  have ta := ha.toInt; have tb := hb.toInt
  simp only [mulWithCheck]
  rw [ta, tb, minStInt_toInt, maxStInt_toInt]
  have hm : (toInt a * toInt b).toInt = (i * j).bmod (2 ^ 64) := by
    rw [BitVec.toInt_mul, ta, tb]
  constructor
  · intro h
    have h' := h
    unfold InRange at h
    have e : (toInt a * toInt b).toInt = i * j := by
      rw [hm, bmod64_of_fit] <;> omega
    rw [if_neg (by simpa using e), if_neg (by omega)]
    exact ⟨rfl, rep_fromInt' e h'⟩
  · intro h
    unfold InRange at h
    by_cases e : (toInt a * toInt b).toInt = i * j
    · rw [if_neg (by simpa using e), if_pos (by omega)]
    · rw [if_pos (by simpa using e)]

theorem mul_bound {i j : Int} (hi : InRange i) (hj : InRange j) :
    -(4611686018427387904 * 4611686018427387904) ≤ i * j ∧
    i * j ≤ 4611686018427387904 * 4611686018427387904 := by
  unfold InRange at *
  have h1 : (i * j).natAbs ≤ 4611686018427387904 * 4611686018427387904 := by
    rw [Int.natAbs_mul]
    exact Nat.mul_le_mul (by omega) (by omega)
  omega

theorem mul_exact_wide : ExactOrOverflow mulWithCheckWide (· * ·) := by
  intro a b i j ha hb
  have ta := ha.toInt; have tb := hb.toInt
  have hB := mul_bound ha.inRange hb.inRange
  simp only [mulWithCheckWide]
  rw [minStInt_toInt, maxStInt_toInt]
  have fit (x : Int) (h1 : -4611686018427387904 ≤ x) (h2 : x < 4611686018427387904) :
      x.bmod (2 ^ 128) = x := by
    rw [Int.bmod_eq_of_le] <;> simp <;> omega
  have hm : ((toInt a).signExtend 128 * (toInt b).signExtend 128).toInt = i * j := by
    have e64 (x : Word) : (x.signExtend 128).toInt = x.toInt := by
      rw [BitVec.toInt_signExtend]
      have := toInt_bounds x
      simp only [Nat.min_def]; simp only [show ¬ (128 ≤ 64) by decide, if_false]
      exact bmod64_of_fit _ this.1 this.2
    rw [BitVec.toInt_mul, e64, e64, ta, tb, Int.bmod_eq_of_le] <;> simp <;> omega
  rw [hm]
  constructor
  · intro h
    have h' := h
    unfold InRange at h
    rw [if_neg (by omega)]
    refine ⟨rfl, rep_fromInt' ?_ h'⟩
    rw [BitVec.truncate_eq_setWidth, ← BitVec.signExtend_eq_setWidth_of_le _ (by decide),
      BitVec.toInt_signExtend, hm]
    simp only [Nat.min_def, show (64 ≤ 128) by decide, if_true]
    rw [bmod64_of_fit] <;> omega
  · intro h
    unfold InRange at h
    rw [if_pos (by omega)]

end Verif.SmallInt
