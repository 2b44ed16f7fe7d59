import Verif.Frac.Arith

/-! # What programs rely on when they compute with Integers and Fractions -/

namespace Verif.Frac

open Verif.Num (Err)

/-- An Integer seen as a Fraction is as in `valid_nd`; used to treat the four
combinations of classes alike. -/
theorem int_cop (z : Int) : IsCoprime z 1 := isCoprime_one_right

/-! ### + - * -/

/-- **Addition is exact**: the sum of two exact numbers (Integers or Fractions in
lowest terms, in any combination) is the rational sum, again in lowest terms. -/
theorem add_exact (a b : Number) (ha : Valid a) (hb : Valid b) :
    ∃ r, add a b = .ok r ∧ Valid r ∧ rat r = rat a + rat b := by
  cases a with
  | int x =>
    cases b with
    | int y => exact ⟨_, rfl, trivial, by simp [rat]⟩
    | frac n d =>
      obtain ⟨r, h1, h2, h3, _⟩ := addFF_spec x 1 n d (by omega) hb.1 (int_cop x)
        (Int.isCoprime_iff_gcd_eq_one.mpr hb.2)
      exact ⟨r, h1, h2, by rw [h3]; simp [rat]⟩
  | frac m c =>
    cases b with
    | int y =>
      obtain ⟨r, h1, h2, h3, _⟩ := addFF_spec m c y 1 ha.1 (by omega)
        (Int.isCoprime_iff_gcd_eq_one.mpr ha.2) (int_cop y)
      exact ⟨r, h1, h2, by rw [h3]; simp [rat]⟩
    | frac n d =>
      obtain ⟨r, h1, h2, h3, _⟩ := addFF_spec m c n d ha.1 hb.1
        (Int.isCoprime_iff_gcd_eq_one.mpr ha.2) (Int.isCoprime_iff_gcd_eq_one.mpr hb.2)
      exact ⟨r, h1, h2, h3⟩

/-- **Subtraction is exact.** -/
theorem sub_exact (a b : Number) (ha : Valid a) (hb : Valid b) :
    ∃ r, sub a b = .ok r ∧ Valid r ∧ rat r = rat a - rat b := by
  cases a with
  | int x =>
    cases b with
    | int y => exact ⟨_, rfl, trivial, by simp [rat]⟩
    | frac n d =>
      obtain ⟨r, h1, h2, h3, _⟩ := addFF_spec x 1 (-n) d (by omega) hb.1 (int_cop x)
        (Int.isCoprime_iff_gcd_eq_one.mpr hb.2).neg_left
      refine ⟨r, by rw [sub, subFF_addFF, h1], h2, by rw [h3]; simp [rat]; ring⟩
  | frac m c =>
    cases b with
    | int y =>
      obtain ⟨r, h1, h2, h3, _⟩ := addFF_spec m c (-y) 1 ha.1 (by omega)
        (Int.isCoprime_iff_gcd_eq_one.mpr ha.2) (int_cop _)
      exact ⟨r, by rw [sub, subFF_addFF, h1], h2, by rw [h3]; simp [rat]; ring⟩
    | frac n d =>
      obtain ⟨r, h1, h2, h3, _⟩ := addFF_spec m c (-n) d ha.1 hb.1
        (Int.isCoprime_iff_gcd_eq_one.mpr ha.2) (Int.isCoprime_iff_gcd_eq_one.mpr hb.2).neg_left
      exact ⟨r, by rw [sub, subFF_addFF, h1], h2, by rw [h3]; simp [rat]; ring⟩

/-- **Sums and differences that are integers are Integers**: the result is never a
Fraction with denominator 1, if the operands are not. -/
theorem add_sub_canonical (a b : Number) (ha : Canonical a) (hb : Canonical b) :
    (∃ r, add a b = .ok r ∧ Canonical r) ∧ (∃ r, sub a b = .ok r ∧ Canonical r) := by
  cases a with
  | int x =>
    cases b with
    | int y => exact ⟨⟨_, rfl, trivial⟩, ⟨_, rfl, trivial⟩⟩
    | frac n d =>
      have hc := Int.isCoprime_iff_gcd_eq_one.mpr hb.2.1
      obtain ⟨r, h1, _, _, h4⟩ := addFF_spec x 1 n d (by omega) hb.1 (int_cop x) hc
      obtain ⟨s, g1, _, _, g4⟩ := addFF_spec x 1 (-n) d (by omega) hb.1 (int_cop x) hc.neg_left
      exact ⟨⟨r, h1, h4 (Or.inr hb.2.2)⟩, ⟨s, by rw [sub, subFF_addFF, g1], g4 (Or.inr hb.2.2)⟩⟩
  | frac m c =>
    have hca := Int.isCoprime_iff_gcd_eq_one.mpr ha.2.1
    cases b with
    | int y =>
      obtain ⟨r, h1, _, _, h4⟩ := addFF_spec m c y 1 ha.1 (by omega) hca (int_cop y)
      obtain ⟨s, g1, _, _, g4⟩ := addFF_spec m c (-y) 1 ha.1 (by omega) hca (int_cop _)
      exact ⟨⟨r, h1, h4 (Or.inl ha.2.2)⟩, ⟨s, by rw [sub, subFF_addFF, g1], g4 (Or.inl ha.2.2)⟩⟩
    | frac n d =>
      have hc := Int.isCoprime_iff_gcd_eq_one.mpr hb.2.1
      obtain ⟨r, h1, _, _, h4⟩ := addFF_spec m c n d ha.1 hb.1 hca hc
      obtain ⟨s, g1, _, _, g4⟩ := addFF_spec m c (-n) d ha.1 hb.1 hca hc.neg_left
      exact ⟨⟨r, h1, h4 (Or.inr hb.2.2)⟩, ⟨s, by rw [sub, subFF_addFF, g1], g4 (Or.inr hb.2.2)⟩⟩

example : add (.frac 1 6) (.frac 1 3) = .ok (.frac 1 2) := by decide +kernel
example : add (.frac 1 2) (.frac 1 2) = .ok (.int 1) := by decide +kernel
example : sub (.int 1) (.frac 1 3) = .ok (.frac 2 3) := by decide +kernel

/-- **Multiplication is exact**, also through the shortcut for squaring (an object
multiplied by itself). -/
theorem mul_exact (same : Bool) (a b : Number) (hs : same = true → a = b) (ha : Valid a) (hb : Valid b) :
    ∃ r, mul same a b = .ok r ∧ Valid r ∧ rat r = rat a * rat b := by
  cases a with
  | int x =>
    cases b with
    | int y => exact ⟨_, rfl, trivial, by simp [rat]⟩
    | frac n d =>
      obtain ⟨r, h1, h2, h3, _⟩ := mulFF_spec false x 1 n d (by simp) (by omega) hb.1 (int_cop x)
        (Int.isCoprime_iff_gcd_eq_one.mpr hb.2)
      exact ⟨r, h1, h2, by rw [h3]; simp [rat]⟩
  | frac m c =>
    cases b with
    | int y =>
      obtain ⟨r, h1, h2, h3, _⟩ := mulFF_spec false m c y 1 (by simp) ha.1 (by omega)
        (Int.isCoprime_iff_gcd_eq_one.mpr ha.2) (int_cop y)
      exact ⟨r, h1, h2, by rw [h3]; simp [rat]⟩
    | frac n d =>
      obtain ⟨r, h1, h2, h3, _⟩ := mulFF_spec same m c n d (fun h => by cases hs h; exact ⟨rfl, rfl⟩)
        ha.1 hb.1 (Int.isCoprime_iff_gcd_eq_one.mpr ha.2) (Int.isCoprime_iff_gcd_eq_one.mpr hb.2)
      exact ⟨r, h1, h2, h3⟩

theorem rat_ne_zero_numer {a : Number} (ha : Valid a) : rat a ≠ 0 ↔ numer a ≠ 0 := by
  cases a with
  | int z => simp [rat, numer]
  | frac n d =>
    have : (d : ℚ) ≠ 0 := by have := ha.1; exact_mod_cast (by omega : d ≠ 0)
    simp [rat, numer, this]

/-- **Products that are integers are Integers — unless the product is zero.** -/
theorem mul_canonical_partial (same : Bool) (a b : Number) (hs : same = true → a = b)
    (ha : Canonical a) (hb : Canonical b) (hz : rat a ≠ 0) (hz' : rat b ≠ 0) :
    ∃ r, mul same a b = .ok r ∧ Canonical r := by
  rw [rat_ne_zero_numer ha.valid] at hz
  rw [rat_ne_zero_numer hb.valid] at hz'
  cases a with
  | int x =>
    cases b with
    | int y => exact ⟨_, rfl, trivial⟩
    | frac n d =>
      obtain ⟨r, h1, _, _, h4⟩ := mulFF_spec false x 1 n d (by simp) (by omega) hb.1 (int_cop x)
        (Int.isCoprime_iff_gcd_eq_one.mpr hb.2.1)
      exact ⟨r, h1, h4 hz hz'⟩
  | frac m c =>
    cases b with
    | int y =>
      obtain ⟨r, h1, _, _, h4⟩ := mulFF_spec false m c y 1 (by simp) ha.1 (by omega)
        (Int.isCoprime_iff_gcd_eq_one.mpr ha.2.1) (int_cop y)
      exact ⟨r, h1, h4 hz hz'⟩
    | frac n d =>
      obtain ⟨r, h1, _, _, h4⟩ := mulFF_spec same m c n d (fun h => by cases hs h; exact ⟨rfl, rfl⟩)
        ha.1 hb.1 (Int.isCoprime_iff_gcd_eq_one.mpr ha.2.1) (Int.isCoprime_iff_gcd_eq_one.mpr hb.2.1)
      exact ⟨r, h1, h4 hz hz'⟩

example : mul false (.frac 2 3) (.frac 3 2) = .ok (.int 1) := by decide +kernel
example : mul true (.frac 2 3) (.frac 2 3) = .ok (.frac 4 9) := by decide +kernel

/-- **`(1/2) * 0` answers the Fraction `0/1`, not 0.** -/
theorem mul_zero_not_canonical :
    mul false (.frac 1 2) (.int 0) = .ok (.frac 0 1) ∧ mul false (.int 0) (.frac 1 2) = .ok (.frac 0 1) ∧
    ¬ Canonical (.frac 0 1) := by
  refine ⟨by decide, by decide, fun h => h.2.2 rfl⟩

/-! ### Division -/

theorem divSmall_exact (x y : Int) (hy : y ≠ 0) :
    ∃ r, divSmall x y = .ok r ∧ Canonical r ∧ rat r = (x : ℚ) / y := by
  have hyq : (y : ℚ) ≠ 0 := by exact_mod_cast hy
  unfold divSmall
  rw [if_neg hy]
  by_cases hm : x % y = 0
  · rw [if_pos hm]
    refine ⟨_, rfl, trivial, ?_⟩
    obtain ⟨q, rfl⟩ := Int.dvd_of_emod_eq_zero hm
    rw [Int.mul_tdiv_cancel_left _ hy]
    simp only [rat]
    push_cast
    field_simp
  · rw [if_neg hm]
    -- the Fraction has a positive denominator and is not an integer
    have key : ∀ n d : Int, 0 < d → ¬ d ∣ n → (n : ℚ) / d = (x : ℚ) / y →
        Canonical (reduce n d) ∧ rat (reduce n d) = (x : ℚ) / y := by
      intro n d hd hnd hv
      have hd1 : d ≠ 1 := by rintro rfl; exact hnd (one_dvd n)
      have hn0 : n ≠ 0 := by rintro rfl; exact hnd (dvd_zero d)
      unfold reduce
      by_cases h1 : n = 1
      · rw [if_pos h1]; exact ⟨⟨hd, by simp [h1], hd1⟩, hv⟩
      · rw [if_neg h1, if_neg hd1, if_neg hn0]
        have hne : n ≠ d := by rintro rfl; exact hnd (dvd_refl n)
        rw [if_neg hne]
        simp only
        by_cases hg : gcd n d = 1
        · rw [if_pos hg]
          exact ⟨⟨hd, by unfold gcd at hg; exact_mod_cast hg, hd1⟩, hv⟩
        · rw [if_neg hg]
          obtain ⟨u, v, e1, e2, e3, e4⟩ := gcd_factor_coprime n d (Or.inl hn0)
          have hdg : d ≠ gcd n d := by
            intro h
            apply hnd
            rw [h]
            exact Int.gcd_dvd_left n d
          rw [if_neg hdg]
          generalize gcd n d = g at *
          subst e1 e2
          rw [divExact_mul_left _ _ (by omega), divExact_mul_left _ _ (by omega)]
          refine ⟨⟨pos_r hd e4, Int.isCoprime_iff_gcd_eq_one.mp e3, ?_⟩, ?_⟩
          · rintro rfl; exact hdg (by ring)
          · simp only [rat]
            rw [← hv]
            push_cast
            rw [mul_div_mul_left]
            exact_mod_cast (by omega : g ≠ 0)
    have hnd : ¬ y ∣ x := fun h => hm (Int.emod_eq_zero_of_dvd h)
    unfold mkFrac
    rw [if_neg hy]
    by_cases hneg : y < 0
    · rw [if_pos hneg]
      have := key (-x) (-y) (by omega) (by rwa [neg_dvd, dvd_neg]) (by push_cast; rw [neg_div_neg_eq])
      exact ⟨_, rfl, this.1, this.2⟩
    · rw [if_neg hneg]
      have := key x y (by omega) hnd rfl
      exact ⟨_, rfl, this.1, this.2⟩

theorem divLarge_exact (x y : Int) (hy : y ≠ 0) :
    ∃ r, divLarge x y = .ok r ∧ Valid r ∧ rat r = (x : ℚ) / y ∧
      ((0 < y ∧ x ≠ y) → Canonical r) := by
  have hyq : (y : ℚ) ≠ 0 := by exact_mod_cast hy
  unfold divLarge
  rw [if_neg hy]
  by_cases hx : x = 0
  · rw [if_pos hx]
    subst hx
    exact ⟨_, rfl, trivial, by simp [rat], fun _ => trivial⟩
  · rw [if_neg hx]
    obtain ⟨u, v, e1, e2, e3, e4⟩ := gcd_factor_coprime x y (Or.inl hx)
    simp only
    generalize gcd x y = g at *
    subst e1 e2
    have hgq : (g : ℚ) ≠ 0 := by exact_mod_cast (by omega : g ≠ 0)
    have hv0 : v ≠ 0 := by rintro rfl; simp at hy
    rw [divExact_mul_left _ _ (by omega), divExact_mul_left _ _ (by omega)]
    have hq : ((g * u : Int) : ℚ) / ((g * v : Int) : ℚ) = (u : ℚ) / v := by
      push_cast
      rw [mul_div_mul_left _ _ hgq]
    rw [hq]
    by_cases h1 : g = g * u
    · rw [if_pos h1]
      have hu : u = 1 := by
        have : g * 1 = g * u := by omega
        exact (mul_left_cancel₀ (by omega) this).symm
      subst hu
      obtain ⟨r, q1, q2, q3, q4⟩ := mkFrac_ok 1 v hv0 isCoprime_one_left
      refine ⟨r, q1, q2, q3, fun h => q4 ?_ ?_⟩
      · rintro rfl; exact h.2 rfl
      · have := pos_r h.1 e4; omega
    · rw [if_neg h1]
      by_cases h2 : g = g * v
      · rw [if_pos h2]
        have hv : v = 1 := by
          have : g * 1 = g * v := by omega
          exact (mul_left_cancel₀ (by omega) this).symm
        subst hv
        exact ⟨_, rfl, trivial, by simp [rat], fun _ => trivial⟩
      · rw [if_neg h2]
        obtain ⟨r, q1, q2, q3, q4⟩ := mkFrac_ok u v hv0 e3
        refine ⟨r, q1, q2, q3, fun h => q4 ?_ ?_⟩
        · rintro rfl; exact h2 (by ring)
        · have := pos_r h.1 e4; omega

/-- **Division is exact**: the quotient of two exact numbers by a nonzero divisor
is the rational quotient, in lowest terms with a positive denominator, whatever
the classes and sizes. -/
theorem div_exact (big : Int) (a b : Number) (ha : Valid a) (hb : Valid b) (hz : rat b ≠ 0) :
    ∃ r, div big a b = .ok r ∧ Valid r ∧ rat r = rat a / rat b := by
  rw [rat_ne_zero_numer hb] at hz
  cases a with
  | int x =>
    cases b with
    | int y =>
      simp only [div, divII, rat]
      split
      · obtain ⟨r, h1, h2, h3⟩ := divSmall_exact x y hz
        exact ⟨r, h1, h2.valid, h3⟩
      · obtain ⟨r, h1, h2, h3, _⟩ := divLarge_exact x y hz
        exact ⟨r, h1, h2, h3⟩
    | frac n d =>
      obtain ⟨r, h1, h2, h3, _⟩ := divFF_spec x 1 n d (by omega) hb.1 (int_cop x)
        (Int.isCoprime_iff_gcd_eq_one.mpr hb.2) hz
      exact ⟨r, h1, h2, by rw [h3]; simp [rat]⟩
  | frac m c =>
    cases b with
    | int y =>
      obtain ⟨r, h1, h2, h3, _⟩ := divFF_spec m c y 1 ha.1 (by omega)
        (Int.isCoprime_iff_gcd_eq_one.mpr ha.2) (int_cop y) hz
      exact ⟨r, h1, h2, by rw [h3]; simp [rat]⟩
    | frac n d =>
      obtain ⟨r, h1, h2, h3, _⟩ := divFF_spec m c n d ha.1 hb.1
        (Int.isCoprime_iff_gcd_eq_one.mpr ha.2) (Int.isCoprime_iff_gcd_eq_one.mpr hb.2) hz
      exact ⟨r, h1, h2, h3⟩

/-- **Dividing by zero is always refused.** -/
theorem div_zero_refused (big : Int) (a b : Number) (hb : Valid b) (hz : rat b = 0) :
    div big a b = .error .zeroDivide := by
  have hz : numer b = 0 := by
    by_contra h
    exact (rat_ne_zero_numer hb).mpr h hz
  cases a with
  | int x =>
    cases b with
    | int y =>
      have : y = 0 := hz
      subst this
      simp only [div, divII, divSmall, divLarge, if_true]
      split <;> rfl
    | frac n d =>
      have : n = 0 := hz
      subst this
      simp [div, divFF]
  | frac m c =>
    cases b with
    | int y =>
      have : y = 0 := hz
      subst this
      simp [div, divFF]
    | frac n d =>
      have : n = 0 := hz
      subst this
      simp [div, divFF]

/-- **Quotients that are integers are Integers, when the divisor is positive, the
dividend is not zero, and two LargeIntegers are not equal.** -/
theorem div_canonical_partial (big : Int) (a b : Number) (ha : Canonical a) (hb : Canonical b)
    (hz : rat a ≠ 0) (hp : 0 < rat b) (hne : a ≠ b) :
    ∃ r, div big a b = .ok r ∧ Canonical r := by
  rw [rat_ne_zero_numer ha.valid] at hz
  have hpos : 0 < numer b := by
    cases b with
    | int y => simpa [rat, numer] using hp
    | frac n d =>
      have hd : (0 : ℚ) < d := by have := hb.1; exact_mod_cast this
      have : (0 : ℚ) < n := (div_pos_iff_of_pos_right hd).mp hp
      exact_mod_cast this
  cases a with
  | int x =>
    cases b with
    | int y =>
      simp only [div, divII]
      have hy : y ≠ 0 := by have : 0 < y := hpos; omega
      split
      · obtain ⟨r, h1, h2, _⟩ := divSmall_exact x y hy
        exact ⟨r, h1, h2⟩
      · obtain ⟨r, h1, _, _, h4⟩ := divLarge_exact x y hy
        exact ⟨r, h1, h4 ⟨hpos, fun h => hne (by rw [h])⟩⟩
    | frac n d =>
      obtain ⟨r, h1, _, _, h4⟩ := divFF_spec x 1 n d (by omega) hb.1 (int_cop x)
        (Int.isCoprime_iff_gcd_eq_one.mpr hb.2.1) (by have : 0 < n := hpos; omega)
      exact ⟨r, h1, h4 hz hpos⟩
  | frac m c =>
    cases b with
    | int y =>
      obtain ⟨r, h1, _, _, h4⟩ := divFF_spec m c y 1 ha.1 (by omega)
        (Int.isCoprime_iff_gcd_eq_one.mpr ha.2.1) (int_cop y) (by have : 0 < y := hpos; omega)
      exact ⟨r, h1, h4 hz hpos⟩
    | frac n d =>
      obtain ⟨r, h1, _, _, h4⟩ := divFF_spec m c n d ha.1 hb.1
        (Int.isCoprime_iff_gcd_eq_one.mpr ha.2.1) (Int.isCoprime_iff_gcd_eq_one.mpr hb.2.1)
        (by have : 0 < n := hpos; omega)
      exact ⟨r, h1, h4 hz hpos⟩

example : div (2 ^ 62 - 1) (.int 6) (.int 4) = .ok (.frac 3 2) := by decide +kernel
example : div (2 ^ 62 - 1) (.int 6) (.int (-3)) = .ok (.int (-2)) := by decide +kernel
example : div (2 ^ 62 - 1) (.frac 1 2) (.frac 1 4) = .ok (.int 2) := by decide +kernel

/-- **Integer quotients that come out as Fractions with denominator 1**:
`(1/2) / (-1/2)` answers `-1/1`; a LargeInteger divided by itself answers `1/1`;
a LargeInteger divided by the negative of a divisor answers `-2/1`. -/
theorem div_not_canonical :
    div (2 ^ 62 - 1) (.frac 1 2) (.frac (-1) 2) = .ok (.frac (-1) 1) ∧
    div (2 ^ 62 - 1) (.int (2 ^ 100)) (.int (2 ^ 100)) = .ok (.frac 1 1) ∧
    div (2 ^ 62 - 1) (.int (2 ^ 100)) (.int (-(2 ^ 99))) = .ok (.frac (-2) 1) := by
  refine ⟨by decide +kernel, by decide +kernel, by decide +kernel⟩

/-! ### Rounding to Integers -/

theorem fdiv_floor (n d : Int) (hd : 0 < d) : Int.fdiv n d = ⌊(n : ℚ) / d⌋ := by
  rw [Int.fdiv_eq_ediv_of_nonneg _ (by omega)]
  obtain ⟨k, rfl⟩ := Int.eq_ofNat_of_zero_le (by omega : 0 ≤ d)
  exact (Rat.floor_intCast_div_natCast n k).symm

/-- **`floor`, `ceiling` and `truncated` are the mathematical ones.** -/
theorem floor_spec (a : Number) (ha : Valid a) : floor a = ⌊rat a⌋ := by
  cases a with
  | int z => simp [floor, rat]
  | frac n d => exact fdiv_floor n d ha.1

theorem ceiling_spec (a : Number) (ha : Valid a) : ceiling a = ⌈rat a⌉ := by
  cases a with
  | int z => simp [ceiling, rat]
  | frac n d =>
    have hd := ha.1
    have hdq : (0 : ℚ) < d := by exact_mod_cast hd
    simp only [ceiling, rat]
    rw [Int.fdiv_eq_ediv_of_nonneg _ (by omega)]
    symm
    rw [Int.ceil_eq_iff]
    have h1 := Int.mul_ediv_add_emod (n + d - 1) d
    have h2 := Int.emod_nonneg (n + d - 1) (by omega : d ≠ 0)
    have h3 := Int.emod_lt_of_pos (n + d - 1) hd
    constructor
    · rw [lt_div_iff₀ hdq]
      have : ((n + d - 1) / d - 1) * d < n := by
        have : ((n + d - 1) / d - 1) * d = d * ((n + d - 1) / d) - d := by ring
        omega
      exact_mod_cast this
    · rw [div_le_iff₀ hdq]
      have : n ≤ (n + d - 1) / d * d := by
        have : (n + d - 1) / d * d = d * ((n + d - 1) / d) := by ring
        omega
      exact_mod_cast this

theorem truncated_spec (a : Number) (ha : Valid a) :
    truncated a = if 0 ≤ rat a then ⌊rat a⌋ else ⌈rat a⌉ := by
  cases a with
  | int z => simp [truncated, rat]
  | frac n d =>
    have hd := ha.1
    have hdq : (0 : ℚ) < d := by exact_mod_cast hd
    simp only [truncated]
    by_cases hn : 0 ≤ n
    · have : 0 ≤ rat (.frac n d) := div_nonneg (by exact_mod_cast hn) hdq.le
      rw [if_pos this, ← floor_spec _ ha, floor, Int.fdiv_eq_tdiv_of_nonneg hn (by omega)]
    · have hneg : ¬ 0 ≤ rat (.frac n d) := by
        intro h
        have : (0 : ℚ) ≤ n := by
          have := mul_nonneg h hdq.le
          simp only [rat] at this
          rwa [div_mul_cancel₀ _ hdq.ne'] at this
        exact hn (by exact_mod_cast this)
      rw [if_neg hneg]
      have h2 : rat (.frac n d) = - ((-n : Int) : ℚ) / d := by simp [rat]
      rw [h2, neg_div, Int.ceil_neg, ← fdiv_floor _ _ hd,
        Int.fdiv_eq_tdiv_of_nonneg (by omega) (by omega), Int.neg_tdiv, Int.neg_neg]

theorem half_value : div 0 (.frac 1 1) (.int 2) = .ok (.frac 1 2) := by decide +kernel

/-- **`rounded` answers a nearest Integer, and away from zero on a tie**: it is
`⌊x + 1/2⌋` for non-negative numbers and `⌈x - 1/2⌉` for negative ones. -/
theorem rounded_spec (a : Number) (ha : Valid a) :
    ∃ r, rounded a = .ok r ∧ r = if rat a < 0 then ⌈rat a - 1 / 2⌉ else ⌊rat a + 1 / 2⌋ := by
  have hv : Valid (.frac 1 2) := ⟨by decide, by decide⟩
  have hr : rat (.frac 1 2) = 1 / 2 := by simp [rat]
  cases a with
  | int z =>
    refine ⟨z, rfl, ?_⟩
    have e : rat (.int z) = (z : ℚ) := rfl
    by_cases hz : rat (.int z) < 0
    · rw [if_pos hz, e, eq_comm, Int.ceil_eq_iff]; constructor <;> linarith
    · rw [if_neg hz, e, eq_comm, Int.floor_eq_iff]; constructor <;> linarith
  | frac n d =>
    have hd := ha.1
    have hdq : (0 : ℚ) < d := by exact_mod_cast hd
    simp only [rounded, half_value]
    by_cases hn : n < 0
    · rw [if_pos hn]
      obtain ⟨r, h1, h2, h3⟩ := sub_exact (.frac n d) (.frac 1 2) ha hv
      rw [h1]
      refine ⟨_, rfl, ?_⟩
      have hneg : rat (.frac n d) < 0 := div_neg_of_neg_of_pos (by exact_mod_cast hn) hdq
      rw [if_pos hneg, ceiling_spec r h2, h3, hr]
    · rw [if_neg hn]
      obtain ⟨r, h1, h2, h3⟩ := add_exact (.frac n d) (.frac 1 2) ha hv
      rw [h1]
      refine ⟨_, rfl, ?_⟩
      have hneg : ¬ rat (.frac n d) < 0 := not_lt.mpr (div_nonneg (by exact_mod_cast (by omega : 0 ≤ n)) hdq.le)
      rw [if_neg hneg, floor_spec r h2, h3, hr]

/-- `rounded` is at distance at most one half. -/
theorem rounded_near (a : Number) (ha : Valid a) (r : Int) (h : rounded a = .ok r) :
    |rat a - r| ≤ 1 / 2 := by
  obtain ⟨r', h1, h2⟩ := rounded_spec a ha
  rw [h] at h1
  cases h1
  rw [h2]
  split
  · have h3 := Int.le_ceil (rat a - 1 / 2)
    have h4 := Int.ceil_lt_add_one (rat a - 1 / 2)
    rw [abs_le]; constructor <;> linarith
  · have h3 := Int.floor_le (rat a + 1 / 2)
    have h4 := Int.lt_floor_add_one (rat a + 1 / 2)
    rw [abs_le]; constructor <;> linarith

example : rounded (.frac (-5) 2) = .ok (-3) ∧ rounded (.frac 5 2) = .ok 3 ∧ rounded (.frac 7 3) = .ok 2 := by
  decide +kernel

/-- **`a // b` is the floor of the quotient, and `a \\ b` is what is left**:
`a = (a // b) * b + (a \\ b)`, with the remainder between 0 and the divisor. -/
theorem intDiv_modulo (big : Int) (a b : Number) (ha : Valid a) (hb : Valid b) (hz : rat b ≠ 0) :
    ∃ q r, intDiv big a b = .ok q ∧ modulo big a b = .ok r ∧ Valid r ∧ q = ⌊rat a / rat b⌋ ∧
      rat a = q * rat b + rat r ∧ (0 < rat b → 0 ≤ rat r ∧ rat r < rat b) ∧
      (rat b < 0 → rat b < rat r ∧ rat r ≤ 0) := by
  obtain ⟨s, h1, h2, h3⟩ := div_exact big a b ha hb hz
  have hq : intDiv big a b = .ok (floor s) := by simp only [intDiv, h1]
  have hfl : floor s = ⌊rat a / rat b⌋ := by rw [floor_spec s h2, h3]
  obtain ⟨p, h4, h5, h6⟩ := mul_exact false (.int (floor s)) b (by simp) trivial hb
  obtain ⟨r, h7, h8, h9⟩ := sub_exact a p ha h5
  have hr : modulo big a b = .ok r := by simp only [modulo, hq, h4, h7]
  have hint : rat (.int (floor s)) = ((floor s : Int) : ℚ) := rfl
  rw [hint] at h6
  have e1 := Int.floor_le (rat a / rat b)
  have e2 := Int.lt_floor_add_one (rat a / rat b)
  rw [← hfl] at e1 e2
  refine ⟨floor s, r, hq, hr, h8, hfl, by rw [h9, h6]; ring, fun hp => ?_, fun hn => ?_⟩
  · rw [le_div_iff₀ hp] at e1
    rw [div_lt_iff₀ hp] at e2
    rw [h9, h6]
    constructor <;> linarith
  · rw [le_div_iff_of_neg hn] at e1
    rw [div_lt_iff_of_neg hn] at e2
    rw [h9, h6]
    constructor <;> linarith

example : intDiv 100 (.frac (-7) 2) (.int 2) = .ok (-2) ∧ modulo 100 (.frac (-7) 2) (.int 2) = .ok (.frac 1 2) := by
  decide +kernel

/-! ### Comparison -/

theorem highBit_bounds (n : Nat) (h : 0 < n) : 2 ^ (highBit n - 1) ≤ n ∧ n < 2 ^ highBit n ∧ 1 ≤ highBit n := by
  unfold highBit
  rw [if_neg (by omega), Nat.add_sub_cancel]
  exact ⟨Nat.log2_self_le (by omega), Nat.lt_log2_self, by omega⟩

theorem mul_highBit_lt (a b c d : Nat) (ha : 0 < a) (hb : 0 < b) (hc : 0 < c) (hd : 0 < d)
    (h : highBit c + highBit d + 2 ≤ highBit a + highBit b) : c * d < a * b := by
  obtain ⟨a1, _, a3⟩ := highBit_bounds a ha
  obtain ⟨b1, _, b3⟩ := highBit_bounds b hb
  obtain ⟨_, c2, _⟩ := highBit_bounds c hc
  obtain ⟨_, d2, _⟩ := highBit_bounds d hd
  calc c * d < 2 ^ highBit c * 2 ^ highBit d := Nat.mul_lt_mul'' c2 d2
    _ = 2 ^ (highBit c + highBit d) := by rw [pow_add]
    _ ≤ 2 ^ ((highBit a - 1) + (highBit b - 1)) := Nat.pow_le_pow_right (by omega) (by omega)
    _ = 2 ^ (highBit a - 1) * 2 ^ (highBit b - 1) := by rw [pow_add]
    _ ≤ a * b := Nat.mul_le_mul a1 b1

/-- The sign of `compare:` is the sign of the cross difference, the estimate from
the bit lengths included. -/
theorem compare_sign (n1 d1 n2 d2 : Int) (p1 : 0 < d1) (p2 : 0 < d2) :
    (compare n1 d1 n2 d2).sign = (n1 * d2 - n2 * d1).sign := by
  unfold compare
  by_cases hs : n1.sign ≠ n2.sign
  · rw [if_pos hs]
    rcases lt_trichotomy n1 0 with h1 | h1 | h1 <;> rcases lt_trichotomy n2 0 with h2 | h2 | h2
    all_goals first
      | (exfalso; apply hs; first
          | rw [Int.sign_eq_neg_one_of_neg h1, Int.sign_eq_neg_one_of_neg h2]
          | rw [h1, h2]
          | rw [Int.sign_eq_one_of_pos h1, Int.sign_eq_one_of_pos h2])
      | skip
    · subst h2
      rw [Int.sign_eq_neg_one_of_neg h1]
      have : n1 * d2 < 0 := mul_neg_of_neg_of_pos h1 p2
      rw [Int.zero_mul, Int.sub_zero, Int.sign_eq_neg_one_of_neg this]; rfl
    · rw [Int.sign_eq_neg_one_of_neg h1, Int.sign_eq_one_of_pos h2]
      have a : n1 * d2 < 0 := mul_neg_of_neg_of_pos h1 p2
      have b : 0 < n2 * d1 := Int.mul_pos h2 p1
      rw [Int.sign_eq_neg_one_of_neg (show n1 * d2 - n2 * d1 < 0 by omega)]; rfl
    · subst h1
      rw [Int.sign_eq_neg_one_of_neg h2]
      have b : n2 * d1 < 0 := mul_neg_of_neg_of_pos h2 p1
      rw [Int.zero_mul, Int.sign_eq_one_of_pos (show 0 < 0 - n2 * d1 by omega)]; rfl
    · subst h1
      rw [Int.sign_eq_one_of_pos h2]
      have b : 0 < n2 * d1 := Int.mul_pos h2 p1
      rw [Int.zero_mul, Int.sign_eq_neg_one_of_neg (show 0 - n2 * d1 < 0 by omega)]; rfl
    · rw [Int.sign_eq_one_of_pos h1, Int.sign_eq_neg_one_of_neg h2]
      have a : 0 < n1 * d2 := Int.mul_pos h1 p2
      have b : n2 * d1 < 0 := mul_neg_of_neg_of_pos h2 p1
      rw [Int.sign_eq_one_of_pos (show 0 < n1 * d2 - n2 * d1 by omega)]; rfl
    · subst h2
      rw [Int.sign_eq_one_of_pos h1]
      have a : 0 < n1 * d2 := Int.mul_pos h1 p2
      rw [Int.zero_mul, Int.sub_zero, Int.sign_eq_one_of_pos a]; rfl
  · rw [if_neg hs]
    have hs : n1.sign = n2.sign := not_not.mp hs
    simp only
    have e1 : ((d1.natAbs : Nat) : Int) = d1 := by omega
    have e2 : ((d2.natAbs : Nat) : Int) = d2 := by omega
    -- the two shortcuts need both numerators nonzero; with both zero delta is small
    have absmul : ∀ n d : Int, 0 < d → ((n.natAbs * d.natAbs : Nat) : Int) = |n| * d := by
      intro n d hd
      push_cast
      rw [abs_of_pos hd]
    by_cases h0 : n1 = 0
    · have h2 : n2 = 0 := by
        subst h0
        rw [Int.sign_zero] at hs
        exact Int.sign_eq_zero_iff_zero.mp hs.symm
      subst h0 h2
      rw [Int.sign_zero, Int.mul_zero, Int.mul_zero]
      split
      · simp
      · split
        · simp
        · simp
    · have h2 : n2 ≠ 0 := by
        rintro rfl
        rw [Int.sign_zero] at hs
        exact h0 (Int.sign_eq_zero_iff_zero.mp hs)
      have sgn : ∀ t : Int, t = |n1| * d2 - |n2| * d1 → (n1 * d2 - n2 * d1) = n1.sign * t := by
        intro t ht
        have a1 : n1 = n1.sign * |n1| := (Int.sign_mul_abs n1).symm
        have a2 : n2 = n1.sign * |n2| := by rw [hs]; exact (Int.sign_mul_abs n2).symm
        rw [ht]
        calc n1 * d2 - n2 * d1 = (n1.sign * |n1|) * d2 - (n1.sign * |n2|) * d1 := by rw [← a1, ← a2]
          _ = _ := by ring
      have hssq : n1.sign.sign = n1.sign := Int.sign_sign
      split
      · rename_i hd
        have hlt := mul_highBit_lt n2.natAbs d1.natAbs n1.natAbs d2.natAbs (by omega) (by omega) (by omega)
          (by omega) (by omega)
        have hlt' : |n1| * d2 < |n2| * d1 := by
          rw [← absmul n1 d2 p2, ← absmul n2 d1 p1]; exact_mod_cast hlt
        rw [sgn _ rfl, Int.sign_mul, Int.sign_mul, hssq,
          Int.sign_eq_neg_one_of_neg (show |n1| * d2 - |n2| * d1 < 0 by omega)]
        rw [Int.sign_eq_neg_one_of_neg (by omega)]
        ring
      · split
        · rename_i _ hd
          have hlt := mul_highBit_lt n1.natAbs d2.natAbs n2.natAbs d1.natAbs (by omega) (by omega) (by omega)
            (by omega) (by omega)
          have hlt' : |n2| * d1 < |n1| * d2 := by
            rw [← absmul n1 d2 p2, ← absmul n2 d1 p1]; exact_mod_cast hlt
          rw [sgn _ rfl, Int.sign_mul, Int.sign_mul, hssq,
            Int.sign_eq_one_of_pos (show 0 < |n1| * d2 - |n2| * d1 by omega)]
          rw [Int.sign_eq_one_of_pos (by omega)]
          ring
        · rw [Int.sign_sign]
          congr 1
          ring

theorem compare_lt (n1 d1 n2 d2 : Int) (p1 : 0 < d1) (p2 : 0 < d2) :
    compare n1 d1 n2 d2 < 0 ↔ (n1 : ℚ) / d1 < (n2 : ℚ) / d2 := by
  have h1 : (0 : ℚ) < d1 := by exact_mod_cast p1
  have h2 : (0 : ℚ) < d2 := by exact_mod_cast p2
  rw [div_lt_div_iff₀ h1 h2, ← Int.sign_eq_neg_one_iff_neg, compare_sign n1 d1 n2 d2 p1 p2,
    Int.sign_eq_neg_one_iff_neg]
  constructor
  · intro h; have : n1 * d2 < n2 * d1 := by omega
    exact_mod_cast this
  · intro h; have : n1 * d2 < n2 * d1 := by exact_mod_cast h
    omega

theorem compare_le (n1 d1 n2 d2 : Int) (p1 : 0 < d1) (p2 : 0 < d2) :
    compare n1 d1 n2 d2 ≤ 0 ↔ (n1 : ℚ) / d1 ≤ (n2 : ℚ) / d2 := by
  have h1 : (0 : ℚ) < d1 := by exact_mod_cast p1
  have h2 : (0 : ℚ) < d2 := by exact_mod_cast p2
  rw [div_le_div_iff₀ h1 h2]
  have key : compare n1 d1 n2 d2 ≤ 0 ↔ n1 * d2 - n2 * d1 ≤ 0 := by
    rw [← not_lt, ← not_lt, ← Int.sign_eq_one_iff_pos, compare_sign n1 d1 n2 d2 p1 p2,
      Int.sign_eq_one_iff_pos]
  rw [key]
  constructor
  · intro h; have : n1 * d2 ≤ n2 * d1 := by omega
    exact_mod_cast this
  · intro h; have : n1 * d2 ≤ n2 * d1 := by exact_mod_cast h
    omega

theorem ltZero_spec (a : Number) (ha : Valid a) : ltZero a = true ↔ rat a < 0 := by
  cases a with
  | int z => simp [ltZero, rat]
  | frac n d =>
    simp only [ltZero, decide_eq_true_eq]
    rw [compare_lt n d 0 1 ha.1 (by omega)]
    simp [rat]

theorem leZero_spec (a : Number) (ha : Valid a) : leZero a = true ↔ rat a ≤ 0 := by
  cases a with
  | int z => simp [leZero, rat]
  | frac n d =>
    simp only [leZero, decide_eq_true_eq]
    rw [compare_le n d 0 1 ha.1 (by omega)]
    simp [rat]

/-- **`<` and `<=` order exact numbers as the rationals they stand for**, whatever
the classes and the sizes: the estimate from the number of bits never gives a
wrong answer. -/
theorem lt_spec (a b : Number) (ha : Valid a) (hb : Valid b) :
    ∃ r, lt a b = .ok r ∧ (r = true ↔ rat a < rat b) := by
  have mix : ∀ a b : Number, Valid a → Valid b → ∃ r, (match sub a b with
      | .error e => .error e
      | .ok r => .ok (ltZero r) : Except Err Bool) = .ok r ∧ (r = true ↔ rat a < rat b) := by
    intro a b ha hb
    obtain ⟨r, h1, h2, h3⟩ := sub_exact a b ha hb
    rw [h1]
    refine ⟨_, rfl, ?_⟩
    rw [ltZero_spec r h2, h3, sub_neg]
  cases a with
  | int x =>
    cases b with
    | int y => exact ⟨_, rfl, by simp [rat]⟩
    | frac n d => exact mix _ _ ha hb
  | frac m c =>
    cases b with
    | int y => exact mix _ _ ha hb
    | frac n d => exact ⟨_, rfl, by rw [decide_eq_true_eq]; exact compare_lt m c n d ha.1 hb.1⟩

theorem le_spec (a b : Number) (ha : Valid a) (hb : Valid b) :
    ∃ r, le a b = .ok r ∧ (r = true ↔ rat a ≤ rat b) := by
  have mix : ∀ a b : Number, Valid a → Valid b → ∃ r, (match sub a b with
      | .error e => .error e
      | .ok r => .ok (leZero r) : Except Err Bool) = .ok r ∧ (r = true ↔ rat a ≤ rat b) := by
    intro a b ha hb
    obtain ⟨r, h1, h2, h3⟩ := sub_exact a b ha hb
    rw [h1]
    refine ⟨_, rfl, ?_⟩
    rw [leZero_spec r h2, h3, sub_nonpos]
  cases a with
  | int x =>
    cases b with
    | int y => exact ⟨_, rfl, by simp [rat]⟩
    | frac n d => exact mix _ _ ha hb
  | frac m c =>
    cases b with
    | int y => exact mix _ _ ha hb
    | frac n d => exact ⟨_, rfl, by rw [decide_eq_true_eq]; exact compare_le m c n d ha.1 hb.1⟩

theorem frac_unique (n1 d1 n2 d2 : Int) (p1 : 0 < d1) (p2 : 0 < d2) (c1 : IsCoprime n1 d1)
    (c2 : IsCoprime n2 d2) (h : (n1 : ℚ) / d1 = (n2 : ℚ) / d2) : n1 = n2 ∧ d1 = d2 := by
  have h1 : (d1 : ℚ) ≠ 0 := by exact_mod_cast (by omega : d1 ≠ 0)
  have h2 : (d2 : ℚ) ≠ 0 := by exact_mod_cast (by omega : d2 ≠ 0)
  rw [div_eq_div_iff h1 h2] at h
  have h : n1 * d2 = n2 * d1 := by exact_mod_cast h
  have a : d1 ∣ d2 := by
    have : d1 ∣ n1 * d2 := by rw [h]; exact dvd_mul_left d1 n2
    exact c1.symm.dvd_of_dvd_mul_left this
  have b : d2 ∣ d1 := by
    have : d2 ∣ n2 * d1 := by rw [← h]; exact dvd_mul_left d2 n1
    exact c2.symm.dvd_of_dvd_mul_left this
  have hd := Int.dvd_antisymm (by omega) (by omega) a b
  subst hd
  exact ⟨mul_right_cancel₀ (by omega) h, rfl⟩

/-- **`=` holds exactly between equal rationals** — Integers, Fractions, and also
the Fractions of denominator 1 that some operations leave behind. -/
theorem eq_spec (a b : Number) (ha : Valid a) (hb : Valid b) : eq a b = true ↔ rat a = rat b := by
  have gen : (numer a == numer b && denom a == denom b) = true ↔ rat a = rat b := by
    obtain ⟨p1, c1, r1⟩ := valid_nd ha
    obtain ⟨p2, c2, r2⟩ := valid_nd hb
    rw [Bool.and_eq_true, beq_iff_eq, beq_iff_eq, r1, r2]
    constructor
    · rintro ⟨h1, h2⟩; rw [h1, h2]
    · intro h; exact frac_unique _ _ _ _ p1 p2 c1 c2 h
  cases a with
  | int x =>
    cases b with
    | int y => simp [eq, rat]
    | frac n d => exact gen
  | frac m c =>
    cases b with
    | int y => exact gen
    | frac n d => exact gen

example : lt (.frac 1 3) (.frac 1 2) = .ok true ∧ lt (.int 1) (.frac 1 2) = .ok false ∧
    eq (.frac (-1) 1) (.int (-1)) = true := by decide +kernel

/-- Fractions made by hand out of lowest terms are outside this: `=` tells 2/4
from 1/2 although neither is less than the other. -/
theorem eq_unreduced : mkFrac 2 4 = .ok (.frac 2 4) ∧ eq (.frac 2 4) (.frac 1 2) = false ∧
    lt (.frac 2 4) (.frac 1 2) = .ok false ∧ lt (.frac 1 2) (.frac 2 4) = .ok false := by
  decide +kernel

/-! ### Powers -/

/-- **Powers of Fractions are exact**, negative exponents included; zero to a
negative power is a division by zero, zero to the zeroth an error. -/
theorem raisedTo_exact (n d e : Int) (h : Valid (.frac n d)) (hz : n ≠ 0 ∨ 0 < e) :
    ∃ r, raisedTo n d e = .ok r ∧ Valid r ∧ rat r = rat (.frac n d) ^ e := by
  have hd := h.1
  have hc := Int.isCoprime_iff_gcd_eq_one.mpr h.2
  have pos : ∀ (n d : Int) (k : Nat), 0 < d → IsCoprime n d → (n ≠ 0 ∨ 0 < k) →
      ∃ r, raisedPos n d k = .ok r ∧ Valid r ∧ rat r = ((n : ℚ) / d) ^ k := by
    intro n d k hd hc hz
    rw [raisedPos, if_neg (by omega)]
    obtain ⟨r, h1, h2, h3, _⟩ := mkFrac_ok (n ^ k) (d ^ k) (pow_ne_zero k (by omega)) (hc.pow)
    exact ⟨r, h1, h2, by rw [h3]; push_cast; rw [div_pow]⟩
  unfold raisedTo
  by_cases he : e < 0
  · rw [if_pos he]
    have hn : n ≠ 0 := by omega
    obtain ⟨r, h1, h2, h3, _⟩ := mkFrac_ok d n hn hc.symm
    have hrec : reciprocal n d = .ok r := by rw [reciprocal, if_neg (by omega), h1]
    rw [hrec]
    cases r with
    | int z =>
      exfalso
      unfold mkFrac at h1
      rw [if_neg hn] at h1
      split at h1 <;> cases h1
    | frac n' d' =>
      have hn' : n' ≠ 0 := by
        rintro rfl
        simp only [rat] at h3
        have a : (d : ℚ) ≠ 0 := by exact_mod_cast (by omega : d ≠ 0)
        have b : (n : ℚ) ≠ 0 := by exact_mod_cast hn
        have := div_ne_zero a b
        apply this
        rw [← h3]; simp
      obtain ⟨s, g1, g2, g3⟩ := pos n' d' e.natAbs h2.1 (Int.isCoprime_iff_gcd_eq_one.mpr h2.2) (Or.inl hn')
      refine ⟨s, g1, g2, ?_⟩
      rw [g3]
      change rat (.frac n' d') ^ _ = _
      rw [h3]
      have : e = -((e.natAbs : Nat) : Int) := by omega
      conv_rhs => rw [this]
      rw [zpow_neg, zpow_natCast, ← inv_pow]
      congr 1
      simp [rat]
  · rw [if_neg he]
    obtain ⟨s, g1, g2, g3⟩ := pos n d e.natAbs hd hc (by omega)
    refine ⟨s, g1, g2, ?_⟩
    rw [g3]
    have : e = ((e.natAbs : Nat) : Int) := by omega
    conv_rhs => rw [this]
    rw [zpow_natCast]
    rfl

example : raisedTo 2 3 (-2) = .ok (.frac 9 4) := by decide +kernel

/-- `(1/2) reciprocal` and `(2/3) raisedTo: 0` leave Fractions of denominator 1. -/
theorem powers_not_canonical : reciprocal 1 2 = .ok (.frac 2 1) ∧ raisedTo 2 3 0 = .ok (.frac 1 1) := by
  decide +kernel

end Verif.Frac
