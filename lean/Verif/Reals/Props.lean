import Verif.Reals.Round

/-!
# Literals of Floats

What a literal means is in `meaning`: the digits as a number, times the base to the exponent.  The constant `(m, w)` is the Float
`m * 2 ^ w`.
-/

namespace Verif.Reals

theorem eta_bernoulli (k : ℕ) : 1 - (k : ℚ) / 2 ^ 151 ≤ eta ^ k := by
  have := one_add_mul_le_pow (a := -(1 / 2 ^ 151 : ℚ)) (by norm_num) k
  have e : (1 : ℚ) + -(1 / 2 ^ 151) = eta := by unfold eta; ring
  rw [e] at this
  calc 1 - (k : ℚ) / 2 ^ 151 = 1 + k * -(1 / 2 ^ 151) := by ring
    _ ≤ _ := this

/-- Before the roundings, a literal is right up to one part in `2 ^ 86`. -/
theorem literal_near {v x : ℚ} {K : ℕ} (hK : K ≤ 2 ^ 64) (hv : 0 < v) (h1 : x * eta ^ K ≤ v) (h2 : v * eta ^ K ≤ x) :
    |v - x| ≤ v / 2 ^ 86 := by
  have h3 := eta_bernoulli K
  have h4 : 1 - (1 : ℚ) / 2 ^ 87 ≤ eta ^ K := by
    refine le_trans ?_ h3
    have : (K : ℚ) ≤ 2 ^ 64 := by exact_mod_cast hK
    have h5 : (K : ℚ) / 2 ^ 151 ≤ 2 ^ 64 / 2 ^ 151 := div_le_div_of_nonneg_right this (by positivity)
    have h6 : (2 : ℚ) ^ 64 / 2 ^ 151 = 1 / 2 ^ 87 := by norm_num
    linarith
  generalize eta ^ K = t at *
  have hx : 0 < x := lt_of_lt_of_le (mul_pos hv (lt_of_lt_of_le (by norm_num) h4)) h2
  have a1 : x * (1 - 1 / 2 ^ 87) ≤ v := (mul_le_mul_of_nonneg_left h4 hx.le).trans h1
  have a2 : v * (1 - 1 / 2 ^ 87) ≤ x := (mul_le_mul_of_nonneg_left h4 hv.le).trans h2
  rw [abs_le]
  constructor
  · norm_num at *
    linarith
  · norm_num at *
    linarith

/-- The same in units of the last of the 160 bits. -/
theorem literal_units {r : Real} (h : Norm r) {x : ℚ} (hx : |value r - x| ≤ value r / 2 ^ 86) :
    |(val r.sig : ℚ) * 2 ^ (r.exp - 159) - x| ≤ 2 ^ 74 * 2 ^ (r.exp - 159) := by
  refine hx.trans ?_
  have hl : (val r.sig : ℚ) ≤ 2 ^ 160 := by
    have := h.ok.lt.le
    exact_mod_cast this
  unfold value
  have hu := unit_pos (r.exp - 159)
  generalize (2 : ℚ) ^ (r.exp - 159) = W at *
  have : (val r.sig : ℚ) * W / 2 ^ 86 = val r.sig / 2 ^ 86 * W := by ring
  rw [this]
  refine mul_le_mul_of_nonneg_right ?_ hu.le
  rw [div_le_iff₀ (by positivity)]
  calc (val r.sig : ℚ) ≤ 2 ^ 160 := hl
    _ = 2 ^ 74 * 2 ^ 86 := by norm_num

theorem getLd_zero : getLd zero = 0 := by decide +kernel

theorem rnd_zero (p : ℕ) : rnd p 0 = 0 := by
  rw [rnd_eq]
  have := ulp_pos p 0
  simp [this]

/-- The error of a literal, with the roundings. -/
theorem error_bound {r : Real} (h : Norm r) {x : ℚ} (hx : |value r - x| ≤ value r / 2 ^ 86) {p : ℕ} (hp : 1 ≤ p) (hp' : p ≤ 53) {k : ℤ}
    (hk : x < 2 ^ (k + 1)) : |(rnd p (getLd r) : ℚ) * 2 ^ (r.exp - 159) - x| ≤ (1 / 2 + 1 / 2048) * 2 ^ (k + 1 - p) := by
  obtain ⟨l1, l2, l3, _⟩ := ld_spec h hp (by omega)
  have hx' := literal_units h hx
  have hu := unit_pos (r.exp - 159)
  have hpp := h.pos
  -- to rational numbers
  have q1 : 2 * |(rnd p (getLd r) : ℚ) - getLd r| ≤ 2 ^ (160 - p) := by exact_mod_cast l1
  have q2 : |(rnd p (getLd r) : ℚ) - getLd r| ≤ |(2 : ℚ) ^ 159 - getLd r| := by exact_mod_cast l2
  have q3 : |(getLd r : ℚ) - val r.sig| ≤ 2 ^ 95 + 2 ^ 80 := by exact_mod_cast l3
  have tri : |(rnd p (getLd r) : ℚ) * 2 ^ (r.exp - 159) - x| ≤
      (|(rnd p (getLd r) : ℚ) - getLd r| + |(getLd r : ℚ) - val r.sig| + 2 ^ 74) * 2 ^ (r.exp - 159) := by
    have e : (rnd p (getLd r) : ℚ) * 2 ^ (r.exp - 159) - x = ((rnd p (getLd r) : ℚ) - getLd r) * 2 ^ (r.exp - 159) +
        ((getLd r : ℚ) - val r.sig) * 2 ^ (r.exp - 159) + ((val r.sig : ℚ) * 2 ^ (r.exp - 159) - x) := by ring
    rw [e]
    refine (abs_add_three _ _ _).trans ?_
    rw [abs_mul, abs_mul, abs_of_pos hu]
    linarith
  refine tri.trans ?_
  have hvx := abs_le.1 hx
  have hve : (2 : ℚ) ^ r.exp ≤ value r := by
    have e1 : (2 : ℚ) ^ 159 * 2 ^ (r.exp - 159) = 2 ^ r.exp := by
      rw [← zpow_natCast, ← zpow_add₀ (by norm_num), show ((159 : ℕ) : ℤ) + (r.exp - 159) = r.exp by push_cast; ring]
    rw [← e1]
    unfold value
    refine mul_le_mul_of_nonneg_right ?_ hu.le
    exact_mod_cast h.top
  have hW : (2 : ℚ) ^ (r.exp - 159) = 2 ^ r.exp / 2 ^ 159 := by
    rw [zpow_sub₀ (by norm_num)]
    norm_cast
  have hU : (2 : ℚ) ^ (k + 1 - p) = 2 ^ (k + 1) / 2 ^ p := by
    rw [zpow_sub₀ (by norm_num), zpow_natCast]
  rcases le_or_gt r.exp k with he | he
  · have hWk : (2 : ℚ) ^ (r.exp - 159) ≤ 2 ^ (k + 1) / 2 ^ 160 := by
      have : (2 : ℚ) ^ (k + 1) / 2 ^ 160 = 2 ^ (k - 159) := by
        rw [show k - 159 = k + 1 - ((160 : ℕ) : ℤ) by push_cast; ring, zpow_sub₀ (by norm_num), zpow_natCast]
      rw [this]
      exact zpow_le_zpow_right₀ (by norm_num) (by omega)
    have hb : |(rnd p (getLd r) : ℚ) - getLd r| + |(getLd r : ℚ) - val r.sig| + 2 ^ 74 ≤ (1 / 2 + 1 / 2048) * 2 ^ (160 - p) := by
      have h96 : (2 : ℚ) ^ 95 + 2 ^ 80 + 2 ^ 74 ≤ 1 / 2048 * 2 ^ (160 - p) := by
        have : (2 : ℚ) ^ 107 ≤ 2 ^ (160 - p) := pow_le_pow_right₀ (by norm_num) (by omega)
        have h2 : (2 : ℚ) ^ 95 + 2 ^ 80 + 2 ^ 74 ≤ 1 / 2048 * 2 ^ 107 := by norm_num
        linarith
      linarith
    calc _ ≤ (1 / 2 + 1 / 2048) * 2 ^ (160 - p) * (2 ^ (k + 1) / 2 ^ 160) :=
          mul_le_mul hb hWk hu.le (by positivity)
      _ = _ := by
        rw [hU]
        have : (2 : ℚ) ^ 160 = 2 ^ (160 - p) * 2 ^ p := by rw [← pow_add]; congr 1; omega
        rw [this]
        field_simp
  · -- the literal was just below a power of two
    have hlt : (2 : ℚ) ^ r.exp < 2 ^ (k + 2) := by
      have h1 : value r - value r / 2 ^ 86 ≤ x := by linarith [hvx.2]
      have h2 : (2 : ℚ) ^ (k + 2) = 2 * 2 ^ (k + 1) := by
        rw [show k + 2 = (k + 1) + 1 by ring, zpow_add_one₀ (by norm_num)]; ring
      rw [h2]
      norm_num at h1
      linarith
    have hek : r.exp = k + 1 := by
      have := (zpow_lt_zpow_iff_right₀ (by norm_num : (1 : ℚ) < 2)).1 hlt
      omega
    have hs : (val r.sig : ℚ) - 2 ^ 159 ≤ 2 ^ 74 := by
      have h1 : x < 2 ^ 159 * 2 ^ (r.exp - 159) := by
        rw [hW, mul_div_cancel₀ _ (by positivity), hek]
        exact hk
      have h2 := (abs_le.1 hx').2
      have h3 : ((val r.sig : ℚ) - 2 ^ 159) * 2 ^ (r.exp - 159) ≤ 2 ^ 74 * 2 ^ (r.exp - 159) := by linarith
      exact le_of_mul_le_mul_right h3 hu
    have hs0 : (2 : ℚ) ^ 159 ≤ val r.sig := by exact_mod_cast h.top
    have hd : |(2 : ℚ) ^ 159 - getLd r| ≤ 2 ^ 95 + 2 ^ 80 + 2 ^ 74 := by
      rw [abs_le] at q3 ⊢
      constructor <;> linarith [q3.1, q3.2, show (0 : ℚ) ≤ 2 ^ 74 by positivity]
    have hb : |(rnd p (getLd r) : ℚ) - getLd r| + |(getLd r : ℚ) - val r.sig| + 2 ^ 74 ≤ 2 ^ 97 := by
      have : (2 : ℚ) ^ 95 + 2 ^ 80 + 2 ^ 74 + (2 ^ 95 + 2 ^ 80) + 2 ^ 74 ≤ 2 ^ 97 := by norm_num
      linarith [q2.trans hd]
    calc _ ≤ (2 : ℚ) ^ 97 * 2 ^ (r.exp - 159) := mul_le_mul_of_nonneg_right hb hu.le
      _ = 2 ^ (k + 1) / 2 ^ 62 := by
        rw [hW, hek]
        have : (2 : ℚ) ^ 159 = 2 ^ 97 * 2 ^ 62 := by norm_num
        rw [this]
        field_simp
      _ ≤ 1 / 2 * (2 ^ (k + 1) / 2 ^ p) := by
        have h1 : (2 : ℚ) ^ (k + 1) / 2 ^ 62 ≤ 2 ^ (k + 1) / (2 * 2 ^ p) := by
          refine div_le_div_of_nonneg_left (by positivity) (by positivity) ?_
          rw [← pow_succ']
          exact pow_le_pow_right₀ (by norm_num) (by omega)
        calc _ ≤ _ := h1
          _ = _ := by field_simp
      _ ≤ _ := by
        rw [hU]
        have : (0 : ℚ) < 2 ^ (k + 1) / 2 ^ p := by positivity
        linarith

/-- **C175** (partial): the Float that a literal becomes is nearer than 0.5005 units of its last place to the number that was written.
Missing: it is not always the nearest one (`nearest_fails`), and numbers out of the range of Floats are not modelled. -/
theorem near_partial {p base : ℕ} {ints frac : List ℕ} {e k : ℤ} (hp : 1 ≤ p) (hp' : p ≤ 53) (hb : 2 ≤ base) (hb' : base ≤ 36)
    (hi : ∀ d ∈ ints, d < base) (hf : ∀ d ∈ frac, d < base) (hK : effort ints frac e ≤ 2 ^ 64) (hk : meaning base ints frac e < 2 ^ (k + 1)) :
    ∃ m w, constant p base ints frac e = some (m, w) ∧
      |(m : ℚ) * 2 ^ w - meaning base ints frac e| ≤ (1 / 2 + 1 / 2048) * 2 ^ (k + 1 - p) := by
  obtain ⟨q, h1, h2, h3⟩ := literal_spec hb hb' hi hf e
  unfold constant
  rw [h1]
  refine ⟨_, _, rfl, ?_⟩
  by_cases h0 : number base (ints ++ frac) = 0
  · rw [h2 h0, getLd_zero, rnd_zero]
    have : meaning base ints frac e = 0 := by unfold meaning; rw [h0]; simp
    rw [this]
    simp
    positivity
  · obtain ⟨n, a, b⟩ := h3 h0
    exact error_bound n (literal_near hK n.pos a b) hp hp' hk

/-- 3.14159 (to show that the hypotheses can be met). -/
example : ∃ m w, constant 53 10 [3] [1, 4, 1, 5, 9] 0 = some (m, w) ∧
    |(m : ℚ) * 2 ^ w - meaning 10 [3] [1, 4, 1, 5, 9] 0| ≤ (1 / 2 + 1 / 2048) * 2 ^ ((1 : ℤ) + 1 - (53 : ℕ)) :=
  near_partial (by norm_num) (by norm_num) (by norm_num) (by norm_num) (by simp) (by simp) (by decide) (by norm_num [meaning, number])

/-- **C175**, refuted: 9007199254740993.00001 is nearer to 9007199254740994, but becomes 9007199254740992: the `long double` in between is
a tie. -/
theorem nearest_fails : ∃ ints frac : List ℕ, ∃ m w, ∃ y : ℕ, constant 53 10 ints frac 0 = some (m, w) ∧ y < 2 ^ 53 ∧
    |((2 * y : ℕ) : ℚ) - meaning 10 ints frac 0| < |(m : ℚ) * 2 ^ w - meaning 10 ints frac 0| := by
  refine ⟨[9, 0, 0, 7, 1, 9, 9, 2, 5, 4, 7, 4, 0, 9, 9, 3], [0, 0, 0, 0, 1], 2 ^ 159, -106, 4503599627370497, by decide +kernel, by norm_num, ?_⟩
  have hm : meaning 10 [9, 0, 0, 7, 1, 9, 9, 2, 5, 4, 7, 4, 0, 9, 9, 3] [0, 0, 0, 0, 1] 0 = 900719925474099300001 / 100000 := by
    norm_num [meaning, number]
  rw [hm]
  have h2 : (((2 ^ 159 : ℕ) : ℚ)) * 2 ^ (-106 : ℤ) = 9007199254740992 := by norm_num
  rw [h2]
  norm_num [abs_of_pos, abs_of_neg]

theorem rnd_few {p k : ℕ} (hk0 : k ≠ 0) (hk : k < 2 ^ p) (j : ℕ) : rnd p (k * 2 ^ j) = k * 2 ^ j := by
  refine rnd_dvd ?_
  have hl : Nat.log2 (k * 2 ^ j) < p + j := by
    rw [Nat.log2_lt (Nat.mul_ne_zero hk0 (by positivity)), pow_add]
    exact Nat.mul_lt_mul_of_pos_right hk (by positivity)
  unfold ulp
  exact (pow_dvd_pow 2 (by omega)).trans (Nat.dvd_mul_left _ _)

/-- **C176**: a literal whose number is a Float (of at most 64 bits) becomes that Float, however it is written. -/
theorem exact {p base : ℕ} {ints frac : List ℕ} {e : ℤ} {k : ℕ} {w : ℤ} (hp' : p ≤ 64) (hb : 2 ≤ base) (hb' : base ≤ 36)
    (hi : ∀ d ∈ ints, d < base) (hf : ∀ d ∈ frac, d < base) (hK : effort ints frac e ≤ 2 ^ 64) (hk : k < 2 ^ p)
    (hx : meaning base ints frac e = k * 2 ^ w) : ∃ m v, constant p base ints frac e = some (m, v) ∧ (m : ℚ) * 2 ^ v = k * 2 ^ w := by
  obtain ⟨q, h1, h2, h3⟩ := literal_spec hb hb' hi hf e
  unfold constant
  rw [h1]
  refine ⟨_, _, rfl, ?_⟩
  by_cases h0 : number base (ints ++ frac) = 0
  · rw [h2 h0, getLd_zero, rnd_zero]
    have : meaning base ints frac e = 0 := by unfold meaning; rw [h0]; simp
    rw [← hx, this]
    simp
  obtain ⟨n, a, b⟩ := h3 h0
  have hnear := literal_near hK n.pos a b
  have hun := literal_units n hnear
  rw [hx] at hun
  have hu := unit_pos (q.exp - 159)
  have hk64 : k < 2 ^ 64 := lt_of_lt_of_le hk (Nat.pow_le_pow_right (by norm_num) hp')
  obtain ⟨z, z1, z2, z3, z4, z5, _⟩ := getLd_spec n
  -- the number in units of the last bit
  have hr : (k : ℚ) * 2 ^ w = k * 2 ^ (w - (q.exp - 159)) * 2 ^ (q.exp - 159) := by
    rw [mul_assoc, ← zpow_add₀ (by norm_num), sub_add_cancel]
  have hd : |(val q.sig : ℚ) - k * 2 ^ (w - (q.exp - 159))| ≤ 2 ^ 74 := by
    have e1 : (val q.sig : ℚ) * 2 ^ (q.exp - 159) - k * 2 ^ w = ((val q.sig : ℚ) - k * 2 ^ (w - (q.exp - 159))) * 2 ^ (q.exp - 159) := by
      rw [hr]; ring
    rw [e1, abs_mul, abs_of_pos hu] at hun
    exact le_of_mul_le_mul_right hun hu
  generalize hg : w - (q.exp - 159) = g at *
  have hsl : (2 : ℚ) ^ 159 ≤ val q.sig := by exact_mod_cast n.top
  have hd' := abs_le.1 hd
  have hg96 : 96 ≤ g := by
    by_contra hc
    have h4 : (2 : ℚ) ^ g ≤ 2 ^ (95 : ℤ) := zpow_le_zpow_right₀ (by norm_num) (by omega)
    have h5 : (2 : ℚ) ^ (95 : ℤ) = 2 ^ 95 := by norm_cast
    rw [h5] at h4
    have h6 : (k : ℚ) ≤ 2 ^ 64 - 1 := by
      have : k + 1 ≤ 2 ^ 64 := hk64
      have : ((k + 1 : ℕ) : ℚ) ≤ 2 ^ 64 := by exact_mod_cast this
      push_cast at this
      linarith
    have h7 : (k : ℚ) * 2 ^ g ≤ (2 ^ 64 - 1) * 2 ^ 95 := mul_le_mul h6 h4 (by positivity) (by norm_num)
    have h8 : ((2 : ℚ) ^ 64 - 1) * 2 ^ 95 < 2 ^ 159 - 2 ^ 74 := by norm_num
    linarith [hd'.2]
  obtain ⟨j, hj⟩ := Int.eq_ofNat_of_zero_le (show 0 ≤ g - 96 by omega)
  have hgj : g = ((j + 96 : ℕ) : ℤ) := by push_cast; omega
  rw [hgj, zpow_natCast] at hd
  have hnat : val q.sig ≤ k * 2 ^ (j + 96) + 2 ^ 74 ∧ k * 2 ^ (j + 96) ≤ val q.sig + 2 ^ 74 := by
    rw [abs_le] at hd
    constructor
    · have : (val q.sig : ℚ) ≤ k * 2 ^ (j + 96) + 2 ^ 74 := by linarith [hd.2]
      exact_mod_cast this
    · have : (k : ℚ) * 2 ^ (j + 96) ≤ val q.sig + 2 ^ 74 := by linarith [hd.1]
      exact_mod_cast this
  have hX : z = k * 2 ^ j := by
    rw [pow_add, ← mul_assoc] at hnat
    generalize k * 2 ^ j = X at *
    generalize val q.sig = s at *
    simp only [Nat.reducePow] at *
    omega
  have hM : getLd q = k * 2 ^ (j + 96) := by rw [z3, hX, pow_add, ← mul_assoc]
  have hk0 : k ≠ 0 := by
    intro h
    rw [hX, h, zero_mul] at z1
    exact absurd z1 (by norm_num)
  have hrnd : rnd p (getLd q) = k * 2 ^ (j + 96) := by rw [hM]; exact rnd_few hk0 hk _
  rw [hrnd, hr, hgj, zpow_natCast]
  push_cast
  rfl

/-- 0.5 with 30 zeros is one half. -/
example : ∃ m v, constant 53 10 [0] ([5] ++ List.replicate 30 0) 0 = some (m, v) ∧ (m : ℚ) * 2 ^ v = (1 : ℕ) * 2 ^ (-1 : ℤ) :=
  exact (by norm_num) (by norm_num) (by norm_num) (by simp) (by decide) (by decide) (by norm_num)
    (by norm_num [meaning, number, List.replicate])

/-- **C177** (partial): exponents below `2 ^ 31` are as they were written. -/
theorem exponent_partial (p base : ℕ) (ints frac : List ℕ) (negative : Bool) {n : ℕ} (hn : n < 2 ^ 31) :
    written p base ints frac negative n = constant p base ints frac (if negative then -(n : ℤ) else n) := by
  have : intOf n = n := by
    unfold intOf
    rw [Nat.mod_eq_of_lt (by omega), if_pos hn]
  unfold written
  rw [this]

example : written 53 10 [1] [] true 3 = constant 53 10 [1] [] (-3) := exponent_partial 53 10 [1] [] true (by norm_num)

/-- **C177**, refuted: 1e4294967296 is 1, and 1e4294967295 is 0.1. -/
theorem exponent_wraps : (∃ m w, written 53 10 [1] [] false 4294967296 = some (m, w) ∧ (m : ℚ) * 2 ^ w = 1) ∧
    written 53 10 [1] [] false 4294967295 = constant 53 10 [1] [] (-1) := by
  refine ⟨⟨2 ^ 159, -159, by decide +kernel, by norm_num⟩, ?_⟩
  unfold written
  congr 1

end Verif.Reals
