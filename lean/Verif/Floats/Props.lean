import Verif.Floats.Text
import Mathlib.Tactic.Ring
import Mathlib.Data.Nat.Prime.Basic

/-!
# Properties of printing and reading Floats

The specification uses only the number that a Float stands for (`m * 2 ^ q`), powers of two and ten, and `num`, the number that
a list of digits stands for.
-/

namespace Verif.Floats

/-- `2 ^ u` is the unit in the last place of `x`, for Floats of `p` bits. -/
def IsUnit (p : ℕ) (x : ℚ) (u : ℤ) : Prop := (2 : ℚ) ^ (u + p - 1) ≤ x ∧ x < (2 : ℚ) ^ (u + p)

/-- No exponent is printed, or the letter of the exponent is one that is read back. -/
def Plain (letter : Char) (p : ℕ) (x : ℚ) : Prop :=
  letter.toUpper = 'E' ∧ digitValue letter = none ∨ (2 : ℚ) ^ (-(p : ℤ)) ≤ x ∧ x < (2 : ℚ) ^ ((p : ℤ) + 1)

theorem exponent_spec {f : Flt} (hm : 0 < f.m) : (2 : ℚ) ^ f.exponent ≤ f.val ∧ f.val < (2 : ℚ) ^ (f.exponent + 1) := by
  unfold Flt.exponent Flt.val
  have h3 : (0 : ℚ) < (2 : ℚ) ^ f.q := zpow_pos (by norm_num) _
  have h1 : (2 : ℚ) ^ Nat.log2 f.m ≤ f.m := by exact_mod_cast Nat.log2_self_le (by omega)
  have h2 : (f.m : ℚ) < (2 : ℚ) ^ (Nat.log2 f.m + 1) := by exact_mod_cast Nat.lt_log2_self
  constructor
  · rw [add_comm, zpow_add₀ (by norm_num), zpow_natCast]
    gcongr
  · rw [show f.q + (Nat.log2 f.m : ℤ) + 1 = ((Nat.log2 f.m + 1 : ℕ) : ℤ) + f.q by push_cast; ring, zpow_add₀ (by norm_num), zpow_natCast]
    gcongr

theorem exponent_unique {x : ℚ} {a b : ℤ} (h1 : (2 : ℚ) ^ a ≤ x) (h2 : x < (2 : ℚ) ^ (b + 1)) : a ≤ b := by
  have : (2 : ℚ) ^ a < (2 : ℚ) ^ (b + 1) := lt_of_le_of_lt h1 h2
  have := (zpow_lt_zpow_iff_right₀ (by norm_num : (1 : ℚ) < 2)).mp this
  omega

theorem eps_unit {f : Flt} {p : ℕ} {u : ℤ} (hm : 0 < f.m) (hu : IsUnit p f.val u) : f.eps p = (2 : ℚ) ^ u := by
  obtain ⟨e1, e2⟩ := exponent_spec hm
  obtain ⟨u1, u2⟩ := hu
  have a := exponent_unique e1 (show f.val < (2 : ℚ) ^ ((u + p - 1) + 1) by rwa [sub_add_cancel])
  have b := exponent_unique u1 e2
  unfold Flt.eps
  congr 1
  omega

theorem plain_exponent {f : Flt} {p : ℕ} (hm : 0 < f.m) (h : (2 : ℚ) ^ (-(p : ℤ)) ≤ f.val ∧ f.val < (2 : ℚ) ^ ((p : ℤ) + 1)) :
    decide (|f.exponent| > p) = false := by
  obtain ⟨e1, e2⟩ := exponent_spec hm
  have a := exponent_unique e1 h.2
  have b := exponent_unique h.1 e2
  rw [decide_eq_false_iff_not, not_lt, abs_le]
  exact ⟨b, a⟩

/-- Reading what was laid out. -/
theorem read_print {f : Flt} {p : ℕ} {letter : Char} (negative : Bool) (hm : 0 < f.m) (hl : Plain letter p f.val) {d : ℕ} {e : ℤ} (hd : 0 < d)
    (he : f.val < 1 ∨ 1 ≤ e) :
    readFrom (signText negative ++ layout letter (decide (f.val < 1)) (decide (|f.exponent| > p)) d e) = (sign negative * shown d e, true) := by
  have hplain : readFrom (signText negative ++ layout letter (decide (f.val < 1)) false d e) = (sign negative * shown d e, true) :=
    read_plain negative _ letter d e hd (by rcases he with h | h; exact Or.inl (by simpa using h); exact Or.inr h)
  rcases hl with ⟨h1, h2⟩ | h
  · cases hx : decide (|f.exponent| > p) with
    | false => exact hplain
    | true => rw [read_exponential negative _ letter h2 d e hd, if_pos h1]
  · rw [plain_exponent hm h]
    exact hplain

/-- Everything at once. -/
theorem printed {f : Flt} {p : ℕ} {letter : Char} (negative : Bool) (hm : 0 < f.m) (hp : 1 ≤ p) (hl : Plain letter p f.val) :
    ∃ (N : ℕ) (text : List Char) (v : ℚ), (∀ n, N ≤ n → printString letter p n negative f = some text) ∧ |v - f.val| < f.eps p ∧
      (readFrom text = (sign negative * v, true) ∨
        (f.val < v ∧ (∃ k : ℤ, v = (10 : ℚ) ^ k) ∧ readFrom text = (sign negative * (v / 10), true))) ∧
      ∀ (i : ℕ) (V : ℤ), 1 ≤ i → 4 * f.eps p ≤ wt (floorLog f.val + 1) i →
        |V * wt (floorLog f.val + 1) i - f.val| < half (f.eps p) / 2 → v = V * wt (floorLog f.val + 1) i := by
  obtain ⟨N, d, e, v, h1, h2, h3, h4, h5, h6⟩ := digits_near (f := f) hm hp
  have hr := read_print negative hm hl h2 h4
  refine ⟨N, signText negative ++ layout letter (decide (f.val < 1)) (decide (|f.exponent| > p)) d e, v, fun n hn => ?_, h3, ?_, h6⟩
  · unfold printString
    rw [h1 n hn]
    rfl
  · rw [hr]
    rcases h5 with h | ⟨a, b, c⟩
    · exact Or.inl (by rw [h])
    · exact Or.inr ⟨a, b, by rw [c]⟩

/-- C154: a Float prints, and what is printed is less than a unit in the last place away.  Partial: the point may have slipped
(`printed_tenth`). -/
theorem printed_near_partial {f : Flt} {p : ℕ} {u : ℤ} {letter : Char} (negative : Bool) (hm : 0 < f.m) (hp : 1 ≤ p) (hu : IsUnit p f.val u)
    (hl : Plain letter p f.val) :
    ∃ (N : ℕ) (text : List Char) (v : ℚ), (∀ n, N ≤ n → printString letter p n negative f = some text) ∧ |v - f.val| < (2 : ℚ) ^ u ∧
      (readFrom text = (sign negative * v, true) ∨
        (f.val < v ∧ (∃ k : ℤ, v = (10 : ℚ) ^ k) ∧ readFrom text = (sign negative * (v / 10), true))) := by
  obtain ⟨N, text, v, h1, h2, h3, _⟩ := printed negative hm hp hl
  rw [eps_unit hm hu] at h2
  exact ⟨N, text, v, h1, h2, h3⟩

/-- The Float nearest to a ten thousandth, of 24 bits, prints as a hundred thousandth; and so for other powers. -/
theorem printed_tenth :
    |(⟨13743895, -37⟩ : Flt).val - 1 / 10 ^ 4| < 1 / 2 ^ 38 ∧
    printString 'e' 24 100 false ⟨13743895, -37⟩ = some "0.00001".toList ∧
    readFrom "0.00001".toList = (1 / 10 ^ 5, true) := by
  refine ⟨by decide +kernel, by decide +kernel, by decide +kernel⟩

/-- C155: a Float that is a decimal number with steps of four units or more prints as this number: so for Integers below a
quarter of `2 ^ p`. -/
theorem exact_prints {f : Flt} {p : ℕ} {u : ℤ} {letter : Char} (negative : Bool) (hm : 0 < f.m) (hp : 1 ≤ p) (hu : IsUnit p f.val u)
    (hl : Plain letter p f.val) {D : ℕ} {j : ℤ} (hv : f.val = D * (10 : ℚ) ^ j) (hj : 4 * (2 : ℚ) ^ u ≤ (10 : ℚ) ^ j) :
    ∃ (N : ℕ) (text : List Char), (∀ n, N ≤ n → printString letter p n negative f = some text) ∧
      readFrom text = (sign negative * f.val, true) := by
  obtain ⟨N, text, v, h1, h2, h3, h4⟩ := printed negative hm hp hl
  have hx := Flt.val_pos hm
  obtain ⟨l1, l2⟩ := floorLog_spec hx
  have hD : (1 : ℚ) ≤ D := by
    have : D ≠ 0 := by rintro rfl; rw [hv] at hx; simp at hx
    exact_mod_cast Nat.one_le_iff_ne_zero.mpr this
  have hjp : (0 : ℚ) < (10 : ℚ) ^ j := zpow_pos (by norm_num) _
  have hjE : j < floorLog f.val + 1 := by
    have : (10 : ℚ) ^ j < (10 : ℚ) ^ (floorLog f.val + 1) := by
      refine lt_of_le_of_lt ?_ l2
      rw [hv]
      nlinarith
    exact (zpow_lt_zpow_iff_right₀ (by norm_num : (1 : ℚ) < 10)).mp this
  obtain ⟨i, hi⟩ : ∃ i : ℕ, floorLog f.val + 1 - i = j := ⟨(floorLog f.val + 1 - j).toNat, by omega⟩
  have hw : wt (floorLog f.val + 1) i = (10 : ℚ) ^ j := by rw [wt, hi]
  have he := f.eps_pos p
  have hh : 0 < half (f.eps p) := by unfold half; split <;> linarith
  have hvx : v = f.val := by
    have := h4 i D (by omega) (by rw [hw, eps_unit hm hu]; exact hj) (by
      rw [hw, hv]; push_cast; simpa using hh)
    rw [this, hw, hv]
    push_cast
    rfl
  refine ⟨N, text, h1, ?_⟩
  rcases h3 with h | ⟨h, _⟩
  · rw [h, hvx]
  · rw [hvx] at h
    exact absurd h (lt_irrefl _)

/-- An odd multiple of half a unit is no decimal number of few digits. -/
theorem no_tie {D M : ℕ} {j : ℤ} {r : ℕ} (hD : 0 < D) (hM : M % 2 = 1) (hDM : D < M) (h : (D : ℚ) * (10 : ℚ) ^ j = M * (2 : ℚ) ^ (-((r + 1 : ℕ) : ℤ))) :
    False := by
  have h2 : (2 : ℚ) ^ (-((r + 1 : ℕ) : ℤ)) * 2 ^ (r + 1) = 1 := by
    rw [zpow_neg, zpow_natCast, inv_mul_cancel₀ (by positivity)]
  rcases Int.le_total 0 j with hj | hj
  · obtain ⟨a, rfl⟩ := Int.eq_ofNat_of_zero_le hj
    have h3 : (D : ℚ) * 10 ^ a * 2 ^ (r + 1) = M := by
      rw [← zpow_natCast (10 : ℚ) a]
      rw [h, mul_assoc, h2, mul_one]
    have h4 : D * 10 ^ a * 2 ^ (r + 1) = M := by exact_mod_cast h3
    rw [← h4, pow_succ, ← mul_assoc] at hM
    omega
  · obtain ⟨a, ha⟩ := Int.eq_ofNat_of_zero_le (show 0 ≤ -j by omega)
    have h3 : (D : ℚ) * 2 ^ (r + 1) = M * 10 ^ a := by
      have h5 : (10 : ℚ) ^ j * 10 ^ a = 1 := by
        rw [show j = -(a : ℤ) by omega, zpow_neg, zpow_natCast, inv_mul_cancel₀ (by positivity)]
      calc (D : ℚ) * 2 ^ (r + 1) = D * ((10 : ℚ) ^ j * 10 ^ a) * 2 ^ (r + 1) := by rw [h5, mul_one]
        _ = (D * (10 : ℚ) ^ j) * 10 ^ a * 2 ^ (r + 1) := by ring
        _ = M * 10 ^ a * ((2 : ℚ) ^ (-((r + 1 : ℕ) : ℤ)) * 2 ^ (r + 1)) := by rw [h]; ring
        _ = M * 10 ^ a := by rw [h2, mul_one]
    have h4 : D * 2 ^ (r + 1) = M * 10 ^ a := by exact_mod_cast h3
    have hc : Nat.Coprime M (2 ^ (r + 1)) := Nat.Coprime.pow_right _ (by
      rw [Nat.coprime_comm, (Nat.Prime.coprime_iff_not_dvd Nat.prime_two)]; omega)
    have hdvd : M ∣ D := hc.dvd_of_dvd_mul_right (Dvd.intro _ h4.symm)
    have := Nat.le_of_dvd hD hdvd
    omega

/-- C156: a decimal number of at most `c` digits that was rounded to the nearest Float prints as this number, if it is less than
`2 ^ p`.  Partial: it is read as a tenth of it when it is a power of ten and the point has slipped; greater numbers do not print
back (`big_decimal_differs`). -/
theorem decimal_prints_partial {p c : ℕ} (hc : 1 ≤ c) (hpc : 4 * 10 ^ c ≤ 2 ^ (p - 1)) {m : ℕ} {q : ℤ} (hm1 : 2 ^ (p - 1) ≤ m) (hm2 : m < 2 ^ p)
    (hq : q ≤ 0) {letter : Char} (negative : Bool) (hl : Plain letter p (m * (2 : ℚ) ^ q)) {D : ℕ} {j : ℤ} (hD : D < 10 ^ c)
    (hnear : |D * (10 : ℚ) ^ j - m * (2 : ℚ) ^ q| ≤ (2 : ℚ) ^ q / 2) :
    ∃ (N : ℕ) (text : List Char), (∀ n, N ≤ n → printString letter p n negative ⟨m, q⟩ = some text) ∧
      (readFrom text = (sign negative * (D * (10 : ℚ) ^ j), true) ∨
        m * (2 : ℚ) ^ q < D * (10 : ℚ) ^ j ∧ (∃ k : ℤ, D * (10 : ℚ) ^ j = (10 : ℚ) ^ k) ∧ readFrom text = (sign negative * (D * (10 : ℚ) ^ j / 10), true)) := by
  have hp : 1 ≤ p := by
    by_contra h
    have h0 : p - 1 = 0 := by omega
    rw [h0] at hpc
    have : 0 < 10 ^ c := by positivity
    omega
  have hm : 0 < m := lt_of_lt_of_le (by positivity) hm1
  obtain ⟨N, text, v, h1, h2, h3, h4⟩ := printed (f := ⟨m, q⟩) negative hm hp hl
  have hqp : (0 : ℚ) < (2 : ℚ) ^ q := zpow_pos (by norm_num) _
  have hval : (⟨m, q⟩ : Flt).val = m * (2 : ℚ) ^ q := rfl
  have hu : IsUnit p (⟨m, q⟩ : Flt).val q := by
    have a1 : (2 : ℚ) ^ (p - 1) ≤ m := by exact_mod_cast hm1
    have a2 : (m : ℚ) < (2 : ℚ) ^ p := by exact_mod_cast hm2
    rw [hval]
    constructor
    · rw [show q + p - 1 = ((p - 1 : ℕ) : ℤ) + q by omega, zpow_add₀ (by norm_num), zpow_natCast]
      gcongr
    · rw [show q + p = (p : ℤ) + q by omega, zpow_add₀ (by norm_num), zpow_natCast]
      gcongr
  have heps := eps_unit (f := ⟨m, q⟩) hm hu
  have hx := Flt.val_pos (f := ⟨m, q⟩) hm
  obtain ⟨l1, l2⟩ := floorLog_spec hx
  rw [heps] at h4
  generalize hE : floorLog (⟨m, q⟩ : Flt).val = E at *
  rw [hval] at *
  generalize hx' : (m : ℚ) * (2 : ℚ) ^ q = x at *
  generalize hy : (2 : ℚ) ^ q = y at *
  have hmx : (4 * 10 ^ c : ℚ) * y ≤ x := by
    have : (4 * 10 ^ c : ℚ) ≤ m := by exact_mod_cast le_trans hpc hm1
    rw [← hx']
    gcongr
  have hc10 : (10 : ℚ) ≤ 10 ^ c := by
    calc (10 : ℚ) = 10 ^ 1 := by norm_num
      _ ≤ 10 ^ c := pow_le_pow_right₀ (by norm_num) hc
  obtain ⟨n1, n2⟩ := abs_le.mp hnear
  have hjp : (0 : ℚ) < (10 : ℚ) ^ j := zpow_pos (by norm_num) _
  have hD0 : 0 < D := by
    rcases Nat.eq_zero_or_pos D with h | h
    · exfalso
      rw [h] at n1
      simp at n1
      nlinarith
    · exact h
  have hD1 : (1 : ℚ) ≤ D := by exact_mod_cast hD0
  -- the distance is less than half of the bound
  have hstrict : |D * (10 : ℚ) ^ j - x| < half y / 2 := by
    have hcm : 10 ^ c < m := by
      have : 0 < 10 ^ c := by positivity
      omega
    rcases Int.lt_or_eq_of_le hq with hq | hq
    · have hy1 : y < 1 := by
        rw [← hy]
        calc (2 : ℚ) ^ q < (2 : ℚ) ^ (0 : ℤ) := zpow_lt_zpow_right₀ (by norm_num) hq
          _ = 1 := zpow_zero _
      have hden : y.den ≠ 1 := by
        intro h
        have h5 := Rat.den_eq_one_iff y |>.mp h
        have h6 : 0 < y.num := Rat.num_pos.mpr hqp
        have h7 : (1 : ℚ) ≤ y.num := by exact_mod_cast h6
        linarith
      rw [half, if_neg hden]
      rcases lt_or_eq_of_le hnear with h | h
      · exact h
      · exfalso
        obtain ⟨r, hr⟩ : ∃ r : ℕ, q - 1 = -((r + 1 : ℕ) : ℤ) := ⟨(-q).toNat, by push_cast; omega⟩
        have hhalf : (2 : ℚ) ^ (-((r + 1 : ℕ) : ℤ)) = y / 2 := by
          rw [← hr, zpow_sub₀ (by norm_num), zpow_one, hy]
        rcases abs_eq (by linarith : (0 : ℚ) ≤ y / 2) |>.mp h with h | h
        · refine no_tie (M := 2 * m + 1) (r := r) (j := j) hD0 (by omega) (by omega) ?_
          rw [hhalf]
          push_cast
          linarith
        · refine no_tie (M := 2 * m - 1) (r := r) (j := j) hD0 (by omega) (by omega) ?_
          rw [hhalf]
          push_cast [Nat.cast_sub (show 1 ≤ 2 * m by omega)]
          linarith
    · have hy1 : y = 1 := by rw [← hy, hq, zpow_zero]
      have hxm : x = m := by rw [← hx', hy1, mul_one]
      have hj0 : 0 ≤ j := by
        by_contra hc'
        have : (10 : ℚ) ^ j ≤ 1 := by
          calc (10 : ℚ) ^ j ≤ (10 : ℚ) ^ (0 : ℤ) := zpow_le_zpow_right₀ (by norm_num) (by omega)
            _ = 1 := zpow_zero _
        have hDc : (D : ℚ) + 1 ≤ m := by
          have : D + 1 ≤ m := by omega
          exact_mod_cast this
        have : (D : ℚ) * (10 : ℚ) ^ j ≤ D := by nlinarith
        rw [hy1, hxm] at n1
        linarith
      obtain ⟨a, rfl⟩ := Int.eq_ofNat_of_zero_le hj0
      rw [zpow_natCast] at n1 n2 ⊢
      have hz : ((D : ℤ) * 10 ^ a - m : ℤ) = 0 := by
        rw [hy1, hxm] at n1 n2
        have b1 : ((-1 : ℤ) : ℚ) < (((D : ℤ) * 10 ^ a - m : ℤ) : ℚ) := by push_cast; linarith
        have b2 : (((D : ℤ) * 10 ^ a - m : ℤ) : ℚ) < ((1 : ℤ) : ℚ) := by push_cast; linarith
        have b1 := Int.cast_lt.mp b1
        have b2 := Int.cast_lt.mp b2
        omega
      have hz' : (D : ℚ) * 10 ^ a - x = 0 := by rw [hxm]; exact_mod_cast hz
      rw [hz', abs_zero]
      unfold half
      split <;> linarith
  have hvD : v = D * (10 : ℚ) ^ j := by
    rcases lt_or_ge j (E + 1) with hj | hj
    · obtain ⟨i, hi⟩ : ∃ i : ℕ, E + 1 - i = j := ⟨(E + 1 - j).toNat, by omega⟩
      have hw : wt (E + 1) i = (10 : ℚ) ^ j := by rw [wt, hi]
      have := h4 i D (by omega) (by
        rw [hw]
        have hD2 : (D : ℚ) ≤ 10 ^ c - 1 := by
          have : D + 1 ≤ 10 ^ c := hD
          have : ((D + 1 : ℕ) : ℚ) ≤ ((10 ^ c : ℕ) : ℚ) := by exact_mod_cast this
          push_cast at this
          linarith
        by_contra hcon
        rw [not_le] at hcon
        have : D * (10 : ℚ) ^ j ≤ (10 ^ c - 1) * (4 * y) := by
          apply mul_le_mul hD2 hcon.le hjp.le (by linarith)
        linarith) (by rw [hw]; exact_mod_cast hstrict)
      rw [this, hw]
      push_cast
      rfl
    · obtain ⟨b, hb⟩ : ∃ b : ℕ, j = E + b := ⟨(j - E).toNat, by omega⟩
      have hw : wt (E + 1) 1 = (10 : ℚ) ^ E := by rw [wt]; congr 1; omega
      have hVe : ((D * 10 ^ b : ℤ) : ℚ) * wt (E + 1) 1 = D * (10 : ℚ) ^ j := by
        rw [hw, hb, zpow_add₀ (by norm_num), zpow_natCast]
        push_cast
        ring
      have := h4 1 (D * 10 ^ b) (by omega) (by
        rw [hw]
        rw [zpow_add₀ (by norm_num), zpow_one] at l2
        nlinarith) (by rw [hVe]; exact hstrict)
      rw [this, hVe]
  refine ⟨N, text, h1, ?_⟩
  have hvx : (⟨m, q⟩ : Flt).val = x := by
    show (m : ℚ) * (2 : ℚ) ^ q = x
    rw [hy]
    exact hx'
  rw [← hvD]
  rw [hvx] at h3
  rcases h3 with h | h
  · exact Or.inl h
  · exact Or.inr h

theorem loop_more {eps : ℚ} (n : ℕ) : ∀ {s t : St} (k : ℕ), loop eps n s = some t → loop eps (n + k) s = some t := by
  induction n with
  | zero => intro s t k h; exact absurd h (by simp [loop])
  | succ n ih =>
    intro s t k h
    rw [show n + 1 + k = (n + k) + 1 by omega, loop]
    rw [loop] at h
    split
    · rename_i hc
      rw [if_pos hc] at h
      exact ih k h
    · rename_i hc
      rw [if_neg hc] at h
      exact h

theorem print_more {letter : Char} {p n : ℕ} {negative : Bool} {f : Flt} {text : List Char} (k : ℕ)
    (h : printString letter p n negative f = some text) : printString letter p (n + k) negative f = some text := by
  unfold printString Flt.digits at h ⊢
  dsimp only at h ⊢
  rw [Option.map_map, Option.map_eq_some_iff] at h ⊢
  obtain ⟨s, h1, h2⟩ := h
  exact ⟨s, loop_more n k h1, h2⟩

/-- The Float of 53 bits nearest to `10 ^ -a` with unit `2 ^ -r`. -/
def tenth (a r : ℕ) : ℕ := (2 ^ (r + 1) + 10 ^ a) / (2 * 10 ^ a)

def tenthOk (letter : Char) (p a r : ℕ) : Bool :=
  (decide (tenth a r < 2 ^ (p - 1)) || decide (2 ^ p ≤ tenth a r)) || [false, true].all fun negative =>
    match printString letter p 100 negative ⟨tenth a r, -r⟩ with
    | some text => readFrom text = (sign negative * (1 / 10 ^ a), true)
    | none => false

set_option maxRecDepth 100000 in
theorem tenths : ∀ a < 16, ∀ r < 104, tenthOk 'd' 53 a r = true := by decide +kernel

/-- C156, for `FloatD`: decimal numbers of at most 15 digits print back, when they print without exponent. -/
theorem floatD_decimal_prints {m : ℕ} {q : ℤ} (hm1 : 2 ^ 52 ≤ m) (hm2 : m < 2 ^ 53) (hx1 : (2 : ℚ) ^ (-53 : ℤ) ≤ m * (2 : ℚ) ^ q) (hq : q ≤ 0)
    (negative : Bool) {D : ℕ} {j : ℤ} (hD : D < 10 ^ 15) (hnear : |D * (10 : ℚ) ^ j - m * (2 : ℚ) ^ q| ≤ (2 : ℚ) ^ q / 2) :
    ∃ (N : ℕ) (text : List Char), (∀ n, N ≤ n → printString 'd' 53 n negative ⟨m, q⟩ = some text) ∧
      readFrom text = (sign negative * (D * (10 : ℚ) ^ j), true) := by
  have hqp : (0 : ℚ) < (2 : ℚ) ^ q := zpow_pos (by norm_num) _
  have hq1 : (2 : ℚ) ^ q ≤ 1 := by
    calc (2 : ℚ) ^ q ≤ (2 : ℚ) ^ (0 : ℤ) := zpow_le_zpow_right₀ (by norm_num) hq
      _ = 1 := zpow_zero _
  have hm2' : (m : ℚ) < 2 ^ 53 := by exact_mod_cast hm2
  have hm1' : (2 : ℚ) ^ 52 ≤ m := by exact_mod_cast hm1
  have hx2 : (m : ℚ) * (2 : ℚ) ^ q < (2 : ℚ) ^ (((53 : ℕ) : ℤ) + 1) := by
    rw [show ((53 : ℕ) : ℤ) + 1 = ((54 : ℕ) : ℤ) by norm_num, zpow_natCast]
    nlinarith
  obtain ⟨N, text, h1, h2⟩ := decimal_prints_partial (p := 53) (c := 15) (by norm_num) (by norm_num) hm1 hm2 hq (letter := 'd') negative
    (Or.inr ⟨by exact_mod_cast hx1, hx2⟩) hD hnear
  rcases h2 with h2 | ⟨hlt, ⟨k, hk⟩, h3⟩
  · exact ⟨N, text, h1, h2⟩
  · exfalso
    rw [hk] at hlt hnear h3
    obtain ⟨r, hr⟩ : ∃ r : ℕ, q = -(r : ℤ) := ⟨(-q).toNat, by omega⟩
    have h2r : (2 : ℚ) ^ q * 2 ^ r = 1 := by rw [hr, zpow_neg, zpow_natCast, inv_mul_cancel₀ (by positivity)]
    have hrp : (0 : ℚ) < 2 ^ r := by positivity
    obtain ⟨n1, n2⟩ := abs_le.mp hnear
    rcases Int.le_total 0 k with hk0 | hk0
    · obtain ⟨b, rfl⟩ := Int.eq_ofNat_of_zero_le hk0
      rw [zpow_natCast] at hlt n2
      have c1 : (m : ℚ) < 10 ^ b * 2 ^ r := by nlinarith
      have c2 : (10 ^ b * 2 ^ r : ℚ) < m + 1 := by nlinarith
      have c1' : m < 10 ^ b * 2 ^ r := by exact_mod_cast c1
      have c2' : 10 ^ b * 2 ^ r < m + 1 := by exact_mod_cast c2
      omega
    · obtain ⟨a, ha⟩ := Int.eq_ofNat_of_zero_le (show 0 ≤ -k by omega)
      have hka : k = -(a : ℤ) := by omega
      have h10 : (10 : ℚ) ^ k * 10 ^ a = 1 := by rw [hka, zpow_neg, zpow_natCast, inv_mul_cancel₀ (by positivity)]
      have hap : (0 : ℚ) < 10 ^ a := by positivity
      have ha16 : a < 16 := by
        by_contra hc
        have e1 : (10 : ℚ) ^ k ≤ (10 : ℚ) ^ (-16 : ℤ) := zpow_le_zpow_right₀ (by norm_num) (by omega)
        have e2 : (10 : ℚ) ^ (-16 : ℤ) < (2 : ℚ) ^ (-53 : ℤ) := by norm_num
        linarith
      have ha0 : a ≠ 0 := by
        rintro rfl
        have hk1 : (10 : ℚ) ^ k = 1 := by rw [hka]; simp
        rw [hk1] at hlt n2
        have c1 : (m : ℚ) < 2 ^ r := by nlinarith
        have c2 : (2 ^ r : ℚ) < m + 1 := by nlinarith
        have c1' : m < 2 ^ r := by exact_mod_cast c1
        have c2' : 2 ^ r < m + 1 := by exact_mod_cast c2
        omega
      -- in whole numbers
      have c1 : m * 10 ^ a < 2 ^ r := by
        have : (m : ℚ) * 10 ^ a < 2 ^ r := by
          calc (m : ℚ) * 10 ^ a = (m * (2 : ℚ) ^ q) * (10 ^ a * 2 ^ r) := by
                rw [show (m * (2 : ℚ) ^ q) * (10 ^ a * 2 ^ r) = m * 10 ^ a * ((2 : ℚ) ^ q * 2 ^ r) by ring, h2r, mul_one]
            _ < (10 : ℚ) ^ k * (10 ^ a * 2 ^ r) := by gcongr
            _ = 2 ^ r := by rw [← mul_assoc, h10, one_mul]
        exact_mod_cast this
      have c2 : 2 ^ (r + 1) ≤ (2 * m + 1) * 10 ^ a := by
        have : (2 : ℚ) ^ r ≤ (m + 1 / 2) * 10 ^ a := by
          calc (2 : ℚ) ^ r = (10 : ℚ) ^ k * (10 ^ a * 2 ^ r) := by rw [← mul_assoc, h10, one_mul]
            _ ≤ (m * (2 : ℚ) ^ q + (2 : ℚ) ^ q / 2) * (10 ^ a * 2 ^ r) := by gcongr; linarith
            _ = (m + 1 / 2) * 10 ^ a * ((2 : ℚ) ^ q * 2 ^ r) := by ring
            _ = (m + 1 / 2) * 10 ^ a := by rw [h2r, mul_one]
        have h' : (2 : ℚ) ^ (r + 1) ≤ (2 * m + 1) * 10 ^ a := by rw [pow_succ]; linarith
        exact_mod_cast h'
      have c3 : 2 ^ (r + 1) ≠ (2 * m + 1) * 10 ^ a := by
        intro h
        have d5 : 5 ∣ 2 ^ (r + 1) := by
          rw [h]
          exact Dvd.dvd.mul_left (dvd_pow (by norm_num) ha0) _
        have := Nat.Prime.dvd_of_dvd_pow Nat.prime_five d5
        omega
      have hr104 : r < 104 := by
        by_contra hc
        have e1 : 2 ^ 105 ≤ 2 ^ (r + 1) := Nat.pow_le_pow_right (by norm_num) (by omega)
        have e2 : 10 ^ a ≤ 10 ^ 15 := Nat.pow_le_pow_right (by norm_num) (by omega)
        have e3 : (2 * m + 1) * 10 ^ a ≤ (2 * m + 1) * 10 ^ 15 := Nat.mul_le_mul_left _ e2
        simp only [Nat.reducePow] at *
        omega
      have hten : tenth a r = m := by
        unfold tenth
        have hpos : 0 < 10 ^ a := by positivity
        rw [Nat.div_eq_iff (by omega)]
        rw [pow_succ] at c2 c3 ⊢
        have e1 : (2 * m + 1) * 10 ^ a = 2 * (m * 10 ^ a) + 10 ^ a := by ring
        have e2 : m * (2 * 10 ^ a) = 2 * (m * 10 ^ a) := by ring
        constructor <;> omega
      have ht := tenths a ha16 r hr104
      unfold tenthOk at ht
      rw [hten] at ht
      simp only [Bool.or_eq_true, decide_eq_true_eq] at ht
      rcases ht with (h | h) | ht
      · omega
      · omega
      · have ht' := List.all_eq_true.mp ht negative (by cases negative <;> simp)
        cases hpr : printString 'd' 53 100 negative ⟨m, -r⟩ with
        | none => rw [hpr] at ht'; exact absurd ht' (by simp)
        | some text' =>
          rw [hpr] at ht'
          have hsame : text' = text := by
            have g1 := print_more N hpr
            have g2 := h1 (100 + N) (by omega)
            rw [hr] at g2
            rw [g1] at g2
            exact Option.some.inj g2
          simp only [decide_eq_true_eq] at ht'
          rw [hsame, h3] at ht'
          have e1 := congrArg Prod.fst ht'
          dsimp only at e1
          have e2 : (10 : ℚ) ^ k = 1 / 10 ^ a := by rw [hka, zpow_neg, zpow_natCast, one_div]
          rw [e2] at e1
          have e3 : (0 : ℚ) < 1 / 10 ^ a := by positivity
          have hs : sign negative * sign negative = 1 := by cases negative <;> simp [sign]
          have e4 : sign negative * (sign negative * (1 / 10 ^ a / 10)) = sign negative * (sign negative * (1 / 10 ^ a)) := by rw [e1]
          rw [← mul_assoc, ← mul_assoc, hs] at e4
          linarith

/-- C157: with a letter other than `e`, a Float that is printed with exponent is read as a number between one and ten: it is
another number. -/
theorem exponent_lost {f : Flt} {p : ℕ} {letter : Char} (negative : Bool) (hm : 0 < f.m) (hp : 4 ≤ p) (h1 : letter.toUpper ≠ 'E')
    (h2 : digitValue letter = none) (hx : f.val < (2 : ℚ) ^ (-(p : ℤ)) ∨ (2 : ℚ) ^ ((p : ℤ) + 1) ≤ f.val) :
    ∃ (N : ℕ) (text : List Char) (r : ℚ), (∀ n, N ≤ n → printString letter p n negative f = some text) ∧
      readFrom text = (sign negative * r, true) ∧ 1 ≤ r ∧ r < 10 ∧ sign negative * r ≠ sign negative * f.val := by
  obtain ⟨N, d, e, v, g1, g2, g3, g4, g5, _⟩ := digits_near (f := f) (p := p) hm (by omega)
  have hexp : decide (|f.exponent| > p) = true := by
    obtain ⟨e1, e2⟩ := exponent_spec hm
    rw [decide_eq_true_eq, gt_iff_lt, lt_abs]
    rcases hx with h | h
    · right
      have : (2 : ℚ) ^ f.exponent < (2 : ℚ) ^ (-(p : ℤ)) := lt_of_le_of_lt e1 h
      have := (zpow_lt_zpow_iff_right₀ (by norm_num : (1 : ℚ) < 2)).mp this
      omega
    · left
      have := exponent_unique h e2
      omega
  have hread := read_exponential negative (decide (f.val < 1)) letter h2 d e g2
  rw [if_neg h1] at hread
  have hlen : (Nat.digits 10 d).length ≠ 0 := by
    intro h
    rw [List.length_eq_zero_iff, Nat.digits_eq_nil_iff_eq_zero] at h
    omega
  obtain ⟨l, hl⟩ : ∃ l, (Nat.digits 10 d).length = l + 1 := ⟨_, (Nat.succ_pred_eq_of_ne_zero hlen).symm⟩
  have hr : shown d e / (10 : ℚ) ^ (e - 1) = d / 10 ^ l := by
    unfold shown
    rw [hl, mul_div_assoc, ← zpow_sub₀ (by norm_num), show e - ((l + 1 : ℕ) : ℤ) - (e - 1) = -(l : ℤ) by push_cast; ring, zpow_neg,
      zpow_natCast, div_eq_mul_inv]
  have hl1 : 10 ^ l ≤ d := (Nat.lt_digits_length_iff (by norm_num) d).mp (by omega)
  have hl2 : d < 10 ^ (l + 1) := (Nat.digits_length_le_iff (by norm_num) d).mp (by omega)
  have hl1' : (10 : ℚ) ^ l ≤ d := by exact_mod_cast hl1
  have hl2' : (d : ℚ) < 10 ^ (l + 1) := by exact_mod_cast hl2
  have hlp : (0 : ℚ) < 10 ^ l := by positivity
  have r1 : (1 : ℚ) ≤ d / 10 ^ l := by rw [le_div_iff₀ hlp]; linarith
  have r2 : (d : ℚ) / 10 ^ l < 10 := by rw [div_lt_iff₀ hlp]; rw [pow_succ] at hl2'; linarith
  refine ⟨N, signText negative ++ layout letter (decide (f.val < 1)) true d e, d / 10 ^ l, fun n hn => ?_, ?_, r1, r2, ?_⟩
  · unfold printString
    rw [g1 n hn]
    simp only [Option.map_some]
    rw [hexp]
    rfl
  · rw [hread, hr]
  · have hs : sign negative ≠ 0 := by cases negative <;> simp [sign]
    intro h
    have h := mul_left_cancel₀ hs h
    rcases hx with hx | hx
    · have : (2 : ℚ) ^ (-(p : ℤ)) ≤ (2 : ℚ) ^ (0 : ℤ) := zpow_le_zpow_right₀ (by norm_num) (by omega)
      rw [zpow_zero] at this
      linarith
    · have : (2 : ℚ) ^ ((4 : ℕ) : ℤ) ≤ (2 : ℚ) ^ ((p : ℤ) + 1) := zpow_le_zpow_right₀ (by norm_num) (by push_cast; omega)
      rw [zpow_natCast] at this
      linarith

/-- C158: a denormal Float prints as a number to which it is the nearest Float.  Partial: the point may have slipped; for other
Floats it is not so (`not_nearest`). -/
theorem denormal_nearest_partial {m p : ℕ} {q : ℤ} {letter : Char} (negative : Bool) (hm : 0 < m) (hm2 : m < 2 ^ (p - 1)) (hp : 1 ≤ p)
    (hl : Plain letter p (m * (2 : ℚ) ^ q)) :
    ∃ (N : ℕ) (text : List Char) (v : ℚ), (∀ n, N ≤ n → printString letter p n negative ⟨m, q⟩ = some text) ∧
      (∀ m' : ℕ, m' ≠ m → |v - m * (2 : ℚ) ^ q| < |v - m' * (2 : ℚ) ^ q|) ∧
      (readFrom text = (sign negative * v, true) ∨
        (m * (2 : ℚ) ^ q < v ∧ (∃ k : ℤ, v = (10 : ℚ) ^ k) ∧ readFrom text = (sign negative * (v / 10), true))) := by
  obtain ⟨N, text, v, h1, h2, h3, _⟩ := printed (f := ⟨m, q⟩) negative hm hp hl
  refine ⟨N, text, v, h1, ?_, h3⟩
  intro m' hne
  have heps : (⟨m, q⟩ : Flt).eps p ≤ (2 : ℚ) ^ q / 2 := by
    unfold Flt.eps Flt.exponent
    have hlog : Nat.log2 m < p - 1 := (Nat.log2_lt (by omega)).mpr hm2
    rw [show (2 : ℚ) ^ q / 2 = (2 : ℚ) ^ (q - 1) by rw [zpow_sub₀ (by norm_num), zpow_one]]
    exact zpow_le_zpow_right₀ (by norm_num) (by dsimp only; omega)
  have hqp : (0 : ℚ) < (2 : ℚ) ^ q := zpow_pos (by norm_num) _
  have hval : (⟨m, q⟩ : Flt).val = m * (2 : ℚ) ^ q := rfl
  rw [hval] at h2
  have hd : (2 : ℚ) ^ q ≤ |m * (2 : ℚ) ^ q - m' * (2 : ℚ) ^ q| := by
    rw [← sub_mul, abs_mul, abs_of_pos hqp]
    have : (1 : ℚ) ≤ |(m : ℚ) - m'| := by
      have h : (1 : ℤ) ≤ |(m : ℤ) - m'| := Int.one_le_abs (by omega)
      exact_mod_cast h
    nlinarith
  have ht := abs_sub_le (m * (2 : ℚ) ^ q) v (m' * (2 : ℚ) ^ q)
  rw [abs_sub_comm (m * (2 : ℚ) ^ q) v] at ht
  linarith

/-- A `FloatD` whose text is nearer to another Float: what is read back is not what was printed. -/
theorem not_nearest :
    printString 'd' 53 100 false ⟨0x1edc0a1ef2a4f0, -80⟩ = some "0.000000007185044100630328".toList ∧
    readFrom "0.000000007185044100630328".toList = (7185044100630328 / 10 ^ 24, true) ∧
    |7185044100630328 / 10 ^ 24 - (0x1edc0a1ef2a4ef * (2 : ℚ) ^ (-80 : ℤ))| < |7185044100630328 / 10 ^ 24 - (⟨0x1edc0a1ef2a4f0, -80⟩ : Flt).val| := by
  refine ⟨by decide +kernel, by decide +kernel, by decide +kernel⟩

/-- A decimal number of one digit that does not print back when it is `2 ^ p` or more: the Float nearest to `10 ^ 34`. -/
theorem big_decimal_differs :
    |(10 : ℚ) ^ 34 - (⟨0x1ed09bead87c03, 60⟩ : Flt).val| ≤ 2 ^ 60 / 2 ∧
    printString 'd' 53 100 false ⟨0x1ed09bead87c03, 60⟩ = some "9.999999999999999d33".toList := by
  refine ⟨by decide +kernel, by decide +kernel⟩

/-- C159: decimal notation is read exactly, whatever its digits. -/
theorem read_exact (negative : Bool) (A B : List ℕ) (hA : ∀ d ∈ A, d < 10) (hB : ∀ d ∈ B, d < 10) (hA0 : A ≠ []) :
    readFrom ((if negative then ['-'] else []) ++ (A.map char ++ '.' :: B.map char)) =
      ((if negative then (-1 : ℚ) else 1) * (num A + num B / 10 ^ B.length), true) := by
  have := read_point negative A B hA hB hA0 [] (by simp)
  rw [List.append_nil] at this
  exact this

/-- C159, with exponent. -/
theorem read_exact_exponent (negative minus : Bool) (A B X : List ℕ) (hA : ∀ d ∈ A, d < 10) (hB : ∀ d ∈ B, d < 10) (hX : ∀ d ∈ X, d < 10)
    (hA0 : A ≠ []) (hX0 : X ≠ []) :
    readFrom ((if negative then ['-'] else []) ++ (A.map char ++ '.' :: (B.map char ++ 'e' :: ((if minus then ['-'] else []) ++ X.map char)))) =
      ((if negative then (-1 : ℚ) else 1) * (num A + num B / 10 ^ B.length) * (10 : ℚ) ^ (if minus then -(num X : ℤ) else (num X : ℤ)), true) := by
  have hr := read_point negative A B hA hB hA0 ('e' :: ((if minus then ['-'] else []) ++ X.map char)) (by
    intro c hc
    rw [List.head?_cons, Option.mem_some_iff] at hc
    rw [← hc]
    rfl)
  refine hr.trans ?_
  dsimp only
  rw [if_neg (by decide)]
  have hx := readExp_digits X hX 0
  rw [Nat.zero_mul, Nat.zero_add] at hx
  cases minus with
  | true =>
    simp only [if_true, List.cons_append, List.nil_append, or_true, hx]
    rfl
  | false =>
    cases X with
    | nil => exact absurd rfl hX0
    | cons x X =>
      have hx9 : x < 10 := hX x (by simp)
      have n1 := char_ne_minus hx9
      have n2 : char x ≠ '+' := by
        clear * - hx9
        revert hx9
        revert x
        decide
      rw [List.map_cons] at hx ⊢
      simp only [Bool.false_eq_true, if_false, List.nil_append, n1, n2, or_self, hx]
      rfl

/-! ### Cases -/

/-- 3/4 as `FloatD`: three quarters print as `0.75`. -/
example : IsUnit 53 (⟨3 * 2 ^ 51, -53⟩ : Flt).val (-53) ∧ Plain 'd' 53 (⟨3 * 2 ^ 51, -53⟩ : Flt).val ∧
    printString 'd' 53 100 true ⟨3 * 2 ^ 51, -53⟩ = some "-0.75".toList := by
  refine ⟨⟨by decide +kernel, by decide +kernel⟩, Or.inr ⟨by decide +kernel, by decide +kernel⟩, by decide +kernel⟩

/-- 3/4: steps of four units or more. -/
example : (⟨3 * 2 ^ 51, -53⟩ : Flt).val = (75 : ℕ) * (10 : ℚ) ^ (-2 : ℤ) ∧ 4 * (2 : ℚ) ^ (-53 : ℤ) ≤ (10 : ℚ) ^ (-2 : ℤ) := by
  refine ⟨by decide +kernel, by decide +kernel⟩

/-- A tenth as `FloatD`: not a Float, and its nearest is above. -/
example : 2 ^ 52 ≤ 0x1999999999999a ∧ 0x1999999999999a < 2 ^ 53 ∧ (2 : ℚ) ^ (-53 : ℤ) ≤ (0x1999999999999a : ℕ) * (2 : ℚ) ^ (-56 : ℤ) ∧
    |(1 : ℕ) * (10 : ℚ) ^ (-1 : ℤ) - (0x1999999999999a : ℕ) * (2 : ℚ) ^ (-56 : ℤ)| ≤ (2 : ℚ) ^ (-56 : ℤ) / 2 ∧
    printString 'd' 53 100 false ⟨0x1999999999999a, -56⟩ = some "0.1".toList := by
  refine ⟨by norm_num, by norm_num, by decide +kernel, by decide +kernel, by decide +kernel⟩

/-- The limits of digits: 15, 6 and 18. -/
example : 4 * 10 ^ 15 ≤ 2 ^ (53 - 1) ∧ 4 * 10 ^ 6 ≤ 2 ^ (24 - 1) ∧ 4 * 10 ^ 18 ≤ 2 ^ (64 - 1) := by norm_num

/-- `2 ^ 100` as `FloatD` is read back as less than ten. -/
example : (2 : ℚ) ^ (((53 : ℕ) : ℤ) + 1) ≤ (⟨2 ^ 52, 48⟩ : Flt).val ∧ 'd'.toUpper ≠ 'E' ∧ digitValue 'd' = none ∧
    (printString 'd' 53 100 false ⟨2 ^ 52, 48⟩).map (fun t => decide ((readFrom t).1 < 10)) = some true := by
  refine ⟨by decide +kernel, by decide, by decide, by decide +kernel⟩

/-- The smallest `FloatE`. -/
example : Plain 'e' 24 ((1 : ℕ) * (2 : ℚ) ^ (-149 : ℤ)) ∧ 1 < 2 ^ (24 - 1) ∧
    printString 'e' 24 100 false ⟨1, -149⟩ = some "1.4012985e-45".toList := by
  refine ⟨Or.inl ⟨by decide, by decide⟩, by norm_num, by decide +kernel⟩

end Verif.Floats
