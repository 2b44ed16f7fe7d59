import Verif.Frac.Model
import Mathlib.Data.Rat.Floor
import Mathlib.RingTheory.Coprime.Lemmas
import Mathlib.RingTheory.Int.Basic
import Mathlib.Tactic.FieldSimp
import Mathlib.Tactic.Linarith

/-! # Fractions are exact rational arithmetic -/

namespace Verif.Frac

open Verif.Num (Err)

/-! ### Specification -/

/-- The rational number an object stands for. -/
def rat : Number → ℚ
  | .int z => z
  | .frac n d => (n : ℚ) / (d : ℚ)

/-- What every Fraction computed by the system satisfies: positive denominator,
no common factor. -/
def Valid : Number → Prop
  | .int _ => True
  | .frac n d => 0 < d ∧ Int.gcd n d = 1

/-- What the class comment promises on top of that: a number that is an integer
is an Integer. -/
def Canonical : Number → Prop
  | .int _ => True
  | .frac n d => 0 < d ∧ Int.gcd n d = 1 ∧ d ≠ 1

theorem Canonical.valid {a : Number} (h : Canonical a) : Valid a := by
  cases a with
  | int => trivial
  | frac n d => exact ⟨h.1, h.2.1⟩

/-! ### Tools -/

theorem gcd_factor (a b : Int) : ∃ x y, a = gcd a b * x ∧ b = gcd a b * y :=
  ⟨_, _, (Int.gcd_dvd_left a b).choose_spec, (Int.gcd_dvd_right a b).choose_spec⟩

theorem gcd_factor_coprime (a b : Int) (h : a ≠ 0 ∨ b ≠ 0) :
    ∃ x y, a = gcd a b * x ∧ b = gcd a b * y ∧ IsCoprime x y ∧ 0 < gcd a b := by
  obtain ⟨x, y, h1, h2⟩ := gcd_factor a b
  have hg : 0 < gcd a b := by
    have : Int.gcd a b ≠ 0 := by
      intro h0
      have := Int.gcd_eq_zero_iff.mp h0
      omega
    unfold gcd
    omega
  refine ⟨x, y, h1, h2, ?_, hg⟩
  rw [Int.isCoprime_iff_gcd_eq_one]
  have : (Int.gcd a b : Int) = gcd a b * Int.gcd x y := by
    have e : Int.gcd a b = Int.gcd (gcd a b * x) (gcd a b * y) := by rw [← h1, ← h2]
    rw [e, Int.gcd_mul_left]
    push_cast
    rw [abs_of_pos hg]
  change gcd a b = gcd a b * _ at this
  have h3 : ((Int.gcd x y : Nat) : Int) = 1 := by
    have := mul_left_cancel₀ (ne_of_gt hg) (show gcd a b * 1 = gcd a b * _ by rw [← this, mul_one])
    exact this.symm
  exact_mod_cast h3

theorem pos_r {g y : Int} (h : 0 < g * y) (hg : 0 < g) : 0 < y := (mul_pos_iff_of_pos_left hg).mp h

theorem divExact_mul_left (g x : Int) (h : g ≠ 0) : divExact (g * x) g = x :=
  Int.mul_tdiv_cancel_left x h

theorem mkFrac_ok (n d : Int) (hd : d ≠ 0) (hc : IsCoprime n d) :
    ∃ r, mkFrac n d = .ok r ∧ Valid r ∧ rat r = (n : ℚ) / d ∧ (d ≠ 1 → d ≠ -1 → Canonical r) := by
  unfold mkFrac
  rw [if_neg hd]
  rw [Int.isCoprime_iff_gcd_eq_one] at hc
  split
  · refine ⟨_, rfl, ⟨by omega, by simpa using hc⟩, ?_, fun _ h2 => ⟨by omega, by simpa using hc, by omega⟩⟩
    simp only [rat]
    push_cast
    rw [neg_div_neg_eq]
  · exact ⟨_, rfl, ⟨by omega, hc⟩, rfl, fun h1 _ => ⟨by omega, hc, h1⟩⟩

/-- The numerator and denominator of an object, as a Fraction. -/
theorem valid_nd {a : Number} (h : Valid a) :
    0 < denom a ∧ IsCoprime (numer a) (denom a) ∧ rat a = (numer a : ℚ) / (denom a : ℚ) := by
  cases a with
  | int z => exact ⟨by simp [denom], isCoprime_one_right, by simp [rat, numer, denom]⟩
  | frac n d => exact ⟨h.1, Int.isCoprime_iff_gcd_eq_one.mpr h.2, rfl⟩

theorem int_mul_ne {a b : Int} (ha : a ≠ 0) (hb : b ≠ 0) : a * b ≠ 0 := mul_ne_zero ha hb

/-! ### The four operations on two Fractions -/

theorem finish_add (num den : Int) (hd : 0 < den) :
    ∃ r, (if divExact den (gcd num den) = 1 then Except.ok (.int (divExact num (gcd num den)))
        else mkFrac (divExact num (gcd num den)) (divExact den (gcd num den)) : Res) = .ok r ∧
      Canonical r ∧ rat r = (num : ℚ) / den := by
  obtain ⟨x, y, h1, h2, h3, h4⟩ := gcd_factor_coprime num den (Or.inr (by omega))
  generalize gcd num den = g at *
  subst h1 h2
  rw [divExact_mul_left _ _ (by omega), divExact_mul_left _ _ (by omega)]
  have hy : 0 < y := by
    by_contra hc
    have : g * y ≤ 0 := mul_nonpos_of_nonneg_of_nonpos (by omega) (by omega)
    omega
  have hq : ((g * x : Int) : ℚ) / ((g * y : Int) : ℚ) = (x : ℚ) / y := by
    push_cast
    rw [mul_div_mul_left]
    exact_mod_cast (by omega : g ≠ 0)
  rw [hq]
  by_cases h : y = 1
  · rw [if_pos h]
    exact ⟨_, rfl, trivial, by simp [rat, h]⟩
  · rw [if_neg h]
    obtain ⟨r, e1, _, e3, e4⟩ := mkFrac_ok x y (by omega) h3
    exact ⟨r, e1, e4 h (by omega), e3⟩

theorem coprime_sum (n1 d1 n2 d2 : Int) (h1 : IsCoprime n1 d1) (h2 : IsCoprime n2 d2)
    (h : IsCoprime d1 d2) : IsCoprime (n1 * d2 + n2 * d1) (d1 * d2) := by
  apply IsCoprime.mul_right
  · have : IsCoprime (n1 * d2) d1 := IsCoprime.mul_left h1 h.symm
    exact this.add_mul_right_left n2
  · have : IsCoprime (n2 * d1) d2 := IsCoprime.mul_left h2 h
    have := this.add_mul_right_left n1
    rwa [add_comm] at this

theorem addFF_spec (n1 d1 n2 d2 : Int) (p1 : 0 < d1) (p2 : 0 < d2) (c1 : IsCoprime n1 d1)
    (c2 : IsCoprime n2 d2) :
    ∃ r, addFF n1 d1 n2 d2 = .ok r ∧ Valid r ∧ rat r = (n1 : ℚ) / d1 + (n2 : ℚ) / d2 ∧
      (d1 ≠ 1 ∨ d2 ≠ 1 → Canonical r) := by
  have hd1 : (d1 : ℚ) ≠ 0 := by exact_mod_cast (by omega : d1 ≠ 0)
  have hd2 : (d2 : ℚ) ≠ 0 := by exact_mod_cast (by omega : d2 ≠ 0)
  unfold addFF
  simp only
  by_cases hg : gcd d1 d2 = 1
  · rw [if_pos hg]
    have hc : IsCoprime d1 d2 := by
      rw [Int.isCoprime_iff_gcd_eq_one]; unfold gcd at hg; exact_mod_cast hg
    have hpos : 0 < d1 * d2 := Int.mul_pos p1 p2
    obtain ⟨r, e1, e2, e3, e4⟩ := mkFrac_ok (n1 * d2 + n2 * d1) (d1 * d2) (by omega)
      (coprime_sum n1 d1 n2 d2 c1 c2 hc)
    refine ⟨r, e1, e2, ?_, fun h => e4 ?_ (by omega)⟩
    · rw [e3]; push_cast; field_simp
    · intro h1
      have := Int.eq_one_or_neg_one_of_mul_eq_one h1
      have h3 := Int.eq_one_or_neg_one_of_mul_eq_one' h1
      omega
  · rw [if_neg hg]
    obtain ⟨x, y, h1, h2, h3, h4⟩ := gcd_factor_coprime d1 d2 (Or.inl (by omega))
    generalize gcd d1 d2 = g at *
    subst h1 h2
    rw [divExact_mul_left _ _ (by omega), divExact_mul_left _ _ (by omega)]
    have hden : divExact (g * x * (g * y)) g = x * (g * y) := by
      rw [mul_assoc]; exact divExact_mul_left _ _ (by omega)
    rw [hden]
    have hx : 0 < x := pos_r p1 (by omega)
    have hpos : 0 < x * (g * y) := Int.mul_pos hx p2
    obtain ⟨r, e1, e2, e3⟩ := finish_add (n1 * y + n2 * x) (x * (g * y)) hpos
    refine ⟨r, e1, e2.valid, ?_, fun _ => e2⟩
    rw [e3]
    push_cast at *
    have hgq : (g : ℚ) ≠ 0 := left_ne_zero_of_mul hd1
    have hxq : (x : ℚ) ≠ 0 := right_ne_zero_of_mul hd1
    have hyq : (y : ℚ) ≠ 0 := right_ne_zero_of_mul hd2
    field_simp

theorem subFF_addFF (n1 d1 n2 d2 : Int) : subFF n1 d1 n2 d2 = addFF n1 d1 (-n2) d2 := by
  unfold subFF addFF
  simp only [Int.neg_mul, Int.sub_eq_add_neg]

theorem cop_div (a b x v y u : Int) (hx : IsCoprime x y) (hv : IsCoprime v u)
    (h1 : IsCoprime (a * x) (b * u)) (h2 : IsCoprime (b * v) (a * y)) :
    IsCoprime (x * v) (u * y) := by
  have xu : IsCoprime x u := (h1.of_mul_left_right).of_mul_right_right
  have vy : IsCoprime v y := (h2.of_mul_left_right).of_mul_right_right
  exact IsCoprime.mul_left (IsCoprime.mul_right xu hx) (IsCoprime.mul_right hv vy)

theorem mulFF_spec (same : Bool) (n1 d1 n2 d2 : Int) (hs : same = true → n1 = n2 ∧ d1 = d2)
    (p1 : 0 < d1) (p2 : 0 < d2) (c1 : IsCoprime n1 d1) (c2 : IsCoprime n2 d2) :
    ∃ r, mulFF same n1 d1 n2 d2 = .ok r ∧ Valid r ∧ rat r = (n1 : ℚ) / d1 * ((n2 : ℚ) / d2) ∧
      (n1 ≠ 0 → n2 ≠ 0 → Canonical r) := by
  have hd1 : (d1 : ℚ) ≠ 0 := by exact_mod_cast (by omega : d1 ≠ 0)
  have hd2 : (d2 : ℚ) ≠ 0 := by exact_mod_cast (by omega : d2 ≠ 0)
  unfold mulFF
  by_cases h2 : n2 = 0
  · rw [if_pos h2]
    subst h2
    exact ⟨_, rfl, ⟨p2, Int.isCoprime_iff_gcd_eq_one.mp c2⟩, by simp [rat], fun _ h => absurd rfl h⟩
  · rw [if_neg h2]
    by_cases h1 : n1 = 0
    · rw [if_pos h1]
      subst h1
      exact ⟨_, rfl, ⟨p1, Int.isCoprime_iff_gcd_eq_one.mp c1⟩, by simp [rat], fun h => absurd rfl h⟩
    · rw [if_neg h1]
      simp only
      have fin : ∀ num den : Int, IsCoprime num den → 0 < den →
          (num : ℚ) / den = (n1 : ℚ) / d1 * ((n2 : ℚ) / d2) →
          ∃ r, (if den = 1 then Except.ok (.int num) else mkFrac num den : Res) = .ok r ∧ Valid r ∧
            rat r = (n1 : ℚ) / d1 * ((n2 : ℚ) / d2) ∧ (n1 ≠ 0 → n2 ≠ 0 → Canonical r) := by
        intro num den hc hp hv
        by_cases h : den = 1
        · rw [if_pos h]
          exact ⟨_, rfl, trivial, by rw [← hv, h]; simp [rat], fun _ _ => trivial⟩
        · rw [if_neg h]
          obtain ⟨r, e1, e2, e3, e4⟩ := mkFrac_ok num den (by omega) hc
          exact ⟨r, e1, e2, by rw [e3, hv], fun _ _ => e4 h (by omega)⟩
      cases same with
      | true =>
        obtain ⟨rfl, rfl⟩ := hs rfl
        simp only [if_true]
        have : ∀ z : Int, divExact z 1 = z := fun z => Int.tdiv_one z
        rw [this, this]
        apply fin
        · exact IsCoprime.mul_left (IsCoprime.mul_right c1 c1) (IsCoprime.mul_right c1 c1)
        · exact Int.mul_pos p1 p1
        · push_cast; field_simp
      | false =>
        simp only [Bool.false_eq_true, if_false]
        obtain ⟨x, y, e1, e2, e3, e4⟩ := gcd_factor_coprime n1 d2 (Or.inl h1)
        obtain ⟨u, v, g1, g2, g3, g4⟩ := gcd_factor_coprime d1 n2 (Or.inr h2)
        generalize gcd n1 d2 = a at *
        generalize gcd d1 n2 = b at *
        subst e1 e2 g1 g2
        have hab : a * b ≠ 0 := int_mul_ne (by omega) (by omega)
        rw [show a * x * (b * v) = (a * b) * (x * v) by ring,
          show b * u * (a * y) = (a * b) * (u * y) by ring, divExact_mul_left _ _ hab,
          divExact_mul_left _ _ hab]
        have hy : 0 < y := pos_r p2 (by omega)
        have hu : 0 < u := pos_r p1 (by omega)
        apply fin
        · exact cop_div a b x v y u e3 g3.symm c1 c2
        · exact Int.mul_pos hu hy
        · push_cast at *
          have ha : (a : ℚ) ≠ 0 := left_ne_zero_of_mul hd2
          have hb : (b : ℚ) ≠ 0 := left_ne_zero_of_mul hd1
          have hyq : (y : ℚ) ≠ 0 := right_ne_zero_of_mul hd2
          have huq : (u : ℚ) ≠ 0 := right_ne_zero_of_mul hd1
          field_simp

theorem divFF_spec (n1 d1 n2 d2 : Int) (p1 : 0 < d1) (p2 : 0 < d2) (c1 : IsCoprime n1 d1)
    (c2 : IsCoprime n2 d2) (hn : n2 ≠ 0) :
    ∃ r, divFF n1 d1 n2 d2 = .ok r ∧ Valid r ∧ rat r = (n1 : ℚ) / d1 / ((n2 : ℚ) / d2) ∧
      (n1 ≠ 0 → 0 < n2 → Canonical r) := by
  have hd1 : (d1 : ℚ) ≠ 0 := by exact_mod_cast (by omega : d1 ≠ 0)
  have hd2 : (d2 : ℚ) ≠ 0 := by exact_mod_cast (by omega : d2 ≠ 0)
  have hn2 : (n2 : ℚ) ≠ 0 := by exact_mod_cast hn
  unfold divFF
  rw [if_neg hn]
  by_cases h1 : n1 = 0
  · rw [if_pos h1]
    subst h1
    exact ⟨_, rfl, ⟨p1, Int.isCoprime_iff_gcd_eq_one.mp c1⟩, by simp [rat], fun h => absurd rfl h⟩
  · rw [if_neg h1]
    simp only
    obtain ⟨x, v, e1, e2, e3, e4⟩ := gcd_factor_coprime n1 n2 (Or.inl h1)
    obtain ⟨u, y, g1, g2, g3, g4⟩ := gcd_factor_coprime d1 d2 (Or.inl (by omega))
    generalize gcd n1 n2 = a at *
    generalize gcd d1 d2 = b at *
    subst e1 e2 g1 g2
    have hab : a * b ≠ 0 := int_mul_ne (by omega) (by omega)
    rw [show a * x * (b * y) = (a * b) * (x * y) by ring,
      show b * u * (a * v) = (a * b) * (u * v) by ring, divExact_mul_left _ _ hab,
      divExact_mul_left _ _ hab]
    have hu : 0 < u := pos_r p1 (by omega)
    have hv0 : v ≠ 0 := by rintro rfl; simp at hn
    have hc : IsCoprime (x * y) (u * v) :=
      cop_div a b x y v u e3 g3.symm c1 c2.symm
    push_cast at *
    have ha : (a : ℚ) ≠ 0 := left_ne_zero_of_mul hn2
    have hb : (b : ℚ) ≠ 0 := left_ne_zero_of_mul hd1
    have hyq : (y : ℚ) ≠ 0 := right_ne_zero_of_mul hd2
    have huq : (u : ℚ) ≠ 0 := right_ne_zero_of_mul hd1
    have hvq : (v : ℚ) ≠ 0 := right_ne_zero_of_mul hn2
    by_cases h : u * v = 1
    · rw [if_pos h]
      refine ⟨_, rfl, trivial, ?_, fun _ _ => trivial⟩
      simp only [rat]
      have : (u : ℚ) * v = 1 := by exact_mod_cast h
      push_cast
      field_simp
      calc (x : ℚ) * u * v = x * (u * v) := by ring
        _ = x := by rw [this, mul_one]
    · rw [if_neg h]
      obtain ⟨r, q1, q2, q3, q4⟩ := mkFrac_ok (x * y) (u * v) (int_mul_ne (by omega) hv0) hc
      refine ⟨r, q1, q2, ?_, fun _ hp => q4 h ?_⟩
      · rw [q3]; push_cast; field_simp
      · have hv : 0 < v := pos_r hp (by omega)
        have := Int.mul_pos hu hv
        omega

end Verif.Frac
