import Verif.Frac.Model
import Mathlib.Data.Int.Log
import Mathlib.Data.Rat.Floor
import Mathlib.Tactic.FieldSimp
import Mathlib.Tactic.Linarith
import Mathlib.Algebra.Order.Field.Rat
import Mathlib.Algebra.Order.Floor.Ring

/-! # Converting Fractions and LargeIntegers to Floats

A binary floating-point format has `p` bits of precision and a least exponent
`emin`, as C's `DBL_MANT_DIG` and `DBL_MIN_EXP` (libgst/dict.c:1171-1174): the
least normal number is `2^(emin-1)` and the least denormalised `2^(emin-p)`.  A
finite non-negative Float is identified with the rational it stands for; overflow
to infinity is not modelled, so there is no greatest exponent. -/

namespace Verif.Frac

/-- Round half to even, on rationals: the rounding of IEEE 754 in units of the
last place. -/
def rhe (m : ℚ) : Int :=
  if m - ⌊m⌋ < 1 / 2 then ⌊m⌋
  else if 1 / 2 < m - ⌊m⌋ then ⌊m⌋ + 1
  else if ⌊m⌋ % 2 = 0 then ⌊m⌋ else ⌊m⌋ + 1

/-- The `fe` such that `2^(fe-1) ≤ x < 2^fe`. -/
def fexp (x : ℚ) : Int := Int.log 2 x + 1

/-- The exponent of the last place of `x` in the format. -/
def ulp (p : Nat) (emin : Int) (x : ℚ) : Int := max (fexp x - p) (emin - p)

/-- The rounding of the format: what the IEEE operations answer when the exact
result is `x`. -/
def rnd (p : Nat) (emin : Int) (x : ℚ) : ℚ :=
  if x = 0 then 0 else rhe (x / 2 ^ ulp p emin x) * 2 ^ ulp p emin x

/-- `bitShift:` on non-negative Integers. -/
def shl (a : Nat) (k : Int) : Nat := if 0 ≤ k then a * 2 ^ k.toNat else a / 2 ^ (-k).toNat

/-- `characterization coerce:` of a non-negative Integer: the primitives convert
with the rounding of the format. -/
def coerce (p : Nat) (emin : Int) (q : Nat) : ℚ := rnd p emin q

/-- `timesTwoPower:`, that is `ldexp` (libgst/prims.def:1596-1615). -/
def timesTwoPower (p : Nat) (emin : Int) (v : ℚ) (e : Int) : ℚ := rnd p emin (v * 2 ^ e)

/-- `Fraction>>asFloat:` (kernel/Fraction.st:403-462) on the absolute values `n`,
`d` of numerator and denominator; the sign is put back at the end by `negated`,
which is exact.  Floats divide with the rounding of the format.  The two lines for
`hq < nBits` are kept although they never run. -/
def asFloat (p : Nat) (emin : Int) (n d : Nat) : ℚ :=
  let hn := highBit n
  let hd := highBit d
  let nBits : Int := p + 1
  if (hn : Int) < nBits ∧ (hd : Int) < nBits then
    rnd p emin (coerce p emin n / coerce p emin d)
  else
    let exponent : Int := hn - hd - nBits
    let d' := if exponent > 0 then shl d exponent else d
    let n' := if exponent > 0 then n else shl n (-exponent)
    let q := n' / d'
    let r := n' - q * d'
    let hq : Int := highBit q
    let floatExponent := exponent + hq
    let nBits := if floatExponent ≥ emin - 1 then nBits else nBits + floatExponent - emin + 1
    let s := if hq > nBits then
        (exponent + hq - nBits, (q % 2 ^ (hq - nBits).toNat) * d' + r, shl q (nBits - hq))
      else (exponent, r, q)
    let s := if hq < nBits then
        let q1 := shl s.2.1 (nBits - hq) / d'
        (s.1 + hq - nBits, shl s.2.1 (nBits - hq) - q1 * d', (shl s.2.2 (nBits - hq)) &&& q1)
      else s
    let q := if s.2.2 % 2 = 0 ∨ s.2.1 = 0 then s.2.2 else s.2.2 + 1
    timesTwoPower p emin (coerce p emin q) s.1

/-- `LargePositiveInteger>>asFloat:` (kernel/LargeInt.st:1057-1074), the fallback
of the primitive.  `fastAsFloat:`, which only sees Integers of at most `p` bits,
multiplies and adds exactly, so it is the conversion of the format. -/
def largeAsFloat (p : Nat) (emin : Int) (x : Nat) : ℚ :=
  let nTruncatedBits : Int := highBit x - p
  if nTruncatedBits ≤ 0 then coerce p emin x
  else
    let t := nTruncatedBits.toNat
    let mantissa := x / 2 ^ t
    let carry := x / 2 ^ (t - 1) % 2
    let mantissa := if carry = 1 ∧ (mantissa % 2 = 1 ∨ x % 2 ^ (t - 1) ≠ 0) then mantissa + 1 else mantissa
    timesTwoPower p emin (coerce p emin mantissa) nTruncatedBits

/-! ### Rounding -/

theorem fexp_bounds {x : ℚ} (hx : 0 < x) : (2 : ℚ) ^ (fexp x - 1) ≤ x ∧ x < 2 ^ fexp x := by
  unfold fexp
  rw [Int.add_sub_cancel]
  have a := Int.zpow_log_le_self (b := 2) (by decide) hx
  have b := Int.lt_zpow_succ_log_self (b := 2) (by decide) x
  exact ⟨by exact_mod_cast a, by exact_mod_cast b⟩

theorem fexp_eq {x : ℚ} {e : Int} (h1 : (2 : ℚ) ^ (e - 1) ≤ x) (h2 : x < 2 ^ e) : fexp x = e := by
  have hx : 0 < x := lt_of_lt_of_le (zpow_pos (by norm_num) _) h1
  obtain ⟨a, b⟩ := fexp_bounds hx
  have c : (2 : ℚ) ^ (fexp x - 1) < 2 ^ e := lt_of_le_of_lt a h2
  have d : (2 : ℚ) ^ (e - 1) < 2 ^ fexp x := lt_of_le_of_lt h1 b
  rw [zpow_lt_zpow_iff_right₀ (by norm_num)] at c d
  omega

theorem rhe_int (z : Int) : rhe z = z := by
  unfold rhe
  rw [Int.floor_intCast, sub_self, if_pos (by norm_num)]

theorem rhe_int_add (z : Int) (t : ℚ) (h0 : 0 ≤ t) (h1 : t < 1) : rhe (z + t) =
    if t < 1 / 2 then z else if 1 / 2 < t then z + 1 else if z % 2 = 0 then z else z + 1 := by
  have hf : ⌊(z : ℚ) + t⌋ = z := by
    rw [Int.floor_eq_iff]; constructor <;> linarith
  unfold rhe
  rw [hf, add_sub_cancel_left]

theorem rnd_exact (p : Nat) (emin : Int) (k e : Int) (h : ulp p emin (k * 2 ^ e) ≤ e) :
    rnd p emin (k * 2 ^ e) = k * 2 ^ e := by
  unfold rnd
  split
  · rename_i h0; exact h0.symm
  · generalize ulp p emin (k * 2 ^ e) = u at h
    have h2 : (2 : ℚ) ≠ 0 := by norm_num
    have hm : (k : ℚ) * 2 ^ e / 2 ^ u = ((k * 2 ^ (e - u).toNat : Int) : ℚ) := by
      push_cast
      rw [← zpow_natCast, Int.toNat_of_nonneg (by omega), zpow_sub₀ h2, mul_div_assoc]
    rw [hm, rhe_int, ← hm, div_mul_cancel₀ _ (zpow_ne_zero _ h2)]

/-- `2^a ≤ x < 2^(a+1)`, exponents natural. -/
theorem highBit_le (n : Nat) (h : 0 < n) : (2 : ℚ) ^ ((highBit n : Int) - 1) ≤ n ∧ (n : ℚ) < 2 ^ (highBit n : Int) := by
  have hb : highBit n = Nat.log2 n + 1 := by unfold highBit; rw [if_neg (by omega)]
  rw [hb]
  constructor
  · have := Nat.log2_self_le (n := n) (by omega)
    rw [Nat.cast_add, Nat.cast_one, Int.add_sub_cancel, zpow_natCast]
    exact_mod_cast this
  · have := Nat.lt_log2_self (n := n)
    rw [zpow_natCast]
    exact_mod_cast this

theorem fexp_nat (n : Nat) (h : 0 < n) : fexp n = highBit n :=
  fexp_eq (highBit_le n h).1 (highBit_le n h).2

theorem coerce_exact (p : Nat) (emin : Int) (he : emin ≤ p) (n : Nat) (hn : (highBit n : Int) < p + 1) :
    coerce p emin n = n := by
  unfold coerce
  rcases Nat.eq_zero_or_pos n with rfl | h0
  · simp [rnd]
  · have e : (n : ℚ) = ((n : Int) : ℚ) * 2 ^ (0 : Int) := by simp
    rw [e]
    apply rnd_exact
    rw [← e, ulp, fexp_nat n h0]
    omega

/-- The heart of the matter: `x` lies between `q` and `q + 1` (in units of half a
last place); replacing it by `q`, or by `q + 1` if `q` is odd and `x` is not `q`,
does not change how it rounds. -/
theorem rhe_sticky (q : Nat) (t : ℚ) (h0 : 0 ≤ t) (h1 : t < 1) :
    rhe (((q : ℚ) + t) / 2) = rhe (((if q % 2 = 0 ∨ t = 0 then q else q + 1 : Nat) : ℚ) / 2) := by
  rcases Nat.mod_two_eq_zero_or_one q with hq | hq
  · rw [if_pos (Or.inl hq)]
    obtain ⟨k, rfl⟩ : ∃ k, q = 2 * k := ⟨q / 2, by omega⟩
    have e1 : (((2 * k : Nat) : ℚ) + t) / 2 = ((k : Int) : ℚ) + t / 2 := by push_cast; ring
    have e2 : ((2 * k : Nat) : ℚ) / 2 = ((k : Int) : ℚ) := by push_cast; ring
    rw [e1, e2, rhe_int, rhe_int_add _ _ (by linarith) (by linarith), if_pos (by linarith)]
  · obtain ⟨k, rfl⟩ : ∃ k, q = 2 * k + 1 := ⟨q / 2, by omega⟩
    by_cases ht : t = 0
    · rw [if_pos (Or.inr ht), ht, add_zero]
    · rw [if_neg (by rintro (h | h); exacts [by omega, ht h])]
      have e1 : (((2 * k + 1 : Nat) : ℚ) + t) / 2 = ((k : Int) : ℚ) + (1 / 2 + t / 2) := by push_cast; ring
      have e2 : ((2 * k + 1 + 1 : Nat) : ℚ) / 2 = ((k + 1 : Int) : ℚ) := by push_cast; ring
      have hp : 0 < t := lt_of_le_of_ne h0 (Ne.symm ht)
      rw [e1, e2, rhe_int, rhe_int_add _ _ (by linarith) (by linarith), if_neg (by linarith),
        if_pos (by linarith)]

theorem rhe_mono_bounds (m : ℚ) (a b : Int) (h1 : (a : ℚ) ≤ m) (h2 : m ≤ b) : a ≤ rhe m ∧ rhe m ≤ b := by
  have hf : a ≤ ⌊m⌋ := Int.le_floor.mpr h1
  have hle := Int.floor_le m
  have hlt := Int.lt_floor_add_one m
  have up : m - ⌊m⌋ ≠ 0 → ⌊m⌋ + 1 ≤ b := by
    intro h
    have : (⌊m⌋ : ℚ) < m := by
      rcases lt_or_eq_of_le hle with h' | h'
      · exact h'
      · exact absurd (by rw [h']; ring) h
    have : (⌊m⌋ : ℚ) < b := lt_of_lt_of_le this h2
    have : ⌊m⌋ < b := by exact_mod_cast this
    omega
  have hfb : ⌊m⌋ ≤ b := by
    have : (⌊m⌋ : ℚ) ≤ b := le_trans hle h2
    exact_mod_cast this
  unfold rhe
  split
  · exact ⟨hf, hfb⟩
  · rename_i h
    have hne : m - ⌊m⌋ ≠ 0 := by intro h'; rw [h'] at h; exact h (by norm_num)
    have := up hne
    split
    · exact ⟨by omega, this⟩
    · split <;> exact ⟨by omega, by omega⟩

/-- A mantissa of `p` bits with an exponent that is not too small is representable. -/
theorem rnd_mantissa (p : Nat) (emin : Int) (hp : 1 ≤ p) (k e : Int) (hkb : 2 ^ (p - 1) ≤ k ∧ k ≤ 2 ^ p)
    (he : emin ≤ p + e) : rnd p emin (k * 2 ^ e) = k * 2 ^ e := by
  have h2 : (2 : ℚ) ≠ 0 := by norm_num
  by_cases hk : k = 2 ^ p
  · have e1 : (k : ℚ) * 2 ^ e = ((1 : Int) : ℚ) * 2 ^ ((p : Int) + e) := by
      rw [hk, zpow_add₀ h2 (p : Int)]; push_cast; rw [zpow_natCast]; ring
    rw [e1]
    apply rnd_exact
    have hf : fexp (((1 : Int) : ℚ) * 2 ^ ((p : Int) + e)) = p + e + 1 := by
      rw [Int.cast_one, one_mul]
      apply fexp_eq
      · exact (zpow_le_zpow_iff_right₀ (by norm_num)).mpr (by omega)
      · exact (zpow_lt_zpow_iff_right₀ (by norm_num)).mpr (by omega)
    rw [ulp, hf]
    omega
  · apply rnd_exact
    have hk0 : (0 : ℚ) < 2 ^ e := zpow_pos (by norm_num) _
    have hf : fexp ((k : ℚ) * 2 ^ e) = p + e := by
      apply fexp_eq
      · rw [show (p : Int) + e - 1 = ((p - 1 : Nat) : Int) + e by omega, zpow_add₀ h2, zpow_natCast]
        refine mul_le_mul_of_nonneg_right ?_ hk0.le
        exact_mod_cast hkb.1
      · rw [zpow_add₀ h2 (p : Int), zpow_natCast]
        refine mul_lt_mul_of_pos_right ?_ hk0
        have : k < 2 ^ p := by omega
        exact_mod_cast this
    rw [ulp, hf]
    omega

/-- Rounding `x = (q + t) · 2^E`, with `q` of exactly `p + 1` bits, through the
intermediate Integer. -/
theorem two_steps (p : Nat) (emin : Int) (hp : 1 ≤ p) (he : emin ≤ 0) (q : Nat) (t : ℚ) (E : Int)
    (h0 : 0 ≤ t) (h1 : t < 1) (hq1 : 2 ^ p ≤ q) (hq2 : q < 2 ^ (p + 1)) (hE : emin ≤ p + 1 + E) :
    timesTwoPower p emin (coerce p emin (if q % 2 = 0 ∨ t = 0 then q else q + 1)) E =
      rnd p emin (((q : ℚ) + t) * 2 ^ E) := by
  have h2 : (2 : ℚ) ≠ 0 := by norm_num
  have hq1' : (2 : ℚ) ^ (p : Int) ≤ q := by rw [zpow_natCast]; exact_mod_cast hq1
  have hq2' : (q : ℚ) + 1 ≤ 2 ^ ((p : Int) + 1) := by
    have : q + 1 ≤ 2 ^ (p + 1) := hq2
    have e : ((p : Int) + 1) = ((p + 1 : Nat) : Int) := by push_cast; rfl
    rw [e, zpow_natCast]; exact_mod_cast this
  -- the right-hand side
  have hx : 0 < ((q : ℚ) + t) * 2 ^ E :=
    mul_pos (by have := zpow_pos (show (0 : ℚ) < 2 by norm_num) (p : Int); linarith) (zpow_pos (by norm_num) _)
  have hfe : fexp (((q : ℚ) + t) * 2 ^ E) = p + 1 + E := by
    apply fexp_eq
    · rw [show (p : Int) + 1 + E - 1 = p + E by ring, zpow_add₀ h2]
      exact mul_le_mul_of_nonneg_right (by linarith) (zpow_nonneg (by norm_num) _)
    · rw [zpow_add₀ h2]
      exact mul_lt_mul_of_pos_right (by linarith) (zpow_pos (by norm_num) _)
  have hulp : ulp p emin (((q : ℚ) + t) * 2 ^ E) = E + 1 := by
    rw [ulp, hfe]; omega
  have hrhs : rnd p emin (((q : ℚ) + t) * 2 ^ E) = rhe (((q : ℚ) + t) / 2) * 2 ^ (E + 1) := by
    rw [rnd, if_neg hx.ne', hulp]
    congr 3
    rw [zpow_add₀ h2, zpow_one]
    field_simp
  rw [hrhs, rhe_sticky q t h0 h1]
  -- the Integer that is converted
  generalize hs : (if q % 2 = 0 ∨ t = 0 then q else q + 1) = s
  have hs1 : q ≤ s ∧ s ≤ q + 1 ∧ (s = 2 ^ (p + 1) → s % 2 = 0) := by
    rw [← hs]
    have : 2 ^ (p + 1) = 2 ^ p * 2 := by rw [pow_succ]
    split <;> omega
  have hcoerce : coerce p emin s = rhe ((s : ℚ) / 2) * 2 ^ (1 : Int) := by
    unfold coerce
    have hs0 : 0 < s := by have : 0 < 2 ^ p := by positivity
                           omega
    have hsq : (s : ℚ) ≠ 0 := by exact_mod_cast hs0.ne'
    by_cases hlt : s < 2 ^ (p + 1)
    · have hf : fexp (s : ℚ) = p + 1 := by
        apply fexp_eq
        · rw [Int.add_sub_cancel]
          have : (q : ℚ) ≤ s := by exact_mod_cast hs1.1
          linarith
        · have e : ((p : Int) + 1) = ((p + 1 : Nat) : Int) := by push_cast; rfl
          rw [e, zpow_natCast]; exact_mod_cast hlt
      rw [rnd, if_neg hsq]
      have : ulp p emin (s : ℚ) = 1 := by rw [ulp, hf]; omega
      rw [this, zpow_one]
    · have hse : s = 2 ^ (p + 1) := by omega
      have hhalf : (s : ℚ) / 2 = ((2 ^ p : Int) : ℚ) := by
        rw [hse]; push_cast; rw [pow_succ]; field_simp
      have e : (s : ℚ) = ((1 : Int) : ℚ) * 2 ^ ((p + 1 : Nat) : Int) := by
        rw [hse, zpow_natCast]; push_cast; ring
      have hf : fexp (s : ℚ) = p + 2 := by
        apply fexp_eq
        · rw [show (p : Int) + 2 - 1 = ((p + 1 : Nat) : Int) by push_cast; ring, e, Int.cast_one, one_mul]
        · rw [e, Int.cast_one, one_mul]
          exact (zpow_lt_zpow_iff_right₀ (by norm_num)).mpr (by push_cast; omega)
      have : rnd p emin (s : ℚ) = s := by
        rw [e]
        apply rnd_exact
        rw [← e, ulp, hf]
        push_cast
        omega
      rw [this, hhalf, rhe_int]
      push_cast
      rw [hse]; push_cast; rw [pow_succ]
  have hkb := rhe_mono_bounds ((s : ℚ) / 2) (2 ^ (p - 1)) (2 ^ p)
    (by
      have : (q : ℚ) ≤ s := by exact_mod_cast hs1.1
      have e : (2 : ℚ) ^ (p : Int) = 2 ^ (p - 1) * 2 := by rw [zpow_natCast, ← pow_succ]; congr 1; omega
      push_cast; rw [le_div_iff₀ (by norm_num)]; linarith)
    (by
      have : (s : ℚ) ≤ q + 1 := by exact_mod_cast hs1.2.1
      have e : (2 : ℚ) ^ ((p : Int) + 1) = 2 ^ p * 2 := by rw [zpow_add₀ h2, zpow_natCast, zpow_one]
      push_cast; rw [div_le_iff₀ (by norm_num)]; linarith)
  rw [hcoerce]
  generalize rhe ((s : ℚ) / 2) = k at hkb
  unfold timesTwoPower
  have e : (k : ℚ) * 2 ^ (1 : Int) * 2 ^ E = k * 2 ^ (E + 1) := by
    rw [mul_assoc, ← zpow_add₀ h2, add_comm]
  rw [e]
  exact rnd_mantissa p emin hp k (E + 1) hkb (by omega)

theorem shl_pos (a : Nat) (k : Int) (h : 0 ≤ k) : (shl a k : ℚ) = a * 2 ^ k := by
  unfold shl
  rw [if_pos h]
  push_cast
  rw [← zpow_natCast, Int.toNat_of_nonneg h]

theorem highBit_unique (q : Nat) (h : Nat) (h1 : 2 ^ h ≤ q) (h2 : q < 2 ^ (h + 1)) : highBit q = h + 1 := by
  have h0 : 0 < q := lt_of_lt_of_le (by positivity) h1
  have a := fexp_nat q h0
  have b : fexp (q : ℚ) = ((h + 1 : Nat) : Int) := by
    apply fexp_eq
    · rw [show ((h + 1 : Nat) : Int) - 1 = (h : Int) by push_cast; ring, zpow_natCast]
      exact_mod_cast h1
    · rw [zpow_natCast]; exact_mod_cast h2
  rw [a] at b
  exact_mod_cast b

/-- **A Fraction is converted to the nearest Float, half to even**, whatever the
sizes of numerator and denominator, unless the result is denormalised. -/
theorem asFloat_partial (p : Nat) (emin : Int) (hp : 1 ≤ p) (he : emin ≤ 0) (n d : Nat) (hn : 0 < n)
    (hd : 0 < d) (hnormal : (2 : ℚ) ^ (emin - 1) ≤ (n : ℚ) / d) :
    asFloat p emin n d = rnd p emin ((n : ℚ) / d) := by
  have h2 : (2 : ℚ) ≠ 0 := by norm_num
  have hdq : (0 : ℚ) < d := by exact_mod_cast hd
  have hnq : (0 : ℚ) < n := by exact_mod_cast hn
  unfold asFloat
  simp only
  by_cases hfast : (highBit n : Int) < (p : Int) + 1 ∧ (highBit d : Int) < (p : Int) + 1
  · rw [if_pos hfast, coerce_exact p emin (by omega) n hfast.1, coerce_exact p emin (by omega) d hfast.2]
  · rw [if_neg hfast]
    obtain ⟨n1, n2⟩ := highBit_le n hn
    obtain ⟨d1, d2⟩ := highBit_le d hd
    generalize highBit n = hn' at *
    generalize highBit d = hd' at *
    -- the scaled operands
    generalize hE : (hn' : Int) - hd' - (p + 1) = E
    generalize hD : (if E > 0 then shl d E else d) = D
    generalize hN : (if E > 0 then n else shl n (-E)) = N
    have hD0 : (0 : ℚ) < D := by
      rw [← hD]; split
      · rw [shl_pos _ _ (by omega)]; exact mul_pos hdq (zpow_pos (by norm_num) _)
      · exact hdq
    have hND : (N : ℚ) / D = (n : ℚ) / d / 2 ^ E := by
      rw [← hD, ← hN]
      by_cases h : E > 0
      · rw [if_pos h, if_pos h, shl_pos _ _ (by omega)]
        field_simp
      · rw [if_neg h, if_neg h, shl_pos _ _ (by omega), zpow_neg]
        field_simp
    have hDn : 0 < D := by exact_mod_cast hD0
    -- the quotient has p + 1 or p + 2 bits
    have hx1 : (2 : ℚ) ^ ((hn' : Int) - 1 - hd') < (n : ℚ) / d := by
      rw [lt_div_iff₀ hdq]
      calc (2 : ℚ) ^ ((hn' : Int) - 1 - hd') * d < 2 ^ ((hn' : Int) - 1 - hd') * 2 ^ (hd' : Int) :=
            mul_lt_mul_of_pos_left d2 (zpow_pos (by norm_num) _)
        _ = 2 ^ ((hn' : Int) - 1) := by rw [← zpow_add₀ h2]; congr 1; ring
        _ ≤ n := n1
    have hx2 : (n : ℚ) / d < (2 : ℚ) ^ ((hn' : Int) - hd' + 1) := by
      rw [div_lt_iff₀ hdq]
      calc (n : ℚ) < 2 ^ (hn' : Int) := n2
        _ = 2 ^ ((hn' : Int) - hd' + 1) * 2 ^ ((hd' : Int) - 1) := by rw [← zpow_add₀ h2]; congr 1; ring
        _ ≤ 2 ^ ((hn' : Int) - hd' + 1) * d :=
            mul_le_mul_of_nonneg_left d1 (zpow_nonneg (by norm_num) _)
    have hE0 : (0 : ℚ) < 2 ^ E := zpow_pos (by norm_num) _
    have hy1 : (2 : ℚ) ^ p < (N : ℚ) / D := by
      rw [hND, lt_div_iff₀ hE0]
      refine lt_of_eq_of_lt ?_ hx1
      rw [← zpow_natCast, ← zpow_add₀ h2]; congr 1; omega
    have hy2 : (N : ℚ) / D < (2 : ℚ) ^ (p + 2) := by
      rw [hND, div_lt_iff₀ hE0]
      refine lt_of_lt_of_eq hx2 ?_
      rw [← zpow_natCast, ← zpow_add₀ h2]; congr 1; push_cast; omega
    have hdm := Nat.div_add_mod N D
    have hml := Nat.mod_lt N hDn
    have hr : N - N / D * D = N % D := by
      rw [Nat.mul_comm]; omega
    rw [hr]
    generalize hq : N / D = q at *
    generalize N % D = r at *
    have hNq : (N : ℚ) / D = q + (r : ℚ) / D := by
      have : (N : ℚ) = D * q + r := by exact_mod_cast hdm.symm
      rw [this]; field_simp
    have hrD : (r : ℚ) / D < 1 := by rw [div_lt_one hD0]; exact_mod_cast hml
    have hr0 : 0 ≤ (r : ℚ) / D := div_nonneg (by positivity) hD0.le
    have hql : 2 ^ p ≤ q := by
      have : (2 : ℚ) ^ p < q + 1 := by linarith
      have : 2 ^ p < q + 1 := by exact_mod_cast this
      omega
    have hqu : q < 2 ^ (p + 2) := by
      have : (q : ℚ) < 2 ^ (p + 2) := by linarith
      exact_mod_cast this
    have hx : (n : ℚ) / d = ((q : ℚ) + r / D) * 2 ^ E := by
      rw [← hNq, hND]; field_simp
    have hpp : 2 ^ (p + 1) = 2 * 2 ^ p := by rw [pow_succ, mul_comm]
    have hpp2 : 2 ^ (p + 2) = 4 * 2 ^ p := by rw [pow_add]; omega
    have hfe := (fexp_bounds (x := (n : ℚ) / d) (div_pos hnq hdq))
    by_cases hbig : q < 2 ^ (p + 1)
    · have hhq : highBit q = p + 1 := highBit_unique q p hql hbig
      have hEm : emin ≤ p + 1 + E := by
        have : (n : ℚ) / d < 2 ^ ((p : Int) + 1 + E) := by
          rw [hx, zpow_add₀ h2]
          refine mul_lt_mul_of_pos_right ?_ hE0
          have e : ((p : Int) + 1) = ((p + 1 : Nat) : Int) := by push_cast; rfl
          rw [e, zpow_natCast]
          have : (q : ℚ) + 1 ≤ 2 ^ (p + 1) := by
            have : q + 1 ≤ 2 ^ (p + 1) := hbig
            exact_mod_cast this
          linarith
        have := lt_of_le_of_lt hnormal this
        rw [zpow_lt_zpow_iff_right₀ (by norm_num)] at this
        omega
      rw [hhq]
      rw [if_pos (show E + ((p + 1 : Nat) : Int) ≥ emin - 1 by push_cast; omega)]
      rw [if_neg (show ¬ ((p + 1 : Nat) : Int) > (p : Int) + 1 by push_cast; omega)]
      rw [if_neg (show ¬ ((p + 1 : Nat) : Int) < (p : Int) + 1 by push_cast; omega)]
      simp only
      have := two_steps p emin hp he q ((r : ℚ) / D) E hr0 hrD hql hbig hEm
      rw [hx, ← this]
      congr 2
      have : (r = 0) ↔ (r : ℚ) / D = 0 := by
        rw [div_eq_zero_iff]
        constructor
        · intro h; left; exact_mod_cast h
        · rintro (h | h)
          · exact_mod_cast h
          · exact absurd h hD0.ne'
      simp only [this]
    · have hhq : highBit q = p + 2 := highBit_unique q (p + 1) (by omega) hqu
      have hEm : emin ≤ p + 1 + (E + 1) := by
        have : (n : ℚ) / d < 2 ^ ((p : Int) + 2 + E) := by
          rw [hx, zpow_add₀ h2]
          refine mul_lt_mul_of_pos_right ?_ hE0
          have e : ((p : Int) + 2) = ((p + 2 : Nat) : Int) := by push_cast; rfl
          rw [e, zpow_natCast]
          have : (q : ℚ) + 1 ≤ 2 ^ (p + 2) := by
            have : q + 1 ≤ 2 ^ (p + 2) := hqu
            exact_mod_cast this
          linarith
        have := lt_of_le_of_lt hnormal this
        rw [zpow_lt_zpow_iff_right₀ (by norm_num)] at this
        omega
      rw [hhq]
      rw [if_pos (show E + ((p + 2 : Nat) : Int) ≥ emin - 1 by push_cast; omega)]
      rw [if_pos (show ((p + 2 : Nat) : Int) > (p : Int) + 1 by push_cast; omega)]
      rw [if_neg (show ¬ ((p + 2 : Nat) : Int) < (p : Int) + 1 by push_cast; omega)]
      simp only
      have ex : E + ((p + 2 : Nat) : Int) - ((p : Int) + 1) = E + 1 := by push_cast; omega
      have e1 : (((p + 2 : Nat) : Int) - ((p : Int) + 1)).toNat = 1 := by push_cast; omega
      have e2 : shl q ((p : Int) + 1 - ((p + 2 : Nat) : Int)) = q / 2 := by
        have : (p : Int) + 1 - ((p + 2 : Nat) : Int) = -1 := by push_cast; omega
        rw [this]; rfl
      rw [ex, e1, e2, pow_one]
      have t0 : 0 ≤ (((q % 2 : Nat) : ℚ) + r / D) / 2 := by
        have : (0 : ℚ) ≤ ((q % 2 : Nat) : ℚ) := by positivity
        linarith
      have t1 : (((q % 2 : Nat) : ℚ) + r / D) / 2 < 1 := by
        have : ((q % 2 : Nat) : ℚ) ≤ 1 := by
          have : q % 2 ≤ 1 := by omega
          exact_mod_cast this
        linarith
      have := two_steps p emin hp he (q / 2) ((((q % 2 : Nat) : ℚ) + r / D) / 2) (E + 1) t0 t1
        (by omega) (by omega) hEm
      have hx' : (n : ℚ) / d = (((q / 2 : Nat) : ℚ) + (((q % 2 : Nat) : ℚ) + r / D) / 2) * 2 ^ (E + 1) := by
        rw [hx, zpow_add₀ h2, zpow_one]
        have : (q : ℚ) = 2 * ((q / 2 : Nat) : ℚ) + ((q % 2 : Nat) : ℚ) := by
          exact_mod_cast (Nat.div_add_mod q 2).symm
        rw [this]
        ring
      rw [hx', ← this]
      congr 2
      have : (q % 2 * D + r = 0) ↔ (((q % 2 : Nat) : ℚ) + r / D) / 2 = 0 := by
        constructor
        · intro h
          have h3 : r = 0 := by omega
          have h4 : q % 2 = 0 := by
            rcases Nat.mod_two_eq_zero_or_one q with h5 | h5
            · exact h5
            · rw [h5] at h; omega
          rw [h3, h4]; simp
        · intro h
          have h3 : (0 : ℚ) ≤ ((q % 2 : Nat) : ℚ) := by positivity
          have h4 : ((q % 2 : Nat) : ℚ) = 0 := by linarith
          have h5 : (r : ℚ) / D = 0 := by linarith
          have h6 : q % 2 = 0 := by exact_mod_cast h4
          rw [div_eq_zero_iff] at h5
          have h7 : r = 0 := by
            rcases h5 with h | h
            · exact_mod_cast h
            · exact absurd h hD0.ne'
          rw [h6, h7]; simp
      simp only [this]

example : asFloat 53 (-1021) (2 ^ 54 + 1) 3 = rnd 53 (-1021) ((2 ^ 54 + 1) / 3) := by
  have := asFloat_partial 53 (-1021) (by decide) (by decide) (2 ^ 54 + 1) 3 (by decide) (by decide) (by
    refine le_trans (zpow_le_one_of_nonpos₀ (by norm_num) (by decide)) ?_
    norm_num)
  norm_num at this ⊢
  exact this

/-- **A LargePositiveInteger is converted to the nearest Float, half to even.** -/
theorem largeAsFloat_spec (p : Nat) (emin : Int) (hp : 1 ≤ p) (he : emin ≤ 0) (x : Nat) :
    largeAsFloat p emin x = rnd p emin x := by
  have h2 : (2 : ℚ) ≠ 0 := by norm_num
  unfold largeAsFloat
  simp only
  split
  · rfl
  · rename_i hgt
    have hx0 : 0 < x := by
      rcases Nat.eq_zero_or_pos x with rfl | h
      · simp [highBit] at hgt
      · exact h
    obtain ⟨x1, x2⟩ := highBit_le x hx0
    have hfe := fexp_nat x hx0
    obtain ⟨u, hu⟩ : ∃ u : Nat, highBit x = p + (u + 1) := ⟨highBit x - p - 1, by omega⟩
    have ht : ((highBit x : Int) - p) = ((u + 1 : Nat) : Int) := by rw [hu]; push_cast; ring
    rw [ht, Int.toNat_natCast, Nat.add_sub_cancel]
    -- the mantissa has p bits
    have hU : 0 < 2 ^ u := by positivity
    have hpow : 2 ^ (u + 1) = 2 * 2 ^ u := by rw [pow_succ, mul_comm]
    have x1' : 2 ^ (p - 1) * 2 ^ (u + 1) ≤ x := by
      have e : ((highBit x : Int) - 1) = ((p - 1 + (u + 1) : Nat) : Int) := by rw [hu]; omega
      rw [e, zpow_natCast, pow_add] at x1
      exact_mod_cast x1
    have x2' : x < 2 ^ p * 2 ^ (u + 1) := by
      rw [hu, zpow_natCast, pow_add] at x2
      exact_mod_cast x2
    have hm1 : 2 ^ (p - 1) ≤ x / 2 ^ (u + 1) := (Nat.le_div_iff_mul_le (by positivity)).mpr x1'
    have hm2 : x / 2 ^ (u + 1) < 2 ^ p := (Nat.div_lt_iff_lt_mul (by positivity)).mpr x2'
    -- the parts
    have hc : x / 2 ^ u = 2 * (x / 2 ^ (u + 1)) + x / 2 ^ u % 2 := by
      have : x / 2 ^ (u + 1) = x / 2 ^ u / 2 := by rw [Nat.div_div_eq_div_mul, pow_succ]
      omega
    have hlow := Nat.div_add_mod x (2 ^ u)
    have hlowlt := Nat.mod_lt x hU
    generalize x / 2 ^ (u + 1) = m at *
    generalize hcc : x / 2 ^ u % 2 = c at *
    have hc2 : c < 2 := by omega
    rw [hc] at hlow
    generalize x % 2 ^ u = l at *
    have hxq : (x : ℚ) / 2 ^ ((u + 1 : Nat) : Int) = ((m : Int) : ℚ) + (c / 2 + l / 2 ^ (u + 1)) := by
      have : (x : ℚ) = 2 ^ u * (2 * m + c) + l := by exact_mod_cast hlow.symm
      rw [this, zpow_natCast, pow_succ, Int.cast_natCast]
      field_simp
      ring
    have hl1 : (l : ℚ) / 2 ^ (u + 1) < 1 / 2 := by
      rw [div_lt_iff₀ (by positivity), pow_succ]
      have : (l : ℚ) < 2 ^ u := by exact_mod_cast hlowlt
      linarith
    have hl0 : (0 : ℚ) ≤ l / 2 ^ (u + 1) := by positivity
    have hlz : l ≠ 0 → (0 : ℚ) < l / 2 ^ (u + 1) := by
      intro h
      have : (0 : ℚ) < l := by exact_mod_cast Nat.pos_of_ne_zero h
      positivity
    have hrhs : rnd p emin (x : ℚ) =
        ((if c = 1 ∧ (m % 2 = 1 ∨ l ≠ 0) then m + 1 else m : Nat) : ℚ) * 2 ^ ((u + 1 : Nat) : Int) := by
      have hxq0 : (x : ℚ) ≠ 0 := by exact_mod_cast hx0.ne'
      have hul : ulp p emin (x : ℚ) = ((u + 1 : Nat) : Int) := by
        rw [ulp, hfe, hu]; push_cast; omega
      rw [rnd, if_neg hxq0, hul, hxq]
      congr 1
      rw [rhe_int_add]
      · rcases (by omega : c = 0 ∨ c = 1) with rfl | rfl
        · rw [if_pos (by simp; linarith), if_neg (by simp)]; simp
        · rw [if_neg (by push_cast; linarith)]
          by_cases hlz' : l = 0
          · rw [hlz']
            have : ¬ (1 / 2 : ℚ) < ((1 : Nat) : ℚ) / 2 + ((0 : Nat) : ℚ) / 2 ^ (u + 1) := by simp
            rw [if_neg this]
            by_cases hm : m % 2 = 1
            · rw [if_neg (show ¬ (m : Int) % 2 = 0 by omega), if_pos ⟨rfl, Or.inl hm⟩]; push_cast; rfl
            · rw [if_pos (show (m : Int) % 2 = 0 by omega), if_neg (by simp; omega)]; simp
          · have := hlz hlz'
            rw [if_pos (by push_cast; linarith), if_pos ⟨rfl, Or.inr hlz'⟩]
            push_cast; rfl
      · have : (0 : ℚ) ≤ c / 2 := by positivity
        linarith
      · have : (c : ℚ) / 2 ≤ 1 / 2 := by
          have : (c : ℚ) ≤ 1 := by exact_mod_cast (by omega : c ≤ 1)
          linarith
        linarith
    rw [hrhs]
    generalize hM : (if c = 1 ∧ (m % 2 = 1 ∨ l ≠ 0) then m + 1 else m) = M
    have hMb : 2 ^ (p - 1) ≤ M ∧ M ≤ 2 ^ p := by rw [← hM]; split <;> omega
    have hMi : (2 : Int) ^ (p - 1) ≤ (M : Int) ∧ (M : Int) ≤ 2 ^ p := by exact_mod_cast hMb
    have hMc : coerce p emin M = M := by
      have := rnd_mantissa p emin hp M 0 hMi (by omega)
      simpa [coerce] using this
    rw [hMc, timesTwoPower]
    have := rnd_mantissa p emin hp M ((u + 1 : Nat) : Int) hMi (by omega)
    simpa using this

/-- **Denormalised results are rounded twice**: there is a positive Fraction whose
conversion to a FloatD is not the FloatD nearest to it. -/
theorem asFloat_denormal_wrong : asFloat 53 (-1021) (2 ^ 54 + 11) (2 ^ 1077) = (2 ^ 51 + 2) / 2 ^ 1074 ∧
    rnd 53 (-1021) ((2 ^ 54 + 11) / 2 ^ 1077) = (2 ^ 51 + 1) / 2 ^ 1074 := by
  constructor
  · decide +kernel
  · decide +kernel

end Verif.Frac
