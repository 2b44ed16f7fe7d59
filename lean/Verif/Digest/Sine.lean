import Verif.Digest.Rfc
import Mathlib.Analysis.Complex.Exponential
import Mathlib.Analysis.Complex.Trigonometric
import Mathlib.Algebra.Order.Floor.Semiring

/-!
# The constants of MD5

RFC 1321, 3.4: "Let T[i] denote the i-th element of the table, which is equal to the integer part of 4294967296
times abs(sin(i)), where i is in radians."  Here all 64 constants of `packages/digest/md5.c` are shown to be that,
with the sine of real numbers.
-/

namespace Verif.Digest.MD5

/-- `T[i + 1]` of RFC 1321: the integer part of 4294967296 times the absolute value of the sine of `i + 1`. -/
noncomputable def sineT (i : Nat) : W := BitVec.ofNat 32 ⌊(2 : ℝ) ^ 32 * |Real.sin (i + 1)|⌋₊

/-- The imaginary part of a power of the imaginary unit. -/
def sgn (m : Nat) : Int := match m % 4 with | 1 => 1 | 3 => -1 | _ => 0

/-- `n!` times the sum of the first `n` terms of the series of the sine of `k`. -/
def series (k : Int) : Nat → Int
  | 0 => 0
  | n + 1 => (n + 1 : Int) * (series k n + sgn n * k ^ n)

theorem I_pow_im (m : Nat) : (Complex.I ^ m).im = sgn m := by
  have h : m % 4 = 0 ∨ m % 4 = 1 ∨ m % 4 = 2 ∨ m % 4 = 3 := by omega
  rw [← Nat.div_add_mod m 4, pow_add, pow_mul, Complex.I_pow_four, one_pow, one_mul]
  rcases h with h | h | h | h <;> simp [h, sgn, Nat.add_mod, pow_succ]

theorem term_im (k m : Nat) :
    ((((k : ℝ) : ℂ) * Complex.I) ^ m / (m.factorial : ℂ)).im = sgn m * (k : ℝ) ^ m / m.factorial := by
  rw [mul_pow, show (m.factorial : ℂ) = ((m.factorial : ℝ) : ℂ) from (Complex.ofReal_natCast _).symm,
    Complex.div_ofReal_im, ← Complex.ofReal_pow, Complex.im_ofReal_mul, I_pow_im, mul_comm]

theorem series_eq (k n : Nat) : ((series k n : Int) : ℝ) =
    n.factorial * (∑ m ∈ Finset.range n, (((k : ℝ) : ℂ) * Complex.I) ^ m / (m.factorial : ℂ)).im := by
  induction n with
  | zero => simp [series]
  | succ n ih =>
    rw [Finset.sum_range_succ, Complex.add_im, term_im, Nat.factorial_succ, series]
    generalize (∑ m ∈ Finset.range n, (((k : ℝ) : ℂ) * Complex.I) ^ m / (m.factorial : ℂ)).im = u at ih ⊢
    push_cast
    rw [ih]
    have : (n.factorial : ℝ) ≠ 0 := by exact_mod_cast n.factorial_ne_zero
    field_simp

/-- The sum is near the sine. -/
theorem sine_near (k n : Nat) (h : 2 * k ≤ n + 1) :
    |n.factorial * Real.sin k - (series k n : Int)| ≤ 2 * (k : ℝ) ^ n := by
  have hx : ‖((k : ℝ) : ℂ) * Complex.I‖ = k := by
    rw [Complex.norm_mul, Complex.norm_I, mul_one, Complex.norm_real, Real.norm_natCast]
  have hb := Complex.exp_bound' (x := ((k : ℝ) : ℂ) * Complex.I) (n := n) (by
    rw [hx, div_le_iff₀ (by positivity)]
    have : ((2 * k : Nat) : ℝ) ≤ ((n + 1 : Nat) : ℝ) := by exact_mod_cast h
    push_cast at this ⊢
    linarith)
  have h2 := le_trans (Complex.abs_im_le_norm _) hb
  rw [Complex.sub_im, Complex.exp_ofReal_mul_I_im, hx] at h2
  have hf : (0 : ℝ) < n.factorial := by exact_mod_cast n.factorial_pos
  rw [series_eq, ← mul_sub, abs_mul, abs_of_pos hf]
  calc _ ≤ (n.factorial : ℝ) * ((k : ℝ) ^ n / n.factorial * 2) := mul_le_mul_of_nonneg_left h2 hf.le
    _ = 2 * (k : ℝ) ^ n := by field_simp

/-- What is checked of each constant, with 300 terms of the series. -/
def near (T k : Nat) : Bool :=
  Nat.ble (T * Nat.factorial 300 + 2 ^ 32 * (2 * k ^ 300)) (2 ^ 32 * (series k 300).natAbs) &&
  Nat.blt (2 ^ 32 * ((series k 300).natAbs + 2 * k ^ 300)) ((T + 1) * Nat.factorial 300)

theorem near_floor {T k : Nat} (hk : k ≤ 64) (h : near T k = true) : ⌊(2 : ℝ) ^ 32 * |Real.sin k|⌋₊ = T := by
  unfold near at h
  generalize hn : (300 : Nat) = n at h
  have hs := sine_near k n (by omega)
  rw [Bool.and_eq_true, Nat.ble_eq, Nat.blt_eq] at h
  obtain ⟨h1, h2⟩ := h
  have hf : (0 : ℝ) < n.factorial := by exact_mod_cast n.factorial_pos
  have h1' : (T : ℝ) * n.factorial + 2 ^ 32 * (2 * (k : ℝ) ^ n) ≤ 2 ^ 32 * ((series k n).natAbs : ℝ) := by exact_mod_cast h1
  have h2' : 2 ^ 32 * (((series k n).natAbs : ℝ) + 2 * (k : ℝ) ^ n) < ((T : ℝ) + 1) * n.factorial := by exact_mod_cast h2
  have habs : ((series k n).natAbs : ℝ) = |((series k n : Int) : ℝ)| := by
    rw [Nat.cast_natAbs, Int.cast_abs]
  rw [habs] at h1' h2'
  have e : |(n.factorial : ℝ) * Real.sin k| = n.factorial * |Real.sin k| := by rw [abs_mul, abs_of_pos hf]
  have t1 := abs_sub_abs_le_abs_sub ((n.factorial : ℝ) * Real.sin k) ((series k n : Int) : ℝ)
  have t2 := abs_sub_abs_le_abs_sub ((series k n : Int) : ℝ) ((n.factorial : ℝ) * Real.sin k)
  rw [abs_sub_comm] at t2
  rw [e] at t1 t2
  rw [Nat.floor_eq_iff (by positivity)]
  constructor
  · refine le_of_mul_le_mul_right ?_ hf
    nlinarith
  · refine lt_of_mul_lt_mul_right ?_ hf.le
    nlinarith

theorem table_near : ∀ i < 64, near (tableT i).toNat (i + 1) = true := by decide +kernel

/-- All constants are as RFC 1321 says. -/
theorem tableT_sine (i : Nat) (h : i < 64) : tableT i = sineT i := by
  have := near_floor (k := i + 1) (by omega) (table_near i h)
  push_cast at this
  rw [sineT, this, BitVec.ofNat_toNat, BitVec.setWidth_eq]

/-- `md5_process_block` is what RFC 1321 says. -/
theorem block_spec (r : R4) (l : List Nat) : block r l = specBlock sineT r l := by
  rw [block_table]
  have : ∀ s : R4, (List.range 64).foldl (specStep tableT (leWord l)) s =
      (List.range 64).foldl (specStep sineT (leWord l)) s := by
    intro s
    apply foldl_congr
    intro s i hi
    unfold specStep
    rw [tableT_sine i (List.mem_range.mp hi)]
  unfold specBlock
  rw [this]

end Verif.Digest.MD5
