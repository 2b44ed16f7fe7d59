import Verif.Reals.Mul
import Mathlib.Tactic.NormNum
import Mathlib.Tactic.Positivity
import Mathlib.Tactic.FieldSimp
import Mathlib.Data.Rat.Cast.Order
import Mathlib.Algebra.Order.Field.Power

/-!
# Sums, products and quotients as rational numbers
-/

namespace Verif.Reals

/-- The number that is stood for. -/
def value (r : Real) : ℚ := val r.sig * 2 ^ (r.exp - 159)

/-- A positive number, with its highest bit set. -/
structure Norm (r : Real) : Prop where
  ok : Ok r.sig
  top : 2 ^ 159 ≤ val r.sig
  sign : r.sign = 1

/-- What an operation may lose: one part in `2 ^ 151`. -/
def eta : ℚ := 1 - 1 / 2 ^ 151

theorem Norm.pos {r : Real} (h : Norm r) : 0 < value r := by
  have h1 := h.top
  have : (0 : ℚ) < val r.sig := by
    have : 0 < val r.sig := lt_of_lt_of_le (by norm_num) h1
    exact_mod_cast this
  unfold value
  positivity

theorem eta_pos : 0 < eta := by unfold eta; norm_num
theorem eta_lt : eta < 1 := by unfold eta; norm_num

/-- Below, by at most 256 units. -/
theorem close {m n : ℕ} {u t : ℚ} (hu : 0 < u) (hm : 2 ^ 159 ≤ m) (hn : n ≤ 255) (h : t ≤ (m + n : ℕ) * u) : t * eta ≤ m * u := by
  have hm' : (2 : ℚ) ^ 159 ≤ m := by exact_mod_cast hm
  have hn' : (n : ℚ) ≤ 255 := by exact_mod_cast hn
  have h1 : ((m + n : ℕ) : ℚ) * eta ≤ m := by
    push_cast
    unfold eta
    have : (n : ℚ) ≤ (m + n) * (1 / 2 ^ 151) := by
      have h2 : (2 : ℚ) ^ 159 * (1 / 2 ^ 151) ≤ (m + n) * (1 / 2 ^ 151) := by
        apply mul_le_mul_of_nonneg_right _ (by positivity)
        have : (0 : ℚ) ≤ n := by positivity
        linarith
      have h3 : (2 : ℚ) ^ 159 * (1 / 2 ^ 151) = 256 := by norm_num
      linarith
    linarith
  calc t * eta ≤ ((m + n : ℕ) : ℚ) * u * eta := mul_le_mul_of_nonneg_right h eta_pos.le
    _ = ((m + n : ℕ) : ℚ) * eta * u := by ring
    _ ≤ m * u := mul_le_mul_of_nonneg_right h1 hu.le

theorem zpow_nat (e : ℤ) (k : ℕ) : (2 : ℚ) ^ (e + k) = 2 ^ e * 2 ^ k := by
  rw [zpow_add₀ (by norm_num), zpow_natCast]

theorem unit_mul (E : ℤ) (e : ℕ) : (2 : ℚ) ^ (E + (e : ℤ) - 159) = 2 ^ (e + 159) * 2 ^ (E - 318) := by
  rw [← zpow_natCast, ← zpow_add₀ (by norm_num), show E + (e : ℤ) - 159 = ((e + 159 : ℕ) : ℤ) + (E - 318) by push_cast; ring]

theorem unit_pos (e : ℤ) : (0 : ℚ) < 2 ^ e := by positivity

/-! ### Products -/

theorem doMul_spec {r s : Real} (hr : Norm r) (h : Norm s) (lsb : ℕ) (hz : ∀ i < lsb, limb s.sig i = 0) :
    Norm (doMul r s lsb) ∧ value (doMul r s lsb) ≤ value r * value s ∧ value r * value s * eta ≤ value (doMul r s lsb) := by
  have hs0 : val s.sig / 2 ^ 159 = 1 := by
    have h1 := h.top
    have h2 := h.ok.lt
    simp only [Nat.reducePow] at *
    omega
  obtain ⟨e', h1, h2, h3, h4, h5⟩ := mulLoop_spec s.sig h.ok lsb hz (val r.sig) (r.exp + s.exp) 160 9 15 0 0 r.sig r.sig
    (by norm_num) (by norm_num) (by norm_num)
    ⟨hr.ok, hr.ok, by norm_num, hr.top, by rw [show 16 * 9 + 15 = 159 by norm_num, hs0]; simp,
      by rw [show 16 * 9 + 15 = 159 by norm_num, hs0]; simp⟩
  have e0 : r.exp + s.exp + ((0 : ℕ) : ℤ) = r.exp + s.exp := by simp
  rw [e0] at h1 h2 h3 h4 h5
  have hval : value (doMul r s lsb) =
      val (mulLoop s.sig lsb 160 9 15 r.sig r.sig (r.exp + s.exp)).1 * 2 ^ (r.exp + s.exp + (e' : ℤ) - 159) := by
    unfold value doMul
    simp only
    rw [h1]
  have hn : Norm (doMul r s lsb) := ⟨h2, h3, by unfold doMul; simp [hr.sign, h.sign]⟩
  generalize (mulLoop s.sig lsb 160 9 15 r.sig r.sig (r.exp + s.exp)).1 = m at h2 h3 h4 h5 hval
  have hu := unit_mul (r.exp + s.exp) e'
  have hp : value r * value s = ((val r.sig * val s.sig : ℕ) : ℚ) * 2 ^ (r.exp + s.exp - 318) := by
    unfold value
    rw [show r.exp + s.exp - 318 = (r.exp - 159) + (s.exp - 159) by ring, zpow_add₀ (by norm_num)]
    push_cast
    ring
  have hup := unit_pos (r.exp + s.exp - 318)
  refine ⟨hn, ?_, ?_⟩
  · rw [hval, hp, hu, ← mul_assoc]
    refine mul_le_mul_of_nonneg_right ?_ hup.le
    exact_mod_cast h4
  · rw [hval]
    refine close (n := 161) (unit_pos _) h3 (by norm_num) ?_
    rw [hp, hu, ← mul_assoc]
    refine mul_le_mul_of_nonneg_right ?_ hup.le
    have h6 : val r.sig * val s.sig ≤ (val m + 161) * 2 ^ (e' + 159) := h5
    exact_mod_cast h6

theorem findIdx_low (s : List ℕ) : ∀ i < s.findIdx (· ≠ 0), limb s i = 0 := by
  intro i hi
  have := List.not_of_lt_findIdx hi
  have hl : i < s.length := lt_of_lt_of_le hi List.findIdx_le_length
  unfold limb
  rw [List.getD_eq_getElem?_getD, List.getElem?_eq_getElem hl]
  simpa using this

theorem mul_spec {r s : Real} (hr : Norm r) (h : Norm s) :
    Norm (mul r s) ∧ value (mul r s) ≤ value r * value s ∧ value r * value s * eta ≤ value (mul r s) := by
  unfold mul
  rw [if_neg (by rw [hr.sign]; norm_num)]
  exact doMul_spec hr h _ (findIdx_low _)

/-- A natural number in range has an exponent in range, and its significand is a multiple. -/
theorem whole {r : Real} (h : Norm r) {N : ℕ} (hv : value r = N) (hN : N < 2 ^ 160) :
    ∃ e : ℕ, e ≤ 159 ∧ r.exp = e ∧ val r.sig = N * 2 ^ (159 - e) ∧ 2 ^ e ≤ N := by
  have hpos := h.pos
  have hle : (2 : ℚ) ^ 159 * 2 ^ (r.exp - 159) ≤ N := by
    rw [← hv]
    unfold value
    refine mul_le_mul_of_nonneg_right ?_ (unit_pos _).le
    exact_mod_cast h.top
  have hlt : (N : ℚ) < 2 ^ 160 * 2 ^ (r.exp - 159) := by
    rw [← hv]
    unfold value
    refine mul_lt_mul_of_pos_right ?_ (unit_pos _)
    exact_mod_cast h.ok.lt
  have e1 : (2 : ℚ) ^ 159 * 2 ^ (r.exp - 159) = 2 ^ r.exp := by
    rw [← zpow_natCast, ← zpow_add₀ (by norm_num)]; congr 1; push_cast; ring
  have e2 : (2 : ℚ) ^ 160 * 2 ^ (r.exp - 159) = 2 ^ (r.exp + 1) := by
    rw [← zpow_natCast, ← zpow_add₀ (by norm_num)]; congr 1; push_cast; ring
  rw [e1] at hle
  rw [e2] at hlt
  have hup : r.exp < 160 := by
    by_contra hc
    have : (2 : ℚ) ^ (160 : ℤ) ≤ 2 ^ r.exp := zpow_le_zpow_right₀ (by norm_num) (by omega)
    have h3 : (2 : ℚ) ^ (160 : ℤ) ≤ N := this.trans hle
    have h4 : (N : ℚ) < 2 ^ 160 := by exact_mod_cast hN
    have h5 : (2 : ℚ) ^ (160 : ℤ) = 2 ^ 160 := by norm_cast
    linarith
  have hlow : 0 ≤ r.exp := by
    by_contra hc
    have : (2 : ℚ) ^ (r.exp + 1) ≤ 2 ^ (0 : ℤ) := zpow_le_zpow_right₀ (by norm_num) (by omega)
    rw [zpow_zero] at this
    have h3 : (N : ℚ) < 1 := by linarith
    have h4 : N = 0 := by
      have : N < 1 := by exact_mod_cast h3
      omega
    rw [h4] at hv
    rw [hv] at hpos
    simp at hpos
  obtain ⟨e, he⟩ := Int.eq_ofNat_of_zero_le hlow
  rw [he] at hle hup
  refine ⟨e, by omega, he, ?_, ?_⟩
  · have : (val r.sig : ℚ) = N * 2 ^ (159 - e) := by
      rw [← hv]
      unfold value
      rw [he, mul_assoc, ← zpow_natCast, ← zpow_add₀ (by norm_num)]
      have : (e : ℤ) - 159 + ((159 - e : ℕ) : ℤ) = 0 := by omega
      rw [this, zpow_zero, mul_one]
    exact_mod_cast this
  · rw [zpow_natCast] at hle
    exact_mod_cast hle

theorem doMul_exact {r s : Real} (hr : Norm r) (h : Norm s) (lsb : ℕ) (hz : ∀ i < lsb, limb s.sig i = 0) {N M : ℕ} (hN : value r = N)
    (hM : value s = M) (hNM : N * M < 2 ^ 160) : value (doMul r s lsb) = (N * M : ℕ) := by
  have hs0 : val s.sig / 2 ^ 159 = 1 := by
    have h1 := h.top
    have h2 := h.ok.lt
    simp only [Nat.reducePow] at *
    omega
  have hN0 : 0 < N := by
    have := hr.pos
    rw [hN] at this
    exact_mod_cast this
  have hM0 : 0 < M := by
    have := h.pos
    rw [hM] at this
    exact_mod_cast this
  obtain ⟨a, ha, hae, har, hal⟩ := whole hr hN (lt_of_le_of_lt (Nat.le_mul_of_pos_right _ hM0) hNM)
  obtain ⟨b, hb, hbe, hbs, hbl⟩ := whole h hM (lt_of_le_of_lt (Nat.le_mul_of_pos_left _ hN0) hNM)
  have hab : a + b < 160 := by
    have h1 : 2 ^ (a + b) ≤ N * M := by rw [pow_add]; exact Nat.mul_le_mul hal hbl
    exact (Nat.pow_lt_pow_iff_right (by norm_num : 1 < 2)).1 (lt_of_le_of_lt h1 hNM)
  obtain ⟨c, hc1, hc2, hc3⟩ : ∃ c, c ≤ 1 ∧ 159 + c ≤ 318 - a - b ∧ val r.sig * val s.sig < 2 ^ (319 + c) := by
    by_cases hab' : a + b ≤ 158
    · refine ⟨1, le_refl _, by omega, ?_⟩
      rw [show 319 + 1 = 160 + 160 from rfl, pow_add]
      exact Nat.mul_lt_mul'' hr.ok.lt h.ok.lt
    · refine ⟨0, by norm_num, by omega, ?_⟩
      rw [har, hbs]
      have e1 : N * 2 ^ (159 - a) * (M * 2 ^ (159 - b)) = N * M * 2 ^ 159 := by
        have : 2 ^ (159 - a) * 2 ^ (159 - b) = 2 ^ 159 := by rw [← pow_add]; congr 1; omega
        rw [← this]
        generalize 2 ^ (159 - a) = x
        generalize 2 ^ (159 - b) = y
        ring
      rw [e1, show 319 + 0 = 160 + 159 by norm_num, pow_add]
      exact Nat.mul_lt_mul_of_pos_right hNM (by positivity)
  obtain ⟨e', h1, h2⟩ := mulLoop_exact s.sig h.ok lsb hz (val r.sig) (159 - b) c (lt_of_lt_of_le (by norm_num) hr.top)
    (by rw [hbs]; exact Nat.dvd_mul_left _ _)
    (by
      rw [har, mul_assoc, ← pow_add]
      exact (pow_dvd_pow 2 (by omega)).trans (Nat.dvd_mul_left _ _))
    hc3 (r.exp + s.exp) 160 9 15 0 r.sig r.sig (by norm_num) (by norm_num) (by norm_num) (by omega)
    ⟨hr.ok, hr.ok, by norm_num, hr.top, by rw [show 16 * 9 + 15 = 159 by norm_num, hs0]; simp⟩
  have e0 : r.exp + s.exp + ((0 : ℕ) : ℤ) = r.exp + s.exp := by simp
  rw [e0] at h1 h2
  have hu := unit_mul (r.exp + s.exp) e'
  have hp : value r * value s = ((val r.sig * val s.sig : ℕ) : ℚ) * 2 ^ (r.exp + s.exp - 318) := by
    unfold value
    rw [show r.exp + s.exp - 318 = (r.exp - 159) + (s.exp - 159) by ring, zpow_add₀ (by norm_num)]
    push_cast
    ring
  have hval : value (doMul r s lsb) = value r * value s := by
    rw [hp, ← h2]
    unfold value doMul
    simp only
    rw [h1, hu, Nat.cast_mul, Nat.cast_pow, Nat.cast_ofNat, mul_assoc]
  rw [hval, hN, hM]
  push_cast
  rfl

theorem mul_exact {r s : Real} (hr : Norm r) (h : Norm s) {N M : ℕ} (hN : value r = N) (hM : value s = M) (hNM : N * M < 2 ^ 160) :
    value (mul r s) = (N * M : ℕ) := by
  unfold mul
  rw [if_neg (by rw [hr.sign]; norm_num)]
  exact doMul_exact hr h _ (findIdx_low _) hN hM hNM

/-! ### Sums -/

/-- The sum at one exponent, of numbers where what was shifted out is less than a unit. -/
theorem addAligned_near {r : Real} {s : List ℕ} (hr : Ok r.sig) (hs : Ok s) (hn : 2 ^ 159 ≤ val r.sig + val s) (hsg : r.sign = 1) {t : ℚ}
    (h1 : ((val r.sig + val s : ℕ) : ℚ) * 2 ^ (r.exp - 159) ≤ t) (h2 : t < ((val r.sig + val s + 1 : ℕ) : ℚ) * 2 ^ (r.exp - 159)) :
    Norm (addAligned r s) ∧ value (addAligned r s) ≤ t ∧ t < value (addAligned r s) + 2 ^ ((addAligned r s).exp - 159) := by
  obtain ⟨a1, a2, a3, a4⟩ := addAligned_spec hr hs
  generalize addAligned r s = q at *
  by_cases hc : val r.sig + val s < 2 ^ 160
  · obtain ⟨b1, b2⟩ := a3 hc
    refine ⟨⟨a1, by rw [b1]; exact hn, by rw [a2, hsg]⟩, ?_, ?_⟩
    · unfold value; rw [b1, b2]; exact h1
    · unfold value; rw [b1, b2]
      push_cast at h2 ⊢
      linarith
  · obtain ⟨b1, b2⟩ := a4 (by omega)
    have hu : (2 : ℚ) ^ (q.exp - 159) = 2 * 2 ^ (r.exp - 159) := by
      rw [b2, show r.exp + 1 - 159 = (r.exp - 159) + 1 by ring, zpow_add₀ (by norm_num), zpow_one, mul_comm]
    have hup := unit_pos (r.exp - 159)
    refine ⟨⟨a1, ?_, by rw [a2, hsg]⟩, ?_, ?_⟩
    · rw [b1]
      simp only [Nat.reducePow] at *
      omega
    · unfold value
      rw [hu, ← mul_assoc]
      refine le_trans (mul_le_mul_of_nonneg_right ?_ hup.le) h1
      have : val q.sig * 2 ≤ val r.sig + val s := by omega
      exact_mod_cast this
    · unfold value
      rw [hu]
      refine lt_of_lt_of_le h2 ?_
      have : val r.sig + val s + 1 ≤ (val q.sig + 1) * 2 := by omega
      have h3 : ((val r.sig + val s + 1 : ℕ) : ℚ) ≤ ((val q.sig + 1) * 2 : ℕ) := by exact_mod_cast this
      calc _ ≤ (((val q.sig + 1) * 2 : ℕ) : ℚ) * 2 ^ (r.exp - 159) := mul_le_mul_of_nonneg_right h3 hup.le
        _ = _ := by push_cast; ring

theorem shifted (S d : ℕ) (x e : ℤ) (hd : e = x + d) : ((S / 2 ^ d : ℕ) : ℚ) * 2 ^ (e - 159) ≤ S * 2 ^ (x - 159) ∧
    (S : ℚ) * 2 ^ (x - 159) < ((S / 2 ^ d + 1 : ℕ) : ℚ) * 2 ^ (e - 159) := by
  have hu : (2 : ℚ) ^ (e - 159) = 2 ^ d * 2 ^ (x - 159) := by
    rw [hd, show x + (d : ℤ) - 159 = (x - 159) + d by ring, zpow_nat, mul_comm]
  have hup := unit_pos (x - 159)
  have h1 : S / 2 ^ d * 2 ^ d ≤ S := Nat.div_mul_le_self _ _
  have h2 : S < (S / 2 ^ d + 1) * 2 ^ d := by
    have := Nat.lt_div_mul_add (a := S) (b := 2 ^ d) (by positivity)
    rwa [Nat.add_mul, one_mul]
  rw [hu, ← mul_assoc, ← mul_assoc]
  constructor
  · refine mul_le_mul_of_nonneg_right ?_ hup.le
    exact_mod_cast h1
  · refine mul_lt_mul_of_pos_right ?_ hup
    exact_mod_cast h2

/-- The sum is what is left of the true one after the lowest unit. -/
theorem doAdd_spec {r s : Real} (hr : Norm r) (hs : Norm s) : Norm (doAdd r s) ∧ value (doAdd r s) ≤ value r + value s ∧
    value r + value s < value (doAdd r s) + 2 ^ ((doAdd r s).exp - 159) := by
  -- what happens when the smaller one vanishes
  have gone : ∀ {r s : Real}, Norm r → Norm s → (d : ℕ) → r.exp = s.exp + d → val s.sig / 2 ^ d = 0 →
      Norm r ∧ value r ≤ value r + value s ∧ value r + value s < value r + 2 ^ (r.exp - 159) := by
    intro r s hr hs d he h0
    obtain ⟨_, h2⟩ := shifted (val s.sig) d s.exp r.exp he
    rw [h0] at h2
    have := hs.pos
    refine ⟨hr, ?_, ?_⟩
    · linarith
    · unfold value at *
      simpa using h2
  have hl : ∀ {s : Real}, Norm s → ∀ d, 160 ≤ d → val s.sig / 2 ^ d = 0 := by
    intro s hs d hd
    exact Nat.div_eq_of_lt (lt_of_lt_of_le hs.ok.lt (Nat.pow_le_pow_right (by norm_num) hd))
  unfold doAdd
  by_cases h1 : r.exp < s.exp
  · rw [if_pos h1]
    obtain ⟨d, hd⟩ := Int.eq_ofNat_of_zero_le (show 0 ≤ s.exp - r.exp by omega)
    have hde : s.exp = r.exp + d := by omega
    rw [add_comm (value r)]
    by_cases h2 : 160 ≤ s.exp - r.exp
    · rw [if_pos h2]
      exact gone hs hr d hde (hl hr d (by omega))
    · rw [if_neg h2]
      simp only [hd, Int.toNat_natCast]
      by_cases h3 : nonzero (rshift r.sig d) = true
      · rw [if_pos h3]
        obtain ⟨a, b⟩ := shifted (val r.sig) d r.exp s.exp hde
        refine addAligned_near (r := ⟨rshift r.sig d, s.exp, r.sign⟩) (rshift_ok hr.ok d) hs.ok (hs.top.trans (Nat.le_add_left _ _)) hr.sign ?_ ?_
        · simp only [rshift_val hr.ok]
          unfold value
          push_cast at *
          linarith
        · simp only [rshift_val hr.ok]
          unfold value
          push_cast at *
          linarith
      · rw [if_neg h3]
        exact gone hs hr d hde (by rw [← rshift_val hr.ok]; exact nonzero_iff.1 (by simpa using h3))
  · rw [if_neg h1]
    by_cases h1' : s.exp < r.exp
    · rw [if_pos h1']
      obtain ⟨d, hd⟩ := Int.eq_ofNat_of_zero_le (show 0 ≤ r.exp - s.exp by omega)
      have hde : r.exp = s.exp + d := by omega
      by_cases h2 : 160 ≤ r.exp - s.exp
      · rw [if_pos h2]
        exact gone hr hs d hde (hl hs d (by omega))
      · rw [if_neg h2]
        simp only [hd, Int.toNat_natCast]
        by_cases h3 : nonzero (rshift s.sig d) = true
        · rw [if_pos h3]
          obtain ⟨a, b⟩ := shifted (val s.sig) d s.exp r.exp hde
          refine addAligned_near hr.ok (rshift_ok hs.ok d) (hr.top.trans (Nat.le_add_right _ _)) hr.sign ?_ ?_
          · simp only [rshift_val hs.ok]
            unfold value
            push_cast at *
            linarith
          · simp only [rshift_val hs.ok]
            unfold value
            push_cast at *
            linarith
        · rw [if_neg h3]
          exact gone hr hs d hde (by rw [← rshift_val hs.ok]; exact nonzero_iff.1 (by simpa using h3))
    · rw [if_neg h1']
      have he : r.exp = s.exp := by omega
      have hup := unit_pos (r.exp - 159)
      refine addAligned_near hr.ok hs.ok (hr.top.trans (Nat.le_add_right _ _)) hr.sign ?_ ?_
      · unfold value
        rw [← he]
        push_cast
        linarith
      · unfold value
        rw [← he]
        push_cast
        linarith

/-- A number of few bits that is less than a unit away is the number itself. -/
theorem exact_of_floor {m k : ℕ} {w q : ℤ} (hm : k < 2 * m) (h1 : (m : ℚ) * 2 ^ w ≤ k * 2 ^ q) (h2 : (k : ℚ) * 2 ^ q < (m + 1) * 2 ^ w) :
    (m : ℚ) * 2 ^ w = k * 2 ^ q := by
  have hmp : (0 : ℚ) < m := by
    have : 0 < m := by omega
    exact_mod_cast this
  have hwq : w ≤ q := by
    by_contra hc
    have h3 : (2 : ℚ) ^ w = 2 ^ (w - 1 - q) * 2 * 2 ^ q := by
      rw [← zpow_add_one₀ (by norm_num), ← zpow_add₀ (by norm_num)]; congr 1; ring
    have h4 : (1 : ℚ) ≤ 2 ^ (w - 1 - q) := one_le_zpow₀ (by norm_num) (by omega)
    rw [h3, ← mul_assoc] at h1
    have h5 := le_of_mul_le_mul_right h1 (unit_pos q)
    have h6 : (k : ℚ) < 2 * m := by exact_mod_cast hm
    nlinarith
  obtain ⟨d, hd⟩ := Int.eq_ofNat_of_zero_le (show 0 ≤ q - w by omega)
  have hq : (2 : ℚ) ^ q = 2 ^ d * 2 ^ w := by
    rw [show q = w + d by omega, zpow_nat, mul_comm]
  rw [hq, ← mul_assoc] at h1 h2 ⊢
  have h3 := le_of_mul_le_mul_right h1 (unit_pos w)
  have h4 := lt_of_mul_lt_mul_right h2 (unit_pos w).le
  have h5 : m ≤ k * 2 ^ d := by exact_mod_cast h3
  have h6 : k * 2 ^ d < m + 1 := by exact_mod_cast h4
  have h7 : m = k * 2 ^ d := by omega
  rw [h7]
  push_cast
  rfl

theorem doAdd_near {r s : Real} (hr : Norm r) (hs : Norm s) : (value r + value s) * eta ≤ value (doAdd r s) := by
  obtain ⟨h1, _, h3⟩ := doAdd_spec hr hs
  refine close (n := 1) (unit_pos _) h1.top (by norm_num) ?_
  unfold value at h3 ⊢
  push_cast
  linarith

theorem doAdd_exact {r s : Real} (hr : Norm r) (hs : Norm s) {N M : ℕ} (hN : value r = N) (hM : value s = M) (hNM : N + M < 2 ^ 160) :
    value (doAdd r s) = (N + M : ℕ) := by
  obtain ⟨h1, h2, h3⟩ := doAdd_spec hr hs
  rw [hN, hM] at h2 h3
  have := exact_of_floor (m := val (doAdd r s).sig) (k := N + M) (w := (doAdd r s).exp - 159) (q := 0)
    (by have := h1.top; simp only [Nat.reducePow] at *; omega)
    (by unfold value at h2; push_cast; linarith) (by unfold value at h3; push_cast; linarith)
  unfold value
  rw [this]
  simp

end Verif.Reals
