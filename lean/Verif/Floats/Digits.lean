import Verif.Floats.Model
import Mathlib.Tactic.Linarith
import Mathlib.Tactic.Positivity
import Mathlib.Tactic.Ring
import Mathlib.Tactic.FieldSimp
import Mathlib.Algebra.Order.Archimedean.Basic

/-!
# Printing Floats: what the loop computes
-/

namespace Verif.Floats

/-! ### Logarithms -/

theorem logInt_spec (n : ℕ) : ∀ x : ℕ, 0 < x → x ≤ n → ∀ a : ℤ, ∃ k : ℕ, logInt n x a = a + k ∧ 10 ^ k ≤ x ∧ x < 10 ^ (k + 1) := by
  induction n with
  | zero => intro x h1 h2; omega
  | succ n ih =>
    intro x h1 h2 a
    rw [logInt]
    split
    · obtain ⟨k, e1, e2, e3⟩ := ih (x / 10) (by omega) (by omega) (a + 1)
      refine ⟨k + 1, ?_, ?_, ?_⟩
      · rw [e1]; push_cast; ring
      · rw [pow_succ]; omega
      · rw [pow_succ]; omega
    · exact ⟨0, by simp, by rw [pow_zero]; omega, by simp; omega⟩

theorem logUp_spec (n : ℕ) (x : ℚ) : ∀ (k : ℕ), ((k = 0 ∧ 1 ≤ x) ∨ (0 < k ∧ (10 : ℚ) ^ (k - 1) ≤ x)) → x < (10 : ℚ) ^ (k + n) →
    ∃ j : ℕ, logUp (n + 1) x (10 ^ k) ((k : ℤ) - 1) = j ∧ (10 : ℚ) ^ j ≤ x ∧ x < (10 : ℚ) ^ (j + 1) := by
  induction n with
  | zero =>
    intro k h1 h2
    rw [logUp]
    rcases h1 with ⟨rfl, h1⟩ | ⟨h0, h1⟩
    · rw [pow_zero, if_pos h1]
      simp only [add_zero, pow_zero] at h2
      linarith
    · rw [add_zero] at h2
      rw [if_neg (by linarith)]
      refine ⟨k - 1, by omega, h1, ?_⟩
      rwa [Nat.sub_add_cancel h0]
  | succ n ih =>
    intro k h1 h2
    rw [logUp]
    split
    · rename_i hle
      have := ih (k + 1) (Or.inr ⟨by omega, by simpa using hle⟩) (by rwa [show k + 1 + n = k + (n + 1) by omega])
      rw [pow_succ] at this
      push_cast at this
      rwa [show ((k : ℤ) + 1 - 1) = (k : ℤ) - 1 + 1 by ring] at this
    · rename_i hle
      rcases h1 with ⟨rfl, h1⟩ | ⟨h0, h1⟩
      · rw [pow_zero] at hle
        exact absurd h1 hle
      · refine ⟨k - 1, by omega, h1, ?_⟩
        rw [Nat.sub_add_cancel h0]
        linarith

theorem logDown_spec (n : ℕ) : ∀ (x : ℚ) (a : ℤ), 0 < x → x < 1 → 1 ≤ x * 10 ^ (n + 1) →
    ∃ k : ℕ, logDown n x a = a - k ∧ 1 ≤ x * 10 ^ (k + 1) ∧ x * 10 ^ k < 1 := by
  induction n with
  | zero => intro x a _ h1 h2; exact ⟨0, by simp [logDown], by simpa using h2, by simpa using h1⟩
  | succ n ih =>
    intro x a h0 h1 h2
    rw [logDown]
    split
    · rename_i hlt
      obtain ⟨k, e1, e2, e3⟩ := ih (x * 10) (a - 1) (by linarith) hlt (by rw [mul_assoc, ← pow_succ']; exact h2)
      refine ⟨k + 1, by rw [e1]; push_cast; ring, ?_, ?_⟩
      · rw [mul_assoc, ← pow_succ'] at e2; exact e2
      · rw [mul_assoc, ← pow_succ'] at e3; exact e3
    · rename_i hlt
      exact ⟨0, by simp, by simpa using hlt, by simpa using h1⟩

/-- `floorLog: 10`. -/
theorem floorLog_spec {x : ℚ} (hx : 0 < x) : (10 : ℚ) ^ floorLog x ≤ x ∧ x < (10 : ℚ) ^ (floorLog x + 1) := by
  have hnum : 0 < x.num := Rat.num_pos.mpr hx
  unfold floorLog
  split
  · rename_i hd
    obtain ⟨k, e1, e2, e3⟩ := logInt_spec _ x.num.toNat (by omega) (Nat.le_refl _) 0
    have hxn : x = (x.num.toNat : ℚ) := by
      have : (x.num.toNat : ℤ) = x.num := by omega
      have h4 : (x.num : ℚ) = (x.num.toNat : ℚ) := by rw [← Int.cast_natCast, this]
      rw [← h4]
      conv_lhs => rw [← Rat.num_div_den x, hd]
      simp
    rw [e1, zero_add, zpow_natCast, show ((k : ℤ) + 1) = ((k + 1 : ℕ) : ℤ) by push_cast; ring, zpow_natCast]
    have e2' : (10 : ℚ) ^ k ≤ (x.num.toNat : ℚ) := by exact_mod_cast e2
    have e3' : (x.num.toNat : ℚ) < (10 : ℚ) ^ (k + 1) := by exact_mod_cast e3
    rw [← hxn] at e2' e3'
    exact ⟨e2', e3'⟩
  · split
    · rename_i hlt
      have hbig : 1 ≤ x * 10 ^ (x.den + 1) := by
        have h1 : x * x.den = x.num := Rat.mul_den_eq_num x
        have h2 : (x.den : ℚ) ≤ 10 ^ (x.den + 1) := by
          have : x.den < 10 ^ (x.den + 1) := Nat.lt_of_lt_of_le (Nat.lt_pow_self (by omega)) (Nat.pow_le_pow_right (by omega) (by omega))
          exact_mod_cast this.le
        have h3 : (1 : ℚ) ≤ x.num := by exact_mod_cast hnum
        calc (1 : ℚ) ≤ x * x.den := by rw [h1]; exact h3
          _ ≤ x * 10 ^ (x.den + 1) := by gcongr
      obtain ⟨k, e1, e2, e3⟩ := logDown_spec _ x (-1) hx hlt hbig
      have hp : (0 : ℚ) < 10 ^ (k + 1) := by positivity
      have hp' : (0 : ℚ) < 10 ^ k := by positivity
      rw [e1, show (-1 - (k : ℤ)) = -((k + 1 : ℕ) : ℤ) by push_cast; ring, zpow_neg, zpow_natCast,
        show (-((k + 1 : ℕ) : ℤ) + 1) = -(k : ℤ) by push_cast; ring, zpow_neg, zpow_natCast]
      refine ⟨(inv_le_iff_one_le_mul₀ hp).mpr e2, ?_⟩
      rw [← one_div, lt_div_iff₀ hp']
      exact e3
    · rename_i hge
      have hbig : x < (10 : ℚ) ^ (0 + x.num.toNat) := by
        have h1 : x * x.den = x.num := Rat.mul_den_eq_num x
        have h2 : (1 : ℚ) ≤ x.den := by exact_mod_cast x.den_pos
        have h3 : x ≤ x.num := by nlinarith
        have h4 : (x.num : ℚ) = (x.num.toNat : ℚ) := by
          have : (x.num.toNat : ℤ) = x.num := by omega
          rw [← Int.cast_natCast, this]
        have h5 : x.num.toNat < 10 ^ (0 + x.num.toNat) := by
          rw [zero_add]
          exact Nat.lt_pow_self (by omega)
        have h6 : (x.num.toNat : ℚ) < 10 ^ (0 + x.num.toNat) := by exact_mod_cast h5
        linarith
      obtain ⟨j, e1, e2, e3⟩ := logUp_spec _ x 0 (Or.inl ⟨rfl, by linarith⟩) hbig
      rw [pow_zero] at e1
      simp only [Nat.cast_zero, zero_sub] at e1
      rw [e1, zpow_natCast, show ((j : ℤ) + 1) = ((j + 1 : ℕ) : ℤ) by push_cast; ring, zpow_natCast]
      exact ⟨e2, e3⟩

/-! ### The loop -/

section
variable (x : ℚ) (E : ℤ)

/-- The weight of the digit with number `k`. -/
def wt (k : ℕ) : ℚ := (10 : ℚ) ^ (E - k)

/-- The first `k` digits. -/
def pre (k : ℕ) : ℤ := ⌊x / wt E k⌋

/-- The number that is below or equal to `x` with `k` digits, and the next above. -/
def lo (k : ℕ) : ℚ := pre x E k * wt E k
def hi (k : ℕ) : ℚ := (pre x E k + 1) * wt E k

variable {x E}

theorem wt_pos (k : ℕ) : 0 < wt E k := by exact zpow_pos (by norm_num) _

theorem wt_succ (k : ℕ) : wt E k = 10 * wt E (k + 1) := by
  unfold wt
  rw [show E - (k : ℤ) = (E - ((k + 1 : ℕ) : ℤ)) + 1 by push_cast; ring, zpow_add₀ (by norm_num), zpow_one, mul_comm]

theorem wt_add (i n : ℕ) : wt E i = 10 ^ n * wt E (i + n) := by
  induction n with
  | zero => simp
  | succ n ih => rw [ih, wt_succ (i + n), pow_succ, ← add_assoc]; ring

theorem lo_le (k : ℕ) : lo x E k ≤ x := by
  unfold lo pre
  have := Int.floor_le (x / wt E k)
  rwa [le_div_iff₀ (wt_pos k)] at this

theorem lt_hi (k : ℕ) : x < hi x E k := by
  unfold hi pre
  have := Int.lt_floor_add_one (x / wt E k)
  rwa [div_lt_iff₀ (wt_pos k)] at this

theorem hi_eq (k : ℕ) : hi x E k = lo x E k + wt E k := by unfold hi lo; ring

/-- The prefix is known from its bounds. -/
theorem pre_eq {k : ℕ} {z : ℤ} (h1 : z * wt E k ≤ x) (h2 : x < (z + 1) * wt E k) : pre x E k = z := by
  unfold pre
  rw [Int.floor_eq_iff, le_div_iff₀ (wt_pos k), div_lt_iff₀ (wt_pos k)]
  exact ⟨h1, h2⟩

theorem le_lo {k : ℕ} {z : ℤ} (h : z * wt E k ≤ x) : z * wt E k ≤ lo x E k := by
  unfold lo
  have : z ≤ pre x E k := by
    unfold pre
    rw [Int.le_floor, le_div_iff₀ (wt_pos k)]
    exact h
  have h' : (z : ℚ) ≤ pre x E k := by exact_mod_cast this
  have := wt_pos (E := E) k
  gcongr

theorem hi_le {k : ℕ} {z : ℤ} (h : x < z * wt E k) : hi x E k ≤ z * wt E k := by
  unfold hi
  have : pre x E k < z := by
    unfold pre
    rw [Int.floor_lt, div_lt_iff₀ (wt_pos k)]
    exact h
  have h' : (pre x E k : ℚ) + 1 ≤ z := by exact_mod_cast this
  have := wt_pos (E := E) k
  gcongr

theorem lo_mono (i n : ℕ) : lo x E i ≤ lo x E (i + n) := by
  have h : ((pre x E i * 10 ^ n : ℤ) : ℚ) * wt E (i + n) = lo x E i := by
    rw [lo, wt_add i n]; push_cast; ring
  rw [← h]
  apply le_lo
  rw [h]
  exact lo_le i

theorem hi_anti (i n : ℕ) : hi x E (i + n) ≤ hi x E i := by
  have h : (((pre x E i + 1) * 10 ^ n : ℤ) : ℚ) * wt E (i + n) = hi x E i := by
    rw [hi, wt_add i n]; push_cast; ring
  rw [← h]
  apply hi_le
  rw [h]
  exact lt_hi i

variable (x E) in
/-- Both numbers are near. -/
def Stop (eps : ℚ) (k : ℕ) : Prop := x - lo x E k < eps ∧ hi x E k - x ≤ eps

instance (eps : ℚ) (k : ℕ) : Decidable (Stop x E eps k) := by unfold Stop; infer_instance

variable (x E) in
/-- The variables after `k` rounds. -/
structure Inv (eps : ℚ) (k : ℕ) (s : St) : Prop where
  num : s.num = x - lo x E k
  weight : s.weight = wt E (k + 1)
  digits : s.digits = pre x E k
  nines : s.allNines = decide (pre x E k + 1 = 10 ^ k)
  down : s.sameDown = decide (eps ≤ x - lo x E k)
  up : k = 0 ∧ s.sameUp = true ∨ 0 < k ∧ s.sameUp = decide (eps < hi x E k - x)

theorem pre_range (h1 : x < wt E 0) (h0 : 0 ≤ x) (k : ℕ) : 0 ≤ pre x E k ∧ pre x E k + 1 ≤ 10 ^ k := by
  constructor
  · unfold pre
    exact Int.floor_nonneg.mpr (div_nonneg h0 (wt_pos k).le)
  · unfold pre
    have : ⌊x / wt E k⌋ < 10 ^ k := by
      rw [Int.floor_lt, div_lt_iff₀ (wt_pos k)]
      have := wt_add (E := E) 0 k
      rw [zero_add] at this
      push_cast
      rw [← this]
      exact h1
    omega

theorem step_inv {eps : ℚ} {k : ℕ} {s : St} (h0 : 0 ≤ x) (h1 : x < wt E 0) (h : Inv x E eps k s) :
    Inv x E eps (k + 1) (step eps s) ∧ (step eps s).prev = wt E (k + 1) ∧
      (step eps s).digit = pre x E (k + 1) - 10 * pre x E k := by
  have hw := wt_pos (E := E) (k + 1)
  have hd : ⌊s.num / s.weight⌋ = pre x E (k + 1) - 10 * pre x E k := by
    rw [h.num, h.weight, lo, wt_succ k, sub_div,
      show (pre x E k : ℚ) * (10 * wt E (k + 1)) / wt E (k + 1) = ((10 * pre x E k : ℤ) : ℚ) by
        push_cast; field_simp, Int.floor_sub_intCast]
    rfl
  have hnum : s.num - ((pre x E (k + 1) - 10 * pre x E k : ℤ) : ℚ) * s.weight = x - lo x E (k + 1) := by
    rw [h.num, h.weight, lo, lo, wt_succ k]
    push_cast
    ring
  have hr := pre_range h1 h0 (k + 1)
  have hr' := pre_range h1 h0 k
  have hm := lo_mono (x := x) (E := E) k 1
  have ha := hi_anti (x := x) (E := E) k 1
  have hlo : pre x E (k + 1) + 1 ≤ 10 * (pre x E k + 1) := by
    have h2 : hi x E (k + 1) ≤ hi x E k := ha
    rw [hi, hi, wt_succ k] at h2
    have : ((pre x E (k + 1) : ℚ) + 1) ≤ 10 * (pre x E k + 1) := by
      by_contra hc
      push Not at hc
      have := mul_lt_mul_of_pos_right hc hw
      linarith
    exact_mod_cast this
  refine ⟨⟨?_, ?_, ?_, ?_, ?_, Or.inr ⟨Nat.succ_pos k, ?_⟩⟩, h.weight, hd⟩
  · simp only [step, hd]
    exact hnum
  · simp only [step]
    rw [h.weight, wt_succ (k + 1)]
    ring
  · simp only [step, hd, h.digits]
    ring
  · simp only [step, hd, h.nines]
    rw [← Bool.decide_and, decide_eq_decide]
    rw [pow_succ]
    constructor
    · rintro ⟨e1, e2⟩; omega
    · intro e; constructor <;> omega
  · simp only [step, hd, hnum, h.down]
    rw [← Bool.decide_and, decide_eq_decide]
    constructor
    · exact fun e => e.2
    · exact fun e => ⟨by linarith, e⟩
  · simp only [step, hd, hnum]
    rw [h.weight]
    have e : (x - lo x E (k + 1) < wt E (k + 1) - eps) ↔ eps < hi x E (k + 1) - x := by
      rw [hi_eq]
      constructor <;> intro h <;> linarith
    rcases h.up with ⟨-, e'⟩ | ⟨-, e'⟩
    · rw [e', Bool.true_and, decide_eq_decide]
      exact e
    · rw [e', ← Bool.decide_and, decide_eq_decide, e]
      constructor
      · exact fun e => e.2
      · exact fun e => ⟨by have : hi x E (k + 1) ≤ hi x E k := ha; linarith, e⟩

/-- The loop ends at the first round where both numbers are near. -/
theorem loop_spec {eps : ℚ} (h0 : 0 ≤ x) (h1 : x < wt E 0) {K : ℕ} (hK : Stop x E eps K) :
    ∀ (n k : ℕ) (s : St), Inv x E eps k s → k < K → K - k ≤ n →
      (∀ i, 1 ≤ i → i ≤ k → ¬ Stop x E eps i) →
      ∃ (j : ℕ) (t : St), loop eps n s = some t ∧ 1 ≤ j ∧ Stop x E eps j ∧ (∀ i, 1 ≤ i → i < j → ¬ Stop x E eps i) ∧
        Inv x E eps j t ∧ t.prev = wt E j ∧ t.digit = pre x E j - 10 * pre x E (j - 1) := by
  intro n
  induction n with
  | zero => intro k s _ h2 h3; omega
  | succ n ih =>
    intro k s hs hk hn hno
    obtain ⟨g1, g2, g3⟩ := step_inv h0 h1 hs
    rw [loop]
    have hcond : ((step eps s).sameDown || (step eps s).sameUp) = decide (¬ Stop x E eps (k + 1)) := by
      rcases g1.up with ⟨h, -⟩ | ⟨-, h⟩
      · omega
      · rw [g1.down, h, ← Bool.decide_or, decide_eq_decide, Stop, not_and_or, not_lt, not_le]
    by_cases hst : Stop x E eps (k + 1)
    · rw [hcond, decide_eq_false (by simpa using hst)]
      exact ⟨k + 1, step eps s, rfl, by omega, hst, fun i h1 h2 => hno i h1 (by omega), g1, g2, by simpa using g3⟩
    · rw [hcond, decide_eq_true hst, if_pos rfl]
      have hne : k + 1 ≠ K := fun e => hst (e ▸ hK)
      apply ih (k + 1) _ g1 (by omega) (by omega)
      intro i h1 h2
      by_cases hi : i = k + 1
      · rw [hi]; exact hst
      · exact hno i h1 (by omega)

theorem exists_stop {eps : ℚ} (he : 0 < eps) : ∃ K, 1 ≤ K ∧ Stop x E eps K := by
  obtain ⟨n, hn⟩ := exists_pow_lt_of_lt_one (show (0 : ℚ) < eps / wt E 0 from div_pos he (wt_pos 0)) (show (1 / 10 : ℚ) < 1 by norm_num)
  have hw : wt E (n + 1) < eps := by
    have h1 := wt_add (E := E) 0 n
    rw [zero_add] at h1
    have h2 := wt_succ (E := E) n
    have h3 := wt_pos (E := E) (n + 1)
    rw [lt_div_iff₀ (wt_pos 0), h1, ← mul_assoc, ← mul_pow] at hn
    norm_num at hn
    linarith
  refine ⟨n + 1, by omega, ?_, ?_⟩
  · have := lt_hi (x := x) (E := E) (n + 1)
    rw [hi_eq] at this
    linarith
  · have := lo_le (x := x) (E := E) (n + 1)
    rw [hi_eq]
    linarith

end

end Verif.Floats
