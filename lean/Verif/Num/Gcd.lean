import Verif.Num.Model
import Mathlib.Data.Nat.Log
import Mathlib.Algebra.GCDMonoid.Nat
import Mathlib.Tactic.Ring

/-! # gcd:, lcm:, floorLog: and ceilingLog: -/

namespace Verif.Num

theorem gcdLoop_spec : ∀ (f a b : Nat), b < f → gcdLoop f a b = .ok (Nat.gcd a b : Nat) := by
  intro f
  induction f with
  | zero => intro a b h; omega
  | succ f ih =>
    intro a b h
    rw [gcdLoop]
    by_cases hb : b = 0
    · subst hb; simp
    · have hb' : (b : Int) ≠ 0 := by omega
      rw [if_neg hb']
      have hmod : Int.fmod (a : Int) (b : Int) = ((a % b : Nat) : Int) := by
        rw [Int.fmod_eq_emod_of_nonneg _ (by omega)]; simp
      have hlt := Nat.mod_lt a (Nat.pos_of_ne_zero hb)
      rw [hmod, ih b (a % b) (by omega)]
      rw [Nat.gcd_comm a b, Nat.gcd_rec b a, Nat.gcd_comm]

theorem gcd_nat (a b : Nat) : gcd a b = .ok (Nat.gcd a b : Nat) := by
  have h : ¬ ((a : Int) < 0 ∨ (b : Int) < 0) := by omega
  simp only [gcd, if_neg h, Int.natAbs_natCast]
  split
  · rw [gcdLoop_spec _ _ _ (by omega), Nat.gcd_comm]
  · rw [gcdLoop_spec _ _ _ (by omega)]

/-- **`a gcd: b` always answers the greatest common divisor**: it divides both
arguments, every common divisor divides it, and it is not negative — for all
Integers, whatever their signs. -/
theorem gcd_spec (x y : Int) :
    ∃ g, gcd x y = .ok g ∧ 0 ≤ g ∧ g ∣ x ∧ g ∣ y ∧ ∀ d, d ∣ x → d ∣ y → d ∣ g := by
  have key : gcd x y = .ok ((Nat.gcd x.natAbs y.natAbs : Nat) : Int) := by
    by_cases h : x < 0 ∨ y < 0
    · have := gcd_nat x.natAbs y.natAbs
      rw [← this]
      have h2 : ¬ (((x.natAbs : Nat) : Int) < 0 ∨ ((y.natAbs : Nat) : Int) < 0) := by omega
      simp only [gcd, if_pos h, if_neg h2]
    · have hx : ((x.natAbs : Nat) : Int) = x := by omega
      have hy : ((y.natAbs : Nat) : Int) = y := by omega
      have := gcd_nat x.natAbs y.natAbs
      rwa [hx, hy] at this
  refine ⟨_, key, by omega, ?_, ?_, ?_⟩
  · exact Int.natCast_dvd.mpr (Nat.gcd_dvd_left _ _)
  · exact Int.natCast_dvd.mpr (Nat.gcd_dvd_right _ _)
  · intro d h1 h2
    exact Int.dvd_natCast.mpr (Nat.dvd_gcd (Int.natAbs_dvd_natAbs.mpr h1) (Int.natAbs_dvd_natAbs.mpr h2))

theorem gcd_int (x y : Int) : gcd x y = .ok ((Int.gcd x y : Nat) : Int) := by
  obtain ⟨g, hg, h0, h1, h2, h3⟩ := gcd_spec x y
  rw [hg]
  congr 1
  apply Int.dvd_antisymm h0 (by omega)
  · exact Int.dvd_coe_gcd h1 h2
  · exact h3 _ (Int.gcd_dvd_left ..) (Int.gcd_dvd_right ..)

example : gcd (-12) 18 = .ok 6 := by decide
example : gcd 0 0 = .ok 0 := by decide
example : gcd 0 (-5) = .ok 5 := by decide

theorem gcdNat_eq (a b : Nat) : gcdNat a b = Nat.gcd a b := by
  simp [gcdNat, gcd_nat]

/-- **`a lcm: b`, when one of the two is not zero, answers the least common
multiple**: non-negative, a multiple of both, dividing every common multiple. -/
theorem lcm_partial (x y : Int) (h : x ≠ 0 ∨ y ≠ 0) :
    ∃ m, lcm x y = .ok m ∧ 0 ≤ m ∧ x ∣ m ∧ y ∣ m ∧ ∀ d, x ∣ d → y ∣ d → m ∣ d := by
  have hg : (Int.gcd x y : Int) ≠ 0 := by
    intro h0
    have := Int.gcd_eq_zero_iff.mp (by exact_mod_cast h0)
    omega
  have hval : lcm x y = .ok ((Int.lcm x y : Nat) : Int) := by
    simp only [lcm, gcd_int, if_neg hg]
    congr 1
    have hd : Int.fdiv x (Int.gcd x y : Int) = x / (Int.gcd x y : Int) :=
      Int.fdiv_eq_ediv_of_nonneg _ (by omega)
    rw [hd, Int.lcm, Int.natAbs_mul]
    have : (x / (Int.gcd x y : Int)).natAbs = x.natAbs / Int.gcd x y := by
      rw [Int.natAbs_ediv_of_dvd (Int.gcd_dvd_left ..)]; simp
    rw [this]
    congr 1
    rw [Nat.div_mul_right_comm (Int.gcd_dvd_natAbs_left x y)]
    rfl
  refine ⟨_, hval, by omega, Int.dvd_lcm_left .., Int.dvd_lcm_right .., ?_⟩
  intro d h1 h2
  exact Int.coe_lcm_dvd h1 h2

example : lcm (-4) 6 = .ok 12 := by decide
example : lcm 0 7 = .ok 0 := by decide

/-- **`0 lcm: 0` is a division by zero**, although 0 is the least common multiple
(every Integer's multiples of 0 being just 0). -/
theorem lcm_zero_zero_fails : lcm 0 0 = .error .zeroDivide := by decide

/-! ### Logarithms -/

theorem floorLogLoop_spec (r : Nat) (hr : 2 ≤ r) : ∀ (f me ans : Nat), me < f →
    ∃ k, floorLogLoop f r me ans = .ok (ans + k) ∧ me < r ^ (k + 1) ∧ (1 ≤ me → r ^ k ≤ me) ∧
      (me = 0 → k = 0) := by
  intro f
  induction f with
  | zero => intro me ans h; omega
  | succ f ih =>
    intro me ans h
    rw [floorLogLoop]
    by_cases hm : me ≥ r
    · rw [if_pos hm]
      have hlt : me / r < me := Nat.div_lt_self (by omega) (by omega)
      obtain ⟨k, h1, h2, h3, h4⟩ := ih (me / r) (ans + 1) (by omega)
      have hpos : 1 ≤ me / r := Nat.div_pos hm (by omega)
      refine ⟨k + 1, by rw [h1]; congr 1; omega, ?_, ?_, by omega⟩
      · rw [pow_succ]
        exact (Nat.div_lt_iff_lt_mul (by omega)).mp h2
      · intro _
        rw [pow_succ]
        exact (Nat.le_div_iff_mul_le (by omega)).mp (h3 hpos)
    · rw [if_neg hm]
      exact ⟨0, by simp, by simpa using by omega, by simpa using fun h => h, fun _ => rfl⟩

/-- **`n floorLog: radix` is the integer part of the logarithm**: for a positive
`n` and a radix of at least 2, the answer `k` is the only number with
`radix^k ≤ n < radix^(k+1)`. -/
theorem floorLog_spec (n r : Int) (hn : 1 ≤ n) (hr : 2 ≤ r) :
    ∃ k : Nat, floorLog n r = .ok k ∧ r ^ k ≤ n ∧ n < r ^ (k + 1) ∧
      ∀ j : Nat, r ^ j ≤ n → n < r ^ (j + 1) → j = k := by
  obtain ⟨n', rfl⟩ := Int.eq_ofNat_of_zero_le (show 0 ≤ n by omega)
  obtain ⟨r', rfl⟩ := Int.eq_ofNat_of_zero_le (show 0 ≤ r by omega)
  obtain ⟨k, h1, h2, h3, _⟩ := floorLogLoop_spec r' (by omega) (n' + 2) n' 0 (by omega)
  have h3 := h3 (by omega)
  refine ⟨k, ?_, by exact_mod_cast h3, by exact_mod_cast h2, ?_⟩
  · rw [floorLog, if_neg (by omega), if_neg (by omega)]
    simpa using h1
  · intro j hj1 hj2
    have hj1 : r' ^ j ≤ n' := by exact_mod_cast hj1
    have hj2 : n' < r' ^ (j + 1) := by exact_mod_cast hj2
    have a : j < k + 1 := (Nat.pow_lt_pow_iff_right (by omega : 1 < r')).mp (lt_of_le_of_lt hj1 h2)
    have b : k < j + 1 := (Nat.pow_lt_pow_iff_right (by omega : 1 < r')).mp (lt_of_le_of_lt h3 hj2)
    omega

example : floorLog 999 10 = .ok 2 := by decide
example : floorLog 1000 10 = .ok 3 := by decide

theorem floorLog_zero (r : Int) (hr : 2 ≤ r) : floorLog 0 r = .ok 0 := by
  rw [floorLog, if_neg (by omega), if_neg (by omega)]
  simp only [Int.natAbs_zero, Nat.zero_add]
  rw [floorLogLoop, if_neg (by omega)]

/-- A logarithm with a negative receiver or a radix below 2 is refused. -/
theorem floorLog_refuses (n r : Int) (h : n < 0 ∨ r < 2) : floorLog n r = .error .arith := by
  rw [floorLog]
  split
  · rfl
  · rw [if_pos (by omega)]

theorem ceilingLogLoop_spec (r : Nat) (hr : 2 ≤ r) : ∀ (f me ans : Nat), 2 ≤ me → me < f →
    ∃ k, ceilingLogLoop f r me ans = .ok (ans + k) ∧ r ^ k < me ∧ me < r ^ (k + 1) + r ^ k := by
  intro f
  induction f with
  | zero => intro me ans _ h; omega
  | succ f ih =>
    intro me ans h2 h
    rw [ceilingLogLoop]
    by_cases hm : me > r
    · rw [if_pos hm]
      by_cases hq : me / r = 1
      · have hf : 0 < f := by omega
        obtain ⟨f', rfl⟩ : ∃ f', f = f' + 1 := ⟨f - 1, by omega⟩
        rw [hq, ceilingLogLoop, if_neg (by omega)]
        refine ⟨1, rfl, by simpa using hm, ?_⟩
        have := (Nat.div_lt_iff_lt_mul (show 0 < r by omega)).mp (by omega : me / r < 2)
        have h4 : r * 2 ≤ r * r := Nat.mul_le_mul_left _ hr
        simp only [pow_succ, pow_zero, one_mul]
        omega
      · have hpos : 1 ≤ me / r := Nat.div_pos (by omega) (by omega)
        have hlt : me / r < me := Nat.div_lt_self (by omega) (by omega)
        obtain ⟨k, h5, h6, h7⟩ := ih (me / r) (ans + 1) (by omega) (by omega)
        refine ⟨k + 1, by rw [h5]; congr 1; omega, ?_, ?_⟩
        · rw [pow_succ]
          have : (r ^ k + 1) * r ≤ me := (Nat.le_div_iff_mul_le (by omega)).mp h6
          have h8 : (r ^ k + 1) * r = r ^ k * r + r := by ring
          omega
        · have := (Nat.div_lt_iff_lt_mul (show 0 < r by omega)).mp h7
          have h8 : (r ^ (k + 1) + r ^ k) * r = r ^ (k + 1 + 1) + r ^ (k + 1) := by ring
          omega
    · rw [if_neg hm]
      refine ⟨0, rfl, by simpa using by omega, ?_⟩
      simp only [Nat.zero_add, pow_one, pow_zero]
      omega

/-- The rounded-up logarithm, as a specification: the least `k` with
`n ≤ radix^k`. -/
def IsCeilLog (n r : Int) (k : Nat) : Prop := n ≤ r ^ k ∧ ∀ j : Nat, n ≤ r ^ j → k ≤ j

/-- **`n ceilingLog: radix` for `n ≥ 2` is never too large and at most one too
small**: it is exactly right unless `n` lies between the power it names and that
power plus the one before. -/
theorem ceilingLog_partial (n r : Int) (hn : 2 ≤ n) (hr : 2 ≤ r) :
    ∃ k : Nat, ceilingLog n r = .ok k ∧ 1 ≤ k ∧ r ^ (k - 1) < n ∧ n < r ^ k + r ^ (k - 1) ∧
      (IsCeilLog n r k ↔ n ≤ r ^ k) := by
  obtain ⟨n', rfl⟩ := Int.eq_ofNat_of_zero_le (show 0 ≤ n by omega)
  obtain ⟨r', rfl⟩ := Int.eq_ofNat_of_zero_le (show 0 ≤ r by omega)
  obtain ⟨k, h1, h2, h3⟩ := ceilingLogLoop_spec r' (by omega) (n' + 2) n' 1 (by omega) (by omega)
  refine ⟨1 + k, ?_, by omega, ?_, ?_, ?_⟩
  · rw [ceilingLog, if_neg (by omega), if_neg (by omega)]
    simpa using h1
  · rw [Nat.add_sub_cancel_left]; exact_mod_cast h2
  · rw [Nat.add_sub_cancel_left, Nat.add_comm 1 k]; exact_mod_cast h3
  · constructor
    · exact fun h => h.1
    · intro h
      refine ⟨h, fun j hj => ?_⟩
      have hj : n' ≤ r' ^ j := by exact_mod_cast hj
      have := (Nat.pow_lt_pow_iff_right (by omega : 1 < r')).mp (lt_of_lt_of_le h2 hj)
      omega

example : ceilingLog 1000 10 = .ok 3 ∧ IsCeilLog 1000 10 3 :=
  ⟨by decide, by decide, fun j hj => by
    by_contra h
    have : j = 0 ∨ j = 1 ∨ j = 2 := by omega
    rcases this with rfl | rfl | rfl <;> exact absurd hj (by decide)⟩

/-- **`ceilingLog:` is wrong**: `9 ceilingLog: 2` answers 3 although
`9 > 2 raisedTo: 3`, and `1 ceilingLog: 10` answers 1 although the logarithm
is 0. -/
theorem ceilingLog_wrong :
    (ceilingLog 9 2 = .ok 3 ∧ ¬ IsCeilLog 9 2 3) ∧ (ceilingLog 1 10 = .ok 1 ∧ ¬ IsCeilLog 1 10 1) := by
  refine ⟨⟨by decide, fun h => ?_⟩, by decide, fun h => ?_⟩
  · exact absurd h.1 (by decide)
  · have := h.2 0 (by decide); omega

theorem ceilingLogLoop_pow (r : Nat) (hr : 2 ≤ r) : ∀ (m f ans : Nat), 1 ≤ m → m < f →
    ceilingLogLoop f r (r ^ m) ans = .ok (ans + (m - 1)) := by
  intro m
  induction m with
  | zero => intro f ans h; omega
  | succ m ih =>
    intro f ans _ hf
    obtain ⟨f', rfl⟩ : ∃ f', f = f' + 1 := ⟨f - 1, by omega⟩
    rw [ceilingLogLoop]
    by_cases hm : m = 0
    · subst hm; rw [if_neg (by simp)]; simp
    · have hp : r ^ 1 < r ^ (m + 1) := Nat.pow_lt_pow_right (by omega) (by omega)
      rw [if_pos (by simpa using hp)]
      have hdiv : r ^ (m + 1) / r = r ^ m := by
        rw [pow_succ, Nat.mul_div_cancel _ (by omega)]
      rw [hdiv, ih f' _ (by omega) (by omega)]
      congr 1; omega

/-- It is wrong for every radix: one more than any power above the first is
answered one too small. -/
theorem ceilingLog_wrong_every_radix (r : Nat) (hr : 2 ≤ r) (e : Nat) (he : 2 ≤ e) :
    ceilingLog ((r ^ e + 1 : Nat) : Int) r = .ok e ∧ ¬ IsCeilLog ((r ^ e + 1 : Nat) : Int) r e := by
  constructor
  · rw [ceilingLog, if_neg (by omega), if_neg (by omega), Int.natAbs_natCast, Int.natAbs_natCast]
    have hp : r ^ 1 < r ^ e := Nat.pow_lt_pow_right (by omega) (by omega)
    have he' : e < r ^ e := Nat.lt_pow_self (by omega)
    rw [pow_one] at hp
    rw [ceilingLogLoop, if_pos (by omega)]
    obtain ⟨m, rfl⟩ : ∃ m, e = m + 1 := ⟨e - 1, by omega⟩
    have hdiv : (r ^ (m + 1) + 1) / r = r ^ m := by
      rw [pow_succ, Nat.mul_comm, Nat.mul_add_div (by omega), Nat.div_eq_of_lt (by omega)]; omega
    rw [hdiv, ceilingLogLoop_pow r hr m _ _ (by omega) (by omega)]
    congr 1; omega
  · intro h
    have := h.1
    push_cast at this
    omega

example : ceilingLog 1001 10 = .ok 3 := by decide

end Verif.Num
