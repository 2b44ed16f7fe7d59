import Verif.SmallInt.Spec

/-! # `lowBit` and `highBit` (kernel/SmallInt.st)

Smalltalk integers are `Int`; `bitShift: -n` is floor division by `2^n`
(proved of the primitive in `Props3`, `bitShift_right_exact`), and `bitAnd:` with
`2^n - 1` is the remainder modulo `2^n`. -/

namespace Verif.SmallInt

/-- One step of `lowBit`: if the low `n` bits are all zero, skip them. -/
def lowStep (n : Nat) (s : Int × Int) : Int × Int :=
  if s.1 % 2 ^ n = 0 then (s.1 / 2 ^ n, s.2 + n) else s

/-- `SmallInteger >> lowBit`: kernel/SmallInt.st:94-125. -/
def lowBit (x : Int) : Int :=
  if x = 0 then 0
  else
    let s := lowStep 2 (lowStep 4 (lowStep 8 (lowStep 16 (lowStep 30 (x, 2)))))
    s.2 - s.1 % 2

/-- One step of `highBit`: if anything is left above the low `n` bits, skip them. -/
def highStep (n : Nat) (s : Int × Int) : Int × Int :=
  if s.1 > 2 ^ n - 1 then (s.1 / 2 ^ n, s.2 + n) else s

/-- The `whileTrue:` of `highBit`, kernel/SmallInt.st:143-145. -/
def highLoop (n bit : Int) : Int × Int :=
  if n > 1073741823 then highLoop (n / 1073741824) (bit + 30) else (n, bit)
termination_by n.toNat
decreasing_by omega

/-- Two's complement `bitAnd:` of `n` and `-n`, used by `highBit` to recognise
powers of two (kernel/SmallInt.st:139): `n & -n` is the largest power of two
dividing `n`. -/
def lowMask (n : Nat) : Nat :=
  if n = 0 then 0 else if n % 2 = 1 then 1 else 2 * lowMask (n / 2)
decreasing_by omega

/-- `SmallInteger >> highBit`: kernel/SmallInt.st:127-167. -/
def highBit (x : Int) : Int :=
  if x = 0 then 0
  else
    let s : Int × Int :=
      if x < 0 then (-x, if (lowMask (-x).toNat : Int) = -x then 0 else 1) else (x, 0)
    let l := highLoop s.1 s.2
    let r := highStep 1 (highStep 2 (highStep 4 (highStep 8 (highStep 16 l))))
    r.1 + r.2

/-! ## Specification -/

/-- `k` is the 1-based position of the lowest set bit of `x`. -/
def IsLowBit (x : Int) (k : Int) : Prop :=
  ∃ m : Int, ∃ n : Nat, k = n + 1 ∧ x = (2 * m + 1) * 2 ^ n

/-- `k` is the number of bits needed: for a positive integer the position of its
highest set bit, for a negative one the position of its sign bit in the shortest
two's complement representation. -/
def IsHighBit (x : Int) (k : Nat) : Prop :=
  1 ≤ k ∧ if 0 < x then (2 : Int) ^ (k - 1) ≤ x ∧ x < 2 ^ k
          else -(2 : Int) ^ (k - 1) ≤ x ∧ (k = 1 ∨ x < -(2 : Int) ^ (k - 2))

/-! ## Proofs -/

theorem lowStep_spec (n : Nat) (x v c : Int) (s : Nat) (_hx : x ≠ 0)
    (h : x = v * 2 ^ s ∧ c = s + 2) :
    ∃ s' : Nat, x = (lowStep n (v, c)).1 * 2 ^ s' ∧ (lowStep n (v, c)).2 = s' + 2 ∧
      (((lowStep n (v, c)).1 = v ∧ v % 2 ^ n ≠ 0) ∨
        (v % 2 ^ n = 0 ∧ (lowStep n (v, c)).1 = v / 2 ^ n)) := by
  unfold lowStep
  simp only
  split
  · rename_i h0
    refine ⟨s + n, ?_, by simp; omega, Or.inr ⟨h0, rfl⟩⟩
    have : v = v / 2 ^ n * 2 ^ n := by
      have := Int.mul_ediv_add_emod v (2 ^ n)
      rw [Int.mul_comm] at this; omega
    simp only
    rw [Int.pow_add, Int.mul_comm (2 ^ s), ← Int.mul_assoc, ← this]
    exact h.1
  · rename_i h0
    exact ⟨s, h.1, h.2, Or.inl ⟨rfl, h0⟩⟩

/-- C31: `lowBit` is right for every non-zero SmallInteger but the smallest. -/
theorem lowBit_correct_partial (x : Int) (hx : InRange x) (h0 : x ≠ 0)
    (hmin : x ≠ -4611686018427387904) : IsLowBit x (lowBit x) := by
  unfold lowBit
  rw [if_neg h0]
  obtain ⟨s1, a1, b1, c1⟩ := lowStep_spec 30 x x 2 0 h0 ⟨by simp, rfl⟩
  generalize e1 : lowStep 30 (x, 2) = p1 at *
  obtain ⟨s2, a2, b2, c2⟩ := lowStep_spec 16 x p1.1 p1.2 s1 h0 ⟨a1, b1⟩
  generalize e2 : lowStep 16 p1 = p2 at *
  obtain ⟨s3, a3, b3, c3⟩ := lowStep_spec 8 x p2.1 p2.2 s2 h0 ⟨a2, b2⟩
  generalize e3 : lowStep 8 p2 = p3 at *
  obtain ⟨s4, a4, b4, c4⟩ := lowStep_spec 4 x p3.1 p3.2 s3 h0 ⟨a3, b3⟩
  generalize e4 : lowStep 4 p3 = p4 at *
  obtain ⟨s5, a5, b5, c5⟩ := lowStep_spec 2 x p4.1 p4.2 s4 h0 ⟨a4, b4⟩
  generalize e5 : lowStep 2 p4 = p5 at *
  simp only at *
  unfold InRange at hx
  -- the remaining value has its lowest set bit at position 0 or 1
  have hfin : p5.1 % 2 = 1 ∨ p5.1 % 4 = 2 := by
    clear a1 a2 a3 a4 a5 b1 b2 b3 b4 b5 e1 e2 e3 e4 e5
    generalize p1.1 = v1 at *
    generalize p2.1 = v2 at *
    generalize p3.1 = v3 at *
    generalize p4.1 = v4 at *
    generalize p5.1 = v5 at *
    simp only [Int.reducePow] at *
    have i1 : v1 % 1073741824 ≠ 0 ∨ (-4294967296 < v1 ∧ v1 < 4294967296 ∧ v1 ≠ 0) := by omega
    have i2 : v2 % 65536 ≠ 0 := by omega
    have i3 : v3 % 256 ≠ 0 := by omega
    have i4 : v4 % 16 ≠ 0 := by omega
    omega
  rcases hfin with h | h
  · refine ⟨p5.1 / 2, s5, by omega, ?_⟩
    rw [show 2 * (p5.1 / 2) + 1 = p5.1 by omega]; exact a5
  · refine ⟨p5.1 / 4, s5 + 1, by omega, ?_⟩
    rw [Int.pow_succ, Int.mul_comm (2 ^ s5), ← Int.mul_assoc,
      show (2 * (p5.1 / 4) + 1) * 2 = p5.1 by omega]
    exact a5

/-- The full claim is false of the code at one point: the lowest set bit of the
smallest SmallInteger, -2^62, is bit 63, but `lowBit` answers 62. -/
theorem lowBit_wrong_at_minimum :
    IsLowBit (-4611686018427387904) 63 ∧ lowBit (-4611686018427387904) = 62 :=
  ⟨⟨-1, 62, by decide, by decide⟩, by decide⟩

/-- The position of the lowest set bit is unique, so 62 is wrong. -/
theorem isLowBit_unique (x k k' : Int) (h : IsLowBit x k) (h' : IsLowBit x k') : k = k' := by
  obtain ⟨m, n, rfl, hx⟩ := h
  obtain ⟨m', n', rfl, hx'⟩ := h'
  have key : ∀ (a b : Nat) (p q : Int), a < b → (2 * p + 1) * 2 ^ a = (2 * q + 1) * 2 ^ b → False := by
    intro a b p q hab he
    have : (2:Int) ^ b = 2 ^ a * (2 * 2 ^ (b - a - 1)) := by
      rw [show (2:Int) * 2 ^ (b - a - 1) = 2 ^ (b - a) by
        rw [show b - a = (b - a - 1) + 1 by omega, Int.pow_succ, Int.mul_comm]; rfl,
        ← Int.pow_add]
      congr 1; omega
    rw [this, Int.mul_comm (2 * p + 1), ← Int.mul_assoc, Int.mul_comm (2 * q + 1), Int.mul_assoc] at he
    have hp : (2:Int) ^ a ≠ 0 := by have : (0:Int) < 2 ^ a := Int.pow_pos (by decide); omega
    have := Int.eq_of_mul_eq_mul_left hp he
    rw [← Int.mul_assoc, Int.mul_comm _ (2 : Int), Int.mul_assoc] at this
    omega
  rcases Nat.lt_trichotomy n n' with h | h | h
  · exact (key n n' m m' h (hx.symm.trans hx')).elim
  · omega
  · exact (key n' n m' m h (hx'.symm.trans hx)).elim

example : IsLowBit (-40) (lowBit (-40)) ∧ lowBit (-40) = 4 :=
  ⟨lowBit_correct_partial (-40) (by decide) (by decide) (by decide), by decide⟩

/-- Invariant of the `highBit` computation started from `n` with bias `b`:
the current value is `n` shifted right by the bits counted so far. -/
theorem highStep_spec (k : Nat) (n b v c : Int) (s : Nat) (hv : v = n / 2 ^ s) (hc : c = b + s)
    (hp : 0 < v) (hb : v < 2 ^ (2 * k)) :
    ∃ s' : Nat, (highStep k (v, c)).1 = n / 2 ^ s' ∧ (highStep k (v, c)).2 = b + s' ∧
      0 < (highStep k (v, c)).1 ∧ (highStep k (v, c)).1 < 2 ^ k := by
  have hpk : (0:Int) < 2 ^ k := Int.pow_pos (by decide)
  unfold highStep
  simp only
  split
  · rename_i h
    refine ⟨s + k, ?_, by simp; omega, ?_, ?_⟩
    · simp only [hv]
      rw [Int.pow_add, Int.ediv_ediv_of_nonneg]
      exact Int.le_of_lt (Int.pow_pos (by decide))
    · have h1 : (1 : Int) * 2 ^ k ≤ v := by omega
      exact Int.lt_of_lt_of_le (by decide) ((Int.le_ediv_iff_mul_le hpk).mpr h1)
    · apply Int.ediv_lt_of_lt_mul hpk
      rw [← Int.pow_add, show k + k = 2 * k by omega]; exact hb
  · exact ⟨s, hv, hc, hp, by simp only; omega⟩

theorem highLoop_spec (n b : Int) : ∀ (v c : Int) (s : Nat),
    v = n / 2 ^ s → c = b + s → 0 < v →
    ∃ s' : Nat, (highLoop v c).1 = n / 2 ^ s' ∧ (highLoop v c).2 = b + s' ∧
      0 < (highLoop v c).1 ∧ (highLoop v c).1 < 2 ^ 32 := by
  intro v c
  induction v, c using highLoop.induct with
  | case1 v c h ih =>
    intro s hv hc hp
    rw [highLoop, if_pos h]
    apply ih (s + 30)
    · rw [hv, Int.pow_add, Int.ediv_ediv_of_nonneg]
      · rfl
      · exact Int.le_of_lt (Int.pow_pos (by decide))
    · simp; omega
    · omega
  | case2 v c h =>
    intro s hv hc hp
    rw [highLoop, if_neg h]
    exact ⟨s, hv, hc, hp, by simp only; omega⟩

theorem highCore (n b : Int) (hn : 0 < n) :
    ∃ s : Nat, n / 2 ^ s = 1 ∧
      (let r := highStep 1 (highStep 2 (highStep 4 (highStep 8 (highStep 16 (highLoop n b)))))
       r.1 + r.2) = b + s + 1 := by
  obtain ⟨s0, a0, b0, c0, d0⟩ := highLoop_spec n b n b 0 (by simp) (by simp) hn
  generalize highLoop n b = p0 at *
  obtain ⟨s1, a1, b1, c1, d1⟩ := highStep_spec 16 n b p0.1 p0.2 s0 a0 b0 c0 d0
  generalize highStep 16 p0 = p1 at *
  obtain ⟨s2, a2, b2, c2, d2⟩ := highStep_spec 8 n b p1.1 p1.2 s1 a1 b1 c1 d1
  generalize highStep 8 p1 = p2 at *
  obtain ⟨s3, a3, b3, c3, d3⟩ := highStep_spec 4 n b p2.1 p2.2 s2 a2 b2 c2 d2
  generalize highStep 4 p2 = p3 at *
  obtain ⟨s4, a4, b4, c4, d4⟩ := highStep_spec 2 n b p3.1 p3.2 s3 a3 b3 c3 d3
  generalize highStep 2 p3 = p4 at *
  obtain ⟨s5, a5, b5, c5, d5⟩ := highStep_spec 1 n b p4.1 p4.2 s4 a4 b4 c4 d4
  generalize highStep 1 p4 = p5 at *
  simp only [Int.reducePow] at d5
  exact ⟨s5, by omega, by simp only; omega⟩

theorem ediv_pow_eq_one (n : Int) (s : Nat) (h : n / 2 ^ s = 1) : 2 ^ s ≤ n ∧ n < 2 ^ (s + 1) := by
  have hp : (0:Int) < 2 ^ s := Int.pow_pos (by decide)
  have h1 := Int.mul_ediv_add_emod n (2 ^ s)
  have h2 := Int.emod_nonneg n (show (2:Int) ^ s ≠ 0 by omega)
  have h3 := Int.emod_lt_of_pos n hp
  rw [h] at h1
  rw [Int.pow_succ]
  omega

theorem lowMask_spec (n : Nat) (h : n ≠ 0) : ∃ m k, lowMask n = 2 ^ k ∧ n = (2 * m + 1) * 2 ^ k := by
  induction n using lowMask.induct with
  | case1 => exact absurd rfl h
  | case2 n h0 h1 =>
    rw [lowMask, if_neg h0, if_pos h1]
    exact ⟨n / 2, 0, rfl, by simp; omega⟩
  | case3 n h0 h1 ih =>
    obtain ⟨m, k, e1, e2⟩ := ih (by omega)
    rw [lowMask, if_neg h0, if_neg h1]
    refine ⟨m, k + 1, by rw [e1, Nat.pow_succ]; omega, ?_⟩
    rw [Nat.pow_succ, ← Nat.mul_assoc, ← e2]; omega

/-- `n & -n = n` exactly for powers of two. -/
theorem lowMask_eq_self (n : Nat) (h : n ≠ 0) : lowMask n = n ↔ ∃ k, n = 2 ^ k := by
  obtain ⟨m, k, e1, e2⟩ := lowMask_spec n h
  constructor
  · intro he; exact ⟨k, by omega⟩
  · rintro ⟨j, hj⟩
    rw [e1, e2]
    have hm : m = 0 := by
      rcases Nat.lt_or_ge k j with hkj | hkj
      · exfalso
        have : 2 ^ j = (2 * 2 ^ (j - k - 1)) * 2 ^ k := by
          rw [← Nat.pow_succ', ← Nat.pow_add]; congr 1; omega
        rw [hj, this] at e2
        have := Nat.eq_of_mul_eq_mul_right (Nat.pow_pos (by decide)) e2
        omega
      · have h1 : (2 * m + 1) * 2 ^ k ≤ 1 * 2 ^ k := by
          rw [← e2, hj, Nat.one_mul]; exact Nat.pow_le_pow_right (by decide) hkj
        have := Nat.le_of_mul_le_mul_right h1 (Nat.pow_pos (by decide))
        omega
    subst hm; simp

/-- C31: `highBit` is right for every non-zero integer (in particular for every
SmallInteger). -/
theorem highBit_correct (x : Int) (h0 : x ≠ 0) : ∃ k : Nat, highBit x = k ∧ IsHighBit x k := by
  unfold highBit
  rw [if_neg h0]
  by_cases hx : 0 < x
  · simp only [if_neg (show ¬ x < 0 by omega)]
    obtain ⟨s, h1, h2⟩ := highCore x 0 hx
    simp only at h2
    refine ⟨s + 1, by rw [h2]; omega, by omega, ?_⟩
    rw [if_pos hx]
    exact ediv_pow_eq_one x s h1
  · have hneg : x < 0 := by omega
    simp only [if_pos hneg]
    have hn : 0 < -x := by omega
    have hnat : ((-x).toNat : Int) = -x := by omega
    split
    · rename_i hpow
      obtain ⟨s, h1, h2⟩ := highCore (-x) 0 hn
      obtain ⟨b1, b2⟩ := ediv_pow_eq_one _ s h1
      simp only at h2
      refine ⟨s + 1, by rw [h2]; omega, by omega, ?_⟩
      rw [if_neg hx]
      have hp2 : ∃ k, (-x).toNat = 2 ^ k :=
        (lowMask_eq_self _ (by omega)).mp (by omega)
      obtain ⟨k, hk⟩ := hp2
      have hk' : -x = 2 ^ k := by rw [← hnat, hk]; simp
      have hks : k = s := by
        rw [hk'] at b1 b2
        have c1 : 2 ^ s ≤ 2 ^ k := by exact_mod_cast b1
        have c2 : 2 ^ k < 2 ^ (s + 1) := by exact_mod_cast b2
        have d1 := (Nat.pow_le_pow_iff_right (by decide : 1 < 2)).mp c1
        have d2 := (Nat.pow_lt_pow_iff_right (by decide : 1 < 2)).mp c2
        omega
      subst hks
      simp only [Nat.add_sub_cancel]
      refine ⟨by omega, ?_⟩
      cases k with
      | zero => left; rfl
      | succ k =>
        right
        have : (0:Int) < 2 ^ k := Int.pow_pos (by decide)
        rw [Int.pow_succ] at hk'
        simp only [show k + 1 + 1 - 2 = k by omega]
        omega
    · rename_i hpow
      obtain ⟨s, h1, h2⟩ := highCore (-x) 1 hn
      obtain ⟨b1, b2⟩ := ediv_pow_eq_one _ s h1
      simp only at h2
      refine ⟨s + 2, by rw [h2]; omega, by omega, ?_⟩
      rw [if_neg hx]
      simp only [show s + 2 - 1 = s + 1 by omega, show s + 2 - 2 = s by omega]
      refine ⟨by omega, Or.inr ?_⟩
      have hne : -x ≠ 2 ^ s := by
        intro he
        apply hpow
        have : (-x).toNat = 2 ^ s := by
          have : (((-x).toNat : Nat) : Int) = ((2 ^ s : Nat) : Int) := by rw [hnat, he]; simp
          exact_mod_cast this
        rw [(lowMask_eq_self _ (by omega)).mpr ⟨s, this⟩, hnat]
      omega

example : IsHighBit 1023 10 ∧ IsHighBit (-5) 4 ∧ ¬ IsHighBit (-5) 3 := by
  refine ⟨?_, ?_, ?_⟩ <;> unfold IsHighBit <;> decide
example : ∃ k : Nat, highBit 1023 = k ∧ IsHighBit 1023 k := highBit_correct 1023 (by decide)

end Verif.SmallInt
