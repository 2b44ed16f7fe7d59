import Verif.Num.Fact

/-! # raisedToInteger: -/

namespace Verif.Num

/-- Every entry of the power table above the first splits its index into two
smaller positive exponents. -/
theorem powerTable_ok : ∀ n, 2 ≤ n → n ≤ 255 → ∃ i, powerTable[n - 1]? = some i ∧ 1 ≤ i ∧ i < n := by
  have h : ∀ n ∈ List.range 256, 2 ≤ n →
      (powerTable[n - 1]?.any fun i => decide (1 ≤ i) && decide (i < n)) = true := by decide +kernel
  intro n h2 h255
  have := h n (List.mem_range.mpr (by omega)) h2
  cases hp : powerTable[n - 1]? with
  | none => rw [hp] at this; simp at this
  | some i =>
    rw [hp] at this
    simp only [Option.any_some, Bool.and_eq_true, decide_eq_true_eq] at this
    exact ⟨i, rfl, this.1, this.2⟩

/-- What the cache of powers may hold: nil, or the right power; the first entry is
the receiver. -/
def CacheOk {M : Type} [Monoid M] (x : M) (cache : List (Option M)) : Prop :=
  cache[0]? = some (some x) ∧ ∀ i r, cache[i]? = some (some r) → r = x ^ (i + 1)

theorem powCache_spec {M : Type} [Monoid M] (x : M) : ∀ (f n : Nat) (cache : List (Option M)),
    1 ≤ n → n ≤ f → min 255 n ≤ cache.length → CacheOk x cache →
    ∃ cache', powCache (· * ·) x f n cache = .ok (x ^ n, cache') ∧ CacheOk x cache' ∧
      cache'.length = cache.length := by
  intro f
  induction f with
  | zero => intro n cache h1 h2; omega
  | succ f ih =>
    intro n cache h1 hf hlen hok
    rw [powCache]
    by_cases hbig : n > 255
    · rw [if_pos hbig]
      obtain ⟨c1, e1, e2, e3⟩ := ih (n / 2) cache (by omega) (by omega) (by omega) hok
      rw [e1]
      by_cases hev : n % 2 = 0
      · simp only [if_pos hev]
        refine ⟨c1, ?_, e2, e3⟩
        rw [← pow_add, show n / 2 + n / 2 = n by omega]
      · simp only [if_neg hev]
        refine ⟨c1, ?_, e2, e3⟩
        rw [← pow_succ, ← pow_add, show n / 2 + (n / 2 + 1) = n by omega]
    · rw [if_neg hbig, if_neg (by omega)]
      have hl : n - 1 < cache.length := by omega
      cases hc : cache[n - 1]? with
      | none => rw [List.getElem?_eq_none_iff] at hc; omega
      | some o =>
        cases o with
        | some r =>
          refine ⟨cache, ?_, hok, rfl⟩
          simp only
          rw [hok.2 _ _ hc, show n - 1 + 1 = n by omega]
        | none =>
          have hn2 : 2 ≤ n := by
            by_contra h
            have : n = 1 := by omega
            subst this
            have := hok.1
            rw [hc] at this
            cases this
          obtain ⟨i, t1, t2, t3⟩ := powerTable_ok n hn2 (by omega)
          simp only [t1]
          obtain ⟨c1, e1, e2, e3⟩ := ih (n - i) cache (by omega) (by omega) (by omega) hok
          rw [e1]
          simp only
          obtain ⟨c2, g1, g2, g3⟩ := ih i c1 (by omega) (by omega) (by omega) e2
          rw [g1]
          have hp : x ^ (n - i) * x ^ i = x ^ n := by rw [← pow_add, show n - i + i = n by omega]
          simp only [hp]
          refine ⟨_, rfl, ⟨?_, ?_⟩, by simp [g3, e3]⟩
          · rw [List.getElem?_set_ne (by omega)]; exact g2.1
          · intro j r hj
            by_cases hjn : n - 1 = j
            · subst hjn
              rw [List.getElem?_set_self (by omega)] at hj
              cases hj
              rw [show n - 1 + 1 = n by omega]
            · rw [List.getElem?_set_ne hjn] at hj
              exact g2.2 j r hj

/-- **`x raisedToInteger: n` for a positive `n` is the `n`-fold product of `x`**,
for every kind of number whose `*` is associative: the table of best splittings,
the cache of intermediate powers and the halving of exponents above 255 always
combine to exactly `n` factors, and never index outside the table or the
cache. -/
theorem powPos_spec {M : Type} [Monoid M] (x : M) (n : Nat) (h : 1 ≤ n) :
    powPos (· * ·) x n = .ok (x ^ n) := by
  rw [powPos]
  by_cases h1 : n = 1
  · rw [if_pos h1, h1, pow_one]
  · rw [if_neg h1]
    obtain ⟨c, e, _, _⟩ := powCache_spec x (n + 1) n (some x :: List.replicate (min 255 n - 1) none)
      h (by omega) (by simp; omega) ⟨rfl, by
      intro i r hi
      cases i with
      | zero => simp at hi; simp [hi]
      | succ i =>
        rw [List.getElem?_cons_succ, List.getElem?_replicate] at hi
        split at hi <;> cases hi⟩
    rw [e]

example : powPos (· * ·) (3 : Nat) 5 = .ok 243 := by decide +kernel
example : powPos (· * ·) (2 : Nat) 1000 = .ok (2 ^ 1000) := powPos_spec _ _ (by omega)

/-! ### LargeInteger>>raisedToInteger: -/

theorem lowBits_spec : ∀ (f : Nat) (z : Int), z ≠ 0 → z.natAbs < 2 ^ f →
    ∃ q, z = q * 2 ^ lowBits f z ∧ q % 2 = 1 := by
  intro f
  induction f with
  | zero => intro z h0 h; simp at h; omega
  | succ f ih =>
    intro z h0 h
    rw [lowBits]
    by_cases hz : z % 2 = 0
    · rw [if_pos hz]
      obtain ⟨q, h1, h2⟩ := ih (z / 2) (by omega) (by rw [pow_succ] at h; omega)
      refine ⟨q, ?_, h2⟩
      rw [pow_succ]
      calc z = z / 2 * 2 := by omega
        _ = q * 2 ^ lowBits f (z / 2) * 2 := by rw [← h1]
        _ = _ := by ring
    · rw [if_neg hz]
      exact ⟨z, by simp, by omega⟩

/-- **A LargeInteger raised to a non-negative power is the power**, zero bits
stripped and put back or not. -/
theorem largeRaised_partial (z : Int) (f : Nat) (h0 : z ≠ 0) (hf : z.natAbs < 2 ^ f) (n : Nat) :
    largeRaised z (lowBits f z) n = .ok (z ^ n) := by
  obtain ⟨q, h1, _⟩ := lowBits_spec f z h0 hf
  have hq : Int.fdiv z (2 ^ lowBits f z) = q := by
    have hp : (0 : Int) < 2 ^ lowBits f z := Int.pow_pos (by decide)
    rw [Int.fdiv_eq_ediv_of_nonneg _ (by omega)]
    exact Int.ediv_eq_of_eq_mul_left (by omega) h1
  simp only [largeRaised, hq, if_pos (show (0 : Int) ≤ n by omega), Int.natAbs_natCast]
  congr 1
  rw [pow_mul, ← mul_pow, ← h1]

example : largeRaised (5 * 2 ^ 70) (lowBits 80 (5 * 2 ^ 70)) 2 = .ok (25 * 2 ^ 140) := by decide +kernel

/-- The value of a number `r` is `1 / z^n`. -/
def IsRecipPow (r z : Int) (n : Nat) : Prop := r * z ^ n = 1

/-- **An even LargeInteger raised to a negative power never answers the
reciprocal**: either `bitShift:` is sent to a Fraction, which does not understand
it, or — for powers of two and their opposites — the shift to the right throws
all the bits away. -/
theorem largeRaised_negative (z : Int) (f : Nat) (h0 : z ≠ 0) (hf : z.natAbs < 2 ^ f)
    (heven : z % 2 = 0) (n : Nat) (hn : 1 ≤ n) :
    largeRaised z (lowBits f z) (-(n : Int)) = .error .dnu ∨
    largeRaised z (lowBits f z) (-(n : Int)) = .ok 0 ∨
    largeRaised z (lowBits f z) (-(n : Int)) = .ok (-1) := by
  obtain ⟨q, h1, hq1⟩ := lowBits_spec f z h0 hf
  have hb : 1 ≤ lowBits f z := by
    by_contra hc
    have : lowBits f z = 0 := by omega
    rw [this] at h1
    simp at h1
    omega
  generalize lowBits f z = b at *
  have hq : Int.fdiv z (2 ^ b) = q := by
    have hp : (0 : Int) < 2 ^ b := Int.pow_pos (by decide)
    rw [Int.fdiv_eq_ediv_of_nonneg _ (by omega)]
    exact Int.ediv_eq_of_eq_mul_left (by omega) h1
  have hnab : (-(n : Int)).natAbs = n := by omega
  simp only [largeRaised, hq, if_neg (show ¬ (0 : Int) ≤ -(n : Int) by omega), hnab]
  by_cases hu : q = 1 ∨ q = -1
  · right
    rw [if_pos hu]
    have hbn : 1 ≤ b * n := Nat.mul_pos hb hn
    have hpow : ((2 : Int) ^ (b * n)) ≥ 2 := by
      calc (2 : Int) = 2 ^ 1 := by norm_num
        _ ≤ 2 ^ (b * n) := by exact_mod_cast Nat.pow_le_pow_right (by omega) hbn
    have hqn : q ^ n = 1 ∨ q ^ n = -1 := by
      rcases hu with rfl | rfl
      · left; simp
      · rcases Nat.even_or_odd n with he | ho
        · left; exact he.neg_one_pow
        · right; exact ho.neg_one_pow
    rw [Int.fdiv_eq_ediv_of_nonneg _ (by omega)]
    rcases hqn with h | h
    · left; rw [h]; congr 1; exact Int.ediv_eq_zero_of_lt (by omega) (by omega)
    · right; rw [h]; congr 1; rw [Int.neg_one_ediv, Int.sign_eq_one_of_pos (by omega)]
  · left; rw [if_neg hu]

/-- Neither 0 nor -1 is the reciprocal of a power of an even number. -/
theorem largeRaised_negative_wrong (z : Int) (heven : z % 2 = 0) (n : Nat) (hn : 1 ≤ n) :
    ¬ IsRecipPow 0 z n ∧ ¬ IsRecipPow (-1) z n := by
  refine ⟨by simp [IsRecipPow], fun h => ?_⟩
  unfold IsRecipPow at h
  have : (2 : Int) ∣ z ^ n := dvd_pow (Int.dvd_of_emod_eq_zero heven) (by omega)
  omega

/-- `(2 raisedTo: 64) raisedTo: -1` answers 0. -/
example : largeRaised (2 ^ 64) (lowBits 70 (2 ^ 64)) (-1) = .ok 0 := by decide +kernel
/-- `(3 * (2 raisedTo: 64)) raisedTo: -1` sends bitShift: to a Fraction. -/
example : largeRaised (3 * 2 ^ 64) (lowBits 70 (3 * 2 ^ 64)) (-1) = .error .dnu := by decide +kernel

end Verif.Num
