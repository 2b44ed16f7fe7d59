import Verif.Reals.Limbs

/-!
# The product
-/

namespace Verif.Reals

theorem low_zero : ∀ (s : List ℕ) (n : ℕ), (∀ i < n, limb s i = 0) → 65536 ^ n ∣ val s := by
  intro s
  induction s with
  | nil => intro n _; simp [val]
  | cons x xs ih =>
    intro n h
    cases n with
    | zero => simp
    | succ n =>
      have h0 : x = 0 := h 0 (by omega)
      have := ih n (fun i hi => h (i + 1) (by omega))
      rw [val, h0, Nat.zero_add, pow_succ, Nat.mul_comm]
      exact Nat.mul_dvd_mul_left _ this

/-- Nothing is left below a bit when the loop ends. -/
theorem rest_zero {s : List ℕ} (h : ∀ x ∈ s, x < 65536) {lsb n j : ℕ} (hz : ∀ i < lsb, limb s i = 0) (hj : j < 16)
    (hc : ¬ (lsb < n ∨ limb s n &&& (2 ^ j - 1) ≠ 0)) : val s % 2 ^ (16 * n + j) = 0 := by
  rw [not_or, not_lt, ne_eq, not_not, Nat.and_two_pow_sub_one_eq_mod] at hc
  refine Nat.eq_of_testBit_eq fun k => ?_
  rw [Nat.testBit_mod_two_pow, testBit_val h, Nat.zero_testBit]
  by_cases hk : k < 16 * n + j
  · by_cases hn : k / 16 < n
    · rw [hz _ (by omega)]; simp
    · have e : k / 16 = n := by omega
      have hb : (limb s n % 2 ^ j).testBit (k % 16) = false := by rw [hc.2]; simp
      rw [Nat.testBit_mod_two_pow] at hb
      have : k % 16 < j := by omega
      rw [e]
      simp only [hk, decide_true, Bool.true_and]
      simpa [this] using hb
  · simp [hk]

/-- The bit that is tested. -/
theorem bit_test {s : List ℕ} (h : ∀ x ∈ s, x < 65536) (n j : ℕ) (hj : j < 16) : (limb s n &&& 2 ^ j ≠ 0) ↔
    (val s).testBit (16 * n + j) = true := by
  rw [testBit_val h, show (16 * n + j) / 16 = n by omega, show (16 * n + j) % 16 = j by omega, Nat.and_two_pow]
  cases (limb s n).testBit j <;> simp

/-- The bits from `p` up, as those from `p + 1` up with one more. -/
theorem upper (S p : ℕ) : S / 2 ^ p * 2 ^ p = S / 2 ^ (p + 1) * 2 ^ (p + 1) + (if S.testBit p then 2 ^ p else 0) := by
  have h1 : S / 2 ^ (p + 1) = S / 2 ^ p / 2 := by rw [pow_succ, Nat.div_div_eq_div_mul]
  have h2 : S.testBit p = decide (S / 2 ^ p % 2 = 1) := Nat.testBit_eq_decide_div_mod_eq
  rw [h1, h2, pow_succ]
  generalize S / 2 ^ p = m
  generalize 2 ^ p = q
  by_cases hm : m % 2 = 1
  · simp only [hm, decide_true, if_true]
    have : m = m / 2 * 2 + 1 := by omega
    calc m * q = (m / 2 * 2 + 1) * q := by rw [← this]
      _ = _ := by ring
  · have : m = m / 2 * 2 := by omega
    simp only [hm, decide_false, Bool.false_eq_true, if_false, Nat.add_zero]
    calc m * q = (m / 2 * 2) * q := by rw [← this]
      _ = _ := by ring

theorem half {rr R0 k : ℕ} (h : rr = R0 / 2 ^ k) : rr / 2 ^ 1 = R0 / 2 ^ (k + 1) := by
  rw [h, Nat.div_div_eq_div_mul, ← pow_add]

theorem place {n j : ℕ} (hj : j < 16) {p : ℕ} (hp : 16 * n + j = p + 1) :
    (if j = 0 then 15 else j - 1) < 16 ∧ 16 * (if j = 0 then n - 1 else n) + (if j = 0 then 15 else j - 1) = p := by
  by_cases h : j = 0 <;> simp only [h, if_true, if_false] <;> omega

/-- What the loop of the product keeps: the number so far is below the product of the part of `S` that was read, and it lacks less than
`k` units. -/
structure MulInv (R0 S p k e : ℕ) (r rr : List ℕ) : Prop where
  okr : Ok r
  okrr : Ok rr
  rest : val rr = R0 / 2 ^ (159 - p + e)
  norm : 2 ^ 159 ≤ val r
  low : val r * 2 ^ (e + 159) ≤ R0 * (S / 2 ^ p * 2 ^ p)
  high : R0 * (S / 2 ^ p * 2 ^ p) ≤ (val r + k) * 2 ^ (e + 159)

theorem product_low {R0 S p X : ℕ} (h : X ≤ R0 * (S / 2 ^ p * 2 ^ p)) : X ≤ R0 * S :=
  h.trans (Nat.mul_le_mul_left _ (Nat.div_mul_le_self _ _))

theorem product_split (R0 S p : ℕ) : R0 * S = R0 * (S / 2 ^ p * 2 ^ p) + R0 * (S % 2 ^ p) := by
  rw [← Nat.mul_add, Nat.div_add_mod' S (2 ^ p)]

/-- The rest is small once `rr` is zero. -/
theorem rest_small {R0 S p k : ℕ} (hk : R0 / 2 ^ k = 0) : R0 * (S % 2 ^ p) ≤ 2 ^ (k + p) := by
  have h1 : R0 < 2 ^ k := by
    rcases Nat.div_eq_zero_iff.1 hk with h | h
    · exact absurd h (by positivity)
    · exact h
  have h2 : S % 2 ^ p < 2 ^ p := Nat.mod_lt _ (by positivity)
  rw [pow_add]
  exact Nat.mul_le_mul h1.le h2.le

theorem mulLoop_spec (s : List ℕ) (hs : Ok s) (lsb : ℕ) (hz : ∀ i < lsb, limb s i = 0) (R0 : ℕ) (E : ℤ) :
    ∀ (fuel n j k e : ℕ) (r rr : List ℕ), 16 * n + j < fuel → 16 * n + j ≤ 159 → j < 16 → MulInv R0 (val s) (16 * n + j) k e r rr →
    ∃ e', (mulLoop s lsb fuel n j r rr (E + e)).2 = E + (e' : ℕ) ∧ Ok (mulLoop s lsb fuel n j r rr (E + e)).1 ∧
      2 ^ 159 ≤ val (mulLoop s lsb fuel n j r rr (E + e)).1 ∧
      val (mulLoop s lsb fuel n j r rr (E + e)).1 * 2 ^ (e' + 159) ≤ R0 * val s ∧
      R0 * val s ≤ (val (mulLoop s lsb fuel n j r rr (E + e)).1 + (k + (16 * n + j) + 2)) * 2 ^ (e' + 159) := by
  intro fuel
  induction fuel with
  | zero => intro n j k e r rr h; omega
  | succ fuel ih =>
    intro n j k e r rr hf hp hj inv
    unfold mulLoop
    by_cases hc : lsb < n ∨ limb s n &&& (2 ^ j - 1) ≠ 0
    swap
    · rw [if_neg hc]
      have h0 := rest_zero hs.small hz hj hc
      refine ⟨e, rfl, inv.okr, inv.norm, product_low inv.low, ?_⟩
      rw [product_split R0 (val s) (16 * n + j), h0, Nat.mul_zero, Nat.add_zero]
      refine inv.high.trans (Nat.mul_le_mul_right _ ?_)
      dsimp only
      omega
    rw [if_pos hc]
    have hpos : 16 * n + j ≠ 0 := by
      intro h0
      have : n = 0 := by omega
      have : j = 0 := by omega
      subst n j
      simp at hc
    obtain ⟨p, hpe⟩ : ∃ p, 16 * n + j = p + 1 := ⟨16 * n + j - 1, by omega⟩
    obtain ⟨hj', hp'⟩ := place hj hpe
    simp only
    generalize (if j = 0 then n - 1 else n) = n' at hp' ⊢
    generalize (if j = 0 then 15 else j - 1) = j' at hj' hp' ⊢
    rw [hpe] at inv hp hf
    have hrr := half inv.rest
    have hx : 159 - (p + 1) + e + 1 = 159 - p + e := by omega
    rw [hx, ← rshift_val inv.okrr] at hrr
    have okq := rshift_ok inv.okrr 1
    generalize rshift rr 1 = q at hrr okq ⊢
    have hup := upper (val s) p
    by_cases hq : nonzero q = true
    swap
    · -- nothing of the other factor is left
      rw [if_neg hq]
      have hq0 : val q = 0 := nonzero_iff.1 (by simpa using hq)
      rw [hq0] at hrr
      refine ⟨e, rfl, inv.okr, inv.norm, product_low inv.low, ?_⟩
      rw [product_split R0 (val s) (p + 1), hpe]
      have h1 := rest_small (S := val s) (p := p + 1) hrr.symm
      have h2 : 159 - p + e + (p + 1) = (e + 159) + 1 := by omega
      rw [h2, pow_succ 2 (e + 159)] at h1
      have h3 := inv.high
      dsimp only
      calc _ ≤ (val r + k) * 2 ^ (e + 159) + 2 ^ (e + 159) * 2 := Nat.add_le_add h3 h1
        _ = (val r + (k + 2)) * 2 ^ (e + 159) := by rw [mul_comm _ 2, ← Nat.add_mul, Nat.add_assoc]
        _ ≤ _ := Nat.mul_le_mul_right _ (by omega)
    rw [if_pos hq]
    by_cases hb : limb s n' &&& 2 ^ j' ≠ 0
    swap
    · rw [if_neg hb]
      have hbit : (val s).testBit p = false := by
        rw [bit_test hs.small n' j' hj', hp'] at hb
        simpa using hb
      rw [hbit] at hup
      simp only [Bool.false_eq_true, if_false, Nat.add_zero] at hup
      obtain ⟨e', h1, h2, h3, h4, h5⟩ := ih n' j' k e r q (by omega) (by omega) hj'
        ⟨inv.okr, okq, by rw [hp']; exact hrr, inv.norm, by rw [hp', hup]; exact inv.low, by rw [hp', hup]; exact inv.high⟩
      refine ⟨e', h1, h2, h3, h4, h5.trans (Nat.mul_le_mul_right _ ?_)⟩
      omega
    rw [if_pos hb]
    have hbit : (val s).testBit p = true := by
      rw [bit_test hs.small n' j' hj', hp'] at hb
      exact hb
    rw [hbit, if_pos rfl] at hup
    obtain ⟨ha, hc1, hsum⟩ := add_ok inv.okr okq
    have hal := ha.lt
    -- what the next term is worth
    have hw : 2 ^ (e + 159) * 1 = 2 ^ (159 - p + e) * 2 ^ p := by
      rw [mul_one, ← pow_add]; congr 1; omega
    have tl : val q * 2 ^ (e + 159) ≤ R0 * 2 ^ p := by
      rw [← mul_one (2 ^ (e + 159)), hw, ← mul_assoc, hrr]
      exact Nat.mul_le_mul_right _ (Nat.div_mul_le_self _ _)
    have th : R0 * 2 ^ p ≤ (val q + 1) * 2 ^ (e + 159) := by
      rw [← mul_one (2 ^ (e + 159)), hw, ← mul_assoc, hrr]
      refine Nat.mul_le_mul_right _ ?_
      have := Nat.lt_div_mul_add (a := R0) (b := 2 ^ (159 - p + e)) (by positivity)
      rw [Nat.add_mul, one_mul]
      exact this.le
    have sl : (val r + val q) * 2 ^ (e + 159) ≤ R0 * (val s / 2 ^ p * 2 ^ p) := by
      rw [hup, Nat.mul_add, Nat.add_mul]
      exact Nat.add_le_add inv.low tl
    have sh : R0 * (val s / 2 ^ p * 2 ^ p) ≤ (val r + val q + (k + 1)) * 2 ^ (e + 159) := by
      rw [hup, Nat.mul_add]
      calc _ ≤ _ := Nat.add_le_add inv.high th
        _ = _ := by ring
    generalize addSig r q 0 = a at ha hc1 hsum hal ⊢
    by_cases hcar : a.2 ≠ 0
    swap
    · rw [if_neg hcar]
      have hc0 : a.2 = 0 := by omega
      rw [hc0, Nat.mul_zero, Nat.add_zero] at hsum
      obtain ⟨e', h1, h2, h3, h4, h5⟩ := ih n' j' (k + 1) e a.1 q (by omega) (by omega) hj'
        ⟨ha, okq, by rw [hp']; exact hrr, by rw [hsum]; exact inv.norm.trans (Nat.le_add_right _ _), by rw [hp', hsum]; exact sl,
          by rw [hp', hsum]; exact sh⟩
      refine ⟨e', h1, h2, h3, h4, h5.trans (Nat.mul_le_mul_right _ ?_)⟩
      omega
    rw [if_pos hcar]
    have hc0 : a.2 = 1 := by omega
    rw [hc0, Nat.mul_one] at hsum
    have okt := top_ok ha
    have ht := top_val ha
    rw [hsum] at ht
    have htn : 2 ^ 159 ≤ val (orTop (rshift a.1 1)) := by
      rw [ht]
      simp only [Nat.reducePow] at *
      omega
    generalize orTop (rshift a.1 1) = t at okt ht htn ⊢
    have hqq := half hrr
    rw [← rshift_val okq] at hqq
    have okqq := rshift_ok okq 1
    generalize rshift q 1 = w at hqq okqq ⊢
    have hE : E + (e : ℤ) + 1 = E + ((e + 1 : ℕ) : ℤ) := by push_cast; ring
    rw [hE]
    have hpw := pow_succ' 2 (e + 159)
    rw [show e + 159 + 1 = e + 1 + 159 by omega] at hpw
    have lo : val t * 2 ^ (e + 1 + 159) ≤ R0 * (val s / 2 ^ p * 2 ^ p) := by
      refine le_trans ?_ sl
      rw [hpw, ← mul_assoc]
      refine Nat.mul_le_mul_right _ ?_
      omega
    have hi : R0 * (val s / 2 ^ p * 2 ^ p) ≤ (val t + (k + 1)) * 2 ^ (e + 1 + 159) := by
      refine sh.trans ?_
      rw [hpw, ← mul_assoc]
      refine Nat.mul_le_mul_right _ ?_
      omega
    by_cases hw0 : nonzero w = true
    · rw [if_pos hw0]
      obtain ⟨e', h1, h2, h3, h4, h5⟩ := ih n' j' (k + 1) (e + 1) t w (by omega) (by omega) hj'
        ⟨okt, okqq, by rw [hp', hqq]; congr 2, htn, by rw [hp']; exact lo, by rw [hp']; exact hi⟩
      refine ⟨e', h1, h2, h3, h4, h5.trans (Nat.mul_le_mul_right _ ?_)⟩
      omega
    · rw [if_neg hw0]
      have hq0 : val w = 0 := nonzero_iff.1 (by simpa using hw0)
      rw [hq0] at hqq
      refine ⟨e + 1, rfl, okt, htn, product_low lo, ?_⟩
      rw [product_split R0 (val s) p]
      have h1 := rest_small (S := val s) (p := p) hqq.symm
      have h2 : 159 - p + e + 1 + p = e + 1 + 159 := by omega
      rw [h2] at h1
      dsimp only
      calc _ ≤ (val t + (k + 1)) * 2 ^ (e + 1 + 159) + 2 ^ (e + 1 + 159) := Nat.add_le_add hi h1
        _ = (val t + (k + 2)) * 2 ^ (e + 1 + 159) := by generalize 2 ^ (e + 1 + 159) = U; ring
        _ ≤ _ := Nat.mul_le_mul_right _ (by omega)

/-- What the loop keeps when everything fits. -/
structure MulExact (R0 S p e : ℕ) (r rr : List ℕ) : Prop where
  okr : Ok r
  okrr : Ok rr
  rest : val rr = R0 / 2 ^ (159 - p + e)
  norm : 2 ^ 159 ≤ val r
  eq : val r * 2 ^ (e + 159) = R0 * (S / 2 ^ p * 2 ^ p)

theorem mulLoop_exact (s : List ℕ) (hs : Ok s) (lsb : ℕ) (hz : ∀ i < lsb, limb s i = 0) (R0 u c : ℕ) (hR : 0 < R0) (hu : 2 ^ u ∣ val s)
    (hd : 2 ^ (159 + c) ∣ R0 * 2 ^ u) (hfit : R0 * val s < 2 ^ (319 + c)) (E : ℤ) :
    ∀ (fuel n j e : ℕ) (r rr : List ℕ), 16 * n + j < fuel → 16 * n + j ≤ 159 → j < 16 → e ≤ c →
    MulExact R0 (val s) (16 * n + j) e r rr →
    ∃ e', (mulLoop s lsb fuel n j r rr (E + e)).2 = E + (e' : ℕ) ∧
      val (mulLoop s lsb fuel n j r rr (E + e)).1 * 2 ^ (e' + 159) = R0 * val s := by
  have hdR : ∀ p e, u ≤ p → p ≤ 159 → e ≤ c → 2 ^ (159 - p + e) ∣ R0 := by
    intro p e h1 h2 h3
    have : 2 ^ (159 + c - u) * 2 ^ u ∣ R0 * 2 ^ u := by
      rw [← pow_add, Nat.sub_add_cancel (by omega)]; exact hd
    have := Nat.dvd_of_mul_dvd_mul_right (by positivity) this
    exact (pow_dvd_pow 2 (by omega)).trans this
  have hrest : ∀ p, p ≤ u → val s / 2 ^ p * 2 ^ p = val s := fun p h => Nat.div_mul_cancel ((pow_dvd_pow 2 h).trans hu)
  have hbitu : ∀ p, (val s).testBit p = true → u ≤ p := by
    intro p h
    by_contra hlt
    have h1 : 2 ^ (p + 1) ∣ val s := (pow_dvd_pow 2 (by omega)).trans hu
    obtain ⟨m, hm⟩ := h1
    rw [hm, Nat.testBit_two_pow_mul] at h
    simp at h
  have hgone : ∀ p e, p ≤ 159 → e ≤ c → R0 / 2 ^ (159 - p + e) = 0 → p < u := by
    intro p e h1 h2 h3
    by_contra hlt
    have hdv := hdR p e (by omega) h1 h2
    have := Nat.le_of_dvd hR hdv
    rcases Nat.div_eq_zero_iff.1 h3 with h | h
    · exact absurd h (by positivity)
    · omega
  intro fuel
  induction fuel with
  | zero => intro n j e r rr h; omega
  | succ fuel ih =>
    intro n j e r rr hf hp hj hec inv
    unfold mulLoop
    by_cases hc : lsb < n ∨ limb s n &&& (2 ^ j - 1) ≠ 0
    swap
    · rw [if_neg hc]
      have h0 := rest_zero hs.small hz hj hc
      refine ⟨e, rfl, ?_⟩
      rw [product_split R0 (val s) (16 * n + j), h0, Nat.mul_zero, Nat.add_zero]
      exact inv.eq
    rw [if_pos hc]
    have hpos : 16 * n + j ≠ 0 := by
      intro h0
      have : n = 0 := by omega
      have : j = 0 := by omega
      subst n j
      simp at hc
    obtain ⟨p, hpe⟩ : ∃ p, 16 * n + j = p + 1 := ⟨16 * n + j - 1, by omega⟩
    obtain ⟨hj', hp'⟩ := place hj hpe
    simp only
    generalize (if j = 0 then n - 1 else n) = n' at hp' ⊢
    generalize (if j = 0 then 15 else j - 1) = j' at hj' hp' ⊢
    rw [hpe] at inv hp hf
    have hrr := half inv.rest
    have hx : 159 - (p + 1) + e + 1 = 159 - p + e := by omega
    rw [hx, ← rshift_val inv.okrr] at hrr
    have okq := rshift_ok inv.okrr 1
    generalize rshift rr 1 = q at hrr okq ⊢
    have hup := upper (val s) p
    by_cases hq : nonzero q = true
    swap
    · rw [if_neg hq]
      have hq0 : val q = 0 := nonzero_iff.1 (by simpa using hq)
      rw [hq0] at hrr
      have := hgone p e (by omega) hec hrr.symm
      refine ⟨e, rfl, ?_⟩
      have h := inv.eq
      rw [hrest (p + 1) (by omega)] at h
      exact h
    rw [if_pos hq]
    by_cases hb : limb s n' &&& 2 ^ j' ≠ 0
    swap
    · rw [if_neg hb]
      have hbit : (val s).testBit p = false := by
        rw [bit_test hs.small n' j' hj', hp'] at hb
        simpa using hb
      rw [hbit] at hup
      simp only [Bool.false_eq_true, if_false, Nat.add_zero] at hup
      exact ih n' j' e r q (by omega) (by omega) hj' hec ⟨inv.okr, okq, by rw [hp']; exact hrr, inv.norm, by rw [hp', hup]; exact inv.eq⟩
    rw [if_pos hb]
    have hbit : (val s).testBit p = true := by
      rw [bit_test hs.small n' j' hj', hp'] at hb
      exact hb
    have hup' := hbitu p hbit
    rw [hbit, if_pos rfl] at hup
    obtain ⟨ha, hc1, hsum⟩ := add_ok inv.okr okq
    have hal := ha.lt
    have hw : 2 ^ (e + 159) * 1 = 2 ^ (159 - p + e) * 2 ^ p := by
      rw [mul_one, ← pow_add]; congr 1; omega
    have tl : val q * 2 ^ (e + 159) = R0 * 2 ^ p := by
      rw [← mul_one (2 ^ (e + 159)), hw, ← mul_assoc, hrr, Nat.div_mul_cancel (hdR p e hup' (by omega) hec)]
    have sl : (val r + val q) * 2 ^ (e + 159) = R0 * (val s / 2 ^ p * 2 ^ p) := by
      rw [hup, Nat.mul_add, Nat.add_mul, inv.eq, tl]
    generalize addSig r q 0 = a at ha hc1 hsum hal ⊢
    by_cases hcar : a.2 ≠ 0
    swap
    · rw [if_neg hcar]
      have hc0 : a.2 = 0 := by omega
      rw [hc0, Nat.mul_zero, Nat.add_zero] at hsum
      exact ih n' j' e a.1 q (by omega) (by omega) hj' hec
        ⟨ha, okq, by rw [hp']; exact hrr, by rw [hsum]; exact inv.norm.trans (Nat.le_add_right _ _), by rw [hp', hsum]; exact sl⟩
    rw [if_pos hcar]
    have hc0 : a.2 = 1 := by omega
    rw [hc0, Nat.mul_one] at hsum
    have okt := top_ok ha
    have ht := top_val ha
    rw [hsum] at ht
    have htn : 2 ^ 159 ≤ val (orTop (rshift a.1 1)) := by
      rw [ht]
      simp only [Nat.reducePow] at *
      omega
    generalize orTop (rshift a.1 1) = t at okt ht htn ⊢
    have hqq := half hrr
    rw [← rshift_val okq] at hqq
    have okqq := rshift_ok okq 1
    generalize rshift q 1 = w at hqq okqq ⊢
    have hE : E + (e : ℤ) + 1 = E + ((e + 1 : ℕ) : ℤ) := by push_cast; ring
    rw [hE]
    have hpw := pow_succ' 2 (e + 159)
    rw [show e + 159 + 1 = e + 1 + 159 by omega] at hpw
    have hlt : e < c := by
      by_contra hge
      have he : e = c := by omega
      subst he
      have h1 : 2 ^ 160 ≤ val r + val q := by omega
      have h2 : 2 ^ 160 * 2 ^ (e + 159) ≤ R0 * val s := by
        calc _ ≤ (val r + val q) * 2 ^ (e + 159) := Nat.mul_le_mul_right _ h1
          _ = _ := sl
          _ ≤ _ := Nat.mul_le_mul_left _ (Nat.div_mul_le_self _ _)
      rw [← pow_add, show 160 + (e + 159) = 319 + e by omega] at h2
      omega
    have heven : (val r + val q) % 2 = 0 := by
      have h1 : 2 ^ (159 + c) ∣ R0 * (val s / 2 ^ p * 2 ^ p) := by
        have : R0 * 2 ^ u ∣ R0 * (val s / 2 ^ p * 2 ^ p) :=
          Nat.mul_dvd_mul_left _ ((pow_dvd_pow 2 hup').trans (Nat.dvd_mul_left _ _))
        exact hd.trans this
      rw [← sl] at h1
      have h2 : 2 * 2 ^ (e + 159) ∣ (val r + val q) * 2 ^ (e + 159) := by
        rw [mul_comm 2, ← pow_succ]
        exact (pow_dvd_pow 2 (by omega)).trans h1
      have := Nat.dvd_of_mul_dvd_mul_right (by positivity) h2
      omega
    have lo : val t * 2 ^ (e + 1 + 159) = R0 * (val s / 2 ^ p * 2 ^ p) := by
      have h2 : val t * 2 = val r + val q := by omega
      rw [← sl, hpw, ← mul_assoc, h2]
    by_cases hw0 : nonzero w = true
    · rw [if_pos hw0]
      exact ih n' j' (e + 1) t w (by omega) (by omega) hj' (by omega) ⟨okt, okqq, by rw [hp', hqq]; congr 2, htn, by rw [hp']; exact lo⟩
    · rw [if_neg hw0]
      have hq0 : val w = 0 := nonzero_iff.1 (by simpa using hw0)
      rw [hq0] at hqq
      have := hgone p (e + 1) (by omega) (by omega) hqq.symm
      refine ⟨e + 1, rfl, ?_⟩
      rw [hrest p (by omega)] at lo
      exact lo

end Verif.Reals
