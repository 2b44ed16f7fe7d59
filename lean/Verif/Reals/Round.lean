import Verif.Reals.Literal

/-!
# The roundings to a `long double` and then to a `double`
-/

namespace Verif.Reals

/-- The unit of the last place. -/
def ulp (p n : ℕ) : ℕ := 2 ^ (Nat.log2 n + 1 - p)

theorem ulp_pos (p n : ℕ) : 0 < ulp p n := by unfold ulp; positivity

theorem rnd_eq (p n : ℕ) : rnd p n =
    if n % ulp p n * 2 < ulp p n ∨ (n % ulp p n * 2 = ulp p n ∧ n / ulp p n % 2 = 0) then n / ulp p n * ulp p n
    else (n / ulp p n + 1) * ulp p n := rfl

theorem rnd_half (p n : ℕ) : 2 * rnd p n ≤ 2 * n + ulp p n ∧ 2 * n ≤ 2 * rnd p n + ulp p n := by
  rw [rnd_eq]
  have hu := ulp_pos p n
  have h1 := Nat.div_add_mod' n (ulp p n)
  have h2 := Nat.mod_lt n hu
  generalize ulp p n = u at *
  generalize n % u = r at *
  generalize n / u = q at *
  split
  · constructor <;> omega
  · rw [Nat.add_mul, one_mul]
    constructor <;> omega

theorem rnd_dvd {p n : ℕ} (h : ulp p n ∣ n) : rnd p n = n := by
  rw [rnd_eq]
  have h0 : n % ulp p n = 0 := Nat.mod_eq_zero_of_dvd h
  rw [if_pos (Or.inl (by rw [h0]; simpa using ulp_pos p n)), Nat.div_mul_cancel h]

/-- No multiple of the unit is nearer. -/
theorem rnd_near (p n m : ℕ) : |((rnd p n : ℕ) : ℤ) - n| ≤ |((m * ulp p n : ℕ) : ℤ) - n| := by
  rw [rnd_eq]
  have hu := ulp_pos p n
  have h1 := Nat.div_add_mod' n (ulp p n)
  have h2 := Nat.mod_lt n hu
  generalize ulp p n = u at *
  generalize n % u = r at *
  generalize n / u = q at *
  have h3 : m ≤ q → m * u ≤ q * u := fun h => Nat.mul_le_mul_right _ h
  have h4 : q + 1 ≤ m → (q + 1) * u ≤ m * u := fun h => Nat.mul_le_mul_right _ h
  rw [Nat.add_mul, one_mul] at h4
  have h5 : (q + 1) * u = q * u + u := by rw [Nat.add_mul, one_mul]
  generalize m * u = mu at *
  rcases Nat.lt_or_ge q m with hq | hq
  · have := h4 hq
    split
    · rw [abs_of_nonpos (by omega), abs_of_nonneg (by omega)]; omega
    · rw [h5, abs_of_nonneg (by omega), abs_of_nonneg (by omega)]; omega
  · have := h3 hq
    split
    · rw [abs_of_nonpos (by omega), abs_of_nonpos (by omega)]; omega
    · rw [h5, abs_of_nonneg (by omega), abs_of_nonpos (by omega)]; omega

theorem log2_eq {n k : ℕ} (h1 : 2 ^ k ≤ n) (h2 : n < 2 ^ (k + 1)) : Nat.log2 n = k :=
  (Nat.log2_eq_iff (by have : 0 < 2 ^ k := by positivity
                       omega)).2 ⟨h1, h2⟩

theorem rnd_small {n : ℕ} (h : n < 2 ^ 64) : rnd 64 n = n := by
  refine rnd_dvd ?_
  have : Nat.log2 n < 64 := by
    by_cases h0 : n = 0
    · subst h0; decide
    · exact (Nat.log2_lt h0).2 h
  unfold ulp
  rw [show Nat.log2 n + 1 - 64 = 0 by omega, pow_zero]
  exact one_dvd _

/-- The limbs after the fifth do not count. -/
theorem rnd_step {z a s : ℕ} (hz1 : 2 ^ 63 ≤ z) (hz2 : z ≤ 2 ^ 64) (ha : 32 ≤ a) (hs : s < 65536) : rnd 64 (z * 2 ^ a + s) = z * 2 ^ a := by
  have hU : 2 ^ 32 ≤ 2 ^ a := Nat.pow_le_pow_right (by norm_num) ha
  have hUp : 0 < 2 ^ a := by positivity
  rcases Nat.lt_or_ge z (2 ^ 64) with h | h
  · have hl : Nat.log2 (z * 2 ^ a + s) = 63 + a := by
      refine log2_eq ?_ ?_
      · rw [pow_add]
        exact le_trans (Nat.mul_le_mul_right _ hz1) (Nat.le_add_right _ _)
      · rw [show 63 + a + 1 = 64 + a by omega, pow_add]
        have : (z + 1) * 2 ^ a ≤ 2 ^ 64 * 2 ^ a := Nat.mul_le_mul_right _ h
        rw [Nat.add_mul, one_mul] at this
        omega
    rw [rnd_eq]
    have hu : ulp 64 (z * 2 ^ a + s) = 2 ^ a := by unfold ulp; rw [hl]; congr 1; omega
    have hm : (z * 2 ^ a + s) % 2 ^ a = s := by rw [Nat.add_comm, Nat.add_mul_mod_self_right, Nat.mod_eq_of_lt (by omega)]
    have hd : (z * 2 ^ a + s) / 2 ^ a = z := by rw [Nat.add_comm, Nat.add_mul_div_right _ _ hUp, Nat.div_eq_of_lt (by omega), Nat.zero_add]
    rw [hu, hm, hd, if_pos (Or.inl (by omega))]
  · have hz : z = 2 ^ 64 := by omega
    have e : z * 2 ^ a = 2 ^ 63 * 2 ^ (a + 1) := by rw [hz, ← pow_add, ← pow_add]; congr 1; omega
    rw [e]
    have hU' : 2 ^ (a + 1) = 2 * 2 ^ a := by rw [pow_succ]; ring
    have hl : Nat.log2 (2 ^ 63 * 2 ^ (a + 1) + s) = 64 + a := by
      refine log2_eq ?_ ?_
      · rw [← pow_add, show 63 + (a + 1) = 64 + a by omega]
        exact Nat.le_add_right _ _
      · rw [← pow_add, show 63 + (a + 1) = 64 + a by omega, pow_succ (2) (64 + a), pow_add]
        have : 2 ^ a ≤ 2 ^ 64 * 2 ^ a := Nat.le_mul_of_pos_left _ (by positivity)
        omega
    rw [rnd_eq]
    have hu : ulp 64 (2 ^ 63 * 2 ^ (a + 1) + s) = 2 ^ (a + 1) := by unfold ulp; rw [hl]; congr 1; omega
    have hm : (2 ^ 63 * 2 ^ (a + 1) + s) % 2 ^ (a + 1) = s := by rw [Nat.add_comm, Nat.add_mul_mod_self_right, Nat.mod_eq_of_lt (by omega)]
    have hd : (2 ^ 63 * 2 ^ (a + 1) + s) / 2 ^ (a + 1) = 2 ^ 63 := by
      rw [Nat.add_comm, Nat.add_mul_div_right _ _ (by positivity), Nat.div_eq_of_lt (by omega), Nat.zero_add]
    rw [hu, hm, hd, if_pos (Or.inl (by omega))]

/-- The fifth limb decides. -/
theorem rnd_fifth {T a : ℕ} (h1 : 2 ^ 63 ≤ T) (h2 : T < 2 ^ 64) (ha : a < 65536) :
    ∃ z, rnd 64 (T * 65536 + a) = z * 2 ^ 16 ∧ (z = T ∧ a * 2 ≤ 65536 ∨ z = T + 1 ∧ 65536 ≤ a * 2) := by
  have hl : Nat.log2 (T * 65536 + a) = 79 := by
    refine log2_eq ?_ ?_ <;> simp only [Nat.reducePow, Nat.reduceAdd] at * <;> omega
  have hu : ulp 64 (T * 65536 + a) = 65536 := by unfold ulp; rw [hl]; norm_num
  rw [rnd_eq, hu]
  have hm : (T * 65536 + a) % 65536 = a := by omega
  have hd : (T * 65536 + a) / 65536 = T := by omega
  rw [hm, hd]
  split
  · exact ⟨T, by norm_num, Or.inl ⟨rfl, by omega⟩⟩
  · exact ⟨T + 1, by norm_num, Or.inr ⟨rfl, by omega⟩⟩

theorem mul_word (z k : ℕ) : z * 2 ^ k * 65536 = z * 2 ^ (k + 16) := by
  rw [pow_add, ← mul_assoc]
  norm_num

theorem fifth_near {T a low z : ℕ} (hlow : low < 2 ^ 80) (h : z = T ∧ a * 2 ≤ 65536 ∨ z = T + 1 ∧ 65536 ≤ a * 2) (ha : a < 65536) :
    z * 2 ^ 96 ≤ T * 2 ^ 96 + a * 2 ^ 80 + low + 2 ^ 95 ∧ T * 2 ^ 96 + a * 2 ^ 80 + low ≤ z * 2 ^ 96 + (2 ^ 95 + 2 ^ 80) ∧
    (2 ^ 96 ∣ T * 2 ^ 96 + a * 2 ^ 80 + low → z * 2 ^ 96 = T * 2 ^ 96 + a * 2 ^ 80 + low) := by
  simp only [Nat.reducePow] at *
  refine ⟨by omega, by omega, by omega⟩

/-- The top four limbs are taken as they are. -/
theorem four {a b c d : ℕ} (ha : a < 65536) (hb : b < 65536) (hc : c < 65536) (hd : d < 65536) :
    rnd 64 (rnd 64 (rnd 64 (rnd 64 (0 * 65536 + a) * 65536 + b) * 65536 + c) * 65536 + d) = ((a * 65536 + b) * 65536 + c) * 65536 + d := by
  rw [rnd_small (n := 0 * 65536 + a) (by simp only [Nat.reducePow]; omega), zero_mul, zero_add]
  rw [rnd_small (n := a * 65536 + b) (by simp only [Nat.reducePow]; omega)]
  rw [rnd_small (n := (a * 65536 + b) * 65536 + c) (by simp only [Nat.reducePow]; omega)]
  rw [rnd_small (n := ((a * 65536 + b) * 65536 + c) * 65536 + d) (by simp only [Nat.reducePow]; omega)]

/-- libgst/real.c:519-533. -/
theorem getLd_spec {r : Real} (h : Norm r) : ∃ z, 2 ^ 63 ≤ z ∧ z ≤ 2 ^ 64 ∧ getLd r = z * 2 ^ 96 ∧
    z * 2 ^ 96 ≤ val r.sig + 2 ^ 95 ∧ val r.sig ≤ z * 2 ^ 96 + (2 ^ 95 + 2 ^ 80) ∧ (2 ^ 96 ∣ val r.sig → z * 2 ^ 96 = val r.sig) := by
  have htop := top_limb h.ok
  have hv := h.top
  have hvl := h.ok.lt
  have hlen := h.ok.len
  have hsm := h.ok.small
  unfold getLd
  generalize r.sig = sg at *
  obtain ⟨a0, a1, a2, a3, a4, a5, a6, a7, a8, a9, rfl⟩ := ten hlen
  simp only [List.mem_cons, List.not_mem_nil, or_false, forall_eq_or_imp, forall_eq] at hsm
  obtain ⟨b0, b1, b2, b3, b4, b5, b6, b7, b8, b9⟩ := hsm
  have h9 : 2 ^ 15 ≤ a9 := by
    have : limb [a0, a1, a2, a3, a4, a5, a6, a7, a8, a9] 9 = a9 := rfl
    rw [← this, htop]
    generalize val [a0, a1, a2, a3, a4, a5, a6, a7, a8, a9] = v at *
    simp only [Nat.reducePow] at *
    omega
  clear htop hvl hv
  simp only [List.reverse_cons, List.reverse_nil, List.nil_append, List.cons_append, List.foldl_cons, List.foldl_nil]
  rw [four b9 b8 b7 b6]
  have hval : val [a0, a1, a2, a3, a4, a5, a6, a7, a8, a9] = (((a9 * 65536 + a8) * 65536 + a7) * 65536 + a6) * 2 ^ 96 + a5 * 2 ^ 80 +
      (a0 + 65536 * (a1 + 65536 * (a2 + 65536 * (a3 + 65536 * a4)))) := by
    simp only [val]
    ring
  rw [hval]
  have hlow : a0 + 65536 * (a1 + 65536 * (a2 + 65536 * (a3 + 65536 * a4))) < 2 ^ 80 := by
    simp only [Nat.reducePow]
    omega
  have hT1 : 2 ^ 63 ≤ ((a9 * 65536 + a8) * 65536 + a7) * 65536 + a6 := by
    simp only [Nat.reducePow] at *
    omega
  have hT2 : ((a9 * 65536 + a8) * 65536 + a7) * 65536 + a6 < 2 ^ 64 := by
    simp only [Nat.reducePow]
    omega
  clear hval hlen
  obtain ⟨T, hT⟩ : ∃ T, T = ((a9 * 65536 + a8) * 65536 + a7) * 65536 + a6 := ⟨_, rfl⟩
  obtain ⟨low, hl⟩ : ∃ low, low = a0 + 65536 * (a1 + 65536 * (a2 + 65536 * (a3 + 65536 * a4))) := ⟨_, rfl⟩
  rw [← hT] at hT1 hT2 ⊢
  rw [← hl] at hlow ⊢
  obtain ⟨z, hz, hzT⟩ := rnd_fifth hT1 hT2 b5
  have hz1 : 2 ^ 63 ≤ z := by omega
  have hz2 : z ≤ 2 ^ 64 := by omega
  have w1 : z * 2 ^ 16 * 65536 = z * 2 ^ 32 := mul_word z 16
  have w2 : z * 2 ^ 32 * 65536 = z * 2 ^ 48 := mul_word z 32
  have w3 : z * 2 ^ 48 * 65536 = z * 2 ^ 64 := mul_word z 48
  have w4 : z * 2 ^ 64 * 65536 = z * 2 ^ 80 := mul_word z 64
  have w5 : z * 2 ^ 80 * 65536 = z * 2 ^ 96 := mul_word z 80
  rw [hz, w1, rnd_step (a := 32) hz1 hz2 (by norm_num) b4, w2, rnd_step (a := 48) hz1 hz2 (by norm_num) b3, w3,
    rnd_step (a := 64) hz1 hz2 (by norm_num) b2, w4, rnd_step (a := 80) hz1 hz2 (by norm_num) b1, w5,
    rnd_step (a := 96) hz1 hz2 (by norm_num) b0]
  exact ⟨z, hz1, hz2, rfl, fifth_near hlow hzT b5⟩

/-- A significand of 160 bits loses at most half a unit of the precision and a little. -/
theorem ld_spec {r : Real} (h : Norm r) {p : ℕ} (hp : 1 ≤ p) (hp' : p ≤ 64) :
    2 * |((rnd p (getLd r) : ℕ) : ℤ) - getLd r| ≤ 2 ^ (160 - p) ∧
    |((rnd p (getLd r) : ℕ) : ℤ) - getLd r| ≤ |(2 ^ 159 : ℤ) - getLd r| ∧
    |(getLd r : ℤ) - val r.sig| ≤ 2 ^ 95 + 2 ^ 80 ∧
    (2 ^ (160 - p) ∣ val r.sig → rnd p (getLd r) = val r.sig) := by
  obtain ⟨z, h1, h2, h3, h4, h5, h6⟩ := getLd_spec h
  have hb : 2 ^ 159 ≤ getLd r := by
    rw [h3]
    simp only [Nat.reducePow] at *
    omega
  have hdv : ∀ k, k ≤ 160 → (2 : ℕ) ^ k ∣ 2 ^ 160 := fun k hk => pow_dvd_pow 2 hk
  refine ⟨?_, ?_, ?_, ?_⟩
  · rcases Nat.lt_or_ge (getLd r) (2 ^ 160) with h | h
    · have hl : Nat.log2 (getLd r) = 159 := log2_eq hb h
      have hu : ulp p (getLd r) = 2 ^ (160 - p) := by unfold ulp; rw [hl]
      obtain ⟨a, b⟩ := rnd_half p (getLd r)
      rw [hu] at a b
      have hc : ((2 ^ (160 - p) : ℕ) : ℤ) = 2 ^ (160 - p) := by push_cast; rfl
      rw [← hc]
      generalize (2 ^ (160 - p) : ℕ) = u at *
      rcases abs_cases (((rnd p (getLd r) : ℕ) : ℤ) - getLd r) with h | h <;> omega
    · have hz : getLd r = 2 ^ 160 := by
        rw [h3] at h ⊢
        simp only [Nat.reducePow] at *
        omega
      have hl : Nat.log2 (2 ^ 160) = 160 := Nat.log2_two_pow
      rw [hz, rnd_dvd (by unfold ulp; rw [hl]; exact hdv _ (by omega))]
      rw [sub_self, abs_zero, mul_zero]
      positivity
  · rcases Nat.lt_or_ge (getLd r) (2 ^ 160) with h | h
    · have hl : Nat.log2 (getLd r) = 159 := log2_eq hb h
      have hu : ulp p (getLd r) = 2 ^ (160 - p) := by unfold ulp; rw [hl]
      have := rnd_near p (getLd r) (2 ^ (p - 1))
      rw [hu, ← pow_add, show p - 1 + (160 - p) = 159 by omega] at this
      push_cast at this
      exact this
    · have hz : getLd r = 2 ^ 160 := by
        rw [h3] at h ⊢
        simp only [Nat.reducePow] at *
        omega
      have hl : Nat.log2 (2 ^ 160) = 160 := Nat.log2_two_pow
      rw [hz, rnd_dvd (by unfold ulp; rw [hl]; exact hdv _ (by omega))]
      rw [sub_self, abs_zero]
      exact abs_nonneg _
  · rw [h3]
    rw [abs_le]
    push_cast
    constructor
    · have : ((val r.sig : ℕ) : ℤ) ≤ ((z * 2 ^ 96 + (2 ^ 95 + 2 ^ 80) : ℕ) : ℤ) := by exact_mod_cast h5
      push_cast at this
      linarith
    · have : ((z * 2 ^ 96 : ℕ) : ℤ) ≤ ((val r.sig + 2 ^ 95 : ℕ) : ℤ) := by exact_mod_cast h4
      push_cast at this
      have : (0 : ℤ) ≤ 2 ^ 80 := by positivity
      linarith
  · intro hd
    have h96 : 2 ^ 96 ∣ val r.sig := (pow_dvd_pow 2 (by omega)).trans hd
    have hv := h6 h96
    rw [h3, hv]
    have hl : Nat.log2 (val r.sig) = 159 := log2_eq h.top h.ok.lt
    exact rnd_dvd (by unfold ulp; rw [hl]; exact hd)

end Verif.Reals
