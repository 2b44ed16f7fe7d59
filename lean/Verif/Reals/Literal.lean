import Verif.Reals.Div
import Mathlib.Algebra.Order.Ring.Pow

/-!
# The number of a literal
-/

namespace Verif.Reals

/-- The number that digits stand for, the highest first. -/
def number (base : ℕ) (ds : List ℕ) : ℕ := ds.foldl (fun a d => a * base + d) 0

theorem number_append (base : ℕ) (ds : List ℕ) (d : ℕ) : number base (ds ++ [d]) = number base ds * base + d := by
  simp [number, List.foldl_append]

theorem eta_pow_pos (k : ℕ) : 0 < eta ^ k := pow_pos eta_pos k

theorem eta_pow_le {a b : ℕ} (h : a ≤ b) : eta ^ b ≤ eta ^ a := pow_le_pow_of_le_one eta_pos.le eta_lt.le h

/-- One more digit. -/
theorem digit_spec {base d : ℕ} (hb : 2 ≤ base) (hb' : base ≤ 36) (hd : d < base) {r : Real} (h : Norm r) :
    ∃ q, addInt (mulInt r base) d = some q ∧ Norm q ∧ value q ≤ value r * base + d ∧ (value r * base * eta + d) * eta ≤ value q ∧
    ∀ N : ℕ, value r = N → N * base + d < 2 ^ 160 → value q = (N * base + d : ℕ) := by
  obtain ⟨b1, b2, b3⟩ := fromInt_spec (n := base) (by omega) hb'
  have hm : mulInt r base = doMul r (fromInt base) 9 := by
    unfold mulInt
    have : ((base : ℕ) : ℤ) ≠ 0 := by omega
    simp only [this, if_false, h.sign]
    norm_num
  rw [hm]
  obtain ⟨m1, m2, m3⟩ := doMul_spec h b1 9 b3
  rw [b2] at m2 m3
  have ex : ∀ N : ℕ, value r = N → N * base < 2 ^ 160 → value (doMul r (fromInt base) 9) = (N * base : ℕ) :=
    fun N hN hlt => doMul_exact h b1 9 b3 hN b2 hlt
  clear hm
  generalize doMul r (fromInt base) 9 = m at *
  by_cases h0 : d = 0
  · subst h0
    refine ⟨_, by unfold addInt; simp, m1, by simpa using m2, ?_, ?_⟩
    · have hp : 0 ≤ value r * base * eta := mul_nonneg (mul_nonneg h.pos.le (Nat.cast_nonneg _)) eta_pos.le
      have : (value r * base * eta + ((0 : ℕ) : ℚ)) * eta ≤ value r * base * eta := by
        rw [Nat.cast_zero, add_zero]
        exact mul_le_of_le_one_right hp eta_lt.le
      linarith
    · intro N hN hlt
      exact ex N hN (by simpa using hlt)
  · obtain ⟨d1, d2, _⟩ := fromInt_spec (n := d) (by omega) (by omega)
    obtain ⟨a1, a2, _⟩ := doAdd_spec m1 d1
    have a3 := doAdd_near m1 d1
    rw [d2] at a2 a3
    refine ⟨doAdd m (fromInt d), ?_, a1, by linarith, ?_, ?_⟩
    · unfold addInt
      rw [if_neg (by omega), m1.sign, d1.sign]
      simp
    · refine le_trans (mul_le_mul_of_nonneg_right ?_ eta_pos.le) a3
      linarith
    · intro N hN hlt
      exact doAdd_exact m1 d1 (ex N hN (by omega)) d2 hlt

theorem digit_zero {base d : ℕ} (hb : 2 ≤ base) (hb' : base ≤ 36) (hd : d < base) :
    ∃ q, addInt (mulInt zero base) d = some q ∧ (d = 0 → q = zero) ∧ (d ≠ 0 → Norm q ∧ value q = d) := by
  have hm : mulInt zero base = zero := by
    unfold mulInt
    have : ((base : ℕ) : ℤ) ≠ 0 := by omega
    simp only [this, if_false]
    rfl
  rw [hm]
  by_cases h0 : d = 0
  · subst h0
    exact ⟨zero, rfl, fun _ => rfl, fun h => absurd rfl h⟩
  · obtain ⟨d1, d2, _⟩ := fromInt_spec (n := d) (by omega) (by omega)
    refine ⟨fromInt d, ?_, fun h => absurd h h0, fun _ => ⟨d1, d2⟩⟩
    unfold addInt
    rw [if_neg (by omega)]
    rfl

theorem scan_append (base : ℕ) (ds : List ℕ) (d : ℕ) : scan base (ds ++ [d]) = (scan base ds).bind fun n => addInt (mulInt n base) d := by
  unfold scan
  rw [List.foldlM_append]
  simp

/-- What `scan` answers for digits. -/
theorem scan_spec {base : ℕ} (hb : 2 ≤ base) (hb' : base ≤ 36) : ∀ ds : List ℕ, (∀ d ∈ ds, d < base) → ∃ q, scan base ds = some q ∧
    (number base ds = 0 → q = zero) ∧
    (number base ds ≠ 0 → Norm q ∧ value q ≤ number base ds ∧ number base ds * eta ^ (2 * ds.length) ≤ value q ∧
      (number base ds < 2 ^ 160 → value q = number base ds)) := by
  intro ds
  induction ds using List.reverseRecOn with
  | nil => intro _; exact ⟨zero, rfl, fun _ => rfl, fun h => absurd rfl h⟩
  | append_singleton ds d ih =>
    intro hd
    obtain ⟨q, h1, h2, h3⟩ := ih (fun x hx => hd x (by simp [hx]))
    have hdb := hd d (by simp)
    rw [scan_append, h1, number_append, List.length_append]
    simp only [Option.bind_some, List.length_singleton]
    by_cases hN : number base ds = 0
    · rw [hN, h2 hN, zero_mul, zero_add]
      obtain ⟨t, t1, t2, t3⟩ := digit_zero hb hb' hdb
      refine ⟨t, t1, t2, fun h => ?_⟩
      obtain ⟨n, v⟩ := t3 h
      refine ⟨n, v.le, ?_, fun _ => v⟩
      rw [v]
      exact mul_le_of_le_one_right (by positivity) (pow_le_one₀ eta_pos.le eta_lt.le)
    · obtain ⟨n1, n2, n3, n4⟩ := h3 hN
      obtain ⟨t, t1, t2, t3, t4, t5⟩ := digit_spec hb hb' hdb n1
      have hbpos : (0 : ℚ) < base := by
        have : 0 < base := by omega
        exact_mod_cast this
      refine ⟨t, t1, fun h => ?_, fun _ => ⟨t2, ?_, ?_, ?_⟩⟩
      · have : number base ds * base ≠ 0 := Nat.mul_ne_zero hN (by omega)
        omega
      · push_cast
        refine t3.trans ?_
        have := mul_le_mul_of_nonneg_right n2 hbpos.le
        linarith
      · refine le_trans ?_ t4
        rw [show 2 * (ds.length + 1) = 2 * ds.length + 1 + 1 by ring, pow_succ, ← mul_assoc]
        refine mul_le_mul_of_nonneg_right ?_ eta_pos.le
        push_cast
        rw [add_mul]
        refine add_le_add ?_ ?_
        · rw [pow_succ]
          have := mul_le_mul_of_nonneg_right n3 (mul_nonneg hbpos.le eta_pos.le)
          linarith
        · exact mul_le_of_le_one_right (by positivity) (pow_le_one₀ eta_pos.le eta_lt.le)
      · intro hlt
        have hle : number base ds ≤ number base ds * base := Nat.le_mul_of_pos_right _ (by omega)
        exact t5 _ (n4 (by omega)) hlt

/-- Powers by squaring. -/
theorem powLoop_spec : ∀ (n s : ℕ) (out r : Real) (A B : ℚ) (a c : ℕ), 1 ≤ s → s ≤ n → Norm out → Norm r → value out ≤ A →
    A * eta ^ a ≤ value out → value r ≤ B → B * eta ^ c ≤ value r →
    Norm (powLoop n out r s) ∧ value (powLoop n out r s) ≤ A * B ^ s ∧ A * B ^ s * eta ^ (a + s * (c + 1)) ≤ value (powLoop n out r s) := by
  intro n
  induction n with
  | zero => intro s out r A B a c h1 h2; omega
  | succ n ih =>
    intro s out r A B a c h1 h2 ho hr hA1 hA2 hB1 hB2
    have hop := ho.pos
    have hrp := hr.pos
    have hAp : 0 < A := lt_of_lt_of_le hop hA1
    have hBp : 0 < B := lt_of_lt_of_le hrp hB1
    obtain ⟨m1, m2, m3⟩ := mul_spec ho hr
    obtain ⟨q1, q2, q3⟩ := mul_spec hr hr
    have hm2 : value (mul out r) ≤ A * B := m2.trans (mul_le_mul hA1 hB1 hrp.le hAp.le)
    have hm3 : A * B * eta ^ (a + c + 1) ≤ value (mul out r) := by
      refine le_trans ?_ m3
      have : A * eta ^ a * (B * eta ^ c) ≤ value out * value r := mul_le_mul hA2 hB2 (mul_nonneg hBp.le (eta_pow_pos c).le) hop.le
      calc A * B * eta ^ (a + c + 1) = A * eta ^ a * (B * eta ^ c) * eta := by rw [pow_succ, pow_add]; ring
        _ ≤ _ := mul_le_mul_of_nonneg_right this eta_pos.le
    have hq2 : value (mul r r) ≤ B ^ 2 := q2.trans (by rw [pow_two]; exact mul_le_mul hB1 hB1 hrp.le hBp.le)
    have hq3 : B ^ 2 * eta ^ (2 * c + 1) ≤ value (mul r r) := by
      refine le_trans ?_ q3
      have : B * eta ^ c * (B * eta ^ c) ≤ value r * value r := mul_le_mul hB2 hB2 (mul_nonneg hBp.le (eta_pow_pos c).le) hrp.le
      calc B ^ 2 * eta ^ (2 * c + 1) = B * eta ^ c * (B * eta ^ c) * eta := by rw [pow_succ, two_mul, pow_add]; ring
        _ ≤ _ := mul_le_mul_of_nonneg_right this eta_pos.le
    unfold powLoop
    by_cases hodd : s % 2 = 1
    · rw [if_pos hodd]
      simp only
      by_cases hz : s / 2 = 0
      · rw [if_pos hz]
        have hs : s = 1 := by omega
        subst hs
        refine ⟨m1, by simpa using hm2, ?_⟩
        rw [pow_one, one_mul, ← Nat.add_assoc]
        exact hm3
      · rw [if_neg hz]
        obtain ⟨i1, i2, i3⟩ := ih (s / 2) (mul out r) (mul r r) (A * B) (B ^ 2) (a + c + 1) (2 * c + 1) (by omega) (by omega) m1 q1 hm2 hm3 hq2 hq3
        have hs : s = 2 * (s / 2) + 1 := by omega
        have e1 : A * B * (B ^ 2) ^ (s / 2) = A * B ^ s := by
          conv_rhs => rw [hs]
          rw [← pow_mul, pow_succ]; ring
        have e2 : a + c + 1 + s / 2 * (2 * c + 1 + 1) = a + s * (c + 1) := by
          conv_rhs => rw [hs]
          ring
        rw [e1] at i2 i3
        rw [e2] at i3
        exact ⟨i1, i2, i3⟩
    · rw [if_neg hodd]
      obtain ⟨i1, i2, i3⟩ := ih (s / 2) out (mul r r) A (B ^ 2) a (2 * c + 1) (by omega) (by omega) ho q1 hA1 hA2 hq2 hq3
      have hs : s = 2 * (s / 2) := by omega
      have e1 : A * (B ^ 2) ^ (s / 2) = A * B ^ s := by
        conv_rhs => rw [hs]
        rw [← pow_mul]
      have e2 : a + s / 2 * (2 * c + 1 + 1) = a + s * (c + 1) := by
        conv_rhs => rw [hs]
        ring
      rw [e1] at i2 i3
      rw [e2] at i3
      exact ⟨i1, i2, i3⟩

theorem powLoop_exact : ∀ (n s : ℕ) (out r : Real) (A B : ℕ), 1 ≤ s → s ≤ n → Norm out → Norm r → value out = A → value r = B →
    A * B ^ s < 2 ^ 160 → value (powLoop n out r s) = (A * B ^ s : ℕ) := by
  intro n
  induction n with
  | zero => intro s out r A B h1 h2; omega
  | succ n ih =>
    intro s out r A B h1 h2 ho hr hA hB hlt
    have hAp : 0 < A := by
      have := ho.pos; rw [hA] at this; exact_mod_cast this
    have hBp : 0 < B := by
      have := hr.pos; rw [hB] at this; exact_mod_cast this
    have hq : 2 ≤ s → value (mul r r) = (B ^ 2 : ℕ) := by
      intro h
      have h3 : B * B ≤ B ^ s := by rw [← pow_two]; exact Nat.pow_le_pow_right hBp h
      have h4 : B ^ s ≤ A * B ^ s := Nat.le_mul_of_pos_left _ hAp
      rw [pow_two]
      exact mul_exact hr hr hB hB (by omega)
    unfold powLoop
    by_cases hodd : s % 2 = 1
    · rw [if_pos hodd]
      simp only
      have hm : value (mul out r) = (A * B : ℕ) := by
        refine mul_exact ho hr hA hB (lt_of_le_of_lt (Nat.mul_le_mul_left _ ?_) hlt)
        exact Nat.le_self_pow (by omega) B
      by_cases hz : s / 2 = 0
      · rw [if_pos hz]
        have hs : s = 1 := by omega
        subst hs
        rw [pow_one]
        exact hm
      · rw [if_neg hz]
        have hs : s = 2 * (s / 2) + 1 := by omega
        have e1 : A * B * (B ^ 2) ^ (s / 2) = A * B ^ s := by
          conv_rhs => rw [hs]
          rw [← pow_mul, pow_succ]; ring
        have := ih (s / 2) (mul out r) (mul r r) (A * B) (B ^ 2) (by omega) (by omega) (mul_spec ho hr).1 (mul_spec hr hr).1 hm (hq (by omega))
          (by rw [e1]; exact hlt)
        rw [e1] at this
        exact this
    · rw [if_neg hodd]
      have hs : s = 2 * (s / 2) := by omega
      have e1 : A * (B ^ 2) ^ (s / 2) = A * B ^ s := by
        conv_rhs => rw [hs]
        rw [← pow_mul]
      have := ih (s / 2) out (mul r r) A (B ^ 2) (by omega) (by omega) ho (mul_spec hr hr).1 hA (hq (by omega)) (by rw [e1]; exact hlt)
      rw [e1] at this
      exact this

theorem powi_spec {base : ℕ} (hb : 2 ≤ base) (hb' : base ≤ 36) {s : ℕ} (hs : 1 ≤ s) : Norm (powi (fromInt base) s) ∧
    value (powi (fromInt base) s) ≤ base ^ s ∧ base ^ s * eta ^ s ≤ value (powi (fromInt base) s) ∧
    (base ^ s < 2 ^ 160 → value (powi (fromInt base) s) = (base ^ s : ℕ)) := by
  obtain ⟨b1, b2, _⟩ := fromInt_spec (n := base) (by omega) hb'
  obtain ⟨o1, o2, _⟩ := fromInt_spec (n := 1) (by omega) (by norm_num)
  obtain ⟨h1, h2, h3⟩ := powLoop_spec s s (fromInt (1 : ℕ)) (fromInt base) 1 base 0 0 hs (le_refl _) o1 b1 (by rw [o2]; simp) (by rw [o2]; simp)
    b2.le (by rw [b2]; simp)
  refine ⟨h1, by simpa [powi] using h2, by simpa [powi] using h3, fun hlt => ?_⟩
  have := powLoop_exact s s (fromInt (1 : ℕ)) (fromInt base) 1 base hs (le_refl _) o1 b1 o2 b2 (by simpa using hlt)
  rw [one_mul] at this
  exact this

/-- What a literal means. -/
def meaning (base : ℕ) (ints frac : List ℕ) (exponent : ℤ) : ℚ := number base (ints ++ frac) * (base : ℚ) ^ (exponent - frac.length)

/-- How many roundings there may be. -/
def effort (ints frac : List ℕ) (exponent : ℤ) : ℕ := 2 * (ints.length + frac.length) + (exponent - frac.length).natAbs + 1

theorem literal_spec {base : ℕ} (hb : 2 ≤ base) (hb' : base ≤ 36) {ints frac : List ℕ} (hi : ∀ d ∈ ints, d < base)
    (hf : ∀ d ∈ frac, d < base) (e : ℤ) : ∃ q, literal base ints frac e = some q ∧
    (number base (ints ++ frac) = 0 → q = zero) ∧
    (number base (ints ++ frac) ≠ 0 → Norm q ∧ meaning base ints frac e * eta ^ effort ints frac e ≤ value q ∧
      value q * eta ^ effort ints frac e ≤ meaning base ints frac e) := by
  obtain ⟨n, h1, h2, h3⟩ := scan_spec hb hb' (ints ++ frac) (by
    intro d hd
    rcases List.mem_append.1 hd with h | h
    · exact hi d h
    · exact hf d h)
  have hbpos : (0 : ℚ) < base := by
    have : 0 < base := by omega
    exact_mod_cast this
  unfold literal meaning effort
  rw [h1]
  simp only [Option.bind_some]
  generalize e - (frac.length : ℤ) = x
  rw [List.length_append] at h3
  generalize ints.length + frac.length = L at h3 ⊢
  generalize number base (ints ++ frac) = N at *
  by_cases hx : x = 0
  · subst hx
    rw [if_neg (by simp)]
    refine ⟨n, rfl, h2, fun h => ?_⟩
    obtain ⟨a, b, c, _⟩ := h3 h
    simp only [zpow_zero, mul_one, Int.natAbs_zero, Nat.add_zero]
    refine ⟨a, le_trans ?_ c, le_trans ?_ b⟩
    · exact mul_le_mul_of_nonneg_left (eta_pow_le (by omega)) (by positivity)
    · exact mul_le_of_le_one_right a.pos.le (pow_le_one₀ eta_pos.le eta_lt.le)
  rw [if_pos hx]
  have hk : 1 ≤ x.natAbs := by omega
  obtain ⟨p1, p2, p3, _⟩ := powi_spec hb hb' hk
  have hpp := p1.pos
  generalize powi (fromInt base) x.natAbs = P at *
  by_cases hneg : x < 0
  · rw [if_pos hneg]
    refine ⟨_, rfl, fun h => ?_, fun h => ?_⟩
    · rw [h2 h]; rfl
    · obtain ⟨a, b, c, _⟩ := h3 h
      obtain ⟨d1, d2, d3⟩ := div_spec a p1
      have hxe : (base : ℚ) ^ x = ((base : ℚ) ^ x.natAbs)⁻¹ := by
        rw [← zpow_natCast, ← zpow_neg, show -(x.natAbs : ℤ) = x by omega]
      have hBp : (0 : ℚ) < (base : ℚ) ^ x.natAbs := by positivity
      generalize x.natAbs = k at *
      generalize (base : ℚ) ^ k = B at *
      refine ⟨d1, ?_, ?_⟩
      · refine le_trans ?_ d3
        rw [hxe]
        have h4 : (N : ℚ) * eta ^ (2 * L) / B ≤ value n / value P :=
          div_le_div₀ a.pos.le c hpp p2
        have h5 : (N : ℚ) * B⁻¹ * eta ^ (2 * L + k + 1) ≤ (N : ℚ) * eta ^ (2 * L) / B * eta := by
          have : eta ^ (2 * L + k + 1) ≤ eta ^ (2 * L) * eta := by
            rw [← pow_succ]; exact eta_pow_le (by omega)
          have h6 : (0 : ℚ) ≤ N * B⁻¹ := by positivity
          calc _ ≤ (N : ℚ) * B⁻¹ * (eta ^ (2 * L) * eta) := mul_le_mul_of_nonneg_left this h6
            _ = _ := by rw [div_eq_mul_inv]; ring
        exact h5.trans (mul_le_mul_of_nonneg_right h4 eta_pos.le)
      · rw [hxe]
        have hek := eta_pow_pos k
        have h4 : value n / value P ≤ N / (B * eta ^ k) :=
          div_le_div₀ (by positivity) b (by positivity) p3
        have h5 : value (div n P) ≤ N / (B * eta ^ k) := d2.trans h4
        have h6 : (N : ℚ) / (B * eta ^ k) * eta ^ k = N * B⁻¹ := by
          field_simp
        calc value (div n P) * eta ^ (2 * L + k + 1) ≤ value (div n P) * eta ^ k :=
              mul_le_mul_of_nonneg_left (eta_pow_le (by omega)) d1.pos.le
          _ ≤ N / (B * eta ^ k) * eta ^ k := mul_le_mul_of_nonneg_right h5 hek.le
          _ = _ := h6
  · rw [if_neg hneg]
    refine ⟨_, rfl, fun h => ?_, fun h => ?_⟩
    · rw [h2 h]; rfl
    · obtain ⟨a, b, c, _⟩ := h3 h
      obtain ⟨d1, d2, d3⟩ := mul_spec a p1
      have hxe : (base : ℚ) ^ x = (base : ℚ) ^ x.natAbs := by
        rw [← zpow_natCast, show (x.natAbs : ℤ) = x by omega]
      have hBp : (0 : ℚ) < (base : ℚ) ^ x.natAbs := by positivity
      rw [hxe]
      generalize x.natAbs = k at *
      generalize (base : ℚ) ^ k = B at *
      refine ⟨d1, le_trans ?_ d3, ?_⟩
      · have h4 : (N : ℚ) * eta ^ (2 * L) * (B * eta ^ k) ≤ value n * value P :=
          mul_le_mul c p3 (mul_nonneg hBp.le (eta_pow_pos k).le) a.pos.le
        calc (N : ℚ) * B * eta ^ (2 * L + k + 1) = (N : ℚ) * eta ^ (2 * L) * (B * eta ^ k) * eta := by rw [pow_succ, pow_add]; ring
          _ ≤ _ := mul_le_mul_of_nonneg_right h4 eta_pos.le
      · refine le_trans (mul_le_of_le_one_right d1.pos.le (pow_le_one₀ eta_pos.le eta_lt.le)) (d2.trans ?_)
        exact mul_le_mul b p2 hpp.le (by positivity)

/-- Literals that fit. -/
theorem literal_exact {base : ℕ} (hb : 2 ≤ base) (hb' : base ≤ 36) {ints frac : List ℕ} (hi : ∀ d ∈ ints, d < base)
    (hf : ∀ d ∈ frac, d < base) {e : ℤ} (h0 : number base (ints ++ frac) ≠ 0) (hN : number base (ints ++ frac) < 2 ^ 160) {k : ℕ} {w : ℤ}
    (hk : k < 2 ^ 159) (hm : meaning base ints frac e = k * 2 ^ w)
    (hfit : if e < frac.length then base ^ (frac.length - e).toNat < 2 ^ 160
      else number base (ints ++ frac) * base ^ (e - frac.length).toNat < 2 ^ 160) :
    ∃ q, literal base ints frac e = some q ∧ Norm q ∧ value q = k * 2 ^ w := by
  obtain ⟨n, h1, _, h3⟩ := scan_spec hb hb' (ints ++ frac) (by
    intro d hd
    rcases List.mem_append.1 hd with h | h
    · exact hi d h
    · exact hf d h)
  obtain ⟨a, _, _, c⟩ := h3 h0
  have hn := c hN
  have hbpos : (0 : ℚ) < base := by
    have : 0 < base := by omega
    exact_mod_cast this
  rw [← hm]
  unfold meaning at *
  unfold literal
  rw [h1]
  simp only [Option.bind_some]
  generalize number base (ints ++ frac) = N at *
  have hfit' : if e - (frac.length : ℤ) < 0 then base ^ (e - (frac.length : ℤ)).natAbs < 2 ^ 160
      else N * base ^ (e - (frac.length : ℤ)).natAbs < 2 ^ 160 := by
    by_cases h : e < frac.length
    · rw [if_pos h] at hfit
      rw [if_pos (by omega), show (e - (frac.length : ℤ)).natAbs = (frac.length - e).toNat by omega]
      exact hfit
    · rw [if_neg h] at hfit
      rw [if_neg (by omega), show (e - (frac.length : ℤ)).natAbs = (e - frac.length).toNat by omega]
      exact hfit
  clear hfit
  generalize e - (frac.length : ℤ) = x at *
  by_cases hx : x = 0
  · subst hx
    rw [if_neg (by simp)]
    exact ⟨n, rfl, a, by simpa using hn⟩
  rw [if_pos hx]
  obtain ⟨p1, _, _, p4⟩ := powi_spec hb hb' (show 1 ≤ x.natAbs by omega)
  by_cases hneg : x < 0
  · rw [if_pos hneg] at hfit' ⊢
    refine ⟨_, rfl, (div_spec a p1).1, ?_⟩
    have hxe : (base : ℚ) ^ x = ((base : ℚ) ^ x.natAbs)⁻¹ := by
      rw [← zpow_natCast, ← zpow_neg, show -(x.natAbs : ℤ) = x by omega]
    rw [hm]
    refine div_exact a p1 hk ?_
    rw [hn, p4 hfit', ← hm, hxe]
    push_cast
    rw [div_eq_mul_inv]
  · rw [if_neg hneg] at hfit' ⊢
    refine ⟨_, rfl, (mul_spec a p1).1, ?_⟩
    have hxe : (base : ℚ) ^ x = (base : ℚ) ^ x.natAbs := by
      rw [← zpow_natCast, show (x.natAbs : ℤ) = x by omega]
    have hN0 : 0 < N := Nat.pos_of_ne_zero h0
    rw [mul_exact a p1 hn (p4 (lt_of_le_of_lt (Nat.le_mul_of_pos_left _ hN0) hfit')) hfit', hxe]
    push_cast
    rfl

end Verif.Reals
