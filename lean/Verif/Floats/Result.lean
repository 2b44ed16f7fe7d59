import Verif.Floats.Near
import Mathlib.Data.Nat.Digits.Lemmas

/-!
# Printing Floats: the digits and the exponent
-/

namespace Verif.Floats

theorem Flt.val_pos {f : Flt} (hm : 0 < f.m) : 0 < f.val := by
  unfold Flt.val
  have : (0 : ℚ) < f.m := by exact_mod_cast hm
  exact mul_pos this (zpow_pos (by norm_num) _)

theorem Flt.eps_pos (p : ℕ) (f : Flt) : 0 < f.eps p := zpow_pos (by norm_num) _

theorem Flt.eps_le {p : ℕ} {f : Flt} (hm : 0 < f.m) (hp : 1 ≤ p) : f.eps p ≤ f.val := by
  unfold Flt.eps Flt.val Flt.exponent
  have h1 : (2 : ℚ) ^ (f.q + (Nat.log2 f.m : ℤ) - p + 1) ≤ (2 : ℚ) ^ ((Nat.log2 f.m : ℤ) + f.q) :=
    zpow_le_zpow_right₀ (by norm_num) (by omega)
  rw [zpow_add₀ (by norm_num) (Nat.log2 f.m : ℤ), zpow_natCast] at h1
  refine le_trans h1 ?_
  have h2 : (2 : ℚ) ^ Nat.log2 f.m ≤ f.m := by exact_mod_cast Nat.log2_self_le (by omega)
  have h3 : (0 : ℚ) < (2 : ℚ) ^ f.q := zpow_pos (by norm_num) _
  gcongr

/-- The digits and the exponent that `printOn:` computes. -/
structure Result (x : ℚ) (E : ℤ) (eps : ℚ) (K : ℕ) (d : ℤ) (e : ℤ) : Prop where
  first : First x E eps K
  choice : Choice x E eps K d
  lower : 10 ^ (K - 1) ≤ d
  upper : d ≤ 10 ^ K
  exponent : (d < 10 ^ K ∧ e = E) ∨ (d = 10 ^ K ∧ (e = E ∨ e = E + 1))

theorem digits_result {f : Flt} {p : ℕ} (hm : 0 < f.m) (hp : 1 ≤ p) :
    ∃ (K : ℕ) (d e : ℤ), Result f.val (floorLog f.val + 1) (f.eps p) K d e ∧ ∀ n, K ≤ n → f.digits p n = some (d, e) := by
  have hx := Flt.val_pos hm
  have he := f.eps_pos p
  obtain ⟨l1, l2⟩ := floorLog_spec hx
  obtain ⟨K, hF⟩ := exists_first (x := f.val) (E := floorLog f.val + 1) he
  have h0 : f.val < wt (floorLog f.val + 1) 0 := by unfold wt; simpa using l2
  have hInv : Inv f.val (floorLog f.val + 1) (f.eps p) 0
      ⟨f.val, (10 : ℚ) ^ (floorLog f.val + 1 - 1), 0, 0, 0, true, true, true⟩ := by
    have hp0 : pre f.val (floorLog f.val + 1) 0 = 0 :=
      pre_eq (by simpa using hx.le) (by simpa using h0)
    have hl0 : lo f.val (floorLog f.val + 1) 0 = 0 := by rw [lo, hp0]; simp
    refine ⟨by rw [hl0]; simp, by unfold wt; simp, by rw [hp0], by rw [hp0]; simp, ?_, Or.inl ⟨rfl, rfl⟩⟩
    rw [hl0]
    simpa using Flt.eps_le hm hp
  have run : ∀ n, K ≤ n → ∃ t, loop (f.eps p) n ⟨f.val, (10 : ℚ) ^ (floorLog f.val + 1 - 1), 0, 0, 0, true, true, true⟩ = some t ∧
      Inv f.val (floorLog f.val + 1) (f.eps p) K t ∧ t.prev = wt (floorLog f.val + 1) K ∧ t.digit = last f.val (floorLog f.val + 1) K := by
    intro n hn
    obtain ⟨j, t, h1, h2, h3, h4, h5, h6, h7⟩ := loop_spec hx.le h0 hF.stop n 0 _ hInv (by have := hF.pos; omega) (by omega)
      (by intro i hi hi'; omega)
    have : j = K := First.unique ⟨h2, h3, h4⟩ hF
    subst this
    exact ⟨t, h1, h5, h6, h7⟩
  obtain ⟨t, _, hI, hpv, hdg⟩ := run K (Nat.le_refl _)
  obtain ⟨hc, hc1, hc2⟩ := adjust_choice hF.pos hI hpv hdg
  obtain ⟨r0, r1⟩ := pre_range h0 hx.le K
  have hKp := hF.pos
  have hlow : ∀ k, 1 ≤ k → 10 ^ (k - 1) ≤ pre f.val (floorLog f.val + 1) k := by
    intro k hk
    unfold pre
    rw [Int.le_floor, le_div_iff₀ (wt_pos k)]
    refine le_trans (le_of_eq ?_) l1
    unfold wt
    push_cast
    rw [← zpow_natCast, ← zpow_add₀ (by norm_num)]
    congr 1
    omega
  have hk10 : (10 : ℤ) ^ K = 10 * 10 ^ (K - 1) := by
    obtain ⟨k, hk⟩ : ∃ k, K = k + 1 := ⟨K - 1, by omega⟩
    rw [hk, pow_succ]; simp; ring
  obtain ⟨r2, r3⟩ := pre_range h0 hx.le (K - 1)
  have hlo : (10 : ℤ) ^ (K - 1) ≤ t.digits + adjust (f.eps p) t := by
    have hK1 := hlow K hKp
    cases hc with
    | below h n e =>
      rw [e]
      by_cases h1 : K = 1
      · exfalso
        rw [h1] at n
        have hp0 : pre f.val (floorLog f.val + 1) 0 = 0 :=
          pre_eq (by simpa using hx.le) (by simpa using h0)
        have hl0 : lo f.val (floorLog f.val + 1) 0 = 0 := by rw [lo, hp0]; simp
        rw [hl0] at n
        have h2 := Flt.eps_le hm hp
        have h3 := half_le he
        linarith
      · have := hlow (K - 1) (by omega)
        have h2 : (10 : ℤ) ^ (K - 1) = 10 * 10 ^ (K - 1 - 1) := by
          obtain ⟨k, hk⟩ : ∃ k, K - 1 = k + 1 := ⟨K - 1 - 1, by omega⟩
          rw [hk, pow_succ]; simp; ring
        omega
    | above h n e =>
      rw [e]
      unfold last at h
      obtain ⟨_, _⟩ : 0 ≤ pre f.val (floorLog f.val + 1) (K - 1) ∧ pre f.val (floorLog f.val + 1) K < 10 * (pre f.val (floorLog f.val + 1) (K - 1) + 1) := by
        refine ⟨r2, ?_⟩
        have hq : (pre f.val (floorLog f.val + 1) K : ℚ) * wt (floorLog f.val + 1) K < (10 * (pre f.val (floorLog f.val + 1) (K - 1) + 1)) * wt (floorLog f.val + 1) K := by
          have h3 := lo_le (x := f.val) (E := floorLog f.val + 1) K
          have h4 := lt_hi (x := f.val) (E := floorLog f.val + 1) (K - 1)
          rw [lo] at h3
          rw [hi] at h4
          have hwt : wt (floorLog f.val + 1) (K - 1) = 10 * wt (floorLog f.val + 1) K := by
            obtain ⟨k, hk⟩ : ∃ k, K = k + 1 := ⟨K - 1, by omega⟩
            rw [hk]
            exact wt_succ k
          rw [hwt] at h4
          linarith
        have := lt_of_mul_lt_mul_right hq (wt_pos K).le
        exact_mod_cast this
      omega
    | up nb na h n e => omega
    | down nb na n e => omega
  have hup : t.digits + adjust (f.eps p) t ≤ 10 ^ K := by
    cases hc with
    | below h n e => omega
    | above h n e => omega
    | up nb na h n e => omega
    | down nb na n e => omega
  refine ⟨K, t.digits + adjust (f.eps p) t,
    if adjust (f.eps p) t > 0 ∧ t.allNines then floorLog f.val + 1 + 1 else floorLog f.val + 1, ⟨hF, hc, hlo, hup, ?_⟩, ?_⟩
  · split
    · rename_i hcond
      obtain ⟨ha, hn⟩ := hcond
      rw [hI.nines, decide_eq_true_eq] at hn
      right
      exact ⟨hc1 ha hn, Or.inr rfl⟩
    · rcases lt_or_eq_of_le hup with h | h
      · exact Or.inl ⟨h, rfl⟩
      · exact Or.inr ⟨h, Or.inl rfl⟩
  · intro n hn
    obtain ⟨t', h1, h2, h3, h4⟩ := run n hn
    have htt : t' = t := by
      have u1 := hI.up
      have u2 := h2.up
      have e1 := h2.num.trans hI.num.symm
      have e2 := h2.weight.trans hI.weight.symm
      have e3 := h2.digits.trans hI.digits.symm
      have e4 := h2.nines.trans hI.nines.symm
      have e5 := h2.down.trans hI.down.symm
      have e6 : t'.sameUp = t.sameUp := by
        rcases u1 with ⟨z, _⟩ | ⟨_, u1⟩
        · omega
        · rcases u2 with ⟨z, _⟩ | ⟨_, u2⟩
          · omega
          · exact u2.trans u1.symm
      have e7 := h3.trans hpv.symm
      have e8 := h4.trans hdg.symm
      cases t; cases t'
      simp_all
    subst htt
    unfold Flt.digits
    dsimp only
    rw [h1]
    rfl

/-- What the digits and the exponent mean, given that the point is put after so many digits from the first. -/
def shown (d : ℕ) (e : ℤ) : ℚ := d * (10 : ℚ) ^ (e - (Nat.digits 10 d).length)

theorem len_digits {d k : ℕ} (h1 : 10 ^ k ≤ d) (h2 : d < 10 ^ (k + 1)) : (Nat.digits 10 d).length = k + 1 := by
  have a := (Nat.lt_digits_length_iff (b := 10) (by norm_num) d (k := k)).mpr h1
  have b := (Nat.digits_length_le_iff (b := 10) (by norm_num) d (k := k + 1)).mpr h2
  omega

theorem Result.shown {x : ℚ} {E : ℤ} {eps : ℚ} {K : ℕ} {d e : ℤ} (h : Result x E eps K d e) :
    Floats.shown d.toNat e = d * wt E K ∨ (d * wt E K = (10 : ℚ) ^ E ∧ Floats.shown d.toNat e = d * wt E K / 10) := by
  have hK := h.first.pos
  have hl := h.lower
  have h0 : (0 : ℤ) < 10 ^ (K - 1) := by positivity
  obtain ⟨D, hD⟩ : ∃ D : ℕ, d = D := ⟨d.toNat, by omega⟩
  subst hD
  have hl' : 10 ^ (K - 1) ≤ D := by exact_mod_cast hl
  rw [Int.toNat_natCast]
  unfold Floats.shown
  rcases h.exponent with ⟨h1, h2⟩ | ⟨h1, h2⟩
  · left
    have h1' : D < 10 ^ K := by exact_mod_cast h1
    rw [len_digits (k := K - 1) hl' (by rwa [Nat.sub_add_cancel hK]), h2, wt, Nat.sub_add_cancel hK]
    rfl
  · have h1' : D = 10 ^ K := by exact_mod_cast h1
    have hlen : (Nat.digits 10 D).length = K + 1 := len_digits (by omega) (by rw [h1', pow_succ]; have : 0 < 10 ^ K := by positivity
                                                                              omega)
    rw [hlen]
    rcases h2 with h2 | h2
    · right
      rw [h2, wt]
      constructor
      · rw [h1']
        push_cast
        rw [← zpow_natCast, ← zpow_add₀ (by norm_num)]
        congr 1
        omega
      · push_cast
        rw [show E - ((K : ℤ) + 1) = (E - K) - 1 by ring, zpow_sub₀ (by norm_num), zpow_one, mul_div_assoc]
    · left
      rw [h2, wt]
      push_cast
      rw [show E + 1 - ((K : ℤ) + 1) = E - K by ring]

/-- The value that is shown is nearer than `eps`, but for a point that has slipped. -/
theorem digits_near {f : Flt} {p : ℕ} (hm : 0 < f.m) (hp : 1 ≤ p) :
    ∃ (N d : ℕ) (e : ℤ) (v : ℚ), (∀ n, N ≤ n → f.digits p n = some ((d : ℤ), e)) ∧ 0 < d ∧ |v - f.val| < f.eps p ∧
      (f.val < 1 ∨ 1 ≤ e) ∧ (Floats.shown d e = v ∨ (f.val < v ∧ (∃ k : ℤ, v = (10 : ℚ) ^ k) ∧ Floats.shown d e = v / 10)) ∧
      ∀ (i : ℕ) (V : ℤ), 1 ≤ i → 4 * f.eps p ≤ wt (floorLog f.val + 1) i →
        |V * wt (floorLog f.val + 1) i - f.val| < half (f.eps p) / 2 → v = V * wt (floorLog f.val + 1) i := by
  obtain ⟨K, d, e, hR, hn⟩ := digits_result (f := f) hm hp
  have h0 : (0 : ℤ) < 10 ^ (K - 1) := by positivity
  have hl := hR.lower
  obtain ⟨D, hD⟩ : ∃ D : ℕ, d = D := ⟨d.toNat, by omega⟩
  subst hD
  have hs := hR.shown
  rw [Int.toNat_natCast] at hs
  have hx := Flt.val_pos hm
  obtain ⟨l1, l2⟩ := floorLog_spec hx
  refine ⟨K, D, e, D * wt (floorLog f.val + 1) K, hn, by omega, ?_, ?_, ?_, ?_⟩
  · exact_mod_cast hR.choice.near (f.eps_pos p) hR.first
  · rcases lt_or_ge f.val 1 with h | h
    · exact Or.inl h
    · right
      have : 0 < floorLog f.val + 1 := by
        by_contra hc
        have h3 : (10 : ℚ) ^ (floorLog f.val + 1) ≤ (10 : ℚ) ^ (0 : ℤ) := zpow_le_zpow_right₀ (by norm_num) (by omega)
        rw [zpow_zero] at h3
        linarith
      rcases hR.exponent with ⟨_, h2⟩ | ⟨_, h2 | h2⟩ <;> omega
  · rcases hs with h | ⟨h1, h2⟩
    · left; exact_mod_cast h
    · right
      push_cast at h1 h2
      exact ⟨by rw [h1]; exact l2, ⟨_, h1⟩, h2⟩
  · intro i V hi hw hv
    exact_mod_cast hR.choice.short (f.eps_pos p) hR.first hi hw hv

end Verif.Floats
