import Verif.Reals.Arith
import Mathlib.Tactic.IntervalCases

/-!
# The quotient, and small integers
-/

namespace Verif.Reals

theorem and_ne {m k i : ℕ} (h1 : m.testBit i = true) (h2 : k.testBit i = true) : m &&& k ≠ 0 := by
  intro h
  have : (m &&& k).testBit i = true := by rw [Nat.testBit_and, h1, h2]; rfl
  rw [h] at this
  simp at this

theorem bit15 {m : ℕ} (h1 : 0x8000 ≤ m) (h2 : m < 0x10000) : m.testBit 15 = true := by
  rw [Nat.testBit_eq_decide_div_mod_eq]
  simp only [Nat.reducePow, decide_eq_true_eq]
  omega

theorem bit14 {m : ℕ} (h1 : 0x4000 ≤ m) (h2 : m < 0x8000) : m.testBit 14 = true := by
  rw [Nat.testBit_eq_decide_div_mod_eq]
  simp only [Nat.reducePow, decide_eq_true_eq]
  omega

theorem lshift_zero {m : ℕ} (h1 : 0x8000 ≤ m) (h2 : m < 0x10000) : lshiftFor m = 0 := by
  have hb := bit15 h1 h2
  unfold lshiftFor
  simp only [if_pos (and_ne hb (show (0xFF00 : ℕ).testBit 15 = true from rfl)), if_pos (and_ne hb (show (0xF000 : ℕ).testBit 15 = true from rfl)),
    if_pos (and_ne hb (show (0xC000 : ℕ).testBit 15 = true from rfl)), if_pos (and_ne hb (show (0x8000 : ℕ).testBit 15 = true from rfl))]

theorem lshift_one {m : ℕ} (h1 : 0x4000 ≤ m) (h2 : m < 0x8000) : lshiftFor m = 1 := by
  have hb := bit14 h1 h2
  have h0 : m &&& 0x8000 = 0 := by
    have := Nat.and_two_pow m 15
    rw [Nat.testBit_lt_two_pow (by simpa using h2)] at this
    simpa using this
  unfold lshiftFor
  simp only [if_pos (and_ne hb (show (0xFF00 : ℕ).testBit 14 = true from rfl)), if_pos (and_ne hb (show (0xF000 : ℕ).testBit 14 = true from rfl)),
    if_pos (and_ne hb (show (0xC000 : ℕ).testBit 14 = true from rfl)), h0, ne_eq, not_true_eq_false, if_false]

theorem ten {s : List ℕ} (h : s.length = 10) : ∃ a b c d e f g i j k, s = [a, b, c, d, e, f, g, i, j, k] := by
  match s, h with
  | [a, b, c, d, e, f, g, i, j, k], _ => exact ⟨a, b, c, d, e, f, g, i, j, k, rfl⟩

theorem top_limb {s : List ℕ} (h : Ok s) : limb s 9 = val s / 2 ^ 144 := by
  obtain ⟨a, b, c, d, e, f, g, i, j, k, rfl⟩ := ten h.len
  have hs := h.small
  simp only [List.mem_cons, List.not_mem_nil, or_false, forall_eq_or_imp, forall_eq] at hs
  show k = _
  simp only [val, Nat.reducePow]
  omega

theorem range10 : List.range 10 = [0, 1, 2, 3, 4, 5, 6, 7, 8, 9] := rfl

/-- A shift by at most one bit (libgst/real.c:132-191). -/
theorem normalize_spec (old : List ℕ) {v : Real} (h : Ok v.sig) (hv : 2 ^ 158 ≤ val v.sig) :
    (2 ^ 159 ≤ val v.sig → (normalize old v).sig = v.sig ∧ (normalize old v).exp = v.exp ∧ (normalize old v).sign = v.sign) ∧
    (val v.sig < 2 ^ 159 → (normalize old v).sig = shl1 v.sig ∧ (normalize old v).exp = v.exp - 1 ∧ (normalize old v).sign = v.sign) := by
  have ht := top_limb h
  have hl := h.lt
  have h0 : (v.sig.reverse.takeWhile (· = 0)).length = 0 := by
    have hne : limb v.sig 9 ≠ 0 := by
      rw [ht]
      simp only [Nat.reducePow] at *
      omega
    obtain ⟨a, b, c, d, e, f, g, i, j, k, hs⟩ := ten h.len
    rw [hs] at hne ⊢
    have : k ≠ 0 := hne
    simp [this]
  constructor
  · intro hn
    have hls : lshiftFor (limb v.sig 9) = 0 := by
      refine lshift_zero ?_ ?_ <;> rw [ht] <;> simp only [Nat.reducePow] at * <;> omega
    unfold normalize
    simp only [h0, Nat.sub_zero, hls]
    refine ⟨?_, by simp, by simp⟩
    obtain ⟨a, b, c, d, e, f, g, i, j, k, hs⟩ := ten h.len
    rw [hs]
    simp [range10, limb]
  · intro hn
    have hls : lshiftFor (limb v.sig 9) = 1 := by
      refine lshift_one ?_ ?_ <;> rw [ht] <;> simp only [Nat.reducePow] at * <;> omega
    unfold normalize
    simp only [h0, Nat.sub_zero, hls]
    refine ⟨?_, by simp, by simp⟩
    unfold shl1
    simp [range10]

/-- What the division keeps, when the bits from `p` up are done. -/
structure DivInv (R S p : ℕ) (x : List ℕ × List ℕ) : Prop where
  okr : Ok x.1
  okv : Ok x.2
  small : val x.1 < S
  eq : ∃ q, val x.2 = q * 2 ^ p ∧ R * 2 ^ (159 - p) = q * S + val x.1

theorem divStep_spec {s : List ℕ} (hs : Ok s) {R T q p msb : ℕ} {r v : List ℕ} (hr : Ok r) (hv : Ok v) (hrT : val r = T % 2 ^ 160)
    (hm : msb ≠ 0 ↔ 2 ^ 160 ≤ T) (hT : T < 2 * val s) (hq : val v = q * 2 ^ (p + 1)) (hp : p < 160)
    (he : R * 2 ^ (159 - p) = 2 * q * val s + T) : DivInv R (val s) p (divStep s msb r v p) := by
  have hsl := hs.lt
  have hTc : T < 2 ^ 160 → T % 2 ^ 160 = T := fun h => Nat.mod_eq_of_lt h
  have hTc' : 2 ^ 160 ≤ T → T % 2 ^ 160 = T - 2 ^ 160 := fun h => by
    rw [Nat.mod_eq_sub_mod h, Nat.mod_eq_of_lt (by omega)]
  unfold divStep
  by_cases hc : msb ≠ 0 ∨ 0 ≤ cmpSig r s
  · rw [if_pos hc]
    obtain ⟨ok, b, hb, hsub⟩ := sub_ok hr hs
    have hge : val s ≤ T := by
      rcases hc with h | h
      · exact le_trans hsl.le (hm.1 h)
      · have := (cmp_iff hr hs).1 h
        rw [hrT] at this
        exact this.trans (Nat.mod_le _ _)
    have hrem : val (subSig r s 0) = T - val s := by
      have hok := ok.lt
      rw [hrT] at hsub
      by_cases ht : T < 2 ^ 160
      · rw [hTc ht] at hsub
        have : b = 0 := by
          by_contra hb0
          have : b = 1 := by omega
          subst this
          omega
        subst this
        omega
      · rw [hTc' (by omega)] at hsub
        have : b = 1 := by
          by_contra hb0
          have : b = 0 := by omega
          subst this
          omega
        subst this
        omega
    refine ⟨ok, setBit_ok hv p, by rw [hrem]; omega, 2 * q + 1, ?_, ?_⟩
    · rw [setBit_val hv hp, hq, mul_comm q, ← Nat.two_pow_add_eq_or_of_lt (Nat.pow_lt_pow_right (by norm_num) (by omega)), pow_succ]
      ring
    · rw [he, hrem, Nat.add_mul, one_mul]
      omega
  · rw [if_neg hc, ]
    rw [not_or] at hc
    have hT0 : T < 2 ^ 160 := by
      by_contra h
      exact hc.1 (hm.2 (by omega))
    have hlt : T < val s := by
      by_contra h
      exact hc.2 ((cmp_iff hr hs).2 (by rw [hrT, hTc hT0]; omega))
    refine ⟨hr, hv, by rw [hrT, hTc hT0]; exact hlt, 2 * q, ?_, ?_⟩
    · rw [hq, pow_succ]; ring
    · rw [he, hrT, hTc hT0]

theorem divLoop_spec {s : List ℕ} (hs : Ok s) {R : ℕ} : ∀ (p : ℕ) (x : List ℕ × List ℕ), p ≤ 159 → DivInv R (val s) p x →
    DivInv R (val s) 0 (divLoop s p x) := by
  intro p
  induction p with
  | zero => intro x _ h; exact h
  | succ p ih =>
    intro x hp h
    obtain ⟨q, hq, he⟩ := h.eq
    refine ih _ (by omega) ?_
    have hxl := h.okr.lt
    refine divStep_spec hs (q := q) (T := 2 * val x.1) (shl1_ok h.okr) h.okv (shl1_val h.okr) ?_ (by have := h.small; omega) hq (by omega) ?_
    · have := bit_test h.okr.small 9 15 (by norm_num)
      rw [show (2 : ℕ) ^ 15 = 0x8000 by norm_num] at this
      rw [this, Nat.testBit_eq_decide_div_mod_eq, decide_eq_true_eq]
      simp only [Nat.reducePow, Nat.reduceMul, Nat.reduceAdd] at *
      omega
    · rw [show 159 - p = 159 - (p + 1) + 1 by omega, pow_succ, ← mul_assoc, he]
      ring

/-- The quotient of the significands, without what is below the last bit. -/
theorem quotient {r s : Real} (hr : Norm r) (hs : Norm s) : ∃ v : ℕ, val r.sig * 2 ^ 159 < (v + 1) * val s.sig ∧
    v * val s.sig ≤ val r.sig * 2 ^ 159 ∧ 2 ^ 158 ≤ v ∧ Norm (doDiv r s) ∧ value (doDiv r s) = v * 2 ^ (r.exp - s.exp - 159) ∧
    ((doDiv r s).exp = r.exp - s.exp ∧ val (doDiv r s).sig = v ∨
      (doDiv r s).exp = r.exp - s.exp - 1 ∧ val (doDiv r s).sig = 2 * v) := by
  have hrl := hr.ok.lt
  have hst := hs.top
  have okz : Ok (List.replicate 10 0) := ⟨rfl, fun x hx => by rw [List.eq_of_mem_replicate hx]; norm_num⟩
  have h0 := divStep_spec hs.ok (R := val r.sig) (T := val r.sig) (q := 0) (p := 159) (msb := 0) hr.ok okz
    (Nat.mod_eq_of_lt hrl).symm (by constructor <;> intro h <;> omega)
    (by simp only [Nat.reducePow] at *; omega) (by rw [zero_mul]; rfl) (by norm_num) (by simp)
  have h1 := divLoop_spec hs.ok 159 _ (le_refl _) h0
  unfold doDiv
  simp only
  generalize divLoop s.sig 159 (divStep s.sig 0 r.sig (List.replicate 10 0) 159) = x at h1 ⊢
  obtain ⟨q, hq, he⟩ := h1.eq
  rw [pow_zero, mul_one] at hq
  rw [← hq, Nat.sub_zero] at he
  have hsm := h1.small
  have hlow : 2 ^ 158 ≤ val x.2 := by
    by_contra hc
    have h2 : val x.2 + 1 ≤ 2 ^ 158 := by omega
    have h3 : (val x.2 + 1) * val s.sig ≤ 2 ^ 158 * val s.sig := Nat.mul_le_mul_right _ h2
    have h4 := hr.top
    have h5 := hs.ok.lt
    rw [Nat.add_mul, one_mul] at h3
    simp only [Nat.reducePow] at *
    omega
  refine ⟨val x.2, by rw [he, Nat.add_mul, one_mul]; omega, by omega, hlow, ?_⟩
  obtain ⟨n1, n2⟩ := normalize_spec x.1 (v := ⟨x.2, r.exp - s.exp, r.sign * s.sign⟩) h1.okv hlow
  have hsg : r.sign * s.sign = 1 := by rw [hr.sign, hs.sign]; rfl
  by_cases hn : 2 ^ 159 ≤ val x.2
  · obtain ⟨a, b, c⟩ := n1 hn
    simp only at a b c
    refine ⟨⟨by rw [a]; exact h1.okv, by rw [a]; exact hn, by rw [c, hsg]⟩, ?_, Or.inl ⟨b, by rw [a]⟩⟩
    unfold value
    rw [a, b]
  · have hn' : val x.2 < 2 ^ 159 := by omega
    obtain ⟨a, b, c⟩ := n2 hn'
    simp only at a b c
    have hv : val (shl1 x.2) = 2 * val x.2 := by
      rw [shl1_val h1.okv]
      refine Nat.mod_eq_of_lt ?_
      simp only [Nat.reducePow] at *
      omega
    refine ⟨⟨by rw [a]; exact shl1_ok h1.okv, ?_, by rw [c, hsg]⟩, ?_, Or.inr ⟨b, by rw [a, hv]⟩⟩
    · rw [a, hv]
      simp only [Nat.reducePow] at *
      omega
    · unfold value
      rw [a, b, hv, show r.exp - s.exp - 159 = (r.exp - s.exp - 1 - 159) + 1 by ring, zpow_add_one₀ (by norm_num)]
      push_cast
      ring

theorem ratio (r s : Real) : value r / value s = (val r.sig : ℚ) / val s.sig * 2 ^ (r.exp - s.exp) := by
  unfold value
  rw [show r.exp - s.exp = (r.exp - 159) - (s.exp - 159) by ring, zpow_sub₀ (by norm_num : (2 : ℚ) ≠ 0) (r.exp - 159)]
  exact mul_div_mul_comm _ _ _ _

/-- The quotient is what is left of the true one after the lowest bit. -/
theorem div_floor {r s : Real} (hr : Norm r) (hs : Norm s) : ∃ v : ℕ, 2 ^ 158 ≤ v ∧ Norm (div r s) ∧
    value (div r s) = v * 2 ^ (r.exp - s.exp - 159) ∧ v * 2 ^ (r.exp - s.exp - 159) ≤ value r / value s ∧
    value r / value s < (v + 1) * 2 ^ (r.exp - s.exp - 159) ∧
    ((div r s).exp = r.exp - s.exp ∧ val (div r s).sig = v ∨ (div r s).exp = r.exp - s.exp - 1 ∧ val (div r s).sig = 2 * v) := by
  have hd : div r s = doDiv r s := by unfold div; rw [if_neg (by rw [hr.sign]; norm_num)]
  rw [hd]
  obtain ⟨v, h1, h2, h3, h4, h5, h6⟩ := quotient hr hs
  have hsp : (0 : ℚ) < val s.sig := by
    have : 0 < val s.sig := lt_of_lt_of_le (by norm_num) hs.top
    exact_mod_cast this
  have hu : (2 : ℚ) ^ (r.exp - s.exp) = 2 ^ 159 * 2 ^ (r.exp - s.exp - 159) := by
    rw [← zpow_natCast, ← zpow_add₀ (by norm_num), show ((159 : ℕ) : ℤ) + (r.exp - s.exp - 159) = r.exp - s.exp by push_cast; ring]
  have hup := unit_pos (r.exp - s.exp - 159)
  refine ⟨v, h3, h4, h5, ?_, ?_, h6⟩
  · rw [ratio, hu, ← mul_assoc]
    refine mul_le_mul_of_nonneg_right ?_ hup.le
    rw [div_mul_eq_mul_div, le_div_iff₀ hsp]
    exact_mod_cast h2
  · rw [ratio, hu, ← mul_assoc]
    refine mul_lt_mul_of_pos_right ?_ hup
    rw [div_mul_eq_mul_div, div_lt_iff₀ hsp]
    exact_mod_cast h1

theorem div_spec {r s : Real} (hr : Norm r) (hs : Norm s) : Norm (div r s) ∧ value (div r s) ≤ value r / value s ∧
    value r / value s * eta ≤ value (div r s) := by
  obtain ⟨v, h1, h2, h3, h4, h5, h6⟩ := div_floor hr hs
  refine ⟨h2, by rw [h3]; exact h4, ?_⟩
  have hup := unit_pos (r.exp - s.exp - 159)
  rcases h6 with ⟨a, b⟩ | ⟨a, b⟩
  · refine close (n := 1) (unit_pos _) h2.top (by norm_num) ?_
    rw [a, b]
    push_cast
    exact h5.le
  · refine close (n := 2) (unit_pos _) h2.top (by norm_num) ?_
    rw [a, b]
    have hu : (2 : ℚ) ^ (r.exp - s.exp - 159) = 2 ^ (r.exp - s.exp - 1 - 159) * 2 := by
      rw [show r.exp - s.exp - 159 = (r.exp - s.exp - 1 - 159) + 1 by ring, zpow_add_one₀ (by norm_num)]
    rw [hu] at h5
    push_cast
    calc _ ≤ _ := h5.le
      _ = _ := by ring

/-- A quotient of few bits is exact. -/
theorem div_exact {r s : Real} (hr : Norm r) (hs : Norm s) {k : ℕ} {q : ℤ} (hk : k < 2 ^ 159) (h : value r / value s = k * 2 ^ q) :
    value (div r s) = k * 2 ^ q := by
  obtain ⟨v, h1, h2, h3, h4, h5, _⟩ := div_floor hr hs
  rw [h] at h4 h5
  rw [h3]
  exact exact_of_floor (by simp only [Nat.reducePow] at *; omega) h4 h5

/-! ### Small integers -/

/-- A digit or a base. -/
theorem fromInt_table : ∀ n < 37, 1 ≤ n → (fromInt (n : ℕ)).sig.length = 10 ∧ (∀ x ∈ (fromInt (n : ℕ)).sig, x < 65536) ∧
    2 ^ 159 ≤ val (fromInt (n : ℕ)).sig ∧ (fromInt (n : ℕ)).sign = 1 ∧ 0 ≤ (fromInt (n : ℕ)).exp ∧ (fromInt (n : ℕ)).exp ≤ 5 ∧
    val (fromInt (n : ℕ)).sig = n * 2 ^ (159 - (fromInt (n : ℕ)).exp.toNat) ∧ (∀ i < 9, limb (fromInt (n : ℕ)).sig i = 0) := by
  decide +kernel

theorem fromInt_spec {n : ℕ} (h1 : 1 ≤ n) (h2 : n ≤ 36) : Norm (fromInt (n : ℕ)) ∧ value (fromInt (n : ℕ)) = n ∧
    ∀ i < 9, limb (fromInt (n : ℕ)).sig i = 0 := by
  obtain ⟨a, b, c, d, e, f, g, i⟩ := fromInt_table n (by omega) h1
  refine ⟨⟨⟨a, b⟩, c, d⟩, ?_, i⟩
  unfold value
  rw [g]
  obtain ⟨x, hx⟩ := Int.eq_ofNat_of_zero_le e
  rw [hx] at f ⊢
  simp only [Int.toNat_natCast]
  push_cast
  rw [mul_assoc, ← zpow_natCast, ← zpow_add₀ (by norm_num)]
  have : ((159 - x : ℕ) : ℤ) + ((x : ℤ) - 159) = 0 := by omega
  rw [this, zpow_zero, mul_one]

end Verif.Reals
