/-
Division and greatest common divisor of libgst/mpz.c against the integers.
-/
import Verif.Mpz.Arith
import Mathlib.Data.Nat.GCD.Basic
import Mathlib.Algebra.Order.Group.Unbundled.Int

namespace Verif.Mpz

theorem Nrm.top {l : List Nat} (h : Nrm l) (h0 : val l ≠ 0) :
    B ^ (l.length - 1) ≤ val l := by
  rcases h.2 with h1 | h1
  · rw [h1]
    simp only [Nat.sub_self, Nat.pow_zero]
    omega
  · exact h1

theorem Nrm.getLast {l : List Nat} (hl : AllLt l) (h : Nrm l) (h0 : val l ≠ 0) :
    l.getLastD 0 ≠ 0 :=
  top_of_le_val hl (by intro e; rw [e] at h; have := h.1; simp at this) (h.top h0)

theorem quot_lt {n k a b : Nat} (ha : a < B ^ n) (hb : B ^ (k - 1) ≤ b) (hk : 1 ≤ k)
    (hkn : k ≤ n) : a / b < B ^ (n - k + 1) := by
  have hp := Bpow_pos (k - 1)
  apply Nat.div_lt_of_lt_mul
  calc a < B ^ n := ha
    _ = B ^ (k - 1) * B ^ (n - k + 1) := by rw [← Nat.pow_add]; congr 1; omega
    _ ≤ b * B ^ (n - k + 1) := Nat.mul_le_mul_right _ hb

/-- Truncated division of signed magnitudes. -/
theorem tdiv_signs (a b : Bool) (n m : Nat) :
    Int.tdiv (if a then -(n : Int) else n) (if b then -(m : Int) else m) =
      (if (a != b) then -((n / m : Nat) : Int) else ((n / m : Nat) : Int)) ∧
    Int.tmod (if a then -(n : Int) else n) (if b then -(m : Int) else m) =
      (if a then -((n % m : Nat) : Int) else ((n % m : Nat) : Int)) := by
  have hm : Int.tmod (n : Int) (m : Int) = ((n % m : Nat) : Int) := (Int.ofNat_tmod n m).symm
  have hd : Int.tdiv (n : Int) (m : Int) = ((n / m : Nat) : Int) := (Int.ofNat_tdiv n m).symm
  cases a <;> cases b <;>
    simp [-Int.natCast_ediv, -Int.natCast_emod, Int.neg_tdiv,
      Int.tdiv_neg, Int.neg_tmod, Int.tmod_neg, hm, hd]

/-- What the truncated division answers; the facts on the sizes serve
`_gst_mpz_fdiv_qr`. -/
theorem tdivQr_ok {num den : Z} (hn : num.Ok) (hd : den.Ok) (h0 : den.val ≠ 0) :
    ∃ q r, tdivQr num den = some (q, r) ∧ q.WF ∧ r.WF ∧
      q.val = Int.tdiv num.val den.val ∧ r.val = Int.tmod num.val den.val ∧
      r.size ≠ 0 ∧
      (decide (num.size < 0) ≠ decide (den.size < 0) → q.size ≤ 0) ∧
      r.size.natAbs ≤ den.size.natAbs := by
  have ln := hn.wf.lim_length
  have lk := hd.wf.lim_length
  have bn := val_lt hn.wf.lim_lt
  have bd := val_lt hd.wf.lim_lt
  have n1 := hn.nrm.1
  have k1 := hd.nrm.1
  have hd0 : val den.lim ≠ 0 := by
    intro h
    apply h0
    rw [Z.val, h]; simp
  have htop := hd.nrm.top hd0
  have hlast := hd.nrm.getLast hd.wf.lim_lt hd0
  have hT := tdiv_signs (decide (num.size < 0)) (decide (den.size < 0)) (val num.lim) (val den.lim)
  rw [← Z.val_decide, ← Z.val_decide] at hT
  unfold tdivQr
  simp only
  by_cases h : num.size.natAbs < den.size.natAbs
  · rw [if_pos h]
    have hlt : val num.lim < val den.lim := by
      rcases hd.nrm.lt_of_length hn.wf.lim_lt (by omega) with h1 | h1
      · rw [h1] at n1; simp at n1
      · exact h1
    have := mk_ok (s := num.size) (d := num.lim) (c := num.size.natAbs) (by omega) (by omega)
      hn.wf.lim_lt
    refine ⟨_, _, rfl, ⟨Nat.le_refl _, Nat.le_refl _, fun x hx => by cases hx⟩, this.1, ?_, ?_,
      by simp only; omega, fun _ => Int.le_refl _, by simp only; omega⟩
    · rw [hT.1, Nat.div_eq_of_lt hlt]
      simp [Z.val, Z.lim, val]
    · rw [hT.2, Nat.mod_eq_of_lt hlt, this.2]
      simp only [decide_eq_true_eq]
  · rw [if_neg h]
    have hm : mpnTdivQr num.lim den.lim = some
        (limbs (num.size.natAbs - den.size.natAbs + 1) (val num.lim / val den.lim),
          limbs den.size.natAbs (val num.lim % val den.lim)) := by
      unfold mpnTdivQr
      rw [if_pos ⟨by omega, hlast⟩, ln, lk]
    rw [hm]
    simp only
    have hq := quot_lt bn htop k1 (by omega)
    rw [ln, lk] at hq
    have hr : val num.lim % val den.lim < B ^ den.size.natAbs := by
      have := Nat.mod_lt (val num.lim) (Nat.pos_of_ne_zero hd0)
      rw [lk] at bd
      omega
    obtain ⟨s1, s2, s3, -⟩ := dropTop_spec (num.size.natAbs - den.size.natAbs + 1)
      (limbs_lt (num.size.natAbs - den.size.natAbs + 1) (val num.lim / val den.lim))
      (limbs_length _ _)
    have w1 := mk_val_of (s := signed (decide (num.size < 0) != decide (den.size < 0))
        (dropTop (limbs (num.size.natAbs - den.size.natAbs + 1) (val num.lim / val den.lim))
          (num.size.natAbs - den.size.natAbs + 1)))
      (d := limbs (num.size.natAbs - den.size.natAbs + 1) (val num.lim / val den.lim))
      (c := num.size.natAbs - den.size.natAbs + 1)
      (by rw [signed_natAbs, limbs_length]; exact s1) (by rw [limbs_length]) (limbs_lt _ _)
      (by rw [signed_natAbs]; exact s2)
    have w2 := mk_ok (s := signed (decide (num.size < 0)) den.size.natAbs)
      (d := limbs den.size.natAbs (val num.lim % val den.lim))
      (c := den.size.natAbs)
      (by rw [signed_natAbs, limbs_length]) (by rw [limbs_length]) (limbs_lt _ _)
    refine ⟨_, _, rfl, w1.1, w2.1, ?_, ?_, ?_, ?_, ?_⟩
    · rw [w1.2, hT.1, val_limbs_of_lt hq, signed_val]
      intro hz
      rw [hz, List.drop_zero, val_limbs_of_lt hq] at s2
      exact s2
    · rw [w2.2, hT.2, val_limbs_of_lt hr, signed_val (by omega)]
    · simp only [signed]
      split <;> omega
    · intro hne
      have : (decide (num.size < 0) != decide (den.size < 0)) = true := by simpa using hne
      simp only [signed, this, if_true]
      omega
    · simp only [signed_natAbs]; exact Nat.le_refl _

/-- The quotient and remainder that divide with a remainder of the sign of the divisor. -/
theorem fdiv_of {a b q r : Int} (h : a = q * b + r)
    (hr : (0 ≤ r ∧ r < b) ∨ (b < r ∧ r ≤ 0)) : q = Int.fdiv a b ∧ r = Int.fmod a b := by
  rcases hr with ⟨h1, h2⟩ | ⟨h1, h2⟩
  · have := (Int.fdiv_fmod_unique (a := a) (b := b) (r := r) (q := q) (by omega)).2
      ⟨by rw [h]; ring, h1, h2⟩
    exact ⟨this.1.symm, this.2.symm⟩
  · have := (Int.fdiv_fmod_unique' (a := a) (b := b) (r := r) (q := q) (by omega)).2
      ⟨by rw [h]; ring, h1, h2⟩
    exact ⟨this.1.symm, this.2.symm⟩

theorem tdiv_tmod_bounds {a b : Int} (hb : b ≠ 0) :
    a = Int.tdiv a b * b + Int.tmod a b ∧
    (0 ≤ a → 0 ≤ Int.tmod a b) ∧ (a ≤ 0 → Int.tmod a b ≤ 0) ∧
    (Int.tmod a b).natAbs < b.natAbs := by
  refine ⟨?_, fun h => Int.tmod_nonneg b h, fun h => ?_, ?_⟩
  · have := Int.mul_tdiv_add_tmod a b
    linarith
  · have := Int.tmod_nonneg b (a := -a) (by omega)
    rw [Int.neg_tmod] at this
    omega
  · rw [Int.natAbs_tmod]
    exact Nat.mod_lt _ (by omega)

/-- `_gst_mpz_fdiv_qr` floors if the signs agree or the division is not exact.  With
different signs and an exact division the quotient is one too small, and the remainder is
the divisor. -/
theorem fdivQr_ok {num den : Z} (hn : num.Ok) (hd : den.Ok) (h0 : den.val ≠ 0) :
    ∃ q r, fdivQr num den = some (q, r) ∧ q.WF ∧ r.WF ∧
      ((decide (num.size < 0) = decide (den.size < 0) ∨ Int.tmod num.val den.val ≠ 0) →
        q.val = Int.fdiv num.val den.val ∧ r.val = Int.fmod num.val den.val) ∧
      ((decide (num.size < 0) ≠ decide (den.size < 0) ∧ Int.tmod num.val den.val = 0) →
        q.val = Int.fdiv num.val den.val - 1 ∧ r.val = den.val) := by
  obtain ⟨q, r, he, hq, hr, vq, vr, hs, hsg, hsz⟩ := tdivQr_ok hn hd h0
  obtain ⟨t1, t2, t3, t4⟩ := tdiv_tmod_bounds (a := num.val) h0
  have ln := hn.bounds
  have ld := hd.bounds
  unfold fdivQr
  by_cases h : decide (num.size < 0) = decide (den.size < 0)
  · rw [if_pos (by simpa using h), he]
    refine ⟨q, r, rfl, hq, hr, fun _ => ?_, fun hh => absurd h hh.1⟩
    rw [vq, vr]
    have hsame : num.size < 0 ↔ den.size < 0 := by simpa using h
    apply fdiv_of t1
    rcases ln with ⟨a1, a2, -, -⟩ | ⟨a1, a2, -, -⟩
    · left
      have : 0 ≤ den.val := by
        rcases ld with ⟨b1, b2, -, -⟩ | ⟨b1, b2, -, -⟩
        · exact b2
        · omega
      have := t2 a2
      omega
    · right
      have : den.val ≤ 0 := by
        rcases ld with ⟨b1, b2, -, -⟩ | ⟨b1, b2, -, -⟩
        · omega
        · omega
      have := t3 (by omega)
      omega
  · rw [if_neg (by simpa using h), he]
    simp only
    rw [if_pos hs]
    have hq0 := hsg h
    have s1 := subUi_ok (x := 1) hq (by rw [B]; norm_num) (by omega)
    have s2 := add_ok' (u := r) (v := den) hr hd.wf (fun hh => by omega) (fun hh => by
      by_cases hlt : num.size.natAbs < den.size.natAbs
      · -- the remainder is smaller than the divisor
        have hrv : (r.val).natAbs < (den.val).natAbs := by rw [vr]; exact t4
        have e1 : (r.val).natAbs = val r.lim := by unfold Z.val; split <;> omega
        have e2 : (den.val).natAbs = val den.lim := by unfold Z.val; split <;> omega
        omega
      · have hrv : (r.val).natAbs < (den.val).natAbs := by rw [vr]; exact t4
        have e1 : (r.val).natAbs = val r.lim := by unfold Z.val; split <;> omega
        have e2 : (den.val).natAbs = val den.lim := by unfold Z.val; split <;> omega
        omega)
    refine ⟨_, _, rfl, s1.1, s2.1, fun hh => ?_, fun hh => ?_⟩
    · have hne : Int.tmod num.val den.val ≠ 0 := by
        rcases hh with hh | hh
        · exact absurd hh h
        · exact hh
      rw [s1.2, s2.2, vq, vr]
      have hdiff : ¬ (num.size < 0 ↔ den.size < 0) := by simpa using h
      apply fdiv_of
      · push_cast
        linarith
      · rcases ln with ⟨a1, a2, -, -⟩ | ⟨a1, a2, -, -⟩
        · right
          have : den.val < 0 := by
            rcases ld with ⟨b1, b2, -, -⟩ | ⟨b1, b2, -, -⟩
            · omega
            · exact b2
          have := t2 a2
          omega
        · left
          have : 0 ≤ den.val := by
            rcases ld with ⟨b1, b2, -, -⟩ | ⟨b1, b2, -, -⟩
            · exact b2
            · omega
          have := t3 (by omega)
          omega
    · rw [s1.2, s2.2, vq, vr, hh.2]
      refine ⟨?_, by omega⟩
      have : Int.tdiv num.val den.val = Int.fdiv num.val den.val := by
        refine (fdiv_of (r := 0) ?_ ?_).1
        · rw [hh.2] at t1; exact t1
        · omega
      rw [this]
      push_cast; ring

/-- Division by a machine word. -/
theorem tdivQrSi_ok {num : Z} {den : Int} (hn : num.Ok) (h0 : den ≠ 0)
    (hd : den.natAbs ≤ B) :
    ∃ q rem, tdivQrSi num den = some (q, rem) ∧ q.WF ∧
      q.val = Int.tdiv num.val den ∧
      rem = toLimb (Int.tmod num.val den) ∧ (rem = 0 ↔ Int.tmod num.val den = 0) ∧
      (decide (num.size < 0) ≠ decide (den < 0) → q.size ≤ 0) := by
  have ln := hn.wf.lim_length
  have bn := val_lt hn.wf.lim_lt
  have n1 := hn.nrm.1
  have hT := tdiv_signs (decide (num.size < 0)) (decide (den < 0)) (val num.lim) den.natAbs
  rw [← Z.val_decide] at hT
  have hden : (if decide (den < 0) = true then -(den.natAbs : Int) else den.natAbs) = den := by
    split
    · rename_i h; simp at h; omega
    · rename_i h; simp at h; omega
  rw [hden] at hT
  unfold tdivQrSi
  simp only
  rw [if_neg (by omega)]
  have hne : num.lim ≠ [] := by intro h; rw [h] at n1; simp at n1
  have hm : mpnDivrem1 num.lim den.natAbs = some (limbs num.size.natAbs (val num.lim / den.natAbs),
      val num.lim % den.natAbs) := by
    unfold mpnDivrem1
    rw [if_pos ⟨by omega, hne⟩, ln]
  rw [hm]
  simp only
  have hq : val num.lim / den.natAbs < B ^ num.size.natAbs := by
    rw [← ln]
    exact Nat.lt_of_le_of_lt (Nat.div_le_self _ _) bn
  have hrlt : val num.lim % den.natAbs < den.natAbs := Nat.mod_lt _ (by omega)
  have hrB : val num.lim % den.natAbs < B := by omega
  obtain ⟨s1, s2, s3, -⟩ := dropTop_spec num.size.natAbs
    (limbs_lt num.size.natAbs (val num.lim / den.natAbs)) (limbs_length _ _)
  have w1 := mk_val_of (s := signed (decide (num.size < 0) != decide (den < 0))
      (dropTop (limbs num.size.natAbs (val num.lim / den.natAbs)) num.size.natAbs))
    (d := limbs num.size.natAbs (val num.lim / den.natAbs)) (c := num.size.natAbs)
    (by rw [signed_natAbs, limbs_length]; exact s1) (by rw [limbs_length]) (limbs_lt _ _)
    (by rw [signed_natAbs]; exact s2)
  refine ⟨_, _, rfl, w1.1, ?_, ?_, ?_, ?_⟩
  · rw [w1.2, hT.1, val_limbs_of_lt hq, signed_val]
    intro hz
    rw [hz, List.drop_zero, val_limbs_of_lt hq] at s2
    exact s2
  · rw [hT.2]
    unfold toLimb
    by_cases hs : num.size < 0
    · rw [if_pos hs, if_pos (by simpa using hs)]
      generalize val num.lim % den.natAbs = x at hrB
      by_cases hx : x = 0
      · subst hx; simp
      · rw [Nat.mod_eq_of_lt (by omega)]
        have : (-(x : Int)) % (B : Int) = (B : Int) - x := by
          rw [← Int.add_emod_right, Int.emod_eq_of_lt (by omega) (by omega)]; ring
        rw [this]
        omega
    · rw [if_neg hs, if_neg (by simpa using hs)]
      rw [Int.emod_eq_of_lt (by omega) (by omega)]
      omega
  · rw [hT.2]
    generalize val num.lim % den.natAbs = x at hrB
    by_cases hs : num.size < 0
    · rw [if_pos hs, if_pos (by simpa using hs)]
      by_cases hx : x = 0
      · subst hx; simp
      · rw [Nat.mod_eq_of_lt (by omega)]
        constructor <;> intro h <;> omega
    · rw [if_neg hs, if_neg (by simpa using hs)]
      omega
  · intro hne'
    have : (decide (num.size < 0) != decide (den < 0)) = true := by simpa using hne'
    simp only [signed, this, if_true]
    omega

theorem toLimb_add (a b : Int) : (toLimb a + toLimb b) % B = toLimb (a + b) := by
  have hB : (B : Int) ≠ 0 := by have := B_pos; omega
  have h1 := Int.emod_nonneg a hB
  have h2 := Int.emod_nonneg b hB
  have h3 := Int.emod_nonneg (a + b) hB
  unfold toLimb
  zify
  rw [Int.toNat_of_nonneg h1, Int.toNat_of_nonneg h2, Int.toNat_of_nonneg h3, ← Int.add_emod]

theorem fdivQrSi_ok {num : Z} {den : Int} (hn : num.Ok) (h0 : den ≠ 0)
    (hd : den.natAbs ≤ B) :
    ∃ q rem, fdivQrSi num den = some (q, rem) ∧ q.WF ∧
      q.val = Int.fdiv num.val den ∧ rem = toLimb (Int.fmod num.val den) := by
  obtain ⟨q, rem, he, hq, vq, vr, vz, hsg⟩ := tdivQrSi_ok hn h0 hd
  obtain ⟨t1, t2, t3, t4⟩ := tdiv_tmod_bounds (a := num.val) h0
  have ln := hn.bounds
  unfold fdivQrSi
  rw [he]
  simp only
  by_cases h : (decide (num.size < 0) != decide (den < 0)) = true ∧ rem ≠ 0
  · rw [if_pos h]
    have h1 : decide (num.size < 0) ≠ decide (den < 0) := by simpa using h.1
    have s1 := subUi_ok (x := 1) hq (by rw [B]; norm_num) (by have := hsg h1; omega)
    have hf : q.val - 1 = Int.fdiv num.val den ∧
        Int.tmod num.val den + den = Int.fmod num.val den := by
      rw [vq]
      have hdiff : ¬ (num.size < 0 ↔ den < 0) := by simpa using h1
      have hne : Int.tmod num.val den ≠ 0 := fun e => h.2 (vz.2 e)
      apply fdiv_of
      · linarith
      · rcases ln with ⟨a1, a2, -, -⟩ | ⟨a1, a2, -, -⟩
        · right
          have := t2 a2
          omega
        · left
          have := t3 (by omega)
          omega
    refine ⟨_, _, rfl, s1.1, ?_, ?_⟩
    · rw [s1.2, ← hf.1]; push_cast; rfl
    · rw [vr, toLimb_add, hf.2]
  · rw [if_neg h]
    refine ⟨_, _, rfl, hq, ?_⟩
    rw [vq, vr]
    suffices hh : Int.tdiv num.val den = Int.fdiv num.val den ∧
        Int.tmod num.val den = Int.fmod num.val den by
      exact ⟨hh.1, by rw [hh.2]⟩
    apply fdiv_of t1
    by_cases h1 : decide (num.size < 0) = decide (den < 0)
    · have hsame : num.size < 0 ↔ den < 0 := by simpa using h1
      rcases ln with ⟨a1, a2, -, -⟩ | ⟨a1, a2, -, -⟩
      · left
        have := t2 a2
        omega
      · right
        have := t3 (by omega)
        omega
    · have : rem = 0 := by
        by_cases hr : rem = 0
        · exact hr
        · exact absurd ⟨by simpa using h1, hr⟩ h
      have := vz.1 this
      omega

/-! ### Greatest common divisor -/

theorem getLastD_eq {l : List Nat} (hl : AllLt l) (hne : l ≠ []) :
    l.getLastD 0 = val l / B ^ (l.length - 1) := by
  have hsplit : l = l.dropLast ++ [l.getLastD 0] := by
    conv => lhs; rw [← List.dropLast_concat_getLast hne]
    rw [List.getLastD_eq_getLast?, List.getLast?_eq_some_getLast hne, Option.getD_some]
  have hd : AllLt l.dropLast := fun x hx => hl x ((List.dropLast_sublist l).subset hx)
  have hb := val_lt hd
  have hv : val l = val l.dropLast + B ^ (l.length - 1) * l.getLastD 0 := by
    conv => lhs; rw [hsplit]
    rw [val_append, List.length_dropLast]
    simp only [val, Nat.mul_zero, Nat.add_zero]
  rw [List.length_dropLast] at hb
  rw [hv, Nat.add_mul_div_left _ _ (Bpow_pos _), Nat.div_eq_of_lt hb, Nat.zero_add]

/-- Limbs with a top limb that is not zero. -/
structure Top (l : List Nat) : Prop where
  lt : AllLt l
  ne : l ≠ []
  le : B ^ (l.length - 1) ≤ val l

theorem Top.last {l : List Nat} (h : Top l) : l.getLastD 0 ≠ 0 :=
  top_of_le_val h.lt h.ne h.le

theorem Top.pos {l : List Nat} (h : Top l) : 0 < val l := by
  have := Bpow_pos (l.length - 1)
  have := h.le
  omega

theorem strip_ok {u : List Nat} (hu : Top u) :
    ∃ u' zl zb, strip u = some (u', zl, zb) ∧ Top u' ∧ val u' % 2 = 1 ∧ zb < 64 ∧
      val u = val u' * 2 ^ (64 * zl + zb) := by
  have hpos := hu.pos
  obtain ⟨m, hm, hodd⟩ := ctz_spec (val u) (val u) (by omega) (Nat.le_refl _)
  unfold strip mpnScan1
  rw [if_pos (by omega)]
  simp only
  generalize ctz (val u) (val u) = z at hm
  have hb := val_lt hu.lt
  have hmpos : 0 < m := by omega
  have hzl : z / 64 < u.length := by
    by_contra hc
    have h1 : B ^ u.length ≤ B ^ (z / 64) := Nat.pow_le_pow_right B_pos (by omega)
    have h2 : B ^ (z / 64) ≤ 2 ^ z := by
      rw [pow_split z]
      exact Nat.le_mul_of_pos_right _ (Nat.pow_pos (by omega))
    have h3 : 2 ^ z ≤ val u := by
      rw [hm]; exact Nat.le_mul_of_pos_right _ hmpos
    omega
  have hdrop : val (u.drop (z / 64)) = 2 ^ (z % 64) * m := by
    rw [val_drop_div hu.lt _ (by omega), hm, pow_split z, Nat.mul_assoc,
      Nat.mul_div_cancel_left _ (Bpow_pos _)]
  have hdl : (u.drop (z / 64)).length = u.length - z / 64 := List.length_drop
  have hda := hu.lt.drop (z / 64)
  have htop : B ^ (u.length - z / 64 - 1) ≤ val (u.drop (z / 64)) := by
    rw [val_drop_div hu.lt _ (by omega)]
    rw [Nat.le_div_iff_mul_le (Bpow_pos _), ← Nat.pow_add]
    rw [show u.length - z / 64 - 1 + z / 64 = u.length - 1 by omega]
    exact hu.le
  have hzm : z % 64 < 64 := Nat.mod_lt _ (by omega)
  by_cases hc : z % 64 ≠ 0
  · rw [if_pos hc]
    have hne : u.drop (z / 64) ≠ [] := by
      intro h; rw [h] at hdl; simp at hdl; omega
    have hsh : mpnRshift (u.drop (z / 64)) (z % 64) =
        some (limbs (u.length - z / 64) m) := by
      unfold mpnRshift
      rw [if_pos ⟨by omega, hzm, hne⟩, hdl, hdrop,
        Nat.mul_div_cancel_left _ (Nat.pow_pos (by omega))]
    rw [hsh]
    simp only [hdl]
    have hmlt : m < B ^ (u.length - z / 64) := by
      have := val_lt hda
      rw [hdl, hdrop] at this
      have h2 : m ≤ 2 ^ (z % 64) * m := Nat.le_mul_of_pos_left _ (Nat.pow_pos (by omega))
      omega
    obtain ⟨s1, s2, s3, s4⟩ := dropTop_spec (u.length - z / 64)
      (limbs_lt (u.length - z / 64) m) (limbs_length _ _)
    rw [val_limbs_of_lt hmlt] at s4
    have hv : val ((limbs (u.length - z / 64) m).take
        (dropTop (limbs (u.length - z / 64) m) (u.length - z / 64))) = m := by
      have := val_take_drop (limbs (u.length - z / 64) m)
        (dropTop (limbs (u.length - z / 64) m) (u.length - z / 64))
        (by rw [limbs_length]; exact s1)
      rw [s2, val_limbs_of_lt hmlt] at this
      omega
    have hlen : ((limbs (u.length - z / 64) m).take
        (dropTop (limbs (u.length - z / 64) m) (u.length - z / 64))).length =
        dropTop (limbs (u.length - z / 64) m) (u.length - z / 64) := by
      rw [List.length_take, limbs_length]; omega
    refine ⟨_, _, _, rfl, ⟨(limbs_lt _ _).take _, ?_, ?_⟩, ?_, hzm, ?_⟩
    · intro h
      rw [h] at hv
      simp [val] at hv
      omega
    · rw [hv, hlen]
      by_cases hfull : B ^ (u.length - z / 64 - 1) ≤ m
      · rw [s4 hfull]; exact hfull
      · -- the top limb has become zero, so there are at least two
        have hL : 2 ≤ u.length - z / 64 := by
          by_contra hL
          apply hfull
          rw [show u.length - z / 64 - 1 = 0 by omega, Nat.pow_zero]
          omega
        have hle : B ^ (u.length - z / 64 - 2) ≤ m := by
          have h1 : B ^ (u.length - z / 64 - 2) * B ≤ 2 ^ (z % 64) * m := by
            rw [← Nat.pow_succ, ← hdrop]
            rw [show (u.length - z / 64 - 2).succ = u.length - z / 64 - 1 by omega]
            exact htop
          have h2 : 2 ^ (z % 64) ≤ B := Nat.pow_le_pow_right (by omega) (by omega)
          have h3 : B ^ (u.length - z / 64 - 2) * B ≤ m * B :=
            Nat.le_trans h1 (by rw [Nat.mul_comm m]; exact Nat.mul_le_mul_right _ h2)
          exact Nat.le_of_mul_le_mul_right h3 B_pos
        rcases s3 with h | h
        · rw [h, show u.length - z / 64 - 1 - 1 = u.length - z / 64 - 2 by omega]
          exact hle
        · exfalso
          have : dropTop (limbs (u.length - z / 64) m) (u.length - z / 64) ≠
              u.length - z / 64 - 1 := by omega
          -- a non-zero top limb gives the bound
          have hlast : (limbs (u.length - z / 64) m).getD (u.length - z / 64 - 1) 0 ≠ 0 := by
            intro hz
            apply this
            unfold dropTop
            rw [if_pos hz]
          apply hfull
          have hne' : limbs (u.length - z / 64) m ≠ [] := by
            intro h'
            have := congrArg List.length h'
            rw [limbs_length] at this
            simp at this
            omega
          have : (limbs (u.length - z / 64) m).getLastD 0 ≠ 0 := by
            rw [List.getLastD_eq_getLast?, List.getLast?_eq_getElem?, limbs_length]
            rw [List.getD_eq_getElem?_getD] at hlast
            exact hlast
          have := le_val_of_top this
          rw [limbs_length, val_limbs_of_lt hmlt] at this
          exact this
    · rw [hv]; exact hodd
    · rw [hv, Nat.div_add_mod]
      conv => lhs; rw [hm]
      exact Nat.mul_comm _ _
  · rw [if_neg hc]
    have hz0 : z % 64 = 0 := by omega
    rw [hz0, Nat.pow_zero, Nat.one_mul] at hdrop
    refine ⟨_, _, _, rfl, ⟨hda, ?_, ?_⟩, ?_, hzm, ?_⟩
    · intro h; rw [h] at hdl; simp at hdl; omega
    · rw [hdl]; exact htop
    · rw [hdrop]; exact hodd
    · rw [hdrop, Nat.div_add_mod]
      conv => lhs; rw [hm]
      exact Nat.mul_comm _ _

theorem mpnGcd_ok {u v : List Nat} (hu : Top u) (hv : Top v) (hodd : val v % 2 = 1)
    (h : ¬ (u.length < v.length ∨ (u.length = v.length ∧ u.getLastD 0 < v.getLastD 0))) :
    ∃ g, mpnGcd u v = some g ∧ Top g ∧ val g = Nat.gcd (val u) (val v) := by
  have bu := val_lt hu.lt
  have bv := val_lt hv.lt
  have lu : 1 ≤ u.length := List.length_pos_iff.2 hu.ne
  have lv : 1 ≤ v.length := List.length_pos_iff.2 hv.ne
  have hlog : Nat.log2 (val v) ≤ Nat.log2 (val u) := by
    rw [Nat.le_log2 (by have := hu.pos; omega)]
    have hk : 2 ^ Nat.log2 (val v) ≤ val v := Nat.log2_self_le (by have := hv.pos; omega)
    by_cases hl : v.length < u.length
    · have := hu.le
      have h2 : B ^ v.length ≤ B ^ (u.length - 1) := Nat.pow_le_pow_right B_pos (by omega)
      omega
    · have hle : v.length = u.length := by omega
      have htop : v.getLastD 0 ≤ u.getLastD 0 := by
        by_contra hh
        exact h (Or.inr ⟨by omega, by omega⟩)
      rw [getLastD_eq hv.lt hv.ne, getLastD_eq hu.lt hu.ne, hle] at htop
      have hge : 64 * (u.length - 1) ≤ Nat.log2 (val v) := by
        rw [Nat.le_log2 (by have := hv.pos; omega), Nat.pow_mul, ← hle]
        exact hv.le
      obtain ⟨t, ht⟩ := Nat.exists_eq_add_of_le hge
      rw [ht, Nat.pow_add, Nat.pow_mul] at hk ⊢
      change B ^ (u.length - 1) * 2 ^ t ≤ val v at hk
      change B ^ (u.length - 1) * 2 ^ t ≤ val u
      have h1 : 2 ^ t ≤ val v / B ^ (u.length - 1) := by
        rw [Nat.le_div_iff_mul_le (Bpow_pos _), Nat.mul_comm]; exact hk
      have h2 : 2 ^ t ≤ val u / B ^ (u.length - 1) := Nat.le_trans h1 htop
      rw [Nat.le_div_iff_mul_le (Bpow_pos _), Nat.mul_comm] at h2
      exact h2
  have hg : Nat.gcd (val u) (val v) < B ^ v.length :=
    Nat.lt_of_le_of_lt (Nat.gcd_le_right _ hv.pos) bv
  have hg0 : Nat.gcd (val u) (val v) ≠ 0 := by
    have := Nat.gcd_pos_of_pos_right (val u) hv.pos
    omega
  refine ⟨trim (limbs v.length (Nat.gcd (val u) (val v))), ?_, ⟨trim_lt (limbs_lt _ _), ?_, ?_⟩,
    ?_⟩
  · unfold mpnGcd
    rw [if_pos ⟨hodd, hu.last, hv.last, hlog⟩]
  · intro h'
    rw [trim_eq_nil, val_limbs_of_lt hg] at h'
    exact hg0 h'
  · rcases trim_top (limbs v.length (Nat.gcd (val u) (val v))) with h' | h'
    · rw [trim_eq_nil, val_limbs_of_lt hg] at h'
      exact absurd h' hg0
    · exact le_val_of_top h'
  · rw [val_trim, val_limbs_of_lt hg]

theorem unstrip_ok {g : List Nat} {zl zb : Nat} (hg : Top g) (hz : zb < 64) :
    ∃ w, unstrip g zl zb = some w ∧ w.WF ∧ w.val = (val g * 2 ^ (64 * zl + zb) : Nat) := by
  have hb := val_lt hg.lt
  have hl : 1 ≤ g.length := List.length_pos_iff.2 hg.ne
  have hpow : 2 ^ (64 * zl + zb) = B ^ zl * 2 ^ zb := by
    rw [Nat.pow_add, Nat.pow_mul]; rfl
  unfold unstrip
  by_cases h0 : zb ≠ 0
  · rw [if_pos h0]
    have hsh : mpnLshift g zb = some (limbs g.length (val g * 2 ^ zb),
        val g * 2 ^ zb / B ^ g.length) := by
      unfold mpnLshift
      rw [if_pos ⟨by omega, hz, hg.ne⟩]
    have hcy : g.getLastD 0 / 2 ^ (64 - zb) = val g * 2 ^ zb / B ^ g.length := by
      rw [getLastD_eq hg.lt hg.ne, Nat.div_div_eq_div_mul]
      have : B ^ g.length = B ^ (g.length - 1) * 2 ^ (64 - zb) * 2 ^ zb := by
        rw [Nat.mul_assoc, ← Nat.pow_add, show 64 - zb + zb = 64 by omega, ← B_eq,
          ← Nat.pow_succ]
        congr 1; omega
      rw [this, Nat.mul_div_mul_right _ _ (Nat.pow_pos (by omega))]
    have hq : val g * 2 ^ zb / B ^ g.length < B := by
      apply Nat.div_lt_of_lt_mul
      have : 2 ^ zb < B := Nat.pow_lt_pow_right (by omega) hz
      exact Nat.mul_lt_mul'' hb this
    have hdm := Nat.div_add_mod (val g * 2 ^ zb) (B ^ g.length)
    simp only [hsh, hcy]
    generalize val g * 2 ^ zb / B ^ g.length = cy at *
    have hlen : (List.replicate zl 0 ++ limbs g.length (val g * 2 ^ zb) ++
        (if cy ≠ 0 then [cy] else [])).length = g.length + zl + (if cy ≠ 0 then 1 else 0) := by
      rw [List.length_append, List.length_append, List.length_replicate, limbs_length]
      split <;> simp <;> omega
    have hall : AllLt (List.replicate zl 0 ++ limbs g.length (val g * 2 ^ zb) ++
        (if cy ≠ 0 then [cy] else [])) := by
      refine ((allLt_replicate_zero _).append (limbs_lt _ _)).append ?_
      split
      · intro y hy; simp only [List.mem_singleton] at hy; omega
      · intro y hy; cases hy
    have hval : val (List.replicate zl 0 ++ limbs g.length (val g * 2 ^ zb) ++
        (if cy ≠ 0 then [cy] else [])) = val g * 2 ^ (64 * zl + zb) := by
      rw [List.append_assoc, val_append, val_append, val_replicate_zero, val_limbs,
        List.length_replicate, limbs_length]
      have : val (if cy ≠ 0 then [cy] else []) = cy := by
        split
        · simp [val]
        · simp [val]; omega
      rw [this, Nat.zero_add, Nat.add_comm, hdm, hpow]
      ring
    have w := mk_ok (s := ((g.length + zl + (if cy ≠ 0 then 1 else 0) : Nat) : Int))
      (c := g.length + zl + (if cy ≠ 0 then 1 else 0))
      (by rw [hlen]; omega) (by rw [hlen]) hall
    refine ⟨_, rfl, w.1, ?_⟩
    rw [w.2, hval, if_neg (by omega)]
  · rw [if_neg h0]
    have w := mk_ok (s := ((g.length + zl : Nat) : Int)) (d := List.replicate zl 0 ++ g)
      (c := g.length + zl) (by simp; omega) (by simp; omega)
      ((allLt_replicate_zero _).append hg.lt)
    refine ⟨_, rfl, w.1, ?_⟩
    rw [w.2, if_neg (by omega), val_append, val_replicate_zero, List.length_replicate, hpow,
      show zb = 0 by omega]
    push_cast; ring

theorem gcd_pow_two {a b m n : Nat} (hm : m % 2 = 1) (hn : n % 2 = 1) :
    Nat.gcd (m * 2 ^ a) (n * 2 ^ b) = Nat.gcd m n * 2 ^ min a b := by
  have key : ∀ {a b m n : Nat}, n % 2 = 1 → a ≤ b → m % 2 = 1 →
      Nat.gcd (m * 2 ^ a) (n * 2 ^ b) = Nat.gcd m n * 2 ^ a := by
    intro a b m n hn hab hm
    obtain ⟨t, rfl⟩ := Nat.exists_eq_add_of_le hab
    rw [Nat.pow_add, ← Nat.mul_assoc, Nat.mul_right_comm, Nat.gcd_mul_right]
    congr 1
    apply Nat.Coprime.gcd_mul_right_cancel_right
    apply Nat.Coprime.pow_left
    rw [Nat.coprime_comm, Nat.Coprime, Nat.gcd_comm, Nat.gcd_rec, hm, Nat.gcd_one_left]
  rcases Nat.le_total a b with h | h
  · rw [key hn h hm, Nat.min_eq_left h]
  · rw [Nat.gcd_comm, key hm h hn, Nat.gcd_comm, Nat.min_eq_right h]

theorem Z.Ok.topOf {z : Z} (h : z.Ok) (h0 : z.val ≠ 0) : Top z.lim := by
  have hv : Mpz.val z.lim ≠ 0 := by
    intro h'
    apply h0
    rw [Z.val, h']; simp
  exact ⟨h.wf.lim_lt, by
    intro e; have := h.nrm.1; rw [e] at this; simp at this, h.nrm.top hv⟩

theorem copyAbs_ok {z : Z} (h : z.WF) :
    (copyAbs z).WF ∧ (copyAbs z).val = (z.val.natAbs : Int) := by
  have hl := h.lim_length
  have w := mk_ok (s := (z.size.natAbs : Int)) (d := z.lim) (c := z.size.natAbs) (by omega)
    (by omega) h.lim_lt
  refine ⟨w.1, ?_⟩
  rw [copyAbs, w.2, if_neg (by omega), Z.val]
  split <;> omega

theorem natAbs_val (z : Z) : z.val.natAbs = val z.lim := by
  rw [Z.val]; split <;> omega

/-- The greatest common divisor of two numbers that are not zero. -/
theorem gcd_ok {u v : Z} (hu : u.Ok) (hv : v.Ok) (u0 : u.val ≠ 0) (v0 : v.val ≠ 0) :
    ∃ g, gcd u v = some g ∧ g.WF ∧ g.val = (Int.gcd u.val v.val : Int) := by
  have lu := hu.wf.lim_length
  have lv := hv.wf.lim_length
  have tu := hu.topOf u0
  have tv := hv.topOf v0
  have pu := tu.pos
  have pv := tv.pos
  have nu : 1 ≤ u.size.natAbs := by have := hu.nrm.1; omega
  have nv : 1 ≤ v.size.natAbs := by have := hv.nrm.1; omega
  have hG : Int.gcd u.val v.val = Nat.gcd (val u.lim) (val v.lim) := by
    rw [Int.gcd, natAbs_val, natAbs_val]
  have one : ∀ {l : List Nat}, l.length = 1 → val l = l.headD 0 := by
    intro l hl
    obtain ⟨x, rfl⟩ := List.length_eq_one_iff.1 hl
    simp [val]
  unfold gcd
  simp only
  by_cases c1 : u.size.natAbs = 0 ∨ (v.size.natAbs = 1 ∧ v.lim.headD 0 = 1)
  · rw [if_pos c1]
    have c1' := c1.resolve_left (by omega)
    have e : val v.lim = 1 := by rw [one (by omega)]; exact c1'.2
    refine ⟨_, rfl, (copyAbs_ok hv.wf).1, ?_⟩
    rw [(copyAbs_ok hv.wf).2, hG, natAbs_val, e, Nat.gcd_one_right]
  rw [if_neg c1]
  by_cases c2 : v.size.natAbs = 0 ∨ (u.size.natAbs = 1 ∧ u.lim.headD 0 = 1)
  · rw [if_pos c2]
    have c2' := c2.resolve_left (by omega)
    have e : val u.lim = 1 := by rw [one (by omega)]; exact c2'.2
    refine ⟨_, rfl, (copyAbs_ok hu.wf).1, ?_⟩
    rw [(copyAbs_ok hu.wf).2, hG, natAbs_val, e, Nat.gcd_one_left]
  rw [if_neg c2]
  have single : ∀ {g : Nat}, g < B → (Z.mk 1 [g] 1).WF ∧ (Z.mk 1 [g] 1).val = (g : Int) := by
    intro g hg
    have w := mk_ok (s := 1) (d := [g]) (c := 1) rfl (Nat.le_refl _)
      (by intro y hy; simp only [List.mem_singleton] at hy; omega)
    refine ⟨w.1, ?_⟩
    rw [w.2]; simp [val]
  by_cases c3 : u.size.natAbs = 1
  · rw [if_pos c3]
    have e : val u.lim = u.lim.headD 0 := one (by omega)
    have bu := val_lt hu.wf.lim_lt
    rw [lu, c3, Nat.pow_one] at bu
    have hm : mpnGcd1 v.lim (u.lim.headD 0) = some (Nat.gcd (val v.lim) (val u.lim)) := by
      unfold mpnGcd1
      rw [if_pos ⟨by omega, by omega⟩, e]
    rw [hm]
    have hlt : Nat.gcd (val v.lim) (val u.lim) < B :=
      Nat.lt_of_le_of_lt (Nat.gcd_le_right _ pu) bu
    refine ⟨_, rfl, (single hlt).1, ?_⟩
    rw [(single hlt).2, hG, Nat.gcd_comm]
  rw [if_neg c3]
  by_cases c4 : v.size.natAbs = 1
  · rw [if_pos c4]
    have e : val v.lim = v.lim.headD 0 := one (by omega)
    have bv := val_lt hv.wf.lim_lt
    rw [lv, c4, Nat.pow_one] at bv
    have hm : mpnGcd1 u.lim (v.lim.headD 0) = some (Nat.gcd (val u.lim) (val v.lim)) := by
      unfold mpnGcd1
      rw [if_pos ⟨by omega, by omega⟩, e]
    rw [hm]
    have hlt : Nat.gcd (val u.lim) (val v.lim) < B :=
      Nat.lt_of_le_of_lt (Nat.gcd_le_right _ pv) bv
    refine ⟨_, rfl, (single hlt).1, ?_⟩
    rw [(single hlt).2, hG]
  rw [if_neg c4]
  obtain ⟨u', ul, ub, su, tu', ou, bub, vu⟩ := strip_ok tu
  obtain ⟨v', vl, vb, sv', tv', ov, bvb, vv⟩ := strip_ok tv
  rw [su, sv']
  simp only
  obtain ⟨g, hg, tg, vg⟩ : ∃ g, (if u'.length < v'.length ∨
      (u'.length = v'.length ∧ u'.getLastD 0 < v'.getLastD 0)
      then mpnGcd v' u' else mpnGcd u' v') = some g ∧ Top g ∧
      val g = Nat.gcd (val u') (val v') := by
    by_cases hc : u'.length < v'.length ∨
      (u'.length = v'.length ∧ u'.getLastD 0 < v'.getLastD 0)
    · rw [if_pos hc]
      obtain ⟨g, h1, h2, h3⟩ := mpnGcd_ok tv' tu' ou (by omega)
      exact ⟨g, h1, h2, by rw [h3, Nat.gcd_comm]⟩
    · rw [if_neg hc]
      exact mpnGcd_ok tu' tv' ov hc
  rw [hg]
  simp only
  have hzb : (if vl < ul then vb else if ul < vl then ub else min ub vb) < 64 := by
    split
    · exact bvb
    · split
      · exact bub
      · omega
  obtain ⟨w, hw, ww, wv⟩ := unstrip_ok (zl := if vl < ul then vl else ul) tg hzb
  refine ⟨w, hw, ww, ?_⟩
  rw [wv, hG, vu, vv, gcd_pow_two ou ov, vg]
  congr 3
  split
  · omega
  · split <;> omega

/-! ### Exact division -/

theorem tdivQUi_ok {num : Z} {x : Nat} (hn : num.Ok) (hx : x ≠ 0) :
    ∃ q, tdivQUi num x = some q ∧ q.WF ∧
      (q.val = if num.size < 0 then -((val num.lim / x : Nat) : Int)
        else ((val num.lim / x : Nat) : Int)) ∧
      ({ q with size := -q.size } : Z).WF ∧ ({ q with size := -q.size } : Z).val = -q.val := by
  have ln := hn.wf.lim_length
  have bn := val_lt hn.wf.lim_lt
  have n1 := hn.nrm.1
  unfold tdivQUi
  simp only
  rw [if_neg (by omega)]
  have hne : num.lim ≠ [] := by intro h; rw [h] at n1; simp at n1
  have hm : mpnDivrem1 num.lim x = some (limbs num.size.natAbs (val num.lim / x),
      val num.lim % x) := by
    unfold mpnDivrem1
    rw [if_pos ⟨hx, hne⟩, ln]
  rw [hm]
  have hq : val num.lim / x < B ^ num.size.natAbs := by
    rw [← ln]
    exact Nat.lt_of_le_of_lt (Nat.div_le_self _ _) bn
  obtain ⟨s1, s2, s3, -⟩ := dropTop_spec num.size.natAbs
    (limbs_lt num.size.natAbs (val num.lim / x)) (limbs_length _ _)
  have w1 := mk_val_of (s := signed (decide (num.size < 0))
      (dropTop (limbs num.size.natAbs (val num.lim / x)) num.size.natAbs))
    (d := limbs num.size.natAbs (val num.lim / x)) (c := num.size.natAbs)
    (by rw [signed_natAbs, limbs_length]; exact s1) (by rw [limbs_length]) (limbs_lt _ _)
    (by rw [signed_natAbs]; exact s2)
  have hz : dropTop (limbs num.size.natAbs (val num.lim / x)) num.size.natAbs = 0 →
      val num.lim / x = 0 := by
    intro hz
    rw [hz, List.drop_zero, val_limbs_of_lt hq] at s2
    exact s2
  have hneg : -(signed (decide (num.size < 0))
      (dropTop (limbs num.size.natAbs (val num.lim / x)) num.size.natAbs)) =
      signed (!decide (num.size < 0))
      (dropTop (limbs num.size.natAbs (val num.lim / x)) num.size.natAbs) := by
    unfold signed
    by_cases h : num.size < 0 <;> simp [h]
  have w2 := mk_val_of (s := signed (!decide (num.size < 0))
      (dropTop (limbs num.size.natAbs (val num.lim / x)) num.size.natAbs))
    (d := limbs num.size.natAbs (val num.lim / x)) (c := num.size.natAbs)
    (by rw [signed_natAbs, limbs_length]; exact s1) (by rw [limbs_length]) (limbs_lt _ _)
    (by rw [signed_natAbs]; exact s2)
  refine ⟨_, rfl, w1.1, ?_, ?_, ?_⟩
  · rw [w1.2, val_limbs_of_lt hq, signed_val hz]
    simp only [decide_eq_true_eq]
  · simp only [hneg]; exact w2.1
  · simp only [hneg]
    rw [w2.2, w1.2, val_limbs_of_lt hq, signed_val hz, signed_val hz]
    by_cases h : num.size < 0 <;> simp [h]

theorem divexact_ok {num den : Z} (hn : num.Ok) (hd : den.Ok) (h0 : den.val ≠ 0) (k : Int)
    (hk : num.val = k * den.val) :
    ∃ q, divexact num den = some q ∧ q.WF ∧ q.val = k := by
  have ln := hn.wf.lim_length
  have ld := hd.wf.lim_length
  have n1 := hn.nrm.1
  have k1 := hd.nrm.1
  have td := hd.topOf h0
  have one : ∀ {l : List Nat}, l.length = 1 → val l = l.headD 0 := by
    intro l hl
    obtain ⟨x, rfl⟩ := List.length_eq_one_iff.1 hl
    simp [val]
  have hnat : val num.lim = k.natAbs * val den.lim := by
    rw [← natAbs_val, ← natAbs_val, hk, Int.natAbs_mul]
  have hdiv : val num.lim / val den.lim = k.natAbs := by
    rw [hnat, Nat.mul_div_cancel _ td.pos]
  have hksign : k = if (decide (num.size < 0) != decide (den.size < 0)) then -(k.natAbs : Int)
      else (k.natAbs : Int) := by
    have hT := tdiv_signs (decide (num.size < 0)) (decide (den.size < 0)) (val num.lim)
      (val den.lim)
    rw [← Z.val_decide, ← Z.val_decide, hdiv, hk, Int.mul_tdiv_cancel _ h0] at hT
    exact hT.1
  unfold divexact
  simp only
  by_cases c1 : num.size.natAbs = 0 ∨ (num.size.natAbs = 1 ∧ num.lim.headD 0 = 0)
  · rw [if_pos c1]
    have c1' := c1.resolve_left (by omega)
    have e : val num.lim = 0 := by rw [one (by omega)]; exact c1'.2
    refine ⟨_, rfl, ⟨Nat.le_refl _, Nat.le_refl _, fun x hx => by cases hx⟩, ?_⟩
    have : k.natAbs = 0 := by
      rw [e, Nat.zero_div] at hdiv; omega
    have hz : k = 0 := by omega
    rw [hz, Z.val, Z.lim]
    simp [Mpz.val]
  rw [if_neg c1]
  by_cases c2 : den.size.natAbs = 1
  · rw [if_pos c2]
    have e : val den.lim = den.lim.headD 0 := one (by omega)
    have hp := td.pos
    obtain ⟨q, hq, wq, vq, wq', vq'⟩ := tdivQUi_ok (x := den.lim.headD 0) hn (by omega)
    rw [hq]
    simp only
    rw [← e, hdiv] at vq
    by_cases hs : den.size < 0
    · rw [if_pos hs]
      refine ⟨_, rfl, wq', ?_⟩
      rw [vq', vq, hksign]
      by_cases hs' : num.size < 0 <;> simp [hs, hs']
    · rw [if_neg hs]
      refine ⟨_, rfl, wq, ?_⟩
      rw [vq, hksign]
      by_cases hs' : num.size < 0 <;> simp [hs, hs']
  rw [if_neg c2]
  have hk0 : 0 < k.natAbs := by
    by_contra hc
    have : k.natAbs = 0 := by omega
    rw [this, Nat.zero_mul] at hnat
    rcases hn.nrm.2 with h | h
    · exact c1 (Or.inr ⟨by omega, by rw [← one h]; exact hnat⟩)
    · have := Bpow_pos (num.lim.length - 1)
      omega
  have hge : val den.lim ≤ val num.lim := by
    rw [hnat]; exact Nat.le_mul_of_pos_left _ hk0
  have hlen : den.size.natAbs ≤ num.size.natAbs := by
    by_contra hc
    rcases hd.nrm.lt_of_length hn.wf.lim_lt (by omega) with h | h
    · rw [h] at n1; simp at n1
    · omega
  have hm : mpnDivexact num.lim den.lim = some
      (limbs (num.size.natAbs - den.size.natAbs + 1) k.natAbs) := by
    unfold mpnDivexact
    rw [if_pos ⟨by omega, td.last, by rw [hnat, Nat.mul_mod_left]⟩, hdiv, ln, ld]
  rw [hm]
  have hq : k.natAbs < B ^ (num.size.natAbs - den.size.natAbs + 1) := by
    rw [← hdiv, ← ln, ← ld]
    exact quot_lt (val_lt hn.wf.lim_lt) td.le k1 (by omega)
  have w := mk_ok (s := signed (decide (num.size < 0) != decide (den.size < 0))
      (num.size.natAbs - den.size.natAbs + 1))
    (d := limbs (num.size.natAbs - den.size.natAbs + 1) k.natAbs) (c := num.size.natAbs)
    (by rw [limbs_length, signed_natAbs]) (by rw [limbs_length]; omega) (limbs_lt _ _)
  refine ⟨_, rfl, w.1, ?_⟩
  rw [w.2, val_limbs_of_lt hq, signed_val (by omega)]
  exact hksign.symm

end Verif.Mpz
