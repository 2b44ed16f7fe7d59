import Verif.Floats.Digits
import Mathlib.Tactic.NormNum

/-!
# Printing Floats: which number is printed
-/

namespace Verif.Floats

/-- What `eps` is when the last digit is adjusted. -/
def half (eps : ℚ) : ℚ := if eps.den = 1 then eps / 2 else eps

theorem half_le {eps : ℚ} (h : 0 < eps) : half eps ≤ eps := by
  unfold half; split <;> linarith

section
variable (x : ℚ) (E : ℤ) (eps : ℚ) (K : ℕ)

def last : ℤ := pre x E K - 10 * pre x E (K - 1)

/-- The first number of digits that is enough. -/
structure First : Prop where
  pos : 1 ≤ K
  stop : Stop x E eps K
  least : ∀ i, 1 ≤ i → i < K → ¬ Stop x E eps i

/-- Which number is printed. -/
inductive Choice (d : ℤ) : Prop
  | below (h : last x E K ≤ 5) (n : x - lo x E (K - 1) < half eps / 2) (e : d = 10 * pre x E (K - 1))
  | above (h : 5 < last x E K) (n : hi x E (K - 1) - x < half eps / 2) (e : d = 10 * (pre x E (K - 1) + 1))
  | up (nb : ¬ (last x E K ≤ 5 ∧ x - lo x E (K - 1) < half eps / 2))
      (na : ¬ (5 < last x E K ∧ hi x E (K - 1) - x < half eps / 2)) (h : 0 < last x E K) (n : hi x E K - x < x - lo x E K) (e : d = pre x E K + 1)
  | down (nb : ¬ (last x E K ≤ 5 ∧ x - lo x E (K - 1) < half eps / 2))
      (na : ¬ (5 < last x E K ∧ hi x E (K - 1) - x < half eps / 2)) (n : last x E K ≤ 0 ∨ x - lo x E K ≤ hi x E K - x) (e : d = pre x E K)

variable {x E eps K}

theorem lo_last (hK : 1 ≤ K) : lo x E (K - 1) = lo x E K - last x E K * wt E K := by
  obtain ⟨k, rfl⟩ : ∃ k, K = k + 1 := ⟨K - 1, by omega⟩
  unfold last lo
  rw [Nat.add_sub_cancel, wt_succ k]
  push_cast
  ring

theorem hi_last (hK : 1 ≤ K) : hi x E (K - 1) = lo x E K + (10 - last x E K) * wt E K := by
  have h := lo_last (x := x) (E := E) hK
  rw [hi_eq, h]
  obtain ⟨k, rfl⟩ : ∃ k, K = k + 1 := ⟨K - 1, by omega⟩
  rw [Nat.add_sub_cancel, wt_succ k]
  ring

theorem First.unique {K' : ℕ} (h : First x E eps K) (h' : First x E eps K') : K = K' := by
  rcases Nat.lt_trichotomy K K' with hl | he | hl
  · exact absurd h.stop (h'.least K h.pos hl)
  · exact he
  · exact absurd h'.stop (h.least K' h'.pos hl)

theorem exists_first (he : 0 < eps) : ∃ K, First x E eps K := by
  obtain ⟨K, h1, h2⟩ := exists_stop (x := x) (E := E) he
  classical
  have hex : ∃ k, 1 ≤ k ∧ Stop x E eps k := ⟨K, h1, h2⟩
  refine ⟨Nat.find hex, (Nat.find_spec hex).1, (Nat.find_spec hex).2, ?_⟩
  intro i hi hlt hs
  exact Nat.find_min hex hlt ⟨hi, hs⟩

theorem adjust_choice {s : St} (hK : 1 ≤ K) (h : Inv x E eps K s) (hp : s.prev = wt E K)
    (hd : s.digit = last x E K) :
    Choice x E eps K (s.digits + adjust eps s) ∧
      (0 < adjust eps s → pre x E K + 1 = 10 ^ K → s.digits + adjust eps s = 10 ^ K) ∧
      (adjust eps s ≤ 0 → s.digits + adjust eps s ≤ pre x E K) := by
  have e1 : s.num + s.digit * s.prev = x - lo x E (K - 1) := by
    rw [h.num, hp, hd, lo_last hK]; ring
  have e2 : s.num + ((s.digit : ℚ) - 10) * s.prev = x - hi x E (K - 1) := by
    rw [h.num, hp, hd, hi_last hK]; ring
  have e3 : |s.num - s.prev| < s.num ↔ hi x E K - x < x - lo x E K := by
    rw [h.num, hp, hi_eq]
    have h1 := lo_le (x := x) (E := E) K
    have h2 := lt_hi (x := x) (E := E) K
    rw [hi_eq] at h2
    rw [abs_of_neg (by linarith)]
    constructor <;> intro h <;> linarith
  have hl : 0 ≤ s.digit ∧ s.digit ≤ 9 := by
    rw [hd]
    have hm := lo_mono (x := x) (E := E) (K - 1) 1
    have ha := hi_anti (x := x) (E := E) (K - 1) 1
    rw [Nat.sub_add_cancel hK] at hm ha
    rw [lo_last hK] at hm
    rw [hi_last hK, hi_eq] at ha
    have hw := wt_pos (E := E) K
    constructor
    · by_contra hc
      have : (last x E K : ℚ) ≤ -1 := by
        have : last x E K ≤ -1 := by omega
        exact_mod_cast this
      nlinarith
    · by_contra hc
      have : (10 : ℚ) ≤ last x E K := by
        have : 10 ≤ last x E K := by omega
        exact_mod_cast this
      nlinarith
  have h9 : pre x E K + 1 = 10 ^ K → s.digit = 9 := by
    intro h
    rw [hd]
    unfold last
    obtain ⟨k, rfl⟩ : ∃ k, K = k + 1 := ⟨K - 1, by omega⟩
    rw [pow_succ] at h
    rw [hd] at hl
    unfold last at hl
    simp only [Nat.add_sub_cancel] at *
    omega
  have hg := h.digits
  have hld : last x E K = pre x E K - 10 * pre x E (K - 1) := rfl
  unfold adjust
  rw [← half]
  dsimp only
  rw [e1, e2, show half eps / -2 = -(half eps / 2) by ring]
  have e4 : (x - hi x E (K - 1) > -(half eps / 2)) ↔ hi x E (K - 1) - x < half eps / 2 := by
    constructor <;> intro h <;> linarith
  simp only [e4, e3]
  by_cases c1 : s.digit ≤ 5
  · rw [if_neg (c := s.digit > 5 ∧ _) (fun h => by omega)]
    by_cases c2 : x - lo x E (K - 1) < half eps / 2
    · rw [if_pos (c := s.digit ≤ 5 ∧ _) ⟨c1, c2⟩, if_neg (by omega)]
      refine ⟨.below (by omega) c2 (by omega), ?_, ?_⟩
      · intro h; omega
      · intro h; omega
    · rw [if_neg (c := s.digit ≤ 5 ∧ _) (fun h => c2 h.2)]
      by_cases c3 : s.digit > 0 ∧ hi x E K - x < x - lo x E K
      · rw [if_pos ⟨rfl, c3⟩]
        refine ⟨.up (fun h => c2 h.2) (fun h => by omega) (by omega) c3.2 (by omega), ?_, ?_⟩
        · intro _ h; omega
        · intro h; omega
      · rw [if_neg (fun h => c3 h.2)]
        refine ⟨.down (fun h => c2 h.2) (fun h => by omega) ?_ (by omega), ?_, ?_⟩
        · rw [← hd]
          rw [not_and_or, not_lt, not_lt] at c3
          exact c3
        · intro h; omega
        · intro _; omega
  · rw [if_neg (c := s.digit ≤ 5 ∧ _) (fun h => c1 h.1)]
    by_cases c2 : hi x E (K - 1) - x < half eps / 2
    · rw [if_pos (c := s.digit > 5 ∧ _) ⟨by omega, c2⟩, if_neg (by omega)]
      refine ⟨.above (by omega) c2 (by omega), ?_, ?_⟩
      · intro _ h
        have := h9 h
        omega
      · intro h; omega
    · rw [if_neg (c := s.digit > 5 ∧ _) (fun h => c2 h.2)]
      by_cases c3 : s.digit > 0 ∧ hi x E K - x < x - lo x E K
      · rw [if_pos ⟨rfl, c3⟩]
        refine ⟨.up (fun h => by omega) (fun h => c2 h.2) (by omega) c3.2 (by omega), ?_, ?_⟩
        · intro _ h; omega
        · intro h; omega
      · rw [if_neg (fun h => c3 h.2)]
        refine ⟨.down (fun h => by omega) (fun h => c2 h.2) ?_ (by omega), ?_, ?_⟩
        · rw [← hd]
          rw [not_and_or, not_lt, not_lt] at c3
          exact c3
        · intro h; omega
        · intro _; omega

/-- The number that is printed is nearer than `eps`. -/
theorem Choice.near {d : ℤ} (h : Choice x E eps K d) (he : 0 < eps) (hF : First x E eps K) : |d * wt E K - x| < eps := by
  have hh := half_le he
  have h1 := lo_le (x := x) (E := E) K
  have h2 := lt_hi (x := x) (E := E) K
  have h3 := lo_le (x := x) (E := E) (K - 1)
  have h4 := lt_hi (x := x) (E := E) (K - 1)
  obtain ⟨s1, s2⟩ := hF.stop
  have hK := hF.pos
  have hwt : wt E (K - 1) = 10 * wt E K := by
    obtain ⟨k, rfl⟩ : ∃ k, K = k + 1 := ⟨K - 1, by omega⟩
    exact wt_succ k
  cases h with
  | below h n e =>
    have : (d : ℚ) * wt E K = lo x E (K - 1) := by rw [e, lo, hwt]; push_cast; ring
    rw [this, abs_of_nonpos (by linarith)]
    linarith
  | above h n e =>
    have : (d : ℚ) * wt E K = hi x E (K - 1) := by rw [e, hi, hwt]; push_cast; ring
    rw [this, abs_of_pos (by linarith)]
    linarith
  | up nb na h n e =>
    have : (d : ℚ) * wt E K = hi x E K := by rw [e, hi]; push_cast; ring
    rw [this, abs_of_pos (by linarith)]
    linarith
  | down nb na n e =>
    have : (d : ℚ) * wt E K = lo x E K := by rw [e, lo]
    rw [this, abs_of_nonpos (by linarith)]
    linarith

/-- A number with few digits that is near is the one that is printed. -/
theorem Choice.short {d : ℤ} (h : Choice x E eps K d) (he : 0 < eps) (hF : First x E eps K) {i : ℕ} (hi1 : 1 ≤ i) {V : ℤ}
    (hw : 4 * eps ≤ wt E i) (hv : |V * wt E i - x| < half eps / 2) : d * wt E K = V * wt E i := by
  have hh := half_le he
  have hK := hF.pos
  have hwp := wt_pos (E := E) K
  have hwt : wt E (K - 1) = 10 * wt E K := by
    obtain ⟨k, rfl⟩ : ∃ k, K = k + 1 := ⟨K - 1, by omega⟩
    exact wt_succ k
  obtain ⟨v1, v2⟩ := abs_lt.mp hv
  have hKi : i < K := by
    by_contra hc
    obtain ⟨n, hn⟩ : ∃ n, i = K + n := ⟨i - K, by omega⟩
    obtain ⟨s1, s2⟩ := hF.stop
    have hm := lo_mono (x := x) (E := E) K n
    have ha := hi_anti (x := x) (E := E) K n
    rw [← hn] at hm ha
    rw [hi_eq] at ha
    have h5 : hi x E i = lo x E i + wt E i := hi_eq i
    linarith
  obtain ⟨n, hn⟩ : ∃ n, K - 1 = i + n := ⟨K - 1 - i, by omega⟩
  have hno := hF.least (K - 1) (by omega) (by omega)
  have hcast : (V : ℚ) * wt E i = ((V * 10 ^ n : ℤ) : ℚ) * wt E (K - 1) := by
    rw [wt_add i n, hn]; push_cast; ring
  have hwp' := wt_pos (E := E) (K - 1)
  have h3 := lo_le (x := x) (E := E) (K - 1)
  have h4 := lt_hi (x := x) (E := E) (K - 1)
  have h5 : hi x E (K - 1) = lo x E (K - 1) + wt E (K - 1) := hi_eq (K - 1)
  have h6 := lo_le (x := x) (E := E) K
  have h7 := lt_hi (x := x) (E := E) K
  have h8 : hi x E K = lo x E K + wt E K := hi_eq K
  have hl1 := lo_last (x := x) (E := E) hK
  have hl2 := hi_last (x := x) (E := E) hK
  have hbig : eps ≤ wt E (K - 1) := by
    by_contra hc
    exact hno ⟨by linarith, by linarith⟩
  by_cases hx : (V : ℚ) * wt E i ≤ x
  · have hlo : lo x E (K - 1) = V * wt E i := by
      rw [hcast] at hx ⊢
      have e1 := le_lo hx
      have e2 : ¬ ((V * 10 ^ n + 1 : ℤ) : ℚ) * wt E (K - 1) ≤ x := by
        push_cast at hcast ⊢
        intro hc
        rw [add_mul, ← hcast] at hc
        linarith
      have e3 : pre x E (K - 1) = V * 10 ^ n := pre_eq hx (by push_cast at e2 ⊢; exact not_le.mp e2)
      rw [lo, e3]
    have hd5 : last x E K ≤ 5 := by
      by_contra hc
      have h6q : (6 : ℚ) ≤ last x E K := by
        have : 6 ≤ last x E K := by omega
        exact_mod_cast this
      have : 6 * wt E K ≤ last x E K * wt E K := by gcongr
      exact hno ⟨by linarith, by linarith⟩
    have hb : x - lo x E (K - 1) < half eps / 2 := by linarith
    cases h with
    | below h n e =>
      have : (d : ℚ) * wt E K = lo x E (K - 1) := by rw [e, lo, hwt]; push_cast; ring
      rw [this, hlo]
    | above h n e => omega
    | up nb na h n e => exact absurd ⟨hd5, hb⟩ nb
    | down nb na n e => exact absurd ⟨hd5, hb⟩ nb
  · have hx' : x < V * wt E i := not_le.mp hx
    have hhi : hi x E (K - 1) = V * wt E i := by
      rw [hcast] at hx' ⊢
      have e3 : pre x E (K - 1) = V * 10 ^ n - 1 := by
        refine pre_eq ?_ ?_
        · push_cast at hcast ⊢
          rw [sub_mul, ← hcast]
          linarith
        · push_cast at hx' ⊢
          linarith
      rw [hi, e3]
      push_cast
      ring
    have hd5 : 5 < last x E K := by
      by_contra hc
      have h6q : (last x E K : ℚ) ≤ 5 := by
        have : last x E K ≤ 5 := by omega
        exact_mod_cast this
      have : last x E K * wt E K ≤ 5 * wt E K := by gcongr
      refine hno ⟨?_, by linarith⟩
      linarith
    have hb : hi x E (K - 1) - x < half eps / 2 := by linarith
    cases h with
    | below h n e => omega
    | above h n e =>
      have : (d : ℚ) * wt E K = hi x E (K - 1) := by rw [e, hi, hwt]; push_cast; ring
      rw [this, hhi]
    | up nb na h n e => exact absurd ⟨hd5, hb⟩ na
    | down nb na n e => exact absurd ⟨hd5, hb⟩ na

end

end Verif.Floats
