import Verif.Reals.Model
import Mathlib.Tactic.Ring
import Mathlib.Tactic.Linarith
import Mathlib.Data.Nat.Bitwise

/-!
# The loops over limbs compute what they should
-/

namespace Verif.Reals

/-- The number that the limbs stand for. -/
def val : List ℕ → ℕ
  | [] => 0
  | x :: xs => x + 65536 * val xs

/-- Ten limbs of 16 bits. -/
structure Ok (s : List ℕ) : Prop where
  len : s.length = 10
  small : ∀ x ∈ s, x < 65536

theorem val_lt {s : List ℕ} (h : ∀ x ∈ s, x < 65536) : val s < 65536 ^ s.length := by
  induction s with
  | nil => simp [val]
  | cons x xs ih =>
    have := ih (fun y hy => h y (by simp [hy]))
    have := h x (by simp)
    rw [val, List.length_cons, pow_succ]
    omega

theorem Ok.lt {s : List ℕ} (h : Ok s) : val s < 2 ^ 160 := by
  have := val_lt h.small
  rw [h.len] at this
  calc val s < 65536 ^ 10 := this
    _ = 2 ^ 160 := by norm_num

theorem testBit_val {s : List ℕ} (h : ∀ x ∈ s, x < 65536) (k : ℕ) : (val s).testBit k = (limb s (k / 16)).testBit (k % 16) := by
  induction s generalizing k with
  | nil => simp [val, limb]
  | cons x xs ih =>
    have hx := h x (by simp)
    rw [val, show x + 65536 * val xs = 2 ^ 16 * val xs + x by rw [Nat.add_comm]; norm_num, Nat.testBit_two_pow_mul_add _ (by simpa using hx)]
    by_cases hk : k < 16
    · rw [if_pos hk, Nat.div_eq_of_lt hk, Nat.mod_eq_of_lt hk]
      rfl
    · rw [if_neg hk, ih (fun y hy => h y (by simp [hy]))]
      have h1 : k / 16 = (k - 16) / 16 + 1 := by omega
      have h2 : k % 16 = (k - 16) % 16 := by omega
      rw [h1, h2]
      rfl

theorem limb_lt {s : List ℕ} (h : ∀ x ∈ s, x < 65536) (i : ℕ) : limb s i < 65536 := by
  unfold limb
  rw [List.getD_eq_getElem?_getD]
  cases hi : s[i]? with
  | none => simp
  | some x => exact h x (List.mem_of_getElem? hi)

theorem limb_out {s : List ℕ} {i : ℕ} (h : s.length ≤ i) : limb s i = 0 := by
  unfold limb
  rw [List.getD_eq_getElem?_getD, List.getElem?_eq_none h]
  rfl

theorem limb_map (f : ℕ → ℕ) (i : ℕ) : limb ((List.range 10).map f) i = if i < 10 then f i else 0 := by
  unfold limb
  rw [List.getD_eq_getElem?_getD, List.getElem?_map]
  by_cases h : i < 10
  · rw [List.getElem?_range h, if_pos h]; rfl
  · rw [List.getElem?_eq_none (by simpa using h), if_neg h]; rfl

theorem ok_map {f : ℕ → ℕ} (h : ∀ i < 10, f i < 65536) : Ok ((List.range 10).map f) :=
  ⟨by simp, fun x hx => by
    obtain ⟨i, hi, rfl⟩ := List.mem_map.1 hx
    exact h i (List.mem_range.1 hi)⟩

theorem or_lt {a b : ℕ} (ha : a < 65536) (hb : b < 65536) : a ||| b < 65536 := by
  have := Nat.or_lt_two_pow (n := 16) (by simpa using ha) (by simpa using hb)
  simpa using this

theorem shr_lt {a : ℕ} (h : a < 65536) (r : ℕ) : a >>> r < 65536 := by
  rw [Nat.shiftRight_eq_div_pow]
  exact lt_of_le_of_lt (Nat.div_le_self _ _) h

theorem bit_out {a j : ℕ} (h : a < 65536) (hj : 16 ≤ j) : a.testBit j = false := by
  refine Nat.testBit_lt_two_pow (lt_of_lt_of_le h ?_)
  calc 65536 = 2 ^ 16 := by norm_num
    _ ≤ 2 ^ j := Nat.pow_le_pow_right (by norm_num) hj

theorem rshift_ok {s : List ℕ} (h : Ok s) (d : ℕ) : Ok (rshift s d) := by
  unfold rshift
  simp only
  split
  · refine ok_map fun i _ => ?_
    split
    · exact or_lt (Nat.mod_lt _ (by norm_num)) (shr_lt (limb_lt h.small _) _)
    · split
      · exact shr_lt (limb_lt h.small _) _
      · norm_num
  · refine ok_map fun i _ => ?_
    split
    · exact limb_lt h.small _
    · norm_num

theorem rshift_val {s : List ℕ} (h : Ok s) (d : ℕ) : val (rshift s d) = val s / 2 ^ d := by
  refine Nat.eq_of_testBit_eq fun k => ?_
  rw [testBit_val (rshift_ok h d).small, Nat.testBit_div_two_pow, testBit_val h.small]
  have hk : k = k / 16 * 16 + k % 16 := by omega
  have hkm : k % 16 < 16 := Nat.mod_lt _ (by norm_num)
  have hd : d = d / 16 * 16 + d % 16 := by omega
  have hdm : d % 16 < 16 := Nat.mod_lt _ (by norm_num)
  generalize k / 16 = i at hk ⊢
  generalize k % 16 = j at hk hkm ⊢
  unfold rshift
  simp only
  generalize d / 16 = q at hd ⊢
  generalize d % 16 = r at hd hdm ⊢
  subst hk hd
  by_cases hr : r = 0
  · subst hr
    have e1 : (i * 16 + j + (q * 16 + 0)) / 16 = i + q := by omega
    have e2 : (i * 16 + j + (q * 16 + 0)) % 16 = j := by omega
    simp only [ne_eq, not_true_eq_false, if_false]
    rw [e1, e2, limb_map]
    by_cases hi : i < 10
    · rw [if_pos hi]
      by_cases hq : i + q < 10
      · rw [if_pos hq]
      · rw [if_neg hq, limb_out (by rw [h.len]; omega)]
    · rw [if_neg hi, limb_out (by rw [h.len]; omega)]
  · simp only [ne_eq, hr, not_false_eq_true, if_true]
    rw [limb_map]
    have hz : ∀ x, limb s (x + 10) = 0 := fun x => limb_out (by rw [h.len]; omega)
    by_cases hj : j + r < 16
    · have e1 : (i * 16 + j + (q * 16 + r)) / 16 = i + q := by omega
      have e2 : (i * 16 + j + (q * 16 + r)) % 16 = r + j := by omega
      rw [e1, e2]
      by_cases hi : i < 10
      · rw [if_pos hi]
        by_cases hq : i + q < 9
        · rw [if_pos hq, Nat.testBit_or, Nat.testBit_shiftRight, show (65536 : ℕ) = 2 ^ 16 by norm_num, Nat.testBit_mod_two_pow,
            Nat.testBit_shiftLeft]
          have : ¬ 16 - r ≤ j := by omega
          simp [this]
        · rw [if_neg hq]
          by_cases h9 : i + q = 9
          · rw [if_pos h9, Nat.testBit_shiftRight]
          · rw [if_neg h9, limb_out (i := i + q) (by rw [h.len]; omega)]; simp
      · rw [if_neg hi, limb_out (i := i + q) (by rw [h.len]; omega)]; simp
    · have e1 : (i * 16 + j + (q * 16 + r)) / 16 = i + q + 1 := by omega
      have e2 : (i * 16 + j + (q * 16 + r)) % 16 = j - (16 - r) := by omega
      rw [e1, e2]
      have hlo : (limb s (i + q)).testBit (r + j) = false := bit_out (limb_lt h.small _) (by omega)
      by_cases hi : i < 10
      · rw [if_pos hi]
        by_cases hq : i + q < 9
        · rw [if_pos hq, Nat.testBit_or, Nat.testBit_shiftRight, hlo, show (65536 : ℕ) = 2 ^ 16 by norm_num, Nat.testBit_mod_two_pow,
            Nat.testBit_shiftLeft]
          have : 16 - r ≤ j := by omega
          simp [this, hkm]
        · rw [if_neg hq, limb_out (i := i + q + 1) (by rw [h.len]; omega)]
          by_cases h9 : i + q = 9
          · rw [if_pos h9, Nat.testBit_shiftRight, hlo]; simp
          · rw [if_neg h9]; simp
      · rw [if_neg hi, limb_out (i := i + q + 1) (by rw [h.len]; omega)]; simp

theorem shl1_ok {s : List ℕ} (h : Ok s) : Ok (shl1 s) := by
  refine ok_map fun i _ => ?_
  split
  · exact or_lt (Nat.mod_lt _ (by norm_num)) (shr_lt (limb_lt h.small _) _)
  · exact Nat.mod_lt _ (by norm_num)

theorem shl1_val {s : List ℕ} (h : Ok s) : val (shl1 s) = 2 * val s % 2 ^ 160 := by
  refine Nat.eq_of_testBit_eq fun k => ?_
  rw [testBit_val (shl1_ok h).small, Nat.testBit_mod_two_pow, show 2 * val s = 2 ^ 1 * val s by ring, Nat.testBit_two_pow_mul,
    testBit_val h.small]
  have hk : k = k / 16 * 16 + k % 16 := by omega
  have hkm : k % 16 < 16 := Nat.mod_lt _ (by norm_num)
  generalize k / 16 = i at hk ⊢
  generalize k % 16 = j at hk hkm ⊢
  subst hk
  unfold shl1
  rw [limb_map]
  by_cases hi : i < 10
  · rw [if_pos hi]
    have h160 : decide (i * 16 + j < 160) = true := by simp; omega
    rw [h160, Bool.true_and]
    by_cases hj : j = 0
    · subst hj
      by_cases h1 : 1 ≤ i
      · have e1 : (i * 16 + 0 - 1) / 16 = i - 1 := by omega
        have e2 : (i * 16 + 0 - 1) % 16 = 15 := by omega
        have e3 : i * 16 + 0 ≥ 1 := by omega
        rw [if_pos h1, e1, e2, Nat.testBit_or, Nat.testBit_shiftRight, show (65536 : ℕ) = 2 ^ 16 by norm_num, Nat.testBit_mod_two_pow,
          Nat.testBit_shiftLeft]
        simp
        omega
      · obtain rfl : i = 0 := by omega
        rw [if_neg h1, show (65536 : ℕ) = 2 ^ 16 by norm_num, Nat.testBit_mod_two_pow, Nat.testBit_shiftLeft]
        simp
    · have e1 : (i * 16 + j - 1) / 16 = i := by omega
      have e2 : (i * 16 + j - 1) % 16 = j - 1 := by omega
      have e3 : i * 16 + j ≥ 1 := by omega
      have e4 : 1 ≤ j := by omega
      have hb : ∀ x, (limb s x).testBit (15 + j) = false := fun x => bit_out (limb_lt h.small _) (by omega)
      rw [e1, e2]
      by_cases h1 : 1 ≤ i
      · rw [if_pos h1, Nat.testBit_or, Nat.testBit_shiftRight, hb, show (65536 : ℕ) = 2 ^ 16 by norm_num, Nat.testBit_mod_two_pow,
          Nat.testBit_shiftLeft]
        simp [e3, e4, hkm]
      · obtain rfl : i = 0 := by omega
        rw [if_neg h1, show (65536 : ℕ) = 2 ^ 16 by norm_num, Nat.testBit_mod_two_pow, Nat.testBit_shiftLeft]
        simp [e4, hkm]
  · rw [if_neg hi]
    have h160 : decide (i * 16 + j < 160) = false := by simp; omega
    rw [h160]
    simp

theorem limb_set (v : List ℕ) (i x k : ℕ) (hi : i < v.length) : limb (v.set i x) k = if k = i then x else limb v k := by
  unfold limb
  rw [List.getD_eq_getElem?_getD, List.getD_eq_getElem?_getD, List.getElem?_set]
  by_cases h : k = i
  · subst h; simp [hi]
  · rw [if_neg (fun e => h e.symm), if_neg h]

theorem setBit_ok {v : List ℕ} (h : Ok v) (p : ℕ) : Ok (setBit v p) := by
  refine ⟨by unfold setBit; rw [List.length_set, h.len], fun x hx => ?_⟩
  rcases List.mem_or_eq_of_mem_set hx with hx | rfl
  · exact h.small x hx
  · refine or_lt (limb_lt h.small _) ?_
    calc 2 ^ (p % 16) < 2 ^ 16 := Nat.pow_lt_pow_right (by norm_num) (Nat.mod_lt _ (by norm_num))
      _ = 65536 := by norm_num

theorem setBit_val {v : List ℕ} (h : Ok v) {p : ℕ} (hp : p < 160) : val (setBit v p) = val v ||| 2 ^ p := by
  refine Nat.eq_of_testBit_eq fun k => ?_
  rw [testBit_val (setBit_ok h p).small, Nat.testBit_or, testBit_val h.small, Nat.testBit_two_pow]
  unfold setBit
  rw [limb_set _ _ _ _ (by rw [h.len]; omega)]
  by_cases hk : k / 16 = p / 16
  · rw [if_pos hk, Nat.testBit_or, Nat.testBit_two_pow, hk]
    by_cases hm : p % 16 = k % 16
    · have : p = k := by omega
      simp [this]
    · have : p ≠ k := by rintro rfl; exact hm rfl
      simp [hm, this]
  · rw [if_neg hk]
    have : p ≠ k := by rintro rfl; exact hk rfl
    simp [this]

theorem orTop_eq (s : List ℕ) : orTop s = setBit s 159 := rfl

theorem top_ok {s : List ℕ} (h : Ok s) : Ok (orTop (rshift s 1)) := setBit_ok (rshift_ok h 1) 159

theorem top_val {s : List ℕ} (h : Ok s) : val (orTop (rshift s 1)) = (val s + 2 ^ 160) / 2 := by
  have hl := h.lt
  rw [orTop_eq, setBit_val (rshift_ok h 1) (by norm_num), rshift_val h, Nat.or_comm]
  have h1 : val s / 2 ^ 1 < 2 ^ 159 := by
    simp only [Nat.reducePow] at *
    omega
  have := Nat.two_pow_add_eq_or_of_lt h1 1
  rw [mul_one] at this
  rw [← this]
  simp only [Nat.reducePow] at *
  omega

theorem add_spec : ∀ (r s : List ℕ) (c : ℕ), r.length = s.length → (∀ x ∈ r, x < 65536) → (∀ x ∈ s, x < 65536) → c ≤ 1 →
    (addSig r s c).1.length = r.length ∧ (∀ x ∈ (addSig r s c).1, x < 65536) ∧ (addSig r s c).2 ≤ 1 ∧
    val (addSig r s c).1 + 65536 ^ r.length * (addSig r s c).2 = val r + val s + c := by
  intro r
  induction r with
  | nil =>
    intro s c hl _ _ hc
    obtain rfl : s = [] := List.length_eq_zero_iff.1 hl.symm
    simp [addSig, val, hc]
  | cons x xs ih =>
    intro s c hl hr hs hc
    cases s with
    | nil => simp at hl
    | cons y ys =>
      have hx := hr x (by simp)
      have hy := hs y (by simp)
      obtain ⟨h1, h2, h3, h4⟩ := ih ys ((x + y + c) / 65536) (by simpa using hl) (fun z hz => hr z (by simp [hz]))
        (fun z hz => hs z (by simp [hz])) (by omega)
      refine ⟨by simp [addSig, h1], ?_, h3, ?_⟩
      · intro z hz
        rcases List.mem_cons.1 hz with rfl | hz
        · exact Nat.mod_lt _ (by norm_num)
        · exact h2 z hz
      · simp only [addSig, val, List.length_cons, pow_succ]
        have : (x + y + c) % 65536 + 65536 * ((x + y + c) / 65536) = x + y + c := Nat.mod_add_div _ _
        have h5 : 65536 ^ xs.length * 65536 * (addSig xs ys ((x + y + c) / 65536)).2 =
            65536 * (65536 ^ xs.length * (addSig xs ys ((x + y + c) / 65536)).2) := by ring
        rw [h5]
        omega

theorem add_ok {r s : List ℕ} (hr : Ok r) (hs : Ok s) : Ok (addSig r s 0).1 ∧ (addSig r s 0).2 ≤ 1 ∧
    val (addSig r s 0).1 + 2 ^ 160 * (addSig r s 0).2 = val r + val s := by
  obtain ⟨h1, h2, h3, h4⟩ := add_spec r s 0 (by rw [hr.len, hs.len]) hr.small hs.small (by norm_num)
  refine ⟨⟨by rw [h1, hr.len], h2⟩, h3, ?_⟩
  rw [hr.len] at h4
  rw [show (2 : ℕ) ^ 160 = 65536 ^ 10 by norm_num]
  exact h4

/-- A sum that is halved if it is too large. -/
theorem addAligned_spec {r : Real} {s : List ℕ} (hr : Ok r.sig) (hs : Ok s) : Ok (addAligned r s).sig ∧ (addAligned r s).sign = r.sign ∧
    (val r.sig + val s < 2 ^ 160 → val (addAligned r s).sig = val r.sig + val s ∧ (addAligned r s).exp = r.exp) ∧
    (2 ^ 160 ≤ val r.sig + val s → val (addAligned r s).sig = (val r.sig + val s) / 2 ∧ (addAligned r s).exp = r.exp + 1) := by
  obtain ⟨h1, h2, h3⟩ := add_ok hr hs
  have hl := h1.lt
  unfold addAligned
  simp only
  by_cases hc : (addSig r.sig s 0).2 = 0
  · rw [if_neg (by simpa using hc)]
    rw [hc] at h3
    refine ⟨h1, rfl, fun _ => ⟨by simpa using h3, rfl⟩, fun h => ?_⟩
    simp only [Nat.reducePow] at *
    omega
  · have hc1 : (addSig r.sig s 0).2 = 1 := by omega
    rw [if_pos hc]
    rw [hc1] at h3
    refine ⟨top_ok h1, rfl, fun h => ?_, fun _ => ⟨?_, rfl⟩⟩
    · simp only [Nat.reducePow] at *
      omega
    · rw [top_val h1]
      simp only [Nat.reducePow] at *
      omega

theorem nonzero_iff {s : List ℕ} : nonzero s = false ↔ val s = 0 := by
  unfold nonzero
  induction s with
  | nil => simp [val]
  | cons x xs ih =>
    rw [List.any_cons, Bool.or_eq_false_iff, ih, val]
    simp

theorem cmp_spec : ∀ (r s : List ℕ), r.length = s.length → (∀ x ∈ r, x < 65536) → (∀ x ∈ s, x < 65536) →
    match (r.zip s).reverse.find? fun p => p.1 ≠ p.2 with
    | some p => p.1 ≠ p.2 ∧ (p.1 < p.2 ↔ val r < val s) ∧ val r ≠ val s
    | none => val r = val s := by
  intro r
  induction r with
  | nil =>
    intro s hl _ _
    obtain rfl : s = [] := List.length_eq_zero_iff.1 hl.symm
    simp
  | cons x xs ih =>
    intro s hl hr hs
    cases s with
    | nil => simp at hl
    | cons y ys =>
      have hx := hr x (by simp)
      have hy := hs y (by simp)
      have := ih ys (by simpa using hl) (fun z hz => hr z (by simp [hz])) (fun z hz => hs z (by simp [hz]))
      rw [List.zip_cons_cons, List.reverse_cons, List.find?_append]
      simp only [val]
      revert this
      cases (xs.zip ys).reverse.find? fun p => p.1 ≠ p.2 with
      | some p =>
        simp only [Option.some_or]
        rintro ⟨h1, h2, h3⟩
        refine ⟨h1, ?_, by omega⟩
        rw [h2]
        omega
      | none =>
        simp only [Option.none_or]
        intro h
        by_cases hxy : x = y
        · simp [hxy, h]
        · rw [List.find?_cons_of_pos (by simpa using hxy)]
          simp only
          refine ⟨hxy, by omega, by omega⟩

theorem cmp_iff {r s : List ℕ} (hr : Ok r) (hs : Ok s) : 0 ≤ cmpSig r s ↔ val s ≤ val r := by
  have := cmp_spec r s (by rw [hr.len, hs.len]) hr.small hs.small
  unfold cmpSig
  revert this
  cases (r.zip s).reverse.find? fun p => p.1 ≠ p.2 with
  | some p =>
    rintro ⟨h1, h2, h3⟩
    simp only
    omega
  | none =>
    intro h
    simp only at h ⊢
    omega

theorem sub_spec : ∀ (r s : List ℕ) (c : ℕ), r.length = s.length → (∀ x ∈ r, x < 65536) → (∀ x ∈ s, x < 65536) → c ≤ 1 →
    (subSig r s c).length = r.length ∧ (∀ x ∈ subSig r s c, x < 65536) ∧
    ∃ b ≤ 1, val (subSig r s c) + val s + c = val r + 65536 ^ r.length * b := by
  intro r
  induction r with
  | nil =>
    intro s c hl _ _ hc
    obtain rfl : s = [] := List.length_eq_zero_iff.1 hl.symm
    exact ⟨rfl, by simp [subSig], c, hc, by simp [subSig, val]⟩
  | cons x xs ih =>
    intro s c hl hr hs hc
    cases s with
    | nil => simp at hl
    | cons y ys =>
      have hx := hr x (by simp)
      have hy := hs y (by simp)
      obtain ⟨h1, h2, b, h3, h4⟩ := ih ys (if (x : ℤ) - y - c < 0 then 1 else 0) (by simpa using hl) (fun z hz => hr z (by simp [hz]))
        (fun z hz => hs z (by simp [hz])) (by split <;> omega)
      refine ⟨by rw [subSig, List.length_cons, h1, List.length_cons], ?_, b, h3, ?_⟩
      · intro z hz
        rw [subSig] at hz
        rcases List.mem_cons.1 hz with rfl | hz
        · omega
        · exact h2 z hz
      · simp only [subSig, val, List.length_cons, pow_succ]
        have h5 : 65536 ^ xs.length * 65536 * b = 65536 * (65536 ^ xs.length * b) := by ring
        rw [h5]
        split at h4
        · next h => rw [if_pos h]; omega
        · next h => rw [if_neg h]; omega

theorem sub_ok {r s : List ℕ} (hr : Ok r) (hs : Ok s) : Ok (subSig r s 0) ∧
    ∃ b ≤ 1, val (subSig r s 0) + val s = val r + 2 ^ 160 * b := by
  obtain ⟨h1, h2, b, h3, h4⟩ := sub_spec r s 0 (by rw [hr.len, hs.len]) hr.small hs.small (by norm_num)
  refine ⟨⟨by rw [h1, hr.len], h2⟩, b, h3, ?_⟩
  rw [hr.len] at h4
  rw [show (2 : ℕ) ^ 160 = 65536 ^ 10 by norm_num]
  exact h4

end Verif.Reals
