/-
Conversion of large integers to doubles.
-/
import Verif.Mpz.Theorems
import Mathlib.Data.List.Induction
import Mathlib.Tactic.Ring

namespace Verif.Mpz

/-- The integers that are doubles, but for the bound on the exponent. -/
def IsDouble (y : Nat) : Prop := ∃ m e, m < 2 ^ 53 ∧ y = m * 2 ^ e

/-- `d` is the double nearest to `x`, and of two that are as near the one with an even
mantissa. -/
def Nearest (x d : Nat) : Prop :=
  IsDouble d ∧ ∀ y, IsDouble y →
    ((x : Int) - d).natAbs < ((x : Int) - y).natAbs ∨ y = d ∨
    (((x : Int) - d).natAbs = ((x : Int) - y).natAbs ∧
      ∃ m e, m < 2 ^ 53 ∧ 2 ^ 52 ≤ m ∧ m % 2 = 0 ∧ d = m * 2 ^ e)

theorem log2_bounds {x : Nat} (h : x ≠ 0) : 2 ^ Nat.log2 x ≤ x ∧ x < 2 ^ (Nat.log2 x + 1) :=
  ⟨Nat.log2_self_le h, Nat.lt_log2_self⟩

/-- What the rounding divides by. -/
theorem rnd_scale {x : Nat} (h : 2 ^ 53 ≤ x) :
    ∃ e, 1 ≤ e ∧ Nat.log2 x - 52 = e ∧ 2 ^ 52 ≤ x / 2 ^ e ∧ x / 2 ^ e < 2 ^ 53 := by
  have hx : x ≠ 0 := by
    have : 0 < 2 ^ 53 := by norm_num
    omega
  obtain ⟨h1, h2⟩ := log2_bounds hx
  have h3 : 53 ≤ Nat.log2 x := (Nat.le_log2 hx).2 h
  obtain ⟨e, he⟩ : ∃ e, Nat.log2 x = 52 + e := ⟨Nat.log2 x - 52, by omega⟩
  rw [he] at h1 h2 ⊢
  refine ⟨e, by omega, by omega, ?_, ?_⟩
  · rw [Nat.le_div_iff_mul_le (Nat.two_pow_pos e), ← Nat.pow_add]; exact h1
  · rw [Nat.div_lt_iff_lt_mul (Nat.two_pow_pos e), ← Nat.pow_add]
    rw [show 53 + e = 52 + e + 1 by omega]; exact h2

theorem rnd_exact {x : Nat} (h : IsDouble x) : rnd x = x := by
  obtain ⟨m, k, hm, rfl⟩ := h
  unfold rnd
  by_cases hx : m * 2 ^ k < 2 ^ 53
  · rw [if_pos hx]
  · rw [if_neg hx]
    obtain ⟨e, e1, e2, e3, e4⟩ := rnd_scale (Nat.le_of_not_lt hx)
    simp only [e2]
    have hle : e ≤ k := by
      apply Nat.le_of_not_lt
      intro hlt
      obtain ⟨j, rfl⟩ : ∃ j, e = k + 1 + j := ⟨e - k - 1, by omega⟩
      rw [Nat.le_div_iff_mul_le (Nat.two_pow_pos _)] at e3
      have h1 : m * 2 ^ k < 2 ^ 53 * 2 ^ k := Nat.mul_lt_mul_of_pos_right hm (Nat.two_pow_pos k)
      have h2 : 2 ^ 53 * 2 ^ k ≤ 2 ^ 52 * 2 ^ (k + 1 + j) := by
        rw [← Nat.pow_add, ← Nat.pow_add]
        exact Nat.pow_le_pow_right (by omega) (by omega)
      omega
    obtain ⟨j, rfl⟩ : ∃ j, k = e + j := ⟨k - e, by omega⟩
    have hmul : m * 2 ^ (e + j) = (m * 2 ^ j) * 2 ^ e := by
      rw [Nat.pow_add, Nat.mul_comm (2 ^ e), Nat.mul_assoc]
    rw [hmul, Nat.mul_mod_left, Nat.mul_div_cancel _ (Nat.two_pow_pos e)]
    have := Nat.two_pow_pos e
    rw [if_neg (by omega)]

/-- No double lies between neighbouring multiples of the scale. -/
theorem no_double_between {q e y : Nat} (hq : 2 ^ 52 ≤ q) (hy : IsDouble y)
    (h1 : q * 2 ^ e < y) (h2 : y < (q + 1) * 2 ^ e) : False := by
  obtain ⟨m, k, hm, rfl⟩ := hy
  by_cases hk : e ≤ k
  · obtain ⟨j, rfl⟩ : ∃ j, k = e + j := ⟨k - e, by omega⟩
    have hmul : m * 2 ^ (e + j) = (m * 2 ^ j) * 2 ^ e := by
      rw [Nat.pow_add, Nat.mul_comm (2 ^ e), Nat.mul_assoc]
    rw [hmul] at h1 h2
    have a := Nat.lt_of_mul_lt_mul_right h1
    have b := Nat.lt_of_mul_lt_mul_right h2
    omega
  · obtain ⟨j, rfl⟩ : ∃ j, e = k + 1 + j := ⟨e - k - 1, by omega⟩
    have h3 : m * 2 ^ k < 2 ^ 53 * 2 ^ k := Nat.mul_lt_mul_of_pos_right hm (Nat.two_pow_pos k)
    have h4 : 2 ^ 53 * 2 ^ k ≤ 2 ^ 52 * 2 ^ (k + 1 + j) := by
      rw [← Nat.pow_add, ← Nat.pow_add]
      exact Nat.pow_le_pow_right (by omega) (by omega)
    have h5 : 2 ^ 52 * 2 ^ (k + 1 + j) ≤ q * 2 ^ (k + 1 + j) := Nat.mul_le_mul_right _ hq
    omega

theorem double_mul {q e : Nat} (h : q ≤ 2 ^ 53) : IsDouble (q * 2 ^ e) := by
  by_cases hq : q = 2 ^ 53
  · refine ⟨1, 53 + e, by norm_num, ?_⟩
    rw [hq, ← Nat.pow_add, Nat.one_mul]
  · exact ⟨q, e, by omega, rfl⟩

theorem rnd_nearest (x : Nat) : Nearest x (rnd x) := by
  unfold rnd
  by_cases hx : x < 2 ^ 53
  · rw [if_pos hx]
    refine ⟨⟨x, 0, hx, by simp⟩, fun y _ => ?_⟩
    by_cases hy : y = x
    · exact Or.inr (Or.inl hy)
    · left; omega
  · rw [if_neg hx]
    obtain ⟨e, e1, e2, e3, e4⟩ := rnd_scale (Nat.le_of_not_lt hx)
    simp only [e2]
    have hdm := Nat.div_add_mod x (2 ^ e)
    have hr := Nat.mod_lt x (Nat.two_pow_pos e)
    have hbt := fun (y : Nat) (hy : IsDouble y) =>
      no_double_between (q := x / 2 ^ e) (e := e) (y := y) e3 hy
    have hqd := double_mul (q := x / 2 ^ e) (e := e) (by omega)
    have hqd' := double_mul (q := x / 2 ^ e + 1) (e := e) (by omega)
    have hev : ∀ q : Nat, 2 ^ 52 ≤ q → q ≤ 2 ^ 53 → q % 2 = 0 →
        ∃ m k, m < 2 ^ 53 ∧ 2 ^ 52 ≤ m ∧ m % 2 = 0 ∧ q * 2 ^ e = m * 2 ^ k := by
      intro q h1 h2 h3
      by_cases hq : q = 2 ^ 53
      · refine ⟨2 ^ 52, e + 1, by norm_num, by norm_num, by norm_num, ?_⟩
        rw [hq, ← Nat.pow_add, ← Nat.pow_add]; congr 1; omega
      · exact ⟨q, e, by omega, h1, h3, rfl⟩
    rw [Nat.mul_comm] at hdm
    have hsc : (x / 2 ^ e + 1) * 2 ^ e = x / 2 ^ e * 2 ^ e + 2 ^ e := Nat.succ_mul _ _
    generalize x / 2 ^ e = q at *
    generalize x % 2 ^ e = r at *
    by_cases hc : 2 ^ e < 2 * r ∨ (2 ^ e = 2 * r ∧ q % 2 = 1)
    · rw [if_pos hc]
      refine ⟨hqd', fun y hy => ?_⟩
      have hb := hbt y hy
      have hE := hev (q + 1) (by omega) (by omega)
      rw [hsc] at hb hE ⊢
      generalize q * 2 ^ e = Q at *
      by_cases h1 : y = Q + 2 ^ e
      · exact Or.inr (Or.inl h1)
      · have h2 : y ≤ Q ∨ Q + 2 ^ e ≤ y := by
          by_cases h3 : Q < y
          · right; exact Nat.le_of_not_lt fun h4 => hb h3 h4
          · left; clear hE; omega
        generalize 2 ^ e = E at *
        by_cases h5 : E = 2 * r ∧ y = Q
        · right; right
          exact ⟨by omega, hE (by omega)⟩
        · left; clear hE; omega
    · rw [if_neg hc]
      refine ⟨hqd, fun y hy => ?_⟩
      have hb := hbt y hy
      have hE := hev q (by omega) (by omega)
      rw [hsc] at hb
      generalize q * 2 ^ e = Q at *
      by_cases h1 : y = Q
      · exact Or.inr (Or.inl h1)
      · have h2 : y ≤ Q ∨ Q + 2 ^ e ≤ y := by
          by_cases h3 : Q < y
          · right; exact Nat.le_of_not_lt fun h4 => hb h3 h4
          · left; clear hE; omega
        generalize 2 ^ e = E at *
        by_cases h5 : E = 2 * r ∧ y = Q + E
        · right; right
          exact ⟨by omega, hE (by omega)⟩
        · left; clear hE; omega

/-! ### The loop -/

/-- Every prefix of a double's digits is a double. -/
theorem double_div {x : Nat} (h : IsDouble x) (k : Nat) : IsDouble (x / 2 ^ k) := by
  obtain ⟨m, e, hm, rfl⟩ := h
  by_cases hk : k ≤ e
  · obtain ⟨j, rfl⟩ : ∃ j, e = k + j := ⟨e - k, by omega⟩
    refine ⟨m, j, hm, ?_⟩
    rw [Nat.pow_add, Nat.mul_comm (2 ^ k), ← Nat.mul_assoc,
      Nat.mul_div_cancel _ (Nat.two_pow_pos k)]
  · obtain ⟨j, rfl⟩ : ∃ j, k = e + j := ⟨k - e, by omega⟩
    refine ⟨m / 2 ^ j, 0, Nat.lt_of_le_of_lt (Nat.div_le_self _ _) hm, ?_⟩
    rw [Nat.pow_add, ← Nat.div_div_eq_div_mul, Nat.mul_div_cancel _ (Nat.two_pow_pos e)]
    simp

theorem double_mod {x : Nat} (h : IsDouble x) (k : Nat) : IsDouble (x % 2 ^ k) := by
  obtain ⟨m, e, hm, rfl⟩ := h
  by_cases hk : k ≤ e
  · obtain ⟨j, rfl⟩ : ∃ j, e = k + j := ⟨e - k, by omega⟩
    refine ⟨0, 0, by norm_num, ?_⟩
    rw [Nat.pow_add, Nat.mul_comm (2 ^ k), ← Nat.mul_assoc, Nat.mul_mod_left, Nat.zero_mul]
  · obtain ⟨j, rfl⟩ : ∃ j, k = e + j := ⟨k - e, by omega⟩
    refine ⟨m % 2 ^ j, e, Nat.lt_of_le_of_lt (Nat.mod_le _ _) hm, ?_⟩
    rw [Nat.pow_add, Nat.mul_comm (2 ^ e), Nat.mul_mod_mul_right]

theorem B_pow (k : Nat) : B ^ k = 2 ^ (64 * k) := by
  rw [B_eq, ← Nat.pow_mul]

/-- The loop on the digits below those already taken. -/
theorem getLoop_exact : ∀ (l : List Nat) (d : Nat), AllLt l → IsDouble (d * B ^ l.length + val l) →
    getLoop l.reverse d = some (d * B ^ l.length + val l) := by
  intro l
  induction l using List.reverseRecOn with
  | nil => intro d _ _; simp [getLoop, val]
  | append_singleton l x ih =>
    intro d hl hd
    have hx : x < B := hl x (by simp)
    have hl' : AllLt l := fun y hy => hl y (by simp [hy])
    have hlt : val l < B ^ l.length := val_lt hl'
    have hv : d * B ^ (l ++ [x]).length + val (l ++ [x]) = (d * B + x) * B ^ l.length + val l := by
      rw [val_append, val, val]
      simp only [List.length_append, List.length_singleton, Nat.pow_succ]
      ring
    rw [hv] at hd ⊢
    rw [List.reverse_append]
    simp only [List.reverse_cons, List.reverse_nil, List.nil_append, List.singleton_append]
    rw [getLoop]
    have hpos : 0 < B ^ l.length := Nat.pow_pos (by rw [B_eq]; norm_num)
    have hdv : IsDouble (d * B + x) := by
      have := double_div hd (64 * l.length)
      rw [← B_pow, Nat.add_comm, Nat.add_mul_div_right _ _ hpos, Nat.div_eq_of_lt hlt,
        Nat.zero_add] at this
      exact this
    have hxd : IsDouble x := by
      have := double_mod hdv 64
      rw [← B_eq, Nat.add_comm, Nat.add_mul_mod_self_right, Nat.mod_eq_of_lt hx] at this
      exact this
    simp only [rnd_exact hxd, rnd_exact hdv, Nat.add_sub_cancel_left, Nat.lt_irrefl, if_false]
    exact ih _ hl' hd

/-- The digits the loop is given. -/
theorem asFloatD_loop {a : Obj} (ha : Operand a) (h0 : 0 < a.val) :
    ∃ l, AllLt l ∧ (val l : Int) = a.val ∧ l.getLastD 0 ≠ 0 ∧ primAsFloatD a =
      (match getLoop l.reverse 0 with
        | none => .fail
        | some d => .ok d) := by
  unfold primAsFloatD
  obtain ⟨x, x1, x2, h⟩ := load_eq ha getD
  rw [h]
  have hs : ¬ x.size < 0 := by rw [size_neg_iff x1, x2]; omega
  have hv : (val x.lim : Int) = a.val := by
    rw [← x2, Z.val, if_neg hs]
  have hne : trim x.lim ≠ [] := by
    rw [ne_eq, trim_eq_nil]; omega
  refine ⟨trim x.lim, trim_lt x1.wf.lim_lt, by rw [val_trim, hv],
    (trim_top x.lim).resolve_left hne, ?_⟩
  rw [getD, if_neg hs, if_neg hne]
  rfl

/-- Numbers that are doubles are converted exactly. -/
theorem asFloatD_exact {a : Obj} (ha : Operand a) (h0 : 0 < a.val) {m e : Nat}
    (hm : m < 2 ^ 53) (hv : a.val = (m * 2 ^ e : Nat)) : primAsFloatD a = .ok (m * 2 ^ e) := by
  obtain ⟨l, l1, l2, -, l4⟩ := asFloatD_loop ha h0
  have hl : val l = m * 2 ^ e := by omega
  have := getLoop_exact l 0 l1 ⟨m, e, hm, by rw [hl, Nat.zero_mul, Nat.zero_add]⟩
  rw [Nat.zero_mul, Nat.zero_add, hl] at this
  rw [l4, this]

example : Operand two64 ∧ 0 < two64.val ∧ two64.val = ((1 * 2 ^ 64 : Nat) : Int) :=
  ⟨Or.inl two64_canon, by rw [two64_val]; norm_num, by rw [two64_val]; norm_num⟩

/-- Numbers of one limb are converted to the nearest double.  Missing: larger numbers, see
`asFloatD_refuted`. -/
theorem asFloatD_partial {a : Obj} (ha : Operand a) (h0 : 0 < a.val) (h1 : a.val < 2 ^ 64) :
    ∃ d, primAsFloatD a = .ok d ∧ Nearest a.val.toNat d := by
  obtain ⟨l, l1, l2, l3, l4⟩ := asFloatD_loop ha h0
  have hlen : l.length = 1 := by
    rcases Nat.lt_trichotomy l.length 1 with h | h | h
    · have : l = [] := List.length_eq_zero_iff.1 (by omega)
      rw [this] at l3
      exact absurd rfl l3
    · exact h
    · exfalso
      have hne : l ≠ [] := by intro h'; rw [h'] at h; simp at h
      have hsplit := List.dropLast_concat_getLast hne
      have hlast : l.getLast hne ≠ 0 := by
        rw [List.getLastD_eq_getLast?, List.getLast?_eq_some_getLast hne] at l3
        exact l3
      rw [← hsplit, val_append, val, val] at l2
      have hp : B ^ 1 ≤ B ^ l.dropLast.length := by
        apply Nat.pow_le_pow_right (by rw [B_eq]; norm_num)
        rw [List.length_dropLast]; omega
      have : B ^ l.dropLast.length * 1 ≤ B ^ l.dropLast.length * (l.getLast hne + B * 0) :=
        Nat.mul_le_mul_left _ (by omega)
      rw [Nat.pow_one] at hp
      generalize B ^ l.dropLast.length = P at *
      rw [B_eq] at hp
      simp only [Nat.reducePow] at hp
      omega
  obtain ⟨x, rfl⟩ := List.length_eq_one_iff.1 hlen
  have hx : x = a.val.toNat := by
    rw [val, val] at l2; omega
  refine ⟨rnd x, ?_, hx ▸ rnd_nearest x⟩
  rw [l4]
  have hr : rnd (rnd x) = rnd x := rnd_exact (rnd_nearest x).1
  simp only [List.reverse_cons, List.reverse_nil, List.nil_append, getLoop, Nat.zero_mul,
    Nat.zero_add, Nat.sub_zero, hr, Nat.lt_irrefl, if_false]

example : Operand three62 ∧ 0 < three62.val ∧ three62.val < 2 ^ 64 :=
  ⟨Or.inl three62_canon, by rw [three62_val]; norm_num, by rw [three62_val]; norm_num⟩

/-- The full claim: if the primitive answers, it answers the nearest double. -/
def AsFloatDNearest : Prop := ∀ (a : Obj) (d : Nat), Operand a → 0 < a.val →
  primAsFloatD a = .ok d → Nearest a.val.toNat d

/-- 2^64 + 2^63 + 3 * 2^11 - 1. -/
def tie : Obj := .pos [255, 23, 0, 0, 0, 0, 0, 128, 1] [0, 0, 0, 0, 0, 0, 0]

/-- The low limb is rounded before it is added, and the sum is rounded again: the answer for
2^64 + 2^63 + 3 * 2^11 - 1 is 2^64 + 2^63 + 2^13, although 2^64 + 2^63 + 2^12 is nearer. -/
theorem asFloatD_refuted : ¬ AsFloatDNearest := by
  intro h
  have h1 : primAsFloatD tie = .ok (2 ^ 64 + 2 ^ 63 + 2 ^ 13) := by decide +kernel
  have h2 := h tie _ (Or.inl (by decide +kernel)) (by decide +kernel) h1
  have h3 := h2.2 (2 ^ 64 + 2 ^ 63 + 2 ^ 12) ⟨3 * 2 ^ 51 + 1, 12, by norm_num, by norm_num⟩
  have hv : tie.val.toNat = 2 ^ 64 + 2 ^ 63 + 3 * 2 ^ 11 - 1 := by decide +kernel
  rw [hv] at h3
  norm_num at h3

/-- Converting a LargeZeroInteger reads before the digits. -/
theorem asFloatD_zero : primAsFloatD .zero = .undef := by decide +kernel

end Verif.Mpz
