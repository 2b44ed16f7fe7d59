import Verif.Frac.Theorems

/-! # ScaledDecimals

A ScaledDecimal is a Fraction together with the number of digits after the point
that are shown and compared (kernel/ScaledDec.st). -/

namespace Verif.Frac

open Verif.Num (Err)

/-- The instance variables of a ScaledDecimal (kernel/ScaledDec.st:35-37).  The
scale is a natural number here; the class does not check it. -/
structure Scaled where
  fraction : Number
  scale : Nat
  deriving DecidableEq, Repr

/-- `asFraction` of an Integer or Fraction (kernel/Integer.st:448-453,
kernel/Fraction.st:484-489). -/
def asFraction : Number → Number
  | .int z => .frac z 1
  | .frac n d => .frac n d

/-- `ScaledDecimal class>>newFromNumber:scale:` (kernel/ScaledDec.st:43-52). -/
def newFromNumber (x : Number) (s : Nat) : Scaled := ⟨asFraction x, s⟩

def wrap (r : Except Err Number) (s : Nat) : Except Err Scaled :=
  match r with
  | .error e => .error e
  | .ok x => .ok (newFromNumber x s)

/-- `+ - * / \\` between ScaledDecimals (kernel/ScaledDec.st:152-206). -/
def sAdd (a b : Scaled) := wrap (add a.fraction b.fraction) (max a.scale b.scale)
def sSub (a b : Scaled) := wrap (sub a.fraction b.fraction) (max a.scale b.scale)
def sMul (same : Bool) (a b : Scaled) := wrap (mul same a.fraction b.fraction) (max a.scale b.scale)
def sDiv (big : Int) (a b : Scaled) := wrap (div big a.fraction b.fraction) (max a.scale b.scale)
def sMod (big : Int) (a b : Scaled) := wrap (modulo big a.fraction b.fraction) (max a.scale b.scale)

/-- `compare:` (kernel/ScaledDec.st:336-344). -/
def sCompare (a b : Scaled) : Except Err Int :=
  match sub a.fraction b.fraction with
  | .error e => .error e
  | .ok r =>
    match mul false r (.int (10 ^ min a.scale b.scale)) with
    | .error e => .error e
    | .ok r => rounded r

/-- `<` and `=` (kernel/ScaledDec.st:218-224,254-262). -/
def sLt (a b : Scaled) : Except Err Bool :=
  match sCompare a b with
  | .error e => .error e
  | .ok c => .ok (c < 0)
def sEq (a b : Scaled) : Except Err Bool :=
  match sCompare a b with
  | .error e => .error e
  | .ok c => .ok (c == 0)

/-- `Fraction>>hash` (kernel/Fraction.st:292-298) and `ScaledDecimal>>hash`
(kernel/ScaledDec.st:273-278), for any hash of Floats and of Integers that answers
small Integers themselves. -/
def sHash (floatHash : Number → Int) (a : Scaled) : Int :=
  match a.fraction with
  | .int z => z
  | .frac n d => if d = 1 then n else floatHash (.frac n d)

/-- `ScaledDecimal>>asFraction` (kernel/ScaledDec.st:126-135). -/
def sAsFraction (a : Scaled) : Except Err Number :=
  let den : Int := 10 ^ a.scale
  let num := Int.tdiv (numer a.fraction * den) (denom a.fraction)
  let g := gcd num den
  mkFrac (divExact num g) (divExact den g)

/-- What `displayOn:` writes: perhaps a minus sign, the Integer part, and the
digits after the point. -/
structure Shown where
  minus : Bool
  int : Int
  digits : List Int
  deriving DecidableEq, Repr

/-- The loop of `displayOn:` (kernel/ScaledDec.st:293-297); `fractionPart` subtracts
the truncated part as a Fraction (kernel/Number.st:467-473,
kernel/Fraction.st:332-337). -/
def showDigits : Nat → Number → Except Err (List Int)
  | 0, _ => .ok []
  | k + 1, x =>
    match mul false x (.int 10) with
    | .error e => .error e
    | .ok y =>
      match sub y (.frac (truncated y) 1) with
      | .error e => .error e
      | .ok z =>
        match showDigits k z with
        | .error e => .error e
        | .ok ds => .ok (truncated y :: ds)

/-- `displayOn:` (kernel/ScaledDec.st:280-298).  `self < 0` coerces 0 to the scale
of the receiver, and compares.  `abs` negates what is not above zero
(kernel/Number.st:671-676). -/
def display (a : Scaled) : Except Err Shown :=
  match sLt a (newFromNumber (.int 0) a.scale) with
  | .error e => .error e
  | .ok minus =>
    match lt (.frac 0 1) a.fraction with
    | .error e => .error e
    | .ok positive =>
      match (if positive then .ok a.fraction else negated (numer a.fraction) (denom a.fraction) : Res) with
      | .error e => .error e
      | .ok f =>
        match sub f (.frac (truncated f) 1) with
        | .error e => .error e
        | .ok x =>
          match showDigits a.scale x with
          | .error e => .error e
          | .ok ds => .ok ⟨minus, truncated f, ds⟩

/-! ### Specification -/

/-- A ScaledDecimal as they are made: a Fraction in lowest terms. -/
def SValid (a : Scaled) : Prop := Valid a.fraction

/-- The value of what is written: sign, Integer part, digits. -/
def shownValue (s : Shown) : ℚ :=
  (if s.minus then -1 else 1) * ((s.digits.foldl (fun (v : Int) (d : Int) => v * 10 + d) s.int : Int) : ℚ) /
    10 ^ s.digits.length

/-- Truncation towards zero. -/
def trunc (x : ℚ) : Int := if 0 ≤ x then ⌊x⌋ else ⌈x⌉

theorem asFraction_ok (x : Number) (h : Valid x) : Valid (asFraction x) ∧ rat (asFraction x) = rat x := by
  cases x with
  | int z => exact ⟨⟨by decide, by simp⟩, by simp [asFraction, rat]⟩
  | frac n d => exact ⟨h, rfl⟩

/-- **Sums, differences, products and quotients of ScaledDecimals are exact**, not
rounded to the digits shown, and show as many digits as the operand with more. -/
theorem scaled_arith (big : Int) (a b : Scaled) (ha : SValid a) (hb : SValid b) :
    (∃ r, sAdd a b = .ok r ∧ SValid r ∧ rat r.fraction = rat a.fraction + rat b.fraction ∧
      r.scale = max a.scale b.scale) ∧
    (∃ r, sSub a b = .ok r ∧ SValid r ∧ rat r.fraction = rat a.fraction - rat b.fraction ∧
      r.scale = max a.scale b.scale) ∧
    (∃ r, sMul false a b = .ok r ∧ SValid r ∧ rat r.fraction = rat a.fraction * rat b.fraction ∧
      r.scale = max a.scale b.scale) ∧
    (rat b.fraction ≠ 0 → ∃ r, sDiv big a b = .ok r ∧ SValid r ∧
      rat r.fraction = rat a.fraction / rat b.fraction ∧ r.scale = max a.scale b.scale) := by
  have w : ∀ (x : Number) (s : Nat), Valid x → ∀ v, rat x = v →
      SValid (newFromNumber x s) ∧ rat (newFromNumber x s).fraction = v ∧ (newFromNumber x s).scale = s := by
    intro x s hx v hv
    obtain ⟨h1, h2⟩ := asFraction_ok x hx
    exact ⟨h1, by rw [← hv]; exact h2, rfl⟩
  refine ⟨?_, ?_, ?_, fun hz => ?_⟩
  · obtain ⟨r, h1, h2, h3⟩ := add_exact _ _ ha hb
    exact ⟨_, by rw [sAdd, h1]; rfl, w r _ h2 _ h3⟩
  · obtain ⟨r, h1, h2, h3⟩ := sub_exact _ _ ha hb
    exact ⟨_, by rw [sSub, h1]; rfl, w r _ h2 _ h3⟩
  · obtain ⟨r, h1, h2, h3⟩ := mul_exact false _ _ (by simp) ha hb
    exact ⟨_, by rw [sMul, h1]; rfl, w r _ h2 _ h3⟩
  · obtain ⟨r, h1, h2, h3⟩ := div_exact big _ _ ha hb hz
    exact ⟨_, by rw [sDiv, h1]; rfl, w r _ h2 _ h3⟩

example : sAdd ⟨.frac 157 50, 2⟩ ⟨.frac 1 2, 1⟩ = .ok ⟨.frac 91 25, 2⟩ := by decide +kernel

/-! ### Comparison -/

theorem sCompare_spec (a b : Scaled) (ha : SValid a) (hb : SValid b) :
    ∃ c, sCompare a b = .ok c ∧ c = (let x := (rat a.fraction - rat b.fraction) * 10 ^ min a.scale b.scale
      if x < 0 then ⌈x - 1 / 2⌉ else ⌊x + 1 / 2⌋) := by
  obtain ⟨r, h1, h2, h3⟩ := sub_exact _ _ ha hb
  obtain ⟨s, g1, g2, g3⟩ := mul_exact false r (.int (10 ^ min a.scale b.scale)) (by simp) h2 trivial
  obtain ⟨c, k1, k2⟩ := rounded_spec s g2
  refine ⟨c, by simp only [sCompare, h1, g1, k1], ?_⟩
  have e : rat (.int (10 ^ min a.scale b.scale)) = (10 : ℚ) ^ min a.scale b.scale := by simp [rat]
  rw [k2, g3, h3, e]

/-- **`=` says that two ScaledDecimals differ by less than half a unit of the last
digit shown by the coarser of the two.** -/
theorem scaled_eq (a b : Scaled) (ha : SValid a) (hb : SValid b) :
    ∃ r, sEq a b = .ok r ∧
      (r = true ↔ |rat a.fraction - rat b.fraction| * 10 ^ min a.scale b.scale < 1 / 2) := by
  obtain ⟨c, h1, h2⟩ := sCompare_spec a b ha hb
  refine ⟨c == 0, by simp only [sEq, h1], ?_⟩
  have hp : (0 : ℚ) < 10 ^ min a.scale b.scale := pow_pos (by norm_num) _
  rw [beq_iff_eq, h2, ← abs_of_pos hp, ← abs_mul, abs_of_pos hp]
  generalize (rat a.fraction - rat b.fraction) * 10 ^ min a.scale b.scale = x
  simp only
  by_cases hx : x < 0
  · rw [if_pos hx, Int.ceil_eq_iff, abs_of_neg hx]
    constructor
    · rintro ⟨h, _⟩; push_cast at h; linarith
    · intro h; push_cast; constructor <;> linarith
  · rw [if_neg hx, Int.floor_eq_iff, abs_of_nonneg (not_lt.mp hx)]
    constructor
    · rintro ⟨_, h⟩; push_cast at h; linarith
    · intro h; push_cast; constructor <;> linarith

/-- **`<` says that the receiver is less by at least half such a unit.** -/
theorem scaled_lt (a b : Scaled) (ha : SValid a) (hb : SValid b) :
    ∃ r, sLt a b = .ok r ∧
      (r = true ↔ 1 / 2 ≤ (rat b.fraction - rat a.fraction) * 10 ^ min a.scale b.scale) := by
  obtain ⟨c, h1, h2⟩ := sCompare_spec a b ha hb
  refine ⟨decide (c < 0), by simp only [sLt, h1], ?_⟩
  rw [decide_eq_true_eq, h2]
  have e : (rat b.fraction - rat a.fraction) * 10 ^ min a.scale b.scale =
      -((rat a.fraction - rat b.fraction) * 10 ^ min a.scale b.scale) := by ring
  rw [e]
  generalize (rat a.fraction - rat b.fraction) * 10 ^ min a.scale b.scale = x
  simp only
  by_cases hx : x < 0
  · rw [if_pos hx, Int.ceil_lt_iff]
    push_cast
    constructor <;> intro h <;> linarith
  · rw [if_neg hx]
    have : 0 ≤ ⌊x + 1 / 2⌋ := Int.floor_nonneg.mpr (by linarith)
    constructor
    · intro h; omega
    · intro h; linarith

/-- **Among ScaledDecimals of one scale that hold no hidden digits, `=` and `<` are
those of the numbers.** -/
theorem scaled_compare_exact (a b : Scaled) (ha : SValid a) (hb : SValid b) (hs : a.scale = b.scale)
    (ea : ∃ z : Int, rat a.fraction * 10 ^ a.scale = z) (eb : ∃ z : Int, rat b.fraction * 10 ^ b.scale = z) :
    (∃ r, sEq a b = .ok r ∧ (r = true ↔ rat a.fraction = rat b.fraction)) ∧
    (∃ r, sLt a b = .ok r ∧ (r = true ↔ rat a.fraction < rat b.fraction)) := by
  obtain ⟨y, hy⟩ := ea
  obtain ⟨z, hz⟩ := eb
  have hp : (0 : ℚ) < 10 ^ a.scale := pow_pos (by norm_num) _
  have hm : min a.scale b.scale = a.scale := by omega
  have hdiff : (rat b.fraction - rat a.fraction) * 10 ^ a.scale = ((z - y : Int) : ℚ) := by
    rw [sub_mul, hy]; rw [← hs] at hz; rw [hz]; push_cast; ring
  constructor
  · obtain ⟨r, h1, h2⟩ := scaled_eq a b ha hb
    refine ⟨r, h1, h2.trans ?_⟩
    rw [hm, abs_sub_comm, ← abs_of_pos hp, ← abs_mul, hdiff, ← Int.cast_abs]
    constructor
    · intro h
      have : |z - y| < 1 := by
        have : ((|z - y| : Int) : ℚ) < 1 := by linarith
        exact_mod_cast this
      have h0 : z - y = 0 := by
        have := abs_nonneg (z - y)
        exact abs_eq_zero.mp (by omega)
      rw [h0] at hdiff
      have := mul_eq_zero.mp (hdiff.trans (by simp))
      rcases this with h | h
      · linarith
      · exact absurd h hp.ne'
    · intro h
      rw [h, sub_self, zero_mul] at hdiff
      have : z - y = 0 := by exact_mod_cast hdiff.symm
      rw [this]; norm_num
  · obtain ⟨r, h1, h2⟩ := scaled_lt a b ha hb
    refine ⟨r, h1, h2.trans ?_⟩
    rw [hm, hdiff]
    constructor
    · intro h
      have : (0 : ℚ) < (rat b.fraction - rat a.fraction) * 10 ^ a.scale := by rw [hdiff]; linarith
      have := (mul_pos_iff_of_pos_right hp).mp this
      linarith
    · intro h
      have : (0 : ℚ) < (rat b.fraction - rat a.fraction) * 10 ^ a.scale := mul_pos (by linarith) hp
      rw [hdiff] at this
      have : 0 < z - y := by exact_mod_cast this
      have : (1 : ℚ) ≤ ((z - y : Int) : ℚ) := by exact_mod_cast this
      linarith

example : sEq ⟨.frac 157 50, 2⟩ ⟨.frac 63 20, 2⟩ = .ok false ∧ sLt ⟨.frac 157 50, 2⟩ ⟨.frac 63 20, 2⟩ = .ok true := by
  decide +kernel

/-- **`=` between ScaledDecimals is not transitive**: `0.4s1 = 0s0` and
`0s0 = -0.4s1`, but `0.4s1` and `-0.4s1` differ. -/
theorem scaled_eq_not_transitive :
    sEq ⟨.frac 2 5, 1⟩ ⟨.frac 0 1, 0⟩ = .ok true ∧ sEq ⟨.frac 0 1, 0⟩ ⟨.frac (-2) 5, 1⟩ = .ok true ∧
    sEq ⟨.frac 2 5, 1⟩ ⟨.frac (-2) 5, 1⟩ = .ok false := by decide +kernel

/-- **`=` and `hash` disagree**: however Floats are hashed, there are two equal
ScaledDecimals with different hashes. -/
theorem scaled_hash_wrong (floatHash : Number → Int) :
    ∃ a b, SValid a ∧ SValid b ∧ sEq a b = .ok true ∧ sHash floatHash a ≠ sHash floatHash b := by
  by_contra h
  have h : ∀ a b, SValid a → SValid b → sEq a b = .ok true → sHash floatHash a = sHash floatHash b := by
    intro a b ha hb he
    by_contra hn
    exact h ⟨a, b, ha, hb, he, hn⟩
  have h1 := h ⟨.frac 0 1, 0⟩ ⟨.frac 2 5, 0⟩ ⟨by decide, by decide⟩ ⟨by decide, by decide⟩ (by decide +kernel)
  have h2 := h ⟨.frac 2 5, 0⟩ ⟨.frac 4 5, 0⟩ ⟨by decide, by decide⟩ ⟨by decide, by decide⟩ (by decide +kernel)
  have h3 := h ⟨.frac 4 5, 0⟩ ⟨.frac 1 1, 0⟩ ⟨by decide, by decide⟩ ⟨by decide, by decide⟩ (by decide +kernel)
  have := (h1.trans h2).trans h3
  simp [sHash] at this

/-! ### Showing and truncating -/

theorem trunc_rat (a : Number) (ha : Valid a) : truncated a = trunc (rat a) := truncated_spec a ha

/-- **`asFraction` answers the number truncated to the digits shown.** -/
theorem scaled_asFraction (a : Scaled) (ha : SValid a) :
    ∃ r, sAsFraction a = .ok r ∧ Valid r ∧ rat r = trunc (rat a.fraction * 10 ^ a.scale) / 10 ^ a.scale := by
  obtain ⟨p1, c1, r1⟩ := valid_nd ha
  have hpos : (0 : Int) < 10 ^ a.scale := pow_pos (by decide) _
  unfold sAsFraction
  simp only
  have hnum : Int.tdiv (numer a.fraction * 10 ^ a.scale) (denom a.fraction) =
      trunc (rat a.fraction * 10 ^ a.scale) := by
    have hdq : (0 : ℚ) < denom a.fraction := by exact_mod_cast p1
    have e : rat a.fraction * 10 ^ a.scale = ((numer a.fraction * 10 ^ a.scale : Int) : ℚ) / denom a.fraction := by
      rw [r1]; push_cast; ring
    rw [e]
    generalize numer a.fraction * 10 ^ a.scale = n at *
    generalize denom a.fraction = d at *
    unfold trunc
    by_cases hn : 0 ≤ n
    · rw [if_pos (div_nonneg (by exact_mod_cast hn) hdq.le), ← fdiv_floor n d p1,
        Int.fdiv_eq_tdiv_of_nonneg hn (by omega)]
    · rw [if_neg (not_le.mpr (div_neg_of_neg_of_pos (by exact_mod_cast not_le.mp hn) hdq))]
      have h2 : (n : ℚ) / d = - (((-n : Int) : ℚ) / d) := by push_cast; ring
      rw [h2, Int.ceil_neg, ← fdiv_floor _ _ p1,
        Int.fdiv_eq_tdiv_of_nonneg (by omega) (by omega), Int.neg_tdiv, Int.neg_neg]
  rw [hnum]
  generalize trunc (rat a.fraction * 10 ^ a.scale) = n
  obtain ⟨u, v, e1, e2, e3, e4⟩ := gcd_factor_coprime n (10 ^ a.scale) (Or.inr hpos.ne')
  have hq : (10 : ℚ) ^ a.scale = (((10 : Int) ^ a.scale : Int) : ℚ) := by push_cast; rfl
  rw [hq]
  generalize gcd n (10 ^ a.scale) = g at *
  rw [e1, e2] 
  rw [divExact_mul_left _ _ (by omega), divExact_mul_left _ _ (by omega)]
  have hv : 0 < v := pos_r (by rw [← e2]; exact hpos) e4
  obtain ⟨r, q1, q2, q3, _⟩ := mkFrac_ok u v (by omega) e3
  refine ⟨r, q1, q2, ?_⟩
  rw [q3]
  push_cast
  rw [mul_div_mul_left]
  exact_mod_cast (by omega : g ≠ 0)

example : sAsFraction ⟨.frac (-2) 3, 2⟩ = .ok (.frac (-33) 50) := by decide +kernel

theorem showDigits_spec (k : Nat) : ∀ (x : Number), Valid x → 0 ≤ rat x → rat x < 1 →
    ∃ ds, showDigits k x = .ok ds ∧ ds.length = k ∧ (∀ d ∈ ds, 0 ≤ d ∧ d < 10) ∧
      ∀ v : Int, ds.foldl (fun (v : Int) (d : Int) => v * 10 + d) v = v * 10 ^ k + ⌊rat x * 10 ^ k⌋ := by
  induction k with
  | zero =>
    intro x _ h0 h1
    refine ⟨[], rfl, rfl, by simp, ?_⟩
    intro v
    have : ⌊rat x⌋ = 0 := by rw [Int.floor_eq_iff]; constructor <;> push_cast <;> linarith
    simp [this]
  | succ k ih =>
    intro x hx h0 h1
    obtain ⟨y, g1, g2, g3⟩ := mul_exact false x (.int 10) (by simp) hx trivial
    have hy : rat y = rat x * 10 := by rw [g3]; simp [rat]
    have hy0 : 0 ≤ rat y := by rw [hy]; linarith
    have ht : truncated y = ⌊rat y⌋ := by rw [truncated_spec y g2, if_pos hy0]
    obtain ⟨z, k1, k2, k3⟩ := sub_exact y (.frac (truncated y) 1) g2 ⟨by decide, by simp⟩
    have hz : rat z = rat y - ⌊rat y⌋ := by rw [k3, ht]; simp [rat]
    have f1 := Int.floor_le (rat y)
    have f2 := Int.lt_floor_add_one (rat y)
    obtain ⟨ds, m1, m2, m3, m4⟩ := ih z k2 (by rw [hz]; linarith) (by rw [hz]; linarith)
    refine ⟨truncated y :: ds, by simp only [showDigits, g1, k1, m1], by simp [m2], ?_, ?_⟩
    · intro d hd
      rcases List.mem_cons.mp hd with rfl | hd
      · rw [ht]
        have a : 0 ≤ ⌊rat y⌋ := Int.floor_nonneg.mpr hy0
        have b : (⌊rat y⌋ : ℚ) < 10 := by linarith
        exact ⟨a, by exact_mod_cast b⟩
      · exact m3 d hd
    · intro v
      rw [List.foldl_cons, m4, hz, ht, sub_mul]
      have e : (⌊rat y⌋ : ℚ) * 10 ^ k = ((⌊rat y⌋ * 10 ^ k : Int) : ℚ) := by push_cast; rfl
      rw [e, Int.floor_sub_intCast, hy]
      have e2 : rat x * 10 * 10 ^ k = rat x * 10 ^ (k + 1) := by ring
      rw [e2]
      ring

/-- **A ScaledDecimal is shown with exactly its scale in digits after the point,
and what is shown is its value truncated towards zero to those digits** — so what
is read back is the number itself exactly when it has no further digits. -/
theorem scaled_display (a : Scaled) (ha : SValid a) :
    ∃ s, display a = .ok s ∧ s.digits.length = a.scale ∧ (∀ d ∈ s.digits, 0 ≤ d ∧ d < 10) ∧ 0 ≤ s.int ∧
      shownValue s = trunc (rat a.fraction * 10 ^ a.scale) / 10 ^ a.scale := by
  have hz : SValid (newFromNumber (.int 0) a.scale) := ⟨by decide, by decide⟩
  have hp : (0 : ℚ) < 10 ^ a.scale := pow_pos (by norm_num) _
  obtain ⟨m, m1, m2⟩ := scaled_lt a _ ha hz
  have e0 : rat (newFromNumber (.int 0) a.scale).fraction = 0 := by simp [newFromNumber, asFraction, rat]
  have e1 : min a.scale (newFromNumber (.int 0) a.scale).scale = a.scale := by simp [newFromNumber]
  rw [e0, e1] at m2
  obtain ⟨b, b1, b2⟩ := lt_spec (.frac 0 1) a.fraction ⟨by decide, by decide⟩ ha
  have e2 : rat (.frac 0 1) = 0 := by simp [rat]
  rw [e2] at b2
  obtain ⟨p1, c1, r1⟩ := valid_nd ha
  -- the absolute value
  have habs : ∃ f, (if b then .ok a.fraction else negated (numer a.fraction) (denom a.fraction) : Res) = .ok f ∧
      Valid f ∧ rat f = |rat a.fraction| := by
    cases b with
    | true => exact ⟨_, rfl, ha, (abs_of_pos (b2.mp rfl)).symm⟩
    | false =>
      have hle : rat a.fraction ≤ 0 := by
        by_contra h
        have := b2.mpr (by linarith)
        exact absurd this (by simp)
      obtain ⟨r, q1, q2, q3, _⟩ := mkFrac_ok (0 - numer a.fraction) (denom a.fraction) (by omega)
        (by rw [Int.zero_sub]; exact c1.neg_left)
      refine ⟨r, q1, q2, ?_⟩
      rw [q3, abs_of_nonpos hle, r1]
      push_cast
      ring
  obtain ⟨f, f1, f2, f3⟩ := habs
  have hf0 : 0 ≤ rat f := by rw [f3]; exact abs_nonneg _
  have ht : truncated f = ⌊rat f⌋ := by rw [truncated_spec f f2, if_pos hf0]
  obtain ⟨x, x1, x2, x3⟩ := sub_exact f (.frac (truncated f) 1) f2 ⟨by decide, by simp⟩
  have hx : rat x = rat f - ⌊rat f⌋ := by rw [x3, ht]; simp [rat]
  have k1 := Int.floor_le (rat f)
  have k2 := Int.lt_floor_add_one (rat f)
  obtain ⟨ds, d1, d2, d3, d4⟩ := showDigits_spec a.scale x x2 (by rw [hx]; linarith) (by rw [hx]; linarith)
  refine ⟨⟨m, truncated f, ds⟩, by simp only [display, m1, b1, f1, x1, d1], d2, d3, ?_, ?_⟩
  · show 0 ≤ truncated f
    rw [ht]; exact Int.floor_nonneg.mpr hf0
  · have hfold : ds.foldl (fun (v : Int) (d : Int) => v * 10 + d) (truncated f) =
        ⌊|rat a.fraction| * 10 ^ a.scale⌋ := by
      rw [d4, hx, ht, sub_mul]
      have e : (⌊rat f⌋ : ℚ) * 10 ^ a.scale = ((⌊rat f⌋ * 10 ^ a.scale : Int) : ℚ) := by push_cast; rfl
      rw [e, Int.floor_sub_intCast, f3]
      ring
    simp only [shownValue, hfold, d2]
    congr 1
    -- signs
    unfold trunc
    by_cases hs : 0 ≤ rat a.fraction
    · have hm : m = false := by
        cases m with
        | false => rfl
        | true =>
          have := m2.mp rfl
          have h5 : 0 ≤ rat a.fraction * 10 ^ a.scale := mul_nonneg hs hp.le
          linarith
      have h5 : 0 ≤ rat a.fraction * 10 ^ a.scale := mul_nonneg hs hp.le
      rw [hm, abs_of_nonneg hs, if_pos h5]
      simp
    · have hneg : rat a.fraction < 0 := not_le.mp hs
      have h5 : rat a.fraction * 10 ^ a.scale < 0 := mul_neg_of_neg_of_pos hneg hp
      rw [abs_of_neg hneg, if_neg (not_le.mpr h5)]
      have e : -rat a.fraction * 10 ^ a.scale = -(rat a.fraction * 10 ^ a.scale) := by ring
      rw [e, Int.floor_neg]
      cases m with
      | true => simp
      | false =>
        have hsmall : -(1 / 2) < rat a.fraction * 10 ^ a.scale := by
          by_contra h
          have := m2.mpr (by linarith)
          exact absurd this (by simp)
        have : ⌈rat a.fraction * 10 ^ a.scale⌉ = 0 := by
          rw [Int.ceil_eq_iff]; constructor <;> push_cast <;> linarith
        rw [this]; simp

/-- Reading back what was shown gives the number itself exactly when it has no
digits beyond its scale. -/
theorem scaled_round_trip (a : Scaled) (ha : SValid a) (s : Shown) (hs : display a = .ok s) :
    shownValue s = rat a.fraction ↔ ∃ z : Int, rat a.fraction * 10 ^ a.scale = z := by
  obtain ⟨s', h1, _, _, _, h5⟩ := scaled_display a ha
  rw [hs] at h1
  cases h1
  have hp : (10 : ℚ) ^ a.scale ≠ 0 := pow_ne_zero _ (by norm_num)
  rw [h5, div_eq_iff hp]
  constructor
  · intro h; exact ⟨_, h.symm⟩
  · rintro ⟨z, hz⟩
    rw [hz]
    unfold trunc
    split <;> simp

example : display ⟨.frac (-2) 3, 2⟩ = .ok ⟨true, 0, [6, 6]⟩ := by decide +kernel

/-- **What is printed need not equal what it was printed from**: 2/3 to two digits
shows as 0.66, and `0.66s2` is not `=` to it. -/
theorem scaled_print_not_equal : display ⟨.frac 2 3, 2⟩ = .ok ⟨false, 0, [6, 6]⟩ ∧
    sEq ⟨.frac 2 3, 2⟩ ⟨.frac 33 50, 2⟩ = .ok false := by decide +kernel

end Verif.Frac
