/-
What the LargeInteger primitives answer, for all operands.  The right-hand sides are
operations on mathematical integers; objects are described by `Obj.val`, `Canon` and
`Operand`.
-/
import Verif.Mpz.Prims
import Verif.Mpz.Div
import Verif.Mpz.Bits
import Mathlib.Tactic.NormNum

namespace Verif.Mpz

/-! ### Objects used as examples -/

/-- 2^64 as a LargePositiveInteger, with rubbish in the padding. -/
def two64 : Obj := .pos [0, 0, 0, 0, 0, 0, 0, 0, 1] [7, 0, 0, 0, 0, 0, 200]

/-- -2^64 as a LargeNegativeInteger. -/
def minusTwo64 : Obj := .neg [0, 0, 0, 0, 0, 0, 0, 0, 255] [1, 2, 3, 4, 5, 6, 7]

/-- -2^64 - 1. -/
def minusTwo64m1 : Obj := .neg [255, 255, 255, 255, 255, 255, 255, 255, 254] [0, 0, 0, 0, 0, 0, 0]

/-- -2^70. -/
def minusTwo70 : Obj := .neg [0, 0, 0, 0, 0, 0, 0, 0, 192] [0, 0, 0, 0, 0, 0, 0]

/-- 3 * 2^62. -/
def three62 : Obj := .pos [0, 0, 0, 0, 0, 0, 0, 192, 0] [0, 0, 0, 0, 0, 0, 0]

instance (l : List Nat) : Decidable (AllByte l) := by unfold AllByte; infer_instance
instance (a b : List Nat) : Decidable (Pads a b) := by unfold Pads; infer_instance
instance (o : Obj) : Decidable (Canon o) := by cases o <;> unfold Canon <;> infer_instance

theorem two64_canon : Canon two64 := by decide +kernel
theorem minusTwo64_canon : Canon minusTwo64 := by decide +kernel
theorem minusTwo64m1_canon : Canon minusTwo64m1 := by decide +kernel
theorem minusTwo70_canon : Canon minusTwo70 := by decide +kernel
theorem three62_canon : Canon three62 := by decide +kernel
theorem two64_val : two64.val = 2 ^ 64 := by decide +kernel
theorem minusTwo64_val : minusTwo64.val = -2 ^ 64 := by decide +kernel
theorem minusTwo64m1_val : minusTwo64m1.val = -2 ^ 64 - 1 := by decide +kernel
theorem minusTwo70_val : minusTwo70.val = -2 ^ 70 := by decide +kernel
theorem three62_val : three62.val = 3 * 2 ^ 62 := by decide +kernel

/-! ### C79: representation -/

/-- There is one canonical object for each integer, up to what the padding holds. -/
theorem canon_unique {a b : Obj} (ha : Canon a) (hb : Canon b) (h : a.val = b.val) :
    (∃ i, a = .small i ∧ b = .small i) ∨
    (∃ l p q, a = .pos l p ∧ b = .pos l q) ∨ (∃ l p q, a = .neg l p ∧ b = .neg l q) := by
  have len : ∀ {m n x : Nat}, 2 * x < 256 ^ m → 256 ^ m ≤ 512 * x → 2 * x < 256 ^ n →
      256 ^ n ≤ 512 * x → m = n := by
    intro m n x h1 h2 h3 h4
    rcases Nat.lt_trichotomy m n with h | h | h
    · have : 256 ^ m * 256 ≤ 256 ^ n := by
        rw [← Nat.pow_succ]; exact Nat.pow_le_pow_right (by omega) h
      omega
    · exact h
    · have : 256 ^ n * 256 ≤ 256 ^ m := by
        rw [← Nat.pow_succ]; exact Nat.pow_le_pow_right (by omega) h
      omega
  have len' : ∀ {m n x : Nat}, 2 * x ≤ 256 ^ m → 256 ^ m < 512 * x → 2 * x ≤ 256 ^ n →
      256 ^ n < 512 * x → m = n := by
    intro m n x h1 h2 h3 h4
    rcases Nat.lt_trichotomy m n with h | h | h
    · have : 256 ^ m * 256 ≤ 256 ^ n := by
        rw [← Nat.pow_succ]; exact Nat.pow_le_pow_right (by omega) h
      omega
    · exact h
    · have : 256 ^ n * 256 ≤ 256 ^ m := by
        rw [← Nat.pow_succ]; exact Nat.pow_le_pow_right (by omega) h
      omega
  cases a with
  | zero => exact ha.elim
  | other => exact ha.elim
  | small i =>
    obtain ⟨a1, a2⟩ := ha
    cases b with
    | zero => exact hb.elim
    | other => exact hb.elim
    | small j =>
      simp only [Obj.val] at h
      exact Or.inl ⟨i, rfl, by rw [h]⟩
    | pos l p =>
      obtain ⟨-, b1, -, -⟩ := hb
      simp only [Obj.val] at h
      omega
    | neg l p =>
      obtain ⟨-, b1, -, -⟩ := hb
      simp only [Obj.val] at h
      zify at b1
      omega
  | pos l p =>
    obtain ⟨ap, a1, a2, a3⟩ := ha
    cases b with
    | zero => exact hb.elim
    | other => exact hb.elim
    | small j =>
      obtain ⟨b1, b2⟩ := hb
      simp only [Obj.val] at h
      omega
    | pos l' p' =>
      obtain ⟨bp, b1, b2, b3⟩ := hb
      simp only [Obj.val] at h
      have hv : bval l = bval l' := by omega
      rw [← hv] at b2 b3
      have := bval_inj ap.1 bp.1 (len a2 a3 b2 b3) hv
      exact Or.inr (Or.inl ⟨l, p, p', rfl, by rw [this]⟩)
    | neg l' p' =>
      obtain ⟨-, b1, -, -⟩ := hb
      simp only [Obj.val] at h
      zify at b1
      omega
  | neg l p =>
    obtain ⟨ap, a1, a2, a3⟩ := ha
    cases b with
    | zero => exact hb.elim
    | other => exact hb.elim
    | small j =>
      obtain ⟨b1, b2⟩ := hb
      simp only [Obj.val] at h
      zify at a1
      omega
    | pos l' p' =>
      simp only [Obj.val] at h
      zify at a1
      omega
    | neg l' p' =>
      obtain ⟨bp, b1, b2, b3⟩ := hb
      simp only [Obj.val] at h
      have hz : (256 : Int) ^ l.length - bval l = 256 ^ l'.length - bval l' := by omega
      have hn : 256 ^ l.length - bval l = 256 ^ l'.length - bval l' := by
        zify [show bval l ≤ 256 ^ l.length by omega, show bval l' ≤ 256 ^ l'.length by omega]
        exact hz
      have hl : l.length = l'.length :=
        len' (x := 256 ^ l.length - bval l) (by omega) (by omega) (by omega) (by omega)
      rw [hl] at hn a1
      have := bval_inj ap.1 bp.1 hl (by omega)
      exact Or.inr (Or.inr ⟨l, p, p', rfl, by rw [this]⟩)

/-- Whatever an operand's object is, what `answer` makes of the number read from it is the
canonical object with the same value. -/
theorem reload {o : Obj} (h : Operand o) :
    ∃ r, load o answer = .ok r ∧ Canon r ∧ r.val = o.val := by
  obtain ⟨z, h1, h2, h3⟩ := fromOop_ok h
  obtain ⟨r, r1, r2, r3⟩ := toOop_ok h2.wf
  have hne : o ≠ .other := by
    rintro rfl
    rcases h with h | h
    · exact h
    · cases h
  refine ⟨r, ?_, r2, by rw [r3, h3]⟩
  rw [load, if_neg hne, h1]
  simp only [answer, r1]

example : Operand two64 ∧ Operand minusTwo64 ∧ Operand .zero ∧ Operand (.small (-5)) :=
  ⟨Or.inl two64_canon, Or.inl minusTwo64_canon, Or.inr rfl, Or.inl (by decide)⟩

/-- Every canonical value has an object: the representation covers all integers. -/
theorem canon_exists (i : Int) : ∃ o, Canon o ∧ o.val = i := by
  by_cases hs : -2 ^ 62 ≤ i ∧ i < 2 ^ 62
  · exact ⟨.small i, hs, rfl⟩
  · have hlt : i.natAbs < B ^ i.natAbs :=
      Nat.lt_pow_self (by rw [B_eq]; norm_num)
    have w := mk_ok (s := signed (decide (i < 0)) i.natAbs) (d := limbs i.natAbs i.natAbs)
      (c := i.natAbs) (by rw [limbs_length, signed_natAbs]) (by rw [limbs_length]) (limbs_lt _ _)
    obtain ⟨o, -, h2, h3⟩ := toOop_ok w.1
    refine ⟨o, h2, ?_⟩
    rw [h3, w.2, val_limbs_of_lt hlt, signed_val (by omega)]
    split
    · rename_i h; simp at h; omega
    · rename_i h; simp at h; omega

/-! ### Loading operands -/

theorem load_eq {α : Type} {o : Obj} (h : Operand o) (k : Z → Res α) :
    ∃ z, z.Ok ∧ z.val = o.val ∧ load o k = k z := by
  obtain ⟨z, h1, h2, h3⟩ := fromOop_ok h
  have hne : o ≠ .other := by
    rintro rfl
    rcases h with h | h
    · exact h
    · cases h
  refine ⟨z, h2, h3, ?_⟩
  rw [load, if_neg hne, h1]

theorem load2 {α : Type} {a b : Obj} (ha : Operand a) (hb : Operand b) (k : Z → Z → Res α) :
    ∃ x y, x.Ok ∧ y.Ok ∧ x.val = a.val ∧ y.val = b.val ∧
      (load a fun x => load b fun y => k x y) = k x y := by
  obtain ⟨x, x1, x2, x3⟩ := load_eq ha (fun x => load b fun y => k x y)
  obtain ⟨y, y1, y2, y3⟩ := load_eq hb (k x)
  exact ⟨x, y, x1, y1, x2, y2, by rw [x3, y3]⟩

theorem answer_ok {z : Z} {v : Int} (h : z.WF) (hv : z.val = v) :
    ∃ r, answer z = .ok r ∧ Canon r ∧ r.val = v := by
  obtain ⟨r, r1, r2, r3⟩ := toOop_ok h
  exact ⟨r, by rw [answer, r1], r2, by rw [r3, hv]⟩

/-! ### C80: comparisons -/

theorem comparisons {a b : Obj} (ha : Operand a) (hb : Operand b) :
    primEq a b = .ok (decide (a.val = b.val)) ∧ primNe a b = .ok (decide (a.val ≠ b.val)) ∧
    primLt a b = .ok (decide (a.val < b.val)) ∧ primGt a b = .ok (decide (a.val > b.val)) ∧
    primLe a b = .ok (decide (a.val ≤ b.val)) ∧ primGe a b = .ok (decide (a.val ≥ b.val)) := by
  have key : ∀ test : Int → Bool, ∃ c : Int, (c < 0 ↔ a.val < b.val) ∧ (c = 0 ↔ a.val = b.val) ∧
      primCmp test a b = .ok (test c) := by
    intro test
    obtain ⟨x, y, x1, y1, x2, y2, h⟩ := load2 ha hb (fun x y => Res.ok (test (cmp x y)))
    have := cmp_ok x1 y1
    rw [x2, y2] at this
    exact ⟨cmp x y, this.1, this.2, h⟩
  refine ⟨?_, ?_, ?_, ?_, ?_, ?_⟩ <;>
  · first
      | unfold primEq
      | unfold primNe
      | unfold primLt
      | unfold primGt
      | unfold primLe
      | unfold primGe
    obtain ⟨c, h1, h2, h3⟩ := key _
    rw [h3]
    congr 1
    rw [decide_eq_decide]
    omega

example : primLt minusTwo64 two64 = .ok true := by
  rw [(comparisons (Or.inl minusTwo64_canon) (Or.inl two64_canon)).2.2.1, minusTwo64_val,
    two64_val]
  decide

/-! ### C81: sums, differences, products, negation -/

theorem plus_ok {a b : Obj} (ha : Operand a) (hb : Operand b) :
    ∃ r, primPlus a b = .ok r ∧ Canon r ∧ r.val = a.val + b.val := by
  obtain ⟨x, y, x1, y1, x2, y2, h⟩ := load2 ha hb (fun x y => answer (add x y))
  unfold primPlus
  rw [h]
  exact answer_ok (add_ok x1 y1).1 (by rw [(add_ok x1 y1).2, x2, y2])

theorem minus_ok {a b : Obj} (ha : Operand a) (hb : Operand b) :
    ∃ r, primMinus a b = .ok r ∧ Canon r ∧ r.val = a.val - b.val := by
  obtain ⟨x, y, x1, y1, x2, y2, h⟩ := load2 ha hb (fun x y => answer (sub x y))
  unfold primMinus
  rw [h]
  exact answer_ok (sub_ok x1 y1).1 (by rw [(sub_ok x1 y1).2, x2, y2])

theorem times_ok {a b : Obj} (ha : Operand a) (hb : Operand b) :
    ∃ r, primTimes a b = .ok r ∧ Canon r ∧ r.val = a.val * b.val := by
  obtain ⟨x, y, x1, y1, x2, y2, h⟩ := load2 ha hb (fun x y => answer (mul x y))
  unfold primTimes
  rw [h]
  exact answer_ok (mul_ok x1.wf y1.wf).1 (by rw [(mul_ok x1.wf y1.wf).2, x2, y2])

theorem negated_ok {a : Obj} (ha : Operand a) :
    ∃ r, primNegated a = .ok r ∧ Canon r ∧ r.val = -a.val := by
  obtain ⟨x, x1, x2, h⟩ := load_eq ha (fun y => answer (sub ⟨0, [], 0⟩ y))
  unfold primNegated
  rw [h]
  exact answer_ok (init_sub_ok x1).1 (by
    have := (init_sub_ok x1).2
    rw [Z.init] at this
    rw [this, x2])

theorem bitInvert_ok {a : Obj} (ha : Operand a) :
    ∃ r, primBitInvert a = .ok r ∧ Canon r ∧ r.val = -a.val - 1 := by
  obtain ⟨x, x1, x2, h⟩ := load_eq ha (fun x => answer (com x))
  unfold primBitInvert
  rw [h]
  exact answer_ok (com_ok x1).1 (by rw [(com_ok x1).2, x2])

/-- Sums that leave the large integers answer SmallIntegers. -/
example : ∃ r, primPlus minusTwo64m1 two64 = .ok r ∧ r = .small (-1) := by
  obtain ⟨r, h1, h2, h3⟩ := plus_ok (Or.inl minusTwo64m1_canon) (Or.inl two64_canon)
  refine ⟨r, h1, ?_⟩
  rw [minusTwo64m1_val, two64_val] at h3
  have hs : Canon (.small (-1)) := by decide
  rcases canon_unique h2 hs (by rw [h3]; rfl) with ⟨i, rfl, h⟩ | ⟨l, p, q, -, h⟩ | ⟨l, p, q, -, h⟩
  · rw [h]
  · cases h
  · cases h

/-- Arguments that are not integers make the primitives fail. -/
theorem not_integer {a : Obj} (ha : Operand a) :
    primPlus a .other = .fail ∧ primMinus a .other = .fail ∧ primTimes a .other = .fail ∧
    primBitAnd a .other = .fail ∧ primBitOr a .other = .fail ∧ primBitXor a .other = .fail ∧
    primBitShift a .other = .fail ∧ primIntDiv a .other = .fail ∧ primModulo a .other = .fail ∧
    primQuo a .other = .fail ∧ primRem a .other = .fail ∧ primGcd a .other = .fail ∧
    primEq a .other = .fail ∧ primLt a .other = .fail := by
  have hk : ∀ {α : Type} (k : Z → Z → Res α),
      (load a fun x => load .other fun y => k x y) = .fail := by
    intro α k
    obtain ⟨x, -, -, h⟩ := load_eq ha (fun x => load .other fun y => k x y)
    rw [h]; rfl
  have hd : ∀ s l, divide a .other s l = .fail := by
    intro s l
    unfold divide
    obtain ⟨x, -, -, h⟩ := load_eq ha (fun _ => (Res.fail : Res Obj))
    exact h
  refine ⟨hk _, hk _, hk _, hk _, hk _, hk _, rfl, hd _ _, hd _ _, hd _ _, hd _ _, hk _, hk _,
    hk _⟩

/-! ### C82: bits -/

theorem bitAnd_ok {a b : Obj} (ha : Operand a) (hb : Operand b) :
    ∃ r, primBitAnd a b = .ok r ∧ Canon r ∧ ∀ i, Bit r.val i = (Bit a.val i && Bit b.val i) := by
  obtain ⟨x, y, x1, y1, x2, y2, h⟩ := load2 ha hb (fun x y => answer (land x y))
  unfold primBitAnd
  rw [h]
  obtain ⟨r, r1, r2, r3⟩ := answer_ok (land_ok x1 y1).1 rfl
  exact ⟨r, r1, r2, fun i => by rw [r3, (land_ok x1 y1).2, x2, y2]⟩

theorem bitOr_ok {a b : Obj} (ha : Operand a) (hb : Operand b) :
    ∃ r, primBitOr a b = .ok r ∧ Canon r ∧ ∀ i, Bit r.val i = (Bit a.val i || Bit b.val i) := by
  obtain ⟨x, y, x1, y1, x2, y2, h⟩ := load2 ha hb (fun x y => answer (ior x y))
  unfold primBitOr
  rw [h]
  obtain ⟨r, r1, r2, r3⟩ := answer_ok (ior_ok x1 y1).1 rfl
  exact ⟨r, r1, r2, fun i => by rw [r3, (ior_ok x1 y1).2, x2, y2]⟩

theorem bitXor_ok {a b : Obj} (ha : Operand a) (hb : Operand b) :
    ∃ r, primBitXor a b = .ok r ∧ Canon r ∧ ∀ i, Bit r.val i = (Bit a.val i ^^ Bit b.val i) := by
  obtain ⟨x, y, x1, y1, x2, y2, h⟩ := load2 ha hb (fun x y => answer (xor x y))
  unfold primBitXor
  rw [h]
  obtain ⟨r, r1, r2, r3⟩ := answer_ok (xor_ok x1 y1).1 rfl
  exact ⟨r, r1, r2, fun i => by rw [r3, (xor_ok x1 y1).2, x2, y2]⟩

/-- `bitInvert` inverts every bit. -/
theorem bitInvert_bits {a : Obj} (ha : Operand a) :
    ∃ r, primBitInvert a = .ok r ∧ Canon r ∧ ∀ i, Bit r.val i = !Bit a.val i := by
  obtain ⟨r, r1, r2, r3⟩ := bitInvert_ok ha
  refine ⟨r, r1, r2, fun i => ?_⟩
  rw [r3]
  by_cases h : 0 ≤ a.val
  · obtain ⟨n, hn⟩ := Int.eq_ofNat_of_zero_le h
    rw [hn, bit_neg, bit_nat]
  · obtain ⟨n, hn⟩ := Int.eq_ofNat_of_zero_le (show 0 ≤ -a.val - 1 by omega)
    rw [hn, bit_nat, show a.val = -(n : Int) - 1 by omega, bit_neg, Bool.not_not]

example : ∃ r, primBitAnd minusTwo64 two64 = .ok r ∧ r.val = 2 ^ 64 := by
  obtain ⟨r, h1, -, h3⟩ := bitAnd_ok (Or.inl minusTwo64_canon) (Or.inl two64_canon)
  refine ⟨r, h1, eq_of_bits fun i => ?_⟩
  rw [h3, minusTwo64_val, two64_val]
  have e1 : (-2 ^ 64 : Int) = -((2 ^ 64 - 1 : Nat) : Int) - 1 := by norm_num
  have e2 : (2 ^ 64 : Int) = ((2 ^ 64 : Nat) : Int) := by norm_num
  rw [e1, e2, bit_neg, bit_nat, Nat.testBit_two_pow_sub_one, Nat.testBit_two_pow]
  by_cases h : 64 = i
  · subst h; decide
  · simp [h]

/-! ### C83: shifts -/

theorem toInt32_eq {i : Int} (h : -2 ^ 31 ≤ i ∧ i < 2 ^ 31) : toInt32 i = i := by
  unfold toInt32
  split <;> omega

/-- Shifts by fewer than 2^31 places: to the left multiplies, to the right divides and
truncates. -/
theorem bitShift_value {a : Obj} {i : Int} (ha : Operand a) (hi : -2 ^ 31 < i ∧ i < 2 ^ 31) :
    ∃ r, primBitShift a (.small i) = .ok r ∧ Canon r ∧
      r.val = if 0 < i then a.val * 2 ^ i.toNat else Int.tdiv a.val (2 ^ (-i).toNat) := by
  unfold primBitShift
  simp only
  rw [toInt32_eq (by omega)]
  by_cases h : 0 < i
  · obtain ⟨x, x1, x2, hx⟩ := load_eq ha (shiftBy i)
    rw [hx, shiftBy, if_pos h, if_pos h]
    obtain ⟨w, w1, w2, w3⟩ := mul2exp_ok x1.wf i.toNat
    rw [w1]
    exact answer_ok w2 (by rw [w3, x2])
  · obtain ⟨x, x1, x2, hx⟩ := load_eq ha (shiftBy i)
    rw [hx, shiftBy, if_neg h, if_neg (by omega), if_neg h]
    obtain ⟨w, w1, w2, w3⟩ := div2exp_ok x1.wf (-i).toNat
    rw [w1]
    refine answer_ok w2 ?_
    have hT := (tdiv_signs (decide (x.size < 0)) false (val x.lim) (2 ^ (-i).toNat)).1
    rw [← Z.val_decide] at hT
    simp only [Bool.false_eq_true, if_false] at hT
    rw [w3, ← x2]
    push_cast at hT
    rw [hT]
    by_cases hs : x.size < 0 <;> simp [hs]

/-- Shifting is multiplication by a power of two, rounded down, for receivers that are not
negative, for exact divisions and for shifts to the left.  Missing: negative receivers that
lose bits, see `bitShift_refuted`, and counts that do not fit an `int`, see
`bitShift_count_refuted`. -/
theorem bitShift_partial {a : Obj} {i : Int} (ha : Operand a) (hi : -2 ^ 31 < i ∧ i < 2 ^ 31)
    (h : 0 ≤ i ∨ 0 ≤ a.val ∨ (2 : Int) ^ (-i).toNat ∣ a.val) :
    ∃ r, primBitShift a (.small i) = .ok r ∧ Canon r ∧
      r.val = if 0 < i then a.val * 2 ^ i.toNat else a.val / 2 ^ (-i).toNat := by
  obtain ⟨r, r1, r2, r3⟩ := bitShift_value ha hi
  refine ⟨r, r1, r2, ?_⟩
  rw [r3]
  by_cases h0 : 0 < i
  · rw [if_pos h0, if_pos h0]
  · rw [if_neg h0, if_neg h0]
    by_cases h1 : i = 0
    · subst h1; simp
    · rcases h with h | h | h
      · omega
      · rw [Int.tdiv_eq_ediv_of_nonneg h]
      · exact Int.tdiv_eq_ediv_of_dvd h

/-- The full claim. -/
def ShiftFloors : Prop := ∀ (a : Obj) (i : Int), Operand a → Canon (.small i) → i ≤ 0 →
  ∃ r, primBitShift a (.small i) = .ok r ∧ r.val = a.val / 2 ^ (-i).toNat

/-- A negative number shifted to the right is rounded towards zero:
`(-2^64 - 1) bitShift: -1` is -2^63, not -2^63 - 1. -/
theorem bitShift_refuted : ¬ ShiftFloors := by
  intro h
  obtain ⟨r, h1, h2⟩ := h minusTwo64m1 (-1) (Or.inl minusTwo64m1_canon) (by decide) (by omega)
  obtain ⟨r', h3, -, h4⟩ := bitShift_value (Or.inl minusTwo64m1_canon) (i := -1) (by omega)
  rw [h1] at h3
  cases h3
  rw [h2, minusTwo64m1_val] at h4
  revert h4
  decide

/-- Only the low 32 bits of the count matter: a shift by -2^32 places changes nothing. -/
theorem bitShift_count_refuted {a : Obj} (ha : Operand a) :
    ∃ r, primBitShift a (.small (-2 ^ 32)) = .ok r ∧ r.val = a.val := by
  obtain ⟨r, h1, -, h3⟩ := bitShift_value ha (i := 0) (by omega)
  have : primBitShift a (.small (-2 ^ 32)) = primBitShift a (.small 0) := rfl
  rw [this]
  refine ⟨r, h1, ?_⟩
  rw [h3]; simp

example : two64.val / 2 ^ (2 ^ 32) = 0 := by
  rw [two64_val]
  apply Int.ediv_eq_zero_of_lt (by norm_num)
  exact_mod_cast Nat.pow_lt_pow_right (a := 2) (by omega) (show 64 < 2 ^ 32 by norm_num)

/-! ### C84: truncated division -/

theorem fromInt_ok {r : Int} (h : -2 ^ 62 ≤ r ∧ r < 2 ^ 62) : fromInt (toLimb r) = .small r := by
  unfold fromInt toLimb
  rw [B_eq]
  congr 1
  have hr : r % ((2 ^ 64 : Nat) : Int) = if 0 ≤ r then r else r + 2 ^ 64 := by
    push_cast
    split <;> omega
  rw [hr]
  simp only [Nat.reducePow] at *
  split
  · rename_i h1
    rw [Nat.mod_eq_of_lt (by omega)] 
    split <;> omega
  · rename_i h1
    have : (r + 2 ^ 64).toNat % 9223372036854775808 = (r + 2 ^ 63).toNat := by omega
    rw [this]
    split <;> omega

theorem small_of_canon {b : Obj} (hb : Canon b) (h : -2 ^ 62 ≤ b.val ∧ b.val < 2 ^ 62) :
    b = .small b.val := by
  cases b with
  | zero => exact hb.elim
  | other => exact hb.elim
  | small i => rfl
  | pos l p =>
    obtain ⟨-, b1, -, -⟩ := hb
    simp only [Obj.val] at h
    omega
  | neg l p =>
    obtain ⟨-, b1, -, -⟩ := hb
    simp only [Obj.val] at h
    zify at b1
    omega

theorem divide_small {a : Obj} {i : Int} (ha : Operand a) (h0 : i ≠ 0) (s : Z → Int → Res Obj)
    (l : Z → Z → Res Obj) :
    ∃ x, x.Ok ∧ x.val = a.val ∧ divide a (.small i) s l = s x i := by
  unfold divide
  obtain ⟨x, x1, x2, h⟩ := load_eq ha (fun x => if i ≠ 0 then s x i else .fail)
  refine ⟨x, x1, x2, ?_⟩
  simp only
  rw [h, if_pos h0]

theorem divide_large {a b : Obj} (ha : Operand a) (hb : Canon b) (h : ∀ i, b ≠ .small i)
    (s : Z → Int → Res Obj) (l : Z → Z → Res Obj) :
    ∃ x y, x.Ok ∧ y.Ok ∧ x.val = a.val ∧ y.val = b.val ∧ divide a b s l = l x y := by
  have he : divide a b s l = load a fun x => load b fun y => l x y := by
    unfold divide
    cases b with
    | zero => exact hb.elim
    | other => exact hb.elim
    | small i => exact absurd rfl (h i)
    | pos _ _ => rfl
    | neg _ _ => rfl
  rw [he]
  obtain ⟨x, y, x1, y1, x2, y2, hh⟩ := load2 ha (Or.inl hb) l
  exact ⟨x, y, x1, y1, x2, y2, hh⟩

/-- The same number is loaded whichever primitive loads it. -/
theorem quo_rem_ok {a b : Obj} (ha : Operand a) (hb : Canon b) (h0 : b.val ≠ 0) :
    ∃ q r, primQuo a b = .ok q ∧ primRem a b = .ok r ∧ Canon q ∧ Canon r ∧
      q.val = Int.tdiv a.val b.val ∧ r.val = Int.tmod a.val b.val := by
  by_cases hsm : ∃ i, b = .small i
  · obtain ⟨i, rfl⟩ := hsm
    rw [show (Obj.small i).val = i from rfl] at h0 ⊢
    obtain ⟨c1, c2⟩ := hb
    obtain ⟨x, x1, x2, hx⟩ := divide_small ha h0
      (fun x i => orUndef (tdivQrSi x i) fun r => answer r.1)
      (fun x y => orUndef (tdivQr x y) fun r => answer r.1)
    obtain ⟨x', y1, y2, hy⟩ := divide_small ha h0
      (fun x i => orUndef (tdivQrSi x i) fun r => .ok (fromInt r.2))
      (fun x y => orUndef (tdivQr x y) fun r => answer r.2)
    have hB : i.natAbs ≤ B := by rw [B_eq]; omega
    obtain ⟨q, m, e1, e2, e3, -, -, -⟩ := tdivQrSi_ok x1 h0 hB
    obtain ⟨q', m', f1, -, -, f4, -, -⟩ := tdivQrSi_ok y1 h0 hB
    unfold primQuo primRem
    rw [hx, hy, e1, f1]
    simp only [orUndef]
    obtain ⟨o, o1, o2, o3⟩ := answer_ok e2 e3
    obtain ⟨-, -, -, t4⟩ := tdiv_tmod_bounds (a := a.val) h0
    rw [y2] at f4
    have hb : -2 ^ 62 ≤ Int.tmod a.val i ∧ Int.tmod a.val i < 2 ^ 62 := by omega
    refine ⟨o, .small (Int.tmod a.val i), o1, ?_, o2, hb, by rw [o3, x2], rfl⟩
    rw [f4, fromInt_ok hb]
  · have hns : ∀ i, b ≠ .small i := fun i h => hsm ⟨i, h⟩
    obtain ⟨x, y, x1, y1, x2, y2, hx⟩ := divide_large ha hb hns
      (fun x i => orUndef (tdivQrSi x i) fun r => answer r.1)
      (fun x y => orUndef (tdivQr x y) fun r => answer r.1)
    obtain ⟨x', y', x1', y1', x2', y2', hy⟩ := divide_large ha hb hns
      (fun x i => orUndef (tdivQrSi x i) fun r => .ok (fromInt r.2))
      (fun x y => orUndef (tdivQr x y) fun r => answer r.2)
    obtain ⟨q, r, e1, e2, e3, e4, e5, -⟩ := tdivQr_ok x1 y1 (by rw [y2]; exact h0)
    obtain ⟨q', r', f1, f2, f3, f4, f5, -⟩ := tdivQr_ok x1' y1' (by rw [y2']; exact h0)
    unfold primQuo primRem
    rw [hx, hy, e1, f1]
    simp only [orUndef]
    obtain ⟨o, o1, o2, o3⟩ := answer_ok e2 e4
    obtain ⟨o', p1, p2, p3⟩ := answer_ok f3 f5
    exact ⟨o, o', o1, p1, o2, p2, by rw [o3, x2, y2], by rw [p3, x2', y2']⟩

/-- Division by zero fails, whatever the zero is. -/
theorem zero_divide {a b : Obj} (ha : Operand a) (hb : b = .small 0 ∨ b = .zero) :
    primQuo a b = .fail ∧ primRem a b = .fail ∧ primIntDiv a b = .fail ∧
    primModulo a b = .fail ∧ primDivExact a b = .fail := by
  have hd : ∀ s l, divide a b s l = .fail := by
    intro s l
    obtain ⟨x, -, -, h⟩ := load_eq ha (fun _ => (Res.fail : Res Obj))
    rw [← h]
    rcases hb with rfl | rfl
    · rfl
    · rfl
  exact ⟨hd _ _, hd _ _, hd _ _, hd _ _, hd _ _⟩

example : ∃ q r, primQuo minusTwo64m1 two64 = .ok q ∧ primRem minusTwo64m1 two64 = .ok r ∧
    q.val = -1 ∧ r.val = -1 := by
  obtain ⟨q, r, h1, h2, -, -, h5, h6⟩ := quo_rem_ok (Or.inl minusTwo64m1_canon) two64_canon
    (by rw [two64_val]; norm_num)
  refine ⟨q, r, h1, h2, ?_, ?_⟩
  · rw [h5, minusTwo64m1_val, two64_val]; decide
  · rw [h6, minusTwo64m1_val, two64_val]; decide

/-! ### C85: division rounding down -/

theorem size_neg_iff {z : Z} (h : z.Ok) : z.size < 0 ↔ z.val < 0 := by
  rcases h.bounds with ⟨h1, h2, -⟩ | ⟨h1, h2, -⟩ <;> omega

/-- What `//` and `\\` answer for a large divisor. -/
theorem floor_large {a b : Obj} (ha : Operand a) (hb : Canon b) (h : ∀ i, b ≠ .small i)
    (h0 : b.val ≠ 0) :
    ∃ q r, primIntDiv a b = .ok q ∧ primModulo a b = .ok r ∧ Canon q ∧ Canon r ∧
      (((a.val < 0 ↔ b.val < 0) ∨ ¬ b.val ∣ a.val) →
        q.val = Int.fdiv a.val b.val ∧ r.val = Int.fmod a.val b.val) ∧
      (¬ (a.val < 0 ↔ b.val < 0) ∧ b.val ∣ a.val →
        q.val = Int.fdiv a.val b.val - 1 ∧ r.val = b.val) := by
  obtain ⟨x, y, x1, y1, x2, y2, hx⟩ := divide_large ha hb h
    (fun x i => orUndef (fdivQrSi x i) fun r => answer r.1)
    (fun x y => orUndef (fdivQr x y) fun r => answer r.1)
  obtain ⟨x', y', x1', y1', x2', y2', hy⟩ := divide_large ha hb h
    (fun x i => orUndef (fdivQrSi x i) fun r => .ok (fromInt r.2))
    (fun x y => orUndef (fdivQr x y) fun r => answer r.2)
  obtain ⟨q, r, e1, e2, e3, e4, e5⟩ := fdivQr_ok x1 y1 (by rw [y2]; exact h0)
  obtain ⟨q', r', f1, f2, f3, f4, f5⟩ := fdivQr_ok x1' y1' (by rw [y2']; exact h0)
  rw [x2, y2] at e4 e5
  rw [x2', y2'] at f4 f5
  unfold primIntDiv primModulo
  rw [hx, hy, e1, f1]
  simp only [orUndef]
  obtain ⟨o, o1, o2, o3⟩ := answer_ok e2 rfl
  obtain ⟨o', p1, p2, p3⟩ := answer_ok f3 rfl
  have hs : ∀ {u v : Z}, u.Ok → v.Ok → u.val = a.val → v.val = b.val →
      ((decide (u.size < 0) = decide (v.size < 0)) ↔ (a.val < 0 ↔ b.val < 0)) := by
    intro u v hu hv e1 e2
    rw [decide_eq_decide, size_neg_iff hu, size_neg_iff hv, e1, e2]
  have hdvd : b.val ∣ a.val ↔ Int.tmod a.val b.val = 0 := Int.dvd_iff_tmod_eq_zero
  refine ⟨o, o', o1, p1, o2, p2, ?_, ?_⟩
  · intro hh
    have h1 : decide (x.size < 0) = decide (y.size < 0) ∨ Int.tmod a.val b.val ≠ 0 := by
      rw [hs x1 y1 x2 y2, ne_eq, ← not_congr hdvd]
      exact hh
    have h2 : decide (x'.size < 0) = decide (y'.size < 0) ∨ Int.tmod a.val b.val ≠ 0 := by
      rw [hs x1' y1' x2' y2', ne_eq, ← not_congr hdvd]
      exact hh
    rw [o3, p3]
    exact ⟨(e4 h1).1, (f4 h2).2⟩
  · intro hh
    have h1 : decide (x.size < 0) ≠ decide (y.size < 0) ∧ Int.tmod a.val b.val = 0 := by
      rw [ne_eq, hs x1 y1 x2 y2, ← hdvd]
      exact hh
    have h2 : decide (x'.size < 0) ≠ decide (y'.size < 0) ∧ Int.tmod a.val b.val = 0 := by
      rw [ne_eq, hs x1' y1' x2' y2', ← hdvd]
      exact hh
    rw [o3, p3]
    exact ⟨(e5 h1).1, (f5 h2).2⟩

/-- `//` and `\\` round down for SmallInteger divisors, for operands of the same sign and
for divisions that leave a remainder.  Missing: exact divisions by a large integer of the
other sign, see `floor_refuted`. -/
theorem floor_partial {a b : Obj} (ha : Operand a) (hb : Canon b) (h0 : b.val ≠ 0)
    (h : (-2 ^ 62 ≤ b.val ∧ b.val < 2 ^ 62) ∨ (a.val < 0 ↔ b.val < 0) ∨ ¬ b.val ∣ a.val) :
    ∃ q r, primIntDiv a b = .ok q ∧ primModulo a b = .ok r ∧ Canon q ∧ Canon r ∧
      q.val = Int.fdiv a.val b.val ∧ r.val = Int.fmod a.val b.val := by
  by_cases hsm : ∃ i, b = .small i
  · obtain ⟨i, rfl⟩ := hsm
    rw [show (Obj.small i).val = i from rfl] at h0 ⊢
    obtain ⟨c1, c2⟩ := hb
    obtain ⟨x, x1, x2, hx⟩ := divide_small ha h0
      (fun x i => orUndef (fdivQrSi x i) fun r => answer r.1)
      (fun x y => orUndef (fdivQr x y) fun r => answer r.1)
    obtain ⟨x', y1, y2, hy⟩ := divide_small ha h0
      (fun x i => orUndef (fdivQrSi x i) fun r => .ok (fromInt r.2))
      (fun x y => orUndef (fdivQr x y) fun r => answer r.2)
    have hB : i.natAbs ≤ B := by rw [B_eq]; omega
    obtain ⟨q, m, e1, e2, e3, -⟩ := fdivQrSi_ok x1 h0 hB
    obtain ⟨q', m', f1, -, -, f4⟩ := fdivQrSi_ok y1 h0 hB
    unfold primIntDiv primModulo
    rw [hx, hy, e1, f1]
    simp only [orUndef]
    obtain ⟨o, o1, o2, o3⟩ := answer_ok e2 e3
    rw [y2] at f4
    have hb : -2 ^ 62 ≤ Int.fmod a.val i ∧ Int.fmod a.val i < 2 ^ 62 := by
      rcases Int.lt_or_gt_of_ne h0 with hn | hp
      · have h1 := Int.fmod_nonneg_of_pos (-a.val) (b := -i) (by omega)
        have h2 := Int.fmod_lt_of_pos (-a.val) (b := -i) (by omega)
        rw [Int.neg_fmod_neg] at h1 h2
        omega
      · have h1 := Int.fmod_nonneg_of_pos a.val hp
        have h2 := Int.fmod_lt_of_pos a.val hp
        omega
    refine ⟨o, .small (Int.fmod a.val i), o1, ?_, o2, hb, by rw [o3, x2], rfl⟩
    rw [f4, fromInt_ok hb]
  · have hns : ∀ i, b ≠ .small i := fun i h => hsm ⟨i, h⟩
    obtain ⟨q, r, h1, h2, h3, h4, h5, -⟩ := floor_large ha hb hns h0
    have hh : (a.val < 0 ↔ b.val < 0) ∨ ¬ b.val ∣ a.val := by
      rcases h with h | h
      · exact absurd (small_of_canon hb h) (hns _)
      · exact h
    exact ⟨q, r, h1, h2, h3, h4, (h5 hh).1, (h5 hh).2⟩

/-- The full claim. -/
def Floors : Prop := ∀ a b : Obj, Operand a → Canon b → b.val ≠ 0 →
  ∃ q r, primIntDiv a b = .ok q ∧ primModulo a b = .ok r ∧
    q.val = Int.fdiv a.val b.val ∧ r.val = Int.fmod a.val b.val

/-- `-2^70 // 2^64` answers -65 instead of -64, and `-2^70 \\ 2^64` answers 2^64 instead
of 0. -/
theorem floor_refuted : ¬ Floors ∧
    ∃ q r, primIntDiv minusTwo70 two64 = .ok q ∧ primModulo minusTwo70 two64 = .ok r ∧
      q.val = -65 ∧ r.val = 2 ^ 64 := by
  have hw : ∃ q r, primIntDiv minusTwo70 two64 = .ok q ∧ primModulo minusTwo70 two64 = .ok r ∧
      q.val = -65 ∧ r.val = 2 ^ 64 := by
    obtain ⟨q, r, h1, h2, -, -, -, h6⟩ := floor_large (a := minusTwo70) (b := two64)
      (Or.inl minusTwo70_canon) two64_canon (fun i h => by cases h)
      (by rw [two64_val]; norm_num)
    have := h6 ⟨by rw [minusTwo70_val, two64_val]; norm_num, by
      rw [minusTwo70_val, two64_val]; exact ⟨-64, by norm_num⟩⟩
    refine ⟨q, r, h1, h2, ?_, ?_⟩
    · rw [this.1, minusTwo70_val, two64_val]; decide
    · rw [this.2, two64_val]
  refine ⟨fun h => ?_, hw⟩
  obtain ⟨q, r, h1, h2, h3, h4⟩ := hw
  obtain ⟨q', r', g1, g2, g3, g4⟩ := h minusTwo70 two64 (Or.inl minusTwo70_canon) two64_canon
    (by rw [two64_val]; norm_num)
  rw [h2] at g2
  cases g2
  rw [h4, minusTwo70_val, two64_val] at g4
  revert g4
  decide

example : (minusTwo70.val < 0 ↔ minusTwo64m1.val < 0) ∧ minusTwo64m1.val ≠ 0 := by
  rw [minusTwo70_val, minusTwo64m1_val]; decide

/-! ### C86: greatest common divisor and exact division -/

/-- The greatest common divisor of numbers that are not zero, and of zero with a number that
is not negative.  Missing: zero and a negative number, see `gcd_refuted`. -/
theorem gcd_partial {a b : Obj} (ha : Operand a) (hb : Operand b)
    (h : (a.val ≠ 0 ∧ b.val ≠ 0) ∨ (0 ≤ a.val ∧ 0 ≤ b.val)) :
    ∃ r, primGcd a b = .ok r ∧ Canon r ∧ r.val = (Int.gcd a.val b.val : Int) := by
  obtain ⟨x, y, x1, y1, x2, y2, hh⟩ := load2 ha hb (fun x y =>
    if a = .small 0 ∨ b = .small 0 ∨ a = .zero ∨ b = .zero then answer (add x y)
    else orUndef (gcd x y) fun g => answer g)
  unfold primGcd
  rw [hh]
  have hz : ∀ {o : Obj}, Operand o → (o.val = 0 ↔ (o = .small 0 ∨ o = .zero)) := by
    intro o ho
    constructor
    · intro h0
      rcases ho with ho | ho
      · left
        have := small_of_canon ho (by rw [h0]; norm_num)
        rw [this, h0]
      · exact Or.inr ho
    · intro h0
      rcases h0 with rfl | rfl <;> rfl
  by_cases hc : a = .small 0 ∨ b = .small 0 ∨ a = .zero ∨ b = .zero
  · rw [if_pos hc]
    refine answer_ok (add_ok x1 y1).1 ?_
    rw [(add_ok x1 y1).2, x2, y2]
    have h00 : a.val = 0 ∨ b.val = 0 := by
      rw [hz ha, hz hb]
      rcases hc with h | h | h | h
      · exact Or.inl (Or.inl h)
      · exact Or.inr (Or.inl h)
      · exact Or.inl (Or.inr h)
      · exact Or.inr (Or.inr h)
    have hnn : 0 ≤ a.val ∧ 0 ≤ b.val := by
      rcases h with h | h
      · rcases h00 with h' | h'
        · exact absurd h' h.1
        · exact absurd h' h.2
      · exact h
    rcases h00 with h' | h'
    · rw [h', Int.gcd_zero_left]; omega
    · rw [h', Int.gcd_zero_right]; omega
  · rw [if_neg hc]
    have ha0 : a.val ≠ 0 := by
      intro h0
      rw [hz ha] at h0
      rcases h0 with h0 | h0
      · exact hc (Or.inl h0)
      · exact hc (Or.inr (Or.inr (Or.inl h0)))
    have hb0 : b.val ≠ 0 := by
      intro h0
      rw [hz hb] at h0
      rcases h0 with h0 | h0
      · exact hc (Or.inr (Or.inl h0))
      · exact hc (Or.inr (Or.inr (Or.inr h0)))
    obtain ⟨g, g1, g2, g3⟩ := gcd_ok x1 y1 (by rw [x2]; exact ha0) (by rw [y2]; exact hb0)
    rw [g1]
    exact answer_ok g2 (by rw [g3, x2, y2])

/-- The greatest common divisor of zero and a negative number is negative. -/
theorem gcd_refuted {a : Obj} (ha : Canon a) (hneg : a.val < 0) :
    ∃ r, primGcd a (.small 0) = .ok r ∧ r.val = a.val ∧
      r.val ≠ (Int.gcd a.val 0 : Int) := by
  obtain ⟨x, y, x1, y1, x2, y2, hh⟩ := load2 (Or.inl ha) (b := .small 0)
    (Or.inl (by decide)) (fun x y =>
    if a = .small 0 ∨ Obj.small 0 = .small 0 ∨ a = .zero ∨ Obj.small 0 = .zero
    then answer (add x y) else orUndef (gcd x y) fun g => answer g)
  unfold primGcd
  rw [hh, if_pos (Or.inr (Or.inl rfl))]
  obtain ⟨r, r1, r2, r3⟩ := answer_ok (add_ok x1 y1).1 rfl
  rw [(add_ok x1 y1).2, x2, y2] at r3
  rw [show (Obj.small 0).val = 0 from rfl, Int.add_zero] at r3
  refine ⟨r, r1, r3, ?_⟩
  rw [r3]
  have := Int.natCast_nonneg (Int.gcd a.val 0)
  omega

example : Canon minusTwo64 ∧ minusTwo64.val < 0 :=
  ⟨minusTwo64_canon, by rw [minusTwo64_val]; norm_num⟩

/-- Exact division. -/
theorem divExact_ok {a b : Obj} (ha : Operand a) (hb : Canon b) (h0 : b.val ≠ 0) (k : Int)
    (hk : a.val = k * b.val) :
    ∃ q, primDivExact a b = .ok q ∧ Canon q ∧ q.val = k := by
  by_cases hsm : ∃ i, b = .small i
  · obtain ⟨i, rfl⟩ := hsm
    rw [show (Obj.small i).val = i from rfl] at h0 hk
    obtain ⟨c1, c2⟩ := hb
    obtain ⟨x, x1, x2, hx⟩ := divide_small ha h0
      (fun x i => orUndef (tdivQrSi x i) fun r => answer r.1)
      (fun x y => orUndef (divexact x y) fun q => answer q)
    have hB : i.natAbs ≤ B := by rw [B_eq]; omega
    obtain ⟨q, m, e1, e2, e3, -⟩ := tdivQrSi_ok x1 h0 hB
    unfold primDivExact
    rw [hx, e1]
    exact answer_ok e2 (by rw [e3, x2, hk, Int.mul_tdiv_cancel _ h0])
  · have hns : ∀ i, b ≠ .small i := fun i h => hsm ⟨i, h⟩
    obtain ⟨x, y, x1, y1, x2, y2, hx⟩ := divide_large ha hb hns
      (fun x i => orUndef (tdivQrSi x i) fun r => answer r.1)
      (fun x y => orUndef (divexact x y) fun q => answer q)
    obtain ⟨q, e1, e2, e3⟩ := divexact_ok x1 y1 (by rw [y2]; exact h0) k (by rw [x2, y2]; exact hk)
    unfold primDivExact
    rw [hx, e1]
    exact answer_ok e2 e3

example : minusTwo70.val = (-64) * two64.val ∧ two64.val ≠ 0 := by
  rw [minusTwo70_val, two64_val]; norm_num

end Verif.Mpz
