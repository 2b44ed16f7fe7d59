import Verif.CInt.Model

/-! # Property theorems C06: C integers survive the trip through Smalltalk -/

namespace Verif.CInt

/-! ## Specification: the integer an object stands for -/

/-- Little-endian value of a list of bytes. -/
def le : List Byte → Nat
  | [] => 0
  | b :: bs => b.toNat + 256 * le bs

/-- The integer an object stands for.  Large integers hold the two's complement
representation (kernel/LargeInt.st): a LargePositiveInteger stands for its bytes, a
LargeNegativeInteger for its bytes minus `256 ^ size`. -/
def value : Oop → Option Int
  | .small i => some i.toInt
  | .largePos b => some (le b)
  | .largeNeg b => some ((le b : Int) - 256 ^ b.length)
  | .other => none

theorem le_lt (b : List Byte) : le b < 256 ^ b.length := by
  induction b with
  | nil => simp [le]
  | cons x xs ih =>
    simp only [le, List.length_cons, Nat.pow_succ]
    have := x.isLt
    omega

/-! ## Forward conversions stand for the C value -/

theorem fromCInt32_value (i : BitVec 32) : value (fromCInt32 i) = some i.toInt := by
  have h1 := BitVec.le_toInt i
  have h2 := @BitVec.toInt_lt 32 i
  simp at h1 h2
  unfold fromCInt32 minStInt maxStInt
  rw [if_pos (by omega)]
  simp only [value, BitVec.toInt_signExtend]
  congr 1
  rw [Int.bmod_eq_of_le] <;> simp <;> omega

theorem fromCUInt32_value (i : BitVec 32) : value (fromCUInt32 i) = some (i.toNat : Int) := by
  have := i.isLt
  unfold fromCUInt32 maxStInt
  rw [if_pos (by omega)]
  simp only [value]
  congr 1
  rw [BitVec.toInt_eq_toNat_cond, show (i.zeroExtend 64).toNat = i.toNat % 2 ^ 64 from BitVec.toNat_setWidth ..]
  simp only [Nat.reducePow] at *
  rw [Nat.mod_eq_of_lt (by omega), if_pos (by omega)]

theorem le_bytes8 (ui : Word) : le (bytes8 ui) = ui.toNat := by
  have := ui.isLt
  simp only [bytes8, le, BitVec.truncate_eq_setWidth, BitVec.toNat_setWidth,
    BitVec.toNat_ushiftRight, Nat.shiftRight_eq_div_pow, Nat.reducePow] at *
  omega

theorem fromCInt64_value (i : Word) : value (fromCInt64 i) = some i.toInt := by
  unfold fromCInt64 minStInt maxStInt
  split
  · rfl
  · have h := BitVec.toInt_eq_toNat_cond i
    have := i.isLt
    split
    · simp only [value, le_bytes8]
      congr 1
      simp only [bytes8, List.length_cons, List.length_nil, Nat.reducePow] at *
      split at h <;> omega
    · simp only [value, le_bytes8]
      congr 1
      simp only [Nat.reducePow] at *
      split at h <;> omega

theorem le_append_zero (b : List Byte) : le (b ++ [0#8]) = le b := by
  induction b with
  | nil => rfl
  | cons x xs ih => simp only [List.cons_append, le, ih]

theorem fromCUInt64_value (i : Word) : value (fromCUInt64 i) = some (i.toNat : Int) := by
  unfold fromCUInt64 maxStInt
  split
  · simp only [value]
    congr 1
    rw [BitVec.toInt_eq_toNat_cond]
    simp only [Nat.reducePow]
    rw [if_pos (by omega)]
  · split
    · simp only [value, le_append_zero, le_bytes8]
    · simp only [value, le_bytes8]

/-! ## Backward conversions answer the value of any accepted object -/

theorem byteAt_ext (pad : Nat → Byte) (b : List Byte) (k : Nat) (h : k < b.length) :
    byteAt pad b k = b[k] := by unfold byteAt; rw [dif_pos h]

theorem lo4_toNat (pad : Nat → Byte) (b : List Byte) :
    (lo4 pad b).toNat = (byteAt pad b 0).toNat + 256 * (byteAt pad b 1).toNat
      + 65536 * (byteAt pad b 2).toNat + 16777216 * (byteAt pad b 3).toNat := by
  have h0 := (byteAt pad b 0).isLt
  have h1 := (byteAt pad b 1).isLt
  have h2 := (byteAt pad b 2).isLt
  have h3 := (byteAt pad b 3).isLt
  simp only [lo4, BitVec.toNat_add, BitVec.toNat_shiftLeft, BitVec.truncate_eq_setWidth,
    BitVec.toNat_setWidth, Nat.shiftLeft_eq, Nat.reducePow] at *
  omega

theorem hi4_toNat (pad : Nat → Byte) (b : List Byte) :
    (hi4 pad b).toNat = 4294967296 * ((byteAt pad b 4).toNat + 256 * (byteAt pad b 5).toNat
      + 65536 * (byteAt pad b 6).toNat + 16777216 * (byteAt pad b 7).toNat) := by
  have h0 := (byteAt pad b 4).isLt
  have h1 := (byteAt pad b 5).isLt
  have h2 := (byteAt pad b 6).isLt
  have h3 := (byteAt pad b 7).isLt
  simp only [hi4, BitVec.toNat_add, BitVec.toNat_shiftLeft, BitVec.truncate_eq_setWidth,
    BitVec.toNat_setWidth, Nat.shiftLeft_eq, Nat.reducePow] at *
  omega

/-- Combining two words whose bits do not overlap: `lo | (mask & hi)` where `lo`
is below `2^32` and `hi` a multiple of `2^32`. -/
theorem combine (lo hi : Word) (n : Nat) (hn : n ≤ 64) (hlo : lo.toNat < 4294967296)
    (hhi : hi.toNat % 4294967296 = 0) (m : Word) (hm : m.toNat = 2 ^ n - 1) :
    (lo ||| (m &&& hi)).toNat = lo.toNat + hi.toNat % 2 ^ n := by
  rw [BitVec.toNat_or, BitVec.toNat_and, hm, Nat.and_comm, Nat.and_two_pow_sub_one_eq_mod]
  have : hi.toNat % 2 ^ n = 2 ^ 32 * (hi.toNat % 2 ^ n / 2 ^ 32) := by
    by_cases h32 : n ≤ 32
    · have hd : (2:Nat) ^ n ∣ 4294967296 := by
        have : (4294967296 : Nat) = 2 ^ n * 2 ^ (32 - n) := by
          rw [← Nat.pow_add, show n + (32 - n) = 32 by omega]
        exact ⟨_, this⟩
      have : hi.toNat % 2 ^ n = 0 :=
        Nat.mod_eq_zero_of_dvd (Nat.dvd_trans hd (Nat.dvd_of_mod_eq_zero hhi))
      rw [this]
    · have e : hi.toNat % 2 ^ n % 2 ^ 32 = hi.toNat % 2 ^ 32 := by
        apply Nat.mod_mod_of_dvd
        exact Nat.pow_dvd_pow 2 (by omega)
      simp only [Nat.reducePow] at *
      omega
  rw [this, Nat.or_comm, ← Nat.two_pow_add_eq_or_of_lt (by simpa using hlo), Nat.add_comm]

theorem mask_toNat (n : Nat) (h1 : 1 ≤ n) (h2 : n ≤ 8) :
    ∃ m, shl2 (n * 8 - 1) = some m ∧ (m - 1#64).toNat = 2 ^ (8 * n) - 1 ∧
      (m.toNat = if n = 8 then 0 else 2 ^ (8 * n)) := by
  have : n = 1 ∨ n = 2 ∨ n = 3 ∨ n = 4 ∨ n = 5 ∨ n = 6 ∨ n = 7 ∨ n = 8 := by omega
  rcases this with rfl | rfl | rfl | rfl | rfl | rfl | rfl | rfl <;>
    exact ⟨_, rfl, by decide, by decide⟩

/-- The bytes 4..n-1 and padding, masked to `n` bytes, plus the low four bytes,
are the little-endian value: padding never leaks. -/
theorem le_split (pad : Nat → Byte) (b : List Byte) (h1 : 4 ≤ b.length) (h2 : b.length ≤ 8) :
    (lo4 pad b).toNat + (if b.length > 4 then (hi4 pad b).toNat % 2 ^ (8 * b.length) else 0)
      = le b := by
  rw [lo4_toNat, hi4_toNat]
  have key : ∀ k, (byteAt pad b k).toNat < 256 := fun k => (byteAt pad b k).isLt
  have k4 := key 4; have k5 := key 5; have k6 := key 6; have k7 := key 7
  match b, h1, h2 with
  | [b0, b1, b2, b3], _, _ => simp [byteAt, le]; try omega
  | [b0, b1, b2, b3, b4], _, _ =>
    simp [byteAt, le] at *
    have := b4.isLt; omega
  | [b0, b1, b2, b3, b4, b5], _, _ =>
    simp [byteAt, le] at *
    have := b4.isLt; have := b5.isLt; omega
  | [b0, b1, b2, b3, b4, b5, b6], _, _ =>
    simp [byteAt, le] at *
    have := b4.isLt; have := b5.isLt; have := b6.isLt; omega
  | [b0, b1, b2, b3, b4, b5, b6, b7], _, _ =>
    simp [byteAt, le] at *
    have := b4.isLt; have := b5.isLt; have := b6.isLt; have := b7.isLt; omega

theorem lo4_lt (pad : Nat → Byte) (b : List Byte) : (lo4 pad b).toNat < 4294967296 := by
  rw [lo4_toNat]
  have h0 := (byteAt pad b 0).isLt
  have h1 := (byteAt pad b 1).isLt
  have h2 := (byteAt pad b 2).isLt
  have h3 := (byteAt pad b 3).isLt
  simp only [Nat.reducePow] at *
  omega

/-- The common part of both 64-bit backward conversions. -/
theorem positive_part (pad : Nat → Byte) (b : List Byte) (h1 : 4 ≤ b.length) (h2 : b.length ≤ 8)
    (m : Word) (hm : (m - 1#64).toNat = 2 ^ (8 * b.length) - 1) :
    (if b.length > 4 then lo4 pad b ||| (m - 1#64 &&& hi4 pad b) else lo4 pad b).toNat = le b := by
  have hs := le_split pad b h1 h2
  split at hs
  · rename_i h
    rw [if_pos h, combine _ _ (8 * b.length) (by omega) (lo4_lt pad b) _ _ hm]
    · exact hs
    · rw [hi4_toNat]; omega
  · rename_i h
    rw [if_neg h]; omega

/-- Any object accepted by the unsigned 64-bit test, except 9-byte ones, is
converted to its value; the padding of the object does not matter. -/
theorem toCUInt64_value_partial (pad : Nat → Byte) (o : Oop) (h : isCUInt64 o = true)
    (h9 : ∀ b, o = .largePos b → b.length ≤ 8) :
    ∃ w, toCUInt64 pad o = some w ∧ value o = some (w.toNat : Int) := by
  match o with
  | .small i =>
    refine ⟨i, rfl, ?_⟩
    simp only [isCUInt64, decide_eq_true_iff] at h
    have := BitVec.toInt_eq_toNat_cond i
    have := i.isLt
    simp only [value]; congr 1
    split at * <;> omega
  | .largePos b =>
    have h8 := h9 b rfl
    have h4 : 4 ≤ b.length := by
      simp only [isCUInt64] at h
      split at h
      · omega
      · split at h
        · omega
        · cases h
    obtain ⟨m, e1, e2, _⟩ := mask_toNat b.length (by omega) h8
    refine ⟨_, by simp [toCUInt64, toCUInt64With, e1]; rfl, ?_⟩
    simp only [value]
    rw [positive_part pad b h4 h8 m e2]
  | .largeNeg b => simp [isCUInt64] at h
  | .other => simp [isCUInt64] at h

/-- Any object accepted by the signed 64-bit test whose value fits in 64 bits is
converted to its value; the padding of the object does not matter. -/
theorem toCInt64_value (pad : Nat → Byte) (o : Oop) (h : isCInt64 o = true) (v : Int)
    (hv : value o = some v) (hlo : -9223372036854775808 ≤ v) (hhi : v < 9223372036854775808) :
    ∃ w, toCInt64 pad o = some w ∧ w.toInt = v := by
  match o with
  | .small i => exact ⟨i, rfl, by simpa [value] using hv⟩
  | .largePos b =>
    simp [isCInt64] at h
    obtain ⟨m, e1, e2, _⟩ := mask_toNat b.length (by omega) h.2
    refine ⟨_, by simp [toCInt64, e1]; rfl, ?_⟩
    simp only [value, Option.some.injEq] at hv
    have hp := positive_part pad b h.1 h.2 m e2
    rw [BitVec.toInt_eq_toNat_cond, hp]
    simp only [Nat.reducePow]
    rw [if_pos (by omega)]; exact hv
  | .largeNeg b =>
    simp [isCInt64] at h
    obtain ⟨m, e1, e2, e3⟩ := mask_toNat b.length (by omega) h.2
    refine ⟨_, by simp [toCInt64, e1]; rfl, ?_⟩
    simp only [value, Option.some.injEq] at hv
    -- factor the sign extension out
    have hp := positive_part pad b h.1 h.2 m e2
    have hle := le_lt b
    have hor : (if b.length > 4 then ((~~~ (m - 1#64)) ||| lo4 pad b) ||| (m - 1#64 &&& hi4 pad b)
        else (~~~ (m - 1#64)) ||| lo4 pad b) = (~~~ (m - 1#64)) |||
        (if b.length > 4 then lo4 pad b ||| (m - 1#64 &&& hi4 pad b) else lo4 pad b) := by
      split
      · rw [BitVec.or_assoc]
      · rfl
    rw [hor]
    generalize (if b.length > 4 then lo4 pad b ||| (m - 1#64 &&& hi4 pad b) else lo4 pad b) = x at *
    have hpow : (256 : Nat) ^ b.length = 2 ^ (8 * b.length) := by rw [Nat.pow_mul]
    have hnat : ((~~~ (m - 1#64)) ||| x).toNat = (18446744073709551616 - 2 ^ (8 * b.length)) + x.toNat := by
      rw [BitVec.toNat_or, BitVec.toNat_not, e2]
      have hle64 : (2:Nat) ^ (8 * b.length) ≤ 2 ^ 64 := Nat.pow_le_pow_right (by decide) (by omega)
      have hge : 1 ≤ (2:Nat) ^ (8 * b.length) := Nat.pow_pos (by decide)
      have e : 2 ^ 64 - 1 - (2 ^ (8 * b.length) - 1) =
          2 ^ (8 * b.length) * (2 ^ (64 - 8 * b.length) - 1) := by
        rw [Nat.mul_sub, ← Nat.pow_add, show 8 * b.length + (64 - 8 * b.length) = 64 by omega]
        omega
      rw [e, ← Nat.two_pow_add_eq_or_of_lt (by omega), ← e]
      simp only [Nat.reducePow] at *
      omega
    have hxl : x.toNat < 2 ^ (8 * b.length) := by omega
    have hle64 : (2:Nat) ^ (8 * b.length) ≤ 18446744073709551616 := by
      have : (2:Nat) ^ (8 * b.length) ≤ 2 ^ 64 := Nat.pow_le_pow_right (by decide) (by omega)
      simpa using this
    have hpI : (256 : Int) ^ b.length = ((2 ^ (8 * b.length) : Nat) : Int) := by
      rw [← hpow]; simp
    rw [hpI] at hv
    rw [BitVec.toInt_eq_toNat_cond, hnat]
    simp only [Nat.reducePow]
    split <;> omega

/-! ## C06: round trips -/

/-- Every 64-bit signed value survives. -/
theorem int64_roundtrip (pad : Nat → Byte) (i : Word) :
    isCInt64 (fromCInt64 i) = true ∧ toCInt64 pad (fromCInt64 i) = some i := by
  have hacc : isCInt64 (fromCInt64 i) = true := by
    unfold fromCInt64; split
    · rfl
    · split <;> rfl
  refine ⟨hacc, ?_⟩
  have h1 := BitVec.le_toInt i
  have h2 := @BitVec.toInt_lt 64 i
  simp at h1 h2
  obtain ⟨w, e, hw⟩ := toCInt64_value pad _ hacc _ (fromCInt64_value i) h1 h2
  rw [e]; congr 1; exact BitVec.toInt_inj.mp hw

example : toCInt64 (fun _ => 0xAA#8) (fromCInt64 0x8000000000000000#64) =
    some 0x8000000000000000#64 := (int64_roundtrip _ _).2

/-- Unsigned 64-bit values below `2^63` survive. -/
theorem uint64_roundtrip_partial (pad : Nat → Byte) (i : Word) (h : i.toNat < 9223372036854775808) :
    isCUInt64 (fromCUInt64 i) = true ∧ toCUInt64 pad (fromCUInt64 i) = some i := by
  have hnn : ¬ i.toInt < 0 := by
    rw [BitVec.toInt_eq_toNat_cond]; simp only [Nat.reducePow]; rw [if_pos (by omega)]; omega
  have hacc : isCUInt64 (fromCUInt64 i) = true := by
    unfold fromCUInt64; split
    · simp [isCUInt64]; omega
    · first | rfl | (rw [if_neg hnn]; rfl)
  refine ⟨hacc, ?_⟩
  obtain ⟨w, e, hw⟩ := toCUInt64_value_partial pad _ hacc (by
    intro b hb
    unfold fromCUInt64 at hb
    split at hb
    · cases hb
    · cases hb; exact Nat.le_refl _)
  rw [fromCUInt64_value] at hw
  rw [e]; congr 1; apply BitVec.eq_of_toNat_eq
  simp at hw; omega

example : (0x7fffffffffffffff#64 : Word).toNat < 9223372036854775808 := by decide

/-- The full unsigned claim is false of the code: every value from `2^63` on is
accepted and stands for the right integer, but converting it back executes an
undefined shift. -/
theorem uint64_roundtrip_fails (pad : Nat → Byte) (i : Word) (h : 9223372036854775808 ≤ i.toNat) :
    isCUInt64 (fromCUInt64 i) = true ∧ toCUInt64 pad (fromCUInt64 i) = none := by
  have hneg : i.toInt < 0 := by
    have := i.isLt
    rw [BitVec.toInt_eq_toNat_cond]; simp only [Nat.reducePow] at *; rw [if_neg (by omega)]; omega
  have e : fromCUInt64 i = .largePos (bytes8 i ++ [0#8]) := by
    unfold fromCUInt64 maxStInt
    rw [if_neg (by omega), if_pos hneg]
  rw [e]
  exact ⟨rfl, rfl⟩

/-- On x86-64, where the count is taken modulo 64, the upper half is lost:
`2^63` comes back as 0. -/
theorem uint64_x86_loses_upper_half (pad : Nat → Byte) :
    toCUInt64X86 pad (fromCUInt64 0x8000000000000000#64) = some 0#64 := by
  have e : fromCUInt64 0x8000000000000000#64 = .largePos [0, 0, 0, 0, 0, 0, 0, 0x80, 0] := by
    decide
  rw [e]
  simp [toCUInt64X86, toCUInt64With, lo4, hi4, byteAt]

/-- Every 32-bit signed value comes back; the acceptance test refuses exactly
`INT_MAX`. -/
theorem int32_roundtrip_partial (pad : Nat → Byte) (i : BitVec 32) :
    toCInt32 pad (fromCInt32 i) = i ∧ (isCInt32 (fromCInt32 i) = true ↔ i.toInt ≠ 2147483647) := by
  have h1 := BitVec.le_toInt i
  have h2 := @BitVec.toInt_lt 32 i
  simp at h1 h2
  have e : fromCInt32 i = .small (i.signExtend 64) := by
    unfold fromCInt32 minStInt maxStInt; rw [if_pos (by omega)]
  rw [e]
  have es : (i.signExtend 64).toInt = i.toInt := by
    rw [BitVec.toInt_signExtend, Int.bmod_eq_of_le] <;> simp <;> omega
  constructor
  · simp only [toCInt32]
    apply BitVec.toInt_inj.mp
    rw [BitVec.truncate_eq_setWidth, ← BitVec.signExtend_eq_setWidth_of_le _ (by decide),
      BitVec.toInt_signExtend, es, Int.bmod_eq_of_le] <;> simp <;> omega
  · simp only [isCInt32, es, Bool.and_eq_true, decide_eq_true_iff]; omega

/-- The full 32-bit claim is false of the code: `INT_MAX` and `UINT_MAX`, although
produced by the forward conversions, are refused. -/
theorem int32_limits_refused :
    isCInt32 (fromCInt32 0x7fffffff#32) = false ∧ isCUInt32 (fromCUInt32 0xffffffff#32) = false := by
  decide

/-- Every 32-bit unsigned value comes back; the acceptance test refuses exactly
`UINT_MAX`. -/
theorem uint32_roundtrip_partial (pad : Nat → Byte) (i : BitVec 32) :
    toCInt32 pad (fromCUInt32 i) = i ∧ (isCUInt32 (fromCUInt32 i) = true ↔ i.toNat ≠ 4294967295) := by
  have hl := i.isLt
  have e : fromCUInt32 i = .small (i.zeroExtend 64) := by
    unfold fromCUInt32 maxStInt; rw [if_pos (by omega)]
  rw [e]
  have es : (i.zeroExtend 64).toNat = i.toNat := by
    rw [show (i.zeroExtend 64).toNat = i.toNat % 2 ^ 64 from BitVec.toNat_setWidth ..]
    exact Nat.mod_eq_of_lt (by simp only [Nat.reducePow] at *; omega)
  have ei : (i.zeroExtend 64).toInt = i.toNat := by
    rw [BitVec.toInt_eq_toNat_cond, es]
    simp only [Nat.reducePow] at *
    rw [if_pos (by omega)]
  constructor
  · simp only [toCInt32]
    apply BitVec.eq_of_toNat_eq
    rw [BitVec.truncate_eq_setWidth, BitVec.toNat_setWidth, es]
    exact Nat.mod_eq_of_lt hl
  · simp only [isCUInt32, ei, Bool.and_eq_true, decide_eq_true_iff]
    simp only [Nat.reducePow] at *; omega

example : isCInt32 (fromCInt32 0x80000000#32) = true := by decide
example : isCUInt64 (.largePos [1, 2, 3, 4, 5]) = true ∧
    toCUInt64 (fun _ => 0xFF#8) (.largePos [1, 2, 3, 4, 5]) = some 0x504030201#64 := by decide

end Verif.CInt
