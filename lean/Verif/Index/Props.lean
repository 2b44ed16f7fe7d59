import Verif.Index.Lemmas

/-!
# Property theorems C07 (indexed access is bounds-checked) and C08 (round trip)

The claim C07, "an access succeeds iff the index is between 1 and the number of
elements, and then touches exactly that element", is false of the code for empty
objects and for some huge indices into objects with 4- and 8-byte elements.  The
theorems below give the exact set of accepted indices, so the `_partial` ones say
which part of the claim holds and the others refute the rest.
-/

namespace Verif.Index

open Verif.CInt (Word Byte)

/-! ## Specification -/

/-- `i` is an index a Smalltalk program can pass: a SmallInteger. -/
def IsSmall (i : Int) : Prop := -4611686018427387904 ≤ i ∧ i ≤ 4611686018427387903

instance (i : Int) : Decidable (IsSmall i) := by unfold IsSmall; infer_instance

/-- The claim about one index: accepted iff in `1..n`, and then the offset is the one
of the element. -/
def Checked (fixed n s : Nat) (i : Int) (r : Option Word) : Prop :=
  match r with
  | some off => 1 ≤ i ∧ i ≤ n ∧ (off.toNat : Int) = fixed * 8 + (i - 1) * s
  | none => ¬ (1 ≤ i ∧ i ≤ n)

/-- The same for objects with pointer elements, where the answer is a slot number. -/
def PtrChecked (fixed n : Nat) (i : Int) (r : Option Word) : Prop :=
  match r with
  | some k => 1 ≤ i ∧ i ≤ n ∧ (k.toNat : Int) = fixed + (i - 1)
  | none => ¬ (1 ≤ i ∧ i ≤ n)

/-! ## C07 -/

/-- Non-empty objects: whatever the index, an access that is not refused stays within
one element of the object. -/
theorem access_inside_object_partial (fixed n s : Nat) (g : Geometry fixed n s) (hn : 1 ≤ n)
    (i : Int) (off : Word)
    (h : byteOffset (BitVec.ofNat 64 s) (header fixed n s) (sizeT i) = some off) :
    fixed * 8 ≤ off.toNat ∧ off.toNat + s ≤ fixed * 8 + n * s ∧
      (off.toNat - fixed * 8) % s = 0 := by
  obtain ⟨-, k, hk, he, -⟩ := (byteOffset_iff fixed n s g hn i off).mp h
  rw [he]
  obtain ⟨hs, -⟩ := g
  rcases hs with rfl | rfl | rfl | rfl <;> omega

example : byteOffset 2#64 (header 1 3 2) (sizeT 3) = some 12#64 := by decide

/-- Non-empty objects with 1- and 2-byte elements: the check is exact for every
SmallInteger. -/
theorem access_checked_narrow_partial (fixed n s : Nat) (g : Geometry fixed n s) (hn : 1 ≤ n)
    (hs : s ≤ 2) (i : Int) (hi : IsSmall i) :
    Checked fixed n s i (byteOffset (BitVec.ofNat 64 s) (header fixed n s) (sizeT i)) := by
  obtain ⟨hi1, hi2⟩ := hi
  have gs := g.size
  have gf := g.fits
  cases h : byteOffset (BitVec.ofNat 64 s) (header fixed n s) (sizeT i) with
  | some off =>
    obtain ⟨hne, k, hk, he, hm⟩ := (byteOffset_iff fixed n s g hn i off).mp h
    simp only [Checked]
    have hs' : s = 1 ∨ s = 2 := by omega
    rcases hs' with rfl | rfl <;> omega
  | none =>
    simp only [Checked]
    rintro ⟨h1, h2⟩
    have := (byteOffset_iff fixed n s g hn i (BitVec.ofNat 64 (fixed * 8 + (i.toNat - 1) * s))).mpr
      ⟨by omega, i.toNat - 1, by omega, by
        rw [BitVec.toNat_ofNat]
        simp only [Nat.reducePow]
        have hs' : s = 1 ∨ s = 2 := by omega
        rcases hs' with rfl | rfl <;> omega, by
        have hs' : s = 1 ∨ s = 2 := by omega
        rcases hs' with rfl | rfl <;> omega⟩
    rw [this] at h; cases h

/-- Non-empty objects with elements of any size: the check is exact for every index up
to 2^60 in absolute value. -/
theorem access_checked_partial (fixed n s : Nat) (g : Geometry fixed n s) (hn : 1 ≤ n)
    (i : Int) (h1 : -1152921504606846976 ≤ i) (h2 : i ≤ 1152921504606846976) :
    Checked fixed n s i (byteOffset (BitVec.ofNat 64 s) (header fixed n s) (sizeT i)) := by
  have gs := g.size
  have gf := g.fits
  cases h : byteOffset (BitVec.ofNat 64 s) (header fixed n s) (sizeT i) with
  | some off =>
    obtain ⟨hne, k, hk, he, hm⟩ := (byteOffset_iff fixed n s g hn i off).mp h
    simp only [Checked]
    rcases gs with rfl | rfl | rfl | rfl <;> omega
  | none =>
    simp only [Checked]
    rintro ⟨h1, h2⟩
    have := (byteOffset_iff fixed n s g hn i (BitVec.ofNat 64 (fixed * 8 + (i.toNat - 1) * s))).mpr
      ⟨by omega, i.toNat - 1, by omega, by
        rw [BitVec.toNat_ofNat]
        simp only [Nat.reducePow]
        rcases gs with rfl | rfl | rfl | rfl <;> omega, by
        rcases gs with rfl | rfl | rfl | rfl <;> omega⟩
    rw [this] at h; cases h

example : Geometry 2 5 8 := ⟨by decide, by decide⟩

/-- Pointer objects (Array, …), non-empty: the check is exact for every SmallInteger. -/
theorem pointer_access_checked_partial (fixed n : Nat) (hf : fixed + n < 1152921504606846976)
    (hn : 1 ≤ n) (i : Int) (hi : IsSmall i) :
    PtrChecked fixed n i (slotIndex (header fixed n 8) (sizeT i)) := by
  unfold PtrChecked
  obtain ⟨hi1, hi2⟩ := hi
  have hx := sizeT_toNat i
  have hl := (sizeT i).isLt
  generalize sizeT i = x at *
  have h1 : (x < 1#64) ↔ x.toNat < 1 := by rw [BitVec.lt_def]; rfl
  have hw : (header fixed n 8).numWords.toNat = fixed + n := by
    simp only [header, BitVec.toNat_ofNat, Nat.reducePow]; omega
  have hfx : (header fixed n 8).fixed.toNat = fixed := by
    simp only [header, BitVec.toNat_ofNat, Nat.reducePow]; omega
  unfold slotIndex
  dsimp only
  by_cases hx1 : x.toNat < 1
  · rw [if_pos (h1.mpr hx1)]
    dsimp only; omega
  rw [if_neg (fun h => hx1 (h1.mp h))]
  generalize (header fixed n 8).numWords = w at *
  generalize (header fixed n 8).fixed = f at *
  by_cases hc : x + f - (f + 1#64) > w - (f + 1#64)
  · rw [if_pos hc]
    rw [gt_iff_lt, BitVec.lt_def] at hc
    simp only [BitVec.toNat_sub, BitVec.toNat_add, BitVec.toNat_ofNat, Nat.reducePow, hfx, hw] at *
    omega
  · rw [if_neg hc]
    rw [gt_iff_lt, BitVec.lt_def] at hc
    simp only [BitVec.toNat_sub, BitVec.toNat_add, BitVec.toNat_ofNat, Nat.reducePow, hfx, hw] at *
    omega

example : slotIndex (header 2 3 8) (sizeT 3) = some 4#64 := by decide

/-- Refutation for empty objects with 1-byte elements: every index but 0 is accepted,
and the access is at the corresponding offset past the end of the object. -/
theorem empty_object_unchecked (fixed : Nat) (i : Int)
    (hi : IsSmall i) (h0 : i ≠ 0) :
    ∃ off, byteOffset 1#64 (header fixed 0 1) (sizeT i) = some off ∧
      (off.toNat : Int) = (fixed * 8 + (i - 1)) % 18446744073709551616 := by
  obtain ⟨hi1, hi2⟩ := hi
  have hx := sizeT_toNat i
  have hl := (sizeT i).isLt
  generalize sizeT i = x at *
  have h1 : (x < 1#64) ↔ x.toNat < 1 := by rw [BitVec.lt_def]; rfl
  unfold byteOffset
  dsimp only
  rw [if_neg (by rw [h1]; omega), if_neg]
  · refine ⟨_, rfl, ?_⟩
    simp only [header, BitVec.toNat_sub, BitVec.toNat_add, BitVec.toNat_mul, BitVec.toNat_ofNat,
      Nat.reducePow] at *
    omega
  · rw [gt_iff_lt, BitVec.lt_def]
    simp only [header, BitVec.toNat_sub, BitVec.toNat_add, BitVec.toNat_mul, BitVec.toNat_ofNat,
      Nat.reducePow] at *
    omega

/-- Refutation for the empty Array: `#() at: i` is accepted for every non-zero `i`. -/
theorem empty_array_unchecked (fixed : Nat) (i : Int)
    (hi : IsSmall i) (h0 : i ≠ 0) :
    ∃ k, slotIndex (header fixed 0 8) (sizeT i) = some k ∧
      (k.toNat : Int) = (fixed + (i - 1)) % 18446744073709551616 := by
  obtain ⟨hi1, hi2⟩ := hi
  have hx := sizeT_toNat i
  have hl := (sizeT i).isLt
  generalize sizeT i = x at *
  have h1 : (x < 1#64) ↔ x.toNat < 1 := by rw [BitVec.lt_def]; rfl
  unfold slotIndex
  dsimp only
  rw [if_neg (by rw [h1]; omega), if_neg]
  · refine ⟨_, rfl, ?_⟩
    simp only [header, BitVec.toNat_sub, BitVec.toNat_add, BitVec.toNat_ofNat,
      Nat.reducePow] at *
    omega
  · rw [gt_iff_lt, BitVec.lt_def]
    simp only [header, BitVec.toNat_sub, BitVec.toNat_add, BitVec.toNat_ofNat,
      Nat.reducePow] at *
    omega

/-- Refutation for 8-byte elements: the SmallInteger `2^61 + 1` is taken for 1. -/
theorem wide_index_aliases (fixed n : Nat) (g : Geometry fixed n 8) (hn : 1 ≤ n) :
    IsSmall 2305843009213693953 ∧
    byteOffset 8#64 (header fixed n 8) (sizeT 2305843009213693953) =
      byteOffset 8#64 (header fixed n 8) (sizeT 1) ∧
    (byteOffset 8#64 (header fixed n 8) (sizeT 2305843009213693953)).isSome := by
  have gf := g.fits
  have a := (byteOffset_iff fixed n 8 g hn 2305843009213693953
    (BitVec.ofNat 64 (fixed * 8))).mpr ⟨by decide, 0, by omega, by
      rw [BitVec.toNat_ofNat]; simp only [Nat.reducePow]; omega, by decide⟩
  have b := (byteOffset_iff fixed n 8 g hn 1
    (BitVec.ofNat 64 (fixed * 8))).mpr ⟨by decide, 0, by omega, by
      rw [BitVec.toNat_ofNat]; simp only [Nat.reducePow]; omega, by decide⟩
  refine ⟨by decide, ?_, ?_⟩
  · exact a.trans b.symm
  · exact a ▸ rfl

/-- Refutation for 4-byte elements: the SmallInteger `-2^62 + 1` is taken for 1. -/
theorem word_index_aliases (fixed n : Nat) (g : Geometry fixed n 4) (hn : 1 ≤ n) :
    IsSmall (-4611686018427387903) ∧
    (byteOffset 4#64 (header fixed n 4) (sizeT (-4611686018427387903))).isSome := by
  have gf := g.fits
  have a := (byteOffset_iff fixed n 4 g hn (-4611686018427387903)
    (BitVec.ofNat 64 (fixed * 8))).mpr ⟨by decide, 0, by omega, by
      rw [BitVec.toNat_ofNat]; simp only [Nat.reducePow]; omega, by decide⟩
  exact ⟨by decide, a ▸ rfl⟩

/-! ## C08 -/

/-- The objects as the class library produces them: large integers only outside of the
SmallInteger range and with the sign in the top bit, Unicode characters only from 128 to
16r10FFFF. -/
def Normal : Val → Prop
  | .int (.small _) => True
  | .int (.largePos b) => 4611686018427387903 < CInt.le b ∧ 2 * CInt.le b < 256 ^ b.length
  | .int (.largeNeg b) => 2 * CInt.le b ≥ 256 ^ b.length ∧
      (CInt.le b : Int) - 256 ^ b.length < -4611686018427387904
  | .int .other => True
  | .char _ => True
  | .unicode c => 128 ≤ c.toNat ∧ c.toNat ≤ 0x10FFFF
  | .other => True

/-- Two objects are equal to a program. -/
def Same : Val → Val → Prop
  | .int o, .int o' => ∃ v, CInt.value o = some v ∧ CInt.value o' = some v
  | .char c, .char c' => c = c'
  | .unicode c, .unicode c' => c = c'
  | _, _ => False

theorem same_small_of (i : Word) (o : CInt.Oop) (v : Int) (h : CInt.value o = some v)
    (e : i.toInt = v) : Same (.int (.small i)) (.int o) :=
  ⟨v, by simp [CInt.value, e], h⟩

theorem byte_small (lo hi : Int) (o : CInt.Oop) (bits : Nat) (h : smallIn lo hi o = some bits) :
    ∃ i : Word, o = .small i ∧ lo ≤ i.toInt ∧ i.toInt ≤ hi ∧ bits = i.toNat := by
  unfold smallIn at h
  split at h
  · split at h
    · rename_i i hc
      cases h
      exact ⟨i, rfl, hc.1, hc.2, rfl⟩
    · cases h
  · cases h

theorem roundW {w : Nat} (x : BitVec w) (p : Nat) (hp : p = 2 ^ w) :
    BitVec.ofNat w (x.toNat % p) = x := by
  apply BitVec.eq_of_toNat_eq
  subst hp
  rw [BitVec.toNat_ofNat, Nat.mod_mod, Nat.mod_eq_of_lt x.isLt]

theorem zext8 (x : BitVec 8) : (x.zeroExtend 64).toInt = x.toNat := by
  have := x.isLt
  have e : (x.zeroExtend 64).toNat = x.toNat % 2 ^ 64 := BitVec.toNat_setWidth ..
  rw [BitVec.toInt_eq_toNat_cond, e]
  simp only [Nat.reducePow] at *
  split <;> omega

theorem zext16 (x : BitVec 16) : (x.zeroExtend 64).toInt = x.toNat := by
  have := x.isLt
  have e : (x.zeroExtend 64).toNat = x.toNat % 2 ^ 64 := BitVec.toNat_setWidth ..
  rw [BitVec.toInt_eq_toNat_cond, e]
  simp only [Nat.reducePow] at *
  split <;> omega

/-- What is written reads back as the same value: the conversion part, for each shape
but the signed 16-bit one. -/
theorem decode_encode (pad : Nat → Byte) (sh : Shape) (v : Val) (bits : Nat) (hv : Normal v)
    (hsh : sh ≠ .short) (h : encode pad sh v = some bits) :
    ∃ v', readElem sh (bits % 256 ^ sh.size) = some v' ∧ Same v v' := by
  cases sh <;> cases v <;> simp only [encode, reduceCtorEq] at h
  case schar.int o =>
    obtain ⟨i, rfl, h1, h2, rfl⟩ := byte_small _ _ _ _ h
    refine ⟨_, rfl, same_small_of _ _ _ rfl ?_⟩
    have hc := BitVec.toInt_eq_toNat_cond i
    have := i.isLt
    have e : (256:Nat) ^ Shape.schar.size = 256 := rfl
    rw [e, BitVec.toInt_signExtend, BitVec.toInt_eq_toNat_bmod (BitVec.ofNat 8 _), BitVec.toNat_ofNat]
    rw [show (2:Nat) ^ min 64 8 = 256 from rfl]
    simp only [Nat.reducePow, Int.bmod_def] at *
    split at hc <;> omega
  case uchar.int o =>
    obtain ⟨i, rfl, h1, h2, rfl⟩ := byte_small _ _ _ _ h
    refine ⟨_, rfl, same_small_of _ _ _ rfl ?_⟩
    have hc := BitVec.toInt_eq_toNat_cond i
    have := i.isLt
    have e : (256:Nat) ^ Shape.uchar.size = 256 := rfl
    rw [e, zext8, BitVec.toNat_ofNat]
    simp only [Nat.reducePow] at *
    split at hc <;> omega
  case character.char c =>
    cases h
    refine ⟨_, rfl, ?_⟩
    exact (roundW c _ rfl).symm
  case short.int => exact absurd rfl hsh
  case ushort.int o =>
    obtain ⟨i, rfl, h1, h2, rfl⟩ := byte_small _ _ _ _ h
    refine ⟨_, rfl, same_small_of _ _ _ rfl ?_⟩
    have hc := BitVec.toInt_eq_toNat_cond i
    have := i.isLt
    have e : (256:Nat) ^ Shape.ushort.size = 65536 := rfl
    rw [e, zext16, BitVec.toNat_ofNat]
    simp only [Nat.reducePow] at *
    split at hc <;> omega
  case int.int o =>
    split at h
    · rename_i hacc
      cases h
      refine ⟨_, rfl, ?_⟩
      have e : BitVec.ofNat 32 ((CInt.toCInt32 pad o).toNat % 256 ^ Shape.int.size) =
          CInt.toCInt32 pad o := roundW _ _ rfl
      rw [e]
      cases o with
      | small i =>
        simp only [CInt.isCInt32, Bool.and_eq_true, decide_eq_true_iff] at hacc
        refine same_small_of _ _ _ (CInt.fromCInt32_value _) ?_
        simp only [CInt.toCInt32]
        rw [BitVec.truncate_eq_setWidth, ← BitVec.signExtend_eq_setWidth_of_le _ (by decide),
          BitVec.toInt_signExtend, Int.bmod_eq_of_le] <;> simp <;> omega
      | largePos b =>
        simp only [CInt.isCInt32, beq_iff_eq] at hacc
        simp only [Normal, hacc] at hv; omega
      | largeNeg b =>
        simp only [CInt.isCInt32, beq_iff_eq] at hacc
        simp only [Normal, hacc] at hv; omega
      | other => simp [CInt.isCInt32] at hacc
    · cases h
  case uint.int o =>
    split at h
    · rename_i hacc
      cases h
      refine ⟨_, rfl, ?_⟩
      have e : BitVec.ofNat 32 ((CInt.toCInt32 pad o).toNat % 256 ^ Shape.uint.size) =
          CInt.toCInt32 pad o := roundW _ _ rfl
      rw [e]
      cases o with
      | small i =>
        simp only [CInt.isCUInt32, Bool.and_eq_true, decide_eq_true_iff] at hacc
        refine same_small_of _ _ _ (CInt.fromCUInt32_value _) ?_
        simp only [CInt.toCInt32]
        have hc := BitVec.toInt_eq_toNat_cond i
        have := i.isLt
        rw [BitVec.truncate_eq_setWidth, BitVec.toNat_setWidth]
        simp only [Nat.reducePow] at *
        split at hc <;> omega
      | largePos b =>
        simp only [CInt.isCUInt32] at hacc
        split at hacc
        · rename_i h4; simp only [Normal, h4] at hv; omega
        · split at hacc
          · rename_i h5
            simp only [Normal, h5] at hv
            omega
          · cases hacc
      | largeNeg b => simp [CInt.isCUInt32] at hacc
      | other => simp [CInt.isCUInt32] at hacc
    · cases h
  case int64.int o =>
    split at h
    · rename_i hacc
      have ⟨w, ew, hw⟩ : ∃ w, CInt.toCInt64 pad o = some w ∧ CInt.value o = some w.toInt := by
        cases o with
        | small i => exact ⟨i, rfl, rfl⟩
        | largePos b =>
          simp only [Normal] at hv
          have hl : b.length ≤ 8 := by simp [CInt.isCInt64] at hacc; exact hacc.2
          have : (256:Nat) ^ b.length ≤ 256 ^ 8 := Nat.pow_le_pow_right (by decide) hl
          simp only [Nat.reducePow] at this
          obtain ⟨w, e1, e2⟩ := CInt.toCInt64_value pad _ hacc (CInt.le b) rfl (by omega) (by omega)
          exact ⟨w, e1, by rw [e2]; rfl⟩
        | largeNeg b =>
          simp only [Normal] at hv
          have hl : b.length ≤ 8 := by simp [CInt.isCInt64] at hacc; exact hacc.2
          have h256 : (256:Nat) ^ b.length ≤ 256 ^ 8 := Nat.pow_le_pow_right (by decide) hl
          have hlt := CInt.le_lt b
          have ecast : (256 : Int) ^ b.length = ((256 ^ b.length : Nat) : Int) := by simp
          simp only [Nat.reducePow] at h256
          obtain ⟨w, e1, e2⟩ := CInt.toCInt64_value pad _ hacc ((CInt.le b : Int) - 256 ^ b.length) rfl
            (by rw [ecast]; omega) (by rw [ecast]; omega)
          exact ⟨w, e1, by rw [e2]; rfl⟩
        | other => simp [CInt.isCInt64] at hacc
      rw [ew] at h
      simp only [Option.map_some, Option.some.injEq] at h
      subst h
      refine ⟨_, rfl, w.toInt, hw, ?_⟩
      have e : BitVec.ofNat 64 (w.toNat % 256 ^ Shape.int64.size) = w := roundW _ _ rfl
      rw [e]; exact CInt.fromCInt64_value w
    · cases h
  case uint64.int o =>
    split at h
    · rename_i hacc
      have h9 : ∀ b, o = .largePos b → b.length ≤ 8 := by
        rintro b rfl
        by_cases hl : b.length ≤ 8
        · exact hl
        · have : b.length = 9 := by
            simp only [CInt.isCUInt64] at hacc
            split at hacc
            · omega
            · split at hacc
              · assumption
              · cases hacc
          simp [CInt.toCUInt64, CInt.toCUInt64With, CInt.shl2, this] at h
      obtain ⟨w, ew, hw⟩ := CInt.toCUInt64_value_partial pad o hacc h9
      rw [ew] at h
      simp only [Option.map_some, Option.some.injEq] at h
      subst h
      refine ⟨_, rfl, w.toNat, hw, ?_⟩
      have e : BitVec.ofNat 64 (w.toNat % 256 ^ Shape.uint64.size) = w := roundW _ _ rfl
      rw [e]; exact CInt.fromCUInt64_value w
    · cases h
  case utf32.char c =>
    split at h
    · rename_i hc
      cases h
      refine ⟨.char c, ?_, rfl⟩
      have e : (BitVec.ofNat 32 (c.toNat % 256 ^ Shape.utf32.size)).toNat = c.toNat := by
        have := c.isLt
        have e : (256:Nat) ^ Shape.utf32.size = 4294967296 := rfl
        rw [e, BitVec.toNat_ofNat]; simp only [Nat.reducePow] at *; omega
      simp only [readElem, charNew]
      rw [if_pos (by rw [e]; exact hc)]
      congr 2
      apply BitVec.eq_of_toNat_eq
      rw [BitVec.truncate_eq_setWidth, BitVec.toNat_setWidth, e]
      exact Nat.mod_eq_of_lt c.isLt
    · cases h
  case utf32.unicode c =>
    cases h
    simp only [Normal] at hv
    refine ⟨.unicode c, ?_, rfl⟩
    have e : BitVec.ofNat 32 (c.toNat % 256 ^ Shape.utf32.size) = c := roundW _ _ rfl
    simp only [readElem, e, charNew]
    rw [if_neg (by omega), if_neg (by omega)]

/-- C08.  A store that is not refused is read back: the same index answers the value
stored.  All shapes but signed 16-bit integers (see `short_loses_sign`) and floats. -/
theorem at_after_atPut_partial (pad : Nat → Byte) (sh : Shape) (fixed n : Nat)
    (hsh : sh ≠ .short) (m m' : Mem) (i : Int) (v : Val) (hv : Normal v)
    (h : atPut pad sh (header fixed n sh.size) m (sizeT i) v = some m') :
    ∃ v', at_ sh (header fixed n sh.size) m' (sizeT i) = some v' ∧ Same v v' := by
  simp only [atPut, Option.bind_eq_bind, Option.bind_eq_some_iff] at h
  obtain ⟨bits, hb, off, ho, he⟩ := h
  simp only [Option.pure_def, Option.some.injEq] at he
  subst he
  obtain ⟨v', h1, h2⟩ := decode_encode pad sh v bits hv hsh hb
  refine ⟨v', ?_, h2⟩
  simp only [at_, ho, Option.bind_eq_bind, Option.bind_some, load_store_same]
  exact h1

/-- C08, frame condition.  In a non-empty object, a store changes no other element. -/
theorem at_other_after_atPut (pad : Nat → Byte) (sh : Shape) (fixed n : Nat)
    (g : Geometry fixed n sh.size) (m m' : Mem) (i j : Int) (v : Val)
    (hi : 1 ≤ i ∧ i ≤ n) (hj : 1 ≤ j ∧ j ≤ n) (hij : i ≠ j)
    (h : atPut pad sh (header fixed n sh.size) m (sizeT i) v = some m') :
    at_ sh (header fixed n sh.size) m' (sizeT j) = at_ sh (header fixed n sh.size) m (sizeT j) := by
  simp only [atPut, Option.bind_eq_bind, Option.bind_eq_some_iff] at h
  obtain ⟨bits, hb, off, ho, he⟩ := h
  simp only [Option.pure_def, Option.some.injEq] at he
  subst he
  have gs := g.size
  have gf := g.fits
  have bi := access_checked_partial fixed n _ g (by omega) i (by omega)
    (by rcases gs with e | e | e | e <;> rw [e] at gf <;> omega)
  have bj := access_checked_partial fixed n _ g (by omega) j (by omega)
    (by rcases gs with e | e | e | e <;> rw [e] at gf <;> omega)
  rw [ho] at bi
  simp only [at_]
  cases hoj : byteOffset (BitVec.ofNat 64 sh.size) (header fixed n sh.size) (sizeT j) with
  | none => rfl
  | some off' =>
    rw [hoj] at bj
    simp only [Checked] at bi bj
    simp only [Option.bind_eq_bind, Option.bind_some]
    rw [load_store_disjoint]
    clear ho hoj hb
    generalize sh.size = s at *
    rcases gs with rfl | rfl | rfl | rfl <;> omega

/-- The named instance variables, which lie before the indexed ones, are not affected
either (non-empty objects). -/
theorem named_after_atPut (pad : Nat → Byte) (sh : Shape) (fixed n : Nat)
    (g : Geometry fixed n sh.size) (hn : 1 ≤ n) (m m' : Mem) (i : Int) (v : Val)
    (h : atPut pad sh (header fixed n sh.size) m (sizeT i) v = some m') (a : Nat)
    (ha : a < fixed * 8 ∨ fixed * 8 + n * sh.size ≤ a) : m' a = m a := by
  simp only [atPut, Option.bind_eq_bind, Option.bind_eq_some_iff] at h
  obtain ⟨bits, hb, off, ho, he⟩ := h
  simp only [Option.pure_def, Option.some.injEq] at he
  subst he
  have := access_inside_object_partial fixed n _ g hn i off ho
  exact store_outside _ _ _ _ _ (by omega)

example : ∃ m', atPut (fun _ => 0) .int (header 1 3 4) (fun _ => 0) (sizeT 2)
    (.int (.small (-5))) = some m' := ⟨_, rfl⟩

/-- Pointer objects: the same two facts. -/
theorem ptrAt_after_ptrAtPut (h : Header) (m m' : Mem) (i : Word) (v : Word)
    (hp : ptrAtPut h m i v = some m') : ptrAt h m' i = some v := by
  simp only [ptrAtPut, Option.bind_eq_bind, Option.bind_eq_some_iff] at hp
  obtain ⟨k, hk, he⟩ := hp
  simp only [Option.pure_def, Option.some.injEq] at he
  subst he
  simp only [ptrAt, hk, Option.bind_eq_bind, Option.bind_some, load_store_same, Option.pure_def]
  congr 1
  exact roundW v _ rfl

theorem ptrAt_other_after_ptrAtPut (fixed n : Nat) (hf : fixed + n < 1152921504606846976)
    (m m' : Mem) (i j : Int) (v : Word) (hi : 1 ≤ i ∧ i ≤ n) (hj : 1 ≤ j ∧ j ≤ n) (hij : i ≠ j)
    (hp : ptrAtPut (header fixed n 8) m (sizeT i) v = some m') :
    ptrAt (header fixed n 8) m' (sizeT j) = ptrAt (header fixed n 8) m (sizeT j) := by
  simp only [ptrAtPut, Option.bind_eq_bind, Option.bind_eq_some_iff] at hp
  obtain ⟨k, hk, he⟩ := hp
  simp only [Option.pure_def, Option.some.injEq] at he
  subst he
  have bi := pointer_access_checked_partial fixed n hf (by omega) i ⟨by omega, by omega⟩
  have bj := pointer_access_checked_partial fixed n hf (by omega) j ⟨by omega, by omega⟩
  rw [hk] at bi
  simp only [ptrAt]
  cases hoj : slotIndex (header fixed n 8) (sizeT j) with
  | none => simp only [Option.bind_eq_bind, Option.bind_none]
  | some k' =>
    rw [hoj] at bj
    simp only [PtrChecked] at bi bj
    simp only [Option.bind_eq_bind, Option.bind_some]
    rw [load_store_disjoint]
    clear hk hoj
    omega

/-- Refutation for the signed 16-bit shape: whatever object and index, a negative value
that is stored reads back 65536 higher. -/
theorem short_loses_sign (pad : Nat → Byte) (h : Header) (m m' : Mem) (i x : Word)
    (hx : x.toInt < 0)
    (hp : atPut pad .short h m i (.int (.small x)) = some m') :
    ∃ y : Word, at_ .short h m' i = some (.int (.small y)) ∧ y.toInt = x.toInt + 65536 := by
  simp only [atPut, Option.bind_eq_bind, Option.bind_eq_some_iff] at hp
  obtain ⟨bits, hb, off, ho, he⟩ := hp
  simp only [Option.pure_def, Option.some.injEq] at he
  subst he
  simp only [encode] at hb
  obtain ⟨i', e, h1, h2, rfl⟩ := byte_small (-32768) 32767 _ _ hb
  cases e
  simp only [at_, ho, Option.bind_eq_bind, Option.bind_some, load_store_same, readElem]
  refine ⟨_, rfl, ?_⟩
  have e : (256:Nat) ^ Shape.short.size = 65536 := rfl
  rw [e, zext16, BitVec.toNat_ofNat]
  have hc := BitVec.toInt_eq_toNat_cond x
  have := x.isLt
  simp only [Nat.reducePow] at *
  split at hc <;> omega

example : (at_ .short (header 0 1 2) (store (fun _ => 0) 0 2 65535) (sizeT 1)) =
    some (.int (.small 65535#64)) := by decide

/-- Non-negative signed 16-bit values do read back. -/
theorem short_roundtrip_partial (pad : Nat → Byte) (h : Header) (m m' : Mem) (i x : Word)
    (hx : 0 ≤ x.toInt)
    (hp : atPut pad .short h m i (.int (.small x)) = some m') :
    at_ .short h m' i = some (.int (.small x)) := by
  simp only [atPut, Option.bind_eq_bind, Option.bind_eq_some_iff] at hp
  obtain ⟨bits, hb, off, ho, he⟩ := hp
  simp only [Option.pure_def, Option.some.injEq] at he
  subst he
  simp only [encode] at hb
  obtain ⟨i', e, h1, h2, rfl⟩ := byte_small (-32768) 32767 _ _ hb
  cases e
  simp only [at_, ho, Option.bind_eq_bind, Option.bind_some, load_store_same, readElem]
  have e : (256:Nat) ^ Shape.short.size = 65536 := rfl
  congr 3
  apply BitVec.toInt_inj.mp
  rw [e, zext16, BitVec.toNat_ofNat]
  have hc := BitVec.toInt_eq_toNat_cond x
  have := x.isLt
  simp only [Nat.reducePow] at *
  split at hc <;> omega

/-- A refused store changes nothing: there is no new memory (the answer is `false`), and
it is refused exactly when the value or the index is. -/
theorem refused_iff (pad : Nat → Byte) (sh : Shape) (h : Header) (m : Mem) (i : Word) (v : Val) :
    atPut pad sh h m i v = none ↔
      encode pad sh v = none ∨ byteOffset (BitVec.ofNat 64 sh.size) h i = none := by
  simp only [atPut, Option.bind_eq_bind, Option.pure_def]
  cases encode pad sh v <;> cases byteOffset (BitVec.ofNat 64 sh.size) h i <;> simp

end Verif.Index
