import Verif.Callout.Props
import Verif.CInt.Props
import Mathlib.Data.Rat.Defs
import Mathlib.Algebra.Order.Field.Rat
import Mathlib.Tactic.NormNum
import Mathlib.Tactic.Ring

/-! # The values that go to C and come back -/

namespace Verif.Callout

open Verif.CInt (Oop Word Byte toCInt32 toCInt64 fromCInt64 fromCUInt64)

/-! ### Model -/

/-- What `smalltalk_to_c` stores for an Integer (libgst/cint.c:1095-1137): `longVal` or `longLongVal`; `char` is signed.  `none` where a shift
is undefined; not for Floats. -/
def longVal (pad : Nat → Byte) (f : Form) (o : Oop) : Option Word :=
  match f with
  | .longLong | .long => toCInt64 pad o
  | .int => some ((toCInt32 pad o).signExtend 64)
  | .uInt => some ((toCInt32 pad o).zeroExtend 64)
  | .char => some (((toCInt32 pad o).truncate 8).signExtend 64)
  | .uChar => some (((toCInt32 pad o).truncate 8).zeroExtend 64)
  | .short => some (((toCInt32 pad o).truncate 16).signExtend 64)
  | .uShort => some (((toCInt32 pad o).truncate 16).zeroExtend 64)
  | _ => none

/-- What a call-out answers. -/
inductive Answer where
  | self | nil | object | cObject
  | character (code : Nat)
  /-- A wide character. -/
  | wide (code : Nat)
  | truth (b : Bool)
  | int (o : Oop)
  /-- A symbol, String or UnicodeString from C, and whether its memory is freed. -/
  | symbol (free : Bool)
  | string (free : Bool)
  | wstring (free : Bool)
  /-- A FloatD with these bits. -/
  | floatD (w : Word)
  /-- A FloatE from the double with these bits. -/
  | floatE (w : Word)
  /-- "Invalid C function return type specified", and nil. -/
  | invalid
deriving DecidableEq

/-- `c_to_smalltalk` (libgst/cint.c:1319-1435), from the first 64 bits of the result. -/
def fromC (t : CT) (w : Word) : Answer :=
  match t with
  | .void => .self
  | .char | .uChar => .character (w.truncate 8).toNat
  | .wchar => .wide (w.truncate 32).toNat
  | .boolean => .truth (w ≠ 0)
  | .int => .int (.small ((w.truncate 32).signExtend 64))
  | .uInt => .int (.small ((w.truncate 32).zeroExtend 64))
  | .short => .int (.small ((w.truncate 16).signExtend 64))
  | .uShort => .int (.small ((w.truncate 16).zeroExtend 64))
  | .long => .int (fromCInt64 w)
  | .uLong => .int (fromCUInt64 w)
  | .longLong => .int (fromCInt64 w)
  | .uLongLong => .int (fromCUInt64 w)
  | .smalltalk => if w = 0 then .nil else .object
  | .symbol => if w = 0 then .nil else .symbol false
  | .symbolOut => if w = 0 then .nil else .symbol true
  | .cObject => if w = 0 then .nil else .cObject
  | .string => if w = 0 then .nil else .string false
  | .stringOut => if w = 0 then .nil else .string true
  | .wstring => if w = 0 then .nil else .wstring false
  | .wstringOut => if w = 0 then .nil else .wstring true
  | .double => .floatD w
  | .float => .floatE w
  | _ => .invalid

/-! ### C197 -/

/-- The C types for Integers: how many bits, and whether they are signed. -/
def width : CT → Option (ℕ × Bool)
  | .short => some (16, true)
  | .uShort => some (16, false)
  | .int => some (32, true)
  | .uInt => some (32, false)
  | .long | .longLong => some (64, true)
  | .uLong | .uLongLong => some (64, false)
  | _ => none

/-- The bits stand for the number. -/
def Stands (n : ℕ) (signed : Bool) (w : Word) (v : ℤ) : Prop :=
  if signed then (w.truncate n).toInt = v else ((w.truncate n).toNat : ℤ) = v

/-- What C returns is what is answered, whatever is in the bits that do not belong to the type. -/
theorem returned (t : CT) (n : ℕ) (signed : Bool) (ht : width t = some (n, signed)) (w : Word) (v : ℤ) (hv : Stands n signed w v) :
    ∃ o, fromC t w = .int o ∧ CInt.value o = some v := by
  have small : ∀ x : Word, x.toInt = v → CInt.value (.small x) = some v := fun x h => by simp [CInt.value, h]
  have sx : ∀ (m : ℕ) (x : BitVec m), 0 < m → m ≤ 64 → (x.signExtend 64).toInt = x.toInt := by
    intro m x h0 hm
    exact BitVec.toInt_signExtend_of_le hm
  have zx : ∀ (m : ℕ) (x : BitVec m), m < 64 → (x.zeroExtend 64).toInt = x.toNat := by
    intro m x hm
    have hl := x.isLt
    have h2 : 2 ^ m ≤ 2 ^ 63 := Nat.pow_le_pow_right (by decide) (by omega)
    have e : (x.zeroExtend 64).toNat = x.toNat := by
      rw [show (x.zeroExtend 64).toNat = x.toNat % 2 ^ 64 from BitVec.toNat_setWidth ..]
      exact Nat.mod_eq_of_lt (by simp only [Nat.reducePow] at *; omega)
    rw [BitVec.toInt_eq_toNat_cond, e, if_pos]
    simp only [Nat.reducePow] at *
    omega
  have full : ∀ x : Word, x.truncate 64 = x := fun x => by simp
  cases t <;> simp only [width, Option.some.injEq, Prod.mk.injEq, reduceCtorEq] at ht <;> obtain ⟨rfl, rfl⟩ := ht <;>
    simp only [Stands, if_true, Bool.false_eq_true, if_false] at hv
  · exact ⟨_, rfl, small _ ((sx 16 _ (by decide) (by decide)).trans hv)⟩
  · exact ⟨_, rfl, small _ ((zx 16 _ (by decide)).trans hv)⟩
  · rw [full] at hv; exact ⟨_, rfl, by rw [CInt.fromCInt64_value, hv]⟩
  · rw [full] at hv; exact ⟨_, rfl, by rw [CInt.fromCUInt64_value, hv]⟩
  · exact ⟨_, rfl, small _ ((sx 32 _ (by decide) (by decide)).trans hv)⟩
  · exact ⟨_, rfl, small _ ((zx 32 _ (by decide)).trans hv)⟩
  · rw [full] at hv; exact ⟨_, rfl, by rw [CInt.fromCInt64_value, hv]⟩
  · rw [full] at hv; exact ⟨_, rfl, by rw [CInt.fromCUInt64_value, hv]⟩

/-- The numbers of a type. -/
def Range (n : ℕ) (signed : Bool) (v : ℤ) : Prop := if signed then -(2 ^ (n - 1)) ≤ v ∧ v < 2 ^ (n - 1) else 0 ≤ v ∧ v < 2 ^ n

/-- Missing: numbers outside of the range of the type, which should be refused (see `range_fails`); for 64 bits without sign, numbers from
`2 ^ 63` (see Verif.CInt).

SmallIntegers, and for `#long` and `#longLong` all Integers of four to eight bytes, reach C with their value. -/
theorem passed_partial (pad : Nat → Byte) (t : CT) (n : ℕ) (signed : Bool) (ht : width t = some (n, signed)) (o : Oop) (v : ℤ)
    (hv : CInt.value o = some v) (hr : Range n signed v) (ho : (∃ i, o = .small i) ∨ n = 64 ∧ signed = true ∧ CInt.isCInt64 o = true) :
    ∃ c w, fromInteger t = some c ∧ longVal pad c.2 o = some w ∧ Stands n signed w v := by
  rcases ho with ⟨i, rfl⟩ | ⟨rfl, rfl, ho⟩
  · have hi : i.toInt = v := by simpa [CInt.value] using hv
    have full : ∀ x : Word, x.truncate 64 = x := fun x => by simp
    have tr : ∀ m : ℕ, m ≤ 64 → 0 < m → -(2 ^ (m - 1)) ≤ v → v < 2 ^ (m - 1) → (i.truncate m).toInt = v := by
      intro m hm h0 h1 h2
      rw [show i.truncate m = i.signExtend m from (BitVec.signExtend_eq_setWidth_of_le _ hm).symm, BitVec.toInt_signExtend, Nat.min_eq_left hm, hi]
      obtain ⟨k, rfl⟩ : ∃ k, m = k + 1 := ⟨m - 1, by omega⟩
      simp only [Nat.add_sub_cancel] at h1 h2
      apply Int.bmod_eq_of_le
      · have : ((2 ^ (k + 1) : ℕ) : ℤ) = 2 * 2 ^ k := by push_cast; rw [pow_succ]; ring
        rw [this]; omega
      · have : ((2 ^ (k + 1) : ℕ) : ℤ) = 2 * 2 ^ k := by push_cast; rw [pow_succ]; ring
        rw [this]; omega
    have tu : ∀ m : ℕ, m ≤ 64 → 0 ≤ v → v < 2 ^ m → ((i.truncate m).toNat : ℤ) = v := by
      intro m hm h1 h2
      have e : (i.toNat : ℤ) = v := by
        have := BitVec.toInt_eq_toNat_cond i
        have hlt := i.isLt
        split at this <;> omega
      rw [show (i.truncate m).toNat = i.toNat % 2 ^ m from BitVec.toNat_setWidth .., Nat.mod_eq_of_lt, e]
      have : ((2 ^ m : ℕ) : ℤ) = 2 ^ m := by push_cast; rfl
      omega
    have e1 : ∀ x : BitVec 16, (x.signExtend 64).truncate 16 = x := fun x => by
      apply BitVec.eq_of_getLsbD_eq; intro j hj; simp [BitVec.getLsbD_signExtend, hj]; omega
    have e2 : ∀ x : BitVec 32, (x.signExtend 64).truncate 32 = x := fun x => by
      apply BitVec.eq_of_getLsbD_eq; intro j hj; simp [BitVec.getLsbD_signExtend, hj]; omega
    have e3 : ∀ x : BitVec 16, (x.zeroExtend 64).truncate 16 = x := fun x => by
      apply BitVec.eq_of_getLsbD_eq; intro j hj; simp [hj]
    have e4 : ∀ x : BitVec 32, (x.zeroExtend 64).truncate 32 = x := fun x => by
      apply BitVec.eq_of_getLsbD_eq; intro j hj; simp [hj]
    have e5 : (i.truncate 32).truncate 16 = i.truncate 16 := by
      apply BitVec.eq_of_getLsbD_eq; intro j hj; simp [hj]
    cases t <;> simp only [width, Option.some.injEq, Prod.mk.injEq, reduceCtorEq] at ht <;> obtain ⟨rfl, rfl⟩ := ht <;>
      simp only [Range, if_true, Bool.false_eq_true, if_false] at hr <;> simp only [Stands, if_true, Bool.false_eq_true, if_false]
    · refine ⟨_, _, rfl, rfl, ?_⟩
      rw [e1]; show ((i.truncate 32).truncate 16).toInt = v; rw [e5]; exact tr 16 (by decide) (by decide) hr.1 hr.2
    · refine ⟨_, _, rfl, rfl, ?_⟩
      rw [e3]; show (((i.truncate 32).truncate 16).toNat : ℤ) = v; rw [e5]; exact tu 16 (by decide) hr.1 hr.2
    · refine ⟨_, _, rfl, rfl, ?_⟩
      rw [full]; exact hi
    · refine ⟨_, _, rfl, rfl, ?_⟩
      exact tu 64 (by decide) hr.1 hr.2
    · refine ⟨_, _, rfl, rfl, ?_⟩
      rw [e2]; exact tr 32 (by decide) (by decide) hr.1 hr.2
    · refine ⟨_, _, rfl, rfl, ?_⟩
      rw [e4]; exact tu 32 (by decide) hr.1 hr.2
    · refine ⟨_, _, rfl, rfl, ?_⟩
      rw [full]; exact hi
    · refine ⟨_, _, rfl, rfl, ?_⟩
      exact tu 64 (by decide) hr.1 hr.2
  · have hr' : -9223372036854775808 ≤ v ∧ v < 9223372036854775808 := by
      simpa [Range] using hr
    obtain ⟨w, h1, h2⟩ := CInt.toCInt64_value pad o ho v hv hr'.1 hr'.2
    cases t <;> simp [width] at ht
    all_goals exact ⟨_, w, rfl, h1, by simpa [Stands] using h2⟩

example : ∃ o, fromC .short 0xABCDEF0012348000#64 = .int o ∧ CInt.value o = some (-32768) := returned .short 16 true rfl _ _ (by unfold Stands; decide)

example : Range 32 false 4294967295 ∧ CInt.value (.small 4294967295#64) = some 4294967295 := ⟨by unfold Range; decide, by decide⟩

/-- Numbers that the type does not have are passed with other values. -/
theorem range_fails (pad : Nat → Byte) : longVal pad .short (.small 65537#64) = some 1 ∧ longVal pad .uInt (.small (-1)) = some 4294967295 := by
  constructor <;> simp [longVal, toCInt32]

/-- The value of a double, of a float (IEEE 754; not for infinities and NaNs). -/
def double (w : Word) : ℚ :=
  let e : ℕ := (w.toNat / 2 ^ 52) % 2 ^ 11
  let m : ℕ := w.toNat % 2 ^ 52
  (if w.toNat / 2 ^ 63 = 0 then 1 else -1) * (if e = 0 then (m : ℚ) / 2 ^ 1074 else (2 ^ 52 + (m : ℚ)) * 2 ^ e / 2 ^ 1075)

def single (w : BitVec 32) : ℚ :=
  let e : ℕ := (w.toNat / 2 ^ 23) % 2 ^ 8
  let m : ℕ := w.toNat % 2 ^ 23
  (if w.toNat / 2 ^ 31 = 0 then 1 else -1) * (if e = 0 then (m : ℚ) / 2 ^ 149 else (2 ^ 23 + (m : ℚ)) * 2 ^ e / 2 ^ 150)

set_option exponentiation.threshold 2000 in
/-- A function that returns the float 1, with zeros in the other bits: the double that makes the FloatE is smaller than any float but 0. -/
theorem float_fails : single 0x3F800000#32 = 1 ∧ fromC .float 0x3F800000#64 = .floatE 0x3F800000#64 ∧ 0 < double 0x3F800000#64 ∧
    double 0x3F800000#64 < 1 / 2 ^ 1000 := by
  refine ⟨?_, rfl, ?_, ?_⟩
  · unfold single; norm_num
  · unfold double; norm_num
  · unfold double; norm_num

/-- `#longDouble`, which the manual has, is not known. -/
theorem longDouble_fails (w : Word) : fromC .longDouble w = .invalid := rfl

/-- The return types of the manual (doc/gst.texi:3228-3283), without `#longDouble`, are answered as objects of the class it says; memory is
freed for those whose names end in `Out`. -/
theorem answers_partial (w : Word) (hw : w ≠ 0) : fromC .void w = .self ∧ fromC .string w = .string false ∧ fromC .stringOut w = .string true ∧
    fromC .symbol w = .symbol false ∧ fromC .symbolOut w = .symbol true ∧ fromC .wstring w = .wstring false ∧ fromC .wstringOut w = .wstring true ∧
    fromC .double w = .floatD w ∧ fromC .cObject w = .cObject ∧ fromC .smalltalk w = .object ∧ fromC .char w = .character (w.truncate 8).toNat ∧
    (∀ t ∈ [CT.string, .stringOut, .symbol, .symbolOut, .wstring, .wstringOut, .cObject, .smalltalk], fromC t 0 = .nil) := by
  refine ⟨rfl, if_neg hw, if_neg hw, if_neg hw, if_neg hw, if_neg hw, if_neg hw, rfl, if_neg hw, if_neg hw, rfl, by decide⟩

end Verif.Callout
