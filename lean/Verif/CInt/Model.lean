/-!
# Conversions between C integers and Smalltalk Integers (64-bit build)

Model of `libgst/dict.inl`, `is_c_int_32` … `from_c_uint_64`.  C undefined
behaviour is the explicit outcome `none` of the converting functions.
-/

namespace Verif.CInt

abbrev Word := BitVec 64
abbrev Byte := BitVec 8

/-- The Smalltalk objects the conversions look at.  `small i` is a SmallInteger,
`i` being `TO_INT` of it; the other two are instances of LargePositiveInteger and
LargeNegativeInteger with their indexed bytes; `other` is any other object. -/
inductive Oop
  | small (i : Word)
  | largePos (b : List Byte)
  | largeNeg (b : List Byte)
  | other
  deriving DecidableEq

/-- Limits of the SmallInteger range, libgst/gstpriv.h:502-504. -/
def minStInt : Int := -4611686018427387904
def maxStInt : Int := 4611686018427387903

/-- `is_c_int_32`: libgst/dict.inl:1291-1309 (`SIZEOF_OOP == 8`). -/
def isCInt32 : Oop → Bool
  | .small i => decide (i.toInt ≥ -2147483648) && decide (i.toInt < 2147483647)
  | .largePos b => b.length == 4
  | .largeNeg b => b.length == 4
  | .other => false

/-- `is_c_uint_32`: libgst/dict.inl:1311-1336. -/
def isCUInt32 : Oop → Bool
  | .small i => decide (i.toInt ≥ 0) && decide (i.toInt < 4294967295)
  | .largePos b =>
    if b.length = 4 then true
    else if b.length = 5 then b.getD 4 0 == 0 else false
  | _ => false

/-- The bytes of a large integer as the C code sees them: past the indexed bytes
there is the padding of the object, whose content `pad` is arbitrary. -/
def byteAt (pad : Nat → Byte) (b : List Byte) (k : Nat) : Byte :=
  if h : k < b.length then b[k] else pad k

/-- `to_c_int_32`: libgst/dict.inl:1338-1351.  `TO_INT (oop)` is truncated to
32 bits by the return type. -/
def toCInt32 (pad : Nat → Byte) : Oop → BitVec 32
  | .small i => i.truncate 32
  | .largePos b | .largeNeg b =>
    (((byteAt pad b 3).zeroExtend 32) <<< 24) + (((byteAt pad b 2).zeroExtend 32) <<< 16)
      + (((byteAt pad b 1).zeroExtend 32) <<< 8) + (byteAt pad b 0).zeroExtend 32
  | .other => 0

/-- `from_c_int_32`: libgst/dict.inl:1353-1375. -/
def fromCInt32 (i : BitVec 32) : Oop :=
  if i.toInt ≥ minStInt ∧ i.toInt ≤ maxStInt then .small (i.signExtend 64)
  else
    let b := [i.truncate 8, (i >>> 8).truncate 8, (i >>> 16).truncate 8, (i >>> 24).truncate 8]
    if i.toInt < 0 then .largeNeg b else .largePos b

/-- `from_c_uint_32`: libgst/dict.inl:1377-1405; `((intptr_t) ui) < 0` is false on
a 64-bit machine. -/
def fromCUInt32 (ui : BitVec 32) : Oop :=
  if (ui.toNat : Int) ≤ maxStInt then .small (ui.zeroExtend 64)
  else .largePos [ui.truncate 8, (ui >>> 8).truncate 8, (ui >>> 16).truncate 8,
    (ui >>> 24).truncate 8]

/-- `is_c_int_64`: libgst/dict.inl:1408-1432. -/
def isCInt64 : Oop → Bool
  | .small _ => true
  | .largePos b => decide (4 ≤ b.length) && decide (b.length ≤ 8)
  | .largeNeg b => decide (4 ≤ b.length) && decide (b.length ≤ 8)
  | .other => false

/-- `is_c_uint_64`: libgst/dict.inl:1434-1459. -/
def isCUInt64 : Oop → Bool
  | .small i => decide (i.toInt ≥ 0)
  | .largePos b =>
    if 4 ≤ b.length ∧ b.length ≤ 8 then true
    else if b.length = 9 then b.getD 8 0 == 0 else false
  | _ => false

/-- `((uint64_t) 2) << k`; shifting by 64 or more is undefined behaviour (C99
6.5.7p3). -/
def shl2 (k : Nat) : Option Word := if k < 64 then some (2#64 <<< k) else none

/-- The low four bytes, dict.inl:1472-1476 and 1500-1504. -/
def lo4 (pad : Nat → Byte) (b : List Byte) : Word :=
  (((byteAt pad b 3).zeroExtend 64) <<< 24) + (((byteAt pad b 2).zeroExtend 64) <<< 16)
    + (((byteAt pad b 1).zeroExtend 64) <<< 8) + (byteAt pad b 0).zeroExtend 64

/-- The next four bytes, dict.inl:1479-1483 and 1507-1511. -/
def hi4 (pad : Nat → Byte) (b : List Byte) : Word :=
  (((byteAt pad b 7).zeroExtend 64) <<< 56) + (((byteAt pad b 6).zeroExtend 64) <<< 48)
    + (((byteAt pad b 5).zeroExtend 64) <<< 40) + (((byteAt pad b 4).zeroExtend 64) <<< 32)

/-- `to_c_uint_64`: libgst/dict.inl:1461-1486; `shift` is the meaning of
`((uint64_t) 2) << …`. -/
def toCUInt64With (shift : Nat → Option Word) (pad : Nat → Byte) : Oop → Option Word
  | .small i => some i
  | .largePos b | .largeNeg b => do
    let m ← shift (b.length * 8 - 1)
    let mask := m - 1#64
    let result := lo4 pad b
    pure (if b.length > 4 then result ||| (mask &&& hi4 pad b) else result)
  | .other => none

def toCUInt64 := toCUInt64With shl2

/-- `to_c_uint_64` as x86-64 executes it: the shift count is taken modulo 64. -/
def toCUInt64X86 := toCUInt64With fun k => some (2#64 <<< (k % 64))

/-- `to_c_int_64`: libgst/dict.inl:1488-1514. -/
def toCInt64 (pad : Nat → Byte) : Oop → Option Word
  | .small i => some i
  | .largePos b => do
    let m ← shl2 (b.length * 8 - 1)
    let mask := m - 1#64
    let result := 0#64 ||| lo4 pad b
    pure (if b.length > 4 then result ||| (mask &&& hi4 pad b) else result)
  | .largeNeg b => do
    let m ← shl2 (b.length * 8 - 1)
    let mask := m - 1#64
    let result := (~~~ mask) ||| lo4 pad b
    pure (if b.length > 4 then result ||| (mask &&& hi4 pad b) else result)
  | .other => none

/-- The eight byte stores of dict.inl:1533-1540 and 1567-1574. -/
def bytes8 (ui : Word) : List Byte :=
  [ui.truncate 8, (ui >>> 8).truncate 8, (ui >>> 16).truncate 8, (ui >>> 24).truncate 8,
   (ui >>> 32).truncate 8, (ui >>> 40).truncate 8, (ui >>> 48).truncate 8,
   (ui >>> 56).truncate 8]

/-- `from_c_int_64`: libgst/dict.inl:1516-1543. -/
def fromCInt64 (i : Word) : Oop :=
  if i.toInt ≥ minStInt ∧ i.toInt ≤ maxStInt then .small i
  else if i.toInt < 0 then .largeNeg (bytes8 i) else .largePos (bytes8 i)

/-- `from_c_uint_64`: libgst/dict.inl:1545-1577. -/
def fromCUInt64 (ui : Word) : Oop :=
  if (ui.toNat : Int) ≤ maxStInt then .small ui
  else if ui.toInt < 0 then .largePos (bytes8 ui ++ [0#8])
  else .largePos (bytes8 ui)

end Verif.CInt
