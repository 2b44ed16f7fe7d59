import Verif.CInt.Model

/-!
# Indexed access: `at:` and `at:put:` on objects with indexed instance variables

Model of `index_oop_spec` and `index_oop_put_spec`, libgst/dict.inl:975-1265, on a
64-bit little-endian machine.  Addresses are byte offsets from `object->data`; the
whole address space reachable from there is one function `Nat → Byte` (offsets are
`size_t`, i.e. taken modulo 2^64), so that an access outside of the object is
visible as such.
-/

namespace Verif.Index

open Verif.CInt (Word Byte)

/-- The shapes of indexed instance variables, libgst/gst.h:182-196.  `float` and
`double` take part in the bounds check only; the conversions of their values are not
modelled. -/
inductive Shape
  | schar | uchar | character | short | ushort | int | uint | float | int64 | uint64
  | double | utf32
  deriving DecidableEq

/-- `sizeof (type)` in the uses of `DO_INDEX_OOP`, dict.inl:1011-1080. -/
def Shape.size : Shape → Nat
  | .schar | .uchar | .character => 1
  | .short | .ushort => 2
  | .int | .uint | .float | .utf32 => 4
  | .int64 | .uint64 | .double => 8

/-- What the bounds check looks at: `NUM_WORDS (object)`, `oop->flags & EMPTY_BYTES`
and `instanceSpec >> ISP_NUMFIXEDFIELDS`. -/
structure Header where
  numWords : Word
  empty : Word
  fixed : Word

/-- The header of an object with `fixed` named and `n` indexed instance variables
of `s` bytes each: libgst/dict.inl:729-767 (`instantiate_with`): the size in bytes is
rounded up to a multiple of 8 (`ROUNDED_BYTES`, oop.h:101) and the excess is recorded
in the `EMPTY_BYTES` bits of the flags (`INIT_UNALIGNED_OBJECT`, gstpriv.h:474). -/
def header (fixed n s : Nat) : Header where
  numWords := BitVec.ofNat 64 (fixed + (n * s + 7) / 8)
  empty := BitVec.ofNat 64 ((n * s + 7) / 8 * 8 - n * s)
  fixed := BitVec.ofNat 64 fixed

/-- The bounds check of `DO_INDEX_OOP`/`DO_INDEX_OOP_PUT`: dict.inl:986-1003 and
1118-1136.  All the arithmetic is on `size_t`.  Answers the byte offset accessed. -/
def byteOffset (s : Word) (h : Header) (index : Word) : Option Word :=
  if index < 1#64 then none
  else
    let maxByte := h.numWords * 8#64 - h.empty
    let base := h.fixed * 8#64
    let index := base + index * s
    let base := base + s
    if index - base > maxByte - base then none
    else some (index - s)

/-- The `GST_ISP_POINTER` case: dict.inl:1082-1091 and 1251-1260.  Answers the index
into `object->data`. -/
def slotIndex (h : Header) (index : Word) : Option Word :=
  if index < 1#64 then none
  else
    let maxIndex := h.numWords
    let base := h.fixed
    let index := index + base
    let base := base + 1#64
    if index - base > maxIndex - base then none
    else some (index - 1#64)

/-- How the index reaches the check: `TO_INT` of a SmallInteger converted to
`size_t`, libgst/prims.def:2047-2090. -/
def sizeT (i : Int) : Word := BitVec.ofInt 64 i

/-! ## Memory -/

abbrev Mem := Nat → Byte

/-- A little-endian load of `n` bytes. -/
def load (m : Mem) (off : Nat) : Nat → Nat
  | 0 => 0
  | n + 1 => (m off).toNat + 256 * load m (off + 1) n

/-- A little-endian store of the low `n` bytes of `v`. -/
def store (m : Mem) (off : Nat) : Nat → Nat → Mem
  | 0, _ => m
  | n + 1, v => store (fun a => if a = off then BitVec.ofNat 8 v else m a) (off + 1) n (v / 256)

/-! ## Values -/

/-- The objects that can be stored: integers, Characters (the 256 entries of the
character table), UnicodeCharacters, and others. -/
inductive Val
  | int (o : CInt.Oop)
  | char (c : Byte)
  | unicode (c : BitVec 32)
  | other
  deriving DecidableEq

/-- `char_new`: libgst/dict.inl:587-603. -/
def charNew (c : BitVec 32) : Val :=
  if c.toNat ≤ 127 then .char (c.truncate 8)
  else if c.toNat > 0x10FFFF then .unicode 0xFFFD#32
  else .unicode c

/-- The value read for each shape, dict.inl:1012-1080, given the `sizeof (type)` bytes
at the element.  `FROM_INT (i)` converts the C variable `i` to `intptr_t`; the type of
that variable is what decides about the sign: note `uint16_t` for `GST_ISP_SHORT`.
Floats are not modelled. -/
def readElem : Shape → Nat → Option Val
  | .schar, v => some (.int (.small ((BitVec.ofNat 8 v).signExtend 64)))
  | .uchar, v => some (.int (.small ((BitVec.ofNat 8 v).zeroExtend 64)))
  | .character, v => some (.char (BitVec.ofNat 8 v))
  | .short, v => some (.int (.small ((BitVec.ofNat 16 v).zeroExtend 64)))
  | .ushort, v => some (.int (.small ((BitVec.ofNat 16 v).zeroExtend 64)))
  | .int, v => some (.int (CInt.fromCInt32 (BitVec.ofNat 32 v)))
  | .uint, v => some (.int (CInt.fromCUInt32 (BitVec.ofNat 32 v)))
  | .int64, v => some (.int (CInt.fromCInt64 (BitVec.ofNat 64 v)))
  | .uint64, v => some (.int (CInt.fromCUInt64 (BitVec.ofNat 64 v)))
  | .utf32, v => some (charNew (BitVec.ofNat 32 v))
  | .float, _ => none
  | .double, _ => none

/-- Range test of the small shapes. -/
def smallIn (lo hi : Int) (o : CInt.Oop) : Option Nat :=
  match o with
  | .small i => if i.toInt ≥ lo ∧ i.toInt ≤ hi then some i.toNat else none
  | _ => none

/-- The condition and conversion of each `DO_INDEX_OOP_PUT`, dict.inl:1158-1249: the
bits to store (the store itself truncates to `sizeof (type)`), `none` when the value is
refused.  `pad` is the padding of large integers (see `CInt.byteAt`).  Floats are not
modelled, and a 9-byte LargePositiveInteger, for which the conversion is undefined, is
`none` as well. -/
def encode (pad : Nat → Byte) : Shape → Val → Option Nat
  | .schar, .int o => smallIn (-128) 127 o
  | .uchar, .int o => smallIn 0 255 o
  | .character, .char c => some c.toNat
  | .short, .int o => smallIn (-32768) 32767 o
  | .ushort, .int o => smallIn 0 65535 o
  | .int, .int o => if CInt.isCInt32 o then some (CInt.toCInt32 pad o).toNat else none
  | .uint, .int o => if CInt.isCUInt32 o then some (CInt.toCInt32 pad o).toNat else none
  | .int64, .int o => if CInt.isCInt64 o then (CInt.toCInt64 pad o).map (·.toNat) else none
  | .uint64, .int o => if CInt.isCUInt64 o then (CInt.toCUInt64 pad o).map (·.toNat) else none
  | .utf32, .unicode c => some c.toNat
  | .utf32, .char c => if c.toNat ≤ 127 then some c.toNat else none
  | _, _ => none

/-- `index_oop_spec` for the non-pointer shapes: dict.inl:975-1081. -/
def at_ (sh : Shape) (h : Header) (m : Mem) (index : Word) : Option Val := do
  let off ← byteOffset (BitVec.ofNat 64 sh.size) h index
  readElem sh (load m off.toNat sh.size)

/-- `index_oop_put_spec` for the non-pointer shapes: dict.inl:1105-1249.  `none` is
the answer `false` (memory untouched). -/
def atPut (pad : Nat → Byte) (sh : Shape) (h : Header) (m : Mem) (index : Word) (v : Val) :
    Option Mem := do
  let bits ← encode pad sh v
  let off ← byteOffset (BitVec.ofNat 64 sh.size) h index
  pure (store m off.toNat sh.size bits)

/-- `index_oop_spec`, pointer case; the answer is the OOP, as a word. -/
def ptrAt (h : Header) (m : Mem) (index : Word) : Option Word := do
  let k ← slotIndex h index
  pure (BitVec.ofNat 64 (load m (8 * k.toNat) 8))

/-- `index_oop_put_spec`, pointer case. -/
def ptrAtPut (h : Header) (m : Mem) (index : Word) (v : Word) : Option Mem := do
  let k ← slotIndex h index
  pure (store m (8 * k.toNat) 8 v.toNat)

end Verif.Index
