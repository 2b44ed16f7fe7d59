/-!
# SmallInteger representation and primitives (64-bit build)

Model of the tagging macros and of the VM fast paths of the SmallInteger
arithmetic.  `intptr_t` values and object references (`OOP`) are `BitVec 64`.
C comparison operators on `intptr_t` are comparisons of `BitVec.toInt`.
-/

namespace Verif.SmallInt

/-- `intptr_t` / `OOP` on an LP64 machine. -/
abbrev Word := BitVec 64

/-- `TO_INT`: libgst/gstpriv.h:496-497, `((intptr_t) (oop) >> 1)`; the shift of a
negative number is arithmetic, as the sources assume. -/
def toInt (oop : Word) : Word := oop.sshiftRight 1

/-- `FROM_INT`: libgst/gstpriv.h:499-500, `(OOP) (((intptr_t) (i) << 1) + 1)`. -/
def fromInt (i : Word) : Word := (i <<< 1) + 1#64

/-- `IS_INT`: libgst/gst.h:166-167, `((intptr_t) (oop) & 1)`. -/
def isInt (oop : Word) : Bool := (oop &&& 1#64) != 0#64

/-- `ARE_INTS`: libgst/gst.h:171-172. -/
def areInts (a b : Word) : Bool := (a &&& b &&& 1#64) != 0#64

/-- `ST_INT_SIZE`: libgst/gstpriv.h:502 with `sizeof (PTR) = 8`. -/
def stIntSize : Nat := 8 * 8 - 2

/-- `MAX_ST_INT`: libgst/gstpriv.h:503. -/
def maxStInt : Word := (1#64 <<< stIntSize) - 1#64

/-- `MIN_ST_INT`: libgst/gstpriv.h:504. -/
def minStInt : Word := ~~~ maxStInt

/-- `INT_OVERFLOW`: libgst/gstpriv.h:505. -/
def intOverflow (i : Word) : Bool := decide ((i ^^^ (i <<< 1)).toInt < 0)

/-- `INCR_INT`: libgst/gstpriv.h:508. -/
def incrInt (i : Word) : Word := i + 2#64

/-- `DECR_INT`: libgst/gstpriv.h:509. -/
def decrInt (i : Word) : Word := i - 2#64

/-- `tagged_and`: libgst/interp.inl:91-97. -/
def taggedAnd (a b : Word) : Word := a &&& b

/-- `tagged_or`: libgst/interp.inl:99-105. -/
def taggedOr (a b : Word) : Word := a ||| b

/-- `tagged_xor`: libgst/interp.inl:107-113. -/
def taggedXor (a b : Word) : Word := a ^^^ (b - 1#64)

/-- `add_with_check`, portable path: libgst/interp.inl:128-132.
Answers the result word and the overflow flag. -/
def addWithCheck (op1 op2 : Word) : Word × Bool :=
  let r := op1 + (op2 - 1#64)
  (r, decide ((op1 ^^^ op2).toInt ≥ 0) && decide ((op1 ^^^ r).toInt < 0))

/-- The x86 overflow flag after a signed addition: set iff the infinitely precise
sum does not fit. -/
def x86AddOF (a b : Word) : Bool := decide ((a + b).toInt ≠ a.toInt + b.toInt)

/-- The x86 overflow flag after a signed subtraction. -/
def x86SubOF (a b : Word) : Bool := decide ((a - b).toInt ≠ a.toInt - b.toInt)

/-- `add_with_check`, x86 path: libgst/interp.inl:121-127 (`add`/`seto`). -/
def addWithCheckX86 (op1 op2 : Word) : Word × Bool :=
  let b := op2 - 1#64
  (op1 + b, x86AddOF op1 b)

/-- `sub_with_check`, portable path: libgst/interp.inl:150-154. -/
def subWithCheck (op1 op2 : Word) : Word × Bool :=
  let r := op1 - (op2 - 1#64)
  (r, decide ((op1 ^^^ op2).toInt < 0) && decide ((op1 ^^^ r).toInt < 0))

/-- `sub_with_check`, x86 path: libgst/interp.inl:143-149 (`sub`/`seto`). -/
def subWithCheckX86 (op1 op2 : Word) : Word × Bool :=
  let b := op2 - 1#64
  (op1 - b, x86SubOF op1 b)

/-- `mul_with_check`, path with `__builtin_mul_overflow`:
libgst/interp.inl:162-183. -/
def mulWithCheck (op1 op2 : Word) : Word × Bool :=
  let a := toInt op1
  let b := toInt op2
  -- `__builtin_mul_overflow (a, b, &result)`
  if (a * b).toInt ≠ a.toInt * b.toInt then (fromInt 0#64, true)
  else
    let result := a * b
    if result.toInt < minStInt.toInt ∨ result.toInt > maxStInt.toInt then
      (fromInt 0#64, true)
    else (fromInt result, false)

/-- `mul_with_check`, path with a 128-bit `intmax_t`:
libgst/interp.inl:185-199, `sizeof (intmax_t) >= 2 * sizeof (intptr_t)`. -/
def mulWithCheckWide (op1 op2 : Word) : Word × Bool :=
  let a : BitVec 128 := (toInt op1).signExtend 128
  let b : BitVec 128 := (toInt op2).signExtend 128
  let result := a * b
  if result.toInt > maxStInt.toInt ∨ result.toInt < minStInt.toInt then
    (fromInt 0#64, true)
  else (fromInt (result.truncate 64), false)

/-- `mul_with_check`, path with the division check, `intmax_t` 64 bits wide:
libgst/interp.inl:186-188 and 201-211.  The wrapping product is what the compiler
produces when signed overflow is compiled as wrap-around (`-fwrapv`); the quotient
is C division. -/
def mulWithCheckDiv (op1 op2 : Word) : Word × Bool :=
  let a := toInt op1
  let b := toInt op2
  let result := a * b
  if ((a ||| b).toNat < 2 ^ (stIntSize / 2) ∨ b = 0#64 ∨ result.sdiv b = a)
      ∧ intOverflow result = false then
    (fromInt result, false)
  else (fromInt 0#64, true)

/-- Result of a primitive: `none` is `PRIM_FAILED` (operands are left on the
stack and the Smalltalk fallback runs). -/
abbrev Prim := Option Word

/-- `INT_BIN_OP`: libgst/prims.def:84-103 with `noOverflow = false`. -/
def intBinOp (f : Word → Word → Word × Bool) (oop1 oop2 : Word) : Prim :=
  if isInt oop1 && isInt oop2 then
    let r := f oop1 oop2
    if r.2 then none else some r.1
  else none

/-- `INT_BIN_OP` with `noOverflow = true` (prims.def:290-308). -/
def intBinOpNoOv (f : Word → Word → Word) (oop1 oop2 : Word) : Prim :=
  if isInt oop1 && isInt oop2 then some (f oop1 oop2) else none

/-- The six operators passed to `BOOL_BIN_OP`. -/
inductive Cmp | lt | gt | le | ge | eq | ne
  deriving DecidableEq

/-- The C operator applied to two `intptr_t`. -/
def Cmp.eval : Cmp → Word → Word → Bool
  | .lt, a, b => decide (a.toInt < b.toInt)
  | .gt, a, b => decide (a.toInt > b.toInt)
  | .le, a, b => decide (a.toInt ≤ b.toInt)
  | .ge, a, b => decide (a.toInt ≥ b.toInt)
  | .eq, a, b => decide (a = b)
  | .ne, a, b => decide (a ≠ b)

/-- `BOOL_BIN_OP`: libgst/prims.def:105-117; the tagged words are compared. -/
def boolBinOp (c : Cmp) (oop1 oop2 : Word) : Option Bool :=
  if isInt oop1 && isInt oop2 then some (c.eval oop1 oop2) else none

/-- `VMpr_SmallInteger_divide`: libgst/prims.def:184-207.  `iarg1 / iarg2` is C
division (`BitVec.sdiv`), `iarg2 *= result` wraps. -/
def primDivide (oop1 oop2 : Word) : Prim :=
  if isInt oop1 && isInt oop2 && (oop2 != fromInt 0#64) then
    let iarg1 := toInt oop1
    let iarg2 := toInt oop2
    let result := iarg1.sdiv iarg2
    if iarg1 = iarg2 * result then some (fromInt result) else none
  else none

/-- `VMpr_SmallInteger_modulo`: libgst/prims.def:211-231. -/
def primModulo (oop1 oop2 : Word) : Prim :=
  if isInt oop1 && isInt oop2 && (oop2 != fromInt 0#64) then
    let iarg1 := toInt oop1
    let iarg2 := toInt oop2
    let result := iarg1.srem iarg2
    some (fromInt (if result ≠ 0#64 ∧ (result ^^^ iarg2).toInt < 0
                   then result + iarg2 else result))
  else none

/-- `VMpr_SmallInteger_intDiv`: libgst/prims.def:235-262. -/
def primIntDiv (oop1 oop2 : Word) : Prim :=
  if isInt oop1 && isInt oop2 && (oop2 != fromInt 0#64) then
    let neg := (toInt oop2).toInt < 0
    let iarg1 := if neg then - toInt oop1 else toInt oop1
    let iarg2 := if neg then - toInt oop2 else toInt oop2
    if iarg1.toInt < 0 then
      some (fromInt (- ((iarg2 - 1#64 - iarg1).sdiv iarg2)))
    else some (fromInt (iarg1.sdiv iarg2))
  else none

/-- `VMpr_SmallInteger_quo`: libgst/prims.def:266-287. -/
def primQuo (oop1 oop2 : Word) : Prim :=
  if isInt oop1 && isInt oop2 then
    let iarg1 := toInt oop1
    let iarg2 := toInt oop2
    if iarg2 ≠ 0#64 then some (fromInt (iarg1.sdiv iarg2)) else none
  else none

/-- `VMpr_SmallInteger_bitShift`: libgst/prims.def:311-346 (same logic in
libgst/vm.def `BIT_SHIFT_SPECIAL`, 371-400). -/
def primBitShift (oop1 oop2 : Word) : Prim :=
  if isInt oop1 && isInt oop2 then
    let iarg1 := toInt oop1
    let iarg2 := toInt oop2
    if iarg2.toInt < 0 then
      if iarg2.toInt ≥ - (stIntSize : Int) then
        some (fromInt (iarg1.sshiftRight (- iarg2).toNat))
      else some (fromInt (iarg1.sshiftRight stIntSize))
    else if iarg2.toInt < (stIntSize : Int) then
      let result := iarg1 <<< iarg2.toNat
      if result.sshiftRight iarg2.toNat = iarg1 ∧ intOverflow result = false then
        some (fromInt result)
      else none
    else none
  else none

end Verif.SmallInt
