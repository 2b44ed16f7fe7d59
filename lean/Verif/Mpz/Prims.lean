/-
The LargeInteger primitives of libgst/prims.def:417-1420.
-/
import Verif.Mpz.Model
import Verif.Mpz.Object

namespace Verif.Mpz

/-- What a primitive does: answer something, fail (so that the Smalltalk code of the method
runs), or do something C does not define. -/
inductive Res (α : Type) where
  | ok (a : α)
  | fail
  | undef
  deriving DecidableEq

/-- The test for an integer and `_gst_mpz_from_oop`, as all primitives begin (for example
libgst/prims.def:426-434). -/
def load {α : Type} (o : Obj) (k : Z → Res α) : Res α :=
  if o = .other then .fail
  else
    match fromOop o with
    | none => .undef
    | some z => k z

/-- `_gst_oop_from_mpz` and the answer. -/
def answer (z : Z) : Res Obj :=
  match toOop z with
  | none => .undef
  | some o => .ok o

/-- The six comparisons (libgst/prims.def:417-671). -/
def primCmp (test : Int → Bool) (a b : Obj) : Res Bool :=
  load a fun x => load b fun y => .ok (test (cmp x y))

def primEq := primCmp fun c => c = 0
def primNe := primCmp fun c => c ≠ 0
def primLt := primCmp fun c => c < 0
def primGt := primCmp fun c => c > 0
def primLe := primCmp fun c => c ≤ 0
def primGe := primCmp fun c => c ≥ 0

/-- `VMpr_LargeInteger_plus` (libgst/prims.def:1215-1257). -/
def primPlus (a b : Obj) : Res Obj := load a fun x => load b fun y => answer (add x y)

/-- `VMpr_LargeInteger_minus` (libgst/prims.def:1260-1302). -/
def primMinus (a b : Obj) : Res Obj := load a fun x => load b fun y => answer (sub x y)

/-- `VMpr_LargeInteger_times` (libgst/prims.def:674-716). -/
def primTimes (a b : Obj) : Res Obj := load a fun x => load b fun y => answer (mul x y)

/-- `VMpr_LargeInteger_negated` (libgst/prims.def:973-1002): `0 - b`, where 0 is a number with
no limbs.  On failure it restores one stack slot too many; as the receiver of the methods
that call it is always an integer this does not happen. -/
def primNegated (b : Obj) : Res Obj := load b fun y => answer (sub ⟨0, [], 0⟩ y)

/-- `VMpr_LargeInteger_bitInvert` (libgst/prims.def:1140-1167). -/
def primBitInvert (a : Obj) : Res Obj := load a fun x => answer (com x)

/-- `VMpr_LargeInteger_bitAnd`, `bitOr` and `bitXor` (libgst/prims.def:1005-1137). -/
def primBitAnd (a b : Obj) : Res Obj := load a fun x => load b fun y => answer (land x y)
def primBitOr (a b : Obj) : Res Obj := load a fun x => load b fun y => answer (ior x y)
def primBitXor (a b : Obj) : Res Obj := load a fun x => load b fun y => answer (xor x y)

/-- Conversion of a SmallInteger's value to `int`. -/
def toInt32 (i : Int) : Int :=
  if i % 2 ^ 32 < 2 ^ 31 then i % 2 ^ 32 else i % 2 ^ 32 - 2 ^ 32

/-- The body of `VMpr_LargeInteger_bitShift` once the count is an `int`
(libgst/prims.def:1186-1206).  Negating the least `int` is not defined. -/
def shiftBy (n : Int) (x : Z) : Res Obj :=
  if 0 < n then
    match mul2exp x n.toNat with
    | none => .undef
    | some c => answer c
  else if n = -2 ^ 31 then .undef
  else
    match div2exp x (-n).toNat with
    | none => .undef
    | some c => answer c

/-- `VMpr_LargeInteger_bitShift` (libgst/prims.def:1171-1212). -/
def primBitShift (a b : Obj) : Res Obj :=
  match b with
  | .small i => load a fun x => shiftBy (toInt32 i) x
  | _ => .fail

/-- `FROM_INT` of a limb: SmallIntegers keep 63 bits. -/
def fromInt (x : Nat) : Obj :=
  .small (if x % 2 ^ 63 < 2 ^ 62 then ((x % 2 ^ 63 : Nat) : Int)
    else ((x % 2 ^ 63 : Nat) : Int) - 2 ^ 63)

/-- The shape of the five division primitives: a SmallInteger that is not zero is passed as
a machine word, a LargePositiveInteger or LargeNegativeInteger is converted, everything
else fails (for example libgst/prims.def:740-757). -/
def divide (a b : Obj) (small : Z → Int → Res Obj) (large : Z → Z → Res Obj) : Res Obj :=
  load a fun x =>
    match b with
    | .small i => if i ≠ 0 then small x i else .fail
    | .pos _ _ => load b fun y => large x y
    | .neg _ _ => load b fun y => large x y
    | _ => .fail

def orUndef {α : Type} (o : Option α) (k : α → Res Obj) : Res Obj :=
  match o with
  | none => .undef
  | some a => k a

/-- `VMpr_LargeInteger_intDiv` (libgst/prims.def:720-767). -/
def primIntDiv (a b : Obj) : Res Obj :=
  divide a b (fun x i => orUndef (fdivQrSi x i) fun r => answer r.1)
    (fun x y => orUndef (fdivQr x y) fun r => answer r.1)

/-- `VMpr_LargeInteger_modulo` (libgst/prims.def:770-820). -/
def primModulo (a b : Obj) : Res Obj :=
  divide a b (fun x i => orUndef (fdivQrSi x i) fun r => .ok (fromInt r.2))
    (fun x y => orUndef (fdivQr x y) fun r => answer r.2)

/-- `VMpr_LargeInteger_divExact` (libgst/prims.def:823-868). -/
def primDivExact (a b : Obj) : Res Obj :=
  divide a b (fun x i => orUndef (tdivQrSi x i) fun r => answer r.1)
    (fun x y => orUndef (divexact x y) fun q => answer q)

/-- `VMpr_LargeInteger_quo` (libgst/prims.def:870-917). -/
def primQuo (a b : Obj) : Res Obj :=
  divide a b (fun x i => orUndef (tdivQrSi x i) fun r => answer r.1)
    (fun x y => orUndef (tdivQr x y) fun r => answer r.1)

/-- `VMpr_LargeInteger_rem` (libgst/prims.def:920-970). -/
def primRem (a b : Obj) : Res Obj :=
  divide a b (fun x i => orUndef (tdivQrSi x i) fun r => .ok (fromInt r.2))
    (fun x y => orUndef (tdivQr x y) fun r => answer r.2)

/-- `VMpr_LargeInteger_gcd` (libgst/prims.def:1305-1354). -/
def primGcd (a b : Obj) : Res Obj :=
  load a fun x => load b fun y =>
    if a = .small 0 ∨ b = .small 0 ∨ a = .zero ∨ b = .zero then answer (add x y)
    else orUndef (gcd x y) fun g => answer g

/-! ### Conversion to a double -/

/-- Rounding a natural number to the nearest double, ties to even; the exponent is not
bounded here, so the model holds for numbers below 2^1024 only. -/
def rnd (x : Nat) : Nat :=
  if x < 2 ^ 53 then x
  else
    let e := Nat.log2 x - 52
    let q := x / 2 ^ e
    let r := x % 2 ^ e
    (if 2 ^ e < 2 * r ∨ (2 ^ e = 2 * r ∧ q % 2 = 1) then q + 1 else q) * 2 ^ e

/-- The loop of `_gst_mpz_get_d` (libgst/mpz.c:887-896) on the limbs from the most
significant one: shift, add the limb converted to a double, and give up if the sum has
grown by less than that.  `none`: the function answers false. -/
def getLoop : List Nat → Nat → Option Nat
  | [], d => some d
  | x :: xs, d =>
    let old := d * B
    let d' := rnd (old + rnd x)
    if rnd (d' - old) < rnd x then none else getLoop xs d'

/-- `_gst_mpz_get_d` (libgst/mpz.c:877-900).  The search for a limb that is not zero runs off
the start if there is none, and off the start at once for a negative size. -/
def getD (x : Z) : Res Nat :=
  if x.size < 0 then .undef
  else if trim x.lim = [] then .undef
  else
    match getLoop (trim x.lim).reverse 0 with
    | none => .fail
    | some d => .ok d

/-- `VMpr_LargeInteger_asFloatD` (libgst/prims.def:1357-1388); the answer is the double's
value. -/
def primAsFloatD (a : Obj) : Res Nat := load a getD

end Verif.Mpz
