import Mathlib.Data.Int.Notation
import Mathlib.Data.Nat.Notation

/-!
# The numbers behind literals of Floats

libgst/real.c and real.h: a significand of ten limbs of 16 bits, the least significant first, whose highest bit has the weight
`2 ^ exp`.  They are used by the lexer only (libgst/lex.c:905-926, 971-972, 1022-1023).  The exponent is an `int`: here an integer
that does not overflow.
-/

namespace Verif.Reals

/-- `struct real` (libgst/real.h:61-69). -/
structure Real where
  sig : List ℕ
  exp : ℤ
  sign : ℤ
  deriving DecidableEq, Repr

/-- `memset (out, 0, sizeof (struct real))`. -/
def zero : Real := ⟨List.replicate 10 0, 0, 0⟩

/-- `sig[i]`. -/
def limb (s : List ℕ) (i : ℕ) : ℕ := s.getD i 0

/-- `rshift_sig` (libgst/real.c:98-130).  In place it is the same: what is read was not written yet. -/
def rshift (s : List ℕ) (delta : ℕ) : List ℕ :=
  let r := delta % 16
  let d := delta / 16
  if r ≠ 0 then
    (List.range 10).map fun i =>
      if i + d < 9 then (limb s (i + d + 1) <<< (16 - r)) % 65536 ||| limb s (i + d) >>> r
      else if i + d = 9 then limb s (i + d) >>> r else 0
  else (List.range 10).map fun i => if i + d < 10 then limb s (i + d) else 0

/-- What `rshift_sig` answers. -/
def nonzero (s : List ℕ) : Bool := s.any (· ≠ 0)

/-- The position of the highest bit, from above (libgst/real.c:153-168). -/
def lshiftFor (msb : ℕ) : ℕ :=
  let a := if msb &&& 0xFF00 ≠ 0 then (15 - 8, msb) else (15, msb <<< 8)
  let b := if a.2 &&& 0xF000 ≠ 0 then (a.1 - 4, a.2) else (a.1, a.2 <<< 4)
  let c := if b.2 &&& 0xC000 ≠ 0 then (b.1 - 2, b.2) else (b.1, b.2 <<< 2)
  if c.2 &&& 0x8000 ≠ 0 then c.1 - 1 else c.1

/-- `normalize` (libgst/real.c:132-191); `old` is what was in `out`: without a shift of bits one limb of it stays. -/
def normalize (old : List ℕ) (v : Real) : Real :=
  let delta := (v.sig.reverse.takeWhile (· = 0)).length
  if delta = 10 then zero
  else
    let l := lshiftFor (limb v.sig (9 - delta))
    let sig := if l ≠ 0 then
        (List.range 10).map fun i =>
          if delta + 1 ≤ i then (limb v.sig (i - delta) <<< l) % 65536 ||| limb v.sig (i - delta - 1) >>> (16 - l)
          else if i = delta then (limb v.sig 0 <<< l) % 65536 else 0
      else (List.range 10).map fun i => if delta ≤ i then limb v.sig (i - delta) else if i + 1 = delta then limb old i else 0
    ⟨sig, v.exp - 16 * delta - l, v.sign⟩

/-- `_gst_real_from_int` (libgst/real.c:208-239). -/
def fromInt (s : ℤ) : Real :=
  let n := s.natAbs
  let a := if n &&& 0xFF00 ≠ 0 then (8, n) else (0, n <<< 8)
  let b := if a.2 &&& 0xF000 ≠ 0 then (a.1 + 4, a.2) else (a.1, a.2 <<< 4)
  let c := if b.2 &&& 0xC000 ≠ 0 then (b.1 + 2, b.2) else (b.1, b.2 <<< 2)
  let d := if c.2 &&& 0x8000 ≠ 0 then (c.1 + 1, c.2) else (c.1, c.2 <<< 1)
  ⟨List.replicate 9 0 ++ [d.2 % 65536], d.1, if s < 0 then -1 else 1⟩

/-- `add_significands` (libgst/real.c:241-253), from a carry. -/
def addSig : List ℕ → List ℕ → ℕ → List ℕ × ℕ
  | r :: rs, s :: ss, c =>
    let t := addSig rs ss ((r + s + c) / 65536)
    ((r + s + c) % 65536 :: t.1, t.2)
  | _, _, c => ([], c)

/-- `cmp_significands` (libgst/real.c:255-264). -/
def cmpSig (r s : List ℕ) : ℤ :=
  match (r.zip s).reverse.find? fun p => p.1 ≠ p.2 with
  | some p => p.1 - p.2
  | none => 0

/-- `sub_significands` (libgst/real.c:266-276), with 1 for a carry of -1. -/
def subSig : List ℕ → List ℕ → ℕ → List ℕ
  | r :: rs, s :: ss, c => (((r : ℤ) - s - c) % 65536).toNat :: subSig rs ss (if (r : ℤ) - s - c < 0 then 1 else 0)
  | _, _, _ => []

/-- `sig[SIGSZ - 1] |= SIG_MSB`. -/
def orTop (s : List ℕ) : List ℕ := s.set 9 (limb s 9 ||| 0x8000)

/-- The sum of two with the same exponent (libgst/real.c:301-307). -/
def addAligned (r : Real) (s : List ℕ) : Real :=
  let a := addSig r.sig s 0
  if a.2 ≠ 0 then ⟨orTop (rshift a.1 1), r.exp + 1, r.sign⟩ else ⟨a.1, r.exp, r.sign⟩

/-- `do_add` (libgst/real.c:278-308) with `adjust_exp` (libgst/real.c:190-205). -/
def doAdd (r s : Real) : Real :=
  if r.exp < s.exp then
    if 160 ≤ s.exp - r.exp then s
    else
      let t := rshift r.sig (s.exp - r.exp).toNat
      if nonzero t then addAligned ⟨t, s.exp, r.sign⟩ s.sig else s
  else if s.exp < r.exp then
    if 160 ≤ r.exp - s.exp then r
    else
      let t := rshift s.sig (r.exp - s.exp).toNat
      if nonzero t then addAligned r t else r
  else addAligned r s.sig

/-- `_gst_real_add_int` (libgst/real.c:323-337); with another sign it is `abort ()`. -/
def addInt (r : Real) (s : ℤ) : Option Real :=
  if s = 0 then some r
  else if r.sign = 0 then some (fromInt s)
  else if (fromInt s).sign = r.sign then some (doAdd r (fromInt s)) else none

/-- The loop of `do_mul` (libgst/real.c:354-380): `mask` is two to the `j`.  There are at most 160 rounds. -/
def mulLoop (s : List ℕ) (lsb : ℕ) : ℕ → ℕ → ℕ → List ℕ → List ℕ → ℤ → List ℕ × ℤ
  | 0, _, _, r, _, e => (r, e)
  | fuel + 1, n, j, r, rr, e =>
    if lsb < n ∨ limb s n &&& (2 ^ j - 1) ≠ 0 then
      let n' := if j = 0 then n - 1 else n
      let j' := if j = 0 then 15 else j - 1
      let rr := rshift rr 1
      if nonzero rr then
        if limb s n' &&& 2 ^ j' ≠ 0 then
          let a := addSig r rr 0
          if a.2 ≠ 0 then
            let r := orTop (rshift a.1 1)
            let rr := rshift rr 1
            if nonzero rr then mulLoop s lsb fuel n' j' r rr (e + 1) else (r, e + 1)
          else mulLoop s lsb fuel n' j' a.1 rr e
        else mulLoop s lsb fuel n' j' r rr e
      else (r, e)
    else (r, e)

/-- `do_mul` (libgst/real.c:339-380). -/
def doMul (r s : Real) (lsb : ℕ) : Real :=
  let p := mulLoop s.sig lsb 160 9 15 r.sig r.sig (r.exp + s.exp)
  ⟨p.1, p.2, r.sign * s.sign⟩

/-- `_gst_real_mul` (libgst/real.c:382-400), when `s` is not zero: with zero the assertion in `do_mul` fails. -/
def mul (r s : Real) : Real := if r.sign = 0 then r else doMul r s (s.sig.findIdx (· ≠ 0))

/-- `_gst_real_mul_int` (libgst/real.c:402-414). -/
def mulInt (r : Real) (s : ℤ) : Real :=
  let r := if s = 0 then zero else r
  if r.sign = 0 then r else doMul r (fromInt s) 9

/-- The loop of `_gst_real_powi` (libgst/real.c:432-443): instead of shifting `k` to the left, `s` goes to the right. -/
def powLoop : ℕ → Real → Real → ℕ → Real
  | 0, out, _, _ => out
  | n + 1, out, r, s =>
    if s % 2 = 1 then
      let out := mul out r
      if s / 2 = 0 then out else powLoop n out (mul r r) (s / 2)
    else powLoop n out (mul r r) (s / 2)

/-- `_gst_real_powi` (libgst/real.c:417-444), with a positive exponent. -/
def powi (r : Real) (s : ℕ) : Real := powLoop s (fromInt 1) r s

/-- One bit to the left (libgst/real.c:463-466). -/
def shl1 (r : List ℕ) : List ℕ :=
  (List.range 10).map fun i => if 1 ≤ i then (limb r i <<< 1) % 65536 ||| limb r (i - 1) >>> 15 else (limb r 0 <<< 1) % 65536

/-- `v.sig[place] |= bit`, for the bit `p`. -/
def setBit (v : List ℕ) (p : ℕ) : List ℕ := v.set (p / 16) (limb v (p / 16) ||| 2 ^ (p % 16))

/-- libgst/real.c:468-473. -/
def divStep (s : List ℕ) (msb : ℕ) (r v : List ℕ) (p : ℕ) : List ℕ × List ℕ :=
  if msb ≠ 0 ∨ 0 ≤ cmpSig r s then (subSig r s 0, setBit v p) else (r, v)

/-- The loop of `do_div` (libgst/real.c:460-475), for the bits below `p`. -/
def divLoop (s : List ℕ) : ℕ → List ℕ × List ℕ → List ℕ × List ℕ
  | 0, x => x
  | p + 1, x => divLoop s p (divStep s (limb x.1 9 &&& 0x8000) (shl1 x.1) x.2 p)

/-- `do_div` (libgst/real.c:446-476) as called by the lexer: `out` is `r`, and the first round has no shift. -/
def doDiv (r s : Real) : Real :=
  let x := divLoop s.sig 159 (divStep s.sig 0 r.sig (List.replicate 10 0) 159)
  normalize x.1 ⟨x.2, r.exp - s.exp, r.sign * s.sign⟩

/-- `_gst_real_div` (libgst/real.c:478-504). -/
def div (r s : Real) : Real := if r.sign = 0 then zero else doDiv r s

/-- A natural number in so many bits, to nearest, ties to even. -/
def rnd (p n : ℕ) : ℕ :=
  let u := 2 ^ (Nat.log2 n + 1 - p)
  if n % u * 2 < u ∨ (n % u * 2 = u ∧ n / u % 2 = 0) then n / u * u else (n / u + 1) * u

/-- `_gst_real_get_ld` (libgst/real.c:519-533) for a `long double` of 64 bits: a product with 65536 is exact, a sum is rounded.  Then
`ldexpl`, taken as exact: numbers out of the range of a `long double` are not modelled.  What is answered is the significand, of
weight `2 ^ (exp - 159)`. -/
def getLd (r : Real) : ℕ := r.sig.reverse.foldl (fun acc x => rnd 64 (acc * 65536 + x)) 0

/-- The digits of `scan_digits` and `scan_fraction` (libgst/lex.c:971-972, 1022-1023). -/
def scan (base : ℕ) (ds : List ℕ) : Option Real := ds.foldlM (fun (n : Real) (d : ℕ) => addInt (mulInt n base) d) zero

/-- The number of a literal (libgst/lex.c:905-923): digits before and after the point, and the exponent that was written. -/
def literal (base : ℕ) (ints frac : List ℕ) (exponent : ℤ) : Option Real :=
  (scan base (ints ++ frac)).bind fun num =>
    let e := exponent - frac.length
    if e ≠ 0 then
      let r := powi (fromInt base) e.natAbs
      some (if e < 0 then div num r else mul num r)
    else some num

/-- The constant (libgst/lex.c:924, libgst/comp.c:2193-2197): the `long double` becomes a `double` (53 bits) or a `float` (24).  Numbers
out of their range are not modelled.  The answer is the significand and the exponent of its unit. -/
def constant (p : ℕ) (base : ℕ) (ints frac : List ℕ) (exponent : ℤ) : Option (ℕ × ℤ) :=
  (literal base ints frac exponent).bind fun r => some (rnd p (getLd r), r.exp - 159)

/-- `(int) floatExponent`, that was a `uintptr_t` of 64 bits (libgst/lex.c:883-894). -/
def intOf (n : ℕ) : ℤ := if n % 2 ^ 32 < 2 ^ 31 then ((n % 2 ^ 32 : ℕ) : ℤ) else ((n % 2 ^ 32 : ℕ) : ℤ) - 2 ^ 32

/-- A literal with an exponent: its sign and its digits as a number. -/
def written (p : ℕ) (base : ℕ) (ints frac : List ℕ) (negative : Bool) (n : ℕ) : Option (ℕ × ℤ) :=
  constant p base ints frac (if negative then -intOf n else intOf n)

end Verif.Reals
