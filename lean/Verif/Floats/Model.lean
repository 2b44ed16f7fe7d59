import Mathlib.Data.Rat.Floor
import Mathlib.Data.Nat.Digits.Defs

/-!
# Printing and reading Floats

kernel/Float.st, kernel/Number.st.  Printing uses exact arithmetic only.  A finite positive Float is an odd or even number of
units, `m * 2 ^ q`; the number of bits of its class is `p` (24, 53, and 64 or 113 for `FloatE`, `FloatD` and `FloatQ`).
-/

namespace Verif.Floats

structure Flt where
  m : ℕ
  q : ℤ
  deriving DecidableEq, Repr

/-- `asExactFraction` (kernel/Float.st:270-282). -/
def Flt.val (f : Flt) : ℚ := f.m * (2 : ℚ) ^ f.q

/-- `exponent` (libgst/prims.def:1569-1592): what `frexp` answers, less one. -/
def Flt.exponent (f : Flt) : ℤ := f.q + Nat.log2 f.m

/-- The loop of `floorLog: 10` for numbers less than one (kernel/Number.st:861-865); it ends before its bound. -/
def logDown : ℕ → ℚ → ℤ → ℤ
  | 0, _, a => a
  | n + 1, x, a => if x * 10 < 1 then logDown n (x * 10) (a - 1) else a

/-- The other loop (kernel/Number.st:867-870). -/
def logUp : ℕ → ℚ → ℚ → ℤ → ℤ
  | 0, _, _, a => a
  | n + 1, x, t, a => if t ≤ x then logUp n x (t * 10) (a + 1) else a

/-- The loop of `Integer` (kernel/Integer.st:325-329). -/
def logInt : ℕ → ℕ → ℤ → ℤ
  | 0, _, a => a
  | n + 1, x, a => if x ≥ 10 then logInt n (x / 10) (a + 1) else a

/-- `floorLog: 10` (kernel/Number.st:847-873, kernel/Integer.st:308-330); `asFraction` of an Integer is an Integer. -/
def floorLog (x : ℚ) : ℤ :=
  if x.den = 1 then logInt x.num.toNat x.num.toNat 0
  else if x < 1 then logDown x.den x (-1) else logUp (x.num.toNat + 1) x 1 (-1)

/-- The variables of the loop that computes the digits. -/
structure St where
  num : ℚ
  weight : ℚ
  prev : ℚ
  digit : ℤ
  digits : ℤ
  allNines : Bool
  sameDown : Bool
  sameUp : Bool

/-- The body of the loop (kernel/Float.st:532-539). -/
def step (eps : ℚ) (s : St) : St :=
  let digit := ⌊s.num / s.weight⌋
  let num := s.num - digit * s.weight
  { num := num
    weight := s.weight / 10
    prev := s.weight
    digit := digit
    digits := s.digits * 10 + digit
    allNines := s.allNines && decide (digit = 9)
    sameDown := s.sameDown && decide (eps ≤ num)
    sameUp := s.sameUp && decide (num < s.weight - eps) }

/-- The loop (kernel/Float.st:532-540).  `none`: it does not end in so many rounds. -/
def loop (eps : ℚ) : ℕ → St → Option St
  | 0, _ => none
  | n + 1, s =>
    let t := step eps s
    if t.sameDown || t.sameUp then loop eps n t else some t

/-- kernel/Float.st:542-556: what is added to the digits. -/
def adjust (eps : ℚ) (s : St) : ℤ :=
  let eps := if eps.den = 1 then eps / 2 else eps
  let a := if s.digit ≤ 5 ∧ s.num + s.digit * s.prev < eps / 2 then -s.digit else 0
  let a := if s.digit > 5 ∧ s.num + (s.digit - 10) * s.prev > eps / -2 then 10 - s.digit else a
  if a = 0 ∧ s.digit > 0 ∧ |s.num - s.prev| < s.num then 1 else a

/-- `eps` (kernel/Float.st:525). -/
def Flt.eps (p : ℕ) (f : Flt) : ℚ := (2 : ℚ) ^ (f.exponent - p + 1)

/-- The digits as a number, and the exponent: the place of the point, from the first digit (kernel/Float.st:518-560). -/
def Flt.digits (p n : ℕ) (f : Flt) : Option (ℤ × ℤ) :=
  let x := f.val
  let exponent := floorLog x + 1
  let eps := f.eps p
  (loop eps n ⟨x, (10 : ℚ) ^ (exponent - 1), 0, 0, 0, true, true, true⟩).map fun s =>
    let a := adjust eps s
    (s.digits + a, if a > 0 ∧ s.allNines then exponent + 1 else exponent)

def char (d : ℕ) : Char := Char.ofNat (48 + d)

/-- `printString` of a natural number: its digits. -/
def decimal (n : ℕ) : List ℕ := (Nat.digits 10 n).reverse

/-- The integer part (kernel/Float.st:581-588): so many digits, zeros when there are no more. -/
def intPart : ℕ → List ℕ → List Char × List ℕ
  | 0, ds => ([], ds)
  | n + 1, [] => let r := intPart n []; ('0' :: r.1, r.2)
  | n + 1, d :: ds => let r := intPart n ds; (char d :: r.1, r.2)

def printInt (i : ℤ) : List Char :=
  if i < 0 then '-' :: (decimal i.natAbs).map char else if i = 0 then ['0'] else (decimal i.natAbs).map char

/-- The text (kernel/Float.st:562-603).  `small`: less than one; `letter`: `exponentLetter`. -/
def layout (letter : Char) (small exponential : Bool) (digits : ℕ) (exponent : ℤ) : List Char :=
  let zeros := if small && !exponential then (1 - exponent).toNat else 0
  let lead := match zeros with | 0 => [] | z + 1 => '0' :: '.' :: List.replicate z '0'
  let exponent := exponent + zeros
  let sig := ((decimal digits).reverse.dropWhile (· = 0)).reverse
  let count := if exponential then 1 else max 1 exponent.toNat
  let r := intPart count sig
  lead ++ r.1 ++
    (match r.2 with
      | [] => if zeros = 0 then ['.', '0'] else []
      | ds => (if zeros = 0 then ['.'] else []) ++ ds.map char) ++
    (if exponential then letter :: printInt (exponent - 1) else [])

/-- `printOn:` (kernel/Float.st:432-437, 489-604), for finite Floats that are not zero. -/
def printString (letter : Char) (p n : ℕ) (negative : Bool) (f : Flt) : Option (List Char) :=
  (f.digits p n).map fun (digits, exponent) =>
    (if negative then ['-'] else []) ++
      layout letter (decide (f.val < 1)) (decide (|f.exponent| > p)) digits.toNat exponent

/-! ### `Number class >> readFrom:` -/

/-- `isDigit:` and `digitValue` for base 10. -/
def digitValue (c : Char) : Option ℕ := if '0' ≤ c ∧ c ≤ '9' then some (c.toNat - 48) else none

/-- The digits before the point (kernel/Number.st:73-79). -/
def readInt (sgn : ℚ) : List Char → ℚ → ℚ × List Char
  | [], i => (i, [])
  | c :: cs, i =>
    match digitValue c with
    | some d => readInt sgn cs (sgn * d + i * 10)
    | none => (i, c :: cs)

/-- The digits after it (kernel/Number.st:85-91). -/
def readFrac : List Char → ℚ → ℚ → ℚ × List Char
  | [], _, i => (i, [])
  | c :: cs, sgn, i =>
    match digitValue c with
    | some d => readFrac cs (sgn / 10) (sgn / 10 * d + i)
    | none => (i, c :: cs)

/-- The digits of the exponent (kernel/Number.st:105-108). -/
def readExp : List Char → ℕ → ℕ
  | [], e => e
  | c :: cs, e =>
    match digitValue c with
    | some d => readExp cs (d + e * 10)
    | none => e

/-- `readFrom:` (kernel/Number.st:52-121) with base 10: the number before `asFloat`, and whether that is sent. -/
def readFrom (text : List Char) : ℚ × Bool :=
  match text with
  | [] => (0, false)
  | c :: cs =>
    let sgn : ℚ := if c = '-' then -1 else 1
    let text := if c = '-' then cs else text
    match text with
    | [] => (0, false)
    | c :: cs =>
      if (digitValue c).isNone ∧ c ≠ '.' then (0, false)
      else
        let r := readInt sgn (c :: cs) 0
        match r.2 with
        | [] => (r.1, false)
        | c :: cs =>
          let (i, rest, isFloat) := if c = '.' then let r := readFrac cs sgn r.1; (r.1, r.2, true) else (r.1, c :: cs, false)
          match rest with
          | [] => (i, isFloat)
          | c :: cs =>
            if c.toUpper ≠ 'E' then (i, isFloat)
            else
              match cs with
              | [] => (i, false)
              | c :: cs' =>
                let minus := c = '-'
                let digits := if c = '+' ∨ c = '-' then cs' else cs
                let e := readExp digits 0
                (i * (10 : ℚ) ^ (if minus then -(e : ℤ) else e), true)

end Verif.Floats
