import Verif.Num.Gcd

/-! # Model of kernel/Fraction.st, of division of Integers, and of kernel/ScaledDec.st

Integers are mathematical integers; whether one is a SmallInteger only matters
for `/`, which has one implementation in SmallInteger and another in
LargeInteger.  `gcd:` is `Int.gcd`, which is what `Integer>>gcd:` answers
(`Verif.Num.gcd_int`); `divExact:` is the exact quotient. -/

namespace Verif.Frac

open Verif.Num (Err)

/-- An exact number: an Integer, or a Fraction with its two instance
variables. -/
inductive Number
  | int (z : Int)
  | frac (n d : Int)
  deriving DecidableEq, Repr

abbrev Res := Except Err Number

/-- `Fraction class>>numerator:denominator:` with
`setNumerator:setDenominator:` (kernel/Fraction.st:61-66, 482-494). -/
def mkFrac (n d : Int) : Res :=
  if d = 0 then .error .zeroDivide
  else if d < 0 then .ok (.frac (-n) (-d)) else .ok (.frac n d)

/-- `gcd:`. -/
def gcd (a b : Int) : Int := (Int.gcd a b : Nat)

/-- `divExact:`: the quotient of an exact division (kernel/SmallInt.st:303-314,
with the primitive for `quo:`). -/
def divExact (a b : Int) : Int := Int.tdiv a b

/-- `asExactFraction` (kernel/Integer.st, kernel/Fraction.st:372-377): an Integer
becomes a Fraction of denominator 1. -/
def numer : Number → Int
  | .int z => z
  | .frac n _ => n
def denom : Number → Int
  | .int _ => 1
  | .frac _ d => d

/-- `Fraction>>*` on two Fractions (kernel/Fraction.st:86-105).  The shortcut for
`aNumber == self` skips the gcds; it is the parameter `same`. -/
def mulFF (same : Bool) (n1 d1 n2 d2 : Int) : Res :=
  if n2 = 0 then .ok (.frac n2 d2)
  else if n1 = 0 then .ok (.frac n1 d1)
  else
    let num := n1 * n2
    let den := d1 * d2
    let g := if same then 1 else gcd n1 d2 * gcd d1 n2
    let num := divExact num g
    let den := divExact den g
    if den = 1 then .ok (.int num) else mkFrac num den

/-- `Fraction>>+` on two Fractions (kernel/Fraction.st:107-130). -/
def addFF (n1 d1 n2 d2 : Int) : Res :=
  let g := gcd d1 d2
  if g = 1 then mkFrac (n1 * d2 + n2 * d1) (d1 * d2)
  else
    let num := n1 * divExact d2 g + n2 * divExact d1 g
    let den := divExact (d1 * d2) g
    let g2 := gcd num den
    if divExact den g2 = 1 then .ok (.int (divExact num g2))
    else mkFrac (divExact num g2) (divExact den g2)

/-- `Fraction>>-` on two Fractions (kernel/Fraction.st:132-155). -/
def subFF (n1 d1 n2 d2 : Int) : Res :=
  let g := gcd d1 d2
  if g = 1 then mkFrac (n1 * d2 - n2 * d1) (d1 * d2)
  else
    let num := n1 * divExact d2 g - n2 * divExact d1 g
    let den := divExact (d1 * d2) g
    let g2 := gcd num den
    if divExact den g2 = 1 then .ok (.int (divExact num g2))
    else mkFrac (divExact num g2) (divExact den g2)

/-- `Fraction>>/` on two Fractions (kernel/Fraction.st:157-174). -/
def divFF (n1 d1 n2 d2 : Int) : Res :=
  if n2 = 0 then .error .zeroDivide
  else if n1 = 0 then .ok (.frac n1 d1)
  else
    let num := n1 * d2
    let den := d1 * n2
    let g := gcd n1 n2 * gcd d1 d2
    let num := divExact num g
    let den := divExact den g
    if den = 1 then .ok (.int num) else mkFrac num den

/-- `Fraction>>reduce` (kernel/Fraction.st:465-480). -/
def reduce (n d : Int) : Number :=
  if n = 1 then .frac n d
  else if d = 1 then .int n
  else if n = 0 then .int 0
  else if n = d then .int 1
  else
    let g := gcd n d
    if g = 1 then .frac n d
    else if d = g then .int (divExact n g)
    else .frac (divExact n g) (divExact d g)

/-- `SmallInteger>>/` on two SmallIntegers (kernel/SmallInt.st:270-281): the
primitive answers when the division is exact. -/
def divSmall (x y : Int) : Res :=
  if y = 0 then .error .zeroDivide
  else if x % y = 0 then .ok (.int (Int.tdiv x y))
  else match mkFrac x y with
    | .ok (.frac n d) => .ok (reduce n d)
    | r => r

/-- `LargeInteger>>/` (kernel/LargeInt.st:387-403), reached when one of the two is
not a SmallInteger, after coercing the other. -/
def divLarge (x y : Int) : Res :=
  if y = 0 then .error .zeroDivide
  else if x = 0 then .ok (.int 0)
  else
    let g := gcd x y
    if g = x then mkFrac 1 (divExact y g)
    else if g = y then .ok (.int (divExact x g))
    else mkFrac (divExact x g) (divExact y g)

/-- Is it a SmallInteger?  `big` is `SmallInteger largest`. -/
def isSmall (big z : Int) : Bool := decide (-big - 1 ≤ z ∧ z ≤ big)

/-- `Integer / Integer`. -/
def divII (big x y : Int) : Res :=
  if isSmall big x && isSmall big y then divSmall x y else divLarge x y

/-- `+ - * /` of exact numbers.  When one is an Integer and the other a Fraction
the Integer is coerced (`retrySumCoercing:` and its likes,
kernel/Number.st:333-386).  An Integer coerced is a new object, so `aNumber ==
self` can only hold (`same`) between two Fractions. -/
def add : Number → Number → Res
  | .int x, .int y => .ok (.int (x + y))
  | .int x, .frac n d => addFF x 1 n d
  | .frac n d, .int y => addFF n d y 1
  | .frac n d, .frac n' d' => addFF n d n' d'

def sub : Number → Number → Res
  | .int x, .int y => .ok (.int (x - y))
  | .int x, .frac n d => subFF x 1 n d
  | .frac n d, .int y => subFF n d y 1
  | .frac n d, .frac n' d' => subFF n d n' d'

def mul (same : Bool) : Number → Number → Res
  | .int x, .int y => .ok (.int (x * y))
  | .int x, .frac n d => mulFF false x 1 n d
  | .frac n d, .int y => mulFF false n d y 1
  | .frac n d, .frac n' d' => mulFF same n d n' d'

def div (big : Int) : Number → Number → Res
  | .int x, .int y => divII big x y
  | .int x, .frac n d => divFF x 1 n d
  | .frac n d, .int y => divFF n d y 1
  | .frac n d, .frac n' d' => divFF n d n' d'

/-- `floor`, `ceiling`, `truncated` (kernel/Fraction.st:219-238,
kernel/Integer.st:412-431). -/
def floor : Number → Int
  | .int z => z
  | .frac n d => Int.fdiv n d

def ceiling : Number → Int
  | .int z => z
  | .frac n d => Int.fdiv (n + d - 1) d

def truncated : Number → Int
  | .int z => z
  | .frac n d => Int.tdiv n d

/-- `rounded` (kernel/Number.st:497-504, kernel/Integer.st:433-438); `self unity /
2` is the Fraction One divided by 2. -/
def rounded : Number → Except Err Int
  | .int z => .ok z
  | .frac n d =>
    match div 0 (.frac 1 1) (.int 2) with
    | .error e => .error e
    | .ok half =>
      if n < 0 then
        match sub (.frac n d) half with
        | .error e => .error e
        | .ok r => .ok (ceiling r)
      else
        match add (.frac n d) half with
        | .error e => .error e
        | .ok r => .ok (floor r)

/-- `Fraction>>//` and `\\` (kernel/Fraction.st:176-190), on numbers of which at
least one is a Fraction (between Integers they are primitives). -/
def intDiv (big : Int) (a b : Number) : Except Err Int :=
  match div big a b with
  | .error e => .error e
  | .ok r => .ok (floor r)

def modulo (big : Int) (a b : Number) : Res :=
  match intDiv big a b with
  | .error e => .error e
  | .ok q =>
    match mul false (.int q) b with
    | .error e => .error e
    | .ok p => sub a p

/-- `highBit` of a non-negative Integer: the index of its highest bit, from 1, or
0 for zero (kernel/SmallInt.st:127-167). -/
def highBit (n : Nat) : Nat := if n = 0 then 0 else Nat.log2 n + 1

/-- `Fraction>>compare:` (kernel/Fraction.st:305-326). -/
def compare (n1 d1 n2 d2 : Int) : Int :=
  if n1.sign ≠ n2.sign then n1.sign - n2.sign
  else
    let delta : Int := highBit n1.natAbs + highBit d2.natAbs - highBit n2.natAbs - highBit d1.natAbs
    if delta < -1 then delta * n1.sign
    else if delta > 1 then delta * n1.sign
    else (d2 * n1 - d1 * n2).sign

/-- `delta < delta zero` and its likes on the result of a subtraction. -/
def ltZero : Number → Bool
  | .int z => z < 0
  | .frac n d => compare n d 0 1 < 0
def leZero : Number → Bool
  | .int z => z ≤ 0
  | .frac n d => compare n d 0 1 ≤ 0

/-- `<` and `<=` (kernel/Fraction.st:240-256; `retryRelationalOp:coercing:`,
kernel/Number.st:281-296). -/
def lt (a b : Number) : Except Err Bool :=
  match a, b with
  | .int x, .int y => .ok (x < y)
  | .frac n d, .frac n' d' => .ok (compare n d n' d' < 0)
  | a, b => match sub a b with
    | .error e => .error e
    | .ok r => .ok (ltZero r)

def le (a b : Number) : Except Err Bool :=
  match a, b with
  | .int x, .int y => .ok (x ≤ y)
  | .frac n d, .frac n' d' => .ok (compare n d n' d' ≤ 0)
  | a, b => match sub a b with
    | .error e => .error e
    | .ok r => .ok (leZero r)

/-- `=` (kernel/Fraction.st:276-284): between a Fraction and an Integer the
Integer is coerced (kernel/Number.st:298-311). -/
def eq (a b : Number) : Bool :=
  match a, b with
  | .int x, .int y => x == y
  | a, b => numer a == numer b && denom a == denom b

/-- `negated`, `reciprocal`, `squared` of a Fraction (kernel/Fraction.st:496-531). -/
def negated (n d : Int) : Res := mkFrac (0 - n) d
def reciprocal (n d : Int) : Res := if d < 0 then mkFrac (-d) (-n) else mkFrac d n
def squared (n d : Int) : Res := mkFrac (n * n) (d * d)

/-- `Fraction>>raisedToInteger:` (kernel/Fraction.st:502-510); the powers of the
numerator and denominator are `Verif.Num.powPos` for positive exponents, 1 for
the exponent 0, where a zero numerator is an error (kernel/Number.st:922-925). -/
def raisedPos (n d : Int) (e : Nat) : Res :=
  if e = 0 ∧ n = 0 then .error .arith else mkFrac (n ^ e) (d ^ e)

def raisedTo (n d : Int) (e : Int) : Res :=
  if e < 0 then
    match reciprocal n d with
    | .ok (.frac n' d') => raisedPos n' d' e.natAbs
    | r => r
  else raisedPos n d e.natAbs

end Verif.Frac
