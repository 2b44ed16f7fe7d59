/-
Copyright: model of the arithmetic algorithms of kernel/Integer.st and
kernel/Number.st of GNU Smalltalk.

The elementary operations on Integers (`+ - * // \\ bitXor: bitShift:` and the
comparisons) are taken to be the mathematical ones here: the SmallInteger
primitives are modelled in `Verif.SmallInt`, the byte-array LargeIntegers in
`Verif.LargeInt`.  What is modelled here is the algorithms written on top of
them.
-/

namespace Verif.Num

/-- The ways a computation can end other than by answering a value:
`arithmeticError:` (Number.st:1045-1053), `zeroDivide`/ZeroDivide, an index
outside a collection (`at:`, `at:put:`), `removeLast` on an empty
OrderedCollection, `doesNotUnderstand:`, an argument refused by `isDigit:`, and
never (`loop`: the step budget ran out). -/
inductive Err
  | arith | zeroDivide | index | empty | dnu | range | loop
  deriving DecidableEq, Repr

/-! ### Greatest common divisor -/

/-- The loop of `Integer>>gcd:` (kernel/Integer.st:370-373). -/
def gcdLoop : Nat → Int → Int → Except Err Int
  | 0, _, _ => .error .loop
  | f + 1, a, b => if b = 0 then .ok a else gcdLoop f b (Int.fmod a b)

/-- `Integer>>gcd:` (kernel/Integer.st:356-375).  A negative argument restarts
the method with the absolute values (l.362). -/
def gcd (x y : Int) : Except Err Int :=
  let x' : Int := if x < 0 ∨ y < 0 then x.natAbs else x
  let y' : Int := if x < 0 ∨ y < 0 then y.natAbs else y
  if x' < y' then gcdLoop (x'.natAbs + 2) y' x' else gcdLoop (y'.natAbs + 2) x' y'

/-- `Integer>>lcm:` (kernel/Integer.st:377-382).  `divExact:` by a zero gcd is a
ZeroDivide (kernel/SmallInt.st:303-312). -/
def lcm (x y : Int) : Except Err Int :=
  match gcd x y with
  | .error e => .error e
  | .ok g => if g = 0 then .error .zeroDivide else .ok (Int.natAbs (Int.fdiv x g * y))

/-! ### Integer logarithms -/

/-- The loop of `Integer>>floorLog:` (kernel/Integer.st:326-329). -/
def floorLogLoop : Nat → Nat → Nat → Nat → Except Err Nat
  | 0, _, _, _ => .error .loop
  | f + 1, radix, me, answer =>
    if me ≥ radix then floorLogLoop f radix (me / radix) (answer + 1) else .ok answer

/-- `Integer>>floorLog:` (kernel/Integer.st:308-330) with an Integer radix.  An
Integer radix that is not above `unity` is either `<= zero` or `= unity`, and
both are errors (l.316-321). -/
def floorLog (self radix : Int) : Except Err Nat :=
  if self < 0 then .error .arith
  else if radix ≤ 1 then .error .arith
  else floorLogLoop (self.natAbs + 2) radix.natAbs self.natAbs 0

/-- The loop of `Integer>>ceilingLog:` (kernel/Integer.st:350-353). -/
def ceilingLogLoop : Nat → Nat → Nat → Nat → Except Err Nat
  | 0, _, _, _ => .error .loop
  | f + 1, radix, me, answer =>
    if me > radix then ceilingLogLoop f radix (me / radix) (answer + 1) else .ok answer

/-- `Integer>>ceilingLog:` (kernel/Integer.st:332-354) with an Integer radix. -/
def ceilingLog (self radix : Int) : Except Err Nat :=
  if self < 0 then .error .arith
  else if radix ≤ 1 then .error .arith
  else ceilingLogLoop (self.natAbs + 2) radix.natAbs self.natAbs 1

/-! ### Factorial and binomial coefficients -/

/-- The loop that pops factors off the stack while `mask ~= 1`
(kernel/Integer.st:289-292 and, for the pair of stacks of `binomial:`, 232-236).
The stack is a list with its last element first.  `mul` is the product of two
entries: of two Integers in `factorial`, of two numerator/denominator pairs in
`binomial:`. -/
def popLoop {α : Type} (mul : α → α → α) : Nat → Nat → α → List α → Except Err (α × List α)
  | 0, _, _, _ => .error .loop
  | f + 1, mask, a, stack =>
    if mask = 1 then .ok (a, stack)
    else match stack with
      | [] => .error .empty
      | s :: rest => popLoop mul f (mask >>> 1) (mul a s) rest

/-- `stack size timesRepeat: [a := a * stack removeLast]`
(kernel/Integer.st:270, 209-211). -/
def popAll {α : Type} (mul : α → α → α) (a : α) (stack : List α) : α :=
  stack.foldl mul a

/-- How the inner loop of `factorial` ends. -/
inductive FactFill
  | done (a : Nat)
  | more (a b n : Nat)
  deriving DecidableEq, Repr

/-- The inner loop of `factorial` (kernel/Integer.st:264-275), entered with the
`n` before `n := n - 2`.  The subtraction cannot go below zero, the loop being
entered with `n >= 2`. -/
def factFill : Nat → Nat → Nat → Nat → Nat → Except Err FactFill
  | 0, _, _, _, _ => .error .loop
  | f + 1, max, a, b, n =>
    if n - 2 < 2 then .ok (.done (a * b))
    else if b < max then factFill f max (a * (n - 2 - 1)) (b * (n - 2)) (n - 2)
    else .ok (.more a b (n - 2))

/-- The outer loop of `factorial` (kernel/Integer.st:260-297).  `big` is
`SmallInteger largest`. -/
def factLoop (big : Nat) : Nat → Nat → Nat → List Nat → Except Err Nat
  | 0, _, _, _ => .error .loop
  | f + 1, k, n, stack =>
    match factFill (n + 1) (big / n) (n - 1) n n with
    | .error e => .error e
    | .ok (.done a) => .ok (popAll (· * ·) a stack)
    | .ok (.more a b n') =>
      match popLoop (· * ·) (k + 2) (k ^^^ (k - 1)) (a * b) stack with
      | .error e => .error e
      | .ok (a', stack') => factLoop big f (k + 1) n' (a' :: stack')

/-- `Integer>>factorial` (kernel/Integer.st:246-299). -/
def factorial (big : Nat) (self : Int) : Except Err Nat :=
  if self < 0 then .error .arith
  else if self < 2 then .ok 1
  else factLoop big (self.natAbs + 1) 1 self.natAbs []

/-- How the innermost loop of `binomial:` ends. -/
inductive BinFill
  | done (stepNum stepDen : Nat)
  | more (stepNum stepDen n k : Nat)
  deriving DecidableEq, Repr

/-- `[stepNum <= maxNum] whileTrue: [...]` (kernel/Integer.st:197-214), up to
the final simplification.  The recursion is on `k`, which the loop body
decrements and which is at least 1 at every turn: the body returns when it is 1
(the case 0 is never reached). -/
def binFill (maxNum : Nat) : Nat → Nat → Nat → Nat → BinFill
  | 0, stepNum, stepDen, n => .more stepNum stepDen n 0
  | k + 1, stepNum, stepDen, n =>
    if stepNum ≤ maxNum then
      if k = 0 then .done (stepNum * n) (stepDen * (k + 1))
      else binFill maxNum k (stepNum * n) (stepDen * (k + 1)) (n - 1)
    else .more stepNum stepDen n (k + 1)

/-- The `gcd` used on two positive factors, as a natural number; `Verif.Num.gcd`
never fails (`gcd_spec`), the default is never used. -/
def gcdNat (a b : Nat) : Nat :=
  match gcd a b with
  | .ok g => g.natAbs
  | .error _ => 0

/-- The middle loop of `binomial:` (kernel/Integer.st:195-222): fill, simplify,
and try to add more factors as long as the simplification made room.  When `n`
is zero `SmallInteger largest // n` would be an error; `n` is never below `k`,
which is at least 1. -/
def binStep (big : Nat) : Nat → Nat → Nat → Nat → Nat → Except Err BinFill
  | 0, _, _, _, _ => .error .loop
  | f + 1, stepNum, stepDen, n, k =>
    match binFill (big / n) k stepNum stepDen n with
    | .done sn sd => .ok (.done (sn / gcdNat sn sd) (sd / gcdNat sn sd))
    | .more sn sd n' k' =>
      if gcdNat sn sd > 1 then
        if sn / gcdNat sn sd ≤ big / n then
          binStep big f (sn / gcdNat sn sd) (sd / gcdNat sn sd) n' k'
        else .ok (.more (sn / gcdNat sn sd) (sd / gcdNat sn sd) n' k')
      else .ok (.more sn sd n' k')

/-- The product of two entries of the two stacks of `binomial:`. -/
def mulPair (a b : Nat × Nat) : Nat × Nat := (a.1 * b.1, a.2 * b.2)

/-- The outer loop of `binomial:` (kernel/Integer.st:192-243).  The stacks `num`
and `den` are pushed and popped together and are modelled as one stack of
pairs. -/
def binLoop (big : Nat) : Nat → Nat → Nat → Nat → List (Nat × Nat) → Except Err Nat
  | 0, _, _, _, _ => .error .loop
  | f + 1, step, n, k, stack =>
    match binStep big (k + 2) 1 1 n k with
    | .error e => .error e
    | .ok (.done sn sd) =>
      let r := popAll mulPair (sn, sd) stack
      .ok (r.1 / r.2)
    | .ok (.more sn sd n' k') =>
      match popLoop mulPair (step + 2) (step ^^^ (step - 1)) (sn, sd) stack with
      | .error e => .error e
      | .ok (p, stack') =>
        binLoop big f (step + 1) n' k'
          ((p.1 / gcdNat p.1 p.2, p.2 / gcdNat p.1 p.2) :: stack')

/-- `Integer>>binomial:` (kernel/Integer.st:169-244), with `fuel` turns of the
outer loop. -/
def binomialF (big fuel : Nat) (self anInteger : Int) : Except Err Nat :=
  if self < 0 ∨ anInteger < 0 ∨ anInteger > self then .error .arith
  else
    let k := if anInteger + anInteger > self then self - anInteger else anInteger
    if k = 0 then .ok 1
    else binLoop big fuel 1 self.natAbs k.natAbs []

/-! ### Powers -/

/-- `Number>>powerTable` (kernel/Number.st:1086-1092), entry 1 first. -/
def powerTable : List Nat :=
  [0, 1, 2, 2, 3, 3, 4, 4, 6, 5, 6, 6, 10, 7, 9, 8, 16, 9, 16, 10, 12, 11, 13, 12, 17, 13, 18, 14,
   24, 15, 26, 16, 17, 17, 19, 18, 33, 19, 26, 20, 25, 21, 40, 22, 27, 23, 44, 24, 32, 25, 34, 26,
   29, 27, 44, 28, 31, 29, 34, 30, 60, 31, 36, 32, 64, 33, 34, 34, 46, 35, 37, 36, 65, 37, 50, 38,
   48, 39, 69, 40, 49, 41, 43, 42, 51, 43, 58, 44, 64, 45, 47, 46, 59, 47, 76, 48, 65, 49, 66, 50,
   67, 51, 66, 52, 70, 53, 74, 54, 104, 55, 74, 56, 64, 57, 69, 58, 78, 59, 68, 60, 61, 61, 80, 62,
   75, 63, 68, 64, 65, 65, 128, 66, 129, 67, 90, 68, 73, 69, 131, 70, 94, 71, 88, 72, 128, 73, 98,
   74, 132, 75, 121, 76, 102, 77, 124, 78, 132, 79, 106, 80, 97, 81, 160, 82, 99, 83, 134, 84, 86,
   85, 95, 86, 160, 87, 100, 88, 113, 89, 98, 90, 107, 91, 122, 92, 111, 93, 102, 94, 126, 95, 150,
   96, 128, 97, 130, 98, 133, 99, 195, 100, 128, 101, 123, 102, 164, 103, 138, 104, 145, 105, 146,
   106, 109, 107, 149, 108, 200, 109, 146, 110, 170, 111, 157, 112, 128, 113, 130, 114, 182, 115,
   132, 116, 200, 117, 132, 118, 158, 119, 206, 120, 240, 121, 162, 122, 147, 123, 152, 124, 166,
   125, 214, 126, 138, 127, 153]

/-- `raisedToInteger:withCache:` (kernel/Number.st:1060-1084) for receivers whose
`*` is `mul` (and whose `squared` is `self * self`).  The cache is an Array,
index 1 first, with `none` for nil. -/
def powCache {α : Type} (mul : α → α → α) (self : α) :
    Nat → Nat → List (Option α) → Except Err (α × List (Option α))
  | 0, _, _ => .error .loop
  | f + 1, n, cache =>
    if n > 255 then
      match powCache mul self f (n / 2) cache with
      | .error e => .error e
      | .ok (r, cache') =>
        if n % 2 = 0 then .ok (mul r r, cache') else .ok (mul r (mul r self), cache')
    else if n = 0 then .error .index
    else
      match cache[n - 1]? with
      | none => .error .index
      | some (some r) => .ok (r, cache)
      | some none =>
        match powerTable[n - 1]? with
        | none => .error .index
        | some index =>
          match powCache mul self f (n - index) cache with
          | .error e => .error e
          | .ok (r1, cache1) =>
            match powCache mul self f index cache1 with
            | .error e => .error e
            | .ok (r2, cache2) => .ok (mul r1 r2, cache2.set (n - 1) (some (mul r1 r2)))

/-- The positive-exponent part of `Number>>raisedToInteger:`
(kernel/Number.st:926-932): 1 answers the receiver, above that the cache has
`255 min: anInteger` entries with the receiver in the first. -/
def powPos {α : Type} (mul : α → α → α) (self : α) (n : Nat) : Except Err α :=
  if n = 1 then .ok self
  else match powCache mul self (n + 1) n (some self :: List.replicate (min 255 n - 1) none) with
    | .error e => .error e
    | .ok (r, _) => .ok r

/-! ### Printing -/

/-- A String is a list of character codes; a fresh one (`String new:`) holds
zeros. -/
abbrev Str := List Nat

/-- `Character digitValue:` (kernel/Character.st:240-246): indexes
'0123456789ABCDEFGHIJKLMNOPQRSTUVWXYZ'. -/
def digitChar (d : Nat) : Except Err Nat :=
  if d < 10 then .ok (48 + d) else if d < 36 then .ok (55 + d) else .error .index

/-- `string at: i put: c`, one-based. -/
def strPut (s : Str) (i c : Nat) : Except Err Str :=
  if i = 0 ∨ s.length < i then .error .index else .ok (s.set (i - 1) c)

/-- The loop of `replace:withStringBase:` (kernel/Integer.st:637-642).  `where`
counts down from the size; at zero `at:put:` fails. -/
def replaceLoop : Nat → Str → Nat → Nat → Nat → Except Err Str
  | 0, _, _, _, _ => .error .loop
  | f + 1, s, pos, num, b =>
    match digitChar (num % b) with
    | .error e => .error e
    | .ok c =>
      match strPut s pos c with
      | .error e => .error e
      | .ok s' => if num / b > 0 then replaceLoop f s' (pos - 1) (num / b) b else .ok s'

/-- `Integer>>replace:withStringBase:` (kernel/Integer.st:630-643). -/
def replaceBase (s : Str) (num b : Nat) : Except Err Str :=
  if b = 0 then .error .zeroDivide else replaceLoop (num + 1) s s.length num b

/-- `Integer>>printString:` (kernel/Integer.st:572-586). -/
def printBase (self base : Int) : Except Err Str :=
  if self < 0 then
    match floorLog (-self) base with
    | .error e => .error e
    | .ok l =>
      match strPut (List.replicate (l + 2) 0) 1 45 with
      | .error e => .error e
      | .ok s => replaceBase s (-self).natAbs base.natAbs
  else
    match floorLog self base with
    | .error e => .error e
    | .ok l => replaceBase (List.replicate (l + 1) 0) self.natAbs base.natAbs

/-- `replaceFrom: 1 to: n with: aString startingAt: 1`, used at
kernel/Integer.st:506-510 with a string of exactly `n` characters. -/
def strReplacePrefix (s p : Str) (n : Nat) : Except Err Str :=
  if s.length < n ∨ p.length < n then .error .index else .ok (p.take n ++ s.drop n)

/-- `Integer>>printStringRadix:` (kernel/Integer.st:493-514). -/
def printRadix (self base : Int) : Except Err Str :=
  let sign : Bool := self < 0
  let num := if sign then -self else self
  match floorLog base 10 with
  | .error e => .error e
  | .ok rl =>
    match floorLog num base with
    | .error e => .error e
    | .ok l =>
      let radixSize := rl + 1
      let size := l + radixSize + 2 + (if sign then 1 else 0)
      match replaceBase (List.replicate size 0) num.natAbs base.natAbs with
      | .error e => .error e
      | .ok s1 =>
        match printBase base 10 with
        | .error e => .error e
        | .ok p =>
          match strReplacePrefix s1 p radixSize with
          | .error e => .error e
          | .ok s2 =>
            match strPut s2 (radixSize + 1) 114 with
            | .error e => .error e
            | .ok s3 => if sign then strPut s3 (radixSize + 2) 45 else .ok s3

/-- `Integer>>printOn:paddedWith:to:base:` (kernel/Integer.st:532-548): the
characters put on the stream. -/
def printOnPadded (self : Int) (padding size : Nat) (base : Int) : Except Err Str :=
  let num := if self < 0 then -self else self
  let extra := if self < 0 then 1 else 0
  match floorLog num base with
  | .error e => .error e
  | .ok l =>
    let reqSize := l + 1
    match replaceBase (List.replicate reqSize 0) num.natAbs base.natAbs with
    | .error e => .error e
    | .ok s =>
      .ok ((if self < 0 then [45] else []) ++ List.replicate (size - reqSize - extra) padding ++ s)

/-- `string replaceFrom: a to: b withObject: c`, one-based; `b = a - 1` replaces
nothing (kernel/ArrayColl.st replaceFrom:to:withObject:). -/
def strFill (s : Str) (a b c : Nat) : Except Err Str :=
  if a = 0 ∨ b + 1 < a ∨ s.length < b then .error .index
  else .ok (s.take (a - 1) ++ List.replicate (b + 1 - a) c ++ s.drop b)

/-- `Integer>>printPaddedWith:to:base:` (kernel/Integer.st:550-570). -/
def printPadded (self : Int) (padding size : Nat) (base : Int) : Except Err Str :=
  let num := if self < 0 then -self else self
  let padFirst := if self < 0 then 2 else 1
  match floorLog num base with
  | .error e => .error e
  | .ok l =>
    let reqSize := l + padFirst
    let s0 := List.replicate (max reqSize size) 0
    match (if padFirst = 2 then strPut s0 1 45 else .ok s0) with
    | .error e => .error e
    | .ok s1 =>
      match strFill s1 padFirst (s1.length - reqSize + padFirst - 1) padding with
      | .error e => .error e
      | .ok s2 => replaceBase s2 num.natAbs base.natAbs

/-! ### Reading -/

/-- `Character>>asUppercase` (kernel/Character.st:397-403) on codes below 256
(`UpperTable`, l.72-85). -/
def upcase (c : Nat) : Nat := if 97 ≤ c ∧ c ≤ 122 then c - 32 else c

/-- The entry of `Table` for a code (kernel/Character.st:72-97): 48 for digits,
55 for upper case letters; everything else is below 33 and treated alike by the
two methods below. -/
def charTable (c : Nat) : Nat :=
  if 48 ≤ c ∧ c ≤ 57 then 48 else if 65 ≤ c ∧ c ≤ 90 then 55
  else if 97 ≤ c ∧ c ≤ 122 then 3 else 0

/-- `Character>>isDigit:` (kernel/Character.st:374-387) for a radix between 2 and
36. -/
def isDigit (radix c : Nat) : Bool :=
  charTable c > 32 && c - charTable c ≤ radix - 1

/-- `Character>>digitValue` (kernel/Character.st:255-267) on a digit. -/
def digitVal (c : Nat) : Nat := c - charTable c

/-- The digit loop of `Number class>>readFrom:radix:` (kernel/Number.st:73-79):
answers the value and the rest of the stream.  The next character has already
been converted to upper case when the loop ends. -/
def readDigits (radix : Nat) (sgn : Int) : Int → Str → Int × Str
  | int, [] => (int, [])
  | int, c :: rest =>
    if isDigit radix (upcase c) then
      readDigits radix sgn (sgn * digitVal (upcase c) + int * radix) rest
    else (int, c :: rest)

/-- The outcome of reading: an Integer, or "the fraction/exponent part follows",
which is where the code goes on to build a Float (kernel/Number.st:82-112; not
modelled). -/
inductive ReadResult
  | int (z : Int) (rest : Str)
  | float
  deriving DecidableEq, Repr

/-- What follows the digits (kernel/Number.st:80-97): the end of the stream, a
decimal point, an exponent letter (in base 10 only), or something else. -/
def readEnd (radix : Nat) : Int × Str → ReadResult
  | (z, []) => .int z []
  | (z, e :: tl) =>
    if upcase e = 46 then .float
    else if radix = 10 ∧ upcase e = 69 then .float
    else .int z (e :: tl)

/-- `Number class>>readFrom:radix:` (kernel/Number.st:50-113) on numbers without
a fraction part or exponent. -/
def readFrom (radix : Nat) (s : Str) : Except Err ReadResult :=
  match s with
  | [] => .ok (.int 0 [])
  | c :: rest =>
    let sgn : Int := if c = 45 then -1 else 1
    let s1 := if c = 45 then rest else s
    match s1 with
    | [] => .ok (.int 0 [])
    | d :: _ =>
      if radix < 2 ∨ 36 < radix then .error .range
      else if isDigit radix (upcase d) || upcase d == 46 then
        .ok (readEnd radix (readDigits radix sgn 0 s1))
      else .ok (.int 0 s1)

/-! ### Powers of LargeIntegers -/

/-- What `LargeInteger>>raisedToInteger:` (kernel/LargeInt.st:619-632) answers:
`nbit` counts the trailing zero bits; an odd receiver goes to
`Number>>raisedToInteger:`; otherwise the receiver without those bits is raised
to the power and the result shifted by `nbit * n`.

`oddPow q n` stands for what the `raisedToInteger: n` sent to the odd part `q`
answers: for a non-negative `n`, `q ^ n`; for a negative one it is computed from
`q reciprocal`, an Integer only if `q` is 1 or -1, otherwise a Fraction — which
does not understand `bitShift:`.  Shifting right rounds towards negative
infinity. -/
def largeRaised (self : Int) (nbit : Nat) (n : Int) : Except Err Int :=
  let q := Int.fdiv self (2 ^ nbit)
  if 0 ≤ n then .ok (q ^ n.natAbs * 2 ^ (nbit * n.natAbs))
  else if q = 1 ∨ q = -1 then .ok (Int.fdiv (q ^ n.natAbs) (2 ^ (nbit * n.natAbs)))
  else .error .dnu

/-- The loop counting trailing zero bits (kernel/LargeInt.st:627-630). -/
def lowBits : Nat → Int → Nat
  | 0, _ => 0
  | f + 1, z => if z % 2 = 0 then lowBits f (z / 2) + 1 else 0

end Verif.Num
