/-
Model of `strtoul`, lib-src/strtoul.c:115-215, for systems that have none.

Characters are their codes, and the end of the list is the final zero.  An
`unsigned long` has 64 bits.  The base is not negative.
-/
namespace Verif.Strtoul

/-- `ULONG_MAX` is `M - 1`. -/
def M : Nat := 2 ^ 64

/-- The table `value`, lib-src/strtoul.c:60-93. -/
def valueOf (c : Nat) : Nat :=
  if 48 ≤ c ∧ c ≤ 57 then c - 48
  else if 65 ≤ c ∧ c ≤ 90 then c - 55
  else if 97 ≤ c ∧ c ≤ 122 then c - 87
  else 99

/-- `digit`, an `unsigned char`, lib-src/strtoul.c:166, 177, 188, 199. -/
def digitOf (base c : Nat) : Nat :=
  if base = 10 ∨ base = 8 then (c + 208) % 256 else valueOf c

/-- `isspace` in the C locale. -/
def isSpace (c : Nat) : Bool := c == 32 || (9 ≤ c && c ≤ 13)

/-- Whether a digit is taken for an overflow, lib-src/strtoul.c:169, 180, 191, 202. -/
def tooBig (base r d : Nat) : Bool := (M - 1) / base - d < r

/-- `result` after one digit, lib-src/strtoul.c:169-174, 180-185, 191-196, 202-207;
    the shifts of bases 8 and 16 are multiplications here. -/
def push (base r d : Nat) : Nat :=
  ((if tooBig base r d then M - 1 else r) * base + d) % M

/-- What is answered: the value, `ERANGE`, `EINVAL` and what `tail` points to. -/
structure Answer where
  value : Nat
  erange : Bool
  einval : Bool
  tail : List Nat
  deriving DecidableEq, Repr

/-- The four loops, lib-src/strtoul.c:164-214, and the end; `string` is the whole
    text. -/
def loop (base : Nat) (string : List Nat) : List Nat → Nat → Bool → Bool → Answer
  | [], r, e, any => ⟨r, e, false, if any then [] else string⟩
  | c :: p, r, e, any =>
    if digitOf base c < base then
      loop base string p (push base r (digitOf base c)) (e || tooBig base r (digitOf base c)) true
    else ⟨r, e, false, if any then c :: p else string⟩

/-- `*p == 'x' || *p == 'X'`, lib-src/strtoul.c:144, 161. -/
def isX (p : List Nat) : Bool := p.head? == some 120 || p.head? == some 88

/-- The base, the rest of the text and `anyDigits`, lib-src/strtoul.c:136-162. -/
def pick (base : Nat) (p : List Nat) : Nat × List Nat × Bool :=
  if base = 0 then
    if p.head? = some 48 then
      if isX p.tail then (16, p.tail.tail, false) else (8, p.tail, true)
    else (10, p, false)
  else if base = 16 then
    if p.head? = some 48 then
      (16, if isX p.tail then p.tail.tail else p.tail, false)
    else (16, p, false)
  else (base, p, false)

/-- `strtoul`, lib-src/strtoul.c:115-215. -/
def strtoul (base : Nat) (string : List Nat) : Answer :=
  let p := string.dropWhile isSpace
  if 36 < base ∨ p.head? = some 45 then ⟨0, false, true, string⟩
  else loop (pick base p).1 string (pick base p).2.1 0 false (pick base p).2.2

end Verif.Strtoul
