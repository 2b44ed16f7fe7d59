/-!
# Searching, splitting and reading lines on any stream

Model of the methods of kernel/Stream.st that only use `atEnd` and `next`: `prefixTableFor:`,
`skipToAll:`, `upToAll:`, `nextLine`, `linesDo:`, `upTo:` and `splitAt:`.  The receiver is the
list of elements still to be read (`Tape.rest` of Verif/Stream/Spec.lean); `none` is a
signalled error.
-/

namespace Verif.Stream

variable {α : Type} [DecidableEq α]

/-- `l at: i put: v` on the table (1-based). -/
def putTab (t : List Nat) (i v : Nat) : Option (List Nat) :=
  if i = 0 ∨ t.length < i then none else some (t.set (i - 1) v)

/-- `t at: i` on the table (1-based). -/
def getTab (t : List Nat) (i : Nat) : Option Nat := if i = 0 then none else t[i - 1]?

/-- `aCollection at: i` (1-based). -/
def getPat (p : List α) (i : Nat) : Option α := if i = 0 then none else p[i - 1]?

/-- `[j <= 1 or: [ch = (aCollection at: j)]] whileFalse: [j := prefix at: j]`
(Stream.st:610); `fuel` bounds the rounds. -/
def fallBack (p : List α) (t : List Nat) (ch : α) : Nat → Nat → Option Nat
  | 0, _ => none
  | fuel + 1, j =>
    if j ≤ 1 then some j
    else match getPat p j with
      | none => none
      | some c =>
        if ch = c then some j
        else match getTab t j with
          | none => none
          | some j' => fallBack p t ch fuel j'

/-- The body of `from: 2 to: aCollection size - 1 keysAndValuesDo:` (Stream.st:604-611), run for
`n` indices from `i` on. -/
def fillTab (p : List α) : Nat → Nat → List Nat → Option (List Nat)
  | 0, _, t => some t
  | n + 1, i, t =>
    match getPat p i, getTab t i with
    | some ch, some j =>
      match fallBack p t ch (p.length + 1) j with
      | none => none
      | some j' =>
        match putTab t (i + 1) j' with
        | none => none
        | some t' => fillTab p n (i + 1) t'
    | _, _ => none

/-- `prefixTableFor:` (Stream.st:588-613).  A `ByteArray` for fewer than 256 elements, an `Array`
otherwise; the values stored are at most 255 in the first case. -/
def prefixTable (p : List α) : Option (List Nat) :=
  match putTab (List.replicate p.length 0) 1 0 with
  | none => none
  | some t1 =>
    match putTab t1 2 1 with
    | none => none
    | some t2 => fillTab p (p.length - 2) 2 t2

/-- What to do with one element (Stream.st:569-576): `(ch = (aCollection at: j) or:
[(j := prefix at: j) = 0])` is tried until it is true, then `j := j + 1`. -/
def advance (p : List α) (t : List Nat) (ch : α) : Nat → Nat → Option Nat
  | 0, _ => none
  | fuel + 1, j =>
    match getPat p j with
    | none => none
    | some c =>
      if ch = c then some (j + 1)
      else match getTab t j with
        | none => none
        | some j' => if j' = 0 then some 1 else advance p t ch fuel j'

/-- The loop of `skipToAll:` (Stream.st:569-576) and of `upToAll:` (Stream.st:255-265): `acc` is
what has been read (the `result` of `upToAll:`), `l` what is still to be read.  The answer is
whether the sequence was found, what was read, and what is left. -/
def scan (p : List α) (t : List Nat) : List α → Nat → List α → Option (Bool × List α × List α)
  | [], _, acc => some (false, acc, [])
  | ch :: l, j, acc =>
    match advance p t ch (p.length + 1) j with
    | none => none
    | some j' =>
      if t.length < j' then some (true, acc ++ [ch], l) else scan p t l j' (acc ++ [ch])

/-- `skipToAll:` (Stream.st:553-577): the answer and what is left to read. -/
def skipToAll (p l : List α) : Option (Bool × List α) :=
  if l = [] then some (false, l)
  else if p = [] then some (true, l)
  else match prefixTable p with
    | none => none
    | some t => (scan p t l 1 []).map fun r => (r.1, r.2.2)

/-- `upToAll:` (Stream.st:236-266): `result skip: aCollection size negated` drops the sequence
itself from what was read. -/
def upToAll (p l : List α) : Option (List α × List α) :=
  if l = [] then some ([], l)
  else if p = [] then some ([], l)
  else match prefixTable p with
    | none => none
    | some t => (scan p t l 1 []).map fun r =>
        (if r.1 then r.2.1.take (r.2.1.length - p.length) else r.2.1, r.2.2)

/-- `upTo:` (Stream.st:223-234). -/
def upToL (x : α) : List α → List α × List α
  | [] => ([], [])
  | y :: l => if y = x then ([], l) else (y :: (upToL x l).1, (upToL x l).2)

/-- `splitAt:` (Stream.st:174-184); `fuel` bounds the number of parts. -/
def splitAtLoop (x : α) : Nat → List α → List (List α)
  | 0, _ => []
  | fuel + 1, l =>
    if l = [] then [] else (upToL x l).1 :: splitAtLoop x fuel (upToL x l).2

def splitAt (x : α) (l : List α) : List (List α) := splitAtLoop x (l.length + 1) l

/-- `nextLine` (Stream.st:206-221) on characters: stop after a carriage return or a new line, and
after a carriage return swallow a new line (`peekFor:`). -/
def nextLine (cr nl : α) : List α → List α × List α
  | [] => ([], [])
  | c :: l =>
    if c = cr then ([], if l.head? = some nl then l.tail else l)
    else if c = nl then ([], l)
    else (c :: (nextLine cr nl l).1, (nextLine cr nl l).2)

/-- `linesDo:` (Stream.st:351-361); `fuel` bounds the number of lines. -/
def linesLoop (cr nl : α) : Nat → List α → List (List α)
  | 0, _ => []
  | fuel + 1, l =>
    if l = [] then [] else (nextLine cr nl l).1 :: linesLoop cr nl fuel (nextLine cr nl l).2

def linesOf (cr nl : α) (l : List α) : List (List α) := linesLoop cr nl (l.length + 1) l

end Verif.Stream
