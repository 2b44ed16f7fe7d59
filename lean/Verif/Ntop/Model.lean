/-
Model of lib-src/inet_ntop.c: the text of an Internet address, for systems that
have no function `inet_ntop`.

The characters that `sprintf` writes for a number (`%x`, `%u`) are one token; how
many they are is `digits`.  `sprintf` does not fail.
-/
namespace Verif.Ntop

/-- The pieces of the text of an address. -/
inductive Tok
  | colon
  | hex (w : Nat)
  | v4 (a b c d : Nat)
  deriving DecidableEq, Repr

/-- How many characters `sprintf` writes for `n` in base `b`. -/
def digits (b n : Nat) : Nat := (Nat.toDigits b n).length

/-- How many characters `"%u.%u.%u.%u"` makes, lib-src/inet_ntop.c:112. -/
def v4len (a b c d : Nat) : Nat := digits 10 a + digits 10 b + digits 10 c + digits 10 d + 3

/-- The number of characters of a piece. -/
def Tok.length : Tok → Nat
  | .colon => 1
  | .hex w => digits 16 w
  | .v4 a b c d => v4len a b c d

/-- The number of characters of a text, without the final zero. -/
def textLength (l : List Tok) : Nat := (l.map Tok.length).sum

/-- What a call does: it fails with ENOSPC, or it copies `n` bytes to `dst`. -/
inductive Copy
  | noSpace
  | copied (n : Nat)
  deriving DecidableEq, Repr

/-- The end of `inet_ntop4`, lib-src/inet_ntop.c:106-123: `strcpy` copies the
    characters and a zero. -/
def copy4 (a b c d size : Nat) : Copy :=
  if size < v4len a b c d then .noSpace else .copied (v4len a b c d + 1)

/-- `words[]`, lib-src/inet_ntop.c:156-158. -/
def words : List Nat → List Nat
  | a :: b :: l => (a <<< 8 ||| b) :: words l
  | _ => []

/-- `if (best.base == -1 || cur.len > best.len) best = cur`, for a run that is
    being measured (lib-src/inet_ntop.c:172-177, 180-184); a run is its first
    index and its length. -/
def close (best cur : Option (Nat × Nat)) : Option (Nat × Nat) :=
  match cur, best with
  | none, best => best
  | some c, none => some c
  | some c, some b => if b.2 < c.2 then some c else some b

/-- The loop that looks for the longest run of zeros,
    lib-src/inet_ntop.c:159-185; a word is given as whether it is zero. -/
def scan : List Bool → Nat → Option (Nat × Nat) → Option (Nat × Nat) → Option (Nat × Nat)
  | [], _, best, cur => close best cur
  | true :: l, i, best, none => scan l (i + 1) best (some (i, 1))
  | true :: l, i, best, some c => scan l (i + 1) best (some (c.1, c.2 + 1))
  | false :: l, i, best, cur => scan l (i + 1) (close best cur) none

/-- The run that is replaced by two colons, lib-src/inet_ntop.c:159-186. -/
def bestRun (z : List Bool) : Option (Nat × Nat) :=
  match scan z 0 none none with
  | some b => if b.2 < 2 then none else some b
  | none => none

/-- Whether `i` is inside the run, lib-src/inet_ntop.c:195. -/
def inside (best : Option (Nat × Nat)) (i : Nat) : Bool :=
  match best with
  | some b => b.1 ≤ i && i < b.1 + b.2
  | none => false

/-- Whether an IPv4 address is written at the end, lib-src/inet_ntop.c:205-206. -/
def encapsulated (best : Option (Nat × Nat)) (w5 : Nat) : Bool :=
  match best with
  | some b => b.1 == 0 && (b.2 == 6 || (b.2 == 5 && w5 == 0xffff))
  | none => false

/-- The loop that writes the words, lib-src/inet_ntop.c:191-219, from the index
    `i` on; `tail` are the last four bytes of the address.  The call of `inet_ntop4`
    is taken to succeed. -/
def format (best : Option (Nat × Nat)) (w5 : Nat) (tail : Nat × Nat × Nat × Nat) :
    List Nat → Nat → List Tok
  | [], _ => []
  | w :: l, i =>
    if inside best i then
      (if (best.map Prod.fst) = some i then [.colon] else []) ++ format best w5 tail l (i + 1)
    else
      (if i ≠ 0 then [.colon] else []) ++
        if i = 6 ∧ encapsulated best w5 = true then
          [.v4 tail.1 tail.2.1 tail.2.2.1 tail.2.2.2]
        else .hex w :: format best w5 tail l (i + 1)

/-- `Was it a trailing run`, lib-src/inet_ntop.c:220-223. -/
def trailing (best : Option (Nat × Nat)) : List Tok :=
  match best with
  | some b => if b.1 + b.2 = 8 then [.colon] else []
  | none => []

/-- The text in `tmp`, lib-src/inet_ntop.c:132-224, for 16 bytes. -/
def ntop6 (src : List Nat) : List Tok :=
  let ws := words src
  let best := bestRun (ws.map (· == 0))
  format best (ws.getD 5 0) (src.getD 12 0, src.getD 13 0, src.getD 14 0, src.getD 15 0) ws 0
    ++ trailing best

/-- The end of `inet_ntop6`, lib-src/inet_ntop.c:224-236: the final zero is
    counted here. -/
def copy6 (src : List Nat) (size : Nat) : Copy :=
  if size < textLength (ntop6 src) + 1 then .noSpace
  else .copied (textLength (ntop6 src) + 1)

/-- The size of `tmp` in `inet_ntop6`, lib-src/inet_ntop.c:143. -/
def tmpSize : Nat := "ffff:ffff:ffff:ffff:ffff:ffff:255.255.255.255".length + 1

/-- The size of `tmp` in `inet_ntop4`, lib-src/inet_ntop.c:109. -/
def tmpSize4 : Nat := "255.255.255.255".length + 1

end Verif.Ntop
