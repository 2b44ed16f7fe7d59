/-
Model of `strnspell`, lib-src/strspell.c:101-154, and of the primitive behind
`String>>similarityTo:`, libgst/prims.def:3205-3237 and kernel/String.st:225-233.

Strings are lists of characters; `lower` stands for `tolower`.  The integers of
C are natural numbers: sums that overflow are not modelled.
-/
namespace Verif.Spell

/-- The costs that are given to `strnspell`. -/
structure Costs where
  subst : Nat
  wrongCase : Nat
  ins : Nat
  del : Nat

/-- What is added to `up_left`, lib-src/strspell.c:140-141. -/
def change {C : Type} [DecidableEq C] (k : Costs) (lower : C → C) (x y : C) : Nat :=
  if x ≠ y then (if lower x = lower y then k.wrongCase else k.subst) else 0

/-- `curr[j]`, lib-src/strspell.c:137-146, from `curr[j-1]`, `last[j]` and
    `last[j-1]`. -/
def cell {C : Type} [DecidableEq C] (k : Costs) (lower : C → C) (x y : C)
    (currLeft lastUp lastUpLeft : Nat) : Nat :=
  let left := currLeft + k.ins
  let up := lastUp + k.del
  let upLeft := lastUpLeft + change k lower x y
  if upLeft < left then (if up < upLeft then up else upLeft)
  else (if up < left then up else left)

/-- The inner loop, lib-src/strspell.c:135-147: `curr[j]` and the ones after it,
    when `left` is `curr[j-1]` and the list begins with `last[j-1]`. -/
def fill {C : Type} [DecidableEq C] (k : Costs) (lower : C → C) (x : C) :
    List C → List Nat → Nat → List Nat
  | y :: t, d :: u :: r, left =>
    cell k lower x y left u d :: fill k lower x t (u :: r) (cell k lower x y left u d)
  | _, _, _ => []

/-- The outer loop, lib-src/strspell.c:133-150: `last` is the array of that
    name and `curr0` is `curr[0]`, which the inner loop reads and nobody
    writes; the other elements of `curr` are written before they are read.
    At the end of a turn the two arrays are exchanged. -/
def rows {C : Type} [DecidableEq C] (k : Costs) (lower : C → C) (s2 : List C) :
    List C → List Nat → Nat → List Nat
  | [], last, _ => last
  | x :: s1, last, curr0 =>
    rows k lower s2 s1 (curr0 :: fill k lower x s2 last curr0) (last.headD 0)

/-- `last` before the outer loop, lib-src/strspell.c:120-126: `ins * j` for each
    `j` from 0 to the length of the second string. -/
def firstRow (k : Costs) (n : Nat) : List Nat := (List.range (n + 1)).map fun j => k.ins * j

/-- `strnspell`, lib-src/strspell.c:101-154. -/
def strnspell {C : Type} [DecidableEq C] (k : Costs) (lower : C → C) (s1 s2 : List C) : Nat :=
  (rows k lower s2 s1 (firstRow k s2.length) k.del).getD s2.length 0

/-- The weights of the primitive, libgst/prims.def:3232-3234. -/
def weights : Costs := { subst := 7, wrongCase := 3, ins := 4, del := 4 }

/-- `similarityTo:`, libgst/prims.def:3205-3237. -/
def similarityTo {C : Type} [DecidableEq C] (lower : C → C) (s1 s2 : List C) : Int :=
  -(strnspell weights lower s1 s2 : Int)

end Verif.Spell
