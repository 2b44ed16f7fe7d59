import Mathlib.Logic.Function.Basic
import Mathlib.Data.Nat.Notation
import Mathlib.Data.Rat.Defs

/-!
# The generator of random numbers (kernel/Random.st, libgst/interp.inl, libgst/prims.def)

The 624 words of a `Random` are a function on numbers of which only the first 624 are used, and its last word is the field `idx`.
Words are bit vectors of 32 bits.
The check that the receiver has the right shape and size (libgst/prims.def:6232-6240) always succeeds for the objects that `Random class >> seed:` makes and is left out.
-/

namespace Verif.Random

/-- An instance of `Random`: its 624 words and the index kept in the last one (kernel/Random.st:36-58, libgst/interp.inl:214-216). -/
structure Gen where
  w : ℕ → BitVec 32
  idx : ℕ

/-- One round of the loop of `random_generate` (libgst/interp.inl:244-251). -/
def genStep (w : ℕ → BitVec 32) (i : ℕ) : ℕ → BitVec 32 :=
  let y := (w i &&& 0x80000000#32) ||| (w ((i + 1) % 624) &&& 0x7fffffff#32)
  let z := w ((i + 397) % 624) ^^^ (y >>> 1)
  Function.update w i (if y &&& 1#32 = 1#32 then z ^^^ 0x9908b0df#32 else z)

/-- The first `k` rounds of the loop of `random_generate`. -/
def genLoop (w : ℕ → BitVec 32) : ℕ → ℕ → BitVec 32
  | 0 => w
  | k + 1 => genStep (genLoop w k) k

/-- `random_generate` (libgst/interp.inl:238-252). -/
def generate (w : ℕ → BitVec 32) : ℕ → BitVec 32 := genLoop w 624

/-- What `random_next` does to the word it picks (libgst/interp.inl:227-231). -/
def temper (y : BitVec 32) : BitVec 32 :=
  let y := y ^^^ (y >>> 11)
  let y := y ^^^ ((y <<< 7) &&& 0x9d2c5680#32)
  let y := y ^^^ ((y <<< 15) &&& 0xefc60000#32)
  y ^^^ (y >>> 18)

/-- `random_next` (libgst/interp.inl:218-236). -/
def randomNext (g : Gen) : BitVec 32 × Gen :=
  let w := if g.idx = 0 then generate g.w else g.w
  (temper (w g.idx), ⟨w, (g.idx + 1) % 624⟩)

/-- The generator after `n` numbers have been taken out of it. -/
def after (g : Gen) : ℕ → Gen
  | 0 => g
  | n + 1 => (randomNext (after g n)).2

/-- The `n`-th number that comes out, counting from 0. -/
def nth (g : Gen) (n : ℕ) : BitVec 32 := (randomNext (after g n)).1

/-- One round of the loop of `setSeed:` for a previous word (kernel/Random.st:155-158). -/
def seedStep (p : BitVec 32) : BitVec 32 := 1812433253#32 * (p ^^^ (p >>> 30))

/-- The words that `setSeed:` stores (kernel/Random.st:149-159).
In the first round the seed may be any Integer: its bits beyond the 32nd count because it is shifted right by 30.
`bitOr: 1` of `2k` and of `2k + 1` is `2k + 1`, and the low bits of an exclusive or are the exclusive or of the low bits. -/
def seedWords (seed : ℤ) : ℕ → BitVec 32
  | 0 =>
    let p := 2 * (seed / 2) + 1
    1812433253#32 * (BitVec.ofInt 32 p ^^^ BitVec.ofInt 32 (p / 2 ^ 30))
  | k + 1 => seedStep (seedWords seed k)

/-- `Random class >> seed:` (kernel/Random.st:52-57, 149-160). -/
def seed (s : ℤ) : Gen := ⟨seedWords s, 0⟩

/-- `next` (kernel/Random.st:127-133, libgst/prims.def:6242-6245).
The division is exact here: the code rounds it to a FloatD, which moves neither 0 nor 1 and keeps the order. -/
def next (g : Gen) : ℚ × Gen :=
  let r := randomNext g
  ((r.1.toNat : ℚ) / 0xFFFFFFFF, r.2)

/-- How 32 random bits become a number below the limit (libgst/prims.def:6252). -/
def scale (limit : ℕ) (top : BitVec 32) : ℕ := (limit * top.toNat) >>> 32

/-- `nextLimit:` (kernel/Random.st:135-142, libgst/prims.def:6223-6260): `none` when the primitive fails.
The argument is a SmallInteger or LargeInteger of 64-bit machines: it fails when it is not a SmallInteger, before a number is taken out; the conversion of a negative one to `uint64_t` makes it larger than any limit. -/
def nextLimit (g : Gen) (limit : ℤ) : Option ℕ × Gen :=
  if limit < -2 ^ 62 ∨ 2 ^ 62 ≤ limit then (none, g)
  else
    let r := randomNext g
    if limit < 0 ∨ 0xFFFFFFFF < limit then (none, r.2) else (some (scale limit.toNat r.1), r.2)

/-- `between:and:` (kernel/Random.st:117-125). -/
def between (g : Gen) (low high : ℤ) : Option ℤ × Gen :=
  let r := nextLimit g (high - low + 1)
  (r.1.map fun i => (i : ℤ) + low, r.2)

end Verif.Random
