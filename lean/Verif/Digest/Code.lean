import Verif.Digest.Block

/-!
# The functions that are applied to one block

Words have 32 bits.
-/

namespace Verif.Digest

abbrev W := BitVec 32

/-- Little endian words of a block: `SWAP (*words)` in packages/digest/md5.c:49-54, 305-313. -/
def leWord (l : List Nat) (i : Nat) : W :=
  .ofNat 32 (l.getD (4 * i) 0 + l.getD (4 * i + 1) 0 * 2 ^ 8 + l.getD (4 * i + 2) 0 * 2 ^ 16 + l.getD (4 * i + 3) 0 * 2 ^ 24)

/-- Big endian words of a block: `SWAP (*words)` in packages/digest/sha1.c:36-42, 325. -/
def beWord (l : List Nat) (i : Nat) : W :=
  .ofNat 32 (l.getD (4 * i) 0 * 2 ^ 24 + l.getD (4 * i + 1) 0 * 2 ^ 16 + l.getD (4 * i + 2) 0 * 2 ^ 8 + l.getD (4 * i + 3) 0)

/-! ### MD5 -/

namespace MD5

/-- The local variables `A`, `B`, `C`, `D`. -/
inductive Reg where | a | b | c | d
  deriving DecidableEq, Repr

structure R4 where
  a : W
  b : W
  c : W
  d : W
  deriving DecidableEq, Repr

def R4.get (r : R4) : Reg → W
  | .a => r.a
  | .b => r.b
  | .c => r.c
  | .d => r.d

def R4.set (r : R4) (x : Reg) (w : W) : R4 :=
  match x with
  | .a => { r with a := w }
  | .b => { r with b := w }
  | .c => { r with c := w }
  | .d => { r with d := w }

/-- packages/digest/md5.c:258-261. -/
def FF (b c d : W) : W := d ^^^ (b &&& (c ^^^ d))
def FG (b c d : W) : W := FF d b c
def FH (b c d : W) : W := b ^^^ c ^^^ d
def FI (b c d : W) : W := c ^^^ (b ||| ~~~d)

/-- `CYCLIC` (packages/digest/md5.c:317). -/
def cyclic (w : W) (s : Nat) : W := (w <<< s) ||| (w >>> (32 - s))

/-- `OP (a, b, c, d, k, s, T)`. -/
structure Op where
  a : Reg
  b : Reg
  c : Reg
  d : Reg
  k : Nat
  s : Nat
  t : W
  deriving DecidableEq, Repr

/-- `OP` (packages/digest/md5.c:305-313, 346-353, 374-381, 402-409); in the first round `k` counts the words. -/
def Op.run (F : W → W → W → W) (x : Nat → W) (r : R4) (o : Op) : R4 :=
  r.set o.a (cyclic (r.get o.a + (F (r.get o.b) (r.get o.c) (r.get o.d) + x o.k + o.t)) o.s + r.get o.b)

/-- packages/digest/md5.c:325-341. -/
def round1 : List Op := [
   ⟨.a, .b, .c, .d, 0, 7, 0xd76aa478⟩, ⟨.d, .a, .b, .c, 1, 12, 0xe8c7b756⟩,
   ⟨.c, .d, .a, .b, 2, 17, 0x242070db⟩, ⟨.b, .c, .d, .a, 3, 22, 0xc1bdceee⟩,
   ⟨.a, .b, .c, .d, 4, 7, 0xf57c0faf⟩, ⟨.d, .a, .b, .c, 5, 12, 0x4787c62a⟩,
   ⟨.c, .d, .a, .b, 6, 17, 0xa8304613⟩, ⟨.b, .c, .d, .a, 7, 22, 0xfd469501⟩,
   ⟨.a, .b, .c, .d, 8, 7, 0x698098d8⟩, ⟨.d, .a, .b, .c, 9, 12, 0x8b44f7af⟩,
   ⟨.c, .d, .a, .b, 10, 17, 0xffff5bb1⟩, ⟨.b, .c, .d, .a, 11, 22, 0x895cd7be⟩,
   ⟨.a, .b, .c, .d, 12, 7, 0x6b901122⟩, ⟨.d, .a, .b, .c, 13, 12, 0xfd987193⟩,
   ⟨.c, .d, .a, .b, 14, 17, 0xa679438e⟩, ⟨.b, .c, .d, .a, 15, 22, 0x49b40821⟩]

/-- packages/digest/md5.c:355-371. -/
def round2 : List Op := [
   ⟨.a, .b, .c, .d, 1, 5, 0xf61e2562⟩, ⟨.d, .a, .b, .c, 6, 9, 0xc040b340⟩,
   ⟨.c, .d, .a, .b, 11, 14, 0x265e5a51⟩, ⟨.b, .c, .d, .a, 0, 20, 0xe9b6c7aa⟩,
   ⟨.a, .b, .c, .d, 5, 5, 0xd62f105d⟩, ⟨.d, .a, .b, .c, 10, 9, 0x02441453⟩,
   ⟨.c, .d, .a, .b, 15, 14, 0xd8a1e681⟩, ⟨.b, .c, .d, .a, 4, 20, 0xe7d3fbc8⟩,
   ⟨.a, .b, .c, .d, 9, 5, 0x21e1cde6⟩, ⟨.d, .a, .b, .c, 14, 9, 0xc33707d6⟩,
   ⟨.c, .d, .a, .b, 3, 14, 0xf4d50d87⟩, ⟨.b, .c, .d, .a, 8, 20, 0x455a14ed⟩,
   ⟨.a, .b, .c, .d, 13, 5, 0xa9e3e905⟩, ⟨.d, .a, .b, .c, 2, 9, 0xfcefa3f8⟩,
   ⟨.c, .d, .a, .b, 7, 14, 0x676f02d9⟩, ⟨.b, .c, .d, .a, 12, 20, 0x8d2a4c8a⟩]

/-- packages/digest/md5.c:383-399. -/
def round3 : List Op := [
   ⟨.a, .b, .c, .d, 5, 4, 0xfffa3942⟩, ⟨.d, .a, .b, .c, 8, 11, 0x8771f681⟩,
   ⟨.c, .d, .a, .b, 11, 16, 0x6d9d6122⟩, ⟨.b, .c, .d, .a, 14, 23, 0xfde5380c⟩,
   ⟨.a, .b, .c, .d, 1, 4, 0xa4beea44⟩, ⟨.d, .a, .b, .c, 4, 11, 0x4bdecfa9⟩,
   ⟨.c, .d, .a, .b, 7, 16, 0xf6bb4b60⟩, ⟨.b, .c, .d, .a, 10, 23, 0xbebfbc70⟩,
   ⟨.a, .b, .c, .d, 13, 4, 0x289b7ec6⟩, ⟨.d, .a, .b, .c, 0, 11, 0xeaa127fa⟩,
   ⟨.c, .d, .a, .b, 3, 16, 0xd4ef3085⟩, ⟨.b, .c, .d, .a, 6, 23, 0x04881d05⟩,
   ⟨.a, .b, .c, .d, 9, 4, 0xd9d4d039⟩, ⟨.d, .a, .b, .c, 12, 11, 0xe6db99e5⟩,
   ⟨.c, .d, .a, .b, 15, 16, 0x1fa27cf8⟩, ⟨.b, .c, .d, .a, 2, 23, 0xc4ac5665⟩]

/-- packages/digest/md5.c:411-427. -/
def round4 : List Op := [
   ⟨.a, .b, .c, .d, 0, 6, 0xf4292244⟩, ⟨.d, .a, .b, .c, 7, 10, 0x432aff97⟩,
   ⟨.c, .d, .a, .b, 14, 15, 0xab9423a7⟩, ⟨.b, .c, .d, .a, 5, 21, 0xfc93a039⟩,
   ⟨.a, .b, .c, .d, 12, 6, 0x655b59c3⟩, ⟨.d, .a, .b, .c, 3, 10, 0x8f0ccc92⟩,
   ⟨.c, .d, .a, .b, 10, 15, 0xffeff47d⟩, ⟨.b, .c, .d, .a, 1, 21, 0x85845dd1⟩,
   ⟨.a, .b, .c, .d, 8, 6, 0x6fa87e4f⟩, ⟨.d, .a, .b, .c, 15, 10, 0xfe2ce6e0⟩,
   ⟨.c, .d, .a, .b, 6, 15, 0xa3014314⟩, ⟨.b, .c, .d, .a, 13, 21, 0x4e0811a1⟩,
   ⟨.a, .b, .c, .d, 4, 6, 0xf7537e82⟩, ⟨.d, .a, .b, .c, 11, 10, 0xbd3af235⟩,
   ⟨.c, .d, .a, .b, 2, 15, 0x2ad7d2bb⟩, ⟨.b, .c, .d, .a, 9, 21, 0xeb86d391⟩]

/-- One round of the loop of `md5_process_block` (packages/digest/md5.c:290-434). -/
def block (r : R4) (l : List Nat) : R4 :=
  let x := leWord l
  let r1 := round1.foldl (Op.run FF x) r
  let r2 := round2.foldl (Op.run FG x) r1
  let r3 := round3.foldl (Op.run FH x) r2
  let r4 := round4.foldl (Op.run FI x) r3
  ⟨r4.a + r.a, r4.b + r.b, r4.c + r.c, r4.d + r.d⟩

/-- `md5_init_ctx` (packages/digest/md5.c:65-76). -/
def init : R4 := ⟨0x67452301, 0xefcdab89, 0x98badcfe, 0x10325476⟩

/-- `md5_read_ctx` (packages/digest/md5.c:83-94). -/
def read (r : R4) : List Nat := le32 r.a.toNat ++ le32 r.b.toNat ++ le32 r.c.toNat ++ le32 r.d.toNat

end MD5

/-! ### SHA-1 -/

namespace SHA1

/-- packages/digest/sha1.c:271-274. -/
def K1 : W := 0x5a827999
def K2 : W := 0x6ed9eba1
def K3 : W := 0x8f1bbcdc
def K4 : W := 0xca62c1d6

/-- The local variables `a`, `b`, `c`, `d`, `e`. -/
inductive Reg where | a | b | c | d | e
  deriving DecidableEq, Repr

structure R5 where
  a : W
  b : W
  c : W
  d : W
  e : W
  deriving DecidableEq, Repr

def R5.get (r : R5) : Reg → W
  | .a => r.a
  | .b => r.b
  | .c => r.c
  | .d => r.d
  | .e => r.e

def R5.set (r : R5) (x : Reg) (w : W) : R5 :=
  match x with
  | .a => { r with a := w }
  | .b => { r with b := w }
  | .c => { r with c := w }
  | .d => { r with d := w }
  | .e => { r with e := w }

/-- The last argument of `R`. -/
inductive Arg where
  | x (i : Nat)
  | m (i : Nat)
  deriving DecidableEq, Repr

/-- Which function. -/
inductive Fn where | f1 | f2 | f3 | f4
  deriving DecidableEq, Repr

/-- packages/digest/sha1.c:277-280. -/
def Fn.eval : Fn → W → W → W → W
  | .f1, b, c, d => d ^^^ (b &&& (c ^^^ d))
  | .f2, b, c, d => b ^^^ c ^^^ d
  | .f3, b, c, d => (b &&& c) ||| (d &&& (b ||| c))
  | .f4, b, c, d => b ^^^ c ^^^ d

/-- `rol` (packages/digest/sha1.c:306). -/
def rol (x : W) (n : Nat) : W := (x <<< n) ||| (x >>> (32 - n))

/-- `R (A, B, C, D, E, F, K, M)`. -/
structure Op where
  a : Reg
  b : Reg
  c : Reg
  d : Reg
  e : Reg
  f : Fn
  k : W
  arg : Arg
  deriving DecidableEq, Repr

/-- The arguments `x[i]` and `M(i)` (packages/digest/sha1.c:308-310), with the array `x`. -/
def Arg.eval (x : List W) : Arg → W × List W
  | .x i => (x.getD i 0, x)
  | .m i =>
    let tm := x.getD (i % 16) 0 ^^^ x.getD ((i - 14) % 16) 0 ^^^ x.getD ((i - 8) % 16) 0 ^^^ x.getD ((i - 3) % 16) 0
    (rol tm 1, x.set (i % 16) (rol tm 1))

/-- `R` (packages/digest/sha1.c:312-317). -/
def Op.run (s : R5 × List W) (o : Op) : R5 × List W :=
  let m := o.arg.eval s.2
  let r := s.1.set o.e (s.1.get o.e + (rol (s.1.get o.a) 5 + o.f.eval (s.1.get o.b) (s.1.get o.c) (s.1.get o.d) + o.k + m.1))
  (r.set o.b (rol (r.get o.b) 30), m.2)

/-- packages/digest/sha1.c:329-408. -/
def rounds : List Op := [
   ⟨.a, .b, .c, .d, .e, .f1, K1, .x 0⟩, ⟨.e, .a, .b, .c, .d, .f1, K1, .x 1⟩,
   ⟨.d, .e, .a, .b, .c, .f1, K1, .x 2⟩, ⟨.c, .d, .e, .a, .b, .f1, K1, .x 3⟩,
   ⟨.b, .c, .d, .e, .a, .f1, K1, .x 4⟩, ⟨.a, .b, .c, .d, .e, .f1, K1, .x 5⟩,
   ⟨.e, .a, .b, .c, .d, .f1, K1, .x 6⟩, ⟨.d, .e, .a, .b, .c, .f1, K1, .x 7⟩,
   ⟨.c, .d, .e, .a, .b, .f1, K1, .x 8⟩, ⟨.b, .c, .d, .e, .a, .f1, K1, .x 9⟩,
   ⟨.a, .b, .c, .d, .e, .f1, K1, .x 10⟩, ⟨.e, .a, .b, .c, .d, .f1, K1, .x 11⟩,
   ⟨.d, .e, .a, .b, .c, .f1, K1, .x 12⟩, ⟨.c, .d, .e, .a, .b, .f1, K1, .x 13⟩,
   ⟨.b, .c, .d, .e, .a, .f1, K1, .x 14⟩, ⟨.a, .b, .c, .d, .e, .f1, K1, .x 15⟩,
   ⟨.e, .a, .b, .c, .d, .f1, K1, .m 16⟩, ⟨.d, .e, .a, .b, .c, .f1, K1, .m 17⟩,
   ⟨.c, .d, .e, .a, .b, .f1, K1, .m 18⟩, ⟨.b, .c, .d, .e, .a, .f1, K1, .m 19⟩,
   ⟨.a, .b, .c, .d, .e, .f2, K2, .m 20⟩, ⟨.e, .a, .b, .c, .d, .f2, K2, .m 21⟩,
   ⟨.d, .e, .a, .b, .c, .f2, K2, .m 22⟩, ⟨.c, .d, .e, .a, .b, .f2, K2, .m 23⟩,
   ⟨.b, .c, .d, .e, .a, .f2, K2, .m 24⟩, ⟨.a, .b, .c, .d, .e, .f2, K2, .m 25⟩,
   ⟨.e, .a, .b, .c, .d, .f2, K2, .m 26⟩, ⟨.d, .e, .a, .b, .c, .f2, K2, .m 27⟩,
   ⟨.c, .d, .e, .a, .b, .f2, K2, .m 28⟩, ⟨.b, .c, .d, .e, .a, .f2, K2, .m 29⟩,
   ⟨.a, .b, .c, .d, .e, .f2, K2, .m 30⟩, ⟨.e, .a, .b, .c, .d, .f2, K2, .m 31⟩,
   ⟨.d, .e, .a, .b, .c, .f2, K2, .m 32⟩, ⟨.c, .d, .e, .a, .b, .f2, K2, .m 33⟩,
   ⟨.b, .c, .d, .e, .a, .f2, K2, .m 34⟩, ⟨.a, .b, .c, .d, .e, .f2, K2, .m 35⟩,
   ⟨.e, .a, .b, .c, .d, .f2, K2, .m 36⟩, ⟨.d, .e, .a, .b, .c, .f2, K2, .m 37⟩,
   ⟨.c, .d, .e, .a, .b, .f2, K2, .m 38⟩, ⟨.b, .c, .d, .e, .a, .f2, K2, .m 39⟩,
   ⟨.a, .b, .c, .d, .e, .f3, K3, .m 40⟩, ⟨.e, .a, .b, .c, .d, .f3, K3, .m 41⟩,
   ⟨.d, .e, .a, .b, .c, .f3, K3, .m 42⟩, ⟨.c, .d, .e, .a, .b, .f3, K3, .m 43⟩,
   ⟨.b, .c, .d, .e, .a, .f3, K3, .m 44⟩, ⟨.a, .b, .c, .d, .e, .f3, K3, .m 45⟩,
   ⟨.e, .a, .b, .c, .d, .f3, K3, .m 46⟩, ⟨.d, .e, .a, .b, .c, .f3, K3, .m 47⟩,
   ⟨.c, .d, .e, .a, .b, .f3, K3, .m 48⟩, ⟨.b, .c, .d, .e, .a, .f3, K3, .m 49⟩,
   ⟨.a, .b, .c, .d, .e, .f3, K3, .m 50⟩, ⟨.e, .a, .b, .c, .d, .f3, K3, .m 51⟩,
   ⟨.d, .e, .a, .b, .c, .f3, K3, .m 52⟩, ⟨.c, .d, .e, .a, .b, .f3, K3, .m 53⟩,
   ⟨.b, .c, .d, .e, .a, .f3, K3, .m 54⟩, ⟨.a, .b, .c, .d, .e, .f3, K3, .m 55⟩,
   ⟨.e, .a, .b, .c, .d, .f3, K3, .m 56⟩, ⟨.d, .e, .a, .b, .c, .f3, K3, .m 57⟩,
   ⟨.c, .d, .e, .a, .b, .f3, K3, .m 58⟩, ⟨.b, .c, .d, .e, .a, .f3, K3, .m 59⟩,
   ⟨.a, .b, .c, .d, .e, .f4, K4, .m 60⟩, ⟨.e, .a, .b, .c, .d, .f4, K4, .m 61⟩,
   ⟨.d, .e, .a, .b, .c, .f4, K4, .m 62⟩, ⟨.c, .d, .e, .a, .b, .f4, K4, .m 63⟩,
   ⟨.b, .c, .d, .e, .a, .f4, K4, .m 64⟩, ⟨.a, .b, .c, .d, .e, .f4, K4, .m 65⟩,
   ⟨.e, .a, .b, .c, .d, .f4, K4, .m 66⟩, ⟨.d, .e, .a, .b, .c, .f4, K4, .m 67⟩,
   ⟨.c, .d, .e, .a, .b, .f4, K4, .m 68⟩, ⟨.b, .c, .d, .e, .a, .f4, K4, .m 69⟩,
   ⟨.a, .b, .c, .d, .e, .f4, K4, .m 70⟩, ⟨.e, .a, .b, .c, .d, .f4, K4, .m 71⟩,
   ⟨.d, .e, .a, .b, .c, .f4, K4, .m 72⟩, ⟨.c, .d, .e, .a, .b, .f4, K4, .m 73⟩,
   ⟨.b, .c, .d, .e, .a, .f4, K4, .m 74⟩, ⟨.a, .b, .c, .d, .e, .f4, K4, .m 75⟩,
   ⟨.e, .a, .b, .c, .d, .f4, K4, .m 76⟩, ⟨.d, .e, .a, .b, .c, .f4, K4, .m 77⟩,
   ⟨.c, .d, .e, .a, .b, .f4, K4, .m 78⟩, ⟨.b, .c, .d, .e, .a, .f4, K4, .m 79⟩]

/-- One round of the loop of `sha1_process_block` (packages/digest/sha1.c:319-415). -/
def block (r : R5) (l : List Nat) : R5 :=
  let s := (rounds.foldl Op.run (r, (List.range 16).map (beWord l))).1
  ⟨r.a + s.a, r.b + s.b, r.c + s.c, r.d + s.d, r.e + s.e⟩

/-- `sha1_init_ctx` (packages/digest/sha1.c:57-68). -/
def init : R5 := ⟨0x67452301, 0xefcdab89, 0x98badcfe, 0x10325476, 0xc3d2e1f0⟩

/-- `sha1_read_ctx` (packages/digest/sha1.c:75-85). -/
def read (r : R5) : List Nat :=
  be32 r.a.toNat ++ be32 r.b.toNat ++ be32 r.c.toNat ++ be32 r.d.toNat ++ be32 r.e.toNat

end SHA1

end Verif.Digest
