/-
libgst/mpz.c, function by function, on limbs.

A `gst_mpz` has a signed size (the sign of the number; its absolute value is the number
of limbs in use), a pointer to the limbs and the room allocated for them.  Here `d` is
the list of the limbs stored so far and `cap` the room.  Writing past the room, or a
size beyond the limbs stored, makes the result ill-formed (`WF`), and a call of a
library function outside of its documented preconditions answers `none`.

Not modelled: that results may share storage with operands (the primitives always give
fresh results, except for the two corrections inside `_gst_mpz_fdiv_qr`, whose library
functions allow it), running out of memory, and sizes above the range of `int`.
-/
import Verif.Mpz.Limbs

namespace Verif.Mpz

/-- `gst_mpz` (libgst/gstpriv.h, libgst/mpz.c). -/
structure Z where
  size : Int
  d : List Nat
  cap : Nat
deriving DecidableEq, Repr

/-- The limbs in use. -/
def Z.lim (z : Z) : List Nat := z.d.take z.size.natAbs

/-- The number a `gst_mpz` stands for. -/
def Z.val (z : Z) : Int :=
  if z.size < 0 then -(Mpz.val z.lim : Int) else (Mpz.val z.lim : Int)

/-- The limbs in use have been stored, inside the room. -/
structure Z.WF (z : Z) : Prop where
  stored : z.size.natAbs ≤ z.d.length
  room : z.d.length ≤ z.cap
  lt : AllLt z.d

/-- `if (sumsize != 0) sump[abs_usize] = 1` (for example libgst/mpz.c:181-182): a limb
for the carry. -/
def withCarry (r : List Nat × Nat) : List Nat := if r.2 ≠ 0 then r.1 ++ [1] else r.1

/-- `gst_mpz_sub_ui` (libgst/mpz.c:78-131). -/
def subUi (m : Z) (sub : Nat) : Z :=
  let n := m.size.natAbs
  if sub = 0 then ⟨m.size, m.lim, n + 1⟩
  else if n = 0 then ⟨-1, [sub], n + 1⟩
  else if m.size < 0 then
    let r := mpnAdd1 m.lim sub
    ⟨-((r.2 : Int) + n), withCarry r, n + 1⟩
  else if n = 1 ∧ m.lim.headD 0 < sub then
    let r := mpnSub1 [sub] (m.lim.headD 0)
    ⟨-((n : Int) + r.2), r.1, n + 1⟩
  else
    let r := mpnSub1 m.lim sub
    ⟨(n : Int) + r.2, r.1, n + 1⟩

/-- The body shared by `_gst_mpz_add` (libgst/mpz.c:164-218) and `_gst_mpz_sub`
(libgst/mpz.c:826-875): the operands are given as sizes and limbs, the first one is not
shorter. -/
def addCore (usize vsize : Int) (u v : List Nat) : Z :=
  let au := usize.natAbs
  let av := vsize.natAbs
  if 0 ≤ usize then
    if 0 ≤ vsize then
      let r := mpnAdd u v
      ⟨(r.2 : Int) + au, withCarry r, au + 1⟩
    else if au = av ∧ mpnCmp u v < 0 then
      let r := mpnSub v u
      ⟨-((au : Int) + r.2), r.1, au + 1⟩
    else
      let r := mpnSub u v
      ⟨(au : Int) + r.2, r.1, au + 1⟩
  else if 0 ≤ vsize then
    if au = av ∧ mpnCmp u v < 0 then
      let r := mpnSub v u
      ⟨(au : Int) + r.2, r.1, au + 1⟩
    else
      let r := mpnSub u v
      ⟨-((au : Int) + r.2), r.1, au + 1⟩
  else
    let r := mpnAdd u v
    ⟨-((r.2 : Int) + au), withCarry r, au + 1⟩

/-- `_gst_mpz_add` (libgst/mpz.c:140-218). -/
def add (u v : Z) : Z :=
  if u.size.natAbs < v.size.natAbs then addCore v.size u.size v.lim u.lim
  else addCore u.size v.size u.lim v.lim

/-- `_gst_mpz_sub` (libgst/mpz.c:802-875): the size of the second operand is negated
first. -/
def sub (u v : Z) : Z :=
  if u.size.natAbs < v.size.natAbs then addCore (-v.size) u.size v.lim u.lim
  else addCore u.size (-v.size) u.lim v.lim

/-- `_gst_mpz_cmp` (libgst/mpz.c:220-238). -/
def cmp (u v : Z) : Int :=
  if u.size ≠ v.size then u.size - v.size
  else if u.size = 0 then 0
  else if u.size < 0 then mpnCmp v.lim u.lim
  else mpnCmp u.lim v.lim

/-- Adding one at the end, keeping the carry as a new limb (for example
libgst/mpz.c:265-273, 1027-1032). -/
def incr (d : List Nat) : List Nat :=
  if (mpnAdd1 d 1).2 ≠ 0 then (mpnAdd1 d 1).1 ++ [(mpnAdd1 d 1).2] else (mpnAdd1 d 1).1

/-- `_gst_mpz_com` (libgst/mpz.c:240-294). -/
def com (s : Z) : Z :=
  let n := s.size.natAbs
  if 0 ≤ s.size then
    if n = 0 then ⟨-1, [1], n + 1⟩
    else
      let d := incr s.lim
      ⟨-(d.length : Int), d, n + 1⟩
  else
    let r := mpnSub1 s.lim 1
    ⟨(n : Int) + r.2, r.1, n⟩

/-- One less if the limb at the top is zero, `wsize -= w->d[wsize - 1] == 0`. -/
def dropTop (d : List Nat) (n : Nat) : Nat := if d.getD (n - 1) 0 = 0 then n - 1 else n

/-- The sign of `usize` put on a size. -/
def signed (neg : Bool) (n : Nat) : Int := if neg then -(n : Int) else n

/-- `_gst_mpz_div_2exp` (libgst/mpz.c:296-328). -/
def div2exp (u : Z) (cnt : Nat) : Option Z :=
  let limbCnt := cnt / 64
  let wsize := u.size.natAbs - limbCnt
  if wsize = 0 then some ⟨0, [], 0⟩
  else
    let src := u.lim.drop limbCnt
    match (if cnt % 64 ≠ 0 then mpnRshift src (cnt % 64) else some src) with
    | none => none
    | some d => some ⟨signed (decide (u.size < 0)) (dropTop d wsize), d, wsize⟩

/-- `_gst_mpz_mul_2exp` (libgst/mpz.c:738-783). -/
def mul2exp (u : Z) (cnt : Nat) : Option Z :=
  if u.size = 0 then some ⟨0, [], 0⟩
  else
    let n := u.size.natAbs
    let limbCnt := cnt / 64
    let low := List.replicate limbCnt 0
    let neg := decide (u.size < 0)
    if cnt % 64 ≠ 0 then
      match mpnLshift u.lim (cnt % 64) with
      | none => none
      | some r =>
        if r.2 ≠ 0 then
          some ⟨signed neg (n + limbCnt + 1), low ++ r.1 ++ [r.2], n + limbCnt + 1⟩
        else some ⟨signed neg (n + limbCnt), low ++ r.1, n + limbCnt + 1⟩
    else some ⟨signed neg (n + limbCnt), low ++ u.lim, n + limbCnt + 1⟩

/-- `_gst_mpz_mul` (libgst/mpz.c:669-736). -/
def mul (u v : Z) : Z :=
  let w := u.size.natAbs + v.size.natAbs
  let d := if u.size.natAbs < v.size.natAbs then mpnMul v.lim u.lim else mpnMul u.lim v.lim
  ⟨signed (decide (u.size < 0) != decide (v.size < 0)) w, d, w⟩

/-- `_gst_mpz_tdiv_qr` (libgst/mpz.c:330-399): quotient and remainder. -/
def tdivQr (num den : Z) : Option (Z × Z) :=
  let n := num.size.natAbs
  let k := den.size.natAbs
  if n < k then some (⟨0, [], 0⟩, ⟨num.size, num.lim, n⟩)
  else
    match mpnTdivQr num.lim den.lim with
    | none => none
    | some r =>
      some (⟨signed (decide (num.size < 0) != decide (den.size < 0)) (dropTop r.1 (n - k + 1)),
              r.1, n - k + 1⟩,
            ⟨signed (decide (num.size < 0)) k, r.2, k⟩)

/-- `_gst_mpz_tdiv_q_ui` (libgst/mpz.c:401-436). -/
def tdivQUi (num : Z) (den : Nat) : Option Z :=
  let n := num.size.natAbs
  if n = 0 then some ⟨0, [], 0⟩
  else
    match mpnDivrem1 num.lim den with
    | none => none
    | some r => some ⟨signed (decide (num.size < 0)) (dropTop r.1 n), r.1, n⟩

/-- `_gst_mpz_tdiv_qr_si` (libgst/mpz.c:438-477): the quotient, and the remainder as an
unsigned limb. -/
def tdivQrSi (num : Z) (den : Int) : Option (Z × Nat) :=
  let n := num.size.natAbs
  if n = 0 then some (⟨0, [], 0⟩, 0)
  else
    match mpnDivrem1 num.lim den.natAbs with
    | none => none
    | some r =>
      some (⟨signed (decide (num.size < 0) != decide (den < 0)) (dropTop r.1 n), r.1, n⟩,
            if num.size < 0 then (B - r.2) % B else r.2)

/-- `_gst_mpz_fdiv_qr` (libgst/mpz.c:617-648). -/
def fdivQr (num den : Z) : Option (Z × Z) :=
  if decide (num.size < 0) == decide (den.size < 0) then tdivQr num den
  else
    match tdivQr num den with
    | none => none
    | some (q, r) => if r.size ≠ 0 then some (subUi q 1, add r den) else some (q, r)

/-- A machine word as an unsigned limb. -/
def toLimb (i : Int) : Nat := (i % (B : Int)).toNat

/-- `_gst_mpz_fdiv_qr_si` (libgst/mpz.c:650-667). -/
def fdivQrSi (num : Z) (den : Int) : Option (Z × Nat) :=
  match tdivQrSi num den with
  | none => none
  | some (q, rem) =>
    if (decide (num.size < 0) != decide (den < 0)) ∧ rem ≠ 0 then
      some (subUi q 1, (rem + toLimb den) % B)
    else some (q, rem)

/-- `gst_mpz_copy_abs` (libgst/mpz.c:479-489). -/
def copyAbs (s : Z) : Z := ⟨s.size.natAbs, s.lim, s.size.natAbs⟩

/-- Removing the low zero bits (libgst/mpz.c:531-546 and 548-562): the limbs left, the
zero limbs and the zero bits. -/
def strip (u : List Nat) : Option (List Nat × Nat × Nat) :=
  match mpnScan1 u with
  | none => none
  | some z =>
    let src := u.drop (z / 64)
    if z % 64 ≠ 0 then
      match mpnRshift src (z % 64) with
      | none => none
      | some r => some (r.take (dropTop r src.length), z / 64, z % 64)
    else some (src, z / 64, z % 64)

/-- Shifting the result back (libgst/mpz.c:585-612). -/
def unstrip (v : List Nat) (zl zb : Nat) : Option Z :=
  if zb ≠ 0 then
    let gsize := v.length + zl +
      (if v.getLastD 0 / 2 ^ (64 - zb) ≠ 0 then 1 else 0)
    match mpnLshift v zb with
    | none => none
    | some r =>
      some ⟨gsize, List.replicate zl 0 ++ r.1 ++ (if r.2 ≠ 0 then [r.2] else []), gsize⟩
  else some ⟨(v.length + zl : Nat), List.replicate zl 0 ++ v, v.length + zl⟩

/-- `_gst_mpz_gcd` (libgst/mpz.c:491-615). -/
def gcd (u v : Z) : Option Z :=
  let un := u.size.natAbs
  let vn := v.size.natAbs
  if un = 0 ∨ (vn = 1 ∧ v.lim.headD 0 = 1) then some (copyAbs v)
  else if vn = 0 ∨ (un = 1 ∧ u.lim.headD 0 = 1) then some (copyAbs u)
  else if un = 1 then
    match mpnGcd1 v.lim (u.lim.headD 0) with
    | none => none
    | some g => some ⟨1, [g], 1⟩
  else if vn = 1 then
    match mpnGcd1 u.lim (v.lim.headD 0) with
    | none => none
    | some g => some ⟨1, [g], 1⟩
  else
    match strip u.lim, strip v.lim with
    | some (u', ul, ub), some (v', vl, vb) =>
      let zl := if vl < ul then vl else ul
      let zb := if vl < ul then vb else if ul < vl then ub else min ub vb
      match (if u'.length < v'.length ∨
                (u'.length = v'.length ∧ u'.getLastD 0 < v'.getLastD 0)
              then mpnGcd v' u' else mpnGcd u' v') with
      | none => none
      | some g => unstrip g zl zb
    | _, _ => none

/-- `_gst_mpz_divexact` (libgst/mpz.c:1512-1594), as compiled with GMP 5 or later. -/
def divexact (num den : Z) : Option Z :=
  let n := num.size.natAbs
  let k := den.size.natAbs
  if n = 0 ∨ (n = 1 ∧ num.lim.headD 0 = 0) then some ⟨0, [], 0⟩
  else if k = 1 then
    match tdivQUi num (den.lim.headD 0) with
    | none => none
    | some q => some (if den.size < 0 then { q with size := -q.size } else q)
  else
    match mpnDivexact num.lim den.lim with
    | none => none
    | some q =>
      some ⟨signed (decide (num.size < 0) != decide (den.size < 0)) (n - k + 1), q, n⟩

/-! ### Bits -/

/-- `~x` on a limb. -/
def lnot (x : Nat) : Nat := B - 1 - x

/-- The two loops shared by the cases where the longer operand's top limbs are copied
(for example libgst/mpz.c:1009-1025): `f` on the common limbs, then the rest of the longer
one. -/
def zipLong (f : Nat → Nat → Nat) (a b : List Nat) : List Nat :=
  if b.length ≤ a.length then List.zipWith f a b ++ a.drop b.length
  else List.zipWith f a b ++ b.drop a.length

/-- The case of `_gst_mpz_and` with one negative operand (libgst/mpz.c:1049-1117). -/
def andMixed (u v : List Nat) : Z :=
  let v' := (mpnSub1 v 1).1
  if v.length < u.length then
    let d := List.zipWith (fun a b => a &&& lnot b) u v' ++ u.drop v.length
    ⟨u.length, d, u.length⟩
  else
    let d := trim (List.zipWith (fun a b => a &&& lnot b) u v')
    ⟨d.length, d, d.length⟩

/-- `_gst_mpz_and` (libgst/mpz.c:928-1118). -/
def land (u v : Z) : Z :=
  if 0 ≤ u.size then
    if 0 ≤ v.size then
      let d := trim (List.zipWith (· &&& ·) u.lim v.lim)
      ⟨d.length, d, d.length⟩
    else andMixed u.lim v.lim
  else if v.size < 0 then
    let u' := (mpnSub1 u.lim 1).1
    let v' := (mpnSub1 v.lim 1).1
    let d := incr (zipLong (· ||| ·) u' v')
    ⟨-(d.length : Int), d, 1 + max u.size.natAbs v.size.natAbs⟩
  else andMixed v.lim u.lim

/-- The case of `_gst_mpz_ior` with one negative operand (libgst/mpz.c:1259-1327). -/
def iorMixed (u v : List Nat) : Z :=
  let v1 := (mpnSub1 v 1).1
  let v' := v1.take (dropTop v1 v.length)
  let f := fun a b => lnot a &&& b
  let body :=
    if v'.length ≤ u.length then trim (List.zipWith f u v')
    else List.zipWith f u v' ++ v'.drop u.length
  let d := if body ≠ [] then incr body else [1]
  ⟨-(d.length : Int), d, v.length⟩

/-- `_gst_mpz_ior` (libgst/mpz.c:1120-1328). -/
def ior (u v : Z) : Z :=
  if 0 ≤ u.size then
    if 0 ≤ v.size then
      let d := zipLong (· ||| ·) u.lim v.lim
      ⟨d.length, d, max u.size.natAbs v.size.natAbs⟩
    else iorMixed u.lim v.lim
  else if v.size < 0 then
    let n := min u.size.natAbs v.size.natAbs
    let u' := (mpnSub1 (u.lim.take n) 1).1
    let v' := (mpnSub1 (v.lim.take n) 1).1
    let body := trim (List.zipWith (· &&& ·) u' v')
    let d := if body ≠ [] then incr body else [1]
    ⟨-(d.length : Int), d, n⟩
  else iorMixed v.lim u.lim

/-- The case of `_gst_mpz_xor` with one negative operand (libgst/mpz.c:1453-1505). -/
def xorMixed (u v : List Nat) : Z :=
  let d := incr (zipLong (· ^^^ ·) u (mpnSub1 v 1).1)
  ⟨-(d.length : Int), d, max u.length v.length + 1⟩

/-- `_gst_mpz_xor` (libgst/mpz.c:1330-1506). -/
def xor (u v : Z) : Z :=
  if 0 ≤ u.size then
    if 0 ≤ v.size then
      let d := zipLong (· ^^^ ·) u.lim v.lim
      ⟨d.length, d, max u.size.natAbs v.size.natAbs⟩
    else xorMixed u.lim v.lim
  else if v.size < 0 then
    let d := zipLong (· ^^^ ·) (mpnSub1 u.lim 1).1 (mpnSub1 v.lim 1).1
    ⟨d.length, d, max u.size.natAbs v.size.natAbs⟩
  else xorMixed v.lim u.lim

end Verif.Mpz
