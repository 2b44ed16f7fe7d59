/-
Integer objects and their conversion to and from the numbers of libgst/mpz.c
(libgst/mpz.c:1596-1791), for a little-endian machine with 64-bit words.
-/
import Verif.Mpz.Arith
import Mathlib.Algebra.Order.Group.Unbundled.Int

namespace Verif.Mpz

/-! ### Bytes -/

/-- The number a list of bytes stands for, least significant byte first. -/
def bval : List Nat → Nat
  | [] => 0
  | x :: xs => x + 256 * bval xs

def AllByte (l : List Nat) : Prop := ∀ x ∈ l, x < 256

/-- The `n` low bytes of a number. -/
def bytesOf : Nat → Nat → List Nat
  | 0, _ => []
  | n + 1, x => x % 256 :: bytesOf n (x / 256)

/-- The words of memory that hold these bytes. -/
def words (l : List Nat) : List Nat := limbs (l.length / 8) (bval l)

/-- The bytes of memory that hold these words. -/
def toBytes (d : List Nat) : List Nat := bytesOf (8 * d.length) (val d)

/-! ### The objects -/

/-- An integer object, or something that is not an integer.  The bytes of a large integer
are its indexed instance variables; `pad` is what memory holds between the last of them and
the end of the last word. -/
inductive Obj where
  | small (i : Int)
  | zero
  | pos (bytes pad : List Nat)
  | neg (bytes pad : List Nat)
  | other
  deriving DecidableEq

/-- The integer an object stands for: large integers hold the two's complement, the class
tells the sign. -/
def Obj.val : Obj → Int
  | .small i => i
  | .zero => 0
  | .pos b _ => (bval b : Int)
  | .neg b _ => (bval b : Int) - (256 : Int) ^ b.length
  | .other => 0

/-- The padding fills the last word. -/
def Pads (b p : List Nat) : Prop :=
  AllByte b ∧ AllByte p ∧ p.length < 8 ∧ (b.length + p.length) % 8 = 0

/-- The objects arithmetic is to answer: a SmallInteger if the value fits one, otherwise a
large integer of the class of its sign with as few bytes as the sign bit allows. -/
def Canon : Obj → Prop
  | .small i => -2 ^ 62 ≤ i ∧ i < 2 ^ 62
  | .zero => False
  | .pos b p => Pads b p ∧ 2 ^ 62 ≤ bval b ∧ 2 * bval b < 256 ^ b.length ∧
      256 ^ b.length ≤ 512 * bval b
  | .neg b p => Pads b p ∧ bval b + 2 ^ 62 < 256 ^ b.length ∧ 256 ^ b.length ≤ 2 * bval b ∧
      256 ^ b.length + 512 * bval b < 512 * 256 ^ b.length
  | .other => False

/-- The objects arithmetic may be given: those it answers, and the LargeZeroInteger that
conversions make. -/
def Operand (o : Obj) : Prop := Canon o ∨ o = .zero

/-! ### The code -/

/-- The loops that negate a number in place (libgst/mpz.c:1650-1656 and 1735-1740): zero
limbs stay, the first other limb is negated, the rest is complemented.  If all limbs are
zero they run off the end. -/
def negLoop : List Nat → Option (List Nat)
  | [] => none
  | x :: xs =>
    if x = 0 then (negLoop xs).map (0 :: ·)
    else some ((B - x) % B :: xs.map (fun y => B - 1 - y))

/-- `dest[-1] &= adjust`, where `adjust` has lost the top `8 * empty` bits
(libgst/mpz.c:1626 and 1681-1682). -/
def maskTop (d : List Nat) (empty : Nat) : List Nat :=
  d.dropLast ++ [d.getLastD 0 % 2 ^ (64 - 8 * empty)]

/-- `_gst_mpz_from_oop` (libgst/mpz.c:1596-1689).  The padding bytes are also cleared in the
object itself if its class is LargePositiveInteger; this is not modelled, as nothing reads
them.  `none` is a read or write outside the object. -/
def fromOop : Obj → Option Z
  | .small i => some ⟨if i < 0 then -1 else 1, [i.natAbs], 1⟩
  | .zero => some ⟨1, [0], 1⟩
  | .pos b p =>
    let w := words (b ++ p)
    if w = [] then none
    else
      let d := maskTop w p.length
      some ⟨dropTop d d.length, d, d.length⟩
  | .neg b p =>
    match negLoop (words (b ++ p)) with
    | none => none
    | some w =>
      let d := maskTop w p.length
      some ⟨-(dropTop d d.length : Int), d, d.length⟩
  | .other => none

/-- The end of the number: `while (bytes[--n] == fill);`, one more byte if the sign bit is
not that of `fill`, and the byte that is not in the limbs (libgst/mpz.c:1759-1790).  `none`
if the loop runs off the start. -/
def cut (fill : Nat) (bytes : List Nat) : Option (List Nat) :=
  let body := (bytes.reverse.dropWhile (· = fill)).reverse
  if body = [] then none
  else
    let n := body.length - 1
    let n' := if fill = 255 then (if bytes.getD n 0 < 128 then n + 1 else n)
      else (if 128 ≤ bytes.getD n 0 then n + 1 else n)
    let count := n' + 1
    if bytes.length < count then some (bytes ++ [fill]) else some (bytes.take count)

/-- The padding of a new object of `n` bytes.  The code leaves these bytes as it finds
them; the theorems allow operands to hold anything there. -/
def padding (n : Nat) : List Nat := List.replicate ((8 - n % 8) % 8) 0

/-- `_gst_oop_from_mpz` (libgst/mpz.c:1691-1792). -/
def toOop (z : Z) : Option Obj :=
  let d := trim z.lim
  if d = [] then some (.small 0)
  else if z.size < 0 then
    if d.length = 1 ∧ d.headD 0 ≤ 2 ^ 62 then some (.small (-(d.headD 0 : Int)))
    else
      match negLoop d with
      | none => none
      | some e => (cut 255 (toBytes e)).map fun b => .neg b (padding b.length)
  else
    if d.length = 1 ∧ d.headD 0 ≤ 2 ^ 62 - 1 then some (.small (d.headD 0 : Int))
    else (cut 0 (toBytes d)).map fun b => .pos b (padding b.length)

/-! ### Lemmas on bytes -/

theorem bval_lt {l : List Nat} (h : AllByte l) : bval l < 256 ^ l.length := by
  induction l with
  | nil => simp [bval]
  | cons x xs ih =>
    have h1 := ih (fun y hy => h y (List.mem_cons_of_mem _ hy))
    have h2 := h x (List.mem_cons_self ..)
    simp only [bval, List.length_cons, Nat.pow_succ]
    omega

theorem bval_append (a b : List Nat) : bval (a ++ b) = bval a + 256 ^ a.length * bval b := by
  induction a with
  | nil => simp [bval]
  | cons x xs ih => simp only [List.cons_append, bval, ih, List.length_cons, Nat.pow_succ]; ring

theorem bytesOf_length (n x : Nat) : (bytesOf n x).length = n := by
  induction n generalizing x with
  | zero => rfl
  | succ n ih => simp [bytesOf, ih]

theorem bytesOf_lt (n x : Nat) : AllByte (bytesOf n x) := by
  induction n generalizing x with
  | zero => intro y hy; simp [bytesOf] at hy
  | succ n ih =>
    intro y hy
    simp only [bytesOf, List.mem_cons] at hy
    rcases hy with h | h
    · rw [h]; exact Nat.mod_lt _ (by omega)
    · exact ih _ y h

theorem bval_bytesOf {n x : Nat} (h : x < 256 ^ n) : bval (bytesOf n x) = x := by
  induction n generalizing x with
  | zero => simp only [Nat.pow_zero] at h; simp [bytesOf, bval]; omega
  | succ n ih =>
    simp only [bytesOf, bval]
    rw [ih (Nat.div_lt_of_lt_mul (by rw [Nat.mul_comm, ← Nat.pow_succ]; exact h))]
    omega

theorem bval_inj {a b : List Nat} (ha : AllByte a) (hb : AllByte b) (hl : a.length = b.length)
    (h : bval a = bval b) : a = b := by
  induction a generalizing b with
  | nil => rw [List.length_nil] at hl; exact (List.length_eq_zero_iff.1 hl.symm).symm
  | cons x xs ih =>
    cases b with
    | nil => simp at hl
    | cons y ys =>
      have h1 := ha x (List.mem_cons_self ..)
      have h2 := hb y (List.mem_cons_self ..)
      simp only [bval] at h
      have hxs := ih (fun z hz => ha z (List.mem_cons_of_mem _ hz))
        (fun z hz => hb z (List.mem_cons_of_mem _ hz)) (by simpa using hl) (by omega)
      rw [hxs, show x = y by omega]

theorem B_bytes (n : Nat) : B ^ n = 256 ^ (8 * n) := by
  rw [B, ← Nat.pow_mul, Nat.pow_mul, Nat.pow_mul]

theorem bval_replicate (j f : Nat) : bval (List.replicate j f) * 255 = f * (256 ^ j - 1) := by
  induction j with
  | zero => simp [bval]
  | succ j ih =>
    have hp : 0 < 256 ^ j := Nat.pow_pos (by omega)
    rw [List.replicate_succ, bval, Nat.pow_succ, Nat.add_mul, Nat.mul_assoc, ih]
    zify [show 1 ≤ 256 ^ j by omega, show 1 ≤ 256 ^ j * 256 by omega]
    ring

/-! ### Negation in place -/

theorem map_lnot {l : List Nat} (hl : AllLt l) :
    AllLt (l.map (fun y => B - 1 - y)) ∧
    val (l.map (fun y => B - 1 - y)) + val l + 1 = B ^ l.length := by
  induction l with
  | nil => exact ⟨fun x hx => (by cases hx), rfl⟩
  | cons x xs ih =>
    obtain ⟨h1, h2⟩ := ih hl.tail
    have hx := hl.head
    have hB := B_pos
    refine ⟨?_, ?_⟩
    · intro y hy
      simp only [List.map_cons, List.mem_cons] at hy
      rcases hy with h | h
      · omega
      · exact h1 y h
    · simp only [List.map_cons, val, List.length_cons, Nat.pow_succ]
      rw [← h2]
      generalize val (xs.map fun y => B - 1 - y) = a
      generalize val xs = b
      zify [show 1 ≤ B by omega, show x ≤ B - 1 by omega]
      ring

theorem negLoop_ok {l : List Nat} (hl : AllLt l) (h : val l ≠ 0) :
    ∃ e, negLoop l = some e ∧ AllLt e ∧ e.length = l.length ∧ val e + val l = B ^ l.length := by
  induction l with
  | nil => exact absurd rfl h
  | cons x xs ih =>
    have hx := hl.head
    have hB := B_pos
    unfold negLoop
    by_cases h0 : x = 0
    · rw [if_pos h0]
      subst h0
      simp only [val, Nat.zero_add] at h
      obtain ⟨e, h1, h2, h3, h4⟩ := ih hl.tail (fun hh => h (by rw [hh]; rfl))
      rw [h1]
      refine ⟨0 :: e, rfl, ?_, by simp [h3], ?_⟩
      · intro y hy
        simp only [List.mem_cons] at hy
        rcases hy with hy | hy
        · omega
        · exact h2 y hy
      · simp only [val, List.length_cons, Nat.pow_succ]
        rw [← h4]; ring
    · rw [if_neg h0]
      obtain ⟨h1, h2⟩ := map_lnot hl.tail
      have hm : (B - x) % B = B - x := Nat.mod_eq_of_lt (by omega)
      refine ⟨_, rfl, ?_, by simp, ?_⟩
      · intro y hy
        simp only [List.mem_cons] at hy
        rcases hy with hy | hy
        · rw [hy, hm]; omega
        · exact h1 y hy
      · simp only [val, List.length_cons, Nat.pow_succ]
        rw [hm, ← h2]
        generalize val (xs.map fun y => B - 1 - y) = a
        generalize val xs = b
        zify [show x ≤ B by omega]
        ring

/-! ### From objects -/

theorem maskTop_ok {l : List Nat} (hl : AllLt l) (hne : l ≠ []) {p : Nat} (hp : p < 8) :
    AllLt (maskTop l p) ∧ (maskTop l p).length = l.length ∧
    val (maskTop l p) = val l % (B ^ (l.length - 1) * 2 ^ (64 - 8 * p)) := by
  have hsplit : l = l.dropLast ++ [l.getLastD 0] := by
    conv => lhs; rw [← List.dropLast_concat_getLast hne]
    rw [List.getLastD_eq_getLast?, List.getLast?_eq_some_getLast hne, Option.getD_some]
  have hd : AllLt l.dropLast := fun x hx => hl x ((List.dropLast_sublist l).subset hx)
  have hb := val_lt hd
  have hlen : 1 ≤ l.length := List.length_pos_iff.2 hne
  rw [List.length_dropLast] at hb
  have hv : val l = val l.dropLast + B ^ (l.length - 1) * l.getLastD 0 := by
    conv => lhs; rw [hsplit]
    rw [val_append, List.length_dropLast]
    simp only [val, Nat.mul_zero, Nat.add_zero]
  refine ⟨hd.append ?_, ?_, ?_⟩
  · intro x hx
    simp only [List.mem_singleton] at hx
    rw [hx]
    apply Nat.lt_of_lt_of_le (Nat.mod_lt _ (Nat.pow_pos (by omega)))
    exact Nat.pow_le_pow_right (by omega) (by omega)
  · rw [maskTop, List.length_append, List.length_dropLast]; simp; omega
  · rw [maskTop, val_append, List.length_dropLast, Nat.mod_mul, hv,
      Nat.add_mul_mod_self_left, Nat.mod_eq_of_lt hb, Nat.add_mul_div_left _ _ (Bpow_pos _),
      Nat.div_eq_of_lt hb]
    simp only [val, Nat.mul_zero, Nat.add_zero, Nat.zero_add]

/-- Dropping at most one zero limb at the top is enough. -/
theorem load_ok {d : List Nat} (hd : AllLt d) {n : Nat} (hn : d.length = n) (h1 : 1 ≤ n)
    (hv : 1 ≤ val d) (hb : B ^ (n - 1) ≤ 2 * val d) (neg : Bool) :
    (Z.mk (if neg then -(dropTop d n : Int) else dropTop d n) d n).Ok ∧
    (Z.mk (if neg then -(dropTop d n : Int) else dropTop d n) d n).val =
      if neg then -(val d : Int) else val d := by
  obtain ⟨s1, s2, s3, s4⟩ := dropTop_spec n hd hn
  have hab : (if neg then -(dropTop d n : Int) else dropTop d n).natAbs = dropTop d n := by
    split <;> omega
  have hge : 1 ≤ dropTop d n := by
    by_cases hn1 : n = 1
    · rw [s4 (by rw [hn1]; simpa using hv)]; omega
    · omega
  have w := mk_val_of (s := if neg then -(dropTop d n : Int) else dropTop d n) (d := d) (c := n)
    (by omega) (by omega) hd (by rw [hab]; exact s2)
  have hlim : (Z.mk (if neg then -(dropTop d n : Int) else dropTop d n) d n).lim =
      d.take (dropTop d n) := by
    rw [Z.lim]; simp only; rw [hab]
  have hval : val (d.take (dropTop d n)) = val d := by
    have := val_take_drop d (dropTop d n) (by omega)
    rw [s2] at this
    omega
  refine ⟨⟨w.1, ⟨?_, ?_⟩, ?_⟩, ?_⟩
  · rw [hlim, List.length_take]; omega
  · rw [hlim, List.length_take, hval, Nat.min_eq_left (by omega)]
    rcases s3 with h | h
    · rw [h]
      by_cases hn2 : n - 1 = 1
      · exact Or.inl hn2
      · right
        have : B ^ (n - 1) = B ^ (n - 1 - 1) * B := by
          rw [← Nat.pow_succ]; congr 1; omega
        rw [this, B_eq] at hb
        rw [B_eq]
        generalize (2 ^ 64) ^ (n - 1 - 1) = q at *
        omega
    · right
      rw [h]
      by_cases hz : d.getD (n - 1) 0 = 0
      · have : dropTop d n = n - 1 := by unfold dropTop; rw [if_pos hz]
        omega
      · have hz' : d.getLastD 0 ≠ 0 := by
          rw [List.getLastD_eq_getLast?, List.getLast?_eq_getElem?, hn]
          rw [List.getD_eq_getElem?_getD] at hz
          exact hz
        have := le_val_of_top hz'
        rw [hn] at this
        exact this
  · intro _
    rw [hlim, hval]; omega
  · rw [w.2]
    cases neg
    · simp
    · simp only [if_true]
      rw [if_pos (by omega)]

theorem words_ok {b p : List Nat} (h : Pads b p) :
    AllLt (words (b ++ p)) ∧ (words (b ++ p)).length = (b.length + p.length) / 8 ∧
    val (words (b ++ p)) = bval b + 256 ^ b.length * bval p ∧
    (1 ≤ b.length → 1 ≤ (b.length + p.length) / 8 ∧
      B ^ ((b.length + p.length) / 8 - 1) * 2 ^ (64 - 8 * p.length) = 256 ^ b.length ∧
      256 * B ^ ((b.length + p.length) / 8 - 1) ≤ 256 ^ b.length) := by
  obtain ⟨h1, h2, h3, h4⟩ := h
  refine ⟨limbs_lt _ _, by rw [words, limbs_length, List.length_append], ?_, fun hb => ?_⟩
  · have hall : AllByte (b ++ p) := by
      intro x hx
      rcases List.mem_append.1 hx with h | h
      · exact h1 x h
      · exact h2 x h
    have := bval_lt hall
    rw [words, val_limbs_of_lt, bval_append]
    rw [B_bytes, List.length_append]
    rw [List.length_append] at this
    rwa [show 8 * ((b.length + p.length) / 8) = b.length + p.length by omega]
  · refine ⟨by omega, ?_, ?_⟩
    · rw [B, ← Nat.pow_mul, ← Nat.pow_add, show 256 = 2 ^ 8 by norm_num, ← Nat.pow_mul]
      congr 1; omega
    · rw [B_bytes, Nat.mul_comm, ← Nat.pow_succ]
      exact Nat.pow_le_pow_right (by omega) (by omega)

theorem single_ok {i : Int} (h : -2 ^ 62 ≤ i ∧ i < 2 ^ 62) :
    (Z.mk (if i < 0 then -1 else 1) [i.natAbs] 1).Ok ∧
    (Z.mk (if i < 0 then -1 else 1) [i.natAbs] 1).val = i := by
  have hl : ([i.natAbs] : List Nat).length = (if i < 0 then (-1 : Int) else 1).natAbs := by
    split <;> rfl
  have ha : AllLt [i.natAbs] := by
    intro x hx
    simp only [List.mem_singleton] at hx
    rw [hx, B_eq]
    omega
  have w := mk_ok (c := 1) hl (Nat.le_refl _) ha
  have hlim := lim_mk (c := 1) hl
  refine ⟨⟨w.1, ⟨by rw [hlim]; exact Nat.le_refl _, Or.inl (by rw [hlim]; rfl)⟩, ?_⟩, ?_⟩
  · intro hs
    rw [hlim]
    simp only [Mpz.val, Nat.mul_zero, Nat.add_zero]
    simp only at hs
    split at hs <;> omega
  · rw [w.2]
    simp only [Mpz.val, Nat.mul_zero, Nat.add_zero]
    split <;> split at * <;> omega

/-- An operand is read as a number the functions of mpz.c can work on, with its value. -/
theorem fromOop_ok {o : Obj} (h : Operand o) :
    ∃ z, fromOop o = some z ∧ z.Ok ∧ z.val = o.val := by
  rcases h with h | h
  swap
  · subst h
    refine ⟨_, rfl, ⟨⟨Nat.le_refl _, Nat.le_refl _, ?_⟩, ⟨Nat.le_refl _, Or.inl rfl⟩, ?_⟩, rfl⟩
    · intro x hx; simp only [List.mem_singleton] at hx; rw [hx]; exact B_pos
    · intro hs; simp at hs
  cases o with
  | zero => exact h.elim
  | other => exact h.elim
  | small i =>
    simp only [Canon] at h
    exact ⟨_, rfl, (single_ok h).1, (single_ok h).2⟩
  | pos b p =>
    obtain ⟨hp, h1, h2, h3⟩ := h
    have hbl : 1 ≤ b.length := by
      by_contra hc
      have : b = [] := List.length_eq_zero_iff.1 (by omega)
      rw [this] at h1; simp [bval] at h1
    obtain ⟨w1, w2, w3, w4⟩ := words_ok hp
    obtain ⟨w5, w6, w7⟩ := w4 hbl
    have hne : words (b ++ p) ≠ [] := by
      intro hh
      rw [hh] at w2; simp at w2; omega
    obtain ⟨m1, m2, m3⟩ := maskTop_ok w1 hne hp.2.2.1
    rw [w2, w6, w3, Nat.add_mul_mod_self_left, Nat.mod_eq_of_lt (bval_lt hp.1)] at m3
    rw [w2] at m2
    have l := load_ok m1 m2 w5 (by omega) (by omega) false
    simp only [Bool.false_eq_true, if_false] at l
    simp only [fromOop, if_neg hne, m2]
    refine ⟨_, rfl, l.1, ?_⟩
    rw [l.2, m3]
    rfl
  | neg b p =>
    obtain ⟨hp, h1, h2, h3⟩ := h
    have hbl : 1 ≤ b.length := by
      by_contra hc
      have : b = [] := List.length_eq_zero_iff.1 (by omega)
      rw [this] at h1; simp [bval] at h1
    have hpos : 0 < 256 ^ b.length := Nat.pow_pos (by omega)
    obtain ⟨w1, w2, w3, w4⟩ := words_ok hp
    obtain ⟨w5, w6, w7⟩ := w4 hbl
    obtain ⟨e, e1, e2, e3, e4⟩ := negLoop_ok w1 (by omega)
    have hne : e ≠ [] := by
      intro hh
      rw [hh] at e3; simp at e3; omega
    obtain ⟨m1, m2, m3⟩ := maskTop_ok e2 hne hp.2.2.1
    have hv : val e % 256 ^ b.length = 256 ^ b.length - bval b := by
      have hpv := bval_lt hp.2.1
      have hbl' := bval_lt hp.1
      have hsum : val e = (256 ^ b.length - bval b) +
          256 ^ b.length * (256 ^ p.length - 1 - bval p) := by
        rw [w2, w3, B_bytes, show 8 * ((b.length + p.length) / 8) = b.length + p.length by
          have := hp.2.2.2; omega, Nat.pow_add] at e4
        zify [show bval b ≤ 256 ^ b.length by omega, show bval p ≤ 256 ^ p.length - 1 by omega,
          show 1 ≤ 256 ^ p.length by omega] at e4 ⊢
        linarith
      rw [hsum, Nat.add_mul_mod_self_left, Nat.mod_eq_of_lt (by omega)]
    rw [e3, w2, w6, hv] at m3
    rw [e3, w2] at m2
    have l := load_ok m1 m2 w5 (by omega) (by omega) true
    simp only [if_true] at l
    simp only [fromOop, e1, m2]
    refine ⟨_, rfl, l.1, ?_⟩
    rw [l.2, m3]
    simp only [Obj.val]
    have := bval_lt hp.1
    push_cast [Int.ofNat_sub (Nat.le_of_lt this)]
    ring

/-! ### To objects -/

theorem dropWhile_split (fill : Nat) (l : List Nat) :
    ∃ j, l = (l.reverse.dropWhile (· = fill)).reverse ++ List.replicate j fill ∧
      ((l.reverse.dropWhile (· = fill)).reverse ≠ [] →
        (l.reverse.dropWhile (· = fill)).reverse.getLastD 0 ≠ fill) := by
  have key : ∀ r : List Nat, ∃ j, r = List.replicate j fill ++ r.dropWhile (· = fill) ∧
      (r.dropWhile (· = fill) ≠ [] → (r.dropWhile (· = fill)).headD 0 ≠ fill) := by
    intro r
    induction r with
    | nil => exact ⟨0, rfl, fun h => absurd rfl h⟩
    | cons x xs ih =>
      obtain ⟨j, h1, h2⟩ := ih
      by_cases hx : x = fill
      · refine ⟨j + 1, ?_, ?_⟩
        · rw [List.dropWhile_cons_of_pos (by simpa using hx), List.replicate_succ,
            List.cons_append, ← h1, hx]
        · rw [List.dropWhile_cons_of_pos (by simpa using hx)]; exact h2
      · refine ⟨0, ?_, ?_⟩
        · rw [List.dropWhile_cons_of_neg (by simpa using hx)]; rfl
        · rw [List.dropWhile_cons_of_neg (by simpa using hx)]
          intro _
          exact hx
  obtain ⟨j, h1, h2⟩ := key l.reverse
  refine ⟨j, ?_, ?_⟩
  · have := congrArg List.reverse h1
    rw [List.reverse_reverse, List.reverse_append, List.reverse_replicate] at this
    exact this
  · intro hne
    generalize l.reverse.dropWhile (· = fill) = t at *
    have : t ≠ [] := by intro h; rw [h] at hne; exact hne rfl
    have := h2 this
    cases t with
    | nil => exact absurd rfl hne
    | cons x xs =>
      rw [List.getLastD_eq_getLast?, List.getLast?_reverse]
      simpa using this

/-- What is left of the bytes: up to the last one that is not `fill`, and a `fill` byte if the
sign bit asks for it. -/
theorem cut_eq {fill : Nat} {bytes : List Nat}
    (hne : (bytes.reverse.dropWhile (· = fill)).reverse ≠ []) :
    ∃ j, bytes = (bytes.reverse.dropWhile (· = fill)).reverse ++ List.replicate j fill ∧
      (bytes.reverse.dropWhile (· = fill)).reverse.getLastD 0 ≠ fill ∧
      cut fill bytes = some
        (if (if fill = 255 then (bytes.reverse.dropWhile (· = fill)).reverse.getLastD 0 < 128
            else 128 ≤ (bytes.reverse.dropWhile (· = fill)).reverse.getLastD 0)
          then (bytes.reverse.dropWhile (· = fill)).reverse ++ [fill]
          else (bytes.reverse.dropWhile (· = fill)).reverse) := by
  obtain ⟨j, h1, h2⟩ := dropWhile_split fill bytes
  refine ⟨j, h1, h2 hne, ?_⟩
  unfold cut
  simp only
  rw [if_neg hne]
  generalize (bytes.reverse.dropWhile (· = fill)).reverse = body at *
  have hlen : 1 ≤ body.length := List.length_pos_iff.2 hne
  have hget : bytes.getD (body.length - 1) 0 = body.getLastD 0 := by
    rw [h1, List.getD_eq_getElem?_getD, List.getElem?_append_left (by omega),
      List.getLastD_eq_getLast?, List.getLast?_eq_getElem?]
  have hbl : bytes.length = body.length + j := by
    rw [h1, List.length_append, List.length_replicate]
  rw [hget]
  have hn' : ∀ c : Prop, ∀ _ : Decidable c,
      (if bytes.length < (if c then body.length - 1 + 1 else body.length - 1) + 1
        then some (bytes ++ [fill])
        else some (bytes.take ((if c then body.length - 1 + 1 else body.length - 1) + 1))) =
      some (if c then body ++ [fill] else body) := by
    intro c _
    by_cases hc : c
    · rw [if_pos hc, if_pos hc]
      by_cases hj : j = 0
      · rw [if_pos (by omega), h1, hj]; simp
      · rw [if_neg (by omega), h1]
        congr 1
        rw [show body.length - 1 + 1 + 1 = body.length + 1 by omega,
          List.take_length_add_append]
        obtain ⟨j', rfl⟩ := Nat.exists_eq_succ_of_ne_zero hj
        simp [List.replicate_succ]
    · rw [if_neg hc, if_neg hc, if_neg (by omega), h1,
        show body.length - 1 + 1 = body.length by omega, List.take_left]
  by_cases hf : fill = 255
  · simp only [if_pos hf]
    exact hn' _ _
  · simp only [if_neg hf]
    exact hn' _ _

theorem top_byte {body : List Nat} (ha : AllByte body) (hne : body ≠ []) :
    ∃ low q, bval body = low + q * body.getLastD 0 ∧ low < q ∧ 256 ^ body.length = 256 * q ∧
      body.getLastD 0 < 256 := by
  have hsplit : body = body.dropLast ++ [body.getLastD 0] := by
    conv => lhs; rw [← List.dropLast_concat_getLast hne]
    rw [List.getLastD_eq_getLast?, List.getLast?_eq_some_getLast hne, Option.getD_some]
  have hd : AllByte body.dropLast := fun x hx => ha x ((List.dropLast_sublist body).subset hx)
  have hlen : 1 ≤ body.length := List.length_pos_iff.2 hne
  refine ⟨bval body.dropLast, 256 ^ (body.length - 1), ?_, ?_, ?_, ?_⟩
  · conv => lhs; rw [hsplit]
    rw [bval_append, List.length_dropLast]
    simp only [bval, Nat.mul_zero, Nat.add_zero]
  · have := bval_lt hd
    rwa [List.length_dropLast] at this
  · rw [Nat.mul_comm, ← Nat.pow_succ]; congr 1; omega
  · apply ha
    rw [List.getLastD_eq_getLast?, List.getLast?_eq_some_getLast hne, Option.getD_some]
    exact List.getLast_mem hne

theorem pads_padding {b : List Nat} (hb : AllByte b) : Pads b (padding b.length) := by
  refine ⟨hb, ?_, ?_, ?_⟩
  · intro x hx
    rw [List.eq_of_mem_replicate hx]; omega
  · rw [padding, List.length_replicate]; omega
  · rw [padding, List.length_replicate]; omega

theorem toBytes_ok {d : List Nat} (hd : AllLt d) :
    AllByte (toBytes d) ∧ (toBytes d).length = 8 * d.length ∧ bval (toBytes d) = val d := by
  refine ⟨bytesOf_lt _ _, bytesOf_length _ _, bval_bytesOf ?_⟩
  have := val_lt hd
  rwa [B_bytes] at this

/-- A positive number that is not a SmallInteger. -/
theorem store_pos {d : List Nat} (hd : AllLt d) (h : 2 ^ 62 ≤ val d) :
    ∃ b, cut 0 (toBytes d) = some b ∧ Canon (.pos b (padding b.length)) ∧ bval b = val d := by
  obtain ⟨t1, t2, t3⟩ := toBytes_ok hd
  have hne : ((toBytes d).reverse.dropWhile (· = 0)).reverse ≠ [] := by
    intro hh
    obtain ⟨j, h1, -⟩ := dropWhile_split 0 (toBytes d)
    rw [hh] at h1
    have h2 := bval_replicate j 0
    rw [List.nil_append] at h1
    rw [← h1, t3] at h2
    omega
  obtain ⟨j, h1, h2, h3⟩ := cut_eq hne
  rw [h3]
  generalize ((toBytes d).reverse.dropWhile (· = 0)).reverse = body at *
  have ha : AllByte body := by
    intro x hx
    apply t1
    rw [h1]
    exact List.mem_append_left _ hx
  have hv : bval body = val d := by
    rw [← t3, h1, bval_append]
    have := bval_replicate j 0
    have h0 : bval (List.replicate j 0) = 0 := by omega
    rw [h0]; rfl
  obtain ⟨low, q, e1, e2, e3, e4⟩ := top_byte ha hne
  simp only [if_neg (show ¬ (0 : Nat) = 255 by omega)]
  refine ⟨_, rfl, ?_, ?_⟩
  · by_cases hc : 128 ≤ body.getLastD 0
    · rw [if_pos hc]
      refine ⟨pads_padding ?_, ?_, ?_, ?_⟩
      · intro x hx
        rcases List.mem_append.1 hx with hx | hx
        · exact ha x hx
        · simp only [List.mem_singleton] at hx; omega
      · rw [bval_append]; simp [bval]; omega
      · rw [bval_append, List.length_append, List.length_singleton, Nat.pow_succ]
        simp only [bval, Nat.mul_zero, Nat.add_zero]
        have := bval_lt ha
        omega
      · rw [bval_append, List.length_append, List.length_singleton, Nat.pow_succ, e3]
        simp only [bval, Nat.mul_zero, Nat.add_zero]
        have := Nat.mul_le_mul_left q hc
        omega
    · rw [if_neg hc]
      refine ⟨pads_padding ha, by omega, ?_, ?_⟩
      · rw [e3]
        have := Nat.mul_le_mul_left q (show body.getLastD 0 ≤ 127 by omega)
        omega
      · rw [e3]
        have := Nat.mul_le_mul_left q (show 1 ≤ body.getLastD 0 by omega)
        omega
  · split
    · rw [bval_append]; simp [bval, hv]
    · exact hv

/-- A negative number that is not a SmallInteger; `e` is its two's complement. -/
theorem store_neg {e : List Nat} {v : Nat} (he : AllLt e) (hs : val e + v = B ^ e.length)
    (h : 2 ^ 62 < v) :
    ∃ b, cut 255 (toBytes e) = some b ∧ Canon (.neg b (padding b.length)) ∧
      bval b + v = 256 ^ b.length := by
  obtain ⟨t1, t2, t3⟩ := toBytes_ok he
  have hne : ((toBytes e).reverse.dropWhile (· = 255)).reverse ≠ [] := by
    intro hh
    obtain ⟨j, h1, -⟩ := dropWhile_split 255 (toBytes e)
    rw [hh, List.nil_append] at h1
    have h2 := bval_replicate j 255
    rw [← h1, t3] at h2
    have hj : j = 8 * e.length := by
      rw [← t2, h1, List.length_replicate]
    rw [hj, ← B_bytes] at h2
    have := Bpow_pos e.length
    omega
  obtain ⟨j, h1, h2, h3⟩ := cut_eq hne
  rw [h3]
  generalize ((toBytes e).reverse.dropWhile (· = 255)).reverse = body at *
  have ha : AllByte body := by
    intro x hx
    apply t1
    rw [h1]
    exact List.mem_append_left _ hx
  have hv : bval body + v = 256 ^ body.length := by
    have hr := bval_replicate j 255
    have hj : 8 * e.length = body.length + j := by
      rw [← t2, h1, List.length_append, List.length_replicate]
    have hp : 0 < 256 ^ j := Nat.pow_pos (by omega)
    have hr' : bval (List.replicate j 255) = 256 ^ j - 1 := by omega
    have ht : bval (toBytes e) = bval body + 256 ^ body.length * (256 ^ j - 1) := by
      conv => lhs; rw [h1]
      rw [bval_append, hr']
    rw [B_bytes, hj, Nat.pow_add, ← t3, ht] at hs
    zify [show 1 ≤ 256 ^ j by omega] at hs ⊢
    linarith
  obtain ⟨low, q, e1, e2, e3, e4⟩ := top_byte ha hne
  simp only [if_true]
  refine ⟨_, rfl, ?_, ?_⟩
  · by_cases hc : body.getLastD 0 < 128
    · rw [if_pos hc]
      have hq := Nat.mul_le_mul_left q (show body.getLastD 0 ≤ 127 by omega)
      refine ⟨pads_padding ?_, ?_, ?_, ?_⟩
      · intro x hx
        rcases List.mem_append.1 hx with hx | hx
        · exact ha x hx
        · simp only [List.mem_singleton] at hx; omega
      · rw [bval_append, List.length_append, List.length_singleton, Nat.pow_succ]
        simp only [bval, Nat.mul_zero, Nat.add_zero]
        omega
      · rw [bval_append, List.length_append, List.length_singleton, Nat.pow_succ]
        simp only [bval, Nat.mul_zero, Nat.add_zero]
        omega
      · rw [bval_append, List.length_append, List.length_singleton, Nat.pow_succ, e3]
        simp only [bval, Nat.mul_zero, Nat.add_zero]
        omega
    · rw [if_neg hc]
      have hq1 := Nat.mul_le_mul_left q (show 128 ≤ body.getLastD 0 by omega)
      have hq2 := Nat.mul_le_mul_left q (show body.getLastD 0 ≤ 254 by omega)
      exact ⟨pads_padding ha, by omega, by omega, by omega⟩
  · split
    · rw [bval_append, List.length_append, List.length_singleton, Nat.pow_succ]
      simp only [bval, Nat.mul_zero, Nat.add_zero]
      omega
    · exact hv

/-- Every result is turned into a canonical object with its value. -/
theorem toOop_ok {z : Z} (h : z.WF) : ∃ o, toOop z = some o ∧ Canon o ∧ o.val = z.val := by
  have hl := trim_lt h.lim_lt
  have hv := val_trim z.lim
  have hsv : z.val = if z.size < 0 then -(val (trim z.lim) : Int) else val (trim z.lim) := by
    rw [hv]; rfl
  have htop := trim_top z.lim
  have hnil := trim_eq_nil (l := z.lim)
  rw [hsv]
  unfold toOop
  simp only
  generalize trim z.lim = d at *
  by_cases h0 : d = []
  · rw [if_pos h0]
    refine ⟨_, rfl, ⟨by omega, by omega⟩, ?_⟩
    rw [h0]; simp [Obj.val, val]
  rw [if_neg h0]
  have hpos := le_val_of_top (htop.resolve_left h0)
  have hlen : 1 ≤ d.length := List.length_pos_iff.2 h0
  have one : d.length = 1 → val d = d.headD 0 := by
    intro hl
    obtain ⟨x, rfl⟩ := List.length_eq_one_iff.1 hl
    simp [val]
  have big : d.length ≠ 1 → 2 ^ 62 < val d := by
    intro hne
    have : B ^ 1 ≤ B ^ (d.length - 1) := Nat.pow_le_pow_right B_pos (by omega)
    rw [Nat.pow_one, B_eq] at this
    rw [B_eq] at hpos
    omega
  by_cases hs : z.size < 0
  · rw [if_pos hs, if_pos hs]
    by_cases hc : d.length = 1 ∧ d.headD 0 ≤ 2 ^ 62
    · rw [if_pos hc]
      refine ⟨_, rfl, ⟨by omega, by omega⟩, ?_⟩
      rw [one hc.1]; rfl
    · rw [if_neg hc]
      have hgt : 2 ^ 62 < val d := by
        by_cases h1 : d.length = 1
        · rw [one h1]
          by_contra hh
          exact hc ⟨h1, by omega⟩
        · exact big h1
      obtain ⟨e, e1, e2, e3, e4⟩ := negLoop_ok hl (by omega)
      rw [← e3] at e4
      obtain ⟨b, b1, b2, b3⟩ := store_neg e2 e4 hgt
      rw [e1]
      simp only
      rw [b1]
      refine ⟨_, rfl, b2, ?_⟩
      simp only [Obj.val]
      zify at b3
      linarith
  · rw [if_neg hs, if_neg hs]
    by_cases hc : d.length = 1 ∧ d.headD 0 ≤ 2 ^ 62 - 1
    · rw [if_pos hc]
      refine ⟨_, rfl, ⟨by omega, by omega⟩, ?_⟩
      rw [one hc.1]; rfl
    · rw [if_neg hc]
      have hgt : 2 ^ 62 ≤ val d := by
        by_cases h1 : d.length = 1
        · rw [one h1]
          by_contra hh
          exact hc ⟨h1, by omega⟩
        · have := big h1; omega
      obtain ⟨b, b1, b2, b3⟩ := store_pos hl hgt
      rw [b1]
      refine ⟨_, rfl, b2, ?_⟩
      simp only [Obj.val, b3]

end Verif.Mpz
