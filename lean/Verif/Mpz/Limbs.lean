/-
Numbers as lists of 64-bit limbs, and the functions of GMP's `mpn` layer that
libgst/mpz.c calls.

The `mpn` functions belong to the GMP library, not to the repository.  They are
modelled by their documentation ("Low-level Functions" of the GMP manual): the
answer is given as a number and cut into limbs.  A call outside the documented
preconditions answers `none` (undefined behaviour).
-/
import Mathlib.Tactic.Ring
import Mathlib.Tactic.Linarith

namespace Verif.Mpz

/-- 2^64: one limb (`mp_limb_t`, `BITS_PER_MP_LIMB` of libgst/mpz.c is 64 on 64-bit
hosts). -/
def B : Nat := 2 ^ 64

/-- The number a list of limbs stands for, least significant limb first. -/
def val : List Nat → Nat
  | [] => 0
  | x :: xs => x + B * val xs

/-- The `n` least significant limbs of a number. -/
def limbs : Nat → Nat → List Nat
  | 0, _ => []
  | n + 1, x => x % B :: limbs n (x / B)

/-- All elements are limbs. -/
def AllLt (l : List Nat) : Prop := ∀ x ∈ l, x < B

/-! ### The library functions -/

/-- `mpn_add`: the low limbs of the sum, and the carry. -/
def mpnAdd (u v : List Nat) : List Nat × Nat :=
  (limbs u.length (val u + val v), (val u + val v) / B ^ u.length)

/-- `mpn_add_1`. -/
def mpnAdd1 (u : List Nat) (x : Nat) : List Nat × Nat :=
  (limbs u.length (val u + x), (val u + x) / B ^ u.length)

/-- `mpn_sub`: the low limbs of the difference, and the borrow. -/
def mpnSub (u v : List Nat) : List Nat × Nat :=
  (limbs u.length (val u + B ^ u.length - val v), if val u < val v then 1 else 0)

/-- `mpn_sub_1`. -/
def mpnSub1 (u : List Nat) (x : Nat) : List Nat × Nat :=
  (limbs u.length (val u + B ^ u.length - x), if val u < x then 1 else 0)

/-- `mpn_cmp`. -/
def mpnCmp (u v : List Nat) : Int :=
  if val u < val v then -1 else if val u = val v then 0 else 1

/-- `mpn_mul`. -/
def mpnMul (u v : List Nat) : List Nat := limbs (u.length + v.length) (val u * val v)

/-- `mpn_rshift`: `1 ≤ k < 64` and at least one limb. -/
def mpnRshift (u : List Nat) (k : Nat) : Option (List Nat) :=
  if 1 ≤ k ∧ k < 64 ∧ u ≠ [] then some (limbs u.length (val u / 2 ^ k)) else none

/-- `mpn_lshift`: `1 ≤ k < 64` and at least one limb; answers the bits shifted out. -/
def mpnLshift (u : List Nat) (k : Nat) : Option (List Nat × Nat) :=
  if 1 ≤ k ∧ k < 64 ∧ u ≠ [] then
    some (limbs u.length (val u * 2 ^ k), val u * 2 ^ k / B ^ u.length)
  else none

/-- `mpn_tdiv_qr`: the divisor is not longer than the dividend and its top limb is not
zero. -/
def mpnTdivQr (n d : List Nat) : Option (List Nat × List Nat) :=
  if d.length ≤ n.length ∧ d.getLastD 0 ≠ 0 then
    some (limbs (n.length - d.length + 1) (val n / val d), limbs d.length (val n % val d))
  else none

/-- `mpn_divrem_1` without fraction limbs: the divisor is not zero. -/
def mpnDivrem1 (n : List Nat) (d : Nat) : Option (List Nat × Nat) :=
  if d ≠ 0 ∧ n ≠ [] then some (limbs n.length (val n / d), val n % d) else none

/-- Drop the zero limbs at the top. -/
def trim : List Nat → List Nat
  | [] => []
  | x :: xs =>
    match trim xs with
    | [] => if x = 0 then [] else [x]
    | y :: ys => x :: y :: ys

/-- `mpn_gcd_1`: both operands are not zero. -/
def mpnGcd1 (u : List Nat) (x : Nat) : Option Nat :=
  if val u ≠ 0 ∧ x ≠ 0 then some (Nat.gcd (val u) x) else none

/-- `mpn_gcd`: the second operand is odd, both top limbs are not zero, and the first
operand has at least as many bits as the second one. -/
def mpnGcd (u v : List Nat) : Option (List Nat) :=
  if val v % 2 = 1 ∧ u.getLastD 0 ≠ 0 ∧ v.getLastD 0 ≠ 0 ∧
      Nat.log2 (val v) ≤ Nat.log2 (val u) then
    some (trim (limbs v.length (Nat.gcd (val u) (val v))))
  else none

/-- The number of factors two, looking at no more than `fuel` bits. -/
def ctz : Nat → Nat → Nat
  | 0, _ => 0
  | fuel + 1, x => if x % 2 = 1 then 0 else 1 + ctz fuel (x / 2)

/-- `mpn_scan1 (up, 0)`: the position of the lowest bit that is set.  It runs off the
end of the number if there is none. -/
def mpnScan1 (u : List Nat) : Option Nat :=
  if val u ≠ 0 then some (ctz (val u) (val u)) else none

/-- `__gmpn_divexact`: the division is exact, the top limb of the divisor is not zero
and the dividend is not shorter. -/
def mpnDivexact (n d : List Nat) : Option (List Nat) :=
  if d.length ≤ n.length ∧ d.getLastD 0 ≠ 0 ∧ val n % val d = 0 then
    some (limbs (n.length - d.length + 1) (val n / val d))
  else none

/-! ### Lemmas on limbs -/

theorem B_pos : 0 < B := by unfold B; positivity

theorem B_eq : B = 2 ^ 64 := rfl

theorem Bpow_pos (n : Nat) : 0 < B ^ n := Nat.pow_pos B_pos

theorem limbs_length (n x : Nat) : (limbs n x).length = n := by
  induction n generalizing x with
  | zero => rfl
  | succ n ih => simp [limbs, ih]

theorem limbs_lt (n x : Nat) : AllLt (limbs n x) := by
  induction n generalizing x with
  | zero => intro y hy; simp [limbs] at hy
  | succ n ih =>
    intro y hy
    simp only [limbs, List.mem_cons] at hy
    rcases hy with h | h
    · rw [h]; exact Nat.mod_lt _ B_pos
    · exact ih _ y h

theorem val_limbs (n x : Nat) : val (limbs n x) = x % B ^ n := by
  induction n generalizing x with
  | zero => simp [limbs, val, Nat.mod_one]
  | succ n ih =>
    simp only [limbs, val, ih]
    rw [Nat.pow_succ, Nat.mul_comm (B ^ n) B, Nat.mod_mul]

theorem val_limbs_of_lt {n x : Nat} (h : x < B ^ n) : val (limbs n x) = x := by
  rw [val_limbs, Nat.mod_eq_of_lt h]

theorem AllLt.tail {x : Nat} {xs : List Nat} (h : AllLt (x :: xs)) : AllLt xs :=
  fun y hy => h y (List.mem_cons_of_mem _ hy)

theorem AllLt.head {x : Nat} {xs : List Nat} (h : AllLt (x :: xs)) : x < B :=
  h x (List.mem_cons_self ..)

theorem val_lt {l : List Nat} (h : AllLt l) : val l < B ^ l.length := by
  induction l with
  | nil => simp [val]
  | cons x xs ih =>
    have h1 := ih h.tail
    have h2 := h.head
    simp only [val, List.length_cons, Nat.pow_succ]
    calc x + B * val xs < B + B * val xs := by omega
      _ = B * (val xs + 1) := by ring
      _ ≤ B * B ^ xs.length := Nat.mul_le_mul_left _ h1
      _ = B ^ xs.length * B := by ring

theorem val_append (a b : List Nat) : val (a ++ b) = val a + B ^ a.length * val b := by
  induction a with
  | nil => simp [val]
  | cons x xs ih => simp only [List.cons_append, val, ih, List.length_cons, Nat.pow_succ]; ring

theorem AllLt.append {a b : List Nat} (ha : AllLt a) (hb : AllLt b) : AllLt (a ++ b) := by
  intro x hx
  rcases List.mem_append.1 hx with h | h
  · exact ha x h
  · exact hb x h

theorem AllLt.take {l : List Nat} (h : AllLt l) (n : Nat) : AllLt (l.take n) :=
  fun x hx => h x (List.mem_of_mem_take hx)

theorem AllLt.drop {l : List Nat} (h : AllLt l) (n : Nat) : AllLt (l.drop n) :=
  fun x hx => h x (List.mem_of_mem_drop hx)

theorem val_take_drop (l : List Nat) (n : Nat) (h : n ≤ l.length) :
    val l = val (l.take n) + B ^ n * val (l.drop n) := by
  conv => lhs; rw [← List.take_append_drop n l]
  rw [val_append, List.length_take, Nat.min_eq_left h]

theorem val_take_mod {l : List Nat} (hl : AllLt l) (n : Nat) (h : n ≤ l.length) :
    val (l.take n) = val l % B ^ n := by
  rw [val_take_drop l n h, Nat.add_mul_mod_self_left]
  have := val_lt (hl.take n)
  rw [List.length_take, Nat.min_eq_left h] at this
  rw [Nat.mod_eq_of_lt this]

theorem val_drop_div {l : List Nat} (hl : AllLt l) (n : Nat) (h : n ≤ l.length) :
    val (l.drop n) = val l / B ^ n := by
  have h1 := val_lt (hl.take n)
  rw [List.length_take, Nat.min_eq_left h] at h1
  rw [val_take_drop l n h, Nat.add_mul_div_left _ _ (Bpow_pos n), Nat.div_eq_of_lt h1]
  omega

theorem val_replicate_zero (n : Nat) : val (List.replicate n 0) = 0 := by
  induction n with
  | zero => rfl
  | succ n ih => simp [List.replicate_succ, val, ih]

theorem allLt_replicate_zero (n : Nat) : AllLt (List.replicate n 0) := by
  intro x hx
  rw [List.eq_of_mem_replicate hx]
  exact B_pos

/-- A list of limbs is determined by its length and its value. -/
theorem limbs_val {l : List Nat} (h : AllLt l) : limbs l.length (val l) = l := by
  induction l with
  | nil => rfl
  | cons x xs ih =>
    simp only [List.length_cons, limbs, val]
    rw [Nat.add_mul_mod_self_left, Nat.mod_eq_of_lt h.head,
      Nat.add_mul_div_left _ _ B_pos, Nat.div_eq_of_lt h.head, Nat.zero_add, ih h.tail]

theorem val_trim (l : List Nat) : val (trim l) = val l := by
  induction l with
  | nil => rfl
  | cons x xs ih =>
    simp only [trim]
    split
    · rename_i h
      rw [h] at ih
      split
      · rename_i hx
        simp only [val] at ih ⊢
        rw [← ih, hx]; simp
      · simp only [val] at ih ⊢
        rw [← ih]
    · rename_i y ys h
      rw [h] at ih
      rw [val, ih, val]

theorem trim_length_le (l : List Nat) : (trim l).length ≤ l.length := by
  induction l with
  | nil => exact Nat.le_refl _
  | cons x xs ih =>
    simp only [trim]
    split
    · split <;> simp
    · rename_i y ys h
      rw [h] at ih
      simpa using ih

theorem trim_lt {l : List Nat} (h : AllLt l) : AllLt (trim l) := by
  induction l with
  | nil => exact h
  | cons x xs ih =>
    have ih := ih h.tail
    simp only [trim]
    split
    · split
      · intro y hy; simp at hy
      · intro y hy
        simp only [List.mem_singleton] at hy
        rw [hy]; exact h.head
    · rename_i y ys hh
      rw [hh] at ih
      intro z hz
      rcases List.mem_cons.1 hz with hz | hz
      · rw [hz]; exact h.head
      · exact ih z hz

/-- The value of a list whose top limb is not zero. -/
theorem le_val_of_top {l : List Nat} (h : l.getLastD 0 ≠ 0) :
    B ^ (l.length - 1) ≤ val l := by
  induction l with
  | nil => simp at h
  | cons x xs ih =>
    cases xs with
    | nil =>
      simp only [List.getLastD_cons, List.getLastD_nil] at h
      show B ^ 0 ≤ x + B * 0
      simp only [Nat.pow_zero]
      omega
    | cons y ys =>
      have : (y :: ys).getLastD 0 ≠ 0 := by
        simpa using h
      have := ih this
      simp only [List.length_cons, Nat.add_sub_cancel] at this ⊢
      rw [val, Nat.pow_succ]
      calc B ^ ys.length * B = B * B ^ ys.length := Nat.mul_comm _ _
        _ ≤ B * val (y :: ys) := Nat.mul_le_mul_left _ this
        _ ≤ x + B * val (y :: ys) := Nat.le_add_left _ _

theorem top_of_le_val {l : List Nat} (hl : AllLt l) (hne : l ≠ [])
    (h : B ^ (l.length - 1) ≤ val l) : l.getLastD 0 ≠ 0 := by
  intro h0
  have hsplit : l = l.dropLast ++ [l.getLastD 0] := by
    conv => lhs; rw [← List.dropLast_concat_getLast hne]
    rw [List.getLastD_eq_getLast?, List.getLast?_eq_some_getLast hne, Option.getD_some]
  have hd : AllLt l.dropLast := fun x hx => hl x ((List.dropLast_sublist l).subset hx)
  have := val_lt hd
  rw [List.length_dropLast] at this
  rw [hsplit, h0, val_append] at h
  simp only [val, List.length_append, List.length_dropLast, List.length_cons,
    List.length_nil, Nat.add_sub_cancel] at h
  omega

theorem trim_top (l : List Nat) : trim l = [] ∨ (trim l).getLastD 0 ≠ 0 := by
  induction l with
  | nil => exact Or.inl rfl
  | cons x xs ih =>
    simp only [trim]
    split
    · split
      · exact Or.inl rfl
      · exact Or.inr (by simpa)
    · rename_i y ys h
      rw [h] at ih
      rcases ih with ih | ih
      · cases ih
      · exact Or.inr (by simpa using ih)

theorem trim_eq_nil {l : List Nat} : trim l = [] ↔ val l = 0 := by
  constructor
  · intro h
    rw [← val_trim, h]; rfl
  · intro h
    rcases trim_top l with h1 | h1
    · exact h1
    · have := le_val_of_top h1
      rw [val_trim, h] at this
      have := Bpow_pos ((trim l).length - 1)
      omega

theorem ctz_spec (fuel x : Nat) (hx : x ≠ 0) (hf : x ≤ fuel) :
    ∃ m, x = 2 ^ ctz fuel x * m ∧ m % 2 = 1 := by
  induction fuel generalizing x with
  | zero => omega
  | succ f ih =>
    simp only [ctz]
    split
    · exact ⟨x, by simp, by assumption⟩
    · rename_i h
      obtain ⟨m, h1, h2⟩ := ih (x / 2) (by omega) (by omega)
      refine ⟨m, ?_, h2⟩
      rw [Nat.add_comm 1, Nat.pow_succ]
      have : x = 2 * (x / 2) := by omega
      rw [this]
      conv => lhs; rw [h1]
      rw [show 2 * (x / 2) / 2 = x / 2 by omega]
      ring

end Verif.Mpz
