/-
The limb arithmetic of libgst/mpz.c against the integers: sums, differences, products,
complement, comparison and shifts.
-/
import Verif.Mpz.Model
import Mathlib.Tactic.Zify
import Mathlib.Tactic.Set

namespace Verif.Mpz

/-- Limbs with a non-zero top, or a single limb. -/
def Nrm (l : List Nat) : Prop :=
  1 ≤ l.length ∧ (l.length = 1 ∨ B ^ (l.length - 1) ≤ val l)

/-- What the operands of the primitives are like: there is at least one limb, the top
one is not zero unless it is the only one, and zero is not negative. -/
structure Z.Ok (z : Z) : Prop where
  wf : z.WF
  nrm : Nrm z.lim
  neg : z.size < 0 → Mpz.val z.lim ≠ 0

theorem Z.WF.lim_length {z : Z} (h : z.WF) : z.lim.length = z.size.natAbs := by
  rw [Z.lim, List.length_take, Nat.min_eq_left h.stored]

theorem Z.WF.lim_lt {z : Z} (h : z.WF) : AllLt z.lim := h.lt.take _

theorem lim_mk {s : Int} {d : List Nat} {c : Nat} (h : d.length = s.natAbs) :
    (Z.mk s d c).lim = d := by
  rw [Z.lim]
  simp only
  rw [← h, List.take_length]

/-- Well-formedness and value of a result whose limbs are exactly those in use. -/
theorem mk_ok {s : Int} {d : List Nat} {c : Nat} (h : d.length = s.natAbs)
    (hc : d.length ≤ c) (hd : AllLt d) :
    (Z.mk s d c).WF ∧ (Z.mk s d c).val = if s < 0 then -(val d : Int) else (val d : Int) := by
  refine ⟨⟨by simp only; omega, hc, hd⟩, ?_⟩
  rw [Z.val, lim_mk h]

/-- Top limbs that are zero do not matter. -/
theorem mk_val_of {s : Int} {d : List Nat} {c : Nat} (h : s.natAbs ≤ d.length)
    (hc : d.length ≤ c) (hd : AllLt d) (hz : val (d.drop s.natAbs) = 0) :
    (Z.mk s d c).WF ∧ (Z.mk s d c).val = if s < 0 then -(val d : Int) else (val d : Int) := by
  refine ⟨⟨h, hc, hd⟩, ?_⟩
  have : val (Z.mk s d c).lim = val d := by
    rw [val_take_drop d s.natAbs h, hz]
    rfl
  rw [Z.val, this]

/-! ### Carry and borrow -/

theorem carry_append {n x : Nat} (hx : x < 2 * B ^ n) :
    val (withCarry (limbs n x, x / B ^ n)) = x ∧
    (withCarry (limbs n x, x / B ^ n)).length = x / B ^ n + n ∧
    AllLt (withCarry (limbs n x, x / B ^ n)) ∧ x / B ^ n ≤ 1 := by
  have hp := Bpow_pos n
  have hle : x / B ^ n < 2 := Nat.div_lt_of_lt_mul (by rw [Nat.mul_comm]; exact hx)
  have hdm := Nat.div_add_mod x (B ^ n)
  unfold withCarry
  simp only
  by_cases h : x / B ^ n = 0
  · have : ¬ (x / B ^ n ≠ 0) := by simp [h]
    rw [if_neg this, val_limbs, limbs_length]
    rw [h] at hdm ⊢
    rw [Nat.mul_zero] at hdm
    exact ⟨by omega, by omega, limbs_lt _ _, by omega⟩
  · rw [if_pos h, val_append, val_limbs, List.length_append, limbs_length]
    have h1 : x / B ^ n = 1 :=
      Nat.le_antisymm (Nat.le_of_lt_succ hle) (Nat.pos_of_ne_zero h)
    rw [h1] at hdm ⊢
    simp only [val, List.length_cons, List.length_nil]
    refine ⟨by omega, by omega, (limbs_lt _ _).append ?_, by omega⟩
    intro y hy
    simp only [List.mem_singleton] at hy
    rw [hy, B]; norm_num

theorem borrow_val {n a b : Nat} (ha : a < B ^ n) (hb : b ≤ a) :
    val (limbs n (a + B ^ n - b)) = a - b := by
  rw [val_limbs, show a + B ^ n - b = (a - b) + B ^ n by omega, Nat.add_mod_right,
    Nat.mod_eq_of_lt (by omega)]

theorem mpnSub1_eq {u : List Nat} {x : Nat} (h : x ≤ val u) :
    mpnSub1 u x = (limbs u.length (val u + B ^ u.length - x), 0) := by
  unfold mpnSub1
  rw [if_neg (by omega)]

theorem incr_ok {d : List Nat} (hd : AllLt d) :
    val (incr d) = val d + 1 ∧ d.length ≤ (incr d).length ∧ (incr d).length ≤ d.length + 1 ∧
    AllLt (incr d) ∧ (val d + 1 < B ^ d.length → (incr d).length = d.length) := by
  have hb := val_lt hd
  obtain ⟨h1, h2, h3, h4⟩ := carry_append (n := d.length) (x := val d + 1) (by omega)
  have he : incr d = withCarry (limbs d.length (val d + 1), (val d + 1) / B ^ d.length) := by
    show (if (mpnAdd1 d 1).2 ≠ 0 then (mpnAdd1 d 1).1 ++ [(mpnAdd1 d 1).2]
        else (mpnAdd1 d 1).1) =
      if (mpnAdd1 d 1).2 ≠ 0 then (mpnAdd1 d 1).1 ++ [1] else (mpnAdd1 d 1).1
    by_cases hc : (mpnAdd1 d 1).2 ≠ 0
    · rw [if_pos hc, if_pos hc]
      have : (mpnAdd1 d 1).2 = 1 := Nat.le_antisymm h4 (Nat.pos_of_ne_zero hc)
      rw [this]
    · rw [if_neg hc, if_neg hc]
  rw [he]
  refine ⟨h1, (by rw [h2]; exact Nat.le_add_left _ _),
    (by rw [h2, Nat.add_comm]; exact Nat.add_le_add_left h4 _), h3, fun hlt => ?_⟩
  rw [h2, Nat.div_eq_of_lt hlt, Nat.zero_add]

/-- A sign put on a magnitude. -/
def sv (s : Int) (l : List Nat) : Int := if s < 0 then -(val l : Int) else (val l : Int)

theorem Z.val_eq_sv (z : Z) : z.val = sv z.size z.lim := rfl

theorem addCore_ok {us vs : Int} {u v : List Nat} (hu : AllLt u) (hv : AllLt v)
    (hul : u.length = us.natAbs) (hvl : v.length = vs.natAbs) (hle : v.length ≤ u.length)
    (hlt : v.length < u.length → val v ≤ val u) :
    (addCore us vs u v).WF ∧ (addCore us vs u v).val = sv us u + sv vs v := by
  have hub := val_lt hu
  have hvb := val_lt hv
  have hpow : B ^ v.length ≤ B ^ u.length := Nat.pow_le_pow_right B_pos hle
  have hsum : val u + val v < 2 * B ^ u.length := by omega
  obtain ⟨hc1, hc2, hc3, hc4⟩ := carry_append hsum
  have hq0 : (0 : Int) ≤ ((val u + val v) / B ^ u.length : Nat) := Int.natCast_nonneg _
  have hcmp : ∀ {a b : List Nat}, mpnCmp a b < 0 → val a < val b := by
    intro a b h
    unfold mpnCmp at h
    split at h
    · assumption
    · split at h <;> omega
  have hcmp' : ∀ {a b : List Nat}, ¬ mpnCmp a b < 0 → val b ≤ val a := by
    intro a b h
    unfold mpnCmp at h
    split at h
    · omega
    · omega
  -- the two subtractions
  have hsub1 : ¬ (us.natAbs = vs.natAbs ∧ mpnCmp u v < 0) → val v ≤ val u := by
    intro h
    by_cases h1 : v.length < u.length
    · exact hlt h1
    · exact hcmp' (fun hh => h ⟨by omega, hh⟩)
  unfold addCore sv
  simp only [mpnAdd, mpnSub]
  by_cases h1 : 0 ≤ us
  · rw [if_pos h1]
    have n1 : ¬ us < 0 := by omega
    by_cases h2 : 0 ≤ vs
    · rw [if_pos h2]
      have n2 : ¬ vs < 0 := by omega
      have := mk_ok (s := ((val u + val v) / B ^ u.length : Nat) + (us.natAbs : Int))
        (c := us.natAbs + 1) (by rw [hc2]; omega) (by rw [hc2]; omega) hc3
      rw [hc1] at this
      refine ⟨this.1, ?_⟩
      rw [this.2, if_neg n1, if_neg n2, if_neg (by omega)]
      push_cast; ring
    · rw [if_neg h2]
      have n2 : vs < 0 := by omega
      by_cases h3 : us.natAbs = vs.natAbs ∧ mpnCmp u v < 0
      · rw [if_pos h3]
        have hl := hcmp h3.2
        have hnb : ¬ val v < val u := by omega
        rw [if_neg hnb]
        have hbv := borrow_val hvb (by omega : val u ≤ val v)
        have := mk_ok (s := -((us.natAbs : Int) + (0 : Nat)))
          (d := limbs v.length (val v + B ^ v.length - val u))
          (c := us.natAbs + 1) (by rw [limbs_length]; omega) (by rw [limbs_length]; omega)
          (limbs_lt _ _)
        rw [hbv] at this
        refine ⟨this.1, ?_⟩
        rw [this.2, if_neg n1, if_pos n2]
        split <;> omega
      · rw [if_neg h3]
        have hl := hsub1 h3
        have hnb : ¬ val u < val v := by omega
        rw [if_neg hnb]
        have hbv := borrow_val hub hl
        have := mk_ok (s := (us.natAbs : Int) + (0 : Nat))
          (d := limbs u.length (val u + B ^ u.length - val v))
          (c := us.natAbs + 1) (by rw [limbs_length]; omega) (by rw [limbs_length]; omega)
          (limbs_lt _ _)
        rw [hbv] at this
        refine ⟨this.1, ?_⟩
        rw [this.2, if_neg n1, if_pos n2]
        split <;> omega
  · rw [if_neg h1]
    have n1 : us < 0 := by omega
    by_cases h2 : 0 ≤ vs
    · rw [if_pos h2]
      have n2 : ¬ vs < 0 := by omega
      by_cases h3 : us.natAbs = vs.natAbs ∧ mpnCmp u v < 0
      · rw [if_pos h3]
        have hl := hcmp h3.2
        have hnb : ¬ val v < val u := by omega
        rw [if_neg hnb]
        have hbv := borrow_val hvb (by omega : val u ≤ val v)
        have := mk_ok (s := (us.natAbs : Int) + (0 : Nat))
          (d := limbs v.length (val v + B ^ v.length - val u))
          (c := us.natAbs + 1) (by rw [limbs_length]; omega) (by rw [limbs_length]; omega)
          (limbs_lt _ _)
        rw [hbv] at this
        refine ⟨this.1, ?_⟩
        rw [this.2, if_pos n1, if_neg n2]
        split <;> omega
      · rw [if_neg h3]
        have hl := hsub1 h3
        have hnb : ¬ val u < val v := by omega
        rw [if_neg hnb]
        have hbv := borrow_val hub hl
        have := mk_ok (s := -((us.natAbs : Int) + (0 : Nat)))
          (d := limbs u.length (val u + B ^ u.length - val v))
          (c := us.natAbs + 1) (by rw [limbs_length]; omega) (by rw [limbs_length]; omega)
          (limbs_lt _ _)
        rw [hbv] at this
        refine ⟨this.1, ?_⟩
        rw [this.2, if_pos n1, if_neg n2]
        split <;> omega
    · rw [if_neg h2]
      have n2 : vs < 0 := by omega
      have := mk_ok (s := -(((val u + val v) / B ^ u.length : Nat) + (us.natAbs : Int)))
        (c := us.natAbs + 1) (by rw [hc2]; omega) (by rw [hc2]; omega) hc3
      rw [hc1] at this
      refine ⟨this.1, ?_⟩
      rw [this.2, if_pos n1, if_pos n2]
      split
      · push_cast; ring
      · omega

/-- Longer normalised limbs are larger. -/
theorem Nrm.lt_of_length {u v : List Nat} (hv : AllLt v) (hn : Nrm u)
    (h : v.length < u.length) : v = [] ∨ val v < val u := by
  cases v with
  | nil => exact Or.inl rfl
  | cons x xs =>
    right
    rcases hn.2 with h1 | h1
    · simp only [List.length_cons] at h; omega
    · have := val_lt hv
      have h2 : B ^ (x :: xs).length ≤ B ^ (u.length - 1) :=
        Nat.pow_le_pow_right B_pos (by omega)
      omega

theorem Nrm.le_of_length {u v : List Nat} (hv : AllLt v) (hn : Nrm u)
    (h : v.length < u.length) : val v ≤ val u := by
  rcases hn.lt_of_length hv h with h1 | h1
  · rw [h1]; exact Nat.zero_le _
  · omega

theorem sv_neg {s : Int} {l : List Nat} (h : s = 0 → val l = 0) : sv (-s) l = - sv s l := by
  unfold sv
  split <;> split <;> try omega

/-- Sums, for operands one of which is longer only if it is larger. -/
theorem add_ok' {u v : Z} (hu : u.WF) (hv : v.WF)
    (h1 : v.size.natAbs < u.size.natAbs → val v.lim ≤ val u.lim)
    (h2 : u.size.natAbs < v.size.natAbs → val u.lim ≤ val v.lim) :
    (add u v).WF ∧ (add u v).val = u.val + v.val := by
  have lu := hu.lim_length
  have lv := hv.lim_length
  unfold add
  split
  · rename_i h
    have := addCore_ok hv.lim_lt hu.lim_lt lv lu (by omega) (fun _ => h2 h)
    exact ⟨this.1, by rw [this.2, Z.val_eq_sv, Z.val_eq_sv, Int.add_comm]⟩
  · rename_i h
    have := addCore_ok hu.lim_lt hv.lim_lt lu lv (by omega) (fun hh => h1 (by omega))
    exact ⟨this.1, by rw [this.2, Z.val_eq_sv, Z.val_eq_sv]⟩

theorem add_ok {u v : Z} (hu : u.Ok) (hv : v.Ok) :
    (add u v).WF ∧ (add u v).val = u.val + v.val := by
  have lu := hu.wf.lim_length
  have lv := hv.wf.lim_length
  exact add_ok' hu.wf hv.wf
    (fun h => hu.nrm.le_of_length hv.wf.lim_lt (by omega))
    (fun h => hv.nrm.le_of_length hu.wf.lim_lt (by omega))

theorem sub_ok' {u v : Z} (hu : u.WF) (hv : v.WF)
    (h1 : v.size.natAbs < u.size.natAbs → val v.lim ≤ val u.lim)
    (h2 : u.size.natAbs < v.size.natAbs → val u.lim ≤ val v.lim) :
    (sub u v).WF ∧ (sub u v).val = u.val - v.val := by
  have lu := hu.lim_length
  have lv := hv.lim_length
  have hz : v.size = 0 → val v.lim = 0 := by
    intro h
    rw [Z.lim, h]; rfl
  have hneg := sv_neg hz
  unfold sub
  split
  · rename_i h
    have := addCore_ok (us := -v.size) hv.lim_lt hu.lim_lt (by omega) lu (by omega)
      (fun _ => h2 h)
    refine ⟨this.1, ?_⟩
    rw [this.2, Z.val_eq_sv, Z.val_eq_sv, hneg]; ring
  · rename_i h
    have := addCore_ok (vs := -v.size) hu.lim_lt hv.lim_lt lu (by omega) (by omega)
      (fun hh => h1 (by omega))
    refine ⟨this.1, ?_⟩
    rw [this.2, Z.val_eq_sv, Z.val_eq_sv, hneg]; ring

theorem sub_ok {u v : Z} (hu : u.Ok) (hv : v.Ok) :
    (sub u v).WF ∧ (sub u v).val = u.val - v.val := by
  have lu := hu.wf.lim_length
  have lv := hv.wf.lim_length
  exact sub_ok' hu.wf hv.wf
    (fun h => hu.nrm.le_of_length hv.wf.lim_lt (by omega))
    (fun h => hv.nrm.le_of_length hu.wf.lim_lt (by omega))

/-- `{ 0, 0, NULL }`, the initial value of every `gst_mpz` of a primitive. -/
def Z.init : Z := ⟨0, [], 0⟩

theorem init_sub_ok {v : Z} (hv : v.Ok) :
    (sub Z.init v).WF ∧ (sub Z.init v).val = -v.val := by
  have hi : Z.init.WF := ⟨Nat.le_refl _, Nat.le_refl _, fun x hx => by cases hx⟩
  have := sub_ok' hi hv.wf (by intro h; simp [Z.init] at h) (fun _ => Nat.zero_le _)
  refine ⟨this.1, ?_⟩
  rw [this.2]
  have : Z.init.val = 0 := rfl
  omega

theorem signed_natAbs (b : Bool) (n : Nat) : (signed b n).natAbs = n := by
  unfold signed; split <;> omega

/-- The value of a signed result; a negative zero size is a plain zero. -/
theorem signed_val {b : Bool} {n : Nat} {x : Nat} (h : n = 0 → x = 0) :
    (if signed b n < 0 then -(x : Int) else (x : Int)) = if b then -(x : Int) else x := by
  unfold signed
  cases b
  · simp
  · simp only [if_true]
    by_cases hn : n = 0
    · rw [h hn]; simp
    · rw [if_pos (by omega)]

/-- Products. -/
theorem mul_ok {u v : Z} (hu : u.WF) (hv : v.WF) :
    (mul u v).WF ∧ (mul u v).val = u.val * v.val := by
  have lu := hu.lim_length
  have lv := hv.lim_length
  have bu := val_lt hu.lim_lt
  have bv := val_lt hv.lim_lt
  rw [lu] at bu
  rw [lv] at bv
  have hb : val u.lim * val v.lim < B ^ (u.size.natAbs + v.size.natAbs) := by
    rw [Nat.pow_add]
    exact Nat.mul_lt_mul'' bu bv
  have hd : (if u.size.natAbs < v.size.natAbs then mpnMul v.lim u.lim else mpnMul u.lim v.lim)
      = limbs (u.size.natAbs + v.size.natAbs) (val u.lim * val v.lim) := by
    unfold mpnMul
    rw [lu, lv]
    split
    · rw [Nat.add_comm, Nat.mul_comm]
    · rfl
  unfold mul
  simp only [hd]
  have hs : (signed (decide (u.size < 0) != decide (v.size < 0))
      (u.size.natAbs + v.size.natAbs)).natAbs = u.size.natAbs + v.size.natAbs := by
    unfold signed; split <;> omega
  have := mk_ok (s := signed (decide (u.size < 0) != decide (v.size < 0))
      (u.size.natAbs + v.size.natAbs))
    (d := limbs (u.size.natAbs + v.size.natAbs) (val u.lim * val v.lim))
    (c := u.size.natAbs + v.size.natAbs)
    (by rw [limbs_length, hs]) (by rw [limbs_length]) (limbs_lt _ _)
  refine ⟨this.1, ?_⟩
  rw [this.2, val_limbs_of_lt hb, signed_val, Z.val, Z.val]
  · by_cases a : u.size < 0 <;> by_cases b : v.size < 0 <;> simp [a, b]
  · intro h
    have : val u.lim < B ^ 0 := by
      rw [show (0 : Nat) = u.size.natAbs by omega]; exact bu
    rw [Nat.pow_zero] at this
    rw [show val u.lim = 0 by omega, Nat.zero_mul]

/-! ### Comparison -/

/-- Bounds on the number by its size. -/
theorem Z.Ok.bounds {z : Z} (h : z.Ok) :
    (0 < z.size ∧ 0 ≤ z.val ∧ z.val < (B : Int) ^ z.size.natAbs ∧
      (z.size = 1 ∨ (B : Int) ^ (z.size.natAbs - 1) ≤ z.val)) ∨
    (z.size < 0 ∧ z.val < 0 ∧ -(B : Int) ^ z.size.natAbs < z.val ∧
      (z.size = -1 ∨ z.val ≤ -(B : Int) ^ (z.size.natAbs - 1))) := by
  have hl := h.wf.lim_length
  have hb := val_lt h.wf.lim_lt
  have hn := h.nrm
  unfold Nrm at hn
  rw [hl] at hb hn
  zify at hb
  unfold Z.val
  by_cases hs : z.size < 0
  · right
    have := h.neg hs
    rw [if_pos hs]
    refine ⟨hs, by omega, by omega, ?_⟩
    rcases hn.2 with h1 | h1
    · left; omega
    · right
      zify at h1
      omega
  · left
    rw [if_neg hs]
    refine ⟨by omega, by omega, hb, ?_⟩
    rcases hn.2 with h1 | h1
    · left; omega
    · right
      zify at h1
      exact h1

theorem val_lt_of_size {u v : Z} (hu : u.Ok) (hv : v.Ok) (h : u.size < v.size) :
    u.val < v.val := by
  have hpw : ∀ a b : Nat, a ≤ b → (B : Int) ^ a ≤ (B : Int) ^ b := by
    intro a b hab
    exact_mod_cast Nat.pow_le_pow_right B_pos hab
  rcases hu.bounds with ⟨a1, a2, a3, a4⟩ | ⟨a1, a2, a3, a4⟩
  · rcases hv.bounds with ⟨b1, b2, b3, b4⟩ | ⟨b1, b2, b3, b4⟩
    · rcases b4 with b4 | b4
      · omega
      · have := hpw u.size.natAbs (v.size.natAbs - 1) (by omega)
        omega
    · omega
  · rcases hv.bounds with ⟨b1, b2, b3, b4⟩ | ⟨b1, b2, b3, b4⟩
    · omega
    · rcases a4 with a4 | a4
      · omega
      · have := hpw v.size.natAbs (u.size.natAbs - 1) (by omega)
        omega

theorem mpnCmp_sign (u v : List Nat) :
    (mpnCmp u v < 0 ↔ val u < val v) ∧ (mpnCmp u v = 0 ↔ val u = val v) := by
  unfold mpnCmp
  split
  · constructor <;> constructor <;> intro h <;> omega
  · split <;> constructor <;> constructor <;> intro h <;> omega

/-- Comparison. -/
theorem cmp_ok {u v : Z} (hu : u.Ok) (hv : v.Ok) :
    (cmp u v < 0 ↔ u.val < v.val) ∧ (cmp u v = 0 ↔ u.val = v.val) := by
  unfold cmp
  by_cases h : u.size ≠ v.size
  · rw [if_pos h]
    rcases Int.lt_or_gt_of_ne h with h1 | h1
    · have := val_lt_of_size hu hv h1
      constructor <;> constructor <;> intro hh <;> omega
    · have := val_lt_of_size hv hu h1
      constructor <;> constructor <;> intro hh <;> omega
  · rw [if_neg h]
    have he : u.size = v.size := by omega
    have h0 : u.size ≠ 0 := by
      have := hu.nrm.1
      rw [hu.wf.lim_length] at this
      omega
    rw [if_neg h0]
    unfold Z.val
    by_cases hs : u.size < 0
    · have hs' : v.size < 0 := by omega
      rw [if_pos hs, if_pos hs, if_pos hs']
      have := mpnCmp_sign v.lim u.lim
      rw [this.1, this.2]
      constructor <;> constructor <;> intro hh <;> omega
    · have hs' : ¬ v.size < 0 := by omega
      rw [if_neg hs, if_neg hs, if_neg hs']
      have := mpnCmp_sign u.lim v.lim
      rw [this.1, this.2]
      constructor <;> constructor <;> intro hh <;> omega

/-! ### Complement -/

theorem com_ok {s : Z} (h : s.Ok) : (com s).WF ∧ (com s).val = -s.val - 1 := by
  have hl := h.wf.lim_length
  have hb := val_lt h.wf.lim_lt
  have hn := h.nrm.1
  rw [hl] at hn
  have hself : s.val = sv s.size s.lim := rfl
  unfold com
  by_cases hs : 0 ≤ s.size
  · simp only [if_pos hs]
    rw [if_neg (by omega : ¬ s.size.natAbs = 0)]
    obtain ⟨h1, h2, h3, h4, -⟩ := incr_ok h.wf.lim_lt
    have := mk_ok (s := -((incr s.lim).length : Int)) (d := incr s.lim) (c := s.size.natAbs + 1)
      (by omega) (by omega) h4
    refine ⟨this.1, ?_⟩
    rw [this.2, h1, if_pos (by omega), hself, sv, if_neg (by omega)]
    push_cast; ring
  · simp only [if_neg hs]
    have hv := h.neg (by omega)
    rw [mpnSub1_eq (by omega : 1 ≤ val s.lim)]
    have hbv := borrow_val hb (by omega : 1 ≤ val s.lim)
    have := mk_ok (s := (s.size.natAbs : Int) + (0 : Nat))
      (d := limbs s.lim.length (val s.lim + B ^ s.lim.length - 1)) (c := s.size.natAbs)
      (by rw [limbs_length]; omega) (by rw [limbs_length]; omega) (limbs_lt _ _)
    refine ⟨this.1, ?_⟩
    rw [this.2, hbv, if_neg (by omega), hself, sv, if_pos (by omega)]
    omega

/-! ### Subtracting one limb -/

theorem subUi_ok {m : Z} {x : Nat} (hm : m.WF) (hx : x < B)
    (h : m.size < 0 ∨ m.size.natAbs ≤ 1 ∨ x ≤ val m.lim) :
    (subUi m x).WF ∧ (subUi m x).val = m.val - x := by
  have hl := hm.lim_length
  have hb := val_lt hm.lim_lt
  have hself : m.val = sv m.size m.lim := rfl
  unfold subUi
  by_cases h0 : x = 0
  · simp only [if_pos h0]
    have := mk_ok (s := m.size) (d := m.lim) (c := m.size.natAbs + 1) hl (by omega) hm.lim_lt
    refine ⟨this.1, ?_⟩
    rw [this.2, hself, h0]; unfold sv; omega
  simp only [if_neg h0]
  by_cases h1 : m.size.natAbs = 0
  · rw [if_pos h1]
    have := mk_ok (s := -1) (d := [x]) (c := m.size.natAbs + 1) rfl (by simp)
      (by intro y hy; simp only [List.mem_singleton] at hy; omega)
    refine ⟨this.1, ?_⟩
    have hnil : m.lim = [] := List.length_eq_zero_iff.1 (by omega)
    rw [this.2, hself, sv, hnil]
    simp [val]
  rw [if_neg h1]
  by_cases h2 : m.size < 0
  · rw [if_pos h2]
    simp only [mpnAdd1]
    have hB1 : B ^ 1 ≤ B ^ m.lim.length := Nat.pow_le_pow_right B_pos (by omega)
    rw [Nat.pow_one] at hB1
    have hsum : val m.lim + x < 2 * B ^ m.lim.length := by omega
    obtain ⟨hc1, hc2, hc3, hc4⟩ := carry_append hsum
    have hq0 : (0 : Int) ≤ ((val m.lim + x) / B ^ m.lim.length : Nat) := Int.natCast_nonneg _
    have := mk_ok (s := -(((val m.lim + x) / B ^ m.lim.length : Nat) + (m.size.natAbs : Int)))
      (c := m.size.natAbs + 1) (by rw [hc2]; omega) (by rw [hc2]; omega) hc3
    refine ⟨this.1, ?_⟩
    rw [this.2, hc1, hself, sv, if_pos h2, if_pos (by omega)]
    push_cast; ring
  rw [if_neg h2]
  by_cases h3 : m.size.natAbs = 1 ∧ m.lim.headD 0 < x
  · rw [if_pos h3]
    obtain ⟨y, hy⟩ : ∃ y, m.lim = [y] := List.length_eq_one_iff.1 (by omega)
    rw [hy] at h3 ⊢
    simp only [List.headD_cons] at h3
    have h3' : y < x := h3.2
    have he : mpnSub1 [x] y = (limbs 1 (x + B ^ 1 - y), 0) := by
      rw [mpnSub1_eq (by simp only [val]; omega)]
      simp only [val, List.length_cons, List.length_nil, Nat.mul_zero, Nat.add_zero,
        Nat.zero_add]
    simp only [List.headD_cons, he]
    have hbv := borrow_val (n := 1) (a := x) (b := y) (by rw [Nat.pow_one]; exact hx) (by omega)
    have := mk_ok (s := -((m.size.natAbs : Int) + (0 : Nat)))
      (d := limbs 1 (x + B ^ 1 - y)) (c := m.size.natAbs + 1)
      (by rw [limbs_length]; omega) (by rw [limbs_length]; omega) (limbs_lt _ _)
    refine ⟨this.1, ?_⟩
    rw [this.2, hbv, hself, sv, hy, if_neg h2, if_pos (by omega)]
    simp only [val]
    omega
  · rw [if_neg h3]
    have hle : x ≤ val m.lim := by
      rcases h with h | h | h
      · exact absurd h h2
      · obtain ⟨y, hy⟩ : ∃ y, m.lim = [y] := List.length_eq_one_iff.1 (by omega)
        rw [hy] at h3 ⊢
        simp only [List.headD_cons] at h3
        simp only [val]
        have : ¬ (y < x) := fun hh => h3 ⟨by omega, hh⟩
        omega
      · exact h
    rw [mpnSub1_eq hle]
    have hbv := borrow_val hb hle
    have := mk_ok (s := (m.size.natAbs : Int) + (0 : Nat))
      (d := limbs m.lim.length (val m.lim + B ^ m.lim.length - x)) (c := m.size.natAbs + 1)
      (by rw [limbs_length]; omega) (by rw [limbs_length]; omega) (limbs_lt _ _)
    refine ⟨this.1, ?_⟩
    rw [this.2, hbv, hself, sv, if_neg h2, if_neg (by omega)]
    omega

/-! ### Shifts -/

/-- Dropping a zero top limb does not change the value. -/
theorem dropTop_spec {d : List Nat} (n : Nat) (hd : AllLt d) (hn : d.length = n) :
    dropTop d n ≤ n ∧ val (d.drop (dropTop d n)) = 0 ∧
    (dropTop d n = n - 1 ∨ dropTop d n = n) ∧
    (B ^ (n - 1) ≤ val d → dropTop d n = n) := by
  unfold dropTop
  by_cases h : d.getD (n - 1) 0 = 0
  · rw [if_pos h]
    have hz : val (d.drop (n - 1)) = 0 := by
      cases n with
      | zero =>
        have : d = [] := List.length_eq_zero_iff.1 hn
        rw [this]; rfl
      | succ m =>
        simp only [Nat.add_sub_cancel] at h ⊢
        have hm : m < d.length := by omega
        rw [List.drop_eq_getElem_cons hm, List.drop_eq_nil_of_le (by omega)]
        rw [List.getD_eq_getElem?_getD, List.getElem?_eq_getElem hm, Option.getD_some] at h
        rw [h]; rfl
    refine ⟨by omega, hz, Or.inl rfl, fun hle => ?_⟩
    rw [val_drop_div hd _ (by omega)] at hz
    have := (Nat.le_div_iff_mul_le (Bpow_pos (n - 1)) (x := 1) (y := val d)).2 (by omega)
    omega
  · rw [if_neg h]
    refine ⟨Nat.le_refl _, ?_, Or.inr rfl, fun _ => rfl⟩
    rw [← hn, List.drop_length]; rfl

theorem pow_split (c : Nat) : (2 : Nat) ^ c = B ^ (c / 64) * 2 ^ (c % 64) := by
  rw [B, ← Nat.pow_mul, ← Nat.pow_add, Nat.div_add_mod]

theorem Z.val_decide (z : Z) :
    z.val = if decide (z.size < 0) = true then -(Mpz.val z.lim : Int) else (Mpz.val z.lim : Int) := by
  unfold Z.val
  simp only [decide_eq_true_eq]

/-- Shifting right cuts the magnitude. -/
theorem div2exp_ok {u : Z} (hu : u.WF) (c : Nat) :
    ∃ w, div2exp u c = some w ∧ w.WF ∧
      w.val = if u.size < 0 then -((val u.lim / 2 ^ c : Nat) : Int)
        else ((val u.lim / 2 ^ c : Nat) : Int) := by
  have hl := hu.lim_length
  have hb := val_lt hu.lim_lt
  rw [hl] at hb
  unfold div2exp
  simp only
  by_cases h0 : u.size.natAbs - c / 64 = 0
  · rw [if_pos h0]
    refine ⟨_, rfl, ⟨Nat.le_refl _, Nat.le_refl _, fun x hx => by cases hx⟩, ?_⟩
    have : val u.lim / 2 ^ c = 0 := by
      apply Nat.div_eq_of_lt
      have h1 : B ^ u.size.natAbs ≤ B ^ (c / 64) := Nat.pow_le_pow_right B_pos (by omega)
      have h2 : B ^ (c / 64) ≤ 2 ^ c := by
        rw [pow_split c]
        exact Nat.le_mul_of_pos_right _ (Nat.pow_pos (by omega))
      omega
    rw [this]
    simp [Z.val, Z.lim, val]
  · rw [if_neg h0]
    have hlt : c / 64 ≤ u.lim.length := by omega
    have hsl : (u.lim.drop (c / 64)).length = u.size.natAbs - c / 64 := by
      rw [List.length_drop, hl]
    have hsv : val (u.lim.drop (c / 64)) = val u.lim / B ^ (c / 64) :=
      val_drop_div hu.lim_lt _ hlt
    have hsa := hu.lim_lt.drop (c / 64)
    obtain ⟨d, hd, hdl, hda, hdv⟩ : ∃ d, (if c % 64 ≠ 0 then
        mpnRshift (u.lim.drop (c / 64)) (c % 64) else some (u.lim.drop (c / 64))) = some d ∧
        d.length = u.size.natAbs - c / 64 ∧ AllLt d ∧ val d = val u.lim / 2 ^ c := by
      by_cases hc : c % 64 ≠ 0
      · rw [if_pos hc]
        refine ⟨limbs (u.lim.drop (c / 64)).length (val (u.lim.drop (c / 64)) / 2 ^ (c % 64)),
          ?_, ?_, limbs_lt _ _, ?_⟩
        · unfold mpnRshift
          rw [if_pos ⟨by omega, Nat.mod_lt _ (by omega), by
            intro h; rw [h] at hsl; simp at hsl; omega⟩]
        · rw [limbs_length, hsl]
        · rw [val_limbs_of_lt, hsv, Nat.div_div_eq_div_mul, ← pow_split]
          calc _ ≤ val (u.lim.drop (c / 64)) := Nat.div_le_self _ _
            _ < _ := val_lt hsa
      · rw [if_neg hc]
        refine ⟨_, rfl, hsl, hsa, ?_⟩
        rw [hsv, pow_split c, show c % 64 = 0 by omega, Nat.pow_zero, Nat.mul_one]
    rw [hd]
    refine ⟨_, rfl, ?_⟩
    obtain ⟨s1, s2, s3, -⟩ := dropTop_spec _ hda hdl
    have := mk_val_of (s := signed (decide (u.size < 0)) (dropTop d (u.size.natAbs - c / 64)))
      (d := d) (c := u.size.natAbs - c / 64) (by rw [signed_natAbs]; omega) (by omega) hda
      (by rw [signed_natAbs]; exact s2)
    refine ⟨this.1, ?_⟩
    rw [this.2, hdv, signed_val]
    · simp only [decide_eq_true_eq]
    · intro h
      rw [h, List.drop_zero] at s2
      omega

/-- Shifting left multiplies. -/
theorem mul2exp_ok {u : Z} (hu : u.WF) (c : Nat) :
    ∃ w, mul2exp u c = some w ∧ w.WF ∧ w.val = u.val * 2 ^ c := by
  have hl := hu.lim_length
  have hb := val_lt hu.lim_lt
  rw [hl] at hb
  unfold mul2exp
  by_cases h0 : u.size = 0
  · rw [if_pos h0]
    refine ⟨_, rfl, ⟨Nat.le_refl _, Nat.le_refl _, fun x hx => by cases hx⟩, ?_⟩
    have : u.val = 0 := by simp [Z.val, Z.lim, h0, val]
    rw [this]
    simp [Z.val, Z.lim, val]
  · rw [if_neg h0]
    simp only
    have hpos : 0 < u.size.natAbs := by omega
    have hcast : ∀ x : Nat, u.val * x =
        if decide (u.size < 0) = true then -((val u.lim * x : Nat) : Int)
        else ((val u.lim * x : Nat) : Int) := by
      intro x
      rw [Z.val_decide]
      split
      · push_cast; ring
      · push_cast; ring
    have hgoal : u.val * 2 ^ c = u.val * ((2 ^ c : Nat) : Int) := by push_cast; rfl
    by_cases hc : c % 64 ≠ 0
    · rw [if_pos hc]
      have hne : u.lim ≠ [] := by intro h; rw [h] at hl; simp at hl; omega
      have hk : c % 64 < 64 := Nat.mod_lt _ (by omega)
      have hsh : mpnLshift u.lim (c % 64) = some (limbs u.lim.length (val u.lim * 2 ^ (c % 64)),
          val u.lim * 2 ^ (c % 64) / B ^ u.lim.length) := by
        unfold mpnLshift
        rw [if_pos ⟨by omega, hk, hne⟩]
      rw [hsh]
      simp only [hl]
      have hq : val u.lim * 2 ^ (c % 64) / B ^ u.size.natAbs < B := by
        apply Nat.div_lt_of_lt_mul
        have : 2 ^ (c % 64) < B := Nat.pow_lt_pow_right (by omega) hk
        exact Nat.mul_lt_mul'' hb this
      have hdm := Nat.div_add_mod (val u.lim * 2 ^ (c % 64)) (B ^ u.size.natAbs)
      split
      · rename_i h1
        refine ⟨_, rfl, ?_⟩
        have := mk_ok (s := signed (decide (u.size < 0)) (u.size.natAbs + c / 64 + 1))
          (d := List.replicate (c / 64) 0 ++
            limbs u.size.natAbs (val u.lim * 2 ^ (c % 64)) ++
              [val u.lim * 2 ^ (c % 64) / B ^ u.size.natAbs])
          (c := u.size.natAbs + c / 64 + 1)
          (by simp [limbs_length, signed_natAbs]; omega) (by simp [limbs_length]; omega)
          (((allLt_replicate_zero _).append (limbs_lt _ _)).append
            (by intro y hy; simp only [List.mem_singleton] at hy; omega))
        refine ⟨this.1, ?_⟩
        rw [this.2, hgoal, hcast, signed_val (by omega)]
        have : val (List.replicate (c / 64) 0 ++
            limbs u.size.natAbs (val u.lim * 2 ^ (c % 64)) ++
              [val u.lim * 2 ^ (c % 64) / B ^ u.size.natAbs]) = val u.lim * 2 ^ c := by
          rw [List.append_assoc, val_append, val_append, val_replicate_zero, val_limbs,
            List.length_replicate, limbs_length]
          simp only [val, Nat.mul_zero, Nat.add_zero, Nat.zero_add]
          rw [Nat.add_comm, hdm, pow_split c]
          ring
        rw [this]
      · rename_i h1
        refine ⟨_, rfl, ?_⟩
        have := mk_ok (s := signed (decide (u.size < 0)) (u.size.natAbs + c / 64))
          (d := List.replicate (c / 64) 0 ++
            limbs u.size.natAbs (val u.lim * 2 ^ (c % 64)))
          (c := u.size.natAbs + c / 64 + 1)
          (by simp [limbs_length, signed_natAbs]; omega) (by simp [limbs_length]; omega)
          ((allLt_replicate_zero _).append (limbs_lt _ _))
        refine ⟨this.1, ?_⟩
        rw [this.2, hgoal, hcast, signed_val (by omega)]
        have : val (List.replicate (c / 64) 0 ++
            limbs u.size.natAbs (val u.lim * 2 ^ (c % 64))) = val u.lim * 2 ^ c := by
          rw [val_append, val_replicate_zero, val_limbs, List.length_replicate]
          have h1' : val u.lim * 2 ^ (c % 64) / B ^ u.size.natAbs = 0 := by omega
          rw [h1'] at hdm
          rw [show val u.lim * 2 ^ (c % 64) % B ^ u.size.natAbs = val u.lim * 2 ^ (c % 64) by
            omega, pow_split c]
          ring
        rw [this]
    · rw [if_neg hc]
      refine ⟨_, rfl, ?_⟩
      have := mk_ok (s := signed (decide (u.size < 0)) (u.size.natAbs + c / 64))
        (d := List.replicate (c / 64) 0 ++ u.lim)
        (c := u.size.natAbs + c / 64 + 1)
        (by simp [hl, signed_natAbs]; omega) (by simp [hl]; omega)
        ((allLt_replicate_zero _).append hu.lim_lt)
      refine ⟨this.1, ?_⟩
      rw [this.2, hgoal, hcast, signed_val (by omega)]
      have : val (List.replicate (c / 64) 0 ++ u.lim) = val u.lim * 2 ^ c := by
        rw [val_append, val_replicate_zero, List.length_replicate, pow_split c,
          show c % 64 = 0 by omega]
        ring
      rw [this]

end Verif.Mpz
