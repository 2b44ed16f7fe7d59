/-
The bitwise operations of libgst/mpz.c against the bits of the two's complement.
-/
import Verif.Mpz.Arith
import Mathlib.Data.Int.Bitwise

namespace Verif.Mpz

/-- Bit `i` of the two's complement of `x`, sign-extended for ever: `x / 2 ^ i` rounds
down. -/
def Bit (x : Int) (i : Nat) : Bool := decide (x / 2 ^ i % 2 = 1)

theorem bit_nat (n i : Nat) : Bit (n : Int) i = n.testBit i := by
  rw [Bit, Nat.testBit_eq_decide_div_mod_eq]
  congr 1
  apply propext
  norm_cast

theorem bit_neg (n i : Nat) : Bit (-(n : Int) - 1) i = !n.testBit i := by
  have h2 : (0 : Int) < 2 ^ i := by positivity
  have hdiv : (-(n : Int) - 1) / 2 ^ i = -((n : Int) / 2 ^ i) - 1 := by
    have h := Int.emod_add_mul_ediv (n : Int) (2 ^ i)
    have h3 := Int.emod_nonneg (n : Int) (Int.ne_of_gt h2)
    have h4 := Int.emod_lt_of_pos (n : Int) h2
    have := (Int.ediv_emod_unique (a := -(n : Int) - 1) (b := 2 ^ i)
      (r := 2 ^ i - 1 - (n : Int) % 2 ^ i) (q := -((n : Int) / 2 ^ i) - 1) h2).2
      ⟨by linarith, by omega, by omega⟩
    exact this.1
  rw [Bit, hdiv, Nat.testBit_eq_decide_div_mod_eq]
  have hc : (n : Int) / 2 ^ i = ((n / 2 ^ i : Nat) : Int) := by push_cast; rfl
  rw [hc]
  generalize n / 2 ^ i = m
  by_cases h : m % 2 = 1
  · rw [decide_eq_true h, decide_eq_false (by omega)]; rfl
  · rw [decide_eq_false h, decide_eq_true (by omega)]; rfl

/-- A number is determined by its bits. -/
theorem eq_of_bits {x y : Int} (h : ∀ i, Bit x i = Bit y i) : x = y := by
  have split : ∀ z : Int, (∃ n : Nat, z = n) ∨ ∃ n : Nat, z = -(n : Int) - 1 := by
    intro z
    by_cases hz : 0 ≤ z
    · exact Or.inl ⟨z.toNat, by omega⟩
    · exact Or.inr ⟨(-z - 1).toNat, by omega⟩
  have high : ∀ n m : Nat, ∃ i, n.testBit i = false ∧ m.testBit i = false := by
    intro n m
    refine ⟨n + m, Nat.testBit_lt_two_pow ?_, Nat.testBit_lt_two_pow ?_⟩
    · exact Nat.lt_of_lt_of_le Nat.lt_two_pow_self (Nat.pow_le_pow_right (by omega) (by omega))
    · exact Nat.lt_of_lt_of_le Nat.lt_two_pow_self (Nat.pow_le_pow_right (by omega) (by omega))
  rcases split x with ⟨n, rfl⟩ | ⟨n, rfl⟩ <;> rcases split y with ⟨m, rfl⟩ | ⟨m, rfl⟩
  · congr 1
    apply Nat.eq_of_testBit_eq
    intro i
    have := h i
    rwa [bit_nat, bit_nat] at this
  · obtain ⟨i, h1, h2⟩ := high n m
    have := h i
    rw [bit_nat, bit_neg, h1, h2] at this
    simp at this
  · obtain ⟨i, h1, h2⟩ := high n m
    have := h i
    rw [bit_nat, bit_neg, h1, h2] at this
    simp at this
  · have : n = m := by
      apply Nat.eq_of_testBit_eq
      intro i
      have := h i
      rw [bit_neg, bit_neg] at this
      simpa using this
    rw [this]

/-! ### Bits of limbs -/

theorem cons_bits {x : Nat} {xs : List Nat} (hx : x < B) (i : Nat) :
    (val (x :: xs)).testBit i = if i < 64 then x.testBit i else (val xs).testBit (i - 64) := by
  rw [val, Nat.add_comm, B_eq, Nat.testBit_two_pow_mul_add _ hx]

theorem bits_high {l : List Nat} (hl : AllLt l) {i : Nat} (hi : 64 * l.length ≤ i) :
    (val l).testBit i = false := by
  apply Nat.testBit_lt_two_pow
  have := val_lt hl
  rw [B_eq, ← Nat.pow_mul] at this
  exact Nat.lt_of_lt_of_le this (Nat.pow_le_pow_right (by omega) hi)

theorem append_bits {a b : List Nat} (ha : AllLt a) (i : Nat) :
    (val (a ++ b)).testBit i =
      if i < 64 * a.length then (val a).testBit i else (val b).testBit (i - 64 * a.length) := by
  have := val_lt ha
  rw [B_eq, ← Nat.pow_mul] at this
  rw [val_append, Nat.add_comm, B_eq, ← Nat.pow_mul, Nat.testBit_two_pow_mul_add _ this]

theorem drop_bits {l : List Nat} (hl : AllLt l) {n : Nat} (hn : n ≤ l.length) (i : Nat) :
    (val (l.drop n)).testBit i = (val l).testBit (64 * n + i) := by
  rw [val_drop_div hl n hn, B_eq, ← Nat.pow_mul, Nat.testBit_div_two_pow]
  congr 1; omega

/-- `f` works on limbs bit by bit, as `g`. -/
def Bitwise (f : Nat → Nat → Nat) (g : Bool → Bool → Bool) : Prop :=
  ∀ a b, a < B → b < B →
    f a b < B ∧ ∀ j, j < 64 → (f a b).testBit j = g (a.testBit j) (b.testBit j)

theorem bitwise_and : Bitwise (· &&& ·) (· && ·) := fun a b ha _ =>
  ⟨Nat.lt_of_le_of_lt Nat.and_le_left ha, fun j _ => Nat.testBit_and a b j⟩

theorem bitwise_or : Bitwise (· ||| ·) (· || ·) := fun a b ha hb =>
  ⟨Nat.or_lt_two_pow ha hb, fun j _ => Nat.testBit_or a b j⟩

theorem bitwise_xor : Bitwise (· ^^^ ·) (· ^^ ·) := fun a b ha hb =>
  ⟨Nat.xor_lt_two_pow ha hb, fun j _ => Nat.testBit_xor a b j⟩

theorem lnot_bits {x j : Nat} (hx : x < B) (hj : j < 64) : (lnot x).testBit j = !x.testBit j := by
  rw [lnot, B_eq, Nat.sub_sub, Nat.add_comm 1 x, Nat.testBit_two_pow_sub_succ hx]
  simp [hj]

theorem lnot_lt (x : Nat) : lnot x < B := by
  have := B_pos
  rw [lnot]; omega

theorem bitwise_andnot : Bitwise (fun a b => a &&& lnot b) (fun x y => x && !y) :=
  fun a b ha hb => ⟨Nat.lt_of_le_of_lt Nat.and_le_left ha, fun j hj => by
    rw [Nat.testBit_and, lnot_bits hb hj]⟩

theorem bitwise_notand : Bitwise (fun a b => lnot a &&& b) (fun x y => !x && y) :=
  fun a b ha hb => ⟨Nat.lt_of_le_of_lt Nat.and_le_right hb, fun j hj => by
    rw [Nat.testBit_and, lnot_bits ha hj]⟩

theorem zip_lt {f g} (hf : Bitwise f g) {a b : List Nat} (ha : AllLt a) (hb : AllLt b) :
    AllLt (List.zipWith f a b) := by
  induction a generalizing b with
  | nil => intro x hx; simp at hx
  | cons x xs ih =>
    cases b with
    | nil => intro x hx; simp at hx
    | cons y ys =>
      intro z hz
      simp only [List.zipWith_cons_cons, List.mem_cons] at hz
      rcases hz with h | h
      · rw [h]; exact (hf x y ha.head hb.head).1
      · exact ih ha.tail hb.tail z h

theorem zip_bits {f g} (hf : Bitwise f g) {a b : List Nat} (ha : AllLt a) (hb : AllLt b)
    (i : Nat) (hi : i < 64 * min a.length b.length) :
    (val (List.zipWith f a b)).testBit i = g ((val a).testBit i) ((val b).testBit i) := by
  induction a generalizing b i with
  | nil => simp at hi
  | cons x xs ih =>
    cases b with
    | nil => simp at hi
    | cons y ys =>
      obtain ⟨h1, h2⟩ := hf x y ha.head hb.head
      rw [List.zipWith_cons_cons, cons_bits h1, cons_bits ha.head, cons_bits hb.head]
      by_cases hc : i < 64
      · rw [if_pos hc, if_pos hc, if_pos hc, h2 i hc]
      · rw [if_neg hc, if_neg hc, if_neg hc]
        apply ih ha.tail hb.tail
        simp only [List.length_cons] at hi
        omega

theorem zip_bits_high {f g} (hf : Bitwise f g) {a b : List Nat} (ha : AllLt a) (hb : AllLt b)
    (i : Nat) (hi : 64 * min a.length b.length ≤ i) :
    (val (List.zipWith f a b)).testBit i = false :=
  bits_high (zip_lt hf ha hb) (by rw [List.length_zipWith]; exact hi)

/-- The loops that copy the rest of the longer operand. -/
theorem zipLong_ok {f g} (hf : Bitwise f g) (g1 : ∀ x, g x false = x) (g2 : ∀ x, g false x = x)
    {a b : List Nat} (ha : AllLt a) (hb : AllLt b) :
    AllLt (zipLong f a b) ∧ (zipLong f a b).length = max a.length b.length ∧
    ∀ i, (val (zipLong f a b)).testBit i = g ((val a).testBit i) ((val b).testBit i) := by
  unfold zipLong
  by_cases h : b.length ≤ a.length
  · rw [if_pos h]
    refine ⟨(zip_lt hf ha hb).append (ha.drop _), ?_, fun i => ?_⟩
    · rw [List.length_append, List.length_zipWith, List.length_drop]; omega
    · rw [append_bits (zip_lt hf ha hb), List.length_zipWith]
      by_cases hi : i < 64 * min a.length b.length
      · rw [if_pos hi, zip_bits hf ha hb i hi]
      · rw [if_neg hi, drop_bits ha h, bits_high hb (i := i) (by omega), g1]
        congr 1; omega
  · rw [if_neg h]
    refine ⟨(zip_lt hf ha hb).append (hb.drop _), ?_, fun i => ?_⟩
    · rw [List.length_append, List.length_zipWith, List.length_drop]; omega
    · rw [append_bits (zip_lt hf ha hb), List.length_zipWith]
      by_cases hi : i < 64 * min a.length b.length
      · rw [if_pos hi, zip_bits hf ha hb i hi]
      · rw [if_neg hi, drop_bits hb (by omega), bits_high ha (i := i) (by omega), g2]
        congr 1; omega

theorem dec_ok {v : List Nat} (hv : AllLt v) (h : 1 ≤ val v) :
    AllLt (mpnSub1 v 1).1 ∧ (mpnSub1 v 1).1.length = v.length ∧
    val (mpnSub1 v 1).1 = val v - 1 := by
  rw [mpnSub1_eq h]
  exact ⟨limbs_lt _ _, limbs_length _ _, borrow_val (val_lt hv) h⟩

theorem le_of_bits {x y : Nat} (h : ∀ i, x.testBit i = true → y.testBit i = true) : x ≤ y := by
  have : x = x &&& y := by
    apply Nat.eq_of_testBit_eq
    intro i
    rw [Nat.testBit_and]
    cases hx : x.testBit i
    · rfl
    · rw [h i hx]; rfl
  rw [this]
  exact Nat.and_le_right

/-- The value of an operand as the bits see it. -/
theorem Z.Ok.bits_pos {z : Z} (hs : 0 ≤ z.size) (i : Nat) :
    Bit z.val i = (Mpz.val z.lim).testBit i := by
  rw [Z.val, if_neg (by omega), bit_nat]

theorem Z.Ok.bits_neg {z : Z} (h : z.Ok) (hs : z.size < 0) :
    1 ≤ Mpz.val z.lim ∧ ∀ i, Bit z.val i = !(Mpz.val z.lim - 1).testBit i := by
  have h1 := h.neg hs
  refine ⟨by omega, fun i => ?_⟩
  rw [Z.val, if_pos hs, ← bit_neg]
  congr 1
  omega

theorem trim_ok {d : List Nat} (hd : AllLt d) :
    (Z.mk (trim d).length (trim d) (trim d).length).WF ∧
    (Z.mk (trim d).length (trim d) (trim d).length).val = (val d : Int) := by
  have w := mk_ok (s := ((trim d).length : Int)) (d := trim d) (c := (trim d).length)
    (by omega) (Nat.le_refl _) (trim_lt hd)
  refine ⟨w.1, ?_⟩
  rw [w.2, if_neg (by omega), val_trim]

/-- A negative result: one more than what the loops leave. -/
theorem neg_ok {d : List Nat} {c : Nat} (hd : AllLt d) (hp : val d ≠ 0) (hc : d.length ≤ c) :
    (Z.mk (-(d.length : Int)) d c).WF ∧
    ∀ i, Bit (Z.mk (-(d.length : Int)) d c).val i = !(val d - 1).testBit i := by
  have w := mk_ok (s := -(d.length : Int)) (d := d) (c := c) (by omega) hc hd
  refine ⟨w.1, fun i => ?_⟩
  have : d.length ≠ 0 := by
    intro h
    have : d = [] := List.length_eq_zero_iff.1 h
    rw [this] at hp
    exact hp rfl
  rw [w.2, if_pos (by omega), ← bit_neg]
  congr 1
  omega

theorem andMixed_ok {u v : List Nat} (hu : AllLt u) (hv : AllLt v) (h1 : 1 ≤ val v) :
    (andMixed u v).WF ∧
    ∀ i, Bit (andMixed u v).val i = ((val u).testBit i && !(val v - 1).testBit i) := by
  obtain ⟨d1, d2, d3⟩ := dec_ok hv h1
  rw [← d3]
  unfold andMixed
  generalize (mpnSub1 v 1).1 = v' at *
  simp only
  by_cases h : v.length < u.length
  · rw [if_pos h]
    have hz := zip_lt bitwise_andnot hu d1
    have hl : (List.zipWith (fun a b => a &&& lnot b) u v' ++ u.drop v.length).length = u.length := by
      rw [List.length_append, List.length_zipWith, List.length_drop]; omega
    have w := mk_ok (s := (u.length : Int)) (c := u.length) (by rw [hl]; omega) (by omega)
      (hz.append (hu.drop v.length))
    refine ⟨w.1, fun i => ?_⟩
    rw [w.2, if_neg (by omega), bit_nat, append_bits hz, List.length_zipWith]
    by_cases hi : i < 64 * min u.length v'.length
    · rw [if_pos hi, zip_bits bitwise_andnot hu d1 i hi]
    · rw [if_neg hi, drop_bits hu (by omega), bits_high d1 (i := i) (by omega)]
      simp only [Bool.not_false, Bool.and_true]
      congr 1; omega
  · rw [if_neg h]
    have hz := zip_lt bitwise_andnot hu d1
    refine ⟨(trim_ok hz).1, fun i => ?_⟩
    rw [(trim_ok hz).2, bit_nat]
    by_cases hi : i < 64 * min u.length v'.length
    · rw [zip_bits bitwise_andnot hu d1 i hi]
    · rw [zip_bits_high bitwise_andnot hu d1 i (by omega), bits_high hu (i := i) (by omega)]
      rfl

theorem land_ok {u v : Z} (hu : u.Ok) (hv : v.Ok) :
    (land u v).WF ∧ ∀ i, Bit (land u v).val i = (Bit u.val i && Bit v.val i) := by
  have lu := hu.wf.lim_length
  have lv := hv.wf.lim_length
  have au := hu.wf.lim_lt
  have av := hv.wf.lim_lt
  unfold land
  by_cases su : 0 ≤ u.size
  · rw [if_pos su]
    by_cases s : 0 ≤ v.size
    · rw [if_pos s]
      have hz := zip_lt bitwise_and au av
      refine ⟨(trim_ok hz).1, fun i => ?_⟩
      simp only
      rw [(trim_ok hz).2, bit_nat, Z.Ok.bits_pos su, Z.Ok.bits_pos s]
      by_cases hi : i < 64 * min u.lim.length v.lim.length
      · rw [zip_bits bitwise_and au av i hi]
      · rw [zip_bits_high bitwise_and au av i (by omega)]
        by_cases hc : u.lim.length ≤ v.lim.length
        · rw [bits_high au (i := i) (by omega)]; rfl
        · rw [bits_high av (i := i) (by omega), Bool.and_false]
    · rw [if_neg s]
      obtain ⟨p, hb⟩ := hv.bits_neg (by omega)
      refine ⟨(andMixed_ok au av p).1, fun i => ?_⟩
      rw [(andMixed_ok au av p).2, Z.Ok.bits_pos su, hb]
  · rw [if_neg su]
    obtain ⟨pu, hbu⟩ := hu.bits_neg (by omega)
    by_cases s : v.size < 0
    · rw [if_pos s]
      obtain ⟨pv, hbv⟩ := hv.bits_neg s
      obtain ⟨a1, a2, a3⟩ := dec_ok au pu
      obtain ⟨b1, b2, b3⟩ := dec_ok av pv
      simp only
      generalize (mpnSub1 u.lim 1).1 = u' at *
      generalize (mpnSub1 v.lim 1).1 = v' at *
      obtain ⟨z1, z2, z3⟩ := zipLong_ok bitwise_or (by simp) (by simp) a1 b1
      obtain ⟨i1, i2, i3, i4, -⟩ := incr_ok z1
      have w := neg_ok (d := incr (zipLong (· ||| ·) u' v'))
        (c := 1 + max u.size.natAbs v.size.natAbs) i4 (by omega) (by omega)
      refine ⟨w.1, fun i => ?_⟩
      rw [w.2, i1, Nat.add_sub_cancel, z3, hbu, hbv, a3, b3, Bool.not_or]
    · rw [if_neg s]
      refine ⟨(andMixed_ok av au pu).1, fun i => ?_⟩
      rw [(andMixed_ok av au pu).2, Z.Ok.bits_pos (z := v) (by omega), hbu, Bool.and_comm]

/-- The end of the two cases of `_gst_mpz_ior` with a negative result. -/
theorem incrOrOne {body : List Nat} {n : Nat} (hb : AllLt body) (hn : 1 ≤ n)
    (hl : body.length ≤ n) (hv : val body + 1 < B ^ n) :
    (Z.mk (-((if body ≠ [] then incr body else [1]).length : Int))
      (if body ≠ [] then incr body else [1]) n).WF ∧
    ∀ i, Bit (Z.mk (-((if body ≠ [] then incr body else [1]).length : Int))
      (if body ≠ [] then incr body else [1]) n).val i = !(val body).testBit i := by
  by_cases h : body ≠ []
  · rw [if_pos h]
    obtain ⟨i1, i2, i3, i4, i5⟩ := incr_ok hb
    have hlen : (incr body).length ≤ n := by
      by_cases hc : body.length = n
      · rw [i5 (by rw [hc]; exact hv), hc]
      · omega
    have w := neg_ok (c := n) i4 (by omega) hlen
    refine ⟨w.1, fun i => ?_⟩
    rw [w.2, i1, Nat.add_sub_cancel]
  · rw [if_neg h]
    have h' : body = [] := Classical.not_not.1 h
    have w := neg_ok (d := [1]) (c := n)
      (by intro x hx; simp only [List.mem_singleton] at hx; rw [hx, B_eq]; norm_num)
      (by simp [val]) hn
    refine ⟨w.1, fun i => ?_⟩
    rw [w.2, h']
    simp [val]

theorem iorMixed_ok {u v : List Nat} (hu : AllLt u) (hv : AllLt v) (hl : 1 ≤ v.length)
    (h1 : 1 ≤ val v) :
    (iorMixed u v).WF ∧
    ∀ i, Bit (iorMixed u v).val i = ((val u).testBit i || !(val v - 1).testBit i) := by
  obtain ⟨d1, d2, d3⟩ := dec_ok hv h1
  have bv := val_lt hv
  obtain ⟨t1, t2, t3, -⟩ := dropTop_spec v.length d1 d2
  have hv1 : val ((mpnSub1 v 1).1.take (dropTop (mpnSub1 v 1).1 v.length)) = val v - 1 := by
    have := val_take_drop (mpnSub1 v 1).1 (dropTop (mpnSub1 v 1).1 v.length) (by omega)
    rw [t2, d3] at this
    omega
  have hv2 : ((mpnSub1 v 1).1.take (dropTop (mpnSub1 v 1).1 v.length)).length ≤ v.length := by
    rw [List.length_take]; omega
  have hv3 := d1.take (dropTop (mpnSub1 v 1).1 v.length)
  unfold iorMixed
  simp only
  generalize ((mpnSub1 v 1).1.take (dropTop (mpnSub1 v 1).1 v.length)) = v' at *
  rw [← hv1]
  have hz := zip_lt bitwise_notand hu hv3
  obtain ⟨body, hbody, hall, hlen, hbits⟩ : ∃ body,
      (if v'.length ≤ u.length then trim (List.zipWith (fun a b => lnot a &&& b) u v')
        else List.zipWith (fun a b => lnot a &&& b) u v' ++ v'.drop u.length) = body ∧
      AllLt body ∧ body.length ≤ v.length ∧
      ∀ i, (val body).testBit i = (!(val u).testBit i && (val v').testBit i) := by
    by_cases h : v'.length ≤ u.length
    · rw [if_pos h]
      refine ⟨_, rfl, trim_lt hz, ?_, fun i => ?_⟩
      · have := trim_length_le (List.zipWith (fun a b => lnot a &&& b) u v')
        rw [List.length_zipWith] at this
        omega
      · rw [val_trim]
        by_cases hi : i < 64 * min u.length v'.length
        · rw [zip_bits bitwise_notand hu hv3 i hi]
        · rw [zip_bits_high bitwise_notand hu hv3 i (by omega),
            bits_high hv3 (i := i) (by omega), Bool.and_false]
    · rw [if_neg h]
      refine ⟨_, rfl, hz.append (hv3.drop _), ?_, fun i => ?_⟩
      · rw [List.length_append, List.length_zipWith, List.length_drop]; omega
      · rw [append_bits hz, List.length_zipWith]
        by_cases hi : i < 64 * min u.length v'.length
        · rw [if_pos hi, zip_bits bitwise_notand hu hv3 i hi]
        · rw [if_neg hi, drop_bits hv3 (by omega), bits_high hu (i := i) (by omega)]
          simp only [Bool.not_false, Bool.true_and]
          congr 1; omega
  rw [hbody]
  have hle : val body ≤ val v' := by
    apply le_of_bits
    intro i hi
    rw [hbits] at hi
    simp at hi
    exact hi.2
  have w := incrOrOne (n := v.length) hall hl hlen (by omega)
  refine ⟨w.1, fun i => ?_⟩
  rw [w.2, hbits]
  cases (val u).testBit i <;> cases (val v').testBit i <;> rfl

theorem dec_low {u : List Nat} (hu : AllLt u) (h : 1 ≤ val u) {n : Nat} (hn : n ≤ u.length) :
    AllLt (mpnSub1 (u.take n) 1).1 ∧ (mpnSub1 (u.take n) 1).1.length = n ∧
    val (mpnSub1 (u.take n) 1).1 = (val u - 1) % 2 ^ (64 * n) := by
  have hl : (u.take n).length = n := by rw [List.length_take]; omega
  refine ⟨limbs_lt _ _, by simp only [mpnSub1]; rw [limbs_length, hl], ?_⟩
  simp only [mpnSub1]
  rw [hl, val_limbs, val_take_mod hu n hn]
  have hB : B ^ n = 2 ^ (64 * n) := by rw [B_eq, ← Nat.pow_mul]
  rw [← hB]
  have hp := Bpow_pos n
  have h1 := Nat.mod_lt (val u) hp
  have h2 := Nat.mod_add_div (val u) (B ^ n)
  have h3 : val u - 1 + B ^ n = (val u % B ^ n + B ^ n - 1) + B ^ n * (val u / B ^ n) := by
    clear hB
    generalize B ^ n * (val u / B ^ n) = q at *
    generalize val u % B ^ n = r at *
    generalize B ^ n = p at *
    omega
  rw [← Nat.add_mod_right (val u - 1), h3, Nat.add_mul_mod_self_left]

theorem ior_ok {u v : Z} (hu : u.Ok) (hv : v.Ok) :
    (ior u v).WF ∧ ∀ i, Bit (ior u v).val i = (Bit u.val i || Bit v.val i) := by
  have lu := hu.wf.lim_length
  have lv := hv.wf.lim_length
  have au := hu.wf.lim_lt
  have av := hv.wf.lim_lt
  have nu := hu.nrm.1
  have nv := hv.nrm.1
  unfold ior
  by_cases su : 0 ≤ u.size
  · rw [if_pos su]
    by_cases s : 0 ≤ v.size
    · rw [if_pos s]
      obtain ⟨z1, z2, z3⟩ := zipLong_ok bitwise_or (by simp) (by simp) au av
      have w := mk_ok (s := ((zipLong (· ||| ·) u.lim v.lim).length : Int))
        (c := max u.size.natAbs v.size.natAbs) (by omega) (by omega) z1
      refine ⟨w.1, fun i => ?_⟩
      simp only
      rw [w.2, if_neg (by omega), bit_nat, z3, Z.Ok.bits_pos su, Z.Ok.bits_pos s]
    · rw [if_neg s]
      obtain ⟨p, hb⟩ := hv.bits_neg (by omega)
      refine ⟨(iorMixed_ok au av nv p).1, fun i => ?_⟩
      rw [(iorMixed_ok au av nv p).2, Z.Ok.bits_pos su, hb]
  · rw [if_neg su]
    obtain ⟨pu, hbu⟩ := hu.bits_neg (by omega)
    by_cases s : v.size < 0
    · rw [if_pos s]
      obtain ⟨pv, hbv⟩ := hv.bits_neg s
      simp only
      obtain ⟨n, hn⟩ : ∃ n, n = min u.size.natAbs v.size.natAbs := ⟨_, rfl⟩
      rw [← hn]
      obtain ⟨a1, a2, a3⟩ := dec_low au pu (n := n) (by omega)
      obtain ⟨b1, b2, b3⟩ := dec_low av pv (n := n) (by omega)
      generalize (mpnSub1 (u.lim.take n) 1).1 = u' at *
      generalize (mpnSub1 (v.lim.take n) 1).1 = v' at *
      have hz := zip_lt bitwise_and a1 b1
      have hbits : ∀ i, (val (trim (List.zipWith (· &&& ·) u' v'))).testBit i =
          ((val u.lim - 1).testBit i && (val v.lim - 1).testBit i) := by
        intro i
        rw [val_trim]
        by_cases hi : i < 64 * n
        · rw [zip_bits bitwise_and a1 b1 i (by rw [a2, b2]; omega), a3, b3,
            Nat.testBit_mod_two_pow, Nat.testBit_mod_two_pow]
          simp [hi]
        · rw [zip_bits_high bitwise_and a1 b1 i (by rw [a2, b2]; omega)]
          by_cases hc : u.size.natAbs ≤ v.size.natAbs
          · obtain ⟨d1, d2, d3⟩ := dec_ok au pu
            rw [← d3, bits_high d1 (i := i) (by omega)]; rfl
          · obtain ⟨d1, d2, d3⟩ := dec_ok av pv
            rw [← d3, bits_high d1 (i := i) (by omega), Bool.and_false]
      have hle : val (trim (List.zipWith (· &&& ·) u' v')) + 1 < B ^ n := by
        by_cases hc : u.size.natAbs ≤ v.size.natAbs
        · have h1 : val (trim (List.zipWith (· &&& ·) u' v')) ≤ val u.lim - 1 := by
            apply le_of_bits
            intro i hi
            rw [hbits] at hi
            simp at hi
            exact hi.1
          have := val_lt au
          rw [lu, show u.size.natAbs = n by omega] at this
          omega
        · have h1 : val (trim (List.zipWith (· &&& ·) u' v')) ≤ val v.lim - 1 := by
            apply le_of_bits
            intro i hi
            rw [hbits] at hi
            simp at hi
            exact hi.2
          have := val_lt av
          rw [lv, show v.size.natAbs = n by omega] at this
          omega
      have hlen := trim_length_le (List.zipWith (· &&& ·) u' v')
      rw [List.length_zipWith] at hlen
      have w := incrOrOne (n := n) (trim_lt hz) (by omega) (by omega) hle
      refine ⟨w.1, fun i => ?_⟩
      rw [w.2, hbits, hbu, hbv, Bool.not_and]
    · rw [if_neg s]
      refine ⟨(iorMixed_ok av au nu pu).1, fun i => ?_⟩
      rw [(iorMixed_ok av au nu pu).2, Z.Ok.bits_pos (z := v) (by omega), hbu, Bool.or_comm]

theorem xorMixed_ok {u v : List Nat} (hu : AllLt u) (hv : AllLt v) (h1 : 1 ≤ val v) :
    (xorMixed u v).WF ∧
    ∀ i, Bit (xorMixed u v).val i = ((val u).testBit i ^^ !(val v - 1).testBit i) := by
  obtain ⟨d1, d2, d3⟩ := dec_ok hv h1
  rw [← d3]
  unfold xorMixed
  generalize (mpnSub1 v 1).1 = v' at *
  simp only
  obtain ⟨z1, z2, z3⟩ := zipLong_ok bitwise_xor (by simp) (by simp) hu d1
  obtain ⟨i1, i2, i3, i4, -⟩ := incr_ok z1
  have w := neg_ok (d := incr (zipLong (· ^^^ ·) u v'))
    (c := max u.length v.length + 1) i4 (by omega) (by omega)
  refine ⟨w.1, fun i => ?_⟩
  rw [w.2, i1, Nat.add_sub_cancel, z3]
  cases (val u).testBit i <;> cases (val v').testBit i <;> rfl

theorem xor_ok {u v : Z} (hu : u.Ok) (hv : v.Ok) :
    (xor u v).WF ∧ ∀ i, Bit (xor u v).val i = (Bit u.val i ^^ Bit v.val i) := by
  have lu := hu.wf.lim_length
  have lv := hv.wf.lim_length
  have au := hu.wf.lim_lt
  have av := hv.wf.lim_lt
  unfold xor
  by_cases su : 0 ≤ u.size
  · rw [if_pos su]
    by_cases s : 0 ≤ v.size
    · rw [if_pos s]
      obtain ⟨z1, z2, z3⟩ := zipLong_ok bitwise_xor (by simp) (by simp) au av
      have w := mk_ok (s := ((zipLong (· ^^^ ·) u.lim v.lim).length : Int))
        (c := max u.size.natAbs v.size.natAbs) (by omega) (by omega) z1
      refine ⟨w.1, fun i => ?_⟩
      simp only
      rw [w.2, if_neg (by omega), bit_nat, z3, Z.Ok.bits_pos su, Z.Ok.bits_pos s]
    · rw [if_neg s]
      obtain ⟨p, hb⟩ := hv.bits_neg (by omega)
      refine ⟨(xorMixed_ok au av p).1, fun i => ?_⟩
      rw [(xorMixed_ok au av p).2, Z.Ok.bits_pos su, hb]
  · rw [if_neg su]
    obtain ⟨pu, hbu⟩ := hu.bits_neg (by omega)
    by_cases s : v.size < 0
    · rw [if_pos s]
      obtain ⟨pv, hbv⟩ := hv.bits_neg s
      obtain ⟨a1, a2, a3⟩ := dec_ok au pu
      obtain ⟨b1, b2, b3⟩ := dec_ok av pv
      simp only
      generalize (mpnSub1 u.lim 1).1 = u' at *
      generalize (mpnSub1 v.lim 1).1 = v' at *
      obtain ⟨z1, z2, z3⟩ := zipLong_ok bitwise_xor (by simp) (by simp) a1 b1
      have w := mk_ok (s := ((zipLong (· ^^^ ·) u' v').length : Int))
        (c := max u.size.natAbs v.size.natAbs) (by omega) (by omega) z1
      refine ⟨w.1, fun i => ?_⟩
      rw [w.2, if_neg (by omega), bit_nat, z3, hbu, hbv, a3, b3]
      cases (val u.lim - 1).testBit i <;> cases (val v.lim - 1).testBit i <;> rfl
    · rw [if_neg s]
      refine ⟨(xorMixed_ok av au pu).1, fun i => ?_⟩
      rw [(xorMixed_ok av au pu).2, Z.Ok.bits_pos (z := v) (by omega), hbu, Bool.xor_comm]

end Verif.Mpz
