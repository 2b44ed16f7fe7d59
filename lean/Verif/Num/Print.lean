import Verif.Num.Gcd
import Mathlib.Data.List.Induction

/-! # Printing and reading Integers in any base -/

namespace Verif.Num

/-! ### Specification: positional notation -/

/-- The code of the digit `d`: `0`-`9`, then `A`-`Z`. -/
def code (d : Nat) : Nat := if d < 10 then 48 + d else 55 + d

/-- The number denoted by digits in base `b`, most significant first. -/
def value (b : Nat) (ds : List Nat) : Nat := ds.foldl (fun v d => v * b + d) 0

/-- `ds` is how `n` is written in base `b`: digits below `b`, denoting `n`, at
least one of them, without a leading zero unless it is the only digit. -/
def Writes (b n : Nat) (ds : List Nat) : Prop :=
  ds ≠ [] ∧ (∀ d ∈ ds, d < b) ∧ value b ds = n ∧ (ds.length = 1 ∨ ds.head? ≠ some 0)

theorem value_append (b : Nat) (ds : List Nat) (d : Nat) : value b (ds ++ [d]) = value b ds * b + d := by
  simp [value]

/-- There is at most one way to write a number. -/
theorem writes_unique (b : Nat) (hb : 2 ≤ b) : ∀ (ds es : List Nat) (n : Nat), Writes b n ds → Writes b n es → ds = es := by
  have pos : ∀ ds : List Nat, ds ≠ [] → ds.head? ≠ some 0 → 0 < value b ds := by
    intro ds
    induction ds using List.reverseRecOn with
    | nil => intro h; exact absurd rfl h
    | append_singleton ds d ih =>
      intro _ hh
      rw [value_append]
      by_cases hd : ds = []
      · subst hd
        simp at hh
        simp [value]; omega
      · have : 0 < value b ds := ih hd (by
          intro h; apply hh; rw [List.head?_append, h]; rfl)
        have := Nat.mul_pos this (show 0 < b by omega)
        omega
  intro ds
  induction ds using List.reverseRecOn with
  | nil => intro es n h; exact absurd rfl h.1
  | append_singleton ds d ih =>
    intro es n h1 h2
    rcases List.eq_nil_or_concat es with rfl | ⟨es', e, rfl⟩
    · exact absurd rfl h2.1
    · rw [List.concat_eq_append] at h2 ⊢
      obtain ⟨_, a1, a2, a3⟩ := h1
      obtain ⟨_, b1, b2, b3⟩ := h2
      rw [value_append] at a2 b2
      have hd : d < b := a1 d (by simp)
      have he : e < b := b1 e (by simp)
      have hm : d = e := by
        have x1 : n % b = d := by rw [← a2, Nat.mul_comm, Nat.mul_add_mod, Nat.mod_eq_of_lt hd]
        have x2 : n % b = e := by rw [← b2, Nat.mul_comm, Nat.mul_add_mod, Nat.mod_eq_of_lt he]
        omega
      subst hm
      have hv : value b ds = value b es' := by
        apply Nat.eq_of_mul_eq_mul_right (show 0 < b by omega); omega
      have head : ∀ l : List Nat, l ≠ [] → ((l ++ [d]).length = 1 ∨ (l ++ [d]).head? ≠ some 0) →
          l.head? ≠ some 0 := by
        intro l hl h hh
        rcases h with h | h
        · have : l.length = 0 := by simpa using h
          exact hl (List.length_eq_zero_iff.mp this)
        · apply h; rw [List.head?_append, hh]; rfl
      by_cases hds : ds = []
      · by_cases hes : es' = []
        · rw [hds, hes]
        · have := pos es' hes (head es' hes b3)
          rw [← hv, hds] at this
          simp [value] at this
      · by_cases hes : es' = []
        · have := pos ds hds (head ds hds a3)
          rw [hv, hes] at this
          simp [value] at this
        · rw [ih es' (value b ds) ⟨hds, fun x hx => a1 x (by simp [hx]), rfl, Or.inr (head ds hds a3)⟩
            ⟨hes, fun x hx => b1 x (by simp [hx]), hv.symm, Or.inr (head es' hes b3)⟩]

example : Writes 16 255 [15, 15] := ⟨by decide, by decide, by decide, by decide⟩

/-- The digits of `n` in base `b`. -/
def repr (b : Nat) (n : Nat) : List Nat :=
  if _ : n < b ∨ b < 2 then [n] else repr b (n / b) ++ [n % b]
termination_by n
decreasing_by exact Nat.div_lt_self (by omega) (by omega)

theorem repr_small (b n : Nat) (h : n < b) : repr b n = [n] := by rw [repr, dif_pos (Or.inl h)]

theorem repr_big (b n : Nat) (hb : 2 ≤ b) (h : b ≤ n) : repr b n = repr b (n / b) ++ [n % b] := by
  rw [repr, dif_neg (by omega)]

theorem repr_writes (b : Nat) (hb : 2 ≤ b) : ∀ n, Writes b n (repr b n) := by
  intro n
  induction n using Nat.strong_induction_on with
  | _ n ih =>
    by_cases h : n < b
    · rw [repr_small b n h]
      exact ⟨by simp, by simpa using h, by simp [value], Or.inl rfl⟩
    · rw [repr_big b n hb (by omega)]
      obtain ⟨h1, h2, h3, h4⟩ := ih (n / b) (Nat.div_lt_self (by omega) (by omega))
      refine ⟨by simp, ?_, ?_, Or.inr ?_⟩
      · intro d hd
        rcases List.mem_append.mp hd with hd | hd
        · exact h2 d hd
        · rw [List.mem_singleton] at hd; rw [hd]; exact Nat.mod_lt _ (by omega)
      · rw [value_append, h3, Nat.mul_comm]; exact Nat.div_add_mod n b
      · have hh : (repr b (n / b) ++ [n % b]).head? = (repr b (n / b)).head? := by
          cases hr : repr b (n / b) with
          | nil => exact absurd hr h1
          | cons => rfl
        rw [hh]
        rcases h4 with h4 | h4
        · obtain ⟨x, hx⟩ := List.length_eq_one_iff.mp h4
          rw [hx] at h3 ⊢
          simp [value] at h3
          have : 0 < n / b := Nat.div_pos (by omega) (by omega)
          simp; omega
        · exact h4

theorem repr_length (b : Nat) (hb : 2 ≤ b) : ∀ n, 1 ≤ n →
    b ^ ((repr b n).length - 1) ≤ n ∧ n < b ^ (repr b n).length ∧ 1 ≤ (repr b n).length := by
  intro n
  induction n using Nat.strong_induction_on with
  | _ n ih =>
    intro h1
    by_cases h : n < b
    · rw [repr_small b n h]; simp; omega
    · rw [repr_big b n hb (by omega)]
      obtain ⟨h3, h4, h5⟩ := ih (n / b) (Nat.div_lt_self (by omega) (by omega)) (Nat.div_pos (by omega) (by omega))
      rw [List.length_append, List.length_singleton, Nat.add_sub_cancel]
      refine ⟨?_, ?_, by omega⟩
      · obtain ⟨l, hl⟩ : ∃ l, (repr b (n / b)).length = l + 1 := ⟨_, (Nat.sub_add_cancel h5).symm⟩
        rw [hl] at h3 ⊢
        rw [pow_succ]
        exact (Nat.le_div_iff_mul_le (by omega)).mp h3
      · rw [pow_succ]; exact (Nat.div_lt_iff_lt_mul (by omega)).mp h4

/-- `floorLog:` plus one is the number of digits. -/
theorem floorLog_repr (b n : Nat) (hb : 2 ≤ b) : floorLog n b = .ok ((repr b n).length - 1) := by
  by_cases h : n = 0
  · subst h
    have := floorLog_zero b (by omega)
    rw [show ((0 : Nat) : Int) = 0 by rfl, this, repr_small b 0 (by omega)]; rfl
  · obtain ⟨k, h1, _, _, h4⟩ := floorLog_spec n b (by omega) (by omega)
    rw [h1]
    obtain ⟨l1, l2, l3⟩ := repr_length b hb n (by omega)
    have := h4 ((repr b n).length - 1) (by exact_mod_cast l1)
      (by rw [Nat.sub_add_cancel l3]; exact_mod_cast l2)
    rw [this]

theorem repr_pos (b n : Nat) (hb : 2 ≤ b) : 1 ≤ (repr b n).length := by
  have := (repr_writes b hb n).1
  cases h : repr b n with
  | nil => exact absurd h this
  | cons => simp

/-! ### Printing -/

theorem digitChar_code (d : Nat) (h : d < 36) : digitChar d = .ok (code d) := by
  unfold digitChar code
  split
  · rfl
  · simp

/-- The loop writes the digits, right-aligned at `pos`, and touches nothing
else. -/
theorem replaceLoop_spec (b : Nat) (hb : 2 ≤ b) (hb' : b ≤ 36) : ∀ (n f : Nat) (pre post : Str) (junk : Str),
    n < f → junk.length = (repr b n).length →
    replaceLoop f (pre ++ junk ++ post) (pre.length + junk.length) n b =
      .ok (pre ++ (repr b n).map code ++ post) := by
  intro n
  induction n using Nat.strong_induction_on with
  | _ n ih =>
    intro f pre post junk hf hj
    obtain ⟨f', rfl⟩ : ∃ f', f = f' + 1 := ⟨f - 1, by omega⟩
    have hm : n % b < b := Nat.mod_lt _ (by omega)
    rw [replaceLoop, digitChar_code _ (by omega)]
    have hpos := repr_pos b n hb
    have hput : ∀ j x, junk = j ++ [x] → strPut (pre ++ junk ++ post) (pre.length + junk.length) (code (n % b)) =
        .ok (pre ++ (j ++ [code (n % b)]) ++ post) := by
      intro j x e
      subst e
      rw [strPut, if_neg (by simp)]
      congr 1
      simp only [List.length_append, List.length_singleton]
      rw [show pre.length + (j.length + 1) - 1 = pre.length + j.length by omega]
      rw [List.append_assoc, List.append_assoc, List.set_append_right _ _ (by omega)]
      rw [Nat.add_sub_cancel_left, List.set_append_right _ _ (by omega)]
      simp
    rcases List.eq_nil_or_concat junk with rfl | ⟨j, x, hjx⟩
    · simp at hj; omega
    · simp only
      rw [hput j x (by rw [hjx, List.concat_eq_append])]
      simp only
      have hlen : junk.length = j.length + 1 := by rw [hjx]; simp
      by_cases hn : n < b
      · have h0 : n / b = 0 := Nat.div_eq_of_lt hn
        rw [if_neg (by omega), repr_small b n hn]
        rw [repr_small b n hn] at hj
        have : j = [] := by
          apply List.length_eq_zero_iff.mp; simp at hj; omega
        subst this
        simp [Nat.mod_eq_of_lt hn]
      · have h0 : 0 < n / b := Nat.div_pos (by omega) (by omega)
        rw [if_pos h0, repr_big b n hb (by omega)]
        rw [repr_big b n hb (by omega)] at hj
        have hlt : n / b < n := Nat.div_lt_self (by omega) (by omega)
        have := ih (n / b) hlt f' pre ([code (n % b)] ++ post) j (by omega) (by simp at hj; omega)
        rw [show pre.length + junk.length - 1 = pre.length + j.length by omega]
        rw [show pre ++ (j ++ [code (n % b)]) ++ post = pre ++ j ++ ([code (n % b)] ++ post) by simp]
        rw [this]
        simp

theorem replaceBase_spec (b n : Nat) (hb : 2 ≤ b) (hb' : b ≤ 36) (pre junk : Str)
    (hj : junk.length = (repr b n).length) :
    replaceBase (pre ++ junk) n b = .ok (pre ++ (repr b n).map code) := by
  rw [replaceBase, if_neg (by omega)]
  have := replaceLoop_spec b hb hb' n (n + 1) pre [] junk (by omega) hj
  simpa using this

theorem replaceBase_fresh (b n l : Nat) (hb : 2 ≤ b) (hb' : b ≤ 36) (pre : Str) (x : Nat)
    (hl : l = (repr b n).length) :
    replaceBase (pre ++ List.replicate l x) n b = .ok (pre ++ (repr b n).map code) :=
  replaceBase_spec b n hb hb' pre _ (by simpa using hl)

/-- The sign as printed. -/
def sign (z : Int) : Str := if z < 0 then [45] else []

/-- **`z printString: base` writes `z` in that base**: a minus sign for negative
numbers, then the digits, for every Integer and every base from 2 to 36.
(`repr_writes` and `writes_unique` say that `repr` is the positional notation;
nothing is lost, padded or left unfilled.) -/
theorem printBase_spec (z : Int) (b : Nat) (hb : 2 ≤ b) (hb' : b ≤ 36) :
    printBase z b = .ok (sign z ++ (repr b z.natAbs).map code) := by
  have hp := repr_pos b z.natAbs hb
  rw [printBase, sign]
  by_cases hz : z < 0
  · rw [if_pos hz, if_pos hz]
    have hfl := floorLog_repr b z.natAbs hb
    rw [show ((z.natAbs : Nat) : Int) = -z by omega] at hfl
    rw [hfl]
    simp only
    have : strPut (List.replicate ((repr b z.natAbs).length - 1 + 2) 0) 1 45 =
        .ok ([45] ++ List.replicate (repr b z.natAbs).length 0) := by
      rw [strPut, if_neg (by simp)]
      rw [show (repr b z.natAbs).length - 1 + 2 = (repr b z.natAbs).length + 1 by omega, List.replicate_succ]
      rfl
    rw [this]
    simp only [Int.natAbs_natCast, Int.natAbs_neg]
    exact replaceBase_fresh b _ _ hb hb' _ _ rfl
  · rw [if_neg hz, if_neg hz]
    have hfl := floorLog_repr b z.natAbs hb
    rw [show ((z.natAbs : Nat) : Int) = z by omega] at hfl
    rw [hfl]
    simp only [Int.natAbs_natCast]
    have := replaceBase_fresh b z.natAbs ((repr b z.natAbs).length - 1 + 1) hb hb' [] 0 (by omega)
    simpa using this

example : printBase (-255) 16 = .ok [45, 70, 70] := by decide
example : printBase 0 2 = .ok [48] := by decide

/-- A base below 2 is refused. -/
theorem printBase_refuses (z b : Int) (hb : b < 2) : printBase z b = .error .arith := by
  rw [printBase]
  split
  · rw [floorLog_refuses _ _ (Or.inr hb)]
  · rw [floorLog_refuses _ _ (Or.inr hb)]

/-- **`z printStringRadix: base` is the base in decimal, an `r`, and then exactly
what `printString: base` answers.** -/
theorem printRadix_spec (z : Int) (b : Nat) (hb : 2 ≤ b) (hb' : b ≤ 36) :
    printRadix z b = .ok ((repr 10 b).map code ++ [114] ++ sign z ++ (repr b z.natAbs).map code) := by
  have hp := repr_pos b z.natAbs hb
  have hp10 := repr_pos 10 b (by omega)
  have hfl10 := floorLog_repr 10 b (by omega)
  have hpr := printBase_spec (b : Int) 10 (by omega) (by omega)
  have hs0 : sign (b : Int) = [] := by rw [sign, if_neg (by omega)]
  rw [hs0] at hpr
  simp only [Int.natAbs_natCast, List.nil_append] at hpr
  have hfl := floorLog_repr b z.natAbs hb
  rw [show ((10 : Nat) : Int) = 10 by rfl] at hfl10 hpr
  generalize hR : (repr 10 b).map code = R at *
  have hRl : (repr 10 b).length = R.length := by rw [← hR]; simp
  rw [hRl] at hp10 hfl10
  by_cases hz : z < 0
  · rw [show ((z.natAbs : Nat) : Int) = -z by omega] at hfl
    simp only [printRadix, hz, decide_true, if_true, hfl10, hfl]
    rw [show (repr b z.natAbs).length - 1 + (R.length - 1 + 1) + 2 + 1 =
      (R.length + 2) + (repr b z.natAbs).length by omega]
    rw [← List.replicate_append_replicate, Int.natAbs_neg, Int.natAbs_natCast,
      replaceBase_fresh b _ _ hb hb' _ _ rfl]
    simp only [hpr]
    have : strReplacePrefix (List.replicate (R.length + 2) 0 ++ (repr b z.natAbs).map code) R
        (R.length - 1 + 1) = .ok (R ++ ([0, 0] ++ (repr b z.natAbs).map code)) := by
      rw [strReplacePrefix, if_neg (by simp; omega), show R.length - 1 + 1 = R.length by omega]
      rw [← List.replicate_append_replicate, List.append_assoc, List.drop_append_of_le_length (by simp)]
      simp [List.replicate]
    rw [this]
    simp only [sign, if_pos hz]
    have p1 : strPut (R ++ ([0, 0] ++ (repr b z.natAbs).map code)) (R.length - 1 + 1 + 1) 114 =
        .ok (R ++ ([114, 0] ++ (repr b z.natAbs).map code)) := by
      rw [strPut, if_neg (by simp; omega), List.set_append_right _ _ (by omega),
        show R.length - 1 + 1 + 1 - 1 - R.length = 0 by omega]
      rfl
    rw [p1]
    simp only
    rw [strPut, if_neg (by simp; omega), List.set_append_right _ _ (by omega),
        show R.length - 1 + 1 + 2 - 1 - R.length = 1 by omega]
    simp
  · rw [show ((z.natAbs : Nat) : Int) = z by omega] at hfl
    simp only [printRadix, hz, decide_false, hfl10]
    simp only [Bool.false_eq_true, if_false, hfl, Nat.add_zero]
    rw [show (repr b z.natAbs).length - 1 + (R.length - 1 + 1) + 2 =
      (R.length + 1) + (repr b z.natAbs).length by omega]
    rw [← List.replicate_append_replicate, Int.natAbs_natCast,
      replaceBase_fresh b _ _ hb hb' _ _ rfl]
    simp only [hpr]
    have : strReplacePrefix (List.replicate (R.length + 1) 0 ++ (repr b z.natAbs).map code) R
        (R.length - 1 + 1) = .ok (R ++ ([0] ++ (repr b z.natAbs).map code)) := by
      rw [strReplacePrefix, if_neg (by simp; omega), show R.length - 1 + 1 = R.length by omega]
      rw [← List.replicate_append_replicate, List.append_assoc, List.drop_append_of_le_length (by simp)]
      simp [List.replicate]
    rw [this]
    simp only [sign, if_neg hz]
    rw [strPut, if_neg (by simp; omega), List.set_append_right _ _ (by omega),
        show R.length - 1 + 1 + 1 - 1 - R.length = 0 by omega]
    simp

example : printRadix (-255) 16 = .ok [49, 54, 114, 45, 70, 70] := by decide

/-- **Padding**: sign, then copies of the padding character, then the digits — as
many copies as are missing to `size` characters, none if the number is already
that long. -/
theorem printOnPadded_spec (z : Int) (pad size b : Nat) (hb : 2 ≤ b) (hb' : b ≤ 36) :
    printOnPadded z pad size b = .ok (sign z ++
      List.replicate (size - ((sign z).length + (repr b z.natAbs).length)) pad ++
      (repr b z.natAbs).map code) := by
  have hp := repr_pos b z.natAbs hb
  have hfl := floorLog_repr b z.natAbs hb
  have hn : (if z < 0 then -z else z) = ((z.natAbs : Nat) : Int) := by split <;> omega
  simp only [printOnPadded, hn, hfl, Int.natAbs_natCast]
  have := replaceBase_fresh b z.natAbs ((repr b z.natAbs).length - 1 + 1) hb hb' [] 0 (by omega)
  simp only [List.nil_append] at this
  rw [this]
  simp only [sign]
  congr 1
  congr 2
  congr 1
  split <;> simp <;> omega

/-- **The string variant of padding answers what the stream variant prints.** -/
theorem printPadded_spec (z : Int) (pad size b : Nat) (hb : 2 ≤ b) (hb' : b ≤ 36) :
    printPadded z pad size b = printOnPadded z pad size b := by
  rw [printOnPadded_spec z pad size b hb hb']
  have hp := repr_pos b z.natAbs hb
  have hfl := floorLog_repr b z.natAbs hb
  have hn : (if z < 0 then -z else z) = ((z.natAbs : Nat) : Int) := by split <;> omega
  simp only [printPadded, hn, hfl, Int.natAbs_natCast]
  generalize hL : (repr b z.natAbs).length = L at *
  by_cases hz : z < 0
  · simp only [if_pos hz, sign, if_true]
    have h1 : strPut (List.replicate (max (L - 1 + 2) size) 0) 1 45 =
        .ok (45 :: List.replicate (max (L - 1 + 2) size - 1) 0) := by
      obtain ⟨m, hm⟩ : ∃ m, max (L - 1 + 2) size = m + 1 := ⟨max (L - 1 + 2) size - 1, by omega⟩
      rw [strPut, if_neg (by simp), hm, List.replicate_succ]
      rfl
    rw [h1]
    simp only
    rw [strFill, if_neg (by simp only [List.length_cons, List.length_replicate]; omega)]
    simp only
    have hk : (45 :: List.replicate (max (L - 1 + 2) size - 1) 0).length - (L - 1 + 2) + 2 - 1 =
        (size - (1 + L)) + 1 := by simp; omega
    rw [hk]
    simp only [List.take_succ_cons, List.take_zero, List.drop_succ_cons, List.drop_replicate,
      show (2 : Nat) - 1 = 1 by rfl]
    rw [show max (L - 1 + 2) size - 1 - (size - (1 + L)) = L by omega,
      show size - (1 + L) + 1 + 1 - 2 = size - (1 + L) by omega]
    rw [replaceBase_fresh b _ _ hb hb' _ _ hL.symm]
    simp
  · simp only [if_neg hz, sign]
    rw [if_neg (by omega)]
    simp only
    rw [strFill, if_neg (by simp only [List.length_replicate]; omega)]
    simp only
    have hk : (List.replicate (max (L - 1 + 1) size) 0).length - (L - 1 + 1) + 1 - 1 = size - L := by
      simp; omega
    rw [hk]
    simp only [List.drop_replicate, show (1 : Nat) - 1 = 0 by rfl, List.take_zero]
    rw [show max (L - 1 + 1) size - (size - L) = L by omega, show size - L + 1 - 1 = size - L by omega]
    rw [replaceBase_fresh b _ _ hb hb' _ _ hL.symm]
    simp

example : printPadded (-7) 48 4 10 = .ok [45, 48, 48, 55] := by decide

/-! ### Reading back -/

theorem charTable_code (d : Nat) (h : d < 36) : charTable (upcase (code d)) > 32 ∧ digitVal (upcase (code d)) = d := by
  have : ∀ d ∈ List.range 36, charTable (upcase (code d)) > 32 ∧ digitVal (upcase (code d)) = d := by
    decide
  exact this d (List.mem_range.mpr h)

theorem isDigit_code (b d : Nat) (hb : b ≤ 36) (h : d < b) : isDigit b (upcase (code d)) = true := by
  have := charTable_code d (by omega)
  unfold digitVal at this
  simp only [isDigit, this.2, Bool.and_eq_true, decide_eq_true_eq]
  exact ⟨this.1, by omega⟩

/-- A character that ends a number in base `b`: not a digit in either case, not a
decimal point, and not the exponent letter of base 10. -/
def Ends (b : Nat) (rest : Str) : Prop :=
  ∀ c tl, rest = c :: tl → (∀ d, d < b → c ≠ code d ∧ (10 ≤ d → c ≠ code d + 32)) ∧ c ≠ 46 ∧
    (b = 10 → c ≠ 69 ∧ c ≠ 101)

theorem isDigit_iff (b c : Nat) (hb : 2 ≤ b) (hb' : b ≤ 36) (h : isDigit b (upcase c) = true) :
    ∃ d, d < b ∧ (c = code d ∨ (10 ≤ d ∧ c = code d + 32)) := by
  simp only [isDigit, Bool.and_eq_true, decide_eq_true_eq] at h
  obtain ⟨h1, h2⟩ := h
  refine ⟨upcase c - charTable (upcase c), by omega, ?_⟩
  unfold charTable at *
  unfold upcase at *
  unfold code
  by_cases hl : 97 ≤ c ∧ c ≤ 122
  · simp only [if_pos hl] at *
    have a : ¬ (48 ≤ c - 32 ∧ c - 32 ≤ 57) := by omega
    have b : 65 ≤ c - 32 ∧ c - 32 ≤ 90 := by omega
    simp only [if_neg a, if_pos b] at *
    right
    rw [if_neg (by omega)]
    omega
  · simp only [if_neg hl] at *
    left
    split at h1
    · rename_i hd
      rw [if_pos hd, if_pos (by omega)]
      omega
    · rename_i hd
      split at h1
      · rename_i hu
        rw [if_neg hd, if_pos hu, if_neg (by omega)]
        omega
      · simp at h1

theorem Ends.stops {b : Nat} (hb : 2 ≤ b) (hb' : b ≤ 36) {c : Nat} {tl : Str} (he : Ends b (c :: tl)) :
    isDigit b (upcase c) = false ∧ upcase c ≠ 46 ∧ ¬ (b = 10 ∧ upcase c = 69) := by
  obtain ⟨h1, h2, h3⟩ := he c tl rfl
  refine ⟨?_, ?_, ?_⟩
  · by_contra h
    obtain ⟨d, hd, h⟩ := isDigit_iff b c hb hb' (by simpa using h)
    rcases h with h | ⟨h10, h⟩
    · exact (h1 d hd).1 h
    · exact (h1 d hd).2 h10 h
  · unfold upcase; split <;> omega
  · rintro ⟨h, h'⟩
    have := h3 h
    unfold upcase at h'
    split at h' <;> omega

theorem readDigits_spec (b : Nat) (hb : 2 ≤ b) (hb' : b ≤ 36) (sgn : Int) (rest : Str) (he : Ends b rest) :
    ∀ (ds : List Nat) (v : Int), (∀ d ∈ ds, d < b) →
    readDigits b sgn v (ds.map code ++ rest) =
      (ds.foldl (fun (v : Int) (d : Nat) => sgn * d + v * b) v, rest) := by
  intro ds
  induction ds with
  | nil =>
    intro v _
    cases rest with
    | nil => rfl
    | cons c tl =>
      have := (he.stops hb hb').1
      simp [readDigits, this]
  | cons d ds ih =>
    intro v hd
    have hd1 := hd d (by simp)
    simp only [List.map_cons, List.cons_append, readDigits, isDigit_code b d hb' hd1, if_true,
      (charTable_code d (by omega)).2, List.foldl_cons]
    exact ih _ (fun x hx => hd x (by simp [hx]))

theorem foldl_signed (b : Nat) (sgn : Int) (ds : List Nat) : ∀ (v : Nat),
    ds.foldl (fun (v : Int) (d : Nat) => sgn * d + v * b) (sgn * v) =
      sgn * ((ds.foldl (fun v d => v * b + d) v : Nat) : Int) := by
  induction ds with
  | nil => intro v; rfl
  | cons d ds ih =>
    intro v
    rw [List.foldl_cons, List.foldl_cons, ← ih]
    congr 1
    push_cast
    ring

/-- **Reading a printed Integer gives it back**: for every Integer, every base
from 2 to 36 and whatever follows it (as long as that is not another digit, a
point or an exponent), `Number readFrom:radix:` on the text of
`printString: base` answers the Integer and leaves the stream right after it. -/
theorem read_print (z : Int) (b : Nat) (hb : 2 ≤ b) (hb' : b ≤ 36) (rest : Str) (he : Ends b rest) :
    ∃ s, printBase z b = .ok s ∧ readFrom b (s ++ rest) = .ok (.int z rest) := by
  refine ⟨_, printBase_spec z b hb hb', ?_⟩
  obtain ⟨h1, h2, h3, _⟩ := repr_writes b hb z.natAbs
  have key : ∀ sgn : Int, readDigits b sgn 0 ((repr b z.natAbs).map code ++ rest) =
      (sgn * (z.natAbs : Nat), rest) := by
    intro sgn
    rw [readDigits_spec b hb hb' sgn rest he _ 0 h2]
    have := foldl_signed b sgn (repr b z.natAbs) 0
    simp only [Nat.cast_zero, mul_zero] at this
    rw [this]
    congr 2
    exact congrArg _ h3
  obtain ⟨d, ds, hds⟩ : ∃ d ds, repr b z.natAbs = d :: ds := by
    cases h : repr b z.natAbs with
    | nil => exact absurd h h1
    | cons d ds => exact ⟨d, ds, rfl⟩
  have hd : d < b := h2 d (by rw [hds]; simp)
  have hdig := isDigit_code b d hb' hd
  have hc45 : code d ≠ 45 := by unfold code; split <;> omega
  have tail : ∀ sgn : Int, sgn * (z.natAbs : Nat) = z →
      readEnd b (readDigits b sgn 0 ((repr b z.natAbs).map code ++ rest)) = .int z rest := by
    intro sgn hs
    rw [key sgn, hs]
    cases rest with
    | nil => rfl
    | cons e tl =>
      obtain ⟨_, h5, h6⟩ := he.stops hb hb'
      simp only [readEnd, if_neg h5, if_neg h6]
  by_cases hz : z < 0
  · rw [sign, if_pos hz]
    have t := tail (-1) (by omega)
    rw [hds] at t ⊢
    simp only [List.cons_append, List.nil_append, List.map_cons, readFrom, if_true] at t ⊢
    rw [if_neg (by omega), hdig]
    simpa using t
  · rw [sign, if_neg hz]
    have t := tail 1 (by omega)
    rw [hds] at t ⊢
    simp only [List.cons_append, List.nil_append, List.map_cons, readFrom, if_neg hc45] at t ⊢
    rw [if_neg (by omega), hdig]
    simpa using t

example : readFrom 16 ([45, 70, 70] ++ [32]) = .ok (.int (-255) [32]) := by decide
example : Ends 16 [32] := by
  intro c tl h
  cases h
  exact ⟨fun d _ => by unfold code; split <;> omega, by decide, by decide⟩

/-- Two Integers that print alike in some base are the same: printing loses
nothing. -/
theorem print_injective (y z : Int) (b : Nat) (hb : 2 ≤ b) (hb' : b ≤ 36)
    (h : printBase y b = printBase z b) : y = z := by
  have he : Ends b [] := by intro c tl h; cases h
  obtain ⟨s, h1, h2⟩ := read_print y b hb hb' [] he
  obtain ⟨t, h3, h4⟩ := read_print z b hb hb' [] he
  rw [h, h3] at h1
  cases h1
  rw [h2] at h4
  injection h4 with h4
  injection h4

end Verif.Num
