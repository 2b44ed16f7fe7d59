import Verif.Strtoul.Model

/-
C236: numbers are read exactly, and those that are too big are reported.
C237: the text that follows a number is found.
-/
namespace Verif.Strtoul

/-! ### The specification -/

/-- The character `c` is the digit `d`. -/
def IsDigit (c d : Nat) : Prop :=
  (d < 10 ∧ c = 48 + d) ∨ (10 ≤ d ∧ d < 36 ∧ (c = 55 + d ∨ c = 87 + d))

/-- The text `t` has the digits `ds` in base `b`. -/
inductive Writes (b : Nat) : List Nat → List Nat → Prop
  | nil : Writes b [] []
  | cons {c d t ds} : IsDigit c d → d < b → Writes b t ds → Writes b (c :: t) (d :: ds)

/-- The number with these digits. -/
def num (b : Nat) (ds : List Nat) : Nat := ds.foldl (fun r d => r * b + d) 0

/-- No digit follows. -/
def Ends (b : Nat) (rest : List Nat) : Prop :=
  ∀ c ∈ rest.head?, c < 256 ∧ ∀ d < b, ¬ IsDigit c d

/-! ### Digits -/

private theorem digit_val (b c d : Nat) (hb : b ≤ 36) (h : IsDigit c d) (hd : d < b) :
    digitOf b c = d := by
  unfold digitOf valueOf
  unfold IsDigit at h
  split
  · omega
  · repeat' split
    all_goals omega

private theorem not_digit (b c : Nat) (hb : b ≤ 36) (hc : c < 256)
    (h : ∀ d < b, ¬ IsDigit c d) : ¬ digitOf b c < b := by
  intro hlt
  apply h _ hlt
  unfold digitOf at hlt ⊢
  unfold IsDigit
  split at hlt
  · rename_i h8
    rw [if_pos h8]
    omega
  · rename_i h8
    rw [if_neg h8]
    unfold valueOf at hlt ⊢
    repeat' split
    all_goals first | omega | (simp_all; omega)

private theorem fold_ge (b : Nat) (hb : 1 ≤ b) : ∀ (ds : List Nat) (r : Nat),
    r ≤ ds.foldl (fun r d => r * b + d) r := by
  intro ds
  induction ds with
  | nil => intro r; exact Nat.le_refl r
  | cons d ds ih =>
    intro r
    have h1 : r * 1 ≤ r * b := Nat.mul_le_mul_left r hb
    exact Nat.le_trans (by omega) (ih (r * b + d))

private theorem not_tooBig (b r d : Nat) (hb : 1 ≤ b) (hd : d < b)
    (h : r * b + d + b * b ≤ M - 1) : tooBig b r d = false := by
  have h1 : (r + b) * b ≤ M - 1 := by rw [Nat.add_mul]; omega
  have h2 : r + b ≤ (M - 1) / b := (Nat.le_div_iff_mul_le (by omega)).2 h1
  simp only [tooBig, decide_eq_false_iff_not]
  omega

private theorem tooBig_of (b r d : Nat) (hb : 1 ≤ b ∧ b ≤ 36) (hd : d < b)
    (h : M - 1 < r * b + d) : tooBig b r d = true := by
  have h3 : (M - 1) / b < r + d := by
    apply Nat.lt_of_not_le
    intro hle
    have h1 : (r + d) * b ≤ M - 1 := (Nat.le_div_iff_mul_le (by omega)).1 hle
    rw [Nat.add_mul] at h1
    have h2 : d * 1 ≤ d * b := Nat.mul_le_mul_left d hb.1
    omega
  have hM : M = 2 ^ 64 := rfl
  have h4 : 36 ≤ (M - 1) / b := (Nat.le_div_iff_mul_le (by omega)).2 (by omega)
  simp only [tooBig, decide_eq_true_eq]
  omega

/-! ### The loop -/

private theorem loop_exact (b : Nat) (hb : 2 ≤ b ∧ b ≤ 36) (string rest : List Nat)
    (he : Ends b rest) {t ds : List Nat} (h : Writes b t ds) : ∀ (r : Nat) (any : Bool),
    ds.foldl (fun r d => r * b + d) r + b * b ≤ M - 1 →
    loop b string (t ++ rest) r false any =
      ⟨ds.foldl (fun r d => r * b + d) r, false, false,
        if any || !ds.isEmpty then rest else string⟩ := by
  induction h with
  | nil =>
    intro r any _
    cases rest with
    | nil => simp [loop]
    | cons c p =>
      have := he c (by simp)
      simp [loop, not_digit b c hb.2 this.1 this.2]
  | @cons c d t ds hc hd _ ih =>
    intro r any hm
    rw [List.foldl_cons] at hm
    have hge := fold_ge b (by omega) ds (r * b + d)
    have hnb := not_tooBig b r d (by omega) hd (by omega)
    have hp : push b r d = r * b + d := by
      unfold push
      rw [hnb]
      have : M = 2 ^ 64 := rfl
      exact Nat.mod_eq_of_lt (by simp only [Bool.false_eq_true, if_false]; omega)
    rw [List.cons_append, loop, digit_val b c d hb.2 hc hd, if_pos hd, hp, hnb,
      Bool.false_or, ih _ _ hm]
    simp

/-- An error stays. -/
private theorem loop_stays (b : Nat) (string : List Nat) : ∀ (p : List Nat) (r : Nat) (any : Bool),
    (loop b string p r true any).erange = true := by
  intro p
  induction p with
  | nil => intro r any; rfl
  | cons c p ih =>
    intro r any
    rw [loop]
    split
    · rw [Bool.true_or]; exact ih _ _
    · rfl

private theorem loop_over (b : Nat) (hb : 2 ≤ b ∧ b ≤ 36) (string rest : List Nat)
    {t ds : List Nat} (h : Writes b t ds) : ∀ (r : Nat) (any : Bool), r ≤ M - 1 →
    M - 1 < ds.foldl (fun r d => r * b + d) r →
    (loop b string (t ++ rest) r false any).erange = true := by
  induction h with
  | nil => intro r any hr hm; simp at hm; omega
  | @cons c d t ds hc hd _ ih =>
    intro r any hr hm
    rw [List.foldl_cons] at hm
    rw [List.cons_append, loop, digit_val b c d hb.2 hc hd, if_pos hd, Bool.false_or]
    by_cases hbig : tooBig b r d = true
    · rw [hbig]; exact loop_stays ..
    · have hf : tooBig b r d = false := by simpa using hbig
      have hsmall : r * b + d ≤ M - 1 := by
        apply Nat.le_of_not_lt
        intro hlt
        exact hbig (tooBig_of b r d (by omega) hd hlt)
      have hM : M = 2 ^ 64 := rfl
      have hp : push b r d = r * b + d := by
        unfold push
        rw [hf]
        exact Nat.mod_eq_of_lt (by simp only [Bool.false_eq_true, if_false]; omega)
      rw [hf, hp]
      exact ih _ _ hsmall hm

/-! ### The beginning -/

private theorem start (b : Nat) (hb : 2 ≤ b ∧ b ≤ 36) (blanks : List Nat)
    (hbl : ∀ c ∈ blanks, isSpace c = true) (c d : Nat) (t : List Nat) (hc : IsDigit c d)
    (h16 : b = 16 → d ≠ 0) :
    strtoul b (blanks ++ c :: t) = loop b (blanks ++ c :: t) (c :: t) 0 false false := by
  have hs : isSpace c = false := by
    unfold IsDigit at hc
    simp [isSpace]
    omega
  have hdrop : (blanks ++ c :: t).dropWhile isSpace = c :: t := by
    rw [List.dropWhile_append_of_pos hbl, List.dropWhile_cons_of_neg (by simp [hs])]
  have hm : c ≠ 45 := by unfold IsDigit at hc; omega
  unfold strtoul
  simp only [hdrop]
  rw [if_neg (by simp; omega)]
  have hp : pick b (c :: t) = (b, c :: t, false) := by
    unfold pick
    rw [if_neg (by omega)]
    by_cases e : b = 16
    · have hd := h16 e
      have : c ≠ 48 := by unfold IsDigit at hc; omega
      simp [e, this]
    · rw [if_neg e]
  rw [hp]

/-! ### C236 and C237 -/

/-- C236 and C237, in part: blanks and a number in base `b` give that number, no
    error and the text that follows, if the number is less than `2^64 - b^2`, and
    if it does not begin with a zero when the base is 16.  Missing: the numbers
    next to the greatest one, see `greatest_fails`, and those zeros, see
    `tail_fails`. -/
theorem read_partial (b : Nat) (hb : 2 ≤ b ∧ b ≤ 36) (blanks t ds rest : List Nat)
    (hbl : ∀ c ∈ blanks, isSpace c = true) (hw : Writes b t ds) (hne : ds ≠ [])
    (he : Ends b rest) (h16 : b = 16 → ds.head? ≠ some 0) (hm : num b ds + b * b < 2 ^ 64) :
    strtoul b (blanks ++ (t ++ rest)) = ⟨num b ds, false, false, rest⟩ := by
  have hM : M = 2 ^ 64 := rfl
  cases hw with
  | nil => exact absurd rfl hne
  | @cons c d t ds hc hd hw =>
    rw [List.cons_append, start b hb blanks hbl c d _ hc (by simpa using h16),
      ← List.cons_append, loop_exact b hb _ rest he (.cons hc hd hw) 0 false
        (by unfold num at hm; omega)]
    simp [num]

private theorem blanks_drop (blanks : List Nat) (hbl : ∀ c ∈ blanks, isSpace c = true)
    (t : List Nat) : (blanks ++ 48 :: t).dropWhile isSpace = 48 :: t := by
  rw [List.dropWhile_append_of_pos hbl, List.dropWhile_cons_of_neg (by decide)]

/-- C236 and C237, in part: `0x` in front of digits, with base 0 or 16. -/
theorem hex_partial (b x : Nat) (hb : b = 0 ∨ b = 16) (hx : x = 120 ∨ x = 88)
    (blanks t ds rest : List Nat) (hbl : ∀ c ∈ blanks, isSpace c = true) (hw : Writes 16 t ds)
    (hne : ds ≠ []) (he : Ends 16 rest) (hm : num 16 ds + 256 < 2 ^ 64) :
    strtoul b (blanks ++ 48 :: x :: (t ++ rest)) = ⟨num 16 ds, false, false, rest⟩ := by
  have hM : M = 2 ^ 64 := rfl
  have hp : pick b (48 :: x :: (t ++ rest)) = (16, t ++ rest, false) := by
    rcases hb with rfl | rfl <;> rcases hx with rfl | rfl <;> simp [pick, isX]
  unfold strtoul
  simp only [blanks_drop blanks hbl]
  rw [if_neg (by simp; omega), hp,
    loop_exact 16 (by omega) _ rest he hw 0 false (by unfold num at hm; omega)]
  simp [num, hne]

/-- C236 and C237, in part: with base 0, a zero in front of octal digits, or
    alone. -/
theorem octal_partial (blanks t ds rest : List Nat) (hbl : ∀ c ∈ blanks, isSpace c = true)
    (hw : Writes 8 t ds) (he : Ends 8 rest) (hx : isX (t ++ rest) = false)
    (hm : num 8 ds + 64 < 2 ^ 64) :
    strtoul 0 (blanks ++ 48 :: (t ++ rest)) = ⟨num 8 ds, false, false, rest⟩ := by
  have hM : M = 2 ^ 64 := rfl
  have hp : pick 0 (48 :: (t ++ rest)) = (8, t ++ rest, true) := by simp [pick, hx]
  unfold strtoul
  simp only [blanks_drop blanks hbl]
  rw [if_neg (by simp), hp,
    loop_exact 8 (by omega) _ rest he hw 0 true (by unfold num at hm; omega)]
  simp [num]

/-- C236 and C237, in part: with base 0, decimal digits that do not begin with a
    zero are read as in base 10. -/
theorem decimal_partial (blanks t ds rest : List Nat) (hbl : ∀ c ∈ blanks, isSpace c = true)
    (hw : Writes 10 t ds) (hne : ds ≠ []) (h0 : ds.head? ≠ some 0) (he : Ends 10 rest)
    (hm : num 10 ds + 100 < 2 ^ 64) :
    strtoul 0 (blanks ++ (t ++ rest)) = ⟨num 10 ds, false, false, rest⟩ := by
  rw [← read_partial 10 (by omega) blanks t ds rest hbl hw hne he (by omega) (by omega)]
  cases hw with
  | nil => exact absurd rfl hne
  | @cons c d t ds hc hd hw =>
    have hd0 : d ≠ 0 := by simpa using h0
    have h48 : c ≠ 48 := by unfold IsDigit at hc; omega
    have hs : isSpace c = false := by
      unfold IsDigit at hc
      simp [isSpace]
      omega
    have hdrop : (blanks ++ c :: (t ++ rest)).dropWhile isSpace = c :: (t ++ rest) := by
      rw [List.dropWhile_append_of_pos hbl, List.dropWhile_cons_of_neg (by simp [hs])]
    unfold strtoul
    simp [hdrop, pick, h48]

/-- C236: a number that is too big is always reported. -/
theorem reported (b : Nat) (hb : 2 ≤ b ∧ b ≤ 36) (blanks t ds rest : List Nat)
    (hbl : ∀ c ∈ blanks, isSpace c = true) (hw : Writes b t ds)
    (h16 : b = 16 → ds.head? ≠ some 0) (hm : 2 ^ 64 ≤ num b ds) :
    (strtoul b (blanks ++ (t ++ rest))).erange = true := by
  have hM : M = 2 ^ 64 := rfl
  cases hw with
  | nil => simp [num] at hm
  | @cons c d t ds hc hd hw =>
    rw [List.cons_append, start b hb blanks hbl c d _ hc (by simpa using h16),
      ← List.cons_append]
    exact loop_over b hb _ rest (.cons hc hd hw) 0 false (by omega)
      (by unfold num at hm; omega)

/-- The codes of a text. -/
def codes (s : String) : List Nat := s.toList.map Char.toNat

/-- C236 fails: 18446744073709551615 is `ULONG_MAX`, but it is reported as too big,
    and another number is answered; and what is answered for a number that is too
    big is not `ULONG_MAX`. -/
theorem greatest_fails :
    strtoul 10 (codes "18446744073709551615") = ⟨2 ^ 64 - 5, true, false, []⟩ ∧
    num 10 [1, 8, 4, 4, 6, 7, 4, 4, 0, 7, 3, 7, 0, 9, 5, 5, 1, 6, 1, 5] = 2 ^ 64 - 1 ∧
    strtoul 10 (codes "18446744073709551616") = ⟨2 ^ 64 - 4, true, false, []⟩ := by
  decide +kernel

/-- C237 fails: `0` is not found to be a number in base 16, and it is in the other
    bases. -/
theorem tail_fails :
    strtoul 16 (codes "0") = ⟨0, false, false, codes "0"⟩ ∧
    strtoul 10 (codes "0") = ⟨0, false, false, []⟩ ∧
    strtoul 0 (codes "0") = ⟨0, false, false, []⟩ := by
  decide +kernel

example : strtoul 0 (codes " 0x1Fg") = ⟨31, false, false, codes "g"⟩ ∧
    strtoul 36 (codes "zZ-") = ⟨35 * 36 + 35, false, false, codes "-"⟩ ∧
    strtoul 0 (codes "0178") = ⟨15, false, false, codes "8"⟩ ∧
    strtoul 10 (codes "-1") = ⟨0, false, true, codes "-1"⟩ := by
  decide +kernel

example : Writes 16 (codes "fF") [15, 15] ∧ Ends 16 (codes "g") ∧
    num 16 [15, 15] + 16 * 16 < 2 ^ 64 := by
  refine ⟨.cons (.inr ⟨by decide, by decide, by decide⟩) (by decide)
    (.cons (.inr ⟨by decide, by decide, by decide⟩) (by decide) .nil), ?_, by decide⟩
  intro c hc
  have : c = 103 := by simpa [codes] using hc.symm
  subst this
  refine ⟨by decide, fun d hd h => ?_⟩
  unfold IsDigit at h
  omega

end Verif.Strtoul
