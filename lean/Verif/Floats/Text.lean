import Verif.Floats.Result
import Mathlib.Data.List.TakeWhile

/-!
# Printing Floats: the text that is read back
-/

namespace Verif.Floats

/-- The number that digits stand for, most significant first. -/
def num (ds : List ℕ) : ℕ := ds.foldl (fun a d => 10 * a + d) 0

theorem foldl_num (ds : List ℕ) : ∀ a, ds.foldl (fun a d => 10 * a + d) a = a * 10 ^ ds.length + num ds := by
  unfold num
  induction ds with
  | nil => intro a; simp
  | cons d ds ih =>
    intro a
    rw [List.foldl_cons, List.foldl_cons, ih, ih (10 * 0 + d), List.length_cons, pow_succ]
    ring

theorem num_nil : num [] = 0 := rfl

theorem num_cons (d : ℕ) (ds : List ℕ) : num (d :: ds) = d * 10 ^ ds.length + num ds := by
  rw [num, List.foldl_cons, foldl_num]
  simp

theorem num_append (a b : List ℕ) : num (a ++ b) = num a * 10 ^ b.length + num b := by
  induction a with
  | nil => simp [num_nil]
  | cons d a ih => rw [List.cons_append, num_cons, num_cons, ih, List.length_append, pow_add]; ring

theorem num_replicate (n : ℕ) : num (List.replicate n 0) = 0 := by
  induction n with
  | zero => rfl
  | succ n ih => rw [List.replicate_succ, num_cons, ih]; simp

theorem num_reverse (ds : List ℕ) : num ds.reverse = Nat.ofDigits 10 ds := by
  induction ds with
  | nil => rfl
  | cons d ds ih => rw [List.reverse_cons, num_append, ih, Nat.ofDigits_cons, num_cons, num_nil]; simp; ring

theorem num_decimal (d : ℕ) : num (decimal d) = d := by
  rw [decimal, num_reverse, Nat.ofDigits_digits]

def Small (ds : List ℕ) : Prop := ∀ d ∈ ds, d < 10

theorem small_decimal (d : ℕ) : Small (decimal d) := by
  intro x hx
  rw [decimal, List.mem_reverse] at hx
  exact Nat.digits_lt_base (by norm_num) hx

theorem digitValue_char {d : ℕ} (h : d < 10) : digitValue (char d) = some d := by
  revert h
  revert d
  decide

theorem readInt_digits (sgn : ℚ) (ds : List ℕ) (h : Small ds) (rest : List Char) : ∀ i,
    readInt sgn (ds.map char ++ rest) i = readInt sgn rest (i * 10 ^ ds.length + sgn * num ds) := by
  induction ds with
  | nil => intro i; simp [num_nil]
  | cons d ds ih =>
    intro i
    rw [List.map_cons, List.cons_append, readInt, digitValue_char (h d (by simp))]
    dsimp only
    rw [ih (fun x hx => h x (by simp [hx])), num_cons, List.length_cons]
    congr 1
    push_cast
    ring

theorem readFrac_digits (ds : List ℕ) (h : Small ds) (rest : List Char) : ∀ s i,
    readFrac (ds.map char ++ rest) s i = readFrac rest (s / 10 ^ ds.length) (i + s * num ds / 10 ^ ds.length) := by
  induction ds with
  | nil => intro s i; simp [num_nil]
  | cons d ds ih =>
    intro s i
    rw [List.map_cons, List.cons_append, readFrac, digitValue_char (h d (by simp))]
    dsimp only
    rw [ih (fun x hx => h x (by simp [hx])), num_cons, List.length_cons]
    congr 1
    · rw [pow_succ]; field_simp
    · push_cast; rw [pow_succ]; field_simp; ring

theorem readExp_digits (ds : List ℕ) (h : Small ds) : ∀ e, readExp (ds.map char) e = e * 10 ^ ds.length + num ds := by
  induction ds with
  | nil => intro e; simp [num_nil, readExp]
  | cons d ds ih =>
    intro e
    rw [List.map_cons, readExp, digitValue_char (h d (by simp))]
    dsimp only
    rw [ih (fun x hx => h x (by simp [hx])), num_cons, List.length_cons, pow_succ]
    ring

theorem intPart_eq (n : ℕ) : ∀ ds : List ℕ, intPart n ds = ((ds.take n ++ List.replicate (n - ds.length) 0).map char, ds.drop n) := by
  induction n with
  | zero => intro ds; simp [intPart]
  | succ n ih =>
    intro ds
    cases ds with
    | nil => rw [intPart]; simp only [ih]; simp [List.replicate_succ]; decide
    | cons d ds => rw [intPart]; simp only [ih]; simp

theorem sig_spec (d : ℕ) (hd : 0 < d) : ∃ sig t, ((decimal d).reverse.dropWhile (· = 0)).reverse = sig ∧ Small sig ∧ sig ≠ [] ∧
    num sig * 10 ^ t = d ∧ sig.length + t = (Nat.digits 10 d).length := by
  have hsplit := List.takeWhile_append_dropWhile (p := fun z : ℕ => decide (z = 0)) (l := (decimal d).reverse)
  have hz : (decimal d).reverse.takeWhile (fun z => decide (z = 0)) = List.replicate ((decimal d).reverse.takeWhile (fun z => decide (z = 0))).length 0 := by
    rw [List.eq_replicate_iff]
    refine ⟨rfl, ?_⟩
    intro b hb
    simpa using List.mem_takeWhile_imp hb
  generalize hs : (decimal d).reverse.dropWhile (fun z => decide (z = 0)) = w at hsplit ⊢
  generalize ht : ((decimal d).reverse.takeWhile (fun z => decide (z = 0))).length = t at hz
  rw [hz] at hsplit
  have hrev : decimal d = w.reverse ++ List.replicate t 0 := by
    have := congrArg List.reverse hsplit
    rw [List.reverse_append, List.reverse_reverse, List.reverse_replicate] at this
    exact this.symm
  have hnum := num_decimal d
  rw [hrev, num_append, num_replicate, List.length_replicate, Nat.add_zero] at hnum
  refine ⟨w.reverse, t, rfl, ?_, ?_, hnum, ?_⟩
  · intro z hz
    exact small_decimal d z (by rw [hrev]; exact List.mem_append_left _ hz)
  · intro h
    rw [h, num_nil] at hnum
    omega
  · have := congrArg List.length hrev
    rw [decimal, List.length_reverse, List.length_append, List.length_replicate] at this
    exact this.symm

/-- The sign, as it is printed and as it is read. -/
def signText (negative : Bool) : List Char := if negative then ['-'] else []
def sign (negative : Bool) : ℚ := if negative then -1 else 1

theorem char_ne_minus {d : ℕ} (h : d < 10) : char d ≠ '-' := by
  revert h
  revert d
  decide

theorem read_point (negative : Bool) (A B : List ℕ) (hA : Small A) (hB : Small B) (hA0 : A ≠ []) (tail : List Char)
    (ht : ∀ c ∈ tail.head?, digitValue c = none) :
    readFrom (signText negative ++ (A.map char ++ '.' :: (B.map char ++ tail))) =
      (match (generalizing := false) tail with
        | [] => (sign negative * (num A + num B / 10 ^ B.length), true)
        | c :: cs =>
          if c.toUpper ≠ 'E' then (sign negative * (num A + num B / 10 ^ B.length), true)
          else match (generalizing := false) cs with
            | [] => (sign negative * (num A + num B / 10 ^ B.length), false)
            | c :: cs' =>
              (sign negative * (num A + num B / 10 ^ B.length) *
                (10 : ℚ) ^ (if c = '-' then -(readExp (if c = '+' ∨ c = '-' then cs' else cs) 0 : ℤ)
                  else (readExp (if c = '+' ∨ c = '-' then cs' else cs) 0 : ℤ)), true)) := by
  obtain ⟨a, A', rfl⟩ : ∃ a A', A = a :: A' := by
    cases A with
    | nil => exact absurd rfl hA0
    | cons a A' => exact ⟨a, A', rfl⟩
  have ha : a < 10 := hA a (by simp)
  have hfrac : ∀ s i, readFrac (B.map char ++ tail) s i = (i + s * num B / 10 ^ B.length, tail) := by
    intro s i
    rw [readFrac_digits B hB]
    cases tail with
    | nil => rw [readFrac]
    | cons c cs => rw [readFrac, ht c (by simp)]
  have hint : ∀ s, readInt s ((a :: A').map char ++ '.' :: (B.map char ++ tail)) 0 = (s * num (a :: A'), '.' :: (B.map char ++ tail)) := by
    intro s
    rw [readInt_digits s _ hA, readInt, show digitValue '.' = none from rfl]
    simp
  have key : ∀ s : ℚ, s * num (a :: A') + s * num B / 10 ^ B.length = s * (num (a :: A') + num B / 10 ^ B.length) := by
    intro s; ring
  rw [List.map_cons, List.cons_append] at hint ⊢
  have hdv := digitValue_char ha
  have hne := char_ne_minus ha
  cases negative with
  | true =>
    rw [signText, if_pos rfl, List.cons_append, List.nil_append, readFrom]
    simp only [if_true, hdv, Option.isNone_some, Bool.false_eq_true, false_and, if_false, hint, hfrac, key]
    unfold sign
    cases tail with
    | nil => rfl
    | cons c cs => cases cs <;> rfl
  | false =>
    rw [signText, if_neg (by simp), List.nil_append, readFrom]
    simp only [hne, hdv, Option.isNone_some, Bool.false_eq_true, false_and, if_false, hint, hfrac, key]
    unfold sign
    cases tail with
    | nil => rfl
    | cons c cs => cases cs <;> rfl

theorem digitValue_printInt (i : ℤ) : readExp (match printInt i with | [] => [] | c :: cs => if c = '+' ∨ c = '-' then cs else c :: cs) 0 = i.natAbs ∧
    printInt i ≠ [] ∧ ((printInt i).head? = some '-' ↔ i < 0) := by
  unfold printInt
  by_cases h : i < 0
  · rw [if_pos h]
    refine ⟨?_, by simp, by simp [h]⟩
    dsimp only
    rw [if_pos (by simp), readExp_digits _ (small_decimal _), num_decimal]
    simp
  · rw [if_neg h]
    by_cases h0 : i = 0
    · rw [if_pos h0, h0]
      decide
    · rw [if_neg h0]
      have hne : decimal i.natAbs ≠ [] := by
        intro hc
        have := num_decimal i.natAbs
        rw [hc, num_nil] at this
        omega
      have hex := readExp_digits (decimal i.natAbs) (small_decimal _) 0
      rw [num_decimal] at hex
      have hsm := small_decimal i.natAbs
      cases hd : decimal i.natAbs with
      | nil => exact absurd hd hne
      | cons a A =>
        rw [hd] at hex hsm
        rw [List.map_cons] at hex ⊢
        have ha : a < 10 := hsm a (by simp)
        have h1 := char_ne_minus ha
        have h2 : char a ≠ '+' := by
          revert ha
          clear * -
          revert a
          decide
        refine ⟨?_, by simp, by simp [h1]; omega⟩
        dsimp only
        rw [if_neg (by simp [h1, h2]), hex]
        simp

/-- Texts without exponent. -/
theorem read_plain (negative small : Bool) (letter : Char) (d : ℕ) (e : ℤ) (hd : 0 < d) (hs : small = true ∨ 1 ≤ e) :
    readFrom (signText negative ++ layout letter small false d e) = (sign negative * shown d e, true) := by
  obtain ⟨sig, t, h1, h2, h3, h4, h5⟩ := sig_spec d hd
  obtain ⟨s0, sig', rfl⟩ : ∃ a A', sig = a :: A' := by
    cases sig with
    | nil => exact absurd rfl h3
    | cons a A' => exact ⟨a, A', rfl⟩
  have hsh : shown d e = num (s0 :: sig') * (10 : ℚ) ^ (e - (s0 :: sig').length) := by
    unfold shown
    rw [← h5]
    nth_rewrite 1 [← h4]
    push_cast
    rw [mul_assoc, ← zpow_natCast, ← zpow_add₀ (by norm_num)]
    congr 2
    ring
  rw [hsh]
  unfold layout
  rw [h1]
  simp only [intPart_eq, Bool.not_false, Bool.and_true, Bool.false_eq_true, if_false, List.append_nil]
  by_cases he : 1 ≤ e
  · have hz : (if small = true then (1 - e).toNat else 0) = 0 := by split <;> omega
    obtain ⟨n, hn⟩ : ∃ n : ℕ, e = n + 1 := ⟨(e - 1).toNat, by omega⟩
    have hc : max 1 (e + ((0 : ℕ) : ℤ)).toNat = n + 1 := by omega
    rw [hz]
    simp only [hc, List.nil_append, if_true]
    generalize hA : (s0 :: sig').take (n + 1) ++ List.replicate (n + 1 - (s0 :: sig').length) 0 = A
    have hAs : Small A := by
      intro z hz
      rw [← hA, List.mem_append] at hz
      rcases hz with hz | hz
      · exact h2 z (List.mem_of_mem_take hz)
      · rw [List.eq_of_mem_replicate hz]; norm_num
    have hA0 : A ≠ [] := by rw [← hA]; simp
    have hBs : Small ((s0 :: sig').drop (n + 1)) := fun z hz => h2 z (List.mem_of_mem_drop hz)
    cases hB : (s0 :: sig').drop (n + 1) with
    | nil =>
      dsimp only
      have := read_point negative A [0] hAs (by intro z hz; simp at hz; omega) hA0 [] (by simp)
      rw [List.append_nil, List.map_singleton] at this
      rw [show (['.', '0'] : List Char) = '.' :: [char 0] from rfl, this]
      dsimp only
      have hl : (s0 :: sig').length ≤ n + 1 := List.drop_eq_nil_iff.mp hB
      rw [← hA, List.take_of_length_le hl, num_append, num_replicate, List.length_replicate, num_cons 0, num_nil, hn]
      congr 2
      push_cast
      rw [← zpow_natCast]
      push_cast [Nat.cast_sub hl]
      simp
    | cons b B =>
      rw [hB] at hBs
      dsimp only
      have hl : n + 1 < (s0 :: sig').length := by
        by_contra hc
        rw [List.drop_eq_nil_of_le (by omega)] at hB
        cases hB
      have := read_point negative A (b :: B) hAs hBs hA0 [] (by simp)
      rw [List.append_nil] at this
      rw [List.singleton_append, this]
      dsimp only
      rw [show n + 1 - (s0 :: sig').length = 0 by omega, List.replicate_zero, List.append_nil] at hA
      have hsplit := List.take_append_drop (n + 1) (s0 :: sig')
      rw [hA, hB] at hsplit
      have hlen := congrArg List.length hsplit
      have hAl : A.length = n + 1 := by rw [← hA, List.length_take]; omega
      rw [List.length_append] at hlen
      rw [← hsplit, num_append, hn, List.length_append, hAl]
      congr 2
      push_cast
      rw [show (n : ℤ) + 1 - (n + 1 + ((b :: B).length : ℤ)) = -((b :: B).length : ℤ) by ring, zpow_neg, zpow_natCast]
      field_simp
  · have hs' : small = true := by rcases hs with h | h; exact h; omega
    obtain ⟨n, hn⟩ : ∃ n : ℕ, (1 - e).toNat = n + 1 := ⟨(-e).toNat, by omega⟩
    have hc : max 1 (e + ((n + 1 : ℕ) : ℤ)).toNat = 1 := by omega
    rw [hs', if_pos rfl, hn]
    simp only [hc]
    have hrep : List.replicate n '0' = (List.replicate n 0).map char := by rw [List.map_replicate]; rfl
    rw [show (List.map char (List.take 1 (s0 :: sig') ++ List.replicate (1 - (s0 :: sig').length) 0)) = [char s0] by simp,
      show (s0 :: sig').drop 1 = sig' by simp]
    suffices h : ∀ w, w = sig'.map char →
        readFrom (signText negative ++ ('0' :: '.' :: List.replicate n '0' ++ [char s0] ++ w)) = _ from
      h _ (by clear * -; cases sig' <;> rfl)
    intro w hw
    rw [hw, hrep]
    have := read_point negative [0] (List.replicate n 0 ++ (s0 :: sig')) (by intro z hz; simp at hz; omega)
      (by
        intro z hz
        rw [List.mem_append] at hz
        rcases hz with hz | hz
        · rw [List.eq_of_mem_replicate hz]; norm_num
        · exact h2 z hz) (by simp) [] (by simp)
    rw [show signText negative ++ ('0' :: '.' :: (List.replicate n 0).map char ++ [char s0] ++ sig'.map char) =
      signText negative ++ (([0] : List ℕ).map char ++ '.' :: ((List.replicate n 0 ++ (s0 :: sig')).map char ++ [])) by
        simp; rfl, this]
    dsimp only
    rw [num_append, num_replicate, num_cons 0, num_nil, List.length_append, List.length_replicate]
    congr 2
    rw [show e - ((s0 :: sig').length : ℤ) = -((n + (s0 :: sig').length : ℕ) : ℤ) by push_cast; omega, zpow_neg, zpow_natCast]
    push_cast
    simp [div_eq_mul_inv]

/-- Texts with exponent: what is read depends on the letter. -/
theorem read_exponential (negative small : Bool) (letter : Char) (hl : digitValue letter = none) (d : ℕ) (e : ℤ) (hd : 0 < d) :
    readFrom (signText negative ++ layout letter small true d e) =
      (if letter.toUpper = 'E' then sign negative * shown d e else sign negative * (shown d e / (10 : ℚ) ^ (e - 1)), true) := by
  obtain ⟨sig, t, h1, h2, h3, h4, h5⟩ := sig_spec d hd
  obtain ⟨s0, sig', rfl⟩ : ∃ a A', sig = a :: A' := by
    cases sig with
    | nil => exact absurd rfl h3
    | cons a A' => exact ⟨a, A', rfl⟩
  have hsh : shown d e = num (s0 :: sig') * (10 : ℚ) ^ (e - (s0 :: sig').length) := by
    unfold shown
    rw [← h5]
    nth_rewrite 1 [← h4]
    push_cast
    rw [mul_assoc, ← zpow_natCast, ← zpow_add₀ (by norm_num)]
    congr 2
    ring
  obtain ⟨p1, p2, p3⟩ := digitValue_printInt (e - 1)
  have h10 : (10 : ℚ) ≠ 0 := by norm_num
  obtain ⟨B, hBs, hBl, hBv⟩ : ∃ B, Small B ∧
      B = (if sig' = [] then [0] else sig') ∧
      (num [s0] : ℚ) + num B / 10 ^ B.length = shown d e / (10 : ℚ) ^ (e - 1) := by
    rw [hsh, mul_div_assoc, ← zpow_sub₀ h10, num_cons s0 sig']
    have hs0 : num [s0] = s0 := by rw [num_cons, num_nil]; simp
    rw [hs0]
    cases sig' with
    | nil =>
      refine ⟨[0], by intro z hz; simp at hz; omega, rfl, ?_⟩
      simp [num_cons, num_nil]
    | cons b B =>
      refine ⟨b :: B, fun z hz => h2 z (by simp at hz ⊢; tauto), rfl, ?_⟩
      rw [show e - (((s0 :: b :: B).length : ℕ) : ℤ) - (e - 1) = -((b :: B).length : ℤ) by push_cast [List.length_cons]; ring, zpow_neg, zpow_natCast]
      push_cast
      field_simp
  have hlay : layout letter small true d e = [s0].map char ++ '.' :: (B.map char ++ letter :: printInt (e - 1)) := by
    unfold layout
    rw [h1]
    simp only [intPart_eq, Bool.not_true, Bool.and_false, Bool.false_eq_true, if_false, if_true]
    rw [show (List.map char (List.take 1 (s0 :: sig') ++ List.replicate (1 - (s0 :: sig').length) 0)) = [char s0] by simp,
      show (s0 :: sig').drop 1 = sig' by simp]
    rw [hBl]
    clear * -
    cases sig' <;> simp
    rfl
  rw [hlay, read_point negative [s0] B (fun z hz => h2 z (by simp at hz ⊢; tauto)) hBs (by simp) _ (by
    intro c hc
    rw [List.head?_cons, Option.mem_some_iff] at hc
    rw [← hc]
    exact hl)]
  dsimp only
  rw [hBv]
  by_cases hE : letter.toUpper = 'E'
  · rw [if_neg (by simpa using hE), if_pos hE]
    have hm1 : sign negative * (shown d e / (10 : ℚ) ^ (e - 1)) * (10 : ℚ) ^ (e - 1) = sign negative * shown d e := by
      have : (10 : ℚ) ^ (e - 1) ≠ 0 := zpow_ne_zero _ h10
      field_simp
    cases hp : printInt (e - 1) with
    | nil => exact absurd hp p2
    | cons c cs =>
      rw [hp] at p1 p3
      dsimp only at p1 ⊢
      rw [p1]
      rw [List.head?_cons, Option.some_inj] at p3
      by_cases hc : c = '-'
      · have := p3.mp hc
        rw [if_pos hc, show -((e - 1).natAbs : ℤ) = e - 1 by omega, hm1]
      · have : ¬ e - 1 < 0 := fun h => hc (p3.mpr h)
        rw [if_neg hc, show ((e - 1).natAbs : ℤ) = e - 1 by omega, hm1]
  · rw [if_pos (by simpa using hE), if_neg hE]

end Verif.Floats
