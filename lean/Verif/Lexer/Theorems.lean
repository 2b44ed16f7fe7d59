import Verif.Lexer.Store
import Mathlib.Tactic.ByContra

/-!
# Properties of reading text
-/

namespace Verif.Lexer

open Verif.Parser (Tok Ex G IsCode IsTemps readCode nest)
open Verif.Num (repr code)

/-! ## Every text is read to its end -/

/-- Whatever the text, the lexer reads it to its end. -/
theorem lex_ends (cs : List Char) : ∃ ts bad, lex cs = some (ts, bad) := by
  obtain ⟨⟨ts, b⟩, h⟩ := lexGo_ends (3 * cs.length) cs (weight_le cs)
  exact ⟨ts, b, h⟩

/-- Every round of the lexer makes what is left smaller, so that no token is read twice. -/
theorem step_shorter (c : Char) (r : List Char) : weight (step c r).rest < weight (c :: r) := step_weight c r

/-! ## What separates tokens -/

/-- White space between two texts changes nothing: the tokens are those of the one and
then those of the other. -/
theorem white_separates {s : Char} (hs : s = ' ' ∨ s = '\t' ∨ s = '\n' ∨ s = '\r' ∨ s = '\x0c')
    {u r : List Char} {ts us : List LTok} {b : Bool} (hu : lex u = some (ts, false)) (hr : lex r = some (us, b)) :
    lex (u ++ s :: r) = some (ts ++ us, b) := by
  have hw : isWhite s = true := by rcases hs with rfl | rfl | rfl | rfl | rfl <;> decide
  exact lex_sep (white_w hw) hu ((lex_white hw r).trans hr)

theorem scanComment_read : ∀ (c r : List Char), '"' ∉ c → scanComment (c ++ '"' :: r) = ⟨none, false, r⟩
  | [], r, _ => by simp [scanComment]
  | a :: c, r, h => by
    have ha : a ≠ '"' := by rintro rfl; simp at h
    rw [List.cons_append, scanComment, if_neg ha]
    exact scanComment_read c r (by intro hc; exact h (by simp [hc]))

theorem lex_comment (c r : List Char) (h : '"' ∉ c) : lex ('"' :: c ++ '"' :: r) = lex r := by
  rw [List.cons_append, lex_cons]
  have : step '"' (c ++ '"' :: r) = ⟨none, false, r⟩ := by
    rw [← scanComment_read c r h]
    simp [step, isWhite, isDigit, isLetter, isBin]
  rw [this]
  simp

/-- So does a comment. -/
theorem comment_separates {u c r : List Char} {ts us : List LTok} {b : Bool} (hc : '"' ∉ c)
    (hu : lex u = some (ts, false)) (hr : lex r = some (us, b)) :
    lex (u ++ ('"' :: c ++ '"' :: r)) = some (ts ++ us, b) := by
  have w : W '"' := ⟨fun b => by simp [digitOf], by decide, by decide, by decide, by decide, by decide, by decide,
    by decide⟩
  exact lex_sep w hu ((lex_comment c r hc).trans hr)

/-- So does the beginning of a bracket, whatever is behind it. -/
theorem bracket_separates {s : Char} (hs : s ∈ ['(', ')', '[', ']', '{', '}', ';', '^', '!', '#'])
    {u r : List Char} {ts us : List LTok} {b : Bool} (hu : lex u = some (ts, false))
    (hr : lex (s :: r) = some (us, b)) : lex (u ++ s :: r) = some (ts ++ us, b) := by
  refine lex_sep ?_ hu hr
  simp only [List.mem_cons, List.not_mem_nil, or_false] at hs
  rcases hs with rfl | rfl | rfl | rfl | rfl | rfl | rfl | rfl | rfl | rfl <;>
    exact ⟨fun b => by simp [digitOf], by decide, by decide, by decide, by decide, by decide, by decide, by decide⟩

example : lex "x := 3 + 4".toList = some ([.tok (.ident ['x']), .tok .assign, .tok (.int 3), .tok (.binop ['+']),
    .tok (.int 4)], false) ∧ lex "y foo: 16r1F".toList =
    some ([.tok (.ident ['y']), .tok (.keyword "foo:".toList), .tok (.int 31)], false) := by decide +kernel

/-! ## Integers -/

/-- `16r-4000000000000001` is -2^62-1, which no SmallInteger can be, but it is taken as
one. -/
theorem negative_radix_wrong :
    IsInt 16 "16r-4000000000000001".toList (-(2 ^ 62 + 1)) ∧
    lex "16r-4000000000000001".toList = some ([.tok (.int (-(2 ^ 62 + 1)))], false) ∧
    ¬ Says (.tok (.int (-(2 ^ 62 + 1)))) (-(2 ^ 62 + 1)) := by
  refine ⟨?_, by decide +kernel, ?_⟩
  · exact IsInt.neg (d := 1) (cs := [6].map dchar) (ds := [6])
      (cs' := [4,0,0,0,0,0,0,0,0,0,0,0,0,0,0,1].map dchar) (ds' := [4,0,0,0,0,0,0,0,0,0,0,0,0,0,0,1])
      (by decide) (spells_map (by decide)) rfl (by decide) (by decide) (spells_map (by decide)) (by simp)
  · intro h
    have := h.2.1
    norm_num at this

/-- What `z printStringRadix: b` writes is read back as `z`, up to the negative numbers
below the SmallIntegers and not below -3·2^62. -/
theorem radix_reads_back_partial (z : Int) (b : Nat) (hb : 2 ≤ b) (hb' : b ≤ 36)
    (hz : -2 ^ 62 ≤ z ∨ z < -(3 * 2 ^ 62)) : ∃ s t, Verif.Num.printRadix z b = .ok s ∧
      lex (s.map Char.ofNat) = some ([t], false) ∧ Says t z := by
  refine ⟨(repr 10 b).map code ++ [114] ++ Verif.Num.sign z ++ (repr b z.natAbs).map code, ?_⟩
  obtain ⟨d, ds, e, h1, h2⟩ := repr_spec 10 b (by omega)
  obtain ⟨d', ds', e', h1', h2'⟩ := repr_spec b z.natAbs hb
  have key : IsInt b (dchar d :: ds.map dchar ++ 'r' :: ((if z < 0 then ['-'] else []) ++ (d' :: ds').map dchar)) z := by
    by_cases h : z < 0
    · have hz : z = -(digits b 0 (d' :: ds') : Int) := by rw [h2']; omega
      rw [if_pos h]
      simp only [List.cons_append, List.nil_append]
      rw [hz]
      exact IsInt.neg (h1 d (by simp)) (spells_map fun x hx => h1 x (by simp [hx])) h2 (by omega) hb'
        (spells_map h1') (by simp)
    · have hz : z = (digits b 0 (d' :: ds') : Int) := by rw [h2']; omega
      rw [if_neg h, List.nil_append]
      rw [hz]
      exact IsInt.radix (h1 d (by simp)) (spells_map fun x hx => h1 x (by simp [hx])) h2 (by omega) hb'
        (spells_map h1') (by simp)
  obtain ⟨c, cs, t, e1, e2, e3⟩ := int_read_partial key (after_nil b) hz
  refine ⟨t, Verif.Num.printRadix_spec z b hb hb', ?_, e3⟩
  have : ((repr 10 b).map code ++ [114] ++ Verif.Num.sign z ++ (repr b z.natAbs).map code).map Char.ofNat = c :: cs := by
    rw [← e1, e, e']
    unfold Verif.Num.sign
    have hd : dchar = fun x => Char.ofNat (code x) := rfl
    by_cases h : z < 0 <;> simp [h, hd, Function.comp_def]
  rw [this]
  rw [List.append_nil] at e2
  exact lex_one e2 lex_nil

/-- The text of -2^62-1 in base 16 is the one that is read wrongly. -/
theorem radix_reads_back_wrong : Verif.Num.printRadix (-(2 ^ 62 + 1)) 16 =
    .ok ("16r-4000000000000001".toList.map Char.toNat) := by
  have := Verif.Num.printRadix_spec (-(2 ^ 62 + 1)) 16 (by omega) (by omega)
  have h10 : repr 10 16 = [1, 6] := by decide +kernel
  have h16 : repr 16 (-(2 ^ 62 + 1) : Int).natAbs = [4,0,0,0,0,0,0,0,0,0,0,0,0,0,0,1] := by decide +kernel
  rw [h10, h16] at this
  exact this.trans (by decide +kernel)

/-- `z printString: 10`, and so `z storeString`, is read back as `z`: a minus sign and the digits. -/
theorem decimal_reads_back (z : Int) : ∃ t, Says t z.natAbs ∧
    lex (storeInt z 10) = some ((if z < 0 then [.tok .minus] else []) ++ [t], false) := by
  obtain ⟨c, cs, t, e1, e2, e3, e4⟩ := step_nat z.natAbs (after_nil 10)
  rw [List.append_nil] at e3
  have h1 := lex_one e3 lex_nil
  refine ⟨t, e4, ?_⟩
  rw [storeInt_int, e1]
  by_cases h : z < 0
  · have hm : step '-' (c :: cs) = ⟨some (.tok .minus), false, c :: cs⟩ := by
      have hb : isBin c = false := by
        obtain ⟨d, hd, rfl⟩ := digit_dchar e2
        have : ∀ d, d < 10 → isBin (dchar d) = false := by decide +kernel
        exact this d hd
      have e : scanBin '-' (c :: cs) = (['-'], c :: cs) := by simp [scanBin, hb]
      unfold step
      rw [e]
      simp [isWhite, isDigit, isLetter, isBin, opTok]
    simp only [h, if_true, List.cons_append, List.nil_append]
    exact lex_one hm h1
  · simp only [h, if_false, List.nil_append]
    exact h1

/-! ## Numbers and what follows them -/

/-- Words in the text: a letter, then letters, digits, underscores and dollars. -/
def IsName : List Char → Prop
  | [] => False
  | c :: s => isLetter c = true ∧ ∀ x ∈ s, isId x = true

theorem scanIdent_name {c s r} (hs : ∀ x ∈ s, isId x = true)
    (hr : r = [] ∨ ∃ a r', r = a :: r' ∧ isId a = false ∧ a ≠ '.' ∧ a ≠ ':') :
    scanIdent c (s ++ r) = ⟨some (.tok (.ident (c :: s))), false, r⟩ := by
  have h1 : (s ++ r).takeWhile isId = s ∧ (s ++ r).dropWhile isId = r := by
    induction s with
    | nil =>
      rcases hr with rfl | ⟨a, r', rfl, ha, -⟩
      · simp
      · simp [ha]
    | cons x s ih =>
      have hx := hs x (by simp)
      have := ih fun y hy => hs y (by simp [hy])
      simp [hx, this]
  unfold scanIdent
  rw [h1.1, h1.2]
  rcases hr with rfl | ⟨a, r', rfl, -, h2, h3⟩
  · rfl
  · split
    · rename_i e; simp at e; exact absurd e.1 h2
    · rename_i e; simp at e; exact absurd e.1 h3
    · rfl

/-- A name is read as one token, and a keyword is a name with a colon. -/
theorem name_read {w r : List Char} (hw : IsName w)
    (hr : r = [] ∨ ∃ a r', r = a :: r' ∧ isId a = false ∧ a ≠ '.' ∧ a ≠ ':') :
    lex (w ++ r) = (lex r).map fun x => (.tok (.ident w) :: x.1, x.2) := by
  cases w with
  | nil => exact hw.elim
  | cons c s =>
    obtain ⟨hc, hs⟩ := hw
    rw [List.cons_append, lex_cons]
    have h1 : isWhite c = false := by
      cases e : isWhite c with
      | false => rfl
      | true => rcases white_cases e with rfl | rfl | rfl | rfl | rfl <;> simp [isLetter] at hc
    have h2 : isDigit c = false := by
      simp only [isLetter, isDigit, Bool.or_eq_true, Bool.and_eq_true, decide_eq_true_eq] at *
      simp
      omega
    have : step c (s ++ r) = ⟨some (.tok (.ident (c :: s))), false, r⟩ := by
      rw [← scanIdent_name hs hr]
      simp [step, h1, h2, hc]
    rw [this]
    simp

example : IsName "foo_1".toList := ⟨by decide, by decide⟩

/-- A dot between a name and a digit does not end the statement, as if the digit were a
letter: `y.1` is the variable 1 of the namespace `y`, and not two statements. -/
theorem dot_digit_wrong : lex "y.1".toList = some ([.tok (.ident ['y']), .tok .scope, .tok (.int 1)], false) ∧
    lex "y. 1".toList = some ([.tok (.ident ['y']), .tok .dot, .tok (.int 1)], false) := by decide +kernel

/-- `123stu` sends `stu` to 123: if a letter is behind the `s`, the `s` begins a name. -/
theorem scale_letter_read {d : Nat} {cs ds w r} (hd : d < 10) (hs : Spells 10 cs ds) (hw : ∀ x ∈ w, isId x = true)
    (hne : ∃ a w', w = a :: w' ∧ isDigit a = false)
    (hr : r = [] ∨ ∃ a r', r = a :: r' ∧ isId a = false ∧ a ≠ '.' ∧ a ≠ ':') :
    ∃ t, Says t (digits 10 0 (d :: ds)) ∧ lex (dchar d :: cs ++ 's' :: w ++ r) =
      (lex r).map fun x => (t :: .tok (.ident ('s' :: w)) :: x.1, x.2) := by
  have hs' := Spells.dig hd hs
  obtain ⟨t, h1, h2⟩ := finish_pos (r := 's' :: w ++ r) (by omega) (by omega) hs'.lt
  refine ⟨t, h2, ?_⟩
  have hst : Stop 10 ('s' :: w ++ r) := by
    intro c r' h
    simp only [List.cons_append, List.cons.injEq] at h
    obtain ⟨rfl, -⟩ := h
    exact ⟨by decide, by decide⟩
  have e := scanDigits_big (m := maxInt) (by omega) (by omega) (by decide) (by decide) hs' hst
    (v := 0) (big := false) (acc := []) (by simp)
  simp only [Nat.zero_mod, List.nil_append] at e
  obtain ⟨a, w', rfl, ha⟩ := hne
  have hid := hw a (by simp)
  have : step (dchar d) (cs ++ 's' :: (a :: w') ++ r) = ⟨some t, false, 's' :: (a :: w') ++ r⟩ := by
    rw [step_dchar hd, ← h1]
    unfold scanNumber
    rw [show dchar d :: (cs ++ 's' :: (a :: w') ++ r) = dchar d :: cs ++ ('s' :: (a :: w') ++ r) by simp, e]
    simp [scanFrac, scanScale, ha, hid, scanExp, expKind]
  rw [show dchar d :: cs ++ 's' :: (a :: w') ++ r = dchar d :: (cs ++ 's' :: (a :: w') ++ r) by simp,
    lex_cons, this]
  have hn := name_read (w := 's' :: (a :: w')) ⟨by decide, hw⟩ hr
  simp only [Option.toList_some, List.singleton_append, Bool.false_or]
  rw [hn]
  cases lex r <;> simp

/-- With the letter of an exponent the same is not true: `123def` is a float and then the
name `ef`; the letter `d` is lost. -/
theorem exponent_letter_lost :
    lex "123def".toList = some ([.float .d false 123 10 0, .tok (.ident "ef".toList)], false) ∧
    lex "3even".toList = some ([.float .e false 3 10 0, .tok (.ident "ven".toList)], false) := by decide +kernel

/-! ## Fractions -/

/-- What may stand behind a number with a fraction. -/
def Ends (r : List Char) : Prop :=
  Stop 10 r ∧ ∀ c r', r = c :: r' → c ≠ 's' ∧ c ≠ 'e' ∧ c ≠ 'd' ∧ c ≠ 'q'

theorem stop_char {c : Char} (r : List Char) (h1 : c ≠ '_') (h2 : ∀ d, d < 10 → c ≠ dchar d) : Stop 10 (c :: r) := by
  intro a r' h
  simp only [List.cons.injEq] at h
  obtain ⟨rfl, -⟩ := h
  exact ⟨h1, h2⟩

theorem scanExp_digits {bad neg base v big ds frac exp} {d n : Nat} {cs ds' r} {k : FK} (hk : expKind (Char.ofNat n) = some k)
    (hd : d < 10) (h : Spells 10 cs ds') (hr : Stop 10 r) (hlt : digits 10 0 (d :: ds') < 2 ^ 31) :
    scanExp bad neg base v big ds frac exp (Char.ofNat n :: (dchar d :: cs ++ r)) =
      finishFloat bad neg k base ds (exp + digits 10 0 (d :: ds')) r := by
  obtain ⟨b, e⟩ := scanDigits_read (lim := none) (by omega) (Spells.dig hd h) hr (v := 0) (big := false) (acc := [])
  simp only [Nat.zero_mod] at e
  have h1 : digits 10 0 (d :: ds') % 2 ^ 64 = digits 10 0 (d :: ds') :=
    Nat.mod_eq_of_lt (by simp only [Nat.reducePow] at *; omega)
  have h2 : Verif.Parser.asInt (digits 10 0 (d :: ds') : Int) = digits 10 0 (d :: ds') := by
    unfold Verif.Parser.asInt
    norm_num at hlt
    omega
  have h3 : dchar d ≠ '-' := minus_not_dchar (base := 10) (by omega) hd
  unfold scanExp
  simp only [hk]
  rw [List.cons_append]
  split
  · rename_i e'; simp at e'
  · rename_i e'; simp [h3] at e'
  · rename_i c' r2 _ e'
    simp only [List.cons.injEq] at e'
    obtain ⟨rfl, rfl⟩ := e'
    rw [if_pos (dchar_isDigit hd)]
    rw [List.cons_append] at e
    rw [e]
    simp only [h1, h2]

theorem scanExp_minus {bad neg base v big ds frac exp} {d n : Nat} {cs ds' r} {k : FK} (hk : expKind (Char.ofNat n) = some k)
    (hd : d < 10) (h : Spells 10 cs ds') (hr : Stop 10 r) (hlt : digits 10 0 (d :: ds') < 2 ^ 31) :
    scanExp bad neg base v big ds frac exp (Char.ofNat n :: '-' :: (dchar d :: cs ++ r)) =
      finishFloat bad neg k base ds (exp - digits 10 0 (d :: ds')) r := by
  obtain ⟨b, e⟩ := scanDigits_read (lim := none) (by omega) (Spells.dig hd h) hr (v := 0) (big := false) (acc := [])
  simp only [Nat.zero_mod] at e
  have h1 : digits 10 0 (d :: ds') % 2 ^ 64 = digits 10 0 (d :: ds') :=
    Nat.mod_eq_of_lt (by simp only [Nat.reducePow] at *; omega)
  have h2 : Verif.Parser.asInt (digits 10 0 (d :: ds') : Int) = digits 10 0 (d :: ds') := by
    unfold Verif.Parser.asInt
    norm_num at hlt
    omega
  unfold scanExp
  simp only [hk, e, h1, h2]
  simp

theorem scanNumber_frac {d f : Nat} {cs ds fs es r} (hd : d < 10) (hs : Spells 10 cs ds) (hf : f < 10)
    (hfs : Spells 10 fs es) (hr : Stop 10 r) : ∃ v big,
    scanNumber (dchar d :: cs ++ '.' :: (dchar f :: fs ++ r)) =
      scanScale false false 10 v big (d :: ds ++ f :: es) true (-((es.length + 1 : Nat) : Int)) r := by
  have hdot : Stop 10 ('.' :: (dchar f :: fs ++ r)) := stop_char _ (by decide) (by decide)
  obtain ⟨b1, e1⟩ := scanDigits_read (lim := some maxInt) (by omega) (Spells.dig hd hs) hdot (v := 0) (big := false)
    (acc := [])
  obtain ⟨b2, e2⟩ := scanDigits_read (lim := some (limit false)) (by omega) (Spells.dig hf hfs) hr
    (v := digits 10 0 (d :: ds)) (big := b1) (acc := d :: ds)
  refine ⟨digits 10 (digits 10 0 (d :: ds)) (f :: es) % 2 ^ 64, b2, ?_⟩
  unfold scanNumber
  simp only [Nat.zero_mod, List.nil_append] at e1
  rw [e1]
  simp only [List.isEmpty_cons, scanFrac, List.cons_append, digitOf_dchar (show 10 ≤ 36 by omega) hf]
  simp only [List.cons_append] at e2
  rw [e2]
  simp

/-- A number with a fraction is read as a float that is the digits divided by a power of
ten. -/
theorem float_read {d f : Nat} {cs ds fs es r} (hd : d < 10) (hs : Spells 10 cs ds) (hf : f < 10)
    (hfs : Spells 10 fs es) (hr : Ends r) :
    lex (dchar d :: cs ++ '.' :: (dchar f :: fs ++ r)) = (lex r).map fun x =>
      (.float .d false (digits 10 0 (d :: ds ++ f :: es)) 10 (-((es.length + 1 : Nat) : Int)) :: x.1, x.2) := by
  obtain ⟨v, big, e⟩ := scanNumber_frac hd hs hf hfs hr.1
  have : scanScale false false 10 v big (d :: ds ++ f :: es) true (-((es.length + 1 : Nat) : Int)) r =
      ⟨some (.float .d false (digits 10 0 (d :: ds ++ f :: es)) 10 (-((es.length + 1 : Nat) : Int))), false, r⟩ := by
    unfold scanScale
    split
    · rename_i r'; exact absurd rfl (hr.2 's' r' rfl).1
    · unfold scanExp
      split
      · rfl
      · rename_i c r' _
        have := hr.2 c r' rfl
        have e : expKind c = none := by
          unfold expKind
          split <;> simp_all
        simp only [e, if_true, finishFloat]
        rfl
  rw [List.cons_append, lex_cons, step_dchar hd]
  rw [List.cons_append] at e
  rw [e, this]
  simp

/-- With an exponent, the power of ten is larger. -/
theorem float_exp_read {d f x : Nat} {cs ds fs es xs ys r} {a : Char} {k : FK} (hd : d < 10) (hs : Spells 10 cs ds)
    (hf : f < 10) (hfs : Spells 10 fs es) (hx : x < 10) (hxs : Spells 10 xs ys) (hr : Stop 10 r)
    (ha : (a, k) ∈ [('e', FK.e), ('d', FK.d), ('q', FK.q)]) (hlt : digits 10 0 (x :: ys) < 2 ^ 31) :
    lex (dchar d :: cs ++ '.' :: (dchar f :: fs ++ a :: (dchar x :: xs ++ r))) = (lex r).map fun z =>
      (.float k false (digits 10 0 (d :: ds ++ f :: es)) 10
        (-((es.length + 1 : Nat) : Int) + digits 10 0 (x :: ys)) :: z.1, z.2) := by
  have h : Stop 10 (a :: (dchar x :: xs ++ r)) ∧ a ≠ 's' ∧ expKind (Char.ofNat a.toNat) = some k := by
    simp only [List.mem_cons, Prod.mk.injEq, List.not_mem_nil, or_false] at ha
    rcases ha with ⟨rfl, rfl⟩ | ⟨rfl, rfl⟩ | ⟨rfl, rfl⟩ <;>
      exact ⟨stop_char _ (by decide) (by decide), by decide, by decide⟩
  obtain ⟨v, big, e⟩ := scanNumber_frac hd hs hf hfs h.1
  have hE := scanExp_digits (bad := false) (neg := false) (base := 10) (v := v) (big := big)
    (ds := d :: ds ++ f :: es) (frac := true) (exp := -((es.length + 1 : Nat) : Int)) h.2.2 hx hxs hr hlt
  rw [Char.ofNat_toNat] at hE
  have : scanScale false false 10 v big (d :: ds ++ f :: es) true (-((es.length + 1 : Nat) : Int))
      (a :: (dchar x :: xs ++ r)) = finishFloat false false k 10 (d :: ds ++ f :: es)
        (-((es.length + 1 : Nat) : Int) + digits 10 0 (x :: ys)) r := by
    rw [← hE]
    unfold scanScale
    split
    · rename_i e'; simp at e'; exact absurd e'.1 h.2.1
    · rfl
  rw [List.cons_append, lex_cons, step_dchar hd]
  rw [List.cons_append] at e
  rw [e, this]
  simp [finishFloat, digits]

/-- With a negative exponent it is smaller. -/
theorem float_minus_read {d f x : Nat} {cs ds fs es xs ys r} {a : Char} {k : FK} (hd : d < 10) (hs : Spells 10 cs ds)
    (hf : f < 10) (hfs : Spells 10 fs es) (hx : x < 10) (hxs : Spells 10 xs ys) (hr : Stop 10 r)
    (ha : (a, k) ∈ [('e', FK.e), ('d', FK.d), ('q', FK.q)]) (hlt : digits 10 0 (x :: ys) < 2 ^ 31) :
    lex (dchar d :: cs ++ '.' :: (dchar f :: fs ++ a :: '-' :: (dchar x :: xs ++ r))) = (lex r).map fun z =>
      (.float k false (digits 10 0 (d :: ds ++ f :: es)) 10
        (-((es.length + 1 : Nat) : Int) - digits 10 0 (x :: ys)) :: z.1, z.2) := by
  have h : Stop 10 (a :: '-' :: (dchar x :: xs ++ r)) ∧ a ≠ 's' ∧ expKind (Char.ofNat a.toNat) = some k := by
    simp only [List.mem_cons, Prod.mk.injEq, List.not_mem_nil, or_false] at ha
    rcases ha with ⟨rfl, rfl⟩ | ⟨rfl, rfl⟩ | ⟨rfl, rfl⟩ <;>
      exact ⟨stop_char _ (by decide) (by decide), by decide, by decide⟩
  obtain ⟨v, big, e⟩ := scanNumber_frac hd hs hf hfs h.1
  have hE := scanExp_minus (bad := false) (neg := false) (base := 10) (v := v) (big := big)
    (ds := d :: ds ++ f :: es) (frac := true) (exp := -((es.length + 1 : Nat) : Int)) h.2.2 hx hxs hr hlt
  rw [Char.ofNat_toNat] at hE
  have : scanScale false false 10 v big (d :: ds ++ f :: es) true (-((es.length + 1 : Nat) : Int))
      (a :: '-' :: (dchar x :: xs ++ r)) = finishFloat false false k 10 (d :: ds ++ f :: es)
        (-((es.length + 1 : Nat) : Int) - digits 10 0 (x :: ys)) r := by
    rw [← hE]
    unfold scanScale
    split
    · rename_i e'; simp at e'; exact absurd e'.1 h.2.1
    · rfl
  rw [List.cons_append, lex_cons, step_dchar hd]
  rw [List.cons_append] at e
  rw [e, this]
  simp [finishFloat, digits]

example : lex "3.14e-2 0.5q-10".toList = some ([.float .e false 314 10 (-4),
    .float .q false 5 10 (-11)], false) := by decide +kernel

example : lex "3.14 + 1.5e3".toList = some ([.float .d false 314 10 (-2), .tok (.binop ['+']),
    .float .e false 15 10 2], false) := by decide +kernel

/-! ## Strings -/

theorem scanString_quote_rest {r : List Char} (hr : r.head? ≠ some '\'') : ∀ s : List Char,
    scanString (s.flatMap (fun c => if c = '\'' then ['\'', '\''] else [c]) ++ '\'' :: r) = (s, false, r)
  | [] => by
    cases r with
    | nil => simp [scanString]
    | cons a r => simp at hr; simp [scanString, hr]
  | c :: s => by
    have ih := scanString_quote_rest hr s
    by_cases hc : c = '\''
    · subst hc
      simp only [List.flatMap_cons, if_true, List.cons_append, List.nil_append]
      rw [scanString.eq_def]
      simp only [if_true]
      rw [ih]
    · simp only [List.flatMap_cons, hc, if_false, List.cons_append, List.nil_append]
      rw [scanString.eq_def]
      simp only [hc, if_false]
      rw [ih]

/-- A string between quotes, its quotes doubled, is read as that string if it has no
NUL. -/
theorem string_read_partial (s r : List Char) (hs : '\x00' ∉ s) (hr : r.head? ≠ some '\'') :
    lex ('\'' :: s.flatMap (fun c => if c = '\'' then ['\'', '\''] else [c]) ++ '\'' :: r) =
      (lex r).map fun x => (.tok (.str s) :: x.1, x.2) := by
  rw [List.cons_append, lex_cons]
  have : ∀ q, step '\'' q = ⟨some (.tok (.str (cstr (scanString q).1))), (scanString q).2.1, (scanString q).2.2⟩ := by
    intro q; simp [step, isWhite, isDigit, isLetter, isBin]
  rw [this, scanString_quote_rest hr, cstr_of hs]
  simp

/-- A NUL cuts the string. -/
theorem string_nul_wrong : lex "'a\x00b'".toList = some ([.tok (.str ['a'])], false) := by decide +kernel

example : lex "'it''s' size".toList = some ([.tok (.str "it's".toList), .tok (.ident "size".toList)], false) := by
  decide +kernel

/-! ## Operators -/

theorem scanBin_length (c r) : (scanBin c r).1.length ≤ 2 := by
  unfold scanBin
  split
  · simp
  · split
    · split
      · split
        · split <;> simp
        · simp
      · simp
    · simp

theorem opTok_binop {s s'} (h : opTok s = .binop s') : s' = s := by
  unfold opTok at h
  split at h <;> simp_all

def ShortTok : LTok → Prop
  | .tok (.binop s) => s.length ≤ 2
  | _ => True

theorem number_short (o : Out) (h : ∀ t, o.tok = some t → (∀ s, t ≠ .tok (.binop s))) :
    ∀ t, o.tok = some t → ShortTok t := by
  intro t ht
  have := h t ht
  unfold ShortTok
  split
  · rename_i s; exact absurd rfl (this s)
  · trivial

theorem scanExp_nobin (bad neg base v big ds frac exp r t) (h : (scanExp bad neg base v big ds frac exp r).tok = some t) :
    ∀ s, t ≠ .tok (.binop s) := by
  rintro s rfl
  unfold scanExp finishFloat finishInt at h
  simp only at h
  split at h
  · split at h <;> (try split at h) <;> simp at h
  · split at h
    · split at h
      · simp at h
      · simp at h
      · split at h <;> simp at h
    · split at h <;> (try split at h) <;> simp at h

theorem scanScale_nobin (bad neg base v big ds frac exp r t) (h : (scanScale bad neg base v big ds frac exp r).tok = some t) :
    ∀ s, t ≠ .tok (.binop s) := by
  unfold scanScale finishScaled at h
  split at h
  · split at h
    · rintro s rfl; simp at h
    · split at h
      · rintro s rfl; simp at h
      · split at h
        · exact scanExp_nobin _ _ _ _ _ _ _ _ _ _ h
        · rintro s rfl; simp at h
  · exact scanExp_nobin _ _ _ _ _ _ _ _ _ _ h

theorem scanFrac_nobin (bad neg base v big ds r t) (h : (scanFrac bad neg base v big ds r).tok = some t) :
    ∀ s, t ≠ .tok (.binop s) := by
  unfold scanFrac at h
  split at h
  · split at h
    · exact scanScale_nobin _ _ _ _ _ _ _ _ _ _ h
    · exact scanScale_nobin _ _ _ _ _ _ _ _ _ _ h
  · exact scanScale_nobin _ _ _ _ _ _ _ _ _ _ h

theorem scanNumber_nobin (cs t) (h : (scanNumber cs).tok = some t) : ∀ s, t ≠ .tok (.binop s) := by
  unfold scanNumber at h
  simp only at h
  split at h <;> exact scanFrac_nobin _ _ _ _ _ _ _ _ h

theorem step_short (c r t) (h : (step c r).tok = some t) : ShortTok t := by
  unfold step at h
  split at h
  · simp at h
  · split at h
    · exact number_short _ (scanNumber_nobin _) t h
    · split at h
      · unfold scanIdent at h
        simp only at h
        split at h
        · split at h
          · split at h <;> (simp at h; subst h; trivial)
          · simp at h; subst h; trivial
        · split at h
          · split at h <;> (simp at h; subst h; trivial)
          · simp at h; subst h; trivial
        · simp at h; subst h; trivial
      · split at h
        · simp only [Option.some.injEq] at h
          subst h
          unfold ShortTok
          split
          · rename_i s e
            simp only [LTok.tok.injEq] at e
            rw [opTok_binop e]
            exact scanBin_length c r
          · trivial
        · split at h
          · simp at h; subst h; trivial
          · split at h
            · unfold scanSymbol at h
              split at h
              · simp at h; subst h; trivial
              · split at h
                · simp at h; subst h; trivial
                · split at h
                  · simp at h; subst h; trivial
                  · split at h <;> (simp at h; subst h; trivial)
            · split at h
              · unfold scanColon at h
                split at h <;> (simp at h; subst h; trivial)
              · split at h
                · have : ∀ r, (scanComment r).tok = none := by
                    intro r
                    induction r with
                    | nil => rfl
                    | cons a r ih => unfold scanComment; split <;> simp_all
                  rw [this] at h; simp at h
                · split at h
                  · unfold scanChar at h
                    split at h
                    · simp at h
                    · simp at h; subst h; trivial
                  · split at h
                    · rename_i p hp
                      simp at h; subst h
                      unfold punct at hp
                      split at hp <;> (simp at hp; try (subst hp; trivial))
                    · simp at h

theorem lexGo_short : ∀ f cs ts b, lexGo f cs = some (ts, b) → ∀ t ∈ ts, ShortTok t
  | _, [], ts, b, h => by simp [lexGo] at h; simp [h.1]
  | 0, c :: cs, ts, b, h => by simp [lexGo] at h
  | f + 1, c :: cs, ts, b, h => by
    simp only [lexGo] at h
    cases e : lexGo f (step c cs).rest with
    | none => simp [e] at h
    | some x =>
      obtain ⟨ts', b'⟩ := x
      rw [e] at h
      simp only [Option.some.injEq, Prod.mk.injEq] at h
      obtain ⟨rfl, -⟩ := h
      intro t ht
      rw [List.mem_append] at ht
      rcases ht with ht | ht
      · exact step_short c cs t (by simpa using ht)
      · exact lexGo_short f _ _ _ e t ht

/-- No operator is longer than two characters. -/
theorem operators_short {cs ts b} (h : lex cs = some (ts, b)) : ∀ s, .tok (.binop s) ∈ ts → s.length ≤ 2 :=
  fun s hs => lexGo_short _ _ _ _ h _ hs

/-- A text is read, without an error in its tokens, as the tree that the grammar
gives, and is refused if the grammar has none; its brackets must be closed and its code points be below 2^31. -/
theorem text_exact_partial {cs ts c} (enc : Mag → Nat) (h : lex cs = some (ts, false))
    (hv : ∀ v, [.chr 60, .int v, .gt] <:+: ts.map (toTok enc) → v < 2 ^ 31)
    (hn : nest (ts.map (toTok enc)) [] = some []) :
    readText enc cs = some c ↔ IsCode false (ts.map (toTok enc)) c := by
  unfold readText
  rw [h]
  refine Verif.Parser.code_exact_partial ?_ hv hn
  intro s hs
  simp only [List.mem_map] at hs
  obtain ⟨t, ht, e⟩ := hs
  have : t = .tok (.binop s) := by
    unfold toTok at e
    split at e <;> simp_all
  subst this
  exact operators_short h s ht

/-! ## Literals that are stored -/

theorem ptoks_chr60 (enc v) (hv : ptoks enc v = [.chr 60]) : ∃ w, v = .chr 60 w := by
  cases v with
  | chr c w =>
    simp only [ptoks] at hv
    split at hv
    · simp at hv; exact ⟨w, by rw [hv]⟩
    · simp at hv
  | int z =>
    simp only [ptoks, numTok] at hv
    split at hv <;> (try split at hv) <;> simp at hv
  | str => simp [ptoks] at hv
  | sym => simp [ptoks] at hv
  | bytes => simp [ptoks] at hv
  | arr => simp [ptoks] at hv
  | tru => simp [ptoks] at hv
  | fals => simp [ptoks] at hv
  | nil => simp [ptoks] at hv

theorem ptoks_int (enc v x r r') (hv : ptoks enc v ++ r = .int x :: r') : x < 0 ∨ ∃ z : Int, v = .int z ∧ 0 ≤ z ∧ z < 2 ^ 62 := by
  cases v with
  | int z =>
    simp only [ptoks] at hv
    by_cases h : z < 0
    · simp [h] at hv
    · right
      refine ⟨z, rfl, by omega, ?_⟩
      by_contra h2
      have h3 : ¬ z.natAbs < 2 ^ 62 := by norm_num at h2 ⊢; omega
      simp only [h, numTok, h3, if_false, List.nil_append, List.cons_append, List.cons.injEq, reduceCtorEq,
        false_and] at hv
  | chr c w => simp only [ptoks] at hv; split at hv <;> simp at hv
  | str => simp [ptoks] at hv
  | sym => simp [ptoks] at hv
  | bytes => simp [ptoks] at hv
  | arr => simp [ptoks] at hv
  | tru => simp [ptoks] at hv
  | fals => simp [ptoks] at hv
  | nil => simp [ptoks] at hv

def isWord : Lit → Bool
  | .tru | .fals | .nil => true
  | _ => false

theorem lit_int (enc) (z : Int) (h : z ≠ -2 ^ 62) : G false .lit (ptoks enc (.int z)) [tree enc (.int z)] := by
  simp only [ptoks, tree]
  by_cases h0 : z < 0
  · by_cases h1 : z.natAbs < 2 ^ 62
    · have h2 : -2 ^ 62 ≤ z ∧ z < 2 ^ 62 := by norm_num at *; omega
      simp only [h0, if_true, numTok, h1, h2, and_self]
      have := G.negInt (lax := false) (z.natAbs : Int) (by omega)
      rw [show -(z.natAbs : Int) = z by omega] at this
      exact this
    · have h2 : ¬ (-2 ^ 62 ≤ z ∧ z < 2 ^ 62) := by norm_num at *; omega
      simp only [h0, if_true, numTok, h1, h2, if_false, decide_true]
      exact G.negNum _
  · by_cases h1 : z.natAbs < 2 ^ 62
    · have h2 : -2 ^ 62 ≤ z ∧ z < 2 ^ 62 := by norm_num at *; omega
      simp only [h0, if_false, numTok, h1, h2, and_self, if_true, List.nil_append]
      rw [show (z.natAbs : Int) = z by omega]
      exact G.int z
    · have h2 : ¬ (-2 ^ 62 ≤ z ∧ z < 2 ^ 62) := by norm_num at *; omega
      simp only [h0, if_false, numTok, h1, h2, List.nil_append, decide_false]
      exact G.num _ _

mutual
theorem lit_tree (enc) : ∀ v, Good v → isWord v = false → G false .lit (ptoks enc v) [tree enc v]
  | .int z, h, _ => lit_int enc z (by simpa only [Good] using h)
  | .chr c w, h, _ => by
    simp only [Good] at h
    simp only [ptoks, tree]
    split
    · exact G.chr c
    · exact G.code (c : Int) (by omega) (by omega)
  | .str s, _, _ => by simp only [ptoks, tree]; exact G.str s
  | .sym s, _, _ => by simp only [ptoks, tree]; exact G.sym s
  | .bytes bs, h, _ => by
    simp only [Good] at h
    simp only [ptoks, tree]
    refine G.bytes _ ?_
    intro v hv
    simp only [List.mem_map] at hv
    obtain ⟨b, hb, rfl⟩ := hv
    have := h b hb
    simp only [Int.ofNat_eq_natCast]
    omega
  | .arr es, h, _ => by
    simp only [Good] at h
    simp only [ptoks, tree]
    exact G.arrLit (elts_tree enc es h.1 h.2)
  | .tru, _, h => by simp [isWord] at h
  | .fals, _, h => by simp [isWord] at h
  | .nil, _, h => by simp [isWord] at h

theorem elts_tree (enc) : ∀ es, Apart es → Goods es → G false .elts (ptoksElts enc es) (trees enc es)
  | [], _, _ => by simp only [ptoksElts, trees]; exact G.eltsNil
  | e :: es, ha, h => by
    simp only [Goods] at h
    simp only [ptoksElts, trees]
    refine G.eltsCons ?_ (elts_tree enc es ?_ h.2) ?_
    · cases hw : isWord e with
      | false => exact G.eltLit (lit_tree enc e h.1 hw)
      | true =>
        cases e <;> simp [isWord] at hw
        · simp only [ptoks, tree]; exact G.eltTrue
        · simp only [ptoks, tree]; exact G.eltFalse
        · simp only [ptoks, tree]; exact G.eltNil
    · unfold Apart at ha
      split at ha
      · rename_i heq; simp at heq; rw [heq.2]; exact ha.2
      · rename_i heq; simp at heq; rw [heq.2]; exact ha
      · rename_i heq; simp at heq
    · intro v r h1 h2
      obtain ⟨w, rfl⟩ := ptoks_chr60 enc e h1
      cases es with
      | nil => simp [ptoksElts] at h2
      | cons f es =>
        simp only [ptoksElts] at h2
        rcases ptoks_int enc f v _ _ h2 with h3 | ⟨z, rfl, h3, h4⟩
        · exact h3
        · simp only [Apart] at ha
          exact absurd ⟨h3, h4⟩ ha.1
end

/-- The text that `storeLiteralOn:` writes is read back as the object: integers,
characters, strings, symbols, byte arrays and arrays of them, however deep. -/
theorem store_reads_back_partial (enc : Mag → Nat) (v : Lit) (h : Good v) :
    ∃ tx, store v = some tx ∧ readText enc tx = some ([], [topTree enc v]) := by
  obtain ⟨tx, ts, h0, h1, h2⟩ := lex_store enc v h
  refine ⟨tx, h0, ?_⟩
  unfold readText
  rw [h1]
  show readCode (ts.map (toTok enc)) = _
  rw [h2]
  apply Verif.Parser.code_read_complete
  have key : G false .prim (ptoks enc v) [topTree enc v] := by
    cases hw : isWord v with
    | false =>
      have : topTree enc v = tree enc v := by cases v <;> simp [isWord] at hw <;> rfl
      rw [this]
      exact G.primLit (lit_tree enc v h hw)
    | true =>
      cases v <;> simp [isWord] at hw <;> simp only [ptoks, topTree] <;> exact G.var (Verif.Parser.IsPath.one _)
  have := IsCode.mk (lax := false) IsTemps.none
    (G.stLast (c := true) (G.exprMsg (G.msgBin (G.binUn (G.unPrim key)))))
  simpa using this

def encSimple : Mag → Nat
  | .large n => n
  | _ => 0

mutual
theorem tree_inj : ∀ v w, Good v → Good w → tree encSimple v = tree encSimple w → v = w
  | .int z, w, h1, h2, e => by
    cases w <;> simp only [tree] at e <;> (try (split at e <;> simp at e; done))
    rename_i z'
    simp only [Good] at h1 h2
    by_cases a : -2 ^ 62 ≤ z ∧ z < 2 ^ 62 <;> by_cases b : -2 ^ 62 ≤ z' ∧ z' < 2 ^ 62
    · rw [if_pos a, if_pos b] at e; simp at e; rw [e]
    · rw [if_pos a, if_neg b] at e; simp at e
    · rw [if_neg a, if_pos b] at e; simp at e
    · rw [if_neg a, if_neg b] at e
      simp only [encSimple, Ex.num.injEq, decide_eq_decide] at e
      have : z = z' := by omega
      rw [this]
  | .chr c w, v, h1, h2, e => by
    cases v <;> simp only [tree] at e <;> (try (split at e)) <;> simp at e
    simp only [Good] at h1 h2
    subst e
    rw [h1.2, h2.2]
  | .str s, v, _, _, e => by
    cases v <;> simp only [tree] at e <;> (try (split at e)) <;> simp at e
    rw [e]
  | .sym s, v, _, _, e => by
    cases v <;> simp only [tree] at e <;> (try (split at e)) <;> simp at e
    rw [e]
  | .bytes bs, v, _, _, e => by
    cases v <;> simp only [tree] at e <;> (try (split at e)) <;> simp only [Ex.bytes.injEq, reduceCtorEq] at e
    rename_i bs'
    have : ∀ a b : List Nat, a.map Int.ofNat = b.map Int.ofNat → a = b := by
      intro a
      induction a with
      | nil => intro b h; cases b <;> simp at h; rfl
      | cons x a ih =>
        intro b h
        cases b with
        | nil => simp at h
        | cons y b =>
          simp only [List.map_cons, List.cons.injEq, Int.ofNat_eq_natCast, Int.natCast_inj] at h
          rw [h.1, ih b h.2]
    rw [this _ _ e]
  | .arr es, v, h1, h2, e => by
    cases v <;> simp only [tree] at e <;> (try (split at e)) <;> simp only [Ex.arrLit.injEq, reduceCtorEq] at e
    rename_i es'
    simp only [Good] at h1 h2
    rw [trees_inj es es' h1.2 h2.2 e]
  | .tru, v, _, _, e => by
    cases v <;> simp only [tree] at e <;> (try (split at e)) <;> first | rfl | (simp at e)
  | .fals, v, _, _, e => by
    cases v <;> simp only [tree] at e <;> (try (split at e)) <;> first | rfl | (simp at e)
  | .nil, v, _, _, e => by
    cases v <;> simp only [tree] at e <;> (try (split at e)) <;> first | rfl | (simp at e)

theorem trees_inj : ∀ vs ws, Goods vs → Goods ws → trees encSimple vs = trees encSimple ws → vs = ws
  | [], [], _, _, _ => rfl
  | [], _ :: _, _, _, e => by simp [trees] at e
  | _ :: _, [], _, _, e => by simp [trees] at e
  | v :: vs, w :: ws, h1, h2, e => by
    simp only [trees, List.cons.injEq, Goods] at *
    exact ⟨tree_inj v w h1.1 h2.1 e.1, trees_inj vs ws h1.2 h2.2 e.2⟩
end

/-- Different objects have different literals. -/
theorem store_injective {v w : Lit} (hv : Good v) (hw : Good w) (h : store v = store w) : v = w := by
  obtain ⟨tx, e1, e2⟩ := store_reads_back_partial encSimple v hv
  obtain ⟨tx', e1', e2'⟩ := store_reads_back_partial encSimple w hw
  rw [← h, e1] at e1'
  simp only [Option.some.injEq] at e1'
  subst e1'
  rw [e2] at e2'
  simp only [Option.some.injEq, Prod.mk.injEq, List.cons.injEq, and_true, true_and] at e2'
  cases a : isWord v <;> cases b : isWord w
  · have h1 : topTree encSimple v = tree encSimple v := by cases v <;> simp [isWord] at a <;> rfl
    have h2 : topTree encSimple w = tree encSimple w := by cases w <;> simp [isWord] at b <;> rfl
    rw [h1, h2] at e2'
    exact tree_inj v w hv hw e2'
  · cases v <;> simp [isWord] at a <;> cases w <;> simp [isWord] at b <;> simp only [topTree, tree] at e2' <;>
      (try split at e2') <;> simp at e2'
  · cases v <;> simp [isWord] at a <;> cases w <;> simp [isWord] at b <;> simp only [topTree, tree] at e2' <;>
      (try split at e2') <;> simp at e2'
  · cases v <;> simp [isWord] at a <;> cases w <;> simp [isWord] at b <;> simp [topTree] at e2' <;> rfl

/-- The hypotheses hold of `#(-5 $< #foo:bar: #[1 255] (true 'it''s') 16r400000000000000000)`. -/
def sampleLit : Lit := .arr [.int (-5), .chr 60 false, .sym "foo:bar:".toList, .bytes [1, 255],
  .arr [.tru, .str "it's".toList], .int (2 ^ 66), .chr 955 true, .chr 0 false]

example : Good sampleLit := by
  simp [sampleLit, Good, Goods, Apart]

example : (store sampleLit).map String.ofList =
    some "#(-5 $< #foo:bar: #[1 255 ] #(true 'it''s' ) 73786976294838206464 $<16r03BB> $<0> )" := by
  decide +kernel

/-- An array with the character `<` before a number: the text is not read back. -/
theorem store_lt_wrong (enc) : (store (.arr [.chr 60 false, .int 5])).map String.ofList = some "#($< 5 )" ∧
    readText enc "#($< 5 )".toList = none := by
  refine ⟨by decide +kernel, ?_⟩
  have : lex "#($< 5 )".toList = some ([.tok .hash, .tok .lpar, .tok (.chr 60), .tok (.int 5), .tok .rpar], false) := by
    decide +kernel
  unfold readText
  rw [this]
  rfl

/-- The text of the smallest SmallInteger is read as a LargeNegativeInteger. -/
theorem store_min_wrong (enc) : (store (.int (-2 ^ 62))).map String.ofList = some "-4611686018427387904" ∧
    readText enc "-4611686018427387904".toList = some ([], [.num (enc (.large (2 ^ 62))) true]) ∧
    tree enc (.int (-2 ^ 62)) = .int (-2 ^ 62) := by
  refine ⟨by decide +kernel, ?_, by simp [tree]⟩
  have : lex "-4611686018427387904".toList = some ([.tok .minus, .large [0,0,0,0,0,0,0,64]], false) := by
    decide +kernel
  unfold readText
  rw [this]
  rfl

/-- A Character and a UnicodeCharacter with the same value have the same text; they are
different objects if the value is above 127. -/
theorem store_chr_wrong : store (.chr 200 false) = store (.chr 200 true) ∧
    (store (.chr 200 false)).map String.ofList = some "$<16r00C8>" := by decide +kernel

/-- The empty symbol cannot be stored. -/
theorem store_empty_wrong : store (.sym []) = none := by decide +kernel

/-- A string with a NUL is cut. -/
theorem store_nul_wrong (enc) : (store (.str ['a', '\x00', 'b'])).map String.ofList = some "'a\x00b'" ∧
    readText enc "'a\x00b'".toList = some ([], [.str ['a']]) := by
  refine ⟨by decide +kernel, ?_⟩
  unfold readText
  rw [string_nul_wrong]
  rfl

/-! ## Operators and punctuation -/

/-- The characters of operators. -/
def opChars : List Char := ['%', '&', '*', '+', ',', '-', '/', '<', '=', '>', '?', '@', '\\', '|', '~']

/-- The texts that have a token of their own. -/
def marks : List (List Char × Tok) :=
  [(['('], .lpar), ([')'], .rpar), (['['], .lbrk), ([']'], .rbrk), (['{'], .lbrace), (['}'], .rbrace), (['.'], .dot),
   ([';'], .semi), (['^'], .caret), (['!'], .bang), (['_'], .assign), ([':', '='], .assign), ([':'], .colon),
   (['|'], .bar), (['<'], .lt), (['>'], .gt), (['-'], .minus)]

/-- Each of these texts, before white space, is read as its token. -/
theorem marks_read {u t} (h : (u, t) ∈ marks) {s : Char} (hs : isWhite s = true) {r us b} (hr : lex r = some (us, b)) :
    lex (u ++ s :: r) = some (.tok t :: us, b) := by
  refine lex_sep (white_w hs) (ts := [.tok t]) ?_ (by rw [lex_white hs, hr])
  have : ∀ x ∈ marks, lex x.1 = some ([.tok x.2], false) := by decide +kernel
  exact this _ h

/-- One or two operator characters, before white space, are an operator, but for the four that are marks. -/
theorem operator_read {u : List Char} (h0 : u ≠ []) (h2 : u.length ≤ 2) (hc : ∀ c ∈ u, c ∈ opChars)
    (hm : ∀ t, (u, t) ∉ marks) {s : Char} (hs : isWhite s = true) {r us b} (hr : lex r = some (us, b)) :
    lex (u ++ s :: r) = some (.tok (.binop u) :: us, b) := by
  refine lex_sep (white_w hs) (ts := [.tok (.binop u)]) ?_ (by rw [lex_white hs, hr])
  match u, h0, h2 with
  | [a], _, _ =>
    have key : ∀ a ∈ opChars, a ∉ ['|', '<', '>', '-'] → lex [a] = some ([.tok (.binop [a])], false) := by decide +kernel
    refine key a (hc a List.mem_cons_self) ?_
    intro ha
    simp only [List.mem_cons, List.not_mem_nil, or_false] at ha
    rcases ha with rfl | rfl | rfl | rfl
    · exact hm .bar (by decide)
    · exact hm .lt (by decide)
    · exact hm .gt (by decide)
    · exact hm .minus (by decide)
  | [a, b], _, _ =>
    have key : ∀ a ∈ opChars, ∀ b ∈ opChars, lex [a, b] = some ([.tok (.binop [a, b])], false) := by decide +kernel
    exact key a (hc a List.mem_cons_self) b (hc b (by simp))

example : lex ">= 3".toList = some ([.tok (.binop ['>', '=']), .tok (.int 3)], false) :=
  operator_read (u := ['>', '=']) (by decide) (by decide) (by decide) (by intro t; simp [marks]) (s := ' ') rfl (r := ['3']) (by decide +kernel)

end Verif.Lexer
