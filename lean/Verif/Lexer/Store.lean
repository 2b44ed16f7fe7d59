import Verif.Lexer.Append
import Verif.Parser.Theorems
import Mathlib.Tactic.Tauto

/-!
# Literals that are stored and read back

`storeLiteralOn:` of the classes that have literals: the text that is written,
and what reading it gives.
-/

namespace Verif.Lexer

open Verif.Parser (Tok Ex G readCode)
open Verif.Num (repr code sign)

/-- Objects that can be written as literals.  A character has a code and says whether it
is a UnicodeCharacter. -/
inductive Lit where
  | int (z : Int)
  | chr (c : Nat) (wide : Bool)
  | str (s : List Char)
  | sym (s : List Char)
  | bytes (bs : List Nat)
  | arr (es : List Lit)
  | tru | fals | nil

/-! ## Model: writing -/

/-- `Integer>>printString:`, of which kernel/Integer.st l. 595–622 makes the literal
(`Verif.Num.printBase`). -/
def storeInt (z : Int) (base : Nat) : List Char :=
  match Verif.Num.printBase z base with
  | .ok s => s.map Char.ofNat
  | .error _ => []

/-- `Character>>printCodePointOn:`, kernel/Character.st l. 481–492. -/
def storeCode (c : Nat) : List Char :=
  if c < 32 then storeInt c 10
  else ['1', '6', 'r'] ++ (if c ≤ 255 then ['0'] else []) ++ (if c ≤ 4095 then ['0'] else []) ++ storeInt c 16

/-- `Character>>storeOn:`, kernel/Character.st l. 468–479. -/
def storeChr (c : Nat) : List Char :=
  if 32 ≤ c ∧ c ≤ 126 then ['$', Char.ofNat c] else ['$', '<'] ++ storeCode c ++ ['>']

/-- `String>>storeLiteralOn:` and `printOn:`, kernel/String.st l. 170–181 and
190–201. -/
def quote (s : List Char) : List Char :=
  '\'' :: s.flatMap (fun c => if c = '\'' then ['\'', '\''] else [c]) ++ ['\'']

/-- `Symbol>>isSimpleSymbol`, kernel/Symbol.st l. 332–348; `none` for the error of
`self at: 1`.  `isLetter` and `isAlphaNumeric`, kernel/Character.st l. 308–320, are
true of the same letters and digits as in the lexer. -/
def isSimple : List Char → Option Bool
  | [] => none
  | c :: s =>
    if isLetter c then some ((c :: s).all fun x => isLetter x || isDigit x || x == ':')
    else some (decide ((c :: s).length ≤ 2) && (c :: s).all fun x => "+-*/\\<>=~,%@?&|".toList.contains x)

/-- `Symbol>>printOn:`, kernel/Symbol.st l. 322–330. -/
def storeSym (s : List Char) : Option (List Char) :=
  (isSimple s).map fun b => if b then '#' :: s else '#' :: quote s

mutual
/-- `storeLiteralOn:`: Array.st l. 93–105, ByteArray.st l. 83–96, String.st
l. 170–181, Symbol.st l. 306–312, Integer.st l. 462–467, Character.st
l. 447–452, Boolean.st l. 75–86, UndefObject.st l. 184–198.  `none` if it ends in
an error. -/
def store : Lit → Option (List Char)
  | .int z => some (storeInt z 10)
  | .chr c _ => some (storeChr c)
  | .str s => some (quote s)
  | .sym s => storeSym s
  | .bytes bs => some (['#', '['] ++ bs.flatMap (fun b : Nat => storeInt b 10 ++ [' ']) ++ [']'])
  | .arr es => (storeElts es).map fun t => ['#', '('] ++ t ++ [')']
  | .tru => some "true".toList
  | .fals => some "false".toList
  | .nil => some "nil".toList

/-- The elements of an array, each with a space behind. -/
def storeElts : List Lit → Option (List Char)
  | [] => some []
  | e :: es =>
    match store e, storeElts es with
    | some a, some b => some (a ++ ' ' :: b)
    | _, _ => none
end

/-! ## Specification -/

mutual
/-- The tree that compiles to an object. -/
def tree (enc : Mag → Nat) : Lit → Ex
  | .int z => if -2 ^ 62 ≤ z ∧ z < 2 ^ 62 then .int z else .num (enc (.large z.natAbs)) (z < 0)
  | .chr c _ => .chr c
  | .str s => .str s
  | .sym s => .sym s
  | .bytes bs => .bytes (bs.map Int.ofNat)
  | .arr es => .arrLit (trees enc es)
  | .tru => .builtin "true".toList
  | .fals => .builtin "false".toList
  | .nil => .builtin "nil".toList

def trees (enc : Mag → Nat) : List Lit → List Ex
  | [] => []
  | e :: es => tree enc e :: trees enc es
end

/-- Outside of an array, `true`, `false` and `nil` are variables. -/
def topTree (enc : Mag → Nat) : Lit → Ex
  | .tru => .var ["true".toList]
  | .fals => .var ["false".toList]
  | .nil => .var ["nil".toList]
  | v => tree enc v

/-- No `$<` is before an element that is a SmallInteger and not negative. -/
def Apart : List Lit → Prop
  | .chr 60 _ :: .int z :: es => ¬ (0 ≤ z ∧ z < 2 ^ 62) ∧ Apart (.int z :: es)
  | _ :: es => Apart es
  | [] => True

mutual
/-- Objects whose literal is right. -/
def Good : Lit → Prop
  | .int z => z ≠ -2 ^ 62
  | .chr c wide => c ≤ 0x10FFFF ∧ wide = decide (127 < c)
  | .str s => '\x00' ∉ s
  | .sym s => s ≠ [] ∧ '\x00' ∉ s
  | .bytes bs => ∀ b ∈ bs, b ≤ 255
  | .arr es => Apart es ∧ Goods es
  | .tru | .fals | .nil => True

def Goods : List Lit → Prop
  | [] => True
  | e :: es => Good e ∧ Goods es
end

/-! ## Tokens -/

/-- The tokens of a number that is not negative. -/
def numTok (enc : Mag → Nat) (n : Nat) : Tok :=
  if n < 2 ^ 62 then .int n else .num (enc (.large n)) false

mutual
def ptoks (enc : Mag → Nat) : Lit → List Tok
  | .int z => (if z < 0 then [.minus] else []) ++ [numTok enc z.natAbs]
  | .chr c _ => if 32 ≤ c ∧ c ≤ 126 then [.chr c] else [.chr 60, .int c, .gt]
  | .str s => [.str s]
  | .sym s => [.sym s]
  | .bytes bs => .hash :: .lbrk :: (bs.map Int.ofNat).map .int ++ [.rbrk]
  | .arr es => .hash :: .lpar :: ptoksElts enc es ++ [.rpar]
  | .tru => [.ident "true".toList]
  | .fals => [.ident "false".toList]
  | .nil => [.ident "nil".toList]

def ptoksElts (enc : Mag → Nat) : List Lit → List Tok
  | [] => []
  | e :: es => ptoks enc e ++ ptoksElts enc es
end

theorem digits_value (b ds) : digits b 0 ds = Verif.Num.value b ds := rfl

theorem storeInt_nat (n base : Nat) (hb : 2 ≤ base) (hb' : base ≤ 36) :
    storeInt n base = (repr base n).map dchar := by
  unfold storeInt
  rw [Verif.Num.printBase_spec _ _ hb hb']
  have : ¬ ((n : Int) < 0) := by omega
  simp only [sign, this, if_false, List.nil_append, Int.natAbs_natCast, List.map_map]
  rfl

theorem storeInt_int (z : Int) : storeInt z 10 =
    (if z < 0 then ['-'] else []) ++ (repr 10 z.natAbs).map dchar := by
  unfold storeInt
  have := Verif.Num.printBase_spec z 10 (by omega) (by omega)
  simp only [Nat.cast_ofNat] at this
  rw [show ((10 : Nat) : Int) = 10 from rfl, this]
  by_cases h : z < 0
  · simp [sign, h, dchar, Function.comp_def]
  · simp [sign, h, dchar, Function.comp_def]

theorem repr_spec (base n : Nat) (hb : 2 ≤ base) : ∃ d ds, repr base n = d :: ds ∧
    (∀ x ∈ d :: ds, x < base) ∧ digits base 0 (d :: ds) = n := by
  obtain ⟨h1, h2, h3, -⟩ := Verif.Num.repr_writes base hb n
  cases e : repr base n with
  | nil => exact absurd e h1
  | cons d ds => rw [e] at h2 h3; exact ⟨d, ds, rfl, h2, h3⟩

theorem says_toTok {t : LTok} {n : Nat} (h : Says t n) (enc) : toTok enc t = numTok enc n := by
  unfold Says at h
  unfold numTok
  split at h
  · obtain ⟨h1, -, h3⟩ := h
    have : n < 2 ^ 62 := by exact_mod_cast h3
    rw [if_pos this]
    simp [toTok, h1]
  · obtain ⟨h1, -, h3⟩ := h
    have : ¬ n < 2 ^ 62 := by
      rcases h3 with h3 | h3
      · norm_num at h3; omega
      · have : 2 ^ 62 ≤ n := by exact_mod_cast h3
        omega
    rw [if_neg this]
    simp [toTok, h1]
  · exact h.elim

/-- Reading a decimal number, then something that does not belong to it. -/
theorem step_nat (n : Nat) {r : List Char} (hr : After 10 r) : ∃ c cs t,
    (repr 10 n).map dchar = c :: cs ∧ isDigit c = true ∧ step c (cs ++ r) = ⟨some t, false, r⟩ ∧ Says t n := by
  obtain ⟨d, ds, e, h1, h2⟩ := repr_spec 10 n (by omega)
  have hi : IsInt 10 (dchar d :: ds.map dchar) (digits 10 0 (d :: ds)) :=
    .dec (h1 d (by simp)) (spells_map fun x hx => h1 x (by simp [hx]))
  obtain ⟨c, cs, t, e1, e2, e3⟩ := int_read_partial hi hr (.inl (by norm_num))
  simp only [List.cons.injEq] at e1
  refine ⟨c, cs, t, ?_, ?_, e2, by rw [h2] at e3; exact e3⟩
  · rw [e, List.map_cons, e1.1, e1.2]
  · rw [← e1.1]; exact dchar_isDigit (h1 d (by simp))

theorem lex_one {c cs t r x} (h : step c cs = ⟨some t, false, r⟩) (hr : lex r = some x) :
    lex (c :: cs) = some (t :: x.1, x.2) := by
  rw [lex_cons, h]
  simp [hr]

theorem lex_nil : lex [] = some ([], false) := by simp [lex, lexGo]

theorem after_nil (base) : After base [] :=
  ⟨by intro c r h; simp at h, by intro c r h; simp at h, by intro c r h; simp at h⟩

theorem after_gt {base} (h : base ≤ 36) : After base ['>'] := by
  refine ⟨?_, ?_, ?_⟩
  · intro c r e
    simp only [List.cons.injEq] at e
    obtain ⟨rfl, -⟩ := e
    have : ∀ d, d < 36 → '>' ≠ dchar d := by decide +kernel
    exact ⟨by decide, fun d hd => this d (by omega)⟩
  · intro c r e
    simp only [List.cons.injEq] at e
    obtain ⟨rfl, -⟩ := e
    decide
  · intro c r e; simp at e

theorem lex_int (enc) (z : Int) : ∃ ts, lex (storeInt z 10) = some (ts, false) ∧
    ts.map (toTok enc) = ptoks enc (.int z) := by
  obtain ⟨c, cs, t, e1, e2, e3, e4⟩ := step_nat z.natAbs (after_nil 10)
  rw [List.append_nil] at e3
  have h1 := lex_one e3 lex_nil
  rw [storeInt_int, e1]
  by_cases h : z < 0
  · have hm : step '-' (c :: cs) = ⟨some (.tok .minus), false, c :: cs⟩ := by
      have hb : isBin c = false := by
        obtain ⟨d, hd, rfl⟩ := digit_dchar e2
        have : ∀ d, d < 10 → isBin (dchar d) = false := by decide +kernel
        exact this d hd
      have e : scanBin '-' (c :: cs) = (['-'], c :: cs) := by simp [scanBin, hb]
      unfold step
      rw [e]
      simp [isWhite, isDigit, isLetter, isBin, opTok]
    refine ⟨_, by simp only [h, if_true, List.cons_append, List.nil_append]; exact lex_one hm h1, ?_⟩
    simp only [ptoks, h, if_true, List.map_cons, List.map_nil, says_toTok e4]; rfl
  · refine ⟨_, by simp only [h, if_false, List.nil_append]; exact h1, ?_⟩
    simp [ptoks, h, says_toTok e4]

theorem lex_chr (enc) (c : Nat) (w : Bool) (hc : c ≤ 0x10FFFF) : ∃ ts, lex (storeChr c) = some (ts, false) ∧
    ts.map (toTok enc) = ptoks enc (.chr c w) := by
  unfold storeChr
  simp only [ptoks]
  by_cases h : 32 ≤ c ∧ c ≤ 126
  · rw [if_pos h, if_pos h]
    have hn : (Char.ofNat c).toNat = c := by
      have : ∀ c, c < 127 → (Char.ofNat c).toNat = c := by decide +kernel
      exact this c (by omega)
    refine ⟨[.tok (.chr c)], ?_, by simp [toTok]⟩
    have hs : step '$' [Char.ofNat c] = ⟨some (.tok (.chr c)), false, []⟩ := by
      simp [step, isWhite, isDigit, isLetter, isBin, scanChar, hn]; omega
    exact lex_one hs lex_nil
  · rw [if_neg h, if_neg h]
    have hs : ∀ r, step '$' ('<' :: r) = ⟨some (.tok (.chr 60)), false, r⟩ := by
      intro r; simp [step, isWhite, isDigit, isLetter, isBin, scanChar]
    have hg : lex ['>'] = some ([.tok .gt], false) := by decide +kernel
    have key : ∃ a as t, storeCode c = a :: as ∧ step a (as ++ ['>']) = ⟨some t, false, ['>']⟩ ∧ Says t c := by
      unfold storeCode
      by_cases h1 : c < 32
      · rw [if_pos h1, storeInt_nat _ _ (by omega) (by omega)]
        obtain ⟨a, as, t, e1, -, e2, e3⟩ := step_nat c (after_gt (base := 10) (by omega))
        exact ⟨a, as, t, e1, e2, e3⟩
      · rw [if_neg h1, storeInt_nat _ _ (by omega) (by omega)]
        obtain ⟨d, ds, e, g1, g2⟩ := repr_spec 16 c (by omega)
        rw [e]
        have hi : ∀ zs : List Nat, (∀ x ∈ zs, x = 0) →
            IsInt 16 (['1', '6', 'r'] ++ (zs.map dchar ++ (d :: ds).map dchar)) c := by
          intro zs hz
          have hv : digits 16 0 (zs ++ d :: ds) = c := by
            have : ∀ zs : List Nat, (∀ x ∈ zs, x = 0) → digits 16 0 (zs ++ d :: ds) = digits 16 0 (d :: ds) := by
              intro zs
              induction zs with
              | nil => intro _; rfl
              | cons x zs ih =>
                intro hz
                have := hz x (by simp)
                subst this
                exact ih fun y hy => hz y (by simp [hy])
            rw [this zs hz, g2]
          rw [← hv, ← List.map_append]
          refine IsInt.radix (d := 1) (cs := [6].map dchar) (ds := [6]) (by decide) (spells_map (by decide)) rfl
            (by decide) (by decide) (spells_map ?_) (by simp)
          intro x hx
          simp only [List.mem_append] at hx
          rcases hx with hx | hx
          · rw [hz x hx]; omega
          · exact g1 x hx
        have : ∃ zs : List Nat, (∀ x ∈ zs, x = 0) ∧
            (['1', '6', 'r'] ++ (if c ≤ 255 then ['0'] else []) ++ (if c ≤ 4095 then ['0'] else []) ++ (d :: ds).map dchar) =
            ['1', '6', 'r'] ++ (zs.map dchar ++ (d :: ds).map dchar) := by
          by_cases h2 : c ≤ 255
          · refine ⟨[0, 0], by simp, ?_⟩
            have : c ≤ 4095 := by omega
            simp only [h2, this, if_true]
            rfl
          · by_cases h3 : c ≤ 4095
            · refine ⟨[0], by simp, ?_⟩
              simp only [h2, h3, if_true, if_false]
              rfl
            · refine ⟨[], by simp, ?_⟩
              simp only [h2, h3, if_false]
              rfl
        obtain ⟨zs, hz, e⟩ := this
        rw [e]
        obtain ⟨a, as, t, e1, e2, e3⟩ := int_read_partial (hi zs hz) (after_gt (by omega))
          (.inl (by norm_num))
        exact ⟨a, as, t, e1, e2, e3⟩
    obtain ⟨a, as, t, e1, e2, e3⟩ := key
    refine ⟨[.tok (.chr 60), t, .tok .gt], ?_, ?_⟩
    · rw [e1]
      simp only [List.cons_append, List.nil_append]
      exact lex_one (hs _) (lex_one e2 hg)
    · have hlt : c < 2 ^ 62 := by norm_num; omega
      simp only [List.map_cons, List.map_nil, says_toTok e3, numTok, hlt, if_true]; rfl

theorem scanString_quote : ∀ s : List Char,
    scanString (s.flatMap (fun c => if c = '\'' then ['\'', '\''] else [c]) ++ ['\'']) = (s, false, [])
  | [] => by simp [scanString]
  | c :: s => by
    have ih := scanString_quote s
    by_cases hc : c = '\''
    · subst hc
      simp only [List.flatMap_cons, if_true, List.cons_append, List.nil_append]
      rw [scanString.eq_def]
      simp only [if_true]
      rw [ih]
    · simp only [List.flatMap_cons, hc, if_false, List.cons_append, List.nil_append]
      rw [scanString.eq_def]
      simp only [hc, if_false]
      rw [ih]

theorem takeWhile_self {p : Char → Bool} : ∀ {s : List Char}, (∀ x ∈ s, p x = true) → s.takeWhile p = s
  | [], _ => rfl
  | c :: s, h => by
    rw [List.takeWhile_cons, if_pos (h c (by simp)), takeWhile_self fun x hx => h x (by simp [hx])]

theorem dropWhile_self {p : Char → Bool} : ∀ {s : List Char}, (∀ x ∈ s, p x = true) → s.dropWhile p = []
  | [], _ => rfl
  | c :: s, h => by
    rw [List.dropWhile_cons, if_pos (h c (by simp)), dropWhile_self fun x hx => h x (by simp [hx])]

theorem cstr_of {s : List Char} (h : '\x00' ∉ s) : cstr s = s := by
  unfold cstr
  apply takeWhile_self
  intro x hx
  simp only [decide_eq_true_eq]
  rintro rfl
  exact h hx

theorem lex_str (enc) (s : List Char) (h : '\x00' ∉ s) : ∃ ts, lex (quote s) = some (ts, false) ∧
    ts.map (toTok enc) = ptoks enc (.str s) := by
  refine ⟨[.tok (.str s)], ?_, by simp [toTok, ptoks]⟩
  unfold quote
  refine lex_one (r := []) ?_ lex_nil
  have : ∀ r, step '\'' r = ⟨some (.tok (.str (cstr (scanString r).1))), (scanString r).2.1, (scanString r).2.2⟩ := by
    intro r; simp [step, isWhite, isDigit, isLetter, isBin]
  rw [this]
  have e := scanString_quote s
  simp only [List.append_eq]
  rw [e, cstr_of h]

theorem step_hash (r) : step '#' r = scanSymbol r := by
  simp [step, isWhite, isDigit, isLetter, isBin]

theorem bin_sub {c : Char} (h : "+-*/\\<>=~,%@?&|".toList.contains c = true) : isBin c = true := by
  have : ∀ c ∈ "+-*/\\<>=~,%@?&|".toList, isBin c = true := by decide +kernel
  exact this c (by simpa using h)

theorem scanSymbol_simple {s : List Char} (h : isSimple s = some true) :
    scanSymbol s = ⟨some (.tok (.sym s)), false, []⟩ := by
  cases s with
  | nil => simp [isSimple] at h
  | cons c s =>
    simp only [isSimple] at h
    by_cases hl : isLetter c = true
    · rw [if_pos hl] at h
      simp only [Option.some.injEq, List.all_cons, Bool.and_eq_true, List.all_eq_true] at h
      have hs : ∀ x ∈ s, isSym x = true := by
        intro x hx
        have := h.2 x hx
        simp only [Bool.or_eq_true] at this
        simp only [isSym, isId, Bool.or_eq_true]
        tauto
      have h1 : isBin c = false := by
        cases e : isBin c with
        | false => rfl
        | true =>
          have : ∀ c ∈ "%&*+,-/<=>?@\\|~".toList, isLetter c = false := by decide +kernel
          rw [this c (by simpa [isBin] using e)] at hl
          simp at hl
      have h2 : c ≠ '\'' := by rintro rfl; simp [isLetter] at hl
      have h3 : isDigit c = false := by
        simp only [isLetter, isDigit, Bool.or_eq_true, Bool.and_eq_true, decide_eq_true_eq] at *
        simp
        omega
      have h4 : isSym c = true := by simp [isSym, isId, hl]
      have h5 : s.takeWhile isSym = s := takeWhile_self hs
      have h6 : s.dropWhile isSym = [] := dropWhile_self hs
      simp [scanSymbol, h1, h2, h3, h4, h5, h6]
    · rw [if_neg hl] at h
      simp only [Option.some.injEq, Bool.and_eq_true, decide_eq_true_eq, List.all_eq_true] at h
      have hc := bin_sub (h.2 c (by simp))
      cases s with
      | nil => simp [scanSymbol, hc, scanBin]
      | cons d s =>
        cases s with
        | cons e s => simp at h
        | nil =>
          have hd := bin_sub (h.2 d (by simp))
          simp [scanSymbol, hc, scanBin, hd]

theorem lex_sym (enc) (s : List Char) (h0 : s ≠ []) (h : '\x00' ∉ s) : ∃ tx ts, storeSym s = some tx ∧
    lex tx = some (ts, false) ∧ ts.map (toTok enc) = ptoks enc (.sym s) := by
  cases e : isSimple s with
  | none =>
    cases s with
    | nil => simp at h0
    | cons c s => simp only [isSimple] at e; split at e <;> simp at e
  | some b =>
    refine ⟨if b then '#' :: s else '#' :: quote s, [.tok (.sym s)], by simp [storeSym, e], ?_,
      by simp [toTok, ptoks]⟩
    cases b with
    | true =>
      simp only [if_true]
      exact lex_one (r := []) (by rw [step_hash, scanSymbol_simple e]) lex_nil
    | false =>
      simp only [Bool.false_eq_true, if_false]
      refine lex_one (r := []) ?_ lex_nil
      rw [step_hash]
      unfold quote
      rw [List.cons_append, scanSymbol, scanString_quote]
      simp [isBin, cstr_of h]

/-- Pieces with white space between them. -/
theorem lex_app {s : Char} (hs : isWhite s = true) {u r ts us b} (hu : lex u = some (ts, false))
    (hr : lex r = some (us, b)) : lex (u ++ s :: r) = some (ts ++ us, b) := by
  exact lex_sep (white_w hs) hu ((lex_white hs r).trans hr)

theorem lex_bytes (enc) : ∀ bs : List Nat, (∀ b ∈ bs, b ≤ 255) → ∃ ts,
    lex (bs.flatMap (fun b : Nat => storeInt b 10 ++ [' ']) ++ [']']) = some (ts, false) ∧
    ts.map (toTok enc) = (bs.map Int.ofNat).map .int ++ [.rbrk]
  | [], _ => ⟨[.tok .rbrk], by decide +kernel, by simp [toTok]⟩
  | b :: bs, h => by
    obtain ⟨us, hu, hu'⟩ := lex_bytes enc bs fun x hx => h x (by simp [hx])
    obtain ⟨ts, ht, ht'⟩ := lex_int enc b
    refine ⟨ts ++ us, ?_, ?_⟩
    · have := lex_app (s := ' ') (by decide) ht hu
      simpa using this
    · have hb := h b (by simp)
      have hlt : b < 2 ^ 62 := by norm_num; omega
      have h0 : ¬ ((b : Int) < 0) := by omega
      rw [List.map_append, ht', hu']
      simp only [ptoks, h0, if_false, numTok, Int.natAbs_natCast, hlt, if_true]
      rfl

theorem lex_word : lex "true".toList = some ([.tok (.ident "true".toList)], false) ∧
    lex "false".toList = some ([.tok (.ident "false".toList)], false) ∧
    lex "nil".toList = some ([.tok (.ident "nil".toList)], false) := by decide +kernel

theorem step_hash_open {c : Char} (r : List Char) (h : c = '(' ∨ c = '[') :
    step '#' (c :: r) = ⟨some (.tok .hash), false, c :: r⟩ := by
  rw [step_hash]
  rcases h with rfl | rfl <;> simp [scanSymbol, isBin, isSym, isId, isLetter, isDigit]

theorem step_open (r : List Char) : step '(' r = ⟨some (.tok .lpar), false, r⟩ ∧
    step '[' r = ⟨some (.tok .lbrk), false, r⟩ := by
  constructor <;> simp [step, isWhite, isDigit, isLetter, isBin, punct]

mutual
theorem lex_store (enc) : ∀ v, Good v → ∃ tx ts, store v = some tx ∧ lex tx = some (ts, false) ∧
    ts.map (toTok enc) = ptoks enc v
  | .int z, _ => by
    obtain ⟨ts, h1, h2⟩ := lex_int enc z
    exact ⟨_, ts, by simp [store], h1, h2⟩
  | .chr c w, h => by
    obtain ⟨ts, h1, h2⟩ := lex_chr enc c w (by simp only [Good] at h; exact h.1)
    exact ⟨_, ts, by simp [store], h1, h2⟩
  | .str s, h => by
    obtain ⟨ts, h1, h2⟩ := lex_str enc s (by simpa only [Good] using h)
    exact ⟨_, ts, by simp [store], h1, h2⟩
  | .sym s, h => by
    simp only [Good] at h
    obtain ⟨tx, ts, h0, h1, h2⟩ := lex_sym enc s h.1 h.2
    exact ⟨tx, ts, by simp [store, h0], h1, h2⟩
  | .bytes bs, h => by
    obtain ⟨ts, h1, h2⟩ := lex_bytes enc bs (by simpa only [Good] using h)
    refine ⟨_, .tok .hash :: .tok .lbrk :: ts, by simp [store]; rfl, ?_, by simp [ptoks, toTok, h2]⟩
    exact lex_one (step_hash_open _ (.inr rfl)) (lex_one (step_open _).2 h1)
  | .arr es, h => by
    simp only [Good] at h
    obtain ⟨tx, ts, h0, h1, h2⟩ := lex_storeElts enc es h.2
    refine ⟨_, .tok .hash :: .tok .lpar :: ts, by simp [store, h0]; rfl, ?_, by simp [ptoks, toTok, h2]⟩
    exact lex_one (step_hash_open _ (.inl rfl)) (lex_one (step_open _).1 h1)
  | .tru, _ => ⟨"true".toList, [.tok (.ident "true".toList)], by simp [store], lex_word.1, by simp [ptoks, toTok]⟩
  | .fals, _ => ⟨"false".toList, [.tok (.ident "false".toList)], by simp [store], lex_word.2.1, by simp [ptoks, toTok]⟩
  | .nil, _ => ⟨"nil".toList, [.tok (.ident "nil".toList)], by simp [store], lex_word.2.2, by simp [ptoks, toTok]⟩

theorem lex_storeElts (enc) : ∀ es, Goods es → ∃ tx ts, storeElts es = some tx ∧
    lex (tx ++ [')']) = some (ts, false) ∧ ts.map (toTok enc) = ptoksElts enc es ++ [.rpar]
  | [], _ => ⟨[], [.tok .rpar], by simp [storeElts], by decide +kernel, by simp [ptoksElts, toTok]⟩
  | e :: es, h => by
    simp only [Goods] at h
    obtain ⟨tx, ts, h0, h1, h2⟩ := lex_store enc e h.1
    obtain ⟨ux, us, g0, g1, g2⟩ := lex_storeElts enc es h.2
    refine ⟨tx ++ ' ' :: ux, ts ++ us, by simp [storeElts, h0, g0], ?_, by simp [ptoksElts, h2, g2]⟩
    have := lex_app (s := ' ') (by decide) h1 g1
    simpa using this
end

end Verif.Lexer
