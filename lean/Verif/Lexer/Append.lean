import Verif.Lexer.Digits

/-!
# The lexer reads to the end; white space separates
-/

namespace Verif.Lexer

open Verif.Parser (Tok)

/-! ## What is left is an end of the text -/

theorem scanDigits_suffix (lim base) : ∀ r v big ds, (scanDigits lim base v big ds r).2.2.2 <:+ r
  | [], v, big, ds => by simp [scanDigits]
  | c :: r, v, big, ds => by
    unfold scanDigits
    split
    · exact (scanDigits_suffix lim base r _ _ _).trans (List.suffix_cons c r)
    · split
      · exact (scanDigits_suffix lim base r _ _ _).trans (List.suffix_cons c r)
      · exact List.suffix_refl _

theorem scanExp_suffix (bad neg base v big ds frac exp r) :
    (scanExp bad neg base v big ds frac exp r).rest <:+ r := by
  unfold scanExp finishFloat finishInt
  split
  · split <;> (try split) <;> simp
  · rename_i c r'
    split
    · split
      · exact List.suffix_cons _ _
      · rename_i r2
        exact (scanDigits_suffix none 10 r2 0 false []).trans
          ((List.suffix_cons _ _).trans (List.suffix_cons _ _))
      · rename_i c' r2 _
        split
        · exact (scanDigits_suffix none 10 (c' :: r2) 0 false []).trans (List.suffix_cons _ _)
        · exact List.suffix_cons _ _
    · split <;> (try split) <;> simp

theorem scanScale_suffix (bad neg base v big ds frac exp r) :
    (scanScale bad neg base v big ds frac exp r).rest <:+ r := by
  unfold scanScale finishScaled
  split
  · split
    · exact List.suffix_cons _ _
    · rename_i c r2
      split
      · exact (scanDigits_suffix none 10 (c :: r2) 0 false []).trans (List.suffix_cons _ _)
      · split
        · exact scanExp_suffix ..
        · exact List.suffix_cons _ _
  · exact scanExp_suffix ..

theorem scanFrac_suffix (bad neg base v big ds r) : (scanFrac bad neg base v big ds r).rest <:+ r := by
  unfold scanFrac
  split
  · rename_i c r'
    split
    · exact (scanScale_suffix ..).trans
        ((scanDigits_suffix (some (limit neg)) base (c :: r') v big ds).trans (List.suffix_cons _ _))
    · exact scanScale_suffix ..
  · exact scanScale_suffix ..

theorem digit_dchar {c : Char} (h : isDigit c = true) : ∃ d, d < 10 ∧ c = dchar d := by
  simp only [isDigit, Bool.and_eq_true, decide_eq_true_eq] at h
  refine ⟨c.toNat - 48, by omega, ?_⟩
  apply Char.toNat_inj.mp
  rw [dchar_toNat (by omega), Verif.Num.code]
  split <;> omega

theorem scanNumber_suffix {c r} (h : isDigit c = true) : (scanNumber (c :: r)).rest <:+ r := by
  obtain ⟨d, hd, rfl⟩ := digit_dchar h
  have e : scanDigits (some maxInt) 10 0 false [] (dchar d :: r) =
      scanDigits (some maxInt) 10 d (over (some maxInt) 10 0 d) [d] r := by
    rw [scanDigits, if_neg (dchar_ne_us (by omega)), digitOf_dchar (by omega) hd]
    simp only [Nat.zero_mul, Nat.zero_add, Bool.false_or, List.nil_append]
    rw [Nat.mod_eq_of_lt (by simp only [Nat.reducePow]; omega)]
  have h1 := scanDigits_suffix (some maxInt) 10 r d (over (some maxInt) 10 0 d) [d]
  unfold scanNumber
  rw [e]
  generalize scanDigits (some maxInt) 10 d (over (some maxInt) 10 0 d) [d] r = x at h1
  obtain ⟨v, big, ds, r'⟩ := x
  simp only at h1 ⊢
  split
  · rename_i r1
    have h2 : (if (r1.head? == some '-') = true then r1.tail else r1) <:+ r1 := by
      split
      · exact List.tail_suffix r1
      · exact List.suffix_refl _
    have h3 := scanDigits_suffix (some (limit (r1.head? == some '-')))
      (if (decide (36 < v) || big) = true then 10 else v)
      (if (r1.head? == some '-') = true then r1.tail else r1) 0 big []
    exact (scanFrac_suffix ..).trans (h3.trans (h2.trans ((List.suffix_cons _ _).trans h1)))
  · exact (scanFrac_suffix ..).trans h1

theorem scanBin_suffix (c r) : (scanBin c r).2 <:+ r := by
  unfold scanBin
  split
  · simp
  · split
    · split
      · split
        · split
          · exact List.suffix_refl _
          · exact List.suffix_cons _ _
        · exact List.suffix_cons _ _
      · exact List.suffix_cons _ _
    · exact List.suffix_refl _

theorem scanString_suffix : ∀ r, (scanString r).2.2 <:+ r
  | [] => by simp [scanString]
  | [c] => by
    unfold scanString
    split
    · exact List.suffix_cons _ _
    · simp [scanString]
  | c :: d :: r => by
    unfold scanString
    split
    · simp only
      split
      · exact (scanString_suffix r).trans ((List.suffix_cons _ _).trans (List.suffix_cons _ _))
      · exact List.suffix_cons _ _
    · exact (scanString_suffix (d :: r)).trans (List.suffix_cons _ _)

theorem scanSymbol_suffix (r) : (scanSymbol r).rest <:+ r := by
  unfold scanSymbol
  split
  · exact List.suffix_refl _
  · rename_i c r'
    split
    · exact (scanBin_suffix c r').trans (List.suffix_cons _ _)
    · split
      · exact (scanString_suffix r').trans (List.suffix_cons _ _)
      · split
        · exact (List.dropWhile_suffix _).trans (List.suffix_cons _ _)
        · exact List.suffix_refl _

theorem scanComment_suffix : ∀ r, (scanComment r).rest <:+ r
  | [] => by simp [scanComment]
  | c :: r => by
    unfold scanComment
    split
    · exact List.suffix_cons _ _
    · exact (scanComment_suffix r).trans (List.suffix_cons _ _)

/-! ## The end is reached -/

/-- A colon counts one, every other character three: the two colons that replace a dot are
less than the name before it and the dot. -/
def weight : List Char → Nat
  | [] => 0
  | c :: r => (if c = ':' then 1 else 3) + weight r

theorem weight_append : ∀ a b, weight (a ++ b) = weight a + weight b
  | [], b => by simp [weight]
  | c :: a, b => by simp [weight, weight_append a b]; omega

theorem weight_suffix {a b} (h : a <:+ b) : weight a ≤ weight b := by
  obtain ⟨t, rfl⟩ := h
  rw [weight_append]; omega

theorem weight_le : ∀ cs, weight cs ≤ 3 * cs.length
  | [] => by simp [weight]
  | c :: cs => by
    have := weight_le cs
    simp only [weight, List.length_cons]
    split <;> omega

theorem letter_ne_colon {c : Char} (h : isLetter c = true) : c ≠ ':' := by
  rintro rfl; simp [isLetter] at h

theorem scanIdent_weight {c r} (h : isLetter c = true) : weight (scanIdent c r).rest < weight (c :: r) := by
  have h1 := weight_suffix (List.dropWhile_suffix isId (l := r))
  have h2 : weight (c :: r) = 3 + weight r := by simp [weight, letter_ne_colon h]
  unfold scanIdent
  rw [h2]
  have h3 : ∀ a : List Char, weight ('.' :: a) = 3 + weight a := fun a => by simp [weight]
  have h4 : ∀ a : List Char, weight (':' :: a) = 1 + weight a := fun a => by simp [weight]
  split
  · rename_i r1 e
    rw [e, h3] at h1
    split
    · split
      · simp only [h4]; omega
      · simp only [h3]; omega
    · simp only [h3]; omega
  · rename_i r1 e
    rw [e, h4] at h1
    split
    · split
      · simp only [h4]; omega
      · show weight (_ :: _) < _; omega
    · show weight [] < _; omega
  · show weight (List.dropWhile isId r) < _; omega

theorem step_weight (c r) : weight (step c r).rest < weight (c :: r) := by
  have aux : ∀ s : List Char, s <:+ r → weight s < weight (c :: r) := by
    intro s hs
    have := weight_suffix hs
    simp only [weight]
    split <;> omega
  unfold step
  split
  · exact aux _ (List.suffix_refl _)
  · split
    · rename_i h; exact aux _ (scanNumber_suffix h)
    · split
      · rename_i h; exact scanIdent_weight h
      · split
        · exact aux _ (scanBin_suffix c r)
        · split
          · exact aux _ (scanString_suffix r)
          · split
            · exact aux _ (scanSymbol_suffix r)
            · split
              · unfold scanColon
                split
                · exact aux _ (List.suffix_cons _ _)
                · exact aux _ (List.suffix_cons _ _)
                · exact aux _ (List.suffix_refl _)
              · split
                · exact aux _ (scanComment_suffix r)
                · split
                  · unfold scanChar
                    split
                    · exact aux _ (List.nil_suffix)
                    · exact aux _ (List.suffix_cons _ _)
                  · split <;> exact aux _ (List.suffix_refl _)

theorem lexGo_ends : ∀ f cs, weight cs ≤ f → ∃ x, lexGo f cs = some x
  | _, [], _ => ⟨([], false), by simp [lexGo]⟩
  | 0, c :: cs, h => by
    simp only [weight] at h
    split at h <;> omega
  | f + 1, c :: cs, h => by
    obtain ⟨⟨ts, b⟩, hx⟩ := lexGo_ends f (step c cs).rest (by have := step_weight c cs; omega)
    refine ⟨((step c cs).tok.toList ++ ts, (step c cs).bad || b), ?_⟩
    simp only [lexGo, hx]

theorem lexGo_mono : ∀ {f g cs x}, lexGo f cs = some x → f ≤ g → lexGo g cs = some x
  | f, g, [], x, h, _ => by simpa [lexGo] using h
  | 0, _, c :: cs, x, h, _ => by simp [lexGo] at h
  | f + 1, 0, c :: cs, x, _, h => by omega
  | f + 1, g + 1, c :: cs, x, h, hfg => by
    simp only [lexGo] at h ⊢
    cases e : lexGo f (step c cs).rest with
    | none => simp [e] at h
    | some y => rw [lexGo_mono e (by omega)]; rw [e] at h; exact h

/-- Reading one token and then the others. -/
theorem lex_cons (c cs) : lex (c :: cs) =
    (lex (step c cs).rest).map fun x => ((step c cs).tok.toList ++ x.1, (step c cs).bad || x.2) := by
  obtain ⟨x, hx⟩ := lexGo_ends (weight (step c cs).rest) _ (Nat.le_refl _)
  have h1 := step_weight c cs
  have h2 := weight_le (c :: cs)
  have h3 := weight_le (step c cs).rest
  unfold lex
  rw [lexGo_mono hx h3]
  obtain ⟨f, hf⟩ : ∃ f, 3 * (c :: cs).length = f + 1 := ⟨3 * (c :: cs).length - 1, by simp; omega⟩
  rw [hf]
  simp only [lexGo]
  rw [lexGo_mono hx (by omega)]
  rfl

/-! ## White space -/

/-- The same result with more text behind. -/
def Out.app (o : Out) (s : List Char) : Out := { o with rest := o.rest ++ s }

theorem white_cases {s : Char} (h : isWhite s = true) :
    s = ' ' ∨ s = '\t' ∨ s = '\n' ∨ s = '\r' ∨ s = '\x0c' := by
  simp only [isWhite, Bool.or_eq_true, beq_iff_eq] at h
  rcases h with (((h | h) | h) | h) | h
  · exact .inl h
  · exact .inr (.inl h)
  · exact .inr (.inr (.inl h))
  · exact .inr (.inr (.inr (.inl h)))
  · exact .inr (.inr (.inr (.inr (Char.toNat_inj.mp h))))

/-- What is needed of white space. -/
structure W (s : Char) : Prop where
  dig : ∀ base, digitOf base s = none
  us : s ≠ '_'
  notDigit : isDigit s = false
  notId : isId s = false
  notSym : isSym s = false
  notBin : isBin s = false
  exp : expKind s = none
  ne : s ≠ '-' ∧ s ≠ 's' ∧ s ≠ 'r' ∧ s ≠ '.' ∧ s ≠ ':' ∧ s ≠ '=' ∧ s ≠ '\''

theorem white_w {s : Char} (h : isWhite s = true) : W s := by
  rcases white_cases h with rfl | rfl | rfl | rfl | rfl <;>
    exact ⟨fun b => by simp [digitOf], by decide, by decide, by decide, by decide, by decide, by decide, by decide⟩

section
variable {s : Char} {q : List Char} (w : W s)
include w

theorem scanDigits_app (lim base) : ∀ r v big ds, scanDigits lim base v big ds (r ++ s :: q) =
    ((scanDigits lim base v big ds r).1, (scanDigits lim base v big ds r).2.1,
     (scanDigits lim base v big ds r).2.2.1, (scanDigits lim base v big ds r).2.2.2 ++ s :: q)
  | [], v, big, ds => by simp [scanDigits, w.us, w.dig]
  | c :: r, v, big, ds => by
    simp only [List.cons_append]
    rw [scanDigits, scanDigits]
    split
    · exact scanDigits_app lim base r _ _ _
    · split
      · exact scanDigits_app lim base r _ _ _
      · rfl

theorem scanExp_app (bad neg base v big ds frac exp r) :
    scanExp bad neg base v big ds frac exp (r ++ s :: q) =
      (scanExp bad neg base v big ds frac exp r).app (s :: q) := by
  cases r with
  | nil =>
    simp only [List.nil_append, scanExp, w.exp]
    cases frac <;> cases big <;> simp [finishFloat, finishInt, Out.app]
  | cons c r =>
    simp only [List.cons_append]
    rw [scanExp, scanExp]
    cases hk : expKind c with
    | none => cases frac <;> cases big <;> simp [finishFloat, finishInt, Out.app]
    | some k =>
      simp only
      cases r with
      | nil =>
        simp only [List.nil_append]
        split
        · rename_i e; simp at e
        · rename_i e; simp [w.ne.1] at e
        · rename_i c' r2 _ e
          simp only [List.cons.injEq] at e
          obtain ⟨rfl, rfl⟩ := e
          simp [w.notDigit, finishFloat, Out.app]
      | cons d r =>
        by_cases hd : d = '-'
        · subst hd
          simp only [List.cons_append]
          rw [scanDigits_app w]
          rfl
        · have e1 : ∀ (t : List Char), (match d :: t with
              | [] => finishFloat bad neg k base ds exp []
              | '-' :: r2 =>
                let (e, _, es, r3) := scanDigits none 10 0 false [] r2
                finishFloat (bad || es.isEmpty) neg k base ds (exp - Verif.Parser.asInt e) r3
              | c' :: r2 =>
                if isDigit c' then
                  let (e, _, _, r3) := scanDigits none 10 0 false [] (c' :: r2)
                  finishFloat bad neg k base ds (exp + Verif.Parser.asInt e) r3
                else finishFloat bad neg k base ds exp (c' :: r2)) =
              (if isDigit d then
                  let (e, _, _, r3) := scanDigits none 10 0 false [] (d :: t)
                  finishFloat bad neg k base ds (exp + Verif.Parser.asInt e) r3
                else finishFloat bad neg k base ds exp (d :: t)) := by
            intro t
            split
            · rename_i e; simp at e
            · rename_i e; simp [hd] at e
            · rename_i e; simp only [List.cons.injEq] at e; rw [e.1, e.2]
          refine (e1 (r ++ s :: q)).trans ?_
          refine Eq.trans ?_ (congrArg (Out.app · (s :: q)) (e1 r)).symm
          split
          · have := scanDigits_app (q := q) w none 10 (d :: r) 0 false []
            simp only [List.cons_append] at this
            rw [this]
            rfl
          · rfl

theorem scanScale_app (bad neg base v big ds frac exp r) :
    scanScale bad neg base v big ds frac exp (r ++ s :: q) =
      (scanScale bad neg base v big ds frac exp r).app (s :: q) := by
  have h : ∀ t : List Char, (∀ r', t ≠ 's' :: r') →
      scanScale bad neg base v big ds frac exp t = scanExp bad neg base v big ds frac exp t := by
    intro t ht
    unfold scanScale
    split
    · rename_i r'; exact absurd rfl (ht r')
    · rfl
  cases r with
  | nil =>
    rw [h, h, scanExp_app w]
    · simp
    · simp [w.ne.2.1]
  | cons c r =>
    by_cases hc : c = 's'
    · subst hc
      cases r with
      | nil => simp [scanScale, w.notDigit, w.notId, finishScaled, Out.app]
      | cons d r =>
        simp only [List.cons_append, scanScale]
        split
        · have := scanDigits_app (q := q) w none 10 (d :: r) 0 false []
          simp only [List.cons_append] at this
          rw [this]
          rfl
        · split
          · exact scanExp_app w bad neg base v big ds frac exp ('s' :: d :: r)
          · rfl
    · rw [h, h, scanExp_app w]
      · simp [hc]
      · simp [hc]

theorem scanFrac_app (bad neg base v big ds r) :
    scanFrac bad neg base v big ds (r ++ s :: q) = (scanFrac bad neg base v big ds r).app (s :: q) := by
  have h : ∀ t : List Char, (∀ c r' d, t = '.' :: c :: r' → digitOf base c ≠ some d) →
      scanFrac bad neg base v big ds t = scanScale bad neg base v big ds false 0 t := by
    intro t ht
    unfold scanFrac
    split
    · rename_i c r'
      split
      · rename_i e; exact absurd e (ht c r' _ rfl)
      · rfl
    · rfl
  by_cases hr : ∃ c r', r = '.' :: c :: r' ∧ ∃ d, digitOf base c = some d
  · obtain ⟨c, r', rfl, d, hd⟩ := hr
    simp only [List.cons_append, scanFrac, hd]
    have := scanDigits_app (q := q) w (some (limit neg)) base (c :: r') v big ds
    simp only [List.cons_append] at this
    rw [this]
    exact scanScale_app w ..
  · rw [h, h, scanScale_app w]
    · rintro c r' d rfl e; exact hr ⟨c, r', rfl, d, e⟩
    · intro c r' d e
      cases r with
      | nil => simp [w.ne] at e
      | cons a r =>
        cases r with
        | nil =>
          simp only [List.cons_append, List.nil_append, List.cons.injEq] at e
          rw [← e.2.1, w.dig]; simp
        | cons b r =>
          simp only [List.cons_append, List.cons.injEq] at e
          intro e2
          exact hr ⟨b, r, by rw [e.1], d, by rw [e.2.1]; exact e2⟩

theorem scanNumber_app (r) : scanNumber (r ++ s :: q) = (scanNumber r).app (s :: q) := by
  unfold scanNumber
  rw [scanDigits_app w]
  generalize scanDigits (some maxInt) 10 0 false [] r = x
  obtain ⟨v, big, ds, r'⟩ := x
  simp only
  have h : ∀ t : List Char, (∀ r', t ≠ 'r' :: r') → (match t with
    | 'r' :: r1 =>
      let tooBig : Bool := decide (36 < v) || big
      let base := if tooBig then 10 else v
      let neg := r1.head? == some '-'
      let r2 := if neg then r1.tail else r1
      let (v', big', ds', r3) := scanDigits (some (limit neg)) base 0 big [] r2
      scanFrac (tooBig || ds'.isEmpty) neg base v' big' ds' r3
    | _ => scanFrac ds.isEmpty false 10 v big ds t) = scanFrac ds.isEmpty false 10 v big ds t := by
    intro t ht
    split
    · rename_i r'; exact absurd rfl (ht r')
    · rfl
  cases r' with
  | nil =>
    refine (h ([] ++ s :: q) (by simp [w.ne])).trans ?_
    refine Eq.trans ?_ (congrArg (Out.app · (s :: q)) (h [] (by simp))).symm
    exact scanFrac_app w ..
  | cons c r' =>
    by_cases hc : c = 'r'
    · subst hc
      simp only [List.cons_append]
      have e1 : ((r' ++ s :: q).head? == some '-') = (r'.head? == some '-') := by
        cases r' with
        | nil => simp [w.ne]
        | cons => simp
      have e2 : (if (r'.head? == some '-') = true then (r' ++ s :: q).tail else r' ++ s :: q) =
          (if (r'.head? == some '-') = true then r'.tail else r') ++ s :: q := by
        cases r' with
        | nil => simp
        | cons a t => by_cases ha : a = '-' <;> simp [ha]
      rw [e1, e2, scanDigits_app w]
      exact scanFrac_app w ..
    · refine (h _ (by simp [hc])).trans ?_
      refine Eq.trans ?_ (congrArg (Out.app · _) (h _ (by simp [hc]))).symm
      exact scanFrac_app w ..

theorem scanBin_app (c r) : scanBin c (r ++ s :: q) = ((scanBin c r).1, (scanBin c r).2 ++ s :: q) := by
  cases r with
  | nil => simp [scanBin, w.notBin]
  | cons d r =>
    simp only [List.cons_append, scanBin]
    split
    · split
      · cases r with
        | nil => simp [w.notDigit]
        | cons e r =>
          simp only [List.cons_append]
          split <;> rfl
      · rfl
    · rfl

theorem scanString_app : ∀ r, (scanString r).2.1 = false → scanString (r ++ s :: q) =
    ((scanString r).1, false, (scanString r).2.2 ++ s :: q)
  | [], h => by simp [scanString] at h
  | [c], h => by
    by_cases hc : c = '\''
    · subst hc; simp [scanString, w.ne]
    · simp [scanString, hc] at h
  | c :: d :: r, h => by
    by_cases hc : c = '\''
    · subst hc
      by_cases hd : d = '\''
      · subst hd
        have := scanString_app r (by simpa [scanString] using h)
        simp [scanString, this]
      · simp [scanString, hd]
    · have := scanString_app (d :: r) (by rw [scanString, if_neg hc] at h; exact h)
      rw [scanString.eq_def]
      simp only [List.cons_append, hc, if_false] at this ⊢
      rw [this]
      conv_rhs => rw [scanString.eq_def]
      simp only [hc, if_false]

omit w in
theorem takeWhile_app {p : Char → Bool} (h : p s = false) : ∀ r : List Char,
    (r ++ s :: q).takeWhile p = r.takeWhile p ∧ (r ++ s :: q).dropWhile p = r.dropWhile p ++ s :: q
  | [] => by simp [h]
  | c :: r => by
    have := takeWhile_app h r
    simp only [List.cons_append, List.takeWhile_cons, List.dropWhile_cons]
    split
    · exact ⟨by rw [this.1], this.2⟩
    · exact ⟨rfl, rfl⟩

theorem scanSymbol_app (r) (h : (scanSymbol r).bad = false) :
    scanSymbol (r ++ s :: q) = (scanSymbol r).app (s :: q) := by
  cases r with
  | nil => simp [scanSymbol, w.notBin, w.notSym, w.ne, Out.app]
  | cons c r =>
    simp only [List.cons_append]
    rw [scanSymbol, scanSymbol]
    rw [scanSymbol] at h
    split
    · rw [scanBin_app w]; rfl
    · rename_i h1
      rw [if_neg h1] at h
      split
      · rename_i h2
        rw [if_pos h2] at h
        have := scanString_app (q := q) w r h
        simp only at h ⊢
        rw [this]
        simp [Out.app, h]
      · split
        · rw [(takeWhile_app w.notSym r).1, (takeWhile_app w.notSym r).2]; rfl
        · rfl

theorem scanIdent_app (c r) : scanIdent c (r ++ s :: q) = (scanIdent c r).app (s :: q) := by
  unfold scanIdent
  rw [(takeWhile_app w.notId r).1, (takeWhile_app w.notId r).2]
  generalize r.takeWhile isId = t
  generalize r.dropWhile isId = u
  have h : ∀ u : List Char, (∀ r', u ≠ '.' :: r') → (∀ r', u ≠ ':' :: r') → (match u with
    | '.' :: r1 =>
      match r1 with
      | d :: _ => if isId d then (⟨some (.tok (.ident (c :: t))), false, ':' :: ':' :: r1⟩ : Out)
                  else ⟨some (.tok (.ident (c :: t))), false, '.' :: r1⟩
      | [] => ⟨some (.tok (.ident (c :: t))), false, '.' :: r1⟩
    | ':' :: r1 =>
      match r1 with
      | d :: _ => if d = ':' ∨ d = '=' then ⟨some (.tok (.ident (c :: t))), false, ':' :: r1⟩
                  else ⟨some (.tok (.keyword (c :: t ++ [':']))), false, r1⟩
      | [] => ⟨some (.tok (.keyword (c :: t ++ [':']))), false, r1⟩
    | r' => ⟨some (.tok (.ident (c :: t))), false, r'⟩) = ⟨some (.tok (.ident (c :: t))), false, u⟩ := by
    intro u h1 h2
    split
    · rename_i r'; exact absurd rfl (h1 r')
    · rename_i r'; exact absurd rfl (h2 r')
    · rfl
  cases u with
  | nil =>
    refine (h _ (by simp [w.ne]) (by simp [w.ne])).trans ?_
    rfl
  | cons d u =>
    by_cases h1 : d = '.'
    · subst h1
      cases u with
      | nil => simp [w.notId, Out.app]
      | cons e u =>
        simp only [List.cons_append]
        split <;> rfl
    · by_cases h2 : d = ':'
      · subst h2
        cases u with
        | nil => simp [w.ne, Out.app]
        | cons e u =>
          simp only [List.cons_append]
          split <;> rfl
      · refine (h _ (by simp [h1]) (by simp [h2])).trans ?_
        refine Eq.trans ?_ (congrArg (Out.app · _) (h _ (by simp [h1]) (by simp [h2]))).symm
        rfl

theorem scanColon_app (r) : scanColon (r ++ s :: q) = (scanColon r).app (s :: q) := by
  have h : ∀ u : List Char, (∀ r', u ≠ '=' :: r') → (∀ r', u ≠ ':' :: r') →
      scanColon u = ⟨some (.tok .colon), false, u⟩ := by
    intro u h1 h2
    unfold scanColon
    split
    · rename_i r'; exact absurd rfl (h1 r')
    · rename_i r'; exact absurd rfl (h2 r')
    · rfl
  cases r with
  | nil =>
    rw [h, h] <;> simp [w.ne, Out.app]
  | cons c r =>
    by_cases h1 : c = '='
    · subst h1; rfl
    · by_cases h2 : c = ':'
      · subst h2; rfl
      · rw [h, h] <;> simp [h1, h2, Out.app]

omit w in
theorem scanComment_app : ∀ r, (scanComment r).bad = false → scanComment (r ++ s :: q) = (scanComment r).app (s :: q)
  | [], h => by simp [scanComment] at h
  | c :: r, h => by
    simp only [List.cons_append]
    rw [scanComment, scanComment]
    rw [scanComment] at h
    split
    · rfl
    · rename_i h1
      rw [if_neg h1] at h
      exact scanComment_app r h

/-- A round that meets no error does not look behind white space. -/
theorem step_app (c r) (h : (step c r).bad = false) : step c (r ++ s :: q) = (step c r).app (s :: q) := by
  unfold step at h ⊢
  split
  · rfl
  · rename_i h0
    rw [if_neg h0] at h
    split
    · exact scanNumber_app w (c :: r)
    · rename_i h1
      rw [if_neg h1] at h
      split
      · exact scanIdent_app w c r
      · rename_i h2
        rw [if_neg h2] at h
        split
        · rw [scanBin_app w]; rfl
        · rename_i h3
          rw [if_neg h3] at h
          split
          · rename_i h4
            rw [if_pos h4] at h
            have := scanString_app (q := q) w r h
            simp only at h ⊢
            rw [this]
            simp [Out.app, h]
          · rename_i h4
            rw [if_neg h4] at h
            split
            · rename_i h5
              rw [if_pos h5] at h
              exact scanSymbol_app w r h
            · rename_i h5
              rw [if_neg h5] at h
              split
              · exact scanColon_app w r
              · rename_i h6
                rw [if_neg h6] at h
                split
                · rename_i h7
                  rw [if_pos h7] at h
                  exact scanComment_app r h
                · rename_i h7
                  rw [if_neg h7] at h
                  split
                  · rename_i h8
                    rw [if_pos h8] at h
                    cases r with
                    | nil => simp [scanChar] at h
                    | cons d r => rfl
                  · split <;> rfl

end

theorem lexGo_app {s : Char} (w : W s) {g r us b} (hr : lexGo g (s :: r) = some (us, b)) :
    ∀ f u ts, lexGo f u = some (ts, false) → lexGo (f + g) (u ++ s :: r) = some (ts ++ us, b)
  | f, [], ts, h => by
    have e : ts = [] := by simp [lexGo] at h; exact h
    subst e
    exact lexGo_mono hr (by omega)
  | 0, c :: u, ts, h => by simp [lexGo] at h
  | f + 1, c :: u, ts, h => by
    simp only [lexGo] at h
    cases e : lexGo f (step c u).rest with
    | none => simp [e] at h
    | some x =>
      obtain ⟨ts', b'⟩ := x
      rw [e] at h
      simp only [Option.some.injEq, Prod.mk.injEq, Bool.or_eq_false_iff] at h
      obtain ⟨h1, h2, h3⟩ := h
      subst h3
      have := lexGo_app w hr f _ _ e
      rw [show f + 1 + g = (f + g) + 1 by omega, List.cons_append]
      simp only [lexGo, step_app w c u h2, Out.app]
      rw [this, h2, ← h1]
      simp

/-- Text that was read without errors keeps its tokens if a separator follows. -/
theorem lex_sep {s : Char} (w : W s) {u r ts us b} (hu : lex u = some (ts, false))
    (hr : lex (s :: r) = some (us, b)) : lex (u ++ s :: r) = some (ts ++ us, b) := by
  have := lexGo_app w hr _ _ _ hu
  unfold lex
  refine lexGo_mono this ?_
  simp only [List.length_append, List.length_cons]
  omega

theorem lex_white {s : Char} (hs : isWhite s = true) (r) : lex (s :: r) = lex r := by
  rw [lex_cons]
  simp [step, hs]

end Verif.Lexer
