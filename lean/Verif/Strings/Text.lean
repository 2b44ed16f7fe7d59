import Verif.Strings.Find

/-!
# Templates, shell words, streams
-/

namespace Verif.Strings

/-! ### Templates -/

/-- What a key looks like in a template. -/
inductive KeySrc where
  | digit (c : Char) (n : ℕ)
  | name (s : List Char)

/-- The pieces of a template. -/
inductive Piece where
  | lit (c : Char)
  | percent
  | arg (k : KeySrc)
  | choice (t f : List Char) (k : KeySrc)

def KeySrc.key : KeySrc → Key
  | .digit _ n => .num n
  | .name s => .str s

def KeySrc.src : KeySrc → List Char
  | .digit c _ => [c]
  | .name s => '(' :: s ++ [')']

/-- The digits are 0 to 9 and A to Z; a name does not contain its end. -/
def KeySrc.Ok : KeySrc → Prop
  | .digit c n => (∃ d < 10, c = Char.ofNat (48 + d) ∧ n = d) ∨ ∃ d < 26, c = Char.ofNat (65 + d) ∧ n = 10 + d
  | .name s => ')' ∉ s

/-- How a piece is written. -/
def Piece.src : Piece → List Char
  | .lit c => [c]
  | .percent => ['%', '%']
  | .arg k => '%' :: k.src
  | .choice t f k => '%' :: '<' :: (t ++ '|' :: (f ++ '>' :: k.src))

/-- What stands for a piece; `none` when the element is not there, or is not a Boolean where there is a choice. -/
def Piece.out (args : Key → Option Val) : Piece → Option (List Char)
  | .lit c => some [c]
  | .percent => some ['%']
  | .arg k => (args k.key).map Val.display
  | .choice t f k =>
    match args k.key with
    | some (.bool true) => some t
    | some (.bool false) => some f
    | _ => none

def Piece.Ok : Piece → Prop
  | .lit c => c ≠ '%'
  | .percent => True
  | .arg k => k.Ok
  | .choice t f k => '|' ∉ t ∧ '>' ∉ f ∧ k.Ok

theorem upTo_append {c : Char} {s rest : List Char} (h : c ∉ s) : upTo c (s ++ c :: rest) = (s, rest) := by
  have h1 : (s ++ c :: rest).takeWhile (· ≠ c) = s := by
    induction s with
    | nil => simp
    | cons x xs ih =>
      rw [List.mem_cons, not_or] at h
      rw [List.cons_append, List.takeWhile_cons, if_pos (by simpa using Ne.symm h.1), ih h.2]
  have h2 : (s ++ c :: rest).dropWhile (· ≠ c) = c :: rest := by
    clear h1
    induction s with
    | nil => simp
    | cons x xs ih =>
      rw [List.mem_cons, not_or] at h
      rw [List.cons_append, List.dropWhile_cons, if_pos (by simpa using Ne.symm h.1), ih h.2]
  unfold upTo
  rw [h1, h2]
  rfl

theorem digit_ok {c : Char} {n : ℕ}
    (h : (∃ d < 10, c = Char.ofNat (48 + d) ∧ n = d) ∨ ∃ d < 26, c = Char.ofNat (65 + d) ∧ n = 10 + d) :
    digitValue c = some n ∧ c ≠ '(' ∧ c ≠ '%' ∧ c ≠ '<' := by
  have h1 : ∀ d < 10, digitValue (Char.ofNat (48 + d)) = some d ∧ Char.ofNat (48 + d) ≠ '(' ∧ Char.ofNat (48 + d) ≠ '%' ∧
      Char.ofNat (48 + d) ≠ '<' := by decide
  have h2 : ∀ d < 26, digitValue (Char.ofNat (65 + d)) = some (10 + d) ∧ Char.ofNat (65 + d) ≠ '(' ∧ Char.ofNat (65 + d) ≠ '%' ∧
      Char.ofNat (65 + d) ≠ '<' := by decide
  rcases h with ⟨d, hd, rfl, rfl⟩ | ⟨d, hd, rfl, rfl⟩
  · exact h1 _ hd
  · exact h2 _ hd

theorem readKey_src {k : KeySrc} (hk : k.Ok) (rest : List Char) : readKey (k.src ++ rest) = some (k.key, rest) := by
  cases k with
  | digit c n =>
    obtain ⟨h1, h2, _⟩ := digit_ok hk
    simp only [KeySrc.src, List.cons_append, List.nil_append, readKey, if_neg h2, h1, KeySrc.key, Option.map_some]
  | name s =>
    simp only [KeySrc.src, List.cons_append, List.append_assoc, List.nil_append, readKey]
    rw [if_pos trivial, upTo_append hk]
    rfl

/-- The first character of a key. -/
theorem key_src_cons {k : KeySrc} (hk : k.Ok) : ∃ c cs, k.src = c :: cs ∧ c ≠ '%' ∧ c ≠ '<' := by
  cases k with
  | digit c n =>
    obtain ⟨_, _, h3, h4⟩ := digit_ok hk
    exact ⟨c, [], rfl, h3, h4⟩
  | name s => exact ⟨'(', s ++ [')'], rfl, by decide, by decide⟩

theorem percent_arg {args : Key → Option Val} {k : KeySrc} (hk : k.Ok) (n : ℕ) (rest : List Char) :
    percent args (n + 1) ('%' :: (k.src ++ rest)) =
      match args k.key with
      | none => .error
      | some v => (percent args n rest).bind fun r => .done (v.display ++ r) := by
  obtain ⟨c, cs, h1, h2, h3⟩ := key_src_cons hk
  have h := readKey_src hk rest
  rw [h1] at h ⊢
  rw [List.cons_append] at h ⊢
  conv_lhs => unfold percent
  rw [if_neg (by simp)]
  simp only
  rw [if_neg h2, if_neg h3]
  simp only [h]
  cases args k.key <;> rfl

theorem percent_choice {args : Key → Option Val} {t f : List Char} {k : KeySrc} (ht : '|' ∉ t) (hf : '>' ∉ f) (hk : k.Ok)
    (n : ℕ) (rest : List Char) :
    percent args (n + 1) ('%' :: '<' :: (t ++ '|' :: (f ++ '>' :: (k.src ++ rest)))) =
      match args k.key with
      | some (.bool b) => (percent args n rest).bind fun r => .done ((if b then t else f) ++ r)
      | _ => .error := by
  conv_lhs => unfold percent
  rw [if_neg (by simp)]
  simp only
  rw [if_neg (by decide), if_pos trivial, upTo_append ht]
  simp only
  rw [upTo_append hf]
  simp only
  rw [readKey_src hk]
  simp only
  cases args k.key with
  | none => rfl
  | some v => cases v <;> rfl

/-- What stands for all the pieces. -/
def outs (args : Key → Option Val) : List Piece → Option (List Char)
  | [] => some []
  | p :: ps => (p.out args).bind fun a => (outs args ps).map fun b => a ++ b

theorem src_pos {p : Piece} : 1 ≤ p.src.length := by
  cases p <;> simp [Piece.src]

/-- What `%` answers, as an outcome. -/
def answer : Option (List Char) → Out (List Char)
  | none => .error
  | some t => .done t

theorem percent_pieces (args : Key → Option Val) : ∀ (ps : List Piece), (∀ p ∈ ps, p.Ok) → ∀ n, (ps.flatMap Piece.src).length ≤ n →
    percent args n (ps.flatMap Piece.src) = answer (outs args ps) := by
  intro ps
  induction ps with
  | nil => intro _ n _; cases n <;> rfl
  | cons p ps ih =>
    intro hp n hn
    rw [List.flatMap_cons, List.length_append] at hn
    have h1 := src_pos (p := p)
    cases n with
    | zero => omega
    | succ n =>
      have hi := ih (fun q hq => hp q (by simp [hq])) n (by omega)
      have hk := hp p (by simp)
      rw [List.flatMap_cons]
      cases p with
      | lit c =>
        simp only [Piece.src, List.cons_append, List.nil_append, outs, Piece.out, Option.bind_some]
        have hk' : c ≠ '%' := hk
        unfold percent
        rw [if_pos hk', hi]
        cases outs args ps <;> rfl
      | percent =>
        simp only [Piece.src, List.cons_append, List.nil_append, outs, Piece.out, Option.bind_some]
        unfold percent
        rw [if_neg (by simp)]
        simp only
        rw [if_pos trivial, hi]
        cases outs args ps <;> rfl
      | arg k =>
        simp only [Piece.src, List.cons_append, outs, Piece.out]
        rw [percent_arg hk, hi]
        cases args k.key with
        | none => rfl
        | some v => cases outs args ps <;> rfl
      | choice t f k =>
        obtain ⟨h2, h3, h4⟩ := hk
        simp only [Piece.src, List.cons_append, List.append_assoc, outs, Piece.out]
        rw [percent_choice h2 h3 h4, hi]
        cases args k.key with
        | none => rfl
        | some v =>
          cases v with
          | text t => rfl
          | bool b => cases b <;> cases outs args ps <;> rfl

/-! ### Shell words -/

/-- What the shell does not take as it is: operators, quotes, expansions, patterns, comments, and the end of the command. -/
def active (c : Char) : Bool := c ∈ "|&;<>()$`\"'*?[#~=!{}^\n".toList

/-- The words of a command without anything active, and not inside quotes (POSIX Shell Command Language, 2.2 and 2.3): blanks end
words, a backslash keeps the next character as it is. -/
def shellWords : Option (List Char) → List Char → Option (List (List Char))
  | none, [] => some []
  | some w, [] => some [w]
  | _, ['\\'] => none
  | cur, '\\' :: c :: cs => if c = '\n' then shellWords cur cs else shellWords (some (cur.getD [] ++ [c])) cs
  | cur, c :: cs =>
    if c = ' ' ∨ c = '\t' then
      match cur with
      | none => shellWords none cs
      | some w => (shellWords none cs).map (w :: ·)
    else if active c then none
    else shellWords (some (cur.getD [] ++ [c])) cs

/-- Every special character gets a backslash. -/
theorem escapeLoop_eq : ∀ (xs : List Char) (j : ℕ),
    escapeLoop (j + (xs.filter special).length) j xs = xs.flatMap fun c => if special c then ['\\', c] else [c] := by
  intro xs
  induction xs with
  | nil => intro j; rfl
  | cons c cs ih =>
    intro j
    unfold escapeLoop
    by_cases h : special c
    · rw [List.filter_cons_of_pos h, List.length_cons, if_pos (by omega), if_pos h, List.flatMap_cons, if_pos h]
      have := ih (j + 1)
      rw [show j + 1 + (cs.filter special).length = j + ((cs.filter special).length + 1) by omega] at this
      rw [this]
      rfl
    · rw [List.filter_cons_of_neg h, if_neg h, List.flatMap_cons, if_neg h]
      by_cases hj : j < j + (cs.filter special).length
      · rw [if_pos hj, ih]; rfl
      · rw [if_neg hj]
        have h0 : (cs.filter special).length = 0 := by omega
        have h1 : ∀ x ∈ cs, ¬ special x = true := by
          intro x hx hs
          have := List.length_pos_of_mem (List.mem_filter.2 ⟨hx, hs⟩)
          omega
        rw [List.singleton_append]
        congr 1
        clear ih hj h0
        induction cs with
        | nil => rfl
        | cons d ds ih =>
          rw [List.flatMap_cons, if_neg (h1 d (by simp)), List.singleton_append, ← ih (fun x hx => h1 x (by simp [hx]))]

theorem shellEscape_eq (xs : List Char) : shellEscape xs = xs.flatMap fun c => if special c then ['\\', c] else [c] := by
  have := escapeLoop_eq xs 0
  rw [Nat.zero_add] at this
  unfold shellEscape
  simp only
  by_cases h : (xs.filter special).length = 0
  · rw [if_pos h, ← this, h]
    cases xs with
    | nil => rfl
    | cons c cs => simp [escapeLoop]
  · rw [if_neg h, this]

theorem shell_plain {c : Char} (h : special c = false) : c ≠ '\\' ∧ c ≠ ' ' ∧ (c ≠ '\n' → active c = false) := by
  have h1 : ∀ d, d ∈ " '\"`|^>[=<;()*&$!#~{}?\\".toList → special d = true := fun d hd => by simpa [special] using hd
  refine ⟨fun e => ?_, fun e => ?_, fun hn => ?_⟩
  · subst e; exact absurd h (by decide)
  · subst e; exact absurd h (by decide)
  · by_contra hc
    have hm : c ∈ "|&;<>()$`\"'*?[#~=!{}^\n".toList := by
      rw [Bool.not_eq_false] at hc
      unfold active at hc
      exact of_decide_eq_true hc
    have h2 : ∀ d ∈ "|&;<>()$`\"'*?[#~=!{}^\n".toList, d ≠ '\n' → special d = true := by decide
    rw [h2 c hm hn] at h
    simp at h

theorem shell_lex : ∀ (xs : List Char), (∀ c ∈ xs, c ≠ '\t' ∧ c ≠ '\n') → ∀ cur : Option (List Char),
    shellWords cur (xs.flatMap fun c => if special c then ['\\', c] else [c]) =
      some (if xs = [] then cur.toList else [cur.getD [] ++ xs]) := by
  intro xs
  induction xs with
  | nil => intro _ cur; cases cur <;> rfl
  | cons c cs ih =>
    intro h cur
    obtain ⟨ht, hn⟩ := h c (by simp)
    have hi := ih (fun d hd => h d (by simp [hd])) (some (cur.getD [] ++ [c]))
    rw [List.flatMap_cons, if_neg (List.cons_ne_nil c cs)]
    have hr : (if cs = [] then (some (cur.getD [] ++ [c])).toList else [(some (cur.getD [] ++ [c])).getD [] ++ cs]) =
        [cur.getD [] ++ c :: cs] := by
      by_cases hc : cs = []
      · subst hc; simp
      · rw [if_neg hc]; simp
    rw [hr] at hi
    by_cases hs : special c
    · rw [if_pos hs]
      simp only [List.cons_append, List.nil_append]
      rw [shellWords.eq_4, if_neg hn, hi]
    · rw [if_neg hs]
      obtain ⟨h1, h2, h3⟩ := shell_plain (by simpa using hs)
      simp only [List.cons_append, List.nil_append]
      have h4 : ¬ (c = ' ' ∨ c = '\t') := by tauto
      have h5 : ¬ active c = true := by rw [h3 hn]; simp
      rw [← hi]
      cases cur <;> simp [shellWords, h1, h4, h5]

end Verif.Strings
