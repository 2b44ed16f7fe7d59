import Verif.Strings.Pattern
import Verif.Strings.Split
import Verif.Strings.Text
import Verif.Strings.Kmp

/-!
# What the string messages answer
-/

namespace Verif.Strings

variable {α : Type} [DecidableEq α]

/-! ## C160: `indexOfSubCollection:startingAt:` -/

/-- The answer is the first place, at or after the index, where the elements are those looked for; there is no answer only if there is no
such place. -/
theorem first_occurrence (xs sub : List α) (hs : sub ≠ []) (i : ℕ) (hi : 1 ≤ i) :
    (∀ j, indexOfSub xs sub i = some j ↔
      i ≤ j ∧ (∃ a b, xs = a ++ sub ++ b ∧ a.length + 1 = j) ∧ ∀ a b, xs = a ++ sub ++ b → i ≤ a.length + 1 → j ≤ a.length + 1) ∧
    (indexOfSub xs sub i = none ↔ ∀ a b, xs = a ++ sub ++ b → a.length + 1 < i) := by
  have hat : ∀ j, At xs sub j ↔ ∃ a b, xs = a ++ sub ++ b ∧ a.length + 1 = j := by
    intro j
    constructor
    · rintro ⟨h1, b, hb⟩
      have hl := congrArg List.length hb
      have := List.length_pos_iff.2 hs
      rw [List.length_append, List.length_drop] at hl
      refine ⟨xs.take (j - 1), b, by rw [List.append_assoc, hb, List.take_append_drop], ?_⟩
      rw [List.length_take]
      omega
    · rintro ⟨a, b, rfl, rfl⟩
      refine ⟨by omega, b, ?_⟩
      rw [Nat.add_sub_cancel, List.append_assoc, List.drop_left]
  constructor
  · intro j
    rw [indexOfSub_some hs hi, hat]
    refine and_congr_right fun _ => and_congr_right fun _ => ?_
    constructor
    · intro h a b hab hia
      by_contra hc
      exact h (a.length + 1) hia (by omega) ((hat _).2 ⟨a, b, hab, rfl⟩)
    · intro h k hk hj hak
      obtain ⟨a, b, hab, he⟩ := (hat k).1 hak
      have := h a b hab (by omega)
      omega
  · rw [indexOfSub_none hs hi]
    constructor
    · intro h a b hab
      by_contra hc
      exact h (a.length + 1) (by omega) ((hat _).2 ⟨a, b, hab, rfl⟩)
    · intro h k hk hak
      obtain ⟨a, b, hab, he⟩ := (hat k).1 hak
      have := h a b hab
      omega

example : indexOfSub "abcabcd".toList "abcd".toList 1 = some 4 ∧ indexOfSub "abcabcd".toList "abc".toList 2 = some 4 ∧
    indexOfSub "abcabcd".toList "abc".toList 5 = none := by decide

/-! ## C161: `copyReplaceAll:with:` -/

/-- There is one way to replace from the left; both implementations answer it. -/
theorem replace_all (z : α) (xs old new : List α) (ho : old ≠ []) :
    ∃ r, Replaced old new xs r ∧ (∀ s, Replaced old new xs s → s = r) ∧
      ∀ n, xs.length < n → copyReplaceAll n z xs old new = .done r ∧ copyReplaceAllSeq n xs old new = .done r := by
  obtain ⟨r, hr⟩ := replaced_exists old new ho (xs.length + 1) xs (by omega)
  exact ⟨r, hr, fun s hs => replaced_unique hs hr, fun n hn => copyReplaceAll_eq ho hr z n hn⟩

/-- Replacing something with itself changes nothing. -/
theorem replace_same (z : α) (xs old : List α) (ho : old ≠ []) (n : ℕ) (hn : xs.length < n) :
    copyReplaceAll n z xs old old = .done xs ∧ copyReplaceAllSeq n xs old old = .done xs := by
  obtain ⟨r, hr, _, h⟩ := replace_all z xs old old ho
  have : ∀ xs r : List α, Replaced old old xs r → r = xs := by
    intro xs r hr
    induction hr with
    | stop => rfl
    | step _ _ ih => rw [ih]
  rw [this xs r hr] at h
  exact h n hn

/-- Looking for nothing never ends. -/
theorem replace_empty_never (z : α) (xs new : List α) (n : ℕ) :
    copyReplaceAll n z xs [] new = .never ∧ copyReplaceAllSeq n xs [] new = .never := by
  unfold copyReplaceAll copyReplaceAllSeq
  rw [count_empty]
  exact ⟨rfl, rfl⟩

example : copyReplaceAll 10 ' ' "aaaba".toList "aa".toList "xyz".toList = .done "xyzaba".toList ∧
    copyReplaceAllSeq 10 "aaaba".toList "aa".toList "xyz".toList = .done "xyzaba".toList ∧
    copyReplaceAll 10 ' ' "abcbc".toList "bc".toList [] = .done "a".toList := by decide

/-- The range from `start` to `stop` is replaced, or there is an error. -/
theorem replace_range (z : α) (xs new : List α) (start stop : ℕ) :
    copyReplaceFrom z xs start stop new =
      if 1 ≤ start ∧ start ≤ stop + 1 ∧ stop ≤ xs.length then .done (xs.take (start - 1) ++ new ++ xs.drop stop) else .error :=
  copyReplaceFrom_eq z xs new start stop

example : copyReplaceFrom 0 [1, 2, 3, 4] 2 3 [7, 8, 9] = .done [1, 7, 8, 9, 4] ∧ copyReplaceFrom 0 [1, 2, 3, 4] 3 2 [7] = .done [1, 2, 7, 3, 4] ∧
    copyReplaceFrom 0 [1, 2, 3, 4] 3 5 [7] = .error := by decide

/-! ## C162: `subStrings:`, `join:separatedBy:`, `trimSeparators` -/

/-- The words are what is between separators, where there is something. -/
theorem words_between (sep : α → Bool) (xs : List α) :
    subStrings sep xs = (xs.splitOnP sep).filter fun w => !w.isEmpty :=
  subStrings_eq sep xs

/-- All the parts, with the separator between them. -/
theorem joined (z : α) (parts : List (List α)) (sep : List α) : join z parts sep = .done (sep.intercalate parts) :=
  join_eq z parts sep

/-- Words that are joined come back. -/
theorem join_words (z : α) (sep : α → Bool) (d : α) (hd : sep d = true) (ws : List (List α))
    (hw : ∀ w ∈ ws, w ≠ [] ∧ ∀ c ∈ w, sep c = false) :
    ∃ t, join z ws [d] = .done t ∧ subStrings sep t = ws := by
  refine ⟨_, join_eq z ws [d], ?_⟩
  have h := words_join sep d hd ws hw
  rw [words_split] at h
  rw [subStrings_eq]
  have e : ∀ l : List (List α), l.modifyHead (fun x => [] ++ x) = l := by intro l; cases l <;> simp
  rwa [e] at h

example : ∃ t, join ' ' ["one".toList, "two".toList, "x".toList] [','] = .done t ∧ t = "one,two,x".toList ∧
    subStrings (· = ',') t = ["one".toList, "two".toList, "x".toList] ∧ subStrings (· = ',') ",,a,,b,".toList = ["a".toList, "b".toList] :=
  ⟨"one,two,x".toList, by decide, rfl, by decide, by decide⟩

/-- What is left has no separators at its ends, and only separators are missing; and that is only one text. -/
theorem trimmed (sep : α → Bool) (xs : List α) :
    (∃ a b, xs = a ++ trim sep xs ++ b ∧ (∀ c ∈ a ++ b, sep c = true) ∧
      (trim sep xs).head?.any sep = false ∧ (trim sep xs).getLast?.any sep = false) ∧
    ∀ a t b, xs = a ++ t ++ b → (∀ c ∈ a ++ b, sep c = true) → t.head?.any sep = false → t.getLast?.any sep = false →
      t = trim sep xs := by
  constructor
  · obtain ⟨a, t, b, h1, h2, h3, h4⟩ := trim_exists sep xs
    have ht := trim_eq sep a t b h2 h3 h4
    rw [← h1] at ht
    rw [ht]
    refine ⟨a, b, h1, ?_, ?_, ?_⟩
    · intro c hc
      rcases List.mem_append.1 hc with h | h
      · exact h2 c h
      · exact h3 c h
    · rcases h4 with rfl | ⟨⟨x, m, rfl, hx⟩, _⟩
      · rfl
      · simpa using hx
    · rcases h4 with rfl | ⟨_, m, x, rfl, hx⟩
      · rfl
      · simpa using hx
  · rintro a t b rfl h1 h2 h3
    symm
    refine trim_eq sep a t b (fun c hc => h1 c (by simp [hc])) (fun c hc => h1 c (by simp [hc])) ?_
    cases t using List.reverseRecOn with
    | nil => exact Or.inl rfl
    | append_singleton m y =>
      refine Or.inr ⟨?_, m, y, rfl, by simpa using h3⟩
      cases m with
      | nil => exact ⟨y, [], rfl, by simpa using h3⟩
      | cons x m => exact ⟨x, m ++ [y], rfl, by simpa using h2⟩

example : trim (· = ' ') "  a b  ".toList = "a b".toList ∧ trim (· = ' ') "   ".toList = [] := by decide

/-! ## C163: `match:` -/

/-- A pattern matches exactly the texts that it describes. -/
theorem match_iff (pat xs : List Char) : patternMatch pat xs false = true ↔ Glob pat xs := by
  unfold patternMatch
  simpa using matchAt_all xs pat

/-- Without case: the same on lower case. -/
theorem match_lower_iff (pat xs : List Char) : patternMatch pat xs true = true ↔ Glob (pat.map lower) (xs.map lower) := by
  have := matchAt_all (xs.map lower) (pat.map lower)
  rw [List.length_map] at this
  unfold patternMatch
  simpa using this

/-- The text from `s` to `e` matches. -/
def MatchFrom (pat xs : List Char) (s e : ℕ) : Prop :=
  ∃ a t b, xs = a ++ t ++ b ∧ a.length + 1 = s ∧ a.length + t.length = e ∧ Glob pat t

theorem matchFrom_iff (pat xs : List Char) (s e : ℕ) (hs : 1 ≤ s) : MatchFrom pat xs s e ↔ Ends xs pat s e := by
  constructor
  · rintro ⟨a, t, b, rfl, rfl, rfl, h⟩
    refine ⟨by omega, by simp, ?_⟩
    unfold between
    rw [Nat.add_sub_cancel, List.append_assoc, List.drop_left, show a.length + t.length + 1 - (a.length + 1) = t.length by omega,
      List.take_left]
    exact h
  · rintro ⟨h1, h2, h3⟩
    refine ⟨xs.take (s - 1), between xs s e, xs.drop e, ?_, ?_, ?_, h3⟩
    · have : xs.drop e = (xs.drop (s - 1)).drop (e + 1 - s) := by rw [List.drop_drop]; congr 1; omega
      unfold between
      rw [this, List.append_assoc, List.take_append_drop, List.take_append_drop]
    · rw [List.length_take]; omega
    · unfold between
      rw [List.length_take, List.length_take, List.length_drop]; omega

/-- The first place at or after the index where the pattern matches, and the longest match there. -/
theorem search_match (xs pat : List Char) (i : ℕ) (hi : 1 ≤ i) :
    (∀ s e, patternIndex xs pat true i = some (s, e) ↔
      (i ≤ s ∧ s ≤ xs.length ∧ MatchFrom pat xs s e ∧ ∀ e', MatchFrom pat xs s e' → e' ≤ e) ∧
        ∀ s' e', i ≤ s' → s' < s → ¬ MatchFrom pat xs s' e') ∧
    (patternIndex xs pat true i = none ↔ ∀ s e, i ≤ s → s ≤ xs.length → ¬ MatchFrom pat xs s e) := by
  unfold patternIndex
  simp only [if_true]
  constructor
  · intro s e
    rw [search_some hi]
    constructor
    · rintro ⟨⟨h1, h2, h3, h4⟩, h5⟩
      refine ⟨⟨h1, h2, (matchFrom_iff _ _ _ _ (by omega)).2 h3, fun e' he' => h4 e' ((matchFrom_iff _ _ _ _ (by omega)).1 he')⟩,
        fun s' e' a b c => h5 s' e' a b ((matchFrom_iff _ _ _ _ (by omega)).1 c)⟩
    · rintro ⟨⟨h1, h2, h3, h4⟩, h5⟩
      refine ⟨⟨h1, h2, (matchFrom_iff _ _ _ _ (by omega)).1 h3, fun e' he' => h4 e' ((matchFrom_iff _ _ _ _ (by omega)).2 he')⟩,
        fun s' e' a b c => h5 s' e' a b ((matchFrom_iff _ _ _ _ (by omega)).2 c)⟩
  · rw [search_none hi]
    constructor
    · exact fun h s e a b c => h s e a b ((matchFrom_iff _ _ _ _ (by omega)).1 c)
    · exact fun h s e a b c => h s e a b ((matchFrom_iff _ _ _ _ (by omega)).2 c)

example : patternMatch "*.s#".toList "kernel.st".toList false = true ∧ patternMatch "*.s#".toList "kernel.stx".toList false = false ∧
    patternMatch "A*".toList "abc".toList true = true ∧ patternIndex "xabcabd".toList "a*b".toList true 1 = some (2, 6) := by
  decide +kernel

/-! ## C164: `%` -/

/-- A template that is put together from pieces answers what stands for each of the pieces, or an error when an element is missing or
is not a Boolean where a choice is to be made. -/
theorem template_answer (args : Key → Option Val) (ps : List Piece) (hp : ∀ p ∈ ps, p.Ok) (n : ℕ)
    (hn : (ps.flatMap Piece.src).length ≤ n) :
    percent args n (ps.flatMap Piece.src) =
      match ps.mapM (Piece.out args) with
      | some ts => .done ts.flatten
      | none => .error := by
  rw [percent_pieces args ps hp n hn]
  have : ∀ ps : List Piece, outs args ps = (ps.mapM (Piece.out args)).map List.flatten := by
    intro ps
    induction ps with
    | nil => rfl
    | cons p ps ih =>
      unfold outs
      rw [ih, List.mapM_cons]
      cases p.out args with
      | none => rfl
      | some a => cases ps.mapM (Piece.out args) <;> rfl
  rw [this]
  cases ps.mapM (Piece.out args) <;> rfl

/-- A percent sign with nothing after it is an error. -/
theorem template_lone (args : Key → Option Val) (n : ℕ) : percent args (n + 1) ['%'] = .error := rfl

example :
    let args : Key → Option Val := fun k => if k = .num 1 then some (.text "one".toList) else if k = .str "b".toList then some (.bool false) else none
    percent args 40 "%1 %% %<yes|no>(b)".toList = .done "one % no".toList ∧ percent args 40 "%2".toList = .error := by
  decide +kernel

/-! ## C165: `withUnixShellEscapes` -/

/-- To the shell the escaped text is one word, and it is the text. -/
theorem shell_word_partial (xs : List Char) (hx : xs ≠ []) (ht : ∀ c ∈ xs, c ≠ '\t' ∧ c ≠ '\n') :
    shellWords none (shellEscape xs) = some [xs] := by
  rw [shellEscape_eq, shell_lex xs ht none, if_neg hx]
  rfl

/-- Not so when there are tabs, or newlines, or nothing. -/
theorem shell_words_differ :
    shellWords none (shellEscape "a\tb".toList) = some ["a".toList, "b".toList] ∧
      shellWords none (shellEscape "a\nb".toList) = none ∧ shellEscape "a\nb".toList = "a\nb".toList ∧
      shellWords none (shellEscape []) = some [] := by
  decide +kernel

example : shellEscape "it's; rm $x".toList = "it\\'s\\;\\ rm\\ \\$x".toList ∧
    shellWords none (shellEscape "it's; rm $x".toList) = some ["it's; rm $x".toList] := by
  decide +kernel

/-! ## C166: `asInteger` -/

/-- The number that the leading digits stand for, whatever follows them, with its sign. -/
theorem integer_read (ds : List (Fin 10)) (hd : ds ≠ []) (rest : List Char)
    (hr : ∀ c cs, rest = c :: cs → c.toNat < 48 ∨ 57 < c.toNat) :
    asInteger (ds.map digitChar ++ rest) = (Nat.ofDigits 10 (ds.reverse.map Fin.val) : ℕ) ∧
      asInteger ('-' :: (ds.map digitChar ++ rest)) = -((Nat.ofDigits 10 (ds.reverse.map Fin.val) : ℕ) : ℤ) :=
  asInteger_digits ds hd rest hr

/-- Zero when there are none. -/
theorem integer_none (rest : List Char) (hr : ∀ c cs, rest = c :: cs → c.toNat < 48 ∨ 57 < c.toNat) (hm : rest.head? ≠ some '-') :
    asInteger rest = 0 ∧ asInteger ('-' :: rest) = 0 := by
  cases rest with
  | nil => exact ⟨rfl, rfl⟩
  | cons c cs =>
    have h := hr c cs rfl
    have hc : c ≠ '-' := by simpa using hm
    simp only [asInteger, intLoop]
    rw [if_pos (by omega), if_neg hc, if_pos (by decide), if_pos trivial, if_pos (by omega)]
    exact ⟨rfl, rfl⟩

example : asInteger "120 apples".toList = 120 ∧ asInteger "-007".toList = -7 ∧ asInteger "x1".toList = 0 := by decide

/-! ## C167: `upToAll:`, `skipToAll:` -/

/-- When what is looked for has two items or more, and the first does not come again in it: the answer is what is before the first
occurrence, and the stream is just past it; or all that was left when there is none. -/
theorem up_to_all_partial (xs p : List α) (hx : xs ≠ []) (hp : 2 ≤ p.length) (hn : ∀ x q, p = x :: q → x ∉ q) :
    ∃ a b, upToAll xs p = .done (a, b) ∧ skipToAll xs p = .done (decide (p <:+: xs), b) ∧
      ((xs = a ++ p ++ b ∧ ∀ a' b', xs = a' ++ p ++ b' → a.length ≤ a'.length) ∨ (¬ p <:+: xs ∧ a = xs ∧ b = [])) := by
  obtain ⟨a, b, h1, h2, h3⟩ := upToAll_spec hx hp (by
    intro i hi hl he
    cases p with
    | nil => simp at hp
    | cons x q =>
      refine hn x q rfl ?_
      cases i with
      | zero => omega
      | succ i =>
        rw [List.getElem?_cons_succ, List.getElem?_cons_zero] at he
        exact List.mem_of_getElem? he)
  refine ⟨a, b, h1, h3, ?_⟩
  rcases h2 with ⟨h4, h5⟩ | h
  · refine Or.inl ⟨h4, fun a' b' h6 => ?_⟩
    by_contra hc
    refine h5 a'.length (by omega) ?_
    rw [h6, List.append_assoc, List.drop_left]
    exact List.prefix_append _ _
  · exact Or.inr h

/-- An occurrence is missed when the first items come again; and looking for one item is an error. -/
theorem up_to_all_misses :
    upToAll "aaab!".toList "aab".toList = .done ("aaab!".toList, []) ∧ "aab".toList <:+: "aaab!".toList ∧
      skipToAll "aaab!".toList "aab".toList = .done (false, []) ∧ ∀ (x : α) (xs : List α), xs ≠ [] → upToAll xs [x] = .error := by
  refine ⟨by decide +kernel, by decide, by decide +kernel, fun x xs hx => ?_⟩
  unfold upToAll
  rw [if_neg (by simp [hx])]
  rfl

example : upToAll "one--two".toList "->".toList = .done ("one--two".toList, []) ∧
    upToAll "a-b->c".toList "->".toList = .done ("a-b".toList, "c".toList) := by decide +kernel

end Verif.Strings
