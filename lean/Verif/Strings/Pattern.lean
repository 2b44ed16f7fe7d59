import Verif.Strings.Find

/-!
# Patterns
-/

namespace Verif.Strings

/-- A text matches a pattern: `*` stands for any text, `#` for any character, others for themselves. -/
inductive Glob : List Char → List Char → Prop
  | nil : Glob [] []
  | star {ps : List Char} (a : List Char) {t : List Char} : Glob ps t → Glob ('*' :: ps) (a ++ t)
  | any {ps t : List Char} (c : Char) : Glob ps t → Glob ('#' :: ps) (c :: t)
  | char {ps t : List Char} {c : Char} : c ≠ '*' → c ≠ '#' → Glob ps t → Glob (c :: ps) (c :: t)

/-- The text from index `s` to index `e`. -/
def between (xs : List Char) (s e : ℕ) : List Char := (xs.drop (s - 1)).take (e + 1 - s)

theorem drop_cons {xs : List Char} {s : ℕ} (h : s < xs.length) : ∃ c, xs[s]? = some c ∧ xs.drop s = c :: xs.drop (s + 1) :=
  ⟨xs[s], List.getElem?_eq_getElem h, List.drop_eq_getElem_cons h⟩

theorem between_self (xs : List Char) (s : ℕ) (hs : 1 ≤ s) : between xs s (s - 1) = [] := by
  unfold between
  rw [show s - 1 + 1 - s = 0 by omega]
  simp

theorem between_cons {xs : List Char} {s e : ℕ} {c : Char} (hs : 1 ≤ s) (he : s ≤ e) (hc : xs[s - 1]? = some c) :
    between xs s e = c :: between xs (s + 1) e := by
  unfold between
  have h := (List.getElem?_eq_some_iff.1 hc)
  obtain ⟨h1, h2⟩ := h
  rw [List.drop_eq_getElem_cons h1, h2, show e + 1 - s = (e + 1 - (s + 1)) + 1 by omega, List.take_succ_cons,
    show s - 1 + 1 = s + 1 - 1 by omega]

theorem between_append {xs : List Char} {s m e : ℕ} (hs : 1 ≤ s) (hm : s ≤ m) (he : m ≤ e + 1) :
    between xs s e = between xs s (m - 1) ++ between xs m e := by
  unfold between
  rw [show e + 1 - s = (m - 1 + 1 - s) + (e + 1 - m) by omega, List.take_add, List.drop_drop,
    show s - 1 + (m - 1 + 1 - s) = m - 1 by omega]

/-- Where a match ends. -/
def Ends (xs ps : List Char) (s e : ℕ) : Prop := s ≤ e + 1 ∧ e ≤ xs.length ∧ Glob ps (between xs s e)

theorem ends_nil {xs : List Char} {s e : ℕ} (hs : 1 ≤ s) (hl : s ≤ xs.length + 1) : Ends xs [] s e ↔ e = s - 1 := by
  constructor
  · rintro ⟨h1, h2, h3⟩
    generalize hb : between xs s e = b at h3
    cases h3
    have := congrArg List.length hb
    unfold between at this
    rw [List.length_take, List.length_drop, List.length_nil] at this
    omega
  · rintro rfl
    refine ⟨by omega, by omega, ?_⟩
    rw [between_self _ _ hs]
    exact .nil

theorem ends_star {xs ps : List Char} {s e : ℕ} (hs : 1 ≤ s) :
    Ends xs ('*' :: ps) s e ↔ ∃ m, s ≤ m ∧ m ≤ xs.length + 1 ∧ Ends xs ps m e := by
  constructor
  · rintro ⟨h1, h2, h3⟩
    generalize hb : between xs s e = b at h3
    cases h3 with
    | @star _ a t h =>
      have hl := congrArg List.length hb
      have hl' : (between xs s e).length = e + 1 - s := by
        unfold between
        rw [List.length_take, List.length_drop]
        omega
      rw [hl', List.length_append] at hl
      refine ⟨s + a.length, by omega, by omega, by omega, h2, ?_⟩
      rw [between_append (m := s + a.length) hs (by omega) (by omega)] at hb
      have : (between xs s (s + a.length - 1)).length = a.length := by
        unfold between
        rw [List.length_take, List.length_drop]
        omega
      rw [(List.append_inj hb this).2]
      exact h
    | char h => exact absurd rfl h
  · rintro ⟨m, h1, h2, h3, h4, h5⟩
    refine ⟨by omega, h4, ?_⟩
    rw [between_append hs h1 h3]
    exact .star _ h5

theorem ends_char {xs ps : List Char} {s e : ℕ} {pc : Char} (hs : 1 ≤ s) (hp : pc ≠ '*') :
    Ends xs (pc :: ps) s e ↔ s ≤ xs.length ∧ (pc = '#' ∨ some pc = xs[s - 1]?) ∧ Ends xs ps (s + 1) e := by
  constructor
  · rintro ⟨h1, h2, h3⟩
    have hse : s ≤ e := by
      by_contra hc
      rw [show e = s - 1 by omega, between_self _ _ hs] at h3
      generalize hb : ([] : List Char) = b at h3
      cases h3 with
      | star => exact absurd rfl hp
      | any => exact absurd hb (by simp)
      | char => exact absurd hb (by simp)
    obtain ⟨c, hc, _⟩ := drop_cons (xs := xs) (s := s - 1) (by omega)
    rw [between_cons hs hse hc] at h3
    refine ⟨by omega, ?_⟩
    rw [hc]
    generalize hb : c :: between xs (s + 1) e = b at h3
    cases h3 with
    | star => exact absurd rfl hp
    | any c' h =>
      rw [← (List.cons.inj hb).2] at h
      exact ⟨Or.inl rfl, by omega, h2, h⟩
    | char h1 h2' h =>
      rw [← (List.cons.inj hb).2] at h
      exact ⟨Or.inr (by rw [(List.cons.inj hb).1]), by omega, h2, h⟩
  · rintro ⟨h1, h2, h3, h4, h5⟩
    obtain ⟨c, hc, _⟩ := drop_cons (xs := xs) (s := s - 1) (by omega)
    refine ⟨by omega, h4, ?_⟩
    rw [between_cons hs (by omega) hc]
    by_cases hh : pc = '#'
    · subst hh; exact .any c h5
    · rcases h2 with h2 | h2
      · exact absurd h2 hh
      · rw [hc] at h2
        obtain rfl := Option.some.inj h2
        exact .char hp hh h5

/-- A later start does not make the longest match end earlier. -/
theorem ends_later {xs : List Char} : ∀ (ps : List Char) (s s' e e' : ℕ), 1 ≤ s → s ≤ s' → s ≤ xs.length + 1 → s' ≤ xs.length + 1 →
    Ends xs ps s e → Ends xs ps s' e' → ∃ e'', e ≤ e'' ∧ e' ≤ e'' ∧ Ends xs ps s' e'' := by
  intro ps
  induction ps with
  | nil =>
    intro s s' e e' hs hss hl hl' h h'
    refine ⟨e', ?_, le_refl _, h'⟩
    rw [ends_nil (by omega) (by omega)] at h h'
    omega
  | cons pc ps ih =>
    intro s s' e e' hs hss hl hl' h h'
    by_cases hp : pc = '*'
    · subst hp
      rw [ends_star hs] at h
      rw [ends_star (by omega)] at h'
      obtain ⟨m, h1, h2, h3⟩ := h
      obtain ⟨m', h1', h2', h3'⟩ := h'
      rcases Nat.le_total m m' with hm | hm
      · obtain ⟨e'', a, b, c⟩ := ih m m' e e' (by omega) hm h2 h2' h3 h3'
        exact ⟨e'', a, b, (ends_star (by omega)).2 ⟨m', h1', h2', c⟩⟩
      · obtain ⟨e'', a, b, c⟩ := ih m' m e' e (by omega) hm h2' h2 h3' h3
        exact ⟨e'', b, a, (ends_star (by omega)).2 ⟨m, by omega, h2, c⟩⟩
    · rw [ends_char hs hp] at h
      rw [ends_char (by omega) hp] at h'
      obtain ⟨h1, h2, h3⟩ := h
      obtain ⟨h1', h2', h3'⟩ := h'
      obtain ⟨e'', a, b, c⟩ := ih (s + 1) (s' + 1) e e' (by omega) (by omega) (by omega) (by omega) h3 h3'
      exact ⟨e'', a, b, (ends_char (by omega) hp).2 ⟨h1', h2', c⟩⟩

theorem findSome_range'_rev {β : Type} {f : ℕ → Option β} : ∀ (n a : ℕ) (b : β),
    ((List.range' a n).reverse).findSome? f = some b ↔
      ∃ j, a ≤ j ∧ j < a + n ∧ f j = some b ∧ ∀ k, j < k → k < a + n → f k = none := by
  intro n
  induction n with
  | zero => intro a b; simp; omega
  | succ n ih =>
    intro a b
    rw [List.range'_concat, List.reverse_append, List.reverse_singleton, List.singleton_append, List.findSome?_cons, Nat.one_mul]
    cases hf : f (a + n) with
    | some b' =>
      simp only [Option.some.injEq]
      constructor
      · rintro rfl
        exact ⟨a + n, by omega, by omega, hf, fun k h1 h2 => by omega⟩
      · rintro ⟨j, h1, h2, h3, h4⟩
        by_cases hj : j = a + n
        · rw [hj, hf] at h3; exact Option.some.inj h3
        · have := h4 (a + n) (by omega) (by omega)
          rw [hf] at this
          exact absurd this (by simp)
    | none =>
      simp only
      rw [ih]
      constructor
      · rintro ⟨j, h1, h2, h3, h4⟩
        refine ⟨j, h1, by omega, h3, fun k hk hl => ?_⟩
        by_cases hk' : k = a + n
        · rw [hk', hf]
        · exact h4 k hk (by omega)
      · rintro ⟨j, h1, h2, h3, h4⟩
        have : j ≠ a + n := fun e => by rw [e, hf] at h3; simp at h3
        exact ⟨j, h1, by omega, h3, fun k hk hl => h4 k hk (by omega)⟩

theorem findSome_range'_rev_none {β : Type} {f : ℕ → Option β} {n a : ℕ} :
    ((List.range' a n).reverse).findSome? f = none ↔ ∀ k, a ≤ k → k < a + n → f k = none := by
  rw [List.findSome?_eq_none_iff]
  simp only [List.mem_reverse, List.mem_range'_1, and_imp]

/-- The answer is the longest match. -/
theorem matchAt_spec {xs : List Char} : ∀ (ps : List Char) (s : ℕ), 1 ≤ s → s ≤ xs.length + 1 →
    (∀ e, matchAt xs ps s = some e → Ends xs ps s e ∧ ∀ e', Ends xs ps s e' → e' ≤ e) ∧
    (matchAt xs ps s = none → ∀ e, ¬ Ends xs ps s e) := by
  intro ps
  induction ps with
  | nil =>
    intro s hs hl
    unfold matchAt
    simp only [Option.some.injEq, reduceCtorEq, false_implies, and_true]
    rintro e rfl
    refine ⟨(ends_nil hs hl).2 rfl, fun e' h => ?_⟩
    rw [ends_nil hs hl] at h
    omega
  | cons pc ps ih =>
    intro s hs hl
    unfold matchAt
    by_cases hp : pc = '*'
    · rw [if_pos hp]
      subst hp
      constructor
      · intro e h
        rw [findSome_range'_rev] at h
        obtain ⟨j, h1, h2, h3, h4⟩ := h
        obtain ⟨h5, h6⟩ := (ih j (by omega) (by omega)).1 e h3
        refine ⟨(ends_star hs).2 ⟨j, h1, by omega, h5⟩, fun e' h => ?_⟩
        obtain ⟨m, g1, g2, g3⟩ := (ends_star hs).1 h
        rcases Nat.lt_or_ge j m with hm | hm
        · exact absurd g3 ((ih m (by omega) g2).2 (h4 m hm (by omega)) e')
        · obtain ⟨e'', a, _, c⟩ := ends_later ps m j e' e (by omega) hm g2 (by omega) g3 h5
          exact le_trans a (h6 _ c)
      · intro h e he
        rw [findSome_range'_rev_none] at h
        obtain ⟨m, g1, g2, g3⟩ := (ends_star hs).1 he
        exact (ih m (by omega) g2).2 (h m g1 (by omega)) e g3
    · rw [if_neg hp]
      by_cases h1 : s > xs.length
      · rw [if_pos h1]
        refine ⟨by simp, fun _ e he => ?_⟩
        have := ((ends_char hs hp).1 he).1
        omega
      · rw [if_neg h1]
        by_cases h2 : pc ≠ '#' ∧ some pc ≠ xs[s - 1]?
        · rw [if_pos h2]
          refine ⟨by simp, fun _ e he => ?_⟩
          rcases ((ends_char hs hp).1 he).2.1 with h | h
          · exact h2.1 h
          · exact h2.2 h
        · rw [if_neg h2]
          have h3 : pc = '#' ∨ some pc = xs[s - 1]? := by
            by_contra hc
            exact h2 (not_or.1 hc)
          obtain ⟨i1, i2⟩ := ih (s + 1) (by omega) (by omega)
          refine ⟨fun e he => ?_, fun hn e he => ?_⟩
          · obtain ⟨a, b⟩ := i1 e he
            refine ⟨(ends_char hs hp).2 ⟨by omega, h3, a⟩, fun e' he' => b e' ((ends_char hs hp).1 he').2.2⟩
          · exact i2 hn e ((ends_char hs hp).1 he).2.2

theorem matchAt_all (xs ps : List Char) : matchAt xs ps 1 = some xs.length ↔ Glob ps xs := by
  have hb : between xs 1 xs.length = xs := by
    unfold between
    simp
  obtain ⟨h1, h2⟩ := matchAt_spec (xs := xs) ps 1 (le_refl _) (by omega)
  constructor
  · intro h
    have := (h1 _ h).1.2.2
    rwa [hb] at this
  · intro h
    have he : Ends xs ps 1 xs.length := ⟨by omega, le_refl _, by rw [hb]; exact h⟩
    cases hm : matchAt xs ps 1 with
    | none => exact absurd he (h2 hm _)
    | some e =>
      obtain ⟨a, b⟩ := h1 e hm
      have := b _ he
      have := a.2.1
      congr 1
      omega

theorem findSome_range' {β : Type} {f : ℕ → Option β} : ∀ (n a : ℕ) (b : β),
    (List.range' a n).findSome? f = some b ↔
      ∃ j, a ≤ j ∧ j < a + n ∧ f j = some b ∧ ∀ k, a ≤ k → k < j → f k = none := by
  intro n
  induction n with
  | zero => intro a b; simp; omega
  | succ n ih =>
    intro a b
    rw [List.range'_succ, List.findSome?_cons]
    cases hf : f a with
    | some b' =>
      simp only [Option.some.injEq]
      constructor
      · rintro rfl
        exact ⟨a, by omega, by omega, hf, fun k h1 h2 => by omega⟩
      · rintro ⟨j, h1, h2, h3, h4⟩
        by_cases hj : j = a
        · rw [hj, hf] at h3; exact Option.some.inj h3
        · have := h4 a (by omega) (by omega)
          rw [hf] at this
          exact absurd this (by simp)
    | none =>
      simp only
      rw [ih]
      constructor
      · rintro ⟨j, h1, h2, h3, h4⟩
        refine ⟨j, by omega, by omega, h3, fun k hk hl => ?_⟩
        by_cases hk' : k = a
        · rw [hk', hf]
        · exact h4 k (by omega) (by omega)
      · rintro ⟨j, h1, h2, h3, h4⟩
        have : j ≠ a := fun e => by rw [e, hf] at h3; simp at h3
        exact ⟨j, by omega, by omega, h3, fun k hk hl => h4 k (by omega) (by omega)⟩

theorem search_some {xs ps : List Char} {i s e : ℕ} (hi : 1 ≤ i) :
    (List.range' i (xs.length + 1 - i)).findSome? (fun i => (matchAt xs ps i).map fun e => (i, e)) = some (s, e) ↔
      (i ≤ s ∧ s ≤ xs.length ∧ Ends xs ps s e ∧ ∀ e', Ends xs ps s e' → e' ≤ e) ∧ ∀ s' e', i ≤ s' → s' < s → ¬ Ends xs ps s' e' := by
  rw [findSome_range']
  constructor
  · rintro ⟨j, h1, h2, h3, h4⟩
    rw [Option.map_eq_some_iff] at h3
    obtain ⟨e', h5, h6⟩ := h3
    obtain ⟨rfl, rfl⟩ := Prod.mk.inj h6
    obtain ⟨a, b⟩ := (matchAt_spec ps j (by omega) (by omega)).1 _ h5
    refine ⟨⟨h1, by omega, a, b⟩, fun s' e' hs hl => ?_⟩
    have := h4 s' hs hl
    rw [Option.map_eq_none_iff] at this
    exact (matchAt_spec ps s' (by omega) (by omega)).2 this e'
  · rintro ⟨⟨h1, h2, h3, h4⟩, h5⟩
    refine ⟨s, h1, by omega, ?_, fun k hk hl => ?_⟩
    · obtain ⟨i1, i2⟩ := matchAt_spec (xs := xs) ps s (by omega) (by omega)
      cases hm : matchAt xs ps s with
      | none => exact absurd h3 (i2 hm e)
      | some e' =>
        obtain ⟨a, b⟩ := i1 e' hm
        have := b _ h3
        have := h4 _ a
        simp only [Option.map_some, Option.some.injEq, Prod.mk.injEq, true_and]
        omega
    · rw [Option.map_eq_none_iff]
      cases hm : matchAt xs ps k with
      | none => rfl
      | some e' => exact absurd ((matchAt_spec (xs := xs) ps k (by omega) (by omega)).1 e' hm).1 (h5 k e' hk hl)

theorem search_none {xs ps : List Char} {i : ℕ} (hi : 1 ≤ i) :
    (List.range' i (xs.length + 1 - i)).findSome? (fun i => (matchAt xs ps i).map fun e => (i, e)) = none ↔
      ∀ s e, i ≤ s → s ≤ xs.length → ¬ Ends xs ps s e := by
  rw [List.findSome?_eq_none_iff]
  simp only [List.mem_range'_1, Option.map_eq_none_iff]
  constructor
  · intro h s e h1 h2
    exact (matchAt_spec ps s (by omega) (by omega)).2 (h s ⟨h1, by omega⟩) e
  · intro h k hk
    cases hm : matchAt xs ps k with
    | none => rfl
    | some e => exact absurd ((matchAt_spec (xs := xs) ps k (by omega) (by omega)).1 e hm).1 (h k e hk.1 (by omega))

end Verif.Strings
