import Verif.Stream.Search
/-!
# What searching a stream finds, and what it misses
-/

namespace Verif.Stream

set_option linter.unusedSectionVars false

variable {α : Type} [DecidableEq α]

/-! ## The table -/

/-- What the table holds after its first `k` places are set. -/
def tab (k n : Nat) : List Nat := 0 :: (List.replicate (k - 1) 1 ++ List.replicate (n - k) 0)

theorem tab_length {k n : Nat} (h1 : 1 ≤ k) (h2 : k ≤ n) : (tab k n).length = n := by
  simp only [tab, List.length_cons, List.length_append, List.length_replicate]; omega

theorem tab_get {k n i : Nat} (h2 : 2 ≤ i) (hi : i ≤ k) : getTab (tab k n) i = some 1 := by
  obtain ⟨m, rfl⟩ : ∃ m, i = m + 2 := ⟨i - 2, by omega⟩
  have e : m + 2 - 1 = m + 1 := by omega
  rw [getTab, if_neg (by omega), e, tab, List.getElem?_cons_succ,
    List.getElem?_append_left (by rw [List.length_replicate]; omega), List.getElem?_replicate,
    if_pos (by omega)]

theorem tab_put {k n : Nat} (h1 : 1 ≤ k) (hk : k < n) :
    putTab (tab k n) (k + 1) 1 = some (tab (k + 1) n) := by
  obtain ⟨m, rfl⟩ : ∃ m, k = m + 1 := ⟨k - 1, by omega⟩
  obtain ⟨q, rfl⟩ : ∃ q, n = m + 1 + (q + 1) := ⟨n - (m + 1) - 1, by omega⟩
  rw [putTab, if_neg (by rw [tab_length (by omega) (by omega)]; omega)]
  have e1 : m + 1 + (q + 1) - (m + 1) = q + 1 := by omega
  have e2 : m + 1 + (q + 1) - (m + 1 + 1) = q := by omega
  simp only [tab, Nat.add_sub_cancel, e1, e2, List.set_cons_succ]
  rw [List.set_append_right _ _ (by simp)]
  simp only [List.length_replicate, Nat.sub_self, List.replicate_succ, List.set_cons_zero]
  rw [← List.replicate_succ, List.replicate_succ', List.append_assoc]; rfl

theorem fillTab_eq (p : List α) (n : Nat) : ∀ (m i : Nat), 2 ≤ i → i + m ≤ p.length →
    p.length = n → fillTab p m i (tab i n) = some (tab (i + m) n) := by
  intro m
  induction m with
  | zero => intro i _ _ _; rfl
  | succ m ih =>
    intro i h2 hm hn
    have hp : getPat p i = some p[i - 1] := by
      rw [getPat, if_neg (by omega), List.getElem?_eq_getElem]
    have hj : getTab (tab i n) i = some 1 := tab_get h2 (Nat.le_refl i)
    rw [fillTab, hp, hj]
    simp only [fallBack, Nat.le_refl, if_true]
    rw [tab_put (by omega) (by omega)]
    simp only
    rw [ih (i + 1) (by omega) (by omega) hn]
    congr 2; omega

/-- The table that is meant to say how far a partial match can be kept says "start again" for
every pattern: 0 for the first place and 1 for all others. -/
theorem table_is_trivial (p : List α) (h : 2 ≤ p.length) :
    prefixTable p = some (0 :: List.replicate (p.length - 1) 1) := by
  have e1 : putTab (List.replicate p.length 0) 1 0 = some (tab 1 p.length) := by
    obtain ⟨m, hm⟩ : ∃ m, p.length = m + 1 := ⟨p.length - 1, by omega⟩
    rw [putTab, if_neg (by rw [List.length_replicate]; omega), hm, List.replicate_succ]
    simp [tab]
  rw [prefixTable, e1]
  simp only
  rw [tab_put (by omega) (by omega)]
  simp only
  rw [fillTab_eq p p.length (p.length - 2) 2 (Nat.le_refl 2) (by omega) rfl]
  have : 2 + (p.length - 2) = p.length := by omega
  rw [this]
  simp [tab]

/-- For a sequence of one element there is no table at all: storing at index 2 is an error. -/
theorem table_of_one (x : α) : prefixTable [x] = none := by
  simp [prefixTable, putTab]

/-! ## One element -/

/-- What one element does, given the table: with `a` the first element of the sequence. -/
theorem advance_eq (p : List α) (a : α) (hp : 2 ≤ p.length) (ha : p.head? = some a) (ch : α)
    (j : Nat) (h1 : 1 ≤ j) (hj : j ≤ p.length) :
    advance p (tab p.length p.length) ch (p.length + 1) j =
      some (if p[j - 1]? = some ch then j + 1 else if ch = a then 2 else 1) := by
  have hget : ∀ i, 1 ≤ i → i ≤ p.length → getPat p i = p[i - 1]? := by
    intro i h _; rw [getPat, if_neg (by omega)]
  have hfirst : ∀ fuel, 1 ≤ fuel → advance p (tab p.length p.length) ch fuel 1 =
      some (if ch = a then 2 else 1) := by
    intro fuel hf
    cases fuel with
    | zero => omega
    | succ fuel =>
      have h0 : p[1 - 1]? = some a := by rw [← ha, List.head?_eq_getElem?]
      rw [advance, hget 1 (by omega) (by omega), h0]
      by_cases hc : ch = a
      · simp [hc]
      · have : getTab (tab p.length p.length) 1 = some 0 := by simp [getTab, tab]
        simp [hc, this]
  by_cases hj1 : j = 1
  · subst hj1
    rw [hfirst _ (by omega)]
    have h0 : p[1 - 1]? = some a := by rw [← ha, List.head?_eq_getElem?]
    rw [h0]
    by_cases hc : ch = a
    · simp [hc]
    · simp [hc, Ne.symm hc]
  · have hb : j - 1 < p.length := by omega
    rw [advance, hget j h1 hj, List.getElem?_eq_getElem hb]
    simp only [Option.some.injEq]
    by_cases hc : ch = p[j - 1]
    · rw [if_pos hc, if_pos hc.symm]
    · rw [if_neg hc, if_neg (fun h => hc h.symm), tab_get (by omega) hj]
      simp only [Nat.one_ne_zero, if_false]
      exact hfirst _ (by omega)

/-! ## Occurrences -/

/-- `m` elements of `l` end with the sequence `p`. -/
def EndsAt (p l : List α) (m : Nat) : Prop := m ≤ l.length ∧ p <:+ l.take m

theorem suffix_concat {p t : List α} {c : α} {k : Nat} (hk : p[k]? = some c)
    (h : p.take k <:+ t) : p.take (k + 1) <:+ t ++ [c] := by
  obtain ⟨r, hr⟩ := h
  refine ⟨r, ?_⟩
  rw [List.take_add_one, hk, ← List.append_assoc, hr]; rfl

theorem suffix_unconcat {p t : List α} {c : α} {k : Nat} (hk : k < p.length)
    (h : p.take (k + 1) <:+ t ++ [c]) : p.take k <:+ t ∧ p[k]? = some c := by
  obtain ⟨r, hr⟩ := h
  rw [List.take_add_one, List.getElem?_eq_getElem hk, ← List.append_assoc] at hr
  have := List.append_inj' hr rfl
  refine ⟨⟨r, this.1⟩, ?_⟩
  have h2 := this.2
  simp only [Option.toList, List.cons.injEq, and_true] at h2
  rw [List.getElem?_eq_getElem hk, h2]

/-- If the first element of `p` does not come again in `p`, at most one non-empty prefix of `p`
is a suffix of a given list. -/
theorem prefix_unique {a : α} {q t : List α} (ha : a ∉ q) {m m' : Nat} (h1 : 1 ≤ m)
    (hlt : m < m') (hm' : m' ≤ q.length + 1) (h : (a :: q).take m <:+ t)
    (h' : (a :: q).take m' <:+ t) : False := by
  have hs : (a :: q).take m <:+ (a :: q).take m' := by
    refine List.suffix_of_suffix_length_le h h' ?_
    simp only [List.length_take, List.length_cons]; omega
  obtain ⟨r, hr⟩ := hs
  have hlen : r.length = m' - m := by
    have := congrArg List.length hr
    simp only [List.length_append, List.length_take, List.length_cons] at this
    omega
  have hget : ((a :: q).take m')[m' - m]? = some a := by
    rw [← hr, List.getElem?_append_right (by omega), hlen, Nat.sub_self]
    obtain ⟨k, rfl⟩ : ∃ k, m = k + 1 := ⟨m - 1, by omega⟩
    rfl
  rw [List.getElem?_take, if_pos (by omega)] at hget
  obtain ⟨k, hk⟩ : ∃ k, m' - m = k + 1 := ⟨m' - m - 1, by omega⟩
  rw [hk, List.getElem?_cons_succ] at hget
  exact ha (List.mem_of_getElem? hget)

/-- What is kept while scanning: the last `j - 1` elements read are the first of `p`, and the
scan goes on. -/
theorem scan_sound (p : List α) (hp : 2 ≤ p.length) :
    ∀ (l acc : List α) (j : Nat), 1 ≤ j → j ≤ p.length → p.take (j - 1) <:+ acc →
      ∃ b acc' l', scan p (tab p.length p.length) l j acc = some (b, acc', l') ∧
        acc' ++ l' = acc ++ l ∧ (b = true → p <:+ acc') ∧ (b = false → l' = []) := by
  obtain ⟨a, ha⟩ : ∃ a, p.head? = some a := by
    cases p with
    | nil => simp at hp
    | cons a q => exact ⟨a, rfl⟩
  intro l
  induction l with
  | nil =>
    intro acc j _ _ _
    exact ⟨false, acc, [], rfl, rfl, by simp, fun _ => rfl⟩
  | cons c l ih =>
    intro acc j h1 hj hs
    rw [scan, advance_eq p a hp ha c j h1 hj]
    simp only [tab_length (Nat.le_trans (by omega) hp) (Nat.le_refl _)]
    by_cases hc : p[j - 1]? = some c
    · have hs' : p.take j <:+ acc ++ [c] := by
        have := suffix_concat hc hs
        rwa [Nat.sub_add_cancel h1] at this
      simp only [if_pos hc]
      by_cases hf : p.length < j + 1
      · rw [if_pos hf]
        refine ⟨true, acc ++ [c], l, rfl, by simp, ?_, by simp⟩
        intro _
        have : j = p.length := by omega
        rw [this, List.take_length] at hs'
        exact hs'
      · rw [if_neg hf]
        obtain ⟨b, acc', l', e, e2, e3, e4⟩ := ih (acc ++ [c]) (j + 1) (by omega) (by omega) hs'
        exact ⟨b, acc', l', e, by rw [e2]; simp, e3, e4⟩
    · simp only [if_neg hc]
      by_cases hca : c = a
      · simp only [if_pos hca]
        rw [if_neg (by omega)]
        have hs' : p.take (2 - 1) <:+ acc ++ [c] := by
          refine ⟨acc, ?_⟩
          cases p with
          | nil => simp at hp
          | cons x q =>
            simp only [List.head?_cons, Option.some.injEq] at ha
            simp [ha, hca]
        obtain ⟨b, acc', l', e, e2, e3, e4⟩ := ih (acc ++ [c]) 2 (by omega) hp hs'
        exact ⟨b, acc', l', e, by rw [e2]; simp, e3, e4⟩
      · simp only [if_neg hca]
        rw [if_neg (by omega)]
        obtain ⟨b, acc', l', e, e2, e3, e4⟩ := ih (acc ++ [c]) 1 (by omega) (by omega)
          (by simp)
        exact ⟨b, acc', l', e, by rw [e2]; simp, e3, e4⟩

theorem tab_full (n : Nat) : tab n n = 0 :: List.replicate (n - 1) 1 := by
  simp [tab]

/-- Part of the claim, for every sequence of at least two elements: the answer is never an error;
when it is true, the elements just passed are the sequence; when it is false, the stream is at
its end.  Nothing is lost or reordered.  Missing: that an occurrence is found, see
`skipToAll_misses`. -/
theorem skipToAll_sound_partial (p l : List α) (hp : 2 ≤ p.length) :
    ∃ b rest, skipToAll p l = some (b, rest) ∧
      (b = true → ∃ pre, l = pre ++ p ++ rest) ∧ (b = false → rest = []) := by
  have hne : p ≠ [] := by intro h; subst h; simp at hp
  by_cases hl : l = []
  · exact ⟨false, [], by rw [skipToAll, if_pos hl, hl], fun h => (by cases h), fun _ => rfl⟩
  obtain ⟨b, acc', l', e, e2, e3, e4⟩ :=
    scan_sound p hp l [] 1 (by omega) (by omega) (by simp)
  refine ⟨b, l', ?_, ?_, e4⟩
  · rw [skipToAll, if_neg hl, if_neg hne, table_is_trivial p hp, ← tab_full]
    simp only [e, Option.map_some]
  · intro hb
    obtain ⟨pre, hpre⟩ := e3 hb
    exact ⟨pre, by rw [hpre, e2, List.nil_append]⟩

theorem upToAll_sound_partial (p l : List α) (hp : 2 ≤ p.length) (hl : l ≠ []) :
    ∃ res rest, upToAll p l = some (res, rest) ∧
      (l = res ++ p ++ rest ∨ (l = res ∧ rest = [])) := by
  have hne : p ≠ [] := by intro h; subst h; simp at hp
  obtain ⟨b, acc', l', e, e2, e3, e4⟩ :=
    scan_sound p hp l [] 1 (by omega) (by omega) (by simp)
  refine ⟨if b then acc'.take (acc'.length - p.length) else acc', l', ?_, ?_⟩
  · rw [upToAll, if_neg hl, if_neg hne, table_is_trivial p hp, ← tab_full]
    simp only [e, Option.map_some]
  · cases b with
    | true =>
      obtain ⟨pre, hpre⟩ := e3 rfl
      left
      simp only [if_true]
      have : acc'.take (acc'.length - p.length) = pre := by
        rw [← hpre]; simp
      rw [this, hpre, e2, List.nil_append]
    | false =>
      right
      have h4 := e4 rfl
      subst h4
      simp only [Bool.false_eq_true, if_false, and_true]
      simpa using e2.symm

/-- Scanning finds the first occurrence when the first element of the sequence does not come
again in it. -/
theorem scan_complete (a : α) (q : List α) (hq : q ≠ []) (ha : a ∉ q) :
    ∀ (l acc : List α) (j : Nat), 1 ≤ j → j ≤ q.length + 1 → (a :: q).take (j - 1) <:+ acc →
      (∀ m, 1 ≤ m → m ≤ q.length → (a :: q).take m <:+ acc → m = j - 1) →
      (∀ k, k ≤ acc.length → ¬ (a :: q) <:+ acc.take k) →
      ∃ b acc' l', scan (a :: q) (tab (q.length + 1) (q.length + 1)) l j acc = some (b, acc', l') ∧
        acc' ++ l' = acc ++ l ∧
        (b = true → (a :: q) <:+ acc' ∧ ∀ k, k < acc'.length → ¬ (a :: q) <:+ (acc ++ l).take k) ∧
        (b = false → l' = [] ∧ ∀ k, ¬ (a :: q) <:+ (acc ++ l).take k) := by
  have hql : 1 ≤ q.length := by
    cases q with
    | nil => exact absurd rfl hq
    | cons x q => simp
  have hp2 : 2 ≤ (a :: q).length := by simp only [List.length_cons]; omega
  intro l
  induction l with
  | nil =>
    intro acc j _ _ _ _ hno
    refine ⟨false, acc, [], rfl, rfl, by simp, fun _ => ⟨rfl, ?_⟩⟩
    intro k hk
    rw [List.append_nil] at hk
    by_cases hkl : k ≤ acc.length
    · exact hno k hkl hk
    · refine hno acc.length (Nat.le_refl _) ?_
      rw [List.take_length]
      rwa [List.take_of_length_le (by omega)] at hk
  | cons c l ih =>
    intro acc j h1 hj hs huniq hno
    have hadv := advance_eq (a :: q) a hp2 rfl c j h1 (by simp only [List.length_cons]; omega)
    simp only [List.length_cons] at hadv
    rw [scan]
    simp only [List.length_cons, hadv, tab_length (show 1 ≤ q.length + 1 by omega)
      (Nat.le_refl _)]
    have hold : ∀ k, k ≤ acc.length → ¬ (a :: q) <:+ (acc ++ [c]).take k := by
      intro k hk; rw [List.take_append_of_le_length hk]; exact hno k hk
    have happ : acc ++ c :: l = (acc ++ [c]) ++ l := by simp
    by_cases hc : (a :: q)[j - 1]? = some c
    · have hs' : (a :: q).take j <:+ acc ++ [c] := by
        have := suffix_concat hc hs
        rwa [Nat.sub_add_cancel h1] at this
      simp only [if_pos hc]
      by_cases hf : q.length + 1 < j + 1
      · rw [if_pos hf]
        refine ⟨true, acc ++ [c], l, rfl, by simp, fun _ => ⟨?_, ?_⟩, by simp⟩
        · have : j = (a :: q).length := by simp only [List.length_cons]; omega
          rw [this, List.take_length] at hs'
          exact hs'
        · intro k hk
          rw [List.length_append, List.length_singleton] at hk
          rw [happ, List.take_append_of_le_length (by
            rw [List.length_append, List.length_singleton]; omega)]
          exact hold k (by omega)
      · rw [if_neg hf]
        have hu : ∀ m, 1 ≤ m → m ≤ q.length → (a :: q).take m <:+ acc ++ [c] → m = j + 1 - 1 := by
          intro m hm1 hm2 hm
          rcases Nat.lt_trichotomy m j with h | h | h
          · exact (prefix_unique ha hm1 h (by omega) hm hs').elim
          · omega
          · exact (prefix_unique ha h1 h (by omega) hs' hm).elim
        have hno' : ∀ k, k ≤ (acc ++ [c]).length → ¬ (a :: q) <:+ (acc ++ [c]).take k := by
          intro k hk
          by_cases hkl : k ≤ acc.length
          · exact hold k hkl
          · rw [List.length_append, List.length_singleton] at hk
            rw [List.take_of_length_le (by rw [List.length_append, List.length_singleton]; omega)]
            intro hfull
            have hfull' : (a :: q).take (q.length + 1) <:+ acc ++ [c] := by
              rw [← List.length_cons (a := a), List.take_length]; exact hfull
            exact prefix_unique ha h1 (show j < q.length + 1 by omega) (Nat.le_refl _) hs' hfull'
        obtain ⟨b, acc', l', e, e2, e3, e4⟩ :=
          ih (acc ++ [c]) (j + 1) (by omega) (by omega) hs' hu hno'
        rw [happ]
        exact ⟨b, acc', l', e, e2, e3, e4⟩
    · simp only [if_neg hc]
      -- no longer prefix can go on: only the first element by itself
      have hback : ∀ m, 1 ≤ m → m ≤ q.length + 1 → (a :: q).take m <:+ acc ++ [c] →
          m = 1 ∧ c = a := by
        intro m hm1 hm2 hm
        obtain ⟨k, rfl⟩ : ∃ k, m = k + 1 := ⟨m - 1, by omega⟩
        obtain ⟨u1, u2⟩ := suffix_unconcat (by simp only [List.length_cons]; omega) hm
        by_cases hk0 : k = 0
        · subst hk0
          simp only [List.getElem?_cons_zero, Option.some.injEq] at u2
          exact ⟨rfl, u2.symm⟩
        · have := huniq k (by omega) (by omega) u1
          rw [← this] at hc
          exact absurd u2 hc
      have hno' : ∀ k, k ≤ (acc ++ [c]).length → ¬ (a :: q) <:+ (acc ++ [c]).take k := by
        intro k hk
        by_cases hkl : k ≤ acc.length
        · exact hold k hkl
        · rw [List.length_append, List.length_singleton] at hk
          rw [List.take_of_length_le (by rw [List.length_append, List.length_singleton]; omega)]
          intro hfull
          have hfull' : (a :: q).take (q.length + 1) <:+ acc ++ [c] := by
            rw [← List.length_cons (a := a), List.take_length]; exact hfull
          have := hback (q.length + 1) (by omega) (Nat.le_refl _) hfull'
          omega
      by_cases hca : c = a
      · simp only [if_pos hca]
        rw [if_neg (by omega)]
        have hs' : (a :: q).take (2 - 1) <:+ acc ++ [c] := ⟨acc, by simp [hca]⟩
        have hu : ∀ m, 1 ≤ m → m ≤ q.length → (a :: q).take m <:+ acc ++ [c] → m = 2 - 1 :=
          fun m hm1 hm2 hm => (hback m hm1 (by omega) hm).1
        obtain ⟨b, acc', l', e, e2, e3, e4⟩ :=
          ih (acc ++ [c]) 2 (by omega) (by omega) hs' hu hno'
        rw [happ]
        exact ⟨b, acc', l', e, e2, e3, e4⟩
      · simp only [if_neg hca]
        rw [if_neg (by omega)]
        have hu : ∀ m, 1 ≤ m → m ≤ q.length → (a :: q).take m <:+ acc ++ [c] → m = 1 - 1 :=
          fun m hm1 hm2 hm => absurd (hback m hm1 (by omega) hm).2 hca
        obtain ⟨b, acc', l', e, e2, e3, e4⟩ :=
          ih (acc ++ [c]) 1 (by omega) (by omega) (by simp) hu hno'
        rw [happ]
        exact ⟨b, acc', l', e, e2, e3, e4⟩

/-- Part of the claim: for a sequence of at least two elements whose first element does not come
again in it, `skipToAll:` answers true exactly when the sequence occurs, and stops just past its
first occurrence. -/
theorem skipToAll_first_partial (a : α) (q l : List α) (hq : q ≠ []) (ha : a ∉ q) :
    (∃ pre rest, l = pre ++ (a :: q) ++ rest ∧ skipToAll (a :: q) l = some (true, rest) ∧
      ∀ pre' rest', l = pre' ++ (a :: q) ++ rest' → pre.length ≤ pre'.length) ∨
    ((∀ pre rest, l ≠ pre ++ (a :: q) ++ rest) ∧ skipToAll (a :: q) l = some (false, [])) := by
  have hp : 2 ≤ (a :: q).length := by
    cases q with
    | nil => exact absurd rfl hq
    | cons x q => simp
  by_cases hl : l = []
  · refine Or.inr ⟨fun pre rest h => ?_, by rw [skipToAll, if_pos hl, hl]⟩
    rw [hl] at h
    simp at h
  obtain ⟨b, acc', l', e, e2, e3, e4⟩ := scan_complete a q hq ha l [] 1 (by omega) (by omega)
    (by simp) (by intro m h1 h2 h3; simp at h3; omega)
    (by intro k hk; simp)
  have hsk : skipToAll (a :: q) l = some (b, l') := by
    rw [skipToAll, if_neg hl, if_neg (by simp), table_is_trivial _ hp, ← tab_full]
    simp only [List.length_cons, e, Option.map_some]
  rw [List.nil_append] at e2 e3 e4
  have hends : ∀ pre' rest', l = pre' ++ (a :: q) ++ rest' →
      (a :: q) <:+ l.take (pre' ++ (a :: q)).length := by
    intro pre' rest' h
    have : l.take (pre' ++ (a :: q)).length = pre' ++ (a :: q) := by
      conv => lhs; rw [h]
      rw [List.take_append_of_le_length (Nat.le_refl _), List.take_length]
    rw [this]; exact ⟨pre', rfl⟩
  cases b with
  | true =>
    obtain ⟨⟨pre, hpre⟩, hmin⟩ := e3 rfl
    refine Or.inl ⟨pre, l', by rw [hpre, e2], hsk, ?_⟩
    intro pre' rest' h
    refine Nat.le_of_not_lt fun hlt => ?_
    refine hmin (pre' ++ (a :: q)).length ?_ (hends pre' rest' h)
    rw [← hpre]; simp only [List.length_append]; omega
  | false =>
    obtain ⟨h1, h2⟩ := e4 rfl
    refine Or.inr ⟨?_, by rw [hsk, h1]⟩
    intro pre rest h
    exact h2 _ (hends pre rest h)

/-- The same for `upToAll:`: what is answered is what comes before the first occurrence. -/
theorem upToAll_first_partial (a : α) (q l : List α) (hq : q ≠ []) (ha : a ∉ q) (hl : l ≠ []) :
    (∃ pre rest, l = pre ++ (a :: q) ++ rest ∧ upToAll (a :: q) l = some (pre, rest) ∧
      ∀ pre' rest', l = pre' ++ (a :: q) ++ rest' → pre.length ≤ pre'.length) ∨
    ((∀ pre rest, l ≠ pre ++ (a :: q) ++ rest) ∧ upToAll (a :: q) l = some (l, [])) := by
  have hp : 2 ≤ (a :: q).length := by
    cases q with
    | nil => exact absurd rfl hq
    | cons x q => simp
  obtain ⟨b, acc', l', e, e2, e3, e4⟩ := scan_complete a q hq ha l [] 1 (by omega) (by omega)
    (by simp) (by intro m h1 h2 h3; simp at h3; omega)
    (by intro k hk; simp)
  have hsk : upToAll (a :: q) l =
      some (if b then acc'.take (acc'.length - (a :: q).length) else acc', l') := by
    rw [upToAll, if_neg hl, if_neg (by simp), table_is_trivial _ hp, ← tab_full]
    simp only [List.length_cons, e, Option.map_some]
  rw [List.nil_append] at e2 e3 e4
  have hends : ∀ pre' rest', l = pre' ++ (a :: q) ++ rest' →
      (a :: q) <:+ l.take (pre' ++ (a :: q)).length := by
    intro pre' rest' h
    have : l.take (pre' ++ (a :: q)).length = pre' ++ (a :: q) := by
      conv => lhs; rw [h]
      rw [List.take_append_of_le_length (Nat.le_refl _), List.take_length]
    rw [this]; exact ⟨pre', rfl⟩
  cases b with
  | true =>
    obtain ⟨⟨pre, hpre⟩, hmin⟩ := e3 rfl
    have ht : acc'.take (acc'.length - (a :: q).length) = pre := by rw [← hpre]; simp
    simp only [if_true, ht] at hsk
    refine Or.inl ⟨pre, l', by rw [hpre, e2], hsk, ?_⟩
    intro pre' rest' h
    refine Nat.le_of_not_lt fun hlt => ?_
    refine hmin (pre' ++ (a :: q)).length ?_ (hends pre' rest' h)
    rw [← hpre]; simp only [List.length_append]; omega
  | false =>
    obtain ⟨h1, h2⟩ := e4 rfl
    subst h1
    rw [List.append_nil] at e2
    subst e2
    refine Or.inr ⟨?_, by simpa using hsk⟩
    intro pre rest h
    exact h2 _ (hends pre rest h)

example : skipToAll "end".toList "the tender end.".toList = some (true, "er end.".toList) ∧
    upToAll "--".toList "x".toList = some ("x".toList, []) := by decide

/-- The search misses occurrences: "aab" is in "aaab", and in the example of the code's own
comment "aabab" is in "aabaabab", yet `skipToAll:` answers false and `upToAll:` everything. -/
theorem skipToAll_misses :
    (∃ pre rest, "aaab".toList = pre ++ "aab".toList ++ rest) ∧
    skipToAll "aab".toList "aaab".toList = some (false, []) ∧
    upToAll "aab".toList "aaab".toList = some ("aaab".toList, []) ∧
    (∃ pre rest, "aabaabab".toList = pre ++ "aabab".toList ++ rest) ∧
    skipToAll "aabab".toList "aabaabab".toList = some (false, []) :=
  ⟨⟨['a'], [], by decide⟩, by decide, by decide, ⟨"aab".toList, [], by decide⟩, by decide⟩

/-- Searching for one element is an error on every stream that is not at its end. -/
theorem skipToAll_one_fails (x : α) (l : List α) (hl : l ≠ []) :
    skipToAll [x] l = none ∧ upToAll [x] l = none := by
  constructor
  · rw [skipToAll, if_neg hl, if_neg (by simp), table_of_one]
  · rw [upToAll, if_neg hl, if_neg (by simp), table_of_one]

/-! ## Splitting -/

theorem upToL_eq (x : α) (l : List α) :
    (x ∈ l → l = (upToL x l).1 ++ x :: (upToL x l).2) ∧
    (x ∉ l → upToL x l = (l, [])) ∧ x ∉ (upToL x l).1 := by
  induction l with
  | nil => simp [upToL]
  | cons y l ih =>
    rw [upToL]
    by_cases hy : y = x
    · simp [hy]
    · rw [if_neg hy]
      refine ⟨?_, ?_, ?_⟩
      · intro h
        have : x ∈ l := by simpa [Ne.symm hy] using h
        simp only [List.cons_append]
        rw [← ih.1 this]
      · intro h
        have : x ∉ l := fun h' => h (List.mem_cons_of_mem _ h')
        rw [ih.2.1 this]
      · simp only [List.mem_cons, not_or]
        exact ⟨Ne.symm hy, ih.2.2⟩

/-- Put back the separators. -/
def joinWith (x : α) : List (List α) → List α
  | [] => []
  | [p] => p
  | p :: q :: r => p ++ x :: joinWith x (q :: r)

theorem splitAtLoop_spec (x : α) (fuel : Nat) : ∀ l : List α, l.length < fuel → l ≠ [] →
    (∀ p ∈ splitAtLoop x fuel l, x ∉ p) ∧ splitAtLoop x fuel l ≠ [] ∧
    (joinWith x (splitAtLoop x fuel l) = l ∨
      joinWith x (splitAtLoop x fuel l) ++ [x] = l) := by
  induction fuel with
  | zero => intro l h; omega
  | succ fuel ih =>
    intro l hf hl
    obtain ⟨h1, h2, h3⟩ := upToL_eq x l
    rw [splitAtLoop, if_neg hl]
    by_cases hx : x ∈ l
    · have e := h1 hx
      have hlen : (upToL x l).2.length < fuel := by
        have := congrArg List.length e
        simp only [List.length_append, List.length_cons] at this
        omega
      by_cases hr : (upToL x l).2 = []
      · have hnil : splitAtLoop x fuel (upToL x l).2 = [] := by
          rw [hr]; cases fuel <;> simp [splitAtLoop]
        rw [hnil]
        refine ⟨by simpa using h3, by simp, Or.inr ?_⟩
        rw [hr] at e
        simpa [joinWith] using e.symm
      · obtain ⟨i1, i2, i3⟩ := ih _ hlen hr
        refine ⟨?_, by simp, ?_⟩
        · intro p hp
          rcases List.mem_cons.1 hp with rfl | hp
          · exact h3
          · exact i1 p hp
        · obtain ⟨q, r, hqr⟩ : ∃ q r, splitAtLoop x fuel (upToL x l).2 = q :: r := by
            cases hh : splitAtLoop x fuel (upToL x l).2 with
            | nil => exact absurd hh i2
            | cons q r => exact ⟨q, r, rfl⟩
          rw [hqr] at i3 ⊢
          rw [joinWith]
          rcases i3 with i3 | i3
          · left; rw [i3]; exact e.symm
          · right
            rw [List.append_assoc, List.cons_append, i3]; exact e.symm
    · have e := h2 hx
      have hnil : splitAtLoop x fuel (upToL x l).2 = [] := by
        rw [e]; cases fuel <;> simp [splitAtLoop]
      rw [hnil, e]
      exact ⟨by simpa using hx, by simp, Or.inl rfl⟩

/-- Part of the claim: the parts contain no separator, and joined by the separator they give
back the stream, except that a separator at its very end is lost.  Missing: the empty part after
a final separator, see `splitAt_drops_last`. -/
theorem splitAt_partial (x : α) (l : List α) (hl : l ≠ []) :
    (∀ p ∈ splitAt x l, x ∉ p) ∧
    (joinWith x (splitAt x l) = l ∨ joinWith x (splitAt x l) ++ [x] = l) := by
  obtain ⟨h1, _, h3⟩ := splitAtLoop_spec x (l.length + 1) l (by omega) hl
  exact ⟨h1, h3⟩

/-- "A new part starts after every occurrence": after the last comma of "a,b," none does. -/
theorem splitAt_drops_last :
    splitAt ',' "a,b,".toList = ["a".toList, "b".toList] ∧
    splitAt ',' "a,b".toList = ["a".toList, "b".toList] ∧ splitAt ',' [] = [] := by decide

/-! ## Lines -/

/-- The ways a line can end. -/
inductive Eol where
  | nl | crnl | cr
deriving DecidableEq, Repr

def Eol.chars (cr nl : α) : Eol → List α
  | .nl => [nl]
  | .crnl => [cr, nl]
  | .cr => [cr]

/-- A text: lines with their ends, then a last line without one. -/
def text (cr nl : α) : List (List α × Eol) → List α → List α
  | [], last => last
  | (l, e) :: r, last => l ++ e.chars cr nl ++ text cr nl r last

theorem nextLine_line (cr nl : α) (hcn : cr ≠ nl) (l : List α) (hl : cr ∉ l ∧ nl ∉ l) (e : Eol)
    (r : List α) (hr : e = .cr → r.head? ≠ some nl) :
    nextLine cr nl (l ++ e.chars cr nl ++ r) = (l, r) := by
  induction l with
  | nil =>
    cases e with
    | nl => simp [Eol.chars, nextLine, Ne.symm hcn]
    | crnl => simp [Eol.chars, nextLine]
    | cr => simp [Eol.chars, nextLine, hr rfl]
  | cons c l ih =>
    simp only [List.mem_cons, not_or] at hl
    have := ih ⟨hl.1.2, hl.2.2⟩
    simp only [List.cons_append, nextLine, Ne.symm hl.1.1, Ne.symm hl.2.1, if_false, this]

theorem nextLine_last (cr nl : α) (l : List α) (hl : cr ∉ l ∧ nl ∉ l) :
    nextLine cr nl l = (l, []) := by
  induction l with
  | nil => rfl
  | cons c l ih =>
    simp only [List.mem_cons, not_or] at hl
    rw [nextLine, if_neg (Ne.symm hl.1.1), if_neg (Ne.symm hl.2.1), ih ⟨hl.1.2, hl.2.2⟩]

/-- No line that ends in a bare carriage return is followed by text that starts with a new
line (the two would be one line end). -/
def Unambiguous (cr nl : α) : List (List α × Eol) → List α → Prop
  | [], _ => True
  | (_, e) :: r, last => (e = .cr → (text cr nl r last).head? ≠ some nl) ∧ Unambiguous cr nl r last

theorem linesLoop_text (cr nl : α) (hcn : cr ≠ nl) (ls : List (List α × Eol)) (last : List α)
    (hl : ∀ p ∈ ls, cr ∉ p.1 ∧ nl ∉ p.1) (hlast : cr ∉ last ∧ nl ∉ last) :
    Unambiguous cr nl ls last → ∀ fuel, (text cr nl ls last).length < fuel →
      linesLoop cr nl fuel (text cr nl ls last) =
        ls.map Prod.fst ++ if last = [] then [] else [last] := by
  induction ls with
  | nil =>
    intro _ fuel hf
    cases fuel with
    | zero => omega
    | succ fuel =>
      rw [text, linesLoop]
      by_cases h : last = []
      · simp [h]
      · rw [if_neg h, nextLine_last cr nl last hlast, if_neg h]
        cases fuel <;> simp [linesLoop]
  | cons p ls ih =>
    intro hu fuel hf
    obtain ⟨l, e⟩ := p
    cases fuel with
    | zero => omega
    | succ fuel =>
      have hlen : (text cr nl ls last).length < fuel := by
        simp only [text, List.length_append] at hf
        have : 1 ≤ (e.chars cr nl).length := by cases e <;> simp [Eol.chars]
        omega
      have hne : text cr nl ((l, e) :: ls) last ≠ [] := by
        cases e <;> simp [text, Eol.chars]
      rw [linesLoop, if_neg hne]
      simp only [text]
      rw [nextLine_line cr nl hcn l (hl (l, e) (by simp)) e _ hu.1,
        ih (fun p hp => hl p (by simp [hp])) hu.2 fuel hlen]
      simp

/-- `linesDo:` gives back exactly the lines a text was made of, whichever of the three line ends
each line has; text after the last line end is a line of its own. -/
theorem lines_of_text (cr nl : α) (hcn : cr ≠ nl) (ls : List (List α × Eol)) (last : List α)
    (hl : ∀ p ∈ ls, cr ∉ p.1 ∧ nl ∉ p.1) (hlast : cr ∉ last ∧ nl ∉ last)
    (hu : Unambiguous cr nl ls last) :
    linesOf cr nl (text cr nl ls last) = ls.map Prod.fst ++ if last = [] then [] else [last] :=
  linesLoop_text cr nl hcn ls last hl hlast hu _ (by omega)

example : linesOf 13 10 (text 13 10 [([1, 2], .crnl), ([], .nl), ([3], .cr), ([], .crnl)] [4]) =
    [[1, 2], [], [3], [], [4]] := by decide

example : Unambiguous 13 10 [([1, 2], .crnl), ([], .nl), ([3], .cr), ([], .crnl)] [4] := by
  simp [Unambiguous, text, Eol.chars]

end Verif.Stream
