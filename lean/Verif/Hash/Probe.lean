/-!
# Open addressing with linear probing: the common theory

Used by the models of the dictionaries of the VM (libgst/dict.c) and of the hashed
collections of the class library (kernel/HashedColl.st and others).  A table is a
number of slots `n` and a function from slot numbers to entries; slots `≥ n` are not
part of the table.
-/

set_option linter.unusedSectionVars false

namespace Verif.Hash

variable {α K : Type} [DecidableEq K]

/-- The outcome of a search: the slot that holds the key, the free slot at which the
search ended, or neither. -/
inductive Probe
  | found (i : Nat)
  | free (i : Nat)
  | full
  deriving DecidableEq

/-- Search for `k` from slot `index % n` on, looking at most at `c` slots. -/
def probe (n : Nat) (slots : Nat → Option α) (key : α → K) (k : K) : Nat → Nat → Probe
  | 0, _ => .full
  | c + 1, index =>
    match slots (index % n) with
    | none => .free (index % n)
    | some a =>
      if key a = k then .found (index % n) else probe n slots key k c (index % n + 1)

/-- Store into one slot. -/
def update (slots : Nat → Option α) (i : Nat) (a : Option α) : Nat → Option α :=
  fun j => if j = i then a else slots j

/-- Number of used slots among the first `n`. -/
def used (slots : Nat → Option α) : Nat → Nat
  | 0 => 0
  | n + 1 => used slots n + (if (slots n).isSome then 1 else 0)

/-- The table holds `a`. -/
def Holds (n : Nat) (slots : Nat → Option α) (a : α) : Prop := ∃ i, i < n ∧ slots i = some a

/-- The slot holds an entry with another key. -/
def Other (slots : Nat → Option α) (key : α → K) (k : K) (i : Nat) : Prop :=
  ∃ b, slots i = some b ∧ key b ≠ k

/-- The invariant of linear probing: from the home slot of each entry to the entry
itself there are only entries with other keys. -/
def Reach (n : Nat) (slots : Nat → Option α) (key : α → K) (h : K → Nat) : Prop :=
  ∀ i a, i < n → slots i = some a →
    ∃ d, d < n ∧ (h (key a) + d) % n = i ∧
      ∀ d', d' < d → Other slots key (key a) ((h (key a) + d') % n)

/-- The abstraction relation: the table is the finite map `M`. -/
def Abs (n : Nat) (slots : Nat → Option α) (key : α → K) (M : K → Option α) : Prop :=
  ∀ k a, M k = some a ↔ (Holds n slots a ∧ key a = k)

/-! ## Searching -/

/-- What the outcome of a search means. -/
def Meaning (n : Nat) (slots : Nat → Option α) (key : α → K) (k : K) (c x : Nat) :
    Probe → Prop
  | .found i => ∃ d, d < c ∧ i = (x + d) % n ∧ (∃ a, slots i = some a ∧ key a = k) ∧
      ∀ d', d' < d → Other slots key k ((x + d') % n)
  | .free i => ∃ d, d < c ∧ i = (x + d) % n ∧ slots i = none ∧
      ∀ d', d' < d → Other slots key k ((x + d') % n)
  | .full => ∀ d', d' < c → Other slots key k ((x + d') % n)

theorem probe_meaning (n : Nat) (slots : Nat → Option α) (key : α → K) (k : K) (c x : Nat) :
    Meaning n slots key k c x (probe n slots key k c x) := by
  induction c generalizing x with
  | zero => intro d h; omega
  | succ c ih =>
    unfold probe
    cases hs : slots (x % n) with
    | none => exact ⟨0, by omega, rfl, hs, by omega⟩
    | some a =>
      dsimp only
      split
      · rename_i hk
        exact ⟨0, by omega, rfl, ⟨a, hs, hk⟩, by omega⟩
      · rename_i hk
        have key_step : ∀ d, (x % n + 1 + d) % n = (x + (d + 1)) % n := by
          intro d
          rw [show x % n + 1 + d = x % n + (d + 1) by omega, Nat.mod_add_mod]
        have o0 : Other slots key k ((x + 0) % n) := ⟨a, hs, hk⟩
        have lift : ∀ d, (∀ d', d' < d → Other slots key k ((x % n + 1 + d') % n)) →
            ∀ d', d' < d + 1 → Other slots key k ((x + d') % n) := by
          intro d hd d' hd'
          cases d' with
          | zero => exact o0
          | succ e => rw [← key_step]; exact hd e (by omega)
        have := ih (x % n + 1)
        revert this
        cases probe n slots key k c (x % n + 1) with
        | found i =>
          rintro ⟨d, h1, h2, h3, h4⟩
          exact ⟨d + 1, by omega, by rw [h2, key_step], h3, lift d h4⟩
        | free i =>
          rintro ⟨d, h1, h2, h3, h4⟩
          exact ⟨d + 1, by omega, by rw [h2, key_step], h3, lift d h4⟩
        | full => intro h; exact lift c h

theorem Other.used {slots : Nat → Option α} {key : α → K} {k : K} {i : Nat}
    (h : Other slots key k i) : slots i ≠ none := by
  obtain ⟨b, hb, -⟩ := h; rw [hb]; exact Option.some_ne_none b

/-- A present key is found, and the slot holds it. -/
theorem probe_present (n : Nat) (slots : Nat → Option α) (key : α → K) (h : K → Nat)
    (hr : Reach n slots key h) (i : Nat) (a : α) (hi : i < n) (ha : slots i = some a) :
    probe n slots key (key a) n (h (key a)) = .found i := by
  obtain ⟨d, hd, he, hp⟩ := hr i a hi ha
  have hm := probe_meaning n slots key (key a) n (h (key a))
  cases hres : probe n slots key (key a) n (h (key a)) with
  | found j =>
    rw [hres] at hm
    obtain ⟨e, h1, h2, ⟨b, hb, hk⟩, h4⟩ := hm
    rcases Nat.lt_trichotomy d e with hlt | heq | hgt
    · obtain ⟨b', hb', hk'⟩ := h4 d hlt
      rw [he, ha] at hb'; cases hb'; exact absurd rfl hk'
    · subst heq; rw [h2, he]
    · obtain ⟨b', hb', hk'⟩ := hp e hgt
      rw [← h2, hb] at hb'; cases hb'; exact absurd hk hk'
  | free j =>
    rw [hres] at hm
    obtain ⟨e, h1, h2, h3, h4⟩ := hm
    rcases Nat.lt_trichotomy d e with hlt | heq | hgt
    · obtain ⟨b', hb', hk'⟩ := h4 d hlt
      rw [he, ha] at hb'; cases hb'; exact absurd rfl hk'
    · subst heq; rw [h2, he, ha] at h3; cases h3
    · exact absurd (h2 ▸ h3) (hp e hgt).used
  | full =>
    rw [hres] at hm
    obtain ⟨b', hb', hk'⟩ := hm d hd
    rw [he, ha] at hb'; cases hb'; exact absurd rfl hk'

/-- Two entries with the same key are in the same slot. -/
theorem Reach.unique {n : Nat} {slots : Nat → Option α} {key : α → K} {h : K → Nat}
    (hr : Reach n slots key h) {i j : Nat} {a b : α} (hi : i < n) (hj : j < n)
    (ha : slots i = some a) (hb : slots j = some b) (hk : key a = key b) : i = j := by
  have h1 := probe_present n slots key h hr i a hi ha
  have h2 := probe_present n slots key h hr j b hj hb
  rw [← hk] at h2
  rw [h1] at h2
  cases h2; rfl

theorem used_le (slots : Nat → Option α) (n : Nat) : used slots n ≤ n := by
  induction n with
  | zero => simp [used]
  | succ n ih => simp only [used]; split <;> omega

theorem used_eq_of_all (slots : Nat → Option α) (n : Nat) (h : ∀ i, i < n → slots i ≠ none) :
    used slots n = n := by
  induction n with
  | zero => rfl
  | succ n ih =>
    simp only [used]
    rw [ih (fun i hi => h i (by omega)), if_pos]
    cases hs : slots n with
    | none => exact absurd hs (h n (by omega))
    | some a => rfl

theorem exists_free (slots : Nat → Option α) (n : Nat) (h : used slots n < n) :
    ∃ i, i < n ∧ slots i = none := by
  apply Classical.byContradiction
  intro hc
  have := used_eq_of_all slots n (fun i hi hn => hc ⟨i, hi, hn⟩)
  omega

/-- Every slot is on the search path of every key. -/
theorem on_path (n x i : Nat) (hi : i < n) : ∃ d, d < n ∧ (x + d) % n = i := by
  have hx : x % n < n := Nat.mod_lt _ (by omega)
  by_cases h : x % n ≤ i
  · refine ⟨i - x % n, by omega, ?_⟩
    rw [← Nat.mod_add_mod, show x % n + (i - x % n) = i by omega, Nat.mod_eq_of_lt hi]
  · refine ⟨n + i - x % n, by omega, ?_⟩
    rw [← Nat.mod_add_mod, show x % n + (n + i - x % n) = n + i by omega,
      Nat.add_mod_left, Nat.mod_eq_of_lt hi]

/-- With a free slot, a search does not come out empty-handed. -/
theorem probe_not_full (n : Nat) (slots : Nat → Option α) (key : α → K) (k : K) (x : Nat)
    (h : used slots n < n) : probe n slots key k n x ≠ .full := by
  intro hf
  obtain ⟨i, hi, hn⟩ := exists_free slots n h
  have hm := probe_meaning n slots key k n x
  rw [hf] at hm
  obtain ⟨d, hd, he⟩ := on_path n x i hi
  exact (hm d hd).used (he ▸ hn)

/-- An absent key ends at a free slot (or nowhere if there is none). -/
theorem probe_absent (n : Nat) (slots : Nat → Option α) (key : α → K) (k : K) (x : Nat)
    (hn : 0 < n) (habs : ∀ a, Holds n slots a → key a ≠ k) (i : Nat) :
    probe n slots key k n x ≠ .found i := by
  intro hf
  have hm := probe_meaning n slots key k n x
  rw [hf] at hm
  obtain ⟨d, -, h2, ⟨a, ha, hk⟩, -⟩ := hm
  exact habs a ⟨i, h2 ▸ Nat.mod_lt _ hn, ha⟩ hk

theorem probe_free_spec (n : Nat) (slots : Nat → Option α) (key : α → K) (h : K → Nat) (k : K)
    (hn : 0 < n) (hr : Reach n slots key h) (i : Nat)
    (hf : probe n slots key k n (h k) = .free i) :
    i < n ∧ slots i = none ∧ (∀ a, Holds n slots a → key a ≠ k) := by
  have hm := probe_meaning n slots key k n (h k)
  rw [hf] at hm
  obtain ⟨d, hd, h2, h3, h4⟩ := hm
  refine ⟨h2 ▸ Nat.mod_lt _ hn, h3, ?_⟩
  rintro a ⟨j, hj, ha⟩ hk
  have := probe_present n slots key h hr j a hj ha
  rw [hk, hf] at this
  cases this

theorem probe_found_spec (n : Nat) (slots : Nat → Option α) (key : α → K) (k : K) (x : Nat)
    (hn : 0 < n) (i : Nat) (hf : probe n slots key k n x = .found i) :
    i < n ∧ ∃ a, slots i = some a ∧ key a = k := by
  have hm := probe_meaning n slots key k n x
  rw [hf] at hm
  obtain ⟨d, hd, h2, h3, h4⟩ := hm
  exact ⟨h2 ▸ Nat.mod_lt _ hn, h3⟩

/-! ## Storing -/

theorem update_same (slots : Nat → Option α) (i : Nat) (a : Option α) : update slots i a i = a := by
  simp [update]

theorem update_ne (slots : Nat → Option α) (i j : Nat) (a : Option α) (h : j ≠ i) :
    update slots i a j = slots j := by simp [update, h]

theorem used_update_ge (slots : Nat → Option α) (i n : Nat) (a : Option α) (h : n ≤ i) :
    used (update slots i a) n = used slots n := by
  induction n with
  | zero => rfl
  | succ n ih => simp only [used]; rw [ih (by omega), update_ne _ _ _ _ (by omega)]

theorem used_update_free (slots : Nat → Option α) (i n : Nat) (a : α) (hi : i < n)
    (hs : slots i = none) : used (update slots i (some a)) n = used slots n + 1 := by
  induction n with
  | zero => omega
  | succ n ih =>
    simp only [used]
    by_cases h : i = n
    · subst h
      rw [used_update_ge _ _ _ _ (Nat.le_refl _), update_same, hs]
      simp
    · rw [ih (by omega), update_ne _ _ _ _ (by omega)]
      omega

theorem used_update_used (slots : Nat → Option α) (i n : Nat) (a b : α)
    (hs : slots i = some b) : used (update slots i (some a)) n = used slots n := by
  induction n with
  | zero => rfl
  | succ n ih =>
    simp only [used]
    by_cases h : n = i
    · subst h; rw [ih, update_same, hs]; rfl
    · rw [ih, update_ne _ _ _ _ h]

/-- Storing a new key where the search for it ended keeps the invariant. -/
theorem Reach.insert {n : Nat} {slots : Nat → Option α} {key : α → K} {h : K → Nat}
    (hr : Reach n slots key h) (a : α) (i : Nat)
    (hf : probe n slots key (key a) n (h (key a)) = .free i) :
    Reach n (update slots i (some a)) key h := by
  have hm := probe_meaning n slots key (key a) n (h (key a))
  rw [hf] at hm
  obtain ⟨d, hd, h2, h3, h4⟩ := hm
  have keep : ∀ k j, Other slots key k j → Other (update slots i (some a)) key k j := by
    intro k j ho
    have hne : j ≠ i := fun he => ho.used (he ▸ h3)
    obtain ⟨b, hb, hk⟩ := ho
    exact ⟨b, by rw [update_ne _ _ _ _ hne]; exact hb, hk⟩
  intro j b hj hb
  by_cases hji : j = i
  · subst hji
    rw [update_same] at hb
    cases hb
    exact ⟨d, hd, h2.symm, fun d' hd' => keep _ _ (h4 d' hd')⟩
  · rw [update_ne _ _ _ _ hji] at hb
    obtain ⟨e, he, hee, hp⟩ := hr j b hj hb
    exact ⟨e, he, hee, fun d' hd' => keep _ _ (hp d' hd')⟩

/-- Replacing an entry by one with the same key keeps the invariant. -/
theorem Reach.replace {n : Nat} {slots : Nat → Option α} {key : α → K} {h : K → Nat}
    (hr : Reach n slots key h) (a b : α) (i : Nat) (hb : slots i = some b) (hk : key a = key b) :
    Reach n (update slots i (some a)) key h := by
  have keep : ∀ k j, Other slots key k j → Other (update slots i (some a)) key k j := by
    intro k j ⟨c, hc, hck⟩
    by_cases hji : j = i
    · subst hji
      rw [hb] at hc; cases hc
      exact ⟨a, update_same _ _ _, by rw [hk]; exact hck⟩
    · exact ⟨c, by rw [update_ne _ _ _ _ hji]; exact hc, hck⟩
  intro j c hj hc
  by_cases hji : j = i
  · subst hji
    rw [update_same] at hc; cases hc
    obtain ⟨d, hd, he, hp⟩ := hr j b hj hb
    rw [← hk] at he hp
    exact ⟨d, hd, he, fun d' hd' => keep _ _ (hp d' hd')⟩
  · rw [update_ne _ _ _ _ hji] at hc
    obtain ⟨e, he, hee, hp⟩ := hr j c hj hc
    exact ⟨e, he, hee, fun d' hd' => keep _ _ (hp d' hd')⟩

theorem holds_update {n : Nat} {slots : Nat → Option α} {i : Nat} {a : α} (hi : i < n) (c : α) :
    Holds n (update slots i (some a)) c ↔ c = a ∨ ∃ j, j < n ∧ j ≠ i ∧ slots j = some c := by
  constructor
  · rintro ⟨j, hj, hc⟩
    by_cases hji : j = i
    · subst hji; rw [update_same] at hc; cases hc; exact Or.inl rfl
    · rw [update_ne _ _ _ _ hji] at hc; exact Or.inr ⟨j, hj, hji, hc⟩
  · rintro (rfl | ⟨j, hj, hji, hc⟩)
    · exact ⟨i, hi, update_same _ _ _⟩
    · exact ⟨j, hj, by rw [update_ne _ _ _ _ hji]; exact hc⟩

theorem Abs.insert {n : Nat} {slots : Nat → Option α} {key : α → K} {h : K → Nat}
    {M : K → Option α} (hM : Abs n slots key M) (hn : 0 < n) (hr : Reach n slots key h) (a : α)
    (i : Nat) (hf : probe n slots key (key a) n (h (key a)) = .free i) :
    Abs n (update slots i (some a)) key (fun k => if k = key a then some a else M k) := by
  obtain ⟨hi, hs, habs⟩ := probe_free_spec n slots key h (key a) hn hr i hf
  intro k c
  rw [holds_update hi]
  dsimp only
  split
  · rename_i hk
    subst hk
    constructor
    · intro h; cases h; exact ⟨Or.inl rfl, rfl⟩
    · rintro ⟨rfl | ⟨j, hj, -, hc⟩, hk⟩
      · rfl
      · exact absurd hk (habs c ⟨j, hj, hc⟩)
  · rename_i hk
    rw [hM k c]
    constructor
    · rintro ⟨⟨j, hj, hc⟩, hck⟩
      exact ⟨Or.inr ⟨j, hj, fun he => (by rw [he, hs] at hc; cases hc), hc⟩, hck⟩
    · rintro ⟨rfl | ⟨j, hj, -, hc⟩, hck⟩
      · exact absurd hck.symm hk
      · exact ⟨⟨j, hj, hc⟩, hck⟩

theorem Abs.replace {n : Nat} {slots : Nat → Option α} {key : α → K} {h : K → Nat}
    {M : K → Option α} (hM : Abs n slots key M) (hr : Reach n slots key h) (a b : α)
    (i : Nat) (hi : i < n) (hb : slots i = some b) (hk : key a = key b) :
    Abs n (update slots i (some a)) key (fun k => if k = key a then some a else M k) := by
  intro k c
  rw [holds_update hi]
  dsimp only
  split
  · rename_i hka
    subst hka
    constructor
    · intro h; cases h; exact ⟨Or.inl rfl, rfl⟩
    · rintro ⟨rfl | ⟨j, hj, hji, hc⟩, hck⟩
      · rfl
      · exact absurd (hr.unique hj hi hc hb (hck.trans hk)) hji
  · rename_i hka
    rw [hM k c]
    constructor
    · rintro ⟨⟨j, hj, hc⟩, hck⟩
      refine ⟨Or.inr ⟨j, hj, fun he => ?_, hc⟩, hck⟩
      rw [he, hb] at hc; cases hc
      exact hka (hk ▸ hck.symm)
    · rintro ⟨rfl | ⟨j, hj, -, hc⟩, hck⟩
      · exact absurd hck.symm hka
      · exact ⟨⟨j, hj, hc⟩, hck⟩

/-- A search answers what the abstract map says. -/
theorem probe_refines {n : Nat} {slots : Nat → Option α} {key : α → K} {h : K → Nat}
    {M : K → Option α} (hM : Abs n slots key M) (hn : 0 < n) (hr : Reach n slots key h) (k : K) :
    match probe n slots key k n (h k) with
    | .found i => i < n ∧ slots i = M k ∧ (M k).isSome
    | .free i => i < n ∧ slots i = none ∧ M k = none
    | .full => M k = none ∧ used slots n = n := by
  cases hf : probe n slots key k n (h k) with
  | found i =>
    obtain ⟨hi, a, ha, hk⟩ := probe_found_spec n slots key k _ hn i hf
    have := (hM k a).mpr ⟨⟨i, hi, ha⟩, hk⟩
    dsimp only
    rw [this]; exact ⟨hi, ha, rfl⟩
  | free i =>
    obtain ⟨hi, hs, habs⟩ := probe_free_spec n slots key h k hn hr i hf
    refine ⟨hi, hs, ?_⟩
    cases hm : M k with
    | none => rfl
    | some a => exact absurd ((hM k a).mp hm).2 (habs a ((hM k a).mp hm).1)
  | full =>
    constructor
    · cases hm : M k with
      | none => rfl
      | some a =>
        obtain ⟨⟨i, hi, ha⟩, hk⟩ := (hM k a).mp hm
        have := probe_present n slots key h hr i a hi ha
        rw [hk, hf] at this; cases this
    · apply Classical.byContradiction
      intro hne
      have := used_le slots n
      exact probe_not_full n slots key k (h k) (by omega) hf

/-! ## The empty table -/

theorem Reach.empty (n : Nat) (key : α → K) (h : K → Nat) :
    Reach n (fun _ => none) key h := by
  intro i a _ ha; cases ha

theorem Abs.empty (n : Nat) (key : α → K) : Abs n (fun _ => none) key (fun _ => none) := by
  intro k a
  constructor
  · intro h; cases h
  · rintro ⟨⟨i, -, h⟩, -⟩; cases h

theorem used_empty (n : Nat) : used (fun _ => (none : Option α)) n = 0 := by
  induction n with
  | zero => rfl
  | succ n ih => simp [used, ih]

/-! ## Rebuilding into another table -/

/-- Insert the entries of slots `0 .. m-1` of `old`, in this order, into an empty table
of `n'` slots.  `none` if the search for a place fails. -/
def rehash (n' : Nat) (key : α → K) (h : K → Nat) (old : Nat → Option α) :
    Nat → Option (Nat → Option α)
  | 0 => some (fun _ => none)
  | m + 1 => do
    let s ← rehash n' key h old m
    match old m with
    | none => some s
    | some a =>
      match probe n' s key (key a) n' (h (key a)) with
      | .full => none
      | .free i => some (update s i (some a))
      | .found i => some (update s i (some a))

theorem used_mono (slots : Nat → Option α) {m n : Nat} (h : m ≤ n) : used slots m ≤ used slots n := by
  induction n with
  | zero => rw [show m = 0 by omega]; exact Nat.le_refl _
  | succ n ih =>
    by_cases hm : m = n + 1
    · subst hm; exact Nat.le_refl _
    · have := ih (by omega)
      simp only [used]; omega

/-- Rebuilding keeps every entry, the invariant and the number of entries. -/
theorem rehash_spec (n n' : Nat) (key : α → K) (h : K → Nat) (old : Nat → Option α)
    (hr : Reach n old key h) (hn' : 0 < n') (m : Nat) (hm : m ≤ n) (hu : used old m ≤ n') :
    ∃ s, rehash n' key h old m = some s ∧ Reach n' s key h ∧ used s n' = used old m ∧
      ∀ a, Holds n' s a ↔ ∃ j, j < m ∧ old j = some a := by
  induction m with
  | zero =>
    refine ⟨_, rfl, Reach.empty _ _ _, used_empty _, ?_⟩
    intro a
    constructor
    · rintro ⟨i, -, hi⟩; cases hi
    · rintro ⟨j, hj, -⟩; omega
  | succ m ih =>
    have hmono := used_mono old (show m ≤ m + 1 by omega)
    obtain ⟨s, h1, h2, h3, h4⟩ := ih (by omega) (by omega)
    simp only [rehash, h1, Option.bind_eq_bind, Option.bind_some]
    cases ho : old m with
    | none =>
      refine ⟨s, rfl, h2, ?_, ?_⟩
      · simp [used, ho, h3]
      · intro a
        rw [h4]
        constructor
        · rintro ⟨j, hj, hja⟩; exact ⟨j, by omega, hja⟩
        · rintro ⟨j, hj, hja⟩
          refine ⟨j, ?_, hja⟩
          rcases Nat.lt_succ_iff_lt_or_eq.mp hj with h | h
          · exact h
          · subst h; rw [ho] at hja; cases hja
    | some a =>
      have hua : used old (m + 1) = used old m + 1 := by simp [used, ho]
      have habs : ∀ b, Holds n' s b → key b ≠ key a := by
        intro b hb hk
        obtain ⟨j, hj, hjb⟩ := (h4 b).mp hb
        have := hr.unique (by omega) (by omega) hjb ho hk
        omega
      dsimp only
      cases hp : probe n' s key (key a) n' (h (key a)) with
      | full => exact absurd hp (probe_not_full n' s key _ _ (by omega))
      | found i => exact absurd hp (probe_absent n' s key _ _ hn' habs i)
      | free i =>
        obtain ⟨hi, hs, -⟩ := probe_free_spec n' s key h (key a) hn' h2 i hp
        refine ⟨_, rfl, h2.insert a i hp, ?_, ?_⟩
        · rw [used_update_free _ _ _ _ hi hs, h3, hua]
        · intro c
          rw [holds_update hi]
          constructor
          · rintro (rfl | ⟨j, hj, -, hc⟩)
            · exact ⟨m, by omega, ho⟩
            · obtain ⟨j', hj', hc'⟩ := (h4 c).mp ⟨j, hj, hc⟩
              exact ⟨j', by omega, hc'⟩
          · rintro ⟨j, hj, hc⟩
            rcases Nat.lt_succ_iff_lt_or_eq.mp hj with h | h
            · obtain ⟨i', hi', hc'⟩ := (h4 c).mpr ⟨j, h, hc⟩
              exact Or.inr ⟨i', hi', fun he => (by rw [he, hs] at hc'; cases hc'), hc'⟩
            · subst h; rw [ho] at hc; cases hc; exact Or.inl rfl

/-- The rebuilt table stands for the same map. -/
theorem rehash_abs (n n' : Nat) (key : α → K) (h : K → Nat) (old : Nat → Option α)
    (M : K → Option α) (hM : Abs n old key M) (hr : Reach n old key h) (hn' : 0 < n')
    (hu : used old n ≤ n') :
    ∃ s, rehash n' key h old n = some s ∧ Reach n' s key h ∧ used s n' = used old n ∧
      Abs n' s key M := by
  obtain ⟨s, h1, h2, h3, h4⟩ := rehash_spec n n' key h old hr hn' n (Nat.le_refl _) hu
  refine ⟨s, h1, h2, h3, ?_⟩
  intro k a
  rw [hM k a, h4 a]
  rfl

end Verif.Hash
