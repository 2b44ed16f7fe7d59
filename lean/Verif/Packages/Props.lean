import Verif.Packages.Model

/-!
# The order in which packages are loaded (C217 to C219)
-/

namespace Verif.Packages

/-! ## What is needed -/

/-- A package that is not loaded needs another one. -/
def Requires (db : Db) (loaded : List Name) (p q : Name) : Prop :=
  p ∉ loaded ∧ ∃ k, db p = some k ∧ q ∈ k.prerequisites

/-- What a request needs: itself, and what the packages that are not loaded yet need. -/
inductive Needed (db : Db) (loaded request : List Name) : Name → Prop where
  | asked {p} : p ∈ request → Needed db loaded request p
  | step {p q} : Needed db loaded request p → Requires db loaded p q → Needed db loaded request q

/-- `q` is in the list before `p`. -/
def Before (l : List Name) (q p : Name) : Prop := ∃ a b, l = a ++ p :: b ∧ q ∈ a

/-- No package provides features besides itself. -/
def Plain (db : Db) : Prop := ∀ n k, db n = some k → k.features = []

theorem plain_features {db : Db} (h : Plain db) (n : Name) : features db n = [] := by
  unfold features
  cases e : db n with
  | none => rfl
  | some k => exact h n k e

theorem mem_prereqs {db : Db} {n q : Name} : q ∈ prereqs db n ↔ ∃ k, db n = some k ∧ q ∈ k.prerequisites := by
  unfold prereqs
  cases db n <;> simp

section
variable {db : Db} {enum : List Name → List Name} (hp : Plain db) (he : ∀ l, (enum l).Perm l)

include he in
theorem enum_nil : enum [] = [] := (he []).eq_nil

include hp he in
/-- What an iteration does when no package provides features. -/
theorem round_plain (s : State) : round db enum s =
    match (s.dependencies.filter fun n => n ∉ s.found).find? fun n => (db n).isNone with
    | some n => .inl n
    | none => .inr ⟨enum ((s.dependencies.filter fun n => n ∉ s.found).flatMap (prereqs db)).dedup ++
        s.toBeLoaded.diff (enum ((s.dependencies.filter fun n => n ∉ s.found).flatMap (prereqs db)).dedup), s.found,
        enum ((s.dependencies.filter fun n => n ∉ s.found).flatMap (prereqs db)).dedup⟩ := by
  have hf : ∀ l : List Name, l.flatMap (features db) = [] := by
    intro l
    rw [List.flatMap_eq_nil_iff]
    intro n _
    exact plain_features hp n
  unfold round
  simp only [hf, List.dedup_nil, enum_nil he, List.diff_nil, List.append_nil]
  rfl

/-- What holds at the beginning of an iteration. -/
structure Inv (db : Db) (loaded request : List Name) (s : State) : Prop where
  found : s.found = loaded
  nodup : s.toBeLoaded.Nodup
  deps : ∀ d ∈ s.dependencies, d ∉ loaded → d ∈ s.toBeLoaded
  need : ∀ d ∈ s.dependencies, Needed db loaded request d
  asked : ∀ p ∈ request, p ∉ loaded → p ∈ s.toBeLoaded
  sound : ∀ p ∈ s.toBeLoaded, Needed db loaded request p
  order : ∀ p ∈ s.toBeLoaded, p ∉ loaded → p ∉ s.dependencies →
    (db p).isSome ∧ ∀ q, Requires db loaded p q → Before s.toBeLoaded q p

theorem inv_start (loaded request : List Name) (hn : request.Nodup) : Inv db loaded request (start loaded request) where
  found := rfl
  nodup := hn.diff
  deps d h1 h2 := (List.Nodup.mem_sdiff_iff hn).2 ⟨h1, h2⟩
  need d h := .asked h
  asked p h1 h2 := (List.Nodup.mem_sdiff_iff hn).2 ⟨h1, h2⟩
  sound p h := .asked ((List.Nodup.mem_sdiff_iff hn).1 h).1
  order p h1 _ h3 := absurd ((List.Nodup.mem_sdiff_iff hn).1 h1).1 h3

theorem before_filter {l : List Name} {p q : Name} (f : Name → Bool) (h : Before l q p) (hf : f p = true) (hq : f q = true) :
    Before (l.filter f) q p := by
  obtain ⟨a, b, rfl, ha⟩ := h
  refine ⟨a.filter f, b.filter f, ?_, List.mem_filter.2 ⟨ha, hq⟩⟩
  rw [List.filter_append, List.filter_cons_of_pos hf]

theorem before_append {l : List Name} {p q : Name} (x : List Name) (h : Before l q p) : Before (x ++ l) q p := by
  obtain ⟨a, b, rfl, ha⟩ := h
  exact ⟨x ++ a, b, by rw [List.append_assoc], List.mem_append_right _ ha⟩

theorem before_mem {l : List Name} {p q : Name} (h : Before l q p) : q ∈ l := by
  obtain ⟨a, b, rfl, ha⟩ := h
  exact List.mem_append_left _ ha

include hp he in
theorem inv_round {loaded request : List Name} {s s' : State} (h : Inv db loaded request s) (hr : round db enum s = .inr s') :
    Inv db loaded request s' := by
  rw [round_plain hp he] at hr
  split at hr
  · cases hr
  · rename_i hnone
    simp only [Sum.inr.injEq] at hr
    rw [h.found] at hr hnone
    rw [List.find?_eq_none] at hnone
    obtain ⟨P, hP⟩ : ∃ P, P = enum ((s.dependencies.filter fun n => n ∉ loaded).flatMap (prereqs db)).dedup := ⟨_, rfl⟩
    have hPn : P.Nodup := by rw [hP]; exact (he _).nodup_iff.2 (List.nodup_dedup _)
    have hPm : ∀ q, q ∈ P ↔ ∃ p ∈ s.dependencies, Requires db loaded p q := by
      intro q
      rw [hP, (he _).mem_iff, List.mem_dedup, List.mem_flatMap]
      constructor
      · rintro ⟨p, h1, h2⟩
        rw [List.mem_filter] at h1
        exact ⟨p, h1.1, by simpa using h1.2, mem_prereqs.1 h2⟩
      · rintro ⟨p, h1, h2, h3⟩
        exact ⟨p, List.mem_filter.2 ⟨h1, by simpa using h2⟩, mem_prereqs.2 h3⟩
    rw [← hP] at hr
    subst hr
    have hd : s.toBeLoaded.diff P = s.toBeLoaded.filter fun n => n ∉ P := by
      rw [h.nodup.sdiff_eq_filter]
    have hmem : ∀ p, p ∈ P ++ s.toBeLoaded.diff P ↔ p ∈ P ∨ p ∈ s.toBeLoaded := by
      intro p
      rw [List.mem_append, h.nodup.mem_sdiff_iff]
      tauto
    refine ⟨rfl, ?_, ?_, ?_, ?_, ?_, ?_⟩
    · refine List.Nodup.append hPn h.nodup.diff ?_
      intro x hx hx'
      exact ((h.nodup.mem_sdiff_iff).1 hx').2 hx
    · intro d hd' _
      exact List.mem_append_left _ hd'
    · intro d hd'
      obtain ⟨p, h1, h2⟩ := (hPm d).1 hd'
      exact .step (h.need p h1) h2
    · intro p h1 h2
      exact (hmem p).2 (.inr (h.asked p h1 h2))
    · intro p h1
      rcases (hmem p).1 h1 with h1 | h1
      · obtain ⟨r, h3, h4⟩ := (hPm p).1 h1
        exact .step (h.need r h3) h4
      · exact h.sound p h1
    · intro p h1 h2 h3
      have hT := ((hmem p).1 h1).resolve_left h3
      by_cases hD : p ∈ s.dependencies
      · refine ⟨?_, ?_⟩
        · have := hnone p (List.mem_filter.2 ⟨hD, by simpa using h2⟩)
          cases hx : db p with
          | none => rw [hx] at this; simp at this
          | some k => rfl
        · intro q hq
          have hqP := (hPm q).2 ⟨p, hD, hq⟩
          obtain ⟨a, b, e⟩ := List.append_of_mem ((h.nodup.mem_sdiff_iff).2 ⟨hT, h3⟩)
          refine ⟨P ++ a, b, ?_, List.mem_append_left _ hqP⟩
          show P ++ s.toBeLoaded.diff P = _
          rw [e, List.append_assoc]
      · obtain ⟨o1, o2⟩ := h.order p hT h2 hD
        refine ⟨o1, fun q hq => ?_⟩
        have hb := o2 q hq
        by_cases hqP : q ∈ P
        · obtain ⟨a, b, e⟩ := List.append_of_mem ((h.nodup.mem_sdiff_iff).2 ⟨hT, h3⟩)
          refine ⟨P ++ a, b, ?_, List.mem_append_left _ hqP⟩
          show P ++ s.toBeLoaded.diff P = _
          rw [e, List.append_assoc]
        · show Before (P ++ s.toBeLoaded.diff P) q p
          rw [hd]
          exact before_append P (before_filter _ hb (by simpa using h3) (by simpa using hqP))

include hp he in
theorem inv_missing {loaded request : List Name} {s : State} {n : Name} (h : Inv db loaded request s) (hr : round db enum s = .inl n) :
    Needed db loaded request n ∧ n ∉ loaded ∧ db n = none := by
  rw [round_plain hp he] at hr
  split at hr
  · rename_i m hm
    simp only [Sum.inl.injEq] at hr
    subst hr
    have h1 := List.find?_some hm
    have h2 := List.mem_of_find?_eq_some hm
    rw [List.mem_filter, h.found] at h2
    exact ⟨h.need m h2.1, by simpa using h2.2, by simpa using h1⟩
  · cases hr

include hp he in
theorem loop_spec {loaded request : List Name} : ∀ (fuel : ℕ) (s : State) (r : Result), Inv db loaded request s → loop db enum fuel s = some r →
    match r with
    | .missing n => Needed db loaded request n ∧ n ∉ loaded ∧ db n = none
    | .ok l => ∃ s', Inv db loaded request s' ∧ s'.dependencies = [] ∧ s'.toBeLoaded = l := by
  intro fuel
  induction fuel with
  | zero => intro s r _ h; cases h
  | succ fuel ih =>
    intro s r hi h
    unfold loop at h
    split at h
    · rename_i n hn
      simp only [Option.some.injEq] at h
      subst h
      exact inv_missing hp he hi hn
    · rename_i s' hs
      have hi' := inv_round hp he hi hs
      split at h
      · rename_i hdep
        simp only [Option.some.injEq] at h
        subst h
        exact ⟨s', hi', hdep, rfl⟩
      · exact ih s' r hi' h

/-! ## C217: the order -/

include hp he in
/-- C217, the part that holds: if no package provides features, the list has no duplicates, and each package that is not loaded yet comes after all its prerequisites.
What is missing is said by `order_fails`. -/
theorem order_partial {fuel : ℕ} {loaded request l : List Name} (hn : request.Nodup) (h : extract db enum fuel loaded request = some (.ok l)) :
    l.Nodup ∧ ∀ p ∈ l, ∀ q, Requires db loaded p q → Before l q p := by
  obtain ⟨s, hi, hd, rfl⟩ := loop_spec hp he fuel _ _ (inv_start loaded request hn) h
  refine ⟨hi.nodup, fun p hm q hq => (hi.order p hm hq.1 ?_).2 q hq⟩
  rw [hd]; exact List.not_mem_nil

include hp he in
/-- C218, the part that holds: if no package provides features, the list has all that is needed and is not loaded yet, those packages exist, and nothing else is in it. -/
theorem complete_partial {fuel : ℕ} {loaded request l : List Name} (hn : request.Nodup) (h : extract db enum fuel loaded request = some (.ok l)) :
    (∀ p, Needed db loaded request p → p ∉ loaded → p ∈ l ∧ (db p).isSome) ∧ ∀ p ∈ l, Needed db loaded request p := by
  obtain ⟨s, hi, hd, rfl⟩ := loop_spec hp he fuel _ _ (inv_start loaded request hn) h
  have ho : ∀ p ∈ s.toBeLoaded, p ∉ loaded → (db p).isSome ∧ ∀ q, Requires db loaded p q → Before s.toBeLoaded q p :=
    fun p h1 h2 => hi.order p h1 h2 (by rw [hd]; exact List.not_mem_nil)
  have hm : ∀ p, Needed db loaded request p → p ∉ loaded → p ∈ s.toBeLoaded := by
    intro x hx
    induction hx with
    | asked h => exact hi.asked _ h
    | step _ hr ih => intro _; exact before_mem ((ho _ (ih hr.1) hr.1).2 _ hr)
  exact ⟨fun p h1 h2 => ⟨hm p h1 h2, (ho p (hm p h1 h2) h2).1⟩, hi.sound⟩

include hp he in
/-- C218: a name is only said to be missing if it is needed, is not loaded and there is no such package. -/
theorem missing_partial {fuel : ℕ} {loaded request : List Name} {n : Name} (hn : request.Nodup)
    (h : extract db enum fuel loaded request = some (.missing n)) :
    Needed db loaded request n ∧ n ∉ loaded ∧ db n = none := loop_spec hp he fuel _ _ (inv_start loaded request hn) h

/-! ## Loading -/

/-- A list that can be loaded from left to right. -/
theorem load_spec (hp : Plain db) : ∀ (l found : List Name), (∀ p ∈ l, (db p).isSome) →
    (∀ p q, p ∈ l → Requires db found p q → q ∈ found ∨ Before l q p) → l.Nodup →
    ∃ log f, load db l found = .inr (log, f) ∧ (∀ x, x ∈ f ↔ x ∈ found ∨ x ∈ l) ∧
      log.map Prod.fst = l.filter (fun n => n ∉ found) ∧
      ∀ e ∈ log, ∀ q ∈ prereqs db e.1, q ∈ e.2
  | [], found, _, _, _ => ⟨[], found, rfl, by simp, rfl, by simp⟩
  | n :: l, found, h1, h2, h3 => by
    obtain ⟨k, hk⟩ := Option.isSome_iff_exists.1 (h1 n (List.mem_cons_self ..))
    rw [List.nodup_cons] at h3
    have hb : ∀ {p q}, p ∈ l → Before (n :: l) q p → q = n ∨ Before l q p := by
      rintro p q hpl ⟨a, b, e, ha⟩
      cases a with
      | nil => simp at ha
      | cons x a =>
        rw [List.cons_append, List.cons.injEq] at e
        rcases List.mem_cons.1 ha with rfl | ha
        · exact .inl e.1.symm
        · exact .inr ⟨a, b, e.2, ha⟩
    by_cases hm : n ∈ found
    · obtain ⟨log, f, e1, e2, e3, e4⟩ := load_spec hp l found (fun p h => h1 p (List.mem_cons_of_mem _ h))
        (fun p q hpl hq => by
          rcases h2 p q (List.mem_cons_of_mem _ hpl) hq with h | h
          · exact .inl h
          · rcases hb hpl h with rfl | h
            · exact .inl hm
            · exact .inr h) h3.2
      refine ⟨log, f, ?_, ?_, ?_, e4⟩
      · simp only [load, hk, if_pos hm]; exact e1
      · intro x
        rw [e2 x, List.mem_cons]
        constructor
        · tauto
        · rintro (h | rfl | h)
          · exact .inl h
          · exact .inl hm
          · exact .inr h
      · rw [e3, List.filter_cons_of_neg (by simpa using hm)]
    · obtain ⟨log, f, e1, e2, e3, e4⟩ := load_spec hp l (found ++ n :: k.features) (fun p h => h1 p (List.mem_cons_of_mem _ h))
        (fun p q hpl hq => by
          have hq' : Requires db found p q := ⟨fun h => hq.1 (List.mem_append_left _ h), hq.2⟩
          rcases h2 p q (List.mem_cons_of_mem _ hpl) hq' with h | h
          · exact .inl (List.mem_append_left _ h)
          · rcases hb hpl h with rfl | h
            · exact .inl (by simp)
            · exact .inr h) h3.2
      have hf := hp n k hk
      refine ⟨(n, found) :: log, f, ?_, ?_, ?_, ?_⟩
      · simp only [load, hk, if_neg hm, e1]
      · intro x
        rw [e2 x, hf]
        simp only [List.mem_append, List.mem_cons, List.not_mem_nil, or_false]
        tauto
      · rw [List.map_cons, e3, List.filter_cons_of_pos (by simpa using hm), hf]
        congr 1
        apply List.filter_congr
        intro x hx
        have : x ≠ n := fun h => h3.1 (h ▸ hx)
        simp [this]
      · intro e he' q hq
        rcases List.mem_cons.1 he' with rfl | he'
        · rcases h2 n q (List.mem_cons_self ..) ⟨hm, mem_prereqs.1 hq⟩ with h | ⟨a, b, e, ha⟩
          · exact h
          · cases a with
            | nil => simp at ha
            | cons x a =>
              rw [List.cons_append, List.cons.injEq] at e
              exact absurd (e.2 ▸ List.mem_append_right a (List.mem_cons_self ..)) h3.1
        · exact e4 e he' q hq

include hp he in
/-- C217, the part that holds: if no package provides features, and what is loaded and needed are packages, then loading succeeds, every package that was not loaded is filed in once, when all its prerequisites are there, and what was asked for is there at the end.
What is missing is said by `order_fails` and `provided_fails`. -/
theorem loading_partial {fuel : ℕ} {loaded request l : List Name} (hn : request.Nodup) (h : extract db enum fuel loaded request = some (.ok l))
    (hl : ∀ p ∈ loaded, Needed db loaded request p → (db p).isSome) :
    ∃ log f, load db l loaded = .inr (log, f) ∧ (∀ p, Needed db loaded request p → p ∈ f) ∧ (log.map Prod.fst).Nodup ∧
      (∀ p, p ∈ log.map Prod.fst ↔ Needed db loaded request p ∧ p ∉ loaded) ∧ ∀ e ∈ log, ∀ q ∈ prereqs db e.1, q ∈ e.2 := by
  obtain ⟨hnd, ho⟩ := order_partial hp he hn h
  obtain ⟨hc, hs⟩ := complete_partial hp he hn h
  obtain ⟨log, f, e1, e2, e3, e4⟩ := load_spec hp l loaded (fun p hpl => by
      by_cases hx : p ∈ loaded
      · exact hl p hx (hs p hpl)
      · exact (hc p (hs p hpl) hx).2) (fun p q hpl hq => .inr (ho p hpl q hq)) hnd
  refine ⟨log, f, e1, fun p hp' => (e2 p).2 ?_, ?_, fun p => ?_, e4⟩
  · by_cases hx : p ∈ loaded
    · exact .inl hx
    · exact .inr (hc p hp' hx).1
  · rw [e3]; exact hnd.filter _
  · rw [e3, List.mem_filter]
    constructor
    · rintro ⟨h1, h2⟩
      exact ⟨hs p h1, by simpa using h2⟩
    · rintro ⟨h1, h2⟩
      exact ⟨(hc p h1 h2).1, by simpa using h2⟩

end

/-! ## C219: the end -/

theorem mem_diff {l m : List Name} {x : Name} (h : x ∈ l.diff m) : x ∈ l := List.diff_sublist l m |>.subset h

theorem loop_ends {db : Db} {enum : List Name → List Name} (he : ∀ l, (enum l).Perm l) (rank : Name → ℕ) (loaded : List Name)
    (hr : ∀ p q, Requires db loaded p q → rank q < rank p) : ∀ (n : ℕ) (s : State), (∀ x ∈ loaded, x ∈ s.found) →
    (∀ d ∈ s.dependencies, d ∉ s.found → rank d < n) → (loop db enum (n + 1) s).isSome := by
  have step : ∀ (s s' : State), (∀ x ∈ loaded, x ∈ s.found) → round db enum s = .inr s' →
      (∀ x ∈ loaded, x ∈ s'.found) ∧ ∀ q ∈ s'.dependencies, ∃ p ∈ s.dependencies, p ∉ s.found ∧ rank q < rank p := by
    intro s s' hf h
    unfold round at h
    simp only at h
    split at h
    · cases h
    · simp only [Sum.inr.injEq] at h
      subst h
      refine ⟨fun x hx => List.mem_append_left _ (hf x hx), fun q hq => ?_⟩
      have hq := mem_diff hq
      rw [(he _).mem_iff, List.mem_dedup, List.mem_flatMap] at hq
      obtain ⟨p, h1, h2⟩ := hq
      rw [List.mem_filter] at h1
      have h3 : p ∉ s.found := by simpa using h1.2
      exact ⟨p, h1.1, h3, hr p q ⟨fun h => h3 (hf p h), mem_prereqs.1 h2⟩⟩
  intro n
  induction n with
  | zero =>
    intro s hf hd
    unfold loop
    split
    · rfl
    · rename_i s' hs
      have : s'.dependencies = [] := by
        rw [List.eq_nil_iff_forall_not_mem]
        intro q hq
        obtain ⟨p, h1, h2, _⟩ := (step s s' hf hs).2 q hq
        exact absurd (hd p h1 h2) (Nat.not_lt_zero _)
      rw [if_pos this]
      rfl
  | succ n ih =>
    intro s hf hd
    unfold loop
    split
    · rfl
    · rename_i s' hs
      split
      · rfl
      · refine ih s' (step s s' hf hs).1 fun d h1 _ => ?_
        obtain ⟨p, h2, h3, h4⟩ := (step s s' hf hs).2 d h1
        have := hd p h2 h3
        omega

/-- C219, the part that holds: the search ends if prerequisites are not circular.
What is missing is said by `circular_fails`. -/
theorem ends_partial {db : Db} {enum : List Name → List Name} (he : ∀ l, (enum l).Perm l) (rank : Name → ℕ) (loaded request : List Name)
    (hr : ∀ p q, Requires db loaded p q → rank q < rank p) : ∃ fuel r, extract db enum fuel loaded request = some r := by
  obtain ⟨n, hn⟩ : ∃ n, ∀ d ∈ request, rank d < n := by
    clear hr
    induction request with
    | nil => exact ⟨0, by simp⟩
    | cons a l ih =>
      obtain ⟨n, hn⟩ := ih
      refine ⟨max n (rank a + 1), fun d hd => ?_⟩
      rcases List.mem_cons.1 hd with rfl | hd
      · omega
      · have := hn d hd; omega
  exact ⟨n + 1, Option.isSome_iff_exists.1 (loop_ends he rank loaded hr n (start loaded request) (fun x hx => hx) fun d hd _ => hn d hd)⟩

/-- Packages 1 and 2, which need each other. -/
def circular : Db
  | 1 => some ⟨[2], []⟩
  | 2 => some ⟨[1], []⟩
  | _ => none

/-- C219 fails: if two packages need each other, the search never ends. -/
theorem circular_fails (fuel : ℕ) : extract circular id fuel [] [1] = none := by
  have h2 : round circular id ⟨[2, 1], [], [2]⟩ = .inr ⟨[1, 2], [], [1]⟩ := by decide
  have h3 : round circular id ⟨[1, 2], [], [1]⟩ = .inr ⟨[2, 1], [], [2]⟩ := by decide
  have h1 : round circular id (start [] [1]) = .inr ⟨[2, 1], [], [2]⟩ := by decide
  have key : ∀ n, loop circular id n ⟨[2, 1], [], [2]⟩ = none ∧ loop circular id n ⟨[1, 2], [], [1]⟩ = none := by
    intro n
    induction n with
    | zero => exact ⟨rfl, rfl⟩
    | succ n ih =>
      constructor
      · unfold loop; rw [h2]; exact ih.2
      · unfold loop; rw [h3]; exact ih.1
  cases fuel with
  | zero => rfl
  | succ n => unfold extract loop; rw [h1]; exact (key n).1

/-! ## Witnesses -/

/-- The packages of the comment: 1 Kernel, 2 Blox, 3 BloxTestSuite, 4 Browser. -/
def blox : Db
  | 1 => some ⟨[], []⟩
  | 2 => some ⟨[1], []⟩
  | 3 => some ⟨[2], []⟩
  | 4 => some ⟨[2], []⟩
  | _ => none

example : extract blox id 5 [] [3, 2, 4] = some (.ok [1, 2, 3, 4]) := by decide
example : extract blox id 5 [] [3, 5, 4] = some (.missing 5) := by decide
example : load blox [1, 2, 3, 4] [] = .inr ([(1, []), (2, [1]), (3, [1, 2]), (4, [1, 2, 3])], [1, 2, 3, 4]) := by decide
example : Plain blox := by
  intro n k h
  unfold blox at h
  split at h <;> simp_all <;> (subst h; rfl)
example : ∀ p q, Requires blox [] p q → (fun n => n) q < (fun n => n) p := by
  rintro p q ⟨-, k, h, hq⟩
  unfold blox at h
  split at h <;> simp at h <;> subst h <;> simp at hq <;> subst hq <;> decide

/-- Package 1 needs the feature 9, which package 2 provides; package 3 needs both; package 4 needs 9 as well. -/
def virtual : Db
  | 1 => some ⟨[9], []⟩
  | 2 => some ⟨[], [9]⟩
  | 3 => some ⟨[1, 2], []⟩
  | 4 => some ⟨[1], []⟩
  | _ => none

/-- C217 fails: a package can be loaded before the one that provides what it needs. -/
theorem order_fails : extract virtual id 5 [] [3] = some (.ok [1, 2, 3]) ∧
    load virtual [1, 2, 3] [] = .inr ([(1, []), (2, [1]), (3, [1, 2, 9])], [1, 2, 9, 3]) := by decide

/-- C217 fails: when a feature that a package needs is there already, but is not the name of a package, loading is given up. -/
theorem provided_fails : extract virtual id 5 [2, 9] [1] = some (.ok [9, 1]) ∧ load virtual [9, 1] [2, 9] = .inl 9 := by decide

/-- C218 fails: the same when the package that provides it is asked for in the same request. -/
theorem asked_fails : extract virtual id 5 [] [2, 4] = some (.ok [9, 1, 2, 4]) ∧ load virtual [9, 1, 2, 4] [] = .inl 9 := by decide

end Verif.Packages
