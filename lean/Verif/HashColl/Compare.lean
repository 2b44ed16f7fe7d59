import Verif.HashColl.Props
import Batteries.Data.List.Perm

/-!
# Comparing, hashing and combining sets (C33)

`kernel/HashedColl.st`, `kernel/Set.st`.  Both sets have the same class (same equality
and hash).
-/

set_option linter.unusedSectionVars false

namespace Verif.HashColl

open Verif.Hash

variable {α K : Type} [DecidableEq K] (key : α → K) (h : K → Nat)

/-! ## Model -/

/-- `self do: [:element | (aSet includes: element) ifFalse: [^false]]. ^true`:
HashedColl.st:190-192, Set.st:86-87, 95-96. -/
def allIncluded (u : Table α) : List α → Option Bool
  | [] => some true
  | a :: as => do
    let b ← includes key h u (key a)
    if b then allIncluded u as else some false

/-- `=` after the class and identity tests: HashedColl.st:184-193. -/
def setEq (t u : Table α) : Option Bool :=
  if t.tally = u.tally then allIncluded key h u (elements t) else some false

/-- `hash`: HashedColl.st:171-180. -/
def setHash (t : Table α) : Nat :=
  (elements t).foldl (fun hashValue m => hashValue ^^^ h (key m)) t.tally

/-- `<`: Set.st:80-88. -/
def strictSubset (t u : Table α) : Option Bool :=
  if t.tally < u.tally then allIncluded key h u (elements t) else some false

/-- `<=`: Set.st:90-98. -/
def subset (t u : Table α) : Option Bool :=
  if t.tally ≤ u.tally then allIncluded key h u (elements t) else some false

/-- `do: [:elem | (aSet includes: elem) ifTrue: [result add: elem]]` (or `ifFalse:`):
Set.st:46-51, 73-75. -/
def addWhere (u : Table α) (keep : Bool) (r : Table α) : List α → Option (Table α)
  | [] => some r
  | a :: as => do
    let b ← includes key h u (key a)
    if b = keep then do
      let r ← add key h h r a
      addWhere u keep r as
    else addWhere u keep r as

/-- `&`: Set.st:40-54. -/
def inter (t u : Table α) : Option (Table α) :=
  if t.tally < u.tally then addWhere key h u true (new t.tally) (elements t)
  else addWhere key h t true (new t.tally) (elements u)

/-- `-`: Set.st:66-76. -/
def diff (t u : Table α) : Option (Table α) :=
  addWhere key h u false (new t.tally) (elements t)

/-- `addAll:` (Collection.st). -/
def addAll (t : Table α) : List α → Option (Table α)
  | [] => some t
  | a :: as => do
    let t ← add key h h t a
    addAll t as

/-- `+`: Set.st:56-64. -/
def union (t u : Table α) : Option (Table α) := do
  let c ← shallowCopy key h t
  addAll key h c (elements u)

/-! ## Lemmas -/

variable {key h}

theorem allIncluded_spec {u : Table α} {N : K → Option α} (w : WF key h u N) (as : List α) :
    ∃ b, allIncluded key h u as = some b ∧ (b = true ↔ ∀ a ∈ as, (N (key a)).isSome) := by
  induction as with
  | nil => exact ⟨true, rfl, by simp⟩
  | cons a as ih =>
    obtain ⟨b, h1, h2⟩ := ih
    unfold allIncluded
    rw [w.includes]
    simp only [Option.bind_eq_bind, Option.bind_some]
    cases hs : (N (key a)).isSome with
    | false => exact ⟨false, rfl, by simp [hs]⟩
    | true => exact ⟨b, by rw [if_pos rfl]; exact h1, by rw [h2]; simp [hs]⟩

/-- The members of a table, as a list of classes without repetition. -/
theorem WF.keys {t : Table α} {M : K → Option α} (w : WF key h t M) :
    ((HashColl.elements t).map key).Nodup ∧ ((HashColl.elements t).map key).length = t.tally ∧
      ∀ k, k ∈ (HashColl.elements t).map key ↔ (M k).isSome := by
  obtain ⟨e1, e2, e3⟩ := w.elements
  refine ⟨?_, by rw [List.length_map, e3], fun k => ?_⟩
  · rw [List.nodup_iff_pairwise_ne, List.pairwise_map]
    exact e2
  · rw [List.mem_map]
    constructor
    · rintro ⟨a, ha, rfl⟩
      rw [(e1 a).mp ha]; rfl
    · intro hs
      obtain ⟨a, ha⟩ := Option.isSome_iff_exists.mp hs
      have hk := ((w.abs k a).mp ha).2
      exact ⟨a, (e1 a).mpr (by rw [hk]; exact ha), hk⟩

/-- Included in both directions when sizes agree (pigeonhole). -/
theorem keys_perm {t u : Table α} {M N : K → Option α} (w : WF key h t M) (w' : WF key h u N)
    (hsz : u.tally ≤ t.tally) (hsub : ∀ k, (M k).isSome → (N k).isSome) :
    ((elements t).map key).Perm ((elements u).map key) := by
  obtain ⟨n1, l1, m1⟩ := w.keys
  obtain ⟨n2, l2, m2⟩ := w'.keys
  have hs : List.Subperm ((elements t).map key) ((elements u).map key) :=
    List.subperm_of_subset n1 (fun k hk => (m2 k).mpr (hsub k ((m1 k).mp hk)))
  exact hs.perm_of_length_le (by omega)

theorem keys_le {t u : Table α} {M N : K → Option α} (w : WF key h t M) (w' : WF key h u N)
    (hsub : ∀ k, (M k).isSome → (N k).isSome) : t.tally ≤ u.tally := by
  obtain ⟨n1, l1, m1⟩ := w.keys
  obtain ⟨n2, l2, m2⟩ := w'.keys
  have hs : List.Subperm ((elements t).map key) ((elements u).map key) :=
    List.subperm_of_subset n1 (fun k hk => (m2 k).mpr (hsub k ((m1 k).mp hk)))
  have := hs.length_le
  omega

theorem allIncluded_sub {t u : Table α} {M N : K → Option α} (w : WF key h t M)
    (w' : WF key h u N) :
    ∃ b, allIncluded key h u (elements t) = some b ∧
      (b = true ↔ ∀ k, (M k).isSome → (N k).isSome) := by
  obtain ⟨b, h1, h2⟩ := allIncluded_spec w' (elements t)
  refine ⟨b, h1, h2.trans ⟨fun hh k hk => ?_, fun hh a ha => hh _ ?_⟩⟩
  · obtain ⟨a, ha, rfl⟩ := List.mem_map.mp ((w.keys.2.2 k).mpr hk)
    exact hh a ha
  · rw [(w.elements.1 a).mp ha]; rfl

theorem addWhere_spec {u : Table α} {N : K → Option α} (w : WF key h u N) (keep : Bool)
    (as : List α) : ∀ (r : Table α) (R : K → Option α), WF key h r R →
    ∃ r' R', addWhere key h u keep r as = some r' ∧ WF key h r' R' ∧
      ∀ k, (R' k).isSome = ((R k).isSome || as.any (fun a => key a = k && (N k).isSome = keep)) := by
  induction as with
  | nil => intro r R wr; exact ⟨r, R, rfl, wr, by simp⟩
  | cons a as ih =>
    intro r R wr
    unfold addWhere
    rw [w.includes]
    simp only [Option.bind_eq_bind, Option.bind_some]
    split
    · rename_i hk
      obtain ⟨r1, a1, a2⟩ := wr.add a
      rw [a1]
      obtain ⟨r', R', b1, b2, b3⟩ := ih r1 _ a2
      refine ⟨r', R', b1, b2, fun k => ?_⟩
      rw [b3, List.any_cons]
      by_cases hka : k = key a
      · subst hka; simp [hk]
      · have : ¬ key a = k := fun e => hka e.symm
        simp [hka, this]
    · rename_i hk
      obtain ⟨r', R', b1, b2, b3⟩ := ih r R wr
      refine ⟨r', R', b1, b2, fun k => ?_⟩
      rw [b3, List.any_cons]
      by_cases hka : key a = k
      · subst hka; simp [hk]
      · simp [hka]

theorem addAll_wf (as : List α) : ∀ (r : Table α) (R : K → Option α), WF key h r R →
    ∃ r' R', addAll key h r as = some r' ∧ WF key h r' R' ∧
      ∀ k, (R' k).isSome = ((R k).isSome || as.any (fun a => key a = k)) := by
  induction as with
  | nil => intro r R wr; exact ⟨r, R, rfl, wr, by simp⟩
  | cons a as ih =>
    intro r R wr
    unfold addAll
    obtain ⟨r1, a1, a2⟩ := wr.add a
    rw [a1]
    obtain ⟨r', R', b1, b2, b3⟩ := ih r1 _ a2
    refine ⟨r', R', b1, b2, fun k => ?_⟩
    rw [b3, List.any_cons]
    by_cases hka : k = key a
    · subst hka; simp
    · have : ¬ key a = k := fun e => hka e.symm
      simp [hka, this]

theorem any_key {t : Table α} {M : K → Option α} (w : WF key h t M) (k : K) (p : Bool) :
    (elements t).any (fun a => decide (key a = k) && p) = ((M k).isSome && p) := by
  cases p with
  | false => simp
  | true =>
    simp only [Bool.and_true]
    rw [Bool.eq_iff_iff, List.any_eq_true]
    rw [← w.keys.2.2 k, List.mem_map]
    simp

/-! ## C33 -/

/-- `=` on sets with the histories `ops` and `ops'` answers true exactly when they have
the same members. -/
theorem set_equality (m m' : Nat) (ops ops' : List (SetOp α K)) :
    ∃ t u b, runSet key h h (new m) ops = some t ∧ runSet key h h (new m') ops' = some u ∧
      setEq key h t u = some b ∧
      (b = true ↔ ∀ k, (member key ops k).isSome = (member key ops' k).isSome) := by
  obtain ⟨t, r1, w⟩ := runSet_wf key h m ops
  obtain ⟨u, r2, w'⟩ := runSet_wf key h m' ops'
  unfold setEq
  by_cases hsz : t.tally = u.tally
  · obtain ⟨b, h1, h2⟩ := allIncluded_sub w w'
    refine ⟨t, u, b, r1, r2, by rw [if_pos hsz]; exact h1, h2.trans ⟨fun hsub k => ?_, fun heq k hk => ?_⟩⟩
    · have hp := keys_perm w w' (by omega) hsub
      have := hp.mem_iff (a := k)
      rw [w.keys.2.2, w'.keys.2.2] at this
      rw [Bool.eq_iff_iff]; exact this
    · rw [← heq]; exact hk
  · refine ⟨t, u, false, r1, r2, by rw [if_neg hsz], ?_⟩
    constructor
    · intro hf; cases hf
    · intro heq
      have h1 := keys_le w w' (fun k hk => by rw [← heq]; exact hk)
      have h2 := keys_le w' w (fun k hk => by rw [heq]; exact hk)
      omega

/-- Sets that are equal have equal hashes, whatever their histories. -/
theorem set_hash_compatible (m m' : Nat) (ops ops' : List (SetOp α K))
    (heq : ∀ k, (member key ops k).isSome = (member key ops' k).isSome) :
    ∃ t u, runSet key h h (new m) ops = some t ∧ runSet key h h (new m') ops' = some u ∧
      setHash key h t = setHash key h u := by
  obtain ⟨t, r1, w⟩ := runSet_wf key h m ops
  obtain ⟨u, r2, w'⟩ := runSet_wf key h m' ops'
  refine ⟨t, u, r1, r2, ?_⟩
  have h1 := keys_le w w' (fun k hk => by rw [← heq]; exact hk)
  have h2 := keys_le w' w (fun k hk => by rw [heq]; exact hk)
  have hp := keys_perm w w' h2 (fun k hk => by rw [← heq]; exact hk)
  have hfold : ∀ (l : List α) (x : Nat), l.foldl (fun hv m => hv ^^^ h (key m)) x =
      (l.map key).foldl (fun hv k => hv ^^^ h k) x := by
    intro l x; rw [List.foldl_map]
  unfold setHash
  rw [hfold, hfold, show t.tally = u.tally by omega]
  generalize (elements t).map key = l1 at hp
  generalize (elements u).map key = l2 at hp
  generalize u.tally = x
  clear hfold heq r1 r2 w w' h1 h2
  induction hp generalizing x with
  | nil => rfl
  | cons a _ ih => exact ih _
  | swap a b l =>
    simp only [List.foldl_cons]
    congr 1
    rw [Nat.xor_assoc, Nat.xor_assoc, Nat.xor_comm (h b)]
  | trans _ _ ih1 ih2 => exact (ih1 x).trans (ih2 x)

/-- `<=` and `<` are inclusion and strict inclusion. -/
theorem set_inclusion (m m' : Nat) (ops ops' : List (SetOp α K)) :
    ∃ t u b c, runSet key h h (new m) ops = some t ∧ runSet key h h (new m') ops' = some u ∧
      subset key h t u = some b ∧ strictSubset key h t u = some c ∧
      (b = true ↔ ∀ k, (member key ops k).isSome → (member key ops' k).isSome) ∧
      (c = true ↔ (∀ k, (member key ops k).isSome → (member key ops' k).isSome) ∧
        ∃ k, (member key ops' k).isSome ∧ ¬ (member key ops k).isSome) := by
  obtain ⟨t, r1, w⟩ := runSet_wf key h m ops
  obtain ⟨u, r2, w'⟩ := runSet_wf key h m' ops'
  obtain ⟨b, h1, h2⟩ := allIncluded_sub w w'
  have hstrict : (∀ k, (member key ops k).isSome → (member key ops' k).isSome) →
      (t.tally < u.tally ↔ ∃ k, (member key ops' k).isSome ∧ ¬ (member key ops k).isSome) := by
    intro hsub
    constructor
    · intro hlt
      apply Classical.byContradiction
      intro hno
      have := keys_le w' w (fun k hk => Classical.byContradiction fun hc => hno ⟨k, hk, hc⟩)
      omega
    · rintro ⟨k, hk1, hk2⟩
      apply Classical.byContradiction
      intro hge
      have hp := keys_perm w w' (by omega) hsub
      have := hp.mem_iff (a := k)
      rw [w.keys.2.2, w'.keys.2.2] at this
      exact hk2 (this.mpr hk1)
  refine ⟨t, u, if t.tally ≤ u.tally then b else false, if t.tally < u.tally then b else false,
    r1, r2, ?_, ?_, ?_, ?_⟩
  · unfold subset; rw [h1]; split <;> rfl
  · unfold strictSubset; rw [h1]; split <;> rfl
  · split
    · exact h2
    · rename_i hgt
      constructor
      · intro hf; cases hf
      · intro hsub; exact absurd (keys_le w w' hsub) hgt
  · split
    · rename_i hlt
      rw [h2]
      constructor
      · intro hsub; exact ⟨hsub, (hstrict hsub).mp hlt⟩
      · exact fun hh => hh.1
    · rename_i hge
      constructor
      · intro hf; cases hf
      · rintro ⟨hsub, hex⟩; exact absurd ((hstrict hsub).mpr hex) hge

/-- `&`, `+` and `-` are intersection, union and difference, and answer well-formed sets. -/
theorem set_arithmetic (m m' : Nat) (ops ops' : List (SetOp α K)) :
    ∃ t u i s d, runSet key h h (new m) ops = some t ∧ runSet key h h (new m') ops' = some u ∧
      inter key h t u = some i ∧ union key h t u = some s ∧ diff key h t u = some d ∧
      ∀ k,
        includes key h i k = some ((member key ops k).isSome && (member key ops' k).isSome) ∧
        includes key h s k = some ((member key ops k).isSome || (member key ops' k).isSome) ∧
        includes key h d k = some ((member key ops k).isSome && !(member key ops' k).isSome) := by
  obtain ⟨t, r1, w⟩ := runSet_wf key h m ops
  obtain ⟨u, r2, w'⟩ := runSet_wf key h m' ops'
  obtain ⟨i, hi, ki⟩ : ∃ i, inter key h t u = some i ∧ ∀ k,
      includes key h i k = some ((member key ops k).isSome && (member key ops' k).isSome) := by
    unfold inter
    split
    · obtain ⟨i, I, s1, s2, s3⟩ := addWhere_spec w' true (elements t) _ _ (wf_new key h t.tally)
      refine ⟨i, s1, fun k => ?_⟩
      rw [s2.includes, s3, any_key w]; simp
    · obtain ⟨i, I, s1, s2, s3⟩ := addWhere_spec w true (elements u) _ _ (wf_new key h t.tally)
      refine ⟨i, s1, fun k => ?_⟩
      rw [s2.includes, s3, any_key w']; simp [Bool.and_comm]
  obtain ⟨s, hs, ks⟩ : ∃ s, union key h t u = some s ∧ ∀ k,
      includes key h s k = some ((member key ops k).isSome || (member key ops' k).isSome) := by
    obtain ⟨c, c1, c2, -⟩ := copy_keeps key h w
    obtain ⟨s, S, s1, s2, s3⟩ := addAll_wf (elements u) c _ c2
    refine ⟨s, by unfold union; rw [c1]; exact s1, fun k => ?_⟩
    have := any_key w' k true
    simp only [Bool.and_true] at this
    rw [s2.includes, s3, this]
  obtain ⟨d, hd, kd⟩ : ∃ d, diff key h t u = some d ∧ ∀ k,
      includes key h d k = some ((member key ops k).isSome && !(member key ops' k).isSome) := by
    obtain ⟨i, I, s1, s2, s3⟩ := addWhere_spec w' false (elements t) _ _ (wf_new key h t.tally)
    refine ⟨i, s1, fun k => ?_⟩
    rw [s2.includes, s3, any_key w]
    cases (member key ops' k).isSome <;> simp
  exact ⟨t, u, i, s, d, r1, r2, hi, hs, hd, fun k => ⟨ki k, ks k, kd k⟩⟩

/-- Two sets with the same members built differently. -/
example : (do
    let t ← runSet id (· % 4) (· % 4) (new 0) ([.remove 8, .add 8, .add 4, .add 0] : List (SetOp Nat Nat))
    let u ← runSet id (· % 4) (· % 4) (new 50) ([.add 0, .add 4] : List (SetOp Nat Nat))
    let b ← setEq id (· % 4) t u
    some (b, setHash id (· % 4) t, setHash id (· % 4) u)) = some (true, 2, 2) := by
  decide +kernel

end Verif.HashColl
