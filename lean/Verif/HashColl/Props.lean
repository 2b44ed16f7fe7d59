import Verif.HashColl.Lookup

/-!
# Property theorems C12 (finite sets and maps) and C13 (growth, rehashing)

Histories are lists of operations, newest first.  `key`/`cls` and the hash are arbitrary,
as long as equal objects have equal hashes (the hash is a function of the class).
-/

set_option linter.unusedSectionVars false

namespace Verif.HashColl

open Verif.Hash

variable {α K O V : Type} [DecidableEq K] (key : α → K) (h : K → Nat)

/-! ## Sets: specification -/

inductive SetOp (α K : Type)
  | add (a : α)
  | remove (k : K)

/-- The element equal to `k` that a set with this history contains. -/
def member (key : α → K) : List (SetOp α K) → K → Option α
  | [], _ => none
  | .add a :: ops, k => if k = key a then some ((member key ops k).getD a) else member key ops k
  | .remove k' :: ops, k => if k = k' then none else member key ops k

/-- Running the operations; `hashF`/`hashE` are the hashes used for searching and for
re-inserting. -/
def runSet (hashF hashE : K → Nat) (t : Table α) : List (SetOp α K) → Option (Table α)
  | [] => some t
  | op :: ops => do
    let t ← runSet hashF hashE t ops
    match op with
    | .add a => add key hashF hashE t a
    | .remove k => (remove key hashF hashE t k).map Prod.snd

theorem runSet_wf (m : Nat) (ops : List (SetOp α K)) :
    ∃ t, runSet key h h (new m) ops = some t ∧ WF key h t (member key ops) := by
  induction ops with
  | nil => exact ⟨_, rfl, wf_new key h m⟩
  | cons op ops ih =>
    obtain ⟨t, r1, r2⟩ := ih
    simp only [runSet, r1, Option.bind_eq_bind, Option.bind_some]
    cases op with
    | add a =>
      obtain ⟨t', s1, s2⟩ := r2.add a
      exact ⟨t', s1, s2⟩
    | remove k =>
      obtain ⟨t', s1, s2, -⟩ := r2.remove k
      exact ⟨t', by simp only [s1]; rfl, s2⟩

/-- C12 for sets.  After any history no search is endless; membership tests answer what
the finite set says; `do:` enumerates exactly the members, each once; the size is their
number. -/
theorem set_correct (m : Nat) (ops : List (SetOp α K)) :
    ∃ t, runSet key h h (new m) ops = some t ∧
      (∀ k, includes key h t k = some (member key ops k).isSome) ∧
      (∀ a, a ∈ elements t ↔ member key ops (key a) = some a) ∧
      (elements t).Pairwise (fun a b => key a ≠ key b) ∧
      t.tally = (elements t).length := by
  obtain ⟨t, r1, r2⟩ := runSet_wf key h m ops
  obtain ⟨e1, e2, e3⟩ := r2.elements
  exact ⟨t, r1, r2.includes, e1, e2, e3.symm⟩

/-- `remove:` reports whether the element was there. -/
theorem set_remove_answer (m : Nat) (ops : List (SetOp α K)) (k : K) :
    ∃ t t', runSet key h h (new m) ops = some t ∧
      remove key h h t k = some (member key ops k, t') := by
  obtain ⟨t, r1, r2⟩ := runSet_wf key h m ops
  obtain ⟨t', s1, -⟩ := r2.remove k
  exact ⟨t, t', r1, s1⟩

/-! ## Dictionaries: specification -/

inductive DictOp (O V : Type)
  | put (k : O) (v : V)
  | removeKey (k : O)

/-- The value last stored under a key of class `q` and not removed since. -/
def valueOf (cls : O → K) : List (DictOp O V) → K → Option V
  | [], _ => none
  | .put k v :: ops, q => if q = cls k then some v else valueOf cls ops q
  | .removeKey k :: ops, q => if q = cls k then none else valueOf cls ops q

variable (cls : O → K)

def runDict (t : Table (O × V)) : List (DictOp O V) → Option (Table (O × V))
  | [] => some t
  | op :: ops => do
    let t ← runDict t ops
    match op with
    | .put k v => dictAtPut h h cls t k v
    | .removeKey k => (remove (akey cls) h h t (cls k)).map Prod.snd

theorem runDict_wf (m : Nat) (ops : List (DictOp O V)) :
    ∃ t M, runDict h cls (new m) ops = some t ∧ WF (akey cls) h t M ∧
      ∀ q, (M q).map Prod.snd = valueOf cls ops q := by
  induction ops with
  | nil => exact ⟨_, _, rfl, wf_new _ h m, fun q => rfl⟩
  | cons op ops ih =>
    obtain ⟨t, M, r1, r2, r3⟩ := ih
    simp only [runDict, r1, Option.bind_eq_bind, Option.bind_some]
    cases op with
    | put k v =>
      obtain ⟨t', s1, s2⟩ := r2.dictAtPut k v
      refine ⟨t', _, s1, s2, fun q => ?_⟩
      simp only [valueOf]
      split
      · rfl
      · exact r3 q
    | removeKey k =>
      obtain ⟨t', s1, s2, -⟩ := r2.remove (cls k)
      refine ⟨t', _, by simp only [s1]; rfl, s2, fun q => ?_⟩
      simp only [valueOf]
      split
      · rfl
      · exact r3 q

/-- The keys of two pairs are different. -/
theorem pairs_spec {t : Table (O × V)} {M : K → Option (O × V)} (w : WF (akey cls) h t M)
    (ops : List (DictOp O V)) (hM : ∀ q, (M q).map Prod.snd = valueOf cls ops q) :
    (∀ q v, valueOf cls ops q = some v ↔ ∃ k, (k, v) ∈ elements t ∧ cls k = q) ∧
    (elements t).Pairwise (fun a b => cls a.1 ≠ cls b.1) ∧ t.tally = (elements t).length := by
  obtain ⟨e1, e2, e3⟩ := w.elements
  refine ⟨fun q v => ?_, e2, e3.symm⟩
  rw [← hM]
  constructor
  · intro hv
    cases hm : M q with
    | none => rw [hm] at hv; cases hv
    | some a =>
      rw [hm] at hv; cases hv
      have hk : cls a.1 = q := ((w.abs q a).mp hm).2
      exact ⟨a.1, (e1 a).mpr (by rw [show akey cls a = q from hk]; exact hm), hk⟩
  · rintro ⟨k, hm, hk⟩
    have := (e1 (k, v)).mp hm
    rw [show akey (V := V) cls (k, v) = q from hk] at this
    rw [this]; rfl

/-- C12 for Dictionary: lookups, `includesKey:`, enumeration and size agree with the
finite map, and no search is endless. -/
theorem dictionary_correct (m : Nat) (ops : List (DictOp O V)) :
    ∃ t, runDict h cls (new m) ops = some t ∧
      (∀ q, (entryAt (akey cls) h t q).map (fun r => r.map Prod.snd) =
        some (valueOf cls ops q)) ∧
      (∀ q, includes (akey cls) h t q = some (valueOf cls ops q).isSome) ∧
      (∀ q v, valueOf cls ops q = some v ↔ ∃ k, (k, v) ∈ elements t ∧ cls k = q) ∧
      (elements t).Pairwise (fun a b => cls a.1 ≠ cls b.1) ∧
      t.tally = (elements t).length := by
  obtain ⟨t, M, r1, r2, r3⟩ := runDict_wf h cls m ops
  obtain ⟨p1, p2, p3⟩ := pairs_spec h cls r2 ops r3
  refine ⟨t, r1, fun q => ?_, fun q => ?_, p1, p2, p3⟩
  · rw [r2.entryAt]
    simp only [Option.map_some, r3]
  · rw [r2.includes, ← r3]
    cases M q <;> rfl

/-! ## LookupTable, IdentityDictionary -/

variable (nilV : V)

def runLookup (t : LTable O V) : List (DictOp O V) → Option (LTable O V)
  | [] => some t
  | op :: ops => do
    let t ← runLookup t ops
    match op with
    | .put k v => lAtPut h h cls nilV t k v
    | .removeKey k => (lRemoveKey h h cls nilV t (cls k)).map Prod.snd

theorem runLookup_view (t : LTable O V) (ops : List (DictOp O V)) :
    (runLookup h cls nilV t ops).map view = runDict h cls (view t) ops := by
  induction ops with
  | nil => rfl
  | cons op ops ih =>
    simp only [runLookup, runDict, ← ih]
    cases runLookup h cls nilV t ops with
    | none => rfl
    | some t1 =>
      simp only [Option.bind_eq_bind, Option.bind_some, Option.map_some]
      cases op with
      | put k v => exact view_atPut nilV t1 k v
      | removeKey k =>
        have hv := view_removeKey (cls := cls) (h := h) nilV t1 (cls k)
        cases h1 : lRemoveKey h h cls nilV t1 (cls k) with
        | none =>
          rw [h1] at hv
          cases h2 : remove (akey cls) h h (view t1) (cls k) with
          | none => simp only [h1, h2]; rfl
          | some r => rw [h2] at hv; cases hv
        | some r =>
          rw [h1] at hv
          cases h2 : remove (akey cls) h h (view t1) (cls k) with
          | none => rw [h2] at hv; cases hv
          | some r' =>
            rw [h2] at hv
            simp only [Option.map_some, Option.some.injEq, Prod.mk.injEq] at hv
            simp only [h1, h2, Option.map_some, hv.2]

/-- C12 for LookupTable and IdentityDictionary. -/
theorem lookup_table_correct (m : Nat) (ops : List (DictOp O V)) :
    ∃ t, runLookup h cls nilV ⟨new m, fun _ => nilV⟩ ops = some t ∧
      (∀ q, lAt h cls t q = some (valueOf cls ops q)) ∧
      (∀ q v, valueOf cls ops q = some v ↔ ∃ k, (k, v) ∈ elements (view t) ∧ cls k = q) ∧
      (elements (view t)).Pairwise (fun a b => cls a.1 ≠ cls b.1) ∧
      t.prim.tally = (elements (view t)).length := by
  obtain ⟨t, M, r1, r2, r3⟩ := runDict_wf h cls m ops
  have hv := runLookup_view h cls nilV ⟨new m, fun _ => nilV⟩ ops
  rw [show view (⟨new m, fun _ => nilV⟩ : LTable O V) = new m from rfl, r1] at hv
  obtain ⟨lt, l1, rfl⟩ := Option.map_eq_some_iff.mp hv
  obtain ⟨p1, p2, p3⟩ := pairs_spec h cls r2 ops r3
  refine ⟨lt, l1, fun q => ?_, p1, p2, p3⟩
  rw [view_at, r2.entryAt]
  simp only [Option.map_some, r3]

/-- `removeKey:ifAbsent:` of a LookupTable answers the value removed. -/
theorem lookup_table_remove_answer (m : Nat) (ops : List (DictOp O V)) (k : O) :
    ∃ t t', runLookup h cls nilV ⟨new m, fun _ => nilV⟩ ops = some t ∧
      lRemoveKey h h cls nilV t (cls k) = some (valueOf cls ops (cls k), t') := by
  obtain ⟨t, M, r1, r2, r3⟩ := runDict_wf h cls m ops
  have hv := runLookup_view h cls nilV ⟨new m, fun _ => nilV⟩ ops
  rw [show view (⟨new m, fun _ => nilV⟩ : LTable O V) = new m from rfl, r1] at hv
  obtain ⟨lt, l1, rfl⟩ := Option.map_eq_some_iff.mp hv
  obtain ⟨t', s1, -, -⟩ := r2.remove (cls k)
  have hw := view_removeKey (cls := cls) (h := h) nilV lt (cls k)
  rw [s1] at hw
  obtain ⟨⟨a, lt'⟩, l2, l3⟩ := Option.map_eq_some_iff.mp hw
  simp only [Prod.mk.injEq] at l3
  refine ⟨lt, lt', l1, ?_⟩
  rw [l2, l3.1]
  simp only [r3]

/-! ## C13 -/

/-- Growing: a well-formed table that grows keeps its entries, its size answer and the
invariants; the new table has twice the slots, again a power of two, and free slots. -/
theorem grow_keeps {t : Table α} {M : K → Option α} (w : WF key h t M) :
    ∃ t', growBy key h t (capacity t) = some t' ∧ WF key h t' M ∧
      t'.size = 2 * t.size ∧ t'.tally = t.tally ∧ t'.tally < t'.size ∧
      (∀ a, a ∈ elements t' ↔ a ∈ elements t) := by
  obtain ⟨e, h3, hs⟩ := w.pow
  obtain ⟨q, hq, hq0⟩ := cap_pow e h3
  have hroom := w.room
  have h2 : 2 ^ (e + 1) = 2 * 2 ^ e := by rw [Nat.pow_succ, Nat.mul_comm]
  obtain ⟨t', r1, r2, r3, r4⟩ := w.copy (2 ^ (e + 1)) (e + 1) (by omega) rfl (by omega)
  refine ⟨t', ?_, r2, by rw [r3, hs]; omega, r4, r2.lt, fun a => ?_⟩
  · unfold growBy new capacity
    rw [hs, realSize_double e h3]; exact r1
  · rw [r2.elements.1, w.elements.1]

/-- A shallow copy has the same entries and the same number of slots. -/
theorem copy_keeps {t : Table α} {M : K → Option α} (w : WF key h t M) :
    ∃ t', shallowCopy key h t = some t' ∧ WF key h t' M ∧ t'.size = t.size ∧
      t'.tally = t.tally ∧ (∀ a, a ∈ elements t' ↔ a ∈ elements t) := by
  obtain ⟨e, h3, hs⟩ := w.pow
  obtain ⟨t', r1, r2, r3, r4⟩ := w.copy (2 ^ e) e h3 rfl (by rw [← hs]; exact w.room)
  refine ⟨t', ?_, r2, by rw [r3, hs], r4, fun a => by rw [r2.elements.1, w.elements.1]⟩
  unfold shallowCopy new capacity
  rw [hs, realSize_capacity e h3]; exact r1

/-- Rehashing, after the hashes (and even the equality) of the elements have changed to
`h'` and `key'`: as long as no two elements have become equal, every element is found
again afterwards. -/
theorem rehash_restores (key' : α → K) (h' : K → Nat) {t : Table α} {M : K → Option α}
    (w : WF key h t M) (hd : (elements t).Pairwise (fun a b => key' a ≠ key' b)) :
    ∃ t', rehash key' h' t = some t' ∧ t'.tally = t.tally ∧ t'.size = t.size ∧
      (∀ a, a ∈ elements t' ↔ a ∈ elements t) ∧
      (∀ a, a ∈ elements t → entryAt key' h' t' (key' a) = some (some a)) ∧
      (∀ k, (∀ a ∈ elements t, key' a ≠ k) → includes key' h' t' k = some false) := by
  obtain ⟨e, h3, hs⟩ := w.pow
  have hlen : (elements t).length = t.tally := w.elements.2.2
  obtain ⟨t', r1, r2, r3, r4, r5, r6⟩ := addAll_fresh key' h' (elements t) t.size e hs
    (by rw [hlen]; exact w.lt) hd
  let M' : K → Option α := fun k => (elements t).find? (fun a => key' a = k)
  have habs : Abs t'.size (slots t') key' M' := by
    intro k a
    rw [r6]
    constructor
    · intro hf
      have h1 := List.mem_of_find?_eq_some hf
      have h2 := List.find?_some hf
      exact ⟨h1, by simpa using h2⟩
    · rintro ⟨h1, h2⟩
      show (elements t).find? (fun a => key' a = k) = some a
      clear r1 r6 hlen r3 r5 r2 r4
      generalize elements t = l at *
      induction l with
      | nil => cases h1
      | cons b l ih =>
        obtain ⟨p1, p2⟩ := List.pairwise_cons.mp hd
        rw [List.find?_cons]
        rcases List.mem_cons.mp h1 with rfl | h1
        · simp [h2]
        · have : key' b ≠ k := fun hb => p1 a h1 (by rw [hb, h2])
          simp only [this, decide_false]
          exact ih p2 h1
  have w' : WF key' h' t' M' := by
    refine ⟨⟨e, h3, r2.trans hs⟩, r4, habs, r5.trans r3.symm, ?_⟩
    rw [r3, r2, hlen]; exact w.room
  refine ⟨t', r1, r3.trans hlen, r2, fun a => by rw [mem_elements, r6], fun a ha => ?_,
    fun k hk => ?_⟩
  · rw [w'.entryAt]
    congr 1
    exact (habs _ _).mpr ⟨(r6 a).mpr ha, rfl⟩
  · rw [w'.includes]
    congr 1
    cases hm : M' k with
    | none => rfl
    | some a =>
      obtain ⟨h1, h2⟩ := (habs k a).mp hm
      exact absurd h2 (hk a ((r6 a).mp h1))

/-! ## Concrete cases -/

/-- Colliding elements (hash modulo 4), additions that make the table grow, a removal in
the middle of the chain. -/
def exampleOps : List (SetOp Nat Nat) :=
  [.remove 4, .add 28, .add 24, .add 20, .add 16, .add 12, .add 8, .add 4, .add 0]

example : (runSet id (· % 4) (· % 4) (new 0) exampleOps).map elements =
    some [0, 8, 12, 16, 20, 24, 28] := by decide

example : member id exampleOps 4 = none ∧ member id exampleOps 12 = some 12 := by decide

example : (runLookup id id 0 ⟨new 0, fun _ => 0⟩
    [DictOp.removeKey 0, .put 8 80, .put 16 161, .put 16 160, .put 0 1]).bind
      (fun t => lAt id id t 16) = some (some 161) := by decide

/-! ## IdentitySet: the hashes differ

`IdentitySet >> findIndex:` uses `identityHash` but the inherited `findElementIndex:`,
used when the set grows or an element is removed, uses `hash`.  For elements whose class
redefines `hash` (strings, arrays, numbers…) C12 and C13 are false. -/

/-- Three objects with equal `hash` 0 and `identityHash` 1, 1, 2: removing the first
makes the last one unreachable: it is still in the table but `includes:` says no. -/
theorem identity_set_loses_elements :
    let ident : Nat → Nat := fun a => if a = 3 then 2 else 1
    let hash : Nat → Nat := fun _ => 0
    let ops : List (SetOp Nat Nat) := [.remove 1, .add 3, .add 2, .add 1]
    member id ops 3 = some 3 ∧
    (runSet id ident hash (new 0) ops).bind (fun t => includes id ident t 3) = some false ∧
    (runSet id ident hash (new 0) ops).map elements = some [2, 3] := by decide

/-- Growth alone does the same: after seven additions, none removed, the first element
added is not found any more and a second addition makes it appear twice. -/
theorem identity_set_growth_duplicates :
    let ident : Nat → Nat := fun a => a + 3
    let hash : Nat → Nat := fun _ => 0
    let ops : List (SetOp Nat Nat) := [.add 6, .add 5, .add 4, .add 3, .add 2, .add 1, .add 0]
    (runSet id ident hash (new 0) ops).bind (fun t => includes id ident t 0) = some false ∧
    (runSet id ident hash (new 0) (.add 0 :: ops)).map (fun t => (elements t).count 0) =
      some 2 := by decide

/-- IdentitySet, the part that holds: if `hash` and `identityHash` agree on all objects
that are used (SmallIntegers, Symbols, objects that inherit `hash` from Object), the
theorem for sets applies.  Missing: other elements, for which it is false. -/
theorem identity_set_correct_partial (ident hash : K → Nat) (heq : ∀ k, ident k = hash k)
    (m : Nat) (ops : List (SetOp α K)) :
    ∃ t, runSet key ident hash (new m) ops = some t ∧
      (∀ k, includes key ident t k = some (member key ops k).isSome) ∧
      (∀ a, a ∈ elements t ↔ member key ops (key a) = some a) := by
  have : ident = hash := funext heq
  subst this
  obtain ⟨t, r1, r2, r3, -⟩ := set_correct key ident m ops
  exact ⟨t, r1, r2, r3⟩

end Verif.HashColl
