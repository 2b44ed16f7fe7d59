import Verif.VMDict.Lemmas

/-!
# Property theorems C09 (lookups), C10 (size), C11 (probing terminates)
for the dictionaries of the virtual machine

A history is a list of `at:put:` operations, newest first.
-/

set_option linter.unusedSectionVars false

namespace Verif.VMDict

open Verif.Hash

section
variable {O : Type} [DecidableEq O] (nil : O) (hash : O → Nat)

/-! ## Specification -/

/-- The value most recently stored at `k`. -/
def lastPut (hist : List (O × O)) (k : O) : Option O :=
  (hist.find? (fun p => p.1 = k)).map Prod.snd

/-- Number of distinct keys in a history. -/
def distinct : List (O × O) → Nat
  | [] => 0
  | p :: ps => if (lastPut ps p.1).isSome then distinct ps else distinct ps + 1

/-! ## Running a history -/

def runIdentity (d : IDict O) : List (O × O) → Option (IDict O)
  | [] => some d
  | p :: ps => do
    let d ← runIdentity d ps
    let r ← identityAtPut nil hash d p.1 p.2
    some r.2

def runDict (s : Assocs O × Dict) : List (O × O) → Option (Assocs O × Dict)
  | [] => some s
  | p :: ps => do
    let s ← runDict s ps
    dictAtPut hash s.1 s.2 p.1 p.2

/-! ## Identity dictionaries -/

structure IWF (d : IDict O) (M : O → Option (O × O)) (u : Nat) : Prop where
  pow : ∃ e, d.numFields = 2 * 2 ^ e ∧ Reach (2 ^ e) (slotsOf nil d.data) Prod.fst hash ∧
    Abs (2 ^ e) (slotsOf nil d.data) Prod.fst M ∧ used (slotsOf nil d.data) (2 ^ e) = u ∧
    u < 2 ^ e ∧ 3 * d.fixed + 6 < 2 * 2 ^ e
  clean : Clean nil d.data
  tally : u ≤ d.tally

theorem growIdentity_wf {d : IDict O} {M : O → Option (O × O)} {u : Nat}
    (h : IWF nil hash d M u) :
    ∃ d', growIdentity nil hash d = some d' ∧ IWF nil hash d' M u ∧ d'.tally = d.tally + 1 ∧
      d'.fixed = d.fixed ∧ d'.numFields = 2 * d.numFields := by
  obtain ⟨⟨e, h1, h2, h3, h4, h5, h6⟩, hc, ht⟩ := h
  have hpos : 0 < 2 ^ (e + 1) := Nat.pow_pos (by decide)
  have hdbl : (2:Nat) ^ (e + 1) = 2 * 2 ^ e := by rw [Nat.pow_succ, Nat.mul_comm]
  obtain ⟨s, s1, s2, s3, s4⟩ := rehash_abs (2 ^ e) (2 ^ (e + 1)) Prod.fst hash (slotsOf nil d.data)
    M h3 h2 hpos (by omega)
  unfold growIdentity
  dsimp only
  rw [h1, half, newNumFields_pow]
  obtain ⟨d', g1, g2, g3, g4, g5, g6⟩ := growLoop_eq nil hash d.data
    { fixed := d.fixed, numFields := 2 ^ (e + 1) * 2, data := fun _ => nil, tally := d.tally + 1 }
    (e + 1) (Nat.mul_comm _ _) (by funext i; simp [slotsOf]) (2 ^ e) s s1
  refine ⟨d', g1, ⟨⟨e + 1, ?_, ?_, ?_, ?_, ?_, ?_⟩, ?_, ?_⟩, g3, g4, ?_⟩
  · rw [g2]; exact Nat.mul_comm _ _
  · rw [g5]; exact s2
  · rw [g5]; exact s4
  · rw [g5, s3, h4]
  · omega
  · rw [g4]; dsimp only; omega
  · exact g6 (fun i _ => rfl)
  · rw [g3]; dsimp only; omega
  · rw [g2]; dsimp only; omega

/-- One `at:put:`. -/
theorem identityAtPut_wf {d : IDict O} {M : O → Option (O × O)} {u : Nat}
    (h : IWF nil hash d M u) (key value : O) (hk : key ≠ nil) :
    ∃ d', identityAtPut nil hash d key value =
        some (((M key).map Prod.snd).getD nil, d') ∧
      IWF nil hash d' (fun k => if k = key then some (key, value) else M k)
        (if (M key).isSome then u else u + 1) ∧
      d'.tally = d.tally + (if identityTooFull d then 1 else 0)
        + (if (M key).isSome then 0 else 1) ∧
      d'.fixed = d.fixed ∧
      d'.numFields = if identityTooFull d then 2 * d.numFields else d.numFields := by
  -- the dictionary after the growth test
  obtain ⟨d1, hd1, hw, htl, hfx, hnf, hroom⟩ : ∃ d1,
      (if identityTooFull d then growIdentity nil hash d else some d) = some d1 ∧
      IWF nil hash d1 M u ∧ d1.tally = d.tally + (if identityTooFull d then 1 else 0) ∧
      d1.fixed = d.fixed ∧
      d1.numFields = (if identityTooFull d then 2 * d.numFields else d.numFields) ∧
      u + 1 < d1.numFields / 2 := by
    by_cases hf : identityTooFull d
    · obtain ⟨d', g1, g2, g3, g4, g5⟩ := growIdentity_wf nil hash h
      refine ⟨d', by rw [if_pos hf, g1], g2, by rw [if_pos hf, g3], g4, by rw [if_pos hf, g5], ?_⟩
      obtain ⟨⟨e, h1, -, -, -, h5, h6⟩, -, -⟩ := h
      rw [g5, h1]; omega
    · refine ⟨d, by rw [if_neg hf], h, by rw [if_neg hf]; rfl, rfl, by rw [if_neg hf], ?_⟩
      obtain ⟨⟨e, h1, -, -, -, h5, h6⟩, -, ht⟩ := h
      simp only [identityTooFull, ge_iff_le, decide_eq_true_iff, h1] at hf
      rw [h1]; omega
  unfold identityAtPut
  rw [hd1]
  simp only [Option.bind_eq_bind, Option.bind_some]
  obtain ⟨⟨e, h1, h2, h3, h4, h5, h6⟩, hc, ht⟩ := hw
  rw [findKeyOrNil_eq nil hash d1 e h1]
  have hpos : 0 < 2 ^ e := Nat.pow_pos (by decide)
  have href := probe_refines h3 hpos h2 key
  cases hp : probe (2 ^ e) (slotsOf nil d1.data) Prod.fst key (2 ^ e) (hash key) with
  | full =>
    rw [hp] at href
    obtain ⟨-, hf⟩ := href; omega
  | found i =>
    rw [hp] at href
    obtain ⟨hi, hs, hsome⟩ := href
    obtain ⟨a, ha⟩ := Option.isSome_iff_exists.mp hsome
    rw [ha] at hs
    have hkey : a.1 = key := ((h3 key a).mp ha).2
    have hne : d1.data (2 * i) ≠ nil ∧ a = (d1.data (2 * i), d1.data (2 * i + 1)) := by
      unfold slotsOf at hs
      split at hs
      · cases hs
      · rename_i hn; cases hs; exact ⟨hn, rfl⟩
    simp only [Option.bind_some, Nat.add_sub_cancel]
    refine ⟨{ d1 with data := set (set d1.data (2 * i) key) (2 * i + 1) value,
                      tally := if d1.data (2 * i) = nil then d1.tally + 1 else d1.tally }, by
      congr 2
      rw [ha]
      simp only [set, Option.map_some, Option.getD_some, hne.2]
      rw [if_neg (by omega)], ⟨⟨e, h1, ?_, ?_, ?_, ?_, h6⟩, ?_, ?_⟩, ?_, hfx, hnf⟩
    · dsimp only
      rw [slotsOf_set nil _ _ _ _ hk]
      exact h2.replace (key, value) a i hs hkey.symm
    · dsimp only
      rw [slotsOf_set nil _ _ _ _ hk]
      exact h3.replace h2 (key, value) a i hi hs hkey.symm
    · dsimp only
      rw [slotsOf_set nil _ _ _ _ hk, used_update_used _ _ _ _ _ hs, h4, if_pos hsome]
    · rw [if_pos hsome]; omega
    · exact clean_set nil _ _ _ _ hk hc
    · rw [if_pos hsome]; dsimp only; rw [if_neg hne.1]; omega
    · dsimp only; rw [if_neg hne.1, if_pos hsome, htl]; omega
  | free i =>
    rw [hp] at href
    obtain ⟨hi, hs, hnone⟩ := href
    have hne : d1.data (2 * i) = nil := by
      unfold slotsOf at hs
      split at hs
      · assumption
      · cases hs
    have hv : d1.data (2 * i + 1) = nil := hc i hne
    have hns : ¬ (M key).isSome := by rw [hnone]; simp
    simp only [Option.bind_some, Nat.add_sub_cancel]
    refine ⟨{ d1 with data := set (set d1.data (2 * i) key) (2 * i + 1) value,
                      tally := if d1.data (2 * i) = nil then d1.tally + 1 else d1.tally }, by
      congr 2
      rw [hnone]
      simp only [set, Option.map_none, Option.getD_none]
      rw [if_neg (by omega), hv], ⟨⟨e, h1, ?_, ?_, ?_, ?_, h6⟩, ?_, ?_⟩, ?_, hfx, hnf⟩
    · dsimp only
      rw [slotsOf_set nil _ _ _ _ hk]
      exact h2.insert (key, value) i hp
    · dsimp only
      rw [slotsOf_set nil _ _ _ _ hk]
      exact h3.insert hpos h2 (key, value) i hp
    · dsimp only
      rw [slotsOf_set nil _ _ _ _ hk, used_update_free _ _ _ _ hi hs, h4, if_neg hns]
    · rw [if_neg hns]; omega
    · exact clean_set nil _ _ _ _ hk hc
    · rw [if_neg hns]; dsimp only; rw [if_pos hne]; omega
    · dsimp only; rw [if_pos hne, if_neg hns, htl]

/-- Lookups answer what the map says. -/
theorem identityAt_wf {d : IDict O} {M : O → Option (O × O)} {u : Nat}
    (h : IWF nil hash d M u) (key : O) :
    identityAt nil hash d key = some (((M key).map Prod.snd).getD nil) ∧
    findClassMethod nil hash d key = some (((M key).map Prod.snd).getD nil) := by
  obtain ⟨⟨e, h1, h2, h3, h4, h5, h6⟩, hc, ht⟩ := h
  unfold identityAt findClassMethod
  rw [findKeyOrNil_eq nil hash d e h1, findKey_eq nil hash d e h1]
  have hpos : 0 < 2 ^ e := Nat.pow_pos (by decide)
  have href := probe_refines h3 hpos h2 key
  cases hp : probe (2 ^ e) (slotsOf nil d.data) Prod.fst key (2 ^ e) (hash key) with
  | full =>
    rw [hp] at href
    obtain ⟨-, hf⟩ := href; omega
  | found i =>
    rw [hp] at href
    obtain ⟨hi, hs, hsome⟩ := href
    rw [← hs]
    have hne : ¬ d.data (2 * i) = nil := by
      intro hn
      rw [← hs] at hsome
      simp [slotsOf, hn] at hsome
    simp [slotsOf, hne]
  | free i =>
    rw [hp] at href
    obtain ⟨hi, hs, hnone⟩ := href
    have hne : d.data (2 * i) = nil := by
      unfold slotsOf at hs
      split at hs
      · assumption
      · cases hs
    simp [hnone, hc i hne]

theorem lastPut_cons (p : O × O) (ps : List (O × O)) (k : O) :
    lastPut (p :: ps) k = if k = p.1 then some p.2 else lastPut ps k := by
  unfold lastPut
  rw [List.find?_cons]
  by_cases h : p.1 = k
  · simp [h]
  · have h' : ¬ k = p.1 := fun e => h e.symm
    simp [h, h']

theorem runIdentity_wf (fixed size : Nat) (hsz : 3 * fixed + 6 < 2 * newNumFields size)
    (hist : List (O × O)) (hk : ∀ p ∈ hist, p.1 ≠ nil) :
    ∃ d M, runIdentity nil hash (identityNew nil fixed size) hist = some d ∧
      IWF nil hash d M (distinct hist) ∧
      (∀ k, (M k).map Prod.snd = lastPut hist k) ∧
      d.fixed = fixed ∧ 2 * newNumFields size ≤ d.numFields ∧
      (d.numFields = 2 * newNumFields size → d.tally = distinct hist) := by
  induction hist with
  | nil =>
    have hpos : 0 < size := by
      apply Nat.pos_of_ne_zero; intro h0
      subst h0
      have e0 : newNumFields 0 = 0 := by decide
      omega
    obtain ⟨t, t1, t2⟩ := log_bounds size hpos
    have e := newNumFields_spec size t t1 t2
    have hs : slotsOf nil (identityNew nil fixed size).data = fun _ => none := by
      funext i; simp [slotsOf, identityNew]
    refine ⟨_, fun _ => none, rfl, ⟨⟨t + 1, ?_, ?_, ?_, ?_, ?_, ?_⟩, fun i _ => rfl, Nat.zero_le _⟩,
      fun k => rfl, rfl, ?_, fun _ => rfl⟩
    · simp only [identityNew, e]; exact Nat.mul_comm _ _
    · rw [hs]; exact Reach.empty _ _ _
    · rw [hs]; exact Abs.empty _ _
    · rw [hs]; exact used_empty _
    · exact Nat.pow_pos (by decide)
    · rw [← e]; exact hsz
    · simp only [identityNew]; omega
  | cons p ps ih =>
    obtain ⟨d, M, r1, r2, r3, r4, r5, r6⟩ := ih (fun q hq => hk q (List.mem_cons_of_mem _ hq))
    obtain ⟨d', s1, s2, s3, s4, s5⟩ := identityAtPut_wf nil hash r2 p.1 p.2
      (hk p List.mem_cons_self)
    have hsome : (M p.1).isSome = (lastPut ps p.1).isSome := by
      rw [← r3]; cases M p.1 <;> rfl
    have hdist : distinct (p :: ps) = if (M p.1).isSome then distinct ps else distinct ps + 1 := by
      rw [hsome]; rfl
    refine ⟨d', _, ?_, by rw [hdist]; exact s2, ?_, s4.trans r4, ?_, ?_⟩
    · simp only [runIdentity, r1, Option.bind_eq_bind, Option.bind_some, s1]
    · intro k
      rw [lastPut_cons]
      split <;> simp [r3]
    · rw [s5]; split <;> omega
    · intro heq
      have hpos : 0 < newNumFields size := by omega
      rw [s5] at heq
      split at heq
      · omega
      · rename_i hf
        rw [s3, if_neg hf, r6 heq, hdist]
        split <;> omega

/-- C09 and C11 for IdentityDictionary and MethodDictionary: whatever the history, the
key hashes and the initial size (at least `newNumFields size > (3 * fixed + 6) / 2`
pairs), no operation runs into the "dictionary is full" abort, and every lookup answers
the value last stored, `nil` for keys never stored. -/
theorem identity_dictionary_lookup (fixed size : Nat)
    (hsz : 3 * fixed + 6 < 2 * newNumFields size) (hist : List (O × O))
    (hk : ∀ p ∈ hist, p.1 ≠ nil) :
    ∃ d, runIdentity nil hash (identityNew nil fixed size) hist = some d ∧
      ∀ k, identityAt nil hash d k = some ((lastPut hist k).getD nil) ∧
        findClassMethod nil hash d k = some ((lastPut hist k).getD nil) := by
  obtain ⟨d, M, r1, r2, r3, -⟩ := runIdentity_wf nil hash fixed size hsz hist hk
  refine ⟨d, r1, fun k => ?_⟩
  rw [← r3]
  exact identityAt_wf nil hash r2 k

/-- `at:put:` answers the previous value. -/
theorem identity_at_put_answers_old (fixed size : Nat)
    (hsz : 3 * fixed + 6 < 2 * newNumFields size) (hist : List (O × O))
    (hk : ∀ p ∈ hist, p.1 ≠ nil) (key value : O) (hkey : key ≠ nil) :
    ∃ d d', runIdentity nil hash (identityNew nil fixed size) hist = some d ∧
      identityAtPut nil hash d key value = some ((lastPut hist key).getD nil, d') := by
  obtain ⟨d, M, r1, r2, r3, -⟩ := runIdentity_wf nil hash fixed size hsz hist hk
  obtain ⟨d', s1, -⟩ := identityAtPut_wf nil hash r2 key value hkey
  exact ⟨d, d', r1, by rw [s1, r3]⟩

/-- C10 for identity dictionaries, the part that holds: the size is never less than the
number of keys, and it is exact as long as the dictionary has not grown. -/
theorem identity_dictionary_size_partial (fixed size : Nat)
    (hsz : 3 * fixed + 6 < 2 * newNumFields size) (hist : List (O × O))
    (hk : ∀ p ∈ hist, p.1 ≠ nil) :
    ∃ d, runIdentity nil hash (identityNew nil fixed size) hist = some d ∧
      distinct hist ≤ d.tally ∧
      (d.numFields = 2 * newNumFields size → d.tally = distinct hist) := by
  obtain ⟨d, M, r1, r2, r3, -, -, r6⟩ := runIdentity_wf nil hash fixed size hsz hist hk
  exact ⟨d, r1, r2.tally, r6⟩

/-- C10 for identity dictionaries is false of the code: each growth counts one key too
many.  Whenever the growth test fires, storing under a new key adds 2 to the size, and
storing under a present key adds 1. -/
theorem identity_dictionary_size_overcounts {d : IDict O} {M : O → Option (O × O)} {u : Nat}
    (h : IWF nil hash d M u) (hf : identityTooFull d = true) (key value : O) (hk : key ≠ nil) :
    ∃ r d', identityAtPut nil hash d key value = some (r, d') ∧
      d'.tally = d.tally + if (M key).isSome then 1 else 2 := by
  obtain ⟨d', s1, -, s3, -⟩ := identityAtPut_wf nil hash h key value hk
  refine ⟨_, d', s1, ?_⟩
  rw [s3, if_pos hf]
  split <;> rfl

/-! ## Dictionaries of associations -/

structure DWF (H : Assocs O) (d : Dict) (M : O → Option Nat) : Prop where
  pow : ∃ e, d.numFields = 2 ^ e ∧ Reach (2 ^ e) d.slots H.key hash ∧
    Abs (2 ^ e) d.slots H.key M ∧ used d.slots (2 ^ e) = d.tally ∧
    d.tally < 2 ^ e ∧ 3 * d.fixed + 6 < 2 ^ e ∧
    (∀ a, Holds (2 ^ e) d.slots a → a < H.size)

theorem growDict_wf {H : Assocs O} {d : Dict} {M : O → Option Nat} (h : DWF hash H d M) :
    ∃ d', growDict hash H d = some d' ∧ DWF hash H d' M ∧ d'.tally = d.tally ∧
      d'.fixed = d.fixed ∧ d'.numFields = 2 * d.numFields := by
  obtain ⟨⟨e, h1, h2, h3, h4, h5, h6, hfr⟩⟩ := h
  have hpos : 0 < 2 ^ (e + 1) := Nat.pow_pos (by decide)
  have hdbl : (2:Nat) ^ (e + 1) = 2 * 2 ^ e := by rw [Nat.pow_succ, Nat.mul_comm]
  obtain ⟨s, s1, s2, s3, s4⟩ := rehash_abs (2 ^ e) (2 ^ (e + 1)) H.key hash d.slots
    M h3 h2 hpos (by omega)
  obtain ⟨s', s1', -, -, hold⟩ := rehash_spec (2 ^ e) (2 ^ (e + 1)) H.key hash d.slots h2 hpos
    (2 ^ e) (Nat.le_refl _) (by omega)
  rw [s1] at s1'; cases s1'
  unfold growDict
  rw [h1, newNumFields_pow]
  refine ⟨_, growDictLoop_eq hash H d.slots _ (e + 1) rfl rfl (2 ^ e) s s1,
    ⟨⟨e + 1, rfl, s2, s4, ?_, ?_, ?_, ?_⟩⟩, rfl, rfl, hdbl⟩
  · dsimp only; rw [s3, h4]
  · dsimp only; omega
  · dsimp only; omega
  · intro a ha
    exact hfr a ((hold a).mp ha)

theorem reach_congr {n : Nat} {slots : Nat → Option Nat} {key key' : Nat → O}
    (hc : ∀ a, Holds n slots a → key a = key' a) (hn : 0 < n) (h : Reach n slots key hash) :
    Reach n slots key' hash := by
  intro i a hi ha
  obtain ⟨d, h1, h2, h3⟩ := h i a hi ha
  have e := hc a ⟨i, hi, ha⟩
  rw [e] at h2 h3
  refine ⟨d, h1, h2, fun d' hd' => ?_⟩
  obtain ⟨b, hb, hk⟩ := h3 d' hd'
  exact ⟨b, hb, by rw [← hc b ⟨_, Nat.mod_lt _ hn, hb⟩]; exact hk⟩

theorem abs_congr {n : Nat} {slots : Nat → Option Nat} {key key' : Nat → O} {M : O → Option Nat}
    (hc : ∀ a, Holds n slots a → key a = key' a) (h : Abs n slots key M) :
    Abs n slots key' M := by
  intro k a
  rw [h k a]
  constructor
  · rintro ⟨h1, h2⟩; exact ⟨h1, by rw [← hc a h1]; exact h2⟩
  · rintro ⟨h1, h2⟩; exact ⟨h1, by rw [hc a h1]; exact h2⟩

theorem associationNew_wf {H : Assocs O} {d : Dict} {M : O → Option Nat} (h : DWF hash H d M)
    (key value : O) : DWF hash (associationNew H key value).1 d M := by
  obtain ⟨⟨e, h1, h2, h3, h4, h5, h6, hfr⟩⟩ := h
  have hpos : 0 < 2 ^ e := Nat.pow_pos (by decide)
  have hc : ∀ a, Holds (2 ^ e) d.slots a → H.key a = (associationNew H key value).1.key a := by
    intro a ha
    have := hfr a ha
    simp only [associationNew]
    rw [if_neg (by omega)]
  exact ⟨⟨e, h1, reach_congr hash hc hpos h2, abs_congr hc h3, h4, h5, h6,
    fun a ha => by have := hfr a ha; simp only [associationNew]; omega⟩⟩

/-- One `at:put:` on a dictionary. -/
theorem dictAtPut_wf {H : Assocs O} {d : Dict} {M : O → Option Nat} (h : DWF hash H d M)
    (key value : O) :
    ∃ H' d' M', dictAtPut hash H d key value = some (H', d') ∧ DWF hash H' d' M' ∧
      (∀ k, (M' k).map H'.value = if k = key then some value else (M k).map H.value) ∧
      d'.tally = d.tally + (if (M key).isSome then 0 else 1) ∧ d'.fixed = d.fixed := by
  have hw0 := associationNew_wf hash h key value
  obtain ⟨⟨_, -, -, h3', -, -, -, hfr'⟩⟩ := h
  have hMlt : ∀ k a, M k = some a → a < H.size := fun k a hm => hfr' a ((h3' k a).mp hm).1
  unfold dictAtPut dictAdd
  dsimp only
  have hkey : (associationNew H key value).1.key (associationNew H key value).2 = key := by
    simp [associationNew]
  have hval : (associationNew H key value).1.value (associationNew H key value).2 = value := by
    simp [associationNew]
  have hsz : (associationNew H key value).2 < (associationNew H key value).1.size := by
    simp [associationNew]
  have hold : ∀ a, a < H.size → (associationNew H key value).1.value a = H.value a := by
    intro a ha; simp only [associationNew]; rw [if_neg (by omega)]
  generalize (associationNew H key value).1 = H1 at *
  generalize (associationNew H key value).2 = a at *
  obtain ⟨d1, hd1, hw, htl, hfx, hroom⟩ : ∃ d1,
      (if dictTooFull d then growDict hash H1 d else some d) = some d1 ∧
      DWF hash H1 d1 M ∧ d1.tally = d.tally ∧ d1.fixed = d.fixed ∧
      d1.tally + 1 < d1.numFields := by
    by_cases hf : dictTooFull d
    · obtain ⟨d', g1, g2, g3, g4, g5⟩ := growDict_wf hash hw0
      refine ⟨d', by rw [if_pos hf, g1], g2, g3, g4, ?_⟩
      obtain ⟨⟨e, h1, -, -, -, h5, h6, -⟩⟩ := hw0
      rw [g5, h1]; omega
    · refine ⟨d, by rw [if_neg hf], hw0, rfl, rfl, ?_⟩
      obtain ⟨⟨e, h1, -, -, -, h5, h6, -⟩⟩ := hw0
      simp only [dictTooFull, ge_iff_le, decide_eq_true_iff, h1] at hf
      rw [h1]; omega
  rw [hd1]
  simp only [Option.bind_eq_bind, Option.bind_some]
  obtain ⟨⟨e, h1, h2, h3, h4, h5, h6, hfr⟩⟩ := hw
  have hpos : 0 < 2 ^ e := Nat.pow_pos (by decide)
  unfold find
  rw [h1, findLoop_eq, hkey]
  have href := probe_refines h3 hpos h2 key
  cases hp : probe (2 ^ e) d1.slots H1.key key (2 ^ e) (hash key) with
  | full =>
    rw [hp] at href
    obtain ⟨-, hf⟩ := href; omega
  | found i =>
    rw [hp] at href
    obtain ⟨hi, hs, hsome⟩ := href
    obtain ⟨b, hb⟩ := Option.isSome_iff_exists.mp hsome
    rw [hb] at hs
    have hkb : H1.key b = key := ((h3 key b).mp hb).2
    simp only [Option.bind_some, hs]
    refine ⟨_, _, M, rfl, ⟨⟨e, h1, h2, h3, h4, h5, h6, hfr⟩⟩, ?_, ?_, hfx⟩
    · intro k
      dsimp only
      by_cases hk : k = key
      · subst hk; rw [if_pos rfl, hb]; simp [hval]
      · rw [if_neg hk]
        cases hm : M k with
        | none => rfl
        | some c =>
          have hkc : H1.key c = k := ((h3 k c).mp hm).2
          have hcb : c ≠ b := by
            intro hcb; subst hcb; exact hk (hkc.symm.trans hkb)
          simp only [Option.map_some, Option.some.injEq]
          rw [if_neg hcb, hold c (hMlt k c hm)]
    · rw [hb]; simp [htl]
  | free i =>
    rw [hp] at href
    obtain ⟨hi, hs, hnone⟩ := href
    simp only [Option.bind_some, hs]
    have hp' : probe (2 ^ e) d1.slots H1.key (H1.key a) (2 ^ e) (hash (H1.key a)) = .free i := by
      rw [hkey]; exact hp
    refine ⟨_, _, _, rfl, ⟨⟨e, by first | exact h1 | rfl, h2.insert a i hp', h3.insert hpos h2 a i hp', ?_, ?_, h6, ?_⟩⟩,
      ?_, ?_, hfx⟩
    · dsimp only; rw [used_update_free _ _ _ _ hi hs, h4]
    · dsimp only; omega
    · intro c hc
      rcases (holds_update hi c).mp hc with rfl | ⟨j, hj, -, hcj⟩
      · exact hsz
      · exact hfr c ⟨j, hj, hcj⟩
    · intro k
      rw [hkey]
      by_cases hk : k = key
      · rw [if_pos hk, if_pos hk]; simp [hval]
      · rw [if_neg hk, if_neg hk]
        cases hm : M k with
        | none => rfl
        | some c =>
          simp only [Option.map_some, Option.some.injEq]
          rw [hold c (hMlt k c hm)]
    · rw [hnone]; simp [htl]

theorem dictAt_wf {H : Assocs O} {d : Dict} {M : O → Option Nat} (h : DWF hash H d M) (k : O) :
    dictAt nil hash H d k = some (((M k).map H.value).getD nil) := by
  obtain ⟨⟨e, h1, h2, h3, h4, h5, h6, hfr⟩⟩ := h
  have hpos : 0 < 2 ^ e := Nat.pow_pos (by decide)
  unfold dictAt find
  rw [h1, findLoop_eq]
  have href := probe_refines h3 hpos h2 k
  cases hp : probe (2 ^ e) d.slots H.key k (2 ^ e) (hash k) with
  | full =>
    rw [hp] at href
    obtain ⟨-, hf⟩ := href; omega
  | found i =>
    rw [hp] at href
    obtain ⟨hi, hs, hsome⟩ := href
    obtain ⟨b, hb⟩ := Option.isSome_iff_exists.mp hsome
    rw [hb] at hs ⊢
    simp [hs]
  | free i =>
    rw [hp] at href
    obtain ⟨hi, hs, hnone⟩ := href
    simp [hs, hnone]

theorem runDict_wf (H : Assocs O) (fixed size : Nat)
    (hsz : 3 * fixed + 6 < newNumFields size) (hist : List (O × O)) :
    ∃ H' d M, runDict hash (H, dictNew fixed size) hist = some (H', d) ∧ DWF hash H' d M ∧
      (∀ k, (M k).map H'.value = lastPut hist k) ∧ d.tally = distinct hist := by
  induction hist with
  | nil =>
    have hpos : 0 < size := by
      apply Nat.pos_of_ne_zero; intro h0
      subst h0
      have e0 : newNumFields 0 = 0 := by decide
      omega
    obtain ⟨t, t1, t2⟩ := log_bounds size hpos
    have e := newNumFields_spec size t t1 t2
    refine ⟨H, _, fun _ => none, rfl, ⟨⟨t + 1, e, Reach.empty _ _ _, Abs.empty _ _, used_empty _,
      ?_, ?_, ?_⟩⟩, fun k => rfl, rfl⟩
    · simp only [dictNew]; exact Nat.pow_pos (by decide)
    · rw [← e]; exact hsz
    · rintro a ⟨i, -, h⟩; cases h
  | cons p ps ih =>
    obtain ⟨H1, d, M, r1, r2, r3, r4⟩ := ih
    obtain ⟨H', d', M', s1, s2, s3, s4, -⟩ := dictAtPut_wf hash r2 p.1 p.2
    refine ⟨H', d', M', ?_, s2, ?_, ?_⟩
    · simp only [runDict, r1, Option.bind_eq_bind, Option.bind_some, s1]
    · intro k; rw [s3, lastPut_cons, r3]
    · have hsome : (M p.1).isSome = (lastPut ps p.1).isSome := by
        rw [← r3]; cases M p.1 <;> rfl
      rw [s4, r4, hsome]
      simp only [distinct]
      split <;> omega

/-- C09, C10 and C11 for Dictionary, BindingDictionary and namespaces: whatever the
history and the hashes, no operation aborts, every lookup answers the value last stored
(`nil` for keys never stored), and the size is the number of distinct keys. -/
theorem dictionary_correct (H : Assocs O) (fixed size : Nat)
    (hsz : 3 * fixed + 6 < newNumFields size) (hist : List (O × O)) :
    ∃ H' d, runDict hash (H, dictNew fixed size) hist = some (H', d) ∧
      (∀ k, dictAt nil hash H' d k = some ((lastPut hist k).getD nil)) ∧
      d.tally = distinct hist := by
  obtain ⟨H', d, M, r1, r2, r3, r4⟩ := runDict_wf hash H fixed size hsz hist
  exact ⟨H', d, r1, fun k => by rw [dictAt_wf nil hash r2, r3], r4⟩

end

/-! ## The hypotheses hold for the dictionaries the VM creates -/

/-- The sizes at which the VM creates dictionaries (named instance variables, argument
of `…_new`): temporaries and class variables (sym.c:882, 1203, gst-parse.c:957), the
primitives table (dict.c:1228), namespaces (dict.c:1047-1058). -/
example : ∀ p ∈ [(1, 8), (2, 8), (2, 512), (5, 32)], 3 * p.1 + 6 < newNumFields p.2 := by decide

/-- Identity dictionaries: debug information and profiles (comp.c:538, 732,
dict.c:2208), method dictionaries (dict.c:1408). -/
example : ∀ p ∈ [(1, 6), (2, 32)], 3 * p.1 + 6 < 2 * newNumFields p.2 := by decide

/-! ## Concrete runs -/

/-- Keys 1..8 into an identity dictionary created with room for 8. -/
def eightPuts : List (Nat × Nat) :=
  [(8, 80), (7, 70), (6, 60), (5, 50), (4, 40), (3, 30), (2, 20), (1, 10)]

/-- Eight keys, size 9: the eighth store makes the dictionary grow. -/
theorem identity_dictionary_size_wrong :
    (runIdentity 0 id (identityNew 0 1 6) eightPuts).map IDict.tally = some 9 ∧
      distinct eightPuts = 8 := by decide

example : (runIdentity 0 id (identityNew 0 1 6) eightPuts).bind
    (fun d => identityAt 0 id d 5) = some 50 := by decide

/-- Tables that are too small do fill up: with one pair asked for (two allocated), two
stores fill the table and looking up a third key aborts; the hypothesis on the size in
the theorems above is needed. -/
theorem small_identity_dictionary_aborts :
    ((runIdentity 0 id (identityNew 0 1 1) [(2, 20), (1, 10)]).isSome ∧
    (runIdentity 0 id (identityNew 0 1 1) [(2, 20), (1, 10)]).bind
      (fun d => identityAt 0 id d 3) = none) := by decide

/-- The same for a Dictionary created with size 4 (eight slots). -/
theorem small_dictionary_aborts :
    ((runDict id (⟨0, fun _ => 0, fun _ => 0⟩, dictNew 1 4) eightPuts).isSome ∧
    (runDict id (⟨0, fun _ => 0, fun _ => 0⟩, dictNew 1 4) eightPuts).bind
      (fun s => dictAt 0 id s.1 s.2 9) = none) := by decide

end Verif.VMDict
