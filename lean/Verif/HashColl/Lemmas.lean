import Verif.HashColl.Model

/-! # Lemmas about the hashed collections -/

set_option linter.unusedSectionVars false

namespace Verif.HashColl

open Verif.Hash

variable {α K : Type} [DecidableEq K] (key : α → K) (h : K → Nat)

/-! ## Capacities -/

theorem realSize_pow (m : Nat) : ∃ e, 3 ≤ e ∧ realSize m = 2 ^ e := by
  unfold realSize
  dsimp only
  generalize hr : max 8 ((m * 4 + 2) / 3) = r
  have h8 : 8 ≤ r := by omega
  split
  · rename_i hz
    obtain ⟨e, he⟩ := (Nat.and_sub_one_eq_zero_iff_isPowerOfTwo (by omega)).mp hz
    refine ⟨e, ?_, he⟩
    apply Classical.byContradiction
    intro hc
    have : 2 ^ e ≤ 2 ^ 2 := Nat.pow_le_pow_right (by decide) (by omega)
    omega
  · refine ⟨_, ?_, rfl⟩
    apply Classical.byContradiction
    intro hc
    have h1 := @Nat.lt_log2_self r
    have : 2 ^ (Nat.log2 r + 1) ≤ 2 ^ 2 := Nat.pow_le_pow_right (by decide) (by omega)
    omega

theorem realSize_of_pow (e m : Nat) (he : 3 ≤ e) (h : (m * 4 + 2) / 3 = 2 ^ e) :
    realSize m = 2 ^ e := by
  have h8 : 2 ^ 3 ≤ 2 ^ e := Nat.pow_le_pow_right (by decide) he
  unfold realSize
  dsimp only
  rw [h, show max 8 (2 ^ e) = 2 ^ e by omega, if_pos]
  exact (Nat.and_sub_one_eq_zero_iff_isPowerOfTwo (by omega)).mpr ⟨e, rfl⟩

theorem cap_pow (e : Nat) (he : 3 ≤ e) : ∃ q, 2 ^ e = 8 * q ∧ 0 < q := by
  obtain ⟨f, rfl⟩ : ∃ f, e = 3 + f := ⟨e - 3, by omega⟩
  exact ⟨2 ^ f, by rw [Nat.pow_add], Nat.pow_pos (by decide)⟩

theorem realSize_capacity (e : Nat) (he : 3 ≤ e) : realSize (2 ^ e * 3 / 4) = 2 ^ e := by
  obtain ⟨q, hq, -⟩ := cap_pow e he
  exact realSize_of_pow e _ he (by omega)

theorem realSize_double (e : Nat) (he : 3 ≤ e) :
    realSize (2 ^ e * 3 / 4 + 2 ^ e * 3 / 4) = 2 ^ (e + 1) := by
  obtain ⟨q, hq, -⟩ := cap_pow e he
  have : 2 ^ (e + 1) = 2 * 2 ^ e := by rw [Nat.pow_succ, Nat.mul_comm]
  exact realSize_of_pow (e + 1) _ (by omega) (by omega)

/-! ## From indices 1 … size to slots 0 … size - 1 -/

/-- Slots numbered from 0. -/
def slots (t : Table α) : Nat → Option α := fun i => t.at_ (i + 1)

theorem next_mod (n x : Nat) (hn : 0 < n) : next n (x % n + 1) = (x % n + 1) % n + 1 := by
  have := Nat.mod_lt x hn
  unfold next
  split
  · rename_i h; rw [h, Nat.mod_self]
  · rw [Nat.mod_eq_of_lt (show x % n + 1 < n by omega)]

def outcome : Probe → Option Nat
  | .found i => some (i + 1)
  | .free i => some (i + 1)
  | .full => none

theorem findIndexLoop_eq (t : Table α) (k : K) (hn : 0 < t.size) (c x : Nat) :
    findIndexLoop key t k c (x % t.size + 1) = outcome (probe t.size (slots t) key k c x) := by
  induction c generalizing x with
  | zero => rfl
  | succ c ih =>
    unfold findIndexLoop probe
    rw [show slots t (x % t.size) = t.at_ (x % t.size + 1) from rfl]
    cases t.at_ (x % t.size + 1) with
    | none => rfl
    | some a =>
      dsimp only
      split
      · rfl
      · rw [next_mod _ _ hn, ih]

theorem findElementLoop_eq (t : Table α) (hn : 0 < t.size) (c x : Nat) :
    findElementLoop t c (x % t.size + 1) = (firstFree t.size (slots t) c x).map (· + 1) := by
  induction c generalizing x with
  | zero => rfl
  | succ c ih =>
    unfold findElementLoop firstFree
    rw [show slots t (x % t.size) = t.at_ (x % t.size + 1) from rfl]
    cases t.at_ (x % t.size + 1) with
    | none => rfl
    | some a =>
      dsimp only
      rw [if_neg (Option.some_ne_none a), next_mod _ _ hn, ih]

theorem findIndex_eq (t : Table α) (k : K) (e : Nat) (he : t.size = 2 ^ e) :
    findIndex key h t k = outcome (probe t.size (slots t) key k t.size (h k)) := by
  have hn : 0 < t.size := by rw [he]; exact Nat.pow_pos (by decide)
  unfold findIndex
  rw [← findIndexLoop_eq key t k hn]
  congr 2
  rw [he, Nat.and_two_pow_sub_one_eq_mod]

theorem findElementIndex_eq (t : Table α) (a : α) (e : Nat) (he : t.size = 2 ^ e) :
    findElementIndex key h t a =
      (firstFree t.size (slots t) t.size (h (key a))).map (· + 1) := by
  have hn : 0 < t.size := by rw [he]; exact Nat.pow_pos (by decide)
  unfold findElementIndex
  rw [← findElementLoop_eq t hn]
  congr 2
  rw [he, Nat.and_two_pow_sub_one_eq_mod]

theorem slots_primAtPut (t : Table α) (i : Nat) (a : Option α) :
    slots (primAtPut t (i + 1) a) = update (slots t) i a := by
  funext j
  simp only [slots, primAtPut, update]
  by_cases hj : j = i
  · subst hj; simp
  · rw [if_neg hj, if_neg (by omega)]

theorem firstFree_of_probe (n : Nat) (s : Nat → Option α) (k : K) (x i : Nat)
    (hp : probe n s key k n x = .free i) : firstFree n s n x = some i := by
  have hm := probe_meaning n s key k n x
  rw [hp] at hm
  obtain ⟨d, hd, rfl, hs, ho⟩ := hm
  exact firstFree_eq n s d n x hd hs (fun d' hd' => (ho d' hd').used)

/-! ## Enumeration -/

theorem mem_elements (t : Table α) (a : α) : a ∈ elements t ↔ Holds t.size (slots t) a := by
  unfold elements Holds slots
  simp [List.mem_filterMap]

theorem elements_distinct (t : Table α) (hr : Reach t.size (slots t) key h) :
    (elements t).Pairwise (fun a b => key a ≠ key b) := by
  unfold elements
  rw [List.pairwise_filterMap]
  have := (@List.pairwise_lt_range t.size)
  refine List.Pairwise.imp_of_mem ?_ this
  intro i j hi hj hlt a ha b hb hk
  rw [List.mem_range] at hi hj
  have := hr.unique hi hj (show slots t i = some a from ha) (show slots t j = some b from hb) hk
  omega

theorem elements_length_aux (s : Nat → Option α) (n : Nat) :
    ((List.range n).filterMap s).length = used s n := by
  induction n with
  | zero => rfl
  | succ n ih =>
    rw [List.range_succ, List.filterMap_append, List.length_append, ih]
    simp only [used]
    cases hs : s n <;> simp [hs]

theorem elements_length (t : Table α) : (elements t).length = used (slots t) t.size :=
  elements_length_aux (slots t) t.size

/-! ## Adding lists of new entries -/

theorem addWhileGrowing_spec (t : Table α) (a : α) (e : Nat) (he : t.size = 2 ^ e)
    (hr : Reach t.size (slots t) key h) (hu : used (slots t) t.size < t.size)
    (habs : ∀ b, Holds t.size (slots t) b → key b ≠ key a) :
    ∃ t', addWhileGrowing key h t a = some t' ∧ t'.size = t.size ∧ t'.tally = t.tally + 1 ∧
      Reach t'.size (slots t') key h ∧ used (slots t') t'.size = used (slots t) t.size + 1 ∧
      ∀ b, Holds t'.size (slots t') b ↔ Holds t.size (slots t) b ∨ b = a := by
  have hn : 0 < t.size := by omega
  cases hp : probe t.size (slots t) key (key a) t.size (h (key a)) with
  | full => exact absurd hp (probe_not_full _ _ _ _ _ hu)
  | found i => exact absurd hp (probe_absent _ _ _ _ _ hn habs i)
  | free i =>
    obtain ⟨hi, hs, -⟩ := probe_free_spec _ _ _ _ _ hn hr i hp
    unfold addWhileGrowing
    rw [findElementIndex_eq key h t a e he, firstFree_of_probe key _ _ _ _ _ hp]
    refine ⟨_, rfl, rfl, rfl, ?_, ?_, ?_⟩
    · show Reach t.size (slots (primAtPut t (i + 1) (some a))) key h
      rw [slots_primAtPut]; exact hr.insert a i hp
    · show used (slots (primAtPut t (i + 1) (some a))) t.size = _
      rw [slots_primAtPut, used_update_free _ _ _ _ hi hs]
    · intro b
      show Holds t.size (slots (primAtPut t (i + 1) (some a))) b ↔ _
      rw [slots_primAtPut, holds_update hi]
      constructor
      · rintro (rfl | ⟨j, hj, -, hb⟩)
        · exact Or.inr rfl
        · exact Or.inl ⟨j, hj, hb⟩
      · rintro (⟨j, hj, hb⟩ | rfl)
        · refine Or.inr ⟨j, hj, ?_, hb⟩
          intro hji; subst hji; rw [hs] at hb; cases hb
        · exact Or.inl rfl

theorem addAll_spec (as : List α) : ∀ (t : Table α) (e : Nat), t.size = 2 ^ e →
    Reach t.size (slots t) key h → used (slots t) t.size + as.length < t.size →
    as.Pairwise (fun a b => key a ≠ key b) →
    (∀ b, Holds t.size (slots t) b → ∀ a ∈ as, key b ≠ key a) →
    ∃ t', addAllWhileGrowing key h t as = some t' ∧ t'.size = t.size ∧
      t'.tally = t.tally + as.length ∧ Reach t'.size (slots t') key h ∧
      used (slots t') t'.size = used (slots t) t.size + as.length ∧
      ∀ b, Holds t'.size (slots t') b ↔ Holds t.size (slots t) b ∨ b ∈ as := by
  induction as with
  | nil =>
    intro t e he hr hu hd habs
    exact ⟨t, rfl, rfl, rfl, hr, rfl, by simp⟩
  | cons a as ih =>
    intro t e he hr hu hd habs
    rw [List.length_cons] at hu
    obtain ⟨hd1, hd2⟩ := List.pairwise_cons.mp hd
    obtain ⟨t1, a1, a2, a3, a4, a5, a6⟩ := addWhileGrowing_spec key h t a e he hr (by omega)
      (fun b hb => habs b hb a List.mem_cons_self)
    obtain ⟨t2, b1, b2, b3, b4, b5, b6⟩ := ih t1 e (a2.trans he) a4 (by omega) hd2 (by
      intro b hb c hc
      rcases (a6 b).mp hb with hb | rfl
      · exact habs b hb c (List.mem_cons_of_mem _ hc)
      · exact hd1 c hc)
    refine ⟨t2, ?_, b2.trans a2, ?_, b4, ?_, ?_⟩
    · unfold addAllWhileGrowing
      rw [a1]; exact b1
    · rw [b3, a3, List.length_cons]; omega
    · rw [b5, a5, List.length_cons]; omega
    · intro b
      rw [b6, a6, List.mem_cons]
      constructor
      · rintro ((h1 | h1) | h1)
        · exact Or.inl h1
        · exact Or.inr (Or.inl h1)
        · exact Or.inr (Or.inr h1)
      · rintro (h1 | h1 | h1)
        · exact Or.inl (Or.inl h1)
        · exact Or.inl (Or.inr h1)
        · exact Or.inr h1

/-- Filling an empty table of any power of two size with entries of distinct keys. -/
theorem addAll_fresh (as : List α) (n e : Nat) (he : n = 2 ^ e) (hl : as.length < n)
    (hd : as.Pairwise (fun a b => key a ≠ key b)) :
    ∃ t', addAllWhileGrowing key h ⟨n, fun _ => none, 0⟩ as = some t' ∧ t'.size = n ∧
      t'.tally = as.length ∧ Reach t'.size (slots t') key h ∧
      used (slots t') t'.size = as.length ∧ ∀ b, Holds t'.size (slots t') b ↔ b ∈ as := by
  have h0 : slots (⟨n, fun _ => none, 0⟩ : Table α) = fun _ => none := rfl
  have hno : ∀ b, ¬ Holds n (fun _ => (none : Option α)) b := by
    rintro b ⟨i, -, hb⟩; cases hb
  obtain ⟨t', r1, r2, r3, r4, r5, r6⟩ := addAll_spec key h as ⟨n, fun _ => none, 0⟩ e he
    (by rw [h0]; exact Reach.empty _ _ _) (by rw [h0, used_empty]; dsimp only; omega) hd
    (by rw [h0]; intro b hb; exact absurd hb (hno b))
  refine ⟨t', r1, r2, ?_, r4, ?_, ?_⟩
  · rw [r3]; dsimp only; omega
  · rw [r5, h0, used_empty]; omega
  · intro b
    rw [r6, h0]
    constructor
    · rintro (hb | hb)
      · exact absurd hb (hno b)
      · exact hb
    · exact Or.inr

/-! ## Closing the gap -/

theorem rehashAfterLoop_eq (c : Nat) : ∀ (t : Table α) (e i : Nat), t.size = 2 ^ e → i < t.size →
    ∀ s', closeGap t.size key h c (slots t) i = some s' →
    ∃ t', rehashAfterLoop key h c t (i + 1) = some t' ∧ t'.size = t.size ∧ t'.tally = t.tally ∧
      slots t' = s' := by
  induction c with
  | zero => intro t e i he hi s' hs; cases hs
  | succ c ih =>
    intro t e i he hi s' hs
    have hn : 0 < t.size := by omega
    unfold closeGap at hs
    unfold rehashAfterLoop
    have hnx : next t.size (i + 1) = (i + 1) % t.size + 1 := by
      have := next_mod t.size i hn
      rwa [Nat.mod_eq_of_lt hi] at this
    dsimp only
    rw [hnx]
    have hj : (i + 1) % t.size < t.size := Nat.mod_lt _ hn
    generalize (i + 1) % t.size = i1 at *
    rw [show slots t i1 = t.at_ (i1 + 1) from rfl] at hs
    cases ha : t.at_ (i1 + 1) with
    | none =>
      rw [ha] at hs
      cases hs
      exact ⟨t, rfl, rfl, rfl, rfl⟩
    | some a =>
      rw [ha] at hs
      dsimp only at hs ⊢
      rw [findElementIndex_eq key h (primAtPut t (i1 + 1) none) a e he, slots_primAtPut]
      rw [show (primAtPut t (i1 + 1) none).size = t.size from rfl]
      cases hf : firstFree t.size (update (slots t) i1 none) t.size (h (key a)) with
      | none => rw [hf] at hs; cases hs
      | some j =>
        rw [hf] at hs
        simp only [Option.bind_eq_bind, Option.bind_some, Option.map_some] at hs ⊢
        obtain ⟨t', r1, r2, r3, r4⟩ := ih
          (primAtPut (primAtPut t (i1 + 1) none) (j + 1) (some a)) e i1 he hj s'
          (by rw [slots_primAtPut, slots_primAtPut]; exact hs)
        exact ⟨t', r1, r2, r3, r4⟩

/-! ## The invariant -/

/-- The table represents the finite map `M` from (classes of) keys to entries. -/
structure WF (t : Table α) (M : K → Option α) : Prop where
  pow : ∃ e, 3 ≤ e ∧ t.size = 2 ^ e
  reach : Reach t.size (slots t) key h
  abs : Abs t.size (slots t) key M
  used : used (slots t) t.size = t.tally
  room : t.tally ≤ t.size * 3 / 4

variable {key h}

theorem WF.lt {t : Table α} {M : K → Option α} (w : WF key h t M) : t.tally < t.size := by
  obtain ⟨e, he, hs⟩ := w.pow
  obtain ⟨q, hq, hq0⟩ := cap_pow e he
  have := w.room
  omega

theorem WF.pos {t : Table α} {M : K → Option α} (w : WF key h t M) : 0 < t.size := by
  have := w.lt; omega

variable (key h) in
theorem wf_new (m : Nat) : WF key h (new m : Table α) (fun _ => none) := by
  refine ⟨realSize_pow m, ?_, ?_, ?_, Nat.zero_le _⟩
  · exact Reach.empty _ _ _
  · exact Abs.empty _ _
  · exact used_empty _

/-- Copying into a new table of any sufficient size. -/
theorem WF.copy {t : Table α} {M : K → Option α} (w : WF key h t M) (n e : Nat) (h3 : 3 ≤ e)
    (hn : n = 2 ^ e) (hroom : t.tally ≤ n * 3 / 4) :
    ∃ t', addAllWhileGrowing key h ⟨n, fun _ => none, 0⟩ (elements t) = some t' ∧
      WF key h t' M ∧ t'.size = n ∧ t'.tally = t.tally := by
  obtain ⟨q, hq, hq0⟩ := cap_pow e h3
  have hlen : (elements t).length = t.tally := by rw [elements_length, w.used]
  obtain ⟨t', r1, r2, r3, r4, r5, r6⟩ := addAll_fresh key h (elements t) n e hn
    (by rw [hlen]; omega) (elements_distinct key h t w.reach)
  refine ⟨t', r1, ⟨⟨e, h3, r2.trans hn⟩, r4, ?_, r5.trans r3.symm, ?_⟩, r2, r3.trans hlen⟩
  · intro k a
    rw [r6, mem_elements]
    exact w.abs k a
  · rw [r3, r2, hlen]; exact hroom

theorem WF.increment {t : Table α} {M : K → Option α} (w : WF key h t M) :
    ∃ t' g, incrementTally key h t = some (g, { t' with tally := t'.tally + 1 }) ∧
      WF key h t' M ∧ t'.tally = t.tally ∧ t'.tally + 1 ≤ t'.size * 3 / 4 ∧
      (g = false → t' = t) := by
  obtain ⟨e, h3, hs⟩ := w.pow
  obtain ⟨q, hq, hq0⟩ := cap_pow e h3
  have hroom := w.room
  unfold incrementTally
  split
  · unfold growBy new capacity
    have h2 : 2 ^ (e + 1) = 2 * 2 ^ e := by rw [Nat.pow_succ, Nat.mul_comm]
    obtain ⟨t', r1, r2, r3, r4⟩ := w.copy (2 ^ (e + 1)) (e + 1) (by omega) rfl (by omega)
    rw [hs, realSize_double e h3, r1]
    exact ⟨t', true, rfl, r2, r4, by rw [r3, r4]; omega, fun hf => by cases hf⟩
  · exact ⟨t, false, rfl, w, rfl, by omega, fun _ => rfl⟩

/-- What `findIndex:` answers. -/
theorem WF.find {t : Table α} {M : K → Option α} (w : WF key h t M) (k : K) :
    ∃ i, findIndex key h t k = some (i + 1) ∧ i < t.size ∧ t.at_ (i + 1) = M k ∧
      ((M k = none ∧ probe t.size (slots t) key k t.size (h k) = .free i) ∨
        (∃ a, M k = some a ∧ slots t i = some a ∧ key a = k)) := by
  obtain ⟨e, h3, hs⟩ := w.pow
  rw [findIndex_eq key h t k e hs]
  have href := probe_refines w.abs w.pos w.reach k
  cases hp : probe t.size (slots t) key k t.size (h k) with
  | full =>
    rw [hp] at href
    have := w.lt; have := w.used
    omega
  | free i =>
    rw [hp] at href
    obtain ⟨h1, h2, h4⟩ := href
    exact ⟨i, rfl, h1, by rw [h4]; exact h2, Or.inl ⟨h4, rfl⟩⟩
  | found i =>
    rw [hp] at href
    obtain ⟨h1, h2, h4⟩ := href
    obtain ⟨a, ha⟩ := Option.isSome_iff_exists.mp h4
    exact ⟨i, rfl, h1, h2, Or.inr ⟨a, ha, by rw [h2, ha], ((w.abs k a).mp ha).2⟩⟩

/-- Storing a new entry after `incrementTally`. -/
theorem WF.store {t : Table α} {M : K → Option α} (w : WF key h t M) (a : α)
    (hroom : t.tally + 1 ≤ t.size * 3 / 4) (i : Nat)
    (hp : probe t.size (slots t) key (key a) t.size (h (key a)) = .free i) :
    WF key h (primAtPut { t with tally := t.tally + 1 } (i + 1) (some a))
      (fun k => if k = key a then some a else M k) := by
  obtain ⟨hi, hs, -⟩ := probe_free_spec _ _ _ _ _ w.pos w.reach i hp
  have e1 : slots (primAtPut { t with tally := t.tally + 1 } (i + 1) (some a)) =
      update (slots t) i (some a) := slots_primAtPut { t with tally := t.tally + 1 } i (some a)
  refine ⟨w.pow, ?_, ?_, ?_, hroom⟩
  · rw [e1]; exact w.reach.insert a i hp
  · rw [e1]; exact w.abs.insert w.pos w.reach a i hp
  · rw [e1]
    show Hash.used (update (slots t) i (some a)) t.size = t.tally + 1
    rw [used_update_free _ _ _ _ hi hs, w.used]

theorem WF.add {t : Table α} {M : K → Option α} (w : WF key h t M) (a : α) :
    ∃ t', add key h h t a = some t' ∧
      WF key h t' (fun k => if k = key a then some ((M k).getD a) else M k) := by
  unfold HashColl.add
  obtain ⟨i, f1, f2, f3, f4⟩ := w.find (key a)
  rw [f1]
  simp only [Option.bind_eq_bind, Option.bind_some, f3]
  rcases f4 with ⟨hn, hp⟩ | ⟨b, hb, hsb, hkb⟩
  · rw [hn]
    obtain ⟨t', g, i1, i2, i3, i4, i5⟩ := w.increment
    rw [i1]
    simp only [Option.bind_some]
    have hfun : (fun k => if k = key a then some ((M k).getD a) else M k) =
        (fun k => if k = key a then some a else M k) := by
      funext k
      by_cases hk : k = key a
      · rw [if_pos hk, if_pos hk, hk, hn]; rfl
      · rw [if_neg hk, if_neg hk]
    rw [hfun]
    cases g with
    | false =>
      have := i5 rfl; subst this
      exact ⟨_, rfl, w.store a i4 i hp⟩
    | true =>
      obtain ⟨i', f1', -, -, f4'⟩ := i2.find (key a)
      have f1'' : findIndex key h { t' with tally := t'.tally + 1 } (key a) = some (i' + 1) := by
        obtain ⟨e, -, hs⟩ := i2.pow
        rw [findIndex_eq key h t' _ e hs] at f1'
        rw [findIndex_eq key h { t' with tally := t'.tally + 1 } _ e hs]
        exact f1'
      rcases f4' with ⟨-, hp'⟩ | ⟨b, hb, -⟩
      · refine ⟨_, ?_, i2.store a i4 i' hp'⟩
        rw [if_pos rfl, f1'']; rfl
      · rw [hn] at hb; cases hb
  · rw [hb]
    refine ⟨t, rfl, ?_⟩
    have hfun : (fun k => if k = key a then some ((M k).getD a) else M k) = M := by
      funext k
      by_cases hk : k = key a
      · rw [if_pos hk, hk, hb]; rfl
      · rw [if_neg hk]
    rw [hfun]; exact w

theorem WF.remove {t : Table α} {M : K → Option α} (w : WF key h t M) (k : K) :
    ∃ t', remove key h h t k = some (M k, t') ∧
      WF key h t' (fun k' => if k' = k then none else M k') ∧
      t'.tally = t.tally - (if (M k).isSome then 1 else 0) := by
  unfold HashColl.remove
  obtain ⟨i, f1, f2, f3, f4⟩ := w.find k
  rw [f1]
  simp only [Option.bind_eq_bind, Option.bind_some, f3]
  rcases f4 with ⟨hn, hp⟩ | ⟨a, ha, hsa, hka⟩
  · rw [hn]
    refine ⟨t, rfl, ?_, rfl⟩
    have hfun : (fun k' => if k' = k then none else M k') = M := by
      funext k'
      by_cases hk : k' = k
      · rw [if_pos hk, hk, hn]
      · rw [if_neg hk]
    rw [hfun]; exact w
  · rw [ha]
    dsimp only
    obtain ⟨s', r1, r2, r3, r4⟩ := remove_spec w.pos (slots t) w.reach
      (by rw [w.used]; exact w.lt) i a f2 hsa
    obtain ⟨e, h3, hs⟩ := w.pow
    obtain ⟨t', q1, q2, q3, q4⟩ := rehashAfterLoop_eq key h t.size
      { primAtPut t (i + 1) none with tally := t.tally - 1 } e i hs f2 s' (by
        have : slots { primAtPut t (i + 1) none with tally := t.tally - 1 } =
          update (slots t) i none := slots_primAtPut t i none
        rw [this]; exact r1)
    unfold rehashObjectsAfter
    have q1' : rehashAfterLoop key h t.size
        { primAtPut t (i + 1) none with tally := (primAtPut t (i + 1) none).tally - 1 } (i + 1) =
        some t' := q1
    refine ⟨t', ?_, ⟨⟨e, h3, q2.trans hs⟩, ?_, ?_, ?_, ?_⟩, ?_⟩
    · show (rehashAfterLoop key h t.size _ (i + 1)).bind _ = _
      rw [q1']; rfl
    · rw [q4, q2]; exact r2
    · intro k' b
      rw [q4, q2]
      show (if k' = k then none else M k') = some b ↔ Holds t.size s' b ∧ key b = k'
      rw [r4]
      constructor
      · intro hm
        by_cases hk : k' = k
        · rw [if_pos hk] at hm; cases hm
        · rw [if_neg hk] at hm
          obtain ⟨⟨j, hj, hb⟩, hkb⟩ := (w.abs k' b).mp hm
          refine ⟨⟨j, hj, ?_, hb⟩, hkb⟩
          intro hji
          subst hji
          rw [hsa] at hb; cases hb
          exact hk (hkb.symm.trans hka)
      · rintro ⟨⟨j, hj, hji, hb⟩, hkb⟩
        have hk : k' ≠ k := by
          intro hk
          exact hji (w.reach.unique hj f2 hb hsa (by rw [hkb, hka, hk]))
        rw [if_neg hk]
        exact (w.abs k' b).mpr ⟨⟨j, hj, hb⟩, hkb⟩
    · rw [q4, q2, q3]
      have := w.used
      show Hash.used s' t.size = t.tally - 1
      omega
    · rw [q3, q2]
      have := w.room
      show t.tally - 1 ≤ t.size * 3 / 4
      omega
    · rw [q3]; rfl

theorem WF.entryAt {t : Table α} {M : K → Option α} (w : WF key h t M) (k : K) :
    entryAt key h t k = some (M k) := by
  unfold HashColl.entryAt
  obtain ⟨i, f1, f2, f3, -⟩ := w.find k
  rw [f1]
  simp [f3]

theorem WF.includes {t : Table α} {M : K → Option α} (w : WF key h t M) (k : K) :
    includes key h t k = some (M k).isSome := by
  unfold HashColl.includes
  obtain ⟨i, f1, f2, f3, -⟩ := w.find k
  rw [f1]
  simp [f3]

/-- What `do:` enumerates. -/
theorem WF.elements {t : Table α} {M : K → Option α} (w : WF key h t M) :
    (∀ a, a ∈ elements t ↔ M (key a) = some a) ∧
    (elements t).Pairwise (fun a b => key a ≠ key b) ∧ (elements t).length = t.tally := by
  refine ⟨fun a => ?_, elements_distinct key h t w.reach, by rw [elements_length, w.used]⟩
  rw [mem_elements, w.abs]
  simp

end Verif.HashColl
