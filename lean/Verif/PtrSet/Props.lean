import Verif.PtrSet.Model
import Mathlib.Data.Finset.Image
import Mathlib.Data.Finset.Card
import Mathlib.Data.Nat.Find
import Mathlib.Data.List.Nodup
import Mathlib.Data.List.Perm.Basic

/-!
# Sets and maps of pointers are sets and maps
-/

namespace Verif.PtrSet

/-! ## Probing -/

theorem hash1_lt (p N l : ℕ) (h : 0 < N) : hash1 p N l < N := by
  have : hash1 p N l ≤ N - 1 := Nat.and_le_right
  omega

/-- The slot that is looked at in round `k`. -/
def pos (N h k : ℕ) : ℕ := (h + k) % N

theorem pos_lt {N : ℕ} (hN : 0 < N) (h k : ℕ) : pos N h k < N := Nat.mod_lt _ hN

theorem next_pos {N : ℕ} (hN : 0 < N) (h k : ℕ) : next N (pos N h k) = pos N h (k + 1) := by
  have h1 := pos_lt hN h k
  unfold pos at *
  unfold next
  rw [← Nat.add_assoc, Nat.add_mod (h + k) 1 N]
  split
  · rename_i h2
    by_cases h3 : N = 1
    · subst h3; omega
    · rw [Nat.mod_eq_of_lt (show 1 < N by omega), h2, Nat.mod_self]
  · by_cases h3 : N = 1
    · subst h3; omega
    · rw [Nat.mod_eq_of_lt (show 1 < N by omega), Nat.mod_eq_of_lt (show (h + k) % N + 1 < N by omega)]

theorem pos_surj {N h i : ℕ} (hh : h < N) (hi : i < N) : ∃ k < N, pos N h k = i := by
  by_cases c : h ≤ i
  · exact ⟨i - h, by omega, by unfold pos; rw [Nat.add_sub_cancel' c, Nat.mod_eq_of_lt hi]⟩
  · refine ⟨N - h + i, by omega, ?_⟩
    unfold pos
    rw [show h + (N - h + i) = i + N by omega, Nat.add_mod_right, Nat.mod_eq_of_lt hi]

theorem auxLoop_eq {slots : ℕ → ℕ} {N p h k : ℕ} (hN : 0 < N)
    (hit : slots (pos N h k) = p ∨ slots (pos N h k) = 0) :
    ∀ (d fuel : ℕ), d ≤ k → d < fuel →
      (∀ j, k - d ≤ j → j < k → slots (pos N h j) ≠ p ∧ slots (pos N h j) ≠ 0) →
      auxLoop slots N p fuel (pos N h (k - d)) = some (pos N h k)
  | 0, f + 1, _, _, _ => by simp only [auxLoop, Nat.sub_zero, if_pos hit]
  | d + 1, f + 1, h1, h2, h3 => by
    have h4 := h3 (k - (d + 1)) (Nat.le_refl _) (by omega)
    simp only [auxLoop]
    rw [if_neg (by tauto), next_pos hN, show k - (d + 1) + 1 = k - d by omega]
    exact auxLoop_eq hN hit d f (by omega) (by omega) fun j a b => h3 j (by omega) b

theorem containsLoop_eq {slots : ℕ → ℕ} {N p h k : ℕ} (hN : 0 < N)
    (hit : slots (pos N h k) = p ∨ slots (pos N h k) = 0) :
    ∀ (d fuel : ℕ), d ≤ k → d < fuel →
      (∀ j, k - d ≤ j → j < k → slots (pos N h j) ≠ p ∧ slots (pos N h j) ≠ 0) →
      containsLoop slots N p fuel (pos N h (k - d)) =
        some (if slots (pos N h k) = p then some (pos N h k) else none)
  | 0, f + 1, _, _, _ => by
    simp only [containsLoop, Nat.sub_zero]
    split
    · rfl
    · rw [if_pos (by tauto)]
  | d + 1, f + 1, h1, h2, h3 => by
    have h4 := h3 (k - (d + 1)) (Nat.le_refl _) (by omega)
    simp only [containsLoop]
    rw [if_neg h4.1, if_neg h4.2, next_pos hN, show k - (d + 1) + 1 = k - d by omega]
    exact containsLoop_eq hN hit d f (by omega) (by omega) fun j a b => h3 j (by omega) b

/-- The pointers in the slots. -/
def members (slots : ℕ → ℕ) (N : ℕ) : Finset ℕ := ((Finset.range N).image slots).erase 0

theorem mem_members {slots : ℕ → ℕ} {N p : ℕ} : p ∈ members slots N ↔ p ≠ 0 ∧ ∃ i < N, slots i = p := by
  simp [members]

/-- From its hash on there is no free slot before the one of a pointer. -/
def Reach (slots : ℕ → ℕ) (N l : ℕ) : Prop :=
  ∀ i < N, slots i ≠ 0 → ∃ k < N, pos N (hash1 (slots i) N l) k = i ∧
    ∀ j < k, slots (pos N (hash1 (slots i) N l) j) ≠ 0 ∧ slots (pos N (hash1 (slots i) N l) j) ≠ slots i

/-- The round in which the loops end. -/
theorem first {slots : ℕ → ℕ} {N l : ℕ} (p : ℕ) (free : ∃ i < N, slots i = 0) :
    ∃ k < N, (slots (pos N (hash1 p N l) k) = p ∨ slots (pos N (hash1 p N l) k) = 0) ∧
      ∀ j < k, slots (pos N (hash1 p N l) j) ≠ p ∧ slots (pos N (hash1 p N l) j) ≠ 0 := by
  obtain ⟨i, hi, h0⟩ := free
  have hN : 0 < N := by omega
  obtain ⟨k, hk, hp⟩ := pos_surj (hash1_lt p N l hN) hi
  have ex : ∃ k, slots (pos N (hash1 p N l) k) = p ∨ slots (pos N (hash1 p N l) k) = 0 := ⟨k, by rw [hp]; exact .inr h0⟩
  classical
  refine ⟨Nat.find ex, Nat.lt_of_le_of_lt (Nat.find_min' ex (by rw [hp]; exact .inr h0)) hk, Nat.find_spec ex, ?_⟩
  intro j hj
  have := Nat.find_min ex hj
  tauto

theorem pos_zero {N p l : ℕ} (hN : 0 < N) : pos N (hash1 p N l) 0 = hash1 p N l := by
  unfold pos
  exact Nat.mod_eq_of_lt (hash1_lt p N l hN)

theorem reach_same {slots : ℕ → ℕ} {N l p i k : ℕ} (hp : p ≠ 0) (hr : Reach slots N l) (hi : i < N)
    (hm : slots i = p) (hit : slots (pos N (hash1 p N l) k) = p ∨ slots (pos N (hash1 p N l) k) = 0)
    (before : ∀ j < k, slots (pos N (hash1 p N l) j) ≠ p ∧ slots (pos N (hash1 p N l) j) ≠ 0) :
    pos N (hash1 p N l) k = i := by
  obtain ⟨k', _, h1, h2⟩ := hr i hi (by rw [hm]; exact hp)
  rw [hm] at h1 h2
  rcases Nat.lt_trichotomy k k' with h | h | h
  · have := h2 k h; tauto
  · rw [h, h1]
  · have := before k' h
    rw [h1, hm] at this
    exact absurd rfl this.1

/-- What `insert_aux` and the loop of `contains` find. -/
theorem probe {slots : ℕ → ℕ} {N l p : ℕ} (hr : Reach slots N l) (hp : p ≠ 0) (free : ∃ i < N, slots i = 0) :
    ∃ n < N, insertAux p slots N l = some n ∧
      containsLoop slots N p N (hash1 p N l) = some (if p ∈ members slots N then some n else none) ∧
      (p ∈ members slots N → slots n = p) ∧ (p ∉ members slots N → slots n = 0 ∧
        Reach (Function.update slots n p) N l) := by
  have hN : 0 < N := by obtain ⟨i, hi, _⟩ := free; omega
  obtain ⟨k, hk, hit, before⟩ := first (l := l) p free
  have a := auxLoop_eq hN hit k N (Nat.le_refl _) hk (fun j _ h => before j h)
  have b := containsLoop_eq hN hit k N (Nat.le_refl _) hk (fun j _ h => before j h)
  rw [Nat.sub_self, pos_zero hN] at a b
  have mem : p ∈ members slots N ↔ slots (pos N (hash1 p N l) k) = p := by
    constructor
    · intro h
      obtain ⟨_, i, hi, hm⟩ := mem_members.1 h
      rw [reach_same hp hr hi hm hit before, hm]
    · intro h
      exact mem_members.2 ⟨hp, _, pos_lt hN _ _, h⟩
  refine ⟨pos N (hash1 p N l) k, pos_lt hN _ _, a, ?_, fun h => mem.1 h, fun h => ?_⟩
  · rw [b]; simp only [mem]
  · have z : slots (pos N (hash1 p N l) k) = 0 := by
      rcases hit with h' | h'
      · exact absurd (mem.2 h') h
      · exact h'
    refine ⟨z, ?_⟩
    intro i hi hne
    by_cases c : i = pos N (hash1 p N l) k
    · subst c
      rw [Function.update_self]
      refine ⟨k, hk, rfl, fun j hj => ?_⟩
      have h1 := before j hj
      have h2 : pos N (hash1 p N l) j ≠ pos N (hash1 p N l) k := fun e => h1.2 (by rw [e]; exact z)
      rw [Function.update_of_ne h2]
      exact ⟨h1.2, h1.1⟩
    · rw [Function.update_of_ne c] at hne ⊢
      obtain ⟨k', h1, h2, h3⟩ := hr i hi hne
      refine ⟨k', h1, h2, fun j hj => ?_⟩
      have h4 := h3 j hj
      have h5 : pos N (hash1 (slots i) N l) j ≠ pos N (hash1 p N l) k := fun e => h4.1 (by rw [e]; exact z)
      rw [Function.update_of_ne h5]
      exact h4

theorem members_update {slots : ℕ → ℕ} {N n p : ℕ} (hn : n < N) (hp : p ≠ 0) (z : slots n = 0) :
    members (Function.update slots n p) N = Insert.insert p (members slots N) := by
  ext q
  rw [Finset.mem_insert, mem_members, mem_members]
  constructor
  · rintro ⟨h1, i, hi, h2⟩
    by_cases c : i = n
    · subst c; rw [Function.update_self] at h2; exact .inl h2.symm
    · rw [Function.update_of_ne c] at h2; exact .inr ⟨h1, i, hi, h2⟩
  · rintro (h | ⟨h1, i, hi, h2⟩)
    · subst h; exact ⟨hp, n, hn, Function.update_self ..⟩
    · refine ⟨h1, i, hi, ?_⟩
      rw [Function.update_of_ne, h2]
      intro e; subst e; exact h1 (by rw [← h2]; exact z)

theorem reach_inj {slots : ℕ → ℕ} {N l i j : ℕ} (hr : Reach slots N l) (hi : i < N) (hj : j < N)
    (hne : slots i ≠ 0) (e : slots i = slots j) : i = j := by
  obtain ⟨k, _, h1, h2⟩ := hr i hi hne
  have := reach_same hne hr hj e.symm (k := k) (by rw [h1]; exact .inl rfl) (fun j hj => (h2 j hj).symm)
  rw [← this, h1]

/-- The slots that are not free. -/
def used (slots : ℕ → ℕ) (N : ℕ) : Finset ℕ := (Finset.range N).filter fun i => slots i ≠ 0

theorem used_card {slots : ℕ → ℕ} {N l : ℕ} (hr : Reach slots N l) : (used slots N).card = (members slots N).card := by
  have e : members slots N = (used slots N).image slots := by
    ext q
    simp only [mem_members, used, Finset.mem_image, Finset.mem_filter, Finset.mem_range]
    constructor
    · rintro ⟨h, i, hi, rfl⟩; exact ⟨i, ⟨hi, h⟩, rfl⟩
    · rintro ⟨i, ⟨hi, h⟩, rfl⟩; exact ⟨h, i, hi, rfl⟩
  rw [e, Finset.card_image_of_injOn]
  intro i hi j hj h
  simp only [used, Finset.coe_filter, Finset.mem_range, Set.mem_ofPred_eq] at hi hj
  exact reach_inj hr hi.1 hj.1 hi.2 h

theorem free_of_card {slots : ℕ → ℕ} {N l : ℕ} (hr : Reach slots N l) (h : (members slots N).card < N) :
    ∃ i < N, slots i = 0 := by
  by_contra c
  push Not at c
  have : used slots N = Finset.range N := by
    ext i; simp only [used, Finset.mem_filter, Finset.mem_range]
    exact ⟨fun a => a.1, fun a => ⟨a, c i a⟩⟩
  rw [← used_card hr, this, Finset.card_range] at h
  omega

theorem reach_empty (N l : ℕ) : Reach (fun _ => 0) N l := fun _ _ h => absurd rfl h

theorem members_empty (N : ℕ) : members (fun _ => 0) N = ∅ := by
  ext q
  simp only [mem_members, Finset.notMem_empty, iff_false]
  rintro ⟨h, _, _, e⟩
  exact h e.symm

theorem members_le (slots : ℕ → ℕ) (N : ℕ) : (members slots N).card ≤ N :=
  (Finset.card_erase_le).trans (Finset.card_image_le.trans (by rw [Finset.card_range]))

theorem members_succ (slots : ℕ → ℕ) (i : ℕ) :
    members slots (i + 1) = if slots i = 0 then members slots i else Insert.insert (slots i) (members slots i) := by
  ext q
  split
  · rename_i h
    simp only [mem_members]
    constructor
    · rintro ⟨h1, j, hj, e⟩
      refine ⟨h1, j, ?_, e⟩
      rcases Nat.lt_succ_iff_lt_or_eq.1 hj with c | c
      · exact c
      · subst c; exact absurd (e.symm.trans h) h1
    · rintro ⟨h1, j, hj, e⟩; exact ⟨h1, j, by omega, e⟩
  · rename_i h
    simp only [mem_members, Finset.mem_insert]
    constructor
    · rintro ⟨h1, j, hj, e⟩
      rcases Nat.lt_succ_iff_lt_or_eq.1 hj with c | c
      · exact .inr ⟨h1, j, c, e⟩
      · subst c; exact .inl e.symm
    · rintro (e | ⟨h1, j, hj, e⟩)
      · subst e; exact ⟨h, i, by omega, rfl⟩
      · exact ⟨h1, j, by omega, e⟩

/-! ## Sets -/

/-- The set has the members `f` (helper of the proofs). -/
structure Good (s : PSet) (f : Finset ℕ) : Prop where
  pow : s.nSlots = 2 ^ s.logSlots
  log : 8 ≤ s.logSlots
  reach : Reach s.slots s.nSlots s.logSlots
  mem : members s.slots s.nSlots = f
  card : s.nElements = f.card
  room : s.nElements ≤ s.nSlots / 4 + 1
  small : s.nSlots = 2 ^ 8 ∨ s.nSlots < 8 * s.nElements

theorem Good.pos' {s : PSet} {f : Finset ℕ} (g : Good s f) : 256 ≤ s.nSlots ∧ 4 ∣ s.nSlots := by
  rw [g.pow]
  obtain ⟨k, hk⟩ := Nat.exists_eq_add_of_le g.log
  rw [hk, Nat.pow_add]
  have : 0 < 2 ^ k := Nat.pow_pos (by omega)
  constructor
  · simp only [Nat.reducePow]; omega
  · exact ⟨64 * 2 ^ k, by simp only [Nat.reducePow]; omega⟩

theorem growLoop_good (old : ℕ → ℕ) (N l : ℕ) : ∀ i, i < N →
    ∃ new, growLoop old N l i = some new ∧ Reach new N l ∧ members new N = members old i
  | 0, _ => ⟨_, rfl, reach_empty _ _, by rw [members_empty]; ext q; simp [mem_members]⟩
  | i + 1, h => by
    obtain ⟨new, h1, h2, h3⟩ := growLoop_good old N l i (by omega)
    have free := free_of_card h2 (by rw [h3]; exact Nat.lt_of_le_of_lt (members_le old i) (by omega))
    simp only [growLoop, h1, Option.bind_eq_bind, Option.bind_some]
    by_cases c : old i = 0
    · obtain ⟨k, hk, hit, before⟩ := first (l := l) 0 free
      have hN : 0 < N := by omega
      have a := auxLoop_eq hN hit k N (Nat.le_refl _) hk (fun j _ h => before j h)
      rw [Nat.sub_self, pos_zero hN] at a
      have a' : insertAux (old i) new N l = some (pos N (hash1 0 N l) k) := by rw [c]; exact a
      rw [a']
      have e : Function.update new (pos N (hash1 0 N l) k) (old i) = new := by
        rw [c]; have : new (pos N (hash1 0 N l) k) = 0 := by tauto
        nth_rw 2 [← this]; exact Function.update_eq_self _ _
      simp only [Option.bind_some, e]
      exact ⟨new, rfl, h2, by rw [members_succ, if_pos c, h3]⟩
    · obtain ⟨n, hn, p1, _, p3, p4⟩ := probe h2 c free
      rw [p1]
      simp only [Option.bind_some]
      refine ⟨_, rfl, ?_⟩
      by_cases m : old i ∈ members new N
      · have e : Function.update new n (old i) = new := by rw [← p3 m]; exact Function.update_eq_self _ _
        rw [e, members_succ, if_neg c, ← h3, Finset.insert_eq_of_mem m]
        exact ⟨h2, rfl⟩
      · exact ⟨(p4 m).2, by rw [members_update hn c (p4 m).1, members_succ, if_neg c, h3]⟩

theorem grow_good {s : PSet} {f : Finset ℕ} (g : Good s f) :
    ∃ s', grow s = some s' ∧ Good s' f ∧ s'.nElements ≤ s'.nSlots / 4 := by
  obtain ⟨h1, h2⟩ := g.pos'
  unfold grow
  split
  · rename_i c
    obtain ⟨new, a, b, d⟩ := growLoop_good s.slots (s.nSlots * 2) (s.logSlots + 1) s.nSlots (by omega)
    rw [a]
    refine ⟨_, rfl, ⟨?_, ?_, b, d.trans g.mem, g.card, ?_, ?_⟩, ?_⟩
    · show s.nSlots * 2 = 2 ^ (s.logSlots + 1); rw [Nat.pow_succ, g.pow]
    · have := g.log; show 8 ≤ s.logSlots + 1; omega
    · have := g.room; show s.nElements ≤ s.nSlots * 2 / 4 + 1; omega
    · right; show s.nSlots * 2 < 8 * s.nElements; omega
    · have := g.room; show s.nElements ≤ s.nSlots * 2 / 4; omega
  · exact ⟨s, rfl, g, by omega⟩

theorem Good.free {s : PSet} {f : Finset ℕ} (g : Good s f) : ∃ i < s.nSlots, s.slots i = 0 := by
  obtain ⟨h1, h2⟩ := g.pos'
  refine free_of_card g.reach ?_
  have := g.room
  rw [g.mem, ← g.card]; omega

theorem insert_good {s : PSet} {f : Finset ℕ} {p : ℕ} (g : Good s f) (hp : p ≠ 0) :
    ∃ s', insert s p = some (s', decide (p ∈ f)) ∧ Good s' (Insert.insert p f) := by
  obtain ⟨s1, h1, g1, h2⟩ := grow_good g
  obtain ⟨n, hn, p1, _, p3, p4⟩ := probe g1.reach hp g1.free
  rw [g1.mem] at p3 p4
  unfold insert
  simp only [h1, Option.bind_eq_bind, Option.bind_some, p1]
  by_cases m : p ∈ f
  · rw [if_pos (by rw [p3 m]; exact hp), Finset.insert_eq_of_mem m]
    exact ⟨s1, by simp [m], g1⟩
  · have := p4 m
    rw [if_neg (by simp [this.1])]
    refine ⟨{ s1 with slots := Function.update s1.slots n p, nElements := s1.nElements + 1 }, by simp [m], ⟨g1.pow, g1.log, this.2, ?_, ?_, ?_, ?_⟩⟩
    · show members (Function.update s1.slots n p) s1.nSlots = _
      rw [members_update hn hp this.1, g1.mem]
    · show s1.nElements + 1 = _
      rw [Finset.card_insert_of_notMem m, g1.card]
    · show s1.nElements + 1 ≤ s1.nSlots / 4 + 1
      omega
    · show s1.nSlots = _ ∨ s1.nSlots < 8 * (s1.nElements + 1)
      rcases g1.small with h | h
      · exact .inl h
      · right; omega

/-- What a program does with a set. -/
inductive Op where
  | insert (p : ℕ)
  | contains (p : ℕ)

/-- The pointer of an operation. -/
def Op.ptr : Op → ℕ
  | .insert p | .contains p => p

/-- The set after one operation, and the answer. -/
def step (s : PSet) : Op → Option (PSet × Bool)
  | .insert p => insert s p
  | .contains p => (contains s p).map fun b => (s, b)

/-- The answers of a sequence of operations and the set that remains; `none`: a loop does not end. -/
def run : PSet → List Op → Option (PSet × List Bool)
  | s, [] => some (s, [])
  | s, o :: os => (step s o).bind fun (s, b) => (run s os).map fun (s, bs) => (s, b :: bs)

/-- Both kinds of operations answer whether the pointer was inserted earlier. -/
def answers : List ℕ → List Op → List Bool
  | _, [] => []
  | seen, .insert p :: os => decide (p ∈ seen) :: answers (p :: seen) os
  | seen, .contains p :: os => decide (p ∈ seen) :: answers seen os

/-- The pointers that are inserted. -/
def inserted (os : List Op) : List ℕ := os.filterMap fun | .insert p => some p | .contains _ => none

theorem contains_good {s : PSet} {f : Finset ℕ} {p : ℕ} (g : Good s f) (hp : p ≠ 0) :
    contains s p = some (decide (p ∈ f)) := by
  obtain ⟨n, hn, _, p2, _⟩ := probe g.reach hp g.free
  rw [g.mem] at p2
  unfold contains
  rw [p2]
  by_cases m : p ∈ f <;> simp [m]

theorem run_good : ∀ (os : List Op) (s : PSet) (f : Finset ℕ) (seen : List ℕ), Good s f →
    (∀ q, q ∈ seen ↔ q ∈ f) → (∀ o ∈ os, o.ptr ≠ 0) →
    ∃ s', run s os = some (s', answers seen os) ∧ Good s' (f ∪ (inserted os).toFinset)
  | [], s, f, _, g, _, _ => ⟨s, rfl, by simpa [inserted] using g⟩
  | .insert p :: os, s, f, seen, g, hs, h0 => by
    have hp : p ≠ 0 := h0 _ (List.mem_cons_self ..)
    obtain ⟨s1, h1, g1⟩ := insert_good g hp
    obtain ⟨s', h2, g2⟩ := run_good os s1 _ (p :: seen) g1 (by intro q; simp [hs]) fun o ho => h0 o (List.mem_cons_of_mem _ ho)
    refine ⟨s', ?_, ?_⟩
    · simp only [run, step, h1, Option.bind_some, h2, Option.map_some, answers, hs]
    · have : f ∪ (inserted (.insert p :: os)).toFinset = Insert.insert p f ∪ (inserted os).toFinset := by
        ext q; simp [inserted]
      rw [this]; exact g2
  | .contains p :: os, s, f, seen, g, hs, h0 => by
    have hp : p ≠ 0 := h0 _ (List.mem_cons_self ..)
    obtain ⟨s', h2, g2⟩ := run_good os s f seen g hs fun o ho => h0 o (List.mem_cons_of_mem _ ho)
    refine ⟨s', ?_, g2⟩
    simp only [run, step, contains_good g hp, Option.map_some, Option.bind_some, h2, answers, hs]

theorem create_good : Good create ∅ :=
  ⟨rfl, Nat.le_refl _, reach_empty _ _, members_empty _, rfl, by show 0 ≤ _; omega, .inl rfl⟩

theorem traverseLoop_true (slots : ℕ → ℕ) : ∀ is : List ℕ,
    traverseLoop slots (fun _ => true) is = (is.map slots).filter (· ≠ 0)
  | [] => rfl
  | i :: is => by
    simp only [traverseLoop, traverseLoop_true slots is, List.map_cons]
    split
    · rename_i h; simp [h]
    · rename_i h; simp only [ne_eq, not_not] at h; simp [h]

/-- The elements up to the first that is refused, including it. -/
def upTo {α : Type} (fn : α → Bool) : List α → List α
  | [] => []
  | a :: as => if fn a then a :: upTo fn as else [a]

theorem traverseLoop_upTo (slots : ℕ → ℕ) (fn : ℕ → Bool) : ∀ is : List ℕ,
    traverseLoop slots fn is = upTo fn (traverseLoop slots (fun _ => true) is)
  | [] => rfl
  | i :: is => by
    simp only [traverseLoop, traverseLoop_upTo slots fn is]
    split <;> simp [upTo]

theorem nodup_of_inj {slots : ℕ → ℕ} {N l : ℕ} (hr : Reach slots N l) :
    (traverseLoop slots (fun _ => true) (List.range N)).Nodup := by
  rw [traverseLoop_true, List.filter_map, List.nodup_map_iff_inj_on]
  · intro i hi j hj e
    simp only [List.mem_filter, List.mem_range, Function.comp, ne_eq, decide_not, Bool.not_eq_true', decide_eq_false_iff_not] at hi hj
    exact reach_inj hr hi.1 hj.1 hi.2 e
  · exact List.Nodup.filter _ List.nodup_range

theorem mem_traverse {slots : ℕ → ℕ} {N p : ℕ} :
    p ∈ traverseLoop slots (fun _ => true) (List.range N) ↔ p ∈ members slots N := by
  rw [traverseLoop_true, mem_members]
  simp only [List.mem_filter, List.mem_map, List.mem_range, ne_eq, decide_not, Bool.not_eq_true', decide_eq_false_iff_not]
  tauto

/-- **C198.** Whatever pointers other than `NULL` are inserted and looked for, the loops end; each operation answers whether the pointer was inserted before; the number of elements is that of different pointers; a traversal passes each exactly once, until one is refused. -/
theorem sets (os : List Op) (h : ∀ o ∈ os, o.ptr ≠ 0) :
    ∃ s, run create os = some (s, answers [] os) ∧
      s.nElements = (inserted os).toFinset.card ∧
      (traverse s fun _ => true).Perm (inserted os).toFinset.val.toList ∧
      (∀ fn, traverse s fn = upTo fn (traverse s fun _ => true)) ∧
      s.nSlots ≤ max 256 (8 * s.nElements) := by
  obtain ⟨s, h1, g⟩ := run_good os create ∅ [] create_good (by simp) h
  rw [Finset.empty_union] at g
  refine ⟨s, h1, g.card, ?_, fun fn => traverseLoop_upTo _ _ _, ?_⟩
  · unfold traverse
    rw [List.perm_ext_iff_of_nodup (nodup_of_inj g.reach)]
    · intro q
      rw [mem_traverse, g.mem]; simp
    · have := (inserted os).toFinset.nodup
      rw [← Multiset.coe_toList (inserted os).toFinset.val] at this
      exact this
  · rcases g.small with e | e
    · rw [e]; exact Nat.le_max_left _ _
    · exact Nat.le_trans (Nat.le_of_lt e) (Nat.le_max_right _ _)

example : ∀ o ∈ [Op.insert 16, .contains 16, .insert 16, .contains 32], o.ptr ≠ 0 := by decide
example : answers [] [.insert 16, .contains 16, .insert 16, .contains 32] = [false, true, true, false] := by decide

/-! ## Maps -/

/-- The map has the values `f`, in slots that are not free (helper of the proofs). -/
structure GoodMap (m : PMap) (f : ℕ → Option ℕ) : Prop where
  set : Good ⟨m.logSlots, m.nSlots, m.nElements, m.keys⟩ (members m.keys m.nSlots)
  val : ∀ i < m.nSlots, m.keys i ≠ 0 → f (m.keys i) = some (m.values i)
  dom : ∀ p, p ≠ 0 → (f p ≠ none ↔ p ∈ members m.keys m.nSlots)
  zero : ∀ i < m.nSlots, m.keys i = 0 → m.values i = 0

/-- What the loop of the expansion has done after `i` rounds. -/
theorem growMapLoop_good (old values : ℕ → ℕ) (M M' l l' : ℕ) (hr : Reach old M l) : ∀ i, i ≤ M → i < M' →
    ∃ new, growMapLoop old values M' l' i = some new ∧ Reach new.1 M' l' ∧ members new.1 M' = members old i ∧
      (∀ j < M', new.1 j ≠ 0 → ∃ k < i, old k = new.1 j ∧ values k = new.2 j) ∧
      (∀ j < M', new.1 j = 0 → new.2 j = 0)
  | 0, _, _ => ⟨_, rfl, reach_empty _ _, by rw [members_empty]; ext q; simp [mem_members], fun _ _ h => absurd rfl h, fun _ _ _ => rfl⟩
  | i + 1, hi, h => by
    obtain ⟨new, h1, h2, h3, h4, h5⟩ := growMapLoop_good old values M M' l l' hr i (by omega) (by omega)
    have free := free_of_card h2 (by rw [h3]; exact Nat.lt_of_le_of_lt (members_le old i) (by omega))
    simp only [growMapLoop, h1, Option.bind_eq_bind, Option.bind_some]
    by_cases c : old i = 0
    · rw [if_neg (by simpa using c)]
      refine ⟨new, rfl, h2, by rw [members_succ, if_pos c, h3], fun j a b => ?_, h5⟩
      obtain ⟨k, hk, e⟩ := h4 j a b
      exact ⟨k, by omega, e⟩
    · rw [if_pos c]
      obtain ⟨n, hn, p1, _, p3, p4⟩ := probe h2 c free
      rw [p1]
      have m : old i ∉ members new.1 M' := by
        rw [h3, mem_members]
        rintro ⟨_, k, hk, e⟩
        have := reach_inj hr (by omega : k < M) (by omega : i < M) (by rw [e]; exact c) e
        omega
      refine ⟨_, rfl, (p4 m).2, ?_, fun j a b => ?_, fun j a b => ?_⟩
      · show members (Function.update new.1 n (old i)) M' = _
        rw [members_update hn c (p4 m).1, members_succ, if_neg c, h3]
      · by_cases e : j = n
        · subst e; exact ⟨i, by omega, by simp⟩
        · simp only [Function.update_of_ne e] at b ⊢
          obtain ⟨k, hk, e⟩ := h4 j a b
          exact ⟨k, by omega, e⟩
      · by_cases e : j = n
        · subst e; simp only [Function.update_self] at b; exact absurd b c
        · simp only [Function.update_of_ne e] at b ⊢; exact h5 j a b

theorem growMap_good {m : PMap} {f : ℕ → Option ℕ} (g : GoodMap m f) :
    ∃ m', growMap m = some m' ∧ GoodMap m' f ∧ m'.nElements ≤ m'.nSlots / 4 := by
  obtain ⟨h1, h2⟩ := g.set.pos'
  have hroom := g.set.room
  dsimp only at h1 h2 hroom
  unfold growMap
  split
  · rename_i c
    obtain ⟨new, a, b, d, e, z⟩ := growMapLoop_good m.keys m.values m.nSlots (m.nSlots * 2) m.logSlots (m.logSlots + 1)
      g.set.reach m.nSlots (Nat.le_refl _) (by omega)
    rw [a]
    refine ⟨_, rfl, ⟨⟨?_, ?_, b, rfl, ?_, ?_, ?_⟩, ?_, ?_, z⟩, ?_⟩
    · show m.nSlots * 2 = 2 ^ (m.logSlots + 1); rw [Nat.pow_succ]; exact congrArg (· * 2) g.set.pow
    · have := g.set.log; show 8 ≤ m.logSlots + 1; dsimp only at this; omega
    · show m.nElements = (members new.1 (m.nSlots * 2)).card; rw [d]; exact g.set.card
    · show m.nElements ≤ m.nSlots * 2 / 4 + 1; omega
    · right; show m.nSlots * 2 < 8 * m.nElements; omega
    · intro i hi hk
      obtain ⟨k, hk', e1, e2⟩ := e i hi hk
      show f (new.1 i) = some (new.2 i)
      rw [← e1, ← e2]
      exact g.val k hk' (by rw [e1]; exact hk)
    · intro p hp
      show _ ↔ p ∈ members new.1 (m.nSlots * 2)
      rw [d]; exact g.dom p hp
    · show m.nElements ≤ m.nSlots * 2 / 4; omega
  · exact ⟨m, rfl, g, by omega⟩

/-- Inserting yields the place of the value, which is `NULL` for a new key. -/
theorem insertMap_good {m : PMap} {f : ℕ → Option ℕ} {p : ℕ} (g : GoodMap m f) (hp : p ≠ 0) :
    ∃ m' n, insertMap m p = some (m', n) ∧ n < m'.nSlots ∧ m'.keys n = p ∧ m'.values n = (f p).getD 0 ∧
      GoodMap m' (Function.update f p (some ((f p).getD 0))) := by
  obtain ⟨m1, h1, g1, h2⟩ := growMap_good g
  obtain ⟨n, hn, p1, _, p3, p4⟩ := probe g1.set.reach hp g1.set.free
  dsimp only at p1 p3 p4 hn
  unfold insertMap
  simp only [h1, Option.bind_eq_bind, Option.bind_some, p1]
  by_cases c : p ∈ members m1.keys m1.nSlots
  · have hk := p3 c
    have hv := g1.val n hn (by rw [hk]; exact hp)
    rw [hk] at hv
    rw [if_neg (by rw [hk]; exact hp)]
    refine ⟨m1, n, rfl, hn, hk, by rw [hv]; rfl, ?_⟩
    rw [hv]
    have : Function.update f p (some ((some (m1.values n)).getD 0)) = f := by
      show Function.update f p (some (m1.values n)) = f
      rw [← hv]; exact Function.update_eq_self _ _
    rw [this]; exact g1
  · obtain ⟨hz, hr⟩ := p4 c
    have hnone : f p = none := by
      by_contra e; exact c ((g1.dom p hp).1 e)
    rw [if_pos hz]
    have hm := members_update hn hp hz
    refine ⟨_, n, rfl, hn, Function.update_self .., ?_, ⟨⟨g1.set.pow, g1.set.log, hr, rfl, ?_, ?_, ?_⟩, ?_, ?_, ?_⟩⟩
    · rw [hnone]; exact g1.zero n hn hz
    · show m1.nElements + 1 = (members (Function.update m1.keys n p) m1.nSlots).card
      rw [hm, Finset.card_insert_of_notMem c]
      exact congrArg (· + 1) g1.set.card
    · show m1.nElements + 1 ≤ m1.nSlots / 4 + 1
      omega
    · show m1.nSlots = _ ∨ m1.nSlots < 8 * (m1.nElements + 1)
      rcases g1.set.small with h | h
      · exact .inl h
      · right; dsimp only at h; omega
    · intro i hi hk
      show Function.update f p _ (Function.update m1.keys n p i) = some (m1.values i)
      by_cases e : i = n
      · subst e
        rw [Function.update_self, Function.update_self, hnone, g1.zero i hn hz]; rfl
      · have hk : Function.update m1.keys n p i ≠ 0 := hk
        rw [Function.update_of_ne e] at hk ⊢
        rw [Function.update_of_ne, g1.val i hi hk]
        intro e'
        exact c (mem_members.2 ⟨hp, i, hi, e'⟩)
    · intro q hq
      show _ ↔ q ∈ members (Function.update m1.keys n p) m1.nSlots
      rw [hm, Finset.mem_insert]
      by_cases e : q = p
      · subst e; simp
      · rw [Function.update_of_ne e, g1.dom q hq]; simp [e]
    · intro i hi hk
      have hk : Function.update m1.keys n p i = 0 := hk
      by_cases e : i = n
      · subst e; rw [Function.update_self] at hk; exact absurd hk hp
      · rw [Function.update_of_ne e] at hk; exact g1.zero i hi hk

/-- What a program does with a map; it uses the place of a value at once. -/
inductive MapOp where
  /-- `*pointer_map_insert (m, p) = v` -/
  | store (p v : ℕ)
  /-- `*pointer_map_insert (m, p)` -/
  | fetch (p : ℕ)
  /-- `pointer_map_contains (m, p)`, then the value. -/
  | look (p : ℕ)

/-- The key of an operation. -/
def MapOp.ptr : MapOp → ℕ
  | .store p _ | .fetch p | .look p => p

/-- The map after one operation, and the value that was there. -/
def stepMap (m : PMap) : MapOp → Option (PMap × Option ℕ)
  | .store p v => (insertMap m p).map fun (m, n) => ({ m with values := Function.update m.values n v }, some (m.values n))
  | .fetch p => (insertMap m p).map fun (m, n) => (m, some (m.values n))
  | .look p => (containsMap m p).map fun r => (m, r.map m.values)

/-- The values of a sequence of operations and the map that remains; `none`: a loop does not end. -/
def runMap : PMap → List MapOp → Option (PMap × List (Option ℕ))
  | m, [] => some (m, [])
  | m, o :: os => (stepMap m o).bind fun (m, b) => (runMap m os).map fun (m, bs) => (m, b :: bs)

/-- A map is a function to values; a new key has the value `NULL`. -/
def stepSpec (f : ℕ → Option ℕ) : MapOp → (ℕ → Option ℕ) × Option ℕ
  | .store p v => (fun q => if q = p then some v else f q, some ((f p).getD 0))
  | .fetch p => (fun q => if q = p then some ((f p).getD 0) else f q, some ((f p).getD 0))
  | .look p => (f, f p)

/-- The function after a sequence of operations, and the values. -/
def runSpec : (ℕ → Option ℕ) → List MapOp → (ℕ → Option ℕ) × List (Option ℕ)
  | f, [] => (f, [])
  | f, o :: os => let x := runSpec (stepSpec f o).1 os; (x.1, (stepSpec f o).2 :: x.2)

theorem update_ite (f : ℕ → Option ℕ) (p : ℕ) (v : Option ℕ) : Function.update f p v = fun q => if q = p then v else f q := by
  funext q; by_cases e : q = p <;> simp [e]

theorem store_good {m : PMap} {f : ℕ → Option ℕ} {p n : ℕ} (v : ℕ) (g : GoodMap m f) (hp : p ≠ 0) (hn : n < m.nSlots) (hk : m.keys n = p) :
    GoodMap { m with values := Function.update m.values n v } (fun q => if q = p then some v else f q) := by
  refine ⟨g.set, ?_, ?_, ?_⟩
  · intro i hi h
    have h : m.keys i ≠ 0 := h
    show (if m.keys i = p then some v else f (m.keys i)) = some (Function.update m.values n v i)
    by_cases e : i = n
    · subst e; rw [if_pos hk, Function.update_self]
    · rw [if_neg, Function.update_of_ne e, g.val i hi h]
      intro e'
      exact e (reach_inj g.set.reach hi hn h (e'.trans hk.symm))
  · intro q hq
    show (if q = p then some v else f q) ≠ none ↔ q ∈ members m.keys m.nSlots
    by_cases e : q = p
    · subst e
      simp only [if_true, ne_eq, reduceCtorEq, not_false_eq_true, true_iff]
      exact mem_members.2 ⟨hp, n, hn, hk⟩
    · rw [if_neg e]; exact g.dom q hq
  · intro i hi h
    have h : m.keys i = 0 := h
    show Function.update m.values n v i = 0
    rw [Function.update_of_ne, g.zero i hi h]
    intro e; subst e; exact hp (hk.symm.trans h)

theorem stepMap_good {m : PMap} {f : ℕ → Option ℕ} {o : MapOp} (g : GoodMap m f) (hp : o.ptr ≠ 0) :
    ∃ m', stepMap m o = some (m', (stepSpec f o).2) ∧ GoodMap m' (stepSpec f o).1 := by
  cases o with
  | store p v =>
    obtain ⟨m', n, h1, h2, h3, h4, h5⟩ := insertMap_good g (show p ≠ 0 from hp)
    refine ⟨_, by simp only [stepMap, h1, Option.map_some, h4]; rfl, ?_⟩
    have := store_good v h5 (show p ≠ 0 from hp) h2 h3
    have e : (fun q => if q = p then some v else Function.update f p (some ((f p).getD 0)) q) = (stepSpec f (.store p v)).1 := by
      funext q
      show _ = if q = p then some v else f q
      by_cases e : q = p
      · simp [e]
      · simp [e]
    rw [e] at this; exact this
  | fetch p =>
    obtain ⟨m', n, h1, h2, h3, h4, h5⟩ := insertMap_good g (show p ≠ 0 from hp)
    refine ⟨m', by simp only [stepMap, h1, Option.map_some, h4]; rfl, ?_⟩
    rw [update_ite] at h5; exact h5
  | look p =>
    have hp : p ≠ 0 := hp
    obtain ⟨n, hn, _, p2, p3, p4⟩ := probe g.set.reach hp g.set.free
    dsimp only at p2 p3 p4 hn
    refine ⟨m, ?_, g⟩
    simp only [stepMap, containsMap, p2, Option.map_some, stepSpec]
    by_cases c : p ∈ members m.keys m.nSlots
    · have hv := g.val n hn (by rw [p3 c]; exact hp)
      rw [p3 c] at hv
      simp [c, hv]
    · have : f p = none := by by_contra e; exact c ((g.dom p hp).1 e)
      simp [c, this]

theorem runMap_good : ∀ (os : List MapOp) (m : PMap) (f : ℕ → Option ℕ), GoodMap m f → (∀ o ∈ os, o.ptr ≠ 0) →
    ∃ m', runMap m os = some (m', (runSpec f os).2) ∧ GoodMap m' (runSpec f os).1
  | [], m, _, g, _ => ⟨m, rfl, g⟩
  | o :: os, m, f, g, h => by
    obtain ⟨m1, h1, g1⟩ := stepMap_good g (h o (List.mem_cons_self ..))
    obtain ⟨m2, h2, g2⟩ := runMap_good os m1 _ g1 fun o ho => h o (List.mem_cons_of_mem _ ho)
    exact ⟨m2, by simp only [runMap, h1, Option.bind_some, h2, Option.map_some, runSpec], g2⟩

theorem createMap_good : GoodMap createMap fun _ => none :=
  ⟨⟨rfl, Nat.le_refl _, reach_empty _ _, rfl, (congrArg Finset.card (members_empty _)).symm, by show 0 ≤ _; omega, .inl rfl⟩,
    fun _ _ h => absurd rfl h, fun p _ => by rw [show members createMap.keys createMap.nSlots = ∅ from members_empty _]; simp,
    fun _ _ _ => rfl⟩

theorem traverseMapLoop_true (keys values : ℕ → ℕ) : ∀ is : List ℕ,
    traverseMapLoop keys values (fun _ _ => true) is = (is.filter fun i => keys i ≠ 0).map fun i => (keys i, values i)
  | [] => rfl
  | i :: is => by
    simp only [traverseMapLoop, traverseMapLoop_true keys values is]
    split
    · rename_i h; simp [h]
    · rename_i h; simp only [ne_eq, not_not] at h; simp [h]

theorem traverseMapLoop_upTo (keys values : ℕ → ℕ) (fn : ℕ → ℕ → Bool) : ∀ is : List ℕ,
    traverseMapLoop keys values fn is = upTo (fun x => fn x.1 x.2) (traverseMapLoop keys values (fun _ _ => true) is)
  | [] => rfl
  | i :: is => by
    simp only [traverseMapLoop, traverseMapLoop_upTo keys values fn is]
    split <;> simp [upTo]

/-- **C199.** Whatever is stored, fetched and looked for under keys other than `NULL`, the loops end; each operation finds the value that was stored last under its key, and `NULL` under a new key; the number of elements is that of keys; a traversal passes each key once and with its value, until one is refused. -/
theorem maps (os : List MapOp) (h : ∀ o ∈ os, o.ptr ≠ 0) :
    ∃ m, runMap createMap os = some (m, (runSpec (fun _ => none) os).2) ∧
      (∀ p v, p ≠ 0 → ((p, v) ∈ (traverseMap m fun _ _ => true) ↔ (runSpec (fun _ => none) os).1 p = some v)) ∧
      ((traverseMap m fun _ _ => true).map Prod.fst).Nodup ∧
      (traverseMap m fun _ _ => true).length = m.nElements ∧
      (∀ fn, traverseMap m fn = upTo (fun x => fn x.1 x.2) (traverseMap m fun _ _ => true)) ∧
      m.nSlots ≤ max 256 (8 * m.nElements) := by
  obtain ⟨m, h1, g⟩ := runMap_good os createMap _ createMap_good h
  have nd : ((traverseMap m fun _ _ => true).map Prod.fst).Nodup := by
    unfold traverseMap
    rw [traverseMapLoop_true, List.map_map, List.nodup_map_iff_inj_on]
    · intro i hi j hj e
      simp only [List.mem_filter, List.mem_range, ne_eq, decide_not, Bool.not_eq_true', decide_eq_false_iff_not] at hi hj
      exact reach_inj g.set.reach hi.1 hj.1 hi.2 e
    · exact List.Nodup.filter _ List.nodup_range
  refine ⟨m, h1, ?_, nd, ?_, fun fn => traverseMapLoop_upTo _ _ _ _, ?_⟩
  · intro p v hp
    unfold traverseMap
    rw [traverseMapLoop_true]
    simp only [List.mem_map, List.mem_filter, List.mem_range, ne_eq, decide_not, Bool.not_eq_true', decide_eq_false_iff_not, Prod.mk.injEq]
    constructor
    · rintro ⟨i, ⟨hi, hk⟩, rfl, rfl⟩; exact g.val i hi hk
    · intro hv
      obtain ⟨_, i, hi, hk⟩ := mem_members.1 ((g.dom p hp).1 (by rw [hv]; simp))
      refine ⟨i, ⟨hi, by rw [hk]; exact hp⟩, hk, ?_⟩
      have := g.val i hi (by rw [hk]; exact hp)
      rw [hk, hv] at this
      exact (Option.some.inj this).symm
  · have e := g.set.card
    dsimp only at e
    rw [e, ← used_card g.set.reach]
    unfold traverseMap
    rw [traverseMapLoop_true, List.length_map, used, Finset.card_def, Finset.filter_val, Finset.range_val]
    simp [Multiset.range, ← Multiset.coe_card]
  · rcases g.set.small with e | e
    · dsimp only at e; rw [e]; exact Nat.le_max_left _ _
    · exact Nat.le_trans (Nat.le_of_lt e) (Nat.le_max_right _ _)

example : ∀ o ∈ [MapOp.fetch 16, .store 16 5, .look 16, .look 32, .store 32 7], o.ptr ≠ 0 := by decide
example : (runSpec (fun _ => none) [.fetch 16, .store 16 5, .look 16, .look 32, .fetch 32]).2 =
    [some 0, some 0, some 5, none, some 0] := by decide

/-- `NULL` is always found. -/
theorem null_found : contains create 0 = some true := by rfl

end Verif.PtrSet
