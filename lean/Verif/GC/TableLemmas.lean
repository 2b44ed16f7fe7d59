/-
The invariant of the object table.
-/
import Verif.GC.TableModel
import Mathlib.Tactic.Set
import Mathlib.Tactic.ByContra

namespace Verif.GC.Table

/-- What is true of the table, `A` being the entries in use. -/
structure Inv (s : Mem) (A : Nat → Bool) : Prop where
  low : ∀ p, p < s.lo → A p = true
  alive : ∀ p, A p = true → (s.ent p).flags.old = true ∨ (s.ent p).flags.active = true
  dead_out : ∀ p, A p = false → (p < s.lo ∨ s.hi ≤ p) → (s.ent p).flags = {}
  reg_alive : ∀ p, s.lo ≤ p → p < s.hi → A p = true → s.liveOld = false →
    (s.ent p).flags.reachable = true
  reg_dead : ∀ p, s.lo ≤ p → p < s.hi → A p = false → (s.ent p).flags.active = false ∧
    (s.liveOld = true → (s.ent p).flags.old = false)
  reach : ∀ p, (s.ent p).flags.reachable = true →
    s.lo ≤ p ∧ p < s.hi ∧ s.liveOld = false ∧ A p = true
  top : ∀ p, A p = true → p < s.top
  size : s.top ≤ s.size
  hisize : s.hi ≤ s.size

/-- In the middle of a sweep something is left to sweep, or there is nothing in use beyond. -/
def Mode (s : Mem) (A : Nat → Bool) : Prop :=
  s.liveOld = false → s.lo < s.hi ∨ ∀ p, s.lo ≤ p → A p = false

/-- The free entries that are not waiting to be swept. -/
def outFree (s : Mem) (A : Nat → Bool) : Nat :=
  ((List.range s.size).filter fun p => !A p && !(decide (s.lo ≤ p) && decide (p < s.hi))).length

/-- `num_free_oops` is at most one too large. -/
def FreeOK (s : Mem) (A : Nat → Bool) : Prop := s.numFree ≤ 1 + outFree s A

@[simp] theorem setEnt_ent (s : Mem) (p q : Nat) (e : Entry) :
    (setEnt s p e).ent q = if q = p then e else s.ent q := rfl
@[simp] theorem setFlags_ent (s : Mem) (p q : Nat) (f : Flags) :
    (setFlags s p f).ent q = if q = p then { s.ent p with flags := f } else s.ent q := rfl

theorem validGC_region {s : Mem} {A : Nat → Bool} (h : Inv s A) {p : Nat} (h1 : s.lo ≤ p)
    (h2 : p < s.hi) : validGC s p = A p := by
  cases hA : A p
  · obtain ⟨h3, h4⟩ := h.reg_dead p h1 h2 hA
    simp only [validGC, h3, Bool.false_or]
    cases hl : s.liveOld
    · simp only [Bool.false_eq_true, if_false]
      cases hr : (s.ent p).flags.reachable
      · rfl
      · have := (h.reach p hr).2.2.2
        rw [hA] at this; exact absurd this (by simp)
    · simp only [if_true]; exact h4 hl
  · simp only [validGC]
    cases hl : s.liveOld
    · simp only [Bool.false_eq_true, if_false, h.reg_alive p h1 h2 hA hl, Bool.or_true]
    · simp only [if_true]
      rcases h.alive p hA with h3 | h3 <;> simp [h3]

/-- Outside the region: `IS_OOP_VALID_GC` is right once the sweep is finished, or when nothing in
use lies there. -/
theorem validGC_out {s : Mem} {A : Nat → Bool} (h : Inv s A) {p : Nat} (h2 : s.hi ≤ p)
    (hm : s.liveOld = true ∨ A p = false) : validGC s p = A p := by
  cases hA : A p
  · have := h.dead_out p hA (Or.inr h2)
    simp only [validGC, this]
    cases s.liveOld <;> rfl
  · rcases hm with hm | hm
    · simp only [validGC, hm, if_true]
      rcases h.alive p hA with h3 | h3 <;> simp [h3]
    · rw [hA] at hm; exact absurd hm (by simp)

/-- Going up over an entry in use. -/
theorem Inv.skipUp {s : Mem} {A : Nat → Bool} {p : Nat} (h : Inv { s with lo := p } A) (hA : A p = true) :
    Inv { unreach s p with lo := p + 1 } A := by
  have hent : ∀ q, ((unreach s p).ent q).flags.old = (s.ent q).flags.old ∧
      ((unreach s p).ent q).flags.active = (s.ent q).flags.active ∧
      ((unreach s p).ent q).flags.reachable =
        (if q = p then false else (s.ent q).flags.reachable) ∧
      (q ≠ p → (unreach s p).ent q = s.ent q) := by
    intro q
    simp only [unreach, setFlags_ent]
    by_cases hq : q = p
    · subst hq; simp
    · simp [hq]
  refine ⟨?_, ?_, ?_, ?_, ?_, ?_, h.top, h.size, h.hisize⟩
  · intro q hq
    by_cases hqp : q = p
    · subst hqp; exact hA
    · exact h.low q (by simp only at hq ⊢; omega)
  · intro q hq
    simp only [(hent q).1, (hent q).2.1]
    exact h.alive q hq
  · intro q hq hout
    have hqp : q ≠ p := by rintro rfl; rw [hA] at hq; exact absurd hq (by simp)
    simp only [(hent q).2.2.2 hqp]
    have hout : q < p + 1 ∨ s.hi ≤ q := hout
    exact h.dead_out q hq (by simp only; omega)
  · intro q h1 h2 h3 h4
    have hqp : q ≠ p := by simp only at h1; omega
    simp only [(hent q).2.2.1, if_neg hqp]
    exact h.reg_alive q (by simp only at h1 ⊢; omega) h2 h3 h4
  · intro q h1 h2 h3
    simp only [(hent q).1, (hent q).2.1]
    exact h.reg_dead q (by simp only at h1 ⊢; omega) h2 h3
  · intro q hq
    simp only [(hent q).2.2.1] at hq
    by_cases hqp : q = p
    · rw [if_pos hqp] at hq; exact absurd hq (by simp)
    · rw [if_neg hqp] at hq
      obtain ⟨a, b, c, d⟩ := h.reach q hq
      refine ⟨?_, b, c, d⟩
      simp only at a ⊢; omega

/-- Going down over an entry in use. -/
theorem Inv.skipDown {s : Mem} {A : Nat → Bool} {p : Nat} (h : Inv { s with hi := p + 1 } A)
    (hA : A p = true) : Inv { unreach s p with hi := p } A := by
  have hent : ∀ q, ((unreach s p).ent q).flags.old = (s.ent q).flags.old ∧
      ((unreach s p).ent q).flags.active = (s.ent q).flags.active ∧
      ((unreach s p).ent q).flags.reachable =
        (if q = p then false else (s.ent q).flags.reachable) ∧
      (q ≠ p → (unreach s p).ent q = s.ent q) := by
    intro q
    simp only [unreach, setFlags_ent]
    by_cases hq : q = p
    · subst hq; simp
    · simp [hq]
  refine ⟨h.low, ?_, ?_, ?_, ?_, ?_, h.top, h.size, ?_⟩
  · intro q hq
    simp only [(hent q).1, (hent q).2.1]
    exact h.alive q hq
  · intro q hq hout
    have hqp : q ≠ p := by rintro rfl; rw [hA] at hq; exact absurd hq (by simp)
    simp only [(hent q).2.2.2 hqp]
    refine h.dead_out q hq ?_
    rcases hout with h1 | h1
    · exact Or.inl h1
    · right; simp only at h1 ⊢; omega
  · intro q h1 h2 h3 h4
    have hqp : q ≠ p := by simp only at h2; omega
    simp only [(hent q).2.2.1, if_neg hqp]
    exact h.reg_alive q h1 (by simp only at h2 ⊢; omega) h3 h4
  · intro q h1 h2 h3
    simp only [(hent q).1, (hent q).2.1]
    exact h.reg_dead q h1 (by simp only at h2 ⊢; omega) h3
  · intro q hq
    simp only [(hent q).2.2.1] at hq
    by_cases hqp : q = p
    · rw [if_pos hqp] at hq; exact absurd hq (by simp)
    · rw [if_neg hqp] at hq
      obtain ⟨a, b, c, d⟩ := h.reach q hq
      refine ⟨a, ?_, c, d⟩
      simp only at b ⊢; omega
  · have := h.hisize
    simp only at this ⊢
    exact Nat.le_of_succ_le this

/-- Freeing an entry that is not in use. -/
theorem Inv.sweepAt {s : Mem} {A : Nat → Bool} (h : Inv s A) {p : Nat} (hA : A p = false) :
    Inv (sweep s p) A ∧ ((sweep s p).ent p).flags = {} := by
  have hent : ∀ q, q ≠ p → (sweep s p).ent q = s.ent q := by
    intro q hq; simp [sweep, hq]
  have hp : ((sweep s p).ent p).flags = {} := by simp [sweep]
  have hne : ∀ q, A q = true → q ≠ p := by
    rintro q hq rfl; rw [hA] at hq; exact absurd hq (by simp)
  refine ⟨⟨h.low, ?_, ?_, ?_, ?_, ?_, h.top, h.size, h.hisize⟩, hp⟩
  · intro q hq; rw [hent q (hne q hq)]; exact h.alive q hq
  · intro q hq hout
    by_cases hqp : q = p
    · rw [hqp]; exact hp
    · rw [hent q hqp]; exact h.dead_out q hq hout
  · intro q h1 h2 h3 h4; rw [hent q (hne q h3)]; exact h.reg_alive q h1 h2 h3 h4
  · intro q h1 h2 h3
    by_cases hqp : q = p
    · rw [hqp, hp]; exact ⟨rfl, fun _ => rfl⟩
    · rw [hent q hqp]; exact h.reg_dead q h1 h2 h3
  · intro q hq
    by_cases hqp : q = p
    · rw [hqp, hp] at hq; exact absurd hq (by simp)
    · rw [hent q hqp] at hq; exact h.reach q hq

/-- Going down over a free entry. -/
theorem Inv.lowerHi {s : Mem} {A : Nat → Bool} {p : Nat} (h : Inv { s with hi := p + 1 } A)
    (hA : A p = false) (hfree : (s.ent p).flags = {}) : Inv { s with hi := p } A := by
  refine ⟨h.low, h.alive, ?_, ?_, ?_, ?_, h.top, h.size, ?_⟩
  · intro q hq hout
    by_cases hqp : q = p
    · rw [hqp]; exact hfree
    · refine h.dead_out q hq ?_
      rcases hout with h1 | h1
      · exact Or.inl h1
      · right; simp only at h1 ⊢; omega
  · intro q h1 h2 h3 h4; exact h.reg_alive q h1 (by simp only at h2 ⊢; omega) h3 h4
  · intro q h1 h2 h3; exact h.reg_dead q h1 (by simp only at h2 ⊢; omega) h3
  · intro q hq
    obtain ⟨a, b, c, d⟩ := h.reach q hq
    refine ⟨a, ?_, c, d⟩
    have hqp : q ≠ p := by rintro rfl; rw [hA] at d; exact absurd d (by simp)
    simp only at b ⊢; omega
  · have := h.hisize
    simp only at this ⊢
    exact Nat.le_of_succ_le this

/-- The end of a sweep. -/
theorem Inv.finish {s : Mem} {A : Nat → Bool} (h : Inv s A) (he : s.hi ≤ s.lo) :
    Inv (finished s) A := by
  refine ⟨h.low, h.alive, h.dead_out, ?_, ?_, ?_, h.top, h.size, h.hisize⟩
  · intro q h1 h2; simp only [finished] at h1 h2; omega
  · intro q h1 h2; simp only [finished] at h1 h2; omega
  · intro q hq
    obtain ⟨a, b, _⟩ := h.reach q hq
    omega

/-! ### Counting free entries -/

theorem outFree_eq {s s' : Mem} {A A' : Nat → Bool} (hs : s'.size = s.size)
    (h : ∀ p, (!A' p && !(decide (s'.lo ≤ p) && decide (p < s'.hi))) =
      (!A p && !(decide (s.lo ≤ p) && decide (p < s.hi)))) : outFree s' A' = outFree s A := by
  simp only [outFree, hs]
  congr 1
  exact List.filter_congr (fun p _ => h p)

theorem filter_len_succ (p : Nat) (f g : Nat → Bool) (hf : f p = false) (hg : g p = true)
    (h : ∀ q, q ≠ p → g q = f q) :
    ∀ n, p < n → ((List.range n).filter g).length = ((List.range n).filter f).length + 1 := by
  have hle : ∀ n, n ≤ p → ((List.range n).filter g).length = ((List.range n).filter f).length := by
    intro n hn
    congr 1
    exact List.filter_congr (fun q hq => h q (by have := List.mem_range.mp hq; omega))
  intro n
  induction n with
  | zero => intro h; omega
  | succ n ih =>
    intro hn
    rw [List.range_succ, List.filter_append, List.filter_append, List.length_append,
      List.length_append]
    by_cases hp : p = n
    · subst hp
      rw [hle p (Nat.le_refl _)]
      simp [hf, hg]
    · rw [ih (by omega)]
      have := h n (fun hx => hp hx.symm)
      simp only [List.filter_cons, List.filter_nil, this]
      split <;> simp

/-- Taking a free entry out of the region at its upper end. -/
theorem outFree_lowerHi {s : Mem} {A : Nat → Bool} {p : Nat} (hA : A p = false) (hlo : s.lo ≤ p)
    (hp : p < s.size) :
    outFree { s with hi := p } A = outFree { s with hi := p + 1 } A + 1 := by
  simp only [outFree]
  refine filter_len_succ p _ _ ?_ ?_ ?_ _ hp
  · simp [hA, hlo]
  · simp [hA]
  · intro q hq
    have : decide (q < p) = decide (q < p + 1) := by
      congr 1
      exact propext (by omega)
    rw [this]

/-- The state that a sweep of one entry leaves. -/
theorem sweepCount_inv {s : Mem} {A : Nat → Bool} {p : Nat} (h : Inv { s with hi := p + 1 } A)
    (hA : A p = false) (hlo : s.lo ≤ p) (hf : FreeOK { s with hi := p + 1 } A) :
    Inv { sweepCount s p with hi := p } A ∧ FreeOK { sweepCount s p with hi := p } A := by
  obtain ⟨h1, h2⟩ := h.sweepAt hA
  have h3 : Inv { sweep s p with hi := p } A := Inv.lowerHi (s := sweep s p) h1 hA h2
  constructor
  · refine ⟨h3.low, h3.alive, h3.dead_out, h3.reg_alive, h3.reg_dead, h3.reach, ?_, ?_, h3.hisize⟩
    · intro q hq
      have := h3.top q hq
      have hqp : q ≠ p := by rintro rfl; rw [hA] at hq; exact absurd hq (by simp)
      simp only [sweepCount] at this ⊢
      split
      · rename_i hx; omega
      · exact this
    · have := h3.size
      simp only [sweepCount] at this ⊢
      split
      · rename_i hx; omega
      · exact this
  · have hps : p < s.size := h.hisize
    have := outFree_lowerHi (s := s) hA hlo hps
    have he : outFree { sweepCount s p with hi := p } A = outFree { s with hi := p } A := rfl
    simp only [FreeOK] at hf ⊢
    rw [he, this]
    have hn : (sweepCount s p).numFree = s.numFree + 1 := rfl
    simp only [hn]
    omega

theorem skipDown_free {s : Mem} {A : Nat → Bool} {p : Nat} (hA : A p = true)
    (hf : FreeOK { s with hi := p + 1 } A) : FreeOK { unreach s p with hi := p } A := by
  have he : outFree { unreach s p with hi := p } A = outFree { s with hi := p + 1 } A := by
    refine outFree_eq rfl ?_
    intro q
    by_cases hq : q = p
    · subst hq; simp [hA]
    · have : decide (q < p) = decide (q < p + 1) := by
        congr 1
        exact propext (by omega)
      simp only [this]
      rfl
  simp only [FreeOK] at hf ⊢
  rw [he]
  exact hf

theorem skipUp_free {s : Mem} {A : Nat → Bool} {p : Nat} (hA : A p = true)
    (hf : FreeOK { s with lo := p } A) : FreeOK { unreach s p with lo := p + 1 } A := by
  have he : outFree { unreach s p with lo := p + 1 } A = outFree { s with lo := p } A := by
    refine outFree_eq rfl ?_
    intro q
    by_cases hq : q = p
    · subst hq; simp [hA]
    · have : decide (p + 1 ≤ q) = decide (p ≤ q) := by
        congr 1
        exact propext (by omega)
      simp only [this]
      rfl
  simp only [FreeOK] at hf ⊢
  rw [he]
  exact hf

/-! ### Sweeping -/

/-- Nothing but the flags of free entries, and the mark bits, changes. -/
def SameObjects (A : Nat → Bool) (s s' : Mem) : Prop :=
  s'.size = s.size ∧ ∀ p, A p = true → (s'.ent p).obj = (s.ent p).obj ∧
    (s'.ent p).flags = { (s.ent p).flags with reachable := (s'.ent p).flags.reachable }

theorem SameObjects.refl (A : Nat → Bool) (s : Mem) : SameObjects A s s :=
  ⟨rfl, fun _ _ => ⟨rfl, rfl⟩⟩

theorem SameObjects.trans {A : Nat → Bool} {s s1 s2 : Mem} (h1 : SameObjects A s s1)
    (h2 : SameObjects A s1 s2) : SameObjects A s s2 := by
  refine ⟨h2.1.trans h1.1, fun p hp => ?_⟩
  obtain ⟨a, b⟩ := h1.2 p hp
  obtain ⟨c, d⟩ := h2.2 p hp
  refine ⟨c.trans a, ?_⟩
  rw [d, b]

theorem same_unreach (A : Nat → Bool) (s : Mem) (p : Nat) : SameObjects A s (unreach s p) := by
  refine ⟨rfl, fun q _ => ?_⟩
  simp only [unreach, setFlags_ent]
  by_cases hq : q = p
  · subst hq; simp
  · simp [hq]

theorem same_sweep {A : Nat → Bool} (s : Mem) {p : Nat} (hA : A p = false) :
    SameObjects A s (sweep s p) := by
  refine ⟨rfl, fun q hq => ?_⟩
  have hqp : q ≠ p := by rintro rfl; rw [hA] at hq; exact absurd hq (by simp)
  simp [sweep, hqp]

theorem finishLoop_inv {A : Nat → Bool} : ∀ (q : Nat) (s : Mem), Inv { s with hi := q } A →
    FreeOK { s with hi := q } A →
    Inv (finishLoop s q) A ∧ FreeOK (finishLoop s q) A ∧ (finishLoop s q).hi ≤ (finishLoop s q).lo ∧
      SameObjects A s (finishLoop s q)
  | 0, s, h, hf => ⟨h, hf, Nat.zero_le _, SameObjects.refl A s⟩
  | p + 1, s, h, hf => by
    rw [finishLoop]
    by_cases hlo : s.lo < p + 1
    · rw [if_pos hlo]
      have hv : validGC s p = A p := validGC_region h (Nat.le_of_lt_succ hlo) (Nat.lt_succ_self p)
      cases hA : A p
      · rw [if_neg (by simp [hv, hA])]
        obtain ⟨h1, h2⟩ := sweepCount_inv h hA (Nat.le_of_lt_succ hlo) hf
        obtain ⟨a, b, c, d⟩ := finishLoop_inv p (sweepCount s p) h1 h2
        refine ⟨a, b, c, SameObjects.trans ?_ d⟩
        exact ⟨rfl, (same_sweep s hA).2⟩
      · rw [if_pos (by simp [hv, hA])]
        obtain ⟨a, b, c, d⟩ := finishLoop_inv p (unreach s p) (h.skipDown hA) (skipDown_free hA hf)
        exact ⟨a, b, c, (same_unreach A s p).trans d⟩
    · rw [if_neg hlo]
      exact ⟨h, hf, by simp only; omega, SameObjects.refl A s⟩

theorem finish_inv {A : Nat → Bool} {s : Mem} (h : Inv s A) (hf : FreeOK s A) :
    Inv (finish s) A ∧ FreeOK (finish s) A ∧ (finish s).hi ≤ (finish s).lo ∧
      (finish s).liveOld = true ∧ SameObjects A s (finish s) := by
  obtain ⟨a, b, c, d⟩ := finishLoop_inv s.hi s h hf
  exact ⟨a.finish c, b, c, rfl, d.1, d.2⟩

theorem stepLoop_inv {A : Nat → Bool} : ∀ (q : Nat) (s : Mem) (i : Nat), Inv { s with hi := q } A →
    FreeOK { s with hi := q } A →
    Inv (stepLoop s i q).1 A ∧ FreeOK (stepLoop s i q).1 A ∧ SameObjects A s (stepLoop s i q).1 ∧
      ((stepLoop s i q).2 = true →
        (stepLoop s i q).1.hi ≤ (stepLoop s i q).1.lo ∧ (stepLoop s i q).1.liveOld = true)
  | 0, s, i, h, hf =>
    ⟨Inv.finish (s := { s with hi := 0 }) h (Nat.zero_le _), hf, SameObjects.refl A s,
      fun _ => ⟨Nat.zero_le _, rfl⟩⟩
  | p + 1, s, i, h, hf => by
    rw [stepLoop]
    by_cases hlo : s.lo < p + 1
    · rw [if_pos hlo]
      have hv : validGC s p = A p := validGC_region h (Nat.le_of_lt_succ hlo) (Nat.lt_succ_self p)
      cases hA : A p
      · rw [if_neg (by simp [hv, hA])]
        obtain ⟨h1, h2⟩ := sweepCount_inv h hA (Nat.le_of_lt_succ hlo) hf
        have hsame : SameObjects A s (sweepCount s p) := ⟨rfl, (same_sweep s hA).2⟩
        simp only
        by_cases hi : i + 1 = sweepStep
        · rw [if_pos hi]
          exact ⟨h1, h2, hsame, fun hx => absurd hx (by simp)⟩
        · rw [if_neg hi]
          obtain ⟨a, b, c, d⟩ := stepLoop_inv p (sweepCount s p) (i + 1) h1 h2
          exact ⟨a, b, hsame.trans c, d⟩
      · rw [if_pos (by simp [hv, hA])]
        obtain ⟨a, b, c, d⟩ := stepLoop_inv p (unreach s p) i (h.skipDown hA) (skipDown_free hA hf)
        exact ⟨a, b, (same_unreach A s p).trans c, d⟩
    · rw [if_neg hlo]
      have hle : p + 1 ≤ s.lo := by omega
      exact ⟨Inv.finish (s := { s with hi := p + 1 }) h hle, hf, SameObjects.refl A s,
        fun _ => ⟨hle, rfl⟩⟩

theorem step_inv {A : Nat → Bool} {s : Mem} (h : Inv s A) (hf : FreeOK s A) :
    Inv (step s).1 A ∧ FreeOK (step s).1 A ∧ SameObjects A s (step s).1 ∧
      ((step s).2 = true → (step s).1.hi ≤ (step s).1.lo) := by
  unfold step
  by_cases hr : s.lo < s.hi
  · rw [if_pos hr]
    obtain ⟨a, b, c, d⟩ := stepLoop_inv s.hi s 0 h hf
    exact ⟨a, b, c, fun hx => (d hx).1⟩
  · rw [if_neg hr]
    exact ⟨h, hf, SameObjects.refl A s, fun _ => Nat.le_of_not_lt hr⟩

/-! ### Allocation -/

/-- `A` with one more entry. -/
def insert (A : Nat → Bool) (p : Nat) : Nat → Bool := fun q => if q = p then true else A q

theorem allocFast_spec {A : Nat → Bool} (s : Mem) (hv : ∀ p, s.lo ≤ p → validGC s p = A p) :
    ∀ (fuel p : Nat), s.lo ≤ p → (∃ q, p ≤ q ∧ q < p + fuel ∧ A q = false) →
      ∃ r, allocFast s fuel p = some r ∧ p ≤ r ∧ A r = false ∧ ∀ q, p ≤ q → q < r → A q = true
  | 0, p, _, ⟨q, h1, h2, _⟩ => by omega
  | fuel + 1, p, hp, ⟨q, h1, h2, h3⟩ => by
    rw [allocFast, hv p hp]
    cases hA : A p
    · rw [if_neg (by simp)]
      exact ⟨p, rfl, Nat.le_refl _, hA, fun q h4 h5 => by omega⟩
    · rw [if_pos rfl]
      have hqp : q ≠ p := by rintro rfl; rw [hA] at h3; exact absurd h3 (by simp)
      obtain ⟨r, a, b, c, d⟩ := allocFast_spec s hv fuel (p + 1) (by omega) ⟨q, by omega, by omega, h3⟩
      refine ⟨r, a, by omega, c, fun x h4 h5 => ?_⟩
      by_cases hx : x = p
      · rw [hx]; exact hA
      · exact d x (by omega) h5

theorem mem_outFree {s : Mem} {A : Nat → Bool} (h : 0 < outFree s A) (hlow : ∀ p, p < s.lo → A p = true) :
    ∃ q, q < s.size ∧ s.lo ≤ q ∧ s.hi ≤ q ∧ A q = false := by
  obtain ⟨q, hq⟩ := List.exists_mem_of_length_pos h
  simp only [List.mem_filter, List.mem_range, Bool.and_eq_true, Bool.not_eq_true',
    Bool.and_eq_false_iff, decide_eq_false_iff_not] at hq
  obtain ⟨h1, h2, h3⟩ := hq
  have : s.lo ≤ q := by
    by_contra hx
    rw [hlow q (by omega)] at h2; exact absurd h2 (by simp)
  exact ⟨q, h1, this, by omega, h2⟩

/-- The state in which an entry is about to be handed out: everything below is in use, the entry is
not. -/
theorem handOut_inv {s : Mem} {A : Nat → Bool} {p o : Nat} {f : Flags} (h : Inv s A)
    (hlo : s.lo ≤ p) (hlow : ∀ q, s.lo ≤ q → q < p → A q = true)
    (hpos : p = s.lo ∨ s.hi ≤ s.lo) (hps : p < s.size)
    (hf : f.old = true ∨ f.active = true) (hr : f.reachable = false) :
    Inv (handOut s p o f) (insert A p) := by
  have hent : ∀ q, (handOut s p o f).ent q = if q = p then { obj := o, flags := f } else s.ent q :=
    fun q => rfl
  have hin : ∀ q, insert A p q = if q = p then true else A q := fun q => rfl
  refine ⟨?_, ?_, ?_, ?_, ?_, ?_, ?_, ?_, h.hisize⟩
  · intro q hq
    have hq : q < p + 1 := hq
    rw [hin]
    by_cases hqp : q = p
    · rw [if_pos hqp]
    · rw [if_neg hqp]
      by_cases hql : q < s.lo
      · exact h.low q hql
      · exact hlow q (by omega) (by omega)
  · intro q hq
    rw [hent]
    rw [hin] at hq
    by_cases hqp : q = p
    · rw [if_pos hqp]; exact hf
    · rw [if_neg hqp]; rw [if_neg hqp] at hq; exact h.alive q hq
  · intro q hq hout
    rw [hin] at hq
    have hout : q < p + 1 ∨ s.hi ≤ q := hout
    by_cases hqp : q = p
    · rw [if_pos hqp] at hq; exact absurd hq (by simp)
    · rw [if_neg hqp] at hq
      rw [hent, if_neg hqp]
      refine h.dead_out q hq ?_
      rcases hout with h1 | h1
      · left
        by_contra hx
        rw [hlow q (by omega) (by omega)] at hq; exact absurd hq (by simp)
      · exact Or.inr h1
  · intro q h1 h2 h3 h4
    have h1 : p + 1 ≤ q := h1
    have h2 : q < s.hi := h2
    have hqp : q ≠ p := by omega
    rw [hin, if_neg hqp] at h3
    rw [hent, if_neg hqp]
    exact h.reg_alive q (by omega) h2 h3 h4
  · intro q h1 h2 h3
    have h1 : p + 1 ≤ q := h1
    have h2 : q < s.hi := h2
    have hqp : q ≠ p := by omega
    rw [hin, if_neg hqp] at h3
    rw [hent, if_neg hqp]
    exact h.reg_dead q (by omega) h2 h3
  · intro q hq
    rw [hent] at hq
    by_cases hqp : q = p
    · rw [if_pos hqp] at hq; simp only at hq; rw [hr] at hq; exact absurd hq (by simp)
    · rw [if_neg hqp] at hq
      obtain ⟨a, b, c, d⟩ := h.reach q hq
      refine ⟨?_, b, c, by rw [hin, if_neg hqp]; exact d⟩
      show p + 1 ≤ q
      rcases hpos with h5 | h5
      · omega
      · omega
  · intro q hq
    rw [hin] at hq
    show q < if s.top ≤ p then p + 1 else s.top
    by_cases hqp : q = p
    · rw [hqp]; split <;> omega
    · rw [if_neg hqp] at hq
      have := h.top q hq
      split <;> omega
  · show (if s.top ≤ p then p + 1 else s.top) ≤ s.size
    have := h.size
    split <;> omega

end Verif.GC.Table
