/-
The object table: allocation never reuses an entry in use, objects in use keep their entries, the
sweep frees what is not in use, `become:` exchanges two objects.
-/
import Verif.GC.TableOps
import Verif.GC.TableSpec

namespace Verif.GC.Table

/-- The entries in use. -/
def used (a : Names) : Nat → Bool := fun p => (a p).isSome

structure Rel (s : Mem) (a : Names) : Prop where
  inv : Inv s (used a)
  count : FreeOK s (used a)
  mode : Mode s (used a)
  names : ∀ p o, a p = some o → (s.ent p).obj = o

theorem used_bind (a : Names) (p o : Nat) : used (a.bind p o) = insert (used a) p := by
  funext q
  simp only [used, Names.bind, insert]
  split <;> rfl

theorem used_swap {a : Names} {p q : Nat} (hp : (a p).isSome) (hq : (a q).isSome) :
    used (a.swap p q) = used a := by
  funext r
  simp only [used, Names.swap]
  by_cases h1 : r = p
  · rw [if_pos h1, h1, hp, hq]
  · by_cases h2 : r = q
    · rw [if_neg h1, if_pos h2, h2, hp, hq]
    · rw [if_neg h1, if_neg h2]

theorem used_keep (a : Names) (k : Nat → Bool) : used (a.keep k) = fun p => used a p && k p := by
  funext p
  simp only [used, Names.keep]
  cases k p <;> simp

theorem keep_some {a : Names} {k : Nat → Bool} {p o : Nat} (h : a.keep k p = some o) :
    a p = some o := by
  simp only [Names.keep] at h
  cases hk : k p
  · rw [hk] at h; exact absurd h (by simp)
  · rw [hk] at h; simpa using h

theorem names_same {s s' : Mem} {a : Names} (h : ∀ p o, a p = some o → (s.ent p).obj = o)
    (hs : SameObjects (used a) s s') : ∀ p o, a p = some o → (s'.ent p).obj = o := by
  intro p o hp
  rw [(hs.2 p (by simp [used, hp])).1]
  exact h p o hp

theorem fuel_mono_fast (s : Mem) : ∀ fuel k p q, allocFast s fuel p = some q →
    allocFast s (fuel + k) p = some q
  | 0, k, p, q, h => by rw [allocFast] at h; exact absurd h (by simp)
  | fuel + 1, k, p, q, h => by
    rw [Nat.add_right_comm, allocFast]
    rw [allocFast] at h
    split at h
    · rename_i hv; rw [if_pos hv]; exact fuel_mono_fast s fuel k (p + 1) q h
    · rename_i hv; rw [if_neg hv]; exact h

theorem fuel_mono_slow : ∀ fuel k (s : Mem) p r, allocSlow s fuel p = some r →
    allocSlow s (fuel + k) p = some r
  | 0, k, s, p, q, h => by rw [allocSlow] at h; exact absurd h (by simp)
  | fuel + 1, k, s, p, q, h => by
    rw [Nat.add_right_comm, allocSlow]
    rw [allocSlow] at h
    by_cases hv : validGC s p = true
    · rw [if_pos hv] at h ⊢
      simp only at h ⊢
      by_cases he : (unreach s p).hi ≤ p + 1
      · rw [if_pos he] at h ⊢
        cases hf : allocFast (finished (unreach s p)) fuel (p + 1) with
        | none => rw [hf] at h; exact absurd h (by simp)
        | some x => rw [hf] at h; rw [fuel_mono_fast _ fuel k _ x hf]; exact h
      · rw [if_neg he] at h ⊢
        exact fuel_mono_slow fuel k _ _ q h
    · rw [if_neg hv] at h ⊢
      exact h

/-- More fuel does not change the entry found. -/
theorem fuel_mono {s s' : Mem} {fuel o p : Nat} {f : Flags} (k : Nat)
    (h : alloc s fuel o f = some (s', p)) : alloc s (fuel + k) o f = some (s', p) := by
  unfold alloc at h ⊢
  by_cases hr : s.lo < s.hi
  · rw [if_pos hr] at h ⊢
    cases hx : allocSlow s fuel s.lo with
    | none => rw [hx] at h; exact absurd h (by simp)
    | some x => rw [hx] at h; rw [fuel_mono_slow fuel k s _ x hx]; exact h
  · rw [if_neg hr] at h ⊢
    cases hx : allocFast s fuel s.lo with
    | none => rw [hx] at h; exact absurd h (by simp)
    | some x => rw [hx] at h; rw [fuel_mono_fast s fuel k _ x hx]; exact h

theorem resetLow_mono : ∀ fuel k (s : Mem) p r, resetLow s fuel p = some r →
    resetLow s (fuel + k) p = some r
  | 0, k, s, p, q, h => by rw [resetLow] at h; exact absurd h (by simp)
  | fuel + 1, k, s, p, q, h => by
    rw [Nat.add_right_comm, resetLow]
    rw [resetLow] at h
    by_cases hv : validGC s p = true
    · rw [if_pos hv] at h ⊢; exact resetLow_mono fuel k _ _ q h
    · rw [if_neg hv] at h ⊢; exact h

theorem reset_mono {s s' : Mem} {fuel : Nat} (k : Nat) (h : reset s fuel = some s') :
    reset s (fuel + k) = some s' := by
  unfold reset at h ⊢
  cases hx : resetLow s fuel 0 with
  | none => rw [hx] at h; exact absurd h (by simp)
  | some x => rw [hx] at h; rw [resetLow_mono fuel k s _ x hx]; exact h

theorem rel_init (size : Nat) : Rel (initMem size) (fun _ => none) := by
  refine ⟨⟨?_, ?_, ?_, ?_, ?_, ?_, ?_, ?_, ?_⟩, ?_, ?_, ?_⟩
  · intro p hp; exact absurd hp (Nat.not_lt_zero p)
  · intro p hp; exact absurd hp (by simp [used])
  · intro p _ _; rfl
  · intro p _ h2; exact absurd h2 (Nat.not_lt_zero p)
  · intro p _ h2; exact absurd h2 (Nat.not_lt_zero p)
  · intro p hp; exact absurd hp (by simp [initMem])
  · intro p hp; exact absurd hp (by simp [used])
  · exact Nat.zero_le _
  · exact Nat.zero_le _
  · have h : size ≤ outFree (initMem size) (used fun _ => none) := by
      have := count_ge 0 (fun p => !used (fun _ => none) p &&
        !(decide ((initMem size).lo ≤ p) && decide (p < (initMem size).hi)))
        (fun p _ => by simp [used, initMem]) size
      rw [Nat.sub_zero] at this
      exact this
    simp only [FreeOK]
    have hn : (initMem size).numFree = (size : Int) := rfl
    omega
  · intro h; exact absurd h (by simp [initMem])
  · intro p o h; exact absurd h (by simp)

theorem finish_rel {s : Mem} {a : Names} (h : Rel s a) : Rel (finish s) a := by
  obtain ⟨h1, h2, _, h4, h5⟩ := finish_inv h.inv h.count
  exact ⟨h1, h2, fun hx => absurd hx (by rw [h4]; simp), names_same h.names h5⟩

theorem step_rel {s : Mem} {a : Names} (h : Rel s a) (hw : StopsWell s) : Rel (step s).1 a := by
  obtain ⟨h1, h2, h3, _⟩ := step_inv h.inv h.count
  refine ⟨h1, h2, ?_, names_same h.names h3⟩
  rcases hw with hw | hw
  · unfold step at hw ⊢
    by_cases hr : s.lo < s.hi
    · rw [if_pos hr] at hw ⊢
      intro hx
      obtain ⟨_, _, _, h6⟩ := stepLoop_inv s.hi s 0 h.inv h.count
      rw [(h6 hw).2] at hx; exact absurd hx (by simp)
    · rw [if_neg hr]; exact h.mode
  · intro _; exact Or.inl hw

theorem flags_rel {s : Mem} {a : Names} {p : Nat} {f : Flags} (h : Rel s a) (hp : (a p).isSome)
    (hr : f.reachable = (s.ent p).flags.reachable) (hf : f.old = true ∨ f.active = true) :
    Rel (setFlags s p f) a := by
  refine ⟨h.inv.setFlags hp hr hf, h.count, h.mode, ?_⟩
  intro q o hq
  rw [setFlags_ent]
  by_cases hqp : q = p
  · rw [if_pos hqp, ← hqp]; exact h.names q o hq
  · rw [if_neg hqp]; exact h.names q o hq

theorem become_rel {s : Mem} {a : Names} {p q : Nat} (h : Rel s a) (hp : (a p).isSome)
    (hq : (a q).isSome) : Rel (become s p q) (a.swap p q) := by
  have hu : used (a.swap p q) = used a := used_swap hp hq
  refine ⟨hu ▸ h.inv.become hp hq, hu ▸ (frame_become s p q).count h.count,
    hu ▸ (frame_become s p q).mode h.mode, ?_⟩
  intro r o hr
  rw [become_ent]
  simp only [Names.swap] at hr
  by_cases h1 : r = p
  · rw [if_pos h1] at hr ⊢; exact h.names q o hr
  · by_cases h2 : r = q
    · rw [if_neg h1, if_pos h2] at hr ⊢; exact h.names p o hr
    · rw [if_neg h1, if_neg h2] at hr ⊢; exact h.names r o hr

theorem global_rel {s s' : Mem} {a : Names} {fuel : Nat} {keep : Nat → Bool} (h : Rel s a)
    (hg : globalGC s fuel keep = some s') : Rel s' (a.keep keep) := by
  obtain ⟨h1, h2, h3, h4, h5⟩ := finish_inv h.inv h.count
  have hm := global_marked h1 h3 keep
  have hu := used_keep a keep
  unfold globalGC at hg
  simp only at hg
  obtain ⟨s2, hs2, k1, k2, k3, k4⟩ := reset_post hm (fuel := fuel + ((finish s).top + 1))
    (by simp only; omega)
  rw [reset_mono _ hg] at hs2
  cases hs2
  refine ⟨hu ▸ k1, hu ▸ k2, hu ▸ k3, ?_⟩
  intro p o hp
  have hused : (fun p => used a p && keep p) p = true := by
    rw [← hu]; simp [used, hp]
  rw [(k4.2 p hused).1]
  have := names_same h.names h5 p o (keep_some hp)
  simp only
  split <;> exact this

theorem scavenge_rel {s s' : Mem} {a : Names} {fuel : Nat} {keep tenured : Nat → Bool} (h : Rel s a)
    (hg : scavenge s fuel keep tenured = some s') :
    Rel s' (a.keep fun p => (s.ent p).flags.old || keep p) := by
  obtain ⟨h1, h2, h3, h4, h5⟩ := finish_inv h.inv h.count
  have hm := scavenge_marked h1 h3 h4 keep tenured
  have hu : used (a.keep fun p => (s.ent p).flags.old || keep p) =
      fun p => used a p && (((finish s).ent p).flags.old || keep p) := by
    rw [used_keep]
    funext p
    cases hA : used a p
    · rfl
    · rw [(h5.2 p hA).2]
  unfold scavenge at hg
  simp only at hg
  obtain ⟨s2, hs2, k1, k2, k3, k4⟩ := reset_post hm (fuel := fuel + ((finish s).top + 1))
    (by simp only; omega)
  rw [reset_mono _ hg] at hs2
  cases hs2
  refine ⟨hu ▸ k1, hu ▸ k2, hu ▸ k3, ?_⟩
  intro p o hp
  have hused : (fun p => used a p && (((finish s).ent p).flags.old || keep p)) p = true := by
    rw [← hu]; simp [used, hp]
  rw [(k4.2 p hused).1]
  have := names_same h.names h5 p o (keep_some hp)
  simp only
  split <;> exact this

/-- The table stands for what the program means, in every run whose sweep steps stop well. -/
theorem exec_rel {s : Mem} {a : Names} (h : Exec StopsWell s a) : Rel s a := by
  induction h with
  | init size => exact rel_init size
  | @alloc s a s' p fuel o f _ hn hf hr he ih =>
    obtain ⟨s2, p2, h1, h2⟩ := alloc_post (o := o) ih.inv ih.count ih.mode hn hf hr
      (fuel := fuel + (s.top + s.hi + 3)) (by omega)
    rw [fuel_mono _ he] at h1
    cases h1
    have hu := used_bind a p o
    refine ⟨hu ▸ h2.inv, hu ▸ h2.count, hu ▸ h2.mode, ?_⟩
    intro q x hq
    simp only [Names.bind] at hq
    by_cases hqp : q = p
    · rw [if_pos hqp] at hq
      rw [hqp, h2.entry]
      exact Option.some.inj hq
    · rw [if_neg hqp] at hq
      exact names_same ih.names h2.same q x hq
  | step _ hw ih => exact step_rel ih hw
  | finish _ ih => exact finish_rel ih
  | become p q _ hp hq ih => exact become_rel ih hp hq
  | @tenure s a p _ hp ih => exact flags_rel ih hp (reach_tenure _) (Or.inl (old_tenure _))
  | @makeFixed s a p _ hp ih =>
    refine flags_rel ih hp ?_ ?_
    · unfold fixFlags; split <;> rfl
    · unfold fixFlags
      split
      · exact ih.inv.alive p hp
      · exact Or.inl rfl
  | @makeWeak s a p _ hp ih => exact flags_rel ih hp rfl (ih.inv.alive p hp)
  | @nonWeak s a p _ hp ih => exact flags_rel ih hp rfl (ih.inv.alive p hp)
  | global fuel keep _ hg ih => exact global_rel ih hg
  | scavenge fuel keep tenured _ hg ih => exact scavenge_rel ih hg

/-! ### C71: allocation -/

/-- **Objects in use keep their entries** (C71, in part): in every run whose sweep steps stop well,
`IS_OOP_VALID` tells exactly the entries in use, and each of them stands for the object that the
program put there. -/
theorem objects_kept_partial {s : Mem} {a : Names} (h : Exec StopsWell s a) (p : Nat) :
    (valid s p = true ↔ (a p).isSome) ∧ ∀ o, a p = some o → (s.ent p).obj = o := by
  have hr := exec_rel h
  refine ⟨?_, fun o ho => hr.names p o ho⟩
  rw [valid_iff hr.inv p]
  exact Iff.rfl

/-- **Allocation takes a free entry** (C71, in part): in every run whose sweep steps stop well, as
long as the count of free entries is at least two, `alloc_oop` ends, the entry it hands
out is inside the table and was not in use; the entry stands for the new object with the flags given,
no other object is disturbed, and the count goes down by one.
Not covered: runs in which a sweep step stops just at the end; see `alloc_reuses_object`. -/
theorem alloc_fresh_partial {s : Mem} {a : Names} (h : Exec StopsWell s a) (hn : 2 ≤ s.numFree)
    (o : Nat) (f : Flags) (hf : f.old = true ∨ f.active = true) (hr : f.reachable = false) :
    ∃ s' p, (∀ fuel, s.top + s.hi + 2 < fuel → alloc s fuel o f = some (s', p)) ∧ a p = none ∧
      p < s.size ∧ s'.ent p = { obj := o, flags := f } ∧ s'.numFree = s.numFree - 1 ∧
      ∀ q x, a q = some x → (s'.ent q).obj = x ∧ valid s' q = true := by
  have hrel := exec_rel h
  obtain ⟨s', p, h1, h2⟩ := alloc_post (o := o) hrel.inv hrel.count hrel.mode hn hf hr
    (fuel := s.top + s.hi + 3) (by omega)
  have hap : a p = none := by
    have := h2.free
    simpa [used] using this
  refine ⟨s', p, ?_, hap, h2.inTable, h2.entry, h2.room, ?_⟩
  · intro fuel hfu
    have := fuel_mono (fuel - (s.top + s.hi + 3)) h1
    rwa [Nat.add_sub_cancel' (by omega)] at this
  · intro q x hq
    refine ⟨names_same hrel.names h2.same q x hq, ?_⟩
    rw [valid_iff h2.inv q]
    simp only [insert, used, hq]
    split <;> rfl

/-- Objects of a young generation. -/
def young : Flags := { active := true }

/-- Allocate `n` objects in an empty table of 300 entries. -/
def fill : Nat → Mem
  | 0 => initMem 300
  | n + 1 => ((alloc (fill n) 400 n young).getD (fill n, 0)).1

theorem fill_exec (R : Mem → Prop) :
    ∀ n, n ≤ 200 → (∃ a, Exec StopsWell (fill n) a ∧ Exec R (fill n) a) ∧
      (fill n).numFree = 300 - n ∧ (fill n).hi = 0 ∧ (fill n).size = 300
  | 0, _ => ⟨⟨_, Exec.init 300, Exec.init 300⟩, rfl, rfl, rfl⟩
  | n + 1, hn => by
    obtain ⟨⟨a, h1, h2⟩, h3, h4, h5⟩ := fill_exec R n (by omega)
    have hnf : 2 ≤ (fill n).numFree := by omega
    have hrel := exec_rel h1
    have hsz := hrel.inv.size
    obtain ⟨s', p, k1, k2⟩ := alloc_post (o := n) (f := young) hrel.inv hrel.count hrel.mode hnf
      (Or.inr rfl) rfl (fuel := 400) (by omega)
    have hs : fill (n + 1) = s' := by rw [fill, k1]; rfl
    refine ⟨⟨a.bind p n, ?_, ?_⟩, ?_, ?_, ?_⟩
    · rw [hs]; exact Exec.alloc 400 n young h1 hnf (Or.inr rfl) rfl k1
    · rw [hs]; exact Exec.alloc 400 n young h2 hnf (Or.inr rfl) rfl k1
    · rw [hs, k2.room, h3]; omega
    · rw [hs]
      unfold alloc at k1
      rw [if_neg (by omega)] at k1
      cases hx : allocFast (fill n) 400 (fill n).lo with
      | none => rw [hx] at k1; exact absurd k1 (by simp)
      | some x =>
        rw [hx] at k1
        have := congrArg (fun r => r.map (fun r => r.1.hi)) k1
        simp only [Option.map_some, handOut, setEnt] at this
        exact (Option.some.inj this).symm.trans h4
    · rw [hs, k2.same.1]; exact h5

/-- The objects that survive the collection of the counterexample. -/
def survivors : Nat → Bool := fun p => p == 1 || p == 101

/-- 102 objects, of which two survive a global collection. -/
def afterGC : Mem := (globalGC (fill 102) 400 survivors).getD (fill 102)

/-- After one sweep step, which frees exactly one hundred entries. -/
def afterStep : Mem := (step afterGC).1

/-- After one more allocation. -/
def afterAlloc : Mem := ((alloc afterStep 400 500 young).getD (afterStep, 0)).1

theorem afterGC_some : (globalGC (fill 102) 400 survivors).isSome = true := by decide +kernel
theorem afterAlloc_some : (alloc afterStep 400 500 young).map (·.2) = some 0 := by decide +kernel
theorem next_alloc : (alloc afterAlloc 400 501 young).map (·.2) = some 1 := by decide +kernel
theorem afterGC_valid : valid afterGC 1 = true := by decide +kernel
theorem free_enough : (2 : Int) ≤ afterStep.numFree ∧ (2 : Int) ≤ afterAlloc.numFree := by
  decide +kernel

/-- **Allocation hands out the entry of an object in use** (the full C71 is false).  When a call of
`_gst_incremental_gc_step` frees its hundredth entry exactly at the end of the region to be
swept, it answers that there is more to do without calling `_gst_finished_incremental_gc`; nothing
does later, because `incremental_gc_running` now answers false.  From then on `IS_OOP_VALID_GC` looks
at a mark bit that the sweep has cleared, and the second allocation takes the entry of an object that
is in use. -/
theorem alloc_reuses_object :
    ∃ s a, Exec (fun _ => True) s a ∧ 2 ≤ s.numFree ∧
      ∃ s' p, alloc s 400 501 young = some (s', p) ∧ (a p).isSome := by
  obtain ⟨⟨a, h1, h2⟩, _⟩ := fill_exec (fun _ => True) 102 (by omega)
  have hg : globalGC (fill 102) 400 survivors = some afterGC := by
    have := afterGC_some
    unfold afterGC
    cases hx : globalGC (fill 102) 400 survivors with
    | none => rw [hx] at this; exact absurd this (by simp)
    | some s => rfl
  have k1 := Exec.global 400 survivors h1 hg
  have k2 := Exec.global 400 survivors h2 hg
  have ha : ((a.keep survivors) 1).isSome := by
    have := (objects_kept_partial k1 1).1
    exact this.mp afterGC_valid
  have k3 : Exec (fun _ => True) afterStep (a.keep survivors) := Exec.step k2 trivial
  have hal : alloc afterStep 400 500 young = some (afterAlloc, 0) := by
    have := afterAlloc_some
    unfold afterAlloc
    cases hx : alloc afterStep 400 500 young with
    | none => rw [hx] at this; exact absurd this (by simp)
    | some r =>
      obtain ⟨r1, r2⟩ := r
      rw [hx] at this
      simp only [Option.map_some, Option.some.injEq] at this
      subst this; rfl
  have k4 := Exec.alloc 400 500 young k3 free_enough.1 (Or.inr rfl) rfl hal
  refine ⟨_, _, k4, free_enough.2, ?_⟩
  have := next_alloc
  cases hx : alloc afterAlloc 400 501 young with
  | none => rw [hx] at this; exact absurd this (by simp)
  | some r =>
    obtain ⟨r1, r2⟩ := r
    rw [hx] at this
    simp only [Option.map_some, Option.some.injEq] at this
    subst this
    refine ⟨_, _, rfl, ?_⟩
    simp only [Names.bind]
    rw [if_neg (by decide)]
    exact ha

/-- The theorems apply to the state after the collection. -/
example : ∃ a, Exec StopsWell afterGC a ∧ (a 1).isSome ∧ a 0 = none ∧ 2 ≤ afterGC.numFree := by
  obtain ⟨⟨a, h1, _⟩, _⟩ := fill_exec (fun _ => True) 102 (by omega)
  have hg : globalGC (fill 102) 400 survivors = some afterGC := by
    have := afterGC_some
    unfold afterGC
    cases hx : globalGC (fill 102) 400 survivors with
    | none => rw [hx] at this; exact absurd this (by simp)
    | some s => rfl
  have k1 := Exec.global 400 survivors h1 hg
  refine ⟨_, k1, (objects_kept_partial k1 1).1.mp afterGC_valid, ?_, by decide +kernel⟩
  simp [Names.keep, survivors]

/-! ### C72: the sweep -/

/-- **The sweep frees what is not in use** (C72, in part): after `_gst_finish_incremental_gc`, in every
run whose sweep steps stop well, an entry that is not in use is free, with no flags left; no entry
carries the mark bit; the entries in use keep their objects and are not free.
Not covered: runs in which a sweep step stops just at the end; see `alloc_reuses_object`. -/
theorem finish_frees_partial {s : Mem} {a : Names} (h : Exec StopsWell s a) (p : Nat) :
    (a p = none → ((finish s).ent p).flags = {}) ∧ ((finish s).ent p).flags.reachable = false ∧
      ∀ o, a p = some o → ((finish s).ent p).obj = o ∧ ((finish s).ent p).flags ≠ {} := by
  have hr := exec_rel h
  obtain ⟨h1, h2, h3, _, h5⟩ := finish_inv hr.inv hr.count
  have hsw := swept h1 h3 p
  refine ⟨fun hp => hsw.1.mpr (by simp [used, hp]), hsw.2, fun o ho => ⟨?_, ?_⟩⟩
  · exact names_same hr.names h5 p o ho
  · rw [ne_eq, hsw.1]; simp [used, ho]

/-- **A sweep step that reports the end has freed everything** (C72, in part). -/
theorem step_frees_partial {s : Mem} {a : Names} (h : Exec StopsWell s a) (hd : (step s).2 = true)
    (p : Nat) :
    (a p = none → ((step s).1.ent p).flags = {}) ∧ ((step s).1.ent p).flags.reachable = false ∧
      ∀ o, a p = some o → ((step s).1.ent p).obj = o ∧ ((step s).1.ent p).flags ≠ {} := by
  have hr := exec_rel h
  obtain ⟨h1, h2, h3, h4⟩ := step_inv hr.inv hr.count
  have hsw := swept h1 (h4 hd) p
  refine ⟨fun hp => hsw.1.mpr (by simp [used, hp]), hsw.2, fun o ho => ⟨?_, ?_⟩⟩
  · exact names_same hr.names h3 p o ho
  · rw [ne_eq, hsw.1]; simp [used, ho]

theorem stepLoop_hi : ∀ (q : Nat) (s : Mem) (i : Nat), (stepLoop s i q).1.hi ≤ q ∧
    (s.lo < q → (stepLoop s i q).1.hi < q)
  | 0, s, i => ⟨Nat.le_refl _, fun h => absurd h (Nat.not_lt_zero _)⟩
  | p + 1, s, i => by
    rw [stepLoop]
    by_cases hlo : s.lo < p + 1
    · rw [if_pos hlo]
      have key : (if validGC s p = true then stepLoop (unreach s p) i p
          else if i + 1 = sweepStep then ({ sweepCount s p with hi := p }, false)
            else stepLoop (sweepCount s p) (i + 1) p : Mem × Bool).1.hi ≤ p := by
        split
        · exact (stepLoop_hi p _ _).1
        · split
          · exact Nat.le_refl _
          · exact (stepLoop_hi p _ _).1
      exact ⟨Nat.le_succ_of_le key, fun _ => Nat.lt_succ_of_le key⟩
    · rw [if_neg hlo]
      exact ⟨Nat.le_refl _, fun h => absurd h hlo⟩

/-- `n` calls of `_gst_incremental_gc_step`. -/
def steps : Nat → Mem → Mem
  | 0, s => s
  | n + 1, s => steps n (step s).1

theorem stepLoop_lo : ∀ (q : Nat) (s : Mem) (i : Nat), (stepLoop s i q).1.lo = s.lo
  | 0, s, i => rfl
  | p + 1, s, i => by
    rw [stepLoop]
    split
    · split
      · exact stepLoop_lo p _ _
      · simp only
        split
        · rfl
        · exact stepLoop_lo p _ _
    · rfl

theorem step_lo (s : Mem) : (step s).1.lo = s.lo := by
  unfold step; split
  · exact stepLoop_lo _ _ _
  · rfl

/-- **The sweep ends** (C72): from any state whatever, after as many steps as there are entries left
to sweep nothing is left to sweep. -/
theorem sweep_ends (s : Mem) : ∀ n, s.hi ≤ n → (steps n s).hi ≤ s.lo := by
  intro n
  induction n generalizing s with
  | zero => intro h; exact Nat.le_trans h (Nat.zero_le _)
  | succ n ih =>
    intro h
    rw [steps, ← step_lo s]
    by_cases hr : s.lo < s.hi
    · have h1 := (stepLoop_hi s.hi s 0).2 hr
      have h2 : (step s).1 = (stepLoop s 0 s.hi).1 := by unfold step; rw [if_pos hr]
      exact ih (step s).1 (by rw [h2]; omega)
    · have h2 : (step s).1 = s := by unfold step; rw [if_neg hr]
      have hle : ∀ n, (steps n s).hi ≤ s.lo := by
        intro n
        induction n with
        | zero => exact Nat.le_of_not_lt hr
        | succ n ih => rw [steps, h2]; exact ih
      rw [h2]
      exact hle n

/-- **Every collection ends** (C72, in part): the loop of `reset_incremental_gc` that has no bound
finds a free entry, and afterwards exactly the entries kept are in use. -/
theorem collection_ends_partial {s : Mem} {a : Names} (h : Exec StopsWell s a)
    (keep tenured : Nat → Bool) {fuel : Nat} (hfu : (finish s).top < fuel) :
    (∃ s', globalGC s fuel keep = some s' ∧
      ∀ p, valid s' p = true ↔ ((a p).isSome ∧ keep p = true)) ∧
    ∃ s', scavenge s fuel keep tenured = some s' ∧
      ∀ p, valid s' p = true ↔ ((a p).isSome ∧ ((s.ent p).flags.old = true ∨ keep p = true)) := by
  have hr := exec_rel h
  obtain ⟨h1, h2, h3, h4, h5⟩ := finish_inv hr.inv hr.count
  constructor
  · obtain ⟨s', hs, _⟩ := reset_post (global_marked h1 h3 keep) (fuel := fuel) hfu
    refine ⟨s', hs, fun p => ?_⟩
    rw [valid_iff (global_rel hr hs).inv p, used_keep]
    simp [used]
  · obtain ⟨s', hs, _⟩ := reset_post (scavenge_marked h1 h3 h4 keep tenured) (fuel := fuel) hfu
    refine ⟨s', hs, fun p => ?_⟩
    rw [valid_iff (scavenge_rel hr hs).inv p, used_keep]
    simp [used]

/-! ### C73: `become:` -/

/-- **`become:` exchanges two objects** (C73, in part): afterwards the entry of each stands for the
object of the other, with its being read-only, a context, an ephemeron, fixed or loaded; both are in
the old generation if either was; the mark bits stay with the entries; no other entry is touched.
Not covered: whether an object is weak; see `become_loses_weakness`. -/
theorem become_exchanges_partial (s : Mem) (p q : Nat) :
    (∀ x y, (x = p ∧ y = q) ∨ (x = q ∧ y = p) →
      ((become s p q).ent x).obj = (s.ent y).obj ∧
      ((become s p q).ent x).flags.readOnly = (s.ent y).flags.readOnly ∧
      ((become s p q).ent x).flags.context = (s.ent y).flags.context ∧
      ((become s p q).ent x).flags.ephemeron = (s.ent y).flags.ephemeron ∧
      ((become s p q).ent x).flags.fixed = (s.ent y).flags.fixed ∧
      ((become s p q).ent x).flags.loaded = (s.ent y).flags.loaded ∧
      ((become s p q).ent x).flags.old = ((s.ent p).flags.old || (s.ent q).flags.old) ∧
      ((become s p q).ent x).flags.reachable = (s.ent x).flags.reachable) ∧
    ∀ r, r ≠ p → r ≠ q → (become s p q).ent r = s.ent r := by
  have key : ∀ x y, (x = p ∧ y = q) ∨ (x = q ∧ y = p) → (become s p q).ent x = swapped s x y := by
    rintro x y (⟨rfl, rfl⟩ | ⟨rfl, rfl⟩)
    · rw [become_ent, if_pos rfl]
    · rw [become_ent]
      by_cases h : x = y
      · subst h; rw [if_pos rfl]
      · rw [if_neg h, if_pos rfl]
  constructor
  · intro x y h
    have hold : ((s.ent p).flags.old || (s.ent q).flags.old) =
        ((s.ent x).flags.old || (s.ent y).flags.old) := by
      rcases h with ⟨rfl, rfl⟩ | ⟨rfl, rfl⟩
      · rfl
      · exact Bool.or_comm _ _
    rw [key x y h, hold]
    unfold swapped tenureFlags dull
    cases hx : (s.ent x).flags.old <;> cases hy : (s.ent y).flags.old <;> simp [hy]
  · intro r h1 h2
    rw [become_ent, if_neg h1, if_neg h2]

/-- **In a run, `become:` exchanges what two names mean** and changes nothing else (C73, in part). -/
theorem become_names_partial {s : Mem} {a : Names} (h : Exec StopsWell s a) {p q x y : Nat}
    (hp : a p = some x) (hq : a q = some y) :
    ((become s p q).ent p).obj = y ∧ ((become s p q).ent q).obj = x ∧
      ∀ r z, r ≠ p → r ≠ q → a r = some z → ((become s p q).ent r).obj = z := by
  have hr := exec_rel h
  obtain ⟨h1, h2⟩ := become_exchanges_partial s p q
  refine ⟨?_, ?_, ?_⟩
  · rw [(h1 p q (Or.inl ⟨rfl, rfl⟩)).1]; exact hr.names q y hq
  · rw [(h1 q p (Or.inr ⟨rfl, rfl⟩)).1]; exact hr.names p x hp
  · intro r z h3 h4 h5
    rw [h2 r h3 h4]; exact hr.names r z h5

/-- **A weak object is no longer weak after `become:`** (the full C73 is false):
`_gst_swap_objects` calls `_gst_make_oop_non_weak`, which clears `F_WEAK`, and then looks at `F_WEAK` to
decide which object to make weak again.  This holds in every state, whichever of the
two was weak. -/
theorem become_loses_weakness (s : Mem) (p q : Nat) :
    ((become s p q).ent p).flags.weak = false ∧ ((become s p q).ent q).flags.weak = false := by
  have key : ∀ x y, (swapped s x y).flags.weak = false := by
    intro x y
    unfold swapped
    simp only
    split
    · exact weak_tenure _
    · rfl
  rw [become_ent, become_ent]
  refine ⟨by rw [if_pos rfl]; exact key p q, ?_⟩
  by_cases h : q = p
  · rw [if_pos h]; exact key p q
  · rw [if_neg h, if_pos rfl]; exact key q p

/-- A weak read-only object at entry 3 and a young ephemeron at entry 5, exchanged. -/
example :
    let s : Mem := { initMem 10 with ent := fun p =>
      if p = 3 then { obj := 30, flags := { old := true, weak := true, readOnly := true } }
      else if p = 5 then { obj := 50, flags := { active := true, ephemeron := true } } else {} }
    (become s 3 5).ent 5 = { obj := 30, flags := { old := true, readOnly := true } } ∧
      (become s 3 5).ent 3 = { obj := 50, flags := { old := true, ephemeron := true } } := by
  decide

end Verif.GC.Table
