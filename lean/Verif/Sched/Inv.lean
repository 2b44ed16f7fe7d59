import Verif.Sched.Refine2

/-!
# Facts about the list specification of the scheduler
-/

namespace Verif.Sched

variable {n : Nat} {a : Abs n}

/-- Some pointer state is represented. -/
def Good (a : Abs n) : Prop := ∃ s : VM n, Rep s a

theorem Good.one (g : Good a) {l m : Lid} {p : Fin n} (h1 : p ∈ a.q l) (h2 : p ∈ a.q m) : l = m :=
  let ⟨_, r⟩ := g; r.one h1 h2

theorem Good.nodup (g : Good a) (l : Lid) : (a.q l).Nodup := let ⟨_, r⟩ := g; r.nodup l

theorem Good.length_le (g : Good a) (l : Lid) : (a.q l).length ≤ n := let ⟨_, r⟩ := g; r.length_le l

theorem Good.pop (g : Good a) {l : Lid} {p : Fin n} {ps : List (Fin n)} (hq : a.q l = p :: ps) :
    Good (a.set l ps) :=
  let ⟨_, r⟩ := g
  let ⟨s1, _, r1, _⟩ := r.removeFirst hq
  ⟨s1, r1⟩

theorem Good.addLast (g : Good a) (l : Lid) (p : Fin n) : Good (a.addLast l p) :=
  let ⟨_, r⟩ := g
  let ⟨s1, _, r1⟩ := r.addLast l p
  ⟨s1, r1⟩

theorem Good.remove (g : Good a) (p : Fin n) : Good (a.remove p) :=
  let ⟨_, r⟩ := g
  let ⟨s1, _, r1, _⟩ := r.remove p
  ⟨s1, r1⟩

theorem Good.resume (g : Good a) (p : Fin n) (ap : Bool) : Good (a.resume p ap).2 :=
  let ⟨_, r⟩ := g
  let ⟨s1, _, r1⟩ := r.resume p ap
  ⟨s1, r1⟩

theorem Good.signal (g : Good a) (i : Nat) (incr : Bool) : Good (a.signal i incr).2 :=
  let ⟨_, r⟩ := g
  let ⟨s1, _, r1⟩ := r.signal i incr
  ⟨s1, r1⟩

theorem Good.step (g : Good a) (op : Op n) : Good (a.step op) :=
  let ⟨_, r⟩ := g
  let ⟨s1, _, r1⟩ := r.step op
  ⟨s1, r1⟩

theorem Good.run (g : Good a) (ops : List (Op n)) : Good (a.run ops) :=
  let ⟨_, r⟩ := g
  let ⟨s1, _, r1⟩ := r.run ops
  ⟨s1, r1⟩

/-! ### `highest` -/

/-- What `highest` answers and what it leaves: the first process other than the scheduled
one on the highest ready list that has one. -/
inductive Picked (a : Abs n) (k : Nat) : Option (Fin n) × Abs n → Prop
  | none (h : ∀ j, 1 ≤ j → j ≤ k → ∀ x ∈ a.q (.ready j), a.scheduled = some x) : Picked a k (none, a)
  | some (j : Nat) (pre : List (Fin n)) (p : Fin n) (ps : List (Fin n)) (h1 : 1 ≤ j) (h2 : j ≤ k)
      (hq : a.q (.ready j) = pre ++ p :: ps) (hpre : ∀ x ∈ pre, a.scheduled = some x)
      (hp : a.scheduled ≠ some p)
      (hj : ∀ j', j < j' → j' ≤ k → ∀ x ∈ a.q (.ready j'), a.scheduled = some x) :
      Picked a k (some p, a.set (.ready j) (ps ++ pre))

theorem Picked.up {k : Nat} {r : Option (Fin n) × Abs n} (h : Picked a k r)
    (hk : ∀ x ∈ a.q (.ready (k + 1)), a.scheduled = Option.some x) : Picked a (k + 1) r := by
  cases h with
  | none h =>
    refine .none fun j h1 h2 => ?_
    by_cases e : j = k + 1
    · subst e; exact hk
    · exact h j h1 (by omega)
  | some j pre p ps h1 h2 hq hpre hp hj =>
    refine .some j pre p ps h1 (by omega) hq hpre hp fun j' h3 h4 => ?_
    by_cases e : j' = k + 1
    · subst e; exact hk
    · exact hj j' h3 (by omega)

theorem highestLoop_picked (hn : ∀ l, (a.q l).Nodup) (k : Nat) : Picked a k (a.highestLoop k) := by
  induction k with
  | zero => exact .none fun j h1 h2 => by omega
  | succ k ih =>
    unfold Abs.highestLoop
    cases hq : a.q (.ready (k + 1)) with
    | nil => exact ih.up (by rw [hq]; simp)
    | cons p ps =>
      simp only
      by_cases hs : some p = a.scheduled
      · rw [if_pos hs]
        cases ps with
        | nil => exact ih.up (by rw [hq, ← hs]; simp)
        | cons r rs =>
          have hnd := hn (.ready (k + 1))
          rw [hq] at hnd
          refine .some (k + 1) [p] r rs (by omega) (by omega) hq (by simp [← hs]) ?_
            (fun j' h1 h2 => by omega)
          rw [← hs]
          intro e
          have := Option.some.inj e
          subst this
          simp at hnd
      · rw [if_neg hs]
        have := Picked.some (a := a) (k := k + 1) (k + 1) [] p ps (by omega) (by omega) hq (by simp)
          (fun e => hs e.symm) (fun j' h1 h2 => by omega)
        rwa [List.append_nil] at this

theorem Good.highest (g : Good a) : Picked a numPriorities a.highest :=
  highestLoop_picked g.nodup _

/-- The ready lists keep their members, apart from the process picked. -/
theorem Picked.mem {k : Nat} {r : Option (Fin n) × Abs n} (h : Picked a k r)
    (l : Lid) (x : Fin n) (hx : r.1 ≠ Option.some x) : x ∈ r.2.q l ↔ x ∈ a.q l := by
  cases h with
  | none h => exact Iff.rfl
  | some j pre p ps h1 h2 hq hpre hp hj =>
    simp only [Abs.set]
    split
    · rename_i e
      subst e
      rw [hq]
      have : x ≠ p := fun e => hx (by rw [e])
      simp [this]
      tauto
    · exact Iff.rfl

theorem Picked.sem {k : Nat} {r : Option (Fin n) × Abs n} (h : Picked a k r) (i : Nat) :
    r.2.q (.sem i) = a.q (.sem i) := by
  cases h with
  | none h => rfl
  | some j pre p ps h1 h2 hq hpre hp hj => simp [Abs.set]

theorem Picked.rest {k : Nat} {r : Option (Fin n) × Abs n} (h : Picked a k r) :
    r.2.scheduled = a.scheduled ∧ r.2.switchTo = a.switchTo ∧ r.2.signals = a.signals ∧
      r.2.idle = a.idle ∧ r.2.prio = a.prio ∧ r.2.live = a.live := by
  cases h <;> exact ⟨rfl, rfl, rfl, rfl, rfl, rfl⟩

theorem Picked.ready {k : Nat} {r : Option (Fin n) × Abs n} (h : Picked a k r) {p : Fin n}
    (hp : r.1 = Option.some p) : ∃ j, p ∈ a.q (.ready j) := by
  cases h with
  | none h => cases hp
  | some j pre p' ps h1 h2 hq hpre hp' hj =>
    cases hp
    exact ⟨j, by rw [hq]; simp⟩

/-! ### The processes that an operation may move -/

/-- The processes outside `T` stay where they are, in the same order. -/
def Keep (T : Fin n → Bool) (a b : Abs n) : Prop :=
  ∀ l, (b.q l).filter (fun x => !T x) = (a.q l).filter (fun x => !T x)

section Keep

variable {T : Fin n → Bool} {b c : Abs n}

theorem Keep.refl (a : Abs n) : Keep T a a := fun _ => rfl

theorem Keep.trans (h1 : Keep T a b) (h2 : Keep T b c) : Keep T a c := fun l => (h2 l).trans (h1 l)

theorem Keep.of_q (h : ∀ l, b.q l = a.q l) : Keep T a b := fun l => by rw [h l]

theorem keep_remove (p : Fin n) (hp : T p = true) : Keep T a (a.remove p) := by
  intro l
  simp only [Abs.remove, List.filter_filter]
  refine List.filter_congr fun x _ => ?_
  by_cases e : x = p
  · subst e; simp [hp]
  · simp [e]

theorem keep_addFirst (l : Lid) (p : Fin n) (hp : T p = true) : Keep T a (a.addFirst l p) := by
  refine (keep_remove p hp).trans fun m => ?_
  simp only [Abs.addFirst, Abs.set]
  split
  · rename_i e; subst e
    rw [List.filter_cons_of_neg (by simp [hp])]
  · rfl

theorem keep_addLast (l : Lid) (p : Fin n) (hp : T p = true) : Keep T a (a.addLast l p) := by
  refine (keep_remove p hp).trans fun m => ?_
  simp only [Abs.addLast, Abs.set]
  split
  · rename_i e; subst e
    rw [List.filter_append, List.filter_cons_of_neg (by simp [hp])]
    simp
  · rfl

theorem keep_pop {l : Lid} {p : Fin n} {ps : List (Fin n)} (hq : a.q l = p :: ps)
    (hp : T p = true) : Keep T a (a.set l ps) := by
  intro m
  simp only [Abs.set]
  split
  · rename_i e; subst e
    rw [hq, List.filter_cons_of_neg (by simp [hp])]
  · rfl

theorem keep_activate (p : Option (Fin n)) (hp : ∀ x, p = some x → T x = true) :
    Keep T a (a.activate p) := by
  cases p with
  | none => exact Keep.refl a
  | some p =>
    unfold Abs.activate
    simp only
    split
    · exact Keep.of_q fun _ => rfl
    · exact (keep_addFirst (.ready (a.prio p)) p (hp p rfl)).trans (Keep.of_q fun _ => rfl)

theorem keep_picked {k : Nat} {r : Option (Fin n) × Abs n} (h : Picked a k r)
    (hs : ∀ x, a.scheduled = some x → T x = true) (hp : ∀ x, r.1 = some x → T x = true) :
    Keep T a r.2 := by
  cases h with
  | none h => exact Keep.refl a
  | some j pre p ps h1 h2 hq hpre hp' hj =>
    intro m
    simp only [Abs.set]
    split
    · rename_i e; subst e
      have hpre' : pre.filter (fun x => !T x) = [] := by
        rw [List.filter_eq_nil_iff]
        intro x hx
        simp [hs x (hpre x hx)]
      rw [hq, List.filter_append, List.filter_append, hpre',
        List.filter_cons_of_neg (by simp [hp p rfl])]
      simp
    · rfl

theorem activate_active (a : Abs n) (p : Fin n) : (a.activate (some p)).active = some p := rfl

theorem nextScheduled_q (a : Abs n) : a.nextScheduled.1 = a.highest.1 ∧
    a.nextScheduled.2.q = a.highest.2.q ∧ a.nextScheduled.2.switchTo = a.highest.2.switchTo ∧
    a.nextScheduled.2.signals = a.highest.2.signals ∧
    a.nextScheduled.2.idle = a.highest.2.idle ∧
    a.nextScheduled.2.prio = a.highest.2.prio ∧
    (a.nextScheduled.2.scheduled = a.highest.2.scheduled ∨ a.nextScheduled.2.scheduled = none) := by
  unfold Abs.nextScheduled
  generalize a.highest = h
  obtain ⟨h1, h2⟩ := h
  cases h1 with
  | some p => exact ⟨rfl, rfl, rfl, rfl, rfl, rfl, .inl rfl⟩
  | none =>
    simp only
    cases hsch : h2.scheduled with
    | none => exact ⟨rfl, rfl, rfl, rfl, rfl, rfl, .inr rfl⟩
    | some x =>
      simp only
      split
      · exact ⟨rfl, rfl, rfl, rfl, rfl, rfl, .inl (by first | rfl | exact hsch)⟩
      · exact ⟨rfl, rfl, rfl, rfl, rfl, rfl, .inr rfl⟩

theorem keep_yieldMacro (g : Good a) (hs : ∀ x, a.scheduled = some x → T x = true)
    (ha : ∀ x, a.yieldMacro.2.active = some x → T x = true) : Keep T a a.yieldMacro.2 := by
  obtain ⟨e1, e2, -⟩ := nextScheduled_q a
  have hx : ∀ x, a.nextScheduled.1 = some x → T x = true := by
    intro x hx
    apply ha
    unfold Abs.yieldMacro
    rw [hx]
    exact activate_active _ _
  refine ((keep_picked g.highest hs (by rw [← e1]; exact hx)).trans
    (Keep.of_q (b := a.nextScheduled.2) fun l => by rw [e2])).trans ?_
  exact keep_activate _ hx

theorem keep_suspend (g : Good a) (p : Fin n) (hp : T p = true)
    (ha : ∀ x, (a.suspend p).active = some x → T x = true) : Keep T a (a.suspend p) := by
  unfold Abs.suspend at ha ⊢
  split
  · rename_i h
    rw [if_pos h] at ha
    refine (keep_remove p hp).trans (keep_yieldMacro (g.remove p) ?_ ha)
    intro x hx
    have : a.scheduled = some x := hx
    rw [h] at this
    cases this
    exact hp
  · exact keep_remove p hp

theorem keep_activeYield (g : Good a) (r : Fin n) (hr : T r = true)
    (hs : ∀ x, a.scheduled = some x → T x = true)
    (ha : ∀ x, (a.activeYield r).active = some x → T x = true) : Keep T a (a.activeYield r) := by
  unfold Abs.activeYield at ha ⊢
  simp only at ha ⊢
  have hact : ∀ x, (match a.highest.1 with | none => some r | some p => some p) = some x →
      T x = true := by
    intro x hx
    apply ha
    cases hh : a.highest.1 with
    | none => rw [hh] at hx; exact (activate_active _ _).trans hx
    | some y => rw [hh] at hx; exact (activate_active _ _).trans hx
  refine Keep.trans (keep_picked g.highest hs fun x hx => hact x (by rw [hx])) ?_
  refine Keep.trans ?_ (keep_activate _ hact)
  split
  · exact keep_addLast _ _ hr
  · exact Keep.refl _

theorem keep_resume (p : Fin n) (ap : Bool) (hp : T p = true)
    (ha : ∀ x, a.active = some x → T x = true) : Keep T a (a.resume p ap).2 := by
  have h0 : Keep T a (if a.active = some p then a.remove p else a) := by
    split
    · exact keep_remove p hp
    · exact Keep.refl a
  unfold Abs.resume
  simp only
  generalize (if a.active = some p then a.remove p else a) = a' at *
  split
  · exact h0
  · cases hx : a.active with
    | none => exact h0.trans (keep_activate (some p) (by rintro _ ⟨⟩; exact hp))
    | some x =>
      simp only
      generalize (if x = p then ap else ap || decide (a.prio p ≥ a.prio x)) = cc
      cases cc with
      | true =>
        simp only [if_true]
        refine h0.trans (Keep.trans ?_ (keep_activate (some p) (by rintro _ ⟨⟩; exact hp)))
        split
        · exact keep_addLast _ _ (ha x hx)
        · exact Keep.refl _
      | false =>
        simp only [Bool.false_eq_true, if_false]
        exact h0.trans (keep_addFirst _ _ hp)

end Keep

/-! ### What happens to the waiting processes -/

/-- The queues of the semaphores only lose processes; the counts stay. -/
structure SemSub (a b : Abs n) : Prop where
  sub : ∀ i, (b.q (.sem i)).Sublist (a.q (.sem i))
  signals : b.signals = a.signals
  idle : b.idle = a.idle

section SemSub

variable {b c : Abs n}

theorem SemSub.refl (a : Abs n) : SemSub a a := ⟨fun _ => .refl _, rfl, rfl⟩

theorem SemSub.trans (h1 : SemSub a b) (h2 : SemSub b c) : SemSub a c :=
  ⟨fun i => (h2.sub i).trans (h1.sub i), h2.signals.trans h1.signals, h2.idle.trans h1.idle⟩

theorem semsub_remove (p : Fin n) : SemSub a (a.remove p) :=
  ⟨fun _ => List.filter_sublist, rfl, rfl⟩

theorem semsub_addFirst (k : Nat) (p : Fin n) : SemSub a (a.addFirst (.ready k) p) :=
  ⟨fun i => by simp only [Abs.addFirst, Abs.set, reduceCtorEq, if_false]; exact List.filter_sublist,
    rfl, rfl⟩

theorem semsub_sleep (p : Fin n) : SemSub a (a.sleep p) :=
  ⟨fun i => by
    simp only [Abs.sleep, Abs.addLast, Abs.set, reduceCtorEq, if_false]; exact List.filter_sublist,
    rfl, rfl⟩

theorem semsub_activate (p : Option (Fin n)) : SemSub a (a.activate p) := by
  cases p with
  | none => exact .refl a
  | some p =>
    unfold Abs.activate
    simp only
    split
    · exact ⟨fun _ => .refl _, rfl, rfl⟩
    · exact (semsub_addFirst (a.prio p) p).trans ⟨fun _ => .refl _, rfl, rfl⟩

theorem semsub_picked {k : Nat} {r : Option (Fin n) × Abs n} (h : Picked a k r) : SemSub a r.2 :=
  ⟨fun i => by rw [h.sem], h.rest.2.2.1, h.rest.2.2.2.1⟩

theorem semsub_yieldMacro (g : Good a) : SemSub a a.yieldMacro.2 := by
  obtain ⟨e1, e2, -, e4, e5, -⟩ := nextScheduled_q a
  refine (semsub_picked g.highest).trans (SemSub.trans (b := a.nextScheduled.2) ?_ ?_)
  · exact ⟨fun i => by rw [e2], e4, e5⟩
  · exact semsub_activate _

theorem semsub_suspend (g : Good a) (p : Fin n) : SemSub a (a.suspend p) := by
  unfold Abs.suspend
  split
  · exact (semsub_remove p).trans (semsub_yieldMacro (g.remove p))
  · exact semsub_remove p

theorem semsub_activeYield (g : Good a) (r : Fin n) : SemSub a (a.activeYield r) := by
  unfold Abs.activeYield
  simp only
  refine (semsub_picked g.highest).trans (SemSub.trans ?_ (semsub_activate _))
  split
  · exact semsub_sleep r
  · exact .refl _

theorem semsub_resume (p : Fin n) (ap : Bool) : SemSub a (a.resume p ap).2 := by
  have h0 : SemSub a (if a.active = some p then a.remove p else a) := by
    split
    · exact semsub_remove p
    · exact .refl a
  unfold Abs.resume
  simp only
  generalize (if a.active = some p then a.remove p else a) = a' at *
  split
  · exact h0
  · cases hx : a.active with
    | none => exact h0.trans (semsub_activate (some p))
    | some x =>
      simp only
      generalize (if x = p then ap else ap || decide (a.prio p ≥ a.prio x)) = cc
      cases cc with
      | true =>
        simp only [if_true]
        refine h0.trans (SemSub.trans ?_ (semsub_activate (some p)))
        split
        · exact semsub_sleep x
        · exact .refl _
      | false =>
        simp only [Bool.false_eq_true, if_false]
        exact h0.trans (semsub_addFirst _ p)

theorem semsub_pop {i : Nat} {p : Fin n} {ps : List (Fin n)} (hq : a.q (.sem i) = p :: ps) :
    SemSub a (a.set (.sem i) ps) := by
  refine ⟨fun j => ?_, rfl, rfl⟩
  simp only [Abs.set]
  split
  · rename_i e; cases e; rw [hq]; exact List.sublist_cons_self _ _
  · exact .refl _

theorem semsub_notifyLoop1 (i fuel : Nat) : ∀ a : Abs n, SemSub a (a.signalLoop i false fuel).2 := by
  induction fuel with
  | zero => intro a; exact .refl a
  | succ fuel ih =>
    intro a
    unfold Abs.signalLoop
    cases hq : a.q (.sem i) with
    | nil => exact .refl a
    | cons p ps =>
      simp only
      have h := (semsub_pop hq).trans (semsub_resume p false)
      split
      · exact h
      · exact h.trans (ih _)

theorem semsub_notify (i : Nat) : SemSub a (a.signal i false).2 := semsub_notifyLoop1 i _ a

theorem semsub_notifyAll (i : Nat) (fuel : Nat) : ∀ a : Abs n, SemSub a (a.notifyLoop i fuel) := by
  induction fuel with
  | zero => intro a; exact .refl a
  | succ fuel ih =>
    intro a
    unfold Abs.notifyLoop
    cases (a.signal i false).1 with
    | none => exact semsub_notify i
    | some p => exact (semsub_notify i).trans (ih _)

/-- Picking a process to run leaves the queues of the semaphores alone. -/
theorem yieldMacro_sem (g : Good a) (i : Nat) : a.yieldMacro.2.q (.sem i) = a.q (.sem i) := by
  obtain ⟨e1, e2, -⟩ := nextScheduled_q a
  have h1 : a.nextScheduled.2.q (.sem i) = a.q (.sem i) := by rw [e2, g.highest.sem]
  unfold Abs.yieldMacro
  simp only
  cases hp : a.nextScheduled.1 with
  | none => exact h1
  | some p =>
    unfold Abs.activate
    simp only
    split
    · exact h1
    · simp only [Abs.addFirst, Abs.set, reduceCtorEq, if_false, Abs.remove]
      rw [h1]
      apply filter_ne_of_not_mem
      intro hm
      obtain ⟨j, hj⟩ := g.highest.ready (e1 ▸ hp)
      exact absurd (g.one hm hj) (by simp)

end SemSub

/-! ### The running process does not wait -/

/-- The process that runs, or is about to, waits on nothing. -/
def Running (a : Abs n) : Prop := ∀ x, a.active = some x → ∀ i, x ∉ a.q (.sem i)

theorem running_activate (h : Running a) (p : Option (Fin n)) : Running (a.activate p) := by
  cases p with
  | none => exact h
  | some p =>
    intro x hx i
    rw [activate_active] at hx
    cases hx
    unfold Abs.activate
    simp only
    split
    · rename_i h1; exact h p h1 i
    · simp [Abs.addFirst, Abs.set, Abs.remove]

/-- Even if the process that ran waits. -/
theorem running_activate' (p : Fin n) (h : ∀ i, p ∉ a.q (.sem i)) : Running (a.activate (some p)) := by
  intro x hx i hm
  rw [activate_active] at hx
  cases hx
  exact h i (((semsub_activate (a := a) (some p)).sub i).subset hm)

theorem running_sub {b : Abs n} (h : Running a) (hs : SemSub a b) (ha : b.active = a.active) :
    Running b := fun x hx i hm => h x (ha ▸ hx) i ((hs.sub i).subset hm)

theorem running_yieldMacro (g : Good a) (h : a.yieldMacro.1 = none → Running a) :
    Running a.yieldMacro.2 := by
  obtain ⟨e1, e2, e3, -, -, -, e7⟩ := nextScheduled_q a
  cases hp : a.nextScheduled.1 with
  | none =>
    have hr := h hp
    unfold Abs.yieldMacro
    simp only [hp]
    intro x hx i hm
    rw [show (a.nextScheduled.2.activate none) = a.nextScheduled.2 from rfl] at hx hm
    have hq : a.nextScheduled.2.q (.sem i) = a.q (.sem i) := by rw [e2, g.highest.sem]
    rw [hq] at hm
    refine hr x ?_ i hm
    unfold Abs.active at hx ⊢
    rw [e3, g.highest.rest.2.1] at hx
    cases hsw : a.switchTo with
    | some y => rw [hsw] at hx; exact hx
    | none =>
      rw [hsw] at hx
      simp only at hx ⊢
      rcases e7 with e7 | e7
      · rw [e7, g.highest.rest.1] at hx; exact hx
      · rw [e7] at hx; cases hx
  | some p =>
    unfold Abs.yieldMacro
    simp only [hp]
    apply running_activate'
    intro i hm
    have hq : a.nextScheduled.2.q (.sem i) = a.q (.sem i) := by rw [e2, g.highest.sem]
    rw [hq] at hm
    obtain ⟨j, hj⟩ := g.highest.ready (e1 ▸ hp)
    exact absurd (g.one hm hj) (by simp)

theorem running_resume (h : Running a) (p : Fin n) (ap : Bool) : Running (a.resume p ap).2 := by
  have h0 : Running (if a.active = some p then a.remove p else a) := by
    split
    · exact running_sub h (semsub_remove p) rfl
    · exact h
  have h1 : (if a.active = some p then a.remove p else a).active = a.active := by split <;> rfl
  unfold Abs.resume
  simp only
  generalize (if a.active = some p then a.remove p else a) = a' at *
  split
  · exact h0
  · cases hx : a.active with
    | none => exact running_activate h0 (some p)
    | some x =>
      simp only
      generalize (if x = p then ap else ap || decide (a.prio p ≥ a.prio x)) = cc
      cases cc with
      | true =>
        simp only [if_true]
        refine running_activate ?_ (some p)
        split
        · exact running_sub h0 (semsub_sleep x) rfl
        · exact h0
      | false =>
        simp only [Bool.false_eq_true, if_false]
        exact running_sub h0 (semsub_addFirst _ p) rfl

theorem running_signalLoop (i : Nat) (incr : Bool) (fuel : Nat) : ∀ a : Abs n, Running a →
    Running (a.signalLoop i incr fuel).2 := by
  induction fuel with
  | zero => intro a h; exact h
  | succ fuel ih =>
    intro a h
    unfold Abs.signalLoop
    cases hq : a.q (.sem i) with
    | nil =>
      simp only
      split
      · exact h
      · exact h
    | cons p ps =>
      simp only
      have h1 := running_resume (running_sub h (semsub_pop hq) rfl) p false
      split
      · exact h1
      · exact ih _ h1

theorem running_notifyLoop (i : Nat) (fuel : Nat) : ∀ a : Abs n, Running a →
    Running (a.notifyLoop i fuel) := by
  induction fuel with
  | zero => intro a h; exact h
  | succ fuel ih =>
    intro a h
    have h1 : Running (a.signal i false).2 := running_signalLoop i false _ a h
    unfold Abs.notifyLoop
    cases (a.signal i false).1 with
    | none => exact h1
    | some p => exact ih _ h1

theorem running_syncWait (g : Good a) (h : Running a) (i : Nat) (p : Fin n) :
    (a.syncWait i p).idle = true ∨ Running (a.syncWait i p) := by
  unfold Abs.syncWait
  split
  · simp only
    split
    · cases hy : (a.addLast (.sem i) p).yieldMacro.1 with
      | none => exact .inl rfl
      | some x =>
        refine .inr ?_
        simp only
        exact running_yieldMacro (g.addLast _ _) (by rw [hy]; intro h; cases h)
    · rename_i hne
      refine .inr fun x hx j hm => ?_
      have hx' : a.active = some x := hx
      have hxp : x ≠ p := by rintro rfl; exact hne hx'
      simp only [Abs.addLast, Abs.set, Abs.remove] at hm
      split at hm
      · rename_i e; cases e
        simp [hxp] at hm
        exact h x hx' i hm
      · simp [hxp] at hm
        exact h x hx' j hm
  · exact .inr h

/-- The invariant of a history. -/
theorem running_step (g : Good a) (h : Running a) (op : Op n) :
    (a.step op).idle = true ∨ Running (a.step op) := by
  cases op with
  | signal i => exact .inr (running_signalLoop i true _ a h)
  | notify i => exact .inr (running_signalLoop i false _ a h)
  | notifyAll i => exact .inr (running_notifyLoop i _ a h)
  | lock i => exact .inr h
  | wait i =>
    unfold Abs.step
    cases a.active with
    | none => exact .inr h
    | some p => exact running_syncWait g h i p
  | waitFor i p => exact running_syncWait g h i p
  | suspend p =>
    refine .inr ?_
    unfold Abs.step Abs.suspend
    simp only
    have := running_sub h (semsub_remove p) rfl
    split
    · exact running_yieldMacro (g.remove p) fun _ => this
    · exact this
  | terminate p =>
    refine .inr ?_
    have h' : Running (a.kill p) := h
    have g' : Good (a.kill p) := let ⟨_, r⟩ := g; ⟨_, r.kill p⟩
    unfold Abs.step Abs.terminate Abs.suspend
    simp only
    have := running_sub h' (semsub_remove p) rfl
    split
    · exact running_yieldMacro (g'.remove p) fun _ => this
    · exact this
  | resume p => exact .inr (running_resume h p false)
  | yield p =>
    refine .inr ?_
    unfold Abs.step
    simp only
    split
    · rename_i ha
      unfold Abs.activeYield
      simp only
      apply running_activate
      have h1 : Running a.highest.2 := running_sub h (semsub_picked g.highest) (by
        unfold Abs.active; rw [g.highest.rest.1, g.highest.rest.2.1])
      split
      · exact running_sub h1 (semsub_sleep p) rfl
      · exact h1
    · exact h
  | pause =>
    refine .inr ?_
    unfold Abs.step
    cases ha : a.active with
    | none => exact h
    | some p =>
      unfold Abs.activeYield
      simp only
      apply running_activate
      have h1 : Running a.highest.2 := running_sub h (semsub_picked g.highest) (by
        unfold Abs.active; rw [g.highest.rest.1, g.highest.rest.2.1])
      split
      · exact running_sub h1 (semsub_sleep p) rfl
      · exact h1
  | preempt => exact .inr (running_yieldMacro g fun _ => h)
  | switch =>
    refine .inr ?_
    unfold Abs.step Abs.switch
    simp only
    cases hs : a.switchTo with
    | none => exact h
    | some p =>
      intro x hx
      refine h x ?_
      unfold Abs.active at hx ⊢
      simp only at hx
      rw [hs]; exact hx
  | setPriority p k =>
    refine .inr ?_
    unfold Abs.step
    simp only
    split
    · exact h
    · exact h

theorem running_run (g : Good a) (h : Running a) (ops : List (Op n)) :
    (a.run ops).idle = true ∨ Running (a.run ops) := by
  induction ops with
  | nil => exact .inr h
  | cons op ops ih =>
    unfold Abs.run
    split
    · exact .inl ‹_›
    · rename_i hi
      exact running_step (g.run ops) (ih.resolve_left hi) op

/-! ### signal -/

theorem resume_fst_live (a : Abs n) (p : Fin n) (ap : Bool) (h : a.live p = true) :
    (a.resume p ap).1 = true := by
  unfold Abs.resume
  simp only [h, Bool.not_true, Bool.false_eq_true, if_false]
  cases a.active with
  | none => rfl
  | some x =>
    simp only
    generalize (if x = p then ap else ap || decide (a.prio p ≥ a.prio x)) = cc
    cases cc <;> rfl

/-- The whole effect of a signal: dead waiters are dropped, the first live one resumes. -/
theorem signalLoop_eq (i : Nat) (incr : Bool) (fuel : Nat) : ∀ a : Abs n,
    (∀ x, a.active = some x → x ∉ a.q (.sem i)) → (a.q (.sem i)).length < fuel →
    a.signalLoop i incr fuel =
      match (a.q (.sem i)).dropWhile (fun x => !a.live x) with
      | [] => (none, if incr then (a.set (.sem i) []).addSignals i 1 else a.set (.sem i) [])
      | p :: ps => (some p, ((a.set (.sem i) ps).resume p false).2) := by
  induction fuel with
  | zero => intro a _ h; omega
  | succ fuel ih =>
    intro a hr hl
    unfold Abs.signalLoop
    cases hq : a.q (.sem i) with
    | nil =>
      simp only [List.dropWhile_nil]
      have : a.set (.sem i) [] = a := by
        cases a
        simp only at hq
        simp only [Abs.set]
        congr 1
        funext m
        split
        · rename_i e; subst e; exact hq.symm
        · rfl
      rw [this]
    | cons p ps =>
      simp only
      cases hlive : a.live p with
      | true =>
        rw [List.dropWhile_cons_of_neg (by simp [hlive])]
        simp only
        rw [if_pos (resume_fst_live (a.set (.sem i) ps) p false hlive)]
      | false =>
        rw [List.dropWhile_cons_of_pos (by simp [hlive])]
        have hact : ¬ (a.set (.sem i) ps).active = some p := by
          intro e
          exact hr p e (by rw [hq]; simp)
        have : (a.set (.sem i) ps).resume p false = (false, a.set (.sem i) ps) := by
          unfold Abs.resume
          have hl' : (a.set (.sem i) ps).live p = false := hlive
          simp only [hl', Bool.not_false, if_true, if_neg hact]
        rw [this]
        simp only [Bool.false_eq_true, if_false]
        have hq' : (a.set (.sem i) ps).q (.sem i) = ps := by simp [Abs.set]
        rw [hq] at hl
        rw [ih (a.set (.sem i) ps)
          (fun x hx => by rw [hq']; intro hm; exact hr x hx (by rw [hq]; simp [hm]))
          (by rw [hq']; simp at hl; omega), hq']
        have hss : ∀ xs, (a.set (.sem i) ps).set (.sem i) xs = a.set (.sem i) xs := by
          intro xs
          simp only [Abs.set]
          congr 1
          funext m
          split <;> rfl
        have hlv : (a.set (.sem i) ps).live = a.live := rfl
        rw [hlv]
        split
        · rw [hss]
        · rw [hss]

theorem Good.signal_eq (g : Good a) (h : Running a) (i : Nat) (incr : Bool) :
    a.signal i incr =
      match (a.q (.sem i)).dropWhile (fun x => !a.live x) with
      | [] => (none, if incr then (a.set (.sem i) []).addSignals i 1 else a.set (.sem i) [])
      | p :: ps => (some p, ((a.set (.sem i) ps).resume p false).2) :=
  signalLoop_eq i incr (n + 1) a (fun x hx => h x hx i) (by have := g.length_le (.sem i); omega)

/-- Resuming a live process that is on no list, while the running process waits on nothing,
leaves the queues of the semaphores alone and makes it ready. -/
theorem resume_live (h : Running a) (p : Fin n) (hl : a.live p = true)
    (hp : ∀ l, p ∉ a.q l) (ha : a.active ≠ some p) :
    (∀ i, (a.resume p false).2.q (.sem i) = a.q (.sem i)) ∧
    p ∈ (a.resume p false).2.q (.ready (a.prio p)) ∧
    (a.resume p false).2.signals = a.signals ∧ (a.resume p false).2.prio = a.prio ∧
    (a.resume p false).2.live = a.live ∧ (a.resume p false).2.idle = a.idle ∧
    (∀ x k, x ∈ a.q (.ready k) → x ∈ (a.resume p false).2.q (.ready k) ∨
      (a.active = some x ∧ x ∈ (a.resume p false).2.q (.ready (a.prio x)))) := by
  have hact : ∀ b : Abs n, (∀ i, b.q (.sem i) = a.q (.sem i)) → b.active = a.active →
      b.prio = a.prio → b.signals = a.signals → b.live = a.live → b.idle = a.idle →
      (∀ x k, x ∈ a.q (.ready k) → x ∈ b.q (.ready k) ∨
        (a.active = some x ∧ x ∈ b.q (.ready (a.prio x)))) →
      (∀ i, (b.activate (some p)).q (.sem i) = a.q (.sem i)) ∧
      p ∈ (b.activate (some p)).q (.ready (a.prio p)) ∧
      (b.activate (some p)).signals = a.signals ∧ (b.activate (some p)).prio = a.prio ∧
      (b.activate (some p)).live = a.live ∧ (b.activate (some p)).idle = a.idle ∧
      (∀ x k, x ∈ a.q (.ready k) → x ∈ (b.activate (some p)).q (.ready k) ∨
        (a.active = some x ∧ x ∈ (b.activate (some p)).q (.ready (a.prio x)))) := by
    intro b h1 h2 h3 h4 h5 h6 h7
    unfold Abs.activate
    have : ¬ b.active = some p := by rw [h2]; exact ha
    simp only [if_neg this, h3]
    refine ⟨fun i => ?_, ?_, h4, h3, h5, h6, fun x k hx => ?_⟩
    · simp only [Abs.addFirst, Abs.set, reduceCtorEq, if_false, Abs.remove]
      rw [h1]
      exact filter_ne_of_not_mem (hp _)
    · simp [Abs.addFirst, Abs.set]
    · have hxp : x ≠ p := by rintro rfl; exact hp _ hx
      have key : ∀ m, x ∈ b.q (.ready m) → x ∈ (b.addFirst (.ready (a.prio p)) p).q (.ready m) := by
        intro m hm
        simp only [Abs.addFirst, Abs.set]
        split
        · rename_i e; cases e; simp [Abs.remove, hm, hxp]
        · simp [Abs.remove, hm, hxp]
      rcases h7 x k hx with h7 | ⟨h7, h8⟩
      · exact .inl (key _ h7)
      · exact .inr ⟨h7, key _ h8⟩
  unfold Abs.resume
  rw [if_neg ha]
  simp only [hl, Bool.not_true, Bool.false_eq_true, if_false]
  cases hx : a.active with
  | none =>
    rw [hx] at hact
    exact hact a (fun _ => rfl) hx rfl rfl rfl rfl (fun x k h => .inl h)
  | some x =>
    simp only
    have hxs := h x hx
    rw [hx] at hact
    generalize (if x = p then false else false || decide (a.prio p ≥ a.prio x)) = cc
    cases cc with
    | true =>
      simp only [if_true]
      split
      · refine hact (a.sleep x) (fun i => ?_) hx rfl rfl rfl rfl (fun y k hy => ?_)
        · simp only [Abs.sleep, Abs.addLast, Abs.set, reduceCtorEq, if_false, Abs.remove]
          exact filter_ne_of_not_mem (hxs i)
        · by_cases hyx : y = x
          · subst hyx
            exact .inr ⟨rfl, by simp [Abs.sleep, Abs.addLast, Abs.set]⟩
          · refine .inl ?_
            simp only [Abs.sleep, Abs.addLast, Abs.set]
            split
            · rename_i e; cases e; simp [Abs.remove, hy, hyx]
            · simp [Abs.remove, hy, hyx]
      · exact hact a (fun _ => rfl) hx rfl rfl rfl rfl (fun x k h => .inl h)
    | false =>
      simp only [Bool.false_eq_true, if_false]
      refine ⟨fun i => ?_, ?_, rfl, rfl, rfl, rfl, fun y k hy => .inl ?_⟩
      · simp only [Abs.addFirst, Abs.set, reduceCtorEq, if_false, Abs.remove]
        exact filter_ne_of_not_mem (hp _)
      · simp [Abs.addFirst, Abs.set]
      · have hyp : y ≠ p := by rintro rfl; exact hp _ hy
        simp only [Abs.addFirst, Abs.set]
        split
        · rename_i e; cases e; simp [Abs.remove, hy, hyp]
        · simp [Abs.remove, hy, hyp]

end Verif.Sched
