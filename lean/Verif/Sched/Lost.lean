import Verif.Sched.Semaphores

/-!
# C34 and C35: the process that waits, and processes that get lost
-/

namespace Verif.Sched

variable {n : Nat}

/-! ## C34: `waitAfterSignalling:` -/

theorem resume_active_eq (a : Abs n) (p x : Fin n) (hl : a.live p = true) (hx : a.active = some x)
    (hne : x ≠ p) :
    (a.resume p false).2.active = if a.prio p ≥ a.prio x then some p else some x := by
  unfold Abs.resume
  simp only [hx, hl, Bool.not_true, Bool.false_eq_true, if_false, hne, Bool.false_or,
    decide_eq_true_eq, Option.some.injEq]
  split
  · rfl
  · exact hx

theorem signal_first {a : Abs n} (g : Good a) (hr : Running a) (j : Nat) (incr : Bool)
    (dead ps : List (Fin n)) (p x : Fin n) (hq : a.q (.sem j) = dead ++ p :: ps)
    (hd : ∀ y ∈ dead, a.live y = false) (hl : a.live p = true) (hx : a.active = some x) :
    (a.signal j incr).2.active = if a.prio p ≥ a.prio x then some p else some x := by
  have hdrop : (a.q (.sem j)).dropWhile (fun x => !a.live x) = p :: ps := by
    rw [hq, List.dropWhile_append_of_pos (by intro y hy; simp [hd y hy])]
    simp [hl]
  rw [g.signal_eq hr, hdrop]
  exact resume_active_eq (a.set (.sem j) ps) p x hl hx (by
    rintro rfl
    exact hr x hx j (by rw [hq]; simp))

theorem Rep.waitAfter {s : VM n} {a : Abs n} (r : Rep s a) (i j : Nat) (x : Fin n)
    (hx : (a.signal j true).2.active = some x) :
    ∃ s', waitAfterSignalling s i j = some s' ∧ Rep s' ((a.signal j true).2.syncWait i x) := by
  obtain ⟨s1, e1, r1⟩ := r.signal j true
  obtain ⟨s2, e2, r2⟩ := r1.syncWait i x
  refine ⟨s2, ?_, r2⟩
  simp only [waitAfterSignalling, wait, e1, Option.bind_eq_bind, Option.bind_some, r1.active, hx]
  exact e2

/-- **C34 (partial).**  If the signal does not wake a process of at least the caller's
priority, the process that sends `waitAfterSignalling:` waits.

Missing: the case in which the signal does (`waitAfterSignalling_wrong_process`). -/
theorem waitAfterSignalling_waits_partial (s : VM n) (h : Sane s) (i j : Nat) (x : Fin n)
    (hij : i ≠ j) (hx : s.active = some x) (hi : held s i = 0)
    (hlow : ∀ y, Waiting s y j → (s.proc y).prio < (s.proc x).prio) :
    ∃ s', waitAfterSignalling s i j = some s' ∧ Waiting s' x i := by
  obtain ⟨a, r, h1, h2⟩ := h.rep
  have g : Good a := ⟨s, r⟩
  have hxa : a.active = some x := by rw [← r.active, hx]
  obtain ⟨he, -⟩ := signal_effect g h2 j true
  have hact : (a.signal j true).2.active = some x := by
    rcases he with ⟨-, -, -, -, -, e⟩ | ⟨d, p, ps, hq, hd, hl, -⟩
    · rw [e, hxa]
    · rw [signal_first g h2 j true d ps p x hq hd hl hxa, if_neg]
      have := hlow p ((r.mem _ p).mpr (by rw [hq]; simp))
      rw [r.prio, r.prio] at this
      omega
  have hsig : (a.signal j true).2.signals (.sem i) = 0 := by
    have hi' : a.signals (.sem i) = 0 := by rw [← r.signals]; exact hi
    rcases he with ⟨-, -, -, e, -⟩ | ⟨d, p, ps, -, -, -, -, -, e, -⟩
    · rw [e, if_neg (fun e => hij (Lid.sem.inj e)), hi']
    · rw [e, hi']
  obtain ⟨s', e, r'⟩ := r.waitAfter i j x hact
  refine ⟨s', e, (r'.mem _ x).mpr ?_⟩
  rcases syncWait_effect (g.signal j true) i x with ⟨-, -, e3⟩ | ⟨e1, -⟩
  · rw [e3, addLast_sem, if_pos rfl]; simp
  · omega

/-- **C34 fails**: if the signal wakes a process with at least the priority of the caller,
it is that process which is put to sleep on the receiver, and the caller does not wait. -/
theorem waitAfterSignalling_wrong_process (s : VM n) (h : Sane s) (i j : Nat) (x p : Fin n)
    (dead rest : List (Fin n)) (hij : i ≠ j) (hx : s.active = some x) (hi : held s i = 0)
    (hc : Chain s (.sem j) (dead ++ p :: rest)) (hd : ∀ y ∈ dead, (s.proc y).live = false)
    (hl : (s.proc p).live = true) (hp : (s.proc p).prio ≥ (s.proc x).prio) :
    ∃ s', waitAfterSignalling s i j = some s' ∧ Waiting s' p i ∧ ¬ Waiting s' x i := by
  obtain ⟨a, r, h1, h2⟩ := h.rep
  have g : Good a := ⟨s, r⟩
  have hxa : a.active = some x := by rw [← r.active, hx]
  have hq : a.q (.sem j) = dead ++ p :: rest := chain_unique (r.chain _) hc
  have hd' : ∀ y ∈ dead, a.live y = false := fun y hy => by rw [← r.live]; exact hd y hy
  have hl' : a.live p = true := by rw [← r.live]; exact hl
  have hact : (a.signal j true).2.active = some p := by
    rw [signal_first g h2 j true dead rest p x hq hd' hl' hxa, if_pos]
    rw [← r.prio, ← r.prio]; exact hp
  obtain ⟨he, -⟩ := signal_effect g h2 j true
  have hsig : (a.signal j true).2.signals (.sem i) = 0 ∧
      (a.signal j true).2.q (.sem i) = a.q (.sem i) := by
    have hi' : a.signals (.sem i) = 0 := by rw [← r.signals]; exact hi
    rcases he with ⟨-, -, e1, e, -⟩ | ⟨d, p, ps, -, -, -, -, e1, e, -⟩
    · rw [e, if_neg (fun e => hij (Lid.sem.inj e)), hi', e1, if_neg hij]; exact ⟨rfl, rfl⟩
    · rw [e, hi', e1, if_neg hij]; exact ⟨rfl, rfl⟩
  obtain ⟨s', e, r'⟩ := r.waitAfter i j p hact
  rcases syncWait_effect (g.signal j true) i p with ⟨-, -, e3⟩ | ⟨e1, -⟩
  · have hq' : ((a.signal j true).2.syncWait i p).q (.sem i) = (a.q (.sem i)).filter (· ≠ p) ++ [p] := by
      rw [e3, addLast_sem, if_pos rfl, hsig.2]
    refine ⟨s', e, (r'.mem _ p).mpr (by rw [hq']; simp), fun hw => ?_⟩
    have hm := (r'.mem _ x).mp hw
    rw [hq'] at hm
    simp only [List.mem_append, List.mem_filter, List.mem_singleton] at hm
    rcases hm with hm | hm
    · exact h2 x hxa i hm.1
    · subst hm
      exact h2 x hxa j (by rw [hq]; simp)
  · omega

/-- Process 0 (priority 3) runs, process 1 (priority 5) waits on semaphore 7. -/
def two : VM 2 where
  proc p := if p = 0 then ⟨3, some (.ready 3), none, true⟩ else ⟨5, some (.sem 7), none, true⟩
  list l := if l = .ready 3 then ⟨some 0, some 0, 0⟩
    else if l = .sem 7 then ⟨some 1, some 1, 0⟩ else ⟨none, none, 0⟩
  scheduled := some 0
  switchTo := none
  idle := false

theorem two_sane : Sane two := by
  refine ⟨⟨fun l => ?_, fun p => ?_⟩, fun i => ?_, fun p i h => ?_⟩
  · by_cases hl : l = .ready 3
    · subst hl
      refine ⟨[0], ⟨by decide, by decide, by decide, ?_⟩, by decide⟩
      intro j x hx
      cases j with
      | zero => simp at hx; subst hx; rfl
      | succ j => simp at hx
    · by_cases hl' : l = .sem 7
      · subst hl'
        refine ⟨[1], ⟨by decide, by decide, by decide, ?_⟩, by decide⟩
        intro j x hx
        cases j with
        | zero => simp at hx; subst hx; rfl
        | succ j => simp at hx
      · refine ⟨[], ⟨by simp [two, hl, hl'], by simp [two, hl, hl'], by simp, by simp⟩, fun p => ?_⟩
        simp only [two]
        split
        · simp; exact fun e => hl e.symm
        · simp; exact fun e => hl' e.symm
  · simp only [two]; split <;> simp
  · have : held two i = 0 := by unfold held two; simp only; split <;> (try split) <;> rfl
    rw [this]
    exact ⟨le_refl _, fun h => absurd h (lt_irrefl _)⟩
  · have : p = 0 := by
      have : some (0 : Fin 2) = some p := h
      exact (Option.some.inj this).symm
    subst this
    simp [Waiting, two]

/-- The hypotheses of `waitAfterSignalling_wrong_process` can be met: process 0 signals
semaphore 7 and should wait on semaphore 8, but process 1 does. -/
example : ∃ s', waitAfterSignalling two 8 7 = some s' ∧ Waiting s' 1 8 ∧ ¬ Waiting s' 0 8 := by
  refine ⟨_, rfl, ?_, ?_⟩ <;> decide

example : Chain two (.sem 7) ([] ++ 1 :: []) ∧ (two.proc 1).prio ≥ (two.proc 0).prio := by
  refine ⟨⟨by decide, by decide, by decide, ?_⟩, by decide⟩
  intro j x hx
  cases j with
  | zero => simp at hx; subst hx; rfl
  | succ j => simp at hx

/-- The hypotheses of `waitAfterSignalling_waits_partial` can be met (nobody waits on 9). -/
example : ∃ s', waitAfterSignalling two 8 9 = some s' ∧ Waiting s' 0 8 := by
  refine ⟨_, rfl, ?_⟩; decide

/-! ## C35: processes are not lost -/

/-- The process is on some list: ready, running or waiting. -/
def Known (s : VM n) (p : Fin n) : Prop := (s.proc p).myList ≠ none

/-- The operations that pick a process to run are done when no switch is pending. -/
def Op.timely (s : VM n) : Op n → Prop
  | .preempt | .yield _ | .pause | .suspend _ | .terminate _ => s.switchTo = none
  | _ => True

/-- The operations that take `p` away on purpose. -/
def Op.takes (p : Fin n) : Op n → Prop
  | .suspend r | .terminate r => r = p
  | _ => False

def OnList (a : Abs n) (x : Fin n) : Prop := ∃ l, x ∈ a.q l

section OnList

variable {a : Abs n} {x : Fin n}

theorem onlist_remove (h : OnList a x) (p : Fin n) (hne : x ≠ p) : OnList (a.remove p) x :=
  let ⟨l, hl⟩ := h; ⟨l, by simp [Abs.remove, hl, hne]⟩

theorem onlist_addLast (h : OnList a x ∨ x = p) (l : Lid) : OnList (a.addLast l p) x := by
  by_cases hx : x = p
  · exact ⟨l, by simp [Abs.addLast, Abs.set, hx]⟩
  · obtain ⟨m, hm⟩ := h.resolve_right hx
    refine ⟨m, ?_⟩
    simp only [Abs.addLast, Abs.set]
    split
    · rename_i e; subst e; simp [Abs.remove, hm, hx]
    · simp [Abs.remove, hm, hx]

theorem onlist_addFirst (h : OnList a x ∨ x = p) (l : Lid) : OnList (a.addFirst l p) x := by
  by_cases hx : x = p
  · exact ⟨l, by simp [Abs.addFirst, Abs.set, hx]⟩
  · obtain ⟨m, hm⟩ := h.resolve_right hx
    refine ⟨m, ?_⟩
    simp only [Abs.addFirst, Abs.set]
    split
    · rename_i e; subst e; simp [Abs.remove, hm, hx]
    · simp [Abs.remove, hm, hx]

theorem onlist_activate (p : Option (Fin n))
    (h : OnList a x ∨ (p = some x ∧ a.active ≠ some x)) : OnList (a.activate p) x := by
  cases p with
  | none => exact h.resolve_right (by rintro ⟨⟨⟩, -⟩)
  | some p =>
    unfold Abs.activate
    simp only
    split
    · rename_i ha
      refine let ⟨l, hl⟩ := h.resolve_right ?_; ⟨l, hl⟩
      rintro ⟨⟨⟩, hne⟩
      exact hne ha
    · obtain ⟨l, hl⟩ := onlist_addFirst (a := a) (x := x) (p := p)
        (h.imp_right (by rintro ⟨⟨⟩, -⟩; rfl)) (.ready (a.prio p))
      exact ⟨l, hl⟩

theorem onlist_picked {k : Nat} {r : Option (Fin n) × Abs n} (hp : Picked a k r)
    (h : OnList a x) : OnList r.2 x ∨ r.1 = some x := by
  by_cases hx : r.1 = some x
  · exact .inr hx
  · obtain ⟨l, hl⟩ := h
    exact .inl ⟨l, (hp.mem l x hx).mpr hl⟩

theorem picked_not_scheduled {k : Nat} {r : Option (Fin n) × Abs n} (hp : Picked a k r)
    (h : r.1 = some x) : a.scheduled ≠ some x := by
  cases hp with
  | none => cases h
  | some j pre p ps h1 h2 hq hpre hp hj => cases h; exact hp

/-- Picking a process that is not the pending one loses nobody. -/
theorem onlist_yieldMacro (g : Good a) (h : OnList a x)
    (hne : a.highest.1 = some x → a.active ≠ some x) : OnList a.yieldMacro.2 x := by
  obtain ⟨e1, e2, e3, -, -, -, e7⟩ := nextScheduled_q a
  unfold Abs.yieldMacro
  apply onlist_activate
  rcases onlist_picked g.highest h with ⟨l, hl⟩ | hp
  · exact .inl ⟨l, by rw [e2]; exact hl⟩
  · refine .inr ⟨by rw [e1]; exact hp, fun ha => hne hp ?_⟩
    unfold Abs.active at ha ⊢
    rw [e3, g.highest.rest.2.1] at ha
    cases hs : a.switchTo with
    | some y => rw [hs] at ha; exact ha
    | none =>
      rw [hs] at ha
      simp only at ha ⊢
      rcases e7 with e7 | e7
      · rw [e7, g.highest.rest.1] at ha; exact ha
      · rw [e7] at ha; cases ha

theorem active_of_none (h : a.switchTo = none) : a.active = a.scheduled := by
  unfold Abs.active; rw [h]

theorem onlist_activeYield (g : Good a) (h : OnList a x) (r : Fin n)
    (hs : a.switchTo = none) : OnList (a.activeYield r) x := by
  unfold Abs.activeYield
  simp only
  have hact : a.highest.2.active = a.scheduled := by
    unfold Abs.active
    rw [g.highest.rest.1, g.highest.rest.2.1, hs]
  apply onlist_activate
  have hact' : (if r ∈ a.highest.2.q (.ready (a.highest.2.prio r)) then a.highest.2.sleep r
      else a.highest.2).active = a.scheduled := by
    split
    · exact hact
    · exact hact
  rw [hact']
  rcases onlist_picked g.highest h with hl | hp
  · left
    split
    · exact onlist_addLast (.inl hl) _
    · exact hl
  · right
    rw [hp]
    exact ⟨rfl, picked_not_scheduled g.highest hp⟩

theorem onlist_resume {p : Fin n} (h : OnList a x ∨ x = p) (hl : a.live x = true) :
    OnList (a.resume p false).2 x := by
  have h0 : OnList (if a.active = some p then a.remove p else a) x ∨ x = p := by
    by_cases hx : x = p
    · exact .inr hx
    · left
      split
      · exact onlist_remove (h.resolve_right hx) p hx
      · exact h.resolve_right hx
  have hdead : a.live p = false → OnList (if a.active = some p then a.remove p else a) x := by
    intro hd
    refine h0.resolve_right ?_
    rintro rfl
    rw [hl] at hd; cases hd
  unfold Abs.resume
  by_cases hap : a.active = some p
  · simp only [hap, if_true] at h0 hdead ⊢
    cases hlp : a.live p with
    | false => simp only [Bool.not_false, if_true]; exact hdead hlp
    | true =>
      simp only [Bool.not_true, Bool.false_eq_true, if_false]
      exact onlist_addFirst h0 _
  · rw [if_neg hap] at h0 hdead ⊢
    simp only
    cases hlp : a.live p with
    | false => simp only [Bool.not_false, if_true]; exact hdead hlp
    | true =>
      simp only [Bool.not_true, Bool.false_eq_true, if_false]
      have hact : ∀ b : Abs n, b.active = a.active → (OnList b x ∨ x = p) →
          OnList (b.activate (some p)) x := by
        intro b hb hx
        apply onlist_activate
        refine hx.imp_right ?_
        rintro rfl
        exact ⟨rfl, by rw [hb]; exact hap⟩
      cases ha : a.active with
      | none => exact hact a rfl h0
      | some r =>
        simp only
        generalize (if r = p then false else false || decide (a.prio p ≥ a.prio r)) = cc
        cases cc with
        | false =>
          simp only [Bool.false_eq_true, if_false]
          exact onlist_addFirst h0 _
        | true =>
          simp only [if_true]
          split
          · refine hact (a.sleep r) rfl ?_
            rcases h0 with h0 | h0
            · exact .inl (onlist_addLast (.inl h0) _)
            · exact .inr h0
          · exact hact a rfl h0

theorem resume_live_kept (a : Abs n) (p : Fin n) (ap : Bool) : (a.resume p ap).2.live = a.live := by
  have h0 : (if a.active = some p then a.remove p else a).live = a.live := by split <;> rfl
  have hact : ∀ (b : Abs n) q, (b.activate q).live = b.live := by
    intro b q
    cases q with
    | none => rfl
    | some q => unfold Abs.activate; simp only; split <;> rfl
  unfold Abs.resume
  simp only
  generalize (if a.active = some p then a.remove p else a) = a' at *
  split
  · exact h0
  · cases a.active with
    | none => exact (hact _ _).trans h0
    | some r =>
      simp only
      generalize (if r = p then ap else ap || decide (a.prio p ≥ a.prio r)) = cc
      cases cc with
      | false => exact h0
      | true =>
        simp only [if_true]
        rw [hact]
        split
        · exact h0
        · exact h0

theorem onlist_signalLoop (i : Nat) (incr : Bool) (fuel : Nat) : ∀ a : Abs n, OnList a x →
    a.live x = true → OnList (a.signalLoop i incr fuel).2 x ∧ (a.signalLoop i incr fuel).2.live x = true := by
  induction fuel with
  | zero => intro a h hl; exact ⟨h, hl⟩
  | succ fuel ih =>
    intro a h hl
    unfold Abs.signalLoop
    cases hq : a.q (.sem i) with
    | nil =>
      simp only
      split
      · exact ⟨h, hl⟩
      · exact ⟨h, hl⟩
    | cons p ps =>
      simp only
      have h1 : OnList (a.set (.sem i) ps) x ∨ x = p := by
        obtain ⟨l, hm⟩ := h
        by_cases hl : l = .sem i
        · subst hl
          rw [hq] at hm
          rcases List.mem_cons.mp hm with hm | hm
          · exact .inr hm
          · exact .inl ⟨.sem i, by simpa [Abs.set] using hm⟩
        · exact .inl ⟨l, by simpa [Abs.set, hl] using hm⟩
      have h2 : OnList ((a.set (.sem i) ps).resume p false).2 x := onlist_resume h1 hl
      have h3 : ((a.set (.sem i) ps).resume p false).2.live x = true := by
        rw [resume_live_kept]; exact hl
      split
      · exact ⟨h2, h3⟩
      · exact ih _ h2 h3

theorem onlist_notifyLoop (i : Nat) (fuel : Nat) : ∀ a : Abs n, OnList a x →
    a.live x = true → OnList (a.notifyLoop i fuel) x := by
  induction fuel with
  | zero => intro a h hl; exact h
  | succ fuel ih =>
    intro a h hl
    have h1 := onlist_signalLoop (x := x) i false (n + 1) a h hl
    unfold Abs.notifyLoop
    cases (a.signal i false).1 with
    | none => exact h1.1
    | some p => exact ih _ h1.1 h1.2

theorem onlist_syncWait (g : Good a) (i : Nat) (p : Fin n) (h : OnList a x) :
    OnList (a.syncWait i p) x := by
  unfold Abs.syncWait
  split
  · simp only
    have h1 : OnList (a.addLast (.sem i) p) x := onlist_addLast (.inl h) _
    split
    · rename_i ha
      have g1 := g.addLast (.sem i) p
      have h2 : OnList (a.addLast (.sem i) p).yieldMacro.2 x := by
        apply onlist_yieldMacro g1 h1
        intro hp hact
        have hxp : p = x := by
          have : a.active = some x := hact
          rw [ha] at this
          exact Option.some.inj this
        subst hxp
        obtain ⟨j, hj⟩ := g1.highest.ready hp
        have := g1.one hj (m := .sem i) (by rw [addLast_sem]; simp)
        cases this
      cases (a.addLast (.sem i) p).yieldMacro.1 with
      | none => exact h2
      | some y => exact h2
    · exact h1
  · exact h

end OnList

/-- **C35 (partial).**  In a state where the lists are sound, an operation done when no switch
is pending leaves every live process on some list, except for the process that it suspends
or terminates.

Missing: the end of a time slice may be handled while a switch is pending
(`preempt_loses_process`). -/
theorem not_lost_step_partial (s s' : VM n) (h : Sound s) (op : Op n) (x : Fin n)
    (hk : Known s x) (hl : (s.proc x).live = true) (ht : op.timely s) (hno : ¬ op.takes x)
    (hs : step s op = some s') : Known s' x ∧ (s'.proc x).live = true := by
  obtain ⟨a, r⟩ := h.rep
  obtain ⟨s1, e, r'⟩ := r.step op
  rw [hs] at e
  cases e
  have g : Good a := ⟨s, r⟩
  have hon : OnList a x := by
    unfold Known at hk
    cases hm : (s.proc x).myList with
    | none => exact absurd hm hk
    | some l => exact ⟨l, (r.mem l x).mp hm⟩
  have hla : a.live x = true := by rw [← r.live]; exact hl
  have hsw : s.switchTo = a.switchTo := r.switchTo
  suffices hh : OnList (a.step op) x ∧ (a.step op).live x = true by
    obtain ⟨⟨l, hl⟩, h2⟩ := hh
    refine ⟨?_, by rw [r'.live]; exact h2⟩
    unfold Known
    rw [(r'.mem l x).mpr hl]
    simp
  have hact_live : ∀ (b : Abs n) q, (b.activate q).live = b.live := by
    intro b q
    cases q with
    | none => rfl
    | some q => unfold Abs.activate; simp only; split <;> rfl
  have hy_live : ∀ b : Abs n, Good b → b.yieldMacro.2.live = b.live := by
    intro b gb
    unfold Abs.yieldMacro
    rw [hact_live]
    have h1 : b.nextScheduled.2.live = b.highest.2.live := by
      unfold Abs.nextScheduled
      generalize b.highest = hh
      obtain ⟨h1, h2⟩ := hh
      cases h1 with
      | some p => rfl
      | none =>
        simp only
        cases h2.scheduled with
        | none => rfl
        | some y => simp only; split <;> rfl
    rw [h1, gb.highest.rest.2.2.2.2.2]
  have hay_live : ∀ r, (a.activeYield r).live = a.live := by
    intro r
    unfold Abs.activeYield
    simp only [hact_live]
    have := g.highest.rest.2.2.2.2.2
    split
    · exact this
    · exact this
  have hw_live : ∀ i p, (a.syncWait i p).live = a.live := by
    intro i p
    unfold Abs.syncWait
    split
    · simp only
      have := hy_live _ (g.addLast (.sem i) p)
      split
      · cases (a.addLast (.sem i) p).yieldMacro.1 with
        | none => exact this
        | some y => exact this
      · rfl
    · rfl
  have hsusp : ∀ b : Abs n, Good b → b.switchTo = none → OnList b x → ∀ p, p ≠ x →
      OnList (b.suspend p) x ∧ (b.suspend p).live = b.live := by
    intro b gb hb hon p hp
    unfold Abs.suspend
    have h1 : OnList (b.remove p) x := onlist_remove hon p (fun e => hp e.symm)
    split
    · rename_i hsch
      refine ⟨?_, hy_live _ (gb.remove p)⟩
      apply onlist_yieldMacro (gb.remove p) h1
      intro _ hact
      rw [active_of_none (a := b.remove p) hb] at hact
      have : b.scheduled = some x := hact
      rw [hsch] at this
      exact hp (Option.some.inj this)
    · exact ⟨h1, rfl⟩
  cases op with
  | signal i => exact onlist_signalLoop i true _ a hon hla
  | notify i => exact onlist_signalLoop i false _ a hon hla
  | notifyAll i =>
    refine ⟨onlist_notifyLoop i _ a hon hla, ?_⟩
    have : ∀ fuel (b : Abs n), OnList b x → b.live x = true → (b.notifyLoop i fuel).live x = true := by
      intro fuel
      induction fuel with
      | zero => intro b _ hb; exact hb
      | succ fuel ih =>
        intro b hb hl
        have h1 := onlist_signalLoop (x := x) i false (n + 1) b hb hl
        unfold Abs.notifyLoop
        cases (b.signal i false).1 with
        | none => exact h1.2
        | some p => exact ih _ h1.1 h1.2
    exact this _ a hon hla
  | lock i => exact ⟨hon, hla⟩
  | wait i =>
    unfold Abs.step
    cases ha : a.active with
    | none => exact ⟨hon, hla⟩
    | some p => exact ⟨onlist_syncWait g i p hon, by simp only; rw [hw_live]; exact hla⟩
  | waitFor i p => exact ⟨onlist_syncWait g i p hon, by
      show (a.syncWait i p).live x = true; rw [hw_live]; exact hla⟩
  | suspend p =>
    have := hsusp a g (hsw ▸ ht) hon p hno
    exact ⟨this.1, by show (a.suspend p).live x = true; rw [this.2]; exact hla⟩
  | terminate p =>
    have g' : Good (a.kill p) := ⟨_, r.kill p⟩
    have := hsusp (a.kill p) g' (hsw ▸ ht) hon p hno
    refine ⟨this.1, ?_⟩
    show ((a.kill p).suspend p).live x = true
    rw [this.2]
    have hxp : ¬ x = p := fun e => hno e.symm
    simp only [Abs.kill, hxp, if_false]
    exact hla
  | resume p =>
    refine ⟨onlist_resume (.inl hon) hla, ?_⟩
    show (a.resume p false).2.live x = true
    rw [resume_live_kept]; exact hla
  | yield p =>
    unfold Abs.step
    simp only
    split
    · exact ⟨onlist_activeYield g hon p (hsw ▸ ht), by rw [hay_live]; exact hla⟩
    · exact ⟨hon, hla⟩
  | pause =>
    unfold Abs.step
    cases ha : a.active with
    | none => exact ⟨hon, hla⟩
    | some p =>
      exact ⟨onlist_activeYield g hon p (hsw ▸ ht), by simp only; rw [hay_live]; exact hla⟩
  | preempt =>
    refine ⟨onlist_yieldMacro g hon fun hp => ?_, ?_⟩
    · rw [active_of_none (hsw ▸ ht)]
      exact picked_not_scheduled g.highest hp
    · show a.yieldMacro.2.live x = true
      rw [hy_live a g]; exact hla
  | switch =>
    unfold Abs.step Abs.switch
    simp only
    cases a.switchTo with
    | none => exact ⟨hon, hla⟩
    | some p => exact ⟨hon, hla⟩
  | setPriority p k =>
    unfold Abs.step
    simp only
    split
    · exact ⟨hon, hla⟩
    · exact ⟨hon, hla⟩

/-- Every operation of the history is timely and does not take `x` away. -/
def Undisturbed (s : VM n) (x : Fin n) : List (Op n) → Prop
  | [] => True
  | op :: ops => Undisturbed s x ops ∧ ¬ op.takes x ∧ ∀ s1, run s ops = some s1 → op.timely s1

/-- **C35 (partial).**  The same for whole histories. -/
theorem not_lost_partial (s s' : VM n) (h : Sound s) (ops : List (Op n)) (x : Fin n)
    (hk : Known s x) (hl : (s.proc x).live = true) (hu : Undisturbed s x ops)
    (hs : run s ops = some s') : Known s' x ∧ (s'.proc x).live = true := by
  induction ops generalizing s' with
  | nil => cases hs; exact ⟨hk, hl⟩
  | cons op ops ih =>
    obtain ⟨s1, e1, h1⟩ := lists_sound s h ops
    obtain ⟨hk1, hl1⟩ := ih s1 hu.1 e1
    simp only [run, e1, Option.bind_eq_bind, Option.bind_some] at hs
    split at hs
    · cases hs; exact ⟨hk1, hl1⟩
    · exact not_lost_step_partial s1 s' h1 op x hk1 hl1 (hu.2.2 s1 e1) hu.2.1 hs

/-- **C35 fails**: an asynchronous signal wakes process 1, and the time slice is found to be
over before the switch to it; process 1 runs, but is on no list.  At the end of its time
slice process 0 goes on, and process 1 is lost: it is alive, does not run, is on no list and
no switch is pending. -/
theorem preempt_loses_process : ∃ s', run two [.switch, .preempt, .switch, .preempt, .signal 7] = some s' ∧
    ¬ Known s' 1 ∧ (s'.proc 1).live = true ∧ s'.scheduled = some 0 ∧ s'.switchTo = none := by
  refine ⟨_, rfl, ?_, ?_, ?_, ?_⟩ <;> (try unfold Known) <;> decide

/-- Non-vacuity of `not_lost_partial`: the same events with the switch done in time. -/
example : ∃ s', run two [.switch, .preempt, .switch, .preempt, .switch, .signal 7] = some s' ∧
    Known s' 1 ∧ s'.scheduled = some 1 := by
  refine ⟨_, rfl, ?_, ?_⟩ <;> (try unfold Known) <;> decide

example : Known two 1 ∧ Undisturbed two 1 [.switch, .preempt, .switch, .preempt, .switch, .signal 7] := by
  refine ⟨by unfold Known; decide, ?_⟩
  simp only [Undisturbed, Op.takes, Op.timely, not_false_eq_true, true_and, and_true,
    implies_true]
  refine ⟨?_, ?_⟩ <;> (intro s1 h; cases h; decide)

end Verif.Sched
