import Verif.Sched.Refine

/-!
# Refinement of the scheduler operations
-/

namespace Verif.Sched

variable {n : Nat} {s : VM n} {a : Abs n}

theorem Rep.isEmpty (r : Rep s a) (l : Lid) : Sched.isEmpty s l = (a.q l).isEmpty := by
  unfold Sched.isEmpty
  rw [r.first]
  cases a.q l <;> rfl

theorem Rep.isReady (r : Rep s a) (p : Fin n) :
    Sched.isReady s p = decide (p ∈ a.q (.ready (a.prio p))) := by
  unfold Sched.isReady
  rw [r.prio]
  exact decide_eq_decide.mpr (r.mem _ p)

theorem Rep.sleep (r : Rep s a) (p : Fin n) :
    ∃ s', sleepProcess s p = some s' ∧ Rep s' (a.sleep p) := by
  unfold sleepProcess Abs.sleep
  rw [r.prio]
  exact r.addLast _ p

theorem Rep.withSwitch (r : Rep s a) (x : Option (Fin n)) :
    Rep { s with switchTo := x } { a with switchTo := x } :=
  ⟨r.first, r.last, r.link, r.mem, r.nodup, r.free, r.prio, r.live, r.signals, r.scheduled, rfl,
    r.idle⟩

theorem Rep.withScheduled (r : Rep s a) (x : Option (Fin n)) :
    Rep { s with scheduled := x } { a with scheduled := x } :=
  ⟨r.first, r.last, r.link, r.mem, r.nodup, r.free, r.prio, r.live, r.signals, rfl, r.switchTo,
    r.idle⟩

theorem Rep.withIdle (r : Rep s a) (x : Bool) :
    Rep { s with idle := x } { a with idle := x } :=
  ⟨r.first, r.last, r.link, r.mem, r.nodup, r.free, r.prio, r.live, r.signals, r.scheduled,
    r.switchTo, rfl⟩

theorem Rep.activate (r : Rep s a) (p : Option (Fin n)) :
    ∃ s', Sched.activate s p = some s' ∧ Rep s' (a.activate p) := by
  cases p with
  | none => exact ⟨s, rfl, r⟩
  | some p =>
    unfold Sched.activate Abs.activate
    rw [r.active]
    by_cases h : a.active = some p
    · simp only [h, if_true, Option.bind_eq_bind, Option.bind_some]
      exact ⟨_, rfl, r.withSwitch _⟩
    · obtain ⟨s', e, r'⟩ := r.addFirst (.ready (a.prio p)) p
      simp only [h, if_false, r.prio, e, Option.bind_eq_bind, Option.bind_some]
      exact ⟨_, rfl, r'.withSwitch _⟩

/-- Taking the first link off and putting it back at the end. -/
theorem rotate (a : Abs n) (l : Lid) (p : Fin n) (ps : List (Fin n)) (hq : a.q l = p :: ps)
    (hnd : (a.q l).Nodup) (hone : ∀ m, p ∈ a.q m → m = l) :
    ((a.set l ps).addLast l p) = a.set l (ps ++ [p]) := by
  rw [hq] at hnd
  have hp := (List.nodup_cons.mp hnd).1
  unfold Abs.addLast Abs.remove Abs.set
  simp only [if_true]
  congr 1
  funext m
  split
  · rw [filter_ne_of_not_mem hp]
  · rename_i h
    exact filter_ne_of_not_mem (fun hc => h (hone m hc))

theorem Rep.highestLoop (k : Nat) : ∀ {s : VM n} {a : Abs n}, Rep s a →
    ∃ s', Sched.highestLoop s k = some ((a.highestLoop k).1, s') ∧ Rep s' (a.highestLoop k).2 := by
  induction k with
  | zero => intro s a r; exact ⟨s, rfl, r⟩
  | succ k ih =>
    intro s a r
    unfold Sched.highestLoop Abs.highestLoop
    rw [r.isEmpty]
    cases hq : a.q (.ready (k + 1)) with
    | nil => simp only [List.isEmpty_nil, if_true]; exact ih r
    | cons p ps =>
      obtain ⟨s1, e1, r1, hp⟩ := r.removeFirst hq
      simp only [List.isEmpty_cons, Bool.false_eq_true, if_false, e1, Option.bind_eq_bind,
        Option.bind_some]
      have hsch : s1.scheduled = a.scheduled := r1.scheduled
      rw [hsch]
      split
      · obtain ⟨s2, e2, r2⟩ := r1.addLast (.ready (k + 1)) p
        have hrot := rotate a (.ready (k + 1)) p ps hq (r.nodup _)
          (fun m hm => r.one hm (by rw [hq]; simp))
        rw [hrot] at r2
        have hq2 : (a.set (.ready (k + 1)) (ps ++ [p])).q (.ready (k + 1)) = ps ++ [p] := by
          simp [Abs.set]
        simp only [e2, Option.bind_some, r2.first, r2.last, hq2]
        cases ps with
        | nil =>
          simp only [List.nil_append, List.head?_cons, List.getLast?_singleton, if_true]
          have : a.set (.ready (k + 1)) ([] ++ [p]) = a := by
            unfold Abs.set
            cases a
            simp only at hq ⊢
            congr 1
            funext m
            split
            · rename_i h; subst h; exact hq.symm
            · rfl
          rw [this] at r2
          exact ih r2
        | cons x xs =>
          have hne : ¬ ((x :: xs ++ [p]).head? = (x :: xs ++ [p]).getLast?) := by
            have hnd := r.nodup (.ready (k + 1))
            rw [hq] at hnd
            have := (List.nodup_cons.mp hnd).1
            simp only [List.cons_append, List.head?_cons]
            rw [← List.cons_append, List.getLast?_append]
            simp only [List.getLast?_singleton, Option.some_or, Option.some.injEq]
            rintro rfl
            exact this (by simp)
          rw [if_neg hne]
          obtain ⟨s3, e3, r3, -⟩ := r2.removeFirst (l := .ready (k + 1)) (p := x) (ps := xs ++ [p])
            (by rw [hq2]; rfl)
          rw [e3]
          refine ⟨s3, rfl, ?_⟩
          have : ((a.set (.ready (k + 1)) (x :: xs ++ [p])).set (.ready (k + 1)) (xs ++ [p])) =
              a.set (.ready (k + 1)) (xs ++ [p]) := by
            unfold Abs.set
            congr 1
            funext m
            simp only
            split <;> rfl
          rw [this] at r3
          exact r3
      · exact ⟨s1, rfl, r1⟩

theorem Rep.highest (r : Rep s a) :
    ∃ s', highestPriority s = some (a.highest.1, s') ∧ Rep s' a.highest.2 :=
  Rep.highestLoop _ r

theorem Rep.nextScheduled (r : Rep s a) :
    ∃ s', Sched.nextScheduled s = some (a.nextScheduled.1, s') ∧ Rep s' a.nextScheduled.2 := by
  obtain ⟨s1, e1, r1⟩ := r.highest
  unfold Sched.nextScheduled Abs.nextScheduled
  simp only [e1, Option.bind_eq_bind, Option.bind_some]
  generalize hh : a.highest = h at *
  obtain ⟨h1, h2⟩ := h
  cases h1 with
  | some p => exact ⟨s1, rfl, r1⟩
  | none =>
    simp only at r1 ⊢
    rw [r1.scheduled]
    cases hs : h2.scheduled with
    | none => exact ⟨_, rfl, r1.withScheduled none⟩
    | some x =>
      simp only [r1.isReady, decide_eq_true_eq]
      split
      · exact ⟨_, rfl, r1⟩
      · exact ⟨_, rfl, r1.withScheduled none⟩

theorem Rep.yieldMacro (r : Rep s a) :
    ∃ s', Sched.yieldMacro s = some (a.yieldMacro.1, s') ∧ Rep s' a.yieldMacro.2 := by
  obtain ⟨s1, e1, r1⟩ := r.nextScheduled
  obtain ⟨s2, e2, r2⟩ := r1.activate a.nextScheduled.1
  unfold Sched.yieldMacro Abs.yieldMacro
  simp only [e1, e2, Option.bind_eq_bind, Option.bind_some]
  exact ⟨s2, rfl, r2⟩

theorem Rep.suspend (r : Rep s a) (p : Fin n) :
    ∃ s', Sched.suspend s p = some s' ∧ Rep s' (a.suspend p) := by
  obtain ⟨s1, e1, r1, -⟩ := r.remove p
  unfold Sched.suspend Abs.suspend
  simp only [e1, Option.bind_eq_bind, Option.bind_some]
  rw [show s1.scheduled = a.scheduled from r1.scheduled]
  split
  · obtain ⟨s2, e2, r2⟩ := r1.yieldMacro
    rw [e2]
    exact ⟨s2, rfl, r2⟩
  · exact ⟨s1, rfl, r1⟩

theorem Rep.kill (r : Rep s a) (p : Fin n) :
    Rep (s.setProc p fun P => { P with live := false }) (a.kill p) := by
  have h1 : ∀ x, ((s.setProc p fun P => { P with live := false }).proc x).next = (s.proc x).next := by
    intro x; simp only [VM.setProc]; split <;> rfl
  have h2 : ∀ x, ((s.setProc p fun P => { P with live := false }).proc x).myList = (s.proc x).myList := by
    intro x; simp only [VM.setProc]; split <;> rfl
  refine ⟨r.first, r.last, fun l => seg_congr (fun x _ => (h1 x).symm) (r.link l),
    fun l x => by rw [h2]; exact r.mem l x, r.nodup, fun x => by rw [h1, h2]; exact r.free x,
    fun x => ?_, fun x => ?_, r.signals, r.scheduled, r.switchTo, r.idle⟩
  · refine Eq.trans ?_ (r.prio x)
    simp only [VM.setProc]; split <;> rfl
  · simp only [VM.setProc, Abs.kill]
    split
    · rfl
    · exact r.live x

theorem Rep.setPrio (r : Rep s a) (p : Fin n) (k : Nat) :
    Rep (s.setProc p fun P => { P with prio := k })
      { a with prio := fun x => if x = p then k else a.prio x } := by
  have h1 : ∀ x, ((s.setProc p fun P => { P with prio := k }).proc x).next = (s.proc x).next := by
    intro x; simp only [VM.setProc]; split <;> rfl
  have h2 : ∀ x, ((s.setProc p fun P => { P with prio := k }).proc x).myList = (s.proc x).myList := by
    intro x; simp only [VM.setProc]; split <;> rfl
  refine ⟨r.first, r.last, fun l => seg_congr (fun x _ => (h1 x).symm) (r.link l),
    fun l x => by rw [h2]; exact r.mem l x, r.nodup, fun x => by rw [h1, h2]; exact r.free x,
    fun x => ?_, fun x => ?_, r.signals, r.scheduled, r.switchTo, r.idle⟩
  · simp only [VM.setProc]
    split
    · rfl
    · exact r.prio x
  · refine Eq.trans ?_ (r.live x)
    simp only [VM.setProc]; split <;> rfl

theorem Rep.setSignals (r : Rep s a) (l : Lid) (f : Int → Int) :
    Rep (s.setList l fun L => { L with signals := f L.signals })
      { a with signals := fun m => if m = l then f (a.signals m) else a.signals m } := by
  refine ⟨fun m => ?_, fun m => ?_, r.link, r.mem, r.nodup, r.free, r.prio, r.live, fun m => ?_,
    r.scheduled, r.switchTo, r.idle⟩
  · refine Eq.trans ?_ (r.first m)
    simp only [VM.setList]; split <;> rfl
  · refine Eq.trans ?_ (r.last m)
    simp only [VM.setList]; split <;> rfl
  · simp only [VM.setList]
    split
    · simp only [r.signals]
    · exact r.signals m

theorem Rep.terminate (r : Rep s a) (p : Fin n) :
    ∃ s', Sched.terminate s p = some s' ∧ Rep s' (a.terminate p) :=
  (r.kill p).suspend p

theorem Rep.activeYield (r : Rep s a) (x : Fin n) (hx : a.active = some x) :
    ∃ s', Sched.activeYield s = some s' ∧ Rep s' (a.activeYield x) := by
  obtain ⟨s1, e1, r1⟩ := r.highest
  unfold Sched.activeYield Abs.activeYield
  simp only [r.active, hx, e1, Option.bind_eq_bind, Option.bind_some, r1.isReady,
    decide_eq_true_eq]
  by_cases h : x ∈ a.highest.2.q (.ready (a.highest.2.prio x))
  · obtain ⟨s2, e2, r2⟩ := r1.sleep x
    simp only [h, if_true, e2, Option.bind_some]
    exact r2.activate _
  · simp only [h, if_false, Option.bind_some]
    exact r1.activate _

theorem Rep.resume (r : Rep s a) (p : Fin n) (ap : Bool) :
    ∃ s', Sched.resume s p ap = some ((a.resume p ap).1, s') ∧ Rep s' (a.resume p ap).2 := by
  obtain ⟨s1, e1, r1⟩ : ∃ s1, (if a.active = some p then removeProcess s p else some s) = some s1 ∧
      Rep s1 (if a.active = some p then a.remove p else a) := by
    split
    · obtain ⟨s1, e1, r1, -⟩ := r.remove p
      exact ⟨s1, e1, r1⟩
    · exact ⟨s, rfl, r⟩
  unfold Sched.resume Abs.resume
  simp only [r.active, e1, Option.bind_eq_bind, Option.bind_some, r.live, r.prio]
  generalize ha' : (if a.active = some p then a.remove p else a) = a' at *
  cases hl : a.live p with
  | false => simp only [Bool.not_false, if_true]; exact ⟨s1, rfl, r1⟩
  | true =>
    simp only [Bool.not_true, Bool.false_eq_true, if_false]
    cases ha : a.active with
    | none =>
      obtain ⟨s2, e2, r2⟩ := r1.activate (some p)
      simp only [e2, Option.bind_some]
      exact ⟨s2, rfl, r2⟩
    | some x =>
      simp only [Option.some.injEq]
      generalize (if x = p then ap else ap || decide (a.prio p ≥ a.prio x)) = cc
      cases cc with
      | true =>
        obtain ⟨s2, e2, r2⟩ : ∃ s2, (if (s1.proc x).myList ≠ none then sleepProcess s1 x else some s1)
            = some s2 ∧ Rep s2 (open Classical in if ∃ l, x ∈ a'.q l then a'.sleep x else a') := by
          by_cases hm : (s1.proc x).myList = none
          · rw [if_neg (by simpa using hm), if_neg]
            · exact ⟨s1, rfl, r1⟩
            · rintro ⟨l, hl⟩
              rw [(r1.mem l x).mpr hl] at hm; cases hm
          · rw [if_pos hm, if_pos]
            · exact r1.sleep x
            · cases hh : (s1.proc x).myList with
              | none => exact absurd hh hm
              | some l => exact ⟨l, (r1.mem l x).mp hh⟩
        obtain ⟨s3, e3, r3⟩ := r2.activate (some p)
        simp only [e2, e3, Option.bind_some, if_true]
        exact ⟨s3, rfl, r3⟩
      | false =>
        obtain ⟨s2, e2, r2⟩ := r1.addFirst (.ready (a.prio p)) p
        simp only [e2, Option.bind_some, Bool.false_eq_true, if_false]
        exact ⟨s2, rfl, r2⟩

/-- A dead process is only taken off. -/
theorem resume_dead (a : Abs n) (p : Fin n) (h : (a.resume p false).1 = false) (l : Lid) :
    ((a.resume p false).2.q l).length ≤ (a.q l).length := by
  unfold Abs.resume at h ⊢
  simp only at h ⊢
  cases hl : a.live p with
  | false =>
    simp only [Bool.not_false, if_true]
    split
    · exact List.length_filter_le _ _
    · exact le_refl _
  | true =>
    rw [hl] at h
    simp only [Bool.not_true, Bool.false_eq_true, if_false] at h
    cases ha : a.active with
    | none => rw [ha] at h; cases h
    | some x =>
      rw [ha] at h
      simp only at h
      generalize (if x = p then false else false || decide (a.prio p ≥ a.prio x)) = cc at h
      cases cc <;> cases h

theorem Rep.signalLoop (i : Nat) (incr : Bool) (fuel : Nat) : ∀ {s : VM n} {a : Abs n}, Rep s a →
    (a.q (.sem i)).length < fuel →
    ∃ s', Sched.signalLoop i incr fuel s = some ((a.signalLoop i incr fuel).1, s') ∧
      Rep s' (a.signalLoop i incr fuel).2 := by
  induction fuel with
  | zero => intro s a r h; omega
  | succ fuel ih =>
    intro s a r hlen
    unfold Sched.signalLoop Abs.signalLoop
    rw [r.isEmpty]
    cases hq : a.q (.sem i) with
    | nil =>
      simp only [List.isEmpty_nil, if_true]
      cases incr with
      | false => exact ⟨s, rfl, r⟩
      | true =>
        simp only [if_true]
        exact ⟨_, rfl, r.setSignals (.sem i) (fun x => x + 1)⟩
    | cons p ps =>
      obtain ⟨s1, e1, r1, -⟩ := r.removeFirst hq
      obtain ⟨s2, e2, r2⟩ := r1.resume p false
      simp only [List.isEmpty_cons, Bool.false_eq_true, if_false, e1, e2, Option.bind_eq_bind,
        Option.bind_some]
      by_cases ho : ((a.set (.sem i) ps).resume p false).1 = true
      · simp only [ho, if_true]
        exact ⟨s2, rfl, r2⟩
      · simp only [ho]
        refine ih r2 ?_
        have := resume_dead (a.set (.sem i) ps) p (by simpa using ho) (.sem i)
        have h2 : ((a.set (.sem i) ps).q (.sem i)) = ps := by simp [Abs.set]
        rw [h2] at this
        rw [hq] at hlen
        simp at hlen
        omega

theorem Rep.signal (r : Rep s a) (i : Nat) (incr : Bool) :
    ∃ s', Sched.signal s i incr = some ((a.signal i incr).1, s') ∧ Rep s' (a.signal i incr).2 :=
  Rep.signalLoop i incr (n + 1) r (by have := r.length_le (.sem i); omega)

theorem sem_activate (a : Abs n) (i : Nat) (p : Option (Fin n)) :
    ((a.activate p).q (.sem i)).length ≤ (a.q (.sem i)).length := by
  cases p with
  | none => exact le_refl _
  | some p =>
    unfold Abs.activate
    simp only
    split
    · exact le_refl _
    · simp only [Abs.addFirst, Abs.set, reduceCtorEq, if_false]
      exact List.length_filter_le _ _

theorem sem_sleep (a : Abs n) (i : Nat) (p : Fin n) :
    ((a.sleep p).q (.sem i)).length ≤ (a.q (.sem i)).length := by
  simp only [Abs.sleep, Abs.addLast, Abs.set, reduceCtorEq, if_false]
  exact List.length_filter_le _ _

theorem sem_remove (a : Abs n) (i : Nat) (p : Fin n) :
    ((a.remove p).q (.sem i)).length ≤ (a.q (.sem i)).length := List.length_filter_le _ _

theorem sem_resume (a : Abs n) (i : Nat) (p : Fin n) (ap : Bool) :
    ((a.resume p ap).2.q (.sem i)).length ≤ (a.q (.sem i)).length := by
  have h0 : (((if a.active = some p then a.remove p else a) : Abs n).q (.sem i)).length ≤
      (a.q (.sem i)).length := by
    split
    · exact sem_remove a i p
    · exact le_refl _
  unfold Abs.resume
  simp only
  generalize (if a.active = some p then a.remove p else a) = a' at *
  split
  · exact h0
  · cases a.active with
    | none => exact (sem_activate a' i (some p)).trans h0
    | some x =>
      simp only
      generalize (if x = p then ap else ap || decide (a.prio p ≥ a.prio x)) = cc
      cases cc with
      | true =>
        simp only [if_true]
        refine (sem_activate _ i _).trans ?_
        split
        · exact (sem_sleep _ i x).trans h0
        · exact h0
      | false =>
        simp only [Bool.false_eq_true, if_false, Abs.addFirst, Abs.set, reduceCtorEq]
        exact (sem_remove _ i p).trans h0

theorem sem_signalLoop (i : Nat) (fuel : Nat) : ∀ (a : Abs n) (p : Fin n),
    (a.signalLoop i false fuel).1 = some p →
    ((a.signalLoop i false fuel).2.q (.sem i)).length < (a.q (.sem i)).length := by
  induction fuel with
  | zero => intro a p h; cases h
  | succ fuel ih =>
    intro a p
    unfold Abs.signalLoop
    cases hq : a.q (.sem i) with
    | nil => intro h; cases h
    | cons x xs =>
      simp only
      have h1 := sem_resume (a.set (.sem i) xs) i x false
      have h2 : ((a.set (.sem i) xs).q (.sem i)) = xs := by simp [Abs.set]
      rw [h2] at h1
      split
      · intro _
        simp only [List.length_cons]; omega
      · intro h
        have := ih _ p h
        simp only [List.length_cons]; omega

theorem Rep.notifyLoop (i : Nat) (fuel : Nat) : ∀ {s : VM n} {a : Abs n}, Rep s a →
    (a.q (.sem i)).length < fuel →
    ∃ s', Sched.notifyLoop i fuel s = some s' ∧ Rep s' (a.notifyLoop i fuel) := by
  induction fuel with
  | zero => intro s a r h; omega
  | succ fuel ih =>
    intro s a r hlen
    obtain ⟨s1, e1, r1⟩ := r.signal i false
    unfold Sched.notifyLoop Abs.notifyLoop
    simp only [e1, Option.bind_eq_bind, Option.bind_some]
    cases hs : (a.signal i false).1 with
    | none => exact ⟨s1, rfl, r1⟩
    | some p =>
      have := sem_signalLoop i (n + 1) a p hs
      exact ih r1 (by unfold Abs.signal; omega)

theorem Rep.notifyAll (r : Rep s a) (i : Nat) :
    ∃ s', Sched.notifyAll s i = some s' ∧ Rep s' (a.notifyAll i) :=
  Rep.notifyLoop i (n + 1) r (by have := r.length_le (.sem i); omega)

theorem remove_addLast (a : Abs n) (l : Lid) (p : Fin n) :
    (a.remove p).addLast l p = a.addLast l p := by
  unfold Abs.addLast
  have : (a.remove p).remove p = a.remove p := by
    unfold Abs.remove
    congr 1
    funext m
    simp
  rw [this]

theorem Rep.syncWait (r : Rep s a) (i : Nat) (p : Fin n) :
    ∃ s', Sched.syncWait s i p = some s' ∧ Rep s' (a.syncWait i p) := by
  unfold Sched.syncWait Abs.syncWait
  rw [r.signals]
  split
  · obtain ⟨s1, e1, r1, -⟩ := r.remove p
    obtain ⟨s2, e2, r2⟩ := r1.addLast (.sem i) p
    rw [remove_addLast] at r2
    simp only [e1, e2, Option.bind_eq_bind, Option.bind_some, r.active]
    split
    · obtain ⟨s3, e3, r3⟩ := r2.yieldMacro
      simp only [e3, Option.bind_some]
      cases (a.addLast (.sem i) p).yieldMacro.1 with
      | none => exact ⟨_, rfl, r3.withIdle true⟩
      | some x => exact ⟨_, rfl, r3⟩
    · exact ⟨_, rfl, r2⟩
  · exact ⟨_, rfl, r.setSignals (.sem i) (fun x => x - 1)⟩

theorem Rep.step (r : Rep s a) (op : Op n) :
    ∃ s', Sched.step s op = some s' ∧ Rep s' (a.step op) := by
  cases op with
  | signal i =>
    obtain ⟨s1, e1, r1⟩ := r.signal i true
    exact ⟨s1, by simp only [Sched.step, e1, Option.map_some], r1⟩
  | notify i =>
    obtain ⟨s1, e1, r1⟩ := r.signal i false
    exact ⟨s1, by simp only [Sched.step, e1, Option.map_some], r1⟩
  | notifyAll i => exact r.notifyAll i
  | lock i => exact ⟨_, rfl, r.setSignals (.sem i) (fun _ => 0)⟩
  | wait i =>
    simp only [Sched.step, Abs.step, r.active, Sched.wait]
    cases ha : a.active with
    | none => simp only [if_true]; exact ⟨s, rfl, r⟩
    | some p =>
      simp only [reduceCtorEq, if_false, Option.bind_eq_bind, Option.bind_some]
      exact r.syncWait i p
  | waitFor i p => exact r.syncWait i p
  | suspend p => exact r.suspend p
  | terminate p => exact r.terminate p
  | resume p =>
    obtain ⟨s1, e1, r1⟩ := r.resume p false
    exact ⟨s1, by simp only [Sched.step, e1, Option.map_some], r1⟩
  | yield p =>
    simp only [Sched.step, Abs.step, Sched.yield, r.active]
    split
    · rename_i h; exact r.activeYield p h
    · exact ⟨s, rfl, r⟩
  | pause =>
    simp only [Sched.step, Abs.step, r.active]
    cases ha : a.active with
    | none => simp only [if_true]; exact ⟨s, rfl, r⟩
    | some p => simp only [reduceCtorEq, if_false]; exact r.activeYield p ha
  | preempt =>
    obtain ⟨s1, e1, r1⟩ := r.yieldMacro
    exact ⟨s1, by simp only [Sched.step, e1, Option.map_some], r1⟩
  | switch =>
    refine ⟨_, rfl, ?_⟩
    show Rep (Sched.switch s) a.switch
    unfold Sched.switch Abs.switch
    rw [r.switchTo]
    cases a.switchTo with
    | none => exact r
    | some p => exact (r.withScheduled (some p)).withSwitch none
  | setPriority p k =>
    simp only [Sched.step, Abs.step]
    split
    · exact ⟨_, rfl, r.setPrio p k⟩
    · exact ⟨s, rfl, r⟩

theorem Rep.run (r : Rep s a) (ops : List (Op n)) :
    ∃ s', Sched.run s ops = some s' ∧ Rep s' (a.run ops) := by
  induction ops with
  | nil => exact ⟨s, rfl, r⟩
  | cons op ops ih =>
    obtain ⟨s1, e1, r1⟩ := ih
    simp only [Sched.run, Abs.run, e1, Option.bind_eq_bind, Option.bind_some, r1.idle]
    split
    · exact ⟨s1, rfl, r1⟩
    · exact r1.step op

end Verif.Sched
