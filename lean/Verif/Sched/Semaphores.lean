import Verif.Sched.Props

/-!
# C16 and C17: semaphores
-/

namespace Verif.Sched

variable {n : Nat}

/-! ## Specification -/

def held (s : VM n) (i : Nat) : Int := (s.list (.sem i)).signals

/-- A semaphore that holds signals has no waiters, and the running process does not wait.
True of a new semaphore, whatever its initial count. -/
def Sane (s : VM n) : Prop :=
  Sound s ∧ (∀ i, 0 ≤ held s i ∧ (0 < held s i → ∀ p, ¬ Waiting s p i)) ∧
  ∀ p i, s.active = some p → ¬ Waiting s p i

/-- How many waits on semaphore `i` are completed by an operation that leads from `s` to
`s'`: a wait completes at once if the process does not wait afterwards; a signal completes
the waits of the live processes that stop waiting. -/
def completes (i : Nat) (s s' : VM n) : Op n → Nat
  | .wait j =>
    match s.active with
    | some p => if j = i ∧ ¬ Waiting s' p i then 1 else 0
    | none => 0
  | .waitFor j p => if j = i ∧ ¬ Waiting s' p i then 1 else 0
  | .signal j =>
    if j = i then
      (List.finRange n).countP fun x => (s.proc x).live ∧ Waiting s x i ∧ ¬ Waiting s' x i
    else 0
  | _ => 0

def sends (i : Nat) : Op n → Nat
  | .signal j => if j = i then 1 else 0
  | _ => 0

/-- The signals thrown away by `lock`. -/
def drops (i : Nat) (s : VM n) : Op n → Int
  | .lock j => if j = i then held s i else 0
  | _ => 0

/-- Sum over a history of what `f` says of each operation performed. -/
def total (f : VM n → VM n → Op n → Int) (s : VM n) : List (Op n) → Int
  | [] => 0
  | op :: ops => total f s ops + match run s ops, run s (op :: ops) with
    | some s1, some s2 => if s1.idle then 0 else f s1 s2 op
    | _, _ => 0

/-! ## C16 -/

/-- A semaphore with signals has no waiters. -/
def SemInv (a : Abs n) : Prop :=
  ∀ i, 0 ≤ a.signals (.sem i) ∧ (0 < a.signals (.sem i) → a.q (.sem i) = [])

theorem SemInv.sub {a b : Abs n} (h : SemInv a) (hs : SemSub a b) : SemInv b := fun i => by
  rw [hs.signals]
  refine ⟨(h i).1, fun hp => ?_⟩
  have := hs.sub i
  rw [(h i).2 hp] at this
  exact List.sublist_nil.mp this

/-- The effect of a signal on every semaphore. -/
theorem signal_effect {a : Abs n} (g : Good a) (hr : Running a) (i : Nat) (incr : Bool) :
    (((a.q (.sem i)).filter (fun x => a.live x) = [] ∧ (a.signal i incr).1 = none ∧
      (∀ j, (a.signal i incr).2.q (.sem j) = if j = i then [] else a.q (.sem j)) ∧
      (∀ l, (a.signal i incr).2.signals l =
        if l = .sem i then a.signals l + (if incr then 1 else 0) else a.signals l) ∧
      (∀ k, (a.signal i incr).2.q (.ready k) = a.q (.ready k)) ∧
      (a.signal i incr).2.active = a.active) ∨
    ∃ dead p ps, a.q (.sem i) = dead ++ p :: ps ∧ (∀ x ∈ dead, a.live x = false) ∧
      a.live p = true ∧ (a.signal i incr).1 = some p ∧
      (∀ j, (a.signal i incr).2.q (.sem j) = if j = i then ps else a.q (.sem j)) ∧
      (a.signal i incr).2.signals = a.signals ∧
      p ∈ (a.signal i incr).2.q (.ready (a.prio p)) ∧
      (∀ x k, x ∈ a.q (.ready k) → x ∈ (a.signal i incr).2.q (.ready k) ∨
        (a.active = some x ∧ x ∈ (a.signal i incr).2.q (.ready (a.prio x)))) ∧
      ((a.signal i incr).2.active = a.active ∨ (a.signal i incr).2.active = some p)) ∧
    (a.signal i incr).2.prio = a.prio ∧ (a.signal i incr).2.live = a.live ∧
    (a.signal i incr).2.idle = a.idle := by
  rw [g.signal_eq hr]
  have hsplit := List.takeWhile_append_dropWhile (p := fun x => !a.live x) (l := a.q (.sem i))
  have hdead : ∀ x ∈ (a.q (.sem i)).takeWhile (fun x => !a.live x), a.live x = false := by
    intro x hx
    have := List.all_takeWhile (p := fun x => !a.live x) (l := a.q (.sem i))
    rw [List.all_eq_true] at this
    simpa using this x hx
  cases hd : (a.q (.sem i)).dropWhile (fun x => !a.live x) with
  | nil =>
    rw [hd, List.append_nil] at hsplit
    refine ⟨.inl ⟨?_, rfl, fun j => ?_, fun l => ?_, fun k => ?_, ?_⟩, ?_, ?_, ?_⟩
    · rw [← hsplit, List.filter_eq_nil_iff]
      intro x hx
      rw [hsplit] at hx
      rw [← hsplit] at hx
      simp [hdead x hx]
    · simp only
      cases incr <;> simp [Abs.addSignals, Abs.set]
    · simp only
      cases incr <;> simp [Abs.addSignals, Abs.set]
    · simp only
      cases incr <;> simp [Abs.addSignals, Abs.set]
    all_goals
      simp only
      cases incr <;> rfl
  | cons p ps =>
    rw [hd] at hsplit
    have hlive : a.live p = true := by
      have h1 := List.head?_dropWhile_not (fun x => !a.live x) (a.q (.sem i))
      rw [hd] at h1
      simpa using h1
    have hp : p ∈ a.q (.sem i) := by rw [← hsplit]; simp
    have hnd := g.nodup (.sem i)
    rw [← hsplit] at hnd
    have hpps : p ∉ ps := (List.nodup_cons.mp (List.nodup_append.mp hnd).2.1).1
    have hsub : SemSub a (a.set (.sem i) ps) := by
      refine ⟨fun j => ?_, rfl, rfl⟩
      simp only [Abs.set]
      split
      · rename_i e; cases e
        rw [← hsplit]
        exact (List.sublist_cons_self _ _).trans (List.sublist_append_right _ _)
      · exact .refl _
    have hnp : ∀ l, p ∉ (a.set (.sem i) ps).q l := by
      intro l hm
      simp only [Abs.set] at hm
      split at hm
      · exact hpps hm
      · rename_i hl
        exact hl (g.one hm hp)
    obtain ⟨r1, r2, r3, r4, r5, r6, r7⟩ := resume_live (running_sub hr hsub rfl) p hlive hnp
      (fun e => hr p e i hp)
    refine ⟨.inr ⟨_, p, ps, hsplit.symm, hdead, hlive, rfl, fun j => ?_, r3, r2, ?_, ?_⟩, r4, r5, r6⟩
    · simp only
      rw [r1]
      simp only [Abs.set, Lid.sem.injEq]
    · intro x k hx
      exact r7 x k (by simpa [Abs.set] using hx)
    · exact resume_active _ p false

theorem syncWait_effect {a : Abs n} (g : Good a) (i : Nat) (p : Fin n) :
    (a.signals (.sem i) ≤ 0 ∧ (a.syncWait i p).signals = a.signals ∧
      (∀ j, (a.syncWait i p).q (.sem j) = (a.addLast (.sem i) p).q (.sem j))) ∨
    (0 < a.signals (.sem i) ∧ a.syncWait i p = a.addSignals i (-1)) := by
  by_cases h : a.signals (.sem i) ≤ 0
  · refine .inl ⟨h, ?_, fun j => ?_⟩
    · unfold Abs.syncWait
      rw [if_pos h]
      simp only
      have := (semsub_yieldMacro (g.addLast (.sem i) p)).signals
      split
      · cases (a.addLast (.sem i) p).yieldMacro.1 with
        | none => exact this
        | some x => exact this
      · rfl
    · unfold Abs.syncWait
      rw [if_pos h]
      simp only
      have := yieldMacro_sem (g.addLast (.sem i) p) j
      split
      · cases (a.addLast (.sem i) p).yieldMacro.1 with
        | none => exact this
        | some x => exact this
      · rfl
  · refine .inr ⟨by omega, ?_⟩
    unfold Abs.syncWait
    rw [if_neg h]

theorem addLast_sem (a : Abs n) (i j : Nat) (p : Fin n) : (a.addLast (.sem i) p).q (.sem j) =
    if j = i then (a.q (.sem i)).filter (· ≠ p) ++ [p] else (a.q (.sem j)).filter (· ≠ p) := by
  simp only [Abs.addLast, Abs.set, Abs.remove, Lid.sem.injEq]

/-- Operations that change no count and add no waiter. -/
def Op.plain : Op n → Bool
  | .signal _ | .wait _ | .waitFor _ _ | .lock _ => false
  | _ => true

theorem semsub_step {a : Abs n} (g : Good a) (op : Op n) (h : op.plain = true) :
    SemSub a (a.step op) := by
  cases op with
  | signal i => cases h
  | wait i => cases h
  | waitFor i p => cases h
  | lock i => cases h
  | notify i => exact semsub_notify i
  | notifyAll i => exact semsub_notifyAll i _ a
  | suspend p => exact semsub_suspend g p
  | terminate p =>
    have g' : Good (a.kill p) := let ⟨_, r⟩ := g; ⟨_, r.kill p⟩
    have := semsub_suspend g' p
    exact ⟨this.sub, this.signals, this.idle⟩
  | resume p => exact semsub_resume p false
  | yield p =>
    unfold Abs.step
    simp only
    split
    · exact semsub_activeYield g p
    · exact .refl a
  | pause =>
    unfold Abs.step
    cases a.active with
    | none => exact .refl a
    | some p => exact semsub_activeYield g p
  | preempt => exact semsub_yieldMacro g
  | switch =>
    unfold Abs.step Abs.switch
    simp only
    cases a.switchTo with
    | none => exact .refl a
    | some p => exact ⟨fun _ => .refl _, rfl, rfl⟩
  | setPriority p k =>
    unfold Abs.step
    simp only
    split
    · exact ⟨fun _ => .refl _, rfl, rfl⟩
    · exact .refl a

theorem seminv_syncWait {a : Abs n} (g : Good a) (h : SemInv a) (i : Nat) (p : Fin n) :
    SemInv (a.syncWait i p) := by
  intro j
  rcases syncWait_effect g i p with ⟨h1, h2, h3⟩ | ⟨h1, h2⟩
  · rw [h2, h3, addLast_sem]
    refine ⟨(h j).1, fun hp => ?_⟩
    split
    · rename_i e; subst e; omega
    · rw [(h j).2 hp]; rfl
  · rw [h2]
    simp only [Abs.addSignals, Lid.sem.injEq]
    split
    · rename_i e; subst e
      exact ⟨by omega, fun _ => (h j).2 h1⟩
    · exact h j

theorem seminv_step {a : Abs n} (g : Good a) (hr : Running a) (h : SemInv a) (op : Op n) :
    SemInv (a.step op) := by
  by_cases hp : op.plain = true
  · exact h.sub (semsub_step g op hp)
  · cases op with
    | signal i =>
      intro j
      show 0 ≤ (a.signal i true).2.signals _ ∧ (0 < (a.signal i true).2.signals _ →
        (a.signal i true).2.q _ = [])
      obtain ⟨he, -⟩ := signal_effect g hr i true
      rcases he with ⟨-, -, e1, e2, -⟩ | ⟨d, p, ps, hq, -, -, -, e1, e2, -⟩
      · rw [e1, e2]
        simp only [Lid.sem.injEq]
        split
        · rename_i e; subst e
          have := (h j).1
          exact ⟨by simp; omega, fun _ => rfl⟩
        · exact h j
      · rw [e1, e2]
        refine ⟨(h j).1, fun hpos => ?_⟩
        split
        · rename_i e; subst e
          have := (h j).2 hpos
          rw [hq] at this
          simp at this
        · exact (h j).2 hpos
    | wait i =>
      unfold Abs.step
      cases a.active with
      | none => exact h
      | some p => exact seminv_syncWait g h i p
    | waitFor i p => exact seminv_syncWait g h i p
    | lock i =>
      intro j
      show 0 ≤ (if Lid.sem j = Lid.sem i then (0 : Int) else _) ∧
        (0 < (if Lid.sem j = Lid.sem i then (0 : Int) else _) → _)
      split
      · exact ⟨le_refl _, fun h => absurd h (lt_irrefl _)⟩
      · exact h j
    | _ => exact absurd rfl hp

theorem Sane.rep {s : VM n} (h : Sane s) : ∃ a : Abs n, Rep s a ∧ SemInv a ∧ Running a := by
  obtain ⟨h1, h2, h3⟩ := h
  obtain ⟨a, r⟩ := h1.rep
  refine ⟨a, r, fun i => ?_, fun x hx i hm => ?_⟩
  · have := h2 i
    unfold held at this
    rw [r.signals] at this
    refine ⟨this.1, fun hp => ?_⟩
    rw [List.eq_nil_iff_forall_not_mem]
    intro p hm
    exact this.2 hp p ((r.mem _ p).mpr hm)
  · exact h3 x i (by rw [r.active, hx]) ((r.mem _ x).mpr hm)

theorem Rep.sane {s : VM n} {a : Abs n} (r : Rep s a) (h1 : SemInv a) (h2 : Running a) : Sane s := by
  refine ⟨r.sound, fun i => ?_, fun p i hp hw => ?_⟩
  · unfold held
    rw [r.signals]
    refine ⟨(h1 i).1, fun hp p hw => ?_⟩
    have := (r.mem _ p).mp hw
    rw [(h1 i).2 hp] at this
    cases this
  · exact h2 p (by rw [← r.active, hp]) i ((r.mem _ p).mp hw)

/-- The invariants along a history. -/
theorem history {s : VM n} {a : Abs n} (r : Rep s a) (h1 : SemInv a) (h2 : Running a)
    (ops : List (Op n)) :
    SemInv (a.run ops) ∧ ((a.run ops).idle = true ∨ Running (a.run ops)) := by
  have g : Good a := ⟨s, r⟩
  induction ops with
  | nil => exact ⟨h1, .inr h2⟩
  | cons op ops ih =>
    unfold Abs.run
    split
    · exact ih
    · rename_i hi
      have hr := ih.2.resolve_left hi
      exact ⟨seminv_step (g.run ops) hr ih.1 op, running_step (g.run ops) hr op⟩

/-- **C16.**  In every state of every history, a semaphore that holds signals has no process
waiting on it, and never holds a negative number of signals. -/
theorem no_waiter_with_signals (s s' : VM n) (h : Sane s) (ops : List (Op n))
    (hs : run s ops = some s') (i : Nat) :
    0 ≤ held s' i ∧ (0 < held s' i → ∀ p, ¬ Waiting s' p i) := by
  obtain ⟨a, r, h1, h2⟩ := h.rep
  obtain ⟨s1, e, r'⟩ := r.run ops
  rw [hs] at e
  cases e
  have := (history r h1 h2 ops).1 i
  unfold held
  rw [r'.signals]
  refine ⟨this.1, fun hp p hw => ?_⟩
  have hm := (r'.mem _ p).mp hw
  rw [this.2 hp] at hm
  cases hm

theorem countP_one (p : Fin n) (f : Fin n → Bool) (h : ∀ x, f x = true ↔ x = p) :
    (List.finRange n).countP f = 1 := by
  have : (List.finRange n).countP f = (List.finRange n).count p := by
    unfold List.count
    apply List.countP_congr
    intro x _
    rw [h x]
    simp
  rw [this]
  exact List.count_eq_one_of_mem (List.nodup_finRange n) (List.mem_finRange p)

/-- The account of one operation. -/
theorem step_account {s s' : VM n} {a : Abs n} (r : Rep s a) (h1 : SemInv a) (h2 : Running a)
    (op : Op n) (r' : Rep s' (a.step op)) (i : Nat) :
    (completes i s s' op : Int) + held s' i + drops i s op = held s i + sends i op := by
  have g : Good a := ⟨s, r⟩
  have hw : ∀ x j, Waiting s x j ↔ x ∈ a.q (.sem j) := fun x j => r.mem _ x
  have hw' : ∀ x j, Waiting s' x j ↔ x ∈ (a.step op).q (.sem j) := fun x j => r'.mem _ x
  have hh : held s i = a.signals (.sem i) := r.signals _
  have hh' : held s' i = (a.step op).signals (.sem i) := r'.signals _
  by_cases hp : op.plain = true
  · have := (semsub_step g op hp).signals
    rw [hh, hh', this]
    cases op <;> first | (cases hp; done) | simp [completes, sends, drops]
  · have hwait : ∀ j p, Rep s' (a.syncWait j p) → (j = i → 0 < a.signals (.sem i) → p ∉ a.q (.sem i)) →
        ((if j = i ∧ ¬ Waiting s' p i then 1 else 0 : Nat) : Int) + held s' i = held s i := by
      intro j p r' hnp
      have hh' : held s' i = (a.syncWait j p).signals (.sem i) := r'.signals _
      have hw' : Waiting s' p i ↔ p ∈ (a.syncWait j p).q (.sem i) := r'.mem _ p
      rcases syncWait_effect g j p with ⟨e1, e2, e3⟩ | ⟨e1, e2⟩
      · rw [hh', hh, e2]
        have : ¬ (j = i ∧ ¬ Waiting s' p i) := by
          rintro ⟨rfl, hn⟩
          apply hn
          rw [hw', e3, addLast_sem]
          simp
        rw [if_neg this]
        simp
      · rw [hh', hh]
        rw [e2] at hw' ⊢
        by_cases hji : j = i
        · subst hji
          have hn : ¬ Waiting s' p j := by
            rw [hw']
            exact hnp rfl e1
          simp only [hn, not_false_eq_true, and_self, if_true, Abs.addSignals]
          omega
        · have : ¬ Lid.sem i = Lid.sem j := fun e => hji (Lid.sem.inj e).symm
          simp [hji, Abs.addSignals, this]
    cases op with
    | signal j =>
      have e : a.step (.signal j) = (a.signal j true).2 := rfl
      rw [hh, hh', e]
      rw [e] at hw'
      obtain ⟨he, -⟩ := signal_effect g h2 j true
      simp only [completes, sends, drops]
      by_cases hji : j = i
      · subst hji
        simp only [if_true]
        rcases he with ⟨e0, -, e1, e2, -⟩ | ⟨d, p, ps, hq, hd, hl, -, e1, e2, -⟩
        · have hz : (List.finRange n).countP (fun x =>
              decide ((s.proc x).live ∧ Waiting s x j ∧ ¬ Waiting s' x j)) = 0 := by
            rw [List.countP_eq_zero]
            intro x _
            simp only [decide_eq_true_eq]
            rintro ⟨hx1, hx2, -⟩
            have : x ∈ (a.q (.sem j)).filter (fun x => a.live x) := by
              simp only [List.mem_filter]
              exact ⟨(hw x j).mp hx2, by rw [← r.live]; exact hx1⟩
            rw [e0] at this
            cases this
          rw [hz, e2]
          simp
        · have hz : (List.finRange n).countP (fun x =>
              decide ((s.proc x).live ∧ Waiting s x j ∧ ¬ Waiting s' x j)) = 1 := by
            apply countP_one p
            intro x
            simp only [decide_eq_true_eq, hw, hw', e1, if_true, r.live]
            rw [hq]
            have hnd := g.nodup (.sem j)
            rw [hq] at hnd
            have hpps : p ∉ ps := (List.nodup_cons.mp (List.nodup_append.mp hnd).2.1).1
            constructor
            · rintro ⟨hx1, hx2, hx3⟩
              simp only [List.mem_append, List.mem_cons] at hx2
              rcases hx2 with hx2 | hx2 | hx2
              · rw [hd x hx2] at hx1; cases hx1
              · exact hx2
              · exact absurd hx2 hx3
            · rintro rfl
              exact ⟨hl, by simp, hpps⟩
          rw [hz, e2]
          simp
          omega
      · have hne : ¬ Lid.sem i = Lid.sem j := fun e => hji (Lid.sem.inj e).symm
        simp only [hji, if_false]
        rcases he with ⟨-, -, -, e2, -⟩ | ⟨d, p, ps, -, -, -, -, -, e2, -⟩
        · rw [e2, if_neg hne]; simp
        · rw [e2]; simp
    | wait j =>
      simp only [completes, sends, drops, r.active]
      have e : a.step (.wait j) = (match a.active with | none => a | some p => a.syncWait j p) := rfl
      cases ha : a.active with
      | none =>
        rw [ha] at e
        rw [e] at r'
        have : held s' i = a.signals (.sem i) := r'.signals _
        rw [hh, this]; simp
      | some p =>
        rw [ha] at e
        rw [e] at r'
        have := hwait j p r' (fun _ _ => h2 p ha i)
        simp only
        rw [this]; simp
    | waitFor j p =>
      simp only [completes, sends, drops]
      have := hwait j p r' (fun _ hpos => by rw [(h1 i).2 hpos]; simp)
      rw [this]; simp
    | lock j =>
      rw [hh']
      have : (a.step (.lock j)).signals (.sem i) =
        if Lid.sem i = Lid.sem j then 0 else a.signals (.sem i) := rfl
      rw [this]
      simp only [completes, sends, drops]
      by_cases hji : j = i
      · subst hji; simp
      · have hne : ¬ Lid.sem i = Lid.sem j := fun e => hji (Lid.sem.inj e).symm
        rw [if_neg hne, if_neg hji, hh]; simp
    | _ => exact absurd rfl hp

/-- **C16.**  In every history, the completed waits, the signals still held and the signals
dropped by `lock` add up to the initial count and the signals sent. -/
theorem signals_conserved (s s' : VM n) (h : Sane s) (ops : List (Op n))
    (hs : run s ops = some s') (i : Nat) :
    total (fun s1 s2 op => completes i s1 s2 op) s ops + held s' i +
        total (fun s1 _ op => drops i s1 op) s ops =
      held s i + total (fun _ _ op => sends i op) s ops := by
  obtain ⟨a, r, h1, h2⟩ := h.rep
  induction ops generalizing s' with
  | nil => cases hs; simp [total]
  | cons op ops ih =>
    obtain ⟨s1, e1, r1⟩ := r.run ops
    have ih := ih s1 e1
    have hrun : run s (op :: ops) = if s1.idle then some s1 else step s1 op := by
      simp only [run, e1, Option.bind_eq_bind, Option.bind_some]
    simp only [total, e1, hs]
    by_cases hi : s1.idle = true
    · rw [hrun, if_pos hi] at hs
      cases hs
      simp only [hi, if_true]
      omega
    · rw [hrun, if_neg hi] at hs
      obtain ⟨h3, h4⟩ := history r h1 h2 ops
      have hr := h4.resolve_left (by rw [← r1.idle]; exact hi)
      obtain ⟨s2, e2, r2⟩ := r1.step op
      rw [hs] at e2
      cases e2
      have := step_account r1 h3 hr op r2 i
      rw [if_neg hi, if_neg hi, if_neg hi]
      omega

/-! ## C17 -/

/-- The event loop puts `p` (back) on semaphore `i`. -/
def Op.queues (i : Nat) (p : Fin n) : Op n → Prop
  | .waitFor j r => j = i ∧ r = p
  | _ => False

instance (i : Nat) (p : Fin n) (op : Op n) : Decidable (op.queues i p) := by
  cases op <;> (unfold Op.queues; exact inferInstance)

/-- The moment (length of the history) at which process `p` started its present wait on
semaphore `i`. -/
def arrival (s : VM n) (i : Nat) : List (Op n) → Fin n → Nat
  | [], _ => 0
  | op :: ops, p =>
    match run s ops, run s (op :: ops) with
    | some s1, some s2 =>
      if s1.idle = false ∧ Waiting s2 p i ∧
          (¬ Waiting s1 p i ∨ op.queues i p)
      then ops.length + 1 else arrival s i ops p
    | _, _ => 0

/-- The queue is in the order of arrival. -/
theorem sorted_by_arrival {s : VM n} {a : Abs n} (r : Rep s a) (h1 : SemInv a) (h2 : Running a)
    (i : Nat) (h0 : a.q (.sem i) = []) (ops : List (Op n)) :
    ((a.run ops).q (.sem i)).Pairwise (fun x y => arrival s i ops x < arrival s i ops y) ∧
    ∀ x, arrival s i ops x ≤ ops.length := by
  have g : Good a := ⟨s, r⟩
  induction ops with
  | nil =>
    refine ⟨?_, fun x => le_refl _⟩
    show (a.q (.sem i)).Pairwise _
    rw [h0]; exact .nil
  | cons op ops ih =>
    obtain ⟨ih1, ih2⟩ := ih
    obtain ⟨s1, e1, r1⟩ := r.run ops
    obtain ⟨s2, e2, r2⟩ := r.run (op :: ops)
    obtain ⟨h3, h4⟩ := history r h1 h2 ops
    have gr := g.run ops
    have harr : ∀ x, arrival s i (op :: ops) x = if s1.idle = false ∧ Waiting s2 x i ∧
          (¬ Waiting s1 x i ∨ op.queues i x)
        then ops.length + 1 else arrival s i ops x := by
      intro x; simp only [arrival, e1, e2]
    refine ⟨?_, fun x => ?_⟩
    swap
    · rw [harr]
      split
      · simp
      · have := ih2 x; simp; omega
    have hw1 : ∀ x, Waiting s1 x i ↔ x ∈ (a.run ops).q (.sem i) := fun x => r1.mem _ x
    have hw2 : ∀ x, Waiting s2 x i ↔ x ∈ (a.run (op :: ops)).q (.sem i) := fun x => r2.mem _ x
    have hrun : a.run (op :: ops) = if (a.run ops).idle then a.run ops else (a.run ops).step op := rfl
    -- a sublist of the queue, when the operation is not a `waitFor` of one of its members
    have hsub : ((a.run (op :: ops)).q (.sem i)).Sublist ((a.run ops).q (.sem i)) →
        (s1.idle = false → ∀ j x, op = .waitFor j x → j = i → x ∉ (a.run (op :: ops)).q (.sem i)) →
        ((a.run (op :: ops)).q (.sem i)).Pairwise
          (fun x y => arrival s i (op :: ops) x < arrival s i (op :: ops) y) := by
      intro hs hno
      refine (ih1.sublist hs).imp_of_mem ?_
      intro x y hx hy hxy
      have hold : ∀ z ∈ (a.run (op :: ops)).q (.sem i), arrival s i (op :: ops) z = arrival s i ops z := by
        intro z hz
        rw [harr, if_neg]
        rintro ⟨hi, -, hz' | hz'⟩
        · exact hz' ((hw1 z).mpr (hs.subset hz))
        · cases op <;> try (exact hz')
          rename_i j p
          obtain ⟨rfl, rfl⟩ := hz'
          exact hno hi j p rfl rfl hz
      rw [hold x hx, hold y hy]
      exact hxy
    by_cases hidle : (a.run ops).idle = true
    · apply hsub
      · rw [hrun, if_pos hidle]
      · intro hf; rw [r1.idle, hidle] at hf; cases hf
    have hr := h4.resolve_left hidle
    have hrun' : a.run (op :: ops) = (a.run ops).step op := by rw [hrun, if_neg hidle]
    have hidle1 : s1.idle = false := by rw [r1.idle]; simpa using hidle
    -- a wait
    have hwait : ∀ j p, a.run (op :: ops) = (a.run ops).syncWait j p →
        (op = .waitFor j p ∨ p ∉ (a.run ops).q (.sem i) ∧ ∀ j x, op ≠ .waitFor j x) →
        ((a.run (op :: ops)).q (.sem i)).Pairwise
          (fun x y => arrival s i (op :: ops) x < arrival s i (op :: ops) y) := by
      intro j p he hop
      rcases syncWait_effect gr j p with ⟨f1, f2, f3⟩ | ⟨f1, f2⟩
      · by_cases hji : j = i
        · subst hji
          have hq : (a.run (op :: ops)).q (.sem j) = ((a.run ops).q (.sem j)).filter (· ≠ p) ++ [p] := by
            rw [he, f3, addLast_sem, if_pos rfl]
          rw [hq, List.pairwise_append]
          have hold : ∀ x ∈ ((a.run ops).q (.sem j)).filter (· ≠ p),
              arrival s j (op :: ops) x = arrival s j ops x := by
            intro x hx
            simp only [List.mem_filter, decide_eq_true_eq] at hx
            rw [harr, if_neg]
            rintro ⟨-, -, hz' | hz'⟩
            · exact hz' ((hw1 x).mpr hx.1)
            · rcases hop with hop | ⟨-, hop⟩
              · subst hop
                exact hx.2 hz'.2.symm
              · cases op <;> try (exact hz')
                exact hop _ _ rfl
          have hnew : arrival s j (op :: ops) p = ops.length + 1 := by
            rw [harr, if_pos]
            refine ⟨hidle1, (hw2 p).mpr (by rw [hq]; simp), ?_⟩
            rcases hop with hop | ⟨hop, -⟩
            · subst hop; exact .inr ⟨rfl, rfl⟩
            · exact .inl fun hw => hop ((hw1 p).mp hw)
          refine ⟨?_, List.pairwise_singleton _ _, ?_⟩
          · refine (ih1.sublist List.filter_sublist).imp_of_mem ?_
            intro x y hx hy hxy
            rw [hold x hx, hold y hy]
            exact hxy
          · intro x hx y hy
            simp only [List.mem_singleton] at hy
            rw [hy, hnew, hold x hx]
            have := ih2 x; omega
        · apply hsub
          · rw [he, f3, addLast_sem, if_neg (fun e => hji e.symm)]
            exact List.filter_sublist
          · intro _ j' x hx hj'
            rcases hop with hop | ⟨-, hop⟩
            · rw [hop] at hx; cases hx; exact absurd hj' hji
            · exact absurd hx (hop _ _)
      · apply hsub
        · rw [he, f2]; exact .refl _
        · intro _ j' x hx hj'
          rcases hop with hop | ⟨-, hop⟩
          · rw [hop] at hx
            cases hx
            subst hj'
            rw [he, f2]
            show p ∉ (a.run ops).q (.sem j)
            rw [(h3 j).2 f1]
            simp
          · exact absurd hx (hop _ _)
    by_cases hp : op.plain = true
    · apply hsub
      · rw [hrun']; exact (semsub_step gr op hp).sub i
      · rintro _ j x rfl; cases hp
    · cases op with
      | signal j =>
        apply hsub
        · rw [hrun']; exact semsub_signalLoop_sub j true _ _ i
        · rintro _ j x ⟨⟩
      | wait j =>
        have he : (a.run ops).step (.wait j) =
          (match (a.run ops).active with | none => a.run ops | some p => (a.run ops).syncWait j p) := rfl
        cases ha : (a.run ops).active with
        | none =>
          rw [ha] at he
          apply hsub
          · rw [hrun', he]
          · rintro _ j x ⟨⟩
        | some p =>
          rw [ha] at he
          exact hwait j p (hrun'.trans he) (.inr ⟨hr p ha i, by intro j x; exact nofun⟩)
      | waitFor j p => exact hwait j p hrun' (.inl rfl)
      | lock j =>
        apply hsub
        · rw [hrun']; exact .refl _
        · rintro _ j x ⟨⟩
      | _ => exact absurd rfl hp

/-- **C17.**  In every history, `signal` releases one of the live waiters, if there are any,
makes it ready, and it is the one that has waited longest; no other live waiter is moved. -/
theorem signal_is_fifo (s s1 s2 : VM n) (h : Sane s) (i : Nat) (h0 : ∀ p, ¬ Waiting s p i)
    (ops : List (Op n)) (hs : run s ops = some s1) (hi : s1.idle = false)
    (hs2 : step s1 (.signal i) = some s2) (w : Fin n) (hw : Waiting s1 w i)
    (hl : (s1.proc w).live = true) :
    ∃ y, Waiting s1 y i ∧ (s1.proc y).live = true ∧
      (s2.proc y).myList = some (.ready (s1.proc y).prio) ∧
      ∀ x, Waiting s1 x i → (s1.proc x).live = true → x ≠ y →
        arrival s i ops y < arrival s i ops x ∧ Waiting s2 x i := by
  obtain ⟨a, r, h1, h2⟩ := h.rep
  obtain ⟨_, e1, r1⟩ := r.run ops
  rw [hs] at e1
  cases e1
  obtain ⟨_, e2, r2⟩ := r1.step (.signal i)
  rw [hs2] at e2
  cases e2
  obtain ⟨h3, h4⟩ := history r h1 h2 ops
  have hr := h4.resolve_left (by rw [← r1.idle, hi]; simp)
  have g1 : Good (a.run ops) := ⟨_, r1⟩
  have hsort := (sorted_by_arrival r h1 h2 i (by
    rw [List.eq_nil_iff_forall_not_mem]
    intro p hm
    exact h0 p ((r.mem _ p).mpr hm)) ops).1
  have e : (a.run ops).step (.signal i) = ((a.run ops).signal i true).2 := rfl
  rw [e] at r2
  obtain ⟨he, -⟩ := signal_effect g1 hr i true
  rcases he with ⟨e0, -⟩ | ⟨d, p, ps, hq, hd, hlp, -, f1, f2, f3, -⟩
  · have : w ∈ ((a.run ops).q (.sem i)).filter (fun x => (a.run ops).live x) := by
      simp only [List.mem_filter]
      exact ⟨(r1.mem _ w).mp hw, by rw [← r1.live]; exact hl⟩
    rw [e0] at this
    cases this
  · refine ⟨p, (r1.mem _ p).mpr (by rw [hq]; simp), by rw [r1.live]; exact hlp, ?_, ?_⟩
    · rw [r1.prio]; exact (r2.mem _ p).mpr f3
    · intro x hx hxl hxp
      have hx := (r1.mem _ x).mp hx
      rw [hq] at hx hsort
      simp only [List.mem_append, List.mem_cons] at hx
      rcases hx with hx | hx | hx
      · rw [r1.live, hd x hx] at hxl; cases hxl
      · exact absurd hx hxp
      · rw [List.pairwise_append, List.pairwise_cons] at hsort
        refine ⟨hsort.2.1.1 x hx, (r2.mem _ x).mpr ?_⟩
        rw [f1, if_pos rfl]
        exact hx

theorem notifyLoop_empty (i : Nat) (fuel : Nat) : ∀ a : Abs n, Good a → Running a →
    (a.q (.sem i)).length < fuel → (a.notifyLoop i fuel).q (.sem i) = [] ∧
    (∀ x ∈ a.q (.sem i), a.live x = true → x ∈ (a.notifyLoop i fuel).q (.ready (a.prio x))) ∧
    (∀ x, x ∈ a.q (.ready (a.prio x)) → x ∈ (a.notifyLoop i fuel).q (.ready (a.prio x))) := by
  induction fuel with
  | zero => intro a _ _ h; omega
  | succ fuel ih =>
    intro a g hr hlen
    unfold Abs.notifyLoop
    obtain ⟨he, e1, e2, -⟩ := signal_effect g hr i false
    rcases he with ⟨e0, e3, e4, -, e5, -⟩ | ⟨d, p, ps, hq, hd, hlp, e3, f1, -, f3, f4, -⟩
    · rw [e3]
      refine ⟨by simp only; rw [e4, if_pos rfl], fun x hx hl => ?_, fun x hx => ?_⟩
      · have : x ∈ (a.q (.sem i)).filter (fun x => a.live x) := by
          simp only [List.mem_filter]; exact ⟨hx, hl⟩
        rw [e0] at this
        cases this
      · simp only; rw [e5]; exact hx
    · rw [e3]
      simp only
      have hqq : (a.signal i false).2.q (.sem i) = ps := by rw [f1, if_pos rfl]
      have := ih (a.signal i false).2 (g.signal i false) (running_signalLoop i false _ a hr) (by
        rw [hqq]; rw [hq] at hlen; simp at hlen; omega)
      rw [hqq, e1, e2] at this
      obtain ⟨i1, i2, i3⟩ := this
      refine ⟨i1, fun x hx hl => ?_, fun x hx => ?_⟩
      · rw [hq] at hx
        simp only [List.mem_append, List.mem_cons] at hx
        rcases hx with hx | rfl | hx
        · rw [hd x hx] at hl; cases hl
        · exact i3 x f3
        · exact i2 x hx hl
      · apply i3
        rcases f4 x _ hx with f4 | ⟨-, f4⟩
        · exact f4
        · exact f4

/-- **C17.**  `notifyAll` releases all waiters; the live ones become ready. -/
theorem notifyAll_releases (s s1 s2 : VM n) (h : Sane s) (i : Nat) (ops : List (Op n))
    (hs : run s ops = some s1) (hi : s1.idle = false) (hs2 : step s1 (.notifyAll i) = some s2) :
    (∀ x, ¬ Waiting s2 x i) ∧
    ∀ x, Waiting s1 x i → (s1.proc x).live = true →
      (s2.proc x).myList = some (.ready (s1.proc x).prio) := by
  obtain ⟨a, r, h1, h2⟩ := h.rep
  obtain ⟨_, e1, r1⟩ := r.run ops
  rw [hs] at e1
  cases e1
  obtain ⟨_, e2, r2⟩ := r1.step (.notifyAll i)
  rw [hs2] at e2
  cases e2
  obtain ⟨h3, h4⟩ := history r h1 h2 ops
  have hr := h4.resolve_left (by rw [← r1.idle, hi]; simp)
  have g1 : Good (a.run ops) := ⟨_, r1⟩
  obtain ⟨f1, f2, -⟩ := notifyLoop_empty i (n + 1) (a.run ops) g1 hr (by
    have := g1.length_le (.sem i); omega)
  refine ⟨fun x hw => ?_, fun x hw hl => ?_⟩
  · have := (r2.mem _ x).mp hw
    rw [show (a.run ops).step (.notifyAll i) = (a.run ops).notifyLoop i (n + 1) from rfl, f1] at this
    cases this
  · rw [r1.prio]
    exact (r2.mem _ x).mpr (f2 x ((r1.mem _ x).mp hw) (by rw [← r1.live]; exact hl))

/-! ### Examples -/

theorem three_sane : Sane three := by
  refine ⟨three_sound, fun i => ?_, fun p i h => ?_⟩
  · have : held three i = 0 := by simp [held, three]
    rw [this]
    exact ⟨le_refl _, fun h => absurd h (lt_irrefl _)⟩
  · have : p = 0 := by
      have : some (0 : Fin 3) = some p := h
      exact (Option.some.inj this).symm
    subst this
    simp [Waiting, three]

/-- Two processes wait on semaphore 7; the first signal releases process 0, which waits
longer than process 2. -/
example : ∃ s1 s2, run three [.switch, .wait 7, .switch, .wait 7, .resume 2, .resume 1] = some s1 ∧
    s1.idle = false ∧ Waiting s1 0 7 ∧ Waiting s1 2 7 ∧ step s1 (.signal 7) = some s2 ∧
    (s2.proc 0).myList = some (.ready 5) ∧ Waiting s2 2 7 := by
  refine ⟨_, _, rfl, ?_, ?_, ?_, rfl, ?_, ?_⟩ <;> decide

example : arrival three 7 [.switch, .wait 7, .switch, .wait 7, .resume 2, .resume 1] 0 = 3 ∧
    arrival three 7 [.switch, .wait 7, .switch, .wait 7, .resume 2, .resume 1] 2 = 5 := by
  constructor <;> decide

/-- The account is not trivial: two signals sent, one wait completed, one signal held. -/
example : total (fun _ _ op => sends 7 op) three [.wait 7, .signal 7, .signal 7] = 2 ∧
    total (fun s1 s2 op => completes 7 s1 s2 op) three [.wait 7, .signal 7, .signal 7] = 1 := by
  constructor <;> decide

end Verif.Sched
