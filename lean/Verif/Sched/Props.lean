import Verif.Sched.Inv

/-!
# C14 and C15: process lists and the choice of the process to run
-/

namespace Verif.Sched

variable {n : Nat}

/-! ## Specification -/

/-- The list object `l` holds exactly the processes `xs`, in that order: the first and last
links match and every process points to the next one. -/
def Chain (s : VM n) (l : Lid) (xs : List (Fin n)) : Prop :=
  (s.list l).first = xs.head? ∧ (s.list l).last = xs.getLast? ∧ xs.Nodup ∧
    ∀ j x, xs[j]? = some x → (s.proc x).next = xs[j + 1]?

/-- Every list is a finite chain, and a process is on the one list that it names, if any. -/
def Sound (s : VM n) : Prop :=
  (∀ l, ∃ xs, Chain s l xs ∧ ∀ p, (s.proc p).myList = some l ↔ p ∈ xs) ∧
  ∀ p, (s.proc p).myList = none → (s.proc p).next = none

def Waiting (s : VM n) (p : Fin n) (i : Nat) : Prop := (s.proc p).myList = some (.sem i)

instance (s : VM n) (p : Fin n) (i : Nat) : Decidable (Waiting s p i) := by
  unfold Waiting; exact inferInstance

def Ready (s : VM n) (p : Fin n) (k : Nat) : Prop :=
  1 ≤ k ∧ k ≤ 9 ∧ (s.proc p).myList = some (.ready k)

/-- The process given to an operation. -/
def Op.operand : Op n → Option (Fin n)
  | .waitFor _ p | .suspend p | .terminate p | .resume p | .yield p | .setPriority p _ => some p
  | _ => none

/-- The semaphore whose waiters an operation may release. -/
def Op.releases : Op n → Option Nat
  | .signal i | .notify i | .notifyAll i => some i
  | _ => none

/-- The processes that an operation is allowed to move: its operand, the ones running before
and after, and the waiters that it releases. -/
def Touched (s : VM n) (op : Op n) (s' : VM n) (x : Fin n) : Prop :=
  op.operand = some x ∨ s.active = some x ∨ s.scheduled = some x ∨ s'.active = some x ∨
    ∃ i, op.releases = some i ∧ Waiting s x i ∧ ¬ Waiting s' x i

/-! ## The specification and the list model -/

theorem seg_iff (f : Fin n → Option (Fin n)) (xs : List (Fin n)) :
    Seg f xs none ↔ ∀ j x, xs[j]? = some x → f x = xs[j + 1]? := by
  induction xs with
  | nil => simp [Seg]
  | cons y ys ih =>
    simp only [Seg, ih]
    constructor
    · rintro ⟨h1, h2⟩ j x hx
      cases j with
      | zero =>
        simp at hx
        subst hx
        rw [h1]
        cases ys <;> simp
      | succ j =>
        simp only [List.getElem?_cons_succ] at hx ⊢
        exact h2 j x hx
    · intro h
      refine ⟨?_, fun j x hx => ?_⟩
      · rw [h 0 y (by simp)]
        cases ys <;> simp
      · have := h (j + 1) x (by simpa using hx)
        simpa using this

theorem Rep.chain {s : VM n} {a : Abs n} (r : Rep s a) (l : Lid) : Chain s l (a.q l) :=
  ⟨r.first l, r.last l, r.nodup l, (seg_iff _ _).mp (r.link l)⟩

theorem Rep.sound {s : VM n} {a : Abs n} (r : Rep s a) : Sound s :=
  ⟨fun l => ⟨a.q l, r.chain l, r.mem l⟩, r.free⟩

theorem Sound.rep {s : VM n} (h : Sound s) : ∃ a : Abs n, Rep s a := by
  choose q hq using h.1
  exact ⟨⟨q, fun p => (s.proc p).prio, fun p => (s.proc p).live, fun l => (s.list l).signals,
      s.scheduled, s.switchTo, s.idle⟩,
    ⟨fun l => (hq l).1.1, fun l => (hq l).1.2.1, fun l => (seg_iff _ _).mpr (hq l).1.2.2.2,
      fun l => (hq l).2, fun l => (hq l).1.2.2.1, h.2, fun _ => rfl, fun _ => rfl, fun _ => rfl,
      rfl, rfl, rfl⟩⟩

theorem chain_unique {s : VM n} {l : Lid} {xs ys : List (Fin n)} (h1 : Chain s l xs)
    (h2 : Chain s l ys) : xs = ys := by
  apply List.ext_getElem?
  intro j
  induction j with
  | zero =>
    have := h1.1.symm.trans h2.1
    rw [List.head?_eq_getElem?, List.head?_eq_getElem?] at this
    exact this
  | succ j ih =>
    cases hx : xs[j]? with
    | some x => rw [← h1.2.2.2 j x hx, ← h2.2.2.2 j x (ih ▸ hx)]
    | none =>
      have hy : ys[j]? = none := ih ▸ hx
      rw [List.getElem?_eq_none_iff] at hx hy
      rw [List.getElem?_eq_none (by omega), List.getElem?_eq_none (by omega)]

/-! ## C14 -/

/-- **C14.**  No history gets stuck, and after every history the lists are sound. -/
theorem lists_sound (s : VM n) (h : Sound s) (ops : List (Op n)) :
    ∃ s', run s ops = some s' ∧ Sound s' := by
  obtain ⟨a, r⟩ := h.rep
  obtain ⟨s', e, r'⟩ := r.run ops
  exact ⟨s', e, r'.sound⟩

/-- Each process is on at most one list. -/
theorem one_list (s : VM n) (l m : Lid) (xs ys : List (Fin n)) (h : Sound s)
    (h1 : Chain s l xs) (h2 : Chain s m ys) (p : Fin n) (hp : p ∈ xs) (hq : p ∈ ys) : l = m := by
  obtain ⟨a, r⟩ := h.rep
  rw [chain_unique h1 (r.chain l)] at hp
  rw [chain_unique h2 (r.chain m)] at hq
  exact r.one hp hq

section

variable {T : Fin n → Bool}

theorem resume_active (a : Abs n) (p : Fin n) (ap : Bool) :
    (a.resume p ap).2.active = a.active ∨ (a.resume p ap).2.active = some p := by
  have h1 : (if a.active = some p then a.remove p else a).active = a.active := by split <;> rfl
  unfold Abs.resume
  simp only
  generalize (if a.active = some p then a.remove p else a) = a' at *
  split
  · exact .inl h1
  · cases hx : a.active with
    | none => exact .inr rfl
    | some x =>
      simp only
      generalize (if x = p then ap else ap || decide (a.prio p ≥ a.prio x)) = cc
      cases cc with
      | true => exact .inr rfl
      | false => exact .inl (h1.trans hx)

theorem semsub_signalLoop_sub (i : Nat) (incr : Bool) (fuel : Nat) : ∀ (a : Abs n) (j : Nat),
    ((a.signalLoop i incr fuel).2.q (.sem j)).Sublist (a.q (.sem j)) := by
  induction fuel with
  | zero => intro a j; exact .refl _
  | succ fuel ih =>
    intro a j
    unfold Abs.signalLoop
    cases hq : a.q (.sem i) with
    | nil =>
      simp only
      split <;> exact .refl _
    | cons p ps =>
      simp only
      have h := ((semsub_pop hq).trans (semsub_resume p false)).sub j
      split
      · exact h
      · exact (ih _ j).trans h

theorem keep_signalLoop (i : Nat) (incr : Bool) (fuel : Nat) : ∀ a : Abs n, Good a →
    (∀ x, a.active = some x → T x = true) →
    (∀ x ∈ a.q (.sem i), x ∉ (a.signalLoop i incr fuel).2.q (.sem i) → T x = true) →
    Keep T a (a.signalLoop i incr fuel).2 ∧
      ∀ x, (a.signalLoop i incr fuel).2.active = some x → T x = true := by
  induction fuel with
  | zero => intro a g ha _; exact ⟨Keep.refl a, ha⟩
  | succ fuel ih =>
    intro a g ha hT
    unfold Abs.signalLoop at hT ⊢
    cases hq : a.q (.sem i) with
    | nil =>
      simp only
      split
      · exact ⟨Keep.of_q fun _ => rfl, ha⟩
      · exact ⟨Keep.refl a, ha⟩
    | cons p ps =>
      rw [hq] at hT
      simp only at hT ⊢
      have hnp : p ∉ ps := by
        have := g.nodup (.sem i)
        rw [hq] at this
        exact (List.nodup_cons.mp this).1
      have hset : (a.set (.sem i) ps).q (.sem i) = ps := by simp [Abs.set]
      have hsub := (semsub_resume (a := a.set (.sem i) ps) p false).sub i
      rw [hset] at hsub
      have hp : T p = true := by
        apply hT p (by simp)
        intro hm
        split at hm
        · exact hnp (hsub.subset hm)
        · exact hnp (hsub.subset ((semsub_signalLoop_sub i incr fuel _ i).subset hm))
      have hk : Keep T a ((a.set (.sem i) ps).resume p false).2 :=
        (keep_pop hq hp).trans (keep_resume p false hp ha)
      have ha' : ∀ x, ((a.set (.sem i) ps).resume p false).2.active = some x → T x = true := by
        intro x hx
        rcases resume_active (a.set (.sem i) ps) p false with h | h
        · rw [h] at hx; exact ha x hx
        · rw [h] at hx; cases hx; exact hp
      split
      · exact ⟨hk, ha'⟩
      · rename_i hne
        rw [if_neg hne] at hT
        have := ih _ ((g.pop hq).resume p false) ha'
          (fun x hx => hT x (by have := hsub.subset hx; simp [this]))
        exact ⟨hk.trans this.1, this.2⟩

theorem keep_notifyLoop (i : Nat) (fuel : Nat) : ∀ a : Abs n, Good a →
    (∀ x, a.active = some x → T x = true) →
    (∀ x ∈ a.q (.sem i), x ∉ (a.notifyLoop i fuel).q (.sem i) → T x = true) →
    Keep T a (a.notifyLoop i fuel) := by
  induction fuel with
  | zero => intro a g ha _; exact Keep.refl a
  | succ fuel ih =>
    intro a g ha hT
    unfold Abs.notifyLoop at hT ⊢
    cases hs : (a.signal i false).1 with
    | none =>
      rw [hs] at hT
      exact (keep_signalLoop i false (n + 1) a g ha hT).1
    | some p =>
      rw [hs] at hT
      simp only at hT ⊢
      have h1 := keep_signalLoop (T := T) i false (n + 1) a g ha (fun x hx hn => hT x hx fun hm =>
        hn (((semsub_notifyAll i fuel _).sub i).subset hm))
      refine h1.1.trans (ih _ (g.signal i false) h1.2 fun x hx => hT x ?_)
      exact ((semsub_notify (a := a) i).sub i).subset hx

end

/-- **C14.**  An operation keeps the order of the processes that it does not touch, on every
list, and moves none of them to another list. -/
theorem order_kept (s s' : VM n) (op : Op n) (h : Sound s) (hs : step s op = some s') (l : Lid)
    (xs xs' : List (Fin n)) (hx : Chain s l xs) (hx' : Chain s' l xs') :
    open Classical in
    xs'.filter (fun x => ¬ Touched s op s' x) = xs.filter (fun x => ¬ Touched s op s' x) := by
  classical
  obtain ⟨a, r⟩ := h.rep
  obtain ⟨s1, e, r'⟩ := r.step op
  rw [hs] at e
  cases e
  rw [chain_unique hx (r.chain l), chain_unique hx' (r'.chain l)]
  have g : Good a := ⟨s, r⟩
  set T : Fin n → Bool := fun x => decide (Touched s op s' x) with hT
  have key : Keep T a (a.step op) → List.filter (fun x => ¬ Touched s op s' x) ((a.step op).q l) =
      List.filter (fun x => ¬ Touched s op s' x) (a.q l) := by
    intro hk
    have := hk l
    simpa [hT] using this
  apply key
  have hop : ∀ x, op.operand = some x → T x = true := fun x hx => by
    simp only [hT, decide_eq_true_eq]; exact .inl hx
  have hact : ∀ x, a.active = some x → T x = true := fun x hx => by
    simp only [hT, decide_eq_true_eq]; exact .inr (.inl (by rw [r.active, hx]))
  have hsch : ∀ x, a.scheduled = some x → T x = true := fun x hx => by
    simp only [hT, decide_eq_true_eq]; exact .inr (.inr (.inl (by rw [r.scheduled, hx])))
  have hact' : ∀ x, (a.step op).active = some x → T x = true := fun x hx => by
    simp only [hT, decide_eq_true_eq]; exact .inr (.inr (.inr (.inl (by rw [r'.active, hx]))))
  have hrel : ∀ i, op.releases = some i → ∀ x ∈ a.q (.sem i), x ∉ (a.step op).q (.sem i) →
      T x = true := fun i hi x h1 h2 => by
    simp only [hT, decide_eq_true_eq]
    exact .inr (.inr (.inr (.inr ⟨i, hi, (r.mem _ x).mpr h1, fun hw => h2 ((r'.mem _ x).mp hw)⟩)))
  have hwait : ∀ i p, T p = true → (∀ x, (a.syncWait i p).active = some x → T x = true) →
      Keep T a (a.syncWait i p) := by
    intro i p hp ha'
    unfold Abs.syncWait at ha' ⊢
    split
    · rename_i h1
      rw [if_pos h1] at ha'
      simp only at ha' ⊢
      split
      · rename_i h2
        rw [if_pos h2] at ha'
        have hk : (∀ x, (a.addLast (.sem i) p).yieldMacro.2.active = some x → T x = true) →
            Keep T a (a.addLast (.sem i) p).yieldMacro.2 := fun ha' =>
          (keep_addLast _ p hp).trans (keep_yieldMacro (g.addLast _ p) hsch ha')
        cases hy : (a.addLast (.sem i) p).yieldMacro.1 with
        | none =>
          rw [hy] at ha'
          exact (hk ha').trans (Keep.of_q fun _ => rfl)
        | some x =>
          rw [hy] at ha'
          exact hk ha'
      · exact keep_addLast _ p hp
    · exact Keep.of_q fun _ => rfl
  clear key
  clear_value T
  cases op with
  | signal i => exact (keep_signalLoop i true (n + 1) a g hact (hrel i rfl)).1
  | notify i => exact (keep_signalLoop i false (n + 1) a g hact (hrel i rfl)).1
  | notifyAll i => exact keep_notifyLoop i (n + 1) a g hact (hrel i rfl)
  | lock i => exact Keep.of_q fun _ => rfl
  | wait i =>
    unfold Abs.step at hact' ⊢
    cases ha : a.active with
    | none => exact Keep.refl a
    | some p =>
      rw [ha] at hact'
      exact hwait i p (hact p ha) hact'
  | waitFor i p => exact hwait i p (hop p rfl) hact'
  | suspend p => exact keep_suspend g p (hop p rfl) hact'
  | terminate p =>
    have g' : Good (a.kill p) := ⟨_, r.kill p⟩
    exact (Keep.of_q (b := a.kill p) fun _ => rfl).trans (keep_suspend g' p (hop p rfl) hact')
  | resume p => exact keep_resume p false (hop p rfl) hact
  | yield p =>
    unfold Abs.step at hact' ⊢
    simp only at hact' ⊢
    split
    · rename_i h1
      rw [if_pos h1] at hact'
      exact keep_activeYield g p (hop p rfl) hsch hact'
    · exact Keep.refl a
  | pause =>
    unfold Abs.step at hact' ⊢
    cases ha : a.active with
    | none => exact Keep.refl a
    | some p =>
      rw [ha] at hact'
      exact keep_activeYield g p (hact p ha) hsch hact'
  | preempt => exact keep_yieldMacro g hsch hact'
  | switch =>
    unfold Abs.step Abs.switch
    simp only
    cases a.switchTo with
    | none => exact Keep.refl a
    | some p => exact Keep.of_q fun _ => rfl
  | setPriority p k =>
    unfold Abs.step
    simp only
    split
    · exact Keep.of_q fun _ => rfl
    · exact Keep.refl a

/-! ## C15 -/

/-- `p` is the right process to run next when `cur` gives up the processor: it is ready, no
other ready process has a higher priority, and only `cur` may be ahead of it in its list. -/
def BestOther (s : VM n) (cur : Option (Fin n)) (p : Fin n) : Prop :=
  ∃ k, Ready s p k ∧ cur ≠ some p ∧
    (∀ x k', Ready s x k' → cur ≠ some x → k' ≤ k) ∧
    ∀ pre post, Chain s (.ready k) (pre ++ p :: post) → ∀ x ∈ pre, cur = some x

def NoOther (s : VM n) (cur : Option (Fin n)) : Prop := ∀ x k, Ready s x k → cur = some x

theorem picked_best {s : VM n} {a : Abs n} (r : Rep s a) :
    (∀ p, a.highest.1 = some p → BestOther s s.scheduled p) ∧
    (a.highest.1 = none → NoOther s s.scheduled) := by
  have g : Good a := ⟨s, r⟩
  have hp := g.highest
  generalize a.highest = h at hp
  rw [r.scheduled]
  cases hp with
  | none h =>
    refine ⟨by rintro p ⟨⟩, fun _ x k ⟨h1, h2, hx⟩ => ?_⟩
    exact h k h1 h2 x ((r.mem _ x).mp hx)
  | some j pre p ps h1 h2 hq hpre hp hj =>
    refine ⟨?_, by rintro ⟨⟩⟩
    rintro p ⟨⟩
    refine ⟨j, ⟨h1, h2, (r.mem _ p).mpr (by rw [hq]; simp)⟩, hp, ?_, ?_⟩
    · rintro x k' ⟨h3, h4, hx⟩ hne
      by_contra hlt
      exact hne (hj k' (by omega) h4 x ((r.mem _ x).mp hx))
    · intro pre' post' hc x hx
      have he := chain_unique hc (r.chain _)
      rw [hq] at he
      have hnd := r.nodup (.ready j)
      rw [hq] at hnd
      have hpp : pre' = pre := by
        have h1 : p ∉ pre := fun hm => by
          have := (List.nodup_append.mp hnd).2.2 p hm p (by simp)
          exact this rfl
        have h2 : p ∉ pre' := fun hm => by
          rw [← he] at hnd
          have := (List.nodup_append.mp hnd).2.2 p hm p (by simp)
          exact this rfl
        have e1 : (pre' ++ p :: post').takeWhile (· ≠ p) = pre' := by
          rw [List.takeWhile_append_of_pos (by intro y hy; simp; rintro rfl; exact h2 hy)]
          simp
        have e2 : (pre ++ p :: ps).takeWhile (· ≠ p) = pre := by
          rw [List.takeWhile_append_of_pos (by intro y hy; simp; rintro rfl; exact h1 hy)]
          simp
        rw [← e1, ← e2, he]
      rw [hpp] at hx
      exact hpre x hx

/-- **C15 (partial).**  At the end of a time slice the VM goes on with the best of the other
processes; the current one goes on only if no other is ready.

Missing from the full claim: the process that gives up the processor is not compared with
the chosen one (`yield_lowers_priority`), and processes of equal priority are not always
ordered by the time at which they became ready (`resume_is_lifo`). -/
theorem preempt_picks_partial (s s' : VM n) (h : Sound s) (hs : step s .preempt = some s') :
    (∃ p, BestOther s s.scheduled p ∧ s'.active = some p) ∨
    (NoOther s s.scheduled ∧ s'.switchTo = s.switchTo) := by
  obtain ⟨a, r⟩ := h.rep
  obtain ⟨s1, e, r'⟩ := r.step .preempt
  rw [hs] at e
  cases e
  obtain ⟨b1, b2⟩ := picked_best r
  obtain ⟨e1, -, e3, -⟩ := nextScheduled_q a
  cases hh : a.highest.1 with
  | some p =>
    refine .inl ⟨p, b1 p hh, ?_⟩
    rw [r'.active]
    show a.yieldMacro.2.active = some p
    unfold Abs.yieldMacro
    rw [e1, hh]
    rfl
  | none =>
    refine .inr ⟨b2 hh, ?_⟩
    rw [r'.switchTo]
    show a.yieldMacro.2.switchTo = _
    unfold Abs.yieldMacro
    rw [e1, hh]
    show a.nextScheduled.2.switchTo = _
    have g : Good a := ⟨s, r⟩
    rw [e3, g.highest.rest.2.1, r.switchTo]

/-- **C15 (partial).**  The same for `yield`, when no switch is pending. -/
theorem yield_picks_partial (s s' : VM n) (c : Fin n) (h : Sound s) (hc : s.scheduled = some c)
    (hsw : s.switchTo = none) (hs : step s (.yield c) = some s') :
    (∃ p, BestOther s (some c) p ∧ s'.active = some p) ∨
    (NoOther s (some c) ∧ s'.active = some c) := by
  obtain ⟨a, r⟩ := h.rep
  obtain ⟨s1, e, r'⟩ := r.step (.yield c)
  rw [hs] at e
  cases e
  obtain ⟨b1, b2⟩ := picked_best r
  rw [hc] at b1 b2
  have ha : a.active = some c := by
    rw [← r.active]; unfold VM.active; rw [hsw, hc]
  have hst : a.step (.yield c) = a.activeYield c := by
    simp only [Abs.step, ha, if_true]
  rw [hst] at r'
  rw [r'.active]
  cases hh : a.highest.1 with
  | some p =>
    refine .inl ⟨p, b1 p hh, ?_⟩
    unfold Abs.activeYield
    simp only [hh]
    rfl
  | none =>
    refine .inr ⟨b2 hh, ?_⟩
    unfold Abs.activeYield
    simp only [hh]
    rfl

/-- **C15 (partial).**  When the running process has to wait, the VM goes on with the best of
the other processes. -/
theorem wait_picks_partial (s s' : VM n) (c : Fin n) (i : Nat) (h : Sound s)
    (hc : s.scheduled = some c) (hsw : s.switchTo = none) (hsig : (s.list (.sem i)).signals ≤ 0)
    (hs : step s (.wait i) = some s') :
    (∃ p, BestOther s (some c) p ∧ s'.active = some p) ∨ (NoOther s (some c) ∧ s'.idle = true) := by
  obtain ⟨a, r⟩ := h.rep
  obtain ⟨s1, e, r'⟩ := r.step (.wait i)
  rw [hs] at e
  cases e
  have ha : a.active = some c := by
    rw [← r.active]; unfold VM.active; rw [hsw, hc]
  have hst : a.step (.wait i) = a.syncWait i c := by
    simp only [Abs.step, ha]
  rw [hst] at r'
  obtain ⟨s2, -, r2⟩ := r.addLast (.sem i) c
  obtain ⟨b1, b2⟩ := picked_best r2
  obtain ⟨e1, -, e3, -⟩ := nextScheduled_q (a.addLast (.sem i) c)
  have hq : ∀ k, (a.addLast (.sem i) c).q (.ready k) = (a.q (.ready k)).filter (· ≠ c) := by
    intro k
    simp [Abs.addLast, Abs.set, Abs.remove]
  have hsc2 : s2.scheduled = some c := by
    rw [r2.scheduled]; show a.scheduled = _; rw [← r.scheduled, hc]
  have hready : ∀ x k, Ready s2 x k ↔ Ready s x k ∧ x ≠ c := by
    intro x k
    unfold Ready
    rw [r2.mem, r.mem, hq]
    simp
    tauto
  rw [hsc2] at b1 b2
  have hsy : a.syncWait i c = (match (a.addLast (.sem i) c).yieldMacro.1 with
      | some _ => (a.addLast (.sem i) c).yieldMacro.2
      | none => { (a.addLast (.sem i) c).yieldMacro.2 with idle := true }) := by
    unfold Abs.syncWait
    rw [if_pos (by rw [← r.signals]; exact hsig)]
    simp only [ha, if_true]
    cases (a.addLast (.sem i) c).yieldMacro.1 <;> rfl
  rw [hsy] at r'
  have hy1 : (a.addLast (.sem i) c).yieldMacro.1 = (a.addLast (.sem i) c).highest.1 := e1
  cases hh : (a.addLast (.sem i) c).highest.1 with
  | some p =>
    obtain ⟨k, hk1, hk2, hk3, hk4⟩ := b1 p hh
    refine .inl ⟨p, ⟨k, ((hready p k).mp hk1).1, hk2, ?_, ?_⟩, ?_⟩
    · intro x k' hx hne
      exact hk3 x k' ((hready x k').mpr ⟨hx, fun e => hne (by rw [e])⟩) hne
    · intro pre post hch x hx
      by_contra hne
      have hxc : x ≠ c := fun e => hne (by rw [e])
      have hpc : p ≠ c := fun e => hk2 (by rw [e])
      have := hk4 (pre.filter (· ≠ c)) (post.filter (· ≠ c)) (by
        have he := chain_unique hch (r.chain _)
        have h2 := r2.chain (.ready k)
        rw [hq, ← he] at h2
        simpa [List.filter_append, List.filter_cons, hpc] using h2) x (by simp [hx, hxc])
      exact hne this
    · rw [r'.active, hy1, hh]
      show (a.addLast (.sem i) c).yieldMacro.2.active = some p
      unfold Abs.yieldMacro
      rw [e1, hh]
      rfl
  | none =>
    refine .inr ⟨fun x k hx => ?_, ?_⟩
    · by_contra hne
      exact hne (b2 hh x k ((hready x k).mpr ⟨hx, fun e => hne (by rw [e])⟩))
    · rw [r'.idle, hy1, hh]

/-- **C15.**  `resume` preempts the running process exactly if the resumed process has the
same or a higher priority. -/
theorem resume_preempts (s s' : VM n) (p c : Fin n) (h : Sound s) (hl : (s.proc p).live = true)
    (hc : s.active = some c) (hne : p ≠ c) (hs : step s (.resume p) = some s') :
    s'.active = if (s.proc p).prio ≥ (s.proc c).prio then some p else some c := by
  obtain ⟨a, r⟩ := h.rep
  obtain ⟨s1, e, r'⟩ := r.step (.resume p)
  rw [hs] at e
  cases e
  rw [r'.active, r.prio, r.prio]
  show (a.resume p false).2.active = _
  rw [r.active] at hc
  unfold Abs.resume
  have hcp : ¬ c = p := fun e => hne e.symm
  simp only [hc, ← r.live, hl, Bool.not_true, Bool.false_eq_true, if_false, hcp, Bool.false_or,
    decide_eq_true_eq, Option.some.injEq]
  split
  · rfl
  · exact hc

/-- **C15.**  `would_reschedule_process` answers true exactly if no process other than the
running one is ready with at least its priority. -/
theorem wouldReschedule_iff (s : VM n) (c : Fin n) (h : Sound s) (hsw : s.switchTo = none)
    (hc : s.scheduled = some c) (h1 : 1 ≤ (s.proc c).prio) (h9 : (s.proc c).prio ≤ 9) :
    wouldReschedule s = some true ↔
      ∀ x k, Ready s x k → (s.proc c).prio ≤ k → k = (s.proc c).prio ∧ x = c := by
  obtain ⟨a, r⟩ := h.rep
  have hloop : ∀ d, let k := rescheduleLoop s (s.proc c).prio d
      (k = (s.proc c).prio - 1 ∧ ∀ j, (s.proc c).prio ≤ j → j ≤ (s.proc c).prio + d → a.q (.ready j) = [])
      ∨ ((s.proc c).prio ≤ k ∧ k ≤ (s.proc c).prio + d ∧ a.q (.ready k) ≠ [] ∧
        ∀ j, k < j → j ≤ (s.proc c).prio + d → a.q (.ready j) = []) := by
    intro d
    induction d with
    | zero =>
      simp only [rescheduleLoop, r.isEmpty]
      cases hq : a.q (.ready (s.proc c).prio) with
      | nil =>
        refine .inl ⟨rfl, fun j h1 h2 => ?_⟩
        rw [show j = (s.proc c).prio by omega, hq]
      | cons x xs =>
        refine .inr ?_
        simp only [List.isEmpty_cons, Bool.false_eq_true, if_false]
        refine ⟨by omega, by omega, by rw [hq]; simp, fun j h1 h2 => by omega⟩
    | succ d ih =>
      simp only [rescheduleLoop, r.isEmpty]
      cases hq : a.q (.ready ((s.proc c).prio + d + 1)) with
      | nil =>
        simp only [List.isEmpty_nil, if_true]
        rcases ih with ⟨i1, i2⟩ | ⟨i1, i2, i3, i4⟩
        · refine .inl ⟨i1, fun j h1 h2 => ?_⟩
          by_cases e : j = (s.proc c).prio + d + 1
          · rw [e, hq]
          · exact i2 j h1 (by omega)
        · refine .inr ⟨i1, by omega, i3, fun j h1 h2 => ?_⟩
          by_cases e : j = (s.proc c).prio + d + 1
          · rw [e, hq]
          · exact i4 j h1 (by omega)
      | cons x xs =>
        refine .inr ?_
        simp only [List.isEmpty_cons, Bool.false_eq_true, if_false]
        refine ⟨by omega, by omega, by rw [hq]; simp, fun j h1 h2 => by omega⟩
  have hl := hloop (numPriorities - (s.proc c).prio)
  rw [show (s.proc c).prio + (numPriorities - (s.proc c).prio) = 9 by unfold numPriorities; omega] at hl
  unfold wouldReschedule
  simp only [hsw, hc, Option.bind_eq_bind, Option.bind_some, Option.some.injEq, Bool.or_eq_true,
    decide_eq_true_eq, Bool.and_eq_true]
  generalize rescheduleLoop s (s.proc c).prio (numPriorities - (s.proc c).prio) = k at *
  have hr : ∀ x j, Ready s x j ↔ 1 ≤ j ∧ j ≤ 9 ∧ x ∈ a.q (.ready j) := by
    intro x j; unfold Ready; rw [r.mem]
  simp only at hl
  rcases hl with ⟨i1, i2⟩ | ⟨i1, i2, i3, i4⟩
  · constructor
    · intro _ x j hx hj
      obtain ⟨-, hx2, hx3⟩ := (hr x j).mp hx
      rw [i2 j hj hx2] at hx3
      cases hx3
    · intro _; left; omega
  · constructor
    · rintro (hh | ⟨⟨hk, hf⟩, hfc⟩)
      · omega
      · intro x j hx hj
        obtain ⟨hx1, hx2, hx3⟩ := (hr x j).mp hx
        have hjk : j = k := by
          by_contra hne
          by_cases hlt : k < j
          · rw [i4 j hlt hx2] at hx3; cases hx3
          · omega
        subst hjk
        refine ⟨hk, ?_⟩
        rw [hfc, r.last] at hf
        rw [r.first] at hfc
        have hnd := r.nodup (.ready j)
        cases hq : a.q (.ready j) with
        | nil => exact absurd hq i3
        | cons y ys =>
          rw [hq] at hfc hf hnd hx3
          simp at hfc
          subst hfc
          cases ys with
          | nil => simpa using hx3
          | cons z zs =>
            rw [List.getLast?_cons_cons] at hf
            have : y ∈ z :: zs := List.mem_of_getLast? hf.symm
            exact absurd this (List.nodup_cons.mp hnd).1
    · intro hall
      right
      cases hq : a.q (.ready k) with
      | nil => exact absurd hq i3
      | cons y ys =>
        have hmem : ∀ x ∈ a.q (.ready k), k = (s.proc c).prio ∧ x = c := fun x hx =>
          hall x k ((hr x k).mpr ⟨by omega, i2, hx⟩) i1
        have hy := hmem y (by rw [hq]; simp)
        have hnd := r.nodup (.ready k)
        rw [hq] at hnd
        cases ys with
        | nil => rw [r.first, r.last, hq]; simp [hy.1, hy.2]
        | cons z zs =>
          have hz := hmem z (by rw [hq]; simp)
          rw [hy.2, hz.2] at hnd
          simp at hnd

/-! ### Examples and counterexamples -/

/-- Process 0 (priority 5) runs, processes 1 and 2 (priority 3) are suspended. -/
def three : VM 3 where
  proc p := if p = 0 then ⟨5, some (.ready 5), none, true⟩ else ⟨3, none, none, true⟩
  list l := if l = .ready 5 then ⟨some 0, some 0, 0⟩ else ⟨none, none, 0⟩
  scheduled := some 0
  switchTo := none
  idle := false

theorem three_sound : Sound three := by
  refine ⟨fun l => ?_, fun p => ?_⟩
  · by_cases hl : l = .ready 5
    · subst hl
      refine ⟨[0], ⟨by decide, by decide, by decide, ?_⟩, by decide⟩
      intro j x hx
      cases j with
      | zero => simp at hx; subst hx; rfl
      | succ j => simp at hx
    · refine ⟨[], ⟨by simp [three, hl], by simp [three, hl], by simp, by simp⟩, fun p => ?_⟩
      simp only [three]
      split
      · simp; exact fun e => hl e.symm
      · simp
  · simp only [three]; split <;> simp

/-- Non-vacuity of C14 and C15: a history with five operations, ending with process 2
running and process 1 waiting. -/
example : ∃ s', run three [.switch, .wait 7, .switch, .wait 7, .resume 2, .resume 1] = some s' ∧
    s'.scheduled = some 1 ∧ Waiting s' 2 7 ∧ Waiting s' 0 7 := by
  refine ⟨_, rfl, ?_, ?_, ?_⟩ <;> decide

example : ∃ s', step three (.resume 1) = some s' ∧ Ready s' 1 3 ∧ s'.active = some 0 := by
  refine ⟨_, rfl, ?_, ?_⟩ <;> (try unfold Ready) <;> decide

/-- **C15 fails**: a process that yields hands the processor to a process of lower priority,
although it is ready itself. -/
theorem yield_lowers_priority : ∃ s', run three [.yield 0, .resume 1] = some s' ∧
    s'.active = some 1 ∧ Ready s' 0 5 ∧ (s'.proc 1).prio = 3 := by
  refine ⟨_, rfl, ?_, ?_, ?_⟩ <;> (try unfold Ready) <;> decide

/-- **C15 fails**: the end of a time slice has the same effect. -/
theorem preempt_lowers_priority : ∃ s', run three [.preempt, .resume 1] = some s' ∧
    s'.active = some 1 ∧ Ready s' 0 5 ∧ (s'.proc 1).prio = 3 := by
  refine ⟨_, rfl, ?_, ?_, ?_⟩ <;> (try unfold Ready) <;> decide

/-- **C15 fails**: of two processes of the same priority, the one that became ready last is
picked. -/
theorem resume_is_lifo : ∃ s1 s2, run three [.resume 1] = some s1 ∧ Ready s1 1 3 ∧
    ¬ Ready s1 2 3 ∧ run three [.wait 7, .resume 2, .resume 1] = some s2 ∧ s2.active = some 2 ∧
    Ready s2 1 3 := by
  refine ⟨_, _, rfl, ?_, ?_, rfl, ?_, ?_⟩ <;> (try unfold Ready) <;> decide

end Verif.Sched
