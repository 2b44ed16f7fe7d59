/-!
# Semaphores and critical sections

`Semaphore>>critical:` (kernel/Semaphore.st:53-75) executed by any number of processes, interleaved in any way, and
disturbed by other processes that interrupt, resume or terminate them.
-/

namespace Verif.Waits

/-- Where a process is in `critical:`. -/
inductive PC where
  /-- Not in `critical:`. -/
  | out
  /-- About to send `wait`. -/
  | arrive
  /-- In the list of the semaphore. -/
  | waiting
  /-- In the list of the semaphore, but in a block that `queueInterrupt:` made it evaluate. -/
  | rewait
  /-- `wait` has answered the semaphore or nil. -/
  | got (b : Bool)
  /-- `on:do:` has answered that; it is not yet stored in `ownedSem`. -/
  | back (b : Bool)
  /-- It is stored in `ownedSem`. -/
  | owns (b : Bool)
  /-- Evaluates the block. -/
  | inside
  /-- About to evaluate the argument of `ensure:`, with `ownedSem` being the semaphore or not. -/
  | leave (b : Bool)
  deriving DecidableEq, Repr

/-- The semaphore and the processes. -/
structure St where
  signals : Nat
  queue : List Nat
  pcs : List PC
  deriving DecidableEq, Repr

/-- What another process or the process itself does. -/
inductive Act where
  /-- The process sends `critical:`. -/
  | enter (p : Nat)
  /-- The process goes on. -/
  | step (p : Nat)
  /-- Another process sends it `queueInterrupt:`. -/
  | interrupt (p : Nat)
  /-- Another process sends it `resume` or `suspend; resume`. -/
  | resume (p : Nat)
  /-- Another process sends it `terminate`. -/
  | terminate (p : Nat)
  deriving DecidableEq, Repr

/-- What is on top of the stack of a process that is signalled: `_gst_sync_signal` (libgst/interp.c:1520-1553) puts the
semaphore on top of the stack of the *innermost* context, so that the `wait` that `queueInterrupt:` left behind answers
nil, which `sync_wait_process` (libgst/interp.c:1683-1717) put there. -/
def wake : PC → PC
  | .waiting => .got true
  | .rewait => .got false
  | c => c

/-- `Semaphore>>signal`, `_gst_sync_signal` (libgst/interp.c:1520-1553). -/
def signal (s : St) : St :=
  match s.queue with
  | [] => { s with signals := s.signals + 1 }
  | q :: qs =>
    match s.pcs[q]? with
    | none => { s with queue := qs }
    | some c => { s with queue := qs, pcs := s.pcs.set q (wake c) }

/-- A step of `critical:` (kernel/Semaphore.st:61-74) between two of which other processes may run; `wait` is
`sync_wait_process` (libgst/interp.c:1683-1717). -/
def go (s : St) (p : Nat) : PC → St
  | .out => s
  | .arrive =>
    if s.signals ≤ 0 then { s with queue := s.queue ++ [p], pcs := s.pcs.set p .waiting }
    else { s with signals := s.signals - 1, pcs := s.pcs.set p (.got true) }
  | .waiting => s
  | .rewait => s
  | .got b => { s with pcs := s.pcs.set p (.back b) }
  | .back b => { s with pcs := s.pcs.set p (.owns b) }
  | .owns b => { s with pcs := s.pcs.set p (if b then .inside else .leave false) }
  | .inside => { s with pcs := s.pcs.set p (.leave true) }
  | .leave b =>
    let s' := { s with pcs := s.pcs.set p .out }
    if b then signal s' else s'

/-- kernel/Process.st:297-328 `queueInterrupt:`: the process leaves the list, evaluates the block, and waits again in
a context on top of the one that waits.  Simplified: the block is evaluated at once, and nothing happens to processes
that do not wait, for which the block is evaluated between two steps. -/
def interrupt (s : St) (p : Nat) : PC → St
  | .waiting => { s with queue := s.queue.erase p ++ [p], pcs := s.pcs.set p .rewait }
  | .rewait => { s with queue := s.queue.erase p ++ [p] }
  | _ => s

/-- `resume_process` (libgst/interp.c:1747-1830): the process leaves the list; `wait` answers nil. -/
def resume (s : St) (p : Nat) : PC → St
  | .waiting => { s with queue := s.queue.erase p, pcs := s.pcs.set p (.got false) }
  | .rewait => { s with queue := s.queue.erase p, pcs := s.pcs.set p (.got false) }
  | _ => s

/-- `terminate` (kernel/Process.st:117-137): `ensure:` blocks are evaluated; the handler for `ProcessBeingTerminated`
(kernel/Semaphore.st:70-72) sets `ownedSem` as long as `on:do:` is running. -/
def terminate (s : St) (p : Nat) : PC → St
  | .out => s
  | .arrive => { s with pcs := s.pcs.set p (.leave false) }
  | .waiting => { s with queue := s.queue.erase p, pcs := s.pcs.set p (.leave false) }
  | .rewait => { s with queue := s.queue.erase p, pcs := s.pcs.set p (.leave false) }
  | .got b => { s with pcs := s.pcs.set p (.leave b) }
  | .back _ => { s with pcs := s.pcs.set p (.leave false) }
  | .owns b => { s with pcs := s.pcs.set p (.leave b) }
  | .inside => { s with pcs := s.pcs.set p (.leave true) }
  | .leave _ => s

/-- One action. -/
def act (s : St) : Act → St
  | .enter p => if s.pcs[p]? = some .out then { s with pcs := s.pcs.set p .arrive } else s
  | .step p => match s.pcs[p]? with | none => s | some c => go s p c
  | .interrupt p => match s.pcs[p]? with | none => s | some c => interrupt s p c
  | .resume p => match s.pcs[p]? with | none => s | some c => resume s p c
  | .terminate p => match s.pcs[p]? with | none => s | some c => terminate s p c

/-- Any number of actions. -/
def acts (s : St) (as : List Act) : St := as.foldl act s

/-- `Semaphore forMutualExclusion` (kernel/Semaphore.st:43-51) and `n` processes. -/
def St.start (n : Nat) : St := ⟨1, [], List.replicate n .out⟩

/-! ### Invariant -/

/-- The process has taken the signal. -/
def holds : PC → Bool
  | .got b => b
  | .back b => b
  | .owns b => b
  | .inside => true
  | .leave b => b
  | _ => false

/-- The process is in the list. -/
def listed : PC → Bool
  | .waiting => true
  | .rewait => true
  | _ => false

structure Inv (s : St) : Prop where
  nodup : s.queue.Nodup
  queue : ∀ p, p ∈ s.queue ↔ ∃ c, s.pcs[p]? = some c ∧ listed c = true
  empty : s.queue ≠ [] → s.signals = 0

theorem countP_set {α : Type} {f : α → Bool} {l : List α} {i : Nat} {a b : α} (h : l[i]? = some a) :
    (l.set i b).countP f + (if f a then 1 else 0) = l.countP f + (if f b then 1 else 0) := by
  induction l generalizing i with
  | nil => simp at h
  | cons x l ih =>
    cases i with
    | zero =>
      simp only [List.getElem?_cons_zero, Option.some.injEq] at h
      subst h
      simp only [List.set_cons_zero, List.countP_cons]
      omega
    | succ i =>
      simp only [List.getElem?_cons_succ] at h
      simp only [List.set_cons_succ, List.countP_cons]
      have := ih h
      omega

theorem countP_set' {α : Type} {f : α → Bool} {l : List α} {i : Nat} {a b : α} (h : l[i]? = some a) (hf : f b = f a) :
    (l.set i b).countP f = l.countP f := by
  have := countP_set (f := f) (b := b) h
  rw [hf] at this
  omega

theorem keep {α : Type} {f : α → Bool} {l : List α} {i n : Nat} {a b : α} (h : l[i]? = some a) (hf : f b = f a) :
    n + (l.set i b).countP f = n + l.countP f := by rw [countP_set' h hf]

theorem act_step {s : St} {p : Nat} {c : PC} (h : s.pcs[p]? = some c) : act s (.step p) = go s p c := by
  simp only [act, h]

theorem act_interrupt {s : St} {p : Nat} {c : PC} (h : s.pcs[p]? = some c) :
    act s (.interrupt p) = interrupt s p c := by
  simp only [act, h]

theorem act_resume {s : St} {p : Nat} {c : PC} (h : s.pcs[p]? = some c) : act s (.resume p) = resume s p c := by
  simp only [act, h]

theorem act_terminate {s : St} {p : Nat} {c : PC} (h : s.pcs[p]? = some c) :
    act s (.terminate p) = terminate s p c := by
  simp only [act, h]

theorem act_none {s : St} {p : Nat} (h : s.pcs[p]? = none) : act s (.step p) = s ∧ act s (.interrupt p) = s ∧
    act s (.resume p) = s ∧ act s (.terminate p) = s := by
  simp only [act, h, and_self]

theorem get_set {l : List PC} {p q : Nat} {a c : PC} (h : l[p]? = some a) :
    (l.set p c)[q]? = if q = p then some c else l[q]? := by
  have hp := (List.getElem?_eq_some_iff.mp h).1
  rw [List.getElem?_set]
  by_cases hq : p = q
  · subst hq
    simp [hp]
  · rw [if_neg hq, if_neg (Ne.symm hq)]

/-- A change that leaves the process off the list. -/
theorem Inv.unlisted {s : St} (hi : Inv s) {p : Nat} {a c : PC} (h : s.pcs[p]? = some a) (ha : listed a = false)
    (hc : listed c = false) (n : Nat) (hn : s.queue ≠ [] → n = 0) : Inv ⟨n, s.queue, s.pcs.set p c⟩ := by
  refine ⟨hi.nodup, ?_, hn⟩
  intro q
  simp only [get_set h]
  rw [hi.queue q]
  by_cases hq : q = p
  · subst hq
    rw [if_pos rfl, h]
    simp [ha, hc]
  · rw [if_neg hq]

/-- A change that takes the process off the list. -/
theorem Inv.removed {s : St} (hi : Inv s) {p : Nat} {a c : PC} (h : s.pcs[p]? = some a) (hc : listed c = false) :
    Inv ⟨s.signals, s.queue.erase p, s.pcs.set p c⟩ := by
  refine ⟨hi.nodup.erase p, ?_, ?_⟩
  · intro q
    simp only [get_set h]
    rw [hi.nodup.mem_erase_iff, hi.queue q]
    by_cases hq : q = p
    · subst hq
      simp [hc]
    · simp [hq]
  · intro hne
    apply hi.empty
    rintro he
    apply hne
    simp [he]

theorem Inv.listed {s : St} (hi : Inv s) {p : Nat} {a : PC} (h : s.pcs[p]? = some a) (ha : Waits.listed a = true) :
    p ∈ s.queue := (hi.queue p).mpr ⟨a, h, ha⟩

/-- A change that moves the process to the end of the list. -/
theorem Inv.moved {s : St} (hi : Inv s) {p : Nat} {a c : PC} (h : s.pcs[p]? = some a) (ha : Waits.listed a = true)
    (hc : Waits.listed c = true) : Inv ⟨s.signals, s.queue.erase p ++ [p], s.pcs.set p c⟩ := by
  have hp := hi.listed h ha
  refine ⟨?_, ?_, ?_⟩
  · rw [List.nodup_append]
    refine ⟨hi.nodup.erase p, by simp, ?_⟩
    intro q hq r hr
    rw [List.mem_singleton] at hr
    subst hr
    exact (hi.nodup.mem_erase_iff.mp hq).1
  · intro q
    simp only [get_set h]
    rw [List.mem_append, hi.nodup.mem_erase_iff, hi.queue q, List.mem_singleton]
    by_cases hq : q = p
    · subst hq
      simp [hc]
    · simp [hq]
  · intro _
    exact hi.empty (List.ne_nil_of_mem hp)

/-- Signals keep the invariant. -/
theorem Inv.signal {s : St} (hi : Inv s) : Inv (Waits.signal s) := by
  unfold Waits.signal
  cases hq : s.queue with
  | nil =>
    have := hi.queue
    rw [hq] at this
    exact ⟨List.nodup_nil, this, fun h => absurd rfl h⟩
  | cons q qs =>
    obtain ⟨c, hc, hl⟩ := (hi.queue q).mp (by rw [hq]; exact List.mem_cons_self)
    have := hi.removed (c := wake c) hc (by cases c <;> simp_all [Waits.listed, wake])
    rw [hq, List.erase_cons_head] at this
    simp only [hc]
    exact this

/-- What a signal does to the number of processes that have taken it. -/
theorem signal_count {s : St} (hi : Inv s) :
    (signal s).signals + (signal s).pcs.countP holds ≤ s.signals + s.pcs.countP holds + 1 := by
  unfold signal
  cases hq : s.queue with
  | nil => simp only; omega
  | cons q qs =>
    obtain ⟨c, hc, hl⟩ := (hi.queue q).mp (by rw [hq]; exact List.mem_cons_self)
    simp only [hc]
    have h1 := countP_set (f := holds) (b := wake c) hc
    cases c <;> simp_all [Waits.listed, wake, holds] <;> omega

/-- All actions keep the invariant, and never more processes than one have taken the signal. -/
theorem act_inv {s : St} (hi : Inv s) (a : Act) :
    Inv (act s a) ∧ (act s a).signals + (act s a).pcs.countP holds ≤ s.signals + s.pcs.countP holds := by
  cases a with
  | enter p =>
    unfold act
    by_cases h : s.pcs[p]? = some .out
    · simp only [if_pos h]
      exact ⟨hi.unlisted h rfl rfl _ hi.empty, Nat.le_of_eq (keep h rfl)⟩
    · simp only [if_neg h]
      exact ⟨hi, Nat.le_refl _⟩
  | step p =>
    cases h : s.pcs[p]? with
    | none => rw [(act_none h).1]; exact ⟨hi, Nat.le_refl _⟩
    | some c =>
      rw [act_step h]
      cases c with
      | out => exact ⟨hi, Nat.le_refl _⟩
      | waiting => exact ⟨hi, Nat.le_refl _⟩
      | rewait => exact ⟨hi, Nat.le_refl _⟩
      | arrive =>
        unfold go
        by_cases hs : s.signals ≤ 0
        · simp only [if_pos hs]
          refine ⟨⟨?_, ?_, ?_⟩, Nat.le_of_eq (keep h rfl)⟩
          · rw [List.nodup_append]
            refine ⟨hi.nodup, by simp, ?_⟩
            intro q hq r hr
            rw [List.mem_singleton] at hr
            subst hr
            rintro rfl
            obtain ⟨c, hc, hl⟩ := (hi.queue q).mp hq
            rw [h] at hc
            cases hc
            cases hl
          · intro q
            simp only [get_set h]
            rw [List.mem_append, hi.queue q, List.mem_singleton]
            by_cases hq : q = p
            · subst hq
              simp [listed]
            · simp [hq]
          · intro _
            simp only
            omega
        · simp only [if_neg hs]
          refine ⟨hi.unlisted h rfl rfl _ (fun hne => by have := hi.empty hne; omega), ?_⟩
          have := countP_set (f := holds) (b := .got true) h
          simp only [holds, Bool.false_eq_true, if_false, if_true] at this
          omega
      | got b => exact ⟨hi.unlisted h rfl rfl _ hi.empty, Nat.le_of_eq (by simp only [go]; exact keep h rfl)⟩
      | back b => exact ⟨hi.unlisted h rfl rfl _ hi.empty, Nat.le_of_eq (by simp only [go]; exact keep h rfl)⟩
      | owns b =>
        refine ⟨hi.unlisted h rfl (by cases b <;> rfl) _ hi.empty, ?_⟩
        simp only [go]
        exact Nat.le_of_eq (keep h (by cases b <;> rfl))
      | inside => exact ⟨hi.unlisted h rfl rfl _ hi.empty, Nat.le_of_eq (by simp only [go]; exact keep h rfl)⟩
      | leave b =>
        have hi' := hi.unlisted h rfl (c := .out) rfl _ hi.empty
        have hc := countP_set (f := holds) (b := .out) h
        cases b with
        | false =>
          refine ⟨hi', ?_⟩
          simp only [go, Bool.false_eq_true, if_false]
          simp only [holds, Bool.false_eq_true, if_false] at hc
          omega
        | true =>
          simp only [go, if_true]
          refine ⟨hi'.signal, ?_⟩
          have := signal_count hi'
          simp only [holds, Bool.false_eq_true, if_false, if_true] at hc this
          omega
  | interrupt p =>
    cases h : s.pcs[p]? with
    | none => rw [(act_none h).2.1]; exact ⟨hi, Nat.le_refl _⟩
    | some c =>
      rw [act_interrupt h]
      cases c with
      | waiting => exact ⟨hi.moved h rfl rfl, Nat.le_of_eq (by simp only [interrupt]; exact keep h rfl)⟩
      | rewait =>
        have := hi.moved (c := .rewait) h rfl rfl
        have he : s.pcs.set p .rewait = s.pcs := by
          apply List.ext_getElem?
          intro i
          rw [get_set h]
          split
          · rename_i hip
            rw [hip, h]
          · rfl
        rw [he] at this
        exact ⟨this, Nat.le_refl _⟩
      | _ => exact ⟨hi, Nat.le_refl _⟩
  | resume p =>
    cases h : s.pcs[p]? with
    | none => rw [(act_none h).2.2.1]; exact ⟨hi, Nat.le_refl _⟩
    | some c =>
      rw [act_resume h]
      cases c with
      | waiting => exact ⟨hi.removed h rfl, Nat.le_of_eq (by simp only [resume]; exact keep h rfl)⟩
      | rewait => exact ⟨hi.removed h rfl, Nat.le_of_eq (by simp only [resume]; exact keep h rfl)⟩
      | _ => exact ⟨hi, Nat.le_refl _⟩
  | terminate p =>
    cases h : s.pcs[p]? with
    | none => rw [(act_none h).2.2.2]; exact ⟨hi, Nat.le_refl _⟩
    | some c =>
      rw [act_terminate h]
      cases c with
      | out => exact ⟨hi, Nat.le_refl _⟩
      | leave b => exact ⟨hi, Nat.le_refl _⟩
      | waiting => exact ⟨hi.removed h rfl, Nat.le_of_eq (by simp only [terminate]; exact keep h rfl)⟩
      | rewait => exact ⟨hi.removed h rfl, Nat.le_of_eq (by simp only [terminate]; exact keep h rfl)⟩
      | back b =>
        refine ⟨hi.unlisted h rfl rfl _ hi.empty, ?_⟩
        have := countP_set (f := holds) (b := .leave false) h
        simp only [terminate]
        simp only [holds, Bool.false_eq_true, if_false] at this
        omega
      | arrive =>
        exact ⟨hi.unlisted h rfl rfl _ hi.empty, Nat.le_of_eq (by simp only [terminate]; exact keep h rfl)⟩
      | got b =>
        exact ⟨hi.unlisted h rfl rfl _ hi.empty, Nat.le_of_eq (by simp only [terminate]; exact keep h rfl)⟩
      | owns b =>
        exact ⟨hi.unlisted h rfl rfl _ hi.empty, Nat.le_of_eq (by simp only [terminate]; exact keep h rfl)⟩
      | inside =>
        exact ⟨hi.unlisted h rfl rfl _ hi.empty, Nat.le_of_eq (by simp only [terminate]; exact keep h rfl)⟩

theorem start_inv (n : Nat) : Inv (St.start n) ∧ (St.start n).signals + (St.start n).pcs.countP holds = 1 := by
  refine ⟨⟨by simp [St.start], ?_, by simp [St.start]⟩, ?_⟩
  · intro p
    simp only [St.start, List.getElem?_replicate]
    constructor
    · intro h; cases h
    · rintro ⟨c, hc, hl⟩
      split at hc
      · cases hc; cases hl
      · cases hc
  · simp only [St.start]
    rw [List.countP_replicate]
    simp [holds]

theorem acts_inv {s : St} (hi : Inv s) (as : List Act) :
    Inv (acts s as) ∧ (acts s as).signals + (acts s as).pcs.countP holds ≤ s.signals + s.pcs.countP holds := by
  induction as generalizing s with
  | nil => exact ⟨hi, Nat.le_refl _⟩
  | cons a as ih =>
    obtain ⟨h1, h2⟩ := act_inv hi a
    obtain ⟨h3, h4⟩ := ih h1
    exact ⟨h3, Nat.le_trans h4 h2⟩

theorem two_le_countP {α : Type} {f : α → Bool} {l : List α} {p q : Nat} {a b : α} (hpq : p ≠ q)
    (hp : l[p]? = some a) (hq : l[q]? = some b) (ha : f a = true) (hb : f b = true) : 2 ≤ l.countP f := by
  induction l generalizing p q with
  | nil => simp at hp
  | cons x l ih =>
    cases p with
    | zero =>
      cases q with
      | zero => exact absurd rfl hpq
      | succ q =>
        simp only [List.getElem?_cons_zero, Option.some.injEq] at hp
        subst hp
        simp only [List.getElem?_cons_succ] at hq
        have : 0 < l.countP f := List.countP_pos_iff.mpr ⟨b, List.mem_of_getElem? hq, hb⟩
        simp only [List.countP_cons, ha, if_true]
        omega
    | succ p =>
      cases q with
      | zero =>
        simp only [List.getElem?_cons_zero, Option.some.injEq] at hq
        subst hq
        simp only [List.getElem?_cons_succ] at hp
        have : 0 < l.countP f := List.countP_pos_iff.mpr ⟨a, List.mem_of_getElem? hp, ha⟩
        simp only [List.countP_cons, hb, if_true]
        omega
      | succ q =>
        simp only [List.getElem?_cons_succ] at hp hq
        have := ih (fun h => hpq (by rw [h])) hp hq
        simp only [List.countP_cons]
        omega

/-- C132.  However processes are interleaved, interrupted, resumed and terminated, two of them never evaluate their
blocks at the same time. -/
theorem critical_excludes (n : Nat) (as : List Act) (p q : Nat) (hp : (acts (St.start n) as).pcs[p]? = some .inside)
    (hq : (acts (St.start n) as).pcs[q]? = some .inside) : p = q := by
  obtain ⟨h1, h2⟩ := acts_inv (start_inv n).1 as
  rw [(start_inv n).2] at h2
  by_cases hpq : p = q
  · exact hpq
  · have := two_le_countP (f := holds) hpq hp hq rfl rfl
    omega

example : (acts (St.start 3) [.enter 0, .step 0, .enter 1, .step 1, .enter 2, .step 2, .terminate 1, .step 0, .step 0,
    .step 0, .step 0, .step 0, .step 2, .step 2, .step 2]).pcs = [.out, .leave false, .inside] := by decide +kernel

/-! ### The lock is not lost -/

/-- The actions that do not lose the lock. -/
def kind (s : St) : Act → Bool
  | .interrupt _ => false
  | .terminate p => s.pcs[p]? ≠ some (.back true)
  | _ => true

/-- All actions are such. -/
def kinds : St → List Act → Bool
  | _, [] => true
  | s, a :: as => kind s a && kinds (act s a) as

/-- No process waits again after an interrupt. -/
def NoRewait (s : St) : Prop := ∀ p : Nat, s.pcs[p]? ≠ some .rewait

theorem noRewait_set {s : St} (h : NoRewait s) {p : Nat} {a c : PC} (hp : s.pcs[p]? = some a) (hc : c ≠ .rewait)
    (n : Nat) (q : List Nat) : NoRewait ⟨n, q, s.pcs.set p c⟩ := by
  intro r
  simp only [get_set hp]
  split
  · intro e; cases e; exact hc rfl
  · exact h r

theorem noRewait_signal {s : St} (h : NoRewait s) : NoRewait (signal s) := by
  unfold signal
  split
  · exact h
  · split
    · exact h
    · rename_i q qs _ c hc
      refine noRewait_set h hc ?_ _ _
      cases c <;> simp [wake]

theorem signal_exact {s : St} (hi : Inv s) (hr : NoRewait s) :
    (signal s).signals + (signal s).pcs.countP holds = s.signals + s.pcs.countP holds + 1 := by
  unfold signal
  cases hq : s.queue with
  | nil => simp only; omega
  | cons q qs =>
    obtain ⟨c, hc, hl⟩ := (hi.queue q).mp (by rw [hq]; exact List.mem_cons_self)
    simp only [hc]
    have h1 := countP_set (f := holds) (b := wake c) hc
    have h2 := hr q
    cases c <;> simp_all [Waits.listed, wake, holds] <;> omega

theorem act_exact {s : St} (hi : Inv s) (hr : NoRewait s) (a : Act) (hk : kind s a = true) :
    NoRewait (act s a) ∧ (act s a).signals + (act s a).pcs.countP holds = s.signals + s.pcs.countP holds := by
  cases a with
  | enter p =>
    unfold act
    by_cases h : s.pcs[p]? = some .out
    · simp only [if_pos h]
      exact ⟨noRewait_set hr h (by simp) _ _, keep h rfl⟩
    · simp only [if_neg h]
      exact ⟨hr, trivial⟩
  | interrupt p => cases hk
  | step p =>
    cases h : s.pcs[p]? with
    | none => rw [(act_none h).1]; exact ⟨hr, rfl⟩
    | some c =>
      rw [act_step h]
      cases c with
      | out => exact ⟨hr, rfl⟩
      | waiting => exact ⟨hr, rfl⟩
      | rewait => exact ⟨hr, rfl⟩
      | arrive =>
        unfold go
        by_cases hs : s.signals ≤ 0
        · simp only [if_pos hs]
          exact ⟨noRewait_set hr h (by simp) _ _, keep h rfl⟩
        · simp only [if_neg hs]
          refine ⟨noRewait_set hr h (by simp) _ _, ?_⟩
          have := countP_set (f := holds) (b := .got true) h
          simp only [holds, Bool.false_eq_true, if_false, if_true] at this
          omega
      | got b => exact ⟨noRewait_set hr h (by simp) _ _, by simp only [go]; exact keep h rfl⟩
      | back b => exact ⟨noRewait_set hr h (by simp) _ _, by simp only [go]; exact keep h rfl⟩
      | owns b =>
        exact ⟨noRewait_set hr h (by cases b <;> simp) _ _, by simp only [go]; exact keep h (by cases b <;> rfl)⟩
      | inside => exact ⟨noRewait_set hr h (by simp) _ _, by simp only [go]; exact keep h rfl⟩
      | leave b =>
        have hi' := hi.unlisted h rfl (c := .out) rfl _ hi.empty
        have hr' : NoRewait ⟨s.signals, s.queue, s.pcs.set p .out⟩ := noRewait_set hr h (by simp) _ _
        have hc := countP_set (f := holds) (b := .out) h
        cases b with
        | false =>
          refine ⟨hr', ?_⟩
          simp only [go, Bool.false_eq_true, if_false]
          simp only [holds, Bool.false_eq_true, if_false] at hc
          omega
        | true =>
          simp only [go, if_true]
          refine ⟨noRewait_signal hr', ?_⟩
          have := signal_exact hi' hr'
          simp only [holds, Bool.false_eq_true, if_false, if_true] at hc this
          omega
  | resume p =>
    cases h : s.pcs[p]? with
    | none => rw [(act_none h).2.2.1]; exact ⟨hr, rfl⟩
    | some c =>
      rw [act_resume h]
      cases c with
      | waiting => exact ⟨noRewait_set hr h (by simp) _ _, by simp only [resume]; exact keep h rfl⟩
      | rewait => exact absurd h (hr p)
      | _ => exact ⟨hr, rfl⟩
  | terminate p =>
    have hb : s.pcs[p]? ≠ some (.back true) := by simpa [kind] using hk
    cases h : s.pcs[p]? with
    | none => rw [(act_none h).2.2.2]; exact ⟨hr, rfl⟩
    | some c =>
      rw [act_terminate h]
      cases c with
      | out => exact ⟨hr, rfl⟩
      | leave b => exact ⟨hr, rfl⟩
      | waiting => exact ⟨noRewait_set hr h (by simp) _ _, by simp only [terminate]; exact keep h rfl⟩
      | rewait => exact absurd h (hr p)
      | back b =>
        cases b with
        | true => exact absurd h hb
        | false => exact ⟨noRewait_set hr h (by simp) _ _, by simp only [terminate]; exact keep h rfl⟩
      | arrive => exact ⟨noRewait_set hr h (by simp) _ _, by simp only [terminate]; exact keep h rfl⟩
      | got b => exact ⟨noRewait_set hr h (by simp) _ _, by simp only [terminate]; exact keep h rfl⟩
      | owns b => exact ⟨noRewait_set hr h (by simp) _ _, by simp only [terminate]; exact keep h rfl⟩
      | inside => exact ⟨noRewait_set hr h (by simp) _ _, by simp only [terminate]; exact keep h rfl⟩

theorem acts_exact {s : St} (hi : Inv s) (hr : NoRewait s) (as : List Act) (hk : kinds s as = true) :
    Inv (acts s as) ∧ NoRewait (acts s as) ∧
      (acts s as).signals + (acts s as).pcs.countP holds = s.signals + s.pcs.countP holds := by
  induction as generalizing s with
  | nil => exact ⟨hi, hr, rfl⟩
  | cons a as ih =>
    simp only [kinds, Bool.and_eq_true] at hk
    obtain ⟨h2, h3⟩ := act_exact hi hr a hk.1
    obtain ⟨g1, g2, g3⟩ := ih (act_inv hi a).1 h2 hk.2
    exact ⟨g1, g2, g3.trans h3⟩

theorem start_noRewait (n : Nat) : NoRewait (St.start n) := by
  intro p
  simp only [St.start, List.getElem?_replicate]
  split <;> simp

/-- C133.  When all processes have left, the lock is free, and while a process waits another one is on its way through
the section: no process waits forever if those inside go on.  Resuming a waiting process does not matter, nor does
terminating a process, but for one moment.  Missing: that moment, and interrupts (`termination_loses_lock`,
`interrupt_loses_lock`). -/
theorem lock_not_lost_partial (n : Nat) (as : List Act) (hk : kinds (St.start n) as = true) :
    ((∀ c ∈ (acts (St.start n) as).pcs, c = .out) →
      (acts (St.start n) as).signals = 1 ∧ (acts (St.start n) as).queue = []) ∧
    (∀ p : Nat, (acts (St.start n) as).pcs[p]? = some .waiting →
      ∃ q : Nat, ∃ c, (acts (St.start n) as).pcs[q]? = some c ∧
        c ∈ [.got true, .back true, .owns true, .inside, .leave true]) := by
  obtain ⟨h1, h2, h3⟩ := acts_exact (start_inv n).1 (start_noRewait n) as hk
  rw [(start_inv n).2] at h3
  generalize acts (St.start n) as = s at *
  constructor
  · intro ho
    have h0 : s.pcs.countP holds = 0 := by
      rw [List.countP_eq_zero]
      intro c hc
      rw [ho c hc]
      simp [holds]
    refine ⟨by omega, ?_⟩
    cases hq : s.queue with
    | nil => rfl
    | cons q qs =>
      obtain ⟨c, hc, hl⟩ := (h1.queue q).mp (by rw [hq]; exact List.mem_cons_self)
      rw [ho c (List.mem_of_getElem? hc)] at hl
      cases hl
  · intro p hp
    have hmem := h1.listed hp rfl
    have hs := h1.empty (List.ne_nil_of_mem hmem)
    have : 0 < s.pcs.countP holds := by omega
    obtain ⟨c, hc, hh⟩ := List.countP_pos_iff.mp this
    obtain ⟨q, hq⟩ := List.mem_iff_getElem?.mp hc
    refine ⟨q, c, hq, ?_⟩
    cases c with
    | got b => cases b <;> simp_all [holds]
    | back b => cases b <;> simp_all [holds]
    | owns b => cases b <;> simp_all [holds]
    | leave b => cases b <;> simp_all [holds]
    | inside => simp
    | _ => cases hh

example : kinds (St.start 2) [.enter 0, .step 0, .enter 1, .step 1, .resume 1, .step 1, .terminate 0, .step 0] = true ∧
    (acts (St.start 2) [.enter 0, .step 0, .enter 1, .step 1]).pcs = [.got true, .waiting] := by decide +kernel

/-- A process terminated after `on:do:` has answered and before the answer is stored takes the lock with it. -/
theorem termination_loses_lock :
    ∃ as : List Act, (acts (St.start 2) as).pcs = [.out, .waiting] ∧ (acts (St.start 2) as).signals = 0 ∧
      ∀ k, acts (acts (St.start 2) as) (List.replicate k (.step 1)) = acts (St.start 2) as := by
  refine ⟨[.enter 0, .step 0, .step 0, .terminate 0, .step 0, .enter 1, .step 1], by decide +kernel, by decide +kernel,
    ?_⟩
  have h : acts (St.start 2) [.enter 0, .step 0, .step 0, .terminate 0, .step 0, .enter 1, .step 1] =
      ⟨0, [1], [.out, .waiting]⟩ := by decide +kernel
  rw [h]
  intro k
  induction k with
  | zero => rfl
  | succ k ih =>
    rw [List.replicate_succ]
    unfold acts at ih ⊢
    rw [List.foldl_cons]
    have : act ⟨0, [1], [.out, .waiting]⟩ (.step 1) = ⟨0, [1], [.out, .waiting]⟩ := by decide +kernel
    rw [this]
    exact ih

/-- A process that waits for the lock and is interrupted takes the signal, does not evaluate its block, and does not
give the signal back: the lock is lost. -/
theorem interrupt_loses_lock :
    ∃ as : List Act, (∀ a ∈ as, ∀ p, a ≠ .terminate p) ∧ (acts (St.start 2) as).pcs = [.out, .out] ∧
      (acts (St.start 2) as).signals = 0 := by
  refine ⟨[.enter 0, .step 0, .enter 1, .step 1, .interrupt 1, .step 0, .step 0, .step 0, .step 0, .step 0, .step 1,
    .step 1, .step 1, .step 1], ?_, by decide +kernel, by decide +kernel⟩
  intro a ha p
  rintro rfl
  revert ha
  simp only [List.mem_cons, List.not_mem_nil, reduceCtorEq, or_self, imp_self]

/-! ### The block is evaluated -/

/-- Nobody disturbs. -/
def Calm (as : List Act) : Prop := ∀ a ∈ as, (∃ p, a = .enter p) ∨ ∃ p, a = .step p

/-- On the way to the block. -/
def Early (c : PC) : Prop := c ∈ [.arrive, .waiting, .got true, .back true, .owns true]

theorem early_signal {s : St} {p : Nat} {c : PC} (hp : s.pcs[p]? = some c) (he : Early c) :
    ∃ d, (signal s).pcs[p]? = some d ∧ Early d := by
  unfold signal
  split
  · exact ⟨c, hp, he⟩
  · split
    · exact ⟨c, hp, he⟩
    · rename_i q qs _ _ e hq
      simp only [get_set hq]
      by_cases h : p = q
      · subst h
        rw [hp] at hq
        cases hq
        rw [if_pos rfl]
        refine ⟨_, rfl, ?_⟩
        cases c <;> simp_all [Early, wake]
      · rw [if_neg h]
        exact ⟨c, hp, he⟩

/-- From there one gets to the block or stays on the way. -/
theorem early_act {s : St} {a : Act} (ha : (∃ q, a = .enter q) ∨ ∃ q, a = .step q) {p : Nat} {c : PC}
    (hp : s.pcs[p]? = some c) (he : Early c) :
    ∃ d, (act s a).pcs[p]? = some d ∧ (Early d ∨ d = .inside) := by
  have other : ∀ (q : Nat) (b d : PC), s.pcs[q]? = some b → q ≠ p → (s.pcs.set q d)[p]? = some c := by
    intro q b d hq hne
    rw [get_set hq, if_neg (Ne.symm hne)]
    exact hp
  rcases ha with ⟨q, rfl⟩ | ⟨q, rfl⟩
  · unfold act
    by_cases hq : s.pcs[q]? = some .out
    · simp only [if_pos hq]
      refine ⟨c, other q _ _ hq ?_, Or.inl he⟩
      rintro rfl
      rw [hp] at hq
      cases hq
      simp [Early] at he
    · simp only [if_neg hq]
      exact ⟨c, hp, Or.inl he⟩
  · cases hq : s.pcs[q]? with
    | none => rw [(act_none hq).1]; exact ⟨c, hp, Or.inl he⟩
    | some b =>
      rw [act_step hq]
      by_cases hne : q = p
      · subst hne
        rw [hp] at hq
        cases hq
        cases c with
        | arrive =>
          unfold go
          by_cases hs : s.signals ≤ 0
          · simp only [if_pos hs, get_set hp]
            exact ⟨_, rfl, Or.inl (by simp [Early])⟩
          · simp only [if_neg hs, get_set hp]
            exact ⟨_, rfl, Or.inl (by simp [Early])⟩
        | waiting => exact ⟨_, hp, Or.inl he⟩
        | got b =>
          simp only [go, get_set hp]
          exact ⟨_, rfl, Or.inl (by cases b <;> simp_all [Early])⟩
        | back b =>
          simp only [go, get_set hp]
          exact ⟨_, rfl, Or.inl (by cases b <;> simp_all [Early])⟩
        | owns b =>
          cases b with
          | false => simp [Early] at he
          | true =>
            simp only [go, get_set hp]
            exact ⟨_, rfl, Or.inr rfl⟩
        | out => simp [Early] at he
        | rewait => simp [Early] at he
        | inside => simp [Early] at he
        | leave b => simp [Early] at he
      · cases b with
        | arrive =>
          unfold go
          by_cases hs : s.signals ≤ 0
          · simp only [if_pos hs]
            exact ⟨c, other q _ _ hq hne, Or.inl he⟩
          · simp only [if_neg hs]
            exact ⟨c, other q _ _ hq hne, Or.inl he⟩
        | out => exact ⟨c, hp, Or.inl he⟩
        | waiting => exact ⟨c, hp, Or.inl he⟩
        | rewait => exact ⟨c, hp, Or.inl he⟩
        | got b => exact ⟨c, other q _ _ hq hne, Or.inl he⟩
        | back b => exact ⟨c, other q _ _ hq hne, Or.inl he⟩
        | owns b => exact ⟨c, other q _ _ hq hne, Or.inl he⟩
        | inside => exact ⟨c, other q _ _ hq hne, Or.inl he⟩
        | leave b =>
          cases b with
          | false => exact ⟨c, other q _ _ hq hne, Or.inl he⟩
          | true =>
            obtain ⟨d, h1, h2⟩ := early_signal (s := ⟨s.signals, s.queue, s.pcs.set q .out⟩)
              (other q _ .out hq hne) he
            exact ⟨d, h1, Or.inl h2⟩

/-- C134.  When nobody disturbs, a process that has sent `critical:` and has come back has evaluated its block in
between.  Missing: processes that are resumed or interrupted while they wait (`resumed_skips_block`). -/
theorem block_evaluated_partial (n : Nat) (as bs : List Act) (hb : Calm bs) (p : Nat)
    (hp : (acts (St.start n) as).pcs[p]? = some .arrive) (hq : (acts (St.start n) (as ++ bs)).pcs[p]? = some .out) :
    ∃ k, (acts (St.start n) (as ++ bs.take k)).pcs[p]? = some .inside := by
  have key : ∀ (bs : List Act) (s : St) (c : PC), Calm bs → s.pcs[p]? = some c → Early c →
      (acts s bs).pcs[p]? = some .out → ∃ k, (acts s (bs.take k)).pcs[p]? = some .inside := by
    intro bs
    induction bs with
    | nil =>
      intro s c _ h1 h2 h3
      simp only [acts, List.foldl_nil] at h3
      rw [h1] at h3
      cases h3
      simp [Early] at h2
    | cons a bs ih =>
      intro s c hb h1 h2 h3
      obtain ⟨d, hd, he⟩ := early_act (hb a List.mem_cons_self) h1 h2
      rcases he with he | rfl
      · obtain ⟨k, hk⟩ := ih (act s a) d (fun b h => hb b (List.mem_cons_of_mem _ h)) hd he h3
        exact ⟨k + 1, hk⟩
      · exact ⟨1, hd⟩
  have happ : ∀ l, acts (St.start n) (as ++ l) = acts (acts (St.start n) as) l := by
    intro l
    exact List.foldl_append
  obtain ⟨k, hk⟩ := key bs _ _ hb hp (by simp [Early]) (by rw [← happ]; exact hq)
  exact ⟨k, by rw [happ]; exact hk⟩

example : (acts (St.start 2) ([.enter 0, .step 0, .enter 1] ++ [.step 1, .step 0, .step 0, .step 0, .step 0, .step 0,
    .step 1, .step 1, .step 1, .step 1, .step 1])).pcs = [.out, .out] := by decide +kernel

/-- A process that is resumed while it waits leaves without having evaluated its block. -/
theorem resumed_skips_block :
    ∃ as : List Act, (∀ (k : Nat), (acts (St.start 2) (as.take k)).pcs[1]? ≠ some .inside) ∧
      (acts (St.start 2) (as.take 3)).pcs[1]? = some .arrive ∧ (acts (St.start 2) as).pcs = [.inside, .out] := by
  refine ⟨[.enter 0, .step 0, .enter 1, .step 1, .step 0, .step 0, .step 0, .resume 1, .step 1, .step 1, .step 1, .step 1], ?_,
    by decide +kernel, by decide +kernel⟩
  intro k
  by_cases hk : k < 13
  · have : ∀ k < 13, (acts (St.start 2) (List.take k [.enter 0, .step 0, .enter 1, .step 1, .step 0, .step 0, .step 0,
        .resume 1, .step 1, .step 1, .step 1, .step 1])).pcs[1]? ≠ some .inside := by decide +kernel
    exact this k hk
  · rw [List.take_of_length_le (by simp; omega)]
    decide +kernel

end Verif.Waits
