import Mathlib.Logic.Function.Basic

/-!
# Disabling and enabling interrupts: C30

libgst/prims.def:3976-4003 and libgst/interp.c:1294-1347.  Not modelled: the rest of a
process switch (`Verif.Sched`), and that counts are SmallIntegers in a C `int`.
-/

namespace Verif.Interrupts

open Function (update)

structure VM where
  /-- `process->interrupts`; `none` is nil. -/
  interrupts : Nat → Option Int
  active : Nat
  /-- `async_queue_enabled`: while it is false no external event is handled. -/
  enabled : Bool

/-- At start: interp.c:243 initialises `async_queue_enabled` to true. -/
def start (p : Nat) : VM := { interrupts := fun _ => none, active := p, enabled := true }

/-- `IS_NIL (process->interrupts) ? 0 : TO_INT (process->interrupts)`: prims.def:3990. -/
def count (s : VM) : Int := (s.interrupts s.active).getD 0

/-- `Processor disableInterrupts`: prims.def:3990-4000. -/
def disable (s : VM) : VM :=
  { s with enabled := if count s = 0 then false else s.enabled,
           interrupts := update s.interrupts s.active (some (count s + 1)) }

/-- `Processor enableInterrupts`: prims.def:3990-4000. -/
def enable (s : VM) : VM :=
  { s with enabled := if count s - 1 = 0 then true else s.enabled,
           interrupts := update s.interrupts s.active (some (count s - 1)) }

/-- `change_process_context`: interp.c:1294-1347. -/
def switch (s : VM) (p : Nat) : VM :=
  if s.active = p then s
  else { s with active := p, enabled := match s.interrupts p with
    | none => true
    | some c => decide (c ≥ 0) }

inductive Op
  | disable
  | enable
  | switch (p : Nat)

def step (s : VM) : Op → VM
  | .disable => disable s
  | .enable => enable s
  | .switch p => switch s p

def run (s : VM) (ops : List Op) : VM := ops.foldl step s

/-! ## Specification -/

/-- The process running after the operations, and the requests to disable minus the requests
to enable that process `q` has made. -/
def running (p : Nat) : List Op → Nat
  | [] => p
  | .switch q :: ops => running q ops
  | _ :: ops => running p ops

def balance (q p : Nat) : List Op → Int
  | [] => 0
  | .switch p' :: ops => balance q p' ops
  | .disable :: ops => (if p = q then 1 else 0) + balance q p ops
  | .enable :: ops => (if p = q then -1 else 0) + balance q p ops

theorem running_append (p : Nat) (xs ys : List Op) :
    running p (xs ++ ys) = running (running p xs) ys := by
  induction xs generalizing p with
  | nil => rfl
  | cons x xs ih => cases x <;> exact ih _

theorem balance_append (q p : Nat) (xs ys : List Op) :
    balance q p (xs ++ ys) = balance q p xs + balance q (running p xs) ys := by
  induction xs generalizing p with
  | nil => simp [balance, running]
  | cons x xs ih =>
    cases x <;> simp only [List.cons_append, balance, running, ih] <;> omega

/-! ## The count -/

theorem run_append (s : VM) (xs ys : List Op) : run s (xs ++ ys) = run (run s xs) ys :=
  List.foldl_append

theorem list_reverse_ind {α : Type} {motive : List α → Prop} (nil : motive [])
    (append : ∀ xs x, motive xs → motive (xs ++ [x])) (xs : List α) : motive xs := by
  rw [← List.reverse_reverse xs]
  induction xs.reverse with
  | nil => exact nil
  | cons x ys ih => rw [List.reverse_cons]; exact append _ _ ih

theorem run_count (p : Nat) (ops : List Op) :
    (run (start p) ops).active = running p ops ∧
    ∀ q, ((run (start p) ops).interrupts q).getD 0 = balance q p ops := by
  induction ops using list_reverse_ind with
  | nil => exact ⟨rfl, fun q => rfl⟩
  | append xs x ih =>
    obtain ⟨h1, h2⟩ := ih
    rw [run_append, running_append]
    show (step (run (start p) xs) x).active = _ ∧ ∀ q, ((step (run (start p) xs) x).interrupts q).getD 0 = _
    generalize run (start p) xs = s at h1 h2
    have hc : count s = balance (running p xs) p xs := by
      unfold count; rw [h2, h1]
    cases x with
    | disable =>
      refine ⟨h1, fun q => ?_⟩
      rw [balance_append]
      show ((update s.interrupts s.active (some (count s + 1))) q).getD 0 = _
      by_cases hq : q = s.active
      · subst hq
        rw [Function.update_self]
        simp [balance, hc, h1]
      · rw [Function.update_of_ne hq, h2]
        have : ¬ running p xs = q := by rw [← h1]; exact fun h => hq h.symm
        simp [balance, this]
    | enable =>
      refine ⟨h1, fun q => ?_⟩
      rw [balance_append]
      show ((update s.interrupts s.active (some (count s - 1))) q).getD 0 = _
      by_cases hq : q = s.active
      · subst hq
        rw [Function.update_self]
        simp [balance, hc, h1, Int.sub_eq_add_neg]
      · rw [Function.update_of_ne hq, h2]
        have : ¬ running p xs = q := by rw [← h1]; exact fun h => hq h.symm
        simp [balance, this]
    | switch r =>
      have e : (switch s r).active = r ∧ (switch s r).interrupts = s.interrupts := by
        unfold switch; split
        · rename_i h; exact ⟨h, rfl⟩
        · exact ⟨rfl, rfl⟩
      refine ⟨e.1, fun q => ?_⟩
      rw [balance_append]
      show ((switch s r).interrupts q).getD 0 = _
      rw [e.2, h2]
      simp [balance]

/-! ## C30 -/

/-- Every switch in `ops` is into a process whose requests are balanced. -/
def CleanSwitches (p : Nat) (ops : List Op) : Prop :=
  ∀ xs q ys, ops = xs ++ .switch q :: ys → balance q p xs = 0 ∨ running p xs = q

/-- **C30 (partial).**  After any nesting of requests by any number of processes, interrupts
are enabled exactly when the requests of the running process to enable them have caught up
with its requests to disable them -- provided that processes are switched to only while their
requests are balanced.

Missing: switches into other processes, where the code does the opposite
(`switch_reenables`, `switch_disables`). -/
theorem enabled_iff_caught_up_partial (p : Nat) (ops : List Op) (h : CleanSwitches p ops) :
    (run (start p) ops).enabled = true ↔ balance (running p ops) p ops ≤ 0 := by
  induction ops using list_reverse_ind with
  | nil => simp [run, start, balance]
  | append xs x ih =>
    have hc := run_count p xs
    have h' : CleanSwitches p xs := by
      intro as q bs e
      exact h as q (bs ++ [x]) (by rw [e]; simp)
    have ih := ih h'
    rw [run_append, running_append, balance_append]
    show (step (run (start p) xs) x).enabled = true ↔ _
    generalize run (start p) xs = s at hc ih
    have hcount : count s = balance (running p xs) p xs := by
      unfold count; rw [hc.2, hc.1]
    cases x with
    | disable =>
      show (if count s = 0 then false else s.enabled) = true ↔
        balance (running p xs) p xs + balance (running p xs) (running p xs) [.disable] ≤ 0
      simp only [balance, if_true]
      rw [hcount]
      split
      · rename_i h0; rw [h0]; simp
      · rename_i h0; rw [ih]; omega
    | enable =>
      show (if count s - 1 = 0 then true else s.enabled) = true ↔
        balance (running p xs) p xs + balance (running p xs) (running p xs) [.enable] ≤ 0
      simp only [balance, if_true]
      rw [hcount]
      split
      · rename_i h0; constructor
        · intro _; omega
        · intro _; rfl
      · rename_i h0; rw [ih]; omega
    | switch q =>
      show (switch s q).enabled = true ↔ balance q p xs + balance q (running p xs) [.switch q] ≤ 0
      simp only [balance]
      by_cases hq : running p xs = q
      · have ha : s.active = q := hc.1.trans hq
        rw [show switch s q = s by unfold switch; rw [if_pos ha], ih, hq]
        simp
      · have h0 := (h xs q [] rfl).resolve_right hq
        have hne : ¬ s.active = q := by rw [hc.1]; exact hq
        have hcq := hc.2 q
        rw [h0] at hcq ⊢
        unfold switch
        rw [if_neg hne]
        cases hi : s.interrupts q with
        | none => simp
        | some c =>
          rw [hi] at hcq
          simp only [Option.getD_some] at hcq
          simp [hcq]

/-- Without switches the property holds as it stands. -/
theorem single_process (p : Nat) (ops : List Op) (h : ∀ q, Op.switch q ∉ ops) :
    (run (start p) ops).enabled = true ↔ balance p p ops ≤ 0 := by
  have hr : ∀ (ops : List Op), (∀ q, Op.switch q ∉ ops) → running p ops = p := by
    intro ops
    induction ops with
    | nil => intro _; rfl
    | cons x xs ih =>
      intro h
      cases x with
      | switch q => exact absurd (List.mem_cons_self) (h q)
      | disable => exact ih (fun q hq => h q (List.mem_cons_of_mem _ hq))
      | enable => exact ih (fun q hq => h q (List.mem_cons_of_mem _ hq))
  have := enabled_iff_caught_up_partial p ops (by
    intro xs q ys e
    exact absurd (by rw [e]; simp) (h q))
  rwa [hr ops h] at this

/-- **False of the code (1)**: a process that has disabled interrupts and gets the processor
back runs with interrupts enabled, for every depth of nesting. -/
theorem switch_reenables (s : VM) (p : Nat) (c : Int) (hp : s.active ≠ p)
    (hi : s.interrupts p = some c) (hc : c > 0) : (switch s p).enabled = true := by
  unfold switch
  rw [if_neg hp, hi]
  simp only [ge_iff_le, decide_eq_true_eq]
  omega

/-- **False of the code (2)**: a process that has enabled interrupts once too often and gets
the processor back runs with interrupts disabled, and further requests of it to enable them
have no effect. -/
theorem switch_disables (s : VM) (p : Nat) (c : Int) (hp : s.active ≠ p)
    (hi : s.interrupts p = some c) (hc : c < 0) (k : Nat) :
    (run (switch s p) (List.replicate k .enable)).enabled = false := by
  have key : ∀ (k : Nat) (s : VM), s.enabled = false → count s < 0 →
      (run s (List.replicate k .enable)).enabled = false := by
    intro k
    induction k with
    | zero => intro s h _; exact h
    | succ k ih =>
      intro s h hc
      rw [List.replicate_succ]
      show (run (enable s) (List.replicate k .enable)).enabled = false
      apply ih
      · show (if count s - 1 = 0 then true else s.enabled) = false
        rw [if_neg (by omega), h]
      · show ((update s.interrupts s.active (some (count s - 1))) s.active).getD 0 < 0
        rw [Function.update_self]
        show count s - 1 < 0
        omega
  apply key
  · unfold switch
    rw [if_neg hp, hi]
    simp only [ge_iff_le, decide_eq_false_iff_not]
    omega
  · unfold switch
    rw [if_neg hp]
    show (s.interrupts p).getD 0 < 0
    rw [hi]
    exact hc

/-- The two refutations as histories of the primitives. -/
theorem not_enabled_iff_caught_up :
    ¬ ∀ p ops, ((run (start p) ops).enabled = true ↔ balance (running p ops) p ops ≤ 0) := by
  intro h
  have := (h 0 [.disable, .switch 1, .switch 0]).mp (by decide)
  revert this
  decide

/-- Non-vacuity: two processes, nested requests. -/
example : CleanSwitches 0 [.disable, .enable, .switch 1, .disable, .disable, .enable] := by
  intro xs q ys e
  match xs with
  | [] => cases e
  | [_] => cases e
  | [_, _] => cases e; exact .inl (by decide)
  | _ :: _ :: _ :: xs => 
    have : Op.switch q ∈ [Op.disable, .disable, .enable] := by
      simp only [List.cons_append, List.cons.injEq] at e
      rw [e.2.2.2]; simp
    simp at this

example : (run (start 0) [.disable, .enable, .switch 1, .disable, .disable, .enable]).enabled = false := by
  decide

end Verif.Interrupts
