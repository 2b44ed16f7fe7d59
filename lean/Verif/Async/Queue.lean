import Mathlib.Data.List.Basic
import Mathlib.Logic.Function.Basic

/-!
# The queue of asynchronous calls (libgst/interp.c:1585-1636): C18

A lock-free stack, pushed by any number of threads and emptied by the interpreter, with
interleaving semantics: one step is one access to shared memory.  Entries come from `malloc`
and go back to `free`, so that addresses are used again.

Simplifications: the function and its argument are one value; accesses to an entry that only
one thread can reach are merged with the neighbouring step (storing `sig->next` in the
pusher, the body of the reversing loop, `next = sig->next` in the calling loop);
`_gst_wakeup` and the except flag, which only make the interpreter look at the queue, are
left out; sequentially consistent memory (`__sync` operations are full barriers).
-/

namespace Verif.Async

/-- A pointer to an entry: `&queued_async_signals_tail` or an address. -/
inductive Ptr
  | tail
  | node (a : Nat)
  deriving DecidableEq

/-- A thread inside `_gst_async_call`: interp.c:1586-1601. -/
inductive Pusher
  /-- Not in the function. -/
  | idle
  /-- About to read `queued_async_signals` (line 1596). -/
  | load (a : Nat)
  /-- About to compare and swap (line 1597). -/
  | cas (a : Nat)

/-- The interpreter inside `empty_async_queue`: interp.c:1611-1636. -/
inductive Drainer
  | idle
  /-- In the first loop: `sig` and `sig_reversed` (lines 1620-1626). -/
  | reverse (sig rev : Ptr)
  /-- In the second loop (lines 1629-1635). -/
  | call (sig : Ptr)
  /-- The function has returned, `free (sig)` is next (line 1633). -/
  | release (a : Nat) (next : Ptr)

structure St where
  next : Nat → Ptr
  data : Nat → Nat
  /-- The addresses given out by `malloc`. -/
  owned : Nat → Bool
  top : Ptr
  pusher : Nat → Pusher
  drainer : Drainer
  /-- For the specification: the calls queued, and the calls executed, oldest first. -/
  queued : List Nat
  executed : List Nat
  /-- For the specification: the call that thread `t` was asked to queue last. -/
  arg : Nat → Nat

def init : St where
  next _ := .tail
  data _ := 0
  owned _ := false
  top := .tail
  pusher _ := .idle
  drainer := .idle
  queued := []
  executed := []
  arg _ := 0

open Function (update)

/-- Line 1590-1592: thread `t` gets entry `a` and stores the call `d`. -/
def enter (s : St) (t a d : Nat) : St :=
  { s with owned := update s.owned a true, data := update s.data a d,
           pusher := update s.pusher t (.load a), arg := update s.arg t d }

/-- One step of thread `t` or of the interpreter (`none` if it is not inside). -/
def pushStep (s : St) (t : Nat) : Option St :=
  match s.pusher t with
  | .idle => none
  | .load a => some { s with next := update s.next a s.top, pusher := update s.pusher t (.cas a) }
  | .cas a =>
    if s.top = s.next a then
      some { s with top := .node a, pusher := update s.pusher t .idle,
                    queued := s.queued ++ [s.data a] }
    else some { s with pusher := update s.pusher t (.load a) }

def drainStep (s : St) : St :=
  match s.drainer with
  | .idle => { s with top := .tail, drainer := .reverse s.top .tail }
  | .reverse (.node a) rev =>
    { s with next := update s.next a rev, drainer := .reverse (s.next a) (.node a) }
  | .reverse .tail rev => { s with drainer := .call rev }
  | .call (.node a) =>
    { s with executed := s.executed ++ [s.data a], drainer := .release a (s.next a) }
  | .call .tail => { s with drainer := .idle }
  | .release a n => { s with owned := update s.owned a false, drainer := .call n }

inductive Step : St → St → Prop
  | enter (s : St) (t a d : Nat) (ht : s.pusher t = .idle) (ha : s.owned a = false) :
      Step s (enter s t a d)
  | push (s s' : St) (t : Nat) (h : pushStep s t = some s') : Step s s'
  | drain (s : St) : Step s (drainStep s)

inductive Reachable : St → Prop
  | init : Reachable init
  | step (s s' : St) (hr : Reachable s) (h : Step s s') : Reachable s'

/-! ## The invariant -/

/-- The entries `xs` are linked from `p`. -/
def Linked (next : Nat → Ptr) : Ptr → List Nat → Prop
  | p, [] => p = .tail
  | p, a :: xs => p = .node a ∧ Linked next (next a) xs

theorem linked_update {next : Nat → Ptr} {p : Ptr} {xs : List Nat} {a : Nat} {v : Ptr}
    (h : Linked next p xs) (ha : a ∉ xs) : Linked (update next a v) p xs := by
  induction xs generalizing p with
  | nil => exact h
  | cons x xs ih =>
    refine ⟨h.1, ?_⟩
    have hx : x ≠ a := fun e => ha (by rw [e]; simp)
    rw [Function.update_of_ne hx]
    exact ih h.2 (fun hm => ha (by simp [hm]))

/-- The entry a pusher works on. -/
def Pusher.entry : Pusher → Option Nat
  | .idle => none
  | .load a | .cas a => some a

/-- The entries that the interpreter still has to call, in that order, and the one that it
still has to free. -/
def Holds (next : Nat → Ptr) : Drainer → List Nat → List Nat → Prop
  | .idle, todo, old => todo = [] ∧ old = []
  | .reverse sig rev, todo, old =>
    ∃ xs ys, Linked next sig xs ∧ Linked next rev ys ∧ todo = xs.reverse ++ ys ∧ old = []
  | .call sig, todo, old => Linked next sig todo ∧ old = []
  | .release a n, todo, old => Linked next n todo ∧ old = [a]

structure Inv (s : St) (stack todo old : List Nat) : Prop where
  top : Linked s.next s.top stack
  holds : Holds s.next s.drainer todo old
  nodup : (stack ++ todo ++ old).Nodup
  owned : ∀ a, a ∈ stack ++ todo ++ old → s.owned a = true
  powned : ∀ t a, (s.pusher t).entry = some a → s.owned a = true ∧ a ∉ stack ++ todo ++ old
  distinct : ∀ t u a, (s.pusher t).entry = some a → (s.pusher u).entry = some a → t = u
  queued : s.queued = s.executed ++ todo.map s.data ++ stack.reverse.map s.data
  arg : ∀ t a, (s.pusher t).entry = some a → s.data a = s.arg t

theorem holds_update {next : Nat → Ptr} {d : Drainer} {todo old : List Nat} {a : Nat} {v : Ptr}
    (h : Holds next d todo old) (ha : a ∉ todo) : Holds (update next a v) d todo old := by
  cases d with
  | idle => exact h
  | reverse sig rev =>
    obtain ⟨xs, ys, h1, h2, rfl, h4⟩ := h
    refine ⟨xs, ys, linked_update h1 ?_, linked_update h2 ?_, rfl, h4⟩
    · exact fun hm => ha (by simp [hm])
    · exact fun hm => ha (by simp [hm])
  | call sig => exact ⟨linked_update h.1 ha, h.2⟩
  | release b n => exact ⟨linked_update h.1 ha, h.2⟩

theorem map_update {d : Nat → Nat} {a v : Nat} {xs : List Nat} (h : a ∉ xs) :
    xs.map (update d a v) = xs.map d := by
  apply List.map_congr_left
  intro x hx
  exact Function.update_of_ne (by rintro rfl; exact h hx) _ _

theorem inv_enter {s : St} {stack todo old : List Nat} (i : Inv s stack todo old) (t a d : Nat)
    (ha : s.owned a = false) : Inv (enter s t a d) stack todo old := by
  have hna : a ∉ stack ++ todo ++ old := fun hm => by
    have := i.owned a hm; rw [ha] at this; cases this
  have hne : ∀ b, s.owned b = true → b ≠ a := by rintro b hb rfl; rw [ha] at hb; cases hb
  refine ⟨i.top, i.holds, i.nodup, fun b hb => ?_, fun u b hb => ?_, fun u v b h1 h2 => ?_, ?_,
    fun u b hb => ?_⟩
  · show update s.owned a true b = true
    rw [Function.update_of_ne (hne b (i.owned b hb))]
    exact i.owned b hb
  · show update s.owned a true b = true ∧ _
    have hb : (update s.pusher t (.load a) u).entry = some b := hb
    by_cases hu : u = t
    · subst hu
      rw [Function.update_self] at hb
      cases hb
      exact ⟨Function.update_self _ _ _, hna⟩
    · rw [Function.update_of_ne hu] at hb
      have := i.powned u b hb
      rw [Function.update_of_ne (hne b this.1)]
      exact this
  · have h1 : (update s.pusher t (.load a) u).entry = some b := h1
    have h2 : (update s.pusher t (.load a) v).entry = some b := h2
    by_cases hu : u = t <;> by_cases hv : v = t
    · rw [hu, hv]
    · subst hu
      rw [Function.update_self] at h1
      rw [Function.update_of_ne hv] at h2
      cases h1
      exact absurd rfl (hne _ (i.powned v _ h2).1)
    · subst hv
      rw [Function.update_self] at h2
      rw [Function.update_of_ne hu] at h1
      cases h2
      exact absurd rfl (hne _ (i.powned u _ h1).1)
    · rw [Function.update_of_ne hu] at h1
      rw [Function.update_of_ne hv] at h2
      exact i.distinct u v b h1 h2
  · show s.queued = s.executed ++ todo.map (update s.data a d) ++ stack.reverse.map (update s.data a d)
    simp only [List.mem_append, not_or] at hna
    rw [map_update hna.1.2, map_update (by simpa using hna.1.1), i.queued]
  · show update s.data a d b = update s.arg t d u
    have hb : (update s.pusher t (.load a) u).entry = some b := hb
    by_cases hu : u = t
    · subst hu
      rw [Function.update_self] at hb
      cases hb
      rw [Function.update_self, Function.update_self]
    · rw [Function.update_of_ne hu] at hb
      rw [Function.update_of_ne hu, Function.update_of_ne (hne b (i.powned u b hb).1)]
      exact i.arg u b hb

theorem inv_push {s s' : St} {stack todo old : List Nat} (i : Inv s stack todo old) (t : Nat)
    (h : pushStep s t = some s') : ∃ stack', Inv s' stack' todo old := by
  unfold pushStep at h
  cases hp : s.pusher t with
  | idle => rw [hp] at h; cases h
  | load a =>
    rw [hp] at h
    cases h
    have hown := i.powned t a (by rw [hp]; rfl)
    have hna := hown.2
    simp only [List.mem_append, not_or] at hna
    refine ⟨stack, linked_update i.top hna.1.1, holds_update i.holds hna.1.2, i.nodup, i.owned,
      fun u b hb => ?_, fun u v b h1 h2 => ?_, i.queued, fun u b hb => ?_⟩
    · have hb : (update s.pusher t (.cas a) u).entry = some b := hb
      by_cases hu : u = t
      · subst hu
        rw [Function.update_self] at hb
        cases hb
        exact hown
      · rw [Function.update_of_ne hu] at hb
        exact i.powned u b hb
    · have key : ∀ u, (update s.pusher t (.cas a) u).entry = (s.pusher u).entry := by
        intro u
        by_cases hu : u = t
        · subst hu; rw [Function.update_self, hp]; rfl
        · rw [Function.update_of_ne hu]
      exact i.distinct u v b ((key u).symm.trans h1) ((key v).symm.trans h2)
    · have hb : (update s.pusher t (.cas a) u).entry = some b := hb
      by_cases hu : u = t
      · subst hu
        rw [Function.update_self] at hb
        cases hb
        exact i.arg u a (by rw [hp]; rfl)
      · rw [Function.update_of_ne hu] at hb
        exact i.arg u b hb
  | cas a =>
    rw [hp] at h
    have hown := i.powned t a (by rw [hp]; rfl)
    have hna := hown.2
    simp only at h
    split at h
    · rename_i htop
      cases h
      refine ⟨a :: stack, ⟨rfl, ?_⟩, i.holds, ?_, fun b hb => ?_, fun u b hb => ?_,
        fun u v b h1 h2 => ?_, ?_, fun u b hb => ?_⟩
      · rw [← htop]; exact i.top
      · simp only [List.cons_append, List.nodup_cons]
        exact ⟨hna, i.nodup⟩
      · simp only [List.cons_append, List.mem_cons] at hb
        rcases hb with rfl | hb
        · exact hown.1
        · exact i.owned b hb
      · have hb : (update s.pusher t .idle u).entry = some b := hb
        by_cases hu : u = t
        · subst hu; rw [Function.update_self] at hb; cases hb
        · rw [Function.update_of_ne hu] at hb
          have hb' := i.powned u b hb
          refine ⟨hb'.1, ?_⟩
          simp only [List.cons_append, List.mem_cons, not_or]
          refine ⟨?_, hb'.2⟩
          intro e
          exact hu (i.distinct u t b hb (by rw [hp, e]; rfl))
      · have h1 : (update s.pusher t .idle u).entry = some b := h1
        have h2 : (update s.pusher t .idle v).entry = some b := h2
        by_cases hu : u = t
        · subst hu; rw [Function.update_self] at h1; cases h1
        · by_cases hv : v = t
          · subst hv; rw [Function.update_self] at h2; cases h2
          · rw [Function.update_of_ne hu] at h1
            rw [Function.update_of_ne hv] at h2
            exact i.distinct u v b h1 h2
      · show s.queued ++ [s.data a] = _
        rw [i.queued]
        simp
      · have hb : (update s.pusher t .idle u).entry = some b := hb
        by_cases hu : u = t
        · subst hu; rw [Function.update_self] at hb; cases hb
        · rw [Function.update_of_ne hu] at hb
          exact i.arg u b hb
    · cases h
      have key : ∀ u, (update s.pusher t (.load a) u).entry = (s.pusher u).entry := by
        intro u
        by_cases hu : u = t
        · subst hu; rw [Function.update_self, hp]; rfl
        · rw [Function.update_of_ne hu]
      exact ⟨stack, i.top, i.holds, i.nodup, i.owned,
        fun u b hb => i.powned u b ((key u).symm.trans hb),
        fun u v b h1 h2 => i.distinct u v b ((key u).symm.trans h1) ((key v).symm.trans h2),
        i.queued, fun u b hb => i.arg u b ((key u).symm.trans hb)⟩

theorem inv_drain {s : St} {stack todo old : List Nat} (i : Inv s stack todo old) :
    ∃ stack' todo' old', Inv (drainStep s) stack' todo' old' := by
  unfold drainStep
  have hh := i.holds
  cases hd : s.drainer with
  | idle =>
    rw [hd] at hh
    obtain ⟨rfl, rfl⟩ := hh
    refine ⟨[], stack.reverse, [], rfl, ⟨stack, [], i.top, rfl, by simp, rfl⟩, ?_, ?_, ?_,
      i.distinct, ?_, i.arg⟩
    · have := i.nodup
      rw [List.append_nil, List.append_nil] at this
      rw [List.append_nil, List.nil_append]
      exact (List.Perm.nodup_iff (List.reverse_perm stack)).mpr this
    · intro a ha; exact i.owned a (by simpa using ha)
    · intro t a h
      have := i.powned t a h
      exact ⟨this.1, by simpa using this.2⟩
    · have := i.queued
      simpa using this
  | reverse sig rev =>
    rw [hd] at hh
    obtain ⟨xs, ys, h1, h2, rfl, rfl⟩ := hh
    cases sig with
    | tail =>
      have hxs : xs = [] := by cases xs with | nil => rfl | cons x xs => cases h1.1
      subst hxs
      exact ⟨stack, ys, [], i.top, ⟨h2, rfl⟩, i.nodup, i.owned, i.powned, i.distinct, i.queued, i.arg⟩
    | node a =>
      cases xs with
      | nil => cases h1
      | cons x xs =>
        obtain ⟨h1a, h1b⟩ := h1
        cases h1a
        have hnd := i.nodup
        have hnd' : a ∉ stack ∧ a ∉ xs ∧ a ∉ ys := by
          simp only [List.reverse_cons, List.append_assoc, List.append_nil, List.nodup_append,
            List.mem_append, List.mem_reverse, List.mem_cons, List.not_mem_nil, or_false] at hnd
          refine ⟨?_, ?_, ?_⟩
          · intro hm; exact hnd.2.2 a hm a (.inr (.inl rfl)) rfl
          · intro hm; exact hnd.2.1.2.2 a hm a (.inl rfl) rfl
          · intro hm; exact hnd.2.1.2.1.2.2 a rfl a hm rfl
        have e : (a :: xs).reverse ++ ys = xs.reverse ++ (a :: ys) := by simp
        rw [e] at i
        refine ⟨stack, xs.reverse ++ (a :: ys), [], linked_update i.top hnd'.1,
          ⟨xs, a :: ys, linked_update h1b hnd'.2.1, ⟨rfl, ?_⟩, rfl, rfl⟩, i.nodup,
          i.owned, i.powned, i.distinct, i.queued, i.arg⟩
        show Linked (update s.next a rev) (update s.next a rev a) ys
        rw [Function.update_self]
        exact linked_update h2 hnd'.2.2
  | call sig =>
    rw [hd] at hh
    obtain ⟨h1, rfl⟩ := hh
    cases sig with
    | tail =>
      have ht : todo = [] := by cases todo with | nil => rfl | cons x xs => cases h1.1
      subst ht
      exact ⟨stack, [], [], i.top, ⟨rfl, rfl⟩, i.nodup, i.owned, i.powned, i.distinct, i.queued, i.arg⟩
    | node a =>
      cases todo with
      | nil => cases h1
      | cons x xs =>
        obtain ⟨h1a, h1b⟩ := h1
        cases h1a
        have hperm : ∀ b, b ∈ stack ++ xs ++ [a] ↔ b ∈ stack ++ (a :: xs) ++ [] := by
          intro b; simp; tauto
        refine ⟨stack, xs, [a], i.top, ⟨h1b, rfl⟩, ?_, fun b hb => i.owned b ((hperm b).mp hb),
          fun t b hb => ⟨(i.powned t b hb).1, fun hm => (i.powned t b hb).2 ((hperm b).mp hm)⟩,
          i.distinct, ?_, i.arg⟩
        · have := i.nodup
          rw [List.append_nil] at this
          refine (List.Perm.nodup_iff ?_).mp this
          rw [List.append_assoc]
          exact List.Perm.append_left _ (List.perm_append_comm (l₁ := [a]) (l₂ := xs))
        · show s.queued = (s.executed ++ [s.data a]) ++ _ ++ _
          rw [i.queued]; simp
  | release a n =>
    rw [hd] at hh
    obtain ⟨h1, rfl⟩ := hh
    have hnd := i.nodup
    have hna : a ∉ stack ++ todo := fun hm => by
      have := (List.nodup_append.mp hnd).2.2 a hm a (by simp)
      exact this rfl
    refine ⟨stack, todo, [], i.top, ⟨h1, rfl⟩, ?_, fun b hb => ?_, fun t b hb => ?_,
      i.distinct, i.queued, i.arg⟩
    · rw [List.append_nil]; exact (List.nodup_append.mp hnd).1
    · rw [List.append_nil] at hb
      show update s.owned a false b = true
      rw [Function.update_of_ne (by rintro rfl; exact hna hb)]
      exact i.owned b (by simp only [List.mem_append] at hb ⊢; exact .inl hb)
    · have h2 := i.powned t b hb
      have hba : b ≠ a := by rintro rfl; exact h2.2 (by simp)
      refine ⟨?_, fun hm => h2.2 ?_⟩
      · show update s.owned a false b = true
        rw [Function.update_of_ne hba]; exact h2.1
      · rw [List.append_nil] at hm; simp only [List.mem_append] at hm ⊢; exact .inl hm

theorem reachable_inv {s : St} (h : Reachable s) : ∃ stack todo old, Inv s stack todo old := by
  induction h with
  | init =>
    refine ⟨[], [], [], rfl, ⟨rfl, rfl⟩, by simp, by simp, ?_, ?_, rfl, ?_⟩
    · intro t a h; cases h
    · intro t u a h; cases h
    · intro t a h; cases h
  | step s s' _ hs ih =>
    obtain ⟨stack, todo, old, i⟩ := ih
    cases hs with
    | enter t a d _ ha => exact ⟨stack, todo, old, inv_enter i t a d ha⟩
    | push _ t h => obtain ⟨st, i'⟩ := inv_push i t h; exact ⟨st, todo, old, i'⟩
    | drain => exact inv_drain i

/-! ## C18 for the queue of `_gst_async_call` -/

/-- **C18 (partial).**  However the threads and the interpreter interleave, the calls executed
are an initial part of the calls queued: in the order of queueing, none skipped, none
executed twice.

Missing: the same for the second queue, filled by `_gst_async_call_internal`, where it is
false (`Sig.lean`). -/
theorem executed_in_order_partial (s : St) (h : Reachable s) : s.executed <+: s.queued := by
  obtain ⟨stack, todo, old, i⟩ := reachable_inv h
  rw [i.queued, List.append_assoc]
  exact List.prefix_append _ _

/-- **C18 (partial).**  When the interpreter is through and the queue is empty, every call
queued has been executed. -/
theorem all_executed_partial (s : St) (h : Reachable s) (hd : s.drainer = .idle)
    (ht : s.top = .tail) : s.executed = s.queued := by
  obtain ⟨stack, todo, old, i⟩ := reachable_inv h
  have hh := i.holds
  rw [hd] at hh
  have hs : stack = [] := by
    have := i.top
    rw [ht] at this
    cases stack with
    | nil => rfl
    | cons x xs => cases this.1
  rw [i.queued, hs, hh.1]
  simp

/-- **C18 (partial).**  A thread leaves the function in the very step that puts the call it
was asked for at the end of the queue, and no other step of a thread changes the queue. -/
theorem returns_when_queued_partial (s s' : St) (t : Nat) (h : Reachable s)
    (hs : pushStep s t = some s') :
    s'.queued = if (s'.pusher t).entry = none then s.queued ++ [s.arg t] else s.queued := by
  obtain ⟨stack, todo, old, i⟩ := reachable_inv h
  unfold pushStep at hs
  cases hp : s.pusher t with
  | idle => rw [hp] at hs; cases hs
  | load a => rw [hp] at hs; cases hs; simp [Pusher.entry]
  | cas a =>
    rw [hp] at hs
    have := i.arg t a (by rw [hp]; rfl)
    simp only at hs
    split at hs
    · cases hs; simp [Pusher.entry, this]
    · cases hs; simp [Pusher.entry]

/-- No thread ever touches an entry that has been freed. -/
theorem no_use_after_free (s : St) (h : Reachable s) :
    (∀ t a, (s.pusher t).entry = some a → s.owned a = true) ∧
    (∀ a r, s.drainer = .reverse (.node a) r → s.owned a = true) ∧
    (∀ a, s.drainer = .call (.node a) → s.owned a = true) ∧
    (∀ a n, s.drainer = .release a n → s.owned a = true) := by
  obtain ⟨stack, todo, old, i⟩ := reachable_inv h
  have hh := i.holds
  refine ⟨fun t a h => (i.powned t a h).1, fun a r hd => ?_, fun a hd => ?_, fun a n hd => ?_⟩
  · rw [hd] at hh
    obtain ⟨xs, ys, h1, -, rfl, -⟩ := hh
    cases xs with
    | nil => cases h1
    | cons x xs => cases h1.1; exact i.owned _ (by simp)
  · rw [hd] at hh
    cases todo with
    | nil => cases hh.1
    | cons x xs => cases hh.1.1; exact i.owned _ (by simp)
  · rw [hd] at hh
    apply i.owned
    rw [hh.2]; simp

def drainSteps (s : St) : Nat → St
  | 0 => s
  | k + 1 => drainSteps (drainStep s) k

theorem drain_call (todo : List Nat) : ∀ (s : St) (sig : Ptr), s.drainer = .call sig →
    Linked s.next sig todo →
    ∃ k, (drainSteps s k).drainer = .idle ∧ (drainSteps s k).top = s.top := by
  induction todo with
  | nil =>
    intro s sig hd hl
    refine ⟨1, ?_⟩
    simp only [drainSteps, drainStep, hd, show sig = .tail from hl, and_self]
  | cons a xs ih =>
    intro s sig hd hl
    obtain ⟨rfl, hl⟩ := hl
    have e : drainStep (drainStep s) = { s with
        executed := s.executed ++ [s.data a], owned := update s.owned a false,
        drainer := .call (s.next a) } := by
      simp only [drainStep, hd]
    obtain ⟨k, h1, h2⟩ := ih (drainStep (drainStep s)) (s.next a) (by rw [e]) (by rw [e]; exact hl)
    refine ⟨k + 2, h1, ?_⟩
    show (drainSteps (drainStep (drainStep s)) k).top = _
    rw [h2, e]

theorem drain_idle {s : St} {stack todo old : List Nat} (i : Inv s stack todo old) :
    ∃ k, (drainSteps s k).drainer = .idle ∧ (drainSteps s k).top = s.top := by
  have hh := i.holds
  cases hd : s.drainer with
  | idle => exact ⟨0, hd, rfl⟩
  | call sig => rw [hd] at hh; exact drain_call todo s sig hd hh.1
  | release a n =>
    rw [hd] at hh
    have e : drainStep s = { s with owned := update s.owned a false, drainer := .call n } := by
      simp only [drainStep, hd]
    obtain ⟨k, h1, h2⟩ := drain_call todo (drainStep s) n (by rw [e]) (by rw [e]; exact hh.1)
    refine ⟨k + 1, h1, ?_⟩
    show (drainSteps (drainStep s) k).top = _
    rw [h2, e]
  | reverse sig rev =>
    rw [hd] at hh
    obtain ⟨xs, ys, h1, h2, ht, -⟩ := hh
    have hnd : (xs ++ ys).Nodup := by
      have := i.nodup
      rw [ht] at this
      have h3 := (List.nodup_append.mp (List.nodup_append.mp this).1).2.1
      rw [List.nodup_append] at h3 ⊢
      refine ⟨(List.Perm.nodup_iff (List.reverse_perm xs)).mp h3.1, h3.2.1, fun a ha => h3.2.2 a (by simpa using ha)⟩
    clear ht i
    induction xs generalizing s sig rev ys with
    | nil =>
      have e : drainStep s = { s with drainer := .call rev } := by
        simp only [drainStep, hd, show sig = .tail from h1]
      obtain ⟨k, h3, h4⟩ := drain_call ys (drainStep s) rev (by rw [e]) (by rw [e]; exact h2)
      refine ⟨k + 1, h3, ?_⟩
      show (drainSteps (drainStep s) k).top = _
      rw [h4, e]
    | cons a xs ih =>
      obtain ⟨rfl, h1⟩ := h1
      have e : drainStep s = { s with
          next := update s.next a rev, drainer := .reverse (s.next a) (.node a) } := by
        simp only [drainStep, hd]
      simp only [List.cons_append, List.nodup_cons, List.mem_append, not_or] at hnd
      obtain ⟨k, h3, h4⟩ := ih (s := drainStep s) (s.next a) (.node a) (by rw [e]) (a :: ys)
        (by rw [e]; exact linked_update h1 hnd.1.1)
        (by
          rw [e]
          refine ⟨rfl, ?_⟩
          show Linked (update s.next a rev) (update s.next a rev a) ys
          rw [Function.update_self]; exact linked_update h2 hnd.1.2)
        (by
          refine (List.Perm.nodup_iff ?_).mp (List.nodup_cons.mpr
            ⟨by simp only [List.mem_append, not_or]; exact hnd.1, hnd.2⟩)
          exact List.perm_middle.symm)
      refine ⟨k + 1, h3, ?_⟩
      show (drainSteps (drainStep s) k).top = _
      rw [h4, e]

/-- **C18 (partial).**  From every reachable state the interpreter alone gets to a state in
which every queued call has been executed: no entry is unreachable and no loop endless. -/
theorem drain_executes_all_partial (s : St) (h : Reachable s) :
    ∃ k, (drainSteps s k).executed = s.queued := by
  have hstep : ∀ k s, Reachable s → Reachable (drainSteps s k) := by
    intro k
    induction k with
    | zero => intro s h; exact h
    | succ k ih => intro s h; exact ih _ (.step _ _ h (.drain s))
  have hqueued : ∀ k s, (drainSteps s k).queued = s.queued := by
    intro k
    induction k with
    | zero => intro s; rfl
    | succ k ih =>
      intro s
      show (drainSteps (drainStep s) k).queued = _
      rw [ih]
      unfold drainStep
      split <;> rfl
  have hadd : ∀ k m s, drainSteps s (k + m) = drainSteps (drainSteps s k) m := by
    intro k
    induction k with
    | zero => intro m s; rw [Nat.zero_add]; rfl
    | succ k ih =>
      intro m s
      rw [show k + 1 + m = (k + m) + 1 by omega]
      exact ih m (drainStep s)
  obtain ⟨stack, todo, old, i⟩ := reachable_inv h
  obtain ⟨k1, h1, -⟩ := drain_idle i
  have r1 := hstep k1 s h
  -- one more round takes what was in the queue
  have r2 : Reachable (drainStep (drainSteps s k1)) := .step _ _ r1 (.drain _)
  obtain ⟨stack', todo', old', i'⟩ := reachable_inv r2
  obtain ⟨k2, h2, h3⟩ := drain_idle i'
  have ht : (drainStep (drainSteps s k1)).top = .tail := by simp only [drainStep, h1]
  rw [ht] at h3
  refine ⟨k1 + (k2 + 1), ?_⟩
  rw [hadd]
  show (drainSteps (drainStep (drainSteps s k1)) k2).executed = _
  rw [all_executed_partial _ (hstep k2 _ r2) h2 h3, hqueued]
  have := hqueued 1 (drainSteps s k1)
  rw [show drainSteps (drainSteps s k1) 1 = drainStep (drainSteps s k1) from rfl] at this
  rw [this, hqueued]

/-- Non-vacuity: two threads compete, one compare-and-swap fails, and both calls are
executed. -/
def race : St :=
  let s := enter (enter init 0 100 7) 1 200 8
  let s := (pushStep s 0).getD s      -- thread 0 reads the empty queue
  let s := (pushStep s 1).getD s      -- and so does thread 1
  let s := (pushStep s 1).getD s      -- thread 1 wins
  let s := (pushStep s 0).getD s      -- thread 0 fails
  let s := (pushStep s 0).getD s      -- reads again
  (pushStep s 0).getD s               -- and succeeds

example : race.queued = [8, 7] ∧ (drainSteps race 11).executed = [8, 7] := by decide

end Verif.Async
