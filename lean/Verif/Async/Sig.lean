import Mathlib.Data.List.Basic
import Mathlib.Logic.Function.Basic

/-!
# The queue filled by signal handlers (libgst/interp.c:1573-1583, 1638-1666): C18

`_gst_async_call_internal` queues a static entry unless it is queued already; `next` serves
as the mark.  The model has one step per access to shared memory, any number of activations
of the function (handlers that interrupt each other, or threads) and the interpreter.

Simplifications as in `Queue.lean`; `func` and `data` of an entry are constant (the model
records which entry was called).
-/

namespace Verif.Async.Sig

open Function (update)

/-- `NULL`, `&queued_async_signals_tail` or an entry. -/
inductive Ptr
  | null
  | tail
  | node (e : Nat)
  deriving DecidableEq

/-- An activation of `_gst_async_call_internal`. -/
inductive Caller
  | idle
  /-- About to read `queued_async_signals_sig`, the third argument on line 1580. -/
  | read (e : Nat)
  /-- About to do the compare-and-swap of line 1580 with that value. -/
  | mark (e : Nat) (v : Ptr)
  /-- About to read `e->next`, the second argument on line 1582. -/
  | reread (e : Nat)
  /-- About to do the compare-and-swap of line 1582 with that value. -/
  | push (e : Nat) (w : Ptr)

/-- The interpreter in the second half of `empty_async_queue`: lines 1638-1666. -/
inductive Drainer
  | idle
  | reverse (sig rev : Ptr)
  | call (sig : Ptr)
  /-- `func`, `data` and `next` have been read, `sig->next = NULL` is to be done. -/
  | unmark (e : Nat) (next : Ptr)
  /-- `func (data)` is to be done. -/
  | exec (e : Nat) (next : Ptr)

structure St where
  next : Nat → Ptr
  top : Ptr
  caller : Nat → Caller
  drainer : Drainer
  /-- For the specification: the entries for which the function was called, and the entries
  executed, oldest first. -/
  calls : List Nat
  executed : List Nat

def init : St where
  next _ := .null
  top := .tail
  caller _ := .idle
  drainer := .idle
  calls := []
  executed := []

/-- Activation `t` begins a call for `e`. -/
def enter (s : St) (t e : Nat) : St :=
  { s with caller := update s.caller t (.read e), calls := s.calls ++ [e] }

/-- interp.c:1579-1582. -/
def callStep (s : St) (t : Nat) : St :=
  match s.caller t with
  | .idle => s
  | .read e => { s with caller := update s.caller t (.mark e s.top) }
  | .mark e v =>
    if s.next e = .null then
      { s with next := update s.next e v, caller := update s.caller t (.reread e) }
    else { s with caller := update s.caller t .idle }
  | .reread e => { s with caller := update s.caller t (.push e (s.next e)) }
  | .push e w =>
    if s.top = w then { s with top := .node e, caller := update s.caller t .idle }
    else { s with caller := update s.caller t (.read e) }

/-- interp.c:1641-1665.  `none`: a null pointer is followed. -/
def drainStep (s : St) : Option St :=
  match s.drainer with
  | .idle => some { s with top := .tail, drainer := .reverse s.top .tail }
  | .reverse (.node e) rev =>
    some { s with next := update s.next e rev, drainer := .reverse (s.next e) (.node e) }
  | .reverse .tail rev => some { s with drainer := .call rev }
  | .reverse .null _ => none
  | .call (.node e) => some { s with drainer := .unmark e (s.next e) }
  | .call .tail => some { s with drainer := .idle }
  | .call .null => none
  | .unmark e n => some { s with next := update s.next e .null, drainer := .exec e n }
  | .exec e n => some { s with executed := s.executed ++ [e], drainer := .call n }

inductive Step : St → St → Prop
  | enter (s : St) (t e : Nat) (ht : s.caller t = .idle) : Step s (enter s t e)
  | call (s : St) (t : Nat) : Step s (callStep s t)
  | drain (s s' : St) (h : drainStep s = some s') : Step s s'

inductive Steps : St → St → Prop
  | refl (s : St) : Steps s s
  | step (s s' s'' : St) (h : Steps s s') (h' : Step s' s'') : Steps s s''

/-! ## The lost entry -/

/-- Entry `e` can be reached from `p`. -/
inductive Path (next : Nat → Ptr) (e : Nat) : Ptr → Prop
  | here : Path next e (.node e)
  | there (x : Nat) (h : Path next e (next x)) : Path next e (.node x)

theorem path_update {next : Nat → Ptr} {e a : Nat} {v p : Ptr} (h : Path (update next a v) e p) :
    Path next e p ∨ Path next e v := by
  induction h with
  | here => exact .inl .here
  | there x _ ih =>
    rcases ih with ih | ih
    · by_cases hx : x = a
      · subst hx; rw [Function.update_self] at ih; exact .inr ih
      · rw [Function.update_of_ne hx] at ih; exact .inl (.there x ih)
    · exact .inr ih

/-- The entry an activation has marked and not yet pushed. -/
def Caller.holds : Caller → Nat → Prop
  | .reread e, x | .push e _, x => x = e
  | _, _ => False

/-- What the interpreter can still get at. -/
def Drainer.sees (next : Nat → Ptr) (e : Nat) : Drainer → Prop
  | .idle => False
  | .reverse sig rev => Path next e sig ∨ Path next e rev
  | .call sig => Path next e sig
  | .unmark x n => x = e ∨ Path next e n
  | .exec x n => x = e ∨ Path next e n

/-- Marked as queued, but in no queue, and nobody is going to put it there. -/
structure Lost (s : St) (e : Nat) : Prop where
  marked : s.next e ≠ .null
  queue : ¬ Path s.next e s.top
  drainer : ¬ s.drainer.sees s.next e
  callers : ∀ t, ¬ (s.caller t).holds e
  /-- No activation is about to link an entry that leads to `e`. -/
  values : ∀ t x v, s.caller t = .mark x v → ¬ Path s.next e v
  held : ∀ t x, (s.caller t).holds x → ¬ Path s.next e (s.next x)

theorem sees_update {next : Nat → Ptr} {e a : Nat} {v : Ptr} {d : Drainer}
    (h : d.sees (update next a v) e) : d.sees next e ∨ Path next e v := by
  cases d with
  | idle => cases h
  | reverse sig rev =>
    rcases h with h | h
    · rcases path_update h with h | h
      · exact .inl (.inl h)
      · exact .inr h
    · rcases path_update h with h | h
      · exact .inl (.inr h)
      · exact .inr h
  | call sig => exact path_update h
  | unmark x n =>
    rcases h with h | h
    · exact .inl (.inl h)
    · rcases path_update h with h | h
      · exact .inl (.inr h)
      · exact .inr h
  | exec x n =>
    rcases h with h | h
    · exact .inl (.inl h)
    · rcases path_update h with h | h
      · exact .inl (.inr h)
      · exact .inr h

theorem update_cases {α : Type} {f : Nat → α} {t u : Nat} {v x : α} (h : update f t v u = x) :
    (u = t ∧ v = x) ∨ f u = x := by
  by_cases hu : u = t
  · subst hu; rw [Function.update_self] at h; exact .inl ⟨rfl, h⟩
  · rw [Function.update_of_ne hu] at h; exact .inr h

theorem holds_update {s : St} {e t : Nat} {c : Caller} (l : ∀ t, ¬ (s.caller t).holds e)
    (hc : ¬ c.holds e) (u : Nat) : ¬ (update s.caller t c u).holds e := by
  by_cases hu : u = t
  · subst hu; rw [Function.update_self]; exact hc
  · rw [Function.update_of_ne hu]; exact l u

theorem path_update_at {next : Nat → Ptr} {e a x : Nat} {v : Ptr}
    (h : Path (update next a v) e (update next a v x)) : Path next e (next x) ∨ Path next e v := by
  by_cases hx : x = a
  · subst hx; rw [Function.update_self] at h
    rcases path_update h with h | h <;> exact .inr h
  · rw [Function.update_of_ne hx] at h; exact path_update h

theorem lost_step {s s' : St} {e : Nat} (l : Lost s e) (h : Step s s') :
    Lost s' e ∧ s'.executed.count e = s.executed.count e := by
  have hvals : ∀ {t : Nat} {c : Caller}, (∀ x v, c = .mark x v → ¬ Path s.next e v) →
      ∀ u x v, update s.caller t c u = .mark x v → ¬ Path s.next e v := by
    intro t c hc u x v hu
    rcases update_cases hu with ⟨-, h⟩ | h
    · exact hc x v h
    · exact l.values u x v h
  have hheld : ∀ {t : Nat} {c : Caller}, (∀ x, c.holds x → ¬ Path s.next e (s.next x)) →
      ∀ u x, (update s.caller t c u).holds x → ¬ Path s.next e (s.next x) := by
    intro t c hc u x hu
    by_cases h : u = t
    · subst h; rw [Function.update_self] at hu; exact hc x hu
    · rw [Function.update_of_ne h] at hu; exact l.held u x hu
  -- storing a pointer that does not lead to `e` into another entry
  have hstore : ∀ (a : Nat) (v : Ptr), a ≠ e → ¬ Path s.next e v →
      Lost { s with next := update s.next a v } e := by
    intro a v ha hv
    refine ⟨?_, fun h => ?_, fun h => ?_, l.callers, fun t x w hw h => ?_, fun t x hx h => ?_⟩
    · show update s.next a v e ≠ .null
      rw [Function.update_of_ne (Ne.symm ha)]; exact l.marked
    · exact (path_update h).elim l.queue hv
    · exact (sees_update h).elim l.drainer hv
    · exact (path_update h).elim (l.values t x w hw) hv
    · exact (path_update_at h).elim (l.held t x hx) hv
  cases h with
  | enter t x ht =>
    exact ⟨⟨l.marked, l.queue, l.drainer, holds_update l.callers (fun h => h.elim),
      hvals (by intro x v h; cases h), hheld (fun x h => h.elim)⟩, rfl⟩
  | call t =>
    refine ⟨?_, by unfold callStep; split <;> (try split) <;> rfl⟩
    unfold callStep
    cases hc : s.caller t with
    | idle => exact l
    | read x =>
      refine ⟨l.marked, l.queue, l.drainer, holds_update l.callers (fun h => h.elim), hvals ?_,
        hheld (fun x h => h.elim)⟩
      intro y v h; cases h; exact l.queue
    | mark x v =>
      show Lost (if s.next x = .null then _ else _) e
      split
      · rename_i hx
        have hxe : e ≠ x := by rintro rfl; exact l.marked hx
        have hv := l.values t x v hc
        have l' := hstore x v (Ne.symm hxe) hv
        refine ⟨l'.marked, l'.queue, l'.drainer, holds_update l.callers hxe, ?_, ?_⟩
        · intro u y w hu
          rcases update_cases hu with ⟨-, h'⟩ | h'
          · cases h'
          · exact l'.values u y w h'
        · intro u y hu
          by_cases h : u = t
          · subst h
            have hu : (update s.caller u (.reread x) u).holds y := hu
            rw [Function.update_self] at hu
            cases hu
            show ¬ Path (update s.next x v) e (update s.next x v x)
            rw [Function.update_self]
            exact fun h => (path_update h).elim hv hv
          · have hu : (update s.caller t (.reread x) u).holds y := hu
            rw [Function.update_of_ne h] at hu
            exact l'.held u y hu
      · exact ⟨l.marked, l.queue, l.drainer, holds_update l.callers (fun h => h.elim),
          hvals (by intro x v h; cases h), hheld (fun x h => h.elim)⟩
    | reread x =>
      have hx : e ≠ x := by
        have := l.callers t; rw [hc] at this; exact this
      exact ⟨l.marked, l.queue, l.drainer, holds_update l.callers hx,
        hvals (by intro x v h; cases h),
        hheld (fun y h => by cases h; exact l.held t x (by rw [hc]; rfl))⟩
    | push x w =>
      have hx : e ≠ x := by
        have := l.callers t; rw [hc] at this; exact this
      show Lost (if s.top = w then _ else _) e
      split
      · refine ⟨l.marked, fun h => ?_, l.drainer, holds_update l.callers (fun h => h.elim),
          hvals (by intro x v h; cases h), hheld (fun x h => h.elim)⟩
        cases h with
        | here => exact hx rfl
        | there _ h => exact l.held t x (by rw [hc]; rfl) h
      · exact ⟨l.marked, l.queue, l.drainer, holds_update l.callers (fun h => h.elim),
          hvals (by intro x v h; cases h), hheld (fun x h => h.elim)⟩
  | drain _ h =>
    unfold drainStep at h
    have hd := l.drainer
    have hp : ∀ {x : Nat}, ¬ Path s.next e (.node x) → x ≠ e ∧ ¬ Path s.next e (s.next x) :=
      fun h => ⟨by rintro rfl; exact h .here, fun h' => h (.there _ h')⟩
    split at h
    · cases h
      exact ⟨⟨l.marked, (by intro h; cases h), (by
        rintro (h | h)
        · exact l.queue h
        · cases h), l.callers, l.values, l.held⟩, rfl⟩
    · rename_i x rev hdr
      cases h
      rw [hdr] at hd
      simp only [Drainer.sees, not_or] at hd
      have hx := hp hd.1
      have l' := hstore x rev hx.1 hd.2
      refine ⟨⟨l'.marked, l'.queue, ?_, l'.callers, l'.values, l'.held⟩, rfl⟩
      rintro (h | h)
      · exact (path_update h).elim hx.2 hd.2
      · exact (path_update h).elim hd.1 hd.2
    · rename_i rev hdr
      cases h
      rw [hdr] at hd
      simp only [Drainer.sees, not_or] at hd
      exact ⟨⟨l.marked, l.queue, hd.2, l.callers, l.values, l.held⟩, rfl⟩
    · cases h
    · rename_i x hdr
      cases h
      rw [hdr] at hd
      have hx := hp hd
      exact ⟨⟨l.marked, l.queue, (fun h => h.elim hx.1 hx.2), l.callers, l.values, l.held⟩, rfl⟩
    · cases h
      exact ⟨⟨l.marked, l.queue, (fun h => h), l.callers, l.values, l.held⟩, rfl⟩
    · cases h
    · rename_i x n hdr
      cases h
      rw [hdr] at hd
      simp only [Drainer.sees, not_or] at hd
      have l' := hstore x .null hd.1 (by intro h; cases h)
      refine ⟨⟨l'.marked, l'.queue, ?_, l'.callers, l'.values, l'.held⟩, rfl⟩
      rintro (h | h)
      · exact hd.1 h
      · exact (path_update h).elim hd.2 (by intro h; cases h)
    · rename_i x n hdr
      cases h
      rw [hdr] at hd
      simp only [Drainer.sees, not_or] at hd
      refine ⟨⟨l.marked, l.queue, hd.2, l.callers, l.values, l.held⟩, ?_⟩
      show (s.executed ++ [x]).count e = _
      rw [List.count_append, List.count_singleton]
      simp [hd.1]

theorem lost_forever {s s' : St} {e : Nat} (l : Lost s e) (h : Steps s s') :
    Lost s' e ∧ s'.executed.count e = s.executed.count e := by
  induction h with
  | refl => exact ⟨l, rfl⟩
  | step _ _ _ h' ih =>
    have := lost_step ih.1 h'
    exact ⟨this.1, this.2.trans ih.2⟩

/-- Handler 0 has marked entry 1 when handler 1 runs for entry 2; then handler 0 goes on. -/
def interrupted : St :=
  let s := enter init 0 1
  let s := callStep (callStep (callStep s 0) 0) 0          -- up to the second compare-and-swap
  let s := enter s 1 2
  let s := callStep (callStep (callStep (callStep s 1) 1) 1) 1   -- all of handler 1
  callStep (callStep (callStep s 0) 0) 0                   -- the failure, and the way out

theorem interrupted_reachable : Steps init interrupted := by
  refine .step _ _ _ (.step _ _ _ (.step _ _ _ (.step _ _ _ (.step _ _ _ (.step _ _ _
    (.step _ _ _ (.step _ _ _ (.step _ _ _ (.step _ _ _ (.step _ _ _ (.step _ _ _ (.refl _)
      (.enter _ 0 1 rfl)) (.call _ 0)) (.call _ 0)) (.call _ 0)) (.enter _ 1 2 rfl))
      (.call _ 1)) (.call _ 1)) (.call _ 1)) (.call _ 1)) (.call _ 0)) (.call _ 0)) (.call _ 0)

/-- **C18 is false for the queue of the signal handlers**: if another entry is queued between
the two compare-and-swap operations of a call, that call returns without having queued its
entry, which stays marked as queued.  The entry is then never executed, in no continuation,
however often it is queued again. -/
theorem not_executed_when_interrupted :
    ∃ s e, Steps init s ∧ (∀ t, s.caller t = .idle) ∧ e ∈ s.calls ∧
      ∀ s', Steps s s' → s'.executed.count e = 0 := by
  refine ⟨interrupted, 1, interrupted_reachable, ?_, by decide, ?_⟩
  · intro t
    by_cases h0 : t = 0
    · subst h0; rfl
    · by_cases h1 : t = 1
      · subst h1; rfl
      · simp [interrupted, callStep, enter, init, Function.update_of_ne, h0, h1]
  · have hnext : interrupted.next = update (update (fun _ => Ptr.null) 1 .tail) 2 .tail := rfl
    have htop : interrupted.top = .node 2 := rfl
    have hcaller : ∀ t, interrupted.caller t = .idle := by
      intro t
      by_cases h0 : t = 0
      · subst h0; rfl
      · by_cases h1 : t = 1
        · subst h1; rfl
        · simp [interrupted, callStep, enter, init, Function.update_of_ne, h0, h1]
    intro s' hs
    refine (lost_forever (s := interrupted) (e := 1) ⟨by decide, ?_, fun h => h, ?_, ?_, ?_⟩ hs).2
    · rw [htop, hnext]
      intro h
      cases h with
      | there _ h => cases h
    · intro t; rw [hcaller]; exact fun h => h
    · intro t x v h; rw [hcaller] at h; cases h
    · intro t x h; rw [hcaller] at h; exact h.elim

/-! ## What holds: calls that are not interrupted -/

/-- A call that runs from beginning to end without any other step in between: at most four
steps. -/
def callAlone (s : St) (t e : Nat) : St :=
  callStep (callStep (callStep (callStep (enter s t e) t) t) t) t

theorem callAlone_eq (s : St) (t e : Nat) (ht : s.caller t = .idle) :
    callAlone s t e = if s.next e = .null then
        { s with next := update s.next e s.top, top := .node e, calls := s.calls ++ [e] }
      else { s with calls := s.calls ++ [e] } := by
  have hu : ∀ c, update (update s.caller t c) t .idle = s.caller := by
    intro c
    rw [Function.update_idem, ← ht, Function.update_eq_self]
  by_cases h : s.next e = .null
  · simp only [callAlone, enter, callStep, Function.update_self, Function.update_idem, h, if_true]
    rw [← ht, Function.update_eq_self]
  · simp only [callAlone, enter, callStep, Function.update_self, Function.update_idem, h, if_false]
    rw [← ht, Function.update_eq_self]

/-- Executions in which no call is interrupted; the interpreter may still be anywhere in
`empty_async_queue` when a call is made. -/
inductive Calm : St → Prop
  | init : Calm init
  | call (s : St) (t e : Nat) (h : Calm s) : Calm (callAlone s t e)
  | drain (s s' : St) (h : Calm s) (hs : drainStep s = some s') : Calm s'

/-- The entries `xs` are linked from `p`. -/
def Linked (next : Nat → Ptr) : Ptr → List Nat → Prop
  | p, [] => p = .tail
  | p, a :: xs => p = .node a ∧ Linked next (next a) xs

theorem linked_update {next : Nat → Ptr} {p : Ptr} {xs : List Nat} {a : Nat} {v : Ptr}
    (h : Linked next p xs) (ha : a ∉ xs) : Linked (update next a v) p xs := by
  induction xs generalizing p with
  | nil => exact h
  | cons x xs ih =>
    refine ⟨h.1, ?_⟩
    have hx : x ≠ a := fun e => ha (by rw [e]; simp)
    rw [Function.update_of_ne hx]
    exact ih h.2 (fun hm => ha (by simp [hm]))

theorem linked_ne_null {next : Nat → Ptr} {p : Ptr} {xs : List Nat} (h : Linked next p xs) :
    p ≠ .null := by
  cases xs with
  | nil => rw [show p = .tail from h]; intro h; cases h
  | cons x xs => rw [h.1]; intro h; cases h

theorem linked_marked {next : Nat → Ptr} {p : Ptr} {xs : List Nat} (h : Linked next p xs) :
    ∀ a ∈ xs, next a ≠ .null := by
  induction xs generalizing p with
  | nil => simp
  | cons x xs ih =>
    intro a ha
    rcases List.mem_cons.mp ha with rfl | ha
    · exact linked_ne_null h.2
    · exact ih h.2 a ha

/-- `todo`: the marked entries in the hands of the interpreter, in the order in which they are
to be executed; `now`: the entry unmarked and about to be executed. -/
def Holds (next : Nat → Ptr) : Drainer → List Nat → List Nat → Prop
  | .idle, todo, now => todo = [] ∧ now = []
  | .reverse sig rev, todo, now =>
    ∃ xs ys, Linked next sig xs ∧ Linked next rev ys ∧ todo = xs.reverse ++ ys ∧ now = []
  | .call sig, todo, now => Linked next sig todo ∧ now = []
  | .unmark e n, todo, now =>
    ∃ xs, Linked next n xs ∧ next e ≠ .null ∧ todo = e :: xs ∧ now = []
  | .exec e n, todo, now => Linked next n todo ∧ now = [e]

theorem holds_store {next : Nat → Ptr} {d : Drainer} {todo now : List Nat} {a : Nat} {v : Ptr}
    (h : Holds next d todo now) (ha : a ∉ todo) : Holds (update next a v) d todo now := by
  cases d with
  | idle => exact h
  | reverse sig rev =>
    obtain ⟨xs, ys, h1, h2, rfl, h4⟩ := h
    exact ⟨xs, ys, linked_update h1 (fun hm => ha (by simp [hm])),
      linked_update h2 (fun hm => ha (by simp [hm])), rfl, h4⟩
  | call sig => exact ⟨linked_update h.1 ha, h.2⟩
  | unmark e n =>
    obtain ⟨xs, h1, h2, rfl, h4⟩ := h
    simp only [List.mem_cons, not_or] at ha
    refine ⟨xs, linked_update h1 ha.2, ?_, rfl, h4⟩
    rw [Function.update_of_ne (Ne.symm ha.1)]; exact h2
  | exec e n => exact ⟨linked_update h.1 ha, h.2⟩

structure Inv (s : St) (stack todo now : List Nat) : Prop where
  top : Linked s.next s.top stack
  holds : Holds s.next s.drainer todo now
  nodup : (stack ++ todo).Nodup
  marked : ∀ e, s.next e ≠ .null ↔ e ∈ stack ++ todo
  idle : ∀ t, s.caller t = .idle
  /-- Every execution, done or to be done, has its own call. -/
  counts : ∀ e, s.executed.count e + (stack ++ todo ++ now).count e ≤ s.calls.count e

theorem inv_call {s : St} {stack todo now : List Nat} (i : Inv s stack todo now) (t e : Nat) :
    ∃ stack', Inv (callAlone s t e) stack' todo now ∧ e ∈ stack' ++ todo ∧
      (∀ x ∈ stack, x ∈ stack') := by
  rw [callAlone_eq s t e (i.idle t)]
  have hcount : ∀ x, s.calls.count x ≤ (s.calls ++ [e]).count x := by
    intro x; rw [List.count_append]; omega
  by_cases h : s.next e = .null
  · rw [if_pos h]
    have hne : e ∉ stack ++ todo := fun hm => (i.marked e).mpr hm h
    have hne' := hne
    simp only [List.mem_append, not_or] at hne'
    refine ⟨e :: stack, ⟨⟨rfl, ?_⟩, holds_store i.holds hne'.2, ?_, ?_, i.idle, ?_⟩, by simp,
      fun x hx => by simp [hx]⟩
    · show Linked (update s.next e s.top) (update s.next e s.top e) stack
      rw [Function.update_self]
      exact linked_update i.top hne'.1
    · exact List.nodup_cons.mpr ⟨hne, i.nodup⟩
    · intro x
      show update s.next e s.top x ≠ .null ↔ _
      by_cases hx : x = e
      · subst hx
        rw [Function.update_self]
        simp [linked_ne_null i.top]
      · rw [Function.update_of_ne hx, i.marked x]
        simp [hx]
    · intro x
      have := i.counts x
      show s.executed.count x + ((e :: stack) ++ todo ++ now).count x ≤ (s.calls ++ [e]).count x
      simp only [List.cons_append, List.count_append, List.count_cons, List.count_nil] at this ⊢
      omega
  · rw [if_neg h]
    refine ⟨stack, ⟨i.top, i.holds, i.nodup, i.marked, i.idle, fun x => ?_⟩, (i.marked e).mp h,
      fun x hx => hx⟩
    exact Nat.le_trans (i.counts x) (hcount x)

theorem inv_drain {s : St} {stack todo now : List Nat} (i : Inv s stack todo now) :
    ∃ s' stack' todo' now', drainStep s = some s' ∧ Inv s' stack' todo' now' ∧
      (∀ e ∈ stack ++ todo ++ now, e ∈ stack' ++ todo' ++ now' ∨ s'.executed = s.executed ++ [e]) := by
  unfold drainStep
  have hh := i.holds
  cases hd : s.drainer with
  | idle =>
    rw [hd] at hh
    obtain ⟨rfl, rfl⟩ := hh
    refine ⟨_, [], stack.reverse, [], rfl, ⟨rfl, ⟨stack, [], i.top, rfl, by simp, rfl⟩, ?_, ?_,
      i.idle, ?_⟩, ?_⟩
    · have := i.nodup
      rw [List.append_nil] at this
      rw [List.nil_append]
      exact (List.Perm.nodup_iff (List.reverse_perm stack)).mpr this
    · intro e
      have := i.marked e
      simpa using this
    · intro e
      have := i.counts e
      simpa using this
    · intro e he; left; simpa using he
  | reverse sig rev =>
    rw [hd] at hh
    obtain ⟨xs, ys, h1, h2, rfl, rfl⟩ := hh
    cases sig with
    | null => exact absurd rfl (linked_ne_null h1)
    | tail =>
      have hxs : xs = [] := by cases xs with | nil => rfl | cons x xs => cases h1.1
      subst hxs
      exact ⟨_, stack, ys, [], rfl, ⟨i.top, ⟨h2, rfl⟩, i.nodup, i.marked, i.idle, i.counts⟩,
        fun e he => .inl he⟩
    | node a =>
      cases xs with
      | nil => cases h1
      | cons x xs =>
        obtain ⟨h1a, h1b⟩ := h1
        cases h1a
        have hnd := i.nodup
        have hnd' : a ∉ stack ∧ a ∉ xs ∧ a ∉ ys := by
          simp only [List.reverse_cons, List.append_assoc, List.nodup_append,
            List.mem_append, List.mem_reverse, List.mem_cons, List.not_mem_nil, or_false] at hnd
          refine ⟨?_, ?_, ?_⟩
          · intro hm; exact hnd.2.2 a hm a (.inr (.inl rfl)) rfl
          · intro hm; exact hnd.2.1.2.2 a hm a (.inl rfl) rfl
          · intro hm; exact hnd.2.1.2.1.2.2 a rfl a hm rfl
        have e : (a :: xs).reverse ++ ys = xs.reverse ++ (a :: ys) := by simp
        rw [e] at i ⊢
        refine ⟨_, stack, xs.reverse ++ (a :: ys), [], rfl, ⟨linked_update i.top hnd'.1,
          ⟨xs, a :: ys, linked_update h1b hnd'.2.1, ⟨rfl, ?_⟩, rfl, rfl⟩, i.nodup,
          ?_, i.idle, i.counts⟩, fun e he => .inl he⟩
        · show Linked (update s.next a rev) (update s.next a rev a) ys
          rw [Function.update_self]
          exact linked_update h2 hnd'.2.2
        · intro b
          show update s.next a rev b ≠ .null ↔ _
          by_cases hb : b = a
          · subst hb
            rw [Function.update_self]
            simp [linked_ne_null h2]
          · rw [Function.update_of_ne hb]; exact i.marked b
  | call sig =>
    rw [hd] at hh
    obtain ⟨h1, rfl⟩ := hh
    cases sig with
    | null => exact absurd rfl (linked_ne_null h1)
    | tail =>
      have ht : todo = [] := by cases todo with | nil => rfl | cons x xs => cases h1.1
      subst ht
      exact ⟨_, stack, [], [], rfl, ⟨i.top, ⟨rfl, rfl⟩, i.nodup, i.marked, i.idle, i.counts⟩,
        fun e he => .inl he⟩
    | node a =>
      cases todo with
      | nil => cases h1
      | cons x xs =>
        obtain ⟨h1a, h1b⟩ := h1
        cases h1a
        exact ⟨_, stack, a :: xs, [], rfl, ⟨i.top, ⟨xs, h1b, linked_ne_null h1b, rfl, rfl⟩,
          i.nodup, i.marked, i.idle, i.counts⟩, fun e he => .inl he⟩
  | unmark a n =>
    rw [hd] at hh
    obtain ⟨xs, h1, h2, rfl, rfl⟩ := hh
    have hnd := i.nodup
    have hna : a ∉ stack ∧ a ∉ xs := by
      rw [List.nodup_append] at hnd
      refine ⟨fun hm => hnd.2.2 a hm a (by simp) rfl, (List.nodup_cons.mp hnd.2.1).1⟩
    refine ⟨_, stack, xs, [a], rfl, ⟨linked_update i.top hna.1, ⟨linked_update h1 hna.2, rfl⟩,
      ?_, ?_, i.idle, ?_⟩, ?_⟩
    · rw [List.nodup_append] at hnd ⊢
      refine ⟨hnd.1, (List.nodup_cons.mp hnd.2.1).2, fun x hx y hy => hnd.2.2 x hx y (by simp [hy])⟩
    · intro b
      show update s.next a .null b ≠ .null ↔ _
      by_cases hb : b = a
      · subst hb
        rw [Function.update_self]
        simp [hna]
      · rw [Function.update_of_ne hb, i.marked b]
        simp [hb]
    · intro b
      have := i.counts b
      simp only [List.count_append, List.count_cons, List.count_nil] at this ⊢
      omega
    · intro e he
      left
      simp only [List.mem_append, List.mem_cons, List.not_mem_nil, or_false] at he ⊢
      tauto
  | exec a n =>
    rw [hd] at hh
    obtain ⟨h1, rfl⟩ := hh
    refine ⟨_, stack, todo, [], rfl, ⟨i.top, ⟨h1, rfl⟩, i.nodup, i.marked, i.idle, ?_⟩, ?_⟩
    · intro b
      have := i.counts b
      simp only [List.count_append, List.count_cons, List.count_nil] at this ⊢
      omega
    · intro e he
      simp only [List.mem_append, List.mem_cons, List.not_mem_nil, or_false] at he ⊢
      rcases he with he | rfl
      · exact .inl he
      · exact .inr rfl

theorem calm_inv {s : St} (h : Calm s) : ∃ stack todo now, Inv s stack todo now := by
  induction h with
  | init =>
    refine ⟨[], [], [], rfl, ⟨rfl, rfl⟩, by simp, ?_, fun t => rfl, ?_⟩
    · intro e; simp [init]
    · intro e; simp [init]
  | call s t e _ ih =>
    obtain ⟨stack, todo, now, i⟩ := ih
    obtain ⟨stack', i', -⟩ := inv_call i t e
    exact ⟨stack', todo, now, i'⟩
  | drain s s' _ hs ih =>
    obtain ⟨stack, todo, now, i⟩ := ih
    obtain ⟨s2, stack', todo', now', h2, i', -⟩ := inv_drain i
    rw [hs] at h2
    cases h2
    exact ⟨stack', todo', now', i'⟩

/-- **C18 (partial).**  If no call is interrupted, no entry is executed more often than it
was queued, and the interpreter never follows a null pointer. -/
theorem sig_at_most_once_partial (s : St) (h : Calm s) (e : Nat) :
    s.executed.count e ≤ s.calls.count e ∧ (drainStep s).isSome = true := by
  obtain ⟨stack, todo, now, i⟩ := calm_inv h
  obtain ⟨s', _, _, _, h2, -⟩ := inv_drain i
  exact ⟨Nat.le_trans (Nat.le_add_right _ _) (i.counts e), by rw [h2]; rfl⟩

/-- What follows a call: `Follow s s'` if `s'` comes after `s` with calls that are not
interrupted. -/
inductive Follow : St → St → Prop
  | refl (s : St) : Follow s s
  | call (s s' : St) (t e : Nat) (h : Follow s s') : Follow s (callAlone s' t e)
  | drain (s s' s'' : St) (h : Follow s s') (hs : drainStep s' = some s'') : Follow s s''

theorem follow_owed {s s' : St} {e : Nat} {stack todo now : List Nat} (i : Inv s stack todo now)
    (he : e ∈ stack ++ todo ++ now) (h : Follow s s') :
    ∃ stack' todo' now', Inv s' stack' todo' now' ∧
      ((∃ new, s'.executed = s.executed ++ new ∧ (e ∈ new ∨ e ∈ stack' ++ todo' ++ now'))) := by
  induction h with
  | refl => exact ⟨stack, todo, now, i, [], by simp, .inr he⟩
  | call s' t x _ ih =>
    obtain ⟨st, td, nw, i', new, h1, h2⟩ := ih
    obtain ⟨st', i'', -, h3⟩ := inv_call i' t x
    refine ⟨st', td, nw, i'', new, ?_, ?_⟩
    · rw [callAlone_eq _ _ _ (i'.idle t)]
      split <;> exact h1
    · rcases h2 with h2 | h2
      · exact .inl h2
      · right
        simp only [List.mem_append] at h2 ⊢
        rcases h2 with (h2 | h2) | h2
        · exact .inl (.inl (h3 e h2))
        · exact .inl (.inr h2)
        · exact .inr h2
  | drain s' s'' _ hs ih =>
    obtain ⟨st, td, nw, i', new, h1, h2⟩ := ih
    obtain ⟨s2, st', td', nw', h3, i'', h4⟩ := inv_drain i'
    rw [hs] at h3
    cases h3
    have hex : ∃ n, s''.executed = s'.executed ++ n := by
      have : drainStep s' = some s'' := hs
      unfold drainStep at this
      split at this <;> first | (cases this; done) | (cases this; exact ⟨[], (List.append_nil _).symm⟩) | (cases this; exact ⟨_, rfl⟩)
    rcases h2 with h2 | h2
    · obtain ⟨n, hn⟩ := hex
      exact ⟨st', td', nw', i'', new ++ n, by rw [hn, h1, List.append_assoc], .inl (by simp [h2])⟩
    · rcases h4 e h2 with h4 | h4
      · obtain ⟨n, hn⟩ := hex
        exact ⟨st', td', nw', i'', new ++ n, by rw [hn, h1, List.append_assoc], .inr h4⟩
      · exact ⟨st', td', nw', i'', new ++ [e], by rw [h4, h1, List.append_assoc], .inl (by simp)⟩

/-- **C18 (partial).**  If no call is interrupted, then after a call for `e`, wherever the
interpreter was at that moment, by the time the interpreter is through and the queue is empty
`e` has been executed at least once since the call.

Missing: interrupted calls, for which `not_executed_when_interrupted` shows the opposite. -/
theorem sig_executed_after_call_partial (s s' : St) (t e : Nat) (h : Calm s)
    (hf : Follow (callAlone s t e) s') (hd : s'.drainer = .idle) (ht : s'.top = .tail) :
    ∃ new, s'.executed = s.executed ++ new ∧ e ∈ new := by
  obtain ⟨stack, todo, now, i⟩ := calm_inv h
  obtain ⟨stack', i', he, -⟩ := inv_call i t e
  obtain ⟨st, td, nw, i'', new, h1, h2⟩ :=
    follow_owed i' (by simp only [List.mem_append] at he ⊢; exact .inl he) hf
  refine ⟨new, ?_, ?_⟩
  · rw [h1, callAlone_eq _ _ _ (i.idle t)]
    split <;> rfl
  · rcases h2 with h2 | h2
    · exact h2
    · have hh := i''.holds
      rw [hd] at hh
      have hs : st = [] := by
        have := i''.top
        rw [ht] at this
        cases st with
        | nil => rfl
        | cons x xs => cases this.1
      rw [hs, hh.1, hh.2] at h2
      simp at h2

/-- Non-vacuity: entry 5 is queued twice and entry 3 once before the interpreter comes round;
both are executed once, in order. -/
example :
    let s := callAlone (callAlone (callAlone init 0 5) 1 3) 2 5
    let run := fun (s : St) => (drainStep s).getD s
    let s' := run (run (run (run (run (run (run (run (run (run (run s))))))))))
    s'.executed = [5, 3] ∧ s'.calls = [5, 3, 5] ∧ s'.top = .tail := by decide

end Verif.Async.Sig
