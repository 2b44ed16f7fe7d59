import Verif.Generator.Model
import Mathlib.Logic.Function.Iterate

/-!
# Generators and continuations (C220 to C222)
-/

namespace Verif.Generator

variable {σ V : Type}

/-! ## C220: a generator is the stream of what its block yields -/

/-- What a block yields from a state on. -/
def trace (run : σ → Step σ V) : σ → ℕ → Option V
  | s, 0 =>
    match run s with
    | .finish => none
    | .yield v _ => some v
  | s, n + 1 =>
    match run s with
    | .finish => none
    | .yield _ s' => trace run s' n

/-- A stream over a sequence: the position, and what is answered. -/
def specStep [DecidableEq V] (t : ℕ → Option V) (p : ℕ) : Op V → ℕ × Ans V
  | .atEnd => (p, .bool (t p).isNone)
  | .next => match t p with
    | none => (p, .pastEnd)
    | some v => (p + 1, .value (some v))
  | .peek => (p, .value (t p))
  | .peekFor v => if t p = some v then (p + 1, .bool true) else (p, .bool false)

/-- A sequence of messages to it. -/
def specSteps [DecidableEq V] (t : ℕ → Option V) : ℕ → List (Op V) → List (Ans V)
  | _, [] => []
  | p, o :: os => (specStep t p o).2 :: specSteps t (specStep t p o).1 os

theorem trace_finish {run : σ → Step σ V} {s : σ} (h : run s = .finish) (n : ℕ) : trace run s n = none := by
  cases n <;> (rw [trace, h])

theorem trace_zero {run : σ → Step σ V} {s s' : σ} {v : V} (h : run s = .yield v s') : trace run s 0 = some v := by
  rw [trace, h]

theorem trace_succ {run : σ → Step σ V} {s s' : σ} {v : V} (h : run s = .yield v s') (n : ℕ) : trace run s (n + 1) = trace run s' n := by
  rw [trace, h]

theorem resume_finish {run : σ → Step σ V} {s : σ} (h : run s = .finish) (nx : Option V) (e : Option Bool) :
    resume run ⟨nx, some s, e⟩ = ⟨nx, none, some true⟩ := by
  simp only [resume, h]

theorem resume_yield {run : σ → Step σ V} {s s' : σ} {v : V} (h : run s = .yield v s') (nx : Option V) (e : Option Bool) :
    resume run ⟨nx, some s, e⟩ = ⟨some v, some s', some false⟩ := by
  simp only [resume, h]

/-- How a generator is related to a position in a sequence. -/
inductive Rel (run : σ → Step σ V) (t : ℕ → Option V) : Gen σ V → ℕ → Prop where
  | idle {nx s p} : (∀ n, t (p + n) = trace run s n) → Rel run t ⟨nx, some s, none⟩ p
  | ready {v s p} : t p = some v → (∀ n, t (p + 1 + n) = trace run s n) → Rel run t ⟨some v, some s, some false⟩ p
  | ended {nx cc p} : t p = none → Rel run t ⟨nx, cc, some true⟩ p

theorem force_rel {run : σ → Step σ V} {t : ℕ → Option V} {g : Gen σ V} {p : ℕ} (h : Rel run t g p) :
    Rel run t (force run g) p ∧ (force run g).atEnd.isSome := by
  cases h with
  | idle h =>
    rename_i nx s
    show Rel run t (resume run ⟨nx, some s, none⟩) p ∧ (resume run ⟨nx, some s, none⟩).atEnd.isSome
    cases e : run s with
    | finish =>
      rw [resume_finish e]
      refine ⟨.ended ?_, rfl⟩
      have := h 0
      rw [trace_finish e] at this
      exact this
    | yield v s' =>
      rw [resume_yield e]
      refine ⟨.ready ?_ fun n => ?_, rfl⟩
      · have := h 0
        rw [trace_zero e] at this
        exact this
      · have := h (n + 1)
        rw [trace_succ e, ← Nat.add_assoc, Nat.add_right_comm] at this
        exact this
  | ready h1 h2 => exact ⟨.ready h1 h2, rfl⟩
  | ended h => exact ⟨.ended h, rfl⟩

theorem step_rel [DecidableEq V] {run : σ → Step σ V} {t : ℕ → Option V} {g : Gen σ V} {p : ℕ} (h : Rel run t g p) (o : Op V) :
    Rel run t (step run g o).1 (specStep t p o).1 ∧ (step run g o).2 = (specStep t p o).2 := by
  obtain ⟨h1, h2⟩ := force_rel h
  unfold step
  generalize force run g = g' at h1 h2
  cases h1 with
  | idle => cases h2
  | ready e1 e2 =>
    cases o with
    | atEnd => exact ⟨.ready e1 e2, by simp [specStep, e1]⟩
    | next => simp only [specStep, e1]; exact ⟨.idle e2, rfl⟩
    | peek => exact ⟨.ready e1 e2, by simp [specStep, e1]⟩
    | peekFor x =>
      simp only [specStep, e1]
      split
      · rename_i hx; cases hx
      · split
        · exact ⟨.idle e2, rfl⟩
        · exact ⟨.ready e1 e2, rfl⟩
  | ended e1 =>
    cases o with
    | atEnd => exact ⟨.ended e1, by simp [specStep, e1]⟩
    | next => simp only [specStep, e1]; exact ⟨.ended e1, rfl⟩
    | peek => exact ⟨.ended e1, by simp [specStep, e1]⟩
    | peekFor x => simp only [specStep, e1]; exact ⟨.ended e1, rfl⟩

/-- C220: whatever messages are sent to a generator, it answers as a stream over what its block yields. -/
theorem stream [DecidableEq V] (run : σ → Step σ V) (s : σ) (os : List (Op V)) :
    steps run (onBlock s) os = specSteps (trace run s) 0 os := by
  have : ∀ (os : List (Op V)) (g : Gen σ V) (p : ℕ), Rel run (trace run s) g p → steps run g os = specSteps (trace run s) p os := by
    intro os
    induction os with
    | nil => intro _ _ _; rfl
    | cons o os ih =>
      intro g p h
      obtain ⟨h1, h2⟩ := step_rel h o
      show (step run g o).2 :: _ = (specStep _ p o).2 :: _
      rw [h2, ih _ _ h1]
  exact this os _ _ (.idle fun n => by rw [Nat.zero_add])

/-! ## C221: when the block runs, and what the ready-made generators yield -/

/-- A block that also counts how often it was resumed. -/
def counted (run : σ → Step σ V) (x : σ × ℕ) : Step (σ × ℕ) V :=
  match run x.1 with
  | .finish => .finish
  | .yield v s => .yield v (s, x.2 + 1)

/-- How often the block was resumed without ending, as the suspended block knows. -/
def resumed (g : Gen (σ × ℕ) V) : Option ℕ := g.genCC.map Prod.snd

/-- The generator after some messages. -/
def after [DecidableEq V] (run : σ → Step σ V) : Gen σ V → List (Op V) → Gen σ V
  | g, [] => g
  | g, o :: os => after run (step run g o).1 os

/-- The position after some messages. -/
def specAfter [DecidableEq V] (t : ℕ → Option V) : ℕ → List (Op V) → ℕ
  | p, [] => p
  | p, o :: os => specAfter t (specStep t p o).1 os

/-- How often a generator that is at position `p` has resumed its block. -/
def Lazy (p : ℕ) (g : Gen (σ × ℕ) V) : Prop :=
  match g.atEnd with
  | none => resumed g = some p
  | some false => resumed g = some (p + 1)
  | some true => resumed g = none

theorem lazy_step [DecidableEq V] {run : σ → Step σ V} {t : ℕ → Option V} {g : Gen (σ × ℕ) V} {p : ℕ} (h : Rel (counted run) t g p) (hl : Lazy p g) (o : Op V) :
    Lazy (specStep t p o).1 (step (counted run) g o).1 := by
  obtain ⟨h1, h2⟩ := force_rel h
  have hf : Lazy p (force (counted run) g) := by
    cases h with
    | idle h =>
      rename_i nx s
      show Lazy p (resume (counted run) ⟨nx, some s, none⟩)
      have hs : s.2 = p := Option.some.inj hl
      cases e : run s.1 with
      | finish => rw [resume_finish (by unfold counted; rw [e])]; rfl
      | yield v s' =>
        rw [resume_yield (v := v) (s' := (s', s.2 + 1)) (by unfold counted; rw [e])]
        show some (s.2 + 1) = some (p + 1); rw [hs]
    | ready => exact hl
    | ended => exact hl
  unfold step
  generalize force (counted run) g = g' at h1 h2 hf
  cases h1 with
  | idle => cases h2
  | ready e1 e2 =>
    rename_i v s
    cases o with
    | atEnd => exact hf
    | next => simp only [specStep, e1]; exact hf
    | peek => exact hf
    | peekFor x =>
      simp only [specStep, e1]
      by_cases hx : some v = some x
      · rw [if_pos hx, if_neg (by simp), if_pos hx]; exact hf
      · rw [if_neg hx, if_neg (by simp), if_neg hx]; exact hf
  | ended e1 =>
    cases o with
    | atEnd => exact hf
    | next => simp only [specStep, e1]; exact hf
    | peek => exact hf
    | peekFor x => simp only [specStep, e1]; exact hf

/-- C221: the block is resumed only as needed: when `p` elements have been taken it has been resumed `p` times, or once more if the next element was looked at. -/
theorem lazily [DecidableEq V] (run : σ → Step σ V) (s : σ) (os : List (Op V)) :
    Lazy (specAfter (trace (counted run) (s, 0)) 0 os) (after (counted run) (onBlock (s, 0)) os) := by
  have : ∀ (os : List (Op V)) (g : Gen (σ × ℕ) V) (p : ℕ), Rel (counted run) (trace (counted run) (s, 0)) g p → Lazy p g →
      Lazy (specAfter (trace (counted run) (s, 0)) p os) (after (counted run) g os) := by
    intro os
    induction os with
    | nil => intro _ _ _ h; exact h
    | cons o os ih => intro g p h hl; exact ih _ _ (step_rel h o).1 (lazy_step h hl o)
  exact this os _ _ (.idle fun n => by rw [Nat.zero_add]) rfl

/-- Counting changes nothing else. -/
theorem counted_trace (run : σ → Step σ V) : ∀ (n : ℕ) (s : σ) (k : ℕ), trace (counted run) (s, k) n = trace run s n := by
  intro n
  induction n with
  | zero =>
    intro s k
    cases e : run s with
    | finish => rw [trace_finish e, trace_finish (run := counted run)]; unfold counted; rw [e]
    | yield v s' => rw [trace_zero e, trace_zero (run := counted run) (s' := (s', k + 1)) (v := v)]; unfold counted; rw [e]
  | succ n ih =>
    intro s k
    cases e : run s with
    | finish => rw [trace_finish e, trace_finish (run := counted run)]; unfold counted; rw [e]
    | yield v s' =>
      rw [trace_succ e, trace_succ (run := counted run) (s' := (s', k + 1)) (v := v), ih]
      unfold counted; rw [e]

/-- C221: `inject:into:` yields what is obtained by applying the block again and again. -/
theorem inject_nth (f : V → V) (n : ℕ) : ∀ a : V, trace (injectInto f) a n = some (f^[n] a) := by
  induction n with
  | zero => intro a; exact trace_zero rfl
  | succ n ih => intro a; rw [trace_succ (run := injectInto f) (s' := f a) (v := a) rfl, ih, Function.iterate_succ_apply]

theorem onDo_spec {E : Type} (block : E → List V) : ∀ (es : List E) (vs : List V),
    match onDo block vs es with
    | .finish => vs ++ es.flatMap block = []
    | .yield v s => vs ++ es.flatMap block = v :: (s.1 ++ s.2.flatMap block) := by
  intro es
  induction es with
  | nil =>
    intro vs
    cases vs with
    | nil => simp [onDo]
    | cons v vs => simp [onDo]
  | cons e es ih =>
    intro vs
    cases vs with
    | nil =>
      have := ih (block e)
      rw [onDo]
      simpa using this
    | cons v vs => simp [onDo]

/-- C221: `on:do:` yields what the block yields for each element, in order. -/
theorem onDo_nth {E : Type} (block : E → List V) (n : ℕ) : ∀ (vs : List V) (es : List E),
    trace (fun s : List V × List E => onDo block s.1 s.2) (vs, es) n = (vs ++ es.flatMap block)[n]? := by
  induction n with
  | zero =>
    intro vs es
    have := onDo_spec block es vs
    cases e : onDo block vs es with
    | finish => rw [e] at this; rw [trace_finish (by exact e), this]; rfl
    | yield v s => rw [e] at this; rw [trace_zero (by exact e), this]; rfl
  | succ n ih =>
    intro vs es
    have := onDo_spec block es vs
    cases e : onDo block vs es with
    | finish => rw [e] at this; rw [trace_finish (by exact e), this]; rfl
    | yield v s =>
      rw [e] at this
      rw [trace_succ (by exact e), ih s.1 s.2, this, List.getElem?_cons_succ]

example : steps (fun s : List ℕ × List ℕ => onDo (fun e => [e, e * e]) s.1 s.2) (onBlock ([], [2, 3]))
    [.peek, .next, .atEnd, .peekFor 5, .peekFor 4, .next, .next, .atEnd, .next] =
    [.value (some 2), .value (some 2), .bool false, .bool false, .bool true, .value (some 3), .value (some 9), .bool true, .pastEnd] := by
  simp [steps, step, force, resume, onBlock, onDo]

example : steps (injectInto (fun n : ℕ => 2 * n)) (onBlock 1) [.next, .next, .next, .peek, .atEnd] =
    [.value (some 1), .value (some 2), .value (some 4), .value (some 8), .bool false] := by decide

/-! ## C222: continuations -/

/-- C222: a continuation can be resumed by `value:` again and again. -/
theorem value_again (v : Option V) : value true v = (true, .returned v) := rfl

/-- C222: after `oneShotValue:` every attempt to resume it signals an exception, and it stays so. -/
theorem oneShot_once (v w : Option V) : (oneShotValue true v).2 = .returned v ∧
    value (oneShotValue true v).1 w = ((oneShotValue true v).1, .badReturn) ∧
    oneShotValue (oneShotValue true v).1 w = ((oneShotValue true v).1, .badReturn) := ⟨rfl, rfl, rfl⟩

/-- C222: without arguments, `valueWithArguments:` returns nil to the continuation. -/
theorem arguments_partial (stack : Bool) : valueWithArguments (V := V) stack [] = value stack none := rfl

/-- C222 fails: one argument is refused. -/
theorem argument_fails (stack : Bool) (v : V) : valueWithArguments stack [v] = (stack, .invalidArgument) := rfl

/-- C222 fails: more arguments are accepted, and all but the first are ignored. -/
theorem arguments_fails (v w : V) (l : List V) : valueWithArguments true (v :: w :: l) = (true, .returned (some v)) := by
  unfold valueWithArguments
  rw [if_neg (by simp), if_pos (by simp)]
  rfl

end Verif.Generator
