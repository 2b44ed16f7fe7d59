import Verif.Compiler.Depth

/-!
# Compiled methods and blocks

C95: compiled code does what the source means.  C96: loops keep their shape whatever their size.  C97: a
context has room for the values that its code pushes.
-/
namespace Verif.Compiler

variable {S V : Type} [DecidableEq V] {w : World S V}

/-! ## Methods -/

/-- What follows the statements of a method. -/
def methodTail (last : Bool) (b : Body) : Code :=
  if b.returns then []
  else if last then emit .retContext 0
  else emit .pop 0 ++ emit .pushSelf 0 ++ emit .retContext 0

theorem gMethod_cons {last : Bool} {b : Body} (h : b ≠ .empty) :
    gMethod last b = gBody false b ++ methodTail last b := by
  cases b with
  | empty => exact absurd rfl h
  | last e => simp [gMethod, methodTail]
  | ret e => simp [gMethod, methodTail]
  | cons e b => simp [gMethod, methodTail]

theorem retContext_halt {code : Code} {pc : Nat} {v : V} {stk : List V} {s : S} (h : At code pc (emit .retContext 0)) :
    Halts w code ⟨pc, 0, v :: stk, s⟩ (.context v s) := emit_halt (by simp) h rfl

theorem retContext_bwd {code : Code} {n pc : Nat} {v : V} {stk : List V} {s : S} {r : Result S V}
    (h : At code pc (emit .retContext 0)) (H : HaltsIn w code n ⟨pc, 0, v :: stk, s⟩ r) : r = .context v s := by
  rcases emit_bwd (by simp) h H with ⟨c, m, e, -⟩ | e
  · cases e
  · cases e; rfl

theorem retContext_safe {code : Code} {D n pc : Nat} {v : V} {stk : List V} {s : S}
    (h : At code pc (emit .retContext 0)) (hd : (v :: stk).length ≤ D) :
    Safe w code D n ⟨pc, 0, v :: stk, s⟩ := emit_safe (by simp) h hd (.inr ⟨_, rfl⟩)

theorem popSelf_goes {code : Code} {pc : Nat} {v : V} {stk : List V} {s : S}
    (h : At code pc (emit .pop 0 ++ emit .pushSelf 0)) :
    Goes w code 2 ⟨pc, 0, v :: stk, s⟩ ⟨pc + (emit .pop 0 ++ emit .pushSelf 0).length, 0, w.self :: stk, s⟩ := by
  have e : ∀ c : Code, pc + (emit Op.pop 0).length + c.length = pc + (emit Op.pop 0 ++ c).length := by
    intro c; simp [Nat.add_assoc]
  exact (emit_goes (by simp) h.left rfl).trans
    ((emit_goes (by simp) h.right rfl).to_pc (e _))

/-- What a method answers, and from which value of its statements. -/
def tailValue (w : World S V) (last : Bool) (v : V) : V := if last then v else w.self

theorem tail_goes {last : Bool} {b : Body} (hr : b.returns = false) {code : Code} {pc : Nat} {v : V} {s : S}
    (h : At code pc (methodTail last b)) :
    ∃ pc' d, Goes w code d ⟨pc, 0, [v], s⟩ ⟨pc', 0, [tailValue w last v], s⟩ ∧ At code pc' (emit .retContext 0) := by
  rw [methodTail, if_neg (by simp [hr])] at h
  cases last with
  | true => exact ⟨pc, 0, .refl _, h⟩
  | false =>
    have h : At code pc ((emit .pop 0 ++ emit .pushSelf 0) ++ emit .retContext 0) := h
    exact ⟨_, _, popSelf_goes h.left, h.right⟩

/-- C95 (forward): when the source of a method, evaluated statement by statement from left to right, answers
`v` in state `s'`, so does its code. -/
theorem method_answers (hw : w.Std) {last : Bool} {b : Body} (ok : b.Ok w false) {s s' : S} {v : V}
    (h : MethodEv w last b s v s') : Halts w (gMethod last b) ⟨0, 0, [], s⟩ (.context v s') := by
  by_cases hb : b = .empty
  · subst hb
    have hc := At.whole (gMethod last .empty)
    simp only [gMethod] at hc
    cases h with
    | ret h => cases h
    | value h =>
      cases h
      exact (emit_goes (by simp) hc.left rfl).fwd (retContext_halt hc.right)
    | self h =>
      cases h
      exact (emit_goes (by simp) hc.left rfl).fwd (retContext_halt hc.right)
  · have hc := At.whole (gMethod last b)
    rw [gMethod_cons hb] at hc ⊢
    have tail : ∀ v s', Ev w (.body b) s (.val [v] s') →
        Halts w (gBody false b ++ methodTail last b) ⟨0, 0, [], s⟩ (.context (tailValue w last v) s') := by
      intro v s' h
      have hr : b.returns = false := by
        cases hr : b.returns with
        | false => rfl
        | true => exact absurd h (returns_no_val hr)
      obtain ⟨pc', d, g, hp⟩ := tail_goes (w := w) (v := v) (s := s') hr hc.right
      exact fwd_main hw h 0 [] _ ok hc.left (g.fwd (retContext_halt hp))
    cases h with
    | ret h => exact fwd_main hw h 0 [] _ ok hc.left rfl
    | value h => exact tail v s' h
    | self h => exact tail _ s' h

/-- C95: the code of a method ends with exactly the answers and in the states that its source has; when the
evaluation of the source does not end, neither does the code.  (`Strict`: a test of something that is not a
Boolean does not come back.) -/
theorem method_means (hw : w.Std) (hb : w.Strict) {last : Bool} {b : Body} (ok : b.Ok w false) (s : S)
    (r : Result S V) : Halts w (gMethod last b) ⟨0, 0, [], s⟩ r ↔
      ∃ v s', r = .context v s' ∧ MethodEv w last b s v s' := by
  constructor
  · rintro ⟨n, H⟩
    by_cases he : b = .empty
    · subst he
      have hc := At.whole (gMethod last .empty)
      simp only [gMethod] at hc
      cases last with
      | true =>
        obtain ⟨m, -, H1⟩ := (emit_goes (w := w) (stk := []) (s := s) (by simp) hc.left rfl).bwd H
        exact ⟨_, _, retContext_bwd hc.right H1, .value .empty⟩
      | false =>
        obtain ⟨m, -, H1⟩ := (emit_goes (w := w) (stk := []) (s := s) (by simp) hc.left rfl).bwd H
        exact ⟨_, _, retContext_bwd hc.right H1, .self .empty⟩
    · have hc := At.whole (gMethod last b)
      rw [gMethod_cons he] at hc H
      rcases (bwd_body hw hb false b).one (stk := []) rfl ok hc.left H with ⟨v, s', m, -, ev, H1⟩ | ⟨v, s', ev, hr⟩
      · have hr : b.returns = false := by
          cases hr : b.returns with
          | false => rfl
          | true => exact absurd ev (returns_no_val hr)
        obtain ⟨pc', d, g, hp⟩ := tail_goes (w := w) (v := v) (s := s') hr hc.right
        obtain ⟨k, -, H2⟩ := g.bwd H1
        refine ⟨_, _, retContext_bwd hp H2, ?_⟩
        cases last with
        | true => exact .value ev
        | false => exact .self ev
      · exact ⟨v, s', hr, .ret ev⟩
  · rintro ⟨v, s', rfl, h⟩
    exact method_answers hw ok h

/-- C95: a block that is compiled as an object answers the value of its last statement to whoever evaluates
it; a `^` in it returns from the method that contains it. -/
theorem block_means (hw : w.Std) (hb : w.Strict) {b : Body} (ok : b.Ok w true) (s : S) (r : Result S V) :
    Halts w (gBlock b) ⟨0, 0, [], s⟩ r ↔
      (∃ v s', r = .context v s' ∧ Ev w (.body b) s (.val [v] s')) ∨
        ∃ v s', r = .method v s' ∧ Ev w (.body b) s (.ret v s') := by
  have hc := At.whole (gBlock b)
  rw [gBlock] at hc ⊢
  have key : ∀ v s', Ev w (.body b) s (.val [v] s') → b.returns = false := by
    intro v s' ev
    cases hr : b.returns with
    | false => rfl
    | true => exact absurd ev (returns_no_val hr)
  constructor
  · rintro ⟨n, H⟩
    rcases (bwd_body hw hb true b).one (stk := []) rfl ok hc.left H with ⟨v, s', m, -, ev, H1⟩ | ⟨v, s', ev, hr⟩
    · have h2 := hc.right
      simp only [key v s' ev, Bool.false_eq_true, if_false] at h2 H1
      exact .inl ⟨v, s', retContext_bwd h2 H1, ev⟩
    · exact .inr ⟨v, s', hr, ev⟩
  · rintro (⟨v, s', rfl, ev⟩ | ⟨v, s', rfl, ev⟩)
    · simp only [key v s' ev, Bool.false_eq_true, if_false] at hc ⊢
      exact fwd_main hw ev 0 [] _ ok hc.left (retContext_halt hc.right)
    · exact fwd_main hw ev 0 [] _ ok hc.left rfl

/-- C95: the code of a method finds its operands and stays within itself for ever, and its stack holds no more
values than the deepest point of the source needs. -/
theorem method_safe (hw : w.Std) (hb : w.Strict) {last : Bool} {b : Body} (ok : b.Ok w false) (s : S) (n : Nat) :
    Safe w (gMethod last b) b.need n ⟨0, 0, [], s⟩ := by
  by_cases he : b = .empty
  · subst he
    have hc := At.whole (gMethod last .empty)
    simp only [gMethod] at hc
    cases last with
    | true =>
      exact (emit_goes (w := w) (stk := []) (s := s) (by simp) hc.left rfl).safe (by simp)
        (retContext_safe hc.right (by simp [Body.need]))
    | false =>
      exact (emit_goes (w := w) (stk := []) (s := s) (by simp) hc.left rfl).safe (by simp)
        (retContext_safe hc.right (by simp [Body.need]))
  · have hc := At.whole (gMethod last b)
    have h1 := b.need_pos
    rw [gMethod_cons he] at hc ⊢
    refine (safe_body hw hb false b).one (stk := []) rfl ok hc.left (Nat.le_refl _) (fun v s' ev => ?_)
    have hr : b.returns = false := by
      cases hr : b.returns with
      | false => rfl
      | true => exact absurd ev (returns_no_val hr)
    obtain ⟨pc', d, g, hp⟩ := tail_goes (w := w) (v := v) (s := s') hr hc.right
    exact g.safe (by simpa using h1) (retContext_safe hp (by simpa using h1))

theorem block_safe (hw : w.Std) (hb : w.Strict) {b : Body} (ok : b.Ok w true) (s : S) (n : Nat) :
    Safe w (gBlock b) b.need n ⟨0, 0, [], s⟩ := by
  have hc := At.whole (gBlock b)
  have h1 := b.need_pos
  rw [gBlock] at hc ⊢
  refine (safe_body hw hb true b).one (stk := []) rfl ok hc.left (Nat.le_refl _) (fun v s' ev => ?_)
  have hr : b.returns = false := by
    cases hr : b.returns with
    | false => rfl
    | true => exact absurd ev (returns_no_val hr)
  simp only [hr, Bool.false_eq_true, if_false] at hc ⊢
  exact retContext_safe hc.right (by simpa using h1)

/-! ## C97: room on the stack -/

theorem Safe.deeper {code : Code} {d d' : Nat} (hd : d ≤ d') : ∀ {n : Nat} {c : Cfg S V}, Safe w code d n c →
    Safe w code d' n c
  | 0, _, h => Nat.le_trans h hd
  | n + 1, c, h => by
    refine ⟨Nat.le_trans h.1 hd, ?_⟩
    have h2 := h.2
    cases e : step w code c with
    | next c' => rw [e] at h2; exact Safe.deeper hd h2
    | halt r => trivial
    | gone => trivial
    | bad => rw [e] at h2; exact h2

/-- The counted depth of a method covers what it needs, except for one value per level of `to:do:` loops or
for one `and:` or `or:`. -/
theorem count_method (b : Body) : b.need ≤ countMethod b + max 1 b.short := by
  by_cases he : b = .empty
  · subst he; simp [Body.need, countMethod]; omega
  · have := grows_body b (0, 0) (Nat.le_refl _)
    have e : countMethod b = (cBody b (0, 0)).2 := by cases b <;> simp_all [countMethod]
    rw [e]
    simp only at this
    omega

theorem count_block (b : Body) : b.need ≤ countBlock b + b.short := by
  have := grows_body b (0, 0) (Nat.le_refl _)
  simp only at this
  simp only [countBlock]
  omega

theorem slots_room {k a t : Nat} (h : k + a + t ≤ 245) : k + 4 + a + t ≤ slots k a t := by
  simp only [slots]
  omega

/-- C97, partial: when `to:do:` loops are nested at most four levels deep (and the slots that are asked for
fit in the header), the slots of the context suffice for its arguments, temporaries and stack.  The full
statement, without the bound on the nesting, is false: `nested_loops_overflow`. -/
theorem method_room_partial (hw : w.Std) (hb : w.Strict) {last : Bool} {b : Body} (ok : b.Ok w false)
    (numArgs numTemps : Nat) (hs : b.short ≤ 4) (hf : countMethod b + numArgs + numTemps ≤ 245) (s : S) (n : Nat) :
    Safe w (gMethod last b) (slots (countMethod b) numArgs numTemps - numArgs - numTemps) n ⟨0, 0, [], s⟩ := by
  have h1 := count_method b
  have h2 := slots_room hf
  exact (method_safe hw hb ok s n).deeper (by omega)

theorem block_room_partial (hw : w.Std) (hb : w.Strict) {b : Body} (ok : b.Ok w true)
    (numArgs numTemps : Nat) (hs : b.short ≤ 4) (hf : countBlock b + numArgs + numTemps ≤ 245) (s : S) (n : Nat) :
    Safe w (gBlock b) (slots (countBlock b) numArgs numTemps - numArgs - numTemps) n ⟨0, 0, [], s⟩ := by
  have h1 := count_block b
  have h2 := slots_room hf
  exact (block_safe hw hb ok s n).deeper (by omega)

/-! ## A small world

Integers and Booleans with arithmetic and comparisons; everything else does not understand. -/

inductive Val where
  | int (i : Int)
  | bool (b : Bool)
  | nil
  deriving DecidableEq, Repr

def small : World (Nat → Val) Val where
  tt := .bool true
  ff := .bool false
  self := .nil
  special := fun _ => .nil
  int := fun n => .int n
  lit := fun n => .int n
  get := fun s v => match v with | .temp n => s n | _ => .nil
  put := fun s v x => match v with | .temp n => fun k => if k = n then x else s k | _ => s
  getGlobal := fun s _ => some (.nil, s)
  putGlobal := fun s _ v => some (v, s)
  send := fun s sel r as => match sel, r, as with
    | .builtin 0, .int a, [.int b] => some (.int (a + b), s)
    | .builtin 1, .int a, [.int b] => some (.int (a - b), s)
    | .builtin 4, .int a, [.int b] => some (.bool (a ≤ b), s)
    | .builtin 5, .int a, [.int b] => some (.bool (b ≤ a), s)
    | _, _, _ => none
  sendSuper := fun _ _ _ _ _ => none
  arity := fun _ => 1
  mustBeBoolean := fun _ _ => none
  makeBlock := fun _ _ => none
  putElement := fun s _ _ _ => s

theorem small_std : small.Std := ⟨by decide, rfl, rfl, rfl, rfl, rfl⟩

theorem small_strict : small.Strict := fun _ _ _ _ => rfl

def zeros : Nat → Val := fun _ => .int 0

/-- `Safe`, computed. -/
def safeB (w : World S V) (code : Code) (d : Nat) : Nat → Cfg S V → Bool
  | 0, c => decide (c.stk.length ≤ d)
  | n + 1, c => decide (c.stk.length ≤ d) &&
    match step w code c with
    | .next c' => safeB w code d n c'
    | .halt _ => true
    | .gone => true
    | .bad => false

theorem safeB_of {code : Code} {d : Nat} : ∀ {n : Nat} {c : Cfg S V}, Safe w code d n c → safeB w code d n c = true
  | 0, c, h => decide_eq_true (show c.stk.length ≤ d from h)
  | n + 1, c, h => by
    have h1 : c.stk.length ≤ d := h.1
    have h2 := h.2
    simp only [safeB, h1, decide_true, Bool.true_and]
    cases e : step w code c with
    | next c' => rw [e] at h2; exact safeB_of h2
    | halt r => rfl
    | gone => rfl
    | bad => rw [e] at h2; exact h2.elim

/-- Whether within `n` steps the context comes to an instruction after which it cannot go on. -/
def runsBad (w : World S V) (code : Code) : Nat → Cfg S V → Bool
  | 0, _ => false
  | n + 1, c => match step w code c with
    | .next c' => runsBad w code n c'
    | .halt _ => false
    | .gone => true
    | .bad => true

theorem not_halts_of_bad {code : Code} : ∀ {n m : Nat} {c : Cfg S V} {r : Result S V}, runsBad w code n c = true →
    ¬ HaltsIn w code m c r
  | 0, _, _, _, h, _ => by simp [runsBad] at h
  | n + 1, _, c, r, h, H => by
    simp only [runsBad] at h
    cases H with
    | halt e => rw [e] at h; simp at h
    | next e t => rw [e] at h; exact not_halts_of_bad h t

/-! ## Examples -/

/-- `| a b | a := 0. 1 to: 3 do: [:b | a := a + b]. ^a` -/
def sumBody : Body :=
  .cons (.assign (.const none (.int 0)) [.temp 0])
    (.cons (.toDo (.const none (.int 1)) (.const none (.int 3)) none 1
      (.last (.assign (.send (.var none (.temp 0)) (.cons (.var none (.temp 1)) .nil) (.builtin 0)) [.temp 0])))
      (.ret (.var none (.temp 0))))

theorem sumBody_ok : sumBody.Ok small false := by
  simp only [sumBody, Body.Ok, Expr.Ok, Args.Ok, Sel.Ok, Var.Ok, Var.Assignable, List.mem_singleton, forall_eq,
    Args.length, small, and_true, true_and]
  decide +kernel

/-- The value with which the context ends within `n` steps. -/
def answer (w : World S V) (code : Code) : Nat → Cfg S V → Option V
  | 0, _ => none
  | n + 1, c => match step w code c with
    | .next c' => answer w code n c'
    | .halt (.context v _) => some v
    | _ => none

theorem halts_of_answer {code : Code} {v : V} : ∀ {n : Nat} {c : Cfg S V}, answer w code n c = some v →
    ∃ s', Halts w code c (.context v s')
  | 0, _, h => by simp [answer] at h
  | n + 1, c, h => by
    simp only [answer] at h
    split at h
    · rename_i c' e
      obtain ⟨s', m, H⟩ := halts_of_answer h
      exact ⟨s', m + 1, .next e H⟩
    · rename_i u s' e
      cases h
      exact ⟨s', 1, .halt e⟩
    · simp at h

/-- Not trivial: the method ends, and answers 6. -/
example : ∃ s', MethodEv small false sumBody zeros (.int 6) s' := by
  obtain ⟨s', h⟩ := halts_of_answer (w := small) (code := gMethod false sumBody) (v := .int 6) (n := 100)
    (c := ⟨0, 0, [], zeros⟩) (by decide +kernel)
  obtain ⟨v, s'', e, h⟩ := (method_means small_std small_strict sumBody_ok _ _).mp h
  cases e
  exact ⟨_, h⟩

example (s : Nat → Val) (n : Nat) : Safe small (gMethod false sumBody) sumBody.need n ⟨0, 0, [], s⟩ :=
  method_safe small_std small_strict sumBody_ok s n

example : sumBody.short = 1 ∧ countMethod sumBody = 4 ∧ sumBody.need = 5 := by decide +kernel

/-! ## C96: the sizes for which loops are compiled wrongly -/

/-- `n` statements that push the receiver. -/
def noise : Nat → Body → Body
  | 0, b => b
  | n + 1, b => .cons (.var none .self) (noise n b)

omit [DecidableEq V] in
theorem noise_ev {b : Body} {s : S} {o : Out S V} (h : Ev w (.body b) s o) : ∀ n, Ev w (.body (noise n b)) s o
  | 0 => h
  | n + 1 => .seq .self (noise_ev h n)

/-- A block whose code takes 240 bytes. -/
def body240 : Body := .cons (.assign (.var none .self) [.temp 1]) (noise 58 (.last (.var none .self)))

/-- `2 timesRepeat: [ … ]` with that block. -/
def loop240 : Body := .last (.times (.const none (.int 2)) body240)

theorem body240_size : size (gBody false body240) = 240 := by decide +kernel

/-- C96 is false: `2 timesRepeat: [ … ]` answers 2; when the code of the block takes 240 bytes, the compiled
method never answers: the backward jump skips the `DUP_STACK_TOP`, and in the third round the loop pops the
value that is below its own. -/
theorem timesRepeat_wrong : (∃ s', MethodEv small true loop240 zeros (.int 2) s') ∧
    ∀ r, ¬ Halts small (gMethod true loop240) ⟨0, 0, [], zeros⟩ r := by
  constructor
  · have hb : ∀ s, Ev small (.body body240) s (.val [.nil] (small.put s (.temp 1) .nil)) := fun s =>
      .seq (.assign .self (.storeTemp .storeNil)) (noise_ev (.last .self) 58)
    exact ⟨_, .value (.last (.timesRepeat .const
      (.timesMore rfl rfl (hb _) (.timesMore rfl rfl (hb _) (.timesDone rfl)))))⟩
  · rintro r ⟨n, H⟩
    exact not_halts_of_bad (n := 1000) (by decide +kernel) H

/-- A block whose code takes 238 bytes. -/
def body238 : Body := noise 59 (.last (.var none .self))

def loop238 : Body := .last (.toDo (.const none (.int 1)) (.const none (.int 3)) none 0 body238)

/-- The same for `1 to: 3 do: [:i | … ]`: the backward jump skips the comparison, and the second round tests
an integer as if it were a Boolean. -/
theorem toDo_wrong : (∃ s', MethodEv small true loop238 zeros (.int 1) s') ∧
    ∀ r, ¬ Halts small (gMethod true loop238) ⟨0, 0, [], zeros⟩ r := by
  constructor
  · have hb : ∀ s, Ev small (.body body238) s (.val [.nil] s) := fun s => noise_ev (.last .self) 59
    exact ⟨_, .value (.last (.toDo .const .const
      (.toMore rfl (hb _) rfl (.toMore rfl (hb _) rfl (.toMore rfl (hb _) rfl (.toDone rfl))))))⟩
  · rintro r ⟨n, H⟩
    exact not_halts_of_bad (n := 1000) (by decide +kernel) H

/-! ## C97: nested loops -/

/-- `1 to: 1 do: [:a | 1 to: 1 do: [:b | … ]]`, `n` levels. -/
def nest : Nat → Expr
  | 0 => .var none .self
  | n + 1 => .toDo (.const none (.int 1)) (.const none (.int 1)) none n (.last (nest n))

/-- C97 is false: a method with six nested `to:do:` loops gets 20 slots; with its six temporaries 14 are left
for the stack, and it pushes 15 values. -/
theorem nested_loops_overflow : (Body.last (nest 6)).Ok small false ∧ slots (countMethod (.last (nest 6))) 0 6 = 20 ∧
    ¬ ∀ n, Safe small (gMethod true (.last (nest 6))) (20 - 6) n ⟨0, 0, [], zeros⟩ := by
  refine ⟨?_, by decide +kernel, fun h => ?_⟩
  · simp only [nest, Body.Ok, Expr.Ok, Var.Ok, and_true, true_and]
    decide +kernel
  · have := safeB_of (h 200)
    exact absurd this (by decide +kernel)

end Verif.Compiler
