import Verif.Bytecode.Superop
/-!
# The peephole optimiser preserves behaviour (C24)
-/
namespace Verif.Bytecode

/-- libgst/opt.c l.800-806 (`optimize_basic_block`): the pushes that can be removed before a pop. -/
def isPush (op : Nat) : Bool :=
  op == 32 || op == 35 || op == 33 || op == 44 || op == 56 || op == 45 || op == 46

/-- libgst/opt.c l.816-821 (`optimize_basic_block`): "remove the pop in a pop/push/return sequence".  The list is the
optimised area, last bytecode first, when the push `bp[0]` is about to be copied; `next` is `bp[2]`, `none` at
the end of the block. -/
def dropPop (next : Option Nat) : List (Nat × Nat) → List (Nat × Nat)
  | (op, x) :: o => if op = 48 ∧ next = some 51 then o else (op, x) :: o
  | [] => []

/-- libgst/opt.c l.823-838 (`optimize_basic_block`): "rewrite the pop/line number/push sequence to line number/pop/push",
on the optimised area, last bytecode first. -/
def swapLine : List (Nat × Nat) → List (Nat × Nat)
  | (op2, l) :: (op1, x) :: o => if op1 = 48 ∧ op2 = 54 then (48, 0) :: (54, l) :: o else (op2, l) :: (op1, x) :: o
  | o => o

/-- libgst/opt.c l.816-838 (`optimize_basic_block`): what is done to the optimised area before a push is copied. -/
def beforePush (out : List (Nat × Nat)) (next : Option Nat) : List (Nat × Nat) := swapLine (dropPop next out)

/-- libgst/opt.c l.770-798 (`optimize_basic_block`): store/pop/push to store and store/pop/line/push to store/line, when
`bp[0], bp[1]` is the push `(b, a)` of a temporary or of a receiver variable.  `prev` is `bp[-2]`, the opcode of the
bytecode before it.  Answers the new optimised area, last bytecode first, or `none` when the sequence is not there. -/
def storePopPush (out : List (Nat × Nat)) (prev : Option Nat) (b a : Nat) : Option (List (Nat × Nat)) :=
  if b = 32 ∨ b = 35 then
    match out with
    | (op2, x) :: (op1, a1) :: o =>
      if (o = [] ∨ o.head?.map Prod.fst ≠ some EXT) ∧ op1 = b + 4 ∧ a1 = a ∧ op2 = 48 ∧ prev ≠ some EXT then
        some ((op1, a1) :: o)
      else match o with
        | (op0, a0) :: o' =>
          if (o' = [] ∨ o'.head?.map Prod.fst ≠ some EXT) ∧ op0 = b + 4 ∧ a0 = a ∧ op1 = 48 ∧ op2 = 54 ∧
              prev ≠ some EXT then
            some ((op2, x) :: (op0, a0) :: o')
          else none
        | [] => none
    | _ => none
  else none

/-- libgst/opt.c l.748-849 (`optimize_basic_block`): the peephole loop.  `out` is the optimised area, last bytecode first,
`prev` the opcode `bp[-2]` of the bytecode read last, the list is what is still to be read.  `none` is the
`abort ()` on jumps, which the caller has removed. -/
def peephole : List (Nat × Nat) → Option Nat → List (Nat × Nat) → Option (List (Nat × Nat))
  | out, _, [] => some out
  | out, prev, (b, a) :: rest =>
    match storePopPush out prev b a with
    | some out' => peephole out' (some b) rest
    | none =>
      if isPush b then
        if rest.head?.map Prod.fst = some 48 then peephole out (some 48) rest.tail
        else peephole ((b, a) :: beforePush out (rest.head?.map Prod.fst)) (some b) rest
      else if b = 40 ∨ b = 41 ∨ b = 42 ∨ b = 43 then none
      else peephole ((b, a) :: out) (some b) rest
termination_by _ _ l => l.length
decreasing_by all_goals simp; try omega

/-- libgst/opt.c l.748-855 (`optimize_basic_block`): the peephole loop followed by the superoperators. -/
def optimizeBasicBlock (block : List (Nat × Nat)) : Option (List (Nat × Nat)) :=
  (peephole [] none block).map fun out => optimizeSuperoperators out.reverse

/-! ## Specification: a machine executing primitive instructions -/

/-- A machine state: the stack of the context, the temporaries, the instance variables of the receiver, the
temporaries of outer contexts, and everything else. -/
structure St (V W : Type) where
  stack : List V
  temps : Nat → V
  ivars : Nat → V
  outer : Nat → Nat → V
  other : W

/-- How execution of a block ends: it falls through to its end, returns a value from the context (whose stack is
gone), stops in some other way, or pops from an empty stack. -/
inductive Res (V W X : Type) where
  | fall (st : St V W)
  | ret (v : V) (temps : Nat → V) (ivars : Nat → V) (outer : Nat → Nat → V) (other : W)
  | stop (x : X)
  | underflow

/-- What the machine does for the instructions that the peephole optimiser does not know, and what the constant pushes
push. -/
structure Machine (V W X : Type) where
  ext : Ins → St V W → Res V W X
  const : Ins → W → V

variable {V W X : Type}

/-- libgst/vm.def l.682-898: one instruction.  Pushes, stores of temporaries and receiver variables, pop, line numbers
and return are as in vm.def; all other instructions do whatever `ext` says, for instance send a message that
runs any program. -/
def step (m : Machine V W X) (i : Ins) (st : St V W) : Res V W X :=
  match i.op, i.args with
  | .pushTemporaryVariable, [n] => .fall { st with stack := st.temps n :: st.stack }
  | .pushReceiverVariable, [n] => .fall { st with stack := st.ivars n :: st.stack }
  | .pushOuterTemp, [n, k] => .fall { st with stack := st.outer n k :: st.stack }
  | .pushInteger, _ => .fall { st with stack := m.const i st.other :: st.stack }
  | .pushSelf, _ => .fall { st with stack := m.const i st.other :: st.stack }
  | .pushSpecial, _ => .fall { st with stack := m.const i st.other :: st.stack }
  | .pushLitConstant, _ => .fall { st with stack := m.const i st.other :: st.stack }
  | .storeTemporaryVariable, [n] =>
    match st.stack with
    | v :: _ => .fall { st with temps := fun k => if k = n then v else st.temps k }
    | [] => .underflow
  | .storeReceiverVariable, [n] =>
    match st.stack with
    | v :: _ => .fall { st with ivars := fun k => if k = n then v else st.ivars k }
    | [] => .underflow
  | .popStackTop, _ =>
    match st.stack with
    | _ :: s => .fall { st with stack := s }
    | [] => .underflow
  | .lineNumberBytecode, _ => .fall st
  | .returnContextStackTop, _ =>
    match st.stack with
    | v :: _ => .ret v st.temps st.ivars st.outer st.other
    | [] => .underflow
  | _, _ => m.ext i st

/-- Execution of a sequence of instructions. -/
def exec (m : Machine V W X) : List Ins → St V W → Res V W X
  | [], st => .fall st
  | i :: is, st =>
    match step m i st with
    | .fall st' => exec m is st'
    | r => r

/-- `l'` does the same as `l` from every state in which `l` does not pop from an empty stack. -/
def Sim (m : Machine V W X) (l l' : List Ins) : Prop :=
  ∀ st, exec m l st ≠ .underflow → exec m l' st = exec m l st

/-! ## Lemmas on execution -/

theorem exec_append (m : Machine V W X) (l r : List Ins) (st : St V W) :
    exec m (l ++ r) st = match exec m l st with
      | .fall st' => exec m r st'
      | x => x := by
  induction l generalizing st with
  | nil => rfl
  | cons i l ih =>
    simp only [List.cons_append, exec]
    cases step m i st with
    | fall st' => exact ih st'
    | ret => rfl
    | stop => rfl
    | underflow => rfl

theorem Sim.refl (m : Machine V W X) (l : List Ins) : Sim m l l := fun _ _ => rfl

theorem Sim.trans {m : Machine V W X} {a b c : List Ins} (h : Sim m a b) (k : Sim m b c) : Sim m a c := by
  intro st hs
  rw [k st (by rw [h st hs]; exact hs), h st hs]

theorem Sim.context {m : Machine V W X} {l l' : List Ins} (h : Sim m l l') (p s : List Ins) :
    Sim m (p ++ l ++ s) (p ++ l' ++ s) := by
  intro st hs
  simp only [exec_append] at hs ⊢
  cases hp : exec m p st with
  | fall st' =>
    rw [hp] at hs
    dsimp only at hs ⊢
    have : exec m l st' ≠ .underflow := by
      intro e
      rw [e] at hs
      exact hs rfl
    rw [h st' this]
  | ret => rfl
  | stop => rfl
  | underflow => rfl

/-! ## The instructions involved -/

attribute [local irreducible] byteDef

attribute [local semireducible] byteDef in
theorem byteDef_peephole : byteDef.getD 32 [] = [⟨.pushTemporaryVariable, [.full]⟩] ∧
    byteDef.getD 33 [] = [⟨.pushOuterTemp, [.hi, .lo]⟩] ∧
    byteDef.getD 35 [] = [⟨.pushReceiverVariable, [.full]⟩] ∧
    byteDef.getD 36 [] = [⟨.storeTemporaryVariable, [.full]⟩] ∧
    byteDef.getD 39 [] = [⟨.storeReceiverVariable, [.full]⟩] ∧
    byteDef.getD 44 [] = [⟨.pushInteger, [.full]⟩] ∧
    byteDef.getD 45 [] = [⟨.pushSpecial, [.full]⟩] ∧
    byteDef.getD 46 [] = [⟨.pushLitConstant, [.full]⟩] ∧
    byteDef.getD 48 [] = [⟨.popStackTop, []⟩] ∧
    byteDef.getD 51 [] = [⟨.returnContextStackTop, []⟩] ∧
    byteDef.getD 54 [] = [⟨.lineNumberBytecode, [.full]⟩] ∧
    byteDef.getD 56 [] = [⟨.pushSelf, []⟩] := by
  decide +kernel

theorem dissect_pop (arg a : Nat) : dissect 48 arg a = [⟨.popStackTop, []⟩] := by
  obtain ⟨-, -, -, -, -, -, -, -, h, -⟩ := byteDef_peephole
  simp [dissect, h]

theorem dissect_ret (arg a : Nat) : dissect 51 arg a = [⟨.returnContextStackTop, []⟩] := by
  obtain ⟨-, -, -, -, -, -, -, -, -, h, -⟩ := byteDef_peephole
  simp [dissect, h]

theorem dissect_line (arg a : Nat) : dissect 54 arg a = [⟨.lineNumberBytecode, [arg ||| a]⟩] := by
  obtain ⟨-, -, -, -, -, -, -, -, -, -, h, -⟩ := byteDef_peephole
  simp [dissect, h, BArg.eval]

/-- Instructions that push a value which does not depend on the stack, and do nothing else. -/
def PurePush (m : Machine V W X) (i : Ins) : Prop :=
  ∀ st : St V W, ∃ v, ∀ s, step m i { st with stack := s } = .fall { st with stack := v :: s }

theorem dissect_push (m : Machine V W X) (b arg a : Nat) (h : isPush b = true) :
    ∃ i, dissect b arg a = [i] ∧ PurePush m i := by
  obtain ⟨h32, h33, h35, -, -, h44, h45, h46, -, -, -, h56⟩ := byteDef_peephole
  simp only [isPush, Bool.or_eq_true, beq_iff_eq] at h
  rcases h with (((((rfl | rfl) | rfl) | rfl) | rfl) | rfl) | rfl
  · exact ⟨_, by simp only [dissect, h32, List.map_cons, List.map_nil]; rfl, fun st => ⟨_, fun s => rfl⟩⟩
  · exact ⟨_, by simp only [dissect, h35, List.map_cons, List.map_nil]; rfl, fun st => ⟨_, fun s => rfl⟩⟩
  · exact ⟨_, by simp only [dissect, h33, List.map_cons, List.map_nil]; rfl, fun st => ⟨_, fun s => rfl⟩⟩
  · exact ⟨_, by simp only [dissect, h44, List.map_cons, List.map_nil]; rfl, fun st => ⟨m.const _ st.other, fun s => rfl⟩⟩
  · exact ⟨_, by simp only [dissect, h56, List.map_cons, List.map_nil]; rfl, fun st => ⟨m.const _ st.other, fun s => rfl⟩⟩
  · exact ⟨_, by simp only [dissect, h45, List.map_cons, List.map_nil]; rfl, fun st => ⟨m.const _ st.other, fun s => rfl⟩⟩
  · exact ⟨_, by simp only [dissect, h46, List.map_cons, List.map_nil]; rfl, fun st => ⟨m.const _ st.other, fun s => rfl⟩⟩

/-- A store and the push of the same variable. -/
theorem dissect_store (b arg a : Nat) (h : b = 32 ∨ b = 35) :
    ∃ i j : Ins, dissect (b + 4) arg a = [i] ∧ dissect b arg a = [j] ∧
      ∀ m : Machine V W X, Sim m [i, ⟨.popStackTop, []⟩, j] [i] := by
  obtain ⟨h32, -, h35, h36, h39, -⟩ := byteDef_peephole
  rcases h with rfl | rfl
  · refine ⟨⟨.storeTemporaryVariable, [arg ||| a]⟩, ⟨.pushTemporaryVariable, [arg ||| a]⟩,
      by simp [dissect, h36, BArg.eval], by simp [dissect, h32, BArg.eval], ?_⟩
    intro m st
    cases hs : st.stack <;> simp [exec, step, hs]
  · refine ⟨⟨.storeReceiverVariable, [arg ||| a]⟩, ⟨.pushReceiverVariable, [arg ||| a]⟩,
      by simp [dissect, h39, BArg.eval], by simp [dissect, h35, BArg.eval], ?_⟩
    intro m st
    cases hs : st.stack <;> simp [exec, step, hs]

theorem sim_push_pop (m : Machine V W X) (i : Ins) (h : PurePush m i) : Sim m [i, ⟨.popStackTop, []⟩] [] := by
  intro st _
  obtain ⟨v, hv⟩ := h st
  have h1 : step m i st = .fall { st with stack := v :: st.stack } := hv st.stack
  simp only [exec]
  rw [h1]
  rfl

theorem sim_pop_push_ret (m : Machine V W X) (i : Ins) (h : PurePush m i) :
    Sim m [⟨.popStackTop, []⟩, i, ⟨.returnContextStackTop, []⟩] [i, ⟨.returnContextStackTop, []⟩] := by
  intro st hs
  obtain ⟨v, hv⟩ := h st
  cases e : st.stack with
  | nil => exact absurd (by simp [exec, step, e]) hs
  | cons w s =>
    have h1 := hv s
    have h2 : step m i st = .fall { st with stack := v :: st.stack } := hv st.stack
    have h3 : step m ⟨.popStackTop, []⟩ st = .fall { st with stack := s } := by simp [step, e]
    simp only [exec]
    rw [h2, h3]
    dsimp only
    rw [h1]
    rfl

theorem sim_line (m : Machine V W X) (a : Nat) : Sim m [⟨.lineNumberBytecode, [a]⟩] [] := by
  intro st _
  simp [exec, step]

theorem sim_line' (m : Machine V W X) (a : Nat) : Sim m [] [⟨.lineNumberBytecode, [a]⟩] := by
  intro st _
  simp [exec, step]

/-! ## Simulation -/

/-- No `EXT_BYTE` stands directly before a pop, nor before a push that is directly followed by a pop.  The first argument
is the opcode before the list. -/
def SafeAfter : Option Nat → List (Nat × Nat) → Prop
  | _, [] => True
  | prev, (b, _) :: rest =>
    (prev = some EXT → b ≠ 48 ∧ ¬(isPush b = true ∧ rest.head?.map Prod.fst = some 48)) ∧ SafeAfter (some b) rest

/-- In the optimised area, last bytecode first, no pop comes after an `EXT_BYTE`. -/
def NoExtPop : List (Nat × Nat) → Prop
  | [] => True
  | (b, _) :: o => (b = 48 → o.head?.map Prod.fst ≠ some EXT) ∧ NoExtPop o

theorem decode_mid (o mid rest : List (Nat × Nat)) :
    decode 0 (o ++ mid ++ rest) = decode 0 o ++ decode (pending 0 o) mid ++ decode (pending (pending 0 o) mid) rest := by
  rw [decode_append, decode_append, pending_append]

/-- Two pieces of code that can be exchanged whatever surrounds them. -/
theorem sim_replace (m : Machine V W X) (o mid mid' rest : List (Nat × Nat))
    (h : Sim m (decode (pending 0 o) mid) (decode (pending 0 o) mid'))
    (hp : pending (pending 0 o) mid' = pending (pending 0 o) mid) :
    Sim m (decode 0 (o ++ mid ++ rest)) (decode 0 (o ++ mid' ++ rest)) := by
  rw [decode_mid, decode_mid, hp]
  exact h.context _ _

theorem pend (o : List (Nat × Nat)) (h : o.head?.map Prod.fst ≠ some EXT) : pending 0 o.reverse = 0 :=
  pending_last o (Or.inr h)

/-- The rules store/pop/push and store/pop/line/push. -/
theorem storePopPush_sim (m : Machine V W X) {out out' : List (Nat × Nat)} {prev : Option Nat} {b a : Nat}
    (h : storePopPush out prev b a = some out') (hk : NoExtPop out) (rest : List (Nat × Nat)) :
    Sim m (decode 0 (out.reverse ++ (b, a) :: rest)) (decode 0 (out'.reverse ++ rest)) ∧
      pending 0 (out.reverse ++ (b, a) :: rest) = pending 0 (out'.reverse ++ rest) ∧
      NoExtPop out' ∧ out'.head?.map Prod.fst ≠ some EXT := by
  unfold storePopPush at h
  split at h
  case isFalse => simp at h
  case isTrue hb =>
  have hbE : b ≠ EXT := by rcases hb with rfl | rfl <;> simp [EXT]
  have hbE4 : b + 4 ≠ EXT := by rcases hb with rfl | rfl <;> simp [EXT]
  have hb48 : b + 4 ≠ 48 := by rcases hb with rfl | rfl <;> simp
  split at h
  · rename_i op2 x op1 a1 o
    split at h
    · rename_i hc
      obtain ⟨ho, rfl, rfl, rfl, -⟩ := hc
      simp only [Option.some.injEq] at h
      subst h
      have hp := pending_last o ho
      obtain ⟨i, j, hi, hj, hs⟩ := dissect_store (V := V) (W := W) (X := X) b 0 a1 hb
      have e1 : ((48, x) :: (b + 4, a1) :: o).reverse ++ (b, a1) :: rest =
          o.reverse ++ [(b + 4, a1), (48, x), (b, a1)] ++ rest := by simp
      have e2 : ((b + 4, a1) :: o).reverse ++ rest = o.reverse ++ [(b + 4, a1)] ++ rest := by simp
      have h48 : (48 : Nat) ≠ EXT := by simp [EXT]
      rw [e1, e2]
      refine ⟨sim_replace m _ _ _ _ ?_ ?_, ?_, hk.2, by simpa using hbE4⟩
      · rw [hp]
        simp only [decode, if_neg hbE, if_neg hbE4, if_neg h48, hi, hj, dissect_pop, List.append_nil]
        exact hs m
      · simp [pending, hbE, hbE4, h48]
      · simp [pending_append, pending, hbE, hbE4, h48]
    · split at h
      · rename_i op0 a0 o' _
        split at h
        · rename_i hc
          obtain ⟨ho, rfl, rfl, rfl, rfl, -⟩ := hc
          simp only [Option.some.injEq] at h
          subst h
          have hp := pending_last o' ho
          obtain ⟨i, j, hi, hj, hs⟩ := dissect_store (V := V) (W := W) (X := X) b 0 a0 hb
          have e1 : ((54, x) :: (48, a1) :: (b + 4, a0) :: o').reverse ++ (b, a0) :: rest =
              o'.reverse ++ [(b + 4, a0), (48, a1), (54, x), (b, a0)] ++ rest := by simp
          have e2 : ((54, x) :: (b + 4, a0) :: o').reverse ++ rest =
              o'.reverse ++ [(b + 4, a0), (54, x)] ++ rest := by simp
          have h48 : (48 : Nat) ≠ EXT := by simp [EXT]
          have h54 : (54 : Nat) ≠ EXT := by simp [EXT]
          rw [e1, e2]
          refine ⟨sim_replace m _ _ _ _ ?_ ?_, ?_, ⟨fun e => by simp at e, hk.2.2⟩, by simp [EXT]⟩
          · rw [hp]
            simp only [decode, if_neg hbE, if_neg hbE4, if_neg h48, if_neg h54, hi, hj, dissect_pop, dissect_line,
              List.append_nil, List.singleton_append]
            refine Sim.trans (b := [i, ⟨.popStackTop, []⟩, j]) ?_ (Sim.trans (hs m) ?_)
            · exact (sim_line m (0 ||| x)).context [i, ⟨.popStackTop, []⟩] [j]
            · exact (sim_line' m (0 ||| x)).context [i] []
          · simp [pending, hbE, hbE4, h48, h54]
          · simp [pending_append, pending, hbE, hbE4, h48, h54]
        · simp at h
      · simp at h
  · simp at h

/-- The rules pop/push/return and pop/line/push. -/
theorem beforePush_sim (m : Machine V W X) (out : List (Nat × Nat)) (b a : Nat) (rest : List (Nat × Nat))
    (hb : isPush b = true) (hk : NoExtPop out) :
    Sim m (decode 0 (out.reverse ++ (b, a) :: rest))
        (decode 0 ((beforePush out (rest.head?.map Prod.fst)).reverse ++ (b, a) :: rest)) ∧
      pending 0 (out.reverse ++ (b, a) :: rest) =
        pending 0 ((beforePush out (rest.head?.map Prod.fst)).reverse ++ (b, a) :: rest) ∧
      NoExtPop (beforePush out (rest.head?.map Prod.fst)) := by
  have h48 : (48 : Nat) ≠ EXT := by simp [EXT]
  have h54 : (54 : Nat) ≠ EXT := by simp [EXT]
  have h51 : (51 : Nat) ≠ EXT := by simp [EXT]
  have hbE : b ≠ EXT := by rintro rfl; simp [isPush, EXT] at hb
  have hpend : ∀ o : List (Nat × Nat), pending 0 (o ++ (b, a) :: rest) = pending 0 rest := by
    intro o
    rw [pending_append]
    simp [pending, hbE]
  -- first rule
  obtain ⟨hs1, hk1⟩ : Sim m (decode 0 (out.reverse ++ (b, a) :: rest))
      (decode 0 ((dropPop (rest.head?.map Prod.fst) out).reverse ++ (b, a) :: rest)) ∧
      NoExtPop (dropPop (rest.head?.map Prod.fst) out) := by
    match out with
    | [] => exact ⟨Sim.refl _ _, hk⟩
    | (op, x) :: o =>
      rw [dropPop]
      split
      · rename_i hc
        obtain ⟨rfl, hr⟩ := hc
        refine ⟨?_, hk.2⟩
        match rest, hr with
        | (op', y) :: rest', hr =>
          obtain rfl : op' = 51 := by simpa using hr
          have hp := pend o (hk.1 rfl)
          have e1 : ((48, x) :: o).reverse ++ (b, a) :: (51, y) :: rest' =
              o.reverse ++ [(48, x), (b, a), (51, y)] ++ rest' := by simp
          have e2 : o.reverse ++ (b, a) :: (51, y) :: rest' = o.reverse ++ [(b, a), (51, y)] ++ rest' := by simp
          rw [e1, e2]
          obtain ⟨i, hi, hpp⟩ := dissect_push m b 0 a hb
          refine sim_replace m _ _ _ _ ?_ ?_
          · rw [hp]
            simp only [decode, if_neg hbE, if_neg h48, if_neg h51, hi, dissect_pop, dissect_ret, List.append_nil,
              List.singleton_append]
            exact sim_pop_push_ret m i hpp
          · simp [pending, hbE, h48, h51]
      · exact ⟨Sim.refl _ _, hk⟩
  -- second rule
  rw [beforePush]
  generalize dropPop (rest.head?.map Prod.fst) out = out1 at hs1 hk1
  refine ⟨hs1.trans ?_, by rw [hpend, hpend], ?_⟩
  · unfold swapLine
    split
    · rename_i op2 l op1 x o
      split
      · rename_i hc
        obtain ⟨rfl, rfl⟩ := hc
        have e1 : ((54, l) :: (48, x) :: o).reverse ++ (b, a) :: rest =
            o.reverse ++ [(48, x), (54, l)] ++ (b, a) :: rest := by simp
        have e2 : ((48, 0) :: (54, l) :: o).reverse ++ (b, a) :: rest =
            o.reverse ++ [(54, l), (48, 0)] ++ (b, a) :: rest := by simp
        rw [e1, e2]
        refine sim_replace m _ _ _ _ ?_ ?_
        · simp only [decode, if_neg h48, if_neg h54, dissect_pop, dissect_line, List.append_nil, List.singleton_append]
          refine Sim.trans (b := [⟨.popStackTop, []⟩]) ?_ ?_
          · exact (sim_line m _).context [⟨.popStackTop, []⟩] []
          · exact (sim_line' m _).context [] [⟨.popStackTop, []⟩]
        · simp [pending, h48, h54]
      · exact Sim.refl _ _
    · exact Sim.refl _ _
  · unfold swapLine
    split
    · rename_i op2 l op1 x o
      split
      · exact ⟨fun _ => by simp [EXT], fun e => by simp at e, hk1.2.2⟩
      · exact hk1
    · exact hk1

theorem peephole_sim (m : Machine V W X) (rest out : List (Nat × Nat)) (prev : Option Nat) (ys : List (Nat × Nat))
    (h : peephole out prev rest = some ys) (hj : out.head?.map Prod.fst = some EXT → prev = some EXT)
    (hk : NoExtPop out) (hs : SafeAfter prev rest) :
    Sim m (decode 0 (out.reverse ++ rest)) (decode 0 ys.reverse) ∧
      pending 0 (out.reverse ++ rest) = pending 0 ys.reverse := by
  induction hn : rest.length using Nat.strongRecOn generalizing rest out prev with
  | _ n ih =>
  match rest with
  | [] =>
    rw [peephole] at h
    simp only [Option.some.injEq] at h
    subst h
    simp [Sim.refl]
  | (b, a) :: rest =>
    rw [peephole] at h
    simp only [List.length_cons] at hn
    split at h
    · rename_i out' ho
      obtain ⟨s1, p1, k1, j1⟩ := storePopPush_sim m ho hk rest
      obtain ⟨s2, p2⟩ := ih _ (by omega) rest out' (some b) h (fun e => absurd e j1) k1 hs.2 rfl
      exact ⟨s1.trans s2, p1.trans p2⟩
    · split at h
      · rename_i hb
        have hbE : b ≠ EXT := by rintro rfl; simp [isPush, EXT] at hb
        have hb48 : b ≠ 48 := by rintro rfl; simp [isPush] at hb
        split at h
        · rename_i hr
          match rest, hr with
          | (op', y) :: rest', hr =>
            obtain rfl : op' = 48 := by simpa using hr
            have hpv : prev ≠ some EXT := fun e => (hs.1 e).2 ⟨hb, rfl⟩
            have hj' : out.head?.map Prod.fst ≠ some EXT := fun e => hpv (hj e)
            simp only [List.length_cons] at hn
            obtain ⟨s2, p2⟩ := ih rest'.length (by omega) rest' out (some 48) h (fun e => absurd e hj') hk hs.2.2 rfl
            have hp := pend out hj'
            have e1 : out.reverse ++ (b, a) :: (48, y) :: rest' = out.reverse ++ [(b, a), (48, y)] ++ rest' := by simp
            have e2 : out.reverse ++ rest' = out.reverse ++ [] ++ rest' := by simp
            have h48 : (48 : Nat) ≠ EXT := by simp [EXT]
            obtain ⟨i, hi, hpp⟩ := dissect_push m b 0 a hb
            refine ⟨Sim.trans ?_ s2, Eq.trans ?_ p2⟩
            · rw [e1, e2]
              refine sim_replace m _ _ _ _ ?_ ?_
              · rw [hp]
                simp only [decode, if_neg hbE, if_neg h48, hi, dissect_pop, List.append_nil, List.singleton_append]
                exact sim_push_pop m i hpp
              · rw [hp]
                simp [pending, hbE, h48]
            · rw [pending_append, pending_append, hp]
              simp [pending, hbE, h48]
        · obtain ⟨s1, p1, k1⟩ := beforePush_sim m out b a rest hb hk
          obtain ⟨s2, p2⟩ := ih _ (by omega) rest _ (some b) h (fun e => by simpa using e)
            ⟨fun e => absurd e hb48, k1⟩ hs.2 rfl
          simp only [List.reverse_cons, List.append_assoc, List.singleton_append] at s2 p2
          exact ⟨s1.trans s2, p1.trans p2⟩
      · split at h
        · simp at h
        · obtain ⟨s2, p2⟩ := ih _ (by omega) rest _ (some b) h (fun e => by simpa using e)
            ⟨fun e e' => (hs.1 (hj e')).1 e, hk⟩ hs.2 rfl
          simp only [List.reverse_cons, List.append_assoc, List.singleton_append] at s2 p2
          exact ⟨s2, p2⟩

/-! ## Properties -/

/-- The full statement of C24: from every state in which the original block does not underflow the stack, the optimised
block does the same. -/
def PreservesBehaviour (block : List (Nat × Nat)) : Prop :=
  ∀ (V W X : Type) (m : Machine V W X) (block' : List (Nat × Nat)), optimizeBasicBlock block = some block' →
    ∀ st, exec m (decode 0 block) st ≠ .underflow → exec m (decode 0 block') st = exec m (decode 0 block) st

/-- C24, partial: behaviour is preserved for every block in which no extended push is directly followed by a pop (and
in which pops, that have no operand, are not extended).  Missing: blocks with an extended push directly followed by
a pop, for which the statement is false, see `extended_push_pop_wrong`. -/
theorem optimizer_preserves_partial (block : List (Nat × Nat)) (h : SafeAfter none block) :
    PreservesBehaviour block := by
  intro V W X m block' hb st hst
  simp only [optimizeBasicBlock, Option.map_eq_some_iff] at hb
  obtain ⟨ys, hy, rfl⟩ := hb
  rw [(superoperators_preserve _).1]
  exact (peephole_sim m block [] none ys hy (by simp) trivial h).1 st hst

example : SafeAfter none [(55, 2), (32, 1), (36, 3), (48, 0), (54, 9), (32, 3), (48, 0), (54, 4), (56, 0), (51, 0)] ∧
    optimizeBasicBlock [(36, 3), (48, 0), (54, 9), (32, 3), (48, 0), (54, 4), (56, 0), (51, 0)] ≠ none := by
  refine ⟨by simp [SafeAfter, EXT, isPush], by decide +kernel⟩

/-- C24: the optimiser leaves the same operand prefix for the jump that ends the block. -/
theorem optimizer_pending_partial (block block' : List (Nat × Nat)) (h : SafeAfter none block)
    (hb : optimizeBasicBlock block = some block') : pending 0 block' = pending 0 block := by
  simp only [optimizeBasicBlock, Option.map_eq_some_iff] at hb
  obtain ⟨ys, hy, rfl⟩ := hb
  rw [(superoperators_preserve _).2]
  exact (peephole_sim (V := Unit) (W := Unit) (X := Unit) ⟨fun _ _ => .underflow, fun _ _ => ()⟩ block [] none ys hy
    (by simp) trivial h).2.symm

/-- The optimiser only aborts on jumps, which its caller has cut off the block. -/
theorem optimizer_defined (block : List (Nat × Nat)) (h : ∀ p ∈ block, p.1 < 40 ∨ 43 < p.1) :
    ∃ block', optimizeBasicBlock block = some block' := by
  have : ∀ (n : Nat) (rest out : List (Nat × Nat)) (prev : Option Nat), rest.length ≤ n →
      (∀ p ∈ rest, p.1 < 40 ∨ 43 < p.1) → ∃ ys, peephole out prev rest = some ys := by
    intro n
    induction n with
    | zero =>
      intro rest out prev hn _
      obtain rfl : rest = [] := List.length_eq_zero_iff.1 (by omega)
      exact ⟨out, by rw [peephole]⟩
    | succ n ih =>
      intro rest out prev hn hr
      match rest with
      | [] => exact ⟨out, by rw [peephole]⟩
      | (b, a) :: rest =>
        have hb := hr (b, a) List.mem_cons_self
        have hr' : ∀ p ∈ rest, p.1 < 40 ∨ 43 < p.1 := fun p hp => hr p (List.mem_cons_of_mem _ hp)
        simp only [List.length_cons] at hn
        rw [peephole]
        split
        · exact ih _ _ _ (by omega) hr'
        · split
          · split
            · exact ih _ _ _ (by simp; omega) fun p hp => hr' p (List.mem_of_mem_tail hp)
            · exact ih _ _ _ (by omega) hr'
          · rw [if_neg (by simp only at hb; omega)]
            exact ih _ _ _ (by omega) hr'
  obtain ⟨ys, hy⟩ := this block.length block [] none (by omega) h
  exact ⟨_, by rw [optimizeBasicBlock, hy]; rfl⟩

/-! ### Blocks as the compiler emits them -/

theorem safe_emit (op n k : Nat) (tail : List (Nat × Nat)) (prev : Option Nat)
    (h48 : (0 < k ∨ prev = some EXT) → op ≠ 48 ∧ ¬(isPush op = true ∧ tail.head?.map Prod.fst = some 48))
    (ht : SafeAfter (some op) tail) : SafeAfter prev (emit op n (2 * (k + 1)) ++ tail) := by
  induction k generalizing prev with
  | zero =>
    rw [emit, if_neg (by omega)]
    exact ⟨fun e => h48 (Or.inr e), ht⟩
  | succ k ih =>
    rw [emit_ext]
    refine ⟨fun _ => ⟨by simp [EXT], by simp [isPush, EXT]⟩, ih (some EXT) fun _ => h48 (Or.inl (by omega))⟩

theorem compileByte_head (op n : Nat) (tail : List (Nat × Nat)) :
    (compileByte op n ++ tail).head?.map Prod.fst = some (if n < 256 then op else EXT) := by
  by_cases h : n < 256
  · rw [compileByte, numBytes, if_neg (by omega), emit, if_neg (by omega), if_pos h]
    rfl
  · rw [compileByte, numBytes, if_pos (by omega), emit, if_pos, if_neg h]
    · rfl
    · obtain ⟨k, e, -⟩ := numBytes_even (n >>> 8)
      omega

/-- C24, partial, for compiled code: the optimised form of a compiled sequence of instructions behaves as the sequence,
provided that no push with an operand above 255 is directly followed by a pop.  Missing: that case, see
`extended_push_pop_wrong`. -/
theorem compiled_block_preserved_partial (p : List (Nat × Nat)) (hE : ∀ i ∈ p, i.1 ≠ EXT)
    (hpop : ∀ i ∈ p, i.1 = 48 → i.2 < 256)
    (hpush : ∀ q i r, p = q ++ i :: r → isPush i.1 = true → 256 ≤ i.2 → r.head?.map Prod.fst ≠ some 48)
    (block' : List (Nat × Nat)) (hb : optimizeBasicBlock (p.flatMap fun i => compileByte i.1 i.2) = some block')
    (m : Machine V W X) (st : St V W) (hst : exec m (p.flatMap fun i => meaning i.1 i.2) st ≠ .underflow) :
    exec m (decode 0 block') st = exec m (p.flatMap fun i => meaning i.1 i.2) st := by
  rw [← program_roundtrip p hE] at hst ⊢
  refine optimizer_preserves_partial _ ?_ V W X m block' hb st hst
  clear hb hst
  suffices H : ∀ prev, prev ≠ some EXT → SafeAfter prev (p.flatMap fun i => compileByte i.1 i.2) from H none (by simp)
  induction p with
  | nil => intro prev _; exact trivial
  | cons i p ih =>
    intro prev hprev
    have hi := hE i List.mem_cons_self
    have ih' := ih (fun j hj => hE j (List.mem_cons_of_mem _ hj)) (fun j hj => hpop j (List.mem_cons_of_mem _ hj))
      (fun q j r e => hpush (i :: q) j r (by rw [e]; rfl)) (some i.1) (by simpa using hi)
    rw [List.flatMap_cons]
    obtain ⟨k, e, l⟩ := numBytes_even i.2
    rw [compileByte, e]
    refine safe_emit _ _ _ _ _ ?_ ih'
    rintro (hk | hk)
    · obtain ⟨k', rfl⟩ : ∃ k', k = k' + 1 := ⟨k - 1, by omega⟩
      have hbig : 256 ≤ i.2 := by
        have := numBytes_min i.2 k' e
        have h2 : 256 ^ 1 ≤ 256 ^ (k' + 1) := Nat.pow_le_pow_right (by omega) (by omega)
        omega
      refine ⟨fun e48 => by have := hpop i List.mem_cons_self e48; omega, ?_⟩
      rintro ⟨h1, h2⟩
      refine hpush [] i p rfl h1 hbig ?_
      cases p with
      | nil => simp at h2
      | cons j p =>
        rw [List.flatMap_cons, compileByte_head] at h2
        by_cases hj : j.2 < 256
        · rw [if_pos hj] at h2
          simpa using h2
        · rw [if_neg hj] at h2
          simp [EXT] at h2
    · exact absurd hk hprev

example : (optimizeBasicBlock
    ([(44, 1000), (36, 3), (48, 0), (54, 300), (32, 3), (48, 0), (54, 4), (56, 0), (48, 0), (56, 0), (51, 0)].flatMap
      fun i => compileByte i.1 i.2)).any (fun block' => block'.length < 11) = true := by
  decide +kernel

/-- The bytes for `300. ^5`, without line numbers: push 300 (extended), pop, push 5, return. -/
def badBlock : List (Nat × Nat) := compileByte 44 300 ++ compileByte 48 0 ++ compileByte 44 5 ++ compileByte 51 0

/-- C24 is false in general: removing an extended push that is followed by a pop leaves the extension prefix behind, which
then extends the next instruction.  The block answers 5, the optimised one 261. -/
theorem extended_push_pop_wrong : ¬PreservesBehaviour badBlock := by
  intro h
  have hb : optimizeBasicBlock badBlock = some [(55, 1), (189, 5)] := by decide +kernel
  have := h Nat Unit Unit ⟨fun _ _ => .stop (), fun i _ => i.args.headD 0⟩ _ hb
    ⟨[], fun _ => 0, fun _ => 0, fun _ _ => 0, ()⟩
  have e1 : decode 0 badBlock = [⟨.pushInteger, [300]⟩, ⟨.popStackTop, []⟩, ⟨.pushInteger, [5]⟩,
    ⟨.returnContextStackTop, []⟩] := by decide +kernel
  have e2 : decode 0 [(55, 1), (189, 5)] = [⟨.pushInteger, [261]⟩, ⟨.returnContextStackTop, []⟩] := by
    decide +kernel
  rw [e1, e2] at this
  simp [exec, step] at this

end Verif.Bytecode
