import Verif.Compiler.Lemmas

/-!
# What the source means is what the code does

By induction on the evaluation.
-/
namespace Verif.Compiler

variable {S V : Type} [DecidableEq V] {w : World S V} {code : Code}

/-! ## What the code generator relies on -/

/-- libgst/builtins.gperf: `+ - <= >= new:` take one argument; and `true` is not `false`. -/
structure World.Std (w : World S V) : Prop where
  tf : w.tt ≠ w.ff
  plus : w.arity plusSpecial = 1
  minus : w.arity minusSpecial = 1
  le : w.arity lessEqualSpecial = 1
  ge : w.arity greaterEqualSpecial = 1
  new : w.arity newColonSpecial = 1

/-- comp.c l.1050-1054, 1963: the distance of the scope has a byte. -/
def Var.Ok : Var → Prop
  | .outer _ d => d < 256
  | _ => True

/-- comp.c l.1941-1949: `self`, `true`, `nil` and the like cannot be assigned. -/
def Var.Assignable : Var → Prop
  | .self => False
  | .special _ => False
  | .outer _ d => d < 256
  | _ => True

/-- comp.c l.1427: the number of arguments has a byte; that of a builtin selector is the one of the table. -/
def Sel.Ok (w : World S V) (k : Nat) : Sel → Prop
  | .lit _ => k < 256
  | .builtin c => w.arity c = k

mutual
/-- Every scope distance and number of arguments has a byte, loops take less than sixteen megabytes, and the
body of a `timesRepeat:` or `to:do:` has none of the sizes for which the jumps are computed wrongly. -/
def Expr.Ok (w : World S V) (ib : Bool) : Expr → Prop
  | .var _ v => v.Ok
  | .const _ _ => True
  | .block _ _ _ => True
  | .send r as sel => r.Ok w ib ∧ as.Ok w ib ∧ sel.Ok w as.length
  | .sendSuper r as _ sel => r.Ok w ib ∧ as.Ok w ib ∧ sel.Ok w as.length
  | .cascade r _ as sel ms => r.Ok w ib ∧ as.Ok w ib ∧ sel.Ok w as.length ∧ ms.Ok w ib
  | .assign e vs => e.Ok w ib ∧ ∀ v ∈ vs, v.Assignable
  | .array _ _ as => as.Ok w ib
  | .whileUnary _ c => c.Ok w ib ∧ size (gBody ib c) + 30 ≤ 2 ^ 24
  | .whileKw _ c b => c.Ok w ib ∧ b.Ok w ib ∧ size (gBody ib c) + size (gBody ib b) + 30 ≤ 2 ^ 24
  | .repeat_ b => b.Ok w ib ∧ size (gBody ib b) + 30 ≤ 2 ^ 24
  | .times n b => n.Ok w ib ∧ b.Ok w ib ∧ size (gBody ib b) + 30 ≤ 2 ^ 24 ∧
      size (gBody ib b) ≠ 240 ∧ size (gBody ib b) ≠ 246 ∧ size (gBody ib b) ≠ 65516 ∧ size (gBody ib b) ≠ 65524
  | .toDo frm lim step slot b => frm.Ok w ib ∧ lim.Ok w ib ∧ b.Ok w ib ∧ slot < 256 ∧
      size (gStep step) + size (gBody ib b) + 30 ≤ 2 ^ 24 ∧
      size (gStep step) + size (gBody ib b) ≠ 240 ∧ size (gStep step) + size (gBody ib b) ≠ 242 ∧
      size (gStep step) + size (gBody ib b) ≠ 65516 ∧ size (gStep step) + size (gBody ib b) ≠ 65520
  | .ifTF c t f => c.Ok w ib ∧ t.Ok w ib ∧ f.Ok w ib
  | .ifOne _ c b => c.Ok w ib ∧ b.Ok w ib
  | .andOr _ c b => c.Ok w ib ∧ b.Ok w ib

def Body.Ok (w : World S V) (ib : Bool) : Body → Prop
  | .empty => True
  | .last e => e.Ok w ib
  | .ret e => e.Ok w ib
  | .cons e b => e.Ok w ib ∧ b.Ok w ib

def Args.Ok (w : World S V) (ib : Bool) : Args → Prop
  | .nil => True
  | .cons e as => e.Ok w ib ∧ as.Ok w ib

def Msgs.Ok (w : World S V) (ib : Bool) : Msgs → Prop
  | .one _ as sel => as.Ok w ib ∧ sel.Ok w as.length
  | .cons _ as sel ms => as.Ok w ib ∧ sel.Ok w as.length ∧ ms.Ok w ib
end

/-! ## The code of a job -/

def jobCode (ib : Bool) : Job V → Code
  | .expr e => gExpr ib e
  | .body b => gBody ib b
  | .args as => gArgs ib as
  | .store _ vs => gStores vs
  | .elts _ i as => gElts ib i as
  | .msgs _ _ ms => gMsgs ib ms
  | .while_ pol c none => gWhile pol (gBody ib c) []
  | .while_ pol c (some b) => gWhile pol (gBody ib c) (gBody ib b ++ emit .pop 0)
  | .repeat_ b => gRepeat (gBody ib b)
  | .times _ b => gTimes (gBody ib b)
  | .to _ _ step slot b => gTo (stepNeg step) slot (gStep step) (gBody ib b)

/-- What is on the stack when the job starts, top first. -/
def jobIn : Job V → List V
  | .store v _ => [v]
  | .elts a _ _ => [a]
  | .msgs a r _ => [a, r]
  | .times k _ => [k]
  | .to lim i _ _ _ => [i, lim, lim]
  | _ => []

def jobOk (w : World S V) (ib : Bool) : Job V → Prop
  | .expr e => e.Ok w ib
  | .body b => b.Ok w ib
  | .args as => as.Ok w ib
  | .store _ vs => ∀ v ∈ vs, v.Assignable
  | .elts _ _ as => as.Ok w ib
  | .msgs _ _ ms => ms.Ok w ib
  | .while_ pol c none => (Expr.whileUnary pol c).Ok w ib
  | .while_ pol c (some b) => (Expr.whileKw pol c b).Ok w ib
  | .repeat_ b => (Expr.repeat_ b).Ok w ib
  | .times _ b => (Expr.times (.var none .self) b).Ok w ib
  | .to _ _ step slot b => (Expr.toDo (.var none .self) (.var none .self) step slot b).Ok w ib

/-- How a return ends the context: from a block it leaves the method, from a method it is an ordinary
return. -/
def retResult (ib : Bool) (v : V) (s : S) : Result S V := if ib then .method v s else .context v s

/-- The end of the context follows from the outcome: it returned, or it goes on at `pc` with the values on
the stack. -/
def Reach (w : World S V) (code : Code) (ib : Bool) (pc : Nat) (stk : List V) (o : Out S V) (r : Result S V) : Prop :=
  match o with
  | .val vs s => Halts w code ⟨pc, 0, vs.reverse ++ stk, s⟩ r
  | .ret v s => r = retResult ib v s

theorem args_length : ∀ {as : Args} {s : S} {vs : List V} {s' : S}, Ev w (.args as) s (.val vs s') →
    vs.length = as.length
  | .nil, _, _, _, h => by cases h; rfl
  | .cons _ _, _, _, _, h => by
    cases h with
    | argsCons he ha => simp [Args.length, args_length ha]

/-! ## Pieces of code -/

theorem Goes.to_pc {d p q : Nat} {c : Cfg S V} {stk : List V} {s : S} (h : Goes w code d c ⟨p, 0, stk, s⟩) (e : p = q) :
    Goes w code d c ⟨q, 0, stk, s⟩ := e ▸ h

theorem At.to_pc {p q : Nat} {c : Code} (h : At code p c) (e : p = q) : At code q c := e ▸ h

theorem line_goes {ln : Option Nat} {pc : Nat} {stk : List V} {s : S} (h : At code pc (gLine ln)) :
    Goes w code 0 ⟨pc, 0, stk, s⟩ ⟨pc + (gLine ln).length, 0, stk, s⟩ := by
  cases ln with
  | none => exact Goes.refl _
  | some n => exact (emit_goes (by simp) h rfl).weaken (by omega)

theorem const_goes {c : Const} {pc : Nat} {stk : List V} {s : S} (h : At code pc (gConst c)) :
    Goes w code 1 ⟨pc, 0, stk, s⟩ ⟨pc + (gConst c).length, 0, w.const c :: stk, s⟩ := by
  cases c with
  | int n => exact emit_goes (by simp) h rfl
  | lit n => exact emit_goes (by simp) h rfl

theorem step_goes {st : Option (Option Nat × Const × Bool)} {pc : Nat} {stk : List V} {s : S}
    (h : At code pc (gStep st)) :
    Goes w code 1 ⟨pc, 0, stk, s⟩ ⟨pc + (gStep st).length, 0, w.step st :: stk, s⟩ := by
  cases st with
  | none => exact emit_goes (by simp) h rfl
  | some x =>
    obtain ⟨ln, c, neg⟩ := x
    exact ((line_goes h.left).trans (const_goes h.right)).to_pc (by simp [gStep, Nat.add_assoc])

/-- A variable that does not send messages. -/
theorem var_goes {v : Var} {a : V} {pc : Nat} {stk : List V} {s : S} (h : At code pc (gVar v)) (hv : v.Ok)
    (ha : match v with
      | .self => a = w.self
      | .special n => a = w.special n
      | .global _ => False
      | v => a = w.get s v) :
    Goes w code 1 ⟨pc, 0, stk, s⟩ ⟨pc + (gVar v).length, 0, a :: stk, s⟩ := by
  cases v with
  | self => subst ha; exact emit_goes (by simp) h rfl
  | special n => subst ha; exact emit_goes (by simp) h rfl
  | temp n => subst ha; exact emit_goes (by simp) h rfl
  | ivar n => subst ha; exact emit_goes (by simp) h rfl
  | global n => exact ha.elim
  | outer n d =>
    have hd : d < 256 := hv
    subst ha
    simp only [gVar] at h ⊢
    refine emit_goes (by simp) h ?_
    simp only [effect]
    rw [show (n * 256 + d) / 256 = n by omega, show (n * 256 + d) % 256 = d by omega]

theorem global_goes {n : Nat} {a : V} {pc : Nat} {stk : List V} {s s' : S} (h : At code pc (emit .pushLitVar n))
    (ha : w.getGlobal s n = some (a, s')) :
    Goes w code 1 ⟨pc, 0, stk, s⟩ ⟨pc + (emit .pushLitVar n).length, 0, a :: stk, s'⟩ :=
  emit_goes (by simp) h (by simp [effect, pushOf, ha])

theorem doSend_eq (f : S → V → List V → Option (V × S)) (vs : List V) (v : V) (pc : Nat) (stk : List V) (s : S) :
    doSend f vs.length pc (vs.reverse ++ v :: stk) s = match f s v vs with
      | some (a, s') => .next ⟨pc, 0, a :: stk, s'⟩
      | none => .gone := by
  have e1 : (vs.reverse ++ v :: stk).drop vs.length = v :: stk := by
    rw [List.drop_append_of_le_length (by simp)]
    simp
  have e2 : (vs.reverse ++ v :: stk).take vs.length = vs.reverse := by
    rw [List.take_append_of_le_length (by simp)]
    exact List.take_of_length_le (by simp)
  simp only [doSend, e1, e2, List.reverse_reverse]
  rfl

/-- The instruction of a send and its operand. -/
theorem gSend_emit (sel : Sel) (k : Nat) : ∃ op n, gSend sel k = emit op n ∧ op ≠ .ext ∧
    (sel.Ok w k → ∀ pc stk s, effect w op n pc stk s = doSend (fun s => w.send s sel) k pc stk s) := by
  cases sel with
  | lit m =>
    refine ⟨.send, m * 256 + k, rfl, by simp, fun ok pc stk s => ?_⟩
    have ok' : k < 256 := ok
    simp only [effect]
    rw [show (m * 256 + k) / 256 = m by omega, show (m * 256 + k) % 256 = k by omega]
  | builtin c =>
    by_cases hc : c < 32
    · refine ⟨.special c, 0, by simp [gSend, hc], by simp, fun ok pc stk s => ?_⟩
      have ok' : w.arity c = k := ok
      simp only [effect, ok']
    · refine ⟨.sendImm, c, by simp [gSend, hc], by simp, fun ok pc stk s => ?_⟩
      have ok' : w.arity c = k := ok
      simp only [effect, ok']

theorem gSendSuper_emit (cls : Nat) (sel : Sel) (k : Nat) : ∃ op n, gSendSuper cls sel k = emit .pushLit cls ++ emit op n ∧
    op ≠ .ext ∧ (sel.Ok w k → ∀ pc c stk s, effect w op n pc (c :: stk) s
      = doSend (fun s => w.sendSuper s sel c) k pc stk s) := by
  cases sel with
  | lit m =>
    refine ⟨.sendSuper, m * 256 + k, rfl, by simp, fun ok pc c stk s => ?_⟩
    have ok' : k < 256 := ok
    simp only [effect]
    rw [show (m * 256 + k) / 256 = m by omega, show (m * 256 + k) % 256 = k by omega]
  | builtin c =>
    refine ⟨.sendImmSuper, c, rfl, by simp, fun ok pc cl stk s => ?_⟩
    have ok' : w.arity c = k := ok
    simp only [effect, ok']

theorem send_goes {sel : Sel} {k pc : Nat} {vs stk : List V} {v a : V} {s s' : S}
    (h : At code pc (gSend sel k)) (hk : vs.length = k) (ok : sel.Ok w k) (hs : w.send s sel v vs = some (a, s')) :
    Goes w code 1 ⟨pc, 0, vs.reverse ++ v :: stk, s⟩ ⟨pc + (gSend sel k).length, 0, a :: stk, s'⟩ := by
  subst hk
  obtain ⟨op, n, e, hop, he⟩ := gSend_emit (w := w) sel vs.length
  rw [e] at h ⊢
  exact emit_goes hop h (by rw [he ok, doSend_eq]; simp [hs])

theorem special_goes {c pc : Nat} {i k a : V} {stk : List V} {s s' : S} (ha : w.arity c = 1)
    (h : At code pc (emit (.special c) 0)) (hs : w.send s (.builtin c) k [i] = some (a, s')) :
    Goes w code 1 ⟨pc, 0, i :: k :: stk, s⟩ ⟨pc + (emit (.special c) 0).length, 0, a :: stk, s'⟩ := by
  refine emit_goes (by simp) h ?_
  simp only [effect, ha]
  have := doSend_eq (fun s => w.send s (.builtin c)) [i] k (pc + (emit (.special c) 0).length) stk s
  simp only [hs] at this
  exact this

/-- The comparison of a `to:do:`. -/
theorem cmp_goes (hw : w.Std) {st : Option (Option Nat × Const × Bool)} {pc : Nat} {i k a : V} {stk : List V} {s s' : S}
    (h : At code pc (emit (.special (if stepNeg st then lessEqualSpecial else greaterEqualSpecial)) 0))
    (hs : w.send s (goOnSel st) k [i] = some (a, s')) :
    Goes w code 1 ⟨pc, 0, i :: k :: stk, s⟩
      ⟨pc + (emit (.special (if stepNeg st then lessEqualSpecial else greaterEqualSpecial)) 0).length, 0, a :: stk, s'⟩ := by
  cases st with
  | none => exact special_goes hw.ge h hs
  | some x =>
    obtain ⟨ln, c, neg⟩ := x
    cases neg
    · exact special_goes hw.ge h hs
    · exact special_goes hw.le h hs

theorem superSend_goes {sel : Sel} {k pc cls : Nat} {vs stk : List V} {v a : V} {s s' : S}
    (h : At code pc (gSendSuper cls sel k)) (hk : vs.length = k) (ok : sel.Ok w k)
    (hs : w.sendSuper s sel (w.lit cls) v vs = some (a, s')) :
    Goes w code 1 ⟨pc, 0, vs.reverse ++ v :: stk, s⟩
      ⟨pc + (emit .pushLit cls).length, 0, w.lit cls :: (vs.reverse ++ v :: stk), s⟩ ∧
    Goes w code 1 ⟨pc + (emit .pushLit cls).length, 0, w.lit cls :: (vs.reverse ++ v :: stk), s⟩
      ⟨pc + (gSendSuper cls sel k).length, 0, a :: stk, s'⟩ := by
  subst hk
  obtain ⟨op, n, e, hop, he⟩ := gSendSuper_emit (w := w) cls sel vs.length
  rw [e] at h ⊢
  refine ⟨emit_goes (by simp) h.left rfl, ?_⟩
  have g2 : Goes w code 1 ⟨pc + (emit .pushLit cls).length, 0, w.lit cls :: (vs.reverse ++ v :: stk), s⟩
      ⟨pc + (emit .pushLit cls).length + (emit op n).length, 0, a :: stk, s'⟩ :=
    emit_goes hop h.right (by rw [he ok, doSend_eq]; simp [hs])
  exact g2.to_pc (by simp [Nat.add_assoc])

/-- A conditional jump that jumps. -/
theorem popJump_taken {j : Bool} {n pc : Nat} {stk : List V} {s : S}
    (h : At code pc (gPopJump j n)) (hn : n % 2 = 0) :
    Goes w code 1 ⟨pc, 0, w.bool j :: stk, s⟩ ⟨pc + (gPopJump j n).length + n / 2, 0, stk, s⟩ := by
  have hn' : ¬ n % 2 = 1 := by omega
  cases j
  · exact emit_goes (op := .popJumpFalse) (by simp) h (by simp [gPopJump, effect, popJump, World.bool, hn'])
  · exact emit_goes (op := .popJumpTrue) (by simp) h (by simp [gPopJump, effect, popJump, World.bool, hn'])

/-- A conditional jump that does not jump. -/
theorem popJump_passed (htf : w.tt ≠ w.ff) {j : Bool} {n pc : Nat} {stk : List V} {s : S}
    (h : At code pc (gPopJump j n)) (hn : n % 2 = 0) :
    Goes w code 1 ⟨pc, 0, w.bool (!j) :: stk, s⟩ ⟨pc + (gPopJump j n).length, 0, stk, s⟩ := by
  have hn' : ¬ n % 2 = 1 := by omega
  have hft : w.ff ≠ w.tt := fun h => htf h.symm
  cases j
  · exact emit_goes (op := .popJumpFalse) (by simp) h (by simp [gPopJump, effect, popJump, World.bool, hn', htf])
  · exact emit_goes (op := .popJumpTrue) (by simp) h (by simp [gPopJump, effect, popJump, World.bool, hn', hft])

theorem jump_goes {n pc : Nat} {stk : List V} {s : S} (h : At code pc (emit .jump n)) (hn : n % 2 = 0) :
    Goes w code 1 ⟨pc, 0, stk, s⟩ ⟨pc + (emit .jump n).length + n / 2, 0, stk, s⟩ := by
  have hn' : ¬ n % 2 = 1 := by omega
  exact emit_goes (by simp) h (by simp [effect, hn'])

theorem jumpBack_goes {n pc : Nat} {stk : List V} {s : S} (h : At code pc (emit .jumpBack n))
    (hn : n % 2 = 0) (hp : n / 2 ≤ pc + (emit .jumpBack n).length) :
    Goes w code 1 ⟨pc, 0, stk, s⟩ ⟨pc + (emit .jumpBack n).length - n / 2, 0, stk, s⟩ := by
  have hn' : ¬ (n % 2 = 1 ∨ pc + (emit .jumpBack n).length < n / 2) := by omega
  exact emit_goes (by simp) h (by simp only [effect, hn', if_false])

theorem pop_goes {pc : Nat} {v : V} {stk : List V} {s : S} (h : At code pc (emit .pop 0)) :
    Goes w code 1 ⟨pc, 0, v :: stk, s⟩ ⟨pc + (emit .pop 0).length, 0, stk, s⟩ := emit_goes (by simp) h rfl

theorem dup_goes {pc : Nat} {v : V} {stk : List V} {s : S} (h : At code pc (emit .dup 0)) :
    Goes w code 1 ⟨pc, 0, v :: stk, s⟩ ⟨pc + (emit .dup 0).length, 0, v :: v :: stk, s⟩ := emit_goes (by simp) h rfl

theorem pushInt_goes {n pc : Nat} {stk : List V} {s : S} (h : At code pc (emit .pushInt n)) :
    Goes w code 1 ⟨pc, 0, stk, s⟩ ⟨pc + (emit .pushInt n).length, 0, w.int n :: stk, s⟩ := emit_goes (by simp) h rfl

theorem pushTemp_goes {n pc : Nat} {stk : List V} {s : S} (h : At code pc (emit .pushTemp n)) :
    Goes w code 1 ⟨pc, 0, stk, s⟩ ⟨pc + (emit .pushTemp n).length, 0, w.get s (.temp n) :: stk, s⟩ :=
  emit_goes (by simp) h rfl

theorem storeTemp_goes {n pc : Nat} {v : V} {stk : List V} {s : S} (h : At code pc (emit .storeTemp n)) :
    Goes w code 1 ⟨pc, 0, v :: stk, s⟩ ⟨pc + (emit .storeTemp n).length, 0, v :: stk, w.put s (.temp n) v⟩ :=
  emit_goes (by simp) h rfl

theorem pushNil_goes {pc : Nat} {stk : List V} {s : S} (h : At code pc (emit .pushSpecial nilIndex)) :
    Goes w code 1 ⟨pc, 0, stk, s⟩ ⟨pc + (emit .pushSpecial nilIndex).length, 0, w.special nilIndex :: stk, s⟩ :=
  emit_goes (by simp) h rfl

theorem ret_halts {ib : Bool} {pc : Nat} {v : V} {stk : List V} {s : S}
    (h : At code pc (emit (if ib then .retMethod else .retContext) 0)) :
    Halts w code ⟨pc, 0, v :: stk, s⟩ (retResult ib v s) := by
  cases ib
  · exact emit_halt (op := .retContext) (by simp) h rfl
  · exact emit_halt (op := .retMethod) (by simp) h rfl

/-- One variable is assigned. -/
theorem store_goes {x : Var} {v : V} {pc : Nat} {stk : List V} {s : S} (h : At code pc (gStore x))
    (hx : x.Assignable) (hg : ∀ n, x ≠ .global n) :
    Goes w code 1 ⟨pc, 0, v :: stk, s⟩ ⟨pc + (gStore x).length, 0, v :: stk, w.put s x v⟩ := by
  cases x with
  | self => exact hx.elim
  | special n => exact hx.elim
  | global n => exact absurd rfl (hg n)
  | temp n => exact storeTemp_goes h
  | ivar n => exact emit_goes (by simp) h rfl
  | outer n d =>
    have hd : d < 256 := hx
    simp only [gStore] at h ⊢
    refine emit_goes (by simp) h ?_
    simp only [effect]
    rw [show (n * 256 + d) / 256 = n by omega, show (n * 256 + d) % 256 = d by omega]

/-! ## Layout of the loops -/

theorem size_even (c : Code) : size c % 2 = 0 := by simp [size]

theorem size_half (c : Code) : size c / 2 = c.length := by simp [size]

theorem lenGe_even (n : Nat) : lenGe n % 2 = 0 := by rcases lenGe_cases n with h | h | h <;> omega

/-- The pieces of a while loop: the conditional jump takes one pair, the two others as many as computed. -/
theorem while_layout (c b : Code) (h : size c + size b + 28 ≤ 2 ^ 24) :
    ∃ j f, jumpLens lenGe (size c + 2 + size b) (size b) 8 0 0 = (2 * j, 2 * f) ∧
    (∀ pol, (gPopJump pol (2 * j)).length = 1) ∧ (emit .jump (size b + 2 * f)).length = j ∧
    (emit .jumpBack (size c + 2 + 2 * j + size b + 2 * f)).length = f := by
  obtain ⟨h1, h2⟩ := jumpLens_ge (size c + 2 + size b) (size b)
  generalize e : jumpLens lenGe (size c + 2 + size b) (size b) 8 0 0 = l at *
  obtain ⟨a, b'⟩ := l
  simp only at h1 h2
  have c1 := lenGe_cases (size b + b')
  have c2 := lenGe_cases (size c + 2 + size b + a + b')
  rw [← h1] at c1
  rw [← h2] at c2
  simp only [Nat.reducePow] at h
  have e1 := size_emit .jump (size b + b') (by simp only [Nat.reducePow]; omega)
  have e2 := size_emit .jumpBack (size c + 2 + size b + a + b') (by simp only [Nat.reducePow]; omega)
  rw [← h1] at e1
  rw [← h2] at e2
  have ea : a = 2 * (emit .jump (size b + b')).length := e1.symm
  have eb : b' = 2 * (emit .jumpBack (size c + 2 + size b + a + b')).length := e2.symm
  refine ⟨(emit .jump (size b + b')).length, (emit .jumpBack (size c + 2 + size b + a + b')).length, ?_,
    fun pol => emit_small _ _ (by omega), ?_, ?_⟩
  · rw [← ea, ← eb]
  · rw [← eb]
  · rw [← ea, ← eb, show size c + 2 + a + size b + b' = size c + 2 + size b + a + b' by omega]

theorem while_pieces {pol : Bool} {c b : Code} {pc : Nat} (htf : w.tt ≠ w.ff) (h : At code pc (gWhile pol c b))
    (hs : size c + size b + 28 ≤ 2 ^ 24) :
    At code pc c ∧ At code (pc + c.length) (gPopJump pol (jumpLens lenGe (size c + 2 + size b) (size b) 8 0 0).1) ∧
    ∃ pB, At code pB b ∧
    (∀ stk s, Goes w code 1 ⟨pc + c.length, 0, w.bool pol :: stk, s⟩ ⟨pB, 0, stk, s⟩) ∧
    (∀ stk s, Goes w code 1 ⟨pc + c.length, 0, w.bool (!pol) :: stk, s⟩ ⟨pc + (gWhile pol c b).length, 0, stk, s⟩) ∧
    (∀ stk s, Goes w code 1 ⟨pB + b.length, 0, stk, s⟩ ⟨pc, 0, stk, s⟩) := by
  obtain ⟨j, f, e, hp, hj, hf⟩ := while_layout c b hs
  simp only [gWhile, e] at h ⊢
  have hc := h.left.left.left.left
  have hP := h.left.left.left.right
  have hJ := h.left.left.right
  have hB := h.left.right
  have hBack := h.right
  simp only [List.length_append, hp, hj, hf, ← Nat.add_assoc] at hP hJ hB hBack ⊢
  refine ⟨hc, hP, _, hB, fun stk s => ?_, fun stk s => ?_, fun stk s => ?_⟩
  · refine (popJump_taken hP (by omega)).to_pc ?_
    rw [hp]; omega
  · have g := popJump_passed htf (stk := stk) (s := s) hP (by omega)
    rw [hp] at g
    have g2 := jump_goes (w := w) (stk := stk) (s := s) hJ (by have := size_even b; omega)
    refine ((g.trans g2).weaken (by omega)).to_pc ?_
    have := size_half b
    rw [hj]; omega
  · refine (jumpBack_goes hBack ?_ ?_).to_pc ?_
    · have := size_even b; have := size_even c; omega
    · rw [hf]; simp only [size]; omega
    · rw [hf]; simp only [size]; omega

/-- The pieces of a `repeat`. -/
theorem repeat_pieces {b : Code} {pc : Nat} (h : At code pc (gRepeat b)) (hs : size b + 28 ≤ 2 ^ 24) :
    At code pc b ∧ ∀ v stk s, Goes w code 1 ⟨pc + b.length, 0, v :: stk, s⟩ ⟨pc, 0, stk, s⟩ := by
  simp only [gRepeat] at h
  have hb := h.left.left
  have hp := h.left.right
  have hj := h.right
  have st := lenGe_stable (size b + 2) 0 (by omega)
  rw [Nat.add_zero] at st
  generalize hf : lenGe (size b + 2 + lenGe (size b + 2 + lenGe (size b + 2))) = f at *
  have hf2 : lenGe (f + (size b + 2)) = f := by rw [Nat.add_comm, st, ← st]; rw [← st] at hf; exact hf
  have c1 := lenGe_cases (f + (size b + 2))
  rw [hf2] at c1
  simp only [Nat.reducePow] at hs
  have e2 := size_emit .jumpBack (f + (size b + 2)) (by simp only [Nat.reducePow]; omega)
  rw [hf2] at e2
  refine ⟨hb, fun v stk s => ?_⟩
  have g1 := pop_goes (w := w) (v := v) (stk := stk) (s := s) hp
  rw [List.length_append] at hj
  have hp1 : (emit Op.pop 0).length = 1 := emit_small _ _ (by omega)
  have g2 := jumpBack_goes (w := w) (stk := stk) (s := s) hj (by have := size_even b; omega)
    (by simp only [size] at *; omega)
  rw [← Nat.add_assoc] at g2
  refine ((g1.trans g2).weaken (by omega)).to_pc ?_
  simp only [size] at *
  omega

/-- The pieces of a `timesRepeat:`. -/
theorem times_pieces {b : Code} {pc : Nat} (h : At code pc (gTimes b)) (hs : size b + 30 ≤ 2 ^ 24)
    (hx : size b ≠ 240 ∧ size b ≠ 246 ∧ size b ≠ 65516 ∧ size b ≠ 65524) :
    ∃ pQ n, n % 2 = 0 ∧ At code pQ (emit (.special greaterEqualSpecial) 0) ∧
    At code (pQ + 1) (gPopJump false n) ∧ pQ + 1 + (gPopJump false n).length + n / 2 + 1 = pc + (gTimes b).length ∧
    At code (pQ + 1 + (gPopJump false n).length + n / 2) (emit .pop 0) ∧
    At code (pQ + 1 + (gPopJump false n).length) (emit .pushInt 1) ∧
    At code (pQ + 1 + (gPopJump false n).length + 1) (emit (.special minusSpecial) 0) ∧
    At code (pQ + 1 + (gPopJump false n).length + 1 + 1) b ∧
    (∀ k stk s, Goes w code 0 ⟨pc, 0, k :: stk, s⟩ ⟨pQ, 0, w.int 1 :: k :: k :: stk, s⟩) ∧
    (∀ v stk s, Goes w code 1 ⟨pQ + 1 + (gPopJump false n).length + 1 + 1 + b.length, 0, v :: stk, s⟩ ⟨pc, 0, stk, s⟩) := by
  obtain ⟨h1, h2⟩ := jumpLens_times (size b) (size_even b) hx
  simp only [gTimes] at h ⊢
  generalize (jumpLens lenGt (6 + (6 + size b)) (6 + size b) 8 0 0) = l at *
  obtain ⟨j, f⟩ := l
  simp only at h1 h2 h ⊢
  have c1 := lenGe_cases (6 + size b + f)
  have c2 := lenGe_cases (f + (6 + j + (6 + size b)))
  rw [← h1] at c1
  rw [← h2] at c2
  simp only [Nat.reducePow] at hs
  have e1 : (gPopJump false (6 + size b + f)).length * 2 = j := by
    rw [h1, Nat.mul_comm]
    exact size_emit _ _ (by simp only [Nat.reducePow]; omega)
  have e2 : (emit .jumpBack (f + (6 + j + (6 + size b)))).length * 2 = f := by
    rw [Nat.mul_comm]
    exact (size_emit .jumpBack _ (by simp only [Nat.reducePow]; omega)).trans h2.symm
  have s1 : ∀ op, (emit op 0).length = 1 := fun op => emit_small _ _ (by omega)
  have s2 : ∀ op, (emit op 1).length = 1 := fun op => emit_small _ _ (by omega)
  have hPop := h.right
  have hBack := h.left.right
  have hpop := h.left.left.right
  have hb := h.left.left.left.right
  have hm := h.left.left.left.left.right
  have h1' := h.left.left.left.left.left.right
  have hpj := h.left.left.left.left.left.left.right
  have hge := h.left.left.left.left.left.left.left.right
  have hp1 := h.left.left.left.left.left.left.left.left.right
  have hd := h.left.left.left.left.left.left.left.left.left
  simp only [List.length_append, s1, s2, ← Nat.add_assoc] at hPop hBack hpop hb hm h1' hpj hge hp1 ⊢
  generalize hq : (gPopJump false (6 + size b + f)).length = q at *
  generalize hr : (emit .jumpBack (f + (6 + j + (6 + size b)))).length = r at *
  have hr' : (emit Op.jumpBack (f + 6 + j + 6 + size b)).length = r := by
    rw [← hr]; congr 2; omega
  simp only [hr'] at hPop ⊢
  refine ⟨pc + 1 + 1, 6 + size b + f, by have := size_even b; omega, hge, hpj, ?_, ?_, hq ▸ h1', ?_, ?_, ?_, ?_⟩
  · rw [hq]; simp only [size]; omega
  · rw [hq]; refine hPop.to_pc ?_; simp only [size]; omega
  · rw [hq]; exact hm
  · rw [hq]; exact hb
  · intro k stk s
    have g1 := dup_goes (w := w) (v := k) (stk := stk) (s := s) hd
    rw [s1] at g1
    have g2 := pushInt_goes (w := w) (stk := k :: k :: stk) (s := s) hp1
    rw [s2] at g2
    exact (g1.trans g2).weaken (by omega)
  · intro v stk s
    have g1 := pop_goes (w := w) (v := v) (stk := stk) (s := s) hpop
    rw [s1] at g1
    have g2 := jumpBack_goes (w := w) (stk := stk) (s := s) hBack (by have := size_even b; omega)
      (by rw [hr']; simp only [size] at *; omega)
    rw [hr'] at g2
    rw [hq]
    refine ((g1.trans g2).weaken (by omega)).to_pc ?_
    simp only [size] at *; omega

/-- The pieces of a `to:do:`. -/
theorem to_pieces {neg : Bool} {slot : Nat} {st b : Code} {pc : Nat} (h : At code pc (gTo neg slot st b))
    (hslot : slot < 256) (hs : size st + size b + 30 ≤ 2 ^ 24)
    (hx : size st + size b ≠ 240 ∧ size st + size b ≠ 242 ∧ size st + size b ≠ 65516 ∧ size st + size b ≠ 65520) :
    ∃ n, n % 2 = 0 ∧ At code pc (emit (.special (if neg then lessEqualSpecial else greaterEqualSpecial)) 0) ∧
    At code (pc + 1) (gPopJump false n) ∧ pc + 1 + (gPopJump false n).length + n / 2 + 1 = pc + (gTo neg slot st b).length ∧
    At code (pc + 1 + (gPopJump false n).length + n / 2) (emit .pop 0) ∧
    At code (pc + 1 + (gPopJump false n).length) b ∧
    At code (pc + 1 + (gPopJump false n).length + b.length + 1 + 1 + 1) st ∧
    At code (pc + 1 + (gPopJump false n).length + b.length + 1 + 1 + 1 + st.length) (emit (.special plusSpecial) 0) ∧
    (∀ v lim stk s, Goes w code 0 ⟨pc + 1 + (gPopJump false n).length + b.length, 0, v :: lim :: stk, s⟩
      ⟨pc + 1 + (gPopJump false n).length + b.length + 1 + 1 + 1, 0, w.get s (.temp slot) :: lim :: lim :: stk, s⟩) ∧
    (∀ i stk s, Goes w code 1 ⟨pc + 1 + (gPopJump false n).length + b.length + 1 + 1 + 1 + st.length + 1, 0, i :: stk, s⟩
      ⟨pc, 0, i :: stk, w.put s (.temp slot) i⟩) := by
  obtain ⟨h1, h2⟩ := jumpLens_to (size st + size b) (by have := size_even b; have := size_even st; omega) hx
  simp only [gTo] at h ⊢
  rw [← Nat.add_assoc] at h ⊢
  generalize (jumpLens lenGt (size st + size b + 10 + 2) (size st + size b + 10) 8 0 0) = l at *
  obtain ⟨j, f⟩ := l
  simp only at h1 h2 h ⊢
  have c1 := lenGe_cases (size st + size b + 10 + f)
  have c2 := lenGe_cases (size st + size b + 10 + j + 2 + f)
  rw [← h1] at c1
  rw [← h2] at c2
  simp only [Nat.reducePow] at hs
  have e1 : (gPopJump false (size st + size b + 10 + f)).length * 2 = j := by
    rw [h1, Nat.mul_comm]
    exact size_emit _ _ (by simp only [Nat.reducePow]; omega)
  have e2 : (emit .jumpBack (size st + size b + 10 + j + 2 + f)).length * 2 = f := by
    rw [Nat.mul_comm]
    exact (size_emit .jumpBack _ (by simp only [Nat.reducePow]; omega)).trans h2.symm
  have s1 : ∀ op, (emit op 0).length = 1 := fun op => emit_small _ _ (by omega)
  have s2 : ∀ op, (emit op slot).length = 1 := fun op => emit_small _ _ hslot
  have hPop := h.right
  have hBack := h.left.right
  have hst := h.left.left.right
  have hplus := h.left.left.left.right
  have hstep := h.left.left.left.left.right
  have hpt := h.left.left.left.left.left.right
  have hdup := h.left.left.left.left.left.left.right
  have hpop := h.left.left.left.left.left.left.left.right
  have hb := h.left.left.left.left.left.left.left.left.right
  have hpj := h.left.left.left.left.left.left.left.left.left.right
  have hc := h.left.left.left.left.left.left.left.left.left.left
  simp only [List.length_append, s1, s2, ← Nat.add_assoc] at hPop hBack hst hplus hstep hpt hdup hpop hb hpj ⊢
  generalize hq : (gPopJump false (size st + size b + 10 + f)).length = q at *
  generalize hr : (emit .jumpBack (size st + size b + 10 + j + 2 + f)).length = r at *
  refine ⟨size st + size b + 10 + f, by have := size_even b; have := size_even st; omega, hc, hpj, ?_, ?_, hq ▸ hb, ?_, ?_,
    ?_, ?_⟩
  · rw [hq]; simp only [size]; omega
  · rw [hq]; refine hPop.to_pc ?_; simp only [size]; omega
  · rw [hq]; exact hstep
  · rw [hq]; exact hplus
  · intro v lim stk s
    rw [hq]
    have g1 := pop_goes (w := w) (v := v) (stk := lim :: stk) (s := s) hpop
    rw [s1] at g1
    have g2 := dup_goes (w := w) (v := lim) (stk := stk) (s := s) hdup
    rw [s1] at g2
    have g3 := pushTemp_goes (w := w) (stk := lim :: lim :: stk) (s := s) hpt
    rw [s2] at g3
    exact ((g1.trans g2).trans g3).weaken (by omega)
  · intro i stk s
    rw [hq]
    have g1 := storeTemp_goes (w := w) (v := i) (stk := stk) (s := s) hst
    rw [s2] at g1
    have g2 := jumpBack_goes (w := w) (stk := i :: stk) (s := w.put s (.temp slot) i) hBack
      (by have := size_even b; have := size_even st; omega) (by rw [hr]; simp only [size] at *; omega)
    rw [hr] at g2
    refine ((g1.trans g2).weaken (by omega)).to_pc ?_
    simp only [size] at *; omega

/-! ## The theorem -/

/-- What is shown of an evaluation. -/
def Fwd (w : World S V) (code : Code) (ib : Bool) (j : Job V) (s : S) (o : Out S V) : Prop :=
  ∀ pc stk r, jobOk w ib j → At code pc (jobCode ib j) → Reach w code ib (pc + (jobCode ib j).length) stk o r →
    Halts w code ⟨pc, 0, jobIn j ++ stk, s⟩ r

theorem Reach.val_pc {ib : Bool} {p q : Nat} {stk vs : List V} {s : S} {r : Result S V}
    (h : Halts w code ⟨p, 0, vs.reverse ++ stk, s⟩ r) (e : p = q) : Reach w code ib q stk (.val vs s) r := e ▸ h

theorem Reach.to_pc {ib : Bool} {p q : Nat} {stk : List V} {o : Out S V} {r : Result S V}
    (h : Reach w code ib p stk o r) (e : p = q) : Reach w code ib q stk o r := e ▸ h

theorem fwd_leaf {ib : Bool} {ln : Option Nat} {c : Code} {d pc : Nat} {stk : List V} {v : V} {s s' : S} {r : Result S V}
    (h : At code pc (gLine ln ++ c))
    (g : ∀ q, At code q c → Goes w code d ⟨q, 0, stk, s⟩ ⟨q + c.length, 0, v :: stk, s'⟩)
    (H : Reach w code ib (pc + (gLine ln ++ c).length) stk (.val [v] s') r) : Halts w code ⟨pc, 0, stk, s⟩ r := by
  refine (line_goes h.left).fwd ((g _ h.right).fwd ?_)
  rw [List.length_append, ← Nat.add_assoc] at H
  exact H

theorem Fwd.val {ib : Bool} {j : Job V} {s s' : S} {vs stk : List V} {pc : Nat} {r : Result S V}
    (h : Fwd w code ib j s (.val vs s')) (ok : jobOk w ib j) (hc : At code pc (jobCode ib j))
    (H : Halts w code ⟨pc + (jobCode ib j).length, 0, vs.reverse ++ stk, s'⟩ r) :
    Halts w code ⟨pc, 0, jobIn j ++ stk, s⟩ r := h pc stk r ok hc H

theorem Fwd.ret {ib : Bool} {j : Job V} {s s' : S} {v : V} {stk : List V} {pc : Nat} {r : Result S V}
    (h : Fwd w code ib j s (.ret v s')) (ok : jobOk w ib j) (hc : At code pc (jobCode ib j))
    (H : r = retResult ib v s') : Halts w code ⟨pc, 0, jobIn j ++ stk, s⟩ r := h pc stk r ok hc H

/-- The send in the middle of an expression: receiver on the stack, then arguments, then the message. -/
theorem fwd_send {ib : Bool} {as : Args} {sel : Sel} {pc : Nat} {stk vs : List V} {v a : V} {s s1 s2 : S} {r : Result S V}
    (ev : Ev w (.args as) s (.val vs s1)) (iha : Fwd w code ib (.args as) s (.val vs s1))
    (oka : as.Ok w ib) (oks : sel.Ok w as.length) (hs : w.send s1 sel v vs = some (a, s2))
    (h : At code pc (gArgs ib as ++ gSend sel as.length))
    (H : Halts w code ⟨pc + (gArgs ib as ++ gSend sel as.length).length, 0, a :: stk, s2⟩ r) :
    Halts w code ⟨pc, 0, v :: stk, s⟩ r := by
  refine iha.val oka h.left ?_
  refine (send_goes h.right (args_length ev) oks hs).fwd ?_
  rw [List.length_append, ← Nat.add_assoc] at H
  exact H

theorem size_thenJump_even (x : Bool) (c : Code) (n : Nat) : size (gThenJump x c n) % 2 = 0 := size_even _

/-- Statements that end with a return have no value. -/
theorem returns_no_val : ∀ {b : Body} {s : S} {vs : List V} {s' : S}, b.returns = true → ¬ Ev w (.body b) s (.val vs s')
  | .empty, _, _, _, h, _ => by simp [Body.returns] at h
  | .last _, _, _, _, h, _ => by simp [Body.returns] at h
  | .ret _, _, _, _, _, h => by cases h
  | .cons _ b, _, _, _, hr, h => by
    cases h with
    | seq he hb => exact returns_no_val (b := b) hr hb

/-- After the first of two branches. -/
theorem fwd_thenJump {ib : Bool} {b : Body} {n pc pE : Nat} {stk : List V} {s : S} {o : Out S V} {r : Result S V}
    (ihb : Fwd w code ib (.body b) s o) (ev : Ev w (.body b) s o) (ok : b.Ok w ib) (hn : n % 2 = 0)
    (h : At code pc (gThenJump b.returns (gBody ib b) n))
    (he : pE = pc + (gThenJump b.returns (gBody ib b) n).length + n / 2)
    (H : Reach w code ib pE stk o r) : Halts w code ⟨pc, 0, stk, s⟩ r := by
  subst he
  simp only [gThenJump] at h H
  split at h
  · rename_i hr
    cases o with
    | val vs s' => exact absurd ev (returns_no_val hr)
    | ret v s' => exact ihb.ret ok h H
  · rename_i hr
    simp only [hr, Bool.false_eq_true, if_false] at H
    cases o with
    | val vs s' =>
      refine ihb.val ok h.left ((jump_goes h.right hn).fwd ?_)
      simp only [List.length_append, ← Nat.add_assoc] at H
      exact H
    | ret v s' => exact ihb.ret ok h.left H

theorem fwd_main (hw : w.Std) {ib : Bool} {j : Job V} {s : S} {o : Out S V} (h : Ev w j s o) : Fwd w code ib j s o := by
  induction h with
  | self | special | temp | outer | ivar =>
    intro pc stk r ok h H
    exact fwd_leaf h (fun q hq => var_goes hq ok rfl) H
  | global hg =>
    intro pc stk r ok h H
    exact fwd_leaf h (fun q hq => global_goes hq hg) H
  | const =>
    intro pc stk r ok h H
    exact fwd_leaf h (fun q hq => const_goes hq) H
  | block =>
    intro pc stk r ok h H
    simp only [jobCode, gExpr] at h H
    refine fwd_leaf (d := 1) (ib := ib) h.left (fun q hq => emit_goes (by simp) hq rfl) ?_
    simpa [jobIn] using H
  | dirty hm =>
    intro pc stk r ok h H
    simp only [jobCode, gExpr, if_true] at h H
    refine fwd_leaf (d := 1) (ib := ib) h.left (fun q hq => emit_goes (by simp) hq rfl) ?_
    refine (emit_goes (op := .makeDirty) (by simp) h.right (by simp only [List.cons_append, List.nil_append, List.reverse_cons, List.reverse_nil, effect, hm, pushOf]; rfl)).fwd ?_
    rw [List.length_append, ← Nat.add_assoc] at H
    exact H
  | send hr ha hs ihr iha =>
    intro pc stk r ok h H
    simp only [jobCode, gExpr, List.append_assoc] at h H
    obtain ⟨ok1, ok2, ok3⟩ := ok
    refine ihr.val ok1 h.left ?_
    refine fwd_send ha iha ok2 ok3 hs h.right ?_
    rw [List.length_append, ← Nat.add_assoc] at H
    exact H
  | sendRet1 hr ihr =>
    intro pc stk r ok h H
    simp only [jobCode, gExpr, List.append_assoc] at h
    exact ihr.ret ok.1 h.left H
  | sendRet2 hr ha ihr iha =>
    intro pc stk r ok h H
    simp only [jobCode, gExpr, List.append_assoc] at h
    refine ihr.val ok.1 h.left (iha.ret ok.2.1 h.right.left H)
  | super hr ha hs ihr iha =>
    intro pc stk r ok h H
    simp only [jobCode, gExpr, List.append_assoc] at h H
    obtain ⟨ok1, ok2, ok3⟩ := ok
    refine ihr.val ok1 h.left (iha.val ok2 h.right.left ?_)
    have g := superSend_goes (stk := stk) h.right.right (args_length ha) ok3 hs
    refine g.1.fwd (g.2.fwd ?_)
    simp only [List.length_append, ← Nat.add_assoc] at H
    exact H
  | superRet1 hr ihr =>
    intro pc stk r ok h H
    simp only [jobCode, gExpr, List.append_assoc] at h
    exact ihr.ret ok.1 h.left H
  | superRet2 hr ha ihr iha =>
    intro pc stk r ok h H
    simp only [jobCode, gExpr, List.append_assoc] at h
    refine ihr.val ok.1 h.left (iha.ret ok.2.1 h.right.left H)
  | argsNil =>
    intro pc stk r ok h H
    exact H
  | argsCons he ha ihe iha =>
    intro pc stk r ok h H
    simp only [jobCode, gArgs] at h H
    refine ihe.val ok.1 h.left (iha.val ok.2 h.right ?_)
    simp only [List.length_append, ← Nat.add_assoc, Reach, List.reverse_cons, List.append_assoc] at H
    exact H
  | argsRet1 he ihe =>
    intro pc stk r ok h H
    simp only [jobCode, gArgs] at h
    exact ihe.ret ok.1 h.left H
  | argsRet2 he ha ihe iha =>
    intro pc stk r ok h H
    simp only [jobCode, gArgs] at h
    exact ihe.val ok.1 h.left (iha.ret ok.2 h.right H)
  | cascade hr ha hs hm ihr iha ihm =>
    intro pc stk r ok h H
    obtain ⟨ok1, ok2, ok3, ok4⟩ := ok
    simp only [jobCode, gExpr, List.append_assoc] at h H
    rw [← List.append_assoc (gArgs ib _)] at h H
    refine ihr.val ok1 h.left ((dup_goes h.right.left).fwd ((line_goes h.right.right.left).fwd ?_))
    refine fwd_send ha iha ok2 ok3 hs h.right.right.right.left ?_
    refine ihm _ _ _ ok4 h.right.right.right.right ?_
    refine H.to_pc ?_
    simp only [jobCode, List.length_append, ← Nat.add_assoc]
  | cascadeRet1 hr ihr =>
    intro pc stk r ok h H
    simp only [jobCode, gExpr, List.append_assoc] at h
    exact ihr.ret ok.1 h.left H
  | cascadeRet2 hr ha ihr iha =>
    intro pc stk r ok h H
    obtain ⟨ok1, ok2, ok3, ok4⟩ := ok
    simp only [jobCode, gExpr, List.append_assoc] at h
    refine ihr.val ok1 h.left ((dup_goes h.right.left).fwd ((line_goes h.right.right.left).fwd ?_))
    exact iha.ret ok2 h.right.right.right.left H
  | msgsOne ha hs iha =>
    intro pc stk r ok h H
    simp only [jobCode, gMsgs, List.append_assoc] at h H
    refine (pop_goes h.left).fwd ((line_goes h.right.left).fwd ?_)
    refine fwd_send ha iha ok.1 ok.2 hs h.right.right ?_
    simp only [List.length_append, ← Nat.add_assoc] at H ⊢
    exact H
  | msgsOneRet ha iha =>
    intro pc stk r ok h H
    simp only [jobCode, gMsgs, List.append_assoc] at h
    refine (pop_goes h.left).fwd ((line_goes h.right.left).fwd ?_)
    exact iha.ret ok.1 h.right.right.left H
  | msgsCons ha hs hm iha ihm =>
    intro pc stk r ok h H
    simp only [jobCode, gMsgs, List.append_assoc] at h H
    rw [← List.append_assoc (gArgs ib _)] at h H
    refine (pop_goes h.left).fwd ((dup_goes h.right.left).fwd ((line_goes h.right.right.left).fwd ?_))
    refine fwd_send ha iha ok.1 ok.2.1 hs h.right.right.right.left ?_
    refine ihm _ _ _ ok.2.2 h.right.right.right.right ?_
    refine H.to_pc ?_
    simp only [jobCode, List.length_append, ← Nat.add_assoc]
  | msgsConsRet ha iha =>
    intro pc stk r ok h H
    simp only [jobCode, gMsgs, List.append_assoc] at h
    refine (pop_goes h.left).fwd ((dup_goes h.right.left).fwd ((line_goes h.right.right.left).fwd ?_))
    exact iha.ret ok.1 h.right.right.right.left H
  | assign he hs ihe ihs =>
    intro pc stk r ok h H
    simp only [jobCode, gExpr] at h H
    refine ihe.val ok.1 h.left (ihs _ _ _ ok.2 h.right (H.to_pc ?_))
    simp only [jobCode, List.length_append, ← Nat.add_assoc]
  | assignRet he ihe =>
    intro pc stk r ok h H
    simp only [jobCode, gExpr] at h
    exact ihe.ret ok.1 h.left H
  | storeNil =>
    intro pc stk r ok h H
    exact H
  | storeTemp hs ihs | storeOuter hs ihs | storeIvar hs ihs =>
    intro pc stk r ok h H
    simp only [jobCode, gStores] at h H
    refine (store_goes h.left (ok _ (by simp)) (by simp)).fwd (ihs _ _ _ (fun v hv => ok v (by simp [hv])) h.right (H.to_pc ?_))
    simp only [jobCode, List.length_append, ← Nat.add_assoc]
  | storeGlobal hp hg hs ihs =>
    intro pc stk r ok h H
    simp only [jobCode, gStores, gStore, List.append_assoc] at h H
    refine (emit_goes (by simp) h.left (by simp only [jobIn, List.cons_append, List.nil_append, effect, hp, pushOf]; rfl)).fwd ?_
    refine (pop_goes h.right.left).fwd ((global_goes h.right.right.left hg).fwd ?_)
    refine ihs _ _ _ (fun v hv => ok v (by simp [hv])) h.right.right.right (H.to_pc ?_)
    simp only [jobCode, List.length_append, ← Nat.add_assoc]
  | array hg hn he ihe =>
    intro pc stk r ok h H
    simp only [jobCode, gExpr, List.append_assoc] at h H
    refine (line_goes h.left).fwd ((global_goes h.right.left hg).fwd ((pushInt_goes h.right.right.left).fwd ?_))
    refine (send_goes (sel := .builtin newColonSpecial) (k := 1) (vs := [_]) h.right.right.right.left rfl hw.new hn).fwd ?_
    refine ihe _ _ _ ok h.right.right.right.right (H.to_pc ?_)
    simp only [jobCode, List.length_append, ← Nat.add_assoc, gSend]
    rfl
  | eltsNil =>
    intro pc stk r ok h H
    exact H
  | eltsCons he hs ihe ihs =>
    intro pc stk r ok h H
    simp only [jobCode, gElts, List.append_assoc] at h H
    refine ihe.val ok.1 h.left ((emit_goes (by simp) h.right.left rfl).fwd ?_)
    refine ihs _ _ _ ok.2 h.right.right (H.to_pc ?_)
    simp only [jobCode, List.length_append, ← Nat.add_assoc]
  | eltsRet he ihe =>
    intro pc stk r ok h H
    simp only [jobCode, gElts, List.append_assoc] at h
    exact ihe.ret ok.1 h.left H
  | empty =>
    intro pc stk r ok h H
    exact (pushNil_goes h).fwd H
  | last he ihe =>
    intro pc stk r ok h H
    exact ihe _ _ _ ok h H
  | ret he ihe =>
    intro pc stk r ok h H
    simp only [jobCode, gBody] at h
    refine ihe.val ok h.left ?_
    rw [show r = _ from H]
    exact ret_halts h.right
  | retRet he ihe =>
    intro pc stk r ok h H
    simp only [jobCode, gBody] at h
    exact ihe.ret ok h.left H
  | seq he hb ihe ihb =>
    intro pc stk r ok h H
    simp only [jobCode, gBody, List.append_assoc] at h H
    refine ihe.val ok.1 h.left ((pop_goes h.right.left).fwd (ihb _ _ _ ok.2 h.right.right (H.to_pc ?_)))
    simp only [jobCode, List.length_append, ← Nat.add_assoc]
  | seqRet he ihe =>
    intro pc stk r ok h H
    simp only [jobCode, gBody, List.append_assoc] at h
    exact ihe.ret ok.1 h.left H
  | ifTrue hc ht ihc iht =>
    intro pc stk r ok h H
    simp only [jobCode, gExpr, List.append_assoc] at h H
    refine ihc.val ok.1 h.left ?_
    refine (popJump_passed hw.tf (j := false) h.right.left (size_even _)).fwd ?_
    refine fwd_thenJump iht ht ok.2.1 (size_even _) h.right.right.left rfl (H.to_pc ?_)
    simp only [jobCode, List.length_append, ← Nat.add_assoc, size_half]
  | ifFalse hc hf ihc ihf =>
    intro pc stk r ok h H
    simp only [jobCode, gExpr, List.append_assoc] at h H
    refine ihc.val ok.1 h.left ?_
    refine (popJump_taken (j := false) h.right.left (size_even _)).fwd ?_
    rw [size_half]
    refine ihf _ _ _ ok.2.2 h.right.right.right (H.to_pc ?_)
    simp only [jobCode, List.length_append, ← Nat.add_assoc]
  | ifTFRet hc ihc =>
    intro pc stk r ok h H
    simp only [jobCode, gExpr, List.append_assoc] at h
    exact ihc.ret ok.1 h.left H
  | @oneYes pol c b s s1 o hc hb ihc ihb =>
    intro pc stk r ok h H
    simp only [jobCode, gExpr, List.append_assoc] at h H
    refine ihc.val ok.1 h.left ?_
    have g := popJump_passed hw.tf (stk := stk) (s := s1) (w := w) (j := !pol) h.right.left (size_even _)
    rw [Bool.not_not] at g
    refine g.fwd ?_
    refine fwd_thenJump ihb hb ok.2 (by rfl) h.right.right.left rfl (H.to_pc ?_)
    have : (emit .pushSpecial nilIndex).length = 1 := emit_small _ _ (by simp [nilIndex])
    simp only [jobCode, List.length_append, ← Nat.add_assoc, this]
  | oneNo hc ihc =>
    intro pc stk r ok h H
    simp only [jobCode, gExpr, List.append_assoc] at h H
    refine ihc.val ok.1 h.left ?_
    refine (popJump_taken h.right.left (size_even _)).fwd ?_
    rw [size_half]
    refine (pushNil_goes h.right.right.right).fwd ?_
    simp only [List.length_append, ← Nat.add_assoc] at H
    exact H
  | oneRet hc ihc =>
    intro pc stk r ok h H
    simp only [jobCode, gExpr, List.append_assoc] at h
    exact ihc.ret ok.1 h.left H
  | andOrShort hc ihc =>
    intro pc stk r ok h H
    simp only [jobCode, gExpr, List.append_assoc] at h H
    refine ihc.val ok.1 h.left ((dup_goes h.right.left).fwd ?_)
    refine (popJump_taken h.right.right.left (by simp [size])).fwd ?_
    refine H.to_pc ?_
    have : (emit .pop 0).length = 1 := emit_small _ _ (by simp)
    simp only [jobCode, List.length_append, ← Nat.add_assoc, this, size]
    omega
  | andOrLong hc hb ihc ihb =>
    intro pc stk r ok h H
    simp only [jobCode, gExpr, List.append_assoc] at h H
    refine ihc.val ok.1 h.left ((dup_goes h.right.left).fwd ?_)
    refine (popJump_passed hw.tf h.right.right.left (by simp [size])).fwd ?_
    refine (pop_goes h.right.right.right.left).fwd (ihb _ _ _ ok.2 h.right.right.right.right (H.to_pc ?_))
    simp only [jobCode, List.length_append, ← Nat.add_assoc]
  | andOrRet hc ihc =>
    intro pc stk r ok h H
    simp only [jobCode, gExpr, List.append_assoc] at h
    exact ihc.ret ok.1 h.left H
  | whileUnary hl ihl =>
    intro pc stk r ok h H
    simp only [jobCode, gExpr] at h H
    refine ihl.val ok h.left ((pushNil_goes h.right).fwd ?_)
    simp only [List.length_append, ← Nat.add_assoc] at H
    exact H
  | whileUnaryRet hl ihl =>
    intro pc stk r ok h H
    simp only [jobCode, gExpr] at h H
    exact ihl.ret ok h.left H
  | whileKw hl ihl =>
    intro pc stk r ok h H
    simp only [jobCode, gExpr] at h H
    refine ihl.val ok h.left ((pushNil_goes h.right).fwd ?_)
    simp only [List.length_append, ← Nat.add_assoc] at H
    exact H
  | whileKwRet hl ihl =>
    intro pc stk r ok h H
    simp only [jobCode, gExpr] at h H
    exact ihl.ret ok h.left H
  | @whileDone pol c b s s1 hc ihc =>
    intro pc stk r ok h H
    cases b with
    | none =>
      obtain ⟨hc', -, pB, -, -, g, -⟩ := while_pieces hw.tf h (by have := ok.2; simp only [size, List.length_nil] at *; omega)
      exact ihc.val ok.1 hc' ((g stk s1).fwd H)
    | some b =>
      obtain ⟨hc', -, pB, -, -, g, -⟩ := while_pieces hw.tf h (by
        have := ok.2.2; have e : (emit .pop 0).length = 1 := emit_small _ _ (by simp)
        simp only [size, List.length_append, e] at *; omega)
      exact ihc.val ok.1 hc' ((g stk s1).fwd H)
  | @whileCondRet pol c b s v s1 hc ihc =>
    intro pc stk r ok h H
    cases b with
    | none =>
      simp only [jobCode, gWhile, List.append_assoc] at h
      exact ihc.ret ok.1 h.left H
    | some b =>
      simp only [jobCode, gWhile, List.append_assoc] at h
      exact ihc.ret ok.1 h.left H
  | @whileMore pol c s s1 o hc hl ihc ihl =>
    intro pc stk r ok h H
    obtain ⟨hc', -, pB, -, g, -, g2⟩ := while_pieces (w := w) hw.tf h
      (by have := ok.2; simp only [size, List.length_nil] at *; omega)
    exact ihc.val ok.1 hc' ((g stk s1).fwd ((g2 stk s1).fwd (ihl _ _ _ ok h H)))
  | @whileBody pol c b s s1 v s2 o hc hb hl ihc ihb ihl =>
    intro pc stk r ok h H
    have e : (emit .pop 0).length = 1 := emit_small _ _ (by simp)
    obtain ⟨hc', -, pB, hB, g, -, g2⟩ := while_pieces (w := w) hw.tf h (by
        have := ok.2.2; simp only [size, List.length_append, e] at *; omega)
    refine ihc.val ok.1 hc' ((g stk s1).fwd (ihb.val ok.2.1 hB.left ((pop_goes hB.right).fwd ?_)))
    have g2 := g2 stk s2
    rw [List.length_append, ← Nat.add_assoc] at g2
    exact g2.fwd (ihl _ _ _ ok h H)
  | @whileBodyRet pol c b s s1 v s2 hc hb ihc ihb =>
    intro pc stk r ok h H
    have e : (emit .pop 0).length = 1 := emit_small _ _ (by simp)
    obtain ⟨hc', -, pB, hB, g, -, g2⟩ := while_pieces (w := w) hw.tf h (by
        have := ok.2.2; simp only [size, List.length_append, e] at *; omega)
    exact ihc.val ok.1 hc' ((g stk s1).fwd (ihb.ret ok.2.1 hB.left H))
  | repeat_ hl ihl =>
    intro pc stk r ok h H
    simp only [jobCode, gExpr] at h H
    exact ihl.ret ok h.left H
  | @repeatMore b s v s1 o hb hl ihb ihl =>
    intro pc stk r ok h H
    obtain ⟨hb', g⟩ := repeat_pieces (w := w) h (by have := ok.2; omega)
    exact ihb.val ok.1 hb' ((g v stk s1).fwd (ihl _ _ _ ok h H))
  | @repeatRet b s v s1 hb ihb =>
    intro pc stk r ok h H
    obtain ⟨hb', g⟩ := repeat_pieces (w := w) h (by have := ok.2; omega)
    exact ihb.ret ok.1 hb' H
  | timesRepeat hn hl ihn ihl =>
    intro pc stk r ok h H
    simp only [jobCode, gExpr, List.append_assoc] at h H
    refine ihn.val ok.1 h.left ((dup_goes h.right.left).fwd ?_)
    refine ihl.val ⟨trivial, ok.2⟩ h.right.right ?_
    simp only [List.length_append, ← Nat.add_assoc] at H
    exact H
  | timesRepeatRet1 hn ihn =>
    intro pc stk r ok h H
    simp only [jobCode, gExpr, List.append_assoc] at h
    exact ihn.ret ok.1 h.left H
  | timesRepeatRet2 hn hl ihn ihl =>
    intro pc stk r ok h H
    simp only [jobCode, gExpr, List.append_assoc] at h
    exact ihn.val ok.1 h.left ((dup_goes h.right.left).fwd (ihl.ret ⟨trivial, ok.2⟩ h.right.right H))
  | @timesDone k b s s1' hc =>
    intro pc stk r ok h H
    obtain ⟨pQ, n, hn, hge, hpj, e, hpop, -, -, -, g, -⟩ := times_pieces (w := w) h ok.2.2.1 ok.2.2.2
    have s1 : ∀ op, (emit op 0).length = 1 := fun op => emit_small _ _ (by omega)
    have g2 := special_goes (w := w) (stk := k :: stk) hw.ge hge hc
    have g3 := popJump_taken (w := w) (stk := k :: stk) (s := s1') hpj hn
    have g4 := pop_goes (w := w) (v := k) (stk := stk) (s := s1') hpop
    rw [s1] at g2 g4
    refine (g _ stk _).fwd (g2.fwd (g3.fwd (g4.fwd ?_)))
    rw [e]; exact H
  | @timesMore k b s t1 k' t2 v t3 o hc hm hb hl ihb ihl =>
    intro pc stk r ok h H
    obtain ⟨pQ, n, hn, hge, hpj, e, -, hone, hmin, hB, g, gb⟩ := times_pieces (w := w) h ok.2.2.1 ok.2.2.2
    have s1 : ∀ op, (emit op 0).length = 1 := fun op => emit_small _ _ (by omega)
    have s2 : ∀ op, (emit op 1).length = 1 := fun op => emit_small _ _ (by omega)
    have g2 := special_goes (w := w) (stk := k :: stk) hw.ge hge hc
    rw [s1] at g2
    refine (g _ stk _).fwd (g2.fwd ((popJump_passed (j := false) hw.tf hpj hn).fwd ((pushInt_goes hone).fwd ?_)))
    have g3 := special_goes (w := w) (stk := stk) hw.minus hmin hm
    rw [s1] at g3
    rw [s2]
    refine g3.fwd (ihb.val ok.2.1 hB ((gb _ _ _).fwd (ihl _ _ _ ok h H)))
  | @timesRet k b s t1 k' t2 v t3 hc hm hb ihb =>
    intro pc stk r ok h H
    obtain ⟨pQ, n, hn, hge, hpj, e, -, hone, hmin, hB, g, gb⟩ := times_pieces (w := w) h ok.2.2.1 ok.2.2.2
    have s1 : ∀ op, (emit op 0).length = 1 := fun op => emit_small _ _ (by omega)
    have s2 : ∀ op, (emit op 1).length = 1 := fun op => emit_small _ _ (by omega)
    have g2 := special_goes (w := w) (stk := k :: stk) hw.ge hge hc
    rw [s1] at g2
    refine (g _ stk _).fwd (g2.fwd ((popJump_passed (j := false) hw.tf hpj hn).fwd ((pushInt_goes hone).fwd ?_)))
    have g3 := special_goes (w := w) (stk := stk) hw.minus hmin hm
    rw [s1] at g3
    rw [s2]
    exact g3.fwd (ihb.ret ok.2.1 hB H)
  | toDo hf hl ht ihf ihl iht =>
    intro pc stk r ok h H
    simp only [jobCode, gExpr, List.append_assoc] at h H
    refine ihf.val ok.1 h.left ((storeTemp_goes h.right.left).fwd (ihl.val ok.2.1 h.right.right.left ?_))
    refine (dup_goes h.right.right.right.left).fwd ((pushTemp_goes h.right.right.right.right.left).fwd ?_)
    refine iht.val ⟨trivial, trivial, ok.2.2⟩ h.right.right.right.right.right ?_
    simp only [List.length_append, ← Nat.add_assoc] at H
    exact H
  | toDoRet1 hf ihf =>
    intro pc stk r ok h H
    simp only [jobCode, gExpr, List.append_assoc] at h
    exact ihf.ret ok.1 h.left H
  | toDoRet2 hf hl ihf ihl =>
    intro pc stk r ok h H
    simp only [jobCode, gExpr, List.append_assoc] at h
    exact ihf.val ok.1 h.left ((storeTemp_goes h.right.left).fwd (ihl.ret ok.2.1 h.right.right.left H))
  | toDoRet3 hf hl ht ihf ihl iht =>
    intro pc stk r ok h H
    simp only [jobCode, gExpr, List.append_assoc] at h
    refine ihf.val ok.1 h.left ((storeTemp_goes h.right.left).fwd (ihl.val ok.2.1 h.right.right.left ?_))
    refine (dup_goes h.right.right.right.left).fwd ((pushTemp_goes h.right.right.right.right.left).fwd ?_)
    exact iht.ret ⟨trivial, trivial, ok.2.2⟩ h.right.right.right.right.right H
  | @toDone lim i step slot b s t1 hc =>
    intro pc stk r ok h H
    obtain ⟨-, -, -, hslot, hs, hx⟩ := ok
    obtain ⟨n, hn, hcmp, hpj, e, hpop, -, -, -, -, -⟩ := to_pieces (w := w) h hslot hs hx
    have s1 : ∀ op, (emit op 0).length = 1 := fun op => emit_small _ _ (by omega)
    have g2 := cmp_goes (w := w) hw (stk := lim :: stk) hcmp hc
    have g4 := pop_goes (w := w) (v := lim) (stk := stk) (s := t1) hpop
    rw [s1] at g2 g4
    refine g2.fwd ((popJump_taken (j := false) hpj hn).fwd (g4.fwd ?_))
    rw [e]; exact H
  | @toMore lim i step slot b s t1 v t2 i' t3 o hc hb hp hl ihb ihl =>
    intro pc stk r ok h H
    have ok' := ok
    obtain ⟨-, -, okb, hslot, hs, hx⟩ := ok
    obtain ⟨n, hn, hcmp, hpj, e, -, hB, hst, hplus, g, gb⟩ := to_pieces (w := w) h hslot hs hx
    have s1 : ∀ op, (emit op 0).length = 1 := fun op => emit_small _ _ (by omega)
    have g2 := cmp_goes (w := w) hw (stk := lim :: stk) hcmp hc
    have g3 := special_goes (w := w) (stk := lim :: lim :: stk) hw.plus hplus hp
    rw [s1] at g2 g3
    refine g2.fwd ((popJump_passed (j := false) hw.tf hpj hn).fwd (ihb.val okb hB ((g _ _ stk _).fwd ((step_goes hst).fwd ?_))))
    exact g3.fwd ((gb _ _ _).fwd (ihl _ _ _ ok' h H))
  | @toRet lim i step slot b s t1 v t2 hc hb ihb =>
    intro pc stk r ok h H
    obtain ⟨-, -, okb, hslot, hs, hx⟩ := ok
    obtain ⟨n, hn, hcmp, hpj, e, -, hB, hst, hplus, g, gb⟩ := to_pieces (w := w) h hslot hs hx
    have s1 : ∀ op, (emit op 0).length = 1 := fun op => emit_small _ _ (by omega)
    have g2 := cmp_goes (w := w) hw (stk := lim :: stk) hcmp hc
    rw [s1] at g2
    exact g2.fwd ((popJump_passed (j := false) hw.tf hpj hn).fwd (ihb.ret okb hB H))

end Verif.Compiler
