import Verif.Bytecode.Decode
/-!
# The interpreter and the bytecode analyses read the same program (C37)

`byte.def` is what the compiler, the optimiser, the verifier and the disassembler use to read bytecodes; `vm.def` is
what the interpreter executes.  They are two independent tables with two different treatments of `EXT_BYTE`.
-/
namespace Verif.Bytecode

/-- libgst/vm.def l.924-end: value of an operand expression, `arg` being the operand with its extension. -/
def VArg.eval (arg : Nat) : VArg → Nat
  | .lit n => n
  | .arg => arg
  | .hi => arg >>> 8
  | .lo => arg &&& 255

/-- libgst/vm.def l.924-end: the operations executed by one bytecode that is not `EXT_BYTE`. -/
def vmExpand (op arg : Nat) : List (VOp × List Nat) :=
  (vmDef.getD op []).map fun t => (t.op, t.args.map (VArg.eval arg))

/-- libgst/vm.def l.177-223: the operations executed for a stream of bytecodes in which no jump is taken.  `pre` is
the value of `arg` when the previous bytecode was `EXT_BYTE` (l.219-223, `arg = (arg << 8) | GET_ARG`); otherwise `arg`
is loaded with the byte after the opcode (`NEXT_BC`, `FETCH`, `DISPATCH`: `arg = GET_ARG`). -/
def vmDecode : Option Nat → List (Nat × Nat) → List (VOp × List Nat)
  | _, [] => []
  | pre, (op, b) :: r =>
    let arg := match pre with
      | none => b
      | some a => (a <<< 8) ||| b
    if op = EXT then vmDecode (some arg) r else vmExpand op arg ++ vmDecode none r

/-! ## Specification -/

/-- How the operands of an operation of vm.def correspond to those of the instruction of byte.def. -/
inductive Shape where
  /-- the same operands -/
  | same
  /-- no operand in vm.def, the number of the message in byte.def -/
  | number (k : Nat)
  /-- `op (sel, n)` in vm.def, `SEND (sel, super, n)` in byte.def -/
  | send (super : Nat)
  /-- `op (n)` in vm.def, `SEND_IMMEDIATE (n, super)` in byte.def -/
  | immediate (super : Nat)
  deriving DecidableEq

/-- The instruction of byte.def that an operation of vm.def stands for.  byte.def numbers the arithmetic messages and
the other special messages, in the order of bytecodes 0 to 15 and 16 to 26; a flag tells sends to super. -/
def standsFor : VOp → Option (BOp × Shape)
  | .plusSpecial => some (.sendArith, .number 0)
  | .minusSpecial => some (.sendArith, .number 1)
  | .lessThanSpecial => some (.sendArith, .number 2)
  | .greaterThanSpecial => some (.sendArith, .number 3)
  | .lessEqualSpecial => some (.sendArith, .number 4)
  | .greaterEqualSpecial => some (.sendArith, .number 5)
  | .equalSpecial => some (.sendArith, .number 6)
  | .notEqualSpecial => some (.sendArith, .number 7)
  | .timesSpecial => some (.sendArith, .number 8)
  | .divideSpecial => some (.sendArith, .number 9)
  | .remainderSpecial => some (.sendArith, .number 10)
  | .bitXorSpecial => some (.sendArith, .number 11)
  | .bitShiftSpecial => some (.sendArith, .number 12)
  | .integerDivideSpecial => some (.sendArith, .number 13)
  | .bitAndSpecial => some (.sendArith, .number 14)
  | .bitOrSpecial => some (.sendArith, .number 15)
  | .atSpecial => some (.sendSpecial, .number 0)
  | .atPutSpecial => some (.sendSpecial, .number 1)
  | .sizeSpecial => some (.sendSpecial, .number 2)
  | .classSpecial => some (.sendSpecial, .number 3)
  | .isNilSpecial => some (.sendSpecial, .number 4)
  | .notNilSpecial => some (.sendSpecial, .number 5)
  | .valueSpecial => some (.sendSpecial, .number 6)
  | .valueColonSpecial => some (.sendSpecial, .number 7)
  | .sameObjectSpecial => some (.sendSpecial, .number 8)
  | .javaAsIntSpecial => some (.sendSpecial, .number 9)
  | .javaAsLongSpecial => some (.sendSpecial, .number 10)
  | .send => some (.send, .send 0)
  | .sendSuper => some (.send, .send 1)
  | .sendImmediate => some (.sendImmediate, .immediate 0)
  | .sendSuperImmediate => some (.sendImmediate, .immediate 1)
  | .pushTemporaryVariable => some (.pushTemporaryVariable, .same)
  | .pushOuterTemp => some (.pushOuterTemp, .same)
  | .pushLitVariable => some (.pushLitVariable, .same)
  | .pushReceiverVariable => some (.pushReceiverVariable, .same)
  | .storeTemporaryVariable => some (.storeTemporaryVariable, .same)
  | .storeOuterTemp => some (.storeOuterTemp, .same)
  | .storeLitVariable => some (.storeLitVariable, .same)
  | .storeReceiverVariable => some (.storeReceiverVariable, .same)
  | .jumpBack => some (.jumpBack, .same)
  | .jump => some (.jump, .same)
  | .popJumpTrue => some (.popJumpTrue, .same)
  | .popJumpFalse => some (.popJumpFalse, .same)
  | .pushInteger => some (.pushInteger, .same)
  | .pushSelf => some (.pushSelf, .same)
  | .pushSpecial => some (.pushSpecial, .same)
  | .pushLitConstant => some (.pushLitConstant, .same)
  | .popIntoNewStacktop => some (.popIntoNewStacktop, .same)
  | .popStackTop => some (.popStackTop, .same)
  | .makeDirtyBlock => some (.makeDirtyBlock, .same)
  | .returnMethodStackTop => some (.returnMethodStackTop, .same)
  | .returnContextStackTop => some (.returnContextStackTop, .same)
  | .dupStackTop => some (.dupStackTop, .same)
  | .exitInterpreter => some (.exitInterpreter, .same)
  | .lineNumberBytecode => some (.lineNumberBytecode, .same)
  | .invalid => some (.invalid, .same)
  | .extByte => none

/-- The operands of byte.def from those of vm.def; `lit` tells how numbers are written. -/
def Shape.operands {A : Type} (lit : Nat → A) : Shape → List A → Option (List A)
  | .same, l => some l
  | .number k, [] => some [lit k]
  | .send k, [s, n] => some [s, lit k, n]
  | .immediate k, [n] => some [n, lit k]
  | _, _ => none

/-- The instruction of byte.def for an operation of vm.def with its operands. -/
def toIns {A : Type} (lit : Nat → A) (op : VOp) (args : List A) : Option (BOp × List A) :=
  (standsFor op).bind fun (b, sh) => (sh.operands lit args).map fun as => (b, as)

/-- What the interpreter does not look at: the number in a line-number bytecode and which invalid bytecode it was. -/
def observable {A : Type} (op : BOp) (args : List A) : BOp × List A :=
  match op with
  | .lineNumberBytecode => (.lineNumberBytecode, [])
  | .invalid => (.invalid, args.drop 1)
  | _ => (op, args)

/-! ## The tables agree -/

/-- An operand expression of vm.def as one of byte.def. -/
def vargTo : VArg → BArg
  | .lit n => .lit n
  | .arg => .full
  | .hi => .hi
  | .lo => .lo

/-- Comparison of the two tables, entry by entry. -/
def agree (op : Nat) : Bool :=
  (vmDef.getD op []).map (fun t => toIns BArg.lit t.op (t.args.map vargTo)) ==
    (byteDef.getD op []).map (fun t => some (observable t.op t.args))

theorem tables_agree_lt : ∀ op ∈ List.range 256, agree op = true := by decide +kernel

theorem vmDef_size : vmDef.size = 256 := by decide +kernel
theorem byteDef_size : byteDef.size = 256 := by decide +kernel

attribute [local irreducible] byteDef vmDef

theorem tables_agree (op : Nat) : (vmDef.getD op []).map (fun t => toIns BArg.lit t.op (t.args.map vargTo)) =
    (byteDef.getD op []).map (fun t => some (observable t.op t.args)) := by
  by_cases h : op < 256
  · have := tables_agree_lt op (List.mem_range.2 h)
    simpa [agree] using this
  · have h1 := vmDef_size
    have h2 := byteDef_size
    rw [Array.getD_eq_getD_getElem?, Array.getD_eq_getD_getElem?, Array.getElem?_eq_none (by omega),
      Array.getElem?_eq_none (by omega)]
    rfl

theorem operands_map {A B : Type} (lit : Nat → A) (lit' : Nat → B) (f : A → B) (h : ∀ n, f (lit n) = lit' n)
    (sh : Shape) (l : List A) : sh.operands lit' (l.map f) = (sh.operands lit l).map (List.map f) := by
  cases sh with
  | same => rfl
  | number k => cases l <;> simp [Shape.operands, h]
  | send k =>
    match l with
    | [] => rfl
    | [_] => rfl
    | [_, _] => simp [Shape.operands, h]
    | _ :: _ :: _ :: _ => rfl
  | immediate k =>
    match l with
    | [] => rfl
    | [_] => simp [Shape.operands, h]
    | _ :: _ :: _ => rfl

theorem toIns_map {A B : Type} (lit : Nat → A) (lit' : Nat → B) (f : A → B) (h : ∀ n, f (lit n) = lit' n)
    (op : VOp) (l : List A) : toIns lit' op (l.map f) = (toIns lit op l).map fun p => (p.1, p.2.map f) := by
  unfold toIns
  cases standsFor op with
  | none => rfl
  | some p =>
    simp only [Option.bind_some, operands_map lit lit' f h, Option.map_map]
    rfl

theorem observable_map {A B : Type} (f : A → B) (op : BOp) (l : List A) :
    observable op (l.map f) = ((observable op l).1, (observable op l).2.map f) := by
  cases op <;> simp [observable]

theorem eval_agree (op m c : Nat) (h : c < 256) (a : VArg) :
    (vargTo a).eval op (m <<< 8) c = a.eval ((m <<< 8) ||| c) := by
  rw [or_byte m c h]
  cases a <;> simp only [vargTo, VArg.eval, BArg.eval]
  · exact or_byte m c h
  · rw [shl8, shr8, shr8]; omega
  · rw [and255]; omega

theorem expand_agree (op m c : Nat) (h : c < 256) :
    (vmExpand op ((m <<< 8) ||| c)).map (fun p => toIns id p.1 p.2) =
      (dissect op (m <<< 8) c).map fun i => some (observable i.op i.args) := by
  have t := congrArg (List.map (Option.map fun p : BOp × List BArg =>
    (p.1, p.2.map (BArg.eval op (m <<< 8) c)))) (tables_agree op)
  simp only [List.map_map] at t
  simp only [vmExpand, dissect, List.map_map]
  refine Eq.trans ?_ (t.trans ?_)
  · apply List.map_congr_left
    intro x _
    simp only [Function.comp]
    rw [← toIns_map BArg.lit id (BArg.eval op (m <<< 8) c) (fun _ => rfl), List.map_map]
    congr 1
    apply List.map_congr_left
    intro a _
    exact (eval_agree op m c h a).symm
  · apply List.map_congr_left
    intro x _
    simp only [Function.comp, Option.map_some, observable_map]

/-! ## Properties -/

theorem agree_ext (a : Nat) (bs : List (Nat × Nat)) (h : ∀ p ∈ bs, p.2 < 256) :
    ((vmDecode (some a) bs).map (fun p => toIns id p.1 p.2) =
      (decode (a <<< 8) bs).map fun i => some (observable i.op i.args)) ∧
    ((vmDecode none bs).map (fun p => toIns id p.1 p.2) =
      (decode 0 bs).map fun i => some (observable i.op i.args)) := by
  induction bs generalizing a with
  | nil => exact ⟨rfl, rfl⟩
  | cons p bs ih =>
    obtain ⟨op, b⟩ := p
    have hb : b < 256 := h (op, b) List.mem_cons_self
    have ih' := fun a => ih a fun q hq => h q (List.mem_cons_of_mem _ hq)
    have e0 : (0 <<< 8) ||| b = b := by simp
    simp only [vmDecode, decode]
    constructor
    · split
      · exact (ih' _).1
      · rw [List.map_append, List.map_append, expand_agree op a b hb, (ih' 0).2]
    · split
      · simpa using (ih' b).1
      · have := expand_agree op 0 b hb
        rw [e0] at this
        rw [List.map_append, List.map_append, this, (ih' 0).2]
        simp

/-- C37: for every stream of bytes, the operations executed by the interpreter are the instructions that byte.def
dissects the stream into, with the same operands. -/
theorem interpreter_agrees (bs : List (Nat × Nat)) (h : ∀ p ∈ bs, p.2 < 256) :
    (vmDecode none bs).map (fun p => toIns id p.1 p.2) =
      (decode 0 bs).map fun i => some (observable i.op i.args) :=
  (agree_ext 0 bs h).2

example : vmDecode none [(55, 1), (55, 2), (28, 3), (255, 9), (66, 0)] =
    [(.send, [258, 3]), (.lineNumberBytecode, []), (.pushOuterTemp, [2, 1]), (.pushSelf, []),
      (.returnContextStackTop, [])] := by decide +kernel

/-- C37: every operand that the compiler emits reaches the interpreter. -/
theorem interpreter_reads_operand (op n : Nat) (hop : op ≠ EXT) :
    (vmDecode none (compileByte op n)).map (fun p => toIns id p.1 p.2) =
      (meaning op n).map fun i => some (observable i.op i.args) := by
  have hb : ∀ p ∈ compileByte op n, p.2 < 256 := by
    have k := compileByte_bytes 0 n (by omega)
    obtain ⟨j, e, -⟩ := numBytes_even n
    intro p hp
    rw [compileByte, e] at hp
    clear e k
    induction j with
    | zero =>
      rw [emit, if_neg (by omega), and255, List.mem_singleton] at hp
      subst hp
      simp only
      omega
    | succ j ih =>
      rw [emit_ext] at hp
      rcases List.mem_cons.1 hp with rfl | hp
      · simp only
        omega
      · exact ih hp
  rw [interpreter_agrees _ hb]
  have := operand_roundtrip op n hop []
  rw [List.append_nil, decode, List.append_nil] at this
  rw [this]

/-- The operations of vm.def that always go on to the next operation of the same bytecode: their bodies (libgst/vm.def
l.575-583, l.609-612, l.682-699, l.717-738, l.757-759, l.811-836, l.863-865, l.893-898) contain no `FETCH`, no message
send and no return. -/
def falls : VOp → Bool
  | .isNilSpecial | .notNilSpecial | .sameObjectSpecial | .pushTemporaryVariable | .pushOuterTemp
  | .pushReceiverVariable | .storeTemporaryVariable | .storeOuterTemp | .storeReceiverVariable | .pushInteger
  | .pushSpecial | .pushLitConstant | .popIntoNewStacktop | .popStackTop | .makeDirtyBlock | .dupStackTop
  | .lineNumberBytecode | .pushSelf => true
  | _ => false

attribute [local semireducible] vmDef in
theorem vm_prefix_table : ∀ op ∈ List.range 256, ((vmDef.getD op []).dropLast.all fun t => falls t.op) = true := by
  decide +kernel

/-- C37: a bytecode never leaves an operation undone: only its last operation can send a message, jump or return, so
that a context that is resumed after the bytecode has executed all of it. -/
theorem only_last_leaves (op arg : Nat) : ∀ p ∈ (vmExpand op arg).dropLast, falls p.1 = true := by
  intro p hp
  by_cases h : op < 256
  · have t := vm_prefix_table op (List.mem_range.2 h)
    rw [vmExpand, ← List.map_dropLast] at hp
    obtain ⟨x, hx, rfl⟩ := List.mem_map.1 hp
    exact List.all_eq_true.1 t x hx
  · have h1 := vmDef_size
    rw [vmExpand, Array.getD_eq_getD_getElem?, Array.getElem?_eq_none (by omega)] at hp
    simp at hp

example : vmExpand 250 7 = [(.notNilSpecial, []), (.dupStackTop, []), (.popJumpFalse, [7])] := by decide +kernel

end Verif.Bytecode
