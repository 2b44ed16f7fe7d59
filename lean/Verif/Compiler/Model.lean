/-!
# The code generator of the compiler and the instructions it emits

libgst/comp.c (the `compile_*` functions), libgst/byte.c (`compile_byte`) and the operations of
libgst/vm.def that the generated code uses.

A tree comes here after its names have been looked up: variables are `Var`s, selectors and constants are
indices in the literals of the method, and a keyword send whose selector and arguments pass the tests of
comp.c l.1295-1313 and l.1347-1398 is one of the constructors for control structures (`Verif.Compiler.Scope`
models that step).  Sends, accesses to global variables and the creation of closures are left to a `World`,
which may do anything with the state, including never coming back.
-/
namespace Verif.Compiler

/-- libgst/comp.c l.999-1065, libgst/sym.h `symbol_entry`: what a variable name stands for. -/
inductive Var where
  /-- argument or temporary of this context -/
  | temp (n : Nat)
  /-- argument or temporary number `n` of the context `d` levels out -/
  | outer (n d : Nat)
  /-- instance variable of the receiver -/
  | ivar (n : Nat)
  /-- global variable: literal `n` holds its association -/
  | global (n : Nat)
  | self
  /-- `nil`, `true`, `false` -/
  | special (n : Nat)
  deriving DecidableEq, Repr

/-- A selector as `compile_send` (comp.c l.1405-1437) sees it: in the table of builtin selectors
(libgst/builtins.gperf) or in the literals. -/
inductive Sel where
  | builtin (code : Nat)
  | lit (n : Nat)
  deriving DecidableEq, Repr

/-- A constant: an integer that goes into the instruction, or a literal (comp.c l.1067-1106). -/
inductive Const where
  | int (n : Nat)
  | lit (n : Nat)
  deriving DecidableEq, Repr

mutual
/-- Expressions.  `ln` says which line number instruction, if any, precedes the code of the node: byte.c
l.121-170 emits one before the first instruction of a node that starts on another line than the previous
one.  Simplified: that decision is taken from the tree. -/
inductive Expr where
  | var (ln : Option Nat) (v : Var)
  | const (ln : Option Nat) (c : Const)
  /-- a block that is compiled as an object: literal `n`, with or without `MAKE_DIRTY_BLOCK` -/
  | block (ln : Option Nat) (n : Nat) (dirty : Bool)
  | send (r : Expr) (as : Args) (sel : Sel)
  /-- `cls` is the literal that holds the superclass -/
  | sendSuper (r : Expr) (as : Args) (cls : Nat) (sel : Sel)
  /-- the first message and the others.  Simplified: the receiver is not `super`. -/
  | cascade (r : Expr) (ln : Option Nat) (as : Args) (sel : Sel) (ms : Msgs)
  | assign (e : Expr) (vs : List Var)
  /-- `{ … }`; `arr` is the literal with the association of `Array` -/
  | array (ln : Option Nat) (arr : Nat) (as : Args)
  /-- `[c] whileTrue` (`pol`), `[c] whileFalse` -/
  | whileUnary (pol : Bool) (c : Body)
  /-- `[c] whileTrue: [b]` (`pol`), `[c] whileFalse: [b]` -/
  | whileKw (pol : Bool) (c b : Body)
  | repeat_ (b : Body)
  | times (n : Expr) (b : Body)
  /-- `from to: lim do: [:i | b]`, `from to: lim by: step do: [:i | b]`; `i` lives in temporary `slot`;
  `neg` when the step is not positive -/
  | toDo (frm lim : Expr) (step : Option (Option Nat × Const × Bool)) (slot : Nat) (b : Body)
  /-- `c ifTrue: [t] ifFalse: [f]` and the same with the arguments swapped -/
  | ifTF (c : Expr) (t f : Body)
  /-- `c ifTrue: [b]` (`pol`), `c ifFalse: [b]` -/
  | ifOne (pol : Bool) (c : Expr) (b : Body)
  /-- `c or: [b]` (`isOr`), `c and: [b]` -/
  | andOr (isOr : Bool) (c : Expr) (b : Body)

/-- The statements of a method or a block; only the last one can be a return (gst-parse.c l.1542-1576). -/
inductive Body where
  | empty
  | last (e : Expr)
  | ret (e : Expr)
  | cons (e : Expr) (b : Body)

inductive Args where
  | nil
  | cons (e : Expr) (as : Args)

/-- The messages of a cascade after the first one, at least one. -/
inductive Msgs where
  | one (ln : Option Nat) (as : Args) (sel : Sel)
  | cons (ln : Option Nat) (as : Args) (sel : Sel) (ms : Msgs)
end

def Args.length : Args → Nat
  | .nil => 0
  | .cons _ as => as.length + 1

/-- comp.c l.1250: whether the last statement is a return. -/
def Body.returns : Body → Bool
  | .empty => false
  | .last _ => false
  | .ret _ => true
  | .cons _ b => b.returns

/-! ## Instructions -/

/-- libgst/byte.h l.57-118: the opcodes that the code generator uses. -/
inductive Op where
  | ext | lineNumber
  | pushTemp | pushOuter | pushLitVar | pushIvar | pushSelf | pushSpecial | pushInt | pushLit
  | storeTemp | storeOuter | storeLitVar | storeIvar
  | pop | dup | jump | jumpBack | popJumpTrue | popJumpFalse
  /-- the bytecodes below 32: a builtin selector, without operand -/
  | special (code : Nat)
  | sendImm | sendImmSuper | send | sendSuper
  | makeDirty | popIntoNew | retContext | retMethod
  deriving DecidableEq, Repr

/-- An opcode with its operand byte.  Every instruction of the virtual machine is made of such pairs. -/
abbrev Code := List (Op × Nat)

/-- byte.c l.94, 105-110: the `EXT_BYTE`s that carry the operand beyond its low byte. -/
def exts (m : Nat) : Code :=
  if m = 0 then [] else exts (m / 256) ++ [(.ext, m % 256)]
decreasing_by omega

/-- byte.c l.89-115 `compile_byte`.  Simplified: operands are natural numbers, not C `int`s. -/
def emit (op : Op) (arg : Nat) : Code := exts (arg / 256) ++ [(op, arg % 256)]

/-- byte.c l.226-233 `_gst_bytecode_length`, in bytes. -/
def size (c : Code) : Nat := 2 * c.length

/-- byte.c l.167-180 `_gst_compile_byte`: the line number that was waiting. -/
def gLine : Option Nat → Code
  | none => []
  | some n => emit .lineNumber n

/-- byte.h l.122, 59-64, 88. -/
def nilIndex : Nat := 0
def plusSpecial : Nat := 0
def minusSpecial : Nat := 1
def lessEqualSpecial : Nat := 4
def greaterEqualSpecial : Nat := 5
def newColonSpecial : Nat := 32

/-- comp.c l.999-1065 `compile_variable`, after the lookup. -/
def gVar : Var → Code
  | .temp n => emit .pushTemp n
  | .outer n d => emit .pushOuter (n * 256 + d)
  | .ivar n => emit .pushIvar n
  | .global n => emit .pushLitVar n
  | .self => emit .pushSelf 0
  | .special n => emit .pushSpecial n

/-- comp.c l.1067-1106 `compile_constant`.  Simplified: whether the integer fits and which literal it is
has been decided. -/
def gConst : Const → Code
  | .int n => emit .pushInt n
  | .lit n => emit .pushLit n

/-- comp.c l.1424-1435 in `compile_send`. -/
def gSend : Sel → Nat → Code
  | .lit n, k => emit .send (n * 256 + k)
  | .builtin c, _ => if c < 32 then emit (.special c) 0 else emit .sendImm c

/-- comp.c l.1421-1435 in `compile_send`, to super. -/
def gSendSuper (cls : Nat) : Sel → Nat → Code
  | .lit n, k => emit .pushLit cls ++ emit .sendSuper (n * 256 + k)
  | .builtin c, _ => emit .pushLit cls ++ emit .sendImmSuper c

/-- comp.c l.1917-1977 `compile_assignments`, one variable. -/
def gStore : Var → Code
  | .temp n => emit .storeTemp n
  | .outer n d => emit .storeOuter (n * 256 + d)
  | .ivar n => emit .storeIvar n
  | .global n => emit .storeLitVar n ++ emit .pop 0 ++ emit .pushLitVar n
  | .self => []
  | .special _ => []

/-- comp.c l.1917-1977 `compile_assignments`. -/
def gStores : List Var → Code
  | [] => []
  | v :: vs => gStore v ++ gStores vs

/-- comp.c l.1857-1869 `compile_jump`. -/
def gPopJump (jumpType : Bool) (len : Nat) : Code :=
  emit (if jumpType then .popJumpTrue else .popJumpFalse) len

/-- comp.c l.1489-1492: the length of a jump by `n`, as `compile_while_loop` and `compile_repeat` compute
it. -/
def lenGe (n : Nat) : Nat := if n ≥ 65536 then 6 else if n ≥ 256 then 4 else 2

/-- comp.c l.1592-1595: the length of a jump by `n`, as `compile_times_repeat` and `compile_to_by_do`
compute it. -/
def lenGt (n : Nat) : Nat := if n > 65536 then 6 else if n > 256 then 4 else 2

/-- The loops of comp.c l.1486-1499, 1589-1600 and 1666-1677: `len` is `lenGe` or `lenGt`, `base` is the
backward distance without the two jumps, `around` the forward distance without the backward jump.  Answers
the lengths of the forward and of the backward jump.  Simplified: at most eight rounds (it settles earlier,
`jumpLens_settles`). -/
def jumpLens (len : Nat → Nat) (base around : Nat) : Nat → Nat → Nat → Nat × Nat
  | 0, old, fin => (old, fin)
  | k + 1, old, fin =>
    let fin1 := len (base + old + fin)
    let fin2 := len (base + old + fin1)
    let new := len (around + fin2)
    if new = old then (new, fin2) else jumpLens len base around k new fin2

/-- comp.c l.1449-1525 `compile_while_loop`, without the final push of `nil`; `b` is the code of the
argument with its `POP_STACK_TOP`, or nothing. -/
def gWhile (pol : Bool) (c b : Code) : Code :=
  let l := jumpLens lenGe (size c + 2 + size b) (size b) 8 0 0
  c ++ gPopJump pol l.1 ++ emit .jump (size b + l.2) ++ b
    ++ emit .jumpBack (size c + 2 + l.1 + size b + l.2)

/-- comp.c l.1528-1561 `compile_repeat`. -/
def gRepeat (b : Code) : Code :=
  let n := size b + 2
  let f := lenGe (n + lenGe (n + lenGe n))
  b ++ emit .pop 0 ++ emit .jumpBack (f + n)

/-- comp.c l.1580-1616 in `compile_times_repeat`, from the second `DUP_STACK_TOP` on. -/
def gTimes (b : Code) : Code :=
  let around := 6 + size b
  let l := jumpLens lenGt (6 + around) around 8 0 0
  emit .dup 0 ++ emit .pushInt 1 ++ emit (.special greaterEqualSpecial) 0
    ++ gPopJump false (around + l.2) ++ emit .pushInt 1 ++ emit (.special minusSpecial) 0
    ++ b ++ emit .pop 0 ++ emit .jumpBack (l.2 + (6 + l.1 + around)) ++ emit .pop 0

/-- comp.c l.1662-1716 in `compile_to_by_do`, from the comparison on; `step` is the code that pushes the
step. -/
def gTo (neg : Bool) (slot : Nat) (step b : Code) : Code :=
  let around := size step + (size b + 10)
  let l := jumpLens lenGt (around + 2) around 8 0 0
  emit (.special (if neg then lessEqualSpecial else greaterEqualSpecial)) 0
    ++ gPopJump false (around + l.2)
    ++ b ++ emit .pop 0 ++ emit .dup 0 ++ emit .pushTemp slot ++ step
    ++ emit (.special plusSpecial) 0 ++ emit .storeTemp slot
    ++ emit .jumpBack (around + l.1 + 2 + l.2) ++ emit .pop 0

/-- comp.c l.1649-1658, 1697-1703: the code that pushes the step, and whether the step is not positive. -/
def gStep : Option (Option Nat × Const × Bool) → Code
  | none => emit .pushInt 1
  | some (ln, c, _) => gLine ln ++ gConst c

def stepNeg : Option (Option Nat × Const × Bool) → Bool
  | none => false
  | some (_, _, neg) => neg

/-- comp.c l.1836-1855 `compile_sub_expression_and_jump`. -/
def gThenJump (returns : Bool) (b : Code) (len : Nat) : Code :=
  if returns then b else b ++ emit .jump len

mutual
/-- comp.c l.929-1000 `compile_expression`, `compile_simple_expression` and the functions they call.  `ib`
is `inside_block`. -/
def gExpr (ib : Bool) : Expr → Code
  | .var ln v => gLine ln ++ gVar v
  | .const ln c => gLine ln ++ gConst c
  -- comp.c l.1196-1198 in `compile_block`
  | .block ln n dirty => gLine ln ++ emit .pushLit n ++ (if dirty then emit .makeDirty 0 else [])
  -- comp.c l.1291-1403 `compile_unary_expr`, `compile_binary_expr`, `compile_keyword_expr`
  | .send r as sel => gExpr ib r ++ gArgs ib as ++ gSend sel as.length
  | .sendSuper r as cls sel => gExpr ib r ++ gArgs ib as ++ gSendSuper cls sel as.length
  -- comp.c l.1892-1914 `compile_cascaded_message`
  | .cascade r ln as sel ms => gExpr ib r ++ emit .dup 0 ++ gLine ln ++ gArgs ib as ++ gSend sel as.length
      ++ gMsgs ib ms
  | .assign e vs => gExpr ib e ++ gStores vs
  -- comp.c l.1253-1288 `compile_array_constructor`
  | .array ln arr as => gLine ln ++ emit .pushLitVar arr ++ emit .pushInt as.length
      ++ emit .sendImm newColonSpecial ++ gElts ib 0 as
  -- comp.c l.1449-1525 `compile_while_loop`
  | .whileUnary pol c => gWhile pol (gBody ib c) [] ++ emit .pushSpecial nilIndex
  | .whileKw pol c b => gWhile pol (gBody ib c) (gBody ib b ++ emit .pop 0) ++ emit .pushSpecial nilIndex
  | .repeat_ b => gRepeat (gBody ib b) ++ emit .pushSpecial nilIndex
  -- comp.c l.1564-1621 `compile_times_repeat`
  | .times n b => gExpr ib n ++ emit .dup 0 ++ gTimes (gBody ib b)
  -- comp.c l.1624-1719 `compile_to_by_do`
  | .toDo frm lim step slot b => gExpr ib frm ++ emit .storeTemp slot ++ gExpr ib lim ++ emit .dup 0
      ++ emit .pushTemp slot ++ gTo (stepNeg step) slot (gStep step) (gBody ib b)
  -- comp.c l.1722-1758 `compile_if_true_false_statement`
  | .ifTF c t f => gExpr ib c
      ++ gPopJump false (size (gThenJump t.returns (gBody ib t) (size (gBody ib f))))
      ++ gThenJump t.returns (gBody ib t) (size (gBody ib f)) ++ gBody ib f
  -- comp.c l.1761-1792 `compile_if_statement`
  | .ifOne pol c b => gExpr ib c ++ gPopJump (!pol) (size (gThenJump b.returns (gBody ib b) 2))
      ++ gThenJump b.returns (gBody ib b) 2 ++ emit .pushSpecial nilIndex
  -- comp.c l.1795-1815 `compile_and_or_statement`
  | .andOr isOr c b => gExpr ib c ++ emit .dup 0 ++ gPopJump isOr (size (gBody ib b) + 2) ++ emit .pop 0
      ++ gBody ib b

/-- comp.c l.1202-1251 `compile_statements` and l.904-926 `compile_statement`, without the final return. -/
def gBody (ib : Bool) : Body → Code
  | .empty => emit .pushSpecial nilIndex
  | .last e => gExpr ib e
  | .ret e => gExpr ib e ++ emit (if ib then .retMethod else .retContext) 0
  | .cons e b => gExpr ib e ++ emit .pop 0 ++ gBody ib b

/-- comp.c l.1440-1445 `compile_keyword_list`. -/
def gArgs (ib : Bool) : Args → Code
  | .nil => []
  | .cons e as => gExpr ib e ++ gArgs ib as

/-- comp.c l.1278-1287: the elements of an array, from number `i` on. -/
def gElts (ib : Bool) (i : Nat) : Args → Code
  | .nil => []
  | .cons e as => gExpr ib e ++ emit .popIntoNew i ++ gElts ib (i + 1) as

/-- comp.c l.1872-1914 `compile_cascaded_expression`, `compile_cascaded_message`: the messages after the
first one.  The previous answer is dropped and, unless this is the last message, the receiver
duplicated. -/
def gMsgs (ib : Bool) : Msgs → Code
  | .one ln as sel => emit .pop 0 ++ gLine ln ++ gArgs ib as ++ gSend sel as.length
  | .cons ln as sel ms => emit .pop 0 ++ emit .dup 0 ++ gLine ln ++ gArgs ib as ++ gSend sel as.length
      ++ gMsgs ib ms
end

/-- comp.c l.771-817 in `_gst_compile_method`: the statements of a method; `returnLast` when the value of
the last one is the answer (expressions that are executed at once). -/
def gMethod (returnLast : Bool) : Body → Code
  | .empty => (if returnLast then emit .pushSpecial nilIndex else emit .pushSelf 0) ++ emit .retContext 0
  | b => gBody false b ++
      if b.returns then []
      else if returnLast then emit .retContext 0
      else emit .pop 0 ++ emit .pushSelf 0 ++ emit .retContext 0

/-- comp.c l.1202-1251 `compile_statements` with `isBlock`: the statements of a block. -/
def gBlock (b : Body) : Code := gBody true b ++ if b.returns then [] else emit .retContext 0

/-! ## Execution -/

/-- What the code of one context cannot see: the rest of the virtual machine.  An operation that answers
`none` never comes back to the context. -/
structure World (S V : Type) where
  tt : V
  ff : V
  self : V
  special : Nat → V
  int : Nat → V
  lit : Nat → V
  /-- arguments, temporaries, instance variables -/
  get : S → Var → V
  put : S → Var → V → S
  /-- vm.def l.701-715, 740-755 `PUSH_LIT_VARIABLE`, `STORE_LIT_VARIABLE`: they can send messages -/
  getGlobal : S → Nat → Option (V × S)
  putGlobal : S → Nat → V → Option (V × S)
  send : S → Sel → V → List V → Option (V × S)
  /-- the second value is the class where the search starts -/
  sendSuper : S → Sel → V → V → List V → Option (V × S)
  /-- number of arguments of a builtin selector -/
  arity : Nat → Nat
  mustBeBoolean : S → V → Option (V × S)
  /-- vm.def l.830-836 `MAKE_DIRTY_BLOCK` -/
  makeBlock : S → V → Option (V × S)
  /-- vm.def l.823-825 `POP_INTO_NEW_STACKTOP` -/
  putElement : S → V → Nat → V → S

/-- How a context ends. -/
inductive Result (S V : Type) where
  /-- back to whoever activated this context -/
  | context (v : V) (s : S)
  /-- return from the method that contains the block -/
  | method (v : V) (s : S)

/-- Where the execution is: the position in the code, counted in pairs, the operand collected by
`EXT_BYTE`s, the stack (top first), the state. -/
structure Cfg (S V : Type) where
  pc : Nat
  acc : Nat
  stk : List V
  st : S

/-- What an instruction does. -/
inductive Step (S V : Type) where
  | next (c : Cfg S V)
  | halt (r : Result S V)
  /-- it waits for an operation that never comes back -/
  | gone
  /-- the stack lacks operands, the code is over, or the operand is odd: the interpreter would touch
  memory that is not its own -/
  | bad

/-- vm.def l.642-680 `SEND_MESSAGE`: `k` arguments are on the stack above the receiver. -/
def doSend {S V : Type} (f : S → V → List V → Option (V × S)) (k pc : Nat) (stk : List V) (s : S) :
    Step S V :=
  match stk.drop k with
  | r :: rest =>
    match f s r (stk.take k).reverse with
    | some (v, s') => .next ⟨pc, 0, v :: rest, s'⟩
    | none => .gone
  | [] => .bad

/-- Push what an operation answers. -/
def pushOf {S V : Type} (o : Option (V × S)) (pc : Nat) (stk : List V) : Step S V :=
  match o with
  | some (v, s') => .next ⟨pc, 0, v :: stk, s'⟩
  | none => .gone

/-- vm.def l.773-809 `POP_JUMP_FALSE`, `POP_JUMP_TRUE`: `want` is the value that jumps, `other` the other
Boolean.  With anything else the code goes on at the target with the answer of `mustBeBoolean` on the
stack. -/
def popJump {S V : Type} [DecidableEq V] (w : World S V) (want other : V) (n pc : Nat) (stk : List V) (s : S) :
    Step S V :=
  match stk with
  | [] => .bad
  | v :: rest =>
    if n % 2 = 1 then .bad
    else if v = want then .next ⟨pc + n / 2, 0, rest, s⟩
    else if v = other then .next ⟨pc, 0, rest, s⟩
    else pushOf (w.mustBeBoolean s v) (pc + n / 2) rest

/-- vm.def l.642-898: the effect of an instruction whose operand is `n`; `pc` is behind it. -/
def effect {S V : Type} [DecidableEq V] (w : World S V) (op : Op) (n pc : Nat) (stk : List V) (s : S) :
    Step S V :=
  match op with
  | .ext => .bad
  | .lineNumber => .next ⟨pc, 0, stk, s⟩
  | .pushTemp => .next ⟨pc, 0, w.get s (.temp n) :: stk, s⟩
  | .pushOuter => .next ⟨pc, 0, w.get s (.outer (n / 256) (n % 256)) :: stk, s⟩
  | .pushIvar => .next ⟨pc, 0, w.get s (.ivar n) :: stk, s⟩
  | .pushLitVar => pushOf (w.getGlobal s n) pc stk
  | .pushSelf => .next ⟨pc, 0, w.self :: stk, s⟩
  | .pushSpecial => .next ⟨pc, 0, w.special n :: stk, s⟩
  | .pushInt => .next ⟨pc, 0, w.int n :: stk, s⟩
  | .pushLit => .next ⟨pc, 0, w.lit n :: stk, s⟩
  | .storeTemp => match stk with
    | v :: _ => .next ⟨pc, 0, stk, w.put s (.temp n) v⟩
    | [] => .bad
  | .storeOuter => match stk with
    | v :: _ => .next ⟨pc, 0, stk, w.put s (.outer (n / 256) (n % 256)) v⟩
    | [] => .bad
  | .storeIvar => match stk with
    | v :: _ => .next ⟨pc, 0, stk, w.put s (.ivar n) v⟩
    | [] => .bad
  | .storeLitVar => match stk with
    | v :: rest => pushOf (w.putGlobal s n v) pc rest
    | [] => .bad
  | .pop => match stk with
    | _ :: rest => .next ⟨pc, 0, rest, s⟩
    | [] => .bad
  | .dup => match stk with
    | v :: rest => .next ⟨pc, 0, v :: v :: rest, s⟩
    | [] => .bad
  | .jump => if n % 2 = 1 then .bad else .next ⟨pc + n / 2, 0, stk, s⟩
  | .jumpBack => if n % 2 = 1 ∨ pc < n / 2 then .bad else .next ⟨pc - n / 2, 0, stk, s⟩
  | .popJumpTrue => popJump w w.tt w.ff n pc stk s
  | .popJumpFalse => popJump w w.ff w.tt n pc stk s
  | .special c => doSend (fun s => w.send s (.builtin c)) (w.arity c) pc stk s
  | .sendImm => doSend (fun s => w.send s (.builtin n)) (w.arity n) pc stk s
  | .send => doSend (fun s => w.send s (.lit (n / 256))) (n % 256) pc stk s
  | .sendImmSuper => match stk with
    | cls :: rest => doSend (fun s => w.sendSuper s (.builtin n) cls) (w.arity n) pc rest s
    | [] => .bad
  | .sendSuper => match stk with
    | cls :: rest => doSend (fun s => w.sendSuper s (.lit (n / 256)) cls) (n % 256) pc rest s
    | [] => .bad
  | .makeDirty => match stk with
    | v :: rest => pushOf (w.makeBlock s v) pc rest
    | [] => .bad
  | .popIntoNew => match stk with
    | v :: a :: rest => .next ⟨pc, 0, a :: rest, w.putElement s a n v⟩
    | _ => .bad
  | .retContext => match stk with
    | v :: _ => .halt (.context v s)
    | [] => .bad
  | .retMethod => match stk with
    | v :: _ => .halt (.method v s)
    | [] => .bad

/-- vm.def l.206-223: fetch a pair, collect the operand, execute. -/
def step {S V : Type} [DecidableEq V] (w : World S V) (code : Code) (c : Cfg S V) : Step S V :=
  match code[c.pc]? with
  | none => .bad
  | some (.ext, b) => .next ⟨c.pc + 1, c.acc * 256 + b, c.stk, c.st⟩
  | some (op, b) => effect w op (c.acc * 256 + b) (c.pc + 1) c.stk c.st

/-- The context that runs `code` ends with `r` after `n` steps. -/
inductive HaltsIn {S V : Type} [DecidableEq V] (w : World S V) (code : Code) :
    Nat → Cfg S V → Result S V → Prop where
  | halt {c r} (h : step w code c = .halt r) : HaltsIn w code 1 c r
  | next {c c' n r} (h : step w code c = .next c') (t : HaltsIn w code n c' r) : HaltsIn w code (n + 1) c r

/-- The context that runs `code` ends with `r`. -/
def Halts {S V : Type} [DecidableEq V] (w : World S V) (code : Code) (c : Cfg S V) (r : Result S V) : Prop :=
  ∃ n, HaltsIn w code n c r

end Verif.Compiler
