import Verif.Bytecode.Decode
/-!
# The bytecode verifier (libgst/opt.c, `_gst_verify_method`): code

Positions are counted in bytecodes of two bytes, as in `Verif.Bytecode`.
-/
namespace Verif.Verifier
open Verif.Bytecode

/-- Types of stack slots: `SELF`, `VARYING`, `UNDEFINED` (libgst/opt.c l.1182-1184) or classes. -/
inductive Ty where
  | self | varying | undefined
  /-- `_gst_array_class` -/
  | array
  /-- `OOP_CLASS (_gst_array_class)` -/
  | arrayMeta
  /-- `_gst_compiled_block_class` -/
  | block
  | other (c : Nat)
  deriving DecidableEq, Repr

/-- The object in `last_used_literal`. -/
inductive Lit where
  | literal (n : Nat)
  | special (n : Nat)
  | int (n : Nat)
  deriving DecidableEq, Repr

/-- The method that is verified and what the verifier asks about the objects in it. -/
structure Meth where
  code : List (Nat × Nat)
  numLits : Nat
  numRec : Nat
  numTemps : Nat
  /-- `header.stack_depth << DEPTH_SCALE` -/
  depth : Nat
  /-- `num_outer_temps[1]` and following; the entry 0 is `numTemps`. -/
  outer : List Nat
  /-- A block from which `^` is allowed. -/
  methodReturn : Bool
  /-- `LITERAL_CLASS` -/
  litTy : Nat → Ty
  /-- A literal is a LookupKey. -/
  isVar : Nat → Bool
  /-- `LIT_VARIABLE_CLASS` -/
  varTy : Nat → Ty
  /-- The value of a literal that is an integer. -/
  litInt : Nat → Option Int
  /-- A class or metaclass of which the class of the method is a kind. -/
  superOK : Lit → Bool
  /-- The verification of a nested block. -/
  blockOK : Lit → Bool
  /-- `_gst_builtin_selectors[n]`: number of arguments, if there is such a selector. -/
  builtin : Nat → Option Nat
  /-- What the uninitialized slots of the first basic block hold. -/
  garbage : Nat → Ty

/-- Acceptance, rejection with an error, or undefined behaviour (including a failed `assert` and an endless loop). -/
inductive Res (α : Type) where
  | ok (a : α)
  | reject
  | undef
  deriving DecidableEq, Repr

def Res.bind {α β : Type} (x : Res α) (f : α → Res β) : Res β :=
  match x with
  | .ok a => f a
  | .reject => .reject
  | .undef => .undef

/-- libgst/byte.def l.102-end: one bytecode with its extensions; the instructions in it and its length.  Nothing if the code ends with
an extension. -/
def fetchFrom : Nat → Nat → List (Nat × Nat) → Option (List Ins × Nat)
  | _, _, [] => none
  | arg, k, (op, lsb) :: r => if op = EXT then fetchFrom ((arg ||| lsb) <<< 8) (k + 1) r else some (dissect op arg lsb, k + 1)

def Meth.fetch (M : Meth) (ip : Nat) : Option (List Ins × Nat) := fetchFrom 0 0 (M.code.drop ip)

def Meth.size (M : Meth) : Nat := M.code.length

/-! ## First pass -/

/-- libgst/opt.c l.126-143 (`basic_block_item`): stack height on entry and `suspended`. -/
structure Blk where
  sp : Int
  suspended : Bool
  deriving DecidableEq, Repr

structure S1 where
  bb : Nat → Option Blk
  work : List Nat
  susp : List Nat

def S1.put (s : S1) (p : Nat) (b : Blk) : S1 := { s with bb := fun q => if q = p then some b else s.bb q }

/-- libgst/opt.c l.1425-1434, l.1542-1551: a block whose height is not known yet. -/
def S1.suspend (s : S1) (p : Nat) (sp : Int) : S1 :=
  match s.bb p with
  | none => { s.put p ⟨sp, true⟩ with susp := s.susp ++ [p] }
  | some _ => s

/-- libgst/opt.c l.1553-1569: a block that is reached with a known height. -/
def S1.reach (s : S1) (p : Nat) (sp : Int) : Res S1 :=
  match s.bb p with
  | none => .ok { s.put p ⟨sp, false⟩ with work := p :: s.work }
  | some b => if b.suspended then .ok (s.put p ⟨sp, false⟩) else if sp ≠ b.sp then .reject else .ok s

/-- libgst/byte.def l.342-363: the destination of a jump, and the checks of libgst/opt.c l.1531-1539. -/
def target (M : Meth) (ip len : Nat) (i : Ins) : Res Nat :=
  let d := i.args.headD 0
  if d % 2 = 1 then .reject
  else if i.op = .jumpBack ∧ ip + len < d / 2 then .reject
  else
    let t := if i.op = .jumpBack then ip + len - d / 2 else ip + len + d / 2
    if M.size < t then .reject
    else if 0 < t ∧ (M.code.getD (t - 1) (0, 0)).1 = EXT then .reject
    else .ok t

/-- libgst/opt.c l.1464-1516: a send; `n` arguments, of which the receiver is not one. -/
def sendBalance (cur bal : Int) (n : Nat) : Res Int := if cur + (bal - n) < 1 then .reject else .ok (bal - n)

/-- libgst/opt.c l.1415-1613: one instruction in the first pass; answers the balance. -/
def ins1 (M : Meth) (ip len : Nat) (cur : Int) (s : S1) (bal : Int) (i : Ins) : Res (S1 × Int) :=
  match i.op with
  | .returnMethodStackTop | .returnContextStackTop => .ok (s.suspend (ip + len) (cur + bal), bal)
  | .popStackTop => .ok (s, bal - 1)
  | .pushReceiverVariable | .pushTemporaryVariable | .pushLitConstant | .pushLitVariable | .pushSelf | .pushSpecial | .pushInteger
  | .pushOuterTemp | .dupStackTop => .ok (s, bal + 1)
  | .lineNumberBytecode | .storeReceiverVariable | .storeTemporaryVariable | .storeLitVariable | .storeOuterTemp | .exitInterpreter
  | .makeDirtyBlock => .ok (s, bal)
  | .send => (sendBalance cur bal (i.args.getD 1 0 + i.args.getD 2 0)).bind fun b => .ok (s, b)
  | .sendArith => match M.builtin (i.args.getD 0 0) with
    | none => .reject
    | some n => (sendBalance cur bal n).bind fun b => .ok (s, b)
  | .sendSpecial => match M.builtin (i.args.getD 0 0 + 16) with
    | none => .reject
    | some n => (sendBalance cur bal n).bind fun b => .ok (s, b)
  | .sendImmediate => match M.builtin (i.args.getD 0 0) with
    | none => .reject
    | some n => (sendBalance cur bal (i.args.getD 1 0 + n)).bind fun b => .ok (s, b)
  | .popIntoNewStacktop => (sendBalance cur bal 1).bind fun b => .ok (s, b)
  | .invalid => .reject
  | .jump | .jumpBack =>
    (target M ip len i).bind fun t => ((s.suspend (ip + len) 0).reach t (cur + bal)).bind fun s => .ok (s, bal)
  | .popJumpTrue | .popJumpFalse =>
    (target M ip len i).bind fun t =>
      (s.reach (ip + len) (cur + (bal - 1))).bind fun s => (s.reach t (cur + (bal - 1))).bind fun s => .ok (s, bal - 1)

/-- libgst/opt.c l.1414-1614 (`MATCH_BYTECODES (CREATE_BASIC_BLOCKS, ...)`). -/
def byte1 (M : Meth) (ip len : Nat) (cur : Int) : List Ins → S1 → Int → Res (S1 × Int)
  | [], s, bal => .ok (s, bal)
  | i :: r, s, bal => (ins1 M ip len cur s bal i).bind fun p => byte1 M ip len cur r p.1 p.2

/-- libgst/opt.c l.1400-1622: the loop over one basic block. -/
def block1 (M : Meth) : Nat → S1 → Nat → Int → Res S1
  | 0, _, _, _ => .undef
  | fuel + 1, s, ip, cur =>
    match M.fetch ip with
    | none => .undef
    | some (is, len) =>
      (byte1 M ip len cur is s 0).bind fun p =>
        if (M.depth : Int) ≤ cur + p.2 then .reject
        else if (p.1.bb (ip + len)).isSome then .ok p.1
        else block1 M fuel p.1 (ip + len) (cur + p.2)

/-- libgst/opt.c l.1388-1637: the loop over the work list. -/
def pass1 (M : Meth) : Nat → S1 → Res S1
  | 0, _ => .undef
  | fuel + 1, s =>
    match s.work with
    | p :: ps =>
      match s.bb p with
      | none => .undef
      | some b =>
        (block1 M (M.size + 1) { s with work := ps } p b.sp).bind fun s =>
          match s.work, s.susp with
          | [], q :: qs => pass1 M fuel { s with work := [q], susp := qs }
          | _, _ => pass1 M fuel s
    | [] => .ok s

/-- libgst/opt.c l.1372-1379. -/
def start1 (M : Meth) : S1 :=
  ⟨fun q => if q = M.size then some ⟨M.numTemps, false⟩ else if q = 0 then some ⟨M.numTemps, false⟩ else none, [0], []⟩

/-! ## Second pass -/

/-- libgst/opt.c l.1239-1267 (`merge_stacks`): whether something varied, and the new `dest`. -/
def mergeStacks : List Ty → List Ty → Bool × List Ty
  | d :: ds, s :: ss =>
    let r := mergeStacks ds ss
    let newDest := s
    if newDest ≠ s then
      let newDest := if d ≠ .undefined then Ty.varying else newDest
      if newDest ≠ d then (true, newDest :: r.2) else (r.1, d :: r.2)
    else (r.1, d :: r.2)
  | ds, _ => (false, ds)

structure S2 where
  /-- The stack from the bottom, up to `sp`. -/
  st : List Ty
  last : Option Lit
  /-- Arrays under construction: position in the stack and size. -/
  arrays : List (Nat × Int)
  work : List Nat

def S2.push (s : S2) (t : Ty) : S2 := { s with st := s.st ++ [t] }

/-- `sp -= n`; going below the stack is undefined behaviour. -/
def S2.pop (s : S2) (n : Nat) : Res S2 := if s.st.length < n then .undef else .ok { s with st := s.st.take (s.st.length - n) }

/-- `sp[-1] = t`. -/
def S2.setTop (s : S2) (t : Ty) : Res S2 := (s.pop 1).bind fun s => .ok (s.push t)

/-- `sp[-k]`. -/
def S2.at (s : S2) (k : Nat) : Res Ty :=
  if s.st.length < k ∨ k = 0 then .undef else .ok (s.st.getD (s.st.length - k) .undefined)

def checkLit (M : Meth) (s : S2) (n : Nat) : Res S2 := if M.numLits ≤ n then .reject else .ok { s with last := some (.literal n) }

def checkTemp (s : S2) (n : Nat) : Res S2 := if s.st.length ≤ n then .reject else .ok { s with last := none }

def checkRec (M : Meth) (s : S2) (n : Nat) : Res S2 := if M.numRec ≤ n then .reject else .ok { s with last := none }

def checkVar (M : Meth) (s : S2) (n : Nat) : Res S2 :=
  (checkLit M s n).bind fun s => if M.isVar n then .ok s else .reject

/-- libgst/opt.c l.1794-1797, l.1804-1805: the array `num_outer_temps` has entries up to `depth - 1`, the check allows `depth`. -/
def checkOuter (M : Meth) (n scopes : Nat) : Res Unit :=
  if scopes = 0 ∨ M.outer.length + 1 < scopes then .reject
  else match M.outer[scopes - 1]? with
    | none => .undef
    | some k => if k ≤ n then .reject else .ok ()

/-- libgst/opt.c l.1734-1748: a send of `n` arguments, with the checks of a send to super. -/
def send2 (M : Meth) (s : S2) (sup n : Nat) : Res S2 :=
  if sup ≠ 0 ∧ (s.last.map M.superOK).getD false = false then .reject
  else
    (({ s with last := none }).pop (sup + n)).bind fun s =>
      (s.at 1).bind fun t => if sup ≠ 0 ∧ t ≠ Ty.self then .reject else s.setTop .varying

/-- libgst/opt.c l.1815-1832: the stacks are merged and the block is visited again if something varied.  Simplification: the stack
stored with a block is taken as `UNDEFINED` everywhere. -/
def jump2 (bb : Nat → Option Blk) (s : S2) (t : Nat) : Res S2 :=
  match bb t with
  | none => .undef
  | some b =>
    if (s.st.length : Int) ≠ b.sp then .undef
    else
      let r := mergeStacks s.st (List.replicate s.st.length .undefined)
      .ok { s with st := r.2, work := if r.1 then t :: s.work else s.work }

/-- libgst/opt.c l.1838-1840: `IS_INT (last_used_literal) && last_used_literal != FROM_INT (0)`. -/
def arraySize (M : Meth) : Option Lit → Option Int
  | some (.int k) => if k = 0 then none else some (k : Int)
  | some (.literal k) => (M.litInt k).bind fun v => if v = 0 then none else some v
  | _ => none

/-- libgst/opt.c l.1666-1890: one instruction in the second pass. -/
def ins2 (M : Meth) (bb : Nat → Option Blk) (ip len : Nat) (s : S2) (i : Ins) : Res S2 :=
  let n := i.args.getD 0 0
  match i.op with
  | .pushReceiverVariable => (checkRec M s n).bind fun s => .ok (s.push .varying)
  | .pushTemporaryVariable => (checkTemp s n).bind fun s => .ok (s.push (s.st.getD n .undefined))
  | .pushLitConstant => (checkLit M s n).bind fun s => .ok (s.push (M.litTy n))
  | .pushLitVariable => (checkVar M s n).bind fun s => .ok (s.push (M.varTy n))
  | .pushSelf => .ok (({ s with last := none }).push .self)
  | .pushSpecial => if 2 < n then .reject else .ok (({ s with last := some (.special n) }).push (.other n))
  | .pushInteger => .ok (({ s with last := some (.int n) }).push (.other 3))
  | .returnMethodStackTop => if M.methodReturn then .ok s else .reject
  | .returnContextStackTop => .ok s
  | .lineNumberBytecode => .ok s
  | .storeReceiverVariable => checkRec M s n
  | .storeTemporaryVariable => checkTemp s n
  | .storeLitVariable => checkVar M s n
  | .send => send2 M s (i.args.getD 1 0) (i.args.getD 2 0)
  | .popIntoNewStacktop =>
    (s.at 2).bind fun t =>
      if t ≠ .array then .reject
      else match s.arrays with
        | [] => .reject
        | (p, size) :: as =>
          if s.st.length - 2 ≠ p then .reject
          else if size ≤ (n : Int) then .reject
          else (({ s with last := none, arrays := if (n : Int) + 1 = size then as else s.arrays }).pop 1)
  | .popStackTop => ({ s with last := none }).pop 1
  | .dupStackTop => (s.at 1).bind fun t => .ok (s.push t)
  | .pushOuterTemp => (checkOuter M n (i.args.getD 1 0)).bind fun _ => .ok (({ s with last := none }).push .varying)
  | .storeOuterTemp => (checkOuter M n (i.args.getD 1 0)).bind fun _ => .ok s
  | .exitInterpreter => if M.size ≠ 2 ∨ ip ≠ 0 ∨ (M.code.getD 1 (0, 0)).1 ≠ 51 then .reject else .ok s
  | .jump | .jumpBack => (target M ip len i).bind fun t => jump2 bb s t
  | .popJumpTrue | .popJumpFalse =>
    (s.pop 1).bind fun s => (jump2 bb s (ip + len)).bind fun s => (target M ip len i).bind fun t => jump2 bb s t
  | .sendArith => match M.builtin n with
    | none => .undef
    | some k => (s.pop k).bind fun s => s.setTop .varying
  | .sendSpecial => match M.builtin (n + 16) with
    | none => .undef
    | some k => (s.pop k).bind fun s => s.setTop .varying
  | .sendImmediate =>
    (if n = 32 ∧ (arraySize M s.last).isSome then s.at 2 else .ok .undefined).bind fun t =>
    match arraySize M s.last, t with
    | some k, .arrayMeta => (s.pop 1).bind fun s => ({ s with arrays := (s.st.length - 1, k) :: s.arrays }).setTop .array
    | _, _ => match M.builtin n with
      | none => .undef
      | some k => send2 M s (i.args.getD 1 0) k
  | .makeDirtyBlock =>
    (s.at 1).bind fun t =>
      match s.last with
      | none => .reject
      | some l => if t ≠ .block then .reject else if M.blockOK l then .ok s else .reject
  | .invalid => .undef

def byte2 (M : Meth) (bb : Nat → Option Blk) (ip len : Nat) : List Ins → S2 → Res S2
  | [], s => .ok s
  | i :: r, s => (ins2 M bb ip len s i).bind fun s => byte2 M bb ip len r s

/-- libgst/opt.c l.1656-1894: the loop over one basic block. -/
def block2 (M : Meth) (bb : Nat → Option Blk) : Nat → S2 → Nat → Res S2
  | 0, _, _ => .undef
  | fuel + 1, s, ip =>
    match M.fetch ip with
    | none => .undef
    | some (is, len) =>
      (byte2 M bb ip len is s).bind fun s => if (bb (ip + len)).isSome then .ok s else block2 M bb fuel s (ip + len)

/-- libgst/opt.c l.1639-1899: the loop over the work list.  Simplification: the slots of a block that is visited again are not
modelled (see `verify_visits_once`: none is). -/
def pass2 (M : Meth) (bb : Nat → Option Blk) : Nat → List (Nat × Int) → List Nat → Res Unit
  | 0, _, _ => .undef
  | fuel + 1, arrays, work =>
    match work with
    | [] => .ok ()
    | p :: ps =>
      match bb p with
      | none => .undef
      | some b =>
        if b.sp < 0 then .undef
        else (block2 M bb (M.size + 1) ⟨(List.range b.sp.toNat).map M.garbage, none, arrays, ps⟩ p).bind fun s =>
          pass2 M bb fuel s.arrays s.work

/-- libgst/opt.c l.1289-1902 (`_gst_verify_method`) for a method of which the bytecodes are run. -/
def verify (M : Meth) (fuel : Nat) : Res Unit := (pass1 M fuel (start1 M)).bind fun s => pass2 M s.bb fuel [] [0]

end Verif.Verifier
