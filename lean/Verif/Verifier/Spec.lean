import Verif.Verifier.Model
/-!
# The bytecode verifier: what running a method reads and writes (specification)
-/
namespace Verif.Verifier
open Verif.Bytecode

/-- How a bytecode ends. -/
inductive Exit where
  | next
  | leave
  | goto (t : Int)
  | branch (t : Int)
  deriving DecidableEq, Repr

/-- Where a jump in the bytecode at `ip` with length `len` goes. -/
def dest (ip len : Nat) (i : Ins) : Int :=
  if i.op = .jumpBack then (ip : Int) + len - (i.args.headD 0 / 2 : Nat) else (ip : Int) + len + (i.args.headD 0 / 2 : Nat)

def isReturn (i : Ins) : Bool := i.op = .returnMethodStackTop ∨ i.op = .returnContextStackTop

def isJump (i : Ins) : Bool := i.op = .jump ∨ i.op = .jumpBack ∨ i.op = .popJumpTrue ∨ i.op = .popJumpFalse

/-- Number of values that an instruction takes from the stack. -/
def takes (M : Meth) (i : Ins) : Option Nat :=
  match i.op with
  | .send => some (i.args.getD 1 0 + i.args.getD 2 0 + 1)
  | .sendArith => (M.builtin (i.args.getD 0 0)).map (· + 1)
  | .sendSpecial => (M.builtin (i.args.getD 0 0 + 16)).map (· + 1)
  | .sendImmediate => (M.builtin (i.args.getD 0 0)).map fun k => i.args.getD 1 0 + k + 1
  | .popIntoNewStacktop => some 2
  | .popStackTop | .dupStackTop | .popJumpTrue | .popJumpFalse => some 1
  | _ => some 0

/-- Number of values that an instruction puts on the stack. -/
def gives (i : Ins) : Nat :=
  match i.op with
  | .pushReceiverVariable | .pushTemporaryVariable | .pushLitConstant | .pushLitVariable | .pushSelf | .pushSpecial | .pushInteger
  | .pushOuterTemp | .send | .sendArith | .sendSpecial | .sendImmediate | .popIntoNewStacktop => 1
  | .dupStackTop => 2
  | _ => 0

/-- The instruction reads and writes only what exists: a temporary below the top of the stack, a literal, an instance variable, a
temporary of an enclosing context, and as many values on the stack as it needs.  `strict` also asks for the selector of a send, for
the value of a return, and for the value of a store. -/
def InRange (strict : Bool) (M : Meth) (i : Ins) (h : Int) : Prop :=
  let n := i.args.getD 0 0
  (∃ k, takes M i = some k ∧ (k : Int) ≤ h) ∧
  match i.op with
  | .pushTemporaryVariable => (n : Int) < h
  | .storeTemporaryVariable => (n : Int) < h
  | .pushLitConstant | .pushLitVariable => n < M.numLits
  | .storeLitVariable => n < M.numLits ∧ (strict = true → 0 < h)
  | .pushReceiverVariable => n < M.numRec
  | .storeReceiverVariable => n < M.numRec ∧ (strict = true → 0 < h)
  | .pushOuterTemp => 0 < i.args.getD 1 0 ∧ ∃ k, M.outer[i.args.getD 1 0 - 1]? = some k ∧ n < k
  | .storeOuterTemp => (0 < i.args.getD 1 0 ∧ ∃ k, M.outer[i.args.getD 1 0 - 1]? = some k ∧ n < k) ∧ (strict = true → 0 < h)
  | .send => strict = true → n < M.numLits
  | .returnMethodStackTop | .returnContextStackTop => strict = true → 0 < h
  | _ => True

/-- The height of the stack after an instruction. -/
def after (M : Meth) (i : Ins) (h : Int) : Int := h - ((takes M i).getD 0 : Nat) + gives i

/-- Running the instructions of one bytecode, all of them in range. -/
inductive Exec (strict : Bool) (M : Meth) (ip len : Nat) : List Ins → Int → Int → Exit → Prop where
  | done (h : Int) : Exec strict M ip len [] h h .next
  | ret (i : Ins) (r : List Ins) (h : Int) : InRange strict M i h → isReturn i → Exec strict M ip len (i :: r) h h .leave
  | jump (i : Ins) (r : List Ins) (h : Int) : InRange strict M i h → i.op = .jump ∨ i.op = .jumpBack →
      Exec strict M ip len (i :: r) h h (.goto (dest ip len i))
  | branch (i : Ins) (r : List Ins) (h : Int) : InRange strict M i h → i.op = .popJumpTrue ∨ i.op = .popJumpFalse →
      Exec strict M ip len (i :: r) h (h - 1) (.branch (dest ip len i))
  | step (i : Ins) (r : List Ins) (h h' : Int) (e : Exit) : InRange strict M i h → isReturn i = false → isJump i = false →
      Exec strict M ip len r (after M i h) h' e → Exec strict M ip len (i :: r) h h' e

/-- The bytecodes that a run of the method can reach, with the height of the stack there. -/
inductive Reach (M : Meth) : Nat → Int → Prop where
  | start : Reach M 0 M.numTemps
  | next {ip len is h h'} : Reach M ip h → M.fetch ip = some (is, len) → Exec false M ip len is h h' .next → Reach M (ip + len) h'
  | goto {ip len is h h'} {t : Nat} : Reach M ip h → M.fetch ip = some (is, len) → Exec false M ip len is h h' (.goto t) → Reach M t h'
  | taken {ip len is h h'} {t : Nat} : Reach M ip h → M.fetch ip = some (is, len) → Exec false M ip len is h h' (.branch t) →
      Reach M t h'
  | notTaken {ip len is h h' t} : Reach M ip h → M.fetch ip = some (is, len) → Exec false M ip len is h h' (.branch t) →
      Reach M (ip + len) h'

/-- Borders of the straight parts of a method: its ends, what follows a return or a jump, and what a jump goes to. -/
inductive Boundary (M : Meth) : Nat → Prop where
  | start : Boundary M 0
  | stop : Boundary M M.size
  | after {ip len is} {i : Ins} : M.fetch ip = some (is, len) → i ∈ is → isReturn i ∨ isJump i → Boundary M (ip + len)
  | target {ip len is} {t : Nat} {i : Ins} : M.fetch ip = some (is, len) → i ∈ is → isJump i → dest ip len i = (t : Int) → Boundary M t

/-- The bytecodes that are run before the first border. -/
inductive Straight (M : Meth) : Nat → Int → Prop where
  | start : Straight M 0 M.numTemps
  | next {ip len is h h'} : Straight M ip h → M.fetch ip = some (is, len) → Exec false M ip len is h h' .next →
      ¬ Boundary M (ip + len) → Straight M (ip + len) h'

/-- No immediate send of `new:` to super. -/
def NoSuperNew (M : Meth) : Prop :=
  ∀ ip is len, M.fetch ip = some (is, len) → ∀ i ∈ is, i.op = .sendImmediate → i.args.getD 0 0 = 32 → i.args.getD 1 0 = 0

def NoJumps (M : Meth) : Prop := ∀ ip is len, M.fetch ip = some (is, len) → ∀ i ∈ is, isJump i = false

end Verif.Verifier
