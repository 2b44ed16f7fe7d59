import Mathlib.Logic.Function.Basic
import Mathlib.Data.Nat.Notation

/-!
# Variables of processes (kernel/ProcEnv.st, kernel/DynVariable.st)

The environment of a process is an IdentityDictionary (kernel/Process.st:344-354), that is a function from identities to values; that dictionaries are such functions is the subject of the areas VMDict and HashColl.
-/

namespace Verif.ProcVars

/-- An object used as a key: its identity, and what `=` compares. -/
structure Key where
  id : ℕ
  text : ℕ

/-- Values: nil or some object. -/
inductive Val where
  | nil
  | obj (n : ℕ)
  deriving DecidableEq

/-- The environment of a process (kernel/Process.st:344-354). -/
abbrev Env := ℕ → Option Val

/-- A process: its environment, and the variables with their old values for the activations of `use:during:` that have not ended, innermost first (kernel/ProcEnv.st:67-75). -/
structure Proc where
  env : Env
  uses : List (Key × Val)

/-- `ProcessEnvironment>>at:ifAbsent:` (kernel/ProcEnv.st:144-150), for the value of the block. -/
def atIfAbsent (p : Proc) (k : Key) (block : Val) : Val := (p.env k.id).getD block

/-- `ProcessEnvironment>>at:` (kernel/ProcEnv.st:136-142). -/
def envAt (p : Proc) (k : Key) : Val := (p.env k.id).getD .nil

/-- `ProcessVariable>>value` and `DynamicVariable class>>value` (kernel/ProcEnv.st:83-87, kernel/DynVariable.st:63-66). -/
def value (p : Proc) (k : Key) : Val := (p.env k.id).getD .nil

/-- `ProcessVariable>>valueIfAbsent:` and `DynamicVariable class>>valueIfAbsent:` (kernel/ProcEnv.st:77-81, kernel/DynVariable.st:58-61): the block is not used. -/
def valueIfAbsent (p : Proc) (k : Key) (_block : Val) : Val := (p.env k.id).getD .nil

/-- `ProcessEnvironment>>includesKey:` (kernel/ProcEnv.st:191-196). -/
def includesKey (p : Proc) (k : Key) : Bool := (p.env k.id).isSome

/-- What a process can do to its variables. -/
inductive Op where
  /-- `ProcessVariable>>value:`, `ProcessEnvironment>>at:put:` -/
  | put (k : Key) (v : Val)
  /-- `ProcessEnvironment>>at:ifAbsentPut:`, with the value of the block -/
  | ifAbsentPut (k : Key) (v : Val)
  /-- `ProcessEnvironment>>removeKey:` and `remove:` -/
  | remove (k : Key)
  /-- `use:during:` up to the evaluation of the block -/
  | enter (k : Key) (v : Val)
  /-- the end of the innermost `use:during:`, because its block ended or because it is unwound -/
  | leave

/-- Stores a value. -/
def Env.put (e : Env) (k : Key) (v : Val) : Env := Function.update e k.id (some v)

/-- One operation (kernel/ProcEnv.st:67-75 `use:during:`, 89-94 `value:`, 129-134 `at:put:`, 152-158 `at:ifAbsentPut:`, 213-241 `remove:`, `removeKey:`). -/
def step (p : Proc) : Op → Proc
  | .put k v => { p with env := p.env.put k v }
  | .ifAbsentPut k v => if (p.env k.id).isSome then p else { p with env := p.env.put k v }
  | .remove k => { p with env := Function.update p.env k.id none }
  | .enter k v => { env := p.env.put k v, uses := (k, value p k) :: p.uses }
  | .leave =>
    match p.uses with
    | [] => p
    | (k, old) :: rest => { env := p.env.put k old, uses := rest }

/-- The operations of one process. -/
def runOne (p : Proc) (ops : List Op) : Proc := ops.foldl step p

/-- The operations of several processes, in the order in which they are done: each acts on the environment of the process that is active (`Processor activeProcess environment`). -/
def run (s : ℕ → Proc) (ops : List (ℕ × Op)) : ℕ → Proc :=
  ops.foldl (fun s o => Function.update s o.1 (step (s o.1) o.2)) s

end Verif.ProcVars
