import Verif.Lookup.Model
/-!
# Method lookup: specification

Which method a message runs, with no caches.
-/
namespace Verif.Lookup

/-- The method of the class or of its nearest superclass that has one, with the class it was found in. -/
inductive Nearest (env : Env) (w : World) (sel : OOP) : OOP → Option (OOP × OOP) → Prop
  | root : Nearest env w sel env.nil none
  | here {c m : OOP} : c ≠ env.nil → w.methods c sel = some m → Nearest env w sel c (some (m, c))
  | up {c : OOP} {r : Option (OOP × OOP)} : c ≠ env.nil → w.methods c sel = none → Nearest env w sel (w.superclass c) r →
      Nearest env w sel c r

/-- What sending `sel` with `n` arguments to `rcv` does, the search beginning in the class `cls`. -/
inductive Runs (env : Env) (w : World) : OOP → Nat → OOP → OOP → Outcome → Prop
  | dnu {sel n cls rcv o} : Nearest env w sel cls none → Runs env w env.dnu 1 cls rcv o → Runs env w sel n cls rcv (.dnu sel n cls o)
  | args {sel n cls rcv m mc} : Nearest env w sel cls (some (m, mc)) → (w.header m).numArgs ≠ n → Runs env w sel n cls rcv .abort
  | self {sel cls rcv m mc} : Nearest env w sel cls (some (m, mc)) → (w.header m).flag = .returnSelf →
      Runs env w sel (w.header m).numArgs cls rcv .self
  | instVar {sel cls rcv m mc} : Nearest env w sel cls (some (m, mc)) → (w.header m).flag = .returnInstVar →
      Runs env w sel (w.header m).numArgs cls rcv (.instVar (w.header m).prim)
  | literal {sel cls rcv m mc} : Nearest env w sel cls (some (m, mc)) → (w.header m).flag = .returnLiteral →
      Runs env w sel (w.header m).numArgs cls rcv (.literal m (w.header m).prim)
  | prim {sel cls rcv m mc} : Nearest env w sel cls (some (m, mc)) → (w.header m).flag = .primitive →
      env.ok (w.header m).prim (w.header m).numArgs rcv = true →
      Runs env w sel (w.header m).numArgs cls rcv (.prim (w.header m).prim (w.header m).numArgs)
  | primFails {sel cls rcv m mc} : Nearest env w sel cls (some (m, mc)) → (w.header m).flag = .primitive →
      env.ok (w.header m).prim (w.header m).numArgs rcv = false → Runs env w sel (w.header m).numArgs cls rcv (.run m)
  | user {sel cls rcv m mc o} : Nearest env w sel cls (some (m, mc)) → (w.header m).flag = .userDefined →
      Runs env w env.value 2 (w.classOf m) m o → Runs env w sel (w.header m).numArgs cls rcv (.user m (w.header m).numArgs o)
  | normal {sel cls rcv m mc} : Nearest env w sel cls (some (m, mc)) → (w.header m).flag = .normal →
      Runs env w sel (w.header m).numArgs cls rcv (.run m)

/-- The classes and methods after an operation. -/
def worldStep (w : World) : Op → World
  | .install cls sel m => { w with methods := fun c s => if c = cls ∧ s = sel then m else w.methods c s }
  | .bootInstall cls sel m => { w with methods := fun c s => if c = cls ∧ s = sel then some m else w.methods c s }
  | .superclass cls super => { w with superclass := fun c => if c = cls then super else w.superclass c }
  | _ => w

def worldAfter (w : World) (ops : List Op) : World := ops.foldl worldStep w

/-- The method for a selector is found, and is compiled code or a primitive (not an object that is sent
`valueWithReceiver:withArguments:`). -/
def plain (env : Env) (w : World) (sel cls : OOP) : Prop :=
  ∃ m mc, Nearest env w sel cls (some (m, mc)) ∧ (w.header m).flag ≠ .userDefined

/-- Histories in which (`dirty`) every change of a superclass is followed by a flush before the next send, and (`zeroed`) no
method is installed by C code between the evaluation of a constant and the next send or flush.  The special sends are restricted to
`plain` methods. -/
def Safe (env : Env) : World → Bool → Bool → List Op → Prop
  | _, _, _, [] => True
  | w, dirty, zeroed, op :: ops =>
    match op with
    | .send sel _ _ _ => dirty = false ∧ sel ≠ 0 ∧ Safe env w dirty false ops
    | .perform sel _ _ => dirty = false ∧ sel ≠ 0 ∧ Safe env w dirty false ops
    | .size rcv isInt => dirty = false ∧ (isInt = false → plain env w env.size (w.classOf rcv)) ∧ Safe env w dirty zeroed ops
    | .cls rcv isInt => dirty = false ∧ (isInt = false → plain env w env.cls (w.classOf rcv)) ∧ Safe env w dirty zeroed ops
    | .install _ _ _ => Safe env (worldStep w op) false false ops
    | .bootInstall _ _ _ => zeroed = false ∧ Safe env (worldStep w op) false false ops
    | .superclass _ _ => Safe env (worldStep w op) true zeroed ops
    | .flush => Safe env w false false ops
    | .constant => Safe env w dirty true ops

end Verif.Lookup
