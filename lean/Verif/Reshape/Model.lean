import Mathlib.Data.Nat.Notation
import Mathlib.Data.List.Basic

/-!
# Changing the instance variables of a class (kernel/Behavior.st)

Names are numbers, indices start at 0.  The superclass and the shape stay the same.
-/

namespace Verif.Reshape

abbrev Name := ℕ

/-- An object: its fixed and its indexed instance variables. -/
structure Obj (V : Type) where
  fixed : List V
  indexed : List V
  deriving DecidableEq

/-- `findLast:` for a name, and `indexOfLast:ifAbsent:` (kernel/Behavior.st:697-711): the index plus one, or 0. -/
def findLast : List Name → Name → ℕ
  | [], _ => 0
  | x :: l, n => if 0 < findLast l n then findLast l n + 1 else if x = n then 1 else 0

/-- `instVarMap` (kernel/Behavior.st:1428-1442), where `supSize` is the `instSize` of the superclass; `none` is nil. -/
def instVarMap (supSize : ℕ) (old new : List Name) : List (Option ℕ) :=
  (List.range old.length).map fun i =>
    if i < supSize then some i
    else
      let map := findLast (new.drop supSize) (old.getD i 0)
      if 0 < map then some (map + supSize - 1) else none

/-- The body of the loops of `mutate:via:` (kernel/Behavior.st:1486-1495): the variable is copied to where `dest` says. -/
def copyOne {V : Type} (nil : V) (dest : ℕ → Option ℕ) (src : List V) (c : List V) (i : ℕ) : List V :=
  match dest i with
  | some d => c.set d (src.getD i nil)
  | none => c

/-- The loops of `mutate:via:`. -/
def copyLoop {V : Type} (nil : V) (dest : ℕ → Option ℕ) (src : List V) (is : List ℕ) (init : List V) : List V :=
  is.foldl (copyOne nil dest src) init

/-- `mutate:via:` (kernel/Behavior.st:1473-1500), for an instance of a class with `newSize` fixed instance variables. -/
def mutate {V : Type} (nil : V) (map : List (Option ℕ)) (newSize : ℕ) (o : Obj V) : Obj V :=
  let c := copyLoop nil (fun i => map.getD i none) o.fixed (List.range map.length) (List.replicate newSize nil)
  let c := copyLoop nil (fun i => some (i + newSize - o.fixed.length)) o.fixed
    (List.range' map.length (o.fixed.length - map.length)) c
  ⟨c, o.indexed⟩

/-- `updateInstanceVars:superclass:shape:` (kernel/Behavior.st:1414-1471), for an instance of a subclass that adds the variables in `ext`; for the class itself that is empty. -/
def update {V : Type} (nil : V) (supSize : ℕ) (old new ext : List Name) (o : Obj V) : Obj V :=
  mutate nil (instVarMap supSize old new) (new ++ ext).length o

/-- `addInstVarName:` (kernel/Behavior.st:46-60): the new variables, whether the class is compiled again and whether the subclasses are. -/
def addInstVar (sup old : List Name) (n : Name) : List Name × Bool × Bool := (old ++ [n], sup.contains n, true)

/-- `removeInstVarName:` (kernel/Behavior.st:62-80); `none` when it is not found. -/
def removeInstVar (old : List Name) (n : Name) : Option (List Name × Bool × Bool) :=
  let index := findLast old n
  if index = 0 then none else some (old.eraseIdx (index - 1), true, true)

/-- `instanceVariableNames:` (kernel/Behavior.st:82-109), given the variables that the class itself is to have. -/
def setInstVars (sup old own : List Name) : List Name × Bool × Bool :=
  let new := sup ++ own
  if new = old then (old, false, false)
  else
    let changed := new.length < old.length || new.take old.length != old
    let removed := old.any fun x => !new.contains x
    let added := new.any fun x => !old.contains x
    (new, changed || removed, changed || removed || added)

/-- Where a method that was compiled when the variables were `old` finds a variable, after they are `new` and it was compiled again or not: the index plus one, or 0. -/
def bound (old new : List Name) (recompiled : Bool) (n : Name) : ℕ :=
  findLast (if recompiled then new else old) n

end Verif.Reshape
