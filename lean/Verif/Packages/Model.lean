import Mathlib.Data.Nat.Notation
import Mathlib.Data.List.Dedup

/-!
# The order in which packages are loaded (kernel/PkgLoader.st)

Names are numbers.  The order in which a Set is enumerated is a parameter, `enum`.
-/

namespace Verif.Packages

abbrev Name := ℕ

/-- What matters of a Package (kernel/PkgLoader.st:1329-1350). -/
structure Package where
  prerequisites : List Name
  features : List Name := []
  deriving DecidableEq

/-- `at:ifAbsent:` (kernel/PkgLoader.st:225-233). -/
abbrev Db := Name → Option Package

/-- The variables of `extractDependenciesFor:ifMissing:` (kernel/PkgLoader.st:150). -/
structure State where
  toBeLoaded : List Name
  found : List Name
  dependencies : List Name
  deriving DecidableEq

/-- What it answers. -/
inductive Result where
  | missing (n : Name)
  | ok (l : List Name)
  deriving DecidableEq

/-- `package prerequisites`. -/
def prereqs (db : Db) (n : Name) : List Name := ((db n).map Package.prerequisites).getD []

/-- `package features`. -/
def features (db : Db) (n : Name) : List Name := ((db n).map Package.features).getD []

/-- What is done before the loop (kernel/PkgLoader.st:151-156). -/
def start (loaded request : List Name) : State := ⟨request.diff loaded, loaded, request⟩

/-- One iteration (kernel/PkgLoader.st:158-180): the name passed to the block, or the next state. `removeAll:ifAbsent:` removes one occurrence of each (kernel/Collection.st:211-219), as `List.diff` does. -/
def round (db : Db) (enum : List Name → List Name) (s : State) : Name ⊕ State :=
  let unknown := s.dependencies.filter fun n => n ∉ s.found
  match unknown.find? fun n => (db n).isNone with
  | some n => .inl n
  | none =>
    let allPrereq := enum (unknown.flatMap (prereqs db)).dedup
    let allFeatures := enum (unknown.flatMap (features db)).dedup
    let toBeLoaded := (s.toBeLoaded.diff allPrereq).diff allFeatures
    let allPrereq' := allPrereq.diff allFeatures
    .inr ⟨allPrereq' ++ toBeLoaded, s.found ++ allFeatures, allPrereq'⟩

/-- The loop (kernel/PkgLoader.st:158-182), for as many iterations as there is fuel; `none` when it is not over. -/
def loop (db : Db) (enum : List Name → List Name) : ℕ → State → Option Result
  | 0, _ => none
  | fuel + 1, s =>
    match round db enum s with
    | .inl n => some (.missing n)
    | .inr s' => if s'.dependencies = [] then some (.ok s'.toBeLoaded) else loop db enum fuel s'

/-- `extractDependenciesFor:ifMissing:` (kernel/PkgLoader.st:136-184). -/
def extract (db : Db) (enum : List Name → List Name) (fuel : ℕ) (loaded request : List Name) : Option Result :=
  loop db enum fuel (start loaded request)

/-- The end of `fileInPackages:` and `primFileIn` (kernel/PkgLoader.st:1971-1978, 1558-1585): the packages that are filed in, each with the features that there are when that begins, and the features at the end; or the name of a package that is not there. -/
def load (db : Db) : List Name → List Name → Name ⊕ (List (Name × List Name) × List Name)
  | [], found => .inr ([], found)
  | n :: l, found =>
    match db n with
    | none => .inl n
    | some p =>
      if n ∈ found then load db l found
      else
        match load db l (found ++ n :: p.features) with
        | .inl m => .inl m
        | .inr (log, f) => .inr ((n, found) :: log, f)

end Verif.Packages
