import Verif.Strings.Split

/-!
# Names of files (kernel/FilePath.st)

A name is a list of characters.  Only the Unix branches are modelled, those where `Directory pathSeparator` is `$/`; the branches for
disk letters and for `\` are left out, as are all methods that ask the file system.  `Directory workingName` is an argument.
-/

namespace Verif.Paths

open Verif.Strings

abbrev Txt := List Char

/-- `Directory pathSeparator` and `isPathSeparator` (kernel/Character.st:350-356) on Unix. -/
def slash (c : Char) : Bool := c = '/'

/-- `findLast:` (kernel/SeqCollect.st:926-938), from the position `i` down, with a block that may return from the method that called
(`none`). -/
def findLast (b : Char → Option Bool) (xs : Txt) : ℕ → Option ℕ
  | 0 => some 0
  | i + 1 =>
    match xs[i]? with
    | none => some 0
    | some c =>
      match b c with
      | none => none
      | some true => some (i + 1)
      | some false => findLast b xs i

/-- The block of `extensionFor:` and `stripExtensionFrom:` (kernel/FilePath.st:80-83, 101-104). -/
def dotBlock (c : Char) : Option Bool := if slash c then none else some (c = '.')

/-- The last separator: `findLast: [:each | each = Directory pathSeparator]` (kernel/FilePath.st:122, 137, 162). -/
def lastSlash (xs : Txt) : ℕ := (findLast (fun c => some (slash c)) xs xs.length).getD 0

/-- `append:to:` (kernel/FilePath.st:41-68). -/
def append (fname dir : Txt) : Out Txt :=
  if dir.isEmpty then .done fname
  else match fname with
    | [] => .error
    | c :: _ =>
      if slash c then .done fname
      else match dir.getLast? with
        | none => .error
        | some l => if slash l then .done (dir ++ fname) else .done (dir ++ ['/'] ++ fname)

/-- `extensionFor:` (kernel/FilePath.st:70-89). -/
def extensionFor (xs : Txt) : Txt :=
  if xs.isEmpty then []
  else match findLast dotBlock xs xs.length with
    | none => []
    | some index =>
      if index ≤ 1 then []
      else if xs[index - 2]? = some '/' then []
      else copyFrom xs index xs.length

/-- `stripExtensionFrom:` (kernel/FilePath.st:91-110). -/
def stripExtensionFrom (xs : Txt) : Txt :=
  if xs.isEmpty then []
  else match findLast dotBlock xs xs.length with
    | none => xs
    | some index =>
      if index ≤ 1 then xs
      else if xs[index - 2]? = some '/' then xs
      else copyFrom xs 1 (index - 1)

/-- `stripPathFrom:` (kernel/FilePath.st:112-124). -/
def stripPathFrom (xs : Txt) : Txt := if xs.isEmpty then [] else copyFrom xs (lastSlash xs + 1) xs.length

/-- `pathFor:ifNone:` and `pathFor:` (kernel/FilePath.st:126-150); the block answers `none`. -/
def pathFor (xs : Txt) (none : Txt) : Txt :=
  let index := lastSlash xs
  if index = 0 then none
  else if index = 1 then ['/']
  else copyFrom xs 1 (index - 1)

/-- `stripFileNameFor:` (kernel/FilePath.st:152-166). -/
def stripFileNameFor (xs : Txt) : Txt :=
  if xs.isEmpty then ['.', '/']
  else
    let index := lastSlash xs
    if index = 0 then ['.', '/']
    else if index = 1 then ['/']
    else copyFrom xs 1 index

/-- `isAbsolute:` (kernel/FilePath.st:168-176): `at: 1` of an empty name is an error. -/
def isAbsolute : Txt → Out Bool
  | [] => .error
  | c :: _ => .done (slash c)

/-- The body of the loop of `fullNameFor:` (kernel/FilePath.st:196-202). -/
def fullStep (path : List Txt) (each : Txt) : List Txt :=
  if each = ['.'] then path
  else if each = ['.', '.'] then (if path.isEmpty then path else path.dropLast)
  else path ++ [each]

/-- `fullNameFor:` (kernel/FilePath.st:178-222) in the working directory `wd`. -/
def fullNameFor (wd xs : Txt) : Out Txt :=
  (isAbsolute xs).bind fun abs =>
    let path := if abs then [] else subStrings slash wd
    let path := (subStrings slash xs).foldl fullStep path
    if path.isEmpty then .done ['/']
    else .done (path.foldl (fun old each => old ++ ['/'] ++ each) [])

/-- The loop of `computePathFrom:to:` (kernel/FilePath.st:268-271). -/
def dropCommon : List Txt → List Txt → List Txt × List Txt
  | [], dest => ([], dest)
  | s :: src, dest => if dest.length = 1 ∨ dest.head? ≠ some s then (s :: src, dest) else dropCommon src dest.tail

/-- `fold:` (kernel/SeqCollect.st:853-868) with the block of `computePathFrom:to:` (kernel/FilePath.st:275). -/
def foldSlash : List Txt → Out Txt
  | [] => .error
  | p :: ps => .done (ps.foldl (fun a b => a ++ ['/'] ++ b) p)

/-- `computePathFrom:to:` (kernel/FilePath.st:232-276): `removeLast` of an empty collection is an error. -/
def computePath (srcName destName : Txt) : Out Txt :=
  let src := subStrings slash srcName
  let dest := subStrings slash destName
  if src.isEmpty then .error
  else
    let src := src.dropLast
    let dest := if dest.isEmpty then [[]] else dest
    let path :=
      if src.isEmpty ∨ src.head? = dest.head? then
        let r := dropCommon src dest
        r.1.map (fun _ => ['.', '.']) ++ r.2
      else [[]] ++ dest
    foldSlash path

/-- `pathFrom:to:` (kernel/FilePath.st:224-230). -/
def pathFrom (wd srcName destName : Txt) : Out Txt :=
  (fullNameFor wd srcName).bind fun src => (fullNameFor wd destName).bind fun dest => computePath src dest

end Verif.Paths
