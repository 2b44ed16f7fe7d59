import Mathlib.Data.List.Basic
import Mathlib.Data.Int.Notation

/-!
# Searching, replacing, splitting, matching and escaping

kernel/SeqCollect.st, kernel/ArrayColl.st, kernel/CharArray.st, kernel/Stream.st.  A collection is the list of its elements;
indices start at 1 as in the code, so `xs[i - 1]?` is `self at: i`.
-/

namespace Verif.Strings

/-- What a message does: it answers, it raises an error, or it does not come back (in so many rounds). -/
inductive Out (β : Type) where
  | done (b : β)
  | error
  | never
  deriving DecidableEq, Repr

def Out.bind {β γ : Type} : Out β → (β → Out γ) → Out γ
  | .done b, f => f b
  | .error, _ => .error
  | .never, _ => .never

section
variable {α : Type} [DecidableEq α]

/-! ### Searching -/

/-- `matchSubCollection:startingAt:` (kernel/SeqCollect.st:1076-1089); the first item is ignored. -/
def matchSub (xs sub : List α) (i : ℕ) : Bool :=
  (List.range (sub.length - 1)).all fun k => xs[i + k]? = sub[k + 1]?

/-- `indexOfSubCollection:startingAt:ifAbsent:` (kernel/SeqCollect.st:347-367); `none` when absent. -/
def indexOfSub (xs sub : List α) (i : ℕ) : Option ℕ :=
  if sub.length = 0 then some i
  else if i + sub.length - 1 ≤ xs.length then
    (List.range' i (xs.length - sub.length + 2 - i)).find? fun j => decide (xs[j - 1]? = sub[0]?) && matchSub xs sub j
  else none

/-- `countSubCollectionOccurrencesOf:` (kernel/SeqCollect.st:1091-1104): from an index, with a count so far, in so many rounds. -/
def count (xs sub : List α) : ℕ → ℕ → ℕ → Out ℕ
  | 0, _, _ => .never
  | n + 1, i, c =>
    match indexOfSub xs sub i with
    | some j => count xs sub n (j + sub.length) (c + 1)
    | none => .done c

/-! ### Replacing -/

/-- `replaceFrom:to:with:startingAt:`: libgst/prims.def:3354-3416.  When it fails, so does the fallback
(kernel/SeqCollect.st:536-558), as an index is out of bounds. -/
def replaceFrom (dst : List α) (start stop : ℕ) (src : List α) (rep : ℕ) : Out (List α) :=
  let len := stop + 1 - start
  if start = 0 ∨ stop + 1 < start ∨ dst.length < stop ∨ src.length < rep + len - 1 ∨ (rep = 0 ∧ 0 < len) then .error
  else .done (dst.take (start - 1) ++ (src.drop (rep - 1)).take len ++ dst.drop stop)

/-- The loop of `copyReplaceAll:with:` (kernel/ArrayColl.st:370-397), for Arrays and Strings. -/
def replaceLoop (xs old new : List α) : ℕ → List α → ℕ → ℕ → Out (List α)
  | 0, _, _, _ => .never
  | n + 1, dst, oldStart, newStart =>
    match indexOfSub xs old oldStart with
    | none => replaceFrom dst newStart dst.length xs oldStart
    | some index =>
      let copySize := index - oldStart
      (replaceFrom dst newStart (newStart + copySize - 1) xs oldStart).bind fun dst =>
        let newStart := newStart + copySize
        (replaceFrom dst newStart (newStart + new.length - 1) new 1).bind fun dst =>
          replaceLoop xs old new n dst (oldStart + copySize + old.length) (newStart + new.length)

/-- `copyReplaceAll:with:` (kernel/ArrayColl.st:358-398); `z` is what new collections hold. -/
def copyReplaceAll (n : ℕ) (z : α) (xs old new : List α) : Out (List α) :=
  (count xs old n 1 0).bind fun numOld =>
    let size := (xs.length : ℤ) + ((new.length : ℤ) - old.length) * numOld
    replaceLoop xs old new n (List.replicate size.toNat z) 1 1

/-- The loop of `copyReplaceAll:with:` (kernel/SeqCollect.st:717-737), for OrderedCollections. -/
def appendLoop (xs old new : List α) : ℕ → List α → ℕ → Out (List α)
  | 0, _, _ => .never
  | n + 1, dst, oldStart =>
    match indexOfSub xs old oldStart with
    | none => .done (dst ++ xs.drop (oldStart - 1))
    | some index =>
      let copySize := index - oldStart
      appendLoop xs old new n (dst ++ (xs.drop (oldStart - 1)).take copySize ++ new) (oldStart + copySize + old.length)

/-- `copyReplaceAll:with:` (kernel/SeqCollect.st:705-737). -/
def copyReplaceAllSeq (n : ℕ) (xs old new : List α) : Out (List α) :=
  (count xs old n 1 0).bind fun _ => appendLoop xs old new n [] 1

/-- `copyReplaceFrom:to:with:` (kernel/ArrayColl.st:400-427). -/
def copyReplaceFrom (z : α) (xs : List α) (start stop : ℕ) (new : List α) : Out (List α) :=
  if (stop : ℤ) - start < -1 then .error
  else
    let newSize := (xs.length : ℤ) + new.length - ((stop : ℤ) - start + 1)
    if newSize < 0 then .error
    else
      (replaceFrom (List.replicate newSize.toNat z) 1 (start - 1) xs 1).bind fun dst =>
        (replaceFrom dst start (start + new.length - 1) new 1).bind fun dst =>
          replaceFrom dst (start + new.length) newSize.toNat xs (stop + 1)

/-! ### Splitting and joining -/

/-- `copyFrom:to:` (kernel/ArrayColl.st:218-238), within bounds. -/
def copyFrom (xs : List α) (start stop : ℕ) : List α := (xs.drop (start - 1)).take (stop + 1 - start)

/-- The body of the loop of `subStrings` (kernel/CharArray.st:271-278). -/
def splitStep (sep : α → Bool) (xs : List α) (s : ℕ × List (List α)) (i : ℕ) : ℕ × List (List α) :=
  match xs[i - 1]? with
  | some c => if sep c then (i + 1, if s.1 = i then s.2 else s.2 ++ [copyFrom xs s.1 (i - 1)]) else s
  | none => s

/-- `subStrings`, `subStrings:`, `subStringsChar:` (kernel/CharArray.st:263-282, 308-350). -/
def subStrings (sep : α → Bool) (xs : List α) : List (List α) :=
  let s := (List.range' 1 xs.length).foldl (splitStep sep xs) (1, [])
  if s.1 ≤ xs.length then s.2 ++ [copyFrom xs s.1 xs.length] else s.2

/-- The loop of `join:separatedBy:` (kernel/ArrayColl.st:168-180): `do:separatedBy:` puts the separator before all parts but the
first. -/
def joinLoop (sep : List α) : Bool → List (List α) → List α → ℕ → Out (List α)
  | _, [], dst, _ => .done dst
  | first, p :: ps, dst, start =>
    (if first then .done dst else replaceFrom dst start (start + sep.length - 1) sep 1).bind fun dst =>
      let start := if first then start else start + sep.length
      (replaceFrom dst start (start + p.length - 1) p 1).bind fun dst => joinLoop sep false ps dst (start + p.length)

/-- `join:separatedBy:` (kernel/ArrayColl.st:157-181).  `replaceFrom:to:with:` is the four argument message with 1: here the sizes
are always the same. -/
def join (z : α) (parts : List (List α)) (sep : List α) : Out (List α) :=
  if parts = [] then .done []
  else
    let size := (parts.map List.length).foldl (· + ·) (sep.length * (parts.length - 1))
    joinLoop sep true parts (List.replicate size z) 1

/-- `trimSeparators` (kernel/CharArray.st:670-687). -/
def trim (sep : α → Bool) (xs : List α) : List α :=
  match (List.range' 1 xs.length).find? fun i => (xs[i - 1]?).any (!sep ·) with
  | none => []
  | some start =>
    match ((List.range' start (xs.length + 1 - start)).reverse).find? fun i => (xs[i - 1]?).any (!sep ·) with
    | none => []
    | some stop => copyFrom xs start stop

/-! ### Searching in streams -/

/-- The inner loop of `prefixTableFor:` (kernel/Stream.st:610), in so many rounds. -/
def prefixBack (p : List α) (tbl : List ℕ) (c : α) : ℕ → ℕ → ℕ
  | 0, j => j
  | n + 1, j => if j ≤ 1 ∨ p[j - 1]? = some c then j else prefixBack p tbl c n (tbl.getD (j - 1) 0)

/-- The loop (kernel/Stream.st:604-611): the table so far has one entry for each item up to `i`. -/
def prefixLoop (p : List α) : ℕ → ℕ → List ℕ → List ℕ
  | 0, _, tbl => tbl
  | n + 1, i, tbl =>
    match p[i - 1]? with
    | some c => prefixLoop p n (i + 1) (tbl ++ [prefixBack p tbl c i (tbl.getD (i - 1) 0)])
    | none => tbl

/-- `prefixTableFor:` (kernel/Stream.st:588-613).  `at: 2 put: 1` is an error when there is one item. -/
def prefixTable (p : List α) : Out (List ℕ) :=
  if p.length < 2 then .error else .done (prefixLoop p (p.length - 2) 2 [0, 1])

/-- The loop of `upToAll:` and `skipToAll:` (kernel/Stream.st:255-265, 569-575): what is left to read, what was read, whether it was
found.  Each item is compared at most `m` times. -/
def kmpStep (p : List α) (tbl : List ℕ) (c : α) : ℕ → ℕ → ℕ
  | 0, j => j
  | n + 1, j => if p[j - 1]? = some c then j + 1 else
      let j := tbl.getD (j - 1) 0
      if j = 0 then 1 else kmpStep p tbl c n j

def kmp (p : List α) (tbl : List ℕ) : List α → ℕ → List α → List α × List α × Bool
  | [], _, acc => (acc, [], false)
  | c :: cs, j, acc =>
    let j := kmpStep p tbl c (p.length + 1) j
    if tbl.length < j then (acc ++ [c], cs, true) else kmp p tbl cs j (acc ++ [c])

/-- `upToAll:` (kernel/Stream.st:236-266): the answer and what is left. -/
def upToAll (xs p : List α) : Out (List α × List α) :=
  if xs = [] ∨ p = [] then .done ([], xs)
  else
    (prefixTable p).bind fun tbl =>
      let r := kmp p tbl xs 1 []
      .done (if r.2.2 then r.1.take (r.1.length - p.length) else r.1, r.2.1)

/-- `skipToAll:` (kernel/Stream.st:553-576). -/
def skipToAll (xs p : List α) : Out (Bool × List α) :=
  if xs = [] then .done (false, xs)
  else if p = [] then .done (true, xs)
  else (prefixTable p).bind fun tbl => let r := kmp p tbl xs 1 []; .done (r.2.2, r.2.1)

end

/-! ### Patterns -/

/-- `matchSubstring:in:at:` (kernel/CharArray.st:710-739): the rest of the pattern from `pp`. -/
def matchAt (xs : List Char) : List Char → ℕ → Option ℕ
  | [], s => some (s - 1)
  | pc :: ps, s =>
    if pc = '*' then ((List.range' s (xs.length + 2 - s)).reverse).findSome? (matchAt xs ps)
    else if s > xs.length then none
    else if pc ≠ '#' ∧ some pc ≠ xs[s - 1]? then none
    else matchAt xs ps (s + 1)

/-- `asLowercase` of a character: the table is for ASCII (kernel/Character.st:72-85). -/
def lower (c : Char) : Char := if 'A' ≤ c ∧ c ≤ 'Z' then Char.ofNat (c.toNat + 32) else c

/-- `match:ignoreCase:` (kernel/CharArray.st:144-160), and `match:` (kernel/CharArray.st:130-142) which ignores case. -/
def patternMatch (pat xs : List Char) (ignoreCase : Bool) : Bool :=
  if ignoreCase then matchAt (xs.map lower) (pat.map lower) 1 = some xs.length else matchAt xs pat 1 = some xs.length

/-- `indexOf:matchCase:startingAt:` (kernel/CharArray.st:162-186): first and last index. -/
def patternIndex (xs pat : List Char) (matchCase : Bool) (i : ℕ) : Option (ℕ × ℕ) :=
  let (xs, pat) := if matchCase then (xs, pat) else (xs.map lower, pat.map lower)
  (List.range' i (xs.length + 1 - i)).findSome? fun i => (matchAt xs pat i).map fun e => (i, e)

/-! ### `%` -/

inductive Key where
  | num (n : ℕ)
  | str (s : List Char)
  deriving DecidableEq, Repr

inductive Val where
  | bool (b : Bool)
  | text (t : List Char)
  deriving DecidableEq, Repr

/-- `displayString`. -/
def Val.display : Val → List Char
  | .bool true => "true".toList
  | .bool false => "false".toList
  | .text t => t

/-- `digitValue` (kernel/Character.st:255-267). -/
def digitValue (c : Char) : Option ℕ :=
  if '0' ≤ c ∧ c ≤ '9' then some (c.toNat - 48) else if 'A' ≤ c ∧ c ≤ 'Z' then some (c.toNat - 55) else none

/-- `upTo:` (kernel/PosStream.st:345-356). -/
def upTo (c : Char) (xs : List Char) : List Char × List Char := (xs.takeWhile (· ≠ c), (xs.dropWhile (· ≠ c)).drop 1)

/-- After `%` and, perhaps, two strings: the key (kernel/CharArray.st:437-439). -/
def readKey : List Char → Option (Key × List Char)
  | [] => none
  | c :: cs => if c = '(' then let r := upTo ')' cs; some (.str r.1, r.2) else (digitValue c).map fun d => (.num d, cs)

/-- `%` (kernel/CharArray.st:411-447): each round reads at least one character. -/
def percent (args : Key → Option Val) : ℕ → List Char → Out (List Char)
  | _, [] => .done []
  | 0, _ => .never
  | n + 1, c :: cs =>
    if c ≠ '%' then (percent args n cs).bind fun r => .done (c :: r)
    else
      match cs with
      | [] => .error
      | c :: cs' =>
        if c = '%' then (percent args n cs').bind fun r => .done ('%' :: r)
        else
          let (strings, rest) :=
            if c = '<' then
              let t := upTo '|' cs'
              let f := upTo '>' t.2
              (some (t.1, f.1), f.2)
            else (none, cs)
          match readKey rest with
          | none => .error
          | some (key, rest) =>
            match args key with
            | none => .error
            | some v =>
              match strings with
              | none => (percent args n rest).bind fun r => .done (v.display ++ r)
              | some (t, f) =>
                match v with
                | .text _ => .error
                | .bool b => (percent args n rest).bind fun r => .done ((if b then t else f) ++ r)

/-! ### Shell escapes -/

/-- The characters that get a backslash (kernel/CharArray.st:503-505). -/
def special (c : Char) : Bool := c ∈ " '\"`|^>[=<;()*&$!#~{}?\\".toList

/-- The loop (kernel/CharArray.st:515-522), until `num` backslashes were put: what was put, and the rest that is copied. -/
def escapeLoop (num : ℕ) : ℕ → List Char → List Char
  | _, [] => []
  | j, c :: cs =>
    if j < num then (if special c then '\\' :: c :: escapeLoop num (j + 1) cs else c :: escapeLoop num j cs) else c :: cs

/-- `withUnixShellEscapes` (kernel/CharArray.st:496-526). -/
def shellEscape (xs : List Char) : List Char :=
  let num := (xs.filter special).length
  if num = 0 then xs else escapeLoop num 0 xs

/-! ### Numbers -/

/-- The loops of `asInteger` (kernel/CharArray.st:612-627). -/
def intLoop (negative : Bool) : List Char → ℤ → ℤ
  | [], r => r
  | c :: cs, r =>
    let v := (c.toNat : ℤ) - 48
    if v < 0 ∨ v > 9 then r else intLoop negative cs (if negative then r * 10 - v else r * 10 + v)

/-- `asInteger` (kernel/CharArray.st:599-629). -/
def asInteger : List Char → ℤ
  | [] => 0
  | c :: cs =>
    let r := (c.toNat : ℤ) - 48
    if r < 0 ∨ r > 9 then (if c = '-' then intLoop true cs 0 else 0) else intLoop false cs r

end Verif.Strings
