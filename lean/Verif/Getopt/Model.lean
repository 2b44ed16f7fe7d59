import Mathlib.Data.List.Dedup
import Mathlib.Data.List.Sort
import Verif.Strings.Model

/-!
# Parsing of command lines (kernel/Getopt.st)

Strings are lists of characters.  The Dictionary `options` is a list of associations with different keys, the Set `longOptions` and the Bag
`prefixes` are lists; none of the results depends on their order.
-/

namespace Verif.Getopt

/-- A key of `options`: a Character for `-x`, a String for `--long`. -/
inductive Key where
  | short (c : Char)
  | long (s : List Char)
deriving DecidableEq

/-- The Symbols for the kinds of options. -/
inductive Kind where
  | noArg
  | mandatoryArg
  | optionalArg
deriving DecidableEq

/-- A value of `options`: the kind, or the canonical name. -/
inductive Val where
  | kind (k : Kind)
  | name (k : Key)
deriving DecidableEq

/-- The instance variables that come from the pattern. -/
structure Tbl where
  options : List (Key × Val)
  longOptions : List (List Char)
  prefixes : List (List Char)

/-- `initialize` (kernel/Getopt.st:245-250). -/
def Tbl.new : Tbl := ⟨[], [], []⟩

/-- `at:ifAbsent:` of `options`. -/
def Tbl.at (t : Tbl) (k : Key) : Option Val := (t.options.find? fun e => e.1 = k).map (·.2)

/-- `addLongOption:` (kernel/Getopt.st:219-228). -/
def addLongOption (t : Tbl) (s : List Char) : Tbl :=
  { t with longOptions := if s ∈ t.longOptions then t.longOptions else s :: t.longOptions
           prefixes := (List.range' 1 s.length).map (s.take ·) ++ t.prefixes }

/-- `rejectBadPrefixes` (kernel/Getopt.st:230-243); `asSortedCollection:` as an insertion sort. -/
def rejectBadPrefixes (t : Tbl) : Tbl :=
  { t with prefixes := t.prefixes.dedup.filter fun p => t.prefixes.count p == 1 || p ∈ t.longOptions
           longOptions := t.longOptions.insertionSort fun a b => a.length ≤ b.length }

/-- `checkSynonyms:` (kernel/Getopt.st:252-264); `false` for an error. -/
def checkSynonyms (synonyms : List (List Char)) : Bool :=
  synonyms.all (fun s => ['-'].isPrefixOf s) && !synonyms.any (fun s => decide (s.length < 2) || s == ['-', '-']) &&
    !synonyms.any fun s => ['-', '-'].isPrefixOf s && '=' ∈ s

/-- `colonsToKind:` (kernel/Getopt.st:266-275). -/
def colonsToKind : ℕ → Option Kind
  | 0 => some .noArg
  | 1 => some .mandatoryArg
  | 2 => some .optionalArg
  | _ => none

/-- `atSynonym:put:` (kernel/Getopt.st:277-291).  `includes:` of a Dictionary asks for values (kernel/Dictionary.st:245-252). -/
def atSynonym (t : Tbl) (synonym : List Char) (v : Val) : Option (Tbl × Key) :=
  let (t, key) := if synonym.length = 2 then (t, Key.short (synonym.getD 1 ' '))
    else (addLongOption t (synonym.drop 2), Key.long (synonym.drop 2))
  if t.options.any fun e => e.2 = .name key then none
  else some ({ t with options := (key, v) :: t.options.filter fun e => e.1 ≠ key }, key)

/-- `atAllSynonyms:put:` (kernel/Getopt.st:293-308); `last` of an empty collection is an error. -/
def atAllSynonyms (t : Tbl) (synonyms : List (List Char)) (kind : Kind) : Option Tbl :=
  match synonyms.getLast? with
  | none => none
  | some l => (atSynonym t l (.kind kind)).bind fun r =>
    synonyms.dropLast.foldlM (fun t s => (atSynonym t s (.name r.2)).map (·.1)) r.1

/-- `parseOption:` for a word of the pattern (kernel/Getopt.st:310-331). -/
def parseWord (t : Tbl) (opt : List Char) : Option Tbl :=
  let optNames := opt.filter (· ≠ ':')
  let colons := opt.length - optNames.length
  if (opt.drop optNames.length).any (· ≠ ':') then none
  else (colonsToKind colons).bind fun kind =>
    let synonyms := Strings.subStrings (· = '|') optNames
    if checkSynonyms synonyms then atAllSynonyms t synonyms kind else none

/-- The separators (kernel/Character.st:336-341): space, cr, tab, nl and newPage. -/
def isSeparator (c : Char) : Bool := c = ' ' || c = '\r' || c = '\t' || c = '\n' || c = Char.ofNat 12

/-- `parsePattern:` (kernel/Getopt.st:333-340). -/
def parsePattern (pattern : List Char) : Option Tbl :=
  ((Strings.subStrings isSeparator pattern).foldlM parseWord Tbl.new).map rejectBadPrefixes

/-! ### The command line -/

/-- One evaluation of `actionBlock`: the option, or `nil`, and the argument, or `nil`. -/
structure Act where
  name : Option Key
  arg : Option (List Char)
deriving DecidableEq

/-- How a part of the parsing ends: with the arguments that are left, by `errorBlock` or by another error. -/
inductive Out where
  | done (acts : List Act) (args : List (List Char))
  | error (acts : List Act)
  | wrong
deriving DecidableEq

/-- Go on with what follows. -/
def Out.andThen : Out → (List Act → List (List Char) → Out) → Out
  | .done acts args, f => f acts args
  | .error acts, _ => .error acts
  | .wrong, _ => .wrong

/-- `fullOptionName:` (kernel/Getopt.st:99-106); `none` is `errorBlock`, `some none` an element that is not found. -/
def fullOptionName (t : Tbl) (s : List Char) : Option (Option (List Char)) :=
  if s ∈ t.prefixes then some (t.longOptions.find? fun k => s.isPrefixOf k) else none

/-- `optionKind:` (kernel/Getopt.st:108-119); `none` is `errorBlock`, `some none` a key that is not found. -/
def optionKind (t : Tbl) (k : Key) : Option (Option Val) :=
  match t.at k with
  | none => none
  | some (.kind kd) => some (some (.kind kd))
  | some (.name c) => some (t.at c)

/-- `optionName:` (kernel/Getopt.st:121-129). -/
def optionName (t : Tbl) (k : Key) : Option Key :=
  match t.at k with
  | none => none
  | some (.kind _) => some k
  | some (.name c) => some c

/-- The last lines of `parseOption:kind:with:` (kernel/Getopt.st:150-152). -/
def finishOption (t : Tbl) (name : Key) (kind : Val) (arg : Option (List Char)) (acts : List Act) (args : List (List Char)) : Out :=
  if kind = .kind .noArg ∧ arg ≠ none then .error acts
  else match optionName t name with
    | none => .error acts
    | some full => .done (acts ++ [⟨some full, arg⟩]) args

/-- `parseOption:kind:with:` (kernel/Getopt.st:139-153). -/
def parseOption (t : Tbl) (name : Key) (kind : Val) (arg : Option (List Char)) (acts : List Act) (args : List (List Char)) : Out :=
  if kind = .kind .mandatoryArg ∧ arg = none then
    match args with
    | [] => .error acts
    | a :: args => finishOption t name kind (some a) acts args
  else finishOption t name kind arg acts args

/-- `parseLongOption:` (kernel/Getopt.st:155-171) with a stream on `xs` after `p` characters: `upTo:` (kernel/PosStream.st:345-356),
`skip:` (kernel/PosStream.st:277-283), `nextMatchFor:`, `upToEnd`. -/
def parseLong (t : Tbl) (xs : List Char) (p : ℕ) (acts : List Act) (args : List (List Char)) : Out :=
  let name := (xs.drop p).takeWhile (· ≠ '=')
  let q := if '=' ∈ xs.drop p then p + name.length + 1 else xs.length
  let q := q - 1
  match fullOptionName t name with
  | none => .error acts
  | some none => .wrong
  | some (some name) =>
    match optionKind t (.long name) with
    | none => .error acts
    | some none => .wrong
    | some (some kind) =>
      let haveArg := xs[q]? = some '='
      let arg := if haveArg then some (xs.drop (q + 1)) else none
      parseOption t (.long name) kind arg acts args

/-- `parseShortOptions:` (kernel/Getopt.st:173-188); what is left in the stream. -/
def parseShort (t : Tbl) : List Char → List Act → List (List Char) → Out
  | [], acts, args => .done acts args
  | ch :: cs, acts, args =>
    match optionKind t (.short ch) with
    | none => .error acts
    | some none => .wrong
    | some (some kind) =>
      if kind ≠ .kind .noArg ∧ cs ≠ [] then
        -- upToEnd leaves nothing for the loop
        parseOption t (.short ch) kind (some cs) acts args
      else (parseOption t (.short ch) kind none acts args).andThen fun acts args => parseShort t cs acts args

/-- The regular expression `\A(-?$|[^-])` (kernel/Getopt.st:201): `$` is also before a new line (lib-src/regex.c:1278). -/
def plainArg : List Char → Bool
  | [] => true
  | ['-'] => true
  | '-' :: c :: _ => c = '\n'
  | _ => true

/-- `parseOneArgument` (kernel/Getopt.st:190-210); `parseRemainingArguments` (kernel/Getopt.st:131-137). -/
def parseOne (t : Tbl) (arg : List Char) (acts : List Act) (args : List (List Char)) : Out :=
  if arg = ['-', '-'] then .done (acts ++ args.map fun a => ⟨none, some a⟩) []
  else if plainArg arg then .done (acts ++ [⟨none, some arg⟩]) args
  else if arg[1]? = some '-' then parseLong t arg 2 acts args
  else parseShort t (arg.drop 1) acts args

/-- `parse` (kernel/Getopt.st:212-217).  The first argument bounds the rounds; each takes an argument at least. -/
def parseLoop (t : Tbl) : ℕ → List Act → List (List Char) → Out
  | _, acts, [] => .done acts []
  | 0, _, _ => .wrong
  | n + 1, acts, a :: args => (parseOne t a acts args).andThen fun acts args => parseLoop t n acts args

/-- `parse:` (kernel/Getopt.st:352-356). -/
def parse (t : Tbl) (args : List (List Char)) : Out := parseLoop t args.length [] args

end Verif.Getopt
