import Verif.Strings.Split
import Mathlib.Data.Nat.Digits.Defs

/-!
# URLs

kernel/URL.st.  Texts are lists of characters; `nil` is `none`.
-/

namespace Verif.Url
open Verif.Strings

abbrev Txt := List Char

/-! ### x-www-form-urlencoded -/

/-- `isAlphaNumeric` (kernel/Character.st:60-92, 315-320): the table has 48 for digits, 55 and 3 for letters of ASCII. -/
def isAlphaNumeric (c : Char) : Bool := ('0' ≤ c ∧ c ≤ '9') ∨ ('A' ≤ c ∧ c ≤ 'Z') ∨ ('a' ≤ c ∧ c ≤ 'z')

/-- `NoPercentEncoding` (kernel/URL.st:89-97). -/
def noPercent (c : Char) : Bool := c ∈ "abcdefghijklmnopqrstuvwxyzABCDEFGHIJKLMNOPQRSTUVWXYZ -_.*0123456789".toList

/-- `'0123456789ABCDEF' at: n + 1` (kernel/URL.st:83-84). -/
def hexChar (n : ℕ) : Char := "0123456789ABCDEF".toList.getD n ' '

/-- `URL class>>encode:` (kernel/URL.st:67-87); characters above 255 are not in the table. -/
def encode : Txt → Out Txt
  | [] => .done []
  | c :: cs =>
    if c = ' ' then (encode cs).bind fun r => .done ('+' :: r)
    else if 256 ≤ c.toNat then .error
    else if noPercent c then (encode cs).bind fun r => .done (c :: r)
    else (encode cs).bind fun r => .done ('%' :: hexChar (c.toNat / 16) :: hexChar (c.toNat % 16) :: r)

/-- `URL class>>decode:` (kernel/URL.st:48-65).  `digitValue` (kernel/Character.st:255-267) is an error for lower case, and `next` past
the end answers nil, that has none.  Values above 255 (with digits after F) are taken as an error: they do not go into a String. -/
def decode : Txt → Out Txt
  | [] => .done []
  | '+' :: cs => (decode cs).bind fun r => .done (' ' :: r)
  | '%' :: a :: b :: cs =>
    match digitValue a, digitValue b with
    | some x, some y => if 256 ≤ x * 16 + y then .error else (decode cs).bind fun r => .done (Char.ofNat (x * 16 + y) :: r)
    | _, _ => .error
  | ['%', _] => .error
  | ['%'] => .error
  | c :: cs => (decode cs).bind fun r => .done (c :: r)

/-! ### Parsing -/

structure URL where
  scheme : Option Txt
  username : Option Txt
  password : Option Txt
  host : Option Txt
  port : ℤ
  path : Option Txt
  query : Option Txt
  fragment : Option Txt
  deriving DecidableEq, Repr

/-- `[read atEnd or: [(ch := read next) ...]] whileFalse: [write nextPut: ch]`: what was written, the last character read, what is left. -/
def readUntil (stop : Char → Bool) (ch : Option Char) : Txt → Txt × Option Char × Txt
  | [] => ([], ch, [])
  | c :: cs => if stop c then ([], some c, cs) else let r := readUntil stop (some c) cs; (c :: r.1, r.2)

/-- What is known of the part after `//`. -/
structure Auth where
  username : Option Txt
  password : Option Txt
  host : Option Txt
  port : Option Txt

/-- `write isEmpty ifFalse: [x := write contents]`. -/
def keep (old : Option Txt) (w : Txt) : Option Txt := if w = [] then old else some w

/-- The loop for host and port, user and password (kernel/URL.st:255-281), in so many rounds: what was found, the last character, what is
left. -/
def authLoop : ℕ → Auth → Option Char → Txt → Out (Auth × Option Char × Txt)
  | 0, _, _, _ => .never
  | n + 1, a, ch, read =>
    let r := readUntil (fun c => c = '/' ∨ c = ':' ∨ c = '@') ch read
    let a := { a with host := keep a.host r.1 }
    let s := if r.2.1 = some ':' then readUntil (fun c => c = '/' ∨ c = '@') r.2.1 r.2.2 else ([], r.2)
    let a := { a with port := keep a.port s.1 }
    if s.2.1 = some '@' then
      let a := if a.host ≠ none then { a with username := a.host, host := none } else a
      let a := if a.port ≠ none then { a with password := a.port, port := none } else a
      authLoop n a s.2.1 s.2.2
    else .done (a, s.2)

/-- `fromURLString:` (kernel/URL.st:198-292). -/
def fromURLString (n : ℕ) (xs : Txt) : Out URL :=
  let r := readUntil (fun c => !isAlphaNumeric c && c ≠ '+') none xs
  let noScheme : Bool := r.1 = [] ∨ r.2.1 ≠ some ':'
  let scheme := if noScheme then none else some r.1
  let read := if noScheme then xs else r.2.2
  if read.take 2 = ['/', '/'] then
    (authLoop n ⟨none, none, none, none⟩ r.2.1 (read.drop 2)).bind fun s =>
      let a := s.1
      let port := match a.port with
        | none => 0
        | some p => asInteger p
      let path := if s.2.2 = [] then none else some (s.2.1.toList ++ s.2.2)
      .done ⟨scheme, a.username, a.password, a.host, port, path, none, none⟩
  else .done ⟨scheme, none, none, none, 0, if read = [] then none else some read, none, none⟩

/-- `indexOf:` (kernel/SeqCollect.st: 0 if absent). -/
def indexOf (c : Char) (xs : Txt) : ℕ := if c ∈ xs then xs.idxOf c + 1 else 0

/-- `indexOf:startingAt:ifAbsent:` with the size and one if absent. -/
def indexFrom (c : Char) (xs : Txt) (i : ℕ) : ℕ := if c ∈ xs.drop (i - 1) then (xs.drop (i - 1)).idxOf c + i else xs.length + 1

/-- `URL class>>fromString:` (kernel/URL.st:99-145). -/
def fromString (n : ℕ) (xs : Txt) : Out URL :=
  let q := indexOf '?' xs
  let f := indexOf '#' xs
  let limit := if q ≠ 0 then q else xs.length + 1
  let limit := if f ≠ 0 then min limit f else limit
  (fromURLString n (copyFrom xs 1 (limit - 1))).bind fun u =>
    let u := if q > 0 then { u with query := some (copyFrom xs (q + 1) (indexFrom '#' xs (q + 1) - 1)) } else u
    .done (if f > 0 then { u with fragment := some (copyFrom xs (f + 1) (indexFrom '?' xs (f + 1) - 1)) } else u)

/-- The decimal digits of a positive number. -/
def decimal (p : ℕ) : Txt := ((Nat.digits 10 p).reverse.map (Fin.ofNat 10)).map digitChar

/-- `printOn:` (kernel/URL.st:759-797). -/
def print (u : URL) : Txt :=
  (match u.scheme with
    | some s => s ++ [':']
    | none => []) ++
  (match u.host with
    | some h =>
      (if u.scheme ≠ none then ['/', '/'] else []) ++
      (match u.username with
        | some n => n ++ (match u.password with
            | some p => ':' :: p
            | none => []) ++ ['@']
        | none => []) ++ h ++
      (if u.port > 0 then ':' :: decimal u.port.toNat else [])
    | none => []) ++
  u.path.getD ['/'] ++
  (match u.query with
    | some q => '?' :: q
    | none => []) ++
  (match u.fragment with
    | some f => '#' :: f
    | none => [])

/-! ### Relative paths -/

/-- One component (kernel/URL.st:394-400, 408-413). -/
def pathStep (stack : List Txt) (p : Txt) : List Txt :=
  if p = [] ∨ p = ['.'] then stack else if p = ['.', '.'] then stack.dropLast else stack ++ [p]

/-- `[read atEnd] whileFalse: [p := read upTo: sep. ...]`, in so many rounds. -/
def pathLoop : ℕ → Txt → List Txt → List Txt
  | 0, _, st => st
  | n + 1, xs, st => if xs = [] then st else let r := upTo '/' xs; pathLoop n r.2 (pathStep st r.1)

/-- `constructPath:with:` (kernel/URL.st:385-422). -/
def constructPath (p1 p2 : Txt) : Txt :=
  let st := if p2.head? = some '/' then []
    else
      let st := pathLoop p1.length p1 []
      if p1.getLast? = some '/' then st else st.dropLast
  let st := pathLoop p2.length p2 st
  if st = [] then ['/']
  else st.flatMap (fun p => '/' :: p) ++ if p2.getLast? = some '/' then ['/'] else []

/-! ### Comparing -/

/-- `sameAs:` (kernel/CharArray.st:121-128, 689-708), of things that may be nil; nil does not understand it unless both are nil. -/
def sameOrNil (a b : Option Txt) : Out Bool :=
  match a, b with
  | none, none => .done true
  | some x, some y => .done (x.map lower = y.map lower)
  | none, some _ => .error
  | some _, none => .error

/-- `=` (kernel/URL.st:294-310), when `hash` is some function of texts (kernel/URL.st:312-317).  Then `decodedFile` is sent, and it
sends `file` (kernel/URL.st:545-551), that URLs do not understand. -/
def equal (hash : Txt → ℕ) (a b : URL) : Out Bool :=
  (decode (print a)).bind fun x => (decode (print b)).bind fun y =>
    if hash x ≠ hash y then .done false
    else
      (sameOrNil a.scheme b.scheme).bind fun s =>
        if !s then .done false
        else (sameOrNil a.host b.host).bind fun h => if !h then .done false else if a.port ≠ b.port then .done false else .error

/-- `newsGroup` (kernel/URL.st:619-632): `((scheme = 'nntp') | scheme) = 'news'`. -/
def newsGroup (u : URL) : Option Txt :=
  let test : Bool := if u.scheme = some "nntp".toList then false else u.scheme = some "news".toList
  match u.path with
  | some p => if test then some (copyFrom p 2 (indexFrom '/' p 2 - 1)) else none
  | none => none

/-! ### Forms -/

/-- A value in the dictionary. -/
inductive Entry where
  | one (v : Option Txt)
  | many (vs : List (Option Txt))
  deriving DecidableEq, Repr

abbrev Dict := List (Txt × Entry)

/-- `add:to:value:` (kernel/URL.st:360-372); nil does not understand `add:`. -/
def addField (d : Dict) (k : Txt) (v : Option Txt) : Out Dict :=
  match d.lookup k with
  | none => .done (d ++ [(k, .one v)])
  | some (.one none) => .error
  | some (.one (some w)) => .done (d.map fun e => if e.1 = k then (k, .many [some w, v]) else e)
  | some (.many vs) => .done (d.map fun e => if e.1 = k then (k, .many (vs ++ [v])) else e)

/-- `decodedFields` (kernel/URL.st:509-536). -/
def decodeFields : List Txt → Dict → Out Dict
  | [], d => .done d
  | kv :: kvs, d =>
    let i := if '=' ∈ kv then kv.idxOf '=' + 1 else kv.length + 1
    let key := copyFrom kv 1 (i - 1)
    (if i < kv.length then (decode (copyFrom kv (i + 1) kv.length)).bind fun v => .done (some v) else .done none).bind fun v =>
      (addField d key v).bind fun d => decodeFields kvs d

def decodedFields (u : URL) : Out (Option Dict) :=
  match u.query with
  | none => .done none
  | some q => (decodeFields (subStrings (· = '&') q) []).bind fun d => .done (some d)

end Verif.Url
