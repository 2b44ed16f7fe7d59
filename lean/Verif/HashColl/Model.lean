import Verif.Hash.Remove

/-!
# Model of the hashed collections of the class library

`kernel/HashedColl.st`, `kernel/Set.st`, `kernel/IdentitySet.st`,
`kernel/Dictionary.st`, `kernel/LookupTable.st`, `kernel/IdentDict.st`.

Indexed instance variables are numbered from 1, as in the sources; `none` is `nil`.
`key` maps an entry to what it is compared by: two entries (or an entry and the argument
of a search) are equal exactly when their `key`s are; for a `Set` whose elements
implement a proper equivalence `=` it is the equivalence class, for an `IdentitySet` the
object itself, for dictionaries the class of the key.  `hashF` and `hashE` are the
scrambled hashes (`… scramble`, as a non-negative number, which is all `bitAnd:` sees of
it) used by `findIndex:` and by `findElementIndex:`; the sources compute them by separate
methods.  An endless loop (`repeat` on a table without `nil`) is `none`.
Non-`nil` arguments only.
-/

namespace Verif.HashColl

open Verif.Hash

structure Table (α : Type) where
  size : Nat
  at_ : Nat → Option α
  tally : Nat

variable {α K : Type} [DecidableEq K] (key : α → K) (hashF hashE : K → Nat)

/-- `bitAnd:`, `highBit` rounding in `HashedCollection class >> new:`:
HashedColl.st:54-63. -/
def realSize (anInteger : Nat) : Nat :=
  let r := max 8 ((anInteger * 4 + 2) / 3)
  if r &&& (r - 1) = 0 then r else 2 ^ (Nat.log2 r + 1)

/-- `HashedCollection class >> new:`: HashedColl.st:54-63. -/
def new (anInteger : Nat) : Table α := ⟨realSize anInteger, fun _ => none, 0⟩

/-- `primAt:put:` -/
def primAtPut (t : Table α) (i : Nat) (a : Option α) : Table α :=
  { t with at_ := update t.at_ i a }

/-- `index == size ifTrue: [index := 1] ifFalse: [index := index + 1]` -/
def next (size index : Nat) : Nat := if index = size then 1 else index + 1

/-- The loop of `findIndex:`: Set.st:129-132, IdentitySet.st:66-69, Dictionary.st:588-591,
LookupTable.st:345-348, IdentDict.st:82-85. -/
def findIndexLoop (t : Table α) (k : K) : Nat → Nat → Option Nat
  | 0, _ => none
  | fuel + 1, index =>
    match t.at_ index with
    | none => some index
    | some a => if key a = k then some index else findIndexLoop t k fuel (next t.size index)

/-- `findIndex:`: Set.st:120-133 and the others cited at the loop.  After `size` steps
the loop is back where it started, so `size` is enough fuel. -/
def findIndex (t : Table α) (k : K) : Option Nat :=
  findIndexLoop key t k t.size ((hashF k &&& (t.size - 1)) + 1)

/-- The loop of `findElementIndex:`: HashedColl.st:339-342, Dictionary.st:573-576,
LookupTable.st:330-333, IdentDict.st:66-69. -/
def findElementLoop (t : Table α) : Nat → Nat → Option Nat
  | 0, _ => none
  | fuel + 1, index =>
    match t.at_ index with
    | none => some index
    | some _ => findElementLoop t fuel (next t.size index)

/-- `findElementIndex:`: HashedColl.st:329-343 and the others cited at the loop. -/
def findElementIndex (t : Table α) (a : α) : Option Nat :=
  findElementLoop t t.size ((hashE (key a) &&& (t.size - 1)) + 1)

/-- `capacity`: HashedColl.st:157-162. -/
def capacity (t : Table α) : Nat := t.size * 3 / 4

/-- `addWhileGrowing:`: HashedColl.st:274-282. -/
def addWhileGrowing (t : Table α) (a : α) : Option (Table α) := do
  let j ← findElementIndex key hashE t a
  some { primAtPut t j (some a) with tally := t.tally + 1 }

/-- The entries in slot order; `do:` (HashedColl.st:195-201) passes them to the block. -/
def elements (t : Table α) : List α := (List.range t.size).filterMap (fun i => t.at_ (i + 1))

/-- `copyAllFrom:`, seen as adding a list of entries in order: HashedColl.st:291-300,
Dictionary.st:517-527 (which makes new associations with the same key and value),
LookupTable.st:259-269. -/
def addAllWhileGrowing (t : Table α) : List α → Option (Table α)
  | [] => some t
  | a :: as => do
    let t ← addWhileGrowing key hashE t a
    addAllWhileGrowing t as

/-- `growBy:` up to the `become:`, HashedColl.st:369-378; `copyEmpty:` is `new:`
(Collection.st:524-529). -/
def growBy (t : Table α) (delta : Nat) : Option (Table α) :=
  addAllWhileGrowing key hashE (new (capacity t + delta)) (elements t)

/-- `shallowCopy`: HashedColl.st:112-120. -/
def shallowCopy (t : Table α) : Option (Table α) :=
  addAllWhileGrowing key hashE (new (capacity t)) (elements t)

/-- `incrementTally`: HashedColl.st:255-264.  Answers whether the table has grown. -/
def incrementTally (t : Table α) : Option (Bool × Table α) :=
  if t.tally ≥ t.size * 3 / 4 then do
    let t ← growBy key hashE t (capacity t)
    some (true, { t with tally := t.tally + 1 })
  else some (false, { t with tally := t.tally + 1 })

/-- `rehash`: HashedColl.st:223-239 (and LookupTable.st:180-200, Dictionary.st:506-515):
take everything out, then add it again. -/
def rehash (t : Table α) : Option (Table α) :=
  addAllWhileGrowing key hashE ⟨t.size, fun _ => none, 0⟩ (elements t)

/-- The loop of `rehashObjectsAfter:`: HashedColl.st:313-319. -/
def rehashAfterLoop : Nat → Table α → Nat → Option (Table α)
  | 0, _, _ => none
  | fuel + 1, t, i =>
    let i := next t.size i
    match t.at_ i with
    | none => some t
    | some a => do
      let t := primAtPut t i none
      let j ← findElementIndex key hashE t a
      rehashAfterLoop fuel (primAtPut t j (some a)) i

/-- `rehashObjectsAfter:`: HashedColl.st:302-320. -/
def rehashObjectsAfter (t : Table α) (index : Nat) : Option (Table α) :=
  rehashAfterLoop key hashE t.size t index

/-- `add:` for sets: HashedColl.st:84-96. -/
def add (t : Table α) (a : α) : Option (Table α) := do
  let index ← findIndex key hashF t (key a)
  match t.at_ index with
  | some _ => some t
  | none =>
    let (grown, t) ← incrementTally key hashE t
    let index ← (if grown then findIndex key hashF t (key a) else some index : Option Nat)
    some (primAtPut t index (some a))

/-- `remove:ifAbsent:` (HashedColl.st:98-110) and `removeKey:ifAbsent:` of dictionaries
(Dictionary.st:324-337).  Answers the entry removed, `none` when the block is evaluated. -/
def remove (t : Table α) (k : K) : Option (Option α × Table α) := do
  let index ← findIndex key hashF t k
  match t.at_ index with
  | none => some (none, t)
  | some a => do
    let t := primAtPut t index none
    let t := { t with tally := t.tally - 1 }
    let t ← rehashObjectsAfter key hashE t index
    some (some a, t)

/-- `includes:` of sets, `includesKey:` of dictionaries: HashedColl.st:133-138,
Dictionary.st:238-243, `findIndexOrNil:` HashedColl.st:353-362. -/
def includes (t : Table α) (k : K) : Option Bool := do
  let index ← findIndex key hashF t k
  some (t.at_ index).isSome

/-- `associationAt:ifAbsent:` and, up to taking the value, `at:ifAbsent:` of Dictionary:
Dictionary.st:142-150, 181-189. -/
def entryAt (t : Table α) (k : K) : Option (Option α) := do
  let index ← findIndex key hashF t k
  some (t.at_ index)

/-! ## Dictionary

Entries are associations; `O` is the class of keys, `V` of values.  An association is
modelled by its current key and value; that two dictionaries may share one association
is not modelled here. -/

section
variable {O V : Type} (cls : O → K)

/-- `Dictionary >> at:put:`: Dictionary.st:108-120. -/
def dictAtPut (t : Table (O × V)) (k : O) (v : V) : Option (Table (O × V)) := do
  let index ← findIndex (fun e : O × V => cls e.1) hashF t (cls k)
  match t.at_ index with
  | some assoc => some (primAtPut t index (some (assoc.1, v)))
  | none =>
    let (grown, t) ← incrementTally (fun e : O × V => cls e.1) hashE t
    let index ← (if grown then findIndex (fun e : O × V => cls e.1) hashF t (cls k)
      else some index : Option Nat)
    some (primAtPut t index (some (k, v)))

/-! ## LookupTable, IdentityDictionary -/

/-- Keys at odd, values at even indexed instance variables: LookupTable.st:288-311. -/
structure LTable (O V : Type) where
  prim : Table O
  value : Nat → V

variable (nilV : V)

/-- `valueAt:put:`: LookupTable.st:308-311. -/
def valueAtPut (t : LTable O V) (i : Nat) (v : V) : LTable O V :=
  { t with value := fun j => if j = i then v else t.value j }

/-- `whileGrowingAt:put:`: LookupTable.st:276-286. -/
def lWhileGrowing (t : LTable O V) (k : O) (v : V) : Option (LTable O V) := do
  let index ← findElementIndex cls hashE t.prim k
  let t := { t with prim := primAtPut t.prim index (some k) }
  let t := valueAtPut t index v
  some { t with prim := { t.prim with tally := t.prim.tally + 1 } }

/-- `copyAllFrom:`: LookupTable.st:259-269, from index `index` on, `m` steps. -/
def lCopyAllFrom (t : LTable O V) (src : LTable O V) : Nat → Option (LTable O V)
  | 0 => some t
  | m + 1 => do
    let t ← lCopyAllFrom t src m
    match src.prim.at_ (m + 1) with
    | none => some t
    | some k => lWhileGrowing hashE cls t k (src.value (m + 1))

/-- `incrementTally` with `growBy:` and LookupTable's `copyAllFrom:`. -/
def lIncrementTally (t : LTable O V) : Option (Bool × LTable O V) :=
  if t.prim.tally ≥ t.prim.size * 3 / 4 then do
    let t ← lCopyAllFrom hashE cls ⟨new (capacity t.prim + capacity t.prim), fun _ => nilV⟩ t
      t.prim.size
    some (true, { t with prim := { t.prim with tally := t.prim.tally + 1 } })
  else some (false, { t with prim := { t.prim with tally := t.prim.tally + 1 } })

/-- `at:put:`: LookupTable.st:65-77. -/
def lAtPut (t : LTable O V) (k : O) (v : V) : Option (LTable O V) := do
  let index ← findIndex cls hashF t.prim (cls k)
  match t.prim.at_ index with
  | some _ => some (valueAtPut t index v)
  | none =>
    let (grown, t) ← lIncrementTally hashE cls nilV t
    let index ← (if grown then findIndex cls hashF t.prim (cls k) else some index : Option Nat)
    some (valueAtPut { t with prim := primAtPut t.prim index (some k) } index v)

/-- `at:ifAbsent:`: LookupTable.st:79-87; `none` inside means the block is evaluated. -/
def lAt (t : LTable O V) (k : K) : Option (Option V) := do
  let index ← findIndex cls hashF t.prim k
  some ((t.prim.at_ index).map (fun _ => t.value index))

/-- The loop of `rehashObjectsAfter:`: LookupTable.st:246-256. -/
def lRehashAfterLoop : Nat → LTable O V → Nat → Option (LTable O V)
  | 0, _, _ => none
  | fuel + 1, t, i =>
    let i := next t.prim.size i
    match t.prim.at_ i with
    | none => some t
    | some k => do
      let t := { t with prim := primAtPut t.prim i none }
      let j ← findElementIndex cls hashE t.prim k
      let t := { t with prim := primAtPut t.prim j (some k) }
      let t := if j = i then t else valueAtPut (valueAtPut t j (t.value i)) i nilV
      lRehashAfterLoop fuel t i

/-- `removeKey:ifAbsent:`: LookupTable.st:128-142. -/
def lRemoveKey (t : LTable O V) (k : K) : Option (Option V × LTable O V) := do
  let index ← findIndex cls hashF t.prim k
  match t.prim.at_ index with
  | none => some (none, t)
  | some _ => do
    let value := t.value index
    let t := { t with prim := primAtPut t.prim index none }
    let t := valueAtPut t index nilV
    let t := { t with prim := { t.prim with tally := t.prim.tally - 1 } }
    let t ← lRehashAfterLoop hashE cls nilV t.prim.size t index
    some (some value, t)

end

end Verif.HashColl
