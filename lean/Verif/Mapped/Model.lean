import Mathlib.Data.Nat.Notation
import Mathlib.Data.Int.Notation
import Mathlib.Data.List.Basic

/-!
# Collections seen through a map (kernel/MappedColl.st)

`none` is an error (an index or key that is not there); it leaves the method, so what an enumeration would do after it is not done.
Blocks have no effects: an enumeration answers the arguments with which it evaluates its block.
-/

namespace Verif.Mapped

/-- What a collection is indexed with: an Integer or something else. -/
inductive Key where
  | int (n : ℤ)
  | sym (s : ℕ)
  deriving DecidableEq

/-- The collections that can be used as a map or answered by `collect:`: a SequenceableCollection, or a Dictionary as its associations in the order of `do:` (kernel/MappedColl.st:39-44). -/
inductive Coll (v : Type) where
  | seq (l : List v)
  | dict (l : List (Key × v))

/-- `at:` of a SequenceableCollection (kernel/OrderColl.st:88-97). -/
def seqAt {v : Type} (l : List v) : Key → Option v
  | .int n => if 1 ≤ n then l[(n - 1).toNat]? else none
  | .sym _ => none

/-- `at:put:` of a SequenceableCollection: the collection afterwards. -/
def seqAtPut {v : Type} (l : List v) (k : Key) (x : v) : Option (List v) :=
  match k with
  | .int n => if 1 ≤ n ∧ (n - 1).toNat < l.length then some (l.set (n - 1).toNat x) else none
  | .sym _ => none

/-- `at:` of an association list: the first association with the key. -/
def assocAt {v : Type} (k : Key) : List (Key × v) → Option v
  | [] => none
  | (k', x) :: l => if k' = k then some x else assocAt k l

/-- `at:` (for a Dictionary, kernel/Dictionary.st:133-139). -/
def Coll.at {v : Type} : Coll v → Key → Option v
  | .seq l, k => seqAt l k
  | .dict l, k => assocAt k l

/-- The elements in the order of `do:` (for a Dictionary, kernel/Dictionary.st:353-358). -/
def Coll.values {v : Type} : Coll v → List v
  | .seq l => l
  | .dict l => l.map (·.2)

/-- The keys in the order of `do:` (`keys`, kernel/SeqCollect.st:873-878; kernel/Dictionary.st:346-351). -/
def Coll.keys {v : Type} : Coll v → List Key
  | .seq l => (List.range l.length).map fun i : ℕ => Key.int ((i : ℤ) + 1)
  | .dict l => l.map (·.1)

/-- `size`. -/
def Coll.size {v : Type} : Coll v → ℕ
  | .seq l => l.length
  | .dict l => l.length

/-- Evaluates a block that may fail for each element and keeps those for which it answers `b`. -/
def filterM' {a : Type} (f : a → Option Bool) (b : Bool) : List a → Option (List a)
  | [] => some []
  | x :: l => do
    let r ← f x
    let l' ← filterM' f b l
    return if r = b then x :: l' else l'

/-- `select:` for true and `reject:` for false (kernel/ArrayColl.st:275-297; kernel/Dictionary.st:380-402). -/
def Coll.select {v : Type} (f : v → Option Bool) (b : Bool) : Coll v → Option (Coll v)
  | .seq l => (filterM' f b l).map .seq
  | .dict l => (filterM' (fun e => f e.2) b l).map .dict

/-- `map` for blocks that may fail. -/
def mapM' {a b : Type} (f : a → Option b) : List a → Option (List b)
  | [] => some []
  | x :: l => do
    let r ← f x
    let l' ← mapM' f l
    return r :: l'

/-- `collect:` (kernel/ArrayColl.st:299-309, kernel/Interval.st:102-123; kernel/Dictionary.st:368-378). -/
def Coll.collect {v u : Type} (f : v → Option u) : Coll v → Option (Coll u)
  | .seq l => (mapM' f l).map .seq
  | .dict l => (mapM' (fun e => (f e.2).map fun x => (e.1, x)) l).map .dict

/-- `at:put:` of a Dictionary that is being filled. -/
def assocPut {v : Type} (k : Key) (x : v) : List (Key × v) → List (Key × v)
  | [] => [(k, x)]
  | (k', y) :: l => if k' = k then (k, x) :: l else (k', y) :: assocPut k x l

/-- `atAll:` of a Dictionary (kernel/Dictionary.st:122-131), from a list of associations to another one that has been filled so far. -/
def assocAll {v : Type} (l : List (Key × v)) : List Key → List (Key × v) → Option (List (Key × v))
  | [], r => some r
  | k :: ks, r => do
    let x ← assocAt k l
    assocAll l ks (assocPut k x r)

/-- `atAll:` (kernel/SeqCollect.st:185-195, kernel/ArrayColl.st:204-216; kernel/Dictionary.st:122-131). -/
def Coll.atAll {v : Type} : Coll v → List Key → Option (Coll v)
  | .seq l, ks => (mapM' (seqAt l) ks).map .seq
  | .dict l, ks => (assocAll l ks []).map .dict

/-- A MappedCollection (kernel/MappedColl.st:35-63). -/
structure MC (α : Type) where
  domain : List α
  map : Coll Key

variable {α β : Type}

/-- `at:` (kernel/MappedColl.st:74-79). -/
def MC.at (c : MC α) (k : Key) : Option α := (c.map.at k).bind (seqAt c.domain)

/-- `atAll:` (kernel/MappedColl.st:81-89). -/
def MC.atAll (c : MC α) (ks : List Key) : Option (MC α) := (c.map.atAll ks).map fun m => ⟨c.domain, m⟩

/-- `at:put:` (kernel/MappedColl.st:91-96): the collection afterwards. -/
def MC.atPut (c : MC α) (k : Key) (x : α) : Option (MC α) :=
  ((c.map.at k).bind fun i => seqAtPut c.domain i x).map fun d => ⟨d, c.map⟩

/-- `size` (kernel/MappedColl.st:112-117). -/
def MC.size (c : MC α) : ℕ := c.map.size

/-- `do:` (kernel/MappedColl.st:141-146), and the elements that `contents` adds to a Bag (kernel/MappedColl.st:124-132). -/
def MC.elements (c : MC α) : Option (List α) := mapM' (seqAt c.domain) c.map.values

/-- `a to: b` for Integers (kernel/Interval.st:87-100). -/
def interval (a b : ℤ) : List Key := (List.range (b - a + 1).toNat).map fun i : ℕ => Key.int (a + (i : ℤ))

/-- `copyFrom:to:` (kernel/MappedColl.st:134-139). -/
def MC.copyFromTo (c : MC α) (a b : ℤ) : Option (List α) :=
  (c.map.atAll (interval a b)).bind fun m => mapM' (seqAt c.domain) m.values

/-- `keys` (kernel/MappedColl.st:148-153). -/
def MC.keys (c : MC α) : List Key := c.map.keys

/-- `keysDo:` (kernel/MappedColl.st:163-168): sequences do not understand it (kernel/SeqCollect.st has no such method). -/
def MC.keysDo (c : MC α) : Option (List Key) :=
  match c.map with
  | .seq _ => none
  | .dict l => some (l.map (·.1))

/-- `keysAndValuesDo:` (kernel/MappedColl.st:155-161). -/
def MC.keysAndValues (c : MC α) : Option (List (Key × α)) :=
  mapM' (fun key => (c.at key).map fun x => (key, x)) c.map.values

/-- What `collect:` answers: a collection like the map, or another MappedCollection. -/
inductive Res (β : Type) where
  | plain (c : Coll β)
  | mapped (c : MC β)

/-- `at:` of what `collect:` answers. -/
def Res.at : Res β → Key → Option β
  | .plain c, k => c.at k
  | .mapped c, k => c.at k

/-- The keys of what `collect:` answers. -/
def Res.keys : Res β → List Key
  | .plain c => c.keys
  | .mapped c => c.keys

/-- `collect:` (kernel/MappedColl.st:170-183). -/
def MC.collect (c : MC α) (f : α → β) : Option (Res β) :=
  if c.map.size < c.domain.length then
    (c.map.collect fun key => (c.at key).map f).map .plain
  else some (.mapped ⟨c.domain.map f, c.map⟩)

/-- `select:` for true and `reject:` for false (kernel/MappedColl.st:185-201). -/
def MC.select (c : MC α) (p : α → Bool) (b : Bool) : Option (MC α) :=
  (c.map.select (fun key => (c.at key).map p) b).map fun m => ⟨c.domain, m⟩

end Verif.Mapped
