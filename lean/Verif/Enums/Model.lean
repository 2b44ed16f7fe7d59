/-
Model of the searches and counts that every collection inherits:
kernel/Iterable.st, kernel/Collection.st, kernel/SeqCollect.st and the removal
of an element from an OrderedCollection (kernel/OrderColl.st).

A collection is the list of the elements that `do:` passes, in that order.
Blocks given by the user may have effects: a block is a function of the
argument and of a state, which answers a value and the new state.  A block
that changes the collection which is being enumerated is not modelled, nor
are blocks that answer something which is not a Boolean.
-/
namespace Verif.Enums

/-- A one-argument block with effects on a state `S`. -/
abbrev Blk (E S α : Type) := E → S → α × S

/-- `do:` with a block that may leave the method with `^result`
    (`some result`) or go on (`none`): kernel/Iterable.st:80-88 and
    kernel/SeqCollect.st:820-827. -/
def doEx {E S R : Type} (b : Blk E S (Option R)) : List E → S → Option R × S
  | [], s => (none, s)
  | x :: l, s =>
    match b x s with
    | (some r, s') => (some r, s')
    | (none, s') => doEx b l s'

/-- The block `[:x | (aBlock value: x) ifTrue: [^r]]` of the methods below. -/
def ifTrueLeave {E S R : Type} (r : E → R) (b : Blk E S Bool) : Blk E S (Option R) :=
  fun x s => match b x s with
    | (true, s') => (some (r x), s')
    | (false, s') => (none, s')

/-- The block `[:x | (aBlock value: x) ifFalse: [^r]]` of the methods below. -/
def ifFalseLeave {E S R : Type} (r : E → R) (b : Blk E S Bool) : Blk E S (Option R) :=
  fun x s => match b x s with
    | (false, s') => (some (r x), s')
    | (true, s') => (none, s')

/-- What the method answers after the enumeration, when the block did not leave
    it. -/
def orElse {S R : Type} (d : R) (p : Option R × S) : R × S := (p.1.getD d, p.2)

/-- `detect:ifNone:`, kernel/Iterable.st:127-135; `none` is where the block for
    a missing element is evaluated, and where `detect:` (l. 193-200) fails. -/
def detect {E S : Type} (b : Blk E S Bool) (l : List E) (s : S) : Option E × S :=
  doEx (ifTrueLeave (fun x => x) b) l s

/-- `anySatisfy:` and `contains:`, kernel/Iterable.st:166-173, 184-191. -/
def anySatisfy {E S : Type} (b : Blk E S Bool) (l : List E) (s : S) : Bool × S :=
  orElse false (doEx (ifTrueLeave (fun _ => true) b) l s)

/-- `allSatisfy:` and `conform:`, kernel/Iterable.st:148-155, 175-182. -/
def allSatisfy {E S : Type} (b : Blk E S Bool) (l : List E) (s : S) : Bool × S :=
  orElse true (doEx (ifFalseLeave (fun _ => false) b) l s)

/-- `noneSatisfy:`, kernel/Iterable.st:157-164. -/
def noneSatisfy {E S : Type} (b : Blk E S Bool) (l : List E) (s : S) : Bool × S :=
  orElse true (doEx (ifTrueLeave (fun _ => false) b) l s)

/-- `do:` with a block that never leaves the method. -/
def doAll {E S : Type} (b : E → S → S) : List E → S → S
  | [], s => s
  | x :: l, s => doAll b l (b x s)

/-- The block of `count:`, with the local variable in the state. -/
def countOne {E S : Type} (b : Blk E S Bool) (x : E) (p : Nat × S) : Nat × S :=
  match b x p.2 with
  | (true, s') => (p.1 + 1, s')
  | (false, s') => (p.1, s')

/-- `count:`, kernel/Iterable.st:137-146: the local variable is part of the
    state of the enumeration. -/
def count {E S : Type} (b : Blk E S Bool) (l : List E) (s : S) : Nat × S :=
  doAll (countOne b) l (0, s)

/-- `inject:into:`, kernel/Iterable.st:221-231. -/
def inject {E S A : Type} (b : A → E → S → A × S) (a : A) (l : List E) (s : S) : A × S :=
  doAll (fun x p => b p.1 x p.2) l (a, s)

/-- The block of `fold:`, with the local variable `result` in the state. -/
def foldOne {E S : Type} (b : E → E → S → E × S) (x : E) (p : Option E × S) : Option E × S :=
  match p.1 with
  | none => (some x, p.2)
  | some r => (some (b r x p.2).1, (b r x p.2).2)

/-- `fold:` of any Iterable, kernel/Iterable.st:202-219.  `none` is the marker,
    an object just made that no block can answer; as an answer it stands for
    the error EmptyCollection. -/
def fold {E S : Type} (b : E → E → S → E × S) (l : List E) (s : S) : Option E × S :=
  doAll (foldOne b) l (none, s)

/-- `do:separatedBy:` of any Iterable, kernel/Iterable.st:90-101; the variable
    `first` is part of the state of the enumeration. -/
def sepBy {E S : Type} (b : E → S → S) (sep : S → S) (l : List E) (s : S) : S :=
  (doAll (fun x (p : Bool × S) =>
    if p.1 then (false, b x p.2) else (false, b x (sep p.2))) l (true, s)).2

/-- The loop `i to: self size do:` where `n` more indices are to be visited;
    `at:` answers the element at a 1-based index. -/
def upTo {E S : Type} (b : E → S → S) (l : List E) : Nat → Nat → S → S
  | 0, _, s => s
  | n + 1, i, s =>
    match l[i - 1]? with
    | some x => upTo b l n (i + 1) (b x s)
    | none => s

/-- `do:separatedBy:` of a SequenceableCollection,
    kernel/SeqCollect.st:829-841. -/
def seqSepBy {E S : Type} (b : E → S → S) (sep : S → S) (l : List E) (s : S) : S :=
  match l[0]? with
  | none => s
  | some x => upTo (fun y s => b y (sep s)) l (l.length - 1) 2 (b x s)

/-- `fold:` of a SequenceableCollection, kernel/SeqCollect.st:853-871. -/
def seqFold {E S : Type} (b : E → E → S → E × S) (l : List E) (s : S) : Option E × S :=
  match l[0]? with
  | none => (none, s)
  | some x =>
    match upTo (fun y (p : E × S) => b p.1 y p.2) l (l.length - 1) 2 (x, s) with
    | (r, s') => (some r, s')

/-- A block without effects. -/
def pure {E : Type} (f : E → Bool) : Blk E Unit Bool := fun x _ => (f x, ())

/-- `includes:`, kernel/Collection.st:250-256: the argument is the receiver of
    `=`. -/
def includes {E : Type} (eq : E → E → Bool) (l : List E) (a : E) : Bool :=
  (orElse false (doEx (ifTrueLeave (fun _ => true) (pure (eq a))) l ())).1

/-- `includesAllOf:`, kernel/Collection.st:236-241. -/
def includesAllOf {E : Type} (eq : E → E → Bool) (l c : List E) : Bool :=
  (allSatisfy (pure fun x => includes eq c x) l ()).1

/-- `includesAnyOf:`, kernel/Collection.st:243-248. -/
def includesAnyOf {E : Type} (eq : E → E → Bool) (l c : List E) : Bool :=
  (anySatisfy (pure fun x => includes eq c x) l ()).1

/-- `occurrencesOf:`, kernel/Collection.st:280-288, which Array,
    OrderedCollection and String inherit; `same` is `==`. -/
def occurrencesOf {E : Type} (same : E → E → Bool) (l : List E) (a : E) : Nat :=
  doAll (fun x n => if same a x then n + 1 else n) l 0

/-- `remove:ifAbsent:` of an OrderedCollection, kernel/OrderColl.st:338-347 with
    `indexOf:startingAt:ifAbsent:`, kernel/SeqCollect.st:380-397: the first
    element equal to the argument goes away.  The second component tells
    whether it was found. -/
def remove {E : Type} (eq : E → E → Bool) (a : E) : List E → List E × Bool
  | [] => ([], false)
  | x :: l =>
    if eq x a then (l, true)
    else
      let r := remove eq a l
      (x :: r.1, r.2)

/-- `removeAll:ifAbsent: []`, kernel/Collection.st:211-219. -/
def removeAll {E : Type} (eq : E → E → Bool) : List E → List E → List E
  | [], l => l
  | a :: as, l => removeAll eq as (remove eq a l).1

/-- `removeAllSuchThat:`, kernel/Collection.st:177-182, for a block without
    effects; `select:` is the list of the elements that the block accepts
    (kernel/ArrayColl.st and kernel/SeqCollect.st). -/
def removeAllSuchThat {E : Type} (eq : E → E → Bool) (p : E → Bool) (l : List E) : List E :=
  removeAll eq (l.filter p) l

/-- `copyWithout:`, kernel/Collection.st:509-515 and kernel/ArrayColl.st:240-260. -/
def copyWithout {E : Type} (eq : E → E → Bool) (a : E) (l : List E) : List E :=
  l.filter fun x => !eq x a

end Verif.Enums
