import Mathlib.Data.List.Sort

/-
Model of kernel/Bag.st: a collection that remembers how many times each object
was added.

The dictionary `contents` (a LookupTable, kernel/HashedColl.st and
kernel/Dictionary.st, whose tables are modelled in Verif/HashColl) is here the
list of its keys and values, in the order in which they are enumerated.  Objects
are compared with `=`; equal objects are not told apart.  The class of the
dictionary (IdentityBag) and `copy` are not modelled.
-/
namespace Verif.Bag

variable {E : Type} [DecidableEq E]

/-- The contents of a Bag: distinct objects and their counts. -/
abbrev Contents (E : Type) := List (E × Int)

/-- `at:ifAbsent: [0]` of the dictionary: `occurrencesOf:`,
    kernel/Bag.st:112-117. -/
def occurrencesOf (x : E) : Contents E → Int
  | [] => 0
  | (k, n) :: c => if k = x then n else occurrencesOf x c

/-- `includesKey:`: `includes:`, kernel/Bag.st:119-124. -/
def includes (x : E) (c : Contents E) : Bool := c.any fun p => p.1 == x

/-- `at:put:` of the dictionary. -/
def atPut (x : E) (n : Int) : Contents E → Contents E
  | [] => [(x, n)]
  | (k, m) :: c => if k = x then (k, n) :: c else (k, m) :: atPut x n c

/-- `removeKey:` of the dictionary, for a key that is there. -/
def removeKey (x : E) : Contents E → Contents E
  | [] => []
  | (k, m) :: c => if k = x then c else (k, m) :: removeKey x c

/-- `add:withOccurrences:`, kernel/Bag.st:58-73, with an object that is not nil
    (for nil the method fails before it changes anything). -/
def addOcc (x : E) (n : Int) (c : Contents E) : Contents E :=
  let m := occurrencesOf x c + n
  let c' := atPut x m c
  if m ≤ 0 then removeKey x c' else c'

/-- `add:`, kernel/Bag.st:75-82. -/
def add (x : E) (c : Contents E) : Contents E := addOcc x 1 c

/-- `remove:ifAbsent:`, kernel/Bag.st:84-100; the second component is false when
    the exception block is evaluated. -/
def remove (x : E) (c : Contents E) : Contents E × Bool :=
  let count := occurrencesOf x c
  if count = 0 then (c, false)
  else if count = 1 then (removeKey x c, true)
  else (atPut x (count - 1) c, true)

/-- `size`, kernel/Bag.st:126-134. -/
def size : Contents E → Int
  | [] => 0
  | (_, n) :: c => n + size c

/-- `do:`, kernel/Bag.st:158-168: the objects passed to the block, with
    `timesRepeat:` (kernel/Integer.st:58-65), which does nothing for a negative
    receiver. -/
def doList : Contents E → List E
  | [] => []
  | (k, n) :: c => List.replicate n.toNat k ++ doList c

/-- `asSet`, kernel/Bag.st:151-156. -/
def asSet (c : Contents E) : List E := c.map Prod.fst

/-- `=` of two Bags of the same class, kernel/Bag.st:143-149, with `=` of
    dictionaries, kernel/Dictionary.st:404-415. -/
def bagEq (a b : Contents E) : Bool :=
  a.length == b.length && a.all fun p => includes p.1 b && p.2 == occurrencesOf p.1 b

/-- `sortedByCount`, kernel/Bag.st:102-110: Associations from counts to objects,
    added to a SortedCollection whose sort block is `x >= y`, which compares the
    keys (kernel/LookupKey.st, kernel/Magnitude.st:69-74).  Simplified: the
    place of an element among those with the same count (the SortedCollection is
    modelled in Verif/SortColl). -/
def sortedByCount (c : Contents E) : List (Int × E) :=
  (c.map fun p => (p.2, p.1)).insertionSort fun a b => a.1 ≥ b.1

/-! ### `storeOn:` -/

/-- What `storeOn:` writes after `(Bag new`: a message with its arguments or a
    semicolon. -/
inductive Tok (E : Type)
  | add (x : E) (n : Int)
  | yourself
  | semi
  deriving DecidableEq

/-- `storeOn:`, kernel/Bag.st:170-191: each message is followed by `;`, and
    then comes `; yourself` unless there was none. -/
def store (c : Contents E) : List (Tok E) :=
  c.flatMap (fun p => [.add p.1 p.2, .semi]) ++ if c = [] then [] else [.semi, .yourself]

/-- `parse_cascaded_messages`, libgst/gst-parse.c:2134-2172: a message must
    follow each semicolon.  The messages that follow the first one, and `none`
    for an error; anything else than a semicolon ends the cascade, and then the
    closing parenthesis is expected. -/
def cascade : List (Tok E) → Option (List (Tok E))
  | [] => some []
  | .semi :: .add x n :: l => (cascade l).map (.add x n :: ·)
  | .semi :: .yourself :: l => (cascade l).map (.yourself :: ·)
  | _ => none

/-- The messages sent to `Bag new` by the stored expression
    (libgst/gst-parse.c:2080-2131). -/
def parse : List (Tok E) → Option (List (Tok E))
  | [] => some []
  | .add x n :: l => (cascade l).map (.add x n :: ·)
  | .yourself :: l => (cascade l).map (.yourself :: ·)
  | .semi :: _ => none

end Verif.Bag
