/-!
# Streams on collections: `PositionableStream`, `ReadStream`, `WriteStream`, `ReadWriteStream`

Model of kernel/PosStream.st, kernel/ReadStream.st, kernel/WriteStream.st and
kernel/RWStream.st, and of the four methods of kernel/Stream.st that they inherit and that work
in bulk (`next:`, `next:into:startingAt:`, `nextAvailable:`, `nextPutAll:`).

A collection is a `List` (its indexed instance variables); `fill` is what `copyEmpty:` leaves in
places nothing was stored in (nil for an Array, character 0 for a String).  Indices are 1-based
as in the code.  `none` stands for a signalled error (an index error, `shouldNotImplement`,
`NotEnoughElements`); what happens after a handler resumes is not modelled.  The
`EndOfStream` notification signalled by `pastEnd` (Stream.st:462-468) is resumed with nil, its
default, so `next` at the end answers nil: `Out.nil`.
-/

namespace Verif.Stream

/-- The three concrete classes: they differ in which methods they inherit. -/
inductive Kind where
  | read | write | readWrite
deriving DecidableEq, Repr

/-- The instance variables (PosStream.st:35-37): `collection`, `ptr`, `endPtr`; `access` is
determined by the class (`beReadOnly`, `beWriteOnly`, `beReadWrite`, PosStream.st:285-298). -/
structure St (α : Type) where
  kind : Kind
  buf : List α
  ptr : Nat
  endPtr : Nat
deriving DecidableEq, Repr

variable {α : Type} [DecidableEq α]

/-- `(access bitAnd: 1) = 0` is false (PosStream.st:77). -/
def St.canRead (s : St α) : Bool := s.kind != .write

/-- `(access bitAnd: 2) = 0` is false (PosStream.st:216). -/
def St.canWrite (s : St α) : Bool := s.kind != .read

/-- `collection at: i` (1-based). -/
def at1 (l : List α) (i : Nat) : Option α := if i = 0 then none else l[i - 1]?

/-- `collection copyFrom: i to: j` (1-based, inclusive) when the range is legal
(ArrayColl.st:218-236: an empty range answers an empty collection). -/
def copy1 (l : List α) (i j : Nat) : Option (List α) :=
  if j + 1 = i then some []
  else if j + 1 < i then none
  else if i = 0 ∨ l.length < j then none else some ((l.take j).drop (i - 1))

/-- `dst replaceFrom: i to: i + n - 1 with: src startingAt: k`. -/
def replace1 (dst : List α) (i n : Nat) (src : List α) (k : Nat) : Option (List α) :=
  if n = 0 then some dst
  else if i = 0 ∨ k = 0 ∨ dst.length < i + n - 1 ∨ src.length < k + n - 1 then none
  else some (dst.take (i - 1) ++ (src.drop (k - 1)).take n ++ dst.drop (i - 1 + n))

/-! ## Creation -/

/-- `ReadStream class >> on:` (ReadStream.st:41-47, 66-71). -/
def readOn (c : List α) : St α := ⟨.read, c, 1, c.length⟩

/-- `ReadStream class >> on:from:to:` (ReadStream.st:49-64; PosStream.st:53-59). -/
def readOnFromTo (c : List α) (i j : Nat) : Option (St α) :=
  if i = 1 then
    if c.length < j then none else some ⟨.read, c, 1, j⟩
  else (copy1 c i j).map readOn

/-- `WriteStream class >> on:` (WriteStream.st:41-50, 143-148; `truncate`, PosStream.st:211-219). -/
def writeOn (c : List α) : St α := ⟨.write, c, 1, 0⟩

/-- `WriteStream class >> with:` (WriteStream.st:52-61, 150-154). -/
def writeWith (c : List α) : St α := ⟨.write, c, c.length + 1, c.length⟩

/-- `ReadWriteStream class >> on:` (RWStream.st:41-49); `limit:` (RWStream.st:86-93) sets
`endPtr` to the size of the collection. -/
def rwOn (c : List α) : St α := ⟨.readWrite, c, 1, c.length⟩

/-- `limit: anInteger` (RWStream.st:86-93): the argument is not used. -/
def limit (s : St α) (_n : Nat) : St α := { s with endPtr := s.buf.length }

/-- `ReadWriteStream class >> on:from:to:` (RWStream.st:51-68).  With `firstIndex = 1` it is
`(super on: aCollection) beReadWrite; limit: lastIndex`; otherwise
`PositionableStream class >> on:from:to:` sends `self on:` of a copy. -/
def rwOnFromTo (c : List α) (i j : Nat) : Option (St α) :=
  if i = 1 then
    if c.length < j then none else some (limit { writeOn c with kind := .readWrite } j)
  else (copy1 c i j).map rwOn

/-- `ReadWriteStream class >> with:` (RWStream.st:70-76). -/
def rwWith (c : List α) : St α := ⟨.readWrite, c, c.length + 1, c.length⟩

/-! ## Reading -/

/-- `next` (PosStream.st:72-82): the answer is `some none` at the end of the stream. -/
def next (s : St α) : Option (Option α × St α) :=
  if s.canRead then
    if s.endPtr < s.ptr then some (none, s)
    else match at1 s.buf s.ptr with
      | some x => some (some x, { s with ptr := s.ptr + 1 })
      | none => none
  else none

/-- `peek` (PosStream.st:125-133). -/
def peek (s : St α) : Option (Option α) :=
  if s.canRead then
    if s.endPtr < s.ptr then some none
    else match at1 s.buf s.ptr with
      | some x => some (some x)
      | none => none
  else none

/-- `atEnd` (PosStream.st:189-194). -/
def atEnd (s : St α) : Bool := decide (s.endPtr < s.ptr)

/-- `position` (PosStream.st:221-226). -/
def position (s : St α) : Nat := s.ptr - 1

/-- `position:` (PosStream.st:228-236); `size` is `endPtr` (l.263-268). -/
def setPosition (s : St α) (n : Int) : Option (St α) :=
  if 0 ≤ n ∧ n ≤ s.endPtr then some { s with ptr := n.toNat + 1 } else none

/-- `skip:` (PosStream.st:277-283). -/
def skip (s : St α) (n : Int) : Option (St α) :=
  setPosition s (min (max ((position s : Int) + n) 0) s.endPtr)

/-- `peekFor:` (PosStream.st:135-147). -/
def peekFor (s : St α) (x : α) : Option (Bool × St α) :=
  if atEnd s then some (false, s)
  else match next s with
    | none => none
    | some (y, s1) =>
      if y = some x then some (true, s1)
      else (skip s1 (-1)).map fun s2 => (false, s2)

/-- `n := anInteger min: endPtr - ptr + 1` (PosStream.st:101, 115); `ptr` never exceeds
`endPtr + 1`. -/
def avail (s : St α) (n : Nat) : Nat := min n (s.endPtr + 1 - s.ptr)

/-- `nextAvailable:into:startingAt:` (PosStream.st:107-123). -/
def nextAvailInto (s : St α) (n : Nat) (dst : List α) (pos : Nat) :
    Option (Nat × List α × St α) :=
  if s.canRead then
    (replace1 dst pos (avail s n) s.buf s.ptr).map fun d =>
      (avail s n, d, { s with ptr := s.ptr + avail s n })
  else none

/-- The loop of `next:into:startingAt:` (Stream.st:95-112).  One round reads everything that is
available, so two rounds always suffice; `fuel` bounds the number of rounds. -/
def nextInto (fuel : Nat) (s : St α) (n read : Nat) (dst : List α) (pos : Nat) :
    Option (List α × St α) :=
  if read = n then some (dst, s)
  else match fuel with
    | 0 => none
    | fuel + 1 =>
      if atEnd s then none
      else match nextAvailInto s (n - read) dst (read + pos) with
        | none => none
        | some (k, d, s1) => nextInto fuel s1 n (read + k) d pos

/-- `next: anInteger` (Stream.st:65-75): `species new: anInteger` filled by `next:into:`. -/
def nextN (fill : α) (s : St α) (n : Nat) : Option (List α × St α) :=
  nextInto (n + 1) s n 0 (List.replicate n fill) 1

/-- `nextAvailable: anInteger` (Stream.st:132-146). -/
def nextAvail (fill : α) (s : St α) (n : Nat) : Option (List α × St α) :=
  match nextAvailInto s n (List.replicate n fill) 1 with
  | none => none
  | some (k, d, s1) =>
    if k < n then (copy1 d 1 k).map fun d' => (d', s1) else some (d, s1)

/-- `upToEnd` (PosStream.st:337-343). -/
def upToEnd (fill : α) (s : St α) : Option (List α × St α) :=
  nextN fill s (s.endPtr + 1 - s.ptr)

/-- First index `≥ k` (1-based) of `x` in the list; 0 if there is none: the loop of
`indexOf:startingAt:ifAbsent: [0]` (SeqCollect.st:394-396). -/
def scanFrom (x : α) : List α → Nat → Nat
  | [], _ => 0
  | y :: l, k => if y = x then k else scanFrom x l (k + 1)

/-- `indexOf: x startingAt: i ifAbsent: [0]` (SeqCollect.st:380-397; String.st:243-255 and
ByteArray.st:563-575 answer the same). -/
def indexOf (l : List α) (x : α) (i : Nat) : Option Nat :=
  if i < 1 ∨ l.length < i then
    if i = l.length + 1 then some 0 else none
  else some (scanFrom x (l.drop (i - 1)) i)

/-- `upTo:` (PosStream.st:345-356). -/
def upTo (fill : α) (s : St α) (x : α) : Option (List α × St α) :=
  match indexOf s.buf x s.ptr with
  | none => none
  | some r =>
    if r = 0 then upToEnd fill s
    else match nextN fill s (r - s.ptr) with
      | none => none
      | some (res, s1) =>
        match next s1 with
        | none => none
        | some (_, s2) => some (res, s2)

/-- The loop of `skipTo:` (Stream.st:543-551). -/
def skipToLoop : Nat → St α → α → Option (Bool × St α)
  | 0, _, _ => none
  | fuel + 1, s, x =>
    if atEnd s then some (false, s)
    else match next s with
      | none => none
      | some (y, s1) => if y = some x then some (true, s1) else skipToLoop fuel s1 x

/-- `skipTo:` (Stream.st:543-551). -/
def skipTo (s : St α) (x : α) : Option (Bool × St α) := skipToLoop (s.endPtr + 2) s x

/-! ## Contents -/

/-- `contents`: `ReadStream` (PosStream.st:159-165), `WriteStream` (WriteStream.st:72-78),
`ReadWriteStream` (RWStream.st:78-84). -/
def contents (s : St α) : Option (List α) :=
  match s.kind with
  | .write => copy1 s.buf 1 (s.ptr - 1)
  | _ => copy1 s.buf 1 s.endPtr

/-- `readStream`: `ReadStream` has PosStream.st:167-175; the other two have
WriteStream.st:114-122. -/
def readStream (s : St α) : Option (St α) :=
  match s.kind with
  | .read => readOnFromTo s.buf 1 s.endPtr
  | _ => readOnFromTo s.buf 1 (s.ptr - 1)

/-- The loop `1 to: n do: [:i | new at: i put: (collection at: top - i)]`
(WriteStream.st:131; with `top = endPtr + 1`, PosStream.st:184-185), where `new` has `m`
places and `done` of them are filled: the elements stored so far, in reverse. -/
def revLoop (buf : List α) (top m : Nat) : Nat → Nat → List α → Option (List α)
  | 0, _, acc => some acc
  | n + 1, i, acc =>
    if m < i then none
    else if top ≤ i then none
    else match at1 buf (top - i) with
      | none => none
      | some x => revLoop buf top m n (i + 1) (acc ++ [x])

/-- `reverseContents`: `ReadStream` (PosStream.st:177-187); the other two have
WriteStream.st:124-133, where the new collection has `ptr - 1` places, the loop runs to `endPtr`
and places the loop does not reach keep the fill. -/
def reverseContents (fill : α) (s : St α) : Option (List α) :=
  match s.kind with
  | .read => revLoop s.buf (s.endPtr + 1) s.endPtr s.endPtr 1 []
  | _ => (revLoop s.buf s.ptr (s.ptr - 1) s.endPtr 1 []).map
      fun l => l ++ List.replicate (s.ptr - 1 - l.length) fill

/-- `copyFrom:to:` (PosStream.st:149-157), 0-based. -/
def copyFromTo (s : St α) (i j : Nat) : Option (List α) := copy1 s.buf (i + 1) (j + 1)

/-! ## Writing -/

/-- `copyEmpty: n` then `replaceFrom: 1 to: size with: collection startingAt: 1`. -/
def growBuf (fill : α) (l : List α) (n : Nat) : List α := l ++ List.replicate (n - l.length) fill

/-- `growCollection` (WriteStream.st:156-171). -/
def grow (fill : α) (s : St α) : St α :=
  { s with buf := growBuf fill s.buf (max (s.buf.length * 2) 8) }

/-- `growCollectionTo:` (WriteStream.st:173-189). -/
def growTo (fill : α) (s : St α) (n : Nat) : St α :=
  if n ≤ s.buf.length then s
  else if n < s.buf.length * 2 then grow fill s
  else { s with buf := growBuf fill s.buf n }

/-- `ptr > endPtr ifTrue: [ptr > collection size ifTrue: [self growCollection]. endPtr := ptr]`
(WriteStream.st:88-91). -/
def extend (fill : α) (s : St α) : St α :=
  if s.endPtr < s.ptr then
    if s.buf.length < s.ptr then { grow fill s with endPtr := s.ptr } else { s with endPtr := s.ptr }
  else s

/-- `nextPut:` (WriteStream.st:80-95); a `ReadStream` does not understand it
(Stream.st:268-273, `subclassResponsibility`). -/
def nextPut (fill : α) (s : St α) (x : α) : Option (St α) :=
  if s.canWrite then
    if (extend fill s).buf.length < s.ptr then none
    else some { extend fill s with
      buf := (extend fill s).buf.set (s.ptr - 1) x
      ptr := s.ptr + 1 }
  else none

/-- `end > collection size ifTrue: [self growCollectionTo: end - 1]` (WriteStream.st:104). -/
def room (fill : α) (s : St α) (n : Nat) : St α :=
  if s.buf.length < s.ptr + n then growTo fill s (s.ptr + n - 1) else s

/-- `next:putAll:startingAt:` (WriteStream.st:97-112). -/
def putAll (fill : α) (s : St α) (n : Nat) (src : List α) (pos : Nat) : Option (St α) :=
  if s.canWrite then
    (replace1 (room fill s n).buf s.ptr n src pos).map fun b =>
      { s with
        buf := b
        ptr := s.ptr + n
        endPtr := if s.endPtr < s.ptr + n then s.ptr + n - 1 else s.endPtr }
  else none

/-- `nextPutAll: aCollection` (Stream.st:294-299; a sequenceable collection sends
`next: self size putAll: self startingAt: 1`, SeqCollect.st:795-799). -/
def nextPutAll (fill : α) (s : St α) (src : List α) : Option (St α) :=
  putAll fill s src.length src 1

/-- `truncate` (PosStream.st:211-219). -/
def truncate (s : St α) : Option (St α) :=
  if s.canWrite then some { s with endPtr := s.ptr - 1 } else none

/-- `emptyStream` (WriteStream.st:135-141). -/
def emptyStream (s : St α) : Option (St α) :=
  if s.canWrite then some { s with ptr := 1, endPtr := 0 } else none

/-- `reset` (PosStream.st:248-254). -/
def reset (s : St α) : Option (St α) := setPosition s 0

/-- `setToEnd` (PosStream.st:256-261). -/
def setToEnd (s : St α) : Option (St α) := setPosition s s.endPtr

/-- `nextPutAllOn:` (PosStream.st:84-92): copy the rest of the receiver onto another stream. -/
def nextPutAllOn (fill : α) (s t : St α) : Option (St α × St α) :=
  if s.canRead then
    (putAll fill t (s.endPtr + 1 - s.ptr) s.buf s.ptr).map fun t' =>
      ({ s with ptr := s.ptr + (s.endPtr + 1 - s.ptr) }, t')
  else none

/-! ## Messages -/

/-- The messages a client sends. -/
inductive Op (α : Type) where
  | next | peek | peekFor (x : α) | atEnd | nextN (n : Nat) | nextAvail (n : Nat)
  | upToEnd | upTo (x : α) | skipTo (x : α)
  | position | setPosition (n : Int) | skip (n : Int) | reset | setToEnd | size | isEmpty
  | contents | nextPut (x : α) | nextPutAll (l : List α) | truncate | emptyStream
deriving DecidableEq, Repr

/-- Answers; `err` is a signalled error. -/
inductive Out (α : Type) where
  | err | unit | nil | elem (x : α) | bool (b : Bool) | num (n : Nat) | list (l : List α)
deriving DecidableEq, Repr

def outElem : Option α → Out α
  | none => .nil
  | some x => .elem x

/-- The answer and the state after; a signalled error leaves the stream as it was (the sender's
statement is abandoned), which is a simplification for `next:`, where the elements read before
the error are gone. -/
def ans {β : Type} (s : St α) (f : β → Out α × St α) : Option β → Out α × St α
  | none => (.err, s)
  | some b => f b

/-- One message. -/
def step (fill : α) (s : St α) : Op α → Out α × St α
  | .next => ans s (fun r => (outElem r.1, r.2)) (next s)
  | .peek => ans s (fun r => (outElem r, s)) (peek s)
  | .peekFor x => ans s (fun r => (.bool r.1, r.2)) (peekFor s x)
  | .atEnd => (.bool (atEnd s), s)
  | .nextN n => ans s (fun r => (.list r.1, r.2)) (nextN fill s n)
  | .nextAvail n => ans s (fun r => (.list r.1, r.2)) (nextAvail fill s n)
  | .upToEnd => ans s (fun r => (.list r.1, r.2)) (upToEnd fill s)
  | .upTo x => ans s (fun r => (.list r.1, r.2)) (upTo fill s x)
  | .skipTo x => ans s (fun r => (.bool r.1, r.2)) (skipTo s x)
  | .position => (.num (position s), s)
  | .setPosition n => ans s (fun r => (.unit, r)) (setPosition s n)
  | .skip n => ans s (fun r => (.unit, r)) (skip s n)
  | .reset => ans s (fun r => (.unit, r)) (reset s)
  | .setToEnd => ans s (fun r => (.unit, r)) (setToEnd s)
  | .size => (.num s.endPtr, s)
  | .isEmpty => (.bool (decide (s.endPtr = 0)), s)
  | .contents => ans s (fun r => (.list r, s)) (contents s)
  | .nextPut x => ans s (fun r => (.elem x, r)) (nextPut fill s x)
  | .nextPutAll l => ans s (fun r => (.unit, r)) (nextPutAll fill s l)
  | .truncate => ans s (fun r => (.unit, r)) (truncate s)
  | .emptyStream => ans s (fun r => (.unit, r)) (emptyStream s)

/-- A sequence of messages: the answers, in order. -/
def run (fill : α) : List (Op α) → St α → List (Out α)
  | [], _ => []
  | o :: os, s => (step fill s o).1 :: run fill os (step fill s o).2

end Verif.Stream
