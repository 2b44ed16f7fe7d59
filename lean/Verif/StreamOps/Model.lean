import Mathlib.Data.Nat.Notation
import Mathlib.Data.Int.Notation
import Mathlib.Data.List.Basic

/-!
# Streams made from streams (kernel/StreamOps.st)

A stream is given by what its methods do to its state, so that streams can be made from streams of any kind.
Blocks are functions without effects.  An unhandled `EndOfStream` notification answers nil.
`LineStream` is not here (see `Verif.Stream`).
-/

namespace Verif.StreamOps

/-- Objects, as far as the classes of collections tell them apart. -/
inductive Obj where
  | char (c : ℕ)
  | int (i : ℤ)
  /-- An Array without elements. -/
  | empty
  /-- An Array with a first element and others. -/
  | cons (a rest : Obj)
deriving DecidableEq

/-- An Array. -/
def Obj.array : List Obj → Obj
  | [] => .empty
  | a :: l => .cons a (array l)

/-- `==` of an element and an argument that was made elsewhere: Arrays that are equal are not the same object. -/
def identical (a x : Obj) : Bool := match a with
  | .char _ | .int _ => a = x
  | _ => false

/-- How a message ends. -/
inductive Out (α : Type) where
  | val (a : α)
  /-- nil is answered. -/
  | nil
  /-- `pastEnd` signals `EndOfStream`; if it is not handled then nil is answered, or false by `peekFor:`. -/
  | past
  /-- A message is not understood, or an error is signaled. -/
  | wrong
  /-- A loop does not end within the given number of rounds. -/
  | endless
deriving DecidableEq

/-- What is answered by `species`. -/
inductive Species where
  | array
  | string
  /-- The class of nil. -/
  | undefinedObject
deriving DecidableEq

/-- The methods of a stream. -/
structure Strm where
  /-- The instance variables. -/
  σ : Type
  atEnd : σ → Bool × σ
  next : σ → Out Obj × σ
  peek : σ → Out Obj × σ
  peekFor : Obj → σ → Out Bool × σ
  /-- `none`: not understood (kernel/Stream.st has no `position`). -/
  position : σ → Option (ℤ × σ)
  species : σ → Species × σ

/-! ## ReadStream -/

/-- A ReadStream on an Array or a String (kernel/PosStream.st:73-83, 125-147, 222-226): the collection and `ptr - 1`.  The methods are those of `Verif.Stream`. -/
def readStream (sp : Species) : Strm where
  σ := List Obj × ℕ
  atEnd := fun (c, n) => (decide (c.length ≤ n), (c, n))
  next := fun (c, n) => match c[n]? with
    | some a => (.val a, (c, n + 1))
    | none => (.past, (c, n))
  peek := fun (c, n) => match c[n]? with
    | some a => (.val a, (c, n))
    | none => (.nil, (c, n))
  peekFor := fun x (c, n) => match c[n]? with
    | some a => if a = x then (.val true, (c, n + 1)) else (.val false, (c, n))
    | none => (.val false, (c, n))
  position := fun (c, n) => some (n, (c, n))
  species := fun s => (sp, s)

/-! ## FilteringStream -/

/-- The instance variables `stream`, `next` and `atEnd` of a FilteringStream (kernel/StreamOps.st:196); `endless`: its `lookahead` did not come back. -/
structure Filtering (τ : Type) where
  stream : τ
  next : Option Obj
  atEnd : Bool
  endless : Bool

/-- `lookahead` (kernel/StreamOps.st:272-282). -/
def lookahead (I : Strm) (block : Obj → Bool) (result : Bool) : ℕ → Filtering I.σ → Filtering I.σ
  | 0, f => { f with endless := true }
  | k + 1, f =>
    let (e, s) := I.atEnd f.stream
    if e then { f with stream := s, atEnd := true }
    else match I.next s with
      | (.val a, s) =>
        if block a = result then { f with stream := s, next := some a }
        else lookahead I block result k { f with stream := s, next := some a }
      | (_, s) =>
        { f with stream := s, next := none }

/-- `FilteringStream class >> on:select:`, `on:reject:` and `initStream:block:result:` (kernel/StreamOps.st:201-224). -/
def filteringOn (I : Strm) (block : Obj → Bool) (result : Bool) (fuel : ℕ) (s : I.σ) : Filtering I.σ :=
  lookahead I block result fuel ⟨s, none, false, false⟩

/-- nil or an object. -/
def answer : Option Obj → Out Obj
  | some a => .val a
  | none => .nil

/-- The methods of a FilteringStream (kernel/StreamOps.st:226-270).  `peekFor:` compares with `==` (l. 260). -/
def filtering (I : Strm) (block : Obj → Bool) (result : Bool) (fuel : ℕ) : Strm where
  σ := Filtering I.σ
  atEnd := fun f => (f.atEnd, f)
  next := fun f =>
    if f.endless then (.endless, f)
    else if f.atEnd then (.past, f)
    else (answer f.next, lookahead I block result fuel f)
  peek := fun f =>
    if f.endless then (.endless, f)
    else if f.atEnd then (.nil, f) else (answer f.next, f)
  peekFor := fun x f =>
    if f.endless then (.endless, f)
    else if f.atEnd then (.past, f)
    else if f.next.any (identical · x) then (.val true, lookahead I block result fuel f)
    else (.val false, f)
  position := fun _ => none
  species := fun f => let (sp, s) := I.species f.stream; (sp, { f with stream := s })

/-! ## CollectingStream -/

/-- `block value:` of an answer. -/
def Out.mapVal (g : Obj → Obj) : Out Obj → Out Obj
  | .val a => .val (g a)
  | o => o

/-- The methods of a CollectingStream (kernel/StreamOps.st:291-356).  `peekFor:` sends `result` to its argument (l. 337). -/
def collecting (I : Strm) (block : Obj → Obj) : Strm where
  σ := I.σ
  atEnd := I.atEnd
  next := fun s =>
    let (e, s) := I.atEnd s
    if e then (.past, s) else let (o, s) := I.next s; (o.mapVal block, s)
  peek := fun s =>
    let (e, s) := I.atEnd s
    if e then (.nil, s) else let (o, s) := I.peek s; (o.mapVal block, s)
  peekFor := fun _ s =>
    let (e, s) := I.atEnd s
    if e then (.past, s) else (.wrong, (I.peek s).2)
  position := I.position
  species := I.species

/-! ## PeekableStream -/

/-- The instance variables of a PeekableStream (kernel/StreamOps.st:365). -/
structure Peekable (τ : Type) where
  stream : τ
  haveLookahead : Bool
  lookahead : Out Obj

/-- The methods of a PeekableStream (kernel/StreamOps.st:375-443). -/
def peekable (I : Strm) : Strm where
  σ := Peekable I.σ
  atEnd := fun p =>
    if p.haveLookahead then (false, p)
    else let (e, s) := I.atEnd p.stream; (e, { p with stream := s })
  next := fun p =>
    if p.haveLookahead then (p.lookahead, { p with haveLookahead := false, lookahead := .nil })
    else let (o, s) := I.next p.stream; (o, { p with stream := s })
  peek := fun p =>
    if p.haveLookahead then (p.lookahead, p)
    else
      let (e, s) := I.atEnd p.stream
      if e then (.nil, { p with stream := s })
      else let (o, s) := I.next s; (o, ⟨s, true, o⟩)
  peekFor := fun x p =>
    let test (p : Peekable I.σ) : Out Bool × Peekable I.σ :=
      let result := decide (p.lookahead = .val x)
      (.val result, { p with lookahead := if result then .nil else p.lookahead, haveLookahead := !result })
    if p.haveLookahead then test p
    else
      let (e, s) := I.atEnd p.stream
      if e then (.past, { p with stream := s })
      else let (o, s) := I.next s; test { p with stream := s, lookahead := o }
  position := fun _ => none
  species := fun p => let (sp, s) := I.species p.stream; (sp, { p with stream := s })

/-- `PeekableStream class >> on:` (kernel/StreamOps.st:370-373, 445-449). -/
def peekableOn (I : Strm) (s : I.σ) : Peekable I.σ := ⟨s, false, .nil⟩

/-! ## ConcatenatedStream -/

/-- The instance variables of a ConcatenatedStream (kernel/StreamOps.st:35); `last` and `lastStart` serve `copyFrom:to:` only and are left out. -/
structure Concat (τ : Type) where
  streams : List τ
  startPos : ℤ
  curPos : ℤ

/-- `stream` (kernel/StreamOps.st:78-91): the first of `streams` that is not at its end. -/
def concatStream (I : Strm) : List I.σ → ℤ → ℤ → Option I.σ × Concat I.σ
  | [], startPos, curPos => (none, ⟨[], startPos, curPos⟩)
  | s :: ss, startPos, curPos =>
    let (e, s) := I.atEnd s
    if e then
      let startPos' := if curPos > 0 then startPos + curPos else startPos
      let curPos' := if curPos > 0 then 0 else curPos
      if ss.isEmpty then (none, ⟨[s], startPos', curPos'⟩)
      else concatStream I ss startPos' curPos'
    else (some s, ⟨s :: ss, startPos, curPos⟩)

/-- `stream` of a ConcatenatedStream. -/
def Concat.stream (I : Strm) (c : Concat I.σ) : Option I.σ × Concat I.σ := concatStream I c.streams c.startPos c.curPos

/-- The first stream is replaced by its new state. -/
def Concat.setFirst {τ : Type} (c : Concat τ) (s : τ) : Concat τ := { c with streams := s :: c.streams.tail }

/-- The methods of a ConcatenatedStream (kernel/StreamOps.st:93-175).  `species` of an exhausted one is that of nil (l. 172-175). -/
def concatenated (I : Strm) : Strm where
  σ := Concat I.σ
  atEnd := fun c => let (s, c) := c.stream I; (s.isNone, c)
  next := fun c => match c.stream I with
    | (none, c) => (.past, c)
    | (some s, c) => let (o, s) := I.next s; (o, { c.setFirst s with curPos := c.curPos + 1 })
  peek := fun c => match c.stream I with
    | (none, c) => (.past, c)
    | (some s, c) => let (o, s) := I.peek s; (o, c.setFirst s)
  peekFor := fun x c => match c.stream I with
    | (none, c) => (.past, c)
    | (some s, c) =>
      let (o, s) := I.peekFor x s
      (o, { c.setFirst s with curPos := if o = .val true then c.curPos + 1 else c.curPos })
  position := fun c => let (_, c) := c.stream I; some (c.startPos + c.curPos, c)
  species := fun c => match c.stream I with
    | (none, c) => (.undefinedObject, c)
    | (some s, c) => let (sp, s) := I.species s; (sp, c.setFirst s)

/-- `streams:` (kernel/StreamOps.st:182-186). -/
def concatOn {τ : Type} (streams : List τ) : Concat τ := ⟨streams, 0, 0⟩

/-- `position:` of a ConcatenatedStream of ReadStreams (kernel/StreamOps.st:148-157, kernel/PosStream.st:228-236). -/
def concatPosition (sp : Species) (p : ℤ) (c : Concat (List Obj × ℕ)) : Out Unit × Concat (List Obj × ℕ) :=
  match c.stream (readStream sp) with
  | (none, c) => (.past, c)
  | (some (l, n), c) =>
    if 0 ≤ p - c.startPos ∧ p - c.startPos ≤ l.length then
      (.val (), { c.setFirst (l, (p - c.startPos).toNat) with curPos := p - c.startPos })
    else (.wrong, c.setFirst (l, n))

/-! ## OneOfEachStream -/

/-- `streams anySatisfy: [:each | each atEnd]` (kernel/StreamOps.st:558-561): stops at the first. -/
def anyAtEnd (I : Strm) : List I.σ → Bool × List I.σ
  | [] => (false, [])
  | s :: ss =>
    let (e, s) := I.atEnd s
    if e then (true, s :: ss) else let (b, ss) := anyAtEnd I ss; (b, s :: ss)

/-- `streams collect: [:each | each atEnd ifTrue: [^…] ifFalse: [each next]]` (kernel/StreamOps.st:567-569, 575-576): `none` if one is at its end; those before it have gone on. -/
def collectEach (I : Strm) (send : I.σ → Out Obj × I.σ) : List I.σ → Option (Out (List Obj)) × List I.σ
  | [] => (some (.val []), [])
  | s :: ss =>
    let (e, s) := I.atEnd s
    if e then (none, s :: ss)
    else match send s with
      | (.val a, s) =>
        match collectEach I send ss with
        | (some (.val as), ss) => (some (.val (a :: as)), s :: ss)
        | (o, ss) => (o, s :: ss)
      | (_, s) => (some .wrong, s :: ss)

/-- An Array, or what `pastEnd` answers. -/
def arrayOr : Option (Out (List Obj)) → Out Obj
  | none => .past
  | some (.val l) => .val (.array l)
  | some _ => .wrong

/-- The instance variables of a OneOfEachStream (kernel/StreamOps.st:509). -/
structure Each (τ : Type) where
  streams : List τ
  delta : ℤ

/-- The methods of a OneOfEachStream (kernel/StreamOps.st:558-600).  `peekFor:` sends `next` to the Array of streams (l. 587). -/
def oneOfEach (I : Strm) : Strm where
  σ := Each I.σ
  atEnd := fun z => let (b, ss) := anyAtEnd I z.streams; (b, { z with streams := ss })
  next := fun z => let (o, ss) := collectEach I I.next z.streams; (arrayOr o, { z with streams := ss })
  peek := fun z => let (o, ss) := collectEach I I.peek z.streams; (arrayOr o, { z with streams := ss })
  peekFor := fun x z =>
    let (o, ss) := collectEach I I.peek z.streams
    (if o = none then .past else if arrayOr o = .val x then .wrong else .val false, { z with streams := ss })
  position := fun z => match z.streams with
    | [] => none
    | s :: ss => (I.position s).map fun (p, s) => (p - z.delta, { z with streams := s :: ss })
  species := fun z => (.array, z)

/-- `streams:` (kernel/StreamOps.st:617-621): the first stream must understand `position`. -/
def eachOn (I : Strm) : List I.σ → Option (Each I.σ)
  | [] => none
  | s :: ss => (I.position s).map fun (p, s) => ⟨s :: ss, p⟩

/-! ## Streams of two kinds together -/

/-- The streams of two kinds. -/
def either (I J : Strm) : Strm where
  σ := I.σ ⊕ J.σ
  atEnd := fun
    | .inl s => let (x, s) := I.atEnd s; (x, .inl s)
    | .inr s => let (x, s) := J.atEnd s; (x, .inr s)
  next := fun
    | .inl s => let (x, s) := I.next s; (x, .inl s)
    | .inr s => let (x, s) := J.next s; (x, .inr s)
  peek := fun
    | .inl s => let (x, s) := I.peek s; (x, .inl s)
    | .inr s => let (x, s) := J.peek s; (x, .inr s)
  peekFor := fun a => fun
    | .inl s => let (x, s) := I.peekFor a s; (x, .inl s)
    | .inr s => let (x, s) := J.peekFor a s; (x, .inr s)
  position := fun
    | .inl s => (I.position s).map fun (x, s) => (x, .inl s)
    | .inr s => (J.position s).map fun (x, s) => (x, .inr s)
  species := fun
    | .inl s => let (x, s) := I.species s; (x, .inl s)
    | .inr s => let (x, s) := J.species s; (x, .inr s)

/-! ## All elements -/

/-- `do:` (kernel/Stream.st:363-372): the objects that the block gets. -/
def doAll (I : Strm) : ℕ → I.σ → Out (List Obj) × I.σ
  | 0, s => (.endless, s)
  | k + 1, s =>
    let (e, s) := I.atEnd s
    if e then (.val [], s)
    else match I.next s with
      | (.val a, s) =>
        match doAll I k s with
        | (.val as, s) => (.val (a :: as), s)
        | x => x
      | (_, s) => (.wrong, s)

/-- `OneOfEachStream >> do:` (kernel/StreamOps.st:563-571). -/
def doEach (I : Strm) : ℕ → List I.σ → Out (List Obj) × List I.σ
  | 0, ss => (.endless, ss)
  | k + 1, ss => match collectEach I I.next ss with
    | (none, ss) => (.val [], ss)
    | (some (.val l), ss) =>
      match doEach I k ss with
      | (.val as, ss) => (.val (.array l :: as), ss)
      | x => x
    | (some _, ss) => (.wrong, ss)

/-- `at:put:` of the collection: only Characters fit in a String. -/
def fits (sp : Species) : Obj → Bool
  | .char _ => sp != .undefinedObject
  | _ => sp == .array

/-- `upToEnd` and `contents` (kernel/Stream.st:187-204, kernel/Iterable.st:232-237): a collection of the species, to which the elements are written; `nil species new: 8` is an error. -/
def upToEnd (I : Strm) (k : ℕ) (s : I.σ) : Out (List Obj) :=
  let (sp, s) := I.species s
  if sp = .undefinedObject then .wrong
  else match (doAll I k s).1 with
    | .val l => if l.all (fits sp) then .val l else .wrong
    | o => o

end Verif.StreamOps
