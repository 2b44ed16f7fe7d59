/-!
# File streams

kernel/FileStream.st on top of kernel/FileDescr.st, for files that are open for reading and writing and are not pipes.
A byte is a natural number.  System calls are modelled for regular files that nobody else changes: `read` answers as much
as there is, `write` writes everything.
-/

namespace Verif.Files

/-- `l` from index `i` up to `j`, without `j`. -/
def slice (l : List Nat) (i j : Nat) : List Nat := (l.drop i).take (j - i)

/-- `replaceFrom:to:with:startingAt:`, from index `i`. -/
def replace (l : List Nat) (i : Nat) (d : List Nat) : List Nat := l.take i ++ d ++ l.drop (i + d.length)

/-- Enough zeros at the end for `p` bytes. -/
def ext (f : List Nat) (p : Nat) : List Nat := f ++ List.replicate (p - f.length) 0

/-- `write` at the offset `p` of a file, also beyond its end. -/
def writeAt (f : List Nat) (p : Nat) (d : List Nat) : List Nat :=
  if d = [] then f else (ext f p).take p ++ d ++ f.drop (p + d.length)

/-- The file on disk and its offset, and the instance variables of the stream (kernel/FileStream.st:35); indices into the
buffer start at 1 as in the code. -/
structure St where
  file : List Nat
  fd : Nat
  buf : List Nat
  ptr : Nat
  endPtr : Nat
  writePtr : Option Nat
  writeEnd : Nat
  deriving DecidableEq, Repr

/-- A file that was just opened (kernel/FileStream.st:550-565), with the buffer `b`. -/
def St.open (file b : List Nat) : St := ⟨file, 0, b, 1, 0, none, 0⟩

/-- kernel/FileStream.st:278-284. -/
def bufferStart (s : St) : Int := s.fd - s.endPtr

/-- kernel/FileStream.st:286-291. -/
def position (s : St) : Int := bufferStart s + s.ptr - 1

/-- kernel/FileStream.st:608-615, and the end of `flush` and `position:`. -/
def reset (s : St) : St := { s with ptr := 1, endPtr := 0, writePtr := none }

/-- `fileOp: 4` (libgst/prims.def:5611-5619): nothing happens for negative positions. -/
def lseek (s : St) (n : Int) : St := if n < 0 then s else { s with fd := n.toNat }

/-- `fileOp: 18` in `position:` and `flush`. -/
def pwrite (s : St) (w : Nat) : St :=
  { s with file := writeAt s.file (bufferStart s + w - 1).toNat (slice s.buf (w - 1) s.writeEnd) }

/-- `position:` (kernel/FileStream.st:293-318). -/
def positionTo (s : St) (n : Int) : St :=
  match s.writePtr with
  | some w => let s' := pwrite s w; reset (if bufferStart s + s.endPtr = n then s' else lseek s' n)
  | none => reset (lseek s n)

/-- `skip:` (kernel/FileDescr.st:646-653).  The messages to `self` are those of `FileStream`, and `size` flushes
(kernel/FileStream.st:320-326).  `none`: does not come back. -/
def skipWith (flush : St → Option St) (s : St) (k : Int) : Option St :=
  (if s.writePtr.isSome then flush s else some s).map fun s' =>
    positionTo s' (min (max (position s + k) 0) ((s'.file.length : Int) - 1))

/-- The last part of `flush` for pipes excluded (kernel/FileStream.st:601-605). -/
def flushEnd (flush : St → Option St) (s : St) : Option St :=
  (if s.ptr - 1 = s.endPtr then some s else skipWith flush s ((s.ptr : Int) - 1 - s.endPtr)).map reset

/-- `flush` (kernel/FileStream.st:567-606); the number bounds the depth of calls. -/
def flush : Nat → St → Option St
  | 0, _ => none
  | n + 1, s =>
    match s.writePtr with
    | some w =>
      if s.ptr - 1 = s.writeEnd then
        match (if w - 1 = s.endPtr then some s else skipWith (flush n) s ((w : Int) - 1 - s.endPtr)) with
        | some s =>
          match s.writePtr with
          | some w =>
            let d := slice s.buf (w - 1) s.writeEnd
            some (reset { s with file := writeAt s.file s.fd d, fd := s.fd + d.length })
          | none => none
        | none => none
      else flushEnd (flush n) (pwrite s w)
    | none => flushEnd (flush n) s

/-- `writePtr notNil ifTrue: [self flush]`. -/
def settle (n : Nat) (s : St) : Option St := if s.writePtr.isSome then flush n s else some s

/-- `fill` (kernel/FileStream.st:651-661) with kernel/FileDescr.st:786-809, which answers the stream instead of a number if
there is no room. -/
def fill (n : Nat) (s : St) : Option St :=
  (if s.ptr > s.endPtr then flush n s else some s).bind fun s =>
    if s.buf.length - s.endPtr = 0 then none
    else
      let d := (s.file.drop s.fd).take (s.buf.length - s.endPtr)
      some { s with buf := replace s.buf s.endPtr d, endPtr := s.endPtr + d.length, fd := s.fd + d.length }

/-- `atEnd` (kernel/FileStream.st:528-533, libgst/prims.def:5634-5648). -/
def atEnd (s : St) : Bool := s.ptr > s.endPtr && s.fd == s.file.length

/-- What `next`, `peek`, `upTo:` and `nextLine` begin with (kernel/FileStream.st:240-244): true if past the end. -/
def prepare (n : Nat) (s : St) : Option (St × Bool) :=
  (settle n s).bind fun s =>
    if s.ptr > s.endPtr then (fill n s).map fun s => (s, atEnd s) else some (s, false)

inductive Ans
  | none
  | nil
  | byte (c : Nat)
  | bytes (l : List Nat)
  | num (n : Int)
  | bool (b : Bool)
  | error
  deriving DecidableEq, Repr

/-- kernel/FileStream.st:235-246. -/
def peek (n : Nat) (s : St) : Option (Ans × St) :=
  (prepare n s).map fun (s, e) => if e then (.nil, s) else (.byte (s.buf.getD (s.ptr - 1) 0), s)

/-- kernel/FileStream.st:248-261. -/
def next (n : Nat) (s : St) : Option (Ans × St) :=
  (prepare n s).map fun (s, e) =>
    if e then (.nil, s) else (.byte (s.buf.getD (s.ptr - 1) 0), { s with ptr := s.ptr + 1 })

/-- `writePtr isNil ifTrue: [...]` (kernel/FileStream.st:268-272, 636-640). -/
def startWrite (s : St) : St :=
  if s.writePtr.isNone then { s with writePtr := some s.ptr, writeEnd := s.ptr - 1 } else s

/-- kernel/FileStream.st:263-276. -/
def nextPut (n : Nat) (s : St) (c : Nat) : Option St :=
  (if s.ptr > s.buf.length then flush n s else some s).map fun s =>
    let s := startWrite s
    { s with buf := s.buf.set (s.ptr - 1) c, ptr := s.ptr + 1, writeEnd := s.ptr + 1 - 1 }

/-- `next:bufferAll:startingAt:` (kernel/FileStream.st:631-649). -/
def bufferAll (s : St) (l : List Nat) : St :=
  let s := startWrite s
  if l = [] then s
  else { s with buf := replace s.buf (s.ptr - 1) l, ptr := s.ptr + l.length, writeEnd := s.ptr + l.length - 1 }

/-- `next:putAll:startingAt:` (kernel/FileStream.st:367-389; kernel/FileDescr.st:811-830). -/
def putAll (n : Nat) (s : St) (l : List Nat) : Option St :=
  let written := min (s.buf.length + 1 - s.ptr) l.length
  let s := bufferAll s (l.take written)
  if written = l.length then some s
  else
    (flush n s).map fun s =>
      let rest := l.drop written
      if rest.length < s.buf.length then bufferAll s rest
      else { s with file := writeAt s.file s.fd rest, fd := s.fd + rest.length }

/-- kernel/FileStream.st:320-326. -/
def size (n : Nat) (s : St) : Option (Ans × St) := (settle n s).map fun s => (.num s.file.length, s)

/-- `ftruncate`. -/
def resize (f : List Nat) (p : Nat) : List Nat := (ext f p).take p

/-- kernel/FileStream.st:328-334, libgst/prims.def:5797-5806: at the offset of the file. -/
def truncate (n : Nat) (s : St) : Option St := (settle n s).map fun s => { s with file := resize s.file s.fd }

/-- `copyFrom:to:` (kernel/FileStream.st:336-365), from 0. -/
def copyFromTo (n : Nat) (s : St) (i j : Nat) : Option (Ans × St) :=
  if i > j then some (if j + 1 = i then .bytes [] else .error, s)
  else
    let offset := bufferStart s - 1
    if s.endPtr ≠ 0 ∧ (i : Int) - offset ≥ 1 ∧ (j : Int) - offset ≤ s.endPtr then
      some (.bytes (slice s.buf ((i : Int) - offset - 1).toNat ((j : Int) - offset).toNat), s)
    else
      (settle n s).map fun s =>
        let d := (s.file.drop i).take (j + 1 - i)
        (.bytes (d ++ List.replicate (j + 1 - i - d.length) 0), s)

/-- The loop of `upTo:` (kernel/FileStream.st:406-432); the number bounds its rounds. -/
def upToLoop (n : Nat) (c : Nat) : Nat → St → List Nat → Option (Ans × St)
  | 0, _, _ => none
  | k + 1, s, acc =>
    let l := slice s.buf (s.ptr - 1) s.endPtr
    let p := l.takeWhile (· ≠ c)
    if p.length < l.length then some (.bytes (acc ++ p), { s with ptr := s.ptr + p.length + 1 })
    else
      (fill n { s with ptr := s.endPtr + 1 }).bind fun s =>
        if atEnd s then some (.bytes (acc ++ l), s) else upToLoop n c k s (acc ++ l)

/-- kernel/FileStream.st:391-433. -/
def upTo (n : Nat) (s : St) (c : Nat) : Option (Ans × St) :=
  (prepare n s).bind fun (s, e) => if e then some (.nil, s) else upToLoop n c n s []

/-- `peekFor:` with a line feed after a carriage return (kernel/FileDescr.st:352-361, kernel/FileStream.st:457). -/
def peekForNl (n : Nat) (s : St) : Option St :=
  (peek n s).bind fun (a, s) => if a = .byte 10 then (next n s).map Prod.snd else some s

/-- The loop of `nextLine` (kernel/FileStream.st:450-477). -/
def lineLoop (n : Nat) : Nat → St → List Nat → Option (Ans × St)
  | 0, _, _ => none
  | k + 1, s, acc =>
    let l := slice s.buf (s.ptr - 1) s.endPtr
    let p := l.takeWhile fun c => c ≠ 13 ∧ c ≠ 10
    if p.length < l.length then
      let s' := { s with ptr := s.ptr + p.length + 1 }
      if l.getD p.length 0 = 13 then (peekForNl n s').map fun s => (.bytes (acc ++ p), s)
      else some (.bytes (acc ++ p), s')
    else
      (fill n { s with ptr := s.endPtr + 1 }).bind fun s =>
        if atEnd s then some (.bytes (acc ++ l), s) else lineLoop n k s (acc ++ l)

/-- kernel/FileStream.st:435-478. -/
def nextLine (n : Nat) (s : St) : Option (Ans × St) :=
  (prepare n s).bind fun (s, e) => if e then some (.nil, s) else lineLoop n n s []

/-- `nextAvailable:into:startingAt:` and `nextAvailable:putAllOn:` (kernel/FileStream.st:480-512): what is read. -/
def nextAvailable (n : Nat) (s : St) (m : Nat) : Option (List Nat × St) :=
  (settle n s).bind fun s =>
    (if s.ptr > s.endPtr then fill n s else some s).map fun s =>
      let last := min s.endPtr (s.ptr + m - 1)
      (slice s.buf (s.ptr - 1) last, { s with ptr := s.ptr + (last + 1 - s.ptr) })

/-- `next:` (kernel/Stream.st:95-112): the elements that are still missing. -/
def nextLoop (n : Nat) : Nat → St → Nat → List Nat → Option (Ans × St)
  | 0, _, _, _ => none
  | k + 1, s, m, acc =>
    if m = 0 then some (.bytes acc, s)
    else if atEnd s then some (.error, s)
    else (nextAvailable n s m).bind fun (d, s) => nextLoop n k s (m - d.length) (acc ++ d)

/-- The loop of `nextPutAllOn:` (kernel/FileStream.st:521-525). -/
def restLoop (n : Nat) : Nat → St → List Nat → Option (Ans × St)
  | 0, _, _ => none
  | k + 1, s, acc =>
    if atEnd s then some (.bytes acc, s)
    else
      (fill n (reset s)).bind fun s' => restLoop n k s' (acc ++ slice s.buf (s.ptr - 1) s.endPtr)

/-- `nextPutAllOn:` and with it `upToEnd` (kernel/FileStream.st:514-526, kernel/Stream.st:195-204). -/
def upToEnd (n : Nat) (s : St) : Option (Ans × St) :=
  (settle n s).bind fun s =>
    (if s.ptr > s.endPtr then fill n s else some s).bind fun s => restLoop n n s []

/-- `contents` (kernel/FileDescr.st:455-466). -/
def contents (n : Nat) (s : St) : Option (Ans × St) :=
  (settle n s).bind fun s => nextLoop n n s ((s.file.length : Int) - position s).toNat []

/-- `bufferSize:` (kernel/FileStream.st:542-548). -/
def bufferSize (n : Nat) (s : St) (b : Nat) : Option St :=
  (flush n s).map fun s => { s with buf := List.replicate b 0 }

/-- The messages. -/
inductive Op
  | peek | next | nextLine | upTo (c : Nat) | nextN (m : Nat) | upToEnd | contents
  | nextPut (c : Nat) | nextPutAll (l : List Nat)
  | position | positionTo (p : Int) | skip (k : Int) | size | truncate | atEnd | flush | bufferSize (b : Nat)
  | copyFromTo (i j : Nat)
  deriving DecidableEq, Repr

/-- What the stream does.  `none`: with this bound on loops and depth it does not come back. -/
def run (n : Nat) (s : St) : Op → Option (Ans × St)
  | .peek => peek n s
  | .next => next n s
  | .nextLine => nextLine n s
  | .upTo c => upTo n s c
  | .nextN m => nextLoop n n s m []
  | .upToEnd => upToEnd n s
  | .contents => contents n s
  | .nextPut c => (nextPut n s c).map fun s => (.none, s)
  | .nextPutAll l => (putAll n s l).map fun s => (.none, s)
  | .position => some (.num (position s), s)
  | .positionTo p => some (.none, positionTo s p)
  | .skip k => (skipWith (flush n) s k).map fun s => (.none, s)
  | .size => size n s
  | .truncate => (truncate n s).map fun s => (.none, s)
  | .atEnd => some (.bool (atEnd s), s)
  | .flush => (flush n s).map fun s => (.none, s)
  | .bufferSize b => (bufferSize n s b).map fun s => (.none, s)
  | .copyFromTo i j => copyFromTo n s i j

def runAll (n : Nat) : St → List Op → Option (List Ans × St)
  | s, [] => some ([], s)
  | s, o :: os => (run n s o).bind fun (a, s) => (runAll n s os).map fun (as, s) => (a :: as, s)

end Verif.Files
