import Verif.Stream.Model
/-!
# What a stream on a collection should do

A stream is a list and a number of elements already passed.  Nothing here mentions buffers,
spare places or 1-based indices.
-/

namespace Verif.Stream

/-- The specification state: what the stream holds and how much of it has been passed. -/
structure Tape (α : Type) where
  kind : Kind
  data : List α
  pos : Nat
deriving DecidableEq, Repr

variable {α : Type} [DecidableEq α]

/-- What is still to be read. -/
def Tape.rest (t : Tape α) : List α := t.data.drop t.pos

/-- Overwrite from the current position on, extending the data if need be. -/
def Tape.write (t : Tape α) (l : List α) : Tape α :=
  { t with
    data := t.data.take t.pos ++ l ++ t.data.drop (t.pos + l.length)
    pos := t.pos + l.length }

/-- Elements before the first `x`. -/
def before (x : α) (l : List α) : List α := l.takeWhile (· ≠ x)

/-- How many elements `upTo: x` passes: those before the first `x`, and that one if present. -/
def passed (x : α) (l : List α) : Nat := (before x l).length + (if x ∈ l then 1 else 0)

def Tape.reads (t : Tape α) (r : Out α × Tape α) : Out α × Tape α :=
  if t.kind = .write then (.err, t) else r

def Tape.writes (t : Tape α) (r : Out α × Tape α) : Out α × Tape α :=
  if t.kind = .read then (.err, t) else r

/-- What each message should answer and do. -/
def Tape.step (t : Tape α) : Op α → Out α × Tape α
  | .next => t.reads (outElem t.rest.head?, { t with pos := t.pos + t.rest.head?.toList.length })
  | .peek => t.reads (outElem t.rest.head?, t)
  | .peekFor x =>
      if t.rest = [] then (.bool false, t)
      else t.reads (if t.rest.head? = some x then (.bool true, { t with pos := t.pos + 1 })
        else (.bool false, t))
  | .atEnd => (.bool (decide (t.rest = [])), t)
  | .nextN n =>
      if n = 0 then (.list [], t)
      else t.reads (if n ≤ t.rest.length then (.list (t.rest.take n), { t with pos := t.pos + n })
        else (.err, t))
  | .nextAvail n => t.reads (.list (t.rest.take n), { t with pos := min (t.pos + n) t.data.length })
  | .upToEnd =>
      if t.rest = [] then (.list [], t)
      else t.reads (.list t.rest, { t with pos := t.data.length })
  | .upTo x => t.reads (.list (before x t.rest), { t with pos := t.pos + passed x t.rest })
  | .skipTo x =>
      if t.rest = [] then (.bool false, t)
      else t.reads (.bool (decide (x ∈ t.rest)), { t with pos := t.pos + passed x t.rest })
  | .position => (.num t.pos, t)
  | .setPosition n =>
      if 0 ≤ n ∧ n ≤ t.data.length then (.unit, { t with pos := n.toNat }) else (.err, t)
  | .skip n => (.unit, { t with pos := (min (max ((t.pos : Int) + n) 0) t.data.length).toNat })
  | .reset => (.unit, { t with pos := 0 })
  | .setToEnd => (.unit, { t with pos := t.data.length })
  | .size => (.num t.data.length, t)
  | .isEmpty => (.bool (decide (t.data = [])), t)
  | .contents => (.list (if t.kind = .write then t.data.take t.pos else t.data), t)
  | .nextPut x => t.writes (.elem x, t.write [x])
  | .nextPutAll l => t.writes (.unit, t.write l)
  | .truncate => t.writes (.unit, { t with data := t.data.take t.pos })
  | .emptyStream => t.writes (.unit, { t with data := [], pos := 0 })

/-- A sequence of messages. -/
def Tape.run : List (Op α) → Tape α → List (Out α)
  | [], _ => []
  | o :: os, t => (t.step o).1 :: Tape.run os (t.step o).2

end Verif.Stream
