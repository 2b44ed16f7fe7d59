/-!
# Saving the image to a file and loading it

Model of `libgst/save.c` on a machine with words of 8 bytes.  The file is a list of
bytes.  An object is its entry in the object table: the flags and the words of the
object, of which the first is the size and the second the class.  Reading and
writing go to the list directly; that the buffers between do not change what is
written and read is the subject of `Verif.Save.Buffer`.

`_gst_mem.ot` is at a fixed distance from `_gst_mem.ot_base`; the model has one
address, `base`, that of the entry with index 0.  The objects that live outside of the table's
saved part (`nil`, `true`, `false` and the characters) have addresses below it.
-/

namespace Verif.Save

/-! ## Words and bytes -/

/-- The `n` low bytes of a word, lowest first. -/
def le : Nat → Nat → List Nat
  | 0, _ => []
  | n + 1, w => w % 256 :: le n (w / 256)

/-- The number with the given bytes, lowest first. -/
def ofLe : List Nat → Nat
  | [] => 0
  | b :: bs => b + 256 * ofLe bs

/-- A word in memory, on a machine that puts the highest byte first if `big`. -/
def toBytes (big : Bool) (w : Nat) : List Nat := if big then (le 8 w).reverse else le 8 w

/-- Eight bytes read as a word. -/
def ofBytes (big : Bool) (bs : List Nat) : Nat := if big then ofLe bs.reverse else ofLe bs

/-- `BYTE_INVERT`, libgst/gstpriv.h l. 532–540; the masks and shifts are written
as remainders and products. -/
def invert (x : Nat) : Nat :=
  (x % 2 ^ 8) * 2 ^ 56 + (x / 2 ^ 8 % 2 ^ 8) * 2 ^ 48 + (x / 2 ^ 16 % 2 ^ 8) * 2 ^ 40
    + (x / 2 ^ 24 % 2 ^ 8) * 2 ^ 32 + (x / 2 ^ 32 % 2 ^ 8) * 2 ^ 24 + (x / 2 ^ 40 % 2 ^ 8) * 2 ^ 16
    + (x / 2 ^ 48 % 2 ^ 8) * 2 ^ 8 + (x / 2 ^ 56 % 2 ^ 8)

/-- Words as they are in memory. -/
def dump (big : Bool) (ws : List Nat) : List Nat := ws.flatMap (toBytes big)

/-- `buffer_read` of `n` words; `none` if the file is too short. -/
def readWords (big : Bool) : Nat → List Nat → Option (List Nat × List Nat)
  | 0, bs => some ([], bs)
  | n + 1, bs =>
    if bs.length < 8 then none
    else match readWords big n (bs.drop 8) with
      | none => none
      | some (ws, r) => some (ofBytes big (bs.take 8) :: ws, r)

/-! ## Objects -/

/-- An entry of the object table, libgst/gst.h l. 122–126, with its object. -/
structure Obj where
  flags : Nat
  words : List Nat
  deriving DecidableEq, Repr

/-- The object table; free entries are `none`. -/
abbrev Heap := List (Option Obj)

/-- `OOP_TO_OBJ`: the object at an address; `none` outside of the table. -/
def objAt (h : Heap) (base a : Nat) : Option Obj :=
  if base ≤ a ∧ (a - base) % 16 = 0 then (h[(a - base) / 16]?).join else none

/-- `CLASS_INSTANCE_SPEC`, libgst/dict.inl l. 429–430: the third instance
variable. -/
def spec (h : Heap) (base cls : Nat) : Option Nat := (objAt h base cls).bind (·.words[4]?)

/-- `CLASS_IS_SCALAR`, libgst/dict.inl l. 456–458. -/
def isScalar (s : Nat) : Bool := s / 32 % 2 == 1 && decide (s % 64 / 2 * 2 ≤ 54)

/-- `CLASS_FIXED_FIELDS`, libgst/dict.inl l. 358–359. -/
def fixedFields (s : Nat) : Nat := s / 2 ^ 13

/-- `NUM_OOPS`, libgst/dict.inl l. 476–480, for an object with the instance specification `s`
of its class. -/
def numOops (s : Nat) (o : Obj) : Nat :=
  if isScalar s then fixedFields s else o.words.headD 0 / 2 - 2

/-- `F_RUNTIME`, `F_OLD`, `F_LOADED`, `F_CONTEXT`, libgst/gstpriv.h l. 302–331. -/
def fRuntime : Nat := 0x7FFF8000
def fOld : Nat := 0x100
def fLoaded : Nat := 0x800
def fContext : Nat := 0x40

/-- `flags & F_BYTE`, libgst/gstpriv.h l. 342. -/
def isByte (flags : Nat) : Bool := flags % 16 != 0

/-! ## Saving -/

/-- The classes that `fixup_object` knows, and `nil`, by address. -/
structure Known where
  nil : Nat
  callin : Nat
  process : Nat
  semaphore : Nat
  fileDescriptor : Nat
  cCallable : Nat

/-- `OOP_CLASS`. -/
def classAt (h : Heap) (base a : Nat) : Option Nat := (objAt h base a).bind (·.words[1]?)

/-- `is_a_kind_of`, libgst/dict.inl l. 620–632. -/
def isKindOf (k : Known) (h : Heap) (base : Nat) : Nat → Nat → Nat → Bool
  | 0, _, _ => false
  | f + 1, c, cls =>
    if c = cls then true
    else match (objAt h base c).bind (·.words[2]?) with
      | none => false
      | some s => if s = k.nil then false else isKindOf k h base f s cls

/-- The loop for the next link of a Process, save.c l. 732–733: skip
CallinProcesses. -/
def nextKept (k : Known) (h : Heap) (base : Nat) : Nat → Nat → Nat
  | 0, a => a
  | f + 1, a =>
    if classAt h base a = some k.callin then
      match (objAt h base a).bind (·.words[2]?) with
      | none => a
      | some n => nextKept k h base f n
    else a

/-- The loop for the first and last links of a Semaphore, save.c l. 747–757. -/
def ends (k : Known) (h : Heap) (base : Nat) : Nat → Nat → Nat × Nat → Nat × Nat
  | 0, _, r => r
  | f + 1, a, (first, last) =>
    if a = k.nil then (first, last)
    else match objAt h base a with
      | none => (first, last)
      | some p =>
        let r := if p.words[1]? = some k.callin then (first, last)
          else (if first = k.nil then a else first, a)
        ends k h base f (p.words.getD 2 k.nil) r

/-- `fixup_object`, save.c l. 697–776: the words that are written for an object.
`f` bounds the length of lists of links and of superclasses. -/
def fixup (k : Known) (f : Nat) (h : Heap) (base : Nat) (o : Obj) : List Nat :=
  let cls := o.words.getD 1 0
  if o.flags.land fContext ≠ 0 then o.words.set 3 1
  else if cls = k.callin then ((o.words.set 3 k.nil).set 2 k.nil).set 5 k.nil
  else if cls = k.process then
    o.words.set 2 (nextKept k h base f (o.words.getD 2 k.nil))
  else if cls = k.semaphore then
    let r := ends k h base f (o.words.getD 2 k.nil) (k.nil, k.nil)
    (o.words.set 2 r.1).set 3 r.2
  else if isKindOf k h base f cls k.fileDescriptor then o.words.set 3 k.nil
  else if isKindOf k h base f cls k.cCallable then
    if o.words.getD 3 0 = k.nil then o.words.set (o.words.headD 0 / 2 - 1) 0 else o.words
  else o.words

/-- All objects as they are written. -/
def fixAll (k : Known) (f : Nat) (h : Heap) (base : Nat) : Heap :=
  h.map fun e => e.map fun o => { o with words := fixup k f h base o }

/-- `num_used_oops`, save.c l. 361–364. -/
def used (h : Heap) : Nat := (h.reverse.dropWhile (·.isNone)).length

/-- The flags that are written, save.c l. 380. -/
def savedFlags (flags : Nat) : Nat := (flags.land (2 ^ 64 - 1 - fRuntime)).lor fOld

/-- An entry of the table in the file, save.c l. 378–387.  The size field of a free
entry is not initialised (`junk`). -/
def tableEntry (junk : Nat) : Option Obj → List Nat
  | some o => [o.words.headD 0 / 2, savedFlags o.flags]
  | none => [junk, 0]

/-- `save_file_header`, save.c l. 100–117, without the bytes before the version. -/
structure Header where
  version : Nat
  tableSize : Nat
  sizes : List Nat
  numFree : Nat
  otBase : Nat
  md5 : List Nat
  deriving DecidableEq, Repr

/-- The words of the header. -/
def Header.words (hd : Header) : List Nat :=
  [hd.version, hd.tableSize] ++ hd.sizes ++ [hd.numFree, hd.otBase] ++ hd.md5

/-- `EXECUTE`, save.c l. 97, and zeros up to 64 bytes. -/
def execute : List Nat :=
  let s := "#! /usr/bin/env gst -aI\nexec gst -I \"$0\" -a \"$@\"\n".toList.map Char.toNat
  s ++ List.replicate (64 - s.length) 0

/-- `SIGNATURE` with its zero, save.c l. 98. -/
def signature : List Nat := [71, 83, 84, 73, 109, 0]

/-- `FLAGS_WRITTEN`, save.c l. 63–84. -/
def localFlags (big : Bool) : Nat := (if big then 1 else 0) + 2

/-- What a machine and a running virtual machine are to this file. -/
structure Machine where
  big : Bool
  base : Nat
  version : Nat
  sizes : List Nat
  md5 : List Nat

/-- `save_file_version`, save.c l. 437–456, with `make_oop_table_to_be_saved`,
l. 351–393: `num_free_oops` counts the free entries among the saved ones. -/
def headerOf (m : Machine) (h : Heap) : Header :=
  { version := m.version, tableSize := used h, sizes := m.sizes,
    numFree := (h.take (used h)).countP (·.isNone), otBase := m.base, md5 := m.md5 }

/-- `save_all_objects`, save.c l. 395–405: the bytes of the objects. -/
def objBytes (big : Bool) (h : Heap) : List Nat :=
  h.flatMap fun e => match e with
    | some o => dump big o.words
    | none => []

/-- `save_to_fd`, save.c l. 313–348: header, table, objects. -/
def save (m : Machine) (k : Known) (f junk : Nat) (h : Heap) : List Nat :=
  execute ++ signature ++ [0, localFlags m.big] ++ dump m.big (headerOf m h).words
    ++ dump m.big ((h.take (used h)).flatMap (tableEntry junk))
    ++ objBytes m.big (fixAll k f h m.base)

/-! ## Loading -/

/-- What loading ends in: the file is refused; the program crashes or
aborts; the heap is loaded. -/
inductive Res where
  | refused
  | crash
  | ok (h : Heap)
  deriving DecidableEq, Repr

/-- Invert the words of a list if `wrong`. -/
def swapIf (wrong : Bool) (ws : List Nat) : List Nat := if wrong then ws.map invert else ws

/-- `load_file_version`, save.c l. 536–580: whether the byte order differs, the
header and the rest of the file. -/
def loadHeader (m : Machine) (file : List Nat) : Except Res (Bool × Header × List Nat) :=
  if file.length < 72 then .error .crash
  else if (file.drop 64).take 6 ≠ signature then .error .refused
  else
    let flags := file.getD 71 0
    if flags / 2 % 2 ≠ 1 then .error .refused
    else
      let wrong := decide (flags % 2 ≠ (localFlags m.big) % 2)
      match readWords m.big 12 (file.drop 72) with
      | none => .error .crash
      | some (ws, r) =>
        let w := swapIf wrong ws
        let hd : Header := { version := w.getD 0 0, tableSize := w.getD 1 0, sizes := (w.drop 2).take 6,
                             numFree := w.getD 8 0, otBase := w.getD 9 0, md5 := w.drop 10 }
        if m.version < hd.version then .error .refused else .ok (wrong, hd, r)

/-- The entries of the table from their words. -/
def pairs : List Nat → List (Nat × Nat)
  | s :: fl :: r => (s, fl) :: pairs r
  | _ => []

/-- The conversion of an object in the first pass, save.c l. 646–651. -/
def swapObj (wrong : Bool) (flags : Nat) (ws : List Nat) : List Nat :=
  if wrong then
    if isByte flags then (ws.take 2).map invert ++ ws.drop 2 else ws.map invert
  else ws

/-- The first loop of `load_normal_oops`, save.c l. 608–663. -/
def loadObjs (big wrong cow : Bool) : List (Nat × Nat) → List Nat → Option Heap
  | [], _ => some []
  | (size, flags) :: es, bs =>
    if flags = 0 then (loadObjs big wrong cow es bs).map (none :: ·)
    else match readWords big size bs with
      | none => none
      | some (ws, r) =>
        if cow then (loadObjs big wrong cow es r).map (some ⟨flags.lor fLoaded, ws⟩ :: ·)
        else
          let ws' := swapObj wrong flags ws
          if ws'.head? ≠ some (2 * size + 1) then none
          else (loadObjs big wrong cow es r).map (some ⟨flags, ws'⟩ :: ·)

/-- `OOP_ABSOLUTE`, save.c l. 269–271. -/
def absolute (delta a : Nat) : Nat := (a + delta) % 2 ^ 64

/-- The second loop of `load_normal_oops`, save.c l. 670–679, from entry `i` on; `none` if
a class is not in the table. -/
def swapBytes (base delta : Nat) : Nat → Nat → Heap → Option Heap
  | 0, _, h => some h
  | n + 1, i, h =>
    match (h[i]?).join with
    | none => swapBytes base delta n (i + 1) h
    | some o =>
      if isByte o.flags then
        match spec h base (absolute delta (o.words.getD 1 0)) with
        | none => none
        | some s =>
          swapBytes base delta n (i + 1) (h.set i (some { o with
            words := o.words.take 2 ++ ((o.words.drop 2).take (fixedFields s)).map invert
              ++ (o.words.drop 2).drop (fixedFields s) }))
      else swapBytes base delta n (i + 1) h

/-- A pointer slot that is relocated: SmallIntegers have the lowest bit set,
libgst/gst.h. -/
def reloc (delta w : Nat) : Nat := if w % 2 = 0 then absolute delta w else w

/-- `restore_all_pointer_slots` and `restore_oop_pointer_slots`, save.c
l. 778–806. -/
def restore (base delta : Nat) : Nat → Nat → Heap → Option Heap
  | 0, _, h => some h
  | n + 1, i, h =>
    match (h[i]?).join with
    | none => restore base delta n (i + 1) h
    | some o =>
      let ws := o.words.set 1 (absolute delta (o.words.getD 1 0))
      let h1 := h.set i (some { o with words := ws })
      match spec h1 base (ws.getD 1 0) with
      | none => none
      | some s =>
        let k := numOops s { o with words := ws }
        restore base delta n (i + 1) (h.set i (some { o with
          words := ws.take 2 ++ ((ws.drop 2).take k).map (reloc delta) ++ (ws.drop 2).drop k }))

/-- `~wrong_endianness` in save.c l. 600: the bits of an `int`, as a truth value. -/
def lnot (b : Bool) : Bool := decide (-(if b then 1 else 0 : Int) - 1 ≠ 0)

/-- `load_snapshot`, save.c l. 478–534; `mmap` says whether the file could be
mapped into memory, `m.base` is where the table is now.  What
`_gst_init_dictionary_on_image_load` does is not modelled. -/
def load (m : Machine) (mmap : Bool) (file : List Nat) : Res :=
  match loadHeader m file with
  | .error e => e
  | .ok (wrong, hd, r) =>
    let delta := (m.base + (2 ^ 64 - hd.otBase)) % 2 ^ 64
    match readWords m.big (2 * hd.tableSize) r with
    | none => .crash
    | some (ws, r) =>
      let cow := mmap && lnot wrong && decide (delta = 0)
      match loadObjs m.big wrong cow (pairs (swapIf wrong ws)) r with
      | none => .crash
      | some h =>
        match (if wrong then swapBytes m.base delta h.length 0 h else some h) with
        | none => .crash
        | some h =>
          match (if delta = 0 then some h else restore m.base delta h.length 0 h) with
          | none => .crash
          | some h => .ok h

end Verif.Save
