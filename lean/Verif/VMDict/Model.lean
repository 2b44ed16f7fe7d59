import Verif.Hash.Probe

/-!
# The dictionaries of the virtual machine

Model of `libgst/dict.c`: `new_num_fields`, `identity_dictionary_find_key`,
`identity_dictionary_find_key_or_nil`, `grow_identity_dictionary`,
`_gst_identity_dictionary_new`, `_gst_identity_dictionary_at_put`,
`_gst_identity_dictionary_at`, `find_key_or_nil`,
`grow_dictionary`, `_gst_dictionary_new`, `_gst_dictionary_add`; and of
`dictionary_association_at` in `libgst/dict.inl`.

Objects are elements of an arbitrary type `O` with a distinguished `nil`; `hash` is
`scramble (OOP_INDEX (oop))` (dict.inl:605-618), any function, so that the theorems
hold for every placement of objects in memory.  `abort ()` is the outcome `none`.
The words of an object are a function from their number.
-/

namespace Verif.VMDict

/-- The loop of `new_num_fields`, dict.c:1528-1529.  The C loop has no bound; `fuel`
bounds it here and `newNumFields_spec` shows that the bound is never reached. -/
def newNumFieldsLoop : Nat → Nat → Nat → Nat
  | 0, _, x => x + 1
  | fuel + 1, n, x =>
    if x &&& (x + 1) = 0 then x + 1
    else newNumFieldsLoop fuel (n <<< 1) (x ||| (x >>> n))

/-- `new_num_fields`: dict.c:1515-1532. -/
def newNumFields (x : Nat) : Nat :=
  if x &&& (x - 1) = 0 then x * 2 else newNumFieldsLoop (x + 1) 1 x

section
variable {O : Type} [DecidableEq O] (nil : O) (hash : O → Nat)

/-! ## IdentityDictionary: keys and values alternate in the object -/

/-- An IdentityDictionary: `numFields = NUM_WORDS - numFixedFields` indexed words
(`data 0` is `object->data[numFixedFields]`), the number of named instance variables and
the tally. -/
structure IDict (O : Type) where
  fixed : Nat
  numFields : Nat
  data : Nat → O
  tally : Nat

/-- `identity_dictionary_find_key_or_nil`, loop: dict.c:1700-1714.  The answer is
the C answer, i.e. one more than the word that holds the key. -/
def findKeyOrNilLoop (numFields : Nat) (data : Nat → O) (key : O) : Nat → Nat → Option Nat
  | 0, _ => none
  | count + 1, index =>
    let index := index &&& (numFields - 1)
    if data index = nil then some (index + 1)
    else if data index = key then some (index + 1)
    else findKeyOrNilLoop numFields data key count (index + 2)

/-- `identity_dictionary_find_key_or_nil`: dict.c:1688-1719. -/
def findKeyOrNil (d : IDict O) (key : O) : Option Nat :=
  findKeyOrNilLoop nil d.numFields d.data key (d.numFields / 2) (hash key * 2)

/-- `identity_dictionary_find_key`, loop: dict.c:1664-1678.  `some none` is the
answer -1. -/
def findKeyLoop (numFields : Nat) (data : Nat → O) (key : O) : Nat → Nat → Option (Option Nat)
  | 0, _ => none
  | count + 1, index =>
    let index := index &&& (numFields - 1)
    if data index = nil then some none
    else if data index = key then some (some (index + 1))
    else findKeyLoop numFields data key count (index + 2)

/-- `identity_dictionary_find_key`: dict.c:1652-1683. -/
def findKey (d : IDict O) (key : O) : Option (Option Nat) :=
  findKeyLoop nil d.numFields d.data key (d.numFields / 2) (hash key * 2)

/-- `object->data[i] = v`. -/
def set (data : Nat → O) (i : Nat) (v : O) : Nat → O := fun j => if j = i then v else data j

/-- The rehashing loop of `grow_identity_dictionary`, dict.c:1633-1645, after `m`
iterations; `new` is the object being filled. -/
def growLoop (old : Nat → O) (new : IDict O) : Nat → Option (IDict O)
  | 0 => some new
  | m + 1 => do
    let d ← growLoop old new m
    let key := old (m * 2)
    if key = nil then some d
    else do
      let index ← findKeyOrNil nil hash d key
      let data := set d.data (index - 1) key
      let data := set data index (old (m * 2 + 1))
      some { d with data := data }

/-- `grow_identity_dictionary`: dict.c:1611-1649.  Note that the new tally is the old
one plus one (`INCR_INT`).  Named instance variables other than the tally are not
modelled. -/
def growIdentity (d : IDict O) : Option (IDict O) :=
  let oldNumFields := d.numFields / 2
  let numFields := newNumFields oldNumFields
  growLoop nil hash d.data
    { fixed := d.fixed, numFields := numFields * 2, data := fun _ => nil, tally := d.tally + 1 }
    oldNumFields

/-- `_gst_identity_dictionary_new`: dict.c:1722-1735. -/
def identityNew (fixed size : Nat) : IDict O :=
  { fixed := fixed, numFields := newNumFields size * 2, data := fun _ => nil, tally := 0 }

/-- The growth test of `_gst_identity_dictionary_at_put`, dict.c:1756 (and of
`_gst_identity_dictionary_at_inc`, 2247): `objSize` counts the two words of the header
and the named instance variables. -/
def identityTooFull (d : IDict O) : Bool := d.tally ≥ (2 + d.fixed + d.numFields) * 3 / 8

/-- `_gst_identity_dictionary_at_put`: dict.c:1737-1773.  Answers the old value and the
dictionary. -/
def identityAtPut (d : IDict O) (key value : O) : Option (O × IDict O) := do
  let d ← (if identityTooFull d then growIdentity nil hash d else some d : Option (IDict O))
  let index ← findKeyOrNil nil hash d key
  let tally := if d.data (index - 1) = nil then d.tally + 1 else d.tally
  let data := set d.data (index - 1) key
  let oldValue := data index
  let data := set data index value
  some (oldValue, { d with data := data, tally := tally })

/-- `_gst_identity_dictionary_at`: dict.c:1774-1789. -/
def identityAt (d : IDict O) (key : O) : Option O := do
  let index ← findKeyOrNil nil hash d key
  some (d.data index)

/-- `_gst_find_class_method` after the nil test: dict.c:1430-1442; looks up with
`identity_dictionary_find_key`. -/
def findClassMethod (d : IDict O) (selector : O) : Option O := do
  let r ← findKey nil hash d selector
  match r with
  | none => some nil
  | some index => some (d.data index)

/-! ## Dictionary: slots point to Associations -/

/-- The heap of associations: number of the association ↦ key and value.  The slots of a
Dictionary hold association numbers. -/
structure Assocs (O : Type) where
  size : Nat
  key : Nat → O
  value : Nat → O

structure Dict where
  fixed : Nat
  numFields : Nat
  slots : Nat → Option Nat
  tally : Nat

/-- `find_key_or_nil`, loop: dict.c:1550-1564.  Also the loop of
`dictionary_association_at`, dict.inl:825-840 (which answers the association instead of
the index). -/
def findLoop (numFields : Nat) (slots : Nat → Option Nat) (key : Nat → O) (k : O) :
    Nat → Nat → Option Nat
  | 0, _ => none
  | count + 1, index =>
    let index := index &&& (numFields - 1)
    match slots index with
    | none => some index
    | some a => if key a = k then some index else findLoop numFields slots key k count (index + 1)

/-- `find_key_or_nil`: dict.c:1534-1571. -/
def find (d : Dict) (H : Assocs O) (k : O) : Option Nat :=
  findLoop d.numFields d.slots H.key k d.numFields (hash k)

/-- The rehashing loop of `grow_dictionary`: dict.c:1595-1605. -/
def growDictLoop (H : Assocs O) (old : Nat → Option Nat) (new : Dict) : Nat → Option Dict
  | 0 => some new
  | m + 1 => do
    let d ← growDictLoop H old new m
    match old m with
    | none => some d
    | some a => do
      let index ← find hash d H (H.key a)
      some { d with slots := Hash.update d.slots index (some a) }

/-- `grow_dictionary`: dict.c:1572-1609 (the tally is among the named instance variables
copied by `memcpy`). -/
def growDict (H : Assocs O) (d : Dict) : Option Dict :=
  growDictLoop hash H d.slots
    { d with numFields := newNumFields d.numFields, slots := fun _ => none } d.numFields

/-- `_gst_dictionary_new`: dict.c:1811-1824 (`fixed` = 1); also the dictionary part of
`_gst_binding_dictionary_new` (`fixed` = 2) and `namespace_new` (`fixed` = 5). -/
def dictNew (fixed size : Nat) : Dict :=
  { fixed := fixed, numFields := newNumFields size, slots := fun _ => none, tally := 0 }

/-- The growth test of `_gst_dictionary_add`: dict.c:1860-1861. -/
def dictTooFull (d : Dict) : Bool := d.tally ≥ (2 + d.fixed + d.numFields) * 3 / 4

/-- `_gst_dictionary_add`: dict.c:1842-1884. -/
def dictAdd (H : Assocs O) (d : Dict) (a : Nat) : Option (Assocs O × Dict) := do
  let d ← (if dictTooFull d then growDict hash H d else some d : Option Dict)
  let index ← find hash d H (H.key a)
  match d.slots index with
  | none => some (H, { d with tally := d.tally + 1, slots := Hash.update d.slots index (some a) })
  | some b => some ({ H with value := fun j => if j = b then H.value a else H.value j }, d)

/-- `association_new`: dict.inl:860-874. -/
def associationNew (H : Assocs O) (key value : O) : Assocs O × Nat :=
  ({ size := H.size + 1
     key := fun j => if j = H.size then key else H.key j
     value := fun j => if j = H.size then value else H.value j }, H.size)

/-- `DICTIONARY_AT_PUT`: add a new association. -/
def dictAtPut (H : Assocs O) (d : Dict) (key value : O) : Option (Assocs O × Dict) :=
  let r := associationNew H key value
  dictAdd hash r.1 d r.2

/-- `dictionary_at` (dict.inl:846-858) by way of `dictionary_association_at`
(dict.inl:807-844). -/
def dictAt (H : Assocs O) (d : Dict) (key : O) : Option O := do
  let index ← find hash d H key
  match d.slots index with
  | none => some nil
  | some a => some (H.value a)

end

end Verif.VMDict
