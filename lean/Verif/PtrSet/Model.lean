import Mathlib.Logic.Function.Basic
import Mathlib.Data.Nat.Notation
import Mathlib.Data.List.Basic

/-!
# Sets and maps of pointers (lib-src/pointer-set.c)

Pointers are numbers and `NULL` is 0.  A probing loop takes as many rounds as there are slots: `none` means that it saw them all and would go on forever.
Memory is not exhausted (the code does not check `calloc`).
-/

namespace Verif.PtrSet

/-- `hash1` (lib-src/pointer-set.c:57-71), for words of 64 bits. -/
def hash1 (p max logmax : ℕ) : ℕ := ((0x9e3779b97f4a7c16 * p % 2 ^ 64) >>> (64 - logmax)) &&& (max - 1)

/-- `++n; if (n == n_slots) n = 0;` (lib-src/pointer-set.c:111-113). -/
def next (nSlots n : ℕ) : ℕ := if n + 1 = nSlots then 0 else n + 1

/-- The loop of `pointer_set_contains` and `pointer_map_contains` (lib-src/pointer-set.c:103-115, 236-248): where `p` is, or that it is not there. -/
def containsLoop (slots : ℕ → ℕ) (nSlots p : ℕ) : ℕ → ℕ → Option (Option ℕ)
  | 0, _ => none
  | k + 1, n =>
    if slots n = p then some (some n)
    else if slots n = 0 then some none
    else containsLoop slots nSlots p k (next nSlots n)

/-- The loop of `insert_aux` (lib-src/pointer-set.c:124-134). -/
def auxLoop (slots : ℕ → ℕ) (nSlots p : ℕ) : ℕ → ℕ → Option ℕ
  | 0, _ => none
  | k + 1, n => if slots n = p ∨ slots n = 0 then some n else auxLoop slots nSlots p k (next nSlots n)

/-- `insert_aux` (lib-src/pointer-set.c:121-135). -/
def insertAux (p : ℕ) (slots : ℕ → ℕ) (nSlots logSlots : ℕ) : Option ℕ :=
  auxLoop slots nSlots p nSlots (hash1 p nSlots logSlots)

/-- `struct pointer_set_t` (lib-src/pointer-set.c:34-41). -/
structure PSet where
  logSlots : ℕ
  nSlots : ℕ
  nElements : ℕ
  slots : ℕ → ℕ

/-- `pointer_set_create` (lib-src/pointer-set.c:75-85). -/
def create : PSet := ⟨8, 2 ^ 8, 0, fun _ => 0⟩

/-- `pointer_set_contains` (lib-src/pointer-set.c:99-116). -/
def contains (s : PSet) (p : ℕ) : Option Bool :=
  (containsLoop s.slots s.nSlots p s.nSlots (hash1 p s.nSlots s.logSlots)).map Option.isSome

/-- The loop over the old slots in `pointer_set_insert` (lib-src/pointer-set.c:153-158): `NULL` is inserted like any other. -/
def growLoop (old : ℕ → ℕ) (nSlots logSlots : ℕ) : ℕ → Option (ℕ → ℕ)
  | 0 => some fun _ => 0
  | i + 1 => do
    let new ← growLoop old nSlots logSlots i
    let n ← insertAux (old i) new nSlots logSlots
    some (Function.update new n (old i))

/-- Expansion (lib-src/pointer-set.c:146-164). -/
def grow (s : PSet) : Option PSet :=
  if s.nElements > s.nSlots / 4 then
    (growLoop s.slots (s.nSlots * 2) (s.logSlots + 1) s.nSlots).map fun new =>
      ⟨s.logSlots + 1, s.nSlots * 2, s.nElements, new⟩
  else some s

/-- `pointer_set_insert` (lib-src/pointer-set.c:140-173). -/
def insert (s : PSet) (p : ℕ) : Option (PSet × Bool) := do
  let s ← grow s
  let n ← insertAux p s.slots s.nSlots s.logSlots
  if s.slots n ≠ 0 then some (s, true)
  else some ({ s with slots := Function.update s.slots n p, nElements := s.nElements + 1 }, false)

/-- The loop of `pointer_set_traverse` (lib-src/pointer-set.c:181-184): the pointers that are passed to `fn`. -/
def traverseLoop (slots : ℕ → ℕ) (fn : ℕ → Bool) : List ℕ → List ℕ
  | [] => []
  | i :: is =>
    if slots i ≠ 0 then
      if fn (slots i) then slots i :: traverseLoop slots fn is else [slots i]
    else traverseLoop slots fn is

/-- `pointer_set_traverse` (lib-src/pointer-set.c:178-185). -/
def traverse (s : PSet) (fn : ℕ → Bool) : List ℕ := traverseLoop s.slots fn (List.range s.nSlots)

/-- `struct pointer_map_t` (lib-src/pointer-set.c:194-202). -/
structure PMap where
  logSlots : ℕ
  nSlots : ℕ
  nElements : ℕ
  keys : ℕ → ℕ
  values : ℕ → ℕ

/-- `pointer_map_create` (lib-src/pointer-set.c:206-217). -/
def createMap : PMap := ⟨8, 2 ^ 8, 0, fun _ => 0, fun _ => 0⟩

/-- `pointer_map_contains` (lib-src/pointer-set.c:231-249): the index of the value. -/
def containsMap (m : PMap) (p : ℕ) : Option (Option ℕ) :=
  containsLoop m.keys m.nSlots p m.nSlots (hash1 p m.nSlots m.logSlots)

/-- The loop over the old keys in `pointer_map_insert` (lib-src/pointer-set.c:268-275). -/
def growMapLoop (old values : ℕ → ℕ) (nSlots logSlots : ℕ) : ℕ → Option ((ℕ → ℕ) × (ℕ → ℕ))
  | 0 => some (fun _ => 0, fun _ => 0)
  | i + 1 => do
    let new ← growMapLoop old values nSlots logSlots i
    if old i ≠ 0 then
      let n ← insertAux (old i) new.1 nSlots logSlots
      some (Function.update new.1 n (old i), Function.update new.2 n (values i))
    else some new

/-- Expansion (lib-src/pointer-set.c:260-283). -/
def growMap (m : PMap) : Option PMap :=
  if m.nElements > m.nSlots / 4 then
    (growMapLoop m.keys m.values (m.nSlots * 2) (m.logSlots + 1) m.nSlots).map fun new =>
      ⟨m.logSlots + 1, m.nSlots * 2, m.nElements, new.1, new.2⟩
  else some m

/-- `pointer_map_insert` (lib-src/pointer-set.c:253-293): the new map and the index of the value. -/
def insertMap (m : PMap) (p : ℕ) : Option (PMap × ℕ) := do
  let m ← growMap m
  let n ← insertAux p m.keys m.nSlots m.logSlots
  if m.keys n = 0 then
    some ({ m with keys := Function.update m.keys n p, nElements := m.nElements + 1 }, n)
  else some (m, n)

/-- The loop of `pointer_map_traverse` (lib-src/pointer-set.c:302-305): the keys and values that are passed to `fn`. -/
def traverseMapLoop (keys values : ℕ → ℕ) (fn : ℕ → ℕ → Bool) : List ℕ → List (ℕ × ℕ)
  | [] => []
  | i :: is =>
    if keys i ≠ 0 then
      if fn (keys i) (values i) then (keys i, values i) :: traverseMapLoop keys values fn is
      else [(keys i, values i)]
    else traverseMapLoop keys values fn is

/-- `pointer_map_traverse` (lib-src/pointer-set.c:299-306). -/
def traverseMap (m : PMap) (fn : ℕ → ℕ → Bool) : List (ℕ × ℕ) :=
  traverseMapLoop m.keys m.values fn (List.range m.nSlots)

end Verif.PtrSet
