/-!
# Model of the object dumper

`packages/object-dumper/ObjDumper.st`: `ObjectDumper>>dump:` turns a graph of objects, with sharing and
cycles, into bytes; `ObjectDumper>>load` turns the bytes into a graph again.  `Proxy.st`: the proxies that a
program may register; of these only `NullProxy` is modelled (what `ObjectDumper class>>disableProxyFor:`
installs).

Simplified throughout: the dumper's functions answer the bytes they would append to the stream, and the loader's
functions carry the bytes still to be read; the stream can hold any byte and can be moved back by four bytes, so
that `lookup:` followed by `stream skip: -4; nextPutLong:` (ObjDumper.st:330-335, 577-583) is writing the second
number only.  `preStore`, `postStore` and `postLoad` are not modelled (they do nothing unless a class overrides
them).  The dictionary `fromObjects` is represented by the list `toObjects`, in which it is the last place of each
object; as for every `IdentityDictionary` (kernel/LookupTable.st:79-87, kernel/HashedColl.st:353-362) the key `nil`
is never found in it.
-/

namespace Verif.Dumper

/-- The outcome of a run: a result, an error signalled to the user, or more steps than the given number. -/
inductive R (α : Type) where
  | ok (a : α)
  | err
  | fuel
  deriving DecidableEq, Repr

/-- Sequencing of runs. -/
def R.bind {α β : Type} : R α → (α → R β) → R β
  | .ok a, f => f a
  | .err, _ => .err
  | .fuel, _ => .fuel

instance : Monad R where
  pure := R.ok
  bind := R.bind

/-- The name of a global: its bytes. -/
abbrev Name := List Nat

/-- An object as seen through an object pointer.  A namespace is given by its path, innermost name first, with
`Smalltalk` the empty path; a class by the path of its environment and its name; every other object that is not
special-cased is an address.  Root namespaces (ObjDumper.st:198-200) are left out. -/
inductive Val where
  | nil
  | tru
  | fls
  | int (i : Int)
  | char (c : Nat)
  | uchar (c : Nat)
  | sym (s : Name)
  | ns (p : List Name)
  | cls (p : List Name) (n : Name)
  | mcls (p : List Name) (n : Name)
  | ref (a : Nat)
  deriving DecidableEq, Repr

/-- The shapes of the indexed instance variables, kernel/Behavior.st:1061-1065. -/
inductive Shape where
  | pointer | character | byte | int8 | short | ushort | int | uint | int64 | uint64 | utf32 | float | double
  deriving DecidableEq, Repr

/-- What the dumper asks a class: `instSize` and `shape` (kernel/Behavior.st:1017-1031, 1097-1102), and whether
`disableProxyFor:` was sent for it (ObjDumper.st:97-112). -/
structure Info where
  inst : Nat
  shape : Option Shape
  nullProxy : Bool := Bool.false
  deriving DecidableEq, Repr

/-- What a global of a namespace is bound to. -/
inductive Binding where
  | space
  | cls (i : Info)
  deriving DecidableEq, Repr

/-- The image in which objects are dumped and loaded: the globals, and the conversion of a `FloatD` to a `FloatE`
(`asFloatE`), both on bit patterns, about which nothing is assumed. -/
structure Env where
  bind : List Name → Name → Option Binding
  narrow : Int → Int

/-- An object that is not special-cased: its class, its fixed instance variables, and its indexed ones, which are
objects if the shape is `#pointer` and numbers otherwise (for `#character` and `#utf32` the values of the
characters, for `#float` and `#double` the bit patterns). -/
structure Obj where
  cpath : List Name
  cname : Name
  fixed : List Val
  ptrs : List Val
  raws : List Int
  deriving DecidableEq, Repr

/-- The global `NullProxy`. -/
def nullProxyName : Name := [78, 117, 108, 108, 80, 114, 111, 120, 121]

/-! ### Bytes -/

/-- ObjDumper.st:762-770 `nextPutByte:`. -/
def putByte (i : Int) : List Nat := [(if i < 0 then 256 + i else i).toNat]

/-- ObjDumper.st:812-822 `nextPutBytes:of:`, the loop; `a` is the argument, `i` the rest of it. -/
def putBytes (a : Int) : Nat → Int → List Nat
  | 0, _ => []
  | n + 1, i => putByte (i % 256) ++ putBytes a n (if i / 256 = 0 ∧ a < 0 then 255 else i / 256)

/-- ObjDumper.st:781-786 `nextPutLong:`. -/
def long (i : Int) : List Nat := putBytes i 4 i

/-- ObjDumper.st:796-810 `nextBytes:signed:`, with `w` the weight of the next byte. -/
def getBytes (signed : Bool) : Nat → Int → Int → List Nat → R (Int × List Nat)
  | _, _, _, [] => .err
  | 0, _, _, _ => .err
  | 1, w, acc, b :: bs => .ok (acc + (if signed && decide (b > 127) then (b : Int) - 256 else (b : Int)) * w, bs)
  | n + 1, w, acc, b :: bs => getBytes signed n (w * 256) (acc + (b : Int) * w) bs

/-- ObjDumper.st:707-712 `nextLong`. -/
def getLong (bs : List Nat) : R (Int × List Nat) := getBytes true 4 1 0 bs

/-- ObjDumper.st:633-638 `nextByte`. -/
def getByte : List Nat → R (Nat × List Nat)
  | [] => .err
  | b :: bs => .ok (b, bs)

/-- ObjDumper.st:431-442 `nextAsciiz`. -/
def getAsciiz : List Nat → R (Name × List Nat)
  | [] => .err
  | b :: bs => if b = 0 then .ok ([], bs) else
      match getAsciiz bs with
      | .ok (s, r) => .ok (b :: s, r)
      | .err => .err
      | .fuel => .fuel

/-! ### Dumping -/

/-- The last place of an object in `toObjects`, counted from one, or zero. -/
def lastIx : List Val → Val → Nat
  | [], _ => 0
  | x :: xs, v => if lastIx xs v > 0 then lastIx xs v + 1 else if x = v then 1 else 0

/-- The number `fromObjects at: anObject ifAbsent: [0]` of ObjDumper.st:330-336 `lookup:`. -/
def lookupIx (t : List Val) (v : Val) : Nat := if v = .nil then 0 else lastIx t v

/-- ObjDumper.st:612-628 `storeGlobal:`: `g` is the object, `name` its name and `space` what dumps its
namespace. -/
def storeName (t : List Val) (g : Val) (name : Name) (space : List Val → List Nat × List Val) :
    List Nat × List Val :=
  if lookupIx t g > 0 then (long (lookupIx t g), t)
  else (long 0 ++ (space t).1 ++ name ++ [0], (space t).2 ++ [g])

/-- `dump:` of a namespace: ObjDumper.st:193-197 (`Smalltalk`, and namespaces) within `dump:`
(ObjDumper.st:269-279). -/
def dumpNs : List Name → List Val → List Nat × List Val
  | [], t =>
    if lookupIx t (.ns []) > 0 then (long (lookupIx t (.ns [])), t) else (long (-8), t ++ [.ns []])
  | n :: p, t =>
    if lookupIx t (.ns (n :: p)) > 0 then (long (lookupIx t (.ns (n :: p))), t)
    else
      let r := storeName t (.ns (n :: p)) n (dumpNs p)
      (long (-9) ++ r.1, r.2 ++ [.ns (n :: p)])

/-- ObjDumper.st:612-628 `storeGlobal:` of a class. -/
def storeClassName (t : List Val) (p : List Name) (n : Name) : List Nat × List Val :=
  storeName t (.cls p n) n (dumpNs p)

/-- ObjDumper.st:160-228, the special cases, and ObjDumper.st:570-586 `specialCaseDump:`; the case of the
proxies is in `dump`. -/
def special (t : List Val) : Val → Option (List Nat × List Val)
  | .nil => some (long (-1), t ++ [.nil])
  | .tru => some (long (-2), t ++ [.tru])
  | .fls => some (long (-3), t ++ [.fls])
  | .int i => some (long (-4) ++ long i, t ++ [.int i])
  | .char c => some (long (-5) ++ [c], t ++ [.char c])
  | .cls p n => some (long (-6) ++ (storeClassName t p n).1, (storeClassName t p n).2 ++ [.cls p n])
  | .mcls p n => some (long (-7) ++ (storeClassName t p n).1, (storeClassName t p n).2 ++ [.mcls p n])
  | .ns [] => some (long (-8), t ++ [.ns []])
  | .ns (n :: p) =>
    let r := storeName t (.ns (n :: p)) n (dumpNs p)
    some (long (-9) ++ r.1, r.2 ++ [.ns (n :: p)])
  | .sym s => some (long (-11) ++ s ++ [0], t ++ [.sym s])
  | .uchar c => some (long (-13) ++ long c, t ++ [.uchar c])
  | .ref _ => none

/-- Dumping a list of objects in order, each with `d`. -/
def dumpAll (d : List Val → Val → R (List Nat × List Val)) : List Val → List Val → R (List Nat × List Val)
  | t, [] => .ok ([], t)
  | t, v :: vs => do
    let r ← d t v
    let r' ← dumpAll d r.2 vs
    .ok (r.1 ++ r'.1, r'.2)

/-- The bytes of one element of a shape other than `#pointer`, ObjDumper.st:461-485.  The test for `#int` is
made twice and the one for `#uint` never; the elements of `#double` are stored by `nextPutFloat:`. -/
def rawPut (env : Env) (s : Shape) (x : Int) : Option (List Nat) :=
  if s = .character then some [x.toNat]
  else if s = .byte ∨ s = .int8 then some (putByte x)
  else if s = .short ∨ s = .ushort then some (putBytes x 2 x)
  else if s = .int ∨ s = .int then some (long x)
  else if s = .int64 ∨ s = .uint64 then some (putBytes x 8 x)
  else if s = .utf32 then some (long x)
  else if s = .float then some (long x)
  else if s = .double then some (long (env.narrow x))
  else none

/-- Dumping the elements of a shape other than `#pointer`.  The shape is looked at before the elements, so that
an unknown one is an error also for an empty object. -/
def rawDump (env : Env) (s : Shape) : List Int → R (List Nat)
  | [] => if rawPut env s 0 = none then .err else .ok []
  | x :: xs =>
    match rawPut env s x with
    | none => .err
    | some b => do
      let r ← rawDump env s xs
      .ok (b ++ r)

/-- ObjDumper.st:449-487 `primDump:` of the object `o` at the address `a`; ObjDumper.st:597-610 `storeClass:` (the
class of such an object is never a metaclass). -/
def primDump (env : Env) (d : List Val → Val → R (List Nat × List Val)) (t : List Val) (a : Nat) (o : Obj)
    (i : Info) : R (List Nat × List Val) := do
  let c := storeClassName t o.cpath o.cname
  let t1 := c.2 ++ [.ref a]
  let hd := [1] ++ c.1
  match i.shape with
  | none => do
    let r ← dumpAll d t1 o.fixed
    .ok (hd ++ r.1, r.2)
  | some .pointer => do
    let r ← dumpAll d t1 o.fixed
    let r' ← dumpAll d r.2 o.ptrs
    .ok (hd ++ long o.ptrs.length ++ r.1 ++ r'.1, r'.2)
  | some s => do
    let r ← dumpAll d t1 o.fixed
    let b ← rawDump env s o.raws
    .ok (hd ++ long o.raws.length ++ r.1 ++ b, r.2)

/-- ObjDumper.st:269-279 `dump:`.  The object of a class with a `NullProxy` is special case 12
(ObjDumper.st:206-216), `NullProxy>>dumpTo:` (Proxy.st:148-153) and `dumpContentsOf:` (ObjDumper.st:360-369), which
registers the object again after `primDump:`. -/
def dump (env : Env) (h : List Obj) : Nat → List Val → Val → R (List Nat × List Val)
  | 0, _, _ => .fuel
  | k + 1, t, v =>
    if lookupIx t v > 0 then .ok (long (lookupIx t v), t)
    else match special t v with
      | some r => .ok r
      | none =>
        match v with
        | .ref a =>
          match h[a]? with
          | none => .err
          | some o =>
            match env.bind o.cpath o.cname with
            | some (.cls i) =>
              if i.nullProxy = Bool.true then do
                let g := storeClassName t [] nullProxyName
                let r ← primDump env (dump env h k) g.2 a o i
                .ok (long (-12) ++ long 0 ++ g.1 ++ long 0 ++ r.1, r.2 ++ [v] ++ [v] ++ [v])
              else do
                let r ← primDump env (dump env h k) t a o i
                .ok (long 0 ++ r.1, r.2)
            | _ => .err
        | _ => .err

/-! ### Loading -/

/-- The state of the loader: the bytes still to be read, `toObjects`, and the objects made so far. -/
structure L where
  inp : List Nat
  objs : List Val
  heap : List Obj
  deriving DecidableEq, Repr

/-- ObjDumper.st:345-358 `register:`. -/
def reg (s : L) (v : Val) : L := { s with objs := s.objs ++ [v] }

/-- ObjDumper.st:338-343 `lookupIndex:`. -/
def lookupIndex (s : L) (k : Int) : R (Val × L) :=
  if k ≤ 0 then .err else
  match s.objs[k.toNat - 1]? with
  | some v => .ok (v, s)
  | none => .err

/-- ObjDumper.st:398-411 `loadGlobal`; `l` is `load`.  The name is looked for in the namespace itself only. -/
def loadGlobal (env : Env) (l : L → R (Val × L)) (s : L) : R (Val × L) := do
  let (k, inp) ← getLong s.inp
  if k > 0 then lookupIndex { s with inp := inp } k else do
    let (sp, s1) ← l { s with inp := inp }
    let (n, inp2) ← getAsciiz s1.inp
    match (match sp with | .nil => some [] | .ns p => some p | _ => none) with
    | none => .err
    | some p =>
      match env.bind p n with
      | some .space => .ok (.ns (n :: p), reg { s1 with inp := inp2 } (.ns (n :: p)))
      | some (.cls _) => .ok (.cls p n, reg { s1 with inp := inp2 } (.cls p n))
      | none => .err

/-- `asCharacter`, kernel/Integer.st:398-403 and kernel/Character.st:100-114. -/
def asCharacter (i : Int) : R Val :=
  if i < 0 ∨ i > 1114111 then .err
  else if i ≤ 127 then .ok (.char i.toNat) else .ok (.uchar i.toNat)

/-- The bytes of one element of a shape other than `#pointer`, ObjDumper.st:545-566.  Nothing understands
`nextSignByte` and `nextInt64`. -/
def rawGet (s : Shape) (bs : List Nat) : R (Int × List Nat) :=
  match s with
  | .character => do
    let (b, r) ← getByte bs
    .ok (b, r)
  | .byte => do
    let (b, r) ← getByte bs
    .ok (b, r)
  | .int8 => .err
  | .short => getBytes true 2 1 0 bs
  | .ushort => getBytes false 2 1 0 bs
  | .int => getLong bs
  | .uint => getBytes false 4 1 0 bs
  | .int64 => .err
  | .uint64 => getBytes false 8 1 0 bs
  | .utf32 => do
    let (x, r) ← getLong bs
    match asCharacter x with
    | .ok _ => .ok (x, r)
    | _ => .err
  | .float => getBytes false 4 1 0 bs
  | .double => getBytes false 8 1 0 bs
  | .pointer => .err

/-- Loading `n` elements of a shape other than `#pointer`, ObjDumper.st:413-422 `load:through:`. -/
def rawLoad (s : Shape) : Nat → List Nat → R (List Int × List Nat)
  | 0, bs => .ok ([], bs)
  | n + 1, bs => do
    let (x, r) ← rawGet s bs
    let (xs, r') ← rawLoad s n r
    .ok (x :: xs, r')

/-- Loading `n` objects in order. -/
def loadAll (l : L → R (Val × L)) : Nat → L → R (List Val × L)
  | 0, s => .ok ([], s)
  | n + 1, s => do
    let (v, s1) ← l s
    let (vs, s2) ← loadAll l n s1
    .ok (v :: vs, s2)

/-- A new instance, `basicNew` or `basicNew:`. -/
def blank (p : List Name) (n : Name) (i : Info) (size : Nat) : Obj where
  cpath := p
  cname := n
  fixed := List.replicate i.inst .nil
  ptrs := if i.shape = some .pointer then List.replicate size .nil else []
  raws := if i.shape = some .pointer ∨ i.shape = none then [] else List.replicate size 0

/-- ObjDumper.st:424-434 `loadFixedPart:` and ObjDumper.st:537-568 `primLoad:` of a class that is not a metaclass.
The variables are put in the new object once all of them have been loaded, instead of one by one: nothing reads
them in between. -/
def primLoad (l : L → R (Val × L)) (p : List Name) (n : Name) (i : Info) (s : L) : R (Val × L) :=
  match i.shape with
  | none => do
    let a := s.heap.length
    let o := blank p n i 0
    let (vs, s1) ← loadAll l i.inst (reg { s with heap := s.heap ++ [o] } (.ref a))
    .ok (.ref a, { s1 with heap := s1.heap.set a { o with fixed := vs } })
  | some sh => do
    let (k, inp) ← getLong s.inp
    if k < 0 then .err else do
      let a := s.heap.length
      let o := blank p n i k.toNat
      let (vs, s1) ← loadAll l i.inst (reg { s with inp := inp, heap := s.heap ++ [o] } (.ref a))
      let s1 := { s1 with heap := s1.heap.set a { o with fixed := vs } }
      if sh = .pointer then do
        let (ps, s2) ← loadAll l k.toNat s1
        .ok (.ref a, { s2 with heap := s2.heap.set a { o with fixed := vs, ptrs := ps } })
      else do
        let (xs, inp2) ← rawLoad sh k.toNat s1.inp
        .ok (.ref a, { s1 with inp := inp2, heap := s1.heap.set a { o with fixed := vs, raws := xs } })

/-- ObjDumper.st:386-396 `loadClass` and the call of `primLoad:` in ObjDumper.st:281-296 `load`. -/
def loadObject (env : Env) (l : L → R (Val × L)) (s : L) : R (Val × L) := do
  let (b, inp) ← getByte s.inp
  let (g, s1) ← loadGlobal env l { s with inp := inp }
  match g with
  | .cls p n =>
    if b = 0 then .ok (.cls p n, s1)
    else match env.bind p n with
      | some (.cls i) => primLoad l p n i s1
      | _ => .err
  | _ => .err

/-- The load blocks of ObjDumper.st:160-228; `NullProxy class>>loadFrom:` is Proxy.st:141-146. -/
def specialLoad (env : Env) (l : L → R (Val × L)) (k : Int) (s : L) : R (Val × L) :=
  if k = -1 then .ok (.nil, s)
  else if k = -2 then .ok (.tru, s)
  else if k = -3 then .ok (.fls, s)
  else if k = -4 then do
    let (i, inp) ← getLong s.inp
    .ok (.int i, { s with inp := inp })
  else if k = -5 then do
    let (b, inp) ← getByte s.inp
    .ok (.char b, { s with inp := inp })
  else if k = -6 then loadGlobal env l s
  else if k = -7 then do
    let (g, s1) ← loadGlobal env l s
    match g with
    | .cls p n => .ok (.mcls p n, s1)
    | _ => .err
  else if k = -8 then .ok (.ns [], s)
  else if k = -9 then loadGlobal env l s
  else if k = -10 then loadGlobal env l s
  else if k = -11 then do
    let (n, inp) ← getAsciiz s.inp
    .ok (.sym n, { s with inp := inp })
  else if k = -12 then do
    let (j, inp) ← getLong s.inp
    if j = 0 then do
      let (g, s1) ← loadGlobal env l { s with inp := inp }
      if g = .cls [] nullProxyName then do
        let (v, s2) ← l s1
        .ok (v, reg s2 v)
      else .err
    else lookupIndex { s with inp := inp } j
  else if k = -13 then do
    let (i, inp) ← getLong s.inp
    let v ← asCharacter i
    .ok (v, { s with inp := inp })
  else .err

/-- ObjDumper.st:281-296 `load`; ObjDumper.st:588-595 `specialCaseLoad:`. -/
def load (env : Env) : Nat → L → R (Val × L)
  | 0, _ => .fuel
  | m + 1, s => do
    let (k, inp) ← getLong s.inp
    if k < 0 then do
      let (v, s1) ← specialLoad env (load env m) k { s with inp := inp }
      .ok (v, reg s1 v)
    else if k > 0 then lookupIndex { s with inp := inp } k
    else loadObject env (load env m) { s with inp := inp }

end Verif.Dumper
