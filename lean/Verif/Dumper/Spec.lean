import Verif.Dumper.Model
import Mathlib.Data.List.Forall2
/-!
# What a user expects of dumping and loading

`f` says which object of the loading image stands for which object of the dumping one.
-/

namespace Verif.Dumper

/-- `v'` is what `v` becomes: itself, or the object that stands for it. -/
def Rel (f : Nat → Option Nat) (v v' : Val) : Prop :=
  match v with
  | .ref a => ∃ b, f a = some b ∧ v' = .ref b
  | _ => v' = v

/-- `o'` is `o` again: same class, and the same contents up to `f`. -/
structure ObjRel (f : Nat → Option Nat) (o o' : Obj) : Prop where
  cpath : o'.cpath = o.cpath
  cname : o'.cname = o.cname
  fixed : List.Forall₂ (Rel f) o.fixed o'.fixed
  ptrs : List.Forall₂ (Rel f) o.ptrs o'.ptrs
  raws : o'.raws = o.raws

/-- The namespaces of the path exist, and no name in it has a NUL. -/
def PathOk (env : Env) : List Name → Prop
  | [] => True
  | n :: p => env.bind p n = some .space ∧ 0 ∉ n ∧ PathOk env p

/-- The values that can be dumped: integers of 32 bits, symbols without a NUL, and classes and namespaces that can
be found by their names. -/
def ValOk (env : Env) : Val → Prop
  | .int i => -2147483648 ≤ i ∧ i < 2147483648
  | .uchar c => 127 < c ∧ c ≤ 1114111
  | .sym s => 0 ∉ s
  | .ns p => PathOk env p
  | .cls p n => PathOk env p ∧ 0 ∉ n ∧ ∃ i, env.bind p n = some (.cls i)
  | .mcls p n => PathOk env p ∧ 0 ∉ n ∧ ∃ i, env.bind p n = some (.cls i)
  | _ => True

/-- The elements that a shape has, for the shapes that can be dumped and loaded. -/
def RawOk (s : Shape) (x : Int) : Prop :=
  match s with
  | .character => 0 ≤ x ∧ x < 256
  | .byte => 0 ≤ x ∧ x < 256
  | .short => -32768 ≤ x ∧ x < 32768
  | .ushort => 0 ≤ x ∧ x < 65536
  | .int => -2147483648 ≤ x ∧ x < 2147483648
  | .uint64 => 0 ≤ x ∧ x < 18446744073709551616
  | .utf32 => 0 ≤ x ∧ x ≤ 1114111
  | .float => 0 ≤ x ∧ x < 4294967296
  | _ => False

/-- The shapes that can be dumped and loaded. -/
def ShapeOk (s : Shape) : Prop :=
  s ≠ .int8 ∧ s ≠ .uint ∧ s ≠ .int64 ∧ s ≠ .double

/-- The objects that can be dumped: their class can be found by its name and has no proxy, they have as many fixed
variables as it says, and elements of its shape. -/
def ObjOk (env : Env) (o : Obj) : Prop :=
  PathOk env o.cpath ∧ 0 ∉ o.cname ∧ (∀ v ∈ o.fixed, ValOk env v) ∧ (∀ v ∈ o.ptrs, ValOk env v) ∧
  o.ptrs.length < 2147483648 ∧ o.raws.length < 2147483648 ∧
  ∃ i, env.bind o.cpath o.cname = some (.cls i) ∧ i.nullProxy = Bool.false ∧ o.fixed.length = i.inst ∧
    match i.shape with
    | none => o.ptrs = [] ∧ o.raws = []
    | some .pointer => o.raws = []
    | some s => o.ptrs = [] ∧ ShapeOk s ∧ ∀ x ∈ o.raws, RawOk s x

end Verif.Dumper
