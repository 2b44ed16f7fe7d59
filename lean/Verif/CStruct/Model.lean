import Mathlib.Data.Nat.Notation
import Mathlib.Data.Int.Notation
import Mathlib.Data.List.Basic

/-!
# Layout of C structures and unions (kernel/CStruct.st, kernel/CType.st, kernel/CObject.st)

The sizes of scalars are those of x86-64 GNU/Linux.
-/

namespace Verif.CStruct

/-- What `sizeof` and `alignof` answer for a type. -/
structure SA where
  size : ℕ
  align : ℕ
  deriving DecidableEq

/-- The scalar types (kernel/CType.st:78-105 `TypeMap`). -/
inductive Scalar where
  | char | uChar | byte | short | uShort | int | uInt | long | uLong | longLong | uLongLong
  | float | double | longDouble | string | smalltalk
  deriving DecidableEq

/-- `sizeof` and `alignof` of the classes of scalars (kernel/CObject.st:568-1280, libgst/dict.c:1129-1222). -/
def Scalar.sa : Scalar → SA
  | .char | .uChar | .byte => ⟨1, 1⟩
  | .short | .uShort => ⟨2, 2⟩
  | .int | .uInt | .float => ⟨4, 4⟩
  | .long | .uLong | .longLong | .uLongLong | .double | .string | .smalltalk => ⟨8, 8⟩
  | .longDouble => ⟨16, 16⟩

/-- A type in a declaration (kernel/CType.st:115-146 `from:`, `computeAggregateType:`); a CStruct or CUnion is known by what it answers to `sizeof` and `alignof`. -/
inductive Ty where
  | scalar (s : Scalar)
  | ptr (t : Ty)
  | array (t : Ty) (n : ℕ)
  | compound (sa : SA)

/-- `sizeof` (kernel/CType.st:230-235, 436-441; kernel/CObject.st:1291-1299). -/
def Ty.sizeof : Ty → ℕ
  | .scalar s => s.sa.size
  | .ptr _ => 8
  | .array t n => t.sizeof * n
  | .compound sa => sa.size

/-- `alignof` (kernel/CType.st:237-242, 443-448; kernel/CObject.st:1300-1308). -/
def Ty.alignof : Ty → ℕ
  | .scalar s => s.sa.align
  | .ptr _ => 8
  | .array t _ => t.alignof
  | .compound sa => sa.align

/-- `bitClear:` for natural numbers: the bits of the mask that are set are subtracted. -/
def bitClear (x m : ℕ) : ℕ := x - (x &&& m)

/-- `Integer>>alignTo:` (kernel/CStruct.st:277-283). -/
def alignTo (x a : ℕ) : ℕ := bitClear (x + a - 1) (a - 1)

/-- The loop of `declaration:inject:into:` (kernel/CStruct.st:137-168): the offsets of the fields, the offset and the alignment at the end. -/
def declLoop (block : ℕ → ℕ → ℕ) : List Ty → ℕ → ℕ → List ℕ × ℕ × ℕ
  | [], offset, maxAlign => ([], offset, maxAlign)
  | t :: fs, offset, maxAlign =>
    let o := block offset t.alignof
    let r := declLoop block fs (o + t.sizeof) (max t.alignof maxAlign)
    (o :: r.1, r.2)

/-- `declaration:inject:into:` and `compileSize:align:` (kernel/CStruct.st:126-189): the offsets of the fields, and the size and alignment. -/
def declaration (super : SA) (block : ℕ → ℕ → ℕ) (start : ℕ) (fs : List Ty) : List ℕ × SA :=
  let r := declLoop block fs start super.align
  (r.1, ⟨alignTo r.2.1 r.2.2, r.2.2⟩)

/-- `CStruct class>>declaration:` (kernel/CStruct.st:243-251). -/
def struct (super : SA) (fs : List Ty) : List ℕ × SA := declaration super alignTo super.size fs

/-- `CUnion class>>declaration:` (kernel/CStruct.st:262-270). -/
def union (super : SA) (fs : List Ty) : List ℕ × SA := declaration super (fun _ _ => 0) 0 fs

/-- `CCompound class>>sizeof` and `alignof`, for a class that inherits from CStruct or CUnion directly (kernel/CStruct.st:62-74). -/
def empty : SA := ⟨0, 1⟩

/-- `addressAt:`, `+` and `incrBy:` (kernel/CObject.st:173-184, 255-260, 269-278): the address. -/
def plus (address : ℤ) (t : Ty) (n : ℤ) : ℤ := address + n * t.sizeof

/-- `-` for a pointer of the same type (kernel/CObject.st:280-298): `none` when it divides by zero. -/
def minus (a b : ℤ) (t : Ty) : Option ℤ := if t.sizeof = 0 then none else some ((a - b) / t.sizeof)

end Verif.CStruct
