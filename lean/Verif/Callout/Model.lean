import Verif.CInt.Model

/-!
# Calls to C functions (libgst/cint.c)

What is kept of objects is what `smalltalk_to_c` asks for: their class, and what it does with them.  The machine has 64 bits, `wchar_t` has
four bytes.  The values of Integers are in Verif.Callout.Values.
-/

namespace Verif.Callout

/-- `cdata_type` (libgst/cint.h:60-101), in this order. -/
inductive CT where
  | char | uChar | short | uShort | long | uLong | float | double | string | smalltalk | int | uInt | longDouble | unknown | stringOut
  | symbol | byteArray | byteArrayOut | boolean | void | variadic | variadicSmalltalk | cObject | cObjectPtr | self | selfSmalltalk
  | wchar | wstring | wstringOut | symbolOut | longLong | uLongLong
deriving DecidableEq

/-- All of them. -/
def CT.all : List CT := [.char, .uChar, .short, .uShort, .long, .uLong, .float, .double, .string, .smalltalk, .int, .uInt, .longDouble, .unknown,
  .stringOut, .symbol, .byteArray, .byteArrayOut, .boolean, .void, .variadic, .variadicSmalltalk, .cObject, .cObjectPtr, .self, .selfSmalltalk,
  .wchar, .wstring, .wstringOut, .symbolOut, .longLong, .uLongLong]

/-- `CCallable class>>returnTypeMap` (kernel/CCallable.st:45-54). -/
def returnTypeMap : List String := ["char", "uChar", "short", "uShort", "long", "uLong", "float", "double", "string", "smalltalk", "int", "uInt",
  "longDouble", "unknown", "stringOut", "symbol", "byteArray", "byteArrayOut", "boolean", "void", "variadic", "variadicSmalltalk", "cObject",
  "cObjectPtr", "self", "selfSmalltalk", "wchar", "wstring", "wstringOut", "symbolOut", "longLong", "uLongLong"]

/-- What the conversion asks about an object. -/
inductive Kind where
  | smallInt | largeInt | bool | nil | character | unicodeCharacter | byteArray | string | symbol
  /-- An instance of another subclass of String, or of a subclass of UnicodeString. -/
  | subString | unicodeString | subUnicodeString
  | float | cObject
  /-- Another object with indexed variables that are no pointers, or without. -/
  | indexed | array | other
deriving DecidableEq

/-- All of them. -/
def Kind.all : List Kind := [.smallInt, .largeInt, .bool, .nil, .character, .unicodeCharacter, .byteArray, .string, .symbol, .subString,
  .unicodeString, .subUnicodeString, .float, .cObject, .indexed, .array, .other]

/-- The types of libffi. -/
inductive Ffi where
  | sint | uint | sint64 | float | double | longDouble | pointer
deriving DecidableEq

/-- How the parameter is made. -/
inductive Form where
  /-- The object itself. -/
  | oop
  | longLong | long | int | uInt | char | uChar | short | uShort | intToDouble | intToFloat
  | truth | code
  /-- A copy of the bytes or characters that is to be freed. -/
  | copyBytes | copyString | copyWide
  | longDouble | double | float
  /-- The address of the address in a CObject. -/
  | indirect
  | address | null
  /-- The address of the indexed variables. -/
  | inside
deriving DecidableEq

/-- `is_a_kind_of (class, _gst_integer_class)`. -/
def Kind.isInteger (k : Kind) : Bool := k == .smallInt || k == .largeInt

/-- The classes whose indexed variables are no pointers (libgst/dict.c:364-409, 488-498; CLASS_INSTANCE_SPEC). -/
def Kind.rawIndexed : Kind → Bool
  | .largeInt | .byteArray | .string | .symbol | .subString | .unicodeString | .subUnicodeString | .float | .indexed => true
  | _ => false

/-- The type for `#unknown` (libgst/cint.c:1070-1081). -/
def guess (k : Kind) : CT :=
  if k == .bool then .boolean
  else if k == .nil then .cObject
  else if k == .character then .char
  else if k == .unicodeCharacter then .wchar
  else if k == .byteArray then .byteArray
  else if k.isInteger then .long
  else if k == .string || k == .symbol || k == .subString then .string
  else if k == .unicodeString || k == .subUnicodeString then .wstring
  else if k == .cObject then .cObject
  else if k == .float then .double
  else .smalltalk

/-- The cases for Integers (libgst/cint.c:1095-1146). -/
def fromInteger : CT → Option (Ffi × Form)
  | .longLong | .uLongLong => some (.sint64, .longLong)
  | .long | .uLong => some (.sint64, .long)
  | .int => some (.sint, .int)
  | .uInt => some (.sint, .uInt)
  | .char => some (.sint, .char)
  | .uChar => some (.sint, .uChar)
  | .short => some (.sint, .short)
  | .uShort => some (.sint, .uShort)
  | .double => some (.double, .intToDouble)
  | .float => some (.float, .intToFloat)
  | _ => none

/-- The cases for true and false (libgst/cint.c:1148-1174). -/
def fromBoolean : CT → Option (Ffi × Form)
  | .longLong | .uLongLong | .long | .uLong => some (.sint64, .truth)
  | .int | .uInt | .char | .uChar | .short | .uShort | .boolean => some (.sint, .truth)
  | _ => none

/-- The cases for Floats (libgst/cint.c:1207-1222). -/
def fromFloat : CT → Option (Ffi × Form)
  | .longDouble => some (.longDouble, .longDouble)
  | .double => some (.double, .double)
  | .float => some (.float, .float)
  | _ => none

/-- The cases for CObjects (libgst/cint.c:1224-1242). -/
def fromCObject : CT → Option (Ffi × Form)
  | .cObjectPtr => some (.pointer, .indirect)
  | .cObject => some (.pointer, .address)
  | _ => none

/-- The cases for nil (libgst/cint.c:1244-1258). -/
def fromNil : CT → Option (Ffi × Form)
  | .cObjectPtr | .cObject | .byteArray | .byteArrayOut | .string | .stringOut | .symbol => some (.pointer, .null)
  | _ => none

/-- The end of `smalltalk_to_c` (libgst/cint.c:1260-1278). -/
def fromRaw (k : Kind) (t : CT) : Option (Ffi × Form) := if t = .cObject ∧ k.rawIndexed then some (.pointer, .inside) else none

/-- `smalltalk_to_c` after the guess (libgst/cint.c:1083-1279); `none` is `bad_type`. -/
def convertAs (k : Kind) (t : CT) : Option (Ffi × Form) :=
  if t = .smalltalk then some (.pointer, .oop)
  else if k.isInteger then (fromInteger t).orElse fun _ => fromRaw k t
  else if k = .bool then (fromBoolean t).orElse fun _ => fromRaw k t
  else if (k = .character ∧ (t = .char ∨ t = .uChar ∨ t = .wchar)) ∨ (k = .unicodeCharacter ∧ t = .wchar) then some (.sint, .code)
  else if ((k = .string ∨ k = .byteArray) ∧ (t = .string ∨ t = .stringOut ∨ t = .byteArray ∨ t = .byteArrayOut)) ∨
      (k = .symbol ∧ (t = .symbol ∨ t = .string)) then
    if t = .byteArray ∨ t = .byteArrayOut then some (.pointer, .copyBytes) else some (.pointer, .copyString)
  else if k = .unicodeString ∧ (t = .wstring ∨ t = .wstringOut) then some (.pointer, .copyWide)
  else if k = .float then (fromFloat t).orElse fun _ => fromRaw k t
  else if k = .cObject then (fromCObject t).orElse fun _ => fromRaw k t
  else if k = .nil then (fromNil t).orElse fun _ => fromRaw k t
  else fromRaw k t

/-- The type that is stored in the parameter (libgst/cint.c:1068-1084). -/
def actual (k : Kind) (t : CT) : CT := if t = .unknown then guess k else t

/-- `smalltalk_to_c` (libgst/cint.c:1060-1279). -/
def convert (k : Kind) (t : CT) : Option (Ffi × Form) := convertAs k (actual k t)

/-- `get_ffi_type` for symbols (libgst/cint.c:998-1058); `none` is `abort`. -/
def getFfiType : CT → Option Ffi
  | .long | .uLong => some .sint64
  | .longLong | .uLongLong => some .sint64
  | .void | .int | .char | .short | .wchar | .boolean => some .sint
  | .uInt | .uChar | .uShort => some .uint
  | .float => some .float
  | .double => some .double
  | .longDouble => some .longDouble
  | .variadic | .variadicSmalltalk | .self | .selfSmalltalk | .unknown => none
  | _ => some .pointer

/-- An object and what it is. -/
structure Ref where
  id : Nat
  kind : Kind
deriving DecidableEq

/-- An argument; arrays with their elements. -/
inductive Arg where
  | obj (r : Ref)
  | arr (r : Ref) (es : List Ref)

/-- A parameter that was pushed: `cparam` and the type in `types`. -/
structure Param where
  ref : Ref
  type : CT
  ffi : Ffi
  form : Form
deriving DecidableEq

/-- `cp->oop` is not NULL: it is set with copies and with `#cObjectPtr` (libgst/cint.c:1187, 1202, 1235). -/
def Param.keeps (p : Param) : Bool :=
  match p.form with
  | .copyBytes | .copyString | .copyWide | .indirect => true
  | _ => false

/-- The else-part of `push_smalltalk_obj` (libgst/cint.c:1303-1313); its class is all it asks of an array. -/
def pushOne (r : Ref) (t : CT) : Option Param := (convert r.kind t).map fun c => ⟨r, actual r.kind t, c.1, c.2⟩

/-- The loop over the elements (libgst/cint.c:1297-1299): what was pushed, and whether all was. -/
def pushAll (t : CT) : List Ref → List Param × Bool
  | [] => ([], true)
  | r :: rs => match pushOne r t with
    | none => ([], false)
    | some p => let x := pushAll t rs; (p :: x.1, x.2)

/-- The reference of an argument; arrays have the class Array. -/
def Arg.ref : Arg → Ref
  | .obj r => r
  | .arr r _ => ⟨r.id, .array⟩

/-- `push_smalltalk_obj` (libgst/cint.c:1281-1317). -/
def push (a : Arg) (t : CT) : List Param × Bool :=
  if t = .variadic ∨ t = .variadicSmalltalk then
    match a with
    | .obj _ => ([], false)
    | .arr _ es => pushAll (if t = .variadic then .unknown else .smalltalk) es
  else match pushOne a.ref t with
    | none => ([], false)
    | some p => ([p], true)

/-- The declared types need work after the call (libgst/cint.c:872-882). -/
def needsPost : CT → Bool
  | .cObjectPtr | .wstringOut | .stringOut | .byteArrayOut | .symbolOut | .string | .byteArray | .symbol | .wstring => true
  | _ => false

/-- What the first loop finds. -/
structure Count where
  total : Nat
  variadic : Bool
  post : Bool
deriving DecidableEq

/-- `#variadic`, `#variadicSmalltalk` in the first loop (libgst/cint.c:860-865): `none` when it reads past the arguments or the size of a
SmallInteger; `words` is the size of objects that are no Arrays. -/
def variadicCase (words : Ref → Nat) (rest : List Arg → Option Count) : List Arg → Option Count
  | [] => none
  | .obj r :: as => if r.kind = .smallInt then none else (rest as).map fun c => { c with total := c.total + words r, variadic := true }
  | .arr _ es :: as => (rest as).map fun c => { c with total := c.total + es.length, variadic := true }

/-- The first loop (libgst/cint.c:853-888). -/
def count (words : Ref → Nat) : List CT → List Arg → Option Count
  | [], _ => some ⟨0, false, false⟩
  | .void :: ts, as => count words ts as
  | .variadic :: ts, as => variadicCase words (fun as => count words ts as) as
  | .variadicSmalltalk :: ts, as => variadicCase words (fun as => count words ts as) as
  | .self :: ts, as => (count words ts as).map fun c => { c with total := c.total + 1 }
  | .selfSmalltalk :: ts, as => (count words ts as).map fun c => { c with total := c.total + 1 }
  | _ :: _, [] => none
  | t :: ts, _ :: as => (count words ts as).map fun c => { c with total := c.total + 1, post := c.post || needsPost t }

/-- The second loop (libgst/cint.c:908-931): what was pushed, and whether all was; `none` when it reads past the arguments. -/
def pushArgs (receiver : Arg) : List CT → List Arg → Option (List Param × Bool)
  | [], _ => some ([], true)
  | .void :: ts, as => pushArgs receiver ts as
  | .self :: ts, as => thenRest (push receiver .unknown) (pushArgs receiver ts as)
  | .selfSmalltalk :: ts, as => thenRest (push receiver .smalltalk) (pushArgs receiver ts as)
  | _ :: _, [] => none
  | t :: ts, a :: as => thenRest (push a t) (pushArgs receiver ts as)
where
  /-- `if (!res) goto out`. -/
  thenRest (x : List Param × Bool) (rest : Option (List Param × Bool)) : Option (List Param × Bool) :=
    if x.2 then rest.map fun y => (x.1 ++ y.1, y.2) else some x

/-- An `ffi_cif`, as `ffi_prep_cif` made it. -/
structure Cif where
  total : Nat
  ret : Option Ffi
  types : List Ffi
deriving DecidableEq

/-- `cfunc_cif_cache` (libgst/cint.c:98-108), without the vectors that each call fills. -/
structure Entry where
  generation : Nat
  cif : Cif

/-- The caches, by descriptor, and `cif_cache_generation` (libgst/cint.c:215-219).  Simplified: the counter does not wrap around. -/
structure Caches where
  entry : Nat → Entry
  generation : Nat

/-- At the start (libgst/cint.c:219, 617, 843-844). -/
def Caches.new : Caches := ⟨fun _ => ⟨0, ⟨0, none, []⟩⟩, 1⟩

/-- `_gst_invalidate_croutine_cache` (libgst/cint.c:808-816), at each garbage collection. -/
def Caches.invalidate (c : Caches) : Caches := { c with generation := c.generation + 2 }

/-- What a call-out does. -/
inductive Outcome where
  /-- The interface that is passed to libffi, the parameters, the parameters whose copies are freed, those that are copied back. -/
  | called (cif : Cif) (params freed written : List Param)
  /-- An argument is refused: the parameters whose copies are freed. -/
  | refused (params freed : List Param)
  /-- Memory is read that is no argument. -/
  | wild
deriving DecidableEq

/-- Types whose objects are changed after the call (libgst/cint.c:962-981). -/
def isOut : CT → Bool
  | .cObjectPtr | .wstringOut | .stringOut | .byteArrayOut => true
  | _ => false

/-- The loop after the call (libgst/cint.c:954-988): what is freed. -/
def freed (post : Bool) (ps : List Param) : List Param := if post then ps.filter fun p => p.keeps && p.type != .cObjectPtr else []

/-- The same loop: what is copied back. -/
def written (post : Bool) (ps : List Param) : List Param := if post then ps.filter fun p => p.keeps && isOut p.type else []

/-- The interface (libgst/cint.c:933-945). -/
def prepare (c : Caches) (id : Nat) (k : Count) (ret : CT) (ps : List Param) : Caches × Cif :=
  let e := c.entry id
  if e.generation ≠ c.generation then
    let cif : Cif := ⟨k.total, getFfiType ret, ps.map (·.ffi)⟩
    let e' : Entry := ⟨if k.variadic then e.generation else c.generation, cif⟩
    ({ c with entry := fun i => if i = id then e' else c.entry i }, cif)
  else (c, e.cif)

/-- `_gst_invoke_croutine` (libgst/cint.c:818-992) for a function that is linked; what the descriptor has are the types. -/
def invoke (words : Ref → Nat) (c : Caches) (id : Nat) (ret : CT) (types : List CT) (receiver : Arg) (args : List Arg) : Caches × Outcome :=
  match count words types args with
  | none => (c, .wild)
  | some k => match pushArgs receiver types args with
    | none => (c, .wild)
    | some (ps, false) => (c, .refused ps (freed k.post ps))
    | some (ps, true) =>
      let r := prepare c id k ret ps
      (r.1, .called r.2 ps (freed k.post ps) (written k.post ps))

/-- `_gst_to_cstring`, `_gst_to_byte_array`, `_gst_to_wide_cstring` (libgst/dict.c:2001-2067): the bytes that are allocated and the bytes that
are written for so many elements. -/
def buffer (f : Form) (len : Nat) : Option (Nat × Nat) :=
  match f with
  | .copyString => some (len + 1, len + 1)
  | .copyBytes => some (len, len)
  | .copyWide => some (len + 1, 4 * len + 4)
  | _ => none

end Verif.Callout
