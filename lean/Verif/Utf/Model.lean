/-!
# Model of the UTF-7 and UTF-32 converters

`packages/iconv/UTF7.st` (`ToUTF7`, `FromUTF7`) and the converters between characters and the four bytes of UTF-32 in
`packages/iconv/Sets.st`.  Characters are their code points.  The input of a converter is a list; reading past its end
is an error.  `InvalidSequenceError` ends the conversion.
-/

namespace Verif.Utf

/-- `bitShift:` of a non-negative integer. -/
def shl (v : Nat) (s : Int) : Nat := if 0 ≤ s then v <<< s.toNat else v >>> (-s).toNat

/-- The outcome of a conversion. -/
inductive R (α : Type) where
  | ok (a : α)
  | err
  | fuel
  deriving DecidableEq, Repr

/-! ### From characters to UTF-7 -/

/-- UTF7.st:48-58 `ToUTF7 class >> initialize`. -/
def base64Table : List Nat := [0, 0, 0, 0, 0, 168, 255, 3, 254, 255, 255, 7, 254, 255, 255, 7]

/-- UTF7.st:53-54. -/
def directTable : List Nat := [0, 38, 0, 0, 129, 243, 255, 135, 254, 255, 255, 7, 254, 255, 255, 7]

/-- UTF7.st:55, the codes of `ABCDEFGHIJKLMNOPQRSTUVWXYZabcdefghijklmnopqrstuvwxyz0123456789+/`. -/
def toBase64 : List Nat :=
  [65, 66, 67, 68, 69, 70, 71, 72, 73, 74, 75, 76, 77, 78, 79, 80, 81, 82, 83, 84, 85, 86, 87, 88, 89, 90,
    97, 98, 99, 100, 101, 102, 103, 104, 105, 106, 107, 108, 109, 110, 111, 112, 113, 114, 115, 116, 117, 118, 119,
    120, 121, 122, 48, 49, 50, 51, 52, 53, 54, 55, 56, 57, 43, 47]

/-- UTF7.st:58-72 `isBase64:` and `isDirect:` for a table of bits. -/
def inTable (t : List Nat) (c : Nat) : Bool := c < 128 && (t[c / 8]?.getD 0 >>> (c % 8)) &&& 1 == 1

/-- UTF7.st:74-77 `toBase64Char:`. -/
def toBase64Char (x : Nat) : Nat := toBase64[x]?.getD 0

/-- The variables `left`, `value` and `lookahead` of the encoder. -/
structure E where
  left : Int
  value : Nat
  look : Option Nat
  deriving DecidableEq, Repr

/-- UTF7.st:175-180, the end of `next`: six bits are taken out of `value`. -/
def take6 (e : E) (inp : List Nat) : Nat × E × List Nat :=
  let left := e.left - 6
  let next := shl e.value (0 - left)
  let value := e.value ^^^ shl next left
  (toBase64Char next, { e with left := if left = 0 then -512 else left, value := value }, inp)

/-- UTF7.st:141-172, the part of `next` that pumps another character into the encoder; the difference of constants
is added last and is never larger than the rest. -/
def pump (e : E) (inp : List Nat) : Nat × E × List Nat :=
  match inp with
  | [] =>
    if e.left = 0 then (45, { e with left := -256, look := none }, [])
    else take6 { left := 6, value := shl e.value (6 - e.left), look := none } []
  | ch :: inp' =>
    if inTable directTable ch then
      if e.left = 0 then (45, { e with left := -256, look := some ch }, inp')
      else take6 { left := 6, value := shl e.value (6 - e.left), look := some ch } inp'
    else if ch < 65536 then take6 { e with left := e.left + 16, value := e.value <<< 16 + ch } inp'
    else
      let next := shl (e.value <<< 6 + 0x36) (0 - e.left)
      (toBase64Char next,
        { e with left := e.left + 26,
                 value := (0x18000000 &&& shl 0x3C00000 e.left) + (ch &&& 0x1FFC00) <<< 6 + (ch &&& 0x3FF)
                   + 0xDC00 - 0x400000 }, inp')

/-- UTF7.st:94-181 `next`; nothing if there is no input when some is needed. -/
def next (e : E) (inp : List Nat) : Option (Nat × E × List Nat) :=
  if e.left = 0 then
    match inp with
    | [] => none
    | ch :: inp' =>
      if inTable directTable ch then some (ch, e, inp')
      else if ch = 43 then some (43, { e with left := -256, look := some 45 }, inp')
      else if ch < 65536 then some (43, { e with left := 16, value := ch }, inp')
      else some (43,
        { left := -230, look := some 50,
          value := (ch &&& 0x1FFFC00) <<< 6 + (ch &&& 0x3FF) + 0xDC00 - 0x400000 }, inp')
  else if e.left < 0 then
    match e.look with
    | none => if inp = [] then some (45, { e with left := 0 }, inp) else some (pump { e with left := 0 } inp)
    | some ch =>
      if e.left = -512 ∧ inTable base64Table ch = true then some (45, { e with left := -256 }, inp)
      else some (ch, { e with left := e.left % 256, look := none }, inp)
  else if e.left < 6 then some (pump e inp)
  else some (take6 e inp)

/-- Reading the encoder until `atEnd` (UTF7.st:79-84), at most so many characters. -/
def encode : Nat → E → List Nat → R (List Nat)
  | k, e, inp =>
    if e.left = 0 ∧ inp = [] then .ok []
    else match k with
      | 0 => .fuel
      | k + 1 =>
        match next e inp with
        | none => .err
        | some (c, e', inp') =>
          match encode k e' inp' with
          | .ok cs => .ok (c :: cs)
          | .err => .err
          | .fuel => .fuel

/-- UTF7.st:86-92 `flush`: the encoder at the beginning. -/
def E.start : E := ⟨0, 0, none⟩

/-! ### From UTF-7 to characters -/

/-- UTF7.st:202-208 `FromUTF7 class >> initialize`. -/
def fromBase64 : List Nat :=
  [62, 99, 99, 99, 63, 52, 53, 54, 55, 56, 57, 58, 59, 60, 61, 99, 99, 99, 99, 99, 99, 99, 0, 1, 2, 3, 4, 5, 6, 7, 8,
    9, 10, 11, 12, 13, 14, 15, 16, 17, 18, 19, 20, 21, 22, 23, 24, 25, 99, 99, 99, 99, 99, 99, 26, 27, 28, 29, 30, 31,
    32, 33, 34, 35, 36, 37, 38, 39, 40, 41, 42, 43, 44, 45, 46, 47, 48, 49, 50, 51]

/-- UTF7.st:207. -/
def directIn : List Nat :=
  [0, 38, 0, 0, 255, 247, 255, 255, 255, 255, 255, 239, 255, 255, 255, 63, 0, 0, 0, 0, 0, 0, 0, 0, 0, 0, 0, 0, 0, 0, 0,
    0]

/-- UTF7.st:218-221 `fromBase64Char:`, with the test before it in UTF7.st:310. -/
def base64Value (c : Nat) : Option Nat :=
  if 43 ≤ c ∧ c ≤ 122 then
    match fromBase64[c - 43]? with
    | some v => if v < 99 then some v else none
    | none => none
  else none

/-- The variables `shift` and `wch` of the decoder. -/
structure D where
  shift : Int
  wch : Nat
  deriving DecidableEq, Repr

/-- UTF7.st:336-363, the end of `readNext`: the 16 bits `wc1` are complete. -/
def unit (d : D) (wc1 : Nat) : R (Option Nat × D) :=
  if wc1 < 0xD800 then .ok (some wc1, d)
  else if wc1 < 0xDC00 then .ok (none, { d with wch := d.wch + (wc1 - 0xD7C0) <<< 16 })
  else if wc1 ≤ 0xDFFF then .err
  else if wc1 ≤ 0xFFFF then .ok (some wc1, d)
  else if 0xDC00 ≤ wc1 &&& 0xFFFF ∧ wc1 &&& 0xFFFF ≤ 0xDFFF then
    .ok (some ((wc1 &&& 0x7FF0000) >>> 6 + (wc1 &&& 0x3FF)), d)
  else .err

/-- UTF7.st:310-363, `readNext` once `shift` is not -6. -/
def readBase64 (d : D) (ch : Nat) : R (Option Nat × D) :=
  match base64Value ch with
  | none =>
    if d.shift ≤ 4 ∨ d.wch > 0 then .err
    else if ch = 45 then .ok (none, { d with shift := -6 })
    else if inTable directIn ch then .ok (some ch, { d with shift := -6 })
    else .err
  | some value =>
    if d.shift > 0 then .ok (none, ⟨d.shift - 6, d.wch + shl value d.shift⟩)
    else unit ⟨d.shift + 10, shl value (d.shift + 16) &&& 0xFC00⟩ (d.wch + shl value d.shift)

/-- UTF7.st:264-364 `readNext`. -/
def readNext (d : D) (inp : List Nat) : R (Option Nat × D × List Nat) :=
  match inp with
  | [] => .err
  | ch :: inp' =>
    if d.shift = -6 then
      if inTable directIn ch then .ok (some ch, d, inp')
      else if ch = 43 then
        match inp' with
        | [] => .err
        | ch' :: inp2 =>
          if ch' = 45 then .ok (some 43, d, inp2)
          else match readBase64 { d with shift := 10 } ch' with
            | .ok (o, d') => .ok (o, d', inp2)
            | .err => .err
            | .fuel => .fuel
      else .err
    else match readBase64 d ch with
      | .ok (o, d') => .ok (o, d', inp')
      | .err => .err
      | .fuel => .fuel

/-- The characters that a reader gets: UTF7.st:223-262 (`atEnd`, `next`, `getNext`) hand over what `readNext` answers,
other than nil, until the input is at its end.  Simplified: `getNext` reads one character ahead of `next`, so that an
error is signalled one character earlier. -/
def decode : Nat → D → List Nat → R (List Nat)
  | _, d, [] => if d.shift = -6 ∨ d.shift = 10 then .ok [] else .err
  | 0, _, _ => .fuel
  | k + 1, d, inp =>
    match readNext d inp with
    | .ok (o, d', inp') =>
      match decode k d' inp' with
      | .ok cs => .ok (o.toList ++ cs)
      | .err => .err
      | .fuel => .fuel
    | .err => .err
    | .fuel => .fuel

/-- UTF7.st:241-251 `flush`: the decoder at the beginning. -/
def D.start : D := ⟨-6, 0⟩

/-! ### UTF-32 -/

/-- Sets.st:798-849 `SplitUTF32LE`: `next` with the variable `wch`. -/
def splitLE (wch : Nat) (inp : List Nat) : Option (Nat × Nat × List Nat) :=
  if wch = 1 then
    match inp with
    | [] => none
    | c :: inp' => some (c &&& 255, c >>> 8 + 16777216, inp')
  else some (wch &&& 255, wch >>> 8, inp)

/-- Sets.st:852-907 `SplitUTF32BE`: `next` with the variables `count` and `wch`. -/
def splitBE (s : Nat × Nat) (inp : List Nat) : Option (Nat × (Nat × Nat) × List Nat) :=
  if s.1 = 0 then
    match inp with
    | [] => none
    | c :: inp' => some (c >>> 24, (3, c &&& 16777215), inp')
  else some (s.2 >>> 16, (s.1 - 1, (s.2 &&& 65535) <<< 8), inp)

/-- Reading a splitter until `atEnd` (Sets.st:807-812, 861-866), at most so many bytes; `done` is the first half of
`atEnd`. -/
def split {σ : Type} (step : σ → List Nat → Option (Nat × σ × List Nat)) (done : σ → Bool) :
    Nat → σ → List Nat → R (List Nat)
  | k, s, inp =>
    if done s && inp.isEmpty then .ok []
    else match k with
      | 0 => .fuel
      | k + 1 =>
        match step s inp with
        | none => .err
        | some (b, s', inp') =>
          match split step done k s' inp' with
          | .ok bs => .ok (b :: bs)
          | .err => .err
          | .fuel => .fuel

/-- `asCharacter`, kernel/Character.st:100-114. -/
def asCharacter (n : Nat) : Option Nat := if n ≤ 1114111 then some n else none

/-- Sets.st:747-766 `ComposeUTF32LE`, read until the end. -/
def composeLE : List Nat → R (List Nat)
  | [] => .ok []
  | a :: b :: c :: d :: bs =>
    match asCharacter (a + b <<< 8 + c <<< 16 + d <<< 24) with
    | none => .err
    | some ch =>
      match composeLE bs with
      | .ok cs => .ok (ch :: cs)
      | .err => .err
      | .fuel => .fuel
  | _ => .err

/-- Sets.st:771-793 `ComposeUTF32BE`, read until the end. -/
def composeBE : List Nat → R (List Nat)
  | [] => .ok []
  | a :: b :: c :: d :: bs =>
    match asCharacter ((((a <<< 8 ||| b) <<< 8 ||| c) <<< 8) ||| d) with
    | none => .err
    | some ch =>
      match composeBE bs with
      | .ok cs => .ok (ch :: cs)
      | .err => .err
      | .fuel => .fuel
  | _ => .err

end Verif.Utf
