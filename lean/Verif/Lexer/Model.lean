import Verif.Parser.Model
import Verif.Num.Model

/-!
# The lexer: from characters to tokens

Model of `libgst/lex.c`.  The input is a list of characters with codes below
256, one per byte; `_gst_unread_char` puts a character back in front of it and
the end of the list is `EOF`.  The stream is a file or a string: the rule of
interactive streams that turns a newline into a dot (`scan_newline`), the
`#!` of a first line and the places of tokens are left out.
-/

namespace Verif.Lexer

open Verif.Parser (Tok Ex asInt)

/-- `MAX_ST_INT`, libgst/gstpriv.h l. 503–504, on a machine of 64 bits. -/
def maxInt : Nat := 2 ^ 62 - 1

/-! ## Classes of characters, the table lex.c l. 236–362 -/

/-- `DIGIT`. -/
def isDigit (c : Char) : Bool := 48 ≤ c.toNat && c.toNat ≤ 57

/-- The characters handled by `scan_ident`. -/
def isLetter (c : Char) : Bool :=
  (65 ≤ c.toNat && c.toNat ≤ 90) || (97 ≤ c.toNat && c.toNat ≤ 122)

/-- `ID_CHAR`. -/
def isId (c : Char) : Bool := isLetter c || isDigit c || c == '_' || c == '$'

/-- `SYMBOL_CHAR`. -/
def isSym (c : Char) : Bool := isId c || c == ':'

/-- `BIN_OP_CHAR`. -/
def isBin (c : Char) : Bool := "%&*+,-/<=>?@\\|~".toList.contains c

/-- `WHITE_SPACE`, and the newline, whose function `scan_newline` (l. 468–489)
answers 0 if the stream is not interactive. -/
def isWhite (c : Char) : Bool := c == ' ' || c == '\t' || c == '\n' || c == '\r' || c.toNat == 12

/-! ## Numbers -/

/-- `is_base_digit` and `digit_to_int`, lex.c l. 1040–1081. -/
def digitOf (base : Nat) (c : Char) : Option Nat :=
  let n := c.toNat
  if n < 48 ∨ (57 < n ∧ n < 65) ∨ 90 < n then none
  else
    let d := if 65 ≤ n then n - 65 + 10 else n - 48
    if d < base then some d else none

/-- The test for overflow in `scan_digits` and `scan_fraction`, lex.c
l. 962–971; `none` if the caller did not ask (`largeInteger` is `NULL`). -/
def over (lim : Option Nat) (base v d : Nat) : Bool :=
  match lim with
  | none => false
  | some m => (m - d) / base < v

/-- The limit, `MAX_ST_INT` or, for negative numbers, `(uintptr_t) MIN_ST_INT`, which
is 2^64 - 2^62. -/
def limit (neg : Bool) : Nat := if neg then 2 ^ 64 - 2 ^ 62 else maxInt

/-- The loops of `scan_digits` and `scan_fraction`, lex.c l. 943–989 and
992–1037: the number modulo 2^64, whether it is too large, the digits in the
obstack, and the rest of the text.  Underscores are skipped. -/
def scanDigits (lim : Option Nat) (base : Nat) :
    Nat → Bool → List Nat → List Char → Nat × Bool × List Nat × List Char
  | v, big, ds, [] => (v, big, ds, [])
  | v, big, ds, c :: r =>
    if c = '_' then scanDigits lim base v big ds r
    else match digitOf base c with
      | some d => scanDigits lim base ((v * base + d) % 2 ^ 64) (big || over lim base v d) (ds ++ [d]) r
      | none => (v, big, ds, c :: r)

/-- One pass of `scan_large_integer`, lex.c l. 1125–1136: multiply by the base and
add. -/
def mulAdd (base : Nat) : Nat → List Nat → List Nat
  | _, [] => []
  | carry, b :: bs => (b * base + carry) % 256 :: mulAdd base ((b * base + carry) / 256) bs

/-- The bytes of the number with the given digits, lowest first, as many as
digits, lex.c l. 1119–1136. -/
def magBytes (base : Nat) (ds : List Nat) : List Nat :=
  ds.foldl (fun bs d => mulAdd base d bs) (List.replicate ds.length 0)

/-- Add one, lex.c l. 1145 and 1380.  If all bytes are 255 the C loop goes on behind
the end; that happens for zero only. -/
def incr : List Nat → List Nat
  | [] => []
  | b :: bs => if b = 255 then 0 :: incr bs else (b + 1) :: bs

/-- Two's complement, lex.c l. 1142–1145 and 1376–1379. -/
def twos (bs : List Nat) : List Nat := incr (bs.map fun b => 255 - b)

/-- Drop the bytes at the end that are `fill`, but keep one if the sign
would change, lex.c l. 1150–1163 and 1384–1386.  The byte kept is inside of the
array if one was dropped. -/
def trim (fill : Nat) (bs : List Nat) : List Nat :=
  let t := (bs.reverse.dropWhile (· == fill)).reverse
  let top := t.getLastD fill
  if decide (top ≥ 128) = decide (fill ≥ 128) then t else t ++ [fill]

/-- `scan_large_integer`, lex.c l. 1090–1168. -/
def largeBytes (neg : Bool) (base : Nat) (ds : List Nat) : List Nat :=
  if neg then trim 255 (twos (magBytes base ds)) else trim 0 (magBytes base ds)

/-- The case `LARGE_INTEGER_LITERAL` of `_gst_negate_yylval`, lex.c
l. 1363–1392. -/
def negateLarge (bs : List Nat) : Option (List Nat) :=
  if bs.getLastD 0 ≥ 128 then none else some (trim 255 (twos bs))

/-- The classes of floating point literals. -/
inductive FK where
  | d | e | q
  deriving DecidableEq, Repr

/-- Tokens.  `tok` is one that carries no number, or an integer that fits in a
word.  `large` has the bytes of the number.  A float is
`mant * base ^ exp`, negated if `neg`, exactly: the precision of `struct real` is not modelled.
A scaled decimal is `v * base ^ exp` with `scale` decimals. -/
inductive LTok where
  | tok (t : Tok)
  | large (bytes : List Nat)
  | float (k : FK) (neg : Bool) (mant base : Nat) (exp : Int)
  | scaled (v : Int ⊕ List Nat) (base : Nat) (exp scale : Int)
  deriving DecidableEq, Repr

/-- The conversion of `isNegative ? -intNum : intNum` to `intptr_t`. -/
def word (neg : Bool) (v : Nat) : Int :=
  let u : Nat := if neg then (2 ^ 64 - v) % 2 ^ 64 else v
  if u < 2 ^ 63 then (u : Int) else (u : Int) - 2 ^ 64

/-- What reading one token answers: the token, or none if the text was to be
skipped; whether an error was reported; the rest of the text. -/
structure Out where
  tok : Option LTok
  bad : Bool
  rest : List Char
  deriving DecidableEq, Repr

/-- The number without an exponent, lex.c l. 929–942. -/
def finishInt (bad neg : Bool) (base v : Nat) (big : Bool) (ds : List Nat) (r : List Char) : Out :=
  if big then ⟨some (.large (largeBytes neg base ds)), bad, r⟩
  else ⟨some (.tok (.int (word neg v))), bad, r⟩

/-- The token for a float, lex.c l. 910–928; the mantissa is the number
that the digits write. -/
def finishFloat (bad neg : Bool) (k : FK) (base : Nat) (ds : List Nat) (exp : Int) (r : List Char) : Out :=
  ⟨some (.float k neg (ds.foldl (fun v d => v * base + d) 0) base exp), bad, r⟩

/-- The letter of an exponent, lex.c l. 873–881. -/
def expKind : Char → Option FK
  | 'e' => some .e
  | 'd' => some .d
  | 'q' => some .q
  | _ => none

/-- The end of `scan_number`, from the exponent on, lex.c l. 873–942; `frac`
says whether there was a fraction.  In l. 897–902 the letter after the
exponent letter is put back but not the exponent letter itself. -/
def scanExp (bad neg : Bool) (base v : Nat) (big : Bool) (ds : List Nat) (frac : Bool) (exp : Int)
    (r : List Char) : Out :=
  match r with
  | [] => if frac then finishFloat bad neg .d base ds exp r else finishInt bad neg base v big ds r
  | c :: r' =>
    match expKind c with
    | some k =>
      match r' with
      | [] => finishFloat bad neg k base ds exp []
      | '-' :: r2 =>
        let (e, _, es, r3) := scanDigits none 10 0 false [] r2
        finishFloat (bad || es.isEmpty) neg k base ds (exp - asInt e) r3
      | c' :: r2 =>
        if isDigit c' then
          let (e, _, _, r3) := scanDigits none 10 0 false [] (c' :: r2)
          finishFloat bad neg k base ds (exp + asInt e) r3
        else finishFloat bad neg k base ds exp (c' :: r2)
    | none => if frac then finishFloat bad neg .d base ds exp r else finishInt bad neg base v big ds r

/-- The object for a scaled decimal, lex.c l. 841–869. -/
def finishScaled (bad neg : Bool) (base v : Nat) (big : Bool) (ds : List Nat) (exp scale : Int)
    (r : List Char) : Out :=
  ⟨some (.scaled (if big then .inr (largeBytes neg base ds) else .inl (word neg v)) base exp scale), bad, r⟩

/-- The scaled decimals of `scan_number`, lex.c l. 816–871. -/
def scanScale (bad neg : Bool) (base v : Nat) (big : Bool) (ds : List Nat) (frac : Bool) (exp : Int)
    (r : List Char) : Out :=
  match r with
  | 's' :: r' =>
    match r' with
    | [] => finishScaled bad neg base v big ds exp (-exp) []
    | c :: r2 =>
      if isDigit c then
        let (e, _, _, r3) := scanDigits none 10 0 false [] (c :: r2)
        finishScaled bad neg base v big ds exp (asInt e) r3
      else if isId c then scanExp bad neg base v big ds frac exp r
      else finishScaled bad neg base v big ds exp (-exp) r'
  | _ => scanExp bad neg base v big ds frac exp r

/-- `scan_number` after the digits before the dot, lex.c l. 796–814. -/
def scanFrac (bad neg : Bool) (base v : Nat) (big : Bool) (ds : List Nat) (r : List Char) : Out :=
  match r with
  | '.' :: c :: r' =>
    match digitOf base c with
    | some _ =>
      let (v', big', ds', r2) := scanDigits (some (limit neg)) base v big ds (c :: r')
      scanScale bad neg base v' big' ds' true (-((ds'.length - ds.length : Nat) : Int)) r2
    | none => scanScale bad neg base v big ds false 0 r
  | _ => scanScale bad neg base v big ds false 0 r

/-- `scan_number`, lex.c l. 751–942; the text begins with a digit. -/
def scanNumber (cs : List Char) : Out :=
  let (v, big, ds, r) := scanDigits (some maxInt) 10 0 false [] cs
  match r with
  | 'r' :: r1 =>
    let tooBig : Bool := decide (36 < v) || big
    let base := if tooBig then 10 else v
    let neg := r1.head? == some '-'
    let r2 := if neg then r1.tail else r1
    let (v', big', ds', r3) := scanDigits (some (limit neg)) base 0 big [] r2
    scanFrac (tooBig || ds'.isEmpty) neg base v' big' ds' r3
  | _ => scanFrac ds.isEmpty false 10 v big ds r

/-! ## Operators, strings, symbols, identifiers -/

/-- `scan_bin_op_1`, lex.c l. 614–657, after the first character: the operator
and the rest. -/
def scanBin (c : Char) (r : List Char) : List Char × List Char :=
  match r with
  | [] => ([c], [])
  | d :: r' =>
    if isBin d then
      if d = '-' then
        match r' with
        | e :: _ => if isDigit e then ([c], r) else ([c, d], r')
        | [] => ([c, d], r')
      else ([c, d], r')
    else ([c], r)

/-- The token for an operator, lex.c l. 640–657. -/
def opTok : List Char → Tok
  | ['|'] => .bar
  | ['<'] => .lt
  | ['>'] => .gt
  | ['-'] => .minus
  | s => .binop s

/-- `string_literal`, lex.c l. 665–695, after the first quote; `true` if the
string does not end. -/
def scanString : List Char → List Char × Bool × List Char
  | [] => ([], true, [])
  | c :: r =>
    if c = '\'' then
      match r with
      | d :: r' =>
        if d = '\'' then
          let (s, bad, r2) := scanString r'
          (c :: s, bad, r2)
        else ([], false, r)
      | [] => ([], false, r)
    else
      let (s, bad, r2) := scanString r
      (c :: s, bad, r2)

/-- A text kept as a C string ends at the first NUL. -/
def cstr (s : List Char) : List Char := s.takeWhile (· ≠ '\x00')

/-- `scan_symbol`, lex.c l. 557–612, after the `#`; without `#!`. -/
def scanSymbol (r : List Char) : Out :=
  match r with
  | [] => ⟨some (.tok .hash), false, []⟩
  | c :: r' =>
    if isBin c then ⟨some (.tok (.sym (scanBin c r').1)), false, (scanBin c r').2⟩
    else if c = '\'' then
      let (s, bad, r2) := scanString r'
      ⟨some (.tok (.sym (cstr s))), bad, r2⟩
    else if isSym c && !isDigit c then
      ⟨some (.tok (.sym (c :: r'.takeWhile isSym))), false, r'.dropWhile isSym⟩
    else ⟨some (.tok .hash), false, r⟩

/-- `scan_ident`, lex.c l. 697–744. -/
def scanIdent (c : Char) (r : List Char) : Out :=
  let s := c :: r.takeWhile isId
  match r.dropWhile isId with
  | '.' :: r1 =>
    match r1 with
    | d :: _ => if isId d then ⟨some (.tok (.ident s)), false, ':' :: ':' :: r1⟩
                else ⟨some (.tok (.ident s)), false, '.' :: r1⟩
    | [] => ⟨some (.tok (.ident s)), false, '.' :: r1⟩
  | ':' :: r1 =>
    match r1 with
    | d :: _ => if d = ':' ∨ d = '=' then ⟨some (.tok (.ident s)), false, ':' :: r1⟩
                else ⟨some (.tok (.keyword (s ++ [':']))), false, r1⟩
    | [] => ⟨some (.tok (.keyword (s ++ [':']))), false, r1⟩
  | r' => ⟨some (.tok (.ident s)), false, r'⟩

/-- `scan_colon`, lex.c l. 539–555. -/
def scanColon (r : List Char) : Out :=
  match r with
  | '=' :: r' => ⟨some (.tok .assign), false, r'⟩
  | ':' :: r' => ⟨some (.tok .scope), false, r'⟩
  | _ => ⟨some (.tok .colon), false, r⟩

/-- `comment`, lex.c l. 491–509. -/
def scanComment : List Char → Out
  | [] => ⟨none, true, []⟩
  | c :: r => if c = '"' then ⟨none, false, r⟩ else scanComment r

/-- `char_literal`, lex.c l. 511–537. -/
def scanChar (r : List Char) : Out :=
  match r with
  | [] => ⟨none, true, []⟩
  | c :: r' => ⟨some (.tok (.chr c.toNat)), decide (127 < c.toNat), r'⟩

/-- The characters that are tokens of their own: those with a `retToken` and
the brackets and the bang, whose functions answer the character. -/
def punct : Char → Option Tok
  | '(' => some .lpar | ')' => some .rpar
  | '[' => some .lbrk | ']' => some .rbrk
  | '{' => some .lbrace | '}' => some .rbrace
  | '.' => some .dot | ';' => some .semi | '^' => some .caret | '!' => some .bang
  | '_' => some .assign
  | _ => none

/-- One round of the loop of `_gst_yylex`, lex.c l. 381–413, for the character
`c` and what follows; `invalid` is l. 415–439. -/
def step (c : Char) (r : List Char) : Out :=
  if isWhite c then ⟨none, false, r⟩
  else if isDigit c then scanNumber (c :: r)
  else if isLetter c then scanIdent c r
  else if isBin c then ⟨some (.tok (opTok (scanBin c r).1)), false, (scanBin c r).2⟩
  else if c = '\'' then
    let (s, bad, r2) := scanString r
    ⟨some (.tok (.str (cstr s))), bad, r2⟩
  else if c = '#' then scanSymbol r
  else if c = ':' then scanColon r
  else if c = '"' then scanComment r
  else if c = '$' then scanChar r
  else match punct c with
    | some t => ⟨some (.tok t), false, r⟩
    | none => ⟨none, true, r⟩

/-- All tokens of a text and whether an error was reported; `none` if the fuel is
used up. -/
def lexGo : Nat → List Char → Option (List LTok × Bool)
  | _, [] => some ([], false)
  | 0, _ :: _ => none
  | f + 1, c :: r =>
    let o := step c r
    match lexGo f o.rest with
    | none => none
    | some (ts, bad) => some (o.tok.toList ++ ts, o.bad || bad)

/-- Read a text to its end.  The fuel is enough: `lex_ends`. -/
def lex (cs : List Char) : Option (List LTok × Bool) := lexGo (3 * cs.length) cs

/-- What a token of a number means, for the reader. -/
inductive Mag where
  | large (n : Nat)
  | float (k : FK) (mant base : Nat) (exp : Int)
  | scaled (n : Nat) (base : Nat) (exp scale : Int)
  deriving DecidableEq

/-- The number with the given bytes in two's complement, lowest first. -/
def bytesVal : List Nat → Int
  | [] => 0
  | [b] => if b < 128 then b else (b : Int) - 256
  | b :: bs => b + 256 * bytesVal bs

/-- A token as the reader of `Verif.Parser` takes it; `enc` numbers the
literals that are not integers of one word. -/
def toTok (enc : Mag → Nat) : LTok → Tok
  | .tok t => t
  | .large bs => .num (enc (.large (bytesVal bs).natAbs)) (bytesVal bs < 0)
  | .float k neg mant base exp => .num (enc (.float k mant base exp)) neg
  | .scaled (.inl v) base exp scale => .num (enc (.scaled v.natAbs base exp scale)) (v < 0)
  | .scaled (.inr bs) base exp scale =>
    .num (enc (.scaled (bytesVal bs).natAbs base exp scale)) (bytesVal bs < 0)

/-- Read a text as code: the tokens and then the tree; `none` if an error is reported
on the way. -/
def readText (enc : Mag → Nat) (cs : List Char) : Option (List (List Char) × List Ex) :=
  match lex cs with
  | some (ts, false) => Verif.Parser.readCode (ts.map (toTok enc))
  | _ => none

end Verif.Lexer
