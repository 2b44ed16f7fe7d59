/-!
# The symbol table

Model of the interning of strings in `libgst/sym.c` and of `kernel/Symbol.st`, on a
machine with words of 8 bytes.  A string is a list of bytes.  A symbol is a number, its place in
the list of all symbols ever made; the table has a chain of symbols for each bucket (the links
themselves are left out).
-/

namespace Verif.Symbols

/-! ## Hashing -/

/-- `_gst_hash_string`, sym.c l. 1466–1480.  Whether `char` has a sign depends on the
machine. -/
def hashGo (signed : Bool) : List Nat → Nat → Nat
  | [], h => h
  | b :: bs, h =>
    let h1 := (h + (if signed && decide (128 ≤ b) then b + (2 ^ 64 - 256) else b)) % 2 ^ 64
    let h2 := (h1 + (h1 <<< 10) % 2 ^ 64) % 2 ^ 64
    hashGo signed bs (h2 ^^^ (h2 >>> 6))

def hashString (signed : Bool) (s : List Nat) : Nat := hashGo signed s 1497032417 % 2 ^ 62

/-- `scramble`, libgst/dict.inl l. 605–617. -/
def scramble (x : Nat) : Nat :=
  let x := x ^^^ ((x >>> 31) ||| ((x <<< 33) % 2 ^ 64))
  let x := x ^^^ (((x <<< 10) % 2 ^ 64) ||| (x >>> 22))
  let x := x ^^^ (((x <<< 6) % 2 ^ 64) ||| (x >>> 26))
  let x := x ^^^ (((x <<< 16) % 2 ^ 64) ||| (x >>> 16))
  x % 2 ^ 62

/-- `hash_symbol`, sym.c l. 1372–1377, with `SYMBOL_TABLE_SIZE`, sym.h l. 58. -/
def bucket (signed : Bool) (s : List Nat) : Nat := scramble (hashString signed s) % 512 + 1

/-! ## Interning -/

/-- The symbols that were made, and the chains. -/
structure State where
  syms : List (List Nat)
  table : Nat → List Nat

/-- `strncmp (a, b, n) == 0`. -/
def strncmp : Nat → List Nat → List Nat → Bool
  | 0, _, _ => true
  | n + 1, a :: as, b :: bs => if a ≠ b then false else if a = 0 then true else strncmp n as bs
  | _ + 1, _, _ => false

/-- `is_same_string`, sym.c l. 1446–1457. -/
def isSame (s t : List Nat) : Bool := if t.length = s.length then strncmp s.length s t else false

/-- The text of a symbol. -/
def State.text (st : State) (id : Nat) : List Nat := st.syms.getD id []

/-- `alloc_symlink`, sym.c l. 1379–1396: a link at the head of a chain. -/
def addLink (t : Nat → List Nat) (i id : Nat) : Nat → List Nat := fun j => if j = i then id :: t j else t j

/-- `intern_counted_string`, sym.c l. 1398–1429, with `alloc_symbol_oop`. -/
def intern (signed : Bool) (st : State) (s : List Nat) : State × Nat :=
  let i := bucket signed s
  match (st.table i).find? fun id => isSame s (st.text id) with
  | some id => (st, id)
  | none => (⟨st.syms ++ [s], addLink st.table i st.syms.length⟩, st.syms.length)

/-- `_gst_init_symbols_pass1` and `_gst_init_symbols_pass2`, sym.c l. 1557–1605: first all symbols are made, then
all links. -/
def init (signed : Bool) (names : List (List Nat)) : State :=
  ⟨names, (List.range names.length).foldl (fun t id => addLink t (bucket signed (names.getD id [])) id) fun _ => []⟩

/-! ## Smalltalk -/

/-- `Symbol class >> rebuildTable`, kernel/Symbol.st l. 44–71; `keep` are the symbols that
are alive, in the order of `allInstances`. -/
def rebuild (signed : Bool) (st : State) (keep : List Nat) : State :=
  ⟨st.syms, keep.foldl (fun t id => addLink t (scramble (hashString signed (st.text id)) % 512 + 1) id) fun _ => []⟩

/-- `each with: aString do: [:a :b | a = b ifFalse: [ok := false]]`, for strings of the same size. -/
def allEqual : List Nat → List Nat → Bool
  | a :: as, b :: bs => (a == b) && allEqual as bs
  | _, _ => true

/-- `Symbol class >> hasInterned:ifTrue:`, kernel/Symbol.st l. 73–96: the symbol that
is passed to the block.  The outer `none` is `doesNotUnderstand: #do:`, as the chain of an
empty bucket is nil. -/
def hasInterned (signed : Bool) (st : State) (s : List Nat) : Option (Option Nat) :=
  match st.table (scramble (hashString signed s) % 512 + 1) with
  | [] => none
  | ids => some (ids.find? fun id => (st.text id).length == s.length && allEqual (st.text id) s)

/-- `Symbol class >> isSymbolString:`, kernel/Symbol.st l. 98–117. -/
def isSymbolString (signed : Bool) (st : State) (s : List Nat) : Option Bool :=
  (hasInterned signed st s).map (·.isSome)

/-! ## Numbers of arguments -/

def colon : Nat := 58

/-- The letters that `_gst_selector_num_args` tests for. -/
def letterOrUnderscore (c : Nat) : Bool :=
  (decide (65 ≤ c) && decide (c ≤ 90)) || (decide (97 ≤ c) && decide (c ≤ 122)) || c == 95

/-- `_gst_selector_num_args`, sym.c l. 1533–1553.  The first byte of an empty symbol is what
follows the header; it is taken as not a letter. -/
def vmNumArgs (s : List Nat) : Nat :=
  match s with
  | [] => 1
  | c :: _ => if letterOrUnderscore c then s.count colon else 1

/-- `Symbol >> numArgs`, kernel/Symbol.st l. 226–234; `isLetter` of a character below
128.  `none` is the error of `at: 0`. -/
def numArgs (s : List Nat) : Option Nat :=
  match s.getLast? with
  | none => none
  | some c =>
    if c = colon then some (s.count colon)
    else if s.any letterOrUnderscore then some 0
    else some 1

/-- `substrings: $:`, the pieces between colons that are not empty. -/
def pieces : List Nat → List Nat → List (List Nat)
  | [], acc => if acc.isEmpty then [] else [acc]
  | c :: cs, acc => if c = colon then (if acc.isEmpty then pieces cs [] else acc :: pieces cs [])
    else pieces cs (acc ++ [c])

/-- `Character >> isLetter`. -/
def isLetter (c : Nat) : Bool := (decide (65 ≤ c) && decide (c ≤ 90)) || (decide (97 ≤ c) && decide (c ≤ 122))

/-- `Symbol >> keywords`, kernel/Symbol.st l. 236–244; `none` is the error of `at: 1`. -/
def keywords (s : List Nat) : Option (List (List Nat)) :=
  match s with
  | [] => none
  | c :: _ =>
    if isLetter c then
      if s.getLast? = some colon then some ((pieces s []).map (· ++ [colon])) else some [s]
    else some [s]

end Verif.Symbols
