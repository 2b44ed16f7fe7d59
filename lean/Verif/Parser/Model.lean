/-!
# The reader of source code: from tokens to trees

Model of the recursive descent reader of method bodies in
`libgst/gst-parse.c` (l. 1322–2253).  The input is the list of the tokens that
the lexer delivers; the end of the list is the token `EOF`.  Locations,
warnings and the building of objects for constants are left out.  The fuel
`f` stands for the depth of the C stack; `Totality.lean` shows that the fuel
given by `readMethod` is always enough.
-/

namespace Verif.Parser

/-- The text of an identifier, of a keyword or of an operator. -/
scoped notation "Name" => List Char

/-- Tokens, `libgst/gst-parse.h` and `libgst/lex.c`.  `num i neg` stands for
a literal of one of the classes `LARGE_INTEGER_LITERAL`, `FLOATD_LITERAL`,
`FLOATE_LITERAL`, `FLOATQ_LITERAL`, `SCALED_DECIMAL_LITERAL`, where `i` says which
absolute value and class, and `neg` whether it is below zero. -/
inductive Tok where
  | ident (s : Name) | keyword (s : Name) | binop (s : Name)
  | lt | gt | minus | bar
  | assign | scope | dot | semi | caret | colon | hash | bang
  | lpar | rpar | lbrk | rbrk | lbrace | rbrace
  | int (v : Int) | num (i : Nat) (neg : Bool)
  | str (s : Name) | sym (s : Name) | chr (c : Nat)
  deriving DecidableEq, Repr

/-- Trees, `libgst/tree.h`.  `hole` is the `NULL` that stands for the receiver
in the messages of a cascade; `kwArg` is one keyword with its argument.
An assignment to several variables is a chain of `assign`.  A compile-time
constant without statements is kept as `ctc` although gst-parse.c l. 1966
replaces it at once by the constant nil. -/
inductive Ex where
  | var (path : List Name)
  | int (v : Int) | num (i : Nat) (neg : Bool)
  | str (s : Name) | sym (s : Name) | chr (c : Int)
  | builtin (s : Name)
  | arrLit (es : List Ex) | bytes (vs : List Int) | binding (path : List Name)
  | ctc (temps : List Name) (body : List Ex)
  | block (args temps : List Name) (body : List Ex)
  | brace (es : List Ex)
  | hole
  | unary (r : Ex) (sel : Name)
  | binary (r : Ex) (sel : Name) (a : Ex)
  | keyword (r : Ex) (args : List Ex)
  | kwArg (sel : Name) (a : Ex)
  | cascade (first : Ex) (msgs : List Ex)
  | assign (path : List Name) (e : Ex)
  | ret (e : Ex)
  deriving Repr

/-- What a reading function does: it runs out of fuel, it reports an error
(`expected`/`recover_error`, a `longjmp`), it returns `NULL` having consumed
the tokens before `rest`, or it returns a tree. -/
inductive Res (α : Type) where
  | out
  | err
  | null (rest : List Tok)
  | ok (a : α) (rest : List Tok)
  deriving Repr

/-- `enum expr_kinds`, gst-parse.c l. 58–66, one field per bit. -/
structure Kind where
  asg : Bool
  gt : Bool
  bin : Bool
  kw : Bool
  casc : Bool
  deriving DecidableEq, Repr

/-- `EXPR_ANY`, gst-parse.c l. 65. -/
def anyKind : Kind := ⟨true, true, true, true, true⟩

/-- `EXPR_CASCADED`, gst-parse.c l. 64. -/
def cascaded : Kind := ⟨false, true, true, true, false⟩

/-- `EXPR_BINOP` alone, gst-parse.c l. 60, used for attributes l. 1496. -/
def attrKind : Kind := ⟨false, false, true, false, false⟩

/-- The kind of the argument of a binary message,
`kind & ~EXPR_CASCADE & ~EXPR_KEYWORD & ~EXPR_BINOP`, gst-parse.c l. 2109, 2212. -/
def Kind.binArg (k : Kind) : Kind := { k with casc := false, kw := false, bin := false }

/-- The kind of the argument of a keyword message,
`kind & ~EXPR_CASCADE & ~EXPR_KEYWORD`, gst-parse.c l. 2115, 2242. -/
def Kind.kwArg (k : Kind) : Kind := { k with casc := false, kw := false }

/-- `kind & ~EXPR_ASSIGNMENT`, gst-parse.c l. 1618. -/
def Kind.noAsg (k : Kind) : Kind := { k with asg := false }

/-- The operator of a token that can be a binary selector,
gst-parse.c l. 2101–2106. -/
def opOf : Tok → Option Name
  | .binop s => some s
  | .lt => some ['<']
  | .gt => some ['>']
  | .minus => some ['-']
  | .bar => some ['|']
  | _ => none

/-- `parse_variable_primary_1`, gst-parse.c l. 1696–1714, after the first
identifier `s`. -/
def pPath (s : Name) : List Tok → Res (List Name)
  | .scope :: .ident t :: r =>
    match pPath t r with
    | .ok p r' => .ok (s :: p) r'
    | x => x
  | .scope :: _ => .err
  | r => .ok [s] r

/-- The loop of `parse_temporaries`, gst-parse.c l. 1521–1529. -/
def pTempsGo : List Tok → Res (List Name)
  | [] => .err
  | .bar :: r => .ok [] r
  | .ident s :: r =>
    match pTempsGo r with
    | .ok ts r' => .ok (s :: ts) r'
    | x => x
  | _ => .err

/-- `parse_temporaries`, gst-parse.c l. 1514–1532. -/
def pTemps (implied : Bool) (toks : List Tok) : Res (List Name) :=
  if implied then pTempsGo toks
  else match toks with
    | .bar :: r => pTempsGo r
    | _ => .ok [] toks

/-- `parse_block_variables`, gst-parse.c l. 2061–2071. -/
def pBlockVars : List Tok → Res (List Name)
  | .colon :: .ident s :: r =>
    match pBlockVars r with
    | .ok vs r' => .ok (s :: vs) r'
    | x => x
  | .colon :: _ => .err
  | r => .ok [] r

/-- The loop of `parse_byte_array_literal`, gst-parse.c l. 1928–1941. -/
def pBytes : List Tok → Res (List Int)
  | [] => .err
  | .rbrk :: r => .ok [] r
  | .int v :: r =>
    if v < 0 ∨ 255 < v then .err
    else match pBytes r with
      | .ok vs r' => .ok (v :: vs) r'
      | x => x
  | _ => .err

/-- The beginning of `parse_block`, gst-parse.c l. 2027–2048: the parameters
of the block, and whether the bar that opens the temporaries was read. -/
def pBlockHead (toks : List Tok) : Res (List Name × Bool) :=
  match toks with
  | .colon :: _ =>
    match pBlockVars toks with
    | .ok vs (.rbrk :: r) => .ok (vs, false) (.rbrk :: r)
    | .ok vs (.bar :: r) => .ok (vs, false) r
    | .ok vs (.binop ('|' :: '|' :: _) :: r) => .ok (vs, true) r
    | .ok _ _ => .err
    | .err => .err
    | .null r => .null r
    | .out => .out
  | _ => .ok ([], false) toks

/-- `parse_builtin_identifier`, gst-parse.c l. 1889–1915. -/
def isBuiltin (s : Name) : Bool :=
  s == "true".toList || s == "false".toList || s == "nil".toList

/-- The conversion of an `intptr_t` to `int`, as gcc does it; for the variable
`ival` of `parse_literal`, gst-parse.c l. 1738 and 1814. -/
def asInt (v : Int) : Int := (v + 2 ^ 31) % 2 ^ 32 - 2 ^ 31

mutual

/-- `parse_literal`, gst-parse.c l. 1734–1860.  The callers make sure that
`(` and `[` only arrive here inside of a literal array (the assertions
l. 1769 and 1774). -/
def pLit : Nat → List Tok → Res Ex
  | 0, _ => .out
  | f + 1, toks =>
    match toks with
    | .minus :: .int v :: r => if v < 0 then .err else .ok (.int (-v)) r
    | .minus :: .num i neg :: r => if neg then .err else .ok (.num i true) r
    | .minus :: _ => .err
    | .lpar :: r =>
      match pElts f r with
      | .ok es r' => .ok (.arrLit es) r'
      | .null r' => .null r'
      | .err => .err
      | .out => .out
    | .lbrk :: r =>
      match pBytes r with
      | .ok vs r' => .ok (.bytes vs) r'
      | .null r' => .null r'
      | .err => .err
      | .out => .out
    | .ident s :: r => if isBuiltin s then .ok (.builtin s) r else .err
    | .str s :: r => .ok (.str s) r
    | .sym s :: r => .ok (.sym s) r
    | .int v :: r => .ok (.int v) r
    | .num i neg :: r => .ok (.num i neg) r
    | .chr c :: r =>
      match r with
      | .int v :: r' =>
        if c = 60 ∧ 0 ≤ v then
          match r' with
          | .gt :: r'' => if 0x10FFFF < asInt v then .err else .ok (.chr (asInt v)) r''
          | _ => .err
        else .ok (.chr c) r
      | _ => .ok (.chr c) r
    | .hash :: .lpar :: r => pLit f (.lpar :: r)
    | .hash :: .lbrk :: r => pLit f (.lbrk :: r)
    | .hash :: .hash :: r => pCtc f r
    | .hash :: .lbrace :: .ident s :: r =>
      match pPath s r with
      | .ok p (.rbrace :: r') => .ok (.binding p) r'
      | _ => .err
    | .hash :: _ => .err
    | _ => .null toks

/-- The loop of `parse_array_literal`, gst-parse.c l. 1874–1880. -/
def pElts : Nat → List Tok → Res (List Ex)
  | 0, _ => .out
  | f + 1, toks =>
    match toks with
    | [] => .err
    | .rpar :: r => .ok [] r
    | _ =>
      match pLit f toks with
      | .ok e r =>
        match pElts f r with
        | .ok es r' => .ok (e :: es) r'
        | x => x
      | .null r => .null r
      | .err => .err
      | .out => .out

/-- `parse_compile_time_constant`, gst-parse.c l. 1949–1977, after `##`. -/
def pCtc : Nat → List Tok → Res Ex
  | 0, _ => .out
  | f + 1, toks =>
    match toks with
    | .lpar :: r =>
      match pTemps false r with
      | .ok ts r1 =>
        match pStmts f true r1 with
        | .ok es (.rpar :: r2) => .ok (.ctc ts es) r2
        | .out => .out
        | _ => .err
      | _ => .err
    | _ => .err

/-- `parse_primary`, gst-parse.c l. 1646–1690. -/
def pPrimary : Nat → List Tok → Res Ex
  | 0, _ => .out
  | f + 1, toks =>
    match toks with
    | .ident s :: r =>
      match pPath s r with
      | .ok p r' => .ok (.var p) r'
      | _ => .err
    | .str _ :: _ | .sym _ :: _ | .int _ :: _ | .num _ _ :: _ | .chr _ :: _
    | .hash :: _ | .minus :: _ => pLit f toks
    | .lbrk :: r => pBlock f r
    | .lbrace :: r =>
      match pStmts f false r with
      | .ok es (.rbrace :: r') => .ok (.brace es) r'
      | .out => .out
      | _ => .err
    | .lpar :: r =>
      match pExpr f anyKind r with
      | .ok e (.rpar :: r') => .ok e r'
      | .out => .out
      | _ => .err
    | _ => .null toks

/-- `parse_block`, gst-parse.c l. 2018–2056, after `[`. -/
def pBlock : Nat → List Tok → Res Ex
  | 0, _ => .out
  | f + 1, toks =>
    match pBlockHead toks with
    | .ok (vs, implied) r =>
      match pTemps implied r with
      | .ok ts r1 =>
        match pStmts f true r1 with
        | .ok es (.rbrk :: r2) => .ok (.block vs ts es) r2
        | .out => .out
        | _ => .err
      | _ => .err
    | _ => .err

/-- `parse_statements`, gst-parse.c l. 1542–1575, with `first_stmt` `NULL` as
in all calls for methods, blocks and constants. -/
def pStmts : Nat → Bool → List Tok → Res (List Ex)
  | 0, _, _ => .out
  | f + 1, caret, toks =>
    match caret, toks with
    | true, .caret :: r =>
      match pExpr f anyKind r with
      | .ok e (.dot :: r') => .ok [.ret e] r'
      | .ok e r' => .ok [.ret e] r'
      | .out => .out
      | _ => .err
    | _, _ =>
      match pExpr f anyKind toks with
      | .ok e (.dot :: r) =>
        match pStmts f caret r with
        | .ok es r' => .ok (e :: es) r'
        | x => x
      | .ok e r => .ok [e] r
      | .null r => .ok [] r
      | .err => .err
      | .out => .out

/-- `parse_expression`, gst-parse.c l. 1585–1625.  The loop over the variables
that are assigned to is written as a recursion. -/
def pExpr : Nat → Kind → List Tok → Res Ex
  | 0, _, _ => .out
  | f + 1, k, toks =>
    match toks with
    | .ident s :: r =>
      match pPath s r with
      | .ok p r' =>
        match k.asg, r' with
        | true, .assign :: r'' =>
          match pExpr f k r'' with
          | .ok e r3 => .ok (.assign p e) r3
          | .out => .out
          | _ => .err
        | _, _ => pMsg f k.noAsg (.var p) false r'
      | _ => .err
    | _ =>
      match pPrimary f toks with
      | .ok e r => pMsg f k.noAsg e false r
      | .null r => .null r
      | .err => .err
      | .out => .out

/-- `parse_message_expression`, gst-parse.c l. 2088–2132; `n` says whether the
counter of messages is above zero.  The three functions that read one message
(l. 2178–2223) are written in place. -/
def pMsg : Nat → Kind → Ex → Bool → List Tok → Res Ex
  | 0, _, _, _, _ => .out
  | f + 1, k, node, n, toks =>
    match toks with
    | .ident s :: r => pMsg f k (.unary node s) true r
    | .keyword s :: r =>
      if k.kw then
        match pKeys f k (.keyword s :: r) with
        | .ok as r' => pMsg f k (.keyword node as) true r'
        | .out => .out
        | _ => .err
      else .ok node toks
    | .semi :: r =>
      if n && k.casc then
        match pCasc f (.semi :: r) with
        | .ok ms r' => .ok (.cascade node ms) r'
        | .out => .out
        | _ => .err
      else .ok node toks
    | t :: r =>
      if t = .gt ∧ k.gt = false then .ok node toks
      else match opOf t with
        | some s =>
          if k.bin then
            match pExpr f k.binArg r with
            | .ok a r' => pMsg f k (.binary node s a) true r'
            | .out => .out
            | _ => .err
          else .ok node toks
        | none => .ok node toks
    | [] => .ok node toks

/-- `parse_keyword_list`, gst-parse.c l. 2229–2253. -/
def pKeys : Nat → Kind → List Tok → Res (List Ex)
  | 0, _, _ => .out
  | f + 1, k, toks =>
    match toks with
    | .keyword s :: r =>
      match pExpr f k.kwArg r with
      | .ok a (.keyword s' :: r') =>
        match pKeys f k (.keyword s' :: r') with
        | .ok as r'' => .ok (.kwArg s a :: as) r''
        | x => x
      | .ok a r' => .ok [.kwArg s a] r'
      | .out => .out
      | _ => .err
    | _ => .err

/-- `parse_cascaded_messages`, gst-parse.c l. 2138–2172. -/
def pCasc : Nat → List Tok → Res (List Ex)
  | 0, _ => .out
  | f + 1, toks =>
    match toks with
    | .semi :: r =>
      match pCmsg f r with
      | .ok m r' =>
        match pCasc f r' with
        | .ok ms r'' => .ok (m :: ms) r''
        | x => x
      | .out => .out
      | _ => .err
    | _ => .ok [] toks

/-- One message of a cascade, the `switch` in gst-parse.c l. 2145–2166. -/
def pCmsg : Nat → List Tok → Res Ex
  | 0, _ => .out
  | f + 1, toks =>
    match toks with
    | .ident s :: r => .ok (.unary .hole s) r
    | .keyword s :: r =>
      match pKeys f cascaded (.keyword s :: r) with
      | .ok as r' => .ok (.keyword .hole as) r'
      | .out => .out
      | _ => .err
    | t :: r =>
      match opOf t with
      | some s =>
        match pExpr f cascaded.binArg r with
        | .ok a r' => .ok (.binary .hole s a) r'
        | .out => .out
        | _ => .err
      | none => .err
    | [] => .err

end

/-- The header of a method: its selector parts and parameters. -/
inductive Pattern where
  | unary (s : Name)
  | binary (s : Name) (arg : Name)
  | keyword (parts : List (Name × Name))
  deriving Repr

/-- `parse_keyword_variable_list`, gst-parse.c l. 1419–1437. -/
def pKeyVars : List Tok → Res (List (Name × Name))
  | .keyword s :: .ident a :: r =>
    match r with
    | .keyword _ :: _ =>
      match pKeyVars r with
      | .ok ps r' => .ok ((s, a) :: ps) r'
      | x => x
    | _ => .ok [(s, a)] r
  | _ => .err

/-- `parse_message_pattern`, gst-parse.c l. 1383–1416. -/
def pPattern (toks : List Tok) : Res Pattern :=
  match toks with
  | .ident s :: r => .ok (.unary s) r
  | .keyword s :: r =>
    match pKeyVars (.keyword s :: r) with
    | .ok ps r' => .ok (.keyword ps) r'
    | _ => .err
  | t :: .ident a :: r =>
    match opOf t with
    | some s => .ok (.binary s a) r
    | none => .err
  | _ => .err

/-- An attribute `<foo>` or `<foo: expr bar: expr>`. -/
inductive Attr where
  | unary (s : Name)
  | keyword (args : List Ex)
  deriving Repr

/-- `parse_attribute`, gst-parse.c l. 1473–1505, after `<`; the evaluation of
the arguments (`make_attribute`) is left out. -/
def pAttr (f : Nat) (toks : List Tok) : Res Attr :=
  match toks with
  | .ident s :: .gt :: r => .ok (.unary s) r
  | .keyword s :: r =>
    match pKeys f attrKind (.keyword s :: r) with
    | .ok as (.gt :: r') => .ok (.keyword as) r'
    | .out => .out
    | _ => .err
  | _ => .err

/-- `parse_attributes`, gst-parse.c l. 1458–1470. -/
def pAttrs : Nat → List Tok → Res (List Attr)
  | 0, _ => .out
  | f + 1, toks =>
    match toks with
    | .lt :: r =>
      match pAttr f r with
      | .ok a r' =>
        match pAttrs f r' with
        | .ok as r'' => .ok (a :: as) r''
        | x => x
      | .out => .out
      | _ => .err
    | _ => .ok [] toks

/-- A method as it was read. -/
structure Method where
  pattern : Pattern
  attrs : List Attr
  temps : List Name
  body : List Ex
  deriving Repr

/-- `parse_method`, gst-parse.c l. 1322–1371, with `at_end` `']'` (the syntax
`selector [ … ]`) and the test for `_gst_had_error` left out. -/
def pMethod (f : Nat) (toks : List Tok) : Res Method :=
  match pPattern toks with
  | .ok pat (.lbrk :: r) =>
    match pAttrs f r with
    | .ok a1 r1 =>
      match pTemps false r1 with
      | .ok ts r2 =>
        match pAttrs f r2 with
        | .ok a2 r3 =>
          match pStmts f true r3 with
          | .ok es (.rbrk :: r4) => .ok ⟨pat, a1 ++ a2, ts, es⟩ r4
          | .out => .out
          | _ => .err
        | .out => .out
        | _ => .err
      | _ => .err
    | .out => .out
    | _ => .err
  | _ => .err

/-- Enough fuel for `toks`. -/
def fuelFor (toks : List Tok) : Nat := 8 * toks.length + 8

/-- Read one method definition and return what follows it. -/
def readMethod (toks : List Tok) : Res Method := pMethod (fuelFor toks) toks

/-- Read the statements of a piece of code until the end of the input, as
when a text is evaluated (`parse_temporaries` and `parse_statements`,
then the check for the end). -/
def readCode (toks : List Tok) : Option (List Name × List Ex) :=
  match pTemps false toks with
  | .ok ts r =>
    match pStmts (fuelFor toks) true r with
    | .ok es [] => some (ts, es)
    | _ => none
  | _ => none

end Verif.Parser
