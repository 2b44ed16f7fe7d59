import Verif.Parser.Model

/-!
# The grammar of Smalltalk code

The grammar that the manual and the comments of gst-parse.c document, written
as an inductive relation between token lists and trees.  It does not mention the
reader: no look-ahead, no fuel, no order of attempts.  Of the model only the tokens
and the trees are used, and `opOf`, the text of an operator.

With `lax = true` three more productions are allowed, for the three ways in which
the reader accepts more than the grammar; the language proper is
`lax = false`.
-/

namespace Verif.Parser

/-- `A` or `A::B::c`. -/
inductive IsPath : List Tok → List Name → Prop where
  | one (s) : IsPath [.ident s] [s]
  | more (s) {t p} : IsPath t p → IsPath (.ident s :: .scope :: t) (s :: p)

/-- Declared names, one after the other. -/
def names (ns : List Name) : List Tok := ns.map .ident

/-- Declarations of temporaries, `| a b |` or nothing. -/
inductive IsTemps : List Tok → List Name → Prop where
  | none : IsTemps [] []
  | some (ns) : IsTemps (.bar :: names ns ++ [.bar]) ns

/-- The parameters of a block, `:a :b`. -/
def params (ns : List Name) : List Tok := ns.flatMap fun n => [.colon, .ident n]

/-- The nonterminals.  The `Bool` of `un`, `bin` and `msg` says whether there
is at least one message; the first `Bool` of `bin` and the one of `kws` say whether the
operator `>` is allowed (it is not in an attribute, where it closes the
attribute); the one of `stmts` whether `^` is allowed. -/
inductive NT where
  | lit | elt | elts | unclosed
  | prim
  | un (sent : Bool) | bin (gt : Bool) (sent : Bool) | msg (sent : Bool)
  | kws (gt : Bool) | cmsg | cmsgs
  | expr
  | stmts (caret : Bool)

/-- `G lax nt toks es`: the tokens `toks` are an `nt` and mean `es` (a list
of one tree unless `nt` is a list of things). -/
inductive G (lax : Bool) : NT → List Tok → List Ex → Prop where
  -- literals
  | int (v) : G lax .lit [.int v] [.int v]
  | num (i n) : G lax .lit [.num i n] [.num i n]
  | negInt (v) : 0 ≤ v → G lax .lit [.minus, .int v] [.int (-v)]
  | negNum (i) : G lax .lit [.minus, .num i false] [.num i true]
  | str (s) : G lax .lit [.str s] [.str s]
  | sym (s) : G lax .lit [.sym s] [.sym s]
  | chr (c) : G lax .lit [.chr c] [.chr c]
  /-- `$<955>`: a character given by its code point -/
  | code (v) : 0 ≤ v → v ≤ 0x10FFFF → G lax .lit [.chr 60, .int v, .gt] [.chr v]
  /-- a code point that only an overflow brings into range -/
  | codeWrap (v) : lax = true → 0 ≤ v → 0x10FFFF < v → asInt v ≤ 0x10FFFF →
      G lax .lit [.chr 60, .int v, .gt] [.chr (asInt v)]
  | arrLit {t es} : G lax .elts t es → G lax .lit (.hash :: .lpar :: t ++ [.rpar]) [.arrLit es]
  | bytes (vs : List Int) : (∀ v ∈ vs, 0 ≤ v ∧ v ≤ 255) →
      G lax .lit (.hash :: .lbrk :: vs.map .int ++ [.rbrk]) [.bytes vs]
  | binding {t p} : IsPath t p → G lax .lit (.hash :: .lbrace :: t ++ [.rbrace]) [.binding p]
  | ctc {t1 ts t2 es} : IsTemps t1 ts → G lax (.stmts true) t2 es →
      G lax .lit (.hash :: .hash :: .lpar :: t1 ++ t2 ++ [.rpar]) [.ctc ts es]
  -- elements of literal arrays
  | eltLit {t es} : G lax .lit t es → G lax .elt t es
  | eltArr {t es} : G lax .elts t es → G lax .elt (.lpar :: t ++ [.rpar]) [.arrLit es]
  | eltBytes (vs : List Int) : (∀ v ∈ vs, 0 ≤ v ∧ v ≤ 255) →
      G lax .elt (.lbrk :: vs.map .int ++ [.rbrk]) [.bytes vs]
  | eltTrue : G lax .elt [.ident "true".toList] [.builtin "true".toList]
  | eltFalse : G lax .elt [.ident "false".toList] [.builtin "false".toList]
  | eltNil : G lax .elt [.ident "nil".toList] [.builtin "nil".toList]
  | eltsNil : G lax .elts [] []
  /-- The character `$<` before an integer always begins a code point. -/
  | eltsCons {t e t' es} : G lax .elt t [e] → G lax .elts t' es →
      (∀ v r, t = [.chr 60] → t' = .int v :: r → v < 0) →
      G lax .elts (t ++ t') (e :: es)
  -- the beginning of a literal array, without its end
  | unclosed {t es} : G lax .elts t es → G lax .unclosed t []
  | unclosedParen {t es t'} : G lax .elts t es → G lax .unclosed t' [] →
      G lax .unclosed (t ++ .lpar :: t') []
  | unclosedHash {t es t'} : G lax .elts t es → G lax .unclosed t' [] →
      G lax .unclosed (t ++ .hash :: .lpar :: t') []
  -- primaries
  | var {t p} : IsPath t p → G lax .prim t [.var p]
  | primLit {t e} : G lax .lit t [e] → G lax .prim t [e]
  | paren {t e} : G lax .expr t [e] → G lax .prim (.lpar :: t ++ [.rpar]) [e]
  | brace {t es} : G lax (.stmts false) t es →
      G lax .prim (.lbrace :: t ++ [.rbrace]) [.brace es]
  | block {t1 ts t2 es} : IsTemps t1 ts → G lax (.stmts true) t2 es →
      G lax .prim (.lbrk :: t1 ++ t2 ++ [.rbrk]) [.block [] ts es]
  | blockParams (v vs) : G lax .prim (.lbrk :: params (v :: vs) ++ [.rbrk]) [.block (v :: vs) [] []]
  | blockBar (v vs) {t1 ts t2 es} : IsTemps t1 ts → G lax (.stmts true) t2 es →
      G lax .prim (.lbrk :: params (v :: vs) ++ .bar :: t1 ++ t2 ++ [.rbrk]) [.block (v :: vs) ts es]
  /-- the two bars of `[:a | | t | …]` may be written without a space -/
  | blockBars (v vs ns s) {t2 es} : G lax (.stmts true) t2 es →
      (s = [] ∨ lax = true) →
      G lax .prim (.lbrk :: params (v :: vs) ++ .binop ('|' :: '|' :: s) :: names ns ++ .bar :: t2 ++ [.rbrk])
        [.block (v :: vs) ns es]
  -- messages
  | unPrim {t e} : G lax .prim t [e] → G lax (.un false) t [e]
  | unSend {n t e} (s) : G lax (.un n) t [e] → G lax (.un true) (t ++ [.ident s]) [.unary e s]
  | binUn {g n t e} : G lax (.un n) t [e] → G lax (.bin g n) t [e]
  | binSend {g n t a op s t' m b} : G lax (.bin g n) t [a] → opOf op = some s →
      (g = true ∨ op ≠ .gt) → G lax (.un m) t' [b] →
      G lax (.bin g true) (t ++ op :: t') [.binary a s b]
  | msgBin {n t e} : G lax (.bin true n) t [e] → G lax (.msg n) t [e]
  | msgKw {n t r t' as} : G lax (.bin true n) t [r] → G lax (.kws true) t' as →
      G lax (.msg true) (t ++ t') [.keyword r as]
  | kwsOne {g n s t a} : G lax (.bin g n) t [a] → G lax (.kws g) (.keyword s :: t) [.kwArg s a]
  | kwsCons {g n s t a t' as} : G lax (.bin g n) t [a] → G lax (.kws g) t' as →
      G lax (.kws g) (.keyword s :: t ++ t') (.kwArg s a :: as)
  -- cascades
  | cmsgUn (s) : G lax .cmsg [.ident s] [.unary .hole s]
  | cmsgBin {op s n t a} : opOf op = some s → G lax (.un n) t [a] →
      G lax .cmsg (op :: t) [.binary .hole s a]
  | cmsgKw {t as} : G lax (.kws true) t as → G lax .cmsg t [.keyword .hole as]
  | cmsgsOne {t m} : G lax .cmsg t [m] → G lax .cmsgs (.semi :: t) [m]
  | cmsgsCons {t m t' ms} : G lax .cmsg t [m] → G lax .cmsgs t' ms →
      G lax .cmsgs (.semi :: t ++ t') (m :: ms)
  -- expressions
  | exprMsg {n t e} : G lax (.msg n) t [e] → G lax .expr t [e]
  | exprCasc {t e t' ms} : G lax (.msg true) t [e] → G lax .cmsgs t' ms →
      G lax .expr (t ++ t') [.cascade e ms]
  | exprAsg {t p t' e} : IsPath t p → G lax .expr t' [e] →
      G lax .expr (t ++ .assign :: t') [.assign p e]
  -- statements
  | stNil {c} : G lax (.stmts c) [] []
  | stLast {c t e} : G lax .expr t [e] → G lax (.stmts c) t [e]
  | stCons {c t e t' es} : G lax .expr t [e] → G lax (.stmts c) t' es →
      G lax (.stmts c) (t ++ .dot :: t') (e :: es)
  | stRet {t e} : G lax .expr t [e] → G lax (.stmts true) (.caret :: t) [.ret e]
  | stRetDot {t e} : G lax .expr t [e] → G lax (.stmts true) (.caret :: t ++ [.dot]) [.ret e]
  /-- a literal array that is never closed, in place of the last statement -/
  | stUnclosed {c t} : lax = true → G lax .unclosed t [] →
      G lax (.stmts c) (.hash :: .lpar :: t) []

/-- The header of a method. -/
inductive IsPattern : List Tok → Pattern → Prop where
  | unary (s) : IsPattern [.ident s] (.unary s)
  | binary {op s} (a) : opOf op = some s → IsPattern [op, .ident a] (.binary s a)
  | keyword (ps : List (Name × Name)) : ps ≠ [] →
      IsPattern (ps.flatMap fun p => [.keyword p.1, .ident p.2]) (.keyword ps)

/-- The attributes of a method. -/
inductive IsAttrs (lax : Bool) : List Tok → List Attr → Prop where
  | nil : IsAttrs lax [] []
  | unary (s) {t as} : IsAttrs lax t as →
      IsAttrs lax (.lt :: .ident s :: .gt :: t) (.unary s :: as)
  | keyword {t ks t' as} : G lax (.kws false) t ks → IsAttrs lax t' as →
      IsAttrs lax (.lt :: t ++ .gt :: t') (.keyword ks :: as)

/-- A method definition: `header [ attributes temporaries attributes statements ]`. -/
inductive IsMethod (lax : Bool) : List Tok → Method → Prop where
  | mk {t0 pat t1 a1 t2 ts t3 a2 t4 es} : IsPattern t0 pat → IsAttrs lax t1 a1 → IsTemps t2 ts →
      IsAttrs lax t3 a2 → G lax (.stmts true) t4 es →
      IsMethod lax (t0 ++ .lbrk :: t1 ++ t2 ++ t3 ++ t4 ++ [.rbrk]) ⟨pat, a1 ++ a2, ts, es⟩

/-- Code to evaluate: temporaries and statements. -/
inductive IsCode (lax : Bool) : List Tok → List Name × List Ex → Prop where
  | mk {t1 ts t2 es} : IsTemps t1 ts → G lax (.stmts true) t2 es → IsCode lax (t1 ++ t2) (ts, es)

end Verif.Parser
