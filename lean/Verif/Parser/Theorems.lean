import Verif.Parser.Methods

/-!
# Theorems about the reader of source code
-/

namespace Verif.Parser

/-- Brackets are closed in a text of the grammar. -/
theorem closed {l nt t es} (h : G l nt t es) (hl : l = false) :
    nt ≠ .unclosed → ∀ s, nest t s = some s := by
  induction h with
  | unclosed | unclosedParen | unclosedHash => intro h; exact absurd rfl h
  | stUnclosed h => simp [hl] at h
  | codeWrap _ h => simp [hl] at h
  | bytes vs hv => 
    intro _ s
    have := nest_plains (t := vs.map Tok.int) (r := [.rbrk]) (s := .brk :: s) (by simp [plain])
    simp [nest, this]
  | eltBytes vs hv => 
    intro _ s
    have := nest_plains (t := vs.map Tok.int) (r := [.rbrk]) (s := .brk :: s) (by simp [plain])
    simp [nest, this]
  | binding hp =>
    intro _ s
    have := nest_plains (r := [.rbrace]) (s := .brace :: s) (path_plain hp)
    simp [nest, this]
  | ctc ht hg ih =>
    intro _ s
    have := fun r => nest_plains (r := r) (s := .paren :: s) (temps_plain ht)
    simp [nest, this, nest_append _ [Tok.rpar], ih (by simp)]
  | block ht hg ih =>
    intro _ s
    have := fun r => nest_plains (r := r) (s := .brk :: s) (temps_plain ht)
    simp [nest, this, nest_append _ [Tok.rbrk], ih (by simp)]
  | blockParams v vs =>
    intro _ s
    have := fun r => nest_plains (r := r) (s := .brk :: s) (params_plain (v :: vs))
    simp [nest, this]
  | blockBar v vs ht hg ih =>
    intro _ s
    have h1 := fun r => nest_plains (r := r) (s := .brk :: s) (temps_plain ht)
    have := fun r => nest_plains (r := r) (s := .brk :: s) (params_plain (v :: vs))
    simp [nest, this, h1, nest_append _ [Tok.rbrk], ih (by simp)]
  | blockBars v vs ns x hg _ ih =>
    intro _ s
    have h1 := fun r => nest_plains (r := r) (s := .brk :: s) (names_plain ns)
    have := fun r => nest_plains (r := r) (s := .brk :: s) (params_plain (v :: vs))
    simp [nest, this, h1, nest_append _ [Tok.rbrk], ih (by simp)]
  | var hp => intro _ s; simpa [nest] using nest_plains (r := []) (s := s) (path_plain hp)
  | exprAsg hp hg ih =>
    intro _ s
    simp [nest, nest_plains (path_plain hp), ih (by simp)]
  | binSend ha hop _ hb iha ihb =>
    intro _ s
    simp [nest_append, nest_plain (op_plain hop), iha (by simp), ihb (by simp)]
  | cmsgBin hop hb ihb =>
    intro _ s
    simp [nest_plain (op_plain hop), ihb (by simp)]
  | _ => intro _ s; simp_all [nest, nest_append]

theorem attrs_closed {t as} (h : IsAttrs false t as) : ∀ s, nest t s = some s := by
  induction h with
  | nil => simp [nest]
  | unary => simp_all [nest]
  | keyword hg h ih => simp [nest, nest_append, closed hg rfl, ih]

theorem method_closed {t m} (h : IsMethod false t m) : ∀ s, nest t s = some s := by
  cases h with
  | mk h0 h1 h2 h3 h4 =>
    intro s
    have := fun r => nest_plains (r := r) (s := .brk :: s) (temps_plain h2)
    simp only [List.append_assoc, List.cons_append, nest_plains (pattern_plain h0), nest]
    rw [nest_append, attrs_closed h1, Option.bind_some, this, nest_append, attrs_closed h3,
      Option.bind_some, nest_append, closed h4 rfl (by simp), Option.bind_some]
    rfl

theorem code_closed {t c} (h : IsCode false t c) : ∀ s, nest t s = some s := by
  cases h with
  | mk h1 h2 => intro s; simp [nest_plains (temps_plain h1), closed h2 rfl]

/-! ## Every text of the grammar is read, with the meaning the grammar gives it (C104) -/

/-- A method definition of the grammar is read, whatever follows it, and the
tree is the one the grammar gives. -/
theorem read_complete {t m} (h : IsMethod false t m) (rest : List Tok) :
    readMethod (t ++ rest) = .ok m rest :=
  method_complete h rest (by simp [fuelFor])

/-- The same for code to evaluate. -/
theorem code_read_complete {t c} (h : IsCode false t c) : readCode t = some c := code_complete h

/-- A text has one meaning only, and no method definition is the beginning of
another. -/
theorem unambiguous {t₁ t₂ m₁ m₂ r₁ r₂} (h₁ : IsMethod false t₁ m₁) (h₂ : IsMethod false t₂ m₂)
    (he : t₁ ++ r₁ = t₂ ++ r₂) : m₁ = m₂ ∧ t₁ = t₂ := by
  have e1 := read_complete h₁ r₁
  rw [he, read_complete h₂ r₂] at e1
  simp only [Res.ok.injEq] at e1
  obtain ⟨rfl, rfl⟩ := e1
  exact ⟨rfl, List.append_cancel_right he⟩

theorem code_unambiguous {t c₁ c₂} (h₁ : IsCode false t c₁) (h₂ : IsCode false t c₂) : c₁ = c₂ := by
  have := code_complete h₁
  rw [code_complete h₂] at this
  exact (Option.some.inj this).symm

section examples

private def x : Tok := .ident ['x']
private def ex : Ex := .var [['x']]

/-- `x: x [ <p: 1> | x | ^x x + 3 * x ]`. -/
private def sample : List Tok :=
  [.keyword ['x'], x, .lbrk, .lt, .keyword ['p'], .int 1, .gt, .bar, x, .bar, .caret, x, x,
    .binop ['+'], .int 3, .binop ['*'], x, .rbrk]

private def sampleTree : Method :=
  ⟨.keyword [(['x'], ['x'])], [.keyword [.kwArg ['p'] (.int 1)]], [['x']],
    [.ret (.binary (.binary (.unary ex ['x']) ['+'] (.int 3)) ['*'] ex)]⟩

private theorem sample_is : IsMethod false sample sampleTree := by
  have hx : G false .prim [x] [ex] := .var (.one _)
  have h3 : G false (.un false) [.int 3] [.int 3] := .unPrim (.primLit (.int 3))
  have e1 : G false (.bin true true) [x, x] [.unary ex ['x']] := .binUn (.unSend ['x'] (.unPrim hx))
  have e2 := G.binSend (op := .binop ['+']) e1 rfl (.inl rfl) h3
  have e3 := G.binSend (op := .binop ['*']) e2 rfl (.inl rfl) (.unPrim hx)
  have ha : G false (.kws false) [.keyword ['p'], .int 1] [.kwArg ['p'] (.int 1)] :=
    .kwsOne (.binUn (.unPrim (.primLit (.int 1))))
  exact .mk (t0 := [.keyword ['x'], x]) (.keyword [(['x'], ['x'])] (by simp)) (.keyword ha .nil)
    (.some [['x']]) .nil (.stRet (.exprMsg (.msgBin e3)))

example : readMethod (sample ++ [.bang]) = .ok sampleTree [.bang] := read_complete sample_is _

example {m} (h : IsMethod false sample m) : m = sampleTree :=
  (unambiguous (r₁ := []) (r₂ := []) h sample_is rfl).1

end examples

/-! ### What the grammar says about precedence, through the reader -/

/-- Unary messages bind more than binary ones and those more than keyword ones. -/
theorem precedence (a u p b v k c q d : Name) :
    readCode [.ident a, .ident u, .binop p, .ident b, .ident v, .keyword k, .ident c, .binop q, .ident d]
      = some ([], [.keyword (.binary (.unary (.var [a]) u) p (.unary (.var [b]) v))
          [.kwArg k (.binary (.var [c]) q (.var [d]))]]) := by
  apply code_complete
  have e1 : G false (.bin true true) [.ident a, .ident u] _ := .binUn (.unSend u (.unPrim (.var (.one a))))
  have e2 : G false (.un true) [.ident b, .ident v] _ := .unSend v (.unPrim (.var (.one b)))
  have e3 : G false (.bin true false) [.ident c] _ := .binUn (.unPrim (.var (.one c)))
  have e4 := G.binSend (op := .binop q) e3 rfl (.inl rfl) (.unPrim (.var (.one d)))
  have e5 := G.binSend (op := .binop p) e1 rfl (.inl rfl) e2
  exact .mk .none (.stLast (.exprMsg (.msgKw e5 (.kwsOne (s := k) e4))))

/-- Binary messages are sent from left to right, whatever the operators. -/
theorem left_to_right (a : Name) (l : List (Name × Name)) :
    readCode (.ident a :: l.flatMap fun p => [.binop p.1, .ident p.2])
      = some ([], [l.foldl (fun e p => .binary e p.1 (.var [p.2])) (.var [a])]) := by
  apply code_complete
  have key : ∀ (l : List (Name × Name)) t e n, G false (.bin true n) t [e] →
      ∃ m, G false (.bin true m) (t ++ l.flatMap fun p => [.binop p.1, .ident p.2])
        [l.foldl (fun e p => .binary e p.1 (.var [p.2])) e] := by
    intro l
    induction l with
    | nil => intro t e n h; exact ⟨n, by simpa using h⟩
    | cons p l ih =>
      intro t e n h
      have := ih _ _ _ (G.binSend (op := .binop p.1) h rfl (.inl rfl) (.unPrim (.var (.one p.2))))
      simpa using this
  obtain ⟨m, h⟩ := key l [.ident a] (.var [a]) false (.binUn (.unPrim (.var (.one a))))
  exact .mk .none (.stLast (.exprMsg (.msgBin h)))

/-- The messages after semicolons go to the receiver of the last message before them,
also when that receiver is the result of others: in `a u + b; v; w` it is `a u`. -/
theorem cascade_receiver (a u p b v : Name) (ws : List Name) :
    readCode (.ident a :: .ident u :: .binop p :: .ident b :: .semi :: .ident v ::
        ws.flatMap fun w => [.semi, .ident w])
      = some ([], [.cascade (.binary (.unary (.var [a]) u) p (.var [b]))
          (.unary .hole v :: ws.map fun w => .unary .hole w)]) := by
  apply code_complete
  have e1 : G false (.bin true true) [.ident a, .ident u] _ := .binUn (.unSend u (.unPrim (.var (.one a))))
  have e2 := G.binSend (op := .binop p) e1 rfl (.inl rfl) (.unPrim (.var (.one b)))
  have key : ∀ (ws : List Name) v, G false .cmsgs (.semi :: .ident v :: ws.flatMap fun w => [.semi, .ident w])
      (.unary .hole v :: ws.map fun w => .unary .hole w) := by
    intro ws
    induction ws with
    | nil => intro v; exact .cmsgsOne (.cmsgUn v)
    | cons w ws ih => intro v; exact .cmsgsCons (.cmsgUn v) (ih w)
  exact .mk .none (.stLast (.exprCasc (.msgBin e2) (key ws v)))

/-- A method whose statements end with a dot is the same method. -/
theorem final_dot {t e} (h : G false .expr t [e]) :
    readCode (t ++ [.dot]) = readCode t := by
  have h1 := code_complete (.mk .none (.stLast h))
  have h2 := code_complete (.mk .none (.stCons h .stNil))
  simp only [List.nil_append] at h1 h2
  rw [h1, h2]

/-! ## Nothing outside of the grammar is read (C105) -/

/-- What is read belongs to the grammar extended by a literal array that is
never closed, by code points that are in range only after an overflow (and by operators of more than two characters that begin with two bars, which the
lexer never delivers: lex.c l. 615–657). -/
theorem read_sound {toks m rest} (h : readMethod toks = .ok m rest) :
    ∃ t, toks = t ++ rest ∧ IsMethod true t m := method_sound h

theorem short_bars {t : List Tok} (hb : ∀ s, .binop s ∈ t → s.length ≤ 2)
    (hv : ∀ v, [.chr 60, .int v, .gt] <:+: t → v < 2 ^ 31) : Bars t := by
  refine ⟨fun s hs => ?_, hv⟩
  have := hb _ hs
  cases s with
  | nil => rfl
  | cons => simp at this

theorem no_code_points {t : List Tok} (h : .chr 60 ∉ t) :
    ∀ v, [.chr 60, .int v, .gt] <:+: t → v < 2 ^ 31 :=
  fun _ hi => absurd (hi.subset (by simp)) h

/-- A text whose brackets are closed, each by one of its kind, is read to the end
exactly if it is a method of the grammar.
Missing for the full property: the hypothesis on the brackets, see
`unclosed_read`, and the one on code points `$<v>`, see `code_point_wraps`.  That operators have at most two characters is what the
lexer delivers. -/
theorem read_exact_partial {toks m} (hb : ∀ s, .binop s ∈ toks → s.length ≤ 2)
    (hv : ∀ v, [.chr 60, .int v, .gt] <:+: toks → v < 2 ^ 31)
    (hn : nest toks [] = some []) : readMethod toks = .ok m [] ↔ IsMethod false toks m := by
  constructor
  · intro h
    obtain ⟨t, ht, hm⟩ := method_sound h
    rw [List.append_nil] at ht
    subst ht
    exact method_strict hm (short_bars hb hv) hn
  · intro h
    simpa using read_complete h []

/-- The same for code to evaluate. -/
theorem code_exact_partial {toks c} (hb : ∀ s, .binop s ∈ toks → s.length ≤ 2)
    (hv : ∀ v, [.chr 60, .int v, .gt] <:+: toks → v < 2 ^ 31)
    (hn : nest toks [] = some []) : readCode toks = some c ↔ IsCode false toks c :=
  ⟨fun h => code_strict (code_sound h) (short_bars hb hv) hn, code_complete⟩

example : readMethod sample = .ok sampleTree [] ↔ IsMethod false sample sampleTree :=
  read_exact_partial (by simp [sample, x]) (no_code_points (by simp [sample, x])) (by rfl)

/-- `x [ x := ]` is not a method, and by the theorem it is not read. -/
example (m) : ¬ IsMethod false [.ident ['x'], .lbrk, .ident ['x'], .assign, .rbrk] m := by
  rw [← read_exact_partial (by simp) (no_code_points (by simp)) (by rfl)]
  intro h
  cases h

/-- The text `m [ #(1 ]`, where a parenthesis is missing: `gst` takes it for
the empty method, since `parse_array_literal` returns `NULL` at
the bracket (gst-parse.c l. 1877) and `parse_statements` takes `NULL` for
the end of the statements (l. 1565).  Whatever is written inside, the
statement disappears silently. -/
theorem unclosed_read (n : Name) (l : List Int) :
    let toks := .ident n :: .lbrk :: .hash :: .lpar :: l.map Tok.int ++ [.rbrk]
    readMethod toks = .ok ⟨.unary n, [], [], []⟩ [] ∧ ∀ m, ¬ IsMethod false toks m := by
  intro toks
  constructor
  · have hel : ∀ (l : List Int) (f), l.length + 3 ≤ f →
        pElts f (l.map Tok.int ++ [.rbrk]) = .null [.rbrk] := by
      intro l
      induction l with
      | nil =>
        intro f hf
        obtain ⟨f, rfl⟩ : ∃ f', f = f' + 3 := ⟨f - 3, by omega⟩
        rw [List.map_nil, List.nil_append, pElts.eq_def]
        simp [pLit]
      | cons a l ih =>
        intro f hf
        simp only [List.length_cons] at hf
        obtain ⟨f, rfl⟩ : ∃ f', f = f' + 2 := ⟨f - 2, by omega⟩
        rw [List.map_cons, List.cons_append, pElts.eq_def]
        simp [pLit, ih (f + 1) (by omega)]
    have hf : fuelFor toks = (8 * l.length + 43) + 5 := by
      simp only [toks, fuelFor, List.length_cons, List.length_append, List.length_map, List.length_nil]
      omega
    unfold readMethod
    rw [hf]
    simp only [toks, List.cons_append, pMethod, pPattern, pAttrs, pTemps, Bool.false_eq_true, if_false]
    rw [pStmts.eq_def]
    dsimp only
    rw [pExpr.eq_def]
    dsimp only
    simp only [pPrimary, pLit, hel l (8 * l.length + 43) (by omega)]
    rfl
  · intro m h
    have := method_closed h []
    have h2 := nest_plains (t := l.map Tok.int) (r := [.rbrk]) (s := [.paren, .brk]) (by simp [plain])
    simp [toks, nest, h2] at this

/-! ## Reading always ends (C106) -/

/-- The reader ends on every text: either it returns a method or it reports
an error. -/
theorem read_ends (toks : List Tok) :
    readMethod toks = .err ∨ ∃ m rest, readMethod toks = .ok m rest := by
  have h := method_out (f := fuelFor toks) (toks := toks) (by simp [fuelFor])
  unfold readMethod pMethod at *
  revert h
  repeat' split
  all_goals simp

/-- What is read is not empty: after a method the reader has made progress. -/
theorem read_progress {toks m rest} (h : readMethod toks = .ok m rest) : rest.length < toks.length := by
  obtain ⟨t, rfl, hm⟩ := read_sound h
  cases hm with
  | mk => simp; omega

/-! ## Literals of characters (C105) -/

/-- If the last token is `>`, then it closes a code point in range. -/
def LastGt (t : List Tok) : Prop :=
  ∀ u, t = u ++ [.gt] → ∃ w v, u = w ++ [.chr 60, .int v] ∧ v ≤ 0x10FFFF

theorem lastGt_nil : LastGt [] := by intro u h; simp at h

theorem lastGt_app {t t'} (h : LastGt t) (h' : LastGt t') : LastGt (t ++ t') := by
  intro u hu
  rcases List.eq_nil_or_concat t' with rfl | ⟨w, a, rfl⟩
  · exact h u (by simpa using hu)
  · simp only [List.concat_eq_append] at h' hu
    rw [← List.append_assoc] at hu
    obtain ⟨rfl, h2⟩ := List.append_inj' hu rfl
    obtain ⟨w', v, rfl, hv⟩ := h' w (by rw [h2])
    exact ⟨t ++ w', v, by simp, hv⟩

theorem lastGt_one {a : Tok} (h : a ≠ .gt) : LastGt [a] := by
  intro u hu
  cases u with
  | nil => simp at hu; exact absurd hu h
  | cons b u => simp at hu

theorem lastGt_cons {a : Tok} {t} (h : a ≠ .gt) (h' : LastGt t) : LastGt (a :: t) :=
  lastGt_app (lastGt_one h) h'

/-- Also an operator, if something follows. -/
theorem lastGt_op {a b : Tok} {t} (h' : LastGt (b :: t)) : LastGt (a :: b :: t) := by
  intro u hu
  cases u with
  | nil => simp at hu
  | cons x u =>
    simp only [List.cons_append, List.cons.injEq] at hu
    obtain ⟨rfl, hu⟩ := hu
    obtain ⟨w, v, rfl, hv⟩ := h' u hu
    exact ⟨_ :: w, v, rfl, hv⟩

theorem lastGt_all : ∀ {t : List Tok}, (∀ a ∈ t, a ≠ .gt) → LastGt t
  | [], _ => lastGt_nil
  | a :: t, h => lastGt_cons (h a (by simp)) (lastGt_all (fun b hb => h b (by simp [hb])))

theorem path_not_gt {t p} (h : IsPath t p) : ∀ a ∈ t, a ≠ .gt := by
  induction h with
  | one => simp
  | more s h ih => simpa using ih

theorem last_gt {l nt t es} (h : G l nt t es) (hl : l = false) : LastGt t := by
  have op {op : Tok} {n t b} (h : G l (.un n) t [b]) (h' : LastGt t) : LastGt (op :: t) := by
    obtain ⟨a, r, rfl, _⟩ := first h (by simp)
    exact lastGt_op h'
  have e : ∀ {a : Tok} {t}, a ≠ .gt → LastGt (t ++ [a]) := by
    intro a t h u hu
    obtain ⟨-, h2⟩ := List.append_inj' hu rfl
    simp only [List.cons.injEq, and_true] at h2
    exact absurd h2 h
  induction h with
  | code v _ h =>
    intro u hu
    refine ⟨[], v, ?_, h⟩
    have : [Tok.chr 60, .int v] ++ [.gt] = u ++ [.gt] := hu
    exact (List.append_cancel_right this).symm
  | codeWrap _ h => simp [hl] at h
  | binSend ha hop _ hb iha ihb => exact lastGt_app iha (op hb ihb)
  | cmsgBin hop hb ihb => exact op hb ihb
  | bytes | eltBytes | blockParams => exact e (by simp)
  | binding hp => exact e (by simp)
  | var hp => exact lastGt_all (path_not_gt hp)
  | exprAsg hp _ ih => exact lastGt_app (lastGt_all (path_not_gt hp)) (lastGt_cons (by simp) ih)
  | arrLit | eltArr | paren | brace | ctc | block | blockBar | blockBars => exact e (by simp)
  | eltsCons _ _ _ ih ih' => exact lastGt_app ih ih'
  | unclosedParen _ _ ih ih' => exact lastGt_app ih (lastGt_cons (by simp) ih')
  | unclosedHash _ _ ih ih' => exact lastGt_app ih (lastGt_cons (by simp) (lastGt_cons (by simp) ih'))
  | unSend _ _ ih => exact e (by simp)
  | msgKw _ _ ih ih' => exact lastGt_app ih ih'
  | exprCasc _ _ ih ih' => exact lastGt_app ih ih'
  | kwsOne _ ih => exact lastGt_cons (by simp) ih
  | cmsgsOne _ ih => exact lastGt_cons (by simp) ih
  | kwsCons _ _ ih ih' => exact lastGt_app (lastGt_cons (by simp) ih) ih'
  | cmsgsCons _ _ ih ih' => exact lastGt_app (lastGt_cons (by simp) ih) ih'
  | stCons _ _ ih ih' => exact lastGt_app ih (lastGt_cons (by simp) ih')
  | stRet _ ih => exact lastGt_cons (by simp) ih
  | stRetDot _ ih => exact e (by simp)
  | stUnclosed _ _ ih => exact lastGt_cons (by simp) (lastGt_cons (by simp) ih)
  | _ => first | assumption | exact lastGt_nil | (apply lastGt_all; simp; done)

/-- `$<4294967361>` is read as the letter A: the check of the code point
comes after it was cut to 32 bits (gst-parse.c l. 1738, 1814–1818).  Likewise
for every `v` that is below 2^62. -/
theorem code_point_wraps (v : Int) (h : 0 ≤ v) (hv : v ≤ 0x10FFFF) (k : Int) (hk : 0 < k) :
    readCode [.chr 60, .int (v + k * 2 ^ 32), .gt] = some ([], [.chr v]) ∧
    ∀ c, ¬ IsCode false [.chr 60, .int (v + k * 2 ^ 32), .gt] c := by
  constructor
  · have h1 : asInt (v + k * 2 ^ 32) = v := by unfold asInt; omega
    have h2 : 0 ≤ v + k * 2 ^ 32 := by omega
    generalize v + k * 2 ^ 32 = w at *
    have h3 : ¬ 0x10FFFF < asInt w := by omega
    simp only [readCode, pTemps, Bool.false_eq_true, if_false, fuelFor, List.length_cons,
      List.length_nil, Nat.reduceAdd, Nat.reduceMul]
    rw [pStmts.eq_def]
    dsimp only
    rw [pExpr.eq_def]
    dsimp only
    rw [pPrimary.eq_def]
    dsimp only
    rw [pLit.eq_def]
    dsimp only
    rw [if_pos ⟨rfl, h2⟩, if_neg h3, h1]
    rfl
  · intro c h
    generalize hw : v + k * 2 ^ 32 = w at h
    generalize ht : [Tok.chr 60, .int w, .gt] = t at h
    cases h with
    | mk h1 h2 =>
      rcases temps_first h1 with ⟨rfl, rfl⟩ | ⟨r, rfl⟩
      · obtain ⟨u, x, hu, hx⟩ := last_gt h2 rfl [.chr 60, .int w] (by simpa using ht.symm)
        have h3 : [] ++ [Tok.chr 60, .int w] = u ++ [.chr 60, .int x] := hu
        obtain ⟨-, h4⟩ := List.append_inj' h3 rfl
        simp only [List.cons.injEq, Tok.int.injEq, and_true, true_and] at h4
        omega
      · simp at ht

/-- `#($< 5)`, an array of a character and an integer, cannot be written so,
while any other character may stand in the place of `$<`. -/
theorem char_before_int (c : Nat) (v : Int) (hv : 0 ≤ v) :
    readCode [.hash, .lpar, .chr c, .int v, .rpar] =
      if c = 60 then none else some ([], [.arrLit [.chr c, .int v]]) := by
  split
  · rename_i h
    subst h
    simp only [readCode, pTemps, Bool.false_eq_true, if_false, fuelFor, List.length_cons,
      List.length_nil, Nat.reduceAdd, Nat.reduceMul]
    rw [pStmts.eq_def]
    dsimp only
    rw [pExpr.eq_def]
    dsimp only
    simp only [pPrimary, pLit]
    rw [pElts.eq_def]
    dsimp only
    simp [pLit, hv]
  · rename_i hc
    have h1 : G false .elts [.chr c, .int v] [.chr c, .int v] :=
      .eltsCons (t := [.chr c]) (.eltLit (.chr c))
        (.eltsCons (t := [.int v]) (.eltLit (.int v)) .eltsNil (by simp)) (by simp [hc])
    exact code_complete (.mk .none (.stLast (.exprMsg (.msgBin (.binUn (.unPrim (.primLit (.arrLit h1))))))))

example : readCode [.chr 60, .int 4294967361, .gt] = some ([], [.chr 65]) :=
  (code_point_wraps 65 (by omega) (by omega) 1 (by omega)).1

end Verif.Parser
