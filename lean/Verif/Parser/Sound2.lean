import Verif.Parser.Sound

/-!
# Soundness of the mutually recursive functions
-/

namespace Verif.Parser

/-- The tokens do not begin with an identifier. -/
def NotIdent (r : List Tok) : Prop := ∀ s r', r ≠ .ident s :: r'

/-- The tokens do not begin with an operator (`>` counts only if `g`). -/
def NotOp (g : Bool) (r : List Tok) : Prop :=
  ∀ t r' s, r = t :: r' → opOf t = some s → t = .gt ∧ g = false

/-- The tokens do not begin with a keyword. -/
def NotKw (r : List Tok) : Prop := ∀ s r', r ≠ .keyword s :: r'

/-- Everything that is proved about the functions with fuel `f`. -/
structure S (f : Nat) : Prop where
  lit : ∀ {toks e rest}, pLit f toks = .ok e rest → ∃ t, toks = t ++ rest ∧ G true .elt t [e] ∧
    ((∀ t' r, toks = t' :: r → t' ≠ .lpar ∧ t' ≠ .lbrk ∧ ∀ s, t' ≠ .ident s) → G true .lit t [e]) ∧
    (∀ v r, t = [.chr 60] → rest = .int v :: r → v < 0)
  litNull : ∀ {toks rest}, pLit f toks = .null rest →
    (rest = toks ∧ (∀ r, toks ≠ .lpar :: r) ∧ ∀ r, toks ≠ .lbrk :: r) ∨
    ∃ t, (toks = .hash :: .lpar :: t ++ rest ∨ toks = .lpar :: t ++ rest) ∧ G true .unclosed t []
  elts : ∀ {toks es rest}, pElts f toks = .ok es rest →
    ∃ t, toks = t ++ .rpar :: rest ∧ G true .elts t es
  eltsNull : ∀ {toks rest}, pElts f toks = .null rest →
    ∃ t, toks = t ++ rest ∧ G true .unclosed t []
  ctc : ∀ {toks e rest}, pCtc f toks = .ok e rest →
    ∃ t, toks = t ++ rest ∧ G true .lit (.hash :: .hash :: t) [e]
  ctcNull : ∀ {toks rest}, pCtc f toks ≠ .null rest
  prim : ∀ {toks e rest}, pPrimary f toks = .ok e rest →
    ∃ t, toks = t ++ rest ∧ G true .prim t [e]
  primNull : ∀ {toks rest}, pPrimary f toks = .null rest → rest = toks ∨
    ∃ t, toks = .hash :: .lpar :: t ++ rest ∧ G true .unclosed t []
  block : ∀ {toks e rest}, pBlock f toks = .ok e rest →
    ∃ t, toks = t ++ rest ∧ G true .prim (.lbrk :: t) [e]
  blockNull : ∀ {toks rest}, pBlock f toks ≠ .null rest
  stmts : ∀ {c toks es rest}, pStmts f c toks = .ok es rest →
    ∃ t, toks = t ++ rest ∧ G true (.stmts c) t es
  exprNull : ∀ {k toks rest}, pExpr f k toks = .null rest → rest = toks ∨
    ∃ t, toks = .hash :: .lpar :: t ++ rest ∧ G true .unclosed t []
  exprAny : ∀ {toks e rest}, pExpr f anyKind toks = .ok e rest →
    ∃ t, toks = t ++ rest ∧ G true .expr t [e]
  exprBin : ∀ {k toks e rest}, k.asg = false → k.casc = false → k.kw = false → k.bin = true →
    pExpr f k toks = .ok e rest →
    ∃ t n, toks = t ++ rest ∧ G true (.bin k.gt n) t [e] ∧ NotIdent rest ∧ NotOp k.gt rest
  exprUn : ∀ {k toks e rest}, k.asg = false → k.casc = false → k.kw = false → k.bin = false →
    pExpr f k toks = .ok e rest →
    ∃ t n, toks = t ++ rest ∧ G true (.un n) t [e] ∧ NotIdent rest
  msgNull : ∀ {k node n toks rest}, pMsg f k node n toks ≠ .null rest
  msgUn : ∀ {k t0 node m n toks e rest}, k.casc = false → k.kw = false → k.bin = false →
    G true (.un m) t0 [node] → pMsg f k node n toks = .ok e rest →
    ∃ t m', toks = t ++ rest ∧ G true (.un m') (t0 ++ t) [e] ∧ NotIdent rest
  msgBin : ∀ {k t0 node m n toks e rest}, k.asg = false → k.casc = false → k.kw = false → k.bin = true →
    (G true (.un m) t0 [node] ∨ (G true (.bin k.gt m) t0 [node] ∧ NotIdent toks)) →
    pMsg f k node n toks = .ok e rest →
    ∃ t m', toks = t ++ rest ∧ G true (.bin k.gt m') (t0 ++ t) [e] ∧ NotIdent rest ∧
      NotOp k.gt rest
  msgAny : ∀ {t0 node n toks e rest},
    (G true (.un n) t0 [node] ∨ (G true (.bin true n) t0 [node] ∧ NotIdent toks) ∨
      (G true (.msg true) t0 [node] ∧ n = true ∧ NotIdent toks ∧ NotOp true toks ∧ NotKw toks)) →
    pMsg f anyKind.noAsg node n toks = .ok e rest →
    ∃ t, toks = t ++ rest ∧ G true .expr (t0 ++ t) [e]
  keys : ∀ {k toks as rest}, k.asg = false → k.bin = true → pKeys f k toks = .ok as rest →
    ∃ t, toks = t ++ rest ∧ G true (.kws k.gt) t as ∧ NotIdent rest ∧ NotOp k.gt rest ∧ NotKw rest
  casc : ∀ {r ms rest}, pCasc f (.semi :: r) = .ok ms rest →
    ∃ t, .semi :: r = t ++ rest ∧ G true .cmsgs t ms
  cmsg : ∀ {toks m rest}, pCmsg f toks = .ok m rest →
    ∃ t, toks = t ++ rest ∧ G true .cmsg t [m]

theorem S_zero : S 0 := by
  constructor <;> intros <;> simp_all [pLit, pElts, pCtc, pPrimary, pBlock, pStmts, pExpr, pMsg,
    pKeys, pCasc, pCmsg]

/-- One more element before an unclosed array. -/
theorem unclosed_cons {t e t'} (h1 : G true .elt t [e]) (h2 : G true .unclosed t' [])
    (hc : ∀ v r, t = [.chr 60] → t' = .int v :: r → v < 0) : G true .unclosed (t ++ t') [] := by
  cases h2 with
  | unclosed h => exact .unclosed (.eltsCons h1 h hc)
  | @unclosedParen u es u' h h' =>
    have : G true .elts (t ++ u) (e :: es) := .eltsCons h1 h (by
      intro v r ht hu
      exact hc v (r ++ .lpar :: u') ht (by rw [hu]; rfl))
    have := G.unclosedParen this h'
    simpa using this
  | @unclosedHash u es u' h h' =>
    have : G true .elts (t ++ u) (e :: es) := .eltsCons h1 h (by
      intro v r ht hu
      exact hc v (r ++ .hash :: .lpar :: u') ht (by rw [hu]; rfl))
    have := G.unclosedHash this h'
    simpa using this

theorem isBuiltin_elt {s} (h : isBuiltin s = true) : G true .elt [.ident s] [.builtin s] := by
  simp only [isBuiltin, Bool.or_eq_true, beq_iff_eq] at h
  rcases h with (h | h) | h <;> subst h
  · exact .eltTrue
  · exact .eltFalse
  · exact .eltNil

theorem lit_step {f} (ih : S f) {toks e rest} (h : pLit (f + 1) toks = .ok e rest) :
    ∃ t, toks = t ++ rest ∧ G true .elt t [e] ∧
    ((∀ t' r, toks = t' :: r → t' ≠ .lpar ∧ t' ≠ .lbrk ∧ ∀ s, t' ≠ .ident s) → G true .lit t [e]) ∧
    (∀ v r, t = [.chr 60] → rest = .int v :: r → v < 0) := by
  have mk : ∀ t, toks = t ++ rest → G true .lit t [e] → t ≠ [.chr 60] → ∃ t, toks = t ++ rest ∧
      G true .elt t [e] ∧ ((∀ t' r, toks = t' :: r → t' ≠ .lpar ∧ t' ≠ .lbrk ∧ ∀ s, t' ≠ .ident s) →
      G true .lit t [e]) ∧ (∀ v r, t = [.chr 60] → rest = .int v :: r → v < 0) :=
    fun t h1 h2 h3 => ⟨t, h1, .eltLit h2, fun _ => h2, fun _ _ h => absurd h h3⟩
  simp only [pLit] at h
  split at h
  · split at h
    · simp at h
    · simp only [Res.ok.injEq] at h
      obtain ⟨rfl, rfl⟩ := h
      exact mk [.minus, .int _] rfl (.negInt _ (by omega)) (by simp)
  · split at h
    · simp at h
    · simp only [Res.ok.injEq] at h
      obtain ⟨rfl, rfl⟩ := h
      rename_i hn
      simp only [Bool.not_eq_true] at hn
      subst hn
      exact mk [.minus, .num _ false] rfl (.negNum _) (by simp)
  · simp at h
  · -- '('
    split at h <;> try (simp at h; done)
    rename_i r es r' hel
    simp only [Res.ok.injEq] at h
    obtain ⟨rfl, rfl⟩ := h
    obtain ⟨t, ht, hg⟩ := ih.elts hel
    refine ⟨.lpar :: t ++ [.rpar], by rw [ht]; simp, .eltArr hg, ?_, by simp⟩
    intro hh
    exact absurd rfl (hh _ _ rfl).1
  · -- '['
    split at h <;> try (simp at h; done)
    rename_i r es r' hel
    simp only [Res.ok.injEq] at h
    obtain ⟨rfl, rfl⟩ := h
    obtain ⟨ht, hg⟩ := pBytes_sound hel
    refine ⟨.lbrk :: es.map .int ++ [.rbrk], by rw [ht]; simp, .eltBytes es hg, ?_, by simp⟩
    intro hh
    exact absurd rfl (hh _ _ rfl).2.1
  · split at h
    · rename_i hb
      simp only [Res.ok.injEq] at h
      obtain ⟨rfl, rfl⟩ := h
      refine ⟨[.ident _], rfl, isBuiltin_elt hb, ?_, by simp⟩
      intro hh
      exact absurd rfl ((hh _ _ rfl).2.2 _)
    · simp at h
  · simp only [Res.ok.injEq] at h; obtain ⟨rfl, rfl⟩ := h
    exact mk [.str _] rfl (.str _) (by simp)
  · simp only [Res.ok.injEq] at h; obtain ⟨rfl, rfl⟩ := h
    exact mk [.sym _] rfl (.sym _) (by simp)
  · simp only [Res.ok.injEq] at h; obtain ⟨rfl, rfl⟩ := h
    exact mk [.int _] rfl (.int _) (by simp)
  · simp only [Res.ok.injEq] at h; obtain ⟨rfl, rfl⟩ := h
    exact mk [.num _ _] rfl (.num _ _) (by simp)
  · -- characters
    split at h
    · split at h
      · rename_i hc
        split at h
        · split at h
          · simp at h
          · rename_i v _ _ hv
            simp only [Res.ok.injEq] at h; obtain ⟨rfl, rfl⟩ := h
            obtain ⟨rfl, hc⟩ := hc
            by_cases hw : v ≤ 0x10FFFF
            · have he : asInt v = v := by unfold asInt; omega
              exact mk [.chr 60, .int _, .gt] rfl (by rw [he]; exact .code _ hc hw) (by simp)
            · exact mk [.chr 60, .int _, .gt] rfl (.codeWrap _ rfl hc (by omega) (by omega)) (by simp)
        · simp at h
      · rename_i hc
        simp only [Res.ok.injEq] at h; obtain ⟨rfl, rfl⟩ := h
        refine ⟨[.chr _], rfl, .eltLit (.chr _), fun _ => .chr _, ?_⟩
        intro v r h1 h2
        simp only [List.cons.injEq, Tok.int.injEq, Tok.chr.injEq, and_true] at h1 h2
        omega
    · rename_i hne
      simp only [Res.ok.injEq] at h; obtain ⟨rfl, rfl⟩ := h
      refine ⟨[.chr _], rfl, .eltLit (.chr _), fun _ => .chr _, ?_⟩
      intro v r h1 h2
      exact absurd h2 (hne _ _)
  · obtain ⟨t, ht, hg, _, _⟩ := ih.lit h
    cases f with
    | zero => simp [pLit] at h
    | succ f =>
      simp only [pLit] at h
      split at h <;> try (simp at h; done)
      rename_i r es r' hel
      simp only [Res.ok.injEq] at h
      obtain ⟨rfl, rfl⟩ := h
      cases hg with
      | @eltArr u _ hg =>
        exact mk (.hash :: .lpar :: u ++ [.rpar]) (by
          rw [ht]; simp) (.arrLit hg) (by simp)
      | eltLit hg => cases hg with
        | arrLit => simp at ht
  · obtain ⟨t, ht, hg, _, _⟩ := ih.lit h
    cases f with
    | zero => simp [pLit] at h
    | succ f =>
      simp only [pLit] at h
      split at h <;> try (simp at h; done)
      rename_i r es r' hel
      simp only [Res.ok.injEq] at h
      obtain ⟨rfl, rfl⟩ := h
      cases hg with
      | eltBytes _ hg =>
        exact mk (.hash :: .lbrk :: es.map .int ++ [.rbrk]) (by
          rw [ht]; simp) (.bytes es hg) (by simp)
      | eltLit hg => cases hg with
        | bytes => simp at ht
  · obtain ⟨t, rfl, hg⟩ := ih.ctc h
    exact mk (.hash :: .hash :: t) (by simp) hg (by simp)
  · split at h <;> try (simp at h; done)
    rename_i s r p r' hp
    simp only [Res.ok.injEq] at h; obtain ⟨rfl, rfl⟩ := h
    obtain ⟨t, ht, hpp⟩ := pPath_sound hp
    refine mk (.hash :: .lbrace :: t ++ [.rbrace]) ?_ (.binding hpp) (by simp)
    rw [ht]; simp
  · simp at h
  · simp at h

theorem litNull_step {f} (ih : S f) {toks rest} (h : pLit (f + 1) toks = .null rest) :
    (rest = toks ∧ (∀ r, toks ≠ .lpar :: r) ∧ ∀ r, toks ≠ .lbrk :: r) ∨
    ∃ t, (toks = .hash :: .lpar :: t ++ rest ∨ toks = .lpar :: t ++ rest) ∧
      G true .unclosed t [] := by
  simp only [pLit] at h
  split at h
  · split at h <;> simp at h
  · split at h <;> simp at h
  · simp at h
  · split at h <;> try (simp at h; done)
    rename_i r r' hel
    simp only [Res.null.injEq] at h
    subst h
    obtain ⟨t, rfl, hg⟩ := ih.eltsNull hel
    exact .inr ⟨t, .inr rfl, hg⟩
  · rename_i r
    split at h <;> try (simp at h; done)
    rename_i r' hb
    exfalso
    clear h
    revert r' 
    fun_induction pBytes r with
    | case5 v r hv h ih' => intro r' hb; exact ih' r' hb
    | case1 => simp
    | case2 => simp
    | case3 => simp
    | case4 => simp
    | case6 => simp
  · split at h <;> simp at h
  · simp at h
  · simp at h
  · simp at h
  · simp at h
  · split at h
    · split at h
      · split at h
        · split at h <;> simp at h
        · simp at h
      · simp at h
    · simp at h
  · rcases ih.litNull h with ⟨_, h', _⟩ | ⟨t, ht | ht, hg⟩
    · exact absurd rfl (h' _)
    · simp at ht
    · simp only [List.cons_append, List.cons.injEq, true_and] at ht
      subst ht
      exact .inr ⟨t, .inl rfl, hg⟩
  · rcases ih.litNull h with ⟨_, _, h'⟩ | ⟨t, ht | ht, hg⟩
    · exact absurd rfl (h' _)
    · simp at ht
    · simp at ht
  · exact absurd h ih.ctcNull
  · split at h <;> simp at h
  · simp at h
  · rename_i h1 h2 h3 h4 h5 h6 h7 h8 h9 h10 h11 h12 h13 h14 h15 h16
    simp only [Res.null.injEq] at h
    exact .inl ⟨h.symm, h4, h5⟩

end Verif.Parser
