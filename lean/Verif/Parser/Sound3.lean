import Verif.Parser.Sound2

/-!
# Soundness, one step for each function
-/

namespace Verif.Parser

theorem elts_step {f} (ih : S f) {toks es rest} (h : pElts (f + 1) toks = .ok es rest) :
    ∃ t, toks = t ++ .rpar :: rest ∧ G true .elts t es := by
  simp only [pElts] at h
  split at h
  · simp at h
  · simp only [Res.ok.injEq] at h; obtain ⟨rfl, rfl⟩ := h
    exact ⟨[], rfl, .eltsNil⟩
  · split at h <;> try (simp at h; done)
    rename_i e r he
    split at h
    · rename_i es' r' hes
      simp only [Res.ok.injEq] at h; obtain ⟨rfl, rfl⟩ := h
      obtain ⟨t, rfl, hg, _, hc⟩ := ih.lit he
      obtain ⟨t', rfl, hg'⟩ := ih.elts hes
      refine ⟨t ++ t', by simp, .eltsCons hg hg' ?_⟩
      intro v r h1 h2
      exact hc v (r ++ .rpar :: r') h1 (by rw [h2]; rfl)
    · rename_i hne
      exact absurd h (hne _ _)

theorem eltsNull_step {f} (ih : S f) {toks rest} (h : pElts (f + 1) toks = .null rest) :
    ∃ t, toks = t ++ rest ∧ G true .unclosed t [] := by
  simp only [pElts] at h
  split at h
  · simp at h
  · simp at h
  · split at h <;> try (simp at h; done)
    · rename_i e r he
      split at h
      · simp at h
      · obtain ⟨t, rfl, hg, _, hc⟩ := ih.lit he
        obtain ⟨t', rfl, hg'⟩ := ih.eltsNull h
        refine ⟨t ++ t', by simp, unclosed_cons hg hg' ?_⟩
        intro v r h1 h2
        exact hc v (r ++ rest) h1 (by rw [h2]; rfl)
    · rename_i r he
      simp only [Res.null.injEq] at h
      subst h
      rcases ih.litNull he with ⟨h', _⟩ | ⟨t, ht | ht, hg⟩
      · exact ⟨[], by rw [h']; rfl, .unclosed .eltsNil⟩
      · exact ⟨.hash :: .lpar :: t, ht, .unclosedHash (t := []) .eltsNil hg⟩
      · exact ⟨.lpar :: t, ht, .unclosedParen (t := []) .eltsNil hg⟩

theorem ctc_step {f} (ih : S f) {toks e rest} (h : pCtc (f + 1) toks = .ok e rest) :
    ∃ t, toks = t ++ rest ∧ G true .lit (.hash :: .hash :: t) [e] := by
  simp only [pCtc] at h
  split at h <;> try (simp at h; done)
  split at h <;> try (simp at h; done)
  rename_i ts r1 h1
  split at h <;> try (simp at h; done)
  rename_i es r2 h2
  simp only [Res.ok.injEq] at h; obtain ⟨rfl, rfl⟩ := h
  obtain ⟨t1, rfl, ht⟩ := pTemps_sound h1
  obtain ⟨t2, rfl, hg⟩ := ih.stmts h2
  exact ⟨.lpar :: t1 ++ t2 ++ [.rpar], by simp, by simpa using G.ctc ht hg⟩

theorem ctcNull_step {f toks rest} : pCtc (f + 1) toks ≠ .null rest := by
  intro h
  simp only [pCtc] at h
  split at h <;> try (simp at h; done)
  split at h <;> try (simp at h; done)
  split at h <;> simp at h

theorem prim_step {f} (ih : S f) {toks e rest} (h : pPrimary (f + 1) toks = .ok e rest) :
    ∃ t, toks = t ++ rest ∧ G true .prim t [e] := by
  have lit : pLit f toks = .ok e rest →
      (∀ t' r, toks = t' :: r → t' ≠ .lpar ∧ t' ≠ .lbrk ∧ ∀ s, t' ≠ .ident s) →
      ∃ t, toks = t ++ rest ∧ G true .prim t [e] := by
    intro h1 h2
    obtain ⟨t, ht, _, hg, _⟩ := ih.lit h1
    exact ⟨t, ht, .primLit (hg h2)⟩
  simp only [pPrimary] at h
  split at h
  · split at h <;> try (simp at h; done)
    rename_i p r' hp
    simp only [Res.ok.injEq] at h; obtain ⟨rfl, rfl⟩ := h
    obtain ⟨t, ht, hpp⟩ := pPath_sound hp
    exact ⟨t, ht, .var hpp⟩
  · exact lit h (by rintro _ _ ⟨⟩; simp)
  · exact lit h (by rintro _ _ ⟨⟩; simp)
  · exact lit h (by rintro _ _ ⟨⟩; simp)
  · exact lit h (by rintro _ _ ⟨⟩; simp)
  · exact lit h (by rintro _ _ ⟨⟩; simp)
  · exact lit h (by rintro _ _ ⟨⟩; simp)
  · exact lit h (by rintro _ _ ⟨⟩; simp)
  · obtain ⟨t, rfl, hg⟩ := ih.block h
    exact ⟨.lbrk :: t, rfl, hg⟩
  · split at h <;> try (simp at h; done)
    rename_i es r' hs
    simp only [Res.ok.injEq] at h; obtain ⟨rfl, rfl⟩ := h
    obtain ⟨t, rfl, hg⟩ := ih.stmts hs
    exact ⟨.lbrace :: t ++ [.rbrace], by simp, .brace hg⟩
  · split at h <;> try (simp at h; done)
    rename_i es r' hs
    simp only [Res.ok.injEq] at h; obtain ⟨rfl, rfl⟩ := h
    obtain ⟨t, rfl, hg⟩ := ih.exprAny hs
    exact ⟨.lpar :: t ++ [.rpar], by simp, .paren hg⟩
  · simp at h

theorem primNull_step {f} (ih : S f) {toks rest} (h : pPrimary (f + 1) toks = .null rest) :
    rest = toks ∨ ∃ t, toks = .hash :: .lpar :: t ++ rest ∧ G true .unclosed t [] := by
  have lit : pLit f toks = .null rest → (∀ r, toks ≠ .lpar :: r) → rest = toks ∨
      ∃ t, toks = .hash :: .lpar :: t ++ rest ∧ G true .unclosed t [] := by
    intro h1 h2
    rcases ih.litNull h1 with ⟨h', _⟩ | ⟨t, ht | ht, hg⟩
    · exact .inl h'
    · exact .inr ⟨t, ht, hg⟩
    · exact absurd ht (h2 _)
  simp only [pPrimary] at h
  split at h
  · split at h <;> simp at h
  · exact lit h (by simp)
  · exact lit h (by simp)
  · exact lit h (by simp)
  · exact lit h (by simp)
  · exact lit h (by simp)
  · exact lit h (by simp)
  · exact lit h (by simp)
  · exact absurd h ih.blockNull
  · split at h <;> simp at h
  · split at h <;> simp at h
  · simp only [Res.null.injEq] at h
    exact .inl h.symm

theorem pStmts_rbrk (f c r) : pStmts f c (.rbrk :: r) = .out ∨
    pStmts f c (.rbrk :: r) = .ok [] (.rbrk :: r) := by
  rcases f with _ | _ | _ | f
  · left; simp [pStmts]
  · left; cases c <;> simp [pStmts, pExpr]
  · left; cases c <;> simp [pStmts, pExpr, pPrimary]
  · right; cases c <;> simp [pStmts, pExpr, pPrimary]

theorem block_step {f} (ih : S f) {toks e rest} (h : pBlock (f + 1) toks = .ok e rest) :
    ∃ t, toks = t ++ rest ∧ G true .prim (.lbrk :: t) [e] := by
  simp only [pBlock] at h
  split at h <;> try (simp at h; done)
  rename_i vs imp r hh
  split at h <;> try (simp at h; done)
  rename_i ts r1 h1
  split at h <;> try (simp at h; done)
  rename_i es r2 h2
  simp only [Res.ok.injEq] at h; obtain ⟨rfl, rfl⟩ := h
  obtain ⟨t2, rfl, hg⟩ := ih.stmts h2
  rcases pBlockHead_sound hh with ⟨rfl, rfl, rfl⟩ | ⟨v, ws, r', rfl, rfl, rfl, rfl⟩ |
    ⟨v, ws, rfl, rfl, rfl⟩ | ⟨v, ws, s, rfl, rfl, rfl⟩
  · obtain ⟨t1, rfl, ht⟩ := pTemps_sound h1
    exact ⟨t1 ++ t2 ++ [.rbrk], by simp, by simpa using G.block ht hg⟩
  · simp only [pTemps, Bool.false_eq_true, if_false, Res.ok.injEq] at h1
    obtain ⟨rfl, h1⟩ := h1
    have : t2 = [] ∧ r2 = r' ∧ es = [] := by
      rw [← h1] at h2
      rcases pStmts_rbrk f true r' with h3 | h3
      · simp [h3] at h2
      · rw [h3] at h2
        simp only [Res.ok.injEq, List.cons.injEq, true_and] at h2
        obtain ⟨rfl, rfl⟩ := h2
        refine ⟨?_, rfl, rfl⟩
        have := congrArg List.length h1
        simp only [List.length_append, List.length_cons] at this
        exact List.length_eq_zero_iff.1 (by omega)
    obtain ⟨rfl, rfl, rfl⟩ := this
    exact ⟨params (v :: ws) ++ [.rbrk], by simp, .blockParams v ws⟩
  · obtain ⟨t1, rfl, ht⟩ := pTemps_sound h1
    exact ⟨params (v :: ws) ++ .bar :: t1 ++ t2 ++ [.rbrk], by simp, by simpa using G.blockBar v ws ht hg⟩
  · simp only [pTemps, if_true] at h1
    have := pTempsGo_sound h1
    subst this
    refine ⟨params (v :: ws) ++ .binop ('|' :: '|' :: s) :: names ts ++ .bar :: t2 ++ [.rbrk],
      by simp, by simpa using G.blockBars v ws ts s hg (.inr rfl)⟩

theorem blockNull_step {f toks rest} : pBlock (f + 1) toks ≠ .null rest := by
  intro h
  simp only [pBlock] at h
  split at h <;> try (simp at h; done)
  split at h <;> try (simp at h; done)
  split at h <;> simp at h

theorem stmts_step {f} (ih : S f) {c toks es rest} (h : pStmts (f + 1) c toks = .ok es rest) :
    ∃ t, toks = t ++ rest ∧ G true (.stmts c) t es := by
  simp only [pStmts] at h
  split at h
  · split at h <;> try (simp at h; done)
    · rename_i r e r' he
      simp only [Res.ok.injEq] at h; obtain ⟨rfl, rfl⟩ := h
      obtain ⟨t, rfl, hg⟩ := ih.exprAny he
      exact ⟨.caret :: t ++ [.dot], by simp, .stRetDot hg⟩
    · rename_i r e r' _ he
      simp only [Res.ok.injEq] at h; obtain ⟨rfl, rfl⟩ := h
      obtain ⟨t, rfl, hg⟩ := ih.exprAny he
      exact ⟨.caret :: t, by simp, .stRet hg⟩
  · split at h <;> try (simp at h; done)
    · rename_i e r he
      split at h
      · rename_i es' r' hes
        simp only [Res.ok.injEq] at h; obtain ⟨rfl, rfl⟩ := h
        obtain ⟨t, rfl, hg⟩ := ih.exprAny he
        obtain ⟨t', rfl, hg'⟩ := ih.stmts hes
        exact ⟨t ++ .dot :: t', by simp, .stCons hg hg'⟩
      · rename_i hne; exact absurd h (hne _ _)
    · rename_i e r _ he
      simp only [Res.ok.injEq] at h; obtain ⟨rfl, rfl⟩ := h
      obtain ⟨t, rfl, hg⟩ := ih.exprAny he
      exact ⟨t, rfl, .stLast hg⟩
    · rename_i r he
      simp only [Res.ok.injEq] at h; obtain ⟨rfl, rfl⟩ := h
      rcases ih.exprNull he with h' | ⟨t, ht, hg⟩
      · exact ⟨[], by rw [h']; rfl, .stNil⟩
      · exact ⟨.hash :: .lpar :: t, ht, .stUnclosed rfl hg⟩

theorem exprNull_step {f} (ih : S f) {k toks rest} (h : pExpr (f + 1) k toks = .null rest) :
    rest = toks ∨ ∃ t, toks = .hash :: .lpar :: t ++ rest ∧ G true .unclosed t [] := by
  simp only [pExpr] at h
  split at h
  · split at h <;> try (simp at h; done)
    split at h
    · split at h <;> simp at h
    · exact absurd h ih.msgNull
  · split at h <;> try (simp at h; done)
    · exact absurd h ih.msgNull
    · rename_i r hp
      simp only [Res.null.injEq] at h
      subst h
      exact ih.primNull hp

theorem msgNull_step {f} (ih : S f) {k node n toks rest} : pMsg (f + 1) k node n toks ≠ .null rest := by
  intro h
  simp only [pMsg] at h
  split at h
  · exact ih.msgNull h
  · split at h
    · split at h <;> try (simp at h; done)
      exact ih.msgNull h
    · simp at h
  · split at h
    · split at h <;> simp at h
    · simp at h
  · split at h
    · simp at h
    · split at h
      · split at h
        · split at h <;> try (simp at h; done)
          exact ih.msgNull h
        · simp at h
      · simp at h
  · simp at h

/-- How an expression without assignments begins. -/
theorem expr_begin {f} (ih : S f) {k toks e rest} (hk : k.asg = false)
    (h : pExpr (f + 1) k toks = .ok e rest) :
    ∃ t node r, toks = t ++ r ∧ G true (.un false) t [node] ∧
      pMsg f k node false r = .ok e rest := by
  have hk' : k.noAsg = k := by cases k; simp_all [Kind.noAsg]
  simp only [pExpr, hk, hk'] at h
  split at h
  · split at h <;> try (simp at h; done)
    rename_i p r' hp
    obtain ⟨t, ht, hpp⟩ := pPath_sound hp
    exact ⟨t, .var p, r', ht, .unPrim (.var hpp), h⟩
  · split at h <;> try (simp at h; done)
    rename_i e' r hp
    obtain ⟨t, ht, hg⟩ := ih.prim hp
    exact ⟨t, e', r, ht, .unPrim hg, h⟩

theorem exprAny_step {f} (ih : S f) {toks e rest} (h : pExpr (f + 1) anyKind toks = .ok e rest) :
    ∃ t, toks = t ++ rest ∧ G true .expr t [e] := by
  simp only [pExpr] at h
  split at h
  · split at h <;> try (simp at h; done)
    rename_i p r' hp
    obtain ⟨t, ht, hpp⟩ := pPath_sound hp
    split at h
    · split at h <;> try (simp at h; done)
      rename_i e' r3 he
      simp only [Res.ok.injEq] at h; obtain ⟨rfl, rfl⟩ := h
      obtain ⟨t', rfl, hg⟩ := ih.exprAny he
      exact ⟨t ++ .assign :: t', by rw [ht]; simp, .exprAsg hpp hg⟩
    · obtain ⟨t', rfl, hg⟩ := ih.msgAny (.inl (.unPrim (.var hpp))) h
      exact ⟨t ++ t', by rw [ht]; simp, hg⟩
  · split at h <;> try (simp at h; done)
    rename_i e' r hp
    obtain ⟨t, ht, hg⟩ := ih.prim hp
    obtain ⟨t', rfl, hg'⟩ := ih.msgAny (.inl (.unPrim hg)) h
    exact ⟨t ++ t', by rw [ht]; simp, hg'⟩

theorem exprBin_step {f} (ih : S f) {k toks e rest} (h1 : k.asg = false) (h2 : k.casc = false)
    (h3 : k.kw = false) (h4 : k.bin = true) (h : pExpr (f + 1) k toks = .ok e rest) :
    ∃ t n, toks = t ++ rest ∧ G true (.bin k.gt n) t [e] ∧ NotIdent rest ∧ NotOp k.gt rest := by
  obtain ⟨t, node, r, rfl, hg, h⟩ := expr_begin ih h1 h
  obtain ⟨t', m, rfl, hg', h5, h6⟩ := ih.msgBin h1 h2 h3 h4 (.inl hg) h
  exact ⟨t ++ t', m, by simp, hg', h5, h6⟩

theorem exprUn_step {f} (ih : S f) {k toks e rest} (h1 : k.asg = false) (h2 : k.casc = false)
    (h3 : k.kw = false) (h4 : k.bin = false) (h : pExpr (f + 1) k toks = .ok e rest) :
    ∃ t n, toks = t ++ rest ∧ G true (.un n) t [e] ∧ NotIdent rest := by
  obtain ⟨t, node, r, rfl, hg, h⟩ := expr_begin ih h1 h
  obtain ⟨t', m, rfl, hg', h5⟩ := ih.msgUn h2 h3 h4 hg h
  exact ⟨t ++ t', m, by simp, hg', h5⟩

theorem msgUn_step {f} (ih : S f) {k t0 node m n toks e rest} (h2 : k.casc = false)
    (h3 : k.kw = false) (h4 : k.bin = false) (hg : G true (.un m) t0 [node])
    (h : pMsg (f + 1) k node n toks = .ok e rest) :
    ∃ t m', toks = t ++ rest ∧ G true (.un m') (t0 ++ t) [e] ∧ NotIdent rest := by
  have stop : node = e → toks = rest → NotIdent toks →
      ∃ t m', toks = t ++ rest ∧ G true (.un m') (t0 ++ t) [e] ∧ NotIdent rest := by
    rintro rfl rfl hn
    exact ⟨[], m, rfl, by simpa using hg, hn⟩
  simp only [pMsg] at h
  split at h
  · rename_i s r
    obtain ⟨t, m', rfl, hg', hn⟩ := ih.msgUn h2 h3 h4 (.unSend s hg) h
    exact ⟨.ident s :: t, m', rfl, by simpa using hg', hn⟩
  · simp only [h3, Bool.false_eq_true, if_false, Res.ok.injEq] at h
    exact stop h.1 h.2 (by simp [NotIdent])
  · simp only [h2, Bool.and_false, Bool.false_eq_true, if_false, Res.ok.injEq] at h
    exact stop h.1 h.2 (by simp [NotIdent])
  · rename_i t r hi _ _
    have hni : NotIdent (t :: r) := by
      intro s r' he
      simp only [List.cons.injEq] at he
      exact hi s he.1
    simp only [h4, Bool.false_eq_true, if_false] at h
    split at h
    · simp only [Res.ok.injEq] at h; exact stop h.1 h.2 hni
    · split at h <;> (simp only [Res.ok.injEq] at h; exact stop h.1 h.2 hni)
  · simp only [Res.ok.injEq] at h
    exact stop h.1 h.2 (by simp [NotIdent])

theorem msgBin_step {f} (ih : S f) {k t0 node m n toks e rest} (h1 : k.asg = false) (h2 : k.casc = false)
    (h3 : k.kw = false) (h4 : k.bin = true)
    (hg : G true (.un m) t0 [node] ∨ (G true (.bin k.gt m) t0 [node] ∧ NotIdent toks))
    (h : pMsg (f + 1) k node n toks = .ok e rest) :
    ∃ t m', toks = t ++ rest ∧ G true (.bin k.gt m') (t0 ++ t) [e] ∧ NotIdent rest ∧
      NotOp k.gt rest := by
  have hb : G true (.bin k.gt m) t0 [node] := by
    rcases hg with hg | hg
    · exact .binUn hg
    · exact hg.1
  have stop : node = e → toks = rest → NotIdent toks → NotOp k.gt toks →
      ∃ t m', toks = t ++ rest ∧ G true (.bin k.gt m') (t0 ++ t) [e] ∧ NotIdent rest ∧
        NotOp k.gt rest := by
    rintro rfl rfl hn ho
    exact ⟨[], m, rfl, by simpa using hb, hn, ho⟩
  simp only [pMsg] at h
  split at h
  · rename_i s r
    rcases hg with hg | ⟨_, hg⟩
    · obtain ⟨t, m', rfl, hg', hn⟩ := ih.msgBin h1 h2 h3 h4 (.inl (.unSend s hg)) h
      exact ⟨.ident s :: t, m', rfl, by simpa using hg', hn⟩
    · exact absurd rfl (hg _ _)
  · simp only [h3, Bool.false_eq_true, if_false, Res.ok.injEq] at h
    exact stop h.1 h.2 (by simp [NotIdent]) (by rintro _ _ _ ⟨⟩ ⟨⟩)
  · simp only [h2, Bool.and_false, Bool.false_eq_true, if_false, Res.ok.injEq] at h
    exact stop h.1 h.2 (by simp [NotIdent]) (by rintro _ _ _ ⟨⟩ ⟨⟩)
  · rename_i t r hi _ _
    have hni : NotIdent (t :: r) := by
      intro s r' he
      simp only [List.cons.injEq] at he
      exact hi s he.1
    simp only [h4, if_true] at h
    split at h
    · rename_i hgt
      simp only [Res.ok.injEq] at h
      refine stop h.1 h.2 hni ?_
      rintro _ _ _ ⟨⟩ _
      exact hgt
    · rename_i hgt
      split at h
      · rename_i s hs
        split at h <;> try (simp at h; done)
        rename_i a r' ha
        obtain ⟨t1, m1, rfl, hg1, hn1⟩ := ih.exprUn (k := k.binArg) h1 rfl rfl rfl ha
        have hb' : G true (.bin k.gt true) (t0 ++ t :: t1) [.binary node s a] :=
          .binSend hb hs (by
            by_cases ht : t = .gt
            · left; simpa [ht] using hgt
            · exact .inr ht) hg1
        obtain ⟨t2, m2, rfl, hg2, hn2⟩ := ih.msgBin h1 h2 h3 h4 (.inr ⟨hb', hn1⟩) h
        exact ⟨t :: t1 ++ t2, m2, by simp, by simpa using hg2, hn2⟩
      · rename_i hs
        simp only [Res.ok.injEq] at h
        refine stop h.1 h.2 hni ?_
        rintro _ _ _ ⟨⟩ h'
        simp [hs] at h'
  · simp only [Res.ok.injEq] at h
    exact stop h.1 h.2 (by simp [NotIdent]) (by rintro _ _ _ ⟨⟩)


theorem msgAny_step {f} (ih : S f) {t0 node n toks e rest}
    (hg : G true (.un n) t0 [node] ∨ (G true (.bin true n) t0 [node] ∧ NotIdent toks) ∨
      (G true (.msg true) t0 [node] ∧ n = true ∧ NotIdent toks ∧ NotOp true toks ∧ NotKw toks))
    (h : pMsg (f + 1) anyKind.noAsg node n toks = .ok e rest) :
    ∃ t, toks = t ++ rest ∧ G true .expr (t0 ++ t) [e] := by
  have hm : G true (.msg n) t0 [node] := by
    rcases hg with hg | ⟨hg, _⟩ | ⟨hg, rfl, _⟩
    · exact .msgBin (.binUn hg)
    · exact .msgBin hg
    · exact hg
  have stop : node = e → toks = rest → ∃ t, toks = t ++ rest ∧ G true .expr (t0 ++ t) [e] := by
    rintro rfl rfl
    exact ⟨[], rfl, by simpa using G.exprMsg hm⟩
  simp only [pMsg] at h
  split at h
  · rename_i s r
    rcases hg with hg | ⟨_, hg⟩ | ⟨_, _, hg, _⟩
    · obtain ⟨t, rfl, hg'⟩ := ih.msgAny (.inl (.unSend s hg)) h
      exact ⟨.ident s :: t, rfl, by simpa using hg'⟩
    · exact absurd rfl (hg _ _)
    · exact absurd rfl (hg _ _)
  · rename_i s r
    simp only [anyKind, Kind.noAsg, if_true] at h
    split at h <;> try (simp at h; done)
    rename_i as r' hk
    obtain ⟨t, ht, hg1, h1, h2, h3⟩ := ih.keys rfl rfl hk
    have hb : G true (.bin true n) t0 [node] := by
      rcases hg with hg | ⟨hg, _⟩ | ⟨_, _, _, _, hg⟩
      · exact .binUn hg
      · exact hg
      · exact absurd rfl (hg _ _)
    obtain ⟨t', rfl, hg'⟩ := ih.msgAny (.inr (.inr ⟨.msgKw hb hg1, rfl, h1, h2, h3⟩)) h
    exact ⟨t ++ t', by rw [ht]; simp, by simpa using hg'⟩
  · rename_i r
    simp only [anyKind, Kind.noAsg, Bool.and_true] at h
    split at h
    · rename_i hn
      subst hn
      split at h <;> try (simp at h; done)
      rename_i ms r' hc
      simp only [Res.ok.injEq] at h; obtain ⟨rfl, rfl⟩ := h
      obtain ⟨t, ht, hg'⟩ := ih.casc hc
      exact ⟨t, ht, .exprCasc hm hg'⟩
    · simp only [Res.ok.injEq] at h
      exact stop h.1 h.2
  · rename_i t r _ _ _
    simp only [anyKind, Kind.noAsg, Bool.true_eq_false, and_false, if_false, if_true] at h
    split at h
    · rename_i s hs
      split at h <;> try (simp at h; done)
      rename_i a r' ha
      obtain ⟨t1, m1, rfl, hg1, hn1⟩ := ih.exprUn (by rfl) rfl rfl rfl ha
      have hb : G true (.bin true n) t0 [node] := by
        rcases hg with hg | ⟨hg, _⟩ | ⟨_, _, _, hg, _⟩
        · exact .binUn hg
        · exact hg
        · exact absurd (hg _ _ _ rfl hs).2 (by simp)
      have hb' : G true (.bin true true) (t0 ++ t :: t1) [.binary node s a] :=
        .binSend hb hs (.inl rfl) hg1
      obtain ⟨t2, rfl, hg2⟩ := ih.msgAny (.inr (.inl ⟨hb', hn1⟩)) h
      exact ⟨t :: t1 ++ t2, by simp, by simpa using hg2⟩
    · simp only [Res.ok.injEq] at h
      exact stop h.1 h.2
  · simp only [Res.ok.injEq] at h
    exact stop h.1 h.2

theorem keys_step {f} (ih : S f) {k toks as rest} (h1 : k.asg = false) (h4 : k.bin = true)
    (h : pKeys (f + 1) k toks = .ok as rest) :
    ∃ t, toks = t ++ rest ∧ G true (.kws k.gt) t as ∧ NotIdent rest ∧ NotOp k.gt rest ∧
      NotKw rest := by
  simp only [pKeys] at h
  split at h <;> try (simp at h; done)
  rename_i s r
  split at h <;> try (simp at h; done)
  · rename_i a s' r' ha
    obtain ⟨t, n, rfl, hg, h5, h6⟩ := ih.exprBin (k := k.kwArg) h1 rfl rfl h4 ha
    split at h
    · rename_i as' r'' hk
      simp only [Res.ok.injEq] at h; obtain ⟨rfl, rfl⟩ := h
      obtain ⟨t', ht, hg', h7⟩ := ih.keys h1 h4 hk
      exact ⟨.keyword s :: t ++ t', by rw [ht]; simp, .kwsCons hg hg', h7⟩
    · rename_i hne; exact absurd h (hne _ _)
  · rename_i a r' hne ha
    obtain ⟨t, n, rfl, hg, h5, h6⟩ := ih.exprBin (k := k.kwArg) h1 rfl rfl h4 ha
    simp only [Res.ok.injEq] at h; obtain ⟨rfl, rfl⟩ := h
    exact ⟨.keyword s :: t, rfl, .kwsOne hg, h5, h6, fun s r h => hne s r h⟩

theorem cmsg_step {f} (ih : S f) {toks m rest} (h : pCmsg (f + 1) toks = .ok m rest) :
    ∃ t, toks = t ++ rest ∧ G true .cmsg t [m] := by
  simp only [pCmsg] at h
  split at h
  · simp only [Res.ok.injEq] at h; obtain ⟨rfl, rfl⟩ := h
    exact ⟨[.ident _], rfl, .cmsgUn _⟩
  · split at h <;> try (simp at h; done)
    rename_i as r' hk
    simp only [Res.ok.injEq] at h; obtain ⟨rfl, rfl⟩ := h
    obtain ⟨t, ht, hg, _⟩ := ih.keys (by rfl) (by rfl) hk
    exact ⟨t, ht, .cmsgKw hg⟩
  · split at h <;> try (simp at h; done)
    rename_i hs
    split at h <;> try (simp at h; done)
    rename_i a r' ha
    simp only [Res.ok.injEq] at h; obtain ⟨rfl, rfl⟩ := h
    obtain ⟨t1, m1, rfl, hg1, _⟩ := ih.exprUn (by rfl) rfl rfl rfl ha
    exact ⟨_ :: t1, rfl, .cmsgBin hs hg1⟩
  · simp at h

theorem casc_step {f} (ih : S f) {r ms rest} (h : pCasc (f + 1) (.semi :: r) = .ok ms rest) :
    ∃ t, .semi :: r = t ++ rest ∧ G true .cmsgs t ms := by
  simp only [pCasc] at h
  split at h <;> try (simp at h; done)
  rename_i m r' hm
  obtain ⟨t, rfl, hg⟩ := ih.cmsg hm
  split at h
  · rename_i ms' r'' hc
    simp only [Res.ok.injEq] at h; obtain ⟨rfl, rfl⟩ := h
    by_cases hs : ∃ r3, r' = .semi :: r3
    · obtain ⟨r3, rfl⟩ := hs
      obtain ⟨t', ht, hg'⟩ := ih.casc hc
      exact ⟨.semi :: t ++ t', by rw [ht]; simp, .cmsgsCons hg hg'⟩
    · cases f with
      | zero => simp [pCasc] at hc
      | succ f =>
        simp only [pCasc] at hc
        split at hc
        · exact absurd ⟨_, rfl⟩ hs
        · simp only [Res.ok.injEq] at hc; obtain ⟨rfl, rfl⟩ := hc
          exact ⟨.semi :: t, rfl, .cmsgsOne hg⟩
  · rename_i hne; exact absurd h (hne _ _)

/-- Whatever the fuel, what is read has a derivation. -/
theorem sound (f : Nat) : S f := by
  induction f with
  | zero => exact S_zero
  | succ f ih =>
    exact {
      lit := lit_step ih, litNull := litNull_step ih, elts := elts_step ih
      eltsNull := eltsNull_step ih, ctc := ctc_step ih, ctcNull := ctcNull_step
      prim := prim_step ih, primNull := primNull_step ih, block := block_step ih
      blockNull := blockNull_step, stmts := stmts_step ih, exprNull := exprNull_step ih
      exprAny := exprAny_step ih, exprBin := exprBin_step ih, exprUn := exprUn_step ih
      msgNull := msgNull_step ih, msgUn := msgUn_step ih, msgBin := msgBin_step ih
      msgAny := msgAny_step ih, keys := keys_step ih, casc := casc_step ih
      cmsg := cmsg_step ih }

end Verif.Parser
