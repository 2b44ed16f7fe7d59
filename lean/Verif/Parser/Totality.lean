import Verif.Parser.Complete2

/-!
# The reader always ends
-/

namespace Verif.Parser

theorem pPath_out {s toks} : pPath s toks ≠ .out := by
  fun_induction pPath s toks <;> simp_all

theorem pTempsGo_out {toks} : pTempsGo toks ≠ .out := by
  fun_induction pTempsGo toks <;> simp_all

theorem pTemps_out {b toks} : pTemps b toks ≠ .out := by
  unfold pTemps
  split
  · exact pTempsGo_out
  · split
    · exact pTempsGo_out
    · simp

theorem pTemps_len {b toks ts rest} (h : pTemps b toks = .ok ts rest) : rest.length ≤ toks.length := by
  cases b with
  | false =>
    obtain ⟨t, rfl, _⟩ := pTemps_sound h
    simp
  | true =>
    simp only [pTemps, if_true] at h
    rw [pTempsGo_sound h]
    simp; omega

theorem pBlockVars_out {toks} : pBlockVars toks ≠ .out := by
  fun_induction pBlockVars toks <;> simp_all

theorem pBytes_out {toks} : pBytes toks ≠ .out := by
  fun_induction pBytes toks <;> simp_all

theorem pBlockHead_len {toks x rest} (h : pBlockHead toks = .ok x rest) : rest.length ≤ toks.length := by
  obtain ⟨vs, imp⟩ := x
  rcases pBlockHead_sound h with ⟨_, _, rfl⟩ | ⟨v, ws, r', _, _, rfl, rfl⟩ |
    ⟨v, ws, _, _, rfl⟩ | ⟨v, ws, s, _, _, rfl⟩ <;> simp <;> omega

theorem pBytes_null {toks rest} : pBytes toks ≠ .null rest := by
  fun_induction pBytes toks <;> simp_all

/-- With enough fuel no function runs out of it. -/
structure T (f : Nat) : Prop where
  lit : ∀ {toks}, 8 * toks.length + 1 ≤ f → pLit f toks ≠ .out
  elts : ∀ {toks}, 8 * toks.length + 2 ≤ f → pElts f toks ≠ .out
  ctc : ∀ {toks}, 8 * toks.length + 1 ≤ f → pCtc f toks ≠ .out
  prim : ∀ {toks}, 8 * toks.length + 2 ≤ f → pPrimary f toks ≠ .out
  block : ∀ {toks}, 8 * toks.length + 5 ≤ f → pBlock f toks ≠ .out
  stmts : ∀ {c toks}, 8 * toks.length + 4 ≤ f → pStmts f c toks ≠ .out
  expr : ∀ {k toks}, (k = anyKind ∨ (k.asg = false ∧ k.casc = false ∧ k.kw = false)) →
    8 * toks.length + 3 ≤ f → pExpr f k toks ≠ .out
  msg : ∀ {k e n toks}, k.asg = false → (k.kw = true → k.bin = true) →
    8 * toks.length + 2 ≤ f → pMsg f k e n toks ≠ .out
  keys : ∀ {k toks}, k.asg = false → k.bin = true → 8 * toks.length + 1 ≤ f → pKeys f k toks ≠ .out
  casc : ∀ {toks}, 8 * toks.length + 1 ≤ f → pCasc f toks ≠ .out
  cmsg : ∀ {toks}, 8 * toks.length + 2 ≤ f → pCmsg f toks ≠ .out

theorem lit_len {f toks e rest} (h : pLit f toks = .ok e rest) : rest.length < toks.length := by
  obtain ⟨t, rfl, hg, _⟩ := (sound f).lit h
  obtain ⟨a, r, rfl, _⟩ := elt_first hg
  simp; omega

theorem prim_len {f toks e rest} (h : pPrimary f toks = .ok e rest) : rest.length < toks.length := by
  obtain ⟨t, rfl, hg⟩ := (sound f).prim h
  obtain ⟨a, r, rfl, _⟩ := prim_first hg
  simp; omega

theorem stmts_len {f c toks e rest} (h : pStmts f c toks = .ok e rest) : rest.length ≤ toks.length := by
  obtain ⟨t, rfl, hg⟩ := (sound f).stmts h
  simp

theorem expr_len {f k toks e rest} (hk : k = anyKind ∨ (k.asg = false ∧ k.casc = false ∧ k.kw = false))
    (h : pExpr f k toks = .ok e rest) : rest.length < toks.length := by
  rcases hk with rfl | ⟨h1, h2, h3⟩
  · obtain ⟨t, rfl, hg⟩ := (sound f).exprAny h
    obtain ⟨a, r, rfl, _⟩ := expr_first hg
    simp; omega
  · cases h4 : k.bin with
    | false =>
      obtain ⟨t, n, rfl, hg, _⟩ := (sound f).exprUn h1 h2 h3 h4 h
      obtain ⟨a, r, rfl, _⟩ := first hg (.inr (.inl ⟨n, rfl⟩))
      simp; omega
    | true =>
      obtain ⟨t, n, rfl, hg, _⟩ := (sound f).exprBin h1 h2 h3 h4 h
      obtain ⟨a, r, rfl, _⟩ := first hg (.inr (.inr (.inl ⟨_, n, rfl⟩)))
      simp; omega

theorem keys_len {f k toks as rest} (h1 : k.asg = false) (h2 : k.bin = true)
    (h : pKeys f k toks = .ok as rest) : rest.length < toks.length := by
  obtain ⟨t, rfl, hg, _⟩ := (sound f).keys h1 h2 h
  obtain ⟨s, r, rfl⟩ := kws_first hg
  simp; omega

theorem cmsg_len {f toks as rest} (h : pCmsg f toks = .ok as rest) : rest.length ≤ toks.length := by
  obtain ⟨t, rfl, hg⟩ := (sound f).cmsg h
  simp

theorem path_len {s toks p rest} (h : pPath s toks = .ok p rest) : rest.length ≤ toks.length := by
  obtain ⟨t, ht, hp⟩ := pPath_sound h
  obtain ⟨s', t', rfl⟩ := path_first hp
  have := congrArg List.length ht
  simp only [List.length_cons, List.length_append] at this
  omega

theorem T_step {f} (ih : T f) : T (f + 1) := by
  constructor
  · intro toks hf h
    simp only [pLit] at h
    split at h <;> try simp only [List.length_cons] at hf
    · split at h <;> simp at h
    · split at h <;> simp at h
    · simp at h
    · split at h <;> try (simp at h; done)
      exact absurd ‹_› (ih.elts (by omega))
    · split at h <;> try (simp at h; done)
      exact absurd ‹_› pBytes_out
    · split at h <;> simp at h
    · simp at h
    · simp at h
    · simp at h
    · simp at h
    · split at h
      · split at h
        · split at h
          · split at h <;> simp at h
          · simp at h
        · simp at h
      · simp at h
    · exact ih.lit (by simp only [List.length_cons]; omega) h
    · exact ih.lit (by simp only [List.length_cons]; omega) h
    · exact ih.ctc (by omega) h
    · split at h <;> simp at h
    · simp at h
    · simp at h
  · intro toks hf h
    simp only [pElts] at h
    split at h <;> try (simp at h; done)
    split at h <;> try (simp at h; done)
    · rename_i e r he
      have := lit_len he
      split at h
      · simp at h
      · exact ih.elts (by omega) h
    · exact absurd ‹_› (ih.lit (by omega))
  · intro toks hf h
    simp only [pCtc] at h
    split at h <;> try (simp at h; done)
    rename_i r
    split at h <;> try (simp at h; done)
    rename_i ts r1 h1
    have := pTemps_len h1
    simp only [List.length_cons] at hf
    split at h <;> try (simp at h; done)
    exact absurd ‹_› (ih.stmts (by omega))
  · intro toks hf h
    simp only [pPrimary] at h
    split at h
    · split at h <;> simp at h
    · exact ih.lit (by omega) h
    · exact ih.lit (by omega) h
    · exact ih.lit (by omega) h
    · exact ih.lit (by omega) h
    · exact ih.lit (by omega) h
    · exact ih.lit (by omega) h
    · exact ih.lit (by omega) h
    · simp only [List.length_cons] at hf
      exact ih.block (by omega) h
    · simp only [List.length_cons] at hf
      split at h <;> try (simp at h; done)
      exact absurd ‹_› (ih.stmts (by omega))
    · simp only [List.length_cons] at hf
      split at h <;> try (simp at h; done)
      exact absurd ‹_› (ih.expr (.inl rfl) (by omega))
    · simp at h
  · intro toks hf h
    simp only [pBlock] at h
    split at h <;> try (simp at h; done)
    rename_i hh
    have := pBlockHead_len hh
    split at h <;> try (simp at h; done)
    rename_i h1
    have := pTemps_len h1
    split at h <;> try (simp at h; done)
    exact absurd ‹_› (ih.stmts (by omega))
  · intro c toks hf h
    simp only [pStmts] at h
    split at h
    · simp only [List.length_cons] at hf
      split at h <;> try (simp at h; done)
      exact absurd ‹_› (ih.expr (.inl rfl) (by omega))
    · split at h <;> try (simp at h; done)
      · rename_i e r he
        have := expr_len (.inl rfl) he
        simp only [List.length_cons] at this
        split at h
        · simp at h
        · exact ih.stmts (by omega) h
      · exact absurd ‹_› (ih.expr (.inl rfl) (by omega))
  · intro k toks hk hf h
    have hk1 : k.noAsg.kw = true → k.noAsg.bin = true := by
      rcases hk with rfl | ⟨_, _, h3⟩
      · intro; rfl
      · simp [Kind.noAsg, h3]
    simp only [pExpr] at h
    split at h
    · simp only [List.length_cons] at hf
      split at h <;> try (simp at h; done)
      rename_i p r' hp
      have := path_len hp
      split at h
      · simp only [List.length_cons] at this
        split at h <;> try (simp at h; done)
        exact absurd ‹_› (ih.expr hk (by omega))
      · exact ih.msg rfl hk1 (by omega) h
    · split at h <;> try (simp at h; done)
      · rename_i e r hp
        have := prim_len hp
        exact ih.msg rfl hk1 (by omega) h
      · exact absurd ‹_› (ih.prim (by omega))
  · intro k e n toks h1 h2 hf h
    simp only [pMsg] at h
    split at h <;> try simp only [List.length_cons] at hf
    · exact ih.msg h1 h2 (by omega) h
    · split at h <;> try (simp at h; done)
      rename_i hk
      split at h <;> try (simp at h; done)
      · rename_i hks
        have := keys_len h1 (h2 hk) hks
        simp only [List.length_cons] at this
        exact ih.msg h1 h2 (by omega) h
      · exact absurd ‹_› (ih.keys h1 (h2 hk) (by simp only [List.length_cons]; omega))
    · split at h <;> try (simp at h; done)
      split at h <;> try (simp at h; done)
      exact absurd ‹_› (ih.casc (by simp only [List.length_cons]; omega))
    · split at h
      · simp at h
      · split at h <;> try (simp at h; done)
        split at h <;> try (simp at h; done)
        split at h <;> try (simp at h; done)
        · rename_i ha
          have := expr_len (k := k.binArg) (.inr ⟨h1, rfl, rfl⟩) ha
          exact ih.msg h1 h2 (by omega) h
        · exact absurd ‹_› (ih.expr (k := k.binArg) (.inr ⟨h1, rfl, rfl⟩) (by omega))
    · simp at h
  · intro k toks h1 h2 hf h
    simp only [pKeys] at h
    split at h <;> try (simp at h; done)
    simp only [List.length_cons] at hf
    split at h <;> try (simp at h; done)
    · rename_i ha
      have := expr_len (k := k.kwArg) (.inr ⟨h1, rfl, rfl⟩) ha
      split at h
      · simp at h
      · exact ih.keys h1 h2 (by omega) h
    · exact absurd ‹_› (ih.expr (k := k.kwArg) (.inr ⟨h1, rfl, rfl⟩) (by omega))
  · intro toks hf h
    simp only [pCasc] at h
    split at h <;> try (simp at h; done)
    simp only [List.length_cons] at hf
    split at h <;> try (simp at h; done)
    · rename_i hm
      have := cmsg_len hm
      split at h
      · simp at h
      · exact ih.casc (by omega) h
    · exact absurd ‹_› (ih.cmsg (by omega))
  · intro toks hf h
    simp only [pCmsg] at h
    split at h <;> try (simp at h; done)
    · split at h <;> try (simp at h; done)
      exact absurd ‹_› (ih.keys rfl rfl (by omega))
    · simp only [List.length_cons] at hf
      split at h <;> try (simp at h; done)
      split at h <;> try (simp at h; done)
      exact absurd ‹_› (ih.expr (.inr ⟨rfl, rfl, rfl⟩) (by omega))

theorem total (f : Nat) : T f := by
  induction f with
  | zero => constructor <;> intros <;> omega
  | succ f ih => exact T_step ih

end Verif.Parser
