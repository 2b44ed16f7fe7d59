import Verif.Parser.Sound3

/-!
# The reader finds every derivation of the grammar
-/

namespace Verif.Parser

/-- The tokens cannot extend a primary. -/
def OkAfter (r : List Tok) : Prop :=
  (∀ r', r ≠ .scope :: r') ∧ (∀ r', r ≠ .assign :: r') ∧ ∀ v r', r ≠ .int v :: r'

/-- The tokens do not begin with a semicolon. -/
def NotSemi (r : List Tok) : Prop := ∀ r', r ≠ .semi :: r'

/-- The tokens cannot extend a message. -/
def Ends (g : Bool) (r : List Tok) : Prop := OkAfter r ∧ NotIdent r ∧ NotOp g r ∧ NotKw r

/-- The end, or a closing bracket. -/
inductive Closer : List Tok → Prop where
  | nil : Closer []
  | rpar (r) : Closer (.rpar :: r)
  | rbrk (r) : Closer (.rbrk :: r)
  | rbrace (r) : Closer (.rbrace :: r)

/-- Any token that neither extends a message nor is a semicolon. -/
def EndTok (t : Tok) : Prop :=
  t = .rpar ∨ t = .rbrk ∨ t = .rbrace ∨ t = .dot

theorem ends_of {t r} (h : EndTok t) : Ends true (t :: r) ∧ NotSemi (t :: r) := by
  rcases h with rfl | rfl | rfl | rfl <;>
    (refine ⟨⟨⟨by simp, by simp, by simp⟩, by simp [NotIdent], ?_, by simp [NotKw]⟩, by simp [NotSemi]⟩
     rintro _ _ _ ⟨⟩ ⟨⟩)

theorem ends_nil : Ends true [] ∧ NotSemi [] := by
  refine ⟨⟨⟨by simp, by simp, by simp⟩, by simp [NotIdent], ?_, by simp [NotKw]⟩, by simp [NotSemi]⟩
  rintro _ _ _ ⟨⟩

theorem ends_closer {r} (h : Closer r) : Ends true r ∧ NotSemi r := by
  cases h with
  | nil => exact ends_nil
  | rpar r => exact ends_of (.inl rfl)
  | rbrk r => exact ends_of (.inr (.inl rfl))
  | rbrace r => exact ends_of (.inr (.inr (.inl rfl)))

theorem ends_semi (r) : Ends true (.semi :: r) := by
  refine ⟨⟨by simp, by simp, by simp⟩, by simp [NotIdent], ?_, by simp [NotKw]⟩
  rintro _ _ _ ⟨⟩ ⟨⟩

theorem pPath_complete {t p} (h : IsPath t p) : ∃ s t', t = .ident s :: t' ∧
    ∀ rest, OkAfter rest ∨ (∃ r, rest = .assign :: r) → pPath s (t' ++ rest) = .ok p rest := by
  induction h with
  | one s =>
    refine ⟨s, [], rfl, ?_⟩
    intro rest hr
    rw [List.nil_append, pPath.eq_def]
    split
    · rename_i t r
      rcases hr with h | ⟨r, h⟩
      · exact absurd rfl (h.1 _)
      · simp at h
    · rename_i r _
      rcases hr with h | ⟨r, h⟩
      · exact absurd rfl (h.1 _)
      · simp at h
    · rfl
  | @more s u q hu ih =>
    obtain ⟨s', t', rfl, h'⟩ := ih
    refine ⟨s, .scope :: .ident s' :: t', rfl, ?_⟩
    intro rest hr
    simp only [List.cons_append, pPath, h' rest hr]

theorem path_first {t p} (h : IsPath t p) : ∃ s t', t = .ident s :: t' := by
  cases h with
  | one s => exact ⟨s, [], rfl⟩
  | more s h => exact ⟨s, _, rfl⟩

theorem pTempsGo_complete (ns rest) : pTempsGo (names ns ++ .bar :: rest) = .ok ns rest := by
  induction ns with
  | nil => rfl
  | cons n ns ih =>
    have : names (n :: ns) ++ .bar :: rest = .ident n :: (names ns ++ .bar :: rest) := rfl
    rw [this, pTempsGo, ih]

theorem pTemps_complete {t ts} (h : IsTemps t ts) {rest} (hr : ∀ r, rest ≠ .bar :: r) :
    pTemps false (t ++ rest) = .ok ts rest := by
  cases h with
  | none =>
    unfold pTemps
    simp only [Bool.false_eq_true, if_false, List.nil_append]
  | some =>
    unfold pTemps
    simp only [Bool.false_eq_true, if_false, List.cons_append, List.append_assoc, List.nil_append]
    exact pTempsGo_complete ts rest

theorem pBlockVars_complete (ns) {rest} (hr : ∀ r, rest ≠ .colon :: r) :
    pBlockVars (params ns ++ rest) = .ok ns rest := by
  induction ns with
  | nil =>
    simp only [params, List.flatMap_nil, List.nil_append]
    rw [pBlockVars.eq_def]
    split
    · exact absurd rfl (hr _)
    · exact absurd rfl (hr _)
    · rfl
  | cons n ns ih =>
    have : params (n :: ns) ++ rest = .colon :: .ident n :: (params ns ++ rest) := rfl
    rw [this, pBlockVars, ih]

theorem pBytes_complete (vs : List Int) (h : ∀ v ∈ vs, 0 ≤ v ∧ v ≤ 255) (rest) :
    pBytes (vs.map .int ++ .rbrk :: rest) = .ok vs rest := by
  induction vs with
  | nil => rfl
  | cons v vs ih =>
    have hv := h v (by simp)
    rw [List.map_cons, List.cons_append, pBytes, ih (fun w hw => h w (by simp [hw]))]
    rw [if_neg (by omega)]

theorem pMsg_stop {g k e n rest} (hg : 1 ≤ g) (h1 : NotIdent rest) (h2 : k.bin = true → NotOp k.gt rest)
    (h3 : k.kw = true → NotKw rest) (h4 : k.casc = true → n = true → NotSemi rest) :
    pMsg g k e n rest = .ok e rest := by
  obtain ⟨g, rfl⟩ : ∃ g', g = g' + 1 := ⟨g - 1, by omega⟩
  simp only [pMsg]
  split
  · exact absurd rfl (h1 _ _)
  · split
    · rename_i hk; exact absurd rfl (h3 hk _ _)
    · rfl
  · split
    · rename_i hk
      simp only [Bool.and_eq_true] at hk
      exact absurd rfl (h4 hk.2 hk.1 _)
    · rfl
  · split
    · rfl
    · rename_i t r _ _ _ hgt
      split
      · rename_i s hs
        split
        · rename_i hb
          exact absurd (h2 hb t r s rfl hs) hgt
        · rfl
      · rfl
  · rfl

/-- What completeness says about each nonterminal. -/
def Cpl : NT → List Tok → List Ex → Prop
  | .lit, t, es => ∃ e, es = [e] ∧ ∀ rest f,
      (∀ v r, t = [.chr 60] → rest = .int v :: r → v < 0) → 8 * (t ++ rest).length + 1 ≤ f →
      pLit f (t ++ rest) = .ok e rest ∧ pPrimary (f + 1) (t ++ rest) = .ok e rest
  | .elt, t, es => ∃ e, es = [e] ∧ ∀ rest f,
      (∀ v r, t = [.chr 60] → rest = .int v :: r → v < 0) → 8 * (t ++ rest).length + 1 ≤ f →
      pLit f (t ++ rest) = .ok e rest
  | .elts, t, es => ∀ rest f, 8 * (t ++ .rpar :: rest).length + 2 ≤ f →
      pElts f (t ++ .rpar :: rest) = .ok es rest
  | .unclosed, _, _ => True
  | .prim, t, es => ∃ e, es = [e] ∧ ∀ k rest f, OkAfter rest → 8 * (t ++ rest).length + 3 ≤ f →
      ∃ g, 8 * rest.length + 2 ≤ g ∧ pExpr f k (t ++ rest) = pMsg g k.noAsg e false rest
  | .un n, t, es => ∃ e, es = [e] ∧ ∀ k rest f, OkAfter rest → 8 * (t ++ rest).length + 3 ≤ f →
      ∃ g, 8 * rest.length + 2 ≤ g ∧ pExpr f k (t ++ rest) = pMsg g k.noAsg e n rest
  | .bin gt n, t, es => ∃ e, es = [e] ∧ ∀ k rest f, k.bin = true → (gt = true → k.gt = true) →
      OkAfter rest → NotIdent rest → 8 * (t ++ rest).length + 3 ≤ f →
      ∃ g, 8 * rest.length + 2 ≤ g ∧ pExpr f k (t ++ rest) = pMsg g k.noAsg e n rest
  | .msg n, t, es => ∃ e, es = [e] ∧ ∀ rest f, Ends true rest →
      8 * (t ++ rest).length + 3 ≤ f →
      ∃ g, 8 * rest.length + 2 ≤ g ∧ pExpr f anyKind (t ++ rest) = pMsg g anyKind.noAsg e n rest
  | .kws gt, t, es => ∀ k rest f, k.asg = false → k.bin = true → (gt = true → k.gt = true) →
      Ends k.gt rest → 8 * (t ++ rest).length + 1 ≤ f → pKeys f k (t ++ rest) = .ok es rest
  | .cmsg, t, es => ∃ e, es = [e] ∧ ∀ rest f, Ends true rest → 8 * (t ++ rest).length + 2 ≤ f →
      pCmsg f (t ++ rest) = .ok e rest
  | .cmsgs, t, es => ∀ rest f, Ends true rest → NotSemi rest → 8 * (t ++ rest).length + 1 ≤ f →
      pCasc f (t ++ rest) = .ok es rest
  | .expr, t, es => ∃ e, es = [e] ∧ ∀ rest f, Ends true rest → NotSemi rest →
      8 * (t ++ rest).length + 3 ≤ f → pExpr f anyKind (t ++ rest) = .ok e rest
  | .stmts c, t, es => ∀ rest f, Closer rest → 8 * (t ++ rest).length + 4 ≤ f →
      pStmts f c (t ++ rest) = .ok es rest

theorem elt_first {l t es} (h : G l .elt t es) : ∃ a r, t = a :: r ∧ a ≠ .rpar := by
  cases h with
  | eltLit h => cases h <;> exact ⟨_, _, rfl, by simp⟩
  | eltArr h => exact ⟨_, _, rfl, by simp⟩
  | eltBytes _ h => exact ⟨_, _, rfl, by simp⟩
  | eltTrue => exact ⟨_, _, rfl, by simp⟩
  | eltFalse => exact ⟨_, _, rfl, by simp⟩
  | eltNil => exact ⟨_, _, rfl, by simp⟩

theorem kws_first {l g t es} (h : G l (.kws g) t es) : ∃ s r, t = .keyword s :: r := by
  cases h with
  | kwsOne h => exact ⟨_, _, rfl⟩
  | kwsCons h h' => exact ⟨_, _, rfl⟩

theorem cmsgs_first {l t es} (h : G l .cmsgs t es) : ∃ r, t = .semi :: r := by
  cases h with
  | cmsgsOne h => exact ⟨_, rfl⟩
  | cmsgsCons h h' => exact ⟨_, rfl⟩

/-- Tokens that can begin a primary. -/
def PrimTok : Tok → Bool
  | .ident _ | .str _ | .sym _ | .int _ | .num _ _ | .chr _ | .hash | .minus
  | .lbrk | .lbrace | .lpar => true
  | _ => false

theorem prim_first {l t es} (h : G l .prim t es) : ∃ a r, t = a :: r ∧ PrimTok a = true := by
  cases h with
  | var h => obtain ⟨s, t', rfl⟩ := path_first h; exact ⟨_, _, rfl, rfl⟩
  | primLit h => cases h <;> exact ⟨_, _, rfl, rfl⟩
  | paren h => exact ⟨_, _, rfl, rfl⟩
  | brace h => exact ⟨_, _, rfl, rfl⟩
  | block h h' => exact ⟨_, _, rfl, rfl⟩
  | blockParams => exact ⟨_, _, rfl, rfl⟩
  | blockBar => exact ⟨_, _, rfl, rfl⟩
  | blockBars => exact ⟨_, _, rfl, rfl⟩

theorem first {l nt t es} (h : G l nt t es)
    (hn : nt = .prim ∨ (∃ n, nt = .un n) ∨ (∃ g n, nt = .bin g n) ∨ (∃ n, nt = .msg n) ∨ nt = .expr) :
    ∃ a r, t = a :: r ∧ PrimTok a = true := by
  induction h with
  | var h => exact prim_first (l := l) (.var h)
  | primLit h _ => exact prim_first (l := l) (.primLit h)
  | paren h _ => exact ⟨_, _, rfl, rfl⟩
  | brace h => exact ⟨_, _, rfl, rfl⟩
  | block h h' => exact ⟨_, _, rfl, rfl⟩
  | blockParams => exact ⟨_, _, rfl, rfl⟩
  | blockBar => exact ⟨_, _, rfl, rfl⟩
  | blockBars => exact ⟨_, _, rfl, rfl⟩
  | unPrim h ih => exact ih (.inl rfl)
  | unSend s h ih =>
    obtain ⟨a, r, rfl, h'⟩ := ih (.inr (.inl ⟨_, rfl⟩)); exact ⟨_, _, rfl, h'⟩
  | binUn h ih => exact ih (.inr (.inl ⟨_, rfl⟩))
  | binSend h1 h2 h3 h4 ih _ =>
    obtain ⟨a, r, rfl, h'⟩ := ih (.inr (.inr (.inl ⟨_, _, rfl⟩))); exact ⟨_, _, rfl, h'⟩
  | msgBin h ih => exact ih (.inr (.inr (.inl ⟨_, _, rfl⟩)))
  | msgKw h1 h2 ih _ =>
    obtain ⟨a, r, rfl, h'⟩ := ih (.inr (.inr (.inl ⟨_, _, rfl⟩))); exact ⟨_, _, rfl, h'⟩
  | exprMsg h ih => exact ih (.inr (.inr (.inr (.inl ⟨_, rfl⟩))))
  | exprCasc h1 h2 ih _ =>
    obtain ⟨a, r, rfl, h'⟩ := ih (.inr (.inr (.inr (.inl ⟨_, rfl⟩)))); exact ⟨_, _, rfl, h'⟩
  | exprAsg h1 h2 _ => obtain ⟨s, t', rfl⟩ := path_first h1; exact ⟨_, _, rfl, rfl⟩
  | _ => simp at hn

theorem expr_first {l t es} (h : G l .expr t es) : ∃ a r, t = a :: r ∧ PrimTok a = true :=
  first h (by simp)

/-- Statements do not begin with a bar. -/
theorem stmts_not_bar {c t es rest} (h : G false (.stmts c) t es) (hr : Closer rest) :
    (∀ r, t ++ rest ≠ .bar :: r) ∧ ∀ r, t ++ rest ≠ .colon :: r := by
  have key : ∀ a r, t = a :: r → a ≠ .bar ∧ a ≠ .colon →
      (∀ r, t ++ rest ≠ .bar :: r) ∧ ∀ r, t ++ rest ≠ .colon :: r := by
    rintro a r rfl ⟨h1, h2⟩
    constructor <;> (intro r h; simp only [List.cons_append, List.cons.injEq] at h)
    · exact h1 h.1
    · exact h2 h.1
  have nb : ∀ a, PrimTok a = true → a ≠ .bar ∧ a ≠ .colon := by
    rintro a h; constructor <;> (rintro rfl; simp [PrimTok] at h)
  cases h with
  | stNil => cases hr <;> simp
  | stLast h => obtain ⟨a, r, rfl, h'⟩ := expr_first h; exact key a _ rfl (nb a h')
  | stCons h _ => obtain ⟨a, r, rfl, h'⟩ := expr_first h; exact key a _ rfl (nb a h')
  | stRet => exact key _ _ rfl (by simp)
  | stRetDot => exact key _ _ rfl (by simp)
  | stUnclosed h => simp at h

theorem stmts_first {c t es} (h : G false (.stmts c) t es) :
    t = [] ∨ ∃ a r, t = a :: r ∧ (PrimTok a = true ∨ a = .caret) := by
  cases h with
  | stNil => exact .inl rfl
  | stLast h => obtain ⟨a, r, rfl, h'⟩ := expr_first h; exact .inr ⟨_, _, rfl, .inl h'⟩
  | stCons h _ => obtain ⟨a, r, rfl, h'⟩ := expr_first h; exact .inr ⟨_, _, rfl, .inl h'⟩
  | stRet => exact .inr ⟨_, _, rfl, .inr rfl⟩
  | stRetDot => exact .inr ⟨_, _, rfl, .inr rfl⟩
  | stUnclosed h => simp at h

end Verif.Parser
