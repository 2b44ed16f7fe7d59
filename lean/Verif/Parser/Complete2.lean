import Verif.Parser.Complete

/-!
# The reader finds every derivation of the grammar: the induction
-/

namespace Verif.Parser

theorem isBuiltin_iff {s : Name} (h : s = "true".toList ∨ s = "false".toList ∨ s = "nil".toList) :
    isBuiltin s = true := by
  rcases h with rfl | rfl | rfl <;> rfl

theorem noAsg_idem (k : Kind) : k.noAsg.noAsg = k.noAsg := rfl

/-- A literal as the beginning of an expression. -/
theorem expr_of_prim {t rest e f k} (ha : ∀ a r, t ++ rest = a :: r → ∀ s, a ≠ .ident s)
    (h : pPrimary f (t ++ rest) = .ok e rest) :
    pExpr (f + 1) k (t ++ rest) = pMsg f k.noAsg e false rest := by
  rw [pExpr.eq_def]
  dsimp only
  split
  · rename_i s r heq; exact absurd rfl (ha _ _ heq s)
  · rw [h]

theorem complete {nt t es} (h : G false nt t es) : Cpl nt t es := by
  have lit1 : ∀ (t : List Tok) (e : Ex), (∀ rest f, 
      (∀ v r, t = [.chr 60] → rest = .int v :: r → v < 0) → 8 * (t ++ rest).length + 1 ≤ f →
      pLit f (t ++ rest) = .ok e rest) →
      (∃ a r, t = a :: r ∧ (match a with
        | .str _ | .sym _ | .int _ | .num _ _ | .chr _ | .hash | .minus => True | _ => False)) →
      Cpl .lit t [e] := by
    rintro t e h ⟨a, r, rfl, ha⟩
    refine ⟨e, rfl, fun rest f h1 h2 => ⟨h rest f h1 h2, ?_⟩⟩
    rw [← h rest f h1 h2, List.cons_append, pPrimary.eq_def]
    dsimp only
    cases a <;> first | rfl | simp at ha
  have prim1 : ∀ (t : List Tok) (e : Ex), (∀ rest f, 8 * (t ++ rest).length + 2 ≤ f →
      pPrimary f (t ++ rest) = .ok e rest) → (∃ a r, t = a :: r ∧ ∀ s, a ≠ .ident s) →
      Cpl .prim t [e] := by
    rintro t e h ⟨a, r, rfl, ha⟩
    refine ⟨e, rfl, fun k rest f h1 h2 => ?_⟩
    obtain ⟨f, rfl⟩ : ∃ f', f = f' + 1 := ⟨f - 1, by omega⟩
    refine ⟨f, ?_, expr_of_prim ?_ (h rest f (by omega))⟩
    · simp only [List.length_append, List.length_cons] at h2; omega
    · rintro a' r' he
      simp only [List.cons_append, List.cons.injEq] at he
      rw [← he.1]; exact ha
  have succ : ∀ {f n : Nat}, n + 1 ≤ f → ∃ f', f = f' + 1 ∧ n ≤ f' :=
    fun {f n} h => ⟨f - 1, by omega, by omega⟩
  induction h with
  | int v =>
    refine lit1 _ _ (fun rest f _ hf => ?_) ⟨_, _, rfl, trivial⟩
    obtain ⟨f, rfl, _⟩ := succ hf; rfl
  | num i n =>
    refine lit1 _ _ (fun rest f _ hf => ?_) ⟨_, _, rfl, trivial⟩
    obtain ⟨f, rfl, _⟩ := succ hf; rfl
  | negInt v hv =>
    refine lit1 _ _ (fun rest f _ hf => ?_) ⟨_, _, rfl, trivial⟩
    obtain ⟨f, rfl, _⟩ := succ hf
    simp only [List.cons_append, List.nil_append, pLit]
    rw [if_neg (by omega)]
  | negNum i =>
    refine lit1 _ _ (fun rest f _ hf => ?_) ⟨_, _, rfl, trivial⟩
    obtain ⟨f, rfl, _⟩ := succ hf; rfl
  | str s =>
    refine lit1 _ _ (fun rest f _ hf => ?_) ⟨_, _, rfl, trivial⟩
    obtain ⟨f, rfl, _⟩ := succ hf; rfl
  | sym s =>
    refine lit1 _ _ (fun rest f _ hf => ?_) ⟨_, _, rfl, trivial⟩
    obtain ⟨f, rfl, _⟩ := succ hf; rfl
  | chr c =>
    refine lit1 _ _ (fun rest f hc hf => ?_) ⟨_, _, rfl, trivial⟩
    obtain ⟨f, rfl, _⟩ := succ hf
    rw [pLit.eq_def]
    dsimp only [List.cons_append, List.nil_append]
    cases rest with
    | nil => rfl
    | cons a r =>
      cases a with
      | int v =>
        dsimp only
        rw [if_neg]
        rintro ⟨rfl, h0⟩
        have := hc v r rfl rfl
        omega
      | _ => rfl
  | code v h0 h1 =>
    refine lit1 _ _ (fun rest f hc hf => ?_) ⟨_, _, rfl, trivial⟩
    obtain ⟨f, rfl, _⟩ := succ hf
    simp only [List.cons_append, List.nil_append, pLit]
    have he : asInt v = v := by unfold asInt; omega
    rw [if_pos ⟨trivial, h0⟩, he, if_neg (by omega)]
  | @arrLit t es h ih =>
    refine lit1 _ _ (fun rest f hc hf => ?_) ⟨_, _, rfl, trivial⟩
    simp only [List.length_append, List.length_cons, List.length_nil] at hf
    obtain ⟨f, rfl, hf⟩ := succ hf
    obtain ⟨f, rfl, hf⟩ := succ (f := f) (n := 8 * (t.length + 1 + rest.length) + 2) (by omega)
    have := ih rest f (by simp only [List.length_append, List.length_cons]; omega)
    simp only [List.cons_append, List.append_assoc, List.nil_append, pLit, this]
  | bytes vs hv =>
    refine lit1 _ _ (fun rest f hc hf => ?_) ⟨_, _, rfl, trivial⟩
    simp only [List.length_append, List.length_cons, List.length_nil] at hf
    obtain ⟨f, rfl, hf⟩ := succ hf
    obtain ⟨f, rfl, hf⟩ := succ (f := f) (n := 1) (by omega)
    have := pBytes_complete vs hv rest
    simp only [List.cons_append, List.append_assoc, List.nil_append, pLit, this]
  | @binding t p hp =>
    refine lit1 _ _ (fun rest f hc hf => ?_) ⟨_, _, rfl, trivial⟩
    obtain ⟨f, rfl, hf⟩ := succ hf
    obtain ⟨s, t', rfl, hp'⟩ := pPath_complete hp
    have := hp' (.rbrace :: rest) (.inl (ends_of (.inr (.inr (.inl rfl)))).1.1)
    simp only [List.cons_append, List.append_assoc, List.nil_append, pLit, this]
  | @ctc t1 ts t2 es ht hg ih =>
    refine lit1 _ _ (fun rest f hc hf => ?_) ⟨_, _, rfl, trivial⟩
    simp only [List.length_append, List.length_cons, List.length_nil] at hf
    obtain ⟨f, rfl, hf⟩ := succ hf
    obtain ⟨f, rfl, hf⟩ := succ (f := f) (n := 8 * (t2.length + 1 + rest.length) + 4) (by omega)
    have h1 := pTemps_complete ht (rest := t2 ++ .rpar :: rest) (stmts_not_bar hg (.rpar _)).1
    have h2 := ih (.rpar :: rest) f (.rpar _) (by
      simp only [List.length_append, List.length_cons]; omega)
    simp only [List.cons_append, List.append_assoc, List.nil_append, pLit, pCtc, h1, h2]
  | eltLit h ih =>
    obtain ⟨e, he, ih⟩ := ih
    exact ⟨e, he, fun rest f h1 h2 => (ih rest f h1 h2).1⟩
  | @eltArr t es h ih =>
    refine ⟨_, rfl, fun rest f _ hf => ?_⟩
    simp only [List.length_append, List.length_cons, List.length_nil] at hf
    obtain ⟨f, rfl, hf⟩ := succ hf
    have := ih rest f (by simp only [List.length_append, List.length_cons]; omega)
    simp only [List.cons_append, List.append_assoc, List.nil_append, pLit, this]
  | eltBytes vs hv =>
    refine ⟨_, rfl, fun rest f _ hf => ?_⟩
    obtain ⟨f, rfl, hf⟩ := succ hf
    have := pBytes_complete vs hv rest
    simp only [List.cons_append, List.append_assoc, List.nil_append, pLit, this]
  | eltTrue =>
    refine ⟨_, rfl, fun rest f _ hf => ?_⟩
    obtain ⟨f, rfl, hf⟩ := succ hf; rfl
  | eltFalse =>
    refine ⟨_, rfl, fun rest f _ hf => ?_⟩
    obtain ⟨f, rfl, hf⟩ := succ hf; rfl
  | eltNil =>
    refine ⟨_, rfl, fun rest f _ hf => ?_⟩
    obtain ⟨f, rfl, hf⟩ := succ hf; rfl
  | eltsNil =>
    intro rest f hf
    obtain ⟨f, rfl, hf⟩ := succ (n := 0) (f := f) (by omega); rfl
  | @eltsCons t e t' es h h' hc ih ih' =>
    intro rest f hf
    obtain ⟨e', he, ih⟩ := ih
    simp only [List.cons.injEq, and_true] at he
    subst he
    obtain ⟨a, r, rfl, ha⟩ := elt_first h
    simp only [List.length_append, List.length_cons] at hf
    obtain ⟨f, rfl, hf⟩ := succ hf
    have h1 := ih (t' ++ .rpar :: rest) f (by
      intro v r' e1 e2
      cases t' with
      | nil => simp at e2
      | cons x t' =>
        simp only [List.cons_append, List.cons.injEq] at e2
        exact hc v t' e1 (by rw [e2.1])) (by simp only [List.length_append, List.length_cons]; omega)
    have h2 := ih' rest f (by simp only [List.length_append, List.length_cons]; omega)
    simp only [List.cons_append, List.append_assoc] at h1 ⊢
    rw [pElts.eq_def]
    dsimp only
    split
    · rename_i heq; simp at heq
    · rename_i heq; simp only [List.cons.injEq] at heq; exact absurd heq.1 ha
    · rw [h1]; simp only; rw [h2]
  | unclosed => trivial
  | unclosedParen => trivial
  | unclosedHash => trivial
  | @var t p hp =>
    obtain ⟨s, t', rfl, hp'⟩ := pPath_complete hp
    refine ⟨_, rfl, fun k rest f h1 h2 => ?_⟩
    simp only [List.length_append, List.length_cons] at h2
    obtain ⟨f, rfl, hf⟩ := succ h2
    refine ⟨f, by omega, ?_⟩
    simp only [List.cons_append, pExpr, hp' rest (.inl h1)]
    split
    · exact absurd rfl (h1.2.1 _)
    · rfl
  | @primLit t e h ih =>
    obtain ⟨e', he, ih⟩ := ih
    simp only [List.cons.injEq, and_true] at he
    subst he
    refine ⟨_, rfl, fun k rest f h1 h2 => ?_⟩
    have hl : ∃ a r, t = a :: r ∧ ∀ s, a ≠ .ident s := by
      cases h <;> exact ⟨_, _, rfl, by simp⟩
    obtain ⟨a, r, rfl, ha⟩ := hl
    simp only [List.length_append, List.length_cons] at h2
    obtain ⟨f, rfl, hf⟩ := succ h2
    obtain ⟨f, rfl, hf⟩ := succ hf
    refine ⟨f + 1, by omega, expr_of_prim ?_ (ih rest f ?_ ?_).2⟩
    · rintro a' r' he
      simp only [List.cons_append, List.cons.injEq] at he
      rw [← he.1]; exact ha
    · intro v r _ hr; exact absurd hr (h1.2.2 _ _)
    · simp only [List.length_append, List.length_cons]; omega
  | @paren t e h ih =>
    obtain ⟨e', he, ih⟩ := ih
    simp only [List.cons.injEq, and_true] at he
    subst he
    refine prim1 _ _ (fun rest f hf => ?_) ⟨_, _, rfl, by simp⟩
    simp only [List.length_append, List.length_cons, List.length_nil] at hf
    obtain ⟨f, rfl, hf⟩ := succ hf
    have he := ends_of (t := .rpar) (r := rest) (.inl rfl)
    have := ih (.rpar :: rest) f he.1 he.2 (by simp only [List.length_append, List.length_cons]; omega)
    simp only [List.cons_append, List.append_assoc, List.nil_append, pPrimary, this]
  | @brace t es h ih =>
    refine prim1 _ _ (fun rest f hf => ?_) ⟨_, _, rfl, by simp⟩
    simp only [List.length_append, List.length_cons, List.length_nil] at hf
    obtain ⟨f, rfl, hf⟩ := succ hf
    have := ih (.rbrace :: rest) f (.rbrace _) (by simp only [List.length_append, List.length_cons]; omega)
    simp only [List.cons_append, List.append_assoc, List.nil_append, pPrimary, this]
  | @block t1 ts t2 es ht hg ih =>
    refine prim1 _ _ (fun rest f hf => ?_) ⟨_, _, rfl, by simp⟩
    simp only [List.length_append, List.length_cons, List.length_nil] at hf
    obtain ⟨f, rfl, hf⟩ := succ hf
    obtain ⟨f, rfl, hf⟩ := succ (f := f) (n := 8 * (t2.length + 1 + rest.length) + 4) (by omega)
    have h1 := pTemps_complete ht (rest := t2 ++ .rbrk :: rest) (stmts_not_bar hg (.rbrk _)).1
    have h2 := ih (.rbrk :: rest) f (.rbrk _) (by
      simp only [List.length_append, List.length_cons]; omega)
    have h0 : pBlockHead (t1 ++ (t2 ++ .rbrk :: rest)) = .ok ([], false) (t1 ++ (t2 ++ .rbrk :: rest)) := by
      unfold pBlockHead
      split
      · rename_i r heq
        exfalso
        cases ht with
        | none => exact (stmts_not_bar hg (.rbrk _)).2 _ heq
        | some => simp at heq
      · rfl
    simp only [List.cons_append, List.append_assoc, List.nil_append, pPrimary, pBlock, h0, h1, h2]
  | blockParams v vs =>
    refine prim1 _ _ (fun rest f hf => ?_) ⟨_, _, rfl, by simp⟩
    simp only [List.length_append, List.length_cons, List.length_nil] at hf
    obtain ⟨f, rfl, hf⟩ := succ hf
    obtain ⟨f, rfl, hf⟩ := succ (f := f) (n := 3) (by omega)
    have h0 : pBlockHead (params (v :: vs) ++ .rbrk :: rest) = .ok (v :: vs, false) (.rbrk :: rest) := by
      have := pBlockVars_complete (v :: vs) (rest := .rbrk :: rest) (by simp)
      unfold pBlockHead
      split
      · rw [this]
      · rename_i hne; exact absurd rfl (hne _)
    have h2 : pStmts f true (.rbrk :: rest) = .ok [] (.rbrk :: rest) := by
      obtain ⟨f, rfl⟩ : ∃ f', f = f' + 3 := ⟨f - 3, by omega⟩
      simp [pStmts, pExpr, pPrimary]
    simp only [List.cons_append, List.append_assoc, List.nil_append, pPrimary, pBlock, h0, pTemps,
      Bool.false_eq_true, if_false, h2]
  | @blockBar v vs t1 ts t2 es ht hg ih =>
    refine prim1 _ _ (fun rest f hf => ?_) ⟨_, _, rfl, by simp⟩
    simp only [List.length_append, List.length_cons, List.length_nil] at hf
    obtain ⟨f, rfl, hf⟩ := succ hf
    obtain ⟨f, rfl, hf⟩ := succ (f := f) (n := 8 * (t2.length + 1 + rest.length) + 4) (by omega)
    have h1 := pTemps_complete ht (rest := t2 ++ .rbrk :: rest) (stmts_not_bar hg (.rbrk _)).1
    have h2 := ih (.rbrk :: rest) f (.rbrk _) (by
      simp only [List.length_append, List.length_cons]; omega)
    have h0 : pBlockHead (params (v :: vs) ++ .bar :: (t1 ++ (t2 ++ .rbrk :: rest))) =
        .ok (v :: vs, false) (t1 ++ (t2 ++ .rbrk :: rest)) := by
      have := pBlockVars_complete (v :: vs) (rest := .bar :: (t1 ++ (t2 ++ .rbrk :: rest))) (by simp)
      unfold pBlockHead
      split
      · rw [this]
      · rename_i hne; exact absurd rfl (hne _)
    simp only [List.cons_append, List.append_assoc, List.nil_append, pPrimary, pBlock, h0, h1, h2]
  | @blockBars v vs ns s t2 es hg hs ih =>
    simp only [Bool.false_eq_true, or_false] at hs
    subst hs
    refine prim1 _ _ (fun rest f hf => ?_) ⟨_, _, rfl, by simp⟩
    simp only [List.length_append, List.length_cons, List.length_nil] at hf
    obtain ⟨f, rfl, hf⟩ := succ hf
    obtain ⟨f, rfl, hf⟩ := succ (f := f) (n := 8 * (t2.length + 1 + rest.length) + 4) (by omega)
    have h1 := pTempsGo_complete ns (t2 ++ .rbrk :: rest)
    have h2 := ih (.rbrk :: rest) f (.rbrk _) (by
      simp only [List.length_append, List.length_cons]; omega)
    have h0 : pBlockHead (params (v :: vs) ++ .binop ['|', '|'] :: (names ns ++ .bar :: (t2 ++ .rbrk :: rest))) =
        .ok (v :: vs, true) (names ns ++ .bar :: (t2 ++ .rbrk :: rest)) := by
      have := pBlockVars_complete (v :: vs)
        (rest := .binop ['|', '|'] :: (names ns ++ .bar :: (t2 ++ .rbrk :: rest))) (by simp)
      unfold pBlockHead
      split
      · rw [this]; rfl
      · rename_i hne; exact absurd rfl (hne _)
    simp only [List.cons_append, List.append_assoc, List.nil_append, pPrimary, pBlock, h0, pTemps, if_true,
      h1, h2]
  | unPrim h ih => exact ih
  | @unSend n t e s h ih =>
    obtain ⟨e', he, ih⟩ := ih
    simp only [List.cons.injEq, and_true] at he
    subst he
    refine ⟨_, rfl, fun k rest f h1 h2 => ?_⟩
    obtain ⟨g, hg, h3⟩ := ih k (.ident s :: rest) f (by refine ⟨?_, ?_, ?_⟩ <;> simp) (by
      simp only [List.length_append, List.length_cons, List.length_nil] at h2 ⊢; omega)
    simp only [List.length_cons] at hg
    obtain ⟨g, rfl, hg⟩ := succ hg
    refine ⟨g, by omega, ?_⟩
    simp only [List.append_assoc, List.cons_append, List.nil_append, h3, pMsg]
  | @binUn g n t e h ih =>
    obtain ⟨e', he, ih⟩ := ih
    exact ⟨e', he, fun k rest f _ _ h1 _ h2 => ih k rest f h1 h2⟩
  | @binSend g n t a op s t' m b h hop hgt h' ih ih' =>
    obtain ⟨a', he, ih⟩ := ih
    obtain ⟨b', he', ih'⟩ := ih'
    simp only [List.cons.injEq, and_true] at he he'
    subst he he'
    refine ⟨_, rfl, fun k rest f hb hk h1 h1' h2 => ?_⟩
    have hop1 : OkAfter (op :: (t' ++ rest)) := by
      refine ⟨?_, ?_, ?_⟩ <;> (intros; intro he; simp only [List.cons.injEq] at he
                               rw [he.1] at hop; simp [opOf] at hop)
    have hop2 : NotIdent (op :: (t' ++ rest)) := by
      intro s r he; simp only [List.cons.injEq] at he; rw [he.1] at hop; simp [opOf] at hop
    simp only [List.length_append, List.length_cons] at h2
    obtain ⟨q, hq, h3⟩ := ih k (op :: (t' ++ rest)) f hb hk hop1 hop2 (by
      simp only [List.length_append, List.length_cons]; omega)
    simp only [List.length_append, List.length_cons] at hq
    obtain ⟨q, rfl, hq⟩ := succ hq
    obtain ⟨q', hq', h4⟩ := ih' k.noAsg.binArg rest q h1 (by
      simp only [List.length_append]; omega)
    refine ⟨q, by omega, ?_⟩
    simp only [List.append_assoc, List.cons_append, h3]
    rw [pMsg_stop (by omega) h1' (by simp [Kind.binArg, Kind.noAsg]) (by simp [Kind.binArg, Kind.noAsg])
      (by simp [Kind.binArg, Kind.noAsg])] at h4
    have hg' : ¬ (op = .gt ∧ k.noAsg.gt = false) := by
      rintro ⟨rfl, h5⟩
      have : g = true := by rcases hgt with h | h; exact h; exact absurd rfl h
      have h6 := hk this
      simp only [Kind.noAsg] at h5
      rw [h6] at h5; simp at h5
    have hb' : k.noAsg.bin = true := hb
    cases op <;> simp only [opOf, Option.some.injEq, reduceCtorEq] at hop <;> subst hop <;>
      simp only [pMsg, opOf, hb', if_true, h4] <;> simp_all
  | msgBin h ih =>
    obtain ⟨e', he, ih⟩ := ih
    exact ⟨e', he, fun rest f h1 h2 => ih anyKind rest f rfl (fun _ => rfl) h1.1 h1.2.1 h2⟩
  | @msgKw n t r t' as h h' ih ih' =>
    obtain ⟨a', he, ih⟩ := ih
    simp only [List.cons.injEq, and_true] at he
    subst he
    refine ⟨_, rfl, fun rest f h1 h2 => ?_⟩
    obtain ⟨s, u, rfl⟩ := kws_first h'
    simp only [List.length_append, List.length_cons] at h2
    obtain ⟨q, hq, h3⟩ := ih anyKind (.keyword s :: u ++ rest) f rfl (fun _ => rfl)
      (by refine ⟨?_, ?_, ?_⟩ <;> simp) (by simp [NotIdent]) (by
      simp only [List.length_append, List.length_cons]; omega)
    simp only [List.length_append, List.length_cons] at hq
    obtain ⟨q, rfl, hq⟩ := succ hq
    have h4 := ih' anyKind.noAsg rest q rfl rfl (fun _ => rfl) h1 (by
      simp only [List.length_append, List.length_cons]; omega)
    refine ⟨q, by omega, ?_⟩
    have hk : anyKind.noAsg.kw = true := rfl
    simp only [List.cons_append] at h4 h3
    simp only [List.append_assoc, List.cons_append, h3, pMsg, hk, if_true, h4]
  | @kwsOne g n s t a h ih =>
    obtain ⟨a', he, ih⟩ := ih
    simp only [List.cons.injEq, and_true] at he
    subst he
    intro k rest f h1 h2 h3 h4 h5
    simp only [List.length_append, List.length_cons] at h5
    obtain ⟨f, rfl, hf⟩ := succ h5
    obtain ⟨q, hq, h6⟩ := ih k.kwArg rest f h2 h3 h4.1 h4.2.1 (by
      simp only [List.length_append]; omega)
    rw [pMsg_stop (k := k.kwArg.noAsg) (by omega) h4.2.1 (fun _ => h4.2.2.1) (by simp [Kind.kwArg, Kind.noAsg])
      (by simp [Kind.kwArg, Kind.noAsg])] at h6
    simp only [List.cons_append, pKeys, h6]
    split
    · rename_i heq; simp only [Res.ok.injEq] at heq; exact absurd heq.2 (h4.2.2.2 _ _)
    · rename_i heq; simp only [Res.ok.injEq] at heq; rw [heq.1, heq.2]
    · rename_i heq; simp at heq
    · rename_i hne _; exact absurd rfl (hne _ _)
  | @kwsCons g n s t a t' as h h' ih ih' =>
    obtain ⟨a', he, ih⟩ := ih
    simp only [List.cons.injEq, and_true] at he
    subst he
    obtain ⟨s', u, rfl⟩ := kws_first h'
    intro k rest f h1 h2 h3 h4 h5
    simp only [List.length_append, List.length_cons] at h5
    obtain ⟨f, rfl, hf⟩ := succ h5
    obtain ⟨q, hq, h6⟩ := ih k.kwArg (.keyword s' :: u ++ rest) f h2 h3
      (by refine ⟨?_, ?_, ?_⟩ <;> simp) (by simp [NotIdent]) (by
      simp only [List.length_append, List.length_cons]; omega)
    rw [pMsg_stop (by omega) (by simp [NotIdent]) (fun _ => by rintro _ _ _ ⟨⟩ ⟨⟩)
      (by simp [Kind.kwArg, Kind.noAsg]) (by simp [Kind.kwArg, Kind.noAsg])] at h6
    have h7 := ih' k rest f h1 h2 h3 h4 (by
      simp only [List.length_append, List.length_cons]; omega)
    simp only [List.cons_append] at h6 h7
    simp only [List.cons_append, List.append_assoc, pKeys, h6, h7]
  | cmsgUn s =>
    refine ⟨_, rfl, fun rest f h1 h2 => ?_⟩
    obtain ⟨f, rfl, hf⟩ := succ h2; rfl
  | @cmsgBin op s n t a hop h ih =>
    obtain ⟨a', he, ih⟩ := ih
    simp only [List.cons.injEq, and_true] at he
    subst he
    refine ⟨_, rfl, fun rest f h1 h2 => ?_⟩
    simp only [List.length_append, List.length_cons] at h2
    obtain ⟨f, rfl, hf⟩ := succ h2
    obtain ⟨q, hq, h6⟩ := ih cascaded.binArg rest f h1.1 (by simp only [List.length_append]; omega)
    rw [pMsg_stop (by omega) h1.2.1 (by simp [Kind.binArg, Kind.noAsg]) (by simp [Kind.binArg, Kind.noAsg])
      (by simp [Kind.binArg, Kind.noAsg])] at h6
    cases op <;> simp only [opOf, Option.some.injEq, reduceCtorEq] at hop <;> subst hop <;>
      simp only [List.cons_append, pCmsg, opOf, h6]
  | @cmsgKw t as h ih =>
    refine ⟨_, rfl, fun rest f h1 h2 => ?_⟩
    obtain ⟨s, u, rfl⟩ := kws_first h
    obtain ⟨f, rfl, hf⟩ := succ h2
    have h3 := ih cascaded rest f rfl rfl (fun _ => rfl) h1 hf
    simp only [List.cons_append] at h3
    simp only [List.cons_append, pCmsg, h3]
  | @cmsgsOne t m h ih =>
    obtain ⟨a', he, ih⟩ := ih
    simp only [List.cons.injEq, and_true] at he
    subst he
    intro rest f h1 h2 h3
    simp only [List.length_append, List.length_cons] at h3
    obtain ⟨f, rfl, hf⟩ := succ h3
    have h4 := ih rest f h1 (by simp only [List.length_append]; omega)
    obtain ⟨f, rfl, hf⟩ := succ (f := f) (n := 0) (by omega)
    have h5 : pCasc (f + 1) rest = .ok [] rest := by
      rw [pCasc.eq_def]
      dsimp only
      split
      · exact absurd rfl (h2 _)
      · rfl
    simp only [List.cons_append]
    rw [pCasc]
    simp only [h4, h5]
  | @cmsgsCons t m t' ms h h' ih ih' =>
    obtain ⟨a', he, ih⟩ := ih
    simp only [List.cons.injEq, and_true] at he
    subst he
    obtain ⟨u, rfl⟩ := cmsgs_first h'
    intro rest f h1 h2 h3
    simp only [List.length_append, List.length_cons] at h3
    obtain ⟨f, rfl, hf⟩ := succ h3
    have h4 := ih (.semi :: u ++ rest) f (ends_semi _) (by
      simp only [List.length_append, List.length_cons]; omega)
    have h5 := ih' rest f h1 h2 (by simp only [List.length_append, List.length_cons]; omega)
    simp only [List.cons_append] at h4 h5
    simp only [List.cons_append, List.append_assoc]
    rw [pCasc]
    simp only [h4, h5]
  | exprMsg h ih =>
    obtain ⟨a', he, ih⟩ := ih
    refine ⟨a', he, fun rest f h1 h2 h3 => ?_⟩
    obtain ⟨q, hq, h6⟩ := ih rest f h1 h3
    rw [h6]
    exact pMsg_stop (by omega) h1.2.1 (fun _ => h1.2.2.1) (fun _ => h1.2.2.2) (fun _ _ => h2)
  | @exprCasc t e t' ms h h' ih ih' =>
    obtain ⟨a', he, ih⟩ := ih
    simp only [List.cons.injEq, and_true] at he
    subst he
    obtain ⟨u, rfl⟩ := cmsgs_first h'
    refine ⟨_, rfl, fun rest f h1 h2 h3 => ?_⟩
    simp only [List.length_append, List.length_cons] at h3
    obtain ⟨q, hq, h6⟩ := ih (.semi :: u ++ rest) f (ends_semi _) (by
      simp only [List.length_append, List.length_cons]; omega)
    simp only [List.length_append, List.length_cons] at hq
    obtain ⟨q, rfl, hq⟩ := succ hq
    have h5 := ih' rest q h1 h2 (by simp only [List.length_append, List.length_cons]; omega)
    simp only [List.cons_append] at h5 h6
    have hk : anyKind.noAsg.casc = true := rfl
    simp only [List.append_assoc, List.cons_append, h6, pMsg, hk, Bool.and_self, if_true, h5]
  | @exprAsg t p t' e hp h ih =>
    obtain ⟨a', he, ih⟩ := ih
    simp only [List.cons.injEq, and_true] at he
    subst he
    obtain ⟨s, u, rfl, hp'⟩ := pPath_complete hp
    refine ⟨_, rfl, fun rest f h1 h2 h3 => ?_⟩
    simp only [List.length_append, List.length_cons] at h3
    obtain ⟨f, rfl, hf⟩ := succ h3
    have h4 := ih rest f h1 h2 (by simp only [List.length_append]; omega)
    have h5 := hp' (.assign :: (t' ++ rest)) (.inr ⟨_, rfl⟩)
    have hk : anyKind.asg = true := rfl
    simp only [List.append_assoc, List.cons_append, pExpr, h5, hk, h4]
  | @stNil c =>
    intro rest f h1 h2
    simp only [List.nil_append] at h2 ⊢
    obtain ⟨f, rfl⟩ : ∃ f', f = f' + 3 := ⟨f - 3, by omega⟩
    cases h1 <;> cases c <;> simp [pStmts, pExpr, pPrimary]
  | @stLast c t e h ih =>
    obtain ⟨a', he, ih⟩ := ih
    simp only [List.cons.injEq, and_true] at he
    subst he
    intro rest f h1 h2
    obtain ⟨f, rfl, hf⟩ := succ h2
    have h4 := ih rest f (ends_closer h1).1 (ends_closer h1).2 hf
    obtain ⟨a, r, rfl, ha⟩ := expr_first h
    have hc : a ≠ .caret := by rintro rfl; simp [PrimTok] at ha
    rw [pStmts.eq_def]
    dsimp only
    split
    · rename_i heq; simp only [List.cons_append, List.cons.injEq] at heq; exact absurd heq.1 hc
    · rw [h4]
      cases h1 <;> rfl
  | @stCons c t e t' es h h' ih ih' =>
    obtain ⟨a', he, ih⟩ := ih
    simp only [List.cons.injEq, and_true] at he
    subst he
    intro rest f h1 h2
    simp only [List.length_append, List.length_cons] at h2
    obtain ⟨f, rfl, hf⟩ := succ h2
    have hd := ends_of (t := .dot) (r := t' ++ rest) (.inr (.inr (.inr rfl)))
    have h4 := ih (.dot :: (t' ++ rest)) f hd.1 hd.2 (by
      simp only [List.length_append, List.length_cons]; omega)
    have h5 := ih' rest f h1 (by simp only [List.length_append]; omega)
    obtain ⟨a, r, rfl, ha⟩ := expr_first h
    have hc : a ≠ .caret := by rintro rfl; simp [PrimTok] at ha
    simp only [List.append_assoc, List.cons_append] at h4 ⊢
    rw [pStmts.eq_def]
    dsimp only
    split
    · rename_i heq; simp only [List.cons.injEq] at heq; exact absurd heq.1 hc
    · rw [h4]; simp only; rw [h5]
  | @stRet t e h ih =>
    obtain ⟨a', he, ih⟩ := ih
    simp only [List.cons.injEq, and_true] at he
    subst he
    intro rest f h1 h2
    simp only [List.length_append, List.length_cons] at h2
    obtain ⟨f, rfl, hf⟩ := succ h2
    have h4 := ih rest f (ends_closer h1).1 (ends_closer h1).2 (by
      simp only [List.length_append]; omega)
    simp only [List.cons_append, pStmts, h4]
    cases h1 <;> rfl
  | @stRetDot t e h ih =>
    obtain ⟨a', he, ih⟩ := ih
    simp only [List.cons.injEq, and_true] at he
    subst he
    intro rest f h1 h2
    simp only [List.length_append, List.length_cons, List.length_nil] at h2
    obtain ⟨f, rfl, hf⟩ := succ h2
    have hd := ends_of (t := .dot) (r := rest) (.inr (.inr (.inr rfl)))
    have h4 := ih (.dot :: rest) f hd.1 hd.2 (by
      simp only [List.length_append, List.length_cons]; omega)
    simp only [List.cons_append, List.append_assoc, List.nil_append, pStmts, h4]
  | stUnclosed hl => simp at hl
  | codeWrap _ hl => simp at hl

end Verif.Parser
