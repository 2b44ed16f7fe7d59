import Verif.Parser.Totality
import Verif.Parser.Nest
import Mathlib.Tactic.Tauto

/-!
# Headers, attributes and whole methods
-/

namespace Verif.Parser

theorem pKeyVars_sound : ∀ {toks ps rest}, pKeyVars toks = .ok ps rest →
    ps ≠ [] ∧ toks = (ps.flatMap fun p => [.keyword p.1, .ident p.2]) ++ rest ∧ NotKw rest := by
  intro toks
  fun_induction pKeyVars toks with
  | case1 s a s' r ps r' h ih =>
    intro qs rest h'
    rw [h] at h'
    simp only [Res.ok.injEq] at h'
    obtain ⟨rfl, rfl⟩ := h'
    obtain ⟨_, h2, h3⟩ := ih h
    exact ⟨by simp, by rw [h2]; simp, h3⟩
  | case2 s a s' r h ih => 
    intro qs rest h'
    split at h'
    · exact absurd ‹_› (h _ _)
    · exact absurd h' (h _ _)
  | case3 s a r hne =>
    intro qs rest h'
    simp only [Res.ok.injEq] at h'
    obtain ⟨rfl, rfl⟩ := h'
    exact ⟨by simp, rfl, fun s r h => hne s r h⟩
  | case4 => intro qs rest h; simp at h

theorem pKeyVars_complete : ∀ (ps : List (Name × Name)) {rest}, ps ≠ [] → NotKw rest →
    pKeyVars ((ps.flatMap fun p => [Tok.keyword p.1, Tok.ident p.2]) ++ rest) = .ok ps rest := by
  intro ps
  induction ps with
  | nil => intro rest h; exact absurd rfl h
  | cons p ps ih =>
    intro rest _ hr
    cases ps with
    | nil =>
      simp only [List.flatMap_cons, List.flatMap_nil, List.cons_append, List.nil_append, List.append_nil]
      rw [pKeyVars.eq_def]
      dsimp only
      split
      · exact absurd rfl (hr _ _)
      · rfl
    | cons q ps =>
      have := ih (rest := rest) (by simp) hr
      simp only [List.flatMap_cons, List.cons_append, List.nil_append] at this ⊢
      rw [pKeyVars.eq_def]
      dsimp only
      rw [this]

theorem pPattern_sound {toks pat rest} (h : pPattern toks = .ok pat rest) :
    ∃ t, toks = t ++ rest ∧ IsPattern t pat := by
  unfold pPattern at h
  split at h
  · simp only [Res.ok.injEq] at h
    obtain ⟨rfl, rfl⟩ := h
    exact ⟨[.ident _], rfl, .unary _⟩
  · split at h <;> try (simp at h; done)
    rename_i hk
    simp only [Res.ok.injEq] at h
    obtain ⟨rfl, rfl⟩ := h
    obtain ⟨h1, h2, _⟩ := pKeyVars_sound hk
    exact ⟨_, h2, .keyword _ h1⟩
  · split at h <;> try (simp at h; done)
    rename_i hs
    simp only [Res.ok.injEq] at h
    obtain ⟨rfl, rfl⟩ := h
    exact ⟨[_, .ident _], rfl, .binary _ hs⟩
  · simp at h

theorem pPattern_complete {t pat} (h : IsPattern t pat) (r) :
    pPattern (t ++ .lbrk :: r) = .ok pat (.lbrk :: r) := by
  cases h with
  | unary s => rfl
  | @binary op s a hop =>
    cases op <;> simp [opOf] at hop <;> subst hop <;> rfl
  | keyword ps hne =>
    have h1 := pKeyVars_complete ps (rest := .lbrk :: r) hne (by simp [NotKw])
    cases ps with
    | nil => exact absurd rfl hne
    | cons p ps =>
      simp only [List.flatMap_cons, List.cons_append, List.nil_append] at h1 ⊢
      unfold pPattern
      dsimp only
      rw [h1]

theorem pAttrs_sound : ∀ {f toks as rest}, pAttrs f toks = .ok as rest →
    ∃ t, toks = t ++ rest ∧ IsAttrs true t as ∧ ∀ r, rest ≠ .lt :: r := by
  intro f
  induction f with
  | zero => intro toks as rest h; simp [pAttrs] at h
  | succ f ih =>
    intro toks as rest h
    simp only [pAttrs] at h
    split at h
    · split at h <;> try (simp at h; done)
      rename_i a r' ha
      split at h
      · rename_i as' r'' has
        simp only [Res.ok.injEq] at h
        obtain ⟨rfl, rfl⟩ := h
        obtain ⟨t', rfl, h1, h2⟩ := ih has
        unfold pAttr at ha
        split at ha
        · simp only [Res.ok.injEq] at ha
          obtain ⟨rfl, rfl⟩ := ha
          exact ⟨_ :: _ :: _ :: t', rfl, .unary _ h1, h2⟩
        · split at ha <;> try (simp at ha; done)
          rename_i s r ks r1 hk
          simp only [Res.ok.injEq] at ha
          obtain ⟨rfl, rfl⟩ := ha
          obtain ⟨t, ht, hg, _⟩ := (sound _).keys (by rfl) (by rfl) hk
          exact ⟨.lt :: t ++ .gt :: t', by rw [ht]; simp, .keyword hg h1, h2⟩
        · simp at ha
      · rename_i hne; exact absurd h (hne _ _)
    · rename_i hne
      simp only [Res.ok.injEq] at h
      obtain ⟨rfl, rfl⟩ := h
      exact ⟨[], rfl, .nil, fun r h => hne r h⟩

theorem pAttrs_complete {t as} (h : IsAttrs false t as) : ∀ {rest f}, (∀ r, rest ≠ .lt :: r) →
    8 * (t ++ rest).length + 1 ≤ f → pAttrs f (t ++ rest) = .ok as rest := by
  induction h with
  | nil =>
    intro rest f hr hf
    obtain ⟨f, rfl⟩ : ∃ f', f = f' + 1 := ⟨f - 1, by omega⟩
    rw [List.nil_append, pAttrs.eq_def]
    dsimp only
    split
    · exact absurd rfl (hr _)
    · rfl
  | unary s h ih =>
    intro rest f hr hf
    obtain ⟨f, rfl⟩ : ∃ f', f = f' + 1 := ⟨f - 1, by omega⟩
    simp only [List.length_append, List.length_cons] at hf
    have h1 := ih (f := f) hr (by simp only [List.length_append]; omega)
    simp only [List.cons_append, pAttrs, pAttr, h1]
  | @keyword t ks t' as h h' ih =>
    intro rest f hr hf
    obtain ⟨f, rfl⟩ : ∃ f', f = f' + 1 := ⟨f - 1, by omega⟩
    simp only [List.length_append, List.length_cons] at hf
    have h1 := ih (f := f) hr (by simp only [List.length_append]; omega)
    have h2 := complete h attrKind (.gt :: (t' ++ rest)) f rfl rfl (by simp) (by
      refine ⟨⟨by simp, by simp, by simp⟩, by simp [NotIdent], ?_, by simp [NotKw]⟩
      rintro _ _ _ ⟨⟩ _
      exact ⟨rfl, rfl⟩) (by simp only [List.length_append, List.length_cons]; omega)
    obtain ⟨s, u, rfl⟩ := kws_first h
    simp only [List.cons_append, List.append_assoc] at h2 ⊢
    simp only [pAttrs, pAttr, h2, h1]

theorem pAttrs_out : ∀ {f toks}, 8 * toks.length + 1 ≤ f → pAttrs f toks ≠ .out := by
  intro f
  induction f with
  | zero => intro toks h; omega
  | succ f ih =>
    intro toks hf h
    simp only [pAttrs] at h
    split at h <;> try (simp at h; done)
    rename_i r
    simp only [List.length_cons] at hf
    split at h <;> try (simp at h; done)
    · rename_i a r' ha
      split at h
      · simp at h
      · refine ih ?_ h
        unfold pAttr at ha
        split at ha
        · simp only [Res.ok.injEq] at ha
          obtain ⟨rfl, rfl⟩ := ha
          simp only [List.length_cons] at hf; omega
        · split at ha <;> try (simp at ha; done)
          rename_i hk
          simp only [Res.ok.injEq] at ha
          obtain ⟨rfl, rfl⟩ := ha
          have := keys_len (by rfl) (by rfl) hk
          simp only [List.length_cons] at this hf; omega
        · simp at ha
    · rename_i ha
      unfold pAttr at ha
      split at ha <;> try (simp at ha; done)
      split at ha <;> try (simp at ha; done)
      exact absurd ‹_› ((total f).keys (by rfl) (by rfl) (by omega))

theorem attrs_append {l t as t' as'} (h : IsAttrs l t as) (h' : IsAttrs l t' as') :
    IsAttrs l (t ++ t') (as ++ as') := by
  induction h with
  | nil => exact h'
  | unary s h ih => exact .unary s ih
  | keyword hg h ih =>
    have := IsAttrs.keyword hg ih
    simpa using this

theorem attrs_first {l t as} (h : IsAttrs l t as) : t = [] ∨ ∃ r, t = .lt :: r := by
  cases h with
  | nil => exact .inl rfl
  | unary => exact .inr ⟨_, rfl⟩
  | keyword => exact .inr ⟨_, rfl⟩

theorem temps_first {t ts} (h : IsTemps t ts) : (t = [] ∧ ts = []) ∨ ∃ r, t = .bar :: r := by
  cases h with
  | none => exact .inl ⟨rfl, rfl⟩
  | some => exact .inr ⟨_, rfl⟩

theorem stmts_rbrk_not {t es r} (h : G false (.stmts true) t es) :
    (∀ r', t ++ .rbrk :: r ≠ .lt :: r') ∧ ∀ r', t ++ .rbrk :: r ≠ .bar :: r' := by
  rcases stmts_first h with rfl | ⟨a, u, rfl, ha⟩
  · simp
  · constructor <;> intro r' he <;> simp only [List.cons_append, List.cons.injEq] at he <;>
      (obtain ⟨rfl, _⟩ := he; simp [PrimTok] at ha)

theorem method_complete {t m} (h : IsMethod false t m) (rest : List Tok) {f}
    (hf : 8 * (t ++ rest).length + 8 ≤ f) : pMethod f (t ++ rest) = .ok m rest := by
  cases h with
  | @mk t0 pat t1 a1 t2 ts t3 a2 t4 es h0 h1 h2 h3 h4 =>
    simp only [List.length_append, List.length_cons, List.length_nil] at hf
    have e0 := pPattern_complete h0 (t1 ++ (t2 ++ (t3 ++ (t4 ++ .rbrk :: rest))))
    have e4 := complete h4 (.rbrk :: rest) f (.rbrk _) (by
      simp only [List.length_append, List.length_cons]; omega)
    obtain ⟨n1, n2⟩ := stmts_rbrk_not (r := rest) h4
    have e3 := pAttrs_complete h3 (rest := t4 ++ .rbrk :: rest) (f := f) n1 (by
      simp only [List.length_append, List.length_cons]; omega)
    have nb : ∀ r, t3 ++ (t4 ++ .rbrk :: rest) ≠ .bar :: r := by
      rcases attrs_first h3 with rfl | ⟨r, rfl⟩
      · exact n2
      · simp
    have e2 := pTemps_complete h2 (rest := t3 ++ (t4 ++ .rbrk :: rest)) nb
    simp only [List.append_assoc, List.cons_append, List.nil_append]
    unfold pMethod
    rw [e0]
    dsimp only
    rcases temps_first h2 with ⟨rfl, rfl⟩ | ⟨r, rfl⟩
    · have e1 := pAttrs_complete (attrs_append h1 h3) (rest := t4 ++ .rbrk :: rest) (f := f) n1 (by
        simp only [List.length_append, List.length_cons]; omega)
      simp only [List.append_assoc, List.nil_append] at e1 ⊢
      have e2' := pTemps_complete .none (rest := t4 ++ .rbrk :: rest) n2
      have e3' := pAttrs_complete .nil (rest := t4 ++ .rbrk :: rest) (f := f) n1 (by
        simp only [List.length_append, List.length_cons, List.length_nil]; omega)
      simp only [List.nil_append] at e2' e3'
      simp only [e1, e2', e3', e4, List.append_nil]
    · have e1 := pAttrs_complete h1 (rest := .bar :: r ++ (t3 ++ (t4 ++ .rbrk :: rest))) (f := f)
        (by simp) (by simp only [List.length_append, List.length_cons] at hf ⊢; omega)
      simp only [e1, e2, e3, e4]

theorem method_sound {f toks m rest} (h : pMethod f toks = .ok m rest) :
    ∃ t, toks = t ++ rest ∧ IsMethod true t m := by
  unfold pMethod at h
  split at h <;> try (simp at h; done)
  rename_i pat r hp
  split at h <;> try (simp at h; done)
  rename_i a1 r1 h1
  split at h <;> try (simp at h; done)
  rename_i ts r2 h2
  split at h <;> try (simp at h; done)
  rename_i a2 r3 h3
  split at h <;> try (simp at h; done)
  rename_i es r4 h4
  simp only [Res.ok.injEq] at h
  obtain ⟨rfl, rfl⟩ := h
  obtain ⟨t0, rfl, g0⟩ := pPattern_sound hp
  obtain ⟨t1, rfl, g1, _⟩ := pAttrs_sound h1
  obtain ⟨t2, rfl, g2⟩ := pTemps_sound h2
  obtain ⟨t3, rfl, g3, _⟩ := pAttrs_sound h3
  obtain ⟨t4, rfl, g4⟩ := (sound f).stmts h4
  exact ⟨t0 ++ .lbrk :: t1 ++ t2 ++ t3 ++ t4 ++ [.rbrk], by simp, .mk g0 g1 g2 g3 g4⟩

theorem pKeyVars_out {toks} : pKeyVars toks ≠ .out := by
  fun_induction pKeyVars toks <;> simp_all

theorem method_out {f toks} (hf : 8 * toks.length + 8 ≤ f) : pMethod f toks ≠ .out := by
  intro h
  unfold pMethod at h
  split at h <;> try (simp at h; done)
  rename_i pat r hp
  obtain ⟨t0, rfl, g0⟩ := pPattern_sound hp
  simp only [List.length_append, List.length_cons] at hf
  split at h <;> try (simp at h; done)
  · rename_i a1 r1 h1
    obtain ⟨t1, rfl, g1, _⟩ := pAttrs_sound h1
    simp only [List.length_append, List.length_cons] at hf
    split at h <;> try (simp at h; done)
    rename_i ts r2 h2
    have := pTemps_len h2
    split at h <;> try (simp at h; done)
    · rename_i a2 r3 h3
      obtain ⟨t3, rfl, g3, _⟩ := pAttrs_sound h3
      simp only [List.length_append] at this
      split at h <;> try (simp at h; done)
      exact absurd ‹_› ((total f).stmts (by omega))
    · exact absurd ‹_› (pAttrs_out (by omega))
  · exact absurd ‹_› (pAttrs_out (by omega))

theorem pattern_plain {t pat} (h : IsPattern t pat) : ∀ x ∈ t, plain x = true := by
  cases h with
  | unary s => simp [plain]
  | binary a hop => simp [op_plain hop]; rfl
  | keyword ps _ =>
    intro x hx
    simp only [List.mem_flatMap, List.mem_cons, List.not_mem_nil, or_false] at hx
    obtain ⟨_, _, rfl | rfl⟩ := hx <;> rfl

theorem attrs_strict {t as} (h : IsAttrs true t as) (hb : Bars t) : Fine (IsAttrs false t as) t := by
  induction h with
  | nil => exact fine_plain (by simp) .nil
  | unary s h ih =>
    exact (fine_cons rfl (fine_cons rfl (fine_cons rfl (ih (bars_tail (bars_tail (bars_tail hb))))))).imp
      (.unary s)
  | @keyword t ks t' as hg h ih =>
    exact (fine_append (fine_cons (a := .lt) rfl (strict hg (bars_left (bars_tail hb))))
      (fine_cons (a := .gt) rfl (ih (bars_tail (bars_right hb))))).imp fun ⟨a, b⟩ => .keyword a b

theorem method_strict {t m} (h : IsMethod true t m) (hb : Bars t) (hn : nest t [] = some []) :
    IsMethod false t m := by
  have key : Fine (IsMethod false t m) t := by
    cases h with
    | @mk t0 pat t1 a1 t2 ts t3 a2 t4 es h0 h1 h2 h3 h4 =>
      have hb' : Bars (t1 ++ (t2 ++ (t3 ++ t4))) := by
        have h : Bars (t0 ++ .lbrk :: (t1 ++ (t2 ++ (t3 ++ t4)) ++ [.rbrk])) := by simpa using hb
        exact bars_left (bars_tail (bars_right h))
      have f1 := attrs_strict h1 (bars_left hb')
      have f3 := attrs_strict h3 (bars_left (bars_right (bars_right hb')))
      have f4 := strict h4 (bars_right (bars_right (bars_right hb')))
      have := (fine_before (pattern_plain h0) (fine_brk (fine_append f1 (fine_before (temps_plain h2)
        (fine_append f3 f4))))).imp (fun ⟨a, b, c⟩ => IsMethod.mk h0 a h2 b c)
      simpa using this
  rcases key with h | ⟨h, _⟩
  · rcases h [] with h | ⟨n, h⟩ <;> simp [hn] at h
  · exact h

theorem code_strict {t c} (h : IsCode true t c) (hb : Bars t) (hn : nest t [] = some []) :
    IsCode false t c := by
  have key : Fine (IsCode false t c) t := by
    cases h with
    | @mk t1 ts t2 es h1 h2 =>
      exact (fine_before (temps_plain h1) (strict h2 (bars_right hb))).imp (.mk h1)
  rcases key with h | ⟨h, _⟩
  · rcases h [] with h | ⟨n, h⟩ <;> simp [hn] at h
  · exact h

theorem code_complete {t c} (h : IsCode false t c) : readCode t = some c := by
  cases h with
  | @mk t1 ts t2 es h1 h2 =>
    have e2 := complete h2 [] (fuelFor (t1 ++ t2)) .nil (by
      simp only [fuelFor, List.length_append, List.length_nil]; omega)
    have e1 := pTemps_complete h1 (rest := t2) (by
      have := (stmts_not_bar h2 .nil).1
      simpa using this)
    simp only [List.append_nil] at e2
    simp only [readCode, e1, e2]

theorem code_sound {t c} (h : readCode t = some c) : IsCode true t c := by
  unfold readCode at h
  split at h <;> try (simp at h; done)
  rename_i ts r h1
  split at h <;> try (simp at h; done)
  rename_i es h2
  simp only [Option.some.injEq] at h
  subst h
  obtain ⟨t1, rfl, g1⟩ := pTemps_sound h1
  obtain ⟨t2, rfl, g2⟩ := (sound _).stmts h2
  rw [List.append_nil]
  exact .mk g1 g2

end Verif.Parser
