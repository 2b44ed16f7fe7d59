import Verif.Parser.Spec

/-!
# What the reader accepts has a derivation in the lax grammar
-/

namespace Verif.Parser

theorem pPath_sound : ∀ {toks s p rest}, pPath s toks = .ok p rest →
    ∃ t, .ident s :: toks = t ++ rest ∧ IsPath t p := by
  intro toks s
  fun_induction pPath s toks with
  | case1 s t r p r' h ih =>
    intro p' rest h'
    simp only [Res.ok.injEq] at h'
    obtain ⟨rfl, rfl⟩ := h'
    obtain ⟨u, hu, hp⟩ := ih h
    exact ⟨.ident s :: .scope :: u, by rw [List.cons_append, List.cons_append, ← hu], .more s hp⟩
  | case2 s t r h ih =>
    intro p' rest h'
    exact absurd h' (h _ _)
  | case3 => intro p rest h; simp at h
  | case4 s r => 
    intro p rest h
    simp only [Res.ok.injEq] at h
    obtain ⟨rfl, rfl⟩ := h
    exact ⟨[.ident s], rfl, .one s⟩

theorem pTempsGo_sound : ∀ {toks ns rest}, pTempsGo toks = .ok ns rest →
    toks = names ns ++ .bar :: rest := by
  intro toks
  fun_induction pTempsGo toks with
  | case1 => intro ns rest h; simp at h
  | case2 r => intro ns rest h; simp only [Res.ok.injEq] at h; obtain ⟨rfl, rfl⟩ := h; rfl
  | case3 s r ts r' h ih =>
    intro ns rest h'
    simp only [Res.ok.injEq] at h'
    obtain ⟨rfl, rfl⟩ := h'
    rw [ih h]; rfl
  | case4 s r h ih => intro ns rest h'; exact absurd h' (h _ _)
  | case5 => intro ns rest h; simp at h

theorem pTemps_sound {toks ns rest} (h : pTemps false toks = .ok ns rest) :
    ∃ t, toks = t ++ rest ∧ IsTemps t ns := by
  unfold pTemps at h
  simp only [Bool.false_eq_true, if_false] at h
  split at h
  · have := pTempsGo_sound h
    refine ⟨.bar :: names ns ++ [.bar], ?_, .some ns⟩
    rw [this]; simp
  · simp only [Res.ok.injEq] at h
    obtain ⟨rfl, rfl⟩ := h
    exact ⟨[], rfl, .none⟩

theorem pBlockVars_sound : ∀ {toks ns rest}, pBlockVars toks = .ok ns rest →
    toks = params ns ++ rest := by
  intro toks
  fun_induction pBlockVars toks with
  | case1 s r vs r' h ih =>
    intro ns rest h'
    simp only [Res.ok.injEq] at h'
    obtain ⟨rfl, rfl⟩ := h'
    rw [ih h]; rfl
  | case2 s r h ih => intro ns rest h'; exact absurd h' (h _ _)
  | case3 => intro ns rest h; simp at h
  | case4 => intro ns rest h; simp only [Res.ok.injEq] at h; obtain ⟨rfl, rfl⟩ := h; rfl

theorem pBytes_sound : ∀ {toks vs rest}, pBytes toks = .ok vs rest →
    toks = vs.map .int ++ .rbrk :: rest ∧ ∀ v ∈ vs, 0 ≤ v ∧ v ≤ 255 := by
  intro toks
  fun_induction pBytes toks with
  | case1 => intro ns rest h; simp at h
  | case2 r =>
    intro ns rest h; simp only [Res.ok.injEq] at h; obtain ⟨rfl, rfl⟩ := h
    exact ⟨rfl, by simp⟩
  | case3 => intro ns rest h; simp at h
  | case4 v r hv vs r' h ih =>
    intro ns rest h'
    simp only [Res.ok.injEq] at h'
    obtain ⟨rfl, rfl⟩ := h'
    obtain ⟨h1, h2⟩ := ih h
    refine ⟨by rw [h1]; rfl, ?_⟩
    intro w hw
    rcases List.mem_cons.1 hw with rfl | hw
    · omega
    · exact h2 w hw
  | case5 v r hv h ih => intro ns rest h'; exact absurd h' (h _ _)
  | case6 => intro ns rest h; simp at h

theorem pBlockVars_null : ∀ {toks rest}, pBlockVars toks ≠ .null rest := by
  intro toks
  fun_induction pBlockVars toks with
  | case1 => intro rest; simp
  | case2 s r h ih => intro rest h'; exact ih h'
  | case3 => intro rest; simp
  | case4 => intro rest; simp

/-- What `pBlockHead` accepts. -/
theorem pBlockHead_sound {toks vs imp rest} (h : pBlockHead toks = .ok (vs, imp) rest) :
    (vs = [] ∧ imp = false ∧ rest = toks) ∨
    (∃ v vs' r, vs = v :: vs' ∧ imp = false ∧ rest = .rbrk :: r ∧ toks = params vs ++ rest) ∨
    (∃ v vs', vs = v :: vs' ∧ imp = false ∧ toks = params vs ++ .bar :: rest) ∨
    (∃ v vs' s, vs = v :: vs' ∧ imp = true ∧
      toks = params vs ++ .binop ('|' :: '|' :: s) :: rest) := by
  have key : ∀ {r vs' rest'}, pBlockVars (.colon :: r) = .ok vs' rest' → ∃ v ws, vs' = v :: ws := by
    intro r vs' rest' hh
    have hs := pBlockVars_sound hh
    cases vs' with
    | cons v ws => exact ⟨v, ws, rfl⟩
    | nil =>
      exfalso
      simp only [params, List.flatMap_nil, List.nil_append] at hs
      subst hs
      unfold pBlockVars at hh
      split at hh
      · split at hh <;> simp_all
      · simp at hh
      · rename_i h1 h2; exact h2 _ rfl
  unfold pBlockHead at h
  split at h
  · rename_i r
    split at h
    all_goals try (simp at h; done)
    · rename_i vs' r' hb
      simp only [Res.ok.injEq, Prod.mk.injEq] at h
      obtain ⟨⟨rfl, rfl⟩, rfl⟩ := h
      obtain ⟨v, ws, rfl⟩ := key hb
      exact .inr (.inl ⟨v, ws, r', rfl, rfl, rfl, pBlockVars_sound hb⟩)
    · rename_i vs' r' hb
      simp only [Res.ok.injEq, Prod.mk.injEq] at h
      obtain ⟨⟨rfl, rfl⟩, rfl⟩ := h
      obtain ⟨v, ws, rfl⟩ := key hb
      exact .inr (.inr (.inl ⟨v, ws, rfl, rfl, pBlockVars_sound hb⟩))
    · rename_i vs' s r' hb
      simp only [Res.ok.injEq, Prod.mk.injEq] at h
      obtain ⟨⟨rfl, rfl⟩, rfl⟩ := h
      obtain ⟨v, ws, rfl⟩ := key hb
      exact .inr (.inr (.inr ⟨v, ws, s, rfl, rfl, pBlockVars_sound hb⟩))
  · simp only [Res.ok.injEq, Prod.mk.injEq] at h
    obtain ⟨⟨rfl, rfl⟩, rfl⟩ := h
    exact .inl ⟨rfl, rfl, rfl⟩

end Verif.Parser
