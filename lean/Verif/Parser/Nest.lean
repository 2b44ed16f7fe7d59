import Verif.Parser.Sound3

/-!
# Code whose brackets are closed

If the brackets of an accepted text are properly nested, then it has a
derivation in the strict grammar, up to operators that begin with two bars.
-/

namespace Verif.Parser

/-- The three kinds of brackets. -/
inductive Br where
  | paren | brk | brace
  deriving DecidableEq

/-- The open brackets after `toks`, the innermost first, if none is closed by a bracket of
another kind. -/
def nest : List Tok → List Br → Option (List Br)
  | [], s => some s
  | .lpar :: r, s => nest r (.paren :: s)
  | .lbrk :: r, s => nest r (.brk :: s)
  | .lbrace :: r, s => nest r (.brace :: s)
  | .rpar :: r, .paren :: s => nest r s
  | .rbrk :: r, .brk :: s => nest r s
  | .rbrace :: r, .brace :: s => nest r s
  | .rpar :: _, _ | .rbrk :: _, _ | .rbrace :: _, _ => none
  | _ :: r, s => nest r s

/-- Not a bracket. -/
def plain : Tok → Bool
  | .lpar | .rpar | .lbrk | .rbrk | .lbrace | .rbrace => false
  | _ => true

theorem nest_plain {a r s} (h : plain a = true) : nest (a :: r) s = nest r s := by
  cases a <;> first | rfl | simp [plain] at h

theorem nest_plains {t r s} (h : ∀ a ∈ t, plain a = true) : nest (t ++ r) s = nest r s := by
  induction t with
  | nil => rfl
  | cons a t ih =>
    rw [List.cons_append, nest_plain (h a (by simp)), ih (fun b hb => h b (by simp [hb]))]

theorem nest_append : ∀ (t r s), nest (t ++ r) s = (nest t s).bind (nest r) := by
  intro t
  induction t with
  | nil => intro r s; rfl
  | cons a t ih =>
    intro r s
    cases a <;> cases s <;> try (simp only [List.cons_append, nest, ih]; done)
    all_goals first
      | rfl
      | (rename_i b _; cases b <;> simp only [List.cons_append, nest, ih, Option.bind_none])

/-- The operators that begin with two bars are just two bars. -/
def Bars (t : List Tok) : Prop := (∀ s, .binop ('|' :: '|' :: s) ∈ t → s = []) ∧
  ∀ v, [.chr 60, .int v, .gt] <:+: t → v < 2 ^ 31

/-- Some parentheses stay open. -/
def Open (t : List Tok) (s : List Br) : Prop :=
  nest t s = none ∨ ∃ n, nest t s = some (.paren :: List.replicate n .paren ++ s)

/-- The brackets are closed and `P` holds, or parentheses stay open, or
brackets are closed in a wrong way. -/
def Fine (P : Prop) (t : List Tok) : Prop :=
  (∀ s, Open t s) ∨ (P ∧ ∀ s, nest t s = some s)

theorem rep (n : Nat) (s : List Br) : List.replicate n Br.paren ++ Br.paren :: s =
    Br.paren :: (List.replicate n .paren ++ s) := by
  induction n with
  | zero => rfl
  | succ n ih => rw [List.replicate_succ, List.cons_append, ih, List.cons_append]

theorem open_append_left {t r} (h : ∀ s, Open t s) (hr : ∀ s, Open r s ∨ nest r s = some s) :
    ∀ s, Open (t ++ r) s := by
  intro s
  rw [Open, nest_append]
  rcases h s with h | ⟨n, h⟩
  · left; rw [h]; rfl
  · rw [h]
    simp only [Option.bind_some]
    rcases hr (.paren :: List.replicate n .paren ++ s) with (h' | ⟨m, h'⟩) | h'
    · exact .inl h'
    · right
      refine ⟨m + n + 1, ?_⟩
      rw [h']
      have : List.replicate m Br.paren ++ (.paren :: List.replicate n .paren ++ s) =
          List.replicate (m + n + 1) .paren ++ s := by
        rw [List.replicate_succ, List.cons_append, List.cons_append, rep, ← List.append_assoc,
          List.replicate_append_replicate]
      rw [List.cons_append, this, List.cons_append]
    · exact .inr ⟨n, h'⟩

theorem open_append_right {t r} (h : ∀ s, nest t s = some s) (hr : ∀ s, Open r s) :
    ∀ s, Open (t ++ r) s := by
  intro s
  rw [Open, nest_append, h s]
  exact hr s

theorem fine_state {P t} (h : Fine P t) : ∀ s, Open t s ∨ nest t s = some s := by
  intro s
  rcases h with h | ⟨_, h⟩
  · exact .inl (h s)
  · exact .inr (h s)

theorem Fine.imp {P Q : Prop} {t} (h : Fine P t) (f : P → Q) : Fine Q t := by
  rcases h with h | ⟨h, hn⟩
  · exact .inl h
  · exact .inr ⟨f h, hn⟩

/-- Two parts, one after the other. -/
theorem fine_append {P Q : Prop} {t r} (h : Fine P t) (h1 : Fine Q r) : Fine (P ∧ Q) (t ++ r) := by
  rcases h with h | ⟨h, hn⟩
  · exact .inl (open_append_left h (fine_state h1))
  · rcases h1 with h1 | ⟨h1, hn1⟩
    · exact .inl (open_append_right hn h1)
    · exact .inr ⟨⟨h, h1⟩, fun s => by rw [nest_append, hn s]; exact hn1 s⟩

/-- No brackets at all. -/
theorem fine_plain {P : Prop} {t} (ht : ∀ x ∈ t, plain x = true) (h : P) : Fine P t :=
  .inr ⟨h, fun s => by
    have := nest_plains (t := t) (r := []) (s := s) ht
    simpa [nest] using this⟩

/-- Something without brackets in front. -/
theorem fine_before {P : Prop} {t a} (ha : ∀ x ∈ a, plain x = true) (h : Fine P t) : Fine P (a ++ t) :=
  (fine_append (fine_plain ha trivial) h).imp And.right

theorem fine_cons {P : Prop} {t a} (ha : plain a = true) (h : Fine P t) : Fine P (a :: t) :=
  fine_before (a := [a]) (by simpa using ha) h

/-- Something without brackets behind. -/
theorem fine_after {P : Prop} {t a} (ha : ∀ x ∈ a, plain x = true) (h : Fine P t) : Fine P (t ++ a) :=
  (fine_append h (fine_plain ha trivial)).imp And.left

/-- Brackets around. -/
theorem fine_around {P : Prop} {t o c b} (ho : ∀ r s, nest (o :: r) s = nest r (b :: s))
    (hc : ∀ s, nest [c] (b :: s) = some s)
    (hw : ∀ s, (nest [c] (.paren :: s) = none) ∨ b = .paren) (h : Fine P t) :
    Fine P (o :: t ++ [c]) := by
  rcases h with h | ⟨h, hn⟩
  · left
    intro s
    rw [Open, List.cons_append, ho, nest_append]
    rcases h (b :: s) with h | ⟨n, h⟩
    · left; rw [h]; rfl
    · rw [h]
      simp only [Option.bind_some]
      rcases hw (List.replicate n .paren ++ b :: s) with hw | rfl
      · left; simpa using hw
      · right
        refine ⟨n, ?_⟩
        rw [List.cons_append, hc, rep, List.cons_append]
  · exact .inr ⟨h, fun s => by rw [List.cons_append, ho, nest_append, hn]; exact hc s⟩

theorem fine_paren {P : Prop} {t} (h : Fine P t) : Fine P (.lpar :: t ++ [.rpar]) :=
  fine_around (b := .paren) (fun _ _ => rfl) (fun _ => rfl) (fun _ => .inr rfl) h

theorem fine_brk {P : Prop} {t} (h : Fine P t) : Fine P (.lbrk :: t ++ [.rbrk]) :=
  fine_around (b := .brk) (fun _ _ => rfl) (fun _ => rfl) (fun _ => .inl rfl) h

theorem fine_brace {P : Prop} {t} (h : Fine P t) : Fine P (.lbrace :: t ++ [.rbrace]) :=
  fine_around (b := .brace) (fun _ _ => rfl) (fun _ => rfl) (fun _ => .inl rfl) h

theorem path_plain {t p} (h : IsPath t p) : ∀ x ∈ t, plain x = true := by
  induction h with
  | one s => simp [plain]
  | more s h ih => 
    intro x hx
    simp only [List.mem_cons] at hx
    rcases hx with rfl | rfl | hx
    · rfl
    · rfl
    · exact ih x hx

theorem names_plain (ns) : ∀ x ∈ names ns, plain x = true := by
  intro x hx
  simp only [names, List.mem_map] at hx
  obtain ⟨_, _, rfl⟩ := hx
  rfl

theorem params_plain (ns) : ∀ x ∈ params ns, plain x = true := by
  intro x hx
  simp only [params, List.mem_flatMap, List.mem_cons, List.not_mem_nil, or_false] at hx
  obtain ⟨_, _, rfl | rfl⟩ := hx <;> rfl

theorem temps_plain {t ts} (h : IsTemps t ts) : ∀ x ∈ t, plain x = true := by
  cases h with
  | none => simp
  | some =>
    intro x hx
    simp only [List.cons_append, List.mem_cons, List.mem_append, List.not_mem_nil, or_false] at hx
    rcases hx with rfl | hx | rfl
    · rfl
    · exact names_plain _ x hx
    · rfl

theorem ints_plain (vs : List Int) : ∀ x ∈ vs.map Tok.int, plain x = true := by
  intro x hx
  simp only [List.mem_map] at hx
  obtain ⟨_, _, rfl⟩ := hx
  rfl

theorem op_plain {op s} (h : opOf op = some s) : plain op = true := by
  cases op <;> simp [opOf] at h <;> rfl

theorem bars_left {t r} (h : Bars (t ++ r)) : Bars t :=
  ⟨fun s hs => h.1 s (by simp [hs]), fun v hv => h.2 v (hv.trans (List.prefix_append t r).isInfix)⟩
theorem bars_right {t r} (h : Bars (t ++ r)) : Bars r :=
  ⟨fun s hs => h.1 s (by simp [hs]), fun v hv => h.2 v (hv.trans (List.suffix_append t r).isInfix)⟩
theorem bars_tail {a r} (h : Bars (a :: r)) : Bars r := bars_right (t := [a]) h


theorem strict {nt t es} (h : G true nt t es) (hb : Bars t) : Fine (G false nt t es) t := by
  have one : ∀ {nt a es}, plain a = true → G false nt [a] es → Fine (G false nt [a] es) [a] :=
    fun ha h => fine_plain (by simpa using ha) h
  induction h with
  | int v => exact one rfl (.int v)
  | num i n => exact one rfl (.num i n)
  | negInt v hv => exact fine_plain (by simp [plain]) (.negInt v hv)
  | negNum i => exact fine_plain (by simp [plain]) (.negNum i)
  | str s => exact one rfl (.str s)
  | sym s => exact one rfl (.sym s)
  | chr s => exact one rfl (.chr s)
  | code v h1 h2 => exact fine_plain (by simp [plain]) (.code v h1 h2)
  | codeWrap v _ h1 h2 h3 =>
    have := hb.2 v (List.infix_refl _)
    unfold asInt at h3
    omega
  | arrLit h ih =>
    exact (fine_cons rfl (fine_paren (ih (bars_left (bars_tail (bars_tail hb)))))).imp .arrLit
  | bytes vs hv =>
    exact fine_cons (a := .hash) rfl (fine_brk (fine_plain (ints_plain vs) (.bytes vs hv)))
  | binding hp =>
    exact fine_cons (a := .hash) rfl (fine_brace (fine_plain (path_plain hp) (.binding hp)))
  | @ctc t1 ts t2 es ht h ih =>
    have h1 := fine_before (temps_plain ht) (ih (bars_right (bars_left (bars_tail (bars_tail (bars_tail hb))))))
    have h2 := (fine_cons (a := .hash) rfl (fine_cons (a := .hash) rfl (fine_paren h1))).imp (G.ctc ht)
    simpa using h2
  | eltLit h ih => exact (ih hb).imp .eltLit
  | eltArr h ih => exact (fine_paren (ih (bars_left (bars_tail hb)))).imp .eltArr
  | eltBytes vs hv => exact fine_brk (fine_plain (ints_plain vs) (.eltBytes vs hv))
  | eltTrue => exact one rfl .eltTrue
  | eltFalse => exact one rfl .eltFalse
  | eltNil => exact one rfl .eltNil
  | eltsNil => exact fine_plain (by simp) .eltsNil
  | eltsCons h h' hc ih ih' =>
    exact (fine_append (ih (bars_left hb)) (ih' (bars_right hb))).imp fun ⟨a, b⟩ => .eltsCons a b hc
  | unclosed h ih => exact (ih hb).imp .unclosed
  | @unclosedParen t es t' h h' ih ih' =>
    left
    have h1 : ∀ s, Open (.lpar :: t') s := by
      intro s
      rw [Open]
      simp only [nest]
      rcases fine_state (ih' (bars_tail (bars_right hb))) (.paren :: s) with (h | ⟨n, h⟩) | h
      · exact .inl h
      · right
        refine ⟨n + 1, ?_⟩
        rw [h, List.cons_append, rep]; rfl
      · exact .inr ⟨0, h⟩
    rcases ih (bars_left hb) with h2 | ⟨_, h2⟩
    · exact open_append_left h2 (fun s => .inl (h1 s))
    · exact open_append_right h2 h1
  | @unclosedHash t es t' h h' ih ih' =>
    left
    have h1 : ∀ s, Open (.hash :: .lpar :: t') s := by
      intro s
      rw [Open]
      simp only [nest]
      rcases fine_state (ih' (bars_tail (bars_tail (bars_right hb)))) (.paren :: s) with (h | ⟨n, h⟩) | h
      · exact .inl h
      · right
        refine ⟨n + 1, ?_⟩
        rw [h, List.cons_append, rep]; rfl
      · exact .inr ⟨0, h⟩
    rcases ih (bars_left hb) with h2 | ⟨_, h2⟩
    · exact open_append_left h2 (fun s => .inl (h1 s))
    · exact open_append_right h2 h1
  | var hp => exact fine_plain (path_plain hp) (.var hp)
  | primLit h ih => exact (ih hb).imp .primLit
  | paren h ih => exact (fine_paren (ih (bars_left (bars_tail hb)))).imp .paren
  | brace h ih => exact (fine_brace (ih (bars_left (bars_tail hb)))).imp .brace
  | @block t1 ts t2 es ht h ih =>
    have h1 := fine_before (temps_plain ht) (ih (bars_right (bars_left (bars_tail hb))))
    have h2 := (fine_brk h1).imp (G.block ht)
    simpa using h2
  | blockParams v vs => exact fine_brk (fine_plain (params_plain _) (.blockParams v vs))
  | @blockBar v vs t1 ts t2 es ht h ih =>
    have h1 := fine_before (temps_plain ht) (ih (bars_right (bars_left (bars_tail hb))))
    have h2 := (fine_brk (fine_before (params_plain (v :: vs)) (fine_cons (a := .bar) rfl h1))).imp
      (G.blockBar v vs ht)
    simpa using h2
  | @blockBars v vs ns s t2 es h hs ih =>
    have h0 : s = [] := hb.1 s (by simp)
    subst h0
    have h1 := ih (bars_tail (bars_right (bars_left hb)))
    have h2 := (fine_brk (fine_before (params_plain (v :: vs)) (fine_cons (a := .binop ['|', '|']) rfl
      (fine_before (names_plain ns) (fine_cons (a := .bar) rfl h1))))).imp
      (fun h => G.blockBars v vs ns [] h (.inl rfl))
    simpa using h2
  | unPrim h ih => exact (ih hb).imp .unPrim
  | unSend s h ih => exact (fine_after (by simp [plain]) (ih (bars_left hb))).imp (.unSend s)
  | binUn h ih => exact (ih hb).imp .binUn
  | binSend h hop hg h' ih ih' =>
    exact (fine_append (ih (bars_left hb)) (fine_cons (op_plain hop) (ih' (bars_tail (bars_right hb))))).imp
      fun ⟨a, b⟩ => .binSend a hop hg b
  | msgBin h ih => exact (ih hb).imp .msgBin
  | msgKw h h' ih ih' =>
    exact (fine_append (ih (bars_left hb)) (ih' (bars_right hb))).imp fun ⟨a, b⟩ => .msgKw a b
  | kwsOne h ih => exact (fine_cons rfl (ih (bars_tail hb))).imp .kwsOne
  | kwsCons h h' ih ih' =>
    exact (fine_append (fine_cons (a := .keyword _) rfl (ih (bars_left (bars_tail hb))))
      (ih' (bars_right (bars_tail hb)))).imp fun ⟨a, b⟩ => .kwsCons a b
  | cmsgUn s => exact one rfl (.cmsgUn s)
  | cmsgBin hop h ih => exact (fine_cons (op_plain hop) (ih (bars_tail hb))).imp (.cmsgBin hop)
  | cmsgKw h ih => exact (ih hb).imp .cmsgKw
  | cmsgsOne h ih => exact (fine_cons rfl (ih (bars_tail hb))).imp .cmsgsOne
  | cmsgsCons h h' ih ih' =>
    exact (fine_append (fine_cons (a := .semi) rfl (ih (bars_left (bars_tail hb))))
      (ih' (bars_right (bars_tail hb)))).imp fun ⟨a, b⟩ => .cmsgsCons a b
  | exprMsg h ih => exact (ih hb).imp .exprMsg
  | exprCasc h h' ih ih' =>
    exact (fine_append (ih (bars_left hb)) (ih' (bars_right hb))).imp fun ⟨a, b⟩ => .exprCasc a b
  | exprAsg hp h ih =>
    exact (fine_before (path_plain hp) (fine_cons rfl (ih (bars_tail (bars_right hb))))).imp (.exprAsg hp)
  | stNil => exact fine_plain (by simp) .stNil
  | stLast h ih => exact (ih hb).imp .stLast
  | stCons h h' ih ih' =>
    exact (fine_append (ih (bars_left hb)) (fine_cons (a := .dot) rfl (ih' (bars_tail (bars_right hb))))).imp
      fun ⟨a, b⟩ => .stCons a b
  | stRet h ih => exact (fine_cons rfl (ih (bars_tail hb))).imp .stRet
  | stRetDot h ih =>
    exact (fine_after (by simp [plain]) (fine_cons (a := .caret) rfl (ih (bars_left (bars_tail hb))))).imp
      .stRetDot
  | @stUnclosed c t hl h ih =>
    left
    intro s
    rw [Open]
    simp only [nest]
    rcases fine_state (ih (bars_tail (bars_tail hb))) (.paren :: s) with (h | ⟨n, h⟩) | h
    · exact .inl h
    · right
      refine ⟨n + 1, ?_⟩
      rw [h, List.cons_append, rep]; rfl
    · exact .inr ⟨0, h⟩

end Verif.Parser
