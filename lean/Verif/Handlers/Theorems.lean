/-
Which handler an exception gets, and which handlers are there while one runs.

A context of `on:do:` is named by the number of contexts outside it: `fs.reverse[h]?`.
-/
import Verif.Handlers.Lemmas

namespace Verif.Handlers

/-! ### The best handler of an `on:do:` -/

/-- The class `h`, from which the exception's class `c` inherits or which it is, is among the
exceptions given; `d` is its distance from `Exception`. -/
def Handles (s : Spec) (c : Cls) (d : Nat) : Prop := ∃ h ∈ s, h <:+ c ∧ h.length = d

/-- Full statement: without the bound on the depth of the hierarchy, see `goodness_deep`.

A class is asked how good it is at handling an exception: the more specific it is the better,
and negative if it does not handle it. -/
theorem goodness_partial (h c : Cls) (hc : c.length < 100000) :
    (h <:+ c → goodness h c = h.length) ∧ (¬ h <:+ c → goodness h c < 0) := by
  rw [goodness, goodLoop_eq]
  constructor
  · intro hs; rw [if_pos hs]
  · intro hs; rw [if_neg hs]; omega

/-- Below a hundred thousand superclasses every class handles the exception. -/
theorem goodness_deep : ∃ h c : Cls, ¬ h <:+ c ∧ 0 ≤ goodness h c := by
  refine ⟨[1], List.replicate 100000 0, ?_, ?_⟩
  · intro h
    have := h.subset (List.mem_singleton.2 rfl)
    rw [List.mem_replicate] at this
    omega
  · rw [goodness, goodLoop_eq]
    split
    · simp
    · rw [List.length_replicate]; omega

theorem setGoodness_spec (s : Spec) (c : Cls) (hc : c.length < 100000) :
    (setGoodness s c = -1 ∧ ∀ d, ¬ Handles s c d) ∨
    ∃ d : Nat, setGoodness s c = d ∧ Handles s c d ∧ ∀ d', Handles s c d' → d' ≤ d := by
  obtain ⟨h1, h2, h3⟩ := fold_max c s (-1)
  rw [← setGoodness] at h1 h2 h3
  rcases h3 with h3 | ⟨h, hh, h3⟩
  · left
    refine ⟨h3, ?_⟩
    intro d ⟨h, hh, hs, hd⟩
    have := h2 h hh
    rw [(goodness_partial h c hc).1 hs, h3] at this
    omega
  · by_cases hs : h <:+ c
    · right
      rw [(goodness_partial h c hc).1 hs] at h3
      refine ⟨h.length, h3.symm, ⟨h, hh, hs, rfl⟩, ?_⟩
      intro d' ⟨h', hh', hs', hd'⟩
      have := h2 h' hh'
      rw [(goodness_partial h' c hc).1 hs', ← h3] at this
      omega
    · have := (goodness_partial h c hc).2 hs
      left
      have h4 : setGoodness s c = -1 := by omega
      refine ⟨h4, ?_⟩
      intro d ⟨h', hh', hs', hd'⟩
      have := h2 h' hh'
      rw [(goodness_partial h' c hc).1 hs', h4] at this
      omega

/-- Of the handlers in `specs` that are not off, the `k`-th is the one for exceptions of class
`c`: none handles a class nearer to `c`, and of several that handle the same one it is the
first. -/
def Best (specs : List Spec) (off : Nat → Prop) (c : Cls) (k : Nat) : Prop :=
  ∃ s d, specs[k]? = some s ∧ ¬ off k ∧ Handles s c d ∧
    ∀ i s' d', specs[i]? = some s' → ¬ off i → Handles s' c d' → d' < d ∨ (d' = d ∧ k ≤ i)

/-- The search in one `on:do:` context answers the best of the handlers that are not active, and
nothing exactly if none of them handles the exception. -/
theorem select_best (f : Frame) (c : Cls) (hc : c.length < 100000) :
    match select f c with
    | some k => Best f.specs (fun i => f.active.testBit (2 * i) = true) c k
    | none => ∀ (i : Nat) (s : Spec) (d : Nat), f.specs[i]? = some s →
        f.active.testBit (2 * i) = false → ¬ Handles s c d := by
  have key : ∀ (i : Nat) (s : Spec), 0 ≤ eff c f.active i s →
      f.active.testBit (2 * i) = false ∧ ∃ d : Nat, eff c f.active i s = d ∧ Handles s c d ∧
        ∀ d', Handles s c d' → d' ≤ d := by
    intro i s hi
    rw [eff] at hi ⊢
    rcases setGoodness_spec s c hc with ⟨h1, -⟩ | ⟨d, h1, h2, h3⟩
    · rw [h1] at hi; simp at hi
    · rw [if_pos (by omega)] at hi ⊢
      cases ha : isActive f.active i
      · rw [if_neg (by simp)]
        exact ⟨ha, d, h1, h2, h3⟩
      · rw [ha, if_pos rfl] at hi; omega
  have key2 : ∀ (i : Nat) (s : Spec) (d : Nat), f.active.testBit (2 * i) = false →
      Handles s c d → (d : Int) ≤ eff c f.active i s := by
    intro i s d ha hd
    rw [eff]
    rcases setGoodness_spec s c hc with ⟨h1, h2⟩ | ⟨d', h1, h2, h3⟩
    · exact absurd hd (h2 d)
    · have := h3 d hd
      rw [if_pos (by omega), isActive, ha, if_neg (by simp)]
      omega
  rw [select]
  rcases selectLoop_spec c f.active f.specs 0 none (-1) with ⟨h1, h2⟩ | ⟨j, s, h1, h2, h3, h4⟩
  · rw [h1]
    intro i s d hi ha hd
    have := key2 i s d ha hd
    have := h2 i s hi
    rw [Nat.zero_add] at this
    omega
  · rw [h2]
    simp only
    rw [Nat.zero_add] at h3 h4 ⊢
    obtain ⟨ha, d, e1, e2, e3⟩ := key j s (by omega)
    refine ⟨s, d, h1, by simp only [ha]; simp, e2, ?_⟩
    intro i s' d' hi ha' hd'
    rw [Bool.not_eq_true] at ha'
    have g1 := key2 i s' d' ha' hd'
    have g2 := h4 i s' hi
    rw [Nat.zero_add] at g2
    by_cases hlt : i < j
    · have := g2.2 hlt; left; omega
    · have := g2.1
      by_cases hd : d' < d
      · exact Or.inl hd
      · right; omega

/-- `on: ZeroDivide, Warning do: … on: Error do: … on: ZeroDivide do: …`, all but the first two
active. -/
example : select ⟨[[[3, 2], [1]], [[2]], [[3, 2]]], 2 ^ 4⟩ [3, 2] = some 0 ∧
    select ⟨[[[3, 2], [1]], [[2]], [[3, 2]]], 2 ^ 0⟩ [3, 2] = some 2 ∧
    select ⟨[[[3, 2], [1]], [[2]], [[3, 2]]], 0⟩ [5] = none := by decide

/-- The search over all contexts: the innermost one that has a handler that is not active. -/
theorem search_innermost (c : Cls) (fs : List Frame) :
    match search c fs with
    | some (h, k, _) => (∃ f, fs.reverse[h]? = some f ∧ select f c = some k) ∧
        ∀ j f, h < j → fs.reverse[j]? = some f → select f c = none
    | none => ∀ f ∈ fs, select f c = none := by
  cases hs : search c fs with
  | none => exact search_none hs
  | some r =>
    obtain ⟨h, k, m⟩ := r
    obtain ⟨⟨f, h1, h2, -⟩, -, h4⟩ := search_some hs
    exact ⟨⟨f, h1, h2⟩, h4⟩

/-! ### While a handler runs -/

/-- A running handler of the context `b.height` does not see that context nor the ones inside
it, up to those made by the handler itself. -/
def Hidden (b : Act) (h : Nat) : Prop := b.height ≤ h ∧ h < b.base

/-- The handler that the step finds, if it looks for one, is one that no running handler hides;
and handlers are not reinstated. -/
def Proper (s : St) : Op → Prop
  | .signal c => ∀ h k m, search c s.frames = some (h, k, m) → ∀ b ∈ s.acts, ¬ Hidden b h
  | .outer c => ∀ a acts, s.acts = a :: acts → ∀ h k m,
      search c (outside a.height s.frames) = some (h, k, m) → ∀ b ∈ s.acts, ¬ Hidden b h
  | .return => False
  | .reinstate => False
  | _ => True

/-- All steps are proper. -/
def ProperRun (s : St) : List Op → Prop
  | [] => True
  | op :: ops => Proper s op ∧ ∀ s', step s op = some s' → ProperRun s' ops

structure Inv (s : St) : Prop where
  fits : ∀ a ∈ s.acts, a.height < a.base ∧ a.base ≤ s.frames.length
  sorted : s.acts.Pairwise (fun a b => b.base ≤ a.base)
  apart : s.acts.Pairwise (fun a b => ¬ Hidden b a.height)
  prev : ∀ a ∈ s.acts, a.prev = 0
  on : ∀ (h : Nat) (f : Frame), s.frames.reverse[h]? = some f →
    ∀ a ∈ s.acts, a.height = h → f.active = 2 ^ (2 * a.which)
  off : ∀ (h : Nat) (f : Frame), s.frames.reverse[h]? = some f →
    (∀ a ∈ s.acts, a.height ≠ h) → f.active = 0

theorem empty_inv : Inv empty := by
  constructor <;> simp [empty]

theorem lt_of_get {fs : List Frame} {h : Nat} {f : Frame} (hf : fs.reverse[h]? = some f) :
    h < fs.length := by
  have := List.getElem?_eq_some_iff.1 hf
  obtain ⟨h1, -⟩ := this
  rw [List.length_reverse] at h1
  exact h1

theorem start_inv {s : St} {h k m : Nat} {r : Bool} (hi : Inv s) {f : Frame}
    (hf : s.frames.reverse[h]? = some f) (hm : m = f.active)
    (hp : ∀ b ∈ s.acts, ¬ Hidden b h) : Inv (start s (h, k, m) r) := by
  have hne : ∀ b ∈ s.acts, b.height ≠ h := by
    intro b hb e
    exact hp b hb ⟨by omega, by have := (hi.fits b hb).1; omega⟩
  have hm0 : m = 0 := by rw [hm]; exact hi.off h f hf hne
  have hlt := lt_of_get hf
  refine ⟨?_, ?_, ?_, ?_, ?_, ?_⟩
  · intro a ha
    simp only [start] at ha ⊢
    rw [put_length]
    rcases List.mem_cons.1 ha with rfl | ha
    · exact ⟨hlt, Nat.le_refl _⟩
    · exact hi.fits a ha
  · simp only [start]
    exact List.pairwise_cons.2 ⟨fun b hb => (hi.fits b hb).2, hi.sorted⟩
  · simp only [start]
    exact List.pairwise_cons.2 ⟨fun b hb => hp b hb, hi.apart⟩
  · intro a ha
    simp only [start] at ha
    rcases List.mem_cons.1 ha with rfl | ha
    · exact hm0
    · exact hi.prev a ha
  · intro j g hg a ha hah
    simp only [start] at hg ha
    rw [put_get] at hg
    by_cases hj : j = h
    · rw [if_pos hj, hj, hf] at hg
      simp only [Option.map_some, Option.some.injEq] at hg
      rw [← hg]
      rcases List.mem_cons.1 ha with rfl | ha
      · simp only [hm0, setActive, Nat.zero_or]
      · exact absurd (hah.trans hj) (hne a ha)
    · rw [if_neg hj] at hg
      rcases List.mem_cons.1 ha with rfl | ha
      · exact absurd hah.symm hj
      · exact hi.on j g hg a ha hah
  · intro j g hg hno
    simp only [start] at hg hno
    rw [put_get] at hg
    have hj : j ≠ h := fun e => hno _ (List.mem_cons_self ..) e.symm
    rw [if_neg hj] at hg
    exact hi.off j g hg (fun a ha => hno a (List.mem_cons_of_mem _ ha))

theorem resume_inv {s : St} {a : Act} {acts : List Act} (hi : Inv s) (ha : s.acts = a :: acts) :
    Inv (resume s a acts) := by
  have hf := hi.fits; have hs := hi.sorted; have hap := hi.apart; have hpr := hi.prev
  rw [ha] at hf hs hap hpr
  rw [List.pairwise_cons] at hs hap
  have hfa := hf a (List.mem_cons_self ..)
  have hne : ∀ b ∈ acts, b.height ≠ a.height := by
    intro b hb e
    refine hap.1 b hb ⟨by omega, ?_⟩
    have := (hf b (List.mem_cons_of_mem _ hb)).1
    omega
  refine ⟨?_, hs.2, hap.2, fun b hb => hpr b (List.mem_cons_of_mem _ hb), ?_, ?_⟩
  · intro b hb
    simp only [resume] at hb ⊢
    rw [put_length, outside_length _ _ hfa.2]
    exact ⟨(hf b (List.mem_cons_of_mem _ hb)).1, hs.1 b hb⟩
  · intro j g hg b hb hbj
    simp only [resume] at hg hb
    rw [put_get, outside_get _ _ hfa.2] at hg
    have hj : j ≠ a.height := fun e => hne b hb (hbj.trans e)
    rw [if_neg hj] at hg
    by_cases hlt : j < a.base
    · rw [if_pos hlt] at hg
      exact hi.on j g hg b (by rw [ha]; exact List.mem_cons_of_mem _ hb) hbj
    · rw [if_neg hlt] at hg; cases hg
  · intro j g hg hno
    simp only [resume] at hg hno
    rw [put_get, outside_get _ _ hfa.2] at hg
    by_cases hj : j = a.height
    · rw [if_pos hj] at hg
      cases hx : (if j < a.base then s.frames.reverse[j]? else none) with
      | none => rw [hx] at hg; cases hg
      | some x =>
        rw [hx] at hg
        simp only [Option.map_some, Option.some.injEq] at hg
        rw [← hg]
        exact hpr a (List.mem_cons_self ..)
    · rw [if_neg hj] at hg
      by_cases hlt : j < a.base
      · rw [if_pos hlt] at hg
        refine hi.off j g hg ?_
        intro b hb
        rw [ha] at hb
        rcases List.mem_cons.1 hb with rfl | hb
        · exact fun e => hj e.symm
        · exact hno b hb
      · rw [if_neg hlt] at hg; cases hg

theorem exit_inv {s : St} {a : Act} {acts : List Act} (hi : Inv s) (ha : s.acts = a :: acts) :
    Inv (exit s a) := by
  have hfa := hi.fits a (by rw [ha]; exact List.mem_cons_self ..)
  refine ⟨?_, hi.sorted.filter _, hi.apart.filter _, ?_, ?_, ?_⟩
  · intro b hb
    simp only [exit, List.mem_filter, decide_eq_true_eq] at hb ⊢
    rw [outside_length _ _ (by omega)]
    exact ⟨(hi.fits b hb.1).1, hb.2⟩
  · intro b hb
    simp only [exit, List.mem_filter] at hb
    exact hi.prev b hb.1
  · intro j g hg b hb hbj
    simp only [exit, List.mem_filter] at hg hb
    rw [outside_get _ _ (by omega)] at hg
    by_cases hlt : j < a.height
    · rw [if_pos hlt] at hg
      exact hi.on j g hg b hb.1 hbj
    · rw [if_neg hlt] at hg; cases hg
  · intro j g hg hno
    simp only [exit, List.mem_filter, decide_eq_true_eq] at hg hno
    rw [outside_get _ _ (by omega)] at hg
    by_cases hlt : j < a.height
    · rw [if_pos hlt] at hg
      refine hi.off j g hg ?_
      intro b hb e
      refine hno b ⟨hb, ?_⟩ e
      have hap := hi.apart
      rw [ha] at hap hb
      rcases List.mem_cons.1 hb with rfl | hb
      · omega
      · have := (List.pairwise_cons.1 hap).1 b hb
        rw [Hidden] at this
        omega
    · rw [if_neg hlt] at hg; cases hg

theorem leave_inv {s : St} {f : Frame} {fs : List Frame} (hi : Inv s) (hf : s.frames = f :: fs)
    (hb : ∀ a ∈ s.acts, a.base ≤ fs.length) : Inv { s with frames := fs } := by
  have hget : ∀ (j : Nat) (g : Frame), fs.reverse[j]? = some g → s.frames.reverse[j]? = some g := by
    intro j g hg
    have := lt_of_get hg
    rw [hf, get_rev_cons, if_neg (by omega)]
    exact hg
  exact ⟨fun a ha => ⟨(hi.fits a ha).1, hb a ha⟩, hi.sorted, hi.apart, hi.prev,
    fun j g hg => hi.on j g (hget j g hg), fun j g hg => hi.off j g (hget j g hg)⟩

theorem step_inv {s s' : St} {op : Op} (hi : Inv s) (hp : Proper s op)
    (h : step s op = some s') : Inv s' := by
  cases op with
  | enter specs =>
    simp only [step, Option.some.injEq] at h
    rw [← h]
    refine ⟨?_, hi.sorted, hi.apart, hi.prev, ?_, ?_⟩
    · intro a ha
      have := hi.fits a ha
      simp only [List.length_cons]
      omega
    · intro j g hg a ha haj
      simp only [get_rev_cons] at hg
      have := hi.fits a ha
      rw [if_neg (by omega)] at hg
      exact hi.on j g hg a ha haj
    · intro j g hg hno
      simp only [get_rev_cons] at hg
      by_cases hj : j = s.frames.length
      · rw [if_pos hj] at hg; cases hg; rfl
      · rw [if_neg hj] at hg; exact hi.off j g hg hno
  | leave =>
    rw [step] at h
    cases hf : s.frames with
    | nil => simp only [hf] at h; cases h
    | cons f fs =>
      cases ha : s.acts with
      | nil =>
        simp only [hf, ha] at h
        cases h
        have := leave_inv hi hf (by rw [ha]; simp)
        rw [ha] at this
        exact this
      | cons a acts =>
        simp only [hf, ha] at h
        by_cases hb : a.base ≤ fs.length
        · rw [if_pos hb] at h
          cases h
          have := leave_inv hi hf (by
            have hs := hi.sorted
            rw [ha] at hs ⊢
            intro b hb'
            rcases List.mem_cons.1 hb' with rfl | hb'
            · exact hb
            · exact Nat.le_trans ((List.pairwise_cons.1 hs).1 b hb') hb)
          rw [ha] at this
          exact this
        · rw [if_neg hb] at h; cases h
  | signal c =>
    rw [step] at h
    cases hs : search c s.frames with
    | none => rw [hs] at h; cases h; exact hi
    | some r =>
      obtain ⟨x, k, m⟩ := r
      rw [hs] at h
      cases h
      obtain ⟨⟨f, h1, -, h3⟩, -⟩ := search_some hs
      exact start_inv hi h1 h3 (hp x k m hs)
  | outer c =>
    rw [step] at h
    cases ha : s.acts with
    | nil => rw [ha] at h; cases h
    | cons a acts =>
      rw [ha] at h
      simp only at h
      have hfa := hi.fits a (by rw [ha]; exact List.mem_cons_self ..)
      cases hs : search c (outside a.height s.frames) with
      | none => rw [hs] at h; cases h; exact hi
      | some r =>
        obtain ⟨x, k, m⟩ := r
        rw [hs] at h
        cases h
        obtain ⟨⟨f, h1, -, h3⟩, -⟩ := search_some hs
        rw [outside_get _ _ (by omega)] at h1
        by_cases hx : x < a.height
        · rw [if_pos hx] at h1
          exact start_inv hi h1 h3 (hp a acts ha x k m hs)
        · rw [if_neg hx] at h1; cases h1
  | resume =>
    rw [step] at h
    cases ha : s.acts with
    | nil => rw [ha] at h; cases h
    | cons a acts => rw [ha] at h; cases h; exact resume_inv hi ha
  | finish =>
    rw [step] at h
    cases ha : s.acts with
    | nil => rw [ha] at h; cases h
    | cons a acts =>
      rw [ha] at h
      simp only at h
      cases hr : a.resumes
      · rw [hr, if_neg (by simp)] at h; cases h; exact exit_inv hi ha
      · rw [hr, if_pos rfl] at h; cases h; exact resume_inv hi ha
  | «return» => exact hp.elim
  | reinstate => exact hp.elim

theorem run_inv {s s' : St} {ops : List Op} (hi : Inv s) (hp : ProperRun s ops)
    (h : run s ops = some s') : Inv s' := by
  induction ops generalizing s with
  | nil => cases h; exact hi
  | cons op ops ih =>
    rw [run] at h
    cases hs : step s op with
    | none => rw [hs] at h; cases h
    | some s1 =>
      rw [hs] at h
      exact ih (step_inv hi hp.1 hs) (hp.2 s1 hs) h

/-- Full statement: without `ProperRun`; see `inner_handler_seen`, `handler_left_disabled` and
`return_reinstates_running`.

A handler of an `on:do:` is disabled exactly while it runs. -/
theorem disabled_iff_running_partial (ops : List Op) (s : St) (hp : ProperRun empty ops)
    (hr : run empty ops = some s) (h k : Nat) (f : Frame) (hf : s.frames.reverse[h]? = some f) :
    f.active.testBit (2 * k) = true ↔ ∃ a ∈ s.acts, a.height = h ∧ a.which = k := by
  have hi := run_inv empty_inv hp hr
  by_cases hex : ∃ a ∈ s.acts, a.height = h
  · obtain ⟨a, ha, hah⟩ := hex
    have e := hi.on h f hf a ha hah
    rw [e, Nat.testBit_two_pow]
    constructor
    · intro hk
      simp only [decide_eq_true_eq] at hk
      exact ⟨a, ha, hah, by omega⟩
    · intro ⟨b, hb, hbh, hbk⟩
      have := hi.on h f hf b hb hbh
      rw [e] at this
      have := (Nat.pow_right_inj (by omega)).1 this
      simp only [decide_eq_true_eq]
      omega
  · have hno : ∀ a ∈ s.acts, a.height ≠ h := fun a ha e => hex ⟨a, ha, e⟩
    rw [hi.off h f hf hno]
    simp only [Nat.zero_testBit, Bool.false_eq_true, false_iff]
    intro ⟨a, ha, hah, _⟩
    exact hno a ha hah

/-- Full statement: without `ProperRun` and without assuming that the handler found is not
hidden; see `inner_handler_seen`.

An exception gets the best handler of the innermost `on:do:` that handles it and that is not
hidden by a running handler; if it gets none there is no such `on:do:`. -/
theorem signal_handler_partial (ops : List Op) (s : St) (hp : ProperRun empty ops)
    (hr : run empty ops = some s) (c : Cls) (hc : c.length < 100000) :
    match search c s.frames with
    | some (h, k, _) => (∀ b ∈ s.acts, ¬ Hidden b h) →
        (∃ f, s.frames.reverse[h]? = some f ∧ Best f.specs (fun _ => False) c k) ∧
        ∀ (j : Nat) f, h < j → s.frames.reverse[j]? = some f → (∀ b ∈ s.acts, ¬ Hidden b j) →
          ∀ s' ∈ f.specs, ∀ d, ¬ Handles s' c d
    | none => ∀ (j : Nat) f, s.frames.reverse[j]? = some f → (∀ b ∈ s.acts, ¬ Hidden b j) →
          ∀ s' ∈ f.specs, ∀ d, ¬ Handles s' c d := by
  have hi := run_inv empty_inv hp hr
  have hzero : ∀ (j : Nat) f, s.frames.reverse[j]? = some f → (∀ b ∈ s.acts, ¬ Hidden b j) →
      f.active = 0 := by
    intro j f hf hv
    refine hi.off j f hf ?_
    intro a ha e
    exact hv a ha ⟨by omega, by have := (hi.fits a ha).1; omega⟩
  have hnone : ∀ f : Frame, f.active = 0 → select f c = none →
      ∀ s' ∈ f.specs, ∀ d, ¬ Handles s' c d := by
    intro f h0 hs s' hs' d
    have := select_best f c hc
    rw [hs] at this
    obtain ⟨i, hi⟩ := List.getElem?_of_mem hs'
    exact this i s' d hi (by rw [h0]; simp)
  cases hs : search c s.frames with
  | none =>
    intro j f hf hv
    have hmem : f ∈ s.frames := by
      have := List.mem_of_getElem? hf
      rwa [List.mem_reverse] at this
    exact hnone f (hzero j f hf hv) (search_none hs f hmem)
  | some r =>
    obtain ⟨h, k, m⟩ := r
    obtain ⟨⟨f, h1, h2, -⟩, -, h4⟩ := search_some hs
    intro hv
    refine ⟨⟨f, h1, ?_⟩, ?_⟩
    · have := select_best f c hc
      rw [h2, hzero h f h1 hv] at this
      simpa using this
    · intro j f' hj hf' hv'
      exact hnone f' (hzero j f' hf' hv') (h4 j f' hj hf')

/-! ### Resuming -/

/-- `Error`. -/
abbrev error : Cls := [2]
/-- `ZeroDivide`, taken to be a subclass of `Error`'s sibling for simplicity. -/
abbrev zeroDivide : Cls := [7, 3]

theorem filter_suffix {l : List Act} (hs : l.Pairwise (fun a b => b.base ≤ a.base)) (h : Nat) :
    l.filter (·.base ≤ h) <:+ l := by
  induction l with
  | nil => exact List.suffix_refl _
  | cons a l ih =>
    rw [List.pairwise_cons] at hs
    by_cases ha : a.base ≤ h
    · have : (a :: l).filter (·.base ≤ h) = a :: l := by
        rw [List.filter_eq_self]
        intro b hb
        rcases List.mem_cons.1 hb with rfl | hb
        · exact decide_eq_true ha
        · exact decide_eq_true (Nat.le_trans (hs.1 b hb) ha)
      rw [this]
      exact List.suffix_refl _
    · rw [List.filter_cons, if_neg (by simpa using ha)]
      exact (ih hs.2).trans (List.suffix_cons ..)

/-- The handlers `l` still run, and the contexts there were when the first of them was started are
there. -/
structure Stays (l : List Act) (base : Nat) (fs : List Frame) (s : St) : Prop where
  acts : l <:+ s.acts
  first : ∀ a ∈ l.head?, a.base = base
  specs : ∀ j : Nat, j < base → (s.frames.reverse[j]?).map Frame.specs = (fs.reverse[j]?).map Frame.specs

theorem put_specs (h m : Nat) (fs : List Frame) (j : Nat) :
    ((put h m fs).reverse[j]?).map Frame.specs = (fs.reverse[j]?).map Frame.specs := by
  rw [put_get]
  by_cases hj : j = h
  · rw [if_pos hj, Option.map_map]; rfl
  · rw [if_neg hj]

theorem stays_step {l : List Act} {base : Nat} {fs : List Frame} {s s' : St} {op : Op}
    (hl : l ≠ []) (hi : Inv s) (hp : Proper s op) (hs : Stays l base fs s)
    (h : step s op = some s') (hlen : l.length ≤ s'.acts.length) : Stays l base fs s' := by
  obtain ⟨x, l', rfl⟩ := List.exists_cons_of_ne_nil hl
  have hxb : x.base = base := hs.first x rfl
  have hxm : x ∈ s.acts := hs.acts.subset (List.mem_cons_self ..)
  have hxf := hi.fits x hxm
  -- contexts below a handler that is still there
  have hcut : ∀ n, base ≤ n → n ≤ s.frames.length → ∀ j, j < base →
      ((outside n s.frames).reverse[j]?).map Frame.specs = (fs.reverse[j]?).map Frame.specs := by
    intro n h1 h2 j hj
    rw [outside_get _ _ h2, if_pos (by omega)]
    exact hs.specs j hj
  have hres : ∀ a acts, s.acts = a :: acts → (x :: l').length ≤ acts.length →
      Stays (x :: l') base fs (resume s a acts) := by
    intro a acts ha hlen
    have hsuf : x :: l' <:+ acts := by
      have h1 := hs.acts
      rw [ha] at h1
      rcases List.suffix_cons_iff.1 h1 with h1 | h1
      · have := congrArg List.length h1
        rw [List.length_cons (a := a)] at this
        omega
      · exact h1
    have hso := hi.sorted
    rw [ha, List.pairwise_cons] at hso
    have hab : base ≤ a.base := by rw [← hxb]; exact hso.1 x (hsuf.subset (List.mem_cons_self ..))
    have haf := hi.fits a (by rw [ha]; exact List.mem_cons_self ..)
    refine ⟨hsuf, hs.first, ?_⟩
    intro j hj
    simp only [resume]
    rw [put_specs]
    exact hcut a.base hab haf.2 j hj
  cases op with
  | enter specs =>
    cases h
    refine ⟨hs.acts, hs.first, ?_⟩
    intro j hj
    simp only [get_rev_cons]
    rw [if_neg (by omega)]
    exact hs.specs j hj
  | leave =>
    rw [step] at h
    cases hf : s.frames with
    | nil => simp only [hf] at h; cases h
    | cons f fs' =>
      have hsp := hs.specs
      rw [hf] at hsp
      cases ha : s.acts with
      | nil => rw [ha] at hxm; cases hxm
      | cons a acts =>
        simp only [hf, ha] at h
        by_cases hb : a.base ≤ fs'.length
        · rw [if_pos hb] at h
          cases h
          have hso := hi.sorted
          rw [ha, List.pairwise_cons] at hso
          have hab : base ≤ a.base := by
            rw [ha] at hxm
            rcases List.mem_cons.1 hxm with h | h
            · rw [← h, hxb]; exact Nat.le_refl _
            · rw [← hxb]; exact hso.1 x h
          refine ⟨by rw [← ha]; exact hs.acts, hs.first, ?_⟩
          intro j hj
          have := hsp j hj
          rw [get_rev_cons, if_neg (by omega)] at this
          exact this
        · rw [if_neg hb] at h; cases h
  | signal c =>
    rw [step] at h
    cases hse : search c s.frames with
    | none => rw [hse] at h; cases h; exact hs
    | some r =>
      rw [hse] at h
      cases h
      refine ⟨hs.acts.trans (List.suffix_cons ..), hs.first, ?_⟩
      intro j hj
      simp only [start]
      rw [put_specs]
      exact hs.specs j hj
  | outer c =>
    rw [step] at h
    cases ha : s.acts with
    | nil => rw [ha] at h; cases h
    | cons a acts =>
      rw [ha] at h
      simp only at h
      cases hse : search c (outside a.height s.frames) with
      | none => rw [hse] at h; cases h; exact hs
      | some r =>
        rw [hse] at h
        cases h
        refine ⟨hs.acts.trans (List.suffix_cons ..), hs.first, ?_⟩
        intro j hj
        simp only [start]
        rw [put_specs]
        exact hs.specs j hj
  | resume =>
    rw [step] at h
    cases ha : s.acts with
    | nil => rw [ha] at h; cases h
    | cons a acts =>
      rw [ha] at h
      cases h
      exact hres a acts ha hlen
  | finish =>
    rw [step] at h
    cases ha : s.acts with
    | nil => rw [ha] at h; cases h
    | cons a acts =>
      rw [ha] at h
      simp only at h
      cases hr : a.resumes
      · rw [hr, if_neg (by simp)] at h
        cases h
        simp only [exit] at hlen
        have hsuf : x :: l' <:+ s.acts.filter (·.base ≤ a.height) :=
          List.suffix_of_suffix_length_le hs.acts (filter_suffix hi.sorted _) hlen
        refine ⟨hsuf, hs.first, ?_⟩
        intro j hj
        simp only [exit]
        have hk : base ≤ a.height := by
          have := hsuf.subset (List.mem_cons_self ..)
          rw [List.mem_filter] at this
          rw [← hxb]
          exact of_decide_eq_true this.2
        have haf := hi.fits a (by rw [ha]; exact List.mem_cons_self ..)
        exact hcut a.height hk (by omega) j hj
      · rw [hr, if_pos rfl] at h
        cases h
        exact hres a acts ha hlen
  | «return» => exact hp.elim
  | reinstate => exact hp.elim

theorem stays_run {l : List Act} {base : Nat} {fs : List Frame} {s s' : St} {ops : List Op}
    (hl : l ≠ []) (hi : Inv s) (hp : ProperRun s ops) (hs : Stays l base fs s)
    (h : run s ops = some s')
    (hlen : ∀ p s1, p <+: ops → run s p = some s1 → l.length ≤ s1.acts.length) :
    Stays l base fs s' := by
  induction ops generalizing s with
  | nil => cases h; exact hs
  | cons op ops ih =>
    rw [run] at h
    cases hst : step s op with
    | none => rw [hst] at h; cases h
    | some s1 =>
      rw [hst] at h
      have h1 : l.length ≤ s1.acts.length := hlen [op] s1 (by simp) (by simp only [run, hst])
      refine ih (step_inv hi hp.1 hst) (hp.2 s1 hst) (stays_step hl hi hp.1 hs hst h1) h ?_
      intro p s2 hpre hrun
      refine hlen (op :: p) s2 (by rw [List.cons_prefix_cons]; exact ⟨rfl, hpre⟩) ?_
      rw [run, hst]
      exact hrun

/-- The masks are determined by the handlers that run. -/
theorem inv_active {s s' : St} (h : Inv s) (h' : Inv s') (ha : s'.acts = s.acts) {j : Nat}
    {f f' : Frame} (hf : s.frames.reverse[j]? = some f) (hf' : s'.frames.reverse[j]? = some f') :
    f'.active = f.active := by
  by_cases hex : ∃ a ∈ s.acts, a.height = j
  · obtain ⟨a, hm, e⟩ := hex
    rw [h.on j f hf a hm e, h'.on j f' hf' a (by rw [ha]; exact hm) e]
  · rw [h.off j f hf (fun a hm e => hex ⟨a, hm, e⟩),
      h'.off j f' hf' (fun a hm e => hex ⟨a, by rw [← ha]; exact hm, e⟩)]

/-- Full statement: without the conditions that steps be proper.

An exception is signalled, its handler does whatever it likes (`ops`) and in the end resumes: all
`on:do:` contexts and handlers are as they were, so the handlers are enabled and disabled as
before. -/
theorem resume_restores_partial (before ops : List Op) (s s1 s2 s3 : St) (c : Cls)
    (hp : ProperRun empty before) (hr : run empty before = some s)
    (h1 : step s (.signal c) = some s1) (hfound : s1.acts.length = s.acts.length + 1)
    (hp1 : Proper s (.signal c)) (hp2 : ProperRun s1 ops) (h2 : run s1 ops = some s2)
    (hstay : ∀ p s', p <+: ops → run s1 p = some s' → s.acts.length < s'.acts.length)
    (hlast : s2.acts.length = s.acts.length + 1) (h3 : step s2 .resume = some s3) : s3 = s := by
  have hi := run_inv empty_inv hp hr
  have hi1 := step_inv hi hp1 h1
  have hi2 := run_inv hi1 hp2 h2
  have hi3 := step_inv (op := .resume) hi2 trivial h3
  rw [step] at h1
  cases hse : search c s.frames with
  | none => rw [hse] at h1; cases h1; omega
  | some r =>
    rw [hse] at h1
    have h1 := (Option.some.inj h1).symm
    have hst1 : Stays s1.acts s.frames.length s.frames s1 := by
      refine ⟨List.suffix_refl _, ?_, ?_⟩
      · intro a ha; rw [h1] at ha; cases ha; rfl
      · intro j _; rw [h1]; simp only [start]; rw [put_specs]
    have hst2 := stays_run (by rw [h1]; simp [start]) hi1 hp2 hst1 h2
      (fun p s' hpre hrun => by rw [hfound]; exact hstay p s' hpre hrun)
    have he : s2.acts = s1.acts := (hst2.acts.eq_of_length (by omega)).symm
    rw [step, he, h1] at h3
    simp only [start] at h3
    have h3 := (Option.some.inj h3).symm
    have ha3 : s3.acts = s.acts := by rw [h3]; rfl
    have hlen2 : s.frames.length ≤ s2.frames.length := by
      have := (hi2.fits ⟨r.1, r.2.1, r.2.2, s.frames.length, false⟩
        (by rw [he, h1]; exact List.mem_cons_self ..)).2
      exact this
    have hspec : ∀ j : Nat, (s3.frames.reverse[j]?).map Frame.specs =
        (s.frames.reverse[j]?).map Frame.specs := by
      intro j
      rw [h3]
      simp only [resume]
      rw [put_specs, outside_get _ _ hlen2]
      by_cases hj : j < s.frames.length
      · rw [if_pos hj]; exact hst2.specs j hj
      · rw [if_neg hj, List.getElem?_eq_none (by simp; omega)]
    have hfr : s3.frames = s.frames := by
      apply frames_ext
      intro j
      have hj := hspec j
      cases e : s.frames.reverse[j]? with
      | none =>
        rw [e] at hj
        cases e3 : s3.frames.reverse[j]? with
        | none => rfl
        | some f3 => rw [e3] at hj; cases hj
      | some f =>
        rw [e] at hj
        cases e3 : s3.frames.reverse[j]? with
        | none => rw [e3] at hj; cases hj
        | some f3 =>
          rw [e3] at hj
          simp only [Option.map_some, Option.some.injEq] at hj
          have := inv_active hi hi3 ha3 e e3
          cases f; cases f3
          simp only at hj this
          rw [hj, this]
    cases s3; cases s
    simp only at ha3 hfr
    rw [ha3, hfr]

/-- If the handler resumes at once the state is restored whatever it was, also if other handlers
of the same `on:do:` run. -/
theorem resume_at_once (s s1 : St) (c : Cls) (h : step s (.signal c) = some s1)
    (hfound : s1.acts.length = s.acts.length + 1) : step s1 .resume = some s := by
  rw [step] at h
  cases hse : search c s.frames with
  | none => rw [hse] at h; cases h; omega
  | some r =>
    rw [hse] at h
    cases h
    obtain ⟨x, k, m⟩ := r
    obtain ⟨⟨f, h1, -, h3⟩, -⟩ := search_some hse
    rw [step]
    simp only [start, resume]
    have : put x m (outside s.frames.length (put x (setActive m k) s.frames)) = s.frames := by
      apply frames_ext
      intro j
      rw [put_get, outside_get _ _ (by rw [put_length]; exact Nat.le_refl _), put_get]
      by_cases hj : j = x
      · rw [if_pos hj, if_pos hj, hj, if_pos (lt_of_get h1), h1, h3]
        rfl
      · rw [if_neg hj, if_neg hj]
        by_cases hl : j < s.frames.length
        · rw [if_pos hl]
        · rw [if_neg hl, List.getElem?_eq_none (by simp; omega)]
    rw [this]

example : ∃ s s1, run empty [.enter [[error], [zeroDivide]], .signal error] = some s ∧
    step s (.signal zeroDivide) = some s1 ∧ s1.acts.length = s.acts.length + 1 :=
  ⟨_, _, rfl, rfl, rfl⟩

/-! ### What is wrong -/

/-- `[[Error signal] on: ZeroDivide do: [:e | …]] on: Error do: [:e | ZeroDivide new signal]`:
the handler of the outer `on:do:` runs, and the exception signalled in it is given to the inner
one. -/
theorem inner_handler_seen : ∃ s a, run empty [.enter [[error]], .enter [[zeroDivide]],
    .signal error] = some s ∧ s.acts = [a] ∧ a.height = 0 ∧
    search zeroDivide s.frames = some (1, 0, 0) ∧ Hidden a 1 :=
  ⟨_, _, rfl, rfl, rfl, rfl, by decide, by decide⟩

/-- The same for the other handlers of one `on:do:on:do:`. -/
theorem sibling_handler_seen : ∃ s a, run empty [.enter [[error], [zeroDivide]],
    .signal error] = some s ∧ s.acts = [a] ∧ search zeroDivide s.frames = some (0, 1, 1) ∧
    Hidden a 0 :=
  ⟨_, _, rfl, rfl, rfl, by decide, by decide⟩

/-- If then the inner handler ends, control goes on after the inner `on:do:`.  The outer handler
does not run any more, but it is still disabled: the next `Error` is not handled. -/
theorem handler_left_disabled : ∃ s, run empty [.enter [[error]], .enter [[zeroDivide]],
    .signal error, .signal zeroDivide, .finish] = some s ∧ s.acts = [] ∧
    s.frames.map Frame.specs = [[[error]]] ∧ search error s.frames = none :=
  ⟨_, rfl, rfl, rfl, rfl⟩

/-- A handler that runs evaluates
`[ZeroDivide new signal] on: ZeroDivide do: [:e | e return: nil]`: after that it is enabled
while it runs, and gets the exceptions it signals. -/
theorem return_reinstates_running : ∃ s a, run empty [.enter [[error]], .signal error,
    .enter [[zeroDivide]], .signal zeroDivide, .return] = some s ∧ s.acts = [a] ∧ a.height = 0 ∧
    a.which = 0 ∧ search error s.frames = some (0, 0, 0) :=
  ⟨_, _, rfl, rfl, rfl, rfl, rfl⟩

/-! ### A proper run -/

/-- An `Error` in a handler for an `Error`, one handler inside the handler, `outer`, and
resumption. -/
def sample : List Op := [.enter [[error], [zeroDivide]], .enter [[error, zeroDivide]], .signal error,
  .enter [[zeroDivide]], .signal zeroDivide, .outer zeroDivide]

instance (b : Act) (h : Nat) : Decidable (Hidden b h) := inferInstanceAs (Decidable (_ ∧ _))

theorem proper_cons {s s' : St} {op : Op} {ops : List Op} (h : Proper s op)
    (hs : step s op = some s') (hr : ProperRun s' ops) : ProperRun s (op :: ops) := by
  refine ⟨h, fun s'' h' => ?_⟩
  rw [hs] at h'
  cases h'
  exact hr

example : ProperRun empty sample ∧ ∃ s, run empty sample = some s ∧ s.acts.length = 3 := by
  refine ⟨?_, _, rfl, rfl⟩
  refine proper_cons trivial rfl (proper_cons trivial rfl (proper_cons ?_ rfl
    (proper_cons trivial rfl (proper_cons ?_ rfl (proper_cons ?_ rfl trivial)))))
  · intro h k m _ b hb; cases hb
  · intro h k m hs
    cases hs
    decide
  · intro a acts ha h k m hs
    cases ha
    cases hs
    decide

/-- The handler makes an `on:do:` of its own, gets an exception with it and resumes that, leaves
it, and resumes. -/
example : ∃ s s1 s2, run empty [.enter [[error]], .enter [[error, zeroDivide]]] = some s ∧
    step s (.signal error) = some s1 ∧ s1.acts.length = s.acts.length + 1 ∧
    run s1 [.enter [[zeroDivide]], .signal zeroDivide, .resume, .leave] = some s2 ∧
    s2 ≠ s ∧ s2.acts.length = s.acts.length + 1 ∧ step s2 .resume = some s :=
  ⟨_, _, _, rfl, rfl, rfl, rfl, by decide, rfl, rfl⟩

end Verif.Handlers
