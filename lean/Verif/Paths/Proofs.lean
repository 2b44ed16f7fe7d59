import Verif.Paths.Model

/-! # Lemmas about names of files -/

namespace Verif.Paths

open Verif.Strings

/-! ### The last character of a kind -/

theorem findLast_succ (b : Char → Option Bool) (xs : Txt) (i : ℕ) : findLast b xs (i + 1) = match xs[i]? with
    | none => some 0
    | some c => match b c with
      | none => none
      | some true => some (i + 1)
      | some false => findLast b xs i := rfl

theorem findLast_prefix (b : Char → Option Bool) (xs ys : Txt) : ∀ i, i ≤ xs.length → findLast b (xs ++ ys) i = findLast b xs i := by
  intro i
  induction i with
  | zero => intro _; rfl
  | succ i ih =>
    intro h
    rw [findLast_succ, findLast_succ, List.getElem?_append_left (by omega), ih (by omega)]

theorem findLast_snoc (b : Char → Option Bool) (xs : Txt) (c : Char) : findLast b (xs ++ [c]) (xs ++ [c]).length =
    match b c with
    | none => none
    | some true => some (xs.length + 1)
    | some false => findLast b xs xs.length := by
  rw [List.length_append, List.length_singleton, findLast_succ, List.getElem?_append_right (le_refl _), Nat.sub_self,
    List.getElem?_cons_zero, findLast_prefix _ _ _ _ (le_refl _)]

/-- Characters of which the block says no are passed over. -/
theorem findLast_skip (b : Char → Option Bool) (xs post : Txt) (h : ∀ c ∈ post, b c = some false) :
    findLast b (xs ++ post) (xs ++ post).length = findLast b xs xs.length := by
  induction post using List.reverseRecOn with
  | nil => simp
  | append_singleton ps c ih =>
    rw [← List.append_assoc, findLast_snoc, h c (by simp)]
    exact ih fun d hd => h d (by simp [hd])

theorem lastSlash_none (xs : Txt) (h : '/' ∉ xs) : lastSlash xs = 0 := by
  have := findLast_skip (fun c => some (slash c)) [] xs (by
    intro c hc
    have : c ≠ '/' := fun e => h (e ▸ hc)
    simp [slash, this])
  rw [List.nil_append] at this
  unfold lastSlash
  rw [this]
  rfl

theorem lastSlash_at (pre post : Txt) (h : '/' ∉ post) : lastSlash (pre ++ '/' :: post) = pre.length + 1 := by
  have := findLast_skip (fun c => some (slash c)) (pre ++ ['/']) post (by
    intro c hc
    have : c ≠ '/' := fun e => h (e ▸ hc)
    simp [slash, this])
  unfold lastSlash
  rw [show pre ++ '/' :: post = pre ++ ['/'] ++ post by simp, this, findLast_snoc]
  rfl

/-- A name with a separator is what is before the last and what is after. -/
theorem last_split (d : Char) (xs : Txt) (h : d ∈ xs) : ∃ pre post, xs = pre ++ d :: post ∧ d ∉ post := by
  induction xs with
  | nil => simp at h
  | cons c cs ih =>
    by_cases hc : d ∈ cs
    · obtain ⟨pre, post, he, hp⟩ := ih hc
      exact ⟨c :: pre, post, by rw [he]; rfl, hp⟩
    · rcases List.mem_cons.1 h with rfl | h
      · exact ⟨[], cs, rfl, hc⟩
      · exact absurd h hc

theorem copy_tail (pre post : Txt) : copyFrom (pre ++ post) (pre.length + 1) (pre ++ post).length = post := by
  unfold copyFrom
  simp

theorem copy_head (pre post : Txt) : copyFrom (pre ++ post) 1 pre.length = pre := by
  unfold copyFrom
  simp

/-! ### Walking -/

/-- What one part of a name does to the place one is at (the names of the directories from the root down): an empty part and `.` stay,
`..` goes up, and not above the root, and any other goes down. -/
def go (pos : List Txt) (w : Txt) : List Txt :=
  if w = [] ∨ w = ".".toList then pos else if w = "..".toList then pos.dropLast else pos ++ [w]

/-- The place that a name means to someone at `cwd`. -/
def resolve (cwd : List Txt) (s : Txt) : List Txt := (s.splitOnP (· = '/')).foldl go (if s.head? = some '/' then [] else cwd)

/-- The name of a place. -/
def name (pos : List Txt) : Txt := if pos = [] then ['/'] else pos.flatMap fun p => '/' :: p

/-- A directory or file can have this name. -/
def Proper (w : Txt) : Prop := w ≠ [] ∧ w ≠ ".".toList ∧ w ≠ "..".toList ∧ '/' ∉ w

instance (w : Txt) : Decidable (Proper w) := by unfold Proper; infer_instance

theorem split_append (a b : Txt) : (a ++ '/' :: b).splitOnP (· = '/') = a.splitOnP (· = '/') ++ b.splitOnP (· = '/') := by
  induction a with
  | nil => simp [List.splitOnP_cons_eq_if_modifyHead]
  | cons c cs ih =>
    rw [List.cons_append, List.splitOnP_cons_eq_if_modifyHead, List.splitOnP_cons_eq_if_modifyHead, ih]
    by_cases hc : c = '/'
    · simp [hc]
    · simp only [hc, decide_false, Bool.false_eq_true, if_false]
      have : cs.splitOnP (fun x => decide (x = '/')) ≠ [] := List.splitOnP_ne_nil _ _
      cases hs : cs.splitOnP (fun x => decide (x = '/')) with
      | nil => exact absurd hs this
      | cons q qs => simp

theorem split_none (a : Txt) (h : '/' ∉ a) : a.splitOnP (· = '/') = [a] := by
  induction a with
  | nil => rfl
  | cons c cs ih =>
    rw [List.mem_cons, not_or] at h
    rw [List.splitOnP_cons_eq_if_modifyHead, ih h.2]
    have : c ≠ '/' := fun e => h.1 e.symm
    simp [this]

theorem split_noslash (xs : Txt) : ∀ p ∈ xs.splitOnP (· = '/'), '/' ∉ p := by
  induction xs with
  | nil => intro p hp; simp at hp; subst hp; simp
  | cons c cs ih =>
    intro p hp
    rw [List.splitOnP_cons_eq_if_modifyHead] at hp
    by_cases hc : c = '/'
    · simp only [hc, decide_true, if_true, List.mem_cons] at hp
      rcases hp with rfl | hp
      · simp
      · exact ih p hp
    · simp only [hc, decide_false, Bool.false_eq_true, if_false] at hp
      cases hs : cs.splitOnP (fun x => decide (x = '/')) with
      | nil => rw [hs] at hp; simp at hp
      | cons q qs =>
        rw [hs] at hp ih
        simp only [List.modifyHead_cons, List.mem_cons] at hp
        rcases hp with rfl | hp
        · have := ih q (by simp)
          simp [this, Ne.symm hc]
        · exact ih p (by simp [hp])

/-- Parts that are empty do nothing, so that they can be left out. -/
theorem go_filter (ws : List Txt) : ∀ pos, (ws.filter fun w => !w.isEmpty).foldl fullStep pos = ws.foldl go pos := by
  induction ws with
  | nil => intro _; rfl
  | cons w ws ih =>
    intro pos
    rw [List.foldl_cons, ← ih]
    cases w with
    | nil => simp [go]
    | cons c cs =>
      rw [List.filter_cons_of_pos (by simp), List.foldl_cons]
      congr 1
      unfold fullStep go
      have h1 : ".".toList = ['.'] := rfl
      have h2 : "..".toList = ['.', '.'] := rfl
      rw [h1, h2]
      simp only [reduceCtorEq, false_or]
      split
      · rfl
      · split
        · cases pos <;> simp
        · rfl

theorem go_proper (pos : List Txt) (w : Txt) (hp : ∀ q ∈ pos, Proper q) (hw : '/' ∉ w) : ∀ q ∈ go pos w, Proper q := by
  unfold go
  intro q hq
  split at hq
  · exact hp q hq
  · rename_i h1
    split at hq
    · exact hp q (List.mem_of_mem_dropLast hq)
    · rename_i h2
      rw [not_or] at h1
      rcases List.mem_append.1 hq with hq | hq
      · exact hp q hq
      · rw [List.mem_singleton.1 hq]
        exact ⟨h1.1, h1.2, h2, hw⟩

theorem fold_proper (ws : List Txt) : ∀ pos : List Txt, (∀ q ∈ pos, Proper q) → (∀ w ∈ ws, '/' ∉ w) → ∀ q ∈ ws.foldl go pos, Proper q := by
  induction ws with
  | nil => intro pos hp _; exact hp
  | cons w ws ih =>
    intro pos hp hw
    rw [List.foldl_cons]
    exact ih _ (go_proper pos w hp (hw w (by simp))) fun v hv => hw v (by simp [hv])

theorem resolve_proper (cwd : List Txt) (s : Txt) (h : ∀ q ∈ cwd, Proper q) : ∀ q ∈ resolve cwd s, Proper q := by
  unfold resolve
  refine fold_proper _ _ ?_ (split_noslash s)
  split
  · simp
  · exact h

theorem go_down (ws : List Txt) : ∀ pos : List Txt, (∀ q ∈ ws, Proper q) → ws.foldl go pos = pos ++ ws := by
  induction ws with
  | nil => simp
  | cons w ws ih =>
    intro pos h
    have hw := h w (by simp)
    rw [List.foldl_cons, ih _ fun q hq => h q (by simp [hq])]
    unfold go
    rw [if_neg (by rw [not_or]; exact ⟨hw.1, hw.2.1⟩), if_neg hw.2.2.1]
    simp

theorem split_name (pos : List Txt) (h : ∀ q ∈ pos, '/' ∉ q) :
    (pos.flatMap fun p => '/' :: p).splitOnP (· = '/') = [] :: pos := by
  have key : ∀ (ps : List Txt) (a : Txt), '/' ∉ a → (∀ q ∈ ps, '/' ∉ q) →
      (a ++ ps.flatMap fun p => '/' :: p).splitOnP (· = '/') = a :: ps := by
    intro ps
    induction ps with
    | nil => intro a ha _; simp only [List.flatMap_nil, List.append_nil]; exact split_none a ha
    | cons p ps ih =>
      intro a ha hp
      rw [List.flatMap_cons, List.cons_append, split_append, split_none a ha, ih p (hp p (by simp)) fun q hq => hp q (by simp [hq])]
      rfl
  exact key pos [] (by simp) h

/-- A name of a place means that place to everyone. -/
theorem resolve_name (cwd pos : List Txt) (h : ∀ q ∈ pos, Proper q) : resolve cwd (name pos) = pos := by
  unfold resolve name
  by_cases hp : pos = []
  · simp [hp, List.splitOnP_cons_eq_if_modifyHead, go]
  · rw [if_neg hp, split_name pos (fun q hq => (h q hq).2.2.2)]
    cases pos with
    | nil => exact absurd rfl hp
    | cons p ps =>
      have := go_down (p :: ps) [] h
      simp only [List.flatMap_cons, List.cons_append, List.head?_cons, if_true, List.foldl_cons] at this ⊢
      rw [show go [] [] = [] from rfl]
      exact this

theorem sub_name (pos : List Txt) (h : ∀ q ∈ pos, Proper q) : subStrings slash (name pos) = pos := by
  rw [subStrings_eq]
  unfold name slash
  by_cases hp : pos = []
  · simp [hp, List.splitOnP_cons_eq_if_modifyHead]
  · rw [if_neg hp, split_name pos (fun q hq => (h q hq).2.2.2), List.filter_cons_of_neg (by simp), List.filter_eq_self]
    intro q hq
    have := (h q hq).1
    cases q <;> simp_all

theorem inject_name (pos : List Txt) : ∀ acc : Txt, pos.foldl (fun old each => old ++ ['/'] ++ each) acc = acc ++ pos.flatMap fun p => '/' :: p := by
  induction pos with
  | nil => simp
  | cons p ps ih => intro acc; rw [List.foldl_cons, ih]; simp

/-- What `fullNameFor:` answers is the name of the place. -/
theorem full_eq (cwd : List Txt) (s : Txt) (h : ∀ q ∈ cwd, Proper q) (hs : s ≠ []) :
    fullNameFor (name cwd) s = .done (name (resolve cwd s)) := by
  have hr : resolve cwd s = (subStrings slash s).foldl fullStep (if s.head? = some '/' then [] else cwd) := by
    rw [subStrings_eq]
    exact (go_filter _ _).symm
  cases s with
  | nil => exact absurd rfl hs
  | cons c cs =>
    unfold fullNameFor isAbsolute
    simp only [Out.bind, sub_name cwd h]
    have hc : (if slash c = true then [] else cwd) = if (c :: cs).head? = some '/' then [] else cwd := by
      by_cases hc : c = '/' <;> simp [slash, hc]
    rw [hc, ← hr]
    unfold name
    cases resolve cwd (c :: cs) with
    | nil => rfl
    | cons p ps => simp only [List.isEmpty_cons, Bool.false_eq_true, if_false, inject_name]; simp

theorem name_ne (pos : List Txt) : name pos ≠ [] := by
  unfold name
  cases pos <;> simp

/-! ### The way from one place to another -/

theorem fold_slash (p : Txt) (ps : List Txt) : foldSlash (p :: ps) = .done (p ++ ps.flatMap fun q => '/' :: q) := by
  show Out.done _ = _
  rw [inject_name]

theorem resolve_parts (cwd : List Txt) (p : Txt) (ps : List Txt) (h : ∀ q ∈ p :: ps, '/' ∉ q) (hp : p ≠ []) :
    resolve cwd (p ++ ps.flatMap fun q => '/' :: q) = (p :: ps).foldl go cwd := by
  unfold resolve
  have h1 := split_name (p :: ps) h
  rw [List.flatMap_cons, List.cons_append] at h1
  rw [List.splitOnP_cons_eq_if_modifyHead] at h1
  simp only [decide_true, if_true, List.cons.injEq, true_and] at h1
  rw [h1]
  have : (p ++ ps.flatMap fun q => '/' :: q).head? ≠ some '/' := by
    cases p with
    | nil => exact absurd rfl hp
    | cons c cs =>
      have := h (c :: cs) (by simp)
      simp only [List.cons_append, List.head?_cons, ne_eq, Option.some.injEq]
      rintro rfl
      simp at this
  rw [if_neg this]

theorem go_up (k : ℕ) : ∀ pos : List Txt, (List.replicate k ['.', '.']).foldl go pos = pos.take (pos.length - k) := by
  induction k with
  | zero => simp
  | succ k ih =>
    intro pos
    rw [List.replicate_succ, List.foldl_cons, show go pos ['.', '.'] = pos.dropLast from rfl, ih, List.dropLast_eq_take, List.take_take,
      List.length_take]
    congr 1
    omega

theorem dropCommon_spec : ∀ (src dest : List Txt), dest ≠ [] → ∃ com, src = com ++ (dropCommon src dest).1 ∧
    dest = com ++ (dropCommon src dest).2 ∧ (dropCommon src dest).2 ≠ [] := by
  intro src
  induction src with
  | nil => intro dest h; exact ⟨[], rfl, rfl, h⟩
  | cons s src ih =>
    intro dest h
    unfold dropCommon
    split
    · exact ⟨[], rfl, rfl, h⟩
    · rename_i hc
      rw [not_or, not_not] at hc
      cases dest with
      | nil => exact absurd rfl h
      | cons d ds =>
        simp only [List.head?_cons, Option.some.injEq, List.length_cons] at hc
        obtain ⟨h1, rfl⟩ := hc
        obtain ⟨com, e1, e2, e3⟩ := ih ds (by rintro rfl; simp at h1)
        refine ⟨d :: com, ?_, ?_, e3⟩
        · rw [List.cons_append]; exact congrArg _ e1
        · rw [List.cons_append]; exact congrArg _ e2

end Verif.Paths
