import Verif.Pools.Proofs

/-! # Properties of the search order of names -/

namespace Verif.Pools

variable {g : Graph} {sup : ℕ → List ℕ}

/-- A set of pools with all their superspaces. -/
def Closed (sup : ℕ → List ℕ) (s : List ℕ) : Prop := ∀ x ∈ s, ∀ y ∈ sup x, y ∈ s

/-- Of a chain of superspaces, those before the first in a closed set are those that are not in it. -/
theorem takeWhile_closed (h : WF g sup) (s : List ℕ) (hs : Closed sup s) : ∀ (k q : ℕ), (sup q).length = k →
    (sup q).takeWhile (fun x => decide (x ∉ s)) = (sup q).filter (fun x => decide (x ∉ s)) := by
  intro k
  induction k with
  | zero => intro q hk; rw [List.length_eq_zero_iff.1 hk]; rfl
  | succ k ih =>
    intro q hk
    by_cases hq : q ∈ s
    · have hall : ∀ y ∈ sup q, y ∈ s := hs q hq
      have hf : (sup q).filter (fun x => decide (x ∉ s)) = [] := by
        rw [List.filter_eq_nil_iff]
        intro y hy
        simpa using hall y hy
      rw [hf]
      cases he : sup q with
      | nil => rfl
      | cons y ys => rw [List.takeWhile_cons_of_neg (by simpa using hall y (by rw [he]; simp))]
    · cases hsp : g.isSpace q with
      | false =>
        cases hd : g.isDict q with
        | false => rw [h.other hd]; rfl
        | true => rw [h.leaf hsp hd, List.takeWhile_cons_of_pos (by simpa using hq), List.filter_cons_of_pos (by simpa using hq)]; rfl
      | true =>
        rw [h.space hsp] at hk ⊢
        rw [List.takeWhile_cons_of_pos (by simpa using hq), List.filter_cons_of_pos (by simpa using hq), ih _ (by simpa using hk)]

theorem merged_mem (h : WF g sup) (w : List ℕ) (hw : Closed sup w) : ∀ ps : List ℕ,
    (∀ x, x ∈ merged g sup w ps ↔ x ∉ w ∧ ∃ p ∈ ps, x ∈ sup (asPool g p)) ∧ Closed sup (w ++ merged g sup w ps) := by
  intro ps
  induction ps with
  | nil => exact ⟨by simp [merged], by simpa [merged] using hw⟩
  | cons p ps ih =>
    have hm : ∀ x, x ∈ merged g sup w (p :: ps) ↔ x ∉ w ∧ ∃ q ∈ p :: ps, x ∈ sup (asPool g q) := by
      intro x
      rw [merged_cons, takeWhile_closed h _ ih.2 _ _ rfl, List.mem_append, List.mem_filter, decide_eq_true_eq, List.mem_append]
      constructor
      · rintro (⟨h1, h2⟩ | h1)
        · exact ⟨fun h3 => h2 (.inl h3), p, by simp, h1⟩
        · obtain ⟨h2, q, hq, h3⟩ := (ih.1 x).1 h1
          exact ⟨h2, q, by simp [hq], h3⟩
      · rintro ⟨h1, q, hq, h2⟩
        by_cases hx : x ∈ merged g sup w ps
        · exact .inr hx
        · rcases List.mem_cons.1 hq with rfl | hq
          · exact .inl ⟨h2, by rintro (h3 | h3); exact h1 h3; exact hx h3⟩
          · exact absurd ((ih.1 x).2 ⟨h1, q, hq, h2⟩) hx
    refine ⟨hm, ?_⟩
    intro x hx y hy
    rw [List.mem_append] at hx ⊢
    rcases hx with hx | hx
    · exact .inl (hw x hx y hy)
    · by_cases hyw : y ∈ w
      · exact .inl hyw
      · obtain ⟨-, q, hq, hxq⟩ := (hm x).1 hx
        exact .inr ((hm y).2 ⟨hyw, q, hq, h.closed hxq hy⟩)

theorem merged_nodup (h : WF g sup) (w : List ℕ) (hw : Closed sup w) (ps : List ℕ) : (merged g sup w ps).Nodup := by
  induction ps with
  | nil => exact List.nodup_nil
  | cons p ps ih =>
    rw [merged_cons, takeWhile_closed h _ (merged_mem h w hw ps).2 _ _ rfl]
    refine List.nodup_append.2 ⟨(h.nodup _ _ rfl).filter _, ih, ?_⟩
    rintro a ha b hb rfl
    rw [List.mem_filter, decide_eq_true_eq, List.mem_append, not_or] at ha
    exact ha.2.2 hb

theorem merged_before (h : WF g sup) (w : List ℕ) (hw : Closed sup w) (ps : List ℕ) : ∀ x y, x ∈ merged g sup w ps → y ∈ merged g sup w ps →
    y ∈ sup x → y ≠ x → List.Sublist [x, y] (merged g sup w ps) := by
  induction ps with
  | nil => intro x y hx; simp [merged] at hx
  | cons p ps ih =>
    obtain ⟨hm, hcl⟩ := merged_mem h w hw ps
    intro x y hx hy hyx hne
    rw [merged_cons, takeWhile_closed h _ hcl _ _ rfl] at hx hy ⊢
    rcases List.mem_append.1 hx with hx | hx
    · rcases List.mem_append.1 hy with hy | hy
      · have h1 : List.Sublist [x, y] (sup (asPool g p)) := by
          have hxs := (List.mem_filter.1 hx).1
          refine List.Sublist.trans ?_ (h.suffix _ _ x rfl hxs).sublist
          cases hs : g.isSpace x with
          | false =>
            rw [h.leaf hs (h.self hxs).2] at hyx
            exact absurd (List.mem_singleton.1 hyx) hne
          | true =>
            rw [h.space hs] at hyx ⊢
            rcases List.mem_cons.1 hyx with hyx | hyx
            · exact absurd hyx hne
            · exact List.Sublist.cons_cons _ (List.singleton_sublist.2 hyx)
        have h2 := h1.filter (fun z => decide (z ∉ w ++ merged g sup w ps))
        have e : [x, y].filter (fun z => decide (z ∉ w ++ merged g sup w ps)) = [x, y] := by
          rw [List.filter_eq_self]
          intro z hz
          rcases List.mem_cons.1 hz with rfl | hz
          · exact (List.mem_filter.1 hx).2
          · rw [List.mem_singleton.1 hz]; exact (List.mem_filter.1 hy).2
        rw [e] at h2
        exact h2.trans (List.sublist_append_left _ _)
      · exact (List.singleton_sublist.2 hx).append (List.singleton_sublist.2 hy)
    · rcases List.mem_append.1 hy with hy | hy
      · have h1 := (List.mem_filter.1 hy).2
        rw [decide_eq_true_eq] at h1
        exact absurd (hcl x (List.mem_append_right _ hx) y hyx) h1
      · exact (ih x y hx hy hyx hne).trans (List.sublist_append_right _ _)

theorem merged_suffix (w : List ℕ) (a b : List ℕ) : merged g sup w b <:+ merged g sup w (a ++ b) := by
  induction a with
  | nil => exact List.suffix_refl _
  | cons p a ih => rw [List.cons_append, merged_cons]; exact ih.trans (List.suffix_append _ _)

/-! ### C186: shared pools -/

/-- The shared pools of a class or namespace, in a search order: no pool comes twice; those come that are given, and their superspaces, but
for those that are reached otherwise (`w`); spaces come before their superspaces; and a pool comes before those to the right of it and
their superspaces, unless it is a superspace of one. -/
theorem shared_order (h : WF g sup) (n : ℕ) (hn : ∀ p, (sup p).length < n) (ps w : List ℕ) (hw : Closed sup w) :
    ∃ l, combine g n ps w [] false = some (l, false) ∧ l.Nodup ∧ (∀ x, x ∈ l ↔ x ∉ w ∧ ∃ p ∈ ps, x ∈ sup (asPool g p)) ∧
      (∀ x y, x ∈ l → y ∈ l → y ∈ sup x → y ≠ x → List.Sublist [x, y] l) ∧
      ∀ a p b, ps = a ++ p :: b → g.isDict (asPool g p) = true → asPool g p ∉ w → (∀ p' ∈ b, asPool g p ∉ sup (asPool g p')) →
        ∀ p' ∈ b, ∀ y ∈ sup (asPool g p'), y ∉ w → List.Sublist [asPool g p, y] l := by
  refine ⟨merged g sup w ps, combine_eq h n hn ps w [] false, merged_nodup h w hw ps, (merged_mem h w hw ps).1, merged_before h w hw ps, ?_⟩
  rintro a p b rfl hd hpw hb p' hp' y hy hyw
  obtain ⟨hm, -⟩ := merged_mem h w hw b
  refine List.Sublist.trans ?_ (merged_suffix w a (p :: b)).sublist
  rw [merged_cons]
  have hyb : y ∈ merged g sup w b := (hm y).2 ⟨hyw, p', hp', hy⟩
  have hpb : asPool g p ∉ w ++ merged g sup w b := by
    rw [List.mem_append, hm]
    rintro (h1 | ⟨-, q, hq, h2⟩)
    · exact hpw h1
    · exact hb q hq h2
  have hq : ∃ l, sup (asPool g p) = asPool g p :: l := by
    cases hs : g.isSpace (asPool g p) with
    | false => exact ⟨[], h.leaf hs hd⟩
    | true => exact ⟨_, h.space hs⟩
  obtain ⟨l, hl⟩ := hq
  rw [hl, List.takeWhile_cons_of_pos (by simpa using hpb), List.cons_append]
  exact List.Sublist.cons_cons _ (List.singleton_sublist.2 (List.mem_append_right _ hyb))

/-! ### C187: the order of classes, pools and namespaces -/

/-- The namespaces that the superclass is in. -/
def above (g : Graph) (sup : ℕ → List ℕ) (d : Option Cls) : List ℕ := match d with
  | some d => sup (asPool g d.env)
  | none => []

/-- The order that the comment in the source describes (libgst/sym.c:518-534, 590-603): the class pool; the shared pools but for those that are
among the class's namespaces; the namespace of the class and its superspaces before the first that contains the superclass, each followed
by its own shared pools; then the same for the superclass. -/
def twisted (g : Graph) (sup : ℕ → List ℕ) (doit : Option ℕ) : List Cls → List ℕ
  | [] => []
  | c :: cs =>
    let env := sup (asPool g (doit.getD c.env))
    (if c.pool = 0 then [] else [c.pool]) ++ merged g sup env c.shared ++
      (env.takeWhile fun x => decide (x ∉ above g sup cs.head?)).flatMap (fun x => x :: merged g sup (sup x) (g.imports x)) ++
      twisted g sup doit cs

/-- The order in which the compiler searches: the shared pools of a namespace are there even if the namespace is not. -/
def actual (g : Graph) (sup : ℕ → List ℕ) (doit : Option ℕ) : List Cls → List ℕ
  | [] => []
  | c :: cs =>
    let env := sup (asPool g (doit.getD c.env))
    (if c.pool = 0 then [] else [c.pool]) ++ merged g sup env c.shared ++ env.flatMap (spaceEntry g sup (above g sup cs.head?)) ++
      actual g sup doit cs

theorem actual_cons (doit : Option ℕ) (c : Cls) (cs : List Cls) : actual g sup doit (c :: cs) =
    (if c.pool = 0 then [] else [c.pool]) ++ merged g sup (sup (asPool g (doit.getD c.env))) c.shared ++
      (sup (asPool g (doit.getD c.env))).flatMap (spaceEntry g sup (above g sup cs.head?)) ++ actual g sup doit cs := rfl

theorem linearize_eq (h : WF g sup) (n : ℕ) (hn : ∀ p, (sup p).length < n) (doit : Option ℕ) (err : Bool) : ∀ (cs : List Cls) (out : List ℕ),
    linearize g n doit cs out err = some (out ++ actual g sup doit cs, err) := by
  intro cs
  induction cs with
  | nil => intro out; simp [linearize, actual]
  | cons c cs ih =>
    intro out
    unfold linearize
    dsimp only
    rw [resolution_eq h n hn]
    show linearize g n doit cs _ _ = _
    rw [ih, actual_cons]
    have e : above g sup cs.head? = match cs.head? with
      | some d => sup (asPool g d.env)
      | none => [] := rfl
    rw [e]
    cases cs.head? <;> split <;> simp [List.append_assoc]

/-- The namespaces of a class that its superclass is in have no shared pools. -/
def Clear (g : Graph) (sup : ℕ → List ℕ) (doit : Option ℕ) : List Cls → Prop
  | [] => True
  | c :: cs => (∀ x ∈ sup (asPool g (doit.getD c.env)), x ∈ above g sup cs.head? → g.imports x = []) ∧ Clear g sup doit cs

theorem above_closed (h : WF g sup) (d : Option Cls) : Closed sup (above g sup d) := by
  unfold above
  cases d with
  | none => intro x hx; cases hx
  | some d => intro x hx y hy; exact h.closed hx hy

theorem entries_eq (l s : List ℕ) (hi : ∀ x ∈ l, x ∈ s → g.imports x = []) :
    l.flatMap (spaceEntry g sup s) = (l.filter fun x => decide (x ∉ s)).flatMap fun x => x :: merged g sup (sup x) (g.imports x) := by
  induction l with
  | nil => rfl
  | cons x l ih =>
    rw [List.flatMap_cons, ih fun y hy => hi y (by simp [hy])]
    unfold spaceEntry
    by_cases hx : x ∈ s
    · rw [List.filter_cons_of_neg (by simpa using hx), if_pos hx, hi x (by simp) hx]
      simp [merged]
    · rw [List.filter_cons_of_pos (by simpa using hx), if_neg hx, List.flatMap_cons]
      simp

/-- The compiler searches in the order that was described, if namespaces that are left to a superclass have no shared pools. -/
theorem order_partial (h : WF g sup) (n : ℕ) (hn : ∀ p, (sup p).length < n) (doit : Option ℕ) (cs : List Cls) (hc : Clear g sup doit cs) :
    linearize g n doit cs [] false = some (twisted g sup doit cs, false) := by
  rw [linearize_eq h n hn, List.nil_append]
  congr 2
  induction cs with
  | nil => rfl
  | cons c cs ih =>
    unfold actual twisted
    dsimp only
    rw [ih hc.2, entries_eq _ _ hc.1, takeWhile_closed h _ (above_closed h _) _ _ rfl]

/-- A name that is not in the class nor in its shared pools is that of the class's namespace, if that defines it and does not contain the
superclass. -/
theorem own_first_partial (h : WF g sup) (n : ℕ) (hn : ∀ p, (sup p).length < n) (defines : ℕ → ℕ → Bool) (x : ℕ) (c : Cls) (cs : List Cls)
    (hs : g.isSpace c.env = true) (ha : c.env ∉ above g sup cs.head?) (hp : defines c.pool x = false)
    (hm : ∀ q p, p ∈ c.shared → q ∈ sup (asPool g p) → q ∉ sup c.env → defines q x = false) (hx : defines c.env x = true) :
    ∃ l, linearize g n none (c :: cs) [] false = some (l, false) ∧ find defines l x = some c.env := by
  refine ⟨_, by rw [linearize_eq h n hn, List.nil_append], ?_⟩
  have hq : asPool g c.env = c.env := by unfold asPool; rw [(h.plain _ hs).1]; rfl
  unfold actual find
  simp only [Option.getD_none, hq]
  rw [h.space hs, ← h.space hs, List.find?_append, List.find?_append, List.find?_append]
  have e1 : (if c.pool = 0 then [] else [c.pool]).find? (fun p => defines p x) = none := by
    split <;> simp [hp]
  have e2 : (merged g sup (sup c.env) c.shared).find? (fun p => defines p x) = none := by
    rw [List.find?_eq_none]
    intro q hqm
    obtain ⟨h1, p, h2, h3⟩ := ((merged_mem h (sup c.env) (fun a ha b hb => h.closed ha hb) c.shared).1 q).1 hqm
    simp [hm q p h2 h3 h1]
  have e3 : ((sup c.env).flatMap (spaceEntry g sup (above g sup cs.head?))).find? (fun p => defines p x) = some c.env := by
    rw [h.space hs, List.flatMap_cons]
    unfold spaceEntry
    rw [if_neg ha]
    simp [hx]
  rw [e1, e2, e3]
  rfl

/-- Smalltalk (1), a namespace in it (2) with a shared pool (3), and a class and its superclass in the namespace, with class pools 4 and 5. -/
def twoInOne : Graph where
  classDict _ := none
  isDict p := p ≠ 0
  isSpace p := p = 1 || p = 2
  superspace p := if p = 2 then 1 else 0
  imports p := if p = 2 then [3] else []

/-- The superspaces in it. -/
def twoSup (p : ℕ) : List ℕ := if p = 0 then [] else if p = 2 then [2, 1] else [p]

theorem twoInOne_wf : WF twoInOne twoSup := by
  constructor
  · intro p
    by_cases h0 : p = 0
    · subst h0; rfl
    · by_cases h1 : p = 1
      · subst h1; rfl
      · by_cases h2 : p = 2
        · subst h2; rfl
        · simp [twoInOne, twoSup, h0, h1, h2]
  · rfl
  · intro p hp
    simp only [twoInOne, Bool.or_eq_true, decide_eq_true_eq] at hp ⊢
    omega
  · intro p _; exact ⟨rfl, rfl⟩
  · intro p hp
    simp only [twoInOne, Bool.or_eq_false_iff, decide_eq_false_iff_not] at hp ⊢
    rw [if_neg hp.2]

/-- A class whose superclass is in the same namespace: what the namespace imports comes before the namespace itself, and before the variables
of the superclass.  A name that both the namespace and the pool define is taken from the pool, while the order that was described, and
that in which Smalltalk enumerates pools, have the namespace first. -/
theorem order_fails : linearize twoInOne 5 none [⟨4, [], 2⟩, ⟨5, [], 2⟩] [] false = some ([4, 3, 5, 2, 3, 1], false) ∧
    twisted twoInOne twoSup none [⟨4, [], 2⟩, ⟨5, [], 2⟩] = [4, 5, 2, 3, 1] ∧
    stLinearize twoInOne 5 none [⟨4, [], 2⟩, ⟨5, [], 2⟩] [] false = some ([4, 5, 2, 3, 1], false) ∧
    find (fun p _ => p = 2 || p = 3) [4, 3, 5, 2, 3, 1] 7 = some 3 ∧ find (fun p _ => p = 2 || p = 3) [4, 5, 2, 3, 1] 7 = some 2 := by
  decide +kernel

/-- "Namespaces should not reexport bindings made available by way of shared pools" (libgst/sym.c:594-600): a class in Smalltalk (1) whose
superclass is in namespace 2 has names from the pool 3 that the superclass's namespace imports. -/
theorem reexported_fails : linearize twoInOne 5 none [⟨4, [], 1⟩, ⟨5, [], 2⟩] [] false = some ([4, 5, 2, 3, 1], false) ∧
    3 ∉ twoSup 1 := by
  decide +kernel

/-- A class in namespace 2 with pool 3 and superclass in Smalltalk. -/
example : Clear twoInOne twoSup none [⟨4, [3], 2⟩, ⟨5, [], 1⟩] ∧
    linearize twoInOne 5 none [⟨4, [3], 2⟩, ⟨5, [], 1⟩] [] false = some ([4, 3, 2, 3, 5, 1], false) := by
  refine ⟨⟨?_, ?_, trivial⟩, by decide +kernel⟩
  · show ∀ x ∈ [2, 1], x ∈ [1] → twoInOne.imports x = []
    decide
  · intro x _ hx; cases hx

/-! ### C188: the order that Smalltalk enumerates -/

/-- The superspace of a namespace is `nil` or a dictionary. -/
def Above (g : Graph) : Prop := ∀ p, g.isSpace p = true → g.superspace p ≠ 0 → g.isDict (g.superspace p) = true

theorem allSuperspaces_eq (h : WF g sup) (hab : Above g) : ∀ (n p : ℕ), (sup p).length < n → g.isDict p = true →
    allSuperspaces g n p = some (sup p).tail := by
  intro n
  induction n with
  | zero => intro p hn; omega
  | succ n ih =>
    intro p hn hd
    unfold allSuperspaces
    cases hs : g.isSpace p with
    | false => rw [if_neg (by simp), h.leaf hs hd]; rfl
    | true =>
      rw [if_pos rfl]
      rw [h.space hs, List.length_cons] at hn
      rw [h.space hs, List.tail_cons]
      by_cases h0 : g.superspace p = 0
      · rw [if_pos h0, h0, h.other h.nilDict]
      · have hd' := hab p hs h0
        rw [if_neg h0, ih _ (by omega) hd', Option.map_some]
        cases hs' : g.isSpace (g.superspace p) with
        | false => rw [h.leaf hs' hd']; rfl
        | true => rw [h.space hs', List.tail_cons]

theorem sup_self (h : WF g sup) {p : ℕ} (hd : g.isDict p = true) : ∃ l, sup p = p :: l := by
  cases hs : g.isSpace p with
  | false => exact ⟨[], h.leaf hs hd⟩
  | true => exact ⟨_, h.space hs⟩

theorem fold_white (n k : ℕ) (l : List ℕ) (st : St) (hl : ∀ y ∈ l, y ∈ st.white) :
    l.foldlM (fun st p => descend g n (k + 1) p st) st = some st := by
  induction l with
  | nil => rfl
  | cons y l ih =>
    have e : descend g n (k + 1) y st = some st := by unfold descend; rw [if_pos (hl y (by simp))]
    show ((descend g n (k + 1) y st).bind fun st => _) = _
    rw [e]
    exact ih fun z hz => hl z (by simp [hz])

/-- A pool whose superspaces were all visited. -/
theorem descend_top (h : WF g sup) (hab : Above g) (n : ℕ) (hn : ∀ p, (sup p).length < n) (k q : ℕ) (st : St) (hd : g.isDict q = true)
    (hw : q ∉ st.white) (hg : q ∉ st.grey) (ht : ∀ y ∈ (sup q).tail, y ∈ st.white) :
    descend g n (k + 2) q st = some ⟨q :: st.grey, q :: st.white, q :: st.head, st.err⟩ := by
  unfold descend
  rw [if_neg hw, if_neg hg, allSuperspaces_eq h hab n q (hn q) hd]
  show Option.map _ (List.foldlM (fun st p => descend g n (k + 1) p st) _ _) = _
  rw [fold_white n k _ _ (by intro y hy; exact ht y (List.mem_reverse.1 hy))]
  rfl

theorem fold_chain (h : WF g sup) (hab : Above g) (n : ℕ) (hn : ∀ p, (sup p).length < n) (k : ℕ) : ∀ (m q : ℕ), (sup q).length = m → ∀ st : St,
    Closed sup st.white → (∀ y ∈ sup q, y ∈ st.grey → y ∈ st.white) →
    (sup q).reverse.foldlM (fun st p => descend g n (k + 2) p st) st =
      some ⟨(sup q).filter (fun x => decide (x ∉ st.white)) ++ st.grey, (sup q).filter (fun x => decide (x ∉ st.white)) ++ st.white,
        (sup q).filter (fun x => decide (x ∉ st.white)) ++ st.head, st.err⟩ := by
  intro m
  induction m with
  | zero => intro q hm st _ _; rw [List.length_eq_zero_iff.1 hm]; rfl
  | succ m ih =>
    intro q hm st hcl hg
    have key : ∀ l : List ℕ, sup q = q :: l → g.isDict q = true →
        l.reverse.foldlM (fun st p => descend g n (k + 2) p st) st =
          some ⟨l.filter (fun x => decide (x ∉ st.white)) ++ st.grey, l.filter (fun x => decide (x ∉ st.white)) ++ st.white,
            l.filter (fun x => decide (x ∉ st.white)) ++ st.head, st.err⟩ →
        (sup q).reverse.foldlM (fun st p => descend g n (k + 2) p st) st =
          some ⟨(sup q).filter (fun x => decide (x ∉ st.white)) ++ st.grey, (sup q).filter (fun x => decide (x ∉ st.white)) ++ st.white,
            (sup q).filter (fun x => decide (x ∉ st.white)) ++ st.head, st.err⟩ := by
      intro l hl hd hf
      have hnq : q ∉ l := by
        have := h.nodup _ q rfl
        rw [hl] at this
        exact (List.nodup_cons.1 this).1
      rw [hl, List.reverse_cons, List.foldlM_append, hf]
      show ((descend g n (k + 2) q _).bind fun st => some st) = _
      by_cases hw : q ∈ st.white
      · have e : ∀ s' : St, q ∈ s'.white → descend g n (k + 2) q s' = some s' := by
          intro s' hs'
          unfold descend
          rw [if_pos hs']
        rw [e _ (List.mem_append_right _ hw), List.filter_cons_of_neg (by simpa using hw)]
        rfl
      · rw [descend_top h hab n hn k q _ hd, List.filter_cons_of_pos (by simpa using hw)]
        · rfl
        · rw [List.mem_append, List.mem_filter]; rintro (⟨h1, -⟩ | h1); exact hnq h1; exact hw h1
        · rw [List.mem_append, List.mem_filter]; rintro (⟨h1, -⟩ | h1); exact hnq h1; exact hw (hg q (by rw [hl]; simp) h1)
        · intro y hy
          rw [hl, List.tail_cons] at hy
          rw [List.mem_append, List.mem_filter, decide_eq_true_eq]
          by_cases hyw : y ∈ st.white
          · exact .inr hyw
          · exact .inl ⟨hy, hyw⟩
    cases hs : g.isSpace q with
    | false =>
      cases hd : g.isDict q with
      | false => rw [h.other hd]; rfl
      | true => exact key [] (h.leaf hs hd) hd rfl
    | true =>
      refine key _ (h.space hs) (h.dict q hs) ?_
      rw [h.space hs, List.length_cons] at hm
      refine ih (g.superspace q) (by omega) st hcl fun y hy => hg y ?_
      rw [h.space hs]
      exact List.mem_cons_of_mem _ hy

theorem descend_spec (h : WF g sup) (hab : Above g) (n : ℕ) (hn : ∀ p, (sup p).length < n) (k q : ℕ) (st : St) (hd : g.isDict q = true)
    (hcl : Closed sup st.white) (hg : ∀ y ∈ st.grey, y ∈ st.white) :
    ∃ gr, descend g n (k + 3) q st = some ⟨gr, (sup q).filter (fun x => decide (x ∉ st.white)) ++ st.white,
        (sup q).filter (fun x => decide (x ∉ st.white)) ++ st.head, st.err⟩ ∧
      ∀ y ∈ gr, y ∈ (sup q).filter (fun x => decide (x ∉ st.white)) ++ st.white := by
  unfold descend
  by_cases hw : q ∈ st.white
  · have hf : (sup q).filter (fun x => decide (x ∉ st.white)) = [] := by
      rw [List.filter_eq_nil_iff]; intro y hy; simpa using hcl q hw y hy
    rw [if_pos hw, hf]
    exact ⟨st.grey, rfl, hg⟩
  · have hg' : q ∉ st.grey := fun hq => hw (hg q hq)
    obtain ⟨l, hl⟩ := sup_self h hd
    rw [if_neg hw, if_neg hg', allSuperspaces_eq h hab n q (hn q) hd, hl, List.filter_cons_of_pos (by simpa using hw), List.tail_cons]
    have hnq : q ∉ l := by
      have := h.nodup _ q rfl
      rw [hl] at this
      exact (List.nodup_cons.1 this).1
    have hfold : l.reverse.foldlM (fun st p => descend g n (k + 2) p st) { st with grey := q :: st.grey } =
        some ⟨l.filter (fun x => decide (x ∉ st.white)) ++ q :: st.grey, l.filter (fun x => decide (x ∉ st.white)) ++ st.white,
          l.filter (fun x => decide (x ∉ st.white)) ++ st.head, st.err⟩ := by
      cases hs : g.isSpace q with
      | false =>
        rw [h.leaf hs hd] at hl
        rw [← (List.cons.inj hl).2]; rfl
      | true =>
        rw [h.space hs] at hl
        rw [← (List.cons.inj hl).2] at hnq ⊢
        refine fold_chain h hab n hn k _ (g.superspace q) rfl { st with grey := q :: st.grey } hcl ?_
        intro y hy hyg
        rcases List.mem_cons.1 hyg with rfl | hyg
        · exact absurd hy hnq
        · exact hg y hyg
    show ∃ gr, Option.map _ (List.foldlM (fun st p => descend g n (k + 2) p st) _ l.reverse) = _ ∧ _
    rw [hfold]
    refine ⟨l.filter (fun x => decide (x ∉ st.white)) ++ q :: st.grey, rfl, ?_⟩
    intro y hy
    rcases List.mem_append.1 hy with hy | hy
    · exact List.mem_append_left _ (List.mem_cons_of_mem _ hy)
    · rcases List.mem_cons.1 hy with rfl | hy
      · exact List.mem_append_left _ List.mem_cons_self
      · exact List.mem_append_right _ (hg y hy)

theorem allPools_eq (h : WF g sup) (hab : Above g) (n : ℕ) (hn : ∀ p, (sup p).length < n) (h3 : 3 ≤ n) (w : List ℕ) (hw : Closed sup w)
    (out : List ℕ) (err : Bool) (ps : List ℕ) (hps : ∀ p ∈ ps, g.isDict p = true ∧ asPool g p = p) :
    allPools g n ps w out err = some (out ++ merged g sup w ps, err) := by
  have hf : ∃ gr wh, ps.reverse.foldlM (fun st p => descend g n n p st) ⟨[], w, [], err⟩ = some ⟨gr, wh, merged g sup w ps, err⟩ ∧
      (∀ y, y ∈ wh ↔ y ∈ w ++ merged g sup w ps) ∧ ∀ y ∈ gr, y ∈ wh := by
    induction ps with
    | nil => exact ⟨[], w, rfl, by simp [merged], by simp⟩
    | cons p ps ih =>
      obtain ⟨gr, wh, h1, h2, h4⟩ := ih fun q hq => hps q (by simp [hq])
      have hcl := (merged_mem h w hw ps).2
      have hwc : Closed sup wh := by
        intro x hx y hy
        exact (h2 y).2 (hcl x ((h2 x).1 hx) y hy)
      obtain ⟨k, rfl⟩ : ∃ k, n = k + 3 := ⟨n - 3, by omega⟩
      obtain ⟨gr', h5, h6⟩ := descend_spec h hab (k + 3) hn k p ⟨gr, wh, merged g sup w ps, err⟩ (hps p (by simp)).1 hwc h4
      have hfe : (sup p).filter (fun x => decide (x ∉ wh)) = (sup (asPool g p)).takeWhile (fun x => decide (x ∉ w ++ merged g sup w ps)) := by
        rw [(hps p (by simp)).2, takeWhile_closed h _ hcl _ _ rfl]
        congr 1
        funext x
        simp only [h2]
      dsimp only at h5 h6
      rw [hfe] at h5 h6
      refine ⟨gr', (sup (asPool g p)).takeWhile (fun x => decide (x ∉ w ++ merged g sup w ps)) ++ wh, ?_, ?_, h6⟩
      · rw [List.reverse_cons, List.foldlM_append, h1, merged_cons]
        show ((descend g (k + 3) (k + 3) p _).bind fun st => some st) = _
        rw [h5]
        rfl
      · intro y
        rw [merged_cons]
        simp only [List.mem_append, h2]
        tauto
  unfold allPools
  split
  · rename_i he; rw [he]; simp [merged]
  · obtain ⟨gr, wh, h1, -, -⟩ := hf
    rw [h1]
    rfl

/-- The namespaces and pools of a class are dictionaries, and what its namespaces import does not lead back to one of its namespaces but
those above the one that imports. -/
def Plain (g : Graph) (sup : ℕ → List ℕ) (c : Cls) : Prop :=
  c.pool ≠ 0 ∧ g.isDict c.env = true ∧ asPool g c.env = c.env ∧ (∀ p ∈ c.shared, g.isDict p = true ∧ asPool g p = p) ∧
    ∀ x ∈ sup c.env, ∀ p ∈ g.imports x, (g.isDict p = true ∧ asPool g p = p) ∧ ∀ y ∈ sup p, y ∈ sup c.env → y ∈ sup x

theorem withSupers_eq (h : WF g sup) (hab : Above g) (n : ℕ) (hn : ∀ p, (sup p).length < n) {p : ℕ} (hd : g.isDict p = true) :
    withSupers g n p = some (sup p) := by
  unfold withSupers
  rw [allSuperspaces_eq h hab n p (hn p) hd]
  obtain ⟨l, hl⟩ := sup_self h hd
  rw [hl]; rfl

theorem merged_apart (h : WF g sup) (v w : List ℕ) (hv : Closed sup v) (hw : Closed sup w) (hs : ∀ y ∈ v, y ∈ w) (ps : List ℕ)
    (ha : ∀ p ∈ ps, ∀ y ∈ sup (asPool g p), y ∈ w → y ∈ v) : merged g sup w ps = merged g sup v ps := by
  induction ps with
  | nil => rfl
  | cons p ps ih =>
    have ih := ih fun q hq => ha q (by simp [hq])
    rw [merged_cons, merged_cons, takeWhile_closed h _ (merged_mem h w hw ps).2 _ _ rfl, takeWhile_closed h _ (merged_mem h v hv ps).2 _ _ rfl, ih]
    congr 1
    apply List.filter_congr
    intro x hx
    have := ha p (by simp) x hx
    have := hs x
    simp only [List.mem_append, decide_eq_decide]
    tauto

theorem natural_eq (h : WF g sup) (hab : Above g) (n : ℕ) (hn : ∀ p, (sup p).length < n) (h3 : 3 ≤ n) (c : Cls) (hc : Plain g sup c)
    (skip : List ℕ) (err : Bool) : ∀ (l out : List ℕ), (∀ x ∈ l, x ∈ sup c.env) →
    natural g n skip (sup c.env) l out err =
      some (out ++ (l.filter fun x => decide (x ∉ skip)).flatMap (fun x => x :: merged g sup (sup x) (g.imports x)), err) := by
  intro l
  induction l with
  | nil => intro out _; simp [natural]
  | cons x l ih =>
    intro out hl
    have ihl := fun out => ih out fun y hy => hl y (by simp [hy])
    unfold natural
    by_cases hx : x ∈ skip
    · rw [if_pos hx, ihl, List.filter_cons_of_neg (by simpa using hx)]
    · have hxe := hl x (by simp)
      have hi := hc.2.2.2.2 x hxe
      rw [if_neg hx, allPools_eq h hab n hn h3 (sup c.env) (fun a ha b hb => h.closed ha hb) _ _ _ (fun p hp => (hi p hp).1), Option.bind_some,
        ihl, List.filter_cons_of_pos (by simpa using hx), List.flatMap_cons,
        merged_apart h (sup x) (sup c.env) (fun a ha b hb => h.closed ha hb) (fun a ha b hb => h.closed ha hb) (fun y hy => h.closed hxe hy) _
          (fun p hp y hy => (hi p hp).2 y (by rwa [(hi p hp).1.2] at hy))]
      simp [List.append_assoc]

theorem first_spaces (sp : Option (List ℕ)) {w : Option (List ℕ)} {l : List ℕ} (hw : w = some l) : sp = none ∨ sp = some l →
    (match sp with
      | none => w
      | some s => some s) = some l := by
  rintro (rfl | rfl)
  · exact hw
  · rfl

/-- `allSharedPoolDictionariesDo:` enumerates the pools in the order that was described for the compiler, whatever namespaces import. -/
theorem enumerated (h : WF g sup) (hab : Above g) (n : ℕ) (hn : ∀ p, (sup p).length < n) (h3 : 3 ≤ n) (cs : List Cls)
    (hcs : ∀ c ∈ cs, Plain g sup c) : stLinearize g n none cs [] false = some (twisted g sup none cs, false) := by
  have key : ∀ (cs : List Cls) (sp : Option (List ℕ)) (out : List ℕ), (∀ c ∈ cs, Plain g sup c) →
      (∀ s, sp = some s → s = above g sup cs.head?) → stLinearize g n sp cs out false = some (out ++ twisted g sup none cs, false) := by
    intro cs
    induction cs with
    | nil => intro sp out _ _; simp [stLinearize, twisted]
    | cons c cs ih =>
      intro sp out hcs hsp
      have hc := hcs c (by simp)
      have e1 : sp = none ∨ sp = some (sup c.env) := by
        cases sp with
        | none => exact .inl rfl
        | some s =>
          have := hsp s rfl
          simp only [List.head?_cons, above, hc.2.2.1] at this
          rw [this]
          exact .inr rfl
      have e1 := first_spaces sp (withSupers_eq h hab n hn hc.2.1) e1
      have e2 : (match cs.head? with
          | some d => withSupers g n d.env
          | none => some []) = some (above g sup cs.head?) := by
        cases hh : cs.head? with
        | none => rfl
        | some d =>
          have hd := hcs d (List.mem_cons_of_mem _ (List.mem_of_mem_head? hh))
          simp only [above, hd.2.2.1]
          exact withSupers_eq h hab n hn hd.2.1
      have et : twisted g sup none (c :: cs) = [c.pool] ++ merged g sup (sup c.env) c.shared ++
          ((sup c.env).takeWhile fun x => decide (x ∉ above g sup cs.head?)).flatMap (fun x => x :: merged g sup (sup x) (g.imports x)) ++
          twisted g sup none cs := by
        show (if c.pool = 0 then [] else [c.pool]) ++ merged g sup (sup (asPool g c.env)) c.shared ++
          ((sup (asPool g c.env)).takeWhile fun x => decide (x ∉ above g sup cs.head?)).flatMap (fun x => x :: merged g sup (sup x) (g.imports x)) ++
          twisted g sup none cs = _
        rw [if_neg hc.1, hc.2.2.1]
      unfold stLinearize
      refine (congrArg (Option.bind · _) e1).trans ?_
      rw [Option.bind_some, allPools_eq h hab n hn h3 (sup c.env) (fun a ha b hb => h.closed ha hb) _ _ _ hc.2.2.2.1, Option.bind_some]
      refine (congrArg (Option.bind · _) e2).trans ?_
      rw [Option.bind_some, withSupers_eq h hab n hn hc.2.1, Option.bind_some, natural_eq h hab n hn h3 c hc _ _ _ _ (fun x hx => hx),
        Option.bind_some, ih _ _ (fun d hd => hcs d (by simp [hd])) (by intro s hs; exact (Option.some.inj hs).symm), et,
        takeWhile_closed h _ (above_closed h _) _ _ rfl]
      simp [List.append_assoc]
  rw [key cs none [] hcs (by intro s hs; cases hs), List.nil_append]

/-- The compiler finds names where Smalltalk does, if namespaces that are left to a superclass have no shared pools. -/
theorem same_order_partial (h : WF g sup) (hab : Above g) (n : ℕ) (hn : ∀ p, (sup p).length < n) (h3 : 3 ≤ n) (cs : List Cls)
    (hcs : ∀ c ∈ cs, Plain g sup c) (hc : Clear g sup none cs) : linearize g n none cs [] false = stLinearize g n none cs [] false := by
  rw [enumerated h hab n hn h3 cs hcs, order_partial h n hn none cs hc]

/-- The classes of `order_fails` are plain, so that only what is imported makes the difference. -/
example : Above twoInOne ∧ ∀ c ∈ [(⟨4, [3], 2⟩ : Cls), ⟨5, [], 1⟩], Plain twoInOne twoSup c := by
  refine ⟨?_, ?_⟩
  · intro p _ h; simpa [twoInOne] using h
  · intro c hc
    simp only [List.mem_cons, List.not_mem_nil, or_false] at hc
    rcases hc with rfl | rfl <;>
    · refine ⟨by decide, by decide, by decide, by decide, ?_⟩
      decide

end Verif.Pools
