import Verif.Pools.Model
import Mathlib.Data.List.TakeWhile
import Mathlib.Data.List.Nodup

/-! # Lemmas about the search order of names -/

namespace Verif.Pools

/-- `sup p` is `p` and all its superspaces, from `p` up.  That it is a list says that superspaces do not go round in circles. -/
structure WF (g : Graph) (sup : ℕ → List ℕ) : Prop where
  eq : ∀ p, sup p = if g.isSpace p then p :: sup (g.superspace p) else if g.isDict p then [p] else []
  nilDict : g.isDict 0 = false
  dict : ∀ p, g.isSpace p = true → g.isDict p = true
  plain : ∀ p, g.isSpace p = true → g.classDict p = none ∧ g.classDict (g.superspace p) = none
  none : ∀ p, g.isSpace p = false → g.imports p = []

variable {g : Graph} {sup : ℕ → List ℕ}

theorem WF.space (h : WF g sup) {p : ℕ} (hp : g.isSpace p = true) : sup p = p :: sup (g.superspace p) := by
  rw [h.eq p, if_pos hp]

theorem WF.leaf (h : WF g sup) {p : ℕ} (hp : g.isSpace p = false) (hd : g.isDict p = true) : sup p = [p] := by
  rw [h.eq p, if_neg (by simp [hp]), if_pos hd]

theorem WF.other (h : WF g sup) {p : ℕ} (hd : g.isDict p = false) : sup p = [] := by
  have : g.isSpace p = false := by
    cases hs : g.isSpace p with
    | false => rfl
    | true => rw [h.dict p hs] at hd; cases hd
  rw [h.eq p, if_neg (by simp [this]), if_neg (by simp [hd])]

theorem WF.suffix (h : WF g sup) : ∀ (k p x : ℕ), (sup p).length = k → x ∈ sup p → sup x <:+ sup p := by
  intro k
  induction k with
  | zero => intro p x hk hx; rw [List.length_eq_zero_iff.1 hk] at hx; cases hx
  | succ k ih =>
    intro p x hk hx
    cases hs : g.isSpace p with
    | false =>
      cases hd : g.isDict p with
      | false => rw [h.other hd] at hx; cases hx
      | true =>
        rw [h.leaf hs hd] at hx
        rw [List.mem_singleton.1 hx]
        exact List.suffix_refl _
    | true =>
      rw [h.space hs] at hx hk ⊢
      rcases List.mem_cons.1 hx with rfl | hx
      · rw [h.space hs]
        exact List.suffix_refl _
      · exact (ih _ x (by simpa using hk) hx).trans (List.suffix_cons _ _)

/-- Superspaces of superspaces are superspaces. -/
theorem WF.closed (h : WF g sup) {p x y : ℕ} (hx : x ∈ sup p) (hy : y ∈ sup x) : y ∈ sup p :=
  (h.suffix _ p x rfl hx).subset hy

theorem WF.self (h : WF g sup) {p x : ℕ} (hx : x ∈ sup p) : x ∈ sup x ∧ g.isDict x = true := by
  have key : ∀ (k p : ℕ), (sup p).length = k → x ∈ sup p → g.isDict x = true := by
    intro k
    induction k with
    | zero => intro p hk hx; rw [List.length_eq_zero_iff.1 hk] at hx; cases hx
    | succ k ih =>
      intro p hk hx
      cases hs : g.isSpace p with
      | false =>
        cases hd : g.isDict p with
        | false => rw [h.other hd] at hx; cases hx
        | true => rw [h.leaf hs hd] at hx; rw [List.mem_singleton.1 hx]; exact hd
      | true =>
        rw [h.space hs] at hx hk
        rcases List.mem_cons.1 hx with rfl | hx
        · exact h.dict _ hs
        · exact ih _ (by simpa using hk) hx
  have hd := key _ p rfl hx
  refine ⟨?_, hd⟩
  cases hs : g.isSpace x with
  | false => rw [h.leaf hs hd]; simp
  | true => rw [h.space hs]; simp

/-- No space is its own superspace. -/
theorem WF.acyclic (h : WF g sup) {p : ℕ} (hs : g.isSpace p = true) : p ∉ sup (g.superspace p) := by
  intro hp
  have := (h.suffix _ _ p rfl hp).length_le
  rw [h.space hs, List.length_cons] at this
  omega

theorem WF.nodup (h : WF g sup) : ∀ (k p : ℕ), (sup p).length = k → (sup p).Nodup := by
  intro k
  induction k with
  | zero => intro p hk; rw [List.length_eq_zero_iff.1 hk]; exact List.nodup_nil
  | succ k ih =>
    intro p hk
    cases hs : g.isSpace p with
    | false =>
      cases hd : g.isDict p with
      | false => rw [h.other hd]; exact List.nodup_nil
      | true => rw [h.leaf hs hd]; simp
    | true =>
      rw [h.space hs] at hk ⊢
      exact List.nodup_cons.2 ⟨h.acyclic hs, ih _ (by simpa using hk)⟩

theorem superLoop_eq (h : WF g sup) : ∀ (n p : ℕ) (s : List ℕ), (sup p).length < n → superLoop g n p s = some ((sup p).reverse ++ s) := by
  intro n
  induction n with
  | zero => intro p s hn; omega
  | succ n ih =>
    intro p s hn
    unfold superLoop
    cases hs : g.isSpace p with
    | false =>
      rw [if_neg (by simp)]
      cases hd : g.isDict p with
      | false => rw [if_neg (by simp), h.other hd]; rfl
      | true => rw [if_pos rfl, h.leaf hs hd]; rfl
    | true =>
      rw [h.space hs, List.length_cons] at hn
      rw [if_pos rfl, ih _ _ (by omega), h.space hs]
      simp

theorem superSet_eq (h : WF g sup) (n p : ℕ) (hn : (sup (asPool g p)).length < n) : superSet g n p = some (sup (asPool g p)).reverse := by
  unfold superSet
  rw [superLoop_eq h n _ _ hn, List.append_nil]

/-! ### Visiting -/

theorem takeWhile_congr {l : List ℕ} {a b : List ℕ} (h : ∀ x, x ∈ a ↔ x ∈ b) :
    l.takeWhile (fun x => decide (x ∉ a)) = l.takeWhile (fun x => decide (x ∉ b)) := by
  congr 1
  funext x
  simp [h x]

theorem visit_spec (h : WF g sup) : ∀ (n p : ℕ) (st : St), (sup (asPool g p)).length < n →
    (∀ x ∈ sup (asPool g p), x ∈ st.grey → x ∈ st.white) → ∃ gr wh,
      visit g n p st = some ⟨gr, wh, (sup (asPool g p)).takeWhile (fun x => decide (x ∉ st.white)) ++ st.head, st.err⟩ ∧
      (∀ x, x ∈ wh ↔ x ∈ (sup (asPool g p)).takeWhile (fun x => decide (x ∉ st.white)) ∨ x ∈ st.white) ∧
      ∀ x ∈ gr, x ∈ (sup (asPool g p)).takeWhile (fun x => decide (x ∉ st.white)) ∨ x ∈ st.grey := by
  intro n
  induction n with
  | zero => intro p st hn; omega
  | succ n ih =>
    intro p st hn hg
    unfold visit
    generalize asPool g p = q at hn hg
    dsimp only
    cases hd : g.isDict q with
    | false =>
      rw [if_pos (by simp), h.other hd]
      exact ⟨st.grey, st.white, rfl, by simp, by simp⟩
    | true =>
      rw [if_neg (by simp)]
      have hq : ∃ l, sup q = q :: l := by
        cases hs : g.isSpace q with
        | false => exact ⟨[], h.leaf hs hd⟩
        | true => exact ⟨_, h.space hs⟩
      by_cases hw : q ∈ st.white
      · obtain ⟨l, hl⟩ := hq
        rw [if_pos hw, hl, List.takeWhile_cons_of_neg (by simpa using hw)]
        exact ⟨st.grey, st.white, rfl, by simp, by simp⟩
      · have hgq : q ∉ st.grey := by
          obtain ⟨l, hl⟩ := hq
          exact fun hh => hw (hg q (by rw [hl]; simp) hh)
        rw [if_neg hw, if_neg hgq]
        by_cases hs : (g.isSpace q && decide (g.superspace q ≠ 0)) = true
        · rw [if_pos hs]
          rw [Bool.and_eq_true] at hs
          have e := h.space hs.1
          have hp : asPool g (g.superspace q) = g.superspace q := by unfold asPool; rw [(h.plain q hs.1).2]; rfl
          rw [e, List.length_cons] at hn
          obtain ⟨gr, wh, e1, e2, e3⟩ := ih (g.superspace q) ⟨q :: st.grey, st.white, st.head, st.err⟩ (by rw [hp]; omega) (by
            rw [hp]
            intro x hx hxg
            rcases List.mem_cons.1 hxg with rfl | hxg
            · exact absurd hx (h.acyclic hs.1)
            · exact hg x (by rw [e]; simp [hx]) hxg)
          rw [hp] at e1 e2 e3
          dsimp only at e1 e2 e3
          rw [e1, e, List.takeWhile_cons_of_pos (by simpa using hw)]
          refine ⟨gr, q :: wh, rfl, ?_, ?_⟩
          · intro x
            rw [List.mem_cons, e2, List.mem_cons, or_assoc]
          · intro x hx
            rcases e3 x hx with hx | hx
            · exact .inl (List.mem_cons_of_mem _ hx)
            · rcases List.mem_cons.1 hx with rfl | hx
              · exact .inl (by simp)
              · exact .inr hx
        · rw [if_neg hs]
          have e : sup q = [q] := by
            cases hsp : g.isSpace q with
            | false => exact h.leaf hsp hd
            | true =>
              rw [h.space hsp]
              simp only [hsp, Bool.true_and, decide_eq_true_eq, ne_eq, not_not] at hs
              rw [hs, h.other h.nilDict]
          rw [e, List.takeWhile_cons_of_pos (by simpa using hw)]
          exact ⟨q :: st.grey, q :: st.white, rfl, by simp, by simp⟩

/-- Pools one after the other: each before those to its right, with those of its superspaces that have not come yet (from the right) and
are not in `w`. -/
def merged (g : Graph) (sup : ℕ → List ℕ) (w : List ℕ) : List ℕ → List ℕ
  | [] => []
  | p :: ps => (sup (asPool g p)).takeWhile (fun x => decide (x ∉ w ++ merged g sup w ps)) ++ merged g sup w ps

theorem merged_cons (w : List ℕ) (p : ℕ) (ps : List ℕ) : merged g sup w (p :: ps) =
    (sup (asPool g p)).takeWhile (fun x => decide (x ∉ w ++ merged g sup w ps)) ++ merged g sup w ps := rfl

theorem merged_congr {w w' : List ℕ} (hw : ∀ x, x ∈ w ↔ x ∈ w') (ps : List ℕ) : merged g sup w ps = merged g sup w' ps := by
  induction ps with
  | nil => rfl
  | cons p ps ih =>
    rw [merged_cons, merged_cons, ih]
    congr 1
    exact takeWhile_congr (by simp [hw])

theorem fold_visit (h : WF g sup) (n : ℕ) (hn : ∀ p, (sup p).length < n) (w : List ℕ) (err : Bool) : ∀ ps : List ℕ, ∃ gr wh,
    ps.reverse.foldlM (fun st p => visit g n p st) ⟨[], w, [], err⟩ = some ⟨gr, wh, merged g sup w ps, err⟩ ∧
    (∀ x, x ∈ wh ↔ x ∈ merged g sup w ps ∨ x ∈ w) ∧ ∀ x ∈ gr, x ∈ merged g sup w ps := by
  intro ps
  induction ps with
  | nil => exact ⟨[], w, rfl, by simp [merged], by simp⟩
  | cons p ps ih =>
    obtain ⟨gr, wh, e1, e2, e3⟩ := ih
    obtain ⟨gr', wh', f1, f2, f3⟩ := visit_spec h n p ⟨gr, wh, merged g sup w ps, err⟩ (hn _) (by
      intro x _ hx
      exact (e2 x).2 (.inl (e3 x hx)))
    have ht : (sup (asPool g p)).takeWhile (fun x => decide (x ∉ wh)) =
        (sup (asPool g p)).takeWhile (fun x => decide (x ∉ w ++ merged g sup w ps)) :=
      takeWhile_congr (by intro x; rw [e2, List.mem_append, or_comm])
    simp only [ht] at f1 f2 f3
    refine ⟨gr', wh', ?_, ?_, ?_⟩
    · rw [List.reverse_cons, List.foldlM_append, e1]
      show ((visit g n p _).bind fun st => _) = _
      rw [f1]
      rfl
    · intro x
      rw [f2, e2, merged_cons, List.mem_append, or_assoc]
    · intro x hx
      rw [merged_cons, List.mem_append]
      rcases f3 x hx with hx | hx
      · exact .inl hx
      · exact .inr (e3 x hx)

theorem combine_eq (h : WF g sup) (n : ℕ) (hn : ∀ p, (sup p).length < n) (ps w out : List ℕ) (err : Bool) :
    combine g n ps w out err = some (out ++ merged g sup w ps, err) := by
  obtain ⟨gr, wh, e1, -⟩ := fold_visit h n hn w err ps
  unfold combine
  rw [e1]
  rfl

/-- What `add_namespace` adds for one space. -/
def spaceEntry (g : Graph) (sup : ℕ → List ℕ) (except : List ℕ) (x : ℕ) : List ℕ :=
  (if x ∈ except then [] else [x]) ++ merged g sup (sup x) (g.imports x)

theorem spaceLoop_eq (h : WF g sup) (n : ℕ) (hn : ∀ p, (sup p).length < n) (except : List ℕ) (err : Bool) : ∀ (k p : ℕ) (out : List ℕ),
    (sup p).length < k → spaceLoop g n except k p out err = some (out ++ (sup p).flatMap (spaceEntry g sup except), err) := by
  intro k
  induction k with
  | zero => intro p out hk; omega
  | succ k ih =>
    intro p out hk
    unfold spaceLoop
    cases hd : g.isDict p with
    | false => rw [if_pos (by simp), h.other hd]; simp
    | true =>
      rw [if_neg (by simp)]
      dsimp only
      cases hs : g.isSpace p with
      | false =>
        rw [if_pos (by simp), h.leaf hs hd]
        simp only [List.flatMap_cons, List.flatMap_nil, List.append_nil, spaceEntry, h.none p hs, merged]
        split <;> simp
      | true =>
        rw [if_neg (by simp)]
        have hp : asPool g p = p := by unfold asPool; rw [(h.plain p hs).1]; rfl
        have hc : ∀ out, (if g.imports p = [] then some (out, err) else (superSet g n p).bind fun s => combine g n (g.imports p) s out err) =
            some (out ++ merged g sup (sup p) (g.imports p), err) := by
          intro out
          split
          · rename_i he
            rw [he]
            simp [merged]
          · rw [superSet_eq h n p (hn _), hp]
            show combine g n _ _ _ _ = _
            rw [combine_eq h n hn, merged_congr (w := (sup p).reverse) (w' := sup p) (by simp)]
        rw [hc]
        rw [h.space hs, List.length_cons] at hk
        show spaceLoop g n except k _ _ _ = _
        rw [ih _ _ (by omega), h.space hs, List.flatMap_cons]
        congr 2
        unfold spaceEntry
        rw [← h.space hs]
        split <;> simp

theorem resolution_eq (h : WF g sup) (n : ℕ) (hn : ∀ p, (sup p).length < n) (c : Cls) (d : Option Cls) (env : ℕ) (out : List ℕ) (err : Bool) :
    addResolution g n c d env out err = some (out ++ merged g sup (sup (asPool g env)) c.shared ++
      (sup (asPool g env)).flatMap (spaceEntry g sup (match d with | some d => sup (asPool g d.env) | none => [])), err) := by
  unfold addResolution
  rw [superSet_eq h n env (hn _)]
  show (combine g n c.shared _ out err).bind _ = _
  rw [combine_eq h n hn, merged_congr (w := (sup (asPool g env)).reverse) (w' := sup (asPool g env)) (by simp)]
  have hx : ∀ ex ex' : List ℕ, (∀ x, x ∈ ex ↔ x ∈ ex') → spaceEntry g sup ex = spaceEntry g sup ex' := by
    intro ex ex' he
    funext x
    unfold spaceEntry
    simp [he x]
  cases d with
  | none =>
    show addNamespace g n [] env _ _ = _
    unfold addNamespace
    rw [spaceLoop_eq h n hn _ _ _ _ _ (hn _)]
  | some d =>
    show ((superSet g n d.env).bind _) = _
    rw [superSet_eq h n d.env (hn _)]
    show addNamespace g n _ env _ _ = _
    unfold addNamespace
    rw [spaceLoop_eq h n hn _ _ _ _ _ (hn _), hx (sup (asPool g d.env)).reverse (sup (asPool g d.env)) (by simp)]

end Verif.Pools
