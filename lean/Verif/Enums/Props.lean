import Verif.Enums.Model
import Mathlib.Tactic.Tauto
import Mathlib.Tactic.ByContra

/-
C226: searches stop at the first answer and evaluate the block once for each
element before it; counts, injections, folds and separators.
C227: what `includes:`, `includesAnyOf:`, `includesAllOf:` and
`occurrencesOf:` say.
C228: what `removeAllSuchThat:` and `copyWithout:` leave.
-/
namespace Verif.Enums

variable {E S α A : Type}

/-- Evaluating the block on the elements of a list, one after the other, gives
    these answers and this state. -/
inductive Runs (b : Blk E S α) : List E → S → List α → S → Prop
  | nil (s) : Runs b [] s [] s
  | cons {x l s a s1 as s2} : b x s = (a, s1) → Runs b l s1 as s2 →
      Runs b (x :: l) s (a :: as) s2

/-- The block answered `stop` for `x` after answering something else for all the
    elements in front of it, and was not evaluated any more. -/
def StopsAt (b : Blk E S Bool) (stop : Bool) (l : List E) (s : S) (x : E) (s' : S) : Prop :=
  ∃ pre post as s1, l = pre ++ x :: post ∧ Runs b pre s as s1 ∧
    (∀ a ∈ as, a = !stop) ∧ b x s1 = (stop, s')

/-- The block was evaluated for all the elements and never answered `stop`. -/
def Passes (b : Blk E S Bool) (stop : Bool) (l : List E) (s s' : S) : Prop :=
  ∃ as, Runs b l s as s' ∧ ∀ a ∈ as, a = !stop

/-! ### How `do:` with `^` runs -/

/-- The block that leaves the method with `f x` when `b` answers `stop`. -/
private def leave {R : Type} (b : Blk E S Bool) (stop : Bool) (f : E → R) : Blk E S (Option R) :=
  fun x s => if (b x s).1 = stop then (some (f x), (b x s).2) else (none, (b x s).2)

private theorem leave_some {R : Type} (b : Blk E S Bool) (stop : Bool) (f : E → R) :
    ∀ (l : List E) (s : S) (r : R) (s' : S), doEx (leave b stop f) l s = (some r, s') →
      ∃ x, StopsAt b stop l s x s' ∧ r = f x := by
  intro l
  induction l with
  | nil => intro s r s' h; simp [doEx] at h
  | cons x l ih =>
    intro s r s' h
    rcases hb : b x s with ⟨a, s1⟩
    by_cases ha : a = stop
    · subst ha
      simp [doEx, leave, hb] at h
      exact ⟨x, ⟨[], l, [], s, rfl, .nil s, by simp, by rw [hb, h.2]⟩, h.1.symm⟩
    · simp [doEx, leave, hb, ha] at h
      obtain ⟨y, ⟨pre, post, as, s2, e, hr, hall, hy⟩, hf⟩ := ih _ _ _ h
      refine ⟨y, ⟨x :: pre, post, a :: as, s2, by simp [e], .cons hb hr, ?_, hy⟩, hf⟩
      intro c hc
      rcases List.mem_cons.1 hc with rfl | hc
      · revert ha; cases c <;> cases stop <;> simp
      · exact hall c hc

private theorem leave_none {R : Type} (b : Blk E S Bool) (stop : Bool) (f : E → R) :
    ∀ (l : List E) (s : S) (s' : S), doEx (leave b stop f) l s = (none, s') →
      Passes b stop l s s' := by
  intro l
  induction l with
  | nil => intro s s' h; simp [doEx] at h; exact ⟨[], h ▸ .nil s, by simp⟩
  | cons x l ih =>
    intro s s' h
    rcases hb : b x s with ⟨a, s1⟩
    by_cases ha : a = stop
    · simp [doEx, leave, hb, ha] at h
    · simp [doEx, leave, hb, ha] at h
      obtain ⟨as, hr, hall⟩ := ih _ _ h
      refine ⟨a :: as, .cons hb hr, ?_⟩
      intro c hc
      rcases List.mem_cons.1 hc with rfl | hc
      · revert ha; cases c <;> cases stop <;> simp
      · exact hall c hc

private theorem ifTrue_leave {R : Type} (f : E → R) (b : Blk E S Bool) :
    ifTrueLeave f b = leave b true f := by
  funext x s
  rcases hb : b x s with ⟨_ | _, s1⟩ <;> simp [ifTrueLeave, leave, hb]

private theorem ifFalse_leave {R : Type} (f : E → R) (b : Blk E S Bool) :
    ifFalseLeave f b = leave b false f := by
  funext x s
  rcases hb : b x s with ⟨_ | _, s1⟩ <;> simp [ifFalseLeave, leave, hb]

/-! ### C226 -/

/-- C226: `detect:` answers the first element for which the block answers true,
    after evaluating the block exactly once for each element up to that one and
    for no other; it fails only when the block answered false for all. -/
theorem detect_first (b : Blk E S Bool) (l : List E) (s : S) :
    match detect b l s with
    | (some x, s') => StopsAt b true l s x s'
    | (none, s') => Passes b true l s s' := by
  unfold detect
  rw [ifTrue_leave]
  rcases h : doEx (leave b true fun x => x) l s with ⟨_ | r, s'⟩
  · exact leave_none b true _ l s s' h
  · obtain ⟨x, hx, e⟩ := leave_some b true _ l s r s' h
    subst e; exact hx

/-- C226: `anySatisfy:` says whether some answer is true, and evaluates the
    block only up to the first one. -/
theorem any_first (b : Blk E S Bool) (l : List E) (s : S) :
    match anySatisfy b l s with
    | (true, s') => ∃ x, StopsAt b true l s x s'
    | (false, s') => Passes b true l s s' := by
  unfold anySatisfy
  rw [ifTrue_leave]
  rcases h : doEx (leave b true fun _ => true) l s with ⟨_ | r, s'⟩
  · exact leave_none b true _ l s s' h
  · obtain ⟨x, hx, e⟩ := leave_some b true _ l s r s' h
    subst e; exact ⟨x, hx⟩

/-- C226: `allSatisfy:` says whether all the answers are true, and evaluates the
    block only up to the first one that is false. -/
theorem all_first (b : Blk E S Bool) (l : List E) (s : S) :
    match allSatisfy b l s with
    | (true, s') => Passes b false l s s'
    | (false, s') => ∃ x, StopsAt b false l s x s' := by
  unfold allSatisfy
  rw [ifFalse_leave]
  rcases h : doEx (leave b false fun _ => false) l s with ⟨_ | r, s'⟩
  · exact leave_none b false _ l s s' h
  · obtain ⟨x, hx, e⟩ := leave_some b false _ l s r s' h
    subst e; exact ⟨x, hx⟩

/-- C226: `noneSatisfy:` is the opposite of `anySatisfy:`, effects included. -/
theorem none_first (b : Blk E S Bool) (l : List E) (s : S) :
    match noneSatisfy b l s with
    | (true, s') => Passes b true l s s'
    | (false, s') => ∃ x, StopsAt b true l s x s' := by
  unfold noneSatisfy
  rw [ifTrue_leave]
  rcases h : doEx (leave b true fun _ => false) l s with ⟨_ | r, s'⟩
  · exact leave_none b true _ l s s' h
  · obtain ⟨x, hx, e⟩ := leave_some b true _ l s r s' h
    subst e; exact ⟨x, hx⟩

private theorem count_runs (b : Blk E S Bool) :
    ∀ (l : List E) (n : Nat) (s : S), ∃ as s',
      Runs b l s as s' ∧
      doAll (countOne b) l (n, s) = (n + (as.filter id).length, s') := by
  intro l
  induction l with
  | nil => intro n s; exact ⟨[], s, .nil s, rfl⟩
  | cons x l ih =>
    intro n s
    rcases hb : b x s with ⟨a, s1⟩
    cases a with
    | true =>
      obtain ⟨as, s', hr, e⟩ := ih (n + 1) s1
      refine ⟨true :: as, s', .cons hb hr, ?_⟩
      simp only [doAll, countOne, hb]
      rw [e]
      simp
      omega
    | false =>
      obtain ⟨as, s', hr, e⟩ := ih n s1
      refine ⟨false :: as, s', .cons hb hr, ?_⟩
      simp only [doAll, countOne, hb]
      rw [e]
      simp

/-- C226: `count:` evaluates the block once for each element, in order, and
    answers how many of the answers were true. -/
theorem count_true (b : Blk E S Bool) (l : List E) (s : S) :
    ∃ as, Runs b l s as (count b l s).2 ∧ (count b l s).1 = (as.filter id).length := by
  obtain ⟨as, s', hr, e⟩ := count_runs b l 0 s
  refine ⟨as, ?_, ?_⟩ <;> (unfold count; rw [e]) <;> simp [hr]

private theorem doAll_foldl (b : E → S → S) : ∀ (l : List E) (s : S),
    doAll b l s = l.foldl (fun s x => b x s) s := by
  intro l
  induction l with
  | nil => intro s; rfl
  | cons x l ih => intro s; simp [doAll, ih]

/-- C226: `inject:into:` combines the elements from the left. -/
theorem inject_foldl (b : A → E → S → A × S) (a : A) (l : List E) (s : S) :
    inject b a l s = l.foldl (fun p x => b p.1 x p.2) (a, s) := by
  unfold inject
  rw [doAll_foldl]

private theorem fold_some (b : E → E → S → E × S) : ∀ (l : List E) (a : E) (s : S),
    doAll (foldOne b) l (some a, s)
      = (some (inject b a l s).1, (inject b a l s).2) := by
  intro l
  induction l with
  | nil => intro a s; rfl
  | cons x l ih =>
    intro a s
    simp only [doAll, foldOne, inject]
    rw [ih]
    rfl

/-- C226: `fold:` fails exactly for an empty collection, and else combines the
    other elements with the first one as `inject:into:` does. -/
theorem fold_inject (b : E → E → S → E × S) (s : S) :
    fold b [] s = (none, s) ∧
    ∀ x l, fold b (x :: l) s = (some (l.foldl (fun p y => b p.1 y p.2) (x, s)).1,
      (l.foldl (fun p y => b p.1 y p.2) (x, s)).2) := by
  refine ⟨rfl, fun x l => ?_⟩
  rw [← inject_foldl]
  exact fold_some b l x s

private theorem upTo_drop (b : E → S → S) (l : List E) : ∀ (n i : Nat) (s : S), 1 ≤ i →
    n + i = l.length + 1 → upTo b l n i s = doAll b (l.drop (i - 1)) s := by
  intro n
  induction n with
  | zero =>
    intro i s hi h
    rw [List.drop_eq_nil_of_le (by omega)]
    rfl
  | succ n ih =>
    intro i s hi h
    have hlt : i - 1 < l.length := by omega
    rw [List.drop_eq_getElem_cons hlt]
    simp only [upTo, List.getElem?_eq_getElem hlt, doAll]
    rw [ih (i + 1) _ (by omega) (by omega)]
    have e : i + 1 - 1 = i - 1 + 1 := by omega
    rw [e]

/-- C226: arrays and other sequences fold as any other collection. -/
theorem seqFold_fold (b : E → E → S → E × S) (l : List E) (s : S) :
    seqFold b l s = fold b l s := by
  cases l with
  | nil => rfl
  | cons x l =>
    rw [(fold_inject b s).2 x l, ← inject_foldl]
    unfold seqFold inject
    simp only [List.getElem?_cons_zero, List.length_cons, Nat.add_sub_cancel]
    rw [upTo_drop _ _ _ _ _ (by omega) (by simp)]
    rfl

/-- What is to happen for `do:separatedBy:`: the elements (`some`), with a
    separator (`none`) between each two. -/
def events (l : List E) : List (Option E) := (l.map some).intersperse none

/-- The effect of one event. -/
def event (b : E → S → S) (sep : S → S) (s : S) : Option E → S
  | some x => b x s
  | none => sep s

private theorem events_tail (b : E → S → S) (sep : S → S) : ∀ (l : List E) (x : E) (s : S),
    (events (x :: l)).foldl (event b sep) s = doAll (fun y s => b y (sep s)) l (b x s) := by
  intro l
  induction l with
  | nil => intro x s; rfl
  | cons y l ih =>
    intro x s
    have := ih y (sep (b x s))
    simp only [events, List.map_cons] at this ⊢
    rw [List.intersperse_cons_cons, List.foldl_cons, List.foldl_cons]
    exact this

private theorem sepBy_rest (b : E → S → S) (sep : S → S) : ∀ (l : List E) (s : S),
    (doAll (fun x (p : Bool × S) =>
      if p.1 then (false, b x p.2) else (false, b x (sep p.2))) l (false, s)).2
      = doAll (fun y s => b y (sep s)) l s := by
  intro l
  induction l with
  | nil => intro s; rfl
  | cons x l ih => intro s; simp only [doAll]; exact ih _

/-- C226: `do:separatedBy:` evaluates the block for each element and the other
    block between each two elements, neither before the first nor after the
    last. -/
theorem sepBy_events (b : E → S → S) (sep : S → S) (l : List E) (s : S) :
    sepBy b sep l s = (events l).foldl (event b sep) s := by
  cases l with
  | nil => rfl
  | cons x l =>
    rw [events_tail, ← sepBy_rest]
    rfl

/-- C226: and so do arrays and other sequences. -/
theorem seqSepBy_events (b : E → S → S) (sep : S → S) (l : List E) (s : S) :
    seqSepBy b sep l s = (events l).foldl (event b sep) s := by
  cases l with
  | nil => rfl
  | cons x l =>
    rw [events_tail]
    unfold seqSepBy
    simp only [List.getElem?_cons_zero, List.length_cons, Nat.add_sub_cancel]
    rw [upTo_drop _ _ _ _ _ (by omega) (by simp)]
    rfl

/-- A block that keeps the elements it has seen and looks for an even one: it
    is not evaluated after the 4. -/
example : detect (fun x (s : List Nat) => (x % 2 = 0, s ++ [x])) [3, 5, 4, 7, 6] []
    = (some 4, [3, 5, 4]) := by decide
example : count (fun x (s : List Nat) => (x % 2 = 0, s ++ [x])) [3, 5, 4, 7, 6] []
    = (2, [3, 5, 4, 7, 6]) := by decide
example : seqSepBy (fun x (s : List Nat) => s ++ [x]) (· ++ [0]) [3, 5, 4] []
    = [3, 0, 5, 0, 4] := by decide
example : seqFold (fun a b (s : Nat) => (a * b, s + 1)) [3, 5, 4] 0 = (some 60, 2) := by decide

/-! ### C227 -/

/-- C227: `includes:` says whether some element is equal to the argument. -/
theorem includes_iff (eq : E → E → Bool) (a : E) : ∀ l : List E,
    includes eq l a = true ↔ ∃ x ∈ l, eq a x = true := by
  intro l
  unfold includes
  induction l with
  | nil => simp [doEx, orElse]
  | cons x l ih =>
    by_cases h : eq a x = true
    · simp [doEx, ifTrueLeave, pure, orElse, h]
    · simp only [List.mem_cons, exists_eq_or_imp, h, false_or, Bool.false_eq_true]
      rw [← ih]
      simp [doEx, ifTrueLeave, pure, h]

private theorem runs_pure (f : E → Bool) : ∀ (l : List E) (as : List Bool) (s s' : Unit),
    Runs (pure f) l s as s' → as = l.map f := by
  intro l as s s' h
  induction h with
  | nil => rfl
  | cons hb _ ih =>
    simp [pure] at hb
    simp [ih, hb]

private theorem any_pure (f : E → Bool) (l : List E) :
    (anySatisfy (pure f) l ()).1 = true ↔ ∃ x ∈ l, f x = true := by
  have h := any_first (pure f) l ()
  rcases e : anySatisfy (pure f) l () with ⟨_ | _, s'⟩ <;> rw [e] at h
  · obtain ⟨as, hr, hall⟩ := h
    rw [runs_pure f l as () s' hr] at hall
    simp at hall
    simpa using hall
  · obtain ⟨x, pre, post, as, s1, el, _, _, hx⟩ := h
    simp only [true_iff]
    refine ⟨x, by simp [el], ?_⟩
    simpa [pure] using hx

private theorem all_pure (f : E → Bool) (l : List E) :
    (allSatisfy (pure f) l ()).1 = true ↔ ∀ x ∈ l, f x = true := by
  have h := all_first (pure f) l ()
  rcases e : allSatisfy (pure f) l () with ⟨_ | _, s'⟩ <;> rw [e] at h
  · obtain ⟨x, pre, post, as, s1, el, _, _, hx⟩ := h
    simp only [Bool.false_eq_true, false_iff]
    intro hall
    have := hall x (by simp [el])
    simp [pure, this] at hx
  · obtain ⟨as, hr, hall⟩ := h
    rw [runs_pure f l as () s' hr] at hall
    simp at hall
    simpa using hall

/-- C227: `includesAnyOf:` says whether the collections have equal elements,
    whatever `=` is like. -/
theorem includesAny_iff (eq : E → E → Bool) (l c : List E) :
    includesAnyOf eq l c = true ↔ ∃ x ∈ l, ∃ y ∈ c, eq x y = true := by
  unfold includesAnyOf
  rw [any_pure]
  simp only [includes_iff]

/-- C227, in part: what `includesAllOf:` really computes: whether the *argument*
    includes all the elements of the *receiver*.  Missing: the claim itself,
    see `includesAll_fails`. -/
theorem includesAll_partial (eq : E → E → Bool) (l c : List E) :
    includesAllOf eq l c = true ↔ ∀ x ∈ l, ∃ y ∈ c, eq x y = true := by
  unfold includesAllOf
  rw [all_pure]
  simp only [includes_iff]

/-- C227 fails: `#(1 2) includesAllOf: #(1)` is false, and an empty collection
    "includes all of" any collection. -/
theorem includesAll_fails :
    (∀ y ∈ [1], includes (fun a b : Nat => a == b) [1, 2] y = true) ∧
    includesAllOf (fun a b : Nat => a == b) [1, 2] [1] = false ∧
    includesAllOf (fun a b : Nat => a == b) [] [1] = true ∧
    includes (fun a b : Nat => a == b) [] 1 = false := by decide

private theorem occ_count (same : E → E → Bool) (a : E) : ∀ (l : List E) (n : Nat),
    doAll (fun x n => if same a x then n + 1 else n) l n = n + (l.filter (same a)).length := by
  intro l
  induction l with
  | nil => intro n; rfl
  | cons x l ih =>
    intro n
    by_cases h : same a x = true
    · simp [doAll, h, ih]; omega
    · simp [doAll, h, ih]

/-- C227, in part: `occurrencesOf:` counts the elements that are *identical* to
    the argument; when equal objects are identical (Symbols, SmallIntegers,
    Characters) it counts the elements that are equal and is positive exactly
    when `includes:` is true.  Missing: other elements, see
    `occurrences_fails`. -/
theorem occurrences_partial (same eq : E → E → Bool) (a : E) (l : List E) :
    occurrencesOf same l a = (l.filter (same a)).length ∧
    ((∀ x ∈ l, eq a x = same a x) →
      occurrencesOf same l a = (l.filter (eq a)).length ∧
      (0 < occurrencesOf same l a ↔ includes eq l a = true)) := by
  have h0 : occurrencesOf same l a = (l.filter (same a)).length := by
    unfold occurrencesOf; rw [occ_count]; simp
  refine ⟨h0, fun h => ?_⟩
  have h1 : l.filter (eq a) = l.filter (same a) := List.filter_congr h
  refine ⟨by rw [h0, h1], ?_⟩
  rw [h0, ← h1, includes_iff, List.length_pos_iff_exists_mem]
  simp only [List.mem_filter]

/-- Objects for the counterexamples: a value that `=` compares and the address
    that `==` compares. -/
structure Obj where
  value : Nat
  address : Nat
  deriving DecidableEq

/-- `=`: the values are equal. -/
def Obj.eq (a b : Obj) : Bool := a.value == b.value
/-- `==`: the same object. -/
def Obj.same (a b : Obj) : Bool := a == b

/-- C227 fails: two Strings with the same characters.  The collection includes
    the one that is looked for, and yet it occurs 0 times in it. -/
theorem occurrences_fails :
    ∃ (l : List Obj) (a : Obj), includes Obj.eq l a = true ∧ occurrencesOf Obj.same l a = 0 :=
  ⟨[⟨7, 1⟩], ⟨7, 2⟩, by decide⟩

example : includesAnyOf Obj.eq [⟨7, 1⟩, ⟨8, 2⟩] [⟨8, 3⟩] = true := by decide
example : occurrencesOf Obj.same [⟨7, 1⟩, ⟨8, 2⟩, ⟨7, 1⟩] ⟨7, 1⟩ = 2 := by decide

/-! ### C228 -/

private theorem remove_skip (eq : E → E → Bool) (x : E) (l : List E) :
    ∀ pre : List E, (∀ y ∈ pre, eq y x = false) → eq x x = true →
      (remove eq x (pre ++ x :: l)).1 = pre ++ l := by
  intro pre
  induction pre with
  | nil => intro _ h; simp [remove, h]
  | cons y pre ih =>
    intro hp h
    have hy : eq y x = false := hp y (by simp)
    simp [remove, hy, ih (fun z hz => hp z (by simp [hz])) h]

private theorem removeAll_gen (eq : E → E → Bool) (p : E → Bool)
    (refl : ∀ x, eq x x = true) :
    ∀ (l pre : List E), (∀ y ∈ pre, p y = false) →
      (∀ x ∈ pre ++ l, ∀ y ∈ pre ++ l, eq x y = true → p x = p y) →
      removeAll eq (l.filter p) (pre ++ l) = pre ++ l.filter (fun x => !p x) := by
  intro l
  induction l with
  | nil => intro pre _ _; simp [removeAll]
  | cons x l ih =>
    intro pre hp hr
    by_cases hx : p x = true
    · have hskip : ∀ y ∈ pre, eq y x = false := by
        intro y hy
        by_contra hc
        have := hr y (by simp [hy]) x (by simp) (by simpa using hc)
        rw [hp y hy, hx] at this
        cases this
      rw [List.filter_cons_of_pos hx, removeAll, remove_skip eq x l pre hskip (refl x),
        List.filter_cons_of_neg (by simp [hx])]
      refine ih pre hp fun a ha b hb => hr a ?_ b ?_
      · simp only [List.mem_append, List.mem_cons] at ha ⊢; tauto
      · simp only [List.mem_append, List.mem_cons] at hb ⊢; tauto
    · rw [List.filter_cons_of_neg hx, List.filter_cons_of_pos (by simp [hx])]
      have e : pre ++ x :: l = (pre ++ [x]) ++ l := by simp
      rw [e, ih (pre ++ [x]) ?_ (by rw [← e]; exact hr)]
      · simp
      · intro y hy
        rcases List.mem_append.1 hy with hy | hy
        · exact hp y hy
        · simp at hy; subst hy; simpa using hx

/-- C228, in part: when the block does not tell equal elements apart,
    `removeAllSuchThat:` leaves exactly the elements that the block rejects, in
    their order.  Missing: blocks that tell equal elements apart, see
    `such_fails`. -/
theorem such_partial (eq : E → E → Bool) (p : E → Bool) (l : List E)
    (refl : ∀ x, eq x x = true)
    (resp : ∀ x ∈ l, ∀ y ∈ l, eq x y = true → p x = p y) :
    removeAllSuchThat eq p l = l.filter fun x => !p x := by
  have := removeAll_gen eq p refl l [] (by simp) (by simpa using resp)
  simpa [removeAllSuchThat] using this

/-- C228 fails: an OrderedCollection with 3 and 3.0, from which the Floats are
    to be removed: the Integer goes away and the Float stays. -/
theorem such_fails :
    ∃ (l : List Obj) (p : Obj → Bool),
      (∃ x ∈ removeAllSuchThat Obj.eq p l, p x = true) ∧
      (∃ x ∈ l, p x = false ∧ x ∉ removeAllSuchThat Obj.eq p l) :=
  ⟨[⟨3, 1⟩, ⟨3, 2⟩], fun x => x.address == 2, by decide⟩

/-- C228: `remove:ifAbsent:` takes away the first element that is equal to the
    argument and nothing else, and says when there is none. -/
theorem remove_first (eq : E → E → Bool) (a : E) : ∀ l : List E,
    (∃ pre x post, l = pre ++ x :: post ∧ (∀ y ∈ pre, eq y a = false) ∧ eq x a = true ∧
      remove eq a l = (pre ++ post, true)) ∨
    ((∀ y ∈ l, eq y a = false) ∧ remove eq a l = (l, false)) := by
  intro l
  induction l with
  | nil => right; simp [remove]
  | cons x l ih =>
    by_cases hx : eq x a = true
    · left; exact ⟨[], x, l, rfl, by simp, hx, by simp [remove, hx]⟩
    · have hx' : eq x a = false := by simpa using hx
      rcases ih with ⟨pre, z, post, e, hp, hz, hr⟩ | ⟨hall, hr⟩
      · left
        refine ⟨x :: pre, z, post, by simp [e], ?_, hz, by simp [remove, hx', hr]⟩
        intro y hy
        rcases List.mem_cons.1 hy with rfl | hy
        · exact hx'
        · exact hp y hy
      · right
        refine ⟨?_, by simp [remove, hx', hr]⟩
        intro y hy
        rcases List.mem_cons.1 hy with rfl | hy
        · exact hx'
        · exact hall y hy

/-- C228: `copyWithout:` leaves the elements that are not equal to the argument,
    and none of those that are. -/
theorem without (eq : E → E → Bool) (a : E) (l : List E) (x : E) :
    x ∈ copyWithout eq a l ↔ x ∈ l ∧ eq x a = false := by
  simp [copyWithout]

example : removeAllSuchThat Obj.eq (fun x => x.value == 3) [⟨3, 1⟩, ⟨4, 5⟩, ⟨3, 2⟩]
    = [⟨4, 5⟩] := by decide
example : (∀ x, Obj.eq x x = true) ∧
    ∀ x ∈ [(⟨3, 1⟩ : Obj), ⟨4, 5⟩, ⟨3, 2⟩], ∀ y ∈ [(⟨3, 1⟩ : Obj), ⟨4, 5⟩, ⟨3, 2⟩],
      Obj.eq x y = true → (x.value == 3) = (y.value == 3) := by
  refine ⟨fun x => by simp [Obj.eq], by decide⟩

end Verif.Enums
