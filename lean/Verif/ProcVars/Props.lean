import Verif.ProcVars.Model
import Mathlib.Data.List.Basic

/-!
# Variables of processes (C211 to C213)
-/

namespace Verif.ProcVars

/-- C211: what a process sees depends on what it did itself, whatever the others do in between. -/
theorem isolated (s : ℕ → Proc) (ops : List (ℕ × Op)) (i : ℕ) :
    run s ops i = runOne (s i) ((ops.filter fun o => o.1 = i).map (·.2)) := by
  induction ops generalizing s with
  | nil => rfl
  | cons o ops ih =>
    have e : run s (o :: ops) = run (Function.update s o.1 (step (s o.1) o.2)) ops := rfl
    rw [e, ih]
    by_cases h : o.1 = i
    · subst h
      rw [Function.update_self, List.filter_cons_of_pos (by simp)]; rfl
    · rw [Function.update_of_ne (fun e => h e.symm), List.filter_cons_of_neg (by simpa using h)]

/-- C211: in particular the operations of others change nothing. -/
theorem others (s : ℕ → Proc) (ops : List (ℕ × Op)) (i : ℕ) (h : ∀ o ∈ ops, o.1 ≠ i) : run s ops i = s i := by
  rw [isolated, List.filter_eq_nil_iff.2 (by simpa using h)]; rfl

example : ∀ o ∈ [((1 : ℕ), Op.remove ⟨3, 3⟩)], o.1 ≠ 2 := by simp

/-- C211: setting a variable changes that variable, and no variable with another key. -/
theorem put_value (p : Proc) (k : Key) (v : Val) : value (step p (.put k v)) k = v ∧ includesKey (step p (.put k v)) k = true ∧
    ∀ k', k'.id ≠ k.id → value (step p (.put k v)) k' = value p k' ∧ includesKey (step p (.put k v)) k' = includesKey p k' := by
  unfold value includesKey step Env.put
  refine ⟨by simp, by simp, fun k' h => ?_⟩
  dsimp only
  rw [Function.update_of_ne h]
  exact ⟨rfl, rfl⟩

/-- C211: removing a variable. -/
theorem remove_value (p : Proc) (k : Key) : value (step p (.remove k)) k = .nil ∧ includesKey (step p (.remove k)) k = false ∧
    ∀ k', k'.id ≠ k.id → value (step p (.remove k)) k' = value p k' ∧ includesKey (step p (.remove k)) k' = includesKey p k' := by
  unfold value includesKey step
  refine ⟨by simp, by simp, fun k' h => ?_⟩
  dsimp only
  rw [Function.update_of_ne h]
  exact ⟨rfl, rfl⟩

/-- C211: `at:ifAbsentPut:` keeps the variable that is there. -/
theorem ifAbsentPut_value (p : Proc) (k : Key) (v : Val) : value (step p (.ifAbsentPut k v)) k = atIfAbsent p k v ∧
    includesKey (step p (.ifAbsentPut k v)) k = true ∧ ∀ k', k'.id ≠ k.id → value (step p (.ifAbsentPut k v)) k' = value p k' := by
  unfold value includesKey step atIfAbsent Env.put
  dsimp only
  cases h : p.env k.id with
  | none =>
    refine ⟨by simp, by simp, fun k' hk => ?_⟩
    simp [Function.update_of_ne hk]
  | some x => exact ⟨by simp [h], by simp [h], fun k' _ => by simp⟩

/-- C211: all the ways to ask agree, except that one may say what an absent variable is. -/
theorem asked (p : Proc) (k : Key) (block : Val) : envAt p k = value p k ∧
    atIfAbsent p k block = if includesKey p k then value p k else block := by
  refine ⟨rfl, ?_⟩
  unfold atIfAbsent includesKey value
  cases p.env k.id <;> rfl

/-- C211 fails: keys that are equal but not identical, such as two literal arrays as the comment of `key:` proposes, name different variables. -/
theorem equal_fails (p : Proc) (a b : ℕ) (h : a ≠ b) (hb : p.env b = none) (n : ℕ) :
    value (step p (.put ⟨a, 5⟩ (.obj n))) ⟨b, 5⟩ = .nil := by
  have := ((put_value p ⟨a, 5⟩ (.obj n)).2.2 ⟨b, 5⟩ (fun e => h e.symm)).1
  rw [this, value, hb]; rfl

example : (1 : ℕ) ≠ 2 ∧ (⟨fun _ => none, []⟩ : Proc).env 2 = none := by decide

/-! ## `use:during:` -/

/-- What a process does between the beginning and the end of a block: the uses that it begins it ends, normally or by unwinding. -/
inductive Balanced : List Op → Prop where
  | nil : Balanced []
  | put (k v) : Balanced [.put k v]
  | ifAbsentPut (k v) : Balanced [.ifAbsentPut k v]
  | remove (k) : Balanced [.remove k]
  | use (k v) {b} : Balanced b → Balanced (.enter k v :: (b ++ [.leave]))
  | append {a b} : Balanced a → Balanced b → Balanced (a ++ b)

theorem runOne_append (p : Proc) (a b : List Op) : runOne p (a ++ b) = runOne (runOne p a) b := List.foldl_append ..

theorem uses_eq {b : List Op} (h : Balanced b) : ∀ p, (runOne p b).uses = p.uses := by
  induction h with
  | nil => intro p; rfl
  | put k v => intro p; rfl
  | ifAbsentPut k v =>
    intro p
    show (step p (.ifAbsentPut k v)).uses = p.uses
    unfold step
    dsimp only
    split <;> rfl
  | remove k => intro p; rfl
  | use k v hb ih =>
    rename_i b
    intro p
    have e : runOne p (.enter k v :: (b ++ [.leave])) = step (runOne (step p (.enter k v)) b) .leave := by
      show runOne (step p (.enter k v)) (b ++ [.leave]) = _
      rw [runOne_append]; rfl
    rw [e]
    have hu := ih (step p (.enter k v))
    generalize runOne (step p (.enter k v)) b = q at hu ⊢
    unfold step
    rw [hu]; rfl
  | append _ _ ih1 ih2 => intro p; rw [runOne_append, ih2, ih1]

theorem use_end (p : Proc) (k : Key) (v : Val) {b : List Op} (h : Balanced b) :
    runOne p (.enter k v :: (b ++ [.leave])) =
      ⟨(runOne (step p (.enter k v)) b).env.put k (value p k), p.uses⟩ := by
  have e : runOne p (.enter k v :: (b ++ [.leave])) = step (runOne (step p (.enter k v)) b) .leave := by
    show runOne (step p (.enter k v)) (b ++ [.leave]) = _
    rw [runOne_append]; rfl
  rw [e]
  have hu := uses_eq h (step p (.enter k v))
  generalize runOne (step p (.enter k v)) b = q at hu ⊢
  unfold step
  rw [hu]; rfl

/-- C212: in the block of `use:during:` the variable has its new value. -/
theorem inside (p : Proc) (k : Key) (v : Val) : value (step p (.enter k v)) k = v ∧
    ∀ k', k'.id ≠ k.id → value (step p (.enter k v)) k' = value p k' := by
  unfold value step Env.put
  refine ⟨by simp, fun k' h => ?_⟩
  dsimp only
  rw [Function.update_of_ne h]

/-- C212, the part that holds: after `use:during:` the variable has the value it had, whatever the block did and however it was left, and whatever the other processes did.
What is missing is that a variable that was not there is not there again (`restored_fails`). -/
theorem restored_partial (s : ℕ → Proc) (ops : List (ℕ × Op)) (i : ℕ) (k : Key) (v : Val) (b : List Op) (hb : Balanced b)
    (h : (ops.filter fun o => o.1 = i).map (·.2) = .enter k v :: (b ++ [.leave])) :
    value (run s ops i) k = value (s i) k := by
  rw [isolated, h, use_end _ k v hb]
  unfold value Env.put
  simp

example : Balanced [Op.put ⟨1, 1⟩ (.obj 7), Op.enter ⟨2, 2⟩ (.obj 3), Op.leave] ∧
    (([(0, Op.enter ⟨1, 1⟩ (.obj 4)), (9, .remove ⟨1, 1⟩), (0, .put ⟨1, 1⟩ (.obj 7)), (0, .enter ⟨2, 2⟩ (.obj 3)), (0, .leave), (0, .leave)] :
      List (ℕ × Op)).filter fun o => o.1 = 0).map (·.2) =
      .enter ⟨1, 1⟩ (.obj 4) :: ([Op.put ⟨1, 1⟩ (.obj 7), Op.enter ⟨2, 2⟩ (.obj 3), Op.leave] ++ [.leave]) :=
  ⟨.append (.put _ _) (.use _ _ .nil), rfl⟩

/-- Blocks that only use variables and set none. -/
inductive Uses : List Op → Prop where
  | nil : Uses []
  | use (k v) {b} : Uses b → Uses (.enter k v :: (b ++ [.leave]))
  | append {a b} : Uses a → Uses b → Uses (a ++ b)

theorem uses_balanced {b : List Op} (h : Uses b) : Balanced b := by
  induction h with
  | nil => exact .nil
  | use k v _ ih => exact .use k v ih
  | append _ _ ih1 ih2 => exact .append ih1 ih2

/-- C212: variables that are only set with `use:during:` are visible only inside: nested uses in any number leave the values of all variables as they were. -/
theorem dynamic_partial {b : List Op} (h : Uses b) : ∀ (p : Proc) (k : Key), value (runOne p b) k = value p k := by
  induction h with
  | nil => intro p k; rfl
  | use k v hb ih =>
    rename_i c
    intro p k'
    rw [use_end p k v (uses_balanced hb)]
    by_cases hk : k'.id = k.id
    · unfold value Env.put
      simp [hk]
    · have e1 : value (⟨(runOne (step p (.enter k v)) c).env.put k (value p k), p.uses⟩ : Proc) k' = value (runOne (step p (.enter k v)) c) k' := by
        unfold value Env.put
        dsimp only
        rw [Function.update_of_ne hk]
      rw [e1, ih, (inside p k v).2 k' hk]
  | append _ _ ih1 ih2 => intro p k; rw [runOne_append, ih2, ih1]

example : Uses [Op.enter ⟨1, 1⟩ (.obj 1), .enter ⟨1, 1⟩ (.obj 2), .leave, .leave] := .use _ _ (.use _ _ .nil)

/-- C212 fails: a variable that was not there is there after `use:during:`, with nil as its value, so `at:ifAbsent:` and `at:ifAbsentPut:` no longer use their block. -/
theorem restored_fails (p : Proc) (k : Key) (v d : Val) (h : includesKey p k = false) :
    let q := runOne p [.enter k v, .leave]
    includesKey q k = true ∧ atIfAbsent p k d = d ∧ atIfAbsent q k d = .nil ∧ value (step q (.ifAbsentPut k d)) k = .nil := by
  have hn : p.env k.id = none := by
    unfold includesKey at h
    cases hk : p.env k.id with
    | none => rfl
    | some x => rw [hk] at h; cases h
  have e : runOne p [.enter k v, .leave] = ⟨(step p (.enter k v)).env.put k (value p k), p.uses⟩ := use_end p k v .nil
  have hv : value p k = .nil := by rw [value, hn]; rfl
  dsimp only
  rw [e, (ifAbsentPut_value _ k d).1, hv]
  unfold includesKey atIfAbsent Env.put
  simp [hn]

example : includesKey ⟨fun _ => none, []⟩ ⟨1, 1⟩ = false := rfl

/-! ## `valueIfAbsent:` -/

/-- C213, the part that holds: `valueIfAbsent:` answers the value of a variable that is there. What is missing is said by `default_fails`. -/
theorem default_partial (p : Proc) (k : Key) (d : Val) (h : includesKey p k = true) : valueIfAbsent p k d = atIfAbsent p k d := by
  unfold includesKey at h
  unfold valueIfAbsent atIfAbsent
  obtain ⟨x, hx⟩ := Option.isSome_iff_exists.1 h
  rw [hx]; rfl

example : includesKey (step ⟨fun _ => none, []⟩ (.put ⟨1, 1⟩ (.obj 2))) ⟨1, 1⟩ = true := rfl

/-- C213 fails: for a variable that is not there `valueIfAbsent:` answers nil whatever its block answers. -/
theorem default_fails (p : Proc) (k : Key) (d : Val) (h : includesKey p k = false) : valueIfAbsent p k d = .nil := by
  unfold includesKey at h
  unfold valueIfAbsent
  cases hk : p.env k.id with
  | none => rfl
  | some x => rw [hk] at h; cases h

end Verif.ProcVars
