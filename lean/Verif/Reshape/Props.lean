import Verif.Reshape.Model

/-!
# Changing the instance variables of a class (C223 to C225)
-/

namespace Verif.Reshape

variable {V : Type}

/-! ## Looking up names -/

/-- The value of the variable with a given name: the last one, if there are several. -/
def value (nil : V) (names : List Name) (o : Obj V) (n : Name) : V :=
  if 0 < findLast names n then o.fixed.getD (findLast names n - 1) nil else nil

theorem findLast_pos {l : List Name} {n : Name} : 0 < findLast l n ↔ n ∈ l := by
  induction l with
  | nil => simp [findLast]
  | cons x l ih =>
    rw [findLast, List.mem_cons]
    split
    · rename_i h; simp [ih.1 h]
    · rename_i h
      have hl : n ∉ l := fun hm => h (ih.2 hm)
      split
      · rename_i e; simp [e]
      · rename_i e
        simp only [Nat.lt_irrefl, false_iff, not_or]
        exact ⟨fun h => e h.symm, hl⟩

theorem findLast_le (l : List Name) (n : Name) : findLast l n ≤ l.length := by
  induction l with
  | nil => exact Nat.le_refl _
  | cons x l ih =>
    rw [findLast, List.length_cons]
    split
    · omega
    · split <;> omega

theorem findLast_get {l : List Name} {n : Name} (h : n ∈ l) : l[findLast l n - 1]? = some n := by
  induction l with
  | nil => cases h
  | cons x l ih =>
    rw [findLast]
    split
    · rename_i hp
      have := ih (findLast_pos.1 hp)
      obtain ⟨k, hk⟩ : ∃ k, findLast l n = k + 1 := ⟨findLast l n - 1, by omega⟩
      rw [hk] at this ⊢
      simpa using this
    · rename_i hp
      have hl : n ∉ l := fun hm => hp (findLast_pos.2 hm)
      have : x = n := ((List.mem_cons.1 h).resolve_right hl).symm
      rw [if_pos this]
      simp [this]

theorem findLast_last {l : List Name} {n : Name} {j : ℕ} (h : l[j]? = some n) : j < findLast l n := by
  induction l generalizing j with
  | nil => simp at h
  | cons x l ih =>
    rw [findLast]
    cases j with
    | zero =>
      simp only [List.getElem?_cons_zero, Option.some.injEq] at h
      split
      · omega
      · omega
    | succ j =>
      rw [List.getElem?_cons_succ] at h
      have := ih h
      rw [if_pos (by omega)]
      omega

theorem findLast_append (a b : List Name) (n : Name) :
    findLast (a ++ b) n = if n ∈ b then a.length + findLast b n else findLast a n := by
  induction a with
  | nil =>
    simp only [List.nil_append, List.length_nil, Nat.zero_add]
    split
    · rfl
    · rename_i h
      have : ¬ 0 < findLast b n := fun hp => h (findLast_pos.1 hp)
      simp only [findLast]
      omega
  | cons x a ih =>
    rw [List.cons_append, findLast, ih, findLast]
    by_cases hb : n ∈ b
    · have := findLast_pos.2 hb
      rw [if_pos hb, if_pos hb, if_pos (by omega), List.length_cons]
      omega
    · rw [if_neg hb, if_neg hb]

/-! ## Copying -/

theorem copyLoop_length (nil : V) (dest : ℕ → Option ℕ) (src : List V) (is : List ℕ) : ∀ init : List V,
    (copyLoop nil dest src is init).length = init.length := by
  induction is with
  | nil => intro _; rfl
  | cons i is ih =>
    intro init
    show (copyLoop nil dest src is _).length = _
    rw [ih]
    unfold copyOne
    cases dest i <;> simp

theorem copyLoop_append (nil : V) (dest : ℕ → Option ℕ) (src : List V) (a b : List ℕ) (init : List V) :
    copyLoop nil dest src (a ++ b) init = copyLoop nil dest src b (copyLoop nil dest src a init) := by
  unfold copyLoop; rw [List.foldl_append]

theorem copyLoop_congr (nil : V) {dest dest' : ℕ → Option ℕ} (src : List V) : ∀ (is : List ℕ) (init : List V), (∀ i ∈ is, dest i = dest' i) →
    copyLoop nil dest src is init = copyLoop nil dest' src is init := by
  intro is
  induction is with
  | nil => intro _ _; rfl
  | cons i is ih =>
    intro init h
    show copyLoop nil dest src is (copyOne nil dest src init i) = copyLoop nil dest' src is (copyOne nil dest' src init i)
    rw [show copyOne nil dest src init i = copyOne nil dest' src init i by unfold copyOne; rw [h i (List.mem_cons_self ..)], ih _ fun j hj => h j (List.mem_cons_of_mem _ hj)]

/-- A slot that nothing is copied to. -/
theorem copyLoop_other (nil : V) (dest : ℕ → Option ℕ) (src : List V) (d : ℕ) : ∀ (is : List ℕ) (init : List V),
    (∀ i ∈ is, dest i ≠ some d) → (copyLoop nil dest src is init)[d]? = init[d]? := by
  intro is
  induction is with
  | nil => intro _ _; rfl
  | cons i is ih =>
    intro init h
    show (copyLoop nil dest src is (copyOne nil dest src init i))[d]? = _
    rw [ih _ fun j hj => h j (List.mem_cons_of_mem _ hj)]
    have := h i (List.mem_cons_self ..)
    unfold copyOne
    cases e : dest i with
    | none => rfl
    | some d' =>
      rw [e] at this
      have hne : d' ≠ d := fun he => this (congrArg some he)
      exact List.getElem?_set_ne hne

/-- A slot that something is copied to: the last one counts. -/
theorem copyLoop_range (nil : V) (dest : ℕ → Option ℕ) (src init : List V) (N s d : ℕ) (hs : s < N) (hd : dest s = some d)
    (hl : ∀ j, s < j → j < N → dest j ≠ some d) (hi : d < init.length) :
    (copyLoop nil dest src (List.range N) init)[d]? = some (src.getD s nil) := by
  have e : List.range N = List.range s ++ s :: List.range' (s + 1) (N - s - 1) := by
    rw [List.range_eq_range', List.range_eq_range', show s :: List.range' (s + 1) (N - s - 1) = List.range' s (N - s) by
      rw [show N - s = (N - s - 1) + 1 by omega, List.range'_succ]; rfl]
    have := List.range'_append (s := 0) (m := s) (n := N - s) (step := 1)
    simp only [Nat.one_mul, Nat.zero_add] at this
    rw [this]
    congr 1
    omega
  rw [e, copyLoop_append]
  show (copyLoop nil dest src (List.range' (s + 1) (N - s - 1)) (copyOne nil dest src (copyLoop nil dest src (List.range s) init) s))[d]? = _
  rw [show copyOne nil dest src (copyLoop nil dest src (List.range s) init) s = (copyLoop nil dest src (List.range s) init).set d (src.getD s nil) by
    unfold copyOne; rw [hd], copyLoop_other]
  · exact List.getElem?_set_self (by rw [copyLoop_length]; exact hi)
  · intro i hi'
    rw [List.mem_range'_1] at hi'
    exact hl i (by omega) (by omega)

/-! ## The map -/

/-- Where each variable goes. -/
def dest (sup own newOwn ext : List Name) (i : ℕ) : Option ℕ :=
  if i < sup.length then some i
  else if i < sup.length + own.length then
    if 0 < findLast newOwn (own.getD (i - sup.length) 0) then some (findLast newOwn (own.getD (i - sup.length) 0) + sup.length - 1) else none
  else some (i + (sup ++ newOwn ++ ext).length - (sup ++ own ++ ext).length)

theorem update_eq (nil : V) (sup own newOwn ext : List Name) (o : Obj V) (ho : o.fixed.length = (sup ++ own ++ ext).length) :
    (update nil sup.length (sup ++ own) (sup ++ newOwn) ext o).fixed =
      copyLoop nil (dest sup own newOwn ext) o.fixed (List.range (sup ++ own ++ ext).length)
        (List.replicate (sup ++ newOwn ++ ext).length nil) := by
  have hm : (instVarMap sup.length (sup ++ own) (sup ++ newOwn)).length = (sup ++ own).length := by
    unfold instVarMap; rw [List.length_map, List.length_range]
  unfold update mutate
  simp only [hm, ho]
  have e : List.range (sup ++ own ++ ext).length = List.range (sup ++ own).length ++
      List.range' (sup ++ own).length ((sup ++ own ++ ext).length - (sup ++ own).length) := by
    rw [List.range_eq_range', List.range_eq_range']
    have := List.range'_append (s := 0) (m := (sup ++ own).length) (n := (sup ++ own ++ ext).length - (sup ++ own).length) (step := 1)
    simp only [Nat.one_mul, Nat.zero_add] at this
    rw [this]
    congr 1
    rw [List.length_append (as := sup ++ own)]
    omega
  rw [e, copyLoop_append]
  have e1 : ∀ c, copyLoop nil (fun i => some (i + (sup ++ newOwn ++ ext).length - (sup ++ own ++ ext).length)) o.fixed
      (List.range' (sup ++ own).length ((sup ++ own ++ ext).length - (sup ++ own).length)) c =
      copyLoop nil (dest sup own newOwn ext) o.fixed
      (List.range' (sup ++ own).length ((sup ++ own ++ ext).length - (sup ++ own).length)) c := by
    intro c
    refine copyLoop_congr nil o.fixed _ _ fun i hi => ?_
    rw [List.mem_range'_1] at hi
    unfold dest
    rw [List.length_append (as := sup) (bs := own)] at hi
    rw [if_neg (by omega), if_neg (by omega)]
  rw [e1]
  congr 1
  refine copyLoop_congr nil o.fixed _ _ fun i hi => ?_
  rw [List.mem_range] at hi
  unfold instVarMap dest
  rw [List.getD_eq_getElem?_getD, List.getElem?_map, List.getElem?_range hi, Option.map_some, Option.getD_some]
  rw [List.length_append] at hi
  by_cases h1 : i < sup.length
  · rw [if_pos h1, if_pos h1]
  · rw [if_neg h1, if_neg h1, if_pos hi]
    rw [List.drop_left, List.getD_eq_getElem?_getD, List.getElem?_append_right (by omega), ← List.getD_eq_getElem?_getD]

theorem update_length (nil : V) (supSize : ℕ) (old new ext : List Name) (o : Obj V) :
    (update nil supSize old new ext o).fixed.length = (new ++ ext).length := by
  unfold update mutate
  rw [copyLoop_length, copyLoop_length, List.length_replicate]

section
variable (nil : V) (sup own newOwn ext : List Name) (o : Obj V) (ho : o.fixed.length = (sup ++ own ++ ext).length)

include ho in
theorem slot {s d : ℕ} (hs : s < (sup ++ own ++ ext).length) (hd : d < (sup ++ newOwn ++ ext).length) (h : dest sup own newOwn ext s = some d)
    (hl : ∀ j, s < j → j < (sup ++ own ++ ext).length → dest sup own newOwn ext j ≠ some d) :
    (update nil sup.length (sup ++ own) (sup ++ newOwn) ext o).fixed.getD d nil = o.fixed.getD s nil := by
  rw [update_eq nil sup own newOwn ext o ho, List.getD_eq_getElem?_getD,
    copyLoop_range nil _ _ _ _ s d hs h hl (by rw [List.length_replicate]; exact hd), Option.getD_some]

/-! ## C223: values are kept -/

include ho in
/-- C223: the value of a variable that a subclass adds is kept. -/
theorem kept_below {n : Name} (h : n ∈ ext) :
    value nil (sup ++ newOwn ++ ext) (update nil sup.length (sup ++ own) (sup ++ newOwn) ext o) n = value nil (sup ++ own ++ ext) o n := by
  have h1 := findLast_pos.2 h
  have h2 := findLast_le ext n
  unfold value
  rw [findLast_append, if_pos h, if_pos (by omega), findLast_append (sup ++ own), if_pos h, if_pos (by omega)]
  simp only [List.length_append]
  refine slot nil sup own newOwn ext o ho ?_ ?_ ?_ ?_
  · simp only [List.length_append]; omega
  · simp only [List.length_append]; omega
  · unfold dest
    rw [if_neg (by omega), if_neg (by omega)]
    simp only [List.length_append, Option.some.injEq]
    omega
  · intro j hj _
    unfold dest
    rw [if_neg (by omega), if_neg (by omega)]
    simp only [List.length_append, ne_eq, Option.some.injEq]
    omega

/-- What the map says of the variables of the class itself. -/
theorem dest_own {j : ℕ} (h1 : sup.length ≤ j) (h2 : j < sup.length + own.length) {d : ℕ} (h : dest sup own newOwn ext j = some d) :
    ∃ m, own[j - sup.length]? = some m ∧ m ∈ newOwn ∧ d = sup.length + findLast newOwn m - 1 := by
  unfold dest at h
  rw [if_neg (by omega), if_pos h2] at h
  have hj : j - sup.length < own.length := by omega
  rw [List.getD_eq_getElem?_getD, List.getElem?_eq_getElem hj, Option.getD_some] at h
  refine ⟨own[j - sup.length], List.getElem?_eq_getElem hj, ?_, ?_⟩
  · by_contra hc
    rw [if_neg (fun hp => hc (findLast_pos.1 hp))] at h
    cases h
  · split at h
    · simp only [Option.some.injEq] at h; omega
    · cases h

theorem findLast_inj {l : List Name} {a b : Name} (ha : a ∈ l) (hb : b ∈ l) (h : findLast l a = findLast l b) : a = b := by
  have h1 := findLast_get ha
  have h2 := findLast_get hb
  rw [h, h2] at h1
  exact (Option.some.inj h1).symm

include ho in
/-- C223: the value of a variable that the class has before and after is kept. -/
theorem kept {n : Name} (he : n ∉ ext) (h : n ∈ own) (h' : n ∈ newOwn) :
    value nil (sup ++ newOwn ++ ext) (update nil sup.length (sup ++ own) (sup ++ newOwn) ext o) n = value nil (sup ++ own ++ ext) o n := by
  have h1 := findLast_pos.2 h
  have h2 := findLast_le own n
  have h3 := findLast_pos.2 h'
  have h4 := findLast_le newOwn n
  unfold value
  rw [findLast_append, if_neg he, findLast_append, if_pos h', if_pos (by omega), findLast_append (sup ++ own), if_neg he,
    findLast_append, if_pos h, if_pos (by omega)]
  refine slot nil sup own newOwn ext o ho ?_ ?_ ?_ ?_
  · simp only [List.length_append]; omega
  · simp only [List.length_append]; omega
  · unfold dest
    rw [if_neg (by omega), if_pos (by omega)]
    have e : own.getD (sup.length + findLast own n - 1 - sup.length) 0 = n := by
      rw [show sup.length + findLast own n - 1 - sup.length = findLast own n - 1 by omega, List.getD_eq_getElem?_getD, findLast_get h]
      rfl
    rw [e, if_pos h3, Nat.add_comm]
  · intro j hj hj' hd
    by_cases hx : j < sup.length + own.length
    · obtain ⟨m, m1, m2, m3⟩ := dest_own sup own newOwn ext (by omega) hx hd
      have := findLast_pos.2 m2
      have hm : m = n := findLast_inj m2 h' (by omega)
      rw [hm] at m1
      have := findLast_last m1
      omega
    · unfold dest at hd
      rw [if_neg (by omega), if_neg hx] at hd
      simp only [List.length_append, Option.some.injEq] at hd
      omega

include ho in
/-- C223: the value of an inherited variable is kept, and seen again when the variable that hid it is removed. -/
theorem kept_above {n : Name} (he : n ∉ ext) (h : n ∈ sup) (h' : n ∉ newOwn) :
    value nil (sup ++ newOwn ++ ext) (update nil sup.length (sup ++ own) (sup ++ newOwn) ext o) n = value nil sup o n := by
  have h1 := findLast_pos.2 h
  have h2 := findLast_le sup n
  unfold value
  rw [findLast_append, if_neg he, findLast_append, if_neg h', if_pos h1, if_pos h1]
  refine slot nil sup own newOwn ext o ho ?_ ?_ ?_ ?_
  · simp only [List.length_append]; omega
  · simp only [List.length_append]; omega
  · unfold dest
    rw [if_pos (by omega)]
  · intro j hj hj' hd
    by_cases hs : j < sup.length
    · unfold dest at hd
      rw [if_pos hs] at hd
      simp only [Option.some.injEq] at hd
      omega
    · by_cases hx : j < sup.length + own.length
      · obtain ⟨m, m1, m2, m3⟩ := dest_own sup own newOwn ext (by omega) hx hd
        have := findLast_pos.2 m2
        omega
      · unfold dest at hd
        rw [if_neg hs, if_neg hx] at hd
        simp only [List.length_append, Option.some.injEq] at hd
        omega

include ho in
/-- C223: a variable that the class did not have before is nil. -/
theorem fresh {n : Name} (he : n ∉ ext) (h : n ∉ own) (h' : n ∈ newOwn) :
    value nil (sup ++ newOwn ++ ext) (update nil sup.length (sup ++ own) (sup ++ newOwn) ext o) n = nil := by
  have h3 := findLast_pos.2 h'
  have h4 := findLast_le newOwn n
  unfold value
  rw [findLast_append, if_neg he, findLast_append, if_pos h', if_pos (by omega), update_eq nil sup own newOwn ext o ho,
    List.getD_eq_getElem?_getD, copyLoop_other]
  · rw [List.getElem?_replicate]
    split <;> rfl
  · intro j hj hd
    rw [List.mem_range] at hj
    by_cases hs : j < sup.length
    · unfold dest at hd
      rw [if_pos hs] at hd
      simp only [Option.some.injEq] at hd
      omega
    · by_cases hx : j < sup.length + own.length
      · obtain ⟨m, m1, m2, m3⟩ := dest_own sup own newOwn ext (by omega) hx hd
        have := findLast_pos.2 m2
        have hm : m = n := findLast_inj m2 h' (by omega)
        rw [hm] at m1
        exact h (List.mem_of_getElem? m1)
      · unfold dest at hd
        rw [if_neg hs, if_neg hx] at hd
        simp only [List.length_append, Option.some.injEq] at hd
        omega

end

/-- C223: an instance has the variables of its class, and its indexed variables are kept. -/
theorem shape_kept (nil : V) (supSize : ℕ) (old new ext : List Name) (o : Obj V) :
    (update nil supSize old new ext o).fixed.length = (new ++ ext).length ∧ (update nil supSize old new ext o).indexed = o.indexed :=
  ⟨update_length nil supSize old new ext o, rfl⟩

/-- The superclass has 1, the class had 2, 3, 4 and gets 4, 5, 2; a subclass adds 6. -/
example : update 0 1 ([1] ++ [2, 3, 4]) ([1] ++ [4, 5, 2]) [6] ⟨[11, 12, 13, 14, 16], [7, 8]⟩ = (⟨[11, 14, 0, 12, 16], [7, 8]⟩ : Obj ℕ) := by decide

/-! ## C224: which methods are compiled again -/

/-- C224: after `instanceVariableNames:` the methods of the class find the right variables, if no variable that is added has a name that was there.
What is missing is said by `hidden_fails`. -/
theorem bound_partial (sup old own : List Name) (h : ∀ n ∈ (sup ++ own).drop old.length, n ∉ old) {n : Name} (hn : n ∈ old) :
    bound old (setInstVars sup old own).1 (setInstVars sup old own).2.1 n = findLast (sup ++ own) n := by
  unfold setInstVars bound
  by_cases e : sup ++ own = old
  · simp only [if_pos e]; rw [e]; simp
  · simp only [if_neg e]
    split
    · rfl
    · rename_i hc
      simp only [Bool.or_eq_true, not_or, Bool.not_eq_true] at hc
      obtain ⟨⟨h1, h2⟩, -⟩ := hc
      have ht : (sup ++ own).take old.length = old := by simpa using h2
      have hs := (List.take_append_drop old.length (sup ++ own)).symm
      rw [ht] at hs
      rw [hs, findLast_append, if_neg]
      intro hm
      exact h n hm hn

example : (∀ n ∈ (([1] : List Name) ++ [2, 3]).drop [1, 2].length, n ∉ [1, 2]) ∧ setInstVars [1] [1, 2] [2, 3] = ([1, 2, 3], false, true) := by decide

/-- C224: after `instanceVariableNames:` with distinct names the methods of the subclasses find the right variables.
What is missing is said by `below_fails`. -/
theorem below_partial (sup old own ext : List Name) (hd : (sup ++ own).Nodup) (n : Name) :
    bound (old ++ ext) ((setInstVars sup old own).1 ++ ext) (setInstVars sup old own).2.2 n = findLast (sup ++ own ++ ext) n := by
  unfold setInstVars bound
  by_cases e : sup ++ own = old
  · simp only [if_pos e]; rw [e]; simp
  · simp only [if_neg e]
    split
    · rfl
    · rename_i hc
      exfalso
      simp only [Bool.or_eq_true, not_or, Bool.not_eq_true] at hc
      obtain ⟨⟨⟨h1, h2⟩, -⟩, h3⟩ := hc
      have ht : (sup ++ own).take old.length = old := by simpa using h2
      have hs := (List.take_append_drop old.length (sup ++ own)).symm
      rw [ht] at hs
      rw [hs, List.nodup_append] at hd
      have hne : (sup ++ own).drop old.length ≠ [] := by
        intro h0
        rw [h0, List.append_nil] at hs
        exact e hs
      obtain ⟨x, hx⟩ := List.exists_mem_of_ne_nil _ hne
      have hxo : x ∉ old := fun ho => hd.2.2 x ho x hx rfl
      have : x ∈ sup ++ own := List.mem_of_mem_drop hx
      rw [List.any_eq_false] at h3
      exact h3 x this (by simpa using hxo)

example : (([1] : List Name) ++ [3, 2]).Nodup ∧ setInstVars [1] [1, 2] [3, 2] = ([1, 3, 2], true, true) := by decide

/-- C224 fails: when a variable is added that hides an inherited one, by `instanceVariableNames:`, the methods of the class still use the inherited one. -/
theorem hidden_fails : (setInstVars [1] [1, 2] [2, 1]).2.1 = false ∧ bound [1, 2] [1, 2, 1] false 1 = 1 ∧ findLast [1, 2, 1] 1 = 3 := by decide

/-- C224 fails: when a variable is given twice, methods of subclasses are not compiled again although their variables have moved. -/
theorem below_fails : setInstVars [] [1] [1, 1] = ([1, 1], false, false) ∧ bound [1, 2] [1, 1, 2] false 2 = 2 ∧ findLast [1, 1, 2] 2 = 3 := by decide

/-- C224: `addInstVarName:` of a name that the class does not define yet. What is missing is said by `again_fails`. -/
theorem add_partial (sup own : List Name) (m : Name) (h : m ∉ own) {n : Name} (hn : n ∈ sup ++ own) :
    bound (sup ++ own) (addInstVar sup (sup ++ own) m).1 (addInstVar sup (sup ++ own) m).2.1 n = findLast (sup ++ (own ++ [m])) n := by
  unfold addInstVar bound
  rw [← List.append_assoc]
  simp only
  split
  · rfl
  · rename_i hc
    rw [findLast_append (sup ++ own), if_neg]
    intro hm
    rw [List.mem_singleton] at hm
    subst hm
    rcases List.mem_append.1 hn with hn | hn
    · exact hc (by simpa using hn)
    · exact h hn

/-- C224 fails: adding a variable that the class defines already moves its value away from where the methods of the class look for it. -/
theorem again_fails : addInstVar [] [1] 1 = ([1, 1], false, true) ∧ update 0 0 [1] [1, 1] [] ⟨[7], []⟩ = (⟨[0, 7], []⟩ : Obj ℕ) ∧
    bound [1] [1, 1] false 1 = 1 := by decide

/-! ## C225: removing a variable -/

/-- C225, the part that holds: when a variable is removed that the class itself defines, the last one of that name is, the others stay in order, and all methods are compiled again.
What is missing is said by `remove_fails`. -/
theorem remove_partial (sup own : List Name) (n : Name) (h : n ∈ own) :
    ∃ a b, own = a ++ n :: b ∧ n ∉ b ∧ removeInstVar (sup ++ own) n = some (sup ++ (a ++ b), true, true) := by
  have hp := findLast_pos.2 h
  have hl := findLast_le own n
  have hg := findLast_get h
  have hlt : findLast own n - 1 < own.length := by omega
  refine ⟨own.take (findLast own n - 1), own.drop (findLast own n - 1 + 1), ?_, ?_, ?_⟩
  · rw [List.getElem?_eq_getElem hlt] at hg
    have e := Option.some.inj hg
    conv_lhs => rw [← List.take_append_drop (findLast own n - 1) own, List.drop_eq_getElem_cons hlt, e]
  · intro hm
    obtain ⟨j, hj⟩ := List.getElem?_of_mem hm
    rw [List.getElem?_drop] at hj
    have := findLast_last hj
    omega
  · unfold removeInstVar
    rw [findLast_append, if_pos h]
    simp only
    rw [if_neg (by omega), show sup.length + findLast own n - 1 = sup.length + (findLast own n - 1) by omega,
      List.eraseIdx_append_of_length_le (by omega), Nat.add_sub_cancel_left, List.eraseIdx_eq_take_drop_succ]

example : removeInstVar ([1] ++ [2, 3]) 2 = some ([1] ++ [3], true, true) := by decide

/-- C225: a variable that neither the class nor its superclasses define cannot be removed. -/
theorem remove_absent (old : List Name) (n : Name) : removeInstVar old n = none ↔ n ∉ old := by
  unfold removeInstVar
  simp only
  have := @findLast_pos old n
  constructor
  · intro h hm
    have := this.2 hm
    rw [if_neg (by omega)] at h
    cases h
  · intro h
    rw [if_pos (by have := mt this.1 h; omega)]

/-- C225 fails: an inherited variable can be removed from a subclass; what is left has the value of the one that was removed, and its own value is lost. -/
theorem remove_fails : removeInstVar [1, 2] 1 = some ([2], true, true) ∧ update 0 1 [1, 2] [2] [] ⟨[11, 12], []⟩ = (⟨[11], []⟩ : Obj ℕ) := by decide

end Verif.Reshape
