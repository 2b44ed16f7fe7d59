import Verif.Weak.Model

/-
C235: a WeakArray tells the objects that were garbage collected from the places
where nil was stored.
-/
namespace Verif.Weak

variable {O : Type}

/-! ### The specification: what became of the last thing stored in each place -/

/-- Nil was stored, an object that is still there was stored, or an object that
    was collected since. -/
inductive Slot (O : Type)
  | empty
  | holds (o : O)
  | gone
  deriving DecidableEq, Repr

/-- What a place holds after a store. -/
def Slot.stored : Option O → Slot O
  | none => .empty
  | some o => .holds o

/-- After a collection. -/
def Slot.swept (dead : O → Bool) : Slot O → Slot O
  | .holds o => if dead o then .gone else .holds o
  | s => s

/-- After `clearGCFlag:`. -/
def Slot.cleared : Slot O → Slot O
  | .gone => .empty
  | s => s

/-- What is read. -/
def Slot.value : Slot O → Option O
  | .holds o => some o
  | _ => none

/-- Whether nothing that was stored got lost. -/
def Slot.alive : Slot O → Bool
  | .gone => false
  | _ => true

/-- What can happen to a WeakArray. -/
inductive Op (O : Type)
  | put (i : Nat) (o : Option O)
  | putAt (is : List Nat) (o : Option O)
  | fill (o : Option O)
  | clear (i : Nat)
  | gc (dead : O → Bool)
  | copy

/-- What happens to the place `j`. -/
def Op.effect (j : Nat) : Op O → Slot O → Slot O
  | .put i o, s => if i = j then .stored o else s
  | .putAt is o, s => if j ∈ is then .stored o else s
  | .fill o, _ => .stored o
  | .clear i, s => if i = j then s.cleared else s
  | .gc dead, s => s.swept dead
  | .copy, s => s

/-- The place `j` after a history. -/
def history (j : Nat) (ops : List (Op O)) : Slot O := ops.foldl (fun s op => op.effect j s) .empty

/-- The model does it. -/
def Op.run : Op O → WArr O → WArr O
  | .put i o, w => atPut w i o
  | .putAt is o, w => atAllPut w is o
  | .fill o, w => fillAll w o
  | .clear i, w => clearGCFlag w i
  | .gc dead, w => collect dead w
  | .copy, w => shallowCopy w

/-- The indices that are given to `atAll:put:` are valid. -/
def Op.Fits (n : Nat) : Op O → Prop
  | .putAt is _ => ∀ i ∈ is, i < n
  | _ => True

/-- The array after a history. -/
def after (n : Nat) (ops : List (Op O)) : WArr O := ops.foldl (fun w op => op.run w) (new O n)

/-! ### The invariant -/

private def byte : Slot O → Nat
  | .empty => 1
  | _ => 0

private def Rep (n : Nat) (w : WArr O) (s : Nat → Slot O) : Prop :=
  w.values = (List.range n).map (fun j => (s j).value) ∧
  w.nilValues = (List.range n).map (fun j => byte (s j))

private theorem set_map {X : Type} (n i : Nat) (f : Nat → X) (x : X) :
    ((List.range n).map f).set i x = (List.range n).map fun j => if i = j then x else f j := by
  apply List.ext_getElem
  · simp
  · intro k h1 h2
    simp [List.getElem_set]

private theorem seq_map {X : Type} (n : Nat) (x : X) : ∀ (is : List Nat) (f : Nat → X),
    (∀ i ∈ is, i < n) → seqAtAllPut ((List.range n).map f) x is =
      ((List.range n).map fun j => if j ∈ is then x else f j, true) := by
  intro is
  induction is with
  | nil => intro f _; simp [seqAtAllPut]
  | cons i is ih =>
    intro f h
    have hi : i < n := h i (by simp)
    simp only [seqAtAllPut, List.length_map, List.length_range, hi, if_true]
    rw [set_map, ih _ fun k hk => h k (by simp [hk])]
    congr 1
    apply List.map_congr_left
    intro j _
    by_cases hj : j ∈ is
    · simp [hj]
    · by_cases e : i = j
      · simp [e]
      · simp [hj, e, Ne.symm e]

private theorem flag_stored (o : Option O) : flag o = byte (Slot.stored o) := by
  cases o <;> rfl

private theorem value_stored (o : Option O) : (Slot.stored o).value = o := by
  cases o <;> rfl

private theorem step (n : Nat) (w : WArr O) (s : Nat → Slot O) (op : Op O) (h : Rep n w s)
    (hf : op.Fits n) : Rep n (op.run w) fun j => op.effect j (s j) := by
  obtain ⟨hv, hn⟩ := h
  cases op with
  | put i o =>
    simp only [Op.run, atPut, hn, hv, List.length_map, List.length_range, Op.effect]
    by_cases hi : i < n
    · rw [if_pos hi]
      constructor
      · simp only
        rw [set_map]
        apply List.map_congr_left
        intro j _
        by_cases hj : i = j <;> simp [hj, value_stored]
      · simp only
        rw [set_map, flag_stored]
        apply List.map_congr_left
        intro j _
        by_cases hj : i = j <;> simp [hj]
    · rw [if_neg hi]
      constructor <;>
      · simp only [hv, hn]
        apply List.map_congr_left
        intro j hj
        have : i ≠ j := by have := List.mem_range.1 hj; omega
        simp [this]
  | putAt is o =>
    have hf' : ∀ i ∈ is, i < n := hf
    simp only [Op.run, atAllPut, hn, hv, seq_map n _ is _ hf', if_true, Op.effect]
    constructor
    · apply List.map_congr_left
      intro j _
      by_cases hj : j ∈ is <;> simp [hj, value_stored]
    · rw [flag_stored]
      apply List.map_congr_left
      intro j _
      by_cases hj : j ∈ is <;> simp [hj]
  | fill o =>
    constructor
    · simp [Op.run, fillAll, hv, Op.effect, value_stored]
    · simp [Op.run, fillAll, hn, Op.effect, flag_stored]
  | clear i =>
    simp only [Op.run, clearGCFlag, hv, Op.effect]
    by_cases hi : i < n
    · simp only [List.getElem?_map, List.getElem?_range hi, Option.map_some, hn]
      constructor
      · simp only
        apply List.map_congr_left
        intro j _
        by_cases hj : i = j
        · simp only [hj, if_true]
          cases s j <;> rfl
        · simp [hj]
      · simp only
        rw [set_map]
        apply List.map_congr_left
        intro j _
        by_cases e : i = j
        · subst e
          simp only [if_true]
          cases s i <;> rfl
        · simp [e]
    · have : ((List.range n).map fun j => (s j).value)[i]? = none := by simp; omega
      rw [this]
      constructor <;>
      · simp only [hv, hn]
        apply List.map_congr_left
        intro j hj
        have : i ≠ j := by have := List.mem_range.1 hj; omega
        simp [this]
  | gc dead =>
    constructor
    · simp only [Op.run, collect, hv, List.map_map, Op.effect]
      apply List.map_congr_left
      intro j _
      simp only [Function.comp]
      cases s j with
      | holds o => by_cases hd : dead o <;> simp [Slot.value, Slot.swept, Option.filter, hd]
      | _ => rfl
    · simp only [Op.run, collect, hn, Op.effect]
      apply List.map_congr_left
      intro j _
      cases s j with
      | holds o => by_cases hd : dead o <;> simp [byte, Slot.swept, hd]
      | _ => rfl
  | copy =>
    constructor
    · simpa [Op.run, shallowCopy, Op.effect] using hv
    · simp only [Op.run, shallowCopy, hv, hn, List.length_map, List.length_range, Op.effect]
      apply List.map_congr_left
      intro j hj
      simp [List.getD_eq_getElem?_getD, List.getElem?_range (List.mem_range.1 hj)]

private theorem after_rep (n : Nat) (ops : List (Op O)) (hf : ∀ op ∈ ops, op.Fits n) :
    Rep n (after n ops) fun j => history j ops := by
  have key : ∀ (ops : List (Op O)) (w : WArr O) (s : Nat → Slot O), Rep n w s →
      (∀ op ∈ ops, op.Fits n) → Rep n (ops.foldl (fun w op => op.run w) w)
        fun j => ops.foldl (fun s op => op.effect j s) (s j) := by
    intro ops
    induction ops with
    | nil => intro w s h _; exact h
    | cons op ops ih =>
      intro w s h hf
      exact ih _ _ (step n w s op h (hf op (by simp))) fun o ho => hf o (by simp [ho])
  refine key ops _ (fun _ => .empty) ?_ hf
  constructor
  · simp [new, Slot.value, List.map_const']
  · simp [new, byte, List.map_const']

/-! ### C235 -/

/-- C235, in part: what is read, for histories in which `atAll:put:` has only valid
    indices. -/
theorem at_partial (n : Nat) (ops : List (Op O)) (hf : ∀ op ∈ ops, op.Fits n) (i : Nat)
    (hi : i < n) : at' (after n ops) i = (history i ops).value := by
  simp [at', (after_rep n ops hf).1, List.getD_eq_getElem?_getD, List.getElem?_range hi]

/-- C235, in part: `isAlive:` answers false exactly for the places whose object was
    collected, for histories in which `atAll:put:` has only valid indices.
    Missing: the other histories, see `alive_fails`. -/
theorem alive_partial (n : Nat) (ops : List (Op O)) (hf : ∀ op ∈ ops, op.Fits n) (i : Nat)
    (hi : i < n) : isAlive (after n ops) i = (history i ops).alive := by
  obtain ⟨hv, hn⟩ := after_rep n ops hf
  simp only [isAlive, hv, hn, List.getD_eq_getElem?_getD, List.getElem?_map,
    List.getElem?_range hi, Option.map_some, Option.getD_some]
  cases history i ops <;> rfl

private theorem flat_filter {X Y : Type} (p : X → Bool) (f : X → Y) (l : List X) :
    (l.flatMap fun x => if p x then [f x] else []) = (l.filter p).map f := by
  induction l with
  | nil => rfl
  | cons x l ih => by_cases h : p x <;> simp [h, ih]

/-- C235, in part: `aliveObjectsDo:` passes, in order, what is in the places whose
    object was not collected (the same histories). -/
theorem do_partial (n : Nat) (ops : List (Op O)) (hf : ∀ op ∈ ops, op.Fits n) :
    aliveObjects (after n ops) =
      ((List.range n).filter fun i => (history i ops).alive).map
        fun i => (history i ops).value := by
  obtain ⟨hv, hn⟩ := after_rep n ops hf
  rw [← flat_filter]
  unfold aliveObjects
  have hl : (after n ops).values.length = n := by simp [hv]
  rw [hl, List.flatMap_def, List.flatMap_def]
  congr 1
  apply List.map_congr_left
  intro i hi
  have hi := List.mem_range.1 hi
  simp only [visit, hv, hn, List.getD_eq_getElem?_getD, List.getElem?_map,
    List.getElem?_range hi, Option.map_some, Option.getD_some]
  cases history i ops <;> rfl

/-- Two objects, nil and a place that is never used; the first object dies. -/
example : let ops : List (Op Nat) := [.put 0 (some 7), .putAt [1, 2] (some 8), .put 2 none,
      .gc (· == 7), .copy]
    (∀ op ∈ ops, op.Fits 4) ∧
    (List.range 4).map (isAlive (after 4 ops)) = [false, true, true, true] ∧
    aliveObjects (after 4 ops) = [some 8, none, none] ∧
    isAlive (after 4 (ops ++ [.clear 0])) 0 = true := by
  refine ⟨?_, by decide, by decide, by decide⟩
  simp [Op.Fits]

/-- C235 fails after `atAll:put:` with a wrong index, which marks places and then
    stores nothing.  With an object, the place that is nil from the beginning is
    said to be collected, although nothing died; with nil, the place whose object
    is still there, and dies later, is said to be alive. -/
theorem alive_fails :
    isAlive (after 1 [Op.putAt [0, 5] (some 7)]) 0 = false ∧
    at' (after 1 [Op.put 0 (some 7), .putAt [0, 5] none]) 0 = some 7 ∧
    at' (after 1 [Op.put 0 (some 7), .putAt [0, 5] none, .gc (· == 7)]) 0 = none ∧
    isAlive (after 1 [Op.put 0 (some 7), .putAt [0, 5] none, .gc (· == 7)]) 0 = true := by
  decide

end Verif.Weak
