import Verif.HashColl.Props

/-!
# Bag (C32)

`kernel/Bag.st`, on top of the LookupTable model.  The value that nil would be in an unused
value slot is an arbitrary integer `nilV`; no theorem depends on it.
-/

set_option linter.unusedSectionVars false

namespace Verif.HashColl

open Verif.Hash

variable {O K : Type} [DecidableEq K] (h : K → Nat) (cls : O → K) (nilV : Int)

/-! ## Model -/

/-- `Bag class >> new:`: Bag.st:50-56, 222-225. -/
def bagNew (size : Nat) : LTable O Int := ⟨new (max 7 size), fun _ => nilV⟩

/-- `occurrencesOf:`: Bag.st:112-117. -/
def occurrencesOf (b : LTable O Int) (a : O) : Option Int := do
  let r ← lAt h cls b (cls a)
  some (r.getD 0)

/-- `add:withOccurrences:` for a non-nil element: Bag.st:58-73. -/
def bagAdd (b : LTable O Int) (a : O) (n : Int) : Option (LTable O Int) := do
  let o ← occurrencesOf h cls b a
  let b ← lAtPut h h cls nilV b a (o + n)
  if o + n ≤ 0 then (lRemoveKey h h cls nilV b (cls a)).map Prod.snd else some b

/-- `remove:ifAbsent:`: Bag.st:84-100; the answer is false when the block is evaluated. -/
def bagRemove (b : LTable O Int) (a : O) : Option (Bool × LTable O Int) := do
  let count ← occurrencesOf h cls b a
  if count = 0 then some (false, b)
  else if count = 1 then do
    let (_, b) ← lRemoveKey h h cls nilV b (cls a)
    some (true, b)
  else do
    let b ← lAtPut h h cls nilV b a (count - 1)
    some (true, b)

/-- `includes:`: Bag.st:119-124. -/
def bagIncludes (b : LTable O Int) (a : O) : Option Bool := do
  let r ← lAt h cls b (cls a)
  some r.isSome

/-- `size`: Bag.st:126-134. -/
def bagSize (b : LTable O Int) : Int :=
  (elements (view b)).foldl (fun count e => count + e.2) 0

/-- The elements `do:` passes to its block, in order: Bag.st:158-168.  `timesRepeat:` does
nothing for a count below one. -/
def bagDo (b : LTable O Int) : List O :=
  (elements (view b)).flatMap (fun e => List.replicate e.2.toNat e.1)

/-! ## Specification -/

inductive BagOp (O : Type)
  | add (a : O) (n : Int)
  | remove (a : O)

/-- Number of occurrences after a history, newest operation first.  Adding a negative number
removes that many, and never goes below zero. -/
def occ (cls : O → K) : List (BagOp O) → K → Nat
  | [], _ => 0
  | .add a n :: ops, q => if q = cls a then (occ cls ops q + n).toNat else occ cls ops q
  | .remove a :: ops, q => if q = cls a then occ cls ops q - 1 else occ cls ops q

def runBag (b : LTable O Int) : List (BagOp O) → Option (LTable O Int)
  | [] => some b
  | op :: ops => do
    let b ← runBag b ops
    match op with
    | .add a n => bagAdd h cls nilV b a n
    | .remove a => (bagRemove h cls nilV b a).map Prod.snd

/-! ## Proof: a bag history is a history of its dictionary -/

/-- A dictionary of positive counts. -/
def posCount (n : Nat) : Option Int := if n = 0 then none else some n

theorem posCount_getD (n : Nat) : (posCount n).getD 0 = n := by
  unfold posCount; split <;> simp_all

theorem bag_sim (m : Nat) (ops : List (BagOp O)) :
    ∃ dops : List (DictOp O Int),
      runBag h cls nilV (bagNew nilV m) ops =
        runLookup h cls nilV (bagNew nilV m) dops ∧
      ∀ q, valueOf cls dops q = posCount (occ cls ops q) := by
  induction ops with
  | nil => exact ⟨[], rfl, fun q => rfl⟩
  | cons op ops ih =>
    obtain ⟨dops, i1, i2⟩ := ih
    obtain ⟨t, r1, r2, -⟩ := lookup_table_correct h cls nilV (max 7 m) dops
    have i1' : runBag h cls nilV (bagNew nilV m) ops = some t := i1.trans r1
    have r1' : runLookup h cls nilV (bagNew nilV m) dops = some t := r1
    have hocc : ∀ a, occurrencesOf h cls t a = some (occ cls ops (cls a) : Int) := by
      intro a
      unfold occurrencesOf
      rw [r2, i2]
      simp only [Option.bind_eq_bind, Option.bind_some, posCount_getD]
    cases op with
    | add a n =>
      simp only [runBag, i1', Option.bind_eq_bind, Option.bind_some, bagAdd, hocc]
      by_cases hn : (occ cls ops (cls a) : Int) + n ≤ 0
      · refine ⟨.removeKey a :: .put a ((occ cls ops (cls a) : Int) + n) :: dops, ?_, fun q => ?_⟩
        · simp only [runLookup, r1', Option.bind_eq_bind, Option.bind_some, if_pos hn]
        · simp only [valueOf, occ]
          split
          · rename_i hq; subst hq
            rw [show ((occ cls ops (cls a) : Int) + n).toNat = 0 by omega]; rfl
          · exact i2 q
      · refine ⟨.put a ((occ cls ops (cls a) : Int) + n) :: dops, ?_, fun q => ?_⟩
        · simp only [runLookup, r1', Option.bind_eq_bind, Option.bind_some, if_neg hn,
            Option.bind_fun_some]
        · simp only [valueOf, occ]
          split
          · rename_i hq; subst hq
            unfold posCount
            rw [if_neg (by omega)]
            congr 1; omega
          · exact i2 q
    | remove a =>
      simp only [runBag, i1', Option.bind_eq_bind, Option.bind_some, bagRemove, hocc]
      by_cases h0 : occ cls ops (cls a) = 0
      · refine ⟨dops, ?_, fun q => ?_⟩
        · rw [if_pos (by omega)]; exact r1'.symm
        · rw [i2]
          simp only [occ]
          split
          · rename_i hq; subst hq; rw [h0]
          · rfl
      · rw [if_neg (by omega)]
        by_cases h1 : occ cls ops (cls a) = 1
        · refine ⟨.removeKey a :: dops, ?_, fun q => ?_⟩
          · rw [if_pos (by omega)]
            simp only [runLookup, r1', Option.bind_eq_bind, Option.bind_some]
            cases lRemoveKey h h cls nilV t (cls a) <;> rfl
          · simp only [valueOf, occ]
            split
            · rename_i hq; subst hq; rw [h1]; rfl
            · exact i2 q
        · refine ⟨.put a ((occ cls ops (cls a) : Int) - 1) :: dops, ?_, fun q => ?_⟩
          · rw [if_neg (by omega)]
            simp only [runLookup, r1', Option.bind_eq_bind, Option.bind_some]
            cases lAtPut h h cls nilV t a ((occ cls ops (cls a) : Int) - 1) <;> rfl
          · simp only [valueOf, occ]
            split
            · rename_i hq; subst hq
              unfold posCount
              rw [if_neg (by omega)]
              congr 1; omega
            · exact i2 q

theorem foldl_add (l : List (O × Int)) (x : Int) :
    l.foldl (fun count e => count + e.2) x = x + (l.map Prod.snd).sum := by
  induction l generalizing x with
  | nil => simp
  | cons e l ih => simp only [List.foldl_cons, List.map_cons, List.sum_cons, ih]; omega

theorem length_flat (l : List (O × Int)) (hp : ∀ e ∈ l, 0 < e.2) :
    ((l.flatMap (fun e => List.replicate e.2.toNat e.1)).length : Int) = (l.map Prod.snd).sum := by
  induction l with
  | nil => rfl
  | cons e l ih =>
    have h1 := hp e (by simp)
    simp only [List.flatMap_cons, List.length_append, List.length_replicate, List.map_cons,
      List.sum_cons, Int.natCast_add]
    rw [ih (fun e he => hp e (by simp [he]))]; omega

theorem countP_flat (p : O → Bool) (l : List (O × Int)) :
    (l.flatMap (fun e => List.replicate e.2.toNat e.1)).countP p =
      (l.map (fun e => if p e.1 then e.2.toNat else 0)).sum := by
  induction l with
  | nil => rfl
  | cons e l ih =>
    simp only [List.flatMap_cons, List.countP_append, List.map_cons, List.sum_cons, ih,
      List.countP_replicate]

theorem sum_distinct (l : List (O × Int)) (hd : l.Pairwise (fun a b => cls a.1 ≠ cls b.1))
    (q : K) : (∀ e ∈ l, cls e.1 ≠ q) →
      (l.map (fun e => if cls e.1 = q then e.2.toNat else 0)).sum = 0 := by
  intro hh
  induction l with
  | nil => rfl
  | cons e l ih =>
    rw [List.map_cons, List.sum_cons, if_neg (hh e (by simp)),
      ih (List.pairwise_cons.mp hd).2 (fun e he => hh e (by simp [he]))]

theorem sum_distinct' (l : List (O × Int)) (hd : l.Pairwise (fun a b => cls a.1 ≠ cls b.1))
    (e : O × Int) (he : e ∈ l) :
      (l.map (fun e' => if cls e'.1 = cls e.1 then e'.2.toNat else 0)).sum = e.2.toNat := by
  induction l with
  | nil => cases he
  | cons x l ih =>
    obtain ⟨hx, hd'⟩ := List.pairwise_cons.mp hd
    rw [List.map_cons, List.sum_cons]
    rcases List.mem_cons.mp he with rfl | hm
    · rw [if_pos rfl, sum_distinct cls l hd' _ (fun e' he' => (hx e' he').symm)]; rfl
    · rw [if_neg (hx e hm), ih hd' hm]; omega

/-! ## C32 -/

/-- C32.  After any history, `occurrencesOf:` and `includes:` answer what the multiset says,
`do:` passes every element to its block exactly as often as it occurs, and `size` is the
number of elements passed. -/
theorem bag_correct (m : Nat) (ops : List (BagOp O)) :
    ∃ b, runBag h cls nilV (bagNew nilV m) ops = some b ∧
      (∀ a, occurrencesOf h cls b a = some (occ cls ops (cls a) : Int)) ∧
      (∀ a, bagIncludes h cls b a = some (decide (0 < occ cls ops (cls a)))) ∧
      (∀ q, (bagDo b).countP (fun a => cls a = q) = occ cls ops q) ∧
      bagSize b = (bagDo b).length := by
  obtain ⟨dops, s1, s2⟩ := bag_sim h cls nilV m ops
  obtain ⟨t, r1, r2, r3, r4, -⟩ := lookup_table_correct h cls nilV (max 7 m) dops
  have hpos : ∀ e ∈ elements (view t), e.2 = occ cls ops (cls e.1) ∧ 0 < e.2 := by
    intro e he
    have := (r3 (cls e.1) e.2).mpr ⟨e.1, he, rfl⟩
    rw [s2] at this
    unfold posCount at this
    split at this
    · cases this
    · have := Option.some.inj this
      omega
  refine ⟨t, s1.trans r1, fun a => ?_, fun a => ?_, fun q => ?_, ?_⟩
  · unfold occurrencesOf
    rw [r2, s2]
    simp only [Option.bind_eq_bind, Option.bind_some, posCount_getD]
  · unfold bagIncludes
    rw [r2, s2]
    simp only [Option.bind_eq_bind, Option.bind_some]
    unfold posCount
    split
    · rename_i h0; simp [h0]
    · rename_i h0; simp; omega
  · unfold bagDo
    rw [countP_flat]
    simp only [decide_eq_true_eq]
    by_cases hq : ∃ e ∈ elements (view t), cls e.1 = q
    · obtain ⟨e, he, rfl⟩ := hq
      rw [sum_distinct' cls _ r4 e he]
      have := hpos e he
      omega
    · rw [sum_distinct cls _ r4 q (fun e he hc => hq ⟨e, he, hc⟩)]
      by_cases h0 : occ cls ops q = 0
      · exact h0.symm
      · exfalso
        obtain ⟨k, hk, hk'⟩ := (r3 q (occ cls ops q : Int)).mp
          (by rw [s2]; unfold posCount; rw [if_neg h0])
        exact hq ⟨_, hk, hk'⟩
  · unfold bagSize bagDo
    rw [foldl_add, length_flat _ (fun e he => (hpos e he).2)]
    omega

/-- `remove:ifAbsent:` evaluates the block exactly when there is no occurrence. -/
theorem bag_remove_answer (m : Nat) (ops : List (BagOp O)) (a : O) :
    ∃ b b', runBag h cls nilV (bagNew nilV m) ops = some b ∧
      bagRemove h cls nilV b a = some (decide (0 < occ cls ops (cls a)), b') := by
  obtain ⟨b, b1, b2, -⟩ := bag_correct h cls nilV m ops
  obtain ⟨b', r1, -⟩ := bag_correct h cls nilV m (.remove a :: ops)
  simp only [runBag, b1, Option.bind_eq_bind, Option.bind_some] at r1
  obtain ⟨⟨x, b''⟩, r2, r3⟩ := Option.map_eq_some_iff.mp r1
  refine ⟨b, b'', b1, ?_⟩
  rw [r2]
  unfold bagRemove at r2
  rw [b2] at r2
  simp only [Option.bind_eq_bind, Option.bind_some] at r2
  split at r2
  · cases r2
    rename_i h0
    rw [decide_eq_false (by omega)]
  · rename_i h0
    have hx : x = true := by
      split at r2
      · obtain ⟨y, -, hy⟩ := Option.bind_eq_some_iff.mp r2
        cases hy; rfl
      · obtain ⟨y, -, hy⟩ := Option.bind_eq_some_iff.mp r2
        cases hy; rfl
    rw [hx, decide_eq_true (by omega)]

/-- Six distinct colliding elements in a bag that grows and shrinks. -/
example : (do
    let b ← runBag (· % 2) id 99 (bagNew 99 3)
      ([.remove 2, .add 4 (-5), .add 2 2, .add 10 1, .add 6 1, .add 4 3, .add 2 1, .add 0 1] :
        List (BagOp Nat))
    some (bagDo b, bagSize b)) = some ([0, 2, 2, 6, 10], 5) := by
  decide +kernel

end Verif.HashColl
