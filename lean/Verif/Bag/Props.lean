import Verif.Bag.Model
import Mathlib.Data.List.Count
import Mathlib.Data.List.Nodup
import Mathlib.Data.List.Perm.Subperm

/-
A Bag is a multiset (as in C32, here without the hash table).
C229: equality, distinct elements and the elements sorted by their counts.
C230: the text that a Bag stores.
-/
namespace Verif.Bag

variable {E : Type} [DecidableEq E]

/-! ### The specification: a function that counts -/

/-- The changes that a user can ask for. -/
inductive Op (E : Type)
  | addOcc (x : E) (n : Int)
  | add (x : E)
  | remove (x : E)

/-- What a change does to the counts. -/
def Op.spec : Op E → (E → Nat) → E → Nat
  | .addOcc x n, f, y => if y = x then ((f x : Int) + n).toNat else f y
  | .add x, f, y => if y = x then f x + 1 else f y
  | .remove x, f, y => if y = x then f x - 1 else f y

/-- The changes, on the model. -/
def Op.run : Op E → Contents E → Contents E
  | .addOcc x n, c => Bag.addOcc x n c
  | .add x, c => Bag.add x c
  | .remove x, c => (Bag.remove x c).1

/-- A Bag after some changes. -/
def after (ops : List (Op E)) : Contents E := ops.foldl (fun c o => o.run c) []
/-- The counts after the same changes. -/
def counts (ops : List (Op E)) : E → Nat := ops.foldl (fun f o => o.spec f) fun _ => 0

/-- Each object has one entry, with a positive count. -/
def Good (c : Contents E) : Prop := (c.map Prod.fst).Nodup ∧ ∀ p ∈ c, 0 < p.2

/-! ### The dictionary -/

private theorem occ_atPut (x y : E) (n : Int) (c : Contents E) :
    occurrencesOf y (atPut x n c) = if y = x then n else occurrencesOf y c := by
  induction c with
  | nil =>
    by_cases h : y = x
    · simp [atPut, occurrencesOf, h]
    · simp [atPut, occurrencesOf, h, Ne.symm h]
  | cons p c ih =>
    obtain ⟨k, m⟩ := p
    by_cases hk : k = x
    · subst hk
      by_cases h : y = k
      · simp [atPut, occurrencesOf, h]
      · simp [atPut, occurrencesOf, h, Ne.symm h]
    · by_cases h : k = y
      · subst h; simp [atPut, occurrencesOf, hk]
      · simp [atPut, occurrencesOf, hk, h, ih]

private theorem occ_notMem (x : E) (c : Contents E) (h : x ∉ c.map Prod.fst) :
    occurrencesOf x c = 0 := by
  induction c with
  | nil => rfl
  | cons p c ih =>
    simp only [List.map_cons, List.mem_cons, not_or] at h
    simp [occurrencesOf, Ne.symm h.1, ih h.2]

private theorem occ_removeKey (x y : E) (c : Contents E) (h : (c.map Prod.fst).Nodup) :
    occurrencesOf y (removeKey x c) = if y = x then 0 else occurrencesOf y c := by
  induction c with
  | nil => simp [removeKey, occurrencesOf]
  | cons p c ih =>
    obtain ⟨k, m⟩ := p
    simp only [List.map_cons, List.nodup_cons] at h
    by_cases hk : k = x
    · subst hk
      by_cases hy : y = k
      · subst hy; simp [removeKey, occ_notMem _ _ h.1]
      · simp [removeKey, occurrencesOf, hy, Ne.symm hy]
    · by_cases hy : k = y
      · subst hy; simp [removeKey, occurrencesOf, hk]
      · simp [removeKey, occurrencesOf, hk, hy, ih h.2]

private theorem mem_atPut (x : E) (n : Int) (c : Contents E) (p : E × Int)
    (hp : p ∈ atPut x n c) : p ∈ c ∨ p = (x, n) := by
  induction c with
  | nil => simp [atPut] at hp; exact .inr hp
  | cons q c ih =>
    obtain ⟨k, m⟩ := q
    by_cases hk : k = x
    · subst hk
      simp [atPut] at hp
      rcases hp with rfl | hp
      · exact .inr rfl
      · exact .inl (by simp [hp])
    · simp [atPut, hk] at hp
      rcases hp with rfl | hp
      · exact .inl (by simp)
      · rcases ih hp with h | h
        · exact .inl (by simp [h])
        · exact .inr h

private theorem keys_atPut (x : E) (n : Int) (c : Contents E) :
    (atPut x n c).map Prod.fst =
      if x ∈ c.map Prod.fst then c.map Prod.fst else c.map Prod.fst ++ [x] := by
  induction c with
  | nil => simp [atPut]
  | cons q c ih =>
    obtain ⟨k, m⟩ := q
    by_cases hk : k = x
    · subst hk; simp [atPut]
    · simp only [atPut, hk, if_false, List.map_cons, ih, List.mem_cons, Ne.symm hk, false_or]
      split <;> simp

private theorem nodup_atPut (x : E) (n : Int) (c : Contents E)
    (h : (c.map Prod.fst).Nodup) : ((atPut x n c).map Prod.fst).Nodup := by
  rw [keys_atPut]
  split
  · exact h
  · rename_i hx
    exact List.Nodup.append h (List.nodup_singleton x) (by simpa using hx)

private theorem removeKey_sub (x : E) (c : Contents E) : (removeKey x c).Sublist c := by
  induction c with
  | nil => exact .refl _
  | cons q c ih =>
    obtain ⟨k, m⟩ := q
    by_cases hk : k = x
    · simp [removeKey, hk]
    · simp [removeKey, hk, ih]

private theorem notMem_removeKey (x : E) (c : Contents E) (h : (c.map Prod.fst).Nodup) :
    x ∉ (removeKey x c).map Prod.fst := by
  induction c with
  | nil => simp [removeKey]
  | cons q c ih =>
    obtain ⟨k, m⟩ := q
    simp only [List.map_cons, List.nodup_cons] at h
    by_cases hk : k = x
    · subst hk; simpa [removeKey] using h.1
    · have := ih h.2
      simp only [removeKey, hk, if_false, List.map_cons, List.mem_cons, not_or]
      exact ⟨Ne.symm hk, this⟩

private theorem occ_mem (c : Contents E) (h : (c.map Prod.fst).Nodup) (p : E × Int)
    (hp : p ∈ c) : occurrencesOf p.1 c = p.2 := by
  induction c with
  | nil => simp at hp
  | cons q c ih =>
    obtain ⟨k, m⟩ := q
    simp only [List.map_cons, List.nodup_cons] at h
    rcases List.mem_cons.1 hp with rfl | hp'
    · simp [occurrencesOf]
    · have : k ≠ p.1 := fun e => h.1 (e ▸ List.mem_map_of_mem hp')
      simp [occurrencesOf, this, ih h.2 hp']

private theorem occ_pos (c : Contents E) (h : Good c) (x : E) :
    0 ≤ occurrencesOf x c ∧ (0 < occurrencesOf x c ↔ x ∈ c.map Prod.fst) := by
  by_cases hx : x ∈ c.map Prod.fst
  · obtain ⟨p, hp, rfl⟩ := List.mem_map.1 hx
    have := h.2 p hp
    rw [occ_mem c h.1 p hp]
    exact ⟨by omega, by simp [this, hx]⟩
  · rw [occ_notMem x c hx]
    simp [hx]

private theorem good_run (o : Op E) (c : Contents E) (h : Good c) : Good (o.run c) := by
  have key : ∀ x n, 0 < n → Good (atPut x n c) := by
    intro x n hn
    refine ⟨nodup_atPut x n c h.1, fun p hp => ?_⟩
    rcases mem_atPut x n c p hp with hp | rfl
    · exact h.2 p hp
    · exact hn
  have rem : ∀ (x : E) (c' : Contents E), (c'.map Prod.fst).Nodup → (∀ p ∈ c', p.1 ≠ x → 0 < p.2) →
      Good (removeKey x c') := by
    intro x c' hn hp
    refine ⟨((removeKey_sub x c').map _).nodup hn, fun p hp' => ?_⟩
    refine hp p ((removeKey_sub x c').subset hp') ?_
    rintro rfl
    exact notMem_removeKey _ c' hn (List.mem_map_of_mem hp')
  have hadd : ∀ x n, Good (Bag.addOcc x n c) := by
    intro x n
    unfold Bag.addOcc
    simp only
    split
    · refine rem x _ (nodup_atPut _ _ _ h.1) fun p hp hne => ?_
      rcases mem_atPut _ _ _ _ hp with hp | rfl
      · exact h.2 p hp
      · exact absurd rfl hne
    · rename_i hn
      exact key x _ (by omega)
  cases o with
  | addOcc x n => exact hadd x n
  | add x => exact hadd x 1
  | remove x =>
    simp only [Op.run, Bag.remove]
    split
    · exact h
    · split
      · exact rem x c h.1 fun p hp _ => h.2 p hp
      · rename_i h0 h1
        have := (occ_pos c h x).1
        exact key x _ (by omega)

private theorem occ_run (o : Op E) (c : Contents E) (h : Good c) (f : E → Nat)
    (hf : ∀ y, occurrencesOf y c = (f y : Int)) (y : E) :
    occurrencesOf y (o.run c) = (o.spec f y : Int) := by
  have hadd : ∀ x n, occurrencesOf y (Bag.addOcc x n c)
      = if y = x then (((f x : Int) + n).toNat : Int) else f y := by
    intro x n
    unfold Bag.addOcc
    simp only
    split
    · rename_i hn
      rw [occ_removeKey x y _ (nodup_atPut _ _ _ h.1), occ_atPut]
      rw [hf] at hn
      by_cases hy : y = x
      · simp only [hy, if_true]; omega
      · simp [hy, hf]
    · rename_i hn
      rw [hf] at hn ⊢
      rw [occ_atPut]
      by_cases hy : y = x
      · simp only [hy, if_true]; omega
      · simp [hy, hf]
  cases o with
  | addOcc x n => simp only [Op.run, Op.spec, hadd]; split <;> rfl
  | add x =>
    simp only [Op.run, Op.spec, Bag.add, hadd]
    split
    · omega
    · rfl
  | remove x =>
    simp only [Op.run, Op.spec, Bag.remove]
    have hx := hf x
    split
    · rename_i h0
      by_cases hy : y = x
      · subst hy; simp only [if_true]; omega
      · simp [hy, hf]
    · split
      · simp only []
        rw [occ_removeKey x y c h.1]
        by_cases hy : y = x
        · subst hy; simp only [if_true]; omega
        · simp [hy, hf]
      · simp only []
        rw [occ_atPut]
        by_cases hy : y = x
        · subst hy; simp only [if_true]; omega
        · simp [hy, hf]

private theorem after_gen (ops : List (Op E)) : ∀ (c : Contents E) (f : E → Nat), Good c →
    (∀ y, occurrencesOf y c = (f y : Int)) →
    Good (ops.foldl (fun c o => o.run c) c) ∧
    ∀ y, occurrencesOf y (ops.foldl (fun c o => o.run c) c)
      = (ops.foldl (fun f o => o.spec f) f y : Int) := by
  induction ops with
  | nil => intro c f h hf; exact ⟨h, hf⟩
  | cons o ops ih =>
    intro c f h hf
    exact ih (o.run c) (o.spec f) (good_run o c h) (occ_run o c h f hf)

/-- Each object has one entry, with a positive count, whatever was done. -/
theorem good_after (ops : List (Op E)) : Good (after ops) :=
  (after_gen ops [] (fun _ => 0) ⟨by simp, by simp⟩ fun _ => rfl).1

/-! ### The counts -/

/-- After any sequence of changes the Bag says how many times each object
    is in it: added as often as was asked, and never less than zero times. -/
theorem occurrences (ops : List (Op E)) (x : E) :
    occurrencesOf x (after ops) = (counts ops x : Int) :=
  (after_gen ops [] (fun _ => 0) ⟨by simp, by simp⟩ fun _ => rfl).2 x

/-- An object is included exactly when it occurs, and `remove:` fails
    exactly when it does not. -/
theorem included (ops : List (Op E)) (x : E) :
    (includes x (after ops) = true ↔ 0 < counts ops x) ∧
    ((remove x (after ops)).2 = true ↔ 0 < counts ops x) := by
  have hp := occ_pos _ (good_after ops) x
  have ho := occurrences ops x
  constructor
  · have : includes x (after ops) = true ↔ x ∈ (after ops).map Prod.fst := by
      simp [includes]
    rw [this, ← hp.2, ho]
    omega
  · unfold remove
    simp only
    split
    · simp; omega
    · split <;> (simp; omega)

private theorem count_doList (c : Contents E) (h : (c.map Prod.fst).Nodup) (x : E) :
    (doList c).count x = (occurrencesOf x c).toNat := by
  induction c with
  | nil => rfl
  | cons p c ih =>
    obtain ⟨k, n⟩ := p
    simp only [List.map_cons, List.nodup_cons] at h
    simp only [doList, List.count_append, ih h.2, occurrencesOf, List.count_replicate]
    by_cases hk : k = x
    · subst hk; simp [occ_notMem k c h.1]
    · simp [hk]

omit [DecidableEq E] in
private theorem size_doList (c : Contents E) (h : ∀ p ∈ c, 0 < p.2) :
    size c = ((doList c).length : Int) := by
  induction c with
  | nil => rfl
  | cons p c ih =>
    obtain ⟨k, n⟩ := p
    have h1 := h (k, n) (by simp)
    simp only [size, doList, List.length_append, List.length_replicate,
      ih fun q hq => h q (by simp [hq])]
    simp only at h1
    push_cast
    omega

/-- `do:` passes each object as many times as it occurs, and `size` is the
    number of objects that it passes. -/
theorem enumerated (ops : List (Op E)) :
    (∀ x, (doList (after ops)).count x = counts ops x) ∧
    size (after ops) = ((doList (after ops)).length : Int) := by
  have h := good_after ops
  refine ⟨fun x => ?_, size_doList _ h.2⟩
  rw [count_doList _ h.1, occurrences]
  simp

/-! ### C229 -/

/-- C229: two Bags are equal exactly when each object occurs as many times in
    one as in the other, however they were filled. -/
theorem equal (ops ops' : List (Op E)) :
    bagEq (after ops) (after ops') = true ↔ ∀ x, counts ops x = counts ops' x := by
  have h := good_after ops
  have h' := good_after ops'
  have occ := occurrences ops
  have occ' := occurrences ops'
  generalize ha : after ops = a at *
  generalize hb : after ops' = b at *
  have e : bagEq a b = true ↔ a.length = b.length ∧
      ∀ p ∈ a, p.1 ∈ b.map Prod.fst ∧ p.2 = occurrencesOf p.1 b := by
    simp [bagEq, includes]
  rw [e]
  constructor
  · rintro ⟨hl, hall⟩ x
    have hsub : a.map Prod.fst ⊆ b.map Prod.fst := by
      intro k hk
      obtain ⟨p, hp, rfl⟩ := List.mem_map.1 hk
      exact (hall p hp).1
    have hperm : (a.map Prod.fst).Perm (b.map Prod.fst) :=
      (List.Nodup.subperm h.1 hsub).perm_of_length_le (by simp [hl])
    by_cases hx : x ∈ a.map Prod.fst
    · obtain ⟨p, hp, rfl⟩ := List.mem_map.1 hx
      have h1 := (hall p hp).2
      rw [← occ_mem a h.1 p hp, occ, occ'] at h1
      exact_mod_cast h1
    · have hx' : x ∉ b.map Prod.fst := fun hc => hx (hperm.mem_iff.2 hc)
      have h1 := occ x
      have h2 := occ' x
      rw [occ_notMem x a hx] at h1
      rw [occ_notMem x b hx'] at h2
      omega
  · intro hc
    have keys : ∀ x, x ∈ a.map Prod.fst ↔ x ∈ b.map Prod.fst := by
      intro x
      rw [← (occ_pos a h x).2, ← (occ_pos b h' x).2, occ, occ', hc]
    have hperm : (a.map Prod.fst).Perm (b.map Prod.fst) :=
      (List.perm_ext_iff_of_nodup h.1 h'.1).2 keys
    refine ⟨by simpa using hperm.length_eq, fun p hp => ⟨(keys _).1 (List.mem_map_of_mem hp), ?_⟩⟩
    rw [← occ_mem a h.1 p hp, occ, occ', hc]

/-- C229: `asSet` has each object that occurs, once. -/
theorem distinct (ops : List (Op E)) :
    (asSet (after ops)).Nodup ∧ ∀ x, x ∈ asSet (after ops) ↔ 0 < counts ops x := by
  have h := good_after ops
  refine ⟨h.1, fun x => ?_⟩
  unfold asSet
  rw [← (occ_pos _ h x).2, occurrences]
  omega

/-- C229: `sortedByCount` has each object that occurs once, with the number of
    its occurrences, and the numbers never increase. -/
theorem sorted (ops : List (Op E)) :
    (sortedByCount (after ops)).Pairwise (fun a b => b.1 ≤ a.1) ∧
    ((sortedByCount (after ops)).map Prod.snd).Nodup ∧
    ∀ n x, (n, x) ∈ sortedByCount (after ops) ↔ (n = counts ops x ∧ 0 < counts ops x) := by
  have h := good_after ops
  have perm : (sortedByCount (after ops)).Perm ((after ops).map fun p => (p.2, p.1)) :=
    List.perm_insertionSort _ _
  refine ⟨?_, ?_, fun n x => ?_⟩
  · have : Std.Total (fun a b : Int × E => a.1 ≥ b.1) := ⟨fun a b => by omega⟩
    have : IsTrans (Int × E) (fun a b => a.1 ≥ b.1) := ⟨fun a b c h1 h2 => by omega⟩
    exact List.pairwise_insertionSort (fun a b : Int × E => a.1 ≥ b.1) _
  · rw [(perm.map Prod.snd).nodup_iff]
    simpa [List.map_map, Function.comp_def] using h.1
  · rw [perm.mem_iff]
    simp only [List.mem_map, Prod.mk.injEq]
    constructor
    · rintro ⟨p, hp, rfl, rfl⟩
      have h1 := occ_mem _ h.1 p hp
      have h2 := h.2 p hp
      have h3 := occurrences ops p.1
      exact ⟨by omega, by omega⟩
    · rintro ⟨rfl, hn⟩
      have hm := (occ_pos _ h x).2.1 (by rw [occurrences]; omega)
      obtain ⟨p, hp, rfl⟩ := List.mem_map.1 hm
      refine ⟨p, hp, ?_, rfl⟩
      rw [← occ_mem _ h.1 p hp, occurrences]

/-! ### C230 -/

omit [DecidableEq E] in
/-- C230, in part: an empty Bag stores an expression that the parser accepts.
    Missing: every other Bag, see `store_fails`. -/
theorem store_partial : parse (store ([] : Contents E)) = some [] := by
  simp [store, parse]

omit [DecidableEq E] in
private theorem cascade_two (c : Contents E) :
    cascade ([Tok.semi] ++ (c.flatMap (fun p => [.add p.1 p.2, .semi]) ++ [.semi, .yourself]))
      = none := by
  induction c with
  | nil => simp [cascade]
  | cons p c ih =>
    simp only [List.flatMap_cons, List.cons_append, List.nil_append] at ih ⊢
    rw [cascade, ih]
    rfl

omit [DecidableEq E] in
/-- C230 fails: what any Bag with an element stores has two semicolons in front
    of `yourself`, and the parser rejects it. -/
theorem store_fails (c : Contents E) (h : c ≠ []) : parse (store c) = none := by
  cases c with
  | nil => exact absurd rfl h
  | cons p c =>
    have := cascade_two c
    simp only [store, List.flatMap_cons, List.cons_append, List.nil_append] at this ⊢
    rw [if_neg (by simp), parse, this]
    rfl

/-- With one semicolon the expression would be a cascade. -/
example : parse [Tok.add 5 2, .semi, .add 7 1, .semi, .yourself]
    = some [.add 5 2, .add 7 1, .yourself] := by decide

example : after [.add 5, .addOcc 7 3, .add 5, .remove 7, .addOcc 5 (-1), .addOcc 9 (-4), .remove 8]
    = [(5, 1), (7, 2)] := by decide
example : bagEq (after [.add 5, .addOcc 7 2]) (after [.add 7, .add 5, .add 7]) = true := by decide
example : (store (after [.add 5])) = [.add 5 1, .semi, .semi, .yourself] := by decide
example : sortedByCount (after [.add 5, .addOcc 7 3, .add 9, .add 9]) = [(3, 7), (2, 9), (1, 5)] := by
  decide

end Verif.Bag
