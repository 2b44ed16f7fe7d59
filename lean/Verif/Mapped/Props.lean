import Verif.Mapped.Model
import Mathlib.Data.List.Nodup
import Mathlib.Data.List.Perm.Basic

/-!
# Collections seen through a map (C208 to C210)
-/

namespace Verif.Mapped

variable {α β : Type}

/-! ## Blocks evaluated for each element -/

theorem mapM'_cons {a b : Type} (f : a → Option b) (x : a) (l : List a) :
    mapM' f (x :: l) = (f x).bind fun r => (mapM' f l).bind fun l' => some (r :: l') := rfl

theorem mapM'_congr {a b : Type} {f g : a → Option b} : ∀ {l : List a}, (∀ x ∈ l, f x = g x) → mapM' f l = mapM' g l
  | [], _ => rfl
  | x :: l, h => by
    rw [mapM'_cons, mapM'_cons, h x (List.mem_cons_self ..), mapM'_congr fun y hy => h y (List.mem_cons_of_mem _ hy)]

theorem mapM'_map {a b c : Type} (f : b → Option c) (h : a → b) : ∀ l : List a, mapM' f (l.map h) = mapM' (fun x => f (h x)) l
  | [] => rfl
  | x :: l => by rw [List.map_cons, mapM'_cons, mapM'_cons, mapM'_map f h l]

theorem mapM'_some {a b : Type} (f : a → b) : ∀ l : List a, mapM' (fun x => some (f x)) l = some (l.map f)
  | [] => rfl
  | x :: l => by rw [mapM'_cons, mapM'_some f l]; rfl

theorem mapM'_bind {a b c : Type} (f : a → Option b) (g : b → Option c) :
    ∀ l : List a, (mapM' f l).bind (mapM' g) = mapM' (fun x => (f x).bind g) l
  | [] => rfl
  | x :: l => by
    rw [mapM'_cons, mapM'_cons, ← mapM'_bind f g l]
    cases f x with
    | none => rfl
    | some r =>
      cases mapM' f l with
      | none => cases h : g r <;> simp [h]
      | some l' => simp [mapM'_cons]

theorem mapM'_length {a b : Type} (f : a → Option b) : ∀ {l : List a} {r : List b}, mapM' f l = some r → r.length = l.length
  | [], r, h => by cases h; rfl
  | x :: l, r, h => by
    rw [mapM'_cons] at h
    cases hx : f x with
    | none => rw [hx] at h; cases h
    | some y =>
      cases hl : mapM' f l with
      | none => rw [hx, hl] at h; cases h
      | some l' =>
        rw [hx, hl] at h
        cases h
        rw [List.length_cons, List.length_cons, mapM'_length f hl]

theorem mapM'_get {a b : Type} (f : a → Option b) : ∀ {l : List a} {r : List b}, mapM' f l = some r → ∀ i : ℕ, r[i]? = (l[i]?).bind f
  | [], r, h, i => by cases h; simp
  | x :: l, r, h, i => by
    rw [mapM'_cons] at h
    cases hx : f x with
    | none => rw [hx] at h; cases h
    | some y =>
      cases hl : mapM' f l with
      | none => rw [hx, hl] at h; cases h
      | some l' =>
        rw [hx, hl] at h
        cases h
        cases i with
        | zero => simp [hx]
        | succ i => simpa using mapM'_get f hl i

theorem mapM'_perm {a b : Type} (f : a → Option b) {l l' : List a} (h : l.Perm l') :
    ∀ {r : List b}, mapM' f l = some r → ∃ r', mapM' f l' = some r' ∧ r.Perm r' := by
  induction h with
  | nil => intro r hr; exact ⟨r, hr, .refl _⟩
  | cons x h ih =>
    rename_i l1 l2
    intro r hr
    rw [mapM'_cons] at hr
    cases hx : f x with
    | none => rw [hx] at hr; cases hr
    | some y =>
      cases hl : mapM' f l1 with
      | none => rw [hx, hl] at hr; cases hr
      | some r1 =>
        rw [hx, hl] at hr
        cases hr
        obtain ⟨r2, e, p⟩ := ih hl
        exact ⟨y :: r2, by rw [mapM'_cons, hx, e]; rfl, p.cons y⟩
  | swap x y l =>
    intro r hr
    rw [mapM'_cons, mapM'_cons] at hr
    cases hy : f y with
    | none => rw [hy] at hr; cases hr
    | some y' =>
      cases hx : f x with
      | none => rw [hy, hx] at hr; cases hr
      | some x' =>
        cases hl : mapM' f l with
        | none => rw [hy, hx, hl] at hr; cases hr
        | some r1 =>
          rw [hy, hx, hl] at hr
          cases hr
          exact ⟨x' :: y' :: r1, by rw [mapM'_cons, mapM'_cons, hx, hy, hl]; rfl, .swap ..⟩
  | trans _ _ ih1 ih2 =>
    intro r hr
    obtain ⟨r1, e1, p1⟩ := ih1 hr
    obtain ⟨r2, e2, p2⟩ := ih2 e1
    exact ⟨r2, e2, p1.trans p2⟩

theorem filterM'_some {a : Type} {f : a → Option Bool} {p : a → Bool} (b : Bool) :
    ∀ {l : List a}, (∀ x ∈ l, f x = some (p x)) → filterM' f b l = some (l.filter fun x => p x = b)
  | [], _ => rfl
  | x :: l, h => by
    have e : filterM' f b (x :: l) = (f x).bind fun r => (filterM' f b l).bind fun l' => some (if r = b then x :: l' else l') := rfl
    rw [e, h x (List.mem_cons_self ..), filterM'_some b fun y hy => h y (List.mem_cons_of_mem _ hy)]
    by_cases hp : p x = b <;> simp [hp]

/-! ## The pairs of a collection -/

/-- The keys with their elements. -/
def Coll.pairs {v : Type} : Coll v → List (Key × v)
  | .seq l => l.zipIdx.map fun e => (.int ((e.2 : ℤ) + 1), e.1)
  | .dict l => l

/-- Keys are there once: a Dictionary has this property. -/
def Coll.Once {v : Type} : Coll v → Prop
  | .seq _ => True
  | .dict l => (l.map (·.1)).Nodup

theorem pairs_values {v : Type} (c : Coll v) : c.values = c.pairs.map (·.2) := by
  cases c with
  | seq l => simp [Coll.values, Coll.pairs, Function.comp_def]
  | dict l => rfl

theorem pairs_keys {v : Type} (c : Coll v) : c.keys = c.pairs.map (·.1) := by
  cases c with
  | seq l =>
    rw [Coll.keys, Coll.pairs, List.map_map]
    apply List.ext_getElem
    · simp
    · intro i h1 h2; simp
  | dict l => rfl

theorem assocAt_mem {v : Type} {k : Key} {x : v} : ∀ {l : List (Key × v)}, (l.map (·.1)).Nodup → (k, x) ∈ l → assocAt k l = some x
  | (k', y) :: l, hn, hm => by
    rw [List.map_cons, List.nodup_cons] at hn
    rw [assocAt]
    rcases List.mem_cons.1 hm with h | h
    · cases h; rw [if_pos rfl]
    · rw [if_neg, assocAt_mem hn.2 h]
      rintro rfl
      exact hn.1 (List.mem_map.2 ⟨_, h, rfl⟩)

theorem pairs_at {v : Type} {c : Coll v} (hc : c.Once) {e : Key × v} (h : e ∈ c.pairs) : c.at e.1 = some e.2 := by
  cases c with
  | seq l =>
    rw [Coll.pairs, List.mem_map] at h
    obtain ⟨⟨x, i⟩, hm, rfl⟩ := h
    have := List.mem_zipIdx_iff_getElem?.1 hm
    show (if (1 : ℤ) ≤ (i : ℤ) + 1 then l[((i : ℤ) + 1 - 1).toNat]? else none) = some x
    rw [if_pos (by omega), show ((i : ℤ) + 1 - 1).toNat = i by omega]
    exact this
  | dict l => exact assocAt_mem hc h

theorem seqAt_map {a b : Type} (f : a → b) (l : List a) (k : Key) : seqAt (l.map f) k = (seqAt l k).map f := by
  cases k with
  | sym s => rfl
  | int n =>
    unfold seqAt
    dsimp only
    split
    · rw [List.getElem?_map]
    · rfl

/-! ## Access (C208) -/

/-- C208: `do:` and `contents` go over what `at:` answers for the keys. -/
theorem elements_eq (c : MC α) (hc : c.map.Once) : c.elements = mapM' c.at c.keys := by
  rw [MC.elements, MC.keys, pairs_values, pairs_keys, mapM'_map, mapM'_map]
  apply mapM'_congr
  intro e he
  rw [MC.at, pairs_at hc he]; rfl

theorem size_eq (c : MC α) : c.size = c.keys.length := by
  unfold MC.size MC.keys Coll.size Coll.keys
  cases c.map <;> simp

theorem seqAtPut_at {v : Type} {l l' : List v} {i : Key} {x : v} (h : seqAtPut l i x = some l') (j : Key) :
    seqAt l' j = if j = i then some x else seqAt l j := by
  cases i with
  | sym s => cases h
  | int n =>
    unfold seqAtPut at h
    dsimp only at h
    split at h
    · rename_i hn
      cases h
      cases j with
      | sym s => simp [seqAt]
      | int m =>
        unfold seqAt
        dsimp only
        by_cases hm : m = n
        · subst hm
          rw [if_pos hn.1, if_pos rfl, List.getElem?_set_self hn.2]
        · rw [if_neg (fun e => hm (Key.int.inj e))]
          by_cases h1 : 1 ≤ m
          · rw [if_pos h1, if_pos h1, List.getElem?_set_ne (by omega)]
          · rw [if_neg h1, if_neg h1]
    · cases h

theorem seqAtPut_isSome {v : Type} (l : List v) (i : Key) (x : v) : (seqAtPut l i x).isSome = (seqAt l i).isSome := by
  cases i with
  | sym s => rfl
  | int n =>
    unfold seqAtPut seqAt
    dsimp only
    by_cases h1 : 1 ≤ n
    · by_cases h2 : (n - 1).toNat < l.length
      · rw [if_pos ⟨h1, h2⟩, if_pos h1, List.getElem?_eq_getElem h2]; rfl
      · rw [if_neg (fun h => h2 h.2), if_pos h1, List.getElem?_eq_none (by omega)]; rfl
    · rw [if_neg (fun h => h1 h.1), if_neg h1]; rfl

/-- C208: after `at:put:` the new object is answered for the keys that the map sends to the same index, and nothing else changes. -/
theorem atPut_at (c c' : MC α) (k : Key) (x : α) (h : c.atPut k x = some c') :
    c'.keys = c.keys ∧ c'.size = c.size ∧ ∀ k', c'.at k' = if c.map.at k' = c.map.at k then some x else c.at k' := by
  unfold MC.atPut at h
  cases hk : c.map.at k with
  | none => rw [hk] at h; cases h
  | some i =>
    rw [hk] at h
    cases hp : seqAtPut c.domain i x with
    | none => simp [hp] at h
    | some d =>
      simp [hp] at h
      subst h
      refine ⟨rfl, rfl, fun k' => ?_⟩
      unfold MC.at
      dsimp only
      cases hk' : c.map.at k' with
      | none => simp
      | some j =>
        show seqAt d j = _
        rw [seqAtPut_at hp]
        by_cases hj : j = i <;> simp [hj]

/-- C208: `at:put:` can be done for the keys for which `at:` can. -/
theorem atPut_iff (c : MC α) (k : Key) (x : α) : (c.atPut k x).isSome = (c.at k).isSome := by
  unfold MC.atPut MC.at
  cases c.map.at k with
  | none => rfl
  | some i => simp only [Option.bind_some, Option.isSome_map, seqAtPut_isSome]

theorem assocPut_new {v : Type} {k : Key} {x : v} : ∀ {r : List (Key × v)}, k ∉ r.map (·.1) → assocPut k x r = r ++ [(k, x)]
  | [], _ => rfl
  | (k', y) :: r, h => by
    rw [List.map_cons, List.mem_cons, not_or] at h
    rw [assocPut, if_neg (fun e => h.1 e.symm), assocPut_new h.2]; rfl

theorem assocAll_nodup {v : Type} (l : List (Key × v)) : ∀ (ks : List Key) (r : List (Key × v)), ks.Nodup → (∀ k ∈ ks, k ∉ r.map (·.1)) →
    assocAll l ks r = (mapM' (fun k => (assocAt k l).map fun x => (k, x)) ks).map (r ++ ·)
  | [], r, _, _ => by simp [assocAll, mapM']
  | k :: ks, r, hn, hd => by
    have e : assocAll l (k :: ks) r = (assocAt k l).bind fun x => assocAll l ks (assocPut k x r) := rfl
    rw [e, mapM'_cons]
    cases hk : assocAt k l with
    | none => rfl
    | some x =>
      rw [List.nodup_cons] at hn
      show assocAll l ks (assocPut k x r) = _
      rw [assocPut_new (hd k (List.mem_cons_self ..)), assocAll_nodup l ks _ hn.2]
      · cases mapM' (fun k => (assocAt k l).map fun x => (k, x)) ks with
        | none => rfl
        | some z => simp
      · intro k' hk'
        rw [List.map_append, List.mem_append, not_or]
        refine ⟨hd k' (List.mem_cons_of_mem _ hk'), ?_⟩
        simp only [List.map_cons, List.map_nil, List.mem_singleton]
        rintro rfl
        exact hn.1 hk'

theorem interval_nodup (a b : ℤ) : (interval a b).Nodup := by
  apply List.Nodup.map _ List.nodup_range
  intro i j h
  have := Key.int.inj h
  omega

/-- C208: `copyFrom:to:` answers what `at:` answers for the integers between. -/
theorem copy_eq (c : MC α) (a b : ℤ) : c.copyFromTo a b = mapM' c.at (interval a b) := by
  unfold MC.copyFromTo MC.at Coll.atAll Coll.at
  cases c.map with
  | seq l =>
    dsimp only
    rw [Option.bind_map]
    exact mapM'_bind (seqAt l) (seqAt c.domain) _
  | dict l =>
    dsimp only
    rw [assocAll_nodup l _ [] (interval_nodup a b) (by simp), Option.bind_map, Option.bind_map]
    have := mapM'_bind (fun k => (assocAt k l).map fun x => (k, x)) (fun e => seqAt c.domain e.2) (interval a b)
    rw [show (fun x => (assocAt x l).bind (seqAt c.domain)) = fun x => ((assocAt x l).map fun y => (x, y)).bind fun e => seqAt c.domain e.2 from by
      funext x; cases assocAt x l <;> rfl, ← this]
    congr 1
    funext z
    simp only [Function.comp, List.nil_append, Coll.values]
    exact mapM'_map _ _ z

/-- C208: `atAll:` with a sequence as the map answers a collection with consecutive keys. -/
theorem atAll_seq (d : List α) (l : List Key) (ks : List Key) (c' : MC α) (h : (⟨d, .seq l⟩ : MC α).atAll ks = some c') (i : ℕ) :
    c'.size = ks.length ∧ c'.at (.int (i + 1)) = (ks[i]?).bind (⟨d, .seq l⟩ : MC α).at := by
  unfold MC.atAll Coll.atAll at h
  dsimp only at h
  cases hm : mapM' (seqAt l) ks with
  | none => rw [hm] at h; cases h
  | some r =>
    rw [hm] at h
    cases h
    refine ⟨mapM'_length _ hm, ?_⟩
    have := mapM'_get _ hm i
    show ((if (1 : ℤ) ≤ (i : ℤ) + 1 then r[((i : ℤ) + 1 - 1).toNat]? else none)).bind (seqAt d) = _
    rw [if_pos (by omega), show ((i : ℤ) + 1 - 1).toNat = i by omega, this]
    cases ks[i]? <;> rfl

theorem assocPut_at {v : Type} (k k' : Key) (x : v) : ∀ r : List (Key × v), assocAt k' (assocPut k x r) = if k' = k then some x else assocAt k' r
  | [] => by
    show (if k = k' then some x else none) = if k' = k then some x else none
    by_cases h : k' = k
    · rw [if_pos h.symm, if_pos h]
    · rw [if_neg (fun e => h e.symm), if_neg h]
  | (j, y) :: r => by
    rw [assocPut]
    by_cases hj : j = k
    · subst hj
      rw [if_pos rfl, assocAt, assocAt]
      by_cases h : k' = j
      · subst h; simp
      · rw [if_neg (fun e => h e.symm), if_neg h, if_neg (fun e => h e.symm)]
    · rw [if_neg hj, assocAt, assocAt, assocPut_at k k' x r]
      by_cases h : j = k'
      · subst h; rw [if_pos rfl, if_neg hj, if_pos rfl]
      · rw [if_neg h, if_neg h]

theorem assocAll_at {v : Type} (l : List (Key × v)) : ∀ (ks : List Key) (r s : List (Key × v)), assocAll l ks r = some s →
    ∀ k, assocAt k s = if k ∈ ks then assocAt k l else assocAt k r
  | [], r, s, h, k => by cases h; simp
  | j :: ks, r, s, h, k => by
    have e : assocAll l (j :: ks) r = (assocAt j l).bind fun x => assocAll l ks (assocPut j x r) := rfl
    rw [e] at h
    cases hj : assocAt j l with
    | none => rw [hj] at h; cases h
    | some x =>
      rw [hj] at h
      rw [assocAll_at l ks _ s h k, assocPut_at]
      by_cases h1 : k ∈ ks
      · simp [h1]
      · by_cases h2 : k = j
        · subst h2; simp [hj]
        · simp [h1, h2]

/-- C208: `atAll:` with a Dictionary as the map answers a collection with the given keys. -/
theorem atAll_dict (d : List α) (l : List (Key × Key)) (ks : List Key) (c' : MC α) (h : (⟨d, .dict l⟩ : MC α).atAll ks = some c') (k : Key) :
    c'.at k = if k ∈ ks then (⟨d, .dict l⟩ : MC α).at k else none := by
  unfold MC.atAll Coll.atAll at h
  dsimp only at h
  cases hm : assocAll l ks [] with
  | none => rw [hm] at h; cases h
  | some r =>
    rw [hm] at h
    cases h
    show (assocAt k r).bind (seqAt d) = _
    rw [assocAll_at l ks [] r hm k]
    by_cases h1 : k ∈ ks
    · rw [if_pos h1, if_pos h1]; rfl
    · rw [if_neg h1, if_neg h1]; rfl

/-- The third, first and second of three numbers. -/
def rotated : MC ℕ := ⟨[10, 20, 30], .seq [.int 3, .int 1, .int 2]⟩

example : rotated.elements = some [30, 10, 20] := by decide
example : (rotated.atPut (.int 1) 7).map MC.elements = some (some [7, 10, 20]) := by decide
example : rotated.copyFromTo 2 3 = some [10, 20] := by decide
example : ((rotated.atAll [.int 3, .int 1]).map MC.elements) = some (some [20, 30]) := by decide

/-! ## Keys (C209) -/

/-- C209, the part that holds: `keysAndValuesDo:` goes over the right pairs, in some order, when the indices that the map holds are its keys.
What is missing is said by `keysAndValues_fails` and `named_fails`. -/
theorem keysAndValues_partial (c : MC α) (h : c.map.values.Perm c.map.keys) (xs : List (Key × α))
    (hx : c.keysAndValues = some xs) :
    ∃ ys, mapM' (fun k => (c.at k).map fun x => (k, x)) c.keys = some ys ∧ xs.Perm ys :=
  mapM'_perm _ h hx

example : rotated.map.values.Perm rotated.map.keys := by decide
example : rotated.keysAndValues.isSome = true := by decide

/-- C209, the part that holds: `keysDo:` goes over the keys of a Dictionary. What is missing is said by `keysDo_fails`. -/
theorem keysDo_partial (d : List α) (l : List (Key × Key)) : (⟨d, .dict l⟩ : MC α).keysDo = some (⟨d, .dict l⟩ : MC α).keys := rfl

/-- C209 fails: `keysDo:` is not understood when the map is a sequence. -/
theorem keysDo_fails (d : List α) (l : List Key) : (⟨d, .seq l⟩ : MC α).keysDo = none := rfl

/-- C209 fails: the collection of the second element twice is said to have it twice with the key 2. -/
theorem keysAndValues_fails : (⟨[10, 20, 30], .seq [.int 2, .int 2]⟩ : MC ℕ).keysAndValues = some [(.int 2, 20), (.int 2, 20)] ∧
    (⟨[10, 20, 30], .seq [.int 2, .int 2]⟩ : MC ℕ).keys = [.int 1, .int 2] := by decide

/-- C209 fails: the use that the comment of the class proposes, a Dictionary whose elements are indexed, cannot be enumerated. -/
theorem named_fails : (⟨[10, 20], .dict [(.sym 0, .int 1), (.sym 1, .int 2)]⟩ : MC ℕ).keysAndValues = none ∧
    (⟨[10, 20], .dict [(.sym 0, .int 1), (.sym 1, .int 2)]⟩ : MC ℕ).at (.sym 1) = some 20 := by decide

/-! ## Selecting and collecting (C210) -/

/-- The map leaves the indices that it holds where they are. -/
def Fixed (c : MC α) : Prop := ∀ i ∈ c.map.values, c.map.at i = some i

/-- All the indices that the map holds are in the domain. -/
def Valid (c : MC α) : Prop := ∀ i ∈ c.map.values, (seqAt c.domain i).isSome = true

theorem value_of (c : MC α) (hf : Fixed c) (hv : Valid c) {i : Key} (hi : i ∈ c.map.values) :
    ∃ x, seqAt c.domain i = some x ∧ c.at i = some x := by
  obtain ⟨x, hx⟩ := Option.isSome_iff_exists.1 (hv i hi)
  exact ⟨x, hx, by rw [MC.at, hf i hi]; exact hx⟩

theorem elements_filter (d : List α) (p : α → Bool) : ∀ (l : List Key), (∀ i ∈ l, (seqAt d i).isSome = true) →
    ∃ xs, mapM' (seqAt d) l = some xs ∧
      mapM' (seqAt d) (l.filter fun i => ((seqAt d i).map p).getD false) = some (xs.filter p)
  | [], _ => ⟨[], rfl, rfl⟩
  | i :: l, h => by
    obtain ⟨xs, e1, e2⟩ := elements_filter d p l fun j hj => h j (List.mem_cons_of_mem _ hj)
    obtain ⟨x, hx⟩ := Option.isSome_iff_exists.1 (h i (List.mem_cons_self ..))
    refine ⟨x :: xs, by rw [mapM'_cons, hx, e1]; rfl, ?_⟩
    by_cases hp : p x = true
    · rw [List.filter_cons_of_pos (by rw [hx]; exact hp), List.filter_cons_of_pos hp, mapM'_cons, hx, e2]; rfl
    · rw [List.filter_cons_of_neg (by rw [hx]; exact hp), List.filter_cons_of_neg hp, e2]

theorem select_values (c : MC α) (p : α → Bool) (b : Bool) (hf : Fixed c) (hv : Valid c) :
    ∃ m, c.map.select (fun key => (c.at key).map p) b = some m ∧
      m.values = c.map.values.filter (fun i => ((seqAt c.domain i).map fun x => decide (p x = b)).getD false) := by
  have key : ∀ i ∈ c.map.values, ((c.at i).map p) = some (((seqAt c.domain i).map p).getD false) := by
    intro i hi
    obtain ⟨x, h1, h2⟩ := value_of c hf hv hi
    rw [h1, h2]; rfl
  have flip : ∀ i ∈ c.map.values, decide (((seqAt c.domain i).map p).getD false = b) = ((seqAt c.domain i).map fun x => decide (p x = b)).getD false := by
    intro i hi
    obtain ⟨x, h1, _⟩ := value_of c hf hv hi
    rw [h1]; rfl
  unfold Coll.select
  cases hm : c.map with
  | seq l =>
    rw [hm] at key flip
    dsimp only
    rw [filterM'_some b (l := l) (p := fun i => ((seqAt c.domain i).map p).getD false) key]
    exact ⟨_, rfl, List.filter_congr flip⟩
  | dict l =>
    rw [hm] at key flip
    dsimp only
    rw [filterM'_some b (p := fun e => ((seqAt c.domain e.2).map p).getD false)
      (fun e he => key e.2 (List.mem_map.2 ⟨e, he, rfl⟩))]
    refine ⟨_, rfl, ?_⟩
    show (l.filter _).map (·.2) = (l.map (·.2)).filter _
    rw [List.filter_map]
    congr 1
    apply List.filter_congr
    intro e he
    exact flip e.2 (List.mem_map.2 ⟨e, he, rfl⟩)

/-- C210, the part that holds: `select:` and `reject:` answer the elements for which the block answers true or false, when the map leaves the indices it holds where they are.
What is missing is said by `select_fails`. -/
theorem select_partial (c : MC α) (p : α → Bool) (b : Bool) (hf : Fixed c) (hv : Valid c) :
    ∃ xs c', c.elements = some xs ∧ c.select p b = some c' ∧ c'.elements = some (xs.filter fun x => decide (p x = b)) := by
  obtain ⟨m, h1, h2⟩ := select_values c p b hf hv
  obtain ⟨xs, e1, e2⟩ := elements_filter c.domain (fun x => decide (p x = b)) c.map.values hv
  refine ⟨xs, ⟨c.domain, m⟩, e1, by rw [MC.select, h1]; rfl, ?_⟩
  rw [MC.elements, h2]; exact e2

/-- The first element three times in a row of three: the map leaves its index where it is. -/
def constant : MC ℕ := ⟨[10, 20, 30, 40], .seq [.int 1, .int 1, .int 3]⟩

example : Fixed constant ∧ Valid constant := by
  unfold Fixed Valid; decide

theorem collect_at {v u : Type} {f : v → Option u} {g : v → u} (c : Coll v) (h : ∀ x ∈ c.values, f x = some (g x)) :
    ∃ r, c.collect f = some r ∧ r.keys = c.keys ∧ ∀ k, r.at k = (c.at k).map g := by
  cases c with
  | seq l =>
    have e : mapM' f l = some (l.map g) := by rw [mapM'_congr (l := l) h, mapM'_some]
    refine ⟨.seq (l.map g), by rw [Coll.collect, e]; rfl, by simp [Coll.keys], fun k => seqAt_map g l k⟩
  | dict l =>
    have e : mapM' (fun e : Key × v => (f e.2).map fun x => (e.1, x)) l = some (l.map fun e => (e.1, g e.2)) := by
      rw [mapM'_congr (g := fun e => some (e.1, g e.2)), mapM'_some]
      intro e he
      rw [h e.2 (List.mem_map.2 ⟨e, he, rfl⟩)]; rfl
    refine ⟨.dict (l.map fun e => (e.1, g e.2)), by rw [Coll.collect, e]; rfl, by simp [Coll.keys], fun k => ?_⟩
    show assocAt k (l.map fun e => (e.1, g e.2)) = (assocAt k l).map g
    clear e h
    induction l with
    | nil => rfl
    | cons e l ih =>
      obtain ⟨j, x⟩ := e
      rw [List.map_cons, assocAt, assocAt, ih]
      by_cases hj : j = k <;> simp [hj]

theorem at_mem (m : Coll Key) (k i : Key) (h : m.at k = some i) : i ∈ m.values := by
  cases m with
  | seq l =>
    cases k with
    | sym s => cases h
    | int n =>
      unfold Coll.at seqAt at h
      dsimp only at h
      split at h
      · exact List.mem_of_getElem? h
      · cases h
  | dict l =>
    unfold Coll.at at h
    show i ∈ l.map (·.2)
    dsimp only at h
    induction l with
    | nil => cases h
    | cons e l ih =>
      obtain ⟨j, x⟩ := e
      rw [assocAt] at h
      split at h
      · cases h; exact List.mem_cons_self ..
      · exact List.mem_cons_of_mem _ (ih h)

/-- C210, the part that holds: `collect:` answers a collection with the same keys and the values passed through the block, when the domain is not larger than the map or the map leaves the indices it holds where they are.
What is missing is said by `collect_fails`. -/
theorem collect_partial [Inhabited α] (c : MC α) (f : α → β) (hv : Valid c) (h : c.domain.length ≤ c.map.size ∨ Fixed c) :
    ∃ r, c.collect f = some r ∧ r.keys = c.keys ∧ ∀ k, r.at k = (c.at k).map f := by
  unfold MC.collect
  by_cases hs : c.map.size < c.domain.length
  · have hf : Fixed c := by
      rcases h with h | h
      · omega
      · exact h
    rw [if_pos hs]
    obtain ⟨r, e1, e2, e3⟩ := collect_at (f := fun key => (c.at key).map f)
      (g := fun i => f ((seqAt c.domain i).getD default)) c.map (by
        intro i hi
        obtain ⟨x, h1, h2⟩ := value_of c hf hv hi
        rw [h1, h2]; rfl)
    refine ⟨.plain r, by rw [e1]; rfl, e2, fun k => ?_⟩
    show r.at k = _
    rw [e3, MC.at]
    cases hk : c.map.at k with
    | none => rfl
    | some i =>
      obtain ⟨x, h1, _⟩ := value_of c hf hv (at_mem _ _ _ hk)
      simp [h1]
  · rw [if_neg hs]
    refine ⟨_, rfl, rfl, fun k => ?_⟩
    show (c.map.at k).bind (seqAt (c.domain.map f)) = ((c.map.at k).bind (seqAt c.domain)).map f
    cases c.map.at k with
    | none => rfl
    | some i => exact seqAt_map f _ i

example : Valid rotated ∧ rotated.domain.length ≤ rotated.map.size := by
  unfold Valid; decide

/-- C210 fails: of 30, 10 and 20, `select:` for those above 25 answers 10, and `reject:` answers the two others. -/
theorem select_fails :
    rotated.elements = some [30, 10, 20] ∧
    (rotated.select (fun x => decide (25 < x)) true).map MC.elements = some (some [10]) ∧
    (rotated.select (fun x => decide (25 < x)) false).map MC.elements = some (some [30, 20]) := by decide

/-- C210 fails: the elements of a domain that has one more element are answered in another order by `collect:` for a block that answers its argument. -/
theorem collect_fails :
    (⟨[10, 20, 30, 40], .seq [.int 3, .int 1, .int 2]⟩ : MC ℕ).elements = some [30, 10, 20] ∧
    (match (⟨[10, 20, 30, 40], .seq [.int 3, .int 1, .int 2]⟩ : MC ℕ).collect (fun x => x) with
      | some (.plain (.seq l)) => l
      | _ => []) = [20, 30, 10] := by decide

/-- C210 fails: with names as the keys, `select:` fails although all the names can be used. -/
theorem names_fails : ((⟨[10, 20], .dict [(.sym 0, .int 1), (.sym 1, .int 2)]⟩ : MC ℕ).select (fun _ => true) true).isNone = true ∧
    (⟨[10, 20], .dict [(.sym 0, .int 1), (.sym 1, .int 2)]⟩ : MC ℕ).elements = some [10, 20] := by decide

end Verif.Mapped
