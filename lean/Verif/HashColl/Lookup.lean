import Verif.HashColl.Lemmas

/-! # Dictionary and LookupTable: lemmas -/

set_option linter.unusedSectionVars false

namespace Verif.HashColl

open Verif.Hash

variable {K O V : Type} [DecidableEq K] {cls : O → K} {h : K → Nat}

/-- The key of an association. -/
abbrev akey (cls : O → K) : O × V → K := fun e => cls e.1

theorem WF.dictAtPut {t : Table (O × V)} {M : K → Option (O × V)}
    (w : WF (akey cls) h t M) (k : O) (v : V) :
    ∃ t', dictAtPut h h cls t k v = some t' ∧
      WF (akey cls) h t'
        (fun q => if q = cls k then some (((M q).map Prod.fst).getD k, v) else M q) := by
  unfold HashColl.dictAtPut
  obtain ⟨i, f1, f2, f3, f4⟩ := w.find (cls k)
  have f1' : findIndex (fun e : O × V => cls e.1) h t (cls k) = some (i + 1) := f1
  rw [f1']
  simp only [Option.bind_eq_bind, Option.bind_some, f3]
  rcases f4 with ⟨hn, hp⟩ | ⟨b, hb, hsb, hkb⟩
  · rw [hn]
    dsimp only
    obtain ⟨t', g, i1, i2, i3, i4, i5⟩ := w.increment
    have i1' : incrementTally (fun e : O × V => cls e.1) h t =
      some (g, { t' with tally := t'.tally + 1 }) := i1
    rw [i1']
    simp only [Option.bind_some]
    have hfun : (fun q => if q = cls k then some (((M q).map Prod.fst).getD k, v) else M q) =
        (fun q => if q = akey (V := V) cls (k, v) then some (k, v) else M q) := by
      funext q
      by_cases hq : q = cls k
      · rw [if_pos hq, if_pos hq, hq, hn]; rfl
      · rw [if_neg hq, if_neg hq]
    rw [hfun]
    cases g with
    | false =>
      have := i5 rfl; subst this
      exact ⟨_, rfl, w.store (k, v) i4 i hp⟩
    | true =>
      obtain ⟨i', f1', -, -, f4'⟩ := i2.find (cls k)
      have f1'' : findIndex (fun e : O × V => cls e.1) h { t' with tally := t'.tally + 1 } (cls k) =
          some (i' + 1) := by
        obtain ⟨e, -, hs⟩ := i2.pow
        rw [findIndex_eq _ h t' _ e hs] at f1'
        rw [findIndex_eq _ h { t' with tally := t'.tally + 1 } _ e hs]
        exact f1'
      rcases f4' with ⟨-, hp'⟩ | ⟨b, hb, -⟩
      · refine ⟨_, ?_, i2.store (k, v) i4 i' hp'⟩
        rw [if_pos rfl, f1'']; rfl
      · rw [hn] at hb; cases hb
  · rw [hb]
    refine ⟨_, rfl, ?_⟩
    have e1 := slots_primAtPut t i (some (b.1, v))
    have hka : akey (V := V) cls (b.1, v) = akey cls b := rfl
    refine ⟨w.pow, ?_, ?_, ?_, w.room⟩
    · rw [e1]; exact w.reach.replace (b.1, v) b i hsb hka
    · rw [e1]
      have hfun : (fun q => if q = cls k then some (((M q).map Prod.fst).getD k, v) else M q) =
          (fun q => if q = akey (V := V) cls (b.1, v) then some (b.1, v) else M q) := by
        funext q
        have hk' : akey (V := V) cls (b.1, v) = cls k := hkb
        rw [hk']
        by_cases hq : q = cls k
        · rw [if_pos hq, if_pos hq, hq, hb]; rfl
        · rw [if_neg hq, if_neg hq]
      rw [hfun]
      exact w.abs.replace w.reach (b.1, v) b i f2 hsb hka
    · rw [e1]
      show Hash.used (update (slots t) i (some (b.1, v))) t.size = t.tally
      rw [used_update_used _ _ _ _ _ hsb, w.used]

/-! ## A LookupTable seen as a table of key/value pairs -/

def view (t : LTable O V) : Table (O × V) :=
  ⟨t.prim.size, fun i => (t.prim.at_ i).map (fun k => (k, t.value i)), t.prim.tally⟩

theorem view_findIndexLoop (t : LTable O V) (k : K) (c i : Nat) :
    findIndexLoop (akey cls) (view t) k c i = findIndexLoop cls t.prim k c i := by
  induction c generalizing i with
  | zero => rfl
  | succ c ih =>
    unfold findIndexLoop
    rw [show (view t).at_ i = (t.prim.at_ i).map (fun k => (k, t.value i)) from rfl]
    cases t.prim.at_ i with
    | none => rfl
    | some a =>
      simp only [Option.map_some]
      rw [ih]; rfl

theorem view_findIndex (t : LTable O V) (k : K) :
    findIndex (akey cls) h (view t) k = findIndex cls h t.prim k :=
  view_findIndexLoop t k _ _

theorem view_findElementLoop (t : LTable O V) (c i : Nat) :
    findElementLoop (view t) c i = findElementLoop t.prim c i := by
  induction c generalizing i with
  | zero => rfl
  | succ c ih =>
    unfold findElementLoop
    rw [show (view t).at_ i = (t.prim.at_ i).map (fun k => (k, t.value i)) from rfl]
    cases t.prim.at_ i with
    | none => rfl
    | some a =>
      simp only [Option.map_some]
      rw [ih]; rfl

theorem view_findElementIndex (t : LTable O V) (k : O) (v : V) :
    findElementIndex (akey cls) h (view t) (k, v) = findElementIndex cls h t.prim k :=
  view_findElementLoop t _ _

theorem view_store (t : LTable O V) (i : Nat) (k : O) (v : V) :
    view (valueAtPut { t with prim := primAtPut t.prim i (some k) } i v) =
      primAtPut (view t) i (some (k, v)) := by
  simp only [view, valueAtPut, primAtPut]
  congr 1
  funext j
  simp only [update]
  by_cases hj : j = i
  · simp [hj]
  · simp [hj]

theorem view_clear (t : LTable O V) (i : Nat) :
    view { t with prim := primAtPut t.prim i none } = primAtPut (view t) i none := by
  simp only [view, primAtPut]
  congr 1
  funext j
  simp only [update]
  by_cases hj : j = i
  · simp [hj]
  · simp [hj]

theorem view_whileGrowing (t : LTable O V) (k : O) (v : V) :
    (lWhileGrowing h cls t k v).map view = addWhileGrowing (akey cls) h (view t) (k, v) := by
  unfold lWhileGrowing addWhileGrowing
  rw [view_findElementIndex]
  cases findElementIndex cls h t.prim k with
  | none => rfl
  | some j =>
    simp only [Option.bind_eq_bind, Option.bind_some, Option.map_some]
    rw [← view_store]; rfl

theorem addAll_append (l1 l2 : List (O × V)) (t : Table (O × V)) :
    addAllWhileGrowing (akey cls) h t (l1 ++ l2) =
      (addAllWhileGrowing (akey cls) h t l1).bind
        (fun t => addAllWhileGrowing (akey cls) h t l2) := by
  induction l1 generalizing t with
  | nil => rfl
  | cons a l1 ih =>
    rw [List.cons_append]
    rw [addAllWhileGrowing, addAllWhileGrowing]
    cases addWhileGrowing (akey cls) h t a with
    | none => rfl
    | some t1 => exact ih t1

theorem view_copyAllFrom (t src : LTable O V) (m : Nat) :
    (lCopyAllFrom h cls t src m).map view =
      addAllWhileGrowing (akey cls) h (view t)
        ((List.range m).filterMap (fun i => (view src).at_ (i + 1))) := by
  induction m with
  | zero => rfl
  | succ m ih =>
    rw [List.range_succ, List.filterMap_append, addAll_append, ← ih]
    rw [lCopyAllFrom]
    cases lCopyAllFrom h cls t src m with
    | none => rfl
    | some t1 =>
      simp only [Option.bind_eq_bind, Option.bind_some, Option.map_some]
      rw [show ([m].filterMap fun i => (view src).at_ (i + 1)) =
        ((src.prim.at_ (m + 1)).map (fun k => (k, src.value (m + 1)))).toList by
          simp only [List.filterMap_cons, List.filterMap_nil, view]
          cases src.prim.at_ (m + 1) <;> rfl]
      cases src.prim.at_ (m + 1) with
      | none => rfl
      | some k =>
        simp only [Option.map_some, Option.toList_some]
        rw [addAllWhileGrowing, ← view_whileGrowing]
        cases lWhileGrowing h cls t1 k (src.value (m + 1)) <;> rfl

variable (nilV : V)

theorem view_incrementTally (t : LTable O V) :
    (lIncrementTally h cls nilV t).map (fun r => (r.1, view r.2)) =
      incrementTally (akey cls) h (view t) := by
  unfold lIncrementTally incrementTally
  rw [show (view t).tally = t.prim.tally from rfl, show (view t).size = t.prim.size from rfl]
  split
  · unfold growBy elements capacity
    rw [show (view t).size = t.prim.size from rfl]
    have hv := view_copyAllFrom (cls := cls) (h := h)
      (⟨new (t.prim.size * 3 / 4 + t.prim.size * 3 / 4), fun _ => nilV⟩ : LTable O V) t
      t.prim.size
    have e : view (⟨new (t.prim.size * 3 / 4 + t.prim.size * 3 / 4), fun _ => nilV⟩ : LTable O V) =
        new (t.prim.size * 3 / 4 + t.prim.size * 3 / 4) := rfl
    rw [e] at hv
    rw [← hv]
    cases lCopyAllFrom h cls
      (⟨new (t.prim.size * 3 / 4 + t.prim.size * 3 / 4), fun _ => nilV⟩ : LTable O V) t
      t.prim.size <;> rfl
  · rfl

/-- `LookupTable >> at:put:` does to the pairs what `Dictionary >> at:put:` does. -/
theorem view_atPut (t : LTable O V) (k : O) (v : V) :
    (lAtPut h h cls nilV t k v).map view = dictAtPut h h cls (view t) k v := by
  unfold lAtPut dictAtPut
  have e1 : findIndex (fun e : O × V => cls e.1) h (view t) (cls k) =
    findIndex cls h t.prim (cls k) := view_findIndex t (cls k)
  rw [e1]
  cases findIndex cls h t.prim (cls k) with
  | none => rfl
  | some i =>
    simp only [Option.bind_eq_bind, Option.bind_some]
    rw [show (view t).at_ i = (t.prim.at_ i).map (fun k => (k, t.value i)) from rfl]
    cases hk : t.prim.at_ i with
    | some k0 =>
      simp only [Option.map_some]
      congr 1
      simp only [view, valueAtPut, primAtPut]
      congr 1
      funext j
      simp only [update]
      by_cases hj : j = i
      · subst hj; simp [hk]
      · simp [hj]
    | none =>
      simp only [Option.map_none]
      have e2 := view_incrementTally (cls := cls) (h := h) nilV t
      have e2' : incrementTally (fun e : O × V => cls e.1) h (view t) = _ := e2.symm
      rw [e2']
      cases lIncrementTally h cls nilV t with
      | none => rfl
      | some r =>
        obtain ⟨g, t1⟩ := r
        simp only [Option.bind_some, Option.map_some]
        have e3 : findIndex (fun e : O × V => cls e.1) h (view t1) (cls k) =
          findIndex cls h t1.prim (cls k) := view_findIndex t1 (cls k)
        rw [e3]
        cases (if g = true then findIndex cls h t1.prim (cls k) else some i) with
        | none => rfl
        | some j =>
          simp only [Option.bind_some, Option.map_some]
          rw [view_store]

theorem view_at (t : LTable O V) (k : K) :
    lAt h cls t k = (entryAt (akey cls) h (view t) k).map (fun r => r.map Prod.snd) := by
  unfold lAt entryAt
  rw [view_findIndex]
  cases findIndex cls h t.prim k with
  | none => rfl
  | some i =>
    simp only [Option.bind_eq_bind, Option.bind_some, Option.map_some, view]
    cases t.prim.at_ i <;> rfl

theorem view_rehashAfterLoop (c : Nat) : ∀ (t : LTable O V) (i : Nat),
    (lRehashAfterLoop h cls nilV c t i).map view =
      rehashAfterLoop (akey cls) h c (view t) i := by
  induction c with
  | zero => intro t i; rfl
  | succ c ih =>
    intro t i
    unfold lRehashAfterLoop rehashAfterLoop
    dsimp only
    rw [show (view t).size = t.prim.size from rfl]
    generalize next t.prim.size i = i1
    rw [show (view t).at_ i1 = (t.prim.at_ i1).map (fun k => (k, t.value i1)) from rfl]
    cases hk : t.prim.at_ i1 with
    | none => rfl
    | some k =>
      simp only [Option.map_some, Option.bind_eq_bind]
      rw [← view_clear, view_findElementIndex]
      cases hf : findElementIndex cls h (primAtPut t.prim i1 none) k with
      | none => rfl
      | some j =>
        simp only [Option.bind_some]
        rw [ih]
        congr 1
        by_cases hj : j = i1
        · rw [if_pos hj]
          subst hj
          simp only [view, primAtPut]
          congr 1
          funext q
          simp only [update]
          by_cases hq : q = j
          · subst hq; simp
          · simp [hq]
        · rw [if_neg hj]
          simp only [view, primAtPut, valueAtPut]
          congr 1
          funext q
          simp only [update]
          by_cases hq : q = j
          · subst hq; simp [hj]
          · by_cases hq2 : q = i1
            · subst hq2; simp [hq]
            · simp [hq, hq2]

theorem view_removeKey (t : LTable O V) (k : K) :
    (lRemoveKey h h cls nilV t k).map (fun r => (r.1, view r.2)) =
      (remove (akey cls) h h (view t) k).map (fun r => (r.1.map Prod.snd, r.2)) := by
  unfold lRemoveKey remove
  rw [view_findIndex]
  cases findIndex cls h t.prim k with
  | none => rfl
  | some i =>
    simp only [Option.bind_eq_bind, Option.bind_some]
    rw [show (view t).at_ i = (t.prim.at_ i).map (fun k => (k, t.value i)) from rfl]
    cases hk : t.prim.at_ i with
    | none => rfl
    | some k0 =>
      simp only [Option.map_some]
      unfold rehashObjectsAfter
      have e : view { (valueAtPut { t with prim := primAtPut t.prim i none } i nilV) with
            prim := { (primAtPut t.prim i none) with tally := t.prim.tally - 1 } } =
          { (primAtPut (view t) i none) with tally := t.prim.tally - 1 } := by
        simp only [view, primAtPut, valueAtPut]
        congr 1
        funext q
        simp only [update]
        by_cases hq : q = i
        · simp [hq]
        · simp [hq]
      have e2 := view_rehashAfterLoop (cls := cls) (h := h) nilV t.prim.size
        { (valueAtPut { t with prim := primAtPut t.prim i none } i nilV) with
            prim := { (primAtPut t.prim i none) with tally := t.prim.tally - 1 } } i
      rw [e] at e2
      have e3 : rehashAfterLoop (akey cls) h (primAtPut (view t) i none).size
          { (primAtPut (view t) i none) with tally := (primAtPut (view t) i none).tally - 1 } i =
          _ := e2.symm
      rw [e3]
      have e4 : ∀ x, x = lRehashAfterLoop h cls nilV t.prim.size
        { (valueAtPut { t with prim := primAtPut t.prim i none } i nilV) with
            prim := { (primAtPut t.prim i none) with tally := t.prim.tally - 1 } } i →
          (x.bind fun t' => some (some (t.value i), t')).map (fun r => (r.1, view r.2)) =
          ((x.map view).bind fun t' => some (some (k0, t.value i), t')).map
            (fun r => (r.1.map Prod.snd, r.2)) := by
        intro x _
        cases x <;> rfl
      exact e4 _ rfl

end Verif.HashColl
