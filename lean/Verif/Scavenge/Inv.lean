import Verif.Scavenge.Ring
import Mathlib.Tactic.Tauto


/-! # The invariant of a scavenge whose survivors fit in the tenuring queue -/

namespace Verif.Scavenge

variable {c : Conf} {young : Oop → Bool} {R : Oop → Prop}

/-- Every object `o` keeps alive has been copied. -/
def Done (c : Conf) (s : St) (o : Oop) : Prop :=
  ∀ x, some x ∈ (c.obj o).holds → s.loc x ≠ .fresh

/-- What the proofs need to know about the set `R` of objects that may be copied. -/
structure Closed (c : Conf) (young : Oop → Bool) (R : Oop → Prop) : Prop where
  isYoung : ∀ {o}, R o → young o
  step : ∀ {p o}, R p → (c.obj p).kind ≠ .ephemeron → some o ∈ (c.obj p).holds → young o → R o
  count : AtMost R c.qcap
  fuel : 3 * c.qcap + 4 ≤ c.fuel

/-- The state of a scavenge.  `a` have been tenured, `l` are in the survivor space, `t` (at most one
object) is in the tenuring queue only, all in the order in which they were copied.  The objects in
`X` may still hold objects that have not been copied, though they are not waiting to be scanned. -/
structure Inv (c : Conf) (young : Oop → Bool) (R : Oop → Prop) (X : Oop → Prop) (s : St)
    (a l t : List Oop) : Prop where
  alloc : s.q.alloc = (a ++ l ++ t).length
  top : s.q.top = (a ++ l ++ t).length
  ten : s.q.tenure = a.length
  mem : ∀ i o, (a ++ l ++ t)[i]? = some o → s.qmem i = o
  scan : s.scanAt ≤ (a ++ l).length
  nodup : (a ++ l ++ t).Nodup
  reach : ∀ o ∈ a ++ l ++ t, R o
  locA : ∀ o ∈ a, s.loc o = .old
  locL : ∀ o ∈ l, s.loc o = .copied
  locO : ∀ o, o ∉ a ++ l → s.loc o = if young o then .fresh else .old
  ring : Holds (fun o => (c.obj o).size) s.addr c.rcap s.r l
  grey : ∀ o ∈ s.grey, o ∈ a ++ l
  pend : ∀ o ∈ a ++ l, Done c s o ∨ (o ∈ (a ++ l).drop s.scanAt ∧ (c.obj o).kind ≠ .ephemeron) ∨
    o ∈ s.grey ∨ X o
  fits : FitsIn c.obj R c.rcap → ¬ s.r.split ∧ s.r.tenure = 0 ∧ a = [] ∧
    ∀ o ∈ s.grey, (c.obj o).kind = .ephemeron

/-- What never gets undone. -/
structure Later (c : Conf) (s s' : St) : Prop where
  mourn : s'.mourn = s.mourn
  grey : ∃ g, s'.grey = s.grey ++ g
  loc : ∀ o, s.loc o ≠ .fresh → s'.loc o ≠ .fresh
  new : ∀ o, s.loc o = .old → s'.loc o = .old
  scan : s.scanAt ≤ s'.scanAt
  alloc : s.q.alloc ≤ s'.q.alloc
  size : s'.grey.length + 3 * (c.qcap - s'.q.alloc) + (s'.q.alloc - s'.q.tenure) ≤
    s.grey.length + 3 * (c.qcap - s.q.alloc) + (s.q.alloc - s.q.tenure)

theorem Later.refl (s : St) : Later c s s :=
  ⟨rfl, ⟨[], by simp⟩, fun _ h => h, fun _ h => h, Nat.le_refl _, Nat.le_refl _, Nat.le_refl _⟩

theorem Later.trans {s s' s'' : St} (h : Later c s s') (h' : Later c s' s'') : Later c s s'' := by
  obtain ⟨g, hg⟩ := h.grey
  obtain ⟨g', hg'⟩ := h'.grey
  exact ⟨h'.mourn.trans h.mourn, ⟨g ++ g', by rw [hg', hg, List.append_assoc]⟩,
    fun o ho => h'.loc o (h.loc o ho), fun o ho => h'.new o (h.new o ho), Nat.le_trans h.scan h'.scan,
    Nat.le_trans h.alloc h'.alloc, Nat.le_trans h'.size h.size⟩

theorem Done.later {s s' : St} (h : Later c s s') {o : Oop} (hd : Done c s o) : Done c s' o :=
  fun x hx => h.loc x (hd x hx)

theorem Inv.weaken {X X' : Oop → Prop} {s a l t} (h : Inv c young R X s a l t)
    (hX : ∀ o, X o → Done c s o ∨ X' o) : Inv c young R X' s a l t :=
  { h with
    pend := fun o ho => by
      rcases h.pend o ho with h | h | h | h
      · exact .inl h
      · exact .inr (.inl h)
      · exact .inr (.inr (.inl h))
      · rcases hX o h with h | h
        · exact .inl h
        · exact .inr (.inr (.inr h)) }

/-- Making room tenures the oldest survivor. -/
theorem Inv.tenureOne {X : Oop → Prop} {s a x l t} (hc : Closed c young R)
    (hs : ∀ o, young o → 0 < (c.obj o).size)
    (h : Inv c young R X s a (x :: l) t) (ht : t ≠ []) (hsp : s.r.split) :
    Inv c young R X (tenureOne c s) (a ++ [x]) l t ∧ Later c s (tenureOne c s) ∧
      (Verif.Scavenge.tenureOne c s).r = s.r.get (c.obj x).size ∧
      (Verif.Scavenge.tenureOne c s).q.alloc = s.q.alloc := by
  have hx : s.qmem s.q.tenure = x := by
    apply h.mem; rw [h.ten]; simp
  have hlist : a ++ [x] ++ l ++ t = a ++ (x :: l) ++ t := by simp
  have hlist' : a ++ [x] ++ l = a ++ (x :: l) := by simp
  have htl : 0 < t.length := List.length_pos_iff.2 ht
  have hq : s.q.get 1 = { s.q with tenure := a.length + 1 } := by
    rw [Ring.get, if_neg]
    · simp [h.ten]
    · have := h.top; have := h.ten; simp at *; omega
  have hpos : ∀ o ∈ x :: l, 0 < (c.obj o).size :=
    fun o ho => hs o (hc.isYoung (h.reach o (by simp at ho ⊢; tauto)))
  have hring := h.ring.get hpos hsp
  have hnx : x ∉ l := by
    have := h.nodup; simp [List.nodup_append] at this; tauto
  have hxa : ∀ o ∈ a, o ≠ x := by
    have := h.nodup; simp [List.nodup_append] at this; intro o ho; exact (this.2.2 o ho).1
  have hnf : ¬ FitsIn c.obj R c.rcap := fun hf => (h.fits hf).1 hsp
  -- the new places
  have locA : ∀ o ∈ a ++ [x], (if o = x then Loc.old else s.loc o) = .old := by
    intro o ho
    split
    · rfl
    · rename_i hne; simp [hne] at ho; exact h.locA o ho
  have locL : ∀ o ∈ l, (if o = x then Loc.old else s.loc o) = .copied := by
    intro o ho
    rw [if_neg (by rintro rfl; exact hnx ho)]
    exact h.locL o (by simp [ho])
  have locO : ∀ o, o ∉ a ++ [x] ++ l → (if o = x then Loc.old else s.loc o) =
      if young o then .fresh else .old := by
    intro o ho
    rw [if_neg (by rintro rfl; simp at ho)]
    exact h.locO o (by rwa [← hlist'])
  have hsub : ∀ o, s.loc o ≠ .fresh → (if o = x then Loc.old else s.loc o) ≠ .fresh := by
    intro o ho; split <;> simp_all
  have hnew : ∀ o, s.loc o = .old → (if o = x then Loc.old else s.loc o) = .old := by
    intro o ho; split <;> simp_all
  have hdone : ∀ o, Done c s o → Done c (tenureOop s x) o := fun o hd y hy => hsub y (hd y hy)
  have halloc := h.alloc
  have hten := h.ten
  have hscan := h.scan
  -- the two shapes of the new state
  have key : ∀ (p : Nat) (g : List Oop), s.scanAt ≤ p → p ≤ (a ++ (x :: l)).length →
      (p = s.scanAt ∧ g = [] ∨ s.scanAt = a.length ∧ p = s.scanAt + 1 ∧ g = [x]) →
      let s' : St := { tenureOop s x with
        scanAt := p, grey := s.grey ++ g, q := s.q.get 1, r := s.r.get (c.obj x).size }
      Inv c young R X s' (a ++ [x]) l t ∧ Later c s s' := by
    intro p g hp hp' hg s'
    refine ⟨?_, ?_⟩
    · refine ⟨?_, ?_, ?_, ?_, ?_, ?_, ?_, locA, locL, locO, hring, ?_, ?_, fun hf => absurd hf hnf⟩
      · rw [hlist]; simpa [s', hq] using h.alloc
      · rw [hlist]; simpa [s', hq] using h.top
      · simp [s', hq]
      · rw [hlist]; exact h.mem
      · rw [hlist']; exact hp'
      · rw [hlist]; exact h.nodup
      · rw [hlist]; exact h.reach
      · intro o ho
        rw [hlist']
        rcases List.mem_append.1 ho with ho | ho
        · exact h.grey o ho
        · rcases hg with ⟨-, rfl⟩ | ⟨-, -, rfl⟩
          · cases ho
          · simp at ho; simp [ho]
      · intro o ho
        rw [hlist'] at ho ⊢
        rcases h.pend o ho with h1 | ⟨h1, h2⟩ | h1 | h1
        · exact .inl (hdone o h1)
        · rcases hg with ⟨rfl, rfl⟩ | ⟨e, rfl, rfl⟩
          · exact .inr (.inl ⟨h1, h2⟩)
          · rw [e] at h1
            simp at h1
            rcases h1 with rfl | h1
            · exact .inr (.inr (.inl (by simp [s'])))
            · refine .inr (.inl ⟨?_, h2⟩)
              show o ∈ (a ++ x :: l).drop (s.scanAt + 1)
              rw [e]
              rw [List.drop_append]
              simpa using Or.inr h1
        · exact .inr (.inr (.inl (by simp [s', h1])))
        · exact .inr (.inr (.inr h1))
    · refine ⟨rfl, ⟨g, rfl⟩, hsub, hnew, hp, ?_, ?_⟩
      · simp [s', hq]
      · have : g.length ≤ 1 := by rcases hg with ⟨-, rfl⟩ | ⟨-, -, rfl⟩ <;> simp
        simp [s', hq, h.ten]
        simp at halloc
        omega
  have hnsq : ¬ s.q.split := by unfold Ring.split; rw [h.top, h.alloc]; simp
  unfold Verif.Scavenge.tenureOne
  simp only [hx]
  by_cases h1 : s.current = some x
  · have := key s.scanAt [] (Nat.le_refl _) hscan (.inl ⟨rfl, rfl⟩)
    simp only [h1, if_true, List.append_nil] at this ⊢
    exact ⟨this.1, this.2, rfl, by simp [tenureOop, hq]⟩
  · by_cases h2 : s.scanAt = s.q.tenure
    · have := key (s.scanAt + 1) [x] (by omega) (by rw [h2, hten]; simp)
        (.inr ⟨h2.trans hten, rfl, rfl⟩)
      simp only [h1, h2, if_false, if_true, hnsq, and_false] at this ⊢
      exact ⟨this.1, this.2, rfl, by simp [tenureOop, hq]⟩
    · have := key s.scanAt [] (Nat.le_refl _) hscan (.inl ⟨rfl, rfl⟩)
      simp only [h1, h2, if_false, List.append_nil] at this ⊢
      exact ⟨this.1, this.2, rfl, by simp [tenureOop, hq]⟩

end Verif.Scavenge
