import Verif.Scavenge.Inv

/-! # Every step of a scavenge keeps the invariant -/

namespace Verif.Scavenge

variable {c : Conf} {young : Oop → Bool} {R X : Oop → Prop}

theorem Inv.posL {s a l t} (hc : Closed c young R) (hs : ∀ o, young o → 0 < (c.obj o).size)
    (h : Inv c young R X s a l t) : ∀ o ∈ l, 0 < (c.obj o).size :=
  fun o ho => hs o (hc.isYoung (h.reach o (by simp [ho])))

theorem Inv.length {s a l t} (hc : Closed c young R) (h : Inv c young R X s a l t) :
    (a ++ l ++ t).length ≤ c.qcap := hc.count _ h.nodup h.reach

/-- The loop that makes room in the survivor space ends, and there is room then. -/
theorem roomR_spec (hc : Closed c young R) (hs : ∀ o, young o → 0 < (c.obj o).size)
    {o : Oop} (hfit : (c.obj o).size ≤ c.rcap) :
    ∀ (f : Nat) (s : St) (a l : List Oop), Inv c young R X s a l [o] →
      l.length + (if s.r.alloc = 0 then 0 else 1) < f →
      ∃ s' a' l', roomR c (c.obj o).size f s = some s' ∧ Inv c young R X s' a' l' [o] ∧
        Later c s s' ∧ a' ++ l' = a ++ l ∧ s'.q.alloc = s.q.alloc ∧
        ¬ (s'.r.split ∧ s'.r.alloc + (c.obj o).size > s'.r.tenure) ∧
        ¬ s'.r.alloc + (c.obj o).size > c.rcap := by
  intro f
  induction f with
  | zero => intro s a l _ hf; omega
  | succ f ih =>
    intro s a l h hf
    unfold roomR
    by_cases h1 : s.r.split ∧ s.r.alloc + (c.obj o).size > s.r.tenure
    · rw [if_pos h1]
      obtain ⟨x, l', rfl⟩ := List.exists_cons_of_ne_nil (h.ring.nonempty h1.1)
      obtain ⟨hi, hl, hr, hq⟩ := h.tenureOne hc hs (by simp) h1.1
      have halloc : (tenureOne c s).r.alloc = s.r.alloc := by
        rw [hr, Ring.get]; split <;> rfl
      obtain ⟨s', a', m, e, hi', hl', hm, hq', hr'⟩ := ih _ _ _ hi (by
        rw [halloc]; simp at hf ⊢; omega)
      exact ⟨s', a', m, e, hi', hl.trans hl', by rw [hm]; simp, hq'.trans hq, hr'⟩
    · rw [if_neg h1]
      by_cases h2 : s.r.alloc + (c.obj o).size > c.rcap
      · rw [if_pos h2]
        obtain ⟨hw, hw0, hnsp⟩ := h.ring.wrap (h.posL hc hs) hfit h1 h2
        have hz : s.r.alloc ≠ 0 := by omega
        have hnf : ¬ FitsIn c.obj R c.rcap := by
          intro hF
          obtain ⟨-, ht, rfl, -⟩ := h.fits hF
          have := hF (l ++ [o]) (by simpa using h.nodup) (by simpa using h.reach)
          cases h.ring with
          | whole e1 e2 =>
            simp only [List.map_append, List.sum_append, total] at this e2
            simp at this
            omega
          | @wrapped u v hu e1 e2 =>
            have hp := total_pos (sz := fun o => (c.obj o).size) (l := u)
              (fun o ho => h.posL hc hs o (by simp [ho])) hu
            have : s.r.top = s.r.alloc := Decidable.not_not.1 hnsp
            have := hF (u ++ v) (by have := h.nodup; simp [List.nodup_append] at this ⊢; tauto)
              (fun o ho => h.reach o (by simp at ho ⊢; tauto))
            simp [total] at *
            omega
        have hi : Inv c young R X { s with r := s.r.wrap } a l [o] :=
          { h with ring := hw, fits := fun hf => absurd hf hnf }
        obtain ⟨s', a', m, e, hi', hl', hm⟩ := ih { s with r := s.r.wrap } _ _ hi (by
          simp [hw0]; simp [hz] at hf; omega)
        have hl : Later c s { s with r := s.r.wrap } :=
          ⟨rfl, ⟨[], by simp⟩, fun _ h => h, fun _ h => h, Nat.le_refl _, Nat.le_refl _,
            Nat.le_refl _⟩
        exact ⟨s', a', m, e, hi', hl.trans hl', hm⟩
      · rw [if_neg h2]
        exact ⟨s, a, l, rfl, h, .refl s, rfl, rfl, h1, h2⟩

/-- There is room in the tenuring queue. -/
theorem putQ_spec (hc : Closed c young R) {s : St} {a l : List Oop} {o : Oop}
    (h : Inv c young R X s a l []) (ho : R o) (hn : s.loc o = .fresh) :
    ∃ s', putQ c s o = some s' ∧ Inv c young R X s' a l [o] ∧ s'.loc = s.loc ∧
      s'.grey = s.grey ∧ s'.mourn = s.mourn ∧ s'.scanAt = s.scanAt ∧
      s'.q.alloc = s.q.alloc + 1 ∧ s'.q.tenure = s.q.tenure ∧ s.q.alloc + 1 ≤ c.qcap := by
  have hnot : o ∉ a ++ l := by
    intro hm
    rcases List.mem_append.1 hm with hm | hm
    · have := h.locA o hm; simp_all
    · have := h.locL o hm; simp_all
  have halloc := h.alloc
  simp only [List.append_nil] at halloc
  have hnd : (a ++ l ++ [o]).Nodup := by
    have := h.nodup
    simp only [List.append_nil] at this
    rw [List.nodup_append]
    exact ⟨this, by simp, by rintro x hx y hy rfl; simp at hy; subst hy; exact hnot hx⟩
  have hre : ∀ x ∈ a ++ l ++ [o], R x := by
    intro x hx
    rcases List.mem_append.1 hx with hx | hx
    · exact h.reach x (by simpa using hx)
    · simp at hx; exact hx ▸ ho
  have hlen := hc.count _ hnd hre
  have hnsq : ¬ s.q.split := by unfold Ring.split; rw [h.top, h.alloc]; simp
  have hroom : roomQ c c.fuel s = some s := by
    have := hc.fuel
    obtain ⟨f, hf⟩ : ∃ f, c.fuel = f + 1 := ⟨c.fuel - 1, by omega⟩
    rw [hf, roomQ, if_neg (fun h => hnsq h.1), if_neg]
    rw [halloc]; simp at hlen ⊢; omega
  have hp : putQ c s o = some { s with
      qmem := fun a => if a = s.q.alloc then o else s.qmem a
      q := s.q.bump 1 } := by rw [putQ, hroom]
  refine ⟨_, hp, ?_, rfl, rfl, rfl, rfl, rfl, rfl, by
    rw [halloc]; simpa [Nat.add_assoc] using hlen⟩
  refine ⟨?_, ?_, ?_, ?_, h.scan, hnd, hre, h.locA, h.locL, h.locO, h.ring, h.grey, h.pend,
    fun hf => h.fits hf⟩
  · simp [Ring.bump, halloc, Nat.add_assoc]
  · simp [Ring.bump, hnsq, halloc, Nat.add_assoc]
  · simpa [Ring.bump] using h.ten
  · intro i x hx
    show (if i = s.q.alloc then o else s.qmem i) = x
    rw [halloc]
    split
    · rename_i e
      subst e
      rw [List.getElem?_append_right (by simp)] at hx
      simpa using hx
    · rename_i e
      apply h.mem
      rw [List.append_nil]
      rw [List.getElem?_append] at hx
      split at hx
      · exact hx
      · rename_i h'
        rw [List.getElem?_eq_none] at hx
        · cases hx
        · simp at *; omega

/-- The object is put behind the survivors. -/
theorem putR_spec (hc : Closed c young R) (hS : Sound c young) {s : St} {a l : List Oop} {o : Oop}
    (h : Inv c young R X s a l [o]) :
    ∃ s' a' l', putR c s o = some s' ∧
      Inv c young R X { s' with
        loc := fun x => if x = o then .copied else s'.loc x
        grey := if (c.obj o).kind = .ephemeron then s'.grey ++ [o] else s'.grey } a' (l' ++ [o]) [] ∧
      Later c s s' ∧ a' ++ l' = a ++ l ∧ s'.q.alloc = s.q.alloc := by
  have hRo : R o := h.reach o (by simp)
  have hyo := hc.isYoung hRo
  obtain ⟨s', a', l', e, hi, hl, hm, hq, h1, h2⟩ := roomR_spec hc hS.pos (hS.small o hyo) c.fuel s a l h
    (by have h1 := h.length hc; have h2 := hc.fuel; simp at h1; split <;> omega)
  have hp : putR c s o = some { s' with
      addr := fun x => if x = o then s'.r.alloc else s'.addr x
      r := s'.r.bump (c.obj o).size } := by rw [putR, e]
  refine ⟨_, a', l', hp, ?_, ?_, hm, hq⟩
  · have hnd := hi.nodup
    have hnot : o ∉ a' ++ l' := by
      simp only [List.nodup_append] at hnd
      intro hx
      exact hnd.2.2 o hx o (by simp) rfl
    have hla : a' ++ (l' ++ [o]) ++ [] = a' ++ l' ++ [o] := by simp
    have hla' : a' ++ (l' ++ [o]) = a' ++ l' ++ [o] := by simp
    have hdone : ∀ p, Done c s' p → ∀ x, some x ∈ (c.obj p).holds →
        (if x = o then Loc.copied else s'.loc x) ≠ .fresh := by
      intro p hp x hx; split
      · simp
      · exact hp x hx
    have hring := hi.ring.bump (x := o) (hi.posL hc hS.pos) (fun h => hnot (by simp [h]))
      (hS.pos o hyo) h1 h2
    refine ⟨?_, ?_, hi.ten, ?_, ?_, ?_, ?_, ?_, ?_, ?_, hring, ?_, ?_, ?_⟩
    · rw [hla]; exact hi.alloc
    · rw [hla]; exact hi.top
    · rw [hla]; exact hi.mem
    · rw [hla', List.length_append]; exact Nat.le_trans hi.scan (by omega)
    · rw [hla]; exact hnd
    · rw [hla]; exact hi.reach
    · intro x hx
      show (if x = o then Loc.copied else s'.loc x) = _
      rw [if_neg (by rintro rfl; exact hnot (by simp [hx]))]
      exact hi.locA x hx
    · intro x hx
      show (if x = o then Loc.copied else s'.loc x) = _
      split
      · rfl
      · rename_i hne
        exact hi.locL x (by simpa [hne] using hx)
    · intro x hx
      show (if x = o then Loc.copied else s'.loc x) = _
      rw [hla'] at hx
      simp only [List.mem_append, List.mem_singleton, not_or] at hx
      rw [if_neg hx.2]
      exact hi.locO x (by simpa using hx.1)
    · intro x hx
      rw [hla']
      simp only at hx
      split at hx
      · rcases List.mem_append.1 hx with hx | hx
        · exact List.mem_append_left _ (hi.grey x hx)
        · exact List.mem_append_right _ hx
      · exact List.mem_append_left _ (hi.grey x hx)
    · intro x hx
      rw [hla'] at hx ⊢
      rcases List.mem_append.1 hx with hx | hx
      · rcases hi.pend x hx with h | ⟨h, h'⟩ | h | h
        · exact .inl (hdone x h)
        · refine .inr (.inl ⟨?_, h'⟩)
          show x ∈ List.drop s'.scanAt _
          rw [List.drop_append_of_le_length hi.scan]
          exact List.mem_append_left _ h
        · refine .inr (.inr (.inl ?_))
          simp only
          split
          · exact List.mem_append_left _ h
          · exact h
        · exact .inr (.inr (.inr h))
      · simp at hx
        subst hx
        by_cases hk : (c.obj x).kind = .ephemeron
        · refine .inr (.inr (.inl ?_)); simp [hk]
        · refine .inr (.inl ⟨?_, hk⟩)
          show x ∈ List.drop s'.scanAt _
          rw [List.drop_append_of_le_length hi.scan]
          simp
    · intro hf
      obtain ⟨f1, f2, f3, f4⟩ := hi.fits hf
      refine ⟨?_, by simpa [Ring.bump] using f2, f3, ?_⟩
      · simp only [Ring.bump]
        show ¬ (_ ≠ _)
        simp [f1]
      · intro x hx
        simp only at hx
        split at hx
        · rcases List.mem_append.1 hx with hx | hx
          · exact f4 x hx
          · simp at hx; subst hx; assumption
        · exact f4 x hx
  · exact ⟨hl.mourn, hl.grey, hl.loc, hl.new, hl.scan, hl.alloc, hl.size⟩

end Verif.Scavenge
