import Verif.Scavenge.Steps
import Mathlib.Tactic.ByContra

/-! # Copying, scanning and the whole scavenge keep the invariant -/

namespace Verif.Scavenge

variable {c : Conf} {young : Oop → Bool} {R X : Oop → Prop}

theorem scanned_eq (o : Oop) : scanned c o = (c.obj o).holds := by
  unfold scanned Obj.holds; cases (c.obj o).kind <;> rfl

/-- In a state between two copies, what is not copied was young. -/
theorem Inv.freshYoung {s a l} (h : Inv c young R X s a l []) {o : Oop} (ho : s.loc o = .fresh) :
    young o := by
  by_cases hm : o ∈ a ++ l
  · rcases List.mem_append.1 hm with hm | hm
    · have := h.locA o hm; simp_all
    · have := h.locL o hm; simp_all
  · have := h.locO o hm
    by_contra hy
    simp [hy] at this
    simp_all

theorem copyAn_spec (hc : Closed c young R) (hS : Sound c young) :
    ∀ (f : Nat) (o : Oop) (s : St) (a l : List Oop), Inv c young R X s a l [] → R o →
      s.loc o = .fresh → c.qcap - s.q.alloc < f →
      ∃ s' a' l', copyAn c f o s = some s' ∧ Inv c young R X s' a' l' [] ∧ Later c s s' ∧
        s'.loc o ≠ .fresh := by
  intro f
  induction f with
  | zero => intro o s a l _ _ _ hf; omega
  | succ f ih =>
    intro o s a l h ho hn hf
    obtain ⟨s1, e1, h1, q1, q2, q3, q4, q5, q6, q7⟩ := putQ_spec hc h ho hn
    obtain ⟨s2, a', l', e2, h2, hl2, hm, q8⟩ := putR_spec hc hS h1
    have hL : ∀ g : List Oop, g.length ≤ 1 →
        Later c s { s2 with loc := fun x => if x = o then .copied else s2.loc x
                            grey := s2.grey ++ g } := by
      intro g hg
      obtain ⟨g', hg'⟩ := hl2.grey
      refine ⟨hl2.mourn.trans q3, ⟨g' ++ g, ?_⟩, ?_, ?_, ?_, ?_, ?_⟩
      · simp only; rw [hg', q2, List.append_assoc]
      · intro x hx
        simp only
        split
        · simp
        · exact hl2.loc x (by rw [q1]; exact hx)
      · intro x hx
        simp only
        rw [if_neg (by rintro rfl; simp_all)]
        exact hl2.new x (by rw [q1]; exact hx)
      · simpa [q4] using hl2.scan
      · simp [q8, q5]
      · have h1 := hl2.size
        simp only [List.length_append]
        rw [q2, q5, q6, q8, q5] at h1
        rw [q8, q5]
        omega
    rw [copyAn, e1]
    simp only [e2]
    by_cases hk : (c.obj o).kind = .ephemeron
    · rw [if_pos hk]
      simp only [hk, if_true] at h2
      refine ⟨_, a', l' ++ [o], rfl, h2, hL [o] (by simp), by simp⟩
    · rw [if_neg hk]
      simp only [hk, if_false] at h2
      have hL0 := hL [] (by simp)
      simp only [List.append_nil] at hL0
      generalize hs3 : ({ s2 with loc := fun x => if x = o then .copied else s2.loc x } : St) = s3 at *
      have ho3 : s3.loc o ≠ .fresh := by rw [← hs3]; simp
      have q3' : s3.q.alloc = s.q.alloc + 1 := by rw [← hs3]; simp [q8, q5]
      cases hfd : (children c o).find? (isFresh s3) with
      | none => exact ⟨s3, a', l' ++ [o], rfl, h2, hL0, ho3⟩
      | some w =>
        cases w with
        | none => exact ⟨s3, a', l' ++ [o], rfl, h2, hL0, ho3⟩
        | some o' =>
          have hf' : s3.loc o' = .fresh := by
            have := List.find?_some hfd; simpa [isFresh] using this
          have hmem : some o' ∈ (c.obj o).holds := by
            have := List.mem_of_find?_eq_some hfd
            rw [children, scanned_eq] at this
            exact List.mem_of_mem_tail this
          have hR' := hc.step ho hk hmem (h2.freshYoung hf')
          obtain ⟨s', a'', l'', e3, h3, hl3, -⟩ := ih o' s3 _ _ h2 hR' hf' (by rw [q3']; omega)
          exact ⟨s', a'', l'', e3, h3, hL0.trans hl3, hl3.loc o ho3⟩

theorem maybeCopy_spec (hc : Closed c young R) (hS : Sound c young) {s : St} {a l : List Oop}
    (h : Inv c young R X s a l []) (w : Option Oop) (hw : ∀ o, w = some o → young o → R o) :
    ∃ s' a' l', maybeCopy c s w = some s' ∧ Inv c young R X s' a' l' [] ∧ Later c s s' ∧
      ∀ o, w = some o → s'.loc o ≠ .fresh := by
  cases w with
  | none => exact ⟨s, a, l, rfl, h, .refl s, fun o ho => by cases ho⟩
  | some o =>
    by_cases hf : s.loc o = .fresh
    · obtain ⟨s', a', l', e, h', hl, hn⟩ := copyAn_spec hc hS c.fuel o s a l h
        (hw o rfl (h.freshYoung hf)) hf (by have := hc.fuel; omega)
      exact ⟨s', a', l', by simp [maybeCopy, hf, e], h', hl, by rintro _ ⟨⟩; exact hn⟩
    · exact ⟨s, a, l, by simp [maybeCopy, hf], h, .refl s, by rintro _ ⟨⟩; exact hf⟩

theorem copyRange_spec (hc : Closed c young R) (hS : Sound c young) (ws : List (Option Oop)) :
    ∀ (s : St) (a l : List Oop), Inv c young R X s a l [] →
      (∀ o, some o ∈ ws → young o → R o) →
      ∃ s' a' l', copyRange c ws s = some s' ∧ Inv c young R X s' a' l' [] ∧ Later c s s' ∧
        ∀ o, some o ∈ ws → s'.loc o ≠ .fresh := by
  induction ws with
  | nil => intro s a l h _; exact ⟨s, a, l, rfl, h, .refl s, by simp⟩
  | cons w ws ih =>
    intro s a l h hw
    obtain ⟨s1, a1, l1, e1, h1, hl1, n1⟩ := maybeCopy_spec hc hS h w
      (fun o ho hy => hw o (by simp [ho]) hy)
    obtain ⟨s2, a2, l2, e2, h2, hl2, n2⟩ := ih s1 a1 l1 h1 (fun o ho => hw o (by simp [ho]))
    refine ⟨s2, a2, l2, by rw [copyRange, e1]; exact e2, h2, hl1.trans hl2, ?_⟩
    intro o ho
    rcases List.mem_cons.1 ho with ho | ho
    · exact hl2.loc o (n1 o ho.symm)
    · exact n2 o ho

theorem cheney_spec (hc : Closed c young R) (hS : Sound c young) :
    ∀ (f : Nat) (s : St) (a l : List Oop), Inv c young R X s a l [] →
      c.qcap - s.scanAt < f →
      ∃ s' a' l', cheney c f s = some s' ∧ Inv c young R X s' a' l' [] ∧ Later c s s' ∧
        s'.scanAt = s'.q.alloc := by
  intro f
  induction f with
  | zero => intro s a l _ hf; omega
  | succ f ih =>
    intro s a l h hf
    unfold cheney
    by_cases h0 : s.scanAt = s.q.alloc
    · rw [if_pos h0]; exact ⟨s, a, l, rfl, h, .refl s, h0⟩
    · rw [if_neg h0]
      have hlen := h.length hc
      have halloc := h.alloc
      have htop := h.top
      have hscan := h.scan
      simp only [List.append_nil] at hlen halloc htop
      have hlt : s.scanAt < (a ++ l).length := by omega
      have hntop : ¬ s.scanAt ≥ s.q.top := by omega
      simp only [if_neg hntop, if_neg h0]
      obtain ⟨o, ho⟩ : ∃ o, (a ++ l)[s.scanAt]? = some o := ⟨_, List.getElem?_eq_getElem hlt⟩
      have hqo : s.qmem s.scanAt = o := h.mem _ _ (by simpa using ho)
      have hom : o ∈ a ++ l := List.mem_of_getElem? ho
      rw [hqo]
      have hi : Inv c young R (fun p => X p ∨ p = o ∧ (c.obj o).kind ≠ .ephemeron)
          { s with current := some o, scanAt := s.scanAt + 1 } a l [] :=
        { h with
          scan := hlt
          pend := by
            intro p hp
            rcases h.pend p hp with h' | ⟨h', hk⟩ | h' | h'
            · exact .inl h'
            · rw [List.drop_eq_getElem_cons hlt] at h'
              rcases List.mem_cons.1 h' with h' | h'
              · have : p = o := by
                  rw [List.getElem?_eq_getElem hlt] at ho; cases ho; exact h'
                exact .inr (.inr (.inr (.inr ⟨this, this ▸ hk⟩)))
              · exact .inr (.inl ⟨h', hk⟩)
            · exact .inr (.inr (.inl h'))
            · exact .inr (.inr (.inr (.inl h'))) }
      have hl : Later c s { s with current := some o, scanAt := s.scanAt + 1 } :=
        ⟨rfl, ⟨[], by simp⟩, fun _ h => h, fun _ h => h, by simp, Nat.le_refl _, Nat.le_refl _⟩
      by_cases hk : (c.obj o).kind = .ephemeron
      · rw [if_pos hk]
        obtain ⟨s', a', l', e, h', hl', hq⟩ := ih _ a l
          (hi.weaken (X' := X) (by rintro p (hp | ⟨-, hp⟩); exact .inr hp; exact absurd hk hp))
          (by simp only; omega)
        exact ⟨s', a', l', e, h', hl.trans hl', hq⟩
      · rw [if_neg hk]
        have hRo : R o := h.reach o (by simpa using hom)
        obtain ⟨s1, a1, l1, e1, h1, hl1, n1⟩ := copyRange_spec hc hS (scanned c o) _ a l hi
          (fun x hx hy => hc.step hRo hk (by rwa [← scanned_eq]) hy)
        have hd : Done c s1 o := fun x hx => n1 x (by rwa [scanned_eq])
        have hs1 := hl1.scan
        simp only at hs1
        obtain ⟨s', a', l', e, h', hl', hq⟩ := ih s1 a1 l1
          (h1.weaken (X' := X) (by
            rintro p (hp | ⟨rfl, -⟩)
            · exact .inr hp
            · exact .inl hd))
          (by omega)
        refine ⟨s', a', l', by simp only [e1]; exact e, h', (hl.trans hl1).trans hl', hq⟩

end Verif.Scavenge
