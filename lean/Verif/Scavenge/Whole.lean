import Verif.Scavenge.Greys

/-! # The whole scavenge -/

namespace Verif.Scavenge

variable {c : Conf} {young : Oop → Bool} {R X : Oop → Prop}

/-- In a state between two copies, what is not old was young. -/
theorem Inv.newYoung {s a l} (hc : Closed c young R) (h : Inv c young R X s a l []) {o : Oop}
    (ho : s.loc o ≠ .old) : young o := by
  by_cases hm : o ∈ a ++ l
  · exact hc.isYoung (h.reach o (by simpa using hm))
  · have := h.locO o hm
    by_contra hy
    simp [hy] at this
    exact ho this

theorem scanPage_spec (hc : Closed c young R) (hS : Sound c young) (ws : List (Option Oop)) :
    ∀ (s : St) (a l : List Oop), Inv c young R X s a l [] →
      (∀ o, some o ∈ ws → young o → R o) →
      ∃ s' k a' l', scanPages.scanPage c ws s = some (s', k) ∧ Inv c young R X s' a' l' [] ∧
        Later c s s' ∧ (∀ o, some o ∈ ws → s'.loc o ≠ .fresh) ∧
        (k = false → ∀ o, some o ∈ ws → s'.loc o = .old) ∧
        (k = true → ∃ o, some o ∈ ws ∧ young o) := by
  induction ws with
  | nil => intro s a l h _; exact ⟨s, false, a, l, rfl, h, .refl s, by simp, by simp, by simp⟩
  | cons w ws ih =>
    intro s a l h hw
    cases w with
    | none =>
      obtain ⟨s', k, a', l', e, h', hl, n, k1, k2⟩ := ih s a l h (fun o ho => hw o (by simp [ho]))
      refine ⟨s', k, a', l', by rw [scanPages.scanPage, e], h', hl, ?_, ?_, ?_⟩
      · intro o ho; exact n o (by simpa using ho)
      · intro hk o ho; exact k1 hk o (by simpa using ho)
      · intro hk; obtain ⟨o, ho, hy⟩ := k2 hk; exact ⟨o, by simp [ho], hy⟩
    | some o =>
      by_cases hold : s.loc o = .old
      · obtain ⟨s', k, a', l', e, h', hl, n, k1, k2⟩ := ih s a l h (fun o ho => hw o (by simp [ho]))
        have ho' := hl.new o hold
        refine ⟨s', k, a', l', by rw [scanPages.scanPage, if_pos hold, e], h', hl, ?_, ?_, ?_⟩
        · intro x hx
          rcases List.mem_cons.1 hx with hx | hx
          · cases hx; simp [ho']
          · exact n x hx
        · intro hk x hx
          rcases List.mem_cons.1 hx with hx | hx
          · cases hx; exact ho'
          · exact k1 hk x hx
        · intro hk; obtain ⟨x, hx, hy⟩ := k2 hk; exact ⟨x, by simp [hx], hy⟩
      · obtain ⟨s1, a1, l1, e1, h1, hl1, n1⟩ := maybeCopy_spec hc hS h (some o)
          (by rintro _ ⟨⟩ hy; exact hw o (by simp) hy)
        obtain ⟨s', k, a', l', e, h', hl, n, k1, k2⟩ := ih s1 a1 l1 h1
          (fun o ho => hw o (by simp [ho]))
        refine ⟨s', true, a', l', by rw [scanPages.scanPage, if_neg hold, e1]; simp only [e], h',
          hl1.trans hl, ?_, by simp, ?_⟩
        · intro x hx
          rcases List.mem_cons.1 hx with hx | hx
          · cases hx; exact hl.loc o (n1 o rfl)
          · exact n x hx
        · intro _; exact ⟨o, by simp, h.newYoung hc hold⟩

theorem scanPages_spec (hc : Closed c young R) (hS : Sound c young)
    (ps : List (List (Option Oop))) :
    ∀ (s : St) (a l : List Oop), Inv c young R X s a l [] →
      (∀ o, some o ∈ ps.flatten → young o → R o) →
      ∃ s' ks a' l', scanPages c ps s = some (s', ks) ∧ Inv c young R X s' a' l' [] ∧
        Later c s s' ∧ (∀ o, some o ∈ ps.flatten → s'.loc o ≠ .fresh) ∧
        ks.length = ps.length ∧
        (∀ (i : Nat) p, ps[i]? = some p → ks[i]? = some false → ∀ o, some o ∈ p → s'.loc o = .old) ∧
        (∀ (i : Nat) p, ps[i]? = some p → ks[i]? = some true → ∃ o, some o ∈ p ∧ young o) := by
  induction ps with
  | nil =>
    intro s a l h _
    exact ⟨s, [], a, l, rfl, h, .refl s, by simp, rfl, by simp, by simp⟩
  | cons p ps ih =>
    intro s a l h hw
    obtain ⟨s1, k, a1, l1, e1, h1, hl1, n1, k1, k2⟩ := scanPage_spec hc hS p s a l h
      (fun o ho => hw o (by simp at ho ⊢; exact .inl ho))
    obtain ⟨s2, a2, l2, e2, h2, hl2, -⟩ := cheney_spec hc hS c.fuel s1 a1 l1 h1
      (by have := hc.fuel; omega)
    obtain ⟨s', ks, a', l', e, h', hl, n, hk, m1, m2⟩ := ih s2 a2 l2 h2
      (fun o ho => hw o (by simp only [List.flatten_cons, List.mem_append]; exact .inr ho))
    refine ⟨s', k :: ks, a', l', by rw [scanPages, e1]; simp only [e2, e], h',
      (hl1.trans hl2).trans hl, ?_, by simp [hk], ?_, ?_⟩
    · intro o ho
      simp only [List.flatten_cons, List.mem_append] at ho
      rcases ho with ho | ho
      · exact hl.loc o (hl2.loc o (n1 o ho))
      · exact n o ho
    · intro i q hi hki o ho
      cases i with
      | zero =>
        simp at hi hki
        subst hi
        exact hl.new o (hl2.new o (k1 hki o ho))
      | succ i => exact m1 i q (by simpa using hi) (by simpa using hki) o ho
    · intro i q hi hki
      cases i with
      | zero =>
        simp at hi hki
        subst hi
        exact k2 hki
      | succ i => exact m2 i q (by simpa using hi) (by simpa using hki)

theorem copyAndScan_spec (hc : Closed c young R) (hS : Sound c young) (ws : List (Option Oop))
    {s : St} {a l : List Oop} (h : Inv c young R X s a l [])
    (hw : ∀ o, some o ∈ ws → young o → R o) :
    ∃ s' a' l', copyAndScan c ws s = some s' ∧ Inv c young R X s' a' l' [] ∧ Later c s s' ∧
      (∀ o, some o ∈ ws → s'.loc o ≠ .fresh) ∧ s'.scanAt = s'.q.alloc := by
  obtain ⟨s1, a1, l1, e1, h1, hl1, n1⟩ := copyRange_spec hc hS ws s a l h hw
  obtain ⟨s2, a2, l2, e2, h2, hl2, hq⟩ := cheney_spec hc hS c.fuel s1 a1 l1 h1
    (by have := hc.fuel; omega)
  exact ⟨s2, a2, l2, by rw [copyAndScan, e1]; exact e2, h2, hl1.trans hl2,
    fun o ho => hl2.loc o (n1 o ho), hq⟩

theorem start_inv (stale : Option Oop) (junk : Nat → Oop) :
    Inv c young R (fun _ => False) (start young stale junk) [] [] [] where
  alloc := rfl
  top := rfl
  ten := rfl
  mem := by simp
  scan := by simp [start]
  nodup := by simp
  reach := by simp
  locA := by simp
  locL := by simp
  locO := fun _ _ => rfl
  ring := .whole rfl rfl (Nat.zero_le _) (fun _ => rfl) trivial
  grey := by simp [start]
  pend := by simp
  fits := fun _ => ⟨fun h => h rfl, rfl, rfl, by simp [start]⟩

/-- Everything the theorems need about a scavenge.  The scavenge ends; the state is described by
the invariant for what can be reached, and, unless `e` is mourned, also for what can be reached
without the key of `e`. -/
theorem copyOops_spec (rt : Roots) (stale : Option Oop) (junk : Nat → Oop) (e : Oop)
    (hS : Sound c young) (hn : AtMost (Reach c.obj young rt.words) c.qcap)
    (hf : 3 * c.qcap + 4 ≤ c.fuel) :
    ∃ s ks a l, copyOops c rt (start young stale junk) = some (s, ks) ∧
      (Inv c young (Avoid c.obj young rt.words e) (fun _ => False) s a l [] ∨
        Inv c young (Reach c.obj young rt.words) (fun _ => False) s a l [] ∧ e ∈ s.mourn) ∧
      s.scanAt = s.q.alloc ∧ s.grey = [] ∧
      (∀ o, some o ∈ rt.words → s.loc o ≠ .fresh) ∧
      Mourned c young (Reach c.obj young rt.words) (Strong c.obj young rt.words) s ∧
      ks.length = rt.pages.length ∧
      (∀ (i : Nat) p, rt.pages[i]? = some p → ks[i]? = some false →
        ∀ o, some o ∈ p → s.loc o = .old) ∧
      (∀ (i : Nat) p, rt.pages[i]? = some p → ks[i]? = some true → ∃ o, some o ∈ p ∧ young o) := by
  have hsub : ∀ o, Avoid c.obj young rt.words e o → Reach c.obj young rt.words o := by
    intro o ho
    induction ho with
    | root h1 h2 => exact .root h1 h2
    | step _ _ h1 h2 ih => exact .step ih h1 h2
    | @value o h1 hk h2 h3 ih =>
      refine .step ih ?_ h3
      have : some o ∈ (c.obj e).fields := List.mem_of_mem_tail h2
      simp [Obj.holds, hk, this]
  have hc' : Closed c young (Reach c.obj young rt.words) :=
    ⟨fun h => by cases h <;> assumption, fun h _ h1 h2 => .step h h1 h2, hn, hf⟩
  have hc : Closed c young (Avoid c.obj young rt.words e) :=
    ⟨fun h => by cases h <;> assumption, fun h hk h1 h2 => .step h (.inr hk) h1 h2,
      fun l hl hr => hn l hl fun o ho => hsub o (hr o ho), hf⟩
  have hroot : ∀ o, some o ∈ rt.words → young o → Avoid c.obj young rt.words e o :=
    fun o h1 h2 => .root h1 h2
  have hwp : ∀ o, some o ∈ rt.pages.flatten → some o ∈ rt.words := by
    intro o ho; simp only [Roots.words, List.mem_append]; exact .inl (.inl ho)
  have hwr : ∀ o, some o ∈ rt.registered → some o ∈ rt.words := by
    intro o ho; simp only [Roots.words, List.mem_append]; exact .inl (.inr ho)
  have hww : ∀ o, some o ∈ rt.processor → some o ∈ rt.words := by
    intro o ho; simp only [Roots.words, List.mem_append]; exact .inr ho
  obtain ⟨s1, ks, a1, l1, e1, h1, hl1, n1, hk, m1, m2⟩ := scanPages_spec hc hS rt.pages _ _ _
    (start_inv stale junk) (fun o ho hy => hroot o (hwp o ho) hy)
  obtain ⟨s2, a2, l2, e2, h2, hl2, n2, -⟩ := copyAndScan_spec hc hS rt.registered h1
    (fun o ho hy => hroot o (hwr o ho) hy)
  obtain ⟨s3, a3, l3, e3, h3, hl3, n3, hq3⟩ := copyAndScan_spec hc hS rt.processor h2
    (fun o ho hy => hroot o (hww o ho) hy)
  have hroots : ∀ o, some o ∈ rt.words → s3.loc o ≠ .fresh := by
    intro o ho
    simp only [Roots.words, List.mem_append] at ho
    rcases ho with (ho | ho) | ho
    · exact hl3.loc o (hl2.loc o (n1 o ho))
    · exact hl3.loc o (n2 o ho)
    · exact n3 o ho
  have hl := (hl1.trans hl2).trans hl3
  have hstrong : FitsIn c.obj (Reach c.obj young rt.words) c.rcap →
      ∀ x, Strong c.obj young rt.words x → s3.loc x ≠ .fresh := by
    intro hF x hx
    have hF' : FitsIn c.obj (Avoid c.obj young rt.words e) c.rcap :=
      fun l hl hr => hF l hl fun o ho => hsub o (hr o ho)
    induction hx with
    | root h _ => exact hroots _ h
    | @step p o hp hk ho hy ih =>
      have hpy : young p := by cases hp <;> assumption
      have hpm : p ∈ a3 ++ l3 := by
        by_contra hm
        have := h3.locO p hm
        simp [hpy] at this
        exact ih this
      rcases h3.pend p hpm with h | ⟨h, -⟩ | h | h
      · exact h o ho
      · rw [hq3, h3.alloc] at h
        simp at h
      · exact absurd ((h3.fits hF').2.2.2 p h) hk
      · exact h.elim
  have hsize : toDo c s3 < c.fuel := by
    have := hl.size
    simp only [toDo, start, Ring.empty, List.length_nil] at this ⊢
    omega
  have hmourn : s3.mourn = [] := by rw [hl.mourn]; rfl
  obtain ⟨s, a, l, e4, h4, hq4, hg4, k1, k2, k3⟩ := scanGreys_spec
    (R := Avoid c.obj young rt.words e) (R' := Reach c.obj young rt.words)
    (N := Strong c.obj young rt.words) (e := e) hc hc' hsub hS
    (fun p x hp hpe _ hx hy => .step hp (.inl hpe) hx hy)
    (fun x hx hk hx' hy => .value hx hk hx' hy)
    (fun p x hp _ hx hy => .step hp hx hy) c.fuel s3 a3 l3 (.inl h3) hq3 hsize hstrong
    (by simp [Mourned, hmourn])
  refine ⟨s, ks, a, l, ?_, h4, hq4, hg4, fun o ho => k1 o (hroots o ho), k3, hk, ?_, m2⟩
  · rw [copyOops, e1]; simp only [e2, e3, e4]
  · intro i p hi hki o ho
    exact k2 o (hl3.new o (hl2.new o (m1 i p hi hki o ho)))

end Verif.Scavenge
