/-
Lemmas on the loops over the chain.
-/
import Verif.Unwind.Model

namespace Verif.Unwind

variable {V : Type}

/-- Contexts of `ensure:` that wait are marked. -/
def Marked (l : List (Ctx V)) : Prop :=
  ∀ c ∈ l, c.role = .waiting → c.unwind = true ∧ c.meth = true

/-- Every `ensure:` that waits in `l` waits in `l'`. -/
def Kept (l l' : List (Ctx V)) : Prop :=
  ∀ c ∈ l, c.role = .waiting → ∃ c' ∈ l', c'.id = c.id ∧ c'.role = .waiting

/-- The identities of the contexts of `l'`, and that they have the roles they have in `l`. -/
def Roles (l l' : List (Ctx V)) : Prop :=
  (l'.map Ctx.id).Sublist (l.map Ctx.id) ∧ ∀ c' ∈ l', ∃ c ∈ l, c.id = c'.id ∧ c.role = c'.role

theorem Roles.refl (l : List (Ctx V)) : Roles l l :=
  ⟨List.Sublist.refl _, fun c hc => ⟨c, hc, rfl, rfl⟩⟩

theorem Roles.trans {a b c : List (Ctx V)} (h1 : Roles a b) (h2 : Roles b c) : Roles a c := by
  refine ⟨h2.1.trans h1.1, fun x hx => ?_⟩
  obtain ⟨y, hy, e1, e2⟩ := h2.2 x hx
  obtain ⟨z, hz, e3, e4⟩ := h1.2 y hy
  exact ⟨z, hz, e3.trans e1, e4.trans e2⟩

theorem Roles.drop (c : Ctx V) (l : List (Ctx V)) : Roles (c :: l) l :=
  ⟨List.sublist_cons_self _ _, fun x hx => ⟨x, List.mem_cons_of_mem _ hx, rfl, rfl⟩⟩

theorem Kept.trans {a b c : List (Ctx V)} (h1 : Kept a b) (h2 : Kept b c) : Kept a c := by
  intro x hx hr
  obtain ⟨y, hy, e1, e2⟩ := h1 x hx hr
  obtain ⟨z, hz, e3, e4⟩ := h2 y hy e2
  exact ⟨z, hz, e3.trans e1, e4⟩

theorem resumeNext_ok {l l' : List (Ctx V)} (hm : Marked l) (h : resumeNext l = some l') :
    Kept l l' ∧ Roles l l' ∧ Marked l'.tail := by
  induction l with
  | nil => cases h
  | cons c rest ih =>
    rw [resumeNext] at h
    have hmr : Marked rest := fun x hx => hm x (List.mem_cons_of_mem _ hx)
    by_cases hs : c.skipped = true
    · rw [if_pos hs] at h
      obtain ⟨h1, h2, h3⟩ := ih hmr h
      refine ⟨fun x hx hr => ?_, (Roles.drop c rest).trans h2, h3⟩
      rcases List.mem_cons.1 hx with rfl | hx
      · have := (hm x (List.mem_cons_self ..) hr).1
        rw [Ctx.skipped, this] at hs
        simp at hs
      · exact h1 x hx hr
    · rw [if_neg hs] at h
      cases h
      refine ⟨fun x hx hr => ?_, ⟨List.Sublist.refl _, fun x hx => ?_⟩, hmr⟩
      · rcases List.mem_cons.1 hx with rfl | hx
        · exact ⟨x.clear, List.mem_cons_self .., rfl, hr⟩
        · exact ⟨x, List.mem_cons_of_mem _ hx, rfl, hr⟩
      · rcases List.mem_cons.1 hx with rfl | hx
        · exact ⟨c, List.mem_cons_self .., rfl, rfl⟩
        · exact ⟨x, List.mem_cons_of_mem _ hx, rfl, rfl⟩

theorem disable_ok {t : Nat} {l l' : List (Ctx V)} (hm : Marked l)
    (ht : ∀ c ∈ l, c.id = t → c.disabled = false) (h : disable t l = some l') :
    Kept l l' ∧ Roles l l' ∧ Marked l' := by
  induction l generalizing l' with
  | nil => cases h
  | cons c rest ih =>
    rw [disable] at h
    have hmr : Marked rest := fun x hx => hm x (List.mem_cons_of_mem _ hx)
    by_cases hc : c.id = t
    · rw [if_pos hc, skipDisabled] at h
      have : c.skipped = false := by
        rw [Ctx.skipped, ht c (List.mem_cons_self ..) hc]; simp
      rw [this] at h
      simp only [Bool.false_eq_true, if_false] at h
      cases h
      exact ⟨fun x hx hr => ⟨x, hx, rfl, hr⟩, Roles.refl _, hm⟩
    · rw [if_neg hc] at h
      have ht' : ∀ d ∈ rest, d.id = t → d.disabled = false :=
        fun d hd => ht d (List.mem_cons_of_mem _ hd)
      by_cases hme : c.meth = true
      · rw [if_pos hme] at h
        cases hd : disable t rest with
        | none => rw [hd] at h; cases h
        | some r =>
          rw [hd] at h
          cases h
          obtain ⟨h1, h2, h3⟩ := ih hmr ht' hd
          refine ⟨fun x hx hr => ?_, ⟨h2.1.cons_cons _, fun x hx => ?_⟩, fun x hx hr => ?_⟩
          · rcases List.mem_cons.1 hx with rfl | hx
            · exact ⟨_, List.mem_cons_self .., rfl, hr⟩
            · obtain ⟨y, hy, e⟩ := h1 x hx hr
              exact ⟨y, List.mem_cons_of_mem _ hy, e⟩
          · rcases List.mem_cons.1 hx with rfl | hx
            · exact ⟨c, List.mem_cons_self .., rfl, rfl⟩
            · obtain ⟨y, hy, e⟩ := h2.2 x hx
              exact ⟨y, List.mem_cons_of_mem _ hy, e⟩
          · rcases List.mem_cons.1 hx with rfl | hx
            · exact ⟨(hm c (List.mem_cons_self ..) hr).1, hme⟩
            · exact h3 x hx hr
      · rw [if_neg hme] at h
        obtain ⟨h1, h2, h3⟩ := ih hmr ht' h
        refine ⟨fun x hx hr => ?_, (Roles.drop c rest).trans h2, h3⟩
        rcases List.mem_cons.1 hx with rfl | hx
        · exact absurd (hm x (List.mem_cons_self ..) hr).2 hme
        · exact h1 x hx hr

theorem unwindTo_ok {t : Nat} {c : Ctx V} {rest l' : List (Ctx V)} (hm : Marked rest)
    (hp : c.role ≠ .waiting) (ht : ∀ d ∈ rest, d.id = t → d.disabled = false)
    (h : unwindTo t (c :: rest) = some l') :
    Kept (c :: rest) l' ∧ Roles (c :: rest) l' ∧ Marked l'.tail := by
  induction rest generalizing c with
  | nil =>
    rw [unwindTo] at h
    by_cases hc : c.id = t
    · rw [if_pos hc] at h
      cases h
      refine ⟨fun x hx hr => ?_, ⟨List.Sublist.refl _, fun x hx => ?_⟩, fun x hx => by cases hx⟩
      · rcases List.mem_cons.1 hx with rfl | hx
        · exact absurd hr hp
        · cases hx
      · rcases List.mem_cons.1 hx with rfl | hx
        · exact ⟨c, List.mem_cons_self .., rfl, rfl⟩
        · cases hx
    · rw [if_neg hc] at h; cases h
  | cons d rest ih =>
    rw [unwindTo] at h
    by_cases hc : c.id = t
    · rw [if_pos hc] at h
      cases h
      refine ⟨fun x hx hr => ?_, ⟨List.Sublist.refl _, fun x hx => ?_⟩, hm⟩
      · rcases List.mem_cons.1 hx with rfl | hx
        · exact absurd hr hp
        · exact ⟨x, List.mem_cons_of_mem _ hx, rfl, hr⟩
      · rcases List.mem_cons.1 hx with rfl | hx
        · exact ⟨c, List.mem_cons_self .., rfl, rfl⟩
        · exact ⟨x, List.mem_cons_of_mem _ hx, rfl, rfl⟩
    · rw [if_neg hc] at h
      have hk : Kept (c :: d :: rest) (d :: rest) := by
        intro x hx hr
        rcases List.mem_cons.1 hx with rfl | hx
        · exact absurd hr hp
        · exact ⟨x, hx, rfl, hr⟩
      by_cases hu : d.unwind = true
      · rw [if_pos hu] at h
        cases hd : disable t (d :: rest) with
        | none => rw [hd] at h; cases h
        | some r =>
          rw [hd] at h
          simp only at h
          obtain ⟨h1, h2, h3⟩ := disable_ok hm ht hd
          obtain ⟨k1, k2, k3⟩ := resumeNext_ok h3 h
          exact ⟨hk.trans (h1.trans k1), (Roles.drop c _).trans (h2.trans k2), k3⟩
      · rw [if_neg hu] at h
        have hdw : d.role ≠ .waiting := fun hr => hu (hm d (List.mem_cons_self ..) hr).1
        obtain ⟨h1, h2, h3⟩ := ih (fun x hx => hm x (List.mem_cons_of_mem _ hx)) hdw
          (fun x hx => ht x (List.mem_cons_of_mem _ hx)) h
        exact ⟨hk.trans h1, (Roles.drop c _).trans h2, h3⟩

end Verif.Unwind
