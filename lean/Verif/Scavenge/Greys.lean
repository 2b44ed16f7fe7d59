import Verif.Scavenge.Scan

/-! # The grey objects and the whole scavenge -/

namespace Verif.Scavenge

variable {c : Conf} {young : Oop → Bool} {R X : Oop → Prop}

theorem Inv.mono {R' : Oop → Prop} {s a l t} (h : Inv c young R X s a l t)
    (hR : ∀ o, R o → R' o) : Inv c young R' X s a l t :=
  { h with
    reach := fun o ho => hR o (h.reach o ho)
    fits := fun hf => h.fits fun l hl hr => hf l hl fun o ho => hR o (hr o ho) }

/-- What is not young is never waiting to be copied. -/
theorem Inv.oldNotFresh {s a l} (h : Inv c young R X s a l []) {o : Oop} (ho : young o = false) :
    s.loc o ≠ .fresh := fun hf => by simp [h.freshYoung hf] at ho

/-- What happens to one grey object.  Either all it holds gets copied, or, its key not having been
copied before, the key is copied as well and the object is put on the list of those to be mourned. -/
theorem scanGrey_spec {R' : Oop → Prop} (hc : Closed c young R) (hc' : Closed c young R')
    (hsub : ∀ o, R o → R' o) (hS : Sound c young) {s : St}
    {a l : List Oop} (h : Inv c young R X s a l []) {o : Oop} (hRo : R o)
    (hval : (c.obj o).kind = .ephemeron → ∀ x, some x ∈ (c.obj o).fields.tail → young x → R x)
    (hkey : ∀ k, (c.obj o).kind = .ephemeron → (c.obj o).fields.head? = some (some k) → young k →
      R' k) :
    (∃ s' a' l', scanGrey c o s = some s' ∧ Inv c young R X s' a' l' [] ∧ Later c s s' ∧
      Done c s' o) ∨
    ∃ s1 s' a1 l1 a' l' k, scanGrey c o s = some { s' with mourn := s'.mourn ++ [o] } ∧
      (c.obj o).kind = .ephemeron ∧ (c.obj o).fields.head? = some (some k) ∧
      Inv c young R X s1 a1 l1 [] ∧ Later c s s1 ∧ s1.loc k = .fresh ∧
      Inv c young R' X s' a' l' [] ∧ Later c s1 s' ∧ Done c s' o := by
  by_cases hk : (c.obj o).kind = .ephemeron
  · obtain ⟨s1, a1, l1, e1, h1, hl1, n1⟩ := copyRange_spec hc hS ((c.obj o).fields.drop 1) s a l h
      (fun x hx hy => hval hk x (by simpa using hx) hy)
    have hdone : ∀ (s' : St), (∀ x, s1.loc x ≠ .fresh → s'.loc x ≠ .fresh) →
        (∀ k, (c.obj o).fields.head? = some (some k) → s'.loc k ≠ .fresh) → Done c s' o := by
      intro s' hs' hk' x hx
      have hx' : some x = (c.obj o).cls ∨ some x ∈ (c.obj o).fields := by
        simpa [Obj.holds, hk] using hx
      rcases hx' with hx' | hx'
      · exact hs' x (h1.oldNotFresh (hS.ephClass o x (hc.isYoung hRo) hk hx'.symm))
      · cases hfl : (c.obj o).fields with
        | nil => simp [hfl] at hx'
        | cons w ws =>
          rw [hfl] at hx'
          rcases List.mem_cons.1 hx' with hx' | hx'
          · exact hk' x (by simp [hfl, hx'])
          · exact hs' x (n1 x (by simpa [hfl] using hx'))
    unfold scanGrey
    rw [if_pos hk]
    simp only [e1]
    cases hh : (c.obj o).fields.head? with
    | none => exact .inl ⟨s1, a1, l1, rfl, h1, hl1, hdone s1 (fun _ h => h) (by simp [hh])⟩
    | some w =>
      cases w with
      | none => exact .inl ⟨s1, a1, l1, rfl, h1, hl1, hdone s1 (fun _ h => h) (by simp [hh])⟩
      | some k =>
        by_cases hf : s1.loc k = .fresh
        · obtain ⟨s2, a2, l2, e2, h2, hl2, n2⟩ := copyAn_spec hc' hS c.fuel k s1 a1 l1
            (h1.mono hsub) (hkey k hk hh (h1.freshYoung hf)) hf (by have := hc.fuel; omega)
          refine .inr ⟨s1, s2, a1, l1, a2, l2, k, by simp [hf, e2], hk, rfl, h1, hl1, hf, h2, hl2, ?_⟩
          exact hdone s2 hl2.loc (by intro k'; rw [hh]; rintro ⟨⟩; exact n2)
        · refine .inl ⟨s1, a1, l1, by simp [hf], h1, hl1, hdone s1 (fun _ h => h) ?_⟩
          intro k'; rw [hh]; rintro ⟨⟩; exact hf
  · obtain ⟨s1, a1, l1, e1, h1, hl1, n1⟩ := copyRange_spec hc hS (scanned c o) s a l h
      (fun x hx hy => hc.step hRo hk (by rwa [← scanned_eq]) hy)
    refine .inl ⟨s1, a1, l1, by rw [scanGrey, if_neg hk, e1], h1, hl1, ?_⟩
    exact fun x hx => n1 x (by rwa [scanned_eq])

/-- What holds of the objects on the list of those to be mourned: they are different, they are
ephemerons, their keys were not copied before but are now. -/
def Mourned (c : Conf) (young : Oop → Bool) (R' N : Oop → Prop) (s : St) : Prop :=
  s.mourn.Nodup ∧ ∀ o ∈ s.mourn, R' o ∧ (c.obj o).kind = .ephemeron ∧
    ∃ k, (c.obj o).fields.head? = some (some k) ∧ young k ∧ s.loc k ≠ .fresh ∧
      (FitsIn c.obj R' c.rcap → ¬ N k)

theorem Mourned.later {R' N : Oop → Prop} {s s' : St} (h : Mourned c young R' N s)
    (hm : s'.mourn = s.mourn) (hl : ∀ x, s.loc x ≠ .fresh → s'.loc x ≠ .fresh) :
    Mourned c young R' N s' := by
  refine ⟨hm ▸ h.1, fun o ho => ?_⟩
  rw [hm] at ho
  obtain ⟨h1, h2, k, h3, h4, h5, h6⟩ := h.2 o ho
  exact ⟨h1, h2, k, h3, h4, hl k h5, h6⟩

theorem Mourned.add {R' N : Oop → Prop} {s s0 s' : St} {o k : Oop} (h : Mourned c young R' N s)
    (hm : s'.mourn = s.mourn) (hl0 : ∀ x, s.loc x ≠ .fresh → s0.loc x ≠ .fresh)
    (hl : ∀ x, s0.loc x ≠ .fresh → s'.loc x ≠ .fresh)
    (ho : R' o) (hk : (c.obj o).kind = .ephemeron) (hh : (c.obj o).fields.head? = some (some k))
    (hy : young k) (hf : s0.loc k = .fresh) (hd : Done c s' o)
    (hN : FitsIn c.obj R' c.rcap → ¬ N k) :
    Mourned c young R' N { s' with mourn := s'.mourn ++ [o] } := by
  have hnot : o ∉ s.mourn := by
    intro hm
    obtain ⟨-, -, k', h3, -, h5, -⟩ := h.2 o hm
    rw [hh] at h3
    cases h3
    exact hl0 k h5 hf
  refine ⟨?_, fun p hp => ?_⟩
  · simp only [hm, List.nodup_append]
    exact ⟨h.1, by simp, by rintro x hx y hy rfl; simp at hy; subst hy; exact hnot hx⟩
  · simp only [hm] at hp
    rcases List.mem_append.1 hp with hp | hp
    · obtain ⟨h1, h2, k', h3, h4, h5, h6⟩ := h.2 p hp
      exact ⟨h1, h2, k', h3, h4, hl _ (hl0 _ h5), h6⟩
    · simp at hp
      subst hp
      exact ⟨ho, hk, k, hh, hy, hd k (by simp [Obj.holds, hk, List.mem_of_mem_head? hh]), hN⟩

/-- The measure that bounds the number of grey objects. -/
def toDo (c : Conf) (s : St) : Nat :=
  s.grey.length + 3 * (c.qcap - s.q.alloc) + (s.q.alloc - s.q.tenure)

/-- Taking the first grey object off the list once it has been scanned. -/
theorem Inv.pop {s a l} {o : Oop} {g : List Oop} (h : Inv c young R X s a l [])
    (hg : s.grey = o :: g) (hd : Done c s o) :
    Inv c young R X { s with grey := s.grey.tail } a l [] :=
  { h with
    grey := fun x hx => h.grey x (List.mem_of_mem_tail hx)
    pend := by
      intro x hx
      rcases h.pend x hx with h1 | h1 | h1 | h1
      · exact .inl h1
      · exact .inr (.inl h1)
      · rw [hg] at h1
        rcases List.mem_cons.1 h1 with rfl | h1
        · exact .inl hd
        · exact .inr (.inr (.inl (by simpa [hg] using h1)))
      · exact .inr (.inr (.inr h1))
    fits := fun hf => by
      obtain ⟨f1, f2, f3, f4⟩ := h.fits hf
      exact ⟨f1, f2, f3, fun x hx => f4 x (List.mem_of_mem_tail hx)⟩ }

/-- The loop over the grey objects.  `e` is an ephemeron, `R` what can be reached without its key,
`R'` what can be reached; `N` is a set of objects known to have been copied before. -/
theorem scanGreys_spec {R' N : Oop → Prop} {e : Oop} (hc : Closed c young R)
    (hc' : Closed c young R') (hsub : ∀ o, R o → R' o) (hS : Sound c young)
    (hE : ∀ p x, R p → p ≠ e → (c.obj p).kind = .ephemeron → some x ∈ (c.obj p).holds →
      young x → R x)
    (hEe : ∀ x, R e → (c.obj e).kind = .ephemeron → some x ∈ (c.obj e).fields.tail → young x → R x)
    (hE' : ∀ p x, R' p → (c.obj p).kind = .ephemeron → some x ∈ (c.obj p).holds → young x →
      R' x) :
    ∀ (f : Nat) (s : St) (a l : List Oop),
      (Inv c young R (fun _ => False) s a l [] ∨
        Inv c young R' (fun _ => False) s a l [] ∧ e ∈ s.mourn) →
      s.scanAt = s.q.alloc → toDo c s < f →
      (FitsIn c.obj R' c.rcap → ∀ x, N x → s.loc x ≠ .fresh) →
      (Mourned c young R' N s) →
      ∃ s' a' l', scanGreys c f s = some s' ∧
        (Inv c young R (fun _ => False) s' a' l' [] ∨
          Inv c young R' (fun _ => False) s' a' l' [] ∧ e ∈ s'.mourn) ∧
        s'.scanAt = s'.q.alloc ∧ s'.grey = [] ∧
        (∀ o, s.loc o ≠ .fresh → s'.loc o ≠ .fresh) ∧ (∀ o, s.loc o = .old → s'.loc o = .old) ∧
        Mourned c young R' N s' := by
  intro f
  induction f with
  | zero => intro s a l _ _ hf; omega
  | succ f ih =>
    intro s a l h hq hf hN hM
    unfold scanGreys
    cases hg : s.grey with
    | nil =>
      exact ⟨s, a, l, rfl, h, hq, hg, fun _ h => h, fun _ h => h, hM⟩
    | cons o g =>
      simp only
      have htail : ∀ x, (c.obj o).kind = .ephemeron → some x ∈ (c.obj o).fields →
          some x ∈ (c.obj o).holds := by
        intro x hk hx; simp [Obj.holds, hk, hx]
      -- what is left to do once the object has been scanned
      have rest : ∀ (s1 : St) (a1 l1 : List Oop),
          (Inv c young R (fun _ => False) s1 a1 l1 [] ∨
            Inv c young R' (fun _ => False) s1 a1 l1 [] ∧ e ∈ s1.mourn) →
          Done c s1 o → (∃ g', s1.grey = s.grey ++ g') → toDo c s1 ≤ toDo c s →
          (∀ x, s.loc x ≠ .fresh → s1.loc x ≠ .fresh) → (∀ x, s.loc x = .old → s1.loc x = .old) →
          (Mourned c young R' N s1) →
          ∃ s' a' l',
            (match cheney c c.fuel { s1 with grey := s1.grey.tail } with
              | none => none
              | some s => scanGreys c f s) = some s' ∧
            (Inv c young R (fun _ => False) s' a' l' [] ∨
              Inv c young R' (fun _ => False) s' a' l' [] ∧ e ∈ s'.mourn) ∧
            s'.scanAt = s'.q.alloc ∧ s'.grey = [] ∧
            (∀ o, s.loc o ≠ .fresh → s'.loc o ≠ .fresh) ∧ (∀ o, s.loc o = .old → s'.loc o = .old) ∧
            Mourned c young R' N s' := by
        intro s1 a1 l1 h1 hd ⟨g', hg'⟩ hsz hn ho hm
        rw [hg, List.cons_append] at hg'
        have fin : ∀ (s2 : St) (a2 l2 : List Oop),
            (Inv c young R (fun _ => False) s2 a2 l2 [] ∨
              Inv c young R' (fun _ => False) s2 a2 l2 [] ∧ e ∈ s2.mourn) →
            s2.scanAt = s2.q.alloc → Later c { s1 with grey := s1.grey.tail } s2 →
            ∃ s' a' l', scanGreys c f s2 = some s' ∧
            (Inv c young R (fun _ => False) s' a' l' [] ∨
              Inv c young R' (fun _ => False) s' a' l' [] ∧ e ∈ s'.mourn) ∧
            s'.scanAt = s'.q.alloc ∧ s'.grey = [] ∧
            (∀ o, s.loc o ≠ .fresh → s'.loc o ≠ .fresh) ∧ (∀ o, s.loc o = .old → s'.loc o = .old) ∧
            Mourned c young R' N s' := by
          intro s2 a2 l2 h2 hq2 hl2
          have hz : toDo c s2 < f := by
            have := hl2.size
            simp only [hg', List.tail_cons] at this
            simp only [toDo, hg', List.length_cons] at hsz hf ⊢
            omega
          obtain ⟨s', a', l', e', h', hq', hgr, k1, k2, k3⟩ := ih s2 a2 l2 h2 hq2 hz
            (fun hF x hx => hl2.loc x (hn x (hN hF x hx)))
            (hm.later hl2.mourn hl2.loc)
          exact ⟨s', a', l', e', h', hq', hgr, fun x hx => k1 x (hl2.loc x (hn x hx)),
            fun x hx => k2 x (hl2.new x (ho x hx)), k3⟩
        rcases h1 with h1 | ⟨h1, hme⟩
        · obtain ⟨s2, a2, l2, e2, h2, hl2, hq2⟩ := cheney_spec hc hS c.fuel _ a1 l1
            (h1.pop hg' hd) (by have := hc.fuel; omega)
          simp only [e2]
          exact fin s2 a2 l2 (.inl h2) hq2 hl2
        · obtain ⟨s2, a2, l2, e2, h2, hl2, hq2⟩ := cheney_spec hc' hS c.fuel _ a1 l1
            (h1.pop hg' hd) (by have := hc.fuel; omega)
          simp only [e2]
          exact fin s2 a2 l2 (.inr ⟨h2, by rw [hl2.mourn]; exact hme⟩) hq2 hl2
      rcases h with h | ⟨h, hme⟩
      · have hRo : R o := h.reach o (by
          have := h.grey o (by simp [hg]); simpa using this)
        by_cases hoe : o = e
        · subst hoe
          rcases scanGrey_spec hc hc' hsub hS h hRo (fun hk x hx hy => hEe x hRo hk hx hy)
            (fun k hk hh hy => hE' o k (hsub o hRo) hk
              (htail k hk (List.mem_of_mem_head? hh)) hy) with
            ⟨s1, a1, l1, e1, h1, hl1, hd⟩ |
            ⟨s0, s1, a0, l0, a1, l1, k, e1, hk, hh, h0, hl0, hfr, h1, hl1, hd⟩
          · simp only [e1]
            exact rest s1 a1 l1 (.inl h1) hd hl1.grey hl1.size hl1.loc hl1.new
              (hM.later hl1.mourn hl1.loc)
          · simp only [e1]
            have hl := hl0.trans hl1
            refine rest { s1 with mourn := s1.mourn ++ [o] } a1 l1 (.inr ⟨{ h1 with }, by simp⟩) hd hl.grey hl.size hl.loc hl.new 
              (hM.add hl.mourn hl0.loc hl1.loc (hsub o hRo) hk hh (h0.freshYoung hfr) hfr hd
                (fun hF hNk => hl0.loc k (hN hF k hNk) hfr))
        · rcases scanGrey_spec hc hc (fun _ h => h) hS h hRo
            (fun hk x hx hy => hE o x hRo hoe hk (htail x hk (List.mem_of_mem_tail hx)) hy)
            (fun k hk hh hy => hE o k hRo hoe hk (htail k hk (List.mem_of_mem_head? hh)) hy) with
            ⟨s1, a1, l1, e1, h1, hl1, hd⟩ |
            ⟨s0, s1, a0, l0, a1, l1, k, e1, hk, hh, h0, hl0, hfr, h1, hl1, hd⟩
          · simp only [e1]
            exact rest s1 a1 l1 (.inl h1) hd hl1.grey hl1.size hl1.loc hl1.new
              (hM.later hl1.mourn hl1.loc)
          · simp only [e1]
            have hl := hl0.trans hl1
            refine rest { s1 with mourn := s1.mourn ++ [o] } a1 l1 (.inl { h1 with }) hd hl.grey hl.size hl.loc hl.new 
              (hM.add hl.mourn hl0.loc hl1.loc (hsub o hRo) hk hh (h0.freshYoung hfr) hfr hd
                (fun hF hNk => hl0.loc k (hN hF k hNk) hfr))
      · have hRo : R' o := h.reach o (by
          have := h.grey o (by simp [hg]); simpa using this)
        rcases scanGrey_spec hc' hc' (fun _ h => h) hS h hRo
            (fun hk x hx hy => hE' o x hRo hk (htail x hk (List.mem_of_mem_tail hx)) hy)
            (fun k hk hh hy => hE' o k hRo hk (htail k hk (List.mem_of_mem_head? hh)) hy) with
            ⟨s1, a1, l1, e1, h1, hl1, hd⟩ |
            ⟨s0, s1, a0, l0, a1, l1, k, e1, hk, hh, h0, hl0, hfr, h1, hl1, hd⟩
        · simp only [e1]
          exact rest s1 a1 l1 (.inr ⟨h1, by rw [hl1.mourn]; exact hme⟩) hd hl1.grey hl1.size
            hl1.loc hl1.new (hM.later hl1.mourn hl1.loc)
        · simp only [e1]
          have hl := hl0.trans hl1
          refine rest { s1 with mourn := s1.mourn ++ [o] } a1 l1 (.inr ⟨{ h1 with }, by simp [hl.mourn, hme]⟩) hd hl.grey hl.size
            hl.loc hl.new 
            (hM.add hl.mourn hl0.loc hl1.loc hRo hk hh (h0.freshYoung hfr) hfr hd
              (fun hF hNk => hl0.loc k (hN hF k hNk) hfr))

end Verif.Scavenge
