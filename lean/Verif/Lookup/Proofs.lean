import Verif.Lookup.Spec
/-!
# Method lookup: lemmas
-/
namespace Verif.Lookup

variable {env : Env}

theorem nearest_unique {w : World} {sel c : OOP} {r r' : Option (OOP × OOP)} (h : Nearest env w sel c r)
    (h' : Nearest env w sel c r') : r = r' := by
  induction h generalizing r' with
  | root =>
    cases h' with
    | root => rfl
    | here h _ => exact absurd rfl h
    | up h _ _ => exact absurd rfl h
  | here hc hm =>
    cases h' with
    | root => exact absurd rfl hc
    | here _ hm' => rw [hm] at hm'; simp_all
    | up _ hm' _ => rw [hm] at hm'; simp at hm'
  | up hc hm _ ih =>
    cases h' with
    | root => exact absurd rfl hc
    | here _ hm' => rw [hm] at hm'; simp at hm'
    | up _ _ h2 => exact ih h2

theorem find_sound {w : World} {sel : OOP} (fuel : Nat) (c : OOP) (r : Option (OOP × OOP)) (h : find env w sel fuel c = some r) :
    Nearest env w sel c r := by
  induction fuel generalizing c with
  | zero => simp [find] at h
  | succ fuel ih =>
    rw [find] at h
    split at h
    · next hc => subst hc; simp only [Option.some.injEq] at h; subst h; exact .root
    · next hc =>
      split at h
      · next m hm => simp only [Option.some.injEq] at h; subst h; exact .here hc hm
      · next hm => exact .up hc hm (ih _ h)

theorem find_complete {w : World} {sel c : OOP} {r : Option (OOP × OOP)} (h : Nearest env w sel c r) :
    ∃ N, ∀ fuel, N ≤ fuel → find env w sel fuel c = some r := by
  induction h with
  | root =>
    refine ⟨1, fun fuel hf => ?_⟩
    obtain ⟨f, rfl⟩ : ∃ f, fuel = f + 1 := ⟨fuel - 1, by omega⟩
    rw [find, if_pos rfl]
  | here hc hm =>
    refine ⟨1, fun fuel hf => ?_⟩
    obtain ⟨f, rfl⟩ : ∃ f, fuel = f + 1 := ⟨fuel - 1, by omega⟩
    rw [find, if_neg hc, hm]
  | up hc hm _ ih =>
    obtain ⟨N, ih⟩ := ih
    refine ⟨N + 1, fun fuel hf => ?_⟩
    obtain ⟨f, rfl⟩ : ∃ f, fuel = f + 1 := ⟨fuel - 1, by omega⟩
    rw [find, if_neg hc, hm]
    exact ih f (by omega)

/-- An entry says what the search would. -/
def EntryOK (env : Env) (w : World) (e : Entry) : Prop :=
  Nearest env w e.selector e.startingClass (some (e.method, e.methodClass)) ∧ e.header = w.header e.method

def PrimOK (env : Env) (w : World) (sel cls : OOP) (p : Nat) : Prop :=
  ∃ m mc, Nearest env w sel cls (some (m, mc)) ∧ (w.header m).numArgs = 0 ∧ (w.header m).flag = .primitive ∧ (w.header m).prim = p

structure Coherent (env : Env) (vm : VM) : Prop where
  entry : ∀ i, (vm.cache i).selector ≠ 0 → EntryOK env vm.world (vm.cache i)
  size : vm.sizeClass ≠ 0 → PrimOK env vm.world env.size vm.sizeClass vm.sizePrim
  cls : vm.clsClass ≠ 0 → PrimOK env vm.world env.cls vm.clsClass vm.clsPrim

def Quiet (vm : VM) : Prop := vm.counter = 0 → (∀ i, (vm.cache i).selector = 0) ∧ vm.sizeClass = 0 ∧ vm.clsClass = 0

/-- The parts a send does not change. -/
def Same (vm vm' : VM) : Prop :=
  vm'.world = vm.world ∧ vm'.sizeClass = vm.sizeClass ∧ vm'.sizePrim = vm.sizePrim ∧ vm'.clsClass = vm.clsClass ∧ vm'.clsPrim = vm.clsPrim

theorem cacheLookup_spec {fuel : Nat} {vm vm' : VM} {sel cls : OOP} {r : Option Entry} (hc : Coherent env vm) (hs : sel ≠ 0)
    (h : cacheLookup env fuel vm sel cls = some (vm', r)) :
    Coherent env vm' ∧ Same vm vm' ∧ vm'.counter = vm.counter ∧ vm'.lastPrim = vm.lastPrim ∧
    (r = none → Nearest env vm.world sel cls none) ∧
    (∀ e, r = some e → Nearest env vm.world sel cls (some (e.method, e.methodClass)) ∧ e.header = vm.world.header e.method) := by
  rw [cacheLookup] at h
  dsimp only at h
  split at h
  · split at h
    · simp at h
    · next hf =>
      simp only [Option.some.injEq, Prod.mk.injEq] at h
      obtain ⟨rfl, rfl⟩ := h
      exact ⟨hc, ⟨rfl, rfl, rfl, rfl, rfl⟩, rfl, rfl, fun _ => find_sound _ _ _ hf, by simp⟩
    · next m mc hf =>
      simp only [Option.some.injEq, Prod.mk.injEq] at h
      obtain ⟨rfl, rfl⟩ := h
      refine ⟨⟨?_, hc.size, hc.cls⟩, ⟨rfl, rfl, rfl, rfl, rfl⟩, rfl, rfl, by simp, ?_⟩
      · intro i hi
        dsimp only at hi ⊢
        split at hi
        · next hii => rw [if_pos hii]; exact ⟨find_sound _ _ _ hf, rfl⟩
        · next hii => rw [if_neg hii]; exact hc.entry i hi
      · intro e he
        simp only [Option.some.injEq] at he
        subst he
        exact ⟨find_sound _ _ _ hf, rfl⟩
  · next hm =>
    simp only [Option.some.injEq, Prod.mk.injEq] at h
    obtain ⟨rfl, rfl⟩ := h
    refine ⟨hc, ⟨rfl, rfl, rfl, rfl, rfl⟩, rfl, rfl, by simp, ?_⟩
    intro e he
    simp only [Option.some.injEq] at he
    subst he
    have h1 : (vm.cache (cacheHash sel cls)).selector = sel := Decidable.byContradiction fun x => hm (.inl x)
    have h2 : (vm.cache (cacheHash sel cls)).startingClass = cls := Decidable.byContradiction fun x => hm (.inr x)
    have := hc.entry (cacheHash sel cls) (by rw [h1]; exact hs)
    rw [EntryOK, h1, h2] at this
    exact this

theorem Same.trans {a b c : VM} (h1 : Same a b) (h2 : Same b c) : Same a c :=
  ⟨h2.1.trans h1.1, h2.2.1.trans h1.2.1, h2.2.2.1.trans h1.2.2.1, h2.2.2.2.1.trans h1.2.2.2.1, h2.2.2.2.2.trans h1.2.2.2.2⟩

theorem Coherent.lastPrim {vm : VM} (h : Coherent env vm) (p : Nat) : Coherent env { vm with lastPrim := p } := ⟨h.entry, h.size, h.cls⟩

theorem Coherent.counter {vm : VM} (h : Coherent env vm) (p : Nat) : Coherent env { vm with counter := p } := ⟨h.entry, h.size, h.cls⟩

theorem send_spec {fuel : Nat} {vm vm' : VM} {sel cls rcv : OOP} {n : Nat} {o : Outcome} (hc : Coherent env vm) (hs : sel ≠ 0)
    (h : send env fuel vm sel n cls rcv = some (vm', o)) :
    Coherent env vm' ∧ Same vm vm' ∧ 0 < vm'.counter ∧ Runs env vm.world sel n cls rcv o ∧
    (vm.lastPrim = 0 → vm'.lastPrim ≠ 0 → ∀ m mc, Nearest env vm.world sel cls (some (m, mc)) →
      (vm.world.header m).flag ≠ .userDefined →
      (vm.world.header m).numArgs = n ∧ (vm.world.header m).flag = .primitive ∧ (vm.world.header m).prim = vm'.lastPrim) := by
  induction fuel generalizing vm vm' sel cls rcv n o with
  | zero => simp [send] at h
  | succ fuel ih =>
    rw [send] at h
    split at h
    · simp at h
    · next vm1 hl =>
      obtain ⟨c1, c2, c3, c4, c5, -⟩ := cacheLookup_spec (hc.counter _) hs hl
      rw [Option.map_eq_some_iff] at h
      obtain ⟨⟨vm2, o2⟩, h1, h2⟩ := h
      simp only [Prod.mk.injEq] at h2
      obtain ⟨rfl, rfl⟩ := h2
      obtain ⟨d1, d2, d3, d4, -⟩ := ih c1 env.dnu_ne h1
      have hw : vm1.world = vm.world := c2.1
      rw [hw] at d4
      refine ⟨d1, Same.trans c2 d2, d3, .dnu (c5 rfl) d4, ?_⟩
      intro _ _ m mc hn
      have := nearest_unique hn (c5 rfl)
      simp at this
    · next vm1 e hl =>
      obtain ⟨c1, c2, c3, c4, -, c6⟩ := cacheLookup_spec (hc.counter _) hs hl
      obtain ⟨c6, c7⟩ := c6 e rfl
      have hw : vm1.world = vm.world := c2.1
      have hcount : 0 < vm1.counter := by rw [c3]; exact Nat.succ_pos _
      have hlast : vm1.lastPrim = vm.lastPrim := c4
      dsimp only at c6 c7
      split at h
      · next hn =>
        simp only [Option.some.injEq, Prod.mk.injEq] at h
        obtain ⟨rfl, rfl⟩ := h
        rw [c7] at hn
        exact ⟨c1, c2, hcount, .args c6 hn, fun h0 h1 => absurd (hlast.trans h0) h1⟩
      · next hn =>
        have hn : e.header.numArgs = n := Decidable.byContradiction hn
        subst hn
        rw [c7] at h ⊢
        split at h
        · next hf =>
          simp only [Option.some.injEq, Prod.mk.injEq] at h
          obtain ⟨rfl, rfl⟩ := h
          exact ⟨c1, c2, hcount, .self c6 hf, fun h0 h1 => absurd (hlast.trans h0) h1⟩
        · next hf =>
          simp only [Option.some.injEq, Prod.mk.injEq] at h
          obtain ⟨rfl, rfl⟩ := h
          exact ⟨c1, c2, hcount, .instVar c6 hf, fun h0 h1 => absurd (hlast.trans h0) h1⟩
        · next hf =>
          simp only [Option.some.injEq, Prod.mk.injEq] at h
          obtain ⟨rfl, rfl⟩ := h
          exact ⟨c1, c2, hcount, .literal c6 hf, fun h0 h1 => absurd (hlast.trans h0) h1⟩
        · next hf =>
          split at h
          · next hok =>
            simp only [Option.some.injEq, Prod.mk.injEq] at h
            obtain ⟨rfl, rfl⟩ := h
            refine ⟨c1.lastPrim _, c2, hcount, .prim c6 hf hok, ?_⟩
            intro _ _ m mc hm _
            have := nearest_unique hm c6
            simp only [Option.some.injEq, Prod.mk.injEq] at this
            obtain ⟨rfl, -⟩ := this
            exact ⟨rfl, hf, rfl⟩
          · next hok =>
            simp only [Option.some.injEq, Prod.mk.injEq] at h
            obtain ⟨rfl, rfl⟩ := h
            exact ⟨c1.lastPrim _, c2, hcount, .primFails c6 hf (by simpa using hok), fun _ h1 => absurd rfl h1⟩
        · next hf =>
          rw [Option.map_eq_some_iff] at h
          obtain ⟨⟨vm2, o2⟩, h1, h2⟩ := h
          simp only [Prod.mk.injEq] at h2
          obtain ⟨rfl, rfl⟩ := h2
          obtain ⟨d1, d2, d3, d4, -⟩ := ih c1 env.value_ne h1
          rw [hw] at d4
          refine ⟨d1, Same.trans c2 d2, d3, .user c6 hf d4, ?_⟩
          intro _ _ m mc hm hu
          have := nearest_unique hm c6
          simp only [Option.some.injEq, Prod.mk.injEq] at this
          obtain ⟨rfl, -⟩ := this
          exact absurd hf hu
        · next hf =>
          simp only [Option.some.injEq, Prod.mk.injEq] at h
          obtain ⟨rfl, rfl⟩ := h
          exact ⟨c1, c2, hcount, .normal c6 hf, fun h0 h1 => absurd (hlast.trans h0) h1⟩

/-- A send that the specification defines ends, with enough fuel, whatever is in the (coherent) caches. -/
theorem send_complete {w : World} {sel cls rcv : OOP} {n : Nat} {o : Outcome} (h : Runs env w sel n cls rcv o) (hs : sel ≠ 0) :
    ∃ N, ∀ fuel, N ≤ fuel → ∀ vm, Coherent env vm → vm.world = w → (send env fuel vm sel n cls rcv).isSome := by
  have key : ∀ {sel cls rcv : OOP} {n : Nat} {r : Option (OOP × OOP)}, sel ≠ 0 → Nearest env w sel cls r →
      (r = none → ∃ N, ∀ fuel, N ≤ fuel → ∀ vm, Coherent env vm → vm.world = w → (send env fuel vm env.dnu 1 cls rcv).isSome) →
      (∀ m mc, r = some (m, mc) → (w.header m).flag = .userDefined → (w.header m).numArgs = n →
        ∃ N, ∀ fuel, N ≤ fuel → ∀ vm, Coherent env vm → vm.world = w → (send env fuel vm env.value 2 (w.classOf m) m).isSome) →
      ∃ N, ∀ fuel, N ≤ fuel → ∀ vm, Coherent env vm → vm.world = w → (send env fuel vm sel n cls rcv).isSome := by
    intro sel cls rcv n r hs hn hd hu
    obtain ⟨N1, hN1⟩ := find_complete hn
    have hd' : ∃ N, r = none → ∀ fuel, N ≤ fuel → ∀ vm, Coherent env vm → vm.world = w →
        (send env fuel vm env.dnu 1 cls rcv).isSome := by
      by_cases hr : r = none
      · obtain ⟨N, hN⟩ := hd hr; exact ⟨N, fun _ => hN⟩
      · exact ⟨0, fun x => absurd x hr⟩
    obtain ⟨N2, hN2⟩ := hd'
    have hu' : ∃ N, ∀ m mc, r = some (m, mc) → (w.header m).flag = .userDefined → (w.header m).numArgs = n →
        ∀ fuel, N ≤ fuel → ∀ vm, Coherent env vm → vm.world = w → (send env fuel vm env.value 2 (w.classOf m) m).isSome := by
      by_cases hr : ∃ m mc, r = some (m, mc) ∧ (w.header m).flag = .userDefined ∧ (w.header m).numArgs = n
      · obtain ⟨m, mc, h1, h2, h3⟩ := hr
        obtain ⟨N, hN⟩ := hu m mc h1 h2 h3
        refine ⟨N, ?_⟩
        intro m' mc' h1' _ _
        rw [h1] at h1'
        simp only [Option.some.injEq, Prod.mk.injEq] at h1'
        obtain ⟨rfl, -⟩ := h1'
        exact hN
      · exact ⟨0, fun m mc h1 h2 h3 => absurd ⟨m, mc, h1, h2, h3⟩ hr⟩
    obtain ⟨N3, hN3⟩ := hu'
    refine ⟨N1 + N2 + N3 + 1, fun fuel hf vm hc hw => ?_⟩
    obtain ⟨f, rfl⟩ : ∃ f, fuel = f + 1 := ⟨fuel - 1, by omega⟩
    rw [send]
    cases hl : cacheLookup env f { vm with counter := vm.counter + 1 } sel cls with
    | none =>
      have hsome : (cacheLookup env f { vm with counter := vm.counter + 1 } sel cls).isSome := by
        rw [cacheLookup]
        dsimp only
        rw [hw, hN1 f (by omega)]
        split
        · cases r <;> rfl
        · rfl
      rw [hl] at hsome
      simp at hsome
    | some p =>
      obtain ⟨vm1, r1⟩ := p
      obtain ⟨c1, c2, c3, c4, c5, c6⟩ := cacheLookup_spec (hc.counter _) hs hl
      have hw1 : vm1.world = w := c2.1.trans hw
      cases r1 with
      | none =>
        have h5 := c5 rfl
        dsimp only at h5 ⊢
        rw [hw] at h5
        rw [Option.isSome_map]
        exact hN2 (nearest_unique hn h5) f (by omega) vm1 c1 hw1
      | some e =>
        obtain ⟨c6, c7⟩ := c6 e rfl
        dsimp only at c6 c7 ⊢
        rw [hw] at c6 c7
        split
        · rfl
        · next hna =>
          split
          · rfl
          · rfl
          · rfl
          · split <;> rfl
          · next hfl =>
            rw [Option.isSome_map, hw1]
            rw [c7] at hfl hna
            exact hN3 _ _ (nearest_unique hn c6) hfl (Decidable.byContradiction hna) f (by omega) vm1 c1 hw1
          · rfl
  induction h with
  | dnu hn _ ih => exact key hs hn (fun _ => ih env.dnu_ne) (by simp)
  | args hn hne =>
    refine key hs hn (by simp) ?_
    intro m mc h1 _ h3
    simp only [Option.some.injEq, Prod.mk.injEq] at h1
    obtain ⟨rfl, rfl⟩ := h1
    exact absurd h3 hne
  | user hn hf _ ih =>
    refine key hs hn (by simp) ?_
    intro m mc h1 _ _
    simp only [Option.some.injEq, Prod.mk.injEq] at h1
    obtain ⟨rfl, rfl⟩ := h1
    exact ih env.value_ne
  | self hn hf | instVar hn hf | literal hn hf | prim hn hf _ | primFails hn hf _ | normal hn hf =>
    refine key hs hn (by simp) ?_
    intro m mc h1 h2 _
    simp only [Option.some.injEq, Prod.mk.injEq] at h1
    obtain ⟨rfl, rfl⟩ := h1
    rw [hf] at h2
    simp at h2

theorem runs_unique {w : World} {sel cls rcv : OOP} {n : Nat} {o o' : Outcome} (h : Runs env w sel n cls rcv o)
    (h' : Runs env w sel n cls rcv o') : o = o' := by
  induction h generalizing o' with
  | dnu hn _ ih =>
    cases h' with
    | dnu _ h2 => rw [ih h2]
    | args hn' _ | self hn' _ | instVar hn' _ | literal hn' _ | prim hn' _ _ | primFails hn' _ _ | user hn' _ _ | normal hn' _ =>
      exact absurd (nearest_unique hn hn') (by simp)
  | args hn hne =>
    cases h' with
    | dnu hn' _ => exact absurd (nearest_unique hn hn') (by simp)
    | args _ _ => rfl
    | self hn' _ | instVar hn' _ | literal hn' _ | prim hn' _ _ | primFails hn' _ _ | user hn' _ _ | normal hn' _ =>
      have := nearest_unique hn hn'
      simp only [Option.some.injEq, Prod.mk.injEq] at this
      obtain ⟨rfl, -⟩ := this
      exact absurd rfl hne
  | user hn hf _ ih =>
    generalize hk : (w.header _).numArgs = k at h'
    cases h' with
    | dnu hn' _ => exact absurd (nearest_unique hn hn') (by simp)
    | args hn' hne =>
      have := nearest_unique hn hn'
      simp only [Option.some.injEq, Prod.mk.injEq] at this
      obtain ⟨rfl, -⟩ := this
      exact absurd hk hne
    | user hn' hf' h2 =>
      have := nearest_unique hn hn'
      simp only [Option.some.injEq, Prod.mk.injEq] at this
      obtain ⟨rfl, -⟩ := this
      rw [ih h2]
    | self hn' hf' | instVar hn' hf' | literal hn' hf' | prim hn' hf' _ | primFails hn' hf' _ | normal hn' hf' =>
      have := nearest_unique hn hn'
      simp only [Option.some.injEq, Prod.mk.injEq] at this
      obtain ⟨rfl, -⟩ := this
      rw [hf] at hf'
      simp at hf'
  | self hn hf | instVar hn hf | literal hn hf | prim hn hf hok | primFails hn hf hok | normal hn hf =>
    generalize hk : (w.header _).numArgs = k at h'
    cases h' with
    | dnu hn' _ => exact absurd (nearest_unique hn hn') (by simp)
    | args hn' hne =>
      have := nearest_unique hn hn'
      simp only [Option.some.injEq, Prod.mk.injEq] at this
      obtain ⟨rfl, -⟩ := this
      exact absurd hk hne
    | user hn' hf' h2 =>
      have := nearest_unique hn hn'
      simp only [Option.some.injEq, Prod.mk.injEq] at this
      obtain ⟨rfl, -⟩ := this
      rw [hf] at hf'
      simp at hf'
    | self hn' hf' | instVar hn' hf' | literal hn' hf' | prim hn' hf' hok' | primFails hn' hf' hok' | normal hn' hf' =>
      have := nearest_unique hn hn'
      simp only [Option.some.injEq, Prod.mk.injEq] at this
      obtain ⟨rfl, -⟩ := this
      simp_all

end Verif.Lookup
