/-
The operations on the object table keep its invariant.
-/
import Verif.GC.TableLemmas

namespace Verif.GC.Table

/-! ### Allocation -/

theorem sub_range_free {s : Mem} {A : Nat → Bool} {p o : Nat} {f : Flags} (hlo : s.lo ≤ p)
    (hA : A p = false) (hlow : ∀ q, s.lo ≤ q → q < p → A q = true) (hpos : p = s.lo ∨ s.hi ≤ s.lo)
    (hps : p < s.size) (hf : FreeOK s A) : FreeOK (handOut s p o f) (insert A p) := by
  have hn : (handOut s p o f).numFree = s.numFree - 1 := rfl
  simp only [FreeOK] at hf ⊢
  rw [hn]
  by_cases hreg : p < s.hi
  · -- it was waiting to be swept
    have hp : p = s.lo := by omega
    have he : outFree (handOut s p o f) (insert A p) = outFree s A := by
      refine outFree_eq rfl ?_
      intro q
      show (!(if q = p then true else A q) && !(decide (p + 1 ≤ q) && decide (q < s.hi))) = _
      by_cases hq : q = p
      · subst hq; simp [hlo, hreg]
      · have : decide (p + 1 ≤ q) = decide (s.lo ≤ q) := by
          congr 1
          exact propext (by omega)
        rw [if_neg hq, this]
    omega
  · have he : outFree s A = outFree (handOut s p o f) (insert A p) + 1 := by
      simp only [outFree]
      refine filter_len_succ p _ _ ?_ ?_ ?_ _ hps
      · simp [insert]
      · simp [hA]; omega
      · intro q hq
        show _ = (!(if q = p then true else A q) && !(decide (p + 1 ≤ q) && decide (q < s.hi)))
        rw [if_neg hq]
        cases hAq : A q
        · have hnq : ¬ (s.lo ≤ q ∧ q < p) := by
            rintro ⟨h1, h2⟩
            rw [hlow q h1 h2] at hAq; exact absurd hAq (by simp)
          have : decide (p + 1 ≤ q) = decide (s.lo ≤ q) := by
            congr 1
            exact propext (by omega)
          rw [this]
        · simp
    omega

theorem handOut_mode {s : Mem} {A : Nat → Bool} {p o : Nat} {f : Flags} (hlo : s.lo ≤ p)
    (h : s.liveOld = true ∨ p + 1 < s.hi ∨ ∀ q, s.lo ≤ q → A q = false) :
    Mode (handOut s p o f) (insert A p) := by
  intro hl
  have hl : s.liveOld = false := hl
  rcases h with h | h | h
  · rw [hl] at h; exact absurd h (by simp)
  · exact Or.inl h
  · right
    intro q hq
    have hq : p + 1 ≤ q := hq
    show (if q = p then true else A q) = false
    rw [if_neg (by omega)]
    exact h q (by omega)

/-- What a correct allocation does. -/
structure AllocPost (s : Mem) (A : Nat → Bool) (o : Nat) (f : Flags) (s' : Mem) (p : Nat) : Prop where
  free : A p = false
  inTable : p < s.size
  inv : Inv s' (insert A p)
  count : FreeOK s' (insert A p)
  mode : Mode s' (insert A p)
  same : SameObjects A s s'
  entry : s'.ent p = { obj := o, flags := f }
  room : s'.numFree = s.numFree - 1

theorem same_handOut {A : Nat → Bool} {s : Mem} {p o : Nat} {f : Flags} (hA : A p = false) :
    SameObjects A s (handOut s p o f) := by
  refine ⟨rfl, fun q hq => ?_⟩
  have hqp : q ≠ p := by rintro rfl; rw [hA] at hq; exact absurd hq (by simp)
  have : (handOut s p o f).ent q = s.ent q := by
    show (if q = p then _ else s.ent q) = _
    rw [if_neg hqp]
  rw [this]
  exact ⟨rfl, rfl⟩

/-- Allocation when the region is empty. -/
theorem fast_post {s : Mem} {A : Nat → Bool} {o : Nat} {f : Flags} {fuel : Nat} (h : Inv s A)
    (hc : FreeOK s A) (he : s.hi ≤ s.lo)
    (hm : s.liveOld = true ∨ ∀ p, s.lo ≤ p → A p = false) (hn : 2 ≤ s.numFree)
    (hf : f.old = true ∨ f.active = true) (hr : f.reachable = false) {x : Nat} (hx1 : s.lo ≤ x)
    (hx : ∀ q, s.lo ≤ q → q < x → A q = true) 
    (hfu : s.top < fuel + x) (hfu0 : 0 < fuel) :
    ∃ p, allocFast s fuel x = some p ∧ AllocPost s A o f (handOut s p o f) p := by
  have hv : ∀ p, s.lo ≤ p → validGC s p = A p := by
    intro p hp
    refine validGC_out h (by omega) ?_
    rcases hm with hm | hm
    · exact Or.inl hm
    · exact Or.inr (hm p hp)
  have hdead : ∀ q, s.top ≤ q → A q = false := by
    intro q hq
    cases hA : A q
    · rfl
    · have := h.top q hA; omega
  obtain ⟨q, hq1, hq2, hq3, hq4⟩ := mem_outFree (s := s) (A := A)
    (by simp only [FreeOK] at hc; omega) h.low
  obtain ⟨p, h1, h2, h3, h4⟩ := allocFast_spec s hv fuel x hx1
    (by
      by_cases hxt : s.top ≤ x
      · exact ⟨x, Nat.le_refl _, by omega, hdead x hxt⟩
      · exact ⟨s.top, by omega, by omega, hdead _ (Nat.le_refl _)⟩)
  have hlow : ∀ q, s.lo ≤ q → q < p → A q = true := by
    intro r hr1 hr2
    by_cases hrx : r < x
    · exact hx r hr1 hrx
    · exact h4 r (by omega) hr2
  have hpq : p ≤ q := by
    apply Nat.le_of_not_lt
    intro hlt
    rw [hlow q hq2 hlt] at hq4; exact absurd hq4 (by simp)
  have hps : p < s.size := by omega
  have hlop : s.lo ≤ p := by omega
  refine ⟨p, h1, h3, hps, handOut_inv h hlop hlow (Or.inr he) hps hf hr,
    sub_range_free hlop h3 hlow (Or.inr he) hps hc, handOut_mode hlop ?_, same_handOut h3, ?_, rfl⟩
  · rcases hm with hm | hm
    · exact Or.inl hm
    · exact Or.inr (Or.inr hm)
  · show (if p = p then _ else _) = _
    rw [if_pos rfl]

theorem AllocPost.from {s s1 : Mem} {A : Nat → Bool} {o : Nat} {f : Flags} {s' : Mem} {p : Nat}
    (h : AllocPost s1 A o f s' p) (hs : SameObjects A s s1) (hn : s1.numFree = s.numFree) :
    AllocPost s A o f s' p :=
  ⟨h.free, hs.1 ▸ h.inTable, h.inv, h.count, h.mode, hs.trans h.same, h.entry, hn ▸ h.room⟩

theorem allocFast_lo (s : Mem) (l : Nat) : ∀ fuel p,
    allocFast s fuel p = allocFast { s with lo := l } fuel p
  | 0, p => rfl
  | fuel + 1, p => by
    rw [allocFast, allocFast, allocFast_lo s l fuel (p + 1)]
    rfl

theorem count_ge (t : Nat) (f : Nat → Bool) (h : ∀ p, t ≤ p → f p = true) :
    ∀ n, n - t ≤ ((List.range n).filter f).length
  | 0 => by simp
  | n + 1 => by
    rw [List.range_succ, List.filter_append, List.length_append]
    have := count_ge t f h n
    by_cases ht : t ≤ n
    · simp [h n ht]; omega
    · omega

theorem slow_post {A : Nat → Bool} {o : Nat} {f : Flags}
    (hf : f.old = true ∨ f.active = true) (hr : f.reachable = false) :
    ∀ (fuel : Nat) (s : Mem) (x : Nat), Inv { s with lo := x } A → FreeOK { s with lo := x } A →
      x < s.hi → 2 ≤ s.numFree → s.top + s.hi + 2 < fuel + x →
      ∃ s1 p, allocSlow s fuel x = some (s1, p) ∧ AllocPost s A o f (handOut s1 p o f) p
  | 0, s, x, h, hc, hx, hn, hfu => by omega
  | fuel + 1, s, x, h, hc, hx, hn, hfu => by
    have hv : validGC s x = A x := validGC_region h (Nat.le_refl x) hx
    rw [allocSlow, hv]
    cases hA : A x
    · rw [if_neg (by simp)]
      have hsw := h.sweepAt hA
      have hps : x < s.size := Nat.lt_of_lt_of_le hx h.hisize
      have hno : ∀ q : Nat, x ≤ q → q < x → A q = true := by intro q h1 h2; omega
      have hinv : Inv (handOut (sweep s x) x o f) (insert A x) :=
        handOut_inv (s := sweep { s with lo := x } x) hsw.1 (Nat.le_refl x) hno (Or.inl rfl) hps hf hr
      have hcnt : FreeOK (handOut (sweep s x) x o f) (insert A x) :=
        sub_range_free (s := { s with lo := x }) (o := o) (f := f) (Nat.le_refl x) hA hno (Or.inl rfl) hps hc
      have hsame : SameObjects A s (handOut (sweep s x) x o f) :=
        (same_sweep s hA).trans (same_handOut hA)
      have hentry : (handOut (sweep s x) x o f).ent x = { obj := o, flags := f } := by
        show (if x = x then _ else _) = _
        rw [if_pos rfl]
      simp only
      have hhi : (sweep s x).hi = s.hi := rfl
      by_cases hend : s.hi ≤ x + 1
      · rw [hhi, if_pos hend]
        refine ⟨finished (sweep s x), x, rfl, hA, hps, hinv.finish hend, hcnt, ?_, hsame, hentry, rfl⟩
        intro hl
        exact absurd hl (by simp [handOut, finished, setEnt])
      · rw [hhi, if_neg hend]
        refine ⟨sweep s x, x, rfl, hA, hps, hinv, hcnt, ?_, hsame, hentry, rfl⟩
        intro _
        left
        show x + 1 < s.hi
        omega
    · rw [if_pos rfl]
      have hinv : Inv { unreach s x with lo := x + 1 } A := h.skipUp hA
      have hcnt : FreeOK { unreach s x with lo := x + 1 } A := skipUp_free hA hc
      simp only
      have hhi : (unreach s x).hi = s.hi := rfl
      rw [hhi]
      by_cases hend : s.hi ≤ x + 1
      · rw [if_pos hend]
        have hinv2 := hinv.finish (by exact hend)
        obtain ⟨p, h1, h2⟩ := fast_post (o := o) (f := f) (fuel := fuel) (x := x + 1) hinv2 hcnt
          (by exact hend) (Or.inl rfl) hn hf hr (Nat.le_refl _)
          (by intro q (h1 : x + 1 ≤ q) h2; omega) (by show s.top < _; omega) (by omega)
        have h1' : allocFast (finished (unreach s x)) fuel (x + 1) = some p := by
          rw [← h1]
          exact allocFast_lo _ _ _ _
        rw [h1']
        refine ⟨_, p, rfl, ?_⟩
        exact AllocPost.from (s1 := finished { unreach s x with lo := x + 1 }) h2
          (same_unreach A s x) rfl
      · rw [if_neg hend]
        obtain ⟨s1, p, h1, h2⟩ := slow_post hf hr fuel (unreach s x) (x + 1) hinv hcnt
          (by show x + 1 < s.hi; omega) hn (by show s.top + s.hi + 2 < _; omega)
        exact ⟨s1, p, h1, h2.from (same_unreach A s x) rfl⟩

/-- **Allocation** from a table that keeps the invariant. -/
theorem alloc_post {s : Mem} {A : Nat → Bool} {o : Nat} {f : Flags} (h : Inv s A) (hc : FreeOK s A)
    (hm : Mode s A) (hn : 2 ≤ s.numFree) (hf : f.old = true ∨ f.active = true)
    (hr : f.reachable = false) {fuel : Nat} (hfu : s.top + s.hi + 2 < fuel) :
    ∃ s' p, alloc s fuel o f = some (s', p) ∧ AllocPost s A o f s' p := by
  unfold alloc
  by_cases hreg : s.lo < s.hi
  · rw [if_pos hreg]
    obtain ⟨s1, p, h1, h2⟩ := slow_post (o := o) hf hr fuel s s.lo h hc hreg hn (by omega)
    rw [h1]
    exact ⟨_, p, rfl, h2⟩
  · rw [if_neg hreg]
    have hm2 : s.liveOld = true ∨ ∀ p, s.lo ≤ p → A p = false := by
      cases hl : s.liveOld
      · rcases hm hl with h1 | h1
        · exact absurd h1 hreg
        · exact Or.inr h1
      · exact Or.inl rfl
    obtain ⟨p, h1, h2⟩ := fast_post (o := o) (f := f) (fuel := fuel) (x := s.lo) h hc
      (Nat.le_of_not_lt hreg) hm2 hn hf hr (Nat.le_refl _) (by intro q h1 h2; omega) (by omega)
      (by omega)
    rw [h1]
    exact ⟨_, p, rfl, h2⟩

/-! ### Setting up the next sweep -/

/-- After the marking: the flags that `IS_OOP_VALID_GC` looks at tell the entries in use. -/
structure Marked (s : Mem) (A : Nat → Bool) : Prop where
  alive : ∀ p, A p = true → (s.ent p).flags.old = true ∨ (s.ent p).flags.active = true
  aliveR : ∀ p, A p = true → s.liveOld = false → (s.ent p).flags.reachable = true
  dead : ∀ p, A p = false → (s.ent p).flags.active = false ∧ (s.ent p).flags.reachable = false ∧
    (s.liveOld = true → (s.ent p).flags.old = false)
  noR : s.liveOld = true → ∀ p, (s.ent p).flags.reachable = false
  above : ∀ p, s.top ≤ p → (s.ent p).flags = {}
  size : s.top ≤ s.size

theorem Marked.inv {s : Mem} {A : Nat → Bool} (h : Marked s A) :
    Inv { s with lo := 0, hi := s.top } A := by
  have htop : ∀ p, A p = true → p < s.top := by
    intro p hp
    apply Nat.lt_of_not_le
    intro hx
    have := h.alive p hp
    rw [h.above p hx] at this
    simp at this
  refine ⟨fun p hp => absurd hp (Nat.not_lt_zero p), h.alive, ?_, ?_, ?_, ?_, htop, h.size, h.size⟩
  · intro p hp hout
    rcases hout with h1 | h1
    · exact absurd h1 (Nat.not_lt_zero p)
    · exact h.above p h1
  · intro p _ _ h3 h4; exact h.aliveR p h3 h4
  · intro p _ _ h3; exact ⟨(h.dead p h3).1, (h.dead p h3).2.2⟩
  · intro p hp
    have hA : A p = true := by
      cases hA : A p
      · have := (h.dead p hA).2.1
        rw [this] at hp; exact absurd hp (by simp)
      · rfl
    refine ⟨Nat.zero_le p, htop p hA, ?_, hA⟩
    cases hl : s.liveOld
    · rfl
    · have := h.noR hl p
      rw [this] at hp; exact absurd hp (by simp)

theorem resetLow_post {A : Nat → Bool} : ∀ (fuel : Nat) (s : Mem) (p : Nat),
    Inv { s with lo := p, hi := s.top } A → s.top < fuel + p → 0 < fuel → 
      ∃ s1 q, resetLow s fuel p = some (s1, q) ∧ Inv { s1 with lo := q, hi := s.top } A ∧
        SameObjects A s s1 ∧ s1.top = s.top ∧ s1.liveOld = s.liveOld ∧ s1.size = s.size
  | 0, s, p, _, _, h0 => by omega
  | fuel + 1, s, p, h, hfu, _ => by
    have hv : validGC s p = A p := by
      by_cases hp : p < s.top
      · exact validGC_region h (Nat.le_refl p) hp
      · refine validGC_out h (Nat.le_of_not_lt hp) (Or.inr ?_)
        cases hA : A p
        · rfl
        · exact absurd (h.top p hA) hp
    rw [resetLow, hv]
    cases hA : A p
    · rw [if_neg (by simp)]
      exact ⟨s, p, rfl, h, SameObjects.refl A s, rfl, rfl, rfl⟩
    · rw [if_pos rfl]
      have hpt : p < s.top := h.top p hA
      obtain ⟨s1, q, h1, h2, h3, h4, h5, h6⟩ := resetLow_post fuel (unreach s p) (p + 1)
        (Inv.skipUp (s := { s with hi := s.top }) h hA) (by show s.top < _; omega) (by omega)
      exact ⟨s1, q, h1, h2, (same_unreach A s p).trans h3, h4, h5, h6⟩

/-- `IS_OOP_VALID` is right everywhere. -/
theorem valid_iff {s : Mem} {A : Nat → Bool} (h : Inv s A) (p : Nat) : valid s p = A p := by
  by_cases hreg : s.lo ≤ p ∧ p < s.hi
  · have := validGC_region h hreg.1 hreg.2
    simp only [valid, this]
    have h1 : decide (p < s.lo) = false := by simp; omega
    have h2 : decide (s.hi ≤ p) = false := by simp; omega
    simp [h1, h2]
  · have hout : p < s.lo ∨ s.hi ≤ p := by omega
    have hd : (decide (p < s.lo) || decide (s.hi ≤ p)) = true := by simpa using hout
    cases hA : A p
    · have := h.dead_out p hA hout
      simp only [valid, validGC, this]
      cases s.liveOld <;> rfl
    · simp only [valid, validGC, hd, Bool.and_true]
      rcases h.alive p hA with h3 | h3 <;> simp [h3]

theorem resetHigh_post {A : Nat → Bool} (t : Nat) : ∀ (q : Nat) (s : Mem),
    s.hi = t → Inv { s with hi := t, top := t } A → q ≤ t →
      (∀ p, q ≤ p → A p = false ∧ (s.ent p).flags = {}) → 
      Inv (resetHigh s q) A ∧ SameObjects A s (resetHigh s q) ∧
        (resetHigh s q).hi = (resetHigh s q).top ∧ (resetHigh s q).lo = s.lo ∧
        (resetHigh s q).liveOld = s.liveOld ∧
        ∀ p, (resetHigh s q).top ≤ p → A p = false := by
  have lower : ∀ (q : Nat) (s : Mem), s.hi = t → Inv { s with hi := t, top := t } A → q ≤ t →
      (∀ p, q ≤ p → A p = false ∧ (s.ent p).flags = {}) → Inv { s with top := q, hi := q } A := by
    intro q s hst h hqt hd
    refine ⟨h.low, h.alive, ?_, ?_, ?_, ?_, ?_, Nat.le_trans hqt h.size, Nat.le_trans hqt h.size⟩
    · intro p hp hout
      by_cases hpq : q ≤ p
      · exact (hd p hpq).2
      · rcases hout with h1 | h1
        · exact h.dead_out p hp (Or.inl h1)
        · exact absurd h1 hpq
    · intro p h1 h2 h3 h4; exact h.reg_alive p h1 (Nat.lt_of_lt_of_le h2 hqt) h3 h4
    · intro p h1 h2 h3; exact h.reg_dead p h1 (Nat.lt_of_lt_of_le h2 hqt) h3
    · intro p hp
      obtain ⟨a, b, c, d⟩ := h.reach p hp
      refine ⟨a, ?_, c, d⟩
      show p < q
      apply Nat.lt_of_not_le
      intro hx
      rw [(hd p hx).1] at d; exact absurd d (by simp)
    · intro p hp
      show p < q
      apply Nat.lt_of_not_le
      intro hx
      rw [(hd p hx).1] at hp; exact absurd hp (by simp)
  intro q
  induction q with
  | zero =>
    intro s hst h hqt hd
    exact ⟨lower 0 s hst h hqt hd, SameObjects.refl A s, rfl, rfl, rfl, fun p hp => (hd p hp).1⟩
  | succ p ih =>
    intro s hst h hqt hd
    have hs : { s with hi := t, top := t } = { s with top := t } := by rw [← hst]
    have hv : valid s p = A p := by
      have := valid_iff h p
      rw [← this, hs]; rfl
    rw [resetHigh, hv]
    cases hA : A p
    · rw [if_neg (by simp)]
      obtain ⟨h1, h2⟩ := h.sweepAt hA
      obtain ⟨a, b, c, d, e, g⟩ := ih (sweep s p) hst h1 (by omega) (by
        intro q hq
        by_cases hqp : q = p
        · subst hqp; exact ⟨hA, h2⟩
        · have := hd q (by omega)
          refine ⟨this.1, ?_⟩
          show ((if q = p then _ else s.ent q) : Entry).flags = {}
          rw [if_neg hqp]; exact this.2)
      exact ⟨a, (same_sweep s hA).trans b, c, d, e, g⟩
    · rw [if_pos rfl]
      exact ⟨lower (p + 1) s hst h hqt hd, SameObjects.refl A s, rfl, rfl, rfl,
        fun q hq => (hd q hq).1⟩

/-- **The sweep is set up**: `reset_incremental_gc` after the marking. -/
theorem reset_post {s : Mem} {A : Nat → Bool} (h : Marked s A) {fuel : Nat} (hfu : s.top < fuel) :
    ∃ s', reset s fuel = some s' ∧ Inv s' A ∧ FreeOK s' A ∧ Mode s' A ∧ SameObjects A s s' := by
  obtain ⟨s1, q, h1, h2, h3, h4, h5, h6⟩ := resetLow_post fuel s 0 h.inv (by omega) (by omega)
  unfold reset
  rw [h1]
  have htop : ∀ p, A p = true → p < s.top := h.inv.top
  obtain ⟨a, b, c, d, e, g⟩ := resetHigh_post s.top s1.top { s1 with hi := s1.top, lo := q } h4
    (by
      refine ⟨h2.low, h2.alive, h2.dead_out, h2.reg_alive, h2.reg_dead, h2.reach, htop, ?_, ?_⟩
      · show s.top ≤ s1.size; rw [h6]; exact h.size
      · show s.top ≤ s1.size; rw [h6]; exact h.size) (by omega)
    (by
      intro p hp
      rw [h4] at hp
      have hA : A p = false := by
        cases hA : A p
        · rfl
        · have := htop p hA; omega
      exact ⟨hA, h2.dead_out p hA (Or.inr hp)⟩)
  refine ⟨_, rfl, ⟨a.low, a.alive, a.dead_out, a.reg_alive, a.reg_dead, a.reach, a.top, a.size,
    a.hisize⟩, ?_, ?_, ⟨b.1.trans h6, fun p hp => ?_⟩⟩
  · -- the count
    generalize hs' : resetHigh { s1 with hi := s1.top, lo := q } s1.top = s' at *
    simp only [FreeOK]
    have hlen : s'.size - s'.top ≤ outFree { s' with numFree := (s'.size : Int) - ((s'.top : Int) - 1) } A := by
      simp only [outFree]
      exact count_ge s'.top _ (fun p hp => by
        have hpd := g p hp
        simp only [hpd, Bool.not_false, Bool.true_and]
        rw [c]
        simp; omega) s'.size
    have := a.size
    omega
  · intro _
    by_cases hlt : (resetHigh { s1 with hi := s1.top, lo := q } s1.top).lo <
        (resetHigh { s1 with hi := s1.top, lo := q } s1.top).hi
    · exact Or.inl hlt
    · right
      intro p hp
      have hp : (resetHigh { s1 with hi := s1.top, lo := q } s1.top).lo ≤ p := hp
      exact g p (by omega)
  · exact (h3.trans ⟨b.1, b.2⟩).2 p hp

/-! ### Changing flags -/

/-- `s'` differs from `s` in the entries only. -/
def Frame (s s' : Mem) : Prop := s' = { s with ent := s'.ent }

theorem Frame.trans {s s1 s2 : Mem} (h1 : Frame s s1) (h2 : Frame s1 s2) : Frame s s2 := by
  unfold Frame at *
  rw [h2, h1]

theorem frame_setFlags (s : Mem) (p : Nat) (f : Flags) : Frame s (setFlags s p f) := rfl

theorem frame_ifWeak (s : Mem) (p : Nat) (act : Mem → Nat → Mem) (h : Frame s (act s p)) :
    Frame s (ifWeak s p act) := by
  unfold ifWeak; split
  · exact h
  · rfl

theorem frame_sameGen (s : Mem) (p q : Nat) : Frame s (sameGeneration s p q) := by
  unfold sameGeneration; split <;> rfl

theorem frame_fixReach (s : Mem) (p q : Nat) : Frame s (fixReach s p q) := by
  unfold fixReach; split <;> rfl

theorem frame_become (s : Mem) (p q : Nat) : Frame s (become s p q) := by
  unfold become
  refine Frame.trans ?_ (frame_ifWeak _ _ _ rfl)
  refine Frame.trans ?_ (frame_ifWeak _ _ _ rfl)
  refine Frame.trans ?_ (frame_fixReach _ _ _)
  refine Frame.trans ?_ (s1 := sameGeneration (ifWeak (ifWeak s q nonWeak) p nonWeak) p q) rfl
  refine Frame.trans ?_ (frame_sameGen _ _ _)
  refine Frame.trans ?_ (frame_ifWeak _ _ _ rfl)
  exact frame_ifWeak _ _ _ rfl

/-- The entry without its weakness. -/
def dull (e : Entry) : Entry := { e with flags := { e.flags with weak := false } }

theorem ifWeak_nonWeak (s : Mem) (p r : Nat) :
    (ifWeak s p nonWeak).ent r = if r = p then dull (s.ent p) else s.ent r := by
  unfold ifWeak
  by_cases hw : (s.ent p).flags.weak = true
  · rw [if_pos hw]
    simp only [nonWeak, setFlags_ent, dull]
  · rw [if_neg hw]
    by_cases hr : r = p
    · rw [if_pos hr, hr]
      have : (s.ent p).flags.weak = false := by simpa using hw
      show s.ent p = { s.ent p with flags := { (s.ent p).flags with weak := false } }
      rw [← this]
    · rw [if_neg hr]

/-- What an entry holds after `become`: the object and the flags of the other one, but the mark bit
stays with the entry, the weakness is gone, and a new object exchanged with an old one is made
old. -/
def swapped (s : Mem) (p q : Nat) : Entry :=
  { obj := (s.ent q).obj
    flags :=
      { (if (s.ent p).flags.old && !(s.ent q).flags.old then tenureFlags (dull (s.ent q)).flags
          else (dull (s.ent q)).flags) with reachable := (s.ent p).flags.reachable } }

theorem reach_tenure (f : Flags) : (tenureFlags f).reachable = f.reachable := by
  unfold tenureFlags; split <;> rfl
theorem weak_tenure (f : Flags) : (tenureFlags f).weak = f.weak := by
  unfold tenureFlags; split <;> rfl
theorem old_tenure (f : Flags) : (tenureFlags f).old = true := by
  unfold tenureFlags
  split
  · assumption
  · rfl

/-- The two entries in the same generation. -/
def evened (e e' : Entry) : Entry :=
  if e'.flags.old && !e.flags.old then { e with flags := tenureFlags e.flags } else e

theorem sameGen_ent (s : Mem) (p q r : Nat) :
    (sameGeneration s p q).ent r =
      if r = p then evened (s.ent p) (s.ent q) else if r = q then evened (s.ent q) (s.ent p)
      else s.ent r := by
  unfold sameGeneration evened
  cases hp : (s.ent p).flags.old <;> cases hq : (s.ent q).flags.old <;>
    by_cases h1 : r = p <;> by_cases h2 : r = q <;> simp_all [tenure]

theorem exchange_ent (s : Mem) (p q r : Nat) :
    (exchange s p q).ent r = if r = p then s.ent q else if r = q then s.ent p else s.ent r := by
  simp only [exchange, setEnt_ent]

theorem fixReach_ent (s : Mem) (p q r : Nat) (hpq : p ≠ q) :
    (fixReach s p q).ent r =
      if r = p then { s.ent p with flags := { (s.ent p).flags with
        reachable := (s.ent q).flags.reachable } }
      else if r = q then { s.ent q with flags := { (s.ent q).flags with
        reachable := (s.ent p).flags.reachable } }
      else s.ent r := by
  unfold fixReach
  have hqp : q ≠ p := Ne.symm hpq
  cases hp : (s.ent p).flags.reachable <;> cases hq : (s.ent q).flags.reachable <;>
    by_cases h1 : r = p <;> by_cases h2 : r = q <;> simp_all [flipReach]
  all_goals (first | (rw [← hq]; done) | rw [← hp])

theorem ifWeak_not (s : Mem) (p : Nat) (act : Mem → Nat → Mem)
    (h : (s.ent p).flags.weak = false) : ifWeak s p act = s := by
  simp [ifWeak, h]

theorem evened_weak (e e' : Entry) : (evened e e').flags.weak = e.flags.weak := by
  unfold evened; split
  · exact weak_tenure _
  · rfl

/-- **What `become` does to every entry.** -/
theorem become_ent (s : Mem) (p q r : Nat) :
    (become s p q).ent r =
      if r = p then swapped s p q else if r = q then swapped s q p else s.ent r := by
  have e1 : ∀ r, (ifWeak (ifWeak s q nonWeak) p nonWeak).ent r =
      if r = p then dull (s.ent p) else if r = q then dull (s.ent q) else s.ent r := by
    intro r
    rw [ifWeak_nonWeak, ifWeak_nonWeak, ifWeak_nonWeak]
    by_cases hpq : p = q
    · subst hpq
      by_cases hr : r = p <;> simp [hr, dull]
    · simp [hpq]
  unfold become
  simp only
  generalize hs1 : ifWeak (ifWeak s q nonWeak) p nonWeak = s1 at e1
  by_cases hpq : p = q
  · subst hpq
    have e2 : sameGeneration s1 p p = s1 := by simp [sameGeneration]
    have e3 : ∀ r, (exchange s1 p p).ent r = s1.ent r := by
      intro r
      rw [exchange_ent]
      by_cases hr : r = p <;> simp [hr]
    have e4 : fixReach (exchange s1 p p) p p = exchange s1 p p := by simp [fixReach]
    have hw : ((exchange s1 p p).ent p).flags.weak = false := by
      rw [e3, e1, if_pos rfl]; rfl
    rw [e2, e4, ifWeak_not _ _ _ hw, ifWeak_not _ _ _ hw, e3, e1]
    by_cases hr : r = p
    · simp only [if_pos hr]
      simp [swapped, dull]
    · simp only [if_neg hr]
  · have hqp : q ≠ p := Ne.symm hpq
    have f1 : s1.ent p = dull (s.ent p) := by rw [e1, if_pos rfl]
    have f2 : s1.ent q = dull (s.ent q) := by rw [e1, if_neg hqp, if_pos rfl]
    generalize hs2 : sameGeneration s1 p q = s2
    have e2 : ∀ r, s2.ent r = if r = p then evened (dull (s.ent p)) (dull (s.ent q)) else
        if r = q then evened (dull (s.ent q)) (dull (s.ent p)) else s.ent r := by
      intro r
      rw [← hs2, sameGen_ent, f1, f2, e1]
      by_cases h1 : r = p
      · simp [h1]
      · by_cases h2 : r = q <;> simp [h1, h2]
    have g1 : s2.ent p = evened (dull (s.ent p)) (dull (s.ent q)) := by rw [e2, if_pos rfl]
    have g2 : s2.ent q = evened (dull (s.ent q)) (dull (s.ent p)) := by
      rw [e2, if_neg hqp, if_pos rfl]
    generalize hs3 : exchange s2 p q = s3
    have e3 : ∀ r, s3.ent r = if r = p then s2.ent q else if r = q then s2.ent p else s2.ent r := by
      intro r; rw [← hs3, exchange_ent]
    have k1 : s3.ent p = s2.ent q := by rw [e3, if_pos rfl]
    have k2 : s3.ent q = s2.ent p := by rw [e3, if_neg hqp, if_pos rfl]
    generalize hs4 : fixReach s3 p q = s4
    have e4 := fun r => fixReach_ent s3 p q r hpq
    rw [hs4] at e4
    have w1 : (s4.ent p).flags.weak = false := by
      rw [e4, if_pos rfl, k1, g2]
      exact (evened_weak _ _).trans rfl
    have w2 : (s4.ent q).flags.weak = false := by
      rw [e4, if_neg hqp, if_pos rfl, k2, g1]
      exact (evened_weak _ _).trans rfl
    rw [ifWeak_not _ _ _ w2, ifWeak_not _ _ _ w1, e4, k1, k2, g1, g2, e3, e2]
    have hsw : ∀ x y : Nat, ({ evened (dull (s.ent y)) (dull (s.ent x)) with
        flags := { (evened (dull (s.ent y)) (dull (s.ent x))).flags with
          reachable := (evened (dull (s.ent x)) (dull (s.ent y))).flags.reachable } } : Entry) =
        swapped s x y := by
      intro x y
      have hr : (evened (dull (s.ent x)) (dull (s.ent y))).flags.reachable =
          (s.ent x).flags.reachable := by
        unfold evened
        split
        · exact reach_tenure _
        · rfl
      rw [hr]
      unfold evened swapped
      have ho : ∀ e, (dull e).flags.old = e.flags.old := fun _ => rfl
      rw [ho, ho]
      split <;> rfl
    by_cases h1 : r = p
    · simp only [if_pos h1]; exact hsw p q
    · by_cases h2 : r = q
      · simp only [if_neg h1, if_pos h2]; exact hsw q p
      · simp only [if_neg h1, if_neg h2, e2]

/-- Entries in use may be given any flags that keep them in use and leave the mark bit alone. -/
theorem Inv.reflag {s s' : Mem} {A : Nat → Bool} (h : Inv s A) (hfr : Frame s s')
    (hd : ∀ p, A p = false → s'.ent p = s.ent p)
    (ha : ∀ p, A p = true → (s'.ent p).flags.reachable = (s.ent p).flags.reachable ∧
      ((s'.ent p).flags.old = true ∨ (s'.ent p).flags.active = true)) : Inv s' A := by
  have hlo : s'.lo = s.lo := by rw [hfr]
  have hhi : s'.hi = s.hi := by rw [hfr]
  have htop : s'.top = s.top := by rw [hfr]
  have hsz : s'.size = s.size := by rw [hfr]
  have hl : s'.liveOld = s.liveOld := by rw [hfr]
  have hreach : ∀ p, (s'.ent p).flags.reachable = (s.ent p).flags.reachable := by
    intro p
    cases hA : A p
    · rw [hd p hA]
    · exact (ha p hA).1
  refine ⟨?_, ?_, ?_, ?_, ?_, ?_, ?_, ?_, ?_⟩
  · rw [hlo]; exact h.low
  · intro p hp; exact (ha p hp).2
  · intro p hp hout
    rw [hlo, hhi] at hout
    rw [hd p hp]; exact h.dead_out p hp hout
  · intro p h1 h2 h3 h4
    rw [hlo] at h1; rw [hhi] at h2; rw [hl] at h4
    rw [hreach]; exact h.reg_alive p h1 h2 h3 h4
  · intro p h1 h2 h3
    rw [hlo] at h1; rw [hhi] at h2; rw [hl, hd p h3]
    exact h.reg_dead p h1 h2 h3
  · intro p hp
    rw [hreach] at hp; rw [hlo, hhi, hl]; exact h.reach p hp
  · rw [htop]; exact h.top
  · rw [htop, hsz]; exact h.size
  · rw [hhi, hsz]; exact h.hisize

theorem Frame.count {s s' : Mem} {A : Nat → Bool} (hfr : Frame s s') (h : FreeOK s A) :
    FreeOK s' A := by
  rw [hfr]; exact h

theorem Frame.mode {s s' : Mem} {A : Nat → Bool} (hfr : Frame s s') (h : Mode s A) : Mode s' A := by
  rw [hfr]; exact h

theorem swapped_ok {s : Mem} {A : Nat → Bool} (h : Inv s A) {q : Nat} (hq : A q = true) (p : Nat) :
    (swapped s p q).flags.reachable = (s.ent p).flags.reachable ∧
      ((swapped s p q).flags.old = true ∨ (swapped s p q).flags.active = true) := by
  refine ⟨rfl, ?_⟩
  unfold swapped
  simp only
  split
  · left; exact old_tenure _
  · exact h.alive q hq

theorem Inv.become {s : Mem} {A : Nat → Bool} {p q : Nat} (h : Inv s A) (hp : A p = true)
    (hq : A q = true) : Inv (become s p q) A := by
  refine h.reflag (frame_become s p q) ?_ ?_
  · intro r hr
    have h1 : r ≠ p := by rintro rfl; rw [hp] at hr; exact absurd hr (by simp)
    have h2 : r ≠ q := by rintro rfl; rw [hq] at hr; exact absurd hr (by simp)
    rw [become_ent, if_neg h1, if_neg h2]
  · intro r hr
    rw [become_ent]
    by_cases h1 : r = p
    · rw [if_pos h1, h1]; exact swapped_ok h hq p
    · by_cases h2 : r = q
      · rw [if_neg h1, if_pos h2, h2]; exact swapped_ok h hp q
      · rw [if_neg h1, if_neg h2]; exact ⟨rfl, h.alive r hr⟩

theorem Inv.setFlags {s : Mem} {A : Nat → Bool} {p : Nat} {f : Flags} (h : Inv s A) (hp : A p = true)
    (hr : f.reachable = (s.ent p).flags.reachable) (hf : f.old = true ∨ f.active = true) :
    Inv (setFlags s p f) A := by
  refine h.reflag (frame_setFlags s p f) ?_ ?_
  · intro r hA
    have h1 : r ≠ p := by rintro rfl; rw [hp] at hA; exact absurd hA (by simp)
    rw [setFlags_ent, if_neg h1]
  · intro r hr'
    rw [setFlags_ent]
    by_cases h1 : r = p
    · rw [if_pos h1, h1]; exact ⟨hr, hf⟩
    · rw [if_neg h1]; exact ⟨rfl, h.alive r hr'⟩

/-! ### Collections -/

/-- When the sweep is finished, a free entry has no flags, and no entry is marked. -/
theorem swept {s : Mem} {A : Nat → Bool} (h : Inv s A) (he : s.hi ≤ s.lo) (p : Nat) :
    ((s.ent p).flags = {} ↔ A p = false) ∧ (s.ent p).flags.reachable = false := by
  refine ⟨⟨fun hp => ?_, fun hp => h.dead_out p hp (by omega)⟩, ?_⟩
  · cases hA : A p
    · rfl
    · have := h.alive p hA
      rw [hp] at this
      simp at this
  · cases hr : (s.ent p).flags.reachable
    · rfl
    · have := h.reach p hr; omega

theorem global_marked {s : Mem} {A : Nat → Bool} (h : Inv s A) (he : s.hi ≤ s.lo)
    (keep : Nat → Bool) :
    Marked { s with
        ent := fun p => if (s.ent p).flags = {} then s.ent p
          else { s.ent p with flags := globalFlags (keep p) (s.ent p).flags }
        liveOld := false } (fun p => A p && keep p) := by
  refine ⟨?_, ?_, ?_, ?_, ?_, h.size⟩
  · intro p hp
    simp only [Bool.and_eq_true] at hp
    have hne : ¬ (s.ent p).flags = {} := by
      rw [(swept h he p).1, hp.1]; simp
    simp only [if_neg hne, globalFlags, hp.2, if_true]
    left; exact old_tenure _
  · intro p hp _
    simp only [Bool.and_eq_true] at hp
    have hne : ¬ (s.ent p).flags = {} := by
      rw [(swept h he p).1, hp.1]; simp
    simp only [if_neg hne, globalFlags, hp.2, if_true]
  · intro p hp
    refine ⟨?_, ?_, fun hx => absurd hx (by simp)⟩
    all_goals
      simp only
      by_cases hne : (s.ent p).flags = {}
      · rw [if_pos hne, hne]
      · rw [if_neg hne]
        have hA : A p = true := by
          cases hA : A p
          · exact absurd ((swept h he p).1.mpr hA) hne
          · rfl
        have hk : keep p = false := by
          simp only [hA, Bool.true_and] at hp; exact hp
        simp only [globalFlags, hk, Bool.false_eq_true, if_false]
        try exact (swept h he p).2
  · intro hx; exact absurd hx (by simp)
  · intro p hp
    have hA : A p = false := by
      cases hA : A p
      · rfl
      · have hp : s.top ≤ p := hp
        have := h.top p hA; omega
    have := (swept h he p).1.mpr hA
    simp only [if_pos this]
    exact this

theorem scavenge_marked {s : Mem} {A : Nat → Bool} (h : Inv s A) (he : s.hi ≤ s.lo)
    (hl : s.liveOld = true) (keep tenured : Nat → Bool) :
    Marked { s with
        ent := fun p => if (s.ent p).flags = {} then s.ent p
          else { s.ent p with flags := scavengeFlags (keep p) (tenured p) (s.ent p).flags } }
      (fun p => A p && ((s.ent p).flags.old || keep p)) := by
  refine ⟨?_, ?_, ?_, ?_, ?_, h.size⟩
  · intro p hp
    simp only [Bool.and_eq_true, Bool.or_eq_true] at hp
    have hne : ¬ (s.ent p).flags = {} := by
      rw [(swept h he p).1, hp.1]; simp
    simp only [if_neg hne, scavengeFlags]
    by_cases ho : (s.ent p).flags.old = true
    · simp [ho]
    · have hk : keep p = true := by rcases hp.2 with h1 | h1; exact absurd h1 ho; exact h1
      have hact : (s.ent p).flags.active = true := by
        rcases h.alive p hp.1 with h1 | h1
        · exact absurd h1 ho
        · exact h1
      simp only [ho, hk, if_true, if_false, Bool.false_eq_true]
      cases tenured p
      · right; simpa using hact
      · left; simpa using old_tenure _
  · intro p _ hx
    simp only [hl] at hx; exact absurd hx (by simp)
  · intro p hp
    simp only
    by_cases hne : (s.ent p).flags = {}
    · rw [if_pos hne, hne]; exact ⟨rfl, rfl, fun _ => rfl⟩
    · rw [if_neg hne]
      have hA : A p = true := by
        cases hA : A p
        · exact absurd ((swept h he p).1.mpr hA) hne
        · rfl
      have hk : (s.ent p).flags.old = false ∧ keep p = false := by
        simpa [hA] using hp
      rw [scavengeFlags, if_neg (by simp [hk.1]), if_neg (by simp [hk.2])]
      exact ⟨rfl, (swept h he p).2, fun _ => hk.1⟩
  · intro _ p
    simp only
    by_cases hne : (s.ent p).flags = {}
    · rw [if_pos hne, hne]
    · rw [if_neg hne]
      have hr := (swept h he p).2
      unfold scavengeFlags
      split
      · exact hr
      · split
        · split
          · exact (reach_tenure _).trans hr
          · exact hr
        · exact hr
  · intro p hp
    have hA : A p = false := by
      cases hA : A p
      · rfl
      · have hp : s.top ≤ p := hp
        have := h.top p hA; omega
    have := (swept h he p).1.mpr hA
    simp only [if_pos this]
    exact this

end Verif.GC.Table
