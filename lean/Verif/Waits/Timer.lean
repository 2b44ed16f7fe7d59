import Verif.Waits.Delay

/-!
# What delays do
-/

namespace Verif.Waits.Delay

/-! ### What an action does not change -/

/-- What only `start` changes. -/
def stat (d : D) : Option Nat × Nat × Bool := (d.dur, d.due, d.timed)

theorem map_set_same {l : List D} {i : Nat} {d e : D} (h : l[i]? = some d) (he : stat e = stat d) :
    (l.set i e).map stat = l.map stat := by
  apply List.ext_getElem?
  intro j
  rw [List.getElem?_map, List.getElem?_map, get_set h]
  by_cases hj : j = i
  · rw [if_pos hj, hj, h, Option.map_some, Option.map_some, he]
  · rw [if_neg hj]

theorem stat_reset (d : D) : stat (reset d) = stat d := by
  unfold reset
  split <;> rfl

theorem stat_unschedule (s : DSt) (i : Nat) :
    (unschedule s i).ds.map stat = s.ds.map stat ∧ (unschedule s i).clock = s.clock := by
  unfold unschedule
  split
  · exact ⟨rfl, rfl⟩
  · cases hd : s.ds[i]? with
    | none => exact ⟨rfl, rfl⟩
    | some d => exact ⟨map_set_same hd (stat_reset d), rfl⟩

theorem stat_expire (n : Nat) (s : DSt) :
    (expire n s).ds.map stat = s.ds.map stat ∧ (expire n s).clock = s.clock := by
  induction n generalizing s with
  | zero => exact ⟨rfl, rfl⟩
  | succ n ih =>
    unfold expire
    split
    · exact ⟨rfl, rfl⟩
    · rename_i i q hq
      split
      · exact ⟨rfl, rfl⟩
      · rename_i d hd
        split
        · exact ⟨rfl, rfl⟩
        · split
          · have h1 := ih (unschedule { s with ds := s.ds.set i (signal d) } i)
            have h2 := stat_unschedule { s with ds := s.ds.set i (signal d) } i
            exact ⟨h1.1.trans (h2.1.trans (map_set_same hd rfl)), h1.2.trans h2.2⟩
          · exact ⟨rfl, rfl⟩

theorem stat_arm (s : DSt) : (arm s).ds = s.ds ∧ (arm s).clock = s.clock := by
  unfold arm
  split <;> exact ⟨rfl, rfl⟩

theorem stat_handle (s : DSt) (i : Nat) :
    (handle s i).ds.map stat = s.ds.map stat ∧ (handle s i).clock = s.clock := by
  unfold handle
  split
  · exact ⟨rfl, rfl⟩
  · dsimp only
    rw [(stat_arm _).1, (stat_arm _).2]
    refine ⟨(stat_expire _ _).1.trans ?_, (stat_expire _ _).2.trans ?_⟩
    · split
      · rfl
      · exact (stat_unschedule s i).1
    · split
      · rfl
      · exact (stat_unschedule s i).2

/-- An action other than `start` of this delay leaves what it is waiting for. -/
theorem stat_act (s : DSt) (a : DAct) (i : Nat) (ha : a ≠ .start i) :
    ((dact s a).ds[i]?).map stat = (s.ds[i]?).map stat := by
  have of : ∀ t : DSt, t.ds.map stat = s.ds.map stat → (t.ds[i]?).map stat = (s.ds[i]?).map stat := by
    intro t h
    rw [← List.getElem?_map, ← List.getElem?_map, h]
  have one : ∀ j d e, s.ds[j]? = some d → stat e = stat d → ((s.ds.set j e)[i]?).map stat = (s.ds[i]?).map stat := by
    intro j d e hd he
    rw [← List.getElem?_map, ← List.getElem?_map, map_set_same hd he]
  have two : ∀ j d e, s.ds[j]? = some d → stat e = stat d →
      ((handle { s with ds := s.ds.set j e } j).ds[i]?).map stat = (s.ds[i]?).map stat := by
    intro j d e hd he
    exact of _ ((stat_handle _ j).1.trans (map_set_same hd he))
  cases a with
  | tick n => rfl
  | fire =>
    unfold dact
    dsimp only
    cases s.armed with
    | none => rfl
    | some t =>
      dsimp only
      split
      · unfold fired
        refine of _ ?_
        rw [(stat_arm _).1]
        exact (stat_expire _ _).1
      · rfl
  | start j =>
    unfold dact
    dsimp only [target]
    cases hd : s.ds[j]? with
    | none => rfl
    | some d =>
      dsimp only [dgo]
      split
      · dsimp only
        rw [get_set hd, if_neg (fun h => ha (by rw [h]))]
      · rfl
  | make j =>
    unfold dact
    dsimp only [target]
    cases hd : s.ds[j]? with
    | none => rfl
    | some d =>
      dsimp only [dgo]
      split
      · exact one j d _ hd rfl
      · rfl
  | request j =>
    unfold dact
    dsimp only [target]
    cases hd : s.ds[j]? with
    | none => rfl
    | some d =>
      dsimp only [dgo]
      split
      · exact two j d _ hd rfl
      · rfl
  | sleep j =>
    unfold dact
    dsimp only [target]
    cases hd : s.ds[j]? with
    | none => rfl
    | some d =>
      dsimp only [dgo]
      split
      · exact one j d _ hd rfl
      · rfl
  | check j =>
    unfold dact
    dsimp only [target]
    cases hd : s.ds[j]? with
    | none => rfl
    | some d =>
      dsimp only [dgo]
      split
      · exact one j d _ hd rfl
      · rfl
  | wait j =>
    unfold dact
    dsimp only [target]
    cases hd : s.ds[j]? with
    | none => rfl
    | some d =>
      dsimp only [dgo]
      split
      · exact one j d _ hd rfl
      · rfl
  | cancel j =>
    unfold dact
    dsimp only [target]
    cases hd : s.ds[j]? with
    | none => rfl
    | some d =>
      dsimp only [dgo]
      split
      · split
        · exact two j d _ hd rfl
        · exact one j d _ hd rfl
      · rfl
  | kill j =>
    unfold dact
    dsimp only [target]
    cases hd : s.ds[j]? with
    | none => rfl
    | some d =>
      dsimp only [dgo]
      split
      · exact one j d _ hd rfl
      · split
        · exact two j d _ hd rfl
        · rfl
  | finish j =>
    unfold dact
    dsimp only [target]
    cases hd : s.ds[j]? with
    | none => rfl
    | some d =>
      dsimp only [dgo]
      split
      · exact one j d _ hd rfl
      · rfl

theorem stat_acts (s : DSt) (as : List DAct) (i : Nat) (ha : .start i ∉ as) :
    ((dacts s as).ds[i]?).map stat = (s.ds[i]?).map stat := by
  induction as generalizing s with
  | nil => rfl
  | cons a as ih =>
    refine (ih (dact s a) (fun h => ha (List.mem_cons_of_mem _ h))).trans (stat_act s a i ?_)
    rintro rfl
    exact ha List.mem_cons_self

theorem dacts_append (s : DSt) (as bs : List DAct) : dacts s (as ++ bs) = dacts (dacts s as) bs := by
  simp [dacts]

/-- The time at which a process wants to go on that starts to wait now. -/
def Until (now : Nat) (d : D) (t : Nat) : Prop :=
  match d.dur with
  | some n => t = now + n
  | none => d.res = some t

/-- After `start` and anything that is not `start`, the delay wants to wait until then. -/
theorem due_after {s : DSt} (hi : DInv s) {i : Nat} {d e : D} {t : Nat} {post : List DAct} (hd : s.ds[i]? = some d)
    (hidle : d.pc = .idle) (ht : Until s.clock d t) (hpost : .start i ∉ post)
    (he : (dacts (dact s (.start i)) post).ds[i]? = some e) : e.due = t := by
  have h := stat_acts (dact s (.start i)) post i hpost
  have hg := hi.good i d hd
  simp only [Good, hidle] at hg
  have hs : (dact s (.start i)).ds[i]? = some (start s.clock d) := by
    unfold dact
    dsimp only [target]
    rw [hd]
    dsimp only [dgo]
    rw [if_pos ⟨hidle, hg.1⟩]
    dsimp only
    rw [get_set hd, if_pos rfl]
  rw [he, hs] at h
  simp only [Option.map_some, Option.some.injEq, stat, Prod.mk.injEq] at h
  rw [h.2.1]
  unfold Until at ht
  unfold start
  dsimp only
  cases hdur : d.dur with
  | none =>
    rw [hdur] at ht
    dsimp only at ht ⊢
    rw [ht]
    rfl
  | some n =>
    rw [hdur] at ht
    exact ht.symm

/-! ### Nobody wakes too early -/

/-- A process that has started to wait for some time does not go on before that time has passed; with a delay until some
time, not before that time.  Whatever was done with the delays before.
Missing: see `terminated_then_early` for processes that are terminated before they have made the request. -/
theorem not_too_early_partial (clock : Nat) (ks : List ((Nat ⊕ Nat) × Bool)) (pre post : List DAct) (i : Nat) (d e : D)
    (t : Nat) (hs : Smooth (pre ++ .start i :: post))
    (hd : (dacts (DSt.begin clock ks) pre).ds[i]? = some d) (hidle : d.pc = .idle)
    (ht : Until (dacts (DSt.begin clock ks) pre).clock d t) (hpost : .start i ∉ post)
    (he : (dacts (DSt.begin clock ks) (pre ++ .start i :: post)).ds[i]? = some e) (hdone : e.pc = .done) :
    t ≤ (dacts (DSt.begin clock ks) (pre ++ .start i :: post)).clock := by
  have hi := (begin_inv clock ks).acts pre (fun a ha => hs a (List.mem_append_left _ ha))
  have hi2 := (begin_inv clock ks).acts (pre ++ .start i :: post) hs
  have hg := hi2.good i e he
  simp only [Good, hdone] at hg
  rw [dacts_append] at he
  rw [← due_after hi hd hidle ht hpost he]
  exact hg.2.2.2

example :
    let s := dacts (DSt.begin 5 [(.inl 10, false), (.inl 3, false)])
        [.start 0, .make 0, .request 0, .start 1, .make 1, .request 1, .sleep 0, .sleep 1, .tick 2, .fire, .tick 1, .fire]
    s.ds.map D.pc = [.sleeping, .done] ∧ s.armed = some 15 := by decide +kernel

/-! ### Nobody sleeps too long -/

/-- When the time has come until which a process wants to wait, the timer is set for a time that has come, and the
process goes on as soon as the timer fires.
Missing: see `timeout_lost` and `nil_waits` for a timer that fires between the test and `wait`. -/
theorem not_too_late_partial (clock : Nat) (ks : List ((Nat ⊕ Nat) × Bool)) (pre post : List DAct) (i : Nat) (d e : D)
    (t : Nat) (hs : Smooth (pre ++ .start i :: post))
    (hd : (dacts (DSt.begin clock ks) pre).ds[i]? = some d) (hidle : d.pc = .idle)
    (ht : Until (dacts (DSt.begin clock ks) pre).clock d t) (hpost : .start i ∉ post)
    (he : (dacts (DSt.begin clock ks) (pre ++ .start i :: post)).ds[i]? = some e) (hsl : e.pc = .sleeping)
    (hcome : t ≤ (dacts (DSt.begin clock ks) (pre ++ .start i :: post)).clock) :
    (∃ a, (dacts (DSt.begin clock ks) (pre ++ .start i :: post)).armed = some a ∧
      a ≤ (dacts (DSt.begin clock ks) (pre ++ .start i :: post)).clock) ∧
    ∃ f, (dacts (DSt.begin clock ks) (pre ++ .start i :: post ++ [.fire])).ds[i]? = some f ∧ f.pc = .done := by
  have hi := (begin_inv clock ks).acts pre (fun a ha => hs a (List.mem_append_left _ ha))
  have hi2 := (begin_inv clock ks).acts (pre ++ .start i :: post) hs
  have hg := hi2.good i e he
  simp only [Good, hsl, decide_eq_true_eq] at hg
  obtain ⟨hact, hin, hres⟩ := hg
  have hdue : e.due = t := by
    have he' := he
    rw [dacts_append] at he'
    exact due_after hi hd hidle ht hpost he'
  rw [dacts_append _ (pre ++ .start i :: post) [.fire]]
  generalize dacts (DSt.begin clock ks) (pre ++ .start i :: post) = s at *
  have hkey : key s.ds i = t := by
    unfold key
    rw [he]
    simp [hres, hdue]
  have harm : ∃ a, s.armed = some a ∧ a ≤ s.clock := by
    cases hq : s.queue with
    | nil => rw [hq] at hin; cases hin
    | cons j q =>
      refine ⟨_, hi2.armed j q hq, ?_⟩
      have hsrt := hi2.sorted
      rw [hq] at hsrt hin
      rcases List.mem_cons.mp hin with rfl | hm
      · omega
      · have := (List.pairwise_cons.mp hsrt).1 i hm
        omega
  refine ⟨harm, ?_⟩
  obtain ⟨a, ha, hale⟩ := harm
  have hfire : dact s .fire = fired s := by
    unfold dact
    simp only [ha]
    rw [if_pos hale]
  show ∃ f, (dact s .fire).ds[i]? = some f ∧ f.pc = .done
  have hi3 := hi2.act .fire (fun _ => by simp)
  have hst := stat_act s .fire i (by simp)
  rw [he] at hst
  cases hf : (dact s .fire).ds[i]? with
  | none => rw [hf] at hst; cases hst
  | some f =>
    refine ⟨f, rfl, ?_⟩
    have hgf := hi3.good i f hf
    rw [hf] at hst
    simp only [Option.map_some, Option.some.injEq, stat, Prod.mk.injEq] at hst
    -- it is not in the queue any more
    have hout : i ∉ (dact s .fire).queue := by
      intro hm
      have hgg : GInv { s with armed := none } := ⟨hi2.nodup, hi2.lt, hi2.good, hi2.sorted⟩
      obtain ⟨_, _, hc, hlt⟩ := settled hgg
      rw [hfire] at hm hf hgf
      have h1 := hlt i hm
      rw [decide_eq_true hm] at hgf
      have h2 := (good_in hgf).2.1
      have hk : key (fired s).ds i = f.due := by
        unfold key
        rw [hf]
        simp [h2]
      have h3 : key (fired s).ds i = t := by rw [hk, hst.2.1, hdue]
      have h4 : s.clock < key (fired s).ds i := h1
      omega
    -- firing does not change where it is, unless it wakes it
    have hpc : f.pc = .done ∨ f.pc = .sleeping := by
      have : ∀ n (u : DSt), (∀ x, u.ds[i]? = some x → x.pc = .done ∨ x.pc = .sleeping) →
          ∀ x, (expire n u).ds[i]? = some x → x.pc = .done ∨ x.pc = .sleeping := by
        intro n
        induction n with
        | zero => exact fun u h => h
        | succ n ih =>
          intro u h
          unfold expire
          split
          · exact h
          · rename_i j q hq
            split
            · exact h
            · rename_i x hx
              split
              · exact h
              · split
                · refine ih _ ?_
                  have hset : (u.ds.set j (signal x))[j]? = some (signal x) := by rw [get_set hx, if_pos rfl]
                  have hu : unschedule { u with ds := u.ds.set j (signal x) } j =
                      ⟨u.clock, u.ds.set j (reset (signal x)), u.queue.erase j, u.armed⟩ := by
                    unfold unschedule
                    rw [if_neg (by simp [hq])]
                    simp only [hset, List.set_set]
                  rw [hu]
                  intro y hy
                  dsimp only at hy
                  rw [get_set hx] at hy
                  by_cases hij : i = j
                  · rw [if_pos hij] at hy
                    cases hy
                    subst hij
                    have hp : (reset (signal x)).pc = (signal x).pc := by unfold reset; split <;> rfl
                    rw [hp]
                    rcases h x hx with h | h <;> simp [signal, h]
                  · rw [if_neg hij] at hy
                    exact h y hy
                · exact h
      have hfin := this s.queue.length { s with armed := none } (by
        intro x hx
        dsimp only at hx
        rw [he] at hx
        cases hx
        exact Or.inr hsl) f
      apply hfin
      rw [hfire] at hf
      unfold fired at hf
      rw [(stat_arm _).1] at hf
      exact hf
    rcases hpc with hpc | hpc
    · exact hpc
    · simp only [Good, hpc, decide_eq_true_eq] at hgf
      exact absurd hgf.2.1 hout

example :
    let s := dacts (DSt.begin 5 [(.inl 10, true), (.inr 9, false)])
        [.start 0, .make 0, .request 0, .start 1, .make 1, .request 1, .sleep 0, .sleep 1, .tick 10]
    s.ds.map D.pc = [.sleeping, .sleeping] ∧ s.armed = some 9 ∧ (dact s .fire).ds.map D.pc = [.done, .done] := by
  decide +kernel

/-! ### Processes that are disturbed -/

/-- If the timer fires after `delaySemaphore == nil` and before `delaySemaphore wait`, then `wait` is sent to nil. -/
theorem nil_waits : ∃ as : List DAct, (∀ a ∈ as, ∀ i, a ≠ .kill i) ∧
    (dacts (DSt.begin 0 [(.inl 10, false)]) as).ds.map D.pc = [.failed] := by
  refine ⟨[.start 0, .make 0, .request 0, .check 0, .tick 10, .fire, .wait 0], ?_, by decide +kernel⟩
  intro a ha i
  rintro rfl
  revert ha
  simp

/-- If the timer fires at that point in `timedWaitOn:`, the process sleeps although its time has passed, the delay is in
no queue and the timer is not set: only the semaphore can wake it. -/
theorem timeout_lost : ∃ as : List DAct, (∀ a ∈ as, ∀ i, a ≠ .kill i) ∧
    (dacts (DSt.begin 0 [(.inl 10, true)]) as).ds.map D.pc = [.sleeping] ∧
    ∀ n, dacts (DSt.begin 0 [(.inl 10, true)]) (as ++ [.tick n, .fire]) =
      { dacts (DSt.begin 0 [(.inl 10, true)]) as with clock := 10 + n } := by
  have h : dacts (DSt.begin 0 [(.inl 10, true)]) [.start 0, .make 0, .request 0, .check 0, .tick 10, .fire, .wait 0] =
      ⟨10, [⟨some 10, none, false, true, .sleeping, 10⟩], [], none⟩ := by decide +kernel
  refine ⟨[.start 0, .make 0, .request 0, .check 0, .tick 10, .fire, .wait 0], ?_, by rw [h]; rfl, ?_⟩
  · intro a ha i
    rintro rfl
    revert ha
    simp
  · intro n
    rw [dacts_append, h]
    rfl

/-- If a process is terminated right after `start`, or right after it has made the semaphore while no other delay is
waited for, then the next process that waits on the same delay goes on at once. -/
theorem terminated_then_early (k : List DAct) (hk : k = [.start 0, .kill 0] ∨ k = [.start 0, .make 0, .kill 0]) :
    (dacts (DSt.begin 0 [(.inl 10, false)]) k).ds.map D.pc = [.idle] ∧
    (dacts (DSt.begin 0 [(.inl 10, false)]) (k ++ [.tick 20, .start 0, .make 0, .request 0, .sleep 0])).ds.map D.pc =
      [.done] ∧
    (dacts (DSt.begin 0 [(.inl 10, false)]) (k ++ [.tick 20, .start 0, .make 0, .request 0, .sleep 0])).clock = 20 := by
  rcases hk with rfl | rfl <;> decide +kernel

/-! ### Equality -/

/-- `=` (kernel/Delay.st:202-210), of two delays of the same class. -/
def eq (d e : D) : Bool := if d.dur = none then d.res = e.res else d.dur = e.dur

/-- `hash` (kernel/Delay.st:212-217), from the hash of nil or an integer. -/
def hash (h : Option Nat → Nat) (d : D) : Nat := h d.res ^^^ h d.dur

/-- Delays that nobody waits for and that are of the same kind: those that are equal are interchangeable in sets, and
`=` is symmetric.
Missing: delays that are waited for, or of both kinds (`equal_hash_differs`, `equal_not_symmetric`). -/
theorem equal_delays_partial (h : Option Nat → Nat) (d e : D) (hd : Ready d) (he : Ready e)
    (hk : d.dur = none ↔ e.dur = none) :
    eq d e = eq e d ∧ (eq d e = true → hash h d = hash h e) ∧ (eq d e = true ↔ (d.dur, d.res) = (e.dur, e.res)) := by
  unfold Ready at hd he
  unfold eq hash
  by_cases hn : d.dur = none
  · have hn' := hk.mp hn
    rw [if_pos hn, if_pos hn', hn, hn']
    refine ⟨by rw [decide_eq_decide]; exact eq_comm, fun h => ?_, by simp⟩
    rw [of_decide_eq_true h]
  · have hn' := fun h => hn (hk.mpr h)
    rw [if_neg hn] at hd
    rw [if_neg hn'] at he
    rw [if_neg hn, if_neg hn', hd, he]
    refine ⟨by rw [decide_eq_decide]; exact eq_comm, fun h => ?_, by simp⟩
    rw [of_decide_eq_true h]

example : eq (fresh (.inl 4)) (fresh (.inl 4)) = true ∧ eq (fresh (.inr 4)) (fresh (.inr 5)) = false := by decide

/-- A delay that is being waited for is equal to one with the same duration, but has another hash. -/
theorem equal_hash_differs (h : Option Nat → Nat) (hh : h none ≠ h (some 17)) :
    ∃ d e, (dacts (DSt.begin 7 [(.inl 10, false), (.inl 10, false)]) [.start 0]).ds = [d, e] ∧ eq d e = true ∧
      hash h d ≠ hash h e := by
  refine ⟨⟨some 10, some 17, false, false, .started, 17⟩, ⟨some 10, none, false, false, .idle, 0⟩,
    by decide +kernel, by decide +kernel, ?_⟩
  unfold hash
  dsimp only
  intro e
  have := congrArg (· ^^^ h (some 10)) e
  simp only [Nat.xor_assoc, Nat.xor_self, Nat.xor_zero] at this
  exact hh this.symm

/-- A delay until some time may be equal to one that is not equal to it. -/
theorem equal_not_symmetric :
    ∃ d e, (dacts (DSt.begin 7 [(.inl 10, false), (.inr 17, false)]) [.start 0]).ds = [d, e] ∧ eq e d = true ∧
      eq d e = false :=
  ⟨⟨some 10, some 17, false, false, .started, 17⟩, ⟨none, some 17, false, false, .idle, 0⟩,
    by decide +kernel, by decide +kernel, by decide +kernel⟩

end Verif.Waits.Delay
