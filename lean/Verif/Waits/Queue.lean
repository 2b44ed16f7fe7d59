import Verif.Waits.Shared

/-!
# What shared queues do
-/

namespace Verif.Waits.Shared

variable {α : Type} [DecidableEq α]

/-! ### Sequential queues -/

/-- In a queue, what has been added is what has been removed, and then what is left. -/
theorem replay_fifo (q : List α) (ops : List (Op α)) (r : List α)
    (h : replay (fun xs v => xs ++ [v]) q ops = some r) : q ++ adds ops = rems ops ++ r := by
  induction ops generalizing q with
  | nil =>
    cases h
    simp [adds, rems]
  | cons o ops ih =>
    cases o with
    | add p v =>
      have := ih _ h
      simp only [adds, rems, List.filterMap_cons] at this ⊢
      rw [← this]
      simp
    | rem p x =>
      cases q with
      | nil => cases h
      | cons y ys =>
        simp only [replay] at h
        split at h
        · rename_i hyx
          subst hyx
          have := ih _ h
          simp only [adds, rems, List.filterMap_cons] at this ⊢
          rw [List.cons_append, this, List.cons_append]
        · cases h

/-- In any collection, what has been added is what has been removed and what is left, in some order. -/
theorem replay_perm {ins : List α → α → List α} (hins : ∀ xs v, (ins xs v).Perm (v :: xs)) (q : List α)
    (ops : List (Op α)) (r : List α) (h : replay ins q ops = some r) : (q ++ adds ops).Perm (rems ops ++ r) := by
  induction ops generalizing q with
  | nil =>
    cases h
    simp [adds, rems]
  | cons o ops ih =>
    cases o with
    | add p v =>
      have := ih _ h
      simp only [adds, rems, List.filterMap_cons] at this ⊢
      refine List.Perm.trans ?_ this
      refine List.Perm.trans List.perm_middle ?_
      rw [← List.cons_append]
      exact (hins q v).symm.append_right _
    | rem p x =>
      cases q with
      | nil => cases h
      | cons y ys =>
        simp only [replay] at h
        split at h
        · rename_i hyx
          subst hyx
          have := ih _ h
          simp only [adds, rems, List.filterMap_cons] at this ⊢
          rw [List.cons_append, List.cons_append]
          exact this.cons y
        · cases h

/-- In a sorted collection, what is removed comes before all that is left. -/
theorem replay_sorted {ins : List α → α → List α} {le : α → α → Prop}
    (hins : ∀ xs v, xs.Pairwise le → (ins xs v).Pairwise le) (q : List α) (hq : q.Pairwise le) (l r : List (Op α))
    (p : Nat) (x : α) (t : List α) (h : replay ins q (l ++ .rem p x :: r) = some t) :
    ∃ ys, replay ins q l = some (x :: ys) ∧ ∀ y ∈ ys, le x y := by
  induction l generalizing q with
  | nil =>
    cases q with
    | nil => cases h
    | cons y ys =>
      simp only [List.nil_append, replay] at h
      split at h
      · rename_i hyx
        subst hyx
        exact ⟨ys, rfl, (List.pairwise_cons.mp hq).1⟩
      · cases h
  | cons o l ih =>
    cases o with
    | add p v => exact ih _ (hins q v hq) h
    | rem p z =>
      cases q with
      | nil => cases h
      | cons y ys =>
        simp only [List.cons_append, replay] at h ⊢
        split at h
        · rename_i hyz
          rw [if_pos hyz]
          exact ih _ (List.pairwise_cons.mp hq).2 h
        · cases h

/-! ### Theorems -/

/-- C138.  However the processes are interleaved, the queue is used as if one operation after the other had been done
on the collection: each value that was put is added once, in the order in which each process put them; what `next`
answers is what was removed; and nobody ever removes from an empty collection.  Missing: processes that are resumed or
terminated while they wait (`resumed_fails`, `terminated_loses`). -/
theorem shared_queue_partial (ins : List α → α → List α) (hins : ∀ xs v, (ins xs v).length = xs.length + 1) (n : Nat)
    (as : List (QAct α)) (hc : Calm as) :
    ∃ ops : List (Op α), replay ins [] ops = some (qacts ins (QSt.start n) as).queue ∧
      (∀ p, remsOf p ops = answersOf p (qacts ins (QSt.start n) as).answers ++
        pending (qacts ins (QSt.start n) as).loc[p]?) ∧
      (∀ p, answersOf p (qacts ins (QSt.start n) as).puts = addsOf p ops ++
        adding (qacts ins (QSt.start n) as).loc[p]?) ∧
      ∀ p : Nat, (qacts ins (QSt.start n) as).loc[p]? ≠ some .failed := by
  have hi := (start_qinv ins n).acts hins as hc
  refine ⟨_, hi.log, hi.answers, hi.puts, ?_⟩
  intro p hp
  have hlt : p < (qacts ins (QSt.start n) as).base.pcs.length := by
    rw [← hi.length]
    exact (List.getElem?_eq_some_iff.mp hp).1
  exact hi.ok p _ _ hp (List.getElem?_eq_getElem hlt)

/-- C138, queues made by `SharedQueue new`: values come out in the order in which they were added. -/
theorem shared_queue_fifo_partial (n : Nat) (as : List (QAct α)) (hc : Calm as) :
    ∃ ops : List (Op α), adds ops = rems ops ++ (qacts (fun xs v => xs ++ [v]) (QSt.start n) as).queue ∧
      (∀ p, remsOf p ops = answersOf p (qacts (fun xs v => xs ++ [v]) (QSt.start n) as).answers ++
        pending (qacts (fun xs v => xs ++ [v]) (QSt.start n) as).loc[p]?) ∧
      (∀ p, answersOf p (qacts (fun xs v => xs ++ [v]) (QSt.start n) as).puts = addsOf p ops ++
        adding (qacts (fun xs v => xs ++ [v]) (QSt.start n) as).loc[p]?) := by
  obtain ⟨ops, h1, h2, h3, _⟩ := shared_queue_partial (fun xs v => xs ++ [v]) (by simp) n as hc
  exact ⟨ops, by simpa using replay_fifo [] ops _ h1, h2, h3⟩

/-- C139.  Queues made by `SharedQueue sortBlock:`: nothing is lost or duplicated, and `next` takes a value that comes
before all others that are in the queue at that time. -/
theorem shared_queue_sorted_partial (ins : List α → α → List α) (le : α → α → Prop)
    (hperm : ∀ xs v, (ins xs v).Perm (v :: xs)) (hsort : ∀ xs v, xs.Pairwise le → (ins xs v).Pairwise le) (n : Nat)
    (as : List (QAct α)) (hc : Calm as) :
    ∃ ops : List (Op α), (adds ops).Perm (rems ops ++ (qacts ins (QSt.start n) as).queue) ∧
      (∀ p, remsOf p ops = answersOf p (qacts ins (QSt.start n) as).answers ++
        pending (qacts ins (QSt.start n) as).loc[p]?) ∧
      (∀ p, answersOf p (qacts ins (QSt.start n) as).puts = addsOf p ops ++
        adding (qacts ins (QSt.start n) as).loc[p]?) ∧
      ∀ (l r : List (Op α)) p x, ops = l ++ .rem p x :: r →
        ∃ ys, (adds l).Perm (rems l ++ x :: ys) ∧ ∀ y ∈ ys, le x y := by
  obtain ⟨ops, h1, h2, h3, _⟩ := shared_queue_partial ins (fun xs v => (hperm xs v).length_eq) n as hc
  refine ⟨ops, by simpa using replay_perm hperm [] ops _ h1, h2, h3, ?_⟩
  rintro l r p x rfl
  obtain ⟨ys, h4, h5⟩ := replay_sorted (le := le) hsort [] List.Pairwise.nil l r p x _ h1
  exact ⟨ys, by simpa using replay_perm hperm [] l _ h4, h5⟩

/-- Sorted insertion meets the hypotheses. -/
example : ∃ ins : List Nat → Nat → List Nat, (∀ xs v, (ins xs v).Perm (v :: xs)) ∧
    (∀ xs v, xs.Pairwise (· ≤ ·) → (ins xs v).Pairwise (· ≤ ·)) := by
  have hp : ∀ (xs : List Nat) (v : Nat), (xs.filter (· ≤ v) ++ v :: xs.filter (fun x => !decide (x ≤ v))).Perm (v :: xs) := by
    intro xs v
    refine List.Perm.trans List.perm_middle ?_
    exact (List.filter_append_perm _ xs).cons v
  refine ⟨fun xs v => xs.filter (· ≤ v) ++ v :: xs.filter (fun x => !decide (x ≤ v)), hp, ?_⟩
  intro xs v h
  rw [List.pairwise_append]
  refine ⟨h.filter _, ?_, ?_⟩
  · rw [List.pairwise_cons]
    refine ⟨?_, h.filter _⟩
    intro y hy
    simp only [List.mem_filter, Bool.not_eq_true', decide_eq_false_iff_not] at hy
    omega
  · intro a ha b hb
    simp only [List.mem_filter, decide_eq_true_eq, List.mem_cons, Bool.not_eq_true', decide_eq_false_iff_not] at ha hb
    rcases hb with rfl | hb
    · exact ha.2
    · omega

/-- Two processes put, two take, mixed. -/
example : (qacts (fun xs v => xs ++ [v]) (QSt.start 3) ([.next 2, .step 2, .put 0 7, .put 1 8] ++
    (List.replicate 35 [QAct.step 0, .step 1, .step 2]).flatten)).answers = [(2, 7)] ∧
    (qacts (fun xs v => xs ++ [v]) (QSt.start 3) ([.next 2, .step 2, .put 0 7, .put 1 8] ++
    (List.replicate 35 [QAct.step 0, .step 1, .step 2]).flatten)).queue = [8] := by decide +kernel

/-- C138, `peek`: a process that has come to the block of `peek` finds a value in the collection, and that value is
what it is going to answer; the collection stays as it is. -/
theorem peek_partial (ins : List α → α → List α) (hins : ∀ xs v, (ins xs v).length = xs.length + 1) (n : Nat)
    (as : List (QAct α)) (hc : Calm as) (p : Nat) (hp : (qacts ins (QSt.start n) as).loc[p]? = some .kCrit)
    (hin : (qacts ins (QSt.start n) as).base.pcs[p]? = some .inside) :
    ∃ x xs, (qacts ins (QSt.start n) as).queue = x :: xs ∧
      (qacts ins (QSt.start n) (as ++ [.step p])).loc[p]? = some (.kDone x) ∧
      (qacts ins (QSt.start n) (as ++ [.step p])).queue = x :: xs := by
  have hi := (start_qinv ins n).acts hins as hc
  have happ : qacts ins (QSt.start n) (as ++ [.step p]) = qact ins (qacts ins (QSt.start n) as) (.step p) := by
    simp [qacts]
  rw [happ]
  revert hi hp hin
  generalize qacts ins (QSt.start n) as = s
  intro hp hin hi
  have hpos : 0 < s.loc.countP tok := List.countP_pos_iff.mpr ⟨_, List.mem_of_getElem? hp, rfl⟩
  have ht := hi.tokens
  cases hq : s.queue with
  | nil =>
    rw [hq, List.length_nil] at ht
    omega
  | cons x xs =>
    refine ⟨x, xs, rfl, ?_, ?_⟩ <;> simp [qact, hp, qgo, upto, hin, hq, get_set_any hp]

example : (qacts (fun xs v => xs ++ [v]) (QSt.start 2) ([.put 0 7] ++ List.replicate 10 (QAct.step 0) ++ [.peek 1] ++
    List.replicate 6 (QAct.step 1))).loc = [.idle, .kCrit] ∧
  (qacts (fun xs v => xs ++ [v]) (QSt.start 2) ([.put 0 7] ++ List.replicate 10 (QAct.step 0) ++ [.peek 1] ++
    List.replicate 6 (QAct.step 1))).base.pcs = [.out, .inside] := by decide +kernel

/-- C140.  Nobody waits in vain: when no process can go on, those that have not come back wait in `next` or `peek`, and
then the queue is empty.  Missing: processes that are resumed or terminated while they wait (`terminated_loses`). -/
theorem nobody_waits_in_vain_partial (ins : List α → α → List α)
    (hins : ∀ xs v, (ins xs v).length = xs.length + 1) (n : Nat) (as : List (QAct α)) (hc : Calm as)
    (hstuck : ∀ p, qact ins (qacts ins (QSt.start n) as) (.step p) = qacts ins (QSt.start n) as) :
    (∀ l ∈ (qacts ins (QSt.start n) as).loc, l = .idle ∨ l = .nBlocked ∨ l = .kBlocked) ∧
    ((∃ l ∈ (qacts ins (QSt.start n) as).loc, l = .nBlocked ∨ l = .kBlocked) →
      (qacts ins (QSt.start n) as).queue = []) := by
  have hi := (start_qinv ins n).acts hins as hc
  revert hi hstuck
  generalize qacts ins (QSt.start n) as = s
  intro hstuck hi
  have pc : ∀ (p : Nat) l, s.loc[p]? = some l → ∃ c, s.base.pcs[p]? = some c ∧ Ok l c := by
    intro p l hp
    have hlt : p < s.base.pcs.length := by
      rw [← hi.length]
      exact (List.getElem?_eq_some_iff.mp hp).1
    exact ⟨_, List.getElem?_eq_getElem hlt, hi.ok p l _ hp (List.getElem?_eq_getElem hlt)⟩
  have step : ∀ (p : Nat) l, s.loc[p]? = some l → qgo ins s p l = s := by
    intro p l hp
    have := hstuck p
    simpa only [qact, hp] using this
  -- a process whose place changes is not stuck
  have moved : ∀ (p : Nat) l l' (t : QSt α), s.loc[p]? = some l → t = s → t.loc[p]? = some l' → l = l' := by
    intro p l l' t h1 h2 h3
    subst h2
    rw [h1] at h3
    exact Option.some.inj h3
  have own : ∀ (p : Nat) l l', s.loc[p]? = some l → (s.loc.set p l')[p]? = some l' := by
    intro p l l' hp
    rw [get_set_any hp, if_pos rfl]
  have bmoved : ∀ (p : Nat) c d (a : Act), s.base.pcs[p]? = some c → { s with base := act s.base a } = s →
      (act s.base a).pcs[p]? = some d → c = d := by
    intro p c d a h1 h2 h3
    have : act s.base a = s.base := congrArg QSt.base h2
    rw [this, h1] at h3
    exact Option.some.inj h3
  -- on the way to the block one is only stuck when one waits
  have way : ∀ (p : Nat) l c t, s.loc[p]? = some l → s.base.pcs[p]? = some c → (c = .out ∨ Early c ∨ c = .inside) →
      (s.base.pcs[p]? = some .inside → t ≠ s) → upto s p t = s → c = .waiting := by
    intro p l c t hp hc h ht hu
    unfold upto at hu
    rw [hc] at hu
    rcases h with rfl | h | rfl
    · have := bmoved p _ .arrive _ hc hu (by simp only [act, if_pos hc, get_set hc, if_true])
      cases this
    · cases c with
      | waiting => rfl
      | arrive =>
        exfalso
        dsimp only at hu
        have h3 : ∃ d, d ≠ .arrive ∧ (act s.base (.step p)).pcs[p]? = some d := by
          rw [act_step hc]
          unfold go
          by_cases hs : s.base.signals ≤ 0
          · simp only [if_pos hs, get_set hc, if_true]
            exact ⟨_, by simp, rfl⟩
          · simp only [if_neg hs, get_set hc, if_true]
            exact ⟨_, by simp, rfl⟩
        obtain ⟨d, hd, h4⟩ := h3
        exact hd (bmoved p _ d _ hc hu h4).symm
      | got b =>
        have := bmoved p _ (.back b) _ hc hu (by rw [act_step hc]; simp only [go, get_set hc, if_true])
        cases this
      | back b =>
        have := bmoved p _ (.owns b) _ hc hu (by rw [act_step hc]; simp only [go, get_set hc, if_true])
        cases this
      | owns b =>
        cases b with
        | false => simp [Early] at h
        | true =>
          have := bmoved p _ .inside _ hc hu (by rw [act_step hc]; simp only [go, get_set hc, if_true])
          cases this
      | _ => simp [Early] at h
    · exact absurd hu (ht hc)
  -- after the block one is never stuck
  have past : ∀ (p : Nat) l c t, s.loc[p]? = some l → s.base.pcs[p]? = some c →
      (c = .inside ∨ c = .leave true ∨ c = .out) → (s.base.pcs[p]? = some .out → t ≠ s) → after s p t = s → False := by
    intro p l c t hp hc h ht hu
    unfold after at hu
    rw [hc] at hu
    rcases h with rfl | rfl | rfl
    · have := bmoved p _ (.leave true) _ hc hu (by rw [act_step hc]; simp only [go, get_set hc, if_true])
      cases this
    · have h1 : act s.base (.step p) = s.base := congrArg QSt.base hu
      have h2 := countP_set (f := fun c => decide (c = PC.out)) (b := .out) hc
      have h3 : (act s.base (.step p)).pcs[p]? = some .out := by
        rw [act_step hc]
        simp only [go, if_true]
        have h0 : (s.base.pcs.set p .out)[p]? = some .out := by rw [get_set hc, if_pos rfl]
        unfold Waits.signal
        split
        · exact h0
        · split
          · exact h0
          · rename_i r rs _ _ e he
            dsimp only at he ⊢
            rw [get_set he]
            split
            · rename_i hr
              subst hr
              rw [h0] at he
              cases he
              rfl
            · exact h0
      rw [h1, hc] at h3
      cases h3
    · exact ht hc hu
  have sigloc : ∀ (t : QSt α) (p : Nat), t.loc[p]? = some .idle → (qsignal t).loc[p]? = some .idle := by
    intro t p h
    unfold qsignal
    split
    · exact h
    · split
      · exact h
      · rename_i q qs _ _ l hl
        dsimp only
        rw [get_set_any hl]
        split
        · rename_i hq
          subst hq
          rw [h] at hl
          cases hl
          rfl
        · exact h
  have key : ∀ (p : Nat) l, s.loc[p]? = some l →
      (l = .idle ∨ l = .nBlocked ∨ l = .kBlocked) ∨ s.base.pcs[p]? = some .waiting := by
    intro p l hp
    obtain ⟨c, hc, hok⟩ := pc p l hp
    have hs := step p l hp
    cases l with
    | idle => exact Or.inl (Or.inl rfl)
    | nBlocked => exact Or.inl (Or.inr (Or.inl rfl))
    | kBlocked => exact Or.inl (Or.inr (Or.inr rfl))
    | failed => exact hok.elim
    | nWait =>
      exfalso
      unfold qgo at hs
      by_cases h : s.signals ≤ 0
      · simp only [if_pos h] at hs
        have := moved p _ .nBlocked _ hp hs (own p _ _ hp)
        cases this
      · simp only [if_neg h] at hs
        have := moved p _ .nCrit _ hp hs (own p _ _ hp)
        cases this
    | kWait =>
      exfalso
      unfold qgo at hs
      by_cases h : s.signals ≤ 0
      · simp only [if_pos h] at hs
        have := moved p _ .kBlocked _ hp hs (own p _ _ hp)
        cases this
      · simp only [if_neg h] at hs
        have := moved p _ .kCrit _ hp hs (own p _ _ hp)
        cases this
    | nCrit =>
      right
      have := way p _ c _ hp hc hok (fun _ h => by have := moved p _ (.nGot s.queue) _ hp h (own p _ _ hp); cases this) hs
      rw [hc, this]
    | pCrit v =>
      right
      have := way p _ c _ hp hc hok (fun _ h => by have := moved p _ (.pGot v s.queue) _ hp h (own p _ _ hp); cases this) hs
      rw [hc, this]
    | kCrit =>
      right
      have := way p _ c _ hp hc hok (fun _ h => by
        have := moved p _ _ _ hp h (own p _ _ hp)
        split at this <;> cases this) hs
      rw [hc, this]
    | nGot xs =>
      exfalso
      cases xs with
      | nil =>
        have := moved p _ .failed _ hp hs (own p _ _ hp)
        cases this
      | cons x xs =>
        have := moved p _ (.nDone x) _ hp hs (own p _ _ hp)
        cases this
    | pGot v xs =>
      exfalso
      have := moved p _ .pDone _ hp hs (own p _ _ hp)
      cases this
    | nDone x =>
      exfalso
      exact past p _ c _ hp hc hok (fun _ h => by have := moved p _ .idle _ hp h (own p _ _ hp); cases this) hs
    | pDone =>
      exfalso
      exact past p _ c _ hp hc hok (fun _ h => by
        have := moved p _ .idle _ hp h (sigloc _ p (own p _ _ hp)); cases this) hs
    | kDone x =>
      exfalso
      exact past p _ c _ hp hc hok (fun _ h => by
        have := moved p _ .idle _ hp h (sigloc _ p (own p _ _ hp)); cases this) hs
  -- nobody waits for the critical section, because whoever holds it is not stuck
  have nowait : ∀ p : Nat, s.base.pcs[p]? ≠ some .waiting := by
    intro p hp
    have hmem := hi.whole.inv.listed hp rfl
    have h0 := hi.whole.inv.empty (List.ne_nil_of_mem hmem)
    have h1 := hi.whole.one
    have : 0 < s.base.pcs.countP holds := by omega
    obtain ⟨c, hcm, hh⟩ := List.countP_pos_iff.mp this
    obtain ⟨q, hq⟩ := List.mem_iff_getElem?.mp hcm
    have hlt : q < s.loc.length := by
      rw [hi.length]
      exact (List.getElem?_eq_some_iff.mp hq).1
    have hl := List.getElem?_eq_getElem hlt
    have hok := hi.ok q _ _ hl hq
    rcases key q _ hl with h | h
    · have : c = .out := by
        rcases h with h | h | h <;> rw [h] at hok <;> exact hok
      rw [this] at hh
      cases hh
    · rw [hq] at h
      cases h
      cases hh
  have all : ∀ l ∈ s.loc, l = .idle ∨ l = .nBlocked ∨ l = .kBlocked := by
    intro l hl
    obtain ⟨p, hp⟩ := List.mem_iff_getElem?.mp hl
    rcases key p l hp with h | h
    · exact h
    · exact absurd h (nowait p)
  refine ⟨all, ?_⟩
  rintro ⟨l, hl, hb⟩
  obtain ⟨p, hp⟩ := List.mem_iff_getElem?.mp hl
  have hw : p ∈ s.waiting := (hi.waiting p).mpr ⟨l, hp, by rcases hb with rfl | rfl <;> rfl⟩
  have h0 := hi.empty (List.ne_nil_of_mem hw)
  have ht : s.loc.countP tok = 0 := by
    rw [List.countP_eq_zero]
    intro m hm
    rcases all m hm with rfl | rfl | rfl <;> simp [tok]
  have := hi.tokens
  exact List.eq_nil_of_length_eq_zero (by omega)

example : (qacts (fun xs v => xs ++ [v]) (QSt.start 2) ([.next 0, .step 0, .put 1 7, .next 1] ++
    (List.replicate 11 (QAct.step 1)) ++ [.next 1] ++ (List.replicate 11 (QAct.step 0)) ++ [QAct.step 1])).loc =
      [.idle, .nBlocked] := by decide +kernel

/-! ### Processes that are disturbed -/

/-- A process that is resumed while it waits in `next` removes from an empty collection. -/
theorem resumed_fails : ∃ as : List (QAct Nat), (∀ a ∈ as, ∀ p, a ≠ .terminate p) ∧
    (qacts (fun xs v => xs ++ [v]) (QSt.start 1) as).loc = [.failed] := by
  refine ⟨[.next 0, .step 0, .resume 0] ++ List.replicate 7 (.step 0), ?_, by decide +kernel⟩
  intro a ha p
  rintro rfl
  revert ha
  simp

/-- A process that is terminated when it has waited, and before it has removed the value, leaves a value in the queue
that nobody is told of: another process waits for ever although the queue is not empty and nobody else does anything. -/
theorem terminated_loses : ∃ as : List (QAct Nat), (∀ a ∈ as, ∀ p, a ≠ .resume p) ∧
    (qacts (fun xs v => xs ++ [v]) (QSt.start 3) as).loc = [.idle, .idle, .nBlocked] ∧
    (qacts (fun xs v => xs ++ [v]) (QSt.start 3) as).queue = [7] ∧
    ∀ p, qact (fun xs v => xs ++ [v]) (qacts (fun xs v => xs ++ [v]) (QSt.start 3) as) (.step p) =
      qacts (fun xs v => xs ++ [v]) (QSt.start 3) as := by
  have h : qacts (fun xs v => xs ++ [v]) (QSt.start 3) ([.put 1 7] ++ List.replicate 10 (.step 1) ++
      [.next 0, .step 0, .terminate 0, .next 2, .step 2]) =
      ⟨⟨1, [], [.out, .out, .out]⟩, 0, [2], [7], [.idle, .idle, .nBlocked], [.add 1 7], [], [(1, 7)]⟩ := by
    decide +kernel
  refine ⟨[.put 1 7] ++ List.replicate 10 (.step 1) ++ [.next 0, .step 0, .terminate 0, .next 2, .step 2], ?_, ?_, ?_, ?_⟩
  · intro a ha p
    rintro rfl
    revert ha
    simp
  · rw [h]
  · rw [h]
  · rw [h]
    intro p
    match p with
    | 0 => rfl
    | 1 => rfl
    | 2 => rfl
    | p + 3 => rfl

end Verif.Waits.Shared
