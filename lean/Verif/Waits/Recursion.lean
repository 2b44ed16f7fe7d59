import Verif.Waits.Critical

/-!
# Recursion locks

`RecursionLock` (kernel/RecursionLock.st): a semaphore, and the process that holds it.
-/

namespace Verif.Waits

/-- Where a process is in the block of kernel/RecursionLock.st:97-100. -/
inductive Sub where
  /-- Before `owner` is set. -/
  | opening
  /-- Evaluates `n` blocks, each but the first within another one. -/
  | body (n : Nat)
  /-- After `owner` is reset. -/
  | closing
  deriving DecidableEq, Repr

/-- A recursion lock: `sema` with the processes, `owner`, and where the processes in the block are. -/
structure RSt where
  base : St
  owner : Option Nat
  sub : List Sub
  deriving DecidableEq, Repr

/-- kernel/RecursionLock.st:103-106. -/
def RSt.start (n : Nat) : RSt := ⟨St.start n, none, List.replicate n .opening⟩

/-- `critical:` (kernel/RecursionLock.st:89-100) sent by process `p`: the owner evaluates the block at once. -/
def renter (s : RSt) (p : Nat) : RSt :=
  if s.owner = some p then
    match s.sub[p]? with
    | some (.body n) => { s with sub := s.sub.set p (.body (n + 1)) }
    | _ => s
  else { s with base := act s.base (.enter p) }

/-- A step of `critical:` (kernel/RecursionLock.st:97-100). -/
def rgo (s : RSt) (p : Nat) : RSt :=
  if s.base.pcs[p]? = some .inside then
    match s.sub[p]? with
    | some .opening => { s with owner := some p, sub := s.sub.set p (.body 1) }
    | some (.body n) =>
      if 1 < n then { s with sub := s.sub.set p (.body (n - 1)) }
      else { s with owner := none, sub := s.sub.set p .closing }
    | some .closing => { s with base := act s.base (.step p), sub := s.sub.set p .opening }
    | none => s
  else { s with base := act s.base (.step p) }

/-- `terminate`: the argument of `ensure:` (kernel/RecursionLock.st:100) is evaluated if its receiver was. -/
def rterminate (s : RSt) (p : Nat) : RSt :=
  if s.base.pcs[p]? = some .inside then
    match s.sub[p]? with
    | some (.body _) => { base := act s.base (.terminate p), owner := none, sub := s.sub.set p .opening }
    | some _ => { s with base := act s.base (.terminate p), sub := s.sub.set p .opening }
    | none => s
  else { s with base := act s.base (.terminate p) }

/-- One action. -/
def ract (s : RSt) : Act → RSt
  | .enter p => renter s p
  | .step p => rgo s p
  | .interrupt p => { s with base := act s.base (.interrupt p) }
  | .resume p => { s with base := act s.base (.resume p) }
  | .terminate p => rterminate s p

def racts (s : RSt) (as : List Act) : RSt := as.foldl ract s

/-- `wouldBlock` (kernel/RecursionLock.st:81-87) sent by process `p`. -/
def wouldBlock (s : RSt) (p : Nat) : Bool := s.base.signals ≤ 0 && s.owner ≠ some p

/-- Process `p` evaluates a block it has given to `critical:`. -/
def Evaluates (s : RSt) (p : Nat) : Prop := s.base.pcs[p]? = some .inside ∧ ∃ n, s.sub[p]? = some (.body n)

/-! ### Invariant -/

theorem act_length (s : St) (a : Act) : (act s a).pcs.length = s.pcs.length := by
  have hsig : ∀ t : St, (signal t).pcs.length = t.pcs.length := by
    intro t
    unfold signal
    split
    · rfl
    · split
      · rfl
      · exact List.length_set
  cases a with
  | enter p =>
    unfold act
    by_cases h : s.pcs[p]? = some .out
    · simp only [if_pos h]; exact List.length_set
    · simp only [if_neg h]
  | step p =>
    cases h : s.pcs[p]? with
    | none => rw [(act_none h).1]
    | some c =>
      rw [act_step h]
      cases c with
      | arrive => unfold go; by_cases hs : s.signals ≤ 0 <;> simp [hs]
      | leave b =>
        cases b with
        | false => simp [go]
        | true => simp only [go, if_true]; rw [hsig]; exact List.length_set
      | _ => simp [go]
  | interrupt p =>
    cases h : s.pcs[p]? with
    | none => rw [(act_none h).2.1]
    | some c => rw [act_interrupt h]; cases c <;> simp [interrupt]
  | resume p =>
    cases h : s.pcs[p]? with
    | none => rw [(act_none h).2.2.1]
    | some c => rw [act_resume h]; cases c <;> simp [resume]
  | terminate p =>
    cases h : s.pcs[p]? with
    | none => rw [(act_none h).2.2.2]
    | some c => rw [act_terminate h]; cases c <;> simp [terminate]

/-- The semaphore of the lock goes through the states of a semaphore used with `critical:`. -/
theorem ract_base (s : RSt) (a : Act) : ∃ as, (ract s a).base = acts s.base as := by
  cases a with
  | enter p =>
    unfold ract renter
    dsimp only
    split
    · split
      · exact ⟨[], rfl⟩
      · exact ⟨[], rfl⟩
    · exact ⟨[.enter p], rfl⟩
  | step p =>
    unfold ract rgo
    dsimp only
    split
    · split
      · exact ⟨[], rfl⟩
      · split
        · exact ⟨[], rfl⟩
        · exact ⟨[], rfl⟩
      · exact ⟨[.step p], rfl⟩
      · exact ⟨[], rfl⟩
    · exact ⟨[.step p], rfl⟩
  | interrupt p => exact ⟨[.interrupt p], rfl⟩
  | resume p => exact ⟨[.resume p], rfl⟩
  | terminate p =>
    unfold ract rterminate
    dsimp only
    split
    · split
      · exact ⟨[.terminate p], rfl⟩
      · exact ⟨[.terminate p], rfl⟩
      · exact ⟨[], rfl⟩
    · exact ⟨[.terminate p], rfl⟩

theorem racts_base (s : RSt) (as : List Act) : ∃ bs, (racts s as).base = acts s.base bs := by
  induction as generalizing s with
  | nil => exact ⟨[], rfl⟩
  | cons a as ih =>
    obtain ⟨b1, h1⟩ := ract_base s a
    obtain ⟨b2, h2⟩ := ih (ract s a)
    refine ⟨b1 ++ b2, ?_⟩
    have : (racts s (a :: as)).base = (racts (ract s a) as).base := rfl
    rw [this, h2, h1]
    exact List.foldl_append.symm

/-- What a process has to do with being inside when another one acts. -/
theorem act_inside_other {s : St} {a : Act} {p q : Nat} (hpq : p ≠ q)
    (ha : a = .enter q ∨ a = .step q ∨ a = .interrupt q ∨ a = .resume q ∨ a = .terminate q) :
    (act s a).pcs[p]? = some .inside ↔ s.pcs[p]? = some .inside := by
  have hset : ∀ (l : List PC) (c : PC), (l.set q c)[p]? = l[p]? := fun l c => List.getElem?_set_ne (Ne.symm hpq)
  have hsig : ∀ t : St, (signal t).pcs[p]? = some .inside ↔ t.pcs[p]? = some .inside := by
    intro t
    unfold signal
    split
    · rfl
    · split
      · rfl
      · rename_i r rs _ _ c hc
        simp only [get_set hc]
        by_cases h : p = r
        · subst h
          rw [if_pos rfl, hc]
          cases c <;> simp [wake]
        · rw [if_neg h]
  rcases ha with rfl | rfl | rfl | rfl | rfl
  · unfold act
    by_cases h : s.pcs[q]? = some .out
    · simp only [if_pos h, hset]
    · simp only [if_neg h]
  · cases h : s.pcs[q]? with
    | none => rw [(act_none h).1]
    | some c =>
      rw [act_step h]
      cases c with
      | arrive => unfold go; by_cases hs : s.signals ≤ 0 <;> simp only [hs, if_true, if_false, hset]
      | leave b =>
        cases b with
        | false => simp only [go, Bool.false_eq_true, if_false, hset]
        | true => simp only [go, if_true]; rw [hsig]; simp only [hset]
      | _ => simp only [go, hset]
  · cases h : s.pcs[q]? with
    | none => rw [(act_none h).2.1]
    | some c => rw [act_interrupt h]; cases c <;> simp only [interrupt, hset]
  · cases h : s.pcs[q]? with
    | none => rw [(act_none h).2.2.1]
    | some c => rw [act_resume h]; cases c <;> simp only [resume, hset]
  · cases h : s.pcs[q]? with
    | none => rw [(act_none h).2.2.2]
    | some c => rw [act_terminate h]; cases c <;> simp only [terminate, hset]

/-- A semaphore used with `critical:` as a lock. -/
structure Lock (s : St) : Prop where
  inv : Inv s
  one : s.signals + s.pcs.countP holds ≤ 1

theorem Lock.acts {s : St} (h : Lock s) (as : List Act) : Lock (acts s as) := by
  obtain ⟨h1, h2⟩ := acts_inv h.inv as
  exact ⟨h1, Nat.le_trans h2 h.one⟩

theorem Lock.excludes {s : St} (h : Lock s) {p q : Nat} {a b : PC} (hp : s.pcs[p]? = some a) (hq : s.pcs[q]? = some b)
    (ha : holds a = true) (hb : holds b = true) : p = q := by
  by_cases hpq : p = q
  · exact hpq
  · have := two_le_countP (f := holds) hpq hp hq ha hb
    have := h.one
    omega

structure RInv (s : RSt) : Prop where
  lock : Lock s.base
  length : s.sub.length = s.base.pcs.length
  owner : ∀ p, s.owner = some p ↔ Evaluates s p
  start : ∀ p : Nat, s.base.pcs[p]? ≠ some .inside → ∀ c, s.sub[p]? = some c → c = .opening
  nonzero : ∀ p : Nat, s.sub[p]? ≠ some (.body 0)

theorem sub_set {l : List Sub} {p q : Nat} {a c : Sub} (h : l[p]? = some a) :
    (l.set p c)[q]? = if q = p then some c else l[q]? := by
  have hp := (List.getElem?_eq_some_iff.mp h).1
  rw [List.getElem?_set]
  by_cases hq : p = q
  · subst hq
    simp [hp]
  · rw [if_neg hq, if_neg (Ne.symm hq)]

theorem RInv.keep {s : RSt} (hi : RInv s) {b : St} (hl : Lock b) (hlen : b.pcs.length = s.base.pcs.length)
    (h1 : ∀ q : Nat, s.base.pcs[q]? = some .inside → b.pcs[q]? = some .inside)
    (h2 : ∀ q : Nat, b.pcs[q]? = some .inside → s.base.pcs[q]? = some .inside ∨ ∀ c, s.sub[q]? = some c → c = .opening) :
    RInv { s with base := b } := by
  refine ⟨hl, by rw [hlen]; exact hi.length, ?_, ?_, hi.nonzero⟩
  · intro p
    rw [hi.owner p]
    constructor
    · rintro ⟨hin, n, hn⟩
      exact ⟨h1 p hin, n, hn⟩
    · rintro ⟨hin, n, hn⟩
      rcases h2 p hin with h | h
      · exact ⟨h, n, hn⟩
      · cases h _ hn
  · intro p hp c hc
    exact hi.start p (fun h => hp (h1 p h)) c hc

theorem RInv.drop {s : RSt} (hi : RInv s) {b : St} {p : Nat} {c : Sub} (hl : Lock b)
    (hlen : b.pcs.length = s.base.pcs.length) (hp : s.base.pcs[p]? = some .inside) (hc : s.sub[p]? = some c)
    (h1 : b.pcs[p]? ≠ some .inside)
    (h2 : ∀ q : Nat, q ≠ p → (b.pcs[q]? = some .inside ↔ s.base.pcs[q]? = some .inside)) :
    RInv ⟨b, none, s.sub.set p .opening⟩ := by
  refine ⟨hl, ?_, ?_, ?_, ?_⟩
  · simp only [List.length_set]
    rw [hlen]
    exact hi.length
  · intro q
    constructor
    · intro h; cases h
    · rintro ⟨hin, n, hn⟩
      by_cases hq : q = p
      · subst hq
        exact absurd hin h1
      · exact absurd (hi.lock.excludes ((h2 q hq).mp hin) hp rfl rfl) hq
  · intro q hq d hd
    simp only [sub_set hc] at hd
    by_cases hqp : q = p
    · subst hqp
      rw [if_pos rfl] at hd
      cases hd
      rfl
    · rw [if_neg hqp] at hd
      exact hi.start q (fun h => hq ((h2 q hqp).mpr h)) d hd
  · intro q
    simp only [sub_set hc]
    split
    · simp
    · exact hi.nonzero q

/-- The owner is the only process in the block. -/
theorem RInv.noOwner {s : RSt} (hi : RInv s) {p : Nat} {c : Sub} (hp : s.base.pcs[p]? = some .inside)
    (hc : s.sub[p]? = some c) (hb : ∀ n, c ≠ .body n) : s.owner = none := by
  cases ho : s.owner with
  | none => rfl
  | some q =>
    obtain ⟨h1, n, h2⟩ := (hi.owner q).mp ho
    have := hi.lock.excludes h1 hp rfl rfl
    subst this
    rw [hc] at h2
    cases h2
    exact absurd rfl (hb n)

theorem inside_enter {s : St} {p q : Nat} :
    (act s (.enter p)).pcs[q]? = some .inside ↔ s.pcs[q]? = some .inside := by
  by_cases hpq : q = p
  · subst hpq
    unfold act
    by_cases h : s.pcs[q]? = some .out
    · simp only [if_pos h, get_set h]
      simp [h]
    · simp only [if_neg h]
  · exact act_inside_other hpq (Or.inl rfl)

theorem inside_quiet {s : St} {p q : Nat} :
    ((act s (.interrupt p)).pcs[q]? = some .inside ↔ s.pcs[q]? = some .inside) ∧
    ((act s (.resume p)).pcs[q]? = some .inside ↔ s.pcs[q]? = some .inside) := by
  by_cases hpq : q = p
  · subst hpq
    cases h : s.pcs[q]? with
    | none =>
      rw [(act_none h).2.1, (act_none h).2.2.1, h]
      simp
    | some c =>
      rw [act_interrupt h, act_resume h]
      cases c <;> simp [interrupt, resume, h, get_set h]
  · exact ⟨act_inside_other hpq (by simp), act_inside_other hpq (by simp)⟩

theorem inside_step {s : St} {p : Nat} (h : s.pcs[p]? = some .inside) :
    (act s (.step p)).pcs[p]? ≠ some .inside := by
  rw [act_step h]
  simp [go, get_set h]

theorem inside_terminate {s : St} {p : Nat} : (act s (.terminate p)).pcs[p]? ≠ some .inside := by
  cases h : s.pcs[p]? with
  | none => rw [(act_none h).2.2.2, h]; simp
  | some c =>
    rw [act_terminate h]
    cases c <;> simp [terminate, h, get_set h]

theorem RInv.act {s : RSt} (hi : RInv s) (a : Act) : RInv (ract s a) := by
  have hlock : ∀ a, Lock (Waits.act s.base a) := fun a => hi.lock.acts [a]
  cases a with
  | interrupt p =>
    exact hi.keep (hlock _) (act_length _ _) (fun q h => inside_quiet.1.mpr h) (fun q h => Or.inl (inside_quiet.1.mp h))
  | resume p =>
    exact hi.keep (hlock _) (act_length _ _) (fun q h => inside_quiet.2.mpr h) (fun q h => Or.inl (inside_quiet.2.mp h))
  | enter p =>
    unfold ract renter
    dsimp only
    by_cases ho : s.owner = some p
    · rw [if_pos ho]
      obtain ⟨h1, n, h2⟩ := (hi.owner p).mp ho
      rw [h2]
      dsimp only
      refine ⟨hi.lock, by simp only [List.length_set]; exact hi.length, ?_, ?_, ?_⟩
      · intro q
        rw [show ({ s with sub := s.sub.set p (.body (n + 1)) } : RSt).owner = s.owner from rfl, hi.owner q]
        unfold Evaluates
        dsimp only
        rw [sub_set h2]
        by_cases hq : q = p
        · subst hq
          simp [h2]
        · rw [if_neg hq]
      · intro q hq c hc
        dsimp only at hq hc
        rw [sub_set h2] at hc
        by_cases hqp : q = p
        · subst hqp
          exact absurd h1 hq
        · rw [if_neg hqp] at hc
          exact hi.start q hq c hc
      · intro q
        dsimp only
        rw [sub_set h2]
        split
        · simp
        · exact hi.nonzero q
    · rw [if_neg ho]
      exact hi.keep (hlock _) (act_length _ _) (fun q h => inside_enter.mpr h) (fun q h => Or.inl (inside_enter.mp h))
  | step p =>
    unfold ract rgo
    dsimp only
    by_cases hin : s.base.pcs[p]? = some .inside
    · rw [if_pos hin]
      cases hs : s.sub[p]? with
      | none => exact hi
      | some c =>
        have hset : ∀ (o : Option Nat) (d : Sub), d ≠ .body 0 →
            (∀ q, o = some q ↔ (if q = p then ∃ n, d = .body n else s.owner = some q)) →
            RInv { s with owner := o, sub := s.sub.set p d } := by
          intro o d hd ho
          refine ⟨hi.lock, by simp only [List.length_set]; exact hi.length, ?_, ?_, ?_⟩
          · intro q
            rw [show ({ s with owner := o, sub := s.sub.set p d } : RSt).owner = o from rfl, ho q]
            unfold Evaluates
            dsimp only
            rw [sub_set hs]
            by_cases hq : q = p
            · subst hq
              simp [hin]
            · rw [if_neg hq, if_neg hq]
              exact hi.owner q
          · intro q hq e he
            dsimp only at hq he
            rw [sub_set hs] at he
            by_cases hqp : q = p
            · subst hqp
              exact absurd hin hq
            · rw [if_neg hqp] at he
              exact hi.start q hq e he
          · intro q
            dsimp only
            rw [sub_set hs]
            split
            · simpa using hd
            · exact hi.nonzero q
        have alone : ∀ q, s.owner = some q → q = p := by
          intro q hq
          exact hi.lock.excludes ((hi.owner q).mp hq).1 hin rfl rfl
        cases c with
        | opening =>
          dsimp only
          refine hset _ _ (by simp) ?_
          intro q
          by_cases hq : q = p
          · simp [hq]
          · rw [if_neg hq]
            constructor
            · intro h; exact absurd (Option.some.inj h).symm hq
            · intro h; exact absurd (alone q h) hq
        | body n =>
          dsimp only
          by_cases hn : 1 < n
          · rw [if_pos hn]
            refine hset s.owner _ (by simp; omega) ?_
            intro q
            by_cases hq : q = p
            · subst hq
              rw [if_pos rfl]
              exact ⟨fun _ => ⟨_, rfl⟩, fun _ => (hi.owner q).mpr ⟨hin, n, hs⟩⟩
            · rw [if_neg hq]
          · rw [if_neg hn]
            refine hset _ _ (by simp) ?_
            intro q
            by_cases hq : q = p
            · simp [hq]
            · rw [if_neg hq]
              constructor
              · intro h; cases h
              · intro h; exact absurd (alone q h) hq
        | closing =>
          dsimp only
          have ho := hi.noOwner hin hs (by simp)
          have := hi.drop (hlock (.step p)) (act_length _ _) hin hs (inside_step hin)
            (fun q hq => act_inside_other hq (by simp))
          rw [ho]
          exact this
    · rw [if_neg hin]
      refine hi.keep (hlock _) (act_length _ _) ?_ ?_
      · intro q hq
        by_cases hqp : q = p
        · subst hqp
          exact absurd hq hin
        · exact (act_inside_other hqp (by simp)).mpr hq
      · intro q hq
        by_cases hqp : q = p
        · subst hqp
          exact Or.inr (fun c hc => hi.start q hin c hc)
        · exact Or.inl ((act_inside_other hqp (by simp)).mp hq)
  | terminate p =>
    unfold ract rterminate
    dsimp only
    by_cases hin : s.base.pcs[p]? = some .inside
    · rw [if_pos hin]
      cases hs : s.sub[p]? with
      | none => exact hi
      | some c =>
        have := hi.drop (hlock (.terminate p)) (act_length _ _) hin hs inside_terminate
          (fun q hq => act_inside_other hq (by simp))
        cases c with
        | body n => exact this
        | opening =>
          dsimp only
          rw [hi.noOwner hin hs (by simp)]
          exact this
        | closing =>
          dsimp only
          rw [hi.noOwner hin hs (by simp)]
          exact this
    · rw [if_neg hin]
      refine hi.keep (hlock _) (act_length _ _) ?_ ?_
      · intro q hq
        by_cases hqp : q = p
        · subst hqp
          exact absurd hq hin
        · exact (act_inside_other hqp (by simp)).mpr hq
      · intro q hq
        by_cases hqp : q = p
        · subst hqp
          exact absurd hq inside_terminate
        · exact Or.inl ((act_inside_other hqp (by simp)).mp hq)

theorem RInv.acts {s : RSt} (hi : RInv s) (as : List Act) : RInv (racts s as) := by
  induction as generalizing s with
  | nil => exact hi
  | cons a as ih => exact ih (hi.act a)

theorem start_lock (n : Nat) : Lock (St.start n) :=
  ⟨(start_inv n).1, Nat.le_of_eq (start_inv n).2⟩

theorem start_rinv (n : Nat) : RInv (RSt.start n) := by
  refine ⟨start_lock n, by simp [RSt.start, St.start], ?_, ?_, ?_⟩
  · intro p
    constructor
    · intro h; cases h
    · rintro ⟨h, _⟩
      simp only [RSt.start, St.start, List.getElem?_replicate] at h
      split at h <;> simp at h
  · intro p _ c hc
    simp only [RSt.start, List.getElem?_replicate] at hc
    split at hc
    · cases hc; rfl
    · cases hc
  · intro p h
    simp only [RSt.start, List.getElem?_replicate] at h
    split at h <;> simp at h

/-! ### Theorems -/

/-- C135.  Two processes never evaluate blocks of the same lock at the same time, however they are interleaved,
interrupted, resumed and terminated; and the process that evaluates one is the one the lock takes for its owner. -/
theorem recursion_lock_excludes (n : Nat) (as : List Act) (p q : Nat) :
    (Evaluates (racts (RSt.start n) as) p → Evaluates (racts (RSt.start n) as) q → p = q) ∧
    ((racts (RSt.start n) as).owner = some p ↔ Evaluates (racts (RSt.start n) as) p) := by
  have hi := (start_rinv n).acts as
  exact ⟨fun hp hq => hi.lock.excludes hp.1 hq.1 rfl rfl, hi.owner p⟩

/-- C136.  A process that evaluates a block may lock again as often as it wants: it never waits for itself, nobody
else is affected, and the lock is only given up when it has left as many blocks as it has entered. -/
theorem nested_locks (n : Nat) (as : List Act) (p k m : Nat)
    (hp : Evaluates (racts (RSt.start n) as) p) (hm : (racts (RSt.start n) as).sub[p]? = some (.body m)) (j : Nat)
    (hj : j ≤ k) :
    racts (racts (RSt.start n) as) (List.replicate k (.enter p) ++ List.replicate j (.step p)) =
      { racts (RSt.start n) as with sub := (racts (RSt.start n) as).sub.set p (.body (m + k - j)) } ∧
    (racts (racts (RSt.start n) as) (List.replicate k (.enter p) ++ List.replicate (k + m) (.step p))).owner = none := by
  have hi := (start_rinv n).acts as
  revert hp hm hi
  generalize racts (RSt.start n) as = s
  intro hp hm hi
  have hset : s.sub.set p (.body m) = s.sub := by
    apply List.ext_getElem?
    intro i
    rw [sub_set hm]
    split
    · rename_i h; rw [h, hm]
    · rfl
  have ho := (hi.owner p).mpr hp
  have up : ∀ k, racts s (List.replicate k (.enter p)) = { s with sub := s.sub.set p (.body (m + k)) } := by
    intro k
    induction k with
    | zero =>
      rw [Nat.add_zero, hset]
      rfl
    | succ k ih =>
      rw [List.replicate_succ', racts, List.foldl_append]
      rw [racts] at ih
      rw [ih]
      simp only [List.foldl_cons, List.foldl_nil, ract, renter, if_pos ho, sub_set hm, if_true, List.set_set]
      rfl
  have hm0 : m ≠ 0 := by
    rintro rfl
    exact hi.nonzero p hm
  have down : ∀ j i, j < i → racts { s with sub := s.sub.set p (.body i) } (List.replicate j (.step p)) =
      { s with sub := s.sub.set p (.body (i - j)) } := by
    intro j
    induction j with
    | zero => intro i _; rfl
    | succ j ih =>
      intro i hji
      rw [List.replicate_succ', racts, List.foldl_append]
      have := ih i (by omega)
      rw [racts] at this
      rw [this]
      simp only [List.foldl_cons, List.foldl_nil, ract, rgo, if_pos hp.1, sub_set hm, if_true, List.set_set]
      rw [if_pos (by omega), show i - j - 1 = i - (j + 1) from by omega]
  have app : ∀ (t : RSt) (l r : List Act), racts t (l ++ r) = racts (racts t l) r := fun t l r => List.foldl_append
  constructor
  · rw [app, up, down _ _ (by omega)]
  · rw [app, up]
    have : List.replicate (k + m) (Act.step p) = List.replicate (k + m - 1) (Act.step p) ++ [Act.step p] := by
      rw [← List.replicate_succ']
      congr 1
      omega
    rw [this, app, down _ _ (by omega)]
    simp only [racts, List.foldl_cons, List.foldl_nil, ract, rgo, if_pos hp.1, sub_set hm, if_true]
    rw [if_neg (by omega)]

/-- C137.  `wouldBlock` tells whether the process would have to wait, as long as nothing else happens. -/
theorem would_block (n : Nat) (as : List Act) (p : Nat)
    (hp : (racts (RSt.start n) as).base.pcs[p]? = some .out ∨ Evaluates (racts (RSt.start n) as) p) :
    wouldBlock (racts (RSt.start n) as) p = true ↔
      (racts (racts (RSt.start n) as) [.enter p, .step p]).base.pcs[p]? = some .waiting := by
  have hi := (start_rinv n).acts as
  revert hp hi
  generalize racts (RSt.start n) as = s
  intro hp hi
  unfold wouldBlock
  rcases hp with hp | hp
  · have hne : s.owner ≠ some p := by
      intro h
      have := ((hi.owner p).mp h).1
      rw [hp] at this
      cases this
    have h1 : ract s (.enter p) = { s with base := { s.base with pcs := s.base.pcs.set p .arrive } } := by
      simp only [ract, renter, if_neg hne, Waits.act, if_pos hp]
    have h2 : (s.base.pcs.set p .arrive)[p]? = some .arrive := by rw [get_set hp, if_pos rfl]
    rw [show racts s [.enter p, .step p] = ract (ract s (.enter p)) (.step p) from rfl, h1]
    simp only [ract, rgo]
    rw [h2, if_neg (by simp), act_step (by exact h2)]
    unfold go
    by_cases hs : s.base.signals ≤ 0
    · simp only [hs, if_true, get_set h2]
      simp [hne]
    · simp only [hs, if_false, get_set h2]
      simp
  · have ho := (hi.owner p).mpr hp
    obtain ⟨hin, m, hm⟩ := hp
    have h1 : ract s (.enter p) = { s with sub := s.sub.set p (.body (m + 1)) } := by
      simp only [ract, renter, if_pos ho, hm]
    have h2 : (s.sub.set p (.body (m + 1)))[p]? = some (.body (m + 1)) := by rw [sub_set hm, if_pos rfl]
    rw [show racts s [.enter p, .step p] = ract (ract s (.enter p)) (.step p) from rfl, h1]
    simp only [ract, rgo, if_pos hin, h2]
    constructor
    · intro h; simp [ho] at h
    · intro h
      split at h <;> · simp only [hin] at h; cases h

example : Evaluates (racts (RSt.start 2) [.enter 0, .step 0, .enter 1, .step 1, .step 0, .step 0, .step 0, .step 0]) 0 ∧
    (racts (RSt.start 2) [.enter 0, .step 0, .enter 1, .step 1, .step 0, .step 0, .step 0, .step 0]).base.pcs =
      [.inside, .waiting] := by
  refine ⟨⟨by decide +kernel, 1, by decide +kernel⟩, by decide +kernel⟩

end Verif.Waits
