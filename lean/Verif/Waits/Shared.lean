import Verif.Waits.Recursion

/-!
# Shared queues

`SharedQueue` (kernel/SharedQueue.st): any number of processes send `next`, `nextPut:` and `peek`, interleaved in any
way.  The operations on the collection itself are not atomic in the model: it is read in one step and written in
another one, so that they are only right because of the critical sections.
-/

namespace Verif.Waits.Shared

variable {α : Type}

/-- Where a process is in a method of kernel/SharedQueue.st. -/
inductive Loc (α : Type) where
  | idle
  /-- `next`: about to send `valueReady wait` (l.70). -/
  | nWait
  /-- In the list of `valueReady`. -/
  | nBlocked
  /-- In `queueSem critical:` (l.71), up to the block. -/
  | nCrit
  /-- `queue removeFirst` has read the collection. -/
  | nGot (xs : List α)
  /-- It has written it; leaves the critical section. -/
  | nDone (x : α)
  /-- `nextPut:` in `queueSem critical:` (l.79), up to the block. -/
  | pCrit (v : α)
  /-- `queue add:` has read the collection. -/
  | pGot (v : α) (xs : List α)
  /-- It has written it; leaves the critical section, about to send `valueReady signal` (l.80). -/
  | pDone
  /-- `peek`: about to send `valueReady wait` (l.90). -/
  | kWait
  | kBlocked
  /-- In `queueSem critical:` (l.91), up to the block. -/
  | kCrit
  /-- Has read the first element; leaves the critical section, about to send `valueReady signal` (l.92). -/
  | kDone (x : α)
  /-- `removeFirst` or `first` of an empty collection. -/
  | failed
  deriving DecidableEq, Repr

/-- An operation on the collection. -/
inductive Op (α : Type) where
  | add (p : Nat) (v : α)
  | rem (p : Nat) (x : α)
  deriving DecidableEq, Repr

/-- A shared queue, the processes, and (not in the code) the operations in the order in which they were done, and what
`next` has answered to whom, and who has put what. -/
structure QSt (α : Type) where
  base : St
  signals : Nat
  waiting : List Nat
  queue : List α
  loc : List (Loc α)
  log : List (Op α)
  answers : List (Nat × α)
  puts : List (Nat × α)
  deriving DecidableEq, Repr

/-- kernel/SharedQueue.st:96-101. -/
def QSt.start (n : Nat) : QSt α := ⟨St.start n, 0, [], [], List.replicate n .idle, [], [], []⟩

/-- The process is signalled. -/
def awake : Loc α → Loc α
  | .nBlocked => .nCrit
  | .kBlocked => .kCrit
  | l => l

/-- `valueReady signal` (libgst/interp.c:1520-1553). -/
def qsignal (s : QSt α) : QSt α :=
  match s.waiting with
  | [] => { s with signals := s.signals + 1 }
  | q :: qs =>
    match s.loc[q]? with
    | none => { s with waiting := qs }
    | some l => { s with waiting := qs, loc := s.loc.set q (awake l) }

/-- Up to the block of `critical:` (kernel/Semaphore.st:53-75, as in `Verif.Waits.act`), whose first step is `k`. -/
def upto (s : QSt α) (p : Nat) (k : QSt α) : QSt α :=
  match s.base.pcs[p]? with
  | some .inside => k
  | some .out => { s with base := act s.base (.enter p) }
  | _ => { s with base := act s.base (.step p) }

/-- From the end of the block of `critical:` to the step `k` after it. -/
def after (s : QSt α) (p : Nat) (k : QSt α) : QSt α :=
  match s.base.pcs[p]? with
  | some .out => k
  | _ => { s with base := act s.base (.step p) }

/-- A step of kernel/SharedQueue.st:65-94.  `ins` is `add:` of the collection (l.47 and l.55). -/
def qgo (ins : List α → α → List α) (s : QSt α) (p : Nat) : Loc α → QSt α
  | .idle => s
  | .nWait =>
    if s.signals ≤ 0 then { s with waiting := s.waiting ++ [p], loc := s.loc.set p .nBlocked }
    else { s with signals := s.signals - 1, loc := s.loc.set p .nCrit }
  | .nBlocked => s
  | .nCrit => upto s p { s with loc := s.loc.set p (.nGot s.queue) }
  | .nGot [] => { s with loc := s.loc.set p .failed }
  | .nGot (x :: xs) => { s with queue := xs, log := s.log ++ [.rem p x], loc := s.loc.set p (.nDone x) }
  | .nDone x => after s p { s with loc := s.loc.set p .idle, answers := s.answers ++ [(p, x)] }
  | .pCrit v => upto s p { s with loc := s.loc.set p (.pGot v s.queue) }
  | .pGot v xs => { s with queue := ins xs v, log := s.log ++ [.add p v], loc := s.loc.set p .pDone }
  | .pDone => after s p (qsignal { s with loc := s.loc.set p .idle })
  | .kWait =>
    if s.signals ≤ 0 then { s with waiting := s.waiting ++ [p], loc := s.loc.set p .kBlocked }
    else { s with signals := s.signals - 1, loc := s.loc.set p .kCrit }
  | .kBlocked => s
  | .kCrit => upto s p { s with loc := s.loc.set p (match s.queue with | [] => .failed | x :: _ => .kDone x) }
  | .kDone _ => after s p (qsignal { s with loc := s.loc.set p .idle })
  | .failed => s

/-- What processes do. -/
inductive QAct (α : Type) where
  | next (p : Nat)
  | put (p : Nat) (v : α)
  | peek (p : Nat)
  | step (p : Nat)
  /-- Another process resumes this one. -/
  | resume (p : Nat)
  /-- Another process terminates this one. -/
  | terminate (p : Nat)
  deriving DecidableEq, Repr

/-- `resume_process` (libgst/interp.c:1747-1830) of a process that waits for a value: `wait` answers, and `next` and
`peek` do not look at what (kernel/SharedQueue.st:70, 90).  Simplified: nothing happens to other processes. -/
def qresume (s : QSt α) (p : Nat) : Loc α → QSt α
  | .nBlocked => { s with waiting := s.waiting.erase p, loc := s.loc.set p .nCrit }
  | .kBlocked => { s with waiting := s.waiting.erase p, loc := s.loc.set p .kCrit }
  | _ => s

/-- `terminate` (kernel/Process.st:117-137) of a process in `next` or `peek` that waits, or that has waited and has not
yet entered the critical section: there is no `ensure:` (kernel/SharedQueue.st:65-73, 84-94).  Simplified: nothing
happens to other processes. -/
def qterminate (s : QSt α) (p : Nat) : Loc α → QSt α
  | .nBlocked => { s with waiting := s.waiting.erase p, loc := s.loc.set p .idle }
  | .kBlocked => { s with waiting := s.waiting.erase p, loc := s.loc.set p .idle }
  | .nCrit => if s.base.pcs[p]? = some .out then { s with loc := s.loc.set p .idle } else s
  | .kCrit => if s.base.pcs[p]? = some .out then { s with loc := s.loc.set p .idle } else s
  | _ => s

/-- The process begins a method. -/
def begin (s : QSt α) (p : Nat) (l : Loc α) : QSt α :=
  match s.loc[p]? with
  | some .idle => { s with loc := s.loc.set p l }
  | _ => s

/-- One action. -/
def qact (ins : List α → α → List α) (s : QSt α) : QAct α → QSt α
  | .next p => begin s p .nWait
  | .put p v =>
    match s.loc[p]? with
    | some .idle => { s with loc := s.loc.set p (.pCrit v), puts := s.puts ++ [(p, v)] }
    | _ => s
  | .peek p => begin s p .kWait
  | .step p => match s.loc[p]? with | none => s | some l => qgo ins s p l
  | .resume p => match s.loc[p]? with | none => s | some l => qresume s p l
  | .terminate p => match s.loc[p]? with | none => s | some l => qterminate s p l

def qacts (ins : List α → α → List α) (s : QSt α) (as : List (QAct α)) : QSt α := as.foldl (qact ins) s

/-- Nobody resumes or terminates processes. -/
def Calm (as : List (QAct α)) : Prop := ∀ a ∈ as, ∀ p, a ≠ .resume p ∧ a ≠ .terminate p

/-! ### Specification -/

/-- The operations done one after the other on a collection; `none` if one of them removes something that is not the
first element. -/
def replay [DecidableEq α] (ins : List α → α → List α) : List α → List (Op α) → Option (List α)
  | q, [] => some q
  | q, .add _ v :: ops => replay ins (ins q v) ops
  | q, .rem _ x :: ops =>
    match q with
    | [] => none
    | y :: ys => if y = x then replay ins ys ops else none

/-- What has been added. -/
def adds (ops : List (Op α)) : List α := ops.filterMap fun | .add _ v => some v | _ => none

/-- What has been removed. -/
def rems (ops : List (Op α)) : List α := ops.filterMap fun | .rem _ x => some x | _ => none

/-- What a process has removed. -/
def remsOf (p : Nat) (ops : List (Op α)) : List α :=
  ops.filterMap fun | .rem q x => if q = p then some x else none | _ => none

/-- What a process has added. -/
def addsOf (p : Nat) (ops : List (Op α)) : List α :=
  ops.filterMap fun | .add q x => if q = p then some x else none | _ => none

/-- What a process was answered, or has put. -/
def answersOf (p : Nat) (as : List (Nat × α)) : List α :=
  as.filterMap fun a => if a.1 = p then some a.2 else none

/-! ### Invariant -/

/-- Which part of `critical:` goes with which part of the method. -/
def Ok : Loc α → PC → Prop
  | .nCrit, c => c = .out ∨ Early c ∨ c = .inside
  | .pCrit _, c => c = .out ∨ Early c ∨ c = .inside
  | .kCrit, c => c = .out ∨ Early c ∨ c = .inside
  | .nGot _, c => c = .inside
  | .pGot _ _, c => c = .inside
  | .nDone _, c => c = .inside ∨ c = .leave true ∨ c = .out
  | .pDone, c => c = .inside ∨ c = .leave true ∨ c = .out
  | .kDone _, c => c = .inside ∨ c = .leave true ∨ c = .out
  | .failed, _ => False
  | _, c => c = .out

/-- The process has taken a signal of `valueReady` that it has to use or give back, or owes one. -/
def tok : Loc α → Bool
  | .nCrit => true
  | .nGot _ => true
  | .pDone => true
  | .kCrit => true
  | .kDone _ => true
  | _ => false

/-- The process waits for a value. -/
def blocked : Loc α → Bool
  | .nBlocked => true
  | .kBlocked => true
  | _ => false

/-- The collection the process has read. -/
def snap : Loc α → Option (List α)
  | .nGot xs => some xs
  | .pGot _ xs => some xs
  | _ => none

/-- What the process is about to answer. -/
def pending : Option (Loc α) → List α
  | some (.nDone x) => [x]
  | _ => []

/-- What the process is about to add. -/
def adding : Option (Loc α) → List α
  | some (.pCrit v) => [v]
  | some (.pGot v _) => [v]
  | _ => []

/-- The critical section is intact. -/
structure Whole (s : St) : Prop where
  inv : Inv s
  rewait : NoRewait s
  one : s.signals + s.pcs.countP holds = 1

theorem Whole.act {s : St} (h : Whole s) {a : Act} (ha : kind s a = true) : Whole (act s a) := by
  obtain ⟨h1, h2⟩ := act_exact h.inv h.rewait a ha
  exact ⟨(act_inv h.inv a).1, h1, h2.trans h.one⟩

theorem Whole.excludes {s : St} (h : Whole s) {p q : Nat} {a b : PC} (hp : s.pcs[p]? = some a)
    (hq : s.pcs[q]? = some b) (ha : holds a = true) (hb : holds b = true) : p = q :=
  Lock.excludes ⟨h.inv, Nat.le_of_eq h.one⟩ hp hq ha hb

/-- The invariant; `k` values have not yet been announced. -/
structure QInv [DecidableEq α] (ins : List α → α → List α) (k : Nat) (s : QSt α) : Prop where
  whole : Whole s.base
  length : s.loc.length = s.base.pcs.length
  nodup : s.waiting.Nodup
  waiting : ∀ p, p ∈ s.waiting ↔ ∃ l, s.loc[p]? = some l ∧ blocked l = true
  empty : s.waiting ≠ [] → s.signals = 0
  ok : ∀ (p : Nat) l c, s.loc[p]? = some l → s.base.pcs[p]? = some c → Ok l c
  snap : ∀ (p : Nat) l xs, s.loc[p]? = some l → snap l = some xs → xs = s.queue
  log : replay ins [] s.log = some s.queue
  tokens : s.queue.length = s.signals + s.loc.countP tok + k
  answers : ∀ p, remsOf p s.log = answersOf p s.answers ++ pending s.loc[p]?
  puts : ∀ p, answersOf p s.puts = addsOf p s.log ++ adding s.loc[p]?

theorem get_set_any {β : Type} {l : List β} {p q : Nat} {a c : β} (h : l[p]? = some a) :
    (l.set p c)[q]? = if q = p then some c else l[q]? := by
  have hp := (List.getElem?_eq_some_iff.mp h).1
  rw [List.getElem?_set]
  by_cases hq : p = q
  · subst hq
    simp [hp]
  · rw [if_neg hq, if_neg (Ne.symm hq)]

/-- What entering or a step does to another process. -/
theorem other {s : St} (hi : NoRewait s) {a : Act} {p q : Nat} (hpq : q ≠ p) (ha : a = .enter p ∨ a = .step p) {c : PC}
    (hc : s.pcs[q]? = some c) :
    ∃ d, (act s a).pcs[q]? = some d ∧ (d = c ∨ (c = .waiting ∧ d = .got true)) := by
  have hset : ∀ (l : List PC) (c : PC), (l.set p c)[q]? = l[q]? := fun l c => List.getElem?_set_ne (Ne.symm hpq)
  have hsig : ∀ t : St, NoRewait t → t.pcs[q]? = some c →
      ∃ d, (signal t).pcs[q]? = some d ∧ (d = c ∨ (c = .waiting ∧ d = .got true)) := by
    intro t ht htc
    unfold signal
    split
    · exact ⟨c, htc, Or.inl rfl⟩
    · split
      · exact ⟨c, htc, Or.inl rfl⟩
      · rename_i r rs _ _ e he
        simp only [get_set he]
        by_cases h : q = r
        · subst h
          rw [if_pos rfl]
          rw [htc] at he
          cases he
          refine ⟨_, rfl, ?_⟩
          have := ht q
          cases c <;> simp_all [wake]
        · rw [if_neg h]
          exact ⟨c, htc, Or.inl rfl⟩
  rcases ha with rfl | rfl
  · unfold act
    by_cases h : s.pcs[p]? = some .out
    · simp only [if_pos h, hset]
      exact ⟨c, hc, Or.inl rfl⟩
    · simp only [if_neg h]
      exact ⟨c, hc, Or.inl rfl⟩
  · cases h : s.pcs[p]? with
    | none => rw [(act_none h).1]; exact ⟨c, hc, Or.inl rfl⟩
    | some e =>
      rw [act_step h]
      cases e with
      | arrive =>
        unfold go
        by_cases hs : s.signals ≤ 0 <;> simp only [hs, if_true, if_false, hset] <;> exact ⟨c, hc, Or.inl rfl⟩
      | leave b =>
        cases b with
        | false => simp only [go, Bool.false_eq_true, if_false, hset]; exact ⟨c, hc, Or.inl rfl⟩
        | true =>
          simp only [go, if_true]
          refine hsig _ (noRewait_set hi h (by simp) _ _) ?_
          simp only [hset]
          exact hc
      | out => exact ⟨c, hc, Or.inl rfl⟩
      | waiting => exact ⟨c, hc, Or.inl rfl⟩
      | rewait => exact ⟨c, hc, Or.inl rfl⟩
      | got b => simp only [go, hset]; exact ⟨c, hc, Or.inl rfl⟩
      | back b => simp only [go, hset]; exact ⟨c, hc, Or.inl rfl⟩
      | owns b => simp only [go, hset]; exact ⟨c, hc, Or.inl rfl⟩
      | inside => simp only [go, hset]; exact ⟨c, hc, Or.inl rfl⟩

theorem ok_wake {l : Loc α} (h : Ok l .waiting) : Ok l (.got true) := by
  cases l <;> simp_all [Ok, Early]

variable [DecidableEq α] {ins : List α → α → List α} {k : Nat} {s : QSt α}

/-- Steps of `critical:`. -/
theorem QInv.base (hi : QInv ins k s) {p : Nat} {l : Loc α} {a : Act} (hp : s.loc[p]? = some l)
    (ha : a = .enter p ∨ a = .step p) (hok : ∀ c, (act s.base a).pcs[p]? = some c → Ok l c) :
    QInv ins k { s with base := act s.base a } := by
  have hk : kind s.base a = true := by rcases ha with rfl | rfl <;> rfl
  refine ⟨hi.whole.act hk, by rw [act_length]; exact hi.length, hi.nodup, hi.waiting, hi.empty, ?_, hi.snap, hi.log,
    hi.tokens, hi.answers, hi.puts⟩
  intro q m c hm hc
  by_cases hq : q = p
  · subst hq
    rw [hp] at hm
    cases hm
    exact hok c hc
  · have hlt : q < s.base.pcs.length := by
      rw [← hi.length]
      exact (List.getElem?_eq_some_iff.mp hm).1
    obtain ⟨d, hd, hdc⟩ := other hi.whole.rewait hq ha (List.getElem?_eq_getElem hlt)
    have hok' := hi.ok q m _ hm (List.getElem?_eq_getElem hlt)
    dsimp only at hc
    rw [hd] at hc
    cases hc
    rcases hdc with rfl | ⟨h1, rfl⟩
    · exact hok'
    · rw [h1] at hok'
      exact ok_wake hok'

/-- Steps that change where one process is, and possibly the collection. -/
theorem QInv.move (hi : QInv ins k s) {p : Nat} {l l' : Loc α} {c : PC} (hp : s.loc[p]? = some l)
    (hc : s.base.pcs[p]? = some c) (hb : blocked l = false) (hb' : blocked l' = false) (hok : Ok l' c) {n k' : Nat}
    {q' : List α} {log' : List (Op α)} {ans' puts' : List (Nat × α)} (hn : s.waiting ≠ [] → n = 0)
    (hs : ∀ xs, Shared.snap l' = some xs → xs = q') (hq : q' = s.queue ∨ c = .inside)
    (hlog : replay ins [] log' = some q')
    (htok : q'.length + s.signals + k + (if tok l then 1 else 0) = s.queue.length + n + k' + (if tok l' then 1 else 0))
    (hans : ∀ r, remsOf r log' = answersOf r ans' ++ pending (if r = p then some l' else s.loc[r]?))
    (hputs : ∀ r, answersOf r puts' = addsOf r log' ++ adding (if r = p then some l' else s.loc[r]?)) :
    QInv ins k' ⟨s.base, n, s.waiting, q', s.loc.set p l', log', ans', puts'⟩ := by
  refine ⟨hi.whole, by simp only [List.length_set]; exact hi.length, hi.nodup, ?_, hn, ?_, ?_, hlog, ?_, ?_, ?_⟩
  · intro r
    dsimp only
    rw [get_set_any hp, hi.waiting r]
    by_cases hr : r = p
    · subst hr
      rw [if_pos rfl, hp]
      simp [hb, hb']
    · rw [if_neg hr]
  · intro r m d hm hd
    dsimp only at hm hd
    rw [get_set_any hp] at hm
    by_cases hr : r = p
    · subst hr
      rw [if_pos rfl] at hm
      cases hm
      rw [hc] at hd
      cases hd
      exact hok
    · rw [if_neg hr] at hm
      exact hi.ok r m d hm hd
  · intro r m xs hm hx
    dsimp only at hm ⊢
    rw [get_set_any hp] at hm
    by_cases hr : r = p
    · subst hr
      rw [if_pos rfl] at hm
      cases hm
      exact hs xs hx
    · rw [if_neg hr] at hm
      rcases hq with rfl | rfl
      · exact hi.snap r m xs hm hx
      · exfalso
        have hlt : r < s.base.pcs.length := by
          rw [← hi.length]
          exact (List.getElem?_eq_some_iff.mp hm).1
        have hor := hi.ok r m _ hm (List.getElem?_eq_getElem hlt)
        have : s.base.pcs[r] = .inside := by
          cases m <;> simp_all [Shared.snap, Ok]
        exact hr (hi.whole.excludes (List.getElem?_eq_getElem hlt) hc (by rw [this]; rfl) rfl)
  · have h1 := countP_set (f := tok) (b := l') hp
    have h2 := hi.tokens
    dsimp only
    omega
  · intro r
    dsimp only
    rw [get_set_any hp]
    exact hans r
  · intro r
    dsimp only
    rw [get_set_any hp]
    exact hputs r

/-- Beginning to wait for a value. -/
theorem QInv.block (hi : QInv ins k s) {p : Nat} {l l' : Loc α} (hp : s.loc[p]? = some l)
    (hl : (l = .nWait ∧ l' = .nBlocked) ∨ (l = .kWait ∧ l' = .kBlocked)) (hs : s.signals ≤ 0) :
    QInv ins k { s with waiting := s.waiting ++ [p], loc := s.loc.set p l' } := by
  have hb : blocked l = false := by rcases hl with ⟨rfl, rfl⟩ | ⟨rfl, rfl⟩ <;> rfl
  have hb' : blocked l' = true := by rcases hl with ⟨rfl, rfl⟩ | ⟨rfl, rfl⟩ <;> rfl
  have hnp : p ∉ s.waiting := by
    intro h
    obtain ⟨m, h1, h2⟩ := (hi.waiting p).mp h
    rw [hp] at h1
    cases h1
    rw [hb] at h2
    cases h2
  refine ⟨hi.whole, by simp only [List.length_set]; exact hi.length, ?_, ?_, ?_, ?_, ?_, hi.log, ?_, ?_, ?_⟩
  · dsimp only
    rw [List.nodup_append]
    refine ⟨hi.nodup, by simp, ?_⟩
    intro q hq r hr
    rw [List.mem_singleton] at hr
    subst hr
    rintro rfl
    exact hnp hq
  · intro q
    dsimp only
    rw [get_set_any hp, List.mem_append, hi.waiting q, List.mem_singleton]
    by_cases hq : q = p
    · subst hq
      simp [hb']
    · simp [hq]
  · intro _
    dsimp only
    omega
  · intro r m d hm hd
    dsimp only at hm hd
    rw [get_set_any hp] at hm
    by_cases hr : r = p
    · subst hr
      rw [if_pos rfl] at hm
      cases hm
      have := hi.ok r l d hp hd
      rcases hl with ⟨rfl, rfl⟩ | ⟨rfl, rfl⟩ <;> exact this
    · rw [if_neg hr] at hm
      exact hi.ok r m d hm hd
  · intro r m xs hm hx
    dsimp only at hm ⊢
    rw [get_set_any hp] at hm
    by_cases hr : r = p
    · subst hr
      rw [if_pos rfl] at hm
      cases hm
      rcases hl with ⟨rfl, rfl⟩ | ⟨rfl, rfl⟩ <;> simp [Shared.snap] at hx
    · rw [if_neg hr] at hm
      exact hi.snap r m xs hm hx
  · have h1 := countP_set (f := tok) (b := l') hp
    have h2 := hi.tokens
    dsimp only
    rcases hl with ⟨rfl, rfl⟩ | ⟨rfl, rfl⟩ <;> simp only [tok, Bool.false_eq_true, if_false] at h1 <;> omega
  · intro r
    dsimp only
    rw [get_set_any hp, hi.answers r]
    by_cases hr : r = p
    · subst hr
      rw [if_pos rfl, hp]
      rcases hl with ⟨rfl, rfl⟩ | ⟨rfl, rfl⟩ <;> rfl
    · rw [if_neg hr]
  · intro r
    dsimp only
    rw [get_set_any hp, hi.puts r]
    by_cases hr : r = p
    · subst hr
      rw [if_pos rfl, hp]
      rcases hl with ⟨rfl, rfl⟩ | ⟨rfl, rfl⟩ <;> rfl
    · rw [if_neg hr]

/-- A signal announces a value. -/
theorem QInv.signal (hi : QInv ins (k + 1) s) : QInv ins k (qsignal s) := by
  unfold qsignal
  cases hw : s.waiting with
  | nil =>
    dsimp only
    have h1 := hi.waiting
    have h2 := hi.tokens
    rw [hw] at h1
    refine ⟨hi.whole, hi.length, List.nodup_nil, h1, ?_, hi.ok, hi.snap, hi.log, ?_, hi.answers, hi.puts⟩
    · intro h
      exact absurd rfl h
    · dsimp only
      omega
  | cons q qs =>
    obtain ⟨l, hl, hbl⟩ := (hi.waiting q).mp (by rw [hw]; exact List.mem_cons_self)
    have hnd := hi.nodup
    rw [hw, List.nodup_cons] at hnd
    simp only [hl]
    have hcase : (l = .nBlocked ∧ awake l = .nCrit) ∨ (l = .kBlocked ∧ awake l = .kCrit) := by
      cases l <;> simp_all [blocked, awake]
    refine ⟨hi.whole, by simp only [List.length_set]; exact hi.length, hnd.2, ?_, ?_, ?_, ?_, hi.log, ?_, ?_, ?_⟩
    · intro r
      dsimp only
      rw [get_set_any hl]
      have := hi.waiting r
      rw [hw, List.mem_cons] at this
      by_cases hr : r = q
      · subst hr
        rw [if_pos rfl]
        constructor
        · intro h; exact absurd h hnd.1
        · rintro ⟨m, h1, h2⟩
          cases h1
          rcases hcase with ⟨_, h⟩ | ⟨_, h⟩ <;> rw [h] at h2 <;> cases h2
      · rw [if_neg hr, ← this]
        simp [hr]
    · intro h
      exact hi.empty (by rw [hw]; simp)
    · intro r m d hm hd
      dsimp only at hm hd
      rw [get_set_any hl] at hm
      by_cases hr : r = q
      · subst hr
        rw [if_pos rfl] at hm
        cases hm
        have := hi.ok r l d hl hd
        rcases hcase with ⟨rfl, h⟩ | ⟨rfl, h⟩ <;> rw [h] <;> exact Or.inl this
      · rw [if_neg hr] at hm
        exact hi.ok r m d hm hd
    · intro r m xs hm hx
      dsimp only at hm ⊢
      rw [get_set_any hl] at hm
      by_cases hr : r = q
      · subst hr
        rw [if_pos rfl] at hm
        cases hm
        rcases hcase with ⟨rfl, h⟩ | ⟨rfl, h⟩ <;> rw [h] at hx <;> cases hx
      · rw [if_neg hr] at hm
        exact hi.snap r m xs hm hx
    · have h1 := countP_set (f := tok) (b := awake l) hl
      have h2 := hi.tokens
      dsimp only
      rcases hcase with ⟨rfl, h⟩ | ⟨rfl, h⟩ <;> rw [h] at h1 ⊢ <;>
        simp only [tok, Bool.false_eq_true, if_false, if_true] at h1 <;> omega
    · intro r
      dsimp only
      rw [get_set_any hl, hi.answers r]
      by_cases hr : r = q
      · subst hr
        rw [if_pos rfl, hl]
        rcases hcase with ⟨rfl, h⟩ | ⟨rfl, h⟩ <;> rw [h] <;> rfl
      · rw [if_neg hr]
    · intro r
      dsimp only
      rw [get_set_any hl, hi.puts r]
      by_cases hr : r = q
      · subst hr
        rw [if_pos rfl, hl]
        rcases hcase with ⟨rfl, h⟩ | ⟨rfl, h⟩ <;> rw [h] <;> rfl
      · rw [if_neg hr]

/-- Steps up to the block. -/
theorem QInv.upto (hi : QInv ins 0 s) {p : Nat} {l : Loc α} (hp : s.loc[p]? = some l)
    (hl : ∀ c, Ok l c ↔ c = .out ∨ Early c ∨ c = .inside) {t : QSt α}
    (ht : s.base.pcs[p]? = some .inside → QInv ins 0 t) : QInv ins 0 (upto s p t) := by
  have hlt : p < s.base.pcs.length := by
    rw [← hi.length]
    exact (List.getElem?_eq_some_iff.mp hp).1
  have hc : s.base.pcs[p]? = some s.base.pcs[p] := List.getElem?_eq_getElem hlt
  revert hc
  generalize s.base.pcs[p] = c
  intro hc
  have hok := (hl c).mp (hi.ok p l c hp hc)
  unfold Shared.upto
  rw [hc]
  rcases hok with rfl | hok | rfl
  · refine hi.base hp (Or.inl rfl) ?_
    intro d hd
    simp only [act, if_pos hc, get_set hc] at hd
    cases hd
    exact (hl _).mpr (Or.inr (Or.inl (by simp [Early])))
  · have hs : QInv ins 0 { s with base := act s.base (.step p) } := by
      refine hi.base hp (Or.inr rfl) ?_
      intro d hd
      obtain ⟨e, he, h⟩ := early_act (Or.inr ⟨p, rfl⟩) hc hok
      rw [he] at hd
      cases hd
      exact (hl _).mpr (Or.inr h)
    cases c <;> first | exact hs | simp [Early] at hok
  · exact ht hc

/-- Steps after the block. -/
theorem QInv.after (hi : QInv ins 0 s) {p : Nat} {l : Loc α} (hp : s.loc[p]? = some l)
    (hl : ∀ c, Ok l c ↔ c = .inside ∨ c = .leave true ∨ c = .out) {t : QSt α}
    (ht : s.base.pcs[p]? = some .out → QInv ins 0 t) : QInv ins 0 (after s p t) := by
  have hlt : p < s.base.pcs.length := by
    rw [← hi.length]
    exact (List.getElem?_eq_some_iff.mp hp).1
  have hc : s.base.pcs[p]? = some s.base.pcs[p] := List.getElem?_eq_getElem hlt
  revert hc
  generalize s.base.pcs[p] = c
  intro hc
  have hok := (hl c).mp (hi.ok p l c hp hc)
  unfold Shared.after
  rw [hc]
  rcases hok with rfl | rfl | rfl
  · refine hi.base hp (Or.inr rfl) ?_
    intro d hd
    rw [act_step hc] at hd
    simp only [go, get_set hc, if_true] at hd
    cases hd
    exact (hl _).mpr (Or.inr (Or.inl rfl))
  · refine hi.base hp (Or.inr rfl) ?_
    intro d hd
    have hout : (act s.base (.step p)).pcs[p]? = some .out := by
      rw [act_step hc]
      simp only [go, if_true]
      have h0 : (s.base.pcs.set p .out)[p]? = some .out := by rw [get_set hc, if_pos rfl]
      unfold Waits.signal
      split
      · exact h0
      · split
        · exact h0
        · rename_i r rs _ _ e he
          dsimp only at he ⊢
          rw [get_set he]
          split
          · rename_i hr
            subst hr
            rw [h0] at he
            cases he
            rfl
          · exact h0
    rw [hout] at hd
    cases hd
    exact (hl _).mpr (Or.inr (Or.inr rfl))
  · exact ht hc

theorem replay_append (ins : List α → α → List α) (q : List α) (l r : List (Op α)) :
    replay ins q (l ++ r) = (replay ins q l).bind fun t => replay ins t r := by
  induction l generalizing q with
  | nil => rfl
  | cons o l ih =>
    cases o with
    | add p v => exact ih (ins q v)
    | rem p x =>
      cases q with
      | nil => rfl
      | cons y ys =>
        simp only [List.cons_append, replay]
        split
        · exact ih ys
        · rfl

theorem QInv.begin (hi : QInv ins 0 s) (p : Nat) {l : Loc α} (hl : ∀ c, c = .out → Ok l c) (hb : blocked l = false)
    (ht : tok l = false) (hs : Shared.snap l = none) (hpd : pending (some l) = [])
    (had : adding (some l) = []) : QInv ins 0 (begin s p l) := by
  unfold Shared.begin
  split
  · rename_i hp
    have hlt : p < s.base.pcs.length := by
      rw [← hi.length]
      exact (List.getElem?_eq_some_iff.mp hp).1
    have hc : s.base.pcs[p]? = some s.base.pcs[p] := List.getElem?_eq_getElem hlt
    have hok := hi.ok p _ _ hp hc
    refine hi.move hp hc rfl hb (hl _ hok) hi.empty ?_ (Or.inl rfl) hi.log ?_ ?_ ?_
    · intro xs hx
      rw [hs] at hx
      cases hx
    · rw [ht]
      rfl
    · intro r
      rw [hi.answers r]
      by_cases hr : r = p
      · subst hr
        rw [if_pos rfl, hp, hpd]
        rfl
      · rw [if_neg hr]
    · intro r
      rw [hi.puts r]
      by_cases hr : r = p
      · subst hr
        rw [if_pos rfl, hp, had]
        rfl
      · rw [if_neg hr]
  · exact hi

theorem QInv.step (hins : ∀ xs v, (ins xs v).length = xs.length + 1) (hi : QInv ins 0 s) {p : Nat} {l : Loc α}
    (hp : s.loc[p]? = some l) : QInv ins 0 (qgo ins s p l) := by
  have hlt : p < s.base.pcs.length := by
    rw [← hi.length]
    exact (List.getElem?_eq_some_iff.mp hp).1
  have hc : s.base.pcs[p]? = some s.base.pcs[p] := List.getElem?_eq_getElem hlt
  have hpos : tok l = true → 0 < s.queue.length := by
    intro ht
    have : 0 < s.loc.countP tok := List.countP_pos_iff.mpr ⟨l, List.mem_of_getElem? hp, ht⟩
    have := hi.tokens
    omega
  have hsame : ∀ l', pending (some l) = pending (some l') → ∀ r,
      remsOf r s.log = answersOf r s.answers ++ pending (if r = p then some l' else s.loc[r]?) := by
    intro l' he r
    rw [hi.answers r]
    by_cases hr : r = p
    · subst hr
      rw [if_pos rfl, hp, he]
    · rw [if_neg hr]
  have hsamep : ∀ l', adding (some l) = adding (some l') → ∀ r,
      answersOf r s.puts = addsOf r s.log ++ adding (if r = p then some l' else s.loc[r]?) := by
    intro l' he r
    rw [hi.puts r]
    by_cases hr : r = p
    · subst hr
      rw [if_pos rfl, hp, he]
    · rw [if_neg hr]
  cases l with
  | idle => exact hi
  | nBlocked => exact hi
  | kBlocked => exact hi
  | failed => exact (hi.ok p _ _ hp hc).elim
  | nWait =>
    unfold qgo
    by_cases hs : s.signals ≤ 0
    · simp only [if_pos hs]
      exact hi.block hp (Or.inl ⟨rfl, rfl⟩) hs
    · simp only [if_neg hs]
      refine hi.move (l' := .nCrit) hp hc rfl rfl (Or.inl (hi.ok p _ _ hp hc)) (fun h => ?_) (by simp [Shared.snap]) (Or.inl rfl) hi.log
        ?_ (hsame _ rfl) (hsamep _ rfl)
      · have := hi.empty h
        omega
      · simp only [tok, Bool.false_eq_true, if_false, if_true]
        omega
  | kWait =>
    unfold qgo
    by_cases hs : s.signals ≤ 0
    · simp only [if_pos hs]
      exact hi.block hp (Or.inr ⟨rfl, rfl⟩) hs
    · simp only [if_neg hs]
      refine hi.move (l' := .kCrit) hp hc rfl rfl (Or.inl (hi.ok p _ _ hp hc)) (fun h => ?_) (by simp [Shared.snap]) (Or.inl rfl) hi.log
        ?_ (hsame _ rfl) (hsamep _ rfl)
      · have := hi.empty h
        omega
      · simp only [tok, Bool.false_eq_true, if_false, if_true]
        omega
  | nCrit =>
    refine hi.upto hp (fun c => Iff.rfl) ?_
    intro hin
    exact hi.move (l' := (.nGot s.queue)) hp hin rfl rfl rfl hi.empty (by simp [Shared.snap]) (Or.inl rfl) hi.log rfl (hsame _ rfl) (hsamep _ rfl)
  | pCrit v =>
    refine hi.upto hp (fun c => Iff.rfl) ?_
    intro hin
    exact hi.move (l' := (.pGot v s.queue)) hp hin rfl rfl rfl hi.empty (by simp [Shared.snap]) (Or.inl rfl) hi.log rfl (hsame _ rfl) (hsamep _ rfl)
  | kCrit =>
    refine hi.upto hp (fun c => Iff.rfl) ?_
    intro hin
    have hq := hpos rfl
    cases hqq : s.queue with
    | nil => rw [hqq] at hq; cases hq
    | cons x xs =>
      have := hi.move (l' := .kDone x) (k' := 0) hp hin rfl rfl (Or.inl rfl) hi.empty (by simp [Shared.snap]) (Or.inl rfl) hi.log rfl
        (hsame _ rfl) (hsamep _ rfl)
      rw [hqq] at this
      exact this
  | nGot xs =>
    have hin := hi.ok p _ _ hp hc
    rw [show s.base.pcs[p] = .inside from hin] at hc
    have hx := hi.snap p _ _ hp rfl
    subst hx
    have hq := hpos rfl
    cases hqq : s.queue with
    | nil => rw [hqq] at hq; cases hq
    | cons x xs =>
      unfold qgo
      refine hi.move (l' := (.nDone x)) hp hc rfl rfl (Or.inl rfl) hi.empty (by simp [Shared.snap]) (Or.inr rfl) ?_ ?_ ?_ ?_
      · rw [replay_append, hi.log]
        simp [replay, hqq]
      · rw [hqq]
        simp only [tok, Bool.false_eq_true, if_false, if_true, List.length_cons]
        omega
      · intro r
        have h1 := hi.answers r
        unfold remsOf at h1 ⊢
        rw [List.filterMap_append, h1]
        by_cases hr : r = p
        · subst hr
          rw [if_pos rfl, hp]
          simp [pending]
        · rw [if_neg hr]
          simp [Ne.symm hr]
      · intro r
        have h1 := hsamep (.nDone x) rfl r
        unfold addsOf at h1 ⊢
        rw [List.filterMap_append, h1]
        simp
  | nDone x =>
    refine hi.after hp (fun c => Iff.rfl) ?_
    intro hout
    refine hi.move (l' := .idle) hp hout rfl rfl rfl hi.empty (by simp [Shared.snap]) (Or.inl rfl) hi.log rfl ?_ (hsamep _ rfl)
    intro r
    rw [hi.answers r]
    unfold answersOf
    rw [List.filterMap_append]
    by_cases hr : r = p
    · subst hr
      rw [if_pos rfl, hp]
      simp [pending]
    · rw [if_neg hr]
      simp [Ne.symm hr]
  | pGot v xs =>
    have hin := hi.ok p _ _ hp hc
    rw [show s.base.pcs[p] = .inside from hin] at hc
    have hx := hi.snap p _ _ hp rfl
    subst hx
    unfold qgo
    refine hi.move (l' := .pDone) hp hc rfl rfl (Or.inl rfl) hi.empty (by simp [Shared.snap]) (Or.inr rfl) ?_ ?_ ?_ ?_
    · rw [replay_append, hi.log]
      rfl
    · rw [hins]
      simp only [tok, Bool.false_eq_true, if_false, if_true]
      omega
    · intro r
      have h1 := hsame .pDone rfl r
      unfold remsOf at h1 ⊢
      rw [List.filterMap_append, h1]
      simp
    · intro r
      have h1 := hi.puts r
      unfold addsOf at h1 ⊢
      rw [List.filterMap_append, h1]
      by_cases hr : r = p
      · subst hr
        rw [if_pos rfl, hp]
        simp [adding]
      · rw [if_neg hr]
        simp [Ne.symm hr]
  | pDone =>
    refine hi.after hp (fun c => Iff.rfl) ?_
    intro hout
    apply QInv.signal
    exact hi.move (l' := .idle) hp hout rfl rfl rfl hi.empty (by simp [Shared.snap]) (Or.inl rfl) hi.log rfl (hsame _ rfl) (hsamep _ rfl)
  | kDone x =>
    refine hi.after hp (fun c => Iff.rfl) ?_
    intro hout
    apply QInv.signal
    exact hi.move (l' := .idle) hp hout rfl rfl rfl hi.empty (by simp [Shared.snap]) (Or.inl rfl) hi.log rfl (hsame _ rfl) (hsamep _ rfl)

theorem QInv.acts (hins : ∀ xs v, (ins xs v).length = xs.length + 1) (hi : QInv ins 0 s) (as : List (QAct α))
    (hc : Calm as) : QInv ins 0 (qacts ins s as) := by
  induction as generalizing s with
  | nil => exact hi
  | cons a as ih =>
    refine ih (s := qact ins s a) ?_ (fun b hb => hc b (List.mem_cons_of_mem _ hb))
    cases a with
    | next p => exact hi.begin p (fun c h => h) rfl rfl rfl rfl rfl
    | put p v =>
      unfold qact
      dsimp only
      split
      · rename_i hp
        have hlt : p < s.base.pcs.length := by
          rw [← hi.length]
          exact (List.getElem?_eq_some_iff.mp hp).1
        have hc : s.base.pcs[p]? = some s.base.pcs[p] := List.getElem?_eq_getElem hlt
        have hok := hi.ok p _ _ hp hc
        refine hi.move (l' := .pCrit v) hp hc rfl rfl (Or.inl hok) hi.empty (by simp [Shared.snap]) (Or.inl rfl) hi.log
          rfl ?_ ?_
        · intro r
          rw [hi.answers r]
          by_cases hr : r = p
          · subst hr
            rw [if_pos rfl, hp]
            rfl
          · rw [if_neg hr]
        · intro r
          have h1 := hi.puts r
          unfold answersOf at h1 ⊢
          rw [List.filterMap_append, h1]
          by_cases hr : r = p
          · subst hr
            rw [if_pos rfl, hp]
            simp [adding]
          · rw [if_neg hr]
            simp [Ne.symm hr]
      · exact hi
    | peek p => exact hi.begin p (fun c h => h) rfl rfl rfl rfl rfl
    | step p =>
      unfold qact
      dsimp only
      split
      · exact hi
      · rename_i l hl
        exact hi.step hins hl
    | resume p => exact absurd rfl (hc _ List.mem_cons_self p).1
    | terminate p => exact absurd rfl (hc _ List.mem_cons_self p).2

theorem start_qinv (ins : List α → α → List α) (n : Nat) : QInv ins 0 (QSt.start n) := by
  refine ⟨⟨(start_inv n).1, start_noRewait n, (start_inv n).2⟩, by simp [QSt.start, St.start], List.nodup_nil, ?_, ?_,
    ?_, ?_, rfl, ?_, ?_, ?_⟩
  · intro p
    simp only [QSt.start, List.getElem?_replicate]
    constructor
    · intro h; cases h
    · rintro ⟨l, h1, h2⟩
      split at h1
      · cases h1; cases h2
      · cases h1
  · intro h; exact absurd rfl h
  · intro p l c hl hc
    simp only [QSt.start, St.start, List.getElem?_replicate] at hl hc
    split at hl
    · cases hl
      rename_i hn
      rw [if_pos hn] at hc
      cases hc
      rfl
    · cases hl
  · intro p l xs hl hx
    simp only [QSt.start, List.getElem?_replicate] at hl
    split at hl
    · cases hl; cases hx
    · cases hl
  · simp only [QSt.start]
    rw [List.countP_replicate]
    simp [tok]
  · intro p
    simp only [QSt.start, List.getElem?_replicate]
    split <;> rfl
  · intro p
    simp only [QSt.start, List.getElem?_replicate]
    split <;> rfl

end Verif.Waits.Shared
