/-!
# Delays

`Delay` (kernel/Delay.st): any number of delays, each used by a process, and the delay process.  The delay process runs
at a higher priority than the others, so a request is handled as soon as it is made.  Simplified: the clock does not
advance while the delay process runs; each delay is only used by one process; the processes that wait have a lower
priority than the delay process.
-/

namespace Verif.Waits.Delay

/-- Where the process that uses a delay is in `wait` (kernel/Delay.st:274-290) or `timedWaitOn:` (l.250-272). -/
inductive DPC where
  | idle
  /-- After `self start`. -/
  | started
  /-- After the assignment to `delaySemaphore` or `waitingProcess`. -/
  | made
  /-- After `self notifyChange`. -/
  | requested
  /-- After the test, before `wait`. -/
  | checked
  | sleeping
  /-- After `wait`. -/
  | done
  /-- `wait` was sent to nil. -/
  | failed
  deriving DecidableEq, Repr

/-- A delay: `delayDuration`, `resumptionTime`, whether `delaySemaphore` or `waitingProcess` is not nil, whether it is
used by `timedWaitOn:`, the process, and (not in the code) the time until which the process wants to wait. -/
structure D where
  dur : Option Nat
  res : Option Nat
  active : Bool
  timed : Bool
  pc : DPC
  due : Nat
  deriving DecidableEq, Repr

/-- The clock, the delays, `Queue` (from the last element to the first one), and the time for which the timer is set. -/
structure DSt where
  clock : Nat
  ds : List D
  queue : List Nat
  armed : Option Nat
  deriving DecidableEq, Repr

/-- `reset` (kernel/Delay.st:336-340). -/
def reset (d : D) : D := if d.dur = none then d else { d with res := none }

/-- `signal` (kernel/Delay.st:229-242): the semaphore is signalled, or the process is suspended and resumed, which does
nothing if it does not wait yet. -/
def signal (d : D) : D := { d with active := false, pc := if d.pc = .sleeping then .done else d.pc }

/-- The resumption time of a delay. -/
def key (ds : List D) (i : Nat) : Nat := ((ds[i]?).bind D.res).getD 0

/-- `Queue add:` (kernel/Delay.st:149, sorted as in l.180-181). -/
def insert (ds : List D) (i : Nat) : List Nat → List Nat
  | [] => [i]
  | j :: q => if key ds j ≤ key ds i then j :: insert ds i q else i :: j :: q

/-- `unscheduleDelay:` (kernel/Delay.st:152-164). -/
def unschedule (s : DSt) (i : Nat) : DSt :=
  if s.queue = [] then s
  else
    match s.ds[i]? with
    | none => s
    | some d => { s with queue := s.queue.erase i, ds := s.ds.set i (reset d) }

/-- The loop of kernel/Delay.st:117-121. -/
def expire : Nat → DSt → DSt
  | 0, s => s
  | n + 1, s =>
    match s.queue with
    | [] => s
    | i :: _ =>
      match s.ds[i]? with
      | none => s
      | some d =>
        match d.res with
        | none => s
        | some r => if r ≤ s.clock then expire n (unschedule { s with ds := s.ds.set i (signal d) } i) else s

/-- kernel/Delay.st:129-131; the timer is replaced (libgst/sysdep/posix/events.c:199-206). -/
def arm (s : DSt) : DSt :=
  match s.queue with
  | [] => s
  | i :: _ => { s with armed := some (key s.ds i) }

/-- `handleDelayRequestor` (kernel/Delay.st:95-132) with a request. -/
def handle (s : DSt) (i : Nat) : DSt :=
  match s.ds[i]? with
  | none => s
  | some d =>
    let s := if d.active then { s with queue := insert s.ds i s.queue } else unschedule s i
    arm (expire s.queue.length s)

/-- `handleDelayRequestor` when the timer has fired. -/
def fired (s : DSt) : DSt := arm (expire s.queue.length { s with armed := none })

inductive DAct where
  /-- Time passes. -/
  | tick (n : Nat)
  /-- The timer fires, if it is set for a time that has come. -/
  | fire
  | start (i : Nat)
  | make (i : Nat)
  | request (i : Nat)
  /-- The test and `wait`. -/
  | sleep (i : Nat)
  /-- The test alone. -/
  | check (i : Nat)
  /-- `wait` alone. -/
  | wait (i : Nat)
  /-- The process is terminated, or its semaphore is signalled, after the request. -/
  | cancel (i : Nat)
  /-- The process is terminated before the request. -/
  | kill (i : Nat)
  /-- The process goes on after the delay. -/
  | finish (i : Nat)
  deriving DecidableEq, Repr

/-- `start` (kernel/Delay.st:329-334). -/
def start (clock : Nat) (d : D) : D :=
  { d with res := match d.res with | none => some (clock + d.dur.getD 0) | r => r, pc := .started,
           due := match d.dur with | some n => clock + n | none => d.res.getD 0 }

/-- A step of `wait` or `timedWaitOn:` (kernel/Delay.st:257-264, 279-286) or of the `ensure:` in it. -/
def dgo (s : DSt) (i : Nat) (d : D) : DAct → DSt
  | .start _ => if d.pc = .idle ∧ d.active = false then { s with ds := s.ds.set i (start s.clock d) } else s
  | .make _ => if d.pc = .started then { s with ds := s.ds.set i { d with active := true, pc := .made } } else s
  | .request _ => if d.pc = .made then handle { s with ds := s.ds.set i { d with pc := .requested } } i else s
  | .sleep _ =>
    if d.pc = .requested then { s with ds := s.ds.set i { d with pc := if d.active then .sleeping else .done } } else s
  | .check _ =>
    if d.pc = .requested then { s with ds := s.ds.set i { d with pc := if d.active then .checked else .done } } else s
  | .wait _ =>
    if d.pc = .checked then
      { s with ds := s.ds.set i { d with pc := if d.timed ∨ d.active then .sleeping else .failed } }
    else s
  | .cancel _ =>
    if d.pc = .requested ∨ d.pc = .sleeping then
      if d.active then handle { s with ds := s.ds.set i { d with active := false, pc := .idle } } i
      else { s with ds := s.ds.set i { d with pc := .idle } }
    else s
  | .kill _ =>
    if d.pc = .started then { s with ds := s.ds.set i { d with pc := .idle } }
    else if d.pc = .made then handle { s with ds := s.ds.set i { d with active := false, pc := .idle } } i
    else s
  | .finish _ => if d.pc = .done then { s with ds := s.ds.set i { d with pc := .idle } } else s
  | _ => s

/-- The delay an action is about. -/
def target : DAct → Nat
  | .tick _ => 0
  | .fire => 0
  | .start i => i
  | .make i => i
  | .request i => i
  | .sleep i => i
  | .check i => i
  | .wait i => i
  | .cancel i => i
  | .kill i => i
  | .finish i => i

/-- One action. -/
def dact (s : DSt) (a : DAct) : DSt :=
  match a with
  | .tick n => { s with clock := s.clock + n }
  | .fire =>
    match s.armed with
    | none => s
    | some t => if t ≤ s.clock then fired s else s
  | a =>
    match s.ds[target a]? with
    | none => s
    | some d => dgo s (target a) d a

def dacts (s : DSt) (as : List DAct) : DSt := as.foldl dact s

/-- A new delay: kernel/Delay.st:52-85. -/
def fresh (k : Nat ⊕ Nat) : D :=
  match k with
  | .inl n => ⟨some n, none, false, false, .idle, 0⟩
  | .inr t => ⟨none, some t, false, false, .idle, 0⟩

/-- Delays that last so long, or until then, and which of them are used by `timedWaitOn:`. -/
def DSt.begin (clock : Nat) (ks : List ((Nat ⊕ Nat) × Bool)) : DSt :=
  ⟨clock, ks.map fun k => { fresh k.1 with timed := k.2 }, [], none⟩

/-- The processes are not terminated before the request, and the timer does not fire between the test and `wait`. -/
def Smooth (as : List DAct) : Prop := ∀ a ∈ as, ∀ i, a ≠ .check i ∧ a ≠ .wait i ∧ a ≠ .kill i

/-! ### Invariant -/

/-- The delay can be started. -/
def Ready (d : D) : Prop := if d.dur = none then d.res ≠ none else d.res = none

def Good (clock : Nat) (q : Bool) (d : D) : Prop :=
  match d.pc with
  | .idle => d.active = false ∧ q = false ∧ Ready d
  | .started => d.active = false ∧ q = false ∧ d.res = some d.due
  | .made => d.active = true ∧ q = false ∧ d.res = some d.due
  | .requested =>
    (d.active = true ∧ q = true ∧ d.res = some d.due) ∨ (d.active = false ∧ q = false ∧ Ready d ∧ d.due ≤ clock)
  | .sleeping => d.active = true ∧ q = true ∧ d.res = some d.due
  | .done => d.active = false ∧ q = false ∧ Ready d ∧ d.due ≤ clock
  | _ => False

structure GInv (s : DSt) : Prop where
  nodup : s.queue.Nodup
  lt : ∀ i ∈ s.queue, i < s.ds.length
  good : ∀ (i : Nat) d, s.ds[i]? = some d → Good s.clock (decide (i ∈ s.queue)) d
  sorted : s.queue.Pairwise fun i j => key s.ds i ≤ key s.ds j

theorem get_set {l : List D} {p q : Nat} {a c : D} (h : l[p]? = some a) :
    (l.set p c)[q]? = if q = p then some c else l[q]? := by
  have hp := (List.getElem?_eq_some_iff.mp h).1
  rw [List.getElem?_set]
  by_cases hq : p = q
  · subst hq
    simp [hp]
  · rw [if_neg hq, if_neg (Ne.symm hq)]

theorem key_set {l : List D} {p q : Nat} {a c : D} (h : l[p]? = some a) (hq : q ≠ p) : key (l.set p c) q = key l q := by
  unfold key
  rw [get_set h, if_neg hq]

theorem good_mono {c c' : Nat} {q : Bool} {d : D} (h : Good c q d) (hc : c ≤ c') : Good c' q d := by
  unfold Good at *
  split at h <;> try exact h
  · rcases h with h | ⟨h1, h2, h3, h4⟩
    · exact Or.inl h
    · exact Or.inr ⟨h1, h2, h3, by omega⟩
  · exact ⟨h.1, h.2.1, h.2.2.1, by omega⟩

/-- A change to a delay that is not in the queue and does not get there. -/
theorem GInv.out {s : DSt} (hi : GInv s) {i : Nat} {d e : D} (h : s.ds[i]? = some d) (hq : i ∉ s.queue)
    (he : Good s.clock false e) (armed : Option Nat) : GInv ⟨s.clock, s.ds.set i e, s.queue, armed⟩ := by
  refine ⟨hi.nodup, fun j hj => by rw [List.length_set]; exact hi.lt j hj, ?_, ?_⟩
  · intro j f hf
    dsimp only at hf ⊢
    rw [get_set h] at hf
    by_cases hj : j = i
    · subst hj
      rw [if_pos rfl] at hf
      cases hf
      rw [decide_eq_false hq]
      exact he
    · rw [if_neg hj] at hf
      exact hi.good j f hf
  · refine List.Pairwise.imp_of_mem ?_ hi.sorted
    intro a b ha hb hab
    dsimp only
    rw [key_set h (fun e => hq (e ▸ ha)), key_set h (fun e => hq (e ▸ hb))]
    exact hab

/-- A delay leaves the queue. -/
theorem GInv.gone {s : DSt} (hi : GInv s) {i : Nat} {d e : D} (h : s.ds[i]? = some d)
    (he : Good s.clock false e) (armed : Option Nat) : GInv ⟨s.clock, s.ds.set i e, s.queue.erase i, armed⟩ := by
  refine ⟨hi.nodup.erase i, ?_, ?_, ?_⟩
  · intro j hj
    rw [List.length_set]
    exact hi.lt j (List.mem_of_mem_erase hj)
  · intro j f hf
    dsimp only at hf ⊢
    rw [get_set h] at hf
    by_cases hj : j = i
    · subst hj
      rw [if_pos rfl] at hf
      cases hf
      rw [decide_eq_false (by rw [hi.nodup.mem_erase_iff]; simp)]
      exact he
    · rw [if_neg hj] at hf
      have := hi.good j f hf
      rw [show (decide (j ∈ s.queue.erase i)) = decide (j ∈ s.queue) by
        rw [decide_eq_decide, hi.nodup.mem_erase_iff]; simp [hj]]
      exact this
  · refine List.Pairwise.imp_of_mem ?_ (hi.sorted.sublist List.erase_sublist)
    intro a b ha hb hab
    dsimp only
    have ha' := (hi.nodup.mem_erase_iff.mp ha).1
    have hb' := (hi.nodup.mem_erase_iff.mp hb).1
    rw [key_set h ha', key_set h hb']
    exact hab

theorem mem_insert {ds : List D} {i j : Nat} {q : List Nat} : j ∈ insert ds i q ↔ j = i ∨ j ∈ q := by
  induction q with
  | nil => simp [insert]
  | cons k q ih =>
    unfold insert
    split
    · simp only [List.mem_cons, ih]
      constructor
      · rintro (h | h | h) <;> simp [h]
      · rintro (h | h | h) <;> simp [h]
    · simp

theorem insert_nodup {ds : List D} {i : Nat} {q : List Nat} (h : q.Nodup) (hi : i ∉ q) : (insert ds i q).Nodup := by
  induction q with
  | nil => simp [insert]
  | cons k q ih =>
    rw [List.nodup_cons] at h
    unfold insert
    split
    · rw [List.nodup_cons, mem_insert]
      refine ⟨?_, ih h.2 (fun hm => hi (List.mem_cons_of_mem _ hm))⟩
      rintro (e | e)
      · exact hi (by rw [e]; exact List.mem_cons_self)
      · exact h.1 e
    · rw [List.nodup_cons]
      exact ⟨hi, List.nodup_cons.mpr h⟩

theorem insert_sorted {ds : List D} {i : Nat} {q : List Nat} (h : q.Pairwise fun i j => key ds i ≤ key ds j) :
    (insert ds i q).Pairwise fun i j => key ds i ≤ key ds j := by
  induction q with
  | nil => simp [insert]
  | cons k q ih =>
    rw [List.pairwise_cons] at h
    unfold insert
    by_cases hk : key ds k ≤ key ds i
    · rw [if_pos hk, List.pairwise_cons]
      refine ⟨?_, ih h.2⟩
      intro j hj
      rcases mem_insert.mp hj with rfl | hj
      · exact hk
      · exact h.1 j hj
    · rw [if_neg hk, List.pairwise_cons]
      refine ⟨?_, List.pairwise_cons.mpr h⟩
      intro j hj
      rcases List.mem_cons.mp hj with rfl | hj
      · omega
      · have := h.1 j hj
        omega

/-- A delay enters the queue. -/
theorem GInv.enter {s : DSt} (hi : GInv s) {i : Nat} {d e : D} (h : s.ds[i]? = some d) (hq : i ∉ s.queue)
    (he : Good s.clock true e) : GInv { s with ds := s.ds.set i e, queue := insert (s.ds.set i e) i s.queue } := by
  have hi' : s.queue.Pairwise fun a b => key (s.ds.set i e) a ≤ key (s.ds.set i e) b := by
    refine List.Pairwise.imp_of_mem ?_ hi.sorted
    intro a b ha hb hab
    rw [key_set h (fun e => hq (e ▸ ha)), key_set h (fun e => hq (e ▸ hb))]
    exact hab
  refine ⟨insert_nodup hi.nodup hq, ?_, ?_, insert_sorted hi'⟩
  · intro j hj
    rw [List.length_set]
    rcases mem_insert.mp hj with rfl | hj
    · exact (List.getElem?_eq_some_iff.mp h).1
    · exact hi.lt j hj
  · intro j f hf
    dsimp only at hf ⊢
    rw [get_set h] at hf
    by_cases hj : j = i
    · subst hj
      rw [if_pos rfl] at hf
      cases hf
      rw [decide_eq_true (mem_insert.mpr (Or.inl rfl))]
      exact he
    · rw [if_neg hj] at hf
      rw [show (decide (j ∈ insert (s.ds.set i e) i s.queue)) = decide (j ∈ s.queue) by
        rw [decide_eq_decide, mem_insert]; simp [hj]]
      exact hi.good j f hf

/-- What a delay in the queue is like. -/
theorem good_in {c : Nat} {d : D} (h : Good c true d) :
    d.active = true ∧ d.res = some d.due ∧ (d.pc = .requested ∨ d.pc = .sleeping) := by
  unfold Good at h
  split at h <;> simp_all

theorem ready_reset {d : D} (h : d.res ≠ none) : Ready (reset d) := by
  unfold Ready reset
  by_cases hd : d.dur = none
  · rw [if_pos hd, if_pos hd]
    exact h
  · rw [if_neg hd]
    dsimp only
    rw [if_neg hd]

/-- The loop. -/
theorem expire_inv (n : Nat) {s : DSt} (hi : GInv s) (hn : s.queue.length ≤ n) :
    GInv (expire n s) ∧ (expire n s).clock = s.clock ∧ (expire n s).armed = s.armed ∧
      ∀ i ∈ (expire n s).queue, s.clock < key (expire n s).ds i := by
  induction n generalizing s with
  | zero =>
    refine ⟨hi, rfl, rfl, ?_⟩
    have : s.queue = [] := List.eq_nil_of_length_eq_zero (by omega)
    intro i h
    simp only [expire, this] at h
    cases h
  | succ n ih =>
    unfold expire
    cases hq : s.queue with
    | nil =>
      refine ⟨hi, rfl, rfl, ?_⟩
      intro i h
      simp only [hq] at h
      cases h
    | cons i q =>
      have him : i ∈ s.queue := by rw [hq]; exact List.mem_cons_self
      obtain ⟨d, hd⟩ : ∃ d, s.ds[i]? = some d := ⟨_, List.getElem?_eq_getElem (hi.lt i him)⟩
      have hg := hi.good i d hd
      rw [decide_eq_true him] at hg
      obtain ⟨h1, h2, h3⟩ := good_in hg
      simp only [hd, h2]
      by_cases hr : d.due ≤ s.clock
      · rw [if_pos hr]
        have hset : (s.ds.set i (signal d))[i]? = some (signal d) := by rw [get_set hd, if_pos rfl]
        have hu : unschedule { s with ds := s.ds.set i (signal d) } i =
            ⟨s.clock, s.ds.set i (reset (signal d)), s.queue.erase i, s.armed⟩ := by
          unfold unschedule
          rw [if_neg (by simp [hq])]
          simp only [hset, List.set_set]
        rw [hq] at hu
        rw [hu]
        have hgood : Good s.clock false (reset (signal d)) := by
          have hrd : Ready (reset (signal d)) := ready_reset (by simp [signal, h2])
          have ha : (reset (signal d)).active = false := by unfold reset; split <;> rfl
          have hdue : (reset (signal d)).due = d.due := by unfold reset; split <;> rfl
          have hpc : (reset (signal d)).pc = (signal d).pc := by unfold reset; split <;> rfl
          unfold Good
          rcases h3 with h3 | h3
          · rw [hpc, show (signal d).pc = .requested by simp [signal, h3]]
            exact Or.inr ⟨ha, rfl, hrd, by rw [hdue]; exact hr⟩
          · rw [hpc, show (signal d).pc = .done by simp [signal, h3]]
            exact ⟨ha, rfl, hrd, by rw [hdue]; exact hr⟩
        have hg2 := hi.gone hd hgood s.armed
        rw [hq] at hg2
        have hlen : ((i :: q).erase i).length ≤ n := by
          rw [List.erase_cons_head]
          rw [hq, List.length_cons] at hn
          omega
        exact ih hg2 hlen
      · rw [if_neg hr]
        refine ⟨hi, rfl, rfl, ?_⟩
        intro j hj
        have hki : key s.ds i = d.due := by
          unfold key
          rw [hd]
          simp [h2]
        have hs := hi.sorted
        rw [hq] at hs hj
        rcases List.mem_cons.mp hj with rfl | hj
        · omega
        · have := (List.pairwise_cons.mp hs).1 j hj
          omega

/-- The timer is set for the first delay. -/
def Armed (s : DSt) : Prop := ∀ i q, s.queue = i :: q → s.armed = some (key s.ds i)

theorem arm_inv {s : DSt} (hi : GInv s) : GInv (arm s) ∧ Armed (arm s) ∧ (arm s).queue = s.queue ∧ (arm s).ds = s.ds ∧
    (arm s).clock = s.clock := by
  unfold arm
  cases hq : s.queue with
  | nil =>
    refine ⟨hi, ?_, hq, rfl, rfl⟩
    intro i q h
    rw [hq] at h
    cases h
  | cons i q =>
    refine ⟨⟨?_, ?_, ?_, ?_⟩, ?_, rfl, rfl, rfl⟩
    · have := hi.nodup; rwa [hq] at this
    · have := hi.lt; rwa [hq] at this
    · have := hi.good; rwa [hq] at this
    · have := hi.sorted; rwa [hq] at this
    · intro j r h
      dsimp only at h ⊢
      cases h
      rfl

/-- After the loop and with the timer set. -/
theorem settled {s : DSt} (hi : GInv s) :
    GInv (arm (expire s.queue.length s)) ∧ Armed (arm (expire s.queue.length s)) ∧
      (arm (expire s.queue.length s)).clock = s.clock ∧
      ∀ i ∈ (arm (expire s.queue.length s)).queue, s.clock < key (arm (expire s.queue.length s)).ds i := by
  obtain ⟨h1, h2, _, h4⟩ := expire_inv s.queue.length hi (Nat.le_refl _)
  obtain ⟨g1, g2, g3, g4, g5⟩ := arm_inv h1
  refine ⟨g1, g2, g5.trans h2, ?_⟩
  intro i hm
  rw [g3] at hm
  rw [g4]
  exact h4 i hm

/-- The invariant of the actions. -/
structure DInv (s : DSt) : Prop extends GInv s where
  armed : Armed s

theorem DInv.out {s : DSt} (hi : DInv s) {i : Nat} {d e : D} (h : s.ds[i]? = some d) (hq : i ∉ s.queue)
    (he : Good s.clock false e) : DInv { s with ds := s.ds.set i e } := by
  refine ⟨hi.toGInv.out h hq he s.armed, ?_⟩
  intro j q hj
  dsimp only at hj ⊢
  rw [key_set h (fun e => hq (by rw [hj, ← e]; exact List.mem_cons_self))]
  exact hi.armed j q hj

theorem DInv.act {s : DSt} (hi : DInv s) (a : DAct) (ha : ∀ i, a ≠ .check i ∧ a ≠ .wait i ∧ a ≠ .kill i) :
    DInv (dact s a) := by
  have notin : ∀ (i : Nat) (d : D), s.ds[i]? = some d → Good s.clock (decide (i ∈ s.queue)) d →
      (d.pc ≠ .requested ∧ d.pc ≠ .sleeping ∨ d.active = false) → i ∉ s.queue := by
    intro i d hd hg hp hm
    rw [decide_eq_true hm] at hg
    obtain ⟨h1, _, h3⟩ := good_in hg
    rcases hp with ⟨hp1, hp2⟩ | hp
    · rcases h3 with h3 | h3
      · exact hp1 h3
      · exact hp2 h3
    · rw [h1] at hp
      cases hp
  cases a with
  | tick n =>
    refine ⟨⟨hi.nodup, hi.lt, fun i d hd => good_mono (hi.good i d hd) (Nat.le_add_right _ _), hi.sorted⟩, hi.armed⟩
  | fire =>
    unfold dact
    dsimp only
    cases ht : s.armed with
    | none => exact hi
    | some t =>
      dsimp only
      by_cases h : t ≤ s.clock
      · rw [if_pos h]
        have hg : GInv { s with armed := none } := ⟨hi.nodup, hi.lt, hi.good, hi.sorted⟩
        obtain ⟨h1, h2, _, _⟩ := settled hg
        exact ⟨h1, h2⟩
      · rw [if_neg h]
        exact hi
  | check i => exact absurd rfl (ha i).1
  | wait i => exact absurd rfl (ha i).2.1
  | kill i => exact absurd rfl (ha i).2.2
  | start i =>
    unfold dact
    dsimp only [target]
    cases hd : s.ds[i]? with
    | none => exact hi
    | some d =>
      dsimp only
      unfold dgo
      dsimp only
      split
      · rename_i hp
        have hg := hi.good i d hd
        have hq := notin i d hd hg (Or.inr hp.2)
        rw [decide_eq_false hq] at hg
        refine hi.out hd hq ?_
        simp only [Good, hp.1] at hg
        have hr := hg.2.2
        unfold Good start
        dsimp only
        refine ⟨hp.2, rfl, ?_⟩
        unfold Ready at hr
        cases hdur : d.dur with
        | none =>
          rw [if_pos hdur] at hr
          cases hres : d.res with
          | none => exact absurd hres hr
          | some r => rfl
        | some m =>
          rw [if_neg (by rw [hdur]; simp)] at hr
          rw [hr]
          rfl
      · exact hi
  | make i =>
    unfold dact
    dsimp only [target]
    cases hd : s.ds[i]? with
    | none => exact hi
    | some d =>
      dsimp only
      unfold dgo
      dsimp only
      split
      · rename_i hp
        have hg := hi.good i d hd
        have hq := notin i d hd hg (Or.inl (by simp [hp]))
        rw [decide_eq_false hq] at hg
        refine hi.out hd hq ?_
        simp only [Good, hp] at hg
        exact ⟨rfl, rfl, hg.2.2⟩
      · exact hi
  | request i =>
    unfold dact
    dsimp only [target]
    cases hd : s.ds[i]? with
    | none => exact hi
    | some d =>
      dsimp only
      unfold dgo
      dsimp only
      split
      · rename_i hp
        have hg := hi.good i d hd
        have hq := notin i d hd hg (Or.inl (by simp [hp]))
        rw [decide_eq_false hq] at hg
        simp only [Good, hp] at hg
        have hset : (s.ds.set i { d with pc := .requested })[i]? = some { d with pc := .requested } := by
          rw [get_set hd, if_pos rfl]
        unfold handle
        rw [hset]
        dsimp only
        rw [if_pos hg.1]
        have he := hi.toGInv.enter (e := { d with pc := .requested }) hd hq (Or.inl ⟨hg.1, rfl, hg.2.2⟩)
        obtain ⟨h1, h2, _, _⟩ := settled he
        exact ⟨h1, h2⟩
      · exact hi
  | sleep i =>
    unfold dact
    dsimp only [target]
    cases hd : s.ds[i]? with
    | none => exact hi
    | some d =>
      dsimp only
      unfold dgo
      dsimp only
      split
      · rename_i hp
        have hg := hi.good i d hd
        by_cases hac : d.active = true
        · rw [if_pos hac]
          simp only [Good, hp, hac, Bool.true_eq_false, false_and, or_false] at hg
          refine ⟨⟨hi.nodup, fun j hj => by rw [List.length_set]; exact hi.lt j hj, ?_, ?_⟩, ?_⟩
          · intro j f hf
            dsimp only at hf ⊢
            rw [get_set hd] at hf
            by_cases hj : j = i
            · subst hj
              rw [if_pos rfl] at hf
              cases hf
              exact ⟨hac, hg.2.1, hg.2.2⟩
            · rw [if_neg hj] at hf
              exact hi.good j f hf
          · have hk : ∀ j, key (s.ds.set i { d with pc := .sleeping }) j = key s.ds j := by
              intro j
              unfold key
              rw [get_set hd]
              by_cases hj : j = i
              · rw [if_pos hj, hj, hd]
                rfl
              · rw [if_neg hj]
            simp only [hk]
            exact hi.sorted
          · have hk : ∀ j, key (s.ds.set i { d with pc := .sleeping }) j = key s.ds j := by
              intro j
              unfold key
              rw [get_set hd]
              by_cases hj : j = i
              · rw [if_pos hj, hj, hd]
                rfl
              · rw [if_neg hj]
            intro j q hj
            dsimp only at hj ⊢
            rw [hk]
            exact hi.armed j q hj
        · have hf : d.active = false := by simpa using hac
          have hq := notin i d hd hg (Or.inr hf)
          rw [decide_eq_false hq] at hg
          simp only [Good, hp, hf, Bool.false_eq_true, false_and, false_or, true_and] at hg
          rw [if_neg hac]
          exact hi.out hd hq ⟨hf, rfl, hg⟩
      · exact hi
  | cancel i =>
    unfold dact
    dsimp only [target]
    cases hd : s.ds[i]? with
    | none => exact hi
    | some d =>
      dsimp only
      unfold dgo
      dsimp only
      split
      · rename_i hp
        have hg := hi.good i d hd
        by_cases hac : d.active = true
        · rw [if_pos hac]
          have hin : i ∈ s.queue ∧ d.res = some d.due := by
            rcases hp with hp | hp <;> simp only [Good, hp, hac] at hg
            · simp at hg
              exact hg
            · simpa using hg
          have hset : (s.ds.set i { d with active := false, pc := .idle })[i]? =
              some { d with active := false, pc := .idle } := by
            rw [get_set hd, if_pos rfl]
          unfold handle
          simp only [hset, Bool.false_eq_true, if_false]
          have hu : unschedule { s with ds := s.ds.set i { d with active := false, pc := .idle } } i =
              ⟨s.clock, s.ds.set i (reset { d with active := false, pc := .idle }), s.queue.erase i, s.armed⟩ := by
            unfold unschedule
            rw [if_neg (List.ne_nil_of_mem hin.1)]
            simp only [hset, List.set_set]
          rw [hu]
          have hgood : Good s.clock false (reset { d with active := false, pc := .idle }) := by
            have hrd : Ready (reset { d with active := false, pc := .idle }) := ready_reset (by simp [hin.2])
            have ha : (reset { d with active := false, pc := .idle }).active = false := by unfold reset; split <;> rfl
            have hpc : (reset { d with active := false, pc := .idle }).pc = .idle := by unfold reset; split <;> rfl
            unfold Good
            rw [hpc]
            exact ⟨ha, rfl, hrd⟩
          obtain ⟨h1, h2, _, _⟩ := settled (hi.toGInv.gone hd hgood s.armed)
          exact ⟨h1, h2⟩
        · have hf : d.active = false := by simpa using hac
          have hq := notin i d hd hg (Or.inr hf)
          rw [decide_eq_false hq] at hg
          rw [if_neg hac]
          refine hi.out hd hq ?_
          rcases hp with hp | hp <;> simp [Good, hp, hf] at hg
          exact ⟨hf, rfl, hg.1⟩
      · exact hi
  | finish i =>
    unfold dact
    dsimp only [target]
    cases hd : s.ds[i]? with
    | none => exact hi
    | some d =>
      dsimp only
      unfold dgo
      dsimp only
      split
      · rename_i hp
        have hg := hi.good i d hd
        have hq := notin i d hd hg (Or.inl (by simp [hp]))
        rw [decide_eq_false hq] at hg
        simp only [Good, hp] at hg
        exact hi.out hd hq ⟨hg.1, rfl, hg.2.2.1⟩
      · exact hi

theorem DInv.acts {s : DSt} (hi : DInv s) (as : List DAct) (ha : Smooth as) : DInv (dacts s as) := by
  induction as generalizing s with
  | nil => exact hi
  | cons a as ih =>
    exact ih (hi.act a (ha a List.mem_cons_self)) (fun b hb => ha b (List.mem_cons_of_mem _ hb))

theorem begin_inv (clock : Nat) (ks : List ((Nat ⊕ Nat) × Bool)) : DInv (DSt.begin clock ks) := by
  refine ⟨⟨List.nodup_nil, by simp [DSt.begin], ?_, List.Pairwise.nil⟩, ?_⟩
  · intro i d hd
    simp only [DSt.begin, List.getElem?_map] at hd
    cases hk : ks[i]? with
    | none => rw [hk] at hd; cases hd
    | some k =>
      rw [hk] at hd
      cases hd
      obtain ⟨k, b⟩ := k
      cases k <;> simp [Good, fresh, Ready, DSt.begin]
  · intro i q h
    cases h

end Verif.Waits.Delay
