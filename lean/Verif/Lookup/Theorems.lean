import Verif.Lookup.Proofs
/-!
# Method lookup: properties (C29, C42)
-/
namespace Verif.Lookup

variable {env : Env}

/-! ## Invariant -/

theorem perform_spec {fuel : Nat} {vm vm' : VM} {rcv sel : OOP} {n : Nat} {o : Option Outcome} (hc : Coherent env vm) (hs : sel ≠ 0)
    (h : perform env fuel vm rcv sel n = some (vm', o)) :
    Coherent env vm' ∧ Same vm vm' ∧ 0 < vm'.counter ∧
    ((∃ m mc, Nearest env vm.world sel (vm.world.classOf rcv) (some (m, mc)) ∧ (vm.world.header m).numArgs ≠ n ∧ o = none) ∨
     ((∀ m mc, Nearest env vm.world sel (vm.world.classOf rcv) (some (m, mc)) → (vm.world.header m).numArgs = n) ∧
      ∃ o', o = some o' ∧ Runs env vm.world sel n (vm.world.classOf rcv) rcv o')) := by
  rw [perform] at h
  split at h
  · simp at h
  · next vm1 hk =>
    rw [checkSend, Option.map_eq_some_iff] at hk
    obtain ⟨⟨vm2, r⟩, h1, h2⟩ := hk
    obtain ⟨c1, c2, c3, -, c5, c6⟩ := cacheLookup_spec (hc.counter _) hs h1
    rw [Option.map_eq_some_iff] at h
    obtain ⟨⟨vm3, o3⟩, h3, h4⟩ := h
    simp only [Prod.mk.injEq] at h4
    obtain ⟨rfl, rfl⟩ := h4
    have hvm : vm2 = vm1 := by
      cases r <;> (simp only [Prod.mk.injEq] at h2; exact h2.1)
    subst hvm
    obtain ⟨d1, d2, d3, d4, -⟩ := send_spec c1 hs h3
    have hw : vm2.world = vm.world := c2.1
    rw [hw] at d4
    refine ⟨d1, Same.trans c2 d2, d3, .inr ⟨?_, o3, rfl, d4⟩⟩
    intro m mc hm
    cases r with
    | none => exact absurd (nearest_unique hm (c5 rfl)) (by simp)
    | some e =>
      obtain ⟨e1, e2⟩ := c6 e rfl
      simp only [Prod.mk.injEq, beq_iff_eq, true_and] at h2
      have := nearest_unique hm e1
      simp only [Option.some.injEq, Prod.mk.injEq] at this
      obtain ⟨rfl, -⟩ := this
      rw [e2] at h2
      exact h2
  · next vm1 hk =>
    rw [checkSend, Option.map_eq_some_iff] at hk
    obtain ⟨⟨vm2, r⟩, h1, h2⟩ := hk
    obtain ⟨c1, c2, c3, -, c5, c6⟩ := cacheLookup_spec (hc.counter _) hs h1
    simp only [Option.some.injEq, Prod.mk.injEq] at h
    obtain ⟨rfl, rfl⟩ := h
    cases r with
    | none => simp at h2
    | some e =>
      obtain ⟨e1, e2⟩ := c6 e rfl
      simp only [Prod.mk.injEq, beq_eq_false_iff_ne, ne_eq] at h2
      obtain ⟨rfl, h2⟩ := h2
      rw [e2] at h2
      refine ⟨c1, c2, by rw [c3]; exact Nat.succ_pos _, .inl ⟨_, _, e1, h2, rfl⟩⟩

theorem quiet_of_pos {vm : VM} (h : 0 < vm.counter) : Quiet vm := fun h0 => absurd h0 (Nat.pos_iff_ne_zero.1 h)

theorem size_spec {fuel : Nat} {vm vm' : VM} {rcv : OOP} {isInt : Bool} {o : Outcome} (hc : Coherent env vm)
    (hp : isInt = false → plain env vm.world env.size (vm.world.classOf rcv))
    (h : sizeSpecial env fuel vm rcv isInt = some (vm', o)) :
    Coherent env vm' ∧ vm'.world = vm.world ∧ (Quiet vm → Quiet vm') ∧ Runs env vm.world env.size 0 (vm.world.classOf rcv) rcv o := by
  rw [sizeSpecial] at h
  dsimp only at h
  split at h
  · obtain ⟨a, b, c, d, -⟩ := send_spec hc env.size_ne h
    exact ⟨a, b.1, fun _ => quiet_of_pos c, d⟩
  · next hi =>
    split at h
    · next hh =>
      simp only [Option.some.injEq, Prod.mk.injEq] at h
      obtain ⟨rfl, rfl⟩ := h
      have hne : vm.sizeClass ≠ 0 := by rw [hh.1]; exact vm.world.class_ne _
      obtain ⟨m, mc, p1, p2, p3, p4⟩ := hc.size hne
      refine ⟨hc.lastPrim _, rfl, fun hq => hq, ?_⟩
      · rw [hh.1] at p1
        have := Runs.prim (rcv := rcv) p1 p3 (by rw [p2, p4]; exact hh.2)
        rw [p2, p4] at this
        exact this
    · rw [Option.map_eq_some_iff] at h
      obtain ⟨⟨vm1, o1⟩, h1, h2⟩ := h
      obtain ⟨a, b, c, d, e⟩ := send_spec (hc.lastPrim 0) env.size_ne h1
      split at h2
      · next hl =>
        simp only [Prod.mk.injEq] at h2
        obtain ⟨rfl, rfl⟩ := h2
        obtain ⟨m, mc, p1, p2⟩ := hp (by simpa using hi)
        obtain ⟨q1, q2, q3⟩ := e rfl hl m mc p1 p2
        have hw : vm1.world = vm.world := b.1
        refine ⟨⟨a.entry, ?_, a.cls⟩, b.1, fun _ => quiet_of_pos c, d⟩
        intro _
        refine ⟨m, mc, ?_, ?_, ?_, ?_⟩
        · rw [hw]; exact p1
        · rw [hw]; exact q1
        · rw [hw]; exact q2
        · rw [hw]; exact q3
      · simp only [Prod.mk.injEq] at h2
        obtain ⟨rfl, rfl⟩ := h2
        exact ⟨a, b.1, fun _ => quiet_of_pos c, d⟩

/-- What a cached `class` does: as the send, or its primitive told that there is one argument. -/
def ClassRuns (env : Env) (w : World) (rcv : OOP) (o : Outcome) : Prop :=
  Runs env w env.cls 0 (w.classOf rcv) rcv o ∨
  ∃ m mc, Nearest env w env.cls (w.classOf rcv) (some (m, mc)) ∧ (w.header m).numArgs = 0 ∧ (w.header m).flag = .primitive ∧
    env.ok (w.header m).prim 1 rcv = true ∧ o = .prim (w.header m).prim 1

theorem cls_spec {fuel : Nat} {vm vm' : VM} {rcv : OOP} {isInt : Bool} {o : Outcome} (hc : Coherent env vm)
    (hp : isInt = false → plain env vm.world env.cls (vm.world.classOf rcv))
    (h : clsSpecial env fuel vm rcv isInt = some (vm', o)) :
    Coherent env vm' ∧ vm'.world = vm.world ∧ (Quiet vm → Quiet vm') ∧ ClassRuns env vm.world rcv o := by
  rw [clsSpecial] at h
  dsimp only at h
  split at h
  · obtain ⟨a, b, c, d, -⟩ := send_spec hc env.cls_ne h
    exact ⟨a, b.1, fun _ => quiet_of_pos c, .inl d⟩
  · next hi =>
    split at h
    · next hh =>
      simp only [Option.some.injEq, Prod.mk.injEq] at h
      obtain ⟨rfl, rfl⟩ := h
      have hne : vm.clsClass ≠ 0 := by rw [hh.1]; exact vm.world.class_ne _
      obtain ⟨m, mc, p1, p2, p3, p4⟩ := hc.cls hne
      refine ⟨hc.lastPrim _, rfl, fun hq => hq, ?_⟩
      · rw [hh.1] at p1
        exact .inr ⟨m, mc, p1, p2, p3, by rw [p4]; exact hh.2, by rw [p4]⟩
    · rw [Option.map_eq_some_iff] at h
      obtain ⟨⟨vm1, o1⟩, h1, h2⟩ := h
      obtain ⟨a, b, c, d, e⟩ := send_spec (hc.lastPrim 0) env.cls_ne h1
      split at h2
      · next hl =>
        simp only [Prod.mk.injEq] at h2
        obtain ⟨rfl, rfl⟩ := h2
        obtain ⟨m, mc, p1, p2⟩ := hp (by simpa using hi)
        obtain ⟨q1, q2, q3⟩ := e rfl hl m mc p1 p2
        have hw : vm1.world = vm.world := b.1
        refine ⟨⟨a.entry, a.size, ?_⟩, b.1, fun _ => quiet_of_pos c, .inl d⟩
        intro _
        refine ⟨m, mc, ?_, ?_, ?_, ?_⟩
        · rw [hw]; exact p1
        · rw [hw]; exact q1
        · rw [hw]; exact q2
        · rw [hw]; exact q3
      · simp only [Prod.mk.injEq] at h2
        obtain ⟨rfl, rfl⟩ := h2
        exact ⟨a, b.1, fun _ => quiet_of_pos c, .inl d⟩

/-- Caches are right unless a superclass has changed, and empty if the counter is 0 unless it has been reset. -/
structure Inv (env : Env) (vm : VM) (dirty zeroed : Bool) : Prop where
  coherent : dirty = false → Coherent env vm
  quiet : zeroed = false → Quiet vm

theorem coherent_empty {vm : VM} (h : (∀ i, (vm.cache i).selector = 0) ∧ vm.sizeClass = 0 ∧ vm.clsClass = 0) : Coherent env vm :=
  ⟨fun i hi => absurd (h.1 i) hi, fun hi => absurd h.2.1 hi, fun hi => absurd h.2.2 hi⟩

theorem invalidate_spec {vm : VM} (h : Quiet vm) :
    Coherent env (invalidate vm) ∧ Quiet (invalidate vm) ∧ (invalidate vm).world = vm.world := by
  rw [invalidate]
  split
  · next h0 => exact ⟨coherent_empty (h h0), h, rfl⟩
  · exact ⟨coherent_empty ⟨fun _ => rfl, rfl, rfl⟩, fun _ => ⟨fun _ => rfl, rfl, rfl⟩, rfl⟩

theorem flush_spec (vm : VM) : Coherent env (flushCache vm) ∧ Quiet (flushCache vm) ∧ (flushCache vm).world = vm.world :=
  invalidate_spec fun h => absurd h (Nat.succ_ne_zero _)

theorem run_inv {fuel : Nat} (ops : List Op) (rest : List Op) (vm vm' : VM) (dirty zeroed : Bool) (h : Inv env vm dirty zeroed)
    (hs : Safe env vm.world dirty zeroed (ops ++ rest)) (hr : run env fuel vm ops = some vm') :
    ∃ dirty' zeroed', Inv env vm' dirty' zeroed' ∧ Safe env vm'.world dirty' zeroed' rest ∧ vm'.world = worldAfter vm.world ops := by
  induction ops generalizing vm dirty zeroed with
  | nil =>
    simp only [run, Option.some.injEq] at hr
    subst hr
    exact ⟨dirty, zeroed, h, hs, rfl⟩
  | cons op ops ih =>
    rw [run, Option.bind_eq_some_iff] at hr
    obtain ⟨vm1, h1, hr⟩ := hr
    suffices hstep : ∃ d z, Inv env vm1 d z ∧ Safe env vm1.world d z (ops ++ rest) ∧ vm1.world = worldStep vm.world op by
      obtain ⟨d, z, a, b, c⟩ := hstep
      obtain ⟨d', z', a', b', c'⟩ := ih vm1 d z a b hr
      exact ⟨d', z', a', b', by rw [c', c]; rfl⟩
    rw [List.cons_append] at hs
    cases op with
    | send sel n cls rcv =>
      rw [step, Option.map_eq_some_iff] at h1
      obtain ⟨⟨vm2, o⟩, h1, rfl⟩ := h1
      rw [Safe] at hs
      obtain ⟨hd, hs0, hs⟩ := hs
      obtain ⟨a, b, c, -, -⟩ := send_spec (h.coherent hd) hs0 h1
      refine ⟨dirty, false, ⟨fun _ => a, fun _ => quiet_of_pos c⟩, ?_, b.1⟩
      dsimp only
      rw [b.1]; exact hs
    | perform sel n rcv =>
      rw [step, Option.map_eq_some_iff] at h1
      obtain ⟨⟨vm2, o⟩, h1, rfl⟩ := h1
      rw [Safe] at hs
      obtain ⟨hd, hs0, hs⟩ := hs
      obtain ⟨a, b, c, -⟩ := perform_spec (h.coherent hd) hs0 h1
      refine ⟨dirty, false, ⟨fun _ => a, fun _ => quiet_of_pos c⟩, ?_, b.1⟩
      dsimp only
      rw [b.1]; exact hs
    | size rcv isInt =>
      rw [step, Option.map_eq_some_iff] at h1
      obtain ⟨⟨vm2, o⟩, h1, rfl⟩ := h1
      rw [Safe] at hs
      obtain ⟨hd, hp, hs⟩ := hs
      obtain ⟨a, b, c, -⟩ := size_spec (h.coherent hd) hp h1
      refine ⟨dirty, zeroed, ⟨fun _ => a, fun hz => c (h.quiet hz)⟩, ?_, b⟩
      dsimp only
      rw [b]; exact hs
    | cls rcv isInt =>
      rw [step, Option.map_eq_some_iff] at h1
      obtain ⟨⟨vm2, o⟩, h1, rfl⟩ := h1
      rw [Safe] at hs
      obtain ⟨hd, hp, hs⟩ := hs
      obtain ⟨a, b, c, -⟩ := cls_spec (h.coherent hd) hp h1
      refine ⟨dirty, zeroed, ⟨fun _ => a, fun hz => c (h.quiet hz)⟩, ?_, b⟩
      dsimp only
      rw [b]; exact hs
    | install cls sel m =>
      rw [step, Option.some.injEq] at h1
      subst h1
      obtain ⟨a, b, c⟩ := flush_spec (env := env) { vm with world := vm.world.install cls sel m }
      rw [Safe] at hs
      exact ⟨false, false, ⟨fun _ => a, fun _ => b⟩, by rw [install, c]; exact hs, c⟩
    | bootInstall cls sel m =>
      rw [step, Option.some.injEq] at h1
      subst h1
      rw [Safe] at hs
      obtain ⟨hz, hs⟩ := hs
      obtain ⟨a, b, c⟩ := invalidate_spec (env := env) (vm := { vm with world := vm.world.install cls sel (some m) }) (h.quiet hz)
      exact ⟨false, false, ⟨fun _ => a, fun _ => b⟩, by rw [bootInstall, c]; exact hs, c⟩
    | superclass cls super =>
      rw [step, Option.some.injEq] at h1
      subst h1
      rw [Safe] at hs
      exact ⟨true, zeroed, ⟨fun h => absurd h (by simp), fun hz => h.quiet hz⟩, hs, rfl⟩
    | flush =>
      rw [step, Option.some.injEq] at h1
      subst h1
      rw [Safe] at hs
      obtain ⟨a, b, c⟩ := flush_spec (env := env) vm
      exact ⟨false, false, ⟨fun _ => a, fun _ => b⟩, by rw [c]; exact hs, c⟩
    | constant =>
      rw [step, Option.some.injEq] at h1
      subst h1
      rw [Safe] at hs
      exact ⟨dirty, true, ⟨fun hd => (h.coherent hd).counter 0, fun h => absurd h (by simp)⟩, hs, rfl⟩

theorem inv_initial (w : World) : Inv env (initial w) false false :=
  ⟨fun _ => coherent_empty ⟨fun _ => rfl, rfl, rfl⟩, fun _ _ => ⟨fun _ => rfl, rfl, rfl⟩⟩

/-! ## Properties -/

/-- C29: after any safe history, a send does what the classes and methods of that moment say, whatever the caches hold. -/
theorem lookup_nearest (w : World) (fuel fuel' : Nat) (ops : List Op) (vm vm' : VM) (sel : OOP) (n : Nat) (cls rcv : OOP) (o : Outcome)
    (hs : Safe env w false false (ops ++ [.send sel n cls rcv])) (hr : run env fuel (initial w) ops = some vm)
    (h : send env fuel' vm sel n cls rcv = some (vm', o)) : Runs env (worldAfter w ops) sel n cls rcv o := by
  obtain ⟨d, z, a, b, c⟩ := run_inv ops [.send sel n cls rcv] (initial w) vm false false (inv_initial w) hs hr
  rw [Safe] at b
  obtain ⟨hd, hs0, -⟩ := b
  have := (send_spec (a.coherent hd) hs0 h).2.2.2.1
  rw [c] at this
  exact this

/-- C29: and what they say is done. -/
theorem lookup_done (w : World) (fuel : Nat) (ops : List Op) (vm : VM) (sel : OOP) (n : Nat) (cls rcv : OOP) (o : Outcome)
    (hs : Safe env w false false (ops ++ [.send sel n cls rcv])) (hr : run env fuel (initial w) ops = some vm)
    (h : Runs env (worldAfter w ops) sel n cls rcv o) :
    ∃ N, ∀ fuel', N ≤ fuel' → ∃ vm', send env fuel' vm sel n cls rcv = some (vm', o) := by
  obtain ⟨d, z, a, b, c⟩ := run_inv ops [.send sel n cls rcv] (initial w) vm false false (inv_initial w) hs hr
  rw [Safe] at b
  obtain ⟨hd, hs0, -⟩ := b
  obtain ⟨N, hN⟩ := send_complete h hs0
  refine ⟨N, fun fuel' hf => ?_⟩
  obtain ⟨⟨vm', o'⟩, ho⟩ := Option.isSome_iff_exists.1 (hN fuel' hf vm (a.coherent hd) c)
  have := (send_spec (a.coherent hd) hs0 ho).2.2.2.1
  rw [c] at this
  have := runs_unique this h
  subst this
  exact ⟨vm', ho⟩

/-- C29: `perform:` runs the method that a send would run if the number of arguments is right, and fails otherwise. -/
theorem perform_checked (w : World) (fuel fuel' : Nat) (ops : List Op) (vm vm' : VM) (sel : OOP) (n : Nat) (rcv m mc : OOP)
    (o : Option Outcome) (hs : Safe env w false false (ops ++ [.perform sel n rcv])) (hr : run env fuel (initial w) ops = some vm)
    (hm : Nearest env (worldAfter w ops) sel ((worldAfter w ops).classOf rcv) (some (m, mc)))
    (h : perform env fuel' vm rcv sel n = some (vm', o)) :
    (o = none ↔ ((worldAfter w ops).header m).numArgs ≠ n) ∧ o ≠ some .abort ∧
    ∀ o', o = some o' → Runs env (worldAfter w ops) sel n ((worldAfter w ops).classOf rcv) rcv o' := by
  obtain ⟨d, z, a, b, c⟩ := run_inv ops [.perform sel n rcv] (initial w) vm false false (inv_initial w) hs hr
  rw [Safe] at b
  obtain ⟨hd, hs0, -⟩ := b
  have hp := (perform_spec (a.coherent hd) hs0 h).2.2.2
  rw [c] at hp
  rcases hp with ⟨m', mc', h1, h2, rfl⟩ | ⟨h1, o', rfl, h2⟩
  · have := nearest_unique hm h1
    simp only [Option.some.injEq, Prod.mk.injEq] at this
    obtain ⟨rfl, -⟩ := this
    exact ⟨⟨fun _ => h2, fun _ => rfl⟩, by simp, by simp⟩
  · refine ⟨⟨by simp, fun hh => absurd (h1 m mc hm) hh⟩, ?_, ?_⟩
    · intro he
      simp only [Option.some.injEq] at he
      subst he
      cases h2 with
      | args hn hne => exact hne (h1 _ _ hn)
    · intro o1 h3
      simp only [Option.some.injEq] at h3
      subst h3
      exact h2

/-- C42: the special send of `size` does what the send would do. -/
theorem special_size_partial (w : World) (fuel fuel' : Nat) (ops : List Op) (vm vm' : VM) (rcv : OOP) (isInt : Bool) (o : Outcome)
    (hs : Safe env w false false (ops ++ [.size rcv isInt])) (hr : run env fuel (initial w) ops = some vm)
    (h : sizeSpecial env fuel' vm rcv isInt = some (vm', o)) :
    Runs env (worldAfter w ops) env.size 0 ((worldAfter w ops).classOf rcv) rcv o := by
  obtain ⟨d, z, a, b, c⟩ := run_inv ops [.size rcv isInt] (initial w) vm false false (inv_initial w) hs hr
  rw [Safe] at b
  obtain ⟨hd, hp, -⟩ := b
  have := (size_spec (a.coherent hd) hp h).2.2.2
  rw [c] at this
  exact this

/-- C42: the special send of `class` does what the send would do, except that a primitive may be told there is one argument. -/
theorem special_class_partial (w : World) (fuel fuel' : Nat) (ops : List Op) (vm vm' : VM) (rcv : OOP) (isInt : Bool) (o : Outcome)
    (hs : Safe env w false false (ops ++ [.cls rcv isInt])) (hr : run env fuel (initial w) ops = some vm)
    (h : clsSpecial env fuel' vm rcv isInt = some (vm', o)) : ClassRuns env (worldAfter w ops) rcv o := by
  obtain ⟨d, z, a, b, c⟩ := run_inv ops [.cls rcv isInt] (initial w) vm false false (inv_initial w) hs hr
  rw [Safe] at b
  obtain ⟨hd, hp, -⟩ := b
  have := (cls_spec (a.coherent hd) hp h).2.2.2
  rw [c] at this
  exact this

/-- C29 is false for a class whose superclasses do not implement `doesNotUnderstand:` (the root class in a `super` send, for
instance): the virtual machine sends `doesNotUnderstand:` forever. -/
theorem dnu_loops (vm : VM) (hc : Coherent env vm) (sel : OOP) (n : Nat) (cls rcv : OOP) (hs : sel ≠ 0)
    (h1 : Nearest env vm.world sel cls none) (h2 : Nearest env vm.world env.dnu cls none) (fuel : Nat) :
    send env fuel vm sel n cls rcv = none := by
  induction fuel generalizing vm sel n with
  | zero => rfl
  | succ fuel ih =>
    rw [send]
    split
    · rfl
    · next vm1 hl =>
      obtain ⟨c1, c2, -⟩ := cacheLookup_spec (hc.counter _) hs hl
      have hw : vm1.world = vm.world := c2.1
      rw [ih vm1 c1 env.dnu 1 env.dnu_ne (by rw [hw]; exact h2) (by rw [hw]; exact h2)]
      rfl
    · next vm1 e hl =>
      obtain ⟨-, -, -, -, -, c6⟩ := cacheLookup_spec (hc.counter _) hs hl
      have := nearest_unique h1 (c6 e rfl).1
      simp at this

/-! ## Concrete cases -/

/-- nil is 1000; classes 160, 320 (superclass 160) and 480; selector 5 and so on. -/
def sampleEnv : Env := ⟨1000, 1, 2, 3, 4, fun _ _ _ => true, by simp, by simp, by simp, by simp⟩

def sampleWorld : World where
  superclass c := if c = 320 then 160 else 1000
  methods c s := if c = 160 ∧ s = 5 then some 50 else if c = 480 ∧ s = 5 then some 51 else if c = 160 ∧ s = 1 then some 52
    else if c = 160 ∧ s = 3 then some 53 else if c = 160 ∧ s = 4 then some 53 else none
  header m := if m = 52 then ⟨1, .normal, 0⟩ else if m = 53 then ⟨0, .primitive, 7⟩ else ⟨0, .normal, 0⟩
  classOf o := if o = 9 then 480 else 320
  class_ne o := by split <;> simp

/-- A history with cache hits, an overriding definition, its removal, `doesNotUnderstand:` and special sends. -/
def sampleOps : List Op :=
  [.send 5 0 320 8, .send 5 0 320 8, .install 320 5 (some 54), .send 5 0 320 8, .install 320 5 none, .perform 5 0 8, .perform 5 3 8,
   .send 6 2 320 8, .size 8 false, .size 8 false, .cls 8 false, .superclass 320 480, .flush]

theorem sample_plain (s : OOP) (h : s = 3 ∨ s = 4) : plain sampleEnv sampleWorld s 320 := by
  refine ⟨53, 160, .up (by decide) ?_ (.here (by decide) ?_), by decide⟩ <;> rcases h with rfl | rfl <;> decide

example : (run sampleEnv 5 (initial sampleWorld) sampleOps).isSome = true := by decide

example : ((run sampleEnv 5 (initial sampleWorld) sampleOps).bind fun vm => send sampleEnv 5 vm 5 0 320 8).map Prod.snd =
    some (.run 51) := by decide

/-- C29 is false after `superclass:` alone: the method of the old superclass still runs. -/
theorem superclass_not_flushed : ∃ vm, run sampleEnv 5 (initial sampleWorld) [.send 5 0 320 8, .superclass 320 480] = some vm ∧
    (send sampleEnv 5 vm 5 0 320 8).map Prod.snd = some (.run 50) ∧
    Runs sampleEnv (worldAfter sampleWorld [.send 5 0 320 8, .superclass 320 480]) 5 0 320 8 (.run 51) := by
  refine ⟨_, rfl, by decide, ?_⟩
  exact Runs.normal (m := 51) (mc := 480) (.up (by decide) (by decide) (.here (by decide) (by decide))) (by decide)

/-- C29 is false while the kernel is loaded, if a constant is evaluated between a send and the definition of a method: the old
method still runs. -/
theorem constant_skips_flush : ∃ vm, run sampleEnv 5 (initial sampleWorld) [.send 5 0 320 8, .constant, .bootInstall 320 5 54] = some vm ∧
    (send sampleEnv 5 vm 5 0 320 8).map Prod.snd = some (.run 50) ∧
    Runs sampleEnv (worldAfter sampleWorld [.send 5 0 320 8, .constant, .bootInstall 320 5 54]) 5 0 320 8 (.run 54) := by
  refine ⟨_, rfl, by decide, ?_⟩
  exact Runs.normal (m := 54) (mc := 320) (.here (by decide) (by decide)) (by decide)

/-- C42 is false for `class`: the second time, its primitive is told that there is one argument. -/
theorem class_special_args : ∃ vm, run sampleEnv 5 (initial sampleWorld) [.cls 8 false] = some vm ∧
    (clsSpecial sampleEnv 5 vm 8 false).map Prod.snd = some (.prim 7 1) ∧
    Runs sampleEnv (worldAfter sampleWorld [.cls 8 false]) 4 0 320 8 (.prim 7 0) := by
  refine ⟨_, rfl, by decide, ?_⟩
  exact Runs.prim (m := 53) (mc := 160) (.up (by decide) (by decide) (.here (by decide) (by decide))) (by decide) rfl

/-- A world in which `size` is not understood by class 320 and `doesNotUnderstand:` is a primitive. -/
def dnuWorld : World where
  superclass c := if c = 320 then 160 else 1000
  methods c s := if c = 160 ∧ s = 1 then some 52 else none
  header _ := ⟨1, .primitive, 7⟩
  classOf _ := 320
  class_ne _ := by simp

/-- C42 is false for `size` when it is not understood and `doesNotUnderstand:` is a primitive: the second time, that primitive is
run with no argument in place of `size`. -/
theorem size_special_dnu : ∃ vm, run sampleEnv 5 (initial dnuWorld) [.size 8 false] = some vm ∧
    (sizeSpecial sampleEnv 5 vm 8 false).map Prod.snd = some (.prim 7 0) ∧
    Runs sampleEnv (worldAfter dnuWorld [.size 8 false]) 3 0 320 8 (.dnu 3 0 320 (.prim 7 1)) := by
  refine ⟨_, rfl, by decide, ?_⟩
  refine .dnu (.up (by decide) (by decide) (.up (by decide) (by decide) .root)) ?_
  exact Runs.prim (m := 52) (mc := 160) (.up (by decide) (by decide) (.here (by decide) (by decide))) (by decide) rfl

example : Safe sampleEnv sampleWorld false false ([.send 5 0 320 8, .install 320 5 (some 54), .superclass 320 480, .flush] ++ [.send 5 0 320 8]) := by
  simp [Safe]

example : Safe sampleEnv sampleWorld false false ([.size 8 false, .cls 8 false] ++ [.size 8 false]) :=
  ⟨rfl, fun _ => sample_plain 3 (.inl rfl), rfl, fun _ => sample_plain 4 (.inr rfl), rfl, fun _ => sample_plain 3 (.inl rfl), trivial⟩

/-- Every place of the method cache that a lookup uses lies inside the array of `2 ^ 11` entries (libgst/interp.c l.114, 117). -/
theorem cache_index_in_range (sel cls : OOP) : cacheHash sel cls < 2 ^ 11 :=
  Nat.lt_of_le_of_lt Nat.and_le_right (by decide)

example : cacheHash 123456789 987654321 < 2 ^ 11 := cache_index_in_range _ _

end Verif.Lookup
