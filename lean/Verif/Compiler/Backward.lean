import Verif.Compiler.Forward

/-!
# What the code does is what the source means

By induction on the tree, and within a loop on the number of steps.
-/
namespace Verif.Compiler

variable {S V : Type} [DecidableEq V] {w : World S V} {code : Code}

/-! ## How many values -/

/-- The number of values that a job leaves. -/
def jobOut : Job V → Nat
  | .args as => as.length
  | .while_ _ _ _ => 0
  | .repeat_ _ => 0
  | .times _ _ => 0
  | .to _ _ _ _ _ => 0
  | _ => 1

def Counts (j : Job V) : Out S V → Prop
  | .val vs _ => vs.length = jobOut j
  | .ret _ _ => True

theorem ev_counts {j : Job V} {s : S} {o : Out S V} (h : Ev w j s o) : Counts j o := by
  induction h
  all_goals first
    | trivial
    | rfl
    | assumption
    | (rename_i ih; simp_all [Counts, jobOut, Args.length]; done)
    | (simp only [Counts] at *; split <;> simp_all [jobOut]; done)

/-! ## Instructions, backwards -/

/-- vm.def l.773-809: an error that is not resumed.  `SystemExceptions.WrongClass` or a `doesNotUnderstand:`
of `mustBeBoolean` whose handler resumes would break this. -/
def World.Strict (w : World S V) : Prop := ∀ s v, v ≠ w.tt → v ≠ w.ff → w.mustBeBoolean s v = none

theorem send_some {sel : Sel} {k n pc : Nat} {vs stk : List V} {v : V} {s : S} {r : Result S V}
    (h : At code pc (gSend sel k)) (hk : vs.length = k) (ok : sel.Ok w k)
    (H : HaltsIn w code n ⟨pc, 0, vs.reverse ++ v :: stk, s⟩ r) : ∃ a s', w.send s sel v vs = some (a, s') := by
  subst hk
  obtain ⟨op, m, e, hop, he⟩ := gSend_emit (w := w) sel vs.length
  rw [e] at h
  have := emit_bwd hop h H
  rw [he ok, doSend_eq] at this
  cases hx : w.send s sel v vs with
  | none => rcases this with ⟨_, _, h, _⟩ | h <;> simp [hx] at h
  | some x => exact ⟨x.1, x.2, rfl⟩

theorem special_some {c n pc : Nat} {i k : V} {stk : List V} {s : S} {r : Result S V} (ha : w.arity c = 1)
    (h : At code pc (emit (.special c) 0)) (H : HaltsIn w code n ⟨pc, 0, i :: k :: stk, s⟩ r) :
    ∃ a s', w.send s (.builtin c) k [i] = some (a, s') := by
  have := emit_bwd (by simp) h H
  have e := doSend_eq (fun s => w.send s (.builtin c)) [i] k (pc + (emit (.special c) 0).length) stk s
  simp only [effect, ha] at this
  simp only [List.length_cons, List.length_nil, Nat.zero_add, List.reverse_cons, List.reverse_nil, List.nil_append,
    List.cons_append] at e
  rw [e] at this
  cases hx : w.send s (.builtin c) k [i] with
  | none => rcases this with ⟨_, _, h, _⟩ | h <;> simp [hx] at h
  | some x => exact ⟨x.1, x.2, rfl⟩

theorem superSend_some {sel : Sel} {k n pc cls : Nat} {vs stk : List V} {v : V} {s : S} {r : Result S V}
    (h : At code pc (gSendSuper cls sel k)) (hk : vs.length = k) (ok : sel.Ok w k)
    (H : HaltsIn w code n ⟨pc, 0, vs.reverse ++ v :: stk, s⟩ r) :
    ∃ a s', w.sendSuper s sel (w.lit cls) v vs = some (a, s') := by
  subst hk
  obtain ⟨op, m, e, hop, he⟩ := gSendSuper_emit (w := w) cls sel vs.length
  rw [e] at h
  have g1 : Goes w code 1 ⟨pc, 0, vs.reverse ++ v :: stk, s⟩ _ := emit_goes (by simp) h.left rfl
  obtain ⟨m, _, H⟩ := g1.bwd H
  have := emit_bwd hop h.right H
  rw [he ok, doSend_eq] at this
  cases hx : w.sendSuper s sel (w.lit cls) v vs with
  | none => rcases this with ⟨_, _, h, _⟩ | h <;> simp [hx] at h
  | some x => exact ⟨x.1, x.2, rfl⟩

theorem global_some {n pc m : Nat} {stk : List V} {s : S} {r : Result S V} (h : At code pc (emit .pushLitVar n))
    (H : HaltsIn w code m ⟨pc, 0, stk, s⟩ r) : ∃ a s', w.getGlobal s n = some (a, s') := by
  have := emit_bwd (by simp) h H
  cases hx : w.getGlobal s n with
  | none => rcases this with ⟨_, _, h, _⟩ | h <;> simp [hx, effect, pushOf] at h
  | some x => exact ⟨x.1, x.2, rfl⟩

theorem putGlobal_some {n pc m : Nat} {v : V} {stk : List V} {s : S} {r : Result S V} (h : At code pc (emit .storeLitVar n))
    (H : HaltsIn w code m ⟨pc, 0, v :: stk, s⟩ r) : ∃ a s', w.putGlobal s n v = some (a, s') := by
  have := emit_bwd (by simp) h H
  cases hx : w.putGlobal s n v with
  | none => rcases this with ⟨_, _, h, _⟩ | h <;> simp [hx, effect, pushOf] at h
  | some x => exact ⟨x.1, x.2, rfl⟩

theorem makeDirty_some {pc m : Nat} {v : V} {stk : List V} {s : S} {r : Result S V} (h : At code pc (emit .makeDirty 0))
    (H : HaltsIn w code m ⟨pc, 0, v :: stk, s⟩ r) : ∃ a s', w.makeBlock s v = some (a, s') := by
  have := emit_bwd (by simp) h H
  cases hx : w.makeBlock s v with
  | none => rcases this with ⟨_, _, h, _⟩ | h <;> simp [hx, effect, pushOf] at h
  | some x => exact ⟨x.1, x.2, rfl⟩

theorem popJump_bool (hb : w.Strict) {j : Bool} {n m pc : Nat} {v : V} {stk : List V} {s : S} {r : Result S V}
    (h : At code pc (gPopJump j n)) (hn : n % 2 = 0) (H : HaltsIn w code m ⟨pc, 0, v :: stk, s⟩ r) :
    ∃ x, v = w.bool x := by
  by_cases h1 : v = w.tt
  · exact ⟨true, h1⟩
  by_cases h2 : v = w.ff
  · exact ⟨false, h2⟩
  have hn' : ¬ n % 2 = 1 := by omega
  have := hb s v h1 h2
  cases j
  · have e := emit_bwd (op := .popJumpFalse) (by simp) h H
    simp [effect, popJump, hn', h1, h2, this, pushOf] at e
  · have e := emit_bwd (op := .popJumpTrue) (by simp) h H
    simp [effect, popJump, hn', h1, h2, this, pushOf] at e

theorem popJump_bool' (hb : w.Strict) (p : Bool) {j : Bool} {n m pc : Nat} {v : V} {stk : List V} {s : S} {r : Result S V}
    (h : At code pc (gPopJump j n)) (hn : n % 2 = 0) (H : HaltsIn w code m ⟨pc, 0, v :: stk, s⟩ r) :
    v = w.bool p ∨ v = w.bool (!p) := by
  obtain ⟨x, rfl⟩ := popJump_bool hb h hn H
  cases x <;> cases p <;> simp

theorem cmp_some (hw : w.Std) {st : Option (Option Nat × Const × Bool)} {n pc : Nat} {i k : V} {stk : List V} {s : S}
    {r : Result S V} (h : At code pc (emit (.special (if stepNeg st then lessEqualSpecial else greaterEqualSpecial)) 0))
    (H : HaltsIn w code n ⟨pc, 0, i :: k :: stk, s⟩ r) : ∃ a s', w.send s (goOnSel st) k [i] = some (a, s') := by
  cases st with
  | none => exact special_some hw.ge h H
  | some x =>
    obtain ⟨ln, c, neg⟩ := x
    cases neg
    · exact special_some hw.ge h H
    · exact special_some hw.le h H

theorem ret_result {ib : Bool} {n pc : Nat} {v : V} {stk : List V} {s : S} {r : Result S V}
    (h : At code pc (emit (if ib then .retMethod else .retContext) 0))
    (H : HaltsIn w code n ⟨pc, 0, v :: stk, s⟩ r) : r = retResult ib v s := by
  cases ib
  · have e := emit_bwd (op := .retContext) (by simp) h H
    simp [effect] at e
    exact e.symm
  · have e := emit_bwd (op := .retMethod) (by simp) h H
    simp [effect] at e
    exact e.symm

/-! ## Jobs, backwards -/

/-- What is shown of an execution that starts with the code of a job. -/
def Post (w : World S V) (code : Code) (ib : Bool) (j : Job V) (n pE : Nat) (stk : List V) (s : S) (r : Result S V) :
    Prop :=
  (∃ vs s' m, m ≤ n ∧ Ev w j s (.val vs s') ∧ HaltsIn w code m ⟨pE, 0, vs.reverse ++ stk, s'⟩ r) ∨
    ∃ v s', Ev w j s (.ret v s') ∧ r = retResult ib v s'

def Bwd (w : World S V) (code : Code) (ib : Bool) (j : Job V) : Prop :=
  ∀ n pc stk s r, jobOk w ib j → At code pc (jobCode ib j) → HaltsIn w code n ⟨pc, 0, jobIn j ++ stk, s⟩ r →
    Post w code ib j n (pc + (jobCode ib j).length) stk s r

theorem Bwd.one {ib : Bool} {j : Job V} (h : Bwd w code ib j) (hj : jobOut j = 1) {n pc : Nat} {stk : List V} {s : S}
    {r : Result S V} (ok : jobOk w ib j) (hc : At code pc (jobCode ib j))
    (H : HaltsIn w code n ⟨pc, 0, jobIn j ++ stk, s⟩ r) :
    (∃ v s' m, m ≤ n ∧ Ev w j s (.val [v] s') ∧
      HaltsIn w code m ⟨pc + (jobCode ib j).length, 0, v :: stk, s'⟩ r) ∨
    ∃ v s', Ev w j s (.ret v s') ∧ r = retResult ib v s' := by
  rcases h _ _ _ _ _ ok hc H with ⟨vs, s', m, hm, ev, H'⟩ | h
  · have := ev_counts ev
    simp only [Counts, hj] at this
    obtain ⟨v, rfl⟩ := List.length_eq_one_iff.mp this
    exact .inl ⟨v, s', m, hm, ev, H'⟩
  · exact .inr h

theorem Bwd.none {ib : Bool} {j : Job V} (h : Bwd w code ib j) (hj : jobOut j = 0) {n pc : Nat} {stk : List V} {s : S}
    {r : Result S V} (ok : jobOk w ib j) (hc : At code pc (jobCode ib j))
    (H : HaltsIn w code n ⟨pc, 0, jobIn j ++ stk, s⟩ r) :
    (∃ s' m, m ≤ n ∧ Ev w j s (.val [] s') ∧ HaltsIn w code m ⟨pc + (jobCode ib j).length, 0, stk, s'⟩ r) ∨
    ∃ v s', Ev w j s (.ret v s') ∧ r = retResult ib v s' := by
  rcases h _ _ _ _ _ ok hc H with ⟨vs, s', m, hm, ev, H'⟩ | h
  · have := ev_counts ev
    simp only [Counts, hj, List.length_eq_zero_iff] at this
    subst this
    exact .inl ⟨s', m, hm, ev, H'⟩
  · exact .inr h

/-- The rest of a job decides. -/
theorem Post.map {ib : Bool} {j j' : Job V} {n n' pE pE' : Nat} {stk : List V} {s s' : S} {r : Result S V}
    (h : Post w code ib j' n' pE' stk s' r) (hn : n' ≤ n) (he : pE' = pE)
    (hev : ∀ o, Ev w j' s' o → Ev w j s o) : Post w code ib j n pE stk s r := by
  subst he
  rcases h with ⟨vs, t, m, hm, ev, H⟩ | ⟨v, t, ev, rfl⟩
  · exact .inl ⟨vs, t, m, by omega, hev _ ev, H⟩
  · exact .inr ⟨v, t, hev _ ev, rfl⟩

theorem Post.val {ib : Bool} {j : Job V} {n m pE pE' : Nat} {stk : List V} {v : V} {s s' : S} {r : Result S V}
    (ev : Ev w j s (.val [v] s')) (hn : m ≤ n) (he : pE' = pE) (H : HaltsIn w code m ⟨pE', 0, v :: stk, s'⟩ r) :
    Post w code ib j n pE stk s r := by
  subst he
  exact .inl ⟨[v], s', m, hn, ev, H⟩

/-- Arguments and message. -/
theorem bwd_send {ib : Bool} {as : Args} {sel : Sel} {n pc : Nat} {stk : List V} {v : V} {s : S} {r : Result S V}
    (iha : Bwd w code ib (.args as)) (oka : as.Ok w ib) (oks : sel.Ok w as.length)
    (h : At code pc (gArgs ib as ++ gSend sel as.length)) (H : HaltsIn w code n ⟨pc, 0, v :: stk, s⟩ r) :
    (∃ vs s1 a s2 m, m ≤ n ∧ Ev w (.args as) s (.val vs s1) ∧ w.send s1 sel v vs = some (a, s2) ∧
      HaltsIn w code m ⟨pc + (gArgs ib as ++ gSend sel as.length).length, 0, a :: stk, s2⟩ r) ∨
    ∃ u s', Ev w (.args as) s (.ret u s') ∧ r = retResult ib u s' := by
  rcases iha _ _ _ _ _ oka h.left H with ⟨vs, s1, m, hm, ev, H1⟩ | ⟨u, s', ev, hr⟩
  · obtain ⟨a, s2, hs⟩ := send_some h.right (args_length ev) oks H1
    obtain ⟨m2, hm2, H2⟩ := (send_goes (stk := stk) h.right (args_length ev) oks hs).bwd H1
    refine .inl ⟨vs, s1, a, s2, m2, by omega, ev, hs, ?_⟩
    rw [List.length_append, ← Nat.add_assoc]
    exact H2
  · exact .inr ⟨u, s', ev, hr⟩

/-- One of two branches and the jump behind it. -/
theorem bwd_thenJump {ib : Bool} {b : Body} {k n pc pE : Nat} {stk : List V} {s : S} {r : Result S V}
    (ihb : Bwd w code ib (.body b)) (ok : b.Ok w ib) (hk : k % 2 = 0)
    (h : At code pc (gThenJump b.returns (gBody ib b) k))
    (he : pE = pc + (gThenJump b.returns (gBody ib b) k).length + k / 2)
    (H : HaltsIn w code n ⟨pc, 0, stk, s⟩ r) : Post w code ib (.body b) n pE stk s r := by
  subst he
  simp only [gThenJump] at h ⊢
  split at h
  · rename_i hr
    rcases ihb.one rfl ok h H with ⟨v, s', m, hm, ev, H'⟩ | h
    · exact absurd ev (returns_no_val hr)
    · exact .inr h
  · rename_i hr
    simp only [hr, Bool.false_eq_true, if_false]
    rcases ihb.one rfl ok h.left H with ⟨v, s', m, hm, ev, H'⟩ | h
    · obtain ⟨m2, hm2, H2⟩ := (jump_goes h.right hk).bwd H'
      refine Post.val ev (by omega) ?_ H2
      simp only [List.length_append, ← Nat.add_assoc, jobCode]
    · exact .inr h

theorem jumpLens_even (base around : Nat) : (jumpLens lenGe base around 8 0 0).1 % 2 = 0 := by
  rw [(jumpLens_ge base around).1]; exact lenGe_even _

theorem repeat_no_val {b : Body} {s : S} {vs : List V} {s' : S} : ¬ Ev w (.repeat_ b) s (.val vs s') := by
  intro h
  generalize hj : Job.repeat_ b = j at h
  generalize ho : Out.val vs s' = o at h
  induction h <;> simp_all

/-! ## Loops -/

theorem bwd_while (hw : w.Std) (hb : w.Strict) {ib pol : Bool} {c : Body} (ihc : Bwd w code ib (.body c)) :
    Bwd w code ib (.while_ pol c none) := by
  intro n
  induction n using Nat.strongRecOn with
  | _ n ih =>
    intro pc stk s r ok h H
    obtain ⟨hc, hpj, pB, -, gy, gn, gb⟩ := while_pieces (w := w) hw.tf h
      (by have := ok.2; simp only [size, List.length_nil] at *; omega)
    rcases ihc.one rfl ok.1 hc H with ⟨v, s1, m, hm, ev, H1⟩ | ⟨v, s1, ev, hr⟩
    · rcases popJump_bool' hb pol hpj (jumpLens_even _ _) H1 with rfl | rfl
      · obtain ⟨m2, hm2, H2⟩ := (gy stk s1).bwd H1
        obtain ⟨m3, hm3, H3⟩ := (gb stk s1).bwd H2
        exact (ih m3 (by omega) pc stk s1 r ok h H3).map (by omega) rfl (fun o ho => .whileMore ev ho)
      · obtain ⟨m2, hm2, H2⟩ := (gn stk s1).bwd H1
        exact .inl ⟨[], s1, m2, by omega, .whileDone ev, H2⟩
    · exact .inr ⟨v, s1, .whileCondRet ev, hr⟩

theorem bwd_whileKw (hw : w.Std) (hb : w.Strict) {ib pol : Bool} {c b : Body} (ihc : Bwd w code ib (.body c))
    (ihb : Bwd w code ib (.body b)) : Bwd w code ib (.while_ pol c (some b)) := by
  intro n
  induction n using Nat.strongRecOn with
  | _ n ih =>
    intro pc stk s r ok h H
    have e : (emit .pop 0).length = 1 := emit_small _ _ (by simp)
    obtain ⟨hc, hpj, pB, hB, gy, gn, gb⟩ := while_pieces (w := w) hw.tf h
      (by have := ok.2.2; simp only [size, List.length_append, e] at *; omega)
    rcases ihc.one rfl ok.1 hc H with ⟨v, s1, m, hm, ev, H1⟩ | ⟨v, s1, ev, hr⟩
    · rcases popJump_bool' hb pol hpj (jumpLens_even _ _) H1 with rfl | rfl
      · obtain ⟨m2, hm2, H2⟩ := (gy stk s1).bwd H1
        rcases ihb.one rfl ok.2.1 hB.left H2 with ⟨u, s2, m3, hm3, ev2, H3⟩ | ⟨u, s2, ev2, hr⟩
        · obtain ⟨m4, hm4, H4⟩ := (pop_goes hB.right).bwd H3
          have gb := gb stk s2
          rw [List.length_append, ← Nat.add_assoc] at gb
          obtain ⟨m5, hm5, H5⟩ := gb.bwd H4
          exact (ih m5 (by omega) pc stk s2 r ok h H5).map (by omega) rfl (fun o ho => .whileBody ev ev2 ho)
        · exact .inr ⟨u, s2, .whileBodyRet ev ev2, hr⟩
      · obtain ⟨m2, hm2, H2⟩ := (gn stk s1).bwd H1
        exact .inl ⟨[], s1, m2, by omega, .whileDone ev, H2⟩
    · exact .inr ⟨v, s1, .whileCondRet ev, hr⟩

theorem bwd_repeat {ib : Bool} {b : Body} (ihb : Bwd w code ib (.body b)) : Bwd w code ib (.repeat_ b) := by
  intro n
  induction n using Nat.strongRecOn with
  | _ n ih =>
    intro pc stk s r ok h H
    obtain ⟨hB, g⟩ := repeat_pieces (w := w) h (by have := ok.2; omega)
    rcases ihb.one rfl ok.1 hB H with ⟨v, s1, m, hm, ev, H1⟩ | ⟨v, s1, ev, hr⟩
    · obtain ⟨m2, hm2, H2⟩ := (g v stk s1).bwd H1
      exact (ih m2 (by omega) pc stk s1 r ok h H2).map (by omega) rfl (fun o ho => .repeatMore ev ho)
    · exact .inr ⟨v, s1, .repeatRet ev, hr⟩

theorem bwd_times (hw : w.Std) (hb : w.Strict) {ib : Bool} {b : Body} (ihb : Bwd w code ib (.body b)) :
    ∀ k, Bwd w code ib (.times k b) := by
  intro k n
  induction n using Nat.strongRecOn generalizing k with
  | _ n ih =>
    intro pc stk s r ok h H
    have s1 : ∀ op, (emit op 0).length = 1 := fun op => emit_small _ _ (by omega)
    have s2 : ∀ op, (emit op 1).length = 1 := fun op => emit_small _ _ (by omega)
    obtain ⟨pQ, j, hj, hge, hpj, e, hpop, hone, hmin, hB, g, gb⟩ := times_pieces (w := w) h ok.2.2.1 ok.2.2.2
    obtain ⟨m1, hm1, H1⟩ := (g k stk s).bwd H
    obtain ⟨x, t1, hc⟩ := special_some hw.ge hge H1
    obtain ⟨m2, hm2, H2⟩ := (special_goes hw.ge hge hc).bwd H1
    rw [s1] at H2
    rcases popJump_bool' hb true hpj hj H2 with rfl | rfl
    · obtain ⟨m3, hm3, H3⟩ := (popJump_passed (j := false) hw.tf hpj hj).bwd H2
      obtain ⟨m4, hm4, H4⟩ := (pushInt_goes hone).bwd H3
      rw [s2] at H4
      obtain ⟨k', t2, hm⟩ := special_some hw.minus hmin H4
      obtain ⟨m5, hm5, H5⟩ := (special_goes hw.minus hmin hm).bwd H4
      rw [s1] at H5
      rcases ihb.one rfl ok.2.1 hB H5 with ⟨v, t3, m6, hm6, ev, H6⟩ | ⟨v, t3, ev, hr⟩
      · obtain ⟨m7, hm7, H7⟩ := (gb _ _ _).bwd H6
        exact (ih m7 (by omega) k' pc stk t3 r ok h H7).map (by omega) rfl (fun o ho => .timesMore hc hm ev ho)
      · exact .inr ⟨v, t3, .timesRet hc hm ev, hr⟩
    · obtain ⟨m3, hm3, H3⟩ := (popJump_taken (j := false) hpj hj).bwd H2
      obtain ⟨m4, hm4, H4⟩ := (pop_goes hpop).bwd H3
      rw [s1, e] at H4
      exact .inl ⟨[], t1, m4, by omega, .timesDone hc, H4⟩

theorem bwd_to (hw : w.Std) (hb : w.Strict) {ib : Bool} {b : Body} (ihb : Bwd w code ib (.body b))
    {st : Option (Option Nat × Const × Bool)} {slot : Nat} : ∀ lim i, Bwd w code ib (.to lim i st slot b) := by
  intro lim i n
  induction n using Nat.strongRecOn generalizing i with
  | _ n ih =>
    intro pc stk s r ok h H
    have s1 : ∀ op, (emit op 0).length = 1 := fun op => emit_small _ _ (by omega)
    have ok' := ok
    obtain ⟨-, -, okb, hslot, hs, hx⟩ := ok
    obtain ⟨j, hj, hcmp, hpj, e, hpop, hB, hst, hplus, g, gb⟩ := to_pieces (w := w) h hslot hs hx
    obtain ⟨x, t1, hc⟩ := cmp_some hw hcmp H
    obtain ⟨m2, hm2, H2⟩ := (cmp_goes (stk := lim :: stk) hw hcmp hc).bwd H
    rw [s1] at H2
    rcases popJump_bool' hb true hpj hj H2 with rfl | rfl
    · obtain ⟨m3, hm3, H3⟩ := (popJump_passed (j := false) hw.tf hpj hj).bwd H2
      rcases ihb.one rfl okb hB H3 with ⟨v, t2, m4, hm4, ev, H4⟩ | ⟨v, t2, ev, hr⟩
      · obtain ⟨m5, hm5, H5⟩ := (g _ _ _ _).bwd H4
        obtain ⟨m6, hm6, H6⟩ := (step_goes hst).bwd H5
        obtain ⟨i', t3, hp⟩ := special_some hw.plus hplus H6
        obtain ⟨m7, hm7, H7⟩ := (special_goes hw.plus hplus hp).bwd H6
        rw [s1] at H7
        obtain ⟨m8, hm8, H8⟩ := (gb _ _ _).bwd H7
        exact (ih m8 (by omega) i' pc stk _ r ok' h H8).map (by omega) rfl (fun o ho => .toMore hc ev hp ho)
      · exact .inr ⟨v, t2, .toRet hc ev, hr⟩
    · obtain ⟨m3, hm3, H3⟩ := (popJump_taken (j := false) hpj hj).bwd H2
      obtain ⟨m4, hm4, H4⟩ := (pop_goes hpop).bwd H3
      rw [s1, e] at H4
      exact .inl ⟨[], t1, m4, by omega, .toDone hc, H4⟩

theorem bwd_store {ib : Bool} : ∀ vs v, Bwd w code ib (.store v vs) := by
  intro vs
  induction vs with
  | nil =>
    intro v n pc stk s r ok h H
    exact .inl ⟨[v], s, n, by omega, .storeNil, H⟩
  | cons x vs ih =>
    intro v n pc stk s r ok h H
    have okx := ok x (by simp)
    have ok' : ∀ v ∈ vs, v.Assignable := fun v hv => ok v (by simp [hv])
    simp only [jobCode, gStores] at h ⊢
    have simple : (∀ n, x ≠ .global n) → (∀ o, Ev w (.store v vs) (w.put s x v) o → Ev w (.store v (x :: vs)) s o) →
        Post w code ib (.store v (x :: vs)) n (pc + (gStore x ++ gStores vs).length) stk s r := fun hg hev => by
      obtain ⟨m, hm, H1⟩ := (store_goes h.left okx hg).bwd H
      refine (ih v m _ stk _ r ok' h.right H1).map (by omega) ?_ hev
      simp only [jobCode, List.length_append, ← Nat.add_assoc]
    cases x with
    | self => exact okx.elim
    | special n => exact okx.elim
    | temp n => exact simple (by simp) (fun o ho => .storeTemp ho)
    | outer n d => exact simple (by simp) (fun o ho => .storeOuter ho)
    | ivar n => exact simple (by simp) (fun o ho => .storeIvar ho)
    | global k =>
      simp only [gStore, List.append_assoc] at h ⊢
      obtain ⟨u, t1, hp⟩ := putGlobal_some h.left H
      have g1 : Goes w code 1 ⟨pc, 0, v :: stk, s⟩ _ := emit_goes (by simp) h.left
        (by simp only [effect, hp, pushOf]; rfl)
      obtain ⟨m1, hm1, H1⟩ := g1.bwd H
      obtain ⟨m2, hm2, H2⟩ := (pop_goes h.right.left).bwd H1
      obtain ⟨u', t2, hg⟩ := global_some h.right.right.left H2
      obtain ⟨m3, hm3, H3⟩ := (global_goes h.right.right.left hg).bwd H2
      refine (ih u' m3 _ stk _ r ok' h.right.right.right H3).map (by omega) ?_ (fun o ho => .storeGlobal hp hg ho)
      simp only [jobCode, List.length_append, ← Nat.add_assoc]

/-! ## Trees -/

/-- An expression that pushes one value. -/
theorem bwd_leaf {ib : Bool} {j : Job V} {ln : Option Nat} {c : Code} {d n pc : Nat} {stk : List V} {v : V} {s s' : S}
    {r : Result S V} (h : At code pc (gLine ln ++ c)) (ev : Ev w j s (.val [v] s'))
    (g : ∀ q, At code q c → Goes w code d ⟨q, 0, stk, s⟩ ⟨q + c.length, 0, v :: stk, s'⟩)
    (H : HaltsIn w code n ⟨pc, 0, stk, s⟩ r) : Post w code ib j n (pc + (gLine ln ++ c).length) stk s r := by
  obtain ⟨m, hm, H1⟩ := (line_goes h.left).bwd H
  obtain ⟨m2, hm2, H2⟩ := (g _ h.right).bwd H1
  refine Post.val ev (by omega) ?_ H2
  simp only [List.length_append, ← Nat.add_assoc]

mutual
theorem bwd_expr (hw : w.Std) (hb : w.Strict) (ib : Bool) : ∀ e : Expr, Bwd w code ib (.expr e)
  | .var ln (.global k) => by
    intro n pc stk s r ok h H
    obtain ⟨m, hm, H1⟩ := (line_goes h.left).bwd H
    obtain ⟨a, s', hg⟩ := global_some h.right H1
    exact bwd_leaf h (.global hg) (fun q hq => global_goes hq hg) H
  | .var ln .self => fun n pc stk s r ok h H => bwd_leaf h .self (fun q hq => var_goes hq ok rfl) H
  | .var ln (.special k) => fun n pc stk s r ok h H => bwd_leaf h .special (fun q hq => var_goes hq ok rfl) H
  | .var ln (.temp k) => fun n pc stk s r ok h H => bwd_leaf h .temp (fun q hq => var_goes hq ok rfl) H
  | .var ln (.outer k d) => fun n pc stk s r ok h H => bwd_leaf h .outer (fun q hq => var_goes hq ok rfl) H
  | .var ln (.ivar k) => fun n pc stk s r ok h H => bwd_leaf h .ivar (fun q hq => var_goes hq ok rfl) H
  | .const ln c => fun n pc stk s r ok h H => bwd_leaf h .const (fun q hq => const_goes hq) H
  | .block ln k false => by
    intro n pc stk s r ok h H
    simp only [jobCode, gExpr, Bool.false_eq_true, if_false, List.append_nil] at h ⊢
    exact bwd_leaf (d := 1) h .block (fun q hq => emit_goes (by simp) hq rfl) H
  | .block ln k true => by
    intro n pc stk s r ok h H
    simp only [jobCode, gExpr, if_true, List.append_assoc] at h ⊢
    obtain ⟨m, hm, H1⟩ := (line_goes h.left).bwd H
    have g1 : Goes w code 1 ⟨pc + (gLine ln).length, 0, stk, s⟩ _ := emit_goes (by simp) h.right.left rfl
    obtain ⟨m2, hm2, H2⟩ := g1.bwd H1
    obtain ⟨a, s', hg⟩ := makeDirty_some h.right.right H2
    have g3 : Goes w code 1 ⟨pc + (gLine ln).length + (emit .pushLit k).length, 0, w.lit k :: stk, s⟩ _ :=
      emit_goes (by simp) h.right.right (by simp only [effect, hg, pushOf]; rfl)
    obtain ⟨m3, hm3, H3⟩ := g3.bwd H2
    refine Post.val (.dirty hg) (by omega) ?_ H3
    simp only [List.length_append, ← Nat.add_assoc]
  | .send e as sel => by
    intro n pc stk s r ok h H
    simp only [jobCode, gExpr, List.append_assoc] at h ⊢
    obtain ⟨ok1, ok2, ok3⟩ := ok
    rcases (bwd_expr hw hb ib e).one rfl ok1 h.left H with ⟨v, s1, m, hm, ev, H1⟩ | ⟨v, s1, ev, hr⟩
    · rcases bwd_send (bwd_args hw hb ib as) ok2 ok3 h.right H1 with ⟨vs, s2, a, s3, m2, hm2, ea, hs, H2⟩ | ⟨u, s2, ea, hr⟩
      · refine Post.val (.send ev ea hs) (by omega) ?_ H2
        simp only [jobCode, List.length_append, ← Nat.add_assoc]
      · exact .inr ⟨u, s2, .sendRet2 ev ea, hr⟩
    · exact .inr ⟨v, s1, .sendRet1 ev, hr⟩
  | .sendSuper e as cls sel => by
    intro n pc stk s r ok h H
    simp only [jobCode, gExpr, List.append_assoc] at h ⊢
    obtain ⟨ok1, ok2, ok3⟩ := ok
    rcases (bwd_expr hw hb ib e).one rfl ok1 h.left H with ⟨v, s1, m, hm, ev, H1⟩ | ⟨v, s1, ev, hr⟩
    · rcases bwd_args hw hb ib as _ _ _ _ _ ok2 h.right.left H1 with ⟨vs, s2, m2, hm2, ea, H2⟩ | ⟨u, s2, ea, hr⟩
      · obtain ⟨a, s3, hs⟩ := superSend_some h.right.right (args_length ea) ok3 H2
        have g := superSend_goes (stk := stk) h.right.right (args_length ea) ok3 hs
        obtain ⟨m4, hm4, H3⟩ := g.1.bwd H2
        obtain ⟨m3, hm3, H3⟩ := g.2.bwd H3
        refine Post.val (.super ev ea hs) (by omega) ?_ H3
        simp only [jobCode, List.length_append, ← Nat.add_assoc]
      · exact .inr ⟨u, s2, .superRet2 ev ea, hr⟩
    · exact .inr ⟨v, s1, .superRet1 ev, hr⟩
  | .cascade e ln as sel ms => by
    intro n pc stk s r ok h H
    simp only [jobCode, gExpr, List.append_assoc] at h ⊢
    rw [← List.append_assoc (gArgs ib _)] at h ⊢
    obtain ⟨ok1, ok2, ok3, ok4⟩ := ok
    rcases (bwd_expr hw hb ib e).one rfl ok1 h.left H with ⟨v, s1, m, hm, ev, H1⟩ | ⟨v, s1, ev, hr⟩
    · obtain ⟨m1, hm1, H1⟩ := (dup_goes h.right.left).bwd H1
      obtain ⟨m2, hm2, H1⟩ := (line_goes h.right.right.left).bwd H1
      rcases bwd_send (bwd_args hw hb ib as) ok2 ok3 h.right.right.right.left H1 with
        ⟨vs, s2, a, s3, m3, hm3, ea, hs, H2⟩ | ⟨u, s2, ea, hr⟩
      · refine (bwd_msgs hw hb ib ms _ _ _ _ _ _ _ ok4 h.right.right.right.right H2).map (by omega) ?_
          (fun o ho => .cascade ev ea hs ho)
        simp only [jobCode, List.length_append, ← Nat.add_assoc]
      · exact .inr ⟨u, s2, .cascadeRet2 ev ea, hr⟩
    · exact .inr ⟨v, s1, .cascadeRet1 ev, hr⟩
  | .assign e vs => by
    intro n pc stk s r ok h H
    simp only [jobCode, gExpr] at h ⊢
    rcases (bwd_expr hw hb ib e).one rfl ok.1 h.left H with ⟨v, s1, m, hm, ev, H1⟩ | ⟨v, s1, ev, hr⟩
    · refine (bwd_store vs v _ _ _ _ _ ok.2 h.right H1).map (by omega) ?_ (fun o ho => .assign ev ho)
      simp only [jobCode, List.length_append, ← Nat.add_assoc]
    · exact .inr ⟨v, s1, .assignRet ev, hr⟩
  | .array ln arr as => by
    intro n pc stk s r ok h H
    simp only [jobCode, gExpr, List.append_assoc] at h ⊢
    obtain ⟨m1, hm1, H1⟩ := (line_goes h.left).bwd H
    obtain ⟨c, s1, hg⟩ := global_some h.right.left H1
    obtain ⟨m2, hm2, H2⟩ := (global_goes h.right.left hg).bwd H1
    obtain ⟨m3, hm3, H3⟩ := (pushInt_goes h.right.right.left).bwd H2
    obtain ⟨a, s2, hs⟩ := send_some (sel := .builtin newColonSpecial) (k := 1) (vs := [_]) h.right.right.right.left rfl
      hw.new H3
    obtain ⟨m4, hm4, H4⟩ := (send_goes (sel := .builtin newColonSpecial) (k := 1) (vs := [_])
      h.right.right.right.left rfl hw.new hs).bwd H3
    refine (bwd_elts hw hb ib as _ _ _ _ _ _ _ ok h.right.right.right.right H4).map (by omega) ?_
      (fun o ho => .array hg hs ho)
    simp only [jobCode, List.length_append, ← Nat.add_assoc]
  | .whileUnary pol c => by
    intro n pc stk s r ok h H
    simp only [jobCode, gExpr] at h ⊢
    rcases (bwd_while (pol := pol) hw hb (bwd_body hw hb ib c)).none rfl ok h.left H with
      ⟨s1, m, hm, ev, H1⟩ | ⟨v, s1, ev, hr⟩
    · obtain ⟨m2, hm2, H2⟩ := (pushNil_goes h.right).bwd H1
      refine Post.val (.whileUnary ev) (by omega) ?_ H2
      simp only [jobCode, List.length_append, ← Nat.add_assoc]
    · exact .inr ⟨v, s1, .whileUnaryRet ev, hr⟩
  | .whileKw pol c b => by
    intro n pc stk s r ok h H
    simp only [jobCode, gExpr] at h ⊢
    rcases (bwd_whileKw (pol := pol) hw hb (bwd_body hw hb ib c) (bwd_body hw hb ib b)).none rfl ok h.left H with
      ⟨s1, m, hm, ev, H1⟩ | ⟨v, s1, ev, hr⟩
    · obtain ⟨m2, hm2, H2⟩ := (pushNil_goes h.right).bwd H1
      refine Post.val (.whileKw ev) (by omega) ?_ H2
      simp only [jobCode, List.length_append, ← Nat.add_assoc]
    · exact .inr ⟨v, s1, .whileKwRet ev, hr⟩
  | .repeat_ b => by
    intro n pc stk s r ok h H
    simp only [jobCode, gExpr] at h ⊢
    rcases (bwd_repeat (bwd_body hw hb ib b)).none rfl ok h.left H with ⟨s1, m, hm, ev, H1⟩ | ⟨v, s1, ev, hr⟩
    · exact absurd ev repeat_no_val
    · exact .inr ⟨v, s1, .repeat_ ev, hr⟩
  | .times e b => by
    intro n pc stk s r ok h H
    simp only [jobCode, gExpr, List.append_assoc] at h ⊢
    rcases (bwd_expr hw hb ib e).one rfl ok.1 h.left H with ⟨k, s1, m, hm, ev, H1⟩ | ⟨v, s1, ev, hr⟩
    · obtain ⟨m2, hm2, H2⟩ := (dup_goes h.right.left).bwd H1
      rcases (bwd_times hw hb (bwd_body hw hb ib b) k).none rfl ⟨trivial, ok.2⟩ h.right.right H2 with
        ⟨s2, m3, hm3, el, H3⟩ | ⟨v, s2, el, hr⟩
      · refine Post.val (.timesRepeat ev el) (by omega) ?_ H3
        simp only [jobCode, List.length_append, ← Nat.add_assoc]
      · exact .inr ⟨v, s2, .timesRepeatRet2 ev el, hr⟩
    · exact .inr ⟨v, s1, .timesRepeatRet1 ev, hr⟩
  | .toDo frm lim st slot b => by
    intro n pc stk s r ok h H
    simp only [jobCode, gExpr, List.append_assoc] at h ⊢
    rcases (bwd_expr hw hb ib frm).one rfl ok.1 h.left H with ⟨k, s1, m, hm, ef, H1⟩ | ⟨v, s1, ev, hr⟩
    · obtain ⟨m2, hm2, H2⟩ := (storeTemp_goes h.right.left).bwd H1
      rcases (bwd_expr hw hb ib lim).one rfl ok.2.1 h.right.right.left H2 with ⟨l, s2, m3, hm3, el, H3⟩ | ⟨v, s2, el, hr⟩
      · obtain ⟨m4, hm4, H4⟩ := (dup_goes h.right.right.right.left).bwd H3
        obtain ⟨m5, hm5, H5⟩ := (pushTemp_goes h.right.right.right.right.left).bwd H4
        rcases (bwd_to hw hb (bwd_body hw hb ib b) l _).none rfl ⟨trivial, trivial, ok.2.2⟩
          h.right.right.right.right.right H5 with ⟨s3, m6, hm6, et, H6⟩ | ⟨v, s3, et, hr⟩
        · refine Post.val (.toDo ef el et) (by omega) ?_ H6
          simp only [jobCode, List.length_append, ← Nat.add_assoc]
        · exact .inr ⟨v, s3, .toDoRet3 ef el et, hr⟩
      · exact .inr ⟨v, s2, .toDoRet2 ef el, hr⟩
    · exact .inr ⟨v, s1, .toDoRet1 ev, hr⟩
  | .ifTF c t f => by
    intro n pc stk s r ok h H
    simp only [jobCode, gExpr, List.append_assoc] at h ⊢
    rcases (bwd_expr hw hb ib c).one rfl ok.1 h.left H with ⟨v, s1, m, hm, ev, H1⟩ | ⟨v, s1, ev, hr⟩
    · rcases popJump_bool' hb true h.right.left (size_even _) H1 with rfl | rfl
      · obtain ⟨m2, hm2, H2⟩ := (popJump_passed hw.tf (j := false) h.right.left (size_even _)).bwd H1
        refine (bwd_thenJump (bwd_body hw hb ib t) ok.2.1 (size_even _) h.right.right.left rfl H2).map (by omega) ?_
          (fun o ho => .ifTrue ev ho)
        simp only [jobCode, List.length_append, ← Nat.add_assoc, size_half]
      · obtain ⟨m2, hm2, H2⟩ := (popJump_taken (j := false) h.right.left (size_even _)).bwd H1
        rw [size_half] at H2
        refine (bwd_body hw hb ib f _ _ _ _ _ ok.2.2 h.right.right.right H2).map (by omega) ?_
          (fun o ho => .ifFalse ev ho)
        simp only [jobCode, List.length_append, ← Nat.add_assoc]
    · exact .inr ⟨v, s1, .ifTFRet ev, hr⟩
  | .ifOne pol c b => by
    intro n pc stk s r ok h H
    simp only [jobCode, gExpr, List.append_assoc] at h ⊢
    have e : (emit .pushSpecial nilIndex).length = 1 := emit_small _ _ (by simp [nilIndex])
    rcases (bwd_expr hw hb ib c).one rfl ok.1 h.left H with ⟨v, s1, m, hm, ev, H1⟩ | ⟨v, s1, ev, hr⟩
    · rcases popJump_bool' hb pol h.right.left (size_even _) H1 with rfl | rfl
      · have g := popJump_passed hw.tf (stk := stk) (s := s1) (w := w) (j := !pol) h.right.left (size_even _)
        rw [Bool.not_not] at g
        obtain ⟨m2, hm2, H2⟩ := g.bwd H1
        refine (bwd_thenJump (bwd_body hw hb ib b) ok.2 (by rfl) h.right.right.left rfl H2).map (by omega) ?_
          (fun o ho => .oneYes ev ho)
        simp only [jobCode, List.length_append, ← Nat.add_assoc, e]
      · obtain ⟨m2, hm2, H2⟩ := (popJump_taken h.right.left (size_even _)).bwd H1
        rw [size_half] at H2
        obtain ⟨m3, hm3, H3⟩ := (pushNil_goes h.right.right.right).bwd H2
        refine Post.val (.oneNo ev) (by omega) ?_ H3
        simp only [jobCode, List.length_append, ← Nat.add_assoc]
    · exact .inr ⟨v, s1, .oneRet ev, hr⟩
  | .andOr isOr c b => by
    intro n pc stk s r ok h H
    simp only [jobCode, gExpr, List.append_assoc] at h ⊢
    have e : (emit .pop 0).length = 1 := emit_small _ _ (by simp)
    have hev : (size (gBody ib b) + 2) % 2 = 0 := by simp [size]
    rcases (bwd_expr hw hb ib c).one rfl ok.1 h.left H with ⟨v, s1, m, hm, ev, H1⟩ | ⟨v, s1, ev, hr⟩
    · obtain ⟨m2, hm2, H2⟩ := (dup_goes h.right.left).bwd H1
      rcases popJump_bool' hb isOr h.right.right.left hev H2 with rfl | rfl
      · obtain ⟨m3, hm3, H3⟩ := (popJump_taken h.right.right.left hev).bwd H2
        refine Post.val (.andOrShort ev) (by omega) ?_ H3
        simp only [jobCode, List.length_append, ← Nat.add_assoc, e, size]
        omega
      · obtain ⟨m3, hm3, H3⟩ := (popJump_passed hw.tf h.right.right.left hev).bwd H2
        obtain ⟨m4, hm4, H4⟩ := (pop_goes h.right.right.right.left).bwd H3
        refine (bwd_body hw hb ib b _ _ _ _ _ ok.2 h.right.right.right.right H4).map (by omega) ?_
          (fun o ho => .andOrLong ev ho)
        simp only [jobCode, List.length_append, ← Nat.add_assoc]
    · exact .inr ⟨v, s1, .andOrRet ev, hr⟩

theorem bwd_body (hw : w.Std) (hb : w.Strict) (ib : Bool) : ∀ b : Body, Bwd w code ib (.body b)
  | .empty => by
    intro n pc stk s r ok h H
    obtain ⟨m, hm, H1⟩ := (pushNil_goes h).bwd H
    exact Post.val .empty (by omega) rfl H1
  | .last e => fun n pc stk s r ok h H => (bwd_expr hw hb ib e n pc stk s r ok h H).map (by omega) rfl (fun o ho => .last ho)
  | .ret e => by
    intro n pc stk s r ok h H
    simp only [jobCode, gBody] at h ⊢
    rcases (bwd_expr hw hb ib e).one rfl ok h.left H with ⟨v, s1, m, hm, ev, H1⟩ | ⟨v, s1, ev, hr⟩
    · exact .inr ⟨v, s1, .ret ev, ret_result h.right H1⟩
    · exact .inr ⟨v, s1, .retRet ev, hr⟩
  | .cons e b => by
    intro n pc stk s r ok h H
    simp only [jobCode, gBody, List.append_assoc] at h ⊢
    rcases (bwd_expr hw hb ib e).one rfl ok.1 h.left H with ⟨v, s1, m, hm, ev, H1⟩ | ⟨v, s1, ev, hr⟩
    · obtain ⟨m2, hm2, H2⟩ := (pop_goes h.right.left).bwd H1
      refine (bwd_body hw hb ib b _ _ _ _ _ ok.2 h.right.right H2).map (by omega) ?_ (fun o ho => .seq ev ho)
      simp only [jobCode, List.length_append, ← Nat.add_assoc]
    · exact .inr ⟨v, s1, .seqRet ev, hr⟩

theorem bwd_args (hw : w.Std) (hb : w.Strict) (ib : Bool) : ∀ as : Args, Bwd w code ib (.args as)
  | .nil => fun n pc stk s r ok h H => .inl ⟨[], s, n, by omega, .argsNil, H⟩
  | .cons e as => by
    intro n pc stk s r ok h H
    simp only [jobCode, gArgs] at h ⊢
    rcases (bwd_expr hw hb ib e).one rfl ok.1 h.left H with ⟨v, s1, m, hm, ev, H1⟩ | ⟨v, s1, ev, hr⟩
    · rcases bwd_args hw hb ib as _ _ _ _ _ ok.2 h.right H1 with ⟨vs, s2, m2, hm2, ea, H2⟩ | ⟨u, s2, ea, hr⟩
      · refine .inl ⟨v :: vs, s2, m2, by omega, .argsCons ev ea, ?_⟩
        simp only [jobCode, List.length_append, ← Nat.add_assoc, List.reverse_cons, List.append_assoc,
          List.cons_append, List.nil_append] at H2 ⊢
        exact H2
      · exact .inr ⟨u, s2, .argsRet2 ev ea, hr⟩
    · exact .inr ⟨v, s1, .argsRet1 ev, hr⟩

theorem bwd_elts (hw : w.Std) (hb : w.Strict) (ib : Bool) : ∀ (as : Args) (a : V) (i : Nat), Bwd w code ib (.elts a i as)
  | .nil, a, i => fun n pc stk s r ok h H => .inl ⟨[a], s, n, by omega, .eltsNil, H⟩
  | .cons e as, a, i => by
    intro n pc stk s r ok h H
    simp only [jobCode, gElts, List.append_assoc] at h ⊢
    rcases (bwd_expr hw hb ib e).one rfl ok.1 h.left H with ⟨v, s1, m, hm, ev, H1⟩ | ⟨v, s1, ev, hr⟩
    · have g1 : Goes w code 1 ⟨pc + (gExpr ib e).length, 0, v :: a :: stk, s1⟩ _ := emit_goes (by simp) h.right.left rfl
      obtain ⟨m2, hm2, H2⟩ := g1.bwd H1
      refine (bwd_elts hw hb ib as a (i + 1) _ _ _ _ _ ok.2 h.right.right H2).map (by omega) ?_
        (fun o ho => .eltsCons ev ho)
      simp only [jobCode, List.length_append, ← Nat.add_assoc]
    · exact .inr ⟨v, s1, .eltsRet ev, hr⟩

theorem bwd_msgs (hw : w.Std) (hb : w.Strict) (ib : Bool) : ∀ (ms : Msgs) (a v : V), Bwd w code ib (.msgs a v ms)
  | .one ln as sel, a, v => by
    intro n pc stk s r ok h H
    simp only [jobCode, gMsgs, List.append_assoc] at h ⊢
    obtain ⟨m1, hm1, H1⟩ := (pop_goes h.left).bwd H
    obtain ⟨m2, hm2, H2⟩ := (line_goes h.right.left).bwd H1
    rcases bwd_send (bwd_args hw hb ib as) ok.1 ok.2 h.right.right H2 with
      ⟨vs, s2, a, s3, m3, hm3, ea, hs, H3⟩ | ⟨u, s2, ea, hr⟩
    · refine Post.val (.msgsOne ea hs) (by omega) ?_ H3
      simp only [List.length_append, ← Nat.add_assoc]
    · exact .inr ⟨u, s2, .msgsOneRet ea, hr⟩
  | .cons ln as sel ms, a, v => by
    intro n pc stk s r ok h H
    simp only [jobCode, gMsgs, List.append_assoc] at h ⊢
    rw [← List.append_assoc (gArgs ib _)] at h ⊢
    obtain ⟨m1, hm1, H1⟩ := (pop_goes h.left).bwd H
    obtain ⟨m2, hm2, H2⟩ := (dup_goes h.right.left).bwd H1
    obtain ⟨m3, hm3, H3⟩ := (line_goes h.right.right.left).bwd H2
    rcases bwd_send (bwd_args hw hb ib as) ok.1 ok.2.1 h.right.right.right.left H3 with
      ⟨vs, s2, a, s3, m4, hm4, ea, hs, H4⟩ | ⟨u, s2, ea, hr⟩
    · refine (bwd_msgs hw hb ib ms _ _ _ _ _ _ _ ok.2.2 h.right.right.right.right H4).map (by omega) ?_
        (fun o ho => .msgsCons ea hs ho)
      simp only [jobCode, List.length_append, ← Nat.add_assoc]
    · exact .inr ⟨u, s2, .msgsConsRet ea, hr⟩
end

end Verif.Compiler
