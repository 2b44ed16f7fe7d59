import Verif.Compiler.Backward

/-!
# How deep the stack gets

An upper bound on the number of values that the code of a tree has on the stack, and the proof that no
execution needs more, pops from an empty stack, or leaves the code.
-/
namespace Verif.Compiler

variable {S V : Type} [DecidableEq V] {w : World S V} {code : Code}

mutual
/-- The depth that a tree needs. -/
def Expr.need : Expr → Nat
  | .var _ _ => 1
  | .const _ _ => 1
  | .block _ _ _ => 1
  | .send r as _ => max r.need (1 + as.need)
  | .sendSuper r as _ _ => max r.need (max (1 + as.need) (as.length + 2))
  | .cascade r _ as _ ms => max r.need (max (2 + as.need) ms.need)
  | .assign e _ => e.need
  | .array _ _ as => max 2 as.needElts
  | .whileUnary _ c => c.need
  | .whileKw _ c b => max c.need b.need
  | .repeat_ b => b.need
  | .times n b => max n.need (max 4 (2 + b.need))
  | .toDo frm lim _ _ b => max frm.need (max (1 + lim.need) (max 5 (2 + b.need)))
  | .ifTF c t f => max c.need (max t.need f.need)
  | .ifOne _ c b => max c.need b.need
  | .andOr _ c b => max 2 (max c.need b.need)

def Body.need : Body → Nat
  | .empty => 1
  | .last e => e.need
  | .ret e => e.need
  | .cons e b => max e.need b.need

def Args.need : Args → Nat
  | .nil => 0
  | .cons e as => max e.need (1 + as.need)

/-- The elements of an array, together with the array. -/
def Args.needElts : Args → Nat
  | .nil => 1
  | .cons e as => max (1 + e.need) as.needElts

/-- Further messages of a cascade, together with the previous answer and the receiver. -/
def Msgs.need : Msgs → Nat
  | .one _ as _ => max 2 (1 + as.need)
  | .cons _ as _ ms => max (2 + as.need) ms.need
end

/-- The same for a job, with what it finds on the stack. -/
def jobNeed : Job V → Nat
  | .expr e => e.need
  | .body b => b.need
  | .args as => as.need
  | .store _ _ => 1
  | .elts _ _ as => as.needElts
  | .msgs _ _ ms => ms.need
  | .while_ _ c none => c.need
  | .while_ _ c (some b) => max c.need b.need
  | .repeat_ b => b.need
  | .times _ b => max 3 (1 + b.need)
  | .to _ _ _ _ b => max 4 (1 + b.need)

mutual
theorem Expr.need_pos : ∀ e : Expr, 1 ≤ e.need
  | .var _ _ => by simp [Expr.need]
  | .const _ _ => by simp [Expr.need]
  | .block _ _ _ => by simp [Expr.need]
  | .send r as _ => by simp only [Expr.need]; omega
  | .sendSuper r as _ _ => by simp only [Expr.need]; omega
  | .cascade r _ as _ ms => by simp only [Expr.need]; omega
  | .assign e _ => by simp only [Expr.need]; exact e.need_pos
  | .array _ _ as => by simp only [Expr.need]; omega
  | .whileUnary _ c => by simp only [Expr.need]; exact c.need_pos
  | .whileKw _ c b => by simp only [Expr.need]; have := c.need_pos; omega
  | .repeat_ b => by simp only [Expr.need]; exact b.need_pos
  | .times n b => by simp only [Expr.need]; omega
  | .toDo frm lim _ _ b => by simp only [Expr.need]; omega
  | .ifTF c t f => by simp only [Expr.need]; have := c.need_pos; omega
  | .ifOne _ c b => by simp only [Expr.need]; have := c.need_pos; omega
  | .andOr _ c b => by simp only [Expr.need]; omega

theorem Body.need_pos : ∀ b : Body, 1 ≤ b.need
  | .empty => by simp [Body.need]
  | .last e => by simp only [Body.need]; exact e.need_pos
  | .ret e => by simp only [Body.need]; exact e.need_pos
  | .cons e b => by simp only [Body.need]; have := e.need_pos; omega
end

theorem Args.length_le_need : ∀ as : Args, as.length ≤ as.need
  | .nil => by simp [Args.length]
  | .cons e as => by have := as.length_le_need; simp only [Args.length, Args.need]; omega

theorem Args.needElts_pos : ∀ as : Args, 1 ≤ as.needElts
  | .nil => by simp [Args.needElts]
  | .cons e as => by simp only [Args.needElts]; omega

theorem Msgs.need_pos : ∀ ms : Msgs, 2 ≤ ms.need
  | .one _ _ _ => by simp only [Msgs.need]; omega
  | .cons _ _ _ _ => by simp only [Msgs.need]; omega

/-! ## Instructions -/

theorem send_safe {sel : Sel} {k D n pc : Nat} {vs stk : List V} {v : V} {s : S}
    (h : At code pc (gSend sel k)) (hk : vs.length = k) (ok : sel.Ok w k) (hd : vs.length + 1 + stk.length ≤ D)
    (H : ∀ a s', w.send s sel v vs = some (a, s') → Safe w code D n ⟨pc + (gSend sel k).length, 0, a :: stk, s'⟩) :
    Safe w code D n ⟨pc, 0, vs.reverse ++ v :: stk, s⟩ := by
  have hd' : (vs.reverse ++ v :: stk).length ≤ D := by
    simp only [List.length_append, List.length_reverse, List.length_cons]; omega
  cases hx : w.send s sel v vs with
  | none =>
    subst hk
    obtain ⟨op, m, e, hop, he⟩ := gSend_emit (w := w) sel vs.length
    rw [e] at h
    refine emit_safe hop h hd' (.inl ?_)
    rw [he ok, doSend_eq, hx]
  | some x => exact (send_goes h hk ok hx).safe hd' ((H _ _ hx).mono (by omega))

theorem special_safe {c D n pc : Nat} {i k : V} {stk : List V} {s : S} (ha : w.arity c = 1)
    (h : At code pc (emit (.special c) 0)) (hd : stk.length + 2 ≤ D)
    (H : ∀ a s', w.send s (.builtin c) k [i] = some (a, s') → Safe w code D n ⟨pc + 1, 0, a :: stk, s'⟩) :
    Safe w code D n ⟨pc, 0, i :: k :: stk, s⟩ := by
  have e1 : (emit (.special c) 0).length = 1 := emit_small _ _ (by omega)
  have hd' : (i :: k :: stk).length ≤ D := by simp only [List.length_cons]; omega
  cases hx : w.send s (.builtin c) k [i] with
  | none =>
    refine emit_safe (by simp) h hd' (.inl ?_)
    have e := doSend_eq (fun s => w.send s (.builtin c)) [i] k (pc + (emit (.special c) 0).length) stk s
    simp only [List.length_cons, List.length_nil, Nat.zero_add, List.reverse_cons, List.reverse_nil, List.nil_append,
      List.cons_append] at e
    simp only [effect, ha, e, hx]
  | some x =>
    have g := special_goes (stk := stk) ha h hx
    rw [e1] at g
    exact g.safe hd' ((H _ _ hx).mono (by omega))

theorem cmp_safe (hw : w.Std) {st : Option (Option Nat × Const × Bool)} {D n pc : Nat} {i k : V} {stk : List V} {s : S}
    (h : At code pc (emit (.special (if stepNeg st then lessEqualSpecial else greaterEqualSpecial)) 0))
    (hd : stk.length + 2 ≤ D)
    (H : ∀ a s', w.send s (goOnSel st) k [i] = some (a, s') → Safe w code D n ⟨pc + 1, 0, a :: stk, s'⟩) :
    Safe w code D n ⟨pc, 0, i :: k :: stk, s⟩ := by
  cases st with
  | none => exact special_safe hw.ge h hd H
  | some x =>
    obtain ⟨ln, c, neg⟩ := x
    cases neg
    · exact special_safe hw.ge h hd H
    · exact special_safe hw.le h hd H

theorem superSend_safe {sel : Sel} {k D n pc cls : Nat} {vs stk : List V} {v : V} {s : S}
    (h : At code pc (gSendSuper cls sel k)) (hk : vs.length = k) (ok : sel.Ok w k) (hd : vs.length + 2 + stk.length ≤ D)
    (H : ∀ a s', w.sendSuper s sel (w.lit cls) v vs = some (a, s') →
      Safe w code D n ⟨pc + (gSendSuper cls sel k).length, 0, a :: stk, s'⟩) :
    Safe w code D n ⟨pc, 0, vs.reverse ++ v :: stk, s⟩ := by
  have hd' : (w.lit cls :: (vs.reverse ++ v :: stk)).length ≤ D := by
    simp only [List.length_append, List.length_reverse, List.length_cons]; omega
  have hd2 : (vs.reverse ++ v :: stk).length ≤ D := by
    simp only [List.length_append, List.length_reverse, List.length_cons]; omega
  cases hx : w.sendSuper s sel (w.lit cls) v vs with
  | none =>
    subst hk
    obtain ⟨op, m, e, hop, he⟩ := gSendSuper_emit (w := w) cls sel vs.length
    rw [e] at h
    have g1 : Goes w code 1 ⟨pc, 0, vs.reverse ++ v :: stk, s⟩ _ := emit_goes (by simp) h.left rfl
    refine g1.safe hd2 (emit_safe hop h.right hd' (.inl ?_))
    rw [he ok, doSend_eq, hx]
  | some x =>
    have g := superSend_goes (stk := stk) h hk ok hx
    exact g.1.safe hd2 (g.2.safe hd' ((H _ _ hx).mono (by omega)))

theorem global_safe {D k n pc : Nat} {stk : List V} {s : S} (h : At code pc (emit .pushLitVar k)) (hd : stk.length ≤ D)
    (H : ∀ a s', w.getGlobal s k = some (a, s') → Safe w code D n ⟨pc + (emit .pushLitVar k).length, 0, a :: stk, s'⟩) :
    Safe w code D n ⟨pc, 0, stk, s⟩ := by
  cases hx : w.getGlobal s k with
  | none => exact emit_safe (by simp) h hd (.inl (by simp [effect, hx, pushOf]))
  | some x => exact (global_goes h hx).safe hd ((H _ _ hx).mono (by omega))

theorem putGlobal_safe {D k n pc : Nat} {v : V} {stk : List V} {s : S} (h : At code pc (emit .storeLitVar k))
    (hd : stk.length + 1 ≤ D)
    (H : ∀ a s', w.putGlobal s k v = some (a, s') →
      Safe w code D n ⟨pc + (emit .storeLitVar k).length, 0, a :: stk, s'⟩) :
    Safe w code D n ⟨pc, 0, v :: stk, s⟩ := by
  cases hx : w.putGlobal s k v with
  | none => exact emit_safe (by simp) h hd (.inl (by simp [effect, hx, pushOf]))
  | some x =>
    have g : Goes w code 1 ⟨pc, 0, v :: stk, s⟩ _ := emit_goes (by simp) h (by simp only [effect, hx, pushOf]; rfl)
    exact g.safe hd ((H _ _ hx).mono (by omega))

theorem makeDirty_safe {D n pc : Nat} {v : V} {stk : List V} {s : S} (h : At code pc (emit .makeDirty 0))
    (hd : stk.length + 1 ≤ D)
    (H : ∀ a s', w.makeBlock s v = some (a, s') → Safe w code D n ⟨pc + (emit .makeDirty 0).length, 0, a :: stk, s'⟩) :
    Safe w code D n ⟨pc, 0, v :: stk, s⟩ := by
  cases hx : w.makeBlock s v with
  | none => exact emit_safe (by simp) h hd (.inl (by simp [effect, hx, pushOf]))
  | some x =>
    have g : Goes w code 1 ⟨pc, 0, v :: stk, s⟩ _ := emit_goes (by simp) h (by simp only [effect, hx, pushOf]; rfl)
    exact g.safe hd ((H _ _ hx).mono (by omega))

theorem ret_safe {ib : Bool} {D n pc : Nat} {v : V} {stk : List V} {s : S}
    (h : At code pc (emit (if ib then .retMethod else .retContext) 0)) (hd : stk.length + 1 ≤ D) :
    Safe w code D n ⟨pc, 0, v :: stk, s⟩ := by
  cases ib
  · exact emit_safe (op := .retContext) (by simp) h hd (.inr ⟨_, rfl⟩)
  · exact emit_safe (op := .retMethod) (by simp) h hd (.inr ⟨_, rfl⟩)

/-- A conditional jump. -/
theorem popJump_safe (hb : w.Strict) (p : Bool) {j : Bool} {D m n pc : Nat} {v : V} {stk : List V} {s : S}
    (h : At code pc (gPopJump j m)) (hm : m % 2 = 0) (hd : stk.length + 1 ≤ D)
    (H1 : v = w.bool p → Safe w code D n ⟨pc, 0, w.bool p :: stk, s⟩)
    (H2 : v = w.bool (!p) → Safe w code D n ⟨pc, 0, w.bool (!p) :: stk, s⟩) :
    Safe w code D n ⟨pc, 0, v :: stk, s⟩ := by
  by_cases h1 : v = w.bool p
  · rw [h1]; exact H1 h1
  by_cases h2 : v = w.bool (!p)
  · rw [h2]; exact H2 h2
  have ht : v ≠ w.tt := by cases p <;> simp_all [World.bool]
  have hf : v ≠ w.ff := by cases p <;> simp_all [World.bool]
  have hm' : ¬ m % 2 = 1 := by omega
  have := hb s v ht hf
  cases j
  · exact emit_safe (op := .popJumpFalse) (by simp) h hd (.inl (by simp [effect, popJump, hm', ht, hf, this, pushOf]))
  · exact emit_safe (op := .popJumpTrue) (by simp) h hd (.inl (by simp [effect, popJump, hm', ht, hf, this, pushOf]))

/-! ## Jobs -/

/-- What is shown of the code of a job. -/
def SafeJob (w : World S V) (code : Code) (ib : Bool) (j : Job V) : Prop :=
  ∀ D n pc stk s, jobOk w ib j → At code pc (jobCode ib j) → jobNeed j + stk.length ≤ D →
    (∀ vs s', Ev w j s (.val vs s') → Safe w code D n ⟨pc + (jobCode ib j).length, 0, vs.reverse ++ stk, s'⟩) →
    Safe w code D n ⟨pc, 0, jobIn j ++ stk, s⟩

theorem SafeJob.one {ib : Bool} {j : Job V} (h : SafeJob w code ib j) (hj : jobOut j = 1) {D n pc : Nat} {stk : List V}
    {s : S} (ok : jobOk w ib j) (hc : At code pc (jobCode ib j)) (hd : jobNeed j + stk.length ≤ D)
    (H : ∀ v s', Ev w j s (.val [v] s') → Safe w code D n ⟨pc + (jobCode ib j).length, 0, v :: stk, s'⟩) :
    Safe w code D n ⟨pc, 0, jobIn j ++ stk, s⟩ := by
  refine h D n pc stk s ok hc hd (fun vs s' ev => ?_)
  have := ev_counts ev
  simp only [Counts, hj] at this
  obtain ⟨v, rfl⟩ := List.length_eq_one_iff.mp this
  exact H v s' ev

theorem SafeJob.zero {ib : Bool} {j : Job V} (h : SafeJob w code ib j) (hj : jobOut j = 0) {D n pc : Nat} {stk : List V}
    {s : S} (ok : jobOk w ib j) (hc : At code pc (jobCode ib j)) (hd : jobNeed j + stk.length ≤ D)
    (H : ∀ s', Ev w j s (.val [] s') → Safe w code D n ⟨pc + (jobCode ib j).length, 0, stk, s'⟩) :
    Safe w code D n ⟨pc, 0, jobIn j ++ stk, s⟩ := by
  refine h D n pc stk s ok hc hd (fun vs s' ev => ?_)
  have := ev_counts ev
  simp only [Counts, hj, List.length_eq_zero_iff] at this
  subst this
  exact H s' ev

theorem Safe.to_pc {D n p q : Nat} {stk : List V} {s : S} (h : Safe w code D n ⟨p, 0, stk, s⟩) (e : p = q) :
    Safe w code D n ⟨q, 0, stk, s⟩ := e ▸ h

/-! ## Loops -/

theorem safe_while (hw : w.Std) (hb : w.Strict) {ib pol : Bool} {c : Body} (ihc : SafeJob w code ib (.body c)) :
    SafeJob w code ib (.while_ pol c none) := by
  intro D n
  induction n using Nat.strongRecOn with
  | _ n ih =>
    intro pc stk s ok h hd H
    obtain ⟨hc, hpj, pB, -, gy, gn, gb⟩ := while_pieces (w := w) hw.tf h
      (by have := ok.2; simp only [size, List.length_nil] at *; omega)
    have hc1 : 1 ≤ c.need := c.need_pos
    have hd : c.need + stk.length ≤ D := hd
    cases n with
    | zero => exact (by omega : stk.length ≤ D)
    | succ n =>
      refine ihc.one rfl ok.1 hc hd (fun v s1 ev => ?_)
      refine popJump_safe hb pol hpj (jumpLens_even _ _) (by omega) (fun e => ?_) (fun e => ?_)
      · subst e
        refine (gy stk s1).safe (by simp only [List.length_cons]; omega) ((gb stk s1).safe (by simp only [List.length_cons]; omega) ?_)
        exact ih (n + 1 - 1 - 1) (by omega) pc stk s1 ok h hd (fun vs s' ev' => (H vs s' (.whileMore ev ev')).mono (by omega))
      · subst e
        exact (gn stk s1).safe (by simp only [List.length_cons]; omega) ((H [] s1 (.whileDone ev)).mono (by omega))

theorem safe_whileKw (hw : w.Std) (hb : w.Strict) {ib pol : Bool} {c b : Body} (ihc : SafeJob w code ib (.body c))
    (ihb : SafeJob w code ib (.body b)) : SafeJob w code ib (.while_ pol c (some b)) := by
  intro D n
  induction n using Nat.strongRecOn with
  | _ n ih =>
    intro pc stk s ok h hd H
    have e : (emit .pop 0).length = 1 := emit_small _ _ (by simp)
    obtain ⟨hc, hpj, pB, hB, gy, gn, gb⟩ := while_pieces (w := w) hw.tf h
      (by have := ok.2.2; simp only [size, List.length_append, e] at *; omega)
    have hc1 : 1 ≤ c.need := c.need_pos
    have hd : max c.need b.need + stk.length ≤ D := hd
    cases n with
    | zero => exact (by omega : stk.length ≤ D)
    | succ n =>
      refine ihc.one rfl ok.1 hc (by simp only [jobNeed]; omega) (fun v s1 ev => ?_)
      refine popJump_safe hb pol hpj (jumpLens_even _ _) (by omega) (fun e => ?_) (fun e => ?_)
      · subst e
        refine (gy stk s1).safe (by simp only [List.length_cons]; omega) ?_
        refine ihb.one rfl ok.2.1 hB.left (by simp only [jobNeed]; omega) (fun u s2 ev2 => ?_)
        refine (pop_goes hB.right).safe (by simp only [List.length_cons]; omega) ?_
        have gb := gb stk s2
        rw [List.length_append, ← Nat.add_assoc] at gb
        refine gb.safe (by simp only; omega) ?_
        exact ih _ (by omega) pc stk s2 ok h hd (fun vs s' ev' => (H vs s' (.whileBody ev ev2 ev')).mono (by omega))
      · subst e
        exact (gn stk s1).safe (by simp only [List.length_cons]; omega) ((H [] s1 (.whileDone ev)).mono (by omega))

theorem safe_repeat {ib : Bool} {b : Body} (ihb : SafeJob w code ib (.body b)) : SafeJob w code ib (.repeat_ b) := by
  intro D n
  induction n using Nat.strongRecOn with
  | _ n ih =>
    intro pc stk s ok h hd H
    obtain ⟨hB, g⟩ := repeat_pieces (w := w) h (by have := ok.2; omega)
    have hb1 : 1 ≤ b.need := b.need_pos
    have hd : b.need + stk.length ≤ D := hd
    cases n with
    | zero => exact (by omega : stk.length ≤ D)
    | succ n =>
      refine ihb.one rfl ok.1 hB hd (fun v s1 ev => ?_)
      refine (g v stk s1).safe (by simp only [List.length_cons]; omega) ?_
      exact ih _ (by omega) pc stk s1 ok h hd (fun vs s' ev' => (H vs s' (.repeatMore ev ev')).mono (by omega))

theorem safe_times (hw : w.Std) (hb : w.Strict) {ib : Bool} {b : Body} (ihb : SafeJob w code ib (.body b)) :
    ∀ k, SafeJob w code ib (.times k b) := by
  intro k D n
  induction n using Nat.strongRecOn generalizing k with
  | _ n ih =>
    intro pc stk s ok h hd H
    have s1 : ∀ op, (emit op 0).length = 1 := fun op => emit_small _ _ (by omega)
    have s2 : ∀ op, (emit op 1).length = 1 := fun op => emit_small _ _ (by omega)
    obtain ⟨pQ, j, hj, hge, hpj, e, hpop, hone, hmin, hB, g, gb⟩ := times_pieces (w := w) h ok.2.2.1 ok.2.2.2
    have hb1 : 1 ≤ b.need := b.need_pos
    have hd : max 3 (1 + b.need) + stk.length ≤ D := hd
    cases n with
    | zero => exact (by simp only [jobIn, List.cons_append, List.nil_append, List.length_cons]; omega : (k :: stk).length ≤ D)
    | succ n =>
      refine (g k stk s).safe (by simp only [List.length_cons]; omega) ?_
      refine special_safe hw.ge hge (by simp only [List.length_cons]; omega) (fun x t1 hc => ?_)
      refine popJump_safe hb true hpj hj (by simp only [List.length_cons]; omega) (fun e' => ?_) (fun e' => ?_)
      · subst e'
        refine (popJump_passed (j := false) hw.tf hpj hj).safe (by simp only [List.length_cons]; omega) ?_
        refine (pushInt_goes hone).safe (by simp only [List.length_cons]; omega) ?_
        rw [s2]
        refine special_safe hw.minus hmin (by omega) (fun k' t2 hm => ?_)
        refine ihb.one rfl ok.2.1 hB (by simp only [jobNeed, List.length_cons]; omega) (fun v t3 ev => ?_)
        refine (gb v (k' :: stk) t3).safe (by simp only [List.length_cons]; omega) ?_
        exact ih _ (by omega) k' pc stk t3 ok h hd (fun vs s' ev' => (H vs s' (.timesMore hc hm ev ev')).mono (by omega))
      · subst e'
        refine (popJump_taken (j := false) hpj hj).safe (by simp only [List.length_cons]; omega) ?_
        refine (pop_goes hpop).safe (by simp only [List.length_cons]; omega) ?_
        rw [s1, e]
        exact (H [] t1 (.timesDone hc)).mono (by omega)

theorem safe_to (hw : w.Std) (hb : w.Strict) {ib : Bool} {b : Body} (ihb : SafeJob w code ib (.body b))
    {st : Option (Option Nat × Const × Bool)} {slot : Nat} : ∀ lim i, SafeJob w code ib (.to lim i st slot b) := by
  intro lim i D n
  induction n using Nat.strongRecOn generalizing i with
  | _ n ih =>
    intro pc stk s ok h hd H
    have s1 : ∀ op, (emit op 0).length = 1 := fun op => emit_small _ _ (by omega)
    have ok' := ok
    obtain ⟨-, -, okb, hslot, hs, hx⟩ := ok
    obtain ⟨j, hj, hcmp, hpj, e, hpop, hB, hst, hplus, g, gb⟩ := to_pieces (w := w) h hslot hs hx
    have hb1 : 1 ≤ b.need := b.need_pos
    have hd : max 4 (1 + b.need) + stk.length ≤ D := hd
    cases n with
    | zero => exact (by simp only [List.length_cons]; omega : (i :: lim :: lim :: stk).length ≤ D)
    | succ n =>
      refine cmp_safe (stk := lim :: stk) hw hcmp (by simp only [List.length_cons]; omega) (fun x t1 hc => ?_)
      refine popJump_safe hb true hpj hj (by simp only [List.length_cons]; omega) (fun e' => ?_) (fun e' => ?_)
      · subst e'
        refine (popJump_passed (j := false) hw.tf hpj hj).safe (by simp only [List.length_cons]; omega) ?_
        refine ihb.one rfl okb hB (by simp only [jobNeed, List.length_cons]; omega) (fun v t2 ev => ?_)
        refine (g v lim stk t2).safe (by simp only [List.length_cons]; omega) ?_
        refine (step_goes hst).safe (by simp only [List.length_cons]; omega) ?_
        refine special_safe hw.plus hplus (by simp only [List.length_cons]; omega) (fun i' t3 hp => ?_)
        refine (gb i' (lim :: lim :: stk) t3).safe (by simp only [List.length_cons]; omega) ?_
        exact ih _ (by omega) i' pc stk _ ok' h hd (fun vs s' ev' => (H vs s' (.toMore hc ev hp ev')).mono (by omega))
      · subst e'
        refine (popJump_taken (j := false) hpj hj).safe (by simp only [List.length_cons]; omega) ?_
        refine (pop_goes hpop).safe (by simp only [List.length_cons]; omega) ?_
        rw [s1, e]
        exact (H [] t1 (.toDone hc)).mono (by omega)

theorem safe_store {ib : Bool} : ∀ vs v, SafeJob w code ib (.store v vs) := by
  intro vs
  induction vs with
  | nil => intro v D n pc stk s ok h hd H; exact H [v] s .storeNil
  | cons x vs ih =>
    intro v D n pc stk s ok h hd H
    have okx := ok x (by simp)
    have ok' : ∀ v ∈ vs, v.Assignable := fun v hv => ok v (by simp [hv])
    have hd : 1 + stk.length ≤ D := hd
    simp only [jobCode, gStores] at h H
    show Safe w code D n ⟨pc, 0, v :: stk, s⟩
    have simple : (∀ n, x ≠ .global n) → (∀ o, Ev w (.store v vs) (w.put s x v) o → Ev w (.store v (x :: vs)) s o) →
        Safe w code D n ⟨pc, 0, v :: stk, s⟩ := fun hg hev => by
      refine (store_goes h.left okx hg).safe (by simp only [List.length_cons]; omega) ?_
      refine ih v D (n - 1) _ stk _ ok' h.right hd (fun vs' s' ev => ?_)
      refine ((H vs' s' (hev _ ev)).mono (by omega)).to_pc ?_
      simp only [jobCode, List.length_append, ← Nat.add_assoc]
    cases x with
    | self => exact okx.elim
    | special n => exact okx.elim
    | temp n => exact simple (by simp) (fun o ho => .storeTemp ho)
    | outer n d => exact simple (by simp) (fun o ho => .storeOuter ho)
    | ivar n => exact simple (by simp) (fun o ho => .storeIvar ho)
    | global k =>
      simp only [gStore, List.append_assoc] at h H
      refine putGlobal_safe h.left (by omega) (fun u t1 hp => ?_)
      refine (pop_goes h.right.left).safe (by simp only [List.length_cons]; omega) ?_
      refine global_safe h.right.right.left (by omega) (fun u' t2 hg => ?_)
      refine ih u' D (n - 1) _ stk _ ok' h.right.right.right hd (fun vs' s' ev => ?_)
      refine ((H vs' s' (.storeGlobal hp hg ev)).mono (by omega)).to_pc ?_
      simp only [jobCode, List.length_append, ← Nat.add_assoc]

/-! ## Trees -/

theorem safe_leaf {ln : Option Nat} {c : Code} {d D n pc : Nat} {stk : List V} {v : V} {s s' : S}
    (h : At code pc (gLine ln ++ c)) (hd : stk.length ≤ D)
    (g : ∀ q, At code q c → Goes w code d ⟨q, 0, stk, s⟩ ⟨q + c.length, 0, v :: stk, s'⟩)
    (H : Safe w code D n ⟨pc + (gLine ln ++ c).length, 0, v :: stk, s'⟩) : Safe w code D n ⟨pc, 0, stk, s⟩ := by
  refine (line_goes h.left).safe hd ((g _ h.right).safe hd ((H.mono (by omega)).to_pc ?_))
  simp only [List.length_append, ← Nat.add_assoc]

theorem safe_send {ib : Bool} {as : Args} {sel : Sel} {D n pc : Nat} {stk : List V} {v : V} {s : S}
    (iha : SafeJob w code ib (.args as)) (oka : as.Ok w ib) (oks : sel.Ok w as.length)
    (h : At code pc (gArgs ib as ++ gSend sel as.length)) (hd : 1 + as.need + stk.length ≤ D)
    (H : ∀ vs s1 a s2, Ev w (.args as) s (.val vs s1) → w.send s1 sel v vs = some (a, s2) →
      Safe w code D n ⟨pc + (gArgs ib as ++ gSend sel as.length).length, 0, a :: stk, s2⟩) :
    Safe w code D n ⟨pc, 0, v :: stk, s⟩ := by
  refine iha D n pc (v :: stk) s oka h.left (by simp only [jobNeed, List.length_cons]; omega) (fun vs s1 ea => ?_)
  have hl := args_length ea
  have := as.length_le_need
  refine send_safe h.right hl oks (by omega) (fun a s2 hs => ((H vs s1 a s2 ea hs).to_pc ?_))
  simp only [jobCode, List.length_append, ← Nat.add_assoc]

theorem safe_thenJump {ib : Bool} {b : Body} {k D n pc pE : Nat} {stk : List V} {s : S}
    (ihb : SafeJob w code ib (.body b)) (ok : b.Ok w ib) (hk : k % 2 = 0)
    (h : At code pc (gThenJump b.returns (gBody ib b) k))
    (he : pE = pc + (gThenJump b.returns (gBody ib b) k).length + k / 2) (hd : b.need + stk.length ≤ D)
    (H : ∀ v s', Ev w (.body b) s (.val [v] s') → Safe w code D n ⟨pE, 0, v :: stk, s'⟩) :
    Safe w code D n ⟨pc, 0, stk, s⟩ := by
  subst he
  have hb1 : 1 ≤ b.need := b.need_pos
  simp only [gThenJump] at h H
  split at h
  · rename_i hr
    exact ihb.one rfl ok h hd (fun v s' ev => absurd ev (returns_no_val hr))
  · rename_i hr
    simp only [hr, Bool.false_eq_true, if_false] at H
    refine ihb.one rfl ok h.left hd (fun v s' ev => ?_)
    refine (jump_goes h.right hk).safe (by simp only [List.length_cons]; omega) (((H v s' ev).mono (by omega)).to_pc ?_)
    simp only [jobCode, List.length_append, ← Nat.add_assoc]

mutual
theorem safe_expr (hw : w.Std) (hb : w.Strict) (ib : Bool) : ∀ e : Expr, SafeJob w code ib (.expr e)
  | .var ln (.global k) => by
    intro D n pc stk s ok h hd H
    have hd : 1 + stk.length ≤ D := hd
    simp only [jobCode, gExpr, gVar] at h H
    show Safe w code D n ⟨pc, 0, stk, s⟩
    refine (line_goes h.left).safe (by show stk.length ≤ D; omega) ?_
    refine global_safe h.right (by omega) (fun a s' hg => ?_)
    refine ((H [a] s' (.global hg)).mono (by omega)).to_pc ?_
    simp only [List.length_append, ← Nat.add_assoc]
  | .var ln .self => fun D n pc stk s ok h hd H =>
    safe_leaf h (by have hd : 1 + stk.length ≤ D := hd; show stk.length ≤ D; omega) (fun q hq => var_goes hq ok rfl) (H _ _ .self)
  | .var ln (.special k) => fun D n pc stk s ok h hd H =>
    safe_leaf h (by have hd : 1 + stk.length ≤ D := hd; show stk.length ≤ D; omega) (fun q hq => var_goes hq ok rfl) (H _ _ .special)
  | .var ln (.temp k) => fun D n pc stk s ok h hd H =>
    safe_leaf h (by have hd : 1 + stk.length ≤ D := hd; show stk.length ≤ D; omega) (fun q hq => var_goes hq ok rfl) (H _ _ .temp)
  | .var ln (.outer k d) => fun D n pc stk s ok h hd H =>
    safe_leaf h (by have hd : 1 + stk.length ≤ D := hd; show stk.length ≤ D; omega) (fun q hq => var_goes hq ok rfl) (H _ _ .outer)
  | .var ln (.ivar k) => fun D n pc stk s ok h hd H =>
    safe_leaf h (by have hd : 1 + stk.length ≤ D := hd; show stk.length ≤ D; omega) (fun q hq => var_goes hq ok rfl) (H _ _ .ivar)
  | .const ln c => fun D n pc stk s ok h hd H =>
    safe_leaf h (by have hd : 1 + stk.length ≤ D := hd; show stk.length ≤ D; omega) (fun q hq => const_goes hq) (H _ _ .const)
  | .block ln k false => by
    intro D n pc stk s ok h hd H
    have hd : 1 + stk.length ≤ D := hd
    simp only [jobCode, gExpr, Bool.false_eq_true, if_false, List.append_nil] at h H
    exact safe_leaf (d := 1) h (by show stk.length ≤ D; omega) (fun q hq => emit_goes (by simp) hq rfl) (H _ _ .block)
  | .block ln k true => by
    intro D n pc stk s ok h hd H
    have hd : 1 + stk.length ≤ D := hd
    simp only [jobCode, gExpr, if_true, List.append_assoc] at h H
    refine (line_goes h.left).safe (by show stk.length ≤ D; omega) ?_
    have g1 : Goes w code 1 ⟨pc + (gLine ln).length, 0, stk, s⟩ _ := emit_goes (by simp) h.right.left rfl
    refine g1.safe (by show stk.length ≤ D; omega) ?_
    refine makeDirty_safe h.right.right (by omega) (fun a s' hg => ?_)
    refine ((H [a] s' (.dirty hg)).mono (by omega)).to_pc ?_
    simp only [List.length_append, ← Nat.add_assoc]
  | .send e as sel => by
    intro D n pc stk s ok h hd H
    simp only [jobCode, gExpr, List.append_assoc] at h H
    simp only [jobNeed, Expr.need] at hd
    show Safe w code D n ⟨pc, 0, stk, s⟩
    obtain ⟨ok1, ok2, ok3⟩ := ok
    refine (safe_expr hw hb ib e).one rfl ok1 h.left (by simp only [jobNeed]; omega) (fun v s1 ev => ?_)
    refine safe_send (safe_args hw hb ib as) ok2 ok3 h.right (by omega) (fun vs s2 a s3 ea hs => ?_)
    refine (H [a] s3 (.send ev ea hs)).to_pc ?_
    simp only [jobCode, List.length_append, ← Nat.add_assoc]
  | .sendSuper e as cls sel => by
    intro D n pc stk s ok h hd H
    simp only [jobCode, gExpr, List.append_assoc] at h H
    simp only [jobNeed, Expr.need] at hd
    show Safe w code D n ⟨pc, 0, stk, s⟩
    obtain ⟨ok1, ok2, ok3⟩ := ok
    refine (safe_expr hw hb ib e).one rfl ok1 h.left (by simp only [jobNeed]; omega) (fun v s1 ev => ?_)
    refine safe_args hw hb ib as D n _ (v :: stk) s1 ok2 h.right.left (by simp only [jobNeed, List.length_cons]; omega)
      (fun vs s2 ea => ?_)
    have hl := args_length ea
    refine superSend_safe h.right.right hl ok3 (by omega) (fun a s3 hs => ?_)
    refine (H [a] s3 (.super ev ea hs)).to_pc ?_
    simp only [jobCode, List.length_append, ← Nat.add_assoc]
  | .cascade e ln as sel ms => by
    intro D n pc stk s ok h hd H
    simp only [jobCode, gExpr, List.append_assoc] at h H
    rw [← List.append_assoc (gArgs ib _)] at h H
    simp only [jobNeed, Expr.need] at hd
    show Safe w code D n ⟨pc, 0, stk, s⟩
    have hm2 := ms.need_pos
    obtain ⟨ok1, ok2, ok3, ok4⟩ := ok
    refine (safe_expr hw hb ib e).one rfl ok1 h.left (by simp only [jobNeed]; omega) (fun v s1 ev => ?_)
    refine (dup_goes h.right.left).safe (by simp only [List.length_cons]; omega) ?_
    refine (line_goes h.right.right.left).safe (by simp only [List.length_cons]; omega) ?_
    refine safe_send (stk := v :: stk) (safe_args hw hb ib as) ok2 ok3 h.right.right.right.left
      (by simp only [List.length_cons]; omega) (fun vs s2 a s3 ea hs => ?_)
    refine safe_msgs hw hb ib ms a v D _ _ stk s3 ok4 h.right.right.right.right (by simp only [jobNeed]; omega)
      (fun vs' s' em => ((H vs' s' (.cascade ev ea hs em)).mono (by omega)).to_pc ?_)
    simp only [jobCode, List.length_append, ← Nat.add_assoc]
  | .assign e vs => by
    intro D n pc stk s ok h hd H
    simp only [jobCode, gExpr] at h H
    simp only [jobNeed, Expr.need] at hd
    show Safe w code D n ⟨pc, 0, stk, s⟩
    have := e.need_pos
    refine (safe_expr hw hb ib e).one rfl ok.1 h.left (by simp only [jobNeed]; omega) (fun v s1 ev => ?_)
    refine safe_store (ib := ib) vs v D _ _ stk s1 ok.2 h.right (by simp only [jobNeed]; omega)
      (fun vs' s' es => (H vs' s' (.assign ev es)).to_pc ?_)
    simp only [jobCode, List.length_append, ← Nat.add_assoc]
  | .array ln arr as => by
    intro D n pc stk s ok h hd H
    simp only [jobCode, gExpr, List.append_assoc] at h H
    simp only [jobNeed, Expr.need] at hd
    show Safe w code D n ⟨pc, 0, stk, s⟩
    have := as.needElts_pos
    refine (line_goes h.left).safe (by show stk.length ≤ D; omega) ?_
    refine global_safe h.right.left (by show stk.length ≤ D; omega) (fun c s1 hg => ?_)
    refine (pushInt_goes h.right.right.left).safe (by simp only [List.length_cons]; show stk.length + 1 ≤ D; omega) ?_
    refine send_safe (sel := .builtin newColonSpecial) (k := 1) (vs := [_]) h.right.right.right.left rfl hw.new
      (by simp only [List.length_cons, List.length_nil]; show _ + stk.length ≤ D; omega) (fun a s2 hs => ?_)
    refine safe_elts hw hb ib as a 0 D _ _ stk s2 ok h.right.right.right.right (by simp only [jobNeed]; omega)
      (fun vs' s' ee => ((H vs' s' (.array hg hs ee)).mono (by omega)).to_pc ?_)
    simp only [jobCode, List.length_append, ← Nat.add_assoc]
    rfl
  | .whileUnary pol c => by
    intro D n pc stk s ok h hd H
    simp only [jobCode, gExpr] at h H
    simp only [jobNeed, Expr.need] at hd
    show Safe w code D n ⟨pc, 0, stk, s⟩
    have := c.need_pos
    refine (safe_while (pol := pol) hw hb (safe_body hw hb ib c)).zero rfl ok h.left (by simp only [jobNeed]; omega)
      (fun s1 ev => ?_)
    refine (pushNil_goes h.right).safe (by show stk.length ≤ D; omega) ?_
    refine ((H _ s1 (.whileUnary ev)).mono (by omega)).to_pc ?_
    simp only [jobCode, List.length_append, ← Nat.add_assoc]
  | .whileKw pol c b => by
    intro D n pc stk s ok h hd H
    simp only [jobCode, gExpr] at h H
    simp only [jobNeed, Expr.need] at hd
    show Safe w code D n ⟨pc, 0, stk, s⟩
    have := c.need_pos
    refine (safe_whileKw (pol := pol) hw hb (safe_body hw hb ib c) (safe_body hw hb ib b)).zero rfl ok h.left
      (by simp only [jobNeed]; omega) (fun s1 ev => ?_)
    refine (pushNil_goes h.right).safe (by show stk.length ≤ D; omega) ?_
    refine ((H _ s1 (.whileKw ev)).mono (by omega)).to_pc ?_
    simp only [jobCode, List.length_append, ← Nat.add_assoc]
  | .repeat_ b => by
    intro D n pc stk s ok h hd H
    simp only [jobCode, gExpr] at h H
    simp only [jobNeed, Expr.need] at hd
    show Safe w code D n ⟨pc, 0, stk, s⟩
    exact (safe_repeat (safe_body hw hb ib b)).zero rfl ok h.left hd (fun s1 ev => absurd ev repeat_no_val)
  | .times e b => by
    intro D n pc stk s ok h hd H
    simp only [jobCode, gExpr, List.append_assoc] at h H
    simp only [jobNeed, Expr.need] at hd
    show Safe w code D n ⟨pc, 0, stk, s⟩
    refine (safe_expr hw hb ib e).one rfl ok.1 h.left (by simp only [jobNeed]; omega) (fun k s1 ev => ?_)
    refine (dup_goes h.right.left).safe (by simp only [List.length_cons]; omega) ?_
    refine (safe_times hw hb (safe_body hw hb ib b) k).zero rfl ⟨trivial, ok.2⟩ h.right.right
      (by simp only [jobNeed, List.length_cons]; omega) (fun s2 el => ?_)
    refine ((H [k] s2 (.timesRepeat ev el)).mono (by omega)).to_pc ?_
    simp only [jobCode, List.length_append, ← Nat.add_assoc]
  | .toDo frm lim st slot b => by
    intro D n pc stk s ok h hd H
    simp only [jobCode, gExpr, List.append_assoc] at h H
    simp only [jobNeed, Expr.need] at hd
    show Safe w code D n ⟨pc, 0, stk, s⟩
    refine (safe_expr hw hb ib frm).one rfl ok.1 h.left (by simp only [jobNeed]; omega) (fun v s1 ef => ?_)
    refine (storeTemp_goes h.right.left).safe (by simp only [List.length_cons]; omega) ?_
    refine (safe_expr hw hb ib lim).one rfl ok.2.1 h.right.right.left (by simp only [jobNeed, List.length_cons]; omega)
      (fun l s2 el => ?_)
    refine (dup_goes h.right.right.right.left).safe (by simp only [List.length_cons]; omega) ?_
    refine (pushTemp_goes h.right.right.right.right.left).safe (by simp only [List.length_cons]; omega) ?_
    refine (safe_to hw hb (safe_body hw hb ib b) l _).zero rfl ⟨trivial, trivial, ok.2.2⟩
      h.right.right.right.right.right (by simp only [jobNeed, List.length_cons]; omega) (fun s3 et => ?_)
    refine ((H [v] s3 (.toDo ef el et)).mono (by omega)).to_pc ?_
    simp only [jobCode, List.length_append, ← Nat.add_assoc]
  | .ifTF c t f => by
    intro D n pc stk s ok h hd H
    simp only [jobCode, gExpr, List.append_assoc] at h H
    simp only [jobNeed, Expr.need] at hd
    show Safe w code D n ⟨pc, 0, stk, s⟩
    have := c.need_pos
    refine (safe_expr hw hb ib c).one rfl ok.1 h.left (by simp only [jobNeed]; omega) (fun v s1 ev => ?_)
    refine popJump_safe hb true h.right.left (size_even _) (by show stk.length + 1 ≤ D; omega) (fun e => ?_) (fun e => ?_)
    · subst e
      refine (popJump_passed hw.tf (j := false) h.right.left (size_even _)).safe (by simp only [List.length_cons]; show stk.length + 1 ≤ D; omega) ?_
      refine safe_thenJump (safe_body hw hb ib t) ok.2.1 (size_even _) h.right.right.left rfl (by show t.need + stk.length ≤ D; omega)
        (fun v s2 eb => ((H [v] s2 (.ifTrue ev eb)).mono (by omega)).to_pc ?_)
      simp only [jobCode, List.length_append, ← Nat.add_assoc, size_half]
    · subst e
      refine (popJump_taken (j := false) h.right.left (size_even _)).safe (by simp only [List.length_cons]; show stk.length + 1 ≤ D; omega) ?_
      rw [size_half]
      refine safe_body hw hb ib f D _ _ stk s1 ok.2.2 h.right.right.right (by simp only [jobNeed]; omega)
        (fun vs s2 eb => ((H vs s2 (.ifFalse ev eb)).mono (by omega)).to_pc ?_)
      simp only [jobCode, List.length_append, ← Nat.add_assoc]
  | .ifOne pol c b => by
    intro D n pc stk s ok h hd H
    simp only [jobCode, gExpr, List.append_assoc] at h H
    simp only [jobNeed, Expr.need] at hd
    show Safe w code D n ⟨pc, 0, stk, s⟩
    have := c.need_pos
    have e1 : (emit .pushSpecial nilIndex).length = 1 := emit_small _ _ (by simp [nilIndex])
    refine (safe_expr hw hb ib c).one rfl ok.1 h.left (by simp only [jobNeed]; omega) (fun v s1 ev => ?_)
    refine popJump_safe hb pol h.right.left (size_even _) (by show stk.length + 1 ≤ D; omega) (fun e => ?_) (fun e => ?_)
    · subst e
      have g := popJump_passed hw.tf (stk := stk) (s := s1) (w := w) (j := !pol) h.right.left (size_even _)
      rw [Bool.not_not] at g
      refine g.safe (by simp only [List.length_cons]; omega) ?_
      refine safe_thenJump (safe_body hw hb ib b) ok.2 (by rfl) h.right.right.left rfl (by omega)
        (fun v s2 eb => ((H [v] s2 (.oneYes ev eb)).mono (by omega)).to_pc ?_)
      simp only [jobCode, List.length_append, ← Nat.add_assoc, e1]
    · subst e
      refine (popJump_taken h.right.left (size_even _)).safe (by simp only [List.length_cons]; show stk.length + 1 ≤ D; omega) ?_
      rw [size_half]
      refine (pushNil_goes h.right.right.right).safe (by show stk.length ≤ D; omega) ?_
      refine ((H _ s1 (.oneNo ev)).mono (by omega)).to_pc ?_
      simp only [jobCode, List.length_append, ← Nat.add_assoc]
  | .andOr isOr c b => by
    intro D n pc stk s ok h hd H
    simp only [jobCode, gExpr, List.append_assoc] at h H
    simp only [jobNeed, Expr.need] at hd
    show Safe w code D n ⟨pc, 0, stk, s⟩
    have e1 : (emit .pop 0).length = 1 := emit_small _ _ (by simp)
    have hev : (size (gBody ib b) + 2) % 2 = 0 := by simp [size]
    refine (safe_expr hw hb ib c).one rfl ok.1 h.left (by simp only [jobNeed]; omega) (fun v s1 ev => ?_)
    refine (dup_goes h.right.left).safe (by simp only [List.length_cons]; omega) ?_
    refine popJump_safe hb isOr h.right.right.left hev (by simp only [List.length_cons]; omega) (fun e => ?_) (fun e => ?_)
    · subst e
      refine (popJump_taken h.right.right.left hev).safe (by simp only [List.length_cons]; omega) ?_
      refine ((H _ s1 (.andOrShort ev)).mono (by omega)).to_pc ?_
      simp only [jobCode, List.length_append, ← Nat.add_assoc, e1, size]
      omega
    · subst e
      refine (popJump_passed hw.tf h.right.right.left hev).safe (by simp only [List.length_cons]; omega) ?_
      refine (pop_goes h.right.right.right.left).safe (by simp only [List.length_cons]; omega) ?_
      refine safe_body hw hb ib b D _ _ stk s1 ok.2 h.right.right.right.right (by simp only [jobNeed]; omega)
        (fun vs s2 eb => ((H vs s2 (.andOrLong ev eb)).mono (by omega)).to_pc ?_)
      simp only [jobCode, List.length_append, ← Nat.add_assoc]

theorem safe_body (hw : w.Std) (hb : w.Strict) (ib : Bool) : ∀ b : Body, SafeJob w code ib (.body b)
  | .empty => by
    intro D n pc stk s ok h hd H
    have hd : 1 + stk.length ≤ D := hd
    exact (pushNil_goes h).safe (by show stk.length ≤ D; omega) ((H _ s .empty).mono (by omega))
  | .last e => fun D n pc stk s ok h hd H => safe_expr hw hb ib e D n pc stk s ok h hd (fun vs s' ev => H vs s' (.last ev))
  | .ret e => by
    intro D n pc stk s ok h hd H
    simp only [jobCode, gBody] at h
    simp only [jobNeed, Body.need] at hd
    have := e.need_pos
    exact (safe_expr hw hb ib e).one rfl ok h.left (by simp only [jobNeed]; omega) (fun v s1 ev => ret_safe h.right (by omega))
  | .cons e b => by
    intro D n pc stk s ok h hd H
    simp only [jobCode, gBody, List.append_assoc] at h H
    simp only [jobNeed, Body.need] at hd
    have := e.need_pos
    refine (safe_expr hw hb ib e).one rfl ok.1 h.left (by simp only [jobNeed]; omega) (fun v s1 ev => ?_)
    refine (pop_goes h.right.left).safe (by simp only [List.length_cons]; omega) ?_
    refine safe_body hw hb ib b D _ _ stk s1 ok.2 h.right.right (by simp only [jobNeed]; omega)
      (fun vs s2 eb => ((H vs s2 (.seq ev eb)).mono (by omega)).to_pc ?_)
    simp only [jobCode, List.length_append, ← Nat.add_assoc]

theorem safe_args (hw : w.Std) (hb : w.Strict) (ib : Bool) : ∀ as : Args, SafeJob w code ib (.args as)
  | .nil => fun D n pc stk s ok h hd H => H [] s .argsNil
  | .cons e as => by
    intro D n pc stk s ok h hd H
    simp only [jobCode, gArgs] at h H
    simp only [jobNeed, Args.need] at hd
    refine (safe_expr hw hb ib e).one rfl ok.1 h.left (by simp only [jobNeed]; omega) (fun v s1 ev => ?_)
    refine safe_args hw hb ib as D n _ (v :: stk) s1 ok.2 h.right (by simp only [jobNeed, List.length_cons]; omega)
      (fun vs s2 ea => ?_)
    have := H (v :: vs) s2 (.argsCons ev ea)
    simp only [jobCode, List.length_append, ← Nat.add_assoc, List.reverse_cons, List.append_assoc,
      List.cons_append, List.nil_append] at this ⊢
    exact this

theorem safe_elts (hw : w.Std) (hb : w.Strict) (ib : Bool) :
    ∀ (as : Args) (a : V) (i : Nat), SafeJob w code ib (.elts a i as)
  | .nil, a, i => fun D n pc stk s ok h hd H => H [a] s .eltsNil
  | .cons e as, a, i => by
    intro D n pc stk s ok h hd H
    simp only [jobCode, gElts, List.append_assoc] at h H
    simp only [jobNeed, Args.needElts] at hd
    show Safe w code D n ⟨pc, 0, a :: stk, s⟩
    have := e.need_pos
    refine (safe_expr hw hb ib e).one rfl ok.1 h.left (by simp only [jobNeed, List.length_cons]; omega) (fun v s1 ev => ?_)
    have g1 : Goes w code 1 ⟨pc + (gExpr ib e).length, 0, v :: a :: stk, s1⟩ _ := emit_goes (by simp) h.right.left rfl
    refine g1.safe (by simp only [List.length_cons]; omega) ?_
    refine safe_elts hw hb ib as a (i + 1) D _ _ stk _ ok.2 h.right.right (by simp only [jobNeed]; omega)
      (fun vs s2 ee => ((H vs s2 (.eltsCons ev ee)).mono (by omega)).to_pc ?_)
    simp only [jobCode, List.length_append, ← Nat.add_assoc]

theorem safe_msgs (hw : w.Std) (hb : w.Strict) (ib : Bool) :
    ∀ (ms : Msgs) (a v : V), SafeJob w code ib (.msgs a v ms)
  | .one ln as sel, a, v => by
    intro D n pc stk s ok h hd H
    simp only [jobCode, gMsgs, List.append_assoc] at h H
    simp only [jobNeed, Msgs.need] at hd
    show Safe w code D n ⟨pc, 0, a :: v :: stk, s⟩
    refine (pop_goes h.left).safe (by simp only [List.length_cons]; omega) ?_
    refine (line_goes h.right.left).safe (by simp only [List.length_cons]; omega) ?_
    refine safe_send (safe_args hw hb ib as) ok.1 ok.2 h.right.right (by omega) (fun vs s2 a s3 ea hs => ?_)
    refine ((H [a] s3 (.msgsOne ea hs)).mono (by omega)).to_pc ?_
    simp only [List.length_append, ← Nat.add_assoc]
  | .cons ln as sel ms, a, v => by
    intro D n pc stk s ok h hd H
    simp only [jobCode, gMsgs, List.append_assoc] at h H
    rw [← List.append_assoc (gArgs ib _)] at h H
    simp only [jobNeed, Msgs.need] at hd
    show Safe w code D n ⟨pc, 0, a :: v :: stk, s⟩
    refine (pop_goes h.left).safe (by simp only [List.length_cons]; omega) ?_
    refine (dup_goes h.right.left).safe (by simp only [List.length_cons]; omega) ?_
    refine (line_goes h.right.right.left).safe (by simp only [List.length_cons]; omega) ?_
    refine safe_send (stk := v :: stk) (safe_args hw hb ib as) ok.1 ok.2.1 h.right.right.right.left
      (by simp only [List.length_cons]; omega) (fun vs s2 a s3 ea hs => ?_)
    refine safe_msgs hw hb ib ms a v D _ _ stk s3 ok.2.2 h.right.right.right.right (by simp only [jobNeed]; omega)
      (fun vs' s' em => ((H vs' s' (.msgsCons ea hs em)).mono (by omega)).to_pc ?_)
    simp only [jobCode, List.length_append, ← Nat.add_assoc]
end

end Verif.Compiler
