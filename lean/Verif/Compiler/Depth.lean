import Verif.Compiler.Safety

/-!
# The stack depth that the compiler counts

libgst/byte.h l.156-177, libgst/byte.c l.182-193 and the uses of those macros in libgst/comp.c; the number of
slots that a method gets, libgst/comp.c l.2619, 2671-2675, 2769-2779.
-/
namespace Verif.Compiler

/-- byte.h l.147-148: `stack_depth` and `max_stack_depth`. -/
abbrev Depth := Nat × Nat

/-- byte.h l.156-168 `INCR_STACK_DEPTH`, `ADD_STACK_DEPTH`. -/
def Depth.add (n : Nat) (t : Depth) : Depth := (t.1 + n, max t.2 (t.1 + n))

/-- byte.h l.171-173 `SUB_STACK_DEPTH`.  Simplified: the assertion that the result is not negative is not
checked. -/
def Depth.sub (n : Nat) (t : Depth) : Depth := (t.1 - n, t.2)

/-- byte.c l.182-193 `_gst_compile_and_free_bytecodes`: the worst case of `u`, then its net effect. -/
def Depth.sub' (u t : Depth) : Depth := Depth.sub (u.2 - u.1) (Depth.add u.2 t)

/-- l.1818-1855 `compile_sub_expression`, `compile_sub_expression_and_jump`: the counters of the statements,
and one more when they return. -/
def subOf (returns : Bool) (t : Depth) : Depth := if returns then t.add 1 else t

mutual
/-- What compiling an expression does to the counters: comp.c, the uses of the macros in the functions that
`gExpr` models. -/
def cExpr : Expr → Depth → Depth
  | .var _ _, t => t.add 1                                  -- l.1003
  | .const _ _, t => t.add 1                                -- l.1094, 1103
  | .block _ _ _, t => t.add 1                              -- l.1186
  | .send r as _, t => (cArgs as (cExpr r t)).sub as.length   -- l.1436
  | .sendSuper r as _ _, t => ((cArgs as (cExpr r t)).add 1).sub as.length   -- l.1422, 1436
  | .cascade r _ as _ ms, t => cMsgs ms ((cArgs as ((cExpr r t).add 1)).sub as.length)   -- l.1899
  | .assign e _, t => cExpr e t
  | .array _ _ as, t => cElts as ((t.add 2).sub 1)          -- l.1270-1275
  | .whileUnary _ c, t => ((Depth.sub' (subOf c.returns (cBody c (0, 0))) t).sub 1).add 1   -- l.1475, 1866, 1521
  | .whileKw _ c b, t => ((Depth.sub' (subOf b.returns (cBody b (0, 0))) ((Depth.sub' (subOf c.returns (cBody c (0, 0))) t).sub 1)).sub 1).add 1   -- l.1511-1514
  | .repeat_ b, t => ((Depth.sub' (subOf b.returns (cBody b (0, 0))) t).sub 1).add 1  -- l.1550-1559
  | .times n b, t =>                                        -- l.1578-1619
    ((Depth.sub' (subOf b.returns (cBody b (0, 0))) (((((((((cExpr n t).add 1).add 1).add 1).sub 1).sub 1).add 1).sub 1))).sub 1).sub 1
  | .toDo frm lim _ _ b, t =>                               -- l.1651-1715
    ((((((Depth.sub' (subOf b.returns (cBody b (0, 0))) ((((cExpr lim (cExpr frm t)).add 1).sub 1).sub 1)).sub 1).add 1).add 1).add 1).sub 1).sub 1
  | .ifTF c a f, t => Depth.sub' (subOf f.returns (cBody f (0, 0))) (Depth.sub' (subOf a.returns (cBody a (0, 0))) ((cExpr c t).sub 1))   -- l.1753-1756
  | .ifOne _ c b, t => Depth.sub' (subOf b.returns (cBody b (0, 0))) ((cExpr c t).sub 1)   -- l.1772-1774
  | .andOr _ c b, t => Depth.sub' (subOf b.returns (cBody b (0, 0))) ((cExpr c t).sub 1)   -- l.1809-1812: the duplicate is not counted

/-- l.1202-1251 `compile_statements`, l.904-926 `compile_statement`. -/
def cBody : Body → Depth → Depth
  | .empty, t => t.add 1
  | .last e, t => cExpr e t
  | .ret e, t => (cExpr e t).sub 1
  | .cons e b, t => cBody b ((cExpr e t).sub 1)

def cArgs : Args → Depth → Depth
  | .nil, t => t
  | .cons e as, t => cArgs as (cExpr e t)

/-- l.1278-1287. -/
def cElts : Args → Depth → Depth
  | .nil, t => t
  | .cons e as, t => cElts as ((cExpr e t).sub 1)

/-- l.1903-1913. -/
def cMsgs : Msgs → Depth → Depth
  | .one _ as _, t => (cArgs as (t.sub 1)).sub as.length
  | .cons _ as _ ms, t => cMsgs ms ((cArgs as t).sub as.length)
end

/-- The counters of a block that is compiled in place. -/
def cSub (b : Body) : Depth := subOf b.returns (cBody b (0, 0))

/-- l.771-822: the depth counted for a method, or for a block (l.1130-1144). -/
def countMethod : Body → Nat
  | .empty => 0
  | b => (cBody b (0, 0)).2

/-- l.1144: the depth counted for a block. -/
def countBlock (b : Body) : Nat := (cBody b (0, 0)).2

/-- comp.c l.2619, 2671-2675, 2769-2779, interp.h l.91: how many slots a context gets for arguments,
temporaries and stack; the field of the header has `MTH_DEPTH_BITS` = 6 bits (libgst/comp.h l.114). -/
def slots (depth numArgs numTemps : Nat) : Nat := ((depth + (numArgs + numTemps) + 3) / 4 + 1) % 64 * 4

mutual
/-- By how much the counted depth can be too small: one for every level of `to:do:` loops, one for `and:`
and `or:`. -/
def Expr.short : Expr → Nat
  | .var _ _ => 0
  | .const _ _ => 0
  | .block _ _ _ => 0
  | .send r as _ => max r.short as.short
  | .sendSuper r as _ _ => max r.short as.short
  | .cascade r _ as _ ms => max r.short (max as.short ms.short)
  | .assign e _ => e.short
  | .array _ _ as => as.short
  | .whileUnary _ c => c.short
  | .whileKw _ c b => max c.short b.short
  | .repeat_ b => b.short
  | .times n b => max n.short b.short
  | .toDo frm lim _ _ b => max frm.short (max lim.short (1 + b.short))
  | .ifTF c t f => max c.short (max t.short f.short)
  | .ifOne _ c b => max c.short b.short
  | .andOr _ c b => max 1 (max c.short b.short)

def Body.short : Body → Nat
  | .empty => 0
  | .last e => e.short
  | .ret e => e.short
  | .cons e b => max e.short b.short

def Args.short : Args → Nat
  | .nil => 0
  | .cons e as => max e.short as.short

def Msgs.short : Msgs → Nat
  | .one _ as _ => as.short
  | .cons _ as _ ms => max as.short ms.short
end

theorem cSub_eq (b : Body) : cSub b = subOf b.returns (cBody b (0, 0)) := rfl

theorem add_def (n : Nat) (t : Depth) : (Depth.add n t).1 = t.1 + n ∧ (Depth.add n t).2 = max t.2 (t.1 + n) := ⟨rfl, rfl⟩
theorem sub_def (n : Nat) (t : Depth) : (Depth.sub n t).1 = t.1 - n ∧ (Depth.sub n t).2 = t.2 := ⟨rfl, rfl⟩
theorem sub'_def {u : Depth} (t : Depth) (h : u.1 ≤ u.2) :
    (Depth.sub' u t).1 = t.1 + u.1 ∧ (Depth.sub' u t).2 = max t.2 (t.1 + u.2) := by
  simp only [Depth.sub', Depth.sub, Depth.add]
  exact ⟨by omega, by simp⟩

/-- What is shown of the counters: at least `k` more values at the end, the maximum does not shrink, is not
below the depth, and covers `n` values except for `s`. -/
def Grows (t t' : Depth) (k n s : Nat) : Prop :=
  t.1 ≤ t.2 → t.1 + k ≤ t'.1 ∧ t'.1 ≤ t'.2 ∧ t.2 ≤ t'.2 ∧ t.1 + n ≤ t'.2 + s

theorem cSub_of {b : Body} (h : Grows (0, 0) (cBody b (0, 0)) (if b.returns then 0 else 1) b.need b.short) :
    1 ≤ (cSub b).1 ∧ (cSub b).1 ≤ (cSub b).2 ∧ b.need ≤ (cSub b).2 + b.short := by
  obtain ⟨h1, h2, h3, h4⟩ := h (by simp)
  simp only [cSub, subOf]
  split
  · rename_i hr
    obtain ⟨a1, a2⟩ := add_def 1 (cBody b (0, 0))
    simp only at h4
    omega
  · rename_i hr
    simp only [hr, Bool.false_eq_true, if_false] at h1
    simp only at h4
    exact ⟨by omega, h2, by omega⟩

mutual
theorem grows_expr : ∀ (e : Expr) (t : Depth), Grows t (cExpr e t) 1 e.need e.short
  | .var _ _, t => fun ht => by simp only [cExpr, Expr.need, Expr.short, Depth.add]; omega
  | .const _ _, t => fun ht => by simp only [cExpr, Expr.need, Expr.short, Depth.add]; omega
  | .block _ _ _, t => fun ht => by simp only [cExpr, Expr.need, Expr.short, Depth.add]; omega
  | .send r as _, t => fun ht => by
    have h1 := grows_expr r t ht
    have h2 := grows_args as (cExpr r t) h1.2.1
    simp only [cExpr, Expr.need, Expr.short, Depth.sub]
    omega
  | .sendSuper r as _ _, t => fun ht => by
    have h1 := grows_expr r t ht
    have h2 := grows_args as (cExpr r t) h1.2.1
    simp only [cExpr, Expr.need, Expr.short, Depth.sub, Depth.add]
    omega
  | .cascade r _ as _ ms, t => fun ht => by
    have h1 := grows_expr r t ht
    have h2 := grows_args as ((cExpr r t).add 1) (by simp only [Depth.add]; omega)
    have h3 := grows_msgs ms ((cArgs as ((cExpr r t).add 1)).sub as.length) (by simp only [Depth.sub]; omega)
    simp only [cExpr, Expr.need, Expr.short]
    generalize cMsgs ms _ = u at *
    simp only [Depth.sub, Depth.add] at *
    omega
  | .assign e _, t => fun ht => by
    have h1 := grows_expr e t ht
    simpa only [cExpr, Expr.need, Expr.short] using h1
  | .array _ _ as, t => fun ht => by
    have h1 := grows_elts as ((t.add 2).sub 1) (by simp only [Depth.sub, Depth.add]; omega)
    simp only [cExpr, Expr.need, Expr.short]
    generalize cElts as _ = u at *
    simp only [Depth.sub, Depth.add] at *
    omega
  | .whileUnary _ c, t => fun ht => by
    have h1 := cSub_of (grows_body c (0, 0))
    have h2 := sub'_def t h1.2.1
    simp only [cExpr, ← cSub_eq, Expr.need, Expr.short, Depth.sub, Depth.add, h2]
    omega
  | .whileKw _ c b, t => fun ht => by
    have h1 := cSub_of (grows_body c (0, 0))
    have h2 := sub'_def t h1.2.1
    have h3 := cSub_of (grows_body b (0, 0))
    have h4 := sub'_def ((Depth.sub' (cSub c) t).sub 1) h3.2.1
    simp only [cExpr, ← cSub_eq, Expr.need, Expr.short]
    rw [(add_def 1 _).1, (add_def 1 _).2, (sub_def 1 _).1, (sub_def 1 _).2, h4.1, h4.2]
    simp only [Depth.sub, h2]
    omega
  | .repeat_ b, t => fun ht => by
    have h1 := cSub_of (grows_body b (0, 0))
    have h2 := sub'_def t h1.2.1
    simp only [cExpr, ← cSub_eq, Expr.need, Expr.short, Depth.sub, Depth.add, h2]
    omega
  | .times n b, t => fun ht => by
    have h0 := grows_expr n t ht
    have h1 := cSub_of (grows_body b (0, 0))
    have h2 := fun t => sub'_def t h1.2.1
    simp only [cExpr, ← cSub_eq, Expr.need, Expr.short, Depth.sub, Depth.add, h2]
    omega
  | .toDo frm lim _ _ b, t => fun ht => by
    have h0 := grows_expr frm t ht
    have h0' := grows_expr lim _ h0.2.1
    have h1 := cSub_of (grows_body b (0, 0))
    have h2 := fun t => sub'_def t h1.2.1
    simp only [cExpr, ← cSub_eq, Expr.need, Expr.short, Depth.sub, Depth.add, h2]
    omega
  | .ifTF c a f, t => fun ht => by
    have h0 := grows_expr c t ht
    have h1 := cSub_of (grows_body a (0, 0))
    have h2 := fun t => sub'_def t h1.2.1
    have h3 := cSub_of (grows_body f (0, 0))
    have h4 := fun t => sub'_def t h3.2.1
    simp only [cExpr, ← cSub_eq, Expr.need, Expr.short, Depth.sub, h2, h4]
    omega
  | .ifOne _ c b, t => fun ht => by
    have h0 := grows_expr c t ht
    have h1 := cSub_of (grows_body b (0, 0))
    have h2 := fun t => sub'_def t h1.2.1
    simp only [cExpr, ← cSub_eq, Expr.need, Expr.short, Depth.sub, h2]
    omega
  | .andOr _ c b, t => fun ht => by
    have h0 := grows_expr c t ht
    have h1 := cSub_of (grows_body b (0, 0))
    have h2 := fun t => sub'_def t h1.2.1
    simp only [cExpr, ← cSub_eq, Expr.need, Expr.short, Depth.sub, h2]
    omega

theorem grows_body : ∀ (b : Body) (t : Depth), Grows t (cBody b t) (if b.returns then 0 else 1) b.need b.short
  | .empty, t => fun ht => by simp only [cBody, Body.need, Body.short, Depth.add, Body.returns]; simp; omega
  | .last e, t => fun ht => by
    have h1 := grows_expr e t ht
    simpa only [cBody, Body.need, Body.short, Body.returns, Bool.false_eq_true, if_false] using h1
  | .ret e, t => fun ht => by
    have h1 := grows_expr e t ht
    simp only [cBody, Body.need, Body.short, Body.returns, Depth.sub, if_true]
    omega
  | .cons e b, t => fun ht => by
    have h1 := grows_expr e t ht
    have h2 := grows_body b ((cExpr e t).sub 1) (by simp only [Depth.sub]; omega)
    rw [show (Body.cons e b).returns = b.returns from rfl]
    simp only [cBody, Body.need, Body.short]
    generalize (if b.returns = true then 0 else 1) = k at *
    generalize cBody b _ = u at *
    have h3 := sub_def 1 (cExpr e t)
    rw [h3.1, h3.2] at h2
    omega

theorem grows_args : ∀ (as : Args) (t : Depth), Grows t (cArgs as t) as.length as.need as.short
  | .nil, t => fun ht => by simp only [cArgs, Args.length, Args.need, Args.short]; omega
  | .cons e as, t => fun ht => by
    have h1 := grows_expr e t ht
    have h2 := grows_args as (cExpr e t) h1.2.1
    simp only [cArgs, Args.length, Args.need, Args.short]
    omega

theorem grows_elts : ∀ (as : Args) (t : Depth), t.1 ≤ t.2 → t.1 ≤ (cElts as t).1 ∧ (cElts as t).1 ≤ (cElts as t).2 ∧
    t.2 ≤ (cElts as t).2 ∧ t.1 + as.needElts ≤ (cElts as t).2 + 1 + as.short
  | .nil, t => fun ht => by simp only [cElts, Args.needElts, Args.short]; omega
  | .cons e as, t => fun ht => by
    have h1 := grows_expr e t ht
    have h2 := grows_elts as ((cExpr e t).sub 1) (by simp only [Depth.sub]; omega)
    simp only [cElts, Args.needElts, Args.short]
    generalize cElts as _ = u at *
    simp only [Depth.sub] at *
    omega

/-- Two of the values are there already. -/
theorem grows_msgs : ∀ (ms : Msgs) (t : Depth), t.1 ≤ t.2 → t.1 ≤ (cMsgs ms t).1 + 1 ∧
    (cMsgs ms t).1 ≤ (cMsgs ms t).2 ∧ t.2 ≤ (cMsgs ms t).2 ∧ t.1 + ms.need ≤ (cMsgs ms t).2 + 2 + ms.short
  | .one _ as _, t => fun ht => by
    have h2 := grows_args as (t.sub 1) (by simp only [Depth.sub]; omega)
    simp only [cMsgs, Msgs.need, Msgs.short]
    generalize cArgs as _ = u at *
    simp only [Depth.sub] at *
    omega
  | .cons _ as _ ms, t => fun ht => by
    have h2 := grows_args as t ht
    have h3 := grows_msgs ms ((cArgs as t).sub as.length) (by simp only [Depth.sub]; omega)
    simp only [cMsgs, Msgs.need, Msgs.short]
    generalize cMsgs ms _ = u at *
    simp only [Depth.sub] at *
    omega
end

end Verif.Compiler
