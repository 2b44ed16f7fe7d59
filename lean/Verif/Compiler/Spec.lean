import Verif.Compiler.Model

/-!
# What a Smalltalk expression means

The meaning of the trees that the compiler is given, in terms of evaluations in the order of the text and
without stack, jumps or code.
-/
namespace Verif.Compiler

/-- The outcome of an evaluation: values, or a return (`^`) that leaves the method. -/
inductive Out (S V : Type) where
  | val (vs : List V) (s : S)
  | ret (v : V) (s : S)

/-- What is to be evaluated. -/
inductive Job (V : Type) where
  /-- an expression -/
  | expr (e : Expr)
  /-- the statements of a block that is evaluated in place -/
  | body (b : Body)
  /-- expressions from left to right -/
  | args (as : Args)
  /-- `v` is assigned to the variables -/
  | store (v : V) (vs : List Var)
  /-- the elements of the array `a`, from number `i` on -/
  | elts (a : V) (i : Nat) (as : Args)
  /-- the messages of a cascade to `r`, after one that was answered with `a` -/
  | msgs (a r : V) (ms : Msgs)
  /-- a while loop, before the condition is evaluated -/
  | while_ (pol : Bool) (c : Body) (b : Option Body)
  | repeat_ (b : Body)
  /-- `k` rounds of a `timesRepeat:` are left -/
  | times (k : V) (b : Body)
  /-- the variable of the loop has become `i` and the limit is `lim` -/
  | to (lim i : V) (step : Option (Option Nat × Const × Bool)) (slot : Nat) (b : Body)

/-- The value of a constant. -/
def World.const {S V : Type} (w : World S V) : Const → V
  | .int n => w.int n
  | .lit n => w.lit n

/-- The step of a `to:do:` is one, that of a `to:by:do:` the constant. -/
def World.step {S V : Type} (w : World S V) : Option (Option Nat × Const × Bool) → V
  | none => w.int 1
  | some (_, c, _) => w.const c

/-- The Booleans. -/
def World.bool {S V : Type} (w : World S V) (b : Bool) : V := if b then w.tt else w.ff

/-- What makes a `to:by:do:` loop go on: the limit is at least (with a step that is not positive: at most)
the variable. -/
def goOnSel (step : Option (Option Nat × Const × Bool)) : Sel :=
  match step with
  | some (_, _, true) => .builtin 4
  | _ => .builtin 5

/-- `Ev w j s o`: evaluating `j` in state `s` has the outcome `o`. -/
inductive Ev {S V : Type} (w : World S V) : Job V → S → Out S V → Prop where
  -- leaves
  | self {ln s} : Ev w (.expr (.var ln .self)) s (.val [w.self] s)
  | special {ln n s} : Ev w (.expr (.var ln (.special n))) s (.val [w.special n] s)
  | temp {ln n s} : Ev w (.expr (.var ln (.temp n))) s (.val [w.get s (.temp n)] s)
  | outer {ln n d s} : Ev w (.expr (.var ln (.outer n d))) s (.val [w.get s (.outer n d)] s)
  | ivar {ln n s} : Ev w (.expr (.var ln (.ivar n))) s (.val [w.get s (.ivar n)] s)
  | global {ln n s v s'} (h : w.getGlobal s n = some (v, s')) :
      Ev w (.expr (.var ln (.global n))) s (.val [v] s')
  | const {ln c s} : Ev w (.expr (.const ln c)) s (.val [w.const c] s)
  | block {ln n s} : Ev w (.expr (.block ln n false)) s (.val [w.lit n] s)
  | dirty {ln n s v s'} (h : w.makeBlock s (w.lit n) = some (v, s')) :
      Ev w (.expr (.block ln n true)) s (.val [v] s')
  -- sends: the receiver, then the arguments, then the message
  | send {r as sel s v s1 vs s2 a s3} (hr : Ev w (.expr r) s (.val [v] s1)) (ha : Ev w (.args as) s1 (.val vs s2))
      (h : w.send s2 sel v vs = some (a, s3)) : Ev w (.expr (.send r as sel)) s (.val [a] s3)
  | sendRet1 {r as sel s v s1} (hr : Ev w (.expr r) s (.ret v s1)) : Ev w (.expr (.send r as sel)) s (.ret v s1)
  | sendRet2 {r as sel s v s1 u s2} (hr : Ev w (.expr r) s (.val [v] s1)) (ha : Ev w (.args as) s1 (.ret u s2)) :
      Ev w (.expr (.send r as sel)) s (.ret u s2)
  | super {r as cls sel s v s1 vs s2 a s3} (hr : Ev w (.expr r) s (.val [v] s1))
      (ha : Ev w (.args as) s1 (.val vs s2)) (h : w.sendSuper s2 sel (w.lit cls) v vs = some (a, s3)) :
      Ev w (.expr (.sendSuper r as cls sel)) s (.val [a] s3)
  | superRet1 {r as cls sel s v s1} (hr : Ev w (.expr r) s (.ret v s1)) :
      Ev w (.expr (.sendSuper r as cls sel)) s (.ret v s1)
  | superRet2 {r as cls sel s v s1 u s2} (hr : Ev w (.expr r) s (.val [v] s1))
      (ha : Ev w (.args as) s1 (.ret u s2)) : Ev w (.expr (.sendSuper r as cls sel)) s (.ret u s2)
  | argsNil {s} : Ev w (.args .nil) s (.val [] s)
  | argsCons {e as s v s1 vs s2} (he : Ev w (.expr e) s (.val [v] s1)) (ha : Ev w (.args as) s1 (.val vs s2)) :
      Ev w (.args (.cons e as)) s (.val (v :: vs) s2)
  | argsRet1 {e as s v s1} (he : Ev w (.expr e) s (.ret v s1)) : Ev w (.args (.cons e as)) s (.ret v s1)
  | argsRet2 {e as s v s1 u s2} (he : Ev w (.expr e) s (.val [v] s1)) (ha : Ev w (.args as) s1 (.ret u s2)) :
      Ev w (.args (.cons e as)) s (.ret u s2)
  -- cascades: every message to the same receiver, the answer is the last one
  | cascade {r ln as sel ms s v s1 vs s2 a s3 o} (hr : Ev w (.expr r) s (.val [v] s1))
      (ha : Ev w (.args as) s1 (.val vs s2)) (h : w.send s2 sel v vs = some (a, s3))
      (hm : Ev w (.msgs a v ms) s3 o) : Ev w (.expr (.cascade r ln as sel ms)) s o
  | cascadeRet1 {r ln as sel ms s v s1} (hr : Ev w (.expr r) s (.ret v s1)) :
      Ev w (.expr (.cascade r ln as sel ms)) s (.ret v s1)
  | cascadeRet2 {r ln as sel ms s v s1 u s2} (hr : Ev w (.expr r) s (.val [v] s1))
      (ha : Ev w (.args as) s1 (.ret u s2)) : Ev w (.expr (.cascade r ln as sel ms)) s (.ret u s2)
  | msgsOne {p r ln as sel s vs s1 a s2} (ha : Ev w (.args as) s (.val vs s1))
      (h : w.send s1 sel r vs = some (a, s2)) : Ev w (.msgs p r (.one ln as sel)) s (.val [a] s2)
  | msgsOneRet {p r ln as sel s v s1} (ha : Ev w (.args as) s (.ret v s1)) :
      Ev w (.msgs p r (.one ln as sel)) s (.ret v s1)
  | msgsCons {p r ln as sel ms s vs s1 a s2 o} (ha : Ev w (.args as) s (.val vs s1))
      (h : w.send s1 sel r vs = some (a, s2)) (hm : Ev w (.msgs a r ms) s2 o) :
      Ev w (.msgs p r (.cons ln as sel ms)) s o
  | msgsConsRet {p r ln as sel ms s v s1} (ha : Ev w (.args as) s (.ret v s1)) :
      Ev w (.msgs p r (.cons ln as sel ms)) s (.ret v s1)
  -- assignments
  | assign {e vs s v s1 o} (he : Ev w (.expr e) s (.val [v] s1)) (hs : Ev w (.store v vs) s1 o) :
      Ev w (.expr (.assign e vs)) s o
  | assignRet {e vs s v s1} (he : Ev w (.expr e) s (.ret v s1)) : Ev w (.expr (.assign e vs)) s (.ret v s1)
  | storeNil {v s} : Ev w (.store v []) s (.val [v] s)
  | storeTemp {v n vs s o} (h : Ev w (.store v vs) (w.put s (.temp n) v) o) : Ev w (.store v (.temp n :: vs)) s o
  | storeOuter {v n d vs s o} (h : Ev w (.store v vs) (w.put s (.outer n d) v) o) :
      Ev w (.store v (.outer n d :: vs)) s o
  | storeIvar {v n vs s o} (h : Ev w (.store v vs) (w.put s (.ivar n) v) o) : Ev w (.store v (.ivar n :: vs)) s o
  | storeGlobal {v n vs s u s1 u' s2 o} (hp : w.putGlobal s n v = some (u, s1))
      (hg : w.getGlobal s1 n = some (u', s2)) (h : Ev w (.store u' vs) s2 o) :
      Ev w (.store v (.global n :: vs)) s o
  -- arrays: `Array new: size`, then the elements
  | array {ln arr as s c s1 a s2 o} (hg : w.getGlobal s arr = some (c, s1))
      (hn : w.send s1 (.builtin newColonSpecial) c [w.int as.length] = some (a, s2))
      (he : Ev w (.elts a 0 as) s2 o) : Ev w (.expr (.array ln arr as)) s o
  | eltsNil {a i s} : Ev w (.elts a i .nil) s (.val [a] s)
  | eltsCons {a i e as s v s1 o} (he : Ev w (.expr e) s (.val [v] s1))
      (h : Ev w (.elts a (i + 1) as) (w.putElement s1 a i v) o) : Ev w (.elts a i (.cons e as)) s o
  | eltsRet {a i e as s v s1} (he : Ev w (.expr e) s (.ret v s1)) : Ev w (.elts a i (.cons e as)) s (.ret v s1)
  -- statements
  | empty {s} : Ev w (.body .empty) s (.val [w.special nilIndex] s)
  | last {e s o} (h : Ev w (.expr e) s o) : Ev w (.body (.last e)) s o
  | ret {e s v s1} (h : Ev w (.expr e) s (.val [v] s1)) : Ev w (.body (.ret e)) s (.ret v s1)
  | retRet {e s v s1} (h : Ev w (.expr e) s (.ret v s1)) : Ev w (.body (.ret e)) s (.ret v s1)
  | seq {e b s v s1 o} (he : Ev w (.expr e) s (.val [v] s1)) (hb : Ev w (.body b) s1 o) :
      Ev w (.body (.cons e b)) s o
  | seqRet {e b s v s1} (he : Ev w (.expr e) s (.ret v s1)) : Ev w (.body (.cons e b)) s (.ret v s1)
  -- conditionals
  | ifTrue {c t f s s1 o} (hc : Ev w (.expr c) s (.val [w.tt] s1)) (ht : Ev w (.body t) s1 o) :
      Ev w (.expr (.ifTF c t f)) s o
  | ifFalse {c t f s s1 o} (hc : Ev w (.expr c) s (.val [w.ff] s1)) (hf : Ev w (.body f) s1 o) :
      Ev w (.expr (.ifTF c t f)) s o
  | ifTFRet {c t f s v s1} (hc : Ev w (.expr c) s (.ret v s1)) : Ev w (.expr (.ifTF c t f)) s (.ret v s1)
  | oneYes {pol c b s s1 o} (hc : Ev w (.expr c) s (.val [w.bool pol] s1)) (hb : Ev w (.body b) s1 o) :
      Ev w (.expr (.ifOne pol c b)) s o
  | oneNo {pol c b s s1} (hc : Ev w (.expr c) s (.val [w.bool !pol] s1)) :
      Ev w (.expr (.ifOne pol c b)) s (.val [w.special nilIndex] s1)
  | oneRet {pol c b s v s1} (hc : Ev w (.expr c) s (.ret v s1)) : Ev w (.expr (.ifOne pol c b)) s (.ret v s1)
  | andOrShort {isOr c b s s1} (hc : Ev w (.expr c) s (.val [w.bool isOr] s1)) :
      Ev w (.expr (.andOr isOr c b)) s (.val [w.bool isOr] s1)
  | andOrLong {isOr c b s s1 o} (hc : Ev w (.expr c) s (.val [w.bool !isOr] s1)) (hb : Ev w (.body b) s1 o) :
      Ev w (.expr (.andOr isOr c b)) s o
  | andOrRet {isOr c b s v s1} (hc : Ev w (.expr c) s (.ret v s1)) : Ev w (.expr (.andOr isOr c b)) s (.ret v s1)
  -- while loops answer nil
  | whileUnary {pol c s s1} (h : Ev w (.while_ pol c none) s (.val [] s1)) :
      Ev w (.expr (.whileUnary pol c)) s (.val [w.special nilIndex] s1)
  | whileUnaryRet {pol c s v s1} (h : Ev w (.while_ pol c none) s (.ret v s1)) :
      Ev w (.expr (.whileUnary pol c)) s (.ret v s1)
  | whileKw {pol c b s s1} (h : Ev w (.while_ pol c (some b)) s (.val [] s1)) :
      Ev w (.expr (.whileKw pol c b)) s (.val [w.special nilIndex] s1)
  | whileKwRet {pol c b s v s1} (h : Ev w (.while_ pol c (some b)) s (.ret v s1)) :
      Ev w (.expr (.whileKw pol c b)) s (.ret v s1)
  | whileDone {pol c b s s1} (hc : Ev w (.body c) s (.val [w.bool !pol] s1)) : Ev w (.while_ pol c b) s (.val [] s1)
  | whileCondRet {pol c b s v s1} (hc : Ev w (.body c) s (.ret v s1)) : Ev w (.while_ pol c b) s (.ret v s1)
  | whileMore {pol c s s1 o} (hc : Ev w (.body c) s (.val [w.bool pol] s1)) (h : Ev w (.while_ pol c none) s1 o) :
      Ev w (.while_ pol c none) s o
  | whileBody {pol c b s s1 v s2 o} (hc : Ev w (.body c) s (.val [w.bool pol] s1))
      (hb : Ev w (.body b) s1 (.val [v] s2)) (h : Ev w (.while_ pol c (some b)) s2 o) :
      Ev w (.while_ pol c (some b)) s o
  | whileBodyRet {pol c b s s1 v s2} (hc : Ev w (.body c) s (.val [w.bool pol] s1))
      (hb : Ev w (.body b) s1 (.ret v s2)) : Ev w (.while_ pol c (some b)) s (.ret v s2)
  -- `repeat` ends by a return only
  | repeat_ {b s v s1} (h : Ev w (.repeat_ b) s (.ret v s1)) : Ev w (.expr (.repeat_ b)) s (.ret v s1)
  | repeatMore {b s v s1 o} (hb : Ev w (.body b) s (.val [v] s1)) (h : Ev w (.repeat_ b) s1 o) :
      Ev w (.repeat_ b) s o
  | repeatRet {b s v s1} (hb : Ev w (.body b) s (.ret v s1)) : Ev w (.repeat_ b) s (.ret v s1)
  -- `n timesRepeat: [b]`: while the counter is at least one, take one off and evaluate; answers `n`
  | timesRepeat {n b s k s1 s2} (hn : Ev w (.expr n) s (.val [k] s1)) (h : Ev w (.times k b) s1 (.val [] s2)) :
      Ev w (.expr (.times n b)) s (.val [k] s2)
  | timesRepeatRet1 {n b s v s1} (hn : Ev w (.expr n) s (.ret v s1)) : Ev w (.expr (.times n b)) s (.ret v s1)
  | timesRepeatRet2 {n b s k s1 v s2} (hn : Ev w (.expr n) s (.val [k] s1)) (h : Ev w (.times k b) s1 (.ret v s2)) :
      Ev w (.expr (.times n b)) s (.ret v s2)
  | timesDone {k b s s1} (hc : w.send s (.builtin 5) k [w.int 1] = some (w.ff, s1)) :
      Ev w (.times k b) s (.val [] s1)
  | timesMore {k b s s1 k' s2 v s3 o} (hc : w.send s (.builtin 5) k [w.int 1] = some (w.tt, s1))
      (hm : w.send s1 (.builtin 1) k [w.int 1] = some (k', s2)) (hb : Ev w (.body b) s2 (.val [v] s3))
      (h : Ev w (.times k' b) s3 o) : Ev w (.times k b) s o
  | timesRet {k b s s1 k' s2 v s3} (hc : w.send s (.builtin 5) k [w.int 1] = some (w.tt, s1))
      (hm : w.send s1 (.builtin 1) k [w.int 1] = some (k', s2)) (hb : Ev w (.body b) s2 (.ret v s3)) :
      Ev w (.times k b) s (.ret v s3)
  -- `frm to: lim by: step do: [:i | b]`: the variable starts as `frm` and grows by `step`; answers `frm`
  | toDo {frm lim step slot b s v s1 l s2 s3} (hf : Ev w (.expr frm) s (.val [v] s1))
      (hl : Ev w (.expr lim) (w.put s1 (.temp slot) v) (.val [l] s2))
      (h : Ev w (.to l (w.get s2 (.temp slot)) step slot b) s2 (.val [] s3)) :
      Ev w (.expr (.toDo frm lim step slot b)) s (.val [v] s3)
  | toDoRet1 {frm lim step slot b s v s1} (hf : Ev w (.expr frm) s (.ret v s1)) :
      Ev w (.expr (.toDo frm lim step slot b)) s (.ret v s1)
  | toDoRet2 {frm lim step slot b s v s1 u s2} (hf : Ev w (.expr frm) s (.val [v] s1))
      (hl : Ev w (.expr lim) (w.put s1 (.temp slot) v) (.ret u s2)) :
      Ev w (.expr (.toDo frm lim step slot b)) s (.ret u s2)
  | toDoRet3 {frm lim step slot b s v s1 l s2 u s3} (hf : Ev w (.expr frm) s (.val [v] s1))
      (hl : Ev w (.expr lim) (w.put s1 (.temp slot) v) (.val [l] s2))
      (h : Ev w (.to l (w.get s2 (.temp slot)) step slot b) s2 (.ret u s3)) :
      Ev w (.expr (.toDo frm lim step slot b)) s (.ret u s3)
  | toDone {lim i step slot b s s1} (hc : w.send s (goOnSel step) lim [i] = some (w.ff, s1)) :
      Ev w (.to lim i step slot b) s (.val [] s1)
  | toMore {lim i step slot b s s1 v s2 i' s3 o} (hc : w.send s (goOnSel step) lim [i] = some (w.tt, s1))
      (hb : Ev w (.body b) s1 (.val [v] s2))
      (hp : w.send s2 (.builtin 0) (w.get s2 (.temp slot)) [w.step step] = some (i', s3))
      (h : Ev w (.to lim i' step slot b) (w.put s3 (.temp slot) i') o) : Ev w (.to lim i step slot b) s o
  | toRet {lim i step slot b s s1 v s2} (hc : w.send s (goOnSel step) lim [i] = some (w.tt, s1))
      (hb : Ev w (.body b) s1 (.ret v s2)) : Ev w (.to lim i step slot b) s (.ret v s2)

/-- What a method answers: the value of a `^`, or without one the receiver (the value of the last statement
when it is an expression that is executed at once). -/
inductive MethodEv {S V : Type} (w : World S V) : Bool → Body → S → V → S → Prop where
  | ret {last b s v s'} (h : Ev w (.body b) s (.ret v s')) : MethodEv w last b s v s'
  | value {b s v s'} (h : Ev w (.body b) s (.val [v] s')) : MethodEv w true b s v s'
  | self {b s v s'} (h : Ev w (.body b) s (.val [v] s')) : MethodEv w false b s w.self s'

end Verif.Compiler
