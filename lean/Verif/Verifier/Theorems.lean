import Verif.Verifier.Flow
/-!
# C26: what an accepted method can do

The claim that a verified method never leaves its literals, variables and stack is false of the code, in the ways that the second
half of this file exhibits.  What remains is proved first.
-/
namespace Verif.Verifier
open Verif.Bytecode

/-- C26, part: if a method is accepted, then every bytecode that is run before the first jump, return or jump target lies within the
code, uses only temporaries, literals, instance variables and stack slots that exist, and leaves the stack below the declared depth.
`hnew` says that `new:` has one argument.  Missing: everything after the first border (see the counterexamples below), and with
`Exec false` the selector of a send and the value of a return or a store. -/
theorem verified_straight_partial {M : Meth} {fuel : Nat} (hv : verify M fuel = .ok ()) (hnew : ∀ k, M.builtin 32 = some k → k = 1)
    (hsup : NoSuperNew M) {ip : Nat} {h : Int} (hs : Straight M ip h) :
    ∃ is len h' e, M.fetch ip = some (is, len) ∧ Exec false M ip len is h h' e ∧ (e = .next → h' < M.depth) := by
  obtain ⟨bb, hbb, h0⟩ := verify_sound hv
  obtain ⟨is, len, h', e, hf, hx, hn⟩ := (straight_sound hnew hsup hbb h0 hs).byte hnew hsup hbb
  exact ⟨is, len, h', e, hf, hx, fun he => (hn he).1⟩

/-- C26, part: an accepted method without jumps stays in range until it returns or runs past the end of its code. -/
theorem verified_no_jumps_partial {M : Meth} {fuel : Nat} (hv : verify M fuel = .ok ()) (hnew : ∀ k, M.builtin 32 = some k → k = 1)
    (hsup : NoSuperNew M) (hnj : NoJumps M) {ip : Nat} {h : Int} (hr : Reach M ip h) :
    ip = M.size ∨ ∃ is len h' e, M.fetch ip = some (is, len) ∧ Exec false M ip len is h h' e ∧ (e = .next → h' < M.depth) :=
  (reach_straight hnj hr).imp_right (verified_straight_partial hv hnew hsup)

/-- C26, part: whatever an accepted method does, each bytecode that it runs is a valid one within its code, and each jump goes to the
start of a bytecode of the method (not into the operand of an extended one) or to its end. -/
theorem verified_flow {M : Meth} {fuel : Nat} (hv : verify M fuel = .ok ()) {ip : Nat} (hr : Flow M ip) :
    ip = M.size ∨ ∃ is len, M.fetch ip = some (is, len) ∧ ip + len ≤ M.size ∧ ∀ i ∈ is, i.op ≠ .invalid ∧
      (isJump i → i.args.headD 0 % 2 = 0 ∧ ∃ t : Nat, dest ip len i = (t : Int) ∧ t ≤ M.size ∧ (0 < t → (M.code.getD (t - 1) (0, 0)).1 ≠ EXT)) := by
  rw [verify] at hv
  obtain ⟨s, h1, -⟩ := bind_ok hv
  have hp : Pend M (start1 M) := by
    intro p hp
    simp only [start1] at hp ⊢
    split at hp
    · next e => exact .inl e
    · split at hp
      · next e => exact .inr (.inl (by simp [e]))
      · cases hp
  obtain ⟨h0, hd⟩ := pass1_done fuel hp (fun h => by cases h) h1 (by rw [(start1_binv M).2]; rfl)
  refine (flow_done hd h0 hr).imp_right fun d => ?_
  cases d with
  | mk hf hj hn =>
    refine ⟨_, _, hf, ?_, fun i hi => ⟨(hj i hi).1, fun h => ?_⟩⟩
    · obtain ⟨_, _, _, _, hl, hc⟩ := fetch_last hf
      have := (List.getElem?_eq_some_iff.1 hc).1
      rw [Meth.size]
      omega
    · obtain ⟨t, ht, -⟩ := (hj i hi).2 h
      exact ⟨(target_ok ht).1, t, target_dest ht, (target_ok ht).2⟩

/-- C26, part: the same for the runs. -/
theorem verified_run_in_code {M : Meth} {fuel : Nat} (hv : verify M fuel = .ok ()) {ip : Nat} {h : Int} (hr : Reach M ip h) :
    ip = M.size ∨ ∃ is len, M.fetch ip = some (is, len) ∧ ip + len ≤ M.size ∧ ∀ i ∈ is, i.op ≠ .invalid :=
  (verified_flow hv hr.flow).imp_right fun ⟨is, len, hf, hl, hi⟩ => ⟨is, len, hf, hl, fun i h => (hi i h).1⟩

/-- A method without literals, variables or arguments. -/
def blank : Meth :=
  { code := [], numLits := 0, numRec := 0, numTemps := 0, depth := 32, outer := [], methodReturn := false,
    litTy := fun _ => .other 9, isVar := fun _ => false, varTy := fun _ => .varying, litInt := fun _ => none, superOK := fun _ => false,
    blockOK := fun _ => false, builtin := fun n => if n < 33 then some 1 else none, garbage := fun _ => .undefined }

/-- `foo: x [ ^self bar: x with: #(1 2) ]`, with the selector in literal 0 and the array in literal 1. -/
def demo : Meth := { blank with numLits := 2, numTemps := 1, code := [(56, 0), (32, 0), (46, 1), (28, 2), (51, 0)] }

example : verify demo 10 = .ok () := by decide +kernel

/-- The hypotheses hold of a method that gets as far as its last bytecode. -/
example : Straight demo 3 4 := by
  have f0 : demo.fetch 0 = some ([⟨.pushSelf, []⟩], 1) := by decide +kernel
  have f1 : demo.fetch 1 = some ([⟨.pushTemporaryVariable, [0]⟩], 1) := by decide +kernel
  have f2 : demo.fetch 2 = some ([⟨.pushLitConstant, [1]⟩], 1) := by decide +kernel
  have nb : ∀ p, 0 < p → p < 4 → ¬ Boundary demo p := by
    have key : ∀ ip < 5, ∀ q ∈ demo.fetch ip, ∀ i ∈ q.1, isJump i = false ∧ (isReturn i = true → ip + q.2 = 5) := by decide +kernel
    have lt : ∀ ip is len, demo.fetch ip = some (is, len) → ip < 5 := by
      intro ip is len hf
      obtain ⟨_, _, _, _, hl, hc⟩ := fetch_last hf
      have := (List.getElem?_eq_some_iff.1 hc).1
      simp only [demo, blank, List.length_cons, List.length_nil] at this
      omega
    intro p h0 h4 hb
    cases hb with
    | start => omega
    | stop => exact absurd h4 (by decide)
    | after hf hi hr =>
      have k := key _ (lt _ _ _ hf) _ hf _ hi
      rcases hr with hr | hr
      · have := k.2 hr
        simp only at this
        omega
      · rw [k.1] at hr; cases hr
    | target hf hi hj _ =>
      rw [(key _ (lt _ _ _ hf) _ hf _ hi).1] at hj
      cases hj
  have r0 : InRange false demo ⟨.pushSelf, []⟩ 1 := ⟨⟨0, rfl, by decide⟩, trivial⟩
  have r1 : InRange false demo ⟨.pushTemporaryVariable, [0]⟩ 2 := ⟨⟨0, rfl, by decide⟩, by decide⟩
  have r2 : InRange false demo ⟨.pushLitConstant, [1]⟩ 3 := ⟨⟨0, rfl, by decide⟩, by decide⟩
  have s1 : Straight demo 1 2 := .next .start f0 (.step _ _ _ _ _ r0 rfl rfl (.done 2)) (nb 1 (by decide) (by decide))
  have s2 : Straight demo 2 3 := .next s1 f1 (.step _ _ _ _ _ r1 rfl rfl (.done 3)) (nb 2 (by decide) (by decide))
  exact .next s2 f2 (.step _ _ _ _ _ r2 rfl rfl (.done 4)) (nb 3 (by decide) (by decide))

/-- A loop: `[x] whileTrue: [y]`. -/
def demoLoop : Meth := { blank with numTemps := 2, code := [(32, 0), (43, 6), (32, 1), (48, 0), (40, 10), (45, 0), (51, 0)] }

example : verify demoLoop 10 = .ok () := by decide +kernel

example : Flow demoLoop 5 := by
  have f0 : demoLoop.fetch 0 = some ([⟨.pushTemporaryVariable, [0]⟩], 1) := by decide +kernel
  have f1 : demoLoop.fetch 1 = some ([⟨.popJumpFalse, [6]⟩], 1) := by decide +kernel
  exact .jump (.next .start f0) f1 (List.mem_singleton.2 rfl) rfl rfl

/-! ## What the verifier lets through -/

/-- Merging the stacks never finds a difference, so that only the first basic block is ever examined by the second pass. -/
theorem merge_never_varies (d s : List Ty) : mergeStacks d s = (false, d) := by
  induction d generalizing s with
  | nil => cases s <;> rfl
  | cons a d ih =>
    cases s with
    | nil => rfl
    | cons b s => simp [mergeStacks, ih]

/-- C26 fails: a literal is not checked after a jump.  The method has no literals and reads literal 7. -/
theorem literal_unchecked : ∃ M : Meth, verify M 10 = .ok () ∧ NoSuperNew M ∧ ∃ ip h, Reach M ip h ∧ ∃ is len, M.fetch ip = some (is, len) ∧
    ¬ ∃ h' e, Exec false M ip len is h h' e := by
  let M : Meth := { blank with code := [(41, 0), (46, 7), (51, 0)] }
  have f0 : M.fetch 0 = some ([⟨.jump, [0]⟩], 1) := by decide +kernel
  have f1 : M.fetch 1 = some ([⟨.pushLitConstant, [7]⟩], 1) := by decide +kernel
  refine ⟨M, by decide +kernel, ?_, 1, 0, ?_, _, _, f1, ?_⟩
  · intro ip is len hf
    have key : ∀ ip < 3, ∀ q ∈ M.fetch ip, ∀ i ∈ q.1, i.op ≠ .sendImmediate := by decide +kernel
    obtain ⟨_, _, _, _, hl, hc⟩ := fetch_last hf
    have : ip + len - 1 < 3 := (List.getElem?_eq_some_iff.1 hc).1
    intro i hi ho
    exact absurd ho (key ip (by omega) _ hf i hi)
  · exact .goto (t := 1) .start f0 (.jump _ _ _ ⟨⟨0, rfl, by decide⟩, trivial⟩ (.inl rfl))
  · rintro ⟨h', e, hx⟩
    cases hx with
    | ret _ _ _ hr => exact absurd hr.2 (by decide)
    | jump _ _ _ hr => exact absurd hr.2 (by decide)
    | branch _ _ _ hr => exact absurd hr.2 (by decide)
    | step _ _ _ _ _ hr => exact absurd hr.2 (by decide)

/-- C26 fails: the height is not compared when a basic block ends by running into the next one.  Each turn of the loop of this accepted
method can push one more value, so there is no bound on the stack. -/
theorem stack_unbounded : ∃ M : Meth, verify M 10 = .ok () ∧ ∀ k : Nat, Reach M 0 k := by
  let M : Meth := { blank with code := [(45, 1), (43, 2), (44, 1), (40, 8)] }
  have f0 : M.fetch 0 = some ([⟨.pushSpecial, [1]⟩], 1) := by decide +kernel
  have f1 : M.fetch 1 = some ([⟨.popJumpFalse, [2]⟩], 1) := by decide +kernel
  have f2 : M.fetch 2 = some ([⟨.pushInteger, [1]⟩], 1) := by decide +kernel
  have f3 : M.fetch 3 = some ([⟨.jumpBack, [8]⟩], 1) := by decide +kernel
  refine ⟨M, by decide +kernel, fun k => ?_⟩
  induction k with
  | zero => exact .start
  | succ k ih =>
    have r1 : Reach M 1 (k + 1) :=
      .next ih f0 (.step _ _ _ _ _ ⟨⟨0, rfl, by omega⟩, trivial⟩ rfl rfl (by simpa [after, takes, gives] using Exec.done _))
    have r2 : Reach M 2 k := by
      have := Reach.notTaken r1 f1 (.branch _ _ _ ⟨⟨1, rfl, by omega⟩, trivial⟩ (.inr rfl))
      simpa using this
    have r3 : Reach M 3 (k + 1) :=
      .next r2 f2 (.step _ _ _ _ _ ⟨⟨0, rfl, by omega⟩, trivial⟩ rfl rfl (by simpa [after, takes, gives] using Exec.done _))
    have := Reach.goto (t := 0) r3 f3 (.jump _ _ _ ⟨⟨0, rfl, by omega⟩, trivial⟩ (.inr rfl))
    simpa using this

/-- C26 fails: nothing asks for a return at the end. -/
theorem runs_past_end : ∃ M : Meth, verify M 10 = .ok () ∧ Reach M M.size 1 ∧ M.fetch M.size = none := by
  let M : Meth := { blank with code := [(56, 0)] }
  have f0 : M.fetch 0 = some ([⟨.pushSelf, []⟩], 1) := by decide +kernel
  refine ⟨M, by decide +kernel, ?_, by decide +kernel⟩
  exact .next .start f0 (.step _ _ _ _ _ ⟨⟨0, rfl, by decide⟩, trivial⟩ rfl rfl (.done 1))

/-- C26 fails: the selector of a send is not checked.  The method has no literals and sends the selector in literal 9. -/
theorem selector_unchecked : ∃ M : Meth, verify M 10 = .ok () ∧ ∃ ip h, Straight M ip h ∧ ∃ is len, M.fetch ip = some (is, len) ∧
    ¬ ∃ h' e, Exec true M ip len is h h' e := by
  let M : Meth := { blank with numTemps := 1, code := [(55, 9), (28, 0), (51, 0)] }
  have f0 : M.fetch 0 = some ([⟨.send, [9, 0, 0]⟩], 2) := by decide +kernel
  refine ⟨M, by decide +kernel, 0, 1, .start, _, _, f0, ?_⟩
  rintro ⟨h', e, hx⟩
  cases hx with
  | ret _ _ _ hr => exact absurd (hr.2 rfl) (by decide)
  | jump _ _ _ hr => exact absurd (hr.2 rfl) (by decide)
  | branch _ _ _ hr => exact absurd (hr.2 rfl) (by decide)
  | step _ _ _ _ _ hr => exact absurd (hr.2 rfl) (by decide)

/-- C26 fails: a return does not ask for a value on the stack. -/
theorem return_unchecked : ∃ M : Meth, verify M 10 = .ok () ∧ ∃ ip h, Straight M ip h ∧ ∃ is len, M.fetch ip = some (is, len) ∧
    ¬ ∃ h' e, Exec true M ip len is h h' e := by
  let M : Meth := { blank with code := [(51, 0)] }
  have f0 : M.fetch 0 = some ([⟨.returnContextStackTop, []⟩], 1) := by decide +kernel
  refine ⟨M, by decide +kernel, 0, 0, .start, _, _, f0, ?_⟩
  rintro ⟨h', e, hx⟩
  cases hx with
  | ret _ _ _ hr => exact absurd (hr.2 rfl) (by decide)
  | jump _ _ _ hr => exact absurd (hr.2 rfl) (by decide)
  | branch _ _ _ hr => exact absurd (hr.2 rfl) (by decide)
  | step _ _ _ _ _ hr => exact absurd (hr.2 rfl) (by decide)

/-- C26 fails: the two passes disagree on `new:` sent to super, and a temporary above the top of the stack is read.  This is why
`verified_straight_partial` assumes `NoSuperNew`. -/
theorem super_new_unsound : ∃ M : Meth, verify M 10 = .ok () ∧ ∃ ip h, Reach M ip h ∧ ∃ is len, M.fetch ip = some (is, len) ∧
    ¬ ∃ h' e, Exec false M ip len is h h' e := by
  let M : Meth := { blank with numLits := 1, litTy := fun _ => .arrayMeta, code := [(56, 0), (46, 0), (44, 5), (31, 32), (32, 1), (51, 0)] }
  have f0 : M.fetch 0 = some ([⟨.pushSelf, []⟩], 1) := by decide +kernel
  have f1 : M.fetch 1 = some ([⟨.pushLitConstant, [0]⟩], 1) := by decide +kernel
  have f2 : M.fetch 2 = some ([⟨.pushInteger, [5]⟩], 1) := by decide +kernel
  have f3 : M.fetch 3 = some ([⟨.sendImmediate, [32, 1]⟩], 1) := by decide +kernel
  have f4 : M.fetch 4 = some ([⟨.pushTemporaryVariable, [1]⟩], 1) := by decide +kernel
  have r1 : Reach M 1 1 := .next .start f0 (.step _ _ _ _ _ ⟨⟨0, rfl, by decide⟩, trivial⟩ rfl rfl (.done 1))
  have r2 : Reach M 2 2 := .next r1 f1 (.step _ _ _ _ _ ⟨⟨0, rfl, by decide⟩, by decide⟩ rfl rfl (.done 2))
  have r3 : Reach M 3 3 := .next r2 f2 (.step _ _ _ _ _ ⟨⟨0, rfl, by decide⟩, trivial⟩ rfl rfl (.done 3))
  have r4 : Reach M 4 1 := .next r3 f3 (.step _ _ _ _ _ ⟨⟨3, rfl, by decide⟩, trivial⟩ rfl rfl (.done 1))
  refine ⟨M, by decide +kernel, 4, 1, r4, _, _, f4, ?_⟩
  rintro ⟨h', e, hx⟩
  cases hx with
  | ret _ _ _ hr => exact absurd hr.2 (by decide)
  | jump _ _ _ hr => exact absurd hr.2 (by decide)
  | branch _ _ _ hr => exact absurd hr.2 (by decide)
  | step _ _ _ _ _ hr => exact absurd hr.2 (by decide)

/-- C26 fails: for a temporary of as many scopes out as there are contexts, the verifier itself reads past its array of sizes. -/
theorem outer_scope_undefined : ∃ M : Meth, M.outer = [] ∧ verify M 10 = .undef := by
  exact ⟨{ blank with code := [(33, 1), (51, 0)] }, rfl, by decide +kernel⟩

end Verif.Verifier
