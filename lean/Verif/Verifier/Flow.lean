import Verif.Verifier.Proofs
/-!
# The bytecode verifier: the first pass sees every bytecode
-/
namespace Verif.Verifier
open Verif.Bytecode

/-- The bytecodes that follow from the start of the method by going on to the next one or by jumping, whatever the values tested. -/
inductive Flow (M : Meth) : Nat → Prop where
  | start : Flow M 0
  | next {ip len is} : Flow M ip → M.fetch ip = some (is, len) → Flow M (ip + len)
  | jump {ip len is} {i : Ins} {t : Nat} : Flow M ip → M.fetch ip = some (is, len) → i ∈ is → isJump i → dest ip len i = (t : Int) →
      Flow M t

/-- Every run follows the flow. -/
theorem Exec.jumps {b : Bool} {M : Meth} {ip len : Nat} {is : List Ins} {h h' : Int} {e : Exit} (x : Exec b M ip len is h h' e) :
    ∀ t, e = .goto t ∨ e = .branch t → ∃ i ∈ is, isJump i ∧ dest ip len i = t := by
  induction x with
  | done => intro t ht; rcases ht with h | h <;> cases h
  | ret => intro t ht; rcases ht with h | h <;> cases h
  | jump i r _ _ hj =>
    intro t ht
    rcases ht with h | h <;> cases h
    exact ⟨i, List.mem_cons_self, by rcases hj with hj | hj <;> simp [isJump, hj], rfl⟩
  | branch i r _ _ hj =>
    intro t ht
    rcases ht with h | h <;> cases h
    exact ⟨i, List.mem_cons_self, by rcases hj with hj | hj <;> simp [isJump, hj], rfl⟩
  | step i r _ _ _ _ _ _ _ ih =>
    intro t ht
    obtain ⟨j, hj, h⟩ := ih t ht
    exact ⟨j, List.mem_cons_of_mem _ hj, h⟩

theorem Reach.flow {M : Meth} {ip : Nat} {h : Int} (hr : Reach M ip h) : Flow M ip := by
  induction hr with
  | start => exact .start
  | next _ hf _ ih => exact .next ih hf
  | goto _ hf hx ih => obtain ⟨i, hi, hj, hd⟩ := hx.jumps _ (.inl rfl); exact .jump ih hf hi hj hd
  | taken _ hf hx ih => obtain ⟨i, hi, hj, hd⟩ := hx.jumps _ (.inr rfl); exact .jump ih hf hi hj hd
  | notTaken _ hf _ ih => exact .next ih hf

/-- Bytecodes from a position on have been looked at up to the start of a known block. -/
inductive Done (M : Meth) (bb : Nat → Option Blk) : Nat → Prop where
  | mk {p len is} : M.fetch p = some (is, len) →
      (∀ i ∈ is, i.op ≠ .invalid ∧ (isJump i → ∃ t, target M p len i = .ok t ∧ (bb t).isSome)) →
      ((bb (p + len)).isSome = false → Done M bb (p + len)) → Done M bb p

theorem Done.mono {M : Meth} {bb bb' : Nat → Option Blk} (h : ∀ p, (bb p).isSome → (bb' p).isSome) {p : Nat} (d : Done M bb p) :
    Done M bb' p := by
  induction d with
  | mk hf hj hn ih =>
    refine .mk hf (fun i hi => ⟨(hj i hi).1, fun hji => ?_⟩) ?_
    · obtain ⟨t, ht, hb⟩ := (hj i hi).2 hji
      exact ⟨t, ht, h _ hb⟩
    · intro hn'
      refine ih ?_
      cases hb : (bb _).isSome with
      | false => rfl
      | true => rw [h _ hb] at hn'; cases hn'

/-- New blocks are put on one of the lists, and nothing is forgotten. -/
structure Ext (s s' : S1) : Prop where
  mono : ∀ p, (s.bb p).isSome → (s'.bb p).isSome
  new : ∀ p, (s'.bb p).isSome → (s.bb p).isSome ∨ p ∈ s'.work ∨ p ∈ s'.susp
  work : ∀ p ∈ s.work, p ∈ s'.work
  susp : ∀ p ∈ s.susp, p ∈ s'.susp

theorem Ext.refl (s : S1) : Ext s s := ⟨fun _ h => h, fun _ h => .inl h, fun _ h => h, fun _ h => h⟩

theorem Ext.trans {a b c : S1} (h : Ext a b) (k : Ext b c) : Ext a c :=
  ⟨fun p hp => k.mono p (h.mono p hp),
   fun p hp => by
    rcases k.new p hp with h1 | h1
    · rcases h.new p h1 with h2 | h2 | h2
      · exact .inl h2
      · exact .inr (.inl (k.work p h2))
      · exact .inr (.inr (k.susp p h2))
    · exact .inr h1,
   fun p hp => k.work p (h.work p hp), fun p hp => k.susp p (h.susp p hp)⟩

theorem put_mono (s : S1) (q : Nat) (b : Blk) (p : Nat) (h : (s.bb p).isSome) : ((s.put q b).bb p).isSome := by
  simp only [S1.put]
  split
  · rfl
  · exact h

theorem put_self (s : S1) (q : Nat) (b : Blk) : ((s.put q b).bb q).isSome := by simp [S1.put]

theorem put_new (s : S1) (q : Nat) (b : Blk) (p : Nat) (h : ((s.put q b).bb p).isSome) : p = q ∨ (s.bb p).isSome := by
  simp only [S1.put] at h
  split at h
  · next e => exact .inl e
  · exact .inr h

theorem suspend_ext (s : S1) (p : Nat) (sp : Int) : Ext s (s.suspend p sp) := by
  rw [S1.suspend]
  split
  · refine ⟨fun q hq => put_mono s p _ q hq, fun q hq => ?_, fun q hq => hq, fun q hq => List.mem_append_left _ hq⟩
    rcases put_new s p _ q hq with rfl | h
    · exact .inr (.inr (List.mem_append_right _ (List.mem_singleton.2 rfl)))
    · exact .inl h
  · exact .refl s

theorem reach_ext {s s' : S1} {p : Nat} {sp : Int} (e : s.reach p sp = .ok s') : Ext s s' ∧ (s'.bb p).isSome := by
  rw [S1.reach] at e
  split at e
  · cases e
    refine ⟨⟨fun q hq => put_mono s p _ q hq, fun q hq => ?_, fun q hq => List.mem_cons_of_mem _ hq, fun q hq => hq⟩, put_self s p _⟩
    rcases put_new s p _ q hq with rfl | h
    · exact .inr (.inl List.mem_cons_self)
    · exact .inl h
  · next b hb =>
    split at e
    · cases e
      refine ⟨⟨fun q hq => put_mono s p _ q hq, fun q hq => ?_, fun q hq => hq, fun q hq => hq⟩, put_self s p _⟩
      rcases put_new s p _ q hq with rfl | h
      · exact .inl (by rw [hb]; rfl)
      · exact .inl h
    · split at e
      · cases e
      · cases e; exact ⟨.refl s, by rw [hb]; rfl⟩

theorem ins1_ext {M : Meth} {ip len : Nat} {cur bal bal' : Int} {s s' : S1} {i : Ins} (e : ins1 M ip len cur s bal i = .ok (s', bal')) :
    Ext s s' ∧ i.op ≠ .invalid ∧ (isJump i → ∃ t, target M ip len i = .ok t ∧ (s'.bb t).isSome) := by
  rw [ins1] at e
  have uj (e : ((target M ip len i).bind fun t => ((s.suspend (ip + len) 0).reach t (cur + bal)).bind fun s => .ok (s, bal)) =
        .ok (s', bal')) : Ext s s' ∧ (∃ t, target M ip len i = .ok t ∧ (s'.bb t).isSome) := by
    obtain ⟨t, ht, e⟩ := bind_ok e
    obtain ⟨s1, h1, e⟩ := bind_ok e
    cases e
    have := reach_ext h1
    exact ⟨(suspend_ext s _ _).trans this.1, t, ht, this.2⟩
  have cj (e : ((target M ip len i).bind fun t => (s.reach (ip + len) (cur + (bal - 1))).bind fun s =>
        (s.reach t (cur + (bal - 1))).bind fun s => .ok (s, bal - 1)) = .ok (s', bal')) :
      Ext s s' ∧ (∃ t, target M ip len i = .ok t ∧ (s'.bb t).isSome) := by
    obtain ⟨t, ht, e⟩ := bind_ok e
    obtain ⟨s1, h1, e⟩ := bind_ok e
    obtain ⟨s2, h2, e⟩ := bind_ok e
    cases e
    have := reach_ext h2
    exact ⟨(reach_ext h1).1.trans this.1, t, ht, this.2⟩
  cases ho : i.op <;> simp only [ho] at e
  case jump => exact ⟨(uj e).1, by simp, fun _ => (uj e).2⟩
  case jumpBack => exact ⟨(uj e).1, by simp, fun _ => (uj e).2⟩
  case popJumpTrue => exact ⟨(cj e).1, by simp, fun _ => (cj e).2⟩
  case popJumpFalse => exact ⟨(cj e).1, by simp, fun _ => (cj e).2⟩
  case invalid => cases e
  all_goals refine ⟨?_, by simp, fun h => by simp [isJump, ho] at h⟩
  case returnMethodStackTop => cases e; exact suspend_ext _ _ _
  case returnContextStackTop => cases e; exact suspend_ext _ _ _
  all_goals first
    | (cases e; exact .refl _)
    | (obtain ⟨b, -, e⟩ := bind_ok e; cases e; exact .refl _)
    | (split at e
       · cases e
       · obtain ⟨b, -, e⟩ := bind_ok e; cases e; exact .refl _)

theorem byte1_ext {M : Meth} {ip len : Nat} {cur : Int} : ∀ (is : List Ins) {s s' : S1} {bal bal' : Int},
    byte1 M ip len cur is s bal = .ok (s', bal') →
    Ext s s' ∧ ∀ i ∈ is, i.op ≠ .invalid ∧ (isJump i → ∃ t, target M ip len i = .ok t ∧ (s'.bb t).isSome)
  | [], _, _, _, _, e => by cases e; exact ⟨.refl _, by simp⟩
  | i :: r, s, s', bal, bal', e => by
    rw [byte1] at e
    obtain ⟨⟨s1, b1⟩, h1, e⟩ := bind_ok e
    obtain ⟨x1, o1, j1⟩ := ins1_ext h1
    obtain ⟨x2, j2⟩ := byte1_ext r e
    refine ⟨x1.trans x2, fun j hj => ?_⟩
    rcases List.mem_cons.1 hj with rfl | hj
    · refine ⟨o1, fun h => ?_⟩
      obtain ⟨t, ht, hb⟩ := j1 h
      exact ⟨t, ht, x2.mono t hb⟩
    · exact j2 j hj

theorem block1_ext {M : Meth} : ∀ (fuel : Nat) {s s' : S1} {ip : Nat} {cur : Int}, block1 M fuel s ip cur = .ok s' →
    Ext s s' ∧ Done M s'.bb ip
  | 0, _, _, _, _, e => by cases e
  | fuel + 1, s, s', ip, cur, e => by
    rw [block1] at e
    split at e
    · cases e
    · next is len hf =>
      obtain ⟨⟨s1, b1⟩, h1, e⟩ := bind_ok e
      obtain ⟨x, j⟩ := byte1_ext is h1
      split at e
      · cases e
      · split at e
        · next hb => cases e; exact ⟨x, .mk hf j (fun hn => by rw [hb] at hn; cases hn)⟩
        · obtain ⟨x2, d⟩ := block1_ext fuel e
          refine ⟨x.trans x2, .mk hf (fun i hi => ⟨(j i hi).1, fun h => ?_⟩) (fun _ => d)⟩
          obtain ⟨t, ht, hb⟩ := (j i hi).2 h
          exact ⟨t, ht, x2.mono t hb⟩

/-- Every block is the end of the method, on a list, or dealt with. -/
def Pend (M : Meth) (s : S1) : Prop :=
  ∀ p, (s.bb p).isSome → p = M.size ∨ p ∈ s.work ∨ p ∈ s.susp ∨ Done M s.bb p

theorem pass1_done {M : Meth} : ∀ (fuel : Nat) {s s' : S1}, Pend M s → (s.work = [] → s.susp = []) → pass1 M fuel s = .ok s' →
    (s.bb 0).isSome → (s'.bb 0).isSome ∧ ∀ p, (s'.bb p).isSome → p = M.size ∨ Done M s'.bb p
  | 0, _, _, _, _, e, _ => by cases e
  | fuel + 1, s, s', h, hw, e, h0 => by
    rw [pass1] at e
    split at e
    · next p ps hp =>
      split at e
      · cases e
      · obtain ⟨s1, h1, e⟩ := bind_ok e
        obtain ⟨x, d⟩ := block1_ext _ h1
        have hpend : Pend M s1 := by
          intro q hq
          rcases x.new q hq with h2 | h2 | h2
          · rcases h q h2 with h3 | h3 | h3 | h3
            · exact .inl h3
            · rw [hp] at h3
              rcases List.mem_cons.1 h3 with rfl | h3
              · exact .inr (.inr (.inr d))
              · exact .inr (.inl (x.work q h3))
            · exact .inr (.inr (.inl (x.susp q h3)))
            · exact .inr (.inr (.inr (h3.mono x.mono)))
          · exact .inr (.inl h2)
          · exact .inr (.inr (.inl h2))
        split at e
        · next q qs hw1 hs1 =>
          refine pass1_done fuel ?_ ?_ e (x.mono 0 h0)
          · intro r hr
            rcases hpend r hr with h3 | h3 | h3 | h3
            · exact .inl h3
            · rw [hw1] at h3; cases h3
            · rw [hs1] at h3
              rcases List.mem_cons.1 h3 with rfl | h3
              · exact .inr (.inl List.mem_cons_self)
              · exact .inr (.inr (.inl h3))
            · exact .inr (.inr (.inr h3))
          · intro h; cases h
        · next hne =>
          refine pass1_done fuel hpend (fun hw1 => ?_) e (x.mono 0 h0)
          cases hs1 : s1.susp with
          | nil => rfl
          | cons q qs => exact absurd hs1 (hne q qs hw1)
    · next hnil =>
      cases e
      refine ⟨h0, fun p hp => ?_⟩
      rcases h p hp with h3 | h3 | h3 | h3
      · exact .inl h3
      · rw [hnil] at h3; cases h3
      · rw [hw hnil] at h3; cases h3
      · exact .inr h3

theorem flow_done {M : Meth} {bb : Nat → Option Blk} (h : ∀ p, (bb p).isSome → p = M.size ∨ Done M bb p) (h0 : (bb 0).isSome) {ip : Nat}
    (hf : Flow M ip) : ip = M.size ∨ Done M bb ip := by
  induction hf with
  | start => exact h 0 h0
  | next _ hf ih =>
    rcases ih with rfl | ih
    · rw [Meth.fetch, Meth.size, List.drop_length] at hf
      cases hf
    · cases ih with
      | mk hf' hj hn =>
        rw [hf] at hf'
        cases hf'
        cases hb : (bb _).isSome with
        | true => exact h _ hb
        | false => exact .inr (hn hb)
  | jump _ hf hi hj hd ih =>
    rcases ih with rfl | ih
    · rw [Meth.fetch, Meth.size, List.drop_length] at hf
      cases hf
    · cases ih with
      | mk hf' hj' hn =>
        rw [hf] at hf'
        cases hf'
        obtain ⟨t, ht, hb⟩ := (hj' _ hi).2 hj
        have := target_dest ht
        rw [hd] at this
        cases Int.ofNat.inj this
        exact h _ hb

theorem target_ok {M : Meth} {ip len t : Nat} {i : Ins} (h : target M ip len i = .ok t) :
    (i.args.headD 0) % 2 = 0 ∧ t ≤ M.size ∧ (0 < t → (M.code.getD (t - 1) (0, 0)).1 ≠ EXT) := by
  rw [target] at h
  simp only at h
  by_cases hb : i.op = .jumpBack
  · simp only [hb, true_and, if_true] at h ⊢
    split at h
    · cases h
    · split at h
      · cases h
      · split at h
        · cases h
        · split at h
          · cases h
          · next hx =>
            cases h
            exact ⟨by omega, by omega, fun h0 he => hx ⟨h0, he⟩⟩
  · simp only [hb, false_and, if_false] at h ⊢
    split at h
    · cases h
    · split at h
      · cases h
      · split at h
        · cases h
        · next hx =>
          cases h
          exact ⟨by omega, by omega, fun h0 he => hx ⟨h0, he⟩⟩

end Verif.Verifier
