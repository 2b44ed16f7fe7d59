/-
`ensure:` blocks are evaluated, once, in order, whatever exits are made.
-/
import Verif.Unwind.Lemmas

namespace Verif.Unwind

variable {V : Type}

/-! ### No `ensure:` block is lost or evaluated twice -/

/-- Exits that are made while an earlier one is being performed (by blocks that `ensure:`
evaluates on the way) do not stop at a method the earlier one is leaving, and a block whose
method has returned does not return while it is the receiver of `ensure:`. -/
def Calm (s : St V) : Op V → Prop
  | .continue t _ => ∀ d ∈ s.chain, d.id = t → d.disabled = false
  | .exit _ => ∀ c rest, s.chain = c :: rest →
      (∀ a d e r, s.chain = a ++ d :: e :: r → d.id = c.home → e.disabled = false) ∧
      ((∀ d ∈ s.chain.dropLast, d.id ≠ c.home) →
        ∀ a e r, rest = a ++ e :: r → (∀ x ∈ a, x.disabled = true) → e.role ≠ .waiting)
  | _ => True

/-- All steps of a run are calm. -/
def CalmRun (s : St V) : List (Op V) → Prop
  | [] => True
  | op :: ops => Calm s op ∧ ∀ s', step s op = some s' → CalmRun s' ops

structure Inv (s : St V) : Prop where
  marked : Marked s.chain.tail
  nodup : (s.chain.map Ctx.id).Nodup
  fresh : ∀ c ∈ s.chain, c.id < s.next
  made : ∀ i ∈ s.made, i < s.next
  kept : ∀ i ∈ s.made, i ∈ s.log ∨ ∃ c ∈ s.chain, c.id = i ∧ c.role = .waiting
  sub : ∀ i ∈ s.log, i ∈ s.made
  once : s.log.Nodup
  wait : ∀ c ∈ s.chain, c.role = .waiting → c.id ∈ s.made ∧ c.id ∉ s.log

theorem start_inv (v : V) : Inv (start v) := by
  constructor <;> simp [start, Marked]

/-- Moving to a chain that keeps what waits. -/
theorem Inv.move {s : St V} {l : List (Ctx V)} {v : V} (h : Inv s) (hk : Kept s.chain l)
    (hr : Roles s.chain l) (hm : Marked l.tail) : Inv { s with chain := l, acc := v } := by
  refine ⟨hm, h.nodup.sublist hr.1, fun c hc => ?_, h.made, fun i hi => ?_, h.sub, h.once,
    fun c hc hw => ?_⟩
  · obtain ⟨d, hd, e, -⟩ := hr.2 c hc
    rw [← e]; exact h.fresh d hd
  · rcases h.kept i hi with hl | ⟨c, hc, e1, e2⟩
    · exact Or.inl hl
    · obtain ⟨d, hd, e3, e4⟩ := hk c hc e2
      exact Or.inr ⟨d, hd, e3.trans e1, e4⟩
  · obtain ⟨d, hd, e, er⟩ := hr.2 c hc
    rw [← e]; exact h.wait d hd (er.trans hw)

/-- A new context that does not wait. -/
theorem Inv.push {s : St V} {m : Bool} {h : Nat} {r : Role V} {u : Bool} (hi : Inv s)
    (hr : r ≠ .waiting) (hh : ∀ c ∈ s.chain.head?, c.role ≠ .waiting) :
    Inv (push s m h r u) := by
  refine ⟨?_, ?_, ?_, ?_, ?_, hi.sub, hi.once, ?_⟩
  · intro c hc hw
    simp only [Unwind.push, List.tail_cons] at hc
    cases hch : s.chain with
    | nil => rw [hch] at hc; cases hc
    | cons a b =>
      rw [hch] at hc
      rcases List.mem_cons.1 hc with rfl | hc
      · exact absurd hw (hh c (by rw [hch]; rfl))
      · exact hi.marked c (by rw [hch]; exact hc) hw
  · simp only [Unwind.push, List.map_cons, List.nodup_cons]
    refine ⟨fun hmem => ?_, hi.nodup⟩
    obtain ⟨c, hc, e⟩ := List.mem_map.1 hmem
    exact absurd (hi.fresh c hc) (by rw [e]; exact Nat.lt_irrefl _)
  · intro c hc
    simp only [Unwind.push] at hc ⊢
    rcases List.mem_cons.1 hc with rfl | hc
    · exact Nat.lt_succ_self _
    · exact Nat.lt_succ_of_lt (hi.fresh c hc)
  · intro i h'
    exact Nat.lt_succ_of_lt (hi.made i h')
  · intro i h'
    rcases hi.kept i h' with hl | ⟨c, hc, e⟩
    · exact Or.inl hl
    · exact Or.inr ⟨c, List.mem_cons_of_mem _ hc, e⟩
  · intro c hc hw
    simp only [Unwind.push] at hc
    rcases List.mem_cons.1 hc with rfl | hc
    · exact absurd hw hr
    · exact hi.wait c hc hw

theorem ret_inv {s s' : St V} {v : V} {c : Ctx V} {rest : List (Ctx V)} (hi : Inv s)
    (hc : s.chain = c :: rest) (hp : c.role ≠ .waiting) (h : ret s v = some s') : Inv s' := by
  rw [ret, hc, unwindContext] at h
  cases hr : resumeNext rest with
  | none => rw [hr] at h; cases h
  | some l =>
    rw [hr] at h
    cases h
    have hm : Marked rest := by have := hi.marked; rw [hc] at this; exact this
    obtain ⟨h1, h2, h3⟩ := resumeNext_ok hm hr
    refine hi.move ?_ ?_ h3
    · rw [hc]
      intro x hx hw
      rcases List.mem_cons.1 hx with rfl | hx
      · exact absurd hw hp
      · exact h1 x hx hw
    · rw [hc]; exact (Roles.drop c rest).trans h2

theorem unwind_inv {s : St V} {t : Nat} {v : V} {c : Ctx V} {rest l : List (Ctx V)} (hi : Inv s)
    (hc : s.chain = c :: rest) (hp : c.role ≠ .waiting)
    (ht : ∀ d ∈ s.chain, d.id = t → d.disabled = false) (h : unwindTo t s.chain = some l) :
    Inv { s with chain := l, acc := v } := by
  have hm : Marked rest := by have := hi.marked; rw [hc] at this; exact this
  rw [hc] at h ht
  obtain ⟨h1, h2, h3⟩ := unwindTo_ok hm hp (fun d hd => ht d (List.mem_cons_of_mem _ hd)) h
  rw [← hc] at h1 h2
  exact hi.move h1 h2 h3

theorem parentOf_some {h t : Nat} {l : List (Ctx V)} (hp : parentOf h l = some t) :
    ∃ a d e r, l = a ++ d :: e :: r ∧ d.id = h ∧ e.id = t := by
  induction l with
  | nil => cases hp
  | cons c rest ih =>
    rw [parentOf] at hp
    by_cases hc : c.id = h
    · rw [if_pos hc] at hp
      cases rest with
      | nil => cases hp
      | cons e r => cases hp; exact ⟨[], c, e, r, rfl, hc, rfl⟩
    · rw [if_neg hc] at hp
      obtain ⟨a, d, e, r, h1, h2⟩ := ih hp
      exact ⟨c :: a, d, e, r, by rw [h1]; rfl, h2⟩

theorem parentOf_none {h : Nat} {l : List (Ctx V)} (hp : parentOf h l = none) :
    ∀ d ∈ l.dropLast, d.id ≠ h := by
  induction l with
  | nil => intro d hd; cases hd
  | cons c rest ih =>
    rw [parentOf] at hp
    cases rest with
    | nil => intro d hd; cases hd
    | cons e r =>
      by_cases hc : c.id = h
      · rw [if_pos hc] at hp; cases hp
      · rw [if_neg hc] at hp
        intro d hd
        rw [List.dropLast_cons_cons] at hd
        rcases List.mem_cons.1 hd with rfl | hd
        · exact hc
        · exact ih hp d hd

theorem resumeNext_split {l l' : List (Ctx V)} (h : resumeNext l = some l') :
    ∃ a e r, l = a ++ e :: r ∧ (∀ x ∈ a, x.disabled = true) ∧ l' = e.clear :: r := by
  induction l with
  | nil => cases h
  | cons c rest ih =>
    rw [resumeNext] at h
    by_cases hs : c.skipped = true
    · rw [if_pos hs] at h
      obtain ⟨a, e, r, h1, h2, h3⟩ := ih h
      refine ⟨c :: a, e, r, by rw [h1]; rfl, ?_, h3⟩
      intro x hx
      rcases List.mem_cons.1 hx with rfl | hx
      · rw [Ctx.skipped, Bool.and_eq_true, Bool.and_eq_true] at hs
        exact hs.1.2
      · exact h2 x hx
    · rw [if_neg hs] at h
      cases h
      exact ⟨[], c, rest, rfl, by simp, rfl⟩

theorem nodup_id {l : List (Ctx V)} (h : (l.map Ctx.id).Nodup) {c d : Ctx V} (hc : c ∈ l)
    (hd : d ∈ l) (e : c.id = d.id) : c = d := by
  induction l with
  | nil => cases hc
  | cons x l ih =>
    rw [List.map_cons, List.nodup_cons] at h
    rcases List.mem_cons.1 hc with h1 | h1 <;> rcases List.mem_cons.1 hd with h2 | h2
    · rw [h1, h2]
    · rw [h1] at e
      exact absurd (List.mem_map.2 ⟨d, h2, e.symm⟩) h.1
    · rw [h2] at e
      exact absurd (List.mem_map.2 ⟨c, h1, e⟩) h.1
    · exact ih h.2 h1 h2

theorem step_inv {s s' : St V} {op : Op V} (hi : Inv s) (hcalm : Calm s op)
    (h : step s op = some s') : Inv s' := by
  rw [step] at h
  cases hch : s.chain with
  | nil => rw [hch] at h; cases h
  | cons c rest =>
    rw [hch] at h
    simp only at h
    have hauto : auto s = some s' → Inv s' := by
      intro h
      rw [auto, hch] at h
      simp only at h
      cases hr : c.role with
      | plain => rw [hr] at h; cases h
      | onDo =>
        rw [hr] at h
        exact ret_inv hi hch (by rw [hr]; intro h; cases h) h
      | cleaning r =>
        rw [hr] at h
        exact ret_inv hi hch (by rw [hr]; intro h; cases h) h
      | waiting =>
        rw [hr] at h
        simp only [Option.some.injEq] at h
        rw [← h]
        have hcm : c ∈ s.chain := by rw [hch]; exact List.mem_cons_self ..
        have hnd := hi.nodup
        rw [hch, List.map_cons, List.nodup_cons] at hnd
        apply Inv.push
        · refine ⟨?_, ?_, ?_, hi.made, ?_, ?_, ?_, ?_⟩
          · have := hi.marked; rw [hch] at this; exact this
          · rw [List.map_cons, List.nodup_cons]; exact hnd
          · intro d hd
            rcases List.mem_cons.1 hd with rfl | hd
            · exact hi.fresh c hcm
            · exact hi.fresh d (by rw [hch]; exact List.mem_cons_of_mem _ hd)
          · intro i h'
            rcases hi.kept i h' with hl | ⟨d, hd, e1, e2⟩
            · exact Or.inl (List.mem_append_left _ hl)
            · rw [hch] at hd
              rcases List.mem_cons.1 hd with rfl | hd
              · exact Or.inl (List.mem_append_right _ (by rw [e1]; exact List.mem_singleton.2 rfl))
              · exact Or.inr ⟨d, List.mem_cons_of_mem _ hd, e1, e2⟩
          · intro i h'
            rcases List.mem_append.1 h' with h' | h'
            · exact hi.sub i h'
            · rw [List.mem_singleton.1 h']
              exact (hi.wait c hcm hr).1
          · rw [List.nodup_append]
            refine ⟨hi.once, List.nodup_cons.2 ⟨List.not_mem_nil, List.nodup_nil⟩, ?_⟩
            intro a ha b hb
            rw [List.mem_singleton.1 hb]
            intro e
            exact (hi.wait c hcm hr).2 (e ▸ ha)
          · intro d hd hw
            rcases List.mem_cons.1 hd with rfl | hd
            · cases hw
            · have hdm : d ∈ s.chain := by rw [hch]; exact List.mem_cons_of_mem _ hd
              refine ⟨(hi.wait d hdm hw).1, fun hmem => ?_⟩
              rcases List.mem_append.1 hmem with h' | h'
              · exact (hi.wait d hdm hw).2 h'
              · exact hnd.1 (List.mem_map.2 ⟨d, hd, List.mem_singleton.1 h'⟩)
        · intro h; cases h
        · intro d hd hw
          simp only [List.head?_cons, Option.mem_def, Option.some.injEq] at hd
          rw [← hd] at hw
          cases hw
    cases op with
    | auto => exact hauto (by cases hr : c.role <;> simp only at h <;> exact h)
    | call =>
      cases hr : c.role <;> simp only [hr] at h <;> try cases h
      exact hi.push (by intro h; cases h) (by
        intro d hd; rw [hch] at hd; cases hd; rw [hr]; intro h; cases h)
    | block b =>
      cases hr : c.role <;> simp only [hr] at h <;> try cases h
      exact hi.push (by intro h; cases h) (by
        intro d hd; rw [hch] at hd; cases hd; rw [hr]; intro h; cases h)
    | onDo b =>
      cases hr : c.role <;> simp only [hr] at h <;> try cases h
      refine (hi.push (by intro h; cases h) (by
        intro d hd; rw [hch] at hd; cases hd; rw [hr]; intro h; cases h)).push
        (by intro h; cases h) (by
        intro d hd; cases hd; intro h; cases h)
    | ensure b k =>
      cases hr : c.role <;> simp only [hr] at h <;> try cases h
      refine ⟨?_, ?_, ?_, ?_, ?_, ?_, hi.once, ?_⟩
      · intro d hd hw
        simp only [push, List.tail_cons] at hd
        rcases List.mem_cons.1 hd with rfl | hd
        · exact ⟨rfl, rfl⟩
        · rw [hch] at hd
          rcases List.mem_cons.1 hd with rfl | hd
          · rw [hr] at hw; cases hw
          · exact hi.marked d (by rw [hch]; exact hd) hw
      · simp only [push, List.map_cons, List.nodup_cons, List.mem_cons]
        have hf : ∀ n, s.next ≤ n → n ∉ s.chain.map Ctx.id := by
          intro n hn hmem
          obtain ⟨d, hd, e⟩ := List.mem_map.1 hmem
          have := hi.fresh d hd
          omega
        refine ⟨?_, hf _ (Nat.le_refl _), hi.nodup⟩
        rintro (h | h)
        · omega
        · exact hf _ (by omega) h
      · intro d hd
        simp only [push] at hd ⊢
        rcases List.mem_cons.1 hd with rfl | hd
        · simp
        · rcases List.mem_cons.1 hd with rfl | hd
          · simp only; omega
          · have := hi.fresh d hd
            omega
      · intro i h'
        simp only [push] at h' ⊢
        rcases List.mem_append.1 h' with h' | h'
        · have := hi.made i h'; omega
        · rw [List.mem_singleton.1 h']; omega
      · intro i h'
        simp only [push] at h' ⊢
        rcases List.mem_append.1 h' with h' | h'
        · rcases hi.kept i h' with hl | ⟨d, hd, e⟩
          · exact Or.inl hl
          · exact Or.inr ⟨d, List.mem_cons_of_mem _ (List.mem_cons_of_mem _ hd), e⟩
        · right
          exact ⟨_, List.mem_cons_of_mem _ (List.mem_cons_self ..), (List.mem_singleton.1 h').symm,
            rfl⟩
      · intro i h'
        exact List.mem_append_left _ (hi.sub i h')
      · intro d hd hw
        simp only [push] at hd ⊢
        rcases List.mem_cons.1 hd with rfl | hd
        · cases hw
        · rcases List.mem_cons.1 hd with rfl | hd
          · refine ⟨List.mem_append_right _ (List.mem_singleton.2 rfl), fun hl => ?_⟩
            exact absurd (hi.made _ (hi.sub _ hl)) (Nat.lt_irrefl _)
          · exact ⟨List.mem_append_left _ (hi.wait d hd hw).1, (hi.wait d hd hw).2⟩
    | ret v =>
      cases hr : c.role <;> simp only [hr] at h <;> try cases h
      exact ret_inv hi hch (by rw [hr]; intro h; cases h) h
    | «continue» t v =>
      cases hr : c.role <;> simp only [hr] at h <;> try cases h
      cases hu : unwindTo t s.chain with
      | none => rw [← hch, hu] at h; cases h
      | some l =>
        rw [← hch, hu] at h
        cases h
        exact unwind_inv hi hch (by rw [hr]; intro h; cases h) hcalm hu
    | exit v =>
      cases hr : c.role <;> simp only [hr] at h <;> try cases h
      by_cases hme : c.meth = true
      · rw [if_pos hme] at h; cases h
      · rw [if_neg hme, exit] at h
        have hcalm := hcalm c rest hch
        cases hp : parentOf c.home s.chain with
        | none =>
          rw [hp] at h
          simp only at h
          cases hu : unwindContext s.chain with
          | none => rw [hu] at h; cases h
          | some l =>
            rw [hu] at h
            cases h
            have hs : ret s s.acc = some { s with chain := l } := by
              rw [ret, hu]
            have := ret_inv hi hch (by rw [hr]; intro h; cases h) hs
            refine this.push (by intro h; cases h) ?_
            intro d hd hw
            rw [hch, unwindContext] at hu
            obtain ⟨a, e, r, h1, h2, h3⟩ := resumeNext_split hu
            simp only [h3, List.head?_cons, Option.mem_def, Option.some.injEq] at hd
            exact hcalm.2 (parentOf_none hp) a e r h1 h2 (by rw [← hd] at hw; exact hw)
        | some t =>
          rw [hp] at h
          simp only at h
          cases hu : unwindTo t s.chain with
          | none => rw [hu] at h; cases h
          | some l =>
            rw [hu] at h
            cases h
            refine unwind_inv hi hch (by rw [hr]; intro h; cases h) ?_ hu
            obtain ⟨a, d, e, r, h1, h2, h3⟩ := parentOf_some hp
            intro x hx hxt
            rw [nodup_id hi.nodup hx (d := e) (by rw [h1]; simp) (hxt.trans h3.symm)]
            exact hcalm.1 a d e r h1 h2

theorem run_inv {s s' : St V} {ops : List (Op V)} (hi : Inv s) (hcalm : CalmRun s ops)
    (h : run s ops = some s') : Inv s' := by
  induction ops generalizing s with
  | nil => cases h; exact hi
  | cons op ops ih =>
    rw [run] at h
    cases hs : step s op with
    | none => rw [hs] at h; cases h
    | some s1 =>
      rw [hs] at h
      exact ih (step_inv hi hcalm.1 hs) (hcalm.2 s1 hs) h

/-- Full statement: without `CalmRun`; see `ensure_lost_in_cleanup` and
`ensure_lost_by_dead_return`.

No argument of `ensure:` is evaluated twice, and none is forgotten: whatever methods and
blocks are run and however they are left, when an `ensure:` has been left (its context is
not among those of the process any more), its argument has been evaluated. -/
theorem ensure_evaluated_partial (v : V) (ops : List (Op V)) (s : St V)
    (hcalm : CalmRun (start v) ops) (h : run (start v) ops = some s) :
    s.log.Nodup ∧ (∀ i ∈ s.log, i ∈ s.made) ∧
    ∀ i ∈ s.made, i ∈ s.log ∨ ∃ c ∈ s.chain, c.id = i ∧ c.role = .waiting := by
  have hi := run_inv (start_inv v) hcalm h
  exact ⟨hi.once, hi.sub, hi.kept⟩

/-- In particular when the method that was started has been left, they have all been
evaluated. -/
theorem ensure_all_evaluated_partial (v : V) (ops : List (Op V)) (s : St V)
    (hcalm : CalmRun (start v) ops) (h : run (start v) ops = some s) (c : Ctx V)
    (hc : s.chain = [c]) (hp : c.role = .plain) : ∀ i, i ∈ s.made ↔ i ∈ s.log := by
  obtain ⟨-, h2, h3⟩ := ensure_evaluated_partial v ops s hcalm h
  refine fun i => ⟨fun hi => ?_, h2 i⟩
  rcases h3 i hi with h | ⟨d, hd, -, hw⟩
  · exact h
  · rw [hc, List.mem_singleton] at hd
    rw [hd, hp] at hw
    cases hw

/-- `[[^5] ensure: [nil]] ensure: [nil]`. -/
def nested : List (Op Nat) :=
  [.ensure 1 1, .ensure 1 1, .exit 5, .auto, .ret 0, .auto, .auto, .ret 0, .auto]

example : ∃ s, run (start 0) nested = some s ∧ s.log = [4, 2] ∧ s.acc = 5 ∧
    s.chain = [⟨0, true, false, false, 0, .plain⟩] := ⟨_, rfl, rfl, rfl, rfl⟩

theorem calmRun_cons {s s' : St V} {op : Op V} {ops : List (Op V)} (h : Calm s op)
    (hs : step s op = some s') (hr : CalmRun s' ops) : CalmRun s (op :: ops) := by
  refine ⟨h, fun s'' h' => ?_⟩
  rw [hs] at h'
  cases h'
  exact hr

example : CalmRun (start 0) nested := by
  refine calmRun_cons trivial rfl (calmRun_cons trivial rfl (calmRun_cons ?_ rfl
    (calmRun_cons trivial rfl (calmRun_cons trivial rfl (calmRun_cons trivial rfl
    (calmRun_cons trivial rfl (calmRun_cons trivial rfl (calmRun_cons trivial rfl trivial))))))))
  intro c rest h
  refine ⟨fun a d e r h1 _ => ?_, fun h1 => ?_⟩
  · have : e ∈ ([⟨5, false, false, false, 1, .plain⟩, ⟨4, true, false, true, 1, .waiting⟩,
        ⟨3, false, false, false, 1, .plain⟩, ⟨2, true, false, true, 1, .waiting⟩,
        ⟨1, true, false, false, 1, .plain⟩, ⟨0, true, false, false, 0, .plain⟩] :
        List (Ctx Nat)) := by
      have : e ∈ a ++ d :: e :: r := by simp
      rw [← h1] at this
      exact this
    simp only [List.mem_cons, List.not_mem_nil, or_false] at this
    rcases this with rfl | rfl | rfl | rfl | rfl | rfl <;> rfl
  · cases h
    exact absurd rfl (h1 ⟨1, true, false, false, 1, .plain⟩
      (by simp [push, start]))

/-! ### What is lost -/

/-- A block is evaluated in a cleanup, and exits to a method that the first exit is leaving:
`R` is `[self m3] ensure: [...]`, `m3` calls `m2: [^1]`, which calls `m1:`, which is
`[aBlock value] ensure: [[^5] ensure: []]`. -/
def lost : List (Op Nat) :=
  [.ensure 1 1, .call, .call, .call, .ensure 6 6, .block 1, .exit 1, .auto, .ensure 6 6, .exit 5,
   .auto, .ret 0, .auto]

/-- The argument of the `ensure:` made first is never evaluated. -/
theorem ensure_lost_in_cleanup : ∃ s, run (start 0) lost = some s ∧ 2 ∈ s.made ∧ 2 ∉ s.log ∧
    s.chain = [⟨0, true, false, false, 0, .plain⟩] :=
  ⟨_, rfl, by decide, by decide, rfl⟩

/-- A block whose method has returned is the receiver of `ensure:`, in
`[aBlock ensure: [...]] on: Error do: [:e | e return: 0]`. -/
def dead : List (Op Nat) :=
  [.call, .ret 0, .onDo 1, .ensure 2 1, .exit 7, .continue 1 0, .auto]

/-- The argument of `ensure:` is never evaluated. -/
theorem ensure_lost_by_dead_return : ∃ s, run (start 0) dead = some s ∧ s.made = [5] ∧
    s.log = [] ∧ s.chain = (start 0).chain := ⟨_, rfl, rfl, rfl, rfl⟩

/-! ### Where an exit ends -/

/-- The code of `ensure:` and `on:do:` an exit comes through: `ensure:` evaluates its argument
(`body`, given the context of the `ensure:`) and returns, `on:do:` returns. -/
def passing (body : Nat → List (Op V)) : List (Ctx V) → List (Op V)
  | [] => []
  | c :: l =>
    match c.role with
    | .waiting => .auto :: (body c.id ++ .auto :: passing body l)
    | .onDo => .auto :: passing body l
    | _ => passing body l

/-- A block that returns to its caller after whatever it does; `P` tells which `ensure:`s have
been evaluated in it. -/
def Answers (P : List Nat → Prop) (body : List (Op V)) : Prop :=
  ∀ (s : St V) (b e : Ctx V) (rest : List (Ctx V)), s.chain = b :: e :: rest →
    b.role = .plain → b.meth = false → e.disabled = false → e.unwind = false →
    ∃ s' x, run s body = some s' ∧ s'.chain = e :: rest ∧ s'.log = s.log ++ x ∧ P x

/-- `i` followed by what has been evaluated in the argument of `i`, and so on. -/
def weave : List Nat → List (List Nat) → List Nat
  | i :: is, x :: xs => i :: (x ++ weave is xs)
  | _, _ => []

theorem run_append {s : St V} {a b : List (Op V)} :
    run s (a ++ b) = (run s a).bind (run · b) := by
  induction a generalizing s with
  | nil => rfl
  | cons op a ih =>
    rw [List.cons_append, run, run]
    cases step s op with
    | none => rfl
    | some s' => exact ih

theorem answers_ret (w : V) : Answers (· = []) [.ret w] := by
  intro s b e rest hc hb _ hd hu
  refine ⟨{ s with chain := e :: rest, acc := w }, [], ?_, rfl, by simp, rfl⟩
  simp [run, step, hc, hb, ret, unwindContext, resumeNext, Ctx.skipped, Ctx.clear, hd, hu]
  cases e
  simp_all

/-- A block that has an `ensure:` in it. -/
theorem answers_ensure (w w' w'' : V) : Answers (fun x => x.length = 1)
    [.ensure 0 0, .ret w, .auto, .ret w', .auto, .ret w''] := by
  intro s b e rest hc hb hm hd hu
  refine ⟨{ s with
    chain := e :: rest
    acc := w''
    next := s.next + 3
    made := s.made ++ [s.next]
    log := s.log ++ [s.next] }, [s.next], ?_, rfl, rfl, rfl⟩
  simp [run, step, hc, hb, hm, push, ret, auto, unwindContext, resumeNext, Ctx.skipped, Ctx.clear,
    hd, hu]
  cases e
  simp_all

/-- The `ensure:` contexts that wait. -/
def ensures : List (Ctx V) → List Nat
  | [] => []
  | c :: l =>
    match c.role with
    | .waiting => c.id :: ensures l
    | _ => ensures l

/-- Contexts as they are when no exit is under way: `ensure:` and `on:do:` contexts are marked
and no others. -/
def Usual (l : List (Ctx V)) : Prop :=
  ∀ c ∈ l, c.disabled = false ∧
    (c.unwind = true ↔ c.role = .waiting ∨ c.role = .onDo) ∧ (c.unwind = true → c.meth = true)

/-- What an exit that has found something to stop at leaves of the contexts it will leave. -/
def left (l : List (Ctx V)) : List (Ctx V) :=
  (l.filter (·.meth)).map ({ · with disabled := true })

theorem disable_left {t : Ctx V} {mid below : List (Ctx V)} (ht : t.skipped = false)
    (hne : ∀ c ∈ mid, c.id ≠ t.id) :
    disable t.id (mid ++ t :: below) = some (left mid ++ t :: below) := by
  induction mid with
  | nil => simp [disable, skipDisabled, ht, left]
  | cons c mid ih =>
    rw [List.cons_append, disable, if_neg (hne c (List.mem_cons_self ..)),
      ih (fun x hx => hne x (List.mem_cons_of_mem _ hx))]
    cases hm : c.meth <;> simp [left, hm]

theorem unwindTo_left {t c : Ctx V} {mid below : List (Ctx V)} (ht : t.skipped = false)
    (hne : ∀ d ∈ c :: mid, d.id ≠ t.id) :
    unwindTo t.id (c :: (mid ++ t :: below)) = resumeNext (left mid ++ t :: below) := by
  induction mid generalizing c with
  | nil =>
    rw [unwindTo.eq_def]
    simp only [if_neg (hne c (List.mem_cons_self ..)), List.nil_append, left, List.filter_nil, List.map_nil]
    cases t.unwind
    · simp [unwindTo.eq_def, resumeNext, ht]
    · simp [disable, skipDisabled, resumeNext, ht]
  | cons x mid ih =>
    have hd := disable_left (below := below) ht
      (fun d hd => hne d (List.mem_cons_of_mem c hd))
    rw [List.cons_append] at hd
    rw [unwindTo.eq_def]
    simp only [if_neg (hne c (List.mem_cons_self ..)), List.cons_append]
    cases hu : x.unwind
    · simp only [Bool.false_eq_true, if_false]
      rw [ih (fun d hd => hne d (List.mem_cons_of_mem c hd))]
      cases hm : x.meth
      · simp [left, hm]
      · simp only [left, List.filter_cons, hm, if_true, List.map_cons, List.cons_append]
        rw [resumeNext, if_pos]
        rw [Ctx.skipped]
        simp only [hu]
        rfl
    · simp only [if_true]
      rw [hd]

/-- The rest of an exit. -/
theorem run_passing {t : Ctx V} {below : List (Ctx V)} {v : V} {P : List Nat → Prop}
    {body : Nat → List (Op V)} (hb : ∀ i, Answers P (body i)) (ht : t.skipped = false)
    {mid : List (Ctx V)} {s : St V} (hu : Usual mid)
    (hs : resumeNext (left mid ++ t :: below) = some s.chain) (hv : s.acc = v) :
    ∃ s' xs, run s (passing body mid) = some s' ∧ s'.chain = t.clear :: below ∧ s'.acc = v ∧
      xs.length = (ensures mid).length ∧ (∀ x ∈ xs, P x) ∧
      s'.log = s.log ++ weave (ensures mid) xs := by
  induction mid generalizing s with
  | nil =>
    simp only [left, List.filter_nil, List.map_nil, List.nil_append, resumeNext, ht,
      Bool.false_eq_true, if_false, Option.some.injEq] at hs
    exact ⟨s, [], rfl, hs.symm, hv, rfl, by simp, by simp [ensures, weave]⟩
  | cons x mid ih =>
    obtain ⟨-, hx, hxm⟩ := hu x (List.mem_cons_self ..)
    have hmid : Usual mid := fun c hc => hu c (List.mem_cons_of_mem _ hc)
    cases hun : x.unwind
    · have hsk : resumeNext (left (x :: mid) ++ t :: below) =
          resumeNext (left mid ++ t :: below) := by
        cases hm : x.meth
        · simp [left, hm]
        · simp only [left, List.filter_cons, hm, if_true, List.map_cons, List.cons_append]
          rw [resumeNext, if_pos]
          rw [Ctx.skipped]
          simp only [hun]
          rfl
      rw [hsk] at hs
      obtain ⟨s', xs, h1, h2⟩ := ih hmid hs hv
      refine ⟨s', xs, ?_, ?_⟩
      · rw [passing]
        cases hr : x.role with
        | waiting => rw [hr, hun] at hx; simp at hx
        | onDo => rw [hr, hun] at hx; simp at hx
        | plain => exact h1
        | cleaning _ => exact h1
      · rw [ensures]
        cases hr : x.role with
        | waiting => rw [hr, hun] at hx; simp at hx
        | onDo => exact h2
        | plain => exact h2
        | cleaning _ => exact h2
    · have hm := hxm hun
      have hch : s.chain = { x with disabled := false, unwind := false } ::
          (left mid ++ t :: below) := by
        rw [left, List.filter_cons, if_pos hm, List.map_cons, List.cons_append, resumeNext,
          if_neg (by rw [Ctx.skipped]; simp [hun])] at hs
        exact (Option.some.inj hs).symm
      have hl : ∃ l, resumeNext (left mid ++ t :: below) = some l := by
        clear ih hs hch hu
        induction mid with
        | nil => exact ⟨_, by simp [left, resumeNext, ht]; rfl⟩
        | cons y mid ih' =>
          rw [left, List.filter_cons]
          cases hy : y.meth
          · exact ih' (fun c hc => hmid c (List.mem_cons_of_mem _ hc))
          · rw [if_pos rfl, List.map_cons, List.cons_append, resumeNext]
            split
            · exact ih' (fun c hc => hmid c (List.mem_cons_of_mem _ hc))
            · exact ⟨_, rfl⟩
      obtain ⟨l, hl⟩ := hl
      rcases hx.1 hun with hr | hr
      · -- ensure:
        have h1 : step s .auto = some (push { s with
            chain := { x with disabled := false, unwind := false, role := .cleaning v } ::
              (left mid ++ t :: below)
            log := s.log ++ [x.id] } false x.home .plain false) := by
          rw [step, hch]
          simp only [auto, hch, hr, hv]
        obtain ⟨s2, x2, h2, h3, h4, h5⟩ := hb x.id _ _ _ rfl rfl rfl rfl rfl
          (s := push { s with
            chain := { x with disabled := false, unwind := false, role := .cleaning v } ::
              (left mid ++ t :: below)
            log := s.log ++ [x.id] } false x.home .plain false)
        have h6 : step s2 .auto = some { s2 with chain := l, acc := v } := by
          rw [step, h3]
          simp only [auto, h3, ret, unwindContext, hl]
        obtain ⟨s', xs, g1, g2, g3, g4, g5, g6⟩ := ih (s := { s2 with chain := l, acc := v })
          hmid hl rfl
        refine ⟨s', x2 :: xs, ?_, g2, g3, ?_, ?_, ?_⟩
        · rw [passing, hr]
          simp only [run, h1, run_append, h2, Option.bind_some, h6]
          exact g1
        · rw [ensures, hr]; simp only [List.length_cons, g4]
        · intro y hy
          rcases List.mem_cons.1 hy with rfl | hy
          · exact h5
          · exact g5 y hy
        · rw [g6, ensures, hr]
          simp only [h4, push, weave]
          simp
      · have h1 : step s .auto = some { s with chain := l, acc := v } := by
          rw [step, hch]
          simp [auto, hch, hr, ret, unwindContext, hl, hv]
        obtain ⟨s', xs, g1, g2⟩ := ih (s := { s with chain := l, acc := v }) hmid hl rfl
        refine ⟨s', xs, ?_, ?_⟩
        · rw [passing, hr]
          simp only [run, h1]
          exact g1
        · rw [ensures, hr]
          exact g2

/-- `aContext continue: v`, and so `anException return: v`: all contexts above `aContext` are
left, those of `ensure:` after evaluating their arguments, the innermost first, and
`aContext` receives `v`. -/
theorem continue_delivers (s : St V) (c t : Ctx V) (mid below : List (Ctx V)) (v : V)
    (P : List Nat → Prop) (body : Nat → List (Op V)) (hb : ∀ i, Answers P (body i))
    (hc : s.chain = c :: (mid ++ t :: below)) (hp : c.role = .plain) (hu : Usual mid)
    (ht : t.disabled = false) (hne : ∀ d ∈ c :: mid, d.id ≠ t.id) :
    ∃ s' xs, run s (.continue t.id v :: passing body mid) = some s' ∧
      s'.chain = { t with unwind := false } :: below ∧ s'.acc = v ∧
      xs.length = (ensures mid).length ∧ (∀ x ∈ xs, P x) ∧
      s'.log = s.log ++ weave (ensures mid) xs := by
  have hts : t.skipped = false := by rw [Ctx.skipped, ht]; simp
  have hl := unwindTo_left (below := below) hts hne
  obtain ⟨l, hl'⟩ : ∃ l, resumeNext (left mid ++ t :: below) = some l := by
    generalize left mid = m
    induction m with
    | nil => exact ⟨_, by simp [resumeNext, hts]; rfl⟩
    | cons y m ih =>
      rw [List.cons_append, resumeNext]
      split
      · exact ih
      · exact ⟨_, rfl⟩
  rw [hl'] at hl
  have h1 : step s (.continue t.id v) = some { s with chain := l, acc := v } := by
    rw [step, hc]
    simp only [hp, hl]
  obtain ⟨s', xs, g1, g2, g3⟩ := run_passing (s := { s with chain := l, acc := v }) hb hts hu
    hl' rfl
  refine ⟨s', xs, ?_, ?_, g3⟩
  · rw [run, h1]; exact g1
  · rw [g2, Ctx.clear, ← ht]

/-- `^v` in a block, however deep the calls to where it is evaluated: the caller of the method
that the block belongs to receives `v`, after the arguments of all `ensure:`s in between have
been evaluated, the innermost first. -/
theorem exit_delivers (s : St V) (c h t : Ctx V) (mid below : List (Ctx V)) (v : V)
    (P : List Nat → Prop) (body : Nat → List (Op V)) (hb' : ∀ i, Answers P (body i))
    (hc : s.chain = c :: (mid ++ h :: t :: below)) (hp : c.role = .plain) (hb : c.meth = false)
    (hh : h.id = c.home) (hu : Usual (mid ++ [h])) (ht : t.disabled = false)
    (hne : (s.chain.map Ctx.id).Nodup) :
    ∃ s' xs, run s (.exit v :: passing body (mid ++ [h])) = some s' ∧
      s'.chain = { t with unwind := false } :: below ∧ s'.acc = v ∧
      xs.length = (ensures (mid ++ [h])).length ∧ (∀ x ∈ xs, P x) ∧
      s'.log = s.log ++ weave (ensures (mid ++ [h])) xs := by
  have hc' : s.chain = c :: ((mid ++ [h]) ++ t :: below) := by rw [hc]; simp
  have hne' : ∀ d ∈ c :: (mid ++ [h]), d.id ≠ t.id := by
    rw [hc', ← List.cons_append, List.map_append, List.nodup_append] at hne
    intro d hd
    exact hne.2.2 d.id (List.mem_map.2 ⟨d, hd, rfl⟩) t.id (by simp)
  obtain ⟨s', xs, h1, h2⟩ := continue_delivers s c t (mid ++ [h]) below v P body hb' hc' hp hu ht
    hne'
  refine ⟨s', xs, ?_, h2⟩
  have hpar : parentOf c.home s.chain = some t.id := by
    rw [hc] at hne ⊢
    rw [← hh]
    have : ∀ m : List (Ctx V), (∀ d ∈ m, d.id ≠ h.id) →
        parentOf h.id (m ++ h :: t :: below) = some t.id := by
      intro m
      induction m with
      | nil => intro _; simp [parentOf]
      | cons x m ih =>
        intro hm
        rw [List.cons_append, parentOf, if_neg (hm x (List.mem_cons_self ..))]
        exact ih (fun d hd => hm d (List.mem_cons_of_mem _ hd))
    refine this (c :: mid) ?_
    rw [← List.cons_append, List.map_append, List.nodup_append] at hne
    intro d hd
    exact hne.2.2 d.id (List.mem_map.2 ⟨d, hd, rfl⟩) h.id (by simp)
  have he : step s (.exit v) = step s (.continue t.id v) := by
    rw [step, step, hc']
    simp only [hp, hb, Bool.false_eq_true, if_false]
    rw [exit, hpar, hc']
  rw [run, he]
  rw [run] at h1
  exact h1

/-- `^v` in a block whose method has returned already: the caller of the block, unless it is disabled, stays where it
is and a method (`badReturnError`) runs on top of it; when that answers `w`, the caller goes on with `w`, and nothing
was evaluated meanwhile. -/
theorem dead_exit_reported (s : St V) (c t : Ctx V) (below : List (Ctx V)) (v w : V)
    (hc : s.chain = c :: t :: below) (hp : c.role = .plain) (hb : c.meth = false)
    (hh : ∀ d ∈ s.chain, d.id ≠ c.home) (ht : t.disabled = false) :
    ∃ s1 s2, step s (.exit v) = some s1 ∧
      s1.chain = ⟨s.next, true, false, false, s.next, .plain⟩ :: { t with unwind := false } :: below ∧
      s1.log = s.log ∧ step s1 (.ret w) = some s2 ∧ s2.chain = { t with unwind := false } :: below ∧
      s2.acc = w ∧ s2.log = s.log := by
  have hpar : ∀ l : List (Ctx V), (∀ d ∈ l, d.id ≠ c.home) → parentOf c.home l = none := by
    intro l
    induction l with
    | nil => intro _; rfl
    | cons x l ih =>
      intro hx
      rw [parentOf, if_neg (hx x List.mem_cons_self)]
      exact ih (fun d hd => hx d (List.mem_cons_of_mem _ hd))
  have hts : t.skipped = false := by simp [Ctx.skipped, ht]
  have hcl : t.clear = { t with unwind := false } := by rw [Ctx.clear, ← ht]
  have h1 : step s (.exit v) = some (push { s with chain := { t with unwind := false } :: below } true s.next .plain
      false) := by
    rw [step, hc]
    simp only [hp, hb, Bool.false_eq_true, if_false]
    rw [exit, hpar _ hh, hc]
    simp only [unwindContext, resumeNext, hts, Bool.false_eq_true, if_false, hcl]
  refine ⟨_, { s with chain := { t with unwind := false } :: below, acc := w, next := s.next + 1 }, h1, rfl, rfl, ?_,
    rfl, rfl, rfl⟩
  simp [step, push, ret, unwindContext, resumeNext, Ctx.skipped, ht, Ctx.clear]

example : ∃ s1 : St Nat, step ⟨[⟨3, false, false, false, 9, .plain⟩, ⟨2, true, false, false, 2, .plain⟩], 10, 0, [], []⟩
    (.exit 7) = some s1 ∧ s1.chain.length = 2 := ⟨_, rfl, rfl⟩

theorem weave_nil {is : List Nat} {xs : List (List Nat)} (h : xs.length = is.length)
    (hx : ∀ x ∈ xs, x = []) : weave is xs = is := by
  induction is generalizing xs with
  | nil => simp [weave]
  | cons i is ih =>
    cases xs with
    | nil => simp at h
    | cons x xs =>
      rw [weave, hx x (List.mem_cons_self ..), List.nil_append,
        ih (by simpa using h) (fun y hy => hx y (List.mem_cons_of_mem _ hy))]

/-- With arguments of `ensure:` that just answer something. -/
theorem exit_delivers_plain (s : St V) (c h t : Ctx V) (mid below : List (Ctx V)) (v w : V)
    (hc : s.chain = c :: (mid ++ h :: t :: below)) (hp : c.role = .plain) (hb : c.meth = false)
    (hh : h.id = c.home) (hu : Usual (mid ++ [h])) (ht : t.disabled = false)
    (hne : (s.chain.map Ctx.id).Nodup) :
    ∃ s', run s (.exit v :: passing (fun _ => [.ret w]) (mid ++ [h])) = some s' ∧
      s'.chain = { t with unwind := false } :: below ∧ s'.acc = v ∧
      s'.log = s.log ++ ensures (mid ++ [h]) := by
  obtain ⟨s', xs, h1, h2, h3, h4, h5, h6⟩ := exit_delivers s c h t mid below v (· = [])
    (fun _ => [.ret w]) (fun _ => answers_ret w) hc hp hb hh hu ht hne
  exact ⟨s', h1, h2, h3, by rw [h6, weave_nil h4 h5]⟩

example : Usual ([⟨8, false, false, false, 6, .plain⟩, ⟨7, true, false, true, 6, .waiting⟩,
    ⟨6, true, false, false, 6, .plain⟩, ⟨5, true, false, true, 1, .onDo⟩,
    ⟨4, true, false, false, 1, .cleaning 3⟩] : List (Ctx Nat)) := by
  intro c hc
  simp only [List.mem_cons, List.not_mem_nil, or_false] at hc
  rcases hc with rfl | rfl | rfl | rfl | rfl <;> simp

/-- A receiver of `ensure:` that ends by itself: the argument is evaluated once, and the
receiver's value is answered, not the argument's. -/
theorem ensure_answers (s : St V) (c : Ctx V) (rest : List (Ctx V)) (h k : Nat) (v w : V)
    (hc : s.chain = c :: rest) (hp : c.role = .plain) (hd : c.disabled = false)
    (hu : c.unwind = false) :
    ∃ s', run s [.ensure h k, .ret v, .auto, .ret w, .auto] = some s' ∧ s'.chain = s.chain ∧
      s'.acc = v ∧ s'.log = s.log ++ [s.next] ∧ s'.made = s.made ++ [s.next] := by
  refine ⟨{ s with
      acc := v
      next := s.next + 3
      log := s.log ++ [s.next]
      made := s.made ++ [s.next] }, ?_, rfl, rfl, rfl, rfl⟩
  simp [run, step, hc, hp, push, ret, unwindContext, resumeNext, Ctx.skipped, Ctx.clear, auto,
    hd, hu]
  cases c
  simp_all

/-! ### Trying again -/

/-- What `Exception>>retry` does (kernel/ExcHandling.st:445-454, 493-501), given the home of the
receiver of `on:do:`, the caller of `on:do:` and the value answered: the block is evaluated
first, then the contexts are left. -/
def retry (home target : Nat) (v : V) : List (Op V) :=
  [.call, .block home, .ret v, .call, .continue target v]

/-- `[[Error signal] ensure: [...]] on: Error do: [:e | e retry]`, up to the handler. -/
def attempt : List (Op Nat) := [.onDo 1, .ensure 1 1, .call, .block 1]

/-- While the block is evaluated again the `ensure:` of the first attempt has not been left,
so its argument has not been evaluated; it is after the second attempt has ended. -/
theorem retry_cleans_up_late :
    (∃ s, run (start 0) (attempt ++ (retry 1 1 9).take 2) = some s ∧ s.made = [4] ∧ s.log = [])
    ∧ (∃ s, run (start 0) (attempt ++ retry 1 1 9 ++ [.auto, .ret 0, .auto, .auto]) = some s ∧
      s.log = [4] ∧ s.acc = 9 ∧ s.chain = (start 0).chain) :=
  ⟨⟨_, rfl, rfl, rfl⟩, ⟨_, rfl, rfl, rfl, rfl⟩⟩

end Verif.Unwind
