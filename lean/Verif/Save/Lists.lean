import Verif.Save.Theorems

/-! # Processes that wait on semaphores -/

namespace Verif.Save

/-! ## Specification -/

/-- The object at address `a` is `o`. -/
def At (h : Heap) (base a : Nat) (o : Obj) : Prop := ∃ k, a = base + 16 * k ∧ h[k]? = some (some o)

/-- Following the links from `a` on gives the processes at the addresses of the list, and then
`nil`. -/
inductive Chain (h : Heap) (base nil : Nat) : Nat → List Nat → Prop where
  | nil : Chain h base nil nil []
  | cons : a ≠ nil → At h base a p → p.words[2]? = some n → Chain h base nil n ps → Chain h base nil a (a :: ps)

/-- The processes with whether they are CallinProcesses; they are of the two
classes exactly and are not contexts. -/
def Marked (k : Known) (h : Heap) (base : Nat) (ps : List (Nat × Bool)) : Prop :=
  ∀ x ∈ ps, ∃ p, At h base x.1 p ∧ p.words[1]? = some (if x.2 then k.callin else k.process) ∧ p.flags.testBit 6 = false

/-- Those that are kept. -/
def kept (ps : List (Nat × Bool)) : List Nat := (ps.filter fun x => !x.2).map Prod.fst

/-! ## Proofs -/

theorem objAt_At {h base a o} (ha : At h base a o) : objAt h base a = some o := by
  obtain ⟨k, rfl, hk⟩ := ha
  rw [objAt_index, hk]; rfl

theorem not_context {fl : Nat} (h : fl.testBit 6 = false) : ¬ (fl.land fContext ≠ 0) := by
  have : fl &&& fContext = 0 := by
    apply Nat.eq_of_testBit_eq
    intro i
    rw [Nat.testBit_and, show fContext = 2 ^ 6 by rfl, Nat.testBit_two_pow]
    by_cases e : 6 = i
    · subst e; simp [h]
    · simp [e]
  intro hh
  exact hh this

theorem chain_head {h base nil a ps} (hc : Chain h base nil a ps) : ps.headD nil = a := by
  cases hc <;> rfl

theorem nextKept_chain {k : Known} {h : Heap} {base : Nat} (hpc : k.process ≠ k.callin) (hnil : objAt h base k.nil = none) :
    ∀ (ps : List (Nat × Bool)) (a f : Nat), Chain h base k.nil a (ps.map Prod.fst) → Marked k h base ps → ps.length ≤ f →
    nextKept k h base f a = (kept ps).headD k.nil
  | [], a, f, hc, _, _ => by
    cases hc
    cases f with
    | zero => rfl
    | succ f => simp [nextKept, classAt, hnil, kept]
  | (x, b) :: ps, a, f, hc, hm, hf => by
    cases hc with
    | cons hne hp hn hc' =>
      rename_i p n
      obtain ⟨f, rfl⟩ : ∃ f', f = f' + 1 := ⟨f - 1, by simp at hf; omega⟩
      obtain ⟨p', hp', hcl, -⟩ := hm (x, b) List.mem_cons_self
      have e : objAt h base x = some p := objAt_At hp
      have e2 : p' = p := by
        have := objAt_At hp'
        rw [e] at this
        injection this with this
        exact this.symm
      subst e2
      unfold nextKept
      simp only [classAt, e, Option.bind_some, hcl, hn]
      cases b with
      | true =>
        simp only [if_true]
        rw [nextKept_chain hpc hnil ps n f hc' (fun y hy => hm y (List.mem_cons_of_mem _ hy)) (by simp at hf; omega)]
        simp [kept]
      | false => simp [hpc, kept]

theorem ends_chain {k : Known} {h : Heap} {base : Nat} (hpc : k.process ≠ k.callin) :
    ∀ (ps : List (Nat × Bool)) (a f : Nat) (r : Nat × Nat), Chain h base k.nil a (ps.map Prod.fst) →
    Marked k h base ps → ps.length ≤ f →
    ends k h base f a r = (if r.1 = k.nil then (kept ps).headD k.nil else r.1, (kept ps).getLastD r.2)
  | [], a, f, (x, y), hc, _, _ => by
    cases hc
    cases f <;> simp [ends, kept] <;> exact fun h => h
  | (x, b) :: ps, a, f, (y, z), hc, hm, hf => by
    cases hc with
    | cons hne hp hn hc' =>
      rename_i p n
      obtain ⟨f, rfl⟩ : ∃ f', f = f' + 1 := ⟨f - 1, by simp at hf; omega⟩
      obtain ⟨p', hp', hcl, -⟩ := hm (x, b) List.mem_cons_self
      have e : objAt h base x = some p := objAt_At hp
      have e2 : p' = p := by
        have := objAt_At hp'
        rw [e] at this
        injection this with this
        exact this.symm
      subst e2
      have hg : p'.words.getD 2 k.nil = n := by rw [List.getD_eq_getElem?_getD, hn]; rfl
      unfold ends
      rw [if_neg hne, e]
      simp only [hg, hcl]
      rw [ends_chain hpc ps n f _ hc' (fun y hy => hm y (List.mem_cons_of_mem _ hy)) (by simp at hf; omega)]
      cases b with
      | true => simp [kept]
      | false =>
        simp only [Bool.false_eq_true, if_false, Option.some.injEq, hpc, kept, List.filter_cons, Bool.not_false, if_true,
          List.map_cons, List.headD_cons, List.getLastD_cons]
        by_cases hy : y = k.nil
        · simp [hy, hne]
        · simp [hy]

theorem at_fix {k : Known} {f : Nat} {h : Heap} {base a : Nat} {o : Obj} (ha : At h base a o) :
    At (fixAll k f h base) base a { o with words := fixup k f h base o } := by
  obtain ⟨i, rfl, hi⟩ := ha
  exact ⟨i, rfl, by rw [fixAll_get, hi]; rfl⟩

theorem chain_saved {k : Known} {h : Heap} {base f : Nat} (hpc : k.process ≠ k.callin)
    (hnil : objAt h base k.nil = none) : ∀ (ps : List (Nat × Bool)) (a : Nat),
    Chain h base k.nil a (ps.map Prod.fst) → Marked k h base ps → ps.length ≤ f →
    Chain (fixAll k f h base) base k.nil ((kept ps).headD k.nil) (kept ps)
  | [], a, _, _, _ => .nil
  | (x, b) :: ps, a, hc, hm, hf => by
    cases hc with
    | cons hne hp hn hc' =>
      rename_i p n
      have ih := chain_saved (f := f) hpc hnil ps n hc' (fun y hy => hm y (List.mem_cons_of_mem _ hy)) (by simp at hf; omega)
      cases b with
      | true => simpa [kept] using ih
      | false =>
        obtain ⟨p', hp', hcl, hfl⟩ := hm (x, false) List.mem_cons_self
        have e2 : p' = p := by
          have h1 := objAt_At hp
          have h2 := objAt_At hp'
          rw [h1] at h2
          injection h2 with h2
          exact h2.symm
        subst e2
        have hk : kept ((x, false) :: ps) = x :: kept ps := by simp [kept]
        rw [hk]
        refine .cons hne (at_fix hp) ?_ ih
        simp only [Bool.false_eq_true, if_false] at hcl
        have hcd : p'.words.getD 1 0 = k.process := by rw [List.getD_eq_getElem?_getD, hcl]; rfl
        have hg : p'.words.getD 2 k.nil = n := by rw [List.getD_eq_getElem?_getD, hn]; rfl
        have hlt : 2 < p'.words.length := by rw [List.getElem?_eq_some_iff] at hn; exact hn.1
        unfold fixup
        simp only [hcd]
        rw [if_neg (not_context hfl), if_neg hpc, if_pos trivial, hg, List.getElem?_set_self hlt,
          nextKept_chain hpc hnil ps n f hc' (fun y hy => hm y (List.mem_cons_of_mem _ hy)) (by simp at hf; omega)]

/-- A Semaphore is saved with the processes that wait on it, in their order, but for the
CallinProcesses: its first link leads through exactly these, its last link is the last of them.
`_partial`: only instances of Semaphore and Process themselves, not of subclasses
(`subclass_list_lost`). -/
theorem waiting_saved_partial {k : Known} {h : Heap} {base f a b : Nat} {s : Obj} {ps : List (Nat × Bool)}
    (hpc : k.process ≠ k.callin) (hsc : k.semaphore ≠ k.callin) (hsp : k.semaphore ≠ k.process)
    (hnil : ∀ o, ¬ At h base k.nil o) (hs : At h base b s) (hcl : s.words[1]? = some k.semaphore)
    (hfl : s.flags.testBit 6 = false) (hlen : 4 ≤ s.words.length) (hfirst : s.words[2]? = some a)
    (hc : Chain h base k.nil a (ps.map Prod.fst)) (hm : Marked k h base ps) (hf : ps.length ≤ f) :
    ∃ s' first, At (fixAll k f h base) base b s' ∧ s'.words[2]? = some first ∧
      Chain (fixAll k f h base) base k.nil first (kept ps) ∧ s'.words[3]? = some ((kept ps).getLastD k.nil) := by
  have hnil' : objAt h base k.nil = none := by
    cases e : objAt h base k.nil with
    | none => rfl
    | some o =>
      unfold objAt at e
      split at e
      · rename_i hh
        exfalso
        refine hnil o ⟨(k.nil - base) / 16, by omega, ?_⟩
        cases e2 : h[(k.nil - base) / 16]? with
        | none => rw [e2] at e; simp at e
        | some x => rw [e2] at e; simp at e; rw [e]
      · simp at e
  refine ⟨_, (kept ps).headD k.nil, at_fix hs, ?_, chain_saved hpc hnil' ps a hc hm hf, ?_⟩ <;>
  · have hcd : s.words.getD 1 0 = k.semaphore := by rw [List.getD_eq_getElem?_getD, hcl]; rfl
    have hg : s.words.getD 2 k.nil = a := by rw [List.getD_eq_getElem?_getD, hfirst]; rfl
    unfold fixup
    simp only [hcd]
    rw [if_neg (not_context hfl), if_neg hsc, if_neg hsp, if_pos trivial, hg, ends_chain hpc ps a f _ hc hm hf]
    first
    | rw [List.getElem?_set_ne (by omega), List.getElem?_set_self (by omega)]; simp
    | rw [List.getElem?_set_self (by simp; omega)]

/-! ## Examples -/

/-- Addresses for the examples: the table is at 4096, `nil` below. -/
def ad (i : Nat) : Nat := 4096 + 16 * i

/-- Classes at the entries 0 to 4: Class, CallinProcess, Process, Semaphore and a subclass of
Semaphore or of Process. -/
def known : Known := ⟨80, ad 1, ad 2, ad 3, 96, 112⟩

/-- Two classes of processes, one of semaphores and a subclass; a semaphore of the class at `cls`
with a CallinProcess and a process of class `pcls` and a Process waiting. -/
def waiting (cls pcls : Nat) : Heap :=
  let c := fun (_ : Nat) => some (⟨0x100, [13, ad 0, 80, 80, 32769, 80]⟩ : Obj)
  [c 0, c 1, c 2, c 3, c 4,
   some ⟨0x100, [13, ad cls, ad 6, ad 8, 1, 80]⟩,
   some ⟨0x100, [13, ad 1, ad 7, 80, 9, ad 5]⟩,
   some ⟨0x100, [13, ad pcls, ad 8, 80, 9, ad 5]⟩,
   some ⟨0x100, [13, ad 2, 80, 80, 9, ad 5]⟩]

/-- The hypotheses of `waiting_saved_partial` can be met. -/
example : ∃ s' first, At (fixAll known 9 (waiting 3 2) 4096) 4096 (ad 5) s' ∧ s'.words[2]? = some first ∧
    Chain (fixAll known 9 (waiting 3 2) 4096) 4096 80 first [ad 7, ad 8] ∧ s'.words[3]? = some (ad 8) :=
  waiting_saved_partial (k := known) (ps := [(ad 6, true), (ad 7, false), (ad 8, false)]) (by decide) (by decide)
    (by decide) (fun o ⟨k, hk, _⟩ => by simp [known] at hk; omega) ⟨5, rfl, rfl⟩ rfl (by decide) (by decide) rfl
    (.cons (by decide) ⟨6, rfl, rfl⟩ rfl (.cons (by decide) ⟨7, rfl, rfl⟩ rfl (.cons (by decide) ⟨8, rfl, rfl⟩ rfl .nil)))
    (by
      intro x hx
      simp only [List.mem_cons, List.not_mem_nil, or_false] at hx
      rcases hx with rfl | rfl | rfl
      · exact ⟨_, ⟨6, rfl, rfl⟩, rfl, by decide⟩
      · exact ⟨_, ⟨7, rfl, rfl⟩, rfl, by decide⟩
      · exact ⟨_, ⟨8, rfl, rfl⟩, rfl, by decide⟩)
    (by decide)

/-- An instance of a subclass of Semaphore still leads to the CallinProcess, which leads
nowhere: the Process behind it is not waiting any more.  The same happens on a Semaphore to what is
behind an instance of a subclass of Process that is followed by a CallinProcess. -/
theorem subclass_list_lost :
    (let g := fixAll known 9 (waiting 4 2) 4096
     (∃ s', At g 4096 (ad 5) s' ∧ s'.words[2]? = some (ad 6)) ∧ Chain g 4096 80 (ad 6) [ad 6]) ∧
    (let h := [none, none, none, none, none,
        some ⟨0x100, [13, ad 3, ad 6, ad 8, 1, 80]⟩, some ⟨0x100, [13, ad 4, ad 7, 80, 9, ad 5]⟩,
        some ⟨0x100, [13, ad 1, ad 8, 80, 9, ad 5]⟩, some ⟨0x100, [13, ad 2, 80, 80, 9, ad 5]⟩]
     let g := fixAll known 9 h 4096
     Chain h 4096 80 (ad 6) [ad 6, ad 7, ad 8] ∧ Chain g 4096 80 (ad 6) [ad 6, ad 7]) :=
  ⟨⟨⟨_, ⟨5, rfl, rfl⟩, rfl⟩, .cons (by decide) ⟨6, rfl, rfl⟩ rfl .nil⟩,
   .cons (by decide) ⟨6, rfl, rfl⟩ rfl (.cons (by decide) ⟨7, rfl, rfl⟩ rfl (.cons (by decide) ⟨8, rfl, rfl⟩ rfl .nil)),
   .cons (by decide) ⟨6, rfl, rfl⟩ rfl (.cons (by decide) ⟨7, rfl, rfl⟩ rfl .nil)⟩

end Verif.Save
