import Verif.Save.Lists

/-! # What of the session is left in the image -/

namespace Verif.Save

/-- The class at `c` inherits from the classes of the list, itself the first, up to one without
superclass. -/
inductive Supers (h : Heap) (base nil : Nat) : Nat → List Nat → Prop where
  | root : At h base c o → o.words[2]? = some nil → Supers h base nil c [c]
  | sub : At h base c o → o.words[2]? = some s → s ≠ nil → Supers h base nil s cs → Supers h base nil c (c :: cs)

theorem isKindOf_supers {k : Known} {h : Heap} {base cls : Nat} : ∀ {cs : List Nat} {c f : Nat},
    Supers h base k.nil c cs → cs.length ≤ f → (isKindOf k h base f c cls = true ↔ cls ∈ cs) := by
  intro cs c f hs
  induction hs generalizing f with
  | root ha hn =>
    rename_i c o
    intro hf
    obtain ⟨f, rfl⟩ : ∃ f', f = f' + 1 := ⟨f - 1, by simp at hf; omega⟩
    unfold isKindOf
    by_cases e : c = cls
    · simp [e]
    · rw [if_neg e, objAt_At ha]
      simp only [Option.bind_some, hn, if_true, List.mem_singleton]
      exact ⟨fun h => by simp at h, fun h => absurd h.symm e⟩
  | sub ha hn hne hs ih =>
    rename_i c o s cs
    intro hf
    obtain ⟨f, rfl⟩ : ∃ f', f = f' + 1 := ⟨f - 1, by simp at hf; omega⟩
    unfold isKindOf
    by_cases e : c = cls
    · simp [e]
    · rw [if_neg e, objAt_At ha]
      simp only [Option.bind_some, hn, if_neg hne, List.mem_cons]
      rw [ih (by simp at hf; omega)]
      exact ⟨Or.inr, fun h => h.elim (fun h => absurd h.symm e) id⟩

/-- The two objects differ in the variables at `is` only. -/
def OnlyAt (is : List Nat) (o o' : Obj) : Prop :=
  o'.flags = o.flags ∧ o'.words.length = o.words.length ∧ ∀ i, i ∉ is → o'.words[i]? = o.words[i]?

/-- What is saved of an object, by what it is.  A context forgets the address of native code and nothing
else.  A CallinProcess, which belongs to a call from C, forgets its context, the next process and its list.  An
instance of FileDescriptor or a subclass forgets its descriptor.  An instance of CCallable or a
subclass, when it holds an address of this process, forgets it and nothing else; when it holds its own storage it
is not changed.  A Process can only change in its link, a Semaphore only in
its two links (see `waiting_saved_partial`).  All other objects are saved
unchanged. -/
theorem session_forgotten {k : Known} {h : Heap} {base f a c : Nat} {o : Obj} {cs : List Nat}
    (ha : At h base a o) (hc : o.words[1]? = some c) (hcs : Supers h base k.nil c cs) (hf : cs.length ≤ f)
    (hsz : o.words[0]? = some (2 * o.words.length + 1)) (h4 : 4 ≤ o.words.length)
    (hctx : o.flags.testBit 6 = true → c ≠ k.callin ∧ c ≠ k.process ∧ c ≠ k.semaphore)
    (hd : k.callin ≠ k.process ∧ k.callin ≠ k.semaphore ∧ k.process ≠ k.semaphore) :
    ∃ o', At (fixAll k f h base) base a o' ∧
      (o.flags.testBit 6 = true → OnlyAt [3] o o' ∧ o'.words[3]? = some 1) ∧
      (o.flags.testBit 6 = false → c = k.callin → OnlyAt [2, 3, 5] o o' ∧
        ∀ i ∈ [2, 3, 5], i < o.words.length → o'.words[i]? = some k.nil) ∧
      (o.flags.testBit 6 = false → c = k.process → OnlyAt [2] o o') ∧
      (o.flags.testBit 6 = false → c = k.semaphore → OnlyAt [2, 3] o o') ∧
      (o.flags.testBit 6 = false → c ≠ k.callin → c ≠ k.process → c ≠ k.semaphore →
        (k.fileDescriptor ∈ cs → OnlyAt [3] o o' ∧ o'.words[3]? = some k.nil) ∧
        (k.fileDescriptor ∉ cs → k.cCallable ∈ cs →
          (o.words[3]? = some k.nil → OnlyAt [o.words.length - 1] o o' ∧ o'.words[o.words.length - 1]? = some 0) ∧
          (o.words[3]? ≠ some k.nil → o' = o)) ∧
        (k.fileDescriptor ∉ cs → k.cCallable ∉ cs → o' = o)) := by
  obtain ⟨d1, d2, d3⟩ := hd
  have hcd : o.words.getD 1 0 = c := by rw [List.getD_eq_getElem?_getD, hc]; rfl
  have hsh : o.words.headD 0 = 2 * o.words.length + 1 := by
    rw [List.headD_eq_head?_getD, List.head?_eq_getElem?, hsz]; rfl
  have hctx' : o.flags.testBit 6 = true → o.flags.land fContext ≠ 0 := by
    intro hb he
    have : (o.flags &&& fContext).testBit 6 = (0 : Nat).testBit 6 := congrArg (·.testBit 6) he
    rw [Nat.testBit_and, hb, show fContext = 2 ^ 6 by rfl, Nat.testBit_two_pow] at this
    simp at this
  have hnot : ∀ {is : List Nat} {ws : List Nat} {j v : Nat}, j ∈ is → (∀ i, i ∉ is → ws[i]? = o.words[i]?) →
      ∀ i, i ∉ is → (ws.set j v)[i]? = o.words[i]? := by
    intro is ws j v hj hw i hi
    rw [List.getElem?_set_ne (fun e : j = i => hi (e ▸ hj)), hw i hi]
  refine ⟨_, at_fix ha, ?_, ?_, ?_, ?_, ?_⟩
  · intro hb
    unfold fixup
    simp only [if_pos (hctx' hb)]
    exact ⟨⟨rfl, by simp, hnot (by simp) (fun _ _ => rfl)⟩, by rw [List.getElem?_set_self (by omega)]⟩
  · intro hb e
    unfold fixup
    simp only [hcd, if_neg (not_context hb), if_pos e]
    refine ⟨⟨rfl, by simp, hnot (by simp) (hnot (by simp) (hnot (by simp) (fun _ _ => rfl)))⟩, ?_⟩
    intro i hi hl
    simp only [List.mem_cons, List.not_mem_nil, or_false] at hi
    rcases hi with rfl | rfl | rfl
    · rw [List.getElem?_set_ne (by omega), List.getElem?_set_self (by simp; omega)]
    · rw [List.getElem?_set_ne (by omega), List.getElem?_set_ne (by omega), List.getElem?_set_self (by omega)]
    · rw [List.getElem?_set_self (by simp; omega)]
  · intro hb e
    unfold fixup
    simp only [hcd, if_neg (not_context hb), if_neg (show c ≠ k.callin by rw [e]; exact Ne.symm d1), if_pos e]
    exact ⟨rfl, by simp, hnot (by simp) (fun _ _ => rfl)⟩
  · intro hb e
    unfold fixup
    simp only [hcd, if_neg (not_context hb), if_neg (show c ≠ k.callin by rw [e]; exact Ne.symm d2),
      if_neg (show c ≠ k.process by rw [e]; exact Ne.symm d3), if_pos e]
    exact ⟨rfl, by simp, hnot (by simp) (hnot (by simp) (fun _ _ => rfl))⟩
  · intro hb n1 n2 n3
    have kf := isKindOf_supers (cls := k.fileDescriptor) hcs hf
    have kc := isKindOf_supers (cls := k.cCallable) hcs hf
    unfold fixup
    simp only [hcd, if_neg (not_context hb), if_neg n1, if_neg n2, if_neg n3]
    refine ⟨?_, ?_, ?_⟩
    · intro hm
      rw [if_pos (kf.mpr hm)]
      exact ⟨⟨rfl, by simp, hnot (by simp) (fun _ _ => rfl)⟩, by rw [List.getElem?_set_self (by omega)]⟩
    · intro hm hm'
      rw [if_neg (fun e => hm (kf.mp e)), if_pos (kc.mpr hm')]
      have h3 : o.words[3]? = some (o.words.getD 3 0) := by
        rw [List.getD_eq_getElem?_getD, List.getElem?_eq_getElem (by omega)]; rfl
      refine ⟨?_, ?_⟩
      · intro e
        rw [h3] at e
        injection e with e
        rw [if_pos e, hsh, show (2 * o.words.length + 1) / 2 - 1 = o.words.length - 1 by omega]
        exact ⟨⟨rfl, by simp, hnot (by simp) (fun _ _ => rfl)⟩, by rw [List.getElem?_set_self (by omega)]⟩
      · intro e
        rw [if_neg (fun e' => e (by rw [h3, e']))]
    · intro hm hm'
      rw [if_neg (fun e => hm (kf.mp e)), if_neg (fun e => hm' (kc.mp e))]

/-- The hypotheses can be met: a stream whose class is a subclass of FileDescriptor loses its
descriptor. -/
example : ∃ o', At (fixAll ⟨80, 1, 2, 3, ad 1, 112⟩ 3 [some ⟨0, [13, ad 0, 80, 1, 32769, 80]⟩, some ⟨0, [13, ad 0, 80, 1, 32769, 80]⟩,
      some ⟨0, [13, ad 0, ad 1, 1, 32769, 80]⟩, some ⟨0, [11, ad 2, 80, 9, 80]⟩] 4096) 4096 (ad 3) o' ∧ o'.words[3]? = some 80 := by
  obtain ⟨o', h1, -, -, -, -, h2⟩ := session_forgotten (k := ⟨80, 1, 2, 3, ad 1, 112⟩) (f := 3) (base := 4096)
    (h := [some ⟨0, [13, ad 0, 80, 1, 32769, 80]⟩, some ⟨0, [13, ad 0, 80, 1, 32769, 80]⟩,
      some ⟨0, [13, ad 0, ad 1, 1, 32769, 80]⟩, some ⟨0, [11, ad 2, 80, 9, 80]⟩]) (a := ad 3)
    (o := ⟨0, [11, ad 2, 80, 9, 80]⟩) (cs := [ad 2, ad 1]) ⟨3, rfl, rfl⟩ rfl
    (.sub ⟨2, rfl, rfl⟩ rfl (by decide) (.root ⟨1, rfl, rfl⟩ rfl)) (by decide) rfl (by decide) (by decide) (by decide)
  exact ⟨o', h1, ((h2 (by decide) (by decide) (by decide) (by decide)).1 (by decide)).2⟩

end Verif.Save
