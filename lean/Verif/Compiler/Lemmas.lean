import Verif.Compiler.Spec

/-!
# Running a piece of code inside a larger one
-/
namespace Verif.Compiler

variable {S V : Type} [DecidableEq V] {w : World S V} {code : Code}

/-- The piece `u` is at position `pc`. -/
def At (code : Code) (pc : Nat) (u : Code) : Prop := ∃ pre post, code = pre ++ u ++ post ∧ pre.length = pc

theorem At.left {pc : Nat} {u v : Code} (h : At code pc (u ++ v)) : At code pc u := by
  obtain ⟨pre, post, rfl, rfl⟩ := h
  exact ⟨pre, v ++ post, by simp, rfl⟩

theorem At.right {pc : Nat} {u v : Code} (h : At code pc (u ++ v)) : At code (pc + u.length) v := by
  obtain ⟨pre, post, rfl, rfl⟩ := h
  exact ⟨pre ++ u, post, by simp, by simp⟩

theorem At.get {pc : Nat} {x : Op × Nat} (h : At code pc [x]) : code[pc]? = some x := by
  obtain ⟨pre, post, rfl, rfl⟩ := h
  simp

theorem At.whole (u : Code) : At u 0 u := ⟨[], [], by simp, rfl⟩

theorem exts_halts (m : Nat) : ∀ (pc n : Nat) (stk : List V) (s : S) (r : Result S V), At code pc (exts m) →
    (HaltsIn w code n ⟨pc, 0, stk, s⟩ r ↔
      ∃ k, n = (exts m).length + k ∧ HaltsIn w code k ⟨pc + (exts m).length, m, stk, s⟩ r) := by
  induction m using Nat.strongRecOn with
  | ind m ih =>
    intro pc n stk s r h
    by_cases hm : m = 0
    · subst hm
      have e : exts 0 = [] := by rw [exts]; rfl
      rw [e]
      simp
    · have e : exts m = exts (m / 256) ++ [(.ext, m % 256)] := by rw [exts]; simp [hm]
      rw [e] at h ⊢
      rw [ih (m / 256) (by omega) pc n stk s r h.left]
      have hs : step w code ⟨pc + (exts (m / 256)).length, m / 256, stk, s⟩
          = .next ⟨pc + (exts (m / 256)).length + 1, m, stk, s⟩ := by
        simp only [step, h.right.get]
        congr 2
        omega
      constructor
      · rintro ⟨k, rfl, hk⟩
        cases hk with
        | halt h' => rw [hs] at h'; cases h'
        | next h' t =>
          rw [hs] at h'
          cases h'
          exact ⟨_, (by rw [List.length_append, List.length_singleton, Nat.add_assoc, Nat.add_comm 1]), by
            simpa [Nat.add_assoc] using t⟩
      · rintro ⟨k, rfl, hk⟩
        exact ⟨k + 1, by simp; omega, .next hs (by simpa [Nat.add_assoc] using hk)⟩

theorem emit_length (op : Op) (arg : Nat) : (emit op arg).length = (exts (arg / 256)).length + 1 := by
  simp [emit]

theorem step_op {pc acc b : Nat} {op : Op} {stk : List V} {s : S} (hop : op ≠ .ext) (h : At code pc [(op, b)]) :
    step w code ⟨pc, acc, stk, s⟩ = effect w op (acc * 256 + b) (pc + 1) stk s := by
  simp only [step, h.get]

/-- For `n` steps the execution finds its operands, stays within the code, and keeps the stack within `d`
values. -/
def Safe (w : World S V) (code : Code) (d : Nat) : Nat → Cfg S V → Prop
  | 0, c => c.stk.length ≤ d
  | n + 1, c => c.stk.length ≤ d ∧
    match step w code c with
    | .next c' => Safe w code d n c'
    | .halt _ => True
    | .gone => True
    | .bad => False

theorem Safe.depth {d n : Nat} {c : Cfg S V} (h : Safe w code d n c) : c.stk.length ≤ d := by
  cases n with
  | zero => exact h
  | succ n => exact h.1

theorem Safe.pred {d : Nat} : ∀ {n : Nat} {c : Cfg S V}, Safe w code d (n + 1) c → Safe w code d n c
  | 0, _, h => h.1
  | n + 1, c, h => by
    refine ⟨h.1, ?_⟩
    have h2 := h.2
    cases e : step w code c with
    | next c' => rw [e] at h2; exact Safe.pred h2
    | halt r => trivial
    | gone => trivial
    | bad => rw [e] at h2; exact h2

theorem Safe.mono {d n m : Nat} {c : Cfg S V} (h : Safe w code d n c) (hm : m ≤ n) : Safe w code d m c := by
  induction hm with
  | refl => exact h
  | step _ ih => exact ih h.pred

theorem exts_safe {d : Nat} (m : Nat) : ∀ (pc n : Nat) (stk : List V) (s : S), At code pc (exts m) →
    Safe w code d n ⟨pc + (exts m).length, m, stk, s⟩ → Safe w code d (n + (exts m).length) ⟨pc, 0, stk, s⟩ := by
  induction m using Nat.strongRecOn with
  | _ m ih =>
    intro pc n stk s h H
    rw [exts] at h H ⊢
    split
    · rename_i hm; subst hm; simpa using H
    · rename_i hm
      rw [if_neg hm] at h H
      have hd := H.depth
      have e : step w code ⟨pc + (exts (m / 256)).length, m / 256, stk, s⟩
          = .next ⟨pc + (exts (m / 256) ++ [(Op.ext, m % 256)]).length, m, stk, s⟩ := by
        simp only [step, h.right.get]
        simp only [List.length_append, List.length_cons, List.length_nil]
        congr 2 <;> omega
      have : Safe w code d (n + 1) ⟨pc + (exts (m / 256)).length, m / 256, stk, s⟩ := by
        refine ⟨hd, ?_⟩
        rw [e]; exact H
      have := ih (m / 256) (by omega) pc (n + 1) stk s h.left this
      rw [List.length_append, show n + ((exts (m / 256)).length + [(Op.ext, m % 256)].length)
        = n + 1 + (exts (m / 256)).length by simp only [List.length_cons, List.length_nil]; omega]
      exact this

/-- The execution comes from `c` to `c'`, in at least `d` steps and with a stack that is not deeper on the way,
whatever happens then. -/
def Goes (w : World S V) (code : Code) (d : Nat) (c c' : Cfg S V) : Prop :=
  ∃ e, d ≤ e ∧ (∀ n r, HaltsIn w code n c r ↔ ∃ m, n = m + e ∧ HaltsIn w code m c' r) ∧
    ∀ D n, c.stk.length ≤ D → Safe w code D n c' → Safe w code D (n + e) c

theorem Goes.refl (c : Cfg S V) : Goes w code 0 c c :=
  ⟨0, Nat.le_refl _, fun n r => by simp, fun _ _ _ h => h⟩

theorem Goes.trans {d d' : Nat} {c c' c'' : Cfg S V} (h : Goes w code d c c') (h' : Goes w code d' c' c'')
    (hd : c'.stk.length ≤ max c.stk.length c''.stk.length := by simp only [List.length_cons, List.length_append]; omega) :
    Goes w code (d + d') c c'' := by
  obtain ⟨e, he, h, hS⟩ := h
  obtain ⟨e', he', h', hS'⟩ := h'
  refine ⟨e + e', by omega, fun n r => ?_, fun D n hc H => ?_⟩
  · rw [h]
    constructor
    · rintro ⟨m, rfl, hm⟩
      obtain ⟨k, rfl, hk⟩ := (h' m r).mp hm
      exact ⟨k, by omega, hk⟩
    · rintro ⟨m, rfl, hm⟩
      exact ⟨m + e', by omega, (h' _ r).mpr ⟨m, rfl, hm⟩⟩
  · have := hS D (n + e') hc (hS' D n (by have := H.depth; omega) H)
    rwa [show n + (e + e') = n + e' + e by omega]

theorem Goes.weaken {d d' : Nat} {c c' : Cfg S V} (h : Goes w code d c c') (hd : d' ≤ d) : Goes w code d' c c' := by
  obtain ⟨e, he, h⟩ := h
  exact ⟨e, by omega, h⟩

theorem Goes.fwd {d : Nat} {c c' : Cfg S V} {r : Result S V} (h : Goes w code d c c') (H : Halts w code c' r) :
    Halts w code c r := by
  obtain ⟨e, _, h, _⟩ := h
  obtain ⟨n, hn⟩ := H
  exact ⟨n + e, (h _ r).mpr ⟨n, rfl, hn⟩⟩

theorem Goes.bwd {d n : Nat} {c c' : Cfg S V} {r : Result S V} (h : Goes w code d c c') (H : HaltsIn w code n c r) :
    ∃ m, m + d ≤ n ∧ HaltsIn w code m c' r := by
  obtain ⟨e, he, h, _⟩ := h
  obtain ⟨m, rfl, hm⟩ := (h _ r).mp H
  exact ⟨m, by omega, hm⟩

theorem Goes.safe {d D n : Nat} {c c' : Cfg S V} (h : Goes w code d c c') (hc : c.stk.length ≤ D)
    (H : Safe w code D (n - d) c') : Safe w code D n c := by
  obtain ⟨e, he, _, h⟩ := h
  exact (h D _ hc H).mono (by omega)

theorem op_step {pc arg : Nat} {op : Op} {stk : List V} {s : S} (hop : op ≠ .ext) (h : At code pc (emit op arg)) :
    step w code ⟨pc + (exts (arg / 256)).length, arg / 256, stk, s⟩
      = effect w op arg (pc + (emit op arg).length) stk s := by
  rw [step_op hop h.right, emit_length]
  congr 1 <;> omega

/-- An instruction that goes on. -/
theorem emit_goes {pc arg : Nat} {op : Op} {stk : List V} {s : S} {c : Cfg S V} (hop : op ≠ .ext)
    (h : At code pc (emit op arg)) (he : effect w op arg (pc + (emit op arg).length) stk s = .next c) :
    Goes w code 1 ⟨pc, 0, stk, s⟩ c := by
  rw [← op_step hop h] at he
  refine ⟨(exts (arg / 256)).length + 1, by omega, fun n r => ?_, fun D n hc H => ?_⟩
  · rw [exts_halts _ _ _ _ _ _ h.left]
    constructor
    · rintro ⟨k, rfl, hk⟩
      cases hk with
      | halt h' => rw [he] at h'; cases h'
      | next h' t => rw [he] at h'; cases h'; exact ⟨_, by omega, t⟩
    · rintro ⟨m, rfl, hm⟩
      exact ⟨m + 1, by omega, .next he hm⟩
  · rw [show n + ((exts (arg / 256)).length + 1) = n + 1 + (exts (arg / 256)).length by omega]
    refine exts_safe _ _ _ _ _ h.left ⟨hc, ?_⟩
    rw [he]; exact H

/-- An instruction with which the execution leaves the context. -/
theorem emit_safe {pc arg D n : Nat} {op : Op} {stk : List V} {s : S} (hop : op ≠ .ext)
    (h : At code pc (emit op arg)) (hc : stk.length ≤ D)
    (he : effect w op arg (pc + (emit op arg).length) stk s = .gone ∨
      ∃ r, effect w op arg (pc + (emit op arg).length) stk s = .halt r) : Safe w code D n ⟨pc, 0, stk, s⟩ := by
  rw [← op_step hop h] at he
  refine (exts_safe (arg / 256) pc (n + 1) stk s h.left ⟨hc, ?_⟩).mono (by omega)
  rcases he with he | ⟨r, he⟩ <;> rw [he] <;> trivial

/-- An instruction that ends the context. -/
theorem emit_halt {pc arg : Nat} {op : Op} {stk : List V} {s : S} {r : Result S V} (hop : op ≠ .ext)
    (h : At code pc (emit op arg)) (he : effect w op arg (pc + (emit op arg).length) stk s = .halt r) :
    Halts w code ⟨pc, 0, stk, s⟩ r := by
  refine ⟨(exts (arg / 256)).length + 1, ?_⟩
  rw [exts_halts _ _ _ _ _ _ h.left]
  refine ⟨_, rfl, .halt ?_⟩
  rw [step_op hop h.right, ← he, emit_length]
  congr 1 <;> omega

/-- What an instruction did, when the context ended. -/
theorem emit_bwd {n pc arg : Nat} {op : Op} {stk : List V} {s : S} {r : Result S V} (hop : op ≠ .ext)
    (h : At code pc (emit op arg)) (hh : HaltsIn w code n ⟨pc, 0, stk, s⟩ r) :
    (∃ c m, effect w op arg (pc + (emit op arg).length) stk s = .next c ∧ m < n ∧ HaltsIn w code m c r) ∨
      effect w op arg (pc + (emit op arg).length) stk s = .halt r := by
  rw [exts_halts _ _ _ _ _ _ h.left] at hh
  obtain ⟨k, rfl, hk⟩ := hh
  have e : effect w op arg (pc + (emit op arg).length) stk s
      = step w code ⟨pc + (exts (arg / 256)).length, arg / 256, stk, s⟩ := by
    rw [step_op hop h.right, emit_length]
    congr 1 <;> omega
  cases hk with
  | halt h' => exact .inr (e.trans h')
  | next h' t => exact .inl ⟨_, _, e.trans h', by omega, t⟩

/-! ## Lengths of jumps -/

/-- The bytes that a jump by `n` takes. -/
theorem size_emit (op : Op) (n : Nat) (h : n < 2 ^ 24) : size (emit op n) = lenGe n := by
  simp only [size, emit_length, lenGe]
  have e0 : exts 0 = [] := by rw [exts]; rfl
  by_cases h1 : n ≥ 65536
  · have a : exts (n / 256) = exts (n / 256 / 256) ++ [(.ext, n / 256 % 256)] := by
      rw [exts]; simp; omega
    have b : exts (n / 256 / 256) = exts (n / 256 / 256 / 256) ++ [(.ext, n / 256 / 256 % 256)] := by
      rw [exts]; simp; omega
    have c : n / 256 / 256 / 256 = 0 := by omega
    rw [a, b, c, e0]
    simp [h1]
  · by_cases h2 : n ≥ 256
    · have a : exts (n / 256) = exts (n / 256 / 256) ++ [(.ext, n / 256 % 256)] := by
        rw [exts]; simp; omega
      have c : n / 256 / 256 = 0 := by omega
      rw [a, c, e0]
      simp [h1, h2]
    · have c : n / 256 = 0 := by omega
      rw [c, e0]
      simp [h1, h2]

theorem emit_small (op : Op) (n : Nat) (h : n < 256) : (emit op n).length = 1 := by
  have e0 : exts 0 = [] := by rw [exts]; rfl
  rw [emit_length, show n / 256 = 0 by omega, e0]
  rfl

theorem lenGe_cases (n : Nat) : lenGe n = 2 ∨ lenGe n = 4 ∨ lenGe n = 6 := by
  simp only [lenGe]; split
  · simp
  · split <;> simp

theorem lenGt_cases (n : Nat) : lenGt n = 2 ∨ lenGt n = 4 ∨ lenGt n = 6 := by
  simp only [lenGt]; split
  · simp
  · split <;> simp

theorem lenGe_mono {m n : Nat} (h : m ≤ n) : lenGe m ≤ lenGe n := by
  simp only [lenGe]; repeat' split
  all_goals omega

theorem lenGt_mono {m n : Nat} (h : m ≤ n) : lenGt m ≤ lenGt n := by
  simp only [lenGt]; repeat' split
  all_goals omega

theorem lenGe_stable (b x : Nat) (h : x ≤ 6) : lenGe (b + lenGe (b + lenGe (b + x))) = lenGe (b + lenGe (b + x)) := by
  simp only [lenGe]; repeat' split
  all_goals omega

theorem lenGt_stable (b x : Nat) (h : x ≤ 6) : lenGt (b + lenGt (b + lenGt (b + x))) = lenGt (b + lenGt (b + x)) := by
  simp only [lenGt]; repeat' split
  all_goals omega

theorem jumpLens_settles_from (len : Nat → Nat) (hv : ∀ n, len n = 2 ∨ len n = 4 ∨ len n = 6)
    (hm : ∀ m n, m ≤ n → len m ≤ len n)
    (hs : ∀ b x, x ≤ 6 → len (b + len (b + len (b + x))) = len (b + len (b + x))) (base around : Nat) :
    ∀ k old fin, fin ≤ 6 → fin ≤ len (base + old + fin) → 7 ≤ k + old →
      old ≤ len (around + len (base + old + len (base + old + fin))) →
      (jumpLens len base around k old fin).1 = len (around + (jumpLens len base around k old fin).2) ∧
      (jumpLens len base around k old fin).2
        = len (base + (jumpLens len base around k old fin).1 + (jumpLens len base around k old fin).2)
  | 0, old, fin => by
    intro _ _ h1 h2
    rcases hv (around + len (base + old + len (base + old + fin))) with h | h | h <;> omega
  | k + 1, old, fin => by
    intro h0 h1 h2 h3
    rw [jumpLens]
    by_cases he : len (around + len (base + old + len (base + old + fin))) = old
    · simp only [he, ↓reduceIte, true_and]
      exact (hs _ _ h0).symm
    · simp only [he, ↓reduceIte]
      have a1 := hm (base + old + fin) (base + old + len (base + old + fin)) (by omega)
      have a2 := hm (base + old + fin)
        (base + len (around + len (base + old + len (base + old + fin))) + len (base + old + len (base + old + fin)))
        (by omega)
      have a3 := hm (base + old + len (base + old + fin))
        (base + len (around + len (base + old + len (base + old + fin))) + len (base + old + len (base + old + fin)))
        (by omega)
      have a4 := hm (base + old + len (base + old + fin))
        (base + len (around + len (base + old + len (base + old + fin)))
          + len (base + len (around + len (base + old + len (base + old + fin)))
            + len (base + old + len (base + old + fin)))) (by omega)
      refine jumpLens_settles_from len hv hm hs base around k _ _ ?_ a3 (by omega) (hm _ _ (by omega))
      rcases hv (base + old + len (base + old + fin)) with h | h | h <;> omega

theorem jumpLens_ge (base around : Nat) :
    (jumpLens lenGe base around 8 0 0).1 = lenGe (around + (jumpLens lenGe base around 8 0 0).2) ∧
    (jumpLens lenGe base around 8 0 0).2
      = lenGe (base + (jumpLens lenGe base around 8 0 0).1 + (jumpLens lenGe base around 8 0 0).2) :=
  jumpLens_settles_from lenGe lenGe_cases (fun _ _ => lenGe_mono) lenGe_stable base around 8 0 0
    (by omega) (by omega) (by omega) (by omega)

theorem jumpLens_gt (base around : Nat) :
    (jumpLens lenGt base around 8 0 0).1 = lenGt (around + (jumpLens lenGt base around 8 0 0).2) ∧
    (jumpLens lenGt base around 8 0 0).2
      = lenGt (base + (jumpLens lenGt base around 8 0 0).1 + (jumpLens lenGt base around 8 0 0).2) :=
  jumpLens_settles_from lenGt lenGt_cases (fun _ _ => lenGt_mono) lenGt_stable base around 8 0 0
    (by omega) (by omega) (by omega) (by omega)

theorem lenGt_eq {n : Nat} (h1 : n ≠ 256) (h2 : n ≠ 65536) : lenGt n = lenGe n := by
  simp only [lenGt, lenGe]; repeat' split
  all_goals omega

theorem lenGt_spec (n : Nat) : (lenGt n = 2 ∧ n ≤ 256) ∨ (lenGt n = 4 ∧ 256 < n ∧ n ≤ 65536) ∨
    (lenGt n = 6 ∧ 65536 < n) := by
  simp only [lenGt]; repeat' split
  all_goals omega

theorem lenGe_spec (n : Nat) : (lenGe n = 2 ∧ n < 256) ∨ (lenGe n = 4 ∧ 256 ≤ n ∧ n < 65536) ∨
    (lenGe n = 6 ∧ 65536 ≤ n) := by
  simp only [lenGe]; repeat' split
  all_goals omega

/-- `timesRepeat:`: unless the body has one of four sizes, the jumps have the lengths that were computed. -/
theorem jumpLens_times (l : Nat) (he : l % 2 = 0) (h : l ≠ 240 ∧ l ≠ 246 ∧ l ≠ 65516 ∧ l ≠ 65524) :
    (jumpLens lenGt (6 + (6 + l)) (6 + l) 8 0 0).1 = lenGe (6 + l + (jumpLens lenGt (6 + (6 + l)) (6 + l) 8 0 0).2) ∧
    (jumpLens lenGt (6 + (6 + l)) (6 + l) 8 0 0).2 = lenGe ((jumpLens lenGt (6 + (6 + l)) (6 + l) 8 0 0).2
      + (6 + (jumpLens lenGt (6 + (6 + l)) (6 + l) 8 0 0).1 + (6 + l))) := by
  obtain ⟨h1, h2⟩ := jumpLens_gt (6 + (6 + l)) (6 + l)
  generalize (jumpLens lenGt (6 + (6 + l)) (6 + l) 8 0 0).1 = j at *
  generalize (jumpLens lenGt (6 + (6 + l)) (6 + l) 8 0 0).2 = f at *
  have g1 := lenGt_spec (6 + l + f)
  have g2 := lenGt_spec (6 + (6 + l) + j + f)
  rw [← h1] at g1
  rw [← h2] at g2
  rw [← lenGt_eq (n := 6 + l + f) (by omega) (by omega), ← lenGt_eq (n := f + (6 + j + (6 + l))) (by omega) (by omega)]
  exact ⟨h1, by rw [show f + (6 + j + (6 + l)) = 6 + (6 + l) + j + f by omega]; exact h2⟩

/-- `to:do:`: the same with the size of the body and the step. -/
theorem jumpLens_to (l : Nat) (he : l % 2 = 0) (h : l ≠ 240 ∧ l ≠ 242 ∧ l ≠ 65516 ∧ l ≠ 65520) :
    (jumpLens lenGt (l + 10 + 2) (l + 10) 8 0 0).1 = lenGe (l + 10 + (jumpLens lenGt (l + 10 + 2) (l + 10) 8 0 0).2) ∧
    (jumpLens lenGt (l + 10 + 2) (l + 10) 8 0 0).2 = lenGe (l + 10 + (jumpLens lenGt (l + 10 + 2) (l + 10) 8 0 0).1
      + 2 + (jumpLens lenGt (l + 10 + 2) (l + 10) 8 0 0).2) := by
  obtain ⟨h1, h2⟩ := jumpLens_gt (l + 10 + 2) (l + 10)
  generalize (jumpLens lenGt (l + 10 + 2) (l + 10) 8 0 0).1 = j at *
  generalize (jumpLens lenGt (l + 10 + 2) (l + 10) 8 0 0).2 = f at *
  have g1 := lenGt_spec (l + 10 + f)
  have g2 := lenGt_spec (l + 10 + 2 + j + f)
  rw [← h1] at g1
  rw [← h2] at g2
  rw [← lenGt_eq (n := l + 10 + f) (by omega) (by omega), ← lenGt_eq (n := l + 10 + j + 2 + f) (by omega) (by omega)]
  exact ⟨h1, by rw [show l + 10 + j + 2 + f = l + 10 + 2 + j + f by omega]; exact h2⟩

end Verif.Compiler
