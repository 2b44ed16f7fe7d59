import Verif.Files.Sim

/-!
# File streams: reading
-/

namespace Verif.Files

theorem prepare_good {s : St} {a : Abs} (h : Good s a) (hp : a.pos ≤ a.content.length) (n : Nat) :
    ∃ s', prepare (n + 1) s = some (s', decide (a.content.length ≤ a.pos)) ∧ Good s' a ∧ s'.writePtr = none ∧
      (a.pos < a.content.length → s'.ptr ≤ s'.endPtr) := by
  obtain ⟨t, h1, h2, h3, -⟩ := settle_good h n
  unfold prepare
  rw [h1]
  simp only [Option.bind_some]
  have hr := h2.reads h3
  split
  · rename_i hx
    obtain ⟨u, g1, g2, g3, g4, g5, g6⟩ := fill_used h2 (by omega) n
    rw [g1]
    have hroom := h2.room
    refine ⟨u, ?_, g2, g3, ?_⟩
    · rw [Option.map_some, atEnd_good g2 g3 hp]
    · intro hlt
      rw [g4, g5]
      omega
  · rename_i hx
    have := h2.fd_le (by have := h2.one; omega)
    have hf := h2.file_eq h3
    have hps := h2.pos
    refine ⟨t, ?_, h2, h3, fun _ => by omega⟩
    rw [decide_eq_false]
    rw [hf]
    omega

/-- The next byte. -/
theorem Good.head {s : St} {a : Abs} (h : Good s a) (hw : s.writePtr = none) (hp : s.ptr ≤ s.endPtr) :
    a.content[a.pos]? = some (s.buf.getD (s.ptr - 1) 0) := by
  have ha := congrArg (fun l => l[0]?) (h.ahead hw)
  have h1 := h.one
  have h2 := h.endB
  simp only [slice, List.getElem?_take, List.getElem?_drop, Nat.add_zero] at ha
  rw [if_pos (by omega), if_pos (by omega)] at ha
  rw [← ha, List.getElem?_eq_getElem (by omega), getD_eq, List.getElem?_eq_getElem (by omega)]
  rfl

theorem peek_good {s : St} {a : Abs} (h : Good s a) (hp : a.pos ≤ a.content.length) (n : Nat) :
    ∃ s', peek (n + 1) s = some ((match a.content[a.pos]? with | some c => Ans.byte c | none => Ans.nil), s') ∧
      Good s' a ∧ s'.writePtr = none := by
  obtain ⟨t, h1, h2, h3, h4⟩ := prepare_good h hp n
  unfold peek
  rw [h1]
  refine ⟨t, ?_, h2, h3⟩
  by_cases hl : a.content.length ≤ a.pos
  · rw [List.getElem?_eq_none hl]
    simp [hl]
  · rw [h2.head h3 (h4 (by omega))]
    simp [hl]

theorem next_good {s : St} {a : Abs} (h : Good s a) (hp : a.pos ≤ a.content.length) (n : Nat) :
    ∃ s', next (n + 1) s = some ((match a.content[a.pos]? with | some c => Ans.byte c | none => Ans.nil), s') ∧
      Good s' ⟨a.content, if a.pos < a.content.length then a.pos + 1 else a.pos⟩ ∧ s'.writePtr = none := by
  obtain ⟨t, h1, h2, h3, h4⟩ := prepare_good h hp n
  unfold next
  rw [h1]
  by_cases hl : a.content.length ≤ a.pos
  · refine ⟨t, ?_, ?_, h3⟩
    · rw [List.getElem?_eq_none hl]
      simp [hl]
    · rw [if_neg (by omega)]
      exact h2
  · have hx := h4 (by omega)
    refine ⟨{ t with ptr := t.ptr + 1 }, ?_, ?_, h3⟩
    · rw [h2.head h3 hx]
      simp [hl]
    · rw [if_pos (by omega)]
      exact h2.use h3 (by omega)

/-- All that is in the buffer is used and the buffer filled again. -/
theorem refill {s : St} {a : Abs} (h : Good s a) (hw : s.writePtr = none) (n : Nat) (hp : a.pos ≤ a.content.length) :
    ∃ s', fill (n + 1) { s with ptr := s.endPtr + 1 } = some s' ∧
      Good s' ⟨a.content, a.pos + (s.endPtr + 1 - s.ptr)⟩ ∧ s'.writePtr = none ∧
      a.pos + (s.endPtr + 1 - s.ptr) ≤ a.content.length ∧
      atEnd s' = decide (a.content.length ≤ a.pos + (s.endPtr + 1 - s.ptr)) ∧
      (a.pos + (s.endPtr + 1 - s.ptr) < a.content.length → s'.ptr ≤ s'.endPtr) := by
  have hr := h.reads hw
  have h1 := h.use hw (k := s.endPtr + 1 - s.ptr) (by omega)
  rw [show s.ptr + (s.endPtr + 1 - s.ptr) = s.endPtr + 1 by omega] at h1
  obtain ⟨t, g1, g2, g3, g4, g5, g6⟩ := fill_used h1 rfl n
  dsimp only at g5 g6
  have hroom := h.room
  have hle : a.pos + (s.endPtr + 1 - s.ptr) ≤ a.content.length := by
    have hf := h.file_eq hw
    have hps := h.pos
    by_cases he : 0 < s.endPtr
    · have := h.fd_le he
      rw [hf]
      omega
    · have := h.one
      omega
  refine ⟨t, g1, g2, g3, hle, atEnd_good g2 g3 hle, ?_⟩
  intro hlt
  rw [g4, g5]
  omega

theorem takeWhile_full {p : Nat → Bool} {l r : List Nat} (h : ¬ (l.takeWhile p).length < l.length) :
    (l ++ r).takeWhile p = l ++ r.takeWhile p := by
  rw [List.takeWhile_append]
  have := (List.takeWhile_prefix (l := l) p).length_le
  rw [if_pos (by omega)]

theorem takeWhile_part {p : Nat → Bool} {l r : List Nat} (h : (l.takeWhile p).length < l.length) :
    (l ++ r).takeWhile p = l.takeWhile p := by
  rw [List.takeWhile_append, if_neg (by omega)]

theorem upToLoop_good {c n : Nat} (k : Nat) {s : St} {a : Abs} (h : Good s a) (hw : s.writePtr = none)
    (hx : s.ptr ≤ s.endPtr) (hp : a.pos ≤ a.content.length) (hk : a.content.length - a.pos < k) (acc : List Nat) :
    ∃ s', upToLoop (n + 1) c k s acc = some (.bytes (acc ++ (a.content.drop a.pos).takeWhile (· ≠ c)), s') ∧
      Good s' ⟨a.content, min a.content.length (a.pos + ((a.content.drop a.pos).takeWhile (· ≠ c)).length + 1)⟩ ∧
      s'.writePtr = none := by
  induction k generalizing s a acc with
  | zero => omega
  | succ k ih =>
    have ha := h.ahead hw
    obtain ⟨t, g1, g2, g3, g4, g5, g6⟩ := refill h hw n hp
    have hsplit : a.content.drop a.pos = slice s.buf (s.ptr - 1) s.endPtr ++
        a.content.drop (a.pos + (s.endPtr + 1 - s.ptr)) := by
      rw [ha, ← List.drop_drop, List.take_append_drop]
    have hlen : (slice s.buf (s.ptr - 1) s.endPtr).length = s.endPtr + 1 - s.ptr := by
      rw [ha, List.length_take, List.length_drop]
      omega
    rw [upToLoop]
    split
    · rename_i hlt
      rw [hsplit, takeWhile_part hlt]
      refine ⟨_, rfl, ?_, hw⟩
      have := h.use hw (k := ((slice s.buf (s.ptr - 1) s.endPtr).takeWhile (· ≠ c)).length + 1) (by omega)
      rw [Nat.min_eq_right (by omega)]
      exact this
    · rename_i hlt
      rw [hsplit, takeWhile_full hlt, g1]
      simp only [Option.bind_some]
      rw [g5]
      split
      · rename_i he
        rw [decide_eq_true_eq] at he
        rw [List.drop_eq_nil_of_le (by omega), List.takeWhile_nil, List.append_nil]
        refine ⟨t, rfl, ?_, g3⟩
        rw [Nat.min_eq_left (by omega)]
        rwa [show a.content.length = a.pos + (s.endPtr + 1 - s.ptr) by omega]
      · rename_i he
        rw [decide_eq_true_eq] at he
        obtain ⟨u, e1, e2, e3⟩ := ih (a := ⟨a.content, a.pos + (s.endPtr + 1 - s.ptr)⟩) g2 g3 (g6 (by omega)) g4
          (by dsimp only; omega) (acc ++ slice s.buf (s.ptr - 1) s.endPtr)
        refine ⟨u, ?_, ?_, e3⟩
        · rw [e1, List.append_assoc]
        · rw [List.length_append, hlen]
          dsimp only at e2
          rwa [show a.pos + (s.endPtr + 1 - s.ptr + (List.takeWhile (fun x => decide (x ≠ c))
            (List.drop (a.pos + (s.endPtr + 1 - s.ptr)) a.content)).length) + 1 = a.pos + (s.endPtr + 1 - s.ptr) +
            (List.takeWhile (fun x => decide (x ≠ c))
              (List.drop (a.pos + (s.endPtr + 1 - s.ptr)) a.content)).length + 1 by omega]

/-- Where a line ends: at the end of the text, after a carriage return and a line feed, or after one of them. -/
def lineEnd (rest : List Nat) : Nat :=
  let line := rest.takeWhile fun c => c ≠ 13 ∧ c ≠ 10
  match rest.drop line.length with
  | [] => line.length
  | 13 :: 10 :: _ => line.length + 2
  | _ => line.length + 1

theorem peekForNl_good {s : St} {a : Abs} (h : Good s a) (hp : a.pos ≤ a.content.length) (n : Nat) :
    ∃ s', peekForNl (n + 1) s = some s' ∧
      Good s' ⟨a.content, if a.content[a.pos]? = some 10 then a.pos + 1 else a.pos⟩ ∧ s'.writePtr = none := by
  obtain ⟨t, h1, h2, h3⟩ := peek_good h hp n
  unfold peekForNl
  rw [h1]
  simp only [Option.bind_some]
  by_cases hc : a.content[a.pos]? = some 10
  · rw [hc]
    dsimp only
    rw [if_pos rfl, if_pos rfl]
    obtain ⟨u, g1, g2, g3⟩ := next_good h2 hp n
    rw [g1]
    have hl := (List.getElem?_eq_some_iff.mp hc).1
    rw [if_pos hl] at g2
    exact ⟨u, rfl, g2, g3⟩
  · rw [if_neg, if_neg hc]
    · exact ⟨t, rfl, h2, h3⟩
    · cases hg : a.content[a.pos]? with
      | none => simp
      | some c =>
        rw [hg] at hc
        simp only [Option.some.injEq] at hc
        simpa using hc

theorem lineEnd_stop {l r : List Nat}
    (h : (l.takeWhile fun c => c ≠ 13 ∧ c ≠ 10).length < l.length) :
    lineEnd (l ++ r) = (l.takeWhile fun c => c ≠ 13 ∧ c ≠ 10).length +
      if l.getD (l.takeWhile fun c => c ≠ 13 ∧ c ≠ 10).length 0 = 13 ∧
        (l ++ r)[(l.takeWhile fun c => c ≠ 13 ∧ c ≠ 10).length + 1]? = some 10 then 2 else 1 := by
  unfold lineEnd
  dsimp only
  rw [takeWhile_part h]
  generalize (l.takeWhile fun c => decide (c ≠ 13 ∧ c ≠ 10)).length = k at h ⊢
  have e0 : (l ++ r).drop k = l.getD k 0 :: (l ++ r).drop (k + 1) := by
    rw [List.drop_eq_getElem_cons (by rw [List.length_append]; omega), List.getElem_append_left h, getD_eq,
      List.getElem?_eq_getElem h]
    rfl
  rw [e0]
  generalize l.getD k 0 = x
  cases hd : (l ++ r).drop (k + 1) with
  | nil =>
    rw [List.getElem?_eq_none (List.drop_eq_nil_iff.mp hd), if_neg (by simp)]
    split
    · rename_i he; cases he
    · rename_i he; cases he
    · rfl
  | cons y ys =>
    have hy : (l ++ r)[k + 1]? = some y := by
      have := congrArg (fun z => z[0]?) hd
      rwa [List.getElem?_drop, Nat.add_zero] at this
    rw [hy]
    split
    · rename_i he; cases he
    · rename_i he
      simp only [List.cons.injEq] at he
      rw [if_pos ⟨he.1, by rw [he.2.1]⟩]
    · rename_i he1 he2
      rw [if_neg]
      rintro ⟨rfl, he⟩
      simp only [Option.some.injEq] at he
      subst he
      exact he2 _ rfl

theorem lineEnd_full {l r : List Nat} (h : ¬ (l.takeWhile fun c => c ≠ 13 ∧ c ≠ 10).length < l.length) :
    lineEnd (l ++ r) = l.length + lineEnd r := by
  unfold lineEnd
  dsimp only
  rw [takeWhile_full h, List.length_append, List.drop_append, List.drop_eq_nil_of_le (by omega), List.nil_append,
    Nat.add_sub_cancel_left]
  split <;> omega

theorem lineLoop_good {n : Nat} (k : Nat) {s : St} {a : Abs} (h : Good s a) (hw : s.writePtr = none)
    (hx : s.ptr ≤ s.endPtr) (hp : a.pos ≤ a.content.length) (hk : a.content.length - a.pos < k) (acc : List Nat) :
    ∃ s', lineLoop (n + 1) k s acc =
        some (.bytes (acc ++ (a.content.drop a.pos).takeWhile fun c => c ≠ 13 ∧ c ≠ 10), s') ∧
      Good s' ⟨a.content, a.pos + lineEnd (a.content.drop a.pos)⟩ ∧ s'.writePtr = none := by
  induction k generalizing s a acc with
  | zero => omega
  | succ k ih =>
    have ha := h.ahead hw
    obtain ⟨t, g1, g2, g3, g4, g5, g6⟩ := refill h hw n hp
    have hsplit : a.content.drop a.pos = slice s.buf (s.ptr - 1) s.endPtr ++
        a.content.drop (a.pos + (s.endPtr + 1 - s.ptr)) := by
      rw [ha, ← List.drop_drop, List.take_append_drop]
    have hlen : (slice s.buf (s.ptr - 1) s.endPtr).length = s.endPtr + 1 - s.ptr := by
      rw [ha, List.length_take, List.length_drop]
      omega
    rw [lineLoop]
    dsimp only
    split
    · rename_i hlt
      have hend := lineEnd_stop (r := a.content.drop (a.pos + (s.endPtr + 1 - s.ptr))) hlt
      have hget : ∀ i, (slice s.buf (s.ptr - 1) s.endPtr ++ a.content.drop (a.pos + (s.endPtr + 1 - s.ptr)))[i]? =
          a.content[a.pos + i]? := by
        intro i
        rw [← hsplit, List.getElem?_drop]
      rw [hget] at hend
      rw [hsplit, takeWhile_part hlt, hend]
      have hu := h.use hw
        (k := ((slice s.buf (s.ptr - 1) s.endPtr).takeWhile fun c => c ≠ 13 ∧ c ≠ 10).length + 1) (by omega)
      generalize hq : ((slice s.buf (s.ptr - 1) s.endPtr).takeWhile fun c => decide (c ≠ 13 ∧ c ≠ 10)) = q
        at hu hlt ⊢
      split
      · rename_i hcr
        obtain ⟨u, e1, e2, e3⟩ := peekForNl_good hu (by dsimp only; omega) n
        rw [show s.ptr + q.length + 1 = s.ptr + (q.length + 1) by omega, e1]
        refine ⟨u, rfl, ?_, e3⟩
        rw [hcr]
        dsimp only at e2
        by_cases h10 : a.content[a.pos + (q.length + 1)]? = some 10
        · rw [if_pos h10] at e2
          rw [if_pos ⟨rfl, h10⟩]
          exact e2
        · rw [if_neg h10] at e2
          rw [if_neg fun h => h10 h.2]
          exact e2
      · rename_i hcr
        refine ⟨_, rfl, ?_, hw⟩
        rw [if_neg fun h => hcr h.1]
        exact hu
    · rename_i hlt
      rw [hsplit, takeWhile_full hlt, lineEnd_full hlt, g1, hlen]
      simp only [Option.bind_some]
      rw [g5]
      split
      · rename_i he
        rw [decide_eq_true_eq] at he
        rw [List.drop_eq_nil_of_le (by omega), List.takeWhile_nil, List.append_nil]
        exact ⟨t, rfl, g2, g3⟩
      · rename_i he
        rw [decide_eq_true_eq] at he
        obtain ⟨u, e1, e2, e3⟩ := ih (a := ⟨a.content, a.pos + (s.endPtr + 1 - s.ptr)⟩) g2 g3 (g6 (by omega)) g4
          (by dsimp only; omega) (acc ++ slice s.buf (s.ptr - 1) s.endPtr)
        refine ⟨u, ?_, ?_, e3⟩
        · rw [e1, List.append_assoc]
        · dsimp only at e2
          rwa [Nat.add_assoc] at e2

theorem nextAvailable_good {s : St} {a : Abs} (h : Good s a) (n m : Nat) :
    ∃ d s', nextAvailable (n + 1) s m = some (d, s') ∧ d = (a.content.drop a.pos).take d.length ∧ d.length ≤ m ∧
      Good s' ⟨a.content, a.pos + d.length⟩ ∧ s'.writePtr = none ∧
      (0 < m → a.pos < a.content.length → 0 < d.length) := by
  obtain ⟨t, h1, h2, h3, -⟩ := settle_good h n
  unfold nextAvailable
  rw [h1]
  simp only [Option.bind_some]
  have key : ∀ t, Good t a → t.writePtr = none → (a.pos < a.content.length → t.ptr ≤ t.endPtr) →
      ∃ d s', (d, s') = (slice t.buf (t.ptr - 1) (min t.endPtr (t.ptr + m - 1)),
          { t with ptr := t.ptr + (min t.endPtr (t.ptr + m - 1) + 1 - t.ptr) }) ∧
        d = (a.content.drop a.pos).take d.length ∧ d.length ≤ m ∧
        Good s' ⟨a.content, a.pos + d.length⟩ ∧ s'.writePtr = none ∧
        (0 < m → a.pos < a.content.length → 0 < d.length) := by
    intro t h2 h3 h4
    have hr := h2.reads h3
    have ho := h2.one
    have hb := h2.endB
    have hlen : (slice t.buf (t.ptr - 1) (min t.endPtr (t.ptr + m - 1))).length =
        min t.endPtr (t.ptr + m - 1) + 1 - t.ptr := by
      rw [slice_length]
      omega
    have hq : min t.endPtr (t.ptr + m - 1) ≤ t.endPtr := Nat.min_le_left ..
    refine ⟨_, _, rfl, ?_, ?_, ?_, h3, ?_⟩
    · rw [hlen]
      have e := congrArg (List.take (min t.endPtr (t.ptr + m - 1) + 1 - t.ptr)) (h2.ahead h3)
      generalize min t.endPtr (t.ptr + m - 1) = q at e hq
      by_cases hqp : t.ptr ≤ q + 1
      · rw [slice, List.take_take, List.take_take, Nat.min_eq_left (by omega), Nat.min_eq_left (by omega)] at e
        rw [slice, ← e]
        congr 1
        omega
      · rw [slice, show q - (t.ptr - 1) = 0 by omega, show q + 1 - t.ptr = 0 by omega, List.take_zero, List.take_zero]
    · rw [hlen]
      omega
    · rw [hlen]
      exact h2.use h3 (by omega)
    · intro hm hlt
      have := h4 hlt
      rw [hlen]
      omega
  have hr := h2.reads h3
  split
  · rename_i hx
    obtain ⟨u, g1, g2, g3, g4, g5, g6⟩ := fill_used h2 (by omega) n
    have hroom := h2.room
    obtain ⟨d, s', e, e'⟩ := key u g2 g3 (by intro hlt; rw [g4, g5]; omega)
    rw [g1]
    refine ⟨d, s', ?_, e'⟩
    rw [e]
    rfl
  · rename_i hx
    obtain ⟨d, s', e, e'⟩ := key t h2 h3 (by intro _; omega)
    refine ⟨d, s', ?_, e'⟩
    rw [e]
    rfl

/-- A stream says that it is at the end only if it is. -/
theorem atEnd_sound {s : St} {a : Abs} (h : Good s a) (he : atEnd s = true) : a.content.length ≤ a.pos := by
  simp only [atEnd, Bool.and_eq_true, decide_eq_true_eq, beq_iff_eq] at he
  have hps := h.pos
  have ho := h.one
  rw [h.cont]
  cases hw : s.writePtr with
  | none =>
    have := h.reads hw
    rw [pend, hw, writeAt_nil]
    omega
  | some w =>
    obtain ⟨h1, h2, h3⟩ := h.writes w hw
    have hl := h.pend_length hw
    by_cases hd : pend s = []
    · rw [hd] at hl ⊢
      rw [writeAt_nil]
      rw [List.length_nil] at hl
      omega
    · rw [writeAt_length _ _ hd]
      omega

/-- `next:`; one round more may be needed if something is still to be written. -/
theorem nextLoop_good {n : Nat} (k : Nat) {s : St} {a : Abs} (h : Good s a) (hp : a.pos ≤ a.content.length) (m : Nat)
    (hk : m + (if s.writePtr = none then 0 else 1) < k) (acc : List Nat) :
    ∃ s', nextLoop (n + 1) k s m acc = some ((if a.pos + m ≤ a.content.length then
        .bytes (acc ++ (a.content.drop a.pos).take m) else .error), s') ∧
      Good s' ⟨a.content, min a.content.length (a.pos + m)⟩ ∧
      ((m = 0 ∨ a.content.length ≤ a.pos) → s' = s ∨ (s'.writePtr = none ∧ (Used s → Used s'))) ∧
      (s.writePtr = none ∨ (0 < m ∧ a.pos < a.content.length) → s'.writePtr = none) := by
  induction k generalizing s a m acc with
  | zero => omega
  | succ k ih =>
    rw [nextLoop]
    split
    · rename_i hm
      subst hm
      refine ⟨s, ?_, ?_, fun _ => Or.inl rfl, ?_⟩
      · rw [if_pos (by omega), List.take_zero, List.append_nil]
      · rw [Nat.min_eq_right (by omega)]
        exact h
      · rintro (hw | hw)
        · exact hw
        · omega
    · rename_i hm
      split
      · rename_i he
        have hle := atEnd_sound h he
        refine ⟨s, ?_, ?_, fun _ => Or.inl rfl, ?_⟩
        · rw [if_neg (by omega)]
        · rw [Nat.min_eq_left (by omega)]
          rwa [show a.content.length = a.pos by omega]
        · rintro (hw | hw)
          · exact hw
          · omega
      · rename_i he
        obtain ⟨d, t, g1, g2, g3, g4, g5, g6⟩ := nextAvailable_good h n m
        rw [g1]
        simp only [Option.bind_some]
        have hdl : a.pos + d.length ≤ a.content.length := by
          have := congrArg List.length g2
          rw [List.length_take, List.length_drop] at this
          omega
        have hprog : s.writePtr = none → 0 < d.length := by
          intro hw
          apply g6 (by omega)
          rw [atEnd_good h hw hp] at he
          rw [decide_eq_true_eq] at he
          omega
        obtain ⟨u, e1, e2, e3, e4⟩ := ih (a := ⟨a.content, a.pos + d.length⟩) g4 hdl (m - d.length) (by
          rw [if_pos g5]
          split at hk
          · rename_i hw
            have := hprog hw
            omega
          · omega) (acc ++ d)
        refine ⟨u, ?_, ?_, ?_, ?_⟩
        · rw [e1]
          dsimp only
          by_cases hc : a.pos + m ≤ a.content.length
          · rw [if_pos hc, if_pos (by omega), List.append_assoc]
            congr 3
            have : (a.content.drop a.pos).take m = d ++ (a.content.drop (a.pos + d.length)).take (m - d.length) := by
              have e : m = d.length + (m - d.length) := by omega
              rw [← List.drop_drop]
              generalize m - d.length = q at e
              rw [e, List.take_add, ← g2]
            rw [this]
          · rw [if_neg hc, if_neg (by omega)]
        · dsimp only at e2
          rwa [show a.pos + d.length + (m - d.length) = a.pos + m by omega] at e2
        · intro hc
          have hend : a.content.length ≤ a.pos := by omega
          have hd0 : d.length = 0 := by omega
          have hw : s.writePtr ≠ none := fun hw => by have := hprog hw; omega
          right
          have hu := e4 (Or.inl g5)
          refine ⟨hu, fun _ _ => ?_⟩
          have hp1 := e2.pos
          have hp2 := e2.reads hu
          have hp3 := e2.file_eq hu
          dsimp only at hp1 hp3
          by_cases he : 0 < u.endPtr
          · have := e2.fd_le he
            rw [← hp3] at this
            omega
          · have := e2.one
            omega
        · intro _
          exact e4 (Or.inl g5)

theorem restLoop_good {n : Nat} (k : Nat) {s : St} {a : Abs} (h : Good s a) (hw : s.writePtr = none)
    (hx : a.pos < a.content.length → s.ptr ≤ s.endPtr) (hp : a.pos ≤ a.content.length)
    (hk : a.content.length - a.pos < k) (acc : List Nat) :
    ∃ s', restLoop (n + 1) k s acc = some (.bytes (acc ++ a.content.drop a.pos), s') ∧
      Good s' ⟨a.content, a.content.length⟩ ∧ s'.writePtr = none := by
  induction k generalizing s a acc with
  | zero => omega
  | succ k ih =>
    rw [restLoop, atEnd_good h hw hp]
    split
    · rename_i he
      rw [decide_eq_true_eq] at he
      refine ⟨s, ?_, ?_, hw⟩
      · rw [List.drop_eq_nil_of_le he, List.append_nil]
      · rwa [show a.content.length = a.pos by omega]
    · rename_i he
      rw [decide_eq_true_eq] at he
      have hps := h.pos
      have hx := hx (by omega)
      have hem : Empty (reset s) ⟨a.content, a.pos + (s.endPtr + 1 - s.ptr)⟩ := by
        refine ⟨h.room, rfl, rfl, rfl, (h.file_eq hw).symm, ?_⟩
        show s.fd = a.pos + (s.endPtr + 1 - s.ptr)
        omega
      obtain ⟨t, g1, g2, g3, g4, g5, g6⟩ := fill_used hem.good rfl n
      rw [g1]
      simp only [Option.bind_some]
      have hle : a.pos + (s.endPtr + 1 - s.ptr) ≤ a.content.length := by
        have hf := h.file_eq hw
        have := h.fd_le (by have := h.one; omega)
        rw [hf]
        omega
      have hroom := h.room
      obtain ⟨u, e1, e2, e3⟩ := ih g2 g3 (by
          intro hlt
          dsimp only at hlt g5
          rw [g4, g5]
          have : (reset s).buf.length = s.buf.length := rfl
          omega) hle (by dsimp only; omega) (acc ++ slice s.buf (s.ptr - 1) s.endPtr)
      refine ⟨u, ?_, e2, e3⟩
      rw [e1, List.append_assoc]
      congr 3
      rw [h.ahead hw, ← List.drop_drop, List.take_append_drop]

end Verif.Files
