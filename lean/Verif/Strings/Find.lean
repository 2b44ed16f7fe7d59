import Verif.Strings.Model
import Mathlib.Data.List.Infix
import Mathlib.Tactic.Ring
import Mathlib.Tactic.Linarith

/-!
# Finding and replacing
-/

namespace Verif.Strings

variable {α : Type} [DecidableEq α]

/-- Somewhere the text starts with `sub`. -/
def At (xs sub : List α) (j : ℕ) : Prop := 1 ≤ j ∧ sub <+: xs.drop (j - 1)

instance (xs sub : List α) (j : ℕ) : Decidable (At xs sub j) := by unfold At; infer_instance

omit [DecidableEq α] in
theorem At.le {xs sub : List α} {j : ℕ} (h : At xs sub j) (hs : sub ≠ []) : j + sub.length ≤ xs.length + 1 := by
  have h1 := h.2.length_le
  have h2 := List.length_pos_iff.2 hs
  rw [List.length_drop] at h1
  have := h.1
  omega

theorem matches_iff {xs sub : List α} {j : ℕ} (hs : sub ≠ []) (hj : 1 ≤ j) :
    (decide (xs[j - 1]? = sub[0]?) && matchSub xs sub j) = true ↔ At xs sub j := by
  have hl := List.length_pos_iff.2 hs
  unfold matchSub At
  rw [List.prefix_iff_getElem?]
  simp only [Bool.and_eq_true, decide_eq_true_eq, List.all_eq_true, List.mem_range, List.getElem?_drop]
  constructor
  · rintro ⟨h1, h2⟩
    refine ⟨hj, fun i hi => ?_⟩
    rcases Nat.eq_zero_or_pos i with h | h
    · subst h
      rw [Nat.add_zero, h1, List.getElem?_eq_getElem hi]
    · have := h2 (i - 1) (by omega)
      rw [show j - 1 + i = j + (i - 1) by omega, this, show i - 1 + 1 = i by omega, List.getElem?_eq_getElem hi]
  · rintro ⟨_, h⟩
    refine ⟨?_, fun k hk => ?_⟩
    · have := h 0 hl
      rw [Nat.add_zero] at this
      rw [this, List.getElem?_eq_getElem hl]
    · have := h (k + 1) (by omega)
      rw [show j - 1 + (k + 1) = j + k by omega] at this
      rw [this, List.getElem?_eq_getElem (by omega)]

theorem find_range' {p : ℕ → Bool} {a n j : ℕ} :
    (List.range' a n).find? p = some j ↔ a ≤ j ∧ j < a + n ∧ p j = true ∧ ∀ k, a ≤ k → k < j → p k = false := by
  induction n generalizing a with
  | zero => simp; omega
  | succ n ih =>
    rw [List.range'_succ, List.find?_cons]
    cases hp : p a with
    | true =>
      simp only [Option.some.injEq]
      constructor
      · rintro rfl
        exact ⟨le_refl _, by omega, hp, fun k _ _ => by omega⟩
      · rintro ⟨h1, _, _, h4⟩
        rcases Nat.lt_or_ge a j with h | h
        · rw [h4 a (le_refl _) h] at hp; exact absurd hp (by simp)
        · omega
    | false =>
      simp only
      rw [ih]
      constructor
      · rintro ⟨h1, h2, h3, h4⟩
        refine ⟨by omega, by omega, h3, fun k hk hj => ?_⟩
        rcases Nat.eq_or_lt_of_le hk with h | h
        · subst h; exact hp
        · exact h4 k h hj
      · rintro ⟨h1, h2, h3, h4⟩
        have : a ≠ j := fun e => by rw [e, h3] at hp; simp at hp
        exact ⟨by omega, by omega, h3, fun k hk hj => h4 k (by omega) hj⟩

theorem find_range'_none {p : ℕ → Bool} {a n : ℕ} :
    (List.range' a n).find? p = none ↔ ∀ k, a ≤ k → k < a + n → p k = false := by
  rw [List.find?_eq_none]
  simp only [List.mem_range'_1, Bool.not_eq_true, and_imp]

theorem indexOfSub_some {xs sub : List α} {i j : ℕ} (hs : sub ≠ []) (hi : 1 ≤ i) :
    indexOfSub xs sub i = some j ↔ i ≤ j ∧ At xs sub j ∧ ∀ k, i ≤ k → k < j → ¬ At xs sub k := by
  have hl := List.length_pos_iff.2 hs
  unfold indexOfSub
  rw [if_neg (by omega)]
  by_cases h : i + sub.length - 1 ≤ xs.length
  · rw [if_pos h, find_range']
    constructor
    · rintro ⟨h1, h2, h3, h4⟩
      refine ⟨h1, (matches_iff hs (by omega)).1 h3, fun k hk hj => ?_⟩
      rw [← matches_iff hs (by omega), h4 k hk hj]
      simp
    · rintro ⟨h1, h2, h3⟩
      have := h2.le hs
      refine ⟨h1, by omega, (matches_iff hs h2.1).2 h2, fun k hk hj => ?_⟩
      rw [← Bool.not_eq_true, matches_iff hs (by omega)]
      exact h3 k hk hj
  · rw [if_neg h]
    simp only [reduceCtorEq, false_iff]
    rintro ⟨h1, h2, h3⟩
    have := h2.le hs
    omega

theorem indexOfSub_none {xs sub : List α} {i : ℕ} (hs : sub ≠ []) (hi : 1 ≤ i) :
    indexOfSub xs sub i = none ↔ ∀ k, i ≤ k → ¬ At xs sub k := by
  have hl := List.length_pos_iff.2 hs
  unfold indexOfSub
  rw [if_neg (by omega)]
  by_cases h : i + sub.length - 1 ≤ xs.length
  · rw [if_pos h, find_range'_none]
    constructor
    · intro h1 k hk ha
      have := ha.le hs
      have h2 := h1 k hk (by omega)
      rw [(matches_iff hs (by omega)).2 ha] at h2
      simp at h2
    · intro h1 k hk hj
      rw [← Bool.not_eq_true, matches_iff hs (by omega)]
      exact h1 k hk
  · rw [if_neg h]
    simp only [true_iff]
    intro k hk ha
    have := ha.le hs
    omega

/-! ### Replacing -/

/-- Replacing from the left, one occurrence after the other, until there are none. -/
inductive Replaced (old new : List α) : List α → List α → Prop
  | stop {xs : List α} : ¬ old <:+: xs → Replaced old new xs xs
  | step {a rest r : List α} : (∀ k < a.length, ¬ old <+: (a ++ old ++ rest).drop k) → Replaced old new rest r →
      Replaced old new (a ++ old ++ rest) (a ++ new ++ r)

omit [DecidableEq α] in
theorem infix_iff_drop {old xs : List α} : old <:+: xs ↔ ∃ k, old <+: xs.drop k := by
  constructor
  · rintro ⟨a, b, h⟩
    refine ⟨a.length, b, ?_⟩
    rw [← h, List.append_assoc, List.drop_left]
  · rintro ⟨k, b, h⟩
    exact ⟨xs.take k, b, by rw [List.append_assoc, h, List.take_append_drop]⟩

omit [DecidableEq α] in
theorem replaced_exists (old new : List α) (ho : old ≠ []) : ∀ (n : ℕ) (xs : List α), xs.length < n → ∃ r, Replaced old new xs r := by
  intro n
  induction n with
  | zero => intro xs h; omega
  | succ n ih =>
    intro xs hn
    by_cases h : old <:+: xs
    · classical
      have h1 := infix_iff_drop.1 h
      obtain ⟨b, hb⟩ := Nat.find_spec h1
      have h2 : ∀ k < Nat.find h1, ¬ old <+: xs.drop k := fun k hk => Nat.find_min h1 hk
      generalize Nat.find h1 = k at hb h2
      have hl := List.length_pos_iff.2 ho
      have hlen := congrArg List.length hb
      rw [List.length_append, List.length_drop] at hlen
      have hxs : xs = xs.take k ++ old ++ b := by rw [List.append_assoc, hb, List.take_append_drop]
      obtain ⟨r, hr⟩ := ih b (by omega)
      have h3 : (xs.take k).length = k := by rw [List.length_take]; omega
      refine ⟨xs.take k ++ new ++ r, ?_⟩
      have h4 := Replaced.step (old := old) (new := new) (a := xs.take k) (rest := b) (r := r) (by rw [h3, ← hxs]; exact h2) hr
      rw [← hxs] at h4
      exact h4
    · exact ⟨xs, .stop h⟩

omit [DecidableEq α] in
theorem replaced_unique {old new xs r s : List α} (h : Replaced old new xs r) (g : Replaced old new xs s) : r = s := by
  induction h generalizing s with
  | stop h =>
    cases g with
    | stop => rfl
    | @step a rest r _ _ => exact absurd ⟨a, rest, rfl⟩ h
  | @step a rest r hk _ ih =>
    generalize hx : a ++ old ++ rest = y at g
    cases g with
    | stop g => exact absurd ⟨a, rest, hx⟩ g
    | @step b rest' r' gk gr =>
      have h1 : a.length = b.length := by
        rcases Nat.lt_trichotomy a.length b.length with h | h | h
        · refine absurd ?_ (gk _ h)
          rw [← hx, List.append_assoc, List.drop_left]
          exact List.prefix_append _ _
        · exact h
        · refine absurd ?_ (hk _ h)
          rw [hx, List.append_assoc, List.drop_left]
          exact List.prefix_append _ _
      rw [List.append_assoc, List.append_assoc] at hx
      obtain ⟨rfl, h2⟩ := List.append_inj hx h1
      have h3 := List.append_cancel_left h2
      subst h3
      rw [ih gr]

omit [DecidableEq α] in
theorem at_append {pre rest old : List α} {k : ℕ} (hk : pre.length + 1 ≤ k) :
    At (pre ++ rest) old k ↔ old <+: rest.drop (k - 1 - pre.length) := by
  unfold At
  rw [show k - 1 = pre.length + (k - 1 - pre.length) by omega, List.drop_length_add_append]
  simp only [Nat.add_sub_cancel_left]
  constructor
  · exact fun h => h.2
  · exact fun h => ⟨by omega, h⟩

theorem find_stop {pre rest old : List α} (ho : old ≠ []) (h : ¬ old <:+: rest) :
    indexOfSub (pre ++ rest) old (pre.length + 1) = none := by
  rw [indexOfSub_none ho (by omega)]
  intro k hk
  rw [at_append hk]
  exact fun hc => h (infix_iff_drop.2 ⟨_, hc⟩)

theorem find_step {pre a rest old : List α} (ho : old ≠ []) (h : ∀ k < a.length, ¬ old <+: (a ++ old ++ rest).drop k) :
    indexOfSub (pre ++ (a ++ old ++ rest)) old (pre.length + 1) = some (pre.length + 1 + a.length) := by
  rw [indexOfSub_some ho (by omega)]
  refine ⟨by omega, ?_, fun k hk hj => ?_⟩
  · rw [at_append (by omega), show pre.length + 1 + a.length - 1 - pre.length = a.length by omega, List.append_assoc, List.drop_left]
    exact List.prefix_append _ _
  · rw [at_append hk]
    exact h _ (by omega)

theorem count_replaced {old new rest r : List α} (ho : old ≠ []) (h : Replaced old new rest r) :
    ∀ (pre : List α) (n c0 : ℕ), rest.length < n →
      ∃ c, count (pre ++ rest) old n (pre.length + 1) c0 = .done (c0 + c) ∧
        (r.length : ℤ) = rest.length + ((new.length : ℤ) - old.length) * c := by
  induction h with
  | stop h =>
    intro pre n c0 hn
    cases n with
    | zero => omega
    | succ n =>
      refine ⟨0, ?_, by simp⟩
      unfold count
      rw [find_stop ho h]
      simp
  | @step a rest r hk _ ih =>
    intro pre n c0 hn
    have hl := List.length_pos_iff.2 ho
    simp only [List.length_append] at hn
    cases n with
    | zero => omega
    | succ n =>
      obtain ⟨c, h1, h2⟩ := ih (pre ++ (a ++ old)) n (c0 + 1) (by omega)
      refine ⟨c + 1, ?_, ?_⟩
      · unfold count
        rw [find_step ho hk]
        simp only
        rw [List.append_assoc] at h1
        simp only [List.length_append] at h1
        rw [show pre.length + 1 + a.length + old.length = pre.length + (a.length + old.length) + 1 by omega, h1]
        congr 1
        omega
      · simp only [List.length_append, Nat.cast_add, Nat.cast_one]
        rw [h2]
        ring

theorem append_replaced {old new rest r : List α} (ho : old ≠ []) (h : Replaced old new rest r) :
    ∀ (pre dst : List α) (n : ℕ), rest.length < n →
      appendLoop (pre ++ rest) old new n dst (pre.length + 1) = .done (dst ++ r) := by
  induction h with
  | stop h =>
    intro pre dst n hn
    cases n with
    | zero => omega
    | succ n =>
      unfold appendLoop
      rw [find_stop ho h]
      simp
  | @step a rest r hk _ ih =>
    intro pre dst n hn
    have hl := List.length_pos_iff.2 ho
    simp only [List.length_append] at hn
    cases n with
    | zero => omega
    | succ n =>
      have h1 := ih (pre ++ (a ++ old)) (dst ++ a ++ new) n (by omega)
      unfold appendLoop
      rw [find_step ho hk]
      simp only
      rw [List.append_assoc] at h1
      simp only [List.length_append] at h1
      rw [show pre.length + 1 + a.length - (pre.length + 1) = a.length by omega, show pre.length + 1 - 1 = pre.length by omega,
        List.drop_left, List.append_assoc a old rest, List.take_left,
        show pre.length + 1 + a.length + old.length = pre.length + (a.length + old.length) + 1 by omega]
      rw [← List.append_assoc a old rest, h1]
      simp [List.append_assoc]

omit [DecidableEq α] in
/-- Putting `part` where there is room. -/
theorem replace_room {out room rest part pre post : List α} (h : room.length = part.length) :
    replaceFrom (out ++ room ++ rest) (out.length + 1) (out.length + part.length) (pre ++ part ++ post) (pre.length + 1) =
      .done (out ++ part ++ rest) := by
  unfold replaceFrom
  simp only [List.length_append]
  rw [if_neg (by omega)]
  congr 1
  rw [show out.length + 1 - 1 = out.length by omega, show pre.length + 1 - 1 = pre.length by omega,
    show out.length + part.length + 1 - (out.length + 1) = part.length by omega,
    List.append_assoc out room rest, List.take_left, List.append_assoc pre part post, List.drop_left, List.take_left,
    ← List.append_assoc out room rest, show out.length + part.length = (out ++ room).length by simp [h], List.drop_left]

omit [DecidableEq α] in
theorem split_room (l : List α) (a b : ℕ) (h : l.length = a + b) : ∃ x y, l = x ++ y ∧ x.length = a ∧ y.length = b :=
  ⟨l.take a, l.drop a, (List.take_append_drop _ _).symm, by simp; omega, by simp; omega⟩

theorem replace_replaced {old new rest r : List α} (ho : old ≠ []) (h : Replaced old new rest r) :
    ∀ (pre out room : List α) (n : ℕ), rest.length < n → room.length = r.length →
      replaceLoop (pre ++ rest) old new n (out ++ room) (pre.length + 1) (out.length + 1) = .done (out ++ r) := by
  induction h with
  | @stop xs h =>
    intro pre out room n hn hr
    cases n with
    | zero => omega
    | succ n =>
      unfold replaceLoop
      rw [find_stop ho h]
      simp only
      have := replace_room (out := out) (room := room) (rest := []) (part := xs) (pre := pre) (post := []) hr
      simp only [List.append_nil] at this
      rw [← this, List.length_append, hr]
  | @step a rest r hk _ ih =>
    intro pre out room n hn hr
    have hl := List.length_pos_iff.2 ho
    simp only [List.length_append] at hn hr
    cases n with
    | zero => omega
    | succ n =>
      obtain ⟨r1, r23, rfl, hr1, hr23⟩ := split_room room a.length (new.length + r.length) (by omega)
      obtain ⟨r2, r3, rfl, hr2, hr3⟩ := split_room r23 new.length r.length hr23
      have h1 := ih (pre ++ (a ++ old)) (out ++ a ++ new) r3 n (by omega) hr3
      unfold replaceLoop
      rw [find_step ho hk]
      simp only
      have e1 := replace_room (out := out) (room := r1) (rest := r2 ++ r3) (part := a) (pre := pre) (post := old ++ rest) hr1
      have e2 := replace_room (out := out ++ a) (room := r2) (rest := r3) (part := new) (pre := []) (post := []) hr2
      rw [show pre.length + 1 + a.length - (pre.length + 1) = a.length by omega,
        show out.length + 1 + a.length - 1 = out.length + a.length by omega]
      simp only [List.append_assoc] at e1 e2 h1 ⊢
      rw [e1]
      simp only [Out.bind]
      simp only [List.length_append, List.length_nil, Nat.zero_add, List.nil_append, List.append_nil] at e2 h1
      rw [show out.length + 1 + a.length + new.length - 1 = out.length + a.length + new.length by omega,
        show out.length + 1 + a.length = out.length + a.length + 1 by omega, e2]
      simp only
      rw [show pre.length + 1 + a.length + old.length = pre.length + (a.length + old.length) + 1 by omega,
        show out.length + a.length + 1 + new.length = out.length + (a.length + new.length) + 1 by omega, h1]

theorem copyReplaceAll_eq {old new xs r : List α} (ho : old ≠ []) (h : Replaced old new xs r) (z : α) (n : ℕ) (hn : xs.length < n) :
    copyReplaceAll n z xs old new = .done r ∧ copyReplaceAllSeq n xs old new = .done r := by
  obtain ⟨c, h1, h2⟩ := count_replaced ho h [] n 0 hn
  simp only [List.nil_append, List.length_nil, Nat.zero_add] at h1
  unfold copyReplaceAll copyReplaceAllSeq
  rw [h1]
  simp only [Out.bind]
  constructor
  · have := replace_replaced ho h [] [] (List.replicate r.length z) n hn (by simp)
    simp only [List.nil_append, List.length_nil, Nat.zero_add] at this
    rw [← h2, Int.toNat_natCast, this]
  · have := append_replaced ho h [] [] n hn
    simpa using this

theorem count_empty (xs : List α) : ∀ (n i c : ℕ), count xs [] n i c = .never := by
  intro n
  induction n with
  | zero => intros; rfl
  | succ n ih => intro i c; simp [count, indexOfSub, ih]

end Verif.Strings
