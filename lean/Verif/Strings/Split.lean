import Verif.Strings.Find
import Mathlib.Data.Nat.Digits.Defs

/-!
# Splitting, joining, trimming
-/

namespace Verif.Strings

variable {α : Type}

/-- The words of a text of which `cur` was read. -/
def words (sep : α → Bool) : List α → List α → List (List α)
  | cur, [] => if cur.isEmpty then [] else [cur]
  | cur, c :: cs => if sep c then (if cur.isEmpty then words sep [] cs else cur :: words sep [] cs) else words sep (cur ++ [c]) cs

theorem words_split (sep : α → Bool) (cur xs : List α) :
    words sep cur xs = ((xs.splitOnP sep).modifyHead (cur ++ ·)).filter fun w => !w.isEmpty := by
  induction xs generalizing cur with
  | nil =>
    rw [List.splitOnP_nil]
    cases cur <;> simp [words]
  | cons c cs ih =>
    rw [List.splitOnP_cons_eq_if_modifyHead]
    unfold words
    by_cases h : sep c
    · rw [if_pos h, if_pos h]
      have := ih []
      have e : (List.splitOnP sep cs).modifyHead (fun x => [] ++ x) = List.splitOnP sep cs := by
        cases List.splitOnP sep cs <;> simp
      rw [e] at this
      cases cur <;> simp [this]
    · rw [if_neg h, if_neg h, ih]
      congr 1
      cases List.splitOnP sep cs <;> simp

theorem split_loop [DecidableEq α] (sep : α → Bool) : ∀ (rest pre cur : List α) (acc : List (List α)),
    (let s := (List.range' (pre.length + cur.length + 1) rest.length).foldl (splitStep sep (pre ++ cur ++ rest)) (pre.length + 1, acc)
     if s.1 ≤ (pre ++ cur ++ rest).length then s.2 ++ [copyFrom (pre ++ cur ++ rest) s.1 (pre ++ cur ++ rest).length] else s.2) =
      acc ++ words sep cur rest := by
  intro rest
  induction rest with
  | nil =>
    intro pre cur acc
    simp only [List.length_nil, List.range'_zero, List.foldl_nil, List.append_nil, List.length_append, words]
    cases cur with
    | nil => rw [if_neg (by simp)]; simp
    | cons x xs =>
      rw [if_pos (by simp only [List.length_cons]; omega)]
      unfold copyFrom
      rw [show pre.length + 1 - 1 = pre.length by omega, List.drop_left, List.take_of_length_le (by omega)]
      simp
  | cons c cs ih =>
    intro pre cur acc
    have hget : (pre ++ cur ++ c :: cs)[pre.length + cur.length]? = some c := by
      rw [← List.length_append, List.getElem?_append_right (le_refl _)]
      simp
    simp only [List.length_cons, List.range'_succ, List.foldl_cons, words]
    have hstep : splitStep sep (pre ++ cur ++ c :: cs) (pre.length + 1, acc) (pre.length + cur.length + 1) =
        if sep c then (pre.length + cur.length + 1 + 1, if pre.length + 1 = pre.length + cur.length + 1 then acc else acc ++ [cur])
        else (pre.length + 1, acc) := by
      unfold splitStep
      rw [show pre.length + cur.length + 1 - 1 = pre.length + cur.length by omega, hget]
      simp only
      by_cases h : sep c
      · rw [if_pos h, if_pos h]
        unfold copyFrom
        rw [show pre.length + 1 - 1 = pre.length by omega, List.append_assoc, List.drop_left,
          show pre.length + cur.length + 1 - (pre.length + 1) = cur.length by omega, List.take_left]
      · rw [if_neg h, if_neg h]
    rw [hstep]
    by_cases h : sep c
    · rw [if_pos h, if_pos h]
      have h1 := ih (pre ++ (cur ++ [c])) [] (if pre.length + 1 = pre.length + cur.length + 1 then acc else acc ++ [cur])
      simp only [List.append_nil, List.append_assoc, List.cons_append, List.nil_append, List.length_append, List.length_cons,
        List.length_nil, Nat.add_zero, Nat.zero_add] at h1 ⊢
      rw [show pre.length + cur.length + 1 + 1 = pre.length + (cur.length + 1) + 1 by omega, h1]
      cases cur with
      | nil => simp
      | cons x xs => simp
    · rw [if_neg h, if_neg h]
      have h1 := ih pre (cur ++ [c]) acc
      simp only [List.append_assoc, List.cons_append, List.nil_append, List.length_append, List.length_cons,
        List.length_nil, Nat.zero_add] at h1 ⊢
      rw [show pre.length + cur.length + 1 + 1 = pre.length + (cur.length + 1) + 1 by omega, h1]

theorem subStrings_eq [DecidableEq α] (sep : α → Bool) (xs : List α) :
    subStrings sep xs = (xs.splitOnP sep).filter fun w => !w.isEmpty := by
  have h := split_loop sep xs [] [] []
  simp only [List.append_nil, List.length_nil, Nat.zero_add, List.nil_append] at h
  unfold subStrings
  rw [h, words_split]
  congr 1
  cases List.splitOnP sep xs <;> simp

theorem words_append (sep : α → Bool) : ∀ (w cur rest : List α), (∀ c ∈ w, sep c = false) →
    words sep cur (w ++ rest) = words sep (cur ++ w) rest := by
  intro w
  induction w with
  | nil => intro cur rest _; simp
  | cons c cs ih =>
    intro cur rest h
    rw [List.cons_append]
    unfold words
    rw [if_neg (by rw [h c (by simp)]; simp), ih _ _ (fun d hd => h d (by simp [hd]))]
    rw [List.append_assoc, List.singleton_append]
    cases rest <;> rfl

theorem words_join (sep : α → Bool) (d : α) (hd : sep d = true) : ∀ (ws : List (List α)), (∀ w ∈ ws, w ≠ [] ∧ ∀ c ∈ w, sep c = false) →
    words sep [] ([d].intercalate ws) = ws := by
  intro ws
  induction ws with
  | nil => intro _; rfl
  | cons w ws ih =>
    intro h
    obtain ⟨h1, h2⟩ := h w (by simp)
    have hw : w.isEmpty = false := by simpa using h1
    cases ws with
    | nil =>
      have := words_append sep w [] [] h2
      rw [List.append_nil] at this
      simp only [List.intercalate_singleton, this, List.nil_append, words, hw]
      simp
    | cons v vs =>
      rw [List.intercalate_cons_cons]
      rw [List.append_assoc, words_append sep w [] _ h2]
      simp only [List.nil_append, List.cons_append, words, hd, hw]
      rw [if_pos trivial, ih (fun u hu => h u (by simp [hu]))]
      simp

theorem join_rest [DecidableEq α] (sep : List α) : ∀ (ps : List (List α)) (out room : List α),
    room.length = (ps.map fun p => sep.length + p.length).sum →
    joinLoop sep false ps (out ++ room) (out.length + 1) = .done (out ++ (ps.map fun p => sep ++ p).flatten) := by
  intro ps
  induction ps with
  | nil =>
    intro out room h
    have : room = [] := by simpa using h
    subst this
    simp [joinLoop]
  | cons p ps ih =>
    intro out room h
    simp only [List.map_cons, List.sum_cons] at h
    obtain ⟨r1, r23, rfl, hr1, hr23⟩ := split_room room sep.length (p.length + (ps.map fun p => sep.length + p.length).sum) (by omega)
    obtain ⟨r2, r3, rfl, hr2, hr3⟩ := split_room r23 p.length _ hr23
    have e1 := replace_room (out := out) (room := r1) (rest := r2 ++ r3) (part := sep) (pre := []) (post := []) hr1
    have e2 := replace_room (out := out ++ sep) (room := r2) (rest := r3) (part := p) (pre := []) (post := []) hr2
    have e3 := ih (out ++ (sep ++ p)) r3 hr3
    simp only [List.append_assoc, List.nil_append, List.append_nil, List.length_nil, Nat.zero_add, List.length_append] at e1 e2 e3
    unfold joinLoop
    simp only [Bool.false_eq_true, if_false]
    rw [show out.length + 1 + sep.length - 1 = out.length + sep.length by omega, e1]
    simp only [Out.bind]
    rw [show out.length + 1 + sep.length + p.length - 1 = out.length + sep.length + p.length by omega,
      show out.length + 1 + sep.length = out.length + sep.length + 1 by omega, e2]
    simp only
    rw [show out.length + sep.length + 1 + p.length = out.length + (sep.length + p.length) + 1 by omega, e3]
    simp

theorem intercalate_flatten (sep p : List α) (ps : List (List α)) :
    sep.intercalate (p :: ps) = p ++ (ps.map fun p => sep ++ p).flatten := by
  induction ps generalizing p with
  | nil => simp
  | cons q qs ih =>
    rw [List.intercalate_cons_cons, ih]
    simp

theorem foldl_add (l : List ℕ) (a : ℕ) : l.foldl (· + ·) a = a + l.sum := by
  induction l generalizing a with
  | nil => simp
  | cons x xs ih => rw [List.foldl_cons, ih, List.sum_cons]; omega

theorem sum_sep (k : ℕ) (ps : List (List α)) : (ps.map fun p => k + p.length).sum = k * ps.length + (ps.map List.length).sum := by
  induction ps with
  | nil => simp
  | cons p ps ih => simp only [List.map_cons, List.sum_cons, ih, List.length_cons]; ring

theorem join_eq [DecidableEq α] (z : α) (parts : List (List α)) (sep : List α) : join z parts sep = .done (sep.intercalate parts) := by
  unfold join
  cases parts with
  | nil => simp
  | cons p ps =>
    rw [if_neg (by simp)]
    simp only
    rw [foldl_add, intercalate_flatten]
    obtain ⟨r1, r2, hr, hr1, hr2⟩ := split_room (List.replicate (sep.length * ((p :: ps).length - 1) + ((p :: ps).map List.length).sum) z)
      p.length ((ps.map fun p => sep.length + p.length).sum) (by
        rw [List.length_replicate, sum_sep]
        simp only [List.length_cons, List.map_cons, List.sum_cons, Nat.add_sub_cancel]
        omega)
    rw [hr]
    have e1 := replace_room (out := []) (room := r1) (rest := r2) (part := p) (pre := []) (post := []) hr1
    have e2 := join_rest sep ps p r2 hr2
    unfold joinLoop
    simp only [List.nil_append, List.append_nil, List.length_nil, Nat.zero_add] at e1
    simp only [if_true, Out.bind]
    rw [show 1 + p.length - 1 = p.length by omega, e1]
    simp only
    rw [show 1 + p.length = p.length + 1 by omega, e2]

/-! ### Replacing a range -/

theorem copyReplaceFrom_eq [DecidableEq α] (z : α) (xs new : List α) (start stop : ℕ) :
    copyReplaceFrom z xs start stop new =
      if 1 ≤ start ∧ start ≤ stop + 1 ∧ stop ≤ xs.length then .done (xs.take (start - 1) ++ new ++ xs.drop stop) else .error := by
  unfold copyReplaceFrom
  by_cases h1 : (stop : ℤ) - start < -1
  · rw [if_pos h1, if_neg (by omega)]
  rw [if_neg h1]
  simp only
  by_cases h2 : (xs.length : ℤ) + new.length - ((stop : ℤ) - start + 1) < 0
  · rw [if_pos h2, if_neg (by omega)]
  rw [if_neg h2]
  by_cases h3 : 1 ≤ start ∧ start ≤ stop + 1 ∧ stop ≤ xs.length
  · rw [if_pos h3]
    obtain ⟨g1, g2, g3⟩ := h3
    have hsz : ((xs.length : ℤ) + new.length - ((stop : ℤ) - start + 1)).toNat = (start - 1) + (new.length + (xs.length - stop)) := by
      omega
    rw [hsz]
    obtain ⟨r1, r23, hr, hr1, hr23⟩ := split_room (List.replicate ((start - 1) + (new.length + (xs.length - stop))) z) (start - 1)
      (new.length + (xs.length - stop)) (by simp)
    obtain ⟨r2, r3, rfl, hr2, hr3⟩ := split_room r23 new.length _ hr23
    rw [hr]
    have ht : (xs.take (start - 1)).length = start - 1 := by rw [List.length_take]; omega
    have hd : (xs.drop stop).length = xs.length - stop := List.length_drop
    have hts : (xs.take stop).length = stop := by rw [List.length_take]; omega
    have e1 := replace_room (out := []) (room := r1) (rest := r2 ++ r3) (part := xs.take (start - 1)) (pre := [])
      (post := xs.drop (start - 1)) (by rw [hr1, ht])
    have e2 := replace_room (out := xs.take (start - 1)) (room := r2) (rest := r3) (part := new) (pre := []) (post := []) hr2
    have e3 := replace_room (out := xs.take (start - 1) ++ new) (room := r3) (rest := []) (part := xs.drop stop) (pre := xs.take stop)
      (post := []) (by rw [hr3, hd])
    simp only [List.nil_append, List.append_nil, List.length_nil, Nat.zero_add, List.take_append_drop, List.length_append, ht, hd,
      hts, List.append_assoc] at e1 e2 e3 ⊢
    rw [e1]
    simp only [Out.bind]
    rw [show start + new.length - 1 = start - 1 + new.length by omega, show replaceFrom (xs.take (start - 1) ++ (r2 ++ r3)) start =
      replaceFrom (xs.take (start - 1) ++ (r2 ++ r3)) (start - 1 + 1) by congr 1; omega, e2]
    simp only
    rw [show start + new.length = start - 1 + new.length + 1 by omega,
      show start - 1 + (new.length + (xs.length - stop)) = start - 1 + new.length + (xs.length - stop) by omega, e3]
  · rw [if_neg h3]
    have hl : ∀ (d : List α) (a b : ℕ) (s : List α) (c : ℕ) (e : List α), 1 ≤ c → replaceFrom d a b s c = .done e → e.length = d.length := by
      intro d a b s c e hc he
      unfold replaceFrom at he
      simp only at he
      split at he
      · exact absurd he (by simp)
      · obtain rfl := Out.done.inj he
        simp only [List.length_append, List.length_take, List.length_drop]
        omega
    have hbad : ∀ (d : List α), d.length = ((xs.length : ℤ) + new.length - ((stop : ℤ) - start + 1)).toNat →
        1 ≤ start → replaceFrom d (start + new.length) ((xs.length : ℤ) + new.length - ((stop : ℤ) - start + 1)).toNat xs (stop + 1) =
          .error := by
      intro d hd hs
      unfold replaceFrom
      simp only
      rw [if_pos (by omega)]
    cases e1 : replaceFrom (List.replicate ((xs.length : ℤ) + new.length - ((stop : ℤ) - start + 1)).toNat z) 1 (start - 1) xs 1 with
    | error => rfl
    | never =>
      unfold replaceFrom at e1
      simp only at e1
      split at e1 <;> simp at e1
    | done d =>
      have l1 := hl _ _ _ _ _ _ (le_refl _) e1
      rw [List.length_replicate] at l1
      simp only [Out.bind]
      cases e2 : replaceFrom d start (start + new.length - 1) new 1 with
      | error => rfl
      | never =>
        unfold replaceFrom at e2
        simp only at e2
        split at e2 <;> simp at e2
      | done d2 =>
        have l2 := hl _ _ _ _ _ _ (le_refl _) e2
        simp only
        refine hbad d2 (by omega) ?_
        by_contra hc
        unfold replaceFrom at e2
        simp only at e2
        rw [if_pos (by omega)] at e2
        simp at e2

/-! ### Trimming -/

theorem find_range'_rev {p : ℕ → Bool} {a j : ℕ} : ∀ (n : ℕ),
    ((List.range' a n).reverse).find? p = some j ↔ a ≤ j ∧ j < a + n ∧ p j = true ∧ ∀ k, j < k → k < a + n → p k = false := by
  intro n
  induction n with
  | zero => simp; omega
  | succ n ih =>
    rw [List.range'_concat, List.reverse_append, List.reverse_singleton, List.singleton_append, List.find?_cons, Nat.one_mul]
    cases hp : p (a + n) with
    | true =>
      simp only [Option.some.injEq]
      constructor
      · rintro rfl
        exact ⟨by omega, by omega, hp, fun k _ _ => by omega⟩
      · rintro ⟨h1, h2, _, h4⟩
        by_contra hc
        rw [h4 (a + n) (by omega) (by omega)] at hp
        simp at hp
    | false =>
      simp only
      rw [ih]
      constructor
      · rintro ⟨h1, h2, h3, h4⟩
        refine ⟨h1, by omega, h3, fun k hk hl => ?_⟩
        by_cases hk' : k = a + n
        · rw [hk', hp]
        · exact h4 k hk (by omega)
      · rintro ⟨h1, h2, h3, h4⟩
        have : j ≠ a + n := fun e => by rw [e, hp] at h3; simp at h3
        exact ⟨h1, by omega, h3, fun k hk hl => h4 k hk (by omega)⟩

theorem trim_eq [DecidableEq α] (sep : α → Bool) (a t b : List α) (ha : ∀ c ∈ a, sep c = true) (hb : ∀ c ∈ b, sep c = true)
    (ht : t = [] ∨ (∃ x m, t = x :: m ∧ sep x = false) ∧ ∃ m x, t = m ++ [x] ∧ sep x = false) :
    trim sep (a ++ t ++ b) = t := by
  have hsa : ∀ i, i < a.length → ((a ++ t ++ b)[i]?).any (!sep ·) = false := by
    intro i hi
    rw [List.append_assoc, List.getElem?_append_left hi, List.getElem?_eq_getElem hi]
    simp [ha]
  have hsb : ∀ i, a.length + t.length ≤ i → ((a ++ t ++ b)[i]?).any (!sep ·) = false := by
    intro i hi
    rw [List.getElem?_append_right (by simp; omega)]
    cases h : b[i - (a ++ t).length]? with
    | none => rfl
    | some c => simp [hb c (List.mem_of_getElem? h)]
  unfold trim
  rcases ht with rfl | ⟨⟨x, m, hx, hxs⟩, m', y, hy, hys⟩
  · have : (List.range' 1 (a ++ [] ++ b).length).find? (fun i => ((a ++ [] ++ b)[i - 1]?).any (!sep ·)) = none := by
      rw [find_range'_none]
      intro k hk _
      rcases Nat.lt_or_ge (k - 1) a.length with h | h
      · exact hsa _ h
      · exact hsb _ (by simpa using h)
    rw [this]
  · have hl1 : 1 ≤ t.length := by rw [hx]; simp
    have e1 : (List.range' 1 (a ++ t ++ b).length).find? (fun i => ((a ++ t ++ b)[i - 1]?).any (!sep ·)) = some (a.length + 1) := by
      rw [find_range']
      refine ⟨by omega, by simp only [List.length_append]; omega, ?_, fun k hk hl => hsa _ (by omega)⟩
      rw [Nat.add_sub_cancel, List.append_assoc, List.getElem?_append_right (le_refl _), hx]
      simp [hxs]
    have e2 : ((List.range' (a.length + 1) ((a ++ t ++ b).length + 1 - (a.length + 1))).reverse).find?
        (fun i => ((a ++ t ++ b)[i - 1]?).any (!sep ·)) = some (a.length + t.length) := by
      rw [find_range'_rev]
      refine ⟨by omega, by simp only [List.length_append]; omega, ?_, fun k hk hl => hsb _ (by omega)⟩
      have : (a ++ t)[a.length + t.length - 1]? = some y := by
        rw [hy, ← List.append_assoc, List.getElem?_append_right (by simp)]
        simp
      rw [List.getElem?_append_left (by simp; omega), this]
      simp [hys]
    rw [e1]
    simp only
    rw [e2]
    simp only
    unfold copyFrom
    rw [Nat.add_sub_cancel, List.append_assoc, List.drop_left, show a.length + t.length + 1 - (a.length + 1) = t.length by omega,
      List.take_left]

theorem trim_exists (sep : α → Bool) : ∀ xs : List α, ∃ a t b, xs = a ++ t ++ b ∧ (∀ c ∈ a, sep c = true) ∧ (∀ c ∈ b, sep c = true) ∧
    (t = [] ∨ (∃ x m, t = x :: m ∧ sep x = false) ∧ ∃ m x, t = m ++ [x] ∧ sep x = false) := by
  have h2 : ∀ (xs : List α) (x : α), sep x = false → ∃ t b, x :: xs = t ++ b ∧ (∀ c ∈ b, sep c = true) ∧
      (∃ m, t = x :: m) ∧ ∃ m y, t = m ++ [y] ∧ sep y = false := by
    intro xs
    induction xs using List.reverseRecOn with
    | nil => exact fun x hx => ⟨[x], [], rfl, by simp, ⟨[], rfl⟩, [], x, rfl, hx⟩
    | append_singleton xs c ih =>
      intro x hx
      cases hc : sep c with
      | false => exact ⟨x :: (xs ++ [c]), [], by simp, by simp, ⟨_, rfl⟩, x :: xs, c, rfl, hc⟩
      | true =>
        obtain ⟨t, b, e, hb, h3, h4⟩ := ih x hx
        refine ⟨t, b ++ [c], by rw [← List.append_assoc, ← e]; rfl, ?_, h3, h4⟩
        intro d hd
        rcases List.mem_append.1 hd with h | h
        · exact hb d h
        · rw [List.mem_singleton.1 h, hc]
  intro xs
  induction xs with
  | nil => exact ⟨[], [], [], rfl, by simp, by simp, Or.inl rfl⟩
  | cons x xs ih =>
    cases hx : sep x with
    | true =>
      obtain ⟨a, t, b, e, ha, hb, ht⟩ := ih
      refine ⟨x :: a, t, b, by rw [e]; simp, ?_, hb, ht⟩
      intro c hc
      rcases List.mem_cons.1 hc with h | h
      · rw [h, hx]
      · exact ha c h
    | false =>
      obtain ⟨t, b, e, hb, ⟨m, h3⟩, h4⟩ := h2 xs x hx
      exact ⟨[], t, b, by simpa using e, by simp, hb, Or.inr ⟨⟨x, m, h3, hx⟩, h4⟩⟩

/-! ### Integers -/

/-- The character for a digit. -/
def digitChar (d : Fin 10) : Char := Char.ofNat (48 + d)

theorem digitChar_val (d : Fin 10) : (digitChar d).toNat = 48 + d := by
  revert d
  decide

def NoDigit (rest : List Char) : Prop := ∀ c cs, rest = c :: cs → c.toNat < 48 ∨ 57 < c.toNat

theorem intLoop_digits (neg : Bool) (rest : List Char) (hr : NoDigit rest) : ∀ (ds : List (Fin 10)) (r : ℤ),
    intLoop neg (ds.map digitChar ++ rest) r =
      r * 10 ^ ds.length + (if neg then -1 else 1) * (Nat.ofDigits 10 (ds.reverse.map Fin.val) : ℕ) := by
  intro ds
  induction ds with
  | nil =>
    intro r
    cases rest with
    | nil => simp [intLoop]
    | cons c cs =>
      have := hr c cs rfl
      simp only [List.map_nil, List.nil_append, intLoop]
      rw [if_pos (by omega)]
      simp
  | cons d ds ih =>
    intro r
    simp only [List.map_cons, List.cons_append, intLoop]
    have hd := digitChar_val d
    have := d.isLt
    rw [if_neg (by omega), ih]
    simp only [List.reverse_cons, List.map_append, List.map_cons, List.map_nil, Nat.ofDigits_append, Nat.ofDigits_singleton,
      List.length_map, List.length_reverse, List.length_cons, hd]
    push_cast
    cases neg <;> simp <;> ring

theorem asInteger_digits (ds : List (Fin 10)) (hd : ds ≠ []) (rest : List Char) (hr : NoDigit rest) :
    asInteger (ds.map digitChar ++ rest) = (Nat.ofDigits 10 (ds.reverse.map Fin.val) : ℕ) ∧
      asInteger ('-' :: (ds.map digitChar ++ rest)) = -((Nat.ofDigits 10 (ds.reverse.map Fin.val) : ℕ) : ℤ) := by
  constructor
  · cases ds with
    | nil => exact absurd rfl hd
    | cons d ds =>
      have hv := digitChar_val d
      have := d.isLt
      simp only [List.map_cons, List.cons_append, asInteger]
      rw [if_neg (by omega), intLoop_digits false rest hr]
      simp only [List.reverse_cons, List.map_append, List.map_cons, List.map_nil, Nat.ofDigits_append, Nat.ofDigits_singleton,
        List.length_map, List.length_reverse, hv]
      push_cast
      simp [mul_comm, add_comm]
  · simp only [asInteger]
    rw [if_pos (by decide), if_pos trivial, intLoop_digits true rest hr]
    simp

end Verif.Strings
