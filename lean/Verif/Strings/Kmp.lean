import Verif.Strings.Find

/-!
# Searching in streams
-/

namespace Verif.Strings

variable {α : Type} [DecidableEq α]

/-- The table that is made, whatever is looked for. -/
def flat (n : ℕ) : List ℕ := 0 :: List.replicate n 1

theorem flat_get (n i : ℕ) (h1 : 1 ≤ i) (h2 : i ≤ n) : (flat n).getD i 0 = 1 := by
  unfold flat
  cases i with
  | zero => omega
  | succ i => rw [List.getD_cons_succ, List.getD_eq_getElem?_getD, List.getElem?_replicate, if_pos (by omega)]; rfl

theorem prefixLoop_flat (p : List α) : ∀ (n k : ℕ), k + 1 + n ≤ p.length → prefixLoop p n (k + 1) (flat k) = flat (k + n) ∨ k = 0 := by
  intro n
  induction n with
  | zero => intro k _; exact Or.inl rfl
  | succ n ih =>
    intro k hk
    by_cases h0 : k = 0
    · exact Or.inr h0
    refine Or.inl ?_
    unfold prefixLoop
    rw [Nat.add_sub_cancel, List.getElem?_eq_getElem (by omega), flat_get k k (by omega) (le_refl _)]
    simp only
    have e : ∀ c, prefixBack p (flat k) c (k + 1) 1 = 1 := by
      intro c
      unfold prefixBack
      rw [if_pos (Or.inl (le_refl _))]
    rw [e]
    have e2 : flat k ++ [1] = flat (k + 1) := by
      unfold flat
      rw [List.cons_append, ← List.replicate_succ']
    rw [e2]
    rcases ih (k + 1) (by omega) with h | h
    · rw [h]; congr 1; omega
    · omega

theorem prefixTable_flat (p : List α) (h : 2 ≤ p.length) : prefixTable p = .done (flat (p.length - 1)) := by
  unfold prefixTable
  rw [if_neg (by omega)]
  rcases prefixLoop_flat p (p.length - 2) 1 (by omega) with h1 | h1
  · rw [show ([0, 1] : List ℕ) = flat 1 from rfl, h1]
    congr 2
    omega
  · omega

theorem kmpStep_one (p : List α) (n m : ℕ) (c : α) : kmpStep p (flat m) c (n + 1) 1 = if p[0]? = some c then 2 else 1 := by
  unfold kmpStep
  rfl

theorem kmpStep_flat (p : List α) (j : ℕ) (c : α) (h1 : 1 ≤ j) (h2 : j ≤ p.length) :
    kmpStep p (flat (p.length - 1)) c (p.length + 1) j =
      if p[j - 1]? = some c then j + 1 else if p[0]? = some c then 2 else 1 := by
  by_cases hj : j = 1
  · subst hj
    rw [kmpStep_one]
    by_cases h : p[0]? = some c <;> simp [h]
  · unfold kmpStep
    by_cases h : p[j - 1]? = some c
    · rw [if_pos h, if_pos h]
    · rw [if_neg h, if_neg h]
      simp only
      rw [flat_get _ _ (by omega) (by omega), if_neg (by omega)]
      obtain ⟨n, hn⟩ : ∃ n, p.length = n + 1 := ⟨p.length - 1, by omega⟩
      rw [hn, kmpStep_one]

/-- What `upToAll:` is to do: the text before the first occurrence, and what is after it. -/
def UpTo (p xs a b : List α) : Prop :=
  (xs = a ++ p ++ b ∧ ∀ k < a.length, ¬ p <+: xs.drop k) ∨ (¬ p <:+: xs ∧ a = xs ∧ b = [])

omit [DecidableEq α] in
/-- An occurrence starts with the first item. -/
theorem first_item {p xs : List α} {k : ℕ} (h : p <+: xs.drop k) : ∀ i < p.length, xs[k + i]? = p[i]? := by
  intro i hi
  rw [List.prefix_iff_getElem?] at h
  have := h i hi
  rw [List.getElem?_drop] at this
  rw [this, List.getElem?_eq_getElem hi]

/-- Looking for something whose first item does not come again in it. -/
theorem kmp_spec (p : List α) (hp : 2 ≤ p.length) (hn : ∀ i, 1 ≤ i → i < p.length → p[i]? ≠ p[0]?) :
    ∀ (cs a : List α) (j : ℕ), 1 ≤ j → j ≤ p.length →
      (∀ k < a.length, ¬ p <+: (a ++ p.take (j - 1) ++ cs).drop k) →
      ((kmp p (flat (p.length - 1)) cs j (a ++ p.take (j - 1))).2.2 = true ∧
        ∃ a', (kmp p (flat (p.length - 1)) cs j (a ++ p.take (j - 1))).1 = a' ++ p ∧
          a ++ p.take (j - 1) ++ cs = a' ++ p ++ (kmp p (flat (p.length - 1)) cs j (a ++ p.take (j - 1))).2.1 ∧
          ∀ k < a'.length, ¬ p <+: (a ++ p.take (j - 1) ++ cs).drop k) ∨
      (kmp p (flat (p.length - 1)) cs j (a ++ p.take (j - 1)) = (a ++ p.take (j - 1) ++ cs, [], false) ∧
        ¬ p <:+: a ++ p.take (j - 1) ++ cs) := by
  have hpn : p ≠ [] := by rintro rfl; simp at hp
  intro cs
  induction cs with
  | nil =>
    intro a j h1 h2 hk
    refine Or.inr ⟨by simp [kmp], ?_⟩
    rw [infix_iff_drop]
    rintro ⟨k, h⟩
    rcases Nat.lt_or_ge k a.length with hl | hl
    · exact hk k hl h
    · have := h.length_le
      rw [List.length_drop, List.append_nil, List.length_append, List.length_take] at this
      omega
  | cons c cs ih =>
    intro a j h1 h2 hk
    have hlen : (flat (p.length - 1)).length = p.length := by simp [flat]; omega
    have hat : ∀ i, i < j - 1 → (a ++ p.take (j - 1) ++ c :: cs)[a.length + i]? = p[i]? := by
      intro i hi
      rw [List.append_assoc, List.getElem?_append_right (by omega), Nat.add_sub_cancel_left,
        List.getElem?_append_left (by rw [List.length_take]; omega), List.getElem?_take, if_pos hi]
    have hatc : (a ++ p.take (j - 1) ++ c :: cs)[a.length + (j - 1)]? = some c := by
      rw [List.getElem?_append_right (by simp), List.length_append, List.length_take, show min (j - 1) p.length = j - 1 by omega]
      simp
    unfold kmp
    simp only
    rw [kmpStep_flat p j c h1 h2, hlen]
    by_cases hc : p[j - 1]? = some c
    · rw [if_pos hc]
      have ht : p.take (j - 1) ++ [c] = p.take j := by
        obtain ⟨hlt, he⟩ := List.getElem?_eq_some_iff.1 hc
        have := List.take_succ_eq_append_getElem hlt
        rw [show j - 1 + 1 = j by omega, he] at this
        exact this.symm
      by_cases hfull : p.length < j + 1
      · rw [if_pos hfull]
        refine Or.inl ⟨rfl, a, ?_, ?_, hk⟩
        · simp only
          rw [List.append_assoc, ht, List.take_of_length_le (by omega)]
        · simp only
          have h3 : p.take (j - 1) ++ [c] = p := by rw [ht, List.take_of_length_le (by omega)]
          conv_rhs => rw [← h3]
          simp
      · rw [if_neg hfull]
        have := ih a (j + 1) (by omega) (by omega)
        rw [show j + 1 - 1 = j by omega, ← ht] at this
        simp only [List.append_assoc, List.singleton_append] at this hk ⊢
        exact this hk
    · rw [if_neg hc]
      -- nothing starts before the next item
      have hno : ∀ k < a.length + (j - 1), ¬ p <+: (a ++ p.take (j - 1) ++ c :: cs).drop k := by
        intro k hkl h
        rcases Nat.lt_or_ge k a.length with hl | hl
        · exact hk k hl h
        · have hf := first_item h
          rcases Nat.eq_or_lt_of_le hl with he | he
          · have := hf (j - 1) (by omega)
            rw [← he, hatc] at this
            exact hc this.symm
          · have h3 := hf 0 (by omega)
            have h4 := hat (k - a.length) (by omega)
            rw [Nat.add_zero, show k = a.length + (k - a.length) by omega, h4] at h3
            exact hn (k - a.length) (by omega) (by omega) h3
      by_cases hc0 : p[0]? = some c
      · rw [if_pos hc0, if_neg (by omega)]
        have hj1 : j ≠ 1 := fun e => hc (by rw [e]; exact hc0)
        have := ih (a ++ p.take (j - 1)) 2 (by omega) (by omega)
        have ht : p.take (2 - 1) = [c] := by
          cases p with
          | nil => simp at hp
          | cons x xs => simp at hc0 ⊢; exact hc0
        rw [ht] at this
        simp only [List.append_assoc, List.singleton_append] at this hno ⊢
        refine this fun k hkl => hno k ?_
        rw [List.length_append, List.length_take] at hkl
        omega
      · rw [if_neg hc0, if_neg (by omega)]
        have := ih (a ++ p.take (j - 1) ++ [c]) 1 (by omega) (by omega)
        simp only [Nat.sub_self, List.take_zero, List.append_nil, List.append_assoc, List.singleton_append] at this hno ⊢
        refine this fun k hkl h => ?_
        simp only [List.length_append, List.length_take, List.length_singleton] at hkl
        rcases Nat.lt_or_ge k (a.length + (j - 1)) with hl | hl
        · exact hno k hl h
        · have hf := first_item h 0 (by omega)
          have he : k = a.length + (j - 1) := by omega
          rw [List.append_assoc] at hatc
          rw [Nat.add_zero, he, hatc] at hf
          exact hc0 hf.symm

theorem upToAll_spec {xs p : List α} (hx : xs ≠ []) (hp : 2 ≤ p.length) (hn : ∀ i, 1 ≤ i → i < p.length → p[i]? ≠ p[0]?) :
    ∃ a b, upToAll xs p = .done (a, b) ∧ UpTo p xs a b ∧
      skipToAll xs p = .done (decide (p <:+: xs), b) := by
  have hpn : p ≠ [] := by rintro rfl; simp at hp
  have hs := kmp_spec p hp hn xs [] 1 (le_refl _) (by omega) (by simp)
  simp only [Nat.sub_self, List.take_zero, List.append_nil, List.nil_append] at hs
  unfold upToAll skipToAll
  rw [if_neg (by tauto), if_neg hx, if_neg hpn, prefixTable_flat p hp]
  simp only [Out.bind]
  rcases hs with ⟨h1, a', h2, h3, h4⟩ | ⟨h1, h2⟩
  · rw [h1, if_pos rfl, h2]
    refine ⟨a', _, ?_, Or.inl ⟨h3, h4⟩, ?_⟩
    · rw [List.length_append, Nat.add_sub_cancel, List.take_left]
    · have : p <:+: xs := ⟨a', _, h3.symm⟩
      simp [this]
  · rw [h1]
    exact ⟨xs, [], by simp, Or.inr ⟨h2, rfl, rfl⟩, by simp [h2]⟩

end Verif.Strings
