import Mathlib.Data.List.Basic
import Mathlib.Tactic.Common

/-!
# Size classes of small objects (libgst/alloc.c:104-118, 138-146): C21

`P` is the page size, `H` is `SMALL_OBJ_HEADER_SIZE`.
-/

namespace Verif.Alloc

/-- `freelist_size` without the terminating zero: alloc.c:106-112. -/
def classSizes (H : Nat) : List Nat :=
  [8, 16, 32, 64, 96, 128, 160, 192, 224, 256, 288, 320, 352,
   384, 448, 480, 576, 672, 800, 992, 1344, 2016,
   4096 - H, 8192 - H, 16384 - H]

/-- `for (; sz <= freelist_size[i]; sz++) sztable[sz] = i`: alloc.c:144-145, with `n` the number
of turns still to make. -/
def fillOne (table : Nat → Nat) (sz i : Nat) : Nat → (Nat → Nat)
  | 0 => table
  | n + 1 => fillOne (fun k => if k = sz then i else table k) (sz + 1) i n

/-- The loops at alloc.c:143-145: answers `sztable` and the final `sz`. -/
def fill (P : Nat) (table : Nat → Nat) (sz i : Nat) : List Nat → (Nat → Nat) × Nat
  | [] => (table, sz)
  | s :: rest =>
    if s > 0 ∧ s < P then fill P (fillOne table sz i (s + 1 - sz)) (max sz (s + 1)) (i + 1) rest
    else (table, sz)

def sztable (P H : Nat) : Nat → Nat := (fill P (fun _ => 0) 0 0 (classSizes H)).1

/-- `max_small_object_size = sz - 1`: alloc.c:146. -/
def maxSmall (P H : Nat) : Nat := (fill P (fun _ => 0) 0 0 (classSizes H)).2 - 1

/-- `ROUNDUPALIGN`: alloc.c:64-65. -/
def roundUp8 (v : Nat) : Nat := (v + 7) / 8 * 8

/-- The size of the objects from which a request is served: alloc.c:188-191. -/
def classOf (P H n : Nat) : Nat := (classSizes H).getD (sztable P H (roundUp8 n)) 0

theorem fillOne_apply (table : Nat → Nat) (sz i n k : Nat) :
    fillOne table sz i n k = if sz ≤ k ∧ k < sz + n then i else table k := by
  induction n generalizing table sz with
  | zero => rw [fillOne, if_neg (by omega)]
  | succ n ih =>
    rw [fillOne, ih]
    by_cases h1 : sz + 1 ≤ k ∧ k < sz + 1 + n
    · rw [if_pos h1, if_pos (by omega)]
    · rw [if_neg h1]
      by_cases h2 : k = sz
      · rw [if_pos h2, if_pos (by omega)]
      · rw [if_neg h2, if_neg (by omega)]

/-- What the loops compute, for any increasing table: entry `k` is the index of the first size
that is not smaller than `k`. -/
theorem fill_spec (P : Nat) (l : List Nat) : ∀ (table : Nat → Nat) (sz i : Nat),
    (l.Pairwise (· < ·)) → (∀ s ∈ l, 0 < s ∧ sz ≤ s) →
    let r := fill P table sz i l
    (sz ≤ r.2) ∧
    (∀ k, k < sz → r.1 k = table k) ∧
    (∀ k, sz ≤ k → k < r.2 → ∃ j, ∃ hj : j < l.length, r.1 k = i + j ∧ k ≤ l[j] ∧ l[j] < P ∧
      ∀ j' (hj' : j' < l.length), k ≤ l[j'] → j ≤ j') ∧
    (∀ j (hj : j < l.length), l[j] < P → l[j] < r.2) ∧
    (∀ k, sz ≤ k → k < r.2 → ∃ j, ∃ hj : j < l.length, l[j] < P ∧ k ≤ l[j]) ∧
    (r.2 = sz ∨ ∃ j, ∃ hj : j < l.length, l[j] < P ∧ r.2 = l[j] + 1) := by
  induction l with
  | nil =>
    intro table sz i _ _
    show _ ∧ _
    rw [fill]
    refine ⟨Nat.le_refl _, fun _ _ => rfl, ?_, ?_, ?_, .inl rfl⟩
    · intro k (h1 : sz ≤ k) (h2 : k < sz); omega
    · intro j hj; simp at hj
    · intro k (h1 : sz ≤ k) (h2 : k < sz); omega
  | cons s rest ih =>
    intro table sz i hs hpos
    have hs' := List.pairwise_cons.mp hs
    have hsp := hpos s (by simp)
    simp only [fill]
    by_cases hc : s > 0 ∧ s < P
    · rw [if_pos hc]
      have hmax : max sz (s + 1) = s + 1 := by omega
      rw [hmax]
      obtain ⟨i1, i2, i3, i4, i5, i6⟩ := ih (fillOne table sz i (s + 1 - sz)) (s + 1) (i + 1) hs'.2
        (fun t ht => ⟨by have := hs'.1 t ht; omega, by have := hs'.1 t ht; omega⟩)
      refine ⟨by omega, ?_, ?_, ?_, ?_, ?_⟩
      · intro k hk
        rw [i2 k (by omega), fillOne_apply, if_neg (by omega)]
      · intro k h1 h2
        by_cases hk : k < s + 1
        · refine ⟨0, by simp, ?_, by simpa using Nat.le_of_lt_succ hk, hc.2, fun _ _ _ => Nat.zero_le _⟩
          rw [i2 k hk, fillOne_apply, if_pos (by omega)]
          rfl
        · obtain ⟨j, hj, e1, e2, e3, e4⟩ := i3 k (by omega) h2
          refine ⟨j + 1, by simpa using hj, by omega, by simpa using e2, by simpa using e3, ?_⟩
          intro j' hj' hle
          cases j' with
          | zero => simp at hle; omega
          | succ j' =>
            have := e4 j' (by simpa using hj') (by simpa using hle)
            omega
      · intro j hj hlt
        cases j with
        | zero => simp only [List.getElem_cons_zero]; omega
        | succ j => exact i4 j (by simpa using hj) (by simpa using hlt)
      · intro k h1 h2
        by_cases hk : k < s + 1
        · exact ⟨0, by simp, hc.2, by simpa using Nat.le_of_lt_succ hk⟩
        · obtain ⟨j, hj, e1, e2⟩ := i5 k (by omega) h2
          exact ⟨j + 1, by simpa using hj, by simpa using e1, by simpa using e2⟩
      · rcases i6 with h6 | ⟨j, hj, e1, e2⟩
        · exact .inr ⟨0, by simp, hc.2, h6⟩
        · exact .inr ⟨j + 1, by simpa using hj, by simpa using e1, by simpa using e2⟩
    · rw [if_neg hc]
      refine ⟨Nat.le_refl _, fun _ _ => rfl, ?_, ?_, ?_, .inl rfl⟩
      · intro k h1 h2; omega
      · intro j hj hlt
        exfalso
        cases j with
        | zero => simp only [List.getElem_cons_zero] at hlt; omega
        | succ j =>
          have hj' : j < rest.length := by simpa using hj
          have := hs'.1 rest[j] (List.getElem_mem hj')
          simp only [List.getElem_cons_succ] at hlt
          omega
      · intro k h1 h2; omega

/-- Of the header: a multiple of 8 that leaves the large classes in order. -/
def GoodHeader (H : Nat) : Prop := 8 ∣ H ∧ H < 2080

theorem classSizes_sorted {H : Nat} (h : GoodHeader H) : (classSizes H).Pairwise (· < ·) := by
  obtain ⟨-, h⟩ := h
  unfold classSizes
  simp only [List.pairwise_cons, List.mem_cons, List.not_mem_nil, or_false, forall_eq_or_imp,
    forall_eq, List.Pairwise.nil, and_true, false_implies, implies_true]
  omega

theorem classSizes_dvd {H : Nat} (h : GoodHeader H) : ∀ s ∈ classSizes H, 8 ∣ s ∧ 8 ≤ s := by
  obtain ⟨h1, h2⟩ := h
  unfold classSizes
  simp only [List.mem_cons, List.not_mem_nil, or_false, forall_eq_or_imp, forall_eq]
  omega

/-- **C21.**  Every request for up to `max_small_object_size` bytes is served from objects that
are large enough, aligned and smaller than a page, and from the smallest such class. -/
theorem class_fits {P H n : Nat} (hH : GoodHeader H) (hP : 8 < P) (hn : n ≤ maxSmall P H) :
    sztable P H (roundUp8 n) < (classSizes H).length ∧
    n ≤ classOf P H n ∧ 8 ∣ classOf P H n ∧ classOf P H n < P ∧
    ∀ s ∈ classSizes H, n ≤ s → classOf P H n ≤ s := by
  have hs := classSizes_sorted hH
  have hd := classSizes_dvd hH
  obtain ⟨-, -, f3, f4, f5, f6⟩ := fill_spec P (classSizes H) (fun _ => 0) 0 0 hs
    (fun s hs => ⟨by have := (hd s hs).2; omega, Nat.zero_le _⟩)
  -- something fits
  have h8 : 8 < (fill P (fun _ => 0) 0 0 (classSizes H)).2 := f4 0 (by simp [classSizes]) hP
  have hlt : roundUp8 n < (fill P (fun _ => 0) 0 0 (classSizes H)).2 := by
    rcases f6 with f6 | ⟨j, hj, f6, f7⟩
    · omega
    · unfold maxSmall at hn
      have hdj := (hd _ (List.getElem_mem hj)).1
      have hnj : n ≤ (classSizes H)[j] := by omega
      rw [f7]
      unfold roundUp8
      omega
  obtain ⟨j, hj, e1, e2, e3, e4⟩ := f3 (roundUp8 n) (Nat.zero_le _) hlt
  have e1' : sztable P H (roundUp8 n) = j := by unfold sztable; omega
  have ec : classOf P H n = (classSizes H)[j] := by
    unfold classOf
    rw [e1', List.getD_eq_getElem?_getD, List.getElem?_eq_getElem hj, Option.getD_some]
  have hr : n ≤ roundUp8 n := by unfold roundUp8; omega
  rw [e1', ec]
  refine ⟨hj, by omega, (hd _ (List.getElem_mem hj)).1, e3, ?_⟩
  intro s hs' hns
  obtain ⟨j', hj', rfl⟩ := List.mem_iff_getElem.mp hs'
  have h8s := (hd _ (List.getElem_mem hj')).1
  have hle : roundUp8 n ≤ (classSizes H)[j'] := by unfold roundUp8; omega
  have hjj := e4 j' hj' hle
  rcases Nat.lt_or_ge j j' with hlt' | hge
  · exact Nat.le_of_lt ((List.pairwise_iff_getElem.mp hs) j j' hj hj' hlt')
  · have : j = j' := by omega
    subst this; exact Nat.le_refl _

/-- **C21.**  The table is written only within its bounds (`MAX_SMALL_OBJ_SIZE + 1`
entries, alloc.c:114), and read only there. -/
theorem table_bounds {P H : Nat} (hH : GoodHeader H) (hP : 8 < P) :
    maxSmall P H ≤ 16384 ∧ maxSmall P H < P ∧ 8 ≤ maxSmall P H ∧ 8 ∣ maxSmall P H ∧
    maxSmall P H ∈ classSizes H := by
  have hs := classSizes_sorted hH
  have hd := classSizes_dvd hH
  obtain ⟨-, -, -, f4, -, f6⟩ := fill_spec P (classSizes H) (fun _ => 0) 0 0 hs
    (fun s hs => ⟨by have := (hd s hs).2; omega, Nat.zero_le _⟩)
  have h8 : 8 < (fill P (fun _ => 0) 0 0 (classSizes H)).2 := f4 0 (by simp [classSizes]) hP
  unfold maxSmall
  rcases f6 with f6 | ⟨j, hj, f6, f7⟩
  · omega
  · have hm := List.getElem_mem hj
    rw [f7, Nat.add_sub_cancel]
    refine ⟨?_, f6, (hd _ hm).2, (hd _ hm).1, hm⟩
    have : ∀ s ∈ classSizes H, s ≤ 16384 := by
      unfold classSizes
      simp only [List.mem_cons, List.not_mem_nil, or_false, forall_eq_or_imp, forall_eq]
      omega
    exact this _ hm

/-- **C21.**  Freeing finds the list from which the object was taken: the entry for the size of
a class is that class. -/
theorem class_index {P H j : Nat} (hH : GoodHeader H) (hj : j < (classSizes H).length)
    (hlt : (classSizes H)[j] < P) :
    sztable P H (classSizes H)[j] = j ∧ (classSizes H)[j] ≤ maxSmall P H := by
  have hs := classSizes_sorted hH
  have hd := classSizes_dvd hH
  obtain ⟨-, -, f3, f4, -, -⟩ := fill_spec P (classSizes H) (fun _ => 0) 0 0 hs
    (fun s hs => ⟨by have := (hd s hs).2; omega, Nat.zero_le _⟩)
  have h1 := f4 j hj hlt
  obtain ⟨k, hk, e1, e2, -, e4⟩ := f3 _ (Nat.zero_le _) h1
  refine ⟨?_, by unfold maxSmall; omega⟩
  unfold sztable
  rw [e1, Nat.zero_add]
  have h2 := e4 j hj (Nat.le_refl _)
  rcases Nat.lt_or_ge k j with h3 | h3
  · have := (List.pairwise_iff_getElem.mp hs) k j hk hj h3
    omega
  · omega

/-- **C21.**  With a page size that is a power of two and at least 4096, at least one object of
every class fits into a page after the header. -/
theorem class_in_page {H k s : Nat} (hH : GoodHeader H) (hk : 12 ≤ k) (hs : s ∈ classSizes H)
    (hlt : s < 2 ^ k) : H + s ≤ 2 ^ k := by
  obtain ⟨hH1, hH2⟩ := hH
  have hle : ∀ a b, a ≤ b → 2 ^ a ≤ 2 ^ b := fun a b h => Nat.pow_le_pow_right (by decide) h
  have h12 : 4096 ≤ 2 ^ k := hle 12 k hk
  have h13 : 4096 < 2 ^ k → 8192 ≤ 2 ^ k := by
    intro h
    have : 13 ≤ k := by
      by_contra hc
      have : k = 12 := by omega
      subst this; simp at h
    exact hle 13 k this
  have h14 : 8192 < 2 ^ k → 16384 ≤ 2 ^ k := by
    intro h
    have : 14 ≤ k := by
      by_contra hc
      have : k = 12 ∨ k = 13 := by omega
      rcases this with rfl | rfl <;> simp at h
    exact hle 14 k this
  unfold classSizes at hs
  simp only [List.mem_cons, List.not_mem_nil, or_false] at hs
  omega

/-- Non-vacuity: the values on a 64-bit machine with pages of 4096 bytes. -/
example : GoodHeader 48 := ⟨by decide, by decide⟩
example : maxSmall 4096 48 = 4048 ∧ classOf 4096 48 1 = 8 ∧ classOf 4096 48 33 = 64 ∧
    classOf 4096 48 2017 = 4048 := by decide +kernel

end Verif.Alloc
