import Verif.Rects.Model

/-! # Properties of rectangles -/

namespace Verif.Rects

/-- The points of a rectangle: left and upper edges belong to it, right and lower ones do not. -/
def Inside (r : Rect) (p : Pt) : Prop := r.left ≤ p.x ∧ p.x < r.right ∧ r.top ≤ p.y ∧ p.y < r.bottom

/-- The points of the rectangle with those corners, whichever of them comes first. -/
def Covers (r : Rect) (p : Pt) : Prop :=
  min r.left r.right ≤ p.x ∧ p.x < max r.left r.right ∧ min r.top r.bottom ≤ p.y ∧ p.y < max r.top r.bottom

/-- A rectangle has points. -/
def Solid (r : Rect) : Prop := r.left < r.right ∧ r.top < r.bottom

theorem inside_iff (r : Rect) (p : Pt) : containsPoint r p = true ↔ Inside r p := by
  unfold containsPoint Inside Pt.ge Pt.lt Rect.left Rect.right Rect.top Rect.bottom
  simp
  tauto

theorem solid_covers (r : Rect) (h : Solid r) (p : Pt) : Covers r p ↔ Inside r p := by
  unfold Covers Inside
  rw [min_eq_left h.1.le, max_eq_right h.1.le, min_eq_left h.2.le, max_eq_right h.2.le]

theorem normalized_eq (r : Rect) : (normalized r).left = min r.left r.right ∧ (normalized r).right = max r.left r.right ∧
    (normalized r).top = min r.top r.bottom ∧ (normalized r).bottom = max r.top r.bottom := by
  unfold normalized
  split
  · rename_i h
    rw [min_eq_left h.1.le, max_eq_right h.1.le, min_eq_left h.2.le, max_eq_right h.2.le]
    exact ⟨rfl, rfl, rfl, rfl⟩
  · exact ⟨rfl, rfl, rfl, rfl⟩

theorem intersect_inside (r a x : Rect) (h : intersect r a = some x) : Solid x ∧ x.left = max (min r.left r.right) (min a.left a.right) ∧
    x.right = min (max r.left r.right) (max a.left a.right) ∧ x.top = max (min r.top r.bottom) (min a.top a.bottom) ∧
    x.bottom = min (max r.top r.bottom) (max a.top a.bottom) := by
  unfold intersect at h
  obtain ⟨r1, r2, r3, r4⟩ := normalized_eq r
  obtain ⟨a1, a2, a3, a4⟩ := normalized_eq a
  simp only [r1, r2, r3, r4, a1, a2, a3, a4] at h
  split at h
  · simp at h
  · rename_i h1
    split at h
    · simp at h
    · rename_i h2
      obtain rfl := Option.some.inj h
      exact ⟨⟨not_le.1 h1, not_le.1 h2⟩, rfl, rfl, rfl, rfl⟩

theorem mem_addTo (l : List Rect) (r q : Rect) : q ∈ addTo l r ↔ q ∈ l ∨ q = r := by
  unfold addTo
  split
  · rename_i h
    constructor
    · exact .inl
    · rintro (h' | rfl)
      · exact h'
      · exact h
  · simp

theorem nodup_addTo (l : List Rect) (r : Rect) (h : l.Nodup) : (addTo l r).Nodup := by
  unfold addTo
  split
  · exact h
  · rename_i hn
    exact List.nodup_append.2 ⟨h, by simp, by rintro a ha b hb rfl; exact hn (List.mem_singleton.1 hb ▸ ha)⟩

/-- The four parts of a rectangle around another. -/
theorem four_parts (l r t b xl xr xt xb x y : ℚ) (h1 : l ≤ xl) (h2 : xl < xr) (h3 : xr ≤ r) (h4 : t ≤ xt) (h5 : xt < xb) (h6 : xb ≤ b) :
    (((l ≠ xl ∧ l ≤ x ∧ x < xl ∧ t ≤ y ∧ y < b) ∨ (t ≠ xt ∧ xl ≤ x ∧ x < xr ∧ t ≤ y ∧ y < xt)) ∨
      (b ≠ xb ∧ xl ≤ x ∧ x < xr ∧ xb ≤ y ∧ y < b)) ∨ (r ≠ xr ∧ xr ≤ x ∧ x < r ∧ t ≤ y ∧ y < b) ↔
    (l ≤ x ∧ x < r ∧ t ≤ y ∧ y < b) ∧ ¬ (xl ≤ x ∧ x < xr ∧ xt ≤ y ∧ y < xb) := by
  grind

/-- The parts of `areasOutside:`, as a list of what is in it. -/
theorem areas_mem (s a x : Rect) (hx : intersect s a = some x) : ∃ l, areasOutside s a = some l ∧ l.Nodup ∧ ∀ q, q ∈ l ↔
    (((min s.left s.right ≠ x.left ∧ q = ⟨⟨min s.left s.right, min s.top s.bottom⟩, ⟨x.left, max s.top s.bottom⟩⟩) ∨
      (min s.top s.bottom ≠ x.top ∧ q = ⟨⟨x.left, min s.top s.bottom⟩, ⟨x.right, x.top⟩⟩)) ∨
      (max s.top s.bottom ≠ x.bottom ∧ q = ⟨⟨x.left, x.bottom⟩, ⟨x.right, max s.top s.bottom⟩⟩)) ∨
      (max s.left s.right ≠ x.right ∧ q = ⟨⟨x.right, min s.top s.bottom⟩, ⟨max s.left s.right, max s.top s.bottom⟩⟩) := by
  obtain ⟨⟨hs1, hs2⟩, -⟩ := intersect_inside s a x hx
  have harea : x.area ≠ 0 := by
    unfold Rect.area
    exact mul_ne_zero (sub_ne_zero.2 hs1.ne') (sub_ne_zero.2 hs2.ne')
  unfold areasOutside
  rw [hx]
  simp only [if_neg harea]
  have key : ∀ (c : Prop) [Decidable c] (l : List Rect) (r : Rect), l.Nodup →
      (if c then l else addTo l r).Nodup ∧ ∀ q, q ∈ (if c then l else addTo l r) ↔ q ∈ l ∨ (¬ c ∧ q = r) := by
    intro c _ l r h
    split
    · rename_i hc
      exact ⟨h, by simp [hc]⟩
    · rename_i hc
      exact ⟨nodup_addTo l r h, by simp [hc, mem_addTo]⟩
  refine ⟨_, rfl, ?_, ?_⟩
  · exact (key _ _ _ (key _ _ _ (key _ _ _ (key _ [] _ List.nodup_nil).1).1).1).1
  · intro q
    have k1 := key (min s.left s.right = x.left) [] ⟨⟨min s.left s.right, min s.top s.bottom⟩, ⟨x.left, max s.top s.bottom⟩⟩ List.nodup_nil
    have k2 := key (min s.top s.bottom = x.top) _ ⟨⟨x.left, min s.top s.bottom⟩, ⟨x.right, x.top⟩⟩ k1.1
    have k3 := key (max s.top s.bottom = x.bottom) _ ⟨⟨x.left, x.bottom⟩, ⟨x.right, max s.top s.bottom⟩⟩ k2.1
    have k4 := key (max s.left s.right = x.right) _ ⟨⟨x.right, min s.top s.bottom⟩, ⟨max s.left s.right, max s.top s.bottom⟩⟩ k3.1
    have h4 := k4.2 q
    rw [k3.2 q, k2.2 q, k1.2 q] at h4
    simp only [List.not_mem_nil, false_or] at h4
    exact h4

theorem covers_both (r a x : Rect) (hx : intersect r a = some x) (p : Pt) : Covers r p ∧ Covers a p ↔ Inside x p := by
  obtain ⟨-, e1, e2, e3, e4⟩ := intersect_inside r a x hx
  unfold Covers Inside
  rw [e1, e2, e3, e4, max_le_iff, max_le_iff, lt_min_iff, lt_min_iff]
  tauto

theorem intersect_none (r a : Rect) (h : intersect r a = none) (p : Pt) : ¬ (Covers r p ∧ Covers a p) := by
  unfold intersect at h
  obtain ⟨r1, r2, r3, r4⟩ := normalized_eq r
  obtain ⟨a1, a2, a3, a4⟩ := normalized_eq a
  simp only [r1, r2, r3, r4, a1, a2, a3, a4] at h
  rintro ⟨⟨c1, c2, c3, c4⟩, d1, d2, d3, d4⟩
  have hx : max (min r.left r.right) (min a.left a.right) < min (max r.left r.right) (max a.left a.right) :=
    lt_of_le_of_lt (max_le c1 d1) (lt_min c2 d2)
  have hy : max (min r.top r.bottom) (min a.top a.bottom) < min (max r.top r.bottom) (max a.top a.bottom) :=
    lt_of_le_of_lt (max_le c3 d3) (lt_min c4 d4)
  rw [if_neg (not_le.2 hx), if_neg (not_le.2 hy)] at h
  simp at h

/-! ### C182: the parts outside -/

/-- If two rectangles have a point in common, the parts of one outside of the other are rectangles such that each point that is in the
one and not in the other is in exactly one of them, and no other points are. -/
theorem areas_partial (r a : Rect) (h : ∃ p, Covers r p ∧ Covers a p) : ∃ l, areasOutside r a = some l ∧ l.Nodup ∧
    (∀ q ∈ l, Solid q) ∧ (∀ p, (∃ q ∈ l, Inside q p) ↔ Covers r p ∧ ¬ Covers a p) ∧
    ∀ p, ∀ q ∈ l, ∀ q' ∈ l, Inside q p → Inside q' p → q = q' := by
  cases hx : intersect r a with
  | none => obtain ⟨p, hp⟩ := h; exact absurd hp (intersect_none r a hx p)
  | some x =>
    obtain ⟨l, hl, hn, hm⟩ := areas_mem r a x hx
    obtain ⟨⟨s1, s2⟩, e1, e2, e3, e4⟩ := intersect_inside r a x hx
    have h1 : min r.left r.right ≤ x.left := e1 ▸ le_max_left _ _
    have h3 : x.right ≤ max r.left r.right := e2 ▸ min_le_left _ _
    have h4 : min r.top r.bottom ≤ x.top := e3 ▸ le_max_left _ _
    have h6 : x.bottom ≤ max r.top r.bottom := e4 ▸ min_le_left _ _
    have hc : ∀ p, Covers r p ∧ ¬ Covers a p ↔ Covers r p ∧ ¬ Inside x p := by
      intro p
      rw [← covers_both r a x hx p]
      tauto
    refine ⟨l, hl, hn, ?_, ?_, ?_⟩
    · intro q hq
      rw [hm] at hq
      unfold Solid
      rcases hq with ((⟨hne, rfl⟩ | ⟨hne, rfl⟩) | ⟨hne, rfl⟩) | ⟨hne, rfl⟩ <;>
        simp only [Rect.left, Rect.right, Rect.top, Rect.bottom] at * <;> grind
    · intro p
      rw [hc]
      have := four_parts (min r.left r.right) (max r.left r.right) (min r.top r.bottom) (max r.top r.bottom) x.left x.right x.top x.bottom
        p.x p.y h1 s1 h3 h4 s2 h6
      unfold Covers
      rw [show Inside x p ↔ (x.left ≤ p.x ∧ p.x < x.right ∧ x.top ≤ p.y ∧ p.y < x.bottom) from Iff.rfl, ← this]
      constructor
      · rintro ⟨q, hq, hi⟩
        rw [hm] at hq
        rcases hq with ((⟨hne, rfl⟩ | ⟨hne, rfl⟩) | ⟨hne, rfl⟩) | ⟨hne, rfl⟩
        · exact .inl (.inl (.inl ⟨hne, hi⟩))
        · exact .inl (.inl (.inr ⟨hne, hi⟩))
        · exact .inl (.inr ⟨hne, hi⟩)
        · exact .inr ⟨hne, hi⟩
      · rintro (((⟨hne, hi⟩ | ⟨hne, hi⟩) | ⟨hne, hi⟩) | ⟨hne, hi⟩)
        · exact ⟨_, (hm _).2 (.inl (.inl (.inl ⟨hne, rfl⟩))), hi⟩
        · exact ⟨_, (hm _).2 (.inl (.inl (.inr ⟨hne, rfl⟩))), hi⟩
        · exact ⟨_, (hm _).2 (.inl (.inr ⟨hne, rfl⟩)), hi⟩
        · exact ⟨_, (hm _).2 (.inr ⟨hne, rfl⟩), hi⟩
    · intro p q hq q' hq' hi hi'
      rw [hm] at hq hq'
      unfold Inside at hi hi'
      simp only [Rect.left, Rect.right, Rect.top, Rect.bottom] at s1 s2 h1 h3 h4 h6 hi hi' hq hq'
      rcases hq with ((⟨_, rfl⟩ | ⟨_, rfl⟩) | ⟨_, rfl⟩) | ⟨_, rfl⟩ <;>
        rcases hq' with ((⟨_, rfl⟩ | ⟨_, rfl⟩) | ⟨_, rfl⟩) | ⟨_, rfl⟩ <;>
        first | rfl | (exfalso; simp only at hi hi'; obtain ⟨i1, i2, i3, i4⟩ := hi; obtain ⟨j1, j2, j3, j4⟩ := hi'; linarith)

/-- If they have none, the message is not understood. -/
theorem areas_fails (r a : Rect) (h : ¬ ∃ p, Covers r p ∧ Covers a p) : areasOutside r a = none := by
  cases hx : intersect r a with
  | none => unfold areasOutside; rw [hx]
  | some x =>
    obtain ⟨hs, -⟩ := intersect_inside r a x hx
    exact absurd ⟨x.origin, (covers_both r a x hx _).2 ⟨le_refl _, hs.1, le_refl _, hs.2⟩⟩ h

/-- Two squares that touch. -/
example : areasOutside ⟨⟨0, 0⟩, ⟨1, 1⟩⟩ ⟨⟨1, 0⟩, ⟨2, 1⟩⟩ = none ∧
    areasOutside ⟨⟨0, 0⟩, ⟨3, 3⟩⟩ ⟨⟨2, 2⟩, ⟨1, 1⟩⟩ = some [⟨⟨0, 0⟩, ⟨1, 3⟩⟩, ⟨⟨1, 0⟩, ⟨2, 1⟩⟩, ⟨⟨1, 2⟩, ⟨2, 3⟩⟩, ⟨⟨2, 0⟩, ⟨3, 3⟩⟩] := by
  decide +kernel

example : ∃ p, Covers ⟨⟨0, 0⟩, ⟨3, 3⟩⟩ p ∧ Covers ⟨⟨2, 2⟩, ⟨1, 1⟩⟩ p :=
  ⟨⟨1, 1⟩, by norm_num [Covers, Rect.left, Rect.right, Rect.top, Rect.bottom],
    by norm_num [Covers, Rect.left, Rect.right, Rect.top, Rect.bottom]⟩

/-! ### C183: overlapping and containing -/

/-- Two rectangles intersect if they have a point in common, and what they have in common is the intersection. -/
theorem intersects_iff (r a : Rect) : (intersects r a = true ↔ ∃ p, Covers r p ∧ Covers a p) ∧
    (∀ x, intersect r a = some x → ∀ p, Inside x p ↔ Covers r p ∧ Covers a p) ∧
    (intersect r a = none ↔ ¬ ∃ p, Covers r p ∧ Covers a p) := by
  have hn : intersect r a = none ↔ ¬ ∃ p, Covers r p ∧ Covers a p := by
    constructor
    · rintro h ⟨p, hp⟩
      exact intersect_none r a h p hp
    · intro h
      cases hx : intersect r a with
      | none => rfl
      | some x =>
        obtain ⟨hs, -⟩ := intersect_inside r a x hx
        exact absurd ⟨x.origin, (covers_both r a x hx _).2 ⟨le_refl _, hs.1, le_refl _, hs.2⟩⟩ h
  refine ⟨?_, fun x hx p => (covers_both r a x hx p).symm, hn⟩
  have : intersects r a = true ↔ intersect r a ≠ none := by
    unfold intersects intersect
    dsimp only
    split
    · simp
    · split
      · rename_i h; simpa only [gt_iff_lt, decide_eq_true_eq, ne_eq, not_true_eq_false, iff_false, not_lt] using h
      · rename_i h; simpa only [gt_iff_lt, decide_eq_true_eq, ne_eq, reduceCtorEq, not_false_eq_true, iff_true, not_le] using h
  rw [this, ne_eq, hn, not_not]

/-- A rectangle that is contained is so with all its points; and one with points is contained if all are and it does not touch the right
or lower edge. -/
theorem contains_partial (r a : Rect) : (contains r a = true → ∀ p, Inside a p → Inside r p) ∧
    (Solid a → (contains r a = true ↔ (∀ p, Inside a p → Inside r p) ∧ a.right < r.right ∧ a.bottom < r.bottom)) := by
  have h1 : contains r a = true ↔ Inside r a.origin ∧ Inside r a.corner := by
    unfold contains
    rw [Bool.and_eq_true, inside_iff, inside_iff]
  have h2 : contains r a = true → ∀ p, Inside a p → Inside r p := by
    rw [h1]
    rintro ⟨⟨c1, c2, c3, c4⟩, d1, d2, d3, d4⟩ p ⟨p1, p2, p3, p4⟩
    exact ⟨le_trans c1 p1, lt_trans p2 d2, le_trans c3 p3, lt_trans p4 d4⟩
  refine ⟨h2, fun hs => ⟨fun h => ⟨h2 h, (h1.1 h).2.2.1, (h1.1 h).2.2.2.2⟩, ?_⟩⟩
  rintro ⟨h3, h4, h5⟩
  have ho := h3 a.origin ⟨le_refl _, hs.1, le_refl _, hs.2⟩
  exact h1.2 ⟨ho, le_trans ho.1 hs.1.le, h4, le_trans ho.2.2.1 hs.2.le, h5⟩

/-- No rectangle contains itself. -/
theorem contains_self_fails (r : Rect) : contains r r = false := by
  cases h : contains r r with
  | false => rfl
  | true =>
    unfold contains at h
    rw [Bool.and_eq_true, inside_iff, inside_iff] at h
    exact absurd h.2.2.1 (lt_irrefl _)

/-- `normalize`, which is to put the origin before the corner, does the reverse. -/
theorem normalize_fails (r : Rect) (h : Solid r) : (normalize r).right < (normalize r).left ∧ (normalize r).bottom < (normalize r).top := by
  unfold normalize
  rw [if_pos h.1]
  have : (⟨⟨r.corner.x, r.origin.y⟩, ⟨r.left, r.corner.y⟩⟩ : Rect).bottom > (⟨⟨r.corner.x, r.origin.y⟩, ⟨r.left, r.corner.y⟩⟩ : Rect).top := h.2
  dsimp only
  rw [if_pos this]
  exact h

example : contains ⟨⟨0, 0⟩, ⟨3, 3⟩⟩ ⟨⟨0, 0⟩, ⟨2, 2⟩⟩ = true ∧ intersects ⟨⟨0, 0⟩, ⟨3, 3⟩⟩ ⟨⟨2, 2⟩, ⟨5, 5⟩⟩ = true ∧
    intersects ⟨⟨0, 0⟩, ⟨3, 3⟩⟩ ⟨⟨3, 0⟩, ⟨5, 5⟩⟩ = false := by decide +kernel

/-! ### C184: merging, moving and expanding -/

/-- The merger of two rectangles with points is the smallest rectangle with the points of both. -/
theorem merge_partial (r a : Rect) (hr : Solid r) (ha : Solid a) : (∀ p, Inside r p ∨ Inside a p → Inside (merge r a) p) ∧
    ∀ s, (∀ p, Inside r p ∨ Inside a p → Inside s p) → ∀ p, Inside (merge r a) p → Inside s p := by
  have m1 : (merge r a).left = min r.left a.left := rfl
  have m2 : (merge r a).right = max r.right a.right := rfl
  have m3 : (merge r a).top = min r.top a.top := rfl
  have m4 : (merge r a).bottom = max r.bottom a.bottom := rfl
  constructor
  · intro p
    unfold Inside
    rw [m1, m2, m3, m4]
    rintro (⟨h1, h2, h3, h4⟩ | ⟨h1, h2, h3, h4⟩)
    · exact ⟨le_trans (min_le_left _ _) h1, lt_of_lt_of_le h2 (le_max_left _ _), le_trans (min_le_left _ _) h3, lt_of_lt_of_le h4 (le_max_left _ _)⟩
    · exact ⟨le_trans (min_le_right _ _) h1, lt_of_lt_of_le h2 (le_max_right _ _), le_trans (min_le_right _ _) h3, lt_of_lt_of_le h4 (le_max_right _ _)⟩
  · intro s hs
    have key : ∀ q : Rect, Solid q → (∀ p, Inside q p → Inside s p) → s.left ≤ q.left ∧ q.right ≤ s.right ∧ s.top ≤ q.top ∧ q.bottom ≤ s.bottom := by
      intro q hq h
      have ho := h q.origin ⟨le_refl _, hq.1, le_refl _, hq.2⟩
      refine ⟨ho.1, ?_, ho.2.2.1, ?_⟩
      · by_contra hlt
        rw [not_le] at hlt
        have := h ⟨max q.left s.right, q.top⟩ ⟨le_max_left _ _, max_lt hq.1 hlt, le_refl _, hq.2⟩
        exact absurd this.2.1 (not_lt.2 (le_max_right _ _))
      · by_contra hlt
        rw [not_le] at hlt
        have := h ⟨q.left, max q.top s.bottom⟩ ⟨le_refl _, hq.1, le_max_left _ _, max_lt hq.2 hlt⟩
        exact absurd this.2.2.2 (not_lt.2 (le_max_right _ _))
    obtain ⟨a1, a2, a3, a4⟩ := key r hr fun p hp => hs p (.inl hp)
    obtain ⟨b1, b2, b3, b4⟩ := key a ha fun p hp => hs p (.inr hp)
    intro p
    unfold Inside
    rw [m1, m2, m3, m4]
    rintro ⟨h1, h2, h3, h4⟩
    exact ⟨le_trans (le_min a1 b1) h1, lt_of_lt_of_le h2 (max_le a2 b2), le_trans (le_min a3 b3) h3, lt_of_lt_of_le h4 (max_le a4 b4)⟩

/-- An empty rectangle makes the merger larger. -/
theorem merge_fails : (∀ p, ¬ Inside ⟨⟨0, 0⟩, ⟨0, 0⟩⟩ p) ∧ containsPoint (merge ⟨⟨0, 0⟩, ⟨0, 0⟩⟩ ⟨⟨5, 5⟩, ⟨6, 6⟩⟩) ⟨1, 1⟩ = true ∧
    containsPoint ⟨⟨5, 5⟩, ⟨6, 6⟩⟩ ⟨1, 1⟩ = false := by
  refine ⟨?_, by decide +kernel, by decide +kernel⟩
  rintro p ⟨h1, h2, -, -⟩
  exact absurd (lt_of_le_of_lt h1 h2) (lt_irrefl _)

/-- A rectangle that is moved to be within another has the same size; it is in the other if that is as wide and as high, and stays if it
was contained. -/
theorem within_partial (r a : Rect) : (translatedToBeWithin r a).extent = r.extent ∧
    (contains a r = true → translatedToBeWithin r a = r) ∧
    (r.extent.x ≤ a.extent.x → r.extent.y ≤ a.extent.y → ∀ p, Inside (translatedToBeWithin r a) p → Inside a p) := by
  have ext : ∀ d, (translateBy r d).extent = r.extent := by
    intro d
    unfold translateBy Rect.extent Pt.sub Pt.add
    ext <;> simp
  have stay : contains a r = true → translatedToBeWithin r a = r := by
    intro h
    unfold translatedToBeWithin amountToTranslateWithin translateBy
    rw [if_pos h]
    ext <;> simp [Pt.add]
  refine ⟨ext _, stay, ?_⟩
  intro hx hy p
  by_cases h : contains a r = true
  · rw [stay h]
    exact (contains_partial a r).1 h p
  · unfold translatedToBeWithin amountToTranslateWithin translateBy
    rw [if_neg h]
    unfold Rect.extent Pt.sub at hx hy
    unfold Inside Rect.left Rect.right Rect.top Rect.bottom Pt.add Pt.sub
    simp only at hx hy ⊢
    rintro ⟨h1, h2, h3, h4⟩
    exact ⟨by linarith, by linarith, by linarith, by linarith⟩

/-- A rectangle that is larger extends beyond; and one that is in the other, but touches its edge, is moved. -/
theorem within_fails : translatedToBeWithin ⟨⟨0, 0⟩, ⟨10, 10⟩⟩ ⟨⟨5, 5⟩, ⟨8, 8⟩⟩ = ⟨⟨5, 5⟩, ⟨15, 15⟩⟩ ∧
    translatedToBeWithin ⟨⟨5, 5⟩, ⟨10, 10⟩⟩ ⟨⟨0, 0⟩, ⟨10, 10⟩⟩ = ⟨⟨0, 0⟩, ⟨5, 5⟩⟩ := by decide +kernel

/-- The edges of a rectangle that is expanded, and that insetting undoes it. -/
theorem expand_inset (r : Rect) (d : Delta) : insetBy (expandBy r d) d = r ∧ expandBy (insetBy r d) d = r ∧
    (∀ n, d = .num n → (expandBy r d).left = r.left - n ∧ (expandBy r d).right = r.right + n ∧
      (expandBy r d).top = r.top - n ∧ (expandBy r d).bottom = r.bottom + n) ∧
    (∀ q, d = .point q → (expandBy r d).left = r.left - q.x ∧ (expandBy r d).right = r.right + q.x ∧
      (expandBy r d).top = r.top - q.y ∧ (expandBy r d).bottom = r.bottom + q.y) ∧
    (∀ s, d = .rect s → (expandBy r d).left = r.left - s.left ∧ (expandBy r d).right = r.right + s.right ∧
      (expandBy r d).top = r.top - s.top ∧ (expandBy r d).bottom = r.bottom + s.bottom) := by
  refine ⟨?_, ?_, ?_, ?_, ?_⟩
  · cases d <;> ext <;> simp [insetBy, expandBy, Pt.add, Pt.sub]
  · cases d <;> ext <;> simp [insetBy, expandBy, Pt.add, Pt.sub]
  · rintro n rfl; exact ⟨rfl, rfl, rfl, rfl⟩
  · rintro n rfl; exact ⟨rfl, rfl, rfl, rfl⟩
  · rintro n rfl; exact ⟨rfl, rfl, rfl, rfl⟩

example : Solid ⟨⟨0, 0⟩, ⟨3, 3⟩⟩ := by norm_num [Solid, Rect.left, Rect.right, Rect.top, Rect.bottom]

/-! ### C185: what is set is what is seen -/

/-- What a message is to do to the coordinates of a rectangle. -/
def effect (r : Rect) : Op → Rect
  | .origin p => ⟨p, r.corner⟩
  | .originCorner p q => ⟨p, q⟩
  | .originExtent p q => ⟨p, ⟨p.x + q.x, p.y + q.y⟩⟩
  | .corner _ => r
  | .bottomRight p => ⟨r.origin, p⟩
  | .bottomLeft p => ⟨⟨p.x, r.origin.y⟩, ⟨r.corner.x, p.y⟩⟩
  | .topRight p => ⟨⟨r.origin.x, p.y⟩, ⟨p.x, r.corner.y⟩⟩
  | .left v => ⟨⟨v, r.origin.y⟩, r.corner⟩
  | .right v => ⟨r.origin, ⟨v, r.corner.y⟩⟩
  | .top v => ⟨⟨r.origin.x, v⟩, r.corner⟩
  | .bottom v => ⟨r.origin, ⟨r.corner.x, v⟩⟩
  | .width v => ⟨r.origin, ⟨r.origin.x + v, r.corner.y⟩⟩
  | .height v => ⟨r.origin, ⟨r.corner.x, r.origin.y + v⟩⟩
  | .extent p => ⟨r.origin, ⟨r.origin.x + p.x, r.origin.y + p.y⟩⟩
  | .all l t r b => ⟨⟨l, t⟩, ⟨r, b⟩⟩
  | .moveBy p => ⟨⟨r.origin.x + p.x, r.origin.y + p.y⟩, ⟨r.corner.x + p.x, r.corner.y + p.y⟩⟩
  | .moveTo p => ⟨p, ⟨r.corner.x + (p.x - r.origin.x), r.corner.y + (p.y - r.origin.y)⟩⟩

/-- The message is not `corner:`. -/
def Copies : Op → Prop
  | .corner _ => False
  | _ => True

/-- No two rectangles share a point, and none has one point twice. -/
structure World.Own {n : ℕ} (w : World n) : Prop where
  lt : ∀ i, (w.rect i).1 < w.next ∧ (w.rect i).2 < w.next
  one : ∀ i j, (w.rect i).1 ≠ (w.rect j).2
  fst : ∀ i j, (w.rect i).1 = (w.rect j).1 → i = j
  snd : ∀ i j, (w.rect i).2 = (w.rect j).2 → i = j

theorem own_put {n : ℕ} (w : World n) (h : w.Own) (k : ℕ) (f : Pt → Pt) : (w.put k f).Own := ⟨h.lt, h.one, h.fst, h.snd⟩

theorem own_origin {n : ℕ} (w : World n) (h : w.Own) (i : Fin n) (p : Pt) : ((w.new p).1.setOrigin i (w.new p).2).Own ∧
    ∀ j, ((w.new p).1.setOrigin i (w.new p).2).view j = if j = i then ⟨p, (w.view i).corner⟩ else w.view j := by
  unfold World.new World.setOrigin
  constructor
  · constructor
    · intro j
      have := h.lt j
      by_cases hj : j = i
      · subst hj; simp; omega
      · simp [hj]; omega
    · intro a b
      have := h.one a b
      have := h.lt b
      by_cases ha : a = i <;> by_cases hb : b = i <;> simp [ha, hb] <;> first | (subst hb; omega) | omega
    · intro a b
      have := h.fst a b
      have := h.lt b
      have := h.lt a
      by_cases ha : a = i <;> by_cases hb : b = i <;> simp [ha, hb] <;> omega
    · intro a b
      have := h.snd a b
      by_cases ha : a = i <;> by_cases hb : b = i <;> simp_all
  · intro j
    have h1 := h.lt j
    unfold World.view
    by_cases hj : j = i
    · subst hj
      have : (w.rect j).2 ≠ w.next := by omega
      simp [Function.update_of_ne this]
    · have e1 : (w.rect j).1 ≠ w.next := by omega
      have e2 : (w.rect j).2 ≠ w.next := by omega
      simp [hj, Function.update_of_ne e1, Function.update_of_ne e2]

theorem own_corner {n : ℕ} (w : World n) (h : w.Own) (i : Fin n) (p : Pt) : ((w.new p).1.setCorner i (w.new p).2).Own ∧
    ∀ j, ((w.new p).1.setCorner i (w.new p).2).view j = if j = i then ⟨(w.view i).origin, p⟩ else w.view j := by
  unfold World.new World.setCorner
  constructor
  · constructor
    · intro j
      have := h.lt j
      by_cases hj : j = i
      · subst hj; simp; omega
      · simp [hj]; omega
    · intro a b
      have := h.one a b
      have := h.lt a
      by_cases ha : a = i <;> by_cases hb : b = i <;> simp [ha, hb] <;> first | (subst ha; omega) | omega
    · intro a b
      have := h.fst a b
      by_cases ha : a = i <;> by_cases hb : b = i <;> simp_all
    · intro a b
      have := h.snd a b
      have := h.lt b
      have := h.lt a
      by_cases ha : a = i <;> by_cases hb : b = i <;> simp [ha, hb] <;> omega
  · intro j
    have h1 := h.lt j
    unfold World.view
    by_cases hj : j = i
    · subst hj
      have : (w.rect j).1 ≠ w.next := by omega
      simp [Function.update_of_ne this]
    · have e1 : (w.rect j).1 ≠ w.next := by omega
      have e2 : (w.rect j).2 ≠ w.next := by omega
      simp [hj, Function.update_of_ne e1, Function.update_of_ne e2]

theorem own_fresh {n : ℕ} (w : World n) (h : w.Own) (i : Fin n) (p q : Pt) : (w.fresh i p q).Own ∧
    ∀ j, (w.fresh i p q).view j = if j = i then ⟨p, q⟩ else w.view j := by
  obtain ⟨h1, h2⟩ := own_origin w h i p
  obtain ⟨h3, h4⟩ := own_corner _ h1 i q
  refine ⟨h3, ?_⟩
  intro j
  have := h4 j
  unfold World.fresh
  rw [this]
  by_cases hj : j = i
  · rw [if_pos hj, if_pos hj, h2, if_pos rfl]
  · rw [if_neg hj, if_neg hj, h2, if_neg hj]

theorem put_origin {n : ℕ} (w : World n) (h : w.Own) (i : Fin n) (f : Pt → Pt) (j : Fin n) :
    (w.put (w.rect i).1 f).view j = if j = i then ⟨f (w.view i).origin, (w.view i).corner⟩ else w.view j := by
  unfold World.view World.put
  have e2 : (w.rect j).2 ≠ (w.rect i).1 := fun e => h.one i j e.symm
  by_cases hj : j = i
  · subst hj
    simp [Function.update_of_ne e2]
  · have e1 : (w.rect j).1 ≠ (w.rect i).1 := fun e => hj (h.fst j i e)
    simp [hj, Function.update_of_ne e1, Function.update_of_ne e2]

theorem put_corner {n : ℕ} (w : World n) (h : w.Own) (i : Fin n) (f : Pt → Pt) (j : Fin n) :
    (w.put (w.rect i).2 f).view j = if j = i then ⟨(w.view i).origin, f (w.view i).corner⟩ else w.view j := by
  unfold World.view World.put
  have e1 : (w.rect j).1 ≠ (w.rect i).2 := h.one j i
  by_cases hj : j = i
  · subst hj
    simp [Function.update_of_ne e1]
  · have e2 : (w.rect j).2 ≠ (w.rect i).2 := fun e => hj (h.snd j i e)
    simp [hj, Function.update_of_ne e1, Function.update_of_ne e2]

/-- Any message but `corner:` does to the rectangle it is sent to what it is to do, and nothing to any other. -/
theorem step_partial {n : ℕ} (w : World n) (h : w.Own) (i : Fin n) (op : Op) (hop : Copies op) : (w.step i op).Own ∧
    ∀ j, (w.step i op).view j = if j = i then effect (w.view i) op else w.view j := by
  cases op with
  | corner k => exact absurd hop (by simp [Copies])
  | origin p => exact own_origin w h i p
  | bottomRight p => exact own_corner w h i p
  | extent p => exact own_corner w h i _
  | originCorner p q => exact own_fresh w h i p q
  | originExtent p q => exact own_fresh w h i p _
  | all l t r b => exact own_fresh w h i _ _
  | moveBy p => exact own_fresh w h i _ _
  | moveTo p => exact own_fresh w h i _ _
  | left v => exact ⟨by unfold World.step; exact own_put w h _ _, fun j => by unfold World.step; exact put_origin w h i _ j⟩
  | top v => exact ⟨by unfold World.step; exact own_put w h _ _, fun j => by unfold World.step; exact put_origin w h i _ j⟩
  | right v => exact ⟨by unfold World.step; exact own_put w h _ _, fun j => by unfold World.step; exact put_corner w h i _ j⟩
  | bottom v => exact ⟨by unfold World.step; exact own_put w h _ _, fun j => by unfold World.step; exact put_corner w h i _ j⟩
  | width v => exact ⟨by unfold World.step; exact own_put w h _ _, fun j => by unfold World.step; exact put_corner w h i _ j⟩
  | height v => exact ⟨by unfold World.step; exact own_put w h _ _, fun j => by unfold World.step; exact put_corner w h i _ j⟩
  | bottomLeft p =>
    have o1 := own_put w h (w.rect i).1 fun o => { o with x := p.x }
    refine ⟨by unfold World.step; exact own_put _ o1 _ _, fun j => ?_⟩
    have e1 := put_origin w h i fun o => { o with x := p.x }
    have e2 := put_corner _ o1 i (fun c => { c with y := p.y }) j
    refine e2.trans ?_
    by_cases hj : j = i
    · rw [if_pos hj, if_pos hj, e1, if_pos rfl]; rfl
    · rw [if_neg hj, if_neg hj, e1, if_neg hj]
  | topRight p =>
    have o1 := own_put w h (w.rect i).2 fun c => { c with x := p.x }
    refine ⟨by unfold World.step; exact own_put _ o1 _ _, fun j => ?_⟩
    have e1 := put_corner w h i fun c => { c with x := p.x }
    have e2 := put_origin _ o1 i (fun o => { o with y := p.y }) j
    refine e2.trans ?_
    by_cases hj : j = i
    · rw [if_pos hj, if_pos hj, e1, if_pos rfl]; rfl
    · rw [if_neg hj, if_neg hj, e1, if_neg hj]

/-- The coordinates that rectangles are to have after messages to them. -/
def effects {n : ℕ} (v : Fin n → Rect) : List (Fin n × Op) → Fin n → Rect
  | [] => v
  | (i, op) :: ops => effects (Function.update v i (effect (v i) op)) ops

/-- So after any messages but `corner:`, to any number of rectangles in any order. -/
theorem steps_partial {n : ℕ} (ops : List (Fin n × Op)) : ∀ w : World n, w.Own → (∀ o ∈ ops, Copies o.2) →
    (ops.foldl (fun w o => w.step o.1 o.2) w).Own ∧ (ops.foldl (fun w o => w.step o.1 o.2) w).view = effects w.view ops := by
  induction ops with
  | nil => intro w h _; exact ⟨h, rfl⟩
  | cons o ops ih =>
    obtain ⟨i, op⟩ := o
    intro w h hc
    obtain ⟨h1, h2⟩ := step_partial w h i op (hc (i, op) (by simp))
    obtain ⟨h3, h4⟩ := ih (w.step i op) h1 fun o ho => hc o (by simp [ho])
    refine ⟨h3, ?_⟩
    rw [List.foldl_cons, h4]
    show effects (w.step i op).view ops = effects (Function.update w.view i (effect (w.view i) op)) ops
    congr 1
    funext j
    rw [h2 j]
    by_cases hj : j = i
    · subst hj; simp
    · simp [hj]

/-- `corner:` does not copy: after `r corner: r origin`, and also after `s corner: r origin`, changing the width of one changes the left
edge of the other, and `r width: 3` leaves `r` without width. -/
theorem corner_shares {n : ℕ} (w : World n) (v : ℚ) (i j : Fin n) :
    (let w' := (w.step i (.corner (w.rect i).1)).step i (.width v); (w'.view i).right - (w'.view i).left = 0) ∧
    (i ≠ j → let w' := (w.step j (.corner (w.rect i).1)).step j (.right v); (w'.view i).left = v) := by
  constructor
  · simp [World.step, World.setCorner, World.put, World.view, Rect.right, Rect.left]
  · intro hij
    simp [World.step, World.setCorner, World.put, World.view, Rect.left, hij]

/-- Three rectangles with points of their own. -/
example : (World.mk (n := 3) (fun _ => ⟨0, 0⟩) 6 fun i => (2 * i.val, 2 * i.val + 1)).Own := by
  constructor
  · intro i; have := i.2; simp only; omega
  · intro i j; simp only; omega
  · intro i j h; simp only at h; omega
  · intro i j h; simp only at h; omega

end Verif.Rects
