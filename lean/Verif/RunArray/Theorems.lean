import Verif.RunArray.Model
import Mathlib.Data.List.Induction
import Mathlib.Data.List.Chain

/-
RunArrays against lists.
-/

namespace Verif.RunArray

set_option linter.unusedSectionVars false

variable {α : Type} [DecidableEq α]

/-! ### Totals and elements -/

@[simp] theorem total_nil : total ([] : List (α × Int)) = 0 := rfl
@[simp] theorem total_cons (p : α × Int) (m : List (α × Int)) : total (p :: m) = p.2 + total m := rfl
@[simp] theorem total_append (a b : List (α × Int)) : total (a ++ b) = total a + total b := by
  induction a with
  | nil => simp
  | cons p a ih => simp [ih]; omega

@[simp] theorem elements_nil : elements ([] : List (α × Int)) = [] := rfl
@[simp] theorem elements_cons (p : α × Int) (m : List (α × Int)) :
    elements (p :: m) = List.replicate p.2.toNat p.1 ++ elements m := rfl
@[simp] theorem elements_append (a b : List (α × Int)) : elements (a ++ b) = elements a ++ elements b := by
  simp [elements]

/-- Every run has an element. -/
def Pos (m : List (α × Int)) : Prop := ∀ p ∈ m, 1 ≤ p.2

theorem total_nonneg {m : List (α × Int)} (h : Pos m) : 0 ≤ total m := by
  induction m with
  | nil => simp
  | cons p m ih =>
    have h1 := h p (by simp)
    have h2 := ih (fun q hq => h q (by simp [hq]))
    simp; omega

theorem elements_length {m : List (α × Int)} (h : Pos m) : ((elements m).length : Int) = total m := by
  induction m with
  | nil => simp
  | cons p m ih =>
    have h1 := h p (by simp)
    have h2 := ih (fun q hq => h q (by simp [hq]))
    simp; omega

/-! ### The representation invariant and what it represents -/

/-- The cursor is on no run, or on the run it says it is on. -/
def Cursor (r : RA α) : Prop :=
  (r.mapIndex = 0 ∧ r.firstInRun = 0 ∧ r.lastInRun = 0) ∨
  ∃ pre p post, r.map = pre ++ p :: post ∧ r.mapIndex = pre.length + 1 ∧ r.firstInRun = total pre + 1 ∧
    r.lastInRun = total pre + p.2

/-- `r` is a well-formed RunArray that holds `l`. -/
structure Holds (r : RA α) (l : List α) : Prop where
  pos : Pos r.map
  size : r.size = total r.map
  cursor : Cursor r
  elems : elements r.map = l

theorem mapAt_mid (pre post : List (α × Int)) (p : α × Int) :
    mapAt (pre ++ p :: post) (pre.length + 1) = .ok p := by
  rw [mapAt, if_neg (by omega), show ((pre.length : Int) + 1 - 1).toNat = pre.length by omega]
  simp

/-- `i` is an index of the run `p`. -/
theorem elem_mid (pre post : List (α × Int)) (p : α × Int) (h : Pos (pre ++ p :: post)) (i : Int)
    (h1 : total pre < i) (h2 : i ≤ total pre + p.2) :
    (elements (pre ++ p :: post))[(i - 1).toNat]? = some p.1 := by
  have hp : Pos pre := fun q hq => h q (by simp [hq])
  have hl := elements_length hp
  rw [elements_append, elements_cons, List.getElem?_append_right (by omega),
    List.getElem?_append_left (by simp; omega), List.getElem?_replicate, if_pos (by omega)]

/-! ### Moving the cursor -/

theorem onLoop_spec (i : Int) : ∀ (rest pre : List (α × Int)) (f : Nat), Pos (pre ++ rest) → rest.length < f →
    total pre < i → i ≤ total pre + total rest →
    ∃ pre' p post, pre ++ rest = pre' ++ p :: post ∧ total pre' < i ∧ i ≤ total pre' + p.2 ∧
      onLoop (pre ++ rest) i f pre.length (total pre) = .ok (pre'.length + 1, total pre' + 1, total pre' + p.2) := by
  intro rest
  induction rest with
  | nil => intro pre f _ _ h1 h2; simp at h2; omega
  | cons p rest ih =>
    intro pre f hpos hf h1 h2
    cases f with
    | zero => simp at hf
    | succ f =>
      rw [onLoop, mapAt_mid]
      simp only
      by_cases hc : total pre + p.2 < i
      · rw [if_pos hc]
        have e : pre ++ p :: rest = (pre ++ [p]) ++ rest := by simp
        have := ih (pre ++ [p]) f (by rw [← e]; exact hpos) (by simpa using hf) (by simpa using hc)
          (by simp at h2 ⊢; omega)
        rw [← e] at this
        simpa using this
      · rw [if_neg hc]
        exact ⟨pre, p, rest, rfl, h1, by omega, rfl⟩

theorem backLoop_spec (i : Int) (hi : 1 ≤ i) (pre : List (α × Int)) : ∀ (post : List (α × Int)) (f : Nat),
    Pos (pre ++ post) → pre.length < f → i ≤ total pre →
    ∃ pre' p post', pre ++ post = pre' ++ p :: post' ∧ total pre' < i ∧ i ≤ total pre' + p.2 ∧
      backLoop (pre ++ post) i f (pre.length + 1) (total pre + 1) = .ok (pre'.length + 1, total pre' + 1, total pre' + p.2) := by
  induction pre using List.reverseRecOn with
  | nil => intro post f _ _ h; simp at h; omega
  | append_singleton pre p ih =>
    intro post f hpos hf h
    cases f with
    | zero => simp at hf
    | succ f =>
      have e : pre ++ [p] ++ post = pre ++ p :: post := by simp
      rw [e] at hpos ⊢
      have em : mapAt (pre ++ p :: post) (((pre ++ [p]).length : Int) + 1 - 1) = .ok p := by
        rw [← mapAt_mid pre post p]; congr 1; simp
      rw [backLoop, em]
      simp only [total_append, total_cons, total_nil] at h ⊢
      by_cases hc : i < total pre + (p.2 + 0) + 1 - p.2
      · rw [if_pos hc]
        obtain ⟨pre', q, post', h1, h2, h3, h4⟩ := ih (p :: post) f hpos (by simp at hf; omega) (by omega)
        refine ⟨pre', q, post', h1, h2, h3, ?_⟩
        rw [← h4]
        congr 1
        · simp
        · omega
      · rw [if_neg hc]
        refine ⟨pre, p, post, rfl, by omega, by omega, ?_⟩
        simp; omega

/-- The cursor is on the run of the index `i`. -/
def On (r : RA α) (i : Int) : Prop :=
  ∃ pre p post, r.map = pre ++ p :: post ∧ r.mapIndex = pre.length + 1 ∧ r.firstInRun = total pre + 1 ∧
    r.lastInRun = total pre + p.2 ∧ total pre < i ∧ i ≤ total pre + p.2

theorem update_spec (r : RA α) (l : List α) (h : Holds r l) (i : Int) (h1 : 1 ≤ i) (h2 : i ≤ l.length) :
    ∃ r', update r i = .ok r' ∧ Holds r' l ∧ On r' i ∧ r'.map = r.map ∧ r'.size = r.size := by
  have hlen := elements_length h.pos
  rw [h.elems] at hlen
  rw [update]
  by_cases hc : i ≥ r.firstInRun ∧ i ≤ r.lastInRun
  · rw [if_pos hc]
    refine ⟨r, rfl, h, ?_, rfl, rfl⟩
    rcases h.cursor with ⟨_, _, h5⟩ | ⟨pre, p, post, e1, e2, e3, e4⟩
    · omega
    · exact ⟨pre, p, post, e1, e2, e3, e4, by omega, by omega⟩
  · rw [if_neg hc, if_neg (by omega), if_neg (by rw [h.size]; omega)]
    have mk : ∀ a b c, (∃ pre' p post', r.map = pre' ++ p :: post' ∧ total pre' < i ∧ i ≤ total pre' + p.2 ∧
        (a, b, c) = ((pre'.length : Int) + 1, total pre' + 1, total pre' + p.2)) →
        Holds { r with mapIndex := a, firstInRun := b, lastInRun := c } l ∧
        On { r with mapIndex := a, firstInRun := b, lastInRun := c } i := by
      rintro a b c ⟨pre', p, post', e, h3, h4, h5⟩
      simp only [Prod.mk.injEq] at h5
      exact ⟨⟨h.pos, h.size, .inr ⟨pre', p, post', e, h5.1, h5.2.1, h5.2.2⟩, h.elems⟩,
        ⟨pre', p, post', e, h5.1, h5.2.1, h5.2.2, h3, h4⟩⟩
    by_cases hb : i < r.firstInRun
    · rw [if_pos hb]
      rcases h.cursor with ⟨_, h5, _⟩ | ⟨pre, p, post, e1, e2, e3, e4⟩
      · omega
      · obtain ⟨pre', q, post', g1, g2, g3, g4⟩ := backLoop_spec i h1 pre (p :: post) (r.map.length + 1)
          (by rw [← e1]; exact h.pos) (by rw [e1]; simp; omega) (by omega)
        rw [← e1] at g1 g4
        rw [e2, e3, g4]
        obtain ⟨ha, hb⟩ := mk _ _ _ ⟨pre', q, post', g1, g2, g3, rfl⟩
        exact ⟨_, rfl, ha, hb, rfl, rfl⟩
    · rw [if_neg hb]
      have key : ∃ pre rest, r.map = pre ++ rest ∧ r.mapIndex = pre.length ∧ r.lastInRun = total pre := by
        rcases h.cursor with ⟨h5, _, h6⟩ | ⟨pre, p, post, e1, e2, e3, e4⟩
        · exact ⟨[], r.map, rfl, by simpa using h5, by simpa using h6⟩
        · exact ⟨pre ++ [p], post, by simp [e1], by simp [e2], by simp [e4]⟩
      obtain ⟨pre, rest, e1, e2, e3⟩ := key
      have hlast : r.lastInRun < i := by omega
      obtain ⟨pre', q, post', g1, g2, g3, g4⟩ := onLoop_spec i rest pre (r.map.length + 1)
        (by rw [← e1]; exact h.pos) (by rw [e1]; simp; omega) (by omega)
        (by rw [← total_append, ← e1]; omega)
      rw [← e1] at g1 g4
      rw [e2, e3, g4]
      obtain ⟨ha, hb⟩ := mk _ _ _ ⟨pre', q, post', g1, g2, g3, rfl⟩
      exact ⟨_, rfl, ha, hb, rfl, rfl⟩

/-! ### Making and reading a RunArray -/

/-- Neighbouring runs are of different elements. -/
def Packed (m : List (α × Int)) : Prop := m.IsChain (fun a b => a.1 ≠ b.1)

theorem packLoop_spec : ∀ (xs : List α) (prev : α) (s c : Nat), s < c →
    Pos (packLoop prev s c xs) ∧ elements (packLoop prev s c xs) = List.replicate (c - s) prev ++ xs ∧
    Packed (packLoop prev s c xs) ∧ ∃ n rest, packLoop prev s c xs = (prev, n) :: rest := by
  intro xs
  induction xs with
  | nil =>
    intro prev s c h
    refine ⟨?_, ?_, ?_, ⟨_, _, rfl⟩⟩
    · intro p hp
      simp only [packLoop, List.mem_singleton] at hp
      subst hp; simp; omega
    · simp only [packLoop, elements_cons, elements_nil]
      rw [show ((c : Int) - s).toNat = c - s by omega]
    · simp [packLoop, Packed]
  | cons x xs ih =>
    intro prev s c h
    rw [packLoop]
    by_cases hx : x = prev
    · rw [if_pos hx]
      obtain ⟨h1, h2, h3, h4⟩ := ih prev s (c + 1) (by omega)
      refine ⟨h1, ?_, h3, h4⟩
      rw [h2, show c + 1 - s = (c - s) + 1 by omega, List.replicate_succ', hx]
      simp
    · rw [if_neg hx]
      obtain ⟨h1, h2, h3, n, rest, h4⟩ := ih x c (c + 1) (by omega)
      refine ⟨?_, ?_, ?_, ⟨_, _, rfl⟩⟩
      · intro p hp
        rcases List.mem_cons.1 hp with rfl | hp
        · simp; omega
        · exact h1 p hp
      · rw [elements_cons, h2]
        simp only
        rw [show ((c : Int) - s).toNat = c - s by omega, show c + 1 - c = 1 by omega]
        simp
      · rw [h4] at h3 ⊢
        unfold Packed at h3 ⊢
        rw [List.isChain_cons_cons]
        exact ⟨fun e => hx e.symm, h3⟩

theorem holds_ofMap (m : List (α × Int)) (h : Pos m) : Holds (ofMap m) (elements m) := by
  cases m with
  | nil => exact ⟨h, rfl, .inl ⟨rfl, rfl, rfl⟩, rfl⟩
  | cons p ps =>
    refine ⟨h, rfl, .inr ⟨[], p, ps, rfl, ?_, ?_, ?_⟩, rfl⟩ <;> simp [ofMap]

/-- A RunArray made from a list that is not empty holds that list. -/
theorem asRunArray_holds (l : List α) (hl : l ≠ []) : ∃ r, asRunArray l = .ok r ∧ Holds r l := by
  cases l with
  | nil => exact absurd rfl hl
  | cons x xs =>
    obtain ⟨h1, h2, -, -⟩ := packLoop_spec xs x 1 2 (by omega)
    refine ⟨ofMap (packLoop x 1 2 xs), rfl, ?_⟩
    have := holds_ofMap _ h1
    rw [h2] at this
    simpa using this

/-- An empty collection cannot be converted: `#() asRunArray` is an error. -/
theorem asRunArray_empty_fails : asRunArray ([] : List α) = .error .index := rfl

/-- `do:` enumerates the list; `size` is its length; `first` and `last` are its ends. -/
theorem do_correct (r : RA α) (l : List α) (h : Holds r l) : elements r.map = l ∧ r.size = l.length := by
  refine ⟨h.elems, ?_⟩
  rw [h.size, ← elements_length h.pos, h.elems]

theorem first_last_correct (r : RA α) (l : List α) (h : Holds r l) :
    first r = (match l.head? with | some x => .ok x | none => .error .index) ∧
    last r = (match l.getLast? with | some x => .ok x | none => .error .index) := by
  have hp := h.pos
  rw [← h.elems]
  constructor
  · cases hm : r.map with
    | nil => simp [first, hm, mapAt, Except.map]
    | cons p m =>
      rw [hm] at hp
      have h1 := hp p (by simp)
      obtain ⟨n, hn⟩ : ∃ n, p.2.toNat = n + 1 := ⟨p.2.toNat - 1, by omega⟩
      simp [first, hm, mapAt, Except.map, hn, List.replicate_succ]
  · rcases List.eq_nil_or_concat r.map with hm | ⟨m, p, hm⟩
    · simp [last, hm, mapAt, Except.map]
    · rw [hm] at hp
      have h1 := hp p (by simp)
      obtain ⟨n, hn⟩ : ∃ n, p.2.toNat = n + 1 := ⟨p.2.toNat - 1, by omega⟩
      have := mapAt_mid m [] p
      simp only [last, hm, List.concat_eq_append, List.length_append, List.length_cons, List.length_nil] at this ⊢
      rw [show ((m.length + (0 + 1) : Nat) : Int) = (m.length : Int) + 1 by omega, this]
      simp [Except.map, hn, List.replicate_succ']

/-- `at:` answers the element of the list, and leaves a RunArray that holds the same list; other
indices are errors.  So any sequence of reads, in any order, is right. -/
theorem at_correct (r : RA α) (l : List α) (h : Holds r l) (i : Int) :
    (∀ x, 1 ≤ i → l[(i - 1).toNat]? = some x → ∃ r', at_ r i = .ok (r', x) ∧ Holds r' l) ∧
    ((i < 1 ∨ (l.length : Int) < i) → at_ r i = .error .index) := by
  have hlen := elements_length h.pos
  rw [h.elems] at hlen
  constructor
  · intro x h1 hx
    have h2 : (i - 1).toNat < l.length := (List.getElem?_eq_some_iff.1 hx).1
    obtain ⟨r', e, hr', ⟨pre, p, post, e1, e2, e3, e4, h3, h4⟩, -, -⟩ := update_spec r l h i h1 (by omega)
    refine ⟨r', ?_, hr'⟩
    have hel := elem_mid pre post p (by rw [← e1]; exact hr'.pos) i h3 h4
    rw [← e1, hr'.elems, hx] at hel
    rw [at_, e]
    simp only
    rw [e1, e2, mapAt_mid]
    simp only [Except.ok.injEq, Prod.mk.injEq, true_and]
    exact (Option.some.inj hel).symm
  · intro hbad
    rw [at_, update]
    by_cases h0 : i = 0
    · subst h0
      rcases h.cursor with ⟨h5, h6, h7⟩ | ⟨pre, p, post, e1, e2, e3, e4⟩
      · rw [if_pos (by omega)]; simp [mapAt, h5]
      · have : 0 ≤ total pre := total_nonneg (fun q hq => h.pos q (by rw [e1]; simp [hq]))
        rw [if_neg (by omega), if_pos rfl]
        simp [mapAt]
    · have hlast : r.lastInRun ≤ total r.map ∧ 0 ≤ r.firstInRun := by
        rcases h.cursor with ⟨h5, h6, h7⟩ | ⟨pre, p, post, e1, e2, e3, e4⟩
        · rw [← hlen]; omega
        · have hp : 0 ≤ total post := total_nonneg (fun q hq => h.pos q (by rw [e1]; simp [hq]))
          have hq : 0 ≤ total pre := total_nonneg (fun q hq => h.pos q (by rw [e1]; simp [hq]))
          rw [e1]; simp; omega
      rw [if_neg (by omega), if_neg h0, if_pos (by rw [h.size]; omega)]

/-- A whole sequence of reads. -/
theorem reads_correct (is : List Nat) : ∀ (r : RA α) (l : List α), Holds r l → (∀ i ∈ is, i < l.length) →
    ∃ r', Holds r' l ∧ is.foldlM (m := Except Err) (fun (s : RA α × List α) (i : Nat) =>
      (at_ s.1 (i + 1)).map (fun t => (t.1, s.2 ++ [t.2]))) (r, []) = .ok (r', is.filterMap (l[·]?)) := by
  suffices H : ∀ (is : List Nat) (r : RA α) (l acc : List α), Holds r l → (∀ i ∈ is, i < l.length) →
      ∃ r', Holds r' l ∧ is.foldlM (m := Except Err) (fun (s : RA α × List α) (i : Nat) =>
        (at_ s.1 (i + 1)).map (fun t => (t.1, s.2 ++ [t.2]))) (r, acc) = .ok (r', acc ++ is.filterMap (l[·]?)) by
    intro r l h hi
    simpa using H is r l [] h hi
  intro is
  induction is with
  | nil => intro r l acc h _; exact ⟨r, h, by simp [pure, Except.pure]⟩
  | cons i is ih =>
    intro r l acc h hi
    have hlt := hi i (by simp)
    obtain ⟨r', e, hr'⟩ := (at_correct r l h (i + 1)).1 l[i] (by omega)
      (by rw [show ((i : Int) + 1 - 1).toNat = i by omega]; exact List.getElem?_eq_getElem hlt)
    obtain ⟨r'', h2, h3⟩ := ih r' l (acc ++ [l[i]]) hr' (fun j hj => hi j (by simp [hj]))
    refine ⟨r'', h2, ?_⟩
    rw [List.foldlM_cons, e]
    simp only [Except.map, bind, Except.bind] at h3 ⊢
    rw [h3]
    simp [List.getElem?_eq_getElem hlt]

example : ∃ r : RA Nat, asRunArray [7, 7, 8] = .ok r ∧ Holds r [7, 7, 8] ∧ r.map = [(7, 2), (8, 1)] :=
  ⟨_, rfl, ((asRunArray_holds [7, 7, 8] (by simp)).elim (fun r h => by
    have : r = ofMap [(7, 2), (8, 1)] := by have := h.1; simp [asRunArray, asRunArrayMap, packLoop, Except.map] at this; exact this.symm
    exact this ▸ h.2)), rfl⟩

/-! ### Equality -/

theorem packed_eq : ∀ (m n : List (α × Int)), Pos m → Pos n → Packed m → Packed n →
    elements m = elements n → m = n := by
  intro m
  induction m with
  | nil =>
    intro n _ hn _ _ he
    cases n with
    | nil => rfl
    | cons q n =>
      have := hn q (by simp)
      have hl := congrArg List.length he
      simp at hl; omega
  | cons p m ih =>
    intro n hm hn pm pn he
    cases n with
    | nil =>
      have := hm p (by simp)
      have hl := congrArg List.length he
      simp at hl; omega
    | cons q n =>
      have hp1 := hm p (by simp)
      have hq1 := hn q (by simp)
      have hm' : Pos m := fun x hx => hm x (by simp [hx])
      have hn' : Pos n := fun x hx => hn x (by simp [hx])
      obtain ⟨a, ha⟩ : ∃ a, p.2.toNat = a + 1 := ⟨p.2.toNat - 1, by omega⟩
      obtain ⟨b, hb⟩ : ∃ b, q.2.toNat = b + 1 := ⟨q.2.toNat - 1, by omega⟩
      rw [elements_cons, elements_cons] at he
      have hkey : p.1 = q.1 := by
        rw [ha, hb, List.replicate_succ, List.replicate_succ] at he
        simp only [List.cons_append, List.cons.injEq] at he
        exact he.1
      have headm : ∀ (m' : List (α × Int)) (x : α × Int), Pos m' → Packed (x :: m') →
          (elements m').head? ≠ some x.1 := by
        intro m' x hpos hpk
        cases m' with
        | nil => simp
        | cons y m' =>
          unfold Packed at hpk
          rw [List.isChain_cons_cons] at hpk
          have h1 := hpos y (by simp)
          obtain ⟨c, hc⟩ : ∃ c, y.2.toNat = c + 1 := ⟨y.2.toNat - 1, by omega⟩
          simp only [elements_cons, hc, List.replicate_succ, List.cons_append, List.head?_cons]
          intro h2
          exact hpk.1 (Option.some.inj h2).symm
      have hmh := headm m p hm' pm
      have hnh := headm n q hn' pn
      have hcount : ∀ (a b : Nat) (x : α) (u v : List α), u.head? ≠ some x → v.head? ≠ some x →
          List.replicate a x ++ u = List.replicate b x ++ v → a = b ∧ u = v := by
        intro a
        induction a with
        | zero =>
          intro b x u v hu hv h
          cases b with
          | zero => exact ⟨rfl, by simpa using h⟩
          | succ b =>
            simp only [List.replicate_zero, List.nil_append] at h
            rw [h] at hu
            simp [List.replicate_succ] at hu
        | succ a iha =>
          intro b x u v hu hv h
          cases b with
          | zero =>
            simp only [List.replicate_zero, List.nil_append] at h
            rw [← h] at hv
            simp [List.replicate_succ] at hv
          | succ b =>
            simp only [List.replicate_succ, List.cons_append, List.cons.injEq, true_and] at h
            obtain ⟨h1, h2⟩ := iha b x u v hu hv h
            exact ⟨by omega, h2⟩
      rw [hkey] at he hmh
      obtain ⟨h1, h2⟩ := hcount _ _ _ _ _ hmh hnh he
      have pm' : Packed m := by unfold Packed at pm ⊢; exact pm.tail
      have pn' : Packed n := by unfold Packed at pn ⊢; exact pn.tail
      rw [ih n hm' hn' pm' pn' h2]
      have : p = q := Prod.ext hkey (by omega)
      rw [this]

/-- RunArrays made from two lists are equal when, and only when, the lists are equal. -/
theorem eq_correct (l l' : List α) (r r' : RA α) (h : asRunArray l = .ok r) (h' : asRunArray l' = .ok r') :
    eq r r' = true ↔ l = l' := by
  have key : ∀ (l : List α) (r : RA α), asRunArray l = .ok r → Pos r.map ∧ Packed r.map ∧ elements r.map = l := by
    intro l r h
    cases l with
    | nil => simp [asRunArray, asRunArrayMap, Except.map] at h
    | cons x xs =>
      obtain ⟨h1, h2, h3, n, rest, h4⟩ := packLoop_spec xs x 1 2 (by omega)
      simp only [asRunArray, asRunArrayMap, Except.map, Except.ok.injEq] at h
      have : r.map = packLoop x 1 2 xs := by rw [← h, h4]; rfl
      rw [this]
      exact ⟨h1, h3, by simpa using h2⟩
  obtain ⟨a1, a2, a3⟩ := key l r h
  obtain ⟨b1, b2, b3⟩ := key l' r' h'
  rw [eq, beq_iff_eq]
  constructor
  · intro e; rw [← a3, ← b3, e]
  · intro e
    exact packed_eq _ _ a1 b1 a2 b2 (by rw [a3, b3, e])

example : ∃ r r' : RA Nat, asRunArray [7, 7, 8] = .ok r ∧ asRunArray [7, 7, 8] = .ok r' ∧ eq r r' = true := ⟨_, _, rfl, rfl, rfl⟩

/-! ### Removal -/

theorem setRun_mid (pre post : List (α × Int)) (p : α × Int) (n : Int) :
    setRun (pre ++ p :: post) (pre.length + 1) n = pre ++ (p.1, n) :: post := by
  rw [setRun, show ((pre.length : Int) + 1 - 1).toNat = pre.length by omega]
  induction pre with
  | nil => simp
  | cons q pre ih => simpa using ih

theorem mapAdd_mid (pre post : List (α × Int)) (z w : α × Int) :
    mapAdd (pre ++ z :: post) (pre.length + 1) w = pre ++ z :: w :: post := by
  rw [mapAdd, show ((pre.length : Int) + 1).toNat = pre.length + 1 by omega]
  induction pre with
  | nil => simp
  | cons q pre ih => simpa using ih

theorem eraseIdx_replicate (x : α) (k n : Nat) (h : k < n) :
    (List.replicate n x).eraseIdx k = List.replicate (n - 1) x := by
  rw [List.eraseIdx_eq_take_drop_succ]
  simp
  omega

/-- `removeAtIndex:` answers the element and removes it from the list, when the list has another
element, and the RunArray that is left is well formed. -/
theorem removeAtIndex_partial (r : RA α) (l : List α) (h : Holds r l) (i : Nat) (hi : i < l.length) (h2 : 2 ≤ l.length) :
    ∃ r', removeAtIndex r (i + 1) = .ok (r', l[i]) ∧ Holds r' (l.eraseIdx i) := by
  obtain ⟨r1, e, hr1, ⟨pre, p, post, e1, e2, e3, e4, h3, h4⟩, -, -⟩ :=
    update_spec r l h (i + 1) (by omega) (by omega)
  have hpos := hr1.pos
  rw [e1] at hpos
  have hpre : Pos pre := fun q hq => hpos q (by simp [hq])
  have hpost : Pos post := fun q hq => hpos q (by simp [hq])
  have hp1 : 1 ≤ p.2 := hpos p (by simp)
  have hel := elem_mid pre post p hpos (i + 1) h3 h4
  have hl : l = elements pre ++ (List.replicate p.2.toNat p.1 ++ elements post) := by
    rw [← hr1.elems, e1]; simp
  have hplen := elements_length hpre
  have hans : p.1 = l[i] := by
    rw [← e1, hr1.elems, show ((i : Int) + 1 - 1).toNat = i by omega, List.getElem?_eq_getElem hi] at hel
    exact (Option.some.inj hel).symm
  have her : l.eraseIdx i = elements pre ++ (List.replicate (p.2.toNat - 1) p.1 ++ elements post) := by
    rw [hl, List.eraseIdx_append_of_length_le (by omega), List.eraseIdx_append_of_lt_length (by simp; omega),
      eraseIdx_replicate _ _ _ (by omega)]
  have hsz : r1.size = total pre + (p.2 + total post) := by rw [hr1.size, e1]; simp
  rw [removeAtIndex, e, ← hans]
  simp only
  rw [e1, e2, mapAt_mid]
  simp only
  by_cases hone : p.2 = 1
  · rw [if_neg (by simpa using hone)]
    have em : (pre ++ p :: post).eraseIdx ((pre.length : Int) + 1 - 1).toNat = pre ++ post := by
      rw [show ((pre.length : Int) + 1 - 1).toNat = pre.length by omega,
        List.eraseIdx_append_of_length_le (Nat.le_refl _)]
      simp
    rw [em]
    have hel2 : elements (pre ++ post) = l.eraseIdx i := by rw [her, hone]; simp
    have hpos2 : Pos (pre ++ post) := by
      intro q hq
      rcases List.mem_append.1 hq with hq | hq
      · exact hpre q hq
      · exact hpost q hq
    cases post with
    | nil =>
      rw [if_pos (by simp; omega)]
      rcases List.eq_nil_or_concat pre with hn | ⟨pre', q, hn⟩
      · exfalso
        subst hn
        have := congrArg List.length hl
        simp [hone] at this; omega
      · rw [List.concat_eq_append] at hn
        subst hn
        have hm := mapAt_mid pre' [] q
        simp only [List.append_nil] at hel2 hpos2 ⊢
        rw [show (((pre' ++ [q]).length : Nat) : Int) = (pre'.length : Int) + 1 by simp, hm]
        refine ⟨_, rfl, ?_⟩
        · refine ⟨hpos2, ?_, .inr ⟨pre', q, [], rfl, ?_, ?_, ?_⟩, hel2⟩
          · simp [hsz, hone]
          · simp
          · simp [hsz, hone]
          · simp [hsz, hone]
    | cons q post' =>
      rw [if_neg (by simp; omega), mapAt_mid]
      refine ⟨_, rfl, ?_⟩
      · refine ⟨hpos2, ?_, .inr ⟨pre, q, post', rfl, rfl, ?_, ?_⟩, hel2⟩
        · simp [hsz, hone]; omega
        · simp [e3]
        · simp [e3]; omega
  · rw [if_pos hone, setRun_mid]
    refine ⟨_, rfl, ?_⟩
    · refine ⟨?_, ?_, .inr ⟨pre, (p.1, p.2 - 1), post, by simp, by simp, by simp [e3], ?_⟩, ?_⟩
      · intro q hq
        simp only [List.mem_append, List.mem_cons] at hq
        rcases hq with hq | hq | hq
        · exact hpre q hq
        · subst hq; simp; omega
        · exact hpost q hq
      · simp [hsz]; omega
      · simp [e4]; omega
      · rw [her]
        simp only [elements_append, elements_cons]
        rw [show (p.2 - 1).toNat = p.2.toNat - 1 by omega]

/-- Taking away the only element is an error. -/
theorem remove_only_fails (r : RA α) (x : α) (h : Holds r [x]) : removeAtIndex r 1 = .error .index := by
  obtain ⟨r1, e, hr1, ⟨pre, p, post, e1, e2, e3, e4, h3, h4⟩, -, -⟩ := update_spec r [x] h 1 (by omega) (by simp)
  have hpos := hr1.pos
  rw [e1] at hpos
  have hp1 : 1 ≤ p.2 := hpos p (by simp)
  have hlen := elements_length hpos
  rw [← e1, hr1.elems, e1] at hlen
  have hpre : 0 ≤ total pre := total_nonneg (fun q hq => hpos q (by simp [hq]))
  have hpost : Pos post := fun q hq => hpos q (by simp [hq])
  have hpo := total_nonneg hpost
  simp only [List.length_cons, List.length_nil, total_append, total_cons] at hlen
  have h0 : pre = [] := by
    cases pre with
    | nil => rfl
    | cons q pre =>
      have hq := hpos q (by simp)
      have hq' : 0 ≤ total pre := total_nonneg (fun z hz => hpos z (by simp [hz]))
      simp only [total_cons] at h3
      omega
  have h1 : post = [] := by
    cases post with
    | nil => rfl
    | cons q post =>
      have hq := hpost q (by simp)
      have hq' : 0 ≤ total post := total_nonneg (fun z hz => hpost z (by simp [hz]))
      simp only [total_cons] at hlen
      omega
  have hone : p.2 = 1 := by rw [h0, h1] at hlen; simp at hlen; omega
  rw [removeAtIndex, e]
  simp only
  rw [e1, e2, mapAt_mid]
  simp only
  rw [if_neg (by simpa using hone), h0, h1]
  simp [mapAt]

/-- After a removal two RunArrays with the same elements can differ: `#(1 2 1) asRunArray
removeAtIndex: 2` leaves two runs of 1. -/
theorem eq_after_removal_not_correct : ∃ r r' s : RA Int, asRunArray [1, 2, 1] = .ok r ∧
    removeAtIndex r 2 = .ok (r', 2) ∧ asRunArray [1, 1] = .ok s ∧ Holds r' [1, 1] ∧ Holds s [1, 1] ∧ eq r' s = false := by
  obtain ⟨r, hr, hh⟩ := asRunArray_holds [1, 2, (1 : Int)] (by simp)
  obtain ⟨s, hs, hhs⟩ := asRunArray_holds [1, (1 : Int)] (by simp)
  obtain ⟨r', hr', hh'⟩ := removeAtIndex_partial r _ hh 1 (by simp) (by simp)
  refine ⟨r, r', s, hr, hr', hs, hh', hhs, ?_⟩
  have e1 : r = ofMap [(1, 1), (2, 1), (1, 1)] := by
    simp [asRunArray, asRunArrayMap, packLoop, Except.map] at hr; exact hr.symm
  have e2 : s = ofMap [(1, 2)] := by
    simp [asRunArray, asRunArrayMap, packLoop, Except.map] at hs; exact hs.symm
  subst e1 e2
  have e3 : r' = ⟨[(1, 1), (1, 1)], 2, 2, 2, 2⟩ := by
    have : removeAtIndex (ofMap [((1 : Int), 1), (2, 1), (1, 1)]) 2 = .ok (⟨[(1, 1), (1, 1)], 2, 2, 2, 2⟩, 2) := by decide
    have e4 := hr'.symm.trans this
    simp only [Except.ok.injEq, Prod.mk.injEq] at e4
    exact e4.1
  subst e3
  decide

/-! ### Adding and storing -/

/-- What the other operations ought to do: the list changes accordingly, and a well-formed
RunArray is left.  None of them does. -/
def AtPutOk : Prop := ∀ (r : RA Int) (l : List Int) (i : Nat) (x : Int), Holds r l → i < l.length →
  ∃ r', atPut r (i + 1) x = .ok r' ∧ elements r'.map = l.set i x
def AtPutReadOk : Prop := ∀ (r : RA Int) (l : List Int) (i : Nat) (x : Int), Holds r l → i < l.length →
  ∃ r' r'', atPut r (i + 1) x = .ok r' ∧ at_ r' (i + 1) = .ok (r'', x)
def AddLastOk : Prop := ∀ (r : RA Int) (l : List Int) (x : Int), Holds r l →
  ∃ r', addLast r x = .ok r' ∧ elements r'.map = l ++ [x]
def AddLastReadOk : Prop := ∀ (r : RA Int) (l : List Int) (x : Int), Holds r l → l ≠ [] →
  ∃ r' r'', addLast r x = .ok r' ∧ at_ r' (l.length + 1) = .ok (r'', x)
def AddFirstOk : Prop := ∀ (r : RA Int) (l : List Int) (x : Int), Holds r l → l ≠ [] →
  ∃ r', addFirst r x = .ok r' ∧ elements r'.map = x :: l
def IndexOfOk : Prop := ∀ (r : RA Int) (l : List Int) (x : Int), Holds r l → x ∈ l →
  ∃ i : Int, indexOf r x 1 = some i ∧ l[(i - 1).toNat]? = some x

/-- A RunArray of 1, 1, 2 and 2, and one of three 1s. -/
theorem holds_1122 : Holds (ofMap [((1 : Int), 2), (2, 2)]) [1, 1, 2, 2] :=
  holds_ofMap [(1, 2), (2, 2)] (by intro p hp; simp at hp; rcases hp with rfl | rfl <;> simp)
theorem holds_111 : Holds (ofMap [((1 : Int), 3)]) [1, 1, 1] :=
  holds_ofMap [(1, 3)] (by intro p hp; simp at hp; subst hp; simp)

/-- Storing at the first place of a run makes the list longer: 1 1 2 2 with 9 at the third place
becomes 1 1 9 2 2. -/
theorem atPut_not_correct : ¬ AtPutOk := by
  intro h
  obtain ⟨r', h1, h2⟩ := h _ _ 2 9 holds_1122 (by simp)
  have h3 : atPut (ofMap [((1 : Int), 2), (2, 2)]) (2 + 1) 9 =
      .ok ⟨[(1, 2), (9, 1), (2, -1), (2, 2)], 1, 1, 2, 4⟩ := by decide
  have := h1.symm.trans h3
  simp only [Except.ok.injEq] at this
  subst this
  simp [elements] at h2

/-- Storing in the middle of a run and reading the place back gives the old element: of three
1s, with 9 at the second place. -/
theorem atPut_read_not_correct : ¬ AtPutReadOk := by
  intro h
  obtain ⟨r', r'', h1, h2⟩ := h _ _ 1 9 holds_111 (by simp)
  have h3 : atPut (ofMap [((1 : Int), 3)]) (1 + 1) 9 = .ok ⟨[(1, 1), (9, 1), (1, 1)], 1, 1, 3, 3⟩ := by decide
  have := h1.symm.trans h3
  simp only [Except.ok.injEq] at this
  subst this
  have h4 : at_ (⟨[((1 : Int), 1), (9, 1), (1, 1)], 1, 1, 3, 3⟩ : RA Int) (1 + 1) =
      .ok (⟨[(1, 1), (9, 1), (1, 1)], 1, 1, 3, 3⟩, 1) := by decide
  have := h2.symm.trans h4
  simp at this

/-- Nothing can be added to an empty RunArray. -/
theorem addLast_empty_fails (x : α) : addLast (ofMap []) x = .error .index ∧ addFirst (ofMap []) x = .error .index :=
  ⟨rfl, rfl⟩

theorem addLast_not_correct : ¬ AddLastOk := by
  intro h
  obtain ⟨r', h1, -⟩ := h (ofMap []) [] 9 (holds_ofMap [] (by intro p hp; simp at hp))
  have := h1.symm.trans (addLast_empty_fails (9 : Int)).1
  simp at this

/-- After an element equal to the last one is added, reading it is an error. -/
theorem addLast_read_not_correct : ¬ AddLastReadOk := by
  intro h
  obtain ⟨r', r'', h1, h2⟩ := h _ _ 1 holds_111 (by simp)
  have h3 : addLast (ofMap [((1 : Int), 3)]) 1 = .ok ⟨[(1, 4)], 1, 1, 3, 4⟩ := by decide
  have := h1.symm.trans h3
  simp only [Except.ok.injEq] at this
  subst this
  have h4 : at_ (⟨[((1 : Int), 4)], 1, 1, 3, 4⟩ : RA Int) (([1, 1, 1] : List Int).length + 1) = .error .index := by decide
  have := h2.symm.trans h4
  simp at this

/-- An element added at the front goes after the first run, unless it is equal to the first
element. -/
theorem addFirst_not_correct : ¬ AddFirstOk := by
  intro h
  obtain ⟨r', h1, h2⟩ := h _ _ 9 holds_111 (by simp)
  have h3 : addFirst (ofMap [((1 : Int), 3)]) 9 = .ok ⟨[(1, 3), (9, 1)], 1, 1, 3, 4⟩ := by decide
  have := h1.symm.trans h3
  simp only [Except.ok.injEq] at this
  subst this
  simp [elements] at h2

/-- `indexOf:` does not look for its argument. -/
theorem indexOf_not_correct : ¬ IndexOfOk := by
  intro h
  obtain ⟨i, h1, h3⟩ := h _ _ 2 holds_1122 (by simp)
  have : indexOf (ofMap [((1 : Int), 2), (2, 2)]) 2 1 = some 1 := by decide
  have h2 := h1.symm.trans this
  simp only [Option.some.injEq] at h2
  subst h2
  simp at h3

/-- What is right of `at:put:`: storing an equal element changes nothing, and storing at a place
that is not the first of its run gives the right list to `do:`. -/
theorem atPut_do_partial (r : RA α) (l : List α) (h : Holds r l) (i : Nat) (hi : i < l.length) (x : α) :
    (l[i] = x → ∃ r', atPut r (i + 1) x = .ok r' ∧ Holds r' l) ∧
    (∀ h0 : 0 < i, l[i - 1] = l[i] → Packed r.map → ∃ r', atPut r (i + 1) x = .ok r' ∧ elements r'.map = l.set i x) := by
  obtain ⟨r1, e, hr1, ⟨pre, p, post, e1, e2, e3, e4, h3, h4⟩, hmap, -⟩ :=
    update_spec r l h (i + 1) (by omega) (by omega)
  have hpos := hr1.pos
  rw [e1] at hpos
  have hpre : Pos pre := fun q hq => hpos q (by simp [hq])
  have hplen := elements_length hpre
  have hel := elem_mid pre post p hpos (i + 1) h3 h4
  have hans : p.1 = l[i] := by
    rw [← e1, hr1.elems, show ((i : Int) + 1 - 1).toNat = i by omega, List.getElem?_eq_getElem hi] at hel
    exact (Option.some.inj hel).symm
  have hl : l = elements pre ++ (List.replicate p.2.toNat p.1 ++ elements post) := by
    rw [← hr1.elems, e1]; simp
  have hsz : r1.size = l.length := (do_correct r1 l hr1).2
  have hat : at_ r (max 1 ((i : Int) + 1)) = .ok (r1, p.1) := by
    rw [show max 1 ((i : Int) + 1) = (i : Int) + 1 by omega, at_, e]
    simp only
    rw [e1, e2, mapAt_mid]
  have hsame : l[i] = x → atPut r (i + 1) x = .ok r1 := by
    intro hx
    rw [atPut, splitAndPut, hat]
    simp only
    rw [if_pos (by rw [hans, hx]), e2, e1, mapAt_mid]
    simp only
    rw [show p.2 + (1 - 1) = p.2 by omega, setRun_mid]
    rw [← e1]
    simp only [← e2]
  refine ⟨fun hx => ⟨r1, hsame hx, hr1⟩, ?_⟩
  intro h0 hprev hpk
  by_cases hx : l[i] = x
  · refine ⟨r1, hsame hx, ?_⟩
    rw [hr1.elems, ← hx]; simp
  · -- the place is not the first of its run
    have hnf : (i : Int) + 1 ≠ r1.firstInRun := by
      intro hc
      rw [e3] at hc
      have hi' : i = (elements pre).length := by omega
      rcases List.eq_nil_or_concat pre with hn | ⟨pre', q, hn⟩
      · rw [hn] at hi'; simp at hi'; omega
      · rw [List.concat_eq_append] at hn
        subst hn
        have hq1 := hpre q (by simp)
        have : l[i - 1]? = some q.1 := by
          have := elem_mid pre' (p :: post) q (by simpa using hpos) i (by simp at hc; omega) (by simp at hc; omega)
          have e5 : elements (pre' ++ q :: p :: post) = l := by rw [← hr1.elems, e1]; simp
          rw [e5, show ((i : Int) - 1).toNat = i - 1 by omega] at this
          exact this
        rw [List.getElem?_eq_getElem (by omega), Option.some.injEq, hprev, ← hans] at this
        have hmp := hmap
        rw [e1] at hmp
        rw [← hmp] at hpk
        unfold Packed at hpk
        rw [List.append_assoc, List.isChain_append] at hpk
        have := hpk.2.1
        simp only [List.cons_append, List.nil_append, List.isChain_cons_cons] at this
        exact this.1 (by rw [‹p.1 = q.1›])
    have hsplit : splitAt r1 (i + 1) 1 = .ok { r1 with map := pre ++ (p.1, (i : Int) + 1 - r1.firstInRun + (1 - 1)) ::
        (p.1, r1.lastInRun - (i + 1)) :: post } := by
      rw [splitAt, if_neg (by omega), if_neg (by omega), e2, e1, mapAt_mid]
      simp only [if_neg hnf]
      by_cases hlast : (i : Int) + 1 = r1.lastInRun
      · simp only [if_pos hlast]
        rw [e1, setRun_mid, setRun_mid]
        simp only [e2]
        rw [mapAdd_mid]
      · simp only [if_neg hlast]
        rw [e1, setRun_mid]
        simp only [e2]
        rw [mapAdd_mid]
    refine ⟨{ r1 with map := pre ++ (p.1, (i : Int) + 1 - r1.firstInRun + (1 - 1)) :: (x, 1) ::
        (p.1, r1.lastInRun - (i + 1)) :: post }, ?_, ?_⟩
    · rw [atPut, splitAndPut, hat]
      simp only
      rw [if_neg (by rw [hans]; exact hx), hsplit]
      simp only [e2]
      rw [mapAdd_mid]
    · simp only [elements_append, elements_cons, e3, e4]
      rw [hl, List.set_append_right _ _ (by omega), List.set_append_left _ _ (by simp; omega)]
      congr 1
      have : (List.replicate p.2.toNat p.1).set (i - (elements pre).length) x
          = List.replicate (i - (elements pre).length) p.1 ++ x :: List.replicate (p.2.toNat - 1 - (i - (elements pre).length)) p.1 := by
        rw [List.set_eq_take_append_cons_drop, if_pos (by simp; omega)]
        simp only [List.take_replicate, List.drop_replicate]
        congr 2
        · omega
        · congr 1; omega
      rw [this, show ((i : Int) + 1 - (total pre + 1) + (1 - 1)).toNat = i - (elements pre).length by omega,
        show (total pre + p.2 - ((i : Int) + 1)).toNat = p.2.toNat - 1 - (i - (elements pre).length) by omega]
      simp

end Verif.RunArray
