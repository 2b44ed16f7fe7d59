import Verif.StreamOps.Model

/-!
# Streams made from streams answer what the functions on lists answer
-/

namespace Verif.StreamOps

/-- `R s l`: the elements `l` are still to be answered in state `s`.  This says that the methods obey it. -/
structure Law (I : Strm) (R : I.σ → List Obj → Prop) : Prop where
  atEnd : ∀ s l, R s l → (I.atEnd s).1 = l.isEmpty ∧ R (I.atEnd s).2 l
  next_cons : ∀ s a l, R s (a :: l) → (I.next s).1 = .val a ∧ R (I.next s).2 l
  next_nil : ∀ s, R s [] → (I.next s).1 = .past ∧ R (I.next s).2 []
  peek_cons : ∀ s a l, R s (a :: l) → (I.peek s).1 = .val a ∧ R (I.peek s).2 (a :: l)
  peek_nil : ∀ s, R s [] → ((I.peek s).1 = .nil ∨ (I.peek s).1 = .past) ∧ R (I.peek s).2 []
  position : ∀ s l p s', R s l → I.position s = some (p, s') → R s' l ∧ (I.position s').isSome

/-- `peekFor:` as documented, for arguments with `P`. -/
structure ForLaw (I : Strm) (R : I.σ → List Obj → Prop) (P : Obj → Prop) : Prop where
  yes : ∀ s x l, P x → R s (x :: l) → (I.peekFor x s).1 = .val true ∧ R (I.peekFor x s).2 l
  no : ∀ s x a l, P x → a ≠ x → R s (a :: l) → (I.peekFor x s).1 = .val false ∧ R (I.peekFor x s).2 (a :: l)
  nil : ∀ s x, P x → R s [] → ((I.peekFor x s).1 = .val false ∨ (I.peekFor x s).1 = .past) ∧ R (I.peekFor x s).2 []

theorem isSome_map' {α β : Type} {g : α → β} {o : Option α} (h : o.isSome = true) : (o.map g).isSome = true := by
  cases o <;> simp_all

/-! ## ReadStreams -/

/-- The elements after the position. -/
def ReadR (s : List Obj × ℕ) (l : List Obj) : Prop := s.1.drop s.2 = l

theorem drop_cons {c : List Obj} {n : ℕ} {a : Obj} {l : List Obj} (h : c.drop n = a :: l) :
    c[n]? = some a ∧ c.drop (n + 1) = l := by
  constructor
  · rw [← List.head?_drop, h]; rfl
  · rw [← List.tail_drop, h]; rfl

theorem drop_nil {c : List Obj} {n : ℕ} (h : c.drop n = []) : c[n]? = none := by
  rw [← List.head?_drop, h]; rfl

theorem read_law (sp : Species) : Law (readStream sp) ReadR where
  atEnd := by
    rintro ⟨c, n⟩ l h
    refine ⟨?_, h⟩
    have h : c.drop n = l := h
    subst h
    simp only [readStream]
    by_cases c' : c.length ≤ n
    · simp [c', List.drop_eq_nil_of_le c']
    · rw [decide_eq_false c', eq_comm, List.isEmpty_eq_false_iff]; simp; omega
  next_cons := by
    rintro ⟨c, n⟩ a l h
    obtain ⟨h1, h2⟩ := drop_cons h
    simp only [readStream, h1]; exact ⟨trivial, h2⟩
  next_nil := by
    rintro ⟨c, n⟩ h
    simp only [readStream, drop_nil h]; exact ⟨trivial, h⟩
  peek_cons := by
    rintro ⟨c, n⟩ a l h
    obtain ⟨h1, h2⟩ := drop_cons h
    simp only [readStream, h1]; exact ⟨trivial, h⟩
  peek_nil := by
    rintro ⟨c, n⟩ h
    simp only [readStream, drop_nil h]; exact ⟨.inl trivial, h⟩
  position := by
    rintro ⟨c, n⟩ l p s' h e
    have e : some ((n : ℤ), (c, n)) = some (p, s') := e
    cases e; exact ⟨h, rfl⟩

theorem read_for (sp : Species) : ForLaw (readStream sp) ReadR fun _ => True where
  yes := by
    rintro ⟨c, n⟩ x l _ h
    obtain ⟨h1, h2⟩ := drop_cons h
    simp only [readStream, h1, if_true]; exact ⟨trivial, h2⟩
  no := by
    rintro ⟨c, n⟩ x a l _ hne h
    obtain ⟨h1, h2⟩ := drop_cons h
    simp only [readStream, h1, if_neg hne]; exact ⟨trivial, h⟩
  nil := by
    rintro ⟨c, n⟩ x _ h
    simp only [readStream, drop_nil h]; exact ⟨.inl trivial, h⟩

/-! ## select: and reject: -/

/-- The element that was read ahead, and what the rest of the other stream gives; that has fewer than `fuel` elements. -/
def FilterR {I : Strm} (R : I.σ → List Obj → Prop) (block : Obj → Bool) (result : Bool) (fuel : ℕ) (f : Filtering I.σ) (l : List Obj) : Prop :=
  f.endless = false ∧ ∃ u, R f.stream u ∧ u.length < fuel ∧
    (if f.atEnd then l = [] ∧ u = [] else ∃ a, f.next = some a ∧ l = a :: u.filter fun x => block x == result)

theorem lookahead_ok {I : Strm} {R : I.σ → List Obj → Prop} (L : Law I R) (block : Obj → Bool) (result : Bool) (fuel : ℕ) :
    ∀ (k : ℕ) (u : List Obj) (f : Filtering I.σ), R f.stream u → u.length < k → u.length < fuel → f.atEnd = false → f.endless = false →
      FilterR R block result fuel (lookahead I block result k f) (u.filter fun x => block x == result)
  | 0, _, _, _, h, _, _, _ => absurd h (Nat.not_lt_zero _)
  | k + 1, u, f, hR, h1, h2, h3, h4 => by
    obtain ⟨e1, e2⟩ := L.atEnd _ _ hR
    simp only [lookahead]
    cases u with
    | nil =>
      rw [if_pos (by rw [e1]; rfl)]
      exact ⟨h4, [], e2, h2, by simp⟩
    | cons a u =>
      rw [if_neg (by rw [e1]; simp)]
      obtain ⟨n1, n2⟩ := L.next_cons _ _ _ e2
      rw [show I.next (I.atEnd f.stream).2 = (.val a, (I.next (I.atEnd f.stream).2).2) from Prod.ext n1 rfl]
      simp only [List.length_cons] at h1 h2
      dsimp only
      split
      · rename_i hb
        refine ⟨h4, u, n2, by omega, ?_⟩
        simp only [h3, Bool.false_eq_true, if_false]
        exact ⟨a, rfl, by simp [hb]⟩
      · rename_i hb
        have := lookahead_ok L block result fuel k u { f with stream := (I.next (I.atEnd f.stream).2).2, next := some a } n2 (by omega) (by omega) h3 h4
        simpa [hb] using this

theorem filter_made {I : Strm} {R : I.σ → List Obj → Prop} (L : Law I R) (block : Obj → Bool) (result : Bool) {fuel : ℕ} {s : I.σ} {u : List Obj}
    (h : R s u) (hf : u.length < fuel) : FilterR R block result fuel (filteringOn I block result fuel s) (u.filter fun x => block x == result) :=
  lookahead_ok L block result fuel fuel u _ h hf hf rfl rfl

/-- After the element that was read ahead is taken. -/
theorem filter_rest {I : Strm} {R : I.σ → List Obj → Prop} (L : Law I R) {block : Obj → Bool} {result : Bool} {fuel : ℕ}
    {f : Filtering I.σ} {a : Obj} {l : List Obj} (h : FilterR R block result fuel f (a :: l)) :
    f.endless = false ∧ f.atEnd = false ∧ f.next = some a ∧ FilterR R block result fuel (lookahead I block result fuel f) l := by
  obtain ⟨h1, u, h2, h3, h4⟩ := h
  cases hae : f.atEnd with
  | true => rw [hae] at h4; simp at h4
  | false =>
    rw [hae] at h4
    simp only [Bool.false_eq_true, if_false] at h4
    obtain ⟨b, h5, h6⟩ := h4
    cases h6
    exact ⟨h1, rfl, h5, lookahead_ok L block result fuel fuel u f h2 h3 h3 hae h1⟩

theorem filter_end {I : Strm} {R : I.σ → List Obj → Prop} {block : Obj → Bool} {result : Bool} {fuel : ℕ}
    {f : Filtering I.σ} (h : FilterR R block result fuel f []) : f.endless = false ∧ f.atEnd = true := by
  obtain ⟨h1, u, h2, h3, h4⟩ := h
  refine ⟨h1, ?_⟩
  cases hae : f.atEnd with
  | true => rfl
  | false => rw [hae] at h4; simp at h4

theorem filter_law {I : Strm} {R : I.σ → List Obj → Prop} (L : Law I R) (block : Obj → Bool) (result : Bool) (fuel : ℕ) :
    Law (filtering I block result fuel) (FilterR R block result fuel) where
  atEnd := by
    intro f l h
    refine ⟨?_, h⟩
    show f.atEnd = _
    cases l with
    | nil => exact (filter_end h).2
    | cons a l => exact (filter_rest L h).2.1
  next_cons := by
    intro f a l h
    obtain ⟨h1, h2, h3, h4⟩ := filter_rest L h
    simp only [filtering, h1, h2, h3, Bool.false_eq_true, if_false]
    exact ⟨rfl, h4⟩
  next_nil := by
    intro f h
    obtain ⟨h1, h2⟩ := filter_end h
    simp only [filtering, h1, h2, Bool.false_eq_true, if_false, if_true]
    exact ⟨trivial, h⟩
  peek_cons := by
    intro f a l h
    obtain ⟨h1, h2, h3, h4⟩ := filter_rest L h
    simp only [filtering, h1, h2, h3, Bool.false_eq_true, if_false]
    exact ⟨rfl, h⟩
  peek_nil := by
    intro f h
    obtain ⟨h1, h2⟩ := filter_end h
    simp only [filtering, h1, h2, Bool.false_eq_true, if_false, if_true]
    exact ⟨.inl trivial, h⟩
  position := by intro _ _ _ _ _ e; cases e

/-- Characters and SmallIntegers are the same object if they are equal. -/
def Scalar : Obj → Prop
  | .char _ | .int _ => True
  | _ => False

theorem identical_self {x : Obj} (h : Scalar x) : identical x x = true := by cases x <;> simp_all [identical, Scalar]

theorem identical_ne {a x : Obj} (h : a ≠ x) : identical a x = false := by cases a <;> simp_all [identical]

theorem filter_for {I : Strm} {R : I.σ → List Obj → Prop} (L : Law I R) (block : Obj → Bool) (result : Bool) (fuel : ℕ) :
    ForLaw (filtering I block result fuel) (FilterR R block result fuel) Scalar where
  yes := by
    intro f x l hx h
    obtain ⟨h1, h2, h3, h4⟩ := filter_rest L h
    simp only [filtering, h1, h2, h3, Bool.false_eq_true, if_false, Option.any_some, identical_self hx, if_true]
    exact ⟨trivial, h4⟩
  no := by
    intro f x a l hx hne h
    obtain ⟨h1, h2, h3, h4⟩ := filter_rest L h
    simp only [filtering, h1, h2, h3, Bool.false_eq_true, if_false, Option.any_some, identical_ne hne]
    exact ⟨trivial, h⟩
  nil := by
    intro f x hx h
    obtain ⟨h1, h2⟩ := filter_end h
    simp only [filtering, h1, h2, Bool.false_eq_true, if_false, if_true]
    exact ⟨.inr trivial, h⟩

/-! ## collect: -/

/-- The images of the elements. -/
def CollectR {I : Strm} (R : I.σ → List Obj → Prop) (g : Obj → Obj) (s : I.σ) (l : List Obj) : Prop := ∃ u, R s u ∧ l = u.map g

theorem collect_law {I : Strm} {R : I.σ → List Obj → Prop} (L : Law I R) (g : Obj → Obj) : Law (collecting I g) (CollectR R g) where
  atEnd := by
    rintro s _ ⟨u, h, rfl⟩
    have := L.atEnd s u h
    exact ⟨by rw [show (collecting I g).atEnd s = I.atEnd s from rfl, this.1]; cases u <;> rfl, u, this.2, rfl⟩
  next_cons := by
    rintro s a l ⟨u, h, e⟩
    cases u with
    | nil => cases e
    | cons b u =>
      simp only [List.map_cons, List.cons.injEq] at e
      obtain ⟨e1, e2⟩ := L.atEnd s _ h
      obtain ⟨n1, n2⟩ := L.next_cons _ _ _ e2
      simp only [collecting]
      rw [if_neg (by rw [e1]; simp)]
      exact ⟨by rw [n1, e.1]; rfl, u, n2, e.2⟩
  next_nil := by
    rintro s ⟨u, h, e⟩
    cases u with
    | cons b u => cases e
    | nil =>
      obtain ⟨e1, e2⟩ := L.atEnd s _ h
      simp only [collecting]
      rw [if_pos (by rw [e1]; rfl)]
      exact ⟨rfl, [], e2, rfl⟩
  peek_cons := by
    rintro s a l ⟨u, h, e⟩
    cases u with
    | nil => cases e
    | cons b u =>
      simp only [List.map_cons, List.cons.injEq] at e
      obtain ⟨e1, e2⟩ := L.atEnd s _ h
      obtain ⟨n1, n2⟩ := L.peek_cons _ _ _ e2
      simp only [collecting]
      rw [if_neg (by rw [e1]; simp)]
      exact ⟨by rw [n1, e.1]; rfl, b :: u, n2, by rw [e.1, e.2]; rfl⟩
  peek_nil := by
    rintro s ⟨u, h, e⟩
    cases u with
    | cons b u => cases e
    | nil =>
      obtain ⟨e1, e2⟩ := L.atEnd s _ h
      simp only [collecting]
      rw [if_pos (by rw [e1]; rfl)]
      exact ⟨.inl rfl, [], e2, rfl⟩
  position := by
    rintro s l p s' ⟨u, h, e⟩ hp
    exact ⟨⟨u, (L.position s u p s' h hp).1, e⟩, (L.position s u p s' h hp).2⟩

/-! ## Streams that look ahead -/

/-- The element that was looked at, and the rest. -/
def PeekR {I : Strm} (R : I.σ → List Obj → Prop) (p : Peekable I.σ) (l : List Obj) : Prop :=
  if p.haveLookahead then ∃ a u, p.lookahead = .val a ∧ R p.stream u ∧ l = a :: u else R p.stream l

theorem peekR_true {I : Strm} {R : I.σ → List Obj → Prop} {p : Peekable I.σ} {l : List Obj} (c : p.haveLookahead = true) :
    PeekR R p l ↔ ∃ a u, p.lookahead = .val a ∧ R p.stream u ∧ l = a :: u := by
  unfold PeekR; rw [if_pos c]

theorem peekR_false {I : Strm} {R : I.σ → List Obj → Prop} {p : Peekable I.σ} {l : List Obj} (c : p.haveLookahead = false) :
    PeekR R p l ↔ R p.stream l := by
  unfold PeekR; rw [if_neg (by simp [c])]

theorem peekable_law {I : Strm} {R : I.σ → List Obj → Prop} (L : Law I R) : Law (peekable I) (PeekR R) where
  atEnd := by
    intro p l h
    cases c : p.haveLookahead with
    | true =>
      obtain ⟨a, u, _, _, e⟩ := (peekR_true c).1 h
      simp only [peekable, c, if_true]
      exact ⟨by rw [e]; rfl, h⟩
    | false =>
      have h' := (peekR_false c).1 h
      simp only [peekable, c, Bool.false_eq_true, if_false]
      have := L.atEnd _ _ h'
      exact ⟨this.1, (peekR_false rfl).2 this.2⟩
  next_cons := by
    intro p a l h
    cases c : p.haveLookahead with
    | true =>
      obtain ⟨a', u, h1, h2, e⟩ := (peekR_true c).1 h
      cases e
      simp only [peekable, c, if_true]
      exact ⟨h1, (peekR_false rfl).2 h2⟩
    | false =>
      have h' := (peekR_false c).1 h
      simp only [peekable, c, Bool.false_eq_true, if_false]
      have := L.next_cons _ _ _ h'
      exact ⟨this.1, (peekR_false rfl).2 this.2⟩
  next_nil := by
    intro p h
    cases c : p.haveLookahead with
    | true => obtain ⟨a', u, h1, h2, e⟩ := (peekR_true c).1 h; cases e
    | false =>
      have h' := (peekR_false c).1 h
      simp only [peekable, c, Bool.false_eq_true, if_false]
      have := L.next_nil _ h'
      exact ⟨this.1, (peekR_false rfl).2 this.2⟩
  peek_cons := by
    intro p a l h
    cases c : p.haveLookahead with
    | true =>
      obtain ⟨a', u, h1, h2, e⟩ := (peekR_true c).1 h
      simp only [peekable, c, if_true]
      cases e
      exact ⟨h1, h⟩
    | false =>
      have h' := (peekR_false c).1 h
      obtain ⟨e1, e2⟩ := L.atEnd _ _ h'
      obtain ⟨n1, n2⟩ := L.next_cons _ _ _ e2
      simp only [peekable, c, Bool.false_eq_true, if_false]
      rw [if_neg (by rw [e1]; simp)]
      exact ⟨n1, (peekR_true rfl).2 ⟨a, l, n1, n2, rfl⟩⟩
  peek_nil := by
    intro p h
    cases c : p.haveLookahead with
    | true => obtain ⟨a', u, h1, h2, e⟩ := (peekR_true c).1 h; cases e
    | false =>
      have h' := (peekR_false c).1 h
      obtain ⟨e1, e2⟩ := L.atEnd _ _ h'
      simp only [peekable, c, Bool.false_eq_true, if_false]
      rw [if_pos (by rw [e1]; rfl)]
      exact ⟨.inl rfl, (peekR_false rfl).2 e2⟩
  position := by intro _ _ _ _ _ e; cases e

theorem peekable_for {I : Strm} {R : I.σ → List Obj → Prop} (L : Law I R) : ForLaw (peekable I) (PeekR R) fun _ => True where
  yes := by
    intro p x l _ h
    cases c : p.haveLookahead with
    | true =>
      obtain ⟨a', u, h1, h2, e⟩ := (peekR_true c).1 h
      cases e
      simp only [peekable, c, if_true, h1, decide_true]
      exact ⟨trivial, (peekR_false rfl).2 h2⟩
    | false =>
      have h' := (peekR_false c).1 h
      obtain ⟨e1, e2⟩ := L.atEnd _ _ h'
      obtain ⟨n1, n2⟩ := L.next_cons _ _ _ e2
      simp only [peekable, c, Bool.false_eq_true, if_false]
      rw [if_neg (by rw [e1]; simp)]
      simp only [n1, decide_true]
      exact ⟨trivial, (peekR_false rfl).2 n2⟩
  no := by
    intro p x a l _ hne h
    cases c : p.haveLookahead with
    | true =>
      obtain ⟨a', u, h1, h2, e⟩ := (peekR_true c).1 h
      cases e
      simp only [peekable, c, if_true, h1, Out.val.injEq, hne, decide_false]
      exact ⟨trivial, (peekR_true rfl).2 ⟨a, l, by simp, h2, rfl⟩⟩
    | false =>
      have h' := (peekR_false c).1 h
      obtain ⟨e1, e2⟩ := L.atEnd _ _ h'
      obtain ⟨n1, n2⟩ := L.next_cons _ _ _ e2
      simp only [peekable, c, Bool.false_eq_true, if_false]
      rw [if_neg (by rw [e1]; simp)]
      simp only [n1, Out.val.injEq, hne, decide_false]
      exact ⟨trivial, (peekR_true rfl).2 ⟨a, l, by simp, n2, rfl⟩⟩
  nil := by
    intro p x _ h
    cases c : p.haveLookahead with
    | true => obtain ⟨a', u, h1, h2, e⟩ := (peekR_true c).1 h; cases e
    | false =>
      have h' := (peekR_false c).1 h
      obtain ⟨e1, e2⟩ := L.atEnd _ _ h'
      simp only [peekable, c, Bool.false_eq_true, if_false]
      rw [if_pos (by rw [e1]; rfl)]
      exact ⟨.inr rfl, (peekR_false rfl).2 e2⟩

/-! ## , -/

/-- Each stream has its elements. -/
def All {I : Strm} (R : I.σ → List Obj → Prop) (ss : List I.σ) (us : List (List Obj)) : Prop := List.Forall₂ R ss us

/-- The elements of all streams, one after the other, and how many were read. -/
def ConcatR {I : Strm} (R : I.σ → List Obj → Prop) (c : Concat I.σ) (l : List Obj) (n : ℤ) : Prop :=
  0 ≤ c.curPos ∧ c.startPos + c.curPos = n ∧ ∃ us, List.Forall₂ R c.streams us ∧ us.flatten = l

theorem stream_ok {I : Strm} {R : I.σ → List Obj → Prop} (L : Law I R) : ∀ (ss : List I.σ) (us : List (List Obj)) (a b : ℤ),
    List.Forall₂ R ss us → 0 ≤ b →
    0 ≤ (concatStream I ss a b).2.curPos ∧ (concatStream I ss a b).2.startPos + (concatStream I ss a b).2.curPos = a + b ∧
    match us.flatten with
    | [] => (concatStream I ss a b).1 = none ∧ ∃ us', List.Forall₂ R (concatStream I ss a b).2.streams us' ∧ us'.flatten = []
    | x :: l => ∃ s ss' u us', concatStream I ss a b = (some s, ⟨s :: ss', (concatStream I ss a b).2.startPos, (concatStream I ss a b).2.curPos⟩) ∧
        R s (x :: u) ∧ List.Forall₂ R ss' us' ∧ u ++ us'.flatten = l
  | [], _, a, b, h, hb => by
    cases h
    exact ⟨hb, rfl, rfl, [], .nil, rfl⟩
  | s :: ss, _, a, b, h, hb => by
    cases h with
    | @cons _ u _ us h1 h2 =>
      obtain ⟨e1, e2⟩ := L.atEnd _ _ h1
      simp only [concatStream]
      cases u with
      | nil =>
        rw [if_pos (show (I.atEnd s).1 = true by rw [e1]; rfl)]
        have key : (0 ≤ if b > 0 then (0 : ℤ) else b) ∧ (if b > 0 then a + b else a) + (if b > 0 then (0 : ℤ) else b) = a + b := by
          split <;> constructor <;> omega
        cases ss with
        | nil =>
          cases h2
          rw [if_pos (by rfl)]
          exact ⟨key.1, key.2, rfl, [[]], .cons e2 .nil, rfl⟩
        | cons s' ss' =>
          rw [if_neg (by simp)]
          have := stream_ok L (s' :: ss') us (if b > 0 then a + b else a) (if b > 0 then 0 else b) h2 key.1
          rw [key.2] at this
          simpa using this
      | cons x u =>
        rw [if_neg (show ¬ (I.atEnd s).1 = true by rw [e1]; simp)]
        refine ⟨hb, rfl, ?_⟩
        simp only [List.flatten_cons, List.cons_append]
        exact ⟨_, ss, u, us, rfl, e2, h2, rfl⟩

theorem concat_nil {I : Strm} {R : I.σ → List Obj → Prop} (L : Law I R) {c : Concat I.σ} {n : ℤ} (h : ConcatR R c [] n) :
    (c.stream I).1 = none ∧ ConcatR R (c.stream I).2 [] n := by
  obtain ⟨h1, h2, us, h3, h4⟩ := h
  have := stream_ok L c.streams us c.startPos c.curPos h3 h1
  rw [h4] at this
  obtain ⟨k1, k2, k3, k4⟩ := this
  exact ⟨k3, k1, k2.trans h2, k4⟩

theorem concat_cons {I : Strm} {R : I.σ → List Obj → Prop} (L : Law I R) {c : Concat I.σ} {n : ℤ} {x : Obj} {l : List Obj} (h : ConcatR R c (x :: l) n) :
    ∃ s ss a b u us, c.stream I = (some s, ⟨s :: ss, a, b⟩) ∧ 0 ≤ b ∧ a + b = n ∧ R s (x :: u) ∧ List.Forall₂ R ss us ∧ u ++ us.flatten = l := by
  obtain ⟨h1, h2, us, h3, h4⟩ := h
  have := stream_ok L c.streams us c.startPos c.curPos h3 h1
  rw [h4] at this
  obtain ⟨k1, k2, s, ss, u, us, k3, k4, k5, k6⟩ := this
  exact ⟨s, ss, _, _, u, us, k3, k1, k2.trans h2, k4, k5, k6⟩

theorem concat_at {I : Strm} {R : I.σ → List Obj → Prop} (L : Law I R) {c : Concat I.σ} {n : ℤ} {l : List Obj} (h : ConcatR R c l n) :
    (c.stream I).1.isNone = l.isEmpty ∧ ConcatR R (c.stream I).2 l n := by
  cases l with
  | nil => have := concat_nil L h; exact ⟨by rw [this.1]; rfl, this.2⟩
  | cons x l =>
    obtain ⟨s, ss, a, b, u, us, k, k1, k2, k3, k4, k5⟩ := concat_cons L h
    rw [k]
    exact ⟨rfl, k1, k2, (x :: u) :: us, .cons k3 k4, by simp [k5]⟩

theorem concat_next {I : Strm} {R : I.σ → List Obj → Prop} (L : Law I R) {c : Concat I.σ} {n : ℤ} {x : Obj} {l : List Obj} (h : ConcatR R c (x :: l) n) :
    ((concatenated I).next c).1 = .val x ∧ ConcatR R ((concatenated I).next c).2 l (n + 1) := by
  obtain ⟨s, ss, a, b, u, us, k, k1, k2, k3, k4, k5⟩ := concat_cons L h
  obtain ⟨n1, n2⟩ := L.next_cons _ _ _ k3
  simp only [concatenated, k]
  exact ⟨n1, by show 0 ≤ b + 1; omega, by show a + (b + 1) = _; omega, u :: us, .cons n2 k4, k5⟩

/-- **C202.** The position of a concatenated stream is the number of elements that were read; asking for it changes nothing. -/
theorem position {I : Strm} {R : I.σ → List Obj → Prop} (L : Law I R) {c : Concat I.σ} {n : ℤ} {l : List Obj} (h : ConcatR R c l n) :
    ∃ c', (concatenated I).position c = some (n, c') ∧ ConcatR R c' l n := by
  have := (concat_at L h).2
  exact ⟨_, by simp only [concatenated]; rw [this.2.1], this⟩

theorem concat_law {I : Strm} {R : I.σ → List Obj → Prop} (L : Law I R) : Law (concatenated I) (fun c l => ∃ n, ConcatR R c l n) where
  atEnd := by
    rintro c l ⟨n, h⟩
    exact ⟨(concat_at L h).1, n, (concat_at L h).2⟩
  next_cons := by
    rintro c a l ⟨n, h⟩
    exact ⟨(concat_next L h).1, _, (concat_next L h).2⟩
  next_nil := by
    rintro c ⟨n, h⟩
    have := concat_nil L h
    simp only [concatenated]
    rw [show c.stream I = (none, (c.stream I).2) from Prod.ext this.1 rfl]
    exact ⟨rfl, n, this.2⟩
  peek_cons := by
    rintro c x l ⟨n, h⟩
    obtain ⟨s, ss, a, b, u, us, k, k1, k2, k3, k4, k5⟩ := concat_cons L h
    obtain ⟨n1, n2⟩ := L.peek_cons _ _ _ k3
    simp only [concatenated, k]
    exact ⟨n1, n, k1, k2, (x :: u) :: us, .cons n2 k4, by simp [k5]⟩
  peek_nil := by
    rintro c ⟨n, h⟩
    have := concat_nil L h
    simp only [concatenated]
    rw [show c.stream I = (none, (c.stream I).2) from Prod.ext this.1 rfl]
    exact ⟨.inr rfl, n, this.2⟩
  position := by
    rintro c l p c' ⟨n, h⟩ e
    obtain ⟨c'', h1, h2⟩ := position L h
    rw [h1] at e
    cases e
    exact ⟨⟨_, h2⟩, rfl⟩

theorem concat_for {I : Strm} {R : I.σ → List Obj → Prop} {P : Obj → Prop} (L : Law I R) (F : ForLaw I R P) :
    ForLaw (concatenated I) (fun c l => ∃ n, ConcatR R c l n) P where
  yes := by
    rintro c x l hx ⟨n, h⟩
    obtain ⟨s, ss, a, b, u, us, k, k1, k2, k3, k4, k5⟩ := concat_cons L h
    obtain ⟨n1, n2⟩ := F.yes _ _ _ hx k3
    simp only [concatenated, k, n1, if_true]
    exact ⟨trivial, n + 1, by show 0 ≤ b + 1; omega, by show a + (b + 1) = _; omega, u :: us, .cons n2 k4, k5⟩
  no := by
    rintro c x y l hx hne ⟨n, h⟩
    obtain ⟨s, ss, a, b, u, us, k, k1, k2, k3, k4, k5⟩ := concat_cons L h
    obtain ⟨n1, n2⟩ := F.no _ _ _ _ hx hne k3
    simp only [concatenated, k, n1, Out.val.injEq, Bool.false_eq_true, if_false]
    exact ⟨trivial, n, k1, k2, (y :: u) :: us, .cons n2 k4, by simp [k5]⟩
  nil := by
    rintro c x hx ⟨n, h⟩
    have := concat_nil L h
    simp only [concatenated]
    rw [show c.stream I = (none, (c.stream I).2) from Prod.ext this.1 rfl]
    exact ⟨.inr rfl, n, this.2⟩

/-! ## with: -/

/-- The first elements, the second elements, and so on, while all lists have one. -/
def zipAll : ℕ → List (List Obj) → List Obj
  | 0, _ => []
  | k + 1, us => if us.any List.isEmpty then [] else .array (us.map fun u => u.headD .empty) :: zipAll k (us.map List.tail)

/-- Arrays of the first elements, the second elements and so on, until one of the streams has no more. -/
def EachR {I : Strm} (R : I.σ → List Obj → Prop) (z : Each I.σ) (l : List Obj) : Prop :=
  ∃ us k, List.Forall₂ R z.streams us ∧ l = zipAll k us ∧ us ≠ [] ∧ ∀ u ∈ us, u.length ≤ k

theorem anyAtEnd_ok {I : Strm} {R : I.σ → List Obj → Prop} (L : Law I R) : ∀ (ss : List I.σ) (us : List (List Obj)), List.Forall₂ R ss us →
    (anyAtEnd I ss).1 = us.any List.isEmpty ∧ List.Forall₂ R (anyAtEnd I ss).2 us
  | _, _, .nil => ⟨rfl, .nil⟩
  | s :: ss, u :: us, .cons h1 h2 => by
    obtain ⟨e1, e2⟩ := L.atEnd _ _ h1
    obtain ⟨i1, i2⟩ := anyAtEnd_ok L ss us h2
    simp only [anyAtEnd, List.any_cons]
    cases u with
    | nil => rw [if_pos (by rw [e1]; rfl)]; exact ⟨rfl, .cons e2 h2⟩
    | cons a u => rw [if_neg (by rw [e1]; simp)]; exact ⟨by simp [i1], .cons e2 i2⟩

theorem collectEach_none {I : Strm} {R : I.σ → List Obj → Prop} (L : Law I R) (send : I.σ → Out Obj × I.σ) (rest : List Obj → List Obj)
    (hs : ∀ s a l, R s (a :: l) → (send s).1 = .val a ∧ R (send s).2 (rest (a :: l))) : ∀ (ss : List I.σ) (us : List (List Obj)), List.Forall₂ R ss us →
    us.any List.isEmpty = true → (collectEach I send ss).1 = none ∧ ∃ us', List.Forall₂ R (collectEach I send ss).2 us' ∧
      us'.any List.isEmpty = true ∧ us' ≠ [] ∧ (∀ k, (∀ u ∈ us, u.length ≤ k) → (∀ u, (rest u).length ≤ u.length) → ∀ u ∈ us', u.length ≤ k)
  | _, _, .nil, h => by cases h
  | s :: ss, u :: us, .cons h1 h2, h => by
    obtain ⟨e1, e2⟩ := L.atEnd _ _ h1
    simp only [collectEach]
    cases u with
    | nil =>
      rw [if_pos (show (I.atEnd s).1 = true by rw [e1]; rfl)]
      exact ⟨rfl, [] :: us, .cons e2 h2, rfl, by simp, fun k a _ => a⟩
    | cons a u =>
      rw [if_neg (show ¬ (I.atEnd s).1 = true by rw [e1]; simp)]
      obtain ⟨n1, n2⟩ := hs _ _ _ e2
      have h' : us.any List.isEmpty = true := by simpa using h
      obtain ⟨i1, us', i2, i3, i4, i5⟩ := collectEach_none L send rest hs ss us h2 h'
      rw [show send (I.atEnd s).2 = (.val a, (send (I.atEnd s).2).2) from Prod.ext n1 rfl]
      dsimp only
      rw [show collectEach I send ss = (none, (collectEach I send ss).2) from Prod.ext i1 rfl]
      refine ⟨rfl, rest (a :: u) :: us', .cons n2 i2, by simp [i3], by simp, fun k b r v hv => ?_⟩
      rcases List.mem_cons.1 hv with rfl | hv
      · exact Nat.le_trans (r _) (b _ (List.mem_cons_self ..))
      · exact i5 k (fun u hu => b u (List.mem_cons_of_mem _ hu)) r v hv

theorem collectEach_some {I : Strm} {R : I.σ → List Obj → Prop} (L : Law I R) (send : I.σ → Out Obj × I.σ) (rest : List Obj → List Obj)
    (hs : ∀ s a l, R s (a :: l) → (send s).1 = .val a ∧ R (send s).2 (rest (a :: l))) : ∀ (ss : List I.σ) (us : List (List Obj)), List.Forall₂ R ss us →
    us.any List.isEmpty = false → (collectEach I send ss).1 = some (.val (us.map fun u => u.headD .empty)) ∧ List.Forall₂ R (collectEach I send ss).2 (us.map rest)
  | _, _, .nil, h => ⟨rfl, .nil⟩
  | s :: ss, u :: us, .cons h1 h2, h => by
    obtain ⟨e1, e2⟩ := L.atEnd _ _ h1
    simp only [collectEach]
    cases u with
    | nil => simp at h
    | cons a u =>
      rw [if_neg (show ¬ (I.atEnd s).1 = true by rw [e1]; simp)]
      obtain ⟨n1, n2⟩ := hs _ _ _ e2
      have h' : us.any List.isEmpty = false := by simpa using h
      obtain ⟨i1, i2⟩ := collectEach_some L send rest hs ss us h2 h'
      rw [show send (I.atEnd s).2 = (.val a, (send (I.atEnd s).2).2) from Prod.ext n1 rfl]
      dsimp only
      rw [show collectEach I send ss = (some (.val (us.map fun u => u.headD .empty)), (collectEach I send ss).2) from Prod.ext i1 rfl]
      exact ⟨rfl, .cons n2 i2⟩

theorem zipAll_empty {us : List (List Obj)} (h : us.any List.isEmpty = true) : ∀ k, zipAll k us = []
  | 0 => rfl
  | k + 1 => by rw [zipAll, if_pos h]

theorem zipAll_nil {us : List (List Obj)} {k : ℕ} (h : zipAll k us = []) (hne : us ≠ []) (hk : ∀ u ∈ us, u.length ≤ k) : us.any List.isEmpty = true := by
  cases k with
  | zero =>
    cases us with
    | nil => exact absurd rfl hne
    | cons u us =>
      have := hk u (List.mem_cons_self ..)
      have : u = [] := List.eq_nil_of_length_eq_zero (by omega)
      simp [this]
  | succ k =>
    rw [zipAll] at h
    by_contra c
    rw [if_neg c] at h
    cases h

theorem zipAll_cons {us : List (List Obj)} {k : ℕ} {a : Obj} {l : List Obj} (h : zipAll k us = a :: l) :
    us.any List.isEmpty = false ∧ a = .array (us.map fun u => u.headD .empty) ∧ ∃ k', k = k' + 1 ∧ l = zipAll k' (us.map List.tail) := by
  cases k with
  | zero => cases h
  | succ k =>
    rw [zipAll] at h
    by_cases c : us.any List.isEmpty = true
    · rw [if_pos c] at h; cases h
    · rw [if_neg c] at h
      cases h
      exact ⟨Bool.eq_false_iff.2 c, rfl, k, rfl, rfl⟩

theorem next_hs {I : Strm} {R : I.σ → List Obj → Prop} (L : Law I R) : ∀ s a l, R s (a :: l) → (I.next s).1 = .val a ∧ R (I.next s).2 (List.tail (a :: l)) := L.next_cons
theorem peek_hs {I : Strm} {R : I.σ → List Obj → Prop} (L : Law I R) : ∀ s a l, R s (a :: l) → (I.peek s).1 = .val a ∧ R (I.peek s).2 (id (a :: l)) := L.peek_cons

theorem each_law {I : Strm} {R : I.σ → List Obj → Prop} (L : Law I R) : Law (oneOfEach I) (EachR R) where
  atEnd := by
    rintro z l ⟨us, k, h1, rfl, h3, h4⟩
    obtain ⟨i1, i2⟩ := anyAtEnd_ok L _ _ h1
    refine ⟨?_, us, k, i2, rfl, h3, h4⟩
    show (anyAtEnd I z.streams).1 = _
    rw [i1]
    cases hz : zipAll k us with
    | nil => rw [zipAll_nil hz h3 h4]; rfl
    | cons a l => rw [(zipAll_cons hz).1]; rfl
  next_cons := by
    rintro z a l ⟨us, k, h1, h2, h3, h4⟩
    obtain ⟨c1, c2, k', c3, c4⟩ := zipAll_cons h2.symm
    obtain ⟨i1, i2⟩ := collectEach_some L I.next List.tail (next_hs L) _ _ h1 c1
    refine ⟨?_, us.map List.tail, k', i2, c4, by simpa using h3, ?_⟩
    · show arrayOr (collectEach I I.next z.streams).1 = _
      rw [i1, c2]; rfl
    · intro u hu
      obtain ⟨v, hv, rfl⟩ := List.mem_map.1 hu
      have := h4 v hv
      rw [List.length_tail]; omega
  next_nil := by
    rintro z ⟨us, k, h1, h2, h3, h4⟩
    have c := zipAll_nil h2.symm h3 h4
    obtain ⟨i1, us', i2, i3, i4, i5⟩ := collectEach_none L I.next List.tail (next_hs L) _ _ h1 c
    refine ⟨?_, us', k, i2, (zipAll_empty i3 k).symm, i4, i5 k h4 (by intro u; simp)⟩
    show arrayOr (collectEach I I.next z.streams).1 = _
    rw [i1]; rfl
  peek_cons := by
    rintro z a l ⟨us, k, h1, h2, h3, h4⟩
    obtain ⟨c1, c2, k', c3, c4⟩ := zipAll_cons h2.symm
    obtain ⟨i1, i2⟩ := collectEach_some L I.peek id (peek_hs L) _ _ h1 c1
    rw [List.map_id] at i2
    refine ⟨?_, us, k, i2, h2, h3, h4⟩
    show arrayOr (collectEach I I.peek z.streams).1 = _
    rw [i1, c2]; rfl
  peek_nil := by
    rintro z ⟨us, k, h1, h2, h3, h4⟩
    have c := zipAll_nil h2.symm h3 h4
    obtain ⟨i1, us', i2, i3, i4, i5⟩ := collectEach_none L I.peek id (peek_hs L) _ _ h1 c
    refine ⟨.inr ?_, us', k, i2, (zipAll_empty i3 k).symm, i4, i5 k h4 (by intro u; simp)⟩
    show arrayOr (collectEach I I.peek z.streams).1 = _
    rw [i1]; rfl
  position := by
    rintro ⟨ss, d⟩ l p z' ⟨us, k, h1, h2, h3, h4⟩ e
    cases h1 with
    | nil => exact absurd rfl h3
    | @cons s u ss us h1 h1' =>
      have e : (I.position s).map (fun (p, s') => (p - d, (⟨s' :: ss, d⟩ : Each I.σ))) = some (p, z') := e
      obtain ⟨⟨q, s'⟩, e1, e2⟩ := Option.map_eq_some_iff.1 e
      cases e2
      refine ⟨⟨u :: us, k, .cons (L.position _ _ _ _ h1 e1).1 h1', h2, h3, h4⟩, ?_⟩
      exact isSome_map' (L.position _ _ _ _ h1 e1).2

/-! ## Streams of two kinds -/

/-- What holds for the one or the other. -/
def EitherR {I J : Strm} (R : I.σ → List Obj → Prop) (S : J.σ → List Obj → Prop) : I.σ ⊕ J.σ → List Obj → Prop
  | .inl s, l => R s l
  | .inr s, l => S s l

theorem either_law {I J : Strm} {R : I.σ → List Obj → Prop} {S : J.σ → List Obj → Prop} (L : Law I R) (M : Law J S) : Law (either I J) (EitherR R S) where
  atEnd := by rintro (s | s) l h; exacts [L.atEnd s l h, M.atEnd s l h]
  next_cons := by rintro (s | s) a l h; exacts [L.next_cons s a l h, M.next_cons s a l h]
  next_nil := by rintro (s | s) h; exacts [L.next_nil s h, M.next_nil s h]
  peek_cons := by rintro (s | s) a l h; exacts [L.peek_cons s a l h, M.peek_cons s a l h]
  peek_nil := by rintro (s | s) h; exacts [L.peek_nil s h, M.peek_nil s h]
  position := by
    rintro (s | s) l p s' h e
    · obtain ⟨⟨q, t⟩, e1, e2⟩ := Option.map_eq_some_iff.1 (show (I.position s).map _ = some (p, s') from e)
      cases e2
      refine ⟨(L.position _ _ _ _ h e1).1, ?_⟩
      exact isSome_map' (L.position _ _ _ _ h e1).2
    · obtain ⟨⟨q, t⟩, e1, e2⟩ := Option.map_eq_some_iff.1 (show (J.position s).map _ = some (p, s') from e)
      cases e2
      refine ⟨(M.position _ _ _ _ h e1).1, ?_⟩
      exact isSome_map' (M.position _ _ _ _ h e1).2

theorem either_for {I J : Strm} {R : I.σ → List Obj → Prop} {S : J.σ → List Obj → Prop} {P : Obj → Prop} (L : ForLaw I R P) (M : ForLaw J S P) : ForLaw (either I J) (EitherR R S) P where
  yes := by rintro (s | s) x l hx h; exacts [L.yes s x l hx h, M.yes s x l hx h]
  no := by rintro (s | s) x a l hx hne h; exacts [L.no s x a l hx hne h, M.no s x a l hx hne h]
  nil := by rintro (s | s) x hx h; exacts [L.nil s x hx h, M.nil s x hx h]

/-! ## do: -/

theorem doAll_ok {I : Strm} {R : I.σ → List Obj → Prop} (L : Law I R) : ∀ (k : ℕ) (s : I.σ) (l : List Obj), R s l → l.length < k →
    (doAll I k s).1 = .val l ∧ R (doAll I k s).2 []
  | 0, _, _, _, h => absurd h (Nat.not_lt_zero _)
  | k + 1, s, l, hR, h => by
    obtain ⟨e1, e2⟩ := L.atEnd _ _ hR
    simp only [doAll]
    cases l with
    | nil => rw [if_pos (show (I.atEnd s).1 = true by rw [e1]; rfl)]; exact ⟨rfl, e2⟩
    | cons a l =>
      rw [if_neg (show ¬ (I.atEnd s).1 = true by rw [e1]; simp)]
      obtain ⟨n1, n2⟩ := L.next_cons _ _ _ e2
      simp only [List.length_cons] at h
      obtain ⟨i1, i2⟩ := doAll_ok L k (I.next (I.atEnd s).2).2 l n2 (by omega)
      rw [show I.next (I.atEnd s).2 = (.val a, (I.next (I.atEnd s).2).2) from Prod.ext n1 rfl]
      dsimp only
      rw [show doAll I k (I.next (I.atEnd s).2).2 = (.val l, (doAll I k (I.next (I.atEnd s).2).2).2) from Prod.ext i1 rfl]
      exact ⟨rfl, i2⟩

theorem doEach_ok {I : Strm} {R : I.σ → List Obj → Prop} (L : Law I R) : ∀ (n : ℕ) (ss : List I.σ) (us : List (List Obj)) (k : ℕ), List.Forall₂ R ss us → us ≠ [] →
    (∀ u ∈ us, u.length ≤ k) → (zipAll k us).length < n → (doEach I n ss).1 = .val (zipAll k us)
  | 0, _, _, _, _, _, _, h => absurd h (Nat.not_lt_zero _)
  | n + 1, ss, us, k, h1, h2, h3, h4 => by
    simp only [doEach]
    cases hz : zipAll k us with
    | nil =>
      have c := zipAll_nil hz h2 h3
      obtain ⟨i1, _⟩ := collectEach_none L I.next List.tail (next_hs L) _ _ h1 c
      rw [show collectEach I I.next ss = (none, (collectEach I I.next ss).2) from Prod.ext i1 rfl]
    | cons a l =>
      obtain ⟨c1, c2, k', c3, c4⟩ := zipAll_cons hz
      obtain ⟨i1, i2⟩ := collectEach_some L I.next List.tail (next_hs L) _ _ h1 c1
      have := doEach_ok L n _ (us.map List.tail) k' i2 (by simpa using h2) (by
        intro u hu
        obtain ⟨v, hv, rfl⟩ := List.mem_map.1 hu
        have := h3 v hv
        rw [List.length_tail]; omega) (by rw [hz] at h4; simp only [List.length_cons, c4] at h4; omega)
      rw [show collectEach I I.next ss = (some (.val (us.map fun u => u.headD .empty)), (collectEach I I.next ss).2) from Prod.ext i1 rfl]
      dsimp only
      rw [show doEach I n (collectEach I I.next ss).2 = (.val (zipAll k' (us.map List.tail)), (doEach I n (collectEach I I.next ss).2).2) from Prod.ext this rfl]
      rw [c2, c4]

/-! ## Expressions -/

/-- Expressions that answer streams. -/
inductive Expr where
  /-- `anArray readStream` -/
  | array (l : List Obj)
  /-- `aString readStream` -/
  | string (l : List ℕ)
  | select (block : Obj → Bool) (e : Expr)
  | reject (block : Obj → Bool) (e : Expr)
  | collect (block : Obj → Obj) (e : Expr)
  /-- `a , b` -/
  | comma (a b : Expr)
  /-- `a with: b` -/
  | with' (a b : Expr)
  /-- A stream that became a PeekableStream (kernel/StreamOps.st:645-657). -/
  | looked (e : Expr)

/-- The elements that an expression stands for. -/
def Expr.list : Expr → List Obj
  | .array l => l
  | .string l => l.map .char
  | .select p e => e.list.filter p
  | .reject p e => e.list.filter fun x => !p x
  | .collect g e => e.list.map g
  | .comma a b => a.list ++ b.list
  | .with' a b => a.list.zipWith (fun x y => .array [x, y]) b.list
  | .looked e => e.list

/-- A number that is above the lengths of all streams that take part. -/
def Expr.size : Expr → ℕ
  | .array l => l.length + 1
  | .string l => l.length + 1
  | .select _ e | .reject _ e | .collect _ e | .looked e => e.size
  | .comma a b | .with' a b => a.size + b.size

/-- `position` is understood. -/
def Expr.positionable : Expr → Bool
  | .array _ | .string _ | .comma _ _ | .with' _ _ => true
  | .select _ _ | .reject _ _ | .looked _ => false
  | .collect _ e => e.positionable

/-- The receiver of each `with:` understands `position`. -/
def Expr.ok : Expr → Bool
  | .array _ | .string _ => true
  | .select _ e | .reject _ e | .looked e | .collect _ e => e.ok
  | .comma a b => a.ok && b.ok
  | .with' a b => a.positionable && a.ok && b.ok

/-- A stream of some kind. -/
structure Any where
  I : Strm
  s : I.σ

/-- `select:` and `reject:` (kernel/StreamOps.st:689-716). -/
def Any.filtered (p : Obj → Bool) (b : Bool) (fuel : ℕ) (x : Any) : Any := ⟨filtering x.I p b fuel, filteringOn x.I p b fuel x.s⟩

/-- `collect:` (kernel/StreamOps.st:718-726). -/
def Any.collected (g : Obj → Obj) (x : Any) : Any := ⟨collecting x.I g, x.s⟩

/-- `peek` makes a PeekableStream (kernel/StreamOps.st:645-657). -/
def Any.looked (x : Any) : Any := ⟨peekable x.I, peekableOn x.I x.s⟩

/-- `,` (kernel/StreamOps.st:631-637). -/
def Any.comma (x y : Any) : Any := ⟨concatenated (either x.I y.I), concatOn [.inl x.s, .inr y.s]⟩

/-- `with:` (kernel/StreamOps.st:728-734). -/
def Any.with' (x y : Any) : Option Any :=
  (eachOn (either x.I y.I) [.inl x.s, .inr y.s]).map fun z => ⟨oneOfEach (either x.I y.I), z⟩

/-- The value of an expression; `none`: a message is not understood. -/
def Expr.value (fuel : ℕ) : Expr → Option Any
  | .array l => some ⟨readStream .array, (l, 0)⟩
  | .string l => some ⟨readStream .string, (l.map .char, 0)⟩
  | .select p e => (e.value fuel).map (Any.filtered p true fuel)
  | .reject p e => (e.value fuel).map (Any.filtered p false fuel)
  | .collect g e => (e.value fuel).map (Any.collected g)
  | .comma a b => (a.value fuel).bind fun x => (b.value fuel).map (Any.comma x)
  | .with' a b => (a.value fuel).bind fun x => (b.value fuel).bind (Any.with' x)
  | .looked e => (e.value fuel).map Any.looked

theorem size_pos : ∀ e : Expr, 0 < e.size
  | .array _ => Nat.succ_pos _
  | .string _ => Nat.succ_pos _
  | .select _ e | .reject _ e | .collect _ e | .looked e => size_pos e
  | .comma a _ | .with' a _ => Nat.add_pos_left (size_pos a) _

theorem list_lt : ∀ e : Expr, e.list.length < e.size
  | .array _ => Nat.lt_succ_self _
  | .string _ => by simp [Expr.list, Expr.size]
  | .select p e => Nat.lt_of_le_of_lt (List.length_filter_le _ _) (list_lt e)
  | .reject p e => Nat.lt_of_le_of_lt (List.length_filter_le _ _) (list_lt e)
  | .collect g e => by simp only [Expr.list, List.length_map]; exact list_lt e
  | .looked e => list_lt e
  | .comma a b => by
    have := list_lt a
    have := list_lt b
    simp only [Expr.list, List.length_append, Expr.size]; omega
  | .with' a b => by
    have := list_lt a
    have := list_lt b
    simp only [Expr.list, List.length_zipWith, Expr.size]; omega

theorem zipAll_two : ∀ (k : ℕ) (u v : List Obj), u.length ≤ k → v.length ≤ k →
    zipAll k [u, v] = u.zipWith (fun x y => .array [x, y]) v
  | 0, [], _, _, _ => rfl
  | k + 1, [], v, _, _ => rfl
  | k + 1, a :: u, [], _, _ => rfl
  | k + 1, a :: u, b :: v, h1, h2 => by
    simp only [List.length_cons] at h1 h2
    rw [zipAll, if_neg (by simp)]
    simp only [List.map_cons, List.map_nil, List.headD_cons, List.tail_cons, List.zipWith_cons_cons]
    rw [zipAll_two k u v (by omega) (by omega)]

/-- The stream still answers the elements `l`. -/
def Stands (x : Any) (l : List Obj) (pos : Bool) : Prop :=
  ∃ R, Law x.I R ∧ R x.s l ∧ (x.I.position x.s).isSome = pos

theorem stands_filtered {x : Any} {l : List Obj} {b : Bool} (p : Obj → Bool) (r : Bool) (fuel : ℕ) (h : Stands x l b) (hl : l.length < fuel) :
    Stands (x.filtered p r fuel) (l.filter fun a => p a == r) false := by
  obtain ⟨R, h1, h2, _⟩ := h
  exact ⟨_, filter_law h1 p r fuel, filter_made h1 p r h2 hl, rfl⟩

theorem stands_collected {x : Any} {l : List Obj} {b : Bool} (g : Obj → Obj) (h : Stands x l b) : Stands (x.collected g) (l.map g) b := by
  obtain ⟨R, h1, h2, h3⟩ := h
  exact ⟨_, collect_law h1 g, ⟨_, h2, rfl⟩, h3⟩

theorem stands_looked {x : Any} {l : List Obj} {b : Bool} (h : Stands x l b) : Stands x.looked l false := by
  obtain ⟨R, h1, h2, h3⟩ := h
  exact ⟨_, peekable_law h1, (peekR_false rfl).2 h2, rfl⟩

theorem stands_comma {x y : Any} {k l : List Obj} {b c : Bool} (h : Stands x k b) (i : Stands y l c) : Stands (x.comma y) (k ++ l) true := by
  obtain ⟨R, h1, h2, _⟩ := h
  obtain ⟨S, i1, i2, _⟩ := i
  exact ⟨_, concat_law (either_law h1 i1), ⟨0, Int.le_refl 0, rfl, [k, l], .cons h2 (.cons i2 .nil), by simp⟩, rfl⟩

theorem stands_with {x y : Any} {k l : List Obj} {c : Bool} (h : Stands x k true) (i : Stands y l c) :
    ∃ z, x.with' y = some z ∧ Stands z (k.zipWith (fun x y => .array [x, y]) l) true := by
  obtain ⟨R, h1, h2, h3⟩ := h
  obtain ⟨S, i1, i2, _⟩ := i
  obtain ⟨⟨q, s'⟩, hq⟩ := Option.isSome_iff_exists.1 h3
  have L := either_law h1 i1
  have R' := h1.position _ _ _ _ h2 hq
  have e : eachOn (either x.I y.I) [.inl x.s, .inr y.s] = some ⟨[.inl s', .inr y.s], q⟩ := by
    simp only [eachOn, either, hq, Option.map_some]
  refine ⟨⟨oneOfEach (either x.I y.I), ⟨[.inl s', .inr y.s], q⟩⟩, by simp only [Any.with', e]; rfl,
    EachR (EitherR R S), each_law L, ⟨[k, l], max k.length l.length, .cons R'.1 (.cons i2 .nil), ?_, by simp, ?_⟩, isSome_map' (isSome_map' R'.2)⟩
  · rw [zipAll_two _ _ _ (Nat.le_max_left _ _) (Nat.le_max_right _ _)]
  · intro u hu
    simp only [List.mem_cons, List.not_mem_nil, or_false] at hu
    rcases hu with rfl | rfl
    · exact Nat.le_max_left _ _
    · exact Nat.le_max_right _ _

theorem with_none {x y : Any} {k : List Obj} (h : Stands x k false) : x.with' y = none := by
  obtain ⟨R, h1, h2, h3⟩ := h
  have hq : x.I.position x.s = none := by
    cases e : x.I.position x.s with
    | none => rfl
    | some q => rw [e] at h3; cases h3
  have e : eachOn (either x.I y.I) [.inl x.s, .inr y.s] = none := by
    simp only [eachOn, either, hq, Option.map_none]
  simp only [Any.with', e]; rfl

/-- An expression whose `with:` are all sent to streams with positions has a value, and the value has the elements. -/
theorem value_ok (fuel : ℕ) : ∀ e : Expr, e.size ≤ fuel →
    (e.ok = true → ∃ x, e.value fuel = some x ∧ Stands x e.list e.positionable) ∧ (e.ok = false → e.value fuel = none)
  | .array l, _ => ⟨fun _ => ⟨_, rfl, _, read_law _, rfl, rfl⟩, fun h => by cases h⟩
  | .string l, _ => ⟨fun _ => ⟨_, rfl, _, read_law _, rfl, rfl⟩, fun h => by cases h⟩
  | .select p e, h => by
    obtain ⟨i, j⟩ := value_ok fuel e h
    refine ⟨fun c => ?_, fun c => by rw [Expr.value, j c]; rfl⟩
    obtain ⟨x, h1, h2⟩ := i c
    exact ⟨_, by rw [Expr.value, h1]; rfl, by simpa [Expr.list, Expr.positionable] using stands_filtered p true fuel h2 (Nat.lt_of_lt_of_le (list_lt e) h)⟩
  | .reject p e, h => by
    obtain ⟨i, j⟩ := value_ok fuel e h
    refine ⟨fun c => ?_, fun c => by rw [Expr.value, j c]; rfl⟩
    obtain ⟨x, h1, h2⟩ := i c
    exact ⟨_, by rw [Expr.value, h1]; rfl, by simpa [Expr.list, Expr.positionable] using stands_filtered p false fuel h2 (Nat.lt_of_lt_of_le (list_lt e) h)⟩
  | .collect g e, h => by
    obtain ⟨i, j⟩ := value_ok fuel e h
    refine ⟨fun c => ?_, fun c => by rw [Expr.value, j c]; rfl⟩
    obtain ⟨x, h1, h2⟩ := i c
    exact ⟨_, by rw [Expr.value, h1]; rfl, stands_collected g h2⟩
  | .looked e, h => by
    obtain ⟨i, j⟩ := value_ok fuel e h
    refine ⟨fun c => ?_, fun c => by rw [Expr.value, j c]; rfl⟩
    obtain ⟨x, h1, h2⟩ := i c
    exact ⟨_, by rw [Expr.value, h1]; rfl, stands_looked h2⟩
  | .comma a b, h => by
    have h : a.size + b.size ≤ fuel := h
    obtain ⟨ia, ja⟩ := value_ok fuel a (by omega)
    obtain ⟨ib, jb⟩ := value_ok fuel b (by omega)
    refine ⟨fun c => ?_, fun c => ?_⟩
    · simp only [Expr.ok, Bool.and_eq_true] at c
      obtain ⟨x, h1, h2⟩ := ia c.1
      obtain ⟨y, h3, h4⟩ := ib c.2
      exact ⟨_, by rw [Expr.value, h1, h3]; rfl, stands_comma h2 h4⟩
    · simp only [Expr.ok, Bool.and_eq_false_iff] at c
      rw [Expr.value]
      cases ca : a.ok with
      | false => rw [ja ca]; rfl
      | true =>
        rw [jb (by simpa [ca] using c)]
        obtain ⟨x, h1, h2⟩ := ia ca
        rw [h1]; rfl
  | .with' a b, h => by
    have h : a.size + b.size ≤ fuel := h
    obtain ⟨ia, ja⟩ := value_ok fuel a (by omega)
    obtain ⟨ib, jb⟩ := value_ok fuel b (by omega)
    refine ⟨fun c => ?_, fun c => ?_⟩
    · simp only [Expr.ok, Bool.and_eq_true] at c
      obtain ⟨x, h1, h2⟩ := ia c.1.2
      obtain ⟨y, h3, h4⟩ := ib c.2
      rw [c.1.1] at h2
      obtain ⟨z, h5, h6⟩ := stands_with h2 h4
      exact ⟨z, by rw [Expr.value, h1, h3]; exact h5, h6⟩
    · rw [Expr.value]
      cases ca : a.ok with
      | false => rw [ja ca]; rfl
      | true =>
        obtain ⟨x, h1, h2⟩ := ia ca
        rw [h1]
        cases cb : b.ok with
        | false => rw [jb cb]; rfl
        | true =>
          obtain ⟨y, h3, h4⟩ := ib cb
          rw [h3]
          have : a.positionable = false := by simpa [Expr.ok, ca, cb] using c
          rw [this] at h2
          exact with_none h2

/-- **C200.** Enumerating a stream that is made with `select:`, `reject:`, `collect:`, `,` and `with:`, nested in any way, yields the elements of the corresponding functions on lists.  Missing: `with:` sent to a stream without `position`. -/
theorem elements_partial (e : Expr) (h : e.ok = true) (fuel : ℕ) (hf : e.size ≤ fuel) :
    ∃ x, e.value fuel = some x ∧ (doAll x.I fuel x.s).1 = .val e.list := by
  obtain ⟨x, h1, R, h2, h3, _⟩ := (value_ok fuel e hf).1 h
  exact ⟨x, h1, (doAll_ok h2 fuel _ _ h3 (Nat.lt_of_lt_of_le (list_lt e) hf)).1⟩

/-- An example: `((#(1 2 3 4) readStream select: […]) , #(7) readStream) with: 'ab' readStream`. -/
def sample : Expr := .with' (.comma (.select (fun a => a = .int 2 || a = .int 4) (.array [.int 1, .int 2, .int 3, .int 4])) (.array [.int 7])) (.string [97, 98])

example : sample.ok = true ∧ sample.list = [.array [.int 2, .char 97], .array [.int 4, .char 98]] := by decide

/-- **C200.** `do:` of what `with:` answers has a loop of its own, and yields the same. -/
theorem each_do {I : Strm} {R : I.σ → List Obj → Prop} (L : Law I R) {s t : I.σ} {u v : List Obj} (hs : R s u) (ht : R t v) (n : ℕ)
    (hn : (u.zipWith (fun x y => Obj.array [x, y]) v).length < n) :
    (doEach I n [s, t]).1 = .val (u.zipWith (fun x y => .array [x, y]) v) := by
  have e := zipAll_two (max u.length v.length) u v (Nat.le_max_left _ _) (Nat.le_max_right _ _)
  rw [← e] at hn ⊢
  refine doEach_ok L n _ [u, v] _ (.cons hs (.cons ht .nil)) (by simp) ?_ hn
  intro w hw
  simp only [List.mem_cons, List.not_mem_nil, or_false] at hw
  rcases hw with rfl | rfl
  · exact Nat.le_max_left _ _
  · exact Nat.le_max_right _ _

/-- **C200 fails.** `with:` is not understood by streams made with `select:` or `reject:`, whatever they are. -/
theorem with_fails (p : Obj → Bool) (a b : Expr) (fuel : ℕ) (h : a.size + b.size ≤ fuel) :
    (Expr.with' (.select p a) b).value fuel = none ∧ (Expr.with' (.reject p a) b).value fuel = none :=
  ⟨(value_ok fuel (.with' (.select p a) b) h).2 rfl, (value_ok fuel (.with' (.reject p a) b) h).2 rfl⟩

/-- **C200 fails.** When one stream is at its end, `next` and `do:` of what `with:` answers take an element of the other and lose it. -/
theorem lost_fails :
    (doEach (readStream .array) 5 [([.int 1, .int 2], 0), ([.int 10], 0)]).1 = .val [.array [.int 1, .int 10]] ∧
    ((doEach (readStream .array) 5 [([.int 1, .int 2], 0), ([.int 10], 0)]).2.map fun s => ((readStream .array).atEnd s).1) = [true, true] := by
  decide

/-! ## peek and peekFor: -/

/-- **C201.** In every such stream `peek` answers what `next` will, and nil at the end (possibly after `EndOfStream` was signaled). -/
theorem peeks (e : Expr) (h : e.ok = true) (fuel : ℕ) (hf : e.size ≤ fuel) :
    ∃ x, e.value fuel = some x ∧ (∀ a l, e.list = a :: l → (x.I.peek x.s).1 = .val a ∧ (x.I.next (x.I.peek x.s).2).1 = .val a) ∧
      (e.list = [] → ((x.I.peek x.s).1 = .nil ∨ (x.I.peek x.s).1 = .past) ∧ (x.I.atEnd (x.I.peek x.s).2).1 = true) := by
  obtain ⟨x, h1, R, h2, h3, _⟩ := (value_ok fuel e hf).1 h
  refine ⟨x, h1, fun a l he => ?_, fun he => ?_⟩
  · rw [he] at h3
    have := h2.peek_cons _ _ _ h3
    exact ⟨this.1, (h2.next_cons _ _ _ this.2).1⟩
  · rw [he] at h3
    have := h2.peek_nil _ h3
    exact ⟨this.1, (h2.atEnd _ _ this.2).1⟩

/-- **C201.** `peekFor:` is as documented for streams of any kind that look ahead, for concatenations of such streams, and, if the argument is a Character or a SmallInteger, for streams made with `select:` and `reject:`.  Missing: `collect:`, `with:`, other arguments. -/
theorem peekFor_partial {I : Strm} {R : I.σ → List Obj → Prop} (L : Law I R) :
    ForLaw (peekable I) (PeekR R) (fun _ => True) ∧
    (∀ block result fuel, ForLaw (filtering I block result fuel) (FilterR R block result fuel) Scalar) ∧
    (∀ P, ForLaw I R P → ForLaw (concatenated I) (fun c l => ∃ n, ConcatR R c l n) P) ∧
    (∀ sp, ForLaw (readStream sp) ReadR fun _ => True) :=
  ⟨peekable_for L, fun b r f => filter_for L b r f, fun _ F => concat_for L F, read_for⟩

example : Law (readStream .array) ReadR ∧ ReadR ([.int 1, .int 2], 1) [.int 2] := ⟨read_law _, rfl⟩

/-- **C201 fails.** `peekFor:` of what `collect:` answers is an error unless the stream is at its end. -/
theorem collect_fails {I : Strm} {R : I.σ → List Obj → Prop} (L : Law I R) (g : Obj → Obj) (s : I.σ) (a : Obj) (l : List Obj) (h : R s (a :: l)) (x : Obj) :
    ((collecting I g).peekFor x s).1 = .wrong := by
  have := L.atEnd _ _ h
  simp only [collecting]
  rw [if_neg (by rw [this.1]; simp)]

/-- **C201 fails.** `peekFor:` of what `with:` answers is an error if the next element is equal to the argument. -/
theorem each_fails {I : Strm} {R : I.σ → List Obj → Prop} (L : Law I R) (z : Each I.σ) (x : Obj) (l : List Obj) (h : EachR R z (x :: l)) :
    ((oneOfEach I).peekFor x z).1 = .wrong := by
  have := (each_law L).peek_cons z x l h
  have : arrayOr (collectEach I I.peek z.streams).1 = .val x := this.1
  simp only [oneOfEach]
  rw [if_neg (by intro e; rw [e] at this; cases this), if_pos this]

/-- **C201 fails.** `peekFor:` of what `select:` answers does not find an Array that is equal to the argument. -/
theorem identity_fails :
    ((filtering (readStream .array) (fun _ => true) true 3).peekFor (.array [.int 1])
      (filteringOn (readStream .array) (fun _ => true) true 3 ([.array [.int 1]], 0))).1 = .val false := by decide

/-- **C201 fails.** At the end `peek` signals `EndOfStream` in concatenations and in what `with:` answers. -/
theorem peek_fails :
    ((concatenated (readStream .array)).peek (concatOn [([], 0), ([], 0)])).1 = .past ∧
    ((oneOfEach (readStream .array)).peek ⟨[([], 0), ([], 0)], 0⟩).1 = .past ∧
    ((readStream .array).peek ([], 0)).1 = .nil := by decide

/-! ## Positions -/

/-- Elements are read. -/
def skip (I : Strm) : ℕ → I.σ → I.σ
  | 0, s => s
  | k + 1, s => skip I k (I.next s).2

/-- **C202.** After `k` elements have been read from the concatenation of two streams, however they are divided, its position is `k`. -/
theorem positions {I : Strm} {R : I.σ → List Obj → Prop} (L : Law I R) : ∀ (k : ℕ) (c : Concat I.σ) (l : List Obj) (n : ℤ), ConcatR R c l n → k ≤ l.length →
    ∃ c', (concatenated I).position (skip (concatenated I) k c) = some (n + k, c') ∧ ConcatR R c' (l.drop k) (n + k)
  | 0, c, l, n, h, _ => by
    obtain ⟨c', h1, h2⟩ := position L h
    exact ⟨c', by simpa [skip] using h1, by simpa using h2⟩
  | k + 1, c, [], n, h, hk => by simp at hk
  | k + 1, c, a :: l, n, h, hk => by
    have := positions L k _ l (n + 1) (concat_next L h).2 (by simpa using hk)
    rw [show n + ((k + 1 : ℕ) : ℤ) = n + 1 + (k : ℤ) by push_cast; omega]
    exact this

example : ConcatR (I := readStream .array) ReadR (concatOn [([.int 1], 0), ([.int 2], 0)]) [.int 1, .int 2] 0 :=
  ⟨Int.le_refl 0, rfl, [[.int 1], [.int 2]], .cons rfl (.cons rfl .nil), rfl⟩

/-- **C202 fails.** After the first stream has been left it is not possible to go back to its elements: `position: 0` is an error. -/
theorem position_fails :
    (concatPosition .array 0 (skip (concatenated (readStream .array)) 2 (concatOn [([Obj.int 1], 0), ([Obj.int 2, Obj.int 3], 0)]))).1 = .wrong := by decide

/-! ## Contents -/

/-- The species is `sp` and stays so. -/
def Keeps (I : Strm) (R : I.σ → List Obj → Prop) (sp : Species) : Prop := ∀ s l, R s l → (I.species s).1 = sp ∧ R (I.species s).2 l

/-- **C203.** `contents` answers the elements if the class of the collection is known and they fit in it. -/
theorem contents_partial {I : Strm} {R : I.σ → List Obj → Prop} (L : Law I R) {sp : Species} (K : Keeps I R sp) {s : I.σ} {l : List Obj} (h : R s l)
    (hsp : sp ≠ .undefinedObject) (hl : ∀ a ∈ l, fits sp a = true) (k : ℕ) (hk : l.length < k) : upToEnd I k s = .val l := by
  obtain ⟨h1, h2⟩ := K s l h
  simp only [upToEnd]
  rw [if_neg (by rw [h1]; exact hsp), (doAll_ok L k _ _ h2 hk).1]
  dsimp only
  rw [h1, if_pos (List.all_eq_true.2 hl)]

/-- **C203.** ReadStreams, and streams made with `select:`, `reject:`, `collect:` and `with:`, have a known class. -/
theorem kept (sp : Species) : Keeps (readStream sp) ReadR sp ∧
    (∀ (I : Strm) (R : I.σ → List Obj → Prop), Keeps I R sp → (∀ p r fuel, Keeps (filtering I p r fuel) (FilterR R p r fuel) sp) ∧
      (∀ g, Keeps (collecting I g) (CollectR R g) sp) ∧ Keeps (peekable I) (PeekR R) sp ∧ Keeps (oneOfEach I) (EachR R) .array) := by
  refine ⟨fun s l h => ⟨rfl, h⟩, fun I R K => ⟨fun p r fuel f l h => ?_, fun g s l ⟨u, h1, h2⟩ => ?_, fun p l h => ?_, fun z l h => ⟨rfl, h⟩⟩⟩
  · obtain ⟨h1, u, h2, h3, h4⟩ := h
    exact ⟨(K _ _ h2).1, h1, u, (K _ _ h2).2, h3, h4⟩
  · exact ⟨(K _ _ h1).1, u, (K _ _ h1).2, h2⟩
  · cases c : p.haveLookahead with
    | true =>
      obtain ⟨a, u, h1, h2, h3⟩ := (peekR_true c).1 h
      exact ⟨(K _ _ h2).1, (peekR_true (p := ((peekable I).species p).2) c).2 ⟨a, u, h1, (K _ _ h2).2, h3⟩⟩
    | false =>
      have h' := (peekR_false c).1 h
      exact ⟨(K _ _ h').1, (peekR_false (p := ((peekable I).species p).2) c).2 (K _ _ h').2⟩

example : upToEnd (readStream .string) 5 ([.char 97, .char 98], 0) = .val [.char 97, .char 98] := by decide

/-- **C203 fails.** `contents` is an error if `collect:` makes numbers from Characters, for concatenations without elements, and for a String followed by an Array. -/
theorem contents_fails :
    upToEnd (collecting (readStream .string) fun _ => .int 97) 5 ([.char 97], 0) = .wrong ∧
    upToEnd (concatenated (readStream .array)) 5 (concatOn [([], 0), ([], 0)]) = .wrong ∧
    upToEnd (concatenated (either (readStream .string) (readStream .array))) 5 (concatOn [.inl ([.char 97], 0), .inr ([.int 1], 0)]) = .wrong := by
  decide

end Verif.StreamOps
