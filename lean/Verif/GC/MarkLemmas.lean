/-
The mark loop: termination, what it marks, what it leaves to do.
-/
import Verif.GC.MarkSpec
import Mathlib.Tactic.Set

namespace Verif.GC

/-- The words that `markOne` looks at. -/
def scan (h : Heap) (s : Marks) (m : Nat) : List Ref :=
  .oop (h.obj m).cls ::
    (if (h.obj m).context then (h.obj m).fields
     else if s.eph m || (h.obj m).weak then [] else (h.obj m).fields)

/-- The objects still to be looked at. -/
def Todo (c : Ctl) (q : List (List Ref)) (n : Nat) : Prop :=
  (match c with
   | .one o => n = o
   | .range l => Ref.oop n ∈ l
   | .pop => False) ∨ ∃ l ∈ q, Ref.oop n ∈ l

/-- What is known of the marked objects: those outside `P` have been looked at, as far as they
are not waiting in the buffer or in `D`; the objects found are marked, in `V` or in `T`. -/
def Inv (h : Heap) (P V D T : Nat → Prop) (s : Marks) : Prop :=
  ∀ m, s.marked m = true → ¬ P m → ∀ n, Ref.oop n ∈ strong (h.obj m) →
    (s.marked n = true ∨ V n ∨ T n) ∨
    ((h.obj m).ephemeron = true ∧ n ≠ (h.obj m).cls ∧ (m ∈ s.buf ∨ D m))

/-- The ephemeron bits during a mark: cleared only for the objects of `D`. -/
def Flags (h : Heap) (D : Nat → Prop) (s : Marks) : Prop :=
  (∀ m, s.eph m = true → (h.obj m).ephemeron = true) ∧
  (∀ m, (h.obj m).ephemeron = true → s.eph m = false → D m)

/-- The number of unmarked objects. -/
def unmarkedCount (h : Heap) (s : Marks) : Nat :=
  ((List.range h.size).filter (fun n => !s.marked n)).length

def ctlWeight (s : Marks) : Ctl → Nat
  | .one o => if s.marked o then 2 else 0
  | .range _ => 1
  | .pop => 0

def weight (h : Heap) (c : Ctl) (q : List (List Ref)) (s : Marks) : Nat :=
  5 * unmarkedCount h s + 2 * q.length + ctlWeight s c

@[simp] theorem setMark_marked (s : Marks) (n m : Nat) :
    (setMark s n).marked m = if m = n then true else s.marked m := rfl
@[simp] theorem setMark_eph (s : Marks) (n : Nat) : (setMark s n).eph = s.eph := rfl
@[simp] theorem setMark_buf (s : Marks) (n : Nat) : (setMark s n).buf = s.buf := rfl
@[simp] theorem clearMark_marked (s : Marks) (n m : Nat) :
    (clearMark s n).marked m = if m = n then false else s.marked m := rfl
@[simp] theorem clearMark_eph (s : Marks) (n : Nat) : (clearMark s n).eph = s.eph := rfl
@[simp] theorem clearMark_buf (s : Marks) (n : Nat) : (clearMark s n).buf = s.buf := rfl
@[simp] theorem addBuf_marked (s : Marks) (n : Nat) : (addBuf s n).marked = s.marked := rfl
@[simp] theorem addBuf_eph (s : Marks) (n : Nat) : (addBuf s n).eph = s.eph := rfl
@[simp] theorem addBuf_buf (s : Marks) (n : Nat) : (addBuf s n).buf = s.buf ++ [n] := rfl
@[simp] theorem setEph_marked (s : Marks) (n : Nat) (b : Bool) :
    (setEph s n b).marked = s.marked := rfl
@[simp] theorem setEph_buf (s : Marks) (n : Nat) (b : Bool) : (setEph s n b).buf = s.buf := rfl
@[simp] theorem setEph_eph (s : Marks) (n m : Nat) (b : Bool) :
    (setEph s n b).eph m = if m = n then b else s.eph m := rfl

theorem setMark_self {s : Marks} {o : Nat} (h : s.marked o = true) : setMark s o = s := by
  cases s with
  | mk marked eph buf =>
    simp only [setMark, Marks.mk.injEq, and_true]
    funext m
    by_cases hm : m = o
    · subst hm; rw [if_pos rfl]; exact h.symm
    · rw [if_neg hm]

theorem filter_count_lt (l : List Nat) (p q : Nat → Bool) (hpq : ∀ a, q a = true → p a = true)
    {o : Nat} (ho : o ∈ l) (hp : p o = true) (hq : q o = false) :
    (l.filter q).length < (l.filter p).length := by
  induction l with
  | nil => simp at ho
  | cons a l ih =>
    have hle : (l.filter q).length ≤ (l.filter p).length := by
      clear ih ho
      induction l with
      | nil => simp
      | cons b l ih =>
        simp only [List.filter_cons]
        by_cases hb : q b = true
        · rw [if_pos hb, if_pos (hpq b hb)]; simpa using ih
        · rw [if_neg hb]
          by_cases hb' : p b = true
          · rw [if_pos hb']; simp only [List.length_cons]; omega
          · rw [if_neg hb']; exact ih
    simp only [List.filter_cons]
    by_cases ha : a = o
    · subst ha
      rw [if_pos hp, if_neg (by simp [hq])]
      simp only [List.length_cons]; omega
    · have ho' : o ∈ l := by
        rcases List.mem_cons.mp ho with h1 | h1
        · exact absurd h1.symm ha
        · exact h1
      have := ih ho'
      by_cases hb : q a = true
      · rw [if_pos hb, if_pos (hpq a hb)]; simpa using this
      · rw [if_neg hb]
        by_cases hb' : p a = true
        · rw [if_pos hb']; simp only [List.length_cons]; omega
        · rw [if_neg hb']; exact this

theorem unmarkedCount_setMark {h : Heap} {s : Marks} {o : Nat} (ho : o < h.size)
    (hm : s.marked o = false) : unmarkedCount h (setMark s o) < unmarkedCount h s := by
  refine filter_count_lt _ _ _ ?_ (List.mem_range.mpr ho) (by simp [hm]) (by simp)
  intro a ha
  by_cases h1 : a = o
  · subst h1; simp at ha
  · simpa [h1] using ha

theorem firstUnmarked_none {s : Marks} : ∀ {l : List Ref}, firstUnmarked s l = none →
    ∀ n, Ref.oop n ∈ l → s.marked n = true
  | [], _ => by simp
  | .oop m :: l, hh => by
    rw [firstUnmarked] at hh
    by_cases hm : s.marked m = true
    · rw [if_pos hm] at hh
      intro n hn
      rcases List.mem_cons.mp hn with h1 | h1
      · cases h1; exact hm
      · exact firstUnmarked_none hh n h1
    · rw [if_neg hm] at hh; exact absurd hh (by simp)
  | .small :: l, hh => by
    intro n hn
    exact firstUnmarked_none (l := l) hh n (by simpa using hn)
  | .builtin :: l, hh => by
    intro n hn
    exact firstUnmarked_none (l := l) hh n (by simpa using hn)

theorem firstUnmarked_some {s : Marks} {o : Nat} {rest : List Ref} :
    ∀ {l : List Ref}, firstUnmarked s l = some (o, rest) →
      s.marked o = false ∧ Ref.oop o ∈ l ∧ (∀ r ∈ rest, r ∈ l) ∧
        ∀ n, Ref.oop n ∈ l → s.marked n = true ∨ n = o ∨ Ref.oop n ∈ rest
  | [], hh => by simp [firstUnmarked] at hh
  | .oop m :: l, hh => by
    rw [firstUnmarked] at hh
    by_cases hm : s.marked m = true
    · rw [if_pos hm] at hh
      obtain ⟨h1, h2, h3, h4⟩ := firstUnmarked_some hh
      refine ⟨h1, List.mem_cons_of_mem _ h2, fun r hr => List.mem_cons_of_mem _ (h3 r hr), ?_⟩
      intro n hn
      rcases List.mem_cons.mp hn with h5 | h5
      · cases h5; exact Or.inl hm
      · exact h4 n h5
    · rw [if_neg hm] at hh
      simp only [Option.some.injEq, Prod.mk.injEq] at hh
      obtain ⟨rfl, rfl⟩ := hh
      refine ⟨by simpa using hm, List.mem_cons_self, fun r hr => List.mem_cons_of_mem _ hr, ?_⟩
      intro n hn
      rcases List.mem_cons.mp hn with h5 | h5
      · cases h5; exact Or.inr (Or.inl rfl)
      · exact Or.inr (Or.inr h5)
  | .small :: l, hh => by
    obtain ⟨h1, h2, h3, h4⟩ := firstUnmarked_some (l := l) hh
    exact ⟨h1, List.mem_cons_of_mem _ h2, fun r hr => List.mem_cons_of_mem _ (h3 r hr),
      fun n hn => h4 n (by simpa using hn)⟩
  | .builtin :: l, hh => by
    obtain ⟨h1, h2, h3, h4⟩ := firstUnmarked_some (l := l) hh
    exact ⟨h1, List.mem_cons_of_mem _ h2, fun r hr => List.mem_cons_of_mem _ (h3 r hr),
      fun n hn => h4 n (by simpa using hn)⟩

theorem dropMarked_sub {s : Marks} : ∀ {l : List Ref}, ∀ r ∈ dropMarked s l, r ∈ l
  | [], r, hr => by simp [dropMarked] at hr
  | a :: l, r, hr => by
    rw [dropMarked] at hr
    by_cases ha : unmarkedRef s a = true
    · rw [if_pos ha] at hr; exact hr
    · rw [if_neg ha] at hr; exact List.mem_cons_of_mem _ (dropMarked_sub r hr)

theorem dropMarked_mem {s : Marks} : ∀ {l : List Ref} (n : Nat), Ref.oop n ∈ l →
    s.marked n = true ∨ Ref.oop n ∈ dropMarked s l
  | [], n, hn => by simp at hn
  | a :: l, n, hn => by
    rw [dropMarked]
    by_cases ha : unmarkedRef s a = true
    · rw [if_pos ha]; exact Or.inr hn
    · rw [if_neg ha]
      rcases List.mem_cons.mp hn with h1 | h1
      · subst h1
        left
        simpa [unmarkedRef] using ha
      · exact dropMarked_mem n h1

theorem pushRange_mem {l : List Ref} {q : List (List Ref)} {n : Nat} :
    (∃ l' ∈ pushRange l q, Ref.oop n ∈ l') ↔ Ref.oop n ∈ l ∨ ∃ l' ∈ q, Ref.oop n ∈ l' := by
  unfold pushRange
  by_cases hl : l = []
  · subst hl; simp
  · rw [if_neg hl]
    constructor
    · rintro ⟨l', h1, h2⟩
      rcases List.mem_cons.mp h1 with h3 | h3
      · subst h3; exact Or.inl h2
      · exact Or.inr ⟨l', h3, h2⟩
    · rintro (h1 | ⟨l', h1, h2⟩)
      · exact ⟨l, List.mem_cons_self, h1⟩
      · exact ⟨l', List.mem_cons_of_mem _ h1, h2⟩

theorem pushRange_length (l : List Ref) (q : List (List Ref)) :
    (pushRange l q).length ≤ q.length + 1 := by
  unfold pushRange
  split <;> simp

/-- What the mark loop achieves. -/
structure Post (h : Heap) (P V D C : Nat → Prop) (c : Ctl) (q : List (List Ref)) (s s' : Marks) :
    Prop where
  mono : ∀ m, s.marked m = true → s'.marked m = true
  eph : s'.eph = s.eph
  upper : ∀ m, s'.marked m = true → s.marked m = true ∨ C m
  todo : ∀ n, Todo c q n → s'.marked n = true
  inv : Inv h P V D (fun _ => False) s'
  buf : ∃ new, s'.buf = s.buf ++ new ∧ new.Nodup ∧
    ∀ e ∈ new, s'.marked e = true ∧ s.eph e = true ∧ (h.obj e).context = false ∧
      (s.marked e = false ∨ c = .one e)

theorem oneMarks_marked (h : Heap) (s : Marks) (o m : Nat) :
    (oneMarks h s o).marked m = if m = o then true else s.marked m := by
  simp only [oneMarks]
  split
  · rfl
  · split <;> rfl

theorem oneMarks_eph (h : Heap) (s : Marks) (o : Nat) : (oneMarks h s o).eph = s.eph := by
  simp only [oneMarks]
  split
  · rfl
  · split <;> rfl

theorem oneMarks_buf (h : Heap) (s : Marks) (o : Nat) :
    (oneMarks h s o).buf =
      s.buf ++ if (h.obj o).context = false ∧ s.eph o = true then [o] else [] := by
  simp only [oneMarks]
  by_cases hc : (h.obj o).context = true
  · rw [if_pos hc, if_neg (by simp [hc])]; simp
  · rw [if_neg hc]
    by_cases he : s.eph o = true
    · rw [if_pos (by simpa using he), if_pos ⟨by simpa using hc, he⟩]; rfl
    · rw [if_neg (by simpa using he), if_neg (by simp [he])]; simp

/-- Where `markOne` goes. -/
theorem oneNext_cases (h : Heap) (s : Marks) (o : Nat) :
    (oneNext h s o = .range (.oop (h.obj o).cls :: (h.obj o).fields) ∧
      scan h s o = .oop (h.obj o).cls :: (h.obj o).fields) ∨
    (scan h s o = [.oop (h.obj o).cls] ∧
      ((s.marked (h.obj o).cls = true ∧ oneNext h s o = .pop) ∨
       (s.marked (h.obj o).cls = false ∧ oneNext h s o = .one (h.obj o).cls))) := by
  simp only [oneNext, scan]
  by_cases hc : (h.obj o).context = true
  · rw [if_pos hc, if_pos hc]; exact Or.inl ⟨rfl, rfl⟩
  · rw [if_neg hc, if_neg hc]
    by_cases he : (s.eph o || (h.obj o).weak) = true
    · rw [if_pos he, if_pos he]
      by_cases hm : s.marked (h.obj o).cls = true
      · rw [if_pos hm]; exact Or.inr ⟨rfl, Or.inl ⟨hm, rfl⟩⟩
      · rw [if_neg hm]; exact Or.inr ⟨rfl, Or.inr ⟨by simpa using hm, rfl⟩⟩
    · rw [if_neg he, if_neg he]
      by_cases hf : (h.obj o).fields = []
      · rw [if_pos hf, hf]
        by_cases hm : s.marked (h.obj o).cls = true
        · rw [if_pos hm]; exact Or.inr ⟨rfl, Or.inl ⟨hm, rfl⟩⟩
        · rw [if_neg hm]; exact Or.inr ⟨rfl, Or.inr ⟨by simpa using hm, rfl⟩⟩
      · rw [if_neg hf]; exact Or.inl ⟨rfl, rfl⟩

theorem scan_congr {h : Heap} {s s' : Marks} (he : s'.eph = s.eph) (m : Nat) :
    scan h s' m = scan h s m := by
  simp only [scan, he]

theorem cls_mem_scan (h : Heap) (s : Marks) (m : Nat) : Ref.oop (h.obj m).cls ∈ scan h s m :=
  List.mem_cons_self

/-- Everything that `markOne` does not look at belongs to an ephemeron that is waiting. -/
theorem strong_scan {h : Heap} {s : Marks} {D : Nat → Prop} (hf : Flags h D s) {o n : Nat}
    (hn : Ref.oop n ∈ strong (h.obj o)) :
    Ref.oop n ∈ scan h s o ∨
      ((h.obj o).ephemeron = true ∧ n ≠ (h.obj o).cls ∧
        (((h.obj o).context = false ∧ s.eph o = true) ∨ D o)) := by
  simp only [strong] at hn
  rcases List.mem_cons.mp hn with h1 | h1
  · left; simp only [scan]; rw [h1]; exact List.mem_cons_self
  · by_cases hcl : n = (h.obj o).cls
    · left; rw [hcl]; exact List.mem_cons_self
    simp only [scan]
    by_cases hc : (h.obj o).context = true
    · left
      rw [if_pos hc]
      refine List.mem_cons_of_mem _ ?_
      simpa [hc] using h1
    · rw [if_neg hc]
      have hc' : (h.obj o).context = false := by simpa using hc
      by_cases he : s.eph o = true
      · right; exact ⟨hf.1 o he, hcl, Or.inl ⟨hc', he⟩⟩
      · have he' : s.eph o = false := by simpa using he
        by_cases hw : (h.obj o).weak = true
        · by_cases hee : (h.obj o).ephemeron = true
          · right; exact ⟨hee, hcl, Or.inr (hf.2 o hee he')⟩
          · exfalso
            simp [hw, hee, hc'] at h1
        · left
          rw [if_neg (by simp [he', hw])]
          refine List.mem_cons_of_mem _ ?_
          simpa [hw] using h1

theorem markLoop_post (h : Heap) (P V D C : Nat → Prop) (hlt : ∀ n, C n → n < h.size) :
    ∀ (w : Nat) (c : Ctl) (q : List (List Ref)) (s : Marks) (fuel : Nat),
      weight h c q s ≤ w → w < fuel → Flags h D s →
      Inv h (fun m => P m ∨ c = .one m) V D (Todo c q) s →
      (∀ m, C m → ∀ n, Ref.oop n ∈ scan h s m → C n) →
      (∀ n, Todo c q n → C n) →
      ∃ s', markLoop h fuel c q s = some s' ∧ Post h P V D C c q s s' := by
  intro w
  induction w using Nat.strongRecOn with
  | _ w ih =>
  intro c q s fuel hw hfu hf hI hC hT
  obtain ⟨fuel, rfl⟩ : ∃ f, fuel = f + 1 := ⟨fuel - 1, by omega⟩
  cases c with
  | one o =>
    have hCo : C o := hT o (Or.inl rfl)
    have hlo := hlt o hCo
    set s1 := oneMarks h s o with hs1
    have hs1e : s1.eph = s.eph := oneMarks_eph h s o
    have hs1m : ∀ m, s1.marked m = if m = o then true else s.marked m :=
      oneMarks_marked h s o
    have hs1b := oneMarks_buf h s o
    rw [← hs1] at hs1b
    have hcnt : (s.marked o = true ∧ unmarkedCount h s1 = unmarkedCount h s) ∨
        (s.marked o = false ∧ unmarkedCount h s1 < unmarkedCount h s) := by
      have he : unmarkedCount h s1 = unmarkedCount h (setMark s o) := by
        simp only [unmarkedCount, hs1m, setMark_marked]
      by_cases hm : s.marked o = true
      · left; refine ⟨hm, ?_⟩; rw [he, setMark_self hm]
      · right
        have hm' : s.marked o = false := by simpa using hm
        refine ⟨hm', ?_⟩; rw [he]; exact unmarkedCount_setMark hlo hm'
    have hwt : weight h (oneNext h s1 o) q s1 < weight h (.one o) q s := by
      have hcw : ctlWeight s1 (oneNext h s1 o) ≤ 1 := by
        rcases oneNext_cases h s1 o with ⟨h1, _⟩ | ⟨_, ⟨_, h1⟩ | ⟨h2, h1⟩⟩
        · rw [h1]; simp [ctlWeight]
        · rw [h1]; simp [ctlWeight]
        · rw [h1]; simp [ctlWeight, h2]
      simp only [weight]
      rcases hcnt with ⟨h1, h2⟩ | ⟨h1, h2⟩
      · have : ctlWeight s (.one o) = 2 := by simp [ctlWeight, h1]
        omega
      · omega
    have hf1 : Flags h D s1 := ⟨fun m hm => hf.1 m (hs1e ▸ hm), fun m hm hm' =>
      hf.2 m hm (hs1e ▸ hm')⟩
    have hscan1 : ∀ n, Ref.oop n ∈ scan h s1 o →
        s1.marked n = true ∨ Todo (oneNext h s1 o) q n := by
      intro n hn
      rcases oneNext_cases h s1 o with ⟨h1, h2⟩ | ⟨h2, ⟨h3, h1⟩ | ⟨h3, h1⟩⟩
      · rw [h2] at hn; right; rw [h1]; exact Or.inl hn
      · rw [h2] at hn
        have : n = (h.obj o).cls := by simpa using hn
        left; rw [this]; exact h3
      · rw [h2] at hn
        have : n = (h.obj o).cls := by simpa using hn
        right; rw [h1]; exact Or.inl this
    have hnext_not : ∀ m, oneNext h s1 o = .one m → s1.marked m = false := by
      intro m hm
      rcases oneNext_cases h s1 o with ⟨h1, _⟩ | ⟨_, ⟨_, h1⟩ | ⟨h3, h1⟩⟩
      · rw [h1] at hm; exact absurd hm (by simp)
      · rw [h1] at hm; exact absurd hm (by simp)
      · rw [h1] at hm; cases hm; exact h3
    have hI1 : Inv h (fun m => P m ∨ oneNext h s1 o = .one m) V D (Todo (oneNext h s1 o) q) s1 := by
      intro m hm hP n hn
      have hP1 : ¬ P m := fun hx => hP (Or.inl hx)
      by_cases hmo : m = o
      · subst hmo
        rcases strong_scan hf1 hn with h1 | ⟨h1, h2, h3⟩
        · rcases hscan1 n h1 with h2 | h2
          · exact Or.inl (Or.inl h2)
          · exact Or.inl (Or.inr (Or.inr h2))
        · right
          refine ⟨h1, h2, ?_⟩
          rcases h3 with ⟨h4, h5⟩ | h4
          · left
            rw [hs1b, if_pos ⟨h4, hs1e ▸ h5⟩]; simp
          · exact Or.inr h4
      · have hms : s.marked m = true := by rw [hs1m, if_neg hmo] at hm; exact hm
        have hP2 : ¬ (P m ∨ Ctl.one o = .one m) := by
          rintro (hx | hx)
          · exact hP1 hx
          · cases hx; exact hmo rfl
        rcases hI m hms hP2 n hn with (h1 | h1 | h1) | ⟨h1, h2, h3⟩
        · left; left; rw [hs1m]; split
          · rfl
          · exact h1
        · exact Or.inl (Or.inr (Or.inl h1))
        · rcases h1 with h1 | h1
          · have h1 : n = o := h1
            left; left; rw [hs1m, if_pos h1]
          · exact Or.inl (Or.inr (Or.inr (Or.inr h1)))
        · right
          refine ⟨h1, h2, ?_⟩
          rcases h3 with h3 | h3
          · left; rw [hs1b]; exact List.mem_append_left _ h3
          · exact Or.inr h3
    have hC1 : ∀ m, C m → ∀ n, Ref.oop n ∈ scan h s1 m → C n := by
      intro m hm n hn; rw [scan_congr hs1e] at hn; exact hC m hm n hn
    have hT1 : ∀ n, Todo (oneNext h s1 o) q n → C n := by
      intro n hn
      rcases hn with hn | hn
      · have : Ref.oop n ∈ scan h s1 o := by
          rcases oneNext_cases h s1 o with ⟨h1, h2⟩ | ⟨h2, ⟨h3, h1⟩ | ⟨h3, h1⟩⟩
          · rw [h1] at hn; rw [h2]; exact hn
          · rw [h1] at hn; exact absurd hn (by simp)
          · rw [h1] at hn; rw [h2]; simpa using hn
        exact hC1 o hCo n this
      · exact hT n (Or.inr hn)
    obtain ⟨s', hs', hp⟩ := ih (weight h (oneNext h s1 o) q s1) (by omega) (oneNext h s1 o) q s1 fuel (Nat.le_refl _) (by omega)
      hf1 hI1 hC1 hT1
    refine ⟨s', ?_, ?_⟩
    · rw [markLoop]; exact hs'
    · refine ⟨?_, by rw [hp.eph, hs1e], ?_, ?_, hp.inv, ?_⟩
      · intro m hm
        apply hp.mono; rw [hs1m]; split
        · rfl
        · exact hm
      · intro m hm
        rcases hp.upper m hm with h1 | h1
        · rw [hs1m] at h1
          by_cases hmo : m = o
          · subst hmo; exact Or.inr hCo
          · rw [if_neg hmo] at h1; exact Or.inl h1
        · exact Or.inr h1
      · intro n hn
        rcases hn with hn | hn
        · have hn : n = o := hn
          apply hp.mono; rw [hs1m, if_pos hn]
        · exact hp.todo n (Or.inr hn)
      · obtain ⟨new, hb, hnd, hne⟩ := hp.buf
        rw [hs1b] at hb
        have hnew : ∀ e ∈ new, s'.marked e = true ∧ s.eph e = true ∧ (h.obj e).context = false ∧
            s.marked e = false ∧ e ≠ o := by
          intro e he
          obtain ⟨h1, h2, h3, h4⟩ := hne e he
          have h5 : s1.marked e = false := by
            rcases h4 with h4 | h4
            · exact h4
            · exact hnext_not e h4
          rw [hs1m] at h5
          by_cases heo : e = o
          · rw [if_pos heo] at h5; exact absurd h5 (by simp)
          · rw [if_neg heo] at h5
            exact ⟨h1, hs1e ▸ h2, h3, h5, heo⟩
        by_cases hco : (h.obj o).context = false ∧ s.eph o = true
        · rw [if_pos hco] at hb
          refine ⟨o :: new, by rw [hb]; simp, ?_, ?_⟩
          · rw [List.nodup_cons]
            exact ⟨fun hx => (hnew o hx).2.2.2.2 rfl, hnd⟩
          · intro e he
            rcases List.mem_cons.mp he with h1 | h1
            · subst h1
              exact ⟨hp.mono _ (by rw [hs1m, if_pos rfl]), hco.2, hco.1, Or.inr rfl⟩
            · obtain ⟨h2, h3, h4, h5, _⟩ := hnew e h1
              exact ⟨h2, h3, h4, Or.inl h5⟩
        · rw [if_neg hco] at hb
          refine ⟨new, by rw [hb]; simp, hnd, ?_⟩
          intro e he
          obtain ⟨h2, h3, h4, h5, _⟩ := hnew e he
          exact ⟨h2, h3, h4, Or.inl h5⟩
  | range l =>
    cases hfirst : firstUnmarked s l with
    | none =>
      have hall := firstUnmarked_none hfirst
      have hwt : weight h .pop q s < weight h (.range l) q s := by
        simp only [weight, ctlWeight]; omega
      have hI1 : Inv h (fun m => P m ∨ Ctl.pop = .one m) V D (Todo .pop q) s := by
        intro m hm hP n hn
        rcases hI m hm (by simpa using hP) n hn with (h1 | h1 | h1) | h1
        · exact Or.inl (Or.inl h1)
        · exact Or.inl (Or.inr (Or.inl h1))
        · rcases h1 with h1 | h1
          · exact Or.inl (Or.inl (hall n h1))
          · exact Or.inl (Or.inr (Or.inr (Or.inr h1)))
        · exact Or.inr h1
      obtain ⟨s', hs', hp⟩ := ih (weight h .pop q s) (by omega) .pop q s fuel (Nat.le_refl _) (by omega) hf hI1 hC
        (fun n hn => hT n (by
          rcases hn with hn | hn
          · exact absurd hn (by simp)
          · exact Or.inr hn))
      refine ⟨s', ?_, ?_⟩
      · rw [markLoop, hfirst]; exact hs'
      · refine ⟨hp.mono, hp.eph, hp.upper, ?_, hp.inv, ?_⟩
        · intro n hn
          rcases hn with hn | hn
          · exact hp.mono n (hall n hn)
          · exact hp.todo n (Or.inr hn)
        · obtain ⟨new, hb, hnd, hne⟩ := hp.buf
          exact ⟨new, hb, hnd, fun e he => by simpa using hne e he⟩
    | some pr =>
      obtain ⟨o, rest⟩ := pr
      obtain ⟨hom, hol, hrest, hcov⟩ := firstUnmarked_some hfirst
      have hCo : C o := hT o (Or.inl hol)
      set s1 := setMark s o with hs1
      set q1 := pushRange (dropMarked s1 rest) q with hq1
      have hs1m : ∀ m, s1.marked m = if m = o then true else s.marked m := fun m => rfl
      have hcnt := unmarkedCount_setMark (hlt o hCo) hom
      rw [← hs1] at hcnt
      have hwt : weight h (.one o) q1 s1 < weight h (.range l) q s := by
        have := pushRange_length (dropMarked s1 rest) q
        rw [← hq1] at this
        have h2 : ctlWeight s1 (.one o) = 2 := by simp [ctlWeight, hs1m]
        have h3 : ctlWeight s (.range l) = 1 := rfl
        simp only [weight, h2, h3]; omega
      have hI1 : Inv h (fun m => P m ∨ Ctl.one o = .one m) V D (Todo (.one o) q1) s1 := by
        intro m hm hP n hn
        have hmo : m ≠ o := by rintro rfl; exact hP (Or.inr rfl)
        have hms : s.marked m = true := by rw [hs1m, if_neg hmo] at hm; exact hm
        rcases hI m hms (by
            rintro (hx | hx)
            · exact hP (Or.inl hx)
            · exact absurd hx (by simp)) n hn with (h1 | h1 | h1) | h1
        · left; left; rw [hs1m]; split
          · rfl
          · exact h1
        · exact Or.inl (Or.inr (Or.inl h1))
        · rcases h1 with h1 | h1
          · rcases hcov n h1 with h2 | h2 | h2
            · left; left; rw [hs1m]; split
              · rfl
              · exact h2
            · left; left; rw [hs1m, if_pos h2]
            · rcases dropMarked_mem (s := s1) n h2 with h3 | h3
              · exact Or.inl (Or.inl h3)
              · exact Or.inl (Or.inr (Or.inr (Or.inr (pushRange_mem.mpr (Or.inl h3)))))
          · exact Or.inl (Or.inr (Or.inr (Or.inr (pushRange_mem.mpr (Or.inr h1)))))
        · exact Or.inr h1
      have hT1 : ∀ n, Todo (.one o) q1 n → C n := by
        intro n hn
        rcases hn with hn | hn
        · have hn : n = o := hn
          subst hn; exact hCo
        · rcases pushRange_mem.mp hn with h1 | h1
          · exact hT n (Or.inl (hrest _ (dropMarked_sub _ h1)))
          · exact hT n (Or.inr h1)
      obtain ⟨s', hs', hp⟩ := ih (weight h (.one o) q1 s1) (by omega) (.one o) q1 s1 fuel (Nat.le_refl _) (by omega) hf hI1 hC hT1
      refine ⟨s', ?_, ?_⟩
      · rw [markLoop, hfirst]; exact hs'
      · refine ⟨?_, hp.eph, ?_, ?_, hp.inv, ?_⟩
        · intro m hm
          apply hp.mono; rw [hs1m]; split
          · rfl
          · exact hm
        · intro m hm
          rcases hp.upper m hm with h1 | h1
          · rw [hs1m] at h1
            by_cases hmo : m = o
            · subst hmo; exact Or.inr hCo
            · rw [if_neg hmo] at h1; exact Or.inl h1
          · exact Or.inr h1
        · intro n hn
          rcases hn with hn | hn
          · rcases hcov n hn with h2 | h2 | h2
            · apply hp.mono; rw [hs1m]; split
              · rfl
              · exact h2
            · exact hp.todo n (Or.inl h2)
            · rcases dropMarked_mem (s := s1) n h2 with h3 | h3
              · exact hp.mono n h3
              · exact hp.todo n (Or.inr (pushRange_mem.mpr (Or.inl h3)))
          · exact hp.todo n (Or.inr (pushRange_mem.mpr (Or.inr hn)))
        · obtain ⟨new, hb, hnd, hne⟩ := hp.buf
          refine ⟨new, hb, hnd, fun e he => ?_⟩
          obtain ⟨h1, h2, h3, h4⟩ := hne e he
          refine ⟨h1, h2, h3, Or.inl ?_⟩
          rcases h4 with h4 | h4
          · rw [hs1m] at h4
            by_cases heo : e = o
            · rw [if_pos heo] at h4; exact absurd h4 (by simp)
            · rw [if_neg heo] at h4; exact h4
          · cases h4; exact hom
  | pop =>
    cases q with
    | nil =>
      refine ⟨s, by rw [markLoop], fun _ h => h, rfl, fun _ h => Or.inl h, ?_, ?_,
        ⟨[], by simp, by simp, by simp⟩⟩
      · rintro n (hn | ⟨l, hl, _⟩)
        · exact absurd hn (by simp)
        · exact absurd hl (by simp)
      · intro m hm hP n hn
        rcases hI m hm (by simpa using hP) n hn with (h1 | h1 | h1) | h1
        · exact Or.inl (Or.inl h1)
        · exact Or.inl (Or.inr (Or.inl h1))
        · rcases h1 with h1 | ⟨l, hl, _⟩
          · exact absurd h1 (by simp)
          · exact absurd hl (by simp)
        · exact Or.inr h1
    | cons l q =>
      have hwt : weight h (.range l) q s < weight h .pop (l :: q) s := by
        simp only [weight, ctlWeight, List.length_cons]; omega
      have hto : ∀ n, Todo .pop (l :: q) n ↔ Todo (.range l) q n := by
        intro n
        simp [Todo]
      have hI1 : Inv h (fun m => P m ∨ Ctl.range l = .one m) V D (Todo (.range l) q) s := by
        intro m hm hP n hn
        rcases hI m hm (by simpa using hP) n hn with (h1 | h1 | h1) | h1
        · exact Or.inl (Or.inl h1)
        · exact Or.inl (Or.inr (Or.inl h1))
        · exact Or.inl (Or.inr (Or.inr ((hto n).mp h1)))
        · exact Or.inr h1
      obtain ⟨s', hs', hp⟩ := ih (weight h (.range l) q s) (by omega) (.range l) q s fuel (Nat.le_refl _) (by omega) hf hI1 hC
        (fun n hn => hT n ((hto n).mpr hn))
      refine ⟨s', ?_, ?_⟩
      · rw [markLoop]; exact hs'
      · refine ⟨hp.mono, hp.eph, hp.upper, fun n hn => hp.todo n ((hto n).mp hn), hp.inv, ?_⟩
        obtain ⟨new, hb, hnd, hne⟩ := hp.buf
        exact ⟨new, hb, hnd, fun e he => by simpa using hne e he⟩

end Verif.GC
