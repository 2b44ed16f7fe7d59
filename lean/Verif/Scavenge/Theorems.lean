import Verif.Scavenge.Whole
import Mathlib.Data.List.Perm.Subperm

/-!
# What a scavenge keeps

The theorems say what a scavenge does as long as no more objects survive than the tenuring queue has
entries (8192 with the default sizes).  The last section shows what happens otherwise, and the other
ways in which the code departs from what is wanted.
-/

namespace Verif.Scavenge

variable {c : Conf} {young : Oop → Bool}

/-- What the invariant says when the scavenge is over. -/
theorem Inv.over {R : Oop → Prop} {s a l} (h : Inv c young R (fun _ => False) s a l [])
    (hq : s.scanAt = s.q.alloc) (hg : s.grey = []) : ∀ o ∈ a ++ l, Done c s o := by
  intro o ho
  rcases h.pend o ho with h1 | ⟨h1, -⟩ | h1 | h1
  · exact h1
  · rw [hq, h.alloc] at h1; simp at h1
  · simp [hg] at h1
  · exact h1.elim

theorem Inv.kept {R : Oop → Prop} {s a l} (h : Inv c young R (fun _ => False) s a l []) {o : Oop}
    (hy : young o) (hf : s.loc o ≠ .fresh) : o ∈ a ++ l := by
  by_contra hm
  have := h.locO o hm
  simp [hy] at this
  exact hf this

/-- A scavenge comes to an end. -/
theorem scavenge_ends (rt : Roots) (stale : Option Oop) (junk : Nat → Oop) (hS : Sound c young)
    (hn : AtMost (Reach c.obj young rt.words) c.qcap) (hf : 3 * c.qcap + 4 ≤ c.fuel) :
    (copyOops c rt (start young stale junk)).isSome := by
  obtain ⟨s, ks, a, l, e, -⟩ := copyOops_spec rt stale junk 0 hS hn hf
  simp [e]

/-- Every young object that can be reached is kept, whatever the last scavenge left in
`scan.current` and in the queue.  Partial: only if at most as many objects survive as the tenuring
queue has entries, and if the classes of ephemerons are old; without this the statement is false, see
`long_list_lost`, `stale_scan_lost` and `ephemeron_class_lost`. -/
theorem nothing_lost_partial (rt : Roots) (stale : Option Oop) (junk : Nat → Oop)
    (hS : Sound c young) (hn : AtMost (Reach c.obj young rt.words) c.qcap)
    (hf : 3 * c.qcap + 4 ≤ c.fuel) {s : St} {ks : List Bool}
    (h : copyOops c rt (start young stale junk) = some (s, ks)) {o : Oop}
    (ho : Reach c.obj young rt.words o) : s.loc o ≠ .fresh := by
  obtain ⟨s', ks', a, l, e, hi, hq, hg, hr, -⟩ := copyOops_spec rt stale junk 0 hS hn hf
  rw [h] at e; cases e
  have hd : ∀ x, young x → s.loc x ≠ .fresh → Done c s x := by
    intro x hy hx
    rcases hi with hi | ⟨hi, -⟩ <;> exact hi.over hq hg x (hi.kept hy hx)
  induction ho with
  | root h1 _ => exact hr _ h1
  | step hp hm hy ih =>
    refine hd _ ?_ ih _ hm
    cases hp <;> assumption

/-- Nothing else is kept: a young object that was copied or tenured can be reached. -/
theorem nothing_extra (rt : Roots) (stale : Option Oop) (junk : Nat → Oop)
    (hS : Sound c young) (hn : AtMost (Reach c.obj young rt.words) c.qcap)
    (hf : 3 * c.qcap + 4 ≤ c.fuel) {s : St} {ks : List Bool}
    (h : copyOops c rt (start young stale junk) = some (s, ks)) {o : Oop} (hy : young o)
    (ho : s.loc o ≠ .fresh) : Reach c.obj young rt.words o := by
  -- an object that is not an ephemeron has no key that could be left out
  obtain ⟨s', ks', a, l, e, hi, -⟩ := copyOops_spec rt stale junk o hS hn hf
  rw [h] at e; cases e
  have hsub : ∀ x, Avoid c.obj young rt.words o x → Reach c.obj young rt.words x := by
    intro x hx
    induction hx with
    | root h1 h2 => exact .root h1 h2
    | step _ _ h1 h2 ih => exact .step ih h1 h2
    | value _ hk h2 h3 ih => exact .step ih (by simp [Obj.holds, hk, List.mem_of_mem_tail h2]) h3
  rcases hi with hi | ⟨hi, -⟩
  · exact hsub o (hi.reach o (by simpa using hi.kept hy ho))
  · exact hi.reach o (by simpa using hi.kept hy ho)

/-- Old objects stay where they are, young ones do not become young again elsewhere: an object is
in the survivor space only if it was young. -/
theorem old_stays (rt : Roots) (stale : Option Oop) (junk : Nat → Oop)
    (hS : Sound c young) (hn : AtMost (Reach c.obj young rt.words) c.qcap)
    (hf : 3 * c.qcap + 4 ≤ c.fuel) {s : St} {ks : List Bool}
    (h : copyOops c rt (start young stale junk) = some (s, ks)) {o : Oop} (hy : young o = false) :
    s.loc o = .old := by
  obtain ⟨s', ks', a, l, e, hi, -⟩ := copyOops_spec rt stale junk 0 hS hn hf
  rw [h] at e; cases e
  have key : ∀ (R : Oop → Prop), (∀ {o}, R o → young o) →
      Inv c young R (fun _ => False) s a l [] → s.loc o = .old := by
    intro R hR hi
    have hm : o ∉ a ++ l := fun hm => by
      have := hR (hi.reach o (by simpa using hm)); simp [hy] at this
    simpa [hy] using hi.locO o hm
  rcases hi with hi | ⟨hi, -⟩
  · exact key _ (fun h => by cases h <;> assumption) hi
  · exact key _ (fun h => by cases h <;> assumption) hi

/-- The survivors lie in the survivor space, and no two of them share a word. -/
theorem survivors_apart (rt : Roots) (stale : Option Oop) (junk : Nat → Oop)
    (hS : Sound c young) (hn : AtMost (Reach c.obj young rt.words) c.qcap)
    (hf : 3 * c.qcap + 4 ≤ c.fuel) {s : St} {ks : List Bool}
    (h : copyOops c rt (start young stale junk) = some (s, ks)) {o p : Oop}
    (ho : s.loc o = .copied) (hp : s.loc p = .copied) :
    s.addr o + (c.obj o).size ≤ c.rcap ∧
      (o ≠ p → Apart (s.addr o) (c.obj o).size (s.addr p) (c.obj p).size) := by
  have hyoung : ∀ x, s.loc x = .copied → young x := by
    intro x hx
    by_contra hy
    have := old_stays rt stale junk hS hn hf h (o := x) (by simpa using hy)
    simp [hx] at this
  obtain ⟨s', ks', a, l, e, hi, -⟩ := copyOops_spec rt stale junk 0 hS hn hf
  rw [h] at e; cases e
  have key : ∀ (R : Oop → Prop), Inv c young R (fun _ => False) s a l [] →
      s.addr o + (c.obj o).size ≤ c.rcap ∧
      (o ≠ p → Apart (s.addr o) (c.obj o).size (s.addr p) (c.obj p).size) := by
    intro R hi
    have hl : ∀ x, s.loc x = .copied → x ∈ l := by
      intro x hx
      have := hi.kept (hyoung x hx) (by simp [hx])
      rcases List.mem_append.1 this with hm | hm
      · have := hi.locA x hm; simp [hx] at this
      · exact hm
    exact ⟨hi.ring.inside (hl o ho), fun hne => hi.ring.apart (hl o ho) (hl p hp) hne⟩
  rcases hi with hi | ⟨hi, -⟩
  · exact key _ hi
  · exact key _ hi

/-- If the survivors fit in the survivor space together, none of them is tenured. -/
theorem tenured_only_for_room (rt : Roots) (stale : Option Oop) (junk : Nat → Oop)
    (hS : Sound c young) (hn : AtMost (Reach c.obj young rt.words) c.qcap)
    (hf : 3 * c.qcap + 4 ≤ c.fuel) {s : St} {ks : List Bool}
    (h : copyOops c rt (start young stale junk) = some (s, ks))
    (hF : FitsIn c.obj (Reach c.obj young rt.words) c.rcap) {o : Oop} (hy : young o) :
    s.loc o ≠ .old := by
  obtain ⟨s', ks', a, l, e, hi, -⟩ := copyOops_spec rt stale junk o hS hn hf
  rw [h] at e; cases e
  intro hold
  have key : ∀ (R : Oop → Prop), Inv c young R (fun _ => False) s a l [] → a = [] → False := by
    intro R hi ha
    subst ha
    have := hi.locL o (by simpa using hi.kept hy (by simp [hold]))
    simp [hold] at this
  rcases hi with hi | ⟨hi, -⟩
  · refine key _ hi (hi.fits ?_).2.2.1
    intro l hl hr
    refine hF l hl fun x hx => ?_
    have := hr x hx
    clear hr hx
    induction this with
    | root h1 h2 => exact .root h1 h2
    | step _ _ h1 h2 ih => exact .step ih h1 h2
    | value _ hk h2 h3 ih => exact .step ih (by simp [Obj.holds, hk, List.mem_of_mem_tail h2]) h3
  · exact key _ hi (hi.fits hF).2.2.1

/-- A page of old space that is dropped from the list of grey pages refers to old objects only; one
that stays on it referred to a young object. -/
theorem pages_remembered (rt : Roots) (stale : Option Oop) (junk : Nat → Oop)
    (hS : Sound c young) (hn : AtMost (Reach c.obj young rt.words) c.qcap)
    (hf : 3 * c.qcap + 4 ≤ c.fuel) {s : St} {ks : List Bool}
    (h : copyOops c rt (start young stale junk) = some (s, ks)) {i : Nat} {p : List (Option Oop)}
    (hp : rt.pages[i]? = some p) :
    ∃ k, ks[i]? = some k ∧ (k = false → ∀ o, some o ∈ p → s.loc o = .old) ∧
      (k = true → ∃ o, some o ∈ p ∧ young o) := by
  obtain ⟨s', ks', a, l, e, hi, -, -, -, -, hl, m1, m2⟩ := copyOops_spec rt stale junk 0 hS hn hf
  rw [h] at e; cases e
  have hlt : i < ks.length := by
    rw [hl]; exact (List.getElem?_eq_some_iff.1 hp).1
  refine ⟨ks[i], List.getElem?_eq_getElem hlt, ?_, ?_⟩
  · intro hk; exact m1 i p hp (by rw [List.getElem?_eq_getElem hlt, hk])
  · intro hk; exact m2 i p hp (by rw [List.getElem?_eq_getElem hlt, hk])

/-- Only ephemerons that can be reached are mourned, and, if the survivors fit in the survivor
space, only when their key cannot be reached except through ephemerons.  Partial: without the
assumption that the survivors fit, the key may be in plain use, see `mourned_in_use`. -/
theorem mourned_only_if_partial (rt : Roots) (stale : Option Oop) (junk : Nat → Oop)
    (hS : Sound c young) (hn : AtMost (Reach c.obj young rt.words) c.qcap)
    (hf : 3 * c.qcap + 4 ≤ c.fuel) {s : St} {ks : List Bool}
    (h : copyOops c rt (start young stale junk) = some (s, ks)) {e : Oop} (he : e ∈ s.mourn) :
    Reach c.obj young rt.words e ∧ (c.obj e).kind = .ephemeron ∧
      ∃ k, (c.obj e).fields.head? = some (some k) ∧ young k ∧
        (FitsIn c.obj (Reach c.obj young rt.words) c.rcap →
          ¬ Strong c.obj young rt.words k) := by
  obtain ⟨s', ks', a, l, e', hi, -, -, -, hm, -⟩ := copyOops_spec rt stale junk 0 hS hn hf
  rw [h] at e'; cases e'
  obtain ⟨h1, h2, k, h3, h4, -, h5⟩ := hm.2 e he
  exact ⟨h1, h2, k, h3, h4, h5⟩

/-- No ephemeron is mourned twice. -/
theorem mourned_once (rt : Roots) (stale : Option Oop) (junk : Nat → Oop)
    (hS : Sound c young) (hn : AtMost (Reach c.obj young rt.words) c.qcap)
    (hf : 3 * c.qcap + 4 ≤ c.fuel) {s : St} {ks : List Bool}
    (h : copyOops c rt (start young stale junk) = some (s, ks)) : s.mourn.Nodup := by
  obtain ⟨s', ks', a, l, e', hi, -, -, -, hm, -⟩ := copyOops_spec rt stale junk 0 hS hn hf
  rw [h] at e'; cases e'
  exact hm.1

/-- An ephemeron that can be reached is mourned when its key is young and cannot be reached but
through the ephemeron's own key field. -/
theorem mourned_if (rt : Roots) (stale : Option Oop) (junk : Nat → Oop)
    (hS : Sound c young) (hn : AtMost (Reach c.obj young rt.words) c.qcap)
    (hf : 3 * c.qcap + 4 ≤ c.fuel) {s : St} {ks : List Bool}
    (h : copyOops c rt (start young stale junk) = some (s, ks)) {e k : Oop}
    (he : Reach c.obj young rt.words e) (hek : (c.obj e).kind = .ephemeron)
    (hk : (c.obj e).fields.head? = some (some k)) (hy : young k)
    (hav : ¬ Avoid c.obj young rt.words e k) : e ∈ s.mourn := by
  have hkept := nothing_lost_partial rt stale junk hS hn hf h he
  obtain ⟨s', ks', a, l, e', hi, hq, hg, -⟩ := copyOops_spec rt stale junk e hS hn hf
  rw [h] at e'; cases e'
  rcases hi with hi | ⟨-, hm⟩
  · exfalso
    have hye : young e := by cases he <;> assumption
    have hd := hi.over hq hg e (hi.kept hye hkept)
    have hkn := hd k (by
      simp [Obj.holds, hek, List.mem_of_mem_head? hk])
    exact hav (hi.reach k (by simpa using hi.kept hy hkn))
  · exact hm

/-! ## A case the theorems are about

Five objects that need 17 words, in a survivor space of 12: a list of two cells and an ephemeron
whose key only it refers to. -/

/-- A table of objects; the others are SmallInteger-like and of no size. -/
def table (l : List Obj) (o : Oop) : Obj := l.getD o ⟨none, [], 2, .plain⟩

def sample : Conf where
  obj := table [⟨none, [], 2, .plain⟩, ⟨some 0, [some 2, some 4], 4, .plain⟩,
    ⟨some 0, [some 1], 3, .plain⟩, ⟨some 0, [some 5, some 2], 4, .ephemeron⟩,
    ⟨some 0, [some 1], 3, .weak⟩, ⟨some 0, [], 3, .plain⟩, ⟨some 0, [], 3, .plain⟩]
  qcap := 6
  rcap := 12
  fuel := 30

def sampleYoung (o : Oop) : Bool := 1 ≤ o && o ≤ 6

def sampleRoots : Roots := ⟨[[none, some 1], [some 0]], [some 3], []⟩

theorem sample_sound : Sound sample sampleYoung := by
  refine ⟨?_, ?_, ?_⟩
  · intro o ho; simp [sampleYoung] at ho
    have : o = 1 ∨ o = 2 ∨ o = 3 ∨ o = 4 ∨ o = 5 ∨ o = 6 := by omega
    rcases this with rfl | rfl | rfl | rfl | rfl | rfl <;> decide
  · intro o ho; simp [sampleYoung] at ho
    have : o = 1 ∨ o = 2 ∨ o = 3 ∨ o = 4 ∨ o = 5 ∨ o = 6 := by omega
    rcases this with rfl | rfl | rfl | rfl | rfl | rfl <;> decide
  · intro o k ho; simp [sampleYoung] at ho
    have : o = 1 ∨ o = 2 ∨ o = 3 ∨ o = 4 ∨ o = 5 ∨ o = 6 := by omega
    rcases this with rfl | rfl | rfl | rfl | rfl | rfl <;> simp [sample, table] <;>
      rintro rfl <;> rfl

theorem atMost_young {P : Oop → Prop} {n : Nat} (h : ∀ o, P o → 1 ≤ o ∧ o ≤ n) : AtMost P n := by
  intro l hl hr
  have : l ⊆ List.range' 1 n := by
    intro x hx; have := h x (hr x hx); simp; omega
  simpa using (List.subperm_of_subset hl this).length_le

theorem sample_count (roots) : AtMost (Reach sample.obj sampleYoung roots) sample.qcap := by
  refine atMost_young fun o ho => ?_
  have : sampleYoung o := by cases ho <;> assumption
  simpa [sampleYoung, sample] using this

/-- The list and the weak object survive, the list is tenured for want of room, the ephemeron
is mourned, the object nobody knows is dropped. -/
example : ((copyOops sample sampleRoots (start sampleYoung (some 2) (fun _ => 6))).map fun x =>
    ((List.range 7).map x.1.loc, x.1.mourn, x.2)) =
    some ([.old, .old, .old, .copied, .copied, .copied, .fresh], [3], [true, false]) := by
  decide +kernel

example : (copyOops sample sampleRoots (start sampleYoung none fun _ => 0)).isSome :=
  scavenge_ends _ _ _ sample_sound (sample_count _) (by decide)

example (s ks) (h : copyOops sample sampleRoots (start sampleYoung none fun _ => 0) = some (s, ks)) :
    s.loc 2 ≠ .fresh :=
  nothing_lost_partial _ _ _ sample_sound (sample_count _) (by decide) h
    (.step (p := 1) (.root (by decide) rfl) (by decide) rfl)

/-- The key of the ephemeron cannot be reached otherwise, so `mourned_if` applies. -/
example (s ks) (h : copyOops sample sampleRoots (start sampleYoung none fun _ => 0) = some (s, ks)) :
    3 ∈ s.mourn := by
  refine mourned_if _ _ _ sample_sound (sample_count _) (by decide) h (k := 5)
    (.root (by decide) rfl) rfl rfl rfl fun hav => ?_
  have key : ∀ o, Avoid sample.obj sampleYoung sampleRoots.words 3 o →
      o = 1 ∨ o = 2 ∨ o = 3 ∨ o = 4 := by
    intro o ho
    induction ho with
    | @root o h1 h2 => simp [sampleRoots, Roots.words] at h1; simp [sampleYoung] at h2; omega
    | @step p o _ hp h1 h2 ih =>
      simp [sampleYoung] at h2
      rcases ih with rfl | rfl | rfl | rfl <;> simp [sample, table, Obj.holds] at h1 hp <;> omega
    | value _ _ h1 h2 _ => simp [sample, table] at h1; omega
  have := key 5 hav
  omega

/-! ## Where the code goes wrong -/

/-- A survivor space of 8 words and a tenuring queue of 4 entries, in the proportion of the default
sizes: a list of nine cells. -/
def longList : Conf where
  obj := table [⟨none, [], 2, .plain⟩, ⟨some 0, [some 2], 3, .plain⟩,
    ⟨some 0, [some 3, some 8], 4, .plain⟩, ⟨some 0, [some 4], 3, .plain⟩,
    ⟨some 0, [some 5, some 1], 4, .plain⟩, ⟨some 0, [some 6, some 2], 4, .plain⟩,
    ⟨some 0, [some 7, some 8], 4, .plain⟩, ⟨some 0, [some 8, some 2], 4, .plain⟩,
    ⟨some 0, [some 9, some 7], 4, .plain⟩, ⟨some 0, [some 6], 3, .plain⟩]
  qcap := 4
  rcap := 8
  fuel := 100

/-- When more objects survive than the tenuring queue has entries, an object in use can be lost.
The scan pointer has reached the top of the queue and has not been wrapped yet; the queue is emptied
and filled once around, so that the pointer is equal to the allocation pointer again, and the scan
stops. -/
theorem long_list_lost :
    Reach longList.obj (fun o => 1 ≤ o && o ≤ 9) [some 7] 1 ∧
    ((copyOops longList ⟨[], [some 7], []⟩
      (start (fun o => 1 ≤ o && o ≤ 9) none (fun _ => 0))).map fun x => x.1.loc 1) =
      some .fresh := by
  refine ⟨?_, by decide +kernel⟩
  have h7 : Reach longList.obj (fun o => 1 ≤ o && o ≤ 9) [some 7] 7 := .root (by simp) rfl
  have h2 := Reach.step (o := 2) h7 (by decide) rfl
  have h3 := Reach.step (o := 3) h2 (by decide) rfl
  have h4 := Reach.step (o := 4) h3 (by decide) rfl
  exact .step h4 (by decide) rfl

/-- A survivor space of 5 words and four objects. -/
def staleScan : Conf where
  obj := table [⟨none, [], 2, .plain⟩, ⟨some 0, [none, some 3, some 2], 5, .plain⟩,
    ⟨some 0, [some 2], 3, .plain⟩, ⟨some 0, [], 2, .plain⟩, ⟨some 0, [some 1, some 1], 4, .plain⟩]
  qcap := 2
  rcap := 5
  fuel := 100

/-- The scavenge starts with the object last scanned by the previous one still noted as being
scanned; if it is tenured before its turn, it is not scanned at all.  Without the stale note the
same objects are all kept. -/
theorem stale_scan_lost :
    Reach staleScan.obj (fun o => 1 ≤ o && o ≤ 4) [some 4] 2 ∧
    ∃ o, ((copyOops staleScan ⟨[], [some 4], []⟩
      (start (fun o => 1 ≤ o && o ≤ 4) (some o) (fun _ => 0))).map fun x => x.1.loc 2) =
      some .fresh ∧
    ((copyOops staleScan ⟨[], [some 4], []⟩
      (start (fun o => 1 ≤ o && o ≤ 4) none (fun _ => 0))).map fun x => x.1.loc 2) ≠
      some .fresh := by
  refine ⟨.step (p := 1) (.step (p := 4) (.root (by simp) rfl) (by decide) rfl) (by decide) rfl,
    4, by decide +kernel, by decide +kernel⟩

/-- The class of an ephemeron is never copied: with everything else as it should be, a young class
that only its ephemeron refers to is lost. -/
theorem ephemeron_class_lost :
    ∃ c : Conf, ∃ s, (∀ o, 0 < (c.obj o).size ∧ (c.obj o).size ≤ c.rcap) ∧
      AtMost (Reach c.obj (fun o => 1 ≤ o && o ≤ 3) [some 1]) c.qcap ∧
      Reach c.obj (fun o => 1 ≤ o && o ≤ 3) [some 1] 2 ∧
      copyOops c ⟨[], [some 1], []⟩ (start (fun o => 1 ≤ o && o ≤ 3) none (fun _ => 0)) =
        some (s, []) ∧ s.loc 1 = .copied ∧ s.loc 2 = .fresh := by
  let c : Conf := ⟨table [⟨none, [], 2, .plain⟩, ⟨some 2, [some 3, none], 4, .ephemeron⟩,
    ⟨some 0, [], 2, .plain⟩, ⟨some 0, [], 2, .plain⟩], 10, 20, 40⟩
  have hsz : ∀ o, (c.obj o).size = 2 ∨ (c.obj o).size = 4 := by
    intro o
    match o with
    | 0 | 1 | 2 | 3 => decide
    | n + 4 => simp [c, table]
  have hrun : ((copyOops c ⟨[], [some 1], []⟩
      (start (fun o => 1 ≤ o && o ≤ 3) none (fun _ => 0))).map fun x => (x.1.loc 1, x.1.loc 2, x.2)) =
      some (.copied, .fresh, []) := by decide +kernel
  obtain ⟨⟨s, ks⟩, e, hs⟩ := Option.map_eq_some_iff.1 hrun
  simp only [Prod.mk.injEq] at hs
  obtain ⟨h1, h2, rfl⟩ := hs
  refine ⟨c, s, ?_, ?_, .step (p := 1) (.root (by simp) rfl) (by decide) rfl, e, h1, h2⟩
  · intro o; have := hsz o; show _ ∧ _ ≤ 20; omega
  · have : AtMost (Reach c.obj (fun o => 1 ≤ o && o ≤ 3) [some 1]) 3 := by
      refine atMost_young fun o ho => ?_
      have : (fun o => decide (1 ≤ o) && decide (o ≤ 3)) o := by cases ho <;> assumption
      simpa using this
    exact fun l hl hr => Nat.le_trans (this l hl hr) (by decide)

/-- When the survivors do not fit in the survivor space, an ephemeron is mourned although its key
is a plain field of a root: the root was tenured before it was scanned, and the ephemeron's turn
comes first. -/
theorem mourned_in_use :
    ∃ c : Conf, ∃ s, Sound c (fun o => 1 ≤ o && o ≤ 4) ∧
      AtMost (Reach c.obj (fun o => 1 ≤ o && o ≤ 4) [some 2, some 3]) c.qcap ∧
      Strong c.obj (fun o => 1 ≤ o && o ≤ 4) [some 2, some 3] 1 ∧
      (c.obj 4).fields.head? = some (some 1) ∧
      copyOops c ⟨[], [some 2, some 3], []⟩ (start (fun o => 1 ≤ o && o ≤ 4) none (fun _ => 0)) =
        some (s, []) ∧ 4 ∈ s.mourn := by
  let c : Conf := ⟨table [⟨none, [], 2, .plain⟩, ⟨some 0, [], 4, .plain⟩,
    ⟨some 0, [some 4, some 1], 4, .plain⟩, ⟨some 0, [], 4, .plain⟩,
    ⟨some 0, [some 1, none], 4, .ephemeron⟩], 4, 10, 40⟩
  have hy : ∀ o, (fun o => decide (1 ≤ o) && decide (o ≤ 4)) o = true →
      o = 1 ∨ o = 2 ∨ o = 3 ∨ o = 4 := by
    intro o ho; simp at ho; omega
  have hrun : ((copyOops c ⟨[], [some 2, some 3], []⟩
      (start (fun o => 1 ≤ o && o ≤ 4) none (fun _ => 0))).map fun x => (x.1.mourn, x.2)) =
      some ([4], []) := by decide +kernel
  obtain ⟨⟨s, ks⟩, e, hs⟩ := Option.map_eq_some_iff.1 hrun
  simp only [Prod.mk.injEq] at hs
  obtain ⟨h1, rfl⟩ := hs
  refine ⟨c, s, ⟨?_, ?_, ?_⟩, ?_, .step (p := 2) (.root (by simp) rfl) (by decide) (by decide) rfl,
    rfl, e, by simp [h1]⟩
  · intro o ho; rcases hy o ho with rfl | rfl | rfl | rfl <;> decide
  · intro o ho; rcases hy o ho with rfl | rfl | rfl | rfl <;> decide
  · intro o k ho; rcases hy o ho with rfl | rfl | rfl | rfl <;> simp [c, table] <;> rintro rfl <;> decide
  · refine atMost_young fun o ho => ?_
    have : (fun o => decide (1 ≤ o) && decide (o ≤ 4)) o := by cases ho <;> assumption
    simpa using this

/-- Which ephemerons are mourned depends on the order of the roots: the key of the first ephemeron
is the value of the second, whose key is in use. -/
theorem mourning_depends_on_order :
    ∃ c : Conf,
      ((copyOops c ⟨[], [some 1, some 2, some 4], []⟩
        (start (fun o => 1 ≤ o && o ≤ 4) none (fun _ => 0))).map fun x => x.1.mourn) = some [1] ∧
      ((copyOops c ⟨[], [some 2, some 1, some 4], []⟩
        (start (fun o => 1 ≤ o && o ≤ 4) none (fun _ => 0))).map fun x => x.1.mourn) = some [] :=
  ⟨⟨table [⟨none, [], 2, .plain⟩, ⟨some 0, [some 3, none], 4, .ephemeron⟩,
    ⟨some 0, [some 4, some 3], 4, .ephemeron⟩, ⟨some 0, [], 2, .plain⟩,
    ⟨some 0, [], 2, .plain⟩], 10, 20, 40⟩, by decide +kernel, by decide +kernel⟩

theorem roomR_stuck (n : Nat) (h : c.rcap < n) :
    ∀ (f : Nat) (s : St), s.r = .empty → roomR c n f s = none := by
  intro f
  induction f with
  | zero => intro s _; rfl
  | succ f ih =>
    intro s hs
    rw [roomR, if_neg (fun hsp => hsp.1 (by rw [hs]; rfl)), if_pos (by rw [hs]; simp [Ring.empty]; omega)]
    exact ih _ (by simp [hs, Ring.wrap, Ring.empty])

/-- A scavenge that has to copy an object larger than the survivor space never ends, however long
it runs. -/
theorem too_large_never_ends (stale : Option Oop) (junk : Nat → Oop) (o : Oop) (hy : young o)
    (hbig : c.rcap < (c.obj o).size) (rest : List (Option Oop)) (procs : List (Option Oop)) :
    copyOops c ⟨[], some o :: rest, procs⟩ (start young stale junk) = none := by
  have hput : ∀ s, (roomQ c c.fuel (start young stale junk)) = some s → s.r = .empty := by
    have : ∀ f (s s' : St), ¬ s.q.split → s.q.alloc = 0 → s.r = .empty → roomQ c f s = some s' →
        s'.r = .empty := by
      intro f
      induction f with
      | zero => intro s s' _ _ _ h; cases h
      | succ f ih =>
        intro s s' h1 h2 h3 h
        rw [roomQ, if_neg (fun h => h1 h.1)] at h
        split at h
        · refine ih { s with q := s.q.wrap } s' ?_ rfl h3 h
          show ¬ (_ ≠ _); simp [Ring.wrap, h2]
        · cases h; exact h3
    exact fun s hs => this _ _ s (fun h => h rfl) rfl rfl hs
  have hcopy : ∀ f, copyAn c f o (start young stale junk) = none := by
    intro f
    cases f with
    | zero => rfl
    | succ f =>
      rw [copyAn, putQ]
      cases hr : roomQ c c.fuel (start young stale junk) with
      | none => rfl
      | some s => 
        have : roomR c (c.obj o).size c.fuel { s with
            qmem := fun a => if a = s.q.alloc then o else s.qmem a
            q := s.q.bump 1 } = none := roomR_stuck _ hbig _ _ (hput s hr)
        simp only [putR, this]
  have : (start young stale junk).loc o = .fresh := by simp [start, hy]
  simp [copyOops, scanPages, copyAndScan, copyRange, maybeCopy, this, hcopy]

example : copyOops ⟨fun _ => ⟨none, [], 9, .plain⟩, 4, 8, 1000⟩ ⟨[], [some 1], []⟩
    (start (fun o => o == 1) none fun _ => 0) = none :=
  too_large_never_ends none _ 1 rfl (by decide) [] []

end Verif.Scavenge
