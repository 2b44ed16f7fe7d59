import Verif.Sched.Spec
import Mathlib.Data.Fintype.Card
import Mathlib.Data.List.Basic
import Mathlib.Data.Fintype.Basic

/-!
# The pointer code refines the list specification
-/

namespace Verif.Sched

variable {n : Nat}

/-- `xs` is linked by `f`, the last link being `e`. -/
def Seg (f : Fin n → Option (Fin n)) : List (Fin n) → Option (Fin n) → Prop
  | [], _ => True
  | p :: ys, e => f p = ys.head?.or e ∧ Seg f ys e

theorem seg_append (f : Fin n → Option (Fin n)) (xs ys : List (Fin n)) (e : Option (Fin n)) :
    Seg f (xs ++ ys) e ↔ Seg f xs (ys.head?.or e) ∧ Seg f ys e := by
  induction xs with
  | nil => simp [Seg]
  | cons x xs ih =>
    simp only [List.cons_append, Seg, ih]
    cases xs with
    | nil => simp only [List.nil_append, List.head?_nil, Option.none_or]; tauto
    | cons z zs => simp only [List.cons_append, List.head?_cons, Option.some_or]; tauto

theorem seg_congr {f g : Fin n → Option (Fin n)} {xs : List (Fin n)} {e : Option (Fin n)}
    (h : ∀ x ∈ xs, f x = g x) (hs : Seg f xs e) : Seg g xs e := by
  induction xs with
  | nil => trivial
  | cons x xs ih =>
    refine ⟨?_, ih (fun y hy => h y (by simp [hy])) hs.2⟩
    rw [← h x (by simp)]; exact hs.1

structure Rep (s : VM n) (a : Abs n) : Prop where
  first : ∀ l, (s.list l).first = (a.q l).head?
  last : ∀ l, (s.list l).last = (a.q l).getLast?
  link : ∀ l, Seg (fun p => (s.proc p).next) (a.q l) none
  mem : ∀ l p, (s.proc p).myList = some l ↔ p ∈ a.q l
  nodup : ∀ l, (a.q l).Nodup
  free : ∀ p, (s.proc p).myList = none → (s.proc p).next = none
  prio : ∀ p, (s.proc p).prio = a.prio p
  live : ∀ p, (s.proc p).live = a.live p
  signals : ∀ l, (s.list l).signals = a.signals l
  scheduled : s.scheduled = a.scheduled
  switchTo : s.switchTo = a.switchTo
  idle : s.idle = a.idle

namespace Rep

variable {s : VM n} {a : Abs n}

theorem one (r : Rep s a) {l m : Lid} {p : Fin n} (h1 : p ∈ a.q l) (h2 : p ∈ a.q m) : l = m := by
  have h1 := (r.mem l p).mpr h1
  have h2 := (r.mem m p).mpr h2
  rw [h1] at h2; exact Option.some.inj h2

theorem length_le (r : Rep s a) (l : Lid) : (a.q l).length ≤ n := by
  simpa using (r.nodup l).length_le_card

theorem active (r : Rep s a) : s.active = a.active := by
  unfold VM.active Abs.active
  rw [r.switchTo, r.scheduled]
  rfl

end Rep

/-- The predecessor search. -/
theorem findPrev_spec (s : VM n) (p prev : Fin n) (ys : List (Fin n)) :
    ∀ (xs : List (Fin n)) (f : Fin n) (fuel : Nat),
      Seg (fun p => (s.proc p).next) (xs ++ prev :: p :: ys) none →
      (xs ++ [prev]).head? = some f → p ∉ xs ++ [prev] → xs.length < fuel →
      findPrev s p fuel f = some prev := by
  intro xs
  induction xs with
  | nil =>
    intro f fuel hs hf hp hl
    cases fuel with
    | zero => omega
    | succ fuel =>
      simp at hf
      subst hf
      have hn : (s.proc prev).next = some p := by simpa [Seg] using hs.1
      unfold findPrev
      rw [hn]
      simp
  | cons x xs ih =>
    intro f fuel hs hf hp hl
    cases fuel with
    | zero => omega
    | succ fuel =>
      simp at hf
      subst hf
      have hn := hs.1
      cases xs with
      | nil =>
        have hn : (s.proc x).next = some prev := by simpa using hn
        unfold findPrev
        rw [hn]
        have : prev ≠ p := by rintro rfl; simp at hp
        simp only [this, if_false]
        exact ih prev fuel hs.2 (by simp) (by intro hm; exact hp (by simp at hm ⊢; right; exact hm)) (by simp at hl ⊢; omega)
      | cons z zs =>
        have hn : (s.proc x).next = some z := by simpa using hn
        unfold findPrev
        rw [hn]
        have : z ≠ p := by rintro rfl; simp at hp
        simp only [this, if_false]
        exact ih z fuel hs.2 (by simp) (by intro hm; exact hp (by simp at hm ⊢; right; exact hm))
          (by simp at hl ⊢; omega)

theorem filter_ne_of_not_mem {p : Fin n} {xs : List (Fin n)} (h : p ∉ xs) :
    xs.filter (· ≠ p) = xs := by
  rw [List.filter_eq_self]
  intro x hx
  simp only [decide_eq_true_eq]
  rintro rfl; exact h hx

theorem filter_split {p : Fin n} {xs ys : List (Fin n)} (h : (xs ++ p :: ys).Nodup) :
    (xs ++ p :: ys).filter (· ≠ p) = xs ++ ys := by
  have hx : p ∉ xs := by
    intro hm
    rw [List.nodup_append] at h
    exact h.2.2 p hm p (by simp) rfl
  have hy : p ∉ ys := by
    rw [List.nodup_append] at h
    exact (List.nodup_cons.mp h.2.1).1
  rw [List.filter_append, List.filter_cons]
  simp only [ne_eq, not_true_eq_false, decide_false, Bool.false_eq_true, if_false]
  rw [filter_ne_of_not_mem hx, filter_ne_of_not_mem hy]

/-- What `unlink` achieves. -/
theorem unlink_spec {s : VM n} {a : Abs n} (r : Rep s a) {l : Lid} {p : Fin n}
    (hm : p ∈ a.q l) :
    ∃ s', unlink s l p = some s' ∧
      (∀ m, (s'.list m).first = ((a.remove p).q m).head?) ∧
      (∀ m, (s'.list m).last = ((a.remove p).q m).getLast?) ∧
      (∀ m, Seg (fun p => (s'.proc p).next) ((a.remove p).q m) none) ∧
      (∀ x, (s'.proc x).myList = (s.proc x).myList) ∧
      (∀ x, (s'.proc x).myList = none → (s'.proc x).next = none) ∧
      (∀ x, (s'.proc x).prio = (s.proc x).prio) ∧ (∀ x, (s'.proc x).live = (s.proc x).live) ∧
      (∀ m, (s'.list m).signals = (s.list m).signals) ∧ s'.scheduled = s.scheduled ∧
      s'.switchTo = s.switchTo ∧ s'.idle = s.idle := by
  obtain ⟨xs, ys, hsplit⟩ := List.append_of_mem hm
  have hnd := r.nodup l
  have hlink := r.link l
  rw [hsplit] at hnd hlink
  have hq : (a.remove p).q l = xs ++ ys := by
    show (a.q l).filter _ = _
    rw [hsplit]; exact filter_split hnd
  have hother : ∀ m, m ≠ l → (a.remove p).q m = a.q m := by
    intro m hml
    exact filter_ne_of_not_mem (fun hc => hml (r.one hc hm))
  have hpnext : (s.proc p).next = ys.head? := by
    rw [seg_append] at hlink
    simpa using hlink.2.1
  rcases List.eq_nil_or_concat xs with rfl | ⟨xs', prev, rfl⟩
  · simp only [List.nil_append] at hsplit hq hlink hnd
    have hf : (s.list l).first = some p := by rw [r.first, hsplit]; rfl
    refine ⟨s.setList l fun L => { L with first := (s.proc p).next, last := if L.last = some p then none else L.last },
      by unfold unlink; rw [if_pos hf], fun m => ?_, fun m => ?_, fun m => ?_,
      fun x => rfl, r.free, fun x => rfl, fun x => rfl, fun m => ?_, rfl, rfl, rfl⟩
    · simp only [VM.setList]
      split
      · rename_i h; subst h; rw [hq]; exact hpnext
      · rename_i h; rw [hother m h]; exact r.first m
    · simp only [VM.setList]
      split
      · rename_i h; subst h; rw [hq]
        have hl := r.last m
        rw [hsplit] at hl
        cases ys with
        | nil => simp at hl; simp [hl]
        | cons y ys =>
          rw [List.getLast?_cons_cons] at hl
          rw [if_neg]
          · exact hl
          · rw [hl]
            intro hc
            exact (List.nodup_cons.mp hnd).1 (List.mem_of_getLast? hc)
      · rename_i h; rw [hother m h]; exact r.last m
    · by_cases h : m = l
      · subst h; rw [hq]; exact hlink.2
      · rw [hother m h]; exact r.link m
    · simp only [VM.setList]; split <;> rfl
  · rw [List.concat_eq_append] at hsplit hq hnd hlink
    rw [List.append_assoc, List.singleton_append] at hnd hlink
    have hsplit' : a.q l = xs' ++ prev :: p :: ys := by rw [hsplit]; simp
    have hq' : (a.remove p).q l = xs' ++ prev :: ys := by rw [hq]; simp
    have hpx : p ∉ xs' ++ [prev] := by
      intro hm
      have := r.nodup l
      rw [hsplit, List.nodup_append] at this
      exact this.2.2 p hm p (by simp) rfl
    have hpp : p ≠ prev := by rintro rfl; simp at hpx
    have hf : ¬ (s.list l).first = some p := by
      rw [r.first, hsplit']
      cases xs' with
      | nil => simp; exact fun h => hpp h.symm
      | cons x xs' => simp; rintro rfl; simp at hpx
    obtain ⟨f, hff⟩ : ∃ f, (xs' ++ [prev]).head? = some f := by
      cases xs' with
      | nil => exact ⟨prev, rfl⟩
      | cons x xs' => exact ⟨x, rfl⟩
    have hff' : (s.list l).first = some f := by
      rw [r.first, hsplit', ← hff]
      cases xs' <;> rfl
    have hlen := r.length_le l
    rw [hsplit'] at hlen
    have hprev : findPrev s p n f = some prev :=
      findPrev_spec s p prev ys xs' f n hlink hff hpx (by simp at hlen; omega)
    have hprevmem : prev ∈ a.q l := by rw [hsplit']; simp
    have hlast : (s.list l).last = (prev :: p :: ys).getLast? := by
      rw [r.last, hsplit', List.getLast?_append_of_ne_nil _ (by simp)]
    have hun : unlink s l p = some (if (s.list l).last = some p then
        (s.setProc prev fun P => { P with next := (s.proc p).next }).setList l
          fun L => { L with last := some prev }
        else s.setProc prev fun P => { P with next := (s.proc p).next }) := by
      unfold unlink; rw [if_neg hf, hff']
      simp only [Option.bind_eq_bind, Option.bind_some, hprev]
    refine ⟨_, hun, ?_⟩
    have hbase : ∀ (s' : VM n) , (∀ m, (s'.list m).first = (s.list m).first) →
        (∀ m, m ≠ l → (s'.list m).last = (s.list m).last) →
        (s'.list l).last = (prev :: ys).getLast? →
        (∀ x, s'.proc x = if x = prev then { s.proc x with next := (s.proc p).next } else s.proc x) →
        (∀ m, (s'.list m).signals = (s.list m).signals) → s'.scheduled = s.scheduled →
        s'.switchTo = s.switchTo → s'.idle = s.idle →
      (∀ m, (s'.list m).first = ((a.remove p).q m).head?) ∧
      (∀ m, (s'.list m).last = ((a.remove p).q m).getLast?) ∧
      (∀ m, Seg (fun p => (s'.proc p).next) ((a.remove p).q m) none) ∧
      (∀ x, (s'.proc x).myList = (s.proc x).myList) ∧
      (∀ x, (s'.proc x).myList = none → (s'.proc x).next = none) ∧
      (∀ x, (s'.proc x).prio = (s.proc x).prio) ∧ (∀ x, (s'.proc x).live = (s.proc x).live) ∧
      (∀ m, (s'.list m).signals = (s.list m).signals) ∧ s'.scheduled = s.scheduled ∧
      s'.switchTo = s.switchTo ∧ s'.idle = s.idle := by
      intro s' c1 c2 c3 c4 c5 c6 c7 c8
      refine ⟨fun m => ?_, fun m => ?_, fun m => ?_, fun x => ?_, fun x => ?_, fun x => ?_,
        fun x => ?_, c5, c6, c7, c8⟩
      · rw [c1, r.first]
        by_cases h : m = l
        · subst h
          rw [hq', hsplit']
          cases xs' <;> rfl
        · rw [hother m h]
      · by_cases h : m = l
        · subst h
          rw [c3, hq', List.getLast?_append_of_ne_nil _ (by simp)]
        · rw [c2 m h, hother m h, r.last]
      · by_cases h : m = l
        · subst h
          rw [hq']
          rw [seg_append] at hlink ⊢
          have hnd' : (xs' ++ prev :: p :: ys).Nodup := by rw [← hsplit']; exact r.nodup m
          rw [List.nodup_append] at hnd'
          refine ⟨?_, ?_, ?_⟩
          · refine seg_congr (f := fun p => (s.proc p).next) (fun x hx => ?_) (by simpa using hlink.1)
            rw [c4, if_neg]
            rintro rfl
            exact hnd'.2.2 x hx x (by simp) rfl
          · show (s'.proc prev).next = _
            rw [c4, if_pos rfl]
            simpa using hpnext
          · refine seg_congr (f := fun p => (s.proc p).next) (fun x hx => ?_) hlink.2.2.2
            rw [c4, if_neg]
            rintro rfl
            have := (List.nodup_cons.mp hnd'.2.1).1
            exact this (by simp [hx])
        · rw [hother m h]
          refine seg_congr (f := fun p => (s.proc p).next) (fun x hx => ?_) (r.link m)
          rw [c4, if_neg]
          rintro rfl
          exact h (r.one hx hprevmem)
      · rw [c4]; split <;> rfl
      · rw [c4]
        split
        · rename_i h; subst h
          intro hn
          have := (r.mem l x).mpr hprevmem
          simp only at hn
          rw [this] at hn; cases hn
        · exact r.free x
      · rw [c4]; split <;> rfl
      · rw [c4]; split <;> rfl
    split
    · rename_i hlp
      refine hbase _ (fun m => ?_) (fun m hml => ?_) ?_ (fun x => ?_) (fun m => ?_) rfl rfl rfl
      · simp only [VM.setList, VM.setProc]; split <;> rfl
      · simp only [VM.setList, VM.setProc]; rw [if_neg hml]
      · simp only [VM.setList, VM.setProc, if_true]
        rw [hlast] at hlp
        cases ys with
        | nil => rfl
        | cons y ys =>
          exfalso
          rw [List.getLast?_cons_cons, List.getLast?_cons_cons] at hlp
          have hnd' : (xs' ++ prev :: p :: y :: ys).Nodup := by rw [← hsplit']; exact r.nodup l
          rw [List.nodup_append] at hnd'
          have h2 := (List.nodup_cons.mp (List.nodup_cons.mp hnd'.2.1).2).1
          exact h2 (List.mem_of_getLast? hlp)
      · simp only [VM.setList, VM.setProc]
      · simp only [VM.setList, VM.setProc]; split <;> rfl
    · rename_i hlp
      refine hbase _ (fun m => ?_) (fun m hml => ?_) ?_ (fun x => ?_) (fun m => ?_) rfl rfl rfl
      · rfl
      · rfl
      · simp only [VM.setProc]
        rw [hlast] at hlp ⊢
        cases ys with
        | nil => simp at hlp
        | cons y ys => rw [List.getLast?_cons_cons, List.getLast?_cons_cons, List.getLast?_cons_cons]
      · rfl
      · rfl

theorem Rep.remove {s : VM n} {a : Abs n} (r : Rep s a) (p : Fin n) :
    ∃ s', removeProcess s p = some s' ∧ Rep s' (a.remove p) ∧ (s'.proc p).myList = none := by
  unfold removeProcess
  cases hl : (s.proc p).myList with
  | none =>
    have hnot : ∀ l, p ∉ a.q l := fun l hc => by
      have := (r.mem l p).mpr hc; rw [hl] at this; cases this
    have hsame : ∀ l, (a.remove p).q l = a.q l := fun l => filter_ne_of_not_mem (hnot l)
    have hproc : ∀ x, ((s.setProc p fun P => { P with next := none }).proc x) = s.proc x := by
      intro x
      simp only [VM.setProc]
      split
      · rename_i h; subst h
        have := r.free x hl
        cases hp : s.proc x
        rw [hp] at this; simp only at this; rw [this]
      · rfl
    refine ⟨_, rfl, ⟨fun l => ?_, fun l => ?_, fun l => ?_, fun l x => ?_, fun l => ?_, fun x => ?_,
      fun x => ?_, fun x => ?_, fun l => ?_, r.scheduled, r.switchTo, r.idle⟩, ?_⟩
    · rw [hsame]; exact r.first l
    · rw [hsame]; exact r.last l
    · rw [hsame]
      exact seg_congr (fun x _ => by rw [hproc]) (r.link l)
    · rw [hsame, hproc]; exact r.mem l x
    · rw [hsame]; exact r.nodup l
    · rw [hproc]; exact r.free x
    · rw [hproc]; exact r.prio x
    · rw [hproc]; exact r.live x
    · exact r.signals l
    · rw [hproc]; exact hl
  | some l =>
    have hm := (r.mem l p).mp hl
    obtain ⟨s', u0, u1, u2, u3, u4, u5, u6, u7, u8, u9, u10, u11⟩ := unlink_spec r hm
    simp only [u0, Option.map_some, Option.bind_eq_bind, Option.bind_some]
    refine ⟨_, rfl, ⟨fun m => ?_, fun m => ?_, fun m => ?_, fun m x => ?_, fun m => ?_, fun x => ?_,
      fun x => ?_, fun x => ?_, fun m => ?_, u9.trans r.scheduled, u10.trans r.switchTo,
      u11.trans r.idle⟩, ?_⟩
    · exact u1 m
    · exact u2 m
    · refine seg_congr (fun x hx => ?_) (u3 m)
      have : x ≠ p := by
        rintro rfl
        simp [Abs.remove] at hx
      simp only [VM.setProc, this, if_false]
    · simp only [VM.setProc, Abs.remove]
      rw [List.mem_filter]
      by_cases h : x = p
      · subst h; simp
      · simp only [h, if_false, u4, r.mem, ne_eq, not_false_eq_true, decide_true, and_true]
    · exact (r.nodup m).filter _
    · simp only [VM.setProc]
      by_cases h : x = p
      · subst h; simp
      · simp only [h, if_false]; exact u5 x
    · simp only [VM.setProc]
      refine Eq.trans ?_ ((u6 x).trans (r.prio x))
      split <;> rfl
    · simp only [VM.setProc]
      refine Eq.trans ?_ ((u7 x).trans (r.live x))
      split <;> rfl
    · show (s'.list m).signals = _
      rw [u8]; exact r.signals m
    · simp [VM.setProc]

theorem Rep.addFirst {s : VM n} {a : Abs n} (r : Rep s a) (l : Lid) (p : Fin n) :
    ∃ s', Sched.addFirst s l p = some s' ∧ Rep s' (a.addFirst l p) := by
  obtain ⟨s1, e1, r1, hp⟩ := r.remove p
  unfold Sched.addFirst
  simp only [e1, Option.bind_eq_bind, Option.bind_some]
  have hnot : ∀ m, p ∉ (a.remove p).q m := fun m hc => by simp [Abs.remove] at hc
  have hns : ∀ m x, x ∈ (a.remove p).q m → x ≠ p := fun m x hx h => hnot m (h ▸ hx)
  refine ⟨_, rfl, ⟨fun m => ?_, fun m => ?_, fun m => ?_, fun m x => ?_, fun m => ?_, fun x => ?_,
      fun x => ?_, fun x => ?_, fun m => ?_, r1.scheduled, r1.switchTo, r1.idle⟩⟩
  · simp only [VM.setList, VM.setProc, Abs.addFirst, Abs.set]
    split
    · rfl
    · exact r1.first m
  · simp only [VM.setList, VM.setProc, Abs.addFirst, Abs.set]
    split
    · rename_i h; subst h
      have := r1.last m
      cases hq : (a.remove p).q m with
      | nil => rw [hq] at this; simp at this; simp [this]
      | cons y ys =>
        rw [hq] at this
        rw [if_neg]
        · rw [List.getLast?_cons_cons]; exact this
        · rw [this]; simp
    · exact r1.last m
  · simp only [VM.setList, Abs.addFirst, Abs.set]
    have hseg : ∀ m, Seg (fun x => ((s1.setProc p fun P =>
        { P with myList := some l, next := (s1.list l).first }).proc x).next)
        ((a.remove p).q m) none := fun m =>
      seg_congr (fun x hx => by simp only [VM.setProc, hns m x hx, if_false]) (r1.link m)
    split
    · rename_i h; subst h
      refine ⟨?_, hseg m⟩
      simp only [VM.setProc, if_true, r1.first, Option.or_none]
    · exact hseg m
  · simp only [VM.setList, VM.setProc, Abs.addFirst, Abs.set]
    by_cases hx : x = p
    · subst hx
      simp only [if_true, Option.some.injEq]
      split
      · rename_i h; simp [h]
      · rename_i h
        exact ⟨fun e => absurd e.symm h, fun hc => absurd hc (hnot m)⟩
    · simp only [hx, if_false, r1.mem]
      split
      · rename_i h; subst h; simp [hx]
      · rfl
  · simp only [Abs.addFirst, Abs.set]
    split
    · rename_i h; subst h
      exact List.nodup_cons.mpr ⟨hnot m, r1.nodup m⟩
    · exact r1.nodup m
  · simp only [VM.setList, VM.setProc]
    split
    · intro h; cases h
    · exact r1.free x
  · simp only [VM.setList, VM.setProc]
    refine Eq.trans ?_ (r1.prio x)
    split <;> rfl
  · simp only [VM.setList, VM.setProc]
    refine Eq.trans ?_ (r1.live x)
    split <;> rfl
  · simp only [VM.setList, VM.setProc]
    refine Eq.trans ?_ (r1.signals m)
    split <;> rfl

theorem Rep.addLast {s : VM n} {a : Abs n} (r : Rep s a) (l : Lid) (p : Fin n) :
    ∃ s', Sched.addLast s l p = some s' ∧ Rep s' (a.addLast l p) := by
  obtain ⟨s1, e1, r1, hp⟩ := r.remove p
  unfold Sched.addLast
  simp only [e1, Option.bind_eq_bind, Option.bind_some]
  have hnot : ∀ m, p ∉ (a.remove p).q m := fun m hc => by simp [Abs.remove] at hc
  have hns : ∀ m x, x ∈ (a.remove p).q m → x ≠ p := fun m x hx h => hnot m (h ▸ hx)
  have hlast := r1.last l
  have hbase : ∀ s' : VM n,
      (∀ m, (s'.list m).first = if m = l then ((a.remove p).q l ++ [p]).head? else (s1.list m).first) →
      (∀ m, (s'.list m).last = if m = l then some p else (s1.list m).last) →
      (∀ m, (s'.list m).signals = (s1.list m).signals) →
      (∀ x, (s'.proc x).myList = if x = p then some l else (s1.proc x).myList) →
      (∀ x, (s'.proc x).next = if x = p then none
        else if (a.remove p |>.q l).getLast? = some x then some p else (s1.proc x).next) →
      (∀ x, (s'.proc x).prio = (s1.proc x).prio) → (∀ x, (s'.proc x).live = (s1.proc x).live) →
      s'.scheduled = s1.scheduled → s'.switchTo = s1.switchTo → s'.idle = s1.idle →
      Rep s' (a.addLast l p) := by
    intro s' c1 c2 c3 c4 c5 c6 c7 c8 c9 c10
    refine ⟨fun m => ?_, fun m => ?_, fun m => ?_, fun m x => ?_, fun m => ?_, fun x => ?_,
      fun x => (c6 x).trans (r1.prio x), fun x => (c7 x).trans (r1.live x),
      fun m => (c3 m).trans (r1.signals m), c8.trans r1.scheduled, c9.trans r1.switchTo,
      c10.trans r1.idle⟩
    · simp only [c1, Abs.addLast, Abs.set]
      split
      · rfl
      · exact r1.first m
    · simp only [c2, Abs.addLast, Abs.set]
      split
      · simp
      · exact r1.last m
    · simp only [Abs.addLast, Abs.set]
      split
      · rename_i h; subst h
        rcases List.eq_nil_or_concat ((a.remove p).q m) with hq | ⟨xs, y, hq⟩
        · rw [hq]
          simp [Seg, c5]
        · rw [List.concat_eq_append] at hq
          have hnd := r1.nodup m
          have hlk := r1.link m
          rw [hq] at hlk hnd
          rw [hq, List.append_assoc, seg_append]
          rw [seg_append] at hlk
          have hyp : y ≠ p := hns m y (by rw [hq]; simp)
          have hy : (s'.proc y).next = some p := by
            rw [c5, if_neg hyp, if_pos (by rw [hq]; simp)]
          refine ⟨?_, by simp [Seg, hy, c5 p]⟩
          refine seg_congr (fun x hx => ?_) (by simpa using hlk.1)
          rw [c5, if_neg (hns m x (by rw [hq]; simp [hx])), if_neg]
          rw [hq]
          simp only [List.getLast?_append, List.getLast?_singleton, Option.some_or,
            Option.some.injEq]
          rintro rfl
          rw [List.nodup_append] at hnd
          exact hnd.2.2 y hx y (by simp) rfl
      · rename_i hml
        refine seg_congr (fun x hx => ?_) (r1.link m)
        rw [c5, if_neg (hns m x hx), if_neg]
        intro hc
        exact hml (r1.one hx (List.mem_of_getLast? hc))
    · simp only [c4, Abs.addLast, Abs.set]
      by_cases hx : x = p
      · subst hx
        simp only [if_true, Option.some.injEq]
        split
        · rename_i h; simp [h]
        · rename_i h
          exact ⟨fun e => absurd e.symm h, fun hc => absurd hc (hnot m)⟩
      · simp only [hx, if_false, r1.mem]
        split
        · rename_i h; subst h; simp [hx]
        · rfl
    · simp only [Abs.addLast, Abs.set]
      split
      · rename_i h; subst h
        rw [List.nodup_append]
        refine ⟨r1.nodup m, by simp, ?_⟩
        intro x hx y hy
        simp at hy
        subst hy
        exact hns m x hx
      · exact r1.nodup m
    · rw [c4, c5]
      split
      · intro h; cases h
      · intro hn
        rw [if_neg]
        · exact r1.free x hn
        · intro hc
          have := (r1.mem l x).mpr (List.mem_of_getLast? hc)
          rw [hn] at this; cases this
  cases hl : (s1.list l).last with
  | none =>
    have hq : (a.remove p).q l = [] := by
      rw [hlast] at hl; exact List.getLast?_eq_none_iff.mp hl
    have hl' : ((s1.setProc p fun P => { P with myList := some l, next := none }).list l).last = none := hl
    simp only [hl']
    refine ⟨_, rfl, hbase _ (fun m => ?_) (fun m => ?_) (fun m => ?_) (fun x => ?_) (fun x => ?_)
      (fun x => ?_) (fun x => ?_) rfl rfl rfl⟩
    · simp only [VM.setList, VM.setProc, hq]; split <;> rfl
    · simp only [VM.setList, VM.setProc]; split <;> rfl
    · simp only [VM.setList, VM.setProc]; split <;> rfl
    · simp only [VM.setList, VM.setProc]; split <;> rfl
    · simp only [VM.setList, VM.setProc, hq]; split <;> simp
    · simp only [VM.setList, VM.setProc]; split <;> rfl
    · simp only [VM.setList, VM.setProc]; split <;> rfl
  | some y =>
    have hl' : ((s1.setProc p fun P => { P with myList := some l, next := none }).list l).last = some y := hl
    simp only [hl']
    have hy : ((a.remove p).q l).getLast? = some y := by rw [← hlast]; exact hl
    have hyp : y ≠ p := hns l y (List.mem_of_getLast? hy)
    have hne : (a.remove p).q l ≠ [] := by rintro h; rw [h] at hy; cases hy
    refine ⟨_, rfl, hbase _ (fun m => ?_) (fun m => ?_) (fun m => ?_) (fun x => ?_) (fun x => ?_)
      (fun x => ?_) (fun x => ?_) rfl rfl rfl⟩
    · simp only [VM.setList, VM.setProc]
      split
      · rename_i h; subst h
        rw [r1.first]
        cases hq : (a.remove p).q m with
        | nil => exact absurd hq hne
        | cons z zs => rfl
      · rfl
    · simp only [VM.setList, VM.setProc]; split <;> rfl
    · simp only [VM.setList, VM.setProc]; split <;> rfl
    · simp only [VM.setList, VM.setProc]
      by_cases hx : x = p
      · subst hx
        simp [hyp.symm]
      · simp only [hx, if_false]; split <;> rfl
    · simp only [VM.setList, VM.setProc, hy, Option.some.injEq]
      by_cases hx : x = p
      · subst hx
        simp [hyp.symm]
      · simp only [hx, if_false]
        by_cases hxy : x = y
        · subst hxy; simp
        · simp only [hxy, if_false]; rw [if_neg (fun e => hxy e.symm)]
    · simp only [VM.setList, VM.setProc]; split <;> (try split) <;> rfl
    · simp only [VM.setList, VM.setProc]; split <;> (try split) <;> rfl

theorem Rep.removeFirst {s : VM n} {a : Abs n} (r : Rep s a) {l : Lid} {p : Fin n}
    {ps : List (Fin n)} (hq : a.q l = p :: ps) :
    ∃ s', Sched.removeFirst s l = some (p, s') ∧ Rep s' (a.set l ps) ∧
      (s'.proc p).myList = none := by
  unfold Sched.removeFirst
  have hf : (s.list l).first = some p := by rw [r.first, hq]; rfl
  have hnd := r.nodup l
  have hlk := r.link l
  have hla := r.last l
  rw [hq] at hnd hlk hla
  have hpn : (s.proc p).next = ps.head? := by simpa using hlk.1
  have hp := (List.nodup_cons.mp hnd).1
  have hpm : p ∈ a.q l := by rw [hq]; simp
  simp only [hf, Option.bind_eq_bind, Option.bind_some]
  have hns : ∀ m, ∀ x ∈ (a.set l ps).q m, x ≠ p := by
    intro m x hx
    rintro rfl
    simp only [Abs.set] at hx
    split at hx
    · exact hp hx
    · rename_i h; exact h (r.one hx hpm)
  refine ⟨_, rfl, ⟨fun m => ?_, fun m => ?_, fun m => ?_, fun m x => ?_, fun m => ?_, fun x => ?_,
      fun x => ?_, fun x => ?_, fun m => ?_, r.scheduled, r.switchTo, r.idle⟩, by simp [VM.setProc]⟩
  · simp only [VM.setList, VM.setProc, Abs.set]
    split
    · exact hpn
    · exact r.first m
  · simp only [VM.setList, VM.setProc, Abs.set, hpn]
    split
    · rename_i h; subst h
      cases ps with
      | nil => rfl
      | cons y ys => rw [if_neg (by simp), hla, List.getLast?_cons_cons]
    · exact r.last m
  · have hseg : ∀ xs, (∀ x ∈ xs, x ≠ p) → Seg (fun x => (s.proc x).next) xs none → _ := fun xs hx hs =>
      seg_congr (g := fun x => (((s.setList l fun L => { L with first := (s.proc p).next, last := if (s.proc p).next = none then none else L.last }).setProc p fun P =>
        { P with myList := none, next := none }).proc x).next) (fun x hm => by simp only [VM.setProc, VM.setList, hx x hm, if_false]) hs
    refine hseg _ (hns m) ?_
    simp only [Abs.set]
    split
    · exact hlk.2
    · exact r.link m
  · by_cases hx : x = p
    · subst hx
      simp only [VM.setProc, if_true]
      constructor
      · intro h; cases h
      · intro h; exact absurd rfl (hns m x h)
    · simp only [VM.setProc, VM.setList, hx, if_false, r.mem, Abs.set]
      split
      · rename_i h; subst h; rw [hq]; simp [hx]
      · rfl
  · simp only [Abs.set]
    split
    · exact (List.nodup_cons.mp hnd).2
    · exact r.nodup m
  · simp only [VM.setProc, VM.setList]
    split
    · intro; rfl
    · exact r.free x
  · simp only [VM.setProc, VM.setList]
    refine Eq.trans ?_ (r.prio x)
    split <;> rfl
  · simp only [VM.setProc, VM.setList]
    refine Eq.trans ?_ (r.live x)
    split <;> rfl
  · simp only [VM.setProc, VM.setList]
    refine Eq.trans ?_ (r.signals m)
    split <;> rfl

end Verif.Sched
