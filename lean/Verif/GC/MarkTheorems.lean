/-
What a global garbage collection keeps, clears and mourns.
-/
import Verif.GC.MarkMain

namespace Verif.GC

theorem strong_lt {h : Heap} {roots : List Ref} (hc : Closed h roots) (m n : Nat) (hm : m < h.size)
    (hn : Ref.oop n ∈ strong (h.obj m)) : n < h.size := by
  simp only [strong] at hn
  rcases List.mem_cons.mp hn with h1 | h1
  · simp only [Ref.oop.injEq] at h1
    rw [h1]; exact hc.cls_lt m hm
  · split at h1
    · exact absurd h1 (by simp)
    · exact hc.fields_lt m n hm h1

theorem live_lt {h : Heap} {roots : List Ref} (hc : Closed h roots) {n : Nat}
    (hn : Live h roots n) : n < h.size := by
  induction hn with
  | root h1 => exact hc.roots_lt _ h1
  | step _ h2 ih => exact strong_lt hc _ _ ih h2

/-- Taking `markOops` apart. -/
theorem markOops_done {h : Heap} {fuel depth : Nat} {roots : List Ref} {s s0 : Marks}
    (h0 : markRefs h fuel roots (initMarks h) = some s0)
    (hd : markOops h fuel depth roots = .done s) : markEphemerons h fuel depth s0 = .done s := by
  rw [markOops, h0] at hd; exact hd

/-! ### C67: what is marked is what is live -/

/-- A global collection that finishes has marked exactly the objects that can be reached from the
roots through strong references: nothing reachable is lost, no garbage is kept. -/
theorem marks_exactly_live {h : Heap} {roots : List Ref} {fuel depth : Nat} {s : Marks}
    (hc : Closed h roots) (hfu : 5 * h.size < fuel) (hd : markOops h fuel depth roots = .done s)
    (n : Nat) : s.marked n = true ↔ Live h roots n := by
  obtain ⟨s0, h0, hp, hup, hro, _⟩ := roots_post hfu (Live h roots) (fun n hn => live_lt hc hn)
    (fun m hm n hn => .step hm (scan_sub_strong h _ m _ hn)) (fun n hn => .root hn)
  have hfin := markEphemerons_finished (Live h roots) (fun n hn => live_lt hc hn) hfu
    (fun m hm n hn => .step hm hn) depth s0 s hp hup (markOops_done h0 hd)
  constructor
  · exact hfin.upper n
  · intro hn
    induction hn with
    | root h1 => exact hfin.mono _ (hro _ h1)
    | step _ h2 ih => exact hfin.closed _ ih _ h2

/-! ### C68: the mark phase ends -/

/-- When no ephemeron is the key of an ephemeron, and no key is a SmallInteger, the mark phase ends.
Missing: see `mutual_keys_never_end` and `small_key_crashes`. -/
theorem mark_terminates_partial {h : Heap} {roots : List Ref} {fuel depth : Nat}
    (hc : Closed h roots) (hkp : KeysPlain h) (hkq : KeysPointers h)
    (hfu : 5 * h.size < fuel) (hde : h.size < depth) :
    ∃ s, markOops h fuel depth roots = .done s := by
  obtain ⟨s0, h0, hp, hup, _, _⟩ := roots_post hfu (fun n => n < h.size) (fun _ h => h)
    (fun m hm n hn => strong_lt hc m n hm (scan_sub_strong h _ m _ hn)) hc.roots_lt
  have hle : ephLeft h s0 ≤ h.size := by
    unfold ephLeft
    exact Nat.le_trans (List.length_filter_le _ _) (by simp)
  obtain ⟨s, hs⟩ := markEphemerons_terminates (strong_lt hc) hkp hkq hfu depth s0 hp hup (by omega)
  exact ⟨s, by rw [markOops, h0]; exact hs⟩

/-! ### C69: which ephemerons are mourned -/

/-- An ephemeron that is mourned is alive, it is mourned once, and its key can not be reached
from outside the ephemerons.  Proved when no ephemeron is the key of an ephemeron; see
`key_of_two_mourned` for what happens otherwise, and `value_of_other_mourned` for a key that is
reachable through another ephemeron. -/
theorem mourned_partial {h : Heap} {roots : List Ref} {fuel depth : Nat} {s : Marks}
    (hc : Closed h roots) (hkp : KeysPlain h) (hfu : 5 * h.size < fuel)
    (hd : markOops h fuel depth roots = .done s) :
    s.buf.Nodup ∧ ∀ e ∈ s.buf, Live h roots e ∧ (h.obj e).ephemeron = true ∧
      ∀ k l, (h.obj e).fields = .oop k :: l → ¬ LiveOutside h roots k := by
  obtain ⟨s0, h0, hp, hup, hro, hnd⟩ := roots_post hfu (fun n => n < h.size) (fun _ h => h)
    (fun m hm n hn => strong_lt hc m n hm (scan_sub_strong h _ m _ hn)) hc.roots_lt
  obtain ⟨i1, i2⟩ := markEphemerons_mourned (strong_lt hc) hkp hfu depth s0 s hp hnd hup
    (markOops_done h0 hd)
  refine ⟨i1, fun e he => ?_⟩
  obtain ⟨_, a, b, c⟩ := i2 e he
  refine ⟨(marks_exactly_live hc hfu hd e).mp b, a, fun k l hl hout => ?_⟩
  have hout' : ∀ n, LiveOutside h roots n → s0.marked n = true := by
    intro n hn
    induction hn with
    | root h1 => exact hro _ h1
    | @step m n _ h2 ih =>
      have h2' : Ref.oop n ∈ strongOut (h.obj m) := h2
      have hst : Ref.oop n ∈ strong (h.obj m) := by
        simp only [strongOut, strong] at h2' ⊢
        rcases List.mem_cons.mp h2' with h3 | h3
        · rw [h3]; exact List.mem_cons_self
        · refine List.mem_cons_of_mem _ ?_
          by_cases hcc : (h.obj m).context = true
          · simpa [hcc] using h3
          · by_cases hw : (h.obj m).weak = true
            · simp [hcc, hw] at h3
            · by_cases hee : (h.obj m).ephemeron = true
              · simp [hcc, hee] at h3
              · simpa [hw, hee] using h3
      rcases hp.inv m ih (by simp) n hst with (h4 | h4 | h4) | ⟨h4, h5, h6⟩
      · exact h4
      · exact absurd h4 (by simp)
      · exact absurd h4 (by simp)
      · rcases h6 with h6 | h6
        · exfalso
          have hcx := (hp.buf m h6).2.2
          simp only [strongOut, h4, hcx] at h2'
          simp only [Bool.or_true, Bool.not_false, Bool.and_self, if_true, List.mem_singleton,
            Ref.oop.injEq] at h2'
          exact h5 h2'
        · exact absurd h6 (by simp)
  have h7 := c k ⟨l, hl⟩
  rw [hout' k hout] at h7
  exact absurd h7 (by simp)

/-- An ephemeron that is alive, and whose key can be reached only through the key slot of that very
ephemeron, is mourned (by `mourned_partial` once).  Proved when no ephemeron is the key of an
ephemeron. -/
theorem lonely_key_mourned_partial {h : Heap} {roots : List Ref} {fuel depth : Nat} {s : Marks}
    (hc : Closed h roots) (hkp : KeysPlain h) (hfu : 5 * h.size < fuel)
    (hd : markOops h fuel depth roots = .done s) {e k : Nat} {l : List Ref}
    (hee : (h.obj e).ephemeron = true) (hec : (h.obj e).context = false)
    (hl : (h.obj e).fields = .oop k :: l) (hlive : Live h roots e)
    (hno : ¬ LiveBut h roots e k) : e ∈ s.buf := by
  have hsub : ∀ n, LiveBut h roots e n → Live h roots n := by
    intro n hn
    induction hn with
    | root h1 => exact .root h1
    | @step m n _ h2 ih =>
      refine .step ih ?_
      by_cases hme : m = e
      · subst hme
        rw [if_pos rfl] at h2
        rcases List.mem_cons.mp h2 with h3 | h3
        · rw [h3]; exact List.mem_cons_self
        · exact strong_fields hee (List.mem_of_mem_tail h3)
      · rw [if_neg hme] at h2; exact h2
  have ho : OnlyKey h e k (LiveBut h roots e) := by
    refine ⟨hee, hec, ⟨l, hl⟩, hno, ?_, ?_, ?_, fun n hn => live_lt hc (hsub n hn)⟩
    · intro he
      refine .step he ?_
      rw [if_pos rfl]; exact List.mem_cons_self
    · intro he n hn
      refine .step he ?_
      rw [if_pos rfl]; exact List.mem_cons_of_mem _ hn
    · intro m hme hm n hn
      refine .step hm ?_
      rw [if_neg hme]; exact hn
  obtain ⟨s0, h0, hp, hup, _, hnd⟩ := roots_post hfu (LiveBut h roots e) ho.lt
    (ho.scan (initMarks h) hee) (fun n hn => .root hn)
  exact markEphemerons_mourns ho (strong_lt hc) hkp hfu depth s0 s hp hnd hup (markOops_done h0 hd)
    ((marks_exactly_live hc hfu hd e).mpr hlive)

/-! ### C70: weak references -/

/-- Is this word still good after the collection: not a pointer into the table, or a live object. -/
def StillGood (h : Heap) (roots : List Ref) : Ref → Prop
  | .oop n => Live h roots n
  | _ => True

theorem validRef_iff {h : Heap} {roots : List Ref} {fuel depth : Nat} {s : Marks}
    (hc : Closed h roots) (hfu : 5 * h.size < fuel) (hd : markOops h fuel depth roots = .done s)
    (r : Ref) : validRef s r = true ↔ StillGood h roots r := by
  cases r with
  | small => simp [validRef, StillGood]
  | builtin => simp [validRef, StillGood]
  | oop n => exact marks_exactly_live hc hfu hd n

/-- After the collection a live weak object has in each slot what it had before if that is still
alive, and nil otherwise; every other object is unchanged. -/
theorem weak_slots {h : Heap} {roots : List Ref} {fuel depth : Nat} {s : Marks}
    (hc : Closed h roots) (hfu : 5 * h.size < fuel) (hd : markOops h fuel depth roots = .done s)
    (n : Nat) :
    (¬ ((h.obj n).weak = true ∧ Live h roots n) → (checkWeakHeap h s).obj n = h.obj n) ∧
    ((h.obj n).weak = true → Live h roots n →
      ((checkWeakHeap h s).obj n).cls = (h.obj n).cls ∧
      ((checkWeakHeap h s).obj n).fields.length = (h.obj n).fields.length ∧
      ∀ (i : Nat) (r : Ref), (h.obj n).fields[i]? = some r →
        (StillGood h roots r → ((checkWeakHeap h s).obj n).fields[i]? = some r) ∧
        (¬ StillGood h roots r → ((checkWeakHeap h s).obj n).fields[i]? = some Ref.builtin)) := by
  have hlive := marks_exactly_live hc hfu hd n
  constructor
  · intro hno
    have : weakLive h s n = false := by
      simp only [weakLive]
      cases hw : (h.obj n).weak
      · rfl
      · cases hm : s.marked n
        · rfl
        · exact absurd ⟨hw, hlive.mp hm⟩ hno
    simp [checkWeakHeap, weakObj, this]
  · intro hw hl
    have hwl : weakLive h s n = true := by simp [weakLive, hw, hlive.mpr hl]
    have hobj : (checkWeakHeap h s).obj n =
        { h.obj n with fields := weakFields s (h.obj n).fields } := by
      simp [checkWeakHeap, weakObj, hwl]
    rw [hobj]
    refine ⟨rfl, by simp [weakFields], ?_⟩
    intro i r hr
    have hget : (weakFields s (h.obj n).fields)[i]? =
        some (if validRef s r = true then r else Ref.builtin) := by
      simp [weakFields, hr]
    constructor
    · intro hg
      rw [hget, if_pos ((validRef_iff hc hfu hd r).mpr hg)]
    · intro hg
      rw [hget, if_neg (fun hx => hg ((validRef_iff hc hfu hd r).mp hx))]

/-- A weak object is sent `mourn` just when the collection took something out of it. -/
theorem weak_mourned {h : Heap} {roots : List Ref} {fuel depth : Nat} {s : Marks}
    (hc : Closed h roots) (hfu : 5 * h.size < fuel) (hd : markOops h fuel depth roots = .done s)
    {n : Nat} (hs : n ∉ s.buf) :
    n ∈ checkWeakBuf h s ↔
      (h.obj n).weak = true ∧ Live h roots n ∧ ∃ r ∈ (h.obj n).fields, ¬ StillGood h roots r := by
  have hlive := marks_exactly_live hc hfu hd n
  simp only [checkWeakBuf, List.mem_append, hs, false_or, List.mem_filter, List.mem_range, weakLoses,
    weakLive, Bool.and_eq_true, List.any_eq_true, Bool.not_eq_true']
  constructor
  · rintro ⟨_, ⟨hw, hm⟩, r, hr, hv⟩
    refine ⟨hw, hlive.mp hm, r, hr, fun hg => ?_⟩
    rw [(validRef_iff hc hfu hd r).mpr hg] at hv
    exact absurd hv (by simp)
  · rintro ⟨hw, hl, r, hr, hg⟩
    refine ⟨live_lt hc hl, ⟨hw, hlive.mpr hl⟩, r, hr, ?_⟩
    cases hv : validRef s r
    · rfl
    · exact absurd ((validRef_iff hc hfu hd r).mp hv) hg

/-- After the collection no live object refers to anything that is not live. -/
theorem no_dangling {h : Heap} {roots : List Ref} {fuel depth : Nat} {s : Marks}
    (hc : Closed h roots) (hfu : 5 * h.size < fuel) (hd : markOops h fuel depth roots = .done s)
    {m n : Nat} (hm : Live h roots m)
    (hn : .oop n ∈ ((checkWeakHeap h s).obj m).fields) : Live h roots n := by
  obtain ⟨h1, h2⟩ := weak_slots hc hfu hd m
  by_cases hw : (h.obj m).weak = true
  · obtain ⟨_, hlen, h3⟩ := h2 hw hm
    obtain ⟨i, hi, hx⟩ := List.mem_iff_getElem.mp hn
    obtain ⟨r, hr⟩ : ∃ r, (h.obj m).fields[i]? = some r := by
      rw [hlen] at hi
      exact ⟨_, List.getElem?_eq_getElem hi⟩
    obtain ⟨h4, h5⟩ := h3 i r hr
    have hx' : ((checkWeakHeap h s).obj m).fields[i]? = some (.oop n) := by
      rw [List.getElem?_eq_getElem hi, hx]
    by_cases hg : StillGood h roots r
    · rw [h4 hg] at hx'
      simp only [Option.some.injEq] at hx'
      rw [hx'] at hg; exact hg
    · rw [h5 hg] at hx'; simp at hx'
  · rw [h1 (fun hx => hw hx.1)] at hn
    refine .step hm ?_
    simp only [strong, hw]
    exact List.mem_cons_of_mem _ (by simpa using hn)

/-! ### A heap on which all this happens -/

/-- 0 is the class of everything; 1 an array with 2 and the ephemerons 3 and 4; the key of 3 is 2,
that of 4 is 5, which nothing else refers to; 6 is a weak array with 2, 7 and a SmallInteger; 7 is
garbage; 8 a context. -/
def demo : Heap where
  size := 9
  obj := fun n =>
    match n with
    | 0 => { cls := 0, fields := [] }
    | 1 => { cls := 0, fields := [.oop 2, .oop 3, .oop 4, .oop 6, .oop 8] }
    | 3 => { cls := 0, fields := [.oop 2, .oop 1], ephemeron := true }
    | 4 => { cls := 0, fields := [.oop 5, .builtin], ephemeron := true }
    | 6 => { cls := 0, fields := [.oop 2, .oop 7, .small], weak := true }
    | 8 => { cls := 0, fields := [.small, .oop 1], context := true }
    | _ => { cls := 0, fields := [] }

theorem demo_other (n : Nat) (hn : 9 ≤ n) : demo.obj n = { cls := 0, fields := [] } := by
  match n, hn with
  | n + 9, _ => rfl

theorem demo_closed : Closed demo [.oop 1] := by
  refine ⟨by simp [demo], ?_, ?_⟩
  · intro m hm
    have hm : m < 9 := hm
    show _ < 9
    match m, hm with
    | 0, _ | 1, _ | 2, _ | 3, _ | 4, _ | 5, _ | 6, _ | 7, _ | 8, _ => decide
  · intro m n hm hn
    have hm : m < 9 := hm
    show n < 9
    match m, hm with
    | 0, _ | 1, _ | 2, _ | 3, _ | 4, _ | 5, _ | 6, _ | 7, _ | 8, _ =>
      simp [demo] at hn
      try omega

theorem demo_ephemerons (m : Nat) : (demo.obj m).ephemeron = true → m = 3 ∨ m = 4 := by
  intro hm
  match m with
  | 0 | 1 | 2 | 5 | 6 | 7 | 8 => exact absurd hm (by decide)
  | 3 => exact Or.inl rfl
  | 4 => exact Or.inr rfl
  | n + 9 => exact absurd hm (by rw [demo_other _ (by omega)]; simp)

theorem demo_keys_plain : KeysPlain demo := by
  intro m k l hm hl
  rcases demo_ephemerons m hm with rfl | rfl
  · simp only [demo, List.cons.injEq, Ref.oop.injEq] at hl; rw [← hl.1]; rfl
  · simp only [demo, List.cons.injEq, Ref.oop.injEq] at hl; rw [← hl.1]; rfl

theorem demo_keys_pointers : KeysPointers demo := by
  intro m hm
  rcases demo_ephemerons m hm with rfl | rfl
  · exact ⟨_, _, rfl, by simp⟩
  · exact ⟨_, _, rfl, by simp⟩

/-- The marks and the list of mourned objects after a collection, for examples. -/
def outcome (h : Heap) (o : Out Marks) : Option (List Nat × List Nat) :=
  match o with
  | .done s => some ((List.range h.size).filter s.marked, s.buf)
  | _ => none

/-- The collection of the example: everything but the garbage survives, ephemeron 4 is
mourned. -/
example : outcome demo (markOops demo 46 10 [.oop 1]) = some ([0, 1, 2, 3, 4, 5, 6, 8], [4]) := by
  decide +kernel

/-- The hypotheses of the theorems above hold for it. -/
example : ∃ s, markOops demo 46 10 [.oop 1] = .done s ∧ (s.marked 7 = true ↔ Live demo [.oop 1] 7) ∧
    s.buf.Nodup := by
  obtain ⟨s, hs⟩ := mark_terminates_partial demo_closed demo_keys_plain demo_keys_pointers
    (fuel := 46) (depth := 10) (by decide) (by decide)
  exact ⟨s, hs, marks_exactly_live demo_closed (by decide) hs 7,
    (mourned_partial demo_closed demo_keys_plain (by decide) hs).1⟩

/-- Ephemeron 4 meets the hypotheses of `lonely_key_mourned_partial`. -/
example : Live demo [.oop 1] 4 ∧ ¬ LiveBut demo [.oop 1] 4 5 := by
  refine ⟨.step (.root (by simp)) (m := 1) (by decide), fun hx => ?_⟩
  have : ∀ n, LiveBut demo [.oop 1] 4 n → n ∈ [0, 1, 2, 3, 4, 6, 8] := by
    intro n hn
    induction hn with
    | root h1 => simp at h1; rw [h1]; decide
    | @step m n _ h2 ih =>
      simp only [List.mem_cons, List.not_mem_nil, or_false] at ih
      rcases ih with rfl | rfl | rfl | rfl | rfl | rfl | rfl <;>
        simp [demo, strong] at h2 <;> simp <;> omega
  exact absurd (this 5 hx) (by decide)

/-- The weak object loses what is garbage and keeps the rest. -/
example : (match markOops demo 46 10 [.oop 1] with
    | .done s => some (((checkWeakHeap demo s).obj 6).fields, checkWeakBuf demo s)
    | _ => none) = some ([.oop 2, .builtin, .small], [4, 6]) := by
  decide +kernel

/-! ### What goes wrong -/

/-- Two ephemerons each of which is the key of the other. -/
def twins : Heap where
  size := 3
  obj := fun n =>
    match n with
    | 1 => { cls := 0, fields := [.oop 2, .small], ephemeron := true }
    | 2 => { cls := 0, fields := [.oop 1, .small], ephemeron := true }
    | _ => { cls := 0, fields := [] }

/-- All of `twins` is marked, and the buffer is `b`. -/
def twinState (b : List Nat) : Marks :=
  { marked := fun n => decide (n < 3), eph := fun n => (twins.obj n).ephemeron, buf := b }

/-- Two states that agree. -/
theorem marks_ext {s t : Marks} (h1 : ∀ n, s.marked n = t.marked n) (h2 : ∀ n, s.eph n = t.eph n)
    (h3 : s.buf = t.buf) : s = t := by
  cases s; cases t
  simp only [Marks.mk.injEq]
  exact ⟨funext h1, funext h2, h3⟩

theorem twin_ext {s : Marks} {b : List Nat} (h0 : s.marked 0 = true) (h1 : s.marked 1 = true)
    (h2 : s.marked 2 = true) (h3 : ∀ n, s.marked (n + 3) = false)
    (e0 : s.eph 0 = false) (e1 : s.eph 1 = true) (e2 : s.eph 2 = true)
    (e3 : ∀ n, s.eph (n + 3) = false) (hb : s.buf = b) : s = twinState b := by
  refine marks_ext ?_ ?_ hb
  · intro n
    match n with
    | 0 => exact h0
    | 1 => exact h1
    | 2 => exact h2
    | n + 3 => rw [h3]; simp [twinState]
  · intro n
    match n with
    | 0 => exact e0
    | 1 => exact e1
    | 2 => exact e2
    | n + 3 => rw [e3]; rfl

theorem twins_round1 (n : Nat) : ∃ s1 s2 ds,
    pass1 twins [1] { twinState [1] with buf := [] } = .done s1 ∧
    pass2 twins (n + 16) [1] s1 = .done (s2, ds) ∧ s2 = twinState [2] := by
  refine ⟨_, _, _, rfl, rfl, ?_⟩
  exact twin_ext rfl rfl rfl (fun _ => rfl) rfl rfl rfl (fun _ => rfl) rfl

theorem twins_round2 (n : Nat) : ∃ s1 s2 ds,
    pass1 twins [2] { twinState [2] with buf := [] } = .done s1 ∧
    pass2 twins (n + 16) [2] s1 = .done (s2, ds) ∧ s2 = twinState [1] := by
  refine ⟨_, _, _, rfl, rfl, ?_⟩
  exact twin_ext rfl rfl rfl (fun _ => rfl) rfl rfl rfl (fun _ => rfl) rfl

theorem twins_round0 (n : Nat) : ∃ s0 s1 s2 ds,
    markRefs twins (n + 16) [.oop 1, .oop 2] (initMarks twins) = some s0 ∧ s0.buf = [1, 2] ∧
    pass1 twins [1, 2] { s0 with buf := [] } = .done s1 ∧
    pass2 twins (n + 16) [1, 2] s1 = .done (s2, ds) ∧ s2 = twinState [1] := by
  refine ⟨_, _, _, _, rfl, rfl, rfl, rfl, ?_⟩
  exact twin_ext rfl rfl rfl (fun _ => rfl) rfl rfl rfl (fun _ => rfl) rfl

theorem twins_loop (n : Nat) : ∀ depth,
    markEphemerons twins (n + 16) depth (twinState [1]) = .fuel ∧
    markEphemerons twins (n + 16) depth (twinState [2]) = .fuel
  | 0 => ⟨rfl, rfl⟩
  | depth + 1 => by
    obtain ⟨i1, i2⟩ := twins_loop n depth
    constructor
    · obtain ⟨s1, s2, ds, h1, h2, h3⟩ := twins_round1 n
      have hb : (twinState [1]).buf = [1] := rfl
      rw [markEphemerons, hb, h1]
      simp only [h2, h3]
      rw [if_neg (by simp [twinState]), i2]
    · obtain ⟨s1, s2, ds, h1, h2, h3⟩ := twins_round2 n
      have hb : (twinState [2]).buf = [2] := rfl
      rw [markEphemerons, hb, h1]
      simp only [h2, h3]
      rw [if_neg (by simp [twinState]), i1]

/-- Two ephemerons that are the keys of each other: `mark_ephemeron_oops` calls itself without end,
whatever the depth it is allowed. -/
theorem mutual_keys_never_end (n depth : Nat) :
    markOops twins (n + 16) depth [.oop 1, .oop 2] = .fuel := by
  obtain ⟨s0, s1, s2, ds, h0, hb, h1, h2, h3⟩ := twins_round0 n
  rw [markOops, h0]
  cases depth with
  | zero => rfl
  | succ depth =>
    show markEphemerons twins (n + 16) (depth + 1) s0 = .fuel
    rw [markEphemerons, hb, h1]
    simp only [h2, h3]
    rw [if_neg (by simp [twinState]), (twins_loop n depth).1]

/-- An ephemeron (1) with a SmallInteger as key. -/
def smallKey : Heap where
  size := 2
  obj := fun n =>
    match n with
    | 1 => { cls := 0, fields := [.small, .builtin], ephemeron := true }
    | _ => { cls := 0, fields := [] }

/-- The collection follows the SmallInteger as if it were a pointer. -/
theorem small_key_crashes : markOops smallKey 11 3 [.oop 1] = .crash := by
  rfl

/-- Ephemerons 1 and 2; the key 3 of the first is a root, the key 4 of the second is the value of
the first. -/
def byValue : Heap where
  size := 5
  obj := fun n =>
    match n with
    | 1 => { cls := 0, fields := [.oop 3, .oop 4], ephemeron := true }
    | 2 => { cls := 0, fields := [.oop 4, .builtin], ephemeron := true }
    | _ => { cls := 0, fields := [] }

/-- Ephemeron 2 is mourned though its key is the value of an ephemeron whose key is alive, in
whatever order the two are found. -/
theorem value_of_other_mourned :
    outcome byValue (markOops byValue 26 6 [.oop 1, .oop 2, .oop 3]) = some ([0, 1, 2, 3, 4], [2]) ∧
    outcome byValue (markOops byValue 26 6 [.oop 2, .oop 1, .oop 3]) = some ([0, 1, 2, 3, 4], [2]) ∧
    (∃ l, (byValue.obj 2).fields = .oop 4 :: l) ∧
    LiveBut byValue [.oop 1, .oop 2, .oop 3] 2 4 := by
  refine ⟨by decide +kernel, by decide +kernel, ⟨_, rfl⟩, ?_⟩
  exact .step (.root (by simp)) (m := 1) (by decide)

/-- Two ephemerons, 1 and 2, with the same key 3. -/
def sharedKey : Heap where
  size := 4
  obj := fun n =>
    match n with
    | 1 => { cls := 0, fields := [.oop 3, .builtin], ephemeron := true }
    | 2 => { cls := 0, fields := [.oop 3, .builtin], ephemeron := true }
    | _ => { cls := 0, fields := [] }

/-- Only the first of two ephemerons with the same unreachable key is mourned: the other learns of
the death of the key only at the next collection, if at all. -/
theorem shared_key_mourned_once :
    outcome sharedKey (markOops sharedKey 21 5 [.oop 1, .oop 2]) = some ([0, 1, 2, 3], [1]) ∧
    ¬ LiveOutside sharedKey [.oop 1, .oop 2] 3 := by
  refine ⟨by decide +kernel, fun hx => ?_⟩
  have : ∀ n, LiveOutside sharedKey [.oop 1, .oop 2] n → n ∈ [0, 1, 2] := by
    intro n hn
    induction hn with
    | root h1 => simp at h1; rcases h1 with rfl | rfl <;> decide
    | @step m n _ h2 ih =>
      simp only [List.mem_cons, List.not_mem_nil, or_false] at ih
      rcases ih with rfl | rfl | rfl <;> simp [sharedKey, strongOut] at h2 <;> simp [h2]
  exact absurd (this 3 hx) (by decide)

/-- The ephemeron 1, whose key 4 is a root, is itself the key of the ephemerons 2 and 3. -/
def keyOfTwo : Heap where
  size := 5
  obj := fun n =>
    match n with
    | 1 => { cls := 0, fields := [.oop 4, .builtin], ephemeron := true }
    | 2 => { cls := 0, fields := [.oop 1, .builtin], ephemeron := true }
    | 3 => { cls := 0, fields := [.oop 1, .builtin], ephemeron := true }
    | _ => { cls := 0, fields := [] }

/-- An ephemeron that is the key of two others is mourned though its own key is a root. -/
theorem key_of_two_mourned :
    outcome keyOfTwo (markOops keyOfTwo 26 6 [.oop 4, .oop 1, .oop 2, .oop 3]) =
      some ([0, 1, 2, 3, 4], [1]) ∧
    LiveOutside keyOfTwo [.oop 4, .oop 1, .oop 2, .oop 3] 4 :=
  ⟨by decide +kernel, .root (by simp)⟩

end Verif.GC
