/-
The rounds put together.
-/
import Verif.GC.MarkRounds

namespace Verif.GC

/-- The state between two rounds. -/
structure RoundPre (h : Heap) (s : Marks) : Prop where
  inv : Inv h (fun _ => False) (fun _ => False) (fun _ => False) (fun _ => False) s
  flags : Flags h (fun _ => False) s
  buf : ∀ e ∈ s.buf, (h.obj e).ephemeron = true ∧ s.marked e = true ∧ (h.obj e).context = false

theorem RoundPre.eph {h : Heap} {s : Marks} (hp : RoundPre h s) (e : Nat) :
    s.eph e = (h.obj e).ephemeron := by
  cases hx : s.eph e
  · cases hy : (h.obj e).ephemeron
    · rfl
    · exact absurd (hp.flags.2 e hy hx) (by simp)
  · exact (hp.flags.1 e hx).symm

/-- The state after the first pass. -/
structure Mid (h : Heap) (s s1 : Marks) : Prop where
  buf : s1.buf = []
  marked : ∀ m, s1.marked m = true ↔ s.marked m = true ∨ KeyOf h s.buf m
  eph_out : ∀ m, m ∉ s.buf → s1.eph m = s.eph m
  eph_le : ∀ m, s1.eph m = true → s.eph m = true
  eph_key : ∀ e ∈ s.buf, ∀ k, IsKey h e k → s1.eph e = true → s.marked k = false
  eph_keep : s.buf.Nodup → ∀ e ∈ s.buf, ∀ k, IsKey h e k → s.eph e = true → s.marked k = false →
    (∀ x ∈ s.buf, x ≠ e → ¬ IsKey h x k) → s1.eph e = true
  inv : Inv h (KeyOf h s.buf) (fun _ => False) (· ∈ s.buf) (fun _ => False) s1
  flags : Flags h (· ∈ s.buf) s1
  waiting : Waiting h s1 s.buf

theorem mid_of_pass1 {h : Heap} {s : Marks} (hp : RoundPre h s)
    (hk : ∀ e ∈ s.buf, ∃ k l, (h.obj e).fields = k :: l ∧ k ≠ .small) :
    ∃ s1, pass1 h s.buf { s with buf := [] } = .done s1 ∧ Mid h s s1 := by
  obtain ⟨s1, h1, h2, h3, h4, h5, h6, h7⟩ := pass1_post h s.buf { s with buf := [] } hk
  refine ⟨s1, h1, h2, h3, h4, h5, h6, h7, ?_, ?_, ?_⟩
  · intro m hm hP n hn
    have hm' : s.marked m = true := by
      rcases (h3 m).mp hm with h8 | h8
      · exact h8
      · exact absurd h8 hP
    rcases hp.inv m hm' (by simp) n hn with (h8 | h8 | h8) | ⟨h8, h9, h10⟩
    · exact Or.inl (Or.inl ((h3 n).mpr (Or.inl h8)))
    · exact absurd h8 (by simp)
    · exact absurd h8 (by simp)
    · refine Or.inr ⟨h8, h9, Or.inr ?_⟩
      rcases h10 with h10 | h10
      · exact h10
      · exact absurd h10 (by simp)
  · refine ⟨fun m hm => hp.flags.1 m (h5 m hm), fun m hm hm' => ?_⟩
    by_cases hmL : m ∈ s.buf
    · exact hmL
    · have h8 := h4 m hmL
      rw [hm'] at h8
      exact absurd (hp.flags.2 m hm h8.symm) (by simp)
  · intro e he
    obtain ⟨a, b, c⟩ := hp.buf e he
    obtain ⟨k, l, hkl, _⟩ := hk e he
    exact ⟨a, (h3 e).mpr (Or.inl b), by rw [hkl]; simp⟩

/-- What one round achieves. -/
structure Round (h : Heap) (C : Nat → Prop) (s s2 : Marks) (ds : List Nat) : Prop where
  pre : RoundPre h s2
  mono : ∀ m, s.marked m = true → s2.marked m = true
  upper : ∀ m, s2.marked m = true → s.marked m = true ∨ C m
  fresh : KeysPlain h → s2.buf.Nodup ∧ ∀ x ∈ s2.buf, s.marked x = false
  dead_sub : ds.Sublist s.buf
  dead_key : s.buf.Nodup → ∀ e ∈ ds, ∀ k, IsKey h e k → s.marked k = false

theorem round_post {h : Heap} {s : Marks} (C : Nat → Prop) (hlt : ∀ n, C n → n < h.size) {fuel : Nat}
    (hfu : 5 * h.size < fuel) (hp : RoundPre h s)
    (hk : ∀ e ∈ s.buf, ∃ k l, (h.obj e).fields = k :: l ∧ k ≠ .small)
    (hC : ∀ s' : Marks, (∀ m, m ∉ s.buf → s'.eph m = s.eph m) →
      ∀ m, C m → ∀ n, Ref.oop n ∈ scan h s' m → C n)
    (hF : ∀ e ∈ s.buf, ∀ n, Ref.oop n ∈ (h.obj e).fields → C n) :
    ∃ s1 s2 ds, pass1 h s.buf { s with buf := [] } = .done s1 ∧
      pass2 h fuel s.buf s1 = .done (s2, ds) ∧ Round h C s s2 ds := by
  obtain ⟨s1, hs1, hm⟩ := mid_of_pass1 hp hk
  obtain ⟨s2, ds, hs2, hp2⟩ := pass2_post h C hlt fuel hfu [] s.buf s1 hm.waiting
    (by simpa using hm.flags) (by simpa using hm.inv)
    (fun s' hs' => hC s' (fun m hmm => by rw [hs' m hmm, hm.eph_out m hmm])) hF
  obtain ⟨new, hnb, hne, hnn⟩ := hp2.buf
  rw [hm.buf, List.nil_append] at hnb
  refine ⟨s1, s2, ds, hs1, hs2, ⟨?_, ?_, ?_⟩, ?_, ?_, ?_, hp2.dead_sub, ?_⟩
  · exact hp2.inv.mono (fun m _ ⟨_, h1, _⟩ => by simp at h1) (fun _ h => h)
      (fun _ h => by simp at h) (fun _ h => h)
  · have := flags_after (l2 := []) (by simpa using hm.flags) (fun e he => (hm.waiting e he).1) hp2.eph
    exact ⟨this.1, fun m h1 h2 => by simpa using this.2 m h1 h2⟩
  · intro e he
    rw [hnb] at he
    obtain ⟨a, b, c, _⟩ := hne e he
    exact ⟨b, a, c⟩
  · exact fun m hmm => hp2.mono m ((hm.marked m).mpr (Or.inl hmm))
  · intro m hmm
    rcases hp2.upper m hmm with h1 | h1
    · rcases (hm.marked m).mp h1 with h2 | ⟨e, he, l, hl⟩
      · exact Or.inl h2
      · right
        exact hF e he m (by rw [hl]; exact List.mem_cons_self)
    · exact Or.inr h1
  · intro hkp
    have hkp' : ∀ x, KeyOf h s.buf x → (h.obj x).ephemeron = false := by
      rintro x ⟨e, he, l, hl⟩
      exact hkp e x l (hp.buf e he).1 hl
    refine ⟨hnb ▸ hnn hkp', fun x hx => ?_⟩
    rw [hnb] at hx
    obtain ⟨_, h2, _, h4⟩ := hne x hx
    rcases h4 with h4 | h4
    · cases hz : s.marked x
      · rfl
      · rw [(hm.marked x).mpr (Or.inl hz)] at h4; exact absurd h4 (by simp)
    · rw [hkp' x h4] at h2; exact absurd h2 (by simp)
  · intro hnd e he k hik
    exact hm.eph_key e (hp2.dead_sub.subset he) k hik (hp2.dead_eph hnd e he)

/-- A finished collection. -/
structure Finished (h : Heap) (C : Nat → Prop) (s s' : Marks) : Prop where
  mono : ∀ m, s.marked m = true → s'.marked m = true
  upper : ∀ m, s'.marked m = true → C m
  closed : ∀ m, s'.marked m = true → ∀ n, Ref.oop n ∈ strong (h.obj m) → s'.marked n = true

/-- Taking `markEphemerons` apart. -/
theorem markEphemerons_done {h : Heap} {fuel depth : Nat} {s s' : Marks}
    (hd : markEphemerons h fuel depth s = .done s') :
    ∃ d s1 s2 ds, depth = d + 1 ∧ pass1 h s.buf { s with buf := [] } = .done s1 ∧
      pass2 h fuel s.buf s1 = .done (s2, ds) ∧
      ((s2.buf = [] ∧ s' = { s2 with buf := ds }) ∨
       (s2.buf ≠ [] ∧ ∃ s3, markEphemerons h fuel d s2 = .done s3 ∧
          s' = { s3 with buf := s3.buf ++ ds })) := by
  cases depth with
  | zero => exact absurd hd (by simp [markEphemerons])
  | succ d =>
    rw [markEphemerons] at hd
    cases h1 : pass1 h s.buf { s with buf := [] } with
    | crash => rw [h1] at hd; exact absurd hd (by simp)
    | fuel => rw [h1] at hd; exact absurd hd (by simp)
    | done s1 =>
      rw [h1] at hd
      simp only at hd
      cases h2 : pass2 h fuel s.buf s1 with
      | crash => rw [h2] at hd; exact absurd hd (by simp)
      | fuel => rw [h2] at hd; exact absurd hd (by simp)
      | done pr =>
        obtain ⟨s2, ds⟩ := pr
        rw [h2] at hd
        simp only at hd
        refine ⟨d, s1, s2, ds, rfl, rfl, h2, ?_⟩
        by_cases hb : s2.buf = []
        · rw [if_pos hb] at hd
          simp only [Out.done.injEq] at hd
          exact Or.inl ⟨hb, hd.symm⟩
        · rw [if_neg hb] at hd
          right
          refine ⟨hb, ?_⟩
          cases h3 : markEphemerons h fuel d s2 with
          | crash => rw [h3] at hd; exact absurd hd (by simp)
          | fuel => rw [h3] at hd; exact absurd hd (by simp)
          | done s3 =>
            rw [h3] at hd
            simp only [Out.done.injEq] at hd
            exact ⟨s3, rfl, hd.symm⟩

theorem strong_fields {o : Obj} (he : o.ephemeron = true) {n : Nat} (hn : Ref.oop n ∈ o.fields) :
    Ref.oop n ∈ strong o := by
  simp only [strong, he]
  exact List.mem_cons_of_mem _ (by simpa using hn)

theorem closed_of_inv {h : Heap} {s : Marks} (hp : RoundPre h s) (hb : s.buf = []) :
    ∀ m, s.marked m = true → ∀ n, Ref.oop n ∈ strong (h.obj m) → s.marked n = true := by
  intro m hm n hn
  rcases hp.inv m hm (by simp) n hn with (h1 | h1 | h1) | ⟨_, _, h1 | h1⟩
  · exact h1
  · exact absurd h1 (by simp)
  · exact absurd h1 (by simp)
  · rw [hb] at h1; exact absurd h1 (by simp)
  · exact absurd h1 (by simp)

theorem markEphemerons_finished {h : Heap} (C : Nat → Prop) (hlt : ∀ n, C n → n < h.size)
    {fuel : Nat} (hfu : 5 * h.size < fuel)
    (hC : ∀ m, C m → ∀ n, Ref.oop n ∈ strong (h.obj m) → C n) :
    ∀ (depth : Nat) (s s' : Marks), RoundPre h s → (∀ m, s.marked m = true → C m) →
      markEphemerons h fuel depth s = .done s' → Finished h C s s' := by
  intro depth
  induction depth with
  | zero => intro s s' _ _ hd; exact absurd hd (by simp [markEphemerons])
  | succ depth ih =>
    intro s s' hp hsC hd
    obtain ⟨d, s1, s2, ds, hdd, h1, h2, h3⟩ := markEphemerons_done hd
    cases hdd
    obtain ⟨t1, t2, ts, g1, g2, hr⟩ := round_post C hlt hfu hp (pass1_done_keys h _ _ _ h1)
      (fun s' _ m hm n hn => hC m hm n (scan_sub_strong h s' m _ hn))
      (fun e he n hn => hC e (hsC e (hp.buf e he).2.1) n (strong_fields (hp.buf e he).1 hn))
    rw [h1] at g1
    cases g1
    rw [h2] at g2
    cases g2
    have hup : ∀ m, s2.marked m = true → C m := fun m hm => (hr.upper m hm).elim (hsC m) id
    rcases h3 with ⟨hb, rfl⟩ | ⟨hb, s3, hs3, rfl⟩
    · exact ⟨hr.mono, hup, closed_of_inv (s := s2) hr.pre hb⟩
    · have := ih s2 s3 hr.pre hup hs3
      exact ⟨fun m hm => this.mono m (hr.mono m hm), this.upper, this.closed⟩

/-- The state after the roots have been marked. -/
theorem roots_post {h : Heap} {roots : List Ref} {fuel : Nat}
    (hfu : 5 * h.size < fuel) (C : Nat → Prop) (hlt : ∀ n, C n → n < h.size)
    (hC : ∀ m, C m → ∀ n, Ref.oop n ∈ scan h (initMarks h) m → C n)
    (hr : ∀ n, Ref.oop n ∈ roots → C n) :
    ∃ s, markRefs h fuel roots (initMarks h) = some s ∧ RoundPre h s ∧
      (∀ m, s.marked m = true → C m) ∧ (∀ n, Ref.oop n ∈ roots → s.marked n = true) ∧ s.buf.Nodup := by
  obtain ⟨s, hs, hp⟩ := markRefs_post h (fun _ => False) (fun _ => False) (fun _ => False) C hlt fuel
    hfu roots (initMarks h) ⟨fun m hm => hm, fun m hm hm' => by
      simp only [initMarks] at hm'; rw [hm] at hm'; exact absurd hm' (by simp)⟩
    (fun m hm => absurd hm (by simp [initMarks])) hC hr
  obtain ⟨new, hb, hnd, hne⟩ := hp.buf
  have hb' : s.buf = new := by rw [hb]; simp [initMarks]
  refine ⟨s, hs, ⟨hp.inv, ⟨fun m hm => ?_, fun m hm hm' => ?_⟩, ?_⟩, ?_, hp.todo, hb' ▸ hnd⟩
  · rw [hp.eph] at hm; exact hm
  · rw [hp.eph] at hm'; simp only [initMarks] at hm'; rw [hm] at hm'; exact absurd hm' (by simp)
  · intro e he
    rw [hb'] at he
    obtain ⟨a, b, c, _⟩ := hne e he
    exact ⟨b, a, c⟩
  · intro m hm
    rcases hp.upper m hm with h1 | h1
    · exact absurd h1 (by simp [initMarks])
    · exact h1

/-- What is to be mourned when no ephemeron is a key. -/
theorem markEphemerons_mourned {h : Heap} (hcl : ∀ m n, m < h.size → Ref.oop n ∈ strong (h.obj m) → n < h.size)
    (hkp : KeysPlain h) {fuel : Nat} (hfu : 5 * h.size < fuel) :
    ∀ (depth : Nat) (s s' : Marks), RoundPre h s → s.buf.Nodup → (∀ m, s.marked m = true → m < h.size) →
      markEphemerons h fuel depth s = .done s' →
      s'.buf.Nodup ∧ ∀ e ∈ s'.buf, (e ∈ s.buf ∨ s.marked e = false) ∧
        (h.obj e).ephemeron = true ∧ s'.marked e = true ∧ ∀ k, IsKey h e k → s.marked k = false := by
  intro depth
  induction depth with
  | zero => intro s s' _ _ _ hd; exact absurd hd (by simp [markEphemerons])
  | succ depth ih =>
    intro s s' hp hnd hsz hd
    obtain ⟨d, s1, s2, ds, hdd, h1, h2, h3⟩ := markEphemerons_done hd
    cases hdd
    obtain ⟨t1, t2, ts, g1, g2, hr⟩ := round_post (fun n => n < h.size) (fun _ h => h) hfu hp
      (pass1_done_keys h _ _ _ h1)
      (fun s' _ m hm n hn => hcl m n hm (scan_sub_strong h s' m _ hn))
      (fun e he n hn => hcl e n (hsz e (hp.buf e he).2.1) (strong_fields (hp.buf e he).1 hn))
    rw [h1] at g1
    cases g1
    rw [h2] at g2
    cases g2
    obtain ⟨hnd2, hfr⟩ := hr.fresh hkp
    have hds : ∀ e ∈ ds, (e ∈ s.buf ∨ s.marked e = false) ∧ (h.obj e).ephemeron = true ∧
        s2.marked e = true ∧ ∀ k, IsKey h e k → s.marked k = false := by
      intro e he
      have heL := hr.dead_sub.subset he
      exact ⟨Or.inl heL, (hp.buf e heL).1, hr.mono e (hp.buf e heL).2.1, hr.dead_key hnd e he⟩
    rcases h3 with ⟨hb, rfl⟩ | ⟨hb, s3, hs3, rfl⟩
    · exact ⟨hr.dead_sub.nodup hnd, hds⟩
    · obtain ⟨i1, i2⟩ := ih s2 s3 hr.pre hnd2
        (fun m hm => (hr.upper m hm).elim (hsz m) id) hs3
      have hfin := markEphemerons_finished (fun n => n < h.size) (fun _ h => h) hfu
        (fun m hm n hn => hcl m n hm hn) depth s2 s3 hr.pre
        (fun m hm => (hr.upper m hm).elim (hsz m) id) hs3
      have back : ∀ e, s2.marked e = false → s.marked e = false := by
        intro e he
        cases hz : s.marked e
        · rfl
        · rw [hr.mono e hz] at he; exact absurd he (by simp)
      have hun : ∀ e ∈ s3.buf, s.marked e = false := by
        intro e he
        rcases (i2 e he).1 with h4 | h4
        · exact hfr e h4
        · exact back e h4
      refine ⟨?_, ?_⟩
      · rw [List.nodup_append]
        refine ⟨i1, hr.dead_sub.nodup hnd, ?_⟩
        intro a ha b hb' hab
        subst hab
        have h4 := hun a ha
        rw [(hp.buf a (hr.dead_sub.subset hb')).2.1] at h4
        exact absurd h4 (by simp)
      · intro e he
        rcases List.mem_append.mp he with h4 | h4
        · obtain ⟨_, a, b, c⟩ := i2 e h4
          exact ⟨Or.inr (hun e h4), a, b, fun k hk => back k (c k hk)⟩
        · obtain ⟨a, b, c, d⟩ := hds e h4
          exact ⟨a, b, hfin.mono e c, d⟩

/-- The number of unmarked ephemerons. -/
def ephLeft (h : Heap) (s : Marks) : Nat :=
  ((List.range h.size).filter (fun n => (h.obj n).ephemeron && !s.marked n)).length

theorem markEphemerons_terminates {h : Heap}
    (hcl : ∀ m n, m < h.size → Ref.oop n ∈ strong (h.obj m) → n < h.size)
    (hkp : KeysPlain h) (hkq : KeysPointers h) {fuel : Nat} (hfu : 5 * h.size < fuel) :
    ∀ (depth : Nat) (s : Marks), RoundPre h s → (∀ m, s.marked m = true → m < h.size) →
      ephLeft h s < depth → ∃ s', markEphemerons h fuel depth s = .done s' := by
  intro depth
  induction depth with
  | zero => intro s _ _ hd; omega
  | succ depth ih =>
    intro s hp hsz hd
    obtain ⟨s1, s2, ds, h1, h2, hr⟩ := round_post (fun n => n < h.size) (fun _ h => h) hfu hp
      (fun e he => hkq e (hp.buf e he).1)
      (fun s' _ m hm n hn => hcl m n hm (scan_sub_strong h s' m _ hn))
      (fun e he n hn => hcl e n (hsz e (hp.buf e he).2.1) (strong_fields (hp.buf e he).1 hn))
    have hsz2 : ∀ m, s2.marked m = true → m < h.size := fun m hm => (hr.upper m hm).elim (hsz m) id
    rw [markEphemerons, h1]
    simp only [h2]
    by_cases hb : s2.buf = []
    · rw [if_pos hb]; exact ⟨_, rfl⟩
    · rw [if_neg hb]
      obtain ⟨x, hx⟩ := List.exists_mem_of_ne_nil _ hb
      have hxu := (hr.fresh hkp).2 x hx
      obtain ⟨hxe, hxm, _⟩ := hr.pre.buf x hx
      have hlt : ephLeft h s2 < ephLeft h s := by
        refine filter_count_lt _ _ _ ?_ (List.mem_range.mpr (hsz2 x hxm)) (by simp [hxe, hxu])
          (by simp [hxm])
        intro a ha
        simp only [Bool.and_eq_true, Bool.not_eq_true'] at ha ⊢
        refine ⟨ha.1, ?_⟩
        cases hz : s.marked a
        · rfl
        · rw [hr.mono a hz] at ha; exact absurd ha.2 (by simp)
      obtain ⟨s3, hs3⟩ := ih s2 hr.pre hsz2 (by omega)
      rw [hs3]
      exact ⟨_, rfl⟩

/-- The set in which only the ephemeron `e` leads to its key. -/
structure OnlyKey (h : Heap) (e k : Nat) (Cb : Nat → Prop) : Prop where
  eph : (h.obj e).ephemeron = true
  ctx : (h.obj e).context = false
  key : IsKey h e k
  not_mem : ¬ Cb k
  cls : Cb e → Cb (h.obj e).cls
  data : Cb e → ∀ n, Ref.oop n ∈ (h.obj e).fields.tail → Cb n
  step : ∀ m, m ≠ e → Cb m → ∀ n, Ref.oop n ∈ strong (h.obj m) → Cb n
  lt : ∀ n, Cb n → n < h.size

theorem OnlyKey.scan {h : Heap} {e k : Nat} {Cb : Nat → Prop} (ho : OnlyKey h e k Cb) (s : Marks)
    (hs : s.eph e = true) : ∀ m, Cb m → ∀ n, Ref.oop n ∈ scan h s m → Cb n := by
  intro m hm n hn
  by_cases hme : m = e
  · subst hme
    simp only [Verif.GC.scan, ho.ctx, hs] at hn
    simp only [Bool.false_eq_true, if_false, Bool.true_or, if_true, List.mem_singleton,
      Ref.oop.injEq] at hn
    rw [hn]; exact ho.cls hm
  · exact ho.step m hme hm n (scan_sub_strong h s m _ hn)

theorem round_mourns {h : Heap} {e k : Nat} {Cb : Nat → Prop} (ho : OnlyKey h e k Cb)
    (hcl : ∀ m n, m < h.size → Ref.oop n ∈ strong (h.obj m) → n < h.size)
    {fuel : Nat} (hfu : 5 * h.size < fuel) {s s1 s2 : Marks} {ds : List Nat} (hp : RoundPre h s)
    (hnd : s.buf.Nodup) (hsC : ∀ m, s.marked m = true → Cb m) (he : e ∈ s.buf)
    (h1 : pass1 h s.buf { s with buf := [] } = .done s1)
    (h2 : pass2 h fuel s.buf s1 = .done (s2, ds)) : e ∈ ds := by
  obtain ⟨t1, g1, hm⟩ := mid_of_pass1 hp (pass1_done_keys h _ _ _ h1)
  rw [h1] at g1
  cases g1
  have hothers : ∀ x ∈ s.buf, x ≠ e → ∀ n, Ref.oop n ∈ (h.obj x).fields → Cb n := by
    intro x hx hxe n hn
    obtain ⟨a, b, _⟩ := hp.buf x hx
    exact ho.step x hxe (hsC x b) n (strong_fields a hn)
  have hse : s1.eph e = true := by
    refine hm.eph_keep hnd e he k ho.key ((hp.eph e).trans ho.eph) ?_ ?_
    · cases hz : s.marked k
      · rfl
      · exact absurd (hsC k hz) ho.not_mem
    · rintro x hx hxe ⟨l, hl⟩
      exact ho.not_mem (hothers x hx hxe k (by rw [hl]; exact List.mem_cons_self))
  obtain ⟨pre, post, hL⟩ := List.append_of_mem he
  have hsz : ∀ m, s1.marked m = true → m < h.size := by
    intro m hmm
    rcases (hm.marked m).mp hmm with h3 | ⟨x, hx, l, hl⟩
    · exact ho.lt m (hsC m h3)
    · exact hcl x m (ho.lt x (hsC x (hp.buf x hx).2.1)) (strong_fields (hp.buf x hx).1
        (by rw [hl]; exact List.mem_cons_self))
  have hw := hm.waiting
  have hfl := hm.flags
  have hiv := hm.inv
  rw [hL] at hnd hothers h2 hw hfl hiv
  have hnd' := hnd
  rw [List.nodup_append] at hnd'
  obtain ⟨_, hnd2, hdisj⟩ := hnd'
  rw [List.nodup_cons] at hnd2
  have hepre : e ∉ pre := fun hx => hdisj e hx e List.mem_cons_self rfl
  obtain ⟨t, d1, ht, hpt⟩ := pass2_post h Cb ho.lt fuel hfu (e :: post) pre s1
    (fun x hx => hw x (List.mem_append_left _ hx)) hfl hiv
    (fun s' hs' => ho.scan s' (by rw [hs' e hepre]; exact hse))
    (fun x hx => hothers x (List.mem_append_left _ hx) (by rintro rfl; exact hepre hx))
  have hte : t.eph e = true := by rw [hpt.eph, if_neg hepre]; exact hse
  obtain ⟨l, hl⟩ := ho.key
  have hem : s1.marked e = true := (hw e (by simp)).2.1
  have hCe : Cb e := by
    apply hsC
    exact (hp.buf e he).2.1
  have hft : Flags h (· ∈ e :: post) t :=
    flags_after hfl (fun x hx => (hw x (List.mem_append_left _ hx)).1) hpt.eph
  obtain ⟨u, dead, hu, hpu⟩ := pass2Step_post h Cb (fun n => n < h.size) ho.lt (fun _ h => h) fuel hfu
    t e (.oop k) l post hl ho.eph hft hpt.inv (ho.scan t hte)
    (fun m hmm n hn => hcl m n hmm (scan_sub_strong h t m _ hn))
    (fun n hn => ho.data hCe n (by rw [hl]; exact hn))
    (fun n hn => by
      cases hn
      exact hcl e k (ho.lt e hCe) (strong_fields ho.eph (by rw [hl]; exact List.mem_cons_self)))
    (hpt.mono e hem)
  have hdead : dead = true := hpu.dead_of hte k rfl ho.not_mem
  have hfu' : Flags h (· ∈ post ++ []) u := by
    have := flags_after (L := [e]) (l2 := post) hft (by simpa using ho.eph) (by
      intro m; rw [hpu.eph]; simp)
    simpa using this
  have hszt : ∀ x ∈ post, x < h.size := fun x hx => hsz x (hw x (by simp [hx])).2.1
  obtain ⟨v, d2, hv, hpv⟩ := pass2_post h (fun n => n < h.size) (fun _ h => h) fuel hfu [] post u
    (fun x hx => by
      obtain ⟨a, b, c⟩ := hw x (by simp [hx])
      exact ⟨a, hpu.mono x (hpt.mono x b), c⟩) hfu' (by simpa using hpu.inv)
    (fun s' _ m hmm n hn => hcl m n hmm (scan_sub_strong h s' m _ hn))
    (fun x hx n hn => hcl x n (hszt x hx) (strong_fields (hw x (by simp [hx])).1 hn))
  have hrest : pass2 h fuel (e :: post) t = .done (v, e :: d2) := by
    rw [pass2, hl]
    simp only [hu, hv, hdead, if_true]
  rw [pass2_append h fuel (e :: post) pre s1 t d1 ht v (e :: d2) hrest] at h2
  simp only [Out.done.injEq, Prod.mk.injEq] at h2
  rw [← h2.2]
  simp

theorem markEphemerons_mourns {h : Heap} {e k : Nat} {Cb : Nat → Prop} (ho : OnlyKey h e k Cb)
    (hcl : ∀ m n, m < h.size → Ref.oop n ∈ strong (h.obj m) → n < h.size)
    (hkp : KeysPlain h) {fuel : Nat} (hfu : 5 * h.size < fuel) :
    ∀ (depth : Nat) (s s' : Marks), RoundPre h s → s.buf.Nodup → (∀ m, s.marked m = true → Cb m) →
      markEphemerons h fuel depth s = .done s' → s'.marked e = true → e ∈ s'.buf := by
  intro depth
  induction depth with
  | zero => intro s s' _ _ _ hd; exact absurd hd (by simp [markEphemerons])
  | succ depth ih =>
    intro s s' hp hnd hsC hd hm'
    obtain ⟨d, s1, s2, ds, hdd, h1, h2, h3⟩ := markEphemerons_done hd
    cases hdd
    by_cases he : e ∈ s.buf
    · have := round_mourns ho hcl hfu hp hnd hsC he h1 h2
      rcases h3 with ⟨_, rfl⟩ | ⟨_, s3, _, rfl⟩
      · exact this
      · exact List.mem_append_right _ this
    · obtain ⟨t1, t2, ts, g1, g2, hr⟩ := round_post Cb ho.lt hfu hp
        (pass1_done_keys h _ _ _ h1)
        (fun s' hs' => ho.scan s' (by rw [hs' e he, hp.eph]; exact ho.eph))
        (fun x hx n hn => ho.step x (by rintro rfl; exact he hx) (hsC x (hp.buf x hx).2.1) n
          (strong_fields (hp.buf x hx).1 hn))
      rw [h1] at g1
      cases g1
      rw [h2] at g2
      cases g2
      have hsC2 : ∀ m, s2.marked m = true → Cb m := fun m hm => (hr.upper m hm).elim (hsC m) id
      rcases h3 with ⟨hb, rfl⟩ | ⟨hb, s3, hs3, rfl⟩
      · exfalso
        obtain ⟨l, hl⟩ := ho.key
        have hk : s2.marked k = true := closed_of_inv (s := s2) hr.pre hb e hm' k
          (strong_fields ho.eph (by rw [hl]; exact List.mem_cons_self))
        exact ho.not_mem (hsC2 k hk)
      · exact List.mem_append_left _ (ih s2 s3 hr.pre (hr.fresh hkp).1 hsC2 hs3 hm')

end Verif.GC
