/-
The rounds of `mark_ephemeron_oops`.
-/
import Verif.GC.MarkLemmas

namespace Verif.GC

/-- `k` is the key of `e`. -/
def IsKey (h : Heap) (e k : Nat) : Prop := ∃ l, (h.obj e).fields = Ref.oop k :: l

/-- `k` is the key of some element of `l`. -/
def KeyOf (h : Heap) (l : List Nat) (k : Nat) : Prop := ∃ e ∈ l, IsKey h e k

theorem scan_sub_strong (h : Heap) (s : Marks) (m : Nat) : ∀ r ∈ scan h s m, r ∈ strong (h.obj m) := by
  intro r hr
  simp only [scan, strong] at *
  rcases List.mem_cons.mp hr with h1 | h1
  · rw [h1]; exact List.mem_cons_self
  · refine List.mem_cons_of_mem _ ?_
    by_cases hc : (h.obj m).context = true
    · rw [if_pos hc] at h1
      simpa [hc] using h1
    · rw [if_neg hc] at h1
      by_cases hw : (s.eph m || (h.obj m).weak) = true
      · rw [if_pos hw] at h1; exact absurd h1 (by simp)
      · rw [if_neg hw] at h1
        have : (h.obj m).weak = false := by
          cases hx : (h.obj m).weak
          · rfl
          · exact absurd (by simp [hx]) hw
        simpa [this] using h1

/-- What marking a list of words achieves. -/
structure PostL (h : Heap) (P V D C : Nat → Prop) (l : List Ref) (s s' : Marks) : Prop where
  mono : ∀ m, s.marked m = true → s'.marked m = true
  eph : s'.eph = s.eph
  upper : ∀ m, s'.marked m = true → s.marked m = true ∨ C m
  todo : ∀ n, Ref.oop n ∈ l → s'.marked n = true
  inv : Inv h P V D (fun _ => False) s'
  buf : ∃ new, s'.buf = s.buf ++ new ∧ new.Nodup ∧
    ∀ e ∈ new, s'.marked e = true ∧ s.eph e = true ∧ (h.obj e).context = false ∧ s.marked e = false

theorem unmarkedCount_le (h : Heap) (s : Marks) : unmarkedCount h s ≤ h.size := by
  unfold unmarkedCount
  exact Nat.le_trans (List.length_filter_le _ _) (by simp)

theorem maybeMark_post (h : Heap) (P V D C : Nat → Prop) (hlt : ∀ n, C n → n < h.size)
    (fuel : Nat) (hfu : 5 * h.size < fuel) (s : Marks) (hf : Flags h D s)
    (hI : Inv h P V D (fun _ => False) s)
    (hC : ∀ m, C m → ∀ n, Ref.oop n ∈ scan h s m → C n) (r : Ref)
    (hT : ∀ n, r = Ref.oop n → C n) :
    ∃ s', maybeMark h fuel s r = some s' ∧ PostL h P V D C [r] s s' := by
  have triv : (∀ n, r = Ref.oop n → s.marked n = true) → PostL h P V D C [r] s s := by
    intro hr
    refine ⟨fun _ h => h, rfl, fun _ h => Or.inl h, ?_, hI, ⟨[], by simp, by simp, by simp⟩⟩
    intro n hn
    exact hr n (by simpa [eq_comm] using hn)
  cases r with
  | small => exact ⟨s, rfl, triv (by simp)⟩
  | builtin => exact ⟨s, rfl, triv (by simp)⟩
  | oop n =>
    rw [maybeMark]
    by_cases hm : s.marked n = true
    · rw [if_pos hm]
      exact ⟨s, rfl, triv (by intro m hm'; cases hm'; exact hm)⟩
    · rw [if_neg hm]
      have hm' : s.marked n = false := by simpa using hm
      obtain ⟨s', hs', hp⟩ := markLoop_post h P V D C hlt (weight h (.one n) [] s) (.one n) [] s fuel
        (Nat.le_refl _) (by
          have := unmarkedCount_le h s
          simp only [weight, ctlWeight, hm', List.length_nil]
          simp only [Bool.false_eq_true, if_false]
          omega) hf (by
          intro m hmm hP x hx
          rcases hI m hmm (fun hy => hP (Or.inl hy)) x hx with (h1 | h1 | h1) | h1
          · exact Or.inl (Or.inl h1)
          · exact Or.inl (Or.inr (Or.inl h1))
          · exact absurd h1 (by simp)
          · exact Or.inr h1) hC (by
          rintro x (hx | ⟨_, hx, _⟩)
          · have hx : x = n := hx
            subst hx; exact hT _ rfl
          · exact absurd hx (by simp))
      refine ⟨s', hs', hp.mono, hp.eph, hp.upper, ?_, hp.inv, ?_⟩
      · intro x hx
        exact hp.todo x (Or.inl (by simpa using hx))
      · obtain ⟨new, hb, hnd, hne⟩ := hp.buf
        refine ⟨new, hb, hnd, fun e he => ?_⟩
        obtain ⟨h1, h2, h3, h4⟩ := hne e he
        refine ⟨h1, h2, h3, ?_⟩
        rcases h4 with h4 | h4
        · exact h4
        · cases h4; exact hm'

theorem PostL.trans {h : Heap} {P V D C : Nat → Prop} {l1 l2 : List Ref} {s s1 s2 : Marks}
    (h1 : PostL h P V D C l1 s s1) (h2 : PostL h P V D C l2 s1 s2) :
    PostL h P V D C (l1 ++ l2) s s2 := by
  refine ⟨fun m hm => h2.mono m (h1.mono m hm), by rw [h2.eph, h1.eph], ?_, ?_, h2.inv, ?_⟩
  · intro m hm
    rcases h2.upper m hm with h3 | h3
    · exact h1.upper m h3
    · exact Or.inr h3
  · intro n hn
    rcases List.mem_append.mp hn with h3 | h3
    · exact h2.mono n (h1.todo n h3)
    · exact h2.todo n h3
  · obtain ⟨n1, hb1, hd1, he1⟩ := h1.buf
    obtain ⟨n2, hb2, hd2, he2⟩ := h2.buf
    refine ⟨n1 ++ n2, by rw [hb2, hb1]; simp, ?_, ?_⟩
    · rw [List.nodup_append]
      refine ⟨hd1, hd2, ?_⟩
      intro a ha b hb hab
      subst hab
      have := (he2 a hb).2.2.2
      rw [(he1 a ha).1] at this
      exact absurd this (by simp)
    · intro e he
      rcases List.mem_append.mp he with h3 | h3
      · obtain ⟨a, b, c, d⟩ := he1 e h3
        exact ⟨h2.mono e a, b, c, d⟩
      · obtain ⟨a, b, c, d⟩ := he2 e h3
        refine ⟨a, h1.eph ▸ b, c, ?_⟩
        cases hx : s.marked e
        · rfl
        · rw [h1.mono e hx] at d; exact absurd d (by simp)

theorem markRefs_post (h : Heap) (P V D C : Nat → Prop) (hlt : ∀ n, C n → n < h.size)
    (fuel : Nat) (hfu : 5 * h.size < fuel) :
    ∀ (l : List Ref) (s : Marks), Flags h D s → Inv h P V D (fun _ => False) s →
    (∀ m, C m → ∀ n, Ref.oop n ∈ scan h s m → C n) → (∀ n, Ref.oop n ∈ l → C n) →
    ∃ s', markRefs h fuel l s = some s' ∧ PostL h P V D C l s s'
  | [], s, _, hI, _, _ =>
    ⟨s, rfl, fun _ h => h, rfl, fun _ h => Or.inl h, by simp, hI, ⟨[], by simp, by simp, by simp⟩⟩
  | r :: l, s, hf, hI, hC, hT => by
    obtain ⟨s1, h1, hp1⟩ := maybeMark_post h P V D C hlt fuel hfu s hf hI hC r
      (fun n hn => hT n (by rw [hn]; exact List.mem_cons_self))
    have hf1 : Flags h D s1 := by
      refine ⟨fun m hm => hf.1 m (hp1.eph ▸ hm), fun m hm hm' => hf.2 m hm (hp1.eph ▸ hm')⟩
    obtain ⟨s2, h2, hp2⟩ := markRefs_post h P V D C hlt fuel hfu l s1 hf1 hp1.inv
      (fun m hm n hn => hC m hm n (by rw [scan_congr hp1.eph] at hn; exact hn))
      (fun n hn => hT n (List.mem_cons_of_mem _ hn))
    refine ⟨s2, ?_, hp1.trans hp2⟩
    rw [markRefs, h1]; exact h2

/-! ### One ephemeron -/

/-- What one turn of the second pass achieves; `l` are the ephemerons still to come. -/
structure PostE (h : Heap) (Cd C : Nat → Prop) (e : Nat) (key : Ref) (data : List Ref) (l : List Nat)
    (s s' : Marks) (dead : Bool) : Prop where
  mono : ∀ m, s.marked m = true → s'.marked m = true
  eph : ∀ m, s'.eph m = if m = e then true else s.eph m
  upper : ∀ m, s'.marked m = true → s.marked m = true ∨ Cd m ∨ C m
  fields : ∀ n, Ref.oop n ∈ key :: data → s'.marked n = true
  inv : Inv h (KeyOf h l) (fun _ => False) (· ∈ l) (fun _ => False) s'
  buf : ∃ new, s'.buf = s.buf ++ new ∧ new.Nodup ∧
    ∀ x ∈ new, s'.marked x = true ∧ s.eph x = true ∧ (h.obj x).context = false ∧
      (s.marked x = false ∨ IsKey h e x)
  dead_eph : dead = true → s.eph e = true
  dead_of : s.eph e = true → ∀ k, key = .oop k → ¬ Cd k → dead = true

theorem Inv.mono {h : Heap} {P P' V V' D D' T T' : Nat → Prop} {s : Marks}
    (hP : ∀ m, s.marked m = true → P m → P' m) (hV : ∀ m, V m → V' m) (hD : ∀ m, D m → D' m)
    (hT : ∀ m, T m → T' m) (hI : Inv h P V D T s) : Inv h P' V' D' T' s := by
  intro m hm hP' n hn
  rcases hI m hm (fun hx => hP' (hP m hm hx)) n hn with (h1 | h1 | h1) | ⟨h1, h2, h3⟩
  · exact Or.inl (Or.inl h1)
  · exact Or.inl (Or.inr (Or.inl (hV n h1)))
  · exact Or.inl (Or.inr (Or.inr (hT n h1)))
  · exact Or.inr ⟨h1, h2, h3.imp id (hD m)⟩

theorem keyClear_eph (s : Marks) (r : Ref) : (keyClear s r).eph = s.eph := by
  cases r <;> rfl

theorem keyClear_buf (s : Marks) (r : Ref) : (keyClear s r).buf = s.buf := by
  cases r <;> rfl

theorem keyClear_marked (s : Marks) (r : Ref) (m : Nat) :
    (keyClear s r).marked m = true ↔ s.marked m = true ∧ r ≠ .oop m := by
  cases r with
  | small => simp [keyClear]
  | builtin => simp [keyClear]
  | oop n =>
    simp only [keyClear, clearMark_marked]
    by_cases hm : m = n
    · subst hm; simp
    · rw [if_neg hm]
      constructor
      · intro h; exact ⟨h, by simpa [eq_comm] using hm⟩
      · exact fun h => h.1

theorem pass2Step_post (h : Heap) (Cd C : Nat → Prop) (hltd : ∀ n, Cd n → n < h.size)
    (hlt : ∀ n, C n → n < h.size) (fuel : Nat) (hfu : 5 * h.size < fuel) (s : Marks) (e : Nat)
    (key : Ref) (data : List Ref) (l : List Nat) (hfe : (h.obj e).fields = key :: data)
    (hee : (h.obj e).ephemeron = true)
    (hf : Flags h (· ∈ e :: l) s)
    (hI : Inv h (KeyOf h (e :: l)) (fun _ => False) (· ∈ e :: l) (fun _ => False) s)
    (hCd : ∀ m, Cd m → ∀ n, Ref.oop n ∈ scan h s m → Cd n)
    (hC : ∀ m, C m → ∀ n, Ref.oop n ∈ scan h s m → C n)
    (hdata : ∀ n, Ref.oop n ∈ data → Cd n) (hkey : ∀ n, key = .oop n → C n)
    (hem : s.marked e = true) :
    ∃ s' dead, pass2Step h fuel s e key data = some (s', dead) ∧
      PostE h Cd C e key data l s s' dead := by
  set s0 := keyClear s key with hs0
  have he0 : s0.eph = s.eph := keyClear_eph s key
  have hb0 : s0.buf = s.buf := keyClear_buf s key
  have hm0 : ∀ m, s0.marked m = true ↔ s.marked m = true ∧ key ≠ .oop m := keyClear_marked s key
  have hf0 : Flags h (· ∈ e :: l) s0 := ⟨fun m hm => hf.1 m (he0 ▸ hm), fun m hm hm' =>
    hf.2 m hm (he0 ▸ hm')⟩
  have hI0 : Inv h (KeyOf h l) (fun n => key = .oop n) (· ∈ e :: l) (fun _ => False) s0 := by
    intro m hm hP n hn
    obtain ⟨h1, h2⟩ := (hm0 m).mp hm
    have hP' : ¬ KeyOf h (e :: l) m := by
      rintro ⟨x, hx, t, ht⟩
      rcases List.mem_cons.mp hx with h3 | h3
      · subst h3
        rw [hfe] at ht
        simp only [List.cons.injEq] at ht
        exact h2 ht.1
      · exact hP ⟨x, h3, t, ht⟩
    rcases hI m h1 hP' n hn with (h3 | h3 | h3) | h3
    · by_cases hk : key = .oop n
      · exact Or.inl (Or.inr (Or.inl hk))
      · exact Or.inl (Or.inl ((hm0 n).mpr ⟨h3, hk⟩))
    · exact absurd h3 (by simp)
    · exact absurd h3 (by simp)
    · right
      rw [hb0]; exact h3
  obtain ⟨s1, hs1, hp1⟩ := markRefs_post h _ _ _ Cd hltd fuel hfu data s0 hf0 hI0
    (fun m hm n hn => hCd m hm n (by rw [scan_congr he0] at hn; exact hn)) hdata
  have hf1 : Flags h (· ∈ e :: l) s1 := ⟨fun m hm => hf0.1 m (hp1.eph ▸ hm), fun m hm hm' =>
    hf0.2 m hm (hp1.eph ▸ hm')⟩
  obtain ⟨s2, hs2, hp2⟩ := maybeMark_post h _ _ _ C hlt fuel hfu s1 hf1 hp1.inv
    (fun m hm n hn => hC m hm n (by
      rw [scan_congr hp1.eph, scan_congr he0] at hn; exact hn)) key hkey
  have hkey2 : ∀ n, key = .oop n → s2.marked n = true := fun n hn =>
    hp2.todo n (by rw [hn]; exact List.mem_cons_self)
  have hmono : ∀ m, s.marked m = true → s2.marked m = true := by
    intro m hm
    by_cases hk : key = .oop m
    · exact hkey2 m hk
    · exact hp2.mono m (hp1.mono m ((hm0 m).mpr ⟨hm, hk⟩))
  refine ⟨setEph s2 e true, !keyMarked s1 key && s1.eph e, ?_, hmono, ?_, ?_, ?_, ?_, ?_, ?_, ?_⟩
  · rw [pass2Step, hs1]
    simp only [hs2]
  · intro m
    rw [setEph_eph, hp2.eph, hp1.eph, he0]
  · intro m hm
    rw [setEph_marked] at hm
    rcases hp2.upper m hm with h1 | h1
    · rcases hp1.upper m h1 with h2 | h2
      · exact Or.inl ((hm0 m).mp h2).1
      · exact Or.inr (Or.inl h2)
    · exact Or.inr (Or.inr h1)
  · intro n hn
    rw [setEph_marked]
    rcases List.mem_cons.mp hn with h1 | h1
    · exact hkey2 n h1.symm
    · exact hp2.mono n (hp1.todo n h1)
  · intro m hm hP n hn
    rw [setEph_marked] at hm
    rw [setEph_marked, setEph_buf]
    rcases hp2.inv m hm hP n hn with (h1 | h1 | h1) | ⟨h1, h2, h3⟩
    · exact Or.inl (Or.inl h1)
    · exact Or.inl (Or.inl (hkey2 n h1))
    · exact absurd h1 (by simp)
    · rcases h3 with h3 | h3
      · exact Or.inr ⟨h1, h2, Or.inl h3⟩
      · rcases List.mem_cons.mp h3 with h4 | h4
        · subst h4
          left; left
          have hn' : Ref.oop n ∈ (h.obj m).fields := by
            simp only [strong, h1] at hn
            rcases List.mem_cons.mp hn with h5 | h5
            · exact absurd (by simpa using h5) h2
            · simpa using h5
          rw [hfe] at hn'
          rcases List.mem_cons.mp hn' with h5 | h5
          · exact hkey2 n h5.symm
          · exact hp2.mono n (hp1.todo n h5)
        · exact Or.inr ⟨h1, h2, Or.inr h4⟩
  · obtain ⟨n1, hb1, hd1, he1⟩ := hp1.buf
    obtain ⟨n2, hb2, hd2, he2⟩ := hp2.buf
    have back : ∀ x, s0.marked x = false → s.marked x = false ∨ IsKey h e x := by
      intro x hx
      by_cases hk : key = .oop x
      · right; exact ⟨data, by rw [hfe, hk]⟩
      · left
        cases hy : s.marked x
        · rfl
        · rw [(hm0 x).mpr ⟨hy, hk⟩] at hx; exact absurd hx (by simp)
    refine ⟨n1 ++ n2, by rw [setEph_buf, hb2, hb1, hb0]; simp, ?_, ?_⟩
    · rw [List.nodup_append]
      refine ⟨hd1, hd2, ?_⟩
      intro a ha b hb hab
      subst hab
      have := (he2 a hb).2.2.2
      rw [(he1 a ha).1] at this
      exact absurd this (by simp)
    · intro x hx
      rw [setEph_marked]
      rcases List.mem_append.mp hx with h3 | h3
      · obtain ⟨a, b, c, d⟩ := he1 x h3
        exact ⟨hp2.mono x a, he0 ▸ b, c, back x d⟩
      · obtain ⟨a, b, c, d⟩ := he2 x h3
        refine ⟨a, by rw [hp1.eph, he0] at b; exact b, c, back x ?_⟩
        cases hy : s0.marked x
        · rfl
        · rw [hp1.mono x hy] at d; exact absurd d (by simp)
  · intro hd
    rw [Bool.and_eq_true, hp1.eph, he0] at hd
    exact hd.2
  · intro hse k hk hnk
    rw [hp1.eph, he0, hse, Bool.and_true, hk]
    simp only [keyMarked, Bool.not_eq_true']
    cases hx : s1.marked k
    · rfl
    · rcases hp1.upper k hx with h1 | h1
      · exact absurd hk ((hm0 k).mp h1).2
      · exact absurd h1 hnk

/-! ### The second pass -/

/-- What the second pass achieves on the ephemerons `L`; `l2` are those still to come. -/
structure PostP (h : Heap) (C : Nat → Prop) (L l2 : List Nat) (s s' : Marks) (ds : List Nat) :
    Prop where
  mono : ∀ m, s.marked m = true → s'.marked m = true
  eph : ∀ m, s'.eph m = if m ∈ L then true else s.eph m
  upper : ∀ m, s'.marked m = true → s.marked m = true ∨ C m
  inv : Inv h (KeyOf h l2) (fun _ => False) (· ∈ l2) (fun _ => False) s'
  buf : ∃ new, s'.buf = s.buf ++ new ∧
    (∀ x ∈ new, s'.marked x = true ∧ (h.obj x).ephemeron = true ∧ (h.obj x).context = false ∧
      (s.marked x = false ∨ KeyOf h L x)) ∧
    ((∀ x, KeyOf h L x → (h.obj x).ephemeron = false) → new.Nodup)
  dead_sub : ds.Sublist L
  dead_eph : L.Nodup → ∀ e ∈ ds, s.eph e = true

/-- The ephemerons to work on: they have fields, they are marked. -/
def Waiting (h : Heap) (s : Marks) (L : List Nat) : Prop :=
  ∀ e ∈ L, (h.obj e).ephemeron = true ∧ s.marked e = true ∧ (h.obj e).fields ≠ []

theorem flags_after {h : Heap} {L l2 : List Nat} {s s' : Marks} (hf : Flags h (· ∈ L ++ l2) s)
    (hL : ∀ e ∈ L, (h.obj e).ephemeron = true)
    (he : ∀ m, s'.eph m = if m ∈ L then true else s.eph m) : Flags h (· ∈ l2) s' := by
  refine ⟨fun m hm => ?_, fun m hm hm' => ?_⟩
  · rw [he] at hm
    by_cases hmL : m ∈ L
    · exact hL m hmL
    · rw [if_neg hmL] at hm; exact hf.1 m hm
  · rw [he] at hm'
    by_cases hmL : m ∈ L
    · rw [if_pos hmL] at hm'; exact absurd hm' (by simp)
    · rw [if_neg hmL] at hm'
      rcases List.mem_append.mp (hf.2 m hm hm') with h1 | h1
      · exact absurd h1 hmL
      · exact h1

theorem pass2_post (h : Heap) (C : Nat → Prop) (hlt : ∀ n, C n → n < h.size) (fuel : Nat)
    (hfu : 5 * h.size < fuel) (l2 : List Nat) :
    ∀ (L : List Nat) (s : Marks), Waiting h s L → Flags h (· ∈ L ++ l2) s →
    Inv h (KeyOf h (L ++ l2)) (fun _ => False) (· ∈ L ++ l2) (fun _ => False) s →
    (∀ s' : Marks, (∀ m, m ∉ L → s'.eph m = s.eph m) →
      ∀ m, C m → ∀ n, Ref.oop n ∈ scan h s' m → C n) →
    (∀ e ∈ L, ∀ n, Ref.oop n ∈ (h.obj e).fields → C n) →
    ∃ s' ds, pass2 h fuel L s = .done (s', ds) ∧ PostP h C L l2 s s' ds
  | [], s, _, _, hI, _, _ =>
    ⟨s, [], rfl, fun _ h => h, by simp, fun _ h => Or.inl h, hI,
      ⟨[], by simp, by simp, by simp⟩, by simp, by simp⟩
  | e :: L, s, hW, hf, hI, hC, hF => by
    obtain ⟨hee, hem, hne⟩ := hW e List.mem_cons_self
    obtain ⟨key, data, hfe⟩ : ∃ key data, (h.obj e).fields = key :: data := by
      cases hx : (h.obj e).fields with
      | nil => exact absurd hx hne
      | cons a b => exact ⟨a, b, rfl⟩
    obtain ⟨s1, dead, hs1, hp1⟩ := pass2Step_post h C C hlt hlt fuel hfu s e key data (L ++ l2) hfe hee
      hf hI (hC s (fun _ _ => rfl)) (hC s (fun _ _ => rfl))
      (fun n hn => hF e List.mem_cons_self n (by rw [hfe]; exact List.mem_cons_of_mem _ hn))
      (fun n hn => hF e List.mem_cons_self n (by rw [hfe, hn]; exact List.mem_cons_self)) hem
    have hf1 : Flags h (· ∈ L ++ l2) s1 :=
      flags_after (L := [e]) hf (by simpa using hee) (by
        intro m; rw [hp1.eph]; simp)
    obtain ⟨s2, ds, hs2, hp2⟩ := pass2_post h C hlt fuel hfu l2 L s1
      (fun x hx => by
        obtain ⟨a, b, c⟩ := hW x (List.mem_cons_of_mem _ hx)
        exact ⟨a, hp1.mono x b, c⟩) hf1 hp1.inv
      (fun s' hs' => hC s' (fun m hm => by
        rw [hs' m (fun hx => hm (List.mem_cons_of_mem _ hx)), hp1.eph, if_neg]
        rintro rfl; exact hm List.mem_cons_self))
      (fun x hx => hF x (List.mem_cons_of_mem _ hx))
    refine ⟨s2, if dead then e :: ds else ds, ?_, ?_, ?_, ?_, hp2.inv, ?_, ?_, ?_⟩
    · rw [pass2, hfe]
      simp only [hs1, hs2]
    · exact fun m hm => hp2.mono m (hp1.mono m hm)
    · intro m
      rw [hp2.eph, hp1.eph]
      by_cases h1 : m ∈ L
      · simp [h1]
      · by_cases h2 : m = e <;> simp [h1, h2]
    · intro m hm
      rcases hp2.upper m hm with h1 | h1
      · rcases hp1.upper m h1 with h2 | h2 | h2
        · exact Or.inl h2
        · exact Or.inr h2
        · exact Or.inr h2
      · exact Or.inr h1
    · obtain ⟨n1, hb1, hd1, he1⟩ := hp1.buf
      obtain ⟨n2, hb2, he2, hd2⟩ := hp2.buf
      refine ⟨n1 ++ n2, by rw [hb2, hb1]; simp, ?_, ?_⟩
      · intro x hx
        rcases List.mem_append.mp hx with h3 | h3
        · obtain ⟨a, b, c, d⟩ := he1 x h3
          exact ⟨hp2.mono x a, hf.1 x b, c, d.imp id (fun hk => ⟨e, List.mem_cons_self, hk⟩)⟩
        · obtain ⟨a, b, c, d⟩ := he2 x h3
          refine ⟨a, b, c, ?_⟩
          rcases d with d | ⟨y, hy, hk⟩
          · left
            cases hz : s.marked x
            · rfl
            · rw [hp1.mono x hz] at d; exact absurd d (by simp)
          · exact Or.inr ⟨y, List.mem_cons_of_mem _ hy, hk⟩
      · intro hkp
        rw [List.nodup_append]
        refine ⟨hd1, hd2 (fun x ⟨y, hy, hk⟩ => hkp x ⟨y, List.mem_cons_of_mem _ hy, hk⟩), ?_⟩
        intro a ha b hb hab
        subst hab
        obtain ⟨_, h2, _, h4⟩ := he2 a hb
        rcases h4 with h4 | ⟨y, hy, hk⟩
        · rw [(he1 a ha).1] at h4; exact absurd h4 (by simp)
        · rw [hkp a ⟨y, List.mem_cons_of_mem _ hy, hk⟩] at h2; exact absurd h2 (by simp)
    · cases dead
      · exact hp2.dead_sub.cons e
      · exact hp2.dead_sub.cons_cons e
    · intro hnd x hx
      rw [List.nodup_cons] at hnd
      have key : ∀ y ∈ ds, s.eph y = true := by
        intro y hy
        have h1 := hp2.dead_eph hnd.2 y hy
        rw [hp1.eph, if_neg] at h1
        · exact h1
        · rintro rfl; exact hnd.1 (hp2.dead_sub.subset hy)
      cases hdd : dead
      · rw [hdd] at hx; exact key x (by simpa using hx)
      · rw [hdd] at hx
        rcases List.mem_cons.mp (by simpa using hx) with h1 | h1
        · subst h1; exact hp1.dead_eph hdd
        · exact key x h1

theorem pass2_append (h : Heap) (fuel : Nat) (b : List Nat) : ∀ (a : List Nat) (s s1 : Marks)
    (d1 : List Nat), pass2 h fuel a s = .done (s1, d1) → ∀ (s2 : Marks) (d2 : List Nat),
    pass2 h fuel b s1 = .done (s2, d2) → pass2 h fuel (a ++ b) s = .done (s2, d1 ++ d2)
  | [], s, s1, d1, h1, s2, d2, h2 => by
    rw [pass2] at h1
    simp only [Out.done.injEq, Prod.mk.injEq] at h1
    obtain ⟨rfl, rfl⟩ := h1
    simpa using h2
  | e :: a, s, s1, d1, h1, s2, d2, h2 => by
    rw [List.cons_append, pass2]
    rw [pass2] at h1
    cases hfe : (h.obj e).fields with
    | nil => rw [hfe] at h1; exact absurd h1 (by simp)
    | cons key data =>
      rw [hfe] at h1
      simp only at h1 ⊢
      cases hst : pass2Step h fuel s e key data with
      | none => rw [hst] at h1; exact absurd h1 (by simp)
      | some pr =>
        obtain ⟨t, dead⟩ := pr
        rw [hst] at h1
        simp only at h1 ⊢
        cases hrec : pass2 h fuel a t with
        | crash => rw [hrec] at h1; exact absurd h1 (by simp)
        | fuel => rw [hrec] at h1; exact absurd h1 (by simp)
        | done pr2 =>
          obtain ⟨t2, ds⟩ := pr2
          rw [hrec] at h1
          simp only [Out.done.injEq, Prod.mk.injEq] at h1
          obtain ⟨rfl, rfl⟩ := h1
          rw [pass2_append h fuel b a t t2 ds hrec s2 d2 h2]
          cases dead <;> simp

/-! ### The first pass -/

theorem pass1_post (h : Heap) : ∀ (L : List Nat) (s : Marks),
    (∀ e ∈ L, ∃ k l, (h.obj e).fields = k :: l ∧ k ≠ .small) →
    ∃ s1, pass1 h L s = .done s1 ∧ s1.buf = s.buf ∧
      (∀ m, s1.marked m = true ↔ s.marked m = true ∨ KeyOf h L m) ∧
      (∀ m, m ∉ L → s1.eph m = s.eph m) ∧
      (∀ m, s1.eph m = true → s.eph m = true) ∧
      (∀ e ∈ L, ∀ k, IsKey h e k → s1.eph e = true → s.marked k = false) ∧
      (L.Nodup → ∀ e ∈ L, ∀ k, IsKey h e k → s.eph e = true → s.marked k = false →
        (∀ x ∈ L, x ≠ e → ¬ IsKey h x k) → s1.eph e = true)
  | [], s, _ => ⟨s, rfl, rfl, by simp [KeyOf], by simp, fun _ h => h, by simp, by simp⟩
  | e :: L, s, hk => by
    obtain ⟨key, data, hfe, hns⟩ := hk e List.mem_cons_self
    set s' := pass1Step s e key with hs'
    have hb' : s'.buf = s.buf := by
      rw [hs', pass1Step]
      cases key <;> simp only [keySet, setMark_buf] <;> split <;> rfl
    have hm' : ∀ m, s'.marked m = true ↔ s.marked m = true ∨ IsKey h e m := by
      intro m
      have hbase : ∀ b : Bool, (if b = true then setEph s e false else s).marked = s.marked := by
        intro b; cases b <;> rfl
      rw [hs', pass1Step]
      constructor
      · intro hh
        cases key with
        | small => exact absurd rfl hns
        | builtin => simp only [keySet] at hh; rw [hbase] at hh; exact Or.inl hh
        | oop k =>
          simp only [keySet, setMark_marked] at hh
          by_cases hmk : m = k
          · subst hmk; exact Or.inr ⟨data, hfe⟩
          · rw [if_neg hmk, hbase] at hh; exact Or.inl hh
      · intro hh
        cases key with
        | small => exact absurd rfl hns
        | builtin =>
          simp only [keySet]; rw [hbase]
          rcases hh with hh | ⟨t, ht⟩
          · exact hh
          · rw [hfe] at ht; simp at ht
        | oop k =>
          simp only [keySet, setMark_marked]
          by_cases hmk : m = k
          · rw [if_pos hmk]
          · rw [if_neg hmk, hbase]
            rcases hh with hh | ⟨t, ht⟩
            · exact hh
            · rw [hfe] at ht
              simp only [List.cons.injEq, Ref.oop.injEq] at ht
              exact absurd ht.1.symm hmk
    have he' : ∀ m, s'.eph m = if m = e ∧ keyMarked s key = true then false else s.eph m := by
      intro m
      have hks : ∀ (t : Marks) (r : Ref), (keySet t r).eph = t.eph := by
        intro t r; cases r <;> rfl
      rw [hs', pass1Step, hks]
      by_cases hkm : keyMarked s key = true
      · rw [if_pos hkm, setEph_eph]
        by_cases hme : m = e
        · rw [if_pos hme, if_pos ⟨hme, hkm⟩]
        · rw [if_neg hme, if_neg (fun hx => hme hx.1)]
      · rw [if_neg hkm, if_neg (fun hx => hkm hx.2)]
    obtain ⟨s1, h1, h2, h3, h4, h5, h6, h7⟩ := pass1_post h L s'
      (fun x hx => hk x (List.mem_cons_of_mem _ hx))
    refine ⟨s1, ?_, by rw [h2, hb'], ?_, ?_, ?_, ?_, ?_⟩
    · rw [pass1, hfe]
      cases key with
      | small => exact absurd rfl hns
      | builtin => exact h1
      | oop k => exact h1
    · intro m
      rw [h3, hm']
      constructor
      · rintro ((hx | hx) | ⟨y, hy, hx⟩)
        · exact Or.inl hx
        · exact Or.inr ⟨e, List.mem_cons_self, hx⟩
        · exact Or.inr ⟨y, List.mem_cons_of_mem _ hy, hx⟩
      · rintro (hx | ⟨y, hy, hx⟩)
        · exact Or.inl (Or.inl hx)
        · rcases List.mem_cons.mp hy with h8 | h8
          · subst h8; exact Or.inl (Or.inr hx)
          · exact Or.inr ⟨y, h8, hx⟩
    · intro m hm
      rw [h4 m (fun hx => hm (List.mem_cons_of_mem _ hx)), he', if_neg]
      rintro ⟨rfl, _⟩; exact hm List.mem_cons_self
    · intro m hm
      have h8 := h5 m hm
      rw [he'] at h8
      split at h8
      · exact absurd h8 (by simp)
      · exact h8
    · intro x hx k hik hse
      have back : s'.marked k = false → s.marked k = false := by
        intro hk'
        cases hz : s.marked k
        · rfl
        · rw [(hm' k).mpr (Or.inl hz)] at hk'; exact absurd hk' (by simp)
      rcases List.mem_cons.mp hx with h8 | h8
      · subst h8
        have h9 := h5 x hse
        rw [he'] at h9
        obtain ⟨t, ht⟩ := hik
        rw [hfe] at ht
        simp only [List.cons.injEq] at ht
        obtain ⟨rfl, rfl⟩ := ht
        cases hz : s.marked k
        · rfl
        · rw [if_pos ⟨rfl, by simpa [keyMarked] using hz⟩] at h9; exact absurd h9 (by simp)
      · exact back (h6 x h8 k hik hse)
    · intro hnd x hx k hik hse hkm hoth
      rw [List.nodup_cons] at hnd
      rcases List.mem_cons.mp hx with h8 | h8
      · subst h8
        rw [h4 x hnd.1, he', if_neg]
        · exact hse
        · rintro ⟨_, hkm'⟩
          obtain ⟨t, ht⟩ := hik
          rw [hfe] at ht
          simp only [List.cons.injEq] at ht
          rw [ht.1] at hkm'
          simp only [keyMarked] at hkm'
          rw [hkm] at hkm'; exact absurd hkm' (by simp)
      · have hxe : x ≠ e := by rintro rfl; exact hnd.1 h8
        refine h7 hnd.2 x h8 k hik ?_ ?_ ?_
        · rw [he', if_neg (fun hy => hxe hy.1)]; exact hse
        · cases hz : s'.marked k
          · rfl
          · rcases (hm' k).mp hz with h9 | h9
            · rw [hkm] at h9; exact absurd h9 (by simp)
            · exact absurd h9 (hoth e List.mem_cons_self (fun hy => hxe hy.symm))
        · exact fun y hy hyx => hoth y (List.mem_cons_of_mem _ hy) hyx

theorem pass1_done_keys (h : Heap) : ∀ (L : List Nat) (s s1 : Marks), pass1 h L s = .done s1 →
    ∀ e ∈ L, ∃ k l, (h.obj e).fields = k :: l ∧ k ≠ .small
  | [], _, _, _ => by simp
  | e :: L, s, s1, hh => by
    rw [pass1] at hh
    intro x hx
    cases hfe : (h.obj e).fields with
    | nil => rw [hfe] at hh; exact absurd hh (by simp)
    | cons key data =>
      rw [hfe] at hh
      have hns : key ≠ .small := by
        rintro rfl; exact absurd hh (by simp)
      have hrec : ∃ s', pass1 h L s' = .done s1 := by
        cases key with
        | small => exact absurd rfl hns
        | builtin => exact ⟨_, hh⟩
        | oop k => exact ⟨_, hh⟩
      obtain ⟨s', hs'⟩ := hrec
      rcases List.mem_cons.mp hx with h1 | h1
      · subst h1; exact ⟨key, data, hfe, hns⟩
      · exact pass1_done_keys h L s' s1 hs' x h1

end Verif.GC
