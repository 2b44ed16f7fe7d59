import Verif.Hash.Probe

/-!
# Removal from a linear probing table by closing the gap

Generic theory, used by the hashed collections of the class library.
-/

set_option linter.unusedSectionVars false

namespace Verif.Hash

variable {α K : Type} [DecidableEq K]

/-- First free slot from `x % n` on, looking at most at `c` slots. -/
def firstFree (n : Nat) (slots : Nat → Option α) : Nat → Nat → Option Nat
  | 0, _ => none
  | c + 1, x => if slots (x % n) = none then some (x % n) else firstFree n slots c (x % n + 1)

/-- Re-insert the entries that follow slot `i` up to the next free slot. -/
def closeGap (n : Nat) (key : α → K) (h : K → Nat) :
    Nat → (Nat → Option α) → Nat → Option (Nat → Option α)
  | 0, _, _ => none
  | c + 1, slots, i =>
    match slots ((i + 1) % n) with
    | none => some slots
    | some a => do
      let s := update slots ((i + 1) % n) none
      let j ← firstFree n s n (h (key a))
      closeGap n key h c (update s j (some a)) ((i + 1) % n)

/-- A free slot at distance `d`, no free slot nearer. -/
theorem firstFree_eq (n : Nat) (slots : Nat → Option α) (d c x : Nat) (hc : d < c)
    (hf : slots ((x + d) % n) = none) (hb : ∀ d', d' < d → slots ((x + d') % n) ≠ none) :
    firstFree n slots c x = some ((x + d) % n) := by
  induction d generalizing c x with
  | zero =>
    obtain ⟨c, rfl⟩ : ∃ c', c = c' + 1 := ⟨c - 1, by omega⟩
    unfold firstFree
    rw [if_pos (by simpa using hf)]; rfl
  | succ d ih =>
    obtain ⟨c, rfl⟩ : ∃ c', c = c' + 1 := ⟨c - 1, by omega⟩
    unfold firstFree
    rw [if_neg (by simpa using hb 0 (by omega))]
    have step : ∀ y, (x % n + 1 + y) % n = (x + (y + 1)) % n := by
      intro y
      rw [show x % n + 1 + y = x % n + (y + 1) by omega, Nat.mod_add_mod]
    rw [ih c (x % n + 1) (by omega) (by rw [step]; exact hf)
      (fun d' hd' => by rw [step]; exact hb (d' + 1) (by omega)), step]

/-- The least distance of a free slot. -/
theorem exists_least_free (n x m : Nat) (slots : Nat → Option α) (d : Nat)
    (hm : m ≤ d) (h : slots ((x + d) % n) = none) :
    ∃ d0, m ≤ d0 ∧ d0 ≤ d ∧ slots ((x + d0) % n) = none ∧
      ∀ d', m ≤ d' → d' < d0 → slots ((x + d') % n) ≠ none := by
  induction d using Nat.strongRecOn with
  | ind d ih =>
    by_cases hex : ∃ d', m ≤ d' ∧ d' < d ∧ slots ((x + d') % n) = none
    · obtain ⟨d', h1, h2, h3⟩ := hex
      obtain ⟨d0, g1, g2, g3, g4⟩ := ih d' h2 h1 h3
      exact ⟨d0, g1, by omega, g3, g4⟩
    · exact ⟨d, hm, Nat.le_refl _, h, fun d' h1 h2 h3 => hex ⟨d', h1, h2, h3⟩⟩

theorem used_update_none (slots : Nat → Option α) (i n : Nat) (a : α) (hi : i < n)
    (hs : slots i = some a) : used (update slots i none) n + 1 = used slots n := by
  have h := used_update_free (update slots i none) i n a hi (update_same _ _ _)
  have e : update (update slots i none) i (some a) = slots := by
    funext j
    by_cases hj : j = i
    · subst hj; rw [update_same, hs]
    · rw [update_ne _ _ _ _ hj, update_ne _ _ _ _ hj]
  rw [e] at h
  exact h.symm

/-- Slot with coordinate `t`, counted from the slot after `e`. -/
def pos (n e t : Nat) : Nat := (e + 1 + t) % n

theorem pos_lt {n e t : Nat} (hn : 0 < n) : pos n e t < n := Nat.mod_lt _ hn

theorem pos_inj {n e t u : Nat} (ht : t < n) (hu : u < n) (h : pos n e t = pos n e u) : t = u := by
  unfold pos at h
  have key : ∀ a b, a < n → b < n → a ≤ b → (e + 1 + a) % n = (e + 1 + b) % n → a = b := by
    intro a b ha hb hab heq
    have h1 := Nat.div_add_mod (e + 1 + a) n
    have h2 := Nat.div_add_mod (e + 1 + b) n
    rw [heq] at h1
    by_cases hq : (e + 1 + a) / n = (e + 1 + b) / n
    · rw [hq] at h1; omega
    · have hlt : (e + 1 + a) / n ≤ (e + 1 + b) / n := Nat.div_le_div_right (by omega)
      have : n * ((e + 1 + a) / n) + n ≤ n * ((e + 1 + b) / n) := by
        rw [← Nat.mul_succ]; exact Nat.mul_le_mul_left _ (by omega)
      omega
  rcases Nat.le_total t u with hle | hle
  · exact key t u ht hu hle h
  · exact (key u t hu ht hle h.symm).symm

theorem pos_surj {n e : Nat} (i : Nat) (hi : i < n) : ∃ t, t < n ∧ pos n e t = i :=
  on_path n (e + 1) i hi

/-- Distances from the slot with coordinate `u`. -/
theorem pos_add {n e u x : Nat} (h : pos n e u = x % n) (d : Nat) :
    (x + d) % n = pos n e (u + d) := by
  unfold pos at *
  rw [← Nat.mod_add_mod, ← h, Nat.mod_add_mod]
  congr 1; omega

/-- The loop invariant: slots with coordinate up to `c` are in order, those after it up
to the free slot `e` are still to be treated. -/
structure Gap (n e c : Nat) (key : α → K) (h : K → Nat) (s : Nat → Option α) : Prop where
  free : s (pos n e (n - 1)) = none
  home : ∀ t a, t < n - 1 → s (pos n e t) = some a →
    ∃ u, u ≤ t ∧ pos n e u = h (key a) % n
  done : ∀ t a, t ≤ c → t < n - 1 → s (pos n e t) = some a →
    ∀ u, u ≤ t → pos n e u = h (key a) % n → ∀ w, u ≤ w → w < t → s (pos n e w) ≠ none
  todo : ∀ t, c < t → t < n - 1 → s (pos n e t) ≠ none
  uniq : ∀ i j a b, i < n → j < n → s i = some a → s j = some b → key a = key b → i = j

theorem Gap.reach {n e c : Nat} {key : α → K} {h : K → Nat} {s : Nat → Option α}
    (hn : 0 < n) (g : Gap n e c key h s) (hc : n - 1 ≤ c + 1) : Reach n s key h := by
  intro i a hi ha
  obtain ⟨t, ht, rfl⟩ := pos_surj (e := e) i hi
  have htn : t ≠ n - 1 := by
    intro h'; subst h'; rw [g.free] at ha; cases ha
  obtain ⟨u, hu, hp⟩ := g.home t a (by omega) ha
  refine ⟨t - u, by omega, ?_, ?_⟩
  · rw [pos_add hp]; congr 1; omega
  · intro d' hd'
    rw [pos_add hp]
    have hne := g.done t a (by omega) (by omega) ha u hu hp (u + d') (by omega) (by omega)
    cases hb : s (pos n e (u + d')) with
    | none => exact absurd hb hne
    | some b =>
      refine ⟨b, hb, fun hk => ?_⟩
      have := pos_inj (by omega) ht (g.uniq _ _ b a (pos_lt hn) hi hb ha hk)
      omega

theorem closeGap_spec {n : Nat} {key : α → K} {h : K → Nat} (hn : 0 < n) (e : Nat)
    (fuel : Nat) : ∀ (c : Nat) (s : Nat → Option α), Gap n e c key h s → c < n - 1 →
      n - 1 - c ≤ fuel →
    ∃ s', closeGap n key h fuel s (pos n e c) = some s' ∧ Reach n s' key h ∧
      used s' n = used s n ∧ ∀ a, Holds n s' a ↔ Holds n s a := by
  induction fuel with
  | zero => intro c s g hc hf; omega
  | succ fuel ih =>
    intro c s g hc hf
    unfold closeGap
    have hnext : (pos n e c + 1) % n = pos n e (c + 1) := by
      unfold pos
      rw [Nat.mod_add_mod]; rfl
    rw [hnext]
    by_cases hlast : c + 1 = n - 1
    · rw [hlast, g.free]
      exact ⟨s, rfl, g.reach hn (by omega), rfl, fun a => Iff.rfl⟩
    · cases ha : s (pos n e (c + 1)) with
      | none => exact absurd ha (g.todo (c + 1) (by omega) (by omega))
      | some a =>
        dsimp only
        obtain ⟨u, hu, hp⟩ := g.home (c + 1) a (by omega) ha
        generalize hs1 : update s (pos n e (c + 1)) none = s1
        have s1c : s1 (pos n e (c + 1)) = none := by rw [← hs1, update_same]
        have s1o : ∀ t, t < n → t ≠ c + 1 → s1 (pos n e t) = s (pos n e t) := by
          intro t ht hne
          rw [← hs1, update_ne]
          intro hh; exact hne (pos_inj ht (by omega) hh)
        obtain ⟨d, -, hd2, hd3, hd4⟩ := exists_least_free n (h (key a)) 0 s1 (c + 1 - u)
          (Nat.zero_le _) (by rw [pos_add hp, show u + (c + 1 - u) = c + 1 by omega]; exact s1c)
        have hff := firstFree_eq n s1 d n (h (key a)) (by omega) hd3
          (fun d' hd' => hd4 d' (Nat.zero_le _) hd')
        rw [hff]
        simp only [Option.bind_eq_bind, Option.bind_some]
        rw [pos_add hp] at hd3 ⊢
        have hd4' : ∀ w, u ≤ w → w < u + d → s1 (pos n e w) ≠ none := by
          intro w h1 h2
          have := hd4 (w - u) (Nat.zero_le _) (by omega)
          rw [pos_add hp, show u + (w - u) = w by omega] at this
          exact this
        clear hd4 hff
        generalize hj : u + d = j at *
        have hjc : j ≤ c + 1 := by omega
        generalize hs2 : update s1 (pos n e j) (some a) = s2
        have s2j : s2 (pos n e j) = some a := by rw [← hs2, update_same]
        have s2o : ∀ t, t < n → t ≠ j → s2 (pos n e t) = s1 (pos n e t) := by
          intro t ht hne
          rw [← hs2, update_ne]
          intro hh; exact hne (pos_inj ht (by omega) hh)
        have grow : ∀ t, t < n → s1 (pos n e t) ≠ none → s2 (pos n e t) ≠ none := by
          intro t ht h1
          by_cases htj : t = j
          · subst htj; rw [s2j]; exact Option.some_ne_none _
          · rw [s2o t ht htj]; exact h1
        -- an entry of `s2` elsewhere than `j` was in `s` elsewhere than `c + 1`
        have back : ∀ t b, t < n → t ≠ j → s2 (pos n e t) = some b →
            t ≠ c + 1 ∧ s (pos n e t) = some b := by
          intro t b ht htj hb
          rw [s2o t ht htj] at hb
          have htc : t ≠ c + 1 := by
            intro hh; subst hh; rw [s1c] at hb; cases hb
          exact ⟨htc, by rw [← s1o t ht htc]; exact hb⟩
        have g2 : Gap n e (c + 1) key h s2 := by
          refine ⟨?_, ?_, ?_, ?_, ?_⟩
          · rw [s2o _ (by omega) (by omega), s1o _ (by omega) (by omega)]; exact g.free
          · intro t b ht hb
            by_cases htj : t = j
            · subst htj
              rw [s2j] at hb; cases hb
              exact ⟨u, by omega, hp⟩
            · exact g.home t b ht (back t b (by omega) htj hb).2
          · intro t b htc ht hb u' hu' hp' w hw1 hw2
            by_cases htj : t = j
            · subst htj
              rw [s2j] at hb; cases hb
              have : u' = u := pos_inj (by omega) (by omega) (hp'.trans hp.symm)
              subst this
              exact grow w (by omega) (hd4' w hw1 hw2)
            · obtain ⟨h1, h2⟩ := back t b (by omega) htj hb
              have hne := g.done t b (by omega) ht h2 u' hu' hp' w hw1 hw2
              apply grow w (by omega)
              rw [s1o w (by omega) (by omega)]; exact hne
          · intro t h1 h2
            apply grow t (by omega)
            rw [s1o t (by omega) (by omega)]
            exact g.todo t (by omega) h2
          · have ha' := ha
            intro i i' b b' hi hi' hb hb' hk
            obtain ⟨t, ht, rfl⟩ := pos_surj (e := e) i hi
            obtain ⟨t', ht', rfl⟩ := pos_surj (e := e) i' hi'
            by_cases htj : t = j
            · by_cases htj' : t' = j
              · rw [htj, htj']
              · obtain ⟨h1, h2⟩ := back t' b' ht' htj' hb'
                subst htj
                rw [s2j] at hb; cases hb
                have := g.uniq _ _ a b' (pos_lt hn) hi' ha' h2 hk
                exact absurd (pos_inj (by omega) ht' this).symm h1
            · obtain ⟨h1, h2⟩ := back t b ht htj hb
              by_cases htj' : t' = j
              · subst htj'
                rw [s2j] at hb'; cases hb'
                have := g.uniq _ _ b a hi (pos_lt hn) h2 ha' hk
                exact absurd (pos_inj ht (by omega) this) h1
              · obtain ⟨h1', h2'⟩ := back t' b' ht' htj' hb'
                exact g.uniq _ _ b b' hi hi' h2 h2' hk
        obtain ⟨s', r1, r2, r3, r4⟩ := ih (c + 1) s2 g2 (by omega) (by omega)
        refine ⟨s', r1, r2, ?_, ?_⟩
        · rw [r3, ← hs2, used_update_free _ _ _ _ (pos_lt hn) hd3, ← hs1]
          exact used_update_none s _ n a (pos_lt hn) ha
        · intro b
          rw [r4, ← hs2, holds_update (pos_lt hn)]
          constructor
          · rintro (rfl | ⟨i, hi, hij, hb⟩)
            · exact ⟨_, pos_lt hn, ha⟩
            · rw [← hs1] at hb
              by_cases hic : i = pos n e (c + 1)
              · subst hic; rw [update_same] at hb; cases hb
              · rw [update_ne _ _ _ _ hic] at hb; exact ⟨i, hi, hb⟩
          · rintro ⟨i, hi, hb⟩
            by_cases hic : i = pos n e (c + 1)
            · subst hic
              rw [ha] at hb; cases hb; exact Or.inl rfl
            · refine Or.inr ⟨i, hi, ?_, by rw [← hs1, update_ne _ _ _ _ hic]; exact hb⟩
              intro hij
              subst hij
              rw [← hs1, update_ne _ _ _ _ hic, hb] at hd3
              cases hd3

/-- Removing the entry in slot `i` and closing the gap: the other entries stay, and the
probing invariant is restored. -/
theorem remove_spec {n : Nat} {key : α → K} {h : K → Nat} (hn : 0 < n) (slots : Nat → Option α)
    (hr : Reach n slots key h) (hu : used slots n < n) (i : Nat) (a : α) (hi : i < n)
    (ha : slots i = some a) :
    ∃ s', closeGap n key h n (update slots i none) i = some s' ∧ Reach n s' key h ∧
      used s' n + 1 = used slots n ∧
      ∀ b, Holds n s' b ↔ ∃ j, j < n ∧ j ≠ i ∧ slots j = some b := by
  obtain ⟨f, hf, hfn⟩ := exists_free slots n hu
  obtain ⟨df, hdf, hdfe⟩ := on_path n (i + 1) f hf
  obtain ⟨d, hd1, hd2, hd3, hd4⟩ := exists_least_free n i 1 slots (df + 1) (by omega)
    (by rw [show i + (df + 1) = i + 1 + df by omega, hdfe]; exact hfn)
  have hdn : d < n := by
    by_cases hdn : d = n
    · rw [hdn, Nat.add_mod_right, Nat.mod_eq_of_lt hi, ha] at hd3; cases hd3
    · omega
  generalize he : (i + d) % n = e at *
  have hen : e < n := he ▸ Nat.mod_lt _ hn
  have hpl : pos n e (n - 1) = e := by
    unfold pos
    rw [show e + 1 + (n - 1) = e + n by omega, Nat.add_mod_right, Nat.mod_eq_of_lt hen]
  have hpi : pos n e (n - 1 - d) = i := by
    unfold pos
    rw [← he, Nat.add_assoc, Nat.mod_add_mod, show i + d + (1 + (n - 1 - d)) = i + n by omega,
      Nat.add_mod_right, Nat.mod_eq_of_lt hi]
  have hpd : ∀ d', d' < d → pos n e (n - 1 - d + d') = (i + d') % n := by
    intro d' hd'
    unfold pos
    rw [← he, Nat.add_assoc, Nat.mod_add_mod,
      show i + d + (1 + (n - 1 - d + d')) = i + d' + n by omega, Nat.add_mod_right]
  -- linear form of the invariant of the original table
  have lin : ∀ t b, t < n - 1 → slots (pos n e t) = some b → ∃ u, u ≤ t ∧
      pos n e u = h (key b) % n ∧ ∀ w, u ≤ w → w < t → slots (pos n e w) ≠ none := by
    intro t b ht hb
    obtain ⟨dd, h1, h2, h3⟩ := hr _ b (pos_lt hn) hb
    obtain ⟨u, hun, hup⟩ := pos_surj (e := e) (h (key b) % n) (Nat.mod_lt _ hn)
    have hut : u + dd < n := by
      apply Classical.byContradiction
      intro hc
      have := (h3 (n - 1 - u) (by
        by_cases hdd : n - 1 - u = dd
        · exfalso
          rw [← hdd, pos_add hup, show u + (n - 1 - u) = n - 1 by omega] at h2
          have := pos_inj (by omega) (by omega) h2
          omega
        · omega)).used
      rw [pos_add hup, show u + (n - 1 - u) = n - 1 by omega, hpl] at this
      exact this hd3
    have htd : u + dd = t := by
      apply pos_inj hut (by omega)
      rw [← pos_add hup]; exact h2
    refine ⟨u, by omega, hup, fun w hw1 hw2 => ?_⟩
    have := (h3 (w - u) (by omega)).used
    rw [pos_add hup, show u + (w - u) = w by omega] at this
    exact this
  have sub : ∀ t b, t < n → update slots i none (pos n e t) = some b →
      t ≠ n - 1 - d ∧ slots (pos n e t) = some b := by
    intro t b ht hb
    by_cases hti : pos n e t = i
    · rw [hti, update_same] at hb; cases hb
    · rw [update_ne _ _ _ _ hti] at hb
      exact ⟨fun hh => hti (by rw [hh]; exact hpi), hb⟩
  have g : Gap n e (n - 1 - d) key h (update slots i none) := by
    refine ⟨?_, ?_, ?_, ?_, ?_⟩
    · rw [hpl, update_ne _ _ _ _ (by intro hh; rw [hh, ha] at hd3; cases hd3)]; exact hd3
    · intro t b ht hb
      obtain ⟨u, h1, h2, -⟩ := lin t b ht (sub t b (by omega) hb).2
      exact ⟨u, h1, h2⟩
    · intro t b htc ht hb u hu' hp w hw1 hw2
      obtain ⟨h0, h1⟩ := sub t b (by omega) hb
      obtain ⟨u', h2, h3, h4⟩ := lin t b ht h1
      have : u' = u := pos_inj (by omega) (by omega) (h3.trans hp.symm)
      subst this
      rw [update_ne]
      · exact h4 w hw1 hw2
      · intro hh
        rw [← hpi] at hh
        have := pos_inj (by omega) (by omega) hh
        omega
    · intro t h1 h2
      have hne : pos n e t ≠ i := by
        intro hh; rw [← hpi] at hh
        have := pos_inj (by omega) (by omega) hh
        omega
      rw [update_ne _ _ _ _ hne]
      have := hpd (t - (n - 1 - d)) (by omega)
      rw [show n - 1 - d + (t - (n - 1 - d)) = t by omega] at this
      rw [this]
      exact hd4 _ (by omega) (by omega)
    · intro j j' b b' hj hj' hb hb' hk
      by_cases h1 : j = i
      · subst h1; rw [update_same] at hb; cases hb
      · by_cases h2 : j' = i
        · subst h2; rw [update_same] at hb'; cases hb'
        · rw [update_ne _ _ _ _ h1] at hb
          rw [update_ne _ _ _ _ h2] at hb'
          exact hr.unique hj hj' hb hb' hk
  obtain ⟨s', r1, r2, r3, r4⟩ := closeGap_spec hn e n (n - 1 - d) _ g (by omega) (by omega)
  rw [hpi] at r1
  refine ⟨s', r1, r2, ?_, ?_⟩
  · rw [r3]; exact used_update_none slots i n a hi ha
  · intro b
    rw [r4]
    constructor
    · rintro ⟨j, hj, hb⟩
      by_cases hji : j = i
      · subst hji; rw [update_same] at hb; cases hb
      · rw [update_ne _ _ _ _ hji] at hb; exact ⟨j, hj, hji, hb⟩
    · rintro ⟨j, hj, hji, hb⟩
      exact ⟨j, hj, by rw [update_ne _ _ _ _ hji]; exact hb⟩

end Verif.Hash
