import Verif.Utf.Round

/-!
# What the converters promise
-/

namespace Verif.Utf

/-! ### Enough steps are enough -/

theorem encode_mono {k k' : Nat} {e : E} {inp out : List Nat} (h : encode k e inp = .ok out) (hk : k ≤ k') :
    encode k' e inp = .ok out := by
  induction k generalizing e inp out k' with
  | zero =>
    rw [encode.eq_def] at h ⊢
    dsimp only at h ⊢
    by_cases hd : e.left = 0 ∧ inp = []
    · rw [if_pos hd] at h ⊢
      exact h
    · rw [if_neg hd] at h
      cases h
  | succ k ih =>
    obtain ⟨j, rfl⟩ : ∃ j, k' = j + 1 := ⟨k' - 1, by omega⟩
    rw [encode.eq_def] at h ⊢
    dsimp only at h ⊢
    by_cases hd : e.left = 0 ∧ inp = []
    · rw [if_pos hd] at h ⊢
      exact h
    · rw [if_neg hd] at h ⊢
      cases hn : next e inp with
      | none => rw [hn] at h; cases h
      | some r =>
        obtain ⟨c, e', inp'⟩ := r
        rw [hn] at h
        dsimp only at h ⊢
        cases hr : encode k e' inp' with
        | ok cs =>
          rw [hr] at h
          rw [ih hr (by omega : k ≤ j)]
          exact h
        | err => rw [hr] at h; cases h
        | fuel => rw [hr] at h; cases h

theorem encode_length {k : Nat} {e : E} {inp out : List Nat} (h : encode k e inp = .ok out) : out.length ≤ k := by
  induction k generalizing e inp out with
  | zero =>
    rw [encode.eq_def] at h
    dsimp only at h
    split at h
    · cases h
      simp
    · cases h
  | succ k ih =>
    rw [encode.eq_def] at h
    dsimp only at h
    split at h
    · cases h
      simp
    · split at h
      · cases h
      · split at h
        · rename_i hr
          cases h
          have := ih hr
          simp
          omega
        · cases h
        · cases h

theorem readNext_shorter {d d' : D} {inp inp' : List Nat} {o : Option Nat}
    (h : readNext d inp = .ok (o, d', inp')) : inp'.length < inp.length := by
  unfold readNext at h
  split at h
  · cases h
  · split at h
    · split at h
      · cases h
        simp
      · split at h
        · split at h
          · cases h
          · split at h
            · cases h
              simp
              omega
            · split at h
              · cases h
                simp
                omega
              · cases h
              · cases h
        · cases h
    · split at h
      · cases h
        simp
      · cases h
      · cases h

/-- As many steps as there are bytes are enough for the decoder. -/
theorem decode_enough {k k' : Nat} {d : D} {inp out : List Nat} (h : decode k d inp = .ok out)
    (hk : inp.length ≤ k') : decode k' d inp = .ok out := by
  induction k generalizing d inp out k' with
  | zero =>
    cases inp with
    | nil =>
      unfold decode at h ⊢
      exact h
    | cons c cs => simp [decode] at h
  | succ k ih =>
    cases inp with
    | nil =>
      unfold decode at h ⊢
      exact h
    | cons c cs =>
      obtain ⟨j, rfl⟩ : ∃ j, k' = j + 1 := ⟨k' - 1, by simp at hk; omega⟩
      rw [decode] at h ⊢
      · cases hr : readNext d (c :: cs) with
        | ok r =>
          obtain ⟨o, d', inp'⟩ := r
          have hlt := readNext_shorter hr
          rw [hr] at h
          dsimp only at h ⊢
          cases hk2 : decode k d' inp' with
          | ok xs =>
            rw [hk2] at h
            rw [ih hk2 (by simp at hk hlt; omega)]
            exact h
          | err => rw [hk2] at h; cases h
          | fuel => rw [hk2] at h; cases h
        | err => rw [hr] at h; cases h
        | fuel => rw [hr] at h; cases h
      · simp
      · simp

/-! ### The round trip -/

/-- C128.  Text of Unicode characters, converted to UTF-7 and back, is the same text: the encoder comes to an end, and
the decoder gets exactly the characters that went in.  Missing for all characters: surrogates
(`surrogates_do_not_come_back`). -/
theorem utf7_round_trip_partial (cs : List Nat) (h : ∀ c ∈ cs, c < 0xD800 ∨ 0xE000 ≤ c ∧ c ≤ 0x10FFFF) :
    ∃ out n, (∀ k, n ≤ k → encode k .start cs = .ok out) ∧ decode out.length .start out = .ok cs := by
  obtain ⟨out, ⟨n, h1⟩, ⟨m, h2⟩⟩ := (agree (cs := cs) h).idle 0
  exact ⟨out, n, fun k hk => encode_mono h1 hk, decode_enough h2 (by omega)⟩

/-- Different texts are different in UTF-7. -/
theorem utf7_injective_partial {cs ds out : List Nat} {k l : Nat}
    (hc : ∀ c ∈ cs, c < 0xD800 ∨ 0xE000 ≤ c ∧ c ≤ 0x10FFFF)
    (hd : ∀ c ∈ ds, c < 0xD800 ∨ 0xE000 ≤ c ∧ c ≤ 0x10FFFF)
    (h1 : encode k .start cs = .ok out) (h2 : encode l .start ds = .ok out) : cs = ds := by
  obtain ⟨o1, n1, e1, d1⟩ := utf7_round_trip_partial cs hc
  obtain ⟨o2, n2, e2, d2⟩ := utf7_round_trip_partial ds hd
  have := (encode_mono h1 (Nat.le_max_left k n1)).symm.trans (e1 _ (Nat.le_max_right k n1))
  cases this
  have := (encode_mono h2 (Nat.le_max_left l n2)).symm.trans (e2 _ (Nat.le_max_right l n2))
  cases this
  have := d1.symm.trans d2
  cases this
  rfl

example : encode 60 .start [72, 105, 32, 0x263A, 33, 0x1F600, 43, 0x2262, 0x391, 46] =
    .ok [72, 105, 32, 43, 74, 106, 111, 65, 73, 100, 103, 57, 51, 103, 65, 65, 75, 121, 74, 105, 65, 53, 69, 46] ∧
    decode 24 .start
      [72, 105, 32, 43, 74, 106, 111, 65, 73, 100, 103, 57, 51, 103, 65, 65, 75, 121, 74, 105, 65, 53, 69, 46] =
    .ok [72, 105, 32, 0x263A, 33, 0x1F600, 43, 0x2262, 0x391, 46] := by decide +kernel

/-- A pair of characters that are surrogates comes back as one other character; one alone cannot be read. -/
theorem surrogates_do_not_come_back :
    (∃ out, encode 20 .start [0xD83D, 0xDE00] = .ok out ∧ decode out.length .start out = .ok [0x1F600]) ∧
    (∃ out, encode 20 .start [0xDE00] = .ok out ∧ decode out.length .start out = .err) :=
  ⟨⟨[43, 50, 68, 51, 101, 65, 65, 45], by decide +kernel, by decide +kernel⟩,
    ⟨[43, 51, 103, 65, 45], by decide +kernel, by decide +kernel⟩⟩

/-! ### Seven bits -/

/-- A byte that mail transports leave alone: a letter, a digit, a tab or the end of a line, or one of `'(),-./:?+` and
space. -/
def Safe (b : Nat) : Prop :=
  (65 ≤ b ∧ b ≤ 90) ∨ (97 ≤ b ∧ b ≤ 122) ∨ (48 ≤ b ∧ b ≤ 57) ∨ b ∈ [9, 10, 13, 32, 39, 40, 41, 43, 44, 45, 46, 47, 58, 63]

instance (b : Nat) : Decidable (Safe b) := by unfold Safe; infer_instance

theorem safe_direct {c : Nat} (h : inTable directTable c = true) : Safe c := by
  have hlt : c < 128 := by
    simp only [inTable, Bool.and_eq_true, decide_eq_true_eq] at h
    exact h.1
  have : ∀ c < 128, inTable directTable c = true → Safe c := by decide +kernel
  exact this c hlt h

theorem safe_digit {x : Nat} (h : x < 64) : Safe (toBase64Char x) := by
  have : ∀ x < 64, Safe (toBase64Char x) := by decide +kernel
  exact this x h

/-- The states that the encoder goes through. -/
structure Sound (e : E) : Prop where
  look : ∀ c, e.look = some c → Safe c
  range : e.left = 0 ∨ (e.left = -256 ∧ e.look ≠ none) ∨ e.left = -512 ∨
    (e.left = -230 ∧ e.value < 2 ^ 26 ∧ e.look ≠ none) ∨
    (0 < e.left ∧ e.left ≤ 30 ∧ 2 ∣ e.left ∧ e.value < 2 ^ e.left.toNat)
  none : e.left = -512 → e.value = 0

theorem sound_take6 {n v : Nat} {l : Option Nat} {inp : List Nat} (h6 : 6 ≤ n) (hn : n ≤ 30) (h2 : 2 ∣ n)
    (hv : v < 2 ^ n) (hl : ∀ c, l = some c → Safe c) :
    Safe (take6 ⟨n, v, l⟩ inp).1 ∧ Sound (take6 ⟨n, v, l⟩ inp).2.1 := by
  rw [take6_eq _ _ _ _ h6]
  refine ⟨safe_digit ?_, hl, ?_, ?_⟩
  · have : 2 ^ n = 2 ^ (n - 6) * 64 := by
      rw [show (64 : Nat) = 2 ^ 6 from rfl, ← Nat.pow_add]
      congr 1
      omega
    rw [this] at hv
    exact Nat.div_lt_of_lt_mul hv
  · by_cases h : n = 6
    · simp [h]
    · simp only [if_neg h]
      refine Or.inr (Or.inr (Or.inr (Or.inr ⟨by omega, by omega, by omega, ?_⟩)))
      rw [Int.toNat_natCast]
      exact Nat.mod_lt _ (Nat.two_pow_pos _)
  · intro h
    by_cases h6 : n = 6
    · subst h6
      simp only [Nat.sub_self, Nat.pow_zero]
      omega
    · simp only [if_neg h6] at h
      omega

theorem pow_even {n : Nat} (h : n < 6) (h2 : 2 ∣ n) : n = 0 ∨ n = 2 ∨ n = 4 := by omega

theorem sound_pump {n v : Nat} {l : Option Nat} {inp : List Nat} (hn : n < 6) (h2 : 2 ∣ n)
    (hv : v < 2 ^ n) (hl : ∀ c, l = some c → Safe c) (hc : ∀ c ∈ inp, c ≤ 0x10FFFF)
    (hne : n = 0 → inp ≠ []) : Safe (pump ⟨n, v, l⟩ inp).1 ∧ Sound (pump ⟨n, v, l⟩ inp).2.1 := by
  have hs : Safe 45 := by decide
  have hv6 : v * 2 ^ (6 - n) < 2 ^ 6 := by
    have : 2 ^ 6 = 2 ^ n * 2 ^ (6 - n) := by
      rw [← Nat.pow_add]
      congr 1
      omega
    rw [this]
    exact Nat.mul_lt_mul_of_pos_right hv (Nat.two_pow_pos _)
  cases inp with
  | nil =>
    by_cases h0 : n = 0
    · exact absurd rfl (hne h0)
    · rw [pump_end (by omega) hn]
      exact sound_take6 (n := 6) (by omega) (by omega) (by decide) hv6 (by simp)
  | cons c rest =>
    by_cases hd : inTable directTable c = true
    · have hsafe := safe_direct hd
      by_cases h0 : n = 0
      · subst h0
        simp only [pump, hd, Int.natCast_zero, if_true]
        refine ⟨hs, ?_, by simp, by simp⟩
        intro x hx
        cases hx
        exact hsafe
      · rw [pump_direct hd (by omega) hn]
        refine sound_take6 (n := 6) (by omega) (by omega) (by decide) hv6 ?_
        intro x hx
        cases hx
        exact hsafe
    · have hd : inTable directTable c = false := by simpa using hd
      by_cases hlt : c < 65536
      · rw [pump16 hd hlt]
        refine sound_take6 (by omega) (by omega) (by omega) ?_ hl
        rw [Nat.pow_add]
        simp only [Nat.reducePow] at *
        generalize 2 ^ n = p at *
        omega
      · have hmax := hc c List.mem_cons_self
        rw [pump26 hd (by omega) hmax (pow_even hn h2)]
        have hp : pairBits c < 2 ^ 26 := by unfold pairBits; simp only [Nat.reducePow]; omega
        refine ⟨safe_digit ?_, hl, Or.inr (Or.inr (Or.inr (Or.inr ⟨by simp only; omega, by simp only; omega,
          by simp only; omega, ?_⟩))), by intro h; simp only at h; omega⟩
        · rcases pow_even hn h2 with rfl | rfl | rfl <;> simp only [Nat.reducePow] at * <;> omega
        · simp only [Int.toNat_natCast]
          have h1 : 54 % 2 ^ n < 2 ^ n := Nat.mod_lt _ (Nat.two_pow_pos _)
          have h3 : (54 % 2 ^ n + 1) * 2 ^ 26 ≤ 2 ^ n * 2 ^ 26 := Nat.mul_le_mul_right _ h1
          rw [Nat.pow_add]
          rw [Nat.add_mul] at h3
          omega

theorem sound_next {e e' : E} {inp inp' : List Nat} {c : Nat} (he : Sound e) (hc : ∀ c ∈ inp, c ≤ 0x10FFFF)
    (h : next e inp = some (c, e', inp')) : Safe c ∧ Sound e' := by
  unfold next at h
  by_cases h0 : e.left = 0
  · rw [if_pos h0] at h
    cases inp with
    | nil => cases h
    | cons ch rest =>
      dsimp only at h
      split at h
      · rename_i hd
        cases h
        exact ⟨safe_direct hd, he⟩
      · split at h
        · cases h
          exact ⟨by decide, by intro x hx; cases hx; decide, by simp, by simp⟩
        · split at h
          · rename_i hlt
            cases h
            refine ⟨by decide, he.look, Or.inr (Or.inr (Or.inr (Or.inr ⟨by simp, by simp, by simp only; omega, ?_⟩))),
              by simp⟩
            simp only [Int.reduceToNat, Nat.reducePow]
            exact hlt
          · cases h
            have hmax := hc ch List.mem_cons_self
            refine ⟨by decide, by intro x hx; cases hx; decide, ?_, by simp⟩
            refine Or.inr (Or.inr (Or.inr (Or.inl ⟨rfl, ?_, by simp⟩)))
            simp only [mask_a, mask_c, Nat.shiftLeft_eq, Nat.reducePow]
            omega
  · rw [if_neg h0] at h
    by_cases hneg : e.left < 0
    · rw [if_pos hneg] at h
      cases hl : e.look with
      | none =>
        rw [hl] at h
        dsimp only at h
        split at h
        · cases h
          exact ⟨by decide, by intro x hx; simp at hx, by simp, by simp⟩
        · rename_i hne
          obtain ⟨left, value, look⟩ := e
          simp only at hl
          subst hl
          have hleft : left = -512 := by
            rcases he.range with h | h | h | h | h
            · exact absurd h h0
            · exact absurd rfl h.2
            · exact h
            · exact absurd rfl h.2.2
            · simp only at h hneg
              omega
          have hv := he.none hleft
          simp only at hv
          subst hv
          have := sound_pump (n := 0) (v := 0) (l := none) (inp := inp) (by omega) (by omega) (by decide) (by simp) hc
            (fun _ => hne)
          simp only [Option.some.injEq] at h
          rw [show (⟨((0 : Nat) : Int), 0, none⟩ : E) = ⟨0, 0, none⟩ from rfl, h] at this
          exact this
      | some ch =>
        rw [hl] at h
        dsimp only at h
        have hch := he.look ch hl
        split at h
        · cases h
          exact ⟨by decide, by intro x hx; cases hx; exact hch, by simp, by simp⟩
        · cases h
          refine ⟨hch, by simp, ?_, ?_⟩
          · simp only
            rcases he.range with h | h | h | h | h
            · exact absurd h h0
            · rw [h.1]; simp
            · rw [h]; simp
            · rw [h.1]
              right; right; right; right
              simp
              exact h.2.1
            · omega
          · simp only
            intro hx
            omega
    · rw [if_neg hneg] at h
      obtain ⟨left, value, look⟩ := e
      have hr : 0 < left ∧ left ≤ 30 ∧ 2 ∣ left ∧ value < 2 ^ left.toNat := by
        rcases he.range with h | h | h | h | h
        · exact absurd h h0
        · have := h.1; simp only at this hneg; omega
        · simp only at h hneg; omega
        · have := h.1; simp only at this hneg; omega
        · exact h
      obtain ⟨n, rfl⟩ : ∃ n : Nat, left = n := ⟨left.toNat, by omega⟩
      rw [Int.toNat_natCast] at hr
      simp only at h
      by_cases h6 : (n : Int) < 6
      · rw [if_pos h6] at h
        have := sound_pump (n := n) (v := value) (l := look) (inp := inp) (by omega) (by omega) hr.2.2.2 he.look hc
          (fun hn => by omega)
        simp only [Option.some.injEq] at h
        rw [h] at this
        exact this
      · rw [if_neg h6] at h
        have := sound_take6 (n := n) (v := value) (l := look) (inp := inp) (by omega) (by omega) (by omega) hr.2.2.2
          he.look
        simp only [Option.some.injEq] at h
        rw [h] at this
        exact this

theorem pump_inp {e : E} {inp : List Nat} : ∀ c ∈ (pump e inp).2.2, c ∈ inp := by
  intro c hc
  unfold pump take6 at hc
  split at hc
  · split at hc <;> simp at hc
  · split at hc
    · split at hc <;> exact List.mem_cons_of_mem _ hc
    · split at hc <;> exact List.mem_cons_of_mem _ hc

theorem next_inp {e e' : E} {inp inp' : List Nat} {c : Nat} (h : next e inp = some (c, e', inp')) :
    ∀ x ∈ inp', x ∈ inp := by
  unfold next at h
  split at h
  · split at h
    · cases h
    · intro x hx
      split at h
      · cases h; exact List.mem_cons_of_mem _ hx
      · split at h
        · cases h; exact List.mem_cons_of_mem _ hx
        · split at h <;> cases h <;> exact List.mem_cons_of_mem _ hx
  · split at h
    · split at h
      · split at h
        · cases h; exact fun x hx => hx
        · simp only [Option.some.injEq] at h
          have := pump_inp (e := { e with left := 0 }) (inp := inp)
          rw [h] at this
          exact this
      · split at h <;> cases h <;> exact fun x hx => hx
    · split at h
      · simp only [Option.some.injEq] at h
        have := pump_inp (e := e) (inp := inp)
        rw [h] at this
        exact this
      · simp only [Option.some.injEq, take6, Prod.mk.injEq] at h
        rw [← h.2.2]
        exact fun x hx => hx

theorem safe_from {k : Nat} {e : E} {inp out : List Nat} (he : Sound e) (hc : ∀ c ∈ inp, c ≤ 0x10FFFF)
    (h : encode k e inp = .ok out) : ∀ b ∈ out, Safe b := by
  induction k generalizing e inp out with
  | zero =>
    rw [encode.eq_def] at h
    dsimp only at h
    split at h
    · cases h
      simp
    · cases h
  | succ k ih =>
    rw [encode.eq_def] at h
    dsimp only at h
    split at h
    · cases h
      simp
    · split at h
      · cases h
      · rename_i c e' inp' hn
        split at h
        · rename_i cs hr
          cases h
          have := sound_next he hc hn
          have hrest := ih this.2 (fun x hx => hc x (next_inp hn x hx)) hr
          intro b hb
          rcases List.mem_cons.mp hb with rfl | hb
          · exact this.1
          · exact hrest b hb
        · cases h
        · cases h

/-- C129.  Whatever the text, what the encoder writes are letters, digits and the few other characters that every mail
transport leaves alone. -/
theorem utf7_is_safe {k : Nat} {cs out : List Nat} (hc : ∀ c ∈ cs, c ≤ 0x10FFFF)
    (h : encode k .start cs = .ok out) :
    ∀ b ∈ out, (65 ≤ b ∧ b ≤ 90) ∨ (97 ≤ b ∧ b ≤ 122) ∨ (48 ≤ b ∧ b ≤ 57) ∨
      b ∈ [9, 10, 13, 32, 39, 40, 41, 43, 44, 45, 46, 47, 58, 63] :=
  safe_from (e := .start) ⟨by simp [E.start], Or.inl rfl, by simp [E.start]⟩ hc h

example : encode 60 .start [0xD800, 0x10FFFF, 0, 92, 126] =
    .ok [43, 50, 65, 68, 98, 47, 57, 47, 47, 65, 65, 65, 65, 88, 65, 66, 43, 45] := by decide +kernel

/-! ### Truncated text -/

theorem readNext_append {d d' : D} {a b a' : List Nat} {o : Option Nat} (h : readNext d a = .ok (o, d', a')) :
    readNext d (a ++ b) = .ok (o, d', a' ++ b) := by
  unfold readNext at h ⊢
  cases a with
  | nil => cases h
  | cons c a =>
    dsimp only [List.cons_append] at h ⊢
    split at h
    · rename_i h6
      rw [if_pos h6]
      split at h
      · rename_i hd
        cases h
        rw [if_pos hd]
      · rename_i hd
        rw [if_neg hd]
        split at h
        · rename_i h43
          rw [if_pos h43]
          cases a with
          | nil => cases h
          | cons c2 a =>
            dsimp only [List.cons_append] at h ⊢
            split at h
            · rename_i h45
              cases h
              rw [if_pos h45]
            · rename_i h45
              rw [if_neg h45]
              split at h
              · rename_i hr
                cases h
                rfl
              · cases h
              · cases h
        · cases h
    · rename_i h6
      rw [if_neg h6]
      split at h
      · rename_i hr
        cases h
        rfl
      · cases h
      · cases h

/-- C130.  Text that is cut off is never misread: what the decoder gets from the beginning of a text, if it accepts
that, is the beginning of what it gets from the whole.  Missing: cutting a text within a character is not always
reported (`truncated_text_is_accepted`). -/
theorem cut_text_partial {k l : Nat} {d : D} {a b cs ds : List Nat} (h : decode k d (a ++ b) = .ok cs)
    (ha : decode l d a = .ok ds) : ds <+: cs := by
  induction l generalizing k d a cs ds with
  | zero =>
    cases a with
    | nil =>
      unfold decode at ha
      split at ha
      · cases ha
        exact List.nil_prefix
      · cases ha
    | cons c a => simp [decode] at ha
  | succ l ih =>
    cases a with
    | nil =>
      unfold decode at ha
      split at ha
      · cases ha
        exact List.nil_prefix
      · cases ha
    | cons c a =>
      cases k with
      | zero => simp [decode] at h
      | succ k =>
        rw [decode] at ha
        · rw [List.cons_append, decode] at h
          · cases hr : readNext d (c :: a) with
            | ok r =>
              obtain ⟨o, d', a'⟩ := r
              have hr2 := readNext_append (b := b) hr
              rw [List.cons_append] at hr2
              rw [hr] at ha
              rw [hr2] at h
              dsimp only at h ha
              cases h1 : decode k d' (a' ++ b) with
              | ok xs =>
                cases h2 : decode l d' a' with
                | ok ys =>
                  rw [h1] at h
                  rw [h2] at ha
                  cases h
                  cases ha
                  exact List.prefix_append_right_inj _ |>.mpr (ih h1 h2)
                | err => rw [h2] at ha; cases ha
                | fuel => rw [h2] at ha; cases ha
              | err => rw [h1] at h; cases h
              | fuel => rw [h1] at h; cases h
            | err => rw [hr] at ha; cases ha
            | fuel => rw [hr] at ha; cases ha
          · simp
        · simp

example : decode 5 .start [72, 43, 74, 106, 111, 45, 33] = .fuel ∧
    decode 7 .start [72, 43, 74, 106, 111, 45, 33] = .ok [72, 0x263A, 33] ∧
    decode 7 .start [72] = .ok [72] ∧ decode 7 .start [72, 43, 74, 106] = .err := by decide +kernel

/-- C130 is not met: text that ends within a character is accepted, if the bits at the end fill whole digits.  Three
units, the last of them half a pair of surrogates, are eight digits; the character is dropped without an error. -/
theorem truncated_text_is_accepted :
    decode 9 .start [43, 65, 71, 69, 65, 89, 116, 103, 65] = .ok [0x61, 0x62] ∧
    (∃ out, encode 40 .start [0x80, 0x81, 0x10000] = .ok out ∧
      out.take 9 = [43, 65, 73, 65, 65, 103, 100, 103, 65] ∧
      decode 9 .start (out.take 9) = .ok [0x80, 0x81]) :=
  ⟨by decide +kernel, [43, 65, 73, 65, 65, 103, 100, 103, 65, 51, 65, 65, 45], by decide +kernel, by decide +kernel,
    by decide +kernel⟩

/-! ### UTF-32 -/

theorem splitLE_first {k c w : Nat} {inp out : List Nat} (hw : w = c / 256 + 16777216)
    (h : split splitLE (· == 1) k w inp = .ok out) :
    split splitLE (· == 1) (k + 1) 1 (c :: inp) = .ok (c % 256 :: out) := by
  have hs : splitLE 1 (c :: inp) = some (c % 256, w, inp) := by
    unfold splitLE
    rw [if_pos rfl]
    dsimp only
    rw [mask_g, Nat.shiftRight_eq_div_pow, hw]
  rw [split.eq_def]
  simp only [hs, h, List.isEmpty_cons, Bool.and_false, Bool.false_eq_true, if_false]

theorem splitLE_rest {k w w' : Nat} {inp out : List Nat} (h1 : w ≠ 1) (hw : w' = w / 256)
    (h : split splitLE (· == 1) k w' inp = .ok out) :
    split splitLE (· == 1) (k + 1) w inp = .ok (w % 256 :: out) := by
  have hs : splitLE w inp = some (w % 256, w', inp) := by
    unfold splitLE
    rw [if_neg h1, mask_g, Nat.shiftRight_eq_div_pow, hw]
  rw [split.eq_def]
  simp only [hs, h, beq_eq_false_iff_ne.mpr h1, Bool.false_and, Bool.false_eq_true, if_false]

theorem splitLE_char {k c : Nat} (hc : c ≤ 0x10FFFF) {inp out : List Nat}
    (h : split splitLE (· == 1) k 1 inp = .ok out) :
    split splitLE (· == 1) (k + 4) 1 (c :: inp) =
      .ok (c % 256 :: c / 256 % 256 :: c / 65536 % 256 :: c / 16777216 % 256 :: out) := by
  obtain ⟨w1, hw1⟩ : ∃ w1, w1 = c / 256 + 16777216 := ⟨_, rfl⟩
  obtain ⟨w2, hw2⟩ : ∃ w2, w2 = w1 / 256 := ⟨_, rfl⟩
  obtain ⟨w3, hw3⟩ : ∃ w3, w3 = w2 / 256 := ⟨_, rfl⟩
  have h4 : 1 = w3 / 256 := by omega
  have e1 : w1 % 256 = c / 256 % 256 := by omega
  have e2 : w2 % 256 = c / 65536 % 256 := by omega
  have e3 : w3 % 256 = c / 16777216 % 256 := by omega
  rw [← e1, ← e2, ← e3]
  exact splitLE_first hw1 (splitLE_rest (by omega) hw2 (splitLE_rest (by omega) hw3 (splitLE_rest (by omega) h4 h)))

theorem splitBE_first {k c w w' : Nat} {inp out : List Nat} (hw : w' = c % 16777216)
    (h : split splitBE (·.1 == 0) k (3, w') inp = .ok out) :
    split splitBE (·.1 == 0) (k + 1) (0, w) (c :: inp) = .ok (c / 16777216 :: out) := by
  have hs : splitBE (0, w) (c :: inp) = some (c / 16777216, (3, w'), inp) := by
    unfold splitBE
    rw [if_pos rfl]
    dsimp only
    rw [mask_h, Nat.shiftRight_eq_div_pow, hw]
  rw [split.eq_def]
  simp only [hs, h, List.isEmpty_cons, Bool.and_false, Bool.false_eq_true, if_false]

theorem splitBE_rest {k n w w' : Nat} {inp out : List Nat} (hw : w' = w % 65536 * 256)
    (h : split splitBE (·.1 == 0) k (n, w') inp = .ok out) :
    split splitBE (·.1 == 0) (k + 1) (n + 1, w) inp = .ok (w / 65536 :: out) := by
  have hs : splitBE (n + 1, w) inp = some (w / 65536, (n, w'), inp) := by
    unfold splitBE
    rw [if_neg (by simp), mask_e, Nat.shiftRight_eq_div_pow, Nat.shiftLeft_eq, hw]
    rfl
  rw [split.eq_def]
  have : ((n + 1) == 0) = false := by simp
  simp only [hs, h, this, Bool.false_and, Bool.false_eq_true, if_false]

theorem splitBE_char {k c w : Nat} {inp out : List Nat}
    (h : ∀ w, split splitBE (·.1 == 0) k (0, w) inp = .ok out) :
    split splitBE (·.1 == 0) (k + 4) (0, w) (c :: inp) =
      .ok (c / 16777216 :: c / 65536 % 256 :: c / 256 % 256 :: c % 256 :: out) := by
  obtain ⟨w1, hw1⟩ : ∃ w1, w1 = c % 16777216 := ⟨_, rfl⟩
  obtain ⟨w2, hw2⟩ : ∃ w2, w2 = w1 % 65536 * 256 := ⟨_, rfl⟩
  obtain ⟨w3, hw3⟩ : ∃ w3, w3 = w2 % 65536 * 256 := ⟨_, rfl⟩
  have e1 : w1 / 65536 = c / 65536 % 256 := by omega
  have e2 : w2 / 65536 = c / 256 % 256 := by omega
  have e3 : w3 / 65536 = c % 256 := by omega
  rw [← e1, ← e2, ← e3]
  exact splitBE_first hw1 (splitBE_rest hw2 (splitBE_rest hw3 (splitBE_rest rfl (h _))))

theorem or_byte (a b : Nat) (h : b < 256) : a <<< 8 ||| b = a * 256 + b := by
  have := Nat.shiftLeft_add_eq_or_of_lt (i := 8) (b := b) h a
  rw [← this, Nat.shiftLeft_eq]

/-- The four bytes of a character, least significant first. -/
def bytesLE (c : Nat) : List Nat := [c % 256, c / 256 % 256, c / 65536 % 256, c / 16777216 % 256]

/-- C131.  Text converted to UTF-32, in either order, is four bytes for each character, in that order, and converts
back to the same text. -/
theorem utf32_round_trip (cs : List Nat) (h : ∀ c ∈ cs, c ≤ 0x10FFFF) :
    (split splitLE (· == 1) (4 * cs.length) 1 cs = .ok (cs.flatMap bytesLE) ∧
      composeLE (cs.flatMap bytesLE) = .ok cs) ∧
    (∀ w, split splitBE (·.1 == 0) (4 * cs.length) (0, w) cs = .ok (cs.flatMap fun c => (bytesLE c).reverse)) ∧
      composeBE (cs.flatMap fun c => (bytesLE c).reverse) = .ok cs := by
  induction cs with
  | nil => exact ⟨⟨rfl, rfl⟩, fun _ => rfl, rfl⟩
  | cons c cs ih =>
    obtain ⟨⟨l1, l2⟩, b1, b2⟩ := ih (fun x hx => h x (List.mem_cons_of_mem _ hx))
    have hc := h c List.mem_cons_self
    refine ⟨⟨?_, ?_⟩, fun w => ?_, ?_⟩
    · rw [List.length_cons, Nat.mul_add, splitLE_char hc l1]
      rfl
    · simp only [List.flatMap_cons, bytesLE, List.cons_append, List.nil_append, composeLE]
      rw [l2]
      have : c % 256 + (c / 256 % 256) <<< 8 + (c / 65536 % 256) <<< 16 + (c / 16777216 % 256) <<< 24 = c := by
        simp only [Nat.shiftLeft_eq, Nat.reducePow]
        omega
      rw [this]
      unfold asCharacter
      rw [if_pos (by omega)]
    · rw [List.length_cons, Nat.mul_add, splitBE_char b1]
      have : c / 16777216 = c / 16777216 % 256 := by omega
      rw [this]
      rfl
    · simp only [List.flatMap_cons, bytesLE, List.reverse_cons, List.reverse_nil, List.cons_append, List.nil_append,
        composeBE]
      simp only [bytesLE, List.reverse_cons, List.reverse_nil, List.cons_append, List.nil_append] at b2
      rw [b2, or_byte _ _ (by omega), or_byte _ _ (by omega), or_byte _ _ (by omega)]
      have : ((c / 16777216 % 256 * 256 + c / 65536 % 256) * 256 + c / 256 % 256) * 256 + c % 256 = c := by omega
      rw [this]
      unfold asCharacter
      rw [if_pos (by omega)]

example : split splitLE (· == 1) 8 1 [0x10FFFF, 65] = .ok [255, 255, 16, 0, 65, 0, 0, 0] ∧
    split splitBE (·.1 == 0) 8 (0, 7) [0x10FFFF, 65] = .ok [0, 16, 255, 255, 0, 0, 0, 65] := by decide +kernel

end Verif.Utf
