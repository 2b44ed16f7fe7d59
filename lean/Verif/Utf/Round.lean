import Verif.Utf.Steps

/-!
# Encoder and decoder side by side
-/

namespace Verif.Utf

/-- A Unicode character: no surrogate. -/
def Scalar (c : Nat) : Prop := c < 0xD800 ∨ 0xE000 ≤ c ∧ c ≤ 0x10FFFF

/-- What the decoder has gathered when it completes a character. -/
def word (c : Nat) : Nat := if c < 65536 then c else c / 1024 * 65536 + 0xDC00 + c % 1024

theorem unit_word {c : Nat} (h : Scalar c) (d : D) : unit d (word c) = .ok (some c, d) := by
  unfold Scalar at h
  unfold unit word
  simp only [mask_e, mask_f, mask_c, Nat.shiftRight_eq_div_pow, Nat.reducePow]
  by_cases hc : c < 65536
  · rw [if_pos hc]
    by_cases h1 : c < 0xD800
    · rw [if_pos h1]
    · rw [if_neg h1, if_neg (by omega), if_neg (by omega), if_pos (by omega)]
  · rw [if_neg hc, if_neg (by omega), if_neg (by omega), if_neg (by omega), if_neg (by omega), if_pos (by omega)]
    have : (c / 1024 * 65536 + 56320 + c % 1024) / 65536 % 2048 * 65536 / 64
        + (c / 1024 * 65536 + 56320 + c % 1024) % 1024 = c := by omega
    rw [this]

theorem unit_high {c : Nat} (h1 : 65536 ≤ c) (h2 : c ≤ 0x10FFFF) (s : Int) (w : Nat) :
    unit ⟨s, w⟩ (0xD800 + (c / 1024 - 64)) = .ok (none, ⟨s, w + c / 1024 * 65536⟩) := by
  unfold unit
  rw [if_neg (by omega), if_pos (by omega)]
  have : (0xD800 + (c / 1024 - 64) - 0xD7C0) <<< 16 = c / 1024 * 65536 := by
    rw [Nat.shiftLeft_eq]
    omega
  rw [this]

/-- The last bits of a character. -/
theorem Dec.char {c x s w : Nat} {inp out : List Nat} (hc : Scalar c) (hx : x < 64) (hs : s = 0 ∨ s = 2 ∨ s = 4)
    (hw : w + x / 2 ^ s = word c)
    (ho : Dec ⟨((10 - s : Nat) : Int), (x % 2 ^ s) * 2 ^ (16 - s)⟩ inp out) :
    Dec ⟨-(s : Int), w⟩ (toBase64Char x :: inp) (c :: out) := by
  have := Dec.last (x := x) (s := s) (w := w) (inp := inp) (out := out) (o := some c) hx hs
    (by rw [hw]; exact unit_word hc _) ho
  simpa using this

/-- The last bits of a high surrogate. -/
theorem Dec.high {c x s w : Nat} {inp out : List Nat} (h1 : 65536 ≤ c) (h2 : c ≤ 0x10FFFF) (hx : x < 64)
    (hs : s = 0 ∨ s = 2 ∨ s = 4) (hw : w + x / 2 ^ s = 0xD800 + (c / 1024 - 64))
    (ho : Dec ⟨((10 - s : Nat) : Int), (x % 2 ^ s) * 2 ^ (16 - s) + c / 1024 * 65536⟩ inp out) :
    Dec ⟨-(s : Int), w⟩ (toBase64Char x :: inp) out := by
  have := Dec.last (x := x) (s := s) (w := w) (inp := inp) (out := out) (o := none) hx hs
    (by rw [hw]; exact unit_high h1 h2 _ _) ho
  simpa using this

/-- After this input the two agree, whatever bits are pending. -/
structure Agree (inp : List Nat) : Prop where
  idle : ∀ v, ∃ out, Enc ⟨0, v, none⟩ inp out ∧ Dec .start out inp
  zero : ∃ out, Enc ⟨-512, 0, none⟩ inp out ∧ Dec ⟨10, 0⟩ out inp
  two : ∀ c, Scalar c → ∃ out, Enc ⟨2, word c % 4, none⟩ inp out ∧ Dec ⟨-4, word c - word c % 4⟩ out (c :: inp)
  four : ∀ c, Scalar c → ∃ out, Enc ⟨4, word c % 16, none⟩ inp out ∧ Dec ⟨-2, word c - word c % 16⟩ out (c :: inp)

/-- A character of one unit when no bits are pending. -/
theorem body16 {c : Nat} {rest : List Nat} (hc : Scalar c) (hlt : c < 65536) (ih : Agree rest) :
    ∃ x out, x < 64 ∧ Enc ⟨16, c, none⟩ rest (toBase64Char x :: out) ∧
      Dec ⟨10, 0⟩ (toBase64Char x :: out) (c :: rest) := by
  obtain ⟨out, h1, h2⟩ := ih.four c hc
  have hw : word c = c := by unfold word; rw [if_pos hlt]
  rw [hw] at h1 h2
  refine ⟨c / 1024, toBase64Char (c % 1024 / 16) :: out, by omega, ?_, ?_⟩
  · refine Enc.six (n := 16) (by omega) ?_
    refine Enc.six (n := 10) (v := c % 2 ^ 10) (by omega) ?_
    have : c % 2 ^ 10 % 2 ^ (10 - 6) = c % 16 := by simp only [Nat.reducePow, Nat.reduceSub]; omega
    rw [this]
    exact h1
  · refine Dec.more (s := 10) (by omega) (by omega) ?_
    refine Dec.more (s := 4) (by omega) (by omega) ?_
    have : 0 + c / 1024 * 2 ^ 10 + c % 1024 / 16 * 2 ^ 4 = c - c % 16 := by
      simp only [Nat.reducePow]; omega
    rw [this]
    exact h2

/-- The 26 bits that are left of a pair of surrogates after `2` was written. -/
def pairBits (c : Nat) : Nat := (c / 1024 - 64) * 65536 + 0xDC00 + c % 1024

/-- A character of two units when no bits are pending, after its first digit. -/
theorem body26 {c : Nat} {rest : List Nat} (hlt : 65536 ≤ c) (hle : c ≤ 0x10FFFF) (ih : Agree rest) :
    ∃ out, Enc ⟨26, pairBits c, none⟩ rest out ∧ Dec ⟨10, 0⟩ (toBase64Char 54 :: out) (c :: rest) := by
  have hc : Scalar c := by unfold Scalar; omega
  obtain ⟨out, h1, h2⟩ := ih.two c hc
  have hw : word c = c / 1024 * 65536 + 0xDC00 + c % 1024 := by unfold word; rw [if_neg (by omega)]
  rw [hw] at h1 h2
  refine ⟨toBase64Char (pairBits c / 2 ^ 20) :: toBase64Char (pairBits c % 2 ^ 20 / 2 ^ 14) ::
    toBase64Char (pairBits c % 2 ^ 14 / 2 ^ 8) :: toBase64Char (pairBits c % 2 ^ 8 / 2 ^ 2) :: out, ?_, ?_⟩
  · refine Enc.six (n := 26) (by omega) ?_
    refine Enc.six (n := 20) (v := pairBits c % 2 ^ 20) (by omega) ?_
    have e1 : pairBits c % 2 ^ 20 % 2 ^ (20 - 6) = pairBits c % 2 ^ 14 := by
      simp only [Nat.reducePow, Nat.reduceSub]; omega
    rw [e1]
    refine Enc.six (n := 14) (v := pairBits c % 2 ^ 14) (by omega) ?_
    have e2 : pairBits c % 2 ^ 14 % 2 ^ (14 - 6) = pairBits c % 2 ^ 8 := by
      simp only [Nat.reducePow, Nat.reduceSub]; omega
    rw [e2]
    refine Enc.six (n := 8) (v := pairBits c % 2 ^ 8) (by omega) ?_
    have e3 : pairBits c % 2 ^ 8 % 2 ^ (8 - 6) = (c / 1024 * 65536 + 0xDC00 + c % 1024) % 4 := by
      unfold pairBits
      simp only [Nat.reducePow, Nat.reduceSub]; omega
    rw [e3]
    exact h1
  · have b : pairBits c < 2 ^ 26 := by unfold pairBits; simp only [Nat.reducePow]; omega
    have hp : pairBits c = (c / 1024 - 64) * 65536 + 0xDC00 + c % 1024 := rfl
    generalize pairBits c = p at *
    simp only [Nat.reducePow] at *
    refine Dec.more (s := 10) (by omega) (by omega) ?_
    refine Dec.more (s := 4) (by omega) (by omega) ?_
    refine Dec.high (c := c) (s := 2) hlt hle (by omega) (by omega) (by simp only [Nat.reducePow]; omega) ?_
    refine Dec.more (s := 8) (by omega) (by omega) ?_
    refine Dec.more (s := 2) (by omega) (by omega) ?_
    have : p % 1048576 / 16384 % 2 ^ 2 * 2 ^ (16 - 2) + c / 1024 * 65536 + p % 16384 / 256 * 2 ^ 8 + p % 256 / 4 * 2 ^ 2
        = c / 1024 * 65536 + 56320 + c % 1024 - (c / 1024 * 65536 + 56320 + c % 1024) % 4 := by
      simp only [Nat.reducePow, Nat.reduceSub]; omega
    rw [this]
    exact h2

/-! ### Pumping -/

theorem Enc.same {e e' : E} {inp inp' out : List Nat} (he : ¬ (e.left = 0 ∧ inp = []))
    (he' : ¬ (e'.left = 0 ∧ inp' = [])) (h : next e inp = next e' inp') (ho : Enc e' inp' out) :
    Enc e inp out := by
  obtain ⟨k, hk⟩ := ho
  refine ⟨k, ?_⟩
  rw [encode.eq_def] at hk ⊢
  dsimp only at hk ⊢
  rw [if_neg he'] at hk
  rw [if_neg he, h]
  exact hk

theorem next_take {v n : Nat} {l : Option Nat} {inp : List Nat} (h : 6 ≤ n) :
    next ⟨n, v, l⟩ inp = some (take6 ⟨n, v, l⟩ inp) := by
  unfold next
  simp only
  rw [if_neg (by omega), if_neg (by omega), if_neg (by omega)]

theorem next_pump {v n : Nat} {l : Option Nat} {inp : List Nat} (h : 0 < n) (h6 : n < 6) :
    next ⟨n, v, l⟩ inp = some (pump ⟨n, v, l⟩ inp) := by
  unfold next
  simp only
  rw [if_neg (by omega), if_neg (by omega), if_pos (by omega)]

theorem next_pump_zero {v c : Nat} {inp : List Nat} :
    next ⟨-512, v, none⟩ (c :: inp) = some (pump ⟨0, v, none⟩ (c :: inp)) := by
  unfold next
  simp

/-- Pumping a character of one unit. -/
theorem pump16 {v n c : Nat} {l : Option Nat} {rest : List Nat} (hd : inTable directTable c = false)
    (hlt : c < 65536) : pump ⟨n, v, l⟩ (c :: rest) = take6 ⟨((n + 16 : Nat) : Int), v * 65536 + c, l⟩ rest := by
  unfold pump
  simp only [hd, if_pos hlt, Nat.shiftLeft_eq, Nat.reducePow, Bool.false_eq_true, if_false]
  rfl

/-- Pumping a character of two units. -/
theorem pump26 {v n c : Nat} {l : Option Nat} {rest : List Nat} (hd : inTable directTable c = false)
    (hle : 65536 ≤ c) (hc : c ≤ 0x10FFFF) (hn : n = 0 ∨ n = 2 ∨ n = 4) :
    pump ⟨n, v, l⟩ (c :: rest) = (toBase64Char ((v * 64 + 54) / 2 ^ n),
      ⟨((n + 26 : Nat) : Int), 54 % 2 ^ n * 2 ^ 26 + pairBits c, l⟩, rest) := by
  unfold pump
  simp only [hd, if_neg (Nat.not_lt.mpr hle), Nat.shiftLeft_eq, Nat.reducePow, Bool.false_eq_true, if_false, mask_b,
    mask_c]
  have h1 : (0 : Int) - (n : Int) = -(n : Int) := by omega
  rw [h1, shl_neg]
  have h2 : (0x18000000 &&& shl 0x3C00000 (n : Int)) + c / 1024 % 2048 * 1024 * 64 + c % 1024 + 56320 - 4194304
      = 54 % 2 ^ n * 67108864 + pairBits c := by
    have : (0x18000000 &&& shl 0x3C00000 (n : Int)) = 54 % 2 ^ n * 67108864 := by
      rcases hn with rfl | rfl | rfl <;> decide +kernel
    rw [this]
    unfold pairBits
    omega
  rw [h2]
  rfl

/-- The end of the input. -/
theorem pump_end {v n : Nat} {l : Option Nat} (h : 0 < n) (h6 : n < 6) :
    pump ⟨n, v, l⟩ [] = take6 ⟨6, v * 2 ^ (6 - n), none⟩ [] := by
  unfold pump
  have : (6 : Int) - (n : Int) = ((6 - n : Nat) : Int) := by omega
  simp only
  rw [if_neg (by omega), this, shl_pos]

/-- A direct character. -/
theorem pump_direct {v n c : Nat} {l : Option Nat} {rest : List Nat} (hd : inTable directTable c = true) (h : 0 < n)
    (h6 : n < 6) : pump ⟨n, v, l⟩ (c :: rest) = take6 ⟨6, v * 2 ^ (6 - n), some c⟩ rest := by
  unfold pump
  have : (6 : Int) - (n : Int) = ((6 - n : Nat) : Int) := by omega
  simp only [hd, if_true]
  rw [if_neg (by omega), this, shl_pos]

/-! ### The end of a run -/

/-- After the last digit, with a direct character to follow. -/
theorem end_run {c v : Nat} {rest : List Nat} {d : D} (hd : inTable directTable c = true) (hs : 4 < d.shift)
    (hw : d.wch = 0) (ih : Agree rest) :
    ∃ out, Enc ⟨-512, v, some c⟩ rest out ∧ Dec d out (c :: rest) := by
  obtain ⟨out, h1, h2⟩ := ih.idle v
  by_cases hb : inTable base64Table c = true
  · refine ⟨45 :: c :: out, ?_, Dec.minus hs hw (Dec.direct hd h2)⟩
    refine Enc.step (e' := ⟨-256, v, some c⟩) (inp' := rest) (by simp) (by unfold next; simp [hb]) ?_
    refine Enc.step (e' := ⟨0, v, none⟩) (inp' := rest) (by simp) (by unfold next; simp) h1
  · have hb : inTable base64Table c = false := by simpa using hb
    refine ⟨c :: out, ?_, Dec.ends hs hw hd hb h2⟩
    refine Enc.step (e' := ⟨0, v, none⟩) (inp' := rest) (by simp) (by unfold next; simp [hb]) h1

/-- The last digit of a run, when bits are pending. -/
theorem last_digit {c n v : Nat} {l : Option Nat} {rest out : List Nat} {cs : List Nat} (hc : Scalar c)
    (hn : n = 2 ∨ n = 4) (hv : v = word c % 2 ^ n) (he : Enc ⟨-512, 0, l⟩ rest out)
    (hd : Dec ⟨((10 - (6 - n) : Nat) : Int), 0⟩ out cs) :
    ∃ o, Enc ⟨6, v * 2 ^ (6 - n), l⟩ rest o ∧ Dec ⟨-((6 - n : Nat) : Int), word c - v⟩ o (c :: cs) := by
  refine ⟨toBase64Char (v * 2 ^ (6 - n) / 2 ^ (6 - 6)) :: out, ?_, ?_⟩
  · refine Enc.six (n := 6) (by omega) ?_
    have : v * 2 ^ (6 - n) % 2 ^ (6 - 6) = 0 := by simp only [Nat.reducePow, Nat.reduceSub]; omega
    rw [this]
    exact he
  · rcases hn with rfl | rfl
    · simp only [Nat.reducePow, Nat.reduceSub] at *
      refine Dec.char (s := 4) hc (by omega) (by omega) (by simp only [Nat.reducePow]; omega) ?_
      have : v * 16 / 1 % 2 ^ 4 * 2 ^ (16 - 4) = 0 := by simp only [Nat.reducePow, Nat.reduceSub]; omega
      rw [this]
      exact hd
    · simp only [Nat.reducePow, Nat.reduceSub] at *
      refine Dec.char (s := 2) hc (by omega) (by omega) (by simp only [Nat.reducePow]; omega) ?_
      have : v * 4 / 1 % 2 ^ 2 * 2 ^ (16 - 2) = 0 := by simp only [Nat.reducePow, Nat.reduceSub]; omega
      rw [this]
      exact hd

/-! ### All input -/

theorem Agree.nil : Agree [] := by
  have hz : Enc ⟨-512, 0, none⟩ [] [45] :=
    Enc.step (e' := ⟨0, 0, none⟩) (inp' := []) (by simp) (by unfold next; simp) (Enc.done rfl)
  refine ⟨fun v => ⟨[], Enc.done rfl, Dec.done (Or.inl rfl)⟩, ⟨[45], hz, Dec.minus (by decide) rfl
    (Dec.done (Or.inl rfl))⟩, ?_, ?_⟩
  · intro c hc
    obtain ⟨o, h1, h2⟩ := last_digit (n := 2) (v := word c % 4) hc (Or.inl rfl) rfl hz
      (Dec.minus (d := ⟨6, 0⟩) (by decide) rfl (Dec.done (Or.inl rfl)))
    refine ⟨o, Enc.same (by simp) (by simp) ?_ h1, h2⟩
    rw [show (⟨2, word c % 4, none⟩ : E) = ⟨((2 : Nat) : Int), word c % 4, none⟩ from rfl, next_pump (by omega)
      (by omega), pump_end (by omega) (by omega)]
    exact (next_take (n := 6) (by omega)).symm
  · intro c hc
    obtain ⟨o, h1, h2⟩ := last_digit (n := 4) (v := word c % 16) hc (Or.inr rfl) rfl hz
      (Dec.minus (d := ⟨8, 0⟩) (by decide) rfl (Dec.done (Or.inl rfl)))
    refine ⟨o, Enc.same (by simp) (by simp) ?_ h1, h2⟩
    rw [show (⟨4, word c % 16, none⟩ : E) = ⟨((4 : Nat) : Int), word c % 16, none⟩ from rfl, next_pump (by omega)
      (by omega), pump_end (by omega) (by omega)]
    exact (next_take (n := 6) (by omega)).symm

/-- A direct character. -/
theorem Agree.direct {c : Nat} {rest : List Nat} (hd : inTable directTable c = true) (ih : Agree rest) :
    Agree (c :: rest) := by
  refine ⟨?_, ?_, ?_, ?_⟩
  · intro v
    obtain ⟨out, h1, h2⟩ := ih.idle v
    exact ⟨c :: out, Enc.step (by simp) (by unfold next; simp [hd]) h1, Dec.direct hd h2⟩
  · obtain ⟨out, h1, h2⟩ := ih.idle 0
    refine ⟨45 :: c :: out, ?_, Dec.minus (by decide) rfl (Dec.direct hd h2)⟩
    refine Enc.step (e' := ⟨-256, 0, some c⟩) (inp' := rest) (by simp) (by rw [next_pump_zero]; simp [pump, hd]) ?_
    exact Enc.step (e' := ⟨0, 0, none⟩) (inp' := rest) (by simp) (by unfold next; simp) h1
  · intro c0 hc
    obtain ⟨o, h1, h2⟩ := end_run (v := 0) (d := ⟨6, 0⟩) hd (by decide) rfl ih
    obtain ⟨o, h1, h2⟩ := last_digit (n := 2) (v := word c0 % 4) hc (Or.inl rfl) rfl h1 h2
    refine ⟨o, Enc.same (by simp) (by simp) ?_ h1, h2⟩
    rw [show (⟨2, word c0 % 4, none⟩ : E) = ⟨((2 : Nat) : Int), word c0 % 4, none⟩ from rfl, next_pump (by omega)
      (by omega), pump_direct hd (by omega) (by omega)]
    exact (next_take (n := 6) (by omega)).symm
  · intro c0 hc
    obtain ⟨o, h1, h2⟩ := end_run (v := 0) (d := ⟨8, 0⟩) hd (by decide) rfl ih
    obtain ⟨o, h1, h2⟩ := last_digit (n := 4) (v := word c0 % 16) hc (Or.inr rfl) rfl h1 h2
    refine ⟨o, Enc.same (by simp) (by simp) ?_ h1, h2⟩
    rw [show (⟨4, word c0 % 16, none⟩ : E) = ⟨((4 : Nat) : Int), word c0 % 16, none⟩ from rfl, next_pump (by omega)
      (by omega), pump_direct hd (by omega) (by omega)]
    exact (next_take (n := 6) (by omega)).symm

/-- A character of one unit after 14 bits. -/
theorem two16 {c c0 : Nat} {rest : List Nat} (h0 : Scalar c0) (hc : Scalar c) (hlt : c < 65536) (ih : Agree rest) :
    ∃ out, Enc ⟨18, word c0 % 4 * 65536 + c, none⟩ rest out ∧
      Dec ⟨-4, word c0 - word c0 % 4⟩ out (c0 :: c :: rest) := by
  obtain ⟨out, h1, h2⟩ := ih.zero
  have hw : word c = c := by unfold word; rw [if_pos hlt]
  generalize hW : word c0 = W at *
  refine ⟨toBase64Char ((W % 4 * 65536 + c) / 2 ^ 12) :: toBase64Char ((W % 4 * 65536 + c) % 2 ^ 12 / 2 ^ 6) ::
    toBase64Char ((W % 4 * 65536 + c) % 2 ^ 6 / 2 ^ 0) :: out, ?_, ?_⟩
  · refine Enc.six (n := 18) (by omega) ?_
    refine Enc.six (n := 12) (v := (W % 4 * 65536 + c) % 2 ^ 12) (by omega) ?_
    have e1 : (W % 4 * 65536 + c) % 2 ^ 12 % 2 ^ (12 - 6) = (W % 4 * 65536 + c) % 2 ^ 6 := by
      simp only [Nat.reducePow, Nat.reduceSub]; omega
    rw [e1]
    refine Enc.six (n := 6) (v := (W % 4 * 65536 + c) % 2 ^ 6) (by omega) ?_
    have e2 : (W % 4 * 65536 + c) % 2 ^ 6 % 2 ^ (6 - 6) = 0 := by
      simp only [Nat.reducePow, Nat.reduceSub]; omega
    rw [e2]
    exact h1
  · simp only [Nat.reducePow] at *
    refine Dec.char (s := 4) h0 (by omega) (by omega) (by rw [hW]; simp only [Nat.reducePow]; omega) ?_
    refine Dec.more (s := 6) (by omega) (by omega) ?_
    refine Dec.char (s := 0) hc (by omega) (by omega)
      (by rw [hw]; simp only [Nat.reducePow, Nat.reduceSub]; omega) ?_
    have : (W % 4 * 65536 + c) % 64 / 1 % 2 ^ 0 * 2 ^ (16 - 0) = 0 := by
      simp only [Nat.reducePow, Nat.reduceSub]; omega
    rw [this]
    exact h2

/-- A character of one unit after 12 bits. -/
theorem four16 {c c0 : Nat} {rest : List Nat} (h0 : Scalar c0) (hc : Scalar c) (hlt : c < 65536) (ih : Agree rest) :
    ∃ out, Enc ⟨20, word c0 % 16 * 65536 + c, none⟩ rest out ∧
      Dec ⟨-2, word c0 - word c0 % 16⟩ out (c0 :: c :: rest) := by
  obtain ⟨out, h1, h2⟩ := ih.two c hc
  have hw : word c = c := by unfold word; rw [if_pos hlt]
  rw [hw] at h1 h2
  generalize hW : word c0 = W at *
  refine ⟨toBase64Char ((W % 16 * 65536 + c) / 2 ^ 14) :: toBase64Char ((W % 16 * 65536 + c) % 2 ^ 14 / 2 ^ 8) ::
    toBase64Char ((W % 16 * 65536 + c) % 2 ^ 8 / 2 ^ 2) :: out, ?_, ?_⟩
  · refine Enc.six (n := 20) (by omega) ?_
    refine Enc.six (n := 14) (v := (W % 16 * 65536 + c) % 2 ^ 14) (by omega) ?_
    have e1 : (W % 16 * 65536 + c) % 2 ^ 14 % 2 ^ (14 - 6) = (W % 16 * 65536 + c) % 2 ^ 8 := by
      simp only [Nat.reducePow, Nat.reduceSub]; omega
    rw [e1]
    refine Enc.six (n := 8) (v := (W % 16 * 65536 + c) % 2 ^ 8) (by omega) ?_
    have e2 : (W % 16 * 65536 + c) % 2 ^ 8 % 2 ^ (8 - 6) = c % 4 := by
      simp only [Nat.reducePow, Nat.reduceSub]; omega
    rw [e2]
    exact h1
  · simp only [Nat.reducePow] at *
    refine Dec.char (s := 2) h0 (by omega) (by omega) (by rw [hW]; simp only [Nat.reducePow]; omega) ?_
    refine Dec.more (s := 8) (by omega) (by omega) ?_
    refine Dec.more (s := 2) (by omega) (by omega) ?_
    have : (W % 16 * 65536 + c) / 16384 % 2 ^ 2 * 2 ^ (16 - 2) + (W % 16 * 65536 + c) % 16384 / 256 * 2 ^ 8
        + (W % 16 * 65536 + c) % 256 / 4 * 2 ^ 2 = c - c % 4 := by
      simp only [Nat.reducePow, Nat.reduceSub]; omega
    rw [this]
    exact h2

/-- A character of two units after 14 bits: the digits after the first. -/
theorem two26 {c c0 : Nat} {rest : List Nat} (h0 : Scalar c0) (hlt : 65536 ≤ c) (hle : c ≤ 0x10FFFF)
    (ih : Agree rest) :
    ∃ out, Enc ⟨28, 54 % 2 ^ 2 * 2 ^ 26 + pairBits c, none⟩ rest out ∧
      Dec ⟨-4, word c0 - word c0 % 4⟩ (toBase64Char ((word c0 % 4 * 64 + 54) / 2 ^ 2) :: out) (c0 :: c :: rest) := by
  have hc : Scalar c := by unfold Scalar; omega
  obtain ⟨out, h1, h2⟩ := ih.four c hc
  have hw : word c = c / 1024 * 65536 + 0xDC00 + c % 1024 := by unfold word; rw [if_neg (by omega)]
  rw [hw] at h1 h2
  have b : pairBits c < 2 ^ 26 := by unfold pairBits; simp only [Nat.reducePow]; omega
  have hp : pairBits c = (c / 1024 - 64) * 65536 + 0xDC00 + c % 1024 := rfl
  generalize pairBits c = p at *
  generalize hW : word c0 = W at *
  refine ⟨toBase64Char ((54 % 2 ^ 2 * 2 ^ 26 + p) / 2 ^ 22) ::
    toBase64Char ((54 % 2 ^ 2 * 2 ^ 26 + p) % 2 ^ 22 / 2 ^ 16) ::
    toBase64Char ((54 % 2 ^ 2 * 2 ^ 26 + p) % 2 ^ 16 / 2 ^ 10) ::
    toBase64Char ((54 % 2 ^ 2 * 2 ^ 26 + p) % 2 ^ 10 / 2 ^ 4) :: out, ?_, ?_⟩
  · refine Enc.six (n := 28) (by omega) ?_
    refine Enc.six (n := 22) (v := (54 % 2 ^ 2 * 2 ^ 26 + p) % 2 ^ 22) (by omega) ?_
    have e1 : (54 % 2 ^ 2 * 2 ^ 26 + p) % 2 ^ 22 % 2 ^ (22 - 6) = (54 % 2 ^ 2 * 2 ^ 26 + p) % 2 ^ 16 := by
      simp only [Nat.reducePow, Nat.reduceSub]; omega
    rw [e1]
    refine Enc.six (n := 16) (v := (54 % 2 ^ 2 * 2 ^ 26 + p) % 2 ^ 16) (by omega) ?_
    have e2 : (54 % 2 ^ 2 * 2 ^ 26 + p) % 2 ^ 16 % 2 ^ (16 - 6) = (54 % 2 ^ 2 * 2 ^ 26 + p) % 2 ^ 10 := by
      simp only [Nat.reducePow, Nat.reduceSub]; omega
    rw [e2]
    refine Enc.six (n := 10) (v := (54 % 2 ^ 2 * 2 ^ 26 + p) % 2 ^ 10) (by omega) ?_
    have e3 : (54 % 2 ^ 2 * 2 ^ 26 + p) % 2 ^ 10 % 2 ^ (10 - 6) = (c / 1024 * 65536 + 0xDC00 + c % 1024) % 16 := by
      simp only [Nat.reducePow, Nat.reduceSub, Nat.reduceMod, Nat.reduceMul] at *; omega
    rw [e3]
    exact h1
  · simp only [Nat.reducePow, Nat.reduceMod, Nat.reduceMul] at *
    refine Dec.char (s := 4) h0 (by omega) (by omega) (by rw [hW]; simp only [Nat.reducePow]; omega) ?_
    refine Dec.more (s := 6) (by omega) (by omega) ?_
    refine Dec.high (c := c) (s := 0) hlt hle (by omega) (by omega)
      (by simp only [Nat.reducePow, Nat.reduceSub]; omega) ?_
    refine Dec.more (s := 10) (by omega) (by omega) ?_
    refine Dec.more (s := 4) (by omega) (by omega) ?_
    have : (134217728 + p) % 4194304 / 65536 % 2 ^ 0 * 2 ^ (16 - 0) + c / 1024 * 65536
        + (134217728 + p) % 65536 / 1024 * 2 ^ 10 + (134217728 + p) % 1024 / 16 * 2 ^ 4
        = c / 1024 * 65536 + 56320 + c % 1024 - (c / 1024 * 65536 + 56320 + c % 1024) % 16 := by
      simp only [Nat.reducePow, Nat.reduceSub]; omega
    rw [this]
    exact h2

/-- A character of two units after 12 bits: the digits after the first. -/
theorem four26 {c c0 : Nat} {rest : List Nat} (h0 : Scalar c0) (hlt : 65536 ≤ c) (hle : c ≤ 0x10FFFF)
    (ih : Agree rest) :
    ∃ out, Enc ⟨30, 54 % 2 ^ 4 * 2 ^ 26 + pairBits c, none⟩ rest out ∧
      Dec ⟨-2, word c0 - word c0 % 16⟩ (toBase64Char ((word c0 % 16 * 64 + 54) / 2 ^ 4) :: out)
        (c0 :: c :: rest) := by
  have hc : Scalar c := by unfold Scalar; omega
  obtain ⟨out, h1, h2⟩ := ih.zero
  have hw : word c = c / 1024 * 65536 + 0xDC00 + c % 1024 := by unfold word; rw [if_neg (by omega)]
  have b : pairBits c < 2 ^ 26 := by unfold pairBits; simp only [Nat.reducePow]; omega
  have hp : pairBits c = (c / 1024 - 64) * 65536 + 0xDC00 + c % 1024 := rfl
  generalize pairBits c = p at *
  generalize hW : word c0 = W at *
  refine ⟨toBase64Char ((54 % 2 ^ 4 * 2 ^ 26 + p) / 2 ^ 24) ::
    toBase64Char ((54 % 2 ^ 4 * 2 ^ 26 + p) % 2 ^ 24 / 2 ^ 18) ::
    toBase64Char ((54 % 2 ^ 4 * 2 ^ 26 + p) % 2 ^ 18 / 2 ^ 12) ::
    toBase64Char ((54 % 2 ^ 4 * 2 ^ 26 + p) % 2 ^ 12 / 2 ^ 6) ::
    toBase64Char ((54 % 2 ^ 4 * 2 ^ 26 + p) % 2 ^ 6 / 2 ^ 0) :: out, ?_, ?_⟩
  · refine Enc.six (n := 30) (by omega) ?_
    refine Enc.six (n := 24) (v := (54 % 2 ^ 4 * 2 ^ 26 + p) % 2 ^ 24) (by omega) ?_
    have e1 : (54 % 2 ^ 4 * 2 ^ 26 + p) % 2 ^ 24 % 2 ^ (24 - 6) = (54 % 2 ^ 4 * 2 ^ 26 + p) % 2 ^ 18 := by
      simp only [Nat.reducePow, Nat.reduceSub]; omega
    rw [e1]
    refine Enc.six (n := 18) (v := (54 % 2 ^ 4 * 2 ^ 26 + p) % 2 ^ 18) (by omega) ?_
    have e2 : (54 % 2 ^ 4 * 2 ^ 26 + p) % 2 ^ 18 % 2 ^ (18 - 6) = (54 % 2 ^ 4 * 2 ^ 26 + p) % 2 ^ 12 := by
      simp only [Nat.reducePow, Nat.reduceSub]; omega
    rw [e2]
    refine Enc.six (n := 12) (v := (54 % 2 ^ 4 * 2 ^ 26 + p) % 2 ^ 12) (by omega) ?_
    have e3 : (54 % 2 ^ 4 * 2 ^ 26 + p) % 2 ^ 12 % 2 ^ (12 - 6) = (54 % 2 ^ 4 * 2 ^ 26 + p) % 2 ^ 6 := by
      simp only [Nat.reducePow, Nat.reduceSub]; omega
    rw [e3]
    refine Enc.six (n := 6) (v := (54 % 2 ^ 4 * 2 ^ 26 + p) % 2 ^ 6) (by omega) ?_
    have e4 : (54 % 2 ^ 4 * 2 ^ 26 + p) % 2 ^ 6 % 2 ^ (6 - 6) = 0 := by
      simp only [Nat.reducePow, Nat.reduceSub]; omega
    rw [e4]
    exact h1
  · simp only [Nat.reducePow, Nat.reduceMod, Nat.reduceMul] at *
    refine Dec.char (s := 2) h0 (by omega) (by omega) (by rw [hW]; simp only [Nat.reducePow]; omega) ?_
    refine Dec.more (s := 8) (by omega) (by omega) ?_
    refine Dec.more (s := 2) (by omega) (by omega) ?_
    refine Dec.high (c := c) (s := 4) hlt hle (by omega) (by omega)
      (by simp only [Nat.reducePow, Nat.reduceSub]; omega) ?_
    refine Dec.more (s := 6) (by omega) (by omega) ?_
    refine Dec.char (s := 0) hc (by omega) (by omega)
      (by rw [hw]; simp only [Nat.reducePow, Nat.reduceSub]; omega) ?_
    have : (402653184 + p) % 64 / 1 % 2 ^ 0 * 2 ^ (16 - 0) = 0 := by
      simp only [Nat.reducePow, Nat.reduceSub]; omega
    rw [this]
    exact h2

/-- A character that has to be encoded. -/
theorem Agree.coded {c : Nat} {rest : List Nat} (hd : inTable directTable c = false) (hc : Scalar c)
    (ih : Agree rest) : Agree (c :: rest) := by
  by_cases hlt : c < 65536
  · obtain ⟨x, o16, hx, h1, h2⟩ := body16 hc hlt ih
    refine ⟨?_, ?_, ?_, ?_⟩
    · intro v
      by_cases hp : c = 43
      · subst hp
        obtain ⟨out, h1, h2⟩ := ih.idle v
        refine ⟨43 :: 45 :: out, ?_, Dec.plus h2⟩
        refine Enc.step (e' := ⟨-256, v, some 45⟩) (inp' := rest) (by simp) (by unfold next; simp [hd]) ?_
        exact Enc.step (e' := ⟨0, v, none⟩) (inp' := rest) (by simp) (by unfold next; simp) h1
      · refine ⟨43 :: toBase64Char x :: o16, ?_, Dec.enter hx h2⟩
        exact Enc.step (by simp) (by unfold next; simp [hd, hp, hlt]) h1
    · refine ⟨_, Enc.same (by simp) (by simp) ?_ h1, h2⟩
      rw [next_pump_zero, show (⟨0, 0, none⟩ : E) = ⟨((0 : Nat) : Int), 0, none⟩ from rfl, pump16 hd hlt,
        show (⟨16, c, none⟩ : E) = ⟨((0 + 16 : Nat) : Int), 0 * 65536 + c, none⟩ from by simp,
        next_take (by omega)]
    · intro c0 h0
      obtain ⟨o, h1, h2⟩ := two16 h0 hc hlt ih
      refine ⟨o, Enc.same (by simp) (by simp) ?_ h1, h2⟩
      rw [show (⟨2, word c0 % 4, none⟩ : E) = ⟨((2 : Nat) : Int), word c0 % 4, none⟩ from rfl, next_pump (by omega)
        (by omega), pump16 hd hlt, ← next_take (by omega)]
      rfl
    · intro c0 h0
      obtain ⟨o, h1, h2⟩ := four16 h0 hc hlt ih
      refine ⟨o, Enc.same (by simp) (by simp) ?_ h1, h2⟩
      rw [show (⟨4, word c0 % 16, none⟩ : E) = ⟨((4 : Nat) : Int), word c0 % 16, none⟩ from rfl, next_pump (by omega)
        (by omega), pump16 hd hlt, ← next_take (by omega)]
      rfl
  · have hle : 65536 ≤ c := by omega
    have hmax : c ≤ 0x10FFFF := by unfold Scalar at hc; omega
    have hp : c ≠ 43 := by omega
    have hv : (c &&& 0x1FFFC00) <<< 6 + (c &&& 0x3FF) + 0xDC00 - 0x400000 = pairBits c := by
      rw [mask_a, mask_c, Nat.shiftLeft_eq]
      unfold pairBits
      simp only [Nat.reducePow]
      omega
    obtain ⟨o26, h1, h2⟩ := body26 hle hmax ih
    refine ⟨?_, ?_, ?_, ?_⟩
    · intro v
      refine ⟨43 :: toBase64Char 54 :: o26, ?_, Dec.enter (by omega) h2⟩
      refine Enc.step (e' := ⟨-230, pairBits c, some 50⟩) (inp' := rest) (by simp) (by
        unfold next
        simp only [hd, if_neg hp, if_neg hlt, hv, if_true, Bool.false_eq_true, if_false]) ?_
      exact Enc.step (e' := ⟨26, pairBits c, none⟩) (inp' := rest) (by simp) (by unfold next; simp; rfl) h1
    · refine ⟨_, Enc.step (e' := ⟨26, pairBits c, none⟩) (inp' := rest) (by simp) ?_ h1, h2⟩
      rw [next_pump_zero, show (⟨0, 0, none⟩ : E) = ⟨((0 : Nat) : Int), 0, none⟩ from rfl,
        pump26 hd hle hmax (by omega)]
      simp
    · intro c0 h0
      obtain ⟨o, h1, h2⟩ := two26 h0 hle hmax ih
      refine ⟨_, Enc.step (e' := ⟨28, 54 % 2 ^ 2 * 2 ^ 26 + pairBits c, none⟩) (inp' := rest) (by simp) ?_ h1, h2⟩
      rw [show (⟨2, word c0 % 4, none⟩ : E) = ⟨((2 : Nat) : Int), word c0 % 4, none⟩ from rfl, next_pump (by omega)
        (by omega), pump26 hd hle hmax (by omega)]
      rfl
    · intro c0 h0
      obtain ⟨o, h1, h2⟩ := four26 h0 hle hmax ih
      refine ⟨_, Enc.step (e' := ⟨30, 54 % 2 ^ 4 * 2 ^ 26 + pairBits c, none⟩) (inp' := rest) (by simp) ?_ h1, h2⟩
      rw [show (⟨4, word c0 % 16, none⟩ : E) = ⟨((4 : Nat) : Int), word c0 % 16, none⟩ from rfl, next_pump (by omega)
        (by omega), pump26 hd hle hmax (by omega)]
      rfl

/-- Encoder and decoder agree on every list of Unicode characters. -/
theorem agree {cs : List Nat} (h : ∀ c ∈ cs, Scalar c) : Agree cs := by
  induction cs with
  | nil => exact Agree.nil
  | cons c rest ih =>
    have ih := ih (fun x hx => h x (List.mem_cons_of_mem _ hx))
    have hc := h c List.mem_cons_self
    by_cases hd : inTable directTable c = true
    · exact Agree.direct hd ih
    · exact Agree.coded (by simpa using hd) hc ih

end Verif.Utf
