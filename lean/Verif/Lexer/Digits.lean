import Verif.Lexer.Bytes
import Verif.Num.Print

/-!
# Integers: what the text says and what the lexer answers
-/

namespace Verif.Lexer

open Verif.Num (code)

/-- The character of a digit: 0–9, then A–Z. -/
def dchar (d : Nat) : Char := Char.ofNat (code d)

/-- `cs` spells the digits `ds`: the digits with underscores anywhere. -/
inductive Spells (base : Nat) : List Char → List Nat → Prop where
  | nil : Spells base [] []
  | us : Spells base cs ds → Spells base ('_' :: cs) ds
  | dig : d < base → Spells base cs ds → Spells base (dchar d :: cs) (d :: ds)

/-- What follows ends the digits. -/
def Stop (base : Nat) (r : List Char) : Prop :=
  ∀ c r', r = c :: r' → c ≠ '_' ∧ ∀ d, d < base → c ≠ dchar d

theorem dchar_toNat {d : Nat} (h : d < 36) : (dchar d).toNat = code d := by
  have : ∀ d, d < 36 → (dchar d).toNat = code d := by decide +kernel
  exact this d h

theorem digitOf_dchar {base d : Nat} (hb : base ≤ 36) (h : d < base) : digitOf base (dchar d) = some d := by
  have h1 := dchar_toNat (d := d) (by omega)
  unfold digitOf
  simp only [h1]
  unfold code
  split <;> (rw [if_neg (by omega)]; split <;> (rw [if_pos (by omega)]; congr 1; omega))

theorem digitOf_some {base d : Nat} {c : Char} (hb : base ≤ 36) (h : digitOf base c = some d) :
    d < base ∧ c = dchar d := by
  unfold digitOf at h
  simp only at h
  by_cases h1 : c.toNat < 48 ∨ 57 < c.toNat ∧ c.toNat < 65 ∨ 90 < c.toNat
  · rw [if_pos h1] at h; simp at h
  · rw [if_neg h1] at h
    by_cases h2 : 65 ≤ c.toNat
    · rw [if_pos h2] at h
      by_cases h3 : c.toNat - 65 + 10 < base
      · rw [if_pos h3] at h
        simp only [Option.some.injEq] at h
        refine ⟨by omega, ?_⟩
        apply Char.toNat_inj.mp
        rw [dchar_toNat (by omega)]
        unfold code
        split <;> omega
      · rw [if_neg h3] at h; simp at h
    · rw [if_neg h2] at h
      by_cases h3 : c.toNat - 48 < base
      · rw [if_pos h3] at h
        simp only [Option.some.injEq] at h
        refine ⟨by omega, ?_⟩
        apply Char.toNat_inj.mp
        rw [dchar_toNat (by omega)]
        unfold code
        split <;> omega
      · rw [if_neg h3] at h; simp at h

theorem digitOf_none {base : Nat} {c : Char} (hb : base ≤ 36) (h : ∀ d, d < base → c ≠ dchar d) :
    digitOf base c = none := by
  cases e : digitOf base c with
  | none => rfl
  | some d => exact absurd (digitOf_some hb e).2 (h d (digitOf_some hb e).1)

theorem dchar_ne_us {d : Nat} (h : d < 36) : dchar d ≠ '_' := by
  have : ∀ d, d < 36 → dchar d ≠ '_' := by decide +kernel
  exact this d h

theorem Spells.lt {base} {cs : List Char} {ds : List Nat} (h : Spells base cs ds) : ∀ d ∈ ds, d < base := by
  induction h with
  | nil => simp
  | us _ ih => exact ih
  | dig h _ ih =>
    intro d hd
    simp only [List.mem_cons] at hd
    rcases hd with rfl | hd
    · exact h
    · exact ih d hd

theorem scanDigits_stop {lim base v big ds r} (hb : base ≤ 36) (h : Stop base r) :
    scanDigits lim base v big ds r = (v, big, ds, r) := by
  cases r with
  | nil => simp [scanDigits]
  | cons c r =>
    obtain ⟨h1, h2⟩ := h c r rfl
    simp [scanDigits, h1, digitOf_none hb h2]

/-- The digits are read to their end; the number is right modulo 2^64. -/
theorem scanDigits_read {lim base} (hb : base ≤ 36) {cs ds} (h : Spells base cs ds) :
    ∀ {r}, Stop base r → ∀ {v big acc}, ∃ big',
      scanDigits lim base (v % 2 ^ 64) big acc (cs ++ r) = (digits base v ds % 2 ^ 64, big', acc ++ ds, r) := by
  induction h with
  | nil =>
    intro r hr v big acc
    exact ⟨big, by rw [List.nil_append, scanDigits_stop hb hr]; simp [digits]⟩
  | us h ih =>
    intro r hr v big acc
    obtain ⟨b, hb⟩ := ih hr (v := v) (big := big) (acc := acc)
    exact ⟨b, by rw [List.cons_append, scanDigits, if_pos rfl, hb]⟩
  | @dig d cs ds hd h ih =>
    intro r hr v big acc
    obtain ⟨b, hb'⟩ := ih hr (v := v * base + d) (big := big || over lim base (v % 2 ^ 64) d) (acc := acc ++ [d])
    refine ⟨b, ?_⟩
    rw [List.cons_append, scanDigits, if_neg (dchar_ne_us (by omega)), digitOf_dchar hb hd]
    simp only
    have : (v % 2 ^ 64 * base + d) % 2 ^ 64 = (v * base + d) % 2 ^ 64 := by
      rw [Nat.add_mod, Nat.mod_mul_mod, ← Nat.add_mod]
    rw [this, hb']
    simp [digits]

/-- Whether the number is too large is found out rightly. -/
theorem scanDigits_big {m base} (hb0 : 1 ≤ base) (hb : base ≤ 36) (hm : 36 ≤ m) (hm' : m < 2 ^ 64)
    {cs ds} (h : Spells base cs ds) :
    ∀ {r}, Stop base r → ∀ {v big acc}, big = decide (m < v) →
      scanDigits (some m) base (v % 2 ^ 64) big acc (cs ++ r) =
        (digits base v ds % 2 ^ 64, decide (m < digits base v ds), acc ++ ds, r) := by
  induction h with
  | nil =>
    intro r hr v big acc hv
    subst hv
    rw [List.nil_append, scanDigits_stop hb hr, List.append_nil]; rfl
  | us h ih =>
    intro r hr v big acc hv
    rw [List.cons_append, scanDigits, if_pos rfl, ih hr hv]
  | @dig d cs ds hd h ih =>
    intro r hr v big acc hv
    rw [List.cons_append, scanDigits, if_neg (dchar_ne_us (by omega)), digitOf_dchar hb hd]
    simp only
    have e1 : (v % 2 ^ 64 * base + d) % 2 ^ 64 = (v * base + d) % 2 ^ 64 := by
      rw [Nat.add_mod, Nat.mod_mul_mod, ← Nat.add_mod]
    have e2 : (big || over (some m) base (v % 2 ^ 64) d) = decide (m < v * base + d) := by
      subst hv
      simp only [over]
      by_cases h1 : m < v
      · have : v * 1 ≤ v * base := Nat.mul_le_mul_left _ hb0
        simp only [h1, decide_true, Bool.true_or]
        rw [decide_eq_true (by omega)]
      · have h2 : v % 2 ^ 64 = v := Nat.mod_eq_of_lt (by omega)
        simp only [h1, decide_false, Bool.false_or, h2]
        congr 1
        rw [Nat.div_lt_iff_lt_mul (by omega)]
        apply propext
        omega
    rw [e1, ih hr e2, List.append_assoc]
    rfl

/-! ## Integer literals -/

/-- How an integer can be written: `IsInt base cs z` if the text `cs`, whose digits are in
`base`, says `z`. -/
inductive IsInt : Nat → List Char → Int → Prop where
  | dec {d cs ds} : d < 10 → Spells 10 cs ds → IsInt 10 (dchar d :: cs) (digits 10 0 (d :: ds))
  | radix {d cs ds base cs' ds'} : d < 10 → Spells 10 cs ds → digits 10 0 (d :: ds) = base → 1 ≤ base →
      base ≤ 36 → Spells base cs' ds' → ds' ≠ [] →
      IsInt base (dchar d :: cs ++ 'r' :: cs') (digits base 0 ds')
  | neg {d cs ds base cs' ds'} : d < 10 → Spells 10 cs ds → digits 10 0 (d :: ds) = base → 1 ≤ base →
      base ≤ 36 → Spells base cs' ds' → ds' ≠ [] →
      IsInt base (dchar d :: cs ++ 'r' :: '-' :: cs') (-(digits base 0 ds' : Int))

/-- What follows an integer does not make it longer and does not make it another
kind of number. -/
def After (base : Nat) (r : List Char) : Prop :=
  Stop base r ∧ (∀ c r', r = c :: r' → c ≠ 'r' ∧ c ≠ 's' ∧ c ≠ 'e' ∧ c ≠ 'd' ∧ c ≠ 'q') ∧
  ∀ c r', r = '.' :: c :: r' → ∀ d, d < base → c ≠ dchar d

/-- The token says the number `z`: a SmallInteger if it is in their range, otherwise the
shortest bytes of it. -/
def Says : LTok → Int → Prop
  | .tok (.int v), z => v = z ∧ -2 ^ 62 ≤ z ∧ z < 2 ^ 62
  | .large bs, z => bytesVal bs = z ∧ Normal bs ∧ (z < -2 ^ 62 ∨ 2 ^ 62 ≤ z)
  | _, _ => False

theorem after_finish {base r} (hb : base ≤ 36) (h : After base r) {neg v big ds} :
    scanFrac false neg base v big ds r = finishInt false neg base v big ds r := by
  obtain ⟨-, h1, h2⟩ := h
  have hs : scanScale false neg base v big ds false 0 r = finishInt false neg base v big ds r := by
    unfold scanScale
    split
    · rename_i r'
      exact absurd rfl (h1 's' r' rfl).2.1
    · unfold scanExp
      split
      · simp
      · rename_i c r' _
        have := h1 c r' rfl
        have e : expKind c = none := by
          unfold expKind
          split <;> simp_all
        simp [e]
  unfold scanFrac
  split
  · rename_i c r'
    rw [digitOf_none hb (h2 c r' rfl)]
    exact hs
  · exact hs

theorem word_pos {v : Nat} (h : v < 2 ^ 62) : word false (v % 2 ^ 64) = v := by
  simp only [word, Nat.reducePow, Bool.false_eq_true, if_false] at *
  rw [Nat.mod_eq_of_lt (by omega), if_pos (by omega)]

theorem word_neg {v : Nat} (h : v ≤ 2 ^ 62) : word true (v % 2 ^ 64) = -(v : Int) := by
  simp only [word, Nat.reducePow] at *
  rw [Nat.mod_eq_of_lt (a := v) (by omega)]
  simp only [if_true]
  rcases Nat.eq_zero_or_pos v with rfl | hv
  · simp
  · rw [Nat.mod_eq_of_lt (by omega), if_neg (by omega)]
    omega

theorem finish_pos {base ds r} (hb : 1 ≤ base) (hb' : base ≤ 36) (hd : ∀ d ∈ ds, d < base) :
    ∃ t, finishInt false false base (digits base 0 ds % 2 ^ 64) (decide (maxInt < digits base 0 ds)) ds r
      = ⟨some t, false, r⟩ ∧ Says t (digits base 0 ds) := by
  unfold finishInt
  by_cases h : maxInt < digits base 0 ds
  · have hm : (2 : Nat) ^ 62 ≤ digits base 0 ds := by simp only [maxInt, Nat.reducePow] at h ⊢; omega
    have := largeBytes_spec false hb hb' hd (by simp only [Nat.reducePow] at hm; omega)
    refine ⟨.large (largeBytes false base ds), by simp [h], ?_⟩
    exact ⟨by simpa using this.1, this.2, .inr (by exact_mod_cast hm)⟩
  · have hm : digits base 0 ds < 2 ^ 62 := by simp only [maxInt, Nat.reducePow] at h ⊢; omega
    refine ⟨.tok (.int (word false (digits base 0 ds % 2 ^ 64))), by simp [h], ?_⟩
    refine ⟨word_pos hm, ?_, by exact_mod_cast hm⟩
    have : (0 : Int) ≤ (digits base 0 ds : Int) := Int.natCast_nonneg _
    norm_num

theorem dchar_isDigit {d : Nat} (h : d < 10) : isDigit (dchar d) = true := by
  have : ∀ d, d < 10 → isDigit (dchar d) = true := by decide +kernel
  exact this d h

theorem dchar_not_white {d : Nat} (h : d < 10) : isWhite (dchar d) = false := by
  have : ∀ d, d < 10 → isWhite (dchar d) = false := by decide +kernel
  exact this d h

theorem step_dchar {d : Nat} (h : d < 10) (r : List Char) : step (dchar d) r = scanNumber (dchar d :: r) := by
  simp [step, dchar_isDigit h, dchar_not_white h]

theorem stop_r (r : List Char) : Stop 10 ('r' :: r) := by
  intro c r' h
  simp only [List.cons.injEq] at h
  obtain ⟨rfl, -⟩ := h
  exact ⟨by decide, by decide⟩

theorem minus_not_dchar {base d : Nat} (hb : base ≤ 36) (h : d < base) : dchar d ≠ '-' := by
  have : ∀ d, d < 36 → dchar d ≠ '-' := by decide +kernel
  exact this d (by omega)

theorem spells_minus {base cs ds r} (hb : base ≤ 36) (h : Spells base cs ds) (hds : ds ≠ []) :
    ∀ r', cs ++ r ≠ '-' :: r' := by
  cases h with
  | nil => simp at hds
  | us h => intro r' e; simp at e
  | dig h1 h2 =>
    intro r' e
    simp only [List.cons_append, List.cons.injEq] at e
    exact minus_not_dchar hb h1 e.1

theorem scan_pos {base d cs ds cs' ds' r} (hd : d < 10) (h : Spells 10 cs ds)
    (hv : digits 10 0 (d :: ds) = base) (hb : 1 ≤ base) (hb' : base ≤ 36) (h' : Spells base cs' ds')
    (hne : ds' ≠ []) (hr : Stop base r) :
    scanNumber (dchar d :: cs ++ 'r' :: cs' ++ r) =
      scanFrac false false base (digits base 0 ds' % 2 ^ 64) (decide (maxInt < digits base 0 ds')) ds' r := by
  have e1 := scanDigits_big (m := maxInt) (by omega) (by omega) (by decide) (by decide)
    (Spells.dig hd h) (stop_r (cs' ++ r)) (v := 0) (big := false) (acc := []) (by simp)
  have e2 := scanDigits_big (m := limit false) hb hb' (by decide) (by decide) h' hr (v := 0) (big := false)
    (acc := []) (by simp)
  simp only [Nat.zero_mod, List.nil_append] at e1 e2
  unfold scanNumber
  rw [show dchar d :: cs ++ 'r' :: cs' ++ r = dchar d :: cs ++ 'r' :: (cs' ++ r) by simp, e1, hv]
  have h3 : decide (maxInt < base) = false := decide_eq_false (by simp only [maxInt, Nat.reducePow]; omega)
  have h4 : base % 2 ^ 64 = base := Nat.mod_eq_of_lt (by simp only [Nat.reducePow]; omega)
  have h5 : decide (36 < base) = false := by simp; omega
  simp only [h3, h4, h5, Bool.or_false, Bool.false_eq_true, if_false]
  have h6 : ∀ r', cs' ++ r ≠ '-' :: r' := spells_minus hb' h' hne
  generalize cs' ++ r = q at h6 e2 ⊢
  have h7 : (q.head? == some '-') = false := by
    cases q with
    | nil => rfl
    | cons c q =>
      have : c ≠ '-' := by rintro rfl; exact h6 q rfl
      simp [this]
  simp only [h7, Bool.false_eq_true, if_false, e2]
  cases ds' with
  | nil => simp at hne
  | cons => simp [limit]

theorem scan_neg {base d cs ds cs' ds' r} (hd : d < 10) (h : Spells 10 cs ds)
    (hv : digits 10 0 (d :: ds) = base) (hb : 1 ≤ base) (hb' : base ≤ 36) (h' : Spells base cs' ds')
    (hne : ds' ≠ []) (hr : Stop base r) :
    scanNumber (dchar d :: cs ++ 'r' :: '-' :: cs' ++ r) =
      scanFrac false true base (digits base 0 ds' % 2 ^ 64) (decide (limit true < digits base 0 ds')) ds' r := by
  have e1 := scanDigits_big (m := maxInt) (by omega) (by omega) (by decide) (by decide)
    (Spells.dig hd h) (stop_r ('-' :: (cs' ++ r))) (v := 0) (big := false) (acc := []) (by simp)
  have e2 := scanDigits_big (m := limit true) hb hb' (by decide) (by decide) h' hr (v := 0) (big := false)
    (acc := []) (by simp)
  simp only [Nat.zero_mod, List.nil_append] at e1 e2
  unfold scanNumber
  rw [show dchar d :: cs ++ 'r' :: '-' :: cs' ++ r = dchar d :: cs ++ 'r' :: '-' :: (cs' ++ r) by simp, e1, hv]
  have h3 : decide (maxInt < base) = false := decide_eq_false (by simp only [maxInt, Nat.reducePow]; omega)
  have h4 : base % 2 ^ 64 = base := Nat.mod_eq_of_lt (by simp only [Nat.reducePow]; omega)
  have h5 : decide (36 < base) = false := by simp; omega
  simp only [h3, h4, h5, Bool.or_false, Bool.false_eq_true, if_false, List.head?_cons, BEq.rfl, if_true,
    List.tail_cons, e2]
  cases ds' with
  | nil => simp at hne
  | cons => simp

/-- Every integer that is written is read as what it says, in the right class, up to
negative numbers after a radix that are between -3·2^62 and -2^62. -/
theorem int_read_partial {base : Nat} {cs : List Char} {z : Int} (h : IsInt base cs z)
    {r : List Char} (hr : After base r) (hz : -2 ^ 62 ≤ z ∨ z < -(3 * 2 ^ 62)) :
    ∃ c cs' t, cs = c :: cs' ∧ step c (cs' ++ r) = ⟨some t, false, r⟩ ∧ Says t z := by
  cases h with
  | @dec d cs ds hd hs =>
    have hs' := Spells.dig hd hs
    obtain ⟨t, h1, h2⟩ := finish_pos (r := r) (by omega) (by omega) hs'.lt
    refine ⟨_, _, t, rfl, ?_, h2⟩
    rw [step_dchar hd]
    have e := scanDigits_big (m := maxInt) (by omega) (by omega) (by decide) (by decide) hs' hr.1
      (v := 0) (big := false) (acc := []) (by simp)
    simp only [Nat.zero_mod, List.nil_append] at e
    rw [← h1, ← after_finish (by omega) hr]
    unfold scanNumber
    rw [show dchar d :: (cs ++ r) = dchar d :: cs ++ r by rfl, e]
    simp only [List.isEmpty_cons]
    split
    · rename_i r1
      exact absurd rfl (hr.2.1 'r' _ rfl).1
    · rfl
  | @radix d cs ds base cs' ds' hd hs hv hb hb' hs' hne =>
    obtain ⟨t, h1, h2⟩ := finish_pos (r := r) hb hb' hs'.lt
    refine ⟨_, _, t, rfl, ?_, h2⟩
    rw [step_dchar hd, ← h1, ← after_finish hb' hr]
    exact scan_pos hd hs hv hb hb' hs' hne hr.1
  | @neg d cs ds base cs' ds' hd hs hv hb hb' hs' hne =>
    refine ⟨_, _, if limit true < digits base 0 ds' then .large (largeBytes true base ds') else
      .tok (.int (word true (digits base 0 ds' % 2 ^ 64))), rfl, ?_, ?_⟩
    · rw [step_dchar hd]
      refine (scan_neg hd hs hv hb hb' hs' hne hr.1).trans ?_
      rw [after_finish hb' hr]
      unfold finishInt
      by_cases h : limit true < digits base 0 ds' <;> simp [h]
    · simp only [limit, if_true, Nat.reducePow] at *
      by_cases h : 2 ^ 64 - 2 ^ 62 < digits base 0 ds'
      · have := largeBytes_spec true hb hb' hs'.lt (by omega)
        simp only [Nat.reducePow, Nat.reduceSub] at h
        rw [if_pos (by omega)]
        exact ⟨by simpa using this.1, this.2, .inl (by norm_num; omega)⟩
      · simp only [Nat.reducePow, Nat.reduceSub] at h
        rw [if_neg (by omega)]
        norm_num at hz
        have h2 : digits base 0 ds' ≤ 2 ^ 62 := by simp only [Nat.reducePow]; omega
        have := word_neg h2
        simp only [Nat.reducePow] at this h2
        refine ⟨this, by norm_num; omega, by norm_num; omega⟩

theorem spells_map {base : Nat} : ∀ {ds : List Nat}, (∀ d ∈ ds, d < base) → Spells base (ds.map dchar) ds
  | [], _ => .nil
  | d :: _, h => .dig (h d (by simp)) (spells_map fun x hx => h x (by simp [hx]))

example : IsInt 16 "16rFF".toList 255 :=
  IsInt.radix (d := 1) (cs := [6].map dchar) (ds := [6]) (cs' := [15, 15].map dchar) (ds' := [15, 15])
    (by decide) (spells_map (by decide)) rfl (by decide) (by decide) (spells_map (by decide)) (by simp)

example : IsInt 10 "4_611686018427387904".toList (2 ^ 62) :=
  IsInt.dec (d := 4) (cs := '_' :: [6,1,1,6,8,6,0,1,8,4,2,7,3,8,7,9,0,4].map dchar)
    (ds := [6,1,1,6,8,6,0,1,8,4,2,7,3,8,7,9,0,4]) (by decide) (.us (spells_map (by decide)))

example : After 16 " + 1".toList :=
  ⟨by intro c r h; simp at h; rw [← h.1]; decide, by intro c r h; simp at h; rw [← h.1]; decide,
   by intro c r h; simp at h⟩

end Verif.Lexer
