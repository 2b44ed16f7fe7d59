import Verif.VMDict.Model

/-! # Lemmas: the tables of the VM are linear probing tables -/

set_option linter.unusedSectionVars false

namespace Verif.VMDict

open Verif.Hash

/-! ## `new_num_fields` -/

theorem and_pred_pow (e x : Nat) : x &&& (2 ^ e - 1) = x % 2 ^ e := Nat.and_two_pow_sub_one_eq_mod x e

theorem newNumFields_pow (e : Nat) : newNumFields (2 ^ e) = 2 ^ (e + 1) := by
  unfold newNumFields
  rw [and_pred_pow, Nat.mod_self, if_pos rfl, Nat.pow_succ]

/-- All bits of `x` up to `t` are set. -/
theorem all_ones {x t : Nat} (hx : x < 2 ^ (t + 1)) (h : ∀ i, i ≤ t → x.testBit i = true) :
    x = 2 ^ (t + 1) - 1 := by
  apply Nat.eq_of_testBit_eq
  intro i
  rw [Nat.testBit_two_pow_sub_one]
  by_cases hi : i < t + 1
  · rw [h i (by omega), decide_eq_true hi]
  · rw [decide_eq_false hi]
    exact Nat.testBit_lt_two_pow (Nat.lt_of_lt_of_le hx (Nat.pow_le_pow_right (by decide) (by omega)))

theorem and_succ_pow (t : Nat) : (2 ^ t - 1) &&& (2 ^ t - 1 + 1) = 0 := by
  have : 0 < 2 ^ t := Nat.pow_pos (by decide)
  rw [Nat.sub_add_cancel this, Nat.and_comm, and_pred_pow, Nat.mod_self]

/-- `x & (x + 1)` is zero only for `2^k - 1`; for a number with `t + 1` bits this is
`2^(t+1) - 1`. -/
theorem stop_all_ones {x t : Nat} (h1 : 2 ^ t ≤ x) (h2 : x < 2 ^ (t + 1))
    (h : x &&& (x + 1) = 0) : x = 2 ^ (t + 1) - 1 := by
  apply Classical.byContradiction
  intro hne
  have hb : x.testBit t = true := Nat.testBit_of_two_pow_le_and_two_pow_add_one_gt h1 h2
  have hb' : (x + 1).testBit t = true :=
    Nat.testBit_of_two_pow_le_and_two_pow_add_one_gt (by omega) (by omega)
  have : (x &&& (x + 1)).testBit t = true := by rw [Nat.testBit_and, hb, hb']; rfl
  rw [h] at this
  simp at this

theorem newNumFieldsLoop_spec (fuel n x t : Nat) (h1 : 2 ^ t ≤ x) (h2 : x < 2 ^ (t + 1))
    (hn : 1 ≤ n) (hrun : ∀ i, i ≤ t → t < i + n → x.testBit i = true)
    (hf : t + 1 ≤ n * 2 ^ fuel) : newNumFieldsLoop fuel n x = 2 ^ (t + 1) := by
  induction fuel generalizing n x with
  | zero =>
    simp only [newNumFieldsLoop]
    rw [all_ones h2 (fun i hi => hrun i hi (by omega))]
    have : 0 < 2 ^ (t + 1) := Nat.pow_pos (by decide)
    omega
  | succ fuel ih =>
    simp only [newNumFieldsLoop]
    split
    · rename_i hstop
      have := stop_all_ones h1 h2 hstop
      omega
    · apply ih
      · exact Nat.le_trans h1 Nat.left_le_or
      · apply Nat.or_lt_two_pow h2
        exact Nat.lt_of_le_of_lt (by rw [Nat.shiftRight_eq_div_pow]; exact Nat.div_le_self _ _) h2
      · rw [Nat.shiftLeft_eq]; omega
      · intro i hi ht
        rw [Nat.testBit_or, Nat.testBit_shiftRight]
        by_cases hc : t < i + n
        · rw [hrun i hi hc]; rfl
        · rw [hrun (n + i) (by omega) (by rw [Nat.shiftLeft_eq] at ht; omega)]
          simp
      · rw [Nat.shiftLeft_eq, Nat.pow_succ] at *
        calc t + 1 ≤ n * (2 ^ fuel * 2) := hf
          _ = n * 2 ^ 1 * 2 ^ fuel := by rw [Nat.pow_one, Nat.mul_assoc, Nat.mul_comm 2]

/-- Every positive number is between two powers of two. -/
theorem log_bounds (x : Nat) (hx : 0 < x) : ∃ t, 2 ^ t ≤ x ∧ x < 2 ^ (t + 1) :=
  ⟨x.log2, Nat.log2_self_le (by omega), Nat.lt_log2_self⟩

/-- `new_num_fields` answers the smallest power of two greater than its argument. -/
theorem newNumFields_spec (x t : Nat) (h1 : 2 ^ t ≤ x) (h2 : x < 2 ^ (t + 1)) :
    newNumFields x = 2 ^ (t + 1) := by
  have hpos : 0 < 2 ^ t := Nat.pow_pos (by decide)
  by_cases hx : x = 2 ^ t
  · rw [hx]; exact newNumFields_pow t
  · unfold newNumFields
    rw [if_neg]
    · apply newNumFieldsLoop_spec _ _ _ _ h1 h2 (Nat.le_refl _)
      · intro i hi ht
        have : i = t := by omega
        subst this
        exact Nat.testBit_of_two_pow_le_and_two_pow_add_one_gt h1 h2
      · have : t < 2 ^ t := Nat.lt_two_pow_self
        have h3 : x + 1 < 2 ^ (x + 1) := Nat.lt_two_pow_self
        omega
    · intro hz
      have hb : x.testBit t = true := Nat.testBit_of_two_pow_le_and_two_pow_add_one_gt h1 h2
      have hb' : (x - 1).testBit t = true :=
        Nat.testBit_of_two_pow_le_and_two_pow_add_one_gt (by omega) (by omega)
      have : (x &&& (x - 1)).testBit t = true := by rw [Nat.testBit_and, hb, hb']; rfl
      rw [hz] at this
      simp at this

section
variable {O : Type} [DecidableEq O] (nil : O) (hash : O → Nat)

/-! ## Identity dictionaries -/

/-- The pairs stored in the words. -/
def slotsOf (data : Nat → O) : Nat → Option (O × O) :=
  fun i => if data (2 * i) = nil then none else some (data (2 * i), data (2 * i + 1))

theorem wrap2 (e x : Nat) : (x * 2) &&& (2 * 2 ^ e - 1) = 2 * (x % 2 ^ e) := by
  rw [show 2 * 2 ^ e = 2 ^ (e + 1) by rw [Nat.pow_succ, Nat.mul_comm], and_pred_pow,
    Nat.pow_succ, Nat.mul_comm x 2, Nat.mul_comm (2 ^ e) 2, Nat.mul_mod_mul_left]

theorem findKeyOrNilLoop_eq (e : Nat) (data : Nat → O) (key : O) (c x : Nat) :
    findKeyOrNilLoop nil (2 * 2 ^ e) data key c (x * 2) =
      match probe (2 ^ e) (slotsOf nil data) Prod.fst key c x with
      | .found i => some (2 * i + 1)
      | .free i => some (2 * i + 1)
      | .full => none := by
  induction c generalizing x with
  | zero => rfl
  | succ c ih =>
    unfold findKeyOrNilLoop probe
    dsimp only
    rw [wrap2]
    by_cases hnil : data (2 * (x % 2 ^ e)) = nil
    · simp [slotsOf, hnil]
    · by_cases hk : data (2 * (x % 2 ^ e)) = key
      · have : key ≠ nil := fun h => hnil (hk.trans h)
        simp [slotsOf, hk, this]
      · rw [if_neg hnil, if_neg hk]
        simp only [slotsOf, if_neg hnil, if_neg hk]
        rw [show 2 * (x % 2 ^ e) + 2 = (x % 2 ^ e + 1) * 2 by omega, ih]

theorem findKeyLoop_eq (e : Nat) (data : Nat → O) (key : O) (c x : Nat) :
    findKeyLoop nil (2 * 2 ^ e) data key c (x * 2) =
      match probe (2 ^ e) (slotsOf nil data) Prod.fst key c x with
      | .found i => some (some (2 * i + 1))
      | .free _ => some none
      | .full => none := by
  induction c generalizing x with
  | zero => rfl
  | succ c ih =>
    unfold findKeyLoop probe
    dsimp only
    rw [wrap2]
    by_cases hnil : data (2 * (x % 2 ^ e)) = nil
    · simp [slotsOf, hnil]
    · by_cases hk : data (2 * (x % 2 ^ e)) = key
      · have : key ≠ nil := fun h => hnil (hk.trans h)
        simp [slotsOf, hk, this]
      · rw [if_neg hnil, if_neg hk]
        simp only [slotsOf, if_neg hnil, if_neg hk]
        rw [show 2 * (x % 2 ^ e) + 2 = (x % 2 ^ e + 1) * 2 by omega, ih]

theorem slotsOf_set (data : Nat → O) (i : Nat) (key v : O) (hk : key ≠ nil) :
    slotsOf nil (set (set data (2 * i) key) (2 * i + 1) v) =
      update (slotsOf nil data) i (some (key, v)) := by
  funext j
  unfold slotsOf update set
  by_cases hj : j = i
  · subst hj; simp [hk]
  · have h1 : (2 * j = 2 * i + 1) = False := by simp; omega
    have h2 : (2 * j = 2 * i) = False := by simp; omega
    have h3 : (2 * j + 1 = 2 * i + 1) = False := by simp; omega
    have h4 : (2 * j + 1 = 2 * i) = False := by simp; omega
    simp only [h1, h2, h3, h4, hj, if_false]

/-- The value word of a free pair is nil. -/
def Clean (data : Nat → O) : Prop := ∀ i, data (2 * i) = nil → data (2 * i + 1) = nil

theorem clean_set (data : Nat → O) (i : Nat) (key v : O) (hk : key ≠ nil) (h : Clean nil data) :
    Clean nil (set (set data (2 * i) key) (2 * i + 1) v) := by
  intro j hj
  have := h j
  unfold set at *
  by_cases hji : j = i
  · subst hji; simp [hk] at hj
  · have h1 : (2 * j = 2 * i + 1) = False := by simp; omega
    have h2 : (2 * j = 2 * i) = False := by simp; omega
    have h3 : (2 * j + 1 = 2 * i + 1) = False := by simp; omega
    have h4 : (2 * j + 1 = 2 * i) = False := by simp; omega
    simp only [h1, h2, h3, h4, if_false] at *
    exact this hj

theorem half (n : Nat) : 2 * n / 2 = n := by omega

theorem findKeyOrNil_eq (d : IDict O) (e : Nat) (hd : d.numFields = 2 * 2 ^ e) (key : O) :
    findKeyOrNil nil hash d key =
      match probe (2 ^ e) (slotsOf nil d.data) Prod.fst key (2 ^ e) (hash key) with
      | .found i => some (2 * i + 1)
      | .free i => some (2 * i + 1)
      | .full => none := by
  unfold findKeyOrNil
  rw [hd, half, findKeyOrNilLoop_eq]

theorem findKey_eq (d : IDict O) (e : Nat) (hd : d.numFields = 2 * 2 ^ e) (key : O) :
    findKey nil hash d key =
      match probe (2 ^ e) (slotsOf nil d.data) Prod.fst key (2 ^ e) (hash key) with
      | .found i => some (some (2 * i + 1))
      | .free _ => some none
      | .full => none := by
  unfold findKey
  rw [hd, half, findKeyLoop_eq]

/-- The C rehashing loop computes `Hash.rehash`. -/
theorem growLoop_eq (old : Nat → O) (new : IDict O) (e : Nat) (hd : new.numFields = 2 * 2 ^ e)
    (hempty : slotsOf nil new.data = fun _ => none) (m : Nat) (s : Nat → Option (O × O))
    (h : rehash (2 ^ e) Prod.fst hash (slotsOf nil old) m = some s) :
    ∃ d, growLoop nil hash old new m = some d ∧ d.numFields = new.numFields ∧
      d.tally = new.tally ∧ d.fixed = new.fixed ∧ slotsOf nil d.data = s ∧
      (Clean nil new.data → Clean nil d.data) := by
  induction m generalizing s with
  | zero =>
    simp only [rehash, Option.some.injEq] at h
    exact ⟨new, rfl, rfl, rfl, rfl, by rw [hempty, h], fun h => h⟩
  | succ m ih =>
    simp only [rehash, Option.bind_eq_bind, Option.bind_eq_some_iff] at h
    obtain ⟨s0, h0, h1⟩ := h
    obtain ⟨d, e1, e2, e3, e4, e5, e6⟩ := ih s0 h0
    simp only [growLoop, e1, Option.bind_eq_bind, Option.bind_some]
    by_cases hk : old (m * 2) = nil
    · rw [if_pos hk]
      have : slotsOf nil old m = none := by
        unfold slotsOf; rw [Nat.mul_comm 2 m, if_pos hk]
      rw [this] at h1
      simp only [Option.some.injEq] at h1
      exact ⟨d, rfl, e2, e3, e4, by rw [e5, h1], e6⟩
    · rw [if_neg hk]
      have : slotsOf nil old m = some (old (m * 2), old (m * 2 + 1)) := by
        unfold slotsOf; rw [Nat.mul_comm 2 m, if_neg hk]
      rw [this] at h1
      dsimp only at h1
      rw [findKeyOrNil_eq nil hash d e (e2.trans hd), e5]
      cases hp : probe (2 ^ e) s0 Prod.fst (old (m * 2)) (2 ^ e) (hash (old (m * 2))) with
      | full => rw [hp] at h1; cases h1
      | found i =>
        rw [hp] at h1
        simp only [Option.some.injEq] at h1
        exact ⟨_, rfl, e2, e3, e4, by
          rw [← h1, ← e5]; exact slotsOf_set nil d.data i _ _ hk, fun h =>
          clean_set nil d.data i _ _ hk (e6 h)⟩
      | free i =>
        rw [hp] at h1
        simp only [Option.some.injEq] at h1
        exact ⟨_, rfl, e2, e3, e4, by
          rw [← h1, ← e5]; exact slotsOf_set nil d.data i _ _ hk, fun h =>
          clean_set nil d.data i _ _ hk (e6 h)⟩

/-! ## Dictionaries of associations -/

theorem findLoop_eq (e : Nat) (slots : Nat → Option Nat) (key : Nat → O) (k : O) (c x : Nat) :
    findLoop (2 ^ e) slots key k c x =
      match probe (2 ^ e) slots key k c x with
      | .found i => some i
      | .free i => some i
      | .full => none := by
  induction c generalizing x with
  | zero => rfl
  | succ c ih =>
    unfold findLoop probe
    dsimp only
    rw [and_pred_pow]
    cases hs : slots (x % 2 ^ e) with
    | none => rfl
    | some a =>
      dsimp only
      by_cases hk : key a = k
      · rw [if_pos hk, if_pos hk]
      · rw [if_neg hk, if_neg hk, ih]

theorem growDictLoop_eq (H : Assocs O) (old : Nat → Option Nat) (new : Dict) (e : Nat)
    (hd : new.numFields = 2 ^ e) (hempty : new.slots = fun _ => none) (m : Nat)
    (s : Nat → Option Nat) (h : rehash (2 ^ e) H.key hash old m = some s) :
    growDictLoop hash H old new m = some { new with slots := s } := by
  induction m generalizing s with
  | zero =>
    simp only [rehash, Option.some.injEq] at h
    subst h
    simp only [growDictLoop]
    rw [← hempty]
  | succ m ih =>
    simp only [rehash, Option.bind_eq_bind, Option.bind_eq_some_iff] at h
    obtain ⟨s0, h0, h1⟩ := h
    simp only [growDictLoop, ih s0 h0, Option.bind_eq_bind, Option.bind_some]
    cases ho : old m with
    | none =>
      rw [ho] at h1
      simp only [Option.some.injEq] at h1
      rw [h1]
    | some a =>
      rw [ho] at h1
      dsimp only at h1 ⊢
      unfold find
      dsimp only
      rw [hd, findLoop_eq]
      cases hp : probe (2 ^ e) s0 H.key (H.key a) (2 ^ e) (hash (H.key a)) with
      | full => rw [hp] at h1; cases h1
      | found i =>
        rw [hp] at h1
        simp only [Option.some.injEq] at h1
        subst h1; rfl
      | free i =>
        rw [hp] at h1
        simp only [Option.some.injEq] at h1
        subst h1; rfl

end

end Verif.VMDict
