import Verif.Random.Model
import Mathlib.Data.Fintype.Card
import Mathlib.Data.Fintype.EquivFin
import Mathlib.Order.Interval.Finset.Nat
import Mathlib.Data.BitVec
import Mathlib.Algebra.Order.Field.Basic
import Mathlib.Tactic.Ring
import Mathlib.Tactic.Linarith
import Mathlib.Tactic.NormNum

/-!
# Random numbers (C204 to C207)
-/

namespace Verif.Random

/-! ## The recurrence of Matsumoto and Nishimura -/

/-- The product of a row vector by the companion matrix of MT19937: shift right, and add the last row when the bit that fell off was one. -/
def mulA (y : BitVec 32) : BitVec 32 := (if y.getLsbD 0 then 0x9908b0df#32 else 0#32) ^^^ (y >>> 1)

/-- The upper bit of one word and the lower 31 bits of another. -/
def join (a b : BitVec 32) : BitVec 32 := a.extractLsb' 31 1 ++ b.extractLsb' 0 31

/-- The linear recurrence of MT19937. -/
def Recurrence (s : ℕ → BitVec 32) : Prop :=
  ∀ k, s (k + 624) = s (k + 397) ^^^ mulA (join (s k) (s (k + 1)))

/-- The sequence of MT19937 that starts with 624 given words. -/
def sequence (w : ℕ → BitVec 32) (n : ℕ) : BitVec 32 :=
  if _h : n < 624 then w n
  else sequence w (n - 624 + 397) ^^^ mulA (join (sequence w (n - 624)) (sequence w (n - 624 + 1)))
termination_by n

theorem sequence_start (w : ℕ → BitVec 32) {n : ℕ} (h : n < 624) : sequence w n = w n := by
  rw [sequence, dif_pos h]

theorem sequence_recurrence (w : ℕ → BitVec 32) : Recurrence (sequence w) := by
  intro k
  rw [sequence, dif_neg (by omega)]
  simp only [Nat.add_sub_cancel]

theorem join_eq (a b : BitVec 32) : (a &&& 0x80000000#32) ||| (b &&& 0x7fffffff#32) = join a b := by
  apply BitVec.eq_of_getLsbD_eq
  intro i hi
  have h1 : ∀ i, i < 32 → (0x80000000#32).getLsbD i = decide (i = 31) := by decide
  have h2 : ∀ i, i < 32 → (0x7fffffff#32).getLsbD i = decide (i < 31) := by decide
  rw [join, BitVec.getLsbD_or, BitVec.getLsbD_and, BitVec.getLsbD_and, h1 i hi, h2 i hi, BitVec.getLsbD_append,
    BitVec.getLsbD_extractLsb', BitVec.getLsbD_extractLsb']
  by_cases h : i < 31
  · simp [h, show ¬ i = 31 by omega]
  · have : i = 31 := by omega
    subst this; simp

theorem lsb_eq (y : BitVec 32) : y &&& 1#32 = 1#32 ↔ y.getLsbD 0 = true := by
  constructor
  · intro h
    have := congrArg (fun z => z.getLsbD 0) h
    simpa using this
  · intro h
    apply BitVec.eq_of_getLsbD_eq
    intro i hi
    rw [BitVec.getLsbD_and]
    rcases Nat.eq_zero_or_pos i with h0 | h0
    · subst h0; simp [h]
    · have : (1#32).getLsbD i = false := by
        have : ∀ i, i < 32 → 0 < i → (1#32).getLsbD i = false := by decide
        exact this i hi h0
      rw [this, Bool.and_false]

theorem step_eq (a b c : BitVec 32) :
    (let y := (a &&& 0x80000000#32) ||| (b &&& 0x7fffffff#32)
      let z := c ^^^ (y >>> 1)
      if y &&& 1#32 = 1#32 then z ^^^ 0x9908b0df#32 else z) = c ^^^ mulA (join a b) := by
  dsimp only
  rw [join_eq, mulA]
  by_cases h : (join a b).getLsbD 0 = true
  · rw [if_pos ((lsb_eq _).2 h), if_pos h, BitVec.xor_assoc, BitVec.xor_comm (join a b >>> 1)]
  · rw [if_neg (fun g => h ((lsb_eq _).1 g)), if_neg h, BitVec.zero_xor]

theorem genLoop_eq (s w : ℕ → BitVec 32) (hs : Recurrence s) (n : ℕ) (h : ∀ j, j < 624 → w j = s (n + j)) :
    ∀ k, k ≤ 624 → ∀ j, j < 624 → genLoop w k j = if j < k then s (n + 624 + j) else s (n + j)
  | 0, _, j, hj => by rw [if_neg (by omega)]; exact h j hj
  | k + 1, hk, j, hj => by
    have ih := genLoop_eq s w hs n h k (by omega)
    have e : genLoop w (k + 1) = genStep (genLoop w k) k := rfl
    rw [e, genStep]
    by_cases hjk : j = k
    · subst hjk
      have hupd : ∀ v, Function.update (genLoop w j) j v j = v := fun v => Function.update_self ..
      rw [hupd, if_pos (show j < j + 1 by omega)]
      have := step_eq (genLoop w j j) (genLoop w j ((j + 1) % 624)) (genLoop w j ((j + 397) % 624))
      dsimp only at this
      rw [this]
      have a1 : genLoop w j j = s (n + j) := by rw [ih j hj, if_neg (by omega)]
      have a2 : genLoop w j ((j + 1) % 624) = s (n + j + 1) := by
        rw [ih _ (Nat.mod_lt _ (by norm_num))]
        by_cases h1 : j + 1 < 624
        · rw [Nat.mod_eq_of_lt h1, if_neg (by omega)]; rfl
        · have : j = 623 := by omega
          subst this
          rw [if_pos (by norm_num)]
      have a3 : genLoop w j ((j + 397) % 624) = s (n + j + 397) := by
        rw [ih _ (Nat.mod_lt _ (by norm_num))]
        by_cases h1 : j + 397 < 624
        · rw [Nat.mod_eq_of_lt h1, if_neg (by omega), Nat.add_assoc]
        · have : (j + 397) % 624 = j + 397 - 624 := by omega
          rw [this, if_pos (by omega)]
          exact congrArg s (by omega)
      rw [a1, a2, a3, show n + 624 + j = n + j + 624 by omega]
      exact (hs (n + j)).symm
    · rw [Function.update_of_ne hjk, ih j hj]
      by_cases h1 : j < k
      · rw [if_pos h1, if_pos (by omega)]
      · rw [if_neg h1, if_neg (by omega)]

/-- What the words are after `n` numbers. -/
theorem after_eq (g : Gen) (h0 : g.idx = 0) (s : ℕ → BitVec 32) (hs : Recurrence s) (h : ∀ j, j < 624 → g.w j = s j) (n : ℕ) :
    (after g n).idx = n % 624 ∧
    ((after g n).idx = 0 → ∀ j, j < 624 → (after g n).w j = s (n + j)) ∧
    ((after g n).idx ≠ 0 → ∀ j, j < 624 → (after g n).w j = s (n - n % 624 + 624 + j)) := by
  induction n with
  | zero =>
    refine ⟨by simpa [after] using h0, fun _ j hj => by simpa [after] using h j hj, fun hn => absurd h0 hn⟩
  | succ n ih =>
    obtain ⟨i1, i2, i3⟩ := ih
    have e : after g (n + 1) = (randomNext (after g n)).2 := rfl
    have hw : ∀ j, j < 624 → (after g (n + 1)).w j = s (n - n % 624 + 624 + j) := by
      intro j hj
      rw [e, randomNext]
      dsimp only
      by_cases hi : (after g n).idx = 0
      · rw [if_pos hi, generate, genLoop_eq s _ hs n (i2 hi) 624 le_rfl j hj, if_pos hj]
        rw [← i1, hi, Nat.sub_zero]
      · rw [if_neg hi]; exact i3 hi j hj
    have hidx : (after g (n + 1)).idx = (n + 1) % 624 := by
      rw [e, randomNext]; dsimp only; rw [i1]; omega
    refine ⟨hidx, fun hz j hj => ?_, fun hz j hj => ?_⟩
    · rw [hw j hj]; congr 1; omega
    · rw [hw j hj]; congr 1; omega

/-- C204: the numbers that come out of a generator are those of MT19937 for the words it starts with, for ever. -/
theorem twister (g : Gen) (h0 : g.idx = 0) (n : ℕ) : nth g n = temper (sequence g.w (n + 624)) := by
  obtain ⟨i1, i2, i3⟩ := after_eq g h0 (sequence g.w) (sequence_recurrence _) (fun j hj => (sequence_start _ hj).symm) n
  rw [nth, randomNext]
  dsimp only
  congr 1
  have hlt : (after g n).idx < 624 := by rw [i1]; exact Nat.mod_lt _ (by norm_num)
  by_cases hi : (after g n).idx = 0
  · rw [if_pos hi, generate, genLoop_eq (sequence g.w) _ (sequence_recurrence _) n (i2 hi) 624 le_rfl _ hlt, if_pos hlt]
    rw [hi, Nat.add_zero]
  · rw [if_neg hi, i3 hi _ hlt, i1]
    congr 1; omega

/-- Adds the bits that are `u` places higher. -/
def addHigher (u : ℕ) (f : ℕ → Bool) (i : ℕ) : Bool := f i ^^ f (i + u)

/-- Adds the bits that are `s` places lower, where the mask has a one. -/
def addLower (s mask : ℕ) (f : ℕ → Bool) (i : ℕ) : Bool := f i ^^ (decide (s ≤ i) && f (i - s) && mask.testBit i)

/-- The tempering of MT19937, with its parameters u, s, b, t, c and l. -/
def Tempered (f : ℕ → Bool) : ℕ → Bool :=
  addHigher 18 (addLower 15 0xefc60000 (addLower 7 0x9d2c5680 (addHigher 11 f)))

theorem addHigher_eq (u : ℕ) (y : BitVec 32) : (y ^^^ (y >>> u)).getLsbD = addHigher u y.getLsbD := by
  funext i
  rw [BitVec.getLsbD_xor, BitVec.getLsbD_ushiftRight, addHigher, Nat.add_comm u i]

theorem addLower_eq (s mask : ℕ) (hm : mask < 2 ^ 32) (y : BitVec 32) :
    (y ^^^ ((y <<< s) &&& BitVec.ofNat 32 mask)).getLsbD = addLower s mask y.getLsbD := by
  funext i
  rw [BitVec.getLsbD_xor, BitVec.getLsbD_and, BitVec.getLsbD_shiftLeft, BitVec.getLsbD_ofNat, addLower]
  by_cases hi : i < 32
  · by_cases hs : i < s
    · simp [hi, hs, Nat.not_le.2 hs]
    · simp [hi, hs, Nat.le_of_not_lt hs]
  · have h1 : mask.testBit i = false := Nat.testBit_lt_two_pow (Nat.lt_of_lt_of_le hm (Nat.pow_le_pow_right (by norm_num) (by omega)))
    simp [hi, h1]

/-- C204: the bits of the numbers that come out are those of the sequence, tempered. -/
theorem tempered (g : Gen) (h0 : g.idx = 0) (n : ℕ) : (nth g n).getLsbD = Tempered (sequence g.w (n + 624)).getLsbD := by
  rw [twister g h0, temper, Tempered, ← addHigher_eq, ← addLower_eq _ _ (by norm_num), ← addLower_eq _ _ (by norm_num), ← addHigher_eq]

/-- C204: in terms of any sequence that satisfies the recurrence. -/
theorem twister_of (g : Gen) (h0 : g.idx = 0) (s : ℕ → BitVec 32) (hs : Recurrence s) (h : ∀ j, j < 624 → g.w j = s j) (n : ℕ) :
    nth g n = temper (s (n + 624)) := by
  rw [twister g h0]
  congr 1
  have : ∀ m, sequence g.w m = s m := by
    intro m
    induction m using Nat.strong_induction_on with
    | _ m ih =>
      by_cases hm : m < 624
      · rw [sequence_start _ hm, h m hm]
      · obtain ⟨k, rfl⟩ : ∃ k, m = k + 624 := ⟨m - 624, by omega⟩
        rw [sequence_recurrence, hs, ih _ (by omega), ih _ (by omega), ih _ (by omega)]
  exact this _

example : (seed 7).idx = 0 := rfl

/-! ## Words can be got back -/

theorem eq_zero_of_bits {d : BitVec 32} (h : ∀ i, d.getLsbD i = true → ∃ j, j < i ∧ d.getLsbD j = true) : d = 0#32 := by
  have : ∀ i, d.getLsbD i = false := by
    intro i
    induction i using Nat.strong_induction_on with
    | _ i ih =>
      cases hd : d.getLsbD i with
      | false => rfl
      | true =>
        obtain ⟨j, hj, hj'⟩ := h i hd
        rw [ih j hj] at hj'; exact absurd hj' (by simp)
  apply BitVec.eq_of_getLsbD_eq
  intro i _
  rw [this i, BitVec.getLsbD_zero]

theorem xor_swap {a b x y : BitVec 32} (h : a ^^^ x = b ^^^ y) : a ^^^ b = x ^^^ y := by
  have : a = b ^^^ y ^^^ x := by rw [← h, BitVec.xor_assoc, BitVec.xor_self, BitVec.xor_zero]
  rw [this]
  apply BitVec.eq_of_getLsbD_eq
  intro i _
  simp only [BitVec.getLsbD_xor]
  cases b.getLsbD i <;> cases x.getLsbD i <;> cases y.getLsbD i <;> rfl

theorem eq_of_xor {a b : BitVec 32} (h : a ^^^ b = 0#32) : a = b := by
  have : a = a ^^^ b ^^^ b := by rw [BitVec.xor_assoc, BitVec.xor_self, BitVec.xor_zero]
  rw [this, h, BitVec.zero_xor]

theorem right_inj {n : ℕ} (hn : 0 < n) {a b : BitVec 32} (h : a ^^^ (a >>> n) = b ^^^ (b >>> n)) : a = b := by
  apply eq_of_xor
  have h1 := xor_swap h
  have h2 : (a ^^^ b) = (a ^^^ b) >>> n := by rw [BitVec.ushiftRight_xor_distrib]; exact h1
  have h3 := congrArg BitVec.toNat h2
  rw [BitVec.toNat_ushiftRight, Nat.shiftRight_eq_div_pow] at h3
  apply BitVec.eq_of_toNat_eq
  rw [BitVec.toNat_zero]
  by_contra hne
  have : (a ^^^ b).toNat / 2 ^ n < (a ^^^ b).toNat := Nat.div_lt_self (by omega) (Nat.one_lt_two_pow (by omega))
  omega

theorem left_inj {n : ℕ} (hn : 0 < n) (m : BitVec 32) {a b : BitVec 32} (h : a ^^^ ((a <<< n) &&& m) = b ^^^ ((b <<< n) &&& m)) : a = b := by
  apply eq_of_xor
  have h1 := xor_swap h
  apply eq_zero_of_bits
  intro i hi
  rw [h1] at hi
  simp only [BitVec.getLsbD_xor, BitVec.getLsbD_and, BitVec.getLsbD_shiftLeft] at hi
  refine ⟨i - n, ?_, ?_⟩
  · by_contra hc
    have : i < n := by omega
    simp [this] at hi
  · rw [BitVec.getLsbD_xor]
    revert hi
    cases a.getLsbD (i - n) <;> cases b.getLsbD (i - n) <;> simp

theorem temper_inj {a b : BitVec 32} (h : temper a = temper b) : a = b := by
  unfold temper at h
  dsimp only at h
  exact right_inj (by norm_num) (left_inj (by norm_num) _ (left_inj (by norm_num) _ (right_inj (by norm_num) h)))

theorem mulA_inj {a b : BitVec 32} (h : mulA a = mulA b) : a = b := by
  have top : ∀ y : BitVec 32, (mulA y).getLsbD 31 = y.getLsbD 0 := by
    intro y
    rw [mulA, BitVec.getLsbD_xor, BitVec.getLsbD_ushiftRight, BitVec.getLsbD_of_ge y (1 + 31) (by norm_num), Bool.xor_false]
    cases y.getLsbD 0 <;> rfl
  have h0 : a.getLsbD 0 = b.getLsbD 0 := by rw [← top a, ← top b, h]
  have hs : a >>> 1 = b >>> 1 := by
    unfold mulA at h
    rw [h0] at h
    have := xor_swap h
    rw [BitVec.xor_self] at this
    exact eq_of_xor this.symm
  apply BitVec.eq_of_getLsbD_eq
  intro i _
  rcases Nat.eq_zero_or_pos i with h1 | h1
  · rw [h1, h0]
  · have := congrArg (fun z => z.getLsbD (i - 1)) hs
    simp only [BitVec.getLsbD_ushiftRight] at this
    rwa [show 1 + (i - 1) = i by omega] at this

theorem join_bit (a b : BitVec 32) (i : ℕ) : (join a b).getLsbD i = if i < 31 then b.getLsbD i else if i = 31 then a.getLsbD 31 else false := by
  rw [join, BitVec.getLsbD_append, BitVec.getLsbD_extractLsb', BitVec.getLsbD_extractLsb']
  by_cases h : i < 31
  · simp [h]
  · by_cases h1 : i = 31
    · subst h1; simp
    · simp [h, h1]; omega

theorem join_inj {a b c d : BitVec 32} (h : join a b = join c d) :
    a.getLsbD 31 = c.getLsbD 31 ∧ ∀ i, i < 31 → b.getLsbD i = d.getLsbD i := by
  constructor
  · have := congrArg (fun z => z.getLsbD 31) h
    simpa only [join_bit, lt_irrefl, if_false, if_true] using this
  · intro i hi
    have := congrArg (fun z => z.getLsbD i) h
    rwa [join_bit, join_bit, if_pos hi, if_pos hi] at this

/-- Two sequences that are the same from some word on have been the same from the second word. -/
theorem backwards (s t : ℕ → BitVec 32) (hs : Recurrence s) (ht : Recurrence t) (n : ℕ) (h : ∀ m, n ≤ m → s m = t m) :
    ∀ m, 1 ≤ m → s m = t m := by
  have key : ∀ n, (∀ m, n + 1 ≤ m → s m = t m) → (s n).getLsbD 31 = (t n).getLsbD 31 →
      ∀ m, 1 ≤ m → s m = t m := by
    intro n
    induction n with
    | zero => intro h _; exact h
    | succ n ih =>
      intro h hb
      have e1 := hs n
      have e2 := ht n
      rw [h (n + 624) (by omega), h (n + 397) (by omega), e2] at e1
      have e3 : mulA (join (t n) (t (n + 1))) = mulA (join (s n) (s (n + 1))) := by
        have := xor_swap e1
        rw [BitVec.xor_self] at this
        exact eq_of_xor this.symm
      obtain ⟨j1, j2⟩ := join_inj (mulA_inj e3)
      have hn : s (n + 1) = t (n + 1) := by
        apply BitVec.eq_of_getLsbD_eq
        intro i hi
        by_cases h31 : i < 31
        · exact (j2 i h31).symm
        · rw [show i = 31 by omega]; exact hb
      apply ih
      · intro m hm
        rcases Nat.lt_or_ge m (n + 2) with h2 | h2
        · rw [show m = n + 1 by omega]; exact hn
        · exact h m (by omega)
      · exact j1.symm
  exact key n (fun m hm => h m (by omega)) (by rw [h n le_rfl])

/-! ## Seeds -/

theorem odd_mul_inj {a b : BitVec 32} (h : 1812433253#32 * a = 1812433253#32 * b) : a = b := by
  have e : (2520285293#32 : BitVec 32) * 1812433253#32 = 1#32 := by decide
  have := congrArg (fun z => 2520285293#32 * z) h
  simpa only [← BitVec.mul_assoc, e, BitVec.one_mul] using this

theorem seedStep_inj {a b : BitVec 32} (h : seedStep a = seedStep b) : a = b :=
  right_inj (by norm_num) (odd_mul_inj h)

theorem first_word (s : ℤ) (h0 : 0 ≤ s) (h1 : s < 2 ^ 32) : seedWords s 0 = seedStep (BitVec.ofInt 32 (2 * (s / 2) + 1)) := by
  rw [seedWords, seedStep]
  congr 2
  apply BitVec.eq_of_toNat_eq
  rw [BitVec.toNat_ushiftRight, BitVec.toNat_ofInt, BitVec.toNat_ofInt, Nat.shiftRight_eq_div_pow]
  omega

theorem words_inj (a b : ℤ) : ∀ k, seedWords a k = seedWords b k → seedWords a 0 = seedWords b 0
  | 0, h => h
  | k + 1, h => words_inj a b k (seedStep_inj h)

theorem seeds_inj (a b : ℤ) (ha : 0 ≤ a) (ha' : a < 2 ^ 32) (hb : 0 ≤ b) (hb' : b < 2 ^ 32) (k : ℕ) (h : seedWords a k = seedWords b k) :
    a / 2 = b / 2 := by
  have h1 := words_inj a b k h
  rw [first_word a ha ha', first_word b hb hb'] at h1
  have h2 := congrArg BitVec.toNat (seedStep_inj h1)
  rw [BitVec.toNat_ofInt, BitVec.toNat_ofInt] at h2
  omega

/-- C205, the part that holds: generators made from seeds of 32 bits never come to agree, except those of an even number and of its successor.
What is missing is said by `twins_fails` and `large_fails`. -/
theorem seeds_partial (a b : ℤ) (ha : 0 ≤ a) (ha' : a < 2 ^ 32) (hb : 0 ≤ b) (hb' : b < 2 ^ 32) (hne : a / 2 ≠ b / 2) (n : ℕ) :
    ∃ m, n ≤ m ∧ nth (seed a) m ≠ nth (seed b) m := by
  by_contra hc
  push Not at hc
  have := backwards (sequence (seedWords a)) (sequence (seedWords b)) (sequence_recurrence _) (sequence_recurrence _) (n + 624)
    (fun m hm => by
      have h := hc (m - 624) (by omega)
      rw [twister (seed a) rfl, twister (seed b) rfl, show m - 624 + 624 = m by omega] at h
      exact temper_inj h) 1 le_rfl
  rw [sequence_start _ (by norm_num), sequence_start _ (by norm_num)] at this
  exact hne (seeds_inj a b ha ha' hb hb' 1 this)

example : (0 : ℤ) ≤ 10 ∧ (10 : ℤ) < 2 ^ 32 ∧ (10 : ℤ) / 2 ≠ 12 / 2 := by decide

theorem zero_recurrence : Recurrence fun _ => 0#32 := by
  intro k
  show (0#32 : BitVec 32) = 0#32 ^^^ mulA (join 0#32 0#32)
  decide

/-- C205, the part that holds: a generator made from a seed of 32 bits never runs dry. -/
theorem alive_partial (a : ℤ) (ha : 0 ≤ a) (ha' : a < 2 ^ 32) (n : ℕ) : ∃ m, n ≤ m ∧ nth (seed a) m ≠ 0#32 := by
  by_contra hc
  push Not at hc
  have := backwards (sequence (seedWords a)) (fun _ => 0#32) (sequence_recurrence _) zero_recurrence (n + 624)
    (fun m hm => by
      have h := hc (m - 624) (by omega)
      rw [twister (seed a) rfl, show m - 624 + 624 = m by omega] at h
      exact temper_inj (h.trans (by decide))) 1 le_rfl
  rw [sequence_start _ (by norm_num)] at this
  have h0 : seedWords a 0 = 0#32 := seedStep_inj ((show seedStep (seedWords a 0) = 0#32 from this).trans (by decide))
  rw [first_word a ha ha'] at h0
  have h1 : BitVec.ofInt 32 (2 * (a / 2) + 1) = 0#32 := seedStep_inj (h0.trans (by decide))
  have h2 := congrArg BitVec.toNat h1
  rw [BitVec.toNat_ofInt, BitVec.toNat_zero] at h2
  omega

/-- C205 fails: an even seed and the odd one after it make the same generator. -/
theorem twins_fails (k : ℤ) (n : ℕ) : nth (seed (2 * k)) n = nth (seed (2 * k + 1)) n := by
  have : seedWords (2 * k) = seedWords (2 * k + 1) := by
    funext j
    induction j with
    | zero =>
      rw [seedWords, seedWords, show 2 * k / 2 = k by omega, show (2 * k + 1) / 2 = k by omega]
    | succ j ih => rw [seedWords, seedWords, ih]
  rw [seed, seed, this]

/-- C205 fails: for the seed 1152921505680588801, which is 2^60 + 2^30 + 1, all the numbers are zero.
`setSeed:` sets the lowest bit to avoid this, but that is not enough for seeds of more than 32 bits. -/
theorem large_fails (n : ℕ) : nth (seed 1152921505680588801) n = 0#32 := by
  have hw : ∀ j, seedWords 1152921505680588801 j = 0#32 := by
    intro j
    induction j with
    | zero => decide
    | succ j ih => rw [seedWords, ih]; decide
  rw [twister_of _ rfl (fun _ => 0#32) zero_recurrence (fun j _ => hw j)]
  decide

/-- The words that the authors of MT19937 start with for a seed. -/
def standardWords (s : BitVec 32) : ℕ → BitVec 32
  | 0 => s
  | k + 1 => 1812433253#32 * (standardWords s k ^^^ (standardWords s k >>> 30)) + BitVec.ofNat 32 (k + 1)

/-- The same, one word after the other, to compute with. -/
def standardIter : ℕ → ℕ → BitVec 32 → BitVec 32
  | 0, _, p => p
  | n + 1, k, p => standardIter n (k + 1) (1812433253#32 * (p ^^^ (p >>> 30)) + BitVec.ofNat 32 (k + 1))

def seedIter : ℕ → BitVec 32 → BitVec 32
  | 0, p => p
  | n + 1, p => seedIter n (seedStep p)

theorem standardIter_eq (s : BitVec 32) : ∀ n k, standardIter n k (standardWords s k) = standardWords s (k + n)
  | 0, _ => rfl
  | n + 1, k => by
    have := standardIter_eq s n (k + 1)
    rw [show k + (n + 1) = k + 1 + n by omega, ← this]; rfl

theorem seedIter_eq (s : ℤ) : ∀ n k, seedIter n (seedWords s k) = seedWords s (k + n)
  | 0, _ => rfl
  | n + 1, k => by
    have := seedIter_eq s n (k + 1)
    rw [show k + (n + 1) = k + 1 + n by omega, ← this]; rfl

/-- The number `k` of the first 227 in terms of three words. -/
theorem early (w : ℕ → BitVec 32) (k : ℕ) (hk : k < 227) :
    temper (sequence w (k + 624)) = temper (w (k + 397) ^^^ mulA (join (w k) (w (k + 1)))) := by
  rw [sequence_recurrence, sequence_start _ (by omega), sequence_start _ (by omega), sequence_start _ (by omega)]

/-- C205 fails: the published first number for the seed 5489 is 3499211612, and it is not what comes out here. -/
theorem standard_fails :
    temper (sequence (standardWords 5489#32) 624) = 3499211612#32 ∧ nth (seed 5489) 0 ≠ 3499211612#32 := by
  constructor
  · have := early (standardWords 5489#32) 0 (by norm_num)
    rw [Nat.zero_add] at this
    rw [this, ← standardIter_eq _ (0 + 397) 0, ← standardIter_eq _ 1 0]
    decide +kernel
  · have := early (seedWords 5489) 0 (by norm_num)
    rw [twister _ rfl, show (seed 5489).w = seedWords 5489 from rfl, this, ← Nat.zero_add (0 + 397), ← seedIter_eq _ (0 + 397) 0]
    decide +kernel

/-! ## Numbers between zero and one -/

/-- C206, the part that holds: `next` answers a number between zero and one. What is missing is that one is excluded (`one_fails`). -/
theorem unit_partial (g : Gen) : 0 ≤ (next g).1 ∧ (next g).1 ≤ 1 := by
  have h : ((randomNext g).1.toNat : ℚ) ≤ 4294967295 := by
    have := (randomNext g).1.isLt
    have h2 : (randomNext g).1.toNat ≤ 4294967295 := by omega
    exact_mod_cast h2
  have h0 : (0 : ℚ) ≤ ((randomNext g).1.toNat : ℚ) := Nat.cast_nonneg _
  unfold next
  dsimp only
  constructor
  · apply div_nonneg h0; norm_num
  · rw [div_le_one (by norm_num)]; exact h

/-- The answer is one for one of the words only. -/
theorem one_iff (g : Gen) : (next g).1 = 1 ↔ (randomNext g).1 = 0xFFFFFFFF#32 := by
  unfold next
  dsimp only
  rw [div_eq_one_iff_eq (by norm_num)]
  constructor
  · intro h
    apply BitVec.eq_of_toNat_eq
    have h2 : (randomNext g).1.toNat = 4294967295 := by exact_mod_cast h
    rw [h2]; rfl
  · intro h
    rw [h]; norm_num

/-- C206 fails: the 104th number of the generator made by `Random seed: 72414182` is 1. -/
theorem one_fails : (next (after (seed 72414182) 103)).1 = 1 := by
  rw [one_iff]
  show nth (seed 72414182) 103 = _
  rw [twister _ rfl, show (seed 72414182).w = seedWords 72414182 from rfl, early _ 103 (by norm_num),
    show 103 + 397 = 0 + 500 from rfl, show 103 + 1 = 0 + 104 from rfl, ← seedIter_eq _ 500 0, ← seedIter_eq _ 104 0,
    show seedWords 72414182 103 = seedWords 72414182 (0 + 103) from rfl, ← seedIter_eq _ 103 0]
  decide +kernel

/-! ## Numbers between two others -/

theorem scale_lt {limit : ℕ} (h : 0 < limit) (t : BitVec 32) : scale limit t < limit := by
  rw [scale, Nat.shiftRight_eq_div_pow, Nat.div_lt_iff_lt_mul (by norm_num)]
  exact Nat.mul_lt_mul_of_pos_left t.isLt h

/-- C207, the part that holds: `between:and:` answers a number in the interval when it has less than 2^32 numbers and at least one.
What is missing is said by `wide_fails` and `empty_fails`. -/
theorem between_partial (g : Gen) (low high : ℤ) (h : low ≤ high) (hw : high - low + 1 < 2 ^ 32) :
    ∃ r, (between g low high).1 = some r ∧ low ≤ r ∧ r ≤ high := by
  unfold between nextLimit
  dsimp only
  rw [if_neg (by omega), if_neg (by omega)]
  refine ⟨((scale (high - low + 1).toNat (randomNext g).1 : ℕ) : ℤ) + low, rfl, by omega, ?_⟩
  have := scale_lt (limit := (high - low + 1).toNat) (by omega) (randomNext g).1
  omega

example : ((1 : ℤ) ≤ 6) ∧ (6 : ℤ) - 1 + 1 < 2 ^ 32 := by decide

/-- C207: the number depends on 32 random bits only, and those are the next number of the generator. -/
theorem between_eq (g : Gen) (low high : ℤ) (h : low ≤ high) (hw : high - low + 1 < 2 ^ 32) :
    between g low high = (some ((scale (high - low + 1).toNat (randomNext g).1 : ℕ) + low), (randomNext g).2) := by
  unfold between nextLimit
  dsimp only
  rw [if_neg (by omega), if_neg (by omega)]
  rfl

/-- C207 fails: an interval of 2^32 numbers or more is refused. -/
theorem wide_fails (g : Gen) (low high : ℤ) (hw : 2 ^ 32 ≤ high - low + 1) : (between g low high).1 = none := by
  unfold between nextLimit
  dsimp only
  by_cases h : high - low + 1 < -2 ^ 62 ∨ 2 ^ 62 ≤ high - low + 1
  · rw [if_pos h]; rfl
  · rw [if_neg h, if_pos (by omega)]; rfl

example : (2 : ℤ) ^ 32 ≤ 2 ^ 32 - 1 - 0 + 1 := by decide

/-- C207: a number is lost when an interval is refused although its size is a SmallInteger. -/
theorem wide_lost (g : Gen) (low high : ℤ) (hw : 2 ^ 32 ≤ high - low + 1) (hw' : high - low + 1 < 2 ^ 62) :
    (between g low high).2 = (randomNext g).2 := by
  unfold between nextLimit
  dsimp only
  rw [if_neg (by omega), if_pos (by omega)]

/-- C207 fails: when there is no number in the interval and its ends are one apart, the lower end is answered, which is above the other one. -/
theorem empty_fails (g : Gen) (low : ℤ) : (between g low (low - 1)).1 = some low := by
  unfold between nextLimit
  dsimp only
  rw [if_neg (by omega), if_neg (by omega)]
  rw [show low - 1 - low + 1 = 0 by omega]
  simp [scale]

/-- How many of the 2^32 values of a word make `nextLimit:` answer a number. -/
def ways (limit v : ℕ) : ℕ := (Finset.univ.filter fun w : Fin (2 ^ 32) => scale limit (temper ⟨w⟩) = v).card

theorem temper_bij : Function.Bijective fun w : Fin (2 ^ 32) => (temper ⟨w⟩).toFin :=
  (Finite.injective_iff_bijective).1 fun a b h => by
    have := temper_inj (BitVec.eq_of_toFin_eq h)
    exact congrArg BitVec.toFin this

theorem ways_eq (limit v : ℕ) : ways limit v = ((Finset.range (2 ^ 32)).filter fun t => limit * t / 2 ^ 32 = v).card := by
  unfold ways
  apply Finset.card_bij (fun w _ => (temper ⟨w⟩).toNat)
  · intro w hw
    rw [Finset.mem_filter] at hw ⊢
    refine ⟨Finset.mem_range.2 (temper ⟨w⟩).isLt, ?_⟩
    have := hw.2
    rwa [scale, Nat.shiftRight_eq_div_pow] at this
  · intro a _ b _ h
    exact congrArg BitVec.toFin (temper_inj (BitVec.eq_of_toNat_eq h))
  · intro t ht
    rw [Finset.mem_filter, Finset.mem_range] at ht
    obtain ⟨w, hw⟩ := temper_bij.2 ⟨t, ht.1⟩
    have e : (temper ⟨w⟩).toNat = t := congrArg Fin.val hw
    refine ⟨w, ?_, e⟩
    rw [Finset.mem_filter]
    refine ⟨Finset.mem_univ _, ?_⟩
    rw [scale, Nat.shiftRight_eq_div_pow, e]; exact ht.2

theorem count (N L v : ℕ) (hL : 0 < L) (hv : v < L) :
    ((Finset.range N).filter fun t => L * t / N = v).card = ((v + 1) * N + L - 1) / L - (v * N + L - 1) / L := by
  rcases Nat.eq_zero_or_pos N with hN | hN
  · subst hN; simp
  · have : (Finset.range N).filter (fun t => L * t / N = v) = Finset.Ico ((v * N + L - 1) / L) (((v + 1) * N + L - 1) / L) := by
      ext t
      rw [Finset.mem_filter, Finset.mem_range, Finset.mem_Ico]
      have e1 : L * t / N = v ↔ v * N ≤ L * t ∧ L * t < (v + 1) * N := by
        rw [Nat.div_eq_iff hN]
        constructor
        · rintro ⟨a, b⟩
          refine ⟨a, ?_⟩
          have : (v + 1) * N = v * N + N := by ring
          omega
        · rintro ⟨a, b⟩
          refine ⟨a, ?_⟩
          have : (v + 1) * N = v * N + N := by ring
          omega
      have e2 : (v * N + L - 1) / L ≤ t ↔ v * N ≤ L * t := by
        rw [Nat.div_le_iff_le_mul_add_pred hL]; omega
      have e3 : t < ((v + 1) * N + L - 1) / L ↔ L * t < (v + 1) * N := by
        have : ((v + 1) * N + L - 1) / L ≤ t ↔ (v + 1) * N ≤ L * t := by
          rw [Nat.div_le_iff_le_mul_add_pred hL]; omega
        omega
      rw [e1, e2, e3]
      constructor
      · exact fun h => h.2
      · intro h
        refine ⟨?_, h⟩
        have h1 : (v + 1) * N ≤ L * N := Nat.mul_le_mul_right _ hv
        exact Nat.lt_of_mul_lt_mul_left (Nat.lt_of_lt_of_le h.2 h1)
    rw [this, Nat.card_Ico]

/-- C207: all the numbers below the limit are equally likely, up to one value of the word in 2^32. -/
theorem uniform (limit v : ℕ) (h : v < limit) : 2 ^ 32 / limit ≤ ways limit v ∧ ways limit v ≤ 2 ^ 32 / limit + 1 := by
  have hL : 0 < limit := by omega
  rw [ways_eq, count _ _ _ hL h]
  generalize 2 ^ 32 = N
  have e : (v + 1) * N + limit - 1 = N + (v * N + limit - 1) := by
    have : (v + 1) * N = v * N + N := by ring
    omega
  rw [e, Nat.add_div hL]
  generalize (v * N + limit - 1) / limit = X
  generalize N / limit = Y
  split <;> omega

example : (3 : ℕ) < 6 := by decide

end Verif.Random
