import Verif.Num.Gcd
import Mathlib.Data.Nat.Choose.Basic
import Mathlib.Algebra.Group.Nat.Even

/-! # factorial and binomial: -/

namespace Verif.Num

/-! ### The balancing stack

On the `k`-th turn the code pops as many factors as `k` has trailing zero bits,
before pushing one: the stack then has as many entries as `k` has one bits, so
`removeLast` never finds it empty. -/

/-- Number of one bits. -/
def ones : Nat → Nat
  | 0 => 0
  | n + 1 => (n + 1) % 2 + ones ((n + 1) / 2)
termination_by n => n
decreasing_by omega

theorem ones_even (n : Nat) : ones (2 * n) = ones n := by
  cases n with
  | zero => rfl
  | succ n =>
    rw [show 2 * (n + 1) = (2 * n + 1) + 1 by omega, ones]
    rw [show (2 * n + 1 + 1) % 2 = 0 by omega, show (2 * n + 1 + 1) / 2 = n + 1 by omega]; omega

theorem ones_odd (n : Nat) : ones (2 * n + 1) = ones n + 1 := by
  rw [ones, show (2 * n + 1) % 2 = 1 by omega, show (2 * n + 1) / 2 = n by omega]; omega

theorem xor_pred_odd (n : Nat) : (2 * n + 1) ^^^ (2 * n + 1 - 1) = 1 := by
  apply Nat.eq_of_testBit_eq
  intro i
  rw [Nat.testBit_xor]
  cases i with
  | zero => simp [Nat.testBit_zero]
  | succ i =>
    rw [Nat.testBit_succ, Nat.testBit_succ, Nat.testBit_succ]
    rw [show (2 * n + 1) / 2 = n by omega, show (2 * n + 1 - 1) / 2 = n by omega]
    simp

theorem xor_pred_even (n : Nat) (h : 1 ≤ n) :
    (2 * n) ^^^ (2 * n - 1) = 2 * (n ^^^ (n - 1)) + 1 := by
  apply Nat.eq_of_testBit_eq
  intro i
  rw [Nat.testBit_xor]
  cases i with
  | zero => simp [Nat.testBit_zero]; omega
  | succ i =>
    rw [Nat.testBit_succ, Nat.testBit_succ, Nat.testBit_succ]
    rw [show (2 * n) / 2 = n by omega, show (2 * n - 1) / 2 = n - 1 by omega,
      show (2 * (n ^^^ (n - 1)) + 1) / 2 = n ^^^ (n - 1) by omega, Nat.testBit_xor]

theorem xor_pred_pos (n : Nat) (h : 1 ≤ n) : 1 ≤ n ^^^ (n - 1) := by
  rcases Nat.even_or_odd' n with ⟨j, rfl | rfl⟩
  · rw [xor_pred_even j (by omega)]; omega
  · rw [xor_pred_odd]

/-- Popping succeeds, multiplies everything popped into the accumulator, and
leaves one entry less than `k` has one bits. -/
theorem popLoop_spec {α : Type} (mul : α → α → α) : ∀ (k : Nat), 1 ≤ k → ∀ (f : Nat) (a : α) (st : List α),
    k ≤ f → st.length = ones (k - 1) →
    ∃ pop rest, st = pop ++ rest ∧ popLoop mul f (k ^^^ (k - 1)) a st = .ok (pop.foldl mul a, rest) ∧
      rest.length + 1 = ones k := by
  intro k
  induction k using Nat.strong_induction_on with
  | _ k ih =>
    intro hk f a st hf hlen
    obtain ⟨f', rfl⟩ : ∃ f', f = f' + 1 := ⟨f - 1, by omega⟩
    rcases Nat.even_or_odd' k with ⟨j, rfl | rfl⟩
    · have hj : 1 ≤ j := by omega
      have hpos := xor_pred_pos j hj
      rw [xor_pred_even j hj, popLoop.eq_def]
      simp only [if_neg (show ¬ 2 * (j ^^^ (j - 1)) + 1 = 1 by omega)]
      have h1 : ones (2 * j - 1) = ones (j - 1) + 1 := by
        rw [show 2 * j - 1 = 2 * (j - 1) + 1 by omega, ones_odd]
      cases st with
      | nil => rw [h1] at hlen; simp at hlen
      | cons s st =>
        rw [h1] at hlen
        obtain ⟨pop, rest, e1, e2, e3⟩ := ih j (by omega) hj f' (mul a s) st (by omega) (by simpa using hlen)
        refine ⟨s :: pop, rest, by simp [e1], ?_, by rw [e3, ones_even]⟩
        rw [Nat.shiftRight_eq_div_pow, show (2 * (j ^^^ (j - 1)) + 1) / 2 ^ 1 = j ^^^ (j - 1) by omega]
        simpa using e2
    · rw [xor_pred_odd, popLoop.eq_def]
      simp only [if_true]
      refine ⟨[], st, rfl, rfl, ?_⟩
      rw [hlen, ones_odd, show 2 * j + 1 - 1 = 2 * j by omega, ones_even]

/-! ### Factorial -/

theorem foldl_mul (a : Nat) (l : List Nat) : l.foldl (· * ·) a = a * l.prod := by
  induction l generalizing a with
  | nil => simp
  | cons x l ih => rw [List.foldl_cons, ih, List.prod_cons, Nat.mul_assoc]

theorem fact_two (n : Nat) (h : 2 ≤ n) : n.factorial = n * (n - 1) * (n - 2).factorial := by
  obtain ⟨m, rfl⟩ : ∃ m, n = m + 2 := ⟨n - 2, by omega⟩
  rw [show m + 2 - 1 = m + 1 by omega, show m + 2 - 2 = m by omega, Nat.factorial_succ,
    Nat.factorial_succ]
  ring

/-- What the inner loop of `factorial` multiplies together: the result times what
is left is what there was. -/
theorem factFill_spec : ∀ (f max a b n : Nat), 2 ≤ n → n ≤ f →
    (∃ r, factFill f max a b n = .ok (.done r) ∧ r = a * b * (n - 2).factorial) ∨
    (∃ a' b' n', factFill f max a b n = .ok (.more a' b' n') ∧ 2 ≤ n' ∧ n' < n ∧
      a' * b' * n'.factorial = a * b * (n - 2).factorial) := by
  intro f
  induction f with
  | zero => intro max a b n h1 h2; omega
  | succ f ih =>
    intro max a b n h1 h2
    rw [factFill]
    by_cases hn : n - 2 < 2
    · left
      rw [if_pos hn]
      refine ⟨_, rfl, ?_⟩
      have : n - 2 = 0 ∨ n - 2 = 1 := by omega
      rcases this with h | h <;> rw [h] <;> simp
    · rw [if_neg hn]
      by_cases hb : b < max
      · rw [if_pos hb]
        have hf := fact_two (n - 2) (by omega)
        have e : a * b * (n - 2).factorial =
            a * (n - 2 - 1) * (b * (n - 2)) * (n - 2 - 2).factorial := by rw [hf]; ring
        rcases ih max (a * (n - 2 - 1)) (b * (n - 2)) (n - 2) (by omega) (by omega) with
          ⟨r, h3, h4⟩ | ⟨a', b', n', h3, h4, h5, h6⟩
        · left; exact ⟨r, h3, by rw [h4, e]⟩
        · right; exact ⟨a', b', n', h3, h4, by omega, by rw [h6, e]⟩
      · rw [if_neg hb]
        right
        exact ⟨a, b, n - 2, rfl, by omega, by omega, rfl⟩

theorem factLoop_spec (big : Nat) : ∀ (f k n : Nat) (st : List Nat), 1 ≤ k → 2 ≤ n → n ≤ f →
    st.length = ones (k - 1) → factLoop big f k n st = .ok (n.factorial * st.prod) := by
  intro f
  induction f with
  | zero => intro k n st _ h1 h2; omega
  | succ f ih =>
    intro k n st hk hn hf hst
    rw [factLoop]
    have e : (n - 1) * n * (n - 2).factorial = n.factorial := by rw [fact_two n hn]; ring
    rcases factFill_spec (n + 1) (big / n) (n - 1) n n hn (by omega) with
      ⟨r, h1, h2⟩ | ⟨a', b', n', h1, h2, h3, h4⟩
    · rw [h1]
      simp only [popAll, foldl_mul, h2, e]
    · rw [h1]
      obtain ⟨pop, rest, q1, q2, q3⟩ := popLoop_spec (· * ·) k hk (k + 2) (a' * b') st (by omega) hst
      simp only [q2]
      rw [ih (k + 1) n' _ (by omega) h2 (by omega) (by simpa using q3)]
      congr 1
      rw [List.prod_cons, foldl_mul, q1, List.prod_append, ← e, ← h4]
      ring

/-- **`n factorial` is the product of the integers from 1 to `n`**, for every
non-negative Integer and whatever the size of SmallIntegers: the shortcuts that
multiply small factors together and the stack that balances the large ones
neither lose nor repeat a factor, and the stack is never popped empty. -/
theorem factorial_spec (big : Nat) (n : Nat) : factorial big n = .ok n.factorial := by
  rw [factorial, if_neg (by omega)]
  by_cases h : (n : Int) < 2
  · rw [if_pos h]
    have : n = 0 ∨ n = 1 := by omega
    rcases this with rfl | rfl <;> rfl
  · rw [if_neg h]
    simp only [Int.natAbs_natCast]
    rw [factLoop_spec big (n + 1) 1 n [] (by omega) (by omega) (by omega) (by simp [ones])]
    simp

example : factorial 20 25 = .ok (Nat.factorial 25) := by decide
example : factorial (2 ^ 62 - 1) 6 = .ok 720 := by decide

/-- A negative receiver is refused. -/
theorem factorial_negative (big : Nat) (z : Int) (h : z < 0) : factorial big z = .error .arith := by
  rw [factorial, if_pos h]

/-! ### Binomial coefficients -/

theorem gcd_cross (a b : Nat) (ha : 0 < a) :
    0 < a / Nat.gcd a b ∧ (a / Nat.gcd a b) * b = a * (b / Nat.gcd a b) := by
  have hg : 0 < Nat.gcd a b := Nat.gcd_pos_of_pos_left _ ha
  refine ⟨Nat.div_pos (Nat.gcd_le_left _ ha) hg, ?_⟩
  obtain ⟨x, hx⟩ := Nat.gcd_dvd_left a b
  obtain ⟨y, hy⟩ := Nat.gcd_dvd_right a b
  have e1 : a / Nat.gcd a b = x := Nat.div_eq_of_eq_mul_right hg hx
  have e2 : b / Nat.gcd a b = y := Nat.div_eq_of_eq_mul_right hg hy
  rw [e1, e2]
  calc x * b = x * (Nat.gcd a b * y) := by rw [← hy]
    _ = Nat.gcd a b * x * y := by ring
    _ = a * y := by rw [← hx]

theorem choose_step (n k : Nat) (h : k + 1 ≤ n) :
    n * (n - 1).choose k = n.choose (k + 1) * (k + 1) := by
  obtain ⟨m, rfl⟩ : ∃ m, n = m + 1 := ⟨n - 1, by omega⟩
  exact Nat.add_one_mul_choose_eq m k

/-- The fractions `a / b` and `c / d` are the same number. -/
def Same (a b c d : Nat) : Prop := a * d = c * b

theorem Same.trans {a b c d e f : Nat} (hd : 0 < d) (h1 : Same a b c d) (h2 : Same c d e f) :
    Same a b e f := by
  unfold Same at *
  apply Nat.eq_of_mul_eq_mul_right hd
  calc a * f * d = a * d * f := by ring
    _ = c * b * f := by rw [h1]
    _ = c * f * b := by ring
    _ = e * d * b := by rw [h2]
    _ = e * b * d := by ring

/-- One fill of `binomial:`: the fraction accumulated so far times the binomial
coefficient still to be computed does not change. -/
theorem binFill_spec (maxNum : Nat) : ∀ (k sn sd n : Nat), 1 ≤ k → k ≤ n → 0 < sn → 0 < sd →
    (∃ sn' sd', binFill maxNum k sn sd n = .done sn' sd' ∧ 0 < sn' ∧ 0 < sd' ∧
      Same sn' sd' (sn * n.choose k) sd) ∨
    (∃ sn' sd' n' k', binFill maxNum k sn sd n = .more sn' sd' n' k' ∧ 0 < sn' ∧ 0 < sd' ∧
      1 ≤ k' ∧ k' ≤ n' ∧ k' ≤ k ∧ n' ≤ n ∧ (sn ≤ maxNum → k' < k) ∧
      Same (sn' * n'.choose k') sd' (sn * n.choose k) sd) := by
  intro k
  induction k with
  | zero => intro sn sd n h; omega
  | succ k ih =>
    intro sn sd n _ hkn h1 h2
    rw [binFill]
    by_cases hs : sn ≤ maxNum
    · rw [if_pos hs]
      have hc := choose_step n k hkn
      by_cases hk : k = 0
      · left
        rw [if_pos hk]
        refine ⟨_, _, rfl, Nat.mul_pos h1 (by omega), Nat.mul_pos h2 (by omega), ?_⟩
        subst hk
        simp [Same]
      · rw [if_neg hk]
        have hsame : Same (sn * n * (n - 1).choose k) (sd * (k + 1)) (sn * n.choose (k + 1)) sd := by
          unfold Same
          calc sn * n * (n - 1).choose k * sd = sn * sd * (n * (n - 1).choose k) := by ring
            _ = sn * sd * (n.choose (k + 1) * (k + 1)) := by rw [hc]
            _ = _ := by ring
        have hp2 : 0 < sd * (k + 1) := Nat.mul_pos h2 (by omega)
        rcases ih (sn * n) (sd * (k + 1)) (n - 1) (by omega) (by omega)
          (Nat.mul_pos h1 (by omega)) hp2 with
          ⟨a, b, e1, e2, e3, e4⟩ | ⟨a, b, n', k', e1, e2, e3, e4, e5, e6, e7, e8, e9⟩
        · left; exact ⟨a, b, e1, e2, e3, e4.trans hp2 hsame⟩
        · right; exact ⟨a, b, n', k', e1, e2, e3, e4, e5, by omega, by omega, by omega,
            e9.trans hp2 hsame⟩
    · rw [if_neg hs]
      right
      exact ⟨sn, sd, n, k + 1, rfl, h1, h2, by omega, hkn, by omega, by omega,
        fun h => absurd h hs, rfl⟩

theorem same_reduce (a b c : Nat) (ha : 0 < a) :
    Same (a / Nat.gcd a b * c) (b / Nat.gcd a b) (a * c) b := by
  have := (gcd_cross a b ha).2
  unfold Same
  calc a / Nat.gcd a b * c * b = (a / Nat.gcd a b * b) * c := by ring
    _ = a * (b / Nat.gcd a b) * c := by rw [this]
    _ = _ := by ring

theorem div_gcd_pos (a b : Nat) (hb : 0 < b) : 0 < b / Nat.gcd a b :=
  Nat.div_pos (Nat.gcd_le_right _ hb) (Nat.gcd_pos_of_pos_right _ hb)

theorem binStep_spec (big : Nat) : ∀ (f sn sd n k : Nat), k < f → 1 ≤ k → k ≤ n → 0 < sn → 0 < sd →
    sn ≤ big / n →
    (∃ sn' sd', binStep big f sn sd n k = .ok (.done sn' sd') ∧ 0 < sn' ∧ 0 < sd' ∧
      Same sn' sd' (sn * n.choose k) sd) ∨
    (∃ sn' sd' n' k', binStep big f sn sd n k = .ok (.more sn' sd' n' k') ∧ 0 < sn' ∧ 0 < sd' ∧
      1 ≤ k' ∧ k' ≤ n' ∧ k' < k ∧ n' ≤ n ∧
      Same (sn' * n'.choose k') sd' (sn * n.choose k) sd) := by
  intro f
  induction f with
  | zero => intro sn sd n k h; omega
  | succ f ih =>
    intro sn sd n k hf hk hkn h1 h2 hsn
    rw [binStep]
    rcases binFill_spec (big / n) k sn sd n hk hkn h1 h2 with
      ⟨a, b, e1, e2, e3, e4⟩ | ⟨a, b, n', k', e1, e2, e3, e4, e5, e6, e7, e8, e9⟩
    · left
      rw [e1]
      simp only [gcdNat_eq]
      refine ⟨_, _, rfl, (gcd_cross a b e2).1, div_gcd_pos a b e3, ?_⟩
      have := same_reduce a b 1 e2
      rw [Nat.mul_one, Nat.mul_one] at this
      exact this.trans e3 e4
    · rw [e1]
      simp only [gcdNat_eq]
      have hk' := e8 hsn
      by_cases hg : Nat.gcd a b > 1
      · rw [if_pos hg]
        have hr := (same_reduce a b (n'.choose k') e2).trans e3 e9
        have hp1 := (gcd_cross a b e2).1
        have hp2 := div_gcd_pos a b e3
        by_cases hle : a / Nat.gcd a b ≤ big / n
        · rw [if_pos hle]
          have hmono : big / n ≤ big / n' := Nat.div_le_div_left e7 (by omega)
          rcases ih (a / Nat.gcd a b) (b / Nat.gcd a b) n' k' (by omega) e4 e5 hp1 hp2 (by omega) with
            ⟨c, d, g1, g2, g3, g4⟩ | ⟨c, d, n'', k'', g1, g2, g3, g4, g5, g6, g7, g8⟩
          · left; exact ⟨c, d, g1, g2, g3, g4.trans hp2 hr⟩
          · right; exact ⟨c, d, n'', k'', g1, g2, g3, g4, g5, by omega, by omega, g8.trans hp2 hr⟩
        · rw [if_neg hle]
          right
          exact ⟨_, _, n', k', rfl, hp1, hp2, e4, e5, hk', e7, hr⟩
      · rw [if_neg hg]
        right
        exact ⟨a, b, n', k', rfl, e2, e3, e4, e5, hk', e7, e9⟩

theorem prod_pos' (l : List Nat) (h : ∀ a ∈ l, 0 < a) : 0 < l.prod := by
  induction l with
  | nil => simp
  | cons x l ih =>
    rw [List.prod_cons]
    exact Nat.mul_pos (h x (by simp)) (ih fun a ha => h a (by simp [ha]))

/-- Products of the two stacks. -/
def prod1 (st : List (Nat × Nat)) : Nat := (st.map Prod.fst).prod
def prod2 (st : List (Nat × Nat)) : Nat := (st.map Prod.snd).prod

theorem foldl_mulPair (st : List (Nat × Nat)) : ∀ (a : Nat × Nat),
    st.foldl mulPair a = (a.1 * prod1 st, a.2 * prod2 st) := by
  induction st with
  | nil => intro a; simp [prod1, prod2]
  | cons x st ih =>
    intro a
    rw [List.foldl_cons, ih]
    simp [mulPair, prod1, prod2, Nat.mul_assoc]

theorem binLoop_spec (big : Nat) : ∀ (f step n k : Nat) (st : List (Nat × Nat)) (v : Nat),
    k ≤ f → 1 ≤ step → 1 ≤ k → k ≤ n → n ≤ big → st.length = ones (step - 1) →
    (∀ p ∈ st, 0 < p.1 ∧ 0 < p.2) →
    v * prod2 st = prod1 st * n.choose k →
    binLoop big f step n k st = .ok v := by
  intro f
  induction f with
  | zero => intro step n k st v h1 _ h2; omega
  | succ f ih =>
    intro step n k st v hf hstep hk hkn hbig hst hpos hv
    have hprod2 : 0 < prod2 st := by
      unfold prod2
      apply prod_pos'
      intro a ha
      obtain ⟨p, hp, rfl⟩ := List.mem_map.mp ha
      exact (hpos p hp).2
    rw [binLoop]
    have h1 : 1 ≤ big / n := (Nat.le_div_iff_mul_le (by omega)).mpr (by omega)
    rcases binStep_spec big (k + 2) 1 1 n k (by omega) hk hkn (by omega) (by omega) h1 with
      ⟨a, b, e1, e2, e3, e4⟩ | ⟨a, b, n', k', e1, e2, e3, e4, e5, e6, e7, e8⟩
    · rw [e1]
      simp only [popAll, foldl_mulPair]
      congr 1
      unfold Same at e4
      apply Nat.div_eq_of_eq_mul_left (Nat.mul_pos e3 hprod2)
      calc a * prod1 st = (a * 1) * prod1 st := by ring
        _ = (1 * n.choose k * b) * prod1 st := by rw [e4]
        _ = b * (prod1 st * n.choose k) := by ring
        _ = b * (v * prod2 st) := by rw [hv]
        _ = v * (b * prod2 st) := by ring
    · rw [e1]
      obtain ⟨pop, rest, q1, q2, q3⟩ := popLoop_spec mulPair step hstep (step + 2) (a, b) st (by omega) hst
      simp only [q2, foldl_mulPair, gcdNat_eq]
      have hpop1 : 0 < prod1 pop := by
        unfold prod1
        apply prod_pos'
        intro x hx
        obtain ⟨p, hp, rfl⟩ := List.mem_map.mp hx
        exact (hpos p (by rw [q1]; simp [hp])).1
      have hpop2 : 0 < prod2 pop := by
        unfold prod2
        apply prod_pos'
        intro x hx
        obtain ⟨p, hp, rfl⟩ := List.mem_map.mp hx
        exact (hpos p (by rw [q1]; simp [hp])).2
      have hA : 0 < a * prod1 pop := Nat.mul_pos e2 hpop1
      have hB : 0 < b * prod2 pop := Nat.mul_pos e3 hpop2
      apply ih (step + 1) n' k' _ v (by omega) (by omega) e4 e5 (by omega) (by simpa using q3)
      · intro p hp
        rcases List.mem_cons.mp hp with rfl | hp
        · exact ⟨(gcd_cross _ _ hA).1, div_gcd_pos _ _ hB⟩
        · exact hpos p (by rw [q1]; simp [hp])
      · have hg := (gcd_cross (a * prod1 pop) (b * prod2 pop) hA).2
        have s1 : prod1 st = prod1 pop * prod1 rest := by simp [prod1, q1]
        have s2 : prod2 st = prod2 pop * prod2 rest := by simp [prod2, q1]
        unfold Same at e8
        rw [s1, s2] at hv
        have c1 : ∀ x y, prod1 ((x, y) :: rest) = x * prod1 rest := by intro x y; simp [prod1]
        have c2 : ∀ x y, prod2 ((x, y) :: rest) = y * prod2 rest := by intro x y; simp [prod2]
        rw [c1, c2]
        apply Nat.eq_of_mul_eq_mul_right hA
        apply Nat.eq_of_mul_eq_mul_right hpop2
        generalize a * prod1 pop / (a * prod1 pop).gcd (b * prod2 pop) = A at hg ⊢
        generalize b * prod2 pop / (a * prod1 pop).gcd (b * prod2 pop) = B at hg ⊢
        calc v * (B * prod2 rest) * (a * prod1 pop) * prod2 pop
            = (a * prod1 pop * B) * (v * (prod2 pop * prod2 rest)) := by ring
          _ = (A * (b * prod2 pop)) * (prod1 pop * prod1 rest * n.choose k) := by rw [hg, hv]
          _ = (1 * n.choose k * b) * (A * prod2 pop * prod1 pop * prod1 rest) := by ring
          _ = (a * n'.choose k' * 1) * (A * prod2 pop * prod1 pop * prod1 rest) := by rw [e8]
          _ = A * prod1 rest * n'.choose k' * (a * prod1 pop) * prod2 pop := by ring

/-- **`n binomial: k` is the number of ways to choose `k` things among `n`**, for
every receiver that is a SmallInteger (`n ≤ big`) and every `k` between 0 and
`n`: the intermediate numerators and denominators, simplified and combined in
whatever order the size of SmallIntegers dictates, always divide exactly. -/
theorem binomial_partial (big n k : Nat) (hk : k ≤ n) (hn : n ≤ big) :
    ∀ fuel, n ≤ fuel → binomialF big fuel n k = .ok (n.choose k) := by
  intro fuel hf
  rw [binomialF, if_neg (by omega)]
  by_cases h : (k : Int) + k > n
  · simp only [if_pos h]
    by_cases h0 : (n : Int) - k = 0
    · rw [if_pos h0]
      have : k = n := by omega
      subst this
      simp
    · rw [if_neg h0]
      have e : ((n : Int) - k).natAbs = n - k := by omega
      rw [e, Int.natAbs_natCast]
      apply binLoop_spec big fuel 1 n (n - k) [] _ (by omega) (by omega) (by omega) (by omega) hn
        (by simp [ones]) (by simp)
      simp [prod1, prod2, Nat.choose_symm hk]
  · simp only [if_neg h]
    by_cases h0 : (k : Int) = 0
    · rw [if_pos h0]
      have : k = 0 := by omega
      subst this
      simp
    · rw [if_neg h0]
      simp only [Int.natAbs_natCast]
      apply binLoop_spec big fuel 1 n k [] _ (by omega) (by omega) (by omega) (by omega) hn
        (by simp [ones]) (by simp)
      simp [prod1, prod2]

example : binomialF 50 10 10 4 = .ok 210 := by decide
example : binomialF (2 ^ 62 - 1) 40 40 3 = .ok 9880 := by decide

/-- Invalid arguments are refused. -/
theorem binomial_refuses (big fuel : Nat) (n k : Int) (h : n < 0 ∨ k < 0 ∨ k > n) :
    binomialF big fuel n k = .error .arith := by
  rw [binomialF, if_pos h]

theorem binLoop_endless (big n k : Nat) (hn : big < n) (hk : 1 ≤ k) : ∀ (f step : Nat) (st : List (Nat × Nat)),
    1 ≤ step → st.length = ones (step - 1) → binLoop big f step n k st = .error .loop := by
  intro f
  induction f with
  | zero => intro step st _ _; rfl
  | succ f ih =>
    intro step st h1 hst
    obtain ⟨k', rfl⟩ : ∃ k', k = k' + 1 := ⟨k - 1, by omega⟩
    have hd : big / n = 0 := Nat.div_eq_of_lt hn
    have hs : binStep big (k' + 1 + 2) 1 1 n (k' + 1) = .ok (.more 1 1 n (k' + 1)) := by
      rw [binStep, binFill, hd]
      simp [gcdNat_eq]
    rw [binLoop, hs]
    obtain ⟨pop, rest, q1, q2, q3⟩ := popLoop_spec mulPair step h1 (step + 2) (1, 1) st (by omega) hst
    simp only [q2]
    exact ih (step + 1) _ (by omega) (by simpa using q3)

/-- **A receiver too large for a SmallInteger makes `binomial:` loop forever**
(growing its stacks) for every `k` other than 0 and the receiver itself:
`SmallInteger largest // n` is zero, so not even the first factor is
multiplied.  No number of turns is enough. -/
theorem binomial_endless (big n k : Nat) (hn : big < n) (h0 : 0 < k) (h1 : k < n) :
    ∀ fuel, binomialF big fuel n k = .error .loop := by
  intro fuel
  rw [binomialF, if_neg (by omega)]
  by_cases h : (k : Int) + k > n
  · simp only [if_pos h]
    rw [if_neg (by omega)]
    simp only [Int.natAbs_natCast]
    exact binLoop_endless big n _ hn (by omega) fuel 1 [] (by omega) (by simp [ones])
  · simp only [if_neg h]
    rw [if_neg (by omega)]
    simp only [Int.natAbs_natCast]
    exact binLoop_endless big n _ hn (by omega) fuel 1 [] (by omega) (by simp [ones])

/-- The full statement — `binomial:` answers the binomial coefficient for all
receivers — is refuted by `2^62 binomial: 1` on 64-bit machines, where the
largest SmallInteger is `2^62 - 1`. -/
theorem binomial_full_false :
    ¬ ∃ fuel, binomialF (2 ^ 62 - 1) fuel ((2 ^ 62 : Nat) : Int) (1 : Nat) = .ok (2 ^ 62) := by
  rintro ⟨fuel, h⟩
  rw [binomial_endless (2 ^ 62 - 1) (2 ^ 62) 1 (by omega) (by omega) (by omega) fuel] at h
  cases h

end Verif.Num
