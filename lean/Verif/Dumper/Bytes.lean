import Verif.Dumper.Model
/-!
# Numbers and names read back

What `nextPutBytes:of:` writes is what `nextBytes:signed:` reads, for the numbers that fit.
-/

namespace Verif.Dumper

theorem bind_ok {α β : Type} {x : R α} {f : α → R β} {b : β} :
    (x >>= f) = R.ok b ↔ ∃ a, x = R.ok a ∧ f a = R.ok b := by
  cases x with
  | ok a => exact ⟨fun h => ⟨a, rfl, h⟩, fun ⟨_, h, h'⟩ => by cases h; exact h'⟩
  | err => exact ⟨fun h => (by cases h), fun ⟨_, h, _⟩ => (by cases h)⟩
  | fuel => exact ⟨fun h => (by cases h), fun ⟨_, h, _⟩ => (by cases h)⟩

@[simp] theorem ok_bind {α β : Type} (a : α) (f : α → R β) : (R.ok a >>= f) = f a := rfl
@[simp] theorem err_bind {α β : Type} (f : α → R β) : ((R.err : R α) >>= f) = R.err := rfl
@[simp] theorem fuel_bind {α β : Type} (f : α → R β) : ((R.fuel : R α) >>= f) = R.fuel := rfl

/-- The number `i` can be stored in `n` bytes. -/
def Fits (signed : Bool) (n : Nat) (i : Int) : Prop :=
  if signed then -(256 ^ n : Int) ≤ 2 * i ∧ 2 * i < 256 ^ n else 0 ≤ i ∧ i < 256 ^ n

theorem getBytes_put (sg : Bool) (a : Int) (rest : List Nat) :
    ∀ (n : Nat) (w acc i : Int), (a < 0 → i < 0) → Fits sg (n + 1) i →
      getBytes sg (n + 1) w acc (putBytes a (n + 1) i ++ rest) = .ok (acc + i * w, rest) := by
  intro n
  induction n with
  | zero =>
    intro w acc i ha hf
    have h0 : 0 ≤ i % 256 := Int.emod_nonneg _ (by decide)
    have h1 : i % 256 < 256 := Int.emod_lt_of_pos _ (by decide)
    have hp : putBytes a 1 i = [(i % 256).toNat] := by
      simp only [putBytes, putByte, List.append_nil]
      rw [if_neg (by omega)]
    rw [hp]
    have hcast : ((i % 256).toNat : Int) = i % 256 := Int.toNat_of_nonneg h0
    show R.ok _ = R.ok _
    congr 2
    rw [hcast]
    congr 2
    cases sg with
    | false =>
      simp only [Fits, Bool.false_eq_true, if_false, Nat.zero_add] at hf
      simp only [Bool.false_and, Bool.false_eq_true, if_false]
      have : (256 : Int) ^ 1 = 256 := by decide
      rw [this] at hf
      omega
    | true =>
      simp only [Fits, if_true, Nat.zero_add] at hf
      have : (256 : Int) ^ 1 = 256 := by decide
      rw [this] at hf
      simp only [Bool.true_and, decide_eq_true_eq]
      split <;> omega
  | succ n ih =>
    intro w acc i ha hf
    have h0 : 0 ≤ i % 256 := Int.emod_nonneg _ (by decide)
    have hcast : ((i % 256).toNat : Int) = i % 256 := Int.toNat_of_nonneg h0
    have hp : putBytes a (n + 1 + 1) i = (i % 256).toNat :: putBytes a (n + 1) (i / 256) := by
      rw [putBytes]
      have : ¬ (i / 256 = 0 ∧ a < 0) := by
        rintro ⟨h1, h2⟩
        have := ha h2
        omega
      rw [if_neg this]
      simp only [putByte]
      rw [if_neg (by omega)]
      rfl
    rw [hp, List.cons_append]
    show getBytes sg (n + 1) (w * 256) (acc + ((i % 256).toNat : Int) * w) _ = _
    rw [ih (w * 256) _ (i / 256) (fun h => by have := ha h; omega)]
    · congr 2
      rw [hcast]
      have hi : i = 256 * (i / 256) + i % 256 := by omega
      have : i * w = (i / 256) * (w * 256) + (i % 256) * w := by
        conv => lhs; rw [hi]
        rw [Int.add_mul, Int.mul_comm 256, Int.mul_assoc, Int.mul_comm 256]
      omega
    · have e : (256 : Int) ^ (n + 1 + 1) = 256 ^ (n + 1) * 256 := Int.pow_succ _ _
      have hpos : (0 : Int) < 256 ^ (n + 1) := Int.pow_pos (by decide)
      cases sg with
      | false =>
        simp only [Fits, Bool.false_eq_true, if_false] at hf ⊢
        rw [e] at hf
        generalize (256 : Int) ^ (n + 1) = P at hf hpos ⊢
        omega
      | true =>
        simp only [Fits, if_true] at hf ⊢
        rw [e] at hf
        have he : ∃ Q : Int, (256 : Int) ^ (n + 1) = 2 * Q := ⟨256 ^ n * 128, by
          rw [Int.pow_succ]; omega⟩
        obtain ⟨Q, hQ⟩ := he
        rw [hQ] at hf ⊢
        omega

/-- The numbers of four bytes. -/
def Long (i : Int) : Prop := -2147483648 ≤ i ∧ i < 2147483648

theorem getLong_long {i : Int} (h : Long i) (rest : List Nat) :
    getLong (long i ++ rest) = .ok (i, rest) := by
  unfold getLong long
  rw [getBytes_put true i rest 3 1 0 i (fun h => h)]
  · simp
  · unfold Fits Long at *
    simp only [if_true]
    have : (256 : Int) ^ (3 + 1) = 4294967296 := by decide
    rw [this]
    omega

theorem getAsciiz_put {s : Name} (h : 0 ∉ s) (rest : List Nat) :
    getAsciiz (s ++ [0] ++ rest) = .ok (s, rest) := by
  induction s with
  | nil => simp [getAsciiz]
  | cons b s ih =>
    have hb : b ≠ 0 := fun e => h (by simp [e])
    have hs : 0 ∉ s := fun e => h (List.mem_cons_of_mem _ e)
    have := ih hs
    simp only [List.cons_append, getAsciiz, if_neg hb]
    rw [this]

/-! ### The table of objects -/

theorem lastIx_zero {t : List Val} {v : Val} : lastIx t v = 0 ↔ v ∉ t := by
  induction t with
  | nil => simp [lastIx]
  | cons x xs ih =>
    simp only [lastIx, List.mem_cons, not_or]
    split
    · rename_i h
      constructor
      · intro h'; omega
      · rintro ⟨_, h2⟩
        have := ih.mpr h2
        omega
    · rename_i h
      have h0 : lastIx xs v = 0 := by omega
      split
      · rename_i e
        constructor
        · intro h'; omega
        · rintro ⟨h1, _⟩; exact absurd e.symm h1
      · rename_i e
        exact ⟨fun _ => ⟨fun h' => e h'.symm, ih.mp h0⟩, fun _ => rfl⟩

theorem lastIx_get {t : List Val} {v : Val} {k : Nat} (h : lastIx t v = k + 1) : t[k]? = some v := by
  induction t generalizing k with
  | nil => simp [lastIx] at h
  | cons x xs ih =>
    simp only [lastIx] at h
    split at h
    · rename_i hp
      obtain ⟨j, hj⟩ : ∃ j, lastIx xs v = j + 1 := ⟨lastIx xs v - 1, by omega⟩
      have : k = j + 1 := by omega
      subst this
      simpa using ih hj
    · split at h
      · rename_i e
        have : k = 0 := by omega
        subst this
        simp [e]
      · omega

theorem lookupIx_get {t : List Val} {v : Val} {k : Nat} (h : lookupIx t v = k + 1) : t[k]? = some v := by
  unfold lookupIx at h
  split at h
  · omega
  · exact lastIx_get h

theorem lookupIx_le (t : List Val) (v : Val) : lookupIx t v ≤ t.length := by
  cases h : lookupIx t v with
  | zero => omega
  | succ k =>
    have := lookupIx_get h
    have := (List.getElem?_eq_some_iff.mp this).1
    omega

theorem lookupIx_zero {t : List Val} {v : Val} (hn : v ≠ .nil) : lookupIx t v = 0 ↔ v ∉ t := by
  unfold lookupIx
  rw [if_neg hn]
  exact lastIx_zero

end Verif.Dumper
