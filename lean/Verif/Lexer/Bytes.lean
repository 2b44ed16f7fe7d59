import Verif.Lexer.Model
import Mathlib.Tactic.Ring
import Mathlib.Tactic.Linarith

/-!
# Large integers: the bytes
-/

namespace Verif.Lexer

/-- The number with the given bytes, lowest first, without a sign. -/
def uval : List Nat → Nat
  | [] => 0
  | b :: bs => b + 256 * uval bs

def Bytes (bs : List Nat) : Prop := ∀ b ∈ bs, b < 256

theorem uval_lt : ∀ {bs}, Bytes bs → uval bs < 256 ^ bs.length
  | [], _ => by simp [uval]
  | b :: bs, h => by
    have h1 := uval_lt (bs := bs) (fun x hx => h x (by simp [hx]))
    have h2 := h b (by simp)
    simp only [uval, List.length_cons, Nat.pow_succ]
    omega

theorem mulAdd_length (base) : ∀ c bs, (mulAdd base c bs).length = bs.length
  | _, [] => rfl
  | c, b :: bs => by simp [mulAdd, mulAdd_length base _ bs]

theorem mulAdd_bytes (base) : ∀ c bs, Bytes (mulAdd base c bs)
  | _, [] => by simp [mulAdd, Bytes]
  | c, b :: bs => by
    intro x hx
    simp only [mulAdd, List.mem_cons] at hx
    rcases hx with rfl | hx
    · exact Nat.mod_lt _ (by omega)
    · exact mulAdd_bytes base _ bs x hx

theorem mulAdd_val (base) : ∀ c bs, ∃ k,
    uval bs * base + c = uval (mulAdd base c bs) + 256 ^ bs.length * k
  | c, [] => ⟨c, by simp [uval, mulAdd]⟩
  | c, b :: bs => by
    obtain ⟨k, hk⟩ := mulAdd_val base ((b * base + c) / 256) bs
    refine ⟨k, ?_⟩
    simp only [uval, mulAdd, List.length_cons]
    have h1 := Nat.div_add_mod (b * base + c) 256
    generalize (b * base + c) / 256 = q at *
    generalize (b * base + c) % 256 = r at *
    have : (b + 256 * uval bs) * base + c = 256 * (uval bs * base + q) + r := by
      linarith [h1, Nat.add_mul b (256 * uval bs) base, Nat.mul_assoc 256 (uval bs) base]
    rw [this, hk]
    ring

theorem mulAdd_exact {base c bs} (h : uval bs * base + c < 256 ^ bs.length) :
    uval (mulAdd base c bs) = uval bs * base + c := by
  obtain ⟨k, hk⟩ := mulAdd_val base c bs
  cases k with
  | zero => omega
  | succ k =>
    have : 256 ^ bs.length * 1 ≤ 256 ^ bs.length * (k + 1) := Nat.mul_le_mul_left _ (by omega)
    omega

/-- The number that digits write, starting from `v`. -/
def digits (base v : Nat) (ds : List Nat) : Nat := ds.foldl (fun v d => v * base + d) v

theorem digits_lt {base} : ∀ {ds v n}, (∀ d ∈ ds, d < base) → v < base ^ n →
    digits base v ds < base ^ (n + ds.length)
  | [], v, n, _, h => by simpa [digits] using h
  | d :: ds, v, n, hd, h => by
    have h1 := hd d (by simp)
    have := digits_lt (ds := ds) (v := v * base + d) (n := n + 1) (fun x hx => hd x (by simp [hx])) (by
      have : (v + 1) * base ≤ base ^ n * base := Nat.mul_le_mul_right _ h
      rw [Nat.pow_succ]
      rw [Nat.add_mul] at this
      omega)
    simp only [List.length_cons]
    rw [show n + (ds.length + 1) = n + 1 + ds.length by omega]
    exact this

theorem digits_mono {base} (hb : 1 ≤ base) : ∀ {ds v}, v ≤ digits base v ds
  | [], v => Nat.le_refl _
  | d :: ds, v => by
    have := digits_mono hb (ds := ds) (v := v * base + d)
    have h2 : v * 1 ≤ v * base := Nat.mul_le_mul_left _ hb
    show v ≤ digits base (v * base + d) ds
    omega

theorem mag_go {base} (hb : 1 ≤ base) (ds : List Nat) : ∀ (bs : List Nat),
    Bytes bs → digits base (uval bs) ds < 256 ^ bs.length →
    uval (ds.foldl (fun bs d => mulAdd base d bs) bs) = digits base (uval bs) ds ∧
    (ds.foldl (fun bs d => mulAdd base d bs) bs).length = bs.length ∧
    Bytes (ds.foldl (fun bs d => mulAdd base d bs) bs) := by
  induction ds with
  | nil => intro bs hbs h; exact ⟨rfl, rfl, hbs⟩
  | cons d ds ih =>
    intro bs hbs h
    have h1 : uval bs * base + d < 256 ^ bs.length := Nat.lt_of_le_of_lt (digits_mono hb) h
    have h2 := mulAdd_exact h1
    have := ih (mulAdd base d bs) (mulAdd_bytes _ _ _) (by rw [h2, mulAdd_length]; exact h)
    simp only [List.foldl_cons]
    rw [h2, mulAdd_length] at this
    exact this

theorem uval_zero (n : Nat) : uval (List.replicate n 0) = 0 := by
  induction n with
  | zero => rfl
  | succ n ih => simp [List.replicate_succ, uval, ih]

theorem magBytes_spec {base ds} (hb : 1 ≤ base) (hb' : base ≤ 36) (hd : ∀ d ∈ ds, d < base) :
    uval (magBytes base ds) = digits base 0 ds ∧ (magBytes base ds).length = ds.length ∧
    Bytes (magBytes base ds) ∧ digits base 0 ds < 128 ^ ds.length := by
  have h0 := digits_lt (n := 0) (v := 0) hd (by simp)
  have h1 : base ^ ds.length ≤ 128 ^ ds.length := Nat.pow_le_pow_left (by omega) _
  have h2 : 128 ^ ds.length ≤ 256 ^ ds.length := Nat.pow_le_pow_left (by omega) _
  simp only [Nat.zero_add] at h0
  have h := mag_go hb ds (List.replicate ds.length 0)
    (by intro x hx; simp at hx; omega) (by rw [uval_zero, List.length_replicate]; omega)
  rw [uval_zero, List.length_replicate] at h
  exact ⟨h.1, h.2.1, h.2.2, by omega⟩

/-! ## Two's complement -/

theorem twos_length : ∀ bs, (incr bs).length = bs.length
  | [] => rfl
  | b :: bs => by
    unfold incr
    split <;> simp [twos_length bs]

theorem incr_bytes : ∀ {bs}, Bytes bs → Bytes (incr bs)
  | [], h => h
  | b :: bs, h => by
    have hb := h b (by simp)
    have hs : Bytes bs := fun x hx => h x (by simp [hx])
    unfold incr
    split
    · intro x hx
      simp only [List.mem_cons] at hx
      rcases hx with rfl | hx
      · omega
      · exact incr_bytes hs x hx
    · intro x hx
      simp only [List.mem_cons] at hx
      rcases hx with rfl | hx
      · omega
      · exact hs x hx

theorem incr_val : ∀ {bs}, Bytes bs → uval bs + 1 < 256 ^ bs.length → uval (incr bs) = uval bs + 1
  | [], _, h => by simp [uval] at h
  | b :: bs, hb, h => by
    have hb0 := hb b (by simp)
    have hs : Bytes bs := fun x hx => hb x (by simp [hx])
    have := uval_lt hs
    simp only [uval, List.length_cons, Nat.pow_succ] at h
    unfold incr
    split
    · rename_i h1
      have h2 := incr_val hs (by omega)
      simp only [uval, h2]; omega
    · simp only [uval]; omega

theorem inv_val : ∀ {bs}, Bytes bs → uval (bs.map fun b => 255 - b) + uval bs + 1 = 256 ^ bs.length
  | [], _ => by simp [uval]
  | b :: bs, hb => by
    have hb0 := hb b (by simp)
    have := inv_val (bs := bs) (fun x hx => hb x (by simp [hx]))
    simp only [List.map_cons, uval, List.length_cons, Nat.pow_succ]
    omega

theorem twos_spec {bs} (hb : Bytes bs) (h0 : 0 < uval bs) :
    uval (twos bs) + uval bs = 256 ^ bs.length ∧ (twos bs).length = bs.length ∧ Bytes (twos bs) := by
  have h1 := inv_val hb
  have h2 : Bytes (bs.map fun b => 255 - b) := by
    intro x hx
    simp only [List.mem_map] at hx
    obtain ⟨y, _, rfl⟩ := hx
    omega
  have h3 := incr_val h2 (by simp; omega)
  refine ⟨?_, by simp [twos, twos_length], incr_bytes h2⟩
  unfold twos
  rw [h3]; omega

/-! ## The sign -/

theorem bytesVal_snoc : ∀ (bs : List Nat) (b : Nat),
    bytesVal (bs ++ [b]) = uval bs + 256 ^ bs.length * (if b < 128 then (b : Int) else (b : Int) - 256)
  | [], b => by simp [bytesVal, uval]
  | a :: bs, b => by
    have ih := bytesVal_snoc bs b
    have : bytesVal (a :: bs ++ [b]) = a + 256 * bytesVal (bs ++ [b]) := by
      cases bs <;> rfl
    rw [this, ih]
    simp only [uval, List.length_cons]
    push_cast
    ring

theorem uval_snoc : ∀ (bs : List Nat) (b : Nat), uval (bs ++ [b]) = uval bs + 256 ^ bs.length * b
  | [], b => by simp [uval]
  | a :: bs, b => by
    have ih := uval_snoc bs b
    simp only [List.cons_append, uval, List.length_cons, Nat.pow_succ, ih]
    ring

/-- Bytes that a normal LargeInteger has: two's complement, and no byte at the end could
be left out. -/
def Normal (bs : List Nat) : Prop :=
  Bytes bs ∧ ∀ t a b, bs = t ++ [a, b] → ¬ (a < 128 ∧ b = 0) ∧ ¬ (128 ≤ a ∧ b = 255)

theorem trim_spec (fill : Nat) (hf : fill = 0 ∨ fill = 255) (bs : List Nat) (hb : Bytes bs)
    (hs : decide (bs.getLastD fill ≥ 128) = decide (fill ≥ 128)) (hne : bytesVal bs ≠ -1) :
    bytesVal (trim fill bs) = bytesVal bs ∧ Normal (trim fill bs) := by
  have key : ∀ (l : List Nat), Bytes l.reverse →
      decide (l.reverse.getLastD fill ≥ 128) = decide (fill ≥ 128) → bytesVal l.reverse ≠ -1 →
      bytesVal (trim fill l.reverse) = bytesVal l.reverse ∧ Normal (trim fill l.reverse) := by
    intro l
    induction l with
    | nil =>
      intro _ _ _
      have : trim fill [] = [] := by simp [trim]
      simp only [List.reverse_nil, this]
      exact ⟨trivial, by simp [Bytes], by simp⟩
    | cons b l ih =>
      intro hb hs hne
      simp only [List.reverse_cons, List.getLastD_concat] at hs hb hne ⊢
      have hbl : Bytes l.reverse := fun x hx => hb x (by simp [hx])
      have hb0 := hb b (by simp)
      by_cases hbf : b = fill
      · subst hbf
        cases l with
        | nil =>
          rcases hf with rfl | rfl
          · have : trim 0 ([].reverse ++ [0]) = [] := by simp [trim]
            rw [this]; exact ⟨by simp [bytesVal], by simp [Bytes], by simp⟩
          · simp [bytesVal] at hne
        | cons c l =>
          simp only [List.reverse_cons, List.getLastD_concat] at ih hbl ⊢
          have hc := hbl c (by simp)
          by_cases hsc : decide (c ≥ 128) = decide (b ≥ 128)
          · have e1 : trim b (l.reverse ++ [c] ++ [b]) = trim b (l.reverse ++ [c]) := by simp [trim]
            have e2 : bytesVal (l.reverse ++ [c] ++ [b]) = bytesVal (l.reverse ++ [c]) := by
              rw [bytesVal_snoc, bytesVal_snoc, uval_snoc, List.length_append, List.length_singleton,
                pow_succ]
              rcases hf with rfl | rfl
              · have : c < 128 := by simpa using hsc
                simp [this]
              · have : ¬ c < 128 := by simpa using hsc
                simp only [this, if_false]
                push_cast
                norm_num
                ring
            rw [e1, e2]
            rw [List.reverse_cons, e2] at hne
            exact ih hbl hsc hne
          · have hcb : c ≠ b := by rintro rfl; simp at hsc
            have e1 : trim b (l.reverse ++ [c] ++ [b]) = l.reverse ++ [c] ++ [b] := by
              have : (List.dropWhile (fun x => x == b) (l.reverse ++ [c] ++ [b]).reverse).reverse = l.reverse ++ [c] := by
                simp [hcb]
              unfold trim
              simp only [this, List.getLastD_concat]
              rw [if_neg hsc]
            rw [e1]
            refine ⟨rfl, by simpa using hb, ?_⟩
            intro t x y hxy
            have h2 : l.reverse ++ [c, b] = t ++ [x, y] := by simpa using hxy
            obtain ⟨-, h3⟩ := List.append_inj' h2 rfl
            simp only [List.cons.injEq, and_true] at h3
            obtain ⟨rfl, rfl⟩ := h3
            rcases hf with rfl | rfl <;> simp at hsc ⊢ <;> omega
      · have e1 : trim fill (l.reverse ++ [b]) = l.reverse ++ [b] := by
          have : (List.dropWhile (fun x => x == fill) (l.reverse ++ [b]).reverse).reverse = l.reverse ++ [b] := by
            simp [hbf]
          unfold trim
          simp only [this, List.getLastD_concat]
          rw [if_pos hs]
        rw [e1]
        refine ⟨rfl, hb, ?_⟩
        intro t x y hxy
        have h2 : l.reverse ++ [b] = (t ++ [x]) ++ [y] := by simpa using hxy
        obtain ⟨-, h3⟩ := List.append_inj' h2 rfl
        simp only [List.cons.injEq, and_true] at h3
        subst h3
        rcases hf with rfl | rfl <;> simp at hs hbf ⊢ <;> omega
  have := key bs.reverse
  simp only [List.reverse_reverse] at this
  exact this hb hs hne

theorem getLast_small {bs : List Nat} {d : Nat} (hb : Bytes bs) (hv : 2 * uval bs < 256 ^ bs.length) (hd : d < 128) :
    bs.getLastD d < 128 ∧ bytesVal bs = uval bs := by
  rcases List.eq_nil_or_concat bs with rfl | ⟨l, b, rfl⟩
  · exact ⟨hd, by simp [bytesVal, uval]⟩
  · simp only [List.concat_eq_append] at *
    rw [uval_snoc] at hv
    simp only [List.length_append, List.length_singleton, Nat.pow_succ] at hv
    have hp : 0 < 256 ^ l.length := Nat.pow_pos (by omega)
    have : b < 128 := by
      by_contra h
      have : 256 ^ l.length * 128 ≤ 256 ^ l.length * b := Nat.mul_le_mul_left _ (by omega)
      omega
    refine ⟨by simpa using this, ?_⟩
    rw [bytesVal_snoc, uval_snoc, if_pos this]
    push_cast
    rfl

theorem getLast_big {bs : List Nat} (hb : Bytes bs) (hv : 256 ^ bs.length ≤ 2 * uval bs) :
    128 ≤ bs.getLastD 255 ∧ bytesVal bs = (uval bs : Int) - 256 ^ bs.length := by
  rcases List.eq_nil_or_concat bs with rfl | ⟨l, b, rfl⟩
  · simp [uval] at hv
  · simp only [List.concat_eq_append] at *
    have hl := uval_lt (bs := l) (fun x hx => hb x (by simp [hx]))
    rw [uval_snoc] at hv
    simp only [List.length_append, List.length_singleton, Nat.pow_succ] at hv
    have : 128 ≤ b := by
      by_contra h
      have : 256 ^ l.length * b ≤ 256 ^ l.length * 127 := Nat.mul_le_mul_left _ (by omega)
      omega
    refine ⟨by simpa using this, ?_⟩
    rw [bytesVal_snoc, uval_snoc, if_neg (by omega)]
    simp only [List.length_append, List.length_singleton, Nat.pow_succ]
    push_cast
    ring

/-- `scan_large_integer` makes the number that the digits write, in the shortest form. -/
theorem largeBytes_spec {base ds} (neg : Bool) (hb : 1 ≤ base) (hb' : base ≤ 36)
    (hd : ∀ d ∈ ds, d < base) (h1 : 1 < digits base 0 ds) :
    bytesVal (largeBytes neg base ds) =
      (if neg then -(digits base 0 ds : Int) else digits base 0 ds) ∧
    Normal (largeBytes neg base ds) := by
  obtain ⟨hv, hl, hbs, hlt⟩ := magBytes_spec hb hb' hd
  have h2 : 2 * digits base 0 ds < 256 ^ ds.length := by
    cases ds with
    | nil => simp [digits] at h1
    | cons d ds =>
      have h3 : 2 ^ (ds.length + 1) * 128 ^ (ds.length + 1) = 256 ^ (ds.length + 1) := by
        rw [← Nat.mul_pow]
      have h4 : 2 * 128 ^ (ds.length + 1) ≤ 2 ^ (ds.length + 1) * 128 ^ (ds.length + 1) :=
        Nat.mul_le_mul_right _ (by
          rw [Nat.pow_succ]
          have := Nat.one_le_two_pow (n := ds.length)
          omega)
      simp only [List.length_cons] at *
      omega
  unfold largeBytes
  cases neg with
  | false =>
    obtain ⟨g1, g2⟩ := getLast_small (d := 0) hbs (by rw [hv, hl]; exact h2) (by omega)
    have := trim_spec 0 (.inl rfl) _ hbs (by simpa using g1) (by rw [g2]; omega)
    simp only [Bool.false_eq_true, if_false]
    rw [this.1, g2, hv]
    exact ⟨rfl, this.2⟩
  | true =>
    obtain ⟨t1, t2, t3⟩ := twos_spec hbs (by omega)
    rw [hl, hv] at t1
    rw [hl] at t2
    obtain ⟨g1, g2⟩ := getLast_big t3 (by rw [t2]; omega)
    rw [t2] at g2
    have e : bytesVal (twos (magBytes base ds)) = -(digits base 0 ds : Int) := by
      rw [g2]
      have : ((256 ^ ds.length : Nat) : Int) = (256 : Int) ^ ds.length := by push_cast; rfl
      rw [← this, ← t1]
      push_cast
      omega
    have := trim_spec 255 (.inr rfl) _ t3 (by simpa using g1) (by rw [e]; omega)
    simp only [if_true]
    rw [this.1, e]
    exact ⟨rfl, this.2⟩

/-- Negating a literal: `_gst_negate_yylval` on the bytes of a positive number other
than one makes the bytes of the opposite number. -/
theorem negateLarge_spec {bs} (hb : Bytes bs) (hp : 1 < bytesVal bs) :
    ∃ bs', negateLarge bs = some bs' ∧ bytesVal bs' = -bytesVal bs ∧ Normal bs' := by
  have hlast : bs.getLastD 0 < 128 := by
    rcases List.eq_nil_or_concat bs with rfl | ⟨l, b, rfl⟩
    · simp
    · simp only [List.concat_eq_append, List.getLastD_concat] at *
      by_contra h
      have hl := uval_lt (bs := l) (fun x hx => hb x (by simp [hx]))
      rw [bytesVal_snoc, if_neg (by omega)] at hp
      have hb0 := hb b (by simp)
      have h1 : (256 : Int) ^ l.length * ((b : Int) - 256) ≤ (256 : Int) ^ l.length * (-1) :=
        mul_le_mul_of_nonneg_left (by omega) (by positivity)
      have h2 : (uval l : Int) < (256 : Int) ^ l.length := by exact_mod_cast hl
      omega
  have hu : bytesVal bs = uval bs ∧ 2 * uval bs < 256 ^ bs.length := by
    rcases List.eq_nil_or_concat bs with rfl | ⟨l, b, rfl⟩
    · simp [bytesVal] at hp
    · simp only [List.concat_eq_append, List.getLastD_concat] at *
      have hl := uval_lt (bs := l) (fun x hx => hb x (by simp [hx]))
      rw [bytesVal_snoc, uval_snoc, if_pos hlast]
      refine ⟨by push_cast; rfl, ?_⟩
      simp only [List.length_append, List.length_singleton, Nat.pow_succ]
      have : 256 ^ l.length * b ≤ 256 ^ l.length * 127 := Nat.mul_le_mul_left _ (by omega)
      omega
  obtain ⟨hu, hv⟩ := hu
  rw [hu] at hp ⊢
  obtain ⟨t1, t2, t3⟩ := twos_spec hb (by omega)
  obtain ⟨g1, g2⟩ := getLast_big t3 (by rw [t2]; omega)
  rw [t2] at g2
  have e : bytesVal (twos bs) = -(uval bs : Int) := by
    rw [g2]
    have : ((256 ^ bs.length : Nat) : Int) = (256 : Int) ^ bs.length := by push_cast; rfl
    rw [← this, ← t1]
    push_cast
    omega
  have := trim_spec 255 (.inr rfl) _ t3 (by simpa using g1) (by rw [e]; omega)
  refine ⟨trim 255 (twos bs), ?_, by rw [this.1, e], this.2⟩
  rw [negateLarge, if_neg (by omega)]

end Verif.Lexer
