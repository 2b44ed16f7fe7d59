import Verif.Ntop.Model
import Mathlib.Tactic.IntervalCases

/-
C233: the text of an IPv6 address is read back as that address, and it is as
short as the rules say.
C234: nothing is written after the end of a buffer.
-/
namespace Verif.Ntop

/-! ### The specification: how such texts are read (RFC 4291, section 2.2) -/

/-- Groups with colons between them; a dotted IPv4 address may be the last. -/
def readGroups : List Tok → Option (List Nat)
  | [.hex w] => some [w]
  | [.v4 a b c d] => some [256 * a + b, 256 * c + d]
  | .hex w :: .colon :: l => (readGroups l).map (w :: ·)
  | _ => none

/-- Groups, or nothing at all. -/
def readSide : List Tok → Option (List Nat)
  | [] => some []
  | l => readGroups l

/-- The text before and after the first two colons that follow each other. -/
def splitTwo : List Tok → Option (List Tok × List Tok)
  | [] => none
  | t :: l =>
    match l with
    | u :: r =>
      if t = .colon ∧ u = .colon then some ([], r)
      else (splitTwo l).map fun p => (t :: p.1, p.2)
    | [] => none

/-- The eight words of an address: two colons stand for one or more zeros. -/
def read (l : List Tok) : Option (List Nat) :=
  match splitTwo l with
  | none => (readGroups l).bind fun ws => if ws.length = 8 then some ws else none
  | some (a, b) =>
    (readSide a).bind fun x => (readSide b).bind fun y =>
      if x.length + y.length ≤ 7 then
        some (x ++ List.replicate (8 - (x.length + y.length)) 0 ++ y)
      else none

/-- A run of zeros. -/
def IsRun (z : List Bool) (b l : Nat) : Prop :=
  b + l ≤ z.length ∧ ∀ i < l, z.getD (b + i) false = true

instance (z : List Bool) (b l : Nat) : Decidable (IsRun z b l) := by
  unfold IsRun; infer_instance

/-! ### The longest run -/

/-- What `bestRun` has to answer: the first of the longest runs, when it is
    longer than one. -/
def BestRun (z : List Bool) : Option (Nat × Nat) → Prop
  | none => ∀ b < 9, ∀ l < 9, IsRun z b l → l < 2
  | some r => 2 ≤ r.2 ∧ IsRun z r.1 r.2 ∧
      ∀ b < 9, ∀ l < 9, IsRun z b l → l ≤ r.2 ∧ (l = r.2 → r.1 ≤ b)

instance (z : List Bool) (r : Option (Nat × Nat)) : Decidable (BestRun z r) := by
  cases r <;> (unfold BestRun; infer_instance)

/-- C233: the run that is written as two colons is the first of the longest ones,
    and a single zero is never written so.  (All the 256 sets of words that are
    zero.) -/
theorem best_run : ∀ z0 z1 z2 z3 z4 z5 z6 z7 : Bool,
    BestRun [z0, z1, z2, z3, z4, z5, z6, z7] (bestRun [z0, z1, z2, z3, z4, z5, z6, z7]) := by
  decide +kernel

/-! ### Reading back -/

set_option maxHeartbeats 1000000 in
private theorem read_run (w0 w1 w2 w3 w4 w5 w6 w7 c0 c1 c2 c3 b l : Nat)
    (h6 : w6 = 256 * c0 + c1) (h7 : w7 = 256 * c2 + c3) (hl : 2 ≤ l) (hbl : b + l ≤ 8)
    (hz : ∀ i < l, [w0, w1, w2, w3, w4, w5, w6, w7].getD (b + i) 1 = 0) :
    read (format (some (b, l)) w5 (c0, c1, c2, c3) [w0, w1, w2, w3, w4, w5, w6, w7] 0
      ++ trailing (some (b, l))) = some [w0, w1, w2, w3, w4, w5, w6, w7] := by
  have hb : b ≤ 6 := by omega
  have hl' : l ≤ 8 := by omega
  interval_cases b <;> interval_cases l <;>
    first
    | omega
    | (have z0 := hz 0 (by omega)
       have z1 := hz 1 (by omega)
       try have z2 := hz 2 (by omega)
       try have z3 := hz 3 (by omega)
       try have z4 := hz 4 (by omega)
       try have z5 := hz 5 (by omega)
       try have z6 := hz 6 (by omega)
       try have z7 := hz 7 (by omega)
       clear hz
       simp at *
       first
       | (simp [format, inside, encapsulated, trailing, read, splitTwo, readGroups, readSide,
           List.replicate, *]; done)
       | (by_cases h5 : w5 = 65535 <;>
          simp [format, inside, encapsulated, trailing, read, splitTwo, readGroups, readSide,
            List.replicate, *] <;> omega))

private theorem read_none (w0 w1 w2 w3 w4 w5 w6 w7 c0 c1 c2 c3 : Nat) :
    read (format none w5 (c0, c1, c2, c3) [w0, w1, w2, w3, w4, w5, w6, w7] 0
      ++ trailing none) = some [w0, w1, w2, w3, w4, w5, w6, w7] := by
  simp [format, inside, encapsulated, trailing, read, splitTwo, readGroups]

private theorem word (a b : Nat) (hb : b < 256) : a <<< 8 ||| b = 256 * a + b := by
  rw [← Nat.shiftLeft_add_eq_or_of_lt (i := 8) (by simpa using hb), Nat.shiftLeft_eq]
  omega

/-- 16 bytes. -/
def IsAddress (src : List Nat) : Prop := src.length = 16 ∧ ∀ b ∈ src, b < 256

/-- The words of an address. -/
def value : List Nat → List Nat
  | a :: b :: l => (256 * a + b) :: value l
  | _ => []

private theorem sixteen (src : List Nat) (h : src.length = 16) :
    ∃ a0 a1 a2 a3 a4 a5 a6 a7 a8 a9 a10 a11 a12 a13 a14 a15,
      src = [a0, a1, a2, a3, a4, a5, a6, a7, a8, a9, a10, a11, a12, a13, a14, a15] := by
  match src, h with
  | [a0, a1, a2, a3, a4, a5, a6, a7, a8, a9, a10, a11, a12, a13, a14, a15], _ =>
    exact ⟨a0, a1, a2, a3, a4, a5, a6, a7, a8, a9, a10, a11, a12, a13, a14, a15, rfl⟩

private theorem words_value (src : List Nat) (h : IsAddress src) : words src = value src := by
  obtain ⟨hl, hb⟩ := h
  obtain ⟨a0, a1, a2, a3, a4, a5, a6, a7, a8, a9, a10, a11, a12, a13, a14, a15, rfl⟩ :=
    sixteen src hl
  simp only [List.forall_mem_cons] at hb
  obtain ⟨_, h1, _, h3, _, h5, _, h7, _, h9, _, h11, _, h13, _, h15, _⟩ := hb
  simp only [words, value, word _ _ h1, word _ _ h3, word _ _ h5, word _ _ h7, word _ _ h9,
    word _ _ h11, word _ _ h13, word _ _ h15]

/-- The text, from the words. -/
private theorem ntop6_cases (src : List Nat) (h : IsAddress src) :
    ∃ w0 w1 w2 w3 w4 w5 w6 w7 c0 c1 c2 c3 best, value src = [w0, w1, w2, w3, w4, w5, w6, w7] ∧
      w6 = 256 * c0 + c1 ∧ w7 = 256 * c2 + c3 ∧
      (∀ w ∈ [w0, w1, w2, w3, w4, w5, w6, w7], w < 65536) ∧
      (c0 < 256 ∧ c1 < 256 ∧ c2 < 256 ∧ c3 < 256) ∧
      ntop6 src = format best w5 (c0, c1, c2, c3) [w0, w1, w2, w3, w4, w5, w6, w7] 0
        ++ trailing best ∧
      BestRun ([w0, w1, w2, w3, w4, w5, w6, w7].map (· == 0)) best := by
  have hv := words_value src h
  obtain ⟨hl, hb⟩ := h
  obtain ⟨a0, a1, a2, a3, a4, a5, a6, a7, a8, a9, a10, a11, a12, a13, a14, a15, rfl⟩ :=
    sixteen src hl
  simp only [List.forall_mem_cons] at hb
  obtain ⟨h0, h1, h2, h3, h4, h5, h6, h7, h8, h9, h10, h11, h12, h13, h14, h15, _⟩ := hb
  refine ⟨256 * a0 + a1, 256 * a2 + a3, 256 * a4 + a5, 256 * a6 + a7, 256 * a8 + a9,
    256 * a10 + a11, 256 * a12 + a13, 256 * a14 + a15, a12, a13, a14, a15, _, rfl, rfl, rfl,
    ?_, ⟨h12, h13, h14, h15⟩, ?_, best_run _ _ _ _ _ _ _ _⟩
  · simp only [List.forall_mem_cons]
    refine ⟨?_, ?_, ?_, ?_, ?_, ?_, ?_, ?_, by simp⟩ <;> omega
  · unfold ntop6
    rw [hv]
    rfl

private theorem run_zero (ws : List Nat) (b l : Nat) (h : IsRun (ws.map (· == 0)) b l) :
    ∀ i < l, ws.getD (b + i) 1 = 0 := by
  intro i hi
  have h1 := h.1
  have h2 := h.2 i hi
  rw [List.length_map] at h1
  have hlt : b + i < ws.length := by omega
  simp [List.getD_eq_getElem?_getD, hlt] at h2 ⊢
  exact h2

/-- C233: the text of any IPv6 address is read back as the same address. -/
theorem round_trip (src : List Nat) (h : IsAddress src) : read (ntop6 src) = some (value src) := by
  obtain ⟨w0, w1, w2, w3, w4, w5, w6, w7, c0, c1, c2, c3, best, hv, h6, h7, _, _, ht, hb⟩ :=
    ntop6_cases src h
  rw [ht, hv]
  cases best with
  | none => exact read_none ..
  | some r =>
    obtain ⟨b, l⟩ := r
    obtain ⟨hl, hr, _⟩ := hb
    exact read_run w0 w1 w2 w3 w4 w5 w6 w7 c0 c1 c2 c3 b l h6 h7 hl (by simpa using hr.1)
      (run_zero _ b l hr)

/-- C233: so different addresses have different texts. -/
theorem different (s t : List Nat) (hs : IsAddress s) (ht : IsAddress t)
    (h : ntop6 s = ntop6 t) : s = t := by
  have e : value s = value t := by
    have h1 := round_trip s hs
    rw [h, round_trip t ht] at h1
    exact (Option.some.inj h1).symm
  obtain ⟨hl, hb⟩ := hs
  obtain ⟨hl', hb'⟩ := ht
  obtain ⟨a0, a1, a2, a3, a4, a5, a6, a7, a8, a9, a10, a11, a12, a13, a14, a15, rfl⟩ :=
    sixteen s hl
  obtain ⟨b0, b1, b2, b3, b4, b5, b6, b7, b8, b9, b10, b11, b12, b13, b14, b15, rfl⟩ :=
    sixteen t hl'
  simp only [List.forall_mem_cons] at hb hb'
  simp only [value, List.cons.injEq, and_true] at e ⊢
  omega

/-- C233: an IPv4 address that is mapped to an IPv6 one is written with dots. -/
theorem mapped (a b c d : Nat) :
    ntop6 [0, 0, 0, 0, 0, 0, 0, 0, 0, 0, 255, 255, a, b, c, d]
      = [.colon, .colon, .hex 0xffff, .colon, .v4 a b c d] := by
  have hr : ∀ x y : Bool,
      bestRun [true, true, true, true, true, false, x, y] = some (0, 5) := by decide
  simp [ntop6, words, hr, format, inside, encapsulated, trailing]

/-- 2001:db8::1, ::ffff:192.0.2.1, 1:0:2::, and an address without zeros. -/
example : ntop6 [0x20, 1, 0xd, 0xb8, 0, 0, 0, 0, 0, 0, 0, 0, 0, 0, 0, 1]
    = [.hex 0x2001, .colon, .hex 0xdb8, .colon, .colon, .hex 1] := by decide
example : ntop6 [0, 0, 0, 0, 0, 0, 0, 0, 0, 0, 0xff, 0xff, 192, 0, 2, 1]
    = [.colon, .colon, .hex 0xffff, .colon, .v4 192 0 2 1] := by decide
example : ntop6 [0, 1, 0, 0, 0, 2, 0, 0, 0, 0, 0, 0, 0, 0, 0, 0]
    = [.hex 1, .colon, .hex 0, .colon, .hex 2, .colon, .colon] := by decide
example : IsAddress [0, 1, 0, 0, 0, 2, 0, 0, 0, 0, 0, 0, 0, 0, 0, 0] :=
  ⟨rfl, by decide⟩

/-! ### C234 -/

private theorem hexLen (w : Nat) (h : w < 65536) : digits 16 w ≤ 4 :=
  (Nat.length_toDigits_le_iff (by omega) (by omega)).2 (by simpa using h)

private theorem decLen (n : Nat) (h : n < 256) : 1 ≤ digits 10 n ∧ digits 10 n ≤ 3 :=
  ⟨Nat.length_toDigits_pos, (Nat.length_toDigits_le_iff (by omega) (by omega)).2 (by omega)⟩

/-- A bound for the text that is written from the index `i` on. -/
private theorem format_bound (best : Option (Nat × Nat)) (w5 : Nat) (c0 c1 c2 c3 : Nat)
    (hc : c0 < 256 ∧ c1 < 256 ∧ c2 < 256 ∧ c3 < 256) : ∀ (ws : List Nat) (i : Nat),
    (∀ w ∈ ws, w < 65536) → i + ws.length = 8 →
    textLength (format best w5 (c0, c1, c2, c3) ws i) + (if i = 0 then 1 else 0) ≤
      5 * ws.length + if i ≤ 6 ∧ encapsulated best w5 = true then 6 else 0 := by
  intro ws
  induction ws with
  | nil =>
    intro i _ hi
    have : i ≠ 0 := by simp at hi; omega
    simp [format, textLength, this]
  | cons w l ih =>
    intro i hw hi
    have hih := ih (i + 1) (fun x hx => hw x (by simp [hx]))
      (by simp only [List.length_cons] at hi; omega)
    have hx := hexLen w (hw w (by simp))
    have d0 := decLen c0 hc.1
    have d1 := decLen c1 hc.2.1
    have d2 := decLen c2 hc.2.2.1
    have d3 := decLen c3 hc.2.2.2
    simp only [format, List.length_cons] at hi ⊢
    have hz : (if i = 0 then 1 else 0) ≤ 1 := by split <;> omega
    have hz' : (if i + 1 = 0 then 1 else 0) = 0 := by simp
    have hc' : textLength (if i ≠ 0 then [Tok.colon] else []) + (if i = 0 then 1 else 0) = 1 := by
      by_cases h0 : i = 0 <;> simp [h0, textLength, Tok.length]
    have hsum : ∀ a b : List Tok, textLength (a ++ b) = textLength a + textLength b := by
      intro a b; simp [textLength]
    have hcons : ∀ (x : Tok) (a : List Tok), textLength (x :: a) = x.length + textLength a := by
      intro x a; simp [textLength]
    have hnil : textLength [] = 0 := rfl
    have hmono : (if i + 1 ≤ 6 ∧ encapsulated best w5 = true then 6 else 0) ≤
        if i ≤ 6 ∧ encapsulated best w5 = true then 6 else 0 := by
      by_cases he : encapsulated best w5 = true
      · by_cases h5 : i + 1 ≤ 6
        · have : i ≤ 6 := by omega
          simp [he, h5, this]
        · simp [h5]
      · simp [he]
    split
    · rw [hsum]
      have : textLength (if best.map Prod.fst = some i then [Tok.colon] else []) ≤ 1 := by
        split <;> simp [textLength, Tok.length]
      omega
    · rw [hsum]
      by_cases h6 : i = 6 ∧ encapsulated best w5 = true
      · rw [if_pos h6]
        obtain ⟨rfl, he⟩ := h6
        have : l.length = 1 := by omega
        have h6 : (if 6 ≤ 6 ∧ encapsulated best w5 = true then 6 else 0) = 6 := by simp [he]
        rw [hcons, hnil, this, h6]
        simp only [Tok.length, v4len]
        omega
      · rw [if_neg h6, hcons]
        simp only [Tok.length]
        omega

/-- C234: the text and its final zero fit in the array in which it is made. -/
theorem tmp_fits (src : List Nat) (h : IsAddress src) :
    textLength (ntop6 src) + 1 ≤ tmpSize := by
  obtain ⟨w0, w1, w2, w3, w4, w5, w6, w7, c0, c1, c2, c3, best, _, _, _, hw, hc, ht, _⟩ :=
    ntop6_cases src h
  have hf := format_bound best w5 c0 c1 c2 c3 hc _ 0 hw rfl
  have hsize : tmpSize = 46 := by decide
  have htr : textLength (trailing best) ≤ 1 ∧
      (encapsulated best w5 = true → textLength (trailing best) = 0) := by
    cases best with
    | none => simp [trailing, textLength]
    | some r =>
      refine ⟨?_, fun he => ?_⟩
      · simp only [trailing]
        split <;> simp [textLength, Tok.length]
      · simp only [encapsulated, Bool.and_eq_true, beq_iff_eq, Bool.or_eq_true] at he
        have : r.1 + r.2 ≠ 8 := by omega
        simp [trailing, this, textLength]
  rw [ht, hsize]
  simp only [textLength, List.map_append, List.sum_append] at hf htr ⊢
  simp only [List.length_cons, List.length_nil, if_true] at hf
  split at hf
  · rename_i he
    have := htr.2 he.2
    omega
  · omega

/-- C234: so do the text of an IPv4 address and its final zero. -/
theorem tmp4_fits (a b c d : Nat) (ha : a < 256) (hb : b < 256) (hc : c < 256) (hd : d < 256) :
    v4len a b c d + 1 ≤ tmpSize4 := by
  have hsize : tmpSize4 = 16 := by decide
  have d0 := decLen a ha
  have d1 := decLen b hb
  have d2 := decLen c hc
  have d3 := decLen d hd
  unfold v4len
  omega

example : v4len 255 255 255 255 + 1 = tmpSize4 := by decide

/-- C234: the text of an IPv6 address is copied only if it fits with its final
    zero. -/
theorem copy6_fits (src : List Nat) (size n : Nat) (h : copy6 src size = .copied n) :
    n ≤ size ∧ n = textLength (ntop6 src) + 1 := by
  unfold copy6 at h
  split at h
  · cases h
  · injection h with h
    omega

/-- C234, in part: the text of an IPv4 address is copied within the buffer if the
    size of the buffer is not just the number of its characters.  Missing: that
    size, see `copy4_fails`. -/
theorem copy4_partial (a b c d size n : Nat) (hs : size ≠ v4len a b c d)
    (h : copy4 a b c d size = .copied n) : n ≤ size := by
  unfold copy4 at h
  split at h
  · cases h
  · injection h with h
    omega

/-- C234 fails: for every IPv4 address there is a size for which one byte is
    written after the end of the buffer; for 127.0.0.1 it is 9. -/
theorem copy4_fails (a b c d : Nat) :
    ∃ size n, copy4 a b c d size = .copied n ∧ size < n := by
  refine ⟨v4len a b c d, v4len a b c d + 1, ?_, by omega⟩
  simp [copy4]

example : copy4 127 0 0 1 9 = .copied 10 ∧ copy4 127 0 0 1 10 = .copied 10 ∧
    copy4 127 0 0 1 8 = .noSpace := by decide

end Verif.Ntop
