import Verif.Digest.Code

/-!
# MD5 and SHA-1 as they are defined, and that the functions on blocks are right

RFC 1321 and RFC 3174.
-/

namespace Verif.Digest

/-! ### MD5 -/

namespace MD5

/-- The function of step `i` (RFC 1321, 3.4). -/
def specF (i : Nat) (x y z : W) : W :=
  if i < 16 then (x &&& y) ||| (~~~x &&& z)
  else if i < 32 then (x &&& z) ||| (y &&& ~~~z)
  else if i < 48 then x ^^^ y ^^^ z
  else y ^^^ (x ||| ~~~z)

/-- The word that step `i` uses. -/
def specWord (i : Nat) : Nat :=
  if i < 16 then i else if i < 32 then (1 + 5 * i) % 16 else if i < 48 then (5 + 3 * i) % 16 else 7 * i % 16

/-- By how much step `i` rotates. -/
def specShift (i : Nat) : Nat :=
  (if i < 16 then [7, 12, 17, 22] else if i < 32 then [5, 9, 14, 20] else if i < 48 then [4, 11, 16, 23]
    else [6, 10, 15, 21]).getD (i % 4) 0

/-- Step `i`, with the constants `T`; the names of the four words move on in each step. -/
def specStep (T : Nat → W) (x : Nat → W) (r : R4) (i : Nat) : R4 :=
  ⟨r.d, r.b + (r.a + specF i r.b r.c r.d + x (specWord i) + T i).rotateLeft (specShift i), r.b, r.c⟩

/-- 64 steps, and the words from before are added. -/
def specBlock (T : Nat → W) (r : R4) (l : List Nat) : R4 :=
  let s := (List.range 64).foldl (specStep T (leWord l)) r
  ⟨r.a + s.a, r.b + s.b, r.c + s.c, r.d + s.d⟩

theorem cyclic_eq (w : W) {s : Nat} (h : s < 32) : cyclic w s = w.rotateLeft s := by
  rw [BitVec.rotateLeft_eq_rotateLeftAux_of_lt h]
  rfl

theorem FF_eq (x y z : W) : FF x y z = (x &&& y) ||| (~~~x &&& z) := by
  unfold FF
  ext i hi
  simp only [BitVec.getElem_xor, BitVec.getElem_and, BitVec.getElem_or, BitVec.getElem_not]
  cases x[i] <;> cases y[i] <;> cases z[i] <;> rfl

theorem FG_eq (x y z : W) : FG x y z = (x &&& z) ||| (y &&& ~~~z) := by
  unfold FG FF
  ext i hi
  simp only [BitVec.getElem_xor, BitVec.getElem_and, BitVec.getElem_or, BitVec.getElem_not]
  cases x[i] <;> cases y[i] <;> cases z[i] <;> rfl

/-- The words as step `i` names them: the names of the local variables move on. -/
def names (i : Nat) : Reg × Reg × Reg × Reg :=
  match i % 4 with
  | 0 => (.a, .b, .c, .d)
  | 1 => (.d, .a, .b, .c)
  | 2 => (.c, .d, .a, .b)
  | _ => (.b, .c, .d, .a)

def view (i : Nat) (r : R4) : R4 :=
  ⟨r.get (names i).1, r.get (names i).2.1, r.get (names i).2.2.1, r.get (names i).2.2.2⟩

/-- The table at step `i` says what the definition says. -/
def Fits (T : Nat → W) (i : Nat) (o : Op) : Prop :=
  (o.a, o.b, o.c, o.d) = names i ∧ o.k = specWord i ∧ o.s = specShift i ∧ o.t = T i

theorem specShift_lt (i : Nat) : specShift i < 32 := by
  unfold specShift
  have h : i % 4 = 0 ∨ i % 4 = 1 ∨ i % 4 = 2 ∨ i % 4 = 3 := by omega
  rcases h with h | h | h | h <;> rw [h] <;> split <;> (try split) <;> (try split) <;> decide

theorem run_view {T : Nat → W} {F : W → W → W → W} {x : Nat → W} {r : R4} {i : Nat} {o : Op} (h : Fits T i o)
    (hF : ∀ b c d, F b c d = specF i b c d) : view (i + 1) (o.run F x r) = specStep T x (view i r) i := by
  obtain ⟨oa, ob, oc, od, k, s, t⟩ := o
  obtain ⟨h1, h2, h3, h4⟩ := h
  dsimp only at h1 h2 h3 h4
  subst h2 h3 h4
  unfold Op.run
  dsimp only
  rw [cyclic_eq _ (specShift_lt i), hF]
  have hi : i % 4 = 0 ∨ i % 4 = 1 ∨ i % 4 = 2 ∨ i % 4 = 3 := by omega
  have hadd : ∀ p q u v : W, p + (q + u + v) = p + q + u + v := by
    intro p q u v
    rw [← BitVec.add_assoc, ← BitVec.add_assoc]
  rcases hi with hi | hi | hi | hi
  · have hi' : (i + 1) % 4 = 1 := by omega
    simp only [names, hi, Prod.mk.injEq] at h1
    obtain ⟨rfl, rfl, rfl, rfl⟩ := h1
    simp only [view, names, hi, hi', specStep, R4.get, R4.set, hadd]
    rw [BitVec.add_comm]
  · have hi' : (i + 1) % 4 = 2 := by omega
    simp only [names, hi, Prod.mk.injEq] at h1
    obtain ⟨rfl, rfl, rfl, rfl⟩ := h1
    simp only [view, names, hi, hi', specStep, R4.get, R4.set, hadd]
    rw [BitVec.add_comm]
  · have hi' : (i + 1) % 4 = 3 := by omega
    simp only [names, hi, Prod.mk.injEq] at h1
    obtain ⟨rfl, rfl, rfl, rfl⟩ := h1
    simp only [view, names, hi, hi', specStep, R4.get, R4.set, hadd]
    rw [BitVec.add_comm]
  · have hi' : (i + 1) % 4 = 0 := by omega
    simp only [names, hi, Prod.mk.injEq] at h1
    obtain ⟨rfl, rfl, rfl, rfl⟩ := h1
    simp only [view, names, hi, hi', specStep, R4.get, R4.set, hadd]
    rw [BitVec.add_comm]

theorem rounds_view {T : Nat → W} {F : W → W → W → W} {x : Nat → W} (os : List Op) (r : R4) (i : Nat)
    (h : ∀ (j : Nat) o, os[j]? = some o → Fits T (i + j) o)
    (hF : ∀ j, j < os.length → ∀ b c d, F b c d = specF (i + j) b c d) :
    view (i + os.length) (os.foldl (Op.run F x) r) = (List.range' i os.length).foldl (specStep T x) (view i r) := by
  induction os generalizing r i with
  | nil => rfl
  | cons o os ih =>
    rw [List.foldl_cons, List.length_cons, List.range'_succ, List.foldl_cons]
    have h0 := run_view (i := i) (x := x) (r := r) (h 0 o rfl) (hF 0 (by simp))
    rw [← h0, ← ih (o.run F x r) (i + 1)]
    · congr 1
      omega
    · intro j p hp
      have := h (j + 1) p (by simpa using hp)
      rwa [Nat.add_right_comm, Nat.add_assoc]
    · intro j hj
      have := hF (j + 1) (by rw [List.length_cons]; omega)
      rwa [Nat.add_right_comm, Nat.add_assoc]

/-- All 64 entries of the four tables. -/
def table : List Op := round1 ++ round2 ++ round3 ++ round4

/-- The constants in the tables. -/
def tableT (i : Nat) : W := (table.map Op.t).getD i 0

theorem table_fits : ∀ i, i < 64 → ∀ o, table[i]? = some o → Fits tableT i o := by
  have h : ∀ i < 64, ∃ o, table[i]? = some o ∧ (o.a, o.b, o.c, o.d) = names i ∧ o.k = specWord i ∧
      o.s = specShift i ∧ o.t = tableT i := by
    have : ∀ i < 64, (table[i]?.map fun o =>
        decide ((o.a, o.b, o.c, o.d) = names i ∧ o.k = specWord i ∧ o.s = specShift i ∧ o.t = tableT i)) = some true := by
      decide +kernel
    intro i hi
    have := this i hi
    cases ho : table[i]? with
    | none => rw [ho] at this; cases this
    | some o =>
      rw [ho] at this
      simp only [Option.map_some, Option.some.injEq, decide_eq_true_eq] at this
      exact ⟨o, rfl, this⟩
  intro i hi o ho
  obtain ⟨o', h1, h2⟩ := h i hi
  rw [ho] at h1
  cases h1
  exact h2

/-- `md5_process_block` is the definition, with the constants of the code. -/
theorem block_table (r : R4) (l : List Nat) : block r l = specBlock tableT r l := by
  have part : ∀ (os : List Op) (n : Nat) (F : W → W → W → W) (r : R4), os.length = 16 → n + 16 ≤ 64 →
      (∀ j, j < 16 → os[j]? = table[n + j]?) → (∀ j, j < 16 → ∀ b c d, F b c d = specF (n + j) b c d) →
      view (n + 16) (os.foldl (Op.run F (leWord l)) r) =
        (List.range' n 16).foldl (specStep tableT (leWord l)) (view n r) := by
    intro os n F r hl hn ht hF
    have := rounds_view (T := tableT) (x := leWord l) os r n (by
      intro j o ho
      have hj : j < 16 := by
        have := (List.getElem?_eq_some_iff.mp ho).1
        omega
      exact table_fits (n + j) (by omega) o (by rw [← ht j hj]; exact ho)) (by rw [hl]; exact hF)
    rw [hl] at this
    exact this
  have p1 := part round1 0 FF r rfl (by omega) (by decide +kernel) (by
    intro j hj b c d
    rw [FF_eq]
    unfold specF
    rw [if_pos (by omega)])
  have p2 := part round2 16 FG (round1.foldl (Op.run FF (leWord l)) r) rfl (by omega) (by decide +kernel) (by
    intro j hj b c d
    rw [FG_eq]
    unfold specF
    rw [if_neg (by omega), if_pos (by omega)])
  have p3 := part round3 32 FH (round2.foldl (Op.run FG (leWord l)) (round1.foldl (Op.run FF (leWord l)) r)) rfl
    (by omega) (by decide +kernel) (by
    intro j hj b c d
    unfold specF FH
    rw [if_neg (by omega), if_neg (by omega), if_pos (by omega)])
  have p4 := part round4 48 FI (round3.foldl (Op.run FH (leWord l)) (round2.foldl (Op.run FG (leWord l))
    (round1.foldl (Op.run FF (leWord l)) r))) rfl (by omega) (by decide +kernel) (by
    intro j hj b c d
    unfold specF FI
    rw [if_neg (by omega), if_neg (by omega), if_neg (by omega)])
  have hr : List.range 64 = List.range' 0 16 ++ List.range' 16 16 ++ List.range' 32 16 ++ List.range' 48 16 := by
    decide +kernel
  have v0 : ∀ s : R4, view 0 s = s := fun _ => rfl
  have v64 : ∀ s : R4, view (48 + 16) s = s := fun _ => rfl
  unfold block specBlock
  dsimp only
  rw [hr, List.foldl_append, List.foldl_append, List.foldl_append]
  rw [v64] at p4
  rw [v0] at p1
  rw [← p1, ← p2, ← p3, ← p4]
  simp only [BitVec.add_comm]

end MD5

/-! ### SHA-1 -/

namespace SHA1

/-- The function of step `t` (RFC 3174, 5). -/
def specF (t : Nat) (b c d : W) : W :=
  if t < 20 then (b &&& c) ||| (~~~b &&& d)
  else if t < 40 then b ^^^ c ^^^ d
  else if t < 60 then (b &&& c) ||| (b &&& d) ||| (c &&& d)
  else b ^^^ c ^^^ d

/-- The constant of step `t`. -/
def specK (t : Nat) : W :=
  if t < 20 then 0x5a827999 else if t < 40 then 0x6ed9eba1 else if t < 60 then 0x8f1bbcdc else 0xca62c1d6

/-- The words `W(0)`, …, `W(n - 1)` (RFC 3174, 6.1 a and b), the last one first. -/
def specWords (l : List Nat) : Nat → List W
  | 0 => []
  | n + 1 =>
    let ws := specWords l n
    (if n < 16 then beWord l n
      else (ws.getD 2 0 ^^^ ws.getD 7 0 ^^^ ws.getD 13 0 ^^^ ws.getD 15 0).rotateLeft 1) :: ws

/-- `W(t)`. -/
def specWord (l : List Nat) (t : Nat) : W := (specWords l (t + 1)).headD 0

/-- Step `t` (RFC 3174, 6.1 d). -/
def specStep (w : Nat → W) (r : R5) (t : Nat) : R5 :=
  ⟨r.a.rotateLeft 5 + specF t r.b r.c r.d + r.e + w t + specK t, r.a, r.b.rotateLeft 30, r.c, r.d⟩

/-- 80 steps, and the words from before are added. -/
def specBlock (r : R5) (l : List Nat) : R5 :=
  let s := (List.range 80).foldl (specStep (specWord l)) r
  ⟨r.a + s.a, r.b + s.b, r.c + s.c, r.d + s.d, r.e + s.e⟩

theorem specWords_length (l : List Nat) (n : Nat) : (specWords l n).length = n := by
  induction n with
  | zero => rfl
  | succ n ih => rw [specWords, List.length_cons, ih]

theorem specWords_get (l : List Nat) (n i : Nat) (h : i < n) : (specWords l n).getD i 0 = specWord l (n - 1 - i) := by
  induction n generalizing i with
  | zero => omega
  | succ n ih =>
    cases i with
    | zero =>
      rw [Nat.add_sub_cancel, Nat.sub_zero]
      unfold specWord
      rw [specWords]
      rfl
    | succ i =>
      rw [specWords, List.getD_cons_succ, ih i (by omega)]
      congr 1
      omega

/-- The words satisfy the equations of the definition. -/
theorem specWord_eq (l : List Nat) (t : Nat) : specWord l t = if t < 16 then beWord l t
    else (specWord l (t - 3) ^^^ specWord l (t - 8) ^^^ specWord l (t - 14) ^^^ specWord l (t - 16)).rotateLeft 1 := by
  by_cases h : t < 16
  · rw [if_pos h]
    unfold specWord
    rw [specWords, if_pos h]
    rfl
  · rw [if_neg h]
    have e : specWord l t = ((specWords l t).getD 2 0 ^^^ (specWords l t).getD 7 0 ^^^ (specWords l t).getD 13 0 ^^^
        (specWords l t).getD 15 0).rotateLeft 1 := by
      unfold specWord
      rw [specWords, if_neg h]
      rfl
    rw [e, specWords_get l t 2 (by omega), specWords_get l t 7 (by omega), specWords_get l t 13 (by omega),
      specWords_get l t 15 (by omega)]
    congr 1

theorem rol_eq (w : W) {s : Nat} (h : s < 32) : rol w s = w.rotateLeft s := by
  rw [BitVec.rotateLeft_eq_rotateLeftAux_of_lt h]
  rfl

theorem f1_eq (b c d : W) : Fn.eval .f1 b c d = (b &&& c) ||| (~~~b &&& d) := by
  unfold Fn.eval
  ext i hi
  simp only [BitVec.getElem_xor, BitVec.getElem_and, BitVec.getElem_or, BitVec.getElem_not]
  cases b[i] <;> cases c[i] <;> cases d[i] <;> rfl

theorem f3_eq (b c d : W) : Fn.eval .f3 b c d = (b &&& c) ||| (b &&& d) ||| (c &&& d) := by
  unfold Fn.eval
  ext i hi
  simp only [BitVec.getElem_and, BitVec.getElem_or]
  cases b[i] <;> cases c[i] <;> cases d[i] <;> rfl

/-- The words as step `t` names them. -/
def names (t : Nat) : Reg × Reg × Reg × Reg × Reg :=
  match t % 5 with
  | 0 => (.a, .b, .c, .d, .e)
  | 1 => (.e, .a, .b, .c, .d)
  | 2 => (.d, .e, .a, .b, .c)
  | 3 => (.c, .d, .e, .a, .b)
  | _ => (.b, .c, .d, .e, .a)

def view (t : Nat) (r : R5) : R5 :=
  ⟨r.get (names t).1, r.get (names t).2.1, r.get (names t).2.2.1, r.get (names t).2.2.2.1, r.get (names t).2.2.2.2⟩

/-- The function of the code that goes with step `t`. -/
def fn (t : Nat) : Fn := if t < 20 then .f1 else if t < 40 then .f2 else if t < 60 then .f3 else .f4

theorem fn_eq (t : Nat) (b c d : W) : (fn t).eval b c d = specF t b c d := by
  unfold fn specF
  by_cases h1 : t < 20
  · rw [if_pos h1, if_pos h1, f1_eq]
  · rw [if_neg h1, if_neg h1]
    by_cases h2 : t < 40
    · rw [if_pos h2, if_pos h2]
      rfl
    · rw [if_neg h2, if_neg h2]
      by_cases h3 : t < 60
      · rw [if_pos h3, if_pos h3, f3_eq]
      · rw [if_neg h3, if_neg h3]
        rfl

def Fits (t : Nat) (o : Op) : Prop :=
  (o.a, o.b, o.c, o.d, o.e) = names t ∧ o.f = fn t ∧ o.k = specK t ∧ o.arg = if t < 16 then .x t else .m t

/-- The array holds the last 16 words. -/
def Window (l : List Nat) (t : Nat) (x : List W) : Prop :=
  x.length = 16 ∧ ∀ u, u < 16 ∨ u < t → t ≤ u + 16 → x.getD (u % 16) 0 = specWord l u

theorem arg_window {l : List Nat} {t : Nat} {x : List W} (h : Window l t x) :
    ((if t < 16 then Arg.x t else Arg.m t).eval x).1 = specWord l t ∧
    Window l (t + 1) ((if t < 16 then Arg.x t else Arg.m t).eval x).2 := by
  obtain ⟨h1, h2⟩ := h
  by_cases ht : t < 16
  · rw [if_pos ht]
    unfold Arg.eval
    dsimp only
    refine ⟨?_, h1, ?_⟩
    · have := h2 t (Or.inl ht) (by omega)
      rwa [Nat.mod_eq_of_lt ht] at this
    · intro u hu hu2
      exact h2 u (by omega) (by omega)
  · rw [if_neg ht]
    unfold Arg.eval
    dsimp only
    have e0 : x.getD (t % 16) 0 = specWord l (t - 16) := by
      have := h2 (t - 16) (Or.inr (by omega)) (by omega)
      rwa [show (t - 16) % 16 = t % 16 by omega] at this
    have e : rol (x.getD (t % 16) 0 ^^^ x.getD ((t - 14) % 16) 0 ^^^ x.getD ((t - 8) % 16) 0 ^^^
        x.getD ((t - 3) % 16) 0) 1 = specWord l t := by
      rw [e0, h2 (t - 14) (Or.inr (by omega)) (by omega), h2 (t - 8) (Or.inr (by omega)) (by omega),
        h2 (t - 3) (Or.inr (by omega)) (by omega), rol_eq _ (by omega), specWord_eq l t, if_neg ht]
      congr 1
      rw [BitVec.xor_comm, BitVec.xor_comm _ (specWord l (t - 8)), ← BitVec.xor_assoc,
        BitVec.xor_comm (specWord l (t - 16)), ← BitVec.xor_assoc]
    rw [e]
    refine ⟨rfl, by rw [List.length_set, h1], ?_⟩
    intro u hu hu2
    by_cases hut : u = t
    · subst hut
      rw [List.getD_eq_getElem?_getD, List.getElem?_set_self (by omega)]
      rfl
    · have hne : t % 16 ≠ u % 16 := by omega
      rw [List.getD_eq_getElem?_getD, List.getElem?_set_ne hne, ← List.getD_eq_getElem?_getD]
      exact h2 u (by omega) (by omega)

theorem run_view {l : List Nat} {s : R5 × List W} {t : Nat} {o : Op} (h : Fits t o) (hw : Window l t s.2) :
    view (t + 1) (o.run s).1 = specStep (specWord l) (view t s.1) t ∧ Window l (t + 1) (o.run s).2 := by
  obtain ⟨oa, ob, oc, od, oe, f, k, arg⟩ := o
  obtain ⟨h1, h2, h3, h4⟩ := h
  dsimp only at h1 h2 h3 h4
  subst h2 h3 h4
  obtain ⟨g1, g2⟩ := arg_window hw
  unfold Op.run
  dsimp only
  refine ⟨?_, g2⟩
  rw [g1, fn_eq, rol_eq _ (by omega), rol_eq _ (by omega)]
  obtain ⟨r, x⟩ := s
  dsimp only
  have hadd : ∀ p q u v z : W, p + (q + u + v + z) = q + u + p + z + v := by
    intro p q u v z
    rw [BitVec.add_comm p, BitVec.add_assoc (q + u) v z, BitVec.add_comm v z, BitVec.add_assoc (q + u) _ p,
      BitVec.add_comm _ p, ← BitVec.add_assoc, ← BitVec.add_assoc]
  have ht : t % 5 = 0 ∨ t % 5 = 1 ∨ t % 5 = 2 ∨ t % 5 = 3 ∨ t % 5 = 4 := by omega
  rcases ht with ht | ht | ht | ht | ht
  · have ht' : (t + 1) % 5 = 1 := by omega
    simp only [names, ht, Prod.mk.injEq] at h1
    obtain ⟨rfl, rfl, rfl, rfl, rfl⟩ := h1
    simp only [view, names, ht, ht', specStep, R5.get, R5.set, hadd]
  · have ht' : (t + 1) % 5 = 2 := by omega
    simp only [names, ht, Prod.mk.injEq] at h1
    obtain ⟨rfl, rfl, rfl, rfl, rfl⟩ := h1
    simp only [view, names, ht, ht', specStep, R5.get, R5.set, hadd]
  · have ht' : (t + 1) % 5 = 3 := by omega
    simp only [names, ht, Prod.mk.injEq] at h1
    obtain ⟨rfl, rfl, rfl, rfl, rfl⟩ := h1
    simp only [view, names, ht, ht', specStep, R5.get, R5.set, hadd]
  · have ht' : (t + 1) % 5 = 4 := by omega
    simp only [names, ht, Prod.mk.injEq] at h1
    obtain ⟨rfl, rfl, rfl, rfl, rfl⟩ := h1
    simp only [view, names, ht, ht', specStep, R5.get, R5.set, hadd]
  · have ht' : (t + 1) % 5 = 0 := by omega
    simp only [names, ht, Prod.mk.injEq] at h1
    obtain ⟨rfl, rfl, rfl, rfl, rfl⟩ := h1
    simp only [view, names, ht, ht', specStep, R5.get, R5.set, hadd]

theorem rounds_view {l : List Nat} (os : List Op) (s : R5 × List W) (t : Nat)
    (h : ∀ (j : Nat) o, os[j]? = some o → Fits (t + j) o) (hw : Window l t s.2) :
    view (t + os.length) (os.foldl Op.run s).1 =
      (List.range' t os.length).foldl (specStep (specWord l)) (view t s.1) := by
  induction os generalizing s t with
  | nil => rfl
  | cons o os ih =>
    rw [List.foldl_cons, List.length_cons, List.range'_succ, List.foldl_cons]
    have h0 := run_view (t := t) (l := l) (s := s) (h 0 o rfl) hw
    rw [← h0.1, ← ih (o.run s) (t + 1) ?_ h0.2]
    · congr 1
      omega
    · intro j p hp
      have := h (j + 1) p (by simpa using hp)
      rwa [Nat.add_right_comm, Nat.add_assoc]

theorem rounds_fit : ∀ (j : Nat) o, rounds[j]? = some o → Fits (0 + j) o := by
  have hlen : rounds.length = 80 := by decide +kernel
  have : ∀ i < 80, (rounds[i]?.map fun o => decide ((o.a, o.b, o.c, o.d, o.e) = names i ∧ o.f = fn i ∧
      o.k = specK i ∧ o.arg = if i < 16 then .x i else .m i)) = some true := by decide +kernel
  intro j o ho
  have hj : j < 80 := by
    rw [← hlen]
    exact (List.getElem?_eq_some_iff.mp ho).1
  have := this j hj
  rw [ho] at this
  simp only [Option.map_some, Option.some.injEq, decide_eq_true_eq] at this
  rw [Nat.zero_add]
  exact this

/-- `sha1_process_block` is the definition. -/
theorem block_spec (r : R5) (l : List Nat) : block r l = specBlock r l := by
  have hw : Window l 0 ((List.range 16).map (beWord l)) := by
    refine ⟨rfl, ?_⟩
    intro u hu hu2
    have hu : u < 16 := by omega
    rw [Nat.mod_eq_of_lt hu, specWord_eq, if_pos hu, List.getD_eq_getElem?_getD, List.getElem?_map,
      List.getElem?_range hu]
    rfl
  have h := rounds_view (l := l) rounds (r, (List.range 16).map (beWord l)) 0 rounds_fit hw
  have hlen : rounds.length = 80 := by decide +kernel
  rw [hlen] at h
  have v0 : ∀ s : R5, view 0 s = s := fun _ => rfl
  have v80 : ∀ s : R5, view (0 + 80) s = s := fun _ => rfl
  rw [v80, v0, ← List.range_eq_range'] at h
  unfold block specBlock
  dsimp only
  rw [h]

end SHA1

end Verif.Digest
