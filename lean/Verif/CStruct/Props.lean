import Verif.CStruct.Model
import Mathlib.Order.Bounds.Basic
import Mathlib.Data.Nat.Bitwise
import Mathlib.Tactic.Ring
import Mathlib.Tactic.Linarith

/-!
# Layout of C structures and unions (C214 to C216)
-/

namespace Verif.CStruct

/-! ## The rules of C -/

/-- The alignment is a power of two and divides the size. -/
def Good (s : SA) : Prop := (∃ k, s.align = 2 ^ k) ∧ s.align ∣ s.size

/-- The types that can be declared, if the compounds in them can. -/
def Ty.Good : Ty → Prop
  | .scalar _ => True
  | .ptr _ => True
  | .array t _ => t.Good
  | .compound sa => CStruct.Good sa

/-- The first address from `x` on that is a multiple of the alignment. -/
def FirstAligned (x a o : ℕ) : Prop := IsLeast {o | x ≤ o ∧ a ∣ o} o

/-- Each field is at the first aligned address after the one before; the last argument is where the last field ends. -/
inductive Placed : ℕ → List Ty → List ℕ → ℕ → Prop where
  | nil (x) : Placed x [] [] x
  | cons {x t o fs os e} : FirstAligned x t.alignof o → Placed (o + t.sizeof) fs os e → Placed x (t :: fs) (o :: os) e

theorem alignTo_eq (x k : ℕ) : alignTo x (2 ^ k) = (x + 2 ^ k - 1) / 2 ^ k * 2 ^ k := by
  unfold alignTo bitClear
  rw [Nat.and_two_pow_sub_one_eq_mod]
  have := Nat.div_add_mod (x + 2 ^ k - 1) (2 ^ k)
  rw [Nat.mul_comm] at this
  omega

theorem alignTo_first (x : ℕ) {a : ℕ} (h : ∃ k, a = 2 ^ k) : FirstAligned x a (alignTo x a) := by
  obtain ⟨k, rfl⟩ := h
  have hp : 0 < 2 ^ k := Nat.two_pow_pos k
  rw [alignTo_eq]
  generalize 2 ^ k = a at hp ⊢
  refine ⟨⟨?_, ⟨_, Nat.mul_comm ..⟩⟩, ?_⟩
  · have := Nat.div_add_mod (x + a - 1) a
    have h2 := Nat.mod_lt (x + a - 1) hp
    rw [Nat.mul_comm] at this
    omega
  · rintro o ⟨h1, c, rfl⟩
    rw [Nat.mul_comm a c]
    apply Nat.mul_le_mul_right
    rw [Nat.div_le_iff_le_mul_add_pred hp]
    omega

theorem ty_good : ∀ t : Ty, t.Good → (∃ k, t.alignof = 2 ^ k) ∧ t.alignof ∣ t.sizeof
  | .scalar s, _ => by
    cases s <;> first
      | exact ⟨⟨0, rfl⟩, ⟨1, rfl⟩⟩
      | exact ⟨⟨1, rfl⟩, ⟨1, rfl⟩⟩
      | exact ⟨⟨2, rfl⟩, ⟨1, rfl⟩⟩
      | exact ⟨⟨3, rfl⟩, ⟨1, rfl⟩⟩
      | exact ⟨⟨4, rfl⟩, ⟨1, rfl⟩⟩
  | .ptr _, _ => ⟨⟨3, rfl⟩, ⟨1, rfl⟩⟩
  | .array t _, h => ⟨(ty_good t h).1, Dvd.dvd.mul_right (ty_good t h).2 _⟩
  | .compound _, h => h

theorem pow_max {a b : ℕ} (ha : ∃ k, a = 2 ^ k) (hb : ∃ k, b = 2 ^ k) : (∃ k, max a b = 2 ^ k) ∧ a ∣ max a b ∧ b ∣ max a b := by
  obtain ⟨i, rfl⟩ := ha
  obtain ⟨j, rfl⟩ := hb
  rcases Nat.le_total i j with h | h
  · have h1 : (2 : ℕ) ^ i ≤ 2 ^ j := Nat.pow_le_pow_right (by decide) h
    rw [Nat.max_eq_right h1]
    exact ⟨⟨j, rfl⟩, Nat.pow_dvd_pow 2 h, Nat.dvd_refl _⟩
  · have h1 : (2 : ℕ) ^ j ≤ 2 ^ i := Nat.pow_le_pow_right (by decide) h
    rw [Nat.max_eq_left h1]
    exact ⟨⟨i, rfl⟩, Nat.dvd_refl _, Nat.pow_dvd_pow 2 h⟩

theorem declLoop_placed : ∀ (fs : List Ty) (x m : ℕ), (∀ t ∈ fs, t.Good) →
    Placed x fs (declLoop alignTo fs x m).1 (declLoop alignTo fs x m).2.1
  | [], x, _, _ => .nil x
  | t :: fs, _, _, h =>
    .cons (alignTo_first _ (ty_good t (h t (List.mem_cons_self ..))).1)
      (declLoop_placed fs _ _ fun u hu => h u (List.mem_cons_of_mem _ hu))

/-- The alignment that the loop ends with: a power of two, and the least number that all alignments divide. -/
theorem declLoop_align (block : ℕ → ℕ → ℕ) : ∀ (fs : List Ty) (x m : ℕ), (∀ t ∈ fs, t.Good) → (∃ k, m = 2 ^ k) →
    (∃ k, (declLoop block fs x m).2.2 = 2 ^ k) ∧ m ∣ (declLoop block fs x m).2.2 ∧
    (∀ t ∈ fs, t.alignof ∣ (declLoop block fs x m).2.2) ∧
    ((declLoop block fs x m).2.2 = m ∨ ∃ t ∈ fs, (declLoop block fs x m).2.2 = t.alignof)
  | [], _, m, _, hm => ⟨hm, Nat.dvd_refl m, by simp, .inl rfl⟩
  | t :: fs, x, m, h, hm => by
    have ht := (ty_good t (h t (List.mem_cons_self ..))).1
    obtain ⟨p1, p2, p3⟩ := pow_max ht hm
    obtain ⟨i1, i2, i3, i4⟩ := declLoop_align block fs (block x t.alignof + t.sizeof) (max t.alignof m)
      (fun u hu => h u (List.mem_cons_of_mem _ hu)) p1
    have e : (declLoop block (t :: fs) x m).2.2 = (declLoop block fs (block x t.alignof + t.sizeof) (max t.alignof m)).2.2 := rfl
    rw [e]
    refine ⟨i1, p3.trans i2, ?_, ?_⟩
    · intro u hu
      rcases List.mem_cons.1 hu with rfl | hu
      · exact p2.trans i2
      · exact i3 u hu
    · rcases i4 with h4 | ⟨u, hu, h4⟩
      · rcases Nat.le_total t.alignof m with hle | hle
        · rw [Nat.max_eq_right hle] at h4 ⊢; exact .inl h4
        · rw [Nat.max_eq_left hle] at h4 ⊢; exact .inr ⟨t, List.mem_cons_self .., h4⟩
      · exact .inr ⟨u, List.mem_cons_of_mem _ hu, h4⟩

/-- All the alignments divide a number. -/
def Fits (super : SA) (fs : List Ty) (n : ℕ) : Prop := super.align ∣ n ∧ ∀ t ∈ fs, t.alignof ∣ n

theorem fits_iff {super : SA} {fs : List Ty} (block : ℕ → ℕ → ℕ) (x : ℕ) (hs : Good super) (hf : ∀ t ∈ fs, t.Good) (n : ℕ) :
    Fits super fs n ↔ (declLoop block fs x super.align).2.2 ∣ n := by
  obtain ⟨_, h2, h3, h4⟩ := declLoop_align block fs x super.align hf hs.1
  constructor
  · rintro ⟨a, b⟩
    rcases h4 with h | ⟨t, ht, h⟩
    · rw [h]; exact a
    · rw [h]; exact b t ht
  · intro h
    exact ⟨h2.trans h, fun t ht => (h3 t ht).trans h⟩

/-- C214: a structure is laid out as C does: the fields of the superclass come first, each field is at the first aligned address after the one before, and the size is the first one after the last field that all alignments divide. -/
theorem struct_layout (super : SA) (fs : List Ty) (hs : Good super) (hf : ∀ t ∈ fs, t.Good) :
    ∃ e, Placed super.size fs (struct super fs).1 e ∧
      IsLeast {n | e ≤ n ∧ Fits super fs n} (struct super fs).2.size := by
  refine ⟨_, declLoop_placed fs _ _ hf, ?_⟩
  have := alignTo_first (declLoop alignTo fs super.size super.align).2.1 (declLoop_align alignTo fs super.size super.align hf hs.1).1
  constructor
  · exact ⟨this.1.1, (fits_iff alignTo super.size hs hf _).2 this.1.2⟩
  · rintro n ⟨h1, h2⟩
    exact this.2 ⟨h1, (fits_iff alignTo super.size hs hf n).1 h2⟩

/-- C214: the alignment of a structure or union is the largest alignment in it, and divides its size, so that they can be put in arrays and in other ones. -/
theorem good (super : SA) (block : ℕ → ℕ → ℕ) (start : ℕ) (fs : List Ty) (hs : Good super) (hf : ∀ t ∈ fs, t.Good) :
    Good (declaration super block start fs).2 ∧ Fits super fs (declaration super block start fs).2.align ∧
    ((declaration super block start fs).2.align = super.align ∨ ∃ t ∈ fs, (declaration super block start fs).2.align = t.alignof) := by
  obtain ⟨h1, h2, h3, h4⟩ := declLoop_align block fs start super.align hf hs.1
  exact ⟨⟨h1, (alignTo_first _ h1).1.2⟩, ⟨h2, h3⟩, h4⟩

theorem placed_le {x : ℕ} {fs : List Ty} {os : List ℕ} {e : ℕ} (h : Placed x fs os e) : x ≤ e := by
  induction h with
  | nil => exact le_rfl
  | cons ha _ ih => have := ha.1.1; omega

theorem placed_length {x : ℕ} {fs : List Ty} {os : List ℕ} {e : ℕ} (h : Placed x fs os e) : os.length = fs.length := by
  induction h with
  | nil => rfl
  | cons _ _ ih => rw [List.length_cons, List.length_cons, ih]

theorem placed_at {x : ℕ} {fs : List Ty} {os : List ℕ} {e : ℕ} (h : Placed x fs os e) :
    ∀ (i : ℕ) (t : Ty) (o : ℕ), fs[i]? = some t → os[i]? = some o → x ≤ o ∧ t.alignof ∣ o ∧ o + t.sizeof ≤ e := by
  induction h with
  | nil => intro i t o h; simp at h
  | cons ha hp ih =>
    intro i u o' h1 h2
    cases i with
    | zero =>
      simp only [List.getElem?_cons_zero, Option.some.injEq] at h1 h2
      subst h1; subst h2
      exact ⟨ha.1.1, ha.1.2, placed_le hp⟩
    | succ i =>
      rw [List.getElem?_cons_succ] at h1 h2
      obtain ⟨a, b, c⟩ := ih i u o' h1 h2
      have := ha.1.1
      exact ⟨by omega, b, c⟩

theorem placed_disjoint {x : ℕ} {fs : List Ty} {os : List ℕ} {e : ℕ} (h : Placed x fs os e) :
    ∀ (i j : ℕ) (t : Ty) (o o' : ℕ), i < j → fs[i]? = some t → os[i]? = some o → os[j]? = some o' → o + t.sizeof ≤ o' := by
  induction h with
  | nil => intro i j t o o' _ h; simp at h
  | cons ha hp ih =>
    intro i j u o1 o2 hij h1 h2 h3
    cases j with
    | zero => omega
    | succ j =>
      rw [List.getElem?_cons_succ] at h3
      cases i with
      | zero =>
        simp only [List.getElem?_cons_zero, Option.some.injEq] at h1 h2
        subst h1; subst h2
        obtain ⟨hj, -⟩ := List.getElem?_eq_some_iff.1 h3
        rw [placed_length hp] at hj
        exact (placed_at hp j _ o2 (List.getElem?_eq_getElem hj) h3).1
      | succ i =>
        rw [List.getElem?_cons_succ] at h1 h2
        exact ih i j u o1 o2 (by omega) h1 h2 h3

/-- C214: the fields of a structure are aligned, inside of it, after those of its superclass, and do not overlap. -/
theorem struct_fields (super : SA) (fs : List Ty) (hs : Good super) (hf : ∀ t ∈ fs, t.Good) :
    (struct super fs).1.length = fs.length ∧
    (∀ (i : ℕ) (t : Ty) (o : ℕ), fs[i]? = some t → (struct super fs).1[i]? = some o →
      super.size ≤ o ∧ t.alignof ∣ o ∧ o + t.sizeof ≤ (struct super fs).2.size) ∧
    ∀ (i j : ℕ) (t : Ty) (o o' : ℕ), i < j → fs[i]? = some t → (struct super fs).1[i]? = some o → (struct super fs).1[j]? = some o' →
      o + t.sizeof ≤ o' := by
  obtain ⟨e, hp, hl⟩ := struct_layout super fs hs hf
  refine ⟨placed_length hp, fun i t o h1 h2 => ?_, placed_disjoint hp⟩
  obtain ⟨a, b, c⟩ := placed_at hp i t o h1 h2
  exact ⟨a, b, c.trans hl.1.1⟩

theorem empty_good : Good empty := ⟨⟨0, rfl⟩, ⟨0, rfl⟩⟩

/-- `struct { char a; double b; short c[3]; char *d; }`. -/
def sample : List Ty := [.scalar .char, .scalar .double, .array (.scalar .short) 3, .ptr (.scalar .char)]

example : struct empty sample = ([0, 8, 16, 24], ⟨32, 8⟩) := by decide
example : ∀ t ∈ sample, t.Good := by
  intro t ht
  simp only [sample, List.mem_cons, List.not_mem_nil, or_false] at ht
  rcases ht with rfl | rfl | rfl | rfl <;> trivial

/-! ## Unions (C215) -/

theorem union_loop : ∀ (fs : List Ty) (x m : ℕ),
    (declLoop (fun _ _ => 0) fs x m).1 = fs.map (fun _ => 0) ∧
    (declLoop (fun _ _ => 0) fs x m).2.1 = ((fs.getLast?).map Ty.sizeof).getD x
  | [], _, _ => ⟨rfl, rfl⟩
  | t :: fs, x, m => by
    obtain ⟨h1, h2⟩ := union_loop fs (0 + t.sizeof) (max t.alignof m)
    have e1 : (declLoop (fun _ _ => 0) (t :: fs) x m).1 = 0 :: (declLoop (fun _ _ => 0) fs (0 + t.sizeof) (max t.alignof m)).1 := rfl
    have e2 : (declLoop (fun _ _ => 0) (t :: fs) x m).2.1 = (declLoop (fun _ _ => 0) fs (0 + t.sizeof) (max t.alignof m)).2.1 := rfl
    refine ⟨by rw [e1, h1]; rfl, ?_⟩
    rw [e2, h2]
    cases fs with
    | nil => simp
    | cons u fs => rw [List.getLast?_cons_cons]; simp [List.getLast?_cons]

/-- C215: all the fields of a union are at its beginning. -/
theorem union_offsets (super : SA) (fs : List Ty) : (union super fs).1 = fs.map fun _ => 0 := (union_loop fs 0 super.align).1

/-- C215, the part that holds: the size of a union is the first one that holds all its fields and that all alignments divide, when the last field is the largest.
What is missing is said by `union_fails` and `overflow_fails`. -/
theorem union_partial (super : SA) (fs : List Ty) (l : Ty) (hs : Good super) (hf : ∀ t ∈ fs, t.Good)
    (hl : fs.getLast? = some l) (hm : ∀ t ∈ fs, t.sizeof ≤ l.sizeof) :
    IsLeast {n | (∀ t ∈ fs, t.sizeof ≤ n) ∧ Fits super fs n} (union super fs).2.size := by
  have h := alignTo_first (declLoop (fun _ _ => 0) fs 0 super.align).2.1 (declLoop_align (fun _ _ => 0) fs 0 super.align hf hs.1).1
  have e : (declLoop (fun _ _ => 0) fs 0 super.align).2.1 = l.sizeof := by rw [(union_loop fs 0 super.align).2, hl]; rfl
  constructor
  · refine ⟨fun t ht => ?_, (fits_iff _ 0 hs hf _).2 h.1.2⟩
    have := h.1.1
    rw [e] at this
    exact (hm t ht).trans (by rw [← e] at this ⊢; exact this)
  · rintro n ⟨h1, h2⟩
    refine h.2 ⟨?_, (fits_iff _ 0 hs hf n).1 h2⟩
    rw [e]
    exact h1 l (List.mem_of_getLast? hl)

example : union empty [.scalar .char, .scalar .int, .array (.scalar .char) 6] = ([0, 0, 0], ⟨8, 4⟩) := by decide

/-- C215 fails: `union { char a[100]; int b; }` is said to have four bytes, so that `new` allocates no more. -/
theorem union_fails : (union empty [.array (.scalar .char) 100, .scalar .int]).2 = ⟨4, 4⟩ := by decide

/-- C215 fails in general: the size is that of the last field, with padding, so whatever field does not fit in it goes beyond the end. -/
theorem overflow_fails (super : SA) (fs : List Ty) (l t : Ty) (hs : Good super) (hf : ∀ t ∈ fs, t.Good) (hl : fs.getLast? = some l)
    (h : l.sizeof + (union super fs).2.align ≤ t.sizeof) : (union super fs).2.size < t.sizeof := by
  obtain ⟨k, hk⟩ := (declLoop_align (fun _ _ => 0) fs 0 super.align hf hs.1).1
  have e : (declLoop (fun _ _ => 0) fs 0 super.align).2.1 = l.sizeof := by rw [(union_loop fs 0 super.align).2, hl]; rfl
  have ha : (union super fs).2.align = 2 ^ k := hk
  have hz : (union super fs).2.size = alignTo l.sizeof (2 ^ k) := by
    show alignTo (declLoop (fun _ _ => 0) fs 0 super.align).2.1 (declLoop (fun _ _ => 0) fs 0 super.align).2.2 = _
    rw [e, hk]
  rw [hz]
  rw [ha] at h
  have := Nat.sub_le (l.sizeof + 2 ^ k - 1) ((l.sizeof + 2 ^ k - 1) &&& (2 ^ k - 1))
  have hp : 0 < 2 ^ k := Nat.two_pow_pos k
  unfold alignTo bitClear
  omega

example : (Ty.scalar Scalar.int).sizeof + (union empty [.array (.scalar .char) 100, .scalar .int]).2.align ≤ (Ty.array (.scalar .char) 100).sizeof := by decide

/-- C215 fails: the fields of a union do not make room for those that it inherits. -/
theorem inherited_fails : (union (union empty [.array (.scalar .char) 100]).2 [.scalar .int]).2.size = 4 ∧
    (union empty [.array (.scalar .char) 100]).2.size = 100 := by decide

/-! ## Pointers (C216) -/

/-- C216: a pointer that is moved is as far away as it was moved. -/
theorem distance_partial (a : ℤ) (t : Ty) (n m : ℤ) (h : 0 < t.sizeof) : minus (plus a t n) (plus a t m) t = some (n - m) := by
  unfold minus plus
  rw [if_neg (by omega)]
  congr 1
  rw [show a + n * (t.sizeof : ℤ) - (a + m * t.sizeof) = (n - m) * t.sizeof by ring]
  exact Int.mul_ediv_cancel _ (by omega)

example : 0 < (Ty.scalar Scalar.int).sizeof := by decide

/-- C216: moving adds up. -/
theorem plus_plus (a : ℤ) (t : Ty) (n m : ℤ) : plus (plus a t n) t m = plus a t (n + m) ∧ plus a t 0 = a := by
  unfold plus
  exact ⟨by ring, by ring⟩

/-- C216: the elements of an array are aligned if the array is, they are inside of it, and they do not overlap. -/
theorem elements (a : ℤ) (t : Ty) (ht : t.Good) (len : ℕ) (i : ℕ) (hi : i < len) (ha : ((Ty.array t len).alignof : ℤ) ∣ a) :
    (t.alignof : ℤ) ∣ plus a t i ∧ a ≤ plus a t i ∧ plus a t i + t.sizeof ≤ a + (Ty.array t len).sizeof ∧
    ∀ j : ℕ, i < j → plus a t i + t.sizeof ≤ plus a t j := by
  have hd : (t.alignof : ℤ) ∣ (t.sizeof : ℤ) := by exact_mod_cast (ty_good t ht).2
  have step : ∀ j : ℕ, i < j → (i : ℤ) * t.sizeof + t.sizeof ≤ (j : ℤ) * t.sizeof := by
    intro j hj
    have : (i + 1) * t.sizeof ≤ j * t.sizeof := Nat.mul_le_mul_right _ hj
    have h2 : (i : ℤ) * t.sizeof + t.sizeof = ((i + 1) * t.sizeof : ℕ) := by push_cast; ring
    rw [h2]
    exact_mod_cast this
  unfold plus
  refine ⟨Int.dvd_add ha (Dvd.dvd.mul_left hd _), ?_, ?_, ?_⟩
  · have : (0 : ℤ) ≤ (i : ℤ) * t.sizeof := by positivity
    omega
  · have := step len hi
    have e : ((Ty.array t len).sizeof : ℤ) = (len : ℤ) * t.sizeof := by
      show ((t.sizeof * len : ℕ) : ℤ) = _
      push_cast; ring
    rw [e]; omega
  · intro j hj
    have := step j hj
    omega

example : ((Ty.array (.scalar .int) 5).alignof : ℤ) ∣ 4096 := ⟨1024, by decide⟩

/-- C216 fails: pointers to a structure without fields cannot be subtracted. -/
theorem distance_fails (a b : ℤ) : minus a b (.compound (struct empty []).2) = none := by
  unfold minus
  rw [if_pos (by decide)]

end Verif.CStruct
