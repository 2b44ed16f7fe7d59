import Verif.Save.Words

/-! # Loading what was saved -/

namespace Verif.Save

/-! ## Specification -/

/-- The instance specification of a class whose instances hold elements that are not
objects. -/
def Scalar (s : Nat) : Prop := 32 ≤ s % 64 ∧ s % 64 ≤ 55

/-- The class of `o` is the object `c`, which has the instance specification `s`. -/
def HasClass (h : Heap) (base : Nat) (o c : Obj) (s : Nat) : Prop :=
  ∃ k, o.words[1]? = some (base + 16 * k) ∧ h[k]? = some (some c) ∧ c.words[4]? = some s

/-- A heap of objects as the virtual machine makes them: words of 64 bits, the
size in the first, classes in the table.  Classes are not made of
bytes and have six words or more; their instance specification is a SmallInteger. -/
def Sound (base : Nat) (h : Heap) : Prop :=
  ∀ (i : Nat) (o : Obj), h[i]? = some (some o) →
    (∀ w ∈ o.words, w < 2 ^ 64) ∧ o.flags < 2 ^ 64 ∧ 2 ≤ o.words.length ∧
    o.words[0]? = some (2 * o.words.length + 1) ∧
    ∃ c s, HasClass h base o c s ∧ c.flags % 16 = 0 ∧ 6 ≤ c.words.length ∧ s % 2 = 1 ∧
      (o.flags % 16 = 0 → Scalar s → o.words.length ≤ 2 + s / 2 ^ 13) ∧ (o.flags % 16 ≠ 0 → Scalar s)

/-- The number of instance variables of `o` that are objects. -/
def Pointers (h : Heap) (base : Nat) (o : Obj) (n : Nat) : Prop :=
  ∃ c s, HasClass h base o c s ∧ (Scalar s → n = s / 2 ^ 13) ∧ (¬ Scalar s → n = o.words.length - 2)

/-- The same SmallInteger, or the same place relative to the table. -/
def SameWord (base base' w w' : Nat) : Prop :=
  (w % 2 = 1 → w' = w) ∧ (w % 2 = 0 → w' < 2 ^ 64 ∧ (w' + base) % 2 ^ 64 = (w + base') % 2 ^ 64)

/-- `o'` on the machine `m'` is the object `o` of the machine `m`, of which `n` variables
are objects and the others bytes. -/
structure SameObj (m m' : Machine) (n : Nat) (o o' : Obj) : Prop where
  bits : ∀ i, i < 15 → i ≠ 8 → i ≠ 11 → o'.flags.testBit i = o.flags.testBit i
  old : o'.flags.testBit 8 = true
  fresh : ∀ i, 15 ≤ i → i < 31 → o'.flags.testBit i = false
  length : o'.words.length = o.words.length
  size : o'.words[0]? = o.words[0]?
  cls : ∀ w, o.words[1]? = some w → ∃ w', o'.words[1]? = some w' ∧ SameWord m.base m'.base w w'
  slot : ∀ i w, 2 ≤ i → i < 2 + n → o.words[i]? = some w →
    ∃ w', o'.words[i]? = some w' ∧ SameWord m.base m'.base w w'
  raw : ∀ i w, 2 + n ≤ i → o.words[i]? = some w →
    ∃ w', o'.words[i]? = some w' ∧ toBytes m'.big w' = toBytes m.big w

/-! ## Sweeps over a table -/

/-- The first `i` entries changed by `B`, the others by `A`. -/
def mix (A B : Option Obj → Option Obj) (i : Nat) (h : Heap) : Heap :=
  h.mapIdx fun j e => if j < i then B e else A e

theorem mix_get (A B i) (h : Heap) (j : Nat) : (mix A B i h)[j]? = (h[j]?).map (if j < i then B else A) := by
  unfold mix
  rw [List.getElem?_mapIdx]
  split <;> rfl

theorem mix_set {A B i} {h : Heap} {e} (he : h[i]? = some e) : (mix A B i h).set i (B e) = mix A B (i + 1) h := by
  apply List.ext_getElem?
  intro j
  rw [mix_get, List.getElem?_set]
  have hi : i < h.length := by
    rw [List.getElem?_eq_some_iff] at he; exact he.1
  by_cases e' : i = j
  · subst e'
    rw [if_pos rfl, if_pos (by simpa [mix] using hi), he]
    simp
  · rw [if_neg e', mix_get]
    have : (j < i + 1) = (j < i) := by
      apply propext; omega
    simp only [this]

theorem mix_same {A B i} {h : Heap} (he : ∀ e, h[i]? = some e → A e = B e) : mix A B i h = mix A B (i + 1) h := by
  apply List.ext_getElem?
  intro j
  rw [mix_get, mix_get]
  by_cases e' : j = i
  · subst e'
    rw [if_neg (by omega), if_pos (by omega)]
    cases e : h[j]? with
    | none => rfl
    | some x => simp [he x e]
  · have : (j < i + 1) = (j < i) := by
      apply propext; omega
    simp only [this]

theorem mix_zero (A B) (h : Heap) : mix A B 0 h = h.map A := by
  apply List.ext_getElem?
  intro j
  rw [mix_get]; simp

theorem mix_all (A B) (h : Heap) : mix A B h.length h = h.map B := by
  apply List.ext_getElem?
  intro j
  rw [mix_get]
  by_cases e : j < h.length
  · simp [e]
  · rw [List.getElem?_eq_none (by omega), List.getElem?_eq_none (by rw [List.length_map]; omega)]
    rfl

theorem mix_length (A B i) (h : Heap) : (mix A B i h).length = h.length := by simp [mix]

theorem objAt_index (h : Heap) (base k : Nat) : objAt h base (base + 16 * k) = (h[k]?).join := by
  unfold objAt
  rw [if_pos ⟨by omega, by omega⟩, show (base + 16 * k - base) / 16 = k by omega]

/-- In a heap where the object at `k` has the instance specification of `c`. -/
theorem spec_mix {A B : Option Obj → Option Obj} {h : Heap} {i k base s : Nat} {c a b : Obj}
    (hk : h[k]? = some (some c)) (hA : A (some c) = some a) (hB : B (some c) = some b)
    (ha : a.words[4]? = some s) (hb : b.words[4]? = some s) : spec (mix A B i h) base (base + 16 * k) = some s := by
  unfold spec
  rw [objAt_index, mix_get, hk]
  by_cases e : k < i <;> simp [e, hA, hB, ha, hb]

/-! ## The stages of an object -/

/-- The specification of the class of an object in the heap that was saved. -/
def sp (h : Heap) (base : Nat) (o : Obj) : Nat := (spec h base (o.words.getD 1 0)).getD 0

theorem sp_eq {h base o c s} (hc : HasClass h base o c s) : sp h base o = s := by
  obtain ⟨k, h1, h2, h3⟩ := hc
  unfold sp spec
  rw [List.getD_eq_getElem?_getD, h1]
  simp [objAt_index, h2, h3]

/-- The flags after loading. -/
def newFlags (cow : Bool) (fl : Nat) : Nat := if cow then (savedFlags fl).lor fLoaded else savedFlags fl

/-- After the first pass. -/
def stage1 (wrong cow : Bool) (o : Obj) : Obj :=
  ⟨newFlags cow o.flags, if wrong && isByte o.flags then o.words.take 2 ++ (o.words.drop 2).map invert else o.words⟩

/-- After the second pass. -/
def stage2 (wrong cow : Bool) (s : Nat) (o : Obj) : Obj :=
  ⟨newFlags cow o.flags, if wrong && isByte o.flags then
      o.words.take (2 + fixedFields s) ++ (o.words.drop (2 + fixedFields s)).map invert else o.words⟩

/-- Relocated words. -/
def moved (delta n : Nat) (ws : List Nat) : List Nat :=
  let ws1 := ws.set 1 (absolute delta (ws.getD 1 0))
  ws1.take 2 ++ ((ws1.drop 2).take n).map (reloc delta) ++ (ws1.drop 2).drop n

/-- After the relocation. -/
def stage3 (delta s : Nat) (o : Obj) : Obj := { o with words := moved delta (numOops s o) o.words }

theorem land_mask (fl i : Nat) (h : i < 64) : (savedFlags fl).testBit i =
    ((fl.testBit i && !fRuntime.testBit i) || fOld.testBit i) := by
  have hm : ∀ i, i < 64 → (2 ^ 64 - 1 - fRuntime).testBit i = !fRuntime.testBit i := by decide +kernel
  show ((fl &&& (2 ^ 64 - 1 - fRuntime)) ||| fOld).testBit i = _
  rw [Nat.testBit_or, Nat.testBit_and, hm i h]

theorem savedFlags_mod (fl : Nat) : savedFlags fl % 16 = fl % 16 := by
  apply Nat.eq_of_testBit_eq
  intro i
  rw [show (16 : Nat) = 2 ^ 4 by rfl, Nat.testBit_mod_two_pow, Nat.testBit_mod_two_pow]
  by_cases h : i < 4
  · rw [land_mask fl i (by omega)]
    have : ∀ i, i < 4 → fRuntime.testBit i = false ∧ fOld.testBit i = false := by decide +kernel
    simp [this i h, h]
  · simp [h]

theorem savedFlags_ne (fl : Nat) : savedFlags fl ≠ 0 := by
  intro e
  have := land_mask fl 8 (by omega)
  rw [e] at this
  have h8 : fOld.testBit 8 = true := by decide
  simp [h8] at this

theorem savedFlags_lt {fl : Nat} (h : fl < 2 ^ 64) : savedFlags fl < 2 ^ 64 := by
  show (fl &&& (2 ^ 64 - 1 - fRuntime)) ||| fOld < 2 ^ 64
  exact Nat.or_lt_two_pow (Nat.and_lt_two_pow _ (by decide)) (by decide)

theorem newFlags_bits (cow : Bool) (fl i : Nat) (h : i < 64) (h' : i ≠ 11) :
    (newFlags cow fl).testBit i = (savedFlags fl).testBit i := by
  unfold newFlags
  split
  · show (savedFlags fl ||| fLoaded).testBit i = _
    rw [Nat.testBit_or]
    have : ∀ i, i < 64 → i ≠ 11 → fLoaded.testBit i = false := by decide +kernel
    simp [this i h h']
  · rfl

theorem newFlags_mod (cow : Bool) (fl : Nat) : newFlags cow fl % 16 = fl % 16 := by
  rw [← savedFlags_mod fl]
  apply Nat.eq_of_testBit_eq
  intro i
  rw [show (16 : Nat) = 2 ^ 4 by rfl, Nat.testBit_mod_two_pow, Nat.testBit_mod_two_pow]
  by_cases h : i < 4
  · rw [newFlags_bits cow fl i (by omega) (by omega)]
  · simp [h]

theorem isByte_newFlags (cow fl) : isByte (newFlags cow fl) = isByte fl := by
  unfold isByte; rw [newFlags_mod]

theorem scalar_iff (s : Nat) : isScalar s = true ↔ Scalar s := by
  unfold isScalar Scalar
  simp only [Bool.and_eq_true, beq_iff_eq, decide_eq_true_eq]
  omega

theorem numOops_eq {h base o n} {s} (hp : HasClass h base o c s)
    (h0 : o.words[0]? = some (2 * o.words.length + 1)) (hn : Pointers h base o n) : numOops s o = n := by
  obtain ⟨c', s', h1, h2, h3⟩ := hn
  have e : s' = s := by rw [← sp_eq h1, ← sp_eq hp]
  subst e
  unfold numOops
  have : o.words.headD 0 = 2 * o.words.length + 1 := by
    cases hw : o.words with
    | nil => rw [hw] at h0; simp at h0
    | cons a l => rw [hw] at h0; simp at h0; simpa using h0
  rw [this]
  by_cases hs : Scalar s'
  · rw [if_pos ((scalar_iff _).2 hs), h2 hs]; rfl
  · rw [if_neg (fun e => hs ((scalar_iff _).1 e)), h3 hs]; omega

/-! ## The passes -/

theorem moved_length (delta n ws) : (moved delta n ws).length = ws.length := by
  unfold moved
  simp only [List.length_append, List.length_map, List.length_take, List.length_drop, List.length_set]
  omega

theorem moved_get (delta n : Nat) (ws : List Nat) (i : Nat) : (moved delta n ws)[i]? =
    if i = 1 then (ws[1]?).map (absolute delta)
    else if 2 ≤ i ∧ i < 2 + n then (ws[i]?).map (reloc delta) else ws[i]? := by
  by_cases hlen : ws.length ≤ i
  · rw [List.getElem?_eq_none (by rw [moved_length]; omega)]
    by_cases h1 : i = 1
    · subst h1; simp [List.getElem?_eq_none hlen]
    · simp [h1, List.getElem?_eq_none hlen]
  unfold moved
  simp only []
  generalize e : ws.set 1 (absolute delta (ws.getD 1 0)) = ws1
  have hl : ws1.length = ws.length := by rw [← e]; simp
  have hg : ∀ j, ws1[j]? = if j = 1 then (ws[1]?).map (absolute delta) else ws[j]? := by
    intro j
    rw [← e, List.getElem?_set]
    by_cases hj : j = 1
    · subst hj
      simp only [if_true]
      by_cases hlt : 1 < ws.length
      · simp [hlt, List.getD_eq_getElem?_getD]
      · simp [hlt]
    · rw [if_neg (by omega), if_neg hj]
  by_cases h2 : i < 2
  · rw [List.append_assoc, List.getElem?_append_left (by simp; omega), List.getElem?_take_of_lt h2, hg]
    have : ¬ (2 ≤ i ∧ i < 2 + n) := by omega
    simp [this]
  · rw [List.append_assoc, List.getElem?_append_right (by simp; omega)]
    have ht : (List.take 2 ws1).length = 2 := by simp; omega
    rw [ht, if_neg (by omega)]
    by_cases h3 : i < 2 + n
    · rw [List.getElem?_append_left (by simp; omega), List.getElem?_map, List.getElem?_take_of_lt (by omega),
        List.getElem?_drop, show 2 + (i - 2) = i by omega, hg, if_neg (by omega), if_pos ⟨by omega, h3⟩]
    · rw [List.getElem?_append_right (by simp; omega)]
      simp only [List.length_map, List.length_take, List.length_drop, List.drop_drop, List.getElem?_drop]
      rw [show 2 + n + (i - 2 - min n (ws1.length - 2)) = i by omega, hg, if_neg (by omega), if_neg (by omega)]

theorem absolute_base {base base' k : Nat} (hb : base < 2 ^ 64) (hk : base' + 16 * k < 2 ^ 64) :
    absolute ((base' + (2 ^ 64 - base)) % 2 ^ 64) (base + 16 * k) = base' + 16 * k := by
  unfold absolute
  simp only [Nat.reducePow] at *
  omega

theorem sweep_stage2 {cow : Bool} {h : Heap} {base base' : Nat} (hs : Sound base h) (hb : base < 2 ^ 64)
    (hfit : base' + 16 * h.length < 2 ^ 64) : ∀ n i, i + n = h.length →
    swapBytes base' ((base' + (2 ^ 64 - base)) % 2 ^ 64) n i
      (mix (Option.map (stage1 true cow)) (Option.map fun o => stage2 true cow (sp h base o) o) i h) =
      some (h.map (Option.map fun o => stage2 true cow (sp h base o) o))
  | 0, i, hi => by
    simp only [swapBytes]
    rw [← mix_all, show i = h.length by omega]
  | n + 1, i, hi => by
    have ih := sweep_stage2 (cow := cow) hs hb hfit n (i + 1) (by omega)
    have hlt : i < h.length := by omega
    rw [swapBytes, mix_get, if_neg (by omega)]
    cases ho : h[i] with
    | none =>
      have e : h[i]? = some none := by rw [List.getElem?_eq_getElem hlt, ho]
      rw [e]
      simp only [Option.map_some, Option.map_none, Option.join_some]
      rw [mix_same (by intro e' he'; rw [e] at he'; injection he' with he'; subst he'; rfl), ih]
    | some o =>
      have e : h[i]? = some (some o) := by rw [List.getElem?_eq_getElem hlt, ho]
      obtain ⟨h1, h2, h3, h4, c, s, hc, hcb, hc6, hodd, hsc, hby⟩ := hs i o e
      have hsp : sp h base o = s := sp_eq hc
      obtain ⟨k, hk1, hk2, hk3⟩ := hc
      have hklt : k < h.length := by rw [List.getElem?_eq_some_iff] at hk2; exact hk2.1
      rw [e]
      simp only [Option.map_some, Option.join_some]
      have hbf : isByte (stage1 true cow o).flags = isByte o.flags := isByte_newFlags _ _
      rw [hbf]
      by_cases hbyte : isByte o.flags = true
      · rw [if_pos hbyte]
        have hw1 : (stage1 true cow o).words = o.words.take 2 ++ (o.words.drop 2).map invert := by
          simp [stage1, hbyte]
        have hcls : (stage1 true cow o).words.getD 1 0 = base + 16 * k := by
          rw [List.getD_eq_getElem?_getD, hw1, List.getElem?_append_left (by simp; omega),
            List.getElem?_take_of_lt (by omega), hk1]
          rfl
        have hcn : isByte c.flags = false := by simp [isByte, hcb]
        have hspec : spec (mix (Option.map (stage1 true cow))
            (Option.map fun o => stage2 true cow (sp h base o) o) i h) base'
            (absolute ((base' + (2 ^ 64 - base)) % 2 ^ 64) ((stage1 true cow o).words.getD 1 0)) = some s := by
          rw [hcls, absolute_base hb (by omega)]
          exact spec_mix hk2 rfl rfl (by simp [stage1, hcn, hk3]) (by simp [stage2, hcn, hk3])
        rw [hspec]
        simp only []
        have hnew : (some { (stage1 true cow o) with
            words := (stage1 true cow o).words.take 2 ++
              ((((stage1 true cow o).words.drop 2).take (fixedFields s)).map invert) ++
              ((stage1 true cow o).words.drop 2).drop (fixedFields s) } : Option Obj) =
            Option.map (fun o => stage2 true cow (sp h base o) o) (some o) := by
          have hd : (stage1 true cow o).words.drop 2 = (o.words.drop 2).map invert := by
            rw [hw1, List.drop_append_of_le_length (by simp; omega), List.drop_of_length_le (by simp; omega)]
            rfl
          have ht : (stage1 true cow o).words.take 2 = o.words.take 2 := by
            rw [hw1, List.take_append_of_le_length (by simp; omega), List.take_of_length_le (by simp; omega)]
          rw [hd, ht, ← List.map_take, ← List.map_drop, map_invert_invert]
          · simp only [Option.map_some, hsp, stage2, hbyte, Bool.and_true, if_true]
            rw [List.drop_drop, List.take_add]
            simp [stage1]
          · intro w hw
            exact h1 w (List.mem_of_mem_drop (List.mem_of_mem_take hw))
        rw [hnew, mix_set e, ih]
      · rw [if_neg hbyte, mix_same, ih]
        intro e' he'
        rw [e] at he'
        injection he' with he'
        subst he'
        simp [stage1, stage2, hbyte]

theorem sweep_stage3 {cow wrong : Bool} {h : Heap} {base base' : Nat} (hs : Sound base h) (hb : base < 2 ^ 64)
    (hfit : base' + 16 * h.length < 2 ^ 64) : ∀ n i, i + n = h.length →
    restore base' ((base' + (2 ^ 64 - base)) % 2 ^ 64) n i
      (mix (Option.map fun o => stage2 wrong cow (sp h base o) o)
        (Option.map fun o => stage3 ((base' + (2 ^ 64 - base)) % 2 ^ 64) (sp h base o)
          (stage2 wrong cow (sp h base o) o)) i h) =
      some (h.map (Option.map fun o => stage3 ((base' + (2 ^ 64 - base)) % 2 ^ 64) (sp h base o)
          (stage2 wrong cow (sp h base o) o)))
  | 0, i, hi => by
    simp only [restore]
    rw [← mix_all (Option.map fun o => stage2 wrong cow (sp h base o) o), show i = h.length by omega]
  | n + 1, i, hi => by
    have ih := sweep_stage3 (cow := cow) (wrong := wrong) hs hb hfit n (i + 1) (by omega)
    generalize hdel : (base' + (2 ^ 64 - base)) % 2 ^ 64 = delta at ih ⊢
    have hlt : i < h.length := by omega
    rw [restore, mix_get, if_neg (by omega)]
    cases ho : h[i] with
    | none =>
      have e : h[i]? = some none := by rw [List.getElem?_eq_getElem hlt, ho]
      rw [e]
      simp only [Option.map_some, Option.map_none, Option.join_some]
      rw [mix_same (by intro e' he'; rw [e] at he'; injection he' with he'; subst he'; rfl), ih]
    | some o =>
      have e : h[i]? = some (some o) := by rw [List.getElem?_eq_getElem hlt, ho]
      obtain ⟨h1, h2, h3, h4, c, s, hc, hcb, hc6, hodd, hsc, hby⟩ := hs i o e
      have hsp : sp h base o = s := sp_eq hc
      obtain ⟨k, hk1, hk2, hk3⟩ := hc
      have hklt : k < h.length := by rw [List.getElem?_eq_some_iff] at hk2; exact hk2.1
      rw [e]
      simp only [Option.map_some, Option.join_some]
      rw [hsp]
      generalize hO : stage2 wrong cow s o = O
      have hcls : O.words.getD 1 0 = base + 16 * k := by
        rw [← hO]
        unfold stage2
        simp only []
        split
        · rw [List.getD_eq_getElem?_getD, List.getElem?_append_left (by simp; omega),
            List.getElem?_take_of_lt (by omega), hk1]
          rfl
        · rw [List.getD_eq_getElem?_getD, hk1]; rfl
      have hOlen : O.words.length = o.words.length := by
        rw [← hO]
        unfold stage2
        simp only []
        split
        · simp only [List.length_append, List.length_take, List.length_map, List.length_drop]; omega
        · rfl
      have habs : absolute delta (O.words.getD 1 0) = base' + 16 * k := by
        rw [hcls, ← hdel, absolute_base hb (by omega)]
      have hcn : isByte c.flags = false := by simp [isByte, hcb]
      have hcw : (stage2 wrong cow (sp h base c) c).words = c.words := by simp [stage2, hcn]
      have hspec : spec ((mix (Option.map fun o => stage2 wrong cow (sp h base o) o)
          (Option.map fun o => stage3 delta (sp h base o) (stage2 wrong cow (sp h base o) o)) i h).set i
            (some { O with words := O.words.set 1 (absolute delta (O.words.getD 1 0)) })) base'
          ((O.words.set 1 (absolute delta (O.words.getD 1 0))).getD 1 0) = some s := by
        have hx : (O.words.set 1 (absolute delta (O.words.getD 1 0))).getD 1 0 = base' + 16 * k := by
          rw [List.getD_eq_getElem?_getD, List.getElem?_set_self (by omega), habs]; rfl
        rw [hx]
        unfold spec
        rw [objAt_index, List.getElem?_set]
        by_cases hik : i = k
        · rw [if_pos hik, if_pos (by rw [mix_length]; omega)]
          have hco : c = o := by
            subst hik
            rw [e] at hk2
            injection hk2 with hk2; injection hk2 with hk2
            exact hk2.symm
          subst hco
          have : O.words = c.words := by rw [← hO]; simp [stage2, hcn]
          simp only [Option.join_some, Option.bind_some]
          rw [List.getElem?_set_ne (by omega), this, hk3]
        · rw [if_neg hik, mix_get, hk2]
          by_cases hki : k < i
          · simp only [hki, if_true, Option.map_some, Option.join_some, Option.bind_some, stage3, moved_get]
            rw [if_neg (by omega), hcw, hk3]
            have : reloc delta s = s := by simp [reloc, hodd]
            split <;> simp [this]
          · simp [hki, hcw, hk3]
      rw [hspec]
      simp only []
      have hnum : numOops s { O with words := O.words.set 1 (absolute delta (O.words.getD 1 0)) } = numOops s O := by
        unfold numOops
        have : (O.words.set 1 (absolute delta (O.words.getD 1 0))).headD 0 = O.words.headD 0 := by
          cases O.words <;> rfl
        simp only [this]
      rw [hnum]
      have hnew : (some { O with
          words := (O.words.set 1 (absolute delta (O.words.getD 1 0))).take 2 ++
            ((((O.words.set 1 (absolute delta (O.words.getD 1 0))).drop 2).take (numOops s O)).map (reloc delta)) ++
            ((O.words.set 1 (absolute delta (O.words.getD 1 0))).drop 2).drop (numOops s O) } : Option Obj) =
          Option.map (fun o => stage3 delta (sp h base o) (stage2 wrong cow (sp h base o) o)) (some o) := by
        simp only [Option.map_some, hsp, hO]
        rfl
      rw [hnew, mix_set e, ih]

end Verif.Save
