import Verif.Save.Load
import Mathlib.Tactic.Tauto

/-! # Saved images load -/

namespace Verif.Save

/-! ## What is changed before saving -/

theorem nextKept_mem {k : Known} {h : Heap} {base : Nat} (hs : Sound base h) : ∀ f a, a < 2 ^ 64 →
    nextKept k h base f a < 2 ^ 64
  | 0, a, ha => ha
  | f + 1, a, ha => by
    unfold nextKept
    split
    · cases e : (objAt h base a).bind (·.words[2]?) with
      | none => exact ha
      | some n =>
        simp only []
        apply nextKept_mem hs
        obtain ⟨o, ho, hn⟩ := Option.bind_eq_some_iff.1 e
        unfold objAt at ho
        split at ho
        · have : h[(a - base) / 16]? = some (some o) := by
            cases e : h[(a - base) / 16]? with
            | none => rw [e] at ho; simp at ho
            | some x => rw [e] at ho; simp at ho; rw [ho]
          exact (hs _ _ this).1 n (List.mem_of_getElem? hn)
        · simp at ho
    · exact ha

theorem objAt_mem {h : Heap} {base a o} (ho : objAt h base a = some o) : ∃ i : Nat, h[i]? = some (some o) := by
  unfold objAt at ho
  split at ho
  · refine ⟨(a - base) / 16, ?_⟩
    cases e : h[(a - base) / 16]? with
    | none => rw [e] at ho; simp at ho
    | some x => rw [e] at ho; simp at ho; rw [ho]
  · simp at ho

theorem ends_lt {k : Known} {h : Heap} {base : Nat} (hs : Sound base h) (hn : k.nil < 2 ^ 64) :
    ∀ f a r, a < 2 ^ 64 → r.1 < 2 ^ 64 → r.2 < 2 ^ 64 → (ends k h base f a r).1 < 2 ^ 64 ∧ (ends k h base f a r).2 < 2 ^ 64
  | 0, _, r, _, h1, h2 => ⟨h1, h2⟩
  | f + 1, a, (x, y), ha, h1, h2 => by
    unfold ends
    split
    · exact ⟨h1, h2⟩
    · cases e : objAt h base a with
      | none => exact ⟨h1, h2⟩
      | some p =>
        simp only []
        apply ends_lt hs hn
        · obtain ⟨i, hi⟩ := objAt_mem e
          rw [List.getD_eq_getElem?_getD]
          cases e2 : p.words[2]? with
          | none => exact hn
          | some w => exact (hs i p hi).1 w (List.mem_of_getElem? e2)
        · split
          · exact h1
          · split
            · exact ha
            · exact h1
        · split
          · exact h2
          · exact ha

theorem mem_set_lt {ws : List Nat} {i v w : Nat} (h : ∀ w ∈ ws, w < 2 ^ 64) (hv : v < 2 ^ 64) (hw : w ∈ ws.set i v) :
    w < 2 ^ 64 := by
  rcases List.mem_or_eq_of_mem_set hw with h1 | h1
  · exact h w h1
  · rw [h1]; exact hv

/-- Saving changes neither size nor class, nor the instance specification of a class. -/
theorem fixup_keeps {k : Known} {f : Nat} {h : Heap} {base : Nat} {o : Obj} (hs : Sound base h) {j : Nat}
    (ho : h[j]? = some (some o)) (hn : k.nil ≠ 0) (hn' : k.nil < 2 ^ 64) :
    (fixup k f h base o).length = o.words.length ∧ (∀ w ∈ fixup k f h base o, w < 2 ^ 64) ∧
    (fixup k f h base o)[0]? = o.words[0]? ∧ (fixup k f h base o)[1]? = o.words[1]? ∧
    (6 ≤ o.words.length → (fixup k f h base o)[4]? = o.words[4]?) := by
  obtain ⟨h1, -, h3, h4, -⟩ := hs j o ho
  have hg : ∀ i, o.words.getD i k.nil < 2 ^ 64 := by
    intro i
    rw [List.getD_eq_getElem?_getD]
    cases e2 : o.words[i]? with
    | none => exact hn'
    | some w => exact h1 w (List.mem_of_getElem? e2)
  have hset : ∀ {ws : List Nat} {i v j : Nat}, i ≠ j → (ws.set i v)[j]? = ws[j]? := by
    intro ws i v j hij
    exact List.getElem?_set_ne hij
  unfold fixup
  simp only []
  split
  · refine ⟨by simp, fun w hw => mem_set_lt h1 (by decide) hw, hset (by omega), hset (by omega), fun _ => hset (by omega)⟩
  split
  · refine ⟨by simp, fun w hw => mem_set_lt (fun w hw => mem_set_lt (fun w hw => mem_set_lt h1 hn' hw) hn' hw) hn' hw, ?_, ?_, fun _ => ?_⟩ <;>
      rw [hset (by omega), hset (by omega), hset (by omega)]
  split
  · exact ⟨by simp, fun w hw => mem_set_lt h1 (nextKept_mem hs _ _ (hg 2)) hw, hset (by omega), hset (by omega), fun _ => hset (by omega)⟩
  split
  · have := ends_lt (k := k) hs hn' f _ (k.nil, k.nil) (hg 2) hn' hn'
    refine ⟨by simp, fun w hw => mem_set_lt (fun w hw => mem_set_lt h1 this.1 hw) this.2 hw, ?_, ?_, fun _ => ?_⟩ <;>
      rw [hset (by omega), hset (by omega)]
  split
  · exact ⟨by simp, fun w hw => mem_set_lt h1 hn' hw, hset (by omega), hset (by omega), fun _ => hset (by omega)⟩
  split
  · split
    · rename_i hnil
      have hl : 4 ≤ o.words.length := by
        apply Classical.byContradiction
        intro hlt
        rw [List.getD_eq_getElem?_getD, List.getElem?_eq_none (by omega)] at hnil
        exact hn hnil.symm
      have hsz : o.words.headD 0 / 2 - 1 = o.words.length - 1 := by
        have : o.words.headD 0 = 2 * o.words.length + 1 := by
          cases hw : o.words with
          | nil => rw [hw] at h4; simp at h4
          | cons a l => rw [hw] at h4; simp at h4; simpa using h4
        rw [this]; omega
      rw [hsz]
      exact ⟨by simp, fun w hw => mem_set_lt h1 (by decide) hw, hset (by omega), hset (by omega), fun _ => hset (by omega)⟩
    · exact ⟨rfl, h1, rfl, rfl, fun _ => rfl⟩
  · exact ⟨rfl, h1, rfl, rfl, fun _ => rfl⟩

theorem fixAll_get (k f) (h : Heap) (base i : Nat) : (fixAll k f h base)[i]? =
    (h[i]?).map (Option.map fun o => { o with words := fixup k f h base o }) := by
  simp [fixAll]

theorem sound_fixAll {k : Known} {f : Nat} {h : Heap} {base : Nat} (hs : Sound base h) (hn : k.nil ≠ 0)
    (hn' : k.nil < 2 ^ 64) : Sound base (fixAll k f h base) := by
  intro i o' ho'
  rw [fixAll_get] at ho'
  cases e : h[i]? with
  | none => rw [e] at ho'; simp at ho'
  | some x =>
    cases x with
    | none => rw [e] at ho'; simp at ho'
    | some o =>
      rw [e] at ho'
      simp only [Option.map_some, Option.some.injEq] at ho'
      subst ho'
      obtain ⟨h1, h2, h3, h4, c, s, ⟨kk, hk1, hk2, hk3⟩, hcb, hc6, hodd, hsc, hby⟩ := hs i o e
      obtain ⟨f1, f2, f3, f4, f5⟩ := fixup_keeps (k := k) (f := f) hs e hn hn'
      obtain ⟨g1, g2, g3, g4, g5⟩ := fixup_keeps (k := k) (f := f) hs hk2 hn hn'
      refine ⟨f2, h2, by simpa [f1] using h3, by simp only []; rw [f3, f1, h4],
        { c with words := fixup k f h base c }, s, ⟨kk, by simp only []; rw [f4, hk1], ?_, by simp only []; rw [g5 hc6, hk3]⟩,
        hcb, by simpa [g1] using hc6, hodd, ?_, hby⟩
      · rw [fixAll_get, hk2]; rfl
      · simp only [f1]; exact hsc

/-! ## The file -/

theorem execute_length : execute.length = 64 := by decide +kernel

theorem used_take : ∀ h : Heap, ∃ n, h = h.take (used h) ++ List.replicate n none := by
  intro h
  unfold used
  have : ∀ g : Heap, ∃ n, g = List.replicate n none ++ g.dropWhile (·.isNone) := by
    intro g
    induction g with
    | nil => exact ⟨0, rfl⟩
    | cons e g ih =>
      cases e with
      | none =>
        obtain ⟨n, hn⟩ := ih
        refine ⟨n + 1, ?_⟩
        rw [List.dropWhile_cons_of_pos (by simp), List.replicate_succ, List.cons_append, ← hn]
      | some o => exact ⟨0, by simp⟩
  obtain ⟨n, hn⟩ := this h.reverse
  refine ⟨n, ?_⟩
  generalize h.reverse.dropWhile (·.isNone) = d at hn
  have hr : h = d.reverse ++ List.replicate n none := by
    have := congrArg List.reverse hn
    simpa using this
  rw [hr]
  simp

theorem used_le (h : Heap) : used h ≤ h.length := by
  unfold used
  have := (List.dropWhile_sublist (·.isNone) (l := h.reverse)).length_le
  simpa using this

theorem sound_take {base : Nat} {h : Heap} {n : Nat} (hs : Sound base h)
    (hn : ∃ n' : Nat, h = h.take n ++ List.replicate n' none) : Sound base (h.take n) := by
  obtain ⟨n', hn⟩ := hn
  have key : ∀ (i : Nat) (o : Obj), h[i]? = some (some o) ↔ (h.take n)[i]? = some (some o) := by
    intro i o
    by_cases e : i < (h.take n).length
    · rw [hn, List.getElem?_append_left e, ← hn]
    · rw [hn, List.getElem?_append_right (by omega), ← hn, List.getElem?_eq_none (l := h.take n) (by omega),
        List.getElem?_replicate]
      split <;> simp
  intro i o ho
  obtain ⟨h1, h2, h3, h4, c, s, ⟨k, hk1, hk2, hk3⟩, hr⟩ := hs i o ((key i o).2 ho)
  exact ⟨h1, h2, h3, h4, c, s, ⟨k, hk1, (key _ _).1 hk2, hk3⟩, hr⟩

theorem pairs_flatMap (junk : Nat) : ∀ h : Heap, pairs (h.flatMap (tableEntry junk)) =
    h.map fun e => match e with
      | some o => (o.words.headD 0 / 2, savedFlags o.flags)
      | none => (junk, 0)
  | [] => rfl
  | none :: h => by simp [tableEntry, pairs, pairs_flatMap junk h]
  | some o :: h => by simp [tableEntry, pairs, pairs_flatMap junk h]

theorem loadObjs_spec {b b' cow : Bool} {junk : Nat} (hcow : cow = true → b = b') : ∀ (h : Heap) (r : List Nat),
    (∀ o, some o ∈ h → (∀ w ∈ o.words, w < 2 ^ 64) ∧ 2 ≤ o.words.length ∧
      o.words[0]? = some (2 * o.words.length + 1)) →
    loadObjs b' (decide (b ≠ b')) cow (pairs (h.flatMap (tableEntry junk))) (objBytes b h ++ r) =
      some (h.map (Option.map (stage1 (decide (b ≠ b')) cow)))
  | [], r, _ => by simp [pairs, loadObjs]
  | none :: h, r, hw => by
    have ih := loadObjs_spec (junk := junk) hcow h r fun o ho => hw o (List.mem_cons_of_mem _ ho)
    rw [pairs_flatMap] at ih ⊢
    simp only [List.map_cons, loadObjs, if_true, objBytes, List.flatMap_cons, List.nil_append] at *
    rw [ih]
    rfl
  | some o :: h, r, hw => by
    have ih := loadObjs_spec (junk := junk) hcow h r fun o ho => hw o (List.mem_cons_of_mem _ ho)
    obtain ⟨w1, w2, w3⟩ := hw o List.mem_cons_self
    have hh : o.words.headD 0 = 2 * o.words.length + 1 := by
      cases hw : o.words with
      | nil => rw [hw] at w3; simp at w3
      | cons a l => rw [hw] at w3; simp at w3; simpa using w3
    have hlen : o.words.headD 0 / 2 = o.words.length := by rw [hh]; omega
    have hob : objBytes b (some o :: h) ++ r = dump b o.words ++ (objBytes b h ++ r) := by
      simp [objBytes]
    rw [pairs_flatMap] at ih ⊢
    simp only [List.map_cons, loadObjs]
    rw [if_neg (savedFlags_ne _), hlen, hob, readWords_dump b b' _ _ w1]
    simp only []
    by_cases hc : cow = true
    · rw [if_pos hc, ih]
      have hb := hcow hc
      subst hb
      rw [map_conv]
      simp only [if_true, List.map_cons, Option.map_some, stage1, newFlags, hc, ne_eq, not_true_eq_false, decide_false,
        Bool.false_and, Bool.false_eq_true, if_false]
    · rw [if_neg hc]
      have hws : swapObj (decide (b ≠ b')) (savedFlags o.flags) (o.words.map (conv b b')) =
          (stage1 (decide (b ≠ b')) cow o).words := by
        have hby : isByte (savedFlags o.flags) = isByte o.flags := by
          unfold isByte; rw [savedFlags_mod]
        unfold swapObj stage1
        rw [map_conv, hby]
        by_cases e : b = b'
        · simp [e]
        · simp only [e, ne_eq, not_false_eq_true, decide_true, if_true, if_false, Bool.true_and]
          by_cases hb : isByte o.flags = true
          · rw [if_pos hb, if_pos hb, ← List.map_take, ← List.map_drop, map_invert_invert]
            intro w hw; exact w1 w (List.mem_of_mem_take hw)
          · rw [if_neg hb, if_neg hb, map_invert_invert _ w1]
      rw [hws]
      have hhd : (stage1 (decide (b ≠ b')) cow o).words.head? = some (2 * o.words.length + 1) := by
        unfold stage1
        simp only []
        cases hw : o.words with
        | nil => rw [hw] at w2; simp at w2
        | cons a l =>
          rw [hw] at hh
          simp only [List.headD_cons] at hh
          split
          · rw [List.take_cons (by omega), List.cons_append, List.head?_cons]
            exact congrArg some hh
          · rw [List.head?_cons]
            exact congrArg some hh
      rw [if_neg (by simp only [hhd, ne_eq, not_true_eq_false, not_false_eq_true]), ih]
      simp only [List.map_cons, Option.map_some, stage1, newFlags, hc, Bool.false_eq_true, if_false]

theorem localFlags_wrong (b b' : Bool) : decide (localFlags b % 2 ≠ localFlags b' % 2) = decide (b ≠ b') := by
  cases b <;> cases b' <;> rfl

/-- The header is read back. -/
theorem loadHeader_save {m m' : Machine} {h : Heap} {r : List Nat} (hsz : m.sizes.length = 6)
    (hmd : m.md5.length = 2) (hlt : ∀ w ∈ (headerOf m h).words, w < 2 ^ 64) (hv : m.version ≤ m'.version) :
    loadHeader m' (execute ++ signature ++ [0, localFlags m.big] ++ dump m.big (headerOf m h).words ++ r) =
      .ok (decide (m.big ≠ m'.big), headerOf m h, r) := by
  generalize hfile : execute ++ signature ++ [0, localFlags m.big] ++ dump m.big (headerOf m h).words ++ r = file
  have hpre : (execute ++ signature ++ [0, localFlags m.big]).length = 72 := by
    simp [execute_length, signature]
  have hfile' : file = (execute ++ signature ++ [0, localFlags m.big]) ++ (dump m.big (headerOf m h).words ++ r) := by
    rw [← hfile]; simp [List.append_assoc]
  have h1 : ¬ file.length < 72 := by rw [hfile', List.length_append, hpre]; omega
  have h2 : (file.drop 64).take 6 = signature := by
    have : file = execute ++ (signature ++ ([0, localFlags m.big] ++ (dump m.big (headerOf m h).words ++ r))) := by
      rw [hfile']; simp [List.append_assoc]
    rw [this, List.drop_append_of_le_length (by rw [execute_length]; omega),
      List.drop_of_length_le (by rw [execute_length]; omega), List.nil_append]
    simp [signature]
  have h3 : file.getD 71 0 = localFlags m.big := by
    have : file = (execute ++ signature ++ [0]) ++ (localFlags m.big :: (dump m.big (headerOf m h).words ++ r)) := by
      rw [hfile']; simp [List.append_assoc]
    rw [List.getD_eq_getElem?_getD, this, List.getElem?_append_right (by simp [execute_length, signature])]
    simp [execute_length, signature]
  have h4 : file.drop 72 = dump m.big (headerOf m h).words ++ r := by
    rw [hfile', List.drop_append_of_le_length (by omega), List.drop_of_length_le (by omega), List.nil_append]
  have h5 : (headerOf m h).words.length = 12 := by
    simp [Header.words, headerOf, hsz, hmd]
  unfold loadHeader
  have h6 : localFlags m.big / 2 % 2 = 1 := by cases m.big <;> rfl
  rw [if_neg h1, h2, if_neg (by simp)]
  simp only [h3, h6]
  rw [if_neg (by simp), h4, ← h5, readWords_dump _ _ _ _ hlt]
  simp only [localFlags_wrong, swapIf_conv hlt]
  have hd : (⟨(headerOf m h).words.getD 0 0, (headerOf m h).words.getD 1 0, ((headerOf m h).words.drop 2).take 6,
      (headerOf m h).words.getD 8 0, (headerOf m h).words.getD 9 0, (headerOf m h).words.drop 10⟩ : Header) =
      headerOf m h := by
    have e1 : m.sizes ≠ [] := by intro e; simp [e] at hsz
    obtain ⟨a, b, c, d, e, f, hs⟩ : ∃ a b c d e f, m.sizes = [a, b, c, d, e, f] := by
      match hm : m.sizes, hsz with
      | [a, b, c, d, e, f], _ => exact ⟨a, b, c, d, e, f, rfl⟩
    simp [Header.words, headerOf, hs]
  have hver : (headerOf m h).words.getD 0 0 = m.version := rfl
  rw [hd, if_neg (by omega)]

theorem save_eq (m : Machine) (k : Known) (f junk : Nat) (h : Heap) (hs : Sound m.base h) (hn : k.nil ≠ 0)
    (hn' : k.nil < 2 ^ 64) :
    save m k f junk h = execute ++ signature ++ [0, localFlags m.big] ++ dump m.big (headerOf m h).words ++
      (dump m.big (((fixAll k f h m.base).take (used h)).flatMap (tableEntry junk)) ++
        objBytes m.big ((fixAll k f h m.base).take (used h))) := by
  have h1 : (h.take (used h)).flatMap (tableEntry junk) =
      ((fixAll k f h m.base).take (used h)).flatMap (tableEntry junk) := by
    unfold fixAll
    rw [← List.map_take, List.flatMap_map]
    have : ∀ e ∈ h.take (used h), tableEntry junk e =
        tableEntry junk (e.map fun o => { o with words := fixup k f h m.base o }) := by
      intro e he
      cases e with
      | none => rfl
      | some o =>
        obtain ⟨i, hi⟩ := List.mem_iff_getElem?.1 (List.mem_of_mem_take he)
        have := (fixup_keeps (k := k) (f := f) hs hi hn hn').2.2.1
        simp only [Option.map_some, tableEntry, List.headD_eq_head?_getD, List.head?_eq_getElem?, this]
    generalize h.take (used h) = l at this
    induction l with
    | nil => rfl
    | cons e l ih =>
      rw [List.flatMap_cons, List.flatMap_cons, this e List.mem_cons_self,
        ih fun e he => this e (List.mem_cons_of_mem _ he)]
  have h2 : objBytes m.big (fixAll k f h m.base) = objBytes m.big ((fixAll k f h m.base).take (used h)) := by
    obtain ⟨n, hu⟩ := used_take h
    have : fixAll k f h m.base = (fixAll k f h m.base).take (used h) ++ List.replicate n none := by
      unfold fixAll
      rw [← List.map_take]
      have := congrArg (List.map (Option.map fun o => ({ o with words := fixup k f h m.base o } : Obj))) hu
      simpa using this
    conv => lhs; rw [this]
    simp [objBytes]
  unfold save
  rw [h1, h2]
  simp only [List.append_assoc]

theorem reloc_same {base base' w : Nat} (hb : base < 2 ^ 64) (hw : w < 2 ^ 64) :
    SameWord base base' w (reloc ((base' + (2 ^ 64 - base)) % 2 ^ 64) w) := by
  unfold SameWord reloc absolute
  simp only [Nat.reducePow] at *
  constructor
  · intro h; rw [if_neg (by omega)]
  · intro h; rw [if_pos h]; omega

theorem same_refl {base w : Nat} (hw : w < 2 ^ 64) : SameWord base base w w := ⟨fun _ => rfl, fun _ => ⟨hw, rfl⟩⟩

theorem stage_bits (cow : Bool) (fl : Nat) : (∀ i, i < 15 → i ≠ 8 → i ≠ 11 → (newFlags cow fl).testBit i = fl.testBit i) ∧
    (newFlags cow fl).testBit 8 = true ∧ (∀ i, 15 ≤ i → i < 31 → (newFlags cow fl).testBit i = false) := by
  have t1 : ∀ i, i < 15 → i ≠ 8 → fRuntime.testBit i = false ∧ fOld.testBit i = false := by decide +kernel
  have t2 : ∀ i, i < 31 → 15 ≤ i → fRuntime.testBit i = true ∧ fOld.testBit i = false := by decide +kernel
  have t3 : fOld.testBit 8 = true := by decide
  refine ⟨fun i h1 h2 h3 => ?_, ?_, fun i h1 h2 => ?_⟩
  · rw [newFlags_bits _ _ _ (by omega) h3, land_mask _ _ (by omega)]; simp [t1 i h1 h2]
  · rw [newFlags_bits _ _ _ (by omega) (by omega), land_mask _ _ (by omega)]; simp [t3]
  · rw [newFlags_bits _ _ _ (by omega) (by omega), land_mask _ _ (by omega)]; simp [t2 i h2 h1]

theorem stage2_get {wrong cow : Bool} {s : Nat} {o : Obj} {i w : Nat} (hw : o.words[i]? = some w) :
    (stage2 wrong cow s o).words[i]? =
      some (if (wrong && isByte o.flags) = true ∧ 2 + fixedFields s ≤ i then invert w else w) := by
  have hlt : i < o.words.length := by rw [List.getElem?_eq_some_iff] at hw; exact hw.1
  unfold stage2
  simp only []
  by_cases hb : (wrong && isByte o.flags) = true
  · rw [if_pos hb]
    by_cases hi : 2 + fixedFields s ≤ i
    · rw [List.getElem?_append_right (by simp; omega), if_pos ⟨hb, hi⟩, List.getElem?_map, List.getElem?_drop,
        List.length_take, show 2 + fixedFields s + (i - min (2 + fixedFields s) o.words.length) = i by omega, hw]
      rfl
    · rw [List.getElem?_append_left (by simp; omega), List.getElem?_take_of_lt (by omega), hw, if_neg (by tauto)]
  · rw [if_neg hb, hw, if_neg (by tauto)]

theorem stage2_length (wrong cow : Bool) (s : Nat) (o : Obj) : (stage2 wrong cow s o).words.length = o.words.length := by
  unfold stage2
  simp only []
  split
  · simp only [List.length_append, List.length_take, List.length_map, List.length_drop]; omega
  · rfl

/-- Objects survive saving and loading: on a machine of any byte order, wherever the table is
now, every object that was in the table is loaded with the same flags, the same size, the
same class, the same instance variables and the same bytes; what else is
in the table is free.  `_partial`: it must not happen that the byte order differs, the file is mapped into
memory and the table is at its old address (`wrong_order_crash`).  What happens
to elements larger than a byte is `double_wrong`. -/
theorem load_save_partial {m m' : Machine} {k : Known} {f junk : Nat} {h : Heap} {mmap : Bool}
    (hs : Sound m.base h) (hn : k.nil ≠ 0) (hn' : k.nil < 2 ^ 64) (hj : junk < 2 ^ 64)
    (hsz : m.sizes.length = 6) (hmd : m.md5.length = 2)
    (hlt : ∀ w ∈ m.version :: m.sizes ++ m.md5, w < 2 ^ 64) (hv : m.version ≤ m'.version)
    (hal : m.base % 16 = 0) (hb : m.base < 2 ^ 64) (hlen : h.length < 2 ^ 64) (hfit : m'.base + 16 * h.length < 2 ^ 64)
    (hok : mmap = true → m.base = m'.base → m.big = m'.big) :
    ∃ h', load m' mmap (save m k f junk h) = .ok h' ∧
      (∀ (i : Nat) (o : Obj), (fixAll k f h m.base)[i]? = some (some o) →
        ∃ o' n, h'[i]? = some (some o') ∧ Pointers (fixAll k f h m.base) m.base o n ∧ SameObj m m' n o o') ∧
      (∀ i : Nat, h[i]?.join = none → h'[i]?.join = none) := by
  have hsg := sound_fixAll (f := f) hs hn hn'
  have hu : ∃ n', fixAll k f h m.base = (fixAll k f h m.base).take (used h) ++ List.replicate n' none := by
    obtain ⟨n, hu⟩ := used_take h
    refine ⟨n, ?_⟩
    unfold fixAll
    rw [← List.map_take]
    have := congrArg (List.map (Option.map fun o => ({ o with words := fixup k f h m.base o } : Obj))) hu
    simpa using this
  have hst := sound_take hsg hu
  rw [save_eq m k f junk h hs hn hn']
  generalize hG : fixAll k f h m.base = G at *
  generalize hH : G.take (used h) = H at *
  have hHlen : H.length = used h := by
    rw [← hH, ← hG, List.length_take]
    simp only [fixAll, List.length_map]
    have := used_le h; omega
  have hul := used_le h
  unfold load
  have hhw : ∀ w ∈ (headerOf m h).words, w < 2 ^ 64 := by
    intro w hw
    simp only [Header.words, headerOf, List.mem_append, List.mem_cons, List.not_mem_nil, or_false] at hw
    simp only [List.cons_append, List.mem_cons, List.mem_append] at hlt
    have hc : (h.take (used h)).countP (·.isNone) ≤ h.length := by
      refine Nat.le_trans (List.countP_le_length) ?_
      rw [List.length_take]; omega
    rcases hw with (((rfl | rfl) | hw) | (rfl | rfl)) | hw
    · exact hlt _ (.inl rfl)
    · omega
    · exact hlt _ (.inr (.inl hw))
    · omega
    · exact hb
    · exact hlt _ (.inr (.inr hw))
  rw [loadHeader_save hsz hmd hhw hv]
  simp only []
  have htl : (H.flatMap (tableEntry junk)).length = 2 * (headerOf m h).tableSize := by
    have : ∀ l : Heap, (l.flatMap (tableEntry junk)).length = 2 * l.length := by
      intro l
      induction l with
      | nil => rfl
      | cons e l ih =>
        rw [List.flatMap_cons, List.length_append, ih]
        cases e <;> simp [tableEntry] <;> omega
    rw [this, hHlen]; rfl
  have htw : ∀ w ∈ H.flatMap (tableEntry junk), w < 2 ^ 64 := by
    intro w hw
    obtain ⟨e, he, hw⟩ := List.mem_flatMap.1 hw
    cases e with
    | none =>
      simp only [tableEntry, List.mem_cons, List.not_mem_nil, or_false] at hw
      rcases hw with rfl | rfl
      · exact hj
      · decide
    | some o =>
      obtain ⟨i, hi⟩ := List.mem_iff_getElem?.1 he
      obtain ⟨h1, h2, h3, h4, -⟩ := hst i o hi
      simp only [tableEntry, List.mem_cons, List.not_mem_nil, or_false] at hw
      rcases hw with rfl | rfl
      · have hmem : o.words.headD 0 < 2 ^ 64 := by
          cases hw : o.words with
          | nil => decide
          | cons a l => exact h1 a (by rw [hw]; simp)
        exact Nat.lt_of_le_of_lt (Nat.div_le_self _ _) hmem
      · exact savedFlags_lt h2
  rw [← htl, readWords_dump _ _ _ _ htw]
  simp only [swapIf_conv htw]
  have hot : (headerOf m h).otBase = m.base := rfl
  rw [hot]
  generalize hdel : (m'.base + (2 ^ 64 - m.base)) % 2 ^ 64 = delta
  have hd0 : delta = 0 ↔ m.base = m'.base := by
    rw [← hdel]; simp only [Nat.reducePow] at *; omega
  generalize hcow : (mmap && lnot (decide (m.big ≠ m'.big)) && decide (delta = 0)) = cow
  have hcw : cow = true → m.big = m'.big := by
    intro e
    rw [← hcow] at e
    simp only [Bool.and_eq_true, decide_eq_true_eq] at e
    exact hok e.1.1 (hd0.1 e.2)
  have hlo := loadObjs_spec (junk := junk) (b := m.big) (b' := m'.big) hcw H [] (by
    intro o ho
    obtain ⟨i, hi⟩ := List.mem_iff_getElem?.1 ho
    obtain ⟨h1, h2, h3, h4, -⟩ := hst i o hi
    exact ⟨h1, h3, h4⟩)
  rw [List.append_nil] at hlo
  rw [hlo]
  simp only []
  have hfit' : m'.base + 16 * H.length < 2 ^ 64 := by omega
  have hp2 : (if decide (m.big ≠ m'.big) = true then
      swapBytes m'.base delta (H.map (Option.map (stage1 (decide (m.big ≠ m'.big)) cow))).length 0
        (H.map (Option.map (stage1 (decide (m.big ≠ m'.big)) cow)))
      else some (H.map (Option.map (stage1 (decide (m.big ≠ m'.big)) cow)))) =
      some (H.map (Option.map fun o => stage2 (decide (m.big ≠ m'.big)) cow (sp H m.base o) o)) := by
    by_cases e : m.big = m'.big
    · rw [if_neg (by simp [e])]
      have : (fun o => stage2 (decide (m.big ≠ m'.big)) cow (sp H m.base o) o) = stage1 (decide (m.big ≠ m'.big)) cow := by
        funext o; simp [stage1, stage2, e]
      rw [this]
    · have e' : decide (m.big ≠ m'.big) = true := by simpa using e
      rw [if_pos e', e']
      have := sweep_stage2 (cow := cow) hst hb hfit' H.length 0 (by omega)
      rw [mix_zero, hdel] at this
      rw [List.length_map, this]
  rw [hp2]
  simp only []
  -- The objects in the end.
  have key : ∀ (fin : Obj → Obj) (h' : Heap), h' = H.map (Option.map fin) →
      (∀ (i : Nat) (o : Obj), H[i]? = some (some o) → ∃ n, Pointers G m.base o n ∧ SameObj m m' n o (fin o)) →
      (∀ (i : Nat) (o : Obj), G[i]? = some (some o) →
        ∃ o' n, h'[i]? = some (some o') ∧ Pointers G m.base o n ∧ SameObj m m' n o o') ∧
      (∀ i : Nat, h[i]?.join = none → h'[i]?.join = none) := by
    intro fin h' hh' hfin
    have hGH : ∀ (i : Nat) (o : Obj), G[i]? = some (some o) ↔ H[i]? = some (some o) := by
      intro i o
      obtain ⟨n', hu⟩ := hu
      by_cases e : i < H.length
      · rw [hu, List.getElem?_append_left e]
      · rw [hu, List.getElem?_append_right (by omega), List.getElem?_eq_none (l := H) (by omega),
          List.getElem?_replicate]
        split <;> simp
    constructor
    · intro i o ho
      obtain ⟨n, h1, h2⟩ := hfin i o ((hGH i o).1 ho)
      refine ⟨fin o, n, ?_, h1, h2⟩
      rw [hh', List.getElem?_map, (hGH i o).1 ho]
      rfl
    · intro i hi
      rw [hh', List.getElem?_map]
      cases e : H[i]? with
      | none => rfl
      | some x =>
        cases x with
        | none => rfl
        | some o =>
          exfalso
          have := (hGH i o).2 e
          rw [← hG, fixAll_get] at this
          cases e2 : h[i]? with
          | none => rw [e2] at this; simp at this
          | some y =>
            cases y with
            | none => rw [e2] at this; simp at this
            | some o => rw [e2] at hi; simp at hi
  have hpt : ∀ (i : Nat) (o : Obj), H[i]? = some (some o) → ∃ n, Pointers G m.base o n ∧ numOops (sp H m.base o) o = n ∧
      (isByte o.flags = true → n = fixedFields (sp H m.base o)) ∧
      (isByte o.flags = false → o.words.length ≤ 2 + n) := by
    intro i o ho
    obtain ⟨h1, h2, h3, h4, c, s, hc, hcb, hc6, hodd, hsc, hby⟩ := hst i o ho
    have hsp := sp_eq hc
    have hcG : HasClass G m.base o c s := by
      obtain ⟨kk, a1, a2, a3⟩ := hc
      refine ⟨kk, a1, ?_, a3⟩
      have hkl : kk < H.length := by rw [List.getElem?_eq_some_iff] at a2; exact a2.1
      obtain ⟨n', hu⟩ := hu
      rw [hu, List.getElem?_append_left hkl, a2]
    rw [hsp]
    by_cases hS : Scalar s
    · refine ⟨s / 2 ^ 13, ⟨c, s, hcG, fun _ => rfl, fun x => absurd hS x⟩, ?_, fun _ => rfl, ?_⟩
      · exact numOops_eq hcG h4 ⟨c, s, hcG, fun _ => rfl, fun x => absurd hS x⟩
      · intro hb
        exact hsc (by simpa [isByte] using hb) hS
    · refine ⟨o.words.length - 2, ⟨c, s, hcG, fun x => absurd x hS, fun _ => rfl⟩, ?_, ?_, fun _ => by omega⟩
      · exact numOops_eq hcG h4 ⟨c, s, hcG, fun x => absurd x hS, fun _ => rfl⟩
      · intro hb
        exact absurd (hby (by simpa [isByte] using hb)) hS
  -- The bytes of a word that is not a pointer.
  have hraw : ∀ (i : Nat) (o : Obj) (n j w : Nat), H[i]? = some (some o) → (isByte o.flags = true → n = fixedFields (sp H m.base o)) →
      (isByte o.flags = false → o.words.length ≤ 2 + n) → 2 + n ≤ j → o.words[j]? = some w →
      ∃ w', (stage2 (decide (m.big ≠ m'.big)) cow (sp H m.base o) o).words[j]? = some w' ∧
        toBytes m'.big w' = toBytes m.big w := by
    intro i o n j w ho hn1 hn2 hj' hw
    have hlt' : j < o.words.length := by rw [List.getElem?_eq_some_iff] at hw; exact hw.1
    have hby : isByte o.flags = true := by
      cases e : isByte o.flags with
      | true => rfl
      | false => have := hn2 e; omega
    refine ⟨_, stage2_get hw, ?_⟩
    rw [← hn1 hby]
    by_cases e : m.big = m'.big
    · simp [e]
    · rw [if_pos ⟨by simp [e, hby], hj'⟩, toBytes_invert]
      congr 1
      cases hm : m.big <;> cases hm' : m'.big <;> simp_all
  have hptr : ∀ (i : Nat) (o : Obj) (n j w : Nat), H[i]? = some (some o) → (isByte o.flags = true → n = fixedFields (sp H m.base o)) →
      j < 2 + n → o.words[j]? = some w →
      (stage2 (decide (m.big ≠ m'.big)) cow (sp H m.base o) o).words[j]? = some w := by
    intro i o n j w ho hn1 hj' hw
    rw [stage2_get hw]
    split
    · rename_i hc
      have hby : isByte o.flags = true := by
        have := hc.1
        simp only [Bool.and_eq_true] at this
        exact this.2
      have := hn1 hby
      omega
    · rfl
  by_cases hd : delta = 0
  · rw [if_pos hd]
    refine ⟨_, rfl, ?_⟩
    have hbb := hd0.1 hd
    apply key (fun o => stage2 (decide (m.big ≠ m'.big)) cow (sp H m.base o) o) _ rfl
    intro i o ho
    obtain ⟨n, hn0, hn1, hn2, hn3⟩ := hpt i o ho
    obtain ⟨h1, h2, h3, h4, -⟩ := hst i o ho
    obtain ⟨b1, b2, b3⟩ := stage_bits cow o.flags
    refine ⟨n, hn0, ⟨b1, b2, b3, stage2_length _ _ _ _, ?_, ?_, ?_, ?_⟩⟩
    · rw [h4]
      exact hptr i o n 0 _ ho hn2 (by omega) h4
    · intro w hw
      refine ⟨w, hptr i o n 1 w ho hn2 (by omega) hw, ?_⟩
      rw [hbb]; exact same_refl (h1 w (List.mem_of_getElem? hw))
    · intro j w _ hj' hw
      refine ⟨w, hptr i o n j w ho hn2 hj' hw, ?_⟩
      rw [hbb]; exact same_refl (h1 w (List.mem_of_getElem? hw))
    · intro j w hj' hw
      exact hraw i o n j w ho hn2 hn3 hj' hw
  · rw [if_neg hd]
    have hsw := sweep_stage3 (cow := cow) (wrong := decide (m.big ≠ m'.big)) hst hb hfit' H.length 0 (by omega)
    rw [mix_zero, hdel] at hsw
    rw [List.length_map, hsw]
    refine ⟨_, rfl, ?_⟩
    apply key (fun o => stage3 delta (sp H m.base o) (stage2 (decide (m.big ≠ m'.big)) cow (sp H m.base o) o)) _ rfl
    intro i o ho
    obtain ⟨n, hn0, hn1, hn2, hn3⟩ := hpt i o ho
    obtain ⟨h1, h2, h3, h4, c, s, ⟨kk, hk1, hk2, hk3⟩, hcb, hc6, hodd, -⟩ := hst i o ho
    obtain ⟨b1, b2, b3⟩ := stage_bits cow o.flags
    have hkl : kk < H.length := by rw [List.getElem?_eq_some_iff] at hk2; exact hk2.1
    have hnum : numOops (sp H m.base o) (stage2 (decide (m.big ≠ m'.big)) cow (sp H m.base o) o) = n := by
      rw [← hn1]
      unfold numOops
      have a0 := hptr i o n 0 _ ho hn2 (by omega) h4
      rw [← h4] at a0
      simp only [List.headD_eq_head?_getD, List.head?_eq_getElem?, a0]
    refine ⟨n, hn0, ⟨b1, b2, b3, ?_, ?_, ?_, ?_, ?_⟩⟩
    · simp only [stage3, moved_length, stage2_length]
    · simp only [stage3, moved_get]
      rw [if_neg (by omega), if_neg (by omega), h4]
      exact hptr i o n 0 _ ho hn2 (by omega) h4
    · intro w hw
      have hcw := hptr i o n 1 w ho hn2 (by omega) hw
      refine ⟨absolute delta w, ?_, ?_⟩
      · simp only [stage3, moved_get, if_true, hcw, Option.map_some]
      · have hwe : w = m.base + 16 * kk := by rw [hk1] at hw; injection hw with hw; exact hw.symm
        rw [← hdel, hwe, absolute_base hb (by omega)]
        unfold SameWord
        simp only [Nat.reducePow] at *
        constructor
        · intro hodd'
          omega
        · intro _
          omega
    · intro j w hj2 hj' hw
      refine ⟨reloc delta w, ?_, ?_⟩
      · simp only [stage3, moved_get, hnum]
        rw [if_neg (by omega), if_pos ⟨hj2, hj'⟩, hptr i o n j w ho hn2 hj' hw]
        rfl
      · rw [← hdel]; exact reloc_same hb (h1 w (List.mem_of_getElem? hw))
    · intro j w hj' hw
      obtain ⟨w', hw', hbts⟩ := hraw i o n j w ho hn2 hn3 hj' hw
      refine ⟨w', ?_, hbts⟩
      simp only [stage3, moved_get, hnum]
      rw [if_neg (by omega), if_neg (by omega), hw']

end Verif.Save
