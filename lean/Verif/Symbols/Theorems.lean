import Verif.Symbols.Model

/-! # Symbols with the same text are the same object -/

namespace Verif.Symbols

/-! ## Specification -/

/-- What can happen to the table: a string is interned, or the table is rebuilt with the symbols that are still
alive. -/
inductive Op where
  | intern (s : List Nat)
  | rebuild (keep : List Nat)

def Op.run (signed : Bool) (st : State) : Op → State
  | .intern s => (Symbols.intern signed st s).1
  | .rebuild keep => Symbols.rebuild signed st keep

/-- The symbols in the table. -/
def State.Has (st : State) (id : Nat) : Prop := ∃ i, id ∈ st.table i

/-- A rebuild has each living symbol once. -/
def Op.Fair (st : State) : Op → Prop
  | .intern _ => True
  | .rebuild keep => keep.Nodup ∧ ∀ id ∈ keep, st.Has id

/-- The states that a virtual machine can reach that starts with the given names. -/
inductive Reach (signed : Bool) (names : List (List Nat)) : State → Prop where
  | start : Reach signed names (init signed names)
  | step {op : Op} : Reach signed names st → op.Fair st → Reach signed names (op.run signed st)

/-- The second state comes later, and symbol `id` is alive all the time. -/
inductive Later (signed : Bool) (id : Nat) : State → State → Prop where
  | refl : Later signed id st st
  | intern : Later signed id st st' → Later signed id st ((Op.intern s).run signed st')
  | rebuild : Later signed id st st' → (Op.rebuild keep).Fair st' → id ∈ keep →
      Later signed id st ((Op.rebuild keep).run signed st')

/-- No NUL. -/
def Plain (s : List Nat) : Prop := ∀ b ∈ s, b ≠ 0

/-! ## Comparison -/

/-- What is before the first NUL. -/
def head0 (s : List Nat) : List Nat := s.takeWhile (· ≠ 0)

theorem strncmp_iff : ∀ {n : Nat} {s t : List Nat}, s.length = n → t.length = n →
    (strncmp n s t = true ↔ head0 s = head0 t)
  | 0, [], [], _, _ => by simp [strncmp]
  | n + 1, a :: s, b :: t, h1, h2 => by
    have ih := @strncmp_iff n s t (by simpa using h1) (by simpa using h2)
    unfold strncmp
    by_cases e : a = b
    · subst e
      by_cases z : a = 0
      · simp [z, head0]
      · simp only [ne_eq, not_true, if_false, z, ih, head0]
        simp [z]
    · simp only [ne_eq, e, not_false_eq_true, if_true, Bool.false_eq_true, false_iff]
      intro h
      unfold head0 at h
      rw [List.takeWhile_cons, List.takeWhile_cons] at h
      by_cases za : a = 0
      · by_cases zb : b = 0
        · exact e (za.trans zb.symm)
        · simp [za, zb] at h
      · by_cases zb : b = 0
        · simp [za, zb] at h
        · simp [za, zb] at h; exact e h.1

theorem isSame_iff {s t : List Nat} : isSame s t = true ↔ s.length = t.length ∧ head0 s = head0 t := by
  unfold isSame
  by_cases e : t.length = s.length
  · rw [if_pos e, strncmp_iff rfl e]; simp [e]
  · rw [if_neg e]; simp; intro h; exact absurd h.symm e

theorem isSame_plain {s t : List Nat} (hs : Plain s) (h : isSame s t = true) : t = s := by
  rw [isSame_iff] at h
  obtain ⟨hl, hh⟩ := h
  have e : head0 s = s := by
    unfold head0
    have : ∀ l : List Nat, Plain l → l.takeWhile (· ≠ 0) = l := by
      intro l
      induction l with
      | nil => intro _; rfl
      | cons a l ih =>
        intro hl
        rw [List.takeWhile_cons, if_pos (by simpa using hl a List.mem_cons_self), ih fun b hb => hl b (List.mem_cons_of_mem _ hb)]
    exact this s hs
  rw [e] at hh
  have hp : head0 t <+: t := List.takeWhile_prefix _
  rw [← hh] at hp
  exact (hp.eq_of_length hl).symm

theorem isSame_refl (s : List Nat) : isSame s s = true := by rw [isSame_iff]; exact ⟨rfl, rfl⟩

/-! ## The invariant -/

/-- Symbols are in the bucket of their text; no two in a bucket are alike. -/
structure Inv (signed : Bool) (st : State) : Prop where
  place : ∀ i id, id ∈ st.table i → id < st.syms.length ∧ bucket signed (st.text id) = i
  unlike : ∀ i, (st.table i).Pairwise fun a b => ¬ (isSame (st.text a) (st.text b) = true)

theorem unlike_eq {signed st} (h : Inv signed st) {i a b : Nat} (ha : a ∈ st.table i) (hb : b ∈ st.table i)
    (hs : isSame (st.text a) (st.text b) = true) : a = b := by
  have key : ∀ l : List Nat, l.Pairwise (fun a b => ¬ (isSame (st.text a) (st.text b) = true)) → a ∈ l → b ∈ l → a = b := by
    intro l
    induction l with
    | nil => intro _ h; simp at h
    | cons x l ih =>
      intro hp ha hb
      rw [List.pairwise_cons] at hp
      rw [List.mem_cons] at ha hb
      rcases ha with rfl | ha
      · rcases hb with rfl | hb
        · rfl
        · exact absurd hs (hp.1 b hb)
      · rcases hb with rfl | hb
        · exact absurd (by rw [isSame_iff] at *; exact ⟨hs.1.symm, hs.2.symm⟩) (hp.1 a ha)
        · exact ih hp.2 ha hb
  exact key _ (h.unlike i) ha hb

theorem text_append {syms : List (List Nat)} {table t2} {s : List Nat} {id : Nat} (h : id < syms.length) :
    (State.mk (syms ++ [s]) t2).text id = (State.mk syms table).text id := by
  simp [State.text, List.getD_eq_getElem?_getD, List.getElem?_append_left h]

theorem text_new {syms : List (List Nat)} {t2} {s : List Nat} : (State.mk (syms ++ [s]) t2).text syms.length = s := by
  simp [State.text]

theorem inv_intern {signed st} (h : Inv signed st) (s : List Nat) : Inv signed (intern signed st s).1 := by
  unfold intern
  simp only []
  split
  · exact h
  · rename_i hf
    rw [List.find?_eq_none] at hf
    obtain ⟨syms, table⟩ := st
    refine ⟨?_, ?_⟩
    · intro i id hid
      simp only [addLink] at hid
      simp only [List.length_append, List.length_singleton]
      by_cases e : i = bucket signed s
      · rw [if_pos e, List.mem_cons] at hid
        rcases hid with rfl | hid
        · exact ⟨by omega, by rw [text_new, e]⟩
        · have := h.place i id hid
          exact ⟨by have := this.1; simp only [] at this; omega, by rw [text_append (table := table) this.1]; exact this.2⟩
      · rw [if_neg e] at hid
        have := h.place i id hid
        exact ⟨by have := this.1; simp only [] at this; omega, by rw [text_append (table := table) this.1]; exact this.2⟩
    · intro i
      have hold : (table i).Pairwise fun a b => ¬ (isSame ((State.mk (syms ++ [s]) (addLink table (bucket signed s) syms.length)).text a)
          ((State.mk (syms ++ [s]) (addLink table (bucket signed s) syms.length)).text b) = true) := by
        refine (h.unlike i).imp_of_mem ?_
        intro a b ha hb hab
        rw [text_append (table := table) (h.place i a ha).1, text_append (table := table) (h.place i b hb).1]
        exact hab
      simp only [addLink]
      by_cases e : i = bucket signed s
      · rw [if_pos e]
        refine List.Pairwise.cons ?_ hold
        intro b hb
        have := h.place i b hb
        rw [text_new, text_append (table := table) this.1]
        exact hf b (e ▸ hb)
      · rw [if_neg e]; exact hold

/-- What a fold of links makes. -/
theorem fold_links (f : Nat → Nat) : ∀ (ids : List Nat) (t : Nat → List Nat) (i : Nat),
    (ids.foldl (fun t id => addLink t (f id) id) t) i = (ids.filter fun id => f id == i).reverse ++ t i
  | [], t, i => by simp
  | id :: ids, t, i => by
    rw [List.foldl_cons, fold_links f ids]
    by_cases e : f id = i
    · simp [addLink, e]
    · simp [addLink, e, Ne.symm e]

theorem rebuild_table (signed st) (keep : List Nat) (i : Nat) :
    (rebuild signed st keep).table i = (keep.filter fun id => bucket signed (st.text id) == i).reverse := by
  unfold rebuild
  simp only []
  have := fold_links (fun id => bucket signed (st.text id)) keep (fun _ => []) i
  unfold bucket at this ⊢
  rw [this]
  simp

theorem inv_rebuild {signed st} (h : Inv signed st) {keep : List Nat} (hf : (Op.rebuild keep).Fair st) :
    Inv signed (rebuild signed st keep) := by
  obtain ⟨hnd, hk⟩ := hf
  have ht : ∀ id, (rebuild signed st keep).text id = st.text id := fun _ => rfl
  refine ⟨?_, ?_⟩
  · intro i id hid
    rw [rebuild_table] at hid
    simp only [List.mem_reverse, List.mem_filter, beq_iff_eq] at hid
    obtain ⟨j, hj⟩ := hk id hid.1
    exact ⟨(h.place j id hj).1, by rw [ht]; exact hid.2⟩
  · intro i
    rw [rebuild_table, List.pairwise_reverse]
    have hnd' : (keep.filter fun id => bucket signed (st.text id) == i).Nodup := hnd.filter _
    refine List.Pairwise.imp_of_mem ?_ hnd'
    intro a b ha hb hab hs
    simp only [List.mem_filter, beq_iff_eq] at ha hb
    obtain ⟨j, hj⟩ := hk a ha.1
    obtain ⟨l, hl⟩ := hk b hb.1
    have ea := (h.place j a hj).2
    have eb := (h.place l b hl).2
    rw [ha.2] at ea
    rw [hb.2] at eb
    subst ea; subst eb
    refine hab (unlike_eq h hj hl ?_)
    rw [ht, ht, isSame_iff] at hs
    rw [isSame_iff]
    exact ⟨hs.1.symm, hs.2.symm⟩

theorem inv_init {signed} {names : List (List Nat)} (hn : names.Nodup) (hp : ∀ s ∈ names, Plain s) :
    Inv signed (init signed names) := by
  have ht : ∀ i, (init signed names).table i = ((List.range names.length).filter fun id => bucket signed (names.getD id []) == i).reverse := by
    intro i
    have := fold_links (fun id => bucket signed (names.getD id [])) (List.range names.length) (fun _ => []) i
    simpa [init] using this
  refine ⟨?_, ?_⟩
  · intro i id hid
    rw [ht] at hid
    simp only [List.mem_reverse, List.mem_filter, List.mem_range, beq_iff_eq] at hid
    exact hid
  · intro i
    rw [ht, List.pairwise_reverse]
    refine List.Pairwise.imp_of_mem ?_ (List.nodup_range.filter _)
    intro a b ha hb hab hs
    simp only [List.mem_filter, List.mem_range] at ha hb
    have e : ∀ c, c < names.length → (init signed names).text c ∈ names := by
      intro c hc
      simp only [State.text, init, List.getD_eq_getElem?_getD, List.getElem?_eq_getElem hc, Option.getD_some]
      exact List.getElem_mem hc
    have := isSame_plain (hp _ (e b hb.1)) hs
    simp only [State.text, init, List.getD_eq_getElem?_getD, List.getElem?_eq_getElem ha.1, List.getElem?_eq_getElem hb.1, Option.getD_some] at this
    exact hab ((List.getElem_inj hn).mp this)

theorem inv_reach {signed} {names : List (List Nat)} (hn : names.Nodup) (hp : ∀ s ∈ names, Plain s) {st : State}
    (h : Reach signed names st) : Inv signed st := by
  induction h with
  | start => exact inv_init hn hp
  | @step st op _ hf ih =>
    cases op with
    | intern s => exact inv_intern ih s
    | rebuild keep => exact inv_rebuild ih hf

/-! ## Theorems -/

/-- The symbol that is answered is in the table, in the bucket of the string, and is alike. -/
theorem intern_spec (signed : Bool) (st : State) (s : List Nat) :
    (intern signed st s).2 ∈ (intern signed st s).1.table (bucket signed s) ∧
    isSame s ((intern signed st s).1.text (intern signed st s).2) = true := by
  unfold intern
  simp only []
  split
  · rename_i id hf
    exact ⟨List.mem_of_find?_eq_some hf, List.find?_some (p := fun id => isSame s (st.text id)) hf⟩
  · exact ⟨by simp [addLink], by rw [text_new]; exact isSame_refl s⟩

/-- A symbol has the text of the string it was made from.  `_partial`: the string has no NUL
(`nul_text_wrong`). -/
theorem intern_text_partial (signed : Bool) (st : State) {s : List Nat} (hs : Plain s) :
    (intern signed st s).1.text (intern signed st s).2 = s :=
  isSame_plain hs (intern_spec signed st s).2

theorem later_text {signed id} {st st' : State} (hid : id < st.syms.length) (hl : Later signed id st st') :
    id < st'.syms.length ∧ st'.text id = st.text id := by
  induction hl with
  | refl => exact ⟨hid, rfl⟩
  | @intern st' s _ ih =>
    obtain ⟨a, b⟩ := ih
    simp only [Op.run, Symbols.intern]
    split
    · exact ⟨a, b⟩
    · exact ⟨by simp; omega, by rw [← b]; exact text_append a⟩
  | rebuild _ _ _ ih => exact ih

theorem later_inv {signed id} {st st' : State} (h : Inv signed st) (hl : Later signed id st st') : Inv signed st' := by
  induction hl with
  | refl => exact h
  | intern _ ih => exact inv_intern ih _
  | rebuild _ hf _ ih => exact inv_rebuild ih hf

theorem later_has {signed id i} {st st' : State} (h : Inv signed st) (hid : id ∈ st.table i) (hl : Later signed id st st') :
    id ∈ st'.table i := by
  induction hl with
  | refl => exact hid
  | @intern st' s _ ih =>
    have := ih
    simp only [Op.run, Symbols.intern]
    split
    · exact this
    · simp only [addLink]
      split
      · exact List.mem_cons_of_mem _ this
      · exact this
  | @rebuild st' keep hl' hf hk ih =>
    have := ih
    simp only [Op.run]
    rw [rebuild_table]
    simp only [List.mem_reverse, List.mem_filter, beq_iff_eq]
    exact ⟨hk, ((later_inv h hl').place i id this).2⟩

/-- Interning a string twice gives the same object, whatever happens between, as long as the symbol is alive;
also when the string has NULs. -/
theorem intern_again {signed} {names : List (List Nat)} (hn : names.Nodup) (hp : ∀ s ∈ names, Plain s) {st st' : State}
    (hr : Reach signed names st) {s : List Nat}
    (hl : Later signed (intern signed st s).2 (intern signed st s).1 st') :
    (intern signed st' s).2 = (intern signed st s).2 := by
  have hi := inv_reach hn hp hr
  have hi1 := inv_intern hi s
  obtain ⟨h1, h2⟩ := intern_spec signed st s
  have hlt := (hi1.place _ _ h1).1
  have h3 := later_has hi1 h1 hl
  have h4 := (later_text hlt hl).2
  have hi' := later_inv hi1 hl
  have hfind : ((st'.table (bucket signed s)).find? fun id => isSame s (st'.text id)) = some (intern signed st s).2 := by
    cases e : (st'.table (bucket signed s)).find? fun id => isSame s (st'.text id) with
    | none =>
      rw [List.find?_eq_none] at e
      exact absurd (by rw [h4]; exact h2) (e _ h3)
    | some id =>
      have m := List.mem_of_find?_eq_some e
      have p := List.find?_some e
      refine congrArg some (unlike_eq hi' m h3 ?_)
      rw [h4]
      rw [isSame_iff] at *
      exact ⟨p.1.symm.trans h2.1, p.2.symm.trans h2.2⟩
  conv => lhs; unfold intern
  simp only [hfind]

/-- Strings with different text give different objects.  `_partial`: no NULs. -/
theorem intern_differ_partial {signed} {names : List (List Nat)} (hn : names.Nodup) (hp : ∀ s ∈ names, Plain s) {st st' : State}
    (hr : Reach signed names st) {s t : List Nat} (hs : Plain s) (ht : Plain t) (hst : s ≠ t)
    (hl : Later signed (intern signed st s).2 (intern signed st s).1 st') :
    (intern signed st' t).2 ≠ (intern signed st s).2 := by
  intro e
  have hi1 := inv_intern (inv_reach hn hp hr) s
  obtain ⟨h1, -⟩ := intern_spec signed st s
  have hlt := (hi1.place _ _ h1).1
  have hl2 : Later signed (intern signed st s).2 (intern signed st s).1 (intern signed st' t).1 := hl.intern (s := t)
  have e2 := (later_text hlt hl2).2
  rw [intern_text_partial signed st hs] at e2
  have e3 := intern_text_partial signed st' ht
  rw [e, e2] at e3
  exact hst e3

/-- Every name that the virtual machine starts with is interned as the symbol that the virtual machine uses for
it. -/
theorem builtin_found {signed} {names : List (List Nat)} (hn : names.Nodup) (hp : ∀ s ∈ names, Plain s) {k : Nat} {s : List Nat}
    (hk : names[k]? = some s) {st : State} (hl : Later signed k (init signed names) st) : (intern signed st s).2 = k := by
  have hi := inv_init (signed := signed) hn hp
  have hlt : k < names.length := (List.getElem?_eq_some_iff.mp hk).1
  have ht : (init signed names).text k = s := by simp [State.text, init, hk]
  have hm : k ∈ (init signed names).table (bucket signed s) := by
    have := fold_links (fun id => bucket signed (names.getD id [])) (List.range names.length) (fun _ => []) (bucket signed s)
    simp only [init]
    rw [this]
    have e : names[k] = s := (List.getElem?_eq_some_iff.mp hk).2
    simp [hlt, e]
  have h3 := later_has hi hm hl
  have h4 := (later_text hlt hl).2
  have hi' := later_inv hi hl
  obtain ⟨m, p⟩ := intern_spec signed st s
  have hfind : ∃ id, ((st.table (bucket signed s)).find? fun id => isSame s (st.text id)) = some id := by
    cases e : (st.table (bucket signed s)).find? fun id => isSame s (st.text id) with
    | some id => exact ⟨id, rfl⟩
    | none =>
      rw [List.find?_eq_none] at e
      exact absurd (by rw [h4, ht]; exact isSame_refl s) (e _ h3)
  obtain ⟨id, e⟩ := hfind
  have m := List.mem_of_find?_eq_some e
  have p := List.find?_some e
  have : id = k := unlike_eq hi' m h3 (by rw [h4, ht]; rw [isSame_iff] at *; exact ⟨p.1.symm, p.2.symm⟩)
  unfold intern
  simp only [e, this]

theorem allEqual_iff : ∀ {s t : List Nat}, s.length = t.length → (allEqual s t = true ↔ s = t)
  | [], [], _ => by simp [allEqual]
  | a :: s, b :: t, h => by
    have := @allEqual_iff s t (by simpa using h)
    simp [allEqual, this]

/-- `Symbol hasInterned:ifTrue:` and `isSymbolString:` say whether there is a symbol with this text, and which;
it is the one that interning answers.  `_partial`: there must be a symbol in the bucket (`empty_bucket_wrong`). -/
theorem has_interned_partial {signed} {names : List (List Nat)} (hn : names.Nodup) (hp : ∀ s ∈ names, Plain s) {st : State}
    (hr : Reach signed names st) {s : List Nat} (hs : Plain s) (hb : st.table (bucket signed s) ≠ []) :
    (∃ r, hasInterned signed st s = some r ∧ (∀ id, r = some id ↔ st.Has id ∧ st.text id = s) ∧
      (∀ id, r = some id → intern signed st s = (st, id))) ∧
    (isSymbolString signed st s = some true ↔ ∃ id, st.Has id ∧ st.text id = s) := by
  have hi := inv_reach hn hp hr
  have hfe : (fun id => (st.text id).length == s.length && allEqual (st.text id) s) = fun id => isSame s (st.text id) := by
    funext id
    rw [Bool.eq_iff_iff, Bool.and_eq_true, beq_iff_eq]
    constructor
    · rintro ⟨a, b⟩
      rw [(allEqual_iff a).mp b]; exact isSame_refl s
    · intro h
      have := isSame_plain hs h
      rw [this]; exact ⟨rfl, (allEqual_iff rfl).mpr rfl⟩
  have hh : hasInterned signed st s = some ((st.table (bucket signed s)).find? fun id => isSame s (st.text id)) := by
    unfold hasInterned
    rw [show scramble (hashString signed s) % 512 + 1 = bucket signed s by rfl, hfe]
    split
    · rename_i e; exact absurd e hb
    · rfl
  have hiff : ∀ id, ((st.table (bucket signed s)).find? fun id => isSame s (st.text id)) = some id ↔ st.Has id ∧ st.text id = s := by
    intro id
    constructor
    · intro e
      exact ⟨⟨_, List.mem_of_find?_eq_some e⟩, isSame_plain hs (List.find?_some (p := fun id => isSame s (st.text id)) e)⟩
    · rintro ⟨⟨i, hid⟩, ht⟩
      have hp := (hi.place i id hid).2
      rw [ht] at hp
      subst hp
      cases e : (st.table (bucket signed s)).find? fun id => isSame s (st.text id) with
      | none =>
        rw [List.find?_eq_none] at e
        exact absurd (by rw [ht]; exact isSame_refl s) (e _ hid)
      | some b =>
        refine congrArg some (unlike_eq hi (List.mem_of_find?_eq_some e) hid ?_)
        have := isSame_plain hs (List.find?_some (p := fun id => isSame s (st.text id)) e)
        rw [this, ht]; exact isSame_refl s
  refine ⟨⟨_, hh, hiff, ?_⟩, ?_⟩
  · intro id e
    unfold intern
    simp only [e]
  · unfold isSymbolString
    rw [hh]
    simp only [Option.map_some, Option.some.injEq, Option.isSome_iff_exists]
    exact ⟨fun ⟨a, h⟩ => ⟨a, (hiff a).mp h⟩, fun ⟨a, h⟩ => ⟨a, (hiff a).mpr h⟩⟩

/-! ## Examples and refutations -/

def ex : State := init true [[97, 98], [99]]

/-- The hypotheses can be met: interning, rebuilding the table, interning again. -/
example : (intern true (rebuild true (intern true ex [100]).1 [2, 0]) [100]).2 = 2 :=
  intern_again (signed := true) (names := [[97, 98], [99]]) (st := ex) (s := [100]) (by decide)
    (by intro s hs; simp at hs; rcases hs with rfl | rfl <;> intro b hb <;> simp at hb <;> omega) .start
    (.rebuild .refl ⟨by decide, by
      intro id hid
      have h2 : id = 2 ∨ id = 0 := by simpa using hid
      rcases h2 with rfl | rfl
      · exact ⟨bucket true [100], by decide +kernel⟩
      · exact ⟨bucket true [97, 98], by decide +kernel⟩⟩ (by decide +kernel))

/-- Two strings with a NUL that give one symbol, although their text differs: the symbol of the second has
the text of the first, and `isSymbolString:` says that the second is no symbol. -/
theorem nul_text_wrong :
    let st := (intern true (init true []) [97, 0, 46]).1
    (intern true st [97, 0, 49]).2 = (intern true (init true []) [97, 0, 46]).2 ∧
    (intern true st [97, 0, 49]).1.text (intern true st [97, 0, 49]).2 = [97, 0, 46] ∧
    isSymbolString true (intern true st [97, 0, 49]).1 [97, 0, 49] = some false := by decide +kernel

/-- If no symbol is in the bucket of a string, `isSymbolString:` ends in `doesNotUnderstand: #do:` instead of answering
false. -/
theorem empty_bucket_wrong : isSymbolString true ex [122] = none ∧ ¬ ∃ id, ex.Has id ∧ ex.text id = [122] := by
  refine ⟨by decide +kernel, ?_⟩
  rintro ⟨id, ⟨i, hi⟩, ht⟩
  have hI : Inv true ex := inv_init (by decide) (by
    intro s hs; simp at hs; rcases hs with rfl | rfl <;> intro b hb <;> simp at hb <;> omega)
  have hb := (hI.place i id hi).2
  rw [ht] at hb
  subst hb
  have : ex.table (bucket true [122]) = [] := by decide +kernel
  rw [this] at hi
  simp at hi

end Verif.Symbols
