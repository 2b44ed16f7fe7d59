import Verif.Links.Model

/-! # Linked lists are sequences of links -/

namespace Verif.Links

/-! ### Specification -/

/-- What the lists have. -/
abbrev Contents := ℕ → List ℕ

/-- The messages on sequences; what is answered is 0 where there is an exception. -/
def spec (c : Contents) : Msg → Contents × ℕ
  | .addFirst l x => (Function.update c l (x :: c l), x)
  | .addLast l x => (Function.update c l (c l ++ [x]), x)
  | .removeFirst l => (Function.update c l (c l).tail, (c l).headD 0)
  | .removeLast l => (Function.update c l (c l).dropLast, (c l).getLastD 0)
  | .remove l x => if x ∈ c l then (Function.update c l ((c l).erase x), x) else (c, 0)

/-- Links are added that are in no list; those that are removed are links. -/
def Msg.Ok (c : Contents) : Msg → Prop
  | .addFirst _ x => x ≠ 0 ∧ ∀ l, x ∉ c l
  | .addLast _ x => x ≠ 0 ∧ ∀ l, x ∉ c l
  | .remove _ x => x ≠ 0
  | _ => True

/-! ### Chains -/

/-- From `p` along the links to `q`. -/
def Chain (next : ℕ → ℕ) : ℕ → List ℕ → ℕ → Prop
  | p, [], q => p = q
  | p, x :: xs, q => p = x ∧ x ≠ 0 ∧ Chain next (next x) xs q

theorem chain_append (next : ℕ → ℕ) : ∀ (a : List ℕ) (p : ℕ) (b : List ℕ) (q : ℕ),
    Chain next p (a ++ b) q ↔ ∃ m, Chain next p a m ∧ Chain next m b q := by
  intro a
  induction a with
  | nil => intro p b q; exact ⟨fun h => ⟨p, rfl, h⟩, fun ⟨m, h1, h2⟩ => by cases h1; exact h2⟩
  | cons x a ih =>
    intro p b q
    show (p = x ∧ x ≠ 0 ∧ Chain next (next x) (a ++ b) q) ↔ _
    rw [ih]
    constructor
    · rintro ⟨h1, h2, m, h3, h4⟩; exact ⟨m, ⟨h1, h2, h3⟩, h4⟩
    · rintro ⟨m, ⟨h1, h2, h3⟩, h4⟩; exact ⟨h1, h2, m, h3, h4⟩

theorem chain_congr {next next' : ℕ → ℕ} : ∀ (a : List ℕ) (p q : ℕ), (∀ x ∈ a, next' x = next x) → Chain next p a q → Chain next' p a q := by
  intro a
  induction a with
  | nil => intro p q _ h; exact h
  | cons x a ih =>
    rintro p q he ⟨h1, h2, h3⟩
    refine ⟨h1, h2, ?_⟩
    rw [he x (by simp)]
    exact ih _ _ (fun y hy => he y (by simp [hy])) h3

theorem chain_ne {next : ℕ → ℕ} : ∀ (a : List ℕ) (p q : ℕ), Chain next p a q → ∀ x ∈ a, x ≠ 0 := by
  intro a
  induction a with
  | nil => intro p q _ x hx; cases hx
  | cons y a ih =>
    rintro p q ⟨h1, h2, h3⟩ x hx
    rcases List.mem_cons.1 hx with rfl | hx
    · exact h2
    · exact ih _ _ h3 x hx

theorem chain_head {next : ℕ → ℕ} {p : ℕ} {a : List ℕ} (h : Chain next p a 0) : p = a.headD 0 := by
  cases a with
  | nil => exact h
  | cons x a => exact h.1

/-- The lists as they should be. -/
structure Rep (h : Heap) (c : Contents) : Prop where
  chain : ∀ l, Chain h.nextLink (h.firstLink l) (c l) 0
  last : ∀ l, h.lastLink l = (c l).getLastD 0
  nodup : ∀ l, (c l).Nodup
  apart : ∀ l m, l ≠ m → ∀ x ∈ c l, x ∉ c m
  free : ∀ x, x ≠ 0 → (∀ l, x ∉ c l) → h.nextLink x = 0

theorem Rep.first {h : Heap} {c : Contents} (r : Rep h c) (l : ℕ) : h.firstLink l = (c l).headD 0 := chain_head (r.chain l)

theorem Rep.ne {h : Heap} {c : Contents} (r : Rep h c) {l x : ℕ} (hx : x ∈ c l) : x ≠ 0 := chain_ne _ _ _ (r.chain l) x hx

theorem Rep.empty {h : Heap} {c : Contents} (r : Rep h c) (l : ℕ) : h.firstLink l = 0 ↔ c l = [] := by
  rw [r.first]
  cases hc : c l with
  | nil => simp
  | cons x xs => have : x ≠ 0 := r.ne (by rw [hc]; simp); simp [this]

theorem Rep.lastEmpty {h : Heap} {c : Contents} (r : Rep h c) (l : ℕ) : h.lastLink l = 0 ↔ c l = [] := by
  rw [r.last]
  rcases List.eq_nil_or_concat (c l) with hc | ⟨ini, x, hc⟩
  · simp [hc]
  · have : x ≠ 0 := r.ne (l := l) (by rw [hc]; simp)
    rw [hc]
    simp [this]

/-- A new state of one list, if the links of other lists are as they were. -/
theorem rep_update {h h' : Heap} {c : Contents} (r : Rep h c) (l : ℕ) (xs : List ℕ)
    (hch : Chain h'.nextLink (h'.firstLink l) xs 0) (hla : h'.lastLink l = xs.getLastD 0) (hnd : xs.Nodup)
    (hf : ∀ m, m ≠ l → h'.firstLink m = h.firstLink m ∧ h'.lastLink m = h.lastLink m)
    (hx : ∀ x ∈ xs, x ∈ c l ∨ ∀ m, x ∉ c m)
    (hn : ∀ x, x ∉ xs → x ∉ c l → h'.nextLink x = h.nextLink x) (hfree : ∀ x ∈ c l, x ∉ xs → h'.nextLink x = 0) : Rep h' (Function.update c l xs) := by
  have hother : ∀ m, m ≠ l → ∀ x ∈ c m, x ∉ xs ∧ x ∉ c l := by
    intro m hm x hxm
    have h1 := r.apart m l hm x hxm
    exact ⟨fun h2 => (hx x h2).elim h1 fun h3 => h3 m hxm, h1⟩
  constructor
  · intro m
    by_cases hm : m = l
    · subst hm; rw [Function.update_self]; exact hch
    · rw [Function.update_of_ne hm, (hf m hm).1]
      exact chain_congr _ _ _ (fun x hxm => hn x (hother m hm x hxm).1 (hother m hm x hxm).2) (r.chain m)
  · intro m
    by_cases hm : m = l
    · subst hm; rw [Function.update_self]; exact hla
    · rw [Function.update_of_ne hm, (hf m hm).2]; exact r.last m
  · intro m
    by_cases hm : m = l
    · subst hm; rw [Function.update_self]; exact hnd
    · rw [Function.update_of_ne hm]; exact r.nodup m
  · intro a b hab x hxa
    by_cases ha : a = l
    · subst ha
      rw [Function.update_self] at hxa
      rw [Function.update_of_ne (Ne.symm hab)]
      exact fun hb => (hother b (Ne.symm hab) x hb).1 hxa
    · rw [Function.update_of_ne ha] at hxa
      by_cases hb : b = l
      · subst hb; rw [Function.update_self]; exact (hother a ha x hxa).1
      · rw [Function.update_of_ne hb]; exact r.apart a b hab x hxa
  · intro x hx0 hno
    have h1 : x ∉ xs := by have := hno l; rwa [Function.update_self] at this
    by_cases h2 : x ∈ c l
    · exact hfree x h2 h1
    · rw [hn x h1 h2]
      apply r.free x hx0
      intro m
      by_cases hm : m = l
      · subst hm; exact h2
      · have := hno m; rwa [Function.update_of_ne hm] at this

/-! ### Each message -/

theorem addFirst_rep {h : Heap} {c : Contents} (r : Rep h c) (l x : ℕ) (h0 : x ≠ 0) (hx : ∀ m, x ∉ c m) :
    Rep (addFirst h l x) (Function.update c l (x :: c l)) := by
  have e1 : (addFirst h l x).nextLink = Function.update h.nextLink x (h.firstLink l) := by
    unfold addFirst Heap.setFirst Heap.setNext Heap.setLast; split <;> rfl
  have e2 : (addFirst h l x).firstLink = Function.update h.firstLink l x := by
    unfold addFirst Heap.setFirst Heap.setNext Heap.setLast; split <;> rfl
  have e3 : (addFirst h l x).lastLink = if h.lastLink l = 0 then Function.update h.lastLink l x else h.lastLink := by
    unfold addFirst Heap.setFirst Heap.setNext Heap.setLast; split <;> rfl
  refine rep_update r l (x :: c l) ?_ ?_ ?_ ?_ ?_ ?_ ?_
  · rw [e1, e2, Function.update_self]
    refine ⟨rfl, h0, ?_⟩
    rw [Function.update_self]
    exact chain_congr _ _ _ (fun y hy => Function.update_of_ne (by rintro rfl; exact hx l hy) _ _) (r.chain l)
  · rw [e3]
    split
    · rename_i hl
      rw [(r.lastEmpty l).1 hl, Function.update_self]; rfl
    · rename_i hl
      rw [r.last l]
      cases hc : c l with
      | nil => exact absurd ((r.lastEmpty l).2 hc) hl
      | cons y ys => rfl
  · exact List.nodup_cons.2 ⟨hx l, r.nodup l⟩
  · intro m hm
    rw [e2, e3, Function.update_of_ne hm]
    refine ⟨rfl, ?_⟩
    split
    · rw [Function.update_of_ne hm]
    · rfl
  · intro y hy
    rcases List.mem_cons.1 hy with rfl | hy
    · exact .inr hx
    · exact .inl hy
  · intro y hy _
    rw [e1, Function.update_of_ne (fun he => hy (by simp [he]))]
  · intro y hy hny
    exact absurd (List.mem_cons_of_mem _ hy) hny

theorem addLast_rep {h : Heap} {c : Contents} (r : Rep h c) (l x : ℕ) (h0 : x ≠ 0) (hx : ∀ m, x ∉ c m) :
    Rep (addLast h l x) (Function.update c l (c l ++ [x])) := by
  have hnx : h.nextLink x = 0 := r.free x h0 hx
  have e1 : (addLast h l x).nextLink = if h.lastLink l = 0 then h.nextLink else Function.update h.nextLink (h.lastLink l) x := by
    unfold addLast Heap.setFirst Heap.setNext Heap.setLast
    split <;> split <;> simp_all
  have e2 : (addLast h l x).firstLink = if h.firstLink l = 0 then Function.update h.firstLink l x else h.firstLink := by
    unfold addLast Heap.setFirst Heap.setNext Heap.setLast
    dsimp only
    split <;> split <;> rfl
  have e3 : (addLast h l x).lastLink = Function.update h.lastLink l x := by
    unfold addLast Heap.setFirst Heap.setNext Heap.setLast
    dsimp only
    split <;> split <;> rfl
  refine rep_update r l (c l ++ [x]) ?_ ?_ ?_ ?_ ?_ ?_ ?_
  · rw [e1, e2]
    rcases List.eq_nil_or_concat (c l) with hc | ⟨ini, y, hc⟩
    · rw [if_pos ((r.lastEmpty l).2 hc), if_pos ((r.empty l).2 hc), hc, Function.update_self]
      exact ⟨rfl, h0, hnx⟩
    · rw [List.concat_eq_append] at hc
      have hne : c l ≠ [] := by rw [hc]; simp
      have hly : h.lastLink l = y := by rw [r.last l, hc]; simp
      rw [if_neg (fun he => hne ((r.lastEmpty l).1 he)), if_neg (fun he => hne ((r.empty l).1 he)), hly, hc]
      have hch := r.chain l
      have hnd := r.nodup l
      rw [hc] at hch hnd
      rw [chain_append] at hch ⊢
      obtain ⟨m, h1, h2, h3, -⟩ := hch
      have hyi : y ∉ ini := by
        intro hy
        exact (List.nodup_append.1 hnd).2.2 y hy y (by simp) rfl
      refine ⟨x, ?_, rfl, h0, ?_⟩
      · rw [chain_append]
        refine ⟨m, chain_congr _ _ _ (fun z hz => Function.update_of_ne (by rintro rfl; exact hyi hz) _ _) h1, h2, h3, ?_⟩
        rw [Function.update_self]; rfl
      · show Function.update h.nextLink y x x = 0
        rw [Function.update_of_ne, hnx]
        rintro rfl
        exact hx l (by rw [hc]; simp)
  · rw [e3, Function.update_self]; simp
  · refine List.nodup_append.2 ⟨r.nodup l, by simp, ?_⟩
    rintro a ha b hb rfl
    rw [List.mem_singleton.1 hb] at ha
    exact hx l ha
  · intro m hm
    rw [e2, e3, Function.update_of_ne hm]
    refine ⟨?_, rfl⟩
    split
    · rw [Function.update_of_ne hm]
    · rfl
  · intro y hy
    rcases List.mem_append.1 hy with hy | hy
    · exact .inl hy
    · rw [List.mem_singleton.1 hy]; exact .inr hx
  · intro y _ hy
    rw [e1]
    split
    · rfl
    · rename_i hl
      rw [Function.update_of_ne]
      rintro rfl
      apply hy
      rw [r.last l]
      rcases List.eq_nil_or_concat (c l) with hc | ⟨ini, z, hc⟩
      · exact absurd ((r.lastEmpty l).2 hc) hl
      · rw [hc]; simp
  · intro y hy hny
    exact absurd (List.mem_append_left _ hy) hny

theorem findPrev_absent {next : ℕ → ℕ} (x : ℕ) (hx : x ≠ 0) : ∀ (a : List ℕ) (p n : ℕ), Chain next p a 0 → x ∉ a → a.length < n →
    findPrev next x n p = .absent := by
  intro a
  induction a with
  | nil =>
    intro p n h _ hn
    cases n with
    | zero => omega
    | succ n => cases h; unfold findPrev; rw [if_pos rfl]
  | cons y a ih =>
    rintro p n ⟨rfl, h2, h3⟩ hxa hn
    cases n with
    | zero => omega
    | succ n =>
      unfold findPrev
      rw [if_neg h2, if_neg ?_]
      · exact ih _ n h3 (fun h => hxa (by simp [h])) (by simp at hn; omega)
      · intro he
        rw [he] at h3
        cases a with
        | nil => exact hx h3
        | cons z a => exact hxa (by rw [h3.1]; simp)

theorem findPrev_found {next : ℕ → ℕ} (x : ℕ) : ∀ (a : List ℕ) (p n y : ℕ) (b : List ℕ), Chain next p (a ++ y :: x :: b) 0 → x ∉ a →
    (a ++ y :: x :: b).Nodup → (a ++ y :: x :: b).length < n → findPrev next x n p = .done y := by
  intro a
  induction a with
  | nil =>
    rintro p n y b ⟨rfl, h2, h3, -⟩ _ _ hn
    cases n with
    | zero => simp at hn
    | succ n => unfold findPrev; rw [if_neg h2, if_pos h3]
  | cons z a ih =>
    rintro p n y b ⟨rfl, h2, h3⟩ hxa hnd hn
    cases n with
    | zero => simp at hn
    | succ n =>
      unfold findPrev
      rw [if_neg h2, if_neg ?_]
      · exact ih _ n y b h3 (fun h => hxa (by simp [h])) (List.nodup_cons.1 hnd).2 (by simp at hn ⊢; omega)
      · intro he
        have hh := chain_head h3
        rw [he] at hh
        cases a with
        | nil =>
          have : x = y := hh
          subst this
          have := (List.nodup_cons.1 (List.nodup_cons.1 hnd).2).1
          simp at this
        | cons w a =>
          have : x = w := hh
          subst this
          simp at hxa

theorem remove_absent {h : Heap} {c : Contents} (r : Rep h c) (n l x : ℕ) (h0 : x ≠ 0) (hx : x ∉ c l) (hn : (c l).length < n) :
    remove n h l x = .absent := by
  unfold remove
  rw [if_neg, findPrev_absent x h0 _ _ n (r.chain l) hx hn]
  rw [r.first]
  intro he
  cases hc : c l with
  | nil => rw [hc] at he; exact h0 he
  | cons y ys => rw [hc] at he hx; exact hx (by rw [show x = y from he]; simp)

theorem remove_rep {h : Heap} {c : Contents} (r : Rep h c) (n l x : ℕ) (hx : x ∈ c l) (hn : (c l).length < n) :
    ∃ h', remove n h l x = .done (h', x) ∧ Rep h' (Function.update c l ((c l).erase x)) := by
  have h0 : x ≠ 0 := r.ne hx
  obtain ⟨a, b, hc, hxa⟩ := List.eq_append_cons_of_mem hx
  have hch := r.chain l
  have hnd := r.nodup l
  have herase : (c l).erase x = a ++ b := by rw [hc, List.erase_append_right _ hxa]; simp
  rw [hc] at hch hnd
  have hxb : x ∉ b := (List.nodup_cons.1 (List.nodup_append.1 hnd).2.1).1
  have hsub : List.Sublist (a ++ b) (a ++ x :: b) := (List.sublist_cons_self x b).append_left a
  rw [herase]
  rcases List.eq_nil_or_concat a with ha | ⟨ini, y, ha⟩
  · subst ha
    obtain ⟨h1, -, h2⟩ := hch
    have hne : ¬ h.firstLink l = 0 := by rw [h1]; exact h0
    unfold remove
    rw [if_pos h1.symm, if_neg hne]
    refine ⟨_, rfl, ?_⟩
    have e1 : ((if (h.setFirst l (h.nextLink (h.firstLink l))).firstLink l = 0 then (h.setFirst l (h.nextLink (h.firstLink l))).setLast l 0
        else h.setFirst l (h.nextLink (h.firstLink l))).setNext x 0).nextLink = Function.update h.nextLink x 0 := by
      unfold Heap.setFirst Heap.setNext Heap.setLast; split <;> rfl
    have e2 : ((if (h.setFirst l (h.nextLink (h.firstLink l))).firstLink l = 0 then (h.setFirst l (h.nextLink (h.firstLink l))).setLast l 0
        else h.setFirst l (h.nextLink (h.firstLink l))).setNext x 0).firstLink = Function.update h.firstLink l (h.nextLink x) := by
      rw [h1]; unfold Heap.setFirst Heap.setNext Heap.setLast; split <;> rfl
    have e3 : ((if (h.setFirst l (h.nextLink (h.firstLink l))).firstLink l = 0 then (h.setFirst l (h.nextLink (h.firstLink l))).setLast l 0
        else h.setFirst l (h.nextLink (h.firstLink l))).setNext x 0).lastLink =
        if h.nextLink x = 0 then Function.update h.lastLink l 0 else h.lastLink := by
      rw [h1]; unfold Heap.setFirst Heap.setNext Heap.setLast; simp only [Function.update_self]; split <;> rfl
    refine rep_update r l ([] ++ b) ?_ ?_ (hnd.sublist hsub) ?_ ?_ ?_ ?_
    · rw [e1, e2, Function.update_self]
      exact chain_congr _ _ _ (fun z hz => Function.update_of_ne (by rintro rfl; exact hxb hz) _ _) h2
    · rw [e3]
      have hh := chain_head h2
      cases hb : b with
      | nil => rw [hb] at hh; rw [if_pos (show h.nextLink x = 0 from hh), Function.update_self]; rfl
      | cons z b' =>
        rw [hb] at hh h2
        rw [if_neg (by rw [hh]; exact chain_ne _ _ _ h2 z (by simp)), r.last l, hc, hb]
        simp
    · intro m hm
      rw [e2, e3, Function.update_of_ne hm]
      refine ⟨rfl, ?_⟩
      split
      · rw [Function.update_of_ne hm]
      · rfl
    · intro z hz; left; rw [hc]; exact hsub.subset hz
    · intro z _ hz
      rw [e1, Function.update_of_ne]
      rintro rfl
      exact hz hx
    · intro z hz hnz
      rw [e1]
      rw [hc] at hz
      have : z = x := by
        rcases List.mem_cons.1 hz with h | h
        · exact h
        · exact absurd h hnz
      rw [this, Function.update_self]
  · rw [List.concat_eq_append] at ha
    subst ha
    have hci : c l = ini ++ y :: x :: b := by rw [hc]; simp
    have hnd' : (ini ++ y :: x :: b).Nodup := by rw [← hci]; exact r.nodup l
    have hyx : y ≠ x := by rintro rfl; exact hxa (by simp)
    have hyi : y ∉ ini := by
      intro hy
      exact (List.nodup_append.1 hnd').2.2 y hy y (by simp) rfl
    have hyb : y ∉ b := by
      have := (List.nodup_cons.1 (List.nodup_append.1 hnd').2.1).1
      intro hy; exact this (by simp [hy])
    have hxi : x ∉ ini := fun h => hxa (by simp [h])
    have hch' : Chain h.nextLink (h.firstLink l) (ini ++ y :: x :: b) 0 := by rw [← hci]; exact r.chain l
    have hfirst : x ≠ h.firstLink l := by
      rw [r.first, hci]
      cases ini with
      | nil => exact Ne.symm hyx
      | cons w ini => intro he; exact hxi (by rw [show x = w from he]; simp)
    unfold remove
    rw [if_neg hfirst, findPrev_found x ini _ n y b hch' hxi hnd' (by rw [← hci]; exact hn)]
    dsimp only
    rw [if_neg h0]
    refine ⟨_, rfl, ?_⟩
    have e1 : ((if x = (h.setNext y (h.nextLink x)).lastLink l then (h.setNext y (h.nextLink x)).setLast l y
        else h.setNext y (h.nextLink x)).setNext x 0).nextLink = Function.update (Function.update h.nextLink y (h.nextLink x)) x 0 := by
      unfold Heap.setNext Heap.setLast; split <;> rfl
    have e2 : ((if x = (h.setNext y (h.nextLink x)).lastLink l then (h.setNext y (h.nextLink x)).setLast l y
        else h.setNext y (h.nextLink x)).setNext x 0).firstLink = h.firstLink := by
      unfold Heap.setNext Heap.setLast; split <;> rfl
    have e3 : ((if x = (h.setNext y (h.nextLink x)).lastLink l then (h.setNext y (h.nextLink x)).setLast l y
        else h.setNext y (h.nextLink x)).setNext x 0).lastLink = if x = h.lastLink l then Function.update h.lastLink l y else h.lastLink := by
      unfold Heap.setNext Heap.setLast; split <;> rfl
    obtain ⟨m, hc1, hc2, hc3, hc4, hc5, hc6⟩ := (chain_append _ _ _ _ _).1 hch'
    refine rep_update r l (ini ++ [y] ++ b) ?_ ?_ (hnd.sublist hsub) ?_ ?_ ?_ ?_
    · rw [e1, e2, List.append_assoc, chain_append]
      refine ⟨m, chain_congr _ _ _ (fun z hz => ?_) hc1, hc2, hc3, ?_⟩
      · rw [Function.update_of_ne (by rintro rfl; exact hxi hz), Function.update_of_ne (by rintro rfl; exact hyi hz)]
      · rw [Function.update_of_ne hyx, Function.update_self]
        exact chain_congr _ _ _ (fun z hz => by
          rw [Function.update_of_ne (by rintro rfl; exact hxb hz), Function.update_of_ne (by rintro rfl; exact hyb hz)]) hc6
    · rw [e3]
      rcases List.eq_nil_or_concat b with hb | ⟨bi, z, hb⟩
      · subst hb
        rw [if_pos (by rw [r.last l, hci]; simp), Function.update_self]
        simp
      · rw [List.concat_eq_append] at hb
        have hz : h.lastLink l = z := by
          rw [r.last l, hci, hb, show ini ++ y :: x :: (bi ++ [z]) = (ini ++ y :: x :: bi) ++ [z] by simp]
          exact List.getLastD_concat
        rw [if_neg (by rw [hz]; rintro rfl; exact hxb (by rw [hb]; simp)), hz, hb, ← List.append_assoc]
        exact List.getLastD_concat.symm
    · intro k hk
      rw [e2, e3]
      refine ⟨rfl, ?_⟩
      split
      · rw [Function.update_of_ne hk]
      · rfl
    · intro z hz; left; rw [hc]; exact hsub.subset hz
    · intro z hz1 hz2
      rw [e1, Function.update_of_ne (by rintro rfl; exact hz2 hx), Function.update_of_ne (by rintro rfl; exact hz1 (by simp))]
    · intro z hz hnz
      rw [e1]
      have : z = x := by
        rw [hc] at hz
        rcases List.mem_append.1 hz with h | h
        · exact absurd (List.mem_append_left _ h) hnz
        · rcases List.mem_cons.1 h with h | h
          · exact h
          · exact absurd (List.mem_append_right _ h) hnz
      rw [this, Function.update_self]

/-! ### C192 -/

/-- A message does what it does to sequences. -/
theorem step_spec {h : Heap} {c : Contents} (r : Rep h c) (n : ℕ) (hn : ∀ l, (c l).length < n) (m : Msg) (hm : m.Ok c) :
    ∃ h', step n h m = some (h', (spec c m).2) ∧ Rep h' (spec c m).1 := by
  cases m with
  | addFirst l x => exact ⟨_, rfl, addFirst_rep r l x hm.1 hm.2⟩
  | addLast l x => exact ⟨_, rfl, addLast_rep r l x hm.1 hm.2⟩
  | removeFirst l =>
    show ∃ h', step.orSame h (remove n h l (h.firstLink l)) = some (h', (c l).headD 0) ∧ Rep h' (Function.update c l (c l).tail)
    cases hc : c l with
    | nil =>
      have h1 := (r.empty l).2 hc
      have : remove n h l (h.firstLink l) = .absent := by unfold remove; rw [if_pos rfl, if_pos h1]
      rw [this]
      refine ⟨h, rfl, ?_⟩
      have : Function.update c l ([] : List ℕ).tail = c := by rw [List.tail_nil, ← hc, Function.update_eq_self]
      rwa [this]
    | cons x xs =>
      have hf : h.firstLink l = x := by rw [r.first, hc]; rfl
      obtain ⟨h', h1, h2⟩ := remove_rep r n l x (by rw [hc]; simp) (hn l)
      rw [hf, h1]
      refine ⟨h', rfl, ?_⟩
      rw [hc, List.erase_cons_head] at h2
      exact h2
  | removeLast l =>
    show ∃ h', step.orSame h (remove n h l (h.lastLink l)) = some (h', (c l).getLastD 0) ∧ Rep h' (Function.update c l (c l).dropLast)
    rcases List.eq_nil_or_concat (c l) with hc | ⟨ini, x, hc⟩
    · have h1 := (r.empty l).2 hc
      have h2 := (r.lastEmpty l).2 hc
      have : remove n h l (h.lastLink l) = .absent := by unfold remove; rw [h1, h2, if_pos rfl, if_pos rfl]
      rw [this]
      refine ⟨h, by rw [hc]; rfl, ?_⟩
      have : Function.update c l (c l).dropLast = c := by rw [hc, List.dropLast_nil, ← hc, Function.update_eq_self]
      rwa [this]
    · rw [List.concat_eq_append] at hc
      have hl : h.lastLink l = x := by rw [r.last, hc]; simp
      obtain ⟨h', h1, h2⟩ := remove_rep r n l x (by rw [hc]; simp) (hn l)
      rw [hl, h1]
      refine ⟨h', by rw [hc]; simp [step.orSame], ?_⟩
      have hxi : x ∉ ini := by
        intro hx
        have := r.nodup l
        rw [hc] at this
        exact (List.nodup_append.1 this).2.2 x hx x (by simp) rfl
      rw [hc, List.erase_append_right _ hxi] at h2
      rw [hc]
      simpa using h2
  | remove l x =>
    show ∃ h', step.orSame h (remove n h l x) = some (h', (if x ∈ c l then (Function.update c l ((c l).erase x), x) else (c, 0)).2) ∧
      Rep h' (if x ∈ c l then (Function.update c l ((c l).erase x), x) else (c, 0)).1
    by_cases hx : x ∈ c l
    · obtain ⟨h', h1, h2⟩ := remove_rep r n l x hx (hn l)
      rw [h1, if_pos hx]
      exact ⟨h', rfl, h2⟩
    · rw [remove_absent r n l x hm hx (hn l), if_neg hx]
      exact ⟨h, rfl, r⟩

/-- Messages one after the other, with what each answers. -/
def run (n : ℕ) (h : Heap) : List Msg → Option (Heap × List ℕ)
  | [] => some (h, [])
  | m :: ms => (step n h m).bind fun r => (run n r.1 ms).map fun s => (s.1, r.2 :: s.2)

def specRun (c : Contents) : List Msg → Contents × List ℕ
  | [] => (c, [])
  | m :: ms => ((specRun (spec c m).1 ms).1, (spec c m).2 :: (specRun (spec c m).1 ms).2)

/-- Each message is in order when it is sent. -/
def AllOk (c : Contents) : List Msg → Prop
  | [] => True
  | m :: ms => m.Ok c ∧ AllOk (spec c m).1 ms

theorem spec_length (c : Contents) (m : Msg) (n : ℕ) (hn : ∀ l, (c l).length < n) : ∀ l, ((spec c m).1 l).length < n + 1 := by
  intro k
  have hk := hn k
  have key : ∀ (l : ℕ) (xs : List ℕ), xs.length ≤ (c l).length + 1 → (Function.update c l xs k).length < n + 1 := by
    intro l xs hxs
    by_cases h : k = l
    · subst h; rw [Function.update_self]; omega
    · rw [Function.update_of_ne h]; omega
  cases m with
  | addFirst l x => exact key l _ (by simp)
  | addLast l x => exact key l _ (by simp)
  | removeFirst l => exact key l _ (by simp; omega)
  | removeLast l => exact key l _ (by simp; omega)
  | remove l x =>
    show ((if x ∈ c l then (Function.update c l ((c l).erase x), x) else (c, 0)).1 k).length < n + 1
    split
    · exact key l ((c l).erase x) (by have := List.length_erase_le (a := x) (l := c l); omega)
    · show (c k).length < n + 1; omega

/-- Any messages, to any lists. -/
theorem run_spec : ∀ (ms : List Msg) (h : Heap) (c : Contents) (n : ℕ), Rep h c → (∀ l, (c l).length + ms.length < n) → AllOk c ms →
    ∃ h', run n h ms = some (h', (specRun c ms).2) ∧ Rep h' (specRun c ms).1 := by
  intro ms
  induction ms with
  | nil => intro h c n r _ _; exact ⟨h, rfl, r⟩
  | cons m ms ih =>
    intro h c n r hn hok
    obtain ⟨h1, e1, r1⟩ := step_spec r n (fun l => by have := hn l; simp at this; omega) m hok.1
    obtain ⟨k, rfl⟩ : ∃ k, n = k + (ms.length + 1) := ⟨n - (ms.length + 1), by have := hn 0; simp at this; omega⟩
    obtain ⟨h2, e2, r2⟩ := ih h1 (spec c m).1 (k + (ms.length + 1)) r1 (fun l => by
      have := spec_length c m k (fun l => by have := hn l; simp at this; omega) l
      omega) hok.2
    refine ⟨h2, ?_, r2⟩
    show ((step _ h m).bind fun r => (run _ r.1 ms).map fun s => (s.1, r.2 :: s.2)) = _
    rw [e1, Option.bind_some, e2]
    rfl

/-- Empty lists, and links that were just made. -/
def fresh : Heap := ⟨fun _ => 0, fun _ => 0, fun _ => 0⟩

theorem fresh_rep : Rep fresh fun _ => [] := ⟨fun _ => rfl, fun _ => rfl, fun _ => List.nodup_nil, fun _ _ _ _ h => by simp at h, fun _ _ _ => rfl⟩

/-- What one sees of a list. -/
theorem enumerate {h : Heap} {c : Contents} (r : Rep h c) (n l : ℕ) (hn : (c l).length < n) :
    doList n h l = .done (c l) ∧ size n h l = .done (c l).length ∧ (last h l = if c l = [] then .absent else .done ((c l).getLastD 0)) ∧
      ∀ i, at' n h l i = if 1 ≤ i ∧ i ≤ (c l).length then .done ((c l).getD (i - 1) 0) else .absent := by
  have hdo : ∀ (xs : List ℕ) (x n : ℕ), Chain h.nextLink x (x :: xs) 0 → xs.length < n → linkDo h.nextLink n x = .done (x :: xs) := by
    intro xs
    induction xs with
    | nil =>
      rintro x n ⟨-, -, h1⟩ hn
      have h1 : h.nextLink x = 0 := h1
      cases n with
      | zero => omega
      | succ n => unfold linkDo; rw [if_pos h1]
    | cons y ys ih =>
      rintro x n ⟨-, -, h1, h2, h3⟩ hn
      cases n with
      | zero => omega
      | succ n =>
        unfold linkDo
        rw [if_neg (by rw [h1]; exact h2), h1, ih y n ⟨rfl, h2, h3⟩ (by simp at hn; omega)]
  have hsz : ∀ (xs : List ℕ) (x n k : ℕ), Chain h.nextLink x (x :: xs) 0 → xs.length < n → sizeLoop h.nextLink n x k = .done (xs.length + k) := by
    intro xs
    induction xs with
    | nil =>
      rintro x n k ⟨-, -, h1⟩ hn
      have h1 : h.nextLink x = 0 := h1
      cases n with
      | zero => omega
      | succ n => unfold sizeLoop; rw [if_pos h1]; simp
    | cons y ys ih =>
      rintro x n k ⟨-, -, h1, h2, h3⟩ hn
      cases n with
      | zero => omega
      | succ n =>
        unfold sizeLoop
        rw [if_neg (by rw [h1]; exact h2), h1, ih y n (k + 1) ⟨rfl, h2, h3⟩ (by simp at hn; omega)]
        congr 1
        simp
        omega
  have hat : ∀ (xs : List ℕ) (x n i j : ℕ), Chain h.nextLink x (x :: xs) 0 → xs.length < n → j ≤ i →
      atLoop h.nextLink i n j x = if i - j < (x :: xs).length then .done ((x :: xs).getD (i - j) 0) else .absent := by
    intro xs
    induction xs with
    | nil =>
      rintro x n i j ⟨-, -, h1⟩ hn hj
      have h1 : h.nextLink x = 0 := h1
      cases n with
      | zero => omega
      | succ n =>
        unfold atLoop
        by_cases hij : j = i
        · subst hij; rw [if_pos rfl, if_pos (by simp)]; simp
        · rw [if_neg hij, if_pos h1, if_neg (by simp; omega)]
    | cons y ys ih =>
      rintro x n i j ⟨-, -, h1, h2, h3⟩ hn hj
      cases n with
      | zero => omega
      | succ n =>
        unfold atLoop
        by_cases hij : j = i
        · subst hij; rw [if_pos rfl, if_pos (by simp)]; simp
        · rw [if_neg hij, if_neg (by rw [h1]; exact h2), h1, ih y n i (j + 1) ⟨rfl, h2, h3⟩ (by simp at hn; omega) (by omega)]
          rw [show i - j = (i - (j + 1)) + 1 by omega]
          by_cases hlt : i - (j + 1) < (y :: ys).length
          · rw [if_pos hlt, if_pos (by simp at hlt ⊢; omega)]; simp
          · rw [if_neg hlt, if_neg (by simp at hlt ⊢; omega)]
  cases hc : c l with
  | nil =>
    have h1 := (r.empty l).2 hc
    refine ⟨by unfold doList; rw [if_pos h1], by unfold size; rw [if_pos h1]; rfl, by unfold last; rw [if_pos h1]; rfl, ?_⟩
    intro i
    unfold at'
    rw [if_pos h1, if_neg (by simp; omega)]
  | cons x xs =>
    have hne : ¬ h.firstLink l = 0 := fun h1 => by have := (r.empty l).1 h1; rw [hc] at this; cases this
    have hf : h.firstLink l = x := by rw [r.first, hc]; rfl
    have hch := r.chain l
    rw [hc, hf] at hch
    rw [hc] at hn
    have hn' : xs.length < n := by simp at hn; omega
    refine ⟨by unfold doList; rw [if_neg hne, hf, hdo xs x n hch hn'], by unfold size; rw [if_neg hne, hf, hsz xs x n 1 hch hn']; rfl,
      by unfold last; rw [if_neg hne, r.last l, hc]; simp, ?_⟩
    intro i
    unfold at'
    rw [if_neg hne, hf]
    by_cases hi : i ≥ 1
    · rw [if_pos hi, hat xs x n i 1 hch hn' hi]
      by_cases h2 : i - 1 < (x :: xs).length
      · rw [if_pos h2, if_pos ⟨hi, by omega⟩]
      · rw [if_neg h2, if_neg (by omega)]
    · rw [if_neg hi, if_neg (by omega)]

/-- Missing: links that are in a list already, links that were made with a next one, and `remove: nil` (see below).

After any messages to lists that were empty, `do:`, `size` and `at:` show the sequence, and each message answered as it should. -/
theorem lists_partial (ms : List Msg) (hok : AllOk (fun _ => []) ms) : ∃ h', run (ms.length + 1) fresh ms = some (h', (specRun (fun _ => []) ms).2) ∧
    ∀ l n, ((specRun (fun _ => []) ms).1 l).length < n → doList n h' l = .done ((specRun (fun _ => []) ms).1 l) ∧
      size n h' l = .done ((specRun (fun _ => []) ms).1 l).length ∧
      ∀ i, at' n h' l i = if 1 ≤ i ∧ i ≤ ((specRun (fun _ => []) ms).1 l).length then .done (((specRun (fun _ => []) ms).1 l).getD (i - 1) 0) else .absent := by
  obtain ⟨h', h1, h2⟩ := run_spec ms fresh (fun _ => []) (ms.length + 1) fresh_rep (by simp) hok
  refine ⟨h', h1, fun l n hn => ?_⟩
  obtain ⟨a, b, -, d⟩ := enumerate h2 n l hn
  exact ⟨a, b, d⟩

example : AllOk (fun _ => []) [.addLast 1 5, .addFirst 1 6, .addLast 2 7, .remove 1 7, .remove 1 5, .addLast 2 5, .removeLast 2] ∧
    (specRun (fun _ => []) [.addLast 1 5, .addFirst 1 6, .addLast 2 7, .remove 1 7, .remove 1 5, .addLast 2 5, .removeLast 2]).2 = [5, 6, 7, 0, 5, 5, 5] := by
  refine ⟨?_, by decide⟩
  have key : ∀ (c : Contents) (x : ℕ), x ≠ 0 → c 1 = [] ∨ x ∉ c 1 → x ∉ c 2 → (∀ m, m ≠ 1 → m ≠ 2 → c m = []) → x ≠ 0 ∧ ∀ l, x ∉ c l := by
    intro c x h0 h1 h2 h3
    refine ⟨h0, fun l => ?_⟩
    by_cases e1 : l = 1
    · subst e1; rcases h1 with h1 | h1
      · rw [h1]; simp
      · exact h1
    · by_cases e2 : l = 2
      · subst e2; exact h2
      · rw [h3 l e1 e2]; simp
  have hz : ∀ m : ℕ, m ≠ 1 → m ≠ 2 → ∀ (a b : List ℕ), Function.update (Function.update (fun _ => ([] : List ℕ)) 1 a) 2 b m = [] := by
    intro m h1 h2 a b; simp [h1, h2]
  refine ⟨key _ _ (by decide) (.inl rfl) (by decide) (by intros; rfl), key _ _ (by decide) (.inr (by decide)) (by decide) ?_,
    key _ _ (by decide) (.inr (by decide)) (by decide) ?_, by show (7 : ℕ) ≠ 0; decide, by show (5 : ℕ) ≠ 0; decide,
    key _ _ (by decide) (.inr (by decide)) (by decide) ?_, trivial, trivial⟩ <;>
  · intro m h1 h2
    simp [spec, h1, h2]

/-- A link that is in a list: when it is added at the end again the list has no end, and when it is added to another list the two are
entangled: after its removal from the second list the first has lost what followed. -/
theorem twice_fails : (∀ n, size n (addLast (addLast fresh 1 5) 1 5) 1 = .endless) ∧
    (run 9 fresh [.addLast 1 5, .addLast 1 6, .addLast 2 5, .remove 2 5]).map (fun r => (doList 9 r.1 1, doList 9 r.1 2)) =
      some (.done [5], .done [6]) := by
  refine ⟨?_, by decide⟩
  have key : ∀ n k, sizeLoop (addLast (addLast fresh 1 5) 1 5).nextLink n 5 k = .endless := by
    intro n
    induction n with
    | zero => intro k; rfl
    | succ n ih => intro k; exact ih (k + 1)
  intro n
  exact key n 1

/-- A link that was made with a next one brings it along, and `last` is not the last. -/
theorem next_fails : doList 9 (addLast (fresh.setNext 5 6) 1 5) 1 = .done [5, 6] ∧ last (addLast (fresh.setNext 5 6) 1 5) 1 = .done 5 := by
  decide

/-- `nil` is in no list, yet its removal does not evaluate the block. -/
theorem nil_fails : remove 9 (addLast fresh 1 5) 1 0 = .wrong := by
  rfl

end Verif.Links
