import Verif.Getopt.Proofs

/-! # Names and command lines -/

namespace Verif.Getopt

/-- What is left of the pattern. -/
def final (ws : List Word) : Tbl := rejectBadPrefixes (mk (table ws))

theorem mem_table (ws : List Word) (x : Key × Val) : x ∈ table ws ↔ ∃ w ∈ ws, x ∈ entries w := by
  simp [table]

theorem mem_entries (w : Word) (k : Key) (v : Val) : (k, v) ∈ entries w ↔ (k = w.last ∧ v = .kind w.kind) ∨ (k ∈ w.others ∧ v = .name w.last) := by
  unfold entries
  simp only [List.mem_append, List.mem_map, List.mem_reverse, List.mem_singleton, Prod.mk.injEq]
  constructor
  · rintro (⟨a, h1, rfl, rfl⟩ | ⟨rfl, rfl⟩)
    · exact .inr ⟨h1, rfl⟩
    · exact .inl ⟨rfl, rfl⟩
  · rintro (⟨rfl, rfl⟩ | ⟨h1, rfl⟩)
    · exact .inr ⟨rfl, rfl⟩
    · exact .inl ⟨k, h1, rfl, rfl⟩

theorem find_nodup : ∀ (e : List (Key × Val)) (k : Key) (v : Val), (e.map (·.1)).Nodup → (k, v) ∈ e → (e.find? fun x => x.1 = k).map (·.2) = some v := by
  intro e k v hn h
  induction e with
  | nil => cases h
  | cons x e ih =>
    rw [List.map_cons, List.nodup_cons] at hn
    rcases List.mem_cons.1 h with rfl | h
    · simp
    · have hne : x.1 ≠ k := fun he => hn.1 (by rw [he]; exact List.mem_map_of_mem h)
      rw [List.find?_cons_of_neg (by simpa using hne)]
      exact ih hn.2 h

theorem final_at (ws : List Word) (hv : Valid ws) {w : Word} (hw : w ∈ ws) :
    (final ws).at w.last = some (.kind w.kind) ∧ ∀ k ∈ w.others, (final ws).at k = some (.name w.last) := by
  have hn : ((table ws).map (·.1)).Nodup := (table_keys ws).nodup_iff.2 hv.2
  exact ⟨find_nodup _ _ _ hn ((mem_table ws _).2 ⟨w, hw, (mem_entries _ _ _).2 (.inl ⟨rfl, rfl⟩)⟩),
    fun k hk => find_nodup _ _ _ hn ((mem_table ws _).2 ⟨w, hw, (mem_entries _ _ _).2 (.inr ⟨hk, rfl⟩)⟩)⟩

theorem kind_spec (ws : List Word) (hv : Valid ws) (k : Key) :
    (∃ kd c, Has ws k kd c ∧ optionKind (final ws) k = some (some (.kind kd)) ∧ optionName (final ws) k = some c) ∨
      ((¬ ∃ kd c, Has ws k kd c) ∧ optionKind (final ws) k = none) := by
  by_cases h : k ∈ ws.flatMap Word.keys
  · obtain ⟨w, hw, hk⟩ := List.mem_flatMap.1 h
    refine .inl ⟨w.kind, w.last, ⟨w, hw, hk, rfl, rfl⟩, ?_⟩
    obtain ⟨h1, h2⟩ := final_at ws hv hw
    rcases List.mem_append.1 hk with ho | hl
    · unfold optionKind optionName
      rw [h2 k ho]
      exact ⟨by dsimp only; rw [h1], rfl⟩
    · rw [List.mem_singleton.1 hl]
      unfold optionKind optionName
      rw [h1]
      exact ⟨rfl, rfl⟩
  · refine .inr ⟨?_, ?_⟩
    · rintro ⟨kd, c, w, hw, hk, -, -⟩
      exact h (List.mem_flatMap.2 ⟨w, hw, hk⟩)
    · have hat : (final ws).at k = none := by
        unfold Tbl.at
        rw [Option.map_eq_none_iff, List.find?_eq_none]
        intro x hx hxk
        apply h
        rw [← (table_keys ws).mem_iff, ← of_decide_eq_true hxk]
        exact List.mem_map_of_mem hx
      unfold optionKind
      rw [hat]

theorem has_kind {ws : List Word} (hv : Valid ws) {k c : Key} {kd : Kind} (h : Has ws k kd c) :
    optionKind (final ws) k = some (some (.kind kd)) ∧ optionName (final ws) k = some c := by
  obtain ⟨w, hw, hk, rfl, rfl⟩ := h
  obtain ⟨h1, h2⟩ := final_at ws hv hw
  rcases List.mem_append.1 hk with ho | hl
  · unfold optionKind optionName
    rw [h2 k ho]
    exact ⟨by dsimp only; rw [h1], rfl⟩
  · rw [List.mem_singleton.1 hl]
    unfold optionKind optionName
    rw [h1]
    exact ⟨rfl, rfl⟩

/-! ### Prefixes -/

theorem mem_longs (ws : List Word) (s : List Char) : s ∈ longs (table ws) ↔ IsLong ws s := by
  unfold IsLong longs
  rw [← (table_keys ws).mem_iff, List.mem_filterMap, List.mem_map]
  constructor
  · rintro ⟨x, hx, h⟩
    refine ⟨x, hx, ?_⟩
    cases hk : x.1 with
    | short c => rw [hk] at h; cases h
    | long u => rw [hk] at h; exact congrArg Key.long (Option.some.inj h)
  · rintro ⟨x, hx, h⟩
    exact ⟨x, hx, by rw [h]; rfl⟩

theorem longs_nodup (ws : List Word) (hv : Valid ws) : (longs (table ws)).Nodup := by
  have hn : ((table ws).map (·.1)).Nodup := (table_keys ws).nodup_iff.2 hv.2
  have e : longs (table ws) = ((table ws).map (·.1)).filterMap longName := by
    unfold longs; rw [List.filterMap_map]; rfl
  rw [e]
  refine List.Nodup.filterMap ?_ hn
  intro a b s ha hb
  cases a <;> cases b <;> simp_all [longName]

theorem mem_prefs (s k : List Char) : s ∈ prefs k ↔ s ≠ [] ∧ s <+: k := by
  unfold prefs
  simp only [List.mem_map, List.mem_range'_1]
  constructor
  · rintro ⟨n, hn, rfl⟩
    refine ⟨?_, List.take_prefix _ _⟩
    intro h
    rw [List.take_eq_nil_iff] at h
    rcases h with h | h
    · omega
    · subst h; simp at hn; omega
  · rintro ⟨h1, h2⟩
    refine ⟨s.length, ?_, ?_⟩
    · have := List.length_pos_of_ne_nil h1
      have := h2.length_le
      omega
    · exact (List.prefix_iff_eq_take.1 h2).symm

theorem prefs_nodup (k : List Char) : (prefs k).Nodup := by
  unfold prefs
  apply List.Nodup.map_on _ List.nodup_range'
  intro a ha b hb h
  rw [List.mem_range'_1] at ha hb
  have := congrArg List.length h
  rw [List.length_take, List.length_take] at this
  omega

theorem count_prefs (s : List Char) (hs : s ≠ []) (l : List (List Char)) :
    (l.flatMap prefs).count s = l.countP fun k => s.isPrefixOf k := by
  induction l with
  | nil => rfl
  | cons k l ih =>
    rw [List.flatMap_cons, List.count_append, ih, List.countP_cons, Nat.add_comm]
    congr 1
    by_cases h : s <+: k
    · rw [if_pos (List.isPrefixOf_iff_prefix.2 h)]
      exact List.count_eq_one_of_mem (prefs_nodup k) ((mem_prefs s k).2 ⟨hs, h⟩)
    · rw [if_neg (by rw [List.isPrefixOf_iff_prefix]; exact h)]
      exact List.count_eq_zero_of_not_mem fun hm => h ((mem_prefs s k).1 hm).2

theorem countP_one {α : Type} (p : α → Bool) : ∀ (l : List α), l.Nodup → l.countP p = 1 → ∃ k ∈ l, p k = true ∧ ∀ k' ∈ l, p k' = true → k' = k := by
  intro l
  induction l with
  | nil => intro _ h; simp at h
  | cons k l ih =>
    intro hn h
    rw [List.countP_cons] at h
    by_cases hk : p k = true
    · rw [if_pos hk] at h
      have h0 : l.countP p = 0 := by omega
      rw [List.countP_eq_zero] at h0
      refine ⟨k, by simp, hk, ?_⟩
      intro k' hk' hp
      rcases List.mem_cons.1 hk' with rfl | hk'
      · rfl
      · exact absurd hp (h0 k' hk')
    · rw [if_neg hk] at h
      obtain ⟨m, h1, h2, h3⟩ := ih (List.nodup_cons.1 hn).2 (by omega)
      refine ⟨m, by simp [h1], h2, ?_⟩
      intro k' hk' hp
      rcases List.mem_cons.1 hk' with rfl | hk'
      · exact absurd hp hk
      · exact h3 k' hk' hp

theorem one_countP {α : Type} (p : α → Bool) (l : List α) (hn : l.Nodup) {k : α} (hk : k ∈ l) (hp : p k = true) (hu : ∀ k' ∈ l, p k' = true → k' = k) :
    l.countP p = 1 := by
  induction l with
  | nil => cases hk
  | cons x l ih =>
    rw [List.countP_cons]
    rw [List.nodup_cons] at hn
    by_cases hx : p x = true
    · have hxk := hu x (by simp) hx
      subst hxk
      rw [if_pos hx]
      have : l.countP p = 0 := by
        rw [List.countP_eq_zero]
        intro y hy hpy
        have := hu y (by simp [hy]) hpy
        exact hn.1 (this ▸ hy)
      omega
    · rw [if_neg hx]
      rcases List.mem_cons.1 hk with rfl | hk
      · exact absurd hp hx
      · exact ih hn.2 hk fun k' hk' => hu k' (by simp [hk'])

theorem final_prefixes (ws : List Word) (hv : Valid ws) (s : List Char) : s ∈ (final ws).prefixes ↔ ∃ k, Full ws s k := by
  have hmem : s ∈ (longs (table ws)).flatMap prefs ↔ s ≠ [] ∧ ∃ k, IsLong ws k ∧ s <+: k := by
    rw [List.mem_flatMap]
    constructor
    · rintro ⟨k, hk, h⟩
      obtain ⟨h1, h2⟩ := (mem_prefs s k).1 h
      exact ⟨h1, k, (mem_longs ws k).1 hk, h2⟩
    · rintro ⟨h1, k, hk, h2⟩
      exact ⟨k, (mem_longs ws k).2 hk, (mem_prefs s k).2 ⟨h1, h2⟩⟩
  have hne : ∀ k, IsLong ws k → k ≠ [] := by
    intro k hk
    obtain ⟨w, hw, h⟩ := List.mem_flatMap.1 hk
    exact (hv.1 w hw _ h).1
  unfold final rejectBadPrefixes mk
  dsimp only
  rw [List.mem_filter, List.mem_dedup, hmem, Bool.or_eq_true, beq_iff_eq, decide_eq_true_eq, mem_longs]
  constructor
  · rintro ⟨⟨h0, k, hk, hp⟩, h | h⟩
    · rw [count_prefs s h0] at h
      obtain ⟨m, h1, h2, h3⟩ := countP_one _ _ (longs_nodup ws hv) h
      exact ⟨m, .inr ⟨h0, (mem_longs ws m).1 h1, List.isPrefixOf_iff_prefix.1 h2, fun k' hk' hp' =>
        h3 k' ((mem_longs ws k').2 hk') (List.isPrefixOf_iff_prefix.2 hp')⟩⟩
    · exact ⟨s, .inl ⟨h, rfl⟩⟩
  · rintro ⟨k, ⟨h, rfl⟩ | ⟨h0, h1, h2, h3⟩⟩
    · exact ⟨⟨hne _ h, k, h, List.prefix_refl _⟩, .inr h⟩
    · refine ⟨⟨h0, k, h1, h2⟩, .inl ?_⟩
      rw [count_prefs s h0]
      exact one_countP _ _ (longs_nodup ws hv) ((mem_longs ws k).2 h1) (List.isPrefixOf_iff_prefix.2 h2) fun k' hk' hp' =>
        h3 k' ((mem_longs ws k').1 hk') (List.isPrefixOf_iff_prefix.1 hp')

theorem find_sorted (s : List Char) : ∀ (l : List (List Char)), l.Pairwise (fun a b => a.length ≤ b.length) → s ∈ l →
    l.find? (fun k => s.isPrefixOf k) = some s := by
  intro l
  induction l with
  | nil => intro _ h; cases h
  | cons k l ih =>
    intro hp hs
    rw [List.pairwise_cons] at hp
    by_cases hk : s.isPrefixOf k = true
    · rw [List.find?_cons_of_pos hk]
      have hpre := List.isPrefixOf_iff_prefix.1 hk
      rcases List.mem_cons.1 hs with h | h
      · rw [h]
      · have h1 := hp.1 s h
        rw [hpre.eq_of_length (le_antisymm hpre.length_le h1)]
    · rw [List.find?_cons_of_neg hk]
      rcases List.mem_cons.1 hs with h | h
      · exact absurd (List.isPrefixOf_iff_prefix.2 (by rw [h])) hk
      · exact ih hp.2 h

theorem full_name {ws : List Word} (hv : Valid ws) {s k : List Char} (h : Full ws s k) : fullOptionName (final ws) s = some (some k) := by
  unfold fullOptionName
  rw [if_pos ((final_prefixes ws hv s).2 ⟨k, h⟩)]
  congr 1
  have hm : ∀ x, x ∈ (final ws).longOptions ↔ IsLong ws x := by
    intro x
    unfold final rejectBadPrefixes mk
    dsimp only
    rw [List.mem_insertionSort, mem_longs]
  have hs : (final ws).longOptions.Pairwise (fun a b => a.length ≤ b.length) := by
    unfold final rejectBadPrefixes mk
    dsimp only
    have : Std.Total (fun a b : List Char => a.length ≤ b.length) := ⟨fun a b => Nat.le_total _ _⟩
    have : IsTrans (List Char) (fun a b : List Char => a.length ≤ b.length) := ⟨fun a b c => Nat.le_trans⟩
    exact List.pairwise_insertionSort _ _
  rcases h with ⟨h, rfl⟩ | ⟨h0, h1, h2, h3⟩
  · exact find_sorted _ _ hs ((hm _).2 h)
  · cases hf : (final ws).longOptions.find? (fun k => s.isPrefixOf k) with
    | none =>
      rw [List.find?_eq_none] at hf
      exact absurd (List.isPrefixOf_iff_prefix.2 h2) (hf k ((hm k).2 h1))
    | some m =>
      congr 1
      exact h3 m ((hm m).1 (List.mem_of_find?_eq_some hf)) (List.isPrefixOf_iff_prefix.1 (List.find?_some hf))

theorem full_none {ws : List Word} (hv : Valid ws) {s : List Char} (h : ¬ ∃ k, Full ws s k) : fullOptionName (final ws) s = none := by
  unfold fullOptionName
  rw [if_neg fun hs => h ((final_prefixes ws hv s).1 hs)]

/-! ### Short options -/

theorem finish_ok {ws : List Word} (hv : Valid ws) {k c : Key} {kd : Kind} (h : Has ws k kd c) (arg : Option (List Char)) (ha : kd = .noArg → arg = none)
    (acts : List Act) (args : List (List Char)) :
    finishOption (final ws) k (.kind kd) arg acts args = .done (acts ++ [⟨some c, arg⟩]) args := by
  unfold finishOption
  rw [if_neg (by rintro ⟨h1, h2⟩; cases h1; exact h2 (ha rfl)), (has_kind hv h).2]

theorem shorts_complete {ws : List Word} (hv : Valid ws) {cs : List Char} {args rest : List (List Char)} {acts : List Act}
    (h : Shorts ws cs args acts rest) : ∀ acts0, parseShort (final ws) cs acts0 args = .done (acts0 ++ acts) rest := by
  induction h with
  | nil => intro acts0; simp [parseShort]
  | flag hh _ ih =>
    intro acts0
    unfold parseShort
    rw [(has_kind hv hh).1]
    dsimp only
    rw [if_neg (by simp)]
    unfold parseOption
    rw [if_neg (by simp), finish_ok hv hh _ (fun _ => rfl)]
    unfold Out.andThen
    dsimp only
    rw [ih]
    simp
  | arg hh hk hc =>
    intro acts0
    unfold parseShort
    rw [(has_kind hv hh).1]
    dsimp only
    rw [if_pos ⟨by intro he; cases he; exact hk rfl, hc⟩]
    unfold parseOption
    rw [if_neg (by simp), finish_ok hv hh _ (fun he => absurd he hk)]
  | next hh =>
    intro acts0
    unfold parseShort
    rw [(has_kind hv hh).1]
    dsimp only
    rw [if_neg (by simp)]
    unfold parseOption
    rw [if_pos ⟨rfl, rfl⟩]
    dsimp only
    rw [finish_ok hv hh _ (by simp)]
    rfl
  | none hh =>
    intro acts0
    unfold parseShort
    rw [(has_kind hv hh).1]
    dsimp only
    rw [if_neg (by simp)]
    unfold parseOption
    rw [if_neg (by simp), finish_ok hv hh _ (fun _ => rfl)]
    rfl

theorem shorts_sound {ws : List Word} (hv : Valid ws) : ∀ (cs : List Char) (acts0 : List Act) (args : List (List Char)),
    (∃ acts rest, parseShort (final ws) cs acts0 args = .done (acts0 ++ acts) rest ∧ Shorts ws cs args acts rest ∧ rest.length ≤ args.length ∧
      ∀ a ∈ rest, a ∈ args) ∨ ∃ e, parseShort (final ws) cs acts0 args = .error e := by
  intro cs
  induction cs with
  | nil => intro acts0 args; exact .inl ⟨[], args, by simp [parseShort], .nil, le_refl _, fun a h => h⟩
  | cons ch cs ih =>
    intro acts0 args
    rcases kind_spec ws hv (.short ch) with ⟨kd, c, hh, h1, h2⟩ | ⟨-, h1⟩
    · by_cases hk : kd = .noArg
      · subst hk
        rcases ih (acts0 ++ [⟨some c, none⟩]) args with ⟨acts, rest, h3, h4, h5, h6⟩ | ⟨e, h3⟩
        · refine .inl ⟨⟨some c, none⟩ :: acts, rest, ?_, .flag hh h4, h5, h6⟩
          unfold parseShort
          rw [h1]
          dsimp only
          rw [if_neg (by simp)]
          unfold parseOption
          rw [if_neg (by simp), finish_ok hv hh _ (fun _ => rfl)]
          unfold Out.andThen
          dsimp only
          rw [h3]
          simp
        · refine .inr ⟨e, ?_⟩
          unfold parseShort
          rw [h1]
          dsimp only
          rw [if_neg (by simp)]
          unfold parseOption
          rw [if_neg (by simp), finish_ok hv hh _ (fun _ => rfl)]
          exact h3
      · by_cases hc : cs = []
        · subst hc
          cases kd with
          | noArg => exact absurd rfl hk
          | optionalArg => exact .inl ⟨_, args, shorts_complete hv (.none hh) acts0, .none hh, le_refl _, fun a h => h⟩
          | mandatoryArg =>
            cases args with
            | nil =>
              refine .inr ⟨acts0, ?_⟩
              unfold parseShort
              rw [h1]
              rfl
            | cons a args => exact .inl ⟨_, args, shorts_complete hv (.next hh) acts0, .next hh, by simp, fun b h => by simp [h]⟩
        · exact .inl ⟨_, args, shorts_complete hv (.arg hh hk hc) acts0, .arg hh hk hc, le_refl _, fun a h => h⟩
    · refine .inr ⟨acts0, ?_⟩
      unfold parseShort
      rw [h1]

/-! ### Long options -/

theorem long_equals (t : Tbl) (s v : List Char) (hs : '=' ∉ s) (acts : List Act) (args : List (List Char)) :
    parseLong t ('-' :: '-' :: s ++ '=' :: v) 2 acts args = match fullOptionName t s with
      | none => .error acts
      | some none => .wrong
      | some (some k) => match optionKind t (.long k) with
        | none => .error acts
        | some none => .wrong
        | some (some kd) => parseOption t (.long k) kd (some v) acts args := by
  unfold parseLong
  have hd : ('-' :: '-' :: s ++ '=' :: v).drop 2 = s ++ '=' :: v := rfl
  have ht : (s ++ '=' :: v).takeWhile (fun c => decide (c ≠ '=')) = s := by
    rw [List.takeWhile_append_of_pos (by intro c hc; simp only [decide_eq_true_eq]; rintro rfl; exact hs hc)]
    simp
  dsimp only
  rw [hd, ht, if_pos (show '=' ∈ s ++ '=' :: v by simp)]
  have hq : ('-' :: '-' :: s ++ '=' :: v)[2 + s.length + 1 - 1]? = some '=' := by
    rw [show 2 + s.length + 1 - 1 = s.length + 1 + 1 by omega]
    show (s ++ '=' :: v)[s.length]? = _
    simp
  have hr : ('-' :: '-' :: s ++ '=' :: v).drop (2 + s.length + 1 - 1 + 1) = v := by
    have : 2 + s.length + 1 - 1 + 1 = ('-' :: '-' :: s ++ ['=']).length := by simp; omega
    rw [this, show '-' :: '-' :: s ++ '=' :: v = ('-' :: '-' :: s ++ ['=']) ++ v by simp, List.drop_left]
  rw [if_pos hq, hr]
  rfl

theorem long_alone (t : Tbl) (s : List Char) (hs : '=' ∉ s) (acts : List Act) (args : List (List Char)) :
    parseLong t ('-' :: '-' :: s) 2 acts args = match fullOptionName t s with
      | none => .error acts
      | some none => .wrong
      | some (some k) => match optionKind t (.long k) with
        | none => .error acts
        | some none => .wrong
        | some (some kd) => parseOption t (.long k) kd none acts args := by
  unfold parseLong
  have hd : ('-' :: '-' :: s).drop 2 = s := rfl
  have ht : s.takeWhile (fun c => decide (c ≠ '=')) = s := by
    have := List.takeWhile_append_of_pos (p := fun c => decide (c ≠ '=')) (l₁ := s) (l₂ := [])
      (by intro c hc; simp only [decide_eq_true_eq]; rintro rfl; exact hs hc)
    simpa using this
  dsimp only
  rw [hd, ht, if_neg hs]
  have hq : ('-' :: '-' :: s)[('-' :: '-' :: s).length - 1]? ≠ some '=' := by
    intro h
    have := List.mem_of_getElem? h
    simp [hs] at this
  rw [if_neg hq]
  rfl

theorem split_equals (xs : List Char) : '=' ∉ xs ∨ ∃ s v, '=' ∉ s ∧ xs = s ++ '=' :: v := by
  by_cases h : '=' ∈ xs
  · right
    obtain ⟨s, v, rfl, hs⟩ := List.eq_append_cons_of_mem h
    exact ⟨s, v, hs, rfl⟩
  · exact .inl h

/-! ### Lines -/

/-- No argument is a minus and a new line. -/
def NoNewLine (args : List (List Char)) : Prop := ∀ a ∈ args, ¬ ['-', '\n'] <+: a

theorem plain_iff (a : List Char) (hn : ¬ ['-', '\n'] <+: a) : plainArg a = true ↔ (a = [] ∨ a = ['-'] ∨ a.head? ≠ some '-') := by
  cases a with
  | nil => simp [plainArg]
  | cons c cs =>
    by_cases hc : c = '-'
    · subst hc
      cases cs with
      | nil => simp [plainArg]
      | cons d ds =>
        have hd : d ≠ '\n' := by
          rintro rfl
          exact hn ⟨ds, rfl⟩
        simp [plainArg, hd]
    · constructor
      · intro _; exact .inr (.inr (by simpa using hc))
      · intro _
        unfold plainArg
        split <;> simp_all

theorem line_complete {ws : List Word} (hv : Valid ws) {args : List (List Char)} {acts : List Act} (h : Line ws args acts) :
    NoNewLine args → ∀ (n : ℕ) (acts0 : List Act), args.length ≤ n → parseLoop (final ws) n acts0 args = .done (acts0 ++ acts) [] := by
  have long_ne : ∀ {s k}, Full ws s k → s ≠ [] := by
    rintro s k (⟨h1, -⟩ | ⟨h0, -⟩)
    · obtain ⟨w, hw, h⟩ := List.mem_flatMap.1 h1
      exact (hv.1 w hw _ h).1
    · exact h0
  have step : ∀ (n : ℕ) (acts0 a : List Act) (x : List Char) (args rest : List (List Char)), (x :: args).length ≤ n →
      parseOne (final ws) x acts0 args = .done a rest →
      parseLoop (final ws) n acts0 (x :: args) = parseLoop (final ws) (n - 1) a rest := by
    intro n acts0 a x args rest hn h
    cases n with
    | zero => simp at hn
    | succ n =>
      show (parseOne (final ws) x acts0 args).andThen _ = _
      rw [h]
      rfl
  have noplain : ∀ c cs, c ≠ '\n' → plainArg ('-' :: c :: cs) = false := by
    intro c cs hc; simp [plainArg, hc]
  induction h with
  | nil => intro _ n acts0 _; cases n <;> simp [parseLoop]
  | @plain a args acts ha _ ih =>
    intro hn n acts0 hl
    have hdd : a ≠ ['-', '-'] := by rintro rfl; simp at ha
    have := (plain_iff a (hn a (by simp))).2 ha
    rw [step n acts0 (acts0 ++ [⟨none, some a⟩]) a args args hl (by unfold parseOne; rw [if_neg hdd, if_pos this]),
      ih (fun b hb => hn b (by simp [hb])) _ _ (by simp at hl; omega)]
    simp
  | @dashes args =>
    intro hn n acts0 hl
    rw [step n acts0 _ _ args [] hl (by unfold parseOne; rw [if_pos rfl])]
    cases n - 1 <;> simp [parseLoop]
  | @equals s k kd nm v args acts hs hf hh hk _ ih =>
    intro hn n acts0 hl
    rw [step n acts0 (acts0 ++ [⟨some nm, some v⟩]) _ args args hl, ih (fun b hb => hn b (by simp [hb])) _ _ (by simp at hl; omega)]
    · simp
    · unfold parseOne
      rw [if_neg (by intro he; have := long_ne hf; simp [this] at he), if_neg (by rw [List.cons_append, List.cons_append, noplain _ _ (by decide)]; simp), if_pos (by rfl),
        long_equals _ _ _ hs, full_name hv hf]
      dsimp only
      rw [(has_kind hv hh).1]
      dsimp only
      unfold parseOption
      rw [if_neg (by simp), finish_ok hv hh _ (fun he => absurd he hk)]
  | @next s k nm a args acts hs hf hh _ ih =>
    intro hn n acts0 hl
    rw [step n acts0 (acts0 ++ [⟨some nm, some a⟩]) _ (a :: args) args hl, ih (fun b hb => hn b (by simp [hb])) _ _ (by simp at hl; omega)]
    · simp
    · unfold parseOne
      rw [if_neg (by intro he; have := long_ne hf; simp [this] at he), if_neg (by rw [noplain _ _ (by decide)]; simp), if_pos (by rfl),
        long_alone _ _ hs, full_name hv hf]
      dsimp only
      rw [(has_kind hv hh).1]
      dsimp only
      unfold parseOption
      rw [if_pos ⟨rfl, rfl⟩]
      dsimp only
      rw [finish_ok hv hh _ (by simp)]
  | @alone s k kd nm args acts hs hf hh hk _ ih =>
    intro hn n acts0 hl
    rw [step n acts0 (acts0 ++ [⟨some nm, none⟩]) _ args args hl, ih (fun b hb => hn b (by simp [hb])) _ _ (by simp at hl; omega)]
    · simp
    · unfold parseOne
      rw [if_neg (by intro he; have := long_ne hf; simp [this] at he), if_neg (by rw [noplain _ _ (by decide)]; simp), if_pos (by rfl),
        long_alone _ _ hs, full_name hv hf]
      dsimp only
      rw [(has_kind hv hh).1]
      dsimp only
      unfold parseOption
      rw [if_neg (by rintro ⟨h1, -⟩; cases h1; exact hk rfl), finish_ok hv hh _ (fun _ => rfl)]
  | @short c cs args acts rest acts' hc hs _ ih =>
    intro hn n acts0 hl
    have hcn : c ≠ '\n' := by
      rintro rfl
      exact hn _ (by simp) ⟨cs, rfl⟩
    have hsub : rest.length ≤ args.length ∧ ∀ a ∈ rest, a ∈ args := by
      rcases shorts_sound hv (c :: cs) acts0 args with ⟨acts1, rest1, h1, -, h2, h3⟩ | ⟨e, h1⟩
      · rw [shorts_complete hv hs] at h1
        have e := (Out.done.inj h1).2
        rw [e]
        exact ⟨h2, h3⟩
      · rw [shorts_complete hv hs] at h1
        cases h1
    rw [step n acts0 (acts0 ++ acts) _ args rest hl, ih (fun b hb => hn b (by simp [hsub.2 b hb])) _ _ (by simp at hl; omega)]
    · simp
    · unfold parseOne
      rw [if_neg (by simp [hc]), if_neg (by rw [noplain _ _ hcn]; simp), if_neg (by simpa using hc)]
      exact shorts_complete hv hs acts0

theorem line_sound {ws : List Word} (hv : Valid ws) : ∀ (n : ℕ) (acts0 : List Act) (args : List (List Char)), args.length ≤ n → NoNewLine args →
    (∃ acts, parseLoop (final ws) n acts0 args = .done (acts0 ++ acts) [] ∧ Line ws args acts) ∨ ∃ e, parseLoop (final ws) n acts0 args = .error e := by
  intro n
  induction n with
  | zero =>
    intro acts0 args hl _
    have : args = [] := List.length_eq_zero_iff.1 (by omega)
    subst this
    exact .inl ⟨[], by simp [parseLoop], .nil⟩
  | succ n ih =>
    intro acts0 args hl hn
    cases args with
    | nil => exact .inl ⟨[], by simp [parseLoop], .nil⟩
    | cons x args =>
      have hl' : args.length ≤ n := by simp at hl; omega
      have hn' : NoNewLine args := fun b hb => hn b (by simp [hb])
      have e0 : parseLoop (final ws) (n + 1) acts0 (x :: args) =
        (parseOne (final ws) x acts0 args).andThen fun acts args => parseLoop (final ws) n acts args := rfl
      have more : ∀ (a : List Act) (rest : List (List Char)), rest.length ≤ n → NoNewLine rest → parseOne (final ws) x acts0 args = .done (acts0 ++ a) rest →
          (∀ acts, Line ws rest acts → Line ws (x :: args) (a ++ acts)) →
          (∃ acts, parseLoop (final ws) (n + 1) acts0 (x :: args) = .done (acts0 ++ acts) [] ∧ Line ws (x :: args) acts) ∨
            ∃ e, parseLoop (final ws) (n + 1) acts0 (x :: args) = .error e := by
        intro a rest h1 h2 h3 h4
        rw [e0, h3]
        rcases ih (acts0 ++ a) rest h1 h2 with ⟨acts, h5, h6⟩ | ⟨e, h5⟩
        · exact .inl ⟨a ++ acts, by rw [← List.append_assoc]; exact h5, h4 acts h6⟩
        · exact .inr ⟨e, h5⟩
      have err : ∀ e, parseOne (final ws) x acts0 args = .error e → ∃ e, parseLoop (final ws) (n + 1) acts0 (x :: args) = .error e := by
        intro e h; rw [e0, h]; exact ⟨e, rfl⟩
      by_cases hdd : x = ['-', '-']
      · subst hdd
        refine .inl ⟨_, ?_, .dashes⟩
        rw [e0]
        unfold parseOne
        rw [if_pos rfl]
        unfold Out.andThen
        cases n <;> rfl
      · by_cases hp : plainArg x = true
        · exact more [⟨none, some x⟩] args hl' hn' (by unfold parseOne; rw [if_neg hdd, if_pos hp])
            fun acts h => .plain ((plain_iff x (hn x (by simp))).1 hp) h
        · have hx : ∃ c cs, x = '-' :: c :: cs := by
            rw [plain_iff x (hn x (by simp))] at hp
            push Not at hp
            cases x with
            | nil => exact absurd rfl hp.1
            | cons d ds =>
              have hd : d = '-' := by simpa using hp.2.2
              subst hd
              cases ds with
              | nil => exact absurd rfl hp.2.1
              | cons c cs => exact ⟨c, cs, rfl⟩
          obtain ⟨c, cs, rfl⟩ := hx
          by_cases hc : c = '-'
          · subst hc
            have hcs : cs ≠ [] := by rintro rfl; exact hdd rfl
            have e1 : parseOne (final ws) ('-' :: '-' :: cs) acts0 args = parseLong (final ws) ('-' :: '-' :: cs) 2 acts0 args := by
              unfold parseOne; rw [if_neg hdd, if_neg hp, if_pos (by rfl)]
            rcases split_equals cs with hs | ⟨s, v, hs, rfl⟩
            · rw [e1, long_alone _ _ hs] at more err
              by_cases hf : ∃ k, Full ws cs k
              · obtain ⟨k, hf⟩ := hf
                rw [full_name hv hf] at more err
                dsimp only at more err
                rcases kind_spec ws hv (.long k) with ⟨kd, nm, hh, h1, h2⟩ | ⟨-, h1⟩
                · rw [h1] at more err
                  dsimp only at more err
                  unfold parseOption at more err
                  by_cases hk : kd = .mandatoryArg
                  · subst hk
                    rw [if_pos ⟨rfl, rfl⟩] at more err
                    cases args with
                    | nil => exact .inr (err _ rfl)
                    | cons a args =>
                      dsimp only at more err
                      rw [finish_ok hv hh _ (by simp)] at more
                      exact more [⟨some nm, some a⟩] args (by simp at hl'; omega) (fun b hb => hn' b (by simp [hb])) rfl fun acts h => .next hs hf hh h
                  · rw [if_neg (by rintro ⟨h3, -⟩; cases h3; exact hk rfl), finish_ok hv hh _ (fun _ => rfl)] at more
                    exact more [⟨some nm, none⟩] args hl' hn' rfl fun acts h => .alone hs hf hh hk h
                · rw [h1] at err
                  exact .inr (err _ rfl)
              · rw [full_none hv hf] at err
                exact .inr (err _ rfl)
            · rw [e1] at more err
              have e2 := long_equals (final ws) s v hs acts0 args
              rw [List.cons_append, List.cons_append] at e2
              rw [e2] at more err
              by_cases hf : ∃ k, Full ws s k
              · obtain ⟨k, hf⟩ := hf
                rw [full_name hv hf] at more err
                dsimp only at more err
                rcases kind_spec ws hv (.long k) with ⟨kd, nm, hh, h1, h2⟩ | ⟨-, h1⟩
                · rw [h1] at more err
                  dsimp only at more err
                  unfold parseOption at more err
                  rw [if_neg (by simp)] at more err
                  by_cases hk : kd = .noArg
                  · subst hk
                    unfold finishOption at err
                    rw [if_pos ⟨rfl, by simp⟩] at err
                    exact .inr (err _ rfl)
                  · rw [finish_ok hv hh _ (fun he => absurd he hk)] at more
                    exact more [⟨some nm, some v⟩] args hl' hn' rfl fun acts h => .equals hs hf hh hk h
                · rw [h1] at err
                  exact .inr (err _ rfl)
              · rw [full_none hv hf] at err
                exact .inr (err _ rfl)
          · have e1 : parseOne (final ws) ('-' :: c :: cs) acts0 args = parseShort (final ws) (c :: cs) acts0 args := by
              unfold parseOne; rw [if_neg hdd, if_neg hp, if_neg (by simpa using hc)]; rfl
            rw [e1] at more err
            rcases shorts_sound hv (c :: cs) acts0 args with ⟨acts, rest, h1, h2, h3, h4⟩ | ⟨e, h1⟩
            · exact more acts rest (by omega) (fun b hb => hn' b (h4 b hb)) h1 fun acts' h => .short hc h2 h
            · exact .inr (err e h1)

end Verif.Getopt
