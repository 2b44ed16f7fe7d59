import Verif.Getopt.Model
import Verif.Strings.Props

/-! # What patterns and command lines mean, and that they are read so -/

namespace Verif.Getopt

/-! ### Specification -/

/-- An option of a pattern: its names, of which the last is the canonical one, and whether it has an argument. -/
structure Word where
  others : List Key
  last : Key
  kind : Kind

def Word.keys (w : Word) : List Key := w.others ++ [w.last]

/-- How a name is written. -/
def Key.text : Key → List Char
  | .short c => ['-', c]
  | .long s => '-' :: '-' :: s

def Kind.colons : Kind → ℕ
  | .noArg => 0
  | .mandatoryArg => 1
  | .optionalArg => 2

/-- How an option is written in a pattern. -/
def Word.text (w : Word) : List Char := ['|'].intercalate (w.keys.map Key.text) ++ List.replicate w.kind.colons ':'

/-- The pattern. -/
def patternText (ws : List Word) : List Char := [' '].intercalate (ws.map Word.text)

/-- A character of a name. -/
def CharOk (c : Char) : Prop := c ≠ ':' ∧ c ≠ '|' ∧ isSeparator c = false

/-- A name that can be written. -/
def Key.Ok : Key → Prop
  | .short c => c ≠ '-' ∧ CharOk c
  | .long s => s ≠ [] ∧ '=' ∉ s ∧ ∀ c ∈ s, CharOk c

/-- A pattern in which no name is used twice. -/
def Valid (ws : List Word) : Prop := (∀ w ∈ ws, ∀ k ∈ w.keys, k.Ok) ∧ (ws.flatMap Word.keys).Nodup

/-- `k` names an option of kind `kd` whose canonical name is `c`. -/
def Has (ws : List Word) (k : Key) (kd : Kind) (c : Key) : Prop := ∃ w ∈ ws, k ∈ w.keys ∧ w.kind = kd ∧ w.last = c

/-- A long name of some option. -/
def IsLong (ws : List Word) (s : List Char) : Prop := Key.long s ∈ ws.flatMap Word.keys

/-- `s` stands for the long name `k`: it is the name, or a prefix of this name only. -/
def Full (ws : List Word) (s k : List Char) : Prop :=
  (IsLong ws s ∧ k = s) ∨ (s ≠ [] ∧ IsLong ws k ∧ s <+: k ∧ ∀ k', IsLong ws k' → s <+: k' → k' = k)

/-- The characters after one minus, the arguments that follow, what they mean, and the arguments that are left. -/
inductive Shorts (ws : List Word) : List Char → List (List Char) → List Act → List (List Char) → Prop
  | nil {args} : Shorts ws [] args [] args
  | flag {c n cs args acts rest} : Has ws (.short c) .noArg n → Shorts ws cs args acts rest → Shorts ws (c :: cs) args (⟨some n, none⟩ :: acts) rest
  | arg {c kd n cs args} : Has ws (.short c) kd n → kd ≠ .noArg → cs ≠ [] → Shorts ws (c :: cs) args [⟨some n, some cs⟩] args
  | next {c n a args} : Has ws (.short c) .mandatoryArg n → Shorts ws [c] (a :: args) [⟨some n, some a⟩] args
  | none {c n args} : Has ws (.short c) .optionalArg n → Shorts ws [c] args [⟨some n, none⟩] args

/-- A command line and what it means. -/
inductive Line (ws : List Word) : List (List Char) → List Act → Prop
  | nil : Line ws [] []
  | plain {a args acts} : (a = [] ∨ a = ['-'] ∨ a.head? ≠ some '-') → Line ws args acts → Line ws (a :: args) (⟨none, some a⟩ :: acts)
  | dashes {args} : Line ws (['-', '-'] :: args) (args.map fun a => ⟨none, some a⟩)
  | equals {s k kd n v args acts} : '=' ∉ s → Full ws s k → Has ws (.long k) kd n → kd ≠ .noArg → Line ws args acts →
      Line ws (('-' :: '-' :: s ++ '=' :: v) :: args) (⟨some n, some v⟩ :: acts)
  | next {s k n a args acts} : '=' ∉ s → Full ws s k → Has ws (.long k) .mandatoryArg n → Line ws args acts →
      Line ws (('-' :: '-' :: s) :: a :: args) (⟨some n, some a⟩ :: acts)
  | alone {s k kd n args acts} : '=' ∉ s → Full ws s k → Has ws (.long k) kd n → kd ≠ .mandatoryArg → Line ws args acts →
      Line ws (('-' :: '-' :: s) :: args) (⟨some n, none⟩ :: acts)
  | short {c cs args acts rest acts'} : c ≠ '-' → Shorts ws (c :: cs) args acts rest → Line ws rest acts' →
      Line ws (('-' :: c :: cs) :: args) (acts ++ acts')

/-! ### The pattern -/

def longName : Key → Option (List Char)
  | .short _ => none
  | .long s => some s

def longs (e : List (Key × Val)) : List (List Char) := e.filterMap fun e => longName e.1

def prefs (s : List Char) : List (List Char) := (List.range' 1 s.length).map (s.take ·)

/-- The state after some associations. -/
def mk (e : List (Key × Val)) : Tbl := ⟨e, longs e, (longs e).flatMap prefs⟩

/-- Names stand for names that are there. -/
def Inv (e : List (Key × Val)) : Prop := ∀ x ∈ e, ∀ c, x.2 = .name c → c ∈ e.map (·.1)

theorem text_length {k : Key} (hk : k.Ok) : 2 ≤ k.text.length ∧ (k.text.length = 2 ↔ ∃ c, k = .short c) := by
  cases k with
  | short c => simp [Key.text]
  | long s =>
    have : s ≠ [] := hk.1
    simp [Key.text, this]

theorem put_one (e : List (Key × Val)) (hi : Inv e) (k : Key) (hk : k.Ok) (v : Val) (hn : k ∉ e.map (·.1)) :
    atSynonym (mk e) k.text v = some (mk ((k, v) :: e), k) := by
  have hany : e.any (fun x => decide (x.2 = Val.name k)) = false := by
    rw [List.any_eq_false]
    intro x hx h
    exact hn (hi x hx k (by simpa using h))
  have hfil : e.filter (fun x => decide (x.1 ≠ k)) = e := by
    rw [List.filter_eq_self]
    intro x hx
    have : x.1 ≠ k := fun h => hn (by rw [← h]; exact List.mem_map_of_mem hx)
    simpa using this
  unfold atSynonym
  cases k with
  | short c =>
    have : (Key.short c).text.length = 2 := rfl
    rw [if_pos this]
    have hg : (Key.short c).text.getD 1 ' ' = c := rfl
    rw [hg]
    unfold mk at *
    dsimp only at *
    rw [hany, hfil]
    rfl
  | long s =>
    have h0 : s ≠ [] := hk.1
    have hl : (Key.long s).text.length ≠ 2 := by simp [Key.text, h0]
    have hs : s ∉ longs e := by
      unfold longs
      rw [List.mem_filterMap]
      rintro ⟨x, hx, h⟩
      apply hn
      rw [List.mem_map]
      refine ⟨x, hx, ?_⟩
      cases hk' : x.1 with
      | short c => rw [hk'] at h; cases h
      | long u => rw [hk'] at h; exact congrArg Key.long (Option.some.inj h)
    rw [if_neg hl]
    have hd : (Key.long s).text.drop 2 = s := rfl
    rw [hd]
    unfold mk addLongOption at *
    dsimp only at *
    rw [hany, hfil, if_neg hs]
    rfl

theorem put_inv (e : List (Key × Val)) (hi : Inv e) (k : Key) (v : Val) (hv : ∀ c, v = .name c → c ∈ e.map (·.1)) : Inv ((k, v) :: e) := by
  intro x hx c hc
  rcases List.mem_cons.1 hx with rfl | hx
  · exact List.mem_cons_of_mem _ (hv c hc)
  · exact List.mem_cons_of_mem _ (hi x hx c hc)

theorem put_names (l : Key) : ∀ (ks : List Key) (e : List (Key × Val)), Inv e → l ∈ e.map (·.1) → (∀ k ∈ ks, k.Ok) →
    (ks.reverse ++ e.map (·.1)).Nodup →
    (ks.map Key.text).foldlM (fun t s => (atSynonym t s (.name l)).map (·.1)) (mk e) = some (mk (ks.reverse.map (fun k => (k, .name l)) ++ e)) ∧
      Inv (ks.reverse.map (fun k => (k, .name l)) ++ e) := by
  intro ks
  induction ks with
  | nil => intro e hi _ _ _; exact ⟨rfl, hi⟩
  | cons k ks ih =>
    intro e hi hl hk hn
    have hn' : (ks.reverse ++ ((k, Val.name l) :: e).map (·.1)).Nodup := by
      simpa [List.append_assoc] using hn
    have hke : k ∉ e.map (·.1) := by
      have := (List.nodup_append.1 hn').2.1
      exact (List.nodup_cons.1 this).1
    have hi' : Inv ((k, Val.name l) :: e) := put_inv e hi k _ (by intro c hc; cases hc; exact hl)
    obtain ⟨h1, h2⟩ := ih ((k, .name l) :: e) hi' (List.mem_cons_of_mem _ hl) (fun x hx => hk x (by simp [hx])) hn'
    have e1 : ((k :: ks).reverse.map fun k => (k, Val.name l)) ++ e = (ks.reverse.map fun k => (k, Val.name l)) ++ (k, .name l) :: e := by simp
    rw [e1]
    refine ⟨?_, h2⟩
    show (((atSynonym (mk e) k.text (.name l)).map (·.1)).bind fun t => _) = _
    rw [put_one e hi k (hk k (by simp)) _ hke]
    exact h1

/-- The associations of an option, the last first. -/
def entries (w : Word) : List (Key × Val) := w.others.reverse.map (fun k => (k, .name w.last)) ++ [(w.last, .kind w.kind)]

theorem entries_keys (w : Word) : (entries w).map (·.1) = w.others.reverse ++ [w.last] := by
  simp [entries, Function.comp_def]

theorem put_word (e : List (Key × Val)) (hi : Inv e) (w : Word) (hk : ∀ k ∈ w.keys, k.Ok) (hn : ((entries w).map (·.1) ++ e.map (·.1)).Nodup) :
    atAllSynonyms (mk e) (w.keys.map Key.text) w.kind = some (mk (entries w ++ e)) ∧ Inv (entries w ++ e) := by
  rw [entries_keys, List.append_assoc] at hn
  have hl : w.last ∉ e.map (·.1) := (List.nodup_cons.1 (List.nodup_append.1 hn).2.1).1
  have hi' : Inv ((w.last, Val.kind w.kind) :: e) := put_inv e hi _ _ (by intro c hc; cases hc)
  obtain ⟨h1, h2⟩ := put_names w.last w.others ((w.last, .kind w.kind) :: e) hi' (by simp) (fun k h => hk k (by simp [Word.keys, h])) hn
  have e1 : entries w ++ e = w.others.reverse.map (fun k => (k, .name w.last)) ++ (w.last, .kind w.kind) :: e := by simp [entries]
  rw [e1]
  refine ⟨?_, h2⟩
  unfold atAllSynonyms
  have e2 : (w.keys.map Key.text).getLast? = some w.last.text := by simp [Word.keys]
  have e3 : (w.keys.map Key.text).dropLast = w.others.map Key.text := by simp [Word.keys]
  rw [e2, e3]
  dsimp only
  rw [put_one e hi w.last (hk _ (by simp [Word.keys])) _ hl]
  exact h1

theorem text_chars {k : Key} (hk : k.Ok) : k.text ≠ [] ∧ ∀ c ∈ k.text, CharOk c := by
  have hd : CharOk '-' := by unfold CharOk isSeparator; decide
  cases k with
  | short c => exact ⟨by simp [Key.text], by simp only [Key.text, List.mem_cons, List.not_mem_nil, or_false]; rintro x (rfl | rfl); exact hd; exact hk.2⟩
  | long s => exact ⟨by simp [Key.text], by simp only [Key.text, List.mem_cons]; rintro x (rfl | rfl | h); exact hd; exact hd; exact hk.2.2 x h⟩

theorem split_back (sep : Char → Bool) (d : Char) (hd : sep d = true) (ws : List (List Char)) (hw : ∀ w ∈ ws, w ≠ [] ∧ ∀ c ∈ w, sep c = false) :
    Strings.subStrings sep ([d].intercalate ws) = ws := by
  obtain ⟨t, h1, h2⟩ := Strings.join_words ' ' sep d hd ws hw
  rw [Strings.joined] at h1
  cases h1
  exact h2

theorem intercalate_mem (d : Char) (ws : List (List Char)) (c : Char) (h : c ∈ [d].intercalate ws) : c = d ∨ ∃ w ∈ ws, c ∈ w := by
  induction ws with
  | nil => simp at h
  | cons w ws ih =>
    cases ws with
    | nil => right; exact ⟨w, by simp, by simpa using h⟩
    | cons v vs =>
      rw [List.intercalate_cons_cons, List.append_assoc, List.mem_append, List.mem_append] at h
      rcases h with h | h | h
      · exact .inr ⟨w, by simp, h⟩
      · exact .inl (by simpa using h)
      · rcases ih h with h | ⟨u, hu, h⟩
        · exact .inl h
        · exact .inr ⟨u, by simp [List.mem_cons.1 hu], h⟩

theorem check_ok (ks : List Key) (hk : ∀ k ∈ ks, k.Ok) : checkSynonyms (ks.map Key.text) = true := by
  unfold checkSynonyms
  rw [Bool.and_eq_true, Bool.and_eq_true]
  refine ⟨⟨?_, ?_⟩, ?_⟩
  · rw [List.all_eq_true]
    intro s hs
    obtain ⟨k, -, rfl⟩ := List.mem_map.1 hs
    cases k <;> rfl
  · rw [Bool.not_eq_true', List.any_eq_false]
    intro s hs
    obtain ⟨k, h, rfl⟩ := List.mem_map.1 hs
    have := hk k h
    cases k with
    | short c => have : c ≠ '-' := this.1; simp [Key.text, this]
    | long s =>
      have h1 : s ≠ [] := this.1
      have h2 : ¬ (Key.long s).text.length < 2 := by have := (text_length (hk _ h)).1; omega
      have h3 : (Key.long s).text ≠ ['-', '-'] := by simp [Key.text, h1]
      simp [h2, h3]
  · rw [Bool.not_eq_true', List.any_eq_false]
    intro s hs
    obtain ⟨k, h, rfl⟩ := List.mem_map.1 hs
    have := hk k h
    cases k with
    | short c =>
      have h1 : c ≠ '-' := this.1
      have h2 : ['-', '-'].isPrefixOf (Key.short c).text = false := by simp [Key.text, List.isPrefixOf, Ne.symm h1]
      rw [h2]; simp
    | long s =>
      have h1 : '=' ∉ s := this.2.1
      have h2 : '=' ∉ (Key.long s).text := by simp [Key.text, h1]
      simp [h2]

theorem word_ok (e : List (Key × Val)) (hi : Inv e) (w : Word) (hk : ∀ k ∈ w.keys, k.Ok) (hn : ((entries w).map (·.1) ++ e.map (·.1)).Nodup) :
    parseWord (mk e) w.text = some (mk (entries w ++ e)) ∧ Inv (entries w ++ e) := by
  obtain ⟨h1, h2⟩ := put_word e hi w hk hn
  refine ⟨?_, h2⟩
  have hb : ∀ c ∈ ['|'].intercalate (w.keys.map Key.text), c ≠ ':' := by
    intro c hc
    rcases intercalate_mem _ _ _ hc with rfl | ⟨s, hs, h⟩
    · decide
    · obtain ⟨k, hkk, rfl⟩ := List.mem_map.1 hs
      exact ((text_chars (hk k hkk)).2 c h).1
  have hf : w.text.filter (fun c => decide (c ≠ ':')) = ['|'].intercalate (w.keys.map Key.text) := by
    unfold Word.text
    rw [List.filter_append, List.filter_eq_self.2 (by intro c hc; simpa using hb c hc), List.filter_eq_nil_iff.2, List.append_nil]
    intro c hc
    have := List.eq_of_mem_replicate hc
    simp [this]
  have hs : Strings.subStrings (fun c => decide (c = '|')) (['|'].intercalate (w.keys.map Key.text)) = w.keys.map Key.text := by
    apply split_back _ _ (by decide)
    intro s hs
    obtain ⟨k, hkk, rfl⟩ := List.mem_map.1 hs
    refine ⟨(text_chars (hk k hkk)).1, fun c hc => ?_⟩
    simpa using ((text_chars (hk k hkk)).2 c hc).2.1
  unfold parseWord
  dsimp only
  rw [hf, hs]
  have hd : w.text.drop (['|'].intercalate (w.keys.map Key.text)).length = List.replicate w.kind.colons ':' := by
    unfold Word.text; rw [List.drop_left]
  have hl : w.text.length - (['|'].intercalate (w.keys.map Key.text)).length = w.kind.colons := by
    unfold Word.text; simp
  rw [hd, hl]
  have ha : (List.replicate w.kind.colons ':').any (fun c => decide (c ≠ ':')) = false := by
    rw [List.any_eq_false]
    intro c hc
    simp [List.eq_of_mem_replicate hc]
  rw [ha, check_ok _ hk]
  have hc : colonsToKind w.kind.colons = some w.kind := by cases w.kind <;> rfl
  rw [hc]
  exact h1

/-- All the associations, the last first. -/
def table (ws : List Word) : List (Key × Val) := (ws.reverse.flatMap entries)

theorem words_ok : ∀ (ws : List Word) (e : List (Key × Val)), Inv e → (∀ w ∈ ws, ∀ k ∈ w.keys, k.Ok) →
    ((table ws).map (·.1) ++ e.map (·.1)).Nodup → (ws.map Word.text).foldlM parseWord (mk e) = some (mk (table ws ++ e)) := by
  intro ws
  induction ws with
  | nil => intro e _ _ _; rfl
  | cons w ws ih =>
    intro e hi hk hn
    have et : table (w :: ws) ++ e = table ws ++ (entries w ++ e) := by simp [table]
    rw [← List.map_append, et, List.map_append] at hn
    obtain ⟨h1, h2⟩ := word_ok e hi w (hk w (by simp)) (by rw [← List.map_append]; exact (List.nodup_append.1 hn).2.1)
    rw [et]
    show ((parseWord (mk e) w.text).bind fun t => _) = _
    rw [h1]
    exact ih _ h2 (fun v hv => hk v (by simp [hv])) hn

theorem table_keys (ws : List Word) : ((table ws).map (·.1)).Perm (ws.flatMap Word.keys) := by
  induction ws with
  | nil => exact List.Perm.refl _
  | cons w ws ih =>
    have e1 : (table (w :: ws)).map (·.1) = (table ws).map (·.1) ++ (entries w).map (·.1) := by simp [table]
    rw [e1, entries_keys, List.flatMap_cons]
    refine List.perm_append_comm.trans (List.Perm.append ?_ ih)
    exact (List.reverse_perm _).append_right _

theorem pattern_ok (ws : List Word) (hv : Valid ws) : parsePattern (patternText ws) = some (rejectBadPrefixes (mk (table ws))) := by
  unfold parsePattern patternText
  rw [split_back isSeparator ' ' (by decide)]
  · have := words_ok ws [] (by intro x hx; cases hx) hv.1 (by
      rw [List.map_nil, List.append_nil]; exact (table_keys ws).nodup_iff.2 hv.2)
    rw [List.append_nil] at this
    show Option.map rejectBadPrefixes (List.foldlM parseWord (mk []) _) = _
    rw [this]
    rfl
  · intro s hs
    obtain ⟨w, hw, rfl⟩ := List.mem_map.1 hs
    constructor
    · intro h
      have h1 := (List.append_eq_nil_iff.1 h).1
      have h2 : ∀ ks : List Key, ks ≠ [] → (∀ k ∈ ks, k.Ok) → ['|'].intercalate (ks.map Key.text) ≠ [] := by
        intro ks hne hok
        cases ks with
        | nil => exact absurd rfl hne
        | cons k ks =>
          have h3 := (text_chars (hok k (by simp))).1
          cases ks with
          | nil => simpa using h3
          | cons k' ks => rw [List.map_cons, List.map_cons, List.intercalate_cons_cons]; simp
      exact h2 _ (by simp [Word.keys]) (hv.1 w hw) h1
    · intro c hc
      rcases List.mem_append.1 hc with hc | hc
      · rcases intercalate_mem _ _ _ hc with rfl | ⟨s, hs, h⟩
        · decide
        · obtain ⟨k, hkk, rfl⟩ := List.mem_map.1 hs
          exact ((text_chars (hv.1 w hw k hkk)).2 c h).2.2
      · rw [List.eq_of_mem_replicate hc]; decide

end Verif.Getopt
