import Verif.Getopt.Lines

/-! # Properties of command lines -/

namespace Verif.Getopt

/-! ### C189: command lines are read as documented -/

/-- With a pattern in which no name is used twice: the options and arguments that are passed to the block are just those that the command
line says, and there is no other error than the one for which `errorBlock` is. -/
theorem command_line_partial (ws : List Word) (hv : Valid ws) : ∃ t, parsePattern (patternText ws) = some t ∧ ∀ args, NoNewLine args →
    (∀ acts, parse t args = .done acts [] ↔ Line ws args acts) ∧
    ((∃ e, parse t args = .error e) ↔ ¬ ∃ acts, Line ws args acts) ∧ parse t args ≠ .wrong := by
  refine ⟨final ws, pattern_ok ws hv, fun args hn => ?_⟩
  have hc : ∀ acts, Line ws args acts → parse (final ws) args = .done acts [] := fun acts h => by
    have := line_complete hv h hn args.length [] (le_refl _)
    rw [List.nil_append] at this
    exact this
  rcases line_sound hv args.length [] args (le_refl _) hn with ⟨acts, h1, h2⟩ | ⟨e, h1⟩
  · have h1' : parse (final ws) args = .done acts [] := h1
    refine ⟨fun a => ⟨fun h => ?_, hc a⟩, ⟨?_, fun h => absurd ⟨acts, h2⟩ h⟩, ?_⟩
    · rw [h1'] at h
      cases h
      exact h2
    · rintro ⟨e, h⟩
      rw [h1'] at h
      cases h
    · rw [h1']; simp
  · have h1' : parse (final ws) args = .error e := h1
    refine ⟨fun a => ⟨fun h => ?_, hc a⟩, ⟨fun _ => ?_, fun _ => ⟨e, h1'⟩⟩, ?_⟩
    · rw [h1'] at h; cases h
    · rintro ⟨acts, h⟩
      have := hc acts h
      rw [h1'] at this
      cases this
    · rw [h1']; simp

/-- A command line has one meaning. -/
theorem one_meaning (ws : List Word) (hv : Valid ws) (args : List (List Char)) (hn : NoNewLine args) (a b : List Act) (ha : Line ws args a)
    (hb : Line ws args b) : a = b := by
  obtain ⟨t, -, h⟩ := command_line_partial ws hv
  have h1 := ((h args hn).1 a).2 ha
  have h2 := ((h args hn).1 b).2 hb
  rw [h1] at h2
  exact (Out.done.inj h2).1

/-- `-v -o|--output: --color:: --colors`. -/
def sample : List Word := [⟨[], .short 'v', .noArg⟩, ⟨[.short 'o'], .long "output".toList, .mandatoryArg⟩, ⟨[], .long "color".toList, .optionalArg⟩,
  ⟨[], .long "colors".toList, .noArg⟩]

instance (c : Char) : Decidable (CharOk c) := by unfold CharOk; infer_instance

instance (k : Key) : Decidable k.Ok := by unfold Key.Ok; cases k <;> infer_instance

theorem sample_valid : Valid sample := by unfold Valid; decide

example : String.ofList (patternText sample) = "-v -o|--output: --color:: --colors" := by decide

example : (parsePattern "-v -o|--output: --color:: --colors".toList).map (fun t =>
      parse t (["-vo", "x", "--out=y", "-vofile", "--color", "in", "--colors", "--", "-v"].map String.toList)) =
    some (.done [⟨some (.short 'v'), none⟩, ⟨some (.long "output".toList), some "x".toList⟩, ⟨some (.long "output".toList), some "y".toList⟩,
      ⟨some (.short 'v'), none⟩, ⟨some (.long "output".toList), some "file".toList⟩, ⟨some (.long "color".toList), none⟩,
      ⟨none, some "in".toList⟩, ⟨some (.long "colors".toList), none⟩, ⟨none, some "-v".toList⟩] []) := by
  decide +kernel

example : (parsePattern "-v -o|--output: --color:: --colors".toList).map (fun t => (parse t ["--col".toList], parse t ["-o".toList], parse t ["-v".toList, "--colors=1".toList])) =
    some (.error [], .error [], .error [⟨some (.short 'v'), none⟩]) := by
  decide +kernel

/-- An argument that is a minus and a new line, and more, is taken as the name of a file, although `-q` is no option. -/
theorem newline_fails : (parsePattern "-v".toList).map (fun t => (parse t ["-\nq".toList], parse t ["-q".toList])) =
    some (.done [⟨none, some "-\nq".toList⟩] [], .error []) := by
  decide +kernel

/-! ### C190: names of long options -/

/-- A text stands for a long name if it is that name or the beginning of this name only. -/
theorem full_names (ws : List Word) (hv : Valid ws) : ∃ t, parsePattern (patternText ws) = some t ∧
    ∀ s k, fullOptionName t s = some k ↔ ∃ n, k = some n ∧ Full ws s n := by
  refine ⟨final ws, pattern_ok ws hv, fun s k => ⟨fun h => ?_, ?_⟩⟩
  · by_cases hf : ∃ n, Full ws s n
    · obtain ⟨n, hf⟩ := hf
      rw [full_name hv hf] at h
      exact ⟨n, (Option.some.inj h).symm, hf⟩
    · rw [full_none hv hf] at h
      cases h
  · rintro ⟨n, rfl, hf⟩
    exact full_name hv hf

/-- It stands for one name. -/
theorem full_one (ws : List Word) (s k k' : List Char) (h : Full ws s k) (h' : Full ws s k') : k = k' := by
  rcases h with ⟨h, rfl⟩ | ⟨-, h1, h2, h3⟩
  · rcases h' with ⟨-, rfl⟩ | ⟨-, -, -, h4⟩
    · rfl
    · exact h4 _ h (List.prefix_refl _)
  · rcases h' with ⟨h, rfl⟩ | ⟨-, h4, h5, -⟩
    · exact (h3 _ h (List.prefix_refl _)).symm
    · exact (h3 _ h4 h5).symm

example : Full sample "colo".toList "color".toList → False := by
  rintro (⟨-, h⟩ | ⟨-, -, -, h⟩)
  · revert h; decide
  · have := h "colors".toList (by unfold IsLong; decide) (by decide)
    revert this; decide

/-! ### C191: patterns -/

/-- All names of an option have its kind and stand for its last name; no other name is known. -/
theorem names_partial (ws : List Word) (hv : Valid ws) : ∃ t, parsePattern (patternText ws) = some t ∧
    (∀ w ∈ ws, ∀ k ∈ w.keys, optionKind t k = some (some (.kind w.kind)) ∧ optionName t k = some w.last) ∧
    ∀ k, (∀ w ∈ ws, k ∉ w.keys) → optionKind t k = none := by
  refine ⟨final ws, pattern_ok ws hv, fun w hw k hk => has_kind hv ⟨w, hw, hk, rfl, rfl⟩, fun k hk => ?_⟩
  rcases kind_spec ws hv k with ⟨kd, c, ⟨w, hw, h, -, -⟩, -⟩ | ⟨-, h⟩
  · exact absurd h (hk w hw)
  · exact h

/-- Names that are used twice are not reported, although the code tests for that: `includes:` asks for values.  The later one counts; a name
that is its own synonym has no kind; and a long option given twice has no abbreviations. -/
theorem twice_fails : (parsePattern "-a -a:".toList).map (fun t => optionKind t (.short 'a')) = some (some (some (.kind .mandatoryArg))) ∧
    (parsePattern "-b|-b".toList).map (fun t => optionKind t (.short 'b')) = some (some (some (.name (.short 'b')))) ∧
    (parsePattern "--foo --foo".toList).map (fun t => (fullOptionName t "fo".toList, fullOptionName t "foo".toList)) =
      some (none, some (some "foo".toList)) ∧
    parsePattern "-a|-b -b".toList = none := by
  refine ⟨by decide +kernel, by decide +kernel, by decide +kernel, ?_⟩
  rw [← Option.isNone_iff_eq_none]
  decide +kernel

/-- `-ab` in a pattern is no error: it makes `--b` an option. -/
theorem minus_fails : (parsePattern "-ab".toList).map (fun t => (parse t ["--b".toList], parse t ["-ab".toList])) =
    some (.done [⟨some (.long "b".toList), none⟩] [], .error []) := by
  decide +kernel

end Verif.Getopt
