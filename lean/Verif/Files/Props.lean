import Verif.Files.Legal

/-!
# File streams: what programs see
-/

namespace Verif.Files

/-- Every sequence of messages where the position is set between reading and writing comes back and answers what a file with
a position would, whatever the size of the buffer; and setting the position leaves the same bytes on disk.  Missing: the sequences that
`Legal` forbids, for which it is false (below). -/
theorem stream_is_file_partial (file b : List Nat) (hb : b ≠ []) (ops : List Op) (hl : LegalAll .fresh ⟨file, 0⟩ ops) :
    ∃ N, ∀ n, N ≤ n → ∃ s, runAll n (St.open file b) ops = some ((specAll ⟨file, 0⟩ ops).1, s) ∧
      (∀ p : Nat, ∃ t, run n s (.positionTo p) = some (.none, t) ∧ t.file = (specAll ⟨file, 0⟩ ops).2.content) := by
  obtain ⟨N, hN⟩ := runAll_good ops hl
  refine ⟨N, fun n hn => ?_⟩
  obtain ⟨m, s, e1, e2⟩ := hN _ (open_rel file b hb) n hn
  refine ⟨s, e1, fun p => ⟨_, rfl, ?_⟩⟩
  exact (positionTo_good e2.good (p := (p : Int)) (by omega)).file

theorem specAll_append (a : Abs) (l r : List Op) :
    specAll a (l ++ r) = ((specAll a l).1 ++ (specAll (specAll a l).2 r).1, (specAll (specAll a l).2 r).2) := by
  induction l generalizing a with
  | nil => rfl
  | cons o os ih => rw [List.cons_append, specAll, ih]; rfl

theorem legalAll_append (l r : List Op) (m : Mode) (a : Abs) :
    LegalAll m a (l ++ r) → ∃ m', LegalAll m a l ∧ LegalAll m' (specAll a l).2 r := by
  induction l generalizing m a with
  | nil => exact fun h => ⟨m, trivial, h⟩
  | cons o os ih =>
    intro h
    obtain ⟨m', h1, h2⟩ := ih _ _ h.2
    exact ⟨m', ⟨h.1, h1⟩, h2⟩

/-- After `flush` the bytes are on disk. -/
theorem flushed_is_stored_partial (file b : List Nat) (hb : b ≠ []) (ops : List Op)
    (hl : LegalAll .fresh ⟨file, 0⟩ (ops ++ [.flush])) :
    ∃ N, ∀ n, N ≤ n → ∃ l s, runAll n (St.open file b) (ops ++ [.flush]) = some (l, s) ∧
      s.file = (specAll ⟨file, 0⟩ ops).2.content := by
  have key : ∀ (ops : List Op) (m : Mode) (a : Abs), LegalAll m a (ops ++ [.flush]) →
      ∃ N, ∀ s, Rel m s a → ∀ n, N ≤ n → ∃ l t, runAll n s (ops ++ [.flush]) = some (l, t) ∧
        t.file = (specAll a ops).2.content := by
    intro ops
    induction ops with
    | nil =>
      intro m a hl
      refine ⟨1, fun s h n hn => ?_⟩
      obtain ⟨n, rfl⟩ : ∃ k, n = k + 1 := ⟨n - 1, by omega⟩
      obtain ⟨t, e1, e2, -⟩ := flush_used h.good (h.free hl.1) n
      refine ⟨[.none], t, ?_, e2.file⟩
      rw [List.nil_append, runAll, run, e1]
      rfl
    | cons o os ih =>
      intro m a hl
      obtain ⟨N, hN⟩ := ih _ _ hl.2
      refine ⟨max N (need a o), fun s h n hn => ?_⟩
      obtain ⟨t, e1, e2⟩ := run_good hl.1 h (n := n) (by omega)
      obtain ⟨l, u, g1, g2⟩ := hN t e2 n (by omega)
      refine ⟨(spec a o).1 :: l, u, ?_, g2⟩
      rw [List.cons_append, runAll, e1]
      simp only [Option.bind_some]
      rw [g1]
      rfl
  obtain ⟨N, hN⟩ := key ops _ _ hl
  exact ⟨N, fun n hn => hN _ (open_rel file b hb) n hn⟩

/-- The size of the buffer makes no difference. -/
theorem bufferSize_hidden_partial (file b c : List Nat) (hb : b ≠ []) (hc : c ≠ []) (ops : List Op)
    (hl : LegalAll .fresh ⟨file, 0⟩ ops) :
    ∃ N, ∀ n, N ≤ n → ∃ l s t, runAll n (St.open file b) ops = some (l, s) ∧ runAll n (St.open file c) ops = some (l, t) := by
  obtain ⟨N, hN⟩ := stream_is_file_partial file b hb ops hl
  obtain ⟨M, hM⟩ := stream_is_file_partial file c hc ops hl
  refine ⟨max N M, fun n hn => ?_⟩
  obtain ⟨s, e1, -⟩ := hN n (by omega)
  obtain ⟨t, e2, -⟩ := hM n (by omega)
  exact ⟨_, s, t, e1, e2⟩

/-! ### What is written comes back -/

theorem store_end (f l : List Nat) : store f f.length l = f ++ l := by
  rw [← writeAt_eq]
  by_cases h : l = []
  · rw [h, writeAt_nil, List.append_nil]
  · rw [writeAt, if_neg h, ext, Nat.sub_self, List.replicate_zero, List.append_nil,
      List.take_of_length_le (Nat.le_refl _), List.drop_eq_nil_of_le (by omega), List.append_nil]

/-- Pieces written into an empty file, with `nextPutAll:` or byte by byte, are the text of the file. -/
theorem written_text (pieces : List (List Nat)) (f : List Nat) :
    (specAll ⟨f, f.length⟩ (pieces.map Op.nextPutAll)).2 = ⟨f ++ pieces.flatten, (f ++ pieces.flatten).length⟩ := by
  induction pieces generalizing f with
  | nil => simp [specAll]
  | cons p ps ih =>
    rw [List.map_cons, specAll]
    show (specAll ⟨store f f.length p, f.length + p.length⟩ _).2 = _
    rw [store_end, ← List.length_append, ih, List.flatten_cons, List.append_assoc]

theorem legal_writes (pieces : List (List Nat)) (a : Abs) (r : List Op)
    (hr : ∀ m, LegalAll m (specAll a (pieces.map Op.nextPutAll)).2 r) {m : Mode} (hm : m ≠ .reads) :
    LegalAll m a (pieces.map Op.nextPutAll ++ r) := by
  induction pieces generalizing a m with
  | nil => exact hr m
  | cons p ps ih => exact ⟨Or.inl hm, ih _ hr (by simp [Mode.after])⟩

/-- What was written into an empty file is read back. -/
theorem written_is_read (pieces : List (List Nat)) (b : List Nat) (hb : b ≠ []) :
    ∃ N, ∀ n, N ≤ n → ∃ l s,
      runAll n (St.open [] b) (pieces.map Op.nextPutAll ++ [.positionTo 0, .upToEnd]) = some (l, s) ∧
        l.getLast? = some (.bytes pieces.flatten) := by
  have hw := written_text pieces []
  rw [List.length_nil, List.nil_append] at hw
  obtain ⟨N, hN⟩ := stream_is_file_partial [] b hb (pieces.map Op.nextPutAll ++ [.positionTo 0, .upToEnd])
    (legal_writes _ _ _ (by
      intro m
      rw [hw]
      exact ⟨Int.le_refl 0, Nat.zero_le _, trivial⟩) (by simp))
  refine ⟨N, fun n hn => ?_⟩
  obtain ⟨s, e, -⟩ := hN n hn
  refine ⟨_, s, e, ?_⟩
  rw [specAll_append, hw]
  simp [specAll, spec, Abs.rest]

/-! ### Writing after reading -/

/-- `flush` with something written and something read and not used sends itself to itself. -/
theorem flush_never {s : St} {w : Nat} (hw : s.writePtr = some w) (h1 : s.ptr - 1 = s.writeEnd) (h2 : w - 1 ≠ s.endPtr)
    (n : Nat) : flush n s = none := by
  induction n with
  | zero => rfl
  | succ n ih =>
    rw [flush, hw]
    dsimp only
    rw [if_pos h1, if_neg h2, skipWith, hw]
    simp only [Option.isSome_some, if_true]
    rw [ih]
    rfl

/-- Messages that send `flush` first. -/
def Op.Flushes : Op → Prop
  | .peek | .next | .nextLine | .upTo _ | .upToEnd | .contents | .size | .truncate | .flush | .bufferSize _ | .skip _ => True
  | _ => False

theorem flushes_never {s : St} {w : Nat} (hw : s.writePtr = some w) {n : Nat} (h : flush n s = none) {o : Op}
    (ho : o.Flushes) : run n s o = none := by
  have hs : settle n s = none := by rw [settle, hw]; exact h
  cases o <;> try exact ho.elim
  all_goals
    simp only [run, peek, next, nextLine, upTo, upToEnd, contents, size, truncate, bufferSize, prepare, skipWith, hs, h,
      hw, Option.isSome_some, if_true, Option.bind_none, Option.map_none]

/-- In every file of two bytes or more: read a byte, write a byte, and then read, flush, ask for the size or skip: it never
comes back.  The documentation of `FileStream` promises that files can be read and written. -/
theorem write_after_read_never (file b : List Nat) (c : Nat) (hf : 2 ≤ file.length) (hb : 2 ≤ b.length) (o : Op)
    (ho : o.Flushes) (n : Nat) : runAll n (St.open file b) [.next, .nextPut c, o] = none := by
  cases n with
  | zero => rfl
  | succ n =>
    have hn : next (n + 1) (St.open file b) = some (.byte ((replace b 0 (file.take b.length)).getD 0 0),
        ⟨file, min b.length file.length, replace b 0 (file.take b.length), 2, min b.length file.length, none, 0⟩) := by
      have hfl : flush (n + 1) (St.open file b) = some (St.open file b) := by rfl
      have hfi : fill (n + 1) (St.open file b) = some ⟨file, min b.length file.length,
          replace b 0 (file.take b.length), 1, min b.length file.length, none, 0⟩ := by
        rw [fill, if_pos (show (St.open file b).ptr > (St.open file b).endPtr from Nat.zero_lt_one), hfl]
        simp only [Option.bind_some, St.open]
        rw [if_neg (by omega)]
        simp only [List.drop_zero, Nat.sub_zero, List.length_take, Nat.zero_add]
      have hpr : prepare (n + 1) (St.open file b) = some (⟨file, min b.length file.length,
          replace b 0 (file.take b.length), 1, min b.length file.length, none, 0⟩, false) := by
        rw [prepare, show settle (n + 1) (St.open file b) = some (St.open file b) from rfl]
        simp only [Option.bind_some]
        rw [if_pos (show (St.open file b).ptr > (St.open file b).endPtr from Nat.zero_lt_one), hfi, Option.map_some, atEnd]
        congr 2
        rw [Bool.and_eq_false_iff]
        left
        simp only [decide_eq_false_iff_not]
        omega
      rw [next, hpr]
      rfl
    have hlen : (replace b 0 (file.take b.length)).length = b.length :=
      replace_length (by rw [List.length_take]; omega)
    generalize replace b 0 (file.take b.length) = buf at *
    rw [runAll, run, hn]
    simp only [Option.bind_some]
    have hp : run (n + 1) ⟨file, min b.length file.length, buf, 2, min b.length file.length, none, 0⟩ (.nextPut c) =
        some (.none, ⟨file, min b.length file.length, buf.set 1 c, 3, min b.length file.length, some 2, 2⟩) := by
      rw [run, nextPut, if_neg (by dsimp only; omega)]
      rfl
    rw [runAll, hp]
    simp only [Option.bind_some]
    rw [runAll, flushes_never (w := 2) rfl (flush_never (w := 2) rfl rfl (by dsimp only; omega) _) ho]
    rfl

/-! ### Other sequences that are not legal -/

/-- `flush` after reading moves the position: the byte 1 is read twice. -/
theorem flush_moves :
    (runAll 9 (St.open [1, 2, 3, 4, 5] [0, 0, 0, 0]) [.next, .flush, .position, .next]).map Prod.fst =
        some [.byte 1, .none, .num 0, .byte 1] ∧
      (specAll ⟨[1, 2, 3, 4, 5], 0⟩ [.next, .flush, .position, .next]).1 = [.byte 1, .none, .num 1, .byte 2] := by
  decide +kernel

/-- `truncate` after reading does not truncate at the position. -/
theorem truncate_elsewhere :
    (runAll 9 (St.open [1, 2, 3, 4, 5] [0, 0, 0, 0]) [.next, .position, .truncate, .size]).map Prod.fst =
        some [.byte 1, .num 1, .none, .num 4] ∧
      (specAll ⟨[1, 2, 3, 4, 5], 0⟩ [.next, .position, .truncate, .size]).1 = [.byte 1, .num 1, .none, .num 1] := by
  decide +kernel

/-- After writing over the last byte, `atEnd` answers false and `next` answers nil. -/
theorem atEnd_after_write :
    (runAll 9 (St.open [1, 2] [0, 0, 0, 0]) [.nextPutAll [7, 8], .atEnd, .next]).map Prod.fst =
        some [.none, .bool false, .nil] ∧
      (specAll ⟨[1, 2], 0⟩ [.nextPutAll [7, 8], .atEnd, .next]).1 = [.none, .bool true, .nil] := by
  decide +kernel

/-- `skip:` cannot move to the end. -/
theorem skip_not_to_end :
    (runAll 9 (St.open [1, 2, 3] [0, 0, 0, 0]) [.skip 3, .position, .next]).map Prod.fst = some [.none, .num 2, .byte 3] ∧
      (specAll ⟨[1, 2, 3], 0⟩ [.skip 3, .position, .next]).1 = [.none, .num 3, .nil] := by
  decide +kernel

/-- Beyond the end, `next` answers bytes that happen to be in the buffer. -/
theorem next_beyond_end :
    (runAll 9 (St.open [1, 2, 3] [9, 9, 9, 9]) [.positionTo 5, .next, .next]).map Prod.fst = some [.none, .byte 9, .byte 3] ∧
      (specAll ⟨[1, 2, 3], 0⟩ [.positionTo 5, .next, .next]).1 = [.none, .nil, .nil] := by
  decide +kernel

theorem upToLoop_beyond {c : Nat} (k n : Nat) {s : St} (hw : s.writePtr = none) (he : s.endPtr = 0)
    (hb : 0 < s.buf.length) (hx : s.file.length < s.fd) (acc : List Nat) :
    upToLoop n c k s acc = none := by
  induction k generalizing s acc with
  | zero => rfl
  | succ k ih =>
    rw [upToLoop]
    have hl : slice s.buf (s.ptr - 1) s.endPtr = [] := by rw [slice, he, Nat.zero_sub, List.take_zero]
    simp only [hl, List.takeWhile_nil, List.length_nil, Nat.lt_irrefl, if_false, List.append_nil]
    cases n with
    | zero =>
      rw [fill, if_pos (by dsimp only; omega)]
      rfl
    | succ n =>
      have hfl : flush (n + 1) { s with ptr := s.endPtr + 1 } = some { s with ptr := 1, endPtr := 0, writePtr := none } := by
        rw [flush]
        simp only [hw]
        rw [flushEnd, if_pos (by dsimp only; omega)]
        rfl
      have hd : s.file.drop s.fd = [] := List.drop_eq_nil_of_le (by omega)
      have hfi : fill (n + 1) { s with ptr := s.endPtr + 1 } = some { s with ptr := 1, endPtr := 0, writePtr := none } := by
        rw [fill, if_pos (by dsimp only; omega), hfl]
        simp only [Option.bind_some]
        rw [if_neg (by omega), hd, List.take_nil, replace, List.take_zero, List.length_nil, List.drop_zero]
        rfl
      rw [hfi]
      simp only [Option.bind_some]
      have hat : atEnd { s with ptr := 1, endPtr := 0, writePtr := none } = false := by
        rw [atEnd]
        simp only [Bool.and_eq_false_iff]
        right
        simp only [beq_eq_false_iff_ne]
        omega
      rw [hat]
      exact ih (s := { s with ptr := 1, endPtr := 0, writePtr := none }) rfl rfl hb hx _

/-- Beyond the end, `upTo:` never comes back, in every file. -/
theorem upTo_beyond_never (file b : List Nat) (hb : b ≠ []) (p : Nat) (hp : file.length < p) (c n : Nat) :
    runAll n (St.open file b) [.positionTo p, .upTo c] = none := by
  have hpos : positionTo (St.open file b) p = { St.open file b with fd := p } := by
    simp only [positionTo, St.open, reset, lseek]
    rw [if_neg (by omega)]
    simp
  rw [runAll, run, hpos]
  simp only [Option.bind_some]
  have hb' : 0 < b.length := List.length_pos_iff.mpr hb
  have : run n { St.open file b with fd := p } (.upTo c) = none := by
    rw [run, upTo, prepare]
    rw [show settle n { St.open file b with fd := p } = some { St.open file b with fd := p } from rfl]
    simp only [Option.bind_some]
    rw [if_pos (show (St.open file b).ptr > (St.open file b).endPtr from Nat.zero_lt_one)]
    cases n with
    | zero => rfl
    | succ n =>
      have hd : file.drop p = [] := List.drop_eq_nil_of_le (by omega)
      have hfi : fill (n + 1) { St.open file b with fd := p } = some { St.open file b with fd := p } := by
        rw [fill, if_pos (show (St.open file b).ptr > (St.open file b).endPtr from Nat.zero_lt_one),
          show flush (n + 1) { St.open file b with fd := p } = some { St.open file b with fd := p } from rfl]
        simp only [Option.bind_some, St.open]
        rw [if_neg (by omega), hd, List.take_nil, replace, List.take_zero, List.length_nil, List.drop_zero]
        rfl
      rw [hfi, Option.map_some]
      have hat : atEnd { St.open file b with fd := p } = false := by
        simp only [atEnd, St.open, Bool.and_eq_false_iff]
        right
        simp only [beq_eq_false_iff_ne]
        omega
      rw [hat]
      exact upToLoop_beyond _ _ rfl rfl hb' hp _
  rw [runAll, this]
  rfl

/-- `copyFrom:to:` beyond the end answers bytes that are not in the file. -/
theorem copy_beyond_end :
    (runAll 9 (St.open [1, 2, 3] [0, 0, 0, 0]) [.copyFromTo 1 5]).map Prod.fst = some [.bytes [2, 3, 0, 0, 0]] := by
  decide +kernel

/-- A negative position is not refused, and moves to the end of what is in the buffer. -/
theorem negative_position :
    (runAll 9 (St.open [1, 2, 3, 4, 5] [0, 0, 0, 0]) [.next, .positionTo (-1), .position]).map Prod.fst =
      some [.byte 1, .none, .num 4] := by
  decide +kernel

/-! ### The hypotheses can be met -/

/-- Reading, moving, writing beyond the end, reading again. -/
def sample : List Op :=
  [.next, .upTo 32, .positionTo 1, .nextPut 50, .nextPutAll [51, 52, 53, 54, 55], .size, .position, .nextLine, .positionTo 12,
    .nextPut 10, .flush, .copyFromTo 0 3, .skip (-3), .contents, .atEnd]

example : LegalAll .fresh ⟨[65, 66, 32, 67], 0⟩ sample ∧
    (specAll ⟨[65, 66, 32, 67], 0⟩ sample).1 =
      [.byte 65, .bytes [66], .none, .none, .none, .num 7, .num 7, .nil, .none, .none, .none, .bytes [65, 50, 51, 52], .none,
        .bytes [0, 0, 10], .bool true] := by
  simp only [sample, LegalAll, Legal, Mode.after]
  decide +kernel

example : (runAll 40 (St.open [65, 66, 32, 67] [0, 0]) sample).map Prod.fst =
    some (specAll ⟨[65, 66, 32, 67], 0⟩ sample).1 := by decide +kernel

example : (runAll 40 (St.open [] [0, 0, 0]) (([[72, 101], [], [108, 108, 111, 33, 10]] : List (List Nat)).map Op.nextPutAll ++
    [.positionTo 0, .upToEnd])).map (fun x => x.1.getLast?) =
    some (some (.bytes [72, 101, 108, 108, 111, 33, 10])) := by decide +kernel

end Verif.Files
