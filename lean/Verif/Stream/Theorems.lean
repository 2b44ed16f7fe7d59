import Verif.Stream.Lemmas
/-!
# Streams on collections behave as a list with a position
-/

namespace Verif.Stream

set_option linter.unusedSectionVars false

variable {α : Type} [DecidableEq α]

theorem inv_readOn (c : List α) : Inv (readOn c) := ⟨by simp [readOn], by simp [readOn], by simp [readOn]⟩
theorem inv_rwOn (c : List α) : Inv (rwOn c) := ⟨by simp [rwOn], by simp [rwOn], by simp [rwOn]⟩
theorem inv_rwWith (c : List α) : Inv (rwWith c) :=
  ⟨by simp [rwWith], by simp [rwWith], by simp [rwWith]⟩
theorem inv_writeOn (c : List α) : Inv (writeOn c) :=
  ⟨by simp [writeOn], by simp [writeOn], by simp [writeOn]⟩
theorem inv_writeWith (c : List α) : Inv (writeWith c) :=
  ⟨by simp [writeWith], by simp [writeWith], by simp [writeWith]⟩

theorem tape_readOn (c : List α) : tape (readOn c) = ⟨.read, c, 0⟩ := by simp [tape, readOn]
theorem tape_rwOn (c : List α) : tape (rwOn c) = ⟨.readWrite, c, 0⟩ := by simp [tape, rwOn]
theorem tape_rwWith (c : List α) : tape (rwWith c) = ⟨.readWrite, c, c.length⟩ := by
  simp [tape, rwWith]
theorem tape_writeOn (c : List α) : tape (writeOn c) = ⟨.write, [], 0⟩ := by simp [tape, writeOn]
theorem tape_writeWith (c : List α) : tape (writeWith c) = ⟨.write, c, c.length⟩ := by
  simp [tape, writeWith]

/-- Any sequence of messages to `ReadStream on: c` is answered as by a tape holding `c`. -/
theorem read_stream_runs (fill : α) (c : List α) (ops : List (Op α)) :
    run fill ops (readOn c) = Tape.run ops ⟨.read, c, 0⟩ := by
  rw [← tape_readOn]
  refine run_good (P := fun _ => False) fill ops _ (inv_readOn c) ?_ (Or.inl rfl) ?_
  · intro y hy; simp [readOn] at hy
  · intro o _; cases o <;> simp [Allowed, readOn]

/-- Any sequence of messages but `upTo:` to `ReadStream on: c from: 1 to: k` is answered as by a
tape holding the first `k` elements, and `upTo: x` too when `x` is not among the elements left
out.  Missing: `upTo:` an element left out, see `upTo_past_limit`. -/
theorem read_limit_runs_partial (fill : α) (c : List α) (k : Nat) (hk : k ≤ c.length)
    (ops : List (Op α)) (hops : ∀ x, Op.upTo x ∈ ops → x ∉ c.drop k) :
    ∃ s, readOnFromTo c 1 k = some s ∧ run fill ops s = Tape.run ops ⟨.read, c.take k, 0⟩ := by
  refine ⟨⟨.read, c, 1, k⟩, ?_, ?_⟩
  · rw [readOnFromTo, if_pos rfl, if_neg (by omega)]
  · have e : tape (⟨.read, c, 1, k⟩ : St α) = ⟨.read, c.take k, 0⟩ := rfl
    rw [← e]
    refine run_good (P := fun y => y ∈ c.drop k) fill ops _ ⟨?_, ?_, hk⟩ (fun y hy => hy)
      (Or.inl rfl) ?_
    · show 1 ≤ 1; omega
    · show 1 ≤ k + 1; omega
    · intro o ho
      cases o <;> simp only [Allowed, true_or]
      rename_i x
      exact ⟨by simp, Or.inl (hops x ho)⟩

/-- `ReadStream on: c from: i to: k` with `i ≠ 1` holds a copy of that range. -/
theorem read_range_runs (fill : α) (c : List α) (i k : Nat) (hi : 2 ≤ i) (hik : i ≤ k + 1)
    (hk : k ≤ c.length) (ops : List (Op α)) :
    ∃ s, readOnFromTo c i k = some s ∧
      run fill ops s = Tape.run ops ⟨.read, (c.take k).drop (i - 1), 0⟩ := by
  have hc : copy1 c i k = some ((c.take k).drop (i - 1)) := by
    rw [copy1]
    by_cases he : k + 1 = i
    · rw [if_pos he, List.drop_of_length_le]; rw [List.length_take]; omega
    · rw [if_neg he, if_neg (by omega), if_neg (by omega)]
  refine ⟨readOn ((c.take k).drop (i - 1)), ?_, read_stream_runs _ _ _⟩
  rw [readOnFromTo, if_neg (by omega), hc]; rfl

/-- Any sequence of messages but `upTo:` to `ReadWriteStream on: c`, `ReadWriteStream with: c`,
`WriteStream on: c` or `WriteStream with: c`.  Missing: `upTo:`, see `rw_upTo_runs_partial`
and `upTo_finds_truncated`. -/
theorem write_streams_run_partial (fill : α) (c : List α) (ops : List (Op α))
    (hops : ∀ x, Op.upTo x ∉ ops) :
    run fill ops (rwOn c) = Tape.run ops ⟨.readWrite, c, 0⟩ ∧
    run fill ops (rwWith c) = Tape.run ops ⟨.readWrite, c, c.length⟩ ∧
    run fill ops (writeOn c) = Tape.run ops ⟨.write, [], 0⟩ ∧
    run fill ops (writeWith c) = Tape.run ops ⟨.write, c, c.length⟩ := by
  rw [← tape_rwOn, ← tape_rwWith, ← tape_writeOn c, ← tape_writeWith]
  have key : ∀ s : St α, Inv s → run fill ops s = Tape.run ops (tape s) := by
    intro s h
    refine run_good (P := fun _ => True) fill ops s h (fun _ _ => trivial) (Or.inr trivial) ?_
    intro o ho
    cases o <;> simp only [Allowed, implies_true, or_true]
    rename_i x; exact absurd ho (hops x)
  exact ⟨key _ (inv_rwOn c), key _ (inv_rwWith c), key _ (inv_writeOn c), key _ (inv_writeWith c)⟩

/-- Every message to a `ReadWriteStream`, `upTo:` included, as long as the stream is never
truncated.  Missing: `upTo:` after a truncation, see `upTo_finds_truncated`. -/
theorem rw_upTo_runs_partial (fill : α) (c : List α) (ops : List (Op α))
    (h1 : Op.truncate ∉ ops) (h2 : Op.emptyStream ∉ ops) :
    run fill ops (rwOn c) = Tape.run ops ⟨.readWrite, c, 0⟩ ∧
    run fill ops (rwWith c) = Tape.run ops ⟨.readWrite, c, c.length⟩ := by
  rw [← tape_rwOn, ← tape_rwWith]
  have key : ∀ s : St α, Inv s → s.kind = .readWrite → s.buf.length = s.endPtr →
      run fill ops s = Tape.run ops (tape s) := by
    intro s h hk hl
    refine run_good (P := fun y => y = fill) fill ops s h ?_ (Or.inr rfl) ?_
    · intro y hy; rw [List.drop_of_length_le (by omega)] at hy; simp at hy
    · intro o ho
      cases o <;> simp only [Allowed]
      · rename_i x
        refine ⟨by simp [hk], ?_⟩
        by_cases hx : x = fill
        · exact Or.inr fun y hy => hy.trans hx.symm
        · exact Or.inl hx
      · exact absurd ho h1
      · exact absurd ho h2
  exact ⟨key _ (inv_rwOn c) rfl rfl, key _ (inv_rwWith c) rfl rfl⟩

/-- What was written to a `WriteStream`, one element or one collection at a time, is exactly what
`contents` answers, whatever the initial buffer held and however small it was. -/
inductive Chunk (α : Type) where
  | one (x : α) | many (l : List α)

def Chunk.op : Chunk α → Op α
  | .one x => .nextPut x
  | .many l => .nextPutAll l

def Chunk.items : Chunk α → List α
  | .one x => [x]
  | .many l => l

theorem tape_write_end (k : Kind) (d l : List α) :
    (⟨k, d, d.length⟩ : Tape α).write l = ⟨k, d ++ l, (d ++ l).length⟩ := by
  simp [Tape.write]

theorem tape_chunks (k : Kind) (hk : k ≠ .read) (cs : List (Chunk α)) :
    ∀ (d : List α), (Tape.run (cs.map Chunk.op ++ [.contents]) ⟨k, d, d.length⟩).getLast? =
      some (.list (d ++ cs.flatMap Chunk.items)) := by
  induction cs with
  | nil =>
    intro d
    simp [Tape.run, Tape.step]
  | cons c cs ih =>
    intro d
    simp only [List.map_cons, List.cons_append, Tape.run]
    have hs : ((⟨k, d, d.length⟩ : Tape α).step c.op).2 =
        ⟨k, d ++ c.items, (d ++ c.items).length⟩ := by
      cases c with
      | one x =>
        simp only [Chunk.op, Chunk.items, Tape.step, Tape.writes]; rw [if_neg hk]
        exact tape_write_end k d [x]
      | many l =>
        simp only [Chunk.op, Chunk.items, Tape.step, Tape.writes]; rw [if_neg hk]
        exact tape_write_end k d l
    rw [hs]
    have hne : Tape.run (cs.map Chunk.op ++ [.contents])
        ⟨k, d ++ c.items, (d ++ c.items).length⟩ ≠ [] := by
      cases cs <;> simp [Tape.run]
    rw [List.getLast?_cons_of_ne_nil hne, ih]
    simp [List.append_assoc]

theorem chunk_not_upTo (cs : List (Chunk α)) (x : α) :
    Op.upTo x ∉ cs.map Chunk.op ++ [.contents] := by
  intro h
  rw [List.mem_append, List.mem_map] at h
  rcases h with ⟨c, _, hc⟩ | h
  · cases c <;> simp [Chunk.op] at hc
  · simp at h

theorem written_is_contents (fill : α) (c : List α) (cs : List (Chunk α)) :
    (run fill (cs.map Chunk.op ++ [.contents]) (writeOn c)).getLast? =
      some (.list (cs.flatMap Chunk.items)) ∧
    (run fill (cs.map Chunk.op ++ [.contents]) (writeWith c)).getLast? =
      some (.list (c ++ cs.flatMap Chunk.items)) ∧
    (run fill (cs.map Chunk.op ++ [.contents]) (rwWith c)).getLast? =
      some (.list (c ++ cs.flatMap Chunk.items)) := by
  obtain ⟨_, h2, h3, h4⟩ := write_streams_run_partial fill c (cs.map Chunk.op ++ [.contents])
    (chunk_not_upTo cs)
  rw [h2, h3, h4]
  exact ⟨by simpa using tape_chunks .write (by simp) cs [], tape_chunks .write (by simp) cs c,
    tape_chunks .readWrite (by simp) cs c⟩

example : (run 0 ([Chunk.one 5, .many [6, 7], .many [], .one 8].map Chunk.op ++ [.contents])
    (writeOn [1])).getLast? = some (.list [5, 6, 7, 8]) := by decide

example : run 0 [.next, .upTo 3, .nextPut 9, .contents, .skip (-2), .upTo 9, .atEnd] (rwOn [1, 2, 3, 4])
    = [.elem 1, .list [2], .elem 9, .list [1, 2, 3, 9], .unit, .list [3], .bool true] := by decide

/-- Copying the rest of a stream onto another one (`nextPutAllOn:`): the target receives exactly
the unread elements, the source ends at its end and is otherwise unchanged. -/
theorem copy_rest (fill : α) (c d : List α) (n : Nat) (hn : n ≤ c.length) :
    ∃ s s' t', setPosition (readOn c) n = some s ∧
      nextPutAllOn fill s (writeWith d) = some (s', t') ∧
      contents t' = some (d ++ c.drop n) ∧ contents s' = some c ∧ atEnd s' = true ∧
      position s' = c.length := by
  have hp := (setPosition_ok (inv_readOn c) (n := (n : Int)) ⟨by omega, by simp [readOn]; omega⟩).1
  simp only [Int.toNat_natCast] at hp
  have hm : c.length + 1 - (n + 1) = (c.drop n).length := by rw [List.length_drop]; omega
  have hput := putAll_ok fill (inv_writeWith d) (by simp [writeWith])
    (n := c.length + 1 - (n + 1)) (k := n + 1) (src := c) (by omega) (by omega)
  obtain ⟨e1, e2⟩ := room_facts fill (inv_writeWith d) (c.length + 1 - (n + 1))
  have hblk : (c.drop (n + 1 - 1)).take (c.length + 1 - (n + 1)) = c.drop n := by
    rw [Nat.add_sub_cancel, hm, List.take_length]
  rw [hblk, hm] at hput
  rw [hm] at e1 e2
  obtain ⟨w1, w2, _⟩ := write_good (P := fun _ => True) (inv_writeWith d) (fun _ _ => trivial)
    fill trivial e1 e2
  have hon : nextPutAllOn fill { readOn c with ptr := n + 1 } (writeWith d) =
      (putAll fill (writeWith d) (c.drop n).length c (n + 1)).map fun t' =>
        ({ readOn c with ptr := n + 1 + (c.drop n).length }, t') := by
    rw [nextPutAllOn, if_pos (by rfl)]
    simp only [readOn, hm]
  rw [hput] at hon
  refine ⟨_, _, _, hp, hon, ?_, ?_, ?_, ?_⟩
  · rw [contents_ok w2, ← w1, tape_writeWith, tape_write_end]
    simp only [writeWith, if_true, List.take_length]
  · simp only [contents, readOn]
    rw [copy1_take (by simp)]; simp
  · simp only [atEnd, readOn, decide_eq_true_eq, List.length_drop]; omega
  · simp only [position, readOn, List.length_drop]; omega

/-! ## Defects -/

/-- `upTo:` looks past the limit of the stream: asked for an element that the stream does not
hold but its collection does, it signals an error instead of answering the rest. -/
theorem upTo_past_limit :
    ∃ (c : List Nat) (k x : Nat) (s : St Nat), readOnFromTo c 1 k = some s ∧ x ∉ c.take k ∧
      run 0 [.upTo x] s = [.err] ∧ Tape.run [.upTo x] ⟨.read, c.take k, 0⟩ = [.list (c.take k)] :=
  ⟨[1, 2, 3, 4], 2, 4, ⟨.read, [1, 2, 3, 4], 1, 2⟩, by decide, by decide, by decide, by decide⟩

/-- It also looks in what `truncate` left behind. -/
theorem upTo_finds_truncated :
    run 0 [.skip 1, .truncate, .reset, .upTo 7] (rwOn [5, 6, 7]) = [.unit, .unit, .unit, .err] ∧
    Tape.run [.skip 1, .truncate, .reset, .upTo 7] (⟨.readWrite, [5, 6, 7], 0⟩ : Tape Nat) =
      [.unit, .unit, .unit, .list [5]] := by decide

/-- `ReadWriteStream on: c from: 1 to: k` streams on the whole of `c`, for every `k`. -/
theorem rw_limit_ignored (c : List α) (k : Nat) (hk : k ≤ c.length) :
    rwOnFromTo c 1 k = some (rwOn c) := by
  rw [rwOnFromTo, if_pos rfl, if_neg (by omega)]; rfl

/-- The refutation in terms of answers: `contents` is not the first `k` elements. -/
theorem rw_limit_wrong :
    ∃ (c : List Nat) (k : Nat) (s : St Nat), k ≤ c.length ∧ rwOnFromTo c 1 k = some s ∧
      run 0 [.contents] s ≠ [.list (c.take k)] :=
  ⟨[1, 2, 3], 2, rwOn [1, 2, 3], by decide, by decide, by decide⟩

/-- `readStream` of a `ReadStream` holds what the receiver holds. -/
theorem readStream_of_read (c : List α) :
    ∀ n ≤ c.length, ∃ s r, setPosition (readOn c) n = some s ∧ readStream s = some r ∧
      contents r = some c := by
  intro n hn
  have hp := (setPosition_ok (inv_readOn c) (n := (n : Int)) ⟨by omega, by simp [readOn]; omega⟩).1
  refine ⟨_, readOn c, hp, ?_, ?_⟩
  · simp only [readStream, readOn, readOnFromTo, if_true, Nat.lt_irrefl, if_false]
  · simp only [contents, readOn]; rw [copy1_take (Nat.le_refl _), List.take_length]

/-- A `ReadWriteStream` inherits the `readStream` of `WriteStream`, which stops at the current
position although the comment and `contents` say the whole: the stream on "abc" right after its
creation gives an empty `readStream`. -/
theorem rw_readStream_wrong :
    ∃ (c : List Nat) (r : St Nat), readStream (rwOn c) = some r ∧ contents (rwOn c) = some c ∧
      contents r ≠ some c :=
  ⟨[97, 98, 99], ⟨.read, [97, 98, 99], 1, 0⟩, by decide, by decide, by decide⟩

/-- `readStream` of a `WriteStream` or of a `ReadWriteStream` at its end holds what the receiver
holds. -/
theorem readStream_at_end_partial (s : St α) (h : Inv s) (he : s.endPtr < s.ptr ∨ s.kind = .write)
    (hk : s.kind ≠ .read) : ∃ r, readStream s = some r ∧ contents r = contents s := by
  have h1 := h.lo; have h2 := h.hi; have h3 := h.fits
  refine ⟨⟨.read, s.buf, 1, s.ptr - 1⟩, ?_, ?_⟩
  · cases hkk : s.kind <;> simp only [readStream, hkk]
    · exact absurd hkk hk
    all_goals rw [readOnFromTo, if_pos rfl, if_neg (by omega)]
  · cases hkk : s.kind
    · exact absurd hkk hk
    · simp only [contents, hkk]
    · simp only [contents, hkk]
      have : s.endPtr < s.ptr := by
        rcases he with he | he
        · exact he
        · rw [hkk] at he; cases he
      congr 1; omega

theorem revLoop_ok (buf : List α) (top m : Nat) (htop : top ≤ buf.length + 1) :
    ∀ (n i : Nat) (acc : List α), 1 ≤ i → i + n ≤ m + 1 → i + n ≤ top →
      revLoop buf top m n i acc = some (acc ++ ((buf.take (top - i)).drop (top - i - n)).reverse) := by
  intro n
  induction n with
  | zero =>
    intro i acc h1 h2 h3
    rw [revLoop, List.drop_of_length_le (by rw [List.length_take]; omega)]; simp
  | succ n ih =>
    intro i acc h1 h2 h3
    have hb : top - i - 1 < buf.length := by omega
    rw [revLoop, if_neg (by omega), if_neg (by omega), at1, if_neg (by omega),
      List.getElem?_eq_getElem hb]
    simp only
    rw [ih (i + 1) _ (by omega) (by omega) (by omega), List.append_assoc]
    have e : buf.take (top - i) = buf.take (top - (i + 1)) ++ [buf[top - i - 1]] := by
      have := List.take_append_getElem hb
      have h4 : top - i - 1 + 1 = top - i := by omega
      have h5 : top - (i + 1) = top - i - 1 := by omega
      rw [h4] at this; rw [h5]; exact this.symm
    rw [e, List.drop_append_of_le_length (by rw [List.length_take]; omega), List.reverse_append]
    have h6 : top - (i + 1) - n = top - i - (n + 1) := by omega
    rw [h6]; rfl

/-- `reverseContents` is the reverse of `contents` for a `ReadStream`, and for the two writable
streams when they are at their end. -/
theorem reverse_contents_partial (fill : α) (s : St α) (h : Inv s)
    (hs : s.kind = .read ∨ s.endPtr < s.ptr) :
    ∃ l, contents s = some l ∧ reverseContents fill s = some l.reverse := by
  have h1 := h.lo; have h2 := h.hi; have h3 := h.fits
  refine ⟨s.buf.take s.endPtr, ?_, ?_⟩
  · cases hk : s.kind <;> simp only [contents, hk]
    · exact copy1_take h3
    · have hlt : s.endPtr < s.ptr := by
        rcases hs with hs | hs
        · rw [hk] at hs; cases hs
        · exact hs
      have : s.ptr - 1 = s.endPtr := by omega
      rw [this]; exact copy1_take h3
    · exact copy1_take h3
  · by_cases hk : s.kind = .read
    · simp only [reverseContents, hk]
      rw [revLoop_ok _ _ _ (by omega) _ _ _ (by omega) (by omega) (by omega)]
      have : s.endPtr + 1 - 1 - s.endPtr = 0 := by omega
      rw [this]; simp
    · have hlt : s.endPtr < s.ptr := hs.resolve_left hk
      have e : s.ptr - 1 = s.endPtr := by omega
      have key : (revLoop s.buf s.ptr (s.ptr - 1) s.endPtr 1 []).map
          (fun l => l ++ List.replicate (s.ptr - 1 - l.length) fill) =
          some (s.buf.take s.endPtr).reverse := by
        rw [revLoop_ok _ _ _ (by omega) _ _ _ (by omega) (by omega) (by omega)]
        have h5 : s.ptr - 1 - s.endPtr = 0 := by omega
        rw [h5, e]
        simp only [List.nil_append, List.drop_zero, Option.map_some, List.length_reverse,
          List.length_take]
        have : s.endPtr - min s.endPtr s.buf.length = 0 := by omega
        rw [this]; simp
      cases hkk : s.kind
      · exact absurd hkk hk
      · simp only [reverseContents, hkk]; exact key
      · simp only [reverseContents, hkk]; exact key

/-- A `WriteStream` moved back from its end has `contents` but signals an error for
`reverseContents`; so does a fresh `ReadWriteStream`. -/
theorem reverse_contents_fails :
    ∃ s : St Nat, setPosition (writeWith [1, 2, 3]) 2 = some s ∧ contents s = some [1, 2] ∧
      reverseContents 0 s = none ∧ contents (rwOn [1, 2, 3]) = some [1, 2, 3] ∧
      reverseContents 0 (rwOn [1, 2, 3]) = none :=
  ⟨⟨.write, [1, 2, 3], 3, 3⟩, by decide, by decide, by decide, by decide, by decide⟩

/-- `reset` does not truncate a write-only stream, although its comment says it does: what was
written is back after `setToEnd`. -/
theorem reset_does_not_truncate :
    run 0 [.nextPutAll [1, 2], .reset, .contents, .size, .setToEnd, .contents] (writeOn ([] : List Nat)) =
      [.unit, .unit, .list [], .num 2, .unit, .list [1, 2]] := by decide

/-- `copyFrom: i to: j`, counting from 0, answers that part of the contents, for any stream in
any reachable state, if `j` is below the end; the range may be empty, and one that ends further
before its start is an error.  Missing: that a range beyond the end is an error, see
`copyFrom_past_end`. -/
theorem copyFrom_partial (s : St α) (h : Inv s) (i j : Nat) (hj : j < s.endPtr) :
    copyFromTo s i j =
      if i ≤ j + 1 then some (((s.buf.take s.endPtr).take (j + 1)).drop i) else none := by
  have h3 := h.fits
  rw [copyFromTo, copy1]
  by_cases h1 : j + 1 + 1 = i + 1
  · rw [if_pos h1, if_pos (by omega), List.drop_of_length_le]
    rw [List.length_take]; omega
  · rw [if_neg h1]
    by_cases h2 : j + 1 + 1 < i + 1
    · rw [if_pos h2, if_neg (by omega)]
    · rw [if_neg h2, if_neg (by omega), if_pos (by omega), List.take_take,
        Nat.min_eq_left (by omega)]
      rfl

example : copyFromTo (readOn [1, 2, 3, 4]) 1 2 = some [2, 3] := rfl

/-- On a `WriteStream` nothing has been written to yet, `copyFrom:to:` answers what the
collection held before. -/
theorem copyFrom_past_end : contents (writeOn [1, 2, 3]) = some [] ∧
    copyFromTo (writeOn [1, 2, 3]) 0 1 = some [1, 2] := ⟨rfl, rfl⟩

end Verif.Stream
