import Verif.Bytecode.Superop
/-!
# Jumps land on their targets after optimisation (C25)
-/
namespace Verif.Bytecode

/-- libgst/opt.c l.112-122 (`block_boundary`), after the blocks have been optimised: the bytecodes between `start` and
`start + opt_length`, and, when `kind` is not -1, the kind of the jump and the number of the block `dest_bb`. -/
structure Blk where
  code : List (Nat × Nat)
  jump : Option (Nat × Nat)

/-- `opt_length`, in bytes. -/
def Blk.len (b : Blk) : Nat := 2 * b.code.length

/-- libgst/opt.c l.413-430 (`compute_jump_length`). -/
def jumpLength (ofs : Int) : Nat :=
  if ofs > -254 ∧ ofs < 258 then 2
  else if ofs > -65532 ∧ ofs < 65540 then 4
  else if ofs > -16777210 ∧ ofs < 16777222 then 6
  else 8

/-- libgst/opt.c l.655-661: the length planned for the jump at the end of block `b`, `j`-th in the method. -/
def planned (f : Nat → Nat) (j : Nat) (b : Blk) : Nat :=
  match b.jump with
  | none => 0
  | some (_, d) => jumpLength ((f d : Int) - (f j + b.len))

/-- libgst/opt.c l.612-640: `final_byte` before any jump is counted.  `f` holds the `final_byte` fields, `j` is the number
of the block, `i` the C variable `i`. -/
def initFinal : List Blk → Nat → Nat → (Nat → Nat) → (Nat → Nat)
  | [], _, _, f => f
  | b :: bs, j, i, f => initFinal bs (j + 1) (i + b.len) (fun k => if k = j then i else f k)

/-- libgst/opt.c l.645-664: one iteration of the loop that computes the size of the jumps; `changed` is the C variable.
The fields `final_byte` are updated in place, so that a jump sees the new position of earlier blocks and the old
position of later ones. -/
def pass : List Blk → Nat → Nat → (Nat → Nat) → Bool → (Nat → Nat) × Bool
  | [], _, _, f, changed => (f, changed)
  | b :: bs, j, i, f, changed =>
    let f' : Nat → Nat := fun k => if k = j then i else f k
    pass bs (j + 1) (i + b.len + planned f' j b) f' (changed || f j != i)

/-- libgst/opt.c l.643-666: `do ... while (changed)`; `none` if more than `fuel` iterations are needed. -/
def settle (bs : List Blk) : Nat → (Nat → Nat) → Option (Nat → Nat)
  | 0, _ => none
  | fuel + 1, f =>
    match pass bs 0 0 f false with
    | (f', false) => some f'
    | (f', true) => settle bs fuel f'

/-- libgst/opt.c l.612-666: the `final_byte` of all blocks. -/
def layout (bs : List Blk) (fuel : Nat) : Option (Nat → Nat) := settle bs fuel (initFinal bs 0 0 fun _ => 0)

/-- libgst/opt.c l.674-683: the operand given to the jump at the end of block `j`. -/
def operand (f : Nat → Nat) (j d : Nat) (b : Blk) : Nat :=
  ((f d : Int) - (f j + b.len + planned f j b)).natAbs

/-- libgst/opt.c l.670-684: the bytecodes emitted for block `j`. -/
def emitBlk (f : Nat → Nat) (j : Nat) (b : Blk) : List (Nat × Nat) :=
  b.code ++ match b.jump with
    | none => []
    | some (kind, d) => compileByte kind (operand f j d b)

/-- libgst/opt.c l.668-684: "put together the whole method", from block `j` on. -/
def emitAll (f : Nat → Nat) : Nat → List Blk → List (Nat × Nat)
  | _, [] => []
  | j, b :: bs => emitBlk f j b ++ emitAll f (j + 1) bs

/-! ## Specification -/

/-- Position, in the emitted bytes, of the first byte of block `j`. -/
def actual (f : Nat → Nat) (bs : List Blk) (j : Nat) : Nat := 2 * (emitAll f 0 (bs.take j)).length

/-- A backward jump: byte.def subtracts the operand. -/
def isBack (kind : Nat) : Bool := (byteDef.getD kind []).getLast?.map (·.op) == some .jumpBack

/-- Where a jump of this kind with operand `n` goes when the next instruction is at `after` (libgst/vm.def l.761-809). -/
def target (kind after n : Nat) : Int := if isBack kind then (after : Int) - n else after + n

/-- What the caller guarantees: the destination of each jump is a block of the method, at or before the jump for a
backward jump and after it for a forward jump. -/
def WellFormed (bs : List Blk) : Prop :=
  ∀ j b kind d, bs[j]? = some b → b.jump = some (kind, d) →
    d < bs.length ∧ (isBack kind = true → d ≤ j) ∧ (isBack kind = false → j < d)

/-- The property: every jump goes to the first byte of its destination. -/
def JumpsLand (bs : List Blk) (f : Nat → Nat) : Prop :=
  ∀ j b kind d, bs[j]? = some b → b.jump = some (kind, d) →
    target kind (actual f bs (j + 1)) (operand f j d b) = actual f bs d

/-! ## Lemmas -/

theorem jumpLength_pos (o : Int) : 2 ≤ jumpLength o ∧ jumpLength o ≤ 8 := by
  unfold jumpLength
  split <;> [omega; skip]
  split <;> [omega; skip]
  split <;> omega

/-- The positions agree with the planned lengths, from block `j` at position `i` on. -/
def Consistent (f : Nat → Nat) : List Blk → Nat → Nat → Prop
  | [], _, _ => True
  | b :: bs, j, i => f j = i ∧ Consistent f bs (j + 1) (i + b.len + planned f j b)

theorem pass_unchanged (bs : List Blk) (j i : Nat) (f : Nat → Nat) (ch : Bool) (f' : Nat → Nat)
    (h : pass bs j i f ch = (f', false)) : ch = false ∧ f' = f ∧ Consistent f bs j i := by
  induction bs generalizing j i f ch with
  | nil =>
    simp only [pass, Prod.mk.injEq] at h
    exact ⟨h.2, h.1.symm, trivial⟩
  | cons b bs ih =>
    simp only [pass] at h
    obtain ⟨h1, h2, h3⟩ := ih _ _ _ _ h
    simp only [Bool.or_eq_false_iff, bne_eq_false_iff_eq] at h1
    have e : (fun k => if k = j then i else f k) = f := by
      funext k
      split
      · rename_i hk; rw [hk, h1.2]
      · rfl
    rw [e] at h2 h3
    exact ⟨h1.1, h2, h1.2, h3⟩

theorem settle_consistent (bs : List Blk) (fuel : Nat) (f f' : Nat → Nat) (h : settle bs fuel f = some f') :
    Consistent f' bs 0 0 := by
  induction fuel generalizing f with
  | zero => simp [settle] at h
  | succ fuel ih =>
    rw [settle] at h
    split at h
    · rename_i g hg
      simp only [Option.some.injEq] at h
      subst h
      obtain ⟨-, h2, h3⟩ := pass_unchanged _ _ _ _ _ _ hg
      rw [h2]
      exact h3
    · exact ih _ h

theorem Consistent.step {f : Nat → Nat} {bs : List Blk} {j0 i : Nat} (h : Consistent f bs j0 i) (j : Nat) (b b' : Blk)
    (hb : bs[j]? = some b) (hb' : bs[j + 1]? = some b') : f (j0 + j + 1) = f (j0 + j) + b.len + planned f (j0 + j) b := by
  induction bs generalizing j0 i j with
  | nil => simp at hb
  | cons c bs ih =>
    cases j with
    | zero =>
      simp only [List.getElem?_cons_zero, Option.some.injEq] at hb
      subst hb
      cases bs with
      | nil => simp at hb'
      | cons d bs =>
        have h2 := h.2.1
        simp only [Nat.add_zero]
        rw [h2, h.1]
    | succ j =>
      have := ih h.2 j (by simpa using hb) (by simpa using hb')
      rw [show j0 + (j + 1) = j0 + 1 + j by omega]
      exact this

theorem Consistent.first {f : Nat → Nat} {b : Blk} {bs : List Blk} {j i : Nat} (h : Consistent f (b :: bs) j i) :
    f j = i := h.1

theorem emitAll_append (f : Nat → Nat) (j : Nat) (l r : List Blk) :
    emitAll f j (l ++ r) = emitAll f j l ++ emitAll f (j + l.length) r := by
  induction l generalizing j with
  | nil => simp [emitAll]
  | cons b l ih =>
    simp only [List.cons_append, emitAll, ih, List.append_assoc, List.length_cons]
    rw [show j + 1 + l.length = j + (l.length + 1) by omega]

theorem actual_succ (f : Nat → Nat) (bs : List Blk) (j : Nat) (b : Blk) (hb : bs[j]? = some b) :
    actual f bs (j + 1) = actual f bs j + 2 * (emitBlk f j b).length := by
  have hj : j < bs.length := (List.getElem?_eq_some_iff.1 hb).1
  have e : bs.take (j + 1) = bs.take j ++ [b] := by
    rw [List.take_add_one, hb]
    rfl
  rw [actual, actual, e, emitAll_append]
  simp only [emitAll, List.append_nil, List.length_append, List.length_take, Nat.zero_add]
  rw [Nat.min_eq_left (by omega)]
  omega

/-- The distance from the end of the block to the destination, which decides the length of a jump. -/
def distance (f : Nat → Nat) (j d : Nat) (b : Blk) : Int := (f d : Int) - (f j + b.len)

/-- The distances at which the planned length is one bytecode more than what `compile_byte` emits. -/
def Boundary (o : Int) : Prop := 258 ≤ o ∧ o < 260 ∨ 65540 ≤ o ∧ o < 65542 ∨ 16777222 ≤ o ∧ o < 16777224

theorem emitted_length (kind : Nat) (o : Int) (hb : ¬Boundary o)
    (hs : -2147483648 < o ∧ o < 2147483648) :
    2 * (compileByte kind (o - jumpLength o).natAbs).length = jumpLength o := by
  unfold Boundary at hb
  have key : ∀ k L : Nat, jumpLength o = L → L = 2 * (k + 1) →
      (o - L).natAbs < 256 ^ (k + 1) ∧ (0 < k → 256 ^ k ≤ (o - L).natAbs) →
      2 * (compileByte kind (o - jumpLength o).natAbs).length = jumpLength o := by
    intro k L e e' h
    rw [e, (operand_length kind _ k).2 h, e']
  have hj : jumpLength o = if o > -254 ∧ o < 258 then 2
    else if o > -65532 ∧ o < 65540 then 4
    else if o > -16777210 ∧ o < 16777222 then 6
    else 8 := rfl
  by_cases h1 : o > -254 ∧ o < 258
  · rw [if_pos h1] at hj
    exact key 0 2 hj rfl ⟨by (try simp only [Nat.reduceAdd, Nat.reducePow]); omega,
      fun _ => by (try simp only [Nat.reducePow]); omega⟩
  rw [if_neg h1] at hj
  by_cases h2 : o > -65532 ∧ o < 65540
  · rw [if_pos h2] at hj
    exact key 1 4 hj rfl ⟨by (try simp only [Nat.reduceAdd, Nat.reducePow]); omega,
      fun _ => by (try simp only [Nat.reducePow]); omega⟩
  rw [if_neg h2] at hj
  by_cases h3 : o > -16777210 ∧ o < 16777222
  · rw [if_pos h3] at hj
    exact key 2 6 hj rfl ⟨by (try simp only [Nat.reduceAdd, Nat.reducePow]); omega,
      fun _ => by (try simp only [Nat.reducePow]); omega⟩
  rw [if_neg h3] at hj
  exact key 3 8 hj rfl ⟨by (try simp only [Nat.reduceAdd, Nat.reducePow]); omega,
      fun _ => by (try simp only [Nat.reducePow]); omega⟩

theorem Consistent.mono {f : Nat → Nat} {bs : List Blk} (h : Consistent f bs 0 0) (j k : Nat) (hjk : j ≤ k)
    (hk : k < bs.length) : f j ≤ f k := by
  induction k with
  | zero => rw [Nat.le_zero.1 hjk]
  | succ k ih =>
    by_cases e : j = k + 1
    · rw [e]
    · have := ih (by omega) (by omega)
      have h2 := h.step k _ _ (List.getElem?_eq_getElem (by omega : k < bs.length)) (List.getElem?_eq_getElem hk)
      simp only [Nat.zero_add] at h2
      omega

/-- No jump is at one of the distances where the planned and the emitted length differ. -/
def NoBoundary (bs : List Blk) (f : Nat → Nat) : Prop :=
  ∀ j b kind d, bs[j]? = some b → b.jump = some (kind, d) → ¬Boundary (distance f j d b)

/-- A method of less than 2 GB. -/
def FitsInt (bs : List Blk) (f : Nat → Nat) : Prop :=
  ∀ j b, bs[j]? = some b → f j + b.len < 2147483648

theorem forward_gap {f : Nat → Nat} {bs : List Blk} (h : Consistent f bs 0 0) (j d : Nat) (b : Blk)
    (hb : bs[j]? = some b) (hjd : j < d) (hd : d < bs.length) : f j + b.len + planned f j b ≤ f d := by
  have h2 := h.step j _ _ hb (List.getElem?_eq_getElem (by omega : j + 1 < bs.length))
  simp only [Nat.zero_add] at h2
  have := h.mono (j + 1) d hjd hd
  omega

theorem emitBlk_length {f : Nat → Nat} {bs : List Blk} (wf : WellFormed bs)
    (nb : NoBoundary bs f) (fi : FitsInt bs f) (j : Nat) (b : Blk) (hb : bs[j]? = some b) :
    2 * (emitBlk f j b).length = b.len + planned f j b := by
  cases hj : b.jump with
  | none => simp [emitBlk, planned, hj, Blk.len]
  | some kd =>
    obtain ⟨kind, d⟩ := kd
    obtain ⟨hd, hback, hfwd⟩ := wf j b kind d hb hj
    have hlt : j < bs.length := (List.getElem?_eq_some_iff.1 hb).1
    have e : operand f j d b = (distance f j d b - jumpLength (distance f j d b)).natAbs := by
      simp only [operand, planned, hj, distance]
      congr 1
      omega
    have ep : planned f j b = jumpLength (distance f j d b) := by simp [planned, hj, distance]
    simp only [emitBlk, hj, List.length_append, Nat.mul_add, ep]
    have hfj := fi j b hb
    have hfd := fi d _ (List.getElem?_eq_getElem hd)
    rw [e, emitted_length kind _ (nb j b kind d hb hj) (by unfold distance; omega)]
    rfl

theorem actual_eq {f : Nat → Nat} {bs : List Blk} (h : Consistent f bs 0 0) (wf : WellFormed bs)
    (nb : NoBoundary bs f) (fi : FitsInt bs f) (j : Nat) (hj : j < bs.length) : actual f bs j = f j := by
  induction j with
  | zero =>
    cases bs with
    | nil => simp at hj
    | cons b bs => rw [h.first]; simp [actual, emitAll]
  | succ j ih =>
    have hb := List.getElem?_eq_getElem (by omega : j < bs.length)
    rw [actual_succ f bs j _ hb, ih (by omega), emitBlk_length wf nb fi j _ hb]
    have h2 := h.step j _ _ hb (List.getElem?_eq_getElem hj)
    simp only [Nat.zero_add] at h2
    omega

theorem lands {f : Nat → Nat} {bs : List Blk} (h : Consistent f bs 0 0) (wf : WellFormed bs)
    (nb : NoBoundary bs f) (fi : FitsInt bs f) : JumpsLand bs f := by
  intro j b kind d hb hj
  obtain ⟨hd, hback, hfwd⟩ := wf j b kind d hb hj
  have hlt : j < bs.length := (List.getElem?_eq_some_iff.1 hb).1
  rw [actual_succ f bs j b hb, actual_eq h wf nb fi j hlt, actual_eq h wf nb fi d hd,
    emitBlk_length wf nb fi j b hb]
  unfold target operand
  cases hk : isBack kind with
  | true =>
    have := h.mono d j (hback hk) hlt
    simp only [if_true]
    omega
  | false =>
    have := forward_gap h j d b hb (hfwd hk) hd
    simp only [Bool.false_eq_true, if_false]
    omega

/-! ## Theorems -/

/-- C25, for every method: when the loop that computes the size of the jumps has ended, every jump of the method goes to
the first byte of its destination, provided that no distance is one of those at which the loop reserves more bytes than
are emitted.  Missing: that proviso (see `jump_misses`) and that the loop ends. -/
theorem jumps_land_partial (bs : List Blk) (fuel : Nat) (f : Nat → Nat) (hl : layout bs fuel = some f)
    (wf : WellFormed bs) (nb : NoBoundary bs f) (fi : FitsInt bs f) : JumpsLand bs f :=
  lands (settle_consistent bs fuel _ f hl) wf nb fi

/-! ### Methods shorter than 254 bytes -/

/-- The number of bytes of the block when its jump takes two. -/
def Blk.short (b : Blk) : Nat := b.len + if b.jump.isSome then 2 else 0

def shortPos (bs : List Blk) (j : Nat) : Nat := ((bs.take j).map Blk.short).sum

theorem shortPos_succ (bs : List Blk) (j : Nat) (b : Blk) (hb : bs[j]? = some b) :
    shortPos bs (j + 1) = shortPos bs j + b.short := by
  rw [shortPos, shortPos, List.take_add_one, hb]
  simp

theorem shortPos_le (bs : List Blk) (j : Nat) : shortPos bs j ≤ (bs.map Blk.short).sum := by
  conv_rhs => rw [← List.take_append_drop j bs, List.map_append, List.sum_append]
  exact Nat.le_add_right _ _

theorem mem_le_sum (l : List Nat) (x : Nat) (h : x ∈ l) : x ≤ l.sum := by
  induction l with
  | nil => simp at h
  | cons y l ih =>
    rw [List.sum_cons]
    rcases List.mem_cons.1 h with rfl | h
    · omega
    · have := ih h
      omega

theorem initFinal_le (bs : List Blk) (j i : Nat) (f : Nat → Nat) (T : Nat) (hf : ∀ k, f k ≤ T)
    (hi : i + (bs.map Blk.short).sum ≤ T) : ∀ k, initFinal bs j i f k ≤ T := by
  induction bs generalizing j i f with
  | nil => exact hf
  | cons b bs ih =>
    simp only [List.map_cons, List.sum_cons] at hi
    have hb : b.len ≤ b.short := by unfold Blk.short; omega
    apply ih
    · intro k
      show (if k = j then i else f k) ≤ T
      split
      · omega
      · exact hf k
    · omega

theorem short_planned (f : Nat → Nat) (j : Nat) (b : Blk) (hf : ∀ k, f k < 254) (hb : f j + b.len < 254) :
    b.len + planned f j b = b.short := by
  unfold planned Blk.short
  cases hj : b.jump with
  | none => simp
  | some kd =>
    have := hf kd.2
    have := hf j
    simp only [Option.isSome_some, if_true]
    unfold jumpLength
    rw [if_pos (by constructor <;> omega)]

theorem pass_short (bs : List Blk) (T : Nat) (hT : T < 254) (hs : (bs.map Blk.short).sum = T) (m j : Nat)
    (hm : j + m = bs.length) (f : Nat → Nat) (hf : ∀ k, f k ≤ T) (ch : Bool) :
    ∃ f' ch', pass (bs.drop j) j (shortPos bs j) f ch = (f', ch') ∧ (∀ k, j ≤ k → k < bs.length → f' k = shortPos bs k) ∧
      (∀ k, k < j → f' k = f k) ∧ (∀ k, f' k ≤ T) ∧
      (ch = false → (∀ k, j ≤ k → k < bs.length → f k = shortPos bs k) → ch' = false) := by
  induction m generalizing j f ch with
  | zero =>
    refine ⟨f, ch, ?_, ?_, ?_, hf, ?_⟩
    · rw [List.drop_eq_nil_of_le (by omega), pass]
    · intro k h1 h2; omega
    · intro k _; rfl
    · intro h _; exact h
  | succ m ih =>
    have hj : j < bs.length := by omega
    have hb := List.getElem?_eq_getElem hj
    have hle : shortPos bs (j + 1) ≤ T := hs ▸ shortPos_le bs (j + 1)
    rw [shortPos_succ bs j _ hb] at hle
    have hbl : (bs[j]).len ≤ (bs[j]).short := by unfold Blk.short; omega
    rw [List.drop_eq_getElem_cons hj, pass]
    generalize hg : (fun k => if k = j then shortPos bs j else f k) = g
    have hgj : g j = shortPos bs j := by rw [← hg]; simp
    have hgk : ∀ k, k ≠ j → g k = f k := by intro k hk; rw [← hg]; simp [hk]
    have hgT : ∀ k, g k ≤ T := by
      intro k
      by_cases hk : k = j
      · rw [hk, hgj]; omega
      · rw [hgk k hk]; exact hf k
    have hpl := short_planned g j bs[j] (fun k => by have := hgT k; omega) (by rw [hgj]; omega)
    rw [show shortPos bs j + (bs[j]).len + planned g j bs[j] = shortPos bs (j + 1) by
      rw [shortPos_succ bs j _ hb]; omega]
    obtain ⟨f', ch', h1, h2, h3, h4, h5⟩ := ih (j + 1) (by omega) g hgT (ch || f j != shortPos bs j)
    refine ⟨f', ch', h1, ?_, ?_, h4, ?_⟩
    · intro k hk hk'
      by_cases e : k = j
      · rw [e, h3 j (by omega), hgj]
      · exact h2 k (by omega) hk'
    · intro k hk
      rw [h3 k (by omega), hgk k (by omega)]
    · intro hch hfk
      apply h5
      · simp [hch, hfk j (Nat.le_refl j) hj]
      · intro k hk hk'
        rw [hgk k (by omega)]
        exact hfk k (by omega) hk'

/-- C25 for methods shorter than 254 bytes: the loop ends by the third iteration and every jump goes to the first byte of
its destination. -/
theorem short_jumps_land (bs : List Blk) (wf : WellFormed bs) (hs : (bs.map Blk.short).sum < 254) :
    ∃ f, layout bs 2 = some f ∧ JumpsLand bs f := by
  have h0 := initFinal_le bs 0 0 (fun _ => 0) _ (fun _ => Nat.zero_le _) (Nat.le_of_eq (Nat.zero_add _))
  obtain ⟨f1, c1, e1, a1, -, t1, -⟩ := pass_short bs _ hs rfl bs.length 0 (by omega) _ h0 false
  obtain ⟨f2, c2, e2, a2, -, t2, n2⟩ := pass_short bs _ hs rfl bs.length 0 (by omega) f1 t1 false
  have hc2 := n2 rfl a1
  subst hc2
  have z : shortPos bs 0 = 0 := by simp [shortPos]
  rw [z, List.drop_zero] at e1 e2
  have key : ∃ f, layout bs 2 = some f ∧ ∀ k, f k ≤ (bs.map Blk.short).sum := by
    rw [layout, settle, e1]
    cases c1 with
    | false => exact ⟨f1, rfl, t1⟩
    | true =>
      dsimp only
      rw [settle, e2]
      exact ⟨f2, rfl, t2⟩
  obtain ⟨f, hf, ht⟩ := key
  refine ⟨f, hf, jumps_land_partial bs 2 f hf wf ?_ ?_⟩
  · intro j b kind d hb hj
    have := ht d
    have := ht j
    unfold Boundary distance
    omega
  · intro j b hb
    have := ht j
    have h1 : b.short ≤ (bs.map Blk.short).sum := mem_le_sum _ _ (List.mem_map_of_mem (List.mem_of_getElem? hb))
    have : b.len ≤ b.short := by unfold Blk.short; omega
    omega

/-! ### The loop can reserve too much -/

/-- 128 conditional jumps to the next statement, a conditional jump over 254 bytes, a jump back to the beginning, and the
return: what is left of a loop `[a ifTrue: []. b ifTrue: []. ... y ifTrue: [...]] repeat` when only the jumps are kept. -/
def missBlocks : List Blk :=
  (List.range 128).map (fun j => ⟨[], some (42, j + 1)⟩) ++
    [⟨[], some (42, 130)⟩, ⟨List.replicate 127 (45, 0), none⟩, ⟨[], some (40, 0)⟩, ⟨[(51, 0)], none⟩]

/-- Decidable form of `WellFormed`. -/
def wellFormedB (bs : List Blk) : Bool :=
  (List.range bs.length).all fun j =>
    match bs[j]? with
    | none => true
    | some b =>
      match b.jump with
      | none => true
      | some (kind, d) => decide (d < bs.length) && if isBack kind then decide (d ≤ j) else decide (j < d)

theorem wellFormed_of_check (bs : List Blk) (h : wellFormedB bs = true) : WellFormed bs := by
  intro j b kind d hb hj
  have hlt : j < bs.length := (List.getElem?_eq_some_iff.1 hb).1
  have := List.all_eq_true.1 h j (List.mem_range.2 hlt)
  rw [hb] at this
  simp only [hj, Bool.and_eq_true, decide_eq_true_eq] at this
  refine ⟨this.1, ?_, ?_⟩
  · intro hk
    have h2 := this.2
    rw [hk] at h2
    simpa using h2
  · intro hk
    have h2 := this.2
    rw [hk] at h2
    simpa using h2

/-- Where the jump at the end of block `j` goes, and where its destination is. -/
def landing (bs : List Blk) (fuel j : Nat) : Option (Int × Nat) := do
  let f ← layout bs fuel
  let b ← bs[j]?
  let (kind, d) ← b.jump
  pure (target kind (actual f bs (j + 1)) (operand f j d b), actual f bs d)

/-- C25 fails: in the 130-jump loop above the size loop ends with four bytes reserved for a jump that takes two, and the
jump at the end of the loop goes two bytes before the first bytecode of the method. -/
theorem jump_misses : WellFormed missBlocks ∧ landing missBlocks 3 130 = some (-2, 0) ∧
    ∃ f, layout missBlocks 3 = some f ∧ ¬JumpsLand missBlocks f := by
  have e : landing missBlocks 3 130 = some (-2, 0) := by decide +kernel
  refine ⟨wellFormed_of_check _ (by decide +kernel), e, ?_⟩
  rw [landing] at e
  simp only [Option.bind_eq_bind, Option.bind_eq_some_iff] at e
  obtain ⟨f, hf, b, hb, ⟨kind, d⟩, hj, he⟩ := e
  refine ⟨f, hf, fun hl => ?_⟩
  have := hl 130 b kind d hb hj
  simp only [pure, Option.some.injEq, Prod.mk.injEq] at he
  rw [he.1, he.2] at this
  exact absurd this (by decide)

/-! ### A method with a long jump -/

/-- `x whileTrue: [200 pushes and pops]`, with its two jumps of four bytes. -/
def loopBlocks : List Blk :=
  [⟨[(32, 0)], some (43, 2)⟩, ⟨List.replicate 200 (45, 0), some (40, 0)⟩, ⟨[(51, 0)], none⟩]

example : wellFormedB loopBlocks = true ∧ (layout loopBlocks 5).isSome ∧
    (landing loopBlocks 5 0 = some (410, 410)) ∧ landing loopBlocks 5 1 = some (0, 0) := by decide +kernel

/-- The hypotheses of `jumps_land_partial` hold of that method. -/
example : ∃ f, layout loopBlocks 5 = some f ∧ WellFormed loopBlocks ∧ NoBoundary loopBlocks f ∧ FitsInt loopBlocks f := by
  have h : ∃ f, layout loopBlocks 5 = some f ∧ f 0 = 0 ∧ f 1 = 6 ∧ f 2 = 410 := by
    have e : (layout loopBlocks 5).map (fun f => (f 0, f 1, f 2)) = some (0, 6, 410) := by decide +kernel
    obtain ⟨f, hf, hv⟩ := Option.map_eq_some_iff.1 e
    simp only [Prod.mk.injEq] at hv
    exact ⟨f, hf, hv.1, hv.2.1, hv.2.2⟩
  obtain ⟨f, hf, h0, h1, h2⟩ := h
  have hl : ∀ j (b : Blk), loopBlocks[j]? = some b → j = 0 ∧ b = ⟨[(32, 0)], some (43, 2)⟩ ∨
      j = 1 ∧ b = ⟨List.replicate 200 (45, 0), some (40, 0)⟩ ∨ j = 2 ∧ b = ⟨[(51, 0)], none⟩ := by
    intro j b hb
    match j, hb with
    | 0, hb => simp [loopBlocks] at hb; simp [← hb]
    | 1, hb => simp [loopBlocks] at hb; simp [← hb]
    | 2, hb => simp [loopBlocks] at hb; simp [← hb]
    | j + 3, hb => simp [loopBlocks] at hb
  refine ⟨f, hf, wellFormed_of_check _ (by decide +kernel), ?_, ?_⟩
  · intro j b kind d hb hj
    rcases hl j b hb with ⟨rfl, rfl⟩ | ⟨rfl, rfl⟩ | ⟨rfl, rfl⟩
    · simp only [Option.some.injEq, Prod.mk.injEq] at hj
      rw [← hj.2]
      simp [Boundary, distance, Blk.len, h0, h2]
    · simp only [Option.some.injEq, Prod.mk.injEq] at hj
      rw [← hj.2]
      simp only [Boundary, distance, Blk.len, h0, h1, List.length_replicate]
      omega
    · simp at hj
  · intro j b hb
    rcases hl j b hb with ⟨rfl, rfl⟩ | ⟨rfl, rfl⟩ | ⟨rfl, rfl⟩
    · simp [Blk.len, h0]
    · simp only [Blk.len, h1, List.length_replicate]
      omega
    · simp [Blk.len, h2]

/-- A method shorter than 254 bytes, as in `short_jumps_land`. -/
example : wellFormedB [⟨[(32, 0)], some (43, 2)⟩, ⟨[(45, 0)], some (40, 0)⟩, ⟨[(51, 0)], none⟩] = true ∧
    landing [⟨[(32, 0)], some (43, 2)⟩, ⟨[(45, 0)], some (40, 0)⟩, ⟨[(51, 0)], none⟩] 2 0 = some (8, 8) := by
  decide +kernel

end Verif.Bytecode
