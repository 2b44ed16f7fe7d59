import Verif.Bytecode.Decode
/-!
# Superoperators do not change the program (C23)
-/
namespace Verif.Bytecode

/-- libgst/opt.c l.690-716 (`search_superop_fixed_arg_1`). -/
def search1 (bc1 arg bc2 : Nat) : Option Nat :=
  let key := asso1.getD bc1 0 + asso1.getD bc2 0 + asso1.getD arg 0
  if key > maxHash1 then none
  else
    let k := keylist1.getD key ((0, 0, 0), none)
    if bc1 = k.1.1 ∧ bc2 = k.1.2.1 ∧ arg = k.1.2.2 then k.2 else none

/-- libgst/opt.c l.719-745 (`search_superop_fixed_arg_2`). -/
def search2 (bc1 bc2 arg : Nat) : Option Nat :=
  let key := asso2.getD bc1 0 + asso2.getD bc2 0 + asso2.getD arg 0
  if key > maxHash2 then none
  else
    let k := keylist2.getD key ((0, 0, 0), none)
    if bc1 = k.1.1 ∧ bc2 = k.1.2.1 ∧ arg = k.1.2.2 then k.2 else none

attribute [local irreducible] search1 search2

/-- libgst/opt.c l.882-935 (`optimize_superoperators`): the inner `do ... while (opt - from >= 4)`.  The list is the
optimised area, last bytecode first: its head is `opt[-2], opt[-1]`, the next element `opt[-4], opt[-3]`, the next
one `opt[-6], opt[-5]`.  `s2` and `s1` are the two searches. -/
def reduceWith (s2 s1 : Nat → Nat → Nat → Option Nat) : List (Nat × Nat) → List (Nat × Nat)
  | (b2, a2) :: (b1, a1) :: rest =>
    match s2 b1 b2 a2 with
    | some s => reduceWith s2 s1 ((s, a1) :: rest)
    | none =>
      if rest = [] ∨ (rest.head?.map Prod.fst) ≠ some EXT then
        match s1 b1 a1 b2 with
        | some s => reduceWith s2 s1 ((s, a2) :: rest)
        | none => (b2, a2) :: (b1, a1) :: rest
      else (b2, a2) :: (b1, a1) :: rest
  | l => l
termination_by l => l.length

/-- libgst/opt.c l.882-935 (`optimize_superoperators`): the inner loop with the two searches it uses. -/
def reduce : List (Nat × Nat) → List (Nat × Nat) := reduceWith search2 search1

/-- libgst/opt.c l.858-939 (`optimize_superoperators`): the outer loop, over the bytecodes still to be read. -/
def superopLoop : List (Nat × Nat) → List (Nat × Nat) → List (Nat × Nat)
  | out, [] => out
  | out, p :: ps => superopLoop (reduce (p :: out)) ps

/-- libgst/opt.c l.858-939 (`optimize_superoperators`).  The first bytecode is copied without trying anything. -/
def optimizeSuperoperators : List (Nat × Nat) → List (Nat × Nat)
  | [] => []
  | p :: ps => (superopLoop [p] ps).reverse

/-- libgst/opt.c l.620-636 (`_gst_optimize_bytecodes`): "make a superoperator with the last bytecode and the jump".
Answers the block without its last bytecode and the new kind of the jump, or both unchanged. -/
def fuseJump (block : List (Nat × Nat)) (kind : Nat) : List (Nat × Nat) × Nat :=
  match block.reverse with
  | (b, a) :: rest =>
    if rest.head?.map Prod.fst = some EXT then (block, kind)
    else match search1 b a kind with
      | some s => (rest.reverse, s)
      | none => (block, kind)
  | [] => (block, kind)

/-! ## What a table entry must satisfy -/

/-- Operand expression of a bytecode that is not extended and has argument byte `a`. -/
def BArg.fix (a : Nat) : BArg → BArg
  | .lit n => .lit n
  | .full => .lit a
  | .hi => .lit 0
  | .lo => .lit a
  | .opc => .opc

/-- Operand expression of a bytecode with argument byte `a`, in terms of the operand of the `EXT_BYTE` before it, if
it can be written. -/
def BArg.underExt (a : Nat) : BArg → Option BArg
  | .lit n => some (.lit n)
  | .full => none
  | .hi => some .full
  | .lo => some (.lit a)
  | .opc => none

def mapArgs (f : BArg → BArg) (l : List (Tmpl BOp BArg)) : List (Tmpl BOp BArg) :=
  l.map fun t => ⟨t.op, t.args.map f⟩

def mapArgs? (f : BArg → Option BArg) (l : List (Tmpl BOp BArg)) : Option (List (Tmpl BOp BArg)) :=
  l.mapM fun t => (t.args.mapM f).map fun as => ⟨t.op, as⟩

/-- No `opcode` operand: the bytecode is not one of the invalid ones. -/
def noOpc (l : List (Tmpl BOp BArg)) : Bool := l.all fun t => t.args.all fun a => a != .opc

/-- Soundness of an entry of the first table: `BC1 (arg), BC2 (*)` is `SUPEROP (*)` when `BC1` is not extended, whatever
`BC2` is extended with. -/
def ok1 (e : (Nat × Nat × Nat) × Option Nat) : Bool :=
  match e with
  | (_, none) => true
  | ((b1, b2, a), some s) =>
    b1 != EXT && b2 != EXT && s != EXT && noOpc (byteDef.getD b1 []) && noOpc (byteDef.getD b2 []) &&
      noOpc (byteDef.getD s []) &&
      byteDef.getD s [] == mapArgs (BArg.fix a) (byteDef.getD b1 []) ++ byteDef.getD b2 []

/-- Soundness of an entry of the second table: `BC1 (*), BC2 (arg)` is `SUPEROP (*)`, whatever `BC1` is extended
with; when `BC1` is `EXT_BYTE` it extends `BC2`. -/
def ok2 (e : (Nat × Nat × Nat) × Option Nat) : Bool :=
  match e with
  | (_, none) => true
  | ((b1, b2, a), some s) =>
    b2 != EXT && s != EXT && decide (a < 256) && noOpc (byteDef.getD b2 []) && noOpc (byteDef.getD s []) &&
      if b1 = EXT then mapArgs? (BArg.underExt a) (byteDef.getD b2 []) == some (byteDef.getD s [])
      else noOpc (byteDef.getD b1 []) &&
        byteDef.getD s [] == byteDef.getD b1 [] ++ mapArgs (BArg.fix a) (byteDef.getD b2 [])

/-- Every entry of superop1.inl is sound with respect to byte.def. -/
theorem keylist1_ok : ∀ e ∈ keylist1.toList, ok1 e = true := by decide +kernel

/-- Every entry of superop2.inl is sound with respect to byte.def. -/
theorem keylist2_ok : ∀ e ∈ keylist2.toList, ok2 e = true := by decide +kernel

attribute [local semireducible] search1 search2 in
theorem search1_ok {b1 a b2 s : Nat} (h : search1 b1 a b2 = some s) : ok1 ((b1, b2, a), some s) = true := by
  simp only [search1] at h
  generalize asso1.getD b1 0 + asso1.getD b2 0 + asso1.getD a 0 = key at h
  split at h
  · simp at h
  · split at h
    · rename_i hk
      by_cases hb : key < keylist1.size
      · have hm : keylist1[key] ∈ keylist1.toList := by simp
        have := keylist1_ok _ hm
        rw [Array.getD_eq_getD_getElem?, Array.getElem?_eq_getElem hb] at hk h
        simp only [Option.getD_some] at hk h
        obtain ⟨e1, e2, e3⟩ := hk
        rw [e1, e2, e3, ← h]
        exact this
      · rw [Array.getD_eq_getD_getElem?, Array.getElem?_eq_none (by omega)] at h
        simp at h
    · simp at h

attribute [local semireducible] search1 search2 in
theorem search2_ok {b1 b2 a s : Nat} (h : search2 b1 b2 a = some s) : ok2 ((b1, b2, a), some s) = true := by
  simp only [search2] at h
  generalize asso2.getD b1 0 + asso2.getD b2 0 + asso2.getD a 0 = key at h
  split at h
  · simp at h
  · split at h
    · rename_i hk
      by_cases hb : key < keylist2.size
      · have hm : keylist2[key] ∈ keylist2.toList := by simp
        have := keylist2_ok _ hm
        rw [Array.getD_eq_getD_getElem?, Array.getElem?_eq_getElem hb] at hk h
        simp only [Option.getD_some] at hk h
        obtain ⟨e1, e2, e3⟩ := hk
        rw [e1, e2, e3, ← h]
        exact this
      · rw [Array.getD_eq_getD_getElem?, Array.getElem?_eq_none (by omega)] at h
        simp at h
    · simp at h

attribute [local irreducible] byteDef keylist1 keylist2

/-! ## Lifting to programs -/

/-- What the `EXT_BYTE`s at the end of a stream leave for the next bytecode. -/
def pending : Nat → List (Nat × Nat) → Nat
  | arg, [] => arg
  | arg, (op, lsb) :: r => if op = EXT then pending ((arg ||| lsb) <<< 8) r else pending 0 r

theorem decode_append (arg : Nat) (xs ys : List (Nat × Nat)) :
    decode arg (xs ++ ys) = decode arg xs ++ decode (pending arg xs) ys := by
  induction xs generalizing arg with
  | nil => rfl
  | cons x xs ih =>
    obtain ⟨op, lsb⟩ := x
    simp only [List.cons_append, decode, pending]
    split
    · exact ih _
    · rw [ih, List.append_assoc]

theorem pending_append (arg : Nat) (xs ys : List (Nat × Nat)) :
    pending arg (xs ++ ys) = pending (pending arg xs) ys := by
  induction xs generalizing arg with
  | nil => rfl
  | cons x xs ih =>
    obtain ⟨op, lsb⟩ := x
    simp only [List.cons_append, pending]
    split <;> exact ih _

/-- Nothing is pending when the last bytecode is not `EXT_BYTE`. -/
theorem pending_last (rest : List (Nat × Nat)) (h : rest = [] ∨ rest.head?.map Prod.fst ≠ some EXT) :
    pending 0 rest.reverse = 0 := by
  cases rest with
  | nil => rfl
  | cons x rest =>
    obtain ⟨op, lsb⟩ := x
    have h' : op ≠ EXT := by simpa using h
    rw [List.reverse_cons, pending_append]
    simp [pending, h']

def instTmpl (op arg lsb : Nat) (l : List (Tmpl BOp BArg)) : List Ins :=
  l.map fun t => ⟨t.op, t.args.map (BArg.eval op arg lsb)⟩

theorem dissect_def (op arg lsb : Nat) : dissect op arg lsb = instTmpl op arg lsb (byteDef.getD op []) := rfl

theorem instTmpl_append (op arg lsb : Nat) (l m : List (Tmpl BOp BArg)) :
    instTmpl op arg lsb (l ++ m) = instTmpl op arg lsb l ++ instTmpl op arg lsb m := by
  simp [instTmpl]

theorem instTmpl_mapArgs (op arg lsb op' arg' lsb' : Nat) (f : BArg → BArg) (l : List (Tmpl BOp BArg))
    (hl : noOpc l = true) (h : ∀ a, a ≠ .opc → (f a).eval op arg lsb = a.eval op' arg' lsb') :
    instTmpl op arg lsb (mapArgs f l) = instTmpl op' arg' lsb' l := by
  simp only [instTmpl, mapArgs, List.map_map]
  apply List.map_congr_left
  intro t ht
  simp only [noOpc, List.all_eq_true, bne_iff_ne] at hl
  simp only [Function.comp, List.map_map, Ins.mk.injEq, true_and]
  apply List.map_congr_left
  intro a ha
  exact h a (hl t ht a ha)

theorem instTmpl_op (op op' arg lsb : Nat) (l : List (Tmpl BOp BArg)) (hl : noOpc l = true) :
    instTmpl op arg lsb l = instTmpl op' arg lsb l := by
  have := instTmpl_mapArgs op arg lsb op' arg lsb id l hl
    (by intro a ha; cases a <;> simp_all [BArg.eval])
  simpa [mapArgs] using this

theorem mapM_some_map {A B C : Type} {f : A → Option B} {g : B → C} {k : A → C} (h : ∀ a b, f a = some b → g b = k a) :
    ∀ (l : List A) (m : List B), l.mapM f = some m → m.map g = l.map k := by
  intro l
  induction l with
  | nil => intro m hm; simp at hm; subst hm; rfl
  | cons a l ih =>
    intro m hm
    rw [List.mapM_cons] at hm
    cases ha : f a with
    | none => simp [ha] at hm
    | some b =>
      cases hl : l.mapM f with
      | none => simp [ha, hl] at hm
      | some m' =>
        simp [ha, hl] at hm
        subst hm
        simp [h a b ha, ih m' hl]

/-- The second table is sound for every extension and every argument of the first bytecode. -/
theorem search2_sound {b1 b2 a2 s : Nat} (h : search2 b1 b2 a2 = some s) (arg a1 : Nat) :
    decode arg [(b1, a1), (b2, a2)] = decode arg [(s, a1)] ∧ s ≠ EXT ∧ b2 ≠ EXT := by
  have k := search2_ok h
  simp only [ok2, Bool.and_eq_true, bne_iff_ne, decide_eq_true_eq] at k
  obtain ⟨⟨⟨⟨⟨hb2, hs⟩, ha2⟩, hn2⟩, hns⟩, hk⟩ := k
  refine ⟨?_, hs, hb2⟩
  simp only [decode, if_neg hs, if_neg hb2, List.append_nil, dissect_def]
  by_cases hb1 : b1 = EXT
  · rw [if_pos hb1]
    rw [if_pos hb1, beq_iff_eq] at hk
    rw [instTmpl_op s b2 arg a1 _ hns]
    symm
    refine mapM_some_map ?_ _ _ hk
    intro t t' ht
    simp only [Option.map_eq_some_iff] at ht
    obtain ⟨as, has, rfl⟩ := ht
    simp only [Ins.mk.injEq, true_and]
    refine mapM_some_map ?_ _ _ has
    intro x y hxy
    cases x <;> simp only [BArg.underExt, Option.some.injEq, reduceCtorEq] at hxy <;> subst hxy <;>
      simp only [BArg.eval]
    rw [Nat.shiftLeft_shiftRight]
  · rw [if_neg hb1, Bool.and_eq_true, beq_iff_eq] at hk
    rw [if_neg hb1, hk.2, instTmpl_append]
    congr 1
    · exact instTmpl_op _ _ _ _ _ hk.1
    · rw [instTmpl_mapArgs s arg a1 b2 0 a2 (BArg.fix a2) _ hn2]
      intro x hx
      cases x <;> simp_all [BArg.fix, BArg.eval]

/-- The first table is sound for every operand of the second bytecode, when the first is not extended. -/
theorem search1_dissect {b1 a1 b2 s : Nat} (h : search1 b1 a1 b2 = some s) (arg a2 : Nat) :
    dissect b1 0 a1 ++ dissect b2 arg a2 = dissect s arg a2 ∧ s ≠ EXT ∧ b2 ≠ EXT ∧ b1 ≠ EXT := by
  have k := search1_ok h
  simp only [ok1, Bool.and_eq_true, bne_iff_ne, beq_iff_eq] at k
  obtain ⟨⟨⟨⟨⟨⟨hb1, hb2⟩, hs⟩, hn1⟩, hn2⟩, hns⟩, hk⟩ := k
  refine ⟨?_, hs, hb2, hb1⟩
  simp only [dissect_def]
  rw [hk, instTmpl_append]
  congr 1
  · rw [instTmpl_mapArgs s arg a2 b1 0 a1 (BArg.fix a1) _ hn1]
    intro x hx
    cases x <;> simp_all [BArg.fix, BArg.eval]
  · exact instTmpl_op _ _ _ _ _ hn2

theorem search1_sound {b1 a1 b2 s : Nat} (h : search1 b1 a1 b2 = some s) (a2 : Nat) :
    decode 0 [(b1, a1), (b2, a2)] = decode 0 [(s, a2)] ∧ s ≠ EXT ∧ b2 ≠ EXT ∧ b1 ≠ EXT := by
  obtain ⟨e, hs, hb2, hb1⟩ := search1_dissect h 0 a2
  refine ⟨?_, hs, hb2, hb1⟩
  simp only [decode, if_neg hs, if_neg hb2, if_neg hb1, List.append_nil]
  exact e

theorem reduce_decode (l : List (Nat × Nat)) :
    decode 0 (reduce l).reverse = decode 0 l.reverse ∧ pending 0 (reduce l).reverse = pending 0 l.reverse := by
  induction hn : l.length using Nat.strongRecOn generalizing l with
  | _ n ih =>
    match l with
    | [] => simp [reduce, reduceWith]
    | [p] => simp [reduce, reduceWith]
    | (b2, a2) :: (b1, a1) :: rest =>
      rw [reduce, reduceWith, ← reduce]
      have e : ((b2, a2) :: (b1, a1) :: rest).reverse = rest.reverse ++ [(b1, a1), (b2, a2)] := by simp
      split
      · rename_i s hs
        obtain ⟨i1, i2⟩ := ih _ (by rw [← hn]; simp) ((s, a1) :: rest) rfl
        obtain ⟨k, ks, kb⟩ := search2_sound hs (pending 0 rest.reverse) a1
        rw [i1, i2, e, List.reverse_cons, decode_append, decode_append, pending_append, pending_append, k]
        refine ⟨rfl, ?_⟩
        simp [pending, ks, kb]
      · split
        · rename_i hr
          split
          · rename_i s hs
            obtain ⟨i1, i2⟩ := ih _ (by rw [← hn]; simp) ((s, a2) :: rest) rfl
            obtain ⟨k, ks, kb, kb1⟩ := search1_sound hs a2
            rw [i1, i2, e, List.reverse_cons, decode_append, decode_append, pending_append, pending_append,
              pending_last _ hr, k]
            refine ⟨rfl, ?_⟩
            simp [pending, ks, kb]
          · exact ⟨rfl, rfl⟩
        · exact ⟨rfl, rfl⟩

theorem superopLoop_decode (ps out : List (Nat × Nat)) :
    decode 0 (superopLoop out ps).reverse = decode 0 (out.reverse ++ ps) ∧
      pending 0 (superopLoop out ps).reverse = pending 0 (out.reverse ++ ps) := by
  induction ps generalizing out with
  | nil => simp [superopLoop]
  | cons p ps ih =>
    obtain ⟨i1, i2⟩ := ih (reduce (p :: out))
    obtain ⟨r1, r2⟩ := reduce_decode (p :: out)
    rw [superopLoop, i1, i2, decode_append, pending_append, r1, r2, ← decode_append, ← pending_append]
    simp

/-! ## Properties -/

/-- C23: the interpreter decodes the same primitive instructions from the block with superoperators as from the
original one, and both leave the same operand prefix to what follows. -/
theorem superoperators_preserve (block : List (Nat × Nat)) :
    decode 0 (optimizeSuperoperators block) = decode 0 block ∧
      pending 0 (optimizeSuperoperators block) = pending 0 block := by
  cases block with
  | nil => exact ⟨rfl, rfl⟩
  | cons p ps => simpa [optimizeSuperoperators] using superopLoop_decode ps [p]

/-- C23: in a whole method, replacing a block by its optimised form changes nothing before, inside or after it. -/
theorem superoperators_preserve_method (before block after : List (Nat × Nat)) (h : pending 0 before = 0) :
    decode 0 (before ++ optimizeSuperoperators block ++ after) = decode 0 (before ++ block ++ after) := by
  obtain ⟨e1, e2⟩ := superoperators_preserve block
  simp only [decode_append, pending_append, h, e1, e2]

example : optimizeSuperoperators [(54, 3), (56, 0), (55, 9), (28, 1), (48, 0), (52, 0)] ≠
      [(54, 3), (56, 0), (55, 9), (28, 1), (48, 0), (52, 0)] ∧
    decode 0 (optimizeSuperoperators [(54, 3), (56, 0), (55, 9), (28, 1), (48, 0), (52, 0)]) =
      [⟨.lineNumberBytecode, [3]⟩, ⟨.pushSelf, []⟩, ⟨.send, [9, 0, 1]⟩, ⟨.popStackTop, []⟩, ⟨.dupStackTop, []⟩] := by
  rw [(superoperators_preserve _).1]
  decide +kernel

/-- C23: all entries of the tables are found by the searches, except the two that sit at index 0 of the tables. -/
theorem superoperators_found :
    (∀ e ∈ keylist1.toList, e.2 ≠ none → e.1 ≠ (32, 30, 4) → search1 e.1.1 e.1.2.2 e.1.2.1 = e.2) ∧
    (∀ e ∈ keylist2.toList, e.2 ≠ none → e.1 ≠ (39, 48, 0) → search2 e.1.1 e.1.2.1 e.1.2.2 = e.2) := by
  decide +kernel

/-- Two superoperators of the tables are never used: their entries are at index 0 but their hash values are not 0.
The optimised program is longer than intended and still correct. -/
theorem superoperators_misplaced :
    ((32, 30, 4), some 197) ∈ keylist1.toList ∧ search1 32 4 30 = none ∧
    ((39, 48, 0), some 120) ∈ keylist2.toList ∧ search2 39 48 0 = none := by
  decide +kernel

/-- The optimised block is never longer. -/
theorem reduce_length (l : List (Nat × Nat)) : (reduce l).length ≤ l.length := by
  induction hn : l.length using Nat.strongRecOn generalizing l with
  | _ n ih =>
    match l with
    | [] => simp [reduce, reduceWith]
    | [p] => simp [reduce, reduceWith, ← hn]
    | (b2, a2) :: (b1, a1) :: rest =>
      rw [reduce, reduceWith, ← reduce]
      simp only [List.length_cons] at hn
      split
      · have := ih (rest.length + 1) (by omega) ((‹Nat›, a1) :: rest) (by simp)
        omega
      · split
        · split
          · have := ih (rest.length + 1) (by omega) ((‹Nat›, a2) :: rest) (by simp)
            omega
          · simp; omega
        · simp; omega

/-- C23: superoperators never make a method longer. -/
theorem superoperators_shorter (block : List (Nat × Nat)) : (optimizeSuperoperators block).length ≤ block.length := by
  cases block with
  | nil => simp [optimizeSuperoperators]
  | cons p ps =>
    have : ∀ (ps out : List (Nat × Nat)), (superopLoop out ps).length ≤ out.length + ps.length := by
      intro ps
      induction ps with
      | nil => intro out; simp [superopLoop]
      | cons q ps ih =>
        intro out
        rw [superopLoop]
        have := ih (reduce (q :: out))
        have := reduce_length (q :: out)
        simp only [List.length_cons] at *
        omega
    have := this ps [p]
    simp only [optimizeSuperoperators, List.length_reverse, List.length_cons, List.length_nil] at *
    omega

/-- The meaning of a superoperator with a jump, for every distance. -/
theorem search1_meaning {b1 a1 b2 s : Nat} (h : search1 b1 a1 b2 = some s) (n : Nat) :
    dissect b1 0 a1 ++ meaning b2 n = meaning s n ∧ s ≠ EXT ∧ b2 ≠ EXT ∧ b1 ≠ EXT := by
  obtain ⟨e, r⟩ := search1_dissect h ((n / 256) <<< 8) (n % 256)
  refine ⟨?_, r⟩
  have hn : n / 256 * 256 + n % 256 = n := by omega
  rwa [dissect_eq_meaning _ _ _ (by omega), dissect_eq_meaning _ _ _ (by omega), hn] at e

/-- C23: the superoperator made of the last bytecode of a block and the jump that ends the block, with whatever
distance the jump gets, is decoded as the last bytecode followed by the jump. -/
theorem fuseJump_preserve (block : List (Nat × Nat)) (kind n : Nat) (hk : kind ≠ EXT) (hp : pending 0 block = 0)
    (after : List (Nat × Nat)) :
    decode 0 ((fuseJump block kind).1 ++ compileByte (fuseJump block kind).2 n ++ after) =
      decode 0 block ++ meaning kind n ++ decode 0 after := by
  have base : decode 0 (block ++ compileByte kind n ++ after) = decode 0 block ++ meaning kind n ++ decode 0 after := by
    rw [List.append_assoc, decode_append, hp, operand_roundtrip _ _ hk, List.append_assoc]
  simp only [fuseJump]
  split
  · rename_i b a rest hr
    split
    · exact base
    · rename_i hx
      split
      · rename_i s hs
        have hb : block = rest.reverse ++ [(b, a)] := by
          rw [← List.reverse_reverse block, hr, List.reverse_cons]
        obtain ⟨e, h1, h2, h3⟩ := search1_meaning hs n
        dsimp only
        rw [hb, List.append_assoc, decode_append 0 rest.reverse (compileByte s n ++ after),
          decode_append 0 rest.reverse [(b, a)], pending_last rest (Or.inr hx), operand_roundtrip _ _ h1, ← e]
        simp [decode, h3]
      · exact base
  · exact base

example : fuseJump [(56, 0), (20, 0), (52, 0)] 43 ≠ ([(56, 0), (20, 0), (52, 0)], 43) ∧
    decode 0 ((fuseJump [(56, 0), (20, 0)] 43).1 ++ compileByte (fuseJump [(56, 0), (20, 0)] 43).2 1000) =
      [⟨.pushSelf, []⟩, ⟨.sendSpecial, [4]⟩, ⟨.popJumpFalse, [1000]⟩] := by
  decide +kernel

end Verif.Bytecode
