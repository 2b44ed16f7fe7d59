import Verif.Bytecode.Tables
import Mathlib.Tactic.Ring
/-!
# Operand encoding and decoding (C22)
-/
namespace Verif.Bytecode

/-- libgst/byte.def: `EXT_BYTE` is bytecode 55. -/
def EXT : Nat := 55

/-- libgst/byte.def: value of an operand expression, given the bytecode, the extension accumulated in `arg` and the
byte `arg_lsb` that follows the bytecode. -/
def BArg.eval (op arg lsb : Nat) : BArg → Nat
  | .lit n => n
  | .full => arg ||| lsb
  | .hi => arg >>> 8
  | .lo => lsb
  | .opc => op

/-- libgst/byte.def, genbc's `MATCH_BYTECODES`: the instructions into which one bytecode that is not `EXT_BYTE` is
dissected. -/
def dissect (op arg lsb : Nat) : List Ins :=
  (byteDef.getD op []).map fun t => ⟨t.op, t.args.map (BArg.eval op arg lsb)⟩

/-- libgst/byte.def l.102-end and its users (`for (bp = start; bp < end; ) MATCH_BYTECODES (...)`): dissects a
stream of bytecodes, a bytecode being the pair of the opcode and its argument byte.  `arg` is what the
preceding `EXT_BYTE`s left (`arg = (arg | arg_lsb) << 8; continue`).  Simplification: `arg` is unbounded, in C it
is an `int`. -/
def decode : Nat → List (Nat × Nat) → List Ins
  | _, [] => []
  | arg, (op, lsb) :: r =>
    if op = EXT then decode ((arg ||| lsb) <<< 8) r else dissect op arg lsb ++ decode 0 r

/-- libgst/byte.c l.101-105 (`compile_byte`): `for (num_bytes = 2, n = arg; n > 255; n >>= 8) num_bytes += 2`. -/
def numBytes (n : Nat) : Nat :=
  if 255 < n then numBytes (n >>> 8) + 2 else 2
termination_by n
decreasing_by rw [Nat.shiftRight_eq_div_pow]; omega

/-- libgst/byte.c l.107-114 (`compile_byte`): `while (num_bytes > 2) { num_bytes -= 2; emit EXT_BYTE; emit (arg >>
(num_bytes * 4)) & 255; }`, then the bytecode itself and `arg & 255`. -/
def emit (op arg : Nat) (numB : Nat) : List (Nat × Nat) :=
  if 2 < numB then (EXT, (arg >>> ((numB - 2) * 4)) &&& 255) :: emit op arg (numB - 2)
  else [(op, arg &&& 255)]
termination_by numB

/-- libgst/byte.c l.92-119 (`compile_byte`), for non-negative `arg`. -/
def compileByte (op arg : Nat) : List (Nat × Nat) := emit op arg (numBytes arg)

/-! ## Specification -/

/-- Value of an operand expression for an instruction whose whole operand is `n`: the operand itself, or its two
parts when the instruction has two operands packed in one. -/
def BArg.spec (op n : Nat) : BArg → Nat
  | .lit c => c
  | .full => n
  | .hi => n / 256
  | .lo => n % 256
  | .opc => op

/-- The instructions meant by giving operand `n` to bytecode `op`. -/
def meaning (op n : Nat) : List Ins :=
  (byteDef.getD op []).map fun t => ⟨t.op, t.args.map (BArg.spec op n)⟩

/-! ## Lemmas -/

theorem or_byte (n c : Nat) (h : c < 256) : (n <<< 8) ||| c = n * 256 + c := by
  have := Nat.shiftLeft_add_eq_or_of_lt (i := 8) (b := c) (by simpa using h) n
  rw [← this, Nat.shiftLeft_eq]

theorem shl8 (n : Nat) : n <<< 8 = n * 256 := by rw [Nat.shiftLeft_eq]
theorem shr8 (n : Nat) : n >>> 8 = n / 256 := by rw [Nat.shiftRight_eq_div_pow]
theorem and255 (n : Nat) : n &&& 255 = n % 256 := Nat.and_two_pow_sub_one_eq_mod n 8

theorem eval_eq_spec (op m c : Nat) (h : c < 256) (a : BArg) :
    a.eval op (m <<< 8) c = a.spec op (m * 256 + c) := by
  cases a <;> simp only [BArg.eval, BArg.spec]
  · exact or_byte m c h
  · rw [shl8, shr8]; omega
  · omega

theorem dissect_eq_meaning (op m c : Nat) (h : c < 256) :
    dissect op (m <<< 8) c = meaning op (m * 256 + c) := by
  have : BArg.eval op (m <<< 8) c = BArg.spec op (m * 256 + c) := funext (eval_eq_spec op m c h)
  rw [dissect, meaning, this]

theorem numBytes_even (n : Nat) : ∃ k, numBytes n = 2 * (k + 1) ∧ n < 256 ^ (k + 1) := by
  induction n using Nat.strongRecOn with
  | _ n ih =>
    rw [numBytes]
    split
    · rename_i h
      obtain ⟨k, e, l⟩ := ih (n >>> 8) (by rw [shr8]; omega)
      refine ⟨k + 1, by omega, ?_⟩
      rw [shr8] at l
      rw [pow_succ]
      omega
    · exact ⟨0, rfl, by simp; omega⟩

theorem numBytes_min (n k : Nat) (h : numBytes n = 2 * (k + 2)) : 256 ^ (k + 1) ≤ n := by
  induction n using Nat.strongRecOn generalizing k with
  | _ n ih =>
    rw [numBytes] at h
    split at h
    · rename_i hn
      cases k with
      | zero => simp; omega
      | succ k =>
        have := ih (n >>> 8) (by rw [shr8]; omega) k (by omega)
        rw [shr8] at this
        rw [pow_succ]
        omega
    · omega

theorem emit_ext (op n k : Nat) :
    emit op n (2 * (k + 2)) = (EXT, (n / 256 ^ (k + 1)) % 256) :: emit op n (2 * (k + 1)) := by
  rw [emit, if_pos (by omega), and255, Nat.shiftRight_eq_div_pow]
  have h1 : 2 * (k + 2) - 2 = 2 * (k + 1) := by omega
  have h2 : 2 ^ (2 * (k + 1) * 4) = 256 ^ (k + 1) := by
    rw [show 2 * (k + 1) * 4 = 8 * (k + 1) by ring, pow_mul]; norm_num
  rw [h1, h2]

theorem decode_emit (op n : Nat) (hop : op ≠ EXT) (rest : List (Nat × Nat)) (k : Nat) :
    decode ((n / 256 ^ (k + 1)) <<< 8) (emit op n (2 * (k + 1)) ++ rest) = meaning op n ++ decode 0 rest := by
  induction k with
  | zero =>
    rw [emit, if_neg (by omega), and255]
    simp only [List.cons_append, List.nil_append, decode, if_neg hop, zero_add, pow_one]
    rw [dissect_eq_meaning _ _ _ (by omega)]
    congr 2
    omega
  | succ k ih =>
    rw [emit_ext, List.cons_append, decode, if_pos rfl, or_byte _ _ (by omega)]
    have : n / 256 ^ (k + 1 + 1) * 256 + n / 256 ^ (k + 1) % 256 = n / 256 ^ (k + 1) := by
      rw [pow_succ 256 (k + 1), ← Nat.div_div_eq_div_mul]
      omega
    rw [this]
    exact ih

/-! ## Properties -/

/-- C22: whatever operand is given to an instruction, reading the emitted bytes back answers that instruction with
that operand, and the reader continues with the bytes that follow. -/
theorem operand_roundtrip (op n : Nat) (hop : op ≠ EXT) (rest : List (Nat × Nat)) :
    decode 0 (compileByte op n ++ rest) = meaning op n ++ decode 0 rest := by
  obtain ⟨k, e, l⟩ := numBytes_even n
  rw [compileByte, e]
  have := decode_emit op n hop rest k
  rwa [Nat.div_eq_of_lt l, Nat.zero_shiftLeft] at this

example : decode 0 (compileByte 28 (70000 * 256 + 3) ++ [(56, 0)]) =
    [⟨.send, [70000, 0, 3]⟩, ⟨.pushSelf, []⟩] := by decide +kernel

/-- C22: a whole method made of instructions of any size decodes to these instructions. -/
theorem program_roundtrip (p : List (Nat × Nat)) (h : ∀ i ∈ p, i.1 ≠ EXT) :
    decode 0 (p.flatMap fun i => compileByte i.1 i.2) = p.flatMap fun i => meaning i.1 i.2 := by
  induction p with
  | nil => rfl
  | cons i p ih =>
    rw [List.flatMap_cons, List.flatMap_cons, operand_roundtrip _ _ (h i List.mem_cons_self),
      ih fun j hj => h j (List.mem_cons_of_mem _ hj)]

/-- The basic bytecodes whose operand matters. -/
def hasOperand (op : Nat) : Bool :=
  (28 ≤ op && op ≤ 47) || op == 54

/-- The instruction and operand that a reader of the manual would give for a primitive instruction. -/
def identify : Ins → Option (Nat × Nat)
  | ⟨.send, [s, 0, k]⟩ => some (28, s * 256 + k)
  | ⟨.send, [s, 1, k]⟩ => some (29, s * 256 + k)
  | ⟨.sendImmediate, [n, 0]⟩ => some (30, n)
  | ⟨.sendImmediate, [n, 1]⟩ => some (31, n)
  | ⟨.pushTemporaryVariable, [n]⟩ => some (32, n)
  | ⟨.pushOuterTemp, [n, k]⟩ => some (33, n * 256 + k)
  | ⟨.pushLitVariable, [n]⟩ => some (34, n)
  | ⟨.pushReceiverVariable, [n]⟩ => some (35, n)
  | ⟨.storeTemporaryVariable, [n]⟩ => some (36, n)
  | ⟨.storeOuterTemp, [n, k]⟩ => some (37, n * 256 + k)
  | ⟨.storeLitVariable, [n]⟩ => some (38, n)
  | ⟨.storeReceiverVariable, [n]⟩ => some (39, n)
  | ⟨.jumpBack, [n]⟩ => some (40, n)
  | ⟨.jump, [n]⟩ => some (41, n)
  | ⟨.popJumpTrue, [n]⟩ => some (42, n)
  | ⟨.popJumpFalse, [n]⟩ => some (43, n)
  | ⟨.pushInteger, [n]⟩ => some (44, n)
  | ⟨.pushSpecial, [n]⟩ => some (45, n)
  | ⟨.pushLitConstant, [n]⟩ => some (46, n)
  | ⟨.popIntoNewStacktop, [n]⟩ => some (47, n)
  | ⟨.lineNumberBytecode, [n]⟩ => some (54, n)
  | _ => none

/-- The entries of `byteDef` for the bytecodes with an operand. -/
theorem byteDef_basic : ∀ p ∈ ([(28, ⟨.send, [.hi, .lit 0, .lo]⟩), (29, ⟨.send, [.hi, .lit 1, .lo]⟩),
    (30, ⟨.sendImmediate, [.full, .lit 0]⟩), (31, ⟨.sendImmediate, [.full, .lit 1]⟩),
    (32, ⟨.pushTemporaryVariable, [.full]⟩), (33, ⟨.pushOuterTemp, [.hi, .lo]⟩), (34, ⟨.pushLitVariable, [.full]⟩),
    (35, ⟨.pushReceiverVariable, [.full]⟩), (36, ⟨.storeTemporaryVariable, [.full]⟩),
    (37, ⟨.storeOuterTemp, [.hi, .lo]⟩), (38, ⟨.storeLitVariable, [.full]⟩), (39, ⟨.storeReceiverVariable, [.full]⟩),
    (40, ⟨.jumpBack, [.full]⟩), (41, ⟨.jump, [.full]⟩), (42, ⟨.popJumpTrue, [.full]⟩),
    (43, ⟨.popJumpFalse, [.full]⟩), (44, ⟨.pushInteger, [.full]⟩), (45, ⟨.pushSpecial, [.full]⟩),
    (46, ⟨.pushLitConstant, [.full]⟩), (47, ⟨.popIntoNewStacktop, [.full]⟩), (54, ⟨.lineNumberBytecode, [.full]⟩)] :
      List (Nat × Tmpl BOp BArg)), byteDef.getD p.1 [] = [p.2] := by
  decide +kernel

/-- C22: the instruction and the operand that were compiled can be read off what is decoded, for every operand. -/
theorem operand_identified (op n : Nat) (h : hasOperand op = true) :
    ∃ i, decode 0 (compileByte op n) = [i] ∧ identify i = some (op, n) := by
  have e : n / 256 * 256 + n % 256 = n := by omega
  have mem : op ∈ [28, 29, 30, 31, 32, 33, 34, 35, 36, 37, 38, 39, 40, 41, 42, 43, 44, 45, 46, 47, 54] := by
    simp only [hasOperand, Bool.or_eq_true, Bool.and_eq_true, decide_eq_true_eq, beq_iff_eq] at h
    simp only [List.mem_cons, List.not_mem_nil, or_false]
    omega
  have hop : op ≠ EXT := by
    rintro rfl
    exact absurd h (by decide)
  have r := operand_roundtrip op n hop []
  rw [List.append_nil, decode, List.append_nil] at r
  rw [r]
  have t := byteDef_basic
  simp only [List.forall_mem_cons, List.not_mem_nil, false_implies, implies_true, and_true] at t
  obtain ⟨h28, h29, h30, h31, h32, h33, h34, h35, h36, h37, h38, h39, h40, h41, h42, h43, h44, h45, h46, h47, h54⟩ := t
  simp only [List.mem_cons, List.not_mem_nil, or_false] at mem
  rcases mem with rfl | rfl | rfl | rfl | rfl | rfl | rfl | rfl | rfl | rfl | rfl | rfl | rfl | rfl | rfl | rfl |
      rfl | rfl | rfl | rfl | rfl <;>
    simp only [meaning, h28, h29, h30, h31, h32, h33, h34, h35, h36, h37, h38, h39, h40, h41, h42, h43, h44, h45, h46,
      h47, h54, List.map_cons, List.map_nil, BArg.spec, List.cons.injEq, and_true, exists_eq_left', identify, e]

example : ∃ i, decode 0 (compileByte 33 (513 * 256 + 2)) = [i] ∧ identify i = some (33, 513 * 256 + 2) :=
  operand_identified 33 _ (by decide)

theorem emit_length (op n k : Nat) : (emit op n (2 * (k + 1))).length = k + 1 := by
  induction k with
  | zero => rw [emit, if_neg (by omega)]; rfl
  | succ k ih => rw [emit_ext, List.length_cons, ih]

/-- C22: the encoding is as short as possible: there are `k` extension prefixes exactly when the operand needs more
than `k` bytes and no more than `k + 1`. -/
theorem operand_length (op n k : Nat) :
    (compileByte op n).length = k + 1 ↔ n < 256 ^ (k + 1) ∧ (0 < k → 256 ^ k ≤ n) := by
  obtain ⟨j, e, l⟩ := numBytes_even n
  have hm : 0 < j → 256 ^ j ≤ n := by
    intro hj
    obtain ⟨i, rfl⟩ : ∃ i, j = i + 1 := ⟨j - 1, by omega⟩
    exact numBytes_min n i e
  rw [compileByte, e, emit_length]
  constructor
  · intro h
    obtain rfl : j = k := by omega
    exact ⟨l, hm⟩
  · rintro ⟨h1, h2⟩
    rcases Nat.lt_trichotomy j k with h | h | h
    · have := h2 (by omega)
      have : 256 ^ (j + 1) ≤ 256 ^ k := Nat.pow_le_pow_right (by omega) h
      omega
    · rw [h]
    · have := hm (by omega)
      have : 256 ^ (k + 1) ≤ 256 ^ j := Nat.pow_le_pow_right (by omega) h
      omega

example : (compileByte 32 65536).length = 3 := (operand_length 32 65536 2).2 ⟨by decide, fun _ => by decide⟩

/-- Every byte emitted fits a byte, so that the stream of pairs is a stream of bytes. -/
theorem compileByte_bytes (op n : Nat) (hop : op < 256) : ∀ p ∈ compileByte op n, p.1 < 256 ∧ p.2 < 256 := by
  obtain ⟨k, e, -⟩ := numBytes_even n
  rw [compileByte, e]
  clear e
  induction k with
  | zero =>
    rw [emit, if_neg (by omega), and255]
    simp only [List.mem_singleton]
    rintro p rfl
    exact ⟨hop, by simp only; omega⟩
  | succ k ih =>
    rw [emit_ext]
    intro p hp
    rcases List.mem_cons.1 hp with rfl | hp
    · exact ⟨by simp [EXT], by simp only; omega⟩
    · exact ih p hp

end Verif.Bytecode
