/-!
# Instruction syntax shared by the bytecode tables
-/
namespace Verif.Bytecode

/-- libgst/byte.def l.72-100: the instructions that byte.def declares, that is the alphabet into which every
bytecode is dissected by `MATCH_BYTECODES`.  byte.def has one `JUMP (ofs)` for bytecodes 40 and 41; here
`jumpBack` and `jump` keep the sign apart and the operand is the distance. -/
inductive BOp where
  | sendArith | sendSpecial | send | sendImmediate | pushTemporaryVariable | pushOuterTemp
  | pushLitVariable | pushReceiverVariable | storeTemporaryVariable | storeOuterTemp | storeLitVariable | storeReceiverVariable
  | jumpBack | jump | popJumpTrue | popJumpFalse | pushInteger | pushSelf
  | pushSpecial | pushLitConstant | popIntoNewStacktop | popStackTop | makeDirtyBlock | returnMethodStackTop
  | returnContextStackTop | dupStackTop | exitInterpreter | lineNumberBytecode | invalid
  deriving DecidableEq, Repr

/-- libgst/byte.def: the operand expressions that occur in `dispatch` statements. -/
inductive BArg where
  /-- a number -/
  | lit (n : Nat)
  /-- `arg | arg_lsb` -/
  | full
  /-- `arg >> 8` -/
  | hi
  /-- `arg_lsb` -/
  | lo
  /-- `opcode` -/
  | opc
  deriving DecidableEq, Repr

/-- libgst/vm.def l.206-898: the operations of the interpreter. -/
inductive VOp where
  | send | sendImmediate | pushTemporaryVariable | pushOuterTemp | pushLitVariable | pushReceiverVariable
  | storeTemporaryVariable | storeOuterTemp | storeLitVariable | storeReceiverVariable | jumpBack | jump
  | popJumpTrue | popJumpFalse | pushInteger | pushSelf | pushSpecial | pushLitConstant
  | popIntoNewStacktop | popStackTop | makeDirtyBlock | returnMethodStackTop | returnContextStackTop | dupStackTop
  | exitInterpreter | lineNumberBytecode | invalid | sendSuper | sendSuperImmediate | extByte
  | plusSpecial | minusSpecial | lessThanSpecial | greaterThanSpecial | lessEqualSpecial | greaterEqualSpecial
  | equalSpecial | notEqualSpecial | timesSpecial | divideSpecial | remainderSpecial | bitXorSpecial
  | bitShiftSpecial | integerDivideSpecial | bitAndSpecial | bitOrSpecial | atSpecial | atPutSpecial
  | sizeSpecial | classSpecial | isNilSpecial | notNilSpecial | valueSpecial | valueColonSpecial
  | sameObjectSpecial | javaAsIntSpecial | javaAsLongSpecial
  deriving DecidableEq, Repr

/-- libgst/vm.def l.924-end: the operand expressions that occur in the table of bytecodes. -/
inductive VArg where
  /-- a number -/
  | lit (n : Nat)
  /-- `arg` -/
  | arg
  /-- `arg >> 8` -/
  | hi
  /-- `arg & 255` -/
  | lo
  deriving DecidableEq, Repr

/-- One component of a bytecode: an instruction and the expressions for its operands. -/
structure Tmpl (O A : Type) where
  op : O
  args : List A
  deriving DecidableEq, Repr

/-- A primitive instruction with its operands, as seen by whoever reads a method. -/
structure Ins where
  op : BOp
  args : List Nat
  deriving DecidableEq, Repr

end Verif.Bytecode
