import Verif.Bytecode.Syntax
/-!
# Tables of the bytecode set, transcribed from the sources

Transcribed by a script from the text of libgst/byte.def, libgst/vm.def, libgst/superop1.inl and
libgst/superop2.inl; nothing is interpreted here.
-/
namespace Verif.Bytecode

/-- libgst/byte.def l.102-end: the `dispatch` statements of each of the 256 bytecodes, in order.  Entry
55 (`EXT_BYTE`) has none; its `continue` is modelled in `decode`.  The operand of a jump is the displacement
`arg | arg_lsb`, of which byte.def adds or subtracts to the position. -/
def byteDef : Array (List (Tmpl BOp BArg)) := #[
  /- 0 -/ [⟨.sendArith, [.lit 0]⟩],
  /- 1 -/ [⟨.sendArith, [.lit 1]⟩],
  /- 2 -/ [⟨.sendArith, [.lit 2]⟩],
  /- 3 -/ [⟨.sendArith, [.lit 3]⟩],
  /- 4 -/ [⟨.sendArith, [.lit 4]⟩],
  /- 5 -/ [⟨.sendArith, [.lit 5]⟩],
  /- 6 -/ [⟨.sendArith, [.lit 6]⟩],
  /- 7 -/ [⟨.sendArith, [.lit 7]⟩],
  /- 8 -/ [⟨.sendArith, [.lit 8]⟩],
  /- 9 -/ [⟨.sendArith, [.lit 9]⟩],
  /- 10 -/ [⟨.sendArith, [.lit 10]⟩],
  /- 11 -/ [⟨.sendArith, [.lit 11]⟩],
  /- 12 -/ [⟨.sendArith, [.lit 12]⟩],
  /- 13 -/ [⟨.sendArith, [.lit 13]⟩],
  /- 14 -/ [⟨.sendArith, [.lit 14]⟩],
  /- 15 -/ [⟨.sendArith, [.lit 15]⟩],
  /- 16 -/ [⟨.sendSpecial, [.lit 0]⟩],
  /- 17 -/ [⟨.sendSpecial, [.lit 1]⟩],
  /- 18 -/ [⟨.sendSpecial, [.lit 2]⟩],
  /- 19 -/ [⟨.sendSpecial, [.lit 3]⟩],
  /- 20 -/ [⟨.sendSpecial, [.lit 4]⟩],
  /- 21 -/ [⟨.sendSpecial, [.lit 5]⟩],
  /- 22 -/ [⟨.sendSpecial, [.lit 6]⟩],
  /- 23 -/ [⟨.sendSpecial, [.lit 7]⟩],
  /- 24 -/ [⟨.sendSpecial, [.lit 8]⟩],
  /- 25 -/ [⟨.sendSpecial, [.lit 9]⟩],
  /- 26 -/ [⟨.sendSpecial, [.lit 10]⟩],
  /- 27 -/ [⟨.invalid, [.lit 27, .full]⟩],
  /- 28 -/ [⟨.send, [.hi, .lit 0, .lo]⟩],
  /- 29 -/ [⟨.send, [.hi, .lit 1, .lo]⟩],
  /- 30 -/ [⟨.sendImmediate, [.full, .lit 0]⟩],
  /- 31 -/ [⟨.sendImmediate, [.full, .lit 1]⟩],
  /- 32 -/ [⟨.pushTemporaryVariable, [.full]⟩],
  /- 33 -/ [⟨.pushOuterTemp, [.hi, .lo]⟩],
  /- 34 -/ [⟨.pushLitVariable, [.full]⟩],
  /- 35 -/ [⟨.pushReceiverVariable, [.full]⟩],
  /- 36 -/ [⟨.storeTemporaryVariable, [.full]⟩],
  /- 37 -/ [⟨.storeOuterTemp, [.hi, .lo]⟩],
  /- 38 -/ [⟨.storeLitVariable, [.full]⟩],
  /- 39 -/ [⟨.storeReceiverVariable, [.full]⟩],
  /- 40 -/ [⟨.jumpBack, [.full]⟩],
  /- 41 -/ [⟨.jump, [.full]⟩],
  /- 42 -/ [⟨.popJumpTrue, [.full]⟩],
  /- 43 -/ [⟨.popJumpFalse, [.full]⟩],
  /- 44 -/ [⟨.pushInteger, [.full]⟩],
  /- 45 -/ [⟨.pushSpecial, [.full]⟩],
  /- 46 -/ [⟨.pushLitConstant, [.full]⟩],
  /- 47 -/ [⟨.popIntoNewStacktop, [.full]⟩],
  /- 48 -/ [⟨.popStackTop, []⟩],
  /- 49 -/ [⟨.makeDirtyBlock, []⟩],
  /- 50 -/ [⟨.returnMethodStackTop, []⟩],
  /- 51 -/ [⟨.returnContextStackTop, []⟩],
  /- 52 -/ [⟨.dupStackTop, []⟩],
  /- 53 -/ [⟨.exitInterpreter, []⟩],
  /- 54 -/ [⟨.lineNumberBytecode, [.full]⟩],
  /- 55 -/ [],
  /- 56 -/ [⟨.pushSelf, []⟩],
  /- 57 -/ [⟨.invalid, [.lit 57, .full]⟩],
  /- 58 -/ [⟨.invalid, [.lit 58, .full]⟩],
  /- 59 -/ [⟨.invalid, [.lit 59, .full]⟩],
  /- 60 -/ [⟨.invalid, [.lit 60, .full]⟩],
  /- 61 -/ [⟨.invalid, [.lit 61, .full]⟩],
  /- 62 -/ [⟨.invalid, [.lit 62, .full]⟩],
  /- 63 -/ [⟨.invalid, [.lit 63, .full]⟩],
  /- 64 -/ [⟨.send, [.full, .lit 0, .lit 1]⟩],
  /- 65 -/ [⟨.send, [.full, .lit 0, .lit 0]⟩],
  /- 66 -/ [⟨.pushSelf, []⟩, ⟨.returnContextStackTop, []⟩],
  /- 67 -/ [⟨.lineNumberBytecode, [.full]⟩, ⟨.pushSelf, []⟩],
  /- 68 -/ [⟨.lineNumberBytecode, [.full]⟩, ⟨.popStackTop, []⟩],
  /- 69 -/ [⟨.lineNumberBytecode, [.full]⟩, ⟨.pushTemporaryVariable, [.lit 0]⟩],
  /- 70 -/ [⟨.pushLitConstant, [.full]⟩, ⟨.makeDirtyBlock, []⟩],
  /- 71 -/ [⟨.send, [.full, .lit 0, .lit 2]⟩],
  /- 72 -/ [⟨.popStackTop, []⟩, ⟨.dupStackTop, []⟩],
  /- 73 -/ [⟨.pushTemporaryVariable, [.lit 0]⟩, ⟨.sendImmediate, [.full, .lit 0]⟩],
  /- 74 -/ [⟨.pushSelf, []⟩, ⟨.send, [.full, .lit 0, .lit 0]⟩],
  /- 75 -/ [⟨.pushSpecial, [.full]⟩, ⟨.returnContextStackTop, []⟩],
  /- 76 -/ [⟨.pushSelf, []⟩, ⟨.sendImmediate, [.full, .lit 0]⟩],
  /- 77 -/ [⟨.pushOuterTemp, [.full, .lit 1]⟩],
  /- 78 -/ [⟨.storeTemporaryVariable, [.full]⟩, ⟨.popStackTop, []⟩],
  /- 79 -/ [⟨.pushSelf, []⟩, ⟨.pushTemporaryVariable, [.full]⟩],
  /- 80 -/ [⟨.storeReceiverVariable, [.full]⟩, ⟨.pushSelf, []⟩, ⟨.returnContextStackTop, []⟩],
  /- 81 -/ [⟨.pushInteger, [.full]⟩, ⟨.sendArith, [.lit 0]⟩],
  /- 82 -/ [⟨.lineNumberBytecode, [.full]⟩, ⟨.pushLitVariable, [.lit 0]⟩],
  /- 83 -/ [⟨.pushTemporaryVariable, [.lit 0]⟩, ⟨.pushTemporaryVariable, [.full]⟩],
  /- 84 -/ [⟨.pushTemporaryVariable, [.lit 0]⟩, ⟨.send, [.hi, .lit 0, .lo]⟩],
  /- 85 -/ [⟨.lineNumberBytecode, [.full]⟩, ⟨.pushTemporaryVariable, [.lit 1]⟩],
  /- 86 -/ [⟨.sendSpecial, [.lit 4]⟩, ⟨.popJumpFalse, [.full]⟩],
  /- 87 -/ [⟨.pushInteger, [.full]⟩, ⟨.sendArith, [.lit 6]⟩],
  /- 88 -/ [⟨.send, [.full, .lit 0, .lit 3]⟩],
  /- 89 -/ [⟨.pushTemporaryVariable, [.lit 0]⟩, ⟨.send, [.full, .lit 0, .lit 1]⟩],
  /- 90 -/ [⟨.lineNumberBytecode, [.full]⟩, ⟨.pushSelf, []⟩, ⟨.send, [.lit 0, .lit 0, .lit 0]⟩],
  /- 91 -/ [⟨.pushTemporaryVariable, [.full]⟩, ⟨.returnContextStackTop, []⟩],
  /- 92 -/ [⟨.pushLitConstant, [.full]⟩, ⟨.sendImmediate, [.lit 36, .lit 0]⟩],
  /- 93 -/ [⟨.sendSpecial, [.lit 8]⟩, ⟨.popJumpFalse, [.full]⟩],
  /- 94 -/ [⟨.pushLitConstant, [.full]⟩, ⟨.send, [.lit 1, .lit 0, .lit 1]⟩],
  /- 95 -/ [⟨.lineNumberBytecode, [.full]⟩, ⟨.popStackTop, []⟩, ⟨.pushSelf, []⟩],
  /- 96 -/ [⟨.popStackTop, []⟩, ⟨.dupStackTop, []⟩, ⟨.lineNumberBytecode, [.full]⟩],
  /- 97 -/ [⟨.pushTemporaryVariable, [.lit 0]⟩, ⟨.send, [.full, .lit 0, .lit 0]⟩],
  /- 98 -/ [⟨.pushTemporaryVariable, [.lit 1]⟩, ⟨.sendImmediate, [.full, .lit 0]⟩],
  /- 99 -/ [⟨.pushLitConstant, [.full]⟩, ⟨.sendArith, [.lit 6]⟩],
  /- 100 -/ [⟨.pushInteger, [.full]⟩, ⟨.sendArith, [.lit 1]⟩],
  /- 101 -/ [⟨.dupStackTop, []⟩, ⟨.popJumpFalse, [.full]⟩],
  /- 102 -/ [⟨.popStackTop, []⟩, ⟨.lineNumberBytecode, [.full]⟩],
  /- 103 -/ [⟨.pushInteger, [.full]⟩, ⟨.sendImmediate, [.lit 32, .lit 0]⟩],
  /- 104 -/ [⟨.pushTemporaryVariable, [.full]⟩, ⟨.sendSpecial, [.lit 2]⟩],
  /- 105 -/ [⟨.pushSelf, []⟩, ⟨.send, [.hi, .lit 0, .lo]⟩],
  /- 106 -/ [⟨.lineNumberBytecode, [.full]⟩, ⟨.pushTemporaryVariable, [.lit 2]⟩],
  /- 107 -/ [⟨.popStackTop, []⟩, ⟨.sendImmediate, [.full, .lit 0]⟩],
  /- 108 -/ [⟨.pushTemporaryVariable, [.full]⟩, ⟨.pushInteger, [.lit 1]⟩, ⟨.sendArith, [.lit 0]⟩],
  /- 109 -/ [⟨.lineNumberBytecode, [.full]⟩, ⟨.pushReceiverVariable, [.lit 0]⟩],
  /- 110 -/ [⟨.pushLitConstant, [.full]⟩, ⟨.sendImmediate, [.lit 38, .lit 0]⟩],
  /- 111 -/ [⟨.pushInteger, [.full]⟩, ⟨.sendSpecial, [.lit 0]⟩],
  /- 112 -/ [⟨.lineNumberBytecode, [.full]⟩, ⟨.pushReceiverVariable, [.lit 1]⟩],
  /- 113 -/ [⟨.pushTemporaryVariable, [.lit 0]⟩, ⟨.pushLitConstant, [.full]⟩],
  /- 114 -/ [⟨.dupStackTop, []⟩, ⟨.popJumpTrue, [.full]⟩],
  /- 115 -/ [⟨.pushTemporaryVariable, [.full]⟩, ⟨.sendSpecial, [.lit 0]⟩],
  /- 116 -/ [⟨.pushTemporaryVariable, [.lit 2]⟩, ⟨.sendImmediate, [.full, .lit 0]⟩],
  /- 117 -/ [⟨.pushLitConstant, [.full]⟩, ⟨.sendImmediate, [.lit 49, .lit 0]⟩],
  /- 118 -/ [⟨.storeTemporaryVariable, [.lit 1]⟩, ⟨.lineNumberBytecode, [.full]⟩, ⟨.popStackTop, []⟩],
  /- 119 -/ [⟨.pushTemporaryVariable, [.lit 1]⟩, ⟨.send, [.full, .lit 0, .lit 1]⟩],
  /- 120 -/ [⟨.storeReceiverVariable, [.full]⟩, ⟨.popStackTop, []⟩],
  /- 121 -/ [⟨.storeOuterTemp, [.full, .lit 1]⟩],
  /- 122 -/ [⟨.pushInteger, [.full]⟩, ⟨.sendImmediate, [.lit 96, .lit 0]⟩],
  /- 123 -/ [⟨.popStackTop, []⟩, ⟨.pushTemporaryVariable, [.full]⟩],
  /- 124 -/ [⟨.pushReceiverVariable, [.full]⟩, ⟨.returnContextStackTop, []⟩],
  /- 125 -/ [⟨.lineNumberBytecode, [.full]⟩, ⟨.popStackTop, []⟩, ⟨.pushTemporaryVariable, [.lit 1]⟩],
  /- 126 -/ [⟨.lineNumberBytecode, [.full]⟩, ⟨.popStackTop, []⟩, ⟨.pushTemporaryVariable, [.lit 0]⟩],
  /- 127 -/ [⟨.lineNumberBytecode, [.full]⟩, ⟨.pushSelf, []⟩, ⟨.pushLitConstant, [.lit 0]⟩],
  /- 128 -/ [⟨.pushLitConstant, [.full]⟩, ⟨.returnContextStackTop, []⟩],
  /- 129 -/ [⟨.pushSelf, []⟩, ⟨.sendSpecial, [.lit 2]⟩],
  /- 130 -/ [⟨.sendSpecial, [.lit 4]⟩, ⟨.popJumpTrue, [.full]⟩],
  /- 131 -/ [⟨.pushTemporaryVariable, [.full]⟩, ⟨.sendSpecial, [.lit 1]⟩],
  /- 132 -/ [⟨.lineNumberBytecode, [.full]⟩, ⟨.pushLitVariable, [.lit 1]⟩],
  /- 133 -/ [⟨.pushTemporaryVariable, [.full]⟩, ⟨.sendArith, [.lit 0]⟩],
  /- 134 -/ [⟨.popStackTop, []⟩, ⟨.jumpBack, [.full]⟩],
  /- 135 -/ [⟨.popStackTop, []⟩, ⟨.pushLitVariable, [.full]⟩],
  /- 136 -/ [⟨.pushInteger, [.lit 1]⟩, ⟨.storeTemporaryVariable, [.full]⟩],
  /- 137 -/ [⟨.pushLitConstant, [.full]⟩, ⟨.send, [.lit 2, .lit 0, .lit 1]⟩],
  /- 138 -/ [⟨.lineNumberBytecode, [.full]⟩, ⟨.pushTemporaryVariable, [.lit 3]⟩],
  /- 139 -/ [⟨.lineNumberBytecode, [.full]⟩, ⟨.pushOuterTemp, [.lit 0, .lit 1]⟩],
  /- 140 -/ [⟨.pushReceiverVariable, [.full]⟩, ⟨.send, [.lit 0, .lit 0, .lit 0]⟩],
  /- 141 -/ [⟨.pushInteger, [.full]⟩, ⟨.sendArith, [.lit 3]⟩],
  /- 142 -/ [⟨.pushTemporaryVariable, [.full]⟩, ⟨.sendSpecial, [.lit 6]⟩],
  /- 143 -/ [⟨.pushTemporaryVariable, [.full]⟩, ⟨.sendArith, [.lit 1]⟩],
  /- 144 -/ [⟨.pushLitConstant, [.full]⟩, ⟨.send, [.lit 3, .lit 0, .lit 1]⟩],
  /- 145 -/ [⟨.pushSpecial, [.lit 0]⟩, ⟨.sendSpecial, [.lit 8]⟩, ⟨.popJumpFalse, [.full]⟩],
  /- 146 -/ [⟨.storeTemporaryVariable, [.lit 2]⟩, ⟨.lineNumberBytecode, [.full]⟩, ⟨.popStackTop, []⟩],
  /- 147 -/ [⟨.sendSpecial, [.lit 8]⟩, ⟨.popJumpTrue, [.full]⟩],
  /- 148 -/ [⟨.pushInteger, [.full]⟩, ⟨.sendArith, [.lit 8]⟩],
  /- 149 -/ [⟨.lineNumberBytecode, [.full]⟩, ⟨.pushReceiverVariable, [.lit 2]⟩],
  /- 150 -/ [⟨.pushInteger, [.full]⟩, ⟨.sendArith, [.lit 2]⟩],
  /- 151 -/ [⟨.pushLitConstant, [.full]⟩, ⟨.sendSpecial, [.lit 1]⟩],
  /- 152 -/ [⟨.pushOuterTemp, [.full, .lit 2]⟩],
  /- 153 -/ [⟨.lineNumberBytecode, [.full]⟩, ⟨.pushSelf, []⟩, ⟨.pushTemporaryVariable, [.lit 0]⟩, ⟨.send, [.lit 0, .lit 0, .lit 1]⟩],
  /- 154 -/ [⟨.pushSelf, []⟩, ⟨.pushTemporaryVariable, [.lit 0]⟩, ⟨.send, [.full, .lit 0, .lit 1]⟩],
  /- 155 -/ [⟨.lineNumberBytecode, [.full]⟩, ⟨.pushSelf, []⟩, ⟨.sendImmediate, [.lit 40, .lit 0]⟩],
  /- 156 -/ [⟨.pushTemporaryVariable, [.full]⟩, ⟨.pushTemporaryVariable, [.lit 3]⟩],
  /- 157 -/ [⟨.storeTemporaryVariable, [.lit 1]⟩, ⟨.lineNumberBytecode, [.full]⟩],
  /- 158 -/ [⟨.lineNumberBytecode, [.full]⟩, ⟨.pushTemporaryVariable, [.lit 0]⟩, ⟨.send, [.lit 0, .lit 0, .lit 0]⟩],
  /- 159 -/ [⟨.pushInteger, [.full]⟩, ⟨.sendArith, [.lit 14]⟩],
  /- 160 -/ [⟨.pushTemporaryVariable, [.lit 2]⟩, ⟨.send, [.full, .lit 0, .lit 0]⟩],
  /- 161 -/ [⟨.pushTemporaryVariable, [.lit 0]⟩, ⟨.pushTemporaryVariable, [.lit 1]⟩, ⟨.send, [.hi, .lit 0, .lo]⟩],
  /- 162 -/ [⟨.lineNumberBytecode, [.full]⟩, ⟨.pushSelf, []⟩, ⟨.pushTemporaryVariable, [.lit 0]⟩],
  /- 163 -/ [⟨.lineNumberBytecode, [.full]⟩, ⟨.pushReceiverVariable, [.lit 3]⟩],
  /- 164 -/ [⟨.pushTemporaryVariable, [.lit 2]⟩, ⟨.send, [.full, .lit 0, .lit 1]⟩],
  /- 165 -/ [⟨.sendSpecial, [.lit 5]⟩, ⟨.popJumpFalse, [.full]⟩],
  /- 166 -/ [⟨.storeTemporaryVariable, [.lit 2]⟩, ⟨.lineNumberBytecode, [.full]⟩],
  /- 167 -/ [⟨.storeTemporaryVariable, [.lit 3]⟩, ⟨.lineNumberBytecode, [.full]⟩, ⟨.popStackTop, []⟩],
  /- 168 -/ [⟨.pushLitConstant, [.lit 1]⟩, ⟨.sendImmediate, [.full, .lit 0]⟩],
  /- 169 -/ [⟨.pushTemporaryVariable, [.full]⟩, ⟨.sendArith, [.lit 6]⟩],
  /- 170 -/ [⟨.popStackTop, []⟩, ⟨.dupStackTop, []⟩, ⟨.pushTemporaryVariable, [.full]⟩, ⟨.pushInteger, [.lit 1]⟩, ⟨.sendArith, [.lit 0]⟩],
  /- 171 -/ [⟨.pushSelf, []⟩, ⟨.send, [.full, .lit 0, .lit 1]⟩],
  /- 172 -/ [⟨.storeTemporaryVariable, [.lit 0]⟩, ⟨.lineNumberBytecode, [.full]⟩, ⟨.popStackTop, []⟩],
  /- 173 -/ [⟨.dupStackTop, []⟩, ⟨.lineNumberBytecode, [.full]⟩],
  /- 174 -/ [⟨.pushSelf, []⟩, ⟨.pushLitConstant, [.full]⟩, ⟨.sendImmediate, [.lit 49, .lit 0]⟩],
  /- 175 -/ [⟨.popStackTop, []⟩, ⟨.pushReceiverVariable, [.full]⟩],
  /- 176 -/ [⟨.lineNumberBytecode, [.full]⟩, ⟨.pushSelf, []⟩, ⟨.sendImmediate, [.lit 84, .lit 0]⟩],
  /- 177 -/ [⟨.lineNumberBytecode, [.full]⟩, ⟨.pushLitVariable, [.lit 2]⟩],
  /- 178 -/ [⟨.pushLitConstant, [.full]⟩, ⟨.makeDirtyBlock, []⟩, ⟨.send, [.lit 3, .lit 0, .lit 1]⟩],
  /- 179 -/ [⟨.lineNumberBytecode, [.full]⟩, ⟨.pushLitConstant, [.lit 0]⟩],
  /- 180 -/ [⟨.dupStackTop, []⟩, ⟨.pushLitConstant, [.full]⟩, ⟨.sendImmediate, [.lit 36, .lit 0]⟩],
  /- 181 -/ [⟨.lineNumberBytecode, [.full]⟩, ⟨.pushOuterTemp, [.lit 1, .lit 1]⟩],
  /- 182 -/ [⟨.pushInteger, [.full]⟩, ⟨.sendArith, [.lit 13]⟩],
  /- 183 -/ [⟨.pushLitConstant, [.lit 1]⟩, ⟨.makeDirtyBlock, []⟩, ⟨.sendImmediate, [.full, .lit 0]⟩],
  /- 184 -/ [⟨.pushTemporaryVariable, [.lit 3]⟩, ⟨.sendImmediate, [.full, .lit 0]⟩],
  /- 185 -/ [⟨.lineNumberBytecode, [.full]⟩, ⟨.pushSpecial, [.lit 0]⟩, ⟨.returnContextStackTop, []⟩],
  /- 186 -/ [⟨.lineNumberBytecode, [.full]⟩, ⟨.pushReceiverVariable, [.lit 5]⟩],
  /- 187 -/ [⟨.pushLitConstant, [.full]⟩, ⟨.makeDirtyBlock, []⟩, ⟨.send, [.lit 2, .lit 0, .lit 1]⟩],
  /- 188 -/ [⟨.pushTemporaryVariable, [.full]⟩, ⟨.sendSpecial, [.lit 7]⟩],
  /- 189 -/ [⟨.pushInteger, [.full]⟩, ⟨.returnContextStackTop, []⟩],
  /- 190 -/ [⟨.pushTemporaryVariable, [.lit 0]⟩, ⟨.send, [.full, .lit 0, .lit 2]⟩],
  /- 191 -/ [⟨.pushTemporaryVariable, [.full]⟩, ⟨.pushInteger, [.lit 1]⟩, ⟨.sendArith, [.lit 1]⟩],
  /- 192 -/ [⟨.pushSelf, []⟩, ⟨.pushLitConstant, [.full]⟩],
  /- 193 -/ [⟨.lineNumberBytecode, [.full]⟩, ⟨.pushReceiverVariable, [.lit 4]⟩],
  /- 194 -/ [⟨.pushOuterTemp, [.lit 0, .lit 1]⟩, ⟨.sendImmediate, [.full, .lit 0]⟩],
  /- 195 -/ [⟨.lineNumberBytecode, [.full]⟩, ⟨.pushSelf, []⟩, ⟨.send, [.lit 1, .lit 0, .lit 0]⟩],
  /- 196 -/ [⟨.pushOuterTemp, [.lit 0, .lit 1]⟩, ⟨.send, [.full, .lit 0, .lit 1]⟩],
  /- 197 -/ [⟨.pushTemporaryVariable, [.lit 4]⟩, ⟨.sendImmediate, [.full, .lit 0]⟩],
  /- 198 -/ [⟨.pushInteger, [.full]⟩, ⟨.sendImmediate, [.lit 41, .lit 0]⟩],
  /- 199 -/ [⟨.send, [.full, .lit 0, .lit 4]⟩],
  /- 200 -/ [⟨.pushTemporaryVariable, [.full]⟩, ⟨.pushTemporaryVariable, [.lit 2]⟩],
  /- 201 -/ [⟨.pushSelf, []⟩, ⟨.sendSpecial, [.lit 3]⟩],
  /- 202 -/ [⟨.pushTemporaryVariable, [.lit 1]⟩, ⟨.send, [.hi, .lit 0, .lo]⟩],
  /- 203 -/ [⟨.pushSelf, []⟩, ⟨.pushTemporaryVariable, [.lit 1]⟩, ⟨.send, [.full, .lit 0, .lit 1]⟩],
  /- 204 -/ [⟨.pushLitConstant, [.full]⟩, ⟨.send, [.lit 4, .lit 0, .lit 1]⟩],
  /- 205 -/ [⟨.pushInteger, [.full]⟩, ⟨.send, [.lit 0, .lit 0, .lit 1]⟩],
  /- 206 -/ [⟨.pushReceiverVariable, [.full]⟩, ⟨.sendSpecial, [.lit 2]⟩],
  /- 207 -/ [⟨.pushTemporaryVariable, [.lit 1]⟩, ⟨.send, [.full, .lit 0, .lit 2]⟩],
  /- 208 -/ [⟨.pushTemporaryVariable, [.lit 0]⟩, ⟨.pushTemporaryVariable, [.lit 1]⟩, ⟨.send, [.full, .lit 0, .lit 2]⟩],
  /- 209 -/ [⟨.pushTemporaryVariable, [.full]⟩, ⟨.popIntoNewStacktop, [.lit 0]⟩],
  /- 210 -/ [⟨.pushLitConstant, [.full]⟩, ⟨.makeDirtyBlock, []⟩, ⟨.send, [.lit 5, .lit 0, .lit 1]⟩],
  /- 211 -/ [⟨.send, [.full, .lit 1, .lit 1]⟩],
  /- 212 -/ [⟨.pushLitConstant, [.full]⟩, ⟨.makeDirtyBlock, []⟩, ⟨.send, [.lit 4, .lit 0, .lit 1]⟩],
  /- 213 -/ [⟨.pushReceiverVariable, [.lit 1]⟩, ⟨.sendImmediate, [.full, .lit 0]⟩],
  /- 214 -/ [⟨.storeOuterTemp, [.full, .lit 1]⟩, ⟨.returnContextStackTop, []⟩],
  /- 215 -/ [⟨.popStackTop, []⟩, ⟨.lineNumberBytecode, [.full]⟩, ⟨.sendImmediate, [.lit 37, .lit 0]⟩],
  /- 216 -/ [⟨.lineNumberBytecode, [.full]⟩, ⟨.pushSelf, []⟩, ⟨.sendSpecial, [.lit 3]⟩],
  /- 217 -/ [⟨.pushTemporaryVariable, [.lit 1]⟩, ⟨.send, [.full, .lit 0, .lit 0]⟩],
  /- 218 -/ [⟨.lineNumberBytecode, [.full]⟩, ⟨.pushSelf, []⟩, ⟨.sendImmediate, [.lit 130, .lit 0]⟩],
  /- 219 -/ [⟨.pushReceiverVariable, [.lit 0]⟩, ⟨.sendImmediate, [.full, .lit 0]⟩],
  /- 220 -/ [⟨.pushTemporaryVariable, [.lit 0]⟩, ⟨.pushLitVariable, [.full]⟩],
  /- 221 -/ [⟨.storeTemporaryVariable, [.lit 0]⟩, ⟨.lineNumberBytecode, [.full]⟩],
  /- 222 -/ [⟨.pushReceiverVariable, [.lit 2]⟩, ⟨.sendImmediate, [.full, .lit 0]⟩],
  /- 223 -/ [⟨.lineNumberBytecode, [.full]⟩, ⟨.pushSelf, []⟩, ⟨.send, [.lit 2, .lit 0, .lit 0]⟩],
  /- 224 -/ [⟨.lineNumberBytecode, [.full]⟩, ⟨.popStackTop, []⟩, ⟨.pushTemporaryVariable, [.lit 2]⟩],
  /- 225 -/ [⟨.pushLitConstant, [.full]⟩, ⟨.makeDirtyBlock, []⟩, ⟨.send, [.lit 6, .lit 0, .lit 1]⟩],
  /- 226 -/ [⟨.pushSpecial, [.full]⟩, ⟨.returnMethodStackTop, []⟩],
  /- 227 -/ [⟨.pushInteger, [.full]⟩, ⟨.sendArith, [.lit 5]⟩],
  /- 228 -/ [⟨.lineNumberBytecode, [.full]⟩, ⟨.popStackTop, []⟩, ⟨.pushReceiverVariable, [.lit 1]⟩],
  /- 229 -/ [⟨.lineNumberBytecode, [.full]⟩, ⟨.pushLitVariable, [.lit 3]⟩],
  /- 230 -/ [⟨.pushLitConstant, [.lit 2]⟩, ⟨.sendImmediate, [.full, .lit 0]⟩],
  /- 231 -/ [⟨.send, [.full, .lit 1, .lit 0]⟩],
  /- 232 -/ [⟨.pushSpecial, [.lit 0]⟩, ⟨.storeReceiverVariable, [.full]⟩],
  /- 233 -/ [⟨.pushSelf, []⟩, ⟨.pushTemporaryVariable, [.full]⟩, ⟨.send, [.lit 0, .lit 0, .lit 1]⟩],
  /- 234 -/ [⟨.lineNumberBytecode, [.full]⟩, ⟨.popStackTop, []⟩, ⟨.pushTemporaryVariable, [.lit 0]⟩, ⟨.returnContextStackTop, []⟩],
  /- 235 -/ [⟨.pushLitConstant, [.full]⟩, ⟨.sendSpecial, [.lit 8]⟩],
  /- 236 -/ [⟨.pushLitConstant, [.full]⟩, ⟨.makeDirtyBlock, []⟩, ⟨.send, [.lit 1, .lit 0, .lit 1]⟩],
  /- 237 -/ [⟨.lineNumberBytecode, [.full]⟩, ⟨.popStackTop, []⟩, ⟨.pushTemporaryVariable, [.lit 3]⟩],
  /- 238 -/ [⟨.popStackTop, []⟩, ⟨.dupStackTop, []⟩, ⟨.sendImmediate, [.full, .lit 0]⟩],
  /- 239 -/ [⟨.pushLitConstant, [.full]⟩, ⟨.pushTemporaryVariable, [.lit 0]⟩, ⟨.sendSpecial, [.lit 1]⟩],
  /- 240 -/ [⟨.dupStackTop, []⟩, ⟨.pushTemporaryVariable, [.full]⟩, ⟨.pushInteger, [.lit 1]⟩, ⟨.sendArith, [.lit 0]⟩],
  /- 241 -/ [⟨.lineNumberBytecode, [.full]⟩, ⟨.pushTemporaryVariable, [.lit 4]⟩],
  /- 242 -/ [⟨.popStackTop, []⟩, ⟨.lineNumberBytecode, [.full]⟩, ⟨.pushLitVariable, [.lit 1]⟩],
  /- 243 -/ [⟨.dupStackTop, []⟩, ⟨.pushLitConstant, [.full]⟩, ⟨.send, [.lit 1, .lit 0, .lit 1]⟩],
  /- 244 -/ [⟨.popIntoNewStacktop, [.lit 1]⟩, ⟨.send, [.full, .lit 0, .lit 1]⟩],
  /- 245 -/ [⟨.lineNumberBytecode, [.full]⟩, ⟨.popStackTop, []⟩, ⟨.pushTemporaryVariable, [.lit 1]⟩, ⟨.returnContextStackTop, []⟩],
  /- 246 -/ [⟨.storeTemporaryVariable, [.lit 3]⟩, ⟨.lineNumberBytecode, [.full]⟩],
  /- 247 -/ [⟨.dupStackTop, []⟩, ⟨.send, [.full, .lit 0, .lit 0]⟩],
  /- 248 -/ [⟨.storeReceiverVariable, [.full]⟩, ⟨.returnContextStackTop, []⟩],
  /- 249 -/ [⟨.lineNumberBytecode, [.full]⟩, ⟨.pushSelf, []⟩, ⟨.send, [.lit 3, .lit 0, .lit 0]⟩],
  /- 250 -/ [⟨.sendSpecial, [.lit 5]⟩, ⟨.dupStackTop, []⟩, ⟨.popJumpFalse, [.full]⟩],
  /- 251 -/ [⟨.dupStackTop, []⟩, ⟨.pushLitConstant, [.full]⟩],
  /- 252 -/ [⟨.lineNumberBytecode, [.full]⟩, ⟨.pushTemporaryVariable, [.lit 0]⟩, ⟨.returnContextStackTop, []⟩],
  /- 253 -/ [⟨.pushInteger, [.full]⟩, ⟨.sendSpecial, [.lit 1]⟩],
  /- 254 -/ [⟨.pushTemporaryVariable, [.full]⟩, ⟨.sendSpecial, [.lit 3]⟩],
  /- 255 -/ [⟨.lineNumberBytecode, [.full]⟩, ⟨.pushOuterTemp, [.lit 2, .lit 1]⟩]]

/-- libgst/vm.def l.924-end (`table normal_byte_codes`): the operations executed for each bytecode, in
order, without the `PREFETCH`/`ADVANCE` that moves `ip` past the bytecode.  Entry 55 (`EXT_BYTE`) is modelled
in `vmDecode`. -/
def vmDef : Array (List (Tmpl VOp VArg)) := #[
  /- 0 -/ [⟨.plusSpecial, []⟩],
  /- 1 -/ [⟨.minusSpecial, []⟩],
  /- 2 -/ [⟨.lessThanSpecial, []⟩],
  /- 3 -/ [⟨.greaterThanSpecial, []⟩],
  /- 4 -/ [⟨.lessEqualSpecial, []⟩],
  /- 5 -/ [⟨.greaterEqualSpecial, []⟩],
  /- 6 -/ [⟨.equalSpecial, []⟩],
  /- 7 -/ [⟨.notEqualSpecial, []⟩],
  /- 8 -/ [⟨.timesSpecial, []⟩],
  /- 9 -/ [⟨.divideSpecial, []⟩],
  /- 10 -/ [⟨.remainderSpecial, []⟩],
  /- 11 -/ [⟨.bitXorSpecial, []⟩],
  /- 12 -/ [⟨.bitShiftSpecial, []⟩],
  /- 13 -/ [⟨.integerDivideSpecial, []⟩],
  /- 14 -/ [⟨.bitAndSpecial, []⟩],
  /- 15 -/ [⟨.bitOrSpecial, []⟩],
  /- 16 -/ [⟨.atSpecial, []⟩],
  /- 17 -/ [⟨.atPutSpecial, []⟩],
  /- 18 -/ [⟨.sizeSpecial, []⟩],
  /- 19 -/ [⟨.classSpecial, []⟩],
  /- 20 -/ [⟨.isNilSpecial, []⟩],
  /- 21 -/ [⟨.notNilSpecial, []⟩],
  /- 22 -/ [⟨.valueSpecial, []⟩],
  /- 23 -/ [⟨.valueColonSpecial, []⟩],
  /- 24 -/ [⟨.sameObjectSpecial, []⟩],
  /- 25 -/ [⟨.javaAsIntSpecial, []⟩],
  /- 26 -/ [⟨.javaAsLongSpecial, []⟩],
  /- 27 -/ [⟨.invalid, [.arg]⟩],
  /- 28 -/ [⟨.send, [.hi, .lo]⟩],
  /- 29 -/ [⟨.sendSuper, [.hi, .lo]⟩],
  /- 30 -/ [⟨.sendImmediate, [.arg]⟩],
  /- 31 -/ [⟨.sendSuperImmediate, [.arg]⟩],
  /- 32 -/ [⟨.pushTemporaryVariable, [.arg]⟩],
  /- 33 -/ [⟨.pushOuterTemp, [.hi, .lo]⟩],
  /- 34 -/ [⟨.pushLitVariable, [.arg]⟩],
  /- 35 -/ [⟨.pushReceiverVariable, [.arg]⟩],
  /- 36 -/ [⟨.storeTemporaryVariable, [.arg]⟩],
  /- 37 -/ [⟨.storeOuterTemp, [.hi, .lo]⟩],
  /- 38 -/ [⟨.storeLitVariable, [.arg]⟩],
  /- 39 -/ [⟨.storeReceiverVariable, [.arg]⟩],
  /- 40 -/ [⟨.jumpBack, [.arg]⟩],
  /- 41 -/ [⟨.jump, [.arg]⟩],
  /- 42 -/ [⟨.popJumpTrue, [.arg]⟩],
  /- 43 -/ [⟨.popJumpFalse, [.arg]⟩],
  /- 44 -/ [⟨.pushInteger, [.arg]⟩],
  /- 45 -/ [⟨.pushSpecial, [.arg]⟩],
  /- 46 -/ [⟨.pushLitConstant, [.arg]⟩],
  /- 47 -/ [⟨.popIntoNewStacktop, [.arg]⟩],
  /- 48 -/ [⟨.popStackTop, []⟩],
  /- 49 -/ [⟨.makeDirtyBlock, []⟩],
  /- 50 -/ [⟨.returnMethodStackTop, []⟩],
  /- 51 -/ [⟨.returnContextStackTop, []⟩],
  /- 52 -/ [⟨.dupStackTop, []⟩],
  /- 53 -/ [⟨.exitInterpreter, []⟩],
  /- 54 -/ [⟨.lineNumberBytecode, []⟩],
  /- 55 -/ [],
  /- 56 -/ [⟨.pushSelf, []⟩],
  /- 57 -/ [⟨.invalid, [.arg]⟩],
  /- 58 -/ [⟨.invalid, [.arg]⟩],
  /- 59 -/ [⟨.invalid, [.arg]⟩],
  /- 60 -/ [⟨.invalid, [.arg]⟩],
  /- 61 -/ [⟨.invalid, [.arg]⟩],
  /- 62 -/ [⟨.invalid, [.arg]⟩],
  /- 63 -/ [⟨.invalid, [.arg]⟩],
  /- 64 -/ [⟨.send, [.arg, .lit 1]⟩],
  /- 65 -/ [⟨.send, [.arg, .lit 0]⟩],
  /- 66 -/ [⟨.pushSelf, []⟩, ⟨.returnContextStackTop, []⟩],
  /- 67 -/ [⟨.lineNumberBytecode, []⟩, ⟨.pushSelf, []⟩],
  /- 68 -/ [⟨.lineNumberBytecode, []⟩, ⟨.popStackTop, []⟩],
  /- 69 -/ [⟨.lineNumberBytecode, []⟩, ⟨.pushTemporaryVariable, [.lit 0]⟩],
  /- 70 -/ [⟨.pushLitConstant, [.arg]⟩, ⟨.makeDirtyBlock, []⟩],
  /- 71 -/ [⟨.send, [.arg, .lit 2]⟩],
  /- 72 -/ [⟨.popStackTop, []⟩, ⟨.dupStackTop, []⟩],
  /- 73 -/ [⟨.pushTemporaryVariable, [.lit 0]⟩, ⟨.sendImmediate, [.arg]⟩],
  /- 74 -/ [⟨.pushSelf, []⟩, ⟨.send, [.arg, .lit 0]⟩],
  /- 75 -/ [⟨.pushSpecial, [.arg]⟩, ⟨.returnContextStackTop, []⟩],
  /- 76 -/ [⟨.pushSelf, []⟩, ⟨.sendImmediate, [.arg]⟩],
  /- 77 -/ [⟨.pushOuterTemp, [.arg, .lit 1]⟩],
  /- 78 -/ [⟨.storeTemporaryVariable, [.arg]⟩, ⟨.popStackTop, []⟩],
  /- 79 -/ [⟨.pushSelf, []⟩, ⟨.pushTemporaryVariable, [.arg]⟩],
  /- 80 -/ [⟨.storeReceiverVariable, [.arg]⟩, ⟨.pushSelf, []⟩, ⟨.returnContextStackTop, []⟩],
  /- 81 -/ [⟨.pushInteger, [.arg]⟩, ⟨.plusSpecial, []⟩],
  /- 82 -/ [⟨.lineNumberBytecode, []⟩, ⟨.pushLitVariable, [.lit 0]⟩],
  /- 83 -/ [⟨.pushTemporaryVariable, [.lit 0]⟩, ⟨.pushTemporaryVariable, [.arg]⟩],
  /- 84 -/ [⟨.pushTemporaryVariable, [.lit 0]⟩, ⟨.send, [.hi, .lo]⟩],
  /- 85 -/ [⟨.lineNumberBytecode, []⟩, ⟨.pushTemporaryVariable, [.lit 1]⟩],
  /- 86 -/ [⟨.isNilSpecial, []⟩, ⟨.popJumpFalse, [.arg]⟩],
  /- 87 -/ [⟨.pushInteger, [.arg]⟩, ⟨.equalSpecial, []⟩],
  /- 88 -/ [⟨.send, [.arg, .lit 3]⟩],
  /- 89 -/ [⟨.pushTemporaryVariable, [.lit 0]⟩, ⟨.send, [.arg, .lit 1]⟩],
  /- 90 -/ [⟨.lineNumberBytecode, []⟩, ⟨.pushSelf, []⟩, ⟨.send, [.lit 0, .lit 0]⟩],
  /- 91 -/ [⟨.pushTemporaryVariable, [.arg]⟩, ⟨.returnContextStackTop, []⟩],
  /- 92 -/ [⟨.pushLitConstant, [.arg]⟩, ⟨.sendImmediate, [.lit 36]⟩],
  /- 93 -/ [⟨.sameObjectSpecial, []⟩, ⟨.popJumpFalse, [.arg]⟩],
  /- 94 -/ [⟨.pushLitConstant, [.arg]⟩, ⟨.send, [.lit 1, .lit 1]⟩],
  /- 95 -/ [⟨.lineNumberBytecode, []⟩, ⟨.popStackTop, []⟩, ⟨.pushSelf, []⟩],
  /- 96 -/ [⟨.popStackTop, []⟩, ⟨.dupStackTop, []⟩, ⟨.lineNumberBytecode, []⟩],
  /- 97 -/ [⟨.pushTemporaryVariable, [.lit 0]⟩, ⟨.send, [.arg, .lit 0]⟩],
  /- 98 -/ [⟨.pushTemporaryVariable, [.lit 1]⟩, ⟨.sendImmediate, [.arg]⟩],
  /- 99 -/ [⟨.pushLitConstant, [.arg]⟩, ⟨.equalSpecial, []⟩],
  /- 100 -/ [⟨.pushInteger, [.arg]⟩, ⟨.minusSpecial, []⟩],
  /- 101 -/ [⟨.dupStackTop, []⟩, ⟨.popJumpFalse, [.arg]⟩],
  /- 102 -/ [⟨.popStackTop, []⟩, ⟨.lineNumberBytecode, []⟩],
  /- 103 -/ [⟨.pushInteger, [.arg]⟩, ⟨.sendImmediate, [.lit 32]⟩],
  /- 104 -/ [⟨.pushTemporaryVariable, [.arg]⟩, ⟨.sizeSpecial, []⟩],
  /- 105 -/ [⟨.pushSelf, []⟩, ⟨.send, [.hi, .lo]⟩],
  /- 106 -/ [⟨.lineNumberBytecode, []⟩, ⟨.pushTemporaryVariable, [.lit 2]⟩],
  /- 107 -/ [⟨.popStackTop, []⟩, ⟨.sendImmediate, [.arg]⟩],
  /- 108 -/ [⟨.pushTemporaryVariable, [.arg]⟩, ⟨.pushInteger, [.lit 1]⟩, ⟨.plusSpecial, []⟩],
  /- 109 -/ [⟨.lineNumberBytecode, []⟩, ⟨.pushReceiverVariable, [.lit 0]⟩],
  /- 110 -/ [⟨.pushLitConstant, [.arg]⟩, ⟨.sendImmediate, [.lit 38]⟩],
  /- 111 -/ [⟨.pushInteger, [.arg]⟩, ⟨.atSpecial, []⟩],
  /- 112 -/ [⟨.lineNumberBytecode, []⟩, ⟨.pushReceiverVariable, [.lit 1]⟩],
  /- 113 -/ [⟨.pushTemporaryVariable, [.lit 0]⟩, ⟨.pushLitConstant, [.arg]⟩],
  /- 114 -/ [⟨.dupStackTop, []⟩, ⟨.popJumpTrue, [.arg]⟩],
  /- 115 -/ [⟨.pushTemporaryVariable, [.arg]⟩, ⟨.atSpecial, []⟩],
  /- 116 -/ [⟨.pushTemporaryVariable, [.lit 2]⟩, ⟨.sendImmediate, [.arg]⟩],
  /- 117 -/ [⟨.pushLitConstant, [.arg]⟩, ⟨.sendImmediate, [.lit 49]⟩],
  /- 118 -/ [⟨.storeTemporaryVariable, [.lit 1]⟩, ⟨.lineNumberBytecode, []⟩, ⟨.popStackTop, []⟩],
  /- 119 -/ [⟨.pushTemporaryVariable, [.lit 1]⟩, ⟨.send, [.arg, .lit 1]⟩],
  /- 120 -/ [⟨.storeReceiverVariable, [.arg]⟩, ⟨.popStackTop, []⟩],
  /- 121 -/ [⟨.storeOuterTemp, [.arg, .lit 1]⟩],
  /- 122 -/ [⟨.pushInteger, [.arg]⟩, ⟨.sendImmediate, [.lit 96]⟩],
  /- 123 -/ [⟨.popStackTop, []⟩, ⟨.pushTemporaryVariable, [.arg]⟩],
  /- 124 -/ [⟨.pushReceiverVariable, [.arg]⟩, ⟨.returnContextStackTop, []⟩],
  /- 125 -/ [⟨.lineNumberBytecode, []⟩, ⟨.popStackTop, []⟩, ⟨.pushTemporaryVariable, [.lit 1]⟩],
  /- 126 -/ [⟨.lineNumberBytecode, []⟩, ⟨.popStackTop, []⟩, ⟨.pushTemporaryVariable, [.lit 0]⟩],
  /- 127 -/ [⟨.lineNumberBytecode, []⟩, ⟨.pushSelf, []⟩, ⟨.pushLitConstant, [.lit 0]⟩],
  /- 128 -/ [⟨.pushLitConstant, [.arg]⟩, ⟨.returnContextStackTop, []⟩],
  /- 129 -/ [⟨.pushSelf, []⟩, ⟨.sizeSpecial, []⟩],
  /- 130 -/ [⟨.isNilSpecial, []⟩, ⟨.popJumpTrue, [.arg]⟩],
  /- 131 -/ [⟨.pushTemporaryVariable, [.arg]⟩, ⟨.atPutSpecial, []⟩],
  /- 132 -/ [⟨.lineNumberBytecode, []⟩, ⟨.pushLitVariable, [.lit 1]⟩],
  /- 133 -/ [⟨.pushTemporaryVariable, [.arg]⟩, ⟨.plusSpecial, []⟩],
  /- 134 -/ [⟨.popStackTop, []⟩, ⟨.jumpBack, [.arg]⟩],
  /- 135 -/ [⟨.popStackTop, []⟩, ⟨.pushLitVariable, [.arg]⟩],
  /- 136 -/ [⟨.pushInteger, [.lit 1]⟩, ⟨.storeTemporaryVariable, [.arg]⟩],
  /- 137 -/ [⟨.pushLitConstant, [.arg]⟩, ⟨.send, [.lit 2, .lit 1]⟩],
  /- 138 -/ [⟨.lineNumberBytecode, []⟩, ⟨.pushTemporaryVariable, [.lit 3]⟩],
  /- 139 -/ [⟨.lineNumberBytecode, []⟩, ⟨.pushOuterTemp, [.lit 0, .lit 1]⟩],
  /- 140 -/ [⟨.pushReceiverVariable, [.arg]⟩, ⟨.send, [.lit 0, .lit 0]⟩],
  /- 141 -/ [⟨.pushInteger, [.arg]⟩, ⟨.greaterThanSpecial, []⟩],
  /- 142 -/ [⟨.pushTemporaryVariable, [.arg]⟩, ⟨.valueSpecial, []⟩],
  /- 143 -/ [⟨.pushTemporaryVariable, [.arg]⟩, ⟨.minusSpecial, []⟩],
  /- 144 -/ [⟨.pushLitConstant, [.arg]⟩, ⟨.send, [.lit 3, .lit 1]⟩],
  /- 145 -/ [⟨.pushSpecial, [.lit 0]⟩, ⟨.sameObjectSpecial, []⟩, ⟨.popJumpFalse, [.arg]⟩],
  /- 146 -/ [⟨.storeTemporaryVariable, [.lit 2]⟩, ⟨.lineNumberBytecode, []⟩, ⟨.popStackTop, []⟩],
  /- 147 -/ [⟨.sameObjectSpecial, []⟩, ⟨.popJumpTrue, [.arg]⟩],
  /- 148 -/ [⟨.pushInteger, [.arg]⟩, ⟨.timesSpecial, []⟩],
  /- 149 -/ [⟨.lineNumberBytecode, []⟩, ⟨.pushReceiverVariable, [.lit 2]⟩],
  /- 150 -/ [⟨.pushInteger, [.arg]⟩, ⟨.lessThanSpecial, []⟩],
  /- 151 -/ [⟨.pushLitConstant, [.arg]⟩, ⟨.atPutSpecial, []⟩],
  /- 152 -/ [⟨.pushOuterTemp, [.arg, .lit 2]⟩],
  /- 153 -/ [⟨.lineNumberBytecode, []⟩, ⟨.pushSelf, []⟩, ⟨.pushTemporaryVariable, [.lit 0]⟩, ⟨.send, [.lit 0, .lit 1]⟩],
  /- 154 -/ [⟨.pushSelf, []⟩, ⟨.pushTemporaryVariable, [.lit 0]⟩, ⟨.send, [.arg, .lit 1]⟩],
  /- 155 -/ [⟨.lineNumberBytecode, []⟩, ⟨.pushSelf, []⟩, ⟨.sendImmediate, [.lit 40]⟩],
  /- 156 -/ [⟨.pushTemporaryVariable, [.arg]⟩, ⟨.pushTemporaryVariable, [.lit 3]⟩],
  /- 157 -/ [⟨.storeTemporaryVariable, [.lit 1]⟩, ⟨.lineNumberBytecode, []⟩],
  /- 158 -/ [⟨.lineNumberBytecode, []⟩, ⟨.pushTemporaryVariable, [.lit 0]⟩, ⟨.send, [.lit 0, .lit 0]⟩],
  /- 159 -/ [⟨.pushInteger, [.arg]⟩, ⟨.bitAndSpecial, []⟩],
  /- 160 -/ [⟨.pushTemporaryVariable, [.lit 2]⟩, ⟨.send, [.arg, .lit 0]⟩],
  /- 161 -/ [⟨.pushTemporaryVariable, [.lit 0]⟩, ⟨.pushTemporaryVariable, [.lit 1]⟩, ⟨.send, [.hi, .lo]⟩],
  /- 162 -/ [⟨.lineNumberBytecode, []⟩, ⟨.pushSelf, []⟩, ⟨.pushTemporaryVariable, [.lit 0]⟩],
  /- 163 -/ [⟨.lineNumberBytecode, []⟩, ⟨.pushReceiverVariable, [.lit 3]⟩],
  /- 164 -/ [⟨.pushTemporaryVariable, [.lit 2]⟩, ⟨.send, [.arg, .lit 1]⟩],
  /- 165 -/ [⟨.notNilSpecial, []⟩, ⟨.popJumpFalse, [.arg]⟩],
  /- 166 -/ [⟨.storeTemporaryVariable, [.lit 2]⟩, ⟨.lineNumberBytecode, []⟩],
  /- 167 -/ [⟨.storeTemporaryVariable, [.lit 3]⟩, ⟨.lineNumberBytecode, []⟩, ⟨.popStackTop, []⟩],
  /- 168 -/ [⟨.pushLitConstant, [.lit 1]⟩, ⟨.sendImmediate, [.arg]⟩],
  /- 169 -/ [⟨.pushTemporaryVariable, [.arg]⟩, ⟨.equalSpecial, []⟩],
  /- 170 -/ [⟨.popStackTop, []⟩, ⟨.dupStackTop, []⟩, ⟨.pushTemporaryVariable, [.arg]⟩, ⟨.pushInteger, [.lit 1]⟩, ⟨.plusSpecial, []⟩],
  /- 171 -/ [⟨.pushSelf, []⟩, ⟨.send, [.arg, .lit 1]⟩],
  /- 172 -/ [⟨.storeTemporaryVariable, [.lit 0]⟩, ⟨.lineNumberBytecode, []⟩, ⟨.popStackTop, []⟩],
  /- 173 -/ [⟨.dupStackTop, []⟩, ⟨.lineNumberBytecode, []⟩],
  /- 174 -/ [⟨.pushSelf, []⟩, ⟨.pushLitConstant, [.arg]⟩, ⟨.sendImmediate, [.lit 49]⟩],
  /- 175 -/ [⟨.popStackTop, []⟩, ⟨.pushReceiverVariable, [.arg]⟩],
  /- 176 -/ [⟨.lineNumberBytecode, []⟩, ⟨.pushSelf, []⟩, ⟨.sendImmediate, [.lit 84]⟩],
  /- 177 -/ [⟨.lineNumberBytecode, []⟩, ⟨.pushLitVariable, [.lit 2]⟩],
  /- 178 -/ [⟨.pushLitConstant, [.arg]⟩, ⟨.makeDirtyBlock, []⟩, ⟨.send, [.lit 3, .lit 1]⟩],
  /- 179 -/ [⟨.lineNumberBytecode, []⟩, ⟨.pushLitConstant, [.lit 0]⟩],
  /- 180 -/ [⟨.dupStackTop, []⟩, ⟨.pushLitConstant, [.arg]⟩, ⟨.sendImmediate, [.lit 36]⟩],
  /- 181 -/ [⟨.lineNumberBytecode, []⟩, ⟨.pushOuterTemp, [.lit 1, .lit 1]⟩],
  /- 182 -/ [⟨.pushInteger, [.arg]⟩, ⟨.integerDivideSpecial, []⟩],
  /- 183 -/ [⟨.pushLitConstant, [.lit 1]⟩, ⟨.makeDirtyBlock, []⟩, ⟨.sendImmediate, [.arg]⟩],
  /- 184 -/ [⟨.pushTemporaryVariable, [.lit 3]⟩, ⟨.sendImmediate, [.arg]⟩],
  /- 185 -/ [⟨.lineNumberBytecode, []⟩, ⟨.pushSpecial, [.lit 0]⟩, ⟨.returnContextStackTop, []⟩],
  /- 186 -/ [⟨.lineNumberBytecode, []⟩, ⟨.pushReceiverVariable, [.lit 5]⟩],
  /- 187 -/ [⟨.pushLitConstant, [.arg]⟩, ⟨.makeDirtyBlock, []⟩, ⟨.send, [.lit 2, .lit 1]⟩],
  /- 188 -/ [⟨.pushTemporaryVariable, [.arg]⟩, ⟨.valueColonSpecial, []⟩],
  /- 189 -/ [⟨.pushInteger, [.arg]⟩, ⟨.returnContextStackTop, []⟩],
  /- 190 -/ [⟨.pushTemporaryVariable, [.lit 0]⟩, ⟨.send, [.arg, .lit 2]⟩],
  /- 191 -/ [⟨.pushTemporaryVariable, [.arg]⟩, ⟨.pushInteger, [.lit 1]⟩, ⟨.minusSpecial, []⟩],
  /- 192 -/ [⟨.pushSelf, []⟩, ⟨.pushLitConstant, [.arg]⟩],
  /- 193 -/ [⟨.lineNumberBytecode, []⟩, ⟨.pushReceiverVariable, [.lit 4]⟩],
  /- 194 -/ [⟨.pushOuterTemp, [.lit 0, .lit 1]⟩, ⟨.sendImmediate, [.arg]⟩],
  /- 195 -/ [⟨.lineNumberBytecode, []⟩, ⟨.pushSelf, []⟩, ⟨.send, [.lit 1, .lit 0]⟩],
  /- 196 -/ [⟨.pushOuterTemp, [.lit 0, .lit 1]⟩, ⟨.send, [.arg, .lit 1]⟩],
  /- 197 -/ [⟨.pushTemporaryVariable, [.lit 4]⟩, ⟨.sendImmediate, [.arg]⟩],
  /- 198 -/ [⟨.pushInteger, [.arg]⟩, ⟨.sendImmediate, [.lit 41]⟩],
  /- 199 -/ [⟨.send, [.arg, .lit 4]⟩],
  /- 200 -/ [⟨.pushTemporaryVariable, [.arg]⟩, ⟨.pushTemporaryVariable, [.lit 2]⟩],
  /- 201 -/ [⟨.pushSelf, []⟩, ⟨.classSpecial, []⟩],
  /- 202 -/ [⟨.pushTemporaryVariable, [.lit 1]⟩, ⟨.send, [.hi, .lo]⟩],
  /- 203 -/ [⟨.pushSelf, []⟩, ⟨.pushTemporaryVariable, [.lit 1]⟩, ⟨.send, [.arg, .lit 1]⟩],
  /- 204 -/ [⟨.pushLitConstant, [.arg]⟩, ⟨.send, [.lit 4, .lit 1]⟩],
  /- 205 -/ [⟨.pushInteger, [.arg]⟩, ⟨.send, [.lit 0, .lit 1]⟩],
  /- 206 -/ [⟨.pushReceiverVariable, [.arg]⟩, ⟨.sizeSpecial, []⟩],
  /- 207 -/ [⟨.pushTemporaryVariable, [.lit 1]⟩, ⟨.send, [.arg, .lit 2]⟩],
  /- 208 -/ [⟨.pushTemporaryVariable, [.lit 0]⟩, ⟨.pushTemporaryVariable, [.lit 1]⟩, ⟨.send, [.arg, .lit 2]⟩],
  /- 209 -/ [⟨.pushTemporaryVariable, [.arg]⟩, ⟨.popIntoNewStacktop, [.lit 0]⟩],
  /- 210 -/ [⟨.pushLitConstant, [.arg]⟩, ⟨.makeDirtyBlock, []⟩, ⟨.send, [.lit 5, .lit 1]⟩],
  /- 211 -/ [⟨.sendSuper, [.arg, .lit 1]⟩],
  /- 212 -/ [⟨.pushLitConstant, [.arg]⟩, ⟨.makeDirtyBlock, []⟩, ⟨.send, [.lit 4, .lit 1]⟩],
  /- 213 -/ [⟨.pushReceiverVariable, [.lit 1]⟩, ⟨.sendImmediate, [.arg]⟩],
  /- 214 -/ [⟨.storeOuterTemp, [.arg, .lit 1]⟩, ⟨.returnContextStackTop, []⟩],
  /- 215 -/ [⟨.popStackTop, []⟩, ⟨.lineNumberBytecode, []⟩, ⟨.sendImmediate, [.lit 37]⟩],
  /- 216 -/ [⟨.lineNumberBytecode, []⟩, ⟨.pushSelf, []⟩, ⟨.classSpecial, []⟩],
  /- 217 -/ [⟨.pushTemporaryVariable, [.lit 1]⟩, ⟨.send, [.arg, .lit 0]⟩],
  /- 218 -/ [⟨.lineNumberBytecode, []⟩, ⟨.pushSelf, []⟩, ⟨.sendImmediate, [.lit 130]⟩],
  /- 219 -/ [⟨.pushReceiverVariable, [.lit 0]⟩, ⟨.sendImmediate, [.arg]⟩],
  /- 220 -/ [⟨.pushTemporaryVariable, [.lit 0]⟩, ⟨.pushLitVariable, [.arg]⟩],
  /- 221 -/ [⟨.storeTemporaryVariable, [.lit 0]⟩, ⟨.lineNumberBytecode, []⟩],
  /- 222 -/ [⟨.pushReceiverVariable, [.lit 2]⟩, ⟨.sendImmediate, [.arg]⟩],
  /- 223 -/ [⟨.lineNumberBytecode, []⟩, ⟨.pushSelf, []⟩, ⟨.send, [.lit 2, .lit 0]⟩],
  /- 224 -/ [⟨.lineNumberBytecode, []⟩, ⟨.popStackTop, []⟩, ⟨.pushTemporaryVariable, [.lit 2]⟩],
  /- 225 -/ [⟨.pushLitConstant, [.arg]⟩, ⟨.makeDirtyBlock, []⟩, ⟨.send, [.lit 6, .lit 1]⟩],
  /- 226 -/ [⟨.pushSpecial, [.arg]⟩, ⟨.returnMethodStackTop, []⟩],
  /- 227 -/ [⟨.pushInteger, [.arg]⟩, ⟨.greaterEqualSpecial, []⟩],
  /- 228 -/ [⟨.lineNumberBytecode, []⟩, ⟨.popStackTop, []⟩, ⟨.pushReceiverVariable, [.lit 1]⟩],
  /- 229 -/ [⟨.lineNumberBytecode, []⟩, ⟨.pushLitVariable, [.lit 3]⟩],
  /- 230 -/ [⟨.pushLitConstant, [.lit 2]⟩, ⟨.sendImmediate, [.arg]⟩],
  /- 231 -/ [⟨.sendSuper, [.arg, .lit 0]⟩],
  /- 232 -/ [⟨.pushSpecial, [.lit 0]⟩, ⟨.storeReceiverVariable, [.arg]⟩],
  /- 233 -/ [⟨.pushSelf, []⟩, ⟨.pushTemporaryVariable, [.arg]⟩, ⟨.send, [.lit 0, .lit 1]⟩],
  /- 234 -/ [⟨.lineNumberBytecode, []⟩, ⟨.popStackTop, []⟩, ⟨.pushTemporaryVariable, [.lit 0]⟩, ⟨.returnContextStackTop, []⟩],
  /- 235 -/ [⟨.pushLitConstant, [.arg]⟩, ⟨.sameObjectSpecial, []⟩],
  /- 236 -/ [⟨.pushLitConstant, [.arg]⟩, ⟨.makeDirtyBlock, []⟩, ⟨.send, [.lit 1, .lit 1]⟩],
  /- 237 -/ [⟨.lineNumberBytecode, []⟩, ⟨.popStackTop, []⟩, ⟨.pushTemporaryVariable, [.lit 3]⟩],
  /- 238 -/ [⟨.popStackTop, []⟩, ⟨.dupStackTop, []⟩, ⟨.sendImmediate, [.arg]⟩],
  /- 239 -/ [⟨.pushLitConstant, [.arg]⟩, ⟨.pushTemporaryVariable, [.lit 0]⟩, ⟨.atPutSpecial, []⟩],
  /- 240 -/ [⟨.dupStackTop, []⟩, ⟨.pushTemporaryVariable, [.arg]⟩, ⟨.pushInteger, [.lit 1]⟩, ⟨.plusSpecial, []⟩],
  /- 241 -/ [⟨.lineNumberBytecode, []⟩, ⟨.pushTemporaryVariable, [.lit 4]⟩],
  /- 242 -/ [⟨.popStackTop, []⟩, ⟨.lineNumberBytecode, []⟩, ⟨.pushLitVariable, [.lit 1]⟩],
  /- 243 -/ [⟨.dupStackTop, []⟩, ⟨.pushLitConstant, [.arg]⟩, ⟨.send, [.lit 1, .lit 1]⟩],
  /- 244 -/ [⟨.popIntoNewStacktop, [.lit 1]⟩, ⟨.send, [.arg, .lit 1]⟩],
  /- 245 -/ [⟨.lineNumberBytecode, []⟩, ⟨.popStackTop, []⟩, ⟨.pushTemporaryVariable, [.lit 1]⟩, ⟨.returnContextStackTop, []⟩],
  /- 246 -/ [⟨.storeTemporaryVariable, [.lit 3]⟩, ⟨.lineNumberBytecode, []⟩],
  /- 247 -/ [⟨.dupStackTop, []⟩, ⟨.send, [.arg, .lit 0]⟩],
  /- 248 -/ [⟨.storeReceiverVariable, [.arg]⟩, ⟨.returnContextStackTop, []⟩],
  /- 249 -/ [⟨.lineNumberBytecode, []⟩, ⟨.pushSelf, []⟩, ⟨.send, [.lit 3, .lit 0]⟩],
  /- 250 -/ [⟨.notNilSpecial, []⟩, ⟨.dupStackTop, []⟩, ⟨.popJumpFalse, [.arg]⟩],
  /- 251 -/ [⟨.dupStackTop, []⟩, ⟨.pushLitConstant, [.arg]⟩],
  /- 252 -/ [⟨.lineNumberBytecode, []⟩, ⟨.pushTemporaryVariable, [.lit 0]⟩, ⟨.returnContextStackTop, []⟩],
  /- 253 -/ [⟨.pushInteger, [.arg]⟩, ⟨.atPutSpecial, []⟩],
  /- 254 -/ [⟨.pushTemporaryVariable, [.arg]⟩, ⟨.classSpecial, []⟩],
  /- 255 -/ [⟨.lineNumberBytecode, []⟩, ⟨.pushOuterTemp, [.lit 2, .lit 1]⟩]]

/-- libgst/superop1.inl: `MAX_HASH_VALUE`. -/
def maxHash1 : Nat := 346

/-- libgst/superop1.inl: `asso_values`. -/
def asso1 : Array Nat := #[101, 68, 85, 108, 17, 347, 347, 347, 347, 347, 347, 347, 347, 347, 347, 347, 347, 347, 112, 122, 54, 17, 347, 347, 11, 347, 347, 347, 52, 347, 48, 347, 44, 55, 96, 88, 28, 347, 347, 62, 79, 347, 91, 7, 88, 84, 86, 123, 81, 347, 347, 104, 66, 347, 69, 347, 123, 347, 347, 347, 347, 347, 347, 347, 89, 25, 347, 347, 50, 347, 93, 95, 107, 347, 347, 347, 347, 347, 347, 0, 347, 347, 347, 60, 347, 347, 347, 347, 347, 347, 347, 347, 29, 9, 2, 347, 347, 347, 347, 347, 347, 4, 347, 347, 347, 347, 347, 347, 24, 347, 347, 347, 347, 347, 347, 347, 347, 116, 347, 347, 347, 347, 347, 347, 347, 347, 347, 347, 347, 347, 347, 347, 347, 347, 347, 347, 347, 347, 347, 347, 347, 347, 347, 347, 347, 347, 347, 347, 347, 347, 347, 347, 347, 347, 347, 347, 347, 347, 347, 347, 347, 347, 347, 347, 347, 347, 347, 347, 347, 347, 347, 347, 347, 347, 347, 347, 347, 347, 347, 347, 347, 347, 347, 347, 347, 347, 347, 347, 347, 347, 347, 347, 347, 347, 347, 347, 347, 347, 347, 347, 347, 347, 347, 347, 347, 347, 347, 347, 347, 347, 347, 347, 347, 347, 347, 347, 347, 347, 347, 347, 347, 347, 347, 347, 347, 347, 347, 347, 347, 347, 347, 347, 347, 347, 347, 347, 347, 347, 347, 347, 347, 347, 347, 347, 347, 347, 347, 347, 347, 347, 347, 347, 347, 347, 347, 347]

/-- libgst/superop1.inl: `keylist`, entries `((BC1, BC2, ARG), SUPEROP)`; -1 is `none`.  The bytes that the
initialisers leave out are 0. -/
def keylist1 : Array ((Nat × Nat × Nat) × Option Nat) := #[
  ((32, 30, 4), some 197),
  ((0, 0, 0), none),
  ((0, 0, 0), none),
  ((0, 0, 0), none),
  ((0, 0, 0), none),
  ((0, 0, 0), none),
  ((0, 0, 0), none),
  ((0, 0, 0), none),
  ((0, 0, 0), none),
  ((0, 0, 0), none),
  ((0, 0, 0), none),
  ((0, 0, 0), none),
  ((0, 0, 0), none),
  ((0, 0, 0), none),
  ((0, 0, 0), none),
  ((0, 0, 0), none),
  ((0, 0, 0), none),
  ((0, 0, 0), none),
  ((0, 0, 0), none),
  ((0, 0, 0), none),
  ((0, 0, 0), none),
  ((0, 0, 0), none),
  ((0, 0, 0), none),
  ((0, 0, 0), none),
  ((0, 0, 0), none),
  ((0, 0, 0), none),
  ((0, 0, 0), none),
  ((0, 0, 0), none),
  ((0, 0, 0), none),
  ((0, 0, 0), none),
  ((0, 0, 0), none),
  ((0, 0, 0), none),
  ((0, 0, 0), none),
  ((0, 0, 0), none),
  ((0, 0, 0), none),
  ((0, 0, 0), none),
  ((0, 0, 0), none),
  ((0, 0, 0), none),
  ((0, 0, 0), none),
  ((0, 0, 0), none),
  ((0, 0, 0), none),
  ((0, 0, 0), none),
  ((0, 0, 0), none),
  ((0, 0, 0), none),
  ((0, 0, 0), none),
  ((0, 0, 0), none),
  ((0, 0, 0), none),
  ((0, 0, 0), none),
  ((0, 0, 0), none),
  ((0, 0, 0), none),
  ((0, 0, 0), none),
  ((0, 0, 0), none),
  ((0, 0, 0), none),
  ((0, 0, 0), none),
  ((0, 0, 0), none),
  ((0, 0, 0), none),
  ((0, 0, 0), none),
  ((0, 0, 0), none),
  ((0, 0, 0), none),
  ((0, 0, 0), none),
  ((0, 0, 0), none),
  ((0, 0, 0), none),
  ((0, 0, 0), none),
  ((0, 0, 0), none),
  ((0, 0, 0), none),
  ((0, 0, 0), none),
  ((0, 0, 0), none),
  ((0, 0, 0), none),
  ((0, 0, 0), none),
  ((0, 0, 0), none),
  ((0, 0, 0), none),
  ((0, 0, 0), none),
  ((0, 0, 0), none),
  ((0, 0, 0), none),
  ((0, 0, 0), none),
  ((0, 0, 0), none),
  ((0, 0, 0), none),
  ((0, 0, 0), none),
  ((0, 0, 0), none),
  ((0, 0, 0), none),
  ((0, 0, 0), none),
  ((0, 0, 0), none),
  ((0, 0, 0), none),
  ((0, 0, 0), none),
  ((0, 0, 0), none),
  ((0, 0, 0), none),
  ((0, 0, 0), none),
  ((0, 0, 0), none),
  ((0, 0, 0), none),
  ((0, 0, 0), none),
  ((0, 0, 0), none),
  ((0, 0, 0), none),
  ((0, 0, 0), none),
  ((0, 0, 0), none),
  ((0, 0, 0), none),
  ((0, 0, 0), none),
  ((0, 0, 0), none),
  ((0, 0, 0), none),
  ((0, 0, 0), none),
  ((0, 0, 0), none),
  ((0, 0, 0), none),
  ((0, 0, 0), none),
  ((0, 0, 0), none),
  ((0, 0, 0), none),
  ((0, 0, 0), none),
  ((0, 0, 0), none),
  ((0, 0, 0), none),
  ((0, 0, 0), none),
  ((0, 0, 0), none),
  ((0, 0, 0), none),
  ((0, 0, 0), none),
  ((0, 0, 0), none),
  ((0, 0, 0), none),
  ((0, 0, 0), none),
  ((0, 0, 0), none),
  ((0, 0, 0), none),
  ((0, 0, 0), none),
  ((0, 0, 0), none),
  ((0, 0, 0), none),
  ((24, 43, 0), some 93),
  ((0, 0, 0), none),
  ((0, 0, 0), none),
  ((21, 101, 0), some 250),
  ((0, 0, 0), none),
  ((0, 0, 0), none),
  ((21, 43, 0), some 165),
  ((0, 0, 0), none),
  ((0, 0, 0), none),
  ((0, 0, 0), none),
  ((0, 0, 0), none),
  ((0, 0, 0), none),
  ((0, 0, 0), none),
  ((0, 0, 0), none),
  ((0, 0, 0), none),
  ((0, 0, 0), none),
  ((0, 0, 0), none),
  ((0, 0, 0), none),
  ((32, 65, 1), some 217),
  ((0, 0, 0), none),
  ((0, 0, 0), none),
  ((0, 0, 0), none),
  ((0, 0, 0), none),
  ((0, 0, 0), none),
  ((0, 0, 0), none),
  ((0, 0, 0), none),
  ((0, 0, 0), none),
  ((36, 68, 1), some 118),
  ((0, 0, 0), none),
  ((0, 0, 0), none),
  ((0, 0, 0), none),
  ((0, 0, 0), none),
  ((0, 0, 0), none),
  ((0, 0, 0), none),
  ((0, 0, 0), none),
  ((32, 65, 2), some 160),
  ((0, 0, 0), none),
  ((0, 0, 0), none),
  ((79, 64, 1), some 203),
  ((0, 0, 0), none),
  ((0, 0, 0), none),
  ((32, 30, 1), some 98),
  ((0, 0, 0), none),
  ((20, 43, 0), some 86),
  ((36, 68, 2), some 146),
  ((32, 28, 1), some 202),
  ((36, 54, 1), some 157),
  ((0, 0, 0), none),
  ((0, 0, 0), none),
  ((0, 0, 0), none),
  ((52, 94, 0), some 243),
  ((32, 65, 0), some 97),
  ((33, 30, 1), some 194),
  ((0, 0, 0), none),
  ((0, 0, 0), none),
  ((52, 43, 0), some 101),
  ((0, 0, 0), none),
  ((0, 0, 0), none),
  ((32, 30, 2), some 116),
  ((0, 0, 0), none),
  ((36, 68, 0), some 172),
  ((83, 28, 1), some 161),
  ((0, 0, 0), none),
  ((36, 54, 2), some 166),
  ((0, 0, 0), none),
  ((44, 36, 1), some 136),
  ((0, 0, 0), none),
  ((36, 68, 3), some 167),
  ((0, 0, 0), none),
  ((0, 0, 0), none),
  ((32, 32, 0), some 83),
  ((79, 64, 0), some 154),
  ((52, 108, 0), some 240),
  ((52, 65, 0), some 247),
  ((32, 30, 0), some 73),
  ((45, 93, 0), some 145),
  ((0, 0, 0), none),
  ((52, 92, 0), some 180),
  ((32, 28, 0), some 84),
  ((36, 54, 0), some 221),
  ((0, 0, 0), none),
  ((32, 30, 3), some 184),
  ((32, 64, 1), some 119),
  ((46, 30, 1), some 168),
  ((24, 42, 0), some 147),
  ((35, 30, 1), some 213),
  ((36, 54, 3), some 246),
  ((0, 0, 0), none),
  ((32, 71, 1), some 207),
  ((0, 0, 0), none),
  ((70, 30, 1), some 183),
  ((0, 0, 0), none),
  ((0, 0, 0), none),
  ((33, 64, 1), some 196),
  ((0, 0, 0), none),
  ((0, 0, 0), none),
  ((0, 0, 0), none),
  ((0, 0, 0), none),
  ((0, 0, 0), none),
  ((32, 64, 2), some 164),
  ((46, 30, 2), some 230),
  ((0, 0, 0), none),
  ((35, 30, 2), some 222),
  ((0, 0, 0), none),
  ((83, 71, 1), some 208),
  ((0, 0, 0), none),
  ((0, 0, 0), none),
  ((48, 32, 0), some 123),
  ((0, 0, 0), none),
  ((0, 0, 0), none),
  ((0, 0, 0), none),
  ((48, 30, 0), some 107),
  ((32, 46, 0), some 113),
  ((72, 108, 0), some 170),
  ((0, 0, 0), none),
  ((32, 64, 0), some 89),
  ((0, 0, 0), none),
  ((52, 54, 0), some 173),
  ((35, 30, 0), some 219),
  ((0, 0, 0), none),
  ((0, 0, 0), none),
  ((32, 71, 0), some 190),
  ((32, 34, 0), some 220),
  ((0, 0, 0), none),
  ((0, 0, 0), none),
  ((0, 0, 0), none),
  ((0, 0, 0), none),
  ((20, 42, 0), some 130),
  ((45, 39, 0), some 232),
  ((48, 52, 0), some 72),
  ((56, 65, 0), some 74),
  ((0, 0, 0), none),
  ((48, 54, 0), some 102),
  ((0, 0, 0), none),
  ((52, 46, 0), some 251),
  ((0, 0, 0), none),
  ((0, 0, 0), none),
  ((72, 30, 0), some 238),
  ((0, 0, 0), none),
  ((52, 42, 0), some 114),
  ((0, 0, 0), none),
  ((0, 0, 0), none),
  ((48, 40, 0), some 134),
  ((0, 0, 0), none),
  ((0, 0, 0), none),
  ((0, 0, 0), none),
  ((0, 0, 0), none),
  ((0, 0, 0), none),
  ((0, 0, 0), none),
  ((56, 32, 0), some 79),
  ((0, 0, 0), none),
  ((48, 35, 0), some 175),
  ((0, 0, 0), none),
  ((56, 30, 0), some 76),
  ((0, 0, 0), none),
  ((0, 0, 0), none),
  ((0, 0, 0), none),
  ((56, 28, 0), some 105),
  ((72, 54, 0), some 96),
  ((48, 34, 0), some 135),
  ((0, 0, 0), none),
  ((47, 64, 1), some 244),
  ((0, 0, 0), none),
  ((0, 0, 0), none),
  ((0, 0, 0), none),
  ((0, 0, 0), none),
  ((0, 0, 0), none),
  ((0, 0, 0), none),
  ((0, 0, 0), none),
  ((0, 0, 0), none),
  ((0, 0, 0), none),
  ((0, 0, 0), none),
  ((0, 0, 0), none),
  ((0, 0, 0), none),
  ((0, 0, 0), none),
  ((0, 0, 0), none),
  ((0, 0, 0), none),
  ((0, 0, 0), none),
  ((0, 0, 0), none),
  ((0, 0, 0), none),
  ((0, 0, 0), none),
  ((0, 0, 0), none),
  ((0, 0, 0), none),
  ((0, 0, 0), none),
  ((0, 0, 0), none),
  ((0, 0, 0), none),
  ((0, 0, 0), none),
  ((0, 0, 0), none),
  ((0, 0, 0), none),
  ((0, 0, 0), none),
  ((0, 0, 0), none),
  ((56, 46, 0), some 192),
  ((0, 0, 0), none),
  ((0, 0, 0), none),
  ((56, 64, 0), some 171),
  ((0, 0, 0), none),
  ((0, 0, 0), none),
  ((0, 0, 0), none),
  ((0, 0, 0), none),
  ((0, 0, 0), none),
  ((0, 0, 0), none),
  ((0, 0, 0), none),
  ((0, 0, 0), none),
  ((0, 0, 0), none),
  ((0, 0, 0), none),
  ((0, 0, 0), none),
  ((0, 0, 0), none),
  ((0, 0, 0), none),
  ((0, 0, 0), none),
  ((56, 51, 0), some 66),
  ((0, 0, 0), none),
  ((0, 0, 0), none),
  ((0, 0, 0), none),
  ((0, 0, 0), none),
  ((0, 0, 0), none),
  ((0, 0, 0), none),
  ((0, 0, 0), none),
  ((56, 18, 0), some 129),
  ((0, 0, 0), none),
  ((0, 0, 0), none),
  ((0, 0, 0), none),
  ((56, 117, 0), some 174),
  ((0, 0, 0), none),
  ((0, 0, 0), none),
  ((0, 0, 0), none),
  ((0, 0, 0), none),
  ((0, 0, 0), none),
  ((56, 19, 0), some 201)]

/-- libgst/superop2.inl: `MAX_HASH_VALUE`. -/
def maxHash2 : Nat := 336

/-- libgst/superop2.inl: `asso_values`. -/
def asso2 : Array Nat := #[44, 101, 68, 85, 71, 116, 117, 337, 111, 337, 337, 337, 337, 69, 5, 337, 88, 123, 19, 99, 337, 337, 50, 65, 87, 337, 337, 337, 93, 123, 7, 337, 123, 45, 108, 48, 104, 88, 94, 2, 3, 104, 337, 337, 91, 63, 64, 59, 4, 17, 86, 52, 337, 337, 89, 81, 121, 337, 337, 337, 337, 337, 337, 337, 23, 19, 92, 120, 25, 39, 60, 337, 337, 337, 337, 3, 337, 16, 337, 101, 337, 5, 337, 337, 86, 337, 337, 337, 337, 337, 337, 30, 337, 337, 337, 337, 17, 337, 337, 337, 112, 337, 34, 337, 337, 337, 337, 337, 337, 337, 337, 337, 337, 337, 337, 337, 337, 337, 337, 337, 337, 4, 337, 337, 337, 337, 337, 337, 337, 337, 62, 69, 337, 337, 337, 337, 337, 337, 337, 337, 337, 337, 337, 337, 337, 337, 337, 337, 337, 337, 337, 337, 337, 337, 337, 337, 337, 337, 337, 337, 337, 337, 337, 337, 337, 337, 337, 337, 337, 337, 337, 337, 337, 337, 337, 337, 337, 337, 337, 337, 337, 337, 337, 337, 337, 337, 337, 337, 337, 337, 337, 337, 337, 337, 337, 337, 337, 337, 337, 337, 337, 337, 337, 337, 337, 337, 337, 337, 337, 337, 337, 337, 337, 337, 337, 337, 337, 337, 337, 337, 337, 337, 337, 337, 337, 337, 337, 337, 337, 337, 337, 337, 337, 337, 337, 337, 337, 337, 337, 337, 337, 337, 337, 337, 337, 337, 337, 337, 337, 337, 337, 337, 337, 337, 337, 337]

/-- libgst/superop2.inl: `keylist`, entries `((BC1, BC2, ARG), SUPEROP)`; -1 is `none`.  The bytes that the
initialisers leave out are 0. -/
def keylist2 : Array ((Nat × Nat × Nat) × Option Nat) := #[
  ((39, 48, 0), some 120),
  ((0, 0, 0), none),
  ((0, 0, 0), none),
  ((0, 0, 0), none),
  ((0, 0, 0), none),
  ((0, 0, 0), none),
  ((0, 0, 0), none),
  ((0, 0, 0), none),
  ((0, 0, 0), none),
  ((0, 0, 0), none),
  ((0, 0, 0), none),
  ((0, 0, 0), none),
  ((0, 0, 0), none),
  ((0, 0, 0), none),
  ((0, 0, 0), none),
  ((0, 0, 0), none),
  ((0, 0, 0), none),
  ((0, 0, 0), none),
  ((0, 0, 0), none),
  ((0, 0, 0), none),
  ((0, 0, 0), none),
  ((0, 0, 0), none),
  ((0, 0, 0), none),
  ((0, 0, 0), none),
  ((0, 0, 0), none),
  ((0, 0, 0), none),
  ((0, 0, 0), none),
  ((0, 0, 0), none),
  ((0, 0, 0), none),
  ((0, 0, 0), none),
  ((0, 0, 0), none),
  ((0, 0, 0), none),
  ((0, 0, 0), none),
  ((0, 0, 0), none),
  ((0, 0, 0), none),
  ((0, 0, 0), none),
  ((0, 0, 0), none),
  ((0, 0, 0), none),
  ((0, 0, 0), none),
  ((0, 0, 0), none),
  ((0, 0, 0), none),
  ((0, 0, 0), none),
  ((0, 0, 0), none),
  ((0, 0, 0), none),
  ((0, 0, 0), none),
  ((0, 0, 0), none),
  ((0, 0, 0), none),
  ((0, 0, 0), none),
  ((0, 0, 0), none),
  ((0, 0, 0), none),
  ((0, 0, 0), none),
  ((0, 0, 0), none),
  ((0, 0, 0), none),
  ((0, 0, 0), none),
  ((0, 0, 0), none),
  ((0, 0, 0), none),
  ((0, 0, 0), none),
  ((0, 0, 0), none),
  ((0, 0, 0), none),
  ((0, 0, 0), none),
  ((0, 0, 0), none),
  ((0, 0, 0), none),
  ((0, 0, 0), none),
  ((0, 0, 0), none),
  ((0, 0, 0), none),
  ((0, 0, 0), none),
  ((0, 0, 0), none),
  ((0, 0, 0), none),
  ((0, 0, 0), none),
  ((0, 0, 0), none),
  ((0, 0, 0), none),
  ((0, 0, 0), none),
  ((0, 0, 0), none),
  ((0, 0, 0), none),
  ((0, 0, 0), none),
  ((0, 0, 0), none),
  ((0, 0, 0), none),
  ((0, 0, 0), none),
  ((0, 0, 0), none),
  ((0, 0, 0), none),
  ((0, 0, 0), none),
  ((0, 0, 0), none),
  ((0, 0, 0), none),
  ((0, 0, 0), none),
  ((0, 0, 0), none),
  ((0, 0, 0), none),
  ((0, 0, 0), none),
  ((0, 0, 0), none),
  ((46, 30, 49), some 117),
  ((0, 0, 0), none),
  ((0, 0, 0), none),
  ((0, 0, 0), none),
  ((0, 0, 0), none),
  ((0, 0, 0), none),
  ((0, 0, 0), none),
  ((0, 0, 0), none),
  ((0, 0, 0), none),
  ((0, 0, 0), none),
  ((39, 51, 0), some 248),
  ((68, 91, 0), some 234),
  ((121, 51, 0), some 214),
  ((0, 0, 0), none),
  ((0, 0, 0), none),
  ((0, 0, 0), none),
  ((0, 0, 0), none),
  ((0, 0, 0), none),
  ((0, 0, 0), none),
  ((0, 0, 0), none),
  ((0, 0, 0), none),
  ((0, 0, 0), none),
  ((0, 0, 0), none),
  ((35, 18, 0), some 206),
  ((0, 0, 0), none),
  ((0, 0, 0), none),
  ((0, 0, 0), none),
  ((44, 30, 96), some 122),
  ((0, 0, 0), none),
  ((0, 0, 0), none),
  ((0, 0, 0), none),
  ((0, 0, 0), none),
  ((0, 0, 0), none),
  ((0, 0, 0), none),
  ((0, 0, 0), none),
  ((0, 0, 0), none),
  ((0, 0, 0), none),
  ((46, 49, 0), some 70),
  ((0, 0, 0), none),
  ((0, 0, 0), none),
  ((0, 0, 0), none),
  ((102, 30, 37), some 215),
  ((67, 30, 40), some 155),
  ((0, 0, 0), none),
  ((0, 0, 0), none),
  ((0, 0, 0), none),
  ((0, 0, 0), none),
  ((69, 51, 0), some 252),
  ((54, 75, 0), some 185),
  ((54, 48, 0), some 68),
  ((39, 66, 0), some 80),
  ((0, 0, 0), none),
  ((44, 14, 0), some 159),
  ((0, 0, 0), none),
  ((0, 0, 0), none),
  ((0, 0, 0), none),
  ((35, 51, 0), some 124),
  ((0, 0, 0), none),
  ((0, 0, 0), none),
  ((0, 0, 0), none),
  ((0, 0, 0), none),
  ((0, 0, 0), none),
  ((0, 0, 0), none),
  ((70, 64, 2), some 187),
  ((36, 48, 0), some 78),
  ((0, 0, 0), none),
  ((70, 64, 4), some 212),
  ((46, 64, 2), some 137),
  ((68, 91, 1), some 245),
  ((0, 0, 0), none),
  ((46, 64, 4), some 204),
  ((45, 51, 0), some 75),
  ((46, 51, 0), some 128),
  ((0, 0, 0), none),
  ((0, 0, 0), none),
  ((0, 0, 0), none),
  ((0, 0, 0), none),
  ((46, 30, 38), some 110),
  ((0, 0, 0), none),
  ((0, 0, 0), none),
  ((70, 64, 3), some 178),
  ((0, 0, 0), none),
  ((0, 0, 0), none),
  ((0, 0, 0), none),
  ((46, 64, 3), some 144),
  ((54, 77, 2), some 255),
  ((68, 35, 1), some 228),
  ((46, 30, 36), some 92),
  ((69, 28, 0), some 158),
  ((46, 131, 0), some 239),
  ((0, 0, 0), none),
  ((44, 0, 0), some 81),
  ((0, 0, 0), none),
  ((54, 35, 0), some 109),
  ((0, 0, 0), none),
  ((0, 0, 0), none),
  ((70, 64, 1), some 236),
  ((35, 28, 0), some 140),
  ((32, 18, 0), some 104),
  ((44, 51, 0), some 189),
  ((46, 64, 1), some 94),
  ((67, 30, 130), some 218),
  ((68, 56, 0), some 95),
  ((0, 0, 0), none),
  ((68, 32, 0), some 126),
  ((45, 50, 0), some 226),
  ((55, 33, 2), some 152),
  ((46, 24, 0), some 235),
  ((0, 0, 0), none),
  ((54, 46, 0), some 179),
  ((0, 0, 0), none),
  ((70, 64, 5), some 210),
  ((70, 64, 6), some 225),
  ((0, 0, 0), none),
  ((44, 30, 41), some 198),
  ((44, 2, 0), some 150),
  ((44, 13, 0), some 182),
  ((54, 35, 2), some 149),
  ((54, 77, 1), some 181),
  ((67, 65, 2), some 223),
  ((54, 35, 4), some 193),
  ((0, 0, 0), none),
  ((0, 0, 0), none),
  ((32, 0, 0), some 133),
  ((0, 0, 0), none),
  ((67, 30, 84), some 176),
  ((0, 0, 0), none),
  ((0, 0, 0), none),
  ((68, 32, 2), some 224),
  ((32, 22, 0), some 142),
  ((55, 28, 0), some 65),
  ((32, 51, 0), some 91),
  ((44, 3, 0), some 141),
  ((44, 30, 32), some 103),
  ((54, 35, 3), some 163),
  ((44, 16, 0), some 111),
  ((67, 65, 3), some 249),
  ((46, 6, 0), some 99),
  ((32, 47, 0), some 209),
  ((55, 33, 1), some 77),
  ((67, 46, 0), some 127),
  ((32, 81, 1), some 108),
  ((0, 0, 0), none),
  ((46, 17, 0), some 151),
  ((32, 23, 0), some 188),
  ((68, 32, 3), some 237),
  ((0, 0, 0), none),
  ((54, 33, 1), some 139),
  ((44, 1, 0), some 100),
  ((0, 0, 0), none),
  ((54, 35, 1), some 112),
  ((0, 0, 0), none),
  ((67, 65, 1), some 195),
  ((54, 34, 0), some 82),
  ((55, 28, 2), some 71),
  ((102, 34, 1), some 242),
  ((0, 0, 0), none),
  ((55, 28, 4), some 199),
  ((44, 8, 0), some 148),
  ((0, 0, 0), none),
  ((55, 29, 0), some 231),
  ((68, 32, 1), some 125),
  ((0, 0, 0), none),
  ((44, 5, 0), some 227),
  ((44, 6, 0), some 87),
  ((54, 35, 5), some 186),
  ((54, 56, 0), some 67),
  ((32, 16, 0), some 115),
  ((54, 32, 0), some 69),
  ((67, 28, 0), some 90),
  ((44, 17, 0), some 253),
  ((55, 28, 3), some 88),
  ((0, 0, 0), none),
  ((0, 0, 0), none),
  ((0, 0, 0), none),
  ((67, 19, 0), some 216),
  ((0, 0, 0), none),
  ((54, 34, 2), some 177),
  ((32, 19, 0), some 254),
  ((0, 0, 0), none),
  ((32, 1, 0), some 143),
  ((0, 0, 0), none),
  ((55, 37, 1), some 121),
  ((0, 0, 0), none),
  ((0, 0, 0), none),
  ((0, 0, 0), none),
  ((0, 0, 0), none),
  ((55, 28, 1), some 64),
  ((0, 0, 0), none),
  ((0, 0, 0), none),
  ((0, 0, 0), none),
  ((0, 0, 0), none),
  ((54, 32, 2), some 106),
  ((0, 0, 0), none),
  ((54, 34, 3), some 229),
  ((54, 32, 4), some 241),
  ((32, 6, 0), some 169),
  ((44, 28, 1), some 205),
  ((0, 0, 0), none),
  ((67, 32, 0), some 162),
  ((0, 0, 0), none),
  ((0, 0, 0), none),
  ((32, 17, 0), some 131),
  ((0, 0, 0), none),
  ((0, 0, 0), none),
  ((0, 0, 0), none),
  ((0, 0, 0), none),
  ((79, 28, 1), some 233),
  ((0, 0, 0), none),
  ((54, 32, 3), some 138),
  ((54, 34, 1), some 132),
  ((0, 0, 0), none),
  ((0, 0, 0), none),
  ((0, 0, 0), none),
  ((0, 0, 0), none),
  ((0, 0, 0), none),
  ((0, 0, 0), none),
  ((55, 29, 1), some 211),
  ((0, 0, 0), none),
  ((67, 84, 1), some 153),
  ((0, 0, 0), none),
  ((0, 0, 0), none),
  ((0, 0, 0), none),
  ((0, 0, 0), none),
  ((0, 0, 0), none),
  ((54, 32, 1), some 85),
  ((32, 32, 2), some 200),
  ((0, 0, 0), none),
  ((0, 0, 0), none),
  ((0, 0, 0), none),
  ((0, 0, 0), none),
  ((0, 0, 0), none),
  ((0, 0, 0), none),
  ((0, 0, 0), none),
  ((0, 0, 0), none),
  ((0, 0, 0), none),
  ((0, 0, 0), none),
  ((0, 0, 0), none),
  ((0, 0, 0), none),
  ((0, 0, 0), none),
  ((0, 0, 0), none),
  ((0, 0, 0), none),
  ((0, 0, 0), none),
  ((32, 32, 3), some 156),
  ((0, 0, 0), none),
  ((0, 0, 0), none),
  ((0, 0, 0), none),
  ((0, 0, 0), none),
  ((32, 100, 1), some 191)]

end Verif.Bytecode
