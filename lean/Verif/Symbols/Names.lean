import Verif.Symbols.Theorems

/-! # The names that the virtual machine starts with, and the number of arguments of selectors -/

namespace Verif.Symbols

/-- `sym_info`, libgst/sym.c l. 263–323. -/
def symInfo : List String :=
  ["and:", "asScaledDecimal:radix:scale:", "badReturnError", "byteArray", "byteArrayOut", "boolean",
   "cObject", "cObjectPtr", "category:", "char", "uChar", "doesNotUnderstand:", "float", "double", "false",
   "ifFalse:ifTrue:", "ifFalse:", "ifTrue:ifFalse:", "ifTrue:", "int", "uInt", "longDouble", "long", "uLong",
   "mustBeBoolean", "nil", "or:", "primitive:", "repeat", "self", "selfSmalltalk", "short", "uShort",
   "smalltalk", "Smalltalk", "stringOut", "string", "super", "symbol", "symbolOut", "__terminate",
   "timesRepeat:", "to:by:do:", "to:do:", "true", "Undeclared", "unknown",
   "valueWithReceiver:withArguments:", "variadic", "variadicSmalltalk", "VMPrimitives", "void", "wchar",
   "wstring", "wstringOut", "whileFalse:", "whileFalse", "whileTrue:", "whileTrue"]

/-- The keywords of libgst/builtins.gperf, l. 39–289, in the order of that file; `_gst_init_symbols_pass1` takes them in the order of
gperf's hash table. -/
def builtins : List String :=
  ["+", "-", "<", ">", "<=", ">=", "=", "~=", "*", "/", "\\\\", "bitXor:", "bitShift:", "//", "bitAnd:",
   "bitOr:", "at:", "at:put:", "size", "class", "isNil", "notNil", "value", "value:", "==", "javaAsInt",
   "javaAsLong", "new:", "thisContext", "callInto:", "narrow", "nextPutAll:", "yourself", ",", "on:",
   "subclassResponsibility", "add:", "nl", "printString", "contents", "name", "isEmpty", "properties",
   "container", "error:", "first", "tclEval:", "collect:", "tclResult", "key", "asTkString", "abs",
   "basicNew", "negated", "not", "close", "includes:", "at:ifAbsent:", "asSymbol", "with:", "copy",
   "copyFrom:to:", "print:", "last", "initialize", "tclEval:with:with:", "assert:", "primitiveFailed",
   "initialize:", "asString", "cr", "should:", "arguments", "x", "readStream", "y",
   "tclEval:with:with:with:", "asInteger", "space", "new", "shouldNotImplement", "->", "numArgs",
   "with:with:", "species", "blox", "step", "signal", "parent", "selector", "at:ifPresent:", "to:",
   "addLast:", "squared", "generality", "signalOn:mustBe:", "ensure:", "body", "max:", "keysAndValuesDo:",
   "printOn:", "isKindOf:", "visitNode:", "addAll:", "isInteger", "name:", "hash", "sqrt", "beep", "primAt:",
   "environment", "position", "at:ifAbsentPut:", "signal:", "postCopy", "readFrom:", "coefficients:",
   "clientPI", "flush", "value:value:", "asFloatD", "on:do:", "basicAt:put:", "primSize", "evaluate",
   "connected", "reset", "copyEmpty:", "start", "signalOn:", "basicAt:", "asClass", "ln", "implementation",
   "checkResponse", "average", "upTo:", "receiver", "peek", "basicSize", "x:y:", "foregroundColor:", "rows:",
   "text", "exp", "statements", "body:", "|", "sizeof", "includesKey:", "pi", "completedSuccessfully",
   "writeStream", "superclass", "arguments:", "state", "truncated", "inject:into:",
   "replaceFrom:to:with:startingAt:", "current", "between:and:", "retryRelationalOp:coercing:",
   "connectIfClosed", "detect:ifNone:", "checkError", "executeAndWait:arguments:", "min:", "width",
   "parentContext", "removeLast", "zero", "bindWith:with:", "temporaries", "asOop", "width:height:",
   "methodDictionary", "accumulate:", "count", "asLowercase", "asArray", "exists", "signalOn:what:",
   "select:", "parent:", "selector:", "signalOn:withIndex:", "bind:to:of:parameters:", "return:", "~~",
   "changeState:", "sign", "variance", "asVector", "getResponse", "wait", "instanceClass",
   "asOrderedCollection", "keys", "asFloat", "random", "origin", "superspace", "stop", "perform:",
   "backgroundColor:", "login", "data:", "nextToken", "primAt:put:", "method", "allSatisfy:", "position:",
   "default", "atAllPut:", "asSortedCollection", "invalidArgsError:", "nameIn:", "allSubclassesDo:",
   "signalError", "height", "source", "asNumber", "primitive", "store:", "updateViews", "errorContents:",
   "displayString", "skipSeparators", "origin:corner:", "activeProcess", "bindWith:", "beConsistent",
   "at:type:", "skip:", "days", "tclEval:with:", "fromSeconds:", "&", "upToEnd", "variable", "become:",
   "with:do:", "findIndexOrNil:", "asSeconds", "copyWith:", "background", "status",
   "selectors:receiver:argument:", "create:", "coerce:", "bytecodeAt:"]

/-- The bytes of an ASCII string. -/
def bytes (s : String) : List Nat := s.toList.map Char.toNat

def vmNames : List (List Nat) := (symInfo ++ builtins).map bytes

/-- No name occurs twice, in neither of the two tables nor in both. -/
theorem names_nodup : vmNames.Nodup := by decide +kernel

theorem names_plain : ∀ s ∈ vmNames, Plain s := by unfold Plain; decide +kernel

/-- The name of a selector or keyword of the virtual machine is always interned as the symbol that the virtual
machine compares with, in whichever order the tables are taken. -/
theorem vm_symbols {signed : Bool} {names : List (List Nat)} (hp : names.Perm vmNames) {k : Nat} {s : List Nat}
    (hk : names[k]? = some s) {st : State} (hl : Later signed k (init signed names) st) : (intern signed st s).2 = k :=
  builtin_found (hp.nodup_iff.mpr names_nodup) (fun s hs => names_plain s (hp.mem_iff.mp hs)) hk hl

example : (intern true (intern true (init true vmNames) (bytes "foo")).1 (bytes "value:")).2 = 82 :=
  vm_symbols (.refl _) (by decide +kernel) (.intern .refl)

/-! ## Selectors -/

/-- A letter of the ASCII alphabet. -/
def Letter (c : Nat) : Prop := (65 ≤ c ∧ c ≤ 90) ∨ (97 ≤ c ∧ c ≤ 122)

/-- A name: a letter, then letters, digits and underscores. -/
def Name (s : List Nat) : Prop :=
  ∃ c cs, s = c :: cs ∧ Letter c ∧ ∀ d ∈ cs, Letter d ∨ (48 ≤ d ∧ d ≤ 57) ∨ d = 95

/-- The characters of operators. -/
def Operator (s : List Nat) : Prop := s ≠ [] ∧ ∀ c ∈ s, c ∈ bytes "%&*+,-/<=>?@\\|~"

/-- The selectors and how many arguments they take; the keywords of those that have keywords. -/
inductive Selector : List Nat → Nat → List (List Nat) → Prop where
  | unary : Name s → Selector s 0 [s]
  | binary : Operator s → Selector s 1 [s]
  | keyword : ps ≠ [] → (∀ p ∈ ps, Name p) → Selector (ps.flatMap (· ++ [58])) ps.length (ps.map (· ++ [58]))

theorem letter_iff {c : Nat} : isLetter c = true ↔ Letter c := by
  simp [isLetter, Letter]

theorem lu_iff {c : Nat} : letterOrUnderscore c = true ↔ Letter c ∨ c = 95 := by
  simp [letterOrUnderscore, Letter]

theorem name_no_colon {s : List Nat} (h : Name s) : colon ∉ s := by
  obtain ⟨c, cs, rfl, hc, hcs⟩ := h
  intro hm
  rw [List.mem_cons] at hm
  unfold Letter colon at *
  rcases hm with rfl | hm
  · omega
  · have := hcs 58 hm; omega

theorem op_props {s : List Nat} (h : Operator s) : ∀ c ∈ s, letterOrUnderscore c = false ∧ c ≠ colon ∧ isLetter c = false := by
  have key : ∀ c ∈ bytes "%&*+,-/<=>?@\\|~", letterOrUnderscore c = false ∧ c ≠ colon ∧ isLetter c = false := by
    decide +kernel
  exact fun c hc => key c (h.2 c hc)

theorem count_keyword : ∀ {ps : List (List Nat)}, (∀ p ∈ ps, Name p) → (ps.flatMap (· ++ [58])).count colon = ps.length
  | [], _ => rfl
  | p :: ps, h => by
    have ih := @count_keyword ps fun q hq => h q (List.mem_cons_of_mem _ hq)
    have := List.count_eq_zero.mpr (name_no_colon (h p List.mem_cons_self))
    rw [List.flatMap_cons, List.count_append, List.count_append, ih, this]
    simp [colon]
    omega

theorem keyword_last : ∀ {ps : List (List Nat)}, ps ≠ [] → (ps.flatMap (· ++ [58])).getLast? = some colon
  | [p], _ => by simp [colon]
  | p :: q :: ps, _ => by
    have ih := @keyword_last (q :: ps) (by simp)
    rw [List.flatMap_cons, List.getLast?_append, ih]
    rfl

theorem keyword_head {ps : List (List Nat)} (h : ps ≠ []) (hn : ∀ p ∈ ps, Name p) :
    ∃ c r, ps.flatMap (· ++ [58]) = c :: r ∧ Letter c := by
  match ps, h with
  | p :: ps, _ =>
    obtain ⟨c, cs, rfl, hc, -⟩ := hn p List.mem_cons_self
    exact ⟨c, _, by simp; rfl, hc⟩

theorem pieces_name : ∀ (p acc r : List Nat), colon ∉ p → acc ++ p ≠ [] →
    pieces (p ++ colon :: r) acc = (acc ++ p) :: pieces r []
  | [], acc, r, _, h => by
    have : acc.isEmpty = false := by cases acc <;> simp_all
    simp [pieces, this]
  | c :: p, acc, r, hc, h => by
    have hne : c ≠ colon := fun e => hc (e ▸ List.mem_cons_self)
    have ih := pieces_name p (acc ++ [c]) r (fun hm => hc (List.mem_cons_of_mem _ hm)) (by simp)
    rw [List.cons_append, pieces, if_neg hne, ih]
    simp

theorem pieces_keyword : ∀ {ps : List (List Nat)}, (∀ p ∈ ps, Name p) → pieces (ps.flatMap (· ++ [58])) [] = ps
  | [], _ => rfl
  | p :: ps, h => by
    have ih := @pieces_keyword ps fun q hq => h q (List.mem_cons_of_mem _ hq)
    obtain ⟨c, cs, hp, -, -⟩ := h p List.mem_cons_self
    have := pieces_name p [] (ps.flatMap (· ++ [58])) (name_no_colon (h p List.mem_cons_self)) (by simp [hp])
    rw [List.flatMap_cons, List.append_assoc]
    simp only [List.nil_append] at this
    show pieces (p ++ colon :: ps.flatMap (· ++ [58])) [] = _
    rw [this, ih]

/-- For every selector, `numArgs` in Smalltalk and the test of calls from C agree on the number of
arguments, and `keywords` answers its keywords. -/
theorem selector_args {s : List Nat} {n : Nat} {ks : List (List Nat)} (h : Selector s n ks) :
    numArgs s = some n ∧ vmNumArgs s = n ∧ keywords s = some ks := by
  cases h with
  | unary h =>
    have hn := name_no_colon h
    obtain ⟨c, cs, rfl, hc, hcs⟩ := h
    have hl : (c :: cs).getLast? ≠ some colon := fun e => hn (List.mem_of_getLast? e)
    have hlu : letterOrUnderscore c = true := lu_iff.mpr (.inl hc)
    refine ⟨?_, ?_, ?_⟩
    · unfold numArgs
      cases e : (c :: cs).getLast? with
      | none => simp at e
      | some d =>
        simp only []
        rw [if_neg (fun hd => hl (by rw [e, hd])), if_pos (by simp [hlu])]
    · unfold vmNumArgs
      simp only [hlu, if_true]
      exact List.count_eq_zero.mpr hn
    · unfold keywords
      simp only [letter_iff.mpr hc, if_true, if_neg hl]
  | binary h =>
    have hp := op_props h
    obtain ⟨h0, -⟩ := h
    match s, h0 with
    | c :: cs, _ =>
      have hc := hp c List.mem_cons_self
      refine ⟨?_, ?_, ?_⟩
      · unfold numArgs
        cases e : (c :: cs).getLast? with
        | none => simp at e
        | some d =>
          simp only []
          rw [if_neg (hp d (List.mem_of_getLast? e)).2.1, if_neg]
          simp only [List.any_eq_true, not_exists, not_and]
          intro x hx
          simp [(hp x hx).1]
      · simp [vmNumArgs, hc.1]
      · simp [keywords, hc.2.2]
  | @keyword ps h0 hn =>
    obtain ⟨c, r, e, hc⟩ := keyword_head h0 hn
    have hl := keyword_last h0
    have hcount := count_keyword hn
    have hpi := pieces_keyword hn
    refine ⟨?_, ?_, ?_⟩
    · unfold numArgs
      rw [hl]
      simp only [if_true, hcount]
    · rw [e] at hcount
      rw [e]
      simp only [vmNumArgs, lu_iff.mpr (.inl hc), if_true, hcount]
    · rw [e] at hpi hl
      rw [e]
      simp only [keywords, letter_iff.mpr hc, if_true, if_pos hl, hpi]
      rfl

example : Selector (bytes "at:put:") 2 [bytes "at:", bytes "put:"] :=
  .keyword (ps := [bytes "at", bytes "put"]) (by decide) (by
    intro p hp
    simp only [List.mem_cons, List.not_mem_nil, or_false] at hp
    rcases hp with rfl | rfl
    · exact ⟨97, [116], by decide +kernel, by unfold Letter; omega, by unfold Letter; decide⟩
    · exact ⟨112, [117, 116], by decide +kernel, by unfold Letter; omega, by unfold Letter; decide⟩)

/-- For symbols that are no selectors the two disagree. -/
theorem args_differ : vmNumArgs (bytes "foo:bar") = 1 ∧ numArgs (bytes "foo:bar") = some 0 := by decide +kernel

end Verif.Symbols
