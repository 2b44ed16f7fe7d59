import Verif.Callout.Model
import Mathlib.Data.Nat.Notation
import Mathlib.Logic.Basic
import Mathlib.Tactic.Push

/-! # Calls to C functions -/

namespace Verif.Callout

theorem Kind.mem_all (k : Kind) : k ∈ Kind.all := by cases k <;> decide

theorem CT.mem_all (t : CT) : t ∈ CT.all := by cases t <;> decide

/-- What holds for all classes and types. -/
theorem all_pairs {P : Kind → CT → Prop} (h : ∀ k ∈ Kind.all, ∀ t ∈ CT.all, P k t) (k : Kind) (t : CT) : P k t := h k k.mem_all t t.mem_all

/-! ### C193: the documented conversions (doc/gst.texi:3400-3442) -/

/-- The column "C parameter type used". -/
inductive DocC where
  | int | uInt | long | uLong | charPtr | voidPtr | voidPtrPtr | double | longDouble | oop | wcharPtr | wchar
deriving DecidableEq

/-- The parameter is one: libffi passes the type, and it is made from the object in the way that the type says. -/
def DocC.is : DocC → Ffi × Form → Bool
  | .int, (.sint, .truth) | .int, (.sint, .code) | .int, (.sint, .int) | .int, (.sint, .char) => true
  | .uInt, (.sint, .truth) | .uInt, (.sint, .uInt) => true
  | .long, (.sint64, .truth) | .long, (.sint64, .long) => true
  | .uLong, (.sint64, .truth) | .uLong, (.sint64, .long) => true
  | .charPtr, (.pointer, .copyString) | .charPtr, (.pointer, .copyBytes) => true
  | .voidPtr, (.pointer, .address) | .voidPtr, (.pointer, .inside) => true
  | .voidPtrPtr, (.pointer, .indirect) => true
  | .double, (.double, .double) => true
  | .longDouble, (.longDouble, .longDouble) => true
  | .oop, (.pointer, .oop) => true
  | .wcharPtr, (.pointer, .copyWide) => true
  | .wchar, (.sint, .code) => true
  | _, _ => false

/-- The rows; "Integer" are both kinds, "Character" includes UnicodeCharacter only for `#wchar`, "anything else" is what has no row. -/
def table : List (CT × List Kind × DocC) :=
  [(.boolean, [.bool], .int), (.byteArray, [.byteArray], .charPtr), (.cObject, [.cObject], .voidPtr),
   (.cObject, [.byteArray, .string, .symbol, .subString, .unicodeString, .subUnicodeString, .indexed], .voidPtr),
   (.cObjectPtr, [.cObject], .voidPtrPtr), (.char, [.bool], .int), (.char, [.character], .int), (.char, [.smallInt, .largeInt], .int),
   (.double, [.float], .double), (.longDouble, [.float], .longDouble), (.int, [.bool], .int), (.int, [.smallInt, .largeInt], .int),
   (.uInt, [.bool], .uInt), (.uInt, [.smallInt, .largeInt], .uInt), (.long, [.bool], .long), (.long, [.smallInt, .largeInt], .long),
   (.uLong, [.bool], .uLong), (.uLong, [.smallInt, .largeInt], .uLong), (.smalltalk, Kind.all, .oop),
   (.string, [.string], .charPtr), (.string, [.symbol], .charPtr), (.stringOut, [.string], .charPtr), (.symbol, [.symbol], .charPtr),
   (.unknown, [.bool], .int), (.unknown, [.byteArray], .charPtr), (.unknown, [.cObject], .voidPtr), (.unknown, [.character], .int),
   (.unknown, [.float], .double), (.unknown, [.smallInt, .largeInt], .long), (.unknown, [.string], .charPtr), (.unknown, [.symbol], .charPtr),
   (.unknown, [.indexed, .array, .other], .oop), (.wchar, [.character, .unicodeCharacter], .wchar), (.wstring, [.unicodeString], .wcharPtr),
   (.wstringOut, [.unicodeString], .wcharPtr)]

/-- What is accepted and has no row. -/
def extra : List (CT × List Kind) :=
  [(.uChar, [.smallInt, .largeInt, .bool, .character]), (.short, [.smallInt, .largeInt, .bool]), (.uShort, [.smallInt, .largeInt, .bool]),
   (.longLong, [.smallInt, .largeInt, .bool]), (.uLongLong, [.smallInt, .largeInt, .bool]), (.float, [.smallInt, .largeInt, .float]),
   (.double, [.smallInt, .largeInt]), (.cObject, [.largeInt, .float, .nil]), (.cObjectPtr, [.nil]), (.byteArray, [.string, .nil]),
   (.byteArrayOut, [.byteArray, .string, .nil]), (.string, [.byteArray, .nil]), (.stringOut, [.byteArray, .nil]), (.symbol, [.nil]),
   (.unknown, [.nil, .unicodeCharacter, .unicodeString])]

/-- Missing: instances of subclasses of String and of UnicodeString, which are Strings (see `subclass_fails`).

Arguments are converted as the table says. -/
theorem documented_partial (row : CT × List Kind × DocC) (hr : row ∈ table) (k : Kind) (hk : k ∈ row.2.1) :
    ∃ c, convert k row.1 = some c ∧ row.2.2.is c = true := by
  have h : ∀ row ∈ table, ∀ k ∈ row.2.1, ((convert k row.1).any row.2.2.is) = true := by decide +kernel
  have := h row hr k hk
  cases hc : convert k row.1 with
  | none => rw [hc] at this; cases this
  | some c => rw [hc] at this; exact ⟨c, rfl, this⟩

/-- What is in neither list is refused. -/
theorem refused (k : Kind) (t : CT) : (convert k t).isSome = true ↔ (∃ row ∈ table, row.1 = t ∧ k ∈ row.2.1) ∨ ∃ row ∈ extra, row.1 = t ∧ k ∈ row.2 := by
  refine all_pairs (P := fun k t => (convert k t).isSome = true ↔ (∃ row ∈ table, row.1 = t ∧ k ∈ row.2.1) ∨ ∃ row ∈ extra, row.1 = t ∧ k ∈ row.2) ?_ k t
  decide +kernel

/-- A String of a subclass is refused even where anything is to be passed. -/
theorem subclass_fails : convert .subString .string = none ∧ convert .subString .unknown = none ∧ convert .subUnicodeString .unknown = none := by
  decide

/-- The names of the types, as in the manual. -/
def CT.name : CT → String
  | .char => "char" | .uChar => "uChar" | .short => "short" | .uShort => "uShort" | .long => "long" | .uLong => "uLong" | .float => "float"
  | .double => "double" | .string => "string" | .smalltalk => "smalltalk" | .int => "int" | .uInt => "uInt" | .longDouble => "longDouble"
  | .unknown => "unknown" | .stringOut => "stringOut" | .symbol => "symbol" | .byteArray => "byteArray" | .byteArrayOut => "byteArrayOut"
  | .boolean => "boolean" | .void => "void" | .variadic => "variadic" | .variadicSmalltalk => "variadicSmalltalk" | .cObject => "cObject"
  | .cObjectPtr => "cObjectPtr" | .self => "self" | .selfSmalltalk => "selfSmalltalk" | .wchar => "wchar" | .wstring => "wstring"
  | .wstringOut => "wstringOut" | .symbolOut => "symbolOut" | .longLong => "longLong" | .uLongLong => "uLongLong"

/-- The numbers that Smalltalk stores for the names are those of C. -/
theorem names (t : CT) : returnTypeMap[t.ctorIdx]? = some t.name ∧ returnTypeMap.Nodup := by
  refine ⟨?_, by decide⟩
  cases t <;> rfl

/-! ### C194: the parameters of a call -/

/-- The parameters that the declared types ask for, with the types; `none` when there is no argument, or no Array for `#variadic`. -/
def expected (receiver : Arg) : List CT → List Arg → Option (List (Ref × CT))
  | [], _ => some []
  | t :: ts, as =>
    if t = .void then expected receiver ts as
    else if t = .self then (expected receiver ts as).map ((receiver.ref, .unknown) :: ·)
    else if t = .selfSmalltalk then (expected receiver ts as).map ((receiver.ref, .smalltalk) :: ·)
    else match as with
      | [] => none
      | a :: as =>
        if t = .variadic ∨ t = .variadicSmalltalk then match a with
          | .obj _ => none
          | .arr _ es => (expected receiver ts as).map (es.map (fun e => (e, if t = .variadic then CT.unknown else .smalltalk)) ++ ·)
        else (expected receiver ts as).map ((a.ref, t) :: ·)

/-- Some parameters up to the first that is refused. -/
def convertAll : List (Ref × CT) → List Param × Bool
  | [] => ([], true)
  | x :: xs => match pushOne x.1 x.2 with
    | none => ([], false)
    | some p => let y := convertAll xs; (p :: y.1, y.2)

/-- One more parameter. -/
def consParam (p : Option Param) (y : List Param × Bool) : List Param × Bool :=
  match p with
  | none => ([], false)
  | some p => (p :: y.1, y.2)

theorem convertAll_cons (x : Ref × CT) (xs : List (Ref × CT)) : convertAll (x :: xs) = consParam (pushOne x.1 x.2) (convertAll xs) := rfl

theorem pushAll_cons (t : CT) (r : Ref) (rs : List Ref) : pushAll t (r :: rs) = consParam (pushOne r t) (pushAll t rs) := rfl

theorem convertAll_append (a b : List (Ref × CT)) : convertAll (a ++ b) =
    if (convertAll a).2 then ((convertAll a).1 ++ (convertAll b).1, (convertAll b).2) else convertAll a := by
  induction a with
  | nil => rfl
  | cons x a ih =>
    rw [List.cons_append, convertAll_cons, convertAll_cons]
    cases pushOne x.1 x.2 with
    | none => rfl
    | some p =>
      show (p :: (convertAll (a ++ b)).1, (convertAll (a ++ b)).2) = if (convertAll a).2 then _ else _
      rw [ih]
      cases h : (convertAll a).2 with
      | true => rfl
      | false =>
        show (p :: (convertAll a).1, (convertAll a).2) = (p :: (convertAll a).1, (convertAll a).2)
        rfl

theorem pushAll_eq (t : CT) (es : List Ref) : pushAll t es = convertAll (es.map fun e => (e, t)) := by
  induction es with
  | nil => rfl
  | cons e es ih =>
    rw [pushAll_cons, List.map_cons, convertAll_cons, ih]

theorem push_one (a : Arg) (t : CT) (h : ¬ (t = .variadic ∨ t = .variadicSmalltalk)) : push a t = convertAll [(a.ref, t)] := by
  unfold push
  rw [if_neg h]
  show _ = match pushOne a.ref t with
    | none => ([], false)
    | some p => (p :: (convertAll []).1, (convertAll []).2)
  cases pushOne a.ref t <;> rfl

/-- The pieces of a list, one after the other. -/
theorem thenRest_eq (x l : List (Ref × CT)) (rest : Option (List Param × Bool)) (h : rest = some (convertAll l)) :
    pushArgs.thenRest (convertAll x) rest = some (convertAll (x ++ l)) := by
  unfold pushArgs.thenRest
  rw [convertAll_append, h]
  split <;> rfl

theorem pushArgs_eq (receiver : Arg) : ∀ (ts : List CT) (as : List Arg) (l : List (Ref × CT)), expected receiver ts as = some l →
    pushArgs receiver ts as = some (convertAll l) := by
  intro ts
  induction ts with
  | nil => intro as l h; cases h; cases as <;> rfl
  | cons t ts ih =>
    intro as l h
    unfold expected at h
    by_cases h1 : t = .void
    · subst h1; rw [if_pos rfl] at h
      have := ih as l h
      cases as <;> exact this
    · rw [if_neg h1] at h
      by_cases h2 : t = .self
      · subst h2
        rw [if_pos rfl] at h
        obtain ⟨l', e, rfl⟩ := Option.map_eq_some_iff.1 h
        have : pushArgs receiver (.self :: ts) as = pushArgs.thenRest (push receiver .unknown) (pushArgs receiver ts as) := by cases as <;> rfl
        rw [this, push_one _ _ (by simp)]
        exact thenRest_eq [(receiver.ref, .unknown)] l' _ (ih as l' e)
      · rw [if_neg h2] at h
        by_cases h3 : t = .selfSmalltalk
        · subst h3
          rw [if_pos rfl] at h
          obtain ⟨l', e, rfl⟩ := Option.map_eq_some_iff.1 h
          have : pushArgs receiver (.selfSmalltalk :: ts) as = pushArgs.thenRest (push receiver .smalltalk) (pushArgs receiver ts as) := by
            cases as <;> rfl
          rw [this, push_one _ _ (by simp)]
          exact thenRest_eq [(receiver.ref, .smalltalk)] l' _ (ih as l' e)
        · rw [if_neg h3] at h
          cases as with
          | nil => cases h
          | cons a as =>
            have hp : pushArgs receiver (t :: ts) (a :: as) = pushArgs.thenRest (push a t) (pushArgs receiver ts as) := by
              cases t <;> first | rfl | exact absurd rfl h1 | exact absurd rfl h2 | exact absurd rfl h3
            rw [hp]
            dsimp only at h
            by_cases h4 : t = .variadic ∨ t = .variadicSmalltalk
            · rw [if_pos h4] at h
              cases a with
              | obj r => cases h
              | arr r es =>
                obtain ⟨l', e, rfl⟩ := Option.map_eq_some_iff.1 h
                have : push (.arr r es) t = convertAll (es.map fun e => (e, if t = .variadic then CT.unknown else .smalltalk)) := by
                  unfold push
                  rw [if_pos h4]
                  exact pushAll_eq _ es
                rw [this]
                exact thenRest_eq _ l' _ (ih as l' e)
            · rw [if_neg h4] at h
              obtain ⟨l', e, rfl⟩ := Option.map_eq_some_iff.1 h
              rw [push_one _ _ h4]
              exact thenRest_eq [(a.ref, t)] l' _ (ih as l' e)

/-- Types whose parameters take no message argument, or several. -/
def CT.special (t : CT) : Bool := t == .void || t == .self || t == .selfSmalltalk || t == .variadic || t == .variadicSmalltalk

theorem count_eq (words : Ref → ℕ) (receiver : Arg) : ∀ (ts : List CT) (as : List Arg) (l : List (Ref × CT)), expected receiver ts as = some l →
    ∃ k, count words ts as = some k ∧ k.total = l.length ∧ (k.variadic = true ↔ .variadic ∈ ts ∨ .variadicSmalltalk ∈ ts) ∧
      k.post = ts.any needsPost := by
  intro ts
  induction ts with
  | nil => intro as l h; cases h; exact ⟨⟨0, false, false⟩, by cases as <;> rfl, rfl, by simp, rfl⟩
  | cons t ts ih =>
    intro as l h
    unfold expected at h
    by_cases h1 : t = .void
    · subst h1; rw [if_pos rfl] at h
      obtain ⟨k, e, a, b, c⟩ := ih as l h
      exact ⟨k, by cases as <;> exact e, a, by simpa using b, by simpa [needsPost] using c⟩
    · rw [if_neg h1] at h
      by_cases h2 : t = .self
      · subst h2
        rw [if_pos rfl] at h
        obtain ⟨l', e, rfl⟩ := Option.map_eq_some_iff.1 h
        obtain ⟨k, e, a, b, c⟩ := ih as l' e
        exact ⟨{ k with total := k.total + 1 }, by cases as <;> simp [count, e], by simp [a], by simpa using b, by simpa [needsPost] using c⟩
      · rw [if_neg h2] at h
        by_cases h3 : t = .selfSmalltalk
        · subst h3
          rw [if_pos rfl] at h
          obtain ⟨l', e, rfl⟩ := Option.map_eq_some_iff.1 h
          obtain ⟨k, e, a, b, c⟩ := ih as l' e
          exact ⟨{ k with total := k.total + 1 }, by cases as <;> simp [count, e], by simp [a], by simpa using b, by simpa [needsPost] using c⟩
        · rw [if_neg h3] at h
          cases as with
          | nil => cases h
          | cons a as =>
            dsimp only at h
            by_cases h4 : t = .variadic ∨ t = .variadicSmalltalk
            · rw [if_pos h4] at h
              cases a with
              | obj r => cases h
              | arr r es =>
                obtain ⟨l', e, rfl⟩ := Option.map_eq_some_iff.1 h
                obtain ⟨k, e, a, b, c⟩ := ih as l' e
                refine ⟨{ k with total := k.total + es.length, variadic := true }, ?_, by simp [a]; omega, ?_, ?_⟩
                · rcases h4 with rfl | rfl <;> simp [count, variadicCase, e]
                · rcases h4 with rfl | rfl <;> simp
                · rcases h4 with rfl | rfl <;> simpa [needsPost] using c
            · rw [if_neg h4] at h
              push Not at h4
              obtain ⟨l', e, rfl⟩ := Option.map_eq_some_iff.1 h
              obtain ⟨k, e, ha, b, c⟩ := ih as l' e
              refine ⟨{ k with total := k.total + 1, post := k.post || needsPost t }, ?_, by simp [ha], ?_, ?_⟩
              · cases t <;> first
                  | exact absurd rfl h1 | exact absurd rfl h2 | exact absurd rfl h3 | exact absurd rfl h4.1 | exact absurd rfl h4.2
                  | simp [count, e]
              · simpa [h4.1.symm, h4.2.symm] using b
              · simp [c, Bool.or_comm]

theorem convertAll_ok (l : List (Ref × CT)) : (convertAll l).2 = true ↔ ∀ x ∈ l, (convert x.1.kind x.2).isSome = true := by
  induction l with
  | nil => simp [convertAll]
  | cons x l ih =>
    simp only [convertAll, pushOne]
    cases hc : convert x.1.kind x.2 with
    | none => simp [hc]
    | some c => simp [hc, ih]

theorem convertAll_map (l : List (Ref × CT)) (h : (convertAll l).2 = true) :
    (convertAll l).1.map (fun p => (p.ref, p.type, some (p.ffi, p.form))) = l.map fun x => (x.1, actual x.1.kind x.2, convert x.1.kind x.2) := by
  induction l with
  | nil => rfl
  | cons x l ih =>
    simp only [convertAll, pushOne] at h ⊢
    cases hc : convert x.1.kind x.2 with
    | none => rw [hc] at h; cases h
    | some c =>
      rw [hc] at h
      simp only [Option.map_some] at h ⊢
      simp [ih h, hc]

theorem convertAll_mem (l : List (Ref × CT)) (p : Param) (hp : p ∈ (convertAll l).1) :
    ∃ x ∈ l, p.ref = x.1 ∧ p.type = actual x.1.kind x.2 ∧ convert x.1.kind x.2 = some (p.ffi, p.form) := by
  induction l with
  | nil => cases hp
  | cons x l ih =>
    simp only [convertAll, pushOne] at hp
    cases hc : convert x.1.kind x.2 with
    | none => rw [hc] at hp; cases hp
    | some c =>
      rw [hc] at hp
      simp only [Option.map_some] at hp
      rcases List.mem_cons.1 hp with rfl | hp
      · exact ⟨x, by simp, rfl, rfl, hc⟩
      · obtain ⟨y, hy, hr⟩ := ih hp
        exact ⟨y, by simp [hy], hr⟩

/-- Missing: an argument for `#variadic` that is no Array, and calls with too few arguments (see `variadic_fails`).

The function is called if and only if each argument can be converted, and then with one parameter for each, in their order. -/
theorem call_partial (words : Ref → ℕ) (c : Caches) (id : ℕ) (ret : CT) (types : List CT) (receiver : Arg) (args : List Arg) (l : List (Ref × CT))
    (hl : expected receiver types args = some l) :
    if ∀ x ∈ l, (convert x.1.kind x.2).isSome = true then
      ∃ cif ps fr wr, (invoke words c id ret types receiver args).2 = .called cif ps fr wr ∧
        ps.map (fun p => (p.ref, p.type, some (p.ffi, p.form))) = l.map fun x => (x.1, actual x.1.kind x.2, convert x.1.kind x.2)
    else ∃ ps fr, (invoke words c id ret types receiver args).2 = .refused ps fr := by
  obtain ⟨k, hk, -⟩ := count_eq words receiver types args l hl
  have hp := pushArgs_eq receiver types args l hl
  unfold invoke
  rw [hk]
  dsimp only
  rw [hp]
  split
  · rename_i h
    have h2 := (convertAll_ok l).2 h
    have e : convertAll l = ((convertAll l).1, true) := by rw [← h2]
    rw [e]
    exact ⟨_, _, _, _, rfl, convertAll_map l h2⟩
  · rename_i h
    have h2 : (convertAll l).2 = false := by
      cases hb : (convertAll l).2 with
      | false => rfl
      | true => exact absurd ((convertAll_ok l).1 hb) h
    have e : convertAll l = ((convertAll l).1, false) := by rw [← h2]
    rw [e]
    exact ⟨_, _, rfl⟩

example : (invoke (fun _ => 0) Caches.new 7 .int [.self, .void, .string, .variadic] (.obj ⟨1, .cObject⟩)
    [.obj ⟨2, .symbol⟩, .arr ⟨3, .array⟩ [⟨4, .float⟩, ⟨5, .nil⟩]]).2 =
    .called ⟨4, some .sint, [.pointer, .pointer, .double, .pointer]⟩
      [⟨⟨1, .cObject⟩, .cObject, .pointer, .address⟩, ⟨⟨2, .symbol⟩, .string, .pointer, .copyString⟩, ⟨⟨4, .float⟩, .double, .double, .double⟩,
        ⟨⟨5, .nil⟩, .cObject, .pointer, .null⟩] [⟨⟨2, .symbol⟩, .string, .pointer, .copyString⟩] [] := by
  decide

/-- A SmallInteger for `#variadic` is not refused: it is taken for an address. -/
theorem variadic_fails : (invoke (fun _ => 0) Caches.new 7 .int [.variadic] (.obj ⟨1, .other⟩) [.obj ⟨2, .smallInt⟩]).2 = .wild := by
  decide

/-! ### C195: copies and changed arguments -/

/-- The form is a copy that was allocated. -/
def Form.isCopy (f : Form) : Bool := f == .copyBytes || f == .copyString || f == .copyWide

theorem copy_declared (k : Kind) (t : CT) (f : Ffi × Form) (h : convert k t = some f) :
    (f.2.isCopy = true → t ≠ .unknown → needsPost t = true) ∧ (isOut (actual k t) = true → needsPost t = true) ∧
      (((f.2.isCopy || f.2 == .indirect) && actual k t != .cObjectPtr) = f.2.isCopy) ∧
      (((f.2.isCopy || f.2 == .indirect) && isOut (actual k t)) = (isOut (actual k t) && f.2 != .null)) := by
  have key : ∀ k ∈ Kind.all, ∀ t ∈ CT.all, ((convert k t).all fun f => (!f.2.isCopy || t == .unknown || needsPost t) &&
      (!(isOut (actual k t)) || needsPost t) && ((((f.2.isCopy || f.2 == .indirect) && actual k t != .cObjectPtr)) == f.2.isCopy) &&
      (((f.2.isCopy || f.2 == .indirect) && isOut (actual k t)) == (isOut (actual k t) && f.2 != .null))) = true := by decide +kernel
  have := all_pairs (P := fun k t => ((convert k t).all fun f => (!f.2.isCopy || t == .unknown || needsPost t) &&
      (!(isOut (actual k t)) || needsPost t) && ((((f.2.isCopy || f.2 == .indirect) && actual k t != .cObjectPtr)) == f.2.isCopy) &&
      (((f.2.isCopy || f.2 == .indirect) && isOut (actual k t)) == (isOut (actual k t) && f.2 != .null))) = true) key k t
  rw [h] at this
  simp only [Option.all_some, Bool.and_eq_true, beq_iff_eq] at this
  obtain ⟨⟨⟨h1, h2⟩, h3⟩, h4⟩ := this
  refine ⟨fun ha hb => ?_, fun ha => ?_, h3, h4⟩
  · rw [ha] at h1; simp [hb] at h1; exact h1
  · rw [ha] at h2; simpa using h2

theorem keeps_eq (p : Param) : p.keeps = (p.form.isCopy || p.form == .indirect) := by
  unfold Param.keeps Form.isCopy
  cases p.form <;> rfl

/-- Each parameter comes from a declared type, or from the receiver or an element. -/
theorem expected_mem (receiver : Arg) : ∀ (ts : List CT) (as : List Arg) (l : List (Ref × CT)), expected receiver ts as = some l →
    (∀ t ∈ ts, t ≠ .self ∧ t ≠ .variadic) → ∀ x ∈ l, x.2 ∈ ts ∨ x.2 = .smalltalk := by
  intro ts
  induction ts with
  | nil => intro as l h _ x hx; cases h; cases hx
  | cons t ts ih =>
    intro as l h hts x hx
    unfold expected at h
    have hts' : ∀ t ∈ ts, t ≠ .self ∧ t ≠ .variadic := fun u hu => hts u (by simp [hu])
    obtain ⟨n1, n2⟩ := hts t (by simp)
    have lift : ∀ {as' l'}, expected receiver ts as' = some l' → x ∈ l' → x.2 ∈ t :: ts ∨ x.2 = .smalltalk := by
      intro as' l' e hx
      rcases ih as' l' e hts' x hx with h | h
      · exact .inl (by simp [h])
      · exact .inr h
    split at h
    · exact lift h hx
    · split at h
      · obtain ⟨l', e, rfl⟩ := Option.map_eq_some_iff.1 h
        rcases List.mem_cons.1 hx with rfl | hx
        · exact .inr rfl
        · exact lift e hx
      · cases as with
        | nil => cases h
        | cons a as =>
          dsimp only at h
          split at h
          · cases a with
            | obj r => cases h
            | arr r es =>
              obtain ⟨l', e, rfl⟩ := Option.map_eq_some_iff.1 h
              rcases List.mem_append.1 hx with hx | hx
              · obtain ⟨r, -, rfl⟩ := List.mem_map.1 hx
                right
                rfl
              · exact lift e hx
          · obtain ⟨l', e, rfl⟩ := Option.map_eq_some_iff.1 h
            rcases List.mem_cons.1 hx with rfl | hx
            · exact .inl (by simp)
            · exact lift e hx

/-- The parameters that were made, whether or not the function is called. -/
def Outcome.params : Outcome → List Param
  | .called _ ps _ _ => ps
  | .refused ps _ => ps
  | .wild => []

def Outcome.freed : Outcome → List Param
  | .called _ _ fr _ => fr
  | .refused _ fr => fr
  | .wild => []

def Outcome.written : Outcome → List Param
  | .called _ _ _ wr => wr
  | _ => []

def Outcome.isCalled : Outcome → Bool
  | .called .. => true
  | _ => false

theorem filter_post {ps : List Param} {post : Bool} {f g : Param → Bool} (h : ∀ p ∈ ps, f p = g p) (hp : ∀ p ∈ ps, g p = true → post = true) :
    (if post then ps.filter f else []) = ps.filter g := by
  cases post with
  | true => rw [if_pos rfl]; exact List.filter_congr h
  | false =>
    rw [if_neg (by simp)]
    symm
    apply List.filter_eq_nil_iff.2
    intro p hpm hg
    cases hp p hpm hg

/-- The parameters of an outcome are the expected ones. -/
theorem outcome_eq (words : Ref → ℕ) (c : Caches) (id : ℕ) (ret : CT) (types : List CT) (receiver : Arg) (args : List Arg) (l : List (Ref × CT))
    (hl : expected receiver types args = some l) :
    (invoke words c id ret types receiver args).2.params = (convertAll l).1 ∧
      (invoke words c id ret types receiver args).2.freed = freed (types.any needsPost) (convertAll l).1 ∧
      (invoke words c id ret types receiver args).2.isCalled = (convertAll l).2 ∧
      (invoke words c id ret types receiver args).2.written = if (convertAll l).2 then written (types.any needsPost) (convertAll l).1 else [] := by
  obtain ⟨k, hk, -, -, hk3⟩ := count_eq words receiver types args l hl
  have hp := pushArgs_eq receiver types args l hl
  unfold invoke
  rw [hk]
  dsimp only
  rw [hp, ← hk3]
  cases hb : (convertAll l).2 with
  | true =>
    have e : convertAll l = ((convertAll l).1, true) := by rw [← hb]
    rw [e]
    exact ⟨rfl, rfl, rfl, rfl⟩
  | false =>
    have e : convertAll l = ((convertAll l).1, false) := by rw [← hb]
    rw [e]
    exact ⟨rfl, rfl, rfl, rfl⟩

/-- Missing: types `#unknown`, `#self` and `#variadic` (see `leak_fails`).

Each copy that was made is freed, and nothing else, whether the function is called or an argument is refused. -/
theorem freed_partial (words : Ref → ℕ) (c : Caches) (id : ℕ) (ret : CT) (types : List CT) (receiver : Arg) (args : List Arg) (l : List (Ref × CT))
    (hl : expected receiver types args = some l) (ht : ∀ t ∈ types, t ≠ .unknown ∧ t ≠ .self ∧ t ≠ .variadic) :
    (invoke words c id ret types receiver args).2.freed = (invoke words c id ret types receiver args).2.params.filter (·.form.isCopy) := by
  obtain ⟨e1, e2, -, -⟩ := outcome_eq words c id ret types receiver args l hl
  rw [e1, e2]
  apply filter_post
  · intro p hp
    obtain ⟨x, -, -, h2, h3⟩ := convertAll_mem l p hp
    have := (copy_declared x.1.kind x.2 _ h3).2.2.1
    rw [keeps_eq, h2]
    exact this
  · intro p hp hc
    obtain ⟨x, hx, -, -, h3⟩ := convertAll_mem l p hp
    rcases expected_mem receiver types args l hl (fun t h => ⟨(ht t h).2.1, (ht t h).2.2⟩) x hx with h | h
    · exact List.any_eq_true.2 ⟨x.2, h, (copy_declared x.1.kind x.2 _ h3).1 hc (ht _ h).1⟩
    · have := (copy_declared x.1.kind x.2 _ h3).1 hc (by rw [h]; decide)
      rw [h] at this
      cases this

example : (invoke (fun _ => 0) Caches.new 7 .void [.string, .byteArrayOut, .int] (.obj ⟨1, .other⟩)
    [.obj ⟨2, .string⟩, .obj ⟨3, .byteArray⟩, .obj ⟨4, .float⟩]).2 =
    .refused [⟨⟨2, .string⟩, .string, .pointer, .copyString⟩, ⟨⟨3, .byteArray⟩, .byteArrayOut, .pointer, .copyBytes⟩]
      [⟨⟨2, .string⟩, .string, .pointer, .copyString⟩, ⟨⟨3, .byteArray⟩, .byteArrayOut, .pointer, .copyBytes⟩] := by
  decide

/-- Strings for `#unknown` are copied and the copies are never freed. -/
theorem leak_fails : (invoke (fun _ => 0) Caches.new 7 .void [.unknown] (.obj ⟨1, .other⟩) [.obj ⟨2, .string⟩]).2 =
    .called ⟨1, some .sint, [.pointer]⟩ [⟨⟨2, .string⟩, .string, .pointer, .copyString⟩] [] [] := by
  decide

/-- Nothing that was not expected is an out parameter. -/
theorem actual_out (receiver : Arg) : ∀ (ts : List CT) (as : List Arg) (l : List (Ref × CT)), expected receiver ts as = some l →
    ∀ x ∈ l, x.2 ∈ ts ∨ x.2 = .smalltalk ∨ x.2 = .unknown := by
  intro ts
  induction ts with
  | nil => intro as l h x hx; cases h; cases hx
  | cons t ts ih =>
    intro as l h x hx
    unfold expected at h
    have lift : ∀ {as' l'}, expected receiver ts as' = some l' → x ∈ l' → x.2 ∈ t :: ts ∨ x.2 = .smalltalk ∨ x.2 = .unknown := by
      intro as' l' e hx
      rcases ih as' l' e x hx with h | h
      · exact .inl (by simp [h])
      · exact .inr h
    split at h
    · exact lift h hx
    · split at h
      · obtain ⟨l', e, rfl⟩ := Option.map_eq_some_iff.1 h
        rcases List.mem_cons.1 hx with rfl | hx
        · exact .inr (.inr rfl)
        · exact lift e hx
      · split at h
        · obtain ⟨l', e, rfl⟩ := Option.map_eq_some_iff.1 h
          rcases List.mem_cons.1 hx with rfl | hx
          · exact .inr (.inl rfl)
          · exact lift e hx
        · cases as with
          | nil => cases h
          | cons a as =>
            dsimp only at h
            split at h
            · cases a with
              | obj r => cases h
              | arr r es =>
                obtain ⟨l', e, rfl⟩ := Option.map_eq_some_iff.1 h
                rcases List.mem_append.1 hx with hx | hx
                · obtain ⟨r, -, rfl⟩ := List.mem_map.1 hx
                  right
                  dsimp only
                  split
                  · exact .inr rfl
                  · exact .inl rfl
                · exact lift e hx
            · obtain ⟨l', e, rfl⟩ := Option.map_eq_some_iff.1 h
              rcases List.mem_cons.1 hx with rfl | hx
              · exact .inl (by simp)
              · exact lift e hx

/-- After a call exactly the arguments for out types are changed, except nil; when an argument is refused none is. -/
theorem written_back (words : Ref → ℕ) (c : Caches) (id : ℕ) (ret : CT) (types : List CT) (receiver : Arg) (args : List Arg) (l : List (Ref × CT))
    (hl : expected receiver types args = some l) : (invoke words c id ret types receiver args).2.written =
      if (invoke words c id ret types receiver args).2.isCalled then
        (invoke words c id ret types receiver args).2.params.filter fun p => isOut p.type && p.form != .null
      else [] := by
  obtain ⟨e1, -, e3, e4⟩ := outcome_eq words c id ret types receiver args l hl
  rw [e1, e3, e4]
  cases (convertAll l).2 with
  | false => rfl
  | true =>
    rw [if_pos rfl, if_pos rfl]
    apply filter_post
    · intro p hp
      obtain ⟨x, -, -, h2, h3⟩ := convertAll_mem l p hp
      have := (copy_declared x.1.kind x.2 _ h3).2.2.2
      rw [keeps_eq, h2]
      exact this
    · intro p hp hc
      obtain ⟨x, hx, -, h2, h3⟩ := convertAll_mem l p hp
      rw [h2, Bool.and_eq_true] at hc
      have hn := (copy_declared x.1.kind x.2 _ h3).2.1 hc.1
      rcases actual_out receiver types args l hl x hx with h | h | h
      · exact List.any_eq_true.2 ⟨x.2, h, hn⟩
      · rw [h] at hn; cases hn
      · rw [h] at hn; cases hn

example : ((invoke (fun _ => 0) Caches.new 7 .void [.stringOut, .cObjectPtr, .string] (.obj ⟨1, .other⟩)
    [.obj ⟨2, .string⟩, .obj ⟨3, .cObject⟩, .obj ⟨4, .string⟩]).2.written.map (·.ref.id)) = [2, 3] := by
  decide

/-- The buffers are as large as what is written, except those for wide strings, which are always too small. -/
theorem buffers (len : ℕ) : (∀ f, f ≠ .copyWide → ∀ b, buffer f len = some b → b.2 ≤ b.1) ∧
    (∀ b, buffer .copyWide len = some b → b.1 < b.2) := by
  constructor
  · intro f hf b hb
    cases f <;> first | exact absurd rfl hf | (cases hb; exact Nat.le_refl _) | cases hb
  · intro b hb
    cases hb
    show len + 1 < 4 * len + 4
    omega

/-! ### C196: the interface that is passed to libffi -/

/-- The descriptors, until the next garbage collection. -/
abbrev Descs := ℕ → CT × List CT

/-- What happens: calls, and collections after which other functions can have the same descriptors. -/
inductive Event where
  | call (id : ℕ) (receiver : Arg) (args : List Arg)
  | collect (d : Descs)

/-- What they do; the calls are recorded with the type to be returned. -/
def happen (words : Ref → ℕ) : Caches → Descs → List Event → List (CT × Outcome)
  | _, _, [] => []
  | c, d, .call id receiver args :: es =>
    ((d id).1, (invoke words c id (d id).1 (d id).2 receiver args).2) :: happen words (invoke words c id (d id).1 (d id).2 receiver args).1 d es
  | c, _, .collect d :: es => happen words c.invalidate d es

/-- The type of libffi for a declared type. -/
def ffiOf (t : CT) : Ffi :=
  match t with
  | .long | .uLong | .longLong | .uLongLong => .sint64
  | .int | .uInt | .char | .uChar | .short | .uShort | .boolean | .wchar => .sint
  | .float => .float
  | .double => .double
  | .longDouble => .longDouble
  | _ => .pointer

theorem ffi_declared (k : Kind) (t : CT) (f : Ffi × Form) (ht : t ≠ .unknown) (h : convert k t = some f) : f.1 = ffiOf t := by
  have key := all_pairs (P := fun k t => t ≠ .unknown → ((convert k t).all fun f => f.1 == ffiOf t) = true) (by decide +kernel) k t ht
  rw [h] at key
  simpa using key

/-- Types that say what the type of the parameter is. -/
def Fixed (ts : List CT) : Prop := ∀ t ∈ ts, t ≠ .unknown ∧ t ≠ .self ∧ t ≠ .variadic ∧ t ≠ .variadicSmalltalk

/-- The types of the parameters. -/
def ffis (ts : List CT) : List Ffi := (ts.filter (· ≠ .void)).map ffiOf

theorem ffis_eq (receiver : Arg) : ∀ (ts : List CT) (as : List Arg) (l : List (Ref × CT)), Fixed ts → expected receiver ts as = some l →
    (convertAll l).2 = true → (convertAll l).1.map (·.ffi) = ffis ts := by
  intro ts
  induction ts with
  | nil => intro as l _ h _; cases h; rfl
  | cons t ts ih =>
    intro as l hf h hc
    have hf' : Fixed ts := fun u hu => hf u (by simp [hu])
    obtain ⟨n1, n2, n3, n4⟩ := hf t (by simp)
    unfold expected at h
    have one : ∀ (r : Ref) (u : CT) (l' : List (Ref × CT)), u ≠ .unknown → ffiOf u = ffiOf t → t ≠ .void → (convertAll ((r, u) :: l')).2 = true →
        ((convertAll l').2 = true → (convertAll l').1.map (·.ffi) = ffis ts) → (convertAll ((r, u) :: l')).1.map (·.ffi) = ffis (t :: ts) := by
      intro r u l' hu hut htv hok hrest
      simp only [convertAll, pushOne] at hok ⊢
      cases hcv : convert r.kind u with
      | none => rw [hcv] at hok; cases hok
      | some c =>
        rw [hcv] at hok
        simp only [Option.map_some] at hok ⊢
        unfold ffis
        rw [List.filter_cons_of_pos (by simpa using htv), List.map_cons, List.map_cons, hrest hok, ffi_declared _ _ _ hu hcv, hut]
        rfl
    by_cases h1 : t = .void
    · rw [if_pos h1] at h
      rw [ih as l hf' h hc, h1]
      rfl
    · rw [if_neg h1, if_neg n2] at h
      by_cases h3 : t = .selfSmalltalk
      · rw [if_pos h3] at h
        obtain ⟨l', e, rfl⟩ := Option.map_eq_some_iff.1 h
        exact one _ _ l' (by decide) (by rw [h3]; rfl) h1 hc (ih as l' hf' e)
      · rw [if_neg h3] at h
        cases as with
        | nil => cases h
        | cons a as =>
          dsimp only at h
          rw [if_neg (by simp [n3, n4])] at h
          obtain ⟨l', e, rfl⟩ := Option.map_eq_some_iff.1 h
          exact one _ _ l' n1 rfl h1 hc (ih as l' hf' e)

/-- What a current entry has. -/
def Good (c : Caches) (d : Descs) : Prop :=
  ∀ id, (c.entry id).generation ≤ c.generation ∧ ((c.entry id).generation = c.generation →
    (c.entry id).cif = ⟨(ffis (d id).2).length, getFfiType (d id).1, ffis (d id).2⟩)

/-- The interface agrees with the parameters of the call and with the type that is returned. -/
def Agrees (ret : CT) : Outcome → Prop
  | .called cif ps _ _ => cif = ⟨ps.length, getFfiType ret, ps.map (·.ffi)⟩
  | _ => True

theorem convertAll_length (l : List (Ref × CT)) (h : (convertAll l).2 = true) : (convertAll l).1.length = l.length := by
  have := congrArg List.length (convertAll_map l h)
  simpa using this

/-- Where nothing was expected nothing is called. -/
theorem expected_none (receiver : Arg) : ∀ (ts : List CT) (as : List Arg), expected receiver ts as = none →
    pushArgs receiver ts as = none ∨ ∃ ps, pushArgs receiver ts as = some (ps, false) := by
  intro ts
  induction ts with
  | nil => intro as h; cases h
  | cons t ts ih =>
    intro as h
    have rest : ∀ (x : List Param × Bool) (r : Option (List Param × Bool)), (r = none ∨ ∃ ps, r = some (ps, false)) →
        pushArgs.thenRest x r = none ∨ ∃ ps, pushArgs.thenRest x r = some (ps, false) := by
      intro x r hr
      unfold pushArgs.thenRest
      cases hx : x.2 with
      | false => exact .inr ⟨x.1, by rw [if_neg (by simp), ← hx]⟩
      | true =>
        rw [if_pos rfl]
        rcases hr with rfl | ⟨ps, rfl⟩
        · exact .inl rfl
        · exact .inr ⟨_, rfl⟩
    unfold expected at h
    by_cases h1 : t = .void
    · subst h1; rw [if_pos rfl] at h
      have := ih as h
      cases as <;> exact this
    · rw [if_neg h1] at h
      by_cases h2 : t = .self
      · subst h2
        rw [if_pos rfl] at h
        have : pushArgs receiver (.self :: ts) as = pushArgs.thenRest (push receiver .unknown) (pushArgs receiver ts as) := by cases as <;> rfl
        rw [this]
        exact rest _ _ (ih as (Option.map_eq_none_iff.1 h))
      · rw [if_neg h2] at h
        by_cases h3 : t = .selfSmalltalk
        · subst h3
          rw [if_pos rfl] at h
          have : pushArgs receiver (.selfSmalltalk :: ts) as = pushArgs.thenRest (push receiver .smalltalk) (pushArgs receiver ts as) := by
            cases as <;> rfl
          rw [this]
          exact rest _ _ (ih as (Option.map_eq_none_iff.1 h))
        · rw [if_neg h3] at h
          cases as with
          | nil => cases t <;> first | exact .inl rfl | exact absurd rfl h1 | exact absurd rfl h2 | exact absurd rfl h3
          | cons a as =>
            have hp : pushArgs receiver (t :: ts) (a :: as) = pushArgs.thenRest (push a t) (pushArgs receiver ts as) := by
              cases t <;> first | rfl | exact absurd rfl h1 | exact absurd rfl h2 | exact absurd rfl h3
            rw [hp]
            dsimp only at h
            by_cases h4 : t = .variadic ∨ t = .variadicSmalltalk
            · rw [if_pos h4] at h
              cases a with
              | obj r =>
                have : push (.obj r) t = ([], false) := by unfold push; rw [if_pos h4]
                rw [this]
                exact .inr ⟨[], rfl⟩
              | arr r es => exact rest _ _ (ih as (Option.map_eq_none_iff.1 h))
            · rw [if_neg h4] at h
              exact rest _ _ (ih as (Option.map_eq_none_iff.1 h))

/-- One call. -/
theorem invoke_agrees (words : Ref → ℕ) (c : Caches) (d : Descs) (id : ℕ) (receiver : Arg) (args : List Arg) (hd : ∀ i, Fixed (d i).2)
    (hg : Good c d) : Good (invoke words c id (d id).1 (d id).2 receiver args).1 d ∧
      Agrees (d id).1 (invoke words c id (d id).1 (d id).2 receiver args).2 := by
  cases hl : expected receiver (d id).2 args with
  | none =>
    rcases expected_none receiver (d id).2 args hl with h | ⟨ps, h⟩
    · unfold invoke
      cases count words (d id).2 args with
      | none => exact ⟨hg, trivial⟩
      | some k => dsimp only; rw [h]; exact ⟨hg, trivial⟩
    · unfold invoke
      cases count words (d id).2 args with
      | none => exact ⟨hg, trivial⟩
      | some k => dsimp only; rw [h]; exact ⟨hg, trivial⟩
  | some l =>
    obtain ⟨k, hk, hk1, hk2, -⟩ := count_eq words receiver (d id).2 args l hl
    have hp := pushArgs_eq receiver (d id).2 args l hl
    unfold invoke
    rw [hk]
    dsimp only
    rw [hp]
    cases hb : (convertAll l).2 with
    | false =>
      have e : convertAll l = ((convertAll l).1, false) := by rw [← hb]
      rw [e]
      exact ⟨hg, trivial⟩
    | true =>
      have e : convertAll l = ((convertAll l).1, true) := by rw [← hb]
      rw [e]
      dsimp only
      have hf := ffis_eq receiver (d id).2 args l (hd id) hl hb
      have hlen := convertAll_length l hb
      have hlen' : (ffis (d id).2).length = (convertAll l).1.length := by rw [← hf]; simp
      have hv : k.variadic = false := by
        cases hkv : k.variadic with
        | false => rfl
        | true =>
          rcases hk2.1 hkv with h | h
          · exact absurd rfl (hd id _ h).2.2.1
          · exact absurd rfl (hd id _ h).2.2.2
      unfold prepare
      by_cases hgen : (c.entry id).generation ≠ c.generation
      · rw [if_pos hgen]
        refine ⟨?_, ?_⟩
        · intro i
          dsimp only
          by_cases hi : i = id
          · subst hi
            rw [if_pos rfl, hv]
            refine ⟨Nat.le_refl _, fun _ => ?_⟩
            show (⟨k.total, _, _⟩ : Cif) = _
            rw [hk1, ← hlen, hlen', hf]
          · rw [if_neg hi]; exact hg i
        · show (⟨k.total, _, _⟩ : Cif) = _
          rw [hk1, ← hlen]
      · rw [if_neg hgen]
        refine ⟨hg, ?_⟩
        show (c.entry id).cif = _
        rw [(hg id).2 (not_not.1 hgen), hlen', ← hf]

theorem happen_agrees (words : Ref → ℕ) : ∀ (es : List Event) (c : Caches) (d : Descs), (∀ i, Fixed (d i).2) →
    (∀ e ∈ es, ∀ d', e = .collect d' → ∀ i, Fixed (d' i).2) → Good c d → ∀ x ∈ happen words c d es, Agrees x.1 x.2 := by
  intro es
  induction es with
  | nil => intro c d _ _ _ x hx; cases hx
  | cons e es ih =>
    intro c d hd hes hg x hx
    have hes' : ∀ e ∈ es, ∀ d', e = .collect d' → ∀ i, Fixed (d' i).2 := fun e he => hes e (by simp [he])
    cases e with
    | call id receiver args =>
      obtain ⟨h1, h2⟩ := invoke_agrees words c d id receiver args hd hg
      rcases List.mem_cons.1 hx with rfl | hx
      · exact h2
      · exact ih _ d hd hes' h1 x hx
    | collect d' =>
      refine ih _ d' (hes _ (by simp) d' rfl) hes' ?_ x hx
      intro i
      have := (hg i).1
      refine ⟨Nat.le_trans this (Nat.le_add_right _ _), fun h => ?_⟩
      have h' : (c.entry i).generation = c.generation + 2 := h
      omega

/-- Missing: types `#unknown` and `#self`, whose parameters can change from call to call (see `stale_fails`).

In any sequence of calls and garbage collections each call is made with an interface for its own parameters. -/
theorem interface_partial (words : Ref → ℕ) (d : Descs) (es : List Event) (hd : ∀ i, Fixed (d i).2)
    (hes : ∀ e ∈ es, ∀ d', e = .collect d' → ∀ i, Fixed (d' i).2) : ∀ x ∈ happen words Caches.new d es, Agrees x.1 x.2 :=
  happen_agrees words es Caches.new d hd hes fun _ => ⟨Nat.zero_le _, fun h => by have h' : 0 = 1 := h; omega⟩

example : happen (fun _ => 0) Caches.new (fun _ => (.int, [.double]))
    [.call 7 (.obj ⟨1, .other⟩) [.obj ⟨2, .float⟩], .collect (fun _ => (.void, [.int])), .call 7 (.obj ⟨1, .other⟩) [.obj ⟨3, .bool⟩]] =
    [(.int, .called ⟨1, some .sint, [.double]⟩ [⟨⟨2, .float⟩, .double, .double, .double⟩] [] []),
     (.void, .called ⟨1, some .sint, [.sint]⟩ [⟨⟨3, .bool⟩, .int, .sint, .truth⟩] [] [])] := by
  decide

/-- With `#unknown` a Float is passed through an interface that was made for an Integer. -/
theorem stale_fails : happen (fun _ => 0) Caches.new (fun _ => (.int, [.unknown]))
    [.call 7 (.obj ⟨1, .other⟩) [.obj ⟨2, .smallInt⟩], .call 7 (.obj ⟨1, .other⟩) [.obj ⟨3, .float⟩]] =
    [(.int, .called ⟨1, some .sint, [.sint64]⟩ [⟨⟨2, .smallInt⟩, .long, .sint64, .long⟩] [] []),
     (.int, .called ⟨1, some .sint, [.sint64]⟩ [⟨⟨3, .float⟩, .double, .double, .double⟩] [] [])] := by
  decide

end Verif.Callout
