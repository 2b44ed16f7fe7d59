/-!
# Names of arguments, temporaries and loop variables

libgst/sym.c l.340-484 and 942-1047, and the uses of those functions in libgst/comp.c l.1122-1154 and
l.1624-1719.  C98: a name stands for the variable that its innermost enclosing declaration introduces.
-/
namespace Verif.Compiler.Scope

/-- A declaration: the name, and a tag that identifies the declaration in the source. -/
structure Binder where
  name : Nat
  tag : Nat
  deriving DecidableEq, Repr

/-- The source, as far as names are concerned: `pair` stands for any construct that evaluates two others in
the same context (sends, statements, blocks that are compiled in place and declare nothing). -/
inductive Src where
  | const
  | var (x : Nat)
  | assign (x : Nat) (e : Src)
  | pair (a b : Src)
  /-- a block with arguments and temporaries -/
  | block (ps ts : List Binder) (b : Src)
  /-- `frm to: lim do: [:i | b]` -/
  | toDo (frm lim : Src) (i : Binder) (b : Src)

/-- What a name stands for; names of instance variables and globals stay names. -/
inductive Ref (α : Type) where
  | bound (a : α)
  | free (x : Nat)
  deriving DecidableEq, Repr

/-- The tree after the lookup: `α` are the variables, `β` is what is known about the slots of a block. -/
inductive T (α β : Type) where
  | const
  | var (r : Ref α)
  | assign (r : Ref α) (e : T α β)
  | pair (a b : T α β)
  | block (lay : β) (b : T α β)
  | toDo (frm lim : T α β) (i : α) (b : T α β)

/-! ## The compiler -/

/-- sym.c l.66-76 `struct symbol_list`: name, index, `readOnly`. -/
abbrev Sym := Nat × Nat × Bool

/-- sym.c l.79-86 `struct scope`. -/
structure Sc where
  syms : List Sym
  numArgs : Nat
  numTemps : Nat

/-- sym.c l.1036-1046 `find_local_var`. -/
def findLocal : List Sym → Nat → Option (Nat × Bool)
  | [], _ => none
  | (y, i, ro) :: l, x => if x = y then some (i, ro) else findLocal l x

/-- sym.c l.460-484 `_gst_declare_name`. -/
def declare (sc : Sc) (x : Nat) (writeable allowDup : Bool) : Option (Nat × Sc) :=
  if !allowDup && (findLocal sc.syms x).isSome then none
  else some (sc.numArgs + sc.numTemps,
    { sc with syms := (x, sc.numArgs + sc.numTemps, !writeable) :: sc.syms, numTemps := sc.numTemps + 1 })

/-- The loops of sym.c l.423-432 `_gst_declare_temporaries` and l.434-446 `_gst_declare_block_arguments`. -/
def declareAll (sc : Sc) (writeable : Bool) : List Binder → Option Sc
  | [] => some sc
  | b :: bs =>
    match declare sc b.name writeable false with
    | none => none
    | some (_, sc') => declareAll sc' writeable bs

/-- comp.c l.1124-1126: `_gst_push_new_scope`, `_gst_declare_block_arguments`, `_gst_declare_temporaries`.  The
same happens for a method (comp.c l.728-761). -/
def openScope (ps ts : List Binder) : Option Sc :=
  match declareAll ⟨[], 0, 0⟩ false ps with
  | none => none
  | some sc => declareAll { sc with numArgs := sc.numTemps, numTemps := 0 } true ts

/-- sym.c l.983-996 in `_gst_find_variable`: the distance of the scope, the index, `readOnly`. -/
def find : List (List Sym) → Nat → Option ((Nat × Nat) × Bool)
  | [], _ => none
  | l :: ls, x =>
    match findLocal l x with
    | some (i, ro) => some ((0, i), ro)
    | none => match find ls x with
      | some ((d, i), ro) => some ((d + 1, i), ro)
      | none => none

def refOf (x : Nat) : Option ((Nat × Nat) × Bool) → Ref (Nat × Nat)
  | some (l, _) => .bound l
  | none => .free x

/-- The names of a tree looked up in the order in which comp.c compiles it; `none` when the compilation fails.
`sc` is the current scope, `outer` the symbols of the enclosing ones.
* variables: comp.c l.1009 in `compile_variable`
* assignments: l.1917-1977 `compile_assignments`, after the value; arguments cannot be assigned (l.1941-1949)
* blocks: l.1108-1200 `compile_block`
* loops: l.1624-1719 `compile_to_by_do`: the variable is declared before the limit is compiled (l.1643-1647)
  and taken back at the end (l.1716); its slot stays taken (sym.c l.449-457). -/
def resolve (outer : List (List Sym)) (sc : Sc) : Src → Option (T (Nat × Nat) (Nat × Nat) × Sc)
  | .const => some (.const, sc)
  | .var x => some (.var (refOf x (find (sc.syms :: outer) x)), sc)
  | .assign x e =>
    match resolve outer sc e with
    | none => none
    | some (e', sc') =>
      match find (sc'.syms :: outer) x with
      | some (_, true) => none
      | r => some (.assign (refOf x r) e', sc')
  | .pair a b =>
    match resolve outer sc a with
    | none => none
    | some (a', sc1) =>
      match resolve outer sc1 b with
      | none => none
      | some (b', sc2) => some (.pair a' b', sc2)
  | .block ps ts b =>
    match openScope ps ts with
    | none => none
    | some sc1 =>
      match resolve (sc.syms :: outer) sc1 b with
      | none => none
      | some (b', sc2) => some (.block (sc2.numArgs, sc2.numTemps) b', sc)
  | .toDo frm lim i b =>
    match resolve outer sc frm with
    | none => none
    | some (f', sc1) =>
      match declare sc1 i.name false true with
      | none => none
      | some (slot, sc2) =>
        match resolve outer sc2 lim with
        | none => none
        | some (l', sc3) =>
          match resolve outer sc3 b with
          | none => none
          | some (b', sc4) => some (.toDo f' l' (0, slot) b', { sc4 with syms := sc4.syms.tail })

/-- comp.c l.728-836: a method is a scope without another one around it. -/
def resolveMethod (ps ts : List Binder) (b : Src) : Option (T (Nat × Nat) (Nat × Nat)) :=
  match openScope ps ts with
  | none => none
  | some sc =>
    match resolve [] sc b with
    | none => none
    | some (b', sc') => some (.block (sc'.numArgs, sc'.numTemps) b')

/-! ## Lexical scoping -/

/-- The innermost declaration of a name; the environment has the innermost declaration first. -/
def lookup (env : List Binder) (x : Nat) : Ref Nat :=
  match env.find? (fun b => b.name == x) with
  | some b => .bound b.tag
  | none => .free x

/-- The loop variables that live in the same context, in the order of the text. -/
def loopVars : Src → List Binder
  | .const => []
  | .var _ => []
  | .assign _ e => loopVars e
  | .pair a b => loopVars a ++ loopVars b
  | .block _ _ _ => []
  | .toDo frm lim i b => loopVars frm ++ [i] ++ loopVars lim ++ loopVars b

def tags (bs : List Binder) : List Nat := bs.map (·.tag)

/-- Which declaration every name refers to.  The variable of a loop is visible in its block and nowhere
else. -/
def lex (env : List Binder) : Src → T Nat (List Nat × List Nat)
  | .const => .const
  | .var x => .var (lookup env x)
  | .assign x e => .assign (lookup env x) (lex env e)
  | .pair a b => .pair (lex env a) (lex env b)
  | .block ps ts b => .block (tags ps, tags (ts ++ loopVars b)) (lex (ts.reverse ++ (ps.reverse ++ env)) b)
  | .toDo frm lim i b => .toDo (lex env frm) (lex env lim) i.tag (lex (i :: env) b)

/-- The slots agree with the declarations: `lays` says which declaration owns each slot of each enclosing
context, the innermost first. -/
inductive Agrees : List (List Nat) → T (Nat × Nat) (Nat × Nat) → T Nat (List Nat × List Nat) → Prop where
  | const {lays} : Agrees lays .const .const
  | var {lays d i t L} (h : lays[d]? = some L) (h' : L[i]? = some t) :
      Agrees lays (.var (.bound (d, i))) (.var (.bound t))
  | free {lays x} : Agrees lays (.var (.free x)) (.var (.free x))
  | assign {lays d i t L e e'} (h : lays[d]? = some L) (h' : L[i]? = some t) (he : Agrees lays e e') :
      Agrees lays (.assign (.bound (d, i)) e) (.assign (.bound t) e')
  | assignFree {lays x e e'} (he : Agrees lays e e') : Agrees lays (.assign (.free x) e) (.assign (.free x) e')
  | pair {lays a a' b b'} (ha : Agrees lays a a') (hb : Agrees lays b b') : Agrees lays (.pair a b) (.pair a' b')
  | block {lays args temps b b'} (h : Agrees ((args ++ temps) :: lays) b b') :
      Agrees lays (.block (args.length, temps.length) b) (.block (args, temps) b')
  | toDo {L lays f f' l l' slot t b b'} (hf : Agrees (L :: lays) f f') (hl : Agrees (L :: lays) l l')
      (h : L[slot]? = some t) (hb : Agrees (L :: lays) b b') :
      Agrees (L :: lays) (.toDo f l (0, slot) b) (.toDo f' l' t b')

/-- The names that are mentioned. -/
def names : Src → List Nat
  | .const => []
  | .var x => [x]
  | .assign x e => x :: names e
  | .pair a b => names a ++ names b
  | .block _ _ b => names b
  | .toDo frm lim _ b => names frm ++ names lim ++ names b

/-- No limit of a loop mentions a variable with the name of the variable of the loop. -/
def LimitsApart : Src → Prop
  | .const => True
  | .var _ => True
  | .assign _ e => LimitsApart e
  | .pair a b => LimitsApart a ∧ LimitsApart b
  | .block _ _ b => LimitsApart b
  | .toDo frm lim i b => i.name ∉ names lim ∧ LimitsApart frm ∧ LimitsApart lim ∧ LimitsApart b

/-! ## Proofs -/

/-- The symbols of one scope agree with the declarations in it. -/
def LocalOk (L : List Nat) (l : List Sym) (env : List Binder) : Prop :=
  ∀ x, match findLocal l x, env.find? (fun b => b.name == x) with
    | some (i, _), some b => L[i]? = some b.tag
    | none, none => True
    | _, _ => False

theorem localOk_cons {L : List Nat} {l : List Sym} {env : List Binder} {k : Nat} {ro : Bool} {b : Binder}
    (h : LocalOk L l env) (hk : L[k]? = some b.tag) : LocalOk L ((b.name, k, ro) :: l) (b :: env) := by
  intro x
  have := h x
  simp only [findLocal, List.find?]
  by_cases hx : x = b.name
  · subst hx; simpa using hk
  · have : (b.name == x) = false := by simpa using fun h => hx h.symm
    simp only [hx, if_false, this]
    exact h x

theorem declareAll_spec {L : List Nat} : ∀ {bs : List Binder} {sc sc' : Sc} {wr : Bool} {env : List Binder} {rest : List Nat},
    declareAll sc wr bs = some sc' → LocalOk L sc.syms env →
    L.drop (sc.numArgs + sc.numTemps) = tags bs ++ rest →
    LocalOk L sc'.syms (bs.reverse ++ env) ∧ sc'.numArgs = sc.numArgs ∧ sc'.numTemps = sc.numTemps + bs.length
  | [], sc, sc', _, env, rest, h, hl, _ => by
    simp only [declareAll, Option.some.injEq] at h
    subst h
    simpa using hl
  | b :: bs, sc, sc', wr, env, rest, h, hl, hd => by
    simp only [declareAll, declare] at h
    split at h
    · cases h
    · rename_i sc1 e
      split at e
      · cases e
      · simp only [Option.some.injEq, Prod.mk.injEq] at e
        obtain ⟨-, rfl⟩ := e
        have hk : L[sc.numArgs + sc.numTemps]? = some b.tag := by
          have := congrArg (·[0]?) hd
          simpa [tags] using this
        have hd' : L.drop (sc.numArgs + (sc.numTemps + 1)) = tags bs ++ rest := by
          have := congrArg (·.drop 1) hd
          simpa [tags, ← Nat.add_assoc] using this
        obtain ⟨h1, h2, h3⟩ := declareAll_spec h (env := b :: env) (rest := rest) (localOk_cons hl hk) hd'
        refine ⟨by simpa using h1, h2, ?_⟩
        simp only [h3, List.length_cons]
        omega

/-- A reference agrees with a declaration. -/
def RefOk (lays : List (List Nat)) : Ref (Nat × Nat) → Ref Nat → Prop
  | .bound (d, i), .bound t => ∃ L, lays[d]? = some L ∧ L[i]? = some t
  | .free x, .free y => x = y
  | _, _ => False

theorem refOk_find {L : List Nat} {lays : List (List Nat)} {l : List Sym} {ls : List (List Sym)} {env env' : List Binder}
    {x : Nat} (hl : LocalOk L l env) (h : lookup env x = .free x → RefOk lays (refOf x (find ls x)) (lookup env' x)) :
    RefOk (L :: lays) (refOf x (find (l :: ls) x)) (lookup (env ++ env') x) := by
  have hx := hl x
  simp only [find, lookup, List.find?_append] at *
  split at hx
  · rename_i i ro b e1 e2
    simp only [e1, e2, refOf]
    exact ⟨L, rfl, hx⟩
  · rename_i e1 e2
    simp only [e1, e2, Option.none_or] at h ⊢
    have h := h trivial
    cases e : find ls x with
    | none =>
      simp only [e, refOf] at h ⊢
      split at h <;> simp_all [RefOk]
    | some p =>
      obtain ⟨⟨d, i⟩, ro⟩ := p
      simp only [e, refOf] at h ⊢
      split at h <;> simp_all [RefOk]
  · exact hx.elim

theorem resolve_syms : ∀ {src : Src} {outer : List (List Sym)} {sc sc' : Sc} {t : T (Nat × Nat) (Nat × Nat)},
    resolve outer sc src = some (t, sc') → sc'.syms = sc.syms ∧ sc'.numArgs = sc.numArgs ∧
      sc'.numTemps = sc.numTemps + (loopVars src).length
  | .const, _, _, _, _, h => by simp only [resolve, Option.some.injEq, Prod.mk.injEq] at h; simp [← h.2, loopVars]
  | .var _, _, _, _, _, h => by simp only [resolve, Option.some.injEq, Prod.mk.injEq] at h; simp [← h.2, loopVars]
  | .assign _ e, _, _, _, _, h => by
    simp only [resolve] at h
    split at h
    · cases h
    · rename_i e' sc1 he
      have := resolve_syms he
      split at h
      · cases h
      · simp only [Option.some.injEq, Prod.mk.injEq] at h
        simpa [← h.2, loopVars] using this
  | .pair a b, _, _, _, _, h => by
    simp only [resolve] at h
    split at h
    · cases h
    · rename_i a' sc1 ha
      split at h
      · cases h
      · rename_i b' sc2 hb
        have h1 := resolve_syms ha
        have h2 := resolve_syms hb
        simp only [Option.some.injEq, Prod.mk.injEq] at h
        obtain ⟨-, rfl⟩ := h
        simp only [loopVars, List.length_append]
        exact ⟨h2.1.trans h1.1, h2.2.1.trans h1.2.1, by omega⟩
  | .block _ _ b, _, _, _, _, h => by
    simp only [resolve] at h
    split at h
    · cases h
    · split at h
      · cases h
      · simp only [Option.some.injEq, Prod.mk.injEq] at h
        simp [← h.2, loopVars]
  | .toDo frm lim i b, _, _, _, _, h => by
    simp only [resolve] at h
    split at h
    · cases h
    · rename_i f' sc1 hf
      have h1 := resolve_syms hf
      split at h
      · cases h
      · rename_i slot sc2 hd
        simp only [declare, Bool.not_true, Bool.false_and, Bool.false_eq_true, if_false, Option.some.injEq,
          Prod.mk.injEq] at hd
        obtain ⟨-, rfl⟩ := hd
        split at h
        · cases h
        · rename_i l' sc3 hl
          have h2 := resolve_syms hl
          split at h
          · cases h
          · rename_i b' sc4 hb
            have h3 := resolve_syms hb
            simp only [Option.some.injEq, Prod.mk.injEq] at h
            obtain ⟨-, rfl⟩ := h
            simp only at h2
            simp only [loopVars, List.length_append, List.length_cons, List.length_nil, h3.1, h2.1, List.tail_cons]
            exact ⟨h1.1, h3.2.1.trans (h2.2.1.trans h1.2.1), by omega⟩

theorem openScope_spec {ps ts : List Binder} {sc : Sc} {L : List Nat} {rest : List Nat} (h : openScope ps ts = some sc)
    (hL : L = tags ps ++ (tags ts ++ rest)) :
    LocalOk L sc.syms (ts.reverse ++ ps.reverse) ∧ sc.numArgs = ps.length ∧ sc.numTemps = ts.length := by
  simp only [openScope] at h
  split at h
  · cases h
  · rename_i sc1 h1
    obtain ⟨a1, a2, a3⟩ := declareAll_spec (L := L) (env := []) (rest := tags ts ++ rest) h1
      (fun x => by simp [findLocal]) (by simp [hL])
    simp only [Nat.zero_add] at a3
    obtain ⟨b1, b2, b3⟩ := declareAll_spec (L := L) (env := ps.reverse ++ []) (rest := rest) h (by simpa using a1)
      (by
        have : (tags ps).length = ps.length := by simp [tags]
        simp only [a3, hL, Nat.add_zero]
        rw [← this]
        simp)
    exact ⟨by simpa using b1, by simp [b2, a3], by simp [b3]⟩

theorem tags_length (bs : List Binder) : (tags bs).length = bs.length := by simp [tags]

theorem tags_append (a b : List Binder) : tags (a ++ b) = tags a ++ tags b := by simp [tags]

theorem resolve_agrees : ∀ {src : Src} {outer : List (List Sym)} {sc sc' : Sc} {t : T (Nat × Nat) (Nat × Nat)}
    {L : List Nat} {lays : List (List Nat)} {env : List Binder} {rest : List Nat},
    resolve outer sc src = some (t, sc') → LimitsApart src →
    L.drop (sc.numArgs + sc.numTemps) = tags (loopVars src) ++ rest →
    (∀ x ∈ names src, RefOk (L :: lays) (refOf x (find (sc.syms :: outer) x)) (lookup env x)) →
    Agrees (L :: lays) t (lex env src)
  | .const, _, _, _, _, _, _, _, _, h, _, _, _ => by
    simp only [resolve, Option.some.injEq, Prod.mk.injEq] at h
    rw [← h.1, lex]; exact .const
  | .var x, outer, sc, _, _, L, lays, env, _, h, _, _, hn => by
    simp only [resolve, Option.some.injEq, Prod.mk.injEq] at h
    have := hn x (by simp [names])
    rw [← h.1, lex]
    revert this
    cases refOf x (find (sc.syms :: outer) x) <;> cases lookup env x <;> intro this
    · obtain ⟨M, h1, h2⟩ := this; exact .var h1 h2
    · exact this.elim
    · exact this.elim
    · rw [show _ = _ from this]; exact .free
  | .assign x e, outer, sc, _, _, L, lays, env, rest, h, hA, hd, hn => by
    simp only [resolve] at h
    split at h
    · cases h
    · rename_i e' sc1 he
      have hs := resolve_syms he
      have ih := resolve_agrees he hA hd (lays := lays) (env := env) (fun y hy => hn y (by simp [names, hy]))
      split at h
      · cases h
      · rw [hs.1] at h
        simp only [Option.some.injEq, Prod.mk.injEq] at h
        have := hn x (by simp [names])
        rw [← h.1, lex]
        revert this
        cases refOf x (find (sc.syms :: outer) x) <;> cases lookup env x <;> intro this
        · obtain ⟨M, h1, h2⟩ := this; exact .assign h1 h2 ih
        · exact this.elim
        · exact this.elim
        · rw [show _ = _ from this]; exact .assignFree ih
  | .pair a b, outer, sc, _, _, L, lays, env, rest, h, hA, hd, hn => by
    simp only [resolve] at h
    split at h
    · cases h
    · rename_i a' sc1 ha
      split at h
      · cases h
      · rename_i b' sc2 hb
        have h1 := resolve_syms ha
        simp only [Option.some.injEq, Prod.mk.injEq] at h
        rw [← h.1, lex]
        rw [loopVars, tags_append, List.append_assoc] at hd
        refine .pair (resolve_agrees ha hA.1 hd (fun y hy => hn y (by simp [names, hy])))
          (resolve_agrees hb hA.2 (rest := rest) ?_ (fun y hy => ?_))
        · have := congrArg (·.drop (loopVars a).length) hd
          simp only [List.drop_drop] at this
          rw [h1.2.1, h1.2.2, ← Nat.add_assoc, this, ← tags_length (loopVars a)]
          simp
        · rw [h1.1]; exact hn y (by simp [names, hy])
  | .block ps ts b, outer, sc, _, _, L, lays, env, rest, h, hA, hd, hn => by
    simp only [resolve] at h
    split at h
    · cases h
    · rename_i sc1 ho
      split at h
      · cases h
      · rename_i b' sc2 hb
        have h1 := resolve_syms hb
        obtain ⟨o1, o2, o3⟩ := openScope_spec (L := tags ps ++ tags (ts ++ loopVars b)) (rest := tags (loopVars b)) ho
          (by simp [tags_append])
        simp only [Option.some.injEq, Prod.mk.injEq] at h
        rw [← h.1, lex]
        have e1 : sc2.numArgs = (tags ps).length := by rw [h1.2.1, o2, tags_length]
        have e2 : sc2.numTemps = (tags (ts ++ loopVars b)).length := by rw [h1.2.2, o3, tags_length]; simp
        rw [e1, e2]
        refine .block (resolve_agrees hb hA (rest := []) ?_ (fun y hy => ?_))
        · rw [o2, o3, tags_append, ← tags_length ps, ← tags_length ts, ← List.append_assoc, ← List.length_append]
          simp
        · rw [← List.append_assoc]
          exact refOk_find o1 (fun _ => hn y (by simp [names, hy]))
  | .toDo frm lim i b, outer, sc, _, _, L, lays, env, rest, h, hA, hd, hn => by
    obtain ⟨hA1, hA2, hA3, hA4⟩ := hA
    simp only [resolve] at h
    split at h
    · cases h
    · rename_i f' sc1 hf
      have h1 := resolve_syms hf
      split at h
      · cases h
      · rename_i slot sc2 hdl
        simp only [declare, Bool.not_true, Bool.false_and, Bool.false_eq_true, if_false, Option.some.injEq,
          Prod.mk.injEq] at hdl
        obtain ⟨rfl, rfl⟩ := hdl
        split at h
        · cases h
        · rename_i l' sc3 hl
          have h2 := resolve_syms hl
          simp only at h2
          split at h
          · cases h
          · rename_i b' sc4 hb
            simp only [Option.some.injEq, Prod.mk.injEq] at h
            rw [← h.1, lex]
            simp only [loopVars, tags_append, List.append_assoc] at hd
            have hd1 : L.drop (sc1.numArgs + sc1.numTemps)
                = tags [i] ++ (tags (loopVars lim) ++ (tags (loopVars b) ++ rest)) := by
              have := congrArg (·.drop (loopVars frm).length) hd
              simp only [List.drop_drop] at this
              rw [h1.2.1, h1.2.2, ← Nat.add_assoc, this, ← tags_length (loopVars frm)]
              simp
            have hk : L[sc1.numArgs + sc1.numTemps]? = some i.tag := by
              have := congrArg (·[0]?) hd1
              simpa [tags] using this
            have hd2 : L.drop (sc1.numArgs + (sc1.numTemps + 1))
                = tags (loopVars lim) ++ (tags (loopVars b) ++ rest) := by
              have := congrArg (·.drop 1) hd1
              simpa [tags, ← Nat.add_assoc] using this
            have hd3 : L.drop (sc3.numArgs + sc3.numTemps) = tags (loopVars b) ++ rest := by
              have := congrArg (·.drop (loopVars lim).length) hd2
              simp only [List.drop_drop] at this
              rw [h2.2.1, h2.2.2, ← Nat.add_assoc, this, ← tags_length (loopVars lim)]
              simp
            refine .toDo (resolve_agrees hf hA2 hd (fun y hy => hn y (by simp [names, hy])))
              (resolve_agrees hl hA3 hd2 (fun y hy => ?_)) hk (resolve_agrees hb hA4 hd3 (fun y hy => ?_))
            · have hy' : y ≠ i.name := fun e => hA1 (e ▸ hy)
              simp only [find, findLocal, hy', if_false]
              rw [h1.1]
              exact hn y (by simp [names, hy])
            · rw [h2.1]
              by_cases hy' : y = i.name
              · subst hy'
                simp only [find, findLocal, if_true, refOf, lookup, List.find?, BEq.rfl]
                exact ⟨L, rfl, hk⟩
              · have e : (i.name == y) = false := by simpa using fun h => hy' h.symm
                simp only [find, findLocal, hy', if_false, lookup, List.find?, e]
                rw [h1.1]
                exact hn y (by simp [names, hy])

/-- C98, partial: in a method that compiles, every name of an argument, temporary or loop variable is compiled
to the slot of its innermost enclosing declaration; different declarations in a context have different slots,
and the context has exactly that many; other names are left to the instance variables and globals.  The
hypothesis on the limits of loops cannot be dropped: `limit_captured`. -/
theorem lexical_partial {ps ts : List Binder} {b : Src} {t : T (Nat × Nat) (Nat × Nat)}
    (h : resolveMethod ps ts b = some t) (hA : LimitsApart b) : Agrees [] t (lex [] (.block ps ts b)) := by
  simp only [resolveMethod] at h
  split at h
  · cases h
  · rename_i sc1 ho
    split at h
    · cases h
    · rename_i b' sc2 hb
      have h1 := resolve_syms hb
      obtain ⟨o1, o2, o3⟩ := openScope_spec (L := tags ps ++ tags (ts ++ loopVars b)) (rest := tags (loopVars b)) ho
        (by simp [tags_append])
      simp only [Option.some.injEq] at h
      rw [← h, lex]
      have e1 : sc2.numArgs = (tags ps).length := by rw [h1.2.1, o2, tags_length]
      have e2 : sc2.numTemps = (tags (ts ++ loopVars b)).length := by rw [h1.2.2, o3, tags_length]; simp
      rw [e1, e2]
      refine .block (resolve_agrees hb hA (rest := []) ?_ (fun y hy => ?_))
      · rw [o2, o3, tags_append, ← tags_length ps, ← tags_length ts, ← List.append_assoc, ← List.length_append]
        simp
      · rw [← List.append_assoc]
        exact refOk_find o1 (fun _ => by simp [find, refOf, lookup, RefOk])

/-- `[:a | | b | b := a. 1 to: a do: [:i | [:a | a + i + b] ] ]`: names are reused, loops and blocks nest. -/
example : (resolveMethod [⟨0, 10⟩] [⟨1, 11⟩] (.pair (.assign 1 (.var 0))
    (.toDo .const (.var 0) ⟨2, 12⟩ (.block [⟨0, 13⟩] [] (.pair (.var 0) (.pair (.var 2) (.var 1))))))).isSome = true ∧
    LimitsApart (.pair (.assign 1 (.var 0))
      (.toDo .const (.var 0) ⟨2, 12⟩ (.block [⟨0, 13⟩] [] (.pair (.var 0) (.pair (.var 2) (.var 1)))))) :=
  ⟨by decide, by simp [LimitsApart, names]⟩

/-- C98 is false for the limits of loops: in the method `m: i`, the `i` in `1 to: i do: [:i | … ]` should be the
argument, and is compiled to the variable of the loop. -/
theorem limit_captured : ∃ t, resolveMethod [⟨0, 10⟩] [] (.toDo .const (.var 0) ⟨0, 11⟩ (.var 0)) = some t ∧
    ¬ Agrees [] t (lex [] (.block [⟨0, 10⟩] [] (.toDo .const (.var 0) ⟨0, 11⟩ (.var 0)))) := by
  refine ⟨.block (1, 1) (.toDo .const (.var (.bound (0, 1))) (0, 1) (.var (.bound (0, 1)))), by rfl, fun h => ?_⟩
  have key : ∀ {u u'}, Agrees [] u u' → ∀ {p q b A B b'}, u = .block (p, q) b → u' = .block (A, B) b' →
      Agrees [A ++ B] b b' := by
    intro u u' h p q b A B b' e e'
    cases h <;> cases e
    cases e'
    assumption
  have h := key h rfl rfl
  simp only [tags, loopVars, lex, lookup] at h
  cases h with
  | toDo _ hl _ _ =>
    cases hl with
    | var h h' => simp at h; subst h; simp at h'

/-- Arguments and variables of loops cannot be assigned: a method that assigns one does not compile. -/
theorem loop_variable_readonly (outer : List (List Sym)) (sc : Sc) (frm lim : Src) (i : Binder) (e : Src) :
    resolve outer sc (.toDo frm lim i (.assign i.name e)) = none := by
  have key : ∀ sc3 : Sc, (findLocal sc3.syms i.name).any (·.2) = true → resolve outer sc3 (.assign i.name e) = none := by
    intro sc3 h3
    simp only [resolve]
    cases he : resolve outer sc3 e with
    | none => rfl
    | some p =>
      obtain ⟨e', sc5⟩ := p
      have h5 := (resolve_syms he).1
      cases hf : findLocal sc3.syms i.name with
      | none => simp [hf] at h3
      | some q =>
        obtain ⟨k, ro⟩ := q
        simp only [hf, Option.any_some] at h3
        subst h3
        simp [h5, find, hf]
  rw [resolve.eq_def]
  simp only
  cases hf : resolve outer sc frm with
  | none => rfl
  | some p =>
    obtain ⟨f', sc1⟩ := p
    simp only [declare, Bool.not_true, Bool.false_and, Bool.false_eq_true, if_false]
    split
    · rfl
    · rename_i l' sc3 hl
      rw [key sc3 (by rw [(resolve_syms hl).1]; simp [findLocal])]

/-- The same name twice among the arguments and temporaries of a block: it does not compile. -/
theorem duplicate_refused {ps ts : List Binder} {sc : Sc} (h : openScope ps ts = some sc) :
    ((ps ++ ts).map (·.name)).Nodup := by
  have key : ∀ (bs : List Binder) (sc sc' : Sc) (wr : Bool), declareAll sc wr bs = some sc' →
      (sc.syms.map (·.1)).Nodup → (sc'.syms.map (·.1)).Nodup ∧
        sc'.syms.map (·.1) = (bs.map (·.name)).reverse ++ sc.syms.map (·.1) := by
    intro bs
    induction bs with
    | nil =>
      intro sc sc' wr h hn
      simp only [declareAll, Option.some.injEq] at h
      subst h
      simp [hn]
    | cons b bs ih =>
      intro sc sc' wr h hn
      simp only [declareAll, declare] at h
      split at h
      · cases h
      · rename_i sc1 e
        split at e
        · cases e
        · rename_i hf
          simp only [Option.some.injEq, Prod.mk.injEq] at e
          obtain ⟨-, rfl⟩ := e
          have hm : ∀ l : List Sym, findLocal l b.name = none → b.name ∉ l.map (·.1) := by
            intro l
            induction l with
            | nil => simp
            | cons a l ihl =>
              obtain ⟨y, k, ro⟩ := a
              simp only [findLocal, List.map_cons, List.mem_cons]
              split
              · simp
              · rename_i hne; exact fun hl => by simp [hne, ihl hl] <;> simpa using ihl hl
          have hb : b.name ∉ sc.syms.map (·.1) := hm _ (by simpa using hf)
          obtain ⟨i1, i2⟩ := ih _ sc' wr h (by simpa using ⟨by simpa using hb, hn⟩)
          exact ⟨i1, by simp [i2]⟩
  simp only [openScope] at h
  split at h
  · cases h
  · rename_i sc1 h1
    obtain ⟨a1, a2⟩ := key _ _ _ _ h1 (by simp)
    obtain ⟨b1, b2⟩ := key _ _ _ _ h (by simpa using a1)
    rw [b2] at b1
    simp only [a2, List.map_nil, List.append_nil] at b1
    rw [← List.reverse_append, ← List.map_append] at b1
    simp only [List.Nodup, List.pairwise_reverse] at b1
    exact b1.imp (fun h => h.symm)

/-! ## C99: the header of a method -/

/-- comp.h l.89, comp.c l.2679: `numTemps` has 6 bits in the header, and nothing checks that it fits.  Where the
stack of a context starts, interp.c l.871-899 `prepare_context`, interp-bc.inl l.309: behind the arguments and
the temporaries that the header declares. -/
def stackBase (numArgs numTemps : Nat) : Nat := numArgs + numTemps % 64

/-- The slots of the variables are not in the stack exactly when the number of temporaries fits. -/
theorem slots_apart_iff (a t : Nat) : (∀ i, i < a + t → i < stackBase a t) ↔ t < 64 := by
  simp only [stackBase]
  constructor
  · intro h
    by_cases h0 : a + t = 0
    · omega
    · have := h (a + t - 1) (by omega)
      omega
  · intro h i hi
    omega

/-- A method with `n` loops one after the other. -/
def loops : Nat → Src
  | 0 => .const
  | n + 1 => .pair (.toDo .const .const ⟨0, n⟩ (.var 0)) (loops n)

theorem loopVars_loops : ∀ n, (loopVars (loops n)).length = n
  | 0 => rfl
  | n + 1 => by simp [loops, loopVars, loopVars_loops n]

/-- C99 is false: every loop takes a slot for good, so a method with 64 loops one after the other compiles to a
method whose header declares no temporaries: the first loop variable is the first slot of its stack. -/
theorem many_loops_overlap : (∃ t, resolveMethod [] [] (loops 64) = some (.block (0, 64) t)) ∧ stackBase 0 64 = 0 := by
  refine ⟨?_, rfl⟩
  have h : ∀ n (sc : Sc), ∃ t sc', resolve [] sc (loops n) = some (t, sc') := by
    intro n
    induction n with
    | zero => exact fun sc => ⟨_, _, rfl⟩
    | succ n ih =>
      intro sc
      simp only [loops, resolve, declare, Bool.not_true, Bool.false_and, Bool.false_eq_true, if_false]
      obtain ⟨t, sc', e⟩ := ih { sc with syms := sc.syms, numArgs := sc.numArgs, numTemps := sc.numTemps + 1 }
      simp only [List.tail_cons]
      rw [e]
      exact ⟨_, _, rfl⟩
  obtain ⟨t, sc', e⟩ := h 64 ⟨[], 0, 0⟩
  have hs := resolve_syms e
  rw [loopVars_loops] at hs
  refine ⟨t, ?_⟩
  simp only [resolveMethod, openScope, declareAll]
  rw [e]
  simp [hs.2]

end Verif.Compiler.Scope
