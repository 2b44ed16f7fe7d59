import Mathlib.Data.Nat.Notation
import Mathlib.Data.List.Basic

/-!
# The search order of global names (libgst/sym.c, kernel/Class.st)

Objects are numbers and `nil` is 0.  Sets of pointers (lib-src/pointer-set.c, not modelled) are lists, of which
only membership is used.  Walks along superspaces take a number of rounds; `none` means that they did not end in so many.
-/

namespace Verif.Pools

/-- What one can ask an object that may be a pool. -/
structure Graph where
  /-- `_gst_class_variable_dictionary`, for a kind of Class. -/
  classDict : ℕ → Option ℕ
  /-- It is a kind of Dictionary. -/
  isDict : ℕ → Bool
  /-- It is a kind of AbstractNamespace. -/
  isSpace : ℕ → Bool
  superspace : ℕ → ℕ
  /-- The shared pools of a namespace. -/
  imports : ℕ → List ℕ

/-- A class that is given as a pool stands for its class variables (libgst/sym.c:642-643, 670-671, 726-727). -/
def asPool (g : Graph) (p : ℕ) : ℕ := (g.classDict p).getD p

/-- The loop of `make_with_all_superspaces_set` (libgst/sym.c:645-655). -/
def superLoop (g : Graph) : ℕ → ℕ → List ℕ → Option (List ℕ)
  | 0, _, _ => none
  | n + 1, p, s =>
    if g.isSpace p then superLoop g n (g.superspace p) (p :: s)
    else if g.isDict p then some (p :: s)
    else some s

/-- `make_with_all_superspaces_set` (libgst/sym.c:638-658). -/
def superSet (g : Graph) (n p : ℕ) : Option (List ℕ) := superLoop g n (asPool g p) []

/-- What `visit_pool` changes: the sets `grey` and `white`, the list, and whether an error was reported. -/
structure St where
  grey : List ℕ
  white : List ℕ
  head : List ℕ
  err : Bool

/-- `visit_pool` (libgst/sym.c:719-760).  The tail of the list, that is kept with it, is its last entry. -/
def visit (g : Graph) : ℕ → ℕ → St → Option St
  | 0, _, _ => none
  | n + 1, p, st =>
    let p := asPool g p
    if ¬ g.isDict p then some st
    else if p ∈ st.white then some st
    else if p ∈ st.grey then some { st with err := true }
    else
      let st := { st with grey := p :: st.grey }
      let r := if g.isSpace p && g.superspace p ≠ 0 then visit g n (g.superspace p) st else some st
      r.map fun st => { st with white := p :: st.white, head := p :: st.head }

/-- `combine_local_pools` (libgst/sym.c:768-796): from right to left. -/
def combine (g : Graph) (n : ℕ) (pools white out : List ℕ) (err : Bool) : Option (List ℕ × Bool) :=
  (pools.reverse.foldlM (fun st p => visit g n p st) ⟨[], white, [], err⟩).map fun st => (out ++ st.head, st.err)

/-- The loop of `add_namespace` (libgst/sym.c:673-700).  `NULL` for `except` is the empty set. -/
def spaceLoop (g : Graph) (n : ℕ) (except : List ℕ) : ℕ → ℕ → List ℕ → Bool → Option (List ℕ × Bool)
  | 0, _, _, _ => none
  | k + 1, p, out, err =>
    if ¬ g.isDict p then some (out, err)
    else
      let out := if p ∈ except then out else out ++ [p]
      if ¬ g.isSpace p then some (out, err)
      else
        let r := if g.imports p = [] then some (out, err)
          else (superSet g n p).bind fun s => combine g n (g.imports p) s out err
        r.bind fun r => spaceLoop g n except k (g.superspace p) r.1 r.2

/-- `add_namespace` (libgst/sym.c:667-701). -/
def addNamespace (g : Graph) (n : ℕ) (except : List ℕ) (p : ℕ) (out : List ℕ) (err : Bool) : Option (List ℕ × Bool) :=
  spaceLoop g n except n (asPool g p) out err

/-- A class: its class variables, its shared pools and its environment. -/
structure Cls where
  pool : ℕ
  shared : List ℕ
  env : ℕ

/-- `add_shared_pool_resolution` (libgst/sym.c:804-828). -/
def addResolution (g : Graph) (n : ℕ) (c : Cls) (sup : Option Cls) (env : ℕ) (out : List ℕ) (err : Bool) : Option (List ℕ × Bool) :=
  (superSet g n env).bind fun s =>
    (combine g n c.shared s out err).bind fun r =>
      (match sup with
        | some d => superSet g n d.env
        | none => some []).bind fun except => addNamespace g n except env r.1 r.2

/-- `_gst_compute_linearized_pools` (libgst/sym.c:830-857) for a class and its superclasses, from the class up.  `doit` is the namespace that
replaces the environments when a statement is compiled. -/
def linearize (g : Graph) (n : ℕ) (doit : Option ℕ) : List Cls → List ℕ → Bool → Option (List ℕ × Bool)
  | [], out, err => some (out, err)
  | c :: cs, out, err =>
    let out := if c.pool = 0 then out else out ++ [c.pool]
    (addResolution g n c cs.head? (doit.getD c.env) out err).bind fun r => linearize g n doit cs r.1 r.2

/-- `find_class_variable` (libgst/sym.c:859-875): the first pool that has the name. -/
def find (defines : ℕ → ℕ → Bool) (pools : List ℕ) (x : ℕ) : Option ℕ := pools.find? fun p => defines p x

/-! ### The same in Smalltalk -/

/-- `allSuperspaces` (kernel/AbstNamespc.st:290-299, kernel/Dictionary.st:603-618), from the one below up. -/
def allSuperspaces (g : Graph) : ℕ → ℕ → Option (List ℕ)
  | 0, _ => none
  | n + 1, p =>
    if g.isSpace p then
      if g.superspace p = 0 then some [] else (allSuperspaces g n (g.superspace p)).map (g.superspace p :: ·)
    else some []

/-- The block `descend` of `allPoolDictionaries:except:do:` (kernel/Class.st:57-68); `k` counts how deep it calls itself. -/
def descend (g : Graph) (n : ℕ) : ℕ → ℕ → St → Option St
  | 0, _, _ => none
  | k + 1, p, st =>
    if p ∈ st.white then some st
    else if p ∈ st.grey then some { st with err := true }
    else
      (allSuperspaces g n p).bind fun ss =>
        (ss.reverse.foldlM (fun st p => descend g n k p st) { st with grey := p :: st.grey }).map fun st =>
          { st with white := p :: st.white, head := p :: st.head }

/-- `allPoolDictionaries:except:do:` (kernel/Class.st:45-71); the block adds to `out`. -/
def allPools (g : Graph) (n : ℕ) (list white out : List ℕ) (err : Bool) : Option (List ℕ × Bool) :=
  if list = [] then some (out, err)
  else (list.reverse.foldlM (fun st p => descend g n n p st) ⟨[], white, [], err⟩).map fun st => (out ++ st.head, st.err)

/-- `withAllSuperspacesDo:` (kernel/Dictionary.st:666-673). -/
def withSupers (g : Graph) (n p : ℕ) : Option (List ℕ) := (allSuperspaces g n p).map (p :: ·)

/-- The loop over the natural spaces (kernel/Class.st:685-691). -/
def natural (g : Graph) (n : ℕ) (skip spaces : List ℕ) : List ℕ → List ℕ → Bool → Option (List ℕ × Bool)
  | [], out, err => some (out, err)
  | x :: xs, out, err =>
    if x ∈ skip then natural g n skip spaces xs out err
    else (allPools g n (g.imports x) spaces (out ++ [x]) err).bind fun r => natural g n skip spaces xs r.1 r.2

/-- `allSharedPoolDictionariesDo:` (kernel/Class.st:648-694), without `overrideEnvironment:`; `spaces` is `superclassSpaces`, `nil` for the
first class. -/
def stLinearize (g : Graph) (n : ℕ) : Option (List ℕ) → List Cls → List ℕ → Bool → Option (List ℕ × Bool)
  | _, [], out, err => some (out, err)
  | spaces, c :: cs, out, err =>
    (match spaces with
      | none => withSupers g n c.env
      | some s => some s).bind fun classSpaces =>
    (allPools g n c.shared classSpaces (out ++ [c.pool]) err).bind fun r =>
    (match cs.head? with
      | some d => withSupers g n d.env
      | none => some []).bind fun skip =>
    (withSupers g n c.env).bind fun env =>
    (natural g n skip classSpaces env r.1 r.2).bind fun r => stLinearize g n (some skip) cs r.1 r.2

end Verif.Pools
