import Verif.OrdColl.Model
/-!
# What an OrderedCollection is: a list
-/
namespace Verif.OrdColl
variable {V : Type} [Inhabited V]

/-- The index, from 1, of the first element at or after position `i` that equals `x`. -/
def firstIndex (eq : V → V → Bool) (xs : List V) (x : V) (i : Nat) : Option Int :=
  ((xs.drop (i - 1)).findIdx? (eq · x)).map fun k => ((i + k : Nat) : Int)

/-- The messages on lists. -/
def spec (eq : V → V → Bool) (xs : List V) : Op V → Res (Ans V × List V)
  | .add v => .ok (.done, xs ++ [v])
  | .addFirst v => .ok (.done, v :: xs)
  | .addAfter v i => if 0 ≤ i ∧ i ≤ xs.length then .ok (.done, xs.take i.toNat ++ v :: xs.drop i.toNat) else .error .index
  | .addAll vs => .ok (.done, xs ++ vs)
  | .addAllFirst vs => .ok (.done, vs ++ xs)
  | .addAllAfter vs i => if 0 ≤ i ∧ i ≤ xs.length then .ok (.done, xs.take i.toNat ++ vs ++ xs.drop i.toNat) else .error .index
  | .addAfterObject v o =>
    match firstIndex eq xs o 1 with
    | none => .error .notFound
    | some i => .ok (.done, xs.take i.toNat ++ v :: xs.drop i.toNat)
  | .addBeforeObject v o =>
    match firstIndex eq xs o 1 with
    | none => .error .notFound
    | some i => .ok (.done, xs.take (i - 1).toNat ++ v :: xs.drop (i - 1).toNat)
  | .removeFirst => match xs with | [] => .error .empty | x :: r => .ok (.val x, r)
  | .removeLast => match xs.getLast? with | none => .error .empty | some x => .ok (.val x, xs.dropLast)
  | .removeAt i =>
    if xs = [] then .error .empty
    else match (if 1 ≤ i then xs[(i - 1).toNat]? else none) with
      | none => .error .index
      | some x => .ok (.val x, xs.take (i - 1).toNat ++ xs.drop i.toNat)
  | .remove v =>
    match firstIndex eq xs v 1 with
    | none => .error .notFound
    | some i => match xs[(i - 1).toNat]? with
      | none => .error .index
      | some x => .ok (.val x, xs.take (i - 1).toNat ++ xs.drop i.toNat)
  | .at i => match (if 1 ≤ i then xs[(i - 1).toNat]? else none) with | none => .error .index | some x => .ok (.val x, xs)
  | .put i v => if 1 ≤ i ∧ i ≤ xs.length then .ok (.done, xs.set (i - 1).toNat v) else .error .index
  | .first => match xs.head? with | none => .error .index | some x => .ok (.val x, xs)
  | .last => match xs.getLast? with | none => .error .index | some x => .ok (.val x, xs)
  | .size => .ok (.int xs.length, xs)
  | .indexOf v i => if 1 ≤ i ∧ i ≤ xs.length + 1 then .ok (.idx (firstIndex eq xs v i.toNat), xs) else .error .index
  | .elements => .ok (.list xs, xs)

def specs (eq : V → V → Bool) : List V → List (Op V) → List (Res (Ans V)) × List V
  | xs, [] => ([], xs)
  | xs, o :: os =>
    match spec eq xs o with
    | .ok (a, xs') => ((.ok a) :: (specs eq xs' os).1, (specs eq xs' os).2)
    | .error e => ((.error e) :: (specs eq xs os).1, (specs eq xs os).2)

end Verif.OrdColl
