import Verif.SortColl.Search
/-!
# What a SortedCollection is: a bag whose elements come out in order

The elements are a list `M`, of which only the permutation class counts. Where several elements sort alike the code may pick any of them, so the
specification is a relation between a message, its answer and the elements after it.
-/
namespace Verif.SortColl
open Verif.OrdColl
variable {V : Type} [Inhabited V]

/-- `l` lists the elements of `M` in order. -/
def Arranged (blk : V → V → Bool) (M l : List V) : Prop := l.Perm M ∧ l.Pairwise (Le blk)

def atIndex (l : List V) (i : Int) : Option V := if 1 ≤ i then l[(i - 1).toNat]? else none

/-- Message, answer and elements afterwards. -/
def Spec (blk eq : V → V → Bool) (M : List V) : Op V → Res (Ans V) → List V → Prop
  | .add v, r, M' => r = .ok .done ∧ M'.Perm (v :: M)
  | .addAll vs, r, M' => r = .ok .done ∧ M'.Perm (vs ++ M)
  | .removeFirst, r, M' => if M = [] then r = .error .empty ∧ M' = [] else ∃ x, r = .ok (.val x) ∧ M.Perm (x :: M') ∧ ∀ y ∈ M, Le blk x y
  | .removeLast, r, M' => if M = [] then (∃ e, r = .error e) ∧ M' = [] else ∃ x, r = .ok (.val x) ∧ M.Perm (x :: M') ∧ ∀ y ∈ M, Le blk y x
  | .removeAt i, r, M' => ∃ l, Arranged blk M l ∧ (match atIndex l i with
      | none => r = .error (if M = [] then .empty else .index) ∧ M'.Perm M
      | some x => r = .ok (.val x) ∧ M'.Perm (l.take (i - 1).toNat ++ l.drop i.toNat))
  | .remove v, r, M' => (r = .error .notFound ∧ M'.Perm M ∧ ∀ y ∈ M, ¬ eq v y = true) ∨ ∃ x, r = .ok (.val x) ∧ eq v x = true ∧ M.Perm (x :: M')
  | .first, r, M' => M'.Perm M ∧ if M = [] then r = .error .index else ∃ x ∈ M, r = .ok (.val x) ∧ ∀ y ∈ M, Le blk x y
  | .last, r, M' => M'.Perm M ∧ (M ≠ [] → ∃ x ∈ M, r = .ok (.val x) ∧ ∀ y ∈ M, Le blk y x)
  | .at i, r, M' => M'.Perm M ∧ ∃ l, Arranged blk M l ∧ r = (match atIndex l i with | none => .error .index | some x => .ok (.val x))
  | .size, r, M' => M'.Perm M ∧ r = .ok (.int M.length)
  | .elements, r, M' => M'.Perm M ∧ ∃ l, Arranged blk M l ∧ r = .ok (.list l)
  | .includes v, r, M' => M'.Perm M ∧ ((∃ y ∈ M, eq v y = true) → r = .ok (.int 1)) ∧ ((∀ y ∈ M, ¬ eq v y = true) → r = .ok (.int 0))
  | .indexOf v i, r, M' => M'.Perm M ∧ ∃ l, Arranged blk M l ∧
      if i < 1 ∨ i > M.length + 1 then r = .error .index
      else (r = .ok (.idx none) ∧ ∀ j, i ≤ j → ∀ y, atIndex l j = some y → ¬ eq v y = true) ∨
        ∃ j y, r = .ok (.idx (some j)) ∧ i ≤ j ∧ atIndex l j = some y ∧ eq v y = true
  | .sortBlockSame, r, M' => r = .ok .done ∧ M'.Perm M

/-- Answers to a sequence of messages. -/
def Trace (blk eq : V → V → Bool) : List V → List (Op V) → List (Res (Ans V)) → Prop
  | _, [], rs => rs = []
  | M, o :: os, rs => ∃ r rs' M', rs = r :: rs' ∧ Spec blk eq M o r M' ∧ Trace blk eq M' os rs'

/-- In the sequence no `add:` or `addAll:` comes after a `removeLast` with at most `size` and `indexOf:` between them (these may leave the collection as it is). `d` says whether a `removeLast` came just before. -/
def Safe : Bool → List (Op V) → Prop
  | _, [] => True
  | d, .add _ :: os => d = false ∧ Safe false os
  | d, .addAll _ :: os => d = false ∧ Safe false os
  | _, .removeLast :: os => Safe true os
  | d, .size :: os => Safe d os
  | d, .indexOf _ _ :: os => Safe d os
  | _, _ :: os => Safe false os

end Verif.SortColl
