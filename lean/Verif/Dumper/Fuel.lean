import Verif.Dumper.Ends
/-!
# The outcome of loading does not depend on the number of steps allowed
-/

namespace Verif.Dumper

/-- The first run has not ended, or the second does the same. -/
def Le {α : Type} (x y : R α) : Prop := x = .fuel ∨ x = y

theorem Le.refl {α : Type} (x : R α) : Le x x := .inr rfl

theorem Le.bind {α β : Type} {x y : R α} {f g : α → R β} (h : Le x y) (hf : ∀ a, Le (f a) (g a)) :
    Le (x >>= f) (y >>= g) := by
  rcases h with e | e
  · subst e; exact .inl rfl
  · subst e
    cases x with
    | ok a => exact hf a
    | err => exact .inr rfl
    | fuel => exact .inl rfl

theorem Le.ite {α : Type} {c : Prop} [Decidable c] {x x' y y' : R α} (h1 : Le x x') (h2 : Le y y') :
    Le (if c then x else y) (if c then x' else y') := by
  split
  · exact h1
  · exact h2

section
variable {env : Env} {l l' : L → R (Val × L)} (hl : ∀ s, Le (l s) (l' s))
include hl

theorem loadGlobal_le (s : L) : Le (loadGlobal env l s) (loadGlobal env l' s) := by
  unfold loadGlobal
  refine Le.bind (Le.refl _) (fun a => ?_)
  dsimp only
  split
  · exact Le.refl _
  · refine Le.bind (hl _) (fun b => Le.refl _)

theorem loadAll_le : ∀ (n : Nat) (s : L), Le (loadAll l n s) (loadAll l' n s) := by
  intro n
  induction n with
  | zero => intro s; exact Le.refl _
  | succ n ih =>
    intro s
    rw [loadAll, loadAll]
    exact Le.bind (hl s) (fun a => Le.bind (ih _) (fun _ => Le.refl _))

theorem primLoad_le (p : List Name) (n : Name) (i : Info) (s : L) : Le (primLoad l p n i s) (primLoad l' p n i s) := by
  unfold primLoad
  split
  · exact Le.bind (loadAll_le hl _ _) (fun _ => Le.refl _)
  · refine Le.bind (Le.refl _) (fun a => ?_)
    dsimp only
    split
    · exact Le.refl _
    · refine Le.bind (loadAll_le hl _ _) (fun b => ?_)
      split
      · exact Le.bind (loadAll_le hl _ _) (fun _ => Le.refl _)
      · exact Le.refl _

theorem loadObject_le (s : L) : Le (loadObject env l s) (loadObject env l' s) := by
  unfold loadObject
  refine Le.bind (Le.refl _) (fun a => ?_)
  dsimp only
  refine Le.bind (loadGlobal_le hl _) (fun b => ?_)
  split
  · split
    · exact Le.refl _
    · split
      · exact primLoad_le hl _ _ _ _
      · exact Le.refl _
  · exact Le.refl _

theorem specialLoad_le (k : Int) (s : L) : Le (specialLoad env l k s) (specialLoad env l' k s) := by
  unfold specialLoad
  refine Le.ite (Le.refl _) (Le.ite (Le.refl _) (Le.ite (Le.refl _) (Le.ite (Le.refl _) (Le.ite (Le.refl _)
    (Le.ite (loadGlobal_le hl _) (Le.ite (Le.bind (loadGlobal_le hl _) (fun _ => Le.refl _)) (Le.ite (Le.refl _)
    (Le.ite (loadGlobal_le hl _) (Le.ite (loadGlobal_le hl _) (Le.ite (Le.refl _) (Le.ite ?_ (Le.refl _))))))))))))
  refine Le.bind (Le.refl _) (fun a => ?_)
  dsimp only
  refine Le.ite (Le.bind (loadGlobal_le hl _) (fun b => ?_)) (Le.refl _)
  exact Le.ite (Le.bind (hl _) (fun _ => Le.refl _)) (Le.refl _)

end

theorem load_le (env : Env) : ∀ (m : Nat) (s : L), Le (load env m s) (load env (m + 1) s) := by
  intro m
  induction m with
  | zero => intro s; exact .inl rfl
  | succ m ih =>
    intro s
    rw [load, load]
    refine Le.bind (Le.refl _) (fun a => ?_)
    dsimp only
    split
    · exact Le.bind (specialLoad_le ih _ _) (fun _ => Le.refl _)
    · split
      · exact Le.refl _
      · exact loadObject_le ih _

theorem loads_le (env : Env) (n : Nat) (s : L) (m k : Nat) :
    Le (loadAll (load env m) n s) (loadAll (load env (m + k)) n s) := by
  induction k with
  | zero => exact Le.refl _
  | succ k ih =>
    rcases ih with h | h
    · exact .inl h
    · rw [h]
      exact loadAll_le (fun s => load_le env (m + k) s) n s

/-- What comes of loading `n` objects from the bytes. -/
def Loaded (env : Env) (n : Nat) (bytes : List Nat) (x : R (List Val × L)) : Prop :=
  x ≠ .fuel ∧ ∃ m, loadAll (load env m) n ⟨bytes, [], []⟩ = x

theorem loaded_unique {env : Env} {n : Nat} {bytes : List Nat} {x y : R (List Val × L)}
    (hx : Loaded env n bytes x) (hy : Loaded env n bytes y) : x = y := by
  obtain ⟨nx, m, hm⟩ := hx
  obtain ⟨ny, k, hk⟩ := hy
  have h1 := loads_le env n ⟨bytes, [], []⟩ m k
  have h2 := loads_le env n ⟨bytes, [], []⟩ k m
  rw [Nat.add_comm k m] at h2
  rw [hm] at h1
  rw [hk] at h2
  rcases h1 with h | h
  · exact absurd h nx
  · rcases h2 with h' | h'
    · exact absurd h' ny
    · rw [h, h']

/-- C124 without the number of steps: whatever can be dumped is dumped, and loads as the same objects. -/
theorem round_trip_partial (env : Env) (h : List Obj) (hh : ∀ o ∈ h, ObjOk env o)
    (hcl : ∀ o ∈ h, Closed h o.fixed ∧ Closed h o.ptrs) (vs : List Val) (hc : Closed h vs)
    (hv : ∀ v ∈ vs, ValOk env v) :
    ∃ bytes t, dumpAll (dump env h (h.length + 1)) [] vs = .ok (bytes, t) ∧
      (t.length < 2147483648 →
        ∃ f vs' s, Loaded env vs.length bytes (.ok (vs', s)) ∧ List.Forall₂ (Rel f) vs vs' ∧
          (∀ a a' b, f a = some b → f a' = some b → a = a') ∧
          (∀ a b, f a = some b → ∃ o o', h[a]? = some o ∧ s.heap[b]? = some o' ∧ ObjRel f o o')) := by
  obtain ⟨bytes, t, hd⟩ := dumping_succeeds_partial env h hh hcl vs hc
  refine ⟨bytes, t, hd, fun hlen => ?_⟩
  obtain ⟨m0, f, vs', s, h1, _, h3, h4, h5⟩ := dumped_objects_load_partial env h hh vs hv _ bytes t hd hlen []
  rw [List.append_nil] at h1
  exact ⟨f, vs', s, ⟨by simp, m0, h1 m0 (Nat.le_refl _)⟩, h3, h4, h5⟩

end Verif.Dumper
