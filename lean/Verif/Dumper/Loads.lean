import Verif.Dumper.Bytes
import Verif.Dumper.Spec
/-!
# Loading follows dumping: globals and special cases
-/

namespace Verif.Dumper

theorem Rel.mono {f f' : Nat → Option Nat} (h : ∀ a b, f a = some b → f' a = some b) {v v' : Val}
    (hr : Rel f v v') : Rel f' v v' := by
  cases v <;> first | exact hr | skip
  obtain ⟨b, h1, h2⟩ := hr
  exact ⟨b, h _ _ h1, h2⟩

theorem rels_mono {f f' : Nat → Option Nat} (h : ∀ a b, f a = some b → f' a = some b) {vs vs' : List Val}
    (hr : List.Forall₂ (Rel f) vs vs') : List.Forall₂ (Rel f') vs vs' := by
  induction hr with
  | nil => exact .nil
  | cons h1 _ ih => exact .cons (h1.mono h) ih

theorem ObjRel.mono {f f' : Nat → Option Nat} (h : ∀ a b, f a = some b → f' a = some b) {o o' : Obj}
    (hr : ObjRel f o o') : ObjRel f' o o' :=
  ⟨hr.cpath, hr.cname, rels_mono h hr.fixed, rels_mono h hr.ptrs, hr.raws⟩

theorem forall2_get {f : Nat → Option Nat} {vs vs' : List Val} (h : List.Forall₂ (Rel f) vs vs') {k : Nat} {v : Val}
    (hk : vs[k]? = some v) : ∃ v', vs'[k]? = some v' ∧ Rel f v v' := by
  induction h generalizing k with
  | nil => simp at hk
  | cons h1 _ ih =>
    cases k with
    | zero => simp at hk; subst hk; exact ⟨_, by simp, h1⟩
    | succ k => simp at hk; simpa using ih hk

theorem forall2_append {f : Nat → Option Nat} {a b a' b' : List Val} (h : List.Forall₂ (Rel f) a a')
    (h' : List.Forall₂ (Rel f) b b') : List.Forall₂ (Rel f) (a ++ b) (a' ++ b') := by
  induction h with
  | nil => exact h'
  | cons h1 _ ih => exact .cons h1 ih

/-- The tables of the dumper and of the loader go together. -/
structure Inv (f : Nat → Option Nat) (t : List Val) (s : L) : Prop where
  rel : List.Forall₂ (Rel f) t s.objs
  dom : ∀ a b, f a = some b → Val.ref a ∈ t ∧ b < s.heap.length
  inj : ∀ a a' b, f a = some b → f a' = some b → a = a'

theorem Inv.inp {f : Nat → Option Nat} {t : List Val} {s : L} (h : Inv f t s) (i : List Nat) :
    Inv f t { s with inp := i } := ⟨h.rel, h.dom, h.inj⟩

theorem Inv.reg {f : Nat → Option Nat} {t : List Val} {s : L} (h : Inv f t s) {v v' : Val} (hr : Rel f v v') :
    Inv f (t ++ [v]) (reg s v') :=
  ⟨forall2_append h.rel (.cons hr .nil),
    fun a b hab => ⟨List.mem_append_left _ (h.dom a b hab).1, (h.dom a b hab).2⟩, h.inj⟩

theorem lookupIndex_of {f : Nat → Option Nat} {t : List Val} {s : L} (h : Inv f t s) {v : Val}
    (hk : lookupIx t v > 0) : ∃ v', lookupIndex s (lookupIx t v) = .ok (v', s) ∧ Rel f v v' := by
  obtain ⟨k, hk'⟩ : ∃ k, lookupIx t v = k + 1 := ⟨lookupIx t v - 1, by omega⟩
  obtain ⟨v', h1, h2⟩ := forall2_get h.rel (lookupIx_get hk')
  refine ⟨v', ?_, h2⟩
  rw [hk']
  unfold lookupIndex
  rw [if_neg (by omega)]
  have : ((k + 1 : Nat) : Int).toNat - 1 = k := by omega
  rw [this, h1]

theorem long_lookup {t : List Val} {v : Val} (ht : t.length < 2147483648) : Long (lookupIx t v) := by
  have := lookupIx_le t v
  unfold Long
  omega

theorem load_ref (env : Env) {f : Nat → Option Nat} {t : List Val} {s : L} (h : Inv f t s) {v : Val}
    (hk : lookupIx t v > 0) (ht : t.length < 2147483648) {rest : List Nat}
    (hi : s.inp = long (lookupIx t v) ++ rest) :
    ∃ v', Rel f v v' ∧ ∀ m, 1 ≤ m → load env m s = .ok (v', { s with inp := rest }) := by
  obtain ⟨v', h1, h2⟩ := lookupIndex_of (h.inp rest) hk
  refine ⟨v', h2, fun m hm => ?_⟩
  obtain ⟨m, rfl⟩ : ∃ k, m = k + 1 := ⟨m - 1, by omega⟩
  rw [load, hi, getLong_long (long_lookup ht)]
  simp only [ok_bind]
  rw [if_neg (by omega), if_pos (by omega)]
  exact h1

/-- Loading answers `v` itself, makes no objects, and leaves the tables together. -/
def Reads (run : Nat → L → R (Val × L)) (f : Nat → Option Nat) (t t' : List Val) (bs : List Nat) (v : Val) : Prop :=
  ∀ s rest, Inv f t s → s.inp = bs ++ rest →
    ∃ m0 s', (∀ m, m0 ≤ m → run m s = .ok (v, s')) ∧ Inv f t' s' ∧ s'.heap = s.heap ∧ s'.inp = rest

theorem global_reads (env : Env) (f : Nat → Option Nat) (t : List Val) (p : List Name) (n : Name) (g : Val)
    (space : List Val → List Nat × List Val)
    (hg : (g = .ns (n :: p) ∧ env.bind p n = some .space) ∨
      (g = .cls p n ∧ ∃ i, env.bind p n = some (.cls i)))
    (hn : 0 ∉ n)
    (hlen : (storeName t g n space).2.length < 2147483648)
    (hsp : (space t).2.length < 2147483648 → Reads (load env) f t (space t).2 (space t).1 (.ns p)) :
    Reads (fun m => loadGlobal env (load env m)) f t (storeName t g n space).2 (storeName t g n space).1 g := by
  intro s rest hinv hi
  have hgr : ∀ v', Rel f g v' → v' = g := by
    intro v' h
    rcases hg with ⟨e, _⟩ | ⟨e, _⟩ <;> (subst e; exact h)
  have hrel : Rel f g g := by
    rcases hg with ⟨e, _⟩ | ⟨e, _⟩ <;> (subst e; rfl)
  unfold storeName at hlen hi ⊢
  by_cases hk : lookupIx t g > 0
  · rw [if_pos hk] at hlen hi ⊢
    obtain ⟨v', h1, h2⟩ := lookupIndex_of (hinv.inp rest) hk
    have := hgr v' h2
    subst this
    refine ⟨0, { s with inp := rest }, fun m _ => ?_, hinv.inp rest, rfl, rfl⟩
    simp only [loadGlobal]
    rw [hi, getLong_long (long_lookup hlen)]
    simp only [ok_bind]
    rw [if_pos (by omega)]
    exact h1
  · rw [if_neg hk] at hlen hi ⊢
    dsimp only at hlen hi ⊢
    have hl : (space t).2.length < 2147483648 := by
      rw [List.length_append] at hlen; simp at hlen; omega
    obtain ⟨m0, s1, h1, h2, h3, h4⟩ := hsp hl { s with inp := (space t).1 ++ (n ++ [0] ++ rest) } _
      (hinv.inp _) rfl
    refine ⟨m0, Verif.Dumper.reg { s1 with inp := rest } g, fun m hm => ?_, (h2.inp rest).reg hrel, h3, rfl⟩
    simp only [loadGlobal]
    have hi' : s.inp = long 0 ++ ((space t).1 ++ (n ++ [0] ++ rest)) := by
      rw [hi]; simp only [List.append_assoc]
    rw [hi', getLong_long (by unfold Long; omega)]
    simp only [ok_bind]
    rw [if_neg (by omega), h1 m hm]
    simp only [ok_bind]
    rw [h4, getAsciiz_put hn]
    simp only [ok_bind]
    rcases hg with ⟨e, hb⟩ | ⟨e, i, hb⟩
    · simp only [hb, e]
    · simp only [hb, e]

theorem reads_special (env : Env) (f : Nat → Option Nat) (t t1 : List Val) (b : List Nat) (k : Int) (v : Val)
    (hk : Long k) (hneg : k < 0) (hrel : Rel f v v)
    (hs : Reads (fun m => specialLoad env (load env m) k) f t t1 b v) :
    Reads (load env) f t (t1 ++ [v]) (long k ++ b) v := by
  intro s rest hinv hi
  obtain ⟨m0, s1, h1, h2, h3, h4⟩ := hs { s with inp := b ++ rest } rest (hinv.inp _) rfl
  refine ⟨m0 + 1, Verif.Dumper.reg s1 v, fun m hm => ?_, h2.reg hrel, h3, h4⟩
  obtain ⟨m, rfl⟩ : ∃ k, m = k + 1 := ⟨m - 1, by omega⟩
  rw [load, hi, List.append_assoc, getLong_long hk]
  simp only [ok_bind]
  rw [if_pos hneg]
  have := h1 m (by omega)
  simp only at this
  rw [this]
  rfl

theorem ns_reads (env : Env) (f : Nat → Option Nat) : ∀ (p : List Name), PathOk env p → ∀ t : List Val,
    (dumpNs p t).2.length < 2147483648 → Reads (load env) f t (dumpNs p t).2 (dumpNs p t).1 (.ns p) := by
  intro p
  have ref : ∀ (p : List Name) (t : List Val), t.length < 2147483648 → lookupIx t (.ns p) > 0 →
      Reads (load env) f t t (long (lookupIx t (.ns p))) (.ns p) := by
    intro p t ht hk s rest hinv hi
    obtain ⟨v', h1, h2⟩ := load_ref env hinv hk ht hi
    have : v' = .ns p := h1
    subst this
    exact ⟨1, { s with inp := rest }, h2, hinv.inp rest, rfl, rfl⟩
  induction p with
  | nil =>
    intro _ t hlen
    unfold dumpNs at hlen ⊢
    by_cases hk : lookupIx t (.ns []) > 0
    · rw [if_pos hk] at hlen ⊢
      exact ref [] t hlen hk
    · rw [if_neg hk] at hlen ⊢
      have : long (-8) = long (-8) ++ [] := (List.append_nil _).symm
      dsimp only
      rw [this]
      refine reads_special env f t t [] (-8) _ (by unfold Long; omega) (by omega) rfl ?_
      intro s rest hinv hi
      refine ⟨0, { s with inp := rest }, fun m _ => ?_, hinv.inp _, rfl, rfl⟩
      simp only [List.nil_append] at hi
      simp only [specialLoad]
      rw [← hi]
      rfl
  | cons n p ih =>
    intro hp t hlen
    obtain ⟨hb, hn, hp'⟩ := hp
    unfold dumpNs at hlen ⊢
    by_cases hk : lookupIx t (.ns (n :: p)) > 0
    · rw [if_pos hk] at hlen ⊢
      exact ref _ t hlen hk
    · rw [if_neg hk] at hlen ⊢
      dsimp only at hlen ⊢
      refine reads_special env f t _ _ (-9) _ (by unfold Long; omega) (by omega) rfl ?_
      have hl : (storeName t (.ns (n :: p)) n (dumpNs p)).2.length < 2147483648 := by
        rw [List.length_append] at hlen; simp at hlen; omega
      exact global_reads env f t p n _ _ (.inl ⟨rfl, hb⟩) hn hl (fun h => ih hp' t h)

theorem class_reads (env : Env) (f : Nat → Option Nat) (p : List Name) (n : Name) (hp : PathOk env p)
    (hn : 0 ∉ n) (hc : ∃ i, env.bind p n = some (.cls i)) (t : List Val)
    (hlen : (storeClassName t p n).2.length < 2147483648) :
    Reads (fun m => loadGlobal env (load env m)) f t (storeClassName t p n).2 (storeClassName t p n).1 (.cls p n) :=
  global_reads env f t p n _ _ (.inr ⟨rfl, hc⟩) hn hlen (fun h => ns_reads env f p hp t h)

/-- The special cases read back. -/
theorem special_reads (env : Env) (f : Nat → Option Nat) (t : List Val) (v : Val) (r : List Nat × List Val)
    (hs : special t v = some r) (hv : ValOk env v) (hlen : r.2.length < 2147483648) :
    Reads (load env) f t r.2 r.1 v := by
  have simple : ∀ (k : Int) (w : Val), Long k → k < 0 → Rel f w w →
      (∀ s m, specialLoad env (load env m) k s = .ok (w, s)) →
      Reads (load env) f t (t ++ [w]) (long k) w := by
    intro k w hk hneg hrel hw
    have : long k = long k ++ [] := (List.append_nil _).symm
    rw [this]
    refine reads_special env f t t [] k w hk hneg hrel ?_
    intro s rest hinv hi
    simp only [List.nil_append] at hi
    exact ⟨0, s, fun m _ => hw s m, hinv, rfl, hi⟩
  have take : ∀ (k : Int) (w : Val) (b : List Nat), Long k → k < 0 → Rel f w w →
      (∀ s m rest, s.inp = b ++ rest → specialLoad env (load env m) k s = .ok (w, { s with inp := rest })) →
      Reads (load env) f t (t ++ [w]) (long k ++ b) w := by
    intro k w b hk hneg hrel hw
    refine reads_special env f t t b k w hk hneg hrel ?_
    intro s rest hinv hi
    exact ⟨0, { s with inp := rest }, fun m _ => hw s m rest hi, hinv.inp _, rfl, rfl⟩
  cases v with
  | nil => cases hs; exact simple (-1) _ (by unfold Long; omega) (by omega) rfl (fun _ _ => rfl)
  | tru => cases hs; exact simple (-2) _ (by unfold Long; omega) (by omega) rfl (fun _ _ => rfl)
  | fls => cases hs; exact simple (-3) _ (by unfold Long; omega) (by omega) rfl (fun _ _ => rfl)
  | int i =>
    cases hs
    refine take (-4) _ _ (by unfold Long; omega) (by omega) rfl ?_
    intro s m rest hi
    simp only [specialLoad]
    rw [hi, getLong_long hv]
    rfl
  | char c =>
    cases hs
    refine take (-5) _ _ (by unfold Long; omega) (by omega) rfl ?_
    intro s m rest hi
    simp only [specialLoad]
    rw [hi]
    rfl
  | sym n =>
    cases hs
    rw [List.append_assoc]
    refine take (-11) _ _ (by unfold Long; omega) (by omega) rfl ?_
    intro s m rest hi
    simp only [specialLoad]
    rw [hi, getAsciiz_put hv]
    rfl
  | uchar c =>
    cases hs
    obtain ⟨h1, h2⟩ := hv
    refine take (-13) _ _ (by unfold Long; omega) (by omega) rfl ?_
    intro s m rest hi
    simp only [specialLoad]
    rw [hi, getLong_long (by unfold Long; omega)]
    have : asCharacter (c : Int) = .ok (.uchar c) := by
      unfold asCharacter
      rw [if_neg (by omega), if_neg (by omega)]
      rfl
    simp only [ok_bind, this]
    rfl
  | ns p =>
    cases p with
    | nil => cases hs; exact simple (-8) _ (by unfold Long; omega) (by omega) rfl (fun _ _ => rfl)
    | cons n p =>
      cases hs
      obtain ⟨hb, hn, hp⟩ := hv
      dsimp only at hlen ⊢
      have hl : (storeName t (.ns (n :: p)) n (dumpNs p)).2.length < 2147483648 := by
        rw [List.length_append] at hlen; simp at hlen; omega
      refine reads_special env f t _ _ (-9) _ (by unfold Long; omega) (by omega) rfl ?_
      exact global_reads env f t p n _ _ (.inl ⟨rfl, hb⟩) hn hl (fun h => ns_reads env f p hp t h)
  | cls p n =>
    cases hs
    obtain ⟨hp, hn, hb⟩ := hv
    dsimp only at hlen ⊢
    have hl : (storeClassName t p n).2.length < 2147483648 := by
      rw [List.length_append] at hlen; simp at hlen; omega
    refine reads_special env f t _ _ (-6) _ (by unfold Long; omega) (by omega) rfl ?_
    exact class_reads env f p n hp hn hb t hl
  | mcls p n =>
    cases hs
    obtain ⟨hp, hn, hb⟩ := hv
    dsimp only at hlen ⊢
    have hl : (storeClassName t p n).2.length < 2147483648 := by
      rw [List.length_append] at hlen; simp at hlen; omega
    refine reads_special env f t _ _ (-7) _ (by unfold Long; omega) (by omega) rfl ?_
    intro s rest hinv hi
    obtain ⟨m0, s1, h1, h2, h3, h4⟩ := class_reads env f p n hp hn hb t hl s rest hinv hi
    refine ⟨m0, s1, fun m hm => ?_, h2, h3, h4⟩
    have := h1 m hm
    simp only at this
    show (loadGlobal env (load env m) s >>= _) = _
    rw [this]
    rfl
  | ref a => cases hs

end Verif.Dumper
