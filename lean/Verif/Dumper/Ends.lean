import Verif.Dumper.Theorems
/-!
# Dumping ends

Claim C125: dumping ends for every graph of objects, however many cycles there are in it, and succeeds if the objects
can be dumped.
-/

namespace Verif.Dumper

theorem bind_fuel {α β : Type} {x : R α} {f : α → R β} :
    (x >>= f) = R.fuel ↔ x = R.fuel ∨ ∃ a, x = R.ok a ∧ f a = R.fuel := by
  cases x with
  | ok a => exact ⟨fun h => .inr ⟨a, rfl, h⟩, fun h => by
      rcases h with h | ⟨_, h, h'⟩
      · cases h
      · cases h; exact h'⟩
  | err => exact ⟨fun h => (by cases h), fun h => by
      rcases h with h | ⟨_, h, h'⟩ <;> cases h⟩
  | fuel => exact ⟨fun _ => .inl rfl, fun _ => rfl⟩

theorem bind_err {α β : Type} {x : R α} {f : α → R β} :
    (x >>= f) = R.err ↔ x = R.err ∨ ∃ a, x = R.ok a ∧ f a = R.err := by
  cases x with
  | ok a => exact ⟨fun h => .inr ⟨a, rfl, h⟩, fun h => by
      rcases h with h | ⟨_, h, h'⟩
      · cases h
      · cases h; exact h'⟩
  | fuel => exact ⟨fun h => (by cases h), fun h => by
      rcases h with h | ⟨_, h, h'⟩ <;> cases h⟩
  | err => exact ⟨fun _ => .inl rfl, fun _ => rfl⟩

/-- How many objects have not been registered. -/
def unreg (h : List Obj) (t : List Val) : Nat := (List.range h.length).countP (fun a => decide (Val.ref a ∉ t))

theorem countP_lt {p q : Nat → Bool} {l : List Nat} (himp : ∀ x ∈ l, p x = Bool.true → q x = Bool.true) {a : Nat}
    (ha : a ∈ l) (hq : q a = Bool.true) (hp : p a = Bool.false) : l.countP p < l.countP q := by
  induction l with
  | nil => cases ha
  | cons x l ih =>
    have hl : l.countP p ≤ l.countP q := List.countP_mono_left (fun y hy => himp y (by simp [hy]))
    rcases List.mem_cons.mp ha with e | hm
    · subst e
      simp only [List.countP_cons, hq, hp, if_true, Bool.false_eq_true, if_false]
      omega
    · have := ih (fun y hy => himp y (by simp [hy])) hm
      have hx := himp x (by simp)
      simp only [List.countP_cons]
      cases hpx : p x with
      | true => rw [hx hpx]; simp only [if_true]; omega
      | false => simp only [Bool.false_eq_true, if_false]; omega

theorem unreg_le (h : List Obj) (t e : List Val) : unreg h (t ++ e) ≤ unreg h t := by
  unfold unreg
  refine List.countP_mono_left (fun a _ ha => ?_)
  simp only [decide_eq_true_eq] at ha ⊢
  exact fun hm => ha (List.mem_append_left _ hm)

theorem unreg_lt {h : List Obj} {t : List Val} {a : Nat} (ha : a < h.length) (hn : Val.ref a ∉ t) (e : List Val) :
    unreg h (t ++ e ++ [.ref a]) < unreg h t := by
  unfold unreg
  refine countP_lt (a := a) (fun x _ hx => ?_) (List.mem_range.mpr ha) (by simp [hn]) (by simp)
  simp only [decide_eq_true_eq] at hx ⊢
  exact fun hm => hx (List.mem_append_left _ (List.mem_append_left _ hm))

theorem unreg_max (h : List Obj) (t : List Val) : unreg h t ≤ h.length := by
  unfold unreg
  have := List.countP_le_length (p := fun a => decide (Val.ref a ∉ t)) (l := List.range h.length)
  simpa using this

theorem dumpAll_ends {h : List Obj} {n : Nat} {d : List Val → Val → R (List Nat × List Val)}
    (hg : ∀ t v r, d t v = .ok r → ∃ e, r.2 = t ++ e) (hd : ∀ t v, unreg h t ≤ n → d t v ≠ .fuel) :
    ∀ (vs t : List Val), unreg h t ≤ n → dumpAll d t vs ≠ .fuel := by
  intro vs
  induction vs with
  | nil => intro t _ hc; cases hc
  | cons v vs ih =>
    intro t ht hc
    simp only [dumpAll, bind_fuel] at hc
    rcases hc with hc | ⟨r, h1, hc | ⟨r', _, hc⟩⟩
    · exact hd t v ht hc
    · obtain ⟨e, he⟩ := hg _ _ _ h1
      rw [he] at hc
      exact ih _ (Nat.le_trans (unreg_le h t e) ht) hc
    · cases hc

theorem rawDump_ends (env : Env) (s : Shape) : ∀ xs, rawDump env s xs ≠ .fuel := by
  intro xs
  induction xs with
  | nil => intro hc; simp only [rawDump] at hc; split at hc <;> cases hc
  | cons x xs ih =>
    intro hc
    simp only [rawDump] at hc
    split at hc
    · cases hc
    · simp only [bind_fuel] at hc
      rcases hc with hc | ⟨_, _, hc⟩
      · exact ih hc
      · cases hc

theorem primDump_ends {env : Env} {h : List Obj} {n : Nat} {d : List Val → Val → R (List Nat × List Val)}
    (hg : ∀ t v r, d t v = .ok r → ∃ e, r.2 = t ++ e) (hd : ∀ t v, unreg h t ≤ n → d t v ≠ .fuel)
    {t : List Val} {a : Nat} (o : Obj) (i : Info) (ha : a < h.length) (hn : Val.ref a ∉ t) (ht : unreg h t ≤ n + 1) :
    primDump env d t a o i ≠ .fuel := by
  intro hc
  obtain ⟨e0, he0⟩ := storeName_grows t (.cls o.cpath o.cname) o.cname o.cpath
  have e0' : (storeClassName t o.cpath o.cname).2 = t ++ e0 := he0
  have h1 : unreg h ((storeClassName t o.cpath o.cname).2 ++ [.ref a]) ≤ n := by
    rw [e0']
    have := unreg_lt ha hn e0
    omega
  have hf := dumpAll_ends hg hd o.fixed _ h1
  unfold primDump at hc
  simp only [] at hc
  split at hc
  · simp only [bind_fuel] at hc
    rcases hc with hc | ⟨_, _, hc⟩
    · exact hf hc
    · cases hc
  · simp only [bind_fuel] at hc
    rcases hc with hc | ⟨r, h2, hc | ⟨_, _, hc⟩⟩
    · exact hf hc
    · obtain ⟨e, he⟩ := dumpAll_grows hg _ _ _ h2
      rw [he] at hc
      exact dumpAll_ends hg hd _ _ (Nat.le_trans (unreg_le h _ e) h1) hc
    · cases hc
  · simp only [bind_fuel] at hc
    rcases hc with hc | ⟨r, h2, hc | ⟨_, _, hc⟩⟩
    · exact hf hc
    · exact rawDump_ends _ _ _ hc
    · cases hc

theorem dump_ends (env : Env) (h : List Obj) : ∀ (k : Nat) (t : List Val) (v : Val), unreg h t ≤ k →
    dump env h (k + 1) t v ≠ .fuel := by
  intro k
  induction k with
  | zero =>
    intro t v ht hc
    rw [dump.eq_def] at hc
    dsimp only at hc
    split at hc
    · cases hc
    · rename_i hk
      split at hc
      · cases hc
      · split at hc
        · rename_i a hs
          split at hc
          · cases hc
          · rename_i o ho
            have ha : a < h.length := (List.getElem?_eq_some_iff.mp ho).1
            have hn : Val.ref a ∉ t := (lookupIx_zero (by simp)).mp (by omega)
            have := unreg_lt ha hn []
            omega
        · cases hc
  | succ k ih =>
    intro t v ht hc
    rw [dump.eq_def] at hc
    dsimp only at hc
    split at hc
    · cases hc
    · rename_i hk
      split at hc
      · cases hc
      · split at hc
        · rename_i a hs
          split at hc
          · cases hc
          · rename_i o ho
            have ha : a < h.length := (List.getElem?_eq_some_iff.mp ho).1
            have hn : Val.ref a ∉ t := (lookupIx_zero (by simp)).mp (by omega)
            split at hc
            · rename_i i _
              split at hc
              · simp only [bind_fuel] at hc
                rcases hc with hc | ⟨_, _, hc⟩
                · obtain ⟨e0, he0⟩ := storeName_grows t (.cls [] nullProxyName) nullProxyName []
                  have e0' : (storeClassName t [] nullProxyName).2 = t ++ e0 := he0
                  refine primDump_ends (dump_grows env h (k + 1)) ih o i ha ?_ ?_ hc
                  · -- the object is not among what naming the class registers
                    intro hm
                    simp only [storeClassName, storeName, dumpNs] at hm
                    split at hm
                    · exact hn hm
                    · split at hm
                      · simp [hn] at hm
                      · simp [hn] at hm
                  · rw [e0']; exact Nat.le_trans (unreg_le h t e0) ht
                · cases hc
              · simp only [bind_fuel] at hc
                rcases hc with hc | ⟨_, _, hc⟩
                · exact primDump_ends (dump_grows env h (k + 1)) ih o i ha hn ht hc
                · cases hc
            · cases hc
        · cases hc

/-- C125, first half.  Dumping any sequence of objects ends, whatever the graph: `h.length + 1` levels are
enough. -/
theorem dumping_ends (env : Env) (h : List Obj) (vs : List Val) :
    dumpAll (dump env h (h.length + 1)) [] vs ≠ .fuel :=
  dumpAll_ends (h := h) (n := h.length) (dump_grows env h _) (fun t v ht => dump_ends env h _ t v ht) vs []
    (unreg_max h [])

/-- The addresses among the values are those of objects. -/
def Closed (h : List Obj) (vs : List Val) : Prop := ∀ a, Val.ref a ∈ vs → a < h.length

theorem dumpAll_noerr {d : List Val → Val → R (List Nat × List Val)} {P : Val → Prop}
    (hd : ∀ t v, P v → d t v ≠ .err) : ∀ (vs t : List Val), (∀ v ∈ vs, P v) → dumpAll d t vs ≠ .err := by
  intro vs
  induction vs with
  | nil => intro t _ hc; cases hc
  | cons v vs ih =>
    intro t hv hc
    simp only [dumpAll, bind_err] at hc
    rcases hc with hc | ⟨r, _, hc | ⟨_, _, hc⟩⟩
    · exact hd t v (hv v (by simp)) hc
    · exact ih _ (fun w hw => hv w (by simp [hw])) hc
    · cases hc

theorem rawPut_some (env : Env) (s : Shape) (hs : ShapeOk s) (hp : s ≠ .pointer) (x : Int) : rawPut env s x ≠ none := by
  obtain ⟨h1, h2, h3, h4⟩ := hs
  cases s <;> simp_all [rawPut]

theorem rawDump_noerr (env : Env) (s : Shape) (hs : ShapeOk s) (hp : s ≠ .pointer) :
    ∀ xs, rawDump env s xs ≠ .err := by
  intro xs
  induction xs with
  | nil =>
    intro hc
    simp only [rawDump] at hc
    rw [if_neg (rawPut_some env s hs hp 0)] at hc
    cases hc
  | cons x xs ih =>
    intro hc
    simp only [rawDump] at hc
    split at hc
    · rename_i e; exact rawPut_some env s hs hp x e
    · simp only [bind_err] at hc
      rcases hc with hc | ⟨_, _, hc⟩
      · exact ih hc
      · cases hc

theorem dump_noerr (env : Env) (h : List Obj) (hh : ∀ o ∈ h, ObjOk env o)
    (hcl : ∀ o ∈ h, Closed h o.fixed ∧ Closed h o.ptrs) : ∀ (k : Nat) (t : List Val) (v : Val),
    (∀ a, v = .ref a → a < h.length) → dump env h k t v ≠ .err := by
  intro k
  induction k with
  | zero => intro t v _ hc; cases hc
  | succ k ih =>
    intro t v hv hc
    rw [dump.eq_def] at hc
    dsimp only at hc
    split at hc
    · cases hc
    · split at hc
      · cases hc
      · rename_i hs
        split at hc
        · rename_i a _
          split at hc
          · rename_i ho
            have := hv a rfl
            rw [List.getElem?_eq_none_iff] at ho
            omega
          · rename_i o ho
            have hmem : o ∈ h := by
              obtain ⟨h1, h2⟩ := List.getElem?_eq_some_iff.mp ho; exact h2 ▸ List.getElem_mem h1
            obtain ⟨_, _, _, _, _, _, i, hb, hnp, _, hsh⟩ := hh o hmem
            obtain ⟨c1, c2⟩ := hcl o hmem
            rw [hb] at hc
            dsimp only at hc
            rw [if_neg (by rw [hnp]; decide)] at hc
            simp only [bind_err] at hc
            rcases hc with hc | ⟨_, _, hc⟩
            · have hf : ∀ t', dumpAll (dump env h k) t' o.fixed ≠ .err := fun t' =>
                dumpAll_noerr (P := fun v => ∀ a, v = .ref a → a < h.length) ih _ t'
                  (fun w hw a e => c1 a (e ▸ hw))
              have hp : ∀ t', dumpAll (dump env h k) t' o.ptrs ≠ .err := fun t' =>
                dumpAll_noerr (P := fun v => ∀ a, v = .ref a → a < h.length) ih _ t'
                  (fun w hw a e => c2 a (e ▸ hw))
              unfold primDump at hc
              simp only [] at hc
              split at hc
              · simp only [bind_err] at hc
                rcases hc with hc | ⟨_, _, hc⟩
                · exact hf _ hc
                · cases hc
              · simp only [bind_err] at hc
                rcases hc with hc | ⟨r, _, hc | ⟨_, _, hc⟩⟩
                · exact hf _ hc
                · exact hp _ hc
                · cases hc
              · rename_i sh hne e
                have hne' : sh ≠ .pointer := fun e' => hne e'
                rw [e] at hsh
                have hso : ShapeOk sh := by
                  cases sh <;> first | exact hsh.2.1 | exact absurd rfl hne'
                simp only [bind_err] at hc
                rcases hc with hc | ⟨r, _, hc | ⟨_, _, hc⟩⟩
                · exact hf _ hc
                · exact rawDump_noerr env sh hso hne' _ hc
                · cases hc
            · cases hc
        · rename_i hx
          cases v with
          | ns p => cases p <;> cases hs
          | ref a => exact hx a rfl
          | _ => cases hs

/-- C125, second half.  Objects that can be dumped are dumped without an error. -/
theorem dumping_succeeds_partial (env : Env) (h : List Obj) (hh : ∀ o ∈ h, ObjOk env o)
    (hcl : ∀ o ∈ h, Closed h o.fixed ∧ Closed h o.ptrs) (vs : List Val) (hv : Closed h vs) :
    ∃ bytes t, dumpAll (dump env h (h.length + 1)) [] vs = .ok (bytes, t) := by
  have h1 := dumping_ends env h vs
  have h2 : dumpAll (dump env h (h.length + 1)) [] vs ≠ .err :=
    dumpAll_noerr (P := fun v => ∀ a, v = .ref a → a < h.length) (dump_noerr env h hh hcl _) vs []
      (fun w hw a e => hv a (e ▸ hw))
  cases hd : dumpAll (dump env h (h.length + 1)) [] vs with
  | ok r => exact ⟨r.1, r.2, rfl⟩
  | err => exact absurd hd h2
  | fuel => exact absurd hd h1

end Verif.Dumper
