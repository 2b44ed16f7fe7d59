import Verif.Dumper.Loads
/-!
# Loading follows dumping: objects
-/

namespace Verif.Dumper

/-! ### The table only grows -/

theorem dumpNs_grows : ∀ (p : List Name) (t : List Val), ∃ e, (dumpNs p t).2 = t ++ e := by
  intro p
  induction p with
  | nil =>
    intro t
    unfold dumpNs
    split
    · exact ⟨[], (List.append_nil _).symm⟩
    · exact ⟨_, rfl⟩
  | cons n p ih =>
    intro t
    unfold dumpNs
    split
    · exact ⟨[], (List.append_nil _).symm⟩
    · simp only [storeName]
      split
      · exact ⟨_, rfl⟩
      · obtain ⟨e, he⟩ := ih t
        simp only [he]
        exact ⟨_, by simp only [List.append_assoc]; rfl⟩

theorem storeName_grows (t : List Val) (g : Val) (n : Name) (p : List Name) :
    ∃ e, (storeName t g n (dumpNs p)).2 = t ++ e := by
  simp only [storeName]
  split
  · exact ⟨[], (List.append_nil _).symm⟩
  · obtain ⟨e, he⟩ := dumpNs_grows p t
    simp only [he]
    exact ⟨_, by simp only [List.append_assoc]; rfl⟩

theorem special_grows {t : List Val} {v : Val} {r : List Nat × List Val} (h : special t v = some r) :
    ∃ e, r.2 = t ++ e := by
  cases v with
  | ref a => cases h
  | ns p =>
    cases p with
    | nil => cases h; exact ⟨_, rfl⟩
    | cons n p =>
      cases h
      obtain ⟨e, he⟩ := storeName_grows t (.ns (n :: p)) n p
      simp only [he]
      exact ⟨_, by simp only [List.append_assoc]; rfl⟩
  | cls p n =>
    cases h
    obtain ⟨e, he⟩ := storeName_grows t (.cls p n) n p
    simp only [storeClassName, he]
    exact ⟨_, by simp only [List.append_assoc]; rfl⟩
  | mcls p n =>
    cases h
    obtain ⟨e, he⟩ := storeName_grows t (.cls p n) n p
    simp only [storeClassName, he]
    exact ⟨_, by simp only [List.append_assoc]; rfl⟩
  | _ => cases h; exact ⟨_, rfl⟩

theorem dumpAll_grows {d : List Val → Val → R (List Nat × List Val)}
    (hd : ∀ t v r, d t v = .ok r → ∃ e, r.2 = t ++ e) :
    ∀ (vs t : List Val) (r : List Nat × List Val), dumpAll d t vs = .ok r → ∃ e, r.2 = t ++ e := by
  intro vs
  induction vs with
  | nil => intro t r h; cases h; exact ⟨[], (List.append_nil _).symm⟩
  | cons v vs ih =>
    intro t r h
    simp only [dumpAll, bind_ok] at h
    obtain ⟨r1, h1, r2, h2, h3⟩ := h
    cases h3
    obtain ⟨e1, he1⟩ := hd t v r1 h1
    obtain ⟨e2, he2⟩ := ih r1.2 r2 h2
    exact ⟨e1 ++ e2, by rw [he2, he1, List.append_assoc]⟩

theorem primDump_grows {env : Env} {d : List Val → Val → R (List Nat × List Val)}
    (hd : ∀ t v r, d t v = .ok r → ∃ e, r.2 = t ++ e) {t : List Val} {a : Nat} {o : Obj} {i : Info}
    {r : List Nat × List Val} (h : primDump env d t a o i = .ok r) : ∃ e, r.2 = t ++ e := by
  obtain ⟨e0, he0⟩ := storeName_grows t (.cls o.cpath o.cname) o.cname o.cpath
  have e0' : (storeClassName t o.cpath o.cname).2 = t ++ e0 := he0
  unfold primDump at h
  simp only [] at h
  split at h
  · simp only [bind_ok] at h
    obtain ⟨r1, h1, h2⟩ := h
    cases h2
    obtain ⟨e1, he1⟩ := dumpAll_grows hd _ _ _ h1
    exact ⟨_, by rw [he1, e0', List.append_assoc, List.append_assoc]⟩
  · simp only [bind_ok] at h
    obtain ⟨r1, h1, r2, h2, h3⟩ := h
    cases h3
    obtain ⟨e1, he1⟩ := dumpAll_grows hd _ _ _ h1
    obtain ⟨e2, he2⟩ := dumpAll_grows hd _ _ _ h2
    exact ⟨_, by rw [he2, he1, e0', List.append_assoc, List.append_assoc, List.append_assoc]⟩
  · simp only [bind_ok] at h
    obtain ⟨r1, h1, r2, h2, h3⟩ := h
    cases h3
    obtain ⟨e1, he1⟩ := dumpAll_grows hd _ _ _ h1
    exact ⟨_, by rw [he1, e0', List.append_assoc, List.append_assoc]⟩

/-- The ways in which `dump:` succeeds. -/
theorem dump_ok {env : Env} {h : List Obj} {k : Nat} {t : List Val} {v : Val} {r : List Nat × List Val}
    (hd : dump env h (k + 1) t v = .ok r) :
    (lookupIx t v > 0 ∧ r = (long (lookupIx t v), t)) ∨ (lookupIx t v = 0 ∧ special t v = some r) ∨
    ∃ a o i, v = .ref a ∧ lookupIx t v = 0 ∧ h[a]? = some o ∧ env.bind o.cpath o.cname = some (.cls i) ∧
      ((i.nullProxy = Bool.true ∧ ∃ r1, primDump env (dump env h k) (storeClassName t [] nullProxyName).2 a o i = .ok r1 ∧
          r = (long (-12) ++ long 0 ++ (storeClassName t [] nullProxyName).1 ++ long 0 ++ r1.1,
            r1.2 ++ [v] ++ [v] ++ [v])) ∨
        (i.nullProxy = Bool.false ∧ ∃ r1, primDump env (dump env h k) t a o i = .ok r1 ∧ r = (long 0 ++ r1.1, r1.2))) := by
  rw [dump.eq_def] at hd
  dsimp only at hd
  by_cases hk : lookupIx t v > 0
  · rw [if_pos hk] at hd
    cases hd
    exact .inl ⟨hk, rfl⟩
  · rw [if_neg hk] at hd
    have hk0 : lookupIx t v = 0 := by omega
    cases hs : special t v with
    | some r' =>
      rw [hs] at hd
      cases hd
      exact .inr (.inl ⟨hk0, rfl⟩)
    | none =>
      rw [hs] at hd
      cases v with
      | ref a =>
        dsimp only at hd
        cases ho : h[a]? with
        | none => rw [ho] at hd; cases hd
        | some o =>
          rw [ho] at hd
          dsimp only at hd
          split at hd
          · rename_i i hb
            refine .inr (.inr ⟨a, o, i, rfl, hk0, ho, hb, ?_⟩)
            split at hd
            · rename_i hp
              simp only [bind_ok] at hd
              obtain ⟨r1, h1, h2⟩ := hd
              cases h2
              exact .inl ⟨hp, r1, h1, rfl⟩
            · rename_i hp
              simp only [bind_ok] at hd
              obtain ⟨r1, h1, h2⟩ := hd
              cases h2
              exact .inr ⟨by simpa using hp, r1, h1, rfl⟩
          · cases hd
      | _ => cases hd

theorem dump_grows (env : Env) (h : List Obj) : ∀ (k : Nat) (t : List Val) (v : Val) (r : List Nat × List Val),
    dump env h k t v = .ok r → ∃ e, r.2 = t ++ e := by
  intro k
  induction k with
  | zero => intro t v r hd; cases hd
  | succ k ih =>
    intro t v r hd
    rcases dump_ok hd with ⟨_, e⟩ | ⟨_, hs⟩ | ⟨a, o, i, _, _, _, _, ⟨_, r1, h1, e⟩ | ⟨_, r1, h1, e⟩⟩
    · subst e; exact ⟨[], (List.append_nil _).symm⟩
    · exact special_grows hs
    · subst e
      obtain ⟨e, he⟩ := primDump_grows ih h1
      obtain ⟨e0, he0⟩ := storeName_grows t (.cls [] nullProxyName) nullProxyName []
      have e0' : (storeClassName t [] nullProxyName).2 = t ++ e0 := he0
      exact ⟨_, by simp only [he, e0', List.append_assoc]; rfl⟩
    · subst e
      exact (primDump_grows ih h1 : ∃ e, r1.2 = t ++ e)

/-! ### One step of loading -/

/-- Loading went from `f` and `s` to `f'` and `s'`, with `t'` the table of the dumper after it: what was there is
unchanged, and every object made since stands for one of the dumper's, and is complete. -/
structure Step (h : List Obj) (f : Nat → Option Nat) (s : L) (t' : List Val) (f' : Nat → Option Nat) (s' : L) :
    Prop where
  inv : Inv f' t' s'
  ext : ∀ a b, f a = some b → f' a = some b
  grow : s.heap.length ≤ s'.heap.length
  keep : ∀ b : Nat, b < s.heap.length → s'.heap[b]? = s.heap[b]?
  new : ∀ a b, f' a = some b → f a = none →
    ∃ o o', h[a]? = some o ∧ s'.heap[b]? = some o' ∧ ObjRel f' o o'

theorem Step.same {h : List Obj} {f : Nat → Option Nat} {s s' : L} {t' : List Val} (hi : Inv f t' s')
    (hh : s'.heap = s.heap) : Step h f s t' f s' :=
  ⟨hi, fun _ _ h => h, by rw [hh]; exact Nat.le_refl _, fun b _ => by rw [hh],
    fun a b h1 h2 => by rw [h1] at h2; cases h2⟩

theorem Step.trans {h : List Obj} {f f1 f2 : Nat → Option Nat} {s s1 s2 : L} {t1 t2 : List Val}
    (h1 : Step h f s t1 f1 s1) (h2 : Step h f1 s1 t2 f2 s2) : Step h f s t2 f2 s2 := by
  refine ⟨h2.inv, fun a b hab => h2.ext _ _ (h1.ext _ _ hab), Nat.le_trans h1.grow h2.grow, ?_, ?_⟩
  · intro b hb
    rw [h2.keep b (Nat.lt_of_lt_of_le hb h1.grow), h1.keep b hb]
  · intro a b hab hn
    cases hf : f1 a with
    | none => exact h2.new a b hab hf
    | some b' =>
      have hb' := h2.ext _ _ hf
      rw [hab] at hb'
      cases hb'
      obtain ⟨o, o', ho, ho', hr⟩ := h1.new a b hf hn
      refine ⟨o, o', ho, ?_, hr.mono h2.ext⟩
      rw [h2.keep b (h1.inv.dom a b hf).2]
      exact ho'

/-- What loading must do after the dumper has written `bs` for `v`. -/
def Loads (env : Env) (h : List Obj) (t : List Val) (v : Val) (r : List Nat × List Val) : Prop :=
  ∀ f s rest, Inv f t s → s.inp = r.1 ++ rest →
    ∃ m0 f' v' s', (∀ m, m0 ≤ m → load env m s = .ok (v', s')) ∧ Step h f s r.2 f' s' ∧ Rel f' v v' ∧ s'.inp = rest

/-- The same for a list of values. -/
def LoadsAll (env : Env) (h : List Obj) (t : List Val) (vs : List Val) (r : List Nat × List Val) : Prop :=
  ∀ f s rest, Inv f t s → s.inp = r.1 ++ rest →
    ∃ m0 f' vs' s', (∀ m, m0 ≤ m → loadAll (load env m) vs.length s = .ok (vs', s')) ∧ Step h f s r.2 f' s' ∧
      List.Forall₂ (Rel f') vs vs' ∧ s'.inp = rest

theorem loadsAll_of {env : Env} {h : List Obj} {d : List Val → Val → R (List Nat × List Val)}
    (hg : ∀ t v r, d t v = .ok r → ∃ e, r.2 = t ++ e)
    (hd : ∀ t v r, d t v = .ok r → ValOk env v → r.2.length < 2147483648 → Loads env h t v r) :
    ∀ (vs t : List Val) (r : List Nat × List Val), dumpAll d t vs = .ok r → (∀ v ∈ vs, ValOk env v) →
      r.2.length < 2147483648 → LoadsAll env h t vs r := by
  intro vs
  induction vs with
  | nil =>
    intro t r hr _ _ f s rest hinv hi
    cases hr
    exact ⟨0, f, [], s, fun _ _ => rfl, Step.same hinv rfl, .nil, hi⟩
  | cons v vs ih =>
    intro t r hr hok hlen f s rest hinv hi
    simp only [dumpAll, bind_ok] at hr
    obtain ⟨r1, h1, r2, h2, h3⟩ := hr
    cases h3
    dsimp only at hlen hi ⊢
    obtain ⟨e, he⟩ := dumpAll_grows hg _ _ _ h2
    have hl1 : r1.2.length < 2147483648 := by
      rw [he, List.length_append] at hlen; omega
    obtain ⟨m1, f1, v', s1, l1, st1, rel1, i1⟩ := hd t v r1 h1 (hok v (by simp)) hl1 f s (r2.1 ++ rest) hinv
      (by rw [hi, List.append_assoc])
    obtain ⟨m2, f2, vs', s2, l2, st2, rel2, i2⟩ := ih r1.2 r2 h2 (fun w hw => hok w (by simp [hw])) hlen f1 s1 rest
      st1.inv i1
    refine ⟨max m1 m2, f2, v' :: vs', s2, fun m hm => ?_, st1.trans st2, .cons (rel1.mono st2.ext) rel2, i2⟩
    have ha := l1 m (by omega)
    have hb := l2 m (by omega)
    rw [List.length_cons, loadAll, ha]
    simp only [ok_bind]
    rw [hb]
    rfl

/-! ### Elements that are numbers -/

theorem raw_one (env : Env) (s : Shape) (hs : ShapeOk s) (hp : s ≠ .pointer) (x : Int) (hx : RawOk s x)
    (b : List Nat) (hb : rawPut env s x = some b) (rest : List Nat) : rawGet s (b ++ rest) = .ok (x, rest) := by
  cases s <;> simp only [RawOk] at hx
  · have : b = [x.toNat] := by simpa [rawPut] using hb.symm
    subst this
    show R.ok _ = _
    congr 2
    exact Int.toNat_of_nonneg hx.1
  · have : b = [x.toNat] := by
      have h1 : ¬ x < 0 := by omega
      simpa [rawPut, putByte, if_neg h1] using hb.symm
    subst this
    show R.ok _ = _
    congr 2
    exact Int.toNat_of_nonneg hx.1
  · have : b = putBytes x 2 x := by simpa [rawPut] using hb.symm
    subst this
    show getBytes true 2 1 0 _ = _
    rw [getBytes_put true x rest 1 1 0 x (fun h => h)]
    · simp
    · unfold Fits
      rw [if_pos rfl]
      have : (256 : Int) ^ (1 + 1) = 65536 := by decide
      rw [this]; omega
  · have : b = putBytes x 2 x := by simpa [rawPut] using hb.symm
    subst this
    show getBytes Bool.false 2 1 0 _ = _
    rw [getBytes_put Bool.false x rest 1 1 0 x (fun h => h)]
    · simp
    · unfold Fits
      rw [if_neg (by decide)]
      have : (256 : Int) ^ (1 + 1) = 65536 := by decide
      rw [this]; omega
  · have : b = long x := by simpa [rawPut] using hb.symm
    subst this
    exact getLong_long hx rest
  · have : b = putBytes x 8 x := by simpa [rawPut] using hb.symm
    subst this
    show getBytes Bool.false 8 1 0 _ = _
    rw [getBytes_put Bool.false x rest 7 1 0 x (fun h => h)]
    · simp
    · unfold Fits
      rw [if_neg (by decide)]
      have : (256 : Int) ^ (7 + 1) = 18446744073709551616 := by decide
      rw [this]; omega
  · have : b = long x := by simpa [rawPut] using hb.symm
    subst this
    show (getLong _ >>= _) = _
    rw [getLong_long (by unfold Long; omega)]
    simp only [ok_bind, asCharacter]
    rw [if_neg (by omega)]
    split <;> rename_i h <;> split at h <;> first | rfl | cases h | skip
    all_goals simp_all
  · have : b = long x := by simpa [rawPut] using hb.symm
    subst this
    show getBytes Bool.false 4 1 0 (putBytes x 4 x ++ rest) = _
    rw [getBytes_put Bool.false x rest 3 1 0 x (fun h => h)]
    · simp
    · unfold Fits
      rw [if_neg (by decide)]
      have : (256 : Int) ^ (3 + 1) = 4294967296 := by decide
      rw [this]; omega

theorem raw_all (env : Env) (s : Shape) (hs : ShapeOk s) (hp : s ≠ .pointer) : ∀ (xs : List Int) (b : List Nat),
    (∀ x ∈ xs, RawOk s x) → rawDump env s xs = .ok b → ∀ rest,
      rawLoad s xs.length (b ++ rest) = .ok (xs, rest) := by
  intro xs
  induction xs with
  | nil =>
    intro b _ hb rest
    simp only [rawDump] at hb
    split at hb
    · cases hb
    · cases hb; rfl
  | cons x xs ih =>
    intro b hok hb rest
    simp only [rawDump] at hb
    split at hb
    · cases hb
    · rename_i b0 hb0
      simp only [bind_ok] at hb
      obtain ⟨r, h1, h2⟩ := hb
      cases h2
      rw [List.length_cons, rawLoad, List.append_assoc,
        raw_one env s hs hp x (hok x (by simp)) b0 hb0]
      simp only [ok_bind]
      rw [ih r (fun y hy => hok y (by simp [hy])) h1]
      rfl

end Verif.Dumper
