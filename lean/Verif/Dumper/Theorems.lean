import Verif.Dumper.Graph
/-!
# Dumped objects load as the same objects

Claim C124: a sequence of objects that is dumped, with everything that can be reached from them, loads as a
sequence of objects with the same classes and contents, and with the same sharing and the same cycles.
-/

namespace Verif.Dumper

/-- Between registering the new object `b` for `a` and filling it. -/
structure Part (h : List Obj) (f : Nat → Option Nat) (s : L) (a b : Nat) (t' : List Val) (f' : Nat → Option Nat)
    (s' : L) : Prop where
  inv : Inv f' t' s'
  ext : ∀ x y, f x = some y → f' x = some y
  here : f' a = some b
  len : b = s.heap.length
  lt : b < s'.heap.length
  keep : ∀ y : Nat, y < s.heap.length → s'.heap[y]? = s.heap[y]?
  new : ∀ x y, f' x = some y → f x = none → x ≠ a →
    ∃ o o', h[x]? = some o ∧ s'.heap[y]? = some o' ∧ ObjRel f' o o'

theorem Part.step {h : List Obj} {f f1 f2 : Nat → Option Nat} {s s1 s2 : L} {a b : Nat} {t1 t2 : List Val}
    (hp : Part h f s a b t1 f1 s1) (hs : Step h f1 s1 t2 f2 s2) : Part h f s a b t2 f2 s2 := by
  refine ⟨hs.inv, fun x y hxy => hs.ext _ _ (hp.ext _ _ hxy), hs.ext _ _ hp.here, hp.len,
    Nat.lt_of_lt_of_le hp.lt hs.grow, ?_, ?_⟩
  · intro y hy
    rw [hs.keep y (by have := hp.lt; have := hp.len; omega), hp.keep y hy]
  · intro x y hxy hn hne
    cases hf : f1 x with
    | none => exact hs.new x y hxy hf
    | some y' =>
      have hy' := hs.ext _ _ hf
      rw [hxy] at hy'
      cases hy'
      obtain ⟨o, o', ho, ho', hr⟩ := hp.new x y hf hn hne
      exact ⟨o, o', ho, by rw [hs.keep y (hp.inv.dom x y hf).2]; exact ho', hr.mono hs.ext⟩

theorem Part.set {h : List Obj} {f f1 : Nat → Option Nat} {s s1 : L} {a b : Nat} {t1 : List Val}
    (hp : Part h f s a b t1 f1 s1) (o : Obj) (inp : List Nat) :
    Part h f s a b t1 f1 { s1 with inp := inp, heap := s1.heap.set b o } := by
  refine ⟨⟨hp.inv.rel, fun x y hxy => ⟨(hp.inv.dom x y hxy).1, ?_⟩, hp.inv.inj⟩, hp.ext, hp.here, hp.len, ?_, ?_, ?_⟩
  · simpa using (hp.inv.dom x y hxy).2
  · simpa using hp.lt
  · intro y hy
    have hne : b ≠ y := by have := hp.len; omega
    simp only [List.getElem?_set_ne hne]
    exact hp.keep y hy
  · intro x y hxy hn hne
    obtain ⟨o1, o', ho, ho', hr⟩ := hp.new x y hxy hn hne
    have hyb : b ≠ y := fun e => hne (hp.inv.inj x a b (e ▸ hxy) hp.here)
    exact ⟨o1, o', ho, by simp only [List.getElem?_set_ne hyb]; exact ho', hr⟩

theorem Part.done {h : List Obj} {f f1 : Nat → Option Nat} {s s1 : L} {a b : Nat} {t1 : List Val}
    (hp : Part h f s a b t1 f1 s1) {o o' : Obj} (ho : h[a]? = some o) (ho' : s1.heap[b]? = some o')
    (hr : ObjRel f1 o o') : Step h f s t1 f1 s1 := by
  refine ⟨hp.inv, hp.ext, ?_, hp.keep, ?_⟩
  · have := hp.lt; have := hp.len; omega
  · intro x y hxy hn
    by_cases hx : x = a
    · subst hx
      rw [hp.here] at hxy
      cases hxy
      exact ⟨o, o', ho, ho', hr⟩
    · exact hp.new x y hxy hn hx

/-- The correspondence with one more object. -/
def upd (f : Nat → Option Nat) (a b : Nat) : Nat → Option Nat := fun x => if x = a then some b else f x

theorem Part.start {h : List Obj} {f : Nat → Option Nat} {s s1 : L} {a : Nat} {t : List Val}
    (hi : Inv f t s1) (hh : s1.heap = s.heap) (hn : f a = none) (o : Obj) (inp : List Nat) :
    Part h f s a s.heap.length (t ++ [.ref a]) (upd f a s.heap.length)
      (reg { s1 with inp := inp, heap := s1.heap ++ [o] } (.ref s.heap.length)) := by
  have hext : ∀ x y, f x = some y → upd f a s.heap.length x = some y := by
    intro x y hxy
    unfold upd
    rw [if_neg (fun e => by subst e; rw [hn] at hxy; cases hxy)]
    exact hxy
  have hhere : upd f a s.heap.length a = some s.heap.length := by unfold upd; rw [if_pos rfl]
  have hback : ∀ x y, upd f a s.heap.length x = some y → (x = a ∧ y = s.heap.length) ∨ f x = some y := by
    intro x y hxy
    unfold upd at hxy
    split at hxy
    · cases hxy; exact .inl ⟨by assumption, rfl⟩
    · exact .inr hxy
  refine ⟨⟨?_, ?_, ?_⟩, hext, hhere, rfl, ?_, ?_, ?_⟩
  · exact forall2_append (rels_mono hext hi.rel) (.cons ⟨_, hhere, rfl⟩ .nil)
  · intro x y hxy
    show _ ∧ y < (s1.heap ++ [o]).length
    rw [List.length_append, hh]
    rcases hback x y hxy with ⟨e1, e2⟩ | hf
    · subst e1; subst e2; exact ⟨by simp, by simp⟩
    · have := hi.dom x y hf
      rw [hh] at this
      exact ⟨List.mem_append_left _ this.1, by simp; omega⟩
  · intro x x' y hx hx'
    rcases hback x y hx with ⟨e1, e2⟩ | hf <;> rcases hback x' y hx' with ⟨e1', e2'⟩ | hf'
    · rw [e1, e1']
    · have := (hi.dom x' y hf').2; rw [hh] at this; omega
    · have := (hi.dom x y hf).2; rw [hh] at this; omega
    · exact hi.inj x x' y hf hf'
  · show _ < (s1.heap ++ [o]).length
    rw [List.length_append, hh]; simp
  · intro y hy
    show (s1.heap ++ [o])[y]? = _
    rw [hh, List.getElem?_append_left hy]
  · intro x y hxy hfx hne
    rcases hback x y hxy with ⟨e1, _⟩ | hf
    · exact absurd e1 hne
    · rw [hfx] at hf; cases hf

theorem set_get {heap : List Obj} {b : Nat} {o : Obj} (h : b < heap.length) : (heap.set b o)[b]? = some o := by
  rw [List.getElem?_set_self h]

/-- An object loads if everything that is dumped within it does. -/
theorem prim_loads {env : Env} {h : List Obj} {d : List Val → Val → R (List Nat × List Val)}
    (hg : ∀ t v r, d t v = .ok r → ∃ e, r.2 = t ++ e)
    (hd : ∀ t v r, d t v = .ok r → ValOk env v → r.2.length < 2147483648 → Loads env h t v r)
    {t : List Val} {a : Nat} {o : Obj} {i : Info} {r : List Nat × List Val} (ho : h[a]? = some o)
    (hok : ObjOk env o) (hb : env.bind o.cpath o.cname = some (.cls i)) (hk : lookupIx t (.ref a) = 0)
    (hr : primDump env d t a o i = .ok r) (hlen : r.2.length < 2147483648) :
    Loads env h t (.ref a) (long 0 ++ r.1, r.2) := by
  intro f s rest hinv hi
  have hn : f a = none := by
    cases hf : f a with
    | none => rfl
    | some b =>
      exact absurd (hinv.dom a b hf).1 ((lookupIx_zero (by simp)).mp hk)
  obtain ⟨hp, hnm, hfix, hptr, hlp, hlr, i', hb', hnp, hil, hshape⟩ := hok
  rw [hb] at hb'
  cases hb'
  -- what comes before the variables
  have key : ∀ (body : List Nat) (t' : List Val), r = ([1] ++ (storeClassName t o.cpath o.cname).1 ++ body, t') →
      (storeClassName t o.cpath o.cname).2.length < 2147483648 →
      (∀ s1, Inv f (storeClassName t o.cpath o.cname).2 s1 → s1.heap = s.heap → s1.inp = body ++ rest →
        ∃ m0 f' v' s', (∀ m, m0 ≤ m → primLoad (load env m) o.cpath o.cname i s1 = .ok (v', s')) ∧
          Step h f s t' f' s' ∧ Rel f' (.ref a) v' ∧ s'.inp = rest) →
      ∃ m0 f' v' s', (∀ m, m0 ≤ m → load env m s = .ok (v', s')) ∧ Step h f s r.2 f' s' ∧ Rel f' (.ref a) v' ∧
        s'.inp = rest := by
    intro body t' er hlc hbody
    subst er
    dsimp only at hi ⊢
    obtain ⟨m1, s1, h1, h2, h3, h4⟩ := class_reads env f o.cpath o.cname hp hnm ⟨i, hb⟩ t hlc
      { s with inp := (storeClassName t o.cpath o.cname).1 ++ (body ++ rest) } _ (hinv.inp _) rfl
    obtain ⟨m2, f', v', s', h5, h6, h7, h8⟩ := hbody s1 h2 h3 h4
    refine ⟨max m1 m2 + 1, f', v', s', fun m hm => ?_, h6, h7, h8⟩
    obtain ⟨m, rfl⟩ : ∃ k, m = k + 1 := ⟨m - 1, by omega⟩
    have hi' : s.inp = long 0 ++ (1 :: ((storeClassName t o.cpath o.cname).1 ++ (body ++ rest))) := by
      rw [hi]; simp only [List.append_assoc, List.cons_append, List.nil_append]
    rw [load, hi', getLong_long (by unfold Long; omega)]
    simp only [ok_bind]
    rw [if_neg (by omega), if_neg (by omega)]
    simp only [loadObject, getByte, ok_bind]
    have := h1 m (by omega)
    simp only at this
    rw [this]
    simp only [ok_bind]
    rw [if_neg (by decide), hb]
    exact h5 m (by omega)
  unfold primDump at hr
  simp only [] at hr
  split at hr
  · -- no indexed variables
    rename_i hsh
    rw [hsh] at hshape
    simp only [bind_ok] at hr
    obtain ⟨r1, h1, h2⟩ := hr
    cases h2
    obtain ⟨e1, he1⟩ := dumpAll_grows hg _ _ _ h1
    have hlc : (storeClassName t o.cpath o.cname).2.length < 2147483648 := by
      dsimp only at hlen; rw [he1] at hlen; simp at hlen; omega
    refine key _ _ rfl hlc ?_
    intro s1 hi1 hh1 hin1
    have st := Part.start (h := h) (s := s) (a := a) hi1 hh1 hn (blank o.cpath o.cname i 0) s1.inp
    obtain ⟨m0, f2, vs, s2, l2, st2, rel2, i2⟩ := loadsAll_of hg hd _ _ _ h1 hfix hlen _ _ rest st.inv hin1
    have p2 := (st.step st2).set { blank o.cpath o.cname i 0 with fixed := vs } s2.inp
    refine ⟨m0, f2, .ref s.heap.length, _, fun m hm => ?_, p2.done ho (set_get (st.step st2).lt) ?_,
      ⟨_, (st.step st2).here, rfl⟩, i2⟩
    · have := l2 m hm
      rw [hil] at this
      unfold primLoad
      rw [hsh]
      simp only [hh1] at this ⊢
      rw [this]
      rfl
    · refine ⟨rfl, rfl, rel2, ?_, ?_⟩
      · simp only [blank, hsh, hshape.1]; exact .nil
      · simp only [blank, hsh, hshape.2]; rfl
  · -- objects
    rename_i hsh
    rw [hsh] at hshape
    simp only [bind_ok] at hr
    obtain ⟨r1, h1, r2, h2, h3⟩ := hr
    cases h3
    obtain ⟨e1, he1⟩ := dumpAll_grows hg _ _ _ h1
    obtain ⟨e2, he2⟩ := dumpAll_grows hg _ _ _ h2
    dsimp only at hlen
    have hl1 : r1.2.length < 2147483648 := by rw [he2] at hlen; simp at hlen; omega
    have hlc : (storeClassName t o.cpath o.cname).2.length < 2147483648 := by
      rw [he1] at hl1; simp at hl1; omega
    refine key (long o.ptrs.length ++ r1.1 ++ r2.1) r2.2 (by simp) hlc ?_
    intro s1 hi1 hh1 hin1
    have st := Part.start (h := h) (s := s) (a := a) hi1 hh1 hn (blank o.cpath o.cname i o.ptrs.length)
      (r1.1 ++ (r2.1 ++ rest))
    obtain ⟨m1, f2, vs, s2, l2, st2, rel2, i2⟩ := loadsAll_of hg hd _ _ _ h1 hfix hl1 _ _ (r2.1 ++ rest) st.inv rfl
    have p2 := (st.step st2).set { blank o.cpath o.cname i o.ptrs.length with fixed := vs } s2.inp
    obtain ⟨m2, f3, ps, s3, l3, st3, rel3, i3⟩ := loadsAll_of hg hd _ _ _ h2 hptr hlen _ _ rest p2.inv i2
    have p3 := (p2.step st3).set { blank o.cpath o.cname i o.ptrs.length with fixed := vs, ptrs := ps } s3.inp
    refine ⟨max m1 m2, f3, .ref s.heap.length, _, fun m hm => ?_, p3.done ho (set_get (p2.step st3).lt) ?_,
      ⟨_, (p2.step st3).here, rfl⟩, i3⟩
    · have ha := l2 m (by omega)
      have hb := l3 m (by omega)
      rw [hil] at ha
      unfold primLoad
      rw [hsh]
      have hin : s1.inp = long o.ptrs.length ++ (r1.1 ++ (r2.1 ++ rest)) := by
        rw [hin1]; simp only [List.append_assoc]
      simp only [hin]
      rw [getLong_long (by unfold Long; omega)]
      simp only [ok_bind, hh1, Int.toNat_natCast] at ha ⊢
      rw [if_neg (by omega), ha]
      simp only [ok_bind, if_true]
      rw [hb]
      rfl
    · refine ⟨rfl, rfl, rels_mono st3.ext rel2, rel3, ?_⟩
      simp only [blank, hsh, hshape]; rfl
  · -- numbers
    rename_i sh hne hsh
    have hne' : sh ≠ .pointer := fun e => hne e
    rw [hsh] at hshape
    have hshape' : o.ptrs = [] ∧ ShapeOk sh ∧ ∀ x ∈ o.raws, RawOk sh x := by
      cases sh <;> first | exact hshape | exact absurd rfl hne'
    obtain ⟨hp0, hso, hro⟩ := hshape'
    simp only [bind_ok] at hr
    obtain ⟨r1, h1, b, h2, h3⟩ := hr
    cases h3
    obtain ⟨e1, he1⟩ := dumpAll_grows hg _ _ _ h1
    dsimp only at hlen
    have hlc : (storeClassName t o.cpath o.cname).2.length < 2147483648 := by
      rw [he1] at hlen; simp at hlen; omega
    refine key (long o.raws.length ++ r1.1 ++ b) r1.2 (by simp) hlc ?_
    intro s1 hi1 hh1 hin1
    have st := Part.start (h := h) (s := s) (a := a) hi1 hh1 hn (blank o.cpath o.cname i o.raws.length)
      (r1.1 ++ (b ++ rest))
    obtain ⟨m1, f2, vs, s2, l2, st2, rel2, i2⟩ := loadsAll_of hg hd _ _ _ h1 hfix hlen _ _ (b ++ rest) st.inv rfl
    have p2 := (st.step st2).set { blank o.cpath o.cname i o.raws.length with fixed := vs } s2.inp
    have p3 := p2.set { blank o.cpath o.cname i o.raws.length with fixed := vs, raws := o.raws } rest
    refine ⟨m1, f2, .ref s.heap.length, _, fun m hm => ?_, p3.done ho (set_get p2.lt) ?_,
      ⟨_, p2.here, rfl⟩, rfl⟩
    · have ha := l2 m (by omega)
      rw [hil] at ha
      unfold primLoad
      rw [hsh]
      have hin : s1.inp = long o.raws.length ++ (r1.1 ++ (b ++ rest)) := by
        rw [hin1]; simp only [List.append_assoc]
      simp only [hin]
      rw [getLong_long (by unfold Long; omega)]
      simp only [ok_bind, hh1, Int.toNat_natCast] at ha ⊢
      rw [if_neg (by omega), ha]
      simp only [ok_bind]
      rw [if_neg hne', i2, raw_all env sh hso hne' _ _ hro h2]
      rfl
    · refine ⟨rfl, rfl, rel2, ?_, rfl⟩
      simp only [blank, hsh, hp0]
      rw [if_neg (fun e => hne' (by simpa using e))]
      exact .nil

/-- What `dump:` writes, `load` reads. -/
theorem dump_loads (env : Env) (h : List Obj) (hh : ∀ o ∈ h, ObjOk env o) :
    ∀ (k : Nat) (t : List Val) (v : Val) (r : List Nat × List Val), dump env h k t v = .ok r → ValOk env v →
      r.2.length < 2147483648 → Loads env h t v r := by
  intro k
  induction k with
  | zero => intro t v r hd; cases hd
  | succ k ih =>
    intro t v r hd hv hlen
    rcases dump_ok hd with ⟨hk, e⟩ | ⟨hk, hs⟩ | ⟨a, o, i, ev, hk, ho, hb, ⟨hnp, _⟩ | ⟨_, r1, h1, e⟩⟩
    · subst e
      intro f s rest hinv hi
      obtain ⟨v', h1, h2⟩ := load_ref env hinv hk hlen hi
      exact ⟨1, f, v', _, h2, Step.same (hinv.inp rest) rfl, h1, rfl⟩
    · intro f s rest hinv hi
      obtain ⟨m0, s', h1, h2, h3, h4⟩ := special_reads env f t v r hs hv hlen s rest hinv hi
      refine ⟨m0, f, v, s', h1, Step.same h2 h3, ?_, h4⟩
      cases v <;> first | rfl | cases hs
    · have hmem : o ∈ h := by obtain ⟨h1, h2⟩ := List.getElem?_eq_some_iff.mp ho; exact h2 ▸ List.getElem_mem h1
      obtain ⟨_, _, _, _, _, _, i', hb', hnp', _⟩ := hh o hmem
      rw [hb] at hb'
      cases hb'
      rw [hnp] at hnp'
      cases hnp'
    · have hmem : o ∈ h := by obtain ⟨h1, h2⟩ := List.getElem?_eq_some_iff.mp ho; exact h2 ▸ List.getElem_mem h1
      subst ev
      subst e
      exact prim_loads (dump_grows env h k) ih ho (hh o hmem) hb hk h1 hlen

/-- C124.  Whatever sequence of objects is dumped (by sending `dump:` again and again to one dumper), loading as
many objects from the bytes succeeds, reads exactly these bytes, and gives objects that stand for those dumped:
there is a one-to-one correspondence `f` such that every value loaded is the value dumped up to `f`, and so are the
class and the variables of every object that corresponds to another.  So cycles and shared parts come back as cycles
and shared parts.  Partial: of the integers, symbols and shapes only those of `ValOk` and `ObjOk`, and no
proxies. -/
theorem dumped_objects_load_partial (env : Env) (h : List Obj) (hh : ∀ o ∈ h, ObjOk env o) (vs : List Val)
    (hv : ∀ v ∈ vs, ValOk env v) (k : Nat) (bytes : List Nat) (t : List Val)
    (hd : dumpAll (dump env h k) [] vs = .ok (bytes, t)) (hlen : t.length < 2147483648) (rest : List Nat) :
    ∃ (m0 : Nat) (f : Nat → Option Nat) (vs' : List Val) (s : L),
      (∀ m, m0 ≤ m → loadAll (load env m) vs.length ⟨bytes ++ rest, [], []⟩ = .ok (vs', s)) ∧
      s.inp = rest ∧ List.Forall₂ (Rel f) vs vs' ∧
      (∀ a a' b, f a = some b → f a' = some b → a = a') ∧
      (∀ a b, f a = some b → ∃ o o', h[a]? = some o ∧ s.heap[b]? = some o' ∧ ObjRel f o o') := by
  obtain ⟨m0, f, vs', s, h1, h2, h3, h4⟩ := loadsAll_of (dump_grows env h k) (dump_loads env h hh k) vs [] _ hd hv hlen
    (fun _ => none) ⟨bytes ++ rest, [], []⟩ rest
    ⟨.nil, fun _ _ h => (by cases h), fun _ _ _ h => (by cases h)⟩ rfl
  exact ⟨m0, f, vs', s, h1, h4, h3, h2.inv.inj, fun a b hab => h2.new a b hab rfl⟩

end Verif.Dumper
