import Verif.Dumper.Fuel
/-!
# What does not load as it was dumped

Claims C126 and C127: the integers, symbols, shapes and proxies that are left out of C124 do go wrong.
-/

namespace Verif.Dumper

/-! ### Integers and symbols -/

theorem long_bytes (i : Int) : long i =
    [(i % 256).toNat, (i / 256 % 256).toNat, (i / 256 / 256 % 256).toNat, (i / 256 / 256 / 256 % 256).toNat] := by
  have nn : ∀ j : Int, ¬ j % 256 < 0 := fun j => by omega
  unfold long
  simp only [putBytes, putByte, if_neg (nn _)]
  rw [if_neg (by omega)]
  rw [if_neg (by omega)]
  rw [if_neg (by omega)]
  rfl

/-- Four bytes are read as a number of 32 bits that is the number stored, less a multiple of `2 ^ 32`. -/
theorem getLong_any (i : Int) (rest : List Nat) :
    ∃ j, getLong (long i ++ rest) = .ok (j, rest) ∧ Long j ∧ ∃ q, i = j + q * 4294967296 := by
  have c : ∀ j : Int, ((j % 256).toNat : Int) = j % 256 := fun j => Int.toNat_of_nonneg (by omega)
  have g : ∀ j : Int, ((j % 256).toNat > 127) ↔ j % 256 > 127 := fun j => by omega
  rw [long_bytes]
  refine ⟨_, rfl, ?_, ?_⟩
  · simp only [c, g, Long, Bool.true_and, decide_eq_true_eq]
    split <;> omega
  · refine ⟨i / 256 / 256 / 256 / 256 + (if i / 256 / 256 / 256 % 256 > 127 then 1 else 0), ?_⟩
    simp only [c, g, Bool.true_and, decide_eq_true_eq]
    split <;> omega

theorem load_int (env : Env) (i j : Int) (rest : List Nat) (hg : getLong (long i ++ rest) = .ok (j, rest)) (m : Nat)
    (s : L) (hi : s.inp = long (-4) ++ long i ++ rest) :
    load env (m + 1) s = .ok (.int j, reg { s with inp := rest } (.int j)) := by
  rw [load, hi, List.append_assoc, getLong_long (by unfold Long; omega)]
  simp only [ok_bind]
  rw [if_pos (by omega)]
  simp only [specialLoad]
  rw [hg]
  rfl

/-- C126.  A SmallInteger that is not of 32 bits never loads as itself: another integer is loaded, and no error
is signalled. -/
theorem wide_integers_change (env : Env) (h : List Obj) (k : Nat) (i : Int)
    (hw : ¬ (-2147483648 ≤ i ∧ i < 2147483648)) :
    ∃ bytes t j s, dumpAll (dump env h (k + 1)) [] [.int i] = .ok (bytes, t) ∧
      Loaded env 1 bytes (.ok ([.int j], s)) ∧ j ≠ i := by
  obtain ⟨j, h1, h2, _⟩ := getLong_any i []
  refine ⟨long (-4) ++ long i ++ [], [.int i], j, reg ⟨[], [], []⟩ (.int j), ?_, ⟨by simp, 1, ?_⟩, ?_⟩
  · rfl
  · rw [loadAll, load_int env i j [] h1 0 _ rfl]
    rfl
  · intro e
    subst e
    exact hw h2

/-- For instance 2147483648 becomes its own negative. -/
example (env : Env) : dump env [] 1 [] (.int 2147483648) = .ok ([252, 255, 255, 255, 0, 0, 0, 128], [.int 2147483648]) ∧
    loadAll (load env 1) 1 ⟨[252, 255, 255, 255, 0, 0, 0, 128], [], []⟩ =
      .ok ([.int (-2147483648)], ⟨[], [.int (-2147483648)], []⟩) := by
  exact ⟨rfl, rfl⟩

theorem getAsciiz_nul (a b : Name) (h : 0 ∉ a) : getAsciiz (a ++ 0 :: b) = .ok (a, b) := by
  have := getAsciiz_put h b
  simpa using this

/-- C126.  A symbol with a NUL loads as another symbol, and what is loaded after it starts in the middle of its
name. -/
theorem symbols_with_nul_change (env : Env) (h : List Obj) (k : Nat) (a b : Name) (ha : 0 ∉ a) :
    ∃ bytes t s, dumpAll (dump env h (k + 1)) [] [.sym (a ++ 0 :: b)] = .ok (bytes, t) ∧
      Loaded env 1 bytes (.ok ([.sym a], s)) ∧ s.inp = b ++ [0] := by
  refine ⟨long (-11) ++ (a ++ 0 :: b) ++ [0] ++ [], [.sym (a ++ 0 :: b)], reg ⟨b ++ [0], [], []⟩ (.sym a), rfl,
    ⟨by simp, 1, ?_⟩, rfl⟩
  have hi : long (-11) ++ (a ++ 0 :: b) ++ [0] ++ [] = long (-11) ++ (a ++ 0 :: (b ++ [0])) := by simp
  rw [loadAll, load, hi, getLong_long (by unfold Long; omega)]
  simp only [ok_bind]
  rw [if_pos (by omega)]
  simp only [specialLoad]
  rw [getAsciiz_nul a _ ha]
  rfl

/-! ### Shapes -/

/-- C127.  No object of a class with shape `#uint` can be dumped. -/
theorem uint_not_dumped (env : Env) (h : List Obj) (a : Nat) (o : Obj) (i : Info) (ho : h[a]? = some o)
    (hb : env.bind o.cpath o.cname = some (.cls i)) (hs : i.shape = some .uint) (k : Nat) (t : List Val)
    (hn : Val.ref a ∉ t) (r : List Nat × List Val) : dump env h k t (.ref a) ≠ .ok r := by
  intro hd
  cases k with
  | zero => cases hd
  | succ k =>
    have prim : ∀ t r, primDump env (dump env h k) t a o i ≠ .ok r := by
      intro t r hp
      unfold primDump at hp
      rw [hs] at hp
      simp only [bind_ok] at hp
      obtain ⟨_, _, b, h2, _⟩ := hp
      cases hx : o.raws with
      | nil => rw [hx] at h2; simp [rawDump, rawPut] at h2
      | cons x xs => rw [hx] at h2; simp [rawDump, rawPut] at h2
    rcases dump_ok hd with ⟨hk, _⟩ | ⟨_, hsp⟩ | ⟨a', o', i', ev, _, ho', hb', ⟨_, r1, h1, _⟩ | ⟨_, r1, h1, _⟩⟩
    · have := (lookupIx_zero (t := t) (v := .ref a) (by simp)).mpr hn
      omega
    · cases hsp
    · cases ev
      rw [ho] at ho'
      cases ho'
      rw [hb] at hb'
      cases hb'
      exact prim _ _ h1
    · cases ev
      rw [ho] at ho'
      cases ho'
      rw [hb] at hb'
      cases hb'
      exact prim _ _ h1

/-- An image with some classes, all of them in `Smalltalk`: `A` has objects for elements, `C` characters, `D`
doubles, `I` bytes with a sign, `L` integers of 64 bits with a sign, `U` integers of 32 bits without a sign, and `P`
one variable; proxies are disabled for `P`. -/
def image : Env where
  narrow := fun x => x % 4294967296
  bind := fun p n =>
    if p ≠ [] then none
    else if n = [65] then some (.cls ⟨0, some .pointer, Bool.false⟩)
    else if n = [67] then some (.cls ⟨0, some .character, Bool.false⟩)
    else if n = [68] then some (.cls ⟨0, some .double, Bool.false⟩)
    else if n = [73] then some (.cls ⟨0, some .int8, Bool.false⟩)
    else if n = [76] then some (.cls ⟨0, some .int64, Bool.false⟩)
    else if n = [85] then some (.cls ⟨0, some .uint, Bool.false⟩)
    else if n = [80] then some (.cls ⟨1, none, Bool.true⟩)
    else if n = nullProxyName then some (.cls ⟨1, none, Bool.false⟩)
    else none

example : dump image [⟨[], [85], [], [], [5]⟩] 1 [] (.ref 0) = .err := by decide +kernel

/-- Dumping the objects and loading as many of them with so many steps. -/
def both (env : Env) (h : List Obj) (vs : List Val) (m : Nat) : R (List Val × L) :=
  dumpAll (dump env h (h.length + 1)) [] vs >>= fun r => loadAll (load env m) vs.length ⟨r.1, [], []⟩

theorem both_loaded {env : Env} {h : List Obj} {vs : List Val} {m : Nat} {x : R (List Val × L)} {b : List Nat}
    {t : List Val} (hd : dumpAll (dump env h (h.length + 1)) [] vs = .ok (b, t)) (hb : both env h vs m = x)
    (hx : x ≠ .fuel) : Loaded env vs.length b x := by
  unfold both at hb
  rw [hd] at hb
  exact ⟨hx, m, hb⟩

/-- C127.  An object whose elements are bytes with a sign is dumped, and loading it is an error. -/
theorem int8_not_loaded : ∃ bytes t, dumpAll (dump image [⟨[], [73], [], [], [1]⟩] 2) [] [.ref 0] = .ok (bytes, t) ∧
    Loaded image 1 bytes .err := by
  refine ⟨[0, 0, 0, 0, 1, 0, 0, 0, 0, 248, 255, 255, 255, 73, 0, 1, 0, 0, 0, 1],
    [.ns [], .cls [] [73], .ref 0], by decide +kernel, by simp, 5, by decide +kernel⟩

/-- C127.  The same for integers of 64 bits with a sign. -/
theorem int64_not_loaded : ∃ bytes t, dumpAll (dump image [⟨[], [76], [], [], [1]⟩] 2) [] [.ref 0] = .ok (bytes, t) ∧
    Loaded image 1 bytes .err := by
  refine ⟨[0, 0, 0, 0, 1, 0, 0, 0, 0, 248, 255, 255, 255, 76, 0, 1, 0, 0, 0, 1, 0, 0, 0, 0, 0, 0, 0],
    [.ns [], .cls [] [76], .ref 0], by decide +kernel, by simp, 5, by decide +kernel⟩

/-- C127.  Doubles are written as four bytes and read as eight: a double followed by a reference to the same
object loads as another double made of both, and the reference is lost. -/
theorem double_not_loaded :
    ∃ bytes t s x, dumpAll (dump image [⟨[], [68], [], [], [4607182418800017408]⟩] 2) [] [.ref 0, .ref 0] =
        .ok (bytes, t) ∧
      Loaded image 1 bytes (.ok ([.ref 0], s)) ∧ s.heap = [⟨[], [68], [], [], [x]⟩] ∧ x ≠ 4607182418800017408 ∧
      Loaded image 2 bytes .err := by
  refine ⟨[0, 0, 0, 0, 1, 0, 0, 0, 0, 248, 255, 255, 255, 68, 0, 1, 0, 0, 0, 0, 0, 0, 0, 3, 0, 0, 0],
    [.ns [], .cls [] [68], .ref 0], ⟨[], [.ns [], .cls [] [68], .ref 0], [⟨[], [68], [], [], [12884901888]⟩]⟩,
    12884901888, by decide +kernel, ⟨by simp, 5, by decide +kernel⟩, rfl, by decide, ⟨by simp, 5, by decide +kernel⟩⟩

/-! ### Disabled proxies -/

/-- C127.  After `disableProxyFor:`, an object of the class shifts everything after it: dumping such an object, a
string, `nil` and the string again loads as `nil` in the place of the string. -/
theorem disabled_proxy_shifts :
    ∃ bytes t s, dumpAll (dump image [⟨[], [80], [.int 3], [], []⟩, ⟨[], [67], [], [], [97]⟩] 3) []
        [.ref 0, .ref 1, .nil, .ref 1] = .ok (bytes, t) ∧
      Loaded image 4 bytes (.ok ([.ref 0, .ref 1, .nil, .nil], s)) := by
  refine ⟨[244, 255, 255, 255, 0, 0, 0, 0, 0, 0, 0, 0, 248, 255, 255, 255, 78, 117, 108, 108, 80, 114, 111, 120, 121,
      0, 0, 0, 0, 0, 1, 0, 0, 0, 0, 1, 0, 0, 0, 80, 0, 252, 255, 255, 255, 3, 0, 0, 0, 0, 0, 0, 0, 1, 0, 0, 0, 0, 1,
      0, 0, 0, 67, 0, 1, 0, 0, 0, 97, 255, 255, 255, 255, 10, 0, 0, 0],
    [.ns [], .cls [] nullProxyName, .cls [] [80], .ref 0, .int 3, .ref 0, .ref 0, .ref 0, .cls [] [67], .ref 1, .nil],
    ⟨[], [.ns [], .cls [] nullProxyName, .cls [] [80], .ref 0, .int 3, .ref 0, .ref 0, .cls [] [67], .ref 1, .nil],
      [⟨[], [80], [.int 3], [], []⟩, ⟨[], [67], [], [], [97]⟩]⟩,
    by decide +kernel, ⟨by simp, 9, by decide +kernel⟩⟩

/-- C127.  And dumping such an object twice cannot be loaded at all: the second time is a reference past the end
of the table. -/
theorem disabled_proxy_twice :
    ∃ bytes t, dumpAll (dump image [⟨[], [80], [.int 3], [], []⟩] 2) [] [.ref 0, .ref 0] = .ok (bytes, t) ∧
      Loaded image 2 bytes .err := by
  refine ⟨[244, 255, 255, 255, 0, 0, 0, 0, 0, 0, 0, 0, 248, 255, 255, 255, 78, 117, 108, 108, 80, 114, 111, 120, 121,
      0, 0, 0, 0, 0, 1, 0, 0, 0, 0, 1, 0, 0, 0, 80, 0, 252, 255, 255, 255, 3, 0, 0, 0, 8, 0, 0, 0],
    [.ns [], .cls [] nullProxyName, .cls [] [80], .ref 0, .int 3, .ref 0, .ref 0, .ref 0],
    by decide +kernel, ⟨by simp, 9, by decide +kernel⟩⟩

/-! ### A case for C124 and C125 -/

/-- An array that holds itself, a string twice, a number, a symbol, its own class and `nil`. -/
def ring : List Obj :=
  [⟨[], [65], [], [.ref 0, .ref 1, .ref 1, .int (-5), .sym [97], .cls [] [65], .nil], []⟩,
    ⟨[], [67], [], [], [97, 98]⟩]

theorem ring_ok : (∀ o ∈ ring, ObjOk image o) ∧ (∀ o ∈ ring, Closed ring o.fixed ∧ Closed ring o.ptrs) := by
  refine ⟨fun o ho => ?_, fun o ho => ?_⟩
  · simp only [ring, List.mem_cons, List.not_mem_nil, or_false] at ho
    rcases ho with e | e <;> subst e
    · refine ⟨trivial, by simp, by simp, ?_, by simp, by simp, ⟨0, some .pointer, Bool.false⟩, rfl, rfl, rfl, rfl⟩
      intro v hv
      simp only [List.mem_cons, List.not_mem_nil, or_false] at hv
      rcases hv with e | e | e | e | e | e | e <;> subst e
      · trivial
      · trivial
      · trivial
      · exact ⟨by omega, by omega⟩
      · show 0 ∉ [97]
        simp
      · exact ⟨trivial, by simp, ⟨0, some .pointer, Bool.false⟩, rfl⟩
      · trivial
    · refine ⟨trivial, by simp, by simp, by simp, by simp, by simp, ⟨0, some .character, Bool.false⟩, rfl, rfl, rfl,
        rfl, by unfold ShapeOk; simp, ?_⟩
      intro x hx
      simp only [List.mem_cons, List.not_mem_nil, or_false] at hx
      rcases hx with e | e <;> subst e <;> exact ⟨by omega, by omega⟩
  · simp only [ring, List.mem_cons, List.not_mem_nil, or_false] at ho
    rcases ho with e | e <;> subst e
    · refine ⟨fun a ha => by simp at ha, fun a ha => ?_⟩
      simp only [List.mem_cons, List.not_mem_nil, or_false, Val.ref.injEq, reduceCtorEq] at ha
      show a < 2
      omega
    · exact ⟨fun a ha => by simp at ha, fun a ha => by simp at ha⟩

example : ∃ bytes t, dumpAll (dump image ring (ring.length + 1)) [] [.ref 0, .ref 1] = .ok (bytes, t) ∧
    (t.length < 2147483648 →
      ∃ f vs' s, Loaded image 2 bytes (.ok (vs', s)) ∧ List.Forall₂ (Rel f) [.ref 0, .ref 1] vs' ∧
        (∀ a a' b, f a = some b → f a' = some b → a = a') ∧
        (∀ a b, f a = some b → ∃ o o', ring[a]? = some o ∧ s.heap[b]? = some o' ∧ ObjRel f o o')) :=
  round_trip_partial image ring ring_ok.1 ring_ok.2 [.ref 0, .ref 1]
    (fun a ha => by simp at ha; show a < 2; omega) (fun v hv => by
      simp only [List.mem_cons, List.not_mem_nil, or_false] at hv
      rcases hv with e | e <;> subst e <;> trivial)

/-- The array comes back holding itself, and the string is one string. -/
example : ∃ s, both image ring [.ref 0, .ref 1] 9 = .ok ([.ref 0, .ref 1], s) ∧ s.heap = ring :=
  ⟨⟨[], [.ns [], .cls [] [65], .ref 0, .cls [] [67], .ref 1, .int (-5), .sym [97], .nil], ring⟩,
    by decide +kernel, rfl⟩

end Verif.Dumper
