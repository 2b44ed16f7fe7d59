import Verif.Trees.Registry
/-!
# The registries: what the operations do to the tree
-/
namespace Verif.Trees

variable {α κ : Type} [LinearOrder κ]

/-- Memory holds a red-black tree with the given entries in increasing order of keys. -/
structure Holds (key : α → κ) (m : Mem α) (l : List α) : Prop where
  tree : ∃ T, Tree m T ∧ RBTree T ∧ T.inorder.map Prod.snd = l
  sorted : l.Pairwise fun x y => key x < key y

theorem holds_empty (key : α → κ) : Holds key (emptyMem α) [] :=
  ⟨⟨.nil, ⟨trivial, rfl, by simp [Tr.addrs, caddrs], by simp [Tr.addrs, caddrs]⟩, ⟨⟨0, rfl⟩, trivial, rfl⟩, rfl⟩, List.Pairwise.nil⟩

theorem sorted_map {key : α → κ} {l : List (Nat × α)} :
    (l.map Prod.snd).Pairwise (fun x y => key x < key y) ↔ Sorted key l := by
  rw [List.pairwise_map]; rfl

theorem length_addrs (T : Tr α) : T.addrs.length = (T.inorder.map Prod.snd).length := by
  rw [← (addrs_inorder T).length_eq]; simp

/-- Result of the search for the insertion of a key. -/
theorem Holds.descend {key : α → κ} {m : Mem α} {l : List α} (h : Holds key m l) (k : κ) :
    (∃ a tag v lt rt c, At m (.node a tag v lt rt) c ∧ RBTree (zip (.node a tag v lt rt) c) ∧
      l = (lefts c ++ lt.inorder ++ (a, v) :: (rt.inorder ++ rights c)).map Prod.snd ∧ key v = k ∧
      ∀ fuel, l.length < fuel → ∃ p s, descend key k fuel m 0 false m.root = some (a, p, s)) ∨
    (∃ c, At m .nil c ∧ RBTree (zip .nil c) ∧ l = (lefts c ++ rights c).map Prod.snd ∧
      (∀ x ∈ lefts c, key x.2 < k) ∧ (∀ x ∈ rights c, k < key x.2) ∧
      ∀ fuel, l.length < fuel → descend key k fuel m 0 false m.root = some (0, cptr c, side c)) := by
  obtain ⟨⟨T, t1, t2, t3⟩, hs⟩ := h
  have hroot : m.root = T.ptr := t1.crep
  have hlen := length_addrs T
  rw [t3] at hlen
  have hs' : Sorted key T.inorder := by rw [← sorted_map, t3]; exact hs
  rcases descend_spec key k t1 hs' with ⟨a, tag, v, lt, rt, c, p, s, e1, e2, e3, e4⟩ | ⟨p, e1, e2, e3, e4, e5⟩
  · left
    refine ⟨a, tag, v, lt, rt, c, e1, by rw [e2]; exact t2, ?_, e3, ?_⟩
    · rw [← t3, show T = zip T [] from rfl, ← e2, inorder_zip]
      simp [Tr.inorder]
    · intro fuel hf
      rw [hroot]
      exact ⟨p, s, e4 fuel (by omega)⟩
  · right
    rw [List.append_nil] at e1 e5
    refine ⟨p, e1, by rw [e2]; exact t2, ?_, e3, e4, ?_⟩
    · rw [← t3, ← e2, inorder_zip]
      simp [Tr.inorder]
    · intro fuel hf
      rw [hroot]
      exact e5 fuel (by omega)

/-- Adding a node where the search ended. -/
theorem Holds.insert {key : α → κ} {m : Mem α} {c : Ctx α} {a tag : Nat} {v : α} (hA : At m .nil c) (hrb : RBTree (zip .nil c))
    (hs : ((lefts c ++ rights c).map Prod.snd).Pairwise fun x y => key x < key y)
    (hl : ∀ x ∈ lefts c, key x.2 < key v) (hr : ∀ x ∈ rights c, key v < key x.2) (hfr : m.fresh a) (fuel : Nat)
    (hf : (lefts c ++ rights c).length < fuel) :
    ∃ m', ((attach m a (cptr c) (side c) tag v).bind fun m => rebalance fuel m a) = some m' ∧
      Holds key m' ((lefts c).map Prod.snd ++ v :: (rights c).map Prod.snd) := by
  have ha : a ∉ caddrs c := by
    have := (at_zip.1 hA).fresh_notMem hfr
    rw [(addrs_zip .nil c).mem_iff] at this
    simpa [Tr.addrs] using this
  have hcl : c.length < fuel := by
    have h1 := ctx_length_le c
    have h2 := (addrs_zip .nil c).length_eq
    have h3 := length_addrs (zip .nil c)
    rw [inorder_zip] at h3
    simp only [Tr.addrs, List.nil_append, Tr.inorder, List.append_nil, List.length_map, List.length_append] at h2 h3 hf
    omega
  obtain ⟨m1, s1, a1⟩ := attach_spec (tag := tag) (v := v) hA ha hfr.1
  obtain ⟨m2, T, s2, t1, t2, t3⟩ := rebalance_spec fuel m1 a tag v c hcl a1 hrb
  refine ⟨m2, ?_, ⟨T, t1, t2, ?_⟩, ?_⟩
  · rw [s1]; exact s2
  · rw [t3, inorder_zip]
    simp [nd, Tr.inorder]
  · simp only [List.map_append, List.pairwise_append, List.mem_map, List.pairwise_cons, List.mem_cons] at hs ⊢
    obtain ⟨h1, h2, h3⟩ := hs
    refine ⟨h1, ⟨?_, h2⟩, ?_⟩
    · rintro _ ⟨x, hx, rfl⟩; exact hr x hx
    · rintro x ⟨y, hy, rfl⟩ z hz
      rcases hz with rfl | hz
      · exact hl y hy
      · exact h3 _ ⟨y, hy, rfl⟩ z hz

/-- Taking out a node. -/
theorem Holds.remove {key : α → κ} {m : Mem α} {a tag : Nat} {v : α} {l r : Tr α} {c : Ctx α}
    (hA : At m (.node a tag v l r) c) (hrb : RBTree (zip (.node a tag v l r) c)) (A B : List α)
    (hAe : (lefts c ++ l.inorder).map Prod.snd = A) (hBe : (r.inorder ++ rights c).map Prod.snd = B)
    (hs : (A ++ v :: B).Pairwise fun x y => key x < key y) (fuel : Nat) (hf : (A ++ v :: B).length < fuel) :
    ∃ m', ((erase fuel m a).map fun m => m.free a) = some m' ∧ Holds key m' (A ++ B) := by
  have hlen := length_addrs (zip (.node a tag v l r) c)
  have hin : (zip (.node a tag v l r) c).inorder.map Prod.snd = A ++ v :: B := by
    rw [← hAe, ← hBe, inorder_zip]; simp [Tr.inorder]
  rw [hin] at hlen
  obtain ⟨m1, T, s1, t1, t2, t3⟩ := erase_spec fuel m a tag v l r c hA hrb (by omega)
  have hT : T.inorder.map Prod.snd = A ++ B := by rw [t3, ← hAe, ← hBe]; simp
  have hnot : a ∉ T.addrs := by
    rw [← (addrs_inorder T).mem_iff, t3]
    have hnd : ((zip (.node a tag v l r) c).inorder.map Prod.fst).Nodup :=
      (addrs_inorder _).nodup_iff.2 (by simpa [caddrs] using (at_zip.1 hA).nodup)
    rw [inorder_zip] at hnd
    simp only [Tr.inorder, List.map_append, List.map_cons] at hnd ⊢
    simp only [List.append_assoc, List.cons_append] at hnd ⊢
    rw [← List.append_assoc] at hnd
    have := (List.perm_middle.nodup_iff.1 hnd)
    simpa using (List.nodup_cons.1 this).1
  refine ⟨m1.free a, by rw [s1]; rfl, ⟨T, t1.free hnot, t2, hT⟩, ?_⟩
  simp only [List.pairwise_append, List.pairwise_cons, List.mem_cons] at hs ⊢
  exact ⟨hs.1, hs.2.1.2, fun x hx y hy => hs.2.2 x hx y (.inr hy)⟩

/-- Changing the data of a node without changing its key. -/
theorem Holds.update {key : α → κ} {m : Mem α} {a tag : Nat} {v : α} {l r : Tr α} {c : Ctx α}
    (hA : At m (.node a tag v l r) c) (hrb : RBTree (zip (.node a tag v l r) c)) (A B : List α)
    (hAe : (lefts c ++ l.inorder).map Prod.snd = A) (hBe : (r.inorder ++ rights c).map Prod.snd = B)
    (hs : (A ++ v :: B).Pairwise fun x y => key x < key y) (v' : α) (hk : key v' = key v) :
    ∃ m', m.setData a v' = some m' ∧ Holds key m' (A ++ v' :: B) := by
  obtain ⟨m1, s1, a1⟩ := At.setData (d := false) hA v'
  obtain ⟨n, b1, b2, b3, b4, b5⟩ := unzip_rb hrb
  refine ⟨m1, s1, ⟨zip (.node a tag v' l r) c, at_zip.1 a1, ?_, ?_⟩, ?_⟩
  · exact zip_rb (n := n) b1 b2 b3 b4 b5
  · rw [← hAe, ← hBe, inorder_zip]; simp [Tr.inorder]
  · simp only [List.pairwise_append, List.pairwise_cons, List.mem_cons] at hs ⊢
    refine ⟨hs.1, ⟨fun y hy => hk ▸ hs.2.1.1 y hy, hs.2.1.2⟩, fun x hx y hy => ?_⟩
    rcases hy with rfl | hy
    · rw [hk]; exact hs.2.2 x hx _ (.inl rfl)
    · exact hs.2.2 x hx _ (.inr hy)

/-- Enumerating the data. -/
theorem walk_data {m : Mem α} {T : Tr α} (h : Tree m T) {β : Type} (f : α → β) (fuel : Nat) (hf : T.addrs.length + 1 < fuel) :
    ((walk fuel m).bind fun l => l.mapM fun a => (m.get a).map fun c => f c.data) = some (T.inorder.map fun x => f x.2) := by
  rw [walk_spec h fuel hf, Option.bind_some]
  have key : ∀ (t : Tr α) (c : Ctx α), At m t c → ∀ x ∈ t.inorder, ((m.get x.1).map fun c => f c.data) = some (f x.2) := by
    intro t
    induction t with
    | nil => intro c _ x hx; simp [Tr.inorder] at hx
    | node a tag v l r ihl ihr =>
      intro c h x hx
      simp only [Tr.inorder, List.mem_append, List.mem_cons] at hx
      rcases hx with hx | rfl | hx
      · exact ihl _ (At.up.2 (show At m (nd false a tag v l r) c from h)) x hx
      · rw [(show At m (nd false a tag v l r) c from h).get]; rfl
      · exact ihr _ (At.up.2 (show At m (nd true a tag v r l) c from h)) x hx
  have k := key T [] h
  generalize T.inorder = L at k
  induction L with
  | nil => rfl
  | cons x L ih =>
    simp only [List.map_cons, List.mapM_cons]
    rw [k x List.mem_cons_self, ih fun y hy => k y (List.mem_cons_of_mem _ hy)]
    rfl

theorem Holds.data {key : α → κ} {m : Mem α} {l : List α} (h : Holds key m l) {β : Type} (f : α → β) (fuel : Nat)
    (hf : l.length + 1 < fuel) :
    ((walk fuel m).bind fun l => l.mapM fun a => (m.get a).map fun c => f c.data) = some (l.map f) := by
  obtain ⟨T, t1, -, t3⟩ := h.tree
  rw [walk_data t1 f fuel (by rw [length_addrs, t3]; exact hf), ← t3, List.map_map]
  rfl

end Verif.Trees
