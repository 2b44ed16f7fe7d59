import Mathlib.Data.List.Basic
import Mathlib.Tactic.Common

/-!
# The page-level allocator (libgst/alloc.c)

The free list is a Lean list of blocks in the place of a list linked through the blocks
themselves (`vFree.next`); blocks carry their size as in the C code.  `P` is the page size.
The operating system's answers (`_gst_osmem_alloc`, `morecore`) are parameters.
Not modelled: statistics, hooks, the checks that `abort` (they are theorems below).
-/

namespace Verif.Alloc

set_option linter.unusedSimpArgs false

/-- A block of memory: its address and its size in bytes (`heap_block` and `size`,
alloc.h:72-95). -/
structure Blk where
  addr : Nat
  size : Nat
  deriving DecidableEq, Repr

/-- `BLOCKEND (B)`: alloc.c:59. -/
def Blk.stop (b : Blk) : Nat := b.addr + b.size

/-- The loop of `heap_add_to_free_list`: alloc.c:599-654. -/
def place (mem lptr : Blk) : List Blk → List Blk
  | [] =>
    if lptr.stop = mem.addr then [{ lptr with size := lptr.size + mem.size }]
    else [lptr, mem]
  | nptr :: rest =>
    if mem.addr > lptr.addr ∧ mem.addr < nptr.addr then
      if lptr.stop = mem.addr then
        if mem.stop = nptr.addr then
          { lptr with size := lptr.size + (mem.size + nptr.size) } :: rest
        else { lptr with size := lptr.size + mem.size } :: nptr :: rest
      else
        if mem.stop = nptr.addr then
          lptr :: { mem with size := mem.size + nptr.size } :: rest
        else lptr :: mem :: nptr :: rest
    else lptr :: place mem nptr rest

/-- `heap_add_to_free_list`: alloc.c:568-654. -/
def addToFreeList (mem : Blk) : List Blk → List Blk
  | [] => [mem]
  | b :: rest =>
    if mem.addr < b.addr then
      if mem.stop = b.addr then { mem with size := mem.size + b.size } :: rest
      else mem :: b :: rest
    else place mem b rest

/-- The loop of `heap_primitive_alloc`: alloc.c:499-540.  Answers the address and what is left
of the list. -/
def firstFit (P sz : Nat) : List Blk → Option (Blk × List Blk)
  | [] => none
  | b :: rest =>
    if sz ≤ b.size then
      if b.size - sz ≥ P then
        some ({ b with size := sz }, { addr := b.addr + sz, size := b.size - sz } :: rest)
      else some (b, rest)
    else (firstFit P sz rest).map fun r => (r.1, b :: r.2)

/-- `mmap` is the flag `mmap_block`. -/
structure Live where
  blk : Blk
  mmap : Bool
  deriving DecidableEq, Repr

structure Heap where
  /-- `heap_prim_freelist` -/
  free : List Blk
  /-- `heap_total` and `heap_limit` (0: no limit) -/
  total : Nat
  limit : Nat
  /-- For the specification: the blocks given out and not yet returned, and the regions that
  `morecore` has answered. -/
  live : List Live
  core : List Blk

/-- `heap_primitive_alloc`: alloc.c:456-545.  `os` is the answer of `_gst_osmem_alloc`, for
requests above `threshold` (`MMAP_THRESHOLD`). -/
def primAlloc (P threshold : Nat) (h : Heap) (sz : Nat) (os : Option Nat) :
    Option (Live × Heap) :=
  if h.limit ≠ 0 ∧ h.total ≤ h.limit ∧ h.total + sz > h.limit then none
  else
    match (if sz > threshold then os else none) with
    | some a =>
      let l : Live := { blk := { addr := a, size := sz }, mmap := true }
      some (l, { h with total := h.total + sz, live := l :: h.live })
    | none =>
      match firstFit P sz h.free with
      | some (b, rest) =>
        let l : Live := { blk := b, mmap := false }
        some (l, { h with free := rest, total := h.total + sz, live := l :: h.live })
      | none => none

/-- `heap_primitive_free`: alloc.c:549-566. -/
def primFree (h : Heap) (l : Live) : Heap :=
  { h with total := h.total - l.blk.size,
           live := h.live.erase l,
           free := if l.mmap then h.free else addToFreeList l.blk h.free }

/-- `heap_system_alloc`: alloc.c:656-673; `a` is the answer of `morecore`. -/
def systemAlloc (h : Heap) (sz a : Nat) : Heap :=
  { h with free := addToFreeList { addr := a, size := sz } h.free,
           core := { addr := a, size := sz } :: h.core }

/-- What `_gst_mem_realloc` does before it frees the pages no longer needed (alloc.c:321-333):
the last `n` bytes of a block become a block of their own. -/
def split (h : Heap) (l : Live) (n : Nat) : Live × Live × Heap :=
  let front : Live := { l with blk := { l.blk with size := l.blk.size - n } }
  let back : Live := { l with blk := { addr := l.blk.addr + (l.blk.size - n), size := n } }
  (front, back, { h with live := front :: back :: h.live.erase l })

/-! ## Specification -/

/-- The bytes of a block. -/
def Blk.Has (b : Blk) (x : Nat) : Prop := b.addr ≤ x ∧ x < b.stop

def Disjoint (a b : Blk) : Prop := ∀ x, ¬ (a.Has x ∧ b.Has x)

def Aligned (P : Nat) (b : Blk) : Prop := P ∣ b.addr ∧ P ∣ b.size ∧ 0 < b.size

/-- Sorted by address, and between two blocks there is a gap. -/
def Sorted (l : List Blk) : Prop := l.Pairwise fun a b => a.stop < b.addr

theorem disjoint_iff {a b : Blk} (ha : 0 < a.size) (hb : 0 < b.size) :
    Disjoint a b ↔ a.stop ≤ b.addr ∨ b.stop ≤ a.addr := by
  unfold Disjoint Blk.Has Blk.stop
  constructor
  · intro h
    by_contra hc
    simp only [not_or, Nat.not_le] at hc
    by_cases hab : a.addr ≤ b.addr
    · exact h b.addr ⟨⟨hab, hc.1⟩, Nat.le_refl _, by omega⟩
    · exact h a.addr ⟨⟨Nat.le_refl _, by omega⟩, by omega, hc.2⟩
  · rintro h x ⟨h1, h2⟩
    omega

theorem Disjoint.symm {a b : Blk} (h : Disjoint a b) : Disjoint b a := fun x hx => h x hx.symm

/-! ## Putting a block on the free list -/

theorem place_spec {mem : Blk} (hm : 0 < mem.size) (lptr : Blk) (rest : List Blk)
    (hs : Sorted (lptr :: rest)) (hpos : ∀ b ∈ lptr :: rest, 0 < b.size)
    (hd : ∀ b ∈ lptr :: rest, Disjoint mem b) (hlt : lptr.addr ≤ mem.addr) :
    Sorted (place mem lptr rest) ∧
    (∀ b ∈ place mem lptr rest, lptr.addr ≤ b.addr) ∧
    (∀ b ∈ place mem lptr rest, 0 < b.size) ∧
    ∀ x, (∃ b ∈ place mem lptr rest, b.Has x) ↔ mem.Has x ∨ ∃ b ∈ lptr :: rest, b.Has x := by
  induction rest generalizing lptr with
  | nil =>
    have hl := hpos lptr (by simp)
    have hdl := (disjoint_iff hm hl).mp (hd lptr (by simp))
    unfold Blk.stop at hdl
    have hend : lptr.addr + lptr.size ≤ mem.addr := by omega
    simp only [place]
    split
    · rename_i h
      unfold Blk.stop at h
      refine ⟨List.pairwise_singleton _ _, by simp, by simpa using Nat.lt_add_right _ hl, ?_⟩
      intro x
      simp only [List.mem_singleton, exists_eq_left, Blk.Has, Blk.stop]
      omega
    · rename_i h
      unfold Blk.stop at h
      refine ⟨?_, by simpa using hlt, by simpa using ⟨hl, hm⟩, ?_⟩
      · refine List.pairwise_cons.mpr ⟨?_, List.pairwise_singleton _ _⟩
        simp only [List.mem_singleton, forall_eq, Blk.stop]
        omega
      · intro x
        simp only [List.mem_cons, List.not_mem_nil, or_false, exists_eq_or_imp, exists_eq_left]
        rw [or_comm]
  | cons nptr rest ih =>
    have hl := hpos lptr (by simp)
    have hn := hpos nptr (by simp)
    have hdl := (disjoint_iff hm hl).mp (hd lptr (by simp))
    have hdn := (disjoint_iff hm hn).mp (hd nptr (by simp))
    have hs' := List.pairwise_cons.mp hs
    have hs'' := List.pairwise_cons.mp hs'.2
    have hln := hs'.1 nptr (by simp)
    unfold Blk.stop at hdl hdn hln
    have hend : lptr.addr + lptr.size ≤ mem.addr := by omega
    simp only [place]
    split
    · rename_i hmid
      have hmn : mem.addr + mem.size ≤ nptr.addr := by omega
      have hrest : ∀ b ∈ rest, nptr.addr + nptr.size < b.addr := hs''.1
      split
      · rename_i h1
        unfold Blk.stop at h1
        split
        · rename_i h2
          unfold Blk.stop at h2
          refine ⟨List.pairwise_cons.mpr ⟨?_, hs''.2⟩, ?_, ?_, ?_⟩
          · intro b hb; have := hrest b hb; simp only [Blk.stop]; omega
          · intro b hb
            rcases List.mem_cons.mp hb with rfl | hb
            · exact Nat.le_refl _
            · have := hrest b hb; omega
          · intro b hb
            rcases List.mem_cons.mp hb with rfl | hb
            · show 0 < lptr.size + _; omega
            · exact hpos b (by simp [hb])
          · intro x
            simp only [List.mem_cons, exists_eq_or_imp, Blk.Has, Blk.stop]
            have : (lptr.addr ≤ x ∧ x < lptr.addr + (lptr.size + (mem.size + nptr.size))) ↔
              (mem.addr ≤ x ∧ x < mem.addr + mem.size) ∨ (lptr.addr ≤ x ∧ x < lptr.addr + lptr.size)
              ∨ (nptr.addr ≤ x ∧ x < nptr.addr + nptr.size) := by omega
            rw [this]; simp only [or_assoc, or_comm, or_left_comm]
        · rename_i h2
          unfold Blk.stop at h2
          refine ⟨List.pairwise_cons.mpr ⟨?_, hs'.2⟩, ?_, ?_, ?_⟩
          · intro b hb
            simp only [Blk.stop]
            rcases List.mem_cons.mp hb with rfl | hb
            · omega
            · have := hrest b hb; omega
          · intro b hb
            rcases List.mem_cons.mp hb with rfl | hb
            · exact Nat.le_refl _
            · rcases List.mem_cons.mp hb with rfl | hb
              · omega
              · have := hrest b hb; omega
          · intro b hb
            rcases List.mem_cons.mp hb with rfl | hb
            · show 0 < lptr.size + _; omega
            · exact hpos b (List.mem_cons_of_mem _ hb)
          · intro x
            simp only [List.mem_cons, exists_eq_or_imp, Blk.Has, Blk.stop]
            have : (lptr.addr ≤ x ∧ x < lptr.addr + (lptr.size + mem.size)) ↔
              (mem.addr ≤ x ∧ x < mem.addr + mem.size) ∨ (lptr.addr ≤ x ∧ x < lptr.addr + lptr.size)
               := by omega
            rw [this]; simp only [or_assoc, or_comm, or_left_comm]
      · rename_i h1
        unfold Blk.stop at h1
        split
        · rename_i h2
          unfold Blk.stop at h2
          refine ⟨List.pairwise_cons.mpr ⟨?_, List.pairwise_cons.mpr ⟨?_, hs''.2⟩⟩, ?_, ?_, ?_⟩
          · intro b hb
            simp only [Blk.stop]
            rcases List.mem_cons.mp hb with rfl | hb
            · show _ < mem.addr; omega
            · have := hrest b hb; omega
          · intro b hb; have := hrest b hb; simp only [Blk.stop]; omega
          · intro b hb
            rcases List.mem_cons.mp hb with rfl | hb
            · exact Nat.le_refl _
            · rcases List.mem_cons.mp hb with rfl | hb
              · exact hlt
              · have := hrest b hb; omega
          · intro b hb
            rcases List.mem_cons.mp hb with rfl | hb
            · exact hl
            · rcases List.mem_cons.mp hb with rfl | hb
              · show 0 < mem.size + _; omega
              · exact hpos b (by simp [hb])
          · intro x
            simp only [List.mem_cons, exists_eq_or_imp, Blk.Has, Blk.stop]
            have : (mem.addr ≤ x ∧ x < mem.addr + (mem.size + nptr.size)) ↔
              (mem.addr ≤ x ∧ x < mem.addr + mem.size)
              ∨ (nptr.addr ≤ x ∧ x < nptr.addr + nptr.size) := by omega
            rw [this]; simp only [or_assoc, or_comm, or_left_comm]
        · rename_i h2
          unfold Blk.stop at h2
          refine ⟨List.pairwise_cons.mpr ⟨?_, List.pairwise_cons.mpr ⟨?_, hs'.2⟩⟩, ?_, ?_, ?_⟩
          · intro b hb
            simp only [Blk.stop]
            rcases List.mem_cons.mp hb with rfl | hb
            · omega
            · exact hs'.1 b hb
          · intro b hb
            simp only [Blk.stop]
            rcases List.mem_cons.mp hb with rfl | hb
            · omega
            · have := hrest b hb; omega
          · intro b hb
            rcases List.mem_cons.mp hb with rfl | hb
            · exact Nat.le_refl _
            · rcases List.mem_cons.mp hb with rfl | hb
              · exact hlt
              · have := hs'.1 b hb; unfold Blk.stop at this; omega
          · intro b hb
            rcases List.mem_cons.mp hb with rfl | hb
            · exact hl
            · rcases List.mem_cons.mp hb with rfl | hb
              · exact hm
              · exact hpos b (List.mem_cons_of_mem _ hb)
          · intro x
            simp only [List.mem_cons, exists_eq_or_imp, or_left_comm]
    · rename_i hmid
      have hle : nptr.addr ≤ mem.addr := by
        by_contra hc
        exact hmid ⟨by omega, by omega⟩
      obtain ⟨i1, i2, i3, i4⟩ := ih nptr hs'.2 (fun b hb => hpos b (List.mem_cons_of_mem _ hb))
        (fun b hb => hd b (List.mem_cons_of_mem _ hb)) hle
      refine ⟨List.pairwise_cons.mpr ⟨?_, i1⟩, ?_, ?_, ?_⟩
      · intro b hb; have := i2 b hb; simp only [Blk.stop]; omega
      · intro b hb
        rcases List.mem_cons.mp hb with rfl | hb
        · exact Nat.le_refl _
        · have := i2 b hb; omega
      · intro b hb
        rcases List.mem_cons.mp hb with rfl | hb
        · exact hl
        · exact i3 b hb
      · intro x
        simp only [List.mem_cons, exists_eq_or_imp] at i4 ⊢
        rw [i4]; simp only [or_assoc, or_comm, or_left_comm]

theorem addToFreeList_spec {mem : Blk} (hm : 0 < mem.size) (l : List Blk) (hs : Sorted l)
    (hpos : ∀ b ∈ l, 0 < b.size) (hd : ∀ b ∈ l, Disjoint mem b) :
    Sorted (addToFreeList mem l) ∧ (∀ b ∈ addToFreeList mem l, 0 < b.size) ∧
    ∀ x, (∃ b ∈ addToFreeList mem l, b.Has x) ↔ mem.Has x ∨ ∃ b ∈ l, b.Has x := by
  cases l with
  | nil => exact ⟨List.pairwise_singleton _ _, by simpa [addToFreeList] using hm,
      by simp [addToFreeList]⟩
  | cons b rest =>
    have hb := hpos b (by simp)
    have hdb := (disjoint_iff hm hb).mp (hd b (by simp))
    have hs' := List.pairwise_cons.mp hs
    unfold Blk.stop at hdb
    simp only [addToFreeList]
    split
    · rename_i h
      split
      · rename_i h1
        unfold Blk.stop at h1
        refine ⟨List.pairwise_cons.mpr ⟨?_, hs'.2⟩, ?_, ?_⟩
        · intro c hc; have := hs'.1 c hc; simp only [Blk.stop] at this ⊢; omega
        · intro c hc
          rcases List.mem_cons.mp hc with rfl | hc
          · show 0 < mem.size + _; omega
          · exact hpos c (by simp [hc])
        · intro x
          simp only [List.mem_cons, exists_eq_or_imp, Blk.Has, Blk.stop]
          have : (mem.addr ≤ x ∧ x < mem.addr + (mem.size + b.size)) ↔
              (mem.addr ≤ x ∧ x < mem.addr + mem.size)
              ∨ (b.addr ≤ x ∧ x < b.addr + b.size) := by omega
          rw [this]; simp only [or_assoc, or_comm, or_left_comm]
      · rename_i h1
        unfold Blk.stop at h1
        refine ⟨List.pairwise_cons.mpr ⟨?_, hs⟩, ?_, ?_⟩
        · intro c hc
          simp only [Blk.stop]
          rcases List.mem_cons.mp hc with rfl | hc
          · omega
          · have := hs'.1 c hc; simp only [Blk.stop] at this; omega
        · intro c hc
          rcases List.mem_cons.mp hc with rfl | hc
          · exact hm
          · exact hpos c hc
        · intro x; simp only [List.mem_cons, exists_eq_or_imp]
    · rename_i h
      obtain ⟨h1, -, h3, h4⟩ := place_spec hm b rest hs hpos hd (by omega)
      exact ⟨h1, h3, h4⟩

theorem place_aligned {P : Nat} {mem : Blk} (hm : P ∣ mem.addr ∧ P ∣ mem.size) (lptr : Blk)
    (rest : List Blk) (h : ∀ b ∈ lptr :: rest, P ∣ b.addr ∧ P ∣ b.size) :
    ∀ b ∈ place mem lptr rest, P ∣ b.addr ∧ P ∣ b.size := by
  induction rest generalizing lptr with
  | nil =>
    have hl := h lptr (by simp)
    simp only [place]
    split
    · intro b hb
      simp only [List.mem_singleton] at hb
      subst hb
      exact ⟨hl.1, Nat.dvd_add hl.2 hm.2⟩
    · intro b hb
      simp only [List.mem_cons, List.not_mem_nil, or_false] at hb
      rcases hb with rfl | rfl
      · exact hl
      · exact hm
  | cons nptr rest ih =>
    have hl := h lptr (by simp)
    have hn := h nptr (by simp)
    have hr : ∀ b ∈ rest, P ∣ b.addr ∧ P ∣ b.size := fun b hb => h b (by simp [hb])
    simp only [place]
    split
    · split <;> split <;> intro b hb <;> simp only [List.mem_cons] at hb
      · rcases hb with rfl | hb
        · exact ⟨hl.1, Nat.dvd_add hl.2 (Nat.dvd_add hm.2 hn.2)⟩
        · exact hr b hb
      · rcases hb with rfl | rfl | hb
        · exact ⟨hl.1, Nat.dvd_add hl.2 hm.2⟩
        · exact hn
        · exact hr b hb
      · rcases hb with rfl | rfl | hb
        · exact hl
        · exact ⟨hm.1, Nat.dvd_add hm.2 hn.2⟩
        · exact hr b hb
      · rcases hb with rfl | rfl | rfl | hb
        · exact hl
        · exact hm
        · exact hn
        · exact hr b hb
    · intro b hb
      rcases List.mem_cons.mp hb with rfl | hb
      · exact hl
      · exact ih nptr (fun b hb => h b (List.mem_cons_of_mem _ hb)) b hb

theorem addToFreeList_aligned {P : Nat} {mem : Blk} (hm : P ∣ mem.addr ∧ P ∣ mem.size)
    (l : List Blk) (h : ∀ b ∈ l, P ∣ b.addr ∧ P ∣ b.size) :
    ∀ b ∈ addToFreeList mem l, P ∣ b.addr ∧ P ∣ b.size := by
  cases l with
  | nil => simpa [addToFreeList] using hm
  | cons c rest =>
    have hc := h c (by simp)
    simp only [addToFreeList]
    split
    · split <;> intro b hb <;> simp only [List.mem_cons] at hb
      · rcases hb with rfl | hb
        · exact ⟨hm.1, Nat.dvd_add hm.2 hc.2⟩
        · exact h b (by simp [hb])
      · rcases hb with rfl | rfl | hb
        · exact hm
        · exact hc
        · exact h b (by simp [hb])
    · exact place_aligned hm c rest h

/-! ## Taking a block off the free list -/

theorem firstFit_spec {P sz : Nat} (hP : 0 < P) (hsz : 0 < sz) (hd : P ∣ sz) (l : List Blk)
    (hs : Sorted l) (hal : ∀ b ∈ l, Aligned P b) (b : Blk) (rest : List Blk)
    (h : firstFit P sz l = some (b, rest)) :
    b.size = sz ∧ P ∣ b.addr ∧ Sorted rest ∧ (∀ c ∈ rest, Aligned P c) ∧
    (∀ c ∈ rest, Disjoint b c) ∧ (∀ c ∈ rest, ∃ d ∈ l, d.addr ≤ c.addr) ∧
    (∃ d ∈ l, d.addr ≤ b.addr) ∧
    ∀ x, (∃ c ∈ l, c.Has x) ↔ b.Has x ∨ ∃ c ∈ rest, c.Has x := by
  induction l generalizing b rest with
  | nil => cases h
  | cons c l ih =>
    have hc := hal c (by simp)
    have hs' := List.pairwise_cons.mp hs
    simp only [firstFit] at h
    split at h
    · rename_i hle
      split at h
      · rename_i hleft
        cases h
        have hsub : P ∣ c.size - sz := Nat.dvd_sub hc.2.1 hd
        refine ⟨rfl, hc.1, List.pairwise_cons.mpr ⟨?_, hs'.2⟩, ?_, ?_, ?_, ⟨c, by simp, Nat.le_refl _⟩, ?_⟩
        · intro d hd'; have := hs'.1 d hd'; simp only [Blk.stop] at this ⊢; omega
        · intro d hd'
          rcases List.mem_cons.mp hd' with rfl | hd'
          · exact ⟨Nat.dvd_add hc.1 hd, hsub, by show 0 < c.size - sz; omega⟩
          · exact hal d (by simp [hd'])
        · intro d hd' x hx
          simp only [Blk.Has, Blk.stop] at hx
          rcases List.mem_cons.mp hd' with rfl | hd'
          · simp only at hx; omega
          · have := hs'.1 d hd'; simp only [Blk.stop] at this; omega
        · intro d hd'
          rcases List.mem_cons.mp hd' with rfl | hd'
          · exact ⟨c, by simp, by show c.addr ≤ c.addr + sz; omega⟩
          · exact ⟨d, by simp [hd'], Nat.le_refl _⟩
        · intro x
          simp only [List.mem_cons, exists_eq_or_imp, Blk.Has, Blk.stop]
          have : (c.addr ≤ x ∧ x < c.addr + c.size) ↔ (c.addr ≤ x ∧ x < c.addr + sz) ∨
              (c.addr + sz ≤ x ∧ x < c.addr + sz + (c.size - sz)) := by omega
          rw [this]; simp only [or_assoc, or_comm, or_left_comm]
      · rename_i hleft
        cases h
        have hsize : c.size = sz := by
          have h1 : P ∣ c.size - sz := Nat.dvd_sub hc.2.1 hd
          have h2 : c.size - sz = 0 := by
            by_contra h0
            exact hleft (Nat.le_of_dvd (by omega) h1)
          omega
        refine ⟨hsize, hc.1, hs'.2, fun d hd' => hal d (by simp [hd']), ?_,
          fun d hd' => ⟨d, by simp [hd'], Nat.le_refl _⟩, ⟨c, by simp, Nat.le_refl _⟩, ?_⟩
        · intro d hd' x hx
          have := hs'.1 d hd'
          simp only [Blk.Has, Blk.stop] at hx this
          omega
        · intro x; simp only [List.mem_cons, exists_eq_or_imp]
    · rename_i hle
      rw [Option.map_eq_some_iff] at h
      obtain ⟨⟨b', r'⟩, h1, h2⟩ := h
      cases h2
      obtain ⟨i1, i2, i3, i4, i5, i6, i7, i8⟩ := ih hs'.2 (fun d hd' => hal d (by simp [hd'])) b' r' h1
      refine ⟨i1, i2, List.pairwise_cons.mpr ⟨?_, i3⟩, ?_, ?_, ?_, ?_, ?_⟩
      · intro d hd'
        obtain ⟨e, he, hle'⟩ := i6 d hd'
        have := hs'.1 e he
        omega
      · intro d hd'
        rcases List.mem_cons.mp hd' with rfl | hd'
        · exact hc
        · exact i4 d hd'
      · intro d hd'
        rcases List.mem_cons.mp hd' with rfl | hd'
        · obtain ⟨e, he, hle'⟩ := i7
          have := hs'.1 e he
          intro x hx
          simp only [Blk.Has, Blk.stop] at hx this
          omega
        · exact i5 d hd'
      · intro d hd'
        rcases List.mem_cons.mp hd' with rfl | hd'
        · exact ⟨d, by simp, Nat.le_refl _⟩
        · obtain ⟨e, he, hle'⟩ := i6 d hd'
          exact ⟨e, by simp [he], hle'⟩
      · obtain ⟨e, he, hle'⟩ := i7
        exact ⟨e, by simp [he], hle'⟩
      · intro x
        simp only [List.mem_cons, exists_eq_or_imp]
        rw [i8]; simp only [or_assoc, or_comm, or_left_comm]

/-- The loop finds a block whenever there is one. -/
theorem firstFit_none {P sz : Nat} (l : List Blk) :
    firstFit P sz l = none ↔ ∀ b ∈ l, b.size < sz := by
  induction l with
  | nil => simp [firstFit]
  | cons c l ih =>
    simp only [firstFit]
    split
    · rename_i h
      constructor
      · intro h'; split at h' <;> cases h'
      · intro h'; have := h' c (by simp); omega
    · rename_i h
      rw [Option.map_eq_none_iff, ih]
      constructor
      · intro h' b hb
        rcases List.mem_cons.mp hb with rfl | hb
        · omega
        · exact h' b hb
      · intro h' b hb; exact h' b (by simp [hb])

/-! ## Every history -/

/-- The operations, with what the operating system guarantees: memory it hands out is aligned
and shares no byte with memory in use. -/
inductive Step (P threshold : Nat) : Heap → Heap → Prop
  | alloc (h h' : Heap) (sz : Nat) (os : Option Nat) (l : Live) (hsz : 0 < sz) (hd : P ∣ sz)
      (hos : ∀ a, os = some a → P ∣ a ∧ (∀ c ∈ h.free, Disjoint ⟨a, sz⟩ c) ∧
        (∀ l ∈ h.live, Disjoint ⟨a, sz⟩ l.blk))
      (hr : primAlloc P threshold h sz os = some (l, h')) : Step P threshold h h'
  | free (h : Heap) (l : Live) (hl : l ∈ h.live) : Step P threshold h (primFree h l)
  | grow (h : Heap) (sz a : Nat) (hsz : 0 < sz) (hd : P ∣ sz) (ha : P ∣ a)
      (h1 : ∀ c ∈ h.free, Disjoint ⟨a, sz⟩ c) (h2 : ∀ l ∈ h.live, Disjoint ⟨a, sz⟩ l.blk) :
      Step P threshold h (systemAlloc h sz a)

  | split (h : Heap) (l : Live) (n : Nat) (hl : l ∈ h.live) (hn : 0 < n) (hlt : n < l.blk.size)
      (hd : P ∣ n) : Step P threshold h (split h l n).2.2

def emptyHeap (limit : Nat) : Heap :=
  { free := [], total := 0, limit := limit, live := [], core := [] }

inductive Reachable (P threshold limit : Nat) : Heap → Prop
  | init : Reachable P threshold limit (emptyHeap limit)
  | step (h h' : Heap) (hr : Reachable P threshold limit h) (hs : Step P threshold h h') :
      Reachable P threshold limit h'

structure Inv (P : Nat) (h : Heap) : Prop where
  sorted : Sorted h.free
  aligned : ∀ b ∈ h.free, Aligned P b
  liveAligned : ∀ l ∈ h.live, Aligned P l.blk
  disjoint : h.live.Pairwise fun l m => Disjoint l.blk m.blk
  apart : ∀ l ∈ h.live, ∀ b ∈ h.free, Disjoint l.blk b
  cover : ∀ x, (∃ c ∈ h.core, c.Has x) ↔
    (∃ b ∈ h.free, b.Has x) ∨ (∃ l ∈ h.live, l.mmap = false ∧ l.blk.Has x)
  total : h.total = (h.live.map fun l => l.blk.size).sum

theorem addToFreeList_all {P : Nat} {mem : Blk} {l : List Blk} (hm : Aligned P mem) (hs : Sorted l)
    (hal : ∀ b ∈ l, Aligned P b) (hd : ∀ b ∈ l, Disjoint mem b) :
    Sorted (addToFreeList mem l) ∧ (∀ b ∈ addToFreeList mem l, Aligned P b) ∧
    ∀ x, (∃ b ∈ addToFreeList mem l, b.Has x) ↔ mem.Has x ∨ ∃ b ∈ l, b.Has x := by
  obtain ⟨h1, h2, h3⟩ := addToFreeList_spec hm.2.2 l hs (fun b hb => (hal b hb).2.2) hd
  have h4 := addToFreeList_aligned ⟨hm.1, hm.2.1⟩ l (fun b hb => ⟨(hal b hb).1, (hal b hb).2.1⟩)
  exact ⟨h1, fun b hb => ⟨(h4 b hb).1, (h4 b hb).2, h2 b hb⟩, h3⟩

theorem live_nodup {P : Nat} {h : Heap} (i : Inv P h) : h.live.Nodup := by
  refine List.Pairwise.imp_of_mem ?_ i.disjoint
  rintro a b ha hb hd rfl
  have := (i.liveAligned a ha).2.2
  exact hd a.blk.addr ⟨⟨Nat.le_refl _, by simp only [Blk.stop]; omega⟩,
    Nat.le_refl _, by simp only [Blk.stop]; omega⟩

theorem inv_alloc {P threshold : Nat} (hP : 0 < P) {h h' : Heap} (i : Inv P h) {sz : Nat}
    {os : Option Nat} {l : Live} (hsz : 0 < sz) (hd : P ∣ sz)
    (hos : ∀ a, os = some a → P ∣ a ∧ (∀ c ∈ h.free, Disjoint ⟨a, sz⟩ c) ∧
        (∀ l ∈ h.live, Disjoint ⟨a, sz⟩ l.blk))
    (hr : primAlloc P threshold h sz os = some (l, h')) :
    Inv P h' ∧ l.blk.size = sz ∧ h'.live = l :: h.live ∧ h'.limit = h.limit := by
  unfold primAlloc at hr
  split at hr
  · cases hr
  · split at hr
    · rename_i a ha
      have hos' : os = some a := by
        split at ha
        · exact ha
        · cases ha
      cases hr
      obtain ⟨o1, o2, o3⟩ := hos a hos'
      refine ⟨⟨i.sorted, i.aligned, ?_, ?_, ?_, ?_, ?_⟩, rfl, rfl, rfl⟩
      · intro l hl
        rcases List.mem_cons.mp hl with rfl | hl
        · exact ⟨o1, hd, hsz⟩
        · exact i.liveAligned l hl
      · exact List.pairwise_cons.mpr ⟨o3, i.disjoint⟩
      · intro l hl c hc
        rcases List.mem_cons.mp hl with rfl | hl
        · exact o2 c hc
        · exact i.apart l hl c hc
      · intro x
        rw [i.cover x]
        simp [List.mem_cons]
      · show h.total + sz = _
        simp only [List.map_cons, List.sum_cons, i.total]
        omega
    · split at hr
      · rename_i b rest hff
        cases hr
        obtain ⟨f1, f2, f3, f4, f5, -, -, f8⟩ := firstFit_spec hP hsz hd h.free i.sorted i.aligned _ _ hff
        have hsub : ∀ x, b.Has x → ∃ c ∈ h.free, c.Has x := fun x hx => (f8 x).mpr (.inl hx)
        have hsub' : ∀ c ∈ rest, ∀ x, c.Has x → ∃ c ∈ h.free, c.Has x :=
          fun c hc x hx => (f8 x).mpr (.inr ⟨c, hc, hx⟩)
        refine ⟨⟨f3, f4, ?_, ?_, ?_, ?_, ?_⟩, f1, rfl, rfl⟩
        · intro l hl
          rcases List.mem_cons.mp hl with rfl | hl
          · exact ⟨f2, by rw [f1]; exact hd, by rw [f1]; exact hsz⟩
          · exact i.liveAligned l hl
        · refine List.pairwise_cons.mpr ⟨?_, i.disjoint⟩
          rintro l hl x ⟨hx1, hx2⟩
          obtain ⟨c, hc, hcx⟩ := hsub x hx1
          exact i.apart l hl c hc x ⟨hx2, hcx⟩
        · intro l hl c hc
          rcases List.mem_cons.mp hl with rfl | hl
          · exact f5 c hc
          · rintro x ⟨hx1, hx2⟩
            obtain ⟨d, hd', hdx⟩ := hsub' c hc x hx2
            exact i.apart l hl d hd' x ⟨hx1, hdx⟩
        · intro x
          rw [i.cover x, f8 x]
          simp only [List.mem_cons, exists_eq_or_imp, true_and, or_assoc, or_left_comm]
        · show h.total + sz = _
          simp only [List.map_cons, List.sum_cons, i.total, f1]
          omega
      · cases hr

theorem inv_free {P : Nat} {h : Heap} (i : Inv P h) {l : Live} (hl : l ∈ h.live) :
    Inv P (primFree h l) := by
  have hnd := live_nodup i
  have hmem : ∀ m, m ∈ h.live.erase l ↔ m ≠ l ∧ m ∈ h.live := fun m => by
    rw [List.Nodup.mem_erase_iff hnd]
  have hperm := List.perm_cons_erase hl
  have hdis : ∀ m ∈ h.live.erase l, Disjoint l.blk m.blk := by
    have := (List.Perm.pairwise_iff (fun {a b : Live} (hd : Disjoint a.blk b.blk) => hd.symm) hperm).mp
      i.disjoint
    exact (List.pairwise_cons.mp this).1
  have htotal : h.total = l.blk.size + ((h.live.erase l).map fun l => l.blk.size).sum := by
    rw [i.total]
    have := (hperm.map (fun l : Live => l.blk.size)).sum_nat
    simpa using this
  have hpw := i.disjoint.sublist (List.erase_sublist (l := h.live) (a := l))
  unfold primFree
  by_cases hmm : l.mmap = true
  · simp only [hmm, if_true]
    refine ⟨i.sorted, i.aligned, fun m hm => i.liveAligned m ((hmem m).mp hm).2, hpw,
      fun m hm => i.apart m ((hmem m).mp hm).2, ?_, ?_⟩
    · intro x
      rw [i.cover x]
      constructor
      · rintro (h1 | ⟨m, h1, h2, h3⟩)
        · exact .inl h1
        · refine .inr ⟨m, (hmem m).mpr ⟨?_, h1⟩, h2, h3⟩
          rintro rfl
          rw [hmm] at h2; cases h2
      · rintro (h1 | ⟨m, h1, h2, h3⟩)
        · exact .inl h1
        · exact .inr ⟨m, ((hmem m).mp h1).2, h2, h3⟩
    · show h.total - l.blk.size = ((h.live.erase l).map fun l => l.blk.size).sum
      rw [htotal]; omega
  · simp only [hmm, if_false, Bool.false_eq_true]
    obtain ⟨a1, a2, a3⟩ := addToFreeList_all (i.liveAligned l hl) i.sorted i.aligned
      (i.apart l hl)
    refine ⟨a1, a2, fun m hm => i.liveAligned m ((hmem m).mp hm).2, hpw, ?_, ?_, ?_⟩
    · rintro m hm b hb x ⟨hx1, hx2⟩
      rcases (a3 x).mp ⟨b, hb, hx2⟩ with h1 | ⟨c, hc, hcx⟩
      · exact hdis m hm x ⟨h1, hx1⟩
      · exact i.apart m ((hmem m).mp hm).2 c hc x ⟨hx1, hcx⟩
    · intro x
      rw [i.cover x, a3 x]
      constructor
      · rintro (h1 | ⟨m, h1, h2, h3⟩)
        · exact .inl (.inr h1)
        · by_cases hml : m = l
          · subst hml; exact .inl (.inl h3)
          · exact .inr ⟨m, (hmem m).mpr ⟨hml, h1⟩, h2, h3⟩
      · rintro ((h1 | h1) | ⟨m, h1, h2, h3⟩)
        · exact .inr ⟨l, hl, by simpa using hmm, h1⟩
        · exact .inl h1
        · exact .inr ⟨m, ((hmem m).mp h1).2, h2, h3⟩
    · show h.total - l.blk.size = ((h.live.erase l).map fun l => l.blk.size).sum
      rw [htotal]; omega

theorem inv_grow {P : Nat} {h : Heap} (i : Inv P h) {sz a : Nat} (hsz : 0 < sz) (hd : P ∣ sz)
    (ha : P ∣ a) (h1 : ∀ c ∈ h.free, Disjoint ⟨a, sz⟩ c)
    (h2 : ∀ l ∈ h.live, Disjoint ⟨a, sz⟩ l.blk) : Inv P (systemAlloc h sz a) := by
  obtain ⟨a1, a2, a3⟩ := addToFreeList_all (mem := ⟨a, sz⟩) ⟨ha, hd, hsz⟩ i.sorted i.aligned h1
  refine ⟨a1, a2, i.liveAligned, i.disjoint, ?_, ?_, i.total⟩
  · rintro l hl b hb x ⟨hx1, hx2⟩
    rcases (a3 x).mp ⟨b, hb, hx2⟩ with h3 | ⟨c, hc, hcx⟩
    · exact h2 l hl x ⟨h3, hx1⟩
    · exact i.apart l hl c hc x ⟨hx1, hcx⟩
  · intro x
    show (∃ c ∈ (⟨a, sz⟩ : Blk) :: h.core, c.Has x) ↔
      (∃ b ∈ addToFreeList ⟨a, sz⟩ h.free, b.Has x) ∨ _
    rw [a3 x]
    simp only [List.mem_cons, exists_eq_or_imp]
    rw [i.cover x]
    simp only [or_assoc]
    rfl

theorem inv_split {P : Nat} {h : Heap} (i : Inv P h) {l : Live} {n : Nat} (hl : l ∈ h.live)
    (hn : 0 < n) (hlt : n < l.blk.size) (hd : P ∣ n) : Inv P (split h l n).2.2 := by
  have hnd := live_nodup i
  have hmem : ∀ m, m ∈ h.live.erase l ↔ m ≠ l ∧ m ∈ h.live := fun m => by
    rw [List.Nodup.mem_erase_iff hnd]
  have hperm := List.perm_cons_erase hl
  have hdis : ∀ m ∈ h.live.erase l, Disjoint l.blk m.blk := by
    have := (List.Perm.pairwise_iff (fun {a b : Live} (hd : Disjoint a.blk b.blk) => hd.symm) hperm).mp
      i.disjoint
    exact (List.pairwise_cons.mp this).1
  have htotal : h.total = l.blk.size + ((h.live.erase l).map fun l => l.blk.size).sum := by
    rw [i.total]
    have := (hperm.map (fun l : Live => l.blk.size)).sum_nat
    simpa using this
  have hpw := i.disjoint.sublist (List.erase_sublist (l := h.live) (a := l))
  have hal := i.liveAligned l hl
  have hsub : P ∣ l.blk.size - n := Nat.dvd_sub hal.2.1 hd
  -- the two parts are the block
  have hparts : ∀ x, l.blk.Has x ↔ (split h l n).1.blk.Has x ∨ (split h l n).2.1.blk.Has x := by
    intro x
    simp only [split, Blk.Has, Blk.stop]
    omega
  have hdisj : Disjoint (split h l n).1.blk (split h l n).2.1.blk := by
    rintro x ⟨h1, h2⟩
    simp only [split, Blk.Has, Blk.stop] at h1 h2
    omega
  have hmm : (split h l n).1.mmap = l.mmap ∧ (split h l n).2.1.mmap = l.mmap := ⟨rfl, rfl⟩
  have e : (split h l n).2.2.live = (split h l n).1 :: (split h l n).2.1 :: h.live.erase l := rfl
  have ha1 : Aligned P (split h l n).1.blk := ⟨hal.1, hsub, by show 0 < l.blk.size - n; omega⟩
  have ha2 : Aligned P (split h l n).2.1.blk := ⟨Nat.dvd_add hal.1 hsub, hd, hn⟩
  have hsz : (split h l n).1.blk.size + (split h l n).2.1.blk.size = l.blk.size := by
    show l.blk.size - n + n = _; omega
  refine ⟨i.sorted, i.aligned, ?_, ?_, ?_, ?_, ?_⟩
  · intro m hm
    rw [e] at hm
    simp only [List.mem_cons] at hm
    rcases hm with rfl | rfl | hm
    · exact ha1
    · exact ha2
    · exact i.liveAligned m ((hmem m).mp hm).2
  · rw [e]
    refine List.pairwise_cons.mpr ⟨?_, List.pairwise_cons.mpr ⟨?_, hpw⟩⟩
    · intro m hm
      rcases List.mem_cons.mp hm with rfl | hm
      · exact hdisj
      · exact fun x hx => hdis m hm x ⟨(hparts x).mpr (.inl hx.1), hx.2⟩
    · intro m hm
      exact fun x hx => hdis m hm x ⟨(hparts x).mpr (.inr hx.1), hx.2⟩
  · intro m hm b hb
    rw [e] at hm
    simp only [List.mem_cons] at hm
    rcases hm with rfl | rfl | hm
    · exact fun x hx => i.apart l hl b hb x ⟨(hparts x).mpr (.inl hx.1), hx.2⟩
    · exact fun x hx => i.apart l hl b hb x ⟨(hparts x).mpr (.inr hx.1), hx.2⟩
    · exact i.apart m ((hmem m).mp hm).2 b hb
  · intro x
    rw [e]
    show (∃ c ∈ h.core, c.Has x) ↔ (∃ b ∈ h.free, b.Has x) ∨ _
    rw [i.cover x]
    constructor
    · rintro (h1 | ⟨m, h1, h2, h3⟩)
      · exact .inl h1
      · right
        by_cases hml : m = l
        · subst hml
          rcases (hparts x).mp h3 with h4 | h4
          · exact ⟨_, by simp, hmm.1.trans h2, h4⟩
          · exact ⟨_, by simp, hmm.2.trans h2, h4⟩
        · exact ⟨m, List.mem_cons_of_mem _ (List.mem_cons_of_mem _ ((hmem m).mpr ⟨hml, h1⟩)), h2, h3⟩
    · rintro (h1 | ⟨m, h1, h2, h3⟩)
      · exact .inl h1
      · right
        simp only [List.mem_cons] at h1
        rcases h1 with rfl | rfl | h1
        · exact ⟨l, hl, hmm.1.symm.trans h2, (hparts x).mpr (.inl h3)⟩
        · exact ⟨l, hl, hmm.2.symm.trans h2, (hparts x).mpr (.inr h3)⟩
        · exact ⟨m, ((hmem m).mp h1).2, h2, h3⟩
  · rw [e]
    show h.total = _
    simp only [List.map_cons, List.sum_cons]
    omega

theorem inv_step {P threshold : Nat} (hP : 0 < P) {h h' : Heap} (i : Inv P h)
    (hs : Step P threshold h h') : Inv P h' := by
  cases hs with
  | alloc _ sz os l hsz hd hos hr => exact (inv_alloc hP i hsz hd hos hr).1
  | free l hl => exact inv_free i hl
  | grow sz a hsz hd ha h1 h2 => exact inv_grow i hsz hd ha h1 h2
  | split l n hl hn hlt hd => exact inv_split i hl hn hlt hd

theorem inv_reachable {P threshold limit : Nat} (hP : 0 < P) {h : Heap}
    (hr : Reachable P threshold limit h) : Inv P h := by
  induction hr with
  | init => exact ⟨List.Pairwise.nil, by simp [emptyHeap], by simp [emptyHeap],
      List.Pairwise.nil, by simp [emptyHeap], by simp [emptyHeap], rfl⟩
  | step _ _ _ hs ih => exact inv_step hP ih hs

/-! ## C19 and C20 -/

/-- **C19.**  After any history of allocations and frees of any sizes, the blocks in use share
no byte with one another nor with the free list. -/
theorem blocks_disjoint {P threshold limit : Nat} (hP : 0 < P) (h : Heap)
    (hr : Reachable P threshold limit h) :
    (h.live.Pairwise fun l m => Disjoint l.blk m.blk) ∧
    (∀ l ∈ h.live, ∀ b ∈ h.free, Disjoint l.blk b) :=
  ⟨(inv_reachable hP hr).disjoint, (inv_reachable hP hr).apart⟩

/-- **C19.**  No memory is lost: a byte that came from `morecore` is in a block in use or on
the free list, and no other byte is. -/
theorem no_byte_lost {P threshold limit : Nat} (hP : 0 < P) (h : Heap)
    (hr : Reachable P threshold limit h) (x : Nat) :
    (∃ c ∈ h.core, c.Has x) ↔
      (∃ b ∈ h.free, b.Has x) ∨ (∃ l ∈ h.live, l.mmap = false ∧ l.blk.Has x) :=
  (inv_reachable hP hr).cover x

/-- **C19.**  A block has exactly the size asked for, is aligned to a page, and the total kept
for the limit is the number of bytes in use. -/
theorem block_size {P threshold limit : Nat} (hP : 0 < P) (h h' : Heap)
    (hr : Reachable P threshold limit h) (sz : Nat) (os : Option Nat) (l : Live) (hsz : 0 < sz)
    (hd : P ∣ sz)
    (hos : ∀ a, os = some a → P ∣ a ∧ (∀ c ∈ h.free, Disjoint ⟨a, sz⟩ c) ∧
        (∀ l ∈ h.live, Disjoint ⟨a, sz⟩ l.blk))
    (ha : primAlloc P threshold h sz os = some (l, h')) :
    l.blk.size = sz ∧ P ∣ l.blk.addr ∧ h'.live = l :: h.live ∧
      h'.total = (h'.live.map fun l => l.blk.size).sum := by
  obtain ⟨i', h1, h2, -⟩ := inv_alloc hP (inv_reachable hP hr) hsz hd hos ha
  exact ⟨h1, (i'.liveAligned l (by rw [h2]; simp)).1, h2, i'.total⟩

/-- **C19.**  With a limit, the blocks in use never exceed it. -/
theorem within_limit {P threshold limit : Nat} (hP : 0 < P) (h : Heap)
    (hr : Reachable P threshold limit h) (hl : limit ≠ 0) :
    (h.live.map fun l => l.blk.size).sum ≤ limit := by
  have key : h.total ≤ limit ∧ h.limit = limit := by
    induction hr with
    | init => exact ⟨Nat.zero_le _, rfl⟩
    | step h h' hr hs ih =>
      obtain ⟨i1, i2⟩ := ih
      cases hs with
      | alloc _ sz os l hsz hd hos hr =>
        unfold primAlloc at hr
        split at hr
        · cases hr
        · rename_i hlim
          rw [i2] at hlim
          have : h.total + sz ≤ limit := by
            by_contra hc
            exact hlim ⟨hl, i1, by omega⟩
          split at hr
          · cases hr; exact ⟨this, i2⟩
          · split at hr
            · cases hr; exact ⟨this, i2⟩
            · cases hr
      | free l hl => exact ⟨Nat.le_trans (Nat.sub_le _ _) i1, i2⟩
      | grow => exact ⟨i1, i2⟩
      | split => exact ⟨i1, i2⟩
  rw [← (inv_reachable hP hr).total]
  exact key.1

/-- **C20.**  The free list is always sorted, with a gap between neighbours: adjacent free
blocks have been merged. -/
theorem free_list_merged {P threshold limit : Nat} (hP : 0 < P) (h : Heap)
    (hr : Reachable P threshold limit h) : Sorted h.free :=
  (inv_reachable hP hr).sorted

/-- **C20.**  Any interval of addresses without a byte in use, that came from the system, lies
in one single free block: fragmentation never survives the last free. -/
theorem coalesced {P threshold limit : Nat} (hP : 0 < P) (h : Heap)
    (hr : Reachable P threshold limit h) (r : Blk) (hpos : 0 < r.size)
    (hcore : ∀ x, r.Has x → ∃ c ∈ h.core, c.Has x)
    (hfree : ∀ x, r.Has x → ∀ l ∈ h.live, ¬ l.blk.Has x) :
    ∃ b ∈ h.free, b.addr ≤ r.addr ∧ r.stop ≤ b.stop := by
  have i := inv_reachable hP hr
  have hin : ∀ x, r.Has x → ∃ b ∈ h.free, b.Has x := by
    intro x hx
    rcases (i.cover x).mp (hcore x hx) with h1 | ⟨l, hl, -, hx'⟩
    · exact h1
    · exact absurd hx' (hfree x hx l hl)
  obtain ⟨b, hb, hbx⟩ := hin r.addr ⟨Nat.le_refl _, by unfold Blk.stop; omega⟩
  refine ⟨b, hb, hbx.1, ?_⟩
  by_contra hc
  obtain ⟨c, hc', hcx⟩ := hin b.stop ⟨by have := hbx.2; omega, by omega⟩
  have hne : b ≠ c := by
    rintro rfl
    exact absurd hcx.2 (Nat.lt_irrefl _)
  have hs : b.stop < c.addr ∨ c.stop < b.addr := by
    have := i.sorted
    rw [Sorted, List.pairwise_iff_getElem] at this
    obtain ⟨m, hm, rfl⟩ := List.mem_iff_getElem.mp hb
    obtain ⟨n, hn, rfl⟩ := List.mem_iff_getElem.mp hc'
    rcases Nat.lt_trichotomy m n with h1 | h1 | h1
    · exact .inl (this m n hm hn h1)
    · subst h1; exact absurd rfl hne
    · exact .inr (this n m hn hm h1)
  have hb' := (i.aligned b hb).2.2
  have := hcx.1
  have := hcx.2
  unfold Blk.stop at *
  omega

/-- **C20.**  When nothing is in use, every region that `morecore` answered lies in one free
block. -/
theorem all_freed_one_block {P threshold limit : Nat} (hP : 0 < P) (h : Heap)
    (hr : Reachable P threshold limit h) (hlive : h.live = []) (c : Blk) (hc : c ∈ h.core)
    (hpos : 0 < c.size) : ∃ b ∈ h.free, b.addr ≤ c.addr ∧ c.stop ≤ b.stop :=
  coalesced hP h hr c hpos (fun x hx => ⟨c, hc, hx⟩) (by rw [hlive]; simp)

/-- Non-vacuity: a region of four pages, three blocks out of it, freed out of order. -/
example : Reachable 4096 262144 0 (systemAlloc (emptyHeap 0) 16384 8192) :=
  .step _ _ .init (.grow _ 16384 8192 (by decide) (by decide) (by decide)
    (by simp [emptyHeap]) (by simp [emptyHeap]))

example :
    let h := systemAlloc (emptyHeap 0) 16384 8192
    let r := (primAlloc 4096 262144 h 4096 none).getD (⟨⟨0, 0⟩, false⟩, h)
    let s := (primAlloc 4096 262144 r.2 8192 none).getD (⟨⟨0, 0⟩, false⟩, h)
    s.1.blk = ⟨12288, 8192⟩ ∧ s.2.free = [⟨20480, 4096⟩] ∧
    (primFree s.2 r.1).free = [⟨8192, 4096⟩, ⟨20480, 4096⟩] ∧
    (primFree (primFree s.2 r.1) s.1).free = [⟨8192, 16384⟩] := by decide

end Verif.Alloc
