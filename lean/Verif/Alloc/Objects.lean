import Verif.Alloc.Page
import Verif.Alloc.Classes
import Batteries.Data.List.Perm
import Mathlib.Data.List.Nodup

/-!
# `_gst_mem_alloc`, `_gst_mem_free`, `_gst_mem_realloc` (libgst/alloc.c:169-475)

The header of a block is a record found by the address of the block; the list `vSmall.free` is
a Lean list of addresses, `h->freelist[i]` a Lean list of block addresses.  The checks that
`abort` are modelled by `none`.  Not modelled: the contents of the objects, the hooks
`after_allocating` and so on; the hook `nomemory` is an arbitrary function.
-/

namespace Verif.Alloc

open Function (update)

structure Cfg where
  /-- `pagesize` -/
  P : Nat
  /-- `SMALL_OBJ_HEADER_SIZE` and `LARGE_OBJ_HEADER_SIZE` -/
  H : Nat
  L : Nat
  /-- `MMAP_THRESHOLD` -/
  threshold : Nat
  /-- `heap_allocation_size` -/
  chunk : Nat

/-- `heap_block` in use: alloc.h:72-95. -/
structure Hdr where
  size : Nat
  mmap : Bool
  nr : Nat
  avail : Nat
  free : List Nat
  deriving DecidableEq

structure Mem where
  heap : Heap
  hdr : Nat → Hdr
  lists : Nat → List Nat
  /-- For the specification: address and requested size of the objects in use. -/
  objs : List (Nat × Nat)

/-- `ROUNDUPPAGESIZE`: alloc.c:66. -/
def Cfg.pages (c : Cfg) (v : Nat) : Nat := (v + (c.P - 1)) / c.P * c.P

/-- `MEM2BLOCK`: alloc.c:56. -/
def Cfg.block (c : Cfg) (x : Nat) : Nat := x / c.P * c.P

/-- `SMALL2FREE`: alloc.c:54. -/
def slot (c : Cfg) (a size i : Nat) : Nat := a + c.H + i * size

/-- What one round of `_gst_mem_alloc` may lead to. -/
inductive Round
  | ok (x : Nat) (m : Mem)
  | nospace (nsz : Nat)
  | abort

/-- The header and the list of objects made by `heap_small_block`: alloc.c:430-447. -/
def newHdr (c : Cfg) (l : Live) (nsz : Nat) : Hdr :=
  { size := nsz
    mmap := l.mmap
    nr := (c.P - c.H) / nsz
    avail := (c.P - c.H) / nsz
    free := (List.range ((c.P - c.H) / nsz)).map (slot c l.blk.addr nsz) }

/-- `heap_small_block` and putting the block on its list: alloc.c:420-449, 195-211. -/
def smallBlock (c : Cfg) (m : Mem) (lnr nsz : Nat) (os : Option Nat) : Option (Nat × Mem) :=
  match primAlloc c.P c.threshold m.heap c.P os with
  | none => none
  | some (l, heap) =>
    some (l.blk.addr, { m with
      heap := heap,
      hdr := update m.hdr l.blk.addr (newHdr c l nsz),
      lists := update m.lists lnr (l.blk.addr :: m.lists lnr) })

/-- Unlinking a free object of the first block on a list: alloc.c:214-231. -/
def take (m : Mem) (lnr blk sz : Nat) : Round :=
  match (m.hdr blk).free with
  | [] => .abort
  | x :: rest =>
    .ok x { m with
      hdr := update m.hdr blk { m.hdr blk with free := rest, avail := (m.hdr blk).avail - 1 },
      lists := if rest = [] then update m.lists lnr (m.lists lnr).tail else m.lists,
      objs := (x, sz) :: m.objs }

/-- One round of `_gst_mem_alloc`: alloc.c:183-243. -/
def round (c : Cfg) (m : Mem) (sz : Nat) (os : Option Nat) : Round :=
  if sz ≤ maxSmall c.P c.H then
    let lnr := sztable c.P c.H (roundUp8 sz)
    let nsz := (classSizes c.H).getD lnr 0
    match m.lists lnr with
    | blk :: _ => take m lnr blk sz
    | [] =>
      match smallBlock c m lnr nsz os with
      | none => .nospace c.P
      | some (blk, m) => take m lnr blk sz
  else
    let msz := c.pages (sz + c.L)
    match primAlloc c.P c.threshold m.heap msz os with
    | none => .nospace msz
    | some (l, heap) =>
      .ok (l.blk.addr + c.L) { m with
        heap := heap,
        hdr := update m.hdr l.blk.addr ⟨msz - c.L, l.mmap, 0, 0, []⟩,
        objs := (l.blk.addr + c.L, sz) :: m.objs }

/-- The operating system: `_gst_osmem_alloc` and `morecore`. -/
structure OS where
  osmem : Heap → Nat → Option Nat
  core : Heap → Nat → Option Nat

/-- alloc.c:270-282: get more memory.  `none`: out of memory, the program exits. -/
def grow (c : Cfg) (os : OS) (m : Mem) (nsz : Nat) : Option Mem :=
  let sz := if nsz < c.chunk then c.chunk else nsz
  match os.core m.heap sz with
  | none => none
  | some a => some { m with heap := systemAlloc m.heap sz a }

/-- alloc.c:180-290: one round; `again` is what is done when there is no space. -/
def attempt (c : Cfg) (os : OS) (sz : Nat) (again : Mem → Nat → Option (Option Nat × Mem))
    (m : Mem) : Option (Option Nat × Mem) :=
  match round c m sz
    (os.osmem m.heap (if sz ≤ maxSmall c.P c.H then c.P else c.pages (sz + c.L))) with
  | .ok x m => some (some x, m)
  | .abort => none
  | .nospace nsz => again m nsz

/-- alloc.c:270-286: get more memory unless the limit is reached, then go on with `again`. -/
def fetch (c : Cfg) (os : OS) (again : Mem → Option (Option Nat × Mem)) (m : Mem) (nsz : Nat) :
    Option (Option Nat × Mem) :=
  if m.heap.limit = 0 ∨ m.heap.total < m.heap.limit then
    match grow c os m nsz with
    | none => none
    | some m => again m
  else some (none, m)

/-- `_gst_mem_alloc`: alloc.c:169-290; `hook` is `h->nomemory` (if any), which answers NULL to
give up.  `none`: aborts or exits; `some (none, _)`: answers NULL.  There are up to three
rounds (variable `times`). -/
def memAlloc (c : Cfg) (os : OS) (hook : Option (Mem → Option Mem)) (m : Mem) (sz : Nat) :
    Option (Option Nat × Mem) :=
  let third := attempt c os sz (fun m _ => some (none, m))
  let second := attempt c os sz (fetch c os third)
  attempt c os sz (fun m nsz =>
    match hook with
    | some f =>
      if m.heap.limit ≠ 0 ∧ m.heap.total ≤ m.heap.limit ∧ m.heap.total + nsz > m.heap.limit then
        match f m with
        | some m => second m
        | none => some (none, m)
      else fetch c os second m nsz
    | none => fetch c os second m nsz) m

/-- The small case of `_gst_mem_free`: alloc.c:353-401. -/
def freeSmall (c : Cfg) (m : Mem) (x blk : Nat) : Option Mem :=
  let hd := m.hdr blk
  let lnr := sztable c.P c.H hd.size
  let avail := hd.avail + 1
  let lists := if avail = 1 then update m.lists lnr (blk :: m.lists lnr) else m.lists
  let m := { m with
    hdr := update m.hdr blk { hd with avail := avail, free := x :: hd.free },
    lists := lists,
    objs := m.objs.filter fun o => o.1 ≠ x }
  if avail = hd.nr then
    if blk ∈ m.lists lnr then
      some { m with lists := update m.lists lnr ((m.lists lnr).erase blk),
                    heap := primFree m.heap { blk := { addr := blk, size := c.P }, mmap := hd.mmap } }
    else none
  else some m

/-- What becomes of a `size_t` that is assigned to an `int` and back. -/
def cint (n : Nat) : Nat :=
  if n % 2 ^ 32 < 2 ^ 31 then n % 2 ^ 32 else 2 ^ 64 - 2 ^ 32 + n % 2 ^ 32

/-- The size of the block, as computed in the `int` variable `msz` of `_gst_mem_free`:
alloc.c:344, 350, 407-409. -/
def freedSize (c : Cfg) (size : Nat) : Nat := cint (c.pages (cint (cint size + c.L)))

/-- `_gst_mem_free`: alloc.c:339-415. -/
def memFree (c : Cfg) (m : Mem) (x : Nat) : Option Mem :=
  let blk := c.block x
  let hd := m.hdr blk
  if cint hd.size ≤ maxSmall c.P c.H then freeSmall c m x blk
  else
    some { m with
      heap := primFree m.heap { blk := { addr := blk, size := freedSize c hd.size },
                                mmap := hd.mmap },
      objs := m.objs.filter fun o => o.1 ≠ x }

/-- Giving back pages at the end of a large block: alloc.c:319-333. -/
def shrink (c : Cfg) (m : Mem) (x size : Nat) : Mem :=
  let blk := c.block x
  let hd := m.hdr blk
  let n := (hd.size - size) / c.P
  let objs := m.objs.map fun o => if o.1 = x then (x, size) else o
  if n = 0 then { m with objs := objs }
  else
    let l : Live := { blk := { addr := blk, size := hd.size + c.L }, mmap := hd.mmap }
    let s := split m.heap l (n * c.P)
    { m with
      hdr := update m.hdr blk { hd with size := hd.size - n * c.P },
      heap := primFree s.2.2 s.2.1,
      objs := objs }

/-- `_gst_mem_realloc`: alloc.c:293-336.  `none`: aborts, or copies to a null pointer. -/
def memRealloc (c : Cfg) (os : OS) (hook : Option (Mem → Option Mem)) (m : Mem) (x size : Nat) :
    Option (Option Nat × Mem) :=
  if size = 0 then (memFree c m x).map fun m => (none, m)
  else
    let hd := m.hdr (c.block x)
    if size > hd.size then
      match memAlloc c os hook m size with
      | some (some p, m) => (memFree c m x).map fun m => (some p, m)
      | _ => none
    else if hd.size ≤ maxSmall c.P c.H then
      some (some x, { m with objs := m.objs.map fun o => if o.1 = x then (x, size) else o })
    else some (some x, shrink c m x size)

/-! ## The invariant -/

/-- Of the constants: a page size that is a power of two and at least 4096, and headers that
are small and aligned. -/
structure Cfg.Good (c : Cfg) : Prop where
  P : ∃ k, 12 ≤ k ∧ c.P = 2 ^ k
  P_lt : c.P < 2 ^ 29
  H : GoodHeader c.H
  L : c.L < c.H ∧ 8 ∣ c.L
  chunk : c.P ∣ c.chunk

/-- Address `x` in the block at `a` is taken by an object. -/
def Taken (c : Cfg) (hd : Hdr) (a x : Nat) : Prop :=
  (hd.size ≤ maxSmall c.P c.H ∧ (∃ i < hd.nr, x = slot c a hd.size i) ∧ x ∉ hd.free) ∨
  (maxSmall c.P c.H < hd.size ∧ x = a + c.L)

structure SmallOK (c : Cfg) (hd : Hdr) (a : Nat) (lists : Nat → List Nat) (k : Nat) : Prop where
  index : k < (classSizes c.H).length
  size : hd.size = (classSizes c.H)[k]
  page : hd.size < c.P
  nr : hd.nr = (c.P - c.H) / hd.size
  avail : hd.avail = hd.free.length
  nodup : hd.free.Nodup
  slots : ∀ x ∈ hd.free, ∃ i < hd.nr, x = slot c a hd.size i
  list : ∀ j, a ∈ lists j ↔ j = k ∧ hd.free ≠ []

def BlockOK (c : Cfg) (hd : Hdr) (lists : Nat → List Nat) (l : Live) : Prop :=
  hd.mmap = l.mmap ∧
  ((hd.size ≤ maxSmall c.P c.H ∧ l.blk.size = c.P ∧ ∃ k, SmallOK c hd l.blk.addr lists k) ∨
   (maxSmall c.P c.H < hd.size ∧ hd.size + c.L = l.blk.size))

structure ObjInv (c : Cfg) (live : List Live) (hdr : Nat → Hdr) (lists : Nat → List Nat)
    (objs : List (Nat × Nat)) : Prop where
  block : ∀ l ∈ live, BlockOK c (hdr l.blk.addr) lists l
  nodup : ∀ j, (lists j).Nodup
  listed : ∀ j, ∀ a ∈ lists j, ∃ l ∈ live, l.blk.addr = a ∧ (hdr a).size ≤ maxSmall c.P c.H
  inUse : ∀ o ∈ objs, ∃ l ∈ live, Taken c (hdr l.blk.addr) l.blk.addr o.1 ∧
    o.2 ≤ (hdr l.blk.addr).size
  unique : (objs.map Prod.fst).Nodup
  used : ∀ l ∈ live, ∀ x, Taken c (hdr l.blk.addr) l.blk.addr x → x ∈ objs.map Prod.fst

/-- Every small block has an object in use, except perhaps the block at `a`. -/
def FullBut (c : Cfg) (live : List Live) (hdr : Nat → Hdr) (a : Nat) : Prop :=
  ∀ l ∈ live, l.blk.addr ≠ a → (hdr l.blk.addr).size ≤ maxSmall c.P c.H →
    (hdr l.blk.addr).free.length < (hdr l.blk.addr).nr

def Full (c : Cfg) (live : List Live) (hdr : Nat → Hdr) : Prop :=
  ∀ l ∈ live, (hdr l.blk.addr).size ≤ maxSmall c.P c.H →
    (hdr l.blk.addr).free.length < (hdr l.blk.addr).nr

structure MemInv (c : Cfg) (m : Mem) : Prop where
  pages : Inv c.P m.heap
  objects : ObjInv c m.heap.live m.hdr m.lists m.objs
  full : Full c m.heap.live m.hdr
  /-- So that `int` variables can hold the sizes. -/
  int : ∀ l ∈ m.heap.live, l.blk.size + c.P < 2 ^ 31

/-- What is used of the page level. -/
structure LiveOK (P : Nat) (live : List Live) : Prop where
  aligned : ∀ l ∈ live, Aligned P l.blk
  distinct : ∀ l ∈ live, ∀ l' ∈ live, l.blk.addr = l'.blk.addr → l = l'

theorem liveOK {P : Nat} {h : Heap} (i : Inv P h) : LiveOK P h.live := by
  refine ⟨i.liveAligned, fun l hl l' hl' e => ?_⟩
  by_contra hne
  have h1 := (i.liveAligned l hl).2.2
  have h2 := (i.liveAligned l' hl').2.2
  have hd : Disjoint l.blk l'.blk := by
    have := i.disjoint
    rw [List.pairwise_iff_getElem] at this
    obtain ⟨m, hm, rfl⟩ := List.mem_iff_getElem.mp hl
    obtain ⟨n, hn, rfl⟩ := List.mem_iff_getElem.mp hl'
    rcases Nat.lt_trichotomy m n with h | h | h
    · exact this m n hm hn h
    · subst h; exact absurd rfl hne
    · exact (this n m hn hm h).symm
  exact hd l.blk.addr ⟨⟨Nat.le_refl _, by unfold Blk.stop; omega⟩, by omega, by unfold Blk.stop; omega⟩

section
variable {c : Cfg} (g : c.Good)
include g

theorem Cfg.Good.pos : 4096 ≤ c.P := by
  obtain ⟨k, hk, e⟩ := g.P
  rw [e]
  exact Nat.pow_le_pow_right (n := 2) (by decide) hk

theorem SmallOK.sizePos {hd : Hdr} {a : Nat} {lists : Nat → List Nat} {k : Nat}
    (s : SmallOK c hd a lists k) : 8 ≤ hd.size ∧ 8 ∣ hd.size ∧ c.H + hd.size ≤ c.P := by
  have hm : hd.size ∈ classSizes c.H := by rw [s.size]; exact List.getElem_mem _
  have h1 := classSizes_dvd g.H _ hm
  refine ⟨h1.2, h1.1, ?_⟩
  obtain ⟨k, hk, e⟩ := g.P
  rw [e]
  exact class_in_page g.H hk hm (by rw [← e]; exact s.page)

theorem SmallOK.slotEnd {hd : Hdr} {a : Nat} {lists : Nat → List Nat} {k : Nat}
    (s : SmallOK c hd a lists k) {i : Nat} (hi : i < hd.nr) :
    slot c a hd.size i + hd.size ≤ a + c.P := by
  have h1 := s.sizePos g
  have h2 : (i + 1) * hd.size ≤ hd.nr * hd.size := Nat.mul_le_mul_right _ hi
  have h3 : hd.nr * hd.size ≤ c.P - c.H := by rw [s.nr]; exact Nat.div_mul_le_self _ _
  have h4 : (i + 1) * hd.size = i * hd.size + hd.size := by rw [Nat.add_mul, Nat.one_mul]
  unfold slot
  omega

theorem block_of_offset {a x : Nat} (ha : c.P ∣ a) (h1 : a ≤ x) (h2 : x < a + c.P) :
    c.block x = a := by
  have hpos := g.pos
  obtain ⟨q, rfl⟩ := ha
  unfold Cfg.block
  have e : x / c.P = q := by
    rw [Nat.div_eq_iff (by omega)]
    have h3 : c.P * q = q * c.P := Nat.mul_comm _ _
    omega
  rw [e, Nat.mul_comm]

theorem Taken.block {hd : Hdr} {l : Live} {lists : Nat → List Nat} {x : Nat}
    (h : Taken c hd l.blk.addr x) (hb : BlockOK c hd lists l) (ha : Aligned c.P l.blk) :
    c.block x = l.blk.addr := by
  have hpos := g.pos
  rcases h with ⟨h1, ⟨i, hi, rfl⟩, -⟩ | ⟨h1, rfl⟩
  · rcases hb.2 with ⟨-, -, k, s⟩ | ⟨h2, -⟩
    · have := s.slotEnd g hi
      have := s.sizePos g
      refine block_of_offset g ha.1 (by unfold slot; omega) (by omega)
    · omega
  · have := g.L
    have := g.H.2
    exact block_of_offset g ha.1 (by omega) (by omega)

theorem SmallOK.index_eq {hd : Hdr} {a : Nat} {lists : Nat → List Nat} {k : Nat}
    (s : SmallOK c hd a lists k) : sztable c.P c.H hd.size = k := by
  have := class_index (P := c.P) g.H s.index (by rw [← s.size]; exact s.page)
  rw [s.size]; exact this.1

theorem pages_of_dvd {v : Nat} (h : c.P ∣ v) : c.pages v = v := by
  have hpos := g.pos
  obtain ⟨q, rfl⟩ := h
  unfold Cfg.pages
  have e : (c.P * q + (c.P - 1)) / c.P = q := by
    rw [Nat.mul_add_div (by omega), Nat.div_eq_of_lt (by omega)]; rfl
  rw [e, Nat.mul_comm]

theorem pages_spec (v : Nat) : c.P ∣ c.pages v ∧ v ≤ c.pages v := by
  have hpos := g.pos
  refine ⟨⟨_, Nat.mul_comm _ _⟩, ?_⟩
  unfold Cfg.pages
  have h1 := Nat.div_add_mod (v + (c.P - 1)) c.P
  have h2 := Nat.mod_lt (v + (c.P - 1)) (show c.P > 0 by omega)
  rw [Nat.mul_comm] at h1
  omega

omit g in
/-- Blocks other than the one at `a` are not affected by changes to the header of `a` and to
the presence of `a` on the lists. -/
theorem BlockOK.frame {hdr : Nat → Hdr} {lists lists' : Nat → List Nat} {a : Nat} {hd : Hdr}
    {l : Live} (h : BlockOK c (hdr l.blk.addr) lists l) (hne : l.blk.addr ≠ a)
    (hl : ∀ j, l.blk.addr ∈ lists' j ↔ l.blk.addr ∈ lists j) :
    BlockOK c (update hdr a hd l.blk.addr) lists' l := by
  rw [Function.update_of_ne hne]
  refine ⟨h.1, ?_⟩
  rcases h.2 with ⟨h1, h2, k, s⟩ | h2
  · exact .inl ⟨h1, h2, k, s.index, s.size, s.page, s.nr, s.avail, s.nodup, s.slots,
      fun j => (hl j).trans (s.list j)⟩
  · exact .inr h2

/-- A new block with all objects free. -/
theorem objInv_smallBlock {live : List Live} {hdr : Nat → Hdr} {lists : Nat → List Nat}
    {objs : List (Nat × Nat)} (i : ObjInv c live hdr lists objs) (l : Live) {k : Nat}
    (ok : LiveOK c.P (l :: live)) (hnew : l ∉ live) (hsz : l.blk.size = c.P)
    (hk : k < (classSizes c.H).length) (hp : (classSizes c.H)[k] < c.P) :
    let nsz := (classSizes c.H)[k]
    let nr := (c.P - c.H) / nsz
    let hdr' := update hdr l.blk.addr (newHdr c l nsz)
    0 < nr ∧ ObjInv c (l :: live) hdr' (update lists k (l.blk.addr :: lists k)) objs := by
  intro nsz nr hdr'
  have hm : nsz ∈ classSizes c.H := List.getElem_mem _
  have hd8 := classSizes_dvd g.H _ hm
  obtain ⟨kk, hkk, eP⟩ := g.P
  have hfit : c.H + nsz ≤ c.P := by rw [eP]; exact class_in_page g.H hkk hm (by rw [← eP]; exact hp)
  have hnr : 0 < nr := Nat.div_pos (by omega) (by omega)
  have hmax : nsz ≤ maxSmall c.P c.H := (class_index g.H hk hp).2
  have hother : ∀ l' ∈ live, l'.blk.addr ≠ l.blk.addr := by
    intro l' hl' e
    have := ok.distinct l' (by simp [hl']) l (by simp) e
    exact hnew (this ▸ hl')
  have hnl : ∀ j, l.blk.addr ∉ lists j := by
    intro j hj
    obtain ⟨l', hl', e, -⟩ := i.listed j _ hj
    exact hother l' hl' e
  have hself : hdr' l.blk.addr = (newHdr c l nsz) := Function.update_self _ _ _
  refine ⟨hnr, ?_, ?_, ?_, ?_, i.unique, ?_⟩
  · intro l' hl'
    rcases List.mem_cons.mp hl' with rfl | hl'
    · rw [hself]
      refine ⟨rfl, .inl ⟨hmax, hsz, k, hk, rfl, hp, rfl, by simp [newHdr], ?_, ?_, ?_⟩⟩
      · refine List.Nodup.map_on ?_ List.nodup_range
        intro x _ y _ e
        unfold slot at e
        have : x * nsz = y * nsz := by omega
        exact Nat.eq_of_mul_eq_mul_right (by omega) this
      · intro x hx
        simp only [newHdr, List.mem_map, List.mem_range] at hx
        obtain ⟨a, ha, e⟩ := hx
        exact ⟨a, ha, e.symm⟩
      · intro j
        have hne : (List.range nr).map (slot c l'.blk.addr nsz) ≠ [] := by
          intro e
          have := congrArg List.length e
          simp at this; omega
        by_cases hj : j = k
        · subst hj
          rw [Function.update_self]
          exact ⟨fun _ => ⟨rfl, hne⟩, fun _ => List.mem_cons_self⟩
        · rw [Function.update_of_ne hj]
          simp [hj, hnl j]
    · refine (i.block l' hl').frame (hother l' hl') (fun j => ?_)
      by_cases hj : j = k
      · subst hj
        rw [Function.update_self]
        simp [hother l' hl']
      · rw [Function.update_of_ne hj]
  · intro j
    by_cases hj : j = k
    · subst hj
      rw [Function.update_self]
      exact List.nodup_cons.mpr ⟨hnl j, i.nodup j⟩
    · rw [Function.update_of_ne hj]; exact i.nodup j
  · intro j a ha
    have ha' : a = l.blk.addr ∨ a ∈ lists j := by
      by_cases hj : j = k
      · subst hj
        rw [Function.update_self] at ha
        exact List.mem_cons.mp ha
      · rw [Function.update_of_ne hj] at ha; exact .inr ha
    rcases ha' with rfl | ha'
    · exact ⟨l, by simp, rfl, by rw [hself]; exact hmax⟩
    · obtain ⟨l', hl', rfl, e⟩ := i.listed j a ha'
      refine ⟨l', by simp [hl'], rfl, ?_⟩
      show (update hdr l.blk.addr _ l'.blk.addr).size ≤ _
      rw [Function.update_of_ne (hother l' hl')]; exact e
  · intro o ho
    obtain ⟨l', hl', h1, h2⟩ := i.inUse o ho
    refine ⟨l', by simp [hl'], ?_⟩
    show Taken c (update hdr l.blk.addr _ l'.blk.addr) _ _ ∧ _ ≤ (update hdr l.blk.addr _ l'.blk.addr).size
    rw [Function.update_of_ne (hother l' hl')]
    exact ⟨h1, h2⟩
  · intro l' hl' x hx
    rcases List.mem_cons.mp hl' with rfl | hl'
    · exfalso
      rw [hself] at hx
      rcases hx with ⟨-, ⟨a, ha, e⟩, hx⟩ | ⟨h1, -⟩
      · apply hx
        simp only [newHdr, List.mem_map, List.mem_range]
        exact ⟨a, ha, e.symm⟩
      · have h1 : maxSmall c.P c.H < nsz := h1
        omega
    · have hx : Taken c (update hdr l.blk.addr _ l'.blk.addr) l'.blk.addr x := hx
      rw [Function.update_of_ne (hother l' hl')] at hx
      exact i.used l' hl' x hx

omit g in
/-- Of a small block, no more objects can be free than there are. -/
theorem SmallOK.free_le {hd : Hdr} {a : Nat} {lists : Nat → List Nat} {k : Nat}
    (s : SmallOK c hd a lists k) : hd.free.length ≤ hd.nr := by
  have hsub : hd.free ⊆ (List.range hd.nr).map (slot c a hd.size) := by
    intro x hx
    obtain ⟨i, hi, rfl⟩ := s.slots x hx
    simp only [List.mem_map, List.mem_range]
    exact ⟨i, hi, rfl⟩
  have := (List.subperm_of_subset s.nodup hsub).length_le
  simpa using this

omit g in
theorem slot_inj {a size i j : Nat} (hs : 0 < size) (h : slot c a size i = slot c a size j) : i = j := by
  unfold slot at h
  have : i * size = j * size := by omega
  exact Nat.eq_of_mul_eq_mul_right hs this

/-- Taking an object from the first block of a list. -/
theorem objInv_take {live : List Live} {hdr : Nat → Hdr} {lists : Nat → List Nat}
    {objs : List (Nat × Nat)} (i : ObjInv c live hdr lists objs) (ok : LiveOK c.P live)
    {l : Live} (hl : l ∈ live) {k : Nat} (s : SmallOK c (hdr l.blk.addr) l.blk.addr lists k)
    {tl : List Nat} (hhead : lists k = l.blk.addr :: tl) {x : Nat} {rest : List Nat}
    (hfree : (hdr l.blk.addr).free = x :: rest) {sz : Nat} (hsz : sz ≤ (hdr l.blk.addr).size)
    (hmax : (hdr l.blk.addr).size ≤ maxSmall c.P c.H) :
    let hd := { hdr l.blk.addr with free := rest, avail := (hdr l.blk.addr).avail - 1 }
    let lists' := if rest = [] then update lists k (lists k).tail else lists
    ObjInv c live (update hdr l.blk.addr hd) lists' ((x, sz) :: objs) := by
  intro hd lists'
  have hother : ∀ l' ∈ live, l' ≠ l → l'.blk.addr ≠ l.blk.addr :=
    fun l' hl' hne e => hne (ok.distinct l' hl' l hl e)
  have hself : update hdr l.blk.addr hd l.blk.addr = hd := Function.update_self _ _ _
  have hnd := s.nodup
  rw [hfree] at hnd
  have hxr := (List.nodup_cons.mp hnd).1
  have hlk := i.nodup k
  rw [hhead] at hlk
  -- the lists, as far as other blocks are concerned
  have hlists : ∀ b, b ≠ l.blk.addr → ∀ j, b ∈ lists' j ↔ b ∈ lists j := by
    intro b hb j
    show b ∈ (if rest = [] then update lists k (lists k).tail else lists) j ↔ _
    split
    · by_cases hj : j = k
      · subst hj
        rw [Function.update_self, hhead]
        simp [hb]
      · rw [Function.update_of_ne hj]
    · exact Iff.rfl
  obtain ⟨ix, hix, ex⟩ := s.slots x (by rw [hfree]; simp)
  have hxobj : x ∉ objs.map Prod.fst := by
    intro hm
    obtain ⟨o, ho, rfl⟩ := List.mem_map.mp hm
    obtain ⟨l', hl', ht, -⟩ := i.inUse o ho
    have hb := ht.block g (i.block l' hl') (ok.aligned l' hl')
    have hb2 : c.block o.1 = l.blk.addr := by
      have h1 := s.slotEnd g hix
      have h2 := s.sizePos g
      rw [ex]
      exact block_of_offset g (ok.aligned l hl).1 (by unfold slot; omega) (by omega)
    have : l' = l := ok.distinct l' hl' l hl (hb.symm.trans hb2)
    subst this
    rcases ht with ⟨-, -, hnf⟩ | ⟨h1, -⟩
    · exact hnf (by rw [hfree]; simp)
    · omega
  refine ⟨?_, ?_, ?_, ?_, ?_, ?_⟩
  · intro l' hl'
    by_cases hne : l' = l
    · subst hne
      rw [hself]
      rcases (i.block l' hl') with ⟨hmm, hb⟩
      refine ⟨hmm, ?_⟩
      rcases hb with ⟨h1, h2, -⟩ | ⟨h1, -⟩
      · refine .inl ⟨h1, h2, k, s.index, s.size, s.page, s.nr, ?_, (List.nodup_cons.mp hnd).2, ?_, ?_⟩
        · show (hdr l'.blk.addr).avail - 1 = rest.length
          rw [s.avail, hfree]; simp
        · intro y hy; exact s.slots y (by rw [hfree]; exact List.mem_cons_of_mem _ hy)
        · intro j
          show l'.blk.addr ∈ (if rest = [] then update lists k (lists k).tail else lists) j ↔ j = k ∧ rest ≠ []
          have hold := s.list j
          rw [hfree] at hold
          split
          · rename_i hr
            simp only [hr, ne_eq, not_true_eq_false, and_false, iff_false]
            by_cases hj : j = k
            · subst hj
              rw [Function.update_self, hhead]
              exact (List.nodup_cons.mp hlk).1
            · rw [Function.update_of_ne hj, hold]
              simp [hj]
          · rename_i hr
            rw [hold]
            simp [hr]
      · omega
    · exact (i.block l' hl').frame (hother l' hl' hne) (fun j => hlists _ (hother l' hl' hne) j)
  · intro j
    show ((if rest = [] then update lists k (lists k).tail else lists) j).Nodup
    split
    · by_cases hj : j = k
      · subst hj
        rw [Function.update_self, hhead]
        exact (List.nodup_cons.mp hlk).2
      · rw [Function.update_of_ne hj]; exact i.nodup j
    · exact i.nodup j
  · intro j a ha
    have ha' : a ∈ lists j := by
      have ha : a ∈ (if rest = [] then update lists k (lists k).tail else lists) j := ha
      split at ha
      · by_cases hj : j = k
        · subst hj
          rw [Function.update_self] at ha
          exact List.mem_of_mem_tail ha
        · rwa [Function.update_of_ne hj] at ha
      · exact ha
    obtain ⟨l', hl', rfl, e⟩ := i.listed j a ha'
    refine ⟨l', hl', rfl, ?_⟩
    by_cases hne : l' = l
    · subst hne; rw [hself]; exact hmax
    · rw [Function.update_of_ne (hother l' hl' hne)]; exact e
  · intro o ho
    rcases List.mem_cons.mp ho with rfl | ho
    · refine ⟨l, hl, ?_, ?_⟩
      · rw [hself]
        exact .inl ⟨hmax, ⟨ix, hix, ex⟩, hxr⟩
      · rw [hself]; exact hsz
    · obtain ⟨l', hl', h1, h2⟩ := i.inUse o ho
      refine ⟨l', hl', ?_⟩
      by_cases hne : l' = l
      · subst hne
        rw [hself]
        refine ⟨?_, h2⟩
        rcases h1 with ⟨h3, h4, h5⟩ | h3
        · refine .inl ⟨h3, h4, fun hm => h5 ?_⟩
          rw [hfree]; exact List.mem_cons_of_mem _ hm
        · exact .inr h3
      · rw [Function.update_of_ne (hother l' hl' hne)]
        exact ⟨h1, h2⟩
  · exact List.nodup_cons.mpr ⟨hxobj, i.unique⟩
  · intro l' hl' y hy
    by_cases hne : l' = l
    · subst hne
      rw [hself] at hy
      rcases hy with ⟨h3, h4, h5⟩ | h3
      · by_cases hyx : y = x
        · simp [hyx]
        · have := i.used l' hl' y (.inl ⟨h3, h4, fun hm => by
            rw [hfree] at hm
            rcases List.mem_cons.mp hm with rfl | hm
            · exact hyx rfl
            · exact h5 hm⟩)
          exact List.mem_cons_of_mem _ this
      · have := i.used l' hl' y (.inr h3)
        exact List.mem_cons_of_mem _ this
    · rw [Function.update_of_ne (hother l' hl' hne)] at hy
      exact List.mem_cons_of_mem _ (i.used l' hl' y hy)

/-- A new large block. -/
theorem objInv_large {live : List Live} {hdr : Nat → Hdr} {lists : Nat → List Nat}
    {objs : List (Nat × Nat)} (i : ObjInv c live hdr lists objs) (l : Live)
    (ok : LiveOK c.P (l :: live)) (hnew : l ∉ live) {sz : Nat}
    (hbig : maxSmall c.P c.H < l.blk.size - c.L) (hL : c.L ≤ l.blk.size)
    (hsz : sz ≤ l.blk.size - c.L) :
    ObjInv c (l :: live) (update hdr l.blk.addr ⟨l.blk.size - c.L, l.mmap, 0, 0, []⟩) lists
      ((l.blk.addr + c.L, sz) :: objs) := by
  have hother : ∀ l' ∈ live, l'.blk.addr ≠ l.blk.addr := by
    intro l' hl' e
    have := ok.distinct l' (by simp [hl']) l (by simp) e
    exact hnew (this ▸ hl')
  have hnl : ∀ j, l.blk.addr ∉ lists j := by
    intro j hj
    obtain ⟨l', hl', e, -⟩ := i.listed j _ hj
    exact hother l' hl' e
  have hob : c.block (l.blk.addr + c.L) = l.blk.addr := by
    have := g.L; have := g.H.2; have := g.pos
    exact block_of_offset g (ok.aligned l (by simp)).1 (by omega) (by omega)
  refine ⟨?_, i.nodup, ?_, ?_, ?_, ?_⟩
  · intro l' hl'
    rcases List.mem_cons.mp hl' with rfl | hl'
    · rw [Function.update_self]
      exact ⟨rfl, .inr ⟨hbig, by show l'.blk.size - c.L + c.L = _; omega⟩⟩
    · exact (i.block l' hl').frame (hother l' hl') (fun j => Iff.rfl)
  · intro j a ha
    obtain ⟨l', hl', rfl, e⟩ := i.listed j a ha
    refine ⟨l', by simp [hl'], rfl, ?_⟩
    rw [Function.update_of_ne (hother l' hl')]; exact e
  · intro o ho
    rcases List.mem_cons.mp ho with rfl | ho
    · refine ⟨l, by simp, ?_, ?_⟩
      · rw [Function.update_self]; exact .inr ⟨hbig, rfl⟩
      · rw [Function.update_self]; exact hsz
    · obtain ⟨l', hl', h1, h2⟩ := i.inUse o ho
      refine ⟨l', by simp [hl'], ?_⟩
      rw [Function.update_of_ne (hother l' hl')]
      exact ⟨h1, h2⟩
  · refine List.nodup_cons.mpr ⟨?_, i.unique⟩
    intro hm
    obtain ⟨o, ho, e⟩ := List.mem_map.mp hm
    obtain ⟨l', hl', h1, -⟩ := i.inUse o ho
    have := h1.block g (i.block l' hl') (ok.aligned l' (by simp [hl']))
    rw [e, hob] at this
    exact hother l' hl' this.symm
  · intro l' hl' x hx
    rcases List.mem_cons.mp hl' with rfl | hl'
    · rw [Function.update_self] at hx
      rcases hx with ⟨h1, -⟩ | ⟨-, h1⟩
      · have h1 : l'.blk.size - c.L ≤ _ := h1; omega
      · simp [h1]
    · rw [Function.update_of_ne (hother l' hl')] at hx
      exact List.mem_cons_of_mem _ (i.used l' hl' x hx)

omit g in
theorem map_fst_filter (objs : List (Nat × Nat)) (x y : Nat) :
    y ∈ (objs.filter fun o => o.1 ≠ x).map Prod.fst ↔ y ≠ x ∧ y ∈ objs.map Prod.fst := by
  simp only [List.mem_map, List.mem_filter, decide_eq_true_eq]
  constructor
  · rintro ⟨o, ⟨h1, h2⟩, rfl⟩; exact ⟨h2, o, h1, rfl⟩
  · rintro ⟨h1, o, h2, rfl⟩; exact ⟨o, ⟨h2, h1⟩, rfl⟩

/-- Putting an object back on the list of its block. -/
theorem objInv_put {live : List Live} {hdr : Nat → Hdr} {lists : Nat → List Nat}
    {objs : List (Nat × Nat)} (i : ObjInv c live hdr lists objs) (ok : LiveOK c.P live)
    {l : Live} (hl : l ∈ live) {x : Nat} (ht : Taken c (hdr l.blk.addr) l.blk.addr x)
    (hmax : (hdr l.blk.addr).size ≤ maxSmall c.P c.H) :
    let hd := hdr l.blk.addr
    let lnr := sztable c.P c.H hd.size
    let lists' := if hd.avail + 1 = 1 then update lists lnr (l.blk.addr :: lists lnr) else lists
    l.blk.addr ∈ lists' lnr ∧ l.blk.size = c.P ∧ hd.free.length + 1 ≤ hd.nr ∧
    hd.avail = hd.free.length ∧
    ObjInv c live (update hdr l.blk.addr { hd with avail := hd.avail + 1, free := x :: hd.free })
      lists' (objs.filter fun o => o.1 ≠ x) := by
  intro hd lnr lists'
  have hother : ∀ l' ∈ live, l' ≠ l → l'.blk.addr ≠ l.blk.addr :=
    fun l' hl' hne e => hne (ok.distinct l' hl' l hl e)
  obtain ⟨hmm, hb⟩ := i.block l hl
  rcases hb with ⟨-, hsize, k, s⟩ | ⟨h1, -⟩
  swap
  · omega
  rcases ht with ⟨-, ⟨ix, hix, ex⟩, hnf⟩ | ⟨h1, -⟩
  swap
  · omega
  have hk : lnr = k := s.index_eq g
  have hself : ∀ hd', update hdr l.blk.addr hd' l.blk.addr = hd' := fun _ => Function.update_self _ _ _
  have havail : hd.avail + 1 = 1 ↔ hd.free = [] := by
    rw [show hd.avail = hd.free.length from s.avail]
    constructor
    · intro h; exact List.eq_nil_of_length_eq_zero (by omega)
    · intro h
      rw [h]; rfl
  have hlists : ∀ b, b ≠ l.blk.addr → ∀ j, b ∈ lists' j ↔ b ∈ lists j := by
    intro b hb j
    show b ∈ (if hd.avail + 1 = 1 then update lists lnr (l.blk.addr :: lists lnr) else lists) j ↔ _
    split
    · by_cases hj : j = lnr
      · subst hj
        rw [Function.update_self]
        simp [hb]
      · rw [Function.update_of_ne hj]
    · exact Iff.rfl
  have hmem : ∀ j, l.blk.addr ∈ lists' j ↔ j = k := by
    intro j
    show l.blk.addr ∈ (if hd.avail + 1 = 1 then update lists lnr (l.blk.addr :: lists lnr) else lists) j ↔ _
    have hold := s.list j
    split
    · rename_i h
      have hf : (hdr l.blk.addr).free = [] := havail.mp h
      by_cases hj : j = lnr
      · rw [hj, Function.update_self, hk]; simp
      · rw [Function.update_of_ne hj, hold]
        rw [hk] at hj
        simp [hj]
    · rename_i h
      have hf : (hdr l.blk.addr).free ≠ [] := fun e => h (havail.mpr e)
      rw [hold]; simp [hf]
  have snew : SmallOK c { hd with avail := hd.avail + 1, free := x :: hd.free } l.blk.addr lists' k := by
    refine ⟨s.index, s.size, s.page, s.nr, ?_, List.nodup_cons.mpr ⟨hnf, s.nodup⟩, ?_, ?_⟩
    · show hd.avail + 1 = (x :: hd.free).length
      rw [List.length_cons, show hd.avail = hd.free.length from s.avail]
    · intro y hy
      rcases List.mem_cons.mp hy with rfl | hy
      · exact ⟨ix, hix, ex⟩
      · exact s.slots y hy
    · intro j
      rw [hmem j]
      simp
  refine ⟨(hmem lnr).mpr hk, hsize, ?_, s.avail, ?_, ?_, ?_, ?_, ?_, ?_⟩
  · have := snew.free_le; simpa using this
  · intro l' hl'
    by_cases hne : l' = l
    · subst hne
      rw [hself]
      exact ⟨hmm, .inl ⟨hmax, hsize, k, snew⟩⟩
    · exact (i.block l' hl').frame (hother l' hl' hne) (fun j => hlists _ (hother l' hl' hne) j)
  · intro j
    show ((if hd.avail + 1 = 1 then update lists lnr (l.blk.addr :: lists lnr) else lists) j).Nodup
    split
    · rename_i h
      by_cases hj : j = lnr
      · subst hj
        rw [Function.update_self]
        refine List.nodup_cons.mpr ⟨?_, i.nodup _⟩
        intro hm
        have := (s.list _).mp hm
        exact this.2 (havail.mp h)
      · rw [Function.update_of_ne hj]; exact i.nodup j
    · exact i.nodup j
  · intro j a ha
    by_cases hal : a = l.blk.addr
    · subst hal
      exact ⟨l, hl, rfl, by rw [hself]; exact hmax⟩
    · obtain ⟨l', hl', rfl, e⟩ := i.listed j a ((hlists a hal j).mp ha)
      exact ⟨l', hl', rfl, by rw [Function.update_of_ne hal]; exact e⟩
  · intro o ho
    simp only [List.mem_filter, decide_eq_true_eq] at ho
    obtain ⟨l', hl', h1, h2⟩ := i.inUse o ho.1
    refine ⟨l', hl', ?_⟩
    by_cases hne : l' = l
    · subst hne
      rw [hself]
      refine ⟨?_, h2⟩
      rcases h1 with ⟨h3, h4, h5⟩ | h3
      · refine .inl ⟨h3, h4, fun hm => ?_⟩
        rcases List.mem_cons.mp hm with h | h
        · exact ho.2 h
        · exact h5 h
      · exact .inr h3
    · rw [Function.update_of_ne (hother l' hl' hne)]
      exact ⟨h1, h2⟩
  · exact i.unique.sublist (List.filter_sublist.map _)
  · intro l' hl' y hy
    rw [map_fst_filter]
    by_cases hne : l' = l
    · subst hne
      rw [hself] at hy
      rcases hy with ⟨h3, h4, h5⟩ | ⟨h3, -⟩
      · have h5 : y ∉ x :: hd.free := h5
        simp only [List.mem_cons, not_or] at h5
        exact ⟨h5.1, i.used l' hl' y (.inl ⟨h3, h4, h5.2⟩)⟩
      · have h3 : _ < hd.size := h3
        have : hd.size ≤ _ := hmax
        omega
    · rw [Function.update_of_ne (hother l' hl' hne)] at hy
      refine ⟨?_, i.used l' hl' y hy⟩
      rintro rfl
      have h1 := hy.block g (i.block l' hl') (ok.aligned l' hl')
      have h2 : c.block y = l.blk.addr := by
        have h1 := s.slotEnd g hix
        have h2 := s.sizePos g
        rw [ex]
        exact block_of_offset g (ok.aligned l hl).1 (by unfold slot; omega) (by omega)
      exact hother l' hl' hne (h1.symm.trans h2)

omit g in
/-- Giving back a block in which no object is in use. -/
theorem objInv_release {live live' : List Live} {hdr : Nat → Hdr} {lists lists' : Nat → List Nat}
    {objs : List (Nat × Nat)} (i : ObjInv c live hdr lists objs) {l : Live}
    (hl : l ∈ live) (ok : LiveOK c.P live) (hlive : ∀ l', l' ∈ live' ↔ l' ≠ l ∧ l' ∈ live)
    (hlists : ∀ j, (lists' j).Nodup ∧ ∀ b, b ∈ lists' j ↔ b ≠ l.blk.addr ∧ b ∈ lists j)
    (hnone : ∀ x, ¬ Taken c (hdr l.blk.addr) l.blk.addr x) :
    ObjInv c live' hdr lists' objs := by
  have hother : ∀ l' ∈ live', l'.blk.addr ≠ l.blk.addr := fun l' hl' e =>
    ((hlive l').mp hl').1 (ok.distinct l' ((hlive l').mp hl').2 l hl e)
  refine ⟨?_, fun j => (hlists j).1, ?_, ?_, i.unique, ?_⟩
  · intro l' hl'
    have h := i.block l' ((hlive l').mp hl').2
    refine ⟨h.1, ?_⟩
    rcases h.2 with ⟨h1, h2, k, s⟩ | h2
    · refine .inl ⟨h1, h2, k, s.index, s.size, s.page, s.nr, s.avail, s.nodup, s.slots, fun j => ?_⟩
      rw [(hlists j).2, s.list j]
      simp [hother l' hl']
    · exact .inr h2
  · intro j a ha
    obtain ⟨h1, h2⟩ := ((hlists j).2 a).mp ha
    obtain ⟨l', hl', rfl, e⟩ := i.listed j a h2
    refine ⟨l', (hlive l').mpr ⟨?_, hl'⟩, rfl, e⟩
    rintro rfl; exact h1 rfl
  · intro o ho
    obtain ⟨l', hl', h1, h2⟩ := i.inUse o ho
    refine ⟨l', (hlive l').mpr ⟨?_, hl'⟩, h1, h2⟩
    rintro rfl; exact hnone _ h1
  · intro l' hl' x hx
    exact i.used l' ((hlive l').mp hl').2 x hx

/-- Giving back a large block. -/
theorem objInv_freeLarge {live live' : List Live} {hdr : Nat → Hdr} {lists : Nat → List Nat}
    {objs : List (Nat × Nat)} (i : ObjInv c live hdr lists objs) (ok : LiveOK c.P live)
    {l : Live} (hl : l ∈ live) (hlive : ∀ l', l' ∈ live' ↔ l' ≠ l ∧ l' ∈ live)
    (hbig : maxSmall c.P c.H < (hdr l.blk.addr).size) :
    ObjInv c live' hdr lists (objs.filter fun o => o.1 ≠ l.blk.addr + c.L) := by
  have hother : ∀ l' ∈ live', l'.blk.addr ≠ l.blk.addr := fun l' hl' e =>
    ((hlive l').mp hl').1 (ok.distinct l' ((hlive l').mp hl').2 l hl e)
  have hob : c.block (l.blk.addr + c.L) = l.blk.addr := by
    have := g.L; have := g.H.2; have := g.pos
    exact block_of_offset g (ok.aligned l hl).1 (by omega) (by omega)
  refine ⟨fun l' hl' => i.block l' ((hlive l').mp hl').2, i.nodup, ?_, ?_,
    i.unique.sublist (List.filter_sublist.map _), ?_⟩
  · intro j a ha
    obtain ⟨l', hl', rfl, e⟩ := i.listed j a ha
    refine ⟨l', (hlive l').mpr ⟨?_, hl'⟩, rfl, e⟩
    rintro rfl; omega
  · intro o ho
    simp only [List.mem_filter, decide_eq_true_eq] at ho
    obtain ⟨l', hl', h1, h2⟩ := i.inUse o ho.1
    refine ⟨l', (hlive l').mpr ⟨?_, hl'⟩, h1, h2⟩
    rintro rfl
    rcases h1 with ⟨h3, -⟩ | ⟨-, h3⟩
    · omega
    · exact ho.2 h3
  · intro l' hl' x hx
    have hl2 := ((hlive l').mp hl').2
    rw [map_fst_filter]
    refine ⟨?_, i.used l' hl2 x hx⟩
    rintro rfl
    have := hx.block g (i.block l' hl2) (ok.aligned l' hl2)
    exact hother l' hl' (this.symm.trans hob)

/-- A large block that loses its last pages. -/
theorem objInv_resize {live live' : List Live} {hdr : Nat → Hdr} {lists : Nat → List Nat}
    {objs : List (Nat × Nat)} (i : ObjInv c live hdr lists objs) (ok : LiveOK c.P live)
    {l front : Live} (hl : l ∈ live)
    (hlive : ∀ l', l' ∈ live' ↔ l' = front ∨ (l' ≠ l ∧ l' ∈ live))
    (haddr : front.blk.addr = l.blk.addr) (hmm : front.mmap = l.mmap) {size n : Nat}
    (hbig : maxSmall c.P c.H < (hdr l.blk.addr).size)
    (hsz : maxSmall c.P c.H < size) (hfront : size + c.L = front.blk.size) (hn : n ≤ size) :
    ObjInv c live' (update hdr l.blk.addr { hdr l.blk.addr with size := size }) lists
      (objs.map fun o => if o.1 = l.blk.addr + c.L then (l.blk.addr + c.L, n) else o) := by
  have hother : ∀ l' ∈ live, l' ≠ l → l'.blk.addr ≠ l.blk.addr :=
    fun l' hl' hne e => hne (ok.distinct l' hl' l hl e)
  have hob : c.block (l.blk.addr + c.L) = l.blk.addr := by
    have := g.L; have := g.H.2; have := g.pos
    exact block_of_offset g (ok.aligned l hl).1 (by omega) (by omega)
  have hself : ∀ hd', update hdr l.blk.addr hd' l.blk.addr = hd' := fun _ => Function.update_self _ _ _
  have hfst : ((objs.map fun o => if o.1 = l.blk.addr + c.L then (l.blk.addr + c.L, n) else o).map
      Prod.fst) = objs.map Prod.fst := by
    rw [List.map_map]
    apply List.map_congr_left
    intro o _
    simp only [Function.comp]
    split
    · rename_i h; exact h.symm
    · rfl
  have hmf : (hdr l.blk.addr).mmap = l.mmap := (i.block l hl).1
  refine ⟨?_, i.nodup, ?_, ?_, by rw [hfst]; exact i.unique, ?_⟩
  · intro l' hl'
    rcases (hlive l').mp hl' with rfl | ⟨hne, hl'⟩
    · rw [haddr, hself]
      exact ⟨by rw [hmm]; exact hmf, .inr ⟨hsz, hfront⟩⟩
    · exact (i.block l' hl').frame (hother l' hl' hne) (fun j => Iff.rfl)
  · intro j a ha
    obtain ⟨l', hl', rfl, e⟩ := i.listed j a ha
    have hne : l' ≠ l := by rintro rfl; omega
    exact ⟨l', (hlive l').mpr (.inr ⟨hne, hl'⟩), rfl,
      by rw [Function.update_of_ne (hother l' hl' hne)]; exact e⟩
  · intro o ho
    obtain ⟨o', ho', rfl⟩ := List.mem_map.mp ho
    obtain ⟨l', hl', h1, h2⟩ := i.inUse o' ho'
    have hb := h1.block g (i.block l' hl') (ok.aligned l' hl')
    by_cases hx : o'.1 = l.blk.addr + c.L
    · rw [if_pos hx]
      refine ⟨front, (hlive front).mpr (.inl rfl), ?_, ?_⟩
      · rw [haddr, hself]; exact .inr ⟨hsz, rfl⟩
      · rw [haddr, hself]; exact hn
    · rw [if_neg hx]
      have hne : l' ≠ l := by
        rintro rfl
        rcases h1 with ⟨h3, -⟩ | ⟨-, h3⟩
        · omega
        · exact hx h3
      refine ⟨l', (hlive l').mpr (.inr ⟨hne, hl'⟩), ?_⟩
      rw [Function.update_of_ne (hother l' hl' hne)]
      exact ⟨h1, h2⟩
  · intro l' hl' x hx
    rw [hfst]
    rcases (hlive l').mp hl' with rfl | ⟨hne, hl'⟩
    · rw [haddr, hself] at hx
      rcases hx with ⟨h1, -⟩ | ⟨-, h1⟩
      · have h1 : size ≤ _ := h1; omega
      · exact i.used l hl x (.inr ⟨hbig, h1⟩)
    · rw [Function.update_of_ne (hother l' hl' hne)] at hx
      exact i.used l' hl' x hx

omit g in
/-- Asking for less of an object that stays where it is. -/
theorem objInv_less {live : List Live} {hdr : Nat → Hdr} {lists : Nat → List Nat}
    {objs : List (Nat × Nat)} (i : ObjInv c live hdr lists objs) {l : Live} (hl : l ∈ live)
    {x n : Nat} (ht : Taken c (hdr l.blk.addr) l.blk.addr x) (hn : n ≤ (hdr l.blk.addr).size) :
    ObjInv c live hdr lists (objs.map fun o => if o.1 = x then (x, n) else o) := by
  have hfst : ((objs.map fun o => if o.1 = x then (x, n) else o).map Prod.fst) = objs.map Prod.fst := by
    rw [List.map_map]
    apply List.map_congr_left
    intro o _
    simp only [Function.comp]
    split
    · rename_i h; exact h.symm
    · rfl
  refine ⟨i.block, i.nodup, i.listed, ?_, by rw [hfst]; exact i.unique, by rw [hfst]; exact i.used⟩
  intro o ho
  obtain ⟨o', ho', rfl⟩ := List.mem_map.mp ho
  split
  · exact ⟨l, hl, ht, hn⟩
  · exact i.inUse o' ho'

/-! ## The operations -/

theorem take_ok {m : Mem} (ip : Inv c.P m.heap)
    (io : ObjInv c m.heap.live m.hdr m.lists m.objs) {l : Live} (hl : l ∈ m.heap.live)
    (hf : FullBut c m.heap.live m.hdr l.blk.addr)
    (hint : ∀ l ∈ m.heap.live, l.blk.size + c.P < 2 ^ 31)
    {lnr : Nat} (hk : lnr < (classSizes c.H).length) {tl : List Nat}
    (hhead : m.lists lnr = l.blk.addr :: tl) {sz : Nat} (hsz : sz ≤ (classSizes c.H)[lnr]) :
    ∃ x m', take m lnr l.blk.addr sz = .ok x m' ∧ MemInv c m' ∧ m'.objs = (x, sz) :: m.objs := by
  have ok := liveOK ip
  obtain ⟨l', hl', e, hmax⟩ := io.listed lnr l.blk.addr (by rw [hhead]; simp)
  have hll := ok.distinct l' hl' l hl e
  subst hll
  rcases (io.block l' hl').2 with ⟨-, -, k, s⟩ | ⟨h1, -⟩
  swap
  · omega
  have hlist := (s.list lnr).mp (by rw [hhead]; simp)
  obtain ⟨rfl, hne⟩ := hlist
  match hfree : (m.hdr l'.blk.addr).free, hne with
  | x :: rest, _ =>
    have hsz' : sz ≤ (m.hdr l'.blk.addr).size := by rw [s.size]; exact hsz
    have hnew := objInv_take g io ok hl' s hhead hfree hsz' hmax
    simp only [take, hfree]
    refine ⟨x, _, rfl, ⟨?_, hnew, ?_, ?_⟩, rfl⟩
    · exact ip
    · intro l'' hl'' hm
      by_cases hne : l''.blk.addr = l'.blk.addr
      · have hle := s.free_le
        rw [hfree] at hle
        dsimp only
        rw [hne, Function.update_self]
        simp only [List.length_cons] at hle
        show rest.length < (m.hdr l'.blk.addr).nr
        omega
      · have := hf l'' hl'' hne
        show (update m.hdr l'.blk.addr _ l''.blk.addr).free.length < (update m.hdr l'.blk.addr _ l''.blk.addr).nr
        have hm : (update m.hdr l'.blk.addr _ l''.blk.addr).size ≤ _ := hm
        rw [Function.update_of_ne hne] at hm ⊢
        exact this hm
    · exact hint

/-- What is assumed of an answer of the operating system. -/
def FreshAt (P : Nat) (h : Heap) (sz a : Nat) : Prop :=
  P ∣ a ∧ (∀ b ∈ h.free, Disjoint ⟨a, sz⟩ b) ∧ ∀ l ∈ h.live, Disjoint ⟨a, sz⟩ l.blk

theorem round_ok {m : Mem} (i : MemInv c m) {sz : Nat} (hint : sz + c.L + 2 * c.P < 2 ^ 31)
    {os : Option Nat}
    (hos : ∀ a, os = some a →
      FreshAt c.P m.heap (if sz ≤ maxSmall c.P c.H then c.P else c.pages (sz + c.L)) a) :
    (∃ x m', round c m sz os = .ok x m' ∧ MemInv c m' ∧ m'.objs = (x, sz) :: m.objs) ∨
    ∃ nsz, 0 < nsz ∧ c.P ∣ nsz ∧ round c m sz os = .nospace nsz := by
  have hpos := g.pos
  have hPlt := g.P_lt
  unfold round
  by_cases hsm : sz ≤ maxSmall c.P c.H
  · rw [if_pos hsm]
    simp only [hsm, if_true] at hos
    obtain ⟨c1, c2, c3, c4, -⟩ := class_fits (P := c.P) g.H (by omega) hsm
    have hcls : (classSizes c.H).getD (sztable c.P c.H (roundUp8 sz)) 0 =
        (classSizes c.H)[sztable c.P c.H (roundUp8 sz)] := by
      rw [List.getD_eq_getElem?_getD, List.getElem?_eq_getElem c1, Option.getD_some]
    unfold classOf at c2 c4
    rw [hcls] at c2 c4
    simp only [hcls]
    generalize sztable c.P c.H (roundUp8 sz) = lnr at *
    cases hlist : m.lists lnr with
    | cons blk tl =>
      obtain ⟨l, hl, rfl, -⟩ := i.objects.listed lnr blk (by rw [hlist]; simp)
      left
      exact take_ok g i.pages i.objects hl (fun l' hl' _ => i.full l' hl') i.int c1 hlist c2
    | nil =>
      simp only [smallBlock]
      cases hpa : primAlloc c.P c.threshold m.heap c.P os with
      | none => exact .inr ⟨c.P, by omega, Nat.dvd_refl _, rfl⟩
      | some r =>
        obtain ⟨l, heap⟩ := r
        left
        obtain ⟨a1, a2, a3, -⟩ := inv_alloc (by omega) i.pages (by omega) (Nat.dvd_refl _) hos hpa
        have ok := liveOK a1
        rw [a3] at ok
        have hnew : l ∉ m.heap.live := by
          have := live_nodup a1
          rw [a3] at this
          exact (List.nodup_cons.mp this).1
        obtain ⟨hnr, io⟩ := objInv_smallBlock g i.objects l ok hnew a2 c1 c4
        rw [← a3] at io
        refine take_ok (m := { m with
            heap := heap,
            hdr := update m.hdr l.blk.addr (newHdr c l (classSizes c.H)[lnr]),
            lists := update m.lists lnr (l.blk.addr :: m.lists lnr) }) g a1 io (l := l) ?_ ?_ ?_ c1
            (tl := m.lists lnr) ?_ c2
        · show l ∈ heap.live
          rw [a3]; simp
        · intro l' hl' hne hm
          have hl' : l' ∈ heap.live := hl'
          rw [a3] at hl'
          show (update m.hdr l.blk.addr _ l'.blk.addr).free.length < (update m.hdr l.blk.addr _ l'.blk.addr).nr
          have hm : (update m.hdr l.blk.addr _ l'.blk.addr).size ≤ _ := hm
          rw [Function.update_of_ne hne] at hm ⊢
          rcases List.mem_cons.mp hl' with rfl | hl'
          · exact absurd rfl hne
          · exact i.full l' hl' hm
        · intro l' hl'
          have hl' : l' ∈ heap.live := hl'
          rw [a3] at hl'
          rcases List.mem_cons.mp hl' with rfl | hl'
          · omega
          · exact i.int l' hl'
        · show update m.lists lnr (l.blk.addr :: m.lists lnr) lnr = _
          rw [Function.update_self]
  · rw [if_neg hsm]
    simp only [hsm, if_false] at hos
    obtain ⟨p1, p2⟩ := pages_spec g (sz + c.L)
    cases hpa : primAlloc c.P c.threshold m.heap (c.pages (sz + c.L)) os with
    | none =>
      exact .inr ⟨c.pages (sz + c.L), by omega, p1, by simp only [hpa]⟩
    | some r =>
      obtain ⟨l, heap⟩ := r
      left
      obtain ⟨a1, a2, a3, -⟩ := inv_alloc (by omega) i.pages (by omega) p1 hos hpa
      have ok := liveOK a1
      rw [a3] at ok
      have hnew : l ∉ m.heap.live := by
        have := live_nodup a1
        rw [a3] at this
        exact (List.nodup_cons.mp this).1
      have io := objInv_large g i.objects l ok hnew (sz := sz) (by rw [a2]; omega)
        (by rw [a2]; omega) (by rw [a2]; omega)
      have hother : ∀ l' ∈ m.heap.live, l'.blk.addr ≠ l.blk.addr := by
        intro l' hl' e
        have := ok.distinct l' (by simp [hl']) l (by simp) e
        exact hnew (this ▸ hl')
      rw [← a3, a2] at io
      simp only [hpa]
      refine ⟨_, _, rfl, ⟨a1, io, ?_, ?_⟩, rfl⟩
      · intro l' hl' hm
        have hl' : l' ∈ heap.live := hl'
        rw [a3] at hl'
        have hm : (update m.hdr l.blk.addr _ l'.blk.addr).size ≤ _ := hm
        show (update m.hdr l.blk.addr _ l'.blk.addr).free.length < (update m.hdr l.blk.addr _ l'.blk.addr).nr
        rcases List.mem_cons.mp hl' with rfl | hl'
        · rw [Function.update_self] at hm
          have hm : c.pages (sz + c.L) - c.L ≤ _ := hm
          omega
        · rw [Function.update_of_ne (hother l' hl')] at hm ⊢
          exact i.full l' hl' hm
      · intro l' hl'
        have hl' : l' ∈ heap.live := hl'
        rw [a3] at hl'
        rcases List.mem_cons.mp hl' with rfl | hl'
        · rw [a2]
          have : c.pages (sz + c.L) ≤ sz + c.L + (c.P - 1) := Nat.div_mul_le_self _ _
          omega
        · exact i.int l' hl'

/-- The operating system hands out memory that is aligned and not in use. -/
structure OS.Fresh (P : Nat) (os : OS) : Prop where
  osmem : ∀ h sz a, Inv P h → os.osmem h sz = some a → FreshAt P h sz a
  core : ∀ h sz a, Inv P h → os.core h sz = some a → FreshAt P h sz a

/-- What an allocation may lead to: only failure of `morecore` ends the program. -/
def Fine (c : Cfg) (os : OS) (sz : Nat) (objs : List (Nat × Nat)) :
    Option (Option Nat × Mem) → Prop
  | none => ∃ h n, os.core h n = none
  | some (r, m') => MemInv c m' ∧ m'.objs = (r.map fun x => (x, sz)).toList ++ objs

theorem attempt_ok {os : OS} (hos : os.Fresh c.P) {m : Mem} (i : MemInv c m) {sz : Nat}
    (hint : sz + c.L + 2 * c.P < 2 ^ 31) {again : Mem → Nat → Option (Option Nat × Mem)}
    {objs : List (Nat × Nat)}
    (ha : ∀ nsz, 0 < nsz → c.P ∣ nsz → Fine c os sz objs (again m nsz)) (ho : m.objs = objs) :
    Fine c os sz objs (attempt c os sz again m) := by
  unfold attempt
  rcases round_ok g i hint (hos.osmem _ _ · i.pages ·) with ⟨x, m', e, i', h⟩ | ⟨nsz, h1, h2, e⟩
  · rw [e]
    exact ⟨i', by rw [h, ho]; rfl⟩
  · rw [e]; exact ha nsz h1 h2

theorem fetch_ok {os : OS} (hos : os.Fresh c.P) {m : Mem} (i : MemInv c m) {sz : Nat}
    {again : Mem → Option (Option Nat × Mem)} {objs : List (Nat × Nat)}
    (ha : ∀ m', MemInv c m' → m'.objs = objs → Fine c os sz objs (again m')) (ho : m.objs = objs)
    {nsz : Nat} (h1 : 0 < nsz) (h2 : c.P ∣ nsz) :
    Fine c os sz objs (fetch c os again m nsz) := by
  unfold fetch
  split
  · cases hg : grow c os m nsz with
    | none =>
      unfold grow at hg
      simp only at hg
      split at hg
      · rename_i h; exact ⟨_, _, h⟩
      · cases hg
    | some m' =>
      unfold grow at hg
      simp only at hg
      split at hg
      · cases hg
      · rename_i a h
        cases hg
        obtain ⟨f1, f2, f3⟩ := hos.core _ _ _ i.pages h
        have hp : c.P ∣ (if nsz < c.chunk then c.chunk else nsz) ∧
            0 < (if nsz < c.chunk then c.chunk else nsz) := by
          split
          · exact ⟨g.chunk, by omega⟩
          · exact ⟨h2, h1⟩
        exact ha _ ⟨inv_grow i.pages hp.2 hp.1 f1 f2 f3, i.objects, i.full, i.int⟩ ho
  · exact ⟨i, ho⟩

theorem memAlloc_ok {os : OS} (hos : os.Fresh c.P) {hook : Option (Mem → Option Mem)}
    (hhook : ∀ f, hook = some f → ∀ m m', MemInv c m → f m = some m' → MemInv c m')
    {m : Mem} (i : MemInv c m) {sz : Nat} (hint : sz + c.L + 2 * c.P < 2 ^ 31) :
    Fine c os sz m.objs (memAlloc c os hook m sz) ∨
    ∃ f m', hook = some f ∧ f m = some m' ∧ Fine c os sz m'.objs (memAlloc c os hook m sz) := by
  have hthird : ∀ objs m', MemInv c m' → m'.objs = objs →
      Fine c os sz objs (attempt c os sz (fun m _ => some (none, m)) m') :=
    fun objs m' i' ho => attempt_ok g hos i' hint (fun _ _ _ => ⟨i', ho⟩) ho
  have hsecond : ∀ objs m', MemInv c m' → m'.objs = objs →
      Fine c os sz objs (attempt c os sz (fetch c os (attempt c os sz (fun m _ => some (none, m)))) m') :=
    fun objs m' i' ho => attempt_ok g hos i' hint
      (fun _ h1 h2 => fetch_ok g hos i' (hthird objs) ho h1 h2) ho
  unfold memAlloc
  by_cases hc : ∃ f m', hook = some f ∧ f m = some m' ∧ ∃ nsz, round c m sz (os.osmem m.heap
      (if sz ≤ maxSmall c.P c.H then c.P else c.pages (sz + c.L))) = .nospace nsz ∧
      m.heap.limit ≠ 0 ∧ m.heap.total ≤ m.heap.limit ∧ m.heap.total + nsz > m.heap.limit
  · obtain ⟨f, m', rfl, hf, nsz, hr, hl⟩ := hc
    refine .inr ⟨f, m', rfl, hf, ?_⟩
    rw [attempt, hr]
    simp only [if_pos hl, hf]
    exact hsecond _ _ (hhook f rfl m m' i hf) rfl
  · left
    rcases hr : round_ok g i hint (hos.osmem _ _ · i.pages ·) with ⟨x, m', e, i', h⟩ | ⟨nsz, h1, h2, e⟩
    · rw [attempt, e]
      exact ⟨i', by rw [h]; rfl⟩
    · rw [attempt, e]
      cases hook with
      | none => exact fetch_ok g hos i (hsecond _) rfl h1 h2
      | some f =>
        simp only
        split
        · rename_i hl
          split
          · rename_i m' hf
            exact absurd ⟨f, m', rfl, hf, nsz, e, hl⟩ hc
          · exact ⟨i, rfl⟩
        · exact fetch_ok g hos i (hsecond _) rfl h1 h2

omit g in
theorem cint_of_lt {n : Nat} (h : n < 2 ^ 31) : cint n = n := by
  unfold cint
  simp only [Nat.reducePow] at *
  rw [if_pos (by omega)]
  omega

theorem memFree_ok {m : Mem} (i : MemInv c m) {x : Nat} (hx : x ∈ m.objs.map Prod.fst) :
    ∃ m', memFree c m x = some m' ∧ MemInv c m' ∧ m'.objs = m.objs.filter fun o => o.1 ≠ x := by
  have hpos := g.pos
  obtain ⟨o, ho, rfl⟩ := List.mem_map.mp hx
  obtain ⟨l, hl, ht, hsz⟩ := i.objects.inUse o ho
  have ok := liveOK i.pages
  have hb := i.objects.block l hl
  have hblk : c.block o.1 = l.blk.addr := ht.block g hb (ok.aligned l hl)
  have hint := i.int l hl
  have hsize : (m.hdr l.blk.addr).size ≤ l.blk.size := by
    rcases hb.2 with ⟨-, h2, k, s⟩ | ⟨-, h2⟩
    · have := s.page; omega
    · omega
  have hci : cint (m.hdr l.blk.addr).size = (m.hdr l.blk.addr).size := cint_of_lt (by omega)
  unfold memFree
  simp only [hblk, hci]
  by_cases hsm : (m.hdr l.blk.addr).size ≤ maxSmall c.P c.H
  · rw [if_pos hsm]
    obtain ⟨p1, p2, p3, p4, p5⟩ := objInv_put g i.objects ok hl ht hsm
    have hmm := hb.1
    unfold freeSmall
    simp only at p1 p5 ⊢
    generalize hlists : (if (m.hdr l.blk.addr).avail + 1 = 1 then
        update m.lists (sztable c.P c.H (m.hdr l.blk.addr).size)
          (l.blk.addr :: m.lists (sztable c.P c.H (m.hdr l.blk.addr).size)) else m.lists) = lists at *
    by_cases hall : (m.hdr l.blk.addr).avail + 1 = (m.hdr l.blk.addr).nr
    · rw [if_pos hall, if_pos p1]
      have hel : ({ blk := { addr := l.blk.addr, size := c.P }, mmap := (m.hdr l.blk.addr).mmap } : Live) = l := by
        obtain ⟨⟨a, sz⟩, mm⟩ := l
        simp only at p2 hmm ⊢
        rw [p2, hmm]
      rw [hel]
      refine ⟨_, rfl, ⟨inv_free i.pages hl, ?_, ?_, ?_⟩, rfl⟩
      · refine objInv_release p5 hl ok ?_ ?_ ?_
        · intro l'
          show l' ∈ m.heap.live.erase l ↔ _
          rw [List.Nodup.mem_erase_iff (live_nodup i.pages)]
        · intro j
          dsimp only
          by_cases hj : j = sztable c.P c.H (m.hdr l.blk.addr).size
          · subst hj
            rw [Function.update_self]
            exact ⟨(p5.nodup _).sublist List.erase_sublist, fun b =>
              List.Nodup.mem_erase_iff (p5.nodup _)⟩
          · rw [Function.update_of_ne hj]
            refine ⟨p5.nodup j, fun b => ⟨fun hbj => ⟨?_, hbj⟩, fun h => h.2⟩⟩
            rintro rfl
            rcases (p5.block l hl).2 with ⟨-, -, k, s⟩ | ⟨h1, -⟩
            · have e1 := ((s.list j).mp hbj).1
              have e2 := ((s.list _).mp p1).1
              exact hj (e1.trans e2.symm)
            · rw [Function.update_self] at h1
              have h1 : _ < (m.hdr l.blk.addr).size := h1
              omega
        · rintro y hy
          dsimp only at hy
          rw [Function.update_self] at hy
          rcases hy with ⟨-, ⟨ix, hix, ey⟩, hnf⟩ | ⟨h1, -⟩
          · -- all slots are free
            rcases (p5.block l hl).2 with ⟨-, -, k, s⟩ | ⟨h1, -⟩
            · rw [Function.update_self] at s
              have hsub : (o.1 :: (m.hdr l.blk.addr).free) ⊆
                  (List.range (m.hdr l.blk.addr).nr).map (slot c l.blk.addr (m.hdr l.blk.addr).size) := by
                intro z hz
                obtain ⟨iz, hiz, ez⟩ := s.slots z hz
                simp only [List.mem_map, List.mem_range]
                exact ⟨iz, hiz, ez.symm⟩
              have hsp := List.subperm_of_subset s.nodup hsub
              have hperm := hsp.perm_of_length_le (by
                simp only [List.length_map, List.length_range, List.length_cons]
                rw [← p4]; omega)
              refine hnf (hperm.mem_iff.mpr ?_)
              simp only [List.mem_map, List.mem_range]
              exact ⟨ix, hix, ey.symm⟩
            · rw [Function.update_self] at h1
              have h1 : _ < (m.hdr l.blk.addr).size := h1
              omega
          · have h1 : _ < (m.hdr l.blk.addr).size := h1
            omega
      · intro l' hl' hm
        have hl' : l' ∈ m.heap.live.erase l := hl'
        rw [List.Nodup.mem_erase_iff (live_nodup i.pages)] at hl'
        have hne : l'.blk.addr ≠ l.blk.addr := fun e => hl'.1 (ok.distinct l' hl'.2 l hl e)
        show (update m.hdr l.blk.addr _ l'.blk.addr).free.length < (update m.hdr l.blk.addr _ l'.blk.addr).nr
        have hm : (update m.hdr l.blk.addr _ l'.blk.addr).size ≤ _ := hm
        rw [Function.update_of_ne hne] at hm ⊢
        exact i.full l' hl'.2 hm
      · intro l' hl'
        exact i.int l' (List.mem_of_mem_erase hl')
    · rw [if_neg hall]
      refine ⟨_, rfl, ⟨i.pages, p5, ?_, i.int⟩, rfl⟩
      intro l' hl' hm
      show (update m.hdr l.blk.addr _ l'.blk.addr).free.length < (update m.hdr l.blk.addr _ l'.blk.addr).nr
      have hm : (update m.hdr l.blk.addr _ l'.blk.addr).size ≤ _ := hm
      by_cases hne : l'.blk.addr = l.blk.addr
      · rw [hne, Function.update_self]
        show (m.hdr l.blk.addr).free.length + 1 < (m.hdr l.blk.addr).nr
        omega
      · rw [Function.update_of_ne hne] at hm ⊢
        exact i.full l' hl' hm
  · rw [if_neg hsm]
    rcases hb.2 with ⟨h1, -⟩ | ⟨h1, h2⟩
    · omega
    have hel : ({ blk := { addr := l.blk.addr, size := freedSize c (m.hdr l.blk.addr).size },
                  mmap := (m.hdr l.blk.addr).mmap } : Live) = l := by
      have hfs : freedSize c (m.hdr l.blk.addr).size = l.blk.size := by
        unfold freedSize
        have hcl : cint l.blk.size = l.blk.size := cint_of_lt (by omega)
        rw [hci, h2, hcl, pages_of_dvd g (ok.aligned l hl).2.1, hcl]
      rw [hfs, hb.1]
    have hxl : o.1 = l.blk.addr + c.L := by
      rcases ht with ⟨h3, -⟩ | ⟨-, h3⟩
      · omega
      · exact h3
    rw [hel]
    have hlive : ∀ l', l' ∈ (primFree m.heap l).live ↔ l' ≠ l ∧ l' ∈ m.heap.live := by
      intro l'
      show l' ∈ m.heap.live.erase l ↔ _
      rw [List.Nodup.mem_erase_iff (live_nodup i.pages)]
    refine ⟨_, rfl, ⟨inv_free i.pages hl, ?_, ?_, ?_⟩, rfl⟩
    · have := objInv_freeLarge g i.objects ok hl hlive h1
      rw [hxl]; exact this
    · intro l' hl' hm
      exact i.full l' ((hlive l').mp hl').2 hm
    · intro l' hl'
      exact i.int l' ((hlive l').mp hl').2

end

end Verif.Alloc
