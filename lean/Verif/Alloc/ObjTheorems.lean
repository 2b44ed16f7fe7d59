import Verif.Alloc.Objects

/-!
# Objects handed out by the memory allocator: theorems
-/

namespace Verif.Alloc

open Function (update)

section
variable {c : Cfg} (g : c.Good)
include g

theorem shrink_ok {m : Mem} (i : MemInv c m) {x size : Nat} (hx : x ∈ m.objs.map Prod.fst)
    (hpos : 0 < size) (hle : size ≤ (m.hdr (c.block x)).size)
    (hbig : maxSmall c.P c.H < (m.hdr (c.block x)).size) :
    MemInv c (shrink c m x size) ∧
    (shrink c m x size).objs = m.objs.map fun o => if o.1 = x then (x, size) else o := by
  have hP := g.pos
  obtain ⟨o, ho, rfl⟩ := List.mem_map.mp hx
  obtain ⟨l, hl, ht, hsz⟩ := i.objects.inUse o ho
  have ok := liveOK i.pages
  have hb := i.objects.block l hl
  have hblk : c.block o.1 = l.blk.addr := ht.block g hb (ok.aligned l hl)
  rw [hblk] at hle hbig
  rcases hb.2 with ⟨h1, -⟩ | ⟨-, h2⟩
  · omega
  have hxl : o.1 = l.blk.addr + c.L := by
    rcases ht with ⟨h3, -⟩ | ⟨-, h3⟩
    · omega
    · exact h3
  unfold shrink
  simp only [hblk]
  by_cases hn : ((m.hdr l.blk.addr).size - size) / c.P = 0
  · rw [if_pos hn]
    exact ⟨⟨i.pages, objInv_less i.objects hl ht hle, i.full, i.int⟩, rfl⟩
  · rw [if_neg hn]
    have hel : ({ blk := { addr := l.blk.addr, size := (m.hdr l.blk.addr).size + c.L },
                  mmap := (m.hdr l.blk.addr).mmap } : Live) = l := by
      rw [h2, hb.1]
    rw [hel]
    have hnP : ((m.hdr l.blk.addr).size - size) / c.P * c.P ≤ (m.hdr l.blk.addr).size - size :=
      Nat.div_mul_le_self _ _
    have hn0 : 0 < ((m.hdr l.blk.addr).size - size) / c.P * c.P :=
      Nat.mul_pos (Nat.pos_of_ne_zero hn) (by omega)
    have hdv : c.P ∣ ((m.hdr l.blk.addr).size - size) / c.P * c.P := ⟨_, Nat.mul_comm _ _⟩
    generalize ((m.hdr l.blk.addr).size - size) / c.P * c.P = n at *
    have is := inv_split i.pages hl hn0 (by omega) hdv
    set front : Live := { l with blk := { l.blk with size := l.blk.size - n } } with hfront
    set back : Live := { l with blk := { addr := l.blk.addr + (l.blk.size - n), size := n } } with hback
    have hs1 : (split m.heap l n).2.1 = back := rfl
    have hs2 : (split m.heap l n).2.2.live = front :: back :: m.heap.live.erase l := rfl
    rw [hs1]
    have hbm : back ∈ (split m.heap l n).2.2.live := by rw [hs2]; simp
    have ifr := inv_free is hbm
    have hnd := live_nodup is
    rw [hs2] at hnd
    have hfb : front ≠ back := by
      intro e
      have := (List.nodup_cons.mp hnd).1
      exact this (by rw [← e]; simp)
    have hlive' : (primFree (split m.heap l n).2.2 back).live = front :: m.heap.live.erase l := by
      show (front :: back :: m.heap.live.erase l).erase back = _
      rw [List.erase_cons_tail (by simpa using hfb), List.erase_cons_head]
    have hmem : ∀ l', l' ∈ (primFree (split m.heap l n).2.2 back).live ↔
        l' = front ∨ (l' ≠ l ∧ l' ∈ m.heap.live) := by
      intro l'
      rw [hlive', List.mem_cons, List.Nodup.mem_erase_iff (live_nodup i.pages)]
    have hfs : (m.hdr l.blk.addr).size - n + c.L = front.blk.size := by
      show _ = l.blk.size - n
      omega
    have hfa : Aligned c.P front.blk := ifr.liveAligned front ((hmem front).mpr (.inl rfl))
    have hms : maxSmall c.P c.H < (m.hdr l.blk.addr).size - n := by
      obtain ⟨k, hk, eP⟩ := g.P
      obtain ⟨-, t2, -, -, t5⟩ := table_bounds (P := c.P) g.H (by omega)
      have h3 : c.H + maxSmall c.P c.H ≤ c.P := by
        rw [eP] at t2 t5 ⊢
        exact class_in_page g.H hk t5 t2
      have h4 : c.P ≤ front.blk.size := Nat.le_of_dvd hfa.2.2 hfa.2.1
      have := g.L
      omega
    refine ⟨⟨ifr, ?_, ?_, ?_⟩, rfl⟩
    · have := objInv_resize g i.objects ok hl hmem rfl rfl hbig hms hfs (n := size) (by omega)
      rw [← hxl] at this
      exact this
    · intro l' hl' hm
      have hm : (update m.hdr l.blk.addr _ l'.blk.addr).size ≤ _ := hm
      show (update m.hdr l.blk.addr _ l'.blk.addr).free.length < (update m.hdr l.blk.addr _ l'.blk.addr).nr
      rcases (hmem l').mp hl' with rfl | ⟨hne, hl'⟩
      · rw [show front.blk.addr = l.blk.addr from rfl, Function.update_self] at hm
        have hm : (m.hdr l.blk.addr).size - n ≤ _ := hm
        omega
      · have hna : l'.blk.addr ≠ l.blk.addr := fun e => hne (ok.distinct l' hl' l hl e)
        rw [Function.update_of_ne hna] at hm ⊢
        exact i.full l' hl' hm
    · intro l' hl'
      rcases (hmem l').mp hl' with rfl | ⟨hne, hl'⟩
      · have := i.int l hl
        omega
      · exact i.int l' hl'

theorem memRealloc_ok {os : OS} (hos : os.Fresh c.P) {hook : Option (Mem → Option Mem)}
    (hhook : ∀ f, hook = some f → ∀ m m', MemInv c m → f m = some m' → MemInv c m')
    {m : Mem} (i : MemInv c m) {x size : Nat} (hx : x ∈ m.objs.map Prod.fst)
    (hint : size + c.L + 2 * c.P < 2 ^ 31)
    (hkeep : ∀ f m', hook = some f → f m = some m' → x ∈ m'.objs.map Prod.fst)
    {r : Option Nat} {m' : Mem} (h : memRealloc c os hook m x size = some (r, m')) :
    MemInv c m' := by
  unfold memRealloc at h
  by_cases h0 : size = 0
  · rw [if_pos h0] at h
    obtain ⟨m1, e1, i1, -⟩ := memFree_ok g i hx
    rw [e1] at h
    cases h
    exact i1
  · rw [if_neg h0] at h
    simp only at h
    by_cases hgt : size > (m.hdr (c.block x)).size
    · rw [if_pos hgt] at h
      have key : ∀ objs, x ∈ objs.map Prod.fst → Fine c os size objs (memAlloc c os hook m size) →
          MemInv c m' := by
        intro objs hxo hf
        split at h
        · rename_i p m1 e
          rw [e] at hf
          obtain ⟨i1, o1⟩ := hf
          obtain ⟨m2, e2, i2, -⟩ := memFree_ok g i1 (x := x) (by rw [o1]; simp at hxo ⊢; tauto)
          rw [e2] at h
          cases h
          exact i2
        · cases h
      rcases memAlloc_ok g hos hhook i hint with hf | ⟨f, m1, e1, e2, hf⟩
      · exact key _ hx hf
      · exact key _ (hkeep f m1 e1 e2) hf
    · rw [if_neg hgt] at h
      by_cases hsm : (m.hdr (c.block x)).size ≤ maxSmall c.P c.H
      · rw [if_pos hsm] at h
        cases h
        obtain ⟨o, ho, rfl⟩ := List.mem_map.mp hx
        obtain ⟨l, hl, ht, hsz⟩ := i.objects.inUse o ho
        have ok := liveOK i.pages
        have hblk : c.block o.1 = l.blk.addr :=
          ht.block g (i.objects.block l hl) (ok.aligned l hl)
        rw [hblk] at hgt
        exact ⟨i.pages, objInv_less i.objects hl ht (by omega), i.full, i.int⟩
      · rw [if_neg hsm] at h
        cases h
        exact (shrink_ok g i hx (by omega) (by omega) (by omega)).1

/-! ## Specification: histories of calls -/

omit g
/-- One call to the allocator, with the promises of the caller: only objects in use are freed or
resized, requests are smaller than two gigabytes. -/
inductive MemStep (c : Cfg) (os : OS) (hook : Option (Mem → Option Mem)) : Mem → Mem → Prop
  | alloc (m m' : Mem) (sz : Nat) (r : Option Nat) (hint : sz + c.L + 2 * c.P < 2 ^ 31)
      (h : memAlloc c os hook m sz = some (r, m')) : MemStep c os hook m m'
  | free (m m' : Mem) (x : Nat) (hx : x ∈ m.objs.map Prod.fst) (h : memFree c m x = some m') :
      MemStep c os hook m m'
  | realloc (m m' : Mem) (x size : Nat) (r : Option Nat) (hx : x ∈ m.objs.map Prod.fst)
      (hint : size + c.L + 2 * c.P < 2 ^ 31)
      (hkeep : ∀ f m', hook = some f → f m = some m' → x ∈ m'.objs.map Prod.fst)
      (h : memRealloc c os hook m x size = some (r, m')) : MemStep c os hook m m'

/-- A sequence of calls. -/
inductive Calls (c : Cfg) (os : OS) (hook : Option (Mem → Option Mem)) : Mem → Mem → Prop
  | refl (m : Mem) : Calls c os hook m m
  | step (m m' m'' : Mem) (h : Calls c os hook m m') (s : MemStep c os hook m' m'') :
      Calls c os hook m m''

/-- The hook calls the allocator itself, for example to free objects. -/
def HookCalls (c : Cfg) (os : OS) (hook : Option (Mem → Option Mem)) : Prop :=
  ∀ f, hook = some f → ∀ m m', f m = some m' → Calls c os none m m'

def emptyMem (limit : Nat) : Mem :=
  { heap := emptyHeap limit
    hdr := fun _ => ⟨0, false, 0, 0, []⟩
    lists := fun _ => []
    objs := [] }

theorem inv_empty (c : Cfg) (limit : Nat) : MemInv c (emptyMem limit) := by
  refine ⟨⟨List.Pairwise.nil, by simp [emptyMem, emptyHeap], by simp [emptyMem, emptyHeap],
    List.Pairwise.nil, by simp [emptyMem, emptyHeap], by simp [emptyMem, emptyHeap], rfl⟩,
    ⟨by simp [emptyMem, emptyHeap], by simp [emptyMem], by simp [emptyMem], by simp [emptyMem],
      by simp [emptyMem], by simp [emptyMem, emptyHeap]⟩, by simp [emptyMem, emptyHeap, Full],
      by simp [emptyMem, emptyHeap]⟩

include g

theorem memStep_ok {os : OS} (hos : os.Fresh c.P) {hook : Option (Mem → Option Mem)}
    (hhook : ∀ f, hook = some f → ∀ m m', MemInv c m → f m = some m' → MemInv c m')
    {m m' : Mem} (i : MemInv c m) (s : MemStep c os hook m m') : MemInv c m' := by
  cases s with
  | alloc sz r hint h =>
    rcases memAlloc_ok g hos hhook i hint with hf | ⟨f, m1, -, -, hf⟩
    · rw [h] at hf; exact hf.1
    · rw [h] at hf; exact hf.1
  | free x hx h =>
    obtain ⟨m1, e1, i1, -⟩ := memFree_ok g i hx
    rw [h] at e1; cases e1; exact i1
  | realloc x size r hx hint hkeep h =>
    exact memRealloc_ok g hos hhook i hx hint hkeep h

theorem calls_none_ok {os : OS} (hos : os.Fresh c.P) {m m' : Mem} (i : MemInv c m)
    (s : Calls c os none m m') : MemInv c m' := by
  induction s with
  | refl => exact i
  | step m' m'' _ s ih => exact memStep_ok g hos (by simp) ih s

theorem hookCalls_ok {os : OS} (hos : os.Fresh c.P) {hook : Option (Mem → Option Mem)}
    (hh : HookCalls c os hook) :
    ∀ f, hook = some f → ∀ m m', MemInv c m → f m = some m' → MemInv c m' :=
  fun f hf m m' i e => calls_none_ok g hos i (hh f hf m m' e)

theorem calls_ok {os : OS} (hos : os.Fresh c.P) {hook : Option (Mem → Option Mem)}
    (hh : HookCalls c os hook) {m m' : Mem} (i : MemInv c m)
    (s : Calls c os hook m m') : MemInv c m' := by
  induction s with
  | refl => exact i
  | step m' m'' _ s ih => exact memStep_ok g hos (hookCalls_ok g hos hh) ih s

theorem obj_range {m : Mem} (i : MemInv c m) {l : Live} (hl : l ∈ m.heap.live) {x : Nat}
    (ht : Taken c (m.hdr l.blk.addr) l.blk.addr x) :
    8 ∣ x ∧ l.blk.addr + c.L ≤ x ∧ x + (m.hdr l.blk.addr).size ≤ l.blk.stop := by
  have h8 : 8 ∣ c.P := by
    obtain ⟨k, hk, e⟩ := g.P
    rw [e]
    exact Nat.dvd_trans (Nat.pow_dvd_pow 2 (show 3 ≤ 12 by decide)) (Nat.pow_dvd_pow 2 hk)
  have hal := i.pages.liveAligned l hl
  have hl8 : 8 ∣ l.blk.addr := Nat.dvd_trans h8 hal.1
  have hL := g.L
  have hH := g.H.1
  rcases ht with ⟨h1, ⟨ix, hix, rfl⟩, -⟩ | ⟨h1, rfl⟩
  · rcases (i.objects.block l hl).2 with ⟨-, h2, k, s⟩ | ⟨h2, -⟩
    · have h3 := s.slotEnd g hix
      have h4 := s.sizePos g
      refine ⟨?_, by unfold slot; omega, by unfold Blk.stop; omega⟩
      unfold slot
      exact Nat.dvd_add (Nat.dvd_add hl8 hH) (Nat.dvd_mul_left_of_dvd h4.2.1 _)
    · omega
  · rcases (i.objects.block l hl).2 with ⟨h2, -⟩ | ⟨-, h2⟩
    · omega
    · exact ⟨Nat.dvd_add hl8 hL.2, Nat.le_refl _, by unfold Blk.stop; omega⟩

theorem taken_disjoint {m : Mem} (i : MemInv c m) {l l' : Live} (hl : l ∈ m.heap.live)
    (hl' : l' ∈ m.heap.live) {x y : Nat} (hx : Taken c (m.hdr l.blk.addr) l.blk.addr x)
    (hy : Taken c (m.hdr l'.blk.addr) l'.blk.addr y) (hne : x ≠ y) :
    x + (m.hdr l.blk.addr).size ≤ y ∨ y + (m.hdr l'.blk.addr).size ≤ x := by
  have rx := obj_range g i hl hx
  have ry := obj_range g i hl' hy
  by_cases he : l = l'
  · subst he
    rcases hx with ⟨h1, ⟨ix, hix, rfl⟩, -⟩ | ⟨h1, rfl⟩
    · rcases hy with ⟨-, ⟨iy, hiy, rfl⟩, -⟩ | ⟨h2, -⟩
      · have hxy : ix ≠ iy := by rintro rfl; exact hne rfl
        unfold slot
        rcases Nat.lt_or_ge ix iy with h | h
        · left
          have h3 : (ix + 1) * (m.hdr l.blk.addr).size ≤ iy * (m.hdr l.blk.addr).size :=
            Nat.mul_le_mul_right _ h
          rw [Nat.add_mul, Nat.one_mul] at h3
          omega
        · right
          have h3 : (iy + 1) * (m.hdr l.blk.addr).size ≤ ix * (m.hdr l.blk.addr).size :=
            Nat.mul_le_mul_right _ (by omega)
          rw [Nat.add_mul, Nat.one_mul] at h3
          omega
      · omega
    · rcases hy with ⟨h2, -⟩ | ⟨-, rfl⟩
      · omega
      · exact absurd rfl hne
  · have hd : Disjoint l.blk l'.blk := by
      have hp := i.pages.disjoint
      rw [List.pairwise_iff_getElem] at hp
      obtain ⟨a, ha, rfl⟩ := List.mem_iff_getElem.mp hl
      obtain ⟨b, hb, rfl⟩ := List.mem_iff_getElem.mp hl'
      rcases Nat.lt_trichotomy a b with h | h | h
      · exact hp a b ha hb h
      · subst h; exact absurd rfl he
      · exact (hp b a hb ha h).symm
    rw [disjoint_iff (i.pages.liveAligned l hl).2.2 (i.pages.liveAligned l' hl').2.2] at hd
    omega

/-- **C36.**  Whatever has been allocated, freed and resized before: objects in use share no
byte. -/
theorem objects_disjoint {os : OS} (hos : os.Fresh c.P) {hook : Option (Mem → Option Mem)}
    (hh : HookCalls c os hook) {limit : Nat} {m : Mem} (hr : Calls c os hook (emptyMem limit) m) :
    m.objs.Pairwise fun o o' => Disjoint ⟨o.1, o.2⟩ ⟨o'.1, o'.2⟩ := by
  have i := calls_ok g hos hh (inv_empty c limit) hr
  have hu := i.objects.unique
  rw [List.Nodup, List.pairwise_map] at hu
  refine List.Pairwise.imp_of_mem ?_ hu
  rintro o o' ho ho' hne x ⟨h1, h2⟩
  obtain ⟨l, hl, t1, s1⟩ := i.objects.inUse o ho
  obtain ⟨l', hl', t2, s2⟩ := i.objects.inUse o' ho'
  have := taken_disjoint g i hl hl' t1 t2 hne
  simp only [Blk.Has, Blk.stop] at h1 h2
  omega

/-- **C36.**  Every object in use is aligned, lies after the header of a block in use, ends
within that block, and shares no byte with free memory. -/
theorem objects_placed {os : OS} (hos : os.Fresh c.P) {hook : Option (Mem → Option Mem)}
    (hh : HookCalls c os hook) {limit : Nat} {m : Mem} (hr : Calls c os hook (emptyMem limit) m)
    {o : Nat × Nat} (ho : o ∈ m.objs) :
    8 ∣ o.1 ∧ (∃ l ∈ m.heap.live, l.blk.addr + c.L ≤ o.1 ∧ o.1 + o.2 ≤ l.blk.stop) ∧
    ∀ b ∈ m.heap.free, Disjoint ⟨o.1, o.2⟩ b := by
  have i := calls_ok g hos hh (inv_empty c limit) hr
  obtain ⟨l, hl, t, s⟩ := i.objects.inUse o ho
  obtain ⟨r1, r2, r3⟩ := obj_range g i hl t
  refine ⟨r1, ⟨l, hl, r2, by omega⟩, ?_⟩
  rintro b hb x ⟨h1, h2⟩
  refine i.pages.apart l hl b hb x ⟨?_, h2⟩
  simp only [Blk.Has, Blk.stop] at h1 h2 r3 ⊢
  omega

/-- **C36.**  Freeing an object in use works (no consistency check fails), frees that object
and no other. -/
theorem free_works {os : OS} (hos : os.Fresh c.P) {hook : Option (Mem → Option Mem)}
    (hh : HookCalls c os hook) {limit : Nat} {m : Mem} (hr : Calls c os hook (emptyMem limit) m)
    {x : Nat} (hx : x ∈ m.objs.map Prod.fst) :
    ∃ m', memFree c m x = some m' ∧ m'.objs = m.objs.filter fun o => o.1 ≠ x := by
  obtain ⟨m', e, -, h⟩ := memFree_ok g (calls_ok g hos hh (inv_empty c limit) hr) hx
  exact ⟨m', e, h⟩

/-- **C36.**  Allocating (without a hook) fails only when the operating system has no memory or
the limit of the heap is reached; otherwise it hands out one object, of the size asked for,
and disturbs no other. -/
theorem alloc_works {os : OS} (hos : os.Fresh c.P) {limit : Nat} {m : Mem}
    (hr : Calls c os none (emptyMem limit) m) {sz : Nat} (hint : sz + c.L + 2 * c.P < 2 ^ 31) :
    (∃ x m', memAlloc c os none m sz = some (some x, m') ∧ m'.objs = (x, sz) :: m.objs) ∨
    (∃ m', memAlloc c os none m sz = some (none, m') ∧ m'.objs = m.objs) ∨
    (memAlloc c os none m sz = none ∧ ∃ h n, os.core h n = none) := by
  have i := calls_ok g hos (by intro f hf; cases hf) (inv_empty c limit) hr
  rcases memAlloc_ok g hos (hook := none) (by simp) i hint with hf | ⟨f, m1, e, -⟩
  · cases hma : memAlloc c os none m sz with
    | none => rw [hma] at hf; exact .inr (.inr ⟨rfl, hf⟩)
    | some p =>
      obtain ⟨r, m'⟩ := p
      rw [hma] at hf
      cases r with
      | none => exact .inr (.inl ⟨m', rfl, hf.2⟩)
      | some x => exact .inl ⟨x, m', rfl, hf.2⟩
  · cases e

/-- **C36.**  When all objects have been freed, every block has been given back. -/
theorem no_leak {os : OS} (hos : os.Fresh c.P) {hook : Option (Mem → Option Mem)}
    (hh : HookCalls c os hook) {limit : Nat} {m : Mem} (hr : Calls c os hook (emptyMem limit) m)
    (h0 : m.objs = []) : m.heap.live = [] ∧ m.heap.total = 0 := by
  have i := calls_ok g hos hh (inv_empty c limit) hr
  have hl : m.heap.live = [] := by
    rw [List.eq_nil_iff_forall_not_mem]
    intro l hl
    have hnone : ∀ x, ¬ Taken c (m.hdr l.blk.addr) l.blk.addr x := by
      intro x hx
      have := i.objects.used l hl x hx
      rw [h0] at this
      simp at this
    rcases (i.objects.block l hl).2 with ⟨h1, h2, k, s⟩ | ⟨h1, -⟩
    · have hf := i.full l hl h1
      -- some slot is not free
      have : ∃ ix < (m.hdr l.blk.addr).nr,
          slot c l.blk.addr (m.hdr l.blk.addr).size ix ∉ (m.hdr l.blk.addr).free := by
        by_contra hc
        push Not at hc
        have hsub : (List.range (m.hdr l.blk.addr).nr).map
            (slot c l.blk.addr (m.hdr l.blk.addr).size) ⊆ (m.hdr l.blk.addr).free := by
          intro z hz
          simp only [List.mem_map, List.mem_range] at hz
          obtain ⟨ix, hix, rfl⟩ := hz
          exact hc ix hix
        have hnd : ((List.range (m.hdr l.blk.addr).nr).map
            (slot c l.blk.addr (m.hdr l.blk.addr).size)).Nodup := by
          refine List.Nodup.map_on ?_ List.nodup_range
          intro a _ b _ e
          exact slot_inj (by have := s.sizePos g; omega) e
        have := (List.subperm_of_subset hnd hsub).length_le
        simp at this
        omega
      obtain ⟨ix, hix, hnf⟩ := this
      exact hnone _ (.inl ⟨h1, ⟨ix, hix, rfl⟩, hnf⟩)
    · exact hnone _ (.inr ⟨h1, rfl⟩)
  exact ⟨hl, by rw [i.pages.total, hl]; rfl⟩

/-- **C36.**  Resizing to no more than the object holds leaves it in place and changes no other
object. -/
theorem realloc_in_place {os : OS} {hook : Option (Mem → Option Mem)} {m : Mem} {x size : Nat}
    (h0 : size ≠ 0) {n : Nat} (hos : os.Fresh c.P) (hh : HookCalls c os hook) {limit : Nat}
    (hr : Calls c os hook (emptyMem limit) m) (hx : (x, n) ∈ m.objs) (hle : size ≤ n) :
    ∃ m', memRealloc c os hook m x size = some (some x, m') ∧
      m'.objs = m.objs.map fun o => if o.1 = x then (x, size) else o := by
  have i := calls_ok g hos hh (inv_empty c limit) hr
  have hxm : x ∈ m.objs.map Prod.fst := List.mem_map.mpr ⟨_, hx, rfl⟩
  obtain ⟨l, hl, ht, hsz⟩ := i.objects.inUse _ hx
  have ok := liveOK i.pages
  have hblk : c.block x = l.blk.addr := ht.block g (i.objects.block l hl) (ok.aligned l hl)
  simp only at hsz
  unfold memRealloc
  rw [if_neg h0]
  simp only [hblk]
  rw [if_neg (by omega)]
  split
  · exact ⟨_, rfl, rfl⟩
  · refine ⟨_, rfl, (shrink_ok g i hxm (by omega) ?_ ?_).2⟩ <;> rw [hblk] <;> omega

/-- **C36.**  Growing an object (without a hook), when there is memory, hands out another object,
of the size asked for, and frees the old one. -/
theorem realloc_moves {os : OS} (hos : os.Fresh c.P) {limit : Nat} {m : Mem} {x size : Nat}
    (hr : Calls c os none (emptyMem limit) m) (hx : x ∈ m.objs.map Prod.fst)
    (hint : size + c.L + 2 * c.P < 2 ^ 31) (hgt : (m.hdr (c.block x)).size < size)
    {p : Nat} {m1 : Mem} (ha : memAlloc c os none m size = some (some p, m1)) :
    ∃ m', memRealloc c os none m x size = some (some p, m') ∧ p ∉ m.objs.map Prod.fst ∧
      m'.objs = (p, size) :: m.objs.filter fun o => o.1 ≠ x := by
  have i := calls_ok g hos (by intro f hf; cases hf) (inv_empty c limit) hr
  have hf : Fine c os size m.objs (memAlloc c os none m size) := by
    rcases memAlloc_ok g hos (hook := none) (by simp) i hint with hf | ⟨f, m1, e, -⟩
    · exact hf
    · cases e
  rw [ha] at hf
  obtain ⟨i1, o1⟩ := hf
  have o1 : m1.objs = (p, size) :: m.objs := o1
  have hu := i1.objects.unique
  rw [o1] at hu
  have hp := (List.nodup_cons.mp hu).1
  obtain ⟨m2, e2, -, o2⟩ := memFree_ok g i1 (x := x) (by rw [o1]; simp at hx ⊢; tauto)
  have hpx : p ≠ x := by rintro rfl; exact hp hx
  refine ⟨m2, ?_, hp, ?_⟩
  · unfold memRealloc
    rw [if_neg (by omega)]
    simp only
    rw [if_pos hgt, ha]
    simp only [e2, Option.map_some]
  · rw [o2, o1, List.filter_cons_of_pos (by simpa using hpx)]

end

/-! ## Cases that meet the hypotheses, and what does not hold -/

/-- An operating system that hands out addresses beyond all memory known. -/
def bump (P : Nat) : OS :=
  let next := fun h : Heap =>
    P * (1 + (h.free.map fun b => b.stop).sum + (h.live.map fun l => l.blk.stop).sum)
  { osmem := fun h _ => some (next h), core := fun h _ => some (next h) }

theorem le_sum_of_mem {l : List Nat} {x : Nat} (h : x ∈ l) : x ≤ l.sum := by
  induction l with
  | nil => cases h
  | cons a l ih =>
    rcases List.mem_cons.mp h with rfl | h
    · simp
    · have := ih h
      simp only [List.sum_cons]; omega

theorem bump_fresh {P : Nat} (hP : 0 < P) : (bump P).Fresh P := by
  have key : ∀ h : Heap, ∀ sz, FreshAt P h sz
      (P * (1 + (h.free.map fun b => b.stop).sum + (h.live.map fun l => l.blk.stop).sum)) := by
    intro h sz
    have hle : ∀ n, n ≤ (h.free.map fun b => b.stop).sum + (h.live.map fun l => l.blk.stop).sum →
        n < P * (1 + (h.free.map fun b => b.stop).sum + (h.live.map fun l => l.blk.stop).sum) := by
      intro n hn
      refine Nat.lt_of_lt_of_le (show n < 1 + (h.free.map fun b => b.stop).sum +
        (h.live.map fun l => l.blk.stop).sum by omega) (Nat.le_mul_of_pos_left _ hP)
    refine ⟨⟨_, rfl⟩, ?_, ?_⟩
    · rintro b hb x ⟨h1, h2⟩
      have h3 := le_sum_of_mem (List.mem_map.mpr ⟨b, hb, rfl⟩ : b.stop ∈ h.free.map fun b => b.stop)
      have h4 := hle b.stop (by omega)
      simp only [Blk.Has] at h1 h2
      omega
    · rintro l hl x ⟨h1, h2⟩
      have h3 := le_sum_of_mem (List.mem_map.mpr ⟨l, hl, rfl⟩ :
        l.blk.stop ∈ h.live.map fun l => l.blk.stop)
      have h4 := hle l.blk.stop (by omega)
      simp only [Blk.Has] at h1 h2
      omega
  constructor
  · intro h sz a _ e
    cases e
    exact key h sz
  · intro h sz a _ e
    cases e
    exact key h sz

/-- The values of a 64-bit machine with pages of 4096 bytes. -/
def cfg64 : Cfg := { P := 4096, H := 48, L := 16, threshold := 262144, chunk := 65536 }

theorem cfg64_good : cfg64.Good :=
  ⟨⟨12, by decide, rfl⟩, by decide, by unfold GoodHeader; decide, by decide, by decide⟩

/-- Run requests; `inl n`: allocate `n` bytes; `inr k`: free the `k`-th newest object. -/
def script (m : Mem) : List (Nat ⊕ Nat) → Option Mem
  | [] => some m
  | .inl n :: r =>
    if n < 2 ^ 30 then
      match memAlloc cfg64 (bump 4096) none m n with
      | some (_, m) => script m r
      | none => none
    else none
  | .inr k :: r =>
    match m.objs[k]? with
    | some o =>
      match memFree cfg64 m o.1 with
      | some m => script m r
      | none => none
    | none => none

theorem script_calls (l : List (Nat ⊕ Nat)) : ∀ (m0 m m' : Mem),
    Calls cfg64 (bump 4096) none m0 m → script m l = some m' →
    Calls cfg64 (bump 4096) none m0 m' := by
  induction l with
  | nil => intro m0 m m' h e; cases e; exact h
  | cons a l ih =>
    intro m0 m m' h e
    cases a with
    | inl n =>
      rw [script] at e
      split at e
      · rename_i hn
        split at e
        · rename_i r m1 e1
          refine ih m0 m1 m' (.step _ _ _ h (.alloc _ _ n r ?_ e1)) e
          simp only [cfg64, Nat.reducePow] at hn ⊢
          omega
        · cases e
      · cases e
    | inr k =>
      rw [script] at e
      split at e
      · rename_i o ho
        split at e
        · rename_i m1 e1
          refine ih m0 m1 m' (.step _ _ _ h (.free _ _ o.1 ?_ e1)) e
          exact List.mem_map.mpr ⟨o, List.mem_of_getElem? ho, rfl⟩
        · cases e
      · cases e

/-- A history with small, large and mapped objects, some of them freed. -/
example : ∃ m, Calls cfg64 (bump 4096) none (emptyMem 0) m ∧
    m.objs = [(8208, 5000), (402657296, 300000), (4272, 100), (4144, 100)] := by
  have h : ((script (emptyMem 0) [.inl 100, .inl 100, .inl 10000, .inl 300000, .inr 1,
      .inl 5000]).map fun m => m.objs) =
      some [(8208, 5000), (402657296, 300000), (4272, 100), (4144, 100)] := by decide +kernel
  obtain ⟨m, e, h⟩ := Option.map_eq_some_iff.mp h
  exact ⟨m, script_calls _ _ _ _ (.refl _) e, h⟩

/-- A history after which no object is in use. -/
example : ∃ m, Calls cfg64 (bump 4096) none (emptyMem 0) m ∧ m.objs = [] ∧ m.heap.free ≠ [] := by
  have h : ((script (emptyMem 0) [.inl 100, .inl 5000, .inr 1, .inr 0]).map
      fun m => (m.objs, m.heap.free.length)) = some ([], 1) := by decide +kernel
  obtain ⟨m, e, h⟩ := Option.map_eq_some_iff.mp h
  injection h with h1 h2
  exact ⟨m, script_calls _ _ _ _ (.refl _) e, h1, by intro h; rw [h] at h2; cases h2⟩

/-- **C36, what does not hold.**  alloc.h:125-132 promises that resizing answers NULL when there
is no memory; instead `memcpy` is called with a null pointer (alloc.c:311-312). -/
theorem not_realloc_null : ∃ (m m1 : Mem) (x size : Nat),
    Calls cfg64 (bump 4096) none (emptyMem 8192) m ∧ x ∈ m.objs.map Prod.fst ∧
    memAlloc cfg64 (bump 4096) none m size = some (none, m1) ∧
    memRealloc cfg64 (bump 4096) none m x size = none := by
  have h : ((script (emptyMem 8192) [.inl 100]).bind fun m =>
      (memAlloc cfg64 (bump 4096) none m 10000).map fun r =>
        (m.objs, r.1, (memRealloc cfg64 (bump 4096) none m 4144 10000).isNone)) =
      some ([(4144, 100)], none, true) := by decide +kernel
  obtain ⟨m, e, h⟩ := Option.bind_eq_some_iff.mp h
  obtain ⟨⟨r, m1⟩, e1, h⟩ := Option.map_eq_some_iff.mp h
  simp only [Prod.mk.injEq, Option.isNone_iff_eq_none] at h
  obtain ⟨h1, rfl, h3⟩ := h
  exact ⟨m, m1, 4144, 10000, script_calls _ _ _ _ (.refl _) e, by rw [h1]; simp, e1, h3⟩

/-- **C36, what does not hold.**  Freeing an object of two gigabytes: its size does not fit into
the `int` of `_gst_mem_free` (alloc.c:344), and what is given back is not the block. -/
theorem not_free_huge : ∃ (m m' : Mem) (x : Nat),
    memAlloc cfg64 (bump 4096) none (emptyMem 0) (2 ^ 31) = some (some x, m) ∧
    memFree cfg64 m x = some m' ∧ m'.objs = [] ∧ m'.heap.live ≠ [] := by
  have h : ((memAlloc cfg64 (bump 4096) none (emptyMem 0) (2 ^ 31)).bind fun r =>
      (memFree cfg64 r.2 4112).map fun m => (r.1, m.objs, m.heap.live.length)) =
      some (some 4112, [], 1) := by decide +kernel
  obtain ⟨⟨r, m⟩, e, h⟩ := Option.bind_eq_some_iff.mp h
  obtain ⟨m', e1, h⟩ := Option.map_eq_some_iff.mp h
  simp only [Prod.mk.injEq] at h
  obtain ⟨rfl, h2, h3⟩ := h
  exact ⟨m, m', 4112, e, e1, h2, by intro h; rw [h] at h3; cases h3⟩

end Verif.Alloc
