import Verif.Index.Model
import Verif.CInt.Props

/-! # Lemmas about the bounds check and about memory -/

namespace Verif.Index

open Verif.CInt (Word Byte)

theorem sizeT_toNat (i : Int) : ((sizeT i).toNat : Int) = i % 18446744073709551616 := by
  unfold sizeT
  rw [BitVec.toNat_ofInt]
  simp only [Nat.reducePow]
  omega

/-- The geometry of an object that fits in the address space. -/
structure Geometry (fixed n s : Nat) : Prop where
  size : s = 1 ∨ s = 2 ∨ s = 4 ∨ s = 8
  fits : fixed * 8 + n * s < 1152921504606846976

/-- Byte offset of element `k` (from 0). -/
theorem byteOffset_iff (fixed n s : Nat) (g : Geometry fixed n s) (hn : 1 ≤ n) (i : Int)
    (off : Word) :
    byteOffset (BitVec.ofNat 64 s) (header fixed n s) (sizeT i) = some off ↔
      i % 18446744073709551616 ≠ 0 ∧
      ∃ k : Nat, k < n ∧ off.toNat = fixed * 8 + k * s ∧
        ((i - 1) * s) % 18446744073709551616 = k * s := by
  obtain ⟨hs, hf⟩ := g
  have hi := sizeT_toNat i
  have hx := (sizeT i).isLt
  have ho := off.isLt
  generalize sizeT i = x at *
  have h1 : (x < 1#64) ↔ x.toNat < 1 := by rw [BitVec.lt_def]; rfl
  have hmax : ((header fixed n s).numWords * 8#64 - (header fixed n s).empty).toNat
      = fixed * 8 + n * s := by
    simp only [header, BitVec.toNat_sub, BitVec.toNat_mul, BitVec.toNat_ofNat, Nat.reducePow]
    rcases hs with rfl | rfl | rfl | rfl <;> omega
  have hbase : ((header fixed n s).fixed * 8#64 + BitVec.ofNat 64 s).toNat = fixed * 8 + s := by
    simp only [header, BitVec.toNat_add, BitVec.toNat_mul, BitVec.toNat_ofNat, Nat.reducePow]
    rcases hs with rfl | rfl | rfl | rfl <;> omega
  have hidx : ((header fixed n s).fixed * 8#64 + x * BitVec.ofNat 64 s).toNat
      = (fixed * 8 + x.toNat * s) % 18446744073709551616 := by
    simp only [header, BitVec.toNat_add, BitVec.toNat_mul, BitVec.toNat_ofNat, Nat.reducePow]
    rcases hs with rfl | rfl | rfl | rfl <;> omega
  have hs64 : (BitVec.ofNat 64 s).toNat = s := by
    rw [BitVec.toNat_ofNat]; rcases hs with rfl | rfl | rfl | rfl <;> rfl
  unfold byteOffset
  dsimp only
  by_cases hx1 : x.toNat < 1
  · rw [if_pos (h1.mpr hx1)]
    constructor
    · intro h; cases h
    · rintro ⟨h, -⟩; omega
  rw [if_neg (fun h => hx1 (h1.mp h))]
  generalize ((header fixed n s).fixed * 8#64 + x * BitVec.ofNat 64 s) = index at *
  generalize ((header fixed n s).fixed * 8#64 + BitVec.ofNat 64 s) = base at *
  generalize ((header fixed n s).numWords * 8#64 - (header fixed n s).empty) = mx at *
  have hcmp : (index - base > mx - base) ↔ (mx - base).toNat < (index - base).toNat := by
    rw [gt_iff_lt, BitVec.lt_def]
  have hd1 : (index - base).toNat = ((x.toNat - 1) * s) % 18446744073709551616 := by
    rw [BitVec.toNat_sub, hbase, hidx]
    simp only [Nat.reducePow]
    rcases hs with rfl | rfl | rfl | rfl <;> omega
  have hd2 : (mx - base).toNat = (n - 1) * s := by
    rw [BitVec.toNat_sub, hbase, hmax]
    simp only [Nat.reducePow]
    rcases hs with rfl | rfl | rfl | rfl <;> omega
  have hoff : (index - BitVec.ofNat 64 s).toNat =
      (fixed * 8 + (x.toNat - 1) * s) % 18446744073709551616 := by
    rw [BitVec.toNat_sub, hs64, hidx]
    simp only [Nat.reducePow]
    rcases hs with rfl | rfl | rfl | rfl <;> omega
  constructor
  · intro h
    split at h
    · cases h
    · rename_i hc
      cases h
      rw [hcmp, hd1, hd2] at hc
      refine ⟨by omega, ((x.toNat - 1) * s) % 18446744073709551616 / s, ?_⟩
      rw [hoff]
      rcases hs with rfl | rfl | rfl | rfl <;> simp only [Nat.reducePow, Int.natCast_ediv] at * <;> omega
  · rintro ⟨hne, k, hk, he, hm⟩
    have : ¬ (index - base > mx - base) := by
      rw [hcmp, hd1, hd2]
      rcases hs with rfl | rfl | rfl | rfl <;> simp only [Nat.reducePow] at * <;> omega
    rw [if_neg this]
    congr 1
    apply BitVec.eq_of_toNat_eq
    rw [hoff, he]
    rcases hs with rfl | rfl | rfl | rfl <;> simp only [Nat.reducePow] at * <;> omega

/-! ## Memory -/

theorem store_outside (m : Mem) (off n v a : Nat) (h : a < off ∨ off + n ≤ a) :
    store m off n v a = m a := by
  induction n generalizing m off v with
  | zero => rfl
  | succ n ih =>
    simp only [store]
    rw [ih _ _ _ (by omega)]
    rw [if_neg (by omega)]

theorem load_congr (m m' : Mem) (off n : Nat)
    (h : ∀ a, off ≤ a → a < off + n → m a = m' a) : load m off n = load m' off n := by
  induction n generalizing off with
  | zero => rfl
  | succ n ih =>
    simp only [load]
    rw [h off (by omega) (by omega), ih (off + 1) (fun a h1 h2 => h a (by omega) (by omega))]

theorem load_store_same (m : Mem) (off n v : Nat) :
    load (store m off n v) off n = v % 256 ^ n := by
  induction n generalizing m off v with
  | zero => simp [load, Nat.mod_one]
  | succ n ih =>
    simp only [load, store]
    rw [ih, store_outside _ _ _ _ _ (by omega)]
    rw [if_pos rfl, BitVec.toNat_ofNat, show (256:Nat) ^ (n+1) = 256 * 256 ^ n by rw [Nat.pow_succ, Nat.mul_comm], Nat.mod_mul]

theorem load_store_disjoint (m : Mem) (off off' n n' v : Nat)
    (h : off + n ≤ off' ∨ off' + n' ≤ off) :
    load (store m off n v) off' n' = load m off' n' := by
  apply load_congr
  intro a h1 h2
  exact store_outside _ _ _ _ _ (by omega)

end Verif.Index
