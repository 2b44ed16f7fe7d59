import Verif.Save.Theorems

/-! # An image, and images that are not loaded right -/

namespace Verif.Save

/-- A small machine: a low and a high byte order, tables at different places. -/
def here : Machine := ⟨false, 1024, 3, [1, 2, 3, 4, 5, 6], [7, 8]⟩
def other : Machine := ⟨true, 1024, 3, [1, 2, 3, 4, 5, 6], [7, 8]⟩
def away : Machine := ⟨true, 4096, 3, [1, 2, 3, 4, 5, 6], [7, 8]⟩

def knowns : Known := ⟨16, 1, 1, 1, 1, 1⟩

/-- A class of classes, a class of words (`FloatD` and the like), an object of this class with one word, a free
entry, an object that refers to it, to `nil` and to a SmallInteger, a free entry. -/
def image : Heap :=
  [ some ⟨0, [13, 1024, 16, 1, 32769, 16]⟩,
    some ⟨0, [13, 1024, 16, 1, 37, 16]⟩,
    some ⟨8, [7, 1040, 0x0807060504030201]⟩,
    none,
    some ⟨0, [11, 1024, 1056, 16, 85]⟩,
    none ]

theorem image_sound : Sound 1024 image := by
  intro i o h
  have hi : i < 6 := (List.getElem?_eq_some_iff.mp h).1
  have k0 : image[0]? = some (some ⟨0, [13, 1024, 16, 1, 32769, 16]⟩) := rfl
  have k1 : image[1]? = some (some ⟨0, [13, 1024, 16, 1, 37, 16]⟩) := rfl
  rcases i with _ | _ | _ | _ | _ | _ | i
  · cases h
    exact ⟨by decide, by decide, by decide, rfl, _, 32769, ⟨0, rfl, k0, rfl⟩, rfl, by decide, rfl,
      fun _ hc => absurd hc (by unfold Scalar; omega), fun hc => absurd rfl hc⟩
  · cases h
    exact ⟨by decide, by decide, by decide, rfl, _, 32769, ⟨0, rfl, k0, rfl⟩, rfl, by decide, rfl,
      fun _ hc => absurd hc (by unfold Scalar; omega), fun hc => absurd rfl hc⟩
  · cases h
    exact ⟨by decide, by decide, by decide, rfl, _, 37, ⟨1, rfl, k1, rfl⟩, rfl, by decide, rfl,
      fun hc => absurd hc (by decide), fun _ => by unfold Scalar; omega⟩
  · cases h
  · cases h
    exact ⟨by decide, by decide, by decide, rfl, _, 32769, ⟨0, rfl, k0, rfl⟩, rfl, by decide, rfl,
      fun _ hc => absurd hc (by unfold Scalar; omega), fun hc => absurd rfl hc⟩
  · cases h
  · omega

/-- The hypotheses of `load_save_partial` can be met, on a machine of the other byte order. -/
example : ∃ h', load away true (save here knowns 4 0 image) = .ok h' ∧
    (∀ (i : Nat) (o : Obj), (fixAll knowns 4 image 1024)[i]? = some (some o) →
      ∃ o' n, h'[i]? = some (some o') ∧ Pointers (fixAll knowns 4 image 1024) 1024 o n ∧ SameObj here away n o o') ∧
    (∀ i : Nat, image[i]?.join = none → h'[i]?.join = none) :=
  load_save_partial image_sound (by decide) (by decide) (by decide) rfl rfl (by decide) (by decide) (by decide)
    (by decide) (by decide) (by decide) (by decide)

/-- What is loaded there. -/
example : load away true (save here knowns 4 0 image) = .ok
    [ some ⟨256, [13, 4096, 3088, 1, 32769, 3088]⟩,
      some ⟨256, [13, 4096, 3088, 1, 37, 3088]⟩,
      some ⟨264, [7, 4112, 0x0102030405060708]⟩,
      none,
      some ⟨256, [11, 4096, 4128, 3088, 85]⟩ ] := by decide +kernel

/-- An image of the other byte order cannot be loaded at its old address when it is mapped into memory:
`~wrong_endianness` is true for both byte orders, so that the objects are not converted. -/
theorem wrong_order_crash : Sound other.base image ∧ load here true (save other knowns 4 0 image) = .crash ∧
    load here false (save other knowns 4 0 image) ≠ .crash :=
  ⟨image_sound, by decide +kernel, by decide +kernel⟩

/-- `!wrong_endianness` would always be right. -/
theorem lnot_always (b : Bool) : lnot b = true := by cases b <;> rfl

/-- Elements that are wider than a byte are other numbers on a machine of the other byte order: the word of the
third object of `image` (the address of a `CObject`, say) has changed. -/
theorem double_wrong : ∃ (h' : Heap) (o o' : Obj), Sound here.base image ∧
    load away true (save here knowns 4 0 image) = .ok h' ∧ image[2]? = some (some o) ∧ h'[2]? = some (some o') ∧
    o.words[2]? = some 0x0807060504030201 ∧ o'.words[2]? = some 0x0102030405060708 :=
  ⟨[ some ⟨256, [13, 4096, 3088, 1, 32769, 3088]⟩,
      some ⟨256, [13, 4096, 3088, 1, 37, 3088]⟩,
      some ⟨264, [7, 4112, 0x0102030405060708]⟩,
      none,
      some ⟨256, [11, 4096, 4128, 3088, 85]⟩ ], ⟨8, [7, 1040, 0x0807060504030201]⟩,
    ⟨264, [7, 4112, 0x0102030405060708]⟩, image_sound, by decide +kernel, rfl, rfl, rfl, rfl⟩

/-- Objects that were loaded by mapping the file (`F_LOADED`) and are saved again and then loaded elsewhere are still marked
as loaded, although they are in old space now: the sweep never gives their memory back
(libgst/oop.c l. 1462–1470) and the compactor does not move them (l. 1042). -/
theorem loaded_flag_kept : ∃ (h1 h2 : Heap) (o : Obj),
    load here true (save here knowns 4 0 image) = .ok h1 ∧ load away false (save here knowns 4 0 h1) = .ok h2 ∧
    h2[4]? = some (some o) ∧ o.flags.testBit 11 = true :=
  ⟨[ some ⟨2304, [13, 1024, 16, 1, 32769, 16]⟩,
      some ⟨2304, [13, 1024, 16, 1, 37, 16]⟩,
      some ⟨2312, [7, 1040, 0x0807060504030201]⟩,
      none,
      some ⟨2304, [11, 1024, 1056, 16, 85]⟩ ],
    [ some ⟨2304, [13, 4096, 3088, 1, 32769, 3088]⟩,
      some ⟨2304, [13, 4096, 3088, 1, 37, 3088]⟩,
      some ⟨2312, [7, 4112, 0x0102030405060708]⟩,
      none,
      some ⟨2304, [11, 4096, 4128, 3088, 85]⟩ ],
    ⟨2304, [11, 4096, 4128, 3088, 85]⟩, by decide +kernel, by decide +kernel, rfl, by decide +kernel⟩

end Verif.Save
