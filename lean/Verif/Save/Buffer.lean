import Verif.Save.Model

/-!
# The buffers between objects and the file, and failures of writing
-/

namespace Verif.Save

/-! ## Writing -/

/-- `full_write`, save.c l. 819–838.  The answers of `write` come from a list, one per call: the number of
bytes that were written, 0, or -1 (`none`).  Answers the file, whether it went well and the answers that are
left; no answer left is taken as -1. -/
def fullWrite : List (Option Nat) → List Nat → List Nat → List Nat × Bool × List (Option Nat)
  | as, file, [] => (file, true, as)
  | [], file, _ :: _ => (file, false, [])
  | none :: as, file, _ :: _ => (file, false, as)
  | some 0 :: as, file, _ :: _ => (file, false, as)
  | some (n + 1) :: as, file, b :: bs => fullWrite as (file ++ (b :: bs).take (n + 1)) ((b :: bs).drop (n + 1))

/-- The state while writing: the file, the buffer, what `write` will answer.  `ok`
is false after the `longjmp`. -/
structure W where
  file : List Nat
  buf : List Nat
  answers : List (Option Nat)
  ok : Bool

/-- Write and note whether it failed. -/
def W.out (w : W) (bs : List Nat) : W :=
  if w.ok then
    let r := fullWrite w.answers w.file bs
    { w with file := r.1, ok := r.2.1, answers := r.2.2 }
  else w

/-- `buffer_write`, save.c l. 848–866, with a buffer of `size` bytes. -/
def bufferWrite (size : Nat) (w : W) (data : List Nat) : W :=
  if w.ok then
    let w1 := if w.buf.length + data.length > size then { w.out w.buf with buf := [] } else w
    if data.length > size then w1.out data else { w1 with buf := w1.buf ++ data }
  else w

/-- `buffer_write_flush`, save.c l. 840–846. -/
def flush (w : W) : W := { w.out w.buf with buf := [] }

/-- `_gst_save_to_file`, save.c l. 276–309, for the pieces that are written one after the other:
what it answers and the file that is there then.  The old file is removed first (`unlink`),
`opened` says whether the new one could be created. -/
def saveToFile (size : Nat) (opened : Bool) (answers : List (Option Nat)) (pieces : List (List Nat))
    (_old : Option (List Nat)) : Bool × Option (List Nat) :=
  if opened then
    let w := flush (pieces.foldl (bufferWrite size) ⟨[], [], answers, true⟩)
    if w.ok then (true, some w.file) else (false, none)
  else (false, none)

theorem fullWrite_ok : ∀ (as : List (Option Nat)) (file bs : List Nat), (fullWrite as file bs).2.1 = true →
    (fullWrite as file bs).1 = file ++ bs := by
  intro as file bs
  fun_induction fullWrite as file bs with
  | case1 => simp
  | case2 => simp
  | case3 => simp
  | case4 => simp
  | case5 n as file b bs ih =>
    intro h
    rw [ih h, List.append_assoc, List.take_append_drop]

theorem out_ok {w : W} {bs : List Nat} (h : (w.out bs).ok = true) : w.ok = true ∧ (w.out bs).file = w.file ++ bs ∧
    (w.out bs).buf = w.buf := by
  unfold W.out at *
  split at h
  · rename_i hk
    rw [if_pos hk]
    exact ⟨hk, fullWrite_ok _ _ _ h, rfl⟩
  · contradiction

theorem bufferWrite_ok {size : Nat} {w : W} {data : List Nat} (h : (bufferWrite size w data).ok = true) :
    w.ok = true ∧ (bufferWrite size w data).file ++ (bufferWrite size w data).buf = w.file ++ w.buf ++ data := by
  unfold bufferWrite at *
  by_cases hk : w.ok = true
  · rw [if_pos hk] at h ⊢
    refine ⟨hk, ?_⟩
    simp only [] at h ⊢
    by_cases h1 : w.buf.length + data.length > size
    · simp only [h1, if_true] at h ⊢
      by_cases h2 : data.length > size
      · simp only [h2, if_true] at h ⊢
        obtain ⟨a, b, c⟩ := out_ok h
        obtain ⟨a', b', c'⟩ := out_ok (w := w) (bs := w.buf) a
        rw [b, c]
        simp only [b', List.append_nil]
      · simp only [h2, if_false] at h ⊢
        obtain ⟨a', b', c'⟩ := out_ok (w := w) (bs := w.buf) h
        simp only [b', List.nil_append]
    · simp only [h1, if_false] at h ⊢
      by_cases h2 : data.length > size
      · exfalso; omega
      · simp only [h2, if_false, List.append_assoc]
  · rw [if_neg hk] at h; contradiction

theorem foldl_ok {size : Nat} : ∀ (pieces : List (List Nat)) (w : W), (pieces.foldl (bufferWrite size) w).ok = true →
    w.ok = true ∧ (pieces.foldl (bufferWrite size) w).file ++ (pieces.foldl (bufferWrite size) w).buf =
      w.file ++ w.buf ++ pieces.flatten
  | [], w, h => ⟨h, by simp⟩
  | d :: ds, w, h => by
    rw [List.foldl_cons] at h ⊢
    obtain ⟨a, b⟩ := foldl_ok ds _ h
    obtain ⟨a', b'⟩ := bufferWrite_ok a
    exact ⟨a', by rw [b, b', List.flatten_cons, List.append_assoc]⟩

/-- Saving answers true only if the whole image is in the file; if it answers false there is no
file.  Whatever the size of the buffer and whatever `write` answers. -/
theorem save_complete (size : Nat) (opened : Bool) (answers : List (Option Nat)) (pieces : List (List Nat))
    (old : Option (List Nat)) :
    let r := saveToFile size opened answers pieces old
    (r.1 = true → r.2 = some pieces.flatten) ∧ (r.1 = false → r.2 = none) := by
  unfold saveToFile
  cases opened with
  | false => simp
  | true =>
    simp only [if_true]
    split
    · rename_i h
      refine ⟨fun _ => ?_, by simp⟩
      unfold flush at h ⊢
      obtain ⟨a, b, c⟩ := out_ok h
      obtain ⟨-, e⟩ := foldl_ok pieces _ a
      simp only [b, e, List.append_nil, List.nil_append]
    · simp

/-- The buffer never holds more than its size, whatever is written. -/
theorem buffer_fits (size : Nat) (pieces : List (List Nat)) (answers : List (Option Nat)) :
    (pieces.foldl (bufferWrite size) ⟨[], [], answers, true⟩).buf.length ≤ size := by
  have key : ∀ (ps : List (List Nat)) (w : W), w.buf.length ≤ size → (ps.foldl (bufferWrite size) w).buf.length ≤ size := by
    intro ps
    induction ps with
    | nil => intro w h; exact h
    | cons d ds ih =>
      intro w h
      refine ih _ ?_
      have ho : ∀ (v : W) (bs : List Nat), (v.out bs).buf = v.buf := by
        intro v bs; unfold W.out; split <;> rfl
      unfold bufferWrite
      simp only []
      split
      · by_cases e1 : w.buf.length + d.length > size
        · simp only [e1, if_true]
          split
          · rw [ho]; simp
          · simp only [List.nil_append]; omega
        · simp only [e1, if_false]
          split
          · rw [ho]; exact h
          · simp only [List.length_append]; omega
      · exact h
  exact key pieces _ (by simp)

/-- Enough answers, all of which write something. -/
def Writes (as : List (Option Nat)) : Prop := ∀ a ∈ as, ∃ n, a = some (n + 1)

theorem fullWrite_enough : ∀ (as : List (Option Nat)) (file bs : List Nat), Writes as → bs.length ≤ as.length →
    (fullWrite as file bs).2.1 = true ∧ Writes (fullWrite as file bs).2.2 ∧
      as.length ≤ (fullWrite as file bs).2.2.length + bs.length := by
  intro as file bs
  fun_induction fullWrite as file bs with
  | case1 => intro h1 h2; exact ⟨rfl, h1, by simp⟩
  | case2 => intro h1 h2; simp at h2
  | case3 => intro h1 h2; obtain ⟨n, hn⟩ := h1 none List.mem_cons_self; simp at hn
  | case4 => intro h1 h2; obtain ⟨n, hn⟩ := h1 (some 0) List.mem_cons_self; simp at hn
  | case5 n as file b bs ih =>
    intro h1 h2
    have hd : ((b :: bs).drop (n + 1)).length = bs.length - n := by simp
    obtain ⟨a, c, d⟩ := ih (fun a ha => h1 a (List.mem_cons_of_mem _ ha)) (by
      rw [hd]; simp only [List.length_cons] at h2; omega)
    refine ⟨a, c, ?_⟩
    rw [hd] at d
    simp only [List.length_cons] at *
    omega

theorem out_enough {w : W} {bs : List Nat} (hk : w.ok = true) (h1 : Writes w.answers) (h2 : bs.length ≤ w.answers.length) :
    (w.out bs).ok = true ∧ Writes (w.out bs).answers ∧ w.answers.length ≤ (w.out bs).answers.length + bs.length := by
  unfold W.out
  rw [if_pos hk]
  exact fullWrite_enough _ _ _ h1 h2

theorem bufferWrite_enough {size : Nat} {w : W} {data : List Nat} (hk : w.ok = true) (h1 : Writes w.answers)
    (h2 : w.buf.length + data.length ≤ w.answers.length) :
    (bufferWrite size w data).ok = true ∧ Writes (bufferWrite size w data).answers ∧
      w.answers.length + (bufferWrite size w data).buf.length ≤
        (bufferWrite size w data).answers.length + w.buf.length + data.length := by
  unfold bufferWrite
  rw [if_pos hk]
  simp only []
  obtain ⟨a, b, c⟩ := out_enough (bs := w.buf) hk h1 (by omega)
  by_cases e1 : w.buf.length + data.length > size
  · simp only [e1, if_true]
    by_cases e2 : data.length > size
    · simp only [e2, if_true]
      obtain ⟨a', b', c'⟩ := out_enough (w := { w.out w.buf with buf := [] }) (bs := data) a b (by
        simp only []; omega)
      refine ⟨a', b', ?_⟩
      have : (W.out { w.out w.buf with buf := [] } data).buf = [] := (out_ok a').2.2
      rw [this]
      simp only [List.length_nil] at *
      omega
    · simp only [e2, if_false, List.nil_append]
      exact ⟨a, b, by omega⟩
  · simp only [e1, if_false]
    by_cases e2 : data.length > size
    · exfalso; omega
    · simp only [e2, if_false, List.length_append]
      exact ⟨hk, h1, by omega⟩

/-- If every `write` writes something, saving succeeds. -/
theorem save_succeeds (size : Nat) (answers : List (Option Nat)) (pieces : List (List Nat)) (old : Option (List Nat))
    (h1 : Writes answers) (h2 : pieces.flatten.length ≤ answers.length) :
    saveToFile size true answers pieces old = (true, some pieces.flatten) := by
  have key : ∀ (ps : List (List Nat)) (w : W), w.ok = true → Writes w.answers →
      w.buf.length + ps.flatten.length ≤ w.answers.length →
      (ps.foldl (bufferWrite size) w).ok = true ∧ Writes (ps.foldl (bufferWrite size) w).answers ∧
      (ps.foldl (bufferWrite size) w).buf.length ≤ (ps.foldl (bufferWrite size) w).answers.length := by
    intro ps
    induction ps with
    | nil => intro w a b c; exact ⟨a, b, by simpa using c⟩
    | cons d ds ih =>
      intro w a b c
      rw [List.flatten_cons, List.length_append] at c
      obtain ⟨a', b', c'⟩ := bufferWrite_enough (size := size) (data := d) a b (by omega)
      exact ih _ a' b' (by omega)
  obtain ⟨a, b, c⟩ := key pieces ⟨[], [], answers, true⟩ rfl h1 (by simpa using h2)
  obtain ⟨a', -, -⟩ := out_enough a b c
  have hok : (saveToFile size true answers pieces old).1 = true := by
    unfold saveToFile flush
    simp only [if_true]
    rw [if_pos a']
  have := (save_complete size true answers pieces old).1 hok
  exact Prod.ext hok this

example : saveToFile 4 true [some 1, some 9, some 2, some 9] [[1, 2, 3], [4, 5], [6, 7, 8, 9, 10]] none =
    (true, some [1, 2, 3, 4, 5, 6, 7, 8, 9, 10]) := by decide +kernel

/-- If saving fails the image that was there before is lost. -/
theorem failed_save_loses_old : ∃ old : List Nat, old ≠ [] ∧ saveToFile 4 true [none] [[1, 2]] (some old) = (false, none) :=
  ⟨[1], by decide, by decide⟩

/-! ## Reading -/

/-- The state while reading from a file that is not mapped: the buffer, which is an array that
keeps old bytes, the place in it, `file_pos`, and the place of the kernel in the file. -/
structure R where
  buf : List Nat
  pos : Nat
  filePos : Nat
  kernel : Nat

/-- `read (fd, buf, n)` at the place `at`, over an array with the bytes `old`. -/
def readInto (file : List Nat) (place n : Nat) (old : List Nat) : List Nat :=
  let got := (file.drop place).take n
  got ++ old.drop got.length

/-- `buffer_fill`, save.c l. 868–873; the buffer has `size` bytes. -/
def fill (size : Nat) (file : List Nat) (r : R) : R :=
  { r with buf := readInto file r.kernel size r.buf, pos := 0,
           kernel := min file.length (r.kernel + size) }

/-- `buffer_read`, save.c l. 924–954, without mapping; `size` is a power of two, so that
`numBytes & -buf_size` is the largest multiple below.  The bytes of the destination that a short `read` leaves
are 0 here. -/
def bufferRead (size : Nat) (file : List Nat) (r : R) (n : Nat) : List Nat × R :=
  if n > size - r.pos then
    let d1 := (r.buf.drop r.pos).take (size - r.pos)
    let n1 := n - (size - r.pos)
    let fp := r.filePos + size
    if n1 > size then
      let big := n1 / size * size
      let d2 := readInto file fp big (List.replicate big 0)
      let r2 := fill size file { r with filePos := fp + big, kernel := min file.length (fp + big) }
      (d1 ++ d2 ++ (r2.buf.drop 0).take (n1 - big), { r2 with pos := n1 - big })
    else
      let r2 := fill size file { r with filePos := fp }
      (d1 ++ (r2.buf.drop 0).take n1, { r2 with pos := n1 })
  else ((r.buf.drop r.pos).take n, { r with pos := r.pos + n })

/-- `buffer_read_init`, save.c l. 875–904. -/
def initRead (size : Nat) (file : List Nat) : R :=
  fill size file ⟨List.replicate size 0, 0, 0, 0⟩

/-- Read pieces one after the other. -/
def readAll (size : Nat) (file : List Nat) : R → List Nat → List (List Nat)
  | _, [] => []
  | r, n :: ns => (bufferRead size file r n).1 :: readAll size file (bufferRead size file r n).2 ns

/-- The pieces of a list. -/
def cut : List Nat → List Nat → List (List Nat)
  | _, [] => []
  | l, n :: ns => l.take n :: cut (l.drop n) ns

/-- What holds between reads: the buffer shows the file from `filePos` on. -/
structure RInv (size : Nat) (file : List Nat) (r : R) : Prop where
  len : r.buf.length = size
  shows : ∀ i, i < size → r.filePos + i < file.length → r.buf[i]? = file[r.filePos + i]?
  kernel : r.kernel = min file.length (r.filePos + size)
  pos : r.pos ≤ size

theorem take_eq_of {a b : List Nat} {n : Nat} (h : ∀ i, i < n → a[i]? = b[i]?) : a.take n = b.take n := by
  apply List.ext_getElem?
  intro i
  by_cases e : i < n
  · rw [List.getElem?_take_of_lt e, List.getElem?_take_of_lt e, h i e]
  · rw [List.getElem?_eq_none (by simp; omega), List.getElem?_eq_none (by simp; omega)]

theorem fill_inv {size : Nat} {file : List Nat} {r : R} (hl : r.buf.length = size)
    (hk : r.kernel = min file.length r.filePos) : RInv size file (fill size file r) := by
  have hg : ((file.drop r.kernel).take size).length = min size (file.length - r.kernel) := by simp
  refine ⟨?_, ?_, ?_, ?_⟩
  · simp only [fill, readInto, List.length_append, List.length_drop, hg]
    omega
  · intro i hi hlt
    simp only [fill, readInto] at *
    have hkk : r.kernel = r.filePos := by omega
    rw [List.getElem?_append_left (by rw [hg]; omega), List.getElem?_take_of_lt hi, List.getElem?_drop, hkk]
  · simp only [fill]
    omega
  · simp [fill]

theorem init_inv (size : Nat) (file : List Nat) : RInv size file (initRead size file) :=
  fill_inv (by simp) (by simp)

theorem shows_take {size : Nat} {file : List Nat} {r : R} (h : RInv size file r) {n : Nat} (hn : r.pos + n ≤ size)
    (hf : r.filePos + r.pos + n ≤ file.length) : (r.buf.drop r.pos).take n = (file.drop (r.filePos + r.pos)).take n := by
  apply take_eq_of
  intro i hi
  rw [List.getElem?_drop, List.getElem?_drop, h.shows (r.pos + i) (by omega) (by omega), Nat.add_assoc]

theorem bufferRead_spec {size : Nat} {file : List Nat} {r : R} (hs : 0 < size) (h : RInv size file r) {n : Nat}
    (hf : r.filePos + r.pos + n ≤ file.length) :
    (bufferRead size file r n).1 = (file.drop (r.filePos + r.pos)).take n ∧ RInv size file (bufferRead size file r n).2 ∧
      (bufferRead size file r n).2.filePos + (bufferRead size file r n).2.pos = r.filePos + r.pos + n := by
  have hp := h.pos
  unfold bufferRead
  by_cases h1 : n > size - r.pos
  · rw [if_pos h1]
    have hd1 : (r.buf.drop r.pos).take (size - r.pos) = (file.drop (r.filePos + r.pos)).take (size - r.pos) :=
      shows_take h (by omega) (by omega)
    have hsplit : ∀ m, size - r.pos ≤ m → (file.drop (r.filePos + r.pos)).take m =
        (file.drop (r.filePos + r.pos)).take (size - r.pos) ++ (file.drop (r.filePos + size)).take (m - (size - r.pos)) := by
      intro m hm
      conv => lhs; rw [show m = (size - r.pos) + (m - (size - r.pos)) by omega, List.take_add, List.drop_drop]
      rw [show r.filePos + r.pos + (size - r.pos) = r.filePos + size by omega]
    by_cases h2 : n - (size - r.pos) > size
    · simp only [h2, if_true]
      generalize hbig : (n - (size - r.pos)) / size * size = big
      have hb1 : big ≤ n - (size - r.pos) := by rw [← hbig]; exact Nat.div_mul_le_self _ _
      have hb2 : n - (size - r.pos) - big < size := by
        have := Nat.mod_lt (n - (size - r.pos)) hs
        have e := Nat.div_add_mod (n - (size - r.pos)) size
        rw [Nat.mul_comm, hbig] at e
        omega
      have hinv : RInv size file (fill size file { r with filePos := r.filePos + size + big, kernel := min file.length (r.filePos + size + big) }) :=
        fill_inv h.len rfl
      have hd2 : readInto file (r.filePos + size) big (List.replicate big 0) = (file.drop (r.filePos + size)).take big := by
        unfold readInto
        simp only [List.length_take, List.length_drop, List.drop_replicate]
        rw [show big - min big (file.length - (r.filePos + size)) = 0 by omega]
        simp
      have hd3 := shows_take hinv (n := n - (size - r.pos) - big) (by simp only [fill]; omega) (by simp only [fill]; omega)
      refine ⟨?_, ⟨hinv.len, hinv.shows, hinv.kernel, by simp only []; omega⟩, by simp only [fill]; omega⟩
      rw [hd1, hd2, hsplit n (by omega)]
      simp only [fill, Nat.add_zero] at hd3
      simp only [fill]
      rw [hd3, List.append_assoc]
      congr 1
      conv => rhs; rw [show n - (size - r.pos) = big + (n - (size - r.pos) - big) by omega, List.take_add, List.drop_drop]
    · simp only [h2, if_false]
      have hinv : RInv size file (fill size file { r with filePos := r.filePos + size }) :=
        fill_inv h.len (by simp only []; exact h.kernel)
      have hd3 := shows_take hinv (n := n - (size - r.pos)) (by simp only [fill]; omega) (by simp only [fill]; omega)
      refine ⟨?_, ⟨hinv.len, hinv.shows, hinv.kernel, by simp only []; omega⟩, by simp only [fill]; omega⟩
      rw [hd1, hsplit n (by omega)]
      simp only [fill, Nat.add_zero] at hd3
      simp only [fill]
      rw [hd3]
  · rw [if_neg h1]
    exact ⟨shows_take h (by omega) hf, ⟨h.len, h.shows, h.kernel, by simp only []; omega⟩, by simp only []; omega⟩

/-- Reading pieces through the buffer gives the pieces of the file, for every
file, size of the buffer and sequence of pieces that are in the file. -/
theorem read_exact {size : Nat} (hs : 0 < size) (file : List Nat) (ns : List Nat) (hn : ns.sum ≤ file.length) :
    readAll size file (initRead size file) ns = cut file ns := by
  have key : ∀ (ns : List Nat) (r : R), RInv size file r → r.filePos + r.pos + ns.sum ≤ file.length →
      readAll size file r ns = cut (file.drop (r.filePos + r.pos)) ns := by
    intro ns
    induction ns with
    | nil => intro r _ _; rfl
    | cons n ns ih =>
      intro r hr hle
      rw [List.sum_cons] at hle
      obtain ⟨a, b, c⟩ := bufferRead_spec hs hr (n := n) (by omega)
      rw [readAll, cut, a, ih _ b (by omega), c, List.drop_drop]
  have := key ns _ (init_inv size file) (by simpa [initRead, fill] using hn)
  simpa [initRead, fill] using this

example : readAll 4 [1, 2, 3, 4, 5, 6, 7, 8, 9, 10, 11, 12, 13, 14, 15] (initRead 4 [1, 2, 3, 4, 5, 6, 7, 8, 9, 10, 11, 12, 13, 14, 15])
    [3, 1, 9, 0, 2] = [[1, 2, 3], [4], [5, 6, 7, 8, 9, 10, 11, 12, 13], [], [14, 15]] := by decide +kernel

/-- A file that ends too early is not noticed: bytes that were read before are taken again. -/
theorem short_file_unnoticed :
    readAll 4 [1, 2, 3, 4, 5] (initRead 4 [1, 2, 3, 4, 5]) [4, 3] = [[1, 2, 3, 4], [5, 2, 3]] := by decide +kernel

end Verif.Save
