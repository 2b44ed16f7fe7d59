import Verif.Digest.Block

/-!
# Message digests: feeding text in pieces
-/

namespace Verif.Digest

variable {S : Type}

theorem has_init (f : S → List Nat → S) (s0 : S) (b : List Nat) (hb : b.length = 128) :
    Has f s0 ⟨s0, 0, 0, 0, b⟩ [] [] :=
  ⟨rfl, rfl, by simp, by simp, by simp, rfl, by simp, hb, rfl⟩

/-- Bytes that go into the buffer. -/
theorem Has.copy {f : S → List Nat → S} {s0 : S} {c : Ctx S} {pre tl data : List Nat} (h : Has f s0 c pre tl)
    (hd : tl.length + data.length ≤ 128) :
    (memcpy c.buffer c.buflen data).length = 128 ∧
    (memcpy c.buffer c.buflen data).take (tl ++ data).length = tl ++ data := by
  have hs := h.size
  rw [h.buflen]
  refine ⟨by rw [memcpy_length (by omega), hs], ?_⟩
  rw [List.length_append, memcpy_take (by omega), h.buffer]

theorem take_split (l : List Nat) (n k : Nat) :
    l.take (n + k) = l.take n ++ (l.drop n).take k := by
  rw [List.take_add]

/-- The buffer after the bytes that were processed have been dropped. -/
theorem front {b : List Nat} {n r : Nat} (hb : b.length = 128) (hn : n + r ≤ 128) (hr : r ≤ 64) :
    (memcpy b 0 ((b.drop n).take r)).length = 128 ∧
    (memcpy b 0 ((b.drop n).take r)).take r = (b.drop n).take r := by
  have hl : ((b.drop n).take r).length = r := by
    rw [List.length_take, List.length_drop]
    omega
  refine ⟨by rw [memcpy_length (by omega), hb], ?_⟩
  have := memcpy_take (b := b) (pos := 0) (d := (b.drop n).take r) (by omega)
  rw [hl, Nat.zero_add] at this
  rw [this]
  rfl

/-- The first part of `md5_process_bytes`: afterwards the buffer is empty or there is nothing left. -/
theorem md5Fill_has {f : S → List Nat → S} {s0 : S} {c : Ctx S} {pre tl data : List Nat} (h : Has f s0 c pre tl) :
    ∃ pre' tl', Has f s0 (md5Fill f c data).1 pre' tl' ∧
      pre' ++ tl' ++ (md5Fill f c data).2 = pre ++ tl ++ data ∧ (tl' = [] ∨ (md5Fill f c data).2 = []) ∧
      (md5Fill f c data).2.length ≤ data.length := by
  unfold md5Fill
  have hbl := h.buflen
  have hsm := h.small
  by_cases hz : c.buflen ≠ 0
  · rw [if_pos hz]
    dsimp only
    have hadd : ∃ add, (if 128 - c.buflen > data.length then data.length else 128 - c.buflen) = add ∧
        add ≤ data.length ∧ c.buflen + add ≤ 128 ∧ (add = data.length ∨ c.buflen + add = 128) := by
      refine ⟨_, rfl, ?_⟩
      split <;> omega
    obtain ⟨add, hadd, h1, h2, h3⟩ := hadd
    rw [hadd]
    have htl : (data.take add).length = add := by rw [List.length_take]; omega
    obtain ⟨hc1, hc2⟩ := h.copy (data := data.take add) (by omega)
    rw [List.length_append, htl] at hc2
    by_cases hbig : c.buflen + add > 64
    · rw [if_pos hbig]
      let c1 : Ctx S := ⟨c.st, c.total0, c.total1, c.buflen + add, memcpy c.buffer c.buflen (data.take add)⟩
      obtain ⟨n, hn⟩ : ∃ n, c.buflen + add - (c.buflen + add) % 64 = 64 * n := ⟨(c.buflen + add) / 64, by omega⟩
      have hn2 : 64 * n + (c.buflen + add) % 64 = c.buflen + add := by omega
      rw [hn]
      have hh : Has f s0 { c1 with buflen := c.buflen, buffer := c.buffer } pre tl := by
        have : ({ c1 with buflen := c.buflen, buffer := c.buffer } : Ctx S) = c := rfl
        rw [this]
        exact h
      obtain ⟨g1, g2, g3, g4, _, _, g7⟩ := h.block (data := c1.buffer) (n := n) (by
        show 64 * n ≤ (memcpy c.buffer c.buflen (data.take add)).length
        omega) (by simp only [Nat.reducePow]; omega)
      obtain ⟨k1, k2⟩ := front (n := 64 * n) (r := (c.buflen + add) % 64) hc1 (by omega) (by omega)
      have hlr : (((c1.buffer.drop (64 * n)).take ((c.buflen + add) % 64))).length = (c.buflen + add) % 64 := by
        rw [List.length_take, List.length_drop]
        show min _ ((memcpy c.buffer c.buflen (data.take add)).length - _) = _
        omega
      refine ⟨pre ++ c1.buffer.take (64 * n), (c1.buffer.drop (64 * n)).take ((c.buflen + add) % 64),
        ⟨g7, g1, g2, g3, g4, hlr.symm, by rw [hlr]; omega, k1, by rw [hlr]; exact k2⟩, ?_, ?_, ?_⟩
      · have : c1.buffer.take (64 * n) ++ (c1.buffer.drop (64 * n)).take ((c.buflen + add) % 64) =
            tl ++ data.take add := by
          rw [← take_split, hn2, hbl]
          exact hc2
        rw [List.append_assoc, List.append_assoc, ← List.append_assoc (c1.buffer.take _), this]
        simp [List.append_assoc]
      · rcases h3 with h3 | h3
        · exact Or.inr (List.drop_eq_nil_of_le (by omega))
        · left
          rw [h3]
          rfl
      · rw [List.length_drop]
        omega
    · rw [if_neg hbig]
      refine ⟨pre, tl ++ data.take add, ⟨h.whole, h.st, h.total, h.lt0, h.lt1, ?_, ?_, hc1, ?_⟩, ?_, ?_, ?_⟩
      · rw [List.length_append, htl, hbl]
      · rw [List.length_append, htl]
        omega
      · rw [List.length_append, htl]
        exact hc2
      · simp [List.append_assoc]
      · exact Or.inr (List.drop_eq_nil_of_le (by omega))
      · rw [List.length_drop]
        omega
  · rw [if_neg hz]
    exact ⟨pre, tl, h, rfl, Or.inl (List.eq_nil_of_length_eq_zero (by omega)), Nat.le_refl _⟩

/-- Data that goes to the beginning of the buffer. -/
theorem fresh_buffer {b d : List Nat} (hb : b.length = 128) (hd : d.length ≤ 64) :
    (memcpy b 0 d).length = 128 ∧ (memcpy b 0 d).take d.length = d := by
  refine ⟨by rw [memcpy_length (by omega), hb], ?_⟩
  have := memcpy_take (b := b) (pos := 0) (d := d) (by omega)
  rw [Nat.zero_add] at this
  rw [this]
  rfl

theorem md5Rest_has {f : S → List Nat → S} {s0 : S} {c : Ctx S} {pre tl data : List Nat} (h : Has f s0 c pre tl)
    (hz : tl = [] ∨ data = []) (hlen : data.length < 2 ^ 32) :
    ∃ pre' tl', Has f s0 (md5Rest f c data) pre' tl' ∧ pre' ++ tl' = pre ++ tl ++ data := by
  unfold md5Rest
  by_cases hd : data = []
  · subst hd
    exact ⟨pre, tl, h, by simp⟩
  · have htl : tl = [] := by
      rcases hz with hz | hz
      · exact hz
      · exact absurd hz hd
    subst htl
    have hpos := List.length_pos_iff.mpr hd
    by_cases hbig : data.length > 64
    · rw [if_pos hbig]
      dsimp only
      obtain ⟨n, hn⟩ : ∃ n, data.length - data.length % 64 = 64 * n := ⟨data.length / 64, by omega⟩
      rw [hn]
      simp only [Nat.reducePow] at hlen
      obtain ⟨g1, g2, g3, g4, g5, g6, g7⟩ := h.block (data := data) (n := n) (by omega)
        (by simp only [Nat.reducePow]; omega)
      by_cases hr : (data.drop (64 * n)).length > 0
      · rw [if_pos hr]
        have hl : (data.drop (64 * n)).length ≤ 64 := by rw [List.length_drop]; omega
        obtain ⟨k1, k2⟩ := fresh_buffer (b := (processBlock f c data (64 * n)).buffer) (by rw [g6]; exact h.size) hl
        refine ⟨pre ++ data.take (64 * n), data.drop (64 * n), ⟨g7, g1, g2, g3, g4, rfl, hl, k1, k2⟩, ?_⟩
        simp
      · rw [if_neg hr]
        have hnil : data.drop (64 * n) = [] := List.eq_nil_of_length_eq_zero (by omega)
        refine ⟨pre ++ data.take (64 * n), [], ⟨g7, g1, g2, g3, g4, by rw [g5]; exact h.buflen, h.small, ?_, rfl⟩, ?_⟩
        · rw [g6]
          exact h.size
        · have := List.take_append_drop (64 * n) data
          rw [hnil, List.append_nil] at this
          rw [this]
          simp
    · rw [if_neg hbig]
      dsimp only
      rw [if_pos hpos]
      obtain ⟨k1, k2⟩ := fresh_buffer (b := c.buffer) (d := data) h.size (by omega)
      exact ⟨pre, data, ⟨h.whole, h.st, h.total, h.lt0, h.lt1, rfl, by omega, k1, k2⟩, by simp⟩

/-- `md5_process_bytes` adds the data to the text. -/
theorem md5Bytes_has {f : S → List Nat → S} {s0 : S} {c : Ctx S} {pre tl data : List Nat} (h : Has f s0 c pre tl)
    (hlen : data.length < 2 ^ 32) :
    ∃ pre' tl', Has f s0 (md5Bytes f c data) pre' tl' ∧ pre' ++ tl' = pre ++ tl ++ data := by
  obtain ⟨p1, t1, h1, h2, h3, h4⟩ := md5Fill_has (data := data) h
  obtain ⟨p2, t2, g1, g2⟩ := md5Rest_has h1 h3 (Nat.lt_of_le_of_lt h4 hlen)
  exact ⟨p2, t2, g1, g2.trans h2⟩

/-! ### SHA-1 -/

theorem sha1Fill_eq (f : S → List Nat → S) (c : Ctx S) (data : List Nat) : sha1Fill f c data = md5Fill f c data := by
  unfold sha1Fill md5Fill processBlock count
  rfl

theorem unaligned_has {f : S → List Nat → S} {s0 : S} (n : Nat) {c : Ctx S} {pre data : List Nat}
    (h : Has f s0 c pre []) (hn : data.length ≤ n + 64) :
    ∃ pre', Has f s0 (unaligned f n c data).1 pre' [] ∧ pre' ++ (unaligned f n c data).2 = pre ++ data ∧
      (unaligned f n c data).2.length ≤ 64 := by
  induction n generalizing c pre data with
  | zero => exact ⟨pre, h, rfl, by unfold unaligned; omega⟩
  | succ n ih =>
    unfold unaligned
    by_cases hbig : data.length > 64
    · rw [if_pos hbig]
      dsimp only
      have htl : (data.take 64).length = 64 := by rw [List.length_take]; omega
      obtain ⟨k1, k2⟩ := fresh_buffer (b := c.buffer) (d := data.take 64) h.size (by omega)
      have hc : Has f s0 { c with buffer := memcpy c.buffer 0 (data.take 64) } pre [] :=
        ⟨h.whole, h.st, h.total, h.lt0, h.lt1, h.buflen, h.small, k1, rfl⟩
      obtain ⟨g1, g2, g3, g4, g5, g6, g7⟩ := hc.block (data := memcpy c.buffer 0 (data.take 64)) (n := 1)
        (by omega) (by decide)
      rw [htl] at k2
      rw [Nat.mul_one, k2] at g1 g2 g7
      rw [Nat.mul_one] at g3 g4 g5 g6
      obtain ⟨p, i1, i2, i3⟩ := ih (c := processBlock f { c with buffer := memcpy c.buffer 0 (data.take 64) }
          (memcpy c.buffer 0 (data.take 64)) 64) (data := data.drop 64)
        ⟨g7, g1, g2, g3, g4, by rw [g5]; exact h.buflen, h.small, by rw [g6]; exact k1, rfl⟩
        (by rw [List.length_drop]; omega)
      refine ⟨p, i1, i2.trans ?_, i3⟩
      rw [List.append_assoc, List.take_append_drop]
    · rw [if_neg hbig]
      exact ⟨pre, h, rfl, by show data.length ≤ 64; omega⟩

/-- The last part of `sha1_process_bytes`, with at most 64 bytes left. -/
theorem sha1_tail {f : S → List Nat → S} {s0 : S} {c : Ctx S} {pre data : List Nat} (h : Has f s0 c pre [])
    (hd : data.length ≤ 64) :
    ∃ pre' tl', Has f s0
      (if data.length > 0 then
        let left := c.buflen
        let c := { c with buffer := memcpy c.buffer left data }
        let left := left + data.length
        if left ≥ 64 then
          let c := processBlock f c c.buffer 64
          let left := left - 64
          { c with buffer := memcpy c.buffer 0 ((c.buffer.drop 64).take left), buflen := left }
        else { c with buflen := left }
      else c) pre' tl' ∧ pre' ++ tl' = pre ++ data := by
  have hb := h.buflen
  obtain ⟨st, t0, t1, bl, buf⟩ := c
  rw [List.length_nil] at hb
  dsimp only at hb
  subst hb
  by_cases hpos : data.length > 0
  · rw [if_pos hpos]
    dsimp only
    rw [Nat.zero_add]
    obtain ⟨k1, k2⟩ := fresh_buffer (b := buf) (d := data) h.size (by omega)
    have hc : Has f s0 (⟨st, t0, t1, 0, memcpy buf 0 data⟩ : Ctx S) pre [] :=
      ⟨h.whole, h.st, h.total, h.lt0, h.lt1, h.buflen, h.small, k1, rfl⟩
    by_cases hbig : data.length ≥ 64
    · rw [if_pos hbig]
      have h64 : data.length = 64 := by omega
      obtain ⟨g1, g2, g3, g4, g5, g6, g7⟩ := hc.block (data := memcpy buf 0 data) (n := 1) (by omega) (by decide)
      rw [h64] at k2
      rw [Nat.mul_one, k2] at g1 g2 g7
      rw [Nat.mul_one] at g3 g4 g5 g6
      have hnil : List.take (data.length - 64) (List.drop 64 (processBlock f
          (⟨st, t0, t1, 0, memcpy buf 0 data⟩ : Ctx S) (memcpy buf 0 data) 64).buffer) = [] := by
        rw [h64]
        rfl
      rw [hnil]
      refine ⟨pre ++ data, [], ⟨g7, g1, g2, g3, g4, by show data.length - 64 = 0; omega, by decide, ?_, rfl⟩, by simp⟩
      rw [memcpy_length (by simp), g6]
      exact k1
    · rw [if_neg hbig]
      exact ⟨pre, data, ⟨h.whole, h.st, h.total, h.lt0, h.lt1, rfl, hd, k1, k2⟩, rfl⟩
  · rw [if_neg hpos]
    have : data = [] := List.eq_nil_of_length_eq_zero (by omega)
    subst this
    exact ⟨pre, [], h, rfl⟩

theorem sha1Rest_has {f : S → List Nat → S} {s0 : S} {aligned : Bool} {c : Ctx S} {pre tl data : List Nat}
    (h : Has f s0 c pre tl) (hz : tl = [] ∨ data = []) (hlen : data.length < 2 ^ 32) :
    ∃ pre' tl', Has f s0 (sha1Rest f aligned c data) pre' tl' ∧ pre' ++ tl' = pre ++ tl ++ data := by
  unfold sha1Rest
  by_cases hd : data = []
  · subst hd
    exact ⟨pre, tl, h, by simp⟩
  · have htl : tl = [] := by
      rcases hz with hz | hz
      · exact hz
      · exact absurd hz hd
    subst htl
    rw [List.append_nil]
    simp only [Nat.reducePow] at hlen
    by_cases hbig : data.length ≥ 64
    · rw [if_pos hbig]
      cases aligned with
      | true =>
        rw [if_pos rfl]
        obtain ⟨n, hn⟩ : ∃ n, data.length - data.length % 64 = 64 * n := ⟨data.length / 64, by omega⟩
        rw [hn]
        obtain ⟨g1, g2, g3, g4, g5, g6, g7⟩ := h.block (data := data) (n := n) (by omega)
          (by simp only [Nat.reducePow]; omega)
        have hc : Has f s0 (processBlock f c data (64 * n)) (pre ++ data.take (64 * n)) [] :=
          ⟨g7, g1, g2, g3, g4, by rw [g5]; exact h.buflen, h.small, by rw [g6]; exact h.size, rfl⟩
        obtain ⟨p, t, i1, i2⟩ := sha1_tail hc (data := data.drop (64 * n)) (by rw [List.length_drop]; omega)
        refine ⟨p, t, i1, i2.trans ?_⟩
        rw [List.append_assoc, List.take_append_drop]
      | false =>
        rw [if_neg (by decide)]
        obtain ⟨p, i1, i2, i3⟩ := unaligned_has data.length h (data := data) (by omega)
        obtain ⟨p2, t2, j1, j2⟩ := sha1_tail i1 i3
        exact ⟨p2, t2, j1, j2.trans i2⟩
    · rw [if_neg hbig]
      exact sha1_tail h (by omega)

/-- `sha1_process_bytes` adds the data to the text. -/
theorem sha1Bytes_has {f : S → List Nat → S} {s0 : S} {aligned : Bool} {c : Ctx S} {pre tl data : List Nat}
    (h : Has f s0 c pre tl) (hlen : data.length < 2 ^ 32) :
    ∃ pre' tl', Has f s0 (sha1Bytes f aligned c data) pre' tl' ∧ pre' ++ tl' = pre ++ tl ++ data := by
  unfold sha1Bytes
  rw [sha1Fill_eq]
  obtain ⟨p1, t1, h1, h2, h3, h4⟩ := md5Fill_has (data := data) h
  obtain ⟨p2, t2, g1, g2⟩ := sha1Rest_has (aligned := aligned) h1 h3 (Nat.lt_of_le_of_lt h4 hlen)
  exact ⟨p2, t2, g1, g2.trans h2⟩

end Verif.Digest
