import Verif.Digest.Feed

/-!
# Message digests: the end of the text
-/

namespace Verif.Digest

variable {S : Type}

/-- The length as it is written at the end. -/
theorem length_bytes {c : Ctx S} {n : Nat} (ht : c.total1 * 2 ^ 32 + c.total0 = n % 2 ^ 64) (h0 : c.total0 < 2 ^ 32)
    (_h1 : c.total1 < 2 ^ 32) : high c * 2 ^ 32 + low c = n * 8 % 2 ^ 64 ∧ low c < 2 ^ 32 ∧ high c < 2 ^ 32 := by
  have hor : c.total1 * 8 % 2 ^ 32 ||| c.total0 / 2 ^ 29 = c.total1 * 8 % 2 ^ 32 + c.total0 / 2 ^ 29 := by
    have h8 : c.total1 * 8 % 2 ^ 32 = 2 ^ 3 * (c.total1 % 2 ^ 29) := by
      simp only [Nat.reducePow] at *
      omega
    rw [h8]
    exact (Nat.two_pow_add_eq_or_of_lt (by simp only [Nat.reducePow] at *; omega) _).symm
  unfold high low
  rw [hor]
  simp only [Nat.reducePow] at *
  omega

theorem le64_split {h l n : Nat} (hn : h * 2 ^ 32 + l = n) (hl : l < 2 ^ 32) (_hh : h < 2 ^ 32) :
    le64 n = le32 l ++ le32 h := by
  subst hn
  simp only [le64, le32, show List.range 8 = [0, 1, 2, 3, 4, 5, 6, 7] from rfl, List.map_cons, List.map_nil,
    List.cons_append, List.nil_append, Nat.reducePow, List.cons.injEq, and_true] at *
  omega

theorem be64_split {h l n : Nat} (hn : h * 2 ^ 32 + l = n) (hl : l < 2 ^ 32) (hh : h < 2 ^ 32) :
    be64 n = be32 h ++ be32 l := by
  unfold be64
  rw [le64_split hn hl hh]
  rfl

theorem fillbuf_take {n : Nat} (h0 : 0 < n) (h : n ≤ 64) : fillbuf.take n = 0x80 :: List.replicate (n - 1) 0 := by
  unfold fillbuf
  cases n with
  | zero => omega
  | succ n =>
    rw [List.take_succ_cons, List.take_replicate, Nat.min_eq_left (by omega)]
    rfl

theorem padded_eq (enc : Nat → List Nat) {pre tl : List Nat} (hp : pre.length % 64 = 0) (pad : Nat)
    (hpad : pad = if tl.length ≥ 56 then 64 + 56 - tl.length else 56 - tl.length) (h : tl.length ≤ 64) :
    padded enc (pre ++ tl) = pre ++ (tl ++ fillbuf.take pad ++ enc ((pre ++ tl).length * 8 % 2 ^ 64)) := by
  have hr : 0 < pad ∧ pad ≤ 64 := by split at hpad <;> omega
  have hn : (119 - (pre ++ tl).length % 64) % 64 = pad - 1 := by
    rw [List.length_append]
    split at hpad <;> omega
  unfold padded
  rw [fillbuf_take hr.1 hr.2, hn]
  simp [List.append_assoc]

/-- Writing behind what has been written. -/
theorem memcpy_next {b x d : List Nat} {n : Nat} (hb : b.length = 128) (hx : b.take n = x) (hn : n = x.length)
    (hd : x.length + d.length ≤ 128) :
    (memcpy b n d).length = 128 ∧ (memcpy b n d).take (x ++ d).length = x ++ d := by
  subst hn
  refine ⟨by rw [memcpy_length (by omega), hb], ?_⟩
  rw [List.length_append, memcpy_take (by omega), hx]

theorem le32_length (w : Nat) : (le32 w).length = 4 := rfl
theorem be32_length (w : Nat) : (be32 w).length = 4 := rfl

/-- `md5_finish_ctx` applies the function to the padded text. -/
theorem md5Finish_has {f : S → List Nat → S} {s0 : S} {c : Ctx S} {pre tl : List Nat} (h : Has f s0 c pre tl) :
    (md5Finish f c).st = absorb f s0 (padded le64 (pre ++ tl)) := by
  unfold md5Finish
  dsimp only
  have hb := h.buflen
  have hs := h.small
  obtain ⟨pad, hpad⟩ : ∃ pad, (if c.buflen ≥ 56 then 64 + 56 - c.buflen else 56 - c.buflen) = pad := ⟨_, rfl⟩
  rw [hpad]
  have hpad' := hpad
  rw [hb] at hpad'
  have hr : 0 < pad ∧ pad ≤ 64 ∧ tl.length + pad ≤ 120 ∧ (tl.length + pad) % 64 = 56 := by split at hpad' <;> omega
  have hfl : (fillbuf.take pad).length = pad := by
    rw [List.length_take]
    show min pad 64 = pad
    omega
  obtain ⟨ht, h0, h1⟩ := count_total (len := c.buflen) h.total h.lt0 h.lt1
    (by simp only [Nat.reducePow]; omega)
  obtain ⟨hl1, hl2, hl3⟩ := length_bytes ht h0 h1
  rw [padded_eq le64 h.whole pad hpad'.symm h.small]
  rw [show (pre ++ tl).length = pre.length + c.buflen by rw [List.length_append, hb]]
  rw [le64_split hl1 hl2 hl3]
  -- the buffer
  obtain ⟨a1, a2⟩ := memcpy_next (d := fillbuf.take pad) (n := c.buflen) h.size (by rw [hb]; exact h.buffer) hb
    (by omega)
  obtain ⟨b1, b2⟩ := memcpy_next (x := tl ++ fillbuf.take pad) (d := le32 (low (count c c.buflen)))
    (n := c.buflen + pad) a1 (by rw [← a2, List.length_append, hfl, hb])
    (by rw [List.length_append, hfl, hb]) (by rw [List.length_append, hfl, le32_length]; omega)
  obtain ⟨c1, c2⟩ := memcpy_next (x := tl ++ fillbuf.take pad ++ le32 (low (count c c.buflen)))
    (d := le32 (high (count c c.buflen))) (n := c.buflen + pad + 4) b1
    (by
      have : c.buflen + pad + 4 = (tl ++ fillbuf.take pad ++ le32 (low (count c c.buflen))).length := by
        rw [List.length_append, List.length_append, hfl, hb, le32_length]
      rw [this]
      exact b2)
    (by rw [List.length_append, List.length_append, hfl, hb, le32_length])
    (by rw [List.length_append, List.length_append, hfl, le32_length, le32_length]; omega)
  generalize hB : memcpy (memcpy (memcpy c.buffer c.buflen (fillbuf.take pad)) (c.buflen + pad)
    (le32 (low (count c c.buflen)))) (c.buflen + pad + 4) (le32 (high (count c c.buflen))) = B at c1 c2
  have hlen : (tl ++ fillbuf.take pad ++ le32 (low (count c c.buflen)) ++ le32 (high (count c c.buflen))).length =
      c.buflen + pad + 8 := by
    rw [List.length_append, List.length_append, List.length_append, hfl, hb, le32_length, le32_length]
  rw [hlen] at c2
  obtain ⟨n, hn⟩ : ∃ n, c.buflen + pad + 8 = 64 * n := ⟨(c.buflen + pad + 8) / 64, by omega⟩
  unfold processBlock
  dsimp only
  show blocks f _ c.st (memcpy (memcpy (memcpy c.buffer c.buflen (fillbuf.take pad)) (c.buflen + pad)
    (le32 (low (count c c.buflen)))) (c.buflen + pad + 4) (le32 (high (count c c.buflen)))) = _
  rw [hB, hn, Nat.mul_div_cancel_left _ (by omega : 0 < 64), blocks_take f n _ _ (by omega), ← hn, c2, h.st,
    ← absorb_append f s0 pre _ h.whole]
  simp [List.append_assoc]

/-- Reading what was written before, when something is written in front of it. -/
theorem memcpy_keep {b x y d : List Nat} {n : Nat} (hb : b.length = 128) (hx : b.take n = x) (hn : n = x.length)
    {z : List Nat} (hy : (b.drop (n + z.length)).take y.length = y) (hz : z = d)
    (hd : x.length + z.length + y.length ≤ 128) :
    (memcpy b n d).length = 128 ∧ (memcpy b n d).take (x ++ d ++ y).length = x ++ d ++ y := by
  subst hz hn
  refine ⟨by rw [memcpy_length (by omega), hb], ?_⟩
  unfold memcpy
  rw [hx, List.length_append, ← List.length_append (as := x), List.take_length_add_append, List.length_append, hy]

theorem memcpy_drop {b d : List Nat} {n : Nat} (hn : n + d.length ≤ b.length) :
    ((memcpy b n d).drop n).take d.length = d := by
  unfold memcpy
  rw [List.append_assoc, List.drop_append, List.drop_eq_nil_of_le (by rw [List.length_take]; omega), List.nil_append,
    List.length_take, Nat.min_eq_left (by omega), Nat.sub_self, List.drop_zero, List.take_left]

theorem memcpy_below {b d : List Nat} {n m : Nat} (hm : m ≤ n) (hn : n ≤ b.length) :
    (memcpy b n d).take m = b.take m := by
  unfold memcpy
  rw [List.append_assoc, List.take_append_of_le_length (by rw [List.length_take]; omega), List.take_take,
    Nat.min_eq_left hm]

/-- `sha1_finish_ctx` applies the function to the padded text. -/
theorem sha1Finish_has {f : S → List Nat → S} {s0 : S} {c : Ctx S} {pre tl : List Nat} (h : Has f s0 c pre tl) :
    (sha1Finish f c).st = absorb f s0 (padded be64 (pre ++ tl)) := by
  unfold sha1Finish
  dsimp only
  have hb := h.buflen
  have hs := h.small
  have hsz := h.size
  obtain ⟨size, hsize⟩ : ∃ size, (if c.buflen < 56 then 64 / 4 else 64 * 2 / 4) = size := ⟨_, rfl⟩
  rw [hsize]
  obtain ⟨pad, hpad⟩ : ∃ pad, (size - 2) * 4 - c.buflen = pad := ⟨_, rfl⟩
  rw [hpad]
  have hr : pad = (if tl.length ≥ 56 then 64 + 56 - tl.length else 56 - tl.length) ∧ pad ≤ 64 ∧
      c.buflen + pad = (size - 2) * 4 ∧ (size = 16 ∨ size = 32) ∧ (size - 1) * 4 = (size - 2) * 4 + 4 ∧
      size * 4 = (size - 2) * 4 + 8 := by
    split at hsize <;> split <;> omega
  obtain ⟨hr1, hr2, hr3, hr4, hr5, hr6⟩ := hr
  have hfl : (fillbuf.take pad).length = pad := by
    rw [List.length_take]
    show min pad 64 = pad
    omega
  obtain ⟨ht, h0, h1⟩ := count_total (len := c.buflen) h.total h.lt0 h.lt1
    (by simp only [Nat.reducePow]; omega)
  obtain ⟨hl1, hl2, hl3⟩ := length_bytes ht h0 h1
  rw [padded_eq be64 h.whole pad hr1 h.small]
  rw [show (pre ++ tl).length = pre.length + c.buflen by rw [List.length_append, hb]]
  rw [be64_split hl1 hl2 hl3, hr5, hr6]
  unfold processBlock
  dsimp only
  show blocks f _ c.st (memcpy (memcpy (memcpy c.buffer ((size - 2) * 4) (be32 (high (count c c.buflen))))
    ((size - 2) * 4 + 4) (be32 (low (count c c.buflen)))) c.buflen (fillbuf.take pad)) = _
  generalize hhi : be32 (high (count c c.buflen)) = hi
  generalize hlo : be32 (low (count c c.buflen)) = lo
  have hil : hi.length = 4 := by rw [← hhi]; rfl
  have lol : lo.length = 4 := by rw [← hlo]; rfl
  obtain ⟨a1, a2⟩ := memcpy_next (b := c.buffer) (x := c.buffer.take ((size - 2) * 4)) (d := hi) (n := (size - 2) * 4)
    hsz rfl (by rw [List.length_take]; omega) (by rw [List.length_take]; omega)
  rw [List.length_append, List.length_take, Nat.min_eq_left (by omega), hil] at a2
  obtain ⟨b1, b2⟩ := memcpy_next (b := memcpy c.buffer ((size - 2) * 4) hi) (d := lo) (n := (size - 2) * 4 + 4) a1 a2
    (by rw [List.length_append, List.length_take]; omega) (by rw [List.length_append, List.length_take]; omega)
  generalize hB : memcpy (memcpy c.buffer ((size - 2) * 4) hi) ((size - 2) * 4 + 4) lo = B at *
  have hBt : B.take c.buflen = tl := by
    rw [← hB, memcpy_below (by omega) (by omega), memcpy_below (by omega) (by omega), hb]
    exact h.buffer
  have hBd : (B.drop (c.buflen + (fillbuf.take pad).length)).take (hi ++ lo).length = hi ++ lo := by
    have := congrArg (List.drop ((size - 2) * 4)) b2
    rw [List.drop_take] at this
    rw [hfl, hr3, List.length_append, hil, lol]
    rw [show (List.take ((size - 2) * 4) c.buffer ++ hi ++ lo).length - (size - 2) * 4 = 4 + 4 by
      rw [List.length_append, List.length_append, List.length_take]; omega] at this
    rw [this, List.append_assoc, List.drop_append, List.drop_eq_nil_of_le (by rw [List.length_take]; omega),
      List.length_take, Nat.min_eq_left (by omega), Nat.sub_self]
    rfl
  obtain ⟨c1, c2⟩ := memcpy_keep (d := fillbuf.take pad) (n := c.buflen) (y := hi ++ lo) b1 hBt hb hBd rfl
    (by rw [hfl, List.length_append]; omega)
  have hlen : (tl ++ fillbuf.take pad ++ (hi ++ lo)).length = (size - 2) * 4 + 8 := by
    rw [List.length_append, List.length_append, List.length_append, hfl]
    omega
  rw [hlen] at c2
  obtain ⟨n, hn⟩ : ∃ n, (size - 2) * 4 + 8 = 64 * n := ⟨((size - 2) * 4 + 8) / 64, by omega⟩
  rw [hn, Nat.mul_div_cancel_left _ (by omega : 0 < 64), blocks_take f n _ _ (by omega), ← hn, c2, h.st,
    ← absorb_append f s0 pre _ h.whole]

/-! ### Text in pieces -/

theorem md5_pieces {f : S → List Nat → S} {s0 : S} {c : Ctx S} {pre tl : List Nat} (h : Has f s0 c pre tl)
    (ps : List (List Nat)) (hp : ∀ p ∈ ps, p.length < 2 ^ 32) :
    ∃ pre' tl', Has f s0 (ps.foldl (md5Bytes f) c) pre' tl' ∧ pre' ++ tl' = pre ++ tl ++ ps.flatten := by
  induction ps generalizing c pre tl with
  | nil => exact ⟨pre, tl, h, by simp⟩
  | cons p ps ih =>
    obtain ⟨p1, t1, h1, h2⟩ := md5Bytes_has h (hp p List.mem_cons_self)
    obtain ⟨p2, t2, g1, g2⟩ := ih h1 (fun q hq => hp q (List.mem_cons_of_mem _ hq))
    refine ⟨p2, t2, g1, ?_⟩
    rw [g2, h2, List.flatten_cons, List.append_assoc]

theorem sha1_pieces {f : S → List Nat → S} {s0 : S} {c : Ctx S} {pre tl : List Nat} (h : Has f s0 c pre tl)
    (ps : List (Bool × List Nat)) (hp : ∀ p ∈ ps, p.2.length < 2 ^ 32) :
    ∃ pre' tl', Has f s0 (ps.foldl (fun c p => sha1Bytes f p.1 c p.2) c) pre' tl' ∧
      pre' ++ tl' = pre ++ tl ++ (ps.map Prod.snd).flatten := by
  induction ps generalizing c pre tl with
  | nil => exact ⟨pre, tl, h, by simp⟩
  | cons p ps ih =>
    obtain ⟨p1, t1, h1, h2⟩ := sha1Bytes_has (aligned := p.1) h (hp p List.mem_cons_self)
    obtain ⟨p2, t2, g1, g2⟩ := ih h1 (fun q hq => hp q (List.mem_cons_of_mem _ hq))
    refine ⟨p2, t2, g1, ?_⟩
    rw [g2, h2, List.map_cons, List.flatten_cons, List.append_assoc]

end Verif.Digest
