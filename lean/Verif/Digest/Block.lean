/-!
# Message digests: splitting of the text into blocks

packages/digest/md5.c and packages/digest/sha1.c without the functions that are applied to one block, which are a
parameter `f` here.  A byte is a natural number.  Buffers have 128 bytes.
-/

namespace Verif.Digest

/-- `struct md5_ctx` (packages/digest/md5.h:81-91) and `struct sha1_ctx` (packages/digest/sha1.h:63-74), with the words
`A`, `B`, … in `st`. -/
structure Ctx (S : Type) where
  st : S
  total0 : Nat
  total1 : Nat
  buflen : Nat
  buffer : List Nat
  deriving DecidableEq, Repr

variable {S : Type}

/-- `memcpy (&buffer[at], data, n)`. -/
def memcpy (buffer : List Nat) (pos : Nat) (data : List Nat) : List Nat :=
  buffer.take pos ++ data ++ buffer.drop (pos + data.length)

/-- `ctx->total[0] += len; if (ctx->total[0] < len) ++ctx->total[1];` (packages/digest/md5.c:111-113, 284-286;
packages/digest/sha1.c:100-102, 302-304). -/
def count (c : Ctx S) (len : Nat) : Ctx S :=
  let t := (c.total0 + len) % 2 ^ 32
  { c with total0 := t, total1 := if t < len then (c.total1 + 1) % 2 ^ 32 else c.total1 }

/-- The loop over the blocks. -/
def blocks (f : S → List Nat → S) : Nat → S → List Nat → S
  | 0, s, _ => s
  | n + 1, s, l => blocks f n (f s (l.take 64)) (l.drop 64)

/-- `md5_process_block` (packages/digest/md5.c:266-441), `sha1_process_block` (packages/digest/sha1.c:286-416); `len` is
a multiple of 64. -/
def processBlock (f : S → List Nat → S) (c : Ctx S) (data : List Nat) (len : Nat) : Ctx S :=
  let c := count c len
  { c with st := blocks f (len / 64) c.st data }

/-- packages/digest/md5.c:214-235: what is done first if there is something in the buffer; answers what is left of the
data. -/
def md5Fill (f : S → List Nat → S) (c : Ctx S) (data : List Nat) : Ctx S × List Nat :=
  if c.buflen ≠ 0 then
    let left := c.buflen
    let add := if 128 - left > data.length then data.length else 128 - left
    let c := { c with buffer := memcpy c.buffer left (data.take add), buflen := c.buflen + add }
    let c :=
      if left + add > 64 then
        let n := left + add - (left + add) % 64
        let c := processBlock f c c.buffer n
        { c with buffer := memcpy c.buffer 0 ((c.buffer.drop n).take ((left + add) % 64)), buflen := (left + add) % 64 }
      else c
    (c, data.drop add)
  else (c, data)

/-- packages/digest/md5.c:237-250. -/
def md5Rest (f : S → List Nat → S) (c : Ctx S) (data : List Nat) : Ctx S :=
  let (c, data) :=
    if data.length > 64 then
      (processBlock f c data (data.length - data.length % 64), data.drop (data.length - data.length % 64))
    else (c, data)
  if data.length > 0 then { c with buffer := memcpy c.buffer 0 data, buflen := data.length } else c

/-- `md5_process_bytes` (packages/digest/md5.c:208-251). -/
def md5Bytes (f : S → List Nat → S) (c : Ctx S) (data : List Nat) : Ctx S :=
  let r := md5Fill f c data
  md5Rest f r.1 r.2

/-- packages/digest/sha1.c:204-227, as in `md5Fill`. -/
def sha1Fill (f : S → List Nat → S) (c : Ctx S) (data : List Nat) : Ctx S × List Nat :=
  if c.buflen ≠ 0 then
    let left := c.buflen
    let add := if 128 - left > data.length then data.length else 128 - left
    let c := { c with buffer := memcpy c.buffer left (data.take add), buflen := c.buflen + add }
    let c :=
      if c.buflen > 64 then
        let c := processBlock f c c.buffer (c.buflen - c.buflen % 64)
        let c := { c with buflen := c.buflen % 64 }
        { c with buffer := memcpy c.buffer 0 ((c.buffer.drop (left + add - (left + add) % 64)).take c.buflen) }
      else c
    (c, data.drop add)
  else (c, data)

/-- packages/digest/sha1.c:236-241: the loop for data that is not aligned; `n` bounds the number of rounds. -/
def unaligned (f : S → List Nat → S) : Nat → Ctx S → List Nat → Ctx S × List Nat
  | 0, c, data => (c, data)
  | n + 1, c, data =>
    if data.length > 64 then
      let c := { c with buffer := memcpy c.buffer 0 (data.take 64) }
      unaligned f n (processBlock f c c.buffer 64) (data.drop 64)
    else (c, data)

/-- packages/digest/sha1.c:229-265. -/
def sha1Rest (f : S → List Nat → S) (aligned : Bool) (c : Ctx S) (data : List Nat) : Ctx S :=
  let (c, data) :=
    if data.length ≥ 64 then
      if aligned then
        (processBlock f c data (data.length - data.length % 64), data.drop (data.length - data.length % 64))
      else unaligned f data.length c data
    else (c, data)
  if data.length > 0 then
    let left := c.buflen
    let c := { c with buffer := memcpy c.buffer left data }
    let left := left + data.length
    if left ≥ 64 then
      let c := processBlock f c c.buffer 64
      let left := left - 64
      { c with buffer := memcpy c.buffer 0 ((c.buffer.drop 64).take left), buflen := left }
    else { c with buflen := left }
  else c

/-- `sha1_process_bytes` (packages/digest/sha1.c:201-266); `aligned` tells whether the data is where the processor wants
it to be when the loop is reached. -/
def sha1Bytes (f : S → List Nat → S) (aligned : Bool) (c : Ctx S) (data : List Nat) : Ctx S :=
  let r := sha1Fill f c data
  sha1Rest f aligned r.1 r.2

/-- `fillbuf` (packages/digest/md5.c:60, packages/digest/sha1.c:51). -/
def fillbuf : List Nat := 0x80 :: List.replicate 63 0

/-- The bytes of a word, least significant first. -/
def le32 (w : Nat) : List Nat := [w % 256, w / 256 % 256, w / 65536 % 256, w / 16777216 % 256]

/-- The bytes of a word, most significant first. -/
def be32 (w : Nat) : List Nat := [w / 16777216 % 256, w / 65536 % 256, w / 256 % 256, w % 256]

/-- `ctx->total[0] << 3` and `(ctx->total[1] << 3) | (ctx->total[0] >> 29)`. -/
def low (c : Ctx S) : Nat := c.total0 * 8 % 2 ^ 32
def high (c : Ctx S) : Nat := c.total1 * 8 % 2 ^ 32 ||| c.total0 / 2 ^ 29

/-- `md5_finish_ctx` (packages/digest/md5.c:101-127) without the last line. -/
def md5Finish (f : S → List Nat → S) (c : Ctx S) : Ctx S :=
  let bytes := c.buflen
  let c := count c bytes
  let pad := if bytes ≥ 56 then 64 + 56 - bytes else 56 - bytes
  let c := { c with buffer := memcpy c.buffer bytes (fillbuf.take pad) }
  let c := { c with buffer := memcpy c.buffer (bytes + pad) (le32 (low c)) }
  let c := { c with buffer := memcpy c.buffer (bytes + pad + 4) (le32 (high c)) }
  processBlock f c c.buffer (bytes + pad + 8)

/-- `sha1_finish_ctx` (packages/digest/sha1.c:92-114) without the last line. -/
def sha1Finish (f : S → List Nat → S) (c : Ctx S) : Ctx S :=
  let bytes := c.buflen
  let size := if bytes < 56 then 64 / 4 else 64 * 2 / 4
  let c := count c bytes
  let c := { c with buffer := memcpy c.buffer ((size - 2) * 4) (be32 (high c)) }
  let c := { c with buffer := memcpy c.buffer ((size - 1) * 4) (be32 (low c)) }
  let c := { c with buffer := memcpy c.buffer bytes (fillbuf.take ((size - 2) * 4 - bytes)) }
  processBlock f c c.buffer (size * 4)

/-! ### Specification -/

/-- The function is applied to one block of 64 bytes after the other. -/
def absorb (f : S → List Nat → S) (s : S) (m : List Nat) : S :=
  (List.range (m.length / 64)).foldl (fun s i => f s ((m.drop (64 * i)).take 64)) s

/-- The text, a bit 1, as few zeros as possible, and the number of bits of the text in 64 bits, in the order `enc` of
bytes: RFC 1321, 3.1 and 3.2; RFC 3174, 4. -/
def padded (enc : Nat → List Nat) (m : List Nat) : List Nat :=
  m ++ [0x80] ++ List.replicate ((119 - m.length % 64) % 64) 0 ++ enc (m.length * 8 % 2 ^ 64)

/-- 64 bits, least significant byte first. -/
def le64 (n : Nat) : List Nat := (List.range 8).map fun i => n / 256 ^ i % 256

/-- 64 bits, most significant byte first. -/
def be64 (n : Nat) : List Nat := (le64 n).reverse

/-! ### Blocks -/

theorem blocks_eq (f : S → List Nat → S) (n : Nat) (s : S) (l : List Nat) :
    blocks f n s l = (List.range n).foldl (fun s i => f s ((l.drop (64 * i)).take 64)) s := by
  induction n generalizing s l with
  | zero => rfl
  | succ n ih =>
    rw [blocks, ih, List.range_succ_eq_map, List.foldl_cons, List.foldl_map]
    simp only [Nat.mul_zero, List.drop_zero, List.drop_drop]
    congr 1
    funext s i
    congr 3
    omega

theorem foldl_congr {α β : Type} {g h : β → α → β} {l : List α} (hh : ∀ b, ∀ a ∈ l, g b a = h b a) (b : β) :
    l.foldl g b = l.foldl h b := by
  induction l generalizing b with
  | nil => rfl
  | cons a l ih =>
    rw [List.foldl_cons, List.foldl_cons, hh b a List.mem_cons_self]
    exact ih (fun b c hc => hh b c (List.mem_cons_of_mem _ hc)) _

/-- Only the part that is processed matters. -/
theorem blocks_take (f : S → List Nat → S) (n : Nat) (s : S) (l : List Nat) (h : 64 * n ≤ l.length) :
    blocks f n s l = absorb f s (l.take (64 * n)) := by
  rw [blocks_eq]
  unfold absorb
  have hl : (l.take (64 * n)).length / 64 = n := by
    rw [List.length_take]
    omega
  rw [hl]
  apply foldl_congr
  intro b i hi
  rw [List.mem_range] at hi
  rw [List.drop_take, List.take_take]
  congr 2
  omega

theorem absorb_append (f : S → List Nat → S) (s : S) (l m : List Nat) (h : l.length % 64 = 0) :
    absorb f s (l ++ m) = absorb f (absorb f s l) m := by
  unfold absorb
  have hl : (l ++ m).length / 64 = l.length / 64 + m.length / 64 := by
    rw [List.length_append]
    omega
  rw [hl, List.range_add, List.foldl_append, List.foldl_map]
  congr 1
  · funext s i
    congr 2
    rw [List.drop_append, List.drop_eq_nil_of_le (by omega)]
    rw [List.nil_append]
    congr 1
    omega
  · apply foldl_congr
    intro b i hi
    rw [List.mem_range] at hi
    congr 1
    rw [List.drop_append]
    rw [List.take_append_of_le_length (by rw [List.length_drop]; omega)]

/-! ### Invariant -/

/-- The context after the text `m`: the bytes `pre` have been processed, the bytes `tl` are in the buffer. -/
structure Has (f : S → List Nat → S) (s0 : S) (c : Ctx S) (pre tl : List Nat) : Prop where
  whole : pre.length % 64 = 0
  st : c.st = absorb f s0 pre
  total : c.total1 * 2 ^ 32 + c.total0 = pre.length % 2 ^ 64
  lt0 : c.total0 < 2 ^ 32
  lt1 : c.total1 < 2 ^ 32
  buflen : c.buflen = tl.length
  small : tl.length ≤ 64
  size : c.buffer.length = 128
  buffer : c.buffer.take tl.length = tl

theorem memcpy_length {b : List Nat} {pos : Nat} {d : List Nat} (h : pos + d.length ≤ b.length) :
    (memcpy b pos d).length = b.length := by
  unfold memcpy
  simp only [List.length_append, List.length_take, List.length_drop]
  omega

theorem memcpy_take {b : List Nat} {pos : Nat} {d : List Nat} (h : pos + d.length ≤ b.length) :
    (memcpy b pos d).take (pos + d.length) = b.take pos ++ d := by
  unfold memcpy
  rw [List.take_append_of_le_length (by simp; omega), List.take_of_length_le (by simp; omega)]

theorem count_total {c : Ctx S} {n len : Nat} (ht : c.total1 * 2 ^ 32 + c.total0 = n % 2 ^ 64) (h0 : c.total0 < 2 ^ 32)
    (h1 : c.total1 < 2 ^ 32) (hlen : len < 2 ^ 32) :
    (count c len).total1 * 2 ^ 32 + (count c len).total0 = (n + len) % 2 ^ 64 ∧ (count c len).total0 < 2 ^ 32 ∧
      (count c len).total1 < 2 ^ 32 := by
  unfold count
  dsimp only
  simp only [Nat.reducePow] at *
  split <;> omega

/-- Blocks that are processed. -/
theorem Has.block {f : S → List Nat → S} {s0 : S} {c : Ctx S} {pre tl data : List Nat} (h : Has f s0 c pre tl) {n : Nat}
    (hn : 64 * n ≤ data.length) (hlen : 64 * n < 2 ^ 32) :
    (processBlock f c data (64 * n)).st = absorb f s0 (pre ++ data.take (64 * n)) ∧
    (processBlock f c data (64 * n)).total1 * 2 ^ 32 + (processBlock f c data (64 * n)).total0 =
      (pre ++ data.take (64 * n)).length % 2 ^ 64 ∧
    (processBlock f c data (64 * n)).total0 < 2 ^ 32 ∧ (processBlock f c data (64 * n)).total1 < 2 ^ 32 ∧
    (processBlock f c data (64 * n)).buflen = c.buflen ∧ (processBlock f c data (64 * n)).buffer = c.buffer ∧
    (pre ++ data.take (64 * n)).length % 64 = 0 := by
  have hl : (pre ++ data.take (64 * n)).length = pre.length + 64 * n := by
    rw [List.length_append, List.length_take]
    omega
  have hw := h.whole
  obtain ⟨h1, h2, h3⟩ := count_total h.total h.lt0 h.lt1 hlen
  refine ⟨?_, by rw [hl]; exact h1, h2, h3, rfl, rfl, by rw [hl]; omega⟩
  unfold processBlock
  dsimp only
  rw [Nat.mul_div_cancel_left _ (by omega : 0 < 64), blocks_take f n _ data hn, absorb_append f s0 pre _ h.whole]
  show absorb f c.st _ = _
  rw [h.st]

end Verif.Digest
