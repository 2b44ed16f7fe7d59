import Verif.Digest.Messages

/-!
# Message digests: properties
-/

namespace Verif.Digest

variable {S : Type}

/-- C144: the digest of a text does not depend on how it is put, nor on whether partial digests are asked for in between,
nor on what is in memory before: it is the MD5 digest of RFC 1321.

Missing: `digest` and `hexDigest` only as the last message, see `md5_twice`; elements of one byte only, see
`unicode_collides`; strings of less than 2^31 bytes. -/
theorem md5_messages_partial (al : Ctx MD5.R4 → List Nat → Bool) (b : List Nat) (hb : b.length = 128) (ms : List Msg)
    (m : Msg) (hm : ∀ m ∈ ms, m.Plain) (hl : m = .digest ∨ m = .hexDigest ∨ m.Plain) :
    (sendAll md5Alg al (md5Alg.new b) (ms ++ [m])).2 = answers md5 [] (ms ++ [m]) :=
  sendAll_last md5_good ms m ⟨[], [], has_init _ _ _ hb, rfl⟩ hm hl

/-- C145: the same for SHA-1 and RFC 3174, whether data is aligned or not. -/
theorem sha1_messages_partial (al : Ctx SHA1.R5 → List Nat → Bool) (b : List Nat) (hb : b.length = 128) (ms : List Msg)
    (m : Msg) (hm : ∀ m ∈ ms, m.Plain) (hl : m = .digest ∨ m = .hexDigest ∨ m.Plain) :
    (sendAll sha1Alg al (sha1Alg.new b) (ms ++ [m])).2 = answers sha1 [] (ms ++ [m]) :=
  sendAll_last sha1_good ms m ⟨[], [], has_init _ _ _ hb, rfl⟩ hm hl

/-- `digestOf:` and `hexDigestOf:` (packages/digest/digest.st:47-55) of a string. -/
theorem md5_digestOf (al : Ctx MD5.R4 → List Nat → Bool) (b : List Nat) (hb : b.length = 128) (l : List Nat)
    (hl : l.length < 2 ^ 31) :
    (sendAll md5Alg al (md5Alg.new b) [.string l, .digest]).2 = [.none, .bytes (md5 l)] ∧
    (sendAll md5Alg al (md5Alg.new b) [.string l, .hexDigest]).2 = [.none, .text (specHex (md5 l))] := by
  constructor
  · exact md5_messages_partial al b hb [.string l] .digest (by simpa [Msg.Plain] using hl) (Or.inl rfl)
  · exact md5_messages_partial al b hb [.string l] .hexDigest (by simpa [Msg.Plain] using hl) (Or.inr (Or.inl rfl))

theorem sha1_digestOf (al : Ctx SHA1.R5 → List Nat → Bool) (b : List Nat) (hb : b.length = 128) (l : List Nat)
    (hl : l.length < 2 ^ 31) :
    (sendAll sha1Alg al (sha1Alg.new b) [.string l, .digest]).2 = [.none, .bytes (sha1 l)] ∧
    (sendAll sha1Alg al (sha1Alg.new b) [.string l, .hexDigest]).2 = [.none, .text (specHex (sha1 l))] := by
  constructor
  · exact sha1_messages_partial al b hb [.string l] .digest (by simpa [Msg.Plain] using hl) (Or.inl rfl)
  · exact sha1_messages_partial al b hb [.string l] .hexDigest (by simpa [Msg.Plain] using hl) (Or.inr (Or.inl rfl))

/-- The hypotheses can be met by messages of all kinds, and the answers are those of the test vectors. -/
example : (∀ m ∈ [Msg.nextPut 97, .partialHexDigest, .coll 1 [98], .copy, .string [99]], m.Plain) ∧
    (sendAll md5Alg (fun _ _ => true) (md5Alg.new (List.replicate 128 7))
      ([.nextPut 97, .partialHexDigest, .coll 1 [98], .copy, .string [99]] ++ [.hexDigest])).2 =
    [.none, .text "0cc175b9c0f1b6a831c399e269772661".toList, .none, .none, .none,
      .text "900150983cd24fb0d6963f7d28e17f72".toList] := by
  refine ⟨by simp [Msg.Plain], by decide +kernel⟩

example : (sendAll sha1Alg (fun _ _ => false) (sha1Alg.new (List.replicate 128 7))
    [.nextPut 97, .string [98, 99], .hexDigest]).2 =
    [.none, .none, .text "a9993e364706816aba3e25717850c26c9cd0d89d".toList] := by decide +kernel

/-- A text of 200 bytes, in pieces of 1, 63, 64, 65 and 7. -/
example : (sendAll sha1Alg (fun _ _ => false) (sha1Alg.new (List.replicate 128 7))
    [.nextPut 1, .string (List.replicate 63 2), .coll 1 (List.replicate 64 3), .string (List.replicate 65 4),
      .string (List.replicate 7 5), .digest]).2.getLast? =
    (sendAll sha1Alg (fun _ _ => true) (sha1Alg.new (List.replicate 128 0))
    [.string ([1] ++ List.replicate 63 2 ++ List.replicate 64 3 ++ List.replicate 65 4 ++ List.replicate 7 5),
      .digest]).2.getLast? := by decide +kernel

/-- C146: the digits of a hexadecimal digest tell the bytes. -/
theorem specHex_injective {l l' : List Nat} (h : ∀ b ∈ l, b < 256) (h' : ∀ b ∈ l', b < 256)
    (e : specHex l = specHex l') : l = l' := by
  have inj : ∀ n < 16, ∀ m < 16, specDigit n = specDigit m → n = m := by decide +kernel
  induction l generalizing l' with
  | nil =>
    cases l' with
    | nil => rfl
    | cons a l' => simp [specHex] at e
  | cons a l ih =>
    cases l' with
    | nil => simp [specHex] at e
    | cons a' l' =>
      simp only [specHex, List.flatMap_cons, List.cons_append, List.nil_append, List.cons.injEq] at e
      have ha := h a List.mem_cons_self
      have ha' := h' a' List.mem_cons_self
      have e1 := inj _ (by omega) _ (by omega) e.1
      have e2 := inj _ (by omega) _ (by omega) e.2.1
      rw [ih (fun b hb => h b (List.mem_cons_of_mem _ hb)) (fun b hb => h' b (List.mem_cons_of_mem _ hb)) e.2.2,
        show a = a' by omega]

/-- All characters of a hexadecimal digest are digits or the letters a to f, two for each byte. -/
theorem specHex_digits {l : List Nat} (h : ∀ b ∈ l, b < 256) :
    (specHex l).length = 2 * l.length ∧ ∀ c ∈ specHex l, c ∈ "0123456789abcdef".toList := by
  have dig : ∀ n < 16, specDigit n ∈ "0123456789abcdef".toList := by decide +kernel
  constructor
  · induction l with
    | nil => rfl
    | cons a l ih =>
      have := ih fun b hb => h b (List.mem_cons_of_mem _ hb)
      simp only [specHex, List.flatMap_cons, List.cons_append, List.nil_append, List.length_cons] at this ⊢
      omega
  · intro c hc
    simp only [specHex, List.mem_flatMap, List.mem_cons, List.not_mem_nil, or_false] at hc
    obtain ⟨b, hb, rfl | rfl⟩ := hc
    · exact dig _ (by have := h b hb; omega)
    · exact dig _ (by omega)

example : specHex [0x90, 0x01, 0xff] = "9001ff".toList := by decide +kernel

/-- The lengths of the digests. -/
theorem md5_length (m : List Nat) : (md5 m).length = 16 := by simp [md5]

theorem sha1_length (m : List Nat) : (sha1 m).length = 20 := by simp [sha1]

/-- `digest` sent twice does not answer the same. -/
theorem md5_twice : ∃ ms : List Msg, (∀ m ∈ ms, m.Plain ∨ m = .digest) ∧ ∀ al,
    (sendAll md5Alg al (md5Alg.new (List.replicate 128 0)) ms).2 ≠ answers md5 [] ms := by
  refine ⟨[.digest, .digest], by simp, ?_⟩
  intro al h
  have : answers md5 [] [.digest, .digest] = [.bytes (md5 []), .bytes (md5 [])] := rfl
  rw [this] at h
  have two : ∀ r : List Answer, r = [.bytes (md5 []), .bytes (md5 [])] → r[0]? = r[1]? := by
    rintro r rfl
    rfl
  have := two _ h
  revert this
  have e : (sendAll md5Alg al (md5Alg.new (List.replicate 128 0)) [.digest, .digest]).2 =
    (sendAll md5Alg (fun _ _ => true) (md5Alg.new (List.replicate 128 0)) [.digest, .digest]).2 := rfl
  rw [e]
  decide +kernel

theorem sha1_twice : ∃ ms : List Msg, (∀ m ∈ ms, m.Plain ∨ m = .digest) ∧ ∀ al,
    (sendAll sha1Alg al (sha1Alg.new (List.replicate 128 0)) ms).2 ≠ answers sha1 [] ms := by
  refine ⟨[.digest, .digest], by simp, ?_⟩
  intro al h
  have : answers sha1 [] [.digest, .digest] = [.bytes (sha1 []), .bytes (sha1 [])] := rfl
  rw [this] at h
  have two : ∀ r : List Answer, r = [.bytes (sha1 []), .bytes (sha1 [])] → r[0]? = r[1]? := by
    rintro r rfl
    rfl
  have := two _ h
  revert this
  have e : (sendAll sha1Alg al (sha1Alg.new (List.replicate 128 0)) [.digest, .digest]).2 =
    (sendAll sha1Alg (fun _ _ => true) (sha1Alg.new (List.replicate 128 0)) [.digest, .digest]).2 := rfl
  rw [e]
  decide +kernel

/-! ### Unicode strings -/

/-- Up to 1023 elements only gather in the buffer. -/
theorem collect_short (A : Alg S) (al : Ctx S → List Nat → Bool) (w : Nat) (es : List Nat) (buffer : List Nat) (n : Nat)
    (c : Ctx S) (hb : buffer.length = 1024) (h : n + es.length < 1024) :
    collect A al w es buffer n c =
      (buffer.take n ++ es ++ buffer.drop (n + es.length), n + es.length, c) := by
  induction es generalizing buffer n with
  | nil => simp [collect]
  | cons e es ih =>
    rw [List.length_cons] at h
    rw [collect, Nat.add_sub_cancel, if_neg (by omega),
      ih (buffer.set n e) (n + 1) (by rw [List.length_set, hb]) (by omega)]
    have ht : (buffer.set n e).take (n + 1) = buffer.take n ++ [e] := by
      rw [List.take_add_one, List.take_set_of_le (Nat.le_refl n), List.getElem?_set_self (by omega)]
      rfl
    rw [ht, List.drop_set_of_lt (by omega), List.length_cons]
    simp only [List.append_assoc, List.cons_append, List.nil_append]
    rw [show n + 1 + es.length = n + (es.length + 1) by omega]

theorem flatMap_elem_length (w : Nat) (l : List Nat) : (l.flatMap (elem w)).length = w * l.length := by
  induction l with
  | nil => simp
  | cons a l ih =>
    rw [List.flatMap_cons, List.length_append, ih, List.length_cons, Nat.mul_succ, Nat.add_comm]
    simp [elem]

/-- C147, refuted: of a Unicode string only the first quarter is digested, so that strings that differ after it have
the same digest, whatever was put before and whatever the function is. -/
theorem unicode_collides (A : Alg S) (al : Ctx S → List Nat → Bool) (c : Ctx S) {es es' : List Nat}
    (hl : es.length = es'.length) (hs : es.length < 1024)
    (h : es.take ((es.length + 3) / 4) = es'.take ((es.length + 3) / 4)) (m : Msg) :
    (sendAll A al c [.coll 4 es, m]).2 = (sendAll A al c [.coll 4 es', m]).2 := by
  have key : ∀ es : List Nat, es.length < 1024 → putAll A al 4 es c =
      A.feed (al c (((es.take ((es.length + 3) / 4)).flatMap (elem 4)).take es.length)) c
        (((es.take ((es.length + 3) / 4)).flatMap (elem 4)).take es.length) := by
    intro es hs
    unfold putAll
    rw [collect_short A al 4 es (List.replicate 1024 0) 0 c List.length_replicate (by omega)]
    dsimp only
    rw [List.take_zero, List.nil_append, Nat.zero_add]
    unfold combine
    have : ((es ++ (List.replicate 1024 0).drop es.length).flatMap (elem 4)).take es.length =
        ((es.take ((es.length + 3) / 4)).flatMap (elem 4)).take es.length := by
      generalize hk : (es.length + 3) / 4 = k
      generalize hn : es.length = n
      rw [← List.take_append_drop k es, List.append_assoc, List.flatMap_append, List.take_append_of_le_length,
        List.take_append_drop]
      rw [flatMap_elem_length, List.length_take]
      omega
    rw [this]
  have : putAll A al 4 es c = putAll A al 4 es' c := by
    rw [key es hs, key es' (by omega), ← hl, h]
  simp only [sendAll, send, this]

/-- `'pay 5' asUnicodeString` and `'pay 9' asUnicodeString`, and all digests of the two are the same. -/
example (A : Alg S) (al : Ctx S → List Nat → Bool) (c : Ctx S) :
    (sendAll A al c [.coll 4 [112, 97, 121, 32, 53], .hexDigest]).2 =
    (sendAll A al c [.coll 4 [112, 97, 121, 32, 57], .hexDigest]).2 :=
  unicode_collides A al c rfl (by decide) (by decide) _

end Verif.Digest
