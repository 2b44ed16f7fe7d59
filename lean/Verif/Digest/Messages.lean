import Verif.Digest.Block
import Verif.Digest.Feed
import Verif.Digest.Finish
import Verif.Digest.Sine

/-!
# Message digests: the classes

packages/digest/digest.st, packages/digest/md5.st, packages/digest/sha1.st.
-/

namespace Verif.Digest

/-- The functions of C that a class calls (packages/digest/digest.c:83-94). -/
structure Alg (S : Type) where
  feed : Bool → Ctx S → List Nat → Ctx S
  finish : Ctx S → Ctx S
  read : S → List Nat
  init : S

def md5Alg : Alg MD5.R4 := ⟨fun _ => md5Bytes MD5.block, md5Finish MD5.block, MD5.read, MD5.init⟩

def sha1Alg : Alg SHA1.R5 := ⟨sha1Bytes SHA1.block, sha1Finish SHA1.block, SHA1.read, SHA1.init⟩

variable {S : Type}

/-- `new` (packages/digest/md5.st:57-60, packages/digest/digest.c:67-81); nothing is put into the buffer, so that there may
be anything in it. -/
def Alg.new (A : Alg S) (buffer : List Nat) : Ctx S := ⟨A.init, 0, 0, 0, buffer⟩

/-- The bytes of an element of `w` bytes as they are in memory, on a machine that has the least significant byte first. -/
def elem (w e : Nat) : List Nat := (List.range w).map fun i => e / 256 ^ i % 256

/-- `combine: buffer size: n into: self state` (packages/digest/md5.st:45-49): the first `n` bytes of what is passed;
`libgst/cint.c:1260-1273` passes the address of the elements, whatever their size is.  `al` says whether data is aligned. -/
def combine (A : Alg S) (al : Ctx S → List Nat → Bool) (c : Ctx S) (bytes : List Nat) (n : Nat) : Ctx S :=
  A.feed (al c (bytes.take n)) c (bytes.take n)

/-- The block of `do:` in `nextPutAll:` (packages/digest/md5.st:82-92), with what `buffer` and `n` are at the end. -/
def collect (A : Alg S) (al : Ctx S → List Nat → Bool) (w : Nat) :
    List Nat → List Nat → Nat → Ctx S → List Nat × Nat × Ctx S
  | [], buffer, n, c => (buffer, n, c)
  | e :: es, buffer, n, c =>
    let n := n + 1
    let buffer := buffer.set (n - 1) e
    if n = 1024 then collect A al w es buffer 0 (combine A al c (buffer.flatMap (elem w)) n)
    else collect A al w es buffer n c

/-- `nextPutAll:` for something that is not a String (packages/digest/md5.st:80-96), whose species has elements of `w`
bytes. -/
def putAll (A : Alg S) (al : Ctx S → List Nat → Bool) (w : Nat) (es : List Nat) (c : Ctx S) : Ctx S :=
  let (buffer, n, c) := collect A al w es (List.replicate 1024 0) 0 c
  combine A al c (buffer.flatMap (elem w)) n

/-- `Character class >> digitValue:` (kernel/Character.st:240-246) and `asLowercase`. -/
def hexDigit (n : Nat) : Char := ("0123456789ABCDEFGHIJKLMNOPQRSTUVWXYZ".toList.getD n ' ').toLower

/-- packages/digest/digest.st:85-95. -/
def hex (l : List Nat) : List Char := l.flatMap fun b => [hexDigit (b / 16), hexDigit (b % 16)]

/-- What can be sent to a digest.  `coll w es` is `nextPutAll:` of a collection or stream whose species has elements of
`w` bytes: 1 for strings and byte arrays, 4 for Unicode strings. -/
inductive Msg
  | nextPut (b : Nat)
  | string (l : List Nat)
  | coll (w : Nat) (es : List Nat)
  | copy
  | partialDigest
  | partialHexDigest
  | digest
  | hexDigest
  deriving DecidableEq, Repr

inductive Answer
  | none
  | bytes (l : List Nat)
  | text (l : List Char)
  deriving DecidableEq, Repr

/-- packages/digest/md5.st:62-105, packages/digest/digest.st:57-95.  `digest` finishes the state in place; the partial
digests put back the state from before.  `copy` is a deep copy, with which we go on. -/
def send (A : Alg S) (al : Ctx S → List Nat → Bool) (c : Ctx S) : Msg → Ctx S × Answer
  | .nextPut b => (combine A al c [b] 1, .none)
  | .string l => (combine A al c l l.length, .none)
  | .coll w es => (putAll A al w es c, .none)
  | .copy => (c, .none)
  | .digest => (A.finish c, .bytes (A.read (A.finish c).st))
  | .hexDigest => (A.finish c, .text (hex (A.read (A.finish c).st)))
  | .partialDigest => (c, .bytes (A.read (A.finish c).st))
  | .partialHexDigest => (c, .text (hex (A.read (A.finish c).st)))

def sendAll (A : Alg S) (al : Ctx S → List Nat → Bool) : Ctx S → List Msg → Ctx S × List Answer
  | c, [] => (c, [])
  | c, m :: ms =>
    let r := send A al c m
    let rs := sendAll A al r.1 ms
    (rs.1, r.2 :: rs.2)

/-! ### Specification -/

/-- RFC 1321: the words 01234567, 89abcdef, fedcba98 and 76543210, least significant byte first. -/
def MD5.start : MD5.R4 :=
  ⟨leWord [0x01, 0x23, 0x45, 0x67] 0, leWord [0x89, 0xab, 0xcd, 0xef] 0, leWord [0xfe, 0xdc, 0xba, 0x98] 0,
    leWord [0x76, 0x54, 0x32, 0x10] 0⟩

/-- The MD5 digest of a text (RFC 1321). -/
noncomputable def md5 (m : List Nat) : List Nat :=
  let r := absorb (MD5.specBlock MD5.sineT) MD5.start (padded le64 m)
  [r.a, r.b, r.c, r.d].flatMap fun w => (List.range 4).map fun i => w.toNat / 256 ^ i % 256

/-- RFC 3174, 6.1. -/
def SHA1.start : SHA1.R5 := ⟨0x67452301, 0xefcdab89, 0x98badcfe, 0x10325476, 0xc3d2e1f0⟩

/-- The SHA-1 digest of a text (RFC 3174). -/
def sha1 (m : List Nat) : List Nat :=
  let r := absorb SHA1.specBlock SHA1.start (padded be64 m)
  [r.a, r.b, r.c, r.d, r.e].flatMap fun w => ((List.range 4).map fun i => w.toNat / 256 ^ i % 256).reverse

/-- A number below 16 as a digit. -/
def specDigit (n : Nat) : Char := if n < 10 then Char.ofNat (n + 48) else Char.ofNat (n + 87)

/-- Two digits for each byte. -/
def specHex (l : List Nat) : List Char := l.flatMap fun b => [specDigit (b / 16), specDigit (b % 16)]

/-- The text that a message adds. -/
def Msg.text : Msg → List Nat
  | .nextPut b => [b]
  | .string l => l
  | .coll _ es => es
  | _ => []

/-- What the message answers when the text so far is `t`. -/
def Msg.answer (dig : List Nat → List Nat) (t : List Nat) : Msg → Answer
  | .digest | .partialDigest => .bytes (dig t)
  | .hexDigest | .partialHexDigest => .text (specHex (dig t))
  | _ => .none

/-- What messages answer, one after the other. -/
def answers (dig : List Nat → List Nat) : List Nat → List Msg → List Answer
  | _, [] => []
  | t, m :: ms => m.answer dig t :: answers dig (t ++ m.text) ms

/-- Messages about which there is no doubt: bytes, pieces that C can count, and the state is not finished. -/
def Msg.Plain : Msg → Prop
  | .nextPut b => b < 256
  | .string l => l.length < 2 ^ 31
  | .coll w es => w = 1 ∧ ∀ e ∈ es, e < 256
  | .digest | .hexDigest => False
  | _ => True

/-- The functions compute the digest `dig`, from all states that an invariant allows. -/
structure Alg.Good (A : Alg S) (dig : List Nat → List Nat) (I : Ctx S → List Nat → Prop) : Prop where
  feed : ∀ {c t} b p, I c t → p.length < 2 ^ 32 → I (A.feed b c p) (t ++ p)
  finish : ∀ {c t}, I c t → A.read (A.finish c).st = dig t
  bytes : ∀ t, ∀ b ∈ dig t, b < 256

theorem absorb_congr {f g : S → List Nat → S} (h : ∀ s l, f s l = g s l) (s : S) (m : List Nat) :
    absorb f s m = absorb g s m := by
  unfold absorb
  exact foldl_congr (fun b a _ => h _ _) s

/-- The invariant of the first part of the model. -/
def Inv (f : S → List Nat → S) (s0 : S) (c : Ctx S) (t : List Nat) : Prop :=
  ∃ pre tl, Has f s0 c pre tl ∧ pre ++ tl = t

theorem md5_good : md5Alg.Good md5 (Inv MD5.block MD5.init) where
  feed := by
    rintro c t b p ⟨pre, tl, h, rfl⟩ hp
    obtain ⟨p1, t1, h1, h2⟩ := md5Bytes_has h hp
    exact ⟨p1, t1, h1, h2⟩
  finish := by
    rintro c t ⟨pre, tl, h, rfl⟩
    show MD5.read (md5Finish MD5.block c).st = _
    rw [md5Finish_has h, absorb_congr MD5.block_spec, show MD5.init = MD5.start by decide +kernel]
    unfold md5 MD5.read
    generalize absorb (MD5.specBlock MD5.sineT) MD5.start (padded le64 (pre ++ tl)) = r
    simp [le32, List.range_succ]
  bytes := by
    intro t b hb
    simp only [md5, List.mem_flatMap, List.mem_map] at hb
    obtain ⟨w, _, i, _, rfl⟩ := hb
    exact Nat.mod_lt _ (by omega)

theorem sha1_good : sha1Alg.Good sha1 (Inv SHA1.block SHA1.init) where
  feed := by
    rintro c t b p ⟨pre, tl, h, rfl⟩ hp
    obtain ⟨p1, t1, h1, h2⟩ := sha1Bytes_has (aligned := b) h hp
    exact ⟨p1, t1, h1, h2⟩
  finish := by
    rintro c t ⟨pre, tl, h, rfl⟩
    show SHA1.read (sha1Finish SHA1.block c).st = _
    rw [sha1Finish_has h, absorb_congr SHA1.block_spec, show SHA1.init = SHA1.start by decide +kernel]
    unfold sha1 SHA1.read
    generalize absorb SHA1.specBlock SHA1.start (padded be64 (pre ++ tl)) = r
    simp [be32, List.range_succ]
  bytes := by
    intro t b hb
    simp only [sha1, List.mem_flatMap, List.mem_reverse, List.mem_map] at hb
    obtain ⟨w, _, i, _, rfl⟩ := hb
    exact Nat.mod_lt _ (by omega)

theorem hex_eq {l : List Nat} (h : ∀ b ∈ l, b < 256) : hex l = specHex l := by
  have d : ∀ n < 16, hexDigit n = specDigit n := by decide +kernel
  unfold hex specHex
  rw [List.flatMap_def, List.flatMap_def]
  congr 1
  apply List.map_congr_left
  intro b hb
  have := h b hb
  rw [d _ (by omega), d _ (by omega)]

theorem elems_one {l : List Nat} (h : ∀ b ∈ l, b < 256) : l.flatMap (elem 1) = l := by
  induction l with
  | nil => rfl
  | cons a l ih =>
    rw [List.flatMap_cons, ih fun b hb => h b (List.mem_cons_of_mem _ hb)]
    simp [elem, List.range_succ, Nat.mod_eq_of_lt (h a List.mem_cons_self)]

variable {A : Alg S} {dig : List Nat → List Nat} {I : Ctx S → List Nat → Prop} {al : Ctx S → List Nat → Bool}

theorem combine_good (hA : A.Good dig I) {c : Ctx S} {t : List Nat} (h : I c t) {bytes : List Nat} {n : Nat}
    (hn : n < 2 ^ 32) : I (combine A al c bytes n) (t ++ bytes.take n) := by
  refine hA.feed _ _ h ?_
  rw [List.length_take]
  omega

theorem collect_good (hA : A.Good dig I) (es : List Nat) {buffer : List Nat} {n : Nat} {c : Ctx S} {t : List Nat}
    (h : I c t) (hb : buffer.length = 1024) (hn : n < 1024) (hs : ∀ b ∈ buffer, b < 256) (he : ∀ e ∈ es, e < 256) :
    ∃ buffer' n' c' t', collect A al 1 es buffer n c = (buffer', n', c') ∧ I c' t' ∧ n' < 1024 ∧
      (∀ b ∈ buffer', b < 256) ∧ t' ++ buffer'.take n' = t ++ buffer.take n ++ es := by
  induction es generalizing buffer n c t with
  | nil => exact ⟨buffer, n, c, t, rfl, h, hn, hs, by simp⟩
  | cons e es ih =>
    rw [collect, Nat.add_sub_cancel]
    have hs' : ∀ b ∈ buffer.set n e, b < 256 := by
      intro b hb
      rcases List.mem_or_eq_of_mem_set hb with hb | rfl
      · exact hs b hb
      · exact he _ List.mem_cons_self
    have ht : (buffer.set n e).take (n + 1) = buffer.take n ++ [e] := by
      rw [List.take_add_one, List.take_set_of_le (Nat.le_refl n), List.getElem?_set_self (by omega)]
      rfl
    have he' : ∀ e ∈ es, e < 256 := fun b hb => he b (List.mem_cons_of_mem _ hb)
    split
    · rename_i h1
      have hc := combine_good (al := al) hA h (bytes := (buffer.set n e).flatMap (elem 1)) (n := n + 1) (by omega)
      rw [elems_one hs', ht] at hc
      obtain ⟨b', n', c', t', g1, g2, g3, g4, g5⟩ := ih hc (buffer := buffer.set n e) (n := 0)
        (by rw [List.length_set, hb]) (by omega) hs' he'
      rw [elems_one hs']
      refine ⟨b', n', c', t', g1, g2, g3, g4, ?_⟩
      rw [g5]
      simp
    · obtain ⟨b', n', c', t', g1, g2, g3, g4, g5⟩ := ih h (buffer := buffer.set n e) (n := n + 1)
        (by rw [List.length_set, hb]) (by omega) hs' he'
      refine ⟨b', n', c', t', g1, g2, g3, g4, ?_⟩
      rw [g5, ht]
      simp

theorem putAll_good (hA : A.Good dig I) (es : List Nat) {c : Ctx S} {t : List Nat} (h : I c t)
    (he : ∀ e ∈ es, e < 256) : I (putAll A al 1 es c) (t ++ es) := by
  obtain ⟨b', n', c', t', g1, g2, g3, g4, g5⟩ := collect_good (al := al) hA es h
    (buffer := List.replicate 1024 0) (n := 0) (by rw [List.length_replicate]) (by omega)
    (by intro b hb; rw [List.eq_of_mem_replicate hb]; omega) he
  unfold putAll
  rw [g1]
  dsimp only
  have := combine_good (al := al) hA g2 (bytes := b'.flatMap (elem 1)) (n := n') (by omega)
  rw [elems_one g4] at this ⊢
  rwa [g5, List.take_zero, List.append_nil] at this

theorem sendAll_good (hA : A.Good dig I) (ms : List Msg) {c : Ctx S} {t : List Nat} (h : I c t)
    (hm : ∀ m ∈ ms, m.Plain) :
    (sendAll A al c ms).2 = answers dig t ms ∧ I (sendAll A al c ms).1 (t ++ ms.flatMap Msg.text) := by
  induction ms generalizing c t with
  | nil => exact ⟨rfl, by simpa [sendAll] using h⟩
  | cons m ms ih =>
    rw [sendAll, answers, List.flatMap_cons]
    dsimp only
    have hp := hm m List.mem_cons_self
    have step : (send A al c m).2 = m.answer dig t ∧ I (send A al c m).1 (t ++ m.text) := by
      cases m with
      | nextPut b =>
        refine ⟨rfl, ?_⟩
        have := combine_good (al := al) hA h (bytes := [b]) (n := 1) (by omega)
        exact this
      | string l =>
        refine ⟨rfl, ?_⟩
        have hl : l.length < 2 ^ 31 := hp
        have := combine_good (al := al) hA h (bytes := l) (n := l.length) (by omega)
        rwa [List.take_length] at this
      | coll w es =>
        obtain ⟨rfl, he⟩ := hp
        exact ⟨rfl, putAll_good hA es h he⟩
      | copy => exact ⟨rfl, by simpa [send, Msg.text] using h⟩
      | partialDigest => exact ⟨by rw [send, Msg.answer, hA.finish h], by simpa [send, Msg.text] using h⟩
      | partialHexDigest =>
        exact ⟨by rw [send, Msg.answer, hA.finish h, hex_eq (hA.bytes t)], by simpa [send, Msg.text] using h⟩
      | digest => exact absurd hp id
      | hexDigest => exact absurd hp id
    obtain ⟨h1, h2⟩ := ih step.2 fun m h => hm m (List.mem_cons_of_mem _ h)
    rw [h1, step.1, ← List.append_assoc]
    exact ⟨rfl, h2⟩

/-- Any plain messages, then a last one that may finish the digest. -/
theorem sendAll_last (hA : A.Good dig I) (ms : List Msg) (m : Msg) {c : Ctx S} (h : I c [])
    (hm : ∀ m ∈ ms, m.Plain) (hl : m = .digest ∨ m = .hexDigest ∨ m.Plain) :
    (sendAll A al c (ms ++ [m])).2 = answers dig [] (ms ++ [m]) := by
  obtain ⟨h1, h2⟩ := sendAll_good (al := al) hA ms h hm
  have app : ∀ (ms : List Msg) (c : Ctx S), (sendAll A al c (ms ++ [m])).2 =
      (sendAll A al c ms).2 ++ [(send A al (sendAll A al c ms).1 m).2] := by
    intro ms
    induction ms with
    | nil => intro c; rfl
    | cons x ms ih => intro c; rw [List.cons_append, sendAll, sendAll]; dsimp only; rw [ih]; rfl
  have app' : ∀ (ms : List Msg) (t : List Nat), answers dig t (ms ++ [m]) =
      answers dig t ms ++ [m.answer dig (t ++ ms.flatMap Msg.text)] := by
    intro ms
    induction ms with
    | nil => intro t; simp [answers]
    | cons x ms ih => intro t; rw [List.cons_append, answers, answers, ih, List.flatMap_cons]; simp
  rw [app, app', h1]
  congr 2
  rcases hl with rfl | rfl | hl
  · rw [send, Msg.answer, hA.finish h2]
  · rw [send, Msg.answer, hA.finish h2, hex_eq (hA.bytes _)]
  · have := (sendAll_good (al := al) hA [m] h2 (by simpa using hl)).1
    simpa [sendAll, answers] using this

end Verif.Digest
