import Verif.Url.Model

/-!
# Proofs about URLs
-/

namespace Verif.Url
open Verif.Strings

/-! ### Encoding -/

theorem byte_cases : ∀ n < 256, decode (if Char.ofNat n = ' ' then ['+'] else if noPercent (Char.ofNat n) then [Char.ofNat n] else
    ['%', hexChar (n / 16), hexChar (n % 16)]) = .done [Char.ofNat n] := by
  decide +kernel

theorem hex_values : ∀ n < 16, digitValue (hexChar n) = some n := by decide +kernel

theorem noPercent_ne {c : Char} (h : noPercent c = true) : c ≠ '+' ∧ c ≠ '%' := by
  constructor
  · rintro rfl; exact absurd h (by decide +kernel)
  · rintro rfl; exact absurd h (by decide +kernel)

theorem decode_cons {c : Char} (h1 : c ≠ '+') (h2 : c ≠ '%') (cs : Txt) :
    decode (c :: cs) = (decode cs).bind fun r => .done (c :: r) := by
  conv_lhs => unfold decode
  split
  · next h => cases h
  · next h => cases h; exact absurd rfl h1
  · next h => cases h; exact absurd rfl h2
  · next h => cases h; exact absurd rfl h2
  · next h => cases h; exact absurd rfl h2
  · next h => cases h; rfl

theorem decode_hex {a b : Char} {x y : ℕ} (ha : digitValue a = some x) (hb : digitValue b = some y) (h : x * 16 + y < 256) (cs : Txt) :
    decode ('%' :: a :: b :: cs) = (decode cs).bind fun r => .done (Char.ofNat (x * 16 + y) :: r) := by
  rw [show decode ('%' :: a :: b :: cs) = (match digitValue a, digitValue b with
      | some x, some y =>
        if 256 ≤ x * 16 + y then Out.error else (decode cs).bind fun r => Out.done (Char.ofNat (x * 16 + y) :: r)
      | _, _ => Out.error) from rfl, ha, hb]
  simp only
  rw [if_neg (by omega)]

theorem ofNat_toNat (c : Char) : Char.ofNat c.toNat = c := Char.ofNat_toNat c

theorem encode_decode : ∀ (xs : Txt), (∀ c ∈ xs, c.toNat < 256) → ∃ e, encode xs = .done e ∧ decode e = .done xs ∧
    ∀ c ∈ e, isAlphaNumeric c ∨ c ∈ ['-', '_', '.', '*', '+', '%'] := by
  have hnp : ∀ c ∈ "abcdefghijklmnopqrstuvwxyzABCDEFGHIJKLMNOPQRSTUVWXYZ -_.*0123456789".toList, c ≠ ' ' →
      isAlphaNumeric c ∨ c ∈ ['-', '_', '.', '*', '+', '%'] := by decide +kernel
  have hhx : ∀ n < 16, isAlphaNumeric (hexChar n) = true := by decide +kernel
  intro xs
  induction xs with
  | nil => exact fun _ => ⟨[], rfl, rfl, by simp⟩
  | cons c cs ih =>
    intro h
    obtain ⟨e, h1, h2, h3⟩ := ih (fun d hd => h d (by simp [hd]))
    have hc := h c (by simp)
    unfold encode
    rw [h1]
    by_cases hs : c = ' '
    · subst hs
      rw [if_pos rfl]
      refine ⟨'+' :: e, rfl, ?_, ?_⟩
      · rw [show decode ('+' :: e) = (decode e).bind fun r => .done (' ' :: r) from rfl, h2]; rfl
      · intro d hd
        rcases List.mem_cons.1 hd with rfl | hd
        · right; simp
        · exact h3 d hd
    · rw [if_neg hs, if_neg (by omega)]
      by_cases hn : noPercent c = true
      · rw [if_pos hn]
        obtain ⟨g1, g2⟩ := noPercent_ne hn
        refine ⟨c :: e, rfl, ?_, ?_⟩
        · rw [decode_cons g1 g2, h2]; rfl
        · intro d hd
          rcases List.mem_cons.1 hd with rfl | hd
          · exact hnp d (by unfold noPercent at hn; exact of_decide_eq_true hn) hs
          · exact h3 d hd
      · rw [if_neg hn]
        refine ⟨'%' :: hexChar (c.toNat / 16) :: hexChar (c.toNat % 16) :: e, rfl, ?_, ?_⟩
        · rw [decode_hex (hex_values _ (by omega)) (hex_values _ (by omega)) (by omega), h2, show c.toNat / 16 * 16 + c.toNat % 16 = c.toNat by omega, ofNat_toNat]
          rfl
        · intro d hd
          simp only [List.mem_cons] at hd
          rcases hd with rfl | rfl | rfl | hd
          · right; simp
          · left; exact hhx _ (by omega)
          · left; exact hhx _ (by omega)
          · exact h3 d hd

/-! ### Parsing -/

theorem readUntil_stop {stop : Char → Bool} {w : Txt} {c : Char} (hw : ∀ d ∈ w, stop d = false) (hc : stop c = true) (ch : Option Char)
    (rest : Txt) : readUntil stop ch (w ++ c :: rest) = (w, some c, rest) := by
  induction w generalizing ch with
  | nil => simp [readUntil, hc]
  | cons d ds ih =>
    rw [List.cons_append]
    unfold readUntil
    rw [if_neg (by rw [hw d (by simp)]; simp), ih (fun x hx => hw x (by simp [hx]))]

theorem readUntil_end {stop : Char → Bool} {w : Txt} (hw : ∀ d ∈ w, stop d = false) (ch : Option Char) :
    readUntil stop ch w = (w, if w = [] then ch else w.getLast?, []) := by
  induction w generalizing ch with
  | nil => rfl
  | cons d ds ih =>
    unfold readUntil
    rw [if_neg (by rw [hw d (by simp)]; simp), ih (fun x hx => hw x (by simp [hx]))]
    cases ds with
    | nil => rfl
    | cons e es => simp [List.getLast?_cons_cons]

/-- After host and port were read. -/
def finish (n : ℕ) (a : Auth) (ch : Option Char) (rest : Txt) : Out (Auth × Option Char × Txt) :=
  if ch = some '@' then
    let a := if a.host ≠ none then { a with username := a.host, host := none } else a
    let a := if a.port ≠ none then { a with password := a.port, port := none } else a
    authLoop n a ch rest
  else .done (a, ch, rest)

theorem auth_succ (n : ℕ) (a : Auth) (ch : Option Char) (xs : Txt) : authLoop (n + 1) a ch xs =
    let r := readUntil (fun c => c = '/' ∨ c = ':' ∨ c = '@') ch xs
    let s := if r.2.1 = some ':' then readUntil (fun c => c = '/' ∨ c = '@') r.2.1 r.2.2 else ([], r.2)
    finish n { a with host := keep a.host r.1, port := keep a.port s.1 } s.2.1 s.2.2 := rfl

theorem auth_one {n : ℕ} {a : Auth} {ch : Option Char} {xs w rest : Txt} {c : Option Char}
    (hr : readUntil (fun c => c = '/' ∨ c = ':' ∨ c = '@') ch xs = (w, c, rest)) (hc : c ≠ some ':') :
    authLoop (n + 1) a ch xs = finish n { a with host := keep a.host w, port := keep a.port [] } c rest := by
  rw [auth_succ]
  simp only [hr, if_neg hc]

theorem auth_two {n : ℕ} {a : Auth} {ch : Option Char} {xs w rest v rest' : Txt} {c : Option Char}
    (hr : readUntil (fun c => c = '/' ∨ c = ':' ∨ c = '@') ch xs = (w, some ':', rest))
    (hs : readUntil (fun c => c = '/' ∨ c = '@') (some ':') rest = (v, c, rest')) :
    authLoop (n + 1) a ch xs = finish n { a with host := keep a.host w, port := keep a.port v } c rest' := by
  rw [auth_succ]
  simp only [hr, if_true, hs]

/-- A text without slashes that ends with an at sign, or nothing after an at sign. -/
def Stuck (ch : Option Char) (xs : Txt) : Prop := '/' ∉ xs ∧ ((xs = [] ∧ ch = some '@') ∨ xs.getLast? = some '@')

theorem split_first (p : Char → Bool) : ∀ (xs : Txt) (c : Char), c ∈ xs → p c = true →
    ∃ w d rest, xs = w ++ d :: rest ∧ (∀ x ∈ w, p x = false) ∧ p d = true := by
  intro xs
  induction xs with
  | nil => intro c h; simp at h
  | cons x xs ih =>
    intro c hc hp
    cases hx : p x with
    | true => exact ⟨[], x, xs, rfl, by simp, hx⟩
    | false =>
      rcases List.mem_cons.1 hc with rfl | hc
      · rw [hx] at hp; simp at hp
      · obtain ⟨w, d, rest, h1, h2, h3⟩ := ih c hc hp
        refine ⟨x :: w, d, rest, by rw [h1]; rfl, ?_, h3⟩
        intro y hy
        rcases List.mem_cons.1 hy with rfl | hy
        · exact hx
        · exact h2 y hy

theorem stuck_rest {ch : Option Char} {w rest : Txt} {d : Char} (h : Stuck ch (w ++ d :: rest)) :
    '/' ≠ d ∧ (Stuck (some d) rest ∨ (rest = [] ∧ d = '@')) ∧ (rest = [] → d = '@') := by
  obtain ⟨h1, h2⟩ := h
  simp only [List.mem_append, List.mem_cons, not_or] at h1
  have h3 : (w ++ d :: rest).getLast? = some '@' := by
    rcases h2 with ⟨h, _⟩ | h
    · simp at h
    · exact h
  have h4 : rest = [] → d = '@' := by
    rintro rfl
    simpa using h3
  refine ⟨h1.2.1, ?_, h4⟩
  cases rest with
  | nil => exact Or.inr ⟨rfl, h4 rfl⟩
  | cons x xs =>
    refine Or.inl ⟨h1.2.2, Or.inr ?_⟩
    simpa using h3

theorem auth_never : ∀ (n : ℕ) (a : Auth) (ch : Option Char) (xs : Txt), Stuck ch xs → authLoop n a ch xs = .never := by
  intro n
  induction n with
  | zero => intros; rfl
  | succ n ih =>
    intro a ch xs h
    have hfin : ∀ (a : Auth) (rest : Txt), Stuck (some '@') rest → finish n a (some '@') rest = .never := by
      intro a rest hs
      unfold finish
      rw [if_pos rfl]
      exact ih _ _ _ hs
    by_cases hx : xs = []
    · subst hx
      rcases h.2 with ⟨_, h2⟩ | h2
      · subst h2
        rw [auth_one (w := []) (c := some '@') (rest := []) rfl (by decide)]
        exact hfin _ _ h
      · simp at h2
    · have hat : '@' ∈ xs := by
        rcases h.2 with ⟨h2, _⟩ | h2
        · exact absurd h2 hx
        · exact List.mem_of_getLast? h2
      obtain ⟨w, d, rest, rfl, h2, h3⟩ := split_first (fun c => decide (c = '/' ∨ c = ':' ∨ c = '@')) xs '@' hat (by decide)
      obtain ⟨g1, g2, g3⟩ := stuck_rest h
      by_cases hd : d = ':'
      · subst hd
        have hr : rest ≠ [] := fun e => absurd (g3 e) (by decide)
        have hs : Stuck (some ':') rest := by
          rcases g2 with g2 | g2
          · exact g2
          · exact absurd g2.1 hr
        have hat2 : '@' ∈ rest := by
          rcases hs.2 with ⟨h2, _⟩ | h2
          · exact absurd h2 hr
          · exact List.mem_of_getLast? h2
        obtain ⟨w2, d2, rest2, rfl, k2, k3⟩ := split_first (fun c => decide (c = '/' ∨ c = '@')) rest '@' hat2 (by decide)
        rw [auth_two (readUntil_stop h2 h3 _ _) (readUntil_stop k2 k3 _ _)]
        obtain ⟨l1, l2, _⟩ := stuck_rest hs
        have : d2 = '@' := by
          simp only [decide_eq_true_eq] at k3
          rcases k3 with k3 | k3
          · exact absurd k3.symm l1
          · exact k3
        subst this
        refine hfin _ _ ?_
        rcases l2 with l2 | l2
        · exact l2
        · rw [l2.1]; exact ⟨by simp, Or.inl ⟨rfl, rfl⟩⟩
      · rw [auth_one (readUntil_stop h2 h3 _ _) (by simpa using hd)]
        have : d = '@' := by
          simp only [decide_eq_true_eq] at h3
          rcases h3 with h3 | h3 | h3
          · exact absurd h3.symm g1
          · exact absurd h3 hd
          · exact h3
        subst this
        refine hfin _ _ ?_
        rcases g2 with g2 | g2
        · exact g2
        · rw [g2.1]; exact ⟨by simp, Or.inl ⟨rfl, rfl⟩⟩

/-! ### Printing and reading -/

/-- Plain text. -/
def Without (bad : Txt) (xs : Txt) : Prop := ∀ c ∈ xs, c ∉ bad

theorem copyFrom_one (xs : Txt) (n : ℕ) : copyFrom xs 1 n = xs.take n := by simp [copyFrom]

theorem indexOf_absent {c : Char} {xs : Txt} (h : c ∉ xs) : indexOf c xs = 0 := by simp [indexOf, h]

theorem idxOf_append {c : Char} {a b : Txt} (h : c ∉ a) : (a ++ c :: b).idxOf c = a.length := by
  rw [List.idxOf_append_of_notMem h]
  simp

theorem indexOf_append {c : Char} {a b : Txt} (h : c ∉ a) : indexOf c (a ++ c :: b) = a.length + 1 := by
  unfold indexOf
  rw [if_pos (by simp), idxOf_append h]

theorem indexFrom_absent {c : Char} {a b : Txt} (h : c ∉ b) : indexFrom c (a ++ b) (a.length + 1) = (a ++ b).length + 1 := by
  unfold indexFrom
  rw [Nat.add_sub_cancel, List.drop_left, if_neg h]

theorem indexFrom_append {c : Char} {a b d : Txt} (h : c ∉ b) :
    indexFrom c (a ++ (b ++ c :: d)) (a.length + 1) = a.length + b.length + 1 := by
  unfold indexFrom
  rw [Nat.add_sub_cancel, List.drop_left, if_pos (by simp), idxOf_append h]
  omega

theorem copyFrom_mid (a b d : Txt) : copyFrom (a ++ (b ++ d)) (a.length + 1) (a.length + b.length) = b := by
  unfold copyFrom
  rw [Nat.add_sub_cancel, List.drop_left, show a.length + b.length + 1 - (a.length + 1) = b.length by omega, List.take_left]

/-- The parts before, between and after the marks. -/
def marks (q f : Option Txt) : Txt := (match q with | some q => '?' :: q | none => []) ++ (match f with | some f => '#' :: f | none => [])

theorem fromString_marks (n : ℕ) (front : Txt) (q f : Option Txt) (hf : Without ['?', '#'] front)
    (hq : ∀ t, q = some t → '#' ∉ t) (hfr : ∀ t, f = some t → '?' ∉ t) :
    fromString n (front ++ marks q f) = (fromURLString n front).bind fun u =>
      .done { u with query := q.or u.query, fragment := f.or u.fragment } := by
  have h1 : '?' ∉ front := fun h => absurd (by simp) (hf _ h)
  have h2 : '#' ∉ front := fun h => absurd (by simp) (hf _ h)
  cases q with
  | none =>
    cases f with
    | none =>
      simp only [marks, List.append_nil]
      unfold fromString
      simp only [indexOf_absent h1, indexOf_absent h2, copyFrom_one]
      simp
    | some t =>
      have h3 := hfr t rfl
      have e1 : indexOf '?' (front ++ '#' :: t) = 0 := indexOf_absent (by simp [h1, h3])
      have e2 : indexOf '#' (front ++ '#' :: t) = front.length + 1 := indexOf_append h2
      have e3 : indexFrom '?' (front ++ '#' :: t) (front.length + 1 + 1) = (front ++ '#' :: t).length + 1 := by
        have := indexFrom_absent (c := '?') (a := front ++ ['#']) (b := t) h3
        simpa using this
      have e4 : copyFrom (front ++ '#' :: t) (front.length + 1 + 1) (front ++ '#' :: t).length = t := by
        have := copyFrom_mid (front ++ ['#']) t []
        simp only [List.append_nil, List.append_assoc, List.singleton_append, List.length_append, List.length_singleton] at this
        simp only [List.length_append, List.length_cons]
        rw [show front.length + (t.length + 1) = front.length + 1 + t.length by omega]
        exact this
      simp only [marks, List.nil_append]
      unfold fromString
      simp only [e1, e2, e3, copyFrom_one, ne_eq, not_true_eq_false, if_false, Nat.add_sub_cancel, e4]
      rw [if_pos (by omega), show min ((front ++ '#' :: t).length + 1) (front.length + 1) - 1 = front.length by simp, List.take_left]
      simp
  | some s =>
    have hs := hq s rfl
    cases f with
    | none =>
      have e1 : indexOf '?' (front ++ '?' :: s) = front.length + 1 := indexOf_append h1
      have e2 : indexOf '#' (front ++ '?' :: s) = 0 := indexOf_absent (by simp [h2, hs])
      have e3 : indexFrom '#' (front ++ '?' :: s) (front.length + 1 + 1) = (front ++ '?' :: s).length + 1 := by
        have := indexFrom_absent (c := '#') (a := front ++ ['?']) (b := s) hs
        simpa using this
      have e4 : copyFrom (front ++ '?' :: s) (front.length + 1 + 1) (front ++ '?' :: s).length = s := by
        have := copyFrom_mid (front ++ ['?']) s []
        simp only [List.append_nil, List.append_assoc, List.singleton_append, List.length_append, List.length_singleton] at this
        simp only [List.length_append, List.length_cons]
        rw [show front.length + (s.length + 1) = front.length + 1 + s.length by omega]
        exact this
      simp only [marks, List.append_nil]
      unfold fromString
      simp only [e1, e2, e3, copyFrom_one, ne_eq, not_true_eq_false, if_false, Nat.add_sub_cancel, e4]
      rw [if_pos (by omega), Nat.add_sub_cancel, List.take_left]
      simp
    | some t =>
      have h3 := hfr t rfl
      have e1 : indexOf '?' (front ++ '?' :: (s ++ '#' :: t)) = front.length + 1 := indexOf_append h1
      have e2 : indexOf '#' (front ++ '?' :: (s ++ '#' :: t)) = front.length + 1 + s.length + 1 := by
        have := indexOf_append (c := '#') (a := front ++ '?' :: s) (b := t) (by simp [h2, hs])
        simp only [List.append_assoc, List.cons_append, List.length_append, List.length_cons] at this
        rw [this]
        omega
      have e3 : indexFrom '#' (front ++ '?' :: (s ++ '#' :: t)) (front.length + 1 + 1) = front.length + 1 + s.length + 1 := by
        have := indexFrom_append (c := '#') (a := front ++ ['?']) (b := s) (d := t) hs
        simpa using this
      have e4 : copyFrom (front ++ '?' :: (s ++ '#' :: t)) (front.length + 1 + 1) (front.length + 1 + s.length) = s := by
        have := copyFrom_mid (front ++ ['?']) s ('#' :: t)
        simpa using this
      have e5 : indexFrom '?' (front ++ '?' :: (s ++ '#' :: t)) (front.length + 1 + s.length + 1 + 1) =
          (front ++ '?' :: (s ++ '#' :: t)).length + 1 := by
        have := indexFrom_absent (c := '?') (a := front ++ '?' :: (s ++ ['#'])) (b := t) h3
        simp only [List.append_assoc, List.cons_append, List.length_append, List.length_cons, List.length_nil, List.nil_append] at this ⊢
        rw [show front.length + 1 + s.length + 1 + 1 = front.length + (s.length + (0 + 1) + 1) + 1 by omega]
        exact this
      have e6 : copyFrom (front ++ '?' :: (s ++ '#' :: t)) (front.length + 1 + s.length + 1 + 1)
          (front ++ '?' :: (s ++ '#' :: t)).length = t := by
        have := copyFrom_mid (front ++ '?' :: (s ++ ['#'])) t []
        simp only [List.append_nil, List.append_assoc, List.cons_append, List.length_append, List.length_cons, List.length_nil,
          List.nil_append] at this ⊢
        rw [show front.length + 1 + s.length + 1 + 1 = front.length + (s.length + (0 + 1) + 1) + 1 by omega,
          show front.length + (s.length + (t.length + 1) + 1) = front.length + (s.length + (0 + 1) + 1) + t.length by omega]
        exact this
      simp only [marks, List.cons_append]
      unfold fromString
      simp only [e1, e2, e3, e5, copyFrom_one, Nat.add_sub_cancel, e4, e6]
      rw [if_pos (by omega), if_pos (by omega), show min (front.length + 1) (front.length + 1 + s.length + 1) - 1 = front.length by omega,
        List.take_left]
      simp

/-- Which URLs are meant. -/
structure Plain (u : URL) : Prop where
  scheme : ∃ s, u.scheme = some s ∧ s ≠ [] ∧ ∀ c ∈ s, isAlphaNumeric c = true ∨ c = '+'
  username : ∀ t, u.username = some t → t ≠ [] ∧ Without ['/', ':', '@', '?', '#'] t
  password : ∀ t, u.password = some t → t ≠ [] ∧ Without ['/', '@', '?', '#'] t ∧ u.username ≠ none
  host : ∃ h, u.host = some h ∧ h ≠ [] ∧ Without ['/', ':', '@', '?', '#'] h
  port : 0 ≤ u.port
  path : ∀ p, u.path = some p → p.head? = some '/' ∧ 2 ≤ p.length ∧ Without ['?', '#'] p
  query : ∀ q, u.query = some q → '#' ∉ q
  fragment : ∀ f, u.fragment = some f → '?' ∉ f

theorem decimal_spec (p : ℕ) (hp : 0 < p) : decimal p ≠ [] ∧ asInteger (decimal p) = p ∧ ∀ c ∈ decimal p, isAlphaNumeric c = true := by
  have h0 : Nat.digits 10 p ≠ [] := by rw [Nat.digits_ne_nil_iff_ne_zero]; omega
  have hd : ∀ d ∈ Nat.digits 10 p, d < 10 := fun d hd => Nat.digits_lt_base (by omega) hd
  have hne : ((Nat.digits 10 p).reverse.map (Fin.ofNat 10)) ≠ [] := by simpa using h0
  have hv := (asInteger_digits _ hne [] (by intro c cs h; simp at h)).1
  have e : ((Nat.digits 10 p).reverse.map (Fin.ofNat 10)).reverse.map Fin.val = Nat.digits 10 p := by
    rw [← List.map_reverse, List.reverse_reverse, List.map_map]
    conv_rhs => rw [← List.map_id (Nat.digits 10 p)]
    refine List.map_congr_left fun d hdm => ?_
    simp [Fin.ofNat, Nat.mod_eq_of_lt (hd d hdm)]
  rw [e, Nat.ofDigits_digits, List.append_nil] at hv
  refine ⟨by unfold decimal; simpa using h0, hv, ?_⟩
  intro c hc
  unfold decimal at hc
  obtain ⟨d, _, rfl⟩ := List.mem_map.1 hc
  clear hc
  have : ∀ d : Fin 10, isAlphaNumeric (digitChar d) = true := by decide
  exact this d

theorem alnum_not {c : Char} (h : isAlphaNumeric c = true) : c ≠ '/' ∧ c ≠ ':' ∧ c ≠ '@' ∧ c ≠ '?' ∧ c ≠ '#' := by
  refine ⟨?_, ?_, ?_, ?_, ?_⟩ <;> (rintro rfl; exact absurd h (by decide))

theorem without_stop {w : Txt} (h : Without ['/', ':', '@', '?', '#'] w) :
    ∀ d ∈ w, decide (d = '/' ∨ d = ':' ∨ d = '@') = false := by
  intro d hd
  have := h d hd
  simp only [List.mem_cons, not_or, List.not_mem_nil] at this
  simp [this]

theorem without_stop2 {w : Txt} (h : Without ['/', '@', '?', '#'] w) : ∀ d ∈ w, decide (d = '/' ∨ d = '@') = false := by
  intro d hd
  have := h d hd
  simp only [List.mem_cons, not_or, List.not_mem_nil] at this
  simp [this]

/-- The last round: the host, the port, and what comes after. -/
theorem auth_host (n : ℕ) (a : Auth) (ch : Option Char) (h : Txt) (hh : h ≠ []) (hw : Without ['/', ':', '@', '?', '#'] h)
    (p : ℕ) (rest : Txt) (ha : a.port = none) :
    authLoop (n + 1) a ch (h ++ ((if p > 0 then ':' :: decimal p else []) ++ '/' :: rest)) =
      .done ({ a with host := some h, port := if p > 0 then some (decimal p) else none }, some '/', rest) := by
  by_cases hp : p > 0
  · obtain ⟨d1, _, d3⟩ := decimal_spec p hp
    rw [if_pos hp, if_pos hp, List.cons_append, auth_two (readUntil_stop (without_stop hw) (by decide) _ _)
      (readUntil_stop (fun d hd => by have := alnum_not (d3 d hd); simp [this]) (by decide) _ _)]
    simp [finish, keep, hh, d1]
  · rw [if_neg hp, if_neg hp, List.nil_append, auth_one (readUntil_stop (without_stop hw) (by decide) _ _) (by decide)]
    simp [finish, keep, hh, ha]

/-- What comes after the slashes. -/
def authText (u : URL) (h : Txt) : Txt :=
  (match u.username with
    | some n => n ++ (match u.password with
        | some p => ':' :: p
        | none => []) ++ ['@']
    | none => []) ++ (h ++ (if u.port > 0 then ':' :: decimal u.port.toNat else []))

theorem auth_text (n : ℕ) (u : URL) (hu : Plain u) (h : Txt) (hh : u.host = some h) (ch : Option Char) (rest : Txt) :
    authLoop (n + 2) ⟨none, none, none, none⟩ ch (authText u h ++ '/' :: rest) =
      .done (⟨u.username, u.password, some h, if u.port > 0 then some (decimal u.port.toNat) else none⟩, some '/', rest) := by
  obtain ⟨h', e, h1, h2⟩ := hu.host
  rw [hh] at e
  obtain rfl := Option.some.inj e
  have hpn : u.port > 0 ↔ u.port.toNat > 0 := by have := hu.port; omega
  unfold authText
  simp only [hpn]
  cases hun : u.username with
  | none =>
    have hpw : u.password = none := by
      by_contra hc
      obtain ⟨t, ht⟩ := Option.ne_none_iff_exists'.1 hc
      exact (hu.password t ht).2.2 hun
    simp only [List.nil_append, List.append_assoc, hpw]
    rw [auth_host (n + 1) _ ch h h1 h2 u.port.toNat rest rfl]
  | some t =>
    obtain ⟨t1, t2⟩ := hu.username t hun
    cases hpw : u.password with
    | none =>
      simp only [List.append_nil, List.append_assoc, List.cons_append, List.nil_append]
      rw [auth_one (readUntil_stop (without_stop t2) (by decide) _ _) (by decide)]
      unfold finish
      simp only [if_true, keep, t1, if_false, ne_eq, reduceCtorEq, not_false_eq_true, not_true_eq_false]
      rw [auth_host n _ _ h h1 h2 u.port.toNat rest rfl]
    | some w =>
      obtain ⟨w1, w2, _⟩ := hu.password w hpw
      simp only [List.append_assoc, List.cons_append, List.nil_append]
      rw [auth_two (readUntil_stop (without_stop t2) (by decide) _ _) (readUntil_stop (without_stop2 w2) (by decide) _ _)]
      unfold finish
      simp only [if_true, keep, t1, w1, if_false, ne_eq, reduceCtorEq, not_false_eq_true]
      rw [auth_host n _ _ h h1 h2 u.port.toNat rest rfl]

theorem fromString_print (n : ℕ) (u : URL) (hu : Plain u) : fromString (n + 2) (print u) = .done u := by
  obtain ⟨s, hs, s1, s2⟩ := hu.scheme
  obtain ⟨h, hh, h1, h2⟩ := hu.host
  obtain ⟨tl, htl, hpath⟩ : ∃ tl, u.path.getD ['/'] = '/' :: tl ∧ (if tl = [] then none else some ('/' :: tl)) = u.path := by
    cases hp : u.path with
    | none => exact ⟨[], rfl, rfl⟩
    | some p =>
      obtain ⟨g1, g2, _⟩ := hu.path p hp
      cases p with
      | nil => simp at g1
      | cons x xs =>
        obtain rfl : x = '/' := by simpa using g1
        refine ⟨xs, rfl, ?_⟩
        cases xs with
        | nil => simp at g2
        | cons y ys => simp
  have htlw : Without ['?', '#'] ('/' :: tl) := by
    cases hp : u.path with
    | none =>
      rw [hp] at htl
      rw [← htl]
      intro c hc
      simp at hc
      subst hc
      decide
    | some p =>
      rw [hp] at htl
      rw [← htl]
      exact (hu.path p hp).2.2
  have hprint : print u = (s ++ ':' :: '/' :: '/' :: (authText u h ++ '/' :: tl)) ++ marks u.query u.fragment := by
    unfold print authText marks
    rw [hs, hh, htl]
    cases u.username <;> cases u.password <;> cases u.query <;> cases u.fragment <;> simp [List.append_assoc]
  have hfront : Without ['?', '#'] (s ++ ':' :: '/' :: '/' :: (authText u h ++ '/' :: tl)) := by
    have hA : ∀ c ∈ authText u h, c ∉ ['?', '#'] := by
      intro c hc
      have key : ∀ t : Txt, (∀ d ∈ t, d ≠ '?' ∧ d ≠ '#') → c ∈ t → c ∉ ['?', '#'] := by
        intro t ht hct
        have := ht c hct
        simp [this]
      have hH : ∀ d ∈ h, d ≠ '?' ∧ d ≠ '#' := by
        intro d hd
        have := h2 d hd
        simp only [List.mem_cons, not_or, List.not_mem_nil] at this
        tauto
      have hP : ∀ d ∈ (if u.port > 0 then ':' :: decimal u.port.toNat else []), d ≠ '?' ∧ d ≠ '#' := by
        intro d hd
        by_cases hp : u.port > 0
        · rw [if_pos hp] at hd
          rcases List.mem_cons.1 hd with rfl | hd
          · decide
          · have := alnum_not ((decimal_spec _ (by omega)).2.2 d hd)
            tauto
        · rw [if_neg hp] at hd
          simp at hd
      unfold authText at hc
      rcases List.mem_append.1 hc with hc | hc
      · cases hun : u.username with
        | none => rw [hun] at hc; simp at hc
        | some t =>
          obtain ⟨_, t2⟩ := hu.username t hun
          have hT : ∀ d ∈ t, d ≠ '?' ∧ d ≠ '#' := by
            intro d hd
            have := t2 d hd
            simp only [List.mem_cons, not_or, List.not_mem_nil] at this
            tauto
          rw [hun] at hc
          simp only [List.mem_append, List.mem_singleton] at hc
          rcases hc with (hc | hc) | rfl
          · exact key t hT hc
          · cases hpw : u.password with
            | none => rw [hpw] at hc; simp at hc
            | some w =>
              rw [hpw] at hc
              obtain ⟨_, w2, _⟩ := hu.password w hpw
              rcases List.mem_cons.1 hc with rfl | hc
              · decide
              · refine key w (fun d hd => ?_) hc
                have := w2 d hd
                simp only [List.mem_cons, not_or, List.not_mem_nil] at this
                tauto
          · decide
      · rcases List.mem_append.1 hc with hc | hc
        · exact key h hH hc
        · exact key _ hP hc
    intro c hc
    simp only [List.mem_append, List.mem_cons] at hc
    rcases hc with hc | rfl | rfl | rfl | hc | rfl | hc
    · rcases s2 c hc with h | rfl
      · have := alnum_not h
        simp [this]
      · decide
    · decide
    · decide
    · decide
    · exact hA c hc
    · decide
    · exact htlw c (by simp [hc])
  rw [hprint, fromString_marks _ _ _ _ hfront hu.query hu.fragment]
  have hscan : readUntil (fun c => !isAlphaNumeric c && c ≠ '+') none (s ++ ':' :: '/' :: '/' :: (authText u h ++ '/' :: tl)) =
      (s, some ':', '/' :: '/' :: (authText u h ++ '/' :: tl)) := by
    refine readUntil_stop (fun d hd => ?_) (by decide) _ _
    rcases s2 d hd with h | rfl
    · simp [h]
    · decide
  have hport : (match (if u.port > 0 then some (decimal u.port.toNat) else none : Option Txt) with
      | none => (0 : ℤ)
      | some p => asInteger p) = u.port := by
    have := hu.port
    by_cases hp : u.port > 0
    · rw [if_pos hp]
      simp only
      rw [(decimal_spec _ (by omega)).2.1]
      omega
    · rw [if_neg hp]
      simp only
      omega
  unfold fromURLString
  simp only [hscan, s1, ne_eq, not_true_eq_false, or_self, decide_false, Bool.false_eq_true, if_false]
  simp only [List.take_succ_cons, List.take_zero, if_true, List.drop_succ_cons, List.drop_zero]
  rw [auth_text n u hu h hh]
  simp only [Out.bind, Option.toList, List.singleton_append, hpath]
  obtain ⟨a, b, c, d, e, f, g, k⟩ := u
  simp only at hs hh
  subst hs hh
  have : ∀ q : Option Txt, q.or none = q := fun q => by cases q <;> rfl
  simp only [this]
  exact congrArg (fun p => Out.done (URL.mk (some s) b c (some h) p f g k)) hport

theorem never_at (n : ℕ) (s w : Txt) (s1 : s ≠ []) (s2 : ∀ c ∈ s, isAlphaNumeric c = true ∨ c = '+')
    (hw : Without ['/', '?', '#'] w) : fromString n (s ++ ':' :: '/' :: '/' :: (w ++ ['@'])) = .never := by
  have hfront : Without ['?', '#'] (s ++ ':' :: '/' :: '/' :: (w ++ ['@'])) := by
    intro c hc
    simp only [List.mem_append, List.mem_cons, List.not_mem_nil, or_false] at hc
    rcases hc with hc | rfl | rfl | rfl | hc | rfl
    · rcases s2 c hc with h | rfl
      · have := alnum_not h
        simp [this]
      · decide
    · decide
    · decide
    · decide
    · have := hw c hc
      simp only [List.mem_cons, not_or, List.not_mem_nil] at this
      simp [this]
    · decide
  have := fromString_marks n (s ++ ':' :: '/' :: '/' :: (w ++ ['@'])) none none hfront (by simp) (by simp)
  simp only [marks, List.append_nil] at this
  rw [this]
  have hscan : readUntil (fun c => !isAlphaNumeric c && c ≠ '+') none (s ++ ':' :: '/' :: '/' :: (w ++ ['@'])) =
      (s, some ':', '/' :: '/' :: (w ++ ['@'])) := by
    refine readUntil_stop (fun d hd => ?_) (by decide) _ _
    rcases s2 d hd with h | rfl
    · simp [h]
    · decide
  unfold fromURLString
  simp only [hscan, s1, ne_eq, not_true_eq_false, or_self, decide_false, Bool.false_eq_true, if_false]
  simp only [List.take_succ_cons, List.take_zero, if_true, List.drop_succ_cons, List.drop_zero]
  rw [auth_never]
  · rfl
  · refine ⟨fun hm => ?_, Or.inr (by simp)⟩
    rcases List.mem_append.1 hm with hm | hm
    · exact absurd (by simp) (hw _ hm)
    · simp at hm

/-! ### Paths -/

/-- The parts of a path. -/
def parts (xs : Txt) : List Txt := xs.splitOnP (· = '/')

theorem parts_upTo (xs : Txt) (h : '/' ∈ xs) : parts xs = (upTo '/' xs).1 :: parts (upTo '/' xs).2 := by
  induction xs with
  | nil => simp at h
  | cons c cs ih =>
    unfold parts
    rw [List.splitOnP_cons_eq_if_modifyHead]
    by_cases hc : c = '/'
    · subst hc
      simp [upTo]
    · have hm : '/' ∈ cs := by
        rcases List.mem_cons.1 h with h | h
        · exact absurd h.symm hc
        · exact h
      have := ih hm
      unfold parts at this
      rw [if_neg (by simpa using hc), this]
      simp [upTo, hc]

theorem parts_none (xs : Txt) (h : '/' ∉ xs) : parts xs = [xs] ∧ upTo '/' xs = (xs, []) := by
  induction xs with
  | nil => exact ⟨rfl, rfl⟩
  | cons c cs ih =>
    rw [List.mem_cons, not_or] at h
    obtain ⟨i1, i2⟩ := ih h.2
    have hc : c ≠ '/' := fun e => h.1 e.symm
    unfold parts at i1
    unfold upTo at i2
    obtain ⟨i3, i4⟩ := Prod.mk.inj i2
    constructor
    · unfold parts
      rw [List.splitOnP_cons_eq_if_modifyHead, if_neg (by simpa using hc), i1]
      rfl
    · unfold upTo
      rw [List.takeWhile_cons, List.dropWhile_cons, if_pos (by simpa using hc), if_pos (by simpa using hc), i3, i4]

theorem upTo_shorter (xs : Txt) (h : xs ≠ []) : (upTo '/' xs).2.length < xs.length := by
  unfold upTo
  simp only
  rw [List.length_drop]
  have := (List.dropWhile_sublist (· ≠ '/') (l := xs)).length_le
  have := List.length_pos_iff.2 h
  omega

theorem pathLoop_parts : ∀ (n : ℕ) (xs : Txt) (st : List Txt), xs.length ≤ n → pathLoop n xs st = (parts xs).foldl pathStep st := by
  have hnil : ∀ st : List Txt, (parts []).foldl pathStep st = st := fun st => rfl
  intro n
  induction n with
  | zero =>
    intro xs st h
    obtain rfl : xs = [] := List.length_eq_zero_iff.1 (by omega)
    rfl
  | succ n ih =>
    intro xs st h
    unfold pathLoop
    by_cases hx : xs = []
    · rw [if_pos hx, hx, hnil]
    · rw [if_neg hx]
      simp only
      rw [ih _ _ (by have := upTo_shorter xs hx; omega)]
      by_cases hm : '/' ∈ xs
      · rw [parts_upTo xs hm, List.foldl_cons]
      · obtain ⟨e1, e2⟩ := parts_none xs hm
        rw [e1, e2, hnil]
        rfl

/-- A component that stays. -/
def Normal (p : Txt) : Prop := p ≠ [] ∧ p ≠ ['.'] ∧ p ≠ ['.', '.'] ∧ '/' ∉ p

theorem parts_noslash (xs : Txt) : ∀ p ∈ parts xs, '/' ∉ p := by
  induction xs with
  | nil => intro p hp; simp [parts] at hp; subst hp; simp
  | cons c cs ih =>
    intro p hp
    unfold parts at hp
    rw [List.splitOnP_cons_eq_if_modifyHead] at hp
    by_cases hc : c = '/'
    · rw [if_pos (by simpa using hc)] at hp
      rcases List.mem_cons.1 hp with rfl | hp
      · simp
      · exact ih p hp
    · rw [if_neg (by simpa using hc)] at hp
      unfold parts at ih
      cases hq : cs.splitOnP (· = '/') with
      | nil => rw [hq] at hp; simp at hp
      | cons q qs =>
        rw [hq] at hp ih
        rcases List.mem_cons.1 hp with rfl | hp
        · rw [List.mem_cons, not_or]
          exact ⟨fun e => hc e.symm, ih q (by simp)⟩
        · exact ih p (by simp [hp])

theorem step_normal {st : List Txt} {p : Txt} (hs : ∀ q ∈ st, Normal q) (hp : '/' ∉ p) : ∀ q ∈ pathStep st p, Normal q := by
  intro q hq
  unfold pathStep at hq
  split at hq
  · exact hs q hq
  · split at hq
    · exact hs q (List.dropLast_subset _ hq)
    · rcases List.mem_append.1 hq with hq | hq
      · exact hs q hq
      · obtain rfl := List.mem_singleton.1 hq
        next h1 h2 _ => exact ⟨fun e => h1 (Or.inl e), fun e => h1 (Or.inr e), h2, hp⟩

theorem fold_normal (ps : List Txt) : ∀ (st : List Txt), (∀ q ∈ st, Normal q) → (∀ p ∈ ps, '/' ∉ p) →
    ∀ q ∈ ps.foldl pathStep st, Normal q := by
  induction ps with
  | nil => exact fun st h _ => h
  | cons p ps ih =>
    intro st h hp
    exact ih _ (step_normal h (hp p (by simp))) (fun q hq => hp q (by simp [hq]))

/-- A path made of components. -/
def render (st : List Txt) (slash : Bool) : Txt := if st = [] then ['/'] else st.flatMap (fun p => '/' :: p) ++ if slash then ['/'] else []

theorem construct_eq (p1 p2 : Txt) : constructPath p1 p2 = render ((parts p2).foldl pathStep
    (if p2.head? = some '/' then [] else
      let st := (parts p1).foldl pathStep []
      if p1.getLast? = some '/' then st else st.dropLast)) (p2.getLast? = some '/') := by
  unfold constructPath render
  simp only [pathLoop_parts _ _ _ (le_refl _), decide_eq_true_eq]

theorem base_normal (p1 p2 : Txt) : ∀ q ∈ (if p2.head? = some '/' then [] else
      let st := (parts p1).foldl pathStep []
      if p1.getLast? = some '/' then st else st.dropLast), Normal q := by
  have h := fold_normal (parts p1) [] (by simp) (parts_noslash p1)
  intro q hq
  split at hq
  · simp at hq
  · simp only at hq
    split at hq
    · exact h q hq
    · exact h q (List.dropLast_subset _ hq)

theorem upTo_parts {p : Txt} (h : '/' ∉ p) (rest : Txt) : upTo '/' (p ++ '/' :: rest) = (p, rest) := by
  induction p with
  | nil => simp [upTo]
  | cons c cs ih =>
    rw [List.mem_cons, not_or] at h
    have hc : c ≠ '/' := fun e => h.1 e.symm
    have := ih h.2
    unfold upTo at this ⊢
    obtain ⟨i3, i4⟩ := Prod.mk.inj this
    rw [List.cons_append, List.takeWhile_cons, List.dropWhile_cons, if_pos (by simpa using hc), if_pos (by simpa using hc), i3, i4]

theorem parts_append (p rest : Txt) (h : '/' ∉ p) : parts (p ++ '/' :: rest) = p :: parts rest := by
  rw [parts_upTo _ (by simp), upTo_parts h]

/-- The parts of a path that is made of components are those components, but for empty ones. -/
theorem parts_render (st : List Txt) (slash : Bool) (h : ∀ q ∈ st, Normal q) (acc : List Txt) :
    (parts (render st slash)).foldl pathStep acc = acc ++ st := by
  have key : ∀ (st : List Txt), (∀ q ∈ st, Normal q) → ∀ (acc : List Txt) (p : Txt), Normal p →
      (parts (p ++ (st.flatMap (fun p => '/' :: p) ++ if slash then ['/'] else []))).foldl pathStep acc = acc ++ p :: st := by
    intro st
    induction st with
    | nil =>
      intro _ acc p hp
      have hstep : pathStep acc p = acc ++ [p] := by
        unfold pathStep
        rw [if_neg (by have := hp.1; have := hp.2.1; tauto), if_neg hp.2.2.1]
      cases slash with
      | false =>
        simp only [List.flatMap_nil, Bool.false_eq_true, if_false, List.append_nil]
        rw [(parts_none p hp.2.2.2).1]
        exact hstep
      | true =>
        simp only [List.flatMap_nil, List.nil_append, if_true]
        rw [parts_append p [] hp.2.2.2, List.foldl_cons, hstep]
        rfl
    | cons q qs ih =>
      intro hs acc p hp
      have hstep : pathStep acc p = acc ++ [p] := by
        unfold pathStep
        rw [if_neg (by have := hp.1; have := hp.2.1; tauto), if_neg hp.2.2.1]
      rw [List.flatMap_cons, List.append_assoc, List.cons_append, parts_append p _ hp.2.2.2, List.foldl_cons, hstep,
        ih (fun x hx => hs x (by simp [hx])) _ q (hs q (by simp))]
      simp
  unfold render
  cases st with
  | nil => rw [if_pos rfl]; simp [parts, List.splitOnP_cons_eq_if_modifyHead, pathStep]
  | cons p ps =>
    rw [if_neg (by simp), List.flatMap_cons, List.append_assoc, List.cons_append]
    have := parts_append [] (p ++ (ps.flatMap (fun p => '/' :: p) ++ if slash then ['/'] else [])) (by simp)
    rw [List.nil_append] at this
    rw [this, List.foldl_cons, show pathStep acc [] = acc by simp [pathStep]]
    exact key ps (fun x hx => h x (by simp [hx])) acc p (h p (by simp))

theorem render_last (st : List Txt) (slash : Bool) (h : ∀ q ∈ st, Normal q) :
    (render st slash).getLast? = some '/' ↔ st = [] ∨ slash = true := by
  unfold render
  by_cases hs : st = []
  · simp [hs]
  · rw [if_neg hs]
    cases slash with
    | true => simp
    | false =>
      simp only [hs, false_or, Bool.false_eq_true, if_false, List.append_nil, iff_false]
      obtain ⟨m, p, rfl⟩ : ∃ m p, st = m ++ [p] := ⟨st.dropLast, st.getLast hs, (List.dropLast_append_getLast hs).symm⟩
      obtain ⟨h1, _, _, h4⟩ := h p (by simp)
      rw [List.flatMap_append, List.flatMap_singleton]
      intro hc
      have h2 : p.getLast? = some '/' := by
        cases p with
        | nil => exact absurd rfl h1
        | cons x xs =>
          rw [List.getLast?_append_of_ne_nil _ (by simp), List.getLast?_cons_cons] at hc
          exact hc
      exact h4 (List.mem_of_getLast? h2)

/-! ### Forms -/

theorem add_lookup {d d' : Dict} {k : Txt} {v : Option Txt} (h : addField d k v = .done d') :
    ∀ k', d'.lookup k' = if k' = k then
      (match d.lookup k with
        | none => some (.one v)
        | some (.one w) => some (.many [w, v])
        | some (.many vs) => some (.many (vs ++ [v]))) else d.lookup k' := by
  have hmap : ∀ (d : Dict) (x : Entry) (k' : Txt), (d.map fun e => if e.1 = k then (k, x) else e).lookup k' =
      if k' = k then (d.lookup k).map (fun _ => x) else d.lookup k' := by
    intro d x k'
    induction d with
    | nil => simp
    | cons e es ih =>
      obtain ⟨a, b⟩ := e
      rw [List.map_cons]
      by_cases ha : a = k
      · subst ha
        by_cases hk : k' = a
        · subst hk; simp
        · rw [if_pos rfl, List.lookup_cons, List.lookup_cons, ih]
          have : (k' == a) = false := by simpa using hk
          rw [List.lookup_cons]
          simp [this, hk]
      · rw [if_neg ha, List.lookup_cons, List.lookup_cons, ih]
        by_cases hk : k' = k
        · subst hk
          have : (k' == a) = false := by simpa using fun e => ha e.symm
          simp [this]
        · rw [List.lookup_cons]; simp [hk]
  intro k'
  unfold addField at h
  split at h
  · next hd =>
    obtain rfl := Out.done.inj h
    rw [List.lookup_append]
    by_cases hk : k' = k
    · subst hk; simp [hd]
    · have : (k' == k) = false := by simpa using hk
      rw [if_neg hk]
      simp [List.lookup_cons, this]
  · simp at h
  · next w hd =>
    obtain rfl := Out.done.inj h
    rw [hmap, hd]
    rfl
  · next vs hd =>
    obtain rfl := Out.done.inj h
    rw [hmap, hd]
    rfl

/-- The values for a key, in order. -/
def entry : List (Option Txt) → Option Entry
  | [] => none
  | [v] => some (.one v)
  | vs => some (.many vs)

/-- The values that the fields have for a key. -/
def valuesOf (fs : List (Txt × Txt)) (k : Txt) : List (Option Txt) := (fs.filter fun f => f.1 = k).map fun f => some f.2

theorem decodeFields_spec : ∀ (fs done : List (Txt × Txt)) (d : Dict),
    (∀ f ∈ fs, '=' ∉ f.1 ∧ f.2 ≠ [] ∧ ∀ c ∈ f.2, c.toNat < 256) →
    (∀ k, d.lookup k = entry (valuesOf done k)) →
    ∀ texts : List Txt, List.Forall₂ (fun (f : Txt × Txt) t => ∃ e, encode f.2 = .done e ∧ t = f.1 ++ '=' :: e) fs texts →
      ∃ d', decodeFields texts d = .done d' ∧ ∀ k, d'.lookup k = entry (valuesOf (done ++ fs) k) := by
  intro fs
  induction fs with
  | nil =>
    intro done d _ hd texts ht
    cases ht
    exact ⟨d, rfl, by simpa using hd⟩
  | cons f fs ih =>
    intro done d hf hd texts ht
    obtain ⟨h1, h2, h3⟩ := hf f (by simp)
    cases ht with
    | @cons _ t _ ts hh htl =>
      obtain ⟨e, he, rfl⟩ := hh
      obtain ⟨e', he', hde, _⟩ := encode_decode f.2 h3
      rw [he] at he'
      obtain rfl := Out.done.inj he'
      have hen : e ≠ [] := by
        rintro rfl
        rw [show decode [] = .done [] from rfl] at hde
        exact h2 (Out.done.inj hde).symm
      have hlen := List.length_pos_iff.2 hen
      have hstep : ∃ d1, addField d f.1 (some f.2) = .done d1 := by
        unfold addField
        rw [hd f.1]
        cases hv : valuesOf done f.1 with
        | nil => exact ⟨_, rfl⟩
        | cons a as =>
          cases as with
          | nil =>
            obtain ⟨w, hw⟩ : ∃ w, a = some w := by
              have : a ∈ valuesOf done f.1 := by rw [hv]; simp
              unfold valuesOf at this
              obtain ⟨g, _, rfl⟩ := List.mem_map.1 this
              exact ⟨_, rfl⟩
            subst hw
            exact ⟨_, rfl⟩
          | cons b bs => exact ⟨_, rfl⟩
      obtain ⟨d1, hd1⟩ := hstep
      have hl := add_lookup hd1
      obtain ⟨d', k1, k2⟩ := ih (done ++ [f]) d1 (fun g hg => hf g (by simp [hg])) (by
        intro k
        rw [hl k]
        unfold valuesOf
        rw [List.filter_append, List.map_append]
        by_cases hk : k = f.1
        · subst hk
          rw [if_pos rfl, hd, List.filter_cons_of_pos (by simp)]
          unfold valuesOf
          cases (done.filter fun g => g.1 = f.1).map fun g => some g.2 with
          | nil => rfl
          | cons a as => cases as <;> simp [entry]
        · rw [if_neg hk, hd, List.filter_cons_of_neg (by simpa using fun e => hk e.symm)]
          simp [valuesOf]) ts htl
      refine ⟨d', ?_, by simpa using k2⟩
      unfold decodeFields
      have hi : (f.1 ++ '=' :: e).idxOf '=' = f.1.length := idxOf_append h1
      simp only
      rw [if_pos (by simp : '=' ∈ f.1 ++ '=' :: e), hi, if_pos (by simp only [List.length_append, List.length_cons]; omega)]
      have e1 : copyFrom (f.1 ++ '=' :: e) (f.1.length + 1 + 1) (f.1 ++ '=' :: e).length = e := by
        have := copyFrom_mid (f.1 ++ ['=']) e []
        simp only [List.append_nil, List.append_assoc, List.singleton_append, List.length_append, List.length_singleton] at this
        simp only [List.length_append, List.length_cons]
        rw [show f.1.length + (e.length + 1) = f.1.length + 1 + e.length by omega]
        exact this
      rw [e1, hde, Nat.add_sub_cancel, copyFrom_one, List.take_left]
      simp only [Out.bind]
      rw [hd1]
      exact k1

end Verif.Url
