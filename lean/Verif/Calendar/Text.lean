import Verif.Calendar.DateTime
import Mathlib.Tactic.Ring
/-!
# Printing dates, durations and timestamps, and reading them back

Streams are lists of characters; letters, digits and separators are those of ASCII.
`none` stands for an error raised by the reader.
-/
namespace Verif.Calendar

abbrev Text := List Char

def isDigit (c : Char) : Bool := decide ('0'.toNat ≤ c.toNat) && decide (c.toNat ≤ '9'.toNat)
def isLetter (c : Char) : Bool := (decide ('A'.toNat ≤ c.toNat) && decide (c.toNat ≤ 'Z'.toNat)) || (decide ('a'.toNat ≤ c.toNat) && decide (c.toNat ≤ 'z'.toNat))
def isSep (c : Char) : Bool := c == ' ' || (decide (9 ≤ c.toNat) && decide (c.toNat ≤ 13))
def lower (c : Char) : Char := if decide ('A'.toNat ≤ c.toNat) && decide (c.toNat ≤ 'Z'.toNat) then Char.ofNat (c.toNat + 32) else c

def digitChar (d : Nat) : Char := Char.ofNat (48 + d)

def showAux : Nat → Nat → Text
  | 0, _ => []
  | k + 1, n => if n < 10 then [digitChar n] else showAux k (n / 10) ++ [digitChar (n % 10)]

/-- Decimal digits, as `print:` of an Integer writes them. -/
def showNat (n : Nat) : Text := showAux (n + 1) n

def showInt (n : Int) : Text := if n < 0 then '-' :: showNat n.natAbs else showNat n.natAbs

/-- The padding of kernel/AnsiDates.st l.452-471, 748-755: a zero before one digit. -/
def pad2 (n : Nat) : Text := if n < 10 then '0' :: showNat n else showNat n

/-- kernel/Number.st l.75-81 (the loop of `Number class >> readFrom:radix:`). -/
def numLoop (sgn : Int) : Int → Text → Int
  | acc, [] => acc
  | acc, c :: r => if isDigit c then numLoop sgn (sgn * ((c.toNat : Int) - 48) + acc * 10) r else acc

/-- kernel/Number.st l.50-82 (`asNumber`), on an optional minus sign and digits, which is all that the readers below pass to it
(so no fractions nor exponents). -/
def asNumber : Text → Int
  | '-' :: r => numLoop (-1) 0 r
  | l => numLoop 1 0 l

/-- The inner loops of kernel/Date.st l.260-269: collect while the next character fits, dropping the first that does not. -/
def token (p : Char → Bool) : Text → Text × Text
  | [] => ([], [])
  | c :: r => if p c then (c :: (token p r).1, (token p r).2) else ([], r)

/-- kernel/Date.st l.75-86 (`initMonthNameDict`). -/
def monthNames : List (String × Int) :=
  [("january", 1), ("jan", 1), ("february", 2), ("feb", 2), ("march", 3), ("mar", 3), ("april", 4), ("apr", 4), ("may", 5),
   ("june", 6), ("jun", 6), ("july", 7), ("jul", 7), ("august", 8), ("aug", 8), ("september", 9), ("sep", 9), ("october", 10), ("oct", 10),
   ("november", 11), ("nov", 11), ("december", 12), ("dec", 12)]

/-- kernel/Date.st l.111-116 (`indexOfMonth:`). -/
def indexOfMonth (w : Text) : Option Int := (monthNames.find? fun p => p.1.toList == w.map lower).map (·.2)

/-- kernel/Date.st l.118-124 (`shortNameOfMonth:`). -/
def shortNameOfMonth (m : Int) : Option Text :=
  if m < 1 then none
  else (["Jan", "Feb", "Mar", "Apr", "May", "Jun", "Jul", "Aug", "Sep", "Oct", "Nov", "Dec"][(m - 1).toNat]?).map String.toList

/-- kernel/Date.st l.251-278 (one turn of the loop of `readFrom:`): whether a word was read, the number, and the rest. -/
def readField (s : Text) : Option (Bool × Int × Text) :=
  match s.dropWhile fun c => !(isLetter c || isDigit c) && c != '-' with
  | [] => none
  | c :: r =>
    if isLetter c then (indexOfMonth (c :: (token isLetter r).1)).map fun i => (true, i, (token isLetter r).2)
    else some (false, asNumber (c :: (token isDigit r).1), (token isDigit r).2)

/-- kernel/Date.st l.285-316 (the end of `readFrom:`), `month` the last field that was a word. -/
def arrange (month : Option Nat) (t1 t2 t3 : Int) : Option Date :=
  match month with
  | none =>
    if ¬(1 ≤ t1 ∧ t1 ≤ 31) then setDay t3 t2 t1
    else if t1 ≤ 12 then setDay t2 t1 t3 else setDay t1 t2 t3
  | some k => if k = 1 then setDay t2 t1 t3 else setDay t1 t2 t3

/-- kernel/Date.st l.246-317 (`Date class >> readFrom:`). -/
def readDate (s : Text) : Option (Date × Text) :=
  match readField s with
  | none => none
  | some (w1, t1, s1) =>
    match readField s1 with
    | none => none
    | some (w2, t2, s2) =>
      if w1 && !w2 && decide (t2 > 31) then (setDay 1 t1 t2).map fun x => (x, s2)
      else match readField s2 with
        | none => none
        | some (w3, t3, s3) =>
          (arrange (if w3 then some 3 else if w2 then some 2 else if w1 then some 1 else none) t1 t2 t3).map fun x => (x, s3)

/-- kernel/Date.st l.592-601 (`Date >> printOn:`). -/
def Date.print (x : Date) : Option Text := (shortNameOfMonth x.month).map fun m => showInt x.day ++ '-' :: m ++ '-' :: showInt x.year

/-- kernel/AnsiDates.st l.602-619 (the loop of `Duration class >> readFrom:`), `k` the turns left before the index passes 4, `i` the index. -/
def durLoop : Nat → Nat → Text → Char → Int × Int × Int → Option ((Int × Int × Int) × Text)
  | k, i, s, ch, hms =>
    if s = [] ∨ isSep ch = true ∨ ch = '+' ∨ ch = '-' then some (hms, s)
    else
      let s1 := if i > 1 then s.tail else s
      match k with
      | 0 => some (hms, s1)
      | k + 1 =>
        match s1 with
        | [] => none
        | c :: r =>
          if isDigit c then
            let n := asNumber ((c :: r).takeWhile isDigit)
            let rest := (c :: r).dropWhile isDigit
            durLoop k (i + 1) rest (rest.headD c)
              (if i = 4 then (hms.1 * 24 + hms.2.1, hms.2.2, n) else if i = 1 then (n, hms.2) else if i = 2 then (hms.1, n, hms.2.2) else (hms.1, hms.2.1, n))
          else some (hms, c :: r)

/-- kernel/AnsiDates.st l.592-622 (`Duration class >> readFrom:`). -/
def readDur (s : Text) : Option (Int × Text) :=
  let sign : Int := if s.head? = some '-' then -1 else 1
  let s1 := if s.head? = some '-' ∨ s.head? = some '+' then s.tail else s
  (durLoop 4 1 s1 ':' (0, 0, 0)).map fun r => ((r.1.1 * 3600 + r.1.2.1 * 60 + r.1.2.2) * sign, r.2)

/-- kernel/AnsiDates.st l.735-756 (`Duration >> printOn:`), of a Duration that is not negative. -/
def printDurPos (d : Int) : Text :=
  showInt (durDays d) ++ ':' :: pad2 (hours d).natAbs ++ ':' :: pad2 (minutes d).natAbs ++ ':' :: pad2 (secs d).natAbs

def printDur (d : Int) : Text := if d < 0 then '-' :: printDurPos (-d) else printDurPos d

/-- kernel/AnsiDates.st l.110-125 (`DateTime class >> readFrom:`). -/
def readDateTime (s : Text) : Option DateTime :=
  match readDate s with
  | none => none
  | some (x, s1) =>
    let s2 := if s1.head? = some 'T' then s1.tail else s1.dropWhile isSep
    let time := if s2 = [] ∨ (s2.head?.map isDigit) = some true then readDur s2 else some (0, s2)
    match time with
    | none => none
    | some (dur, s3) =>
      let s4 := s3.dropWhile isSep
      let dt := DateTime.plus ⟨x, 0, 0⟩ dur
      if s4.head? = some '+' ∨ s4.head? = some '-' then (readDur s4).map fun r => { dt with offset := r.1 }
      else some dt

/-- kernel/AnsiDates.st l.443-476 (`DateTime >> printOn:`). The zeros before the year are computed with floating-point logarithms; `zeros` is
their number, whatever it is. -/
def DateTime.print (zeros : Nat) (t : DateTime) : Text :=
  (if t.date.year < 0 then '-' else ' ') :: List.replicate zeros '0' ++ showNat t.date.year.natAbs ++ '-' :: pad2 t.date.month.natAbs ++ '-' :: pad2 t.date.day.natAbs ++
  'T' :: pad2 t.hour.natAbs ++ ':' :: pad2 t.minute.natAbs ++ ':' :: pad2 t.second.natAbs ++
  (if t.offset < 0 then '-' else '+') :: pad2 (hours t.offset).natAbs ++ ':' :: pad2 (minutes t.offset).natAbs ++
  (if secs t.offset = 0 then [] else ':' :: showInt (secs t.offset))

/-! ## Digits -/

theorem digit_is : ∀ d : Fin 10, isDigit (digitChar d) = true ∧ ((digitChar d).toNat : Int) - 48 = d := by decide

theorem digitChar_isDigit (d : Nat) (h : d < 10) : isDigit (digitChar d) = true := (digit_is ⟨d, h⟩).1

theorem digitChar_value (d : Nat) (h : d < 10) : ((digitChar d).toNat : Int) - 48 = d := (digit_is ⟨d, h⟩).2

theorem showAux_digits (k n : Nat) : ∀ c ∈ showAux k n, isDigit c = true := by
  induction k generalizing n with
  | zero => simp [showAux]
  | succ k ih =>
    intro c hc
    rw [showAux] at hc
    split at hc
    · rw [List.mem_singleton] at hc; rw [hc]; exact digitChar_isDigit n (by assumption)
    · rw [List.mem_append, List.mem_singleton] at hc
      rcases hc with hc | hc
      · exact ih _ c hc
      · rw [hc]; exact digitChar_isDigit _ (Nat.mod_lt _ (by decide))

theorem showNat_digits (n : Nat) : ∀ c ∈ showNat n, isDigit c = true := showAux_digits _ _

theorem showNat_ne (n : Nat) : showNat n ≠ [] := by
  rw [showNat, showAux]; split <;> simp

theorem pad2_digits (n : Nat) : ∀ c ∈ pad2 n, isDigit c = true := by
  intro c hc
  rw [pad2] at hc
  split at hc
  · rw [List.mem_cons] at hc
    rcases hc with rfl | hc
    · decide
    · exact showNat_digits n c hc
  · exact showNat_digits n c hc

theorem pad2_ne (n : Nat) : pad2 n ≠ [] := by
  rw [pad2]; split
  · simp
  · exact showNat_ne n

theorem numLoop_append (s acc : Int) (l : Text) (d : Char) (hl : ∀ c ∈ l, isDigit c = true) (hd : isDigit d = true) :
    numLoop s acc (l ++ [d]) = s * ((d.toNat : Int) - 48) + numLoop s acc l * 10 := by
  induction l generalizing acc with
  | nil => simp [numLoop, hd]
  | cons c r ih =>
    rw [List.cons_append, numLoop, numLoop, if_pos (hl c (by simp)), if_pos (hl c (by simp)), ih _ (fun x hx => hl x (by simp [hx]))]

theorem numLoop_show (s : Int) (k n : Nat) (h : n < k) : numLoop s 0 (showAux k n) = s * n := by
  induction k generalizing n with
  | zero => omega
  | succ k ih =>
    rw [showAux]
    by_cases hn : n < 10
    · rw [if_pos hn]
      simp only [numLoop, digitChar_isDigit n hn, if_true, digitChar_value n hn]
      omega
    · rw [if_neg hn, numLoop_append _ _ _ _ (showAux_digits _ _) (digitChar_isDigit _ (Nat.mod_lt _ (by decide))),
        digitChar_value _ (Nat.mod_lt _ (by decide)), ih (n / 10) (by omega)]
      have : (n : Int) = 10 * (n / 10 : Nat) + (n % 10 : Nat) := by omega
      conv_rhs => rw [this]
      ring

theorem numLoop_zeros (s : Int) (z : Nat) (l : Text) : numLoop s 0 (List.replicate z '0' ++ l) = numLoop s 0 l := by
  induction z with
  | zero => simp
  | succ z ih =>
    rw [List.replicate_succ, List.cons_append, numLoop, if_pos (by decide)]
    simpa using ih

theorem asNumber_digits (l : Text) (h : ∀ c ∈ l, isDigit c = true) : asNumber l = numLoop 1 0 l := by
  cases l with
  | nil => rfl
  | cons c r =>
    have : c ≠ '-' := by
      intro hc; have := h c (by simp); rw [hc] at this; exact absurd this (by decide)
    rw [asNumber.eq_def]
    split
    · rename_i heq; injection heq with a b; exact absurd a this
    · rfl

theorem asNumber_show (n : Nat) : asNumber (showNat n) = n := by
  rw [asNumber_digits _ (showNat_digits n), showNat, numLoop_show 1 _ _ (by omega)]; simp

theorem asNumber_pad2 (n : Nat) : asNumber (pad2 n) = n := by
  rw [asNumber_digits _ (pad2_digits n), pad2]
  split
  · have := numLoop_zeros 1 1 (showNat n)
    simp only [List.replicate_one, List.singleton_append] at this
    rw [this, showNat, numLoop_show 1 _ _ (by omega)]; simp
  · rw [showNat, numLoop_show 1 _ _ (by omega)]; simp

theorem asNumber_showInt (n : Int) : asNumber (showInt n) = n := by
  rw [showInt]
  split
  · rw [asNumber, showNat, numLoop_show (-1) _ _ (by omega)]; omega
  · rw [asNumber_show]; omega

theorem token_stop (p : Char → Bool) (w : Text) (c : Char) (r : Text) (hw : ∀ x ∈ w, p x = true) (hc : p c = false) :
    token p (w ++ c :: r) = (w, r) := by
  induction w with
  | nil => simp [token, hc]
  | cons x w ih => rw [List.cons_append, token, if_pos (hw x (by simp)), ih (fun y hy => hw y (by simp [hy]))]

theorem token_end (p : Char → Bool) (w : Text) (hw : ∀ x ∈ w, p x = true) : token p w = (w, []) := by
  induction w with
  | nil => simp [token]
  | cons x w ih => rw [token, if_pos (hw x (by simp)), ih (fun y hy => hw y (by simp [hy]))]

theorem takeWhile_stop (p : Char → Bool) (w r : Text) (hw : ∀ x ∈ w, p x = true) (hr : ∀ c, r.head? = some c → p c = false) :
    (w ++ r).takeWhile p = w ∧ (w ++ r).dropWhile p = r := by
  induction w with
  | nil =>
    cases r with
    | nil => simp
    | cons c r => have := hr c rfl; simp [this]
  | cons x w ih =>
    have := ih (fun y hy => hw y (by simp [hy]))
    simp [hw x (by simp), this]

/-- Where a number ends: at the end of the text or before a character that is no digit. -/
def Stops (r : Text) : Prop := ∀ c, r.head? = some c → isDigit c = false

theorem digit_not_sep (c : Char) (h : isDigit c = true) : isSep c = false ∧ c ≠ '+' ∧ c ≠ '-' ∧ isLetter c = false := by
  have h1 : 48 ≤ c.toNat ∧ c.toNat ≤ 57 := by
    simp only [isDigit, Bool.and_eq_true, decide_eq_true_eq] at h
    have e1 : '0'.toNat = 48 := by decide
    have e2 : '9'.toNat = 57 := by decide
    omega
  refine ⟨?_, ?_, ?_, ?_⟩
  · have hs : c ≠ ' ' := by rintro rfl; exact absurd h (by decide)
    simp only [isSep, Bool.or_eq_false_iff, beq_eq_false_iff_ne, ne_eq, hs, not_false_eq_true, true_and, Bool.and_eq_false_iff,
      decide_eq_false_iff_not]
    omega
  · rintro rfl; exact absurd h (by decide)
  · rintro rfl; exact absurd h (by decide)
  · have e1 : 'A'.toNat = 65 := by decide
    have e2 : 'a'.toNat = 97 := by decide
    simp only [isLetter, Bool.or_eq_false_iff, Bool.and_eq_false_iff, decide_eq_false_iff_not]
    omega

/-- One turn of the loop over a number. -/
theorem durLoop_step (k i : Nat) (pre w r : Text) (ch : Char) (hms : Int × Int × Int)
    (hpre : if i > 1 then pre.length = 1 else pre = []) (hch : isSep ch = false ∧ ch ≠ '+' ∧ ch ≠ '-')
    (hw : ∀ x ∈ w, isDigit x = true) (hne : w ≠ []) (hr : Stops r) :
    ∃ c, isDigit c = true ∧ durLoop (k + 1) i (pre ++ w ++ r) ch hms = durLoop k (i + 1) r (r.headD c)
      (if i = 4 then (hms.1 * 24 + hms.2.1, hms.2.2, asNumber w) else if i = 1 then (asNumber w, hms.2) else if i = 2 then (hms.1, asNumber w, hms.2.2) else (hms.1, hms.2.1, asNumber w)) := by
  obtain ⟨c, w', rfl⟩ := List.exists_cons_of_ne_nil hne
  have hs1 : (if i > 1 then (pre ++ c :: w' ++ r).tail else pre ++ c :: w' ++ r) = c :: (w' ++ r) := by
    split at hpre
    · rename_i h; rw [if_pos h]
      match pre, hpre with
      | [x], _ => simp
    · rename_i h; rw [if_neg h, hpre]; simp
  have hcond : ¬(pre ++ c :: w' ++ r = [] ∨ isSep ch = true ∨ ch = '+' ∨ ch = '-') := by
    rintro (h | h | h | h)
    · simp at h
    · rw [hch.1] at h; exact absurd h (by simp)
    · exact hch.2.1 h
    · exact hch.2.2 h
  have hc := hw c (by simp)
  obtain ⟨t1, t2⟩ := takeWhile_stop isDigit (c :: w') r hw hr
  rw [List.cons_append] at t1 t2
  refine ⟨c, hc, ?_⟩
  rw [durLoop, if_neg hcond]
  simp only [hs1]
  rw [if_pos hc]
  simp only [t1, t2]

theorem durLoop_end (k i : Nat) (ch : Char) (hms : Int × Int × Int) : durLoop k i [] ch hms = some (hms, []) := by
  cases k <;> rw [durLoop, if_pos (Or.inl rfl)]

theorem durLoop_sign (k i : Nat) (s : Text) (ch : Char) (hms : Int × Int × Int) (h : ch = '+' ∨ ch = '-') :
    durLoop k i s ch hms = some (hms, s) := by
  cases k <;> rw [durLoop, if_pos (Or.inr (Or.inr h))]

theorem colon_ok : isSep ':' = false ∧ ':' ≠ '+' ∧ ':' ≠ '-' := by decide

theorem stops_cons (c : Char) (r : Text) (h : isDigit c = false) : Stops (c :: r) := by
  intro x hx; simp at hx; rw [← hx]; exact h

theorem stops_nil : Stops [] := by intro x hx; simp at hx

/-- Reading `h:m:s` before a sign or the end. -/
theorem durLoop_three (a b c : Text) (r : Text) (ha : (∀ x ∈ a, isDigit x = true) ∧ a ≠ []) (hb : (∀ x ∈ b, isDigit x = true) ∧ b ≠ [])
    (hc : (∀ x ∈ c, isDigit x = true) ∧ c ≠ []) (hr : r = [] ∨ ∃ s q, (s = '+' ∨ s = '-') ∧ r = s :: q) :
    durLoop 4 1 (a ++ ':' :: b ++ ':' :: c ++ r) ':' (0, 0, 0) = some ((asNumber a, asNumber b, asNumber c), r) := by
  have hstop : Stops r := by
    rcases hr with rfl | ⟨s, q, hs, rfl⟩
    · exact stops_nil
    · apply stops_cons; rcases hs with rfl | rfl <;> decide
  obtain ⟨_, _, e1⟩ := durLoop_step 3 1 [] a (':' :: b ++ ':' :: c ++ r) ':' (0, 0, 0) (by simp) colon_ok ha.1 ha.2 (stops_cons _ _ (by decide))
  obtain ⟨_, _, e2⟩ := durLoop_step 2 2 [':'] b (':' :: c ++ r) ':' (asNumber a, 0, 0) (by simp) colon_ok hb.1 hb.2 (stops_cons _ _ (by decide))
  obtain ⟨q, hq, e3⟩ := durLoop_step 1 3 [':'] c r ':' (asNumber a, asNumber b, 0) (by simp) colon_ok hc.1 hc.2 hstop
  simp only [List.nil_append, List.cons_append, List.append_assoc, List.headD_cons] at e1 e2 e3 ⊢
  norm_num at e1 e2 e3
  rw [e1, e2, e3]
  rcases hr with rfl | ⟨s, q', hs, rfl⟩
  · exact durLoop_end _ _ _ _
  · exact durLoop_sign _ _ _ _ _ hs

theorem durLoop_two (a b : Text) (ha : (∀ x ∈ a, isDigit x = true) ∧ a ≠ []) (hb : (∀ x ∈ b, isDigit x = true) ∧ b ≠ []) :
    durLoop 4 1 (a ++ ':' :: b) ':' (0, 0, 0) = some ((asNumber a, asNumber b, 0), []) := by
  obtain ⟨_, _, e1⟩ := durLoop_step 3 1 [] a (':' :: b) ':' (0, 0, 0) (by simp) colon_ok ha.1 ha.2 (stops_cons _ _ (by decide))
  obtain ⟨_, _, e2⟩ := durLoop_step 2 2 [':'] b [] ':' (asNumber a, 0, 0) (by simp) colon_ok hb.1 hb.2 stops_nil
  simp only [List.nil_append, List.cons_append, List.headD_cons, List.append_nil] at e1 e2 ⊢
  norm_num at e1 e2
  rw [e1, e2]
  exact durLoop_end _ _ _ _

theorem durLoop_four (a b c d : Text) (ha : (∀ x ∈ a, isDigit x = true) ∧ a ≠ []) (hb : (∀ x ∈ b, isDigit x = true) ∧ b ≠ [])
    (hc : (∀ x ∈ c, isDigit x = true) ∧ c ≠ []) (hd : (∀ x ∈ d, isDigit x = true) ∧ d ≠ []) :
    durLoop 4 1 (a ++ ':' :: b ++ ':' :: c ++ ':' :: d) ':' (0, 0, 0) = some ((asNumber a * 24 + asNumber b, asNumber c, asNumber d), []) := by
  obtain ⟨_, _, e1⟩ := durLoop_step 3 1 [] a (':' :: b ++ ':' :: c ++ ':' :: d) ':' (0, 0, 0) (by simp) colon_ok ha.1 ha.2 (stops_cons _ _ (by decide))
  obtain ⟨_, _, e2⟩ := durLoop_step 2 2 [':'] b (':' :: c ++ ':' :: d) ':' (asNumber a, 0, 0) (by simp) colon_ok hb.1 hb.2 (stops_cons _ _ (by decide))
  obtain ⟨_, _, e3⟩ := durLoop_step 1 3 [':'] c (':' :: d) ':' (asNumber a, asNumber b, 0) (by simp) colon_ok hc.1 hc.2 (stops_cons _ _ (by decide))
  obtain ⟨_, _, e4⟩ := durLoop_step 0 4 [':'] d [] ':' (asNumber a, asNumber b, asNumber c) (by simp) colon_ok hd.1 hd.2 stops_nil
  simp only [List.nil_append, List.cons_append, List.append_assoc, List.headD_cons, List.append_nil] at e1 e2 e3 e4 ⊢
  norm_num at e1 e2 e3 e4
  rw [e1, e2, e3, e4]
  exact durLoop_end _ _ _ _

theorem head_digits (w r : Text) (hw : ∀ x ∈ w, isDigit x = true) (hne : w ≠ []) :
    ¬ (w ++ r).head? = some '-' ∧ ¬ (w ++ r).head? = some '+' ∧ ((w ++ r).head?.map isDigit) = some true := by
  obtain ⟨c, w', rfl⟩ := List.exists_cons_of_ne_nil hne
  have hc := hw c (by simp)
  obtain ⟨_, h1, h2, _⟩ := digit_not_sep c hc
  simp [h1, h2, hc]

/-- C48. A printed Duration, of either sign and any length, reads back as itself, to the last character. -/
theorem duration_print_read (d : Int) : readDur (printDur d) = some (d, []) := by
  have key : ∀ e : Int, 0 ≤ e → durLoop 4 1 (printDurPos e) ':' (0, 0, 0) = some ((durDays e * 24 + hours e, minutes e, secs e), []) := by
    intro e he
    obtain ⟨-, -, -, -, h0, -⟩ := duration_parts e
    obtain ⟨p1, p2, p3, p4⟩ := h0 he
    have hd : showInt (durDays e) = showNat (durDays e).natAbs := by rw [showInt, if_neg (by omega)]
    rw [printDurPos, hd]
    rw [durLoop_four _ _ _ _ ⟨showNat_digits _, showNat_ne _⟩ ⟨pad2_digits _, pad2_ne _⟩ ⟨pad2_digits _, pad2_ne _⟩ ⟨pad2_digits _, pad2_ne _⟩]
    rw [asNumber_show, asNumber_pad2, asNumber_pad2, asNumber_pad2]
    rw [Int.natAbs_of_nonneg p1, Int.natAbs_of_nonneg p2, Int.natAbs_of_nonneg p3, Int.natAbs_of_nonneg p4]
  rw [printDur]
  by_cases h : d < 0
  · rw [if_pos h, readDur]
    have hp := dur_parts (-d)
    simp only [List.head?_cons, if_true, List.tail_cons, true_or]
    rw [key (-d) (by omega), Option.map_some]
    simp only [Option.some.injEq, Prod.mk.injEq, and_true]
    omega
  · rw [if_neg h, readDur]
    have hp := dur_parts d
    have hh : ¬ (printDurPos d).head? = some '-' ∧ ¬ (printDurPos d).head? = some '+' := by
      have hd : showInt (durDays d) = showNat (durDays d).natAbs := by
        have := ((duration_parts d).2.2.2.2.1 (by omega)).1
        rw [showInt, if_neg (by omega)]
      rw [printDurPos, hd]
      simp only [List.append_assoc]
      exact ⟨(head_digits _ _ (showNat_digits _) (showNat_ne _)).1, (head_digits _ _ (showNat_digits _) (showNat_ne _)).2.1⟩
    simp only [hh.1, hh.2, if_false, or_self]
    rw [key d (by omega), Option.map_some]
    simp only [Option.some.injEq, Prod.mk.injEq, and_true]
    omega

example : printDur (-90061) = "-1:01:01:01".toList := by decide

/-! ## Dates -/

theorem month_names (m : Int) (h : 1 ≤ m ∧ m ≤ 12) :
    ∃ a b c, shortNameOfMonth m = some [a, b, c] ∧ (∀ x ∈ [a, b, c], isLetter x = true) ∧ indexOfMonth [a, b, c] = some m := by
  obtain ⟨h1, h2⟩ := h
  interval_cases m <;> exact ⟨_, _, _, rfl, by decide, by decide⟩

theorem junk_digits (w r : Text) (hw : ∀ x ∈ w, isDigit x = true) (hne : w ≠ []) :
    (w ++ r).dropWhile (fun c => !(isLetter c || isDigit c) && c != '-') = w ++ r := by
  obtain ⟨c, w', rfl⟩ := List.exists_cons_of_ne_nil hne
  have hc := hw c (by simp)
  simp [hc]

/-- Reading a number and the character after it. -/
theorem readField_nat (w : Text) (e : Char) (r : Text) (hw : ∀ x ∈ w, isDigit x = true) (hne : w ≠ []) (he : isDigit e = false) :
    readField (w ++ e :: r) = some (false, asNumber w, r) := by
  rw [readField, junk_digits w _ hw hne]
  obtain ⟨c, w', rfl⟩ := List.exists_cons_of_ne_nil hne
  have hc := hw c (by simp)
  simp only [List.cons_append]
  rw [if_neg (by rw [(digit_not_sep c hc).2.2.2]; simp), token_stop isDigit w' e r (fun x hx => hw x (by simp [hx])) he]

theorem readField_int (n : Int) : readField (showInt n) = some (false, n, []) := by
  have hn := asNumber_showInt n
  rw [showInt] at hn ⊢
  by_cases h : n < 0
  · rw [if_pos h] at hn ⊢
    rw [readField]
    simp only [bne_self_eq_false, Bool.and_false, List.dropWhile_cons_of_neg, Bool.false_eq_true, not_false_eq_true]
    rw [if_neg (by decide), token_end isDigit _ (showNat_digits _), hn]
  · rw [if_neg h] at hn ⊢
    have := junk_digits _ [] (showNat_digits n.natAbs) (showNat_ne _)
    rw [List.append_nil] at this
    rw [readField, this]
    obtain ⟨c, w', hw⟩ := List.exists_cons_of_ne_nil (showNat_ne n.natAbs)
    have hall := showNat_digits n.natAbs
    rw [hw] at hall hn ⊢
    have hc := hall c (by simp)
    simp only
    rw [if_neg (by rw [(digit_not_sep c hc).2.2.2]; simp), token_end isDigit w' (fun x hx => hall x (by simp [hx])), hn]

/-- C48. A printed Date reads back as itself, in all years, before Christ too. -/
theorem date_print_read {x : Date} (h : Made x) : ∃ s, x.print = some s ∧ readDate s = some (x, []) := by
  obtain ⟨⟨h1, h2, h3, h4⟩, -⟩ := made_valid h
  simp only [Date.ymd] at h1 h2 h3 h4
  obtain ⟨a, b, c, hm, hl, hi⟩ := month_names x.month ⟨h1, h2⟩
  refine ⟨_, by rw [Date.print, hm]; rfl, ?_⟩
  have hd : showInt x.day = showNat x.day.natAbs := by rw [showInt, if_neg (by omega)]
  have e1 : readField (showInt x.day ++ '-' :: [a, b, c] ++ '-' :: showInt x.year) = some (false, x.day, [a, b, c] ++ '-' :: showInt x.year) := by
    rw [hd, List.append_assoc, List.cons_append, readField_nat _ '-' _ (showNat_digits _) (showNat_ne _) (by decide), asNumber_show,
      Int.natAbs_of_nonneg (by omega)]
  have e2 : readField ([a, b, c] ++ '-' :: showInt x.year) = some (true, x.month, showInt x.year) := by
    have ha := hl a (by simp)
    rw [readField]
    simp only [List.cons_append, List.nil_append]
    rw [List.dropWhile_cons_of_neg (by simp [ha])]
    simp only
    rw [if_pos ha, show b :: c :: '-' :: showInt x.year = [b, c] ++ '-' :: showInt x.year from rfl,
      token_stop isLetter [b, c] '-' _ (fun y hy => hl y (by simp at hy ⊢; right; exact hy)) (by decide), hi]
    rfl
  rw [readDate, e1]
  simp only
  rw [e2]
  simp only
  rw [if_neg (by simp), readField_int]
  simp only [if_true, Bool.false_eq_true, if_false]
  rw [arrange, if_neg (by decide), (store_round_trip h).1]
  rfl

example : Made (setDays 45000) ∧ (setDays 45000).print = some "16-Mar-2024".toList := ⟨.fromDays _, by decide⟩

/-! ## Timestamps -/

theorem sign_field (neg : Bool) (z n : Nat) (r : Text) :
    readField ((if neg then '-' else ' ') :: List.replicate z '0' ++ showNat n ++ '-' :: r) =
      some (false, (if neg then -(n : Int) else n), r) := by
  have hall : ∀ x ∈ List.replicate z '0' ++ showNat n, isDigit x = true := by
    intro x hx
    rw [List.mem_append] at hx
    rcases hx with hx | hx
    · rw [List.eq_of_mem_replicate hx]; decide
    · exact showNat_digits n x hx
  have hne : List.replicate z '0' ++ showNat n ≠ [] := by simp [showNat_ne]
  have hv : ∀ s : Int, numLoop s 0 (List.replicate z '0' ++ showNat n) = s * n := by
    intro s; rw [numLoop_zeros, showNat, numLoop_show s _ _ (by omega)]
  cases neg with
  | false =>
    simp only [Bool.false_eq_true, if_false]
    have := readField_nat _ '-' r hall hne (by decide)
    rw [asNumber_digits _ hall, hv] at this
    rw [readField] at this ⊢
    simp only [List.cons_append]
    rw [List.dropWhile_cons_of_pos (by decide), this]
    simp
  | true =>
    simp only [if_true]
    rw [readField]
    simp only [List.cons_append]
    rw [List.dropWhile_cons_of_neg (by decide)]
    simp only
    rw [if_neg (by decide), token_stop isDigit _ '-' r hall (by decide), asNumber, hv]
    simp

theorem hours_abs (d : Int) (h : -86400 < d ∧ d < 86400) (hs : secs d = 0) :
    (((hours d).natAbs : Int) * 3600 + ((minutes d).natAbs : Int) * 60 + 0) * (if d < 0 then -1 else 1) = d := by
  obtain ⟨h0, h1, h2, h3, h4, h5⟩ := duration_parts d
  have hp := dur_parts d
  have : durDays d = 0 := zoned_days ⟨⟨0, 0, 0, 0⟩, 0, d⟩ h
  split
  · have := h5 (by omega); omega
  · have := h4 (by omega); omega

/-- The text of a timestamp up to the offset is read as its date, its time of day, and leaves the offset. -/
theorem print_split (z : Nat) (t : DateTime) : t.print z =
    ((if t.date.year < 0 then '-' else ' ') :: List.replicate z '0' ++ showNat t.date.year.natAbs ++ '-' :: (pad2 t.date.month.natAbs ++ '-' ::
    (pad2 t.date.day.natAbs ++ 'T' :: (pad2 t.hour.natAbs ++ ':' :: pad2 t.minute.natAbs ++ ':' :: pad2 t.second.natAbs ++
    ((if t.offset < 0 then '-' else '+') :: (pad2 (hours t.offset).natAbs ++ ':' :: pad2 (minutes t.offset).natAbs ++
    (if secs t.offset = 0 then [] else ':' :: showInt (secs t.offset)))))))) := by
  simp only [DateTime.print, List.append_assoc, List.cons_append]

theorem read_print_parts (z : Nat) (t : DateTime) (h : t.Good) : readDateTime (t.print z) =
    (match arrange none t.date.year t.date.month t.date.day with
     | none => none
     | some x => (readDur ((if t.offset < 0 then '-' else '+') :: (pad2 (hours t.offset).natAbs ++ ':' :: pad2 (minutes t.offset).natAbs ++
        (if secs t.offset = 0 then [] else ':' :: showInt (secs t.offset))))).map fun r => { DateTime.plus ⟨x, 0, 0⟩ t.seconds with offset := r.1 }) := by
  obtain ⟨p1, p2, p3, p4, p5, p6, p7⟩ := parts_exact t h
  obtain ⟨⟨h1, h2, h3, h4⟩, -⟩ := made_valid h.2.2
  simp only [Date.ymd] at h1 h2 h3 h4
  rw [print_split]
  generalize hoff : (if t.offset < 0 then '-' else '+') :: (pad2 (hours t.offset).natAbs ++ ':' :: pad2 (minutes t.offset).natAbs ++
    (if secs t.offset = 0 then [] else ':' :: showInt (secs t.offset))) = off
  have hsgn : ∃ s q, (s = '+' ∨ s = '-') ∧ off = s :: q := by
    refine ⟨_, _, ?_, hoff.symm⟩
    split <;> simp
  have e1 := sign_field (decide (t.date.year < 0)) z t.date.year.natAbs (pad2 t.date.month.natAbs ++ '-' ::
    (pad2 t.date.day.natAbs ++ 'T' :: (pad2 t.hour.natAbs ++ ':' :: pad2 t.minute.natAbs ++ ':' :: pad2 t.second.natAbs ++ off)))
  simp only [decide_eq_true_eq] at e1
  have ey : (if t.date.year < 0 then -(t.date.year.natAbs : Int) else t.date.year.natAbs) = t.date.year := by split <;> omega
  rw [ey] at e1
  have e2 := readField_nat (pad2 t.date.month.natAbs) '-' (pad2 t.date.day.natAbs ++ 'T' :: (pad2 t.hour.natAbs ++ ':' :: pad2 t.minute.natAbs ++ ':' :: pad2 t.second.natAbs ++ off))
    (pad2_digits _) (pad2_ne _) (by decide)
  have e3 := readField_nat (pad2 t.date.day.natAbs) 'T' (pad2 t.hour.natAbs ++ ':' :: pad2 t.minute.natAbs ++ ':' :: pad2 t.second.natAbs ++ off)
    (pad2_digits _) (pad2_ne _) (by decide)
  rw [asNumber_pad2, Int.natAbs_of_nonneg (by omega)] at e2 e3
  rw [readDateTime, readDate, e1]
  simp only
  rw [e2]
  simp only [Bool.false_and, Bool.false_eq_true, if_false]
  rw [e3]
  simp only [Bool.false_eq_true, if_false]
  cases harr : arrange none t.date.year t.date.month t.date.day with
  | none => rfl
  | some x =>
    simp only [Option.map_some]
    have hh := head_digits (pad2 t.hour.natAbs) (':' :: pad2 t.minute.natAbs ++ ':' :: pad2 t.second.natAbs ++ off) (pad2_digits _) (pad2_ne _)
    have hT : ¬ (pad2 t.hour.natAbs ++ ':' :: pad2 t.minute.natAbs ++ ':' :: pad2 t.second.natAbs ++ off).head? = some 'T' := by
      obtain ⟨c, w', hw⟩ := List.exists_cons_of_ne_nil (pad2_ne t.hour.natAbs)
      have hc := pad2_digits t.hour.natAbs c (by rw [hw]; simp)
      rw [hw]
      intro hx
      simp at hx
      rw [hx] at hc
      exact absurd hc (by decide)
    have hsep : (pad2 t.hour.natAbs ++ ':' :: pad2 t.minute.natAbs ++ ':' :: pad2 t.second.natAbs ++ off).dropWhile isSep =
        (pad2 t.hour.natAbs ++ ':' :: pad2 t.minute.natAbs ++ ':' :: pad2 t.second.natAbs ++ off) := by
      obtain ⟨c, w', hw⟩ := List.exists_cons_of_ne_nil (pad2_ne t.hour.natAbs)
      have hc := pad2_digits t.hour.natAbs c (by rw [hw]; simp)
      rw [hw]
      simp only [List.cons_append]
      rw [List.dropWhile_cons_of_neg (by rw [(digit_not_sep c hc).1]; simp)]
    rw [if_neg hT, hsep]
    simp only [List.append_assoc, List.cons_append] at hh hsep ⊢
    rw [if_pos (Or.inr hh.2.2)]
    have hdur : readDur (pad2 t.hour.natAbs ++ ':' :: (pad2 t.minute.natAbs ++ ':' :: (pad2 t.second.natAbs ++ off))) = some (t.seconds, off) := by
      have := durLoop_three (pad2 t.hour.natAbs) (pad2 t.minute.natAbs) (pad2 t.second.natAbs) off ⟨pad2_digits _, pad2_ne _⟩
        ⟨pad2_digits _, pad2_ne _⟩ ⟨pad2_digits _, pad2_ne _⟩ (Or.inr hsgn)
      simp only [List.append_assoc, List.cons_append] at this
      rw [readDur]
      simp only [hh.1, hh.2.1, if_false, or_self]
      rw [this, Option.map_some, asNumber_pad2, asNumber_pad2, asNumber_pad2]
      simp only [Option.some.injEq, Prod.mk.injEq, and_true]
      omega
    rw [hdur]
    simp only
    obtain ⟨s, q, hs, hq⟩ := hsgn
    have hdrop : off.dropWhile isSep = off := by
      rw [hq, List.dropWhile_cons_of_neg]
      rcases hs with rfl | rfl <;> decide
    rw [hdrop, if_pos (by rw [hq]; simpa using hs)]

theorem plus_midnight (t : DateTime) (h : t.Good) (x : Date) (hx : x = t.date) (o : Int) :
    { DateTime.plus ⟨x, 0, 0⟩ t.seconds with offset := o } = { t with offset := o } := by
  subst hx
  have hg : (⟨t.date, 0, 0⟩ : DateTime).Good := ⟨by simp, by simp, h.2.2⟩
  obtain ⟨a, b, c⟩ := plus_exact ⟨t.date, 0, 0⟩ t.seconds
  have : DateTime.plus ⟨t.date, 0, 0⟩ t.seconds = { t with offset := 0 } := by
    apply good_ext _ { t with offset := 0 } a ⟨h.1, h.2.1, h.2.2⟩ (by rw [c])
    rw [b]; simp [DateTime.instant]
  rw [this]

/-- C48. A printed timestamp reads back as itself: for every year outside 0 to 31, every time of day, and every offset of less than a day in
whole minutes; however many zeros are written before the year. -/
theorem timestamp_print_read_partial (z : Nat) (t : DateTime) (h : t.Good) (hz : t.Zoned) (hs : secs t.offset = 0)
    (hy : t.date.year < 0 ∨ 31 < t.date.year) : readDateTime (t.print z) = some t := by
  rw [read_print_parts z t h, arrange]
  simp only
  rw [if_pos (by omega), (store_round_trip h.2.2).1]
  simp only [hs, if_true, List.append_nil]
  have hoff : readDur ((if t.offset < 0 then '-' else '+') :: (pad2 (hours t.offset).natAbs ++ ':' :: pad2 (minutes t.offset).natAbs)) = some (t.offset, []) := by
    have l2 := durLoop_two (pad2 (hours t.offset).natAbs) (pad2 (minutes t.offset).natAbs) ⟨pad2_digits _, pad2_ne _⟩ ⟨pad2_digits _, pad2_ne _⟩
    have ha := hours_abs t.offset hz hs
    rw [readDur]
    by_cases hn : t.offset < 0
    · rw [if_pos hn] at ha ⊢
      simp only [List.head?_cons, if_true, true_or, List.tail_cons]
      rw [l2, Option.map_some, asNumber_pad2, asNumber_pad2, ha]
    · rw [if_neg hn] at ha ⊢
      have q1 : (if ('+' :: (pad2 (hours t.offset).natAbs ++ ':' :: pad2 (minutes t.offset).natAbs)).head? = some '-' then (-1 : Int) else 1) = 1 :=
        if_neg (by simp)
      simp only [q1]
      rw [if_pos (Or.inr (List.head?_cons ..)), List.tail_cons, l2, Option.map_some, asNumber_pad2, asNumber_pad2, ha]
  rw [hoff, Option.map_some, plus_midnight t h t.date rfl]

example : (fromDays 45000 3661 (-19800)).Good ∧ (fromDays 45000 3661 (-19800)).Zoned ∧ secs (fromDays 45000 3661 (-19800)).offset = 0 ∧
    31 < (fromDays 45000 3661 (-19800)).date.year ∧ (fromDays 45000 3661 (-19800)).print 0 = " 2024-03-16T01:01:01-05:30".toList :=
  ⟨fromDays_good _ _ _, by unfold DateTime.Zoned; decide, by decide, by decide, by decide⟩

/-- C48 fails in the years 1 to 31: 5 March of the year 12 is read as 3 December of the year 5. -/
theorem timestamp_early_year : ∃ t u : DateTime, t.Good ∧ t.Zoned ∧ t.offset = 0 ∧ t.date.ymd = ⟨12, 3, 5⟩ ∧ readDateTime (t.print 2) = some u ∧ u.date.ymd = ⟨5, 12, 3⟩ := by
  refine ⟨⟨(setDay 5 3 12).get (by decide), 0, 0⟩, ⟨(setDay 3 12 5).get (by decide), 0, 0⟩,
    ⟨by decide, by decide, .dayMonthYear 5 3 12 _ (by decide)⟩, by unfold DateTime.Zoned; decide, rfl, by decide, by decide, by decide⟩

/-- C48 fails for offsets west of Greenwich that are not whole minutes: the seconds are printed with a second minus sign and lost in reading. -/
theorem timestamp_odd_offset : (fromDays 45000 0 (-90)).print 0 = " 2024-03-16T00:00:00-00:01:-30".toList ∧
    readDateTime ((fromDays 45000 0 (-90)).print 0) = some (fromDays 45000 0 (-60)) := by decide

end Verif.Calendar
