import Mathlib.Tactic.IntervalCases
/-!
# Dates (kernel/Date.st)

`//` and `\\` of Smalltalk round towards minus infinity; all divisors here are positive, for which `Int`'s `/` and `%` do the same.
`quo:` truncates, `Int.tdiv`.
-/
namespace Verif.Calendar

/-- The instance variables of a Date. -/
structure Date where
  days : Int
  day : Int
  month : Int
  year : Int
  deriving DecidableEq, Repr

/-- kernel/Date.st l.131-137 (`Date class >> daysInYear:`). -/
def daysInYear (i : Int) : Int :=
  (i + 4800) * 1461 / 4 - (i + 4900) / 100 * 3 / 4 - (i + 4799) * 1461 / 4 + (i + 4899) / 100 * 3 / 4

/-- kernel/Date.st l.338-348 (`Date class >> yearAsDays:`). -/
def yearAsDays (i : Int) : Int := (i + 4799) * 1461 / 4 - (i + 4899) / 100 * 3 / 4 - 2447125

/-- kernel/Date.st l.350-365 (`Date class >> daysUntilMonth:year:`). -/
def daysUntilMonth (monthIndex yearInteger : Int) : Int :=
  let j := (monthIndex - 14).tdiv 12
  let i := j + yearInteger
  (i + 4800) * 1461 / 4 + (monthIndex - 2 - j * 12) * 367 / 12 - (i + 4900) / 100 * 3 / 4 - 2447461

/-- kernel/Date.st l.367-374 (`Date class >> daysInMonthIndex:forYear:`); nothing if `at:` fails. -/
def daysInMonthIndex (monthIndex yearInteger : Int) : Option Int :=
  if monthIndex = 2 then some (daysInYear yearInteger - 337)
  else if monthIndex < 1 then none
  else [31, 0, 31, 30, 31, 30, 31, 31, 30, 31, 30, 31][(monthIndex - 1).toNat]?

/-- kernel/Date.st l.638-661 (`setDays:`). -/
def setDays (dayCount : Int) : Date :=
  let julian := dayCount + 2483955
  let n := 4 * julian / 146097
  let julian := julian - (146097 * n + 3) / 4
  let year := 4000 * (julian + 1) / 1461001
  let julian := julian - 1461 * year / 4 + 31
  let month := 80 * julian / 2447
  let day := julian - 2447 * month / 80
  let julian := month / 11
  let month := month + 2 - 12 * julian
  let year := 100 * (n - 49) + year + julian
  ⟨dayCount, day, month, year⟩

/-- kernel/Date.st l.626-636 (`setDay:monthIndex:year:`). -/
def setDay (dayOfMonth monthIndex yearInteger : Int) : Option Date :=
  let days := dayOfMonth + daysUntilMonth monthIndex yearInteger
  if dayOfMonth < 1 then some (setDays days)
  else match daysInMonthIndex monthIndex yearInteger with
    | none => none
    | some k => if k < dayOfMonth then some (setDays days) else some ⟨days, dayOfMonth, monthIndex, yearInteger⟩

/-- kernel/Date.st l.196-201 (`Date class >> newDay:year:`). -/
def newDayYear (dayCount yearInteger : Int) : Date := setDays (dayCount + yearAsDays yearInteger)

/-- kernel/Date.st l.181-187 (`Date class >> fromJulian:`). -/
def fromJulian (jd : Int) : Date := setDays (jd - 2415386)

/-- kernel/Date.st l.412-424 (`addDays:`, `subtractDays:`). -/
def Date.addDays (d : Date) (n : Int) : Date := setDays (d.days + n)
def Date.subtractDays (d : Date) (n : Int) : Date := setDays (d.days - n)

/-- kernel/Date.st l.464-468 (`dayOfWeek`): 1 = Monday. -/
def Date.dayOfWeek (d : Date) : Int := (d.days + 1) % 7 + 1

/-- kernel/Date.st l.492-496 (`dayOfYear`). -/
def Date.dayOfYear (d : Date) : Int := d.days - yearAsDays d.year

/-- kernel/Date.st l.505-540 (`daysInMonth`, `daysLeftInMonth`, `daysLeftInYear`, `firstDayOfMonth`, `lastDayOfMonth`). -/
def Date.daysInMonth (d : Date) : Option Int := daysInMonthIndex d.month d.year
def Date.daysLeftInMonth (d : Date) : Option Int := (daysInMonthIndex d.month d.year).map (· - d.day)
def Date.daysLeftInYear (d : Date) : Int := yearAsDays (d.year + 1) - d.days
def Date.firstDayOfMonth (d : Date) : Date := d.subtractDays (d.day - 1)
def Date.lastDayOfMonth (d : Date) : Option Date := d.daysLeftInMonth.map d.addDays

/-- kernel/Date.st l.542-546 (`isLeapYear`). -/
def Date.isLeapYear (d : Date) : Bool := daysInYear d.year == 366

/-! ## The calendar -/

/-- The Gregorian rule. -/
def Leap (y : Int) : Prop := y % 4 = 0 ∧ (y % 100 ≠ 0 ∨ y % 400 = 0)

instance (y : Int) : Decidable (Leap y) := inferInstanceAs (Decidable (_ ∧ _))

/-- Days of each month. -/
def monthLength (y m : Int) : Int :=
  if m = 2 then (if Leap y then 29 else 28)
  else if m = 4 ∨ m = 6 ∨ m = 9 ∨ m = 11 then 30 else 31

/-- Days, months and years that exist. -/
structure Ymd where
  y : Int
  m : Int
  d : Int
  deriving DecidableEq, Repr

def Ymd.Valid (x : Ymd) : Prop := 1 ≤ x.m ∧ x.m ≤ 12 ∧ 1 ≤ x.d ∧ x.d ≤ monthLength x.y x.m

instance (x : Ymd) : Decidable x.Valid := inferInstanceAs (Decidable (_ ∧ _ ∧ _ ∧ _))

/-- The day after. -/
def Ymd.next (x : Ymd) : Ymd :=
  if x.d < monthLength x.y x.m then ⟨x.y, x.m, x.d + 1⟩
  else if x.m < 12 then ⟨x.y, x.m + 1, 1⟩
  else ⟨x.y + 1, 1, 1⟩

/-- The day before. -/
def Ymd.prev (x : Ymd) : Ymd :=
  if 1 < x.d then ⟨x.y, x.m, x.d - 1⟩
  else if 1 < x.m then ⟨x.y, x.m - 1, monthLength x.y (x.m - 1)⟩
  else ⟨x.y - 1, 12, 31⟩

/-- What a Date says. -/
def Date.ymd (d : Date) : Ymd := ⟨d.year, d.month, d.day⟩

/-! ## Proofs -/

/-- Years counted by centuries from -4900. -/
theorem century (y : Int) : ∃ c e, 0 ≤ e ∧ e ≤ 99 ∧ y = 100 * c + e - 4900 :=
  ⟨(y + 4900) / 100, (y + 4900) % 100, by omega, by omega, by omega⟩

theorem mul_div4 (c e k : Int) : (100 * c + e + k) * 1461 / 4 = 36525 * c + (e + k) * 1461 / 4 := by omega

theorem leap_century (c e : Int) (he : 0 ≤ e ∧ e ≤ 99) :
    Leap (100 * c + e - 4900) ↔ e % 4 = 0 ∧ (e = 0 → c % 4 = 1) := by
  rw [Leap]
  by_cases h : e = 0
  · subst h; omega
  · omega

theorem daysInYear_spec (y : Int) : daysInYear y = if Leap y then 366 else 365 := by
  obtain ⟨c, e, h0, h9, rfl⟩ := century y
  have a1 : (100 * c + e - 4900 + 4800) * 1461 / 4 = 36525 * c - 36525 + e * 1461 / 4 := by omega
  have a2 : (100 * c + e - 4900 + 4799) * 1461 / 4 = 36525 * c - 36525 + (e - 1) * 1461 / 4 := by omega
  have a3 : (100 * c + e - 4900 + 4900) / 100 = c := by omega
  have a4 : (100 * c + e - 4900 + 4899) / 100 = if e = 0 then c - 1 else c := by split <;> omega
  rw [daysInYear, a1, a2, a3, a4]
  simp only [leap_century c e ⟨h0, h9⟩]
  by_cases h : e = 0
  · subst h
    have : c % 4 = 0 ∨ c % 4 = 1 ∨ c % 4 = 2 ∨ c % 4 = 3 := by omega
    by_cases hc : c % 4 = 1
    · simp [hc]; omega
    · simp [hc]; omega
  · simp only [h, if_false, false_implies, and_true]
    have : e % 4 = 0 ∨ e % 4 = 1 ∨ e % 4 = 2 ∨ e % 4 = 3 := by omega
    by_cases hc : e % 4 = 0
    · simp only [hc, if_true]; omega
    · simp only [hc, if_false]; omega

theorem monthIndex_spec (m y : Int) (h : 1 ≤ m ∧ m ≤ 12) : daysInMonthIndex m y = some (monthLength y m) := by
  simp only [daysInMonthIndex, daysInYear_spec, monthLength]
  obtain ⟨h1, h2⟩ := h
  interval_cases m <;> simp
  split <;> rfl

/-- The day number that the code computes. -/
def Ymd.number (x : Ymd) : Int := x.d + daysUntilMonth x.m x.y

theorem until_month (m y : Int) (h : 1 ≤ m ∧ m ≤ 12) :
    daysUntilMonth m y =
      if m ≤ 2 then (y + 4799) * 1461 / 4 + (m + 10) * 367 / 12 - (y + 4899) / 100 * 3 / 4 - 2447461
      else (y + 4800) * 1461 / 4 + (m - 2) * 367 / 12 - (y + 4900) / 100 * 3 / 4 - 2447461 := by
  obtain ⟨h1, h2⟩ := h
  have ht : (m - 14).tdiv 12 = if m ≤ 2 then -1 else 0 := by interval_cases m <;> decide
  simp only [daysUntilMonth, ht]
  split
  · rw [show (-1 + y + 4800 : Int) = y + 4799 by omega, show (-1 + y + 4900 : Int) = y + 4899 by omega,
      show (m - 2 - -1 * 12 : Int) = m + 10 by omega]
  · rw [show (0 + y + 4800 : Int) = y + 4800 by omega, show (0 + y + 4900 : Int) = y + 4900 by omega,
      show (m - 2 - 0 * 12 : Int) = m - 2 by omega]

theorem setDays_core (c e p : Int) (he : 0 ≤ e ∧ e ≤ 99) (hp : 31 ≤ p ∧ p ≤ 396)
    (hl : p = 396 → e % 4 = 3 ∧ (e = 99 → c % 4 = 0)) :
    let n := c
    let dayCount := (146097 * c + 3) / 4 + 1461 * e / 4 + (p - 31) - 2483955
    let month := 80 * p / 2447
    setDays dayCount = ⟨dayCount, p - 2447 * month / 80, month + 2 - 12 * (month / 11), 100 * (n - 49) + e + month / 11⟩ := by
  intro n dayCount month
  have h1 : dayCount + 2483955 = (146097 * c + 3) / 4 + 1461 * e / 4 + (p - 31) := by simp only [dayCount]; omega
  have h2 : 4 * (dayCount + 2483955) / 146097 = c := by rw [h1]; omega
  have h3 : dayCount + 2483955 - (146097 * c + 3) / 4 = 1461 * e / 4 + (p - 31) := by omega
  have h4 : 4000 * (1461 * e / 4 + (p - 31) + 1) / 1461001 = e := by omega
  have h5 : 1461 * e / 4 + (p - 31) - 1461 * e / 4 + 31 = p := by omega
  rw [setDays]
  simp only [h2, h3, h4, h5]
  rfl

/-- The day number in terms of centuries and years beginning in March. -/
theorem number_core (c e k d : Int) :
    d + ((100 * (c - 1) + e) * 1461 / 4 + k - c * 3 / 4 - 2447461) =
      (146097 * c + 3) / 4 + 1461 * e / 4 + (d + k - 31) - 2483955 := by
  have h1 : (100 * (c - 1) + e) * 1461 / 4 = 36525 * (c - 1) + 1461 * e / 4 := by omega
  rw [h1]
  omega

theorem setDays_number (x : Ymd) (hx : x.Valid) : setDays x.number = ⟨x.number, x.d, x.m, x.y⟩ := by
  obtain ⟨y, m, d⟩ := x
  obtain ⟨h1, h2, h3, h4⟩ := hx
  simp only [Ymd.number]
  simp only at h1 h2 h3 h4
  rw [until_month m y ⟨h1, h2⟩]
  by_cases hm : m ≤ 2
  · rw [if_pos hm]
    obtain ⟨c, e, e0, e9, hy⟩ := century (y - 1)
    obtain rfl : y = 100 * c + e - 4899 := by omega
    rw [show 100 * c + e - 4899 + 4799 = 100 * (c - 1) + e by omega,
      show (100 * c + e - 4899 + 4899) / 100 = c by omega, number_core]
    have hm' : m = 1 ∨ m = 2 := by omega
    have hl : ∀ (_ : Leap (100 * c + e - 4899)), e % 4 = 3 ∧ (e = 99 → c % 4 = 0) := by
      intro h; rw [Leap] at h; omega
    rcases hm' with rfl | rfl
    · have h4' : d ≤ 31 := by simpa [monthLength] using h4
      rw [show ((1 : Int) + 10) * 367 / 12 = 336 by decide]
      have := setDays_core c e (d + 336) ⟨e0, e9⟩ (by omega) (by omega)
      have hq : 80 * (d + 336) / 2447 = 11 := by omega
      simp only [hq] at this
      rw [this, Date.mk.injEq]
      refine ⟨rfl, ?_, ?_, ?_⟩ <;> omega
    · have h4' : d ≤ 29 ∧ (d = 29 → Leap (100 * c + e - 4899)) := by
        simp only [monthLength, if_true] at h4
        by_cases hL : Leap (100 * c + e - 4899)
        · rw [if_pos hL] at h4; exact ⟨h4, fun _ => hL⟩
        · rw [if_neg hL] at h4; omega
      rw [show ((2 : Int) + 10) * 367 / 12 = 367 by decide]
      have := setDays_core c e (d + 367) ⟨e0, e9⟩ (by omega) (fun h => hl (h4'.2 (by omega)))
      have hq : 80 * (d + 367) / 2447 = 12 := by omega
      simp only [hq] at this
      rw [this, Date.mk.injEq]
      refine ⟨rfl, ?_, ?_, ?_⟩ <;> omega
  · rw [if_neg hm]
    obtain ⟨c, e, e0, e9, hy⟩ := century y
    obtain rfl : y = 100 * c + e - 4900 := by omega
    rw [show 100 * c + e - 4900 + 4800 = 100 * (c - 1) + e by omega,
      show (100 * c + e - 4900 + 4900) / 100 = c by omega, number_core]
    have h4' : d ≤ if m = 4 ∨ m = 6 ∨ m = 9 ∨ m = 11 then 30 else 31 := by
      rw [monthLength, if_neg (by omega)] at h4; exact h4
    have h3m : 3 ≤ m := by omega
    have hk : ∃ k, (m - 2) * 367 / 12 = k ∧ 31 ≤ d + k ∧ d + k ≤ 395 ∧ 80 * (d + k) / 2447 = m - 2 ∧
        2447 * (m - 2) / 80 = k ∧ (m - 2) / 11 = 0 := by
      refine ⟨_, rfl, ?_⟩
      clear h4 hm hy h1
      interval_cases m <;> norm_num at h4' ⊢ <;> refine ⟨?_, ?_, ?_⟩ <;> omega
    obtain ⟨k, hk, hk1, hk2, hk3, hk4, hk5⟩ := hk
    have := setDays_core c e (d + k) ⟨e0, e9⟩ ⟨hk1, by omega⟩ (by omega)
    simp only [hk3, hk4, hk5] at this
    rw [hk, this, Date.mk.injEq]
    refine ⟨rfl, ?_, ?_, ?_⟩ <;> omega

/-- Months follow each other without gaps. -/
theorem until_next (m y : Int) (h : 1 ≤ m ∧ m < 12) : daysUntilMonth (m + 1) y = daysUntilMonth m y + monthLength y m := by
  obtain ⟨h1, h2⟩ := h
  rw [until_month _ _ (by omega), until_month _ _ (by omega)]
  by_cases h2' : m = 2
  · subst h2'
    simp only [monthLength]
    have := daysInYear_spec y
    rw [daysInYear] at this
    norm_num
    by_cases hL : Leap y
    · rw [if_pos hL] at this; rw [if_pos hL]; omega
    · rw [if_neg hL] at this; rw [if_neg hL]; omega
  · by_cases h1' : m = 1
    · subst h1'; simp [monthLength]; omega
    · rw [if_neg (by omega), if_neg (by omega)]
      have : 3 ≤ m := by omega
      clear h1
      interval_cases m <;> simp [monthLength] <;> omega

theorem until_next_year (y : Int) : daysUntilMonth 1 (y + 1) = daysUntilMonth 12 y + 31 := by
  rw [until_month _ _ (by omega), until_month _ _ (by omega)]
  simp only [show y + 1 + 4799 = y + 4800 by omega, show y + 1 + 4899 = y + 4900 by omega]
  norm_num
  omega

theorem monthLength_pos (y m : Int) : 28 ≤ monthLength y m := by
  rw [monthLength]; split <;> split <;> omega

theorem next_valid (x : Ymd) (h : x.Valid) : x.next.Valid := by
  obtain ⟨y, m, d⟩ := x
  obtain ⟨h1, h2, h3, h4⟩ := h
  simp only at h1 h2 h3 h4
  have := monthLength_pos y (m + 1)
  have := monthLength_pos (y + 1) 1
  simp only [Ymd.next]
  split
  · exact ⟨h1, h2, by simp only; omega, by simp only; omega⟩
  · split
    · exact ⟨by simp only; omega, by simp only; omega, by simp only; omega, by simp only; omega⟩
    · exact ⟨by simp only; omega, by simp only; omega, by simp only; omega, by simp only; omega⟩

theorem prev_valid (x : Ymd) (h : x.Valid) : x.prev.Valid := by
  obtain ⟨y, m, d⟩ := x
  obtain ⟨h1, h2, h3, h4⟩ := h
  simp only at h1 h2 h3 h4
  have := monthLength_pos y (m - 1)
  simp only [Ymd.prev]
  split
  · exact ⟨h1, h2, by simp only; omega, by simp only; omega⟩
  · split
    · exact ⟨by simp only; omega, by simp only; omega, by simp only; omega, by simp only; omega⟩
    · exact ⟨by simp only; omega, by simp only; omega, by simp only; omega, by simp [monthLength]⟩

theorem next_prev (x : Ymd) (h : x.Valid) : x.prev.next = x := by
  obtain ⟨y, m, d⟩ := x
  obtain ⟨h1, h2, h3, h4⟩ := h
  simp only at h1 h2 h3 h4
  simp only [Ymd.prev]
  by_cases hd : 1 < d
  · rw [if_pos hd]
    simp only [Ymd.next]
    rw [if_pos (by omega)]; simp
  · rw [if_neg hd]
    by_cases hm : 1 < m
    · rw [if_pos hm]
      simp only [Ymd.next]
      rw [if_neg (by omega), if_pos (by omega), Ymd.mk.injEq]; omega
    · rw [if_neg hm]
      simp only [Ymd.next]
      rw [if_neg (by simp [monthLength]), if_neg (by omega), Ymd.mk.injEq]; omega

theorem number_next (x : Ymd) (h : x.Valid) : x.next.number = x.number + 1 := by
  obtain ⟨y, m, d⟩ := x
  obtain ⟨h1, h2, h3, h4⟩ := h
  simp only at h1 h2 h3 h4
  simp only [Ymd.next]
  by_cases hd : d < monthLength y m
  · rw [if_pos hd]; simp only [Ymd.number]; omega
  · rw [if_neg hd]
    by_cases hm : m < 12
    · rw [if_pos hm]; simp only [Ymd.number]
      rw [until_next m y ⟨h1, hm⟩]; omega
    · rw [if_neg hm]; simp only [Ymd.number]
      obtain rfl : m = 12 := by omega
      rw [until_next_year]
      simp [monthLength] at hd h4
      omega

theorem number_prev (x : Ymd) (h : x.Valid) : x.prev.number = x.number - 1 := by
  have := number_next x.prev (prev_valid x h)
  rw [next_prev x h] at this
  omega

/-- Every day number is that of a day of the calendar. -/
theorem number_surj (n : Int) : ∃ x : Ymd, x.Valid ∧ x.number = n := by
  induction n using Int.induction_on with
  | zero => exact ⟨⟨1901, 1, 1⟩, by decide, by decide⟩
  | succ i ih => obtain ⟨x, hx, hn⟩ := ih; exact ⟨x.next, next_valid x hx, by rw [number_next x hx, hn]⟩
  | pred i ih => obtain ⟨x, hx, hn⟩ := ih; exact ⟨x.prev, prev_valid x hx, by rw [number_prev x hx, hn]⟩

theorem number_inj (x z : Ymd) (hx : x.Valid) (hz : z.Valid) (h : x.number = z.number) : x = z := by
  have a := setDays_number x hx
  have b := setDays_number z hz
  rw [h, b, Date.mk.injEq] at a
  obtain ⟨-, h1, h2, h3⟩ := a
  cases x; cases z
  simp only [Ymd.mk.injEq]
  exact ⟨h3.symm, h2.symm, h1.symm⟩

end Verif.Calendar
