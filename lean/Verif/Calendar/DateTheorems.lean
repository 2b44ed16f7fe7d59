import Verif.Calendar.Date
/-!
# What Date answers, against the Gregorian calendar
-/
namespace Verif.Calendar

/-- How a Date object comes about through the creation methods and the arithmetic of kernel/Date.st. -/
inductive Made : Date → Prop
  | fromDays (n) : Made (setDays n)
  | dayMonthYear (d m y x) : setDay d m y = some x → Made x
  | dayYear (d y) : Made (newDayYear d y)
  | julian (jd) : Made (fromJulian jd)
  | addDays (x n) : Made x → Made (x.addDays n)
  | subtractDays (x n) : Made x → Made (x.subtractDays n)
  | first (x) : Made x → Made x.firstDayOfMonth
  | last (x z) : Made x → x.lastDayOfMonth = some z → Made z

theorem setDays_spec (n : Int) : (setDays n).ymd.Valid ∧ (setDays n).ymd.number = n ∧ (setDays n).days = n := by
  obtain ⟨x, hx, hn⟩ := number_surj n
  have := setDays_number x hx
  rw [hn] at this
  rw [this]
  exact ⟨hx, hn, rfl⟩

theorem index_none (m y : Int) (h : ¬(1 ≤ m ∧ m ≤ 12)) : daysInMonthIndex m y = none := by
  rw [daysInMonthIndex, if_neg (by omega)]
  by_cases h1 : m < 1
  · rw [if_pos h1]
  · rw [if_neg h1, List.getElem?_eq_none]
    simp; omega

theorem setDay_index (d m y : Int) (x : Date) (h : setDay d m y = some x) (hd : 1 ≤ d) : 1 ≤ m ∧ m ≤ 12 := by
  by_contra hm
  rw [setDay, if_neg (by omega), index_none m y hm] at h
  exact absurd h (by simp)

/-- C43. Whatever way it was made, a Date names a day that exists, and its day number is that of the day it names. -/
theorem made_valid {x : Date} (h : Made x) : x.ymd.Valid ∧ x.ymd.number = x.days := by
  have hs : ∀ n, (setDays n).ymd.Valid ∧ (setDays n).ymd.number = (setDays n).days := fun n => by
    obtain ⟨a, b, c⟩ := setDays_spec n; exact ⟨a, by rw [b, c]⟩
  cases h with
  | fromDays n => exact hs n
  | dayMonthYear d m y x h =>
    by_cases hd : d < 1
    · rw [setDay, if_pos hd] at h; rw [Option.some.injEq] at h; rw [← h]; exact hs _
    · have hm := setDay_index d m y x h (by omega)
      rw [setDay, if_neg hd, monthIndex_spec m y hm] at h
      simp only at h
      by_cases hk : monthLength y m < d
      · rw [if_pos hk, Option.some.injEq] at h; rw [← h]; exact hs _
      · rw [if_neg hk, Option.some.injEq] at h; rw [← h]
        exact ⟨⟨hm.1, hm.2, by simp only [Date.ymd]; omega, by simp only [Date.ymd]; omega⟩, rfl⟩
  | dayYear d y => exact hs _
  | julian jd => exact hs _
  | addDays x n _ => exact hs _
  | subtractDays x n _ => exact hs _
  | first x _ => exact hs _
  | last x z _ hz =>
    rw [Date.lastDayOfMonth] at hz
    cases hl : x.daysLeftInMonth with
    | none => rw [hl] at hz; simp at hz
    | some k => rw [hl] at hz; simp only [Option.map_some, Option.some.injEq] at hz; rw [← hz]; exact hs _

example : Made (setDays 36890) ∧ (setDays 36890).ymd = ⟨2002, 1, 1⟩ := ⟨.fromDays _, by decide⟩

/-- C43. Day 0 is 1 January 1901, and the Date of day `n + 1` is the calendar day after that of day `n`: for all days, past and future. -/
theorem days_follow_calendar (n : Int) :
    (setDays 0).ymd = ⟨1901, 1, 1⟩ ∧ (setDays (n + 1)).ymd = (setDays n).ymd.next ∧ (setDays (n - 1)).ymd = (setDays n).ymd.prev := by
  obtain ⟨x, hx, hn⟩ := number_surj n
  have h0 := setDays_number x hx
  have h1 := setDays_number x.next (next_valid x hx)
  have h2 := setDays_number x.prev (prev_valid x hx)
  rw [number_next x hx, hn] at h1
  rw [number_prev x hx, hn] at h2
  rw [hn] at h0
  rw [h0, h1, h2]
  exact ⟨by decide, rfl, rfl⟩

example : (setDays (36217 + 1)).ymd = ⟨2000, 2, 29⟩ ∧ (setDays 36217).ymd = ⟨2000, 2, 28⟩ := by decide

/-- C43. Astronomers' day numbers: day 2415386 is 1 January 1901, and they follow the calendar too. -/
theorem julian_correct (jd : Int) : (fromJulian 2415386).ymd = ⟨1901, 1, 1⟩ ∧ (fromJulian (jd + 1)).ymd = (fromJulian jd).ymd.next := by
  have := (days_follow_calendar (jd - 2415386)).2.1
  rw [show jd - 2415386 + 1 = jd + 1 - 2415386 by omega] at this
  exact ⟨by decide, this⟩

/-- C43. Later days have later dates, in the order of year, then month, then day. -/
theorem days_ordered {x z : Date} (hx : Made x) (hz : Made z) :
    x.days < z.days ↔ x.year < z.year ∨ (x.year = z.year ∧ (x.month < z.month ∨ (x.month = z.month ∧ x.day < z.day))) := by
  -- the day number grows with the date
  have mono : ∀ (k : Nat) (a : Ymd), a.Valid → ∀ b : Ymd, b.Valid → b.number = a.number + k →
      k = 0 ∨ (a.y < b.y ∨ (a.y = b.y ∧ (a.m < b.m ∨ (a.m = b.m ∧ a.d < b.d)))) := by
    intro k
    induction k with
    | zero => intros; exact Or.inl rfl
    | succ k ih =>
      intro a ha b hb hn
      refine Or.inr ?_
      have hp := ih a ha b.prev (prev_valid b hb) (by rw [number_prev b hb, hn]; push_cast; omega)
      have hbp : b.prev.y < b.y ∨ (b.prev.y = b.y ∧ (b.prev.m < b.m ∨ (b.prev.m = b.m ∧ b.prev.d < b.d))) := by
        simp only [Ymd.prev]
        split
        · simp
        · split
          · simp
          · simp
      rcases hp with rfl | hp
      · have : a = b.prev := number_inj a b.prev ha (prev_valid b hb) (by rw [number_prev b hb, hn]; simp)
        rw [this]; exact hbp
      · omega
  obtain ⟨vx, nx⟩ := made_valid hx
  obtain ⟨vz, nz⟩ := made_valid hz
  constructor
  · intro h
    have := mono (z.days - x.days).toNat x.ymd vx z.ymd vz (by rw [nx, nz]; omega)
    simp only [Date.ymd] at this
    omega
  · intro h
    by_contra hlt
    have := mono (x.days - z.days).toNat z.ymd vz x.ymd vx (by rw [nx, nz]; omega)
    simp only [Date.ymd] at this
    rcases this with h0 | h0
    · have he : x.days = z.days := by omega
      have := number_inj x.ymd z.ymd vx vz (by rw [nx, nz, he])
      simp only [Date.ymd, Ymd.mk.injEq] at this
      omega
    · omega

example : Made (setDays 5) ∧ Made (setDays 900) ∧ (setDays 5).days < (setDays 900).days := ⟨.fromDays _, .fromDays _, by decide⟩

/-- C44. Asking for a day that exists gives that day, whatever the year. -/
theorem newDay_exact (d m y : Int) (h : Ymd.Valid ⟨y, m, d⟩) :
    ∃ x, setDay d m y = some x ∧ x.ymd = ⟨y, m, d⟩ ∧ setDays x.days = x := by
  have hs := setDays_number ⟨y, m, d⟩ h
  obtain ⟨h1, h2, h3, h4⟩ := h
  simp only at h1 h2 h3 h4
  refine ⟨⟨d + daysUntilMonth m y, d, m, y⟩, ?_, rfl, hs⟩
  rw [setDay, if_neg (by omega), monthIndex_spec m y ⟨h1, h2⟩]
  simp only
  rw [if_neg (by omega)]

example : Ymd.Valid ⟨2024, 2, 29⟩ ∧ ¬ Ymd.Valid ⟨1900, 2, 29⟩ := by decide

/-- C44. What `storeOn:` writes (`newDay:monthIndex:year:` of the receiver's parts) evaluates to an equal Date; so does `fromDays:` of its day number. -/
theorem store_round_trip {x : Date} (h : Made x) : setDay x.day x.month x.year = some x ∧ setDays x.days = x := by
  obtain ⟨hv, hn⟩ := made_valid h
  have hs := setDays_number x.ymd hv
  obtain ⟨z, hz, -, -⟩ := newDay_exact x.day x.month x.year hv
  rw [hn] at hs
  refine ⟨?_, hs⟩
  obtain ⟨h1, h2, h3, h4⟩ := hv
  simp only [Date.ymd] at h1 h2 h3 h4
  rw [setDay, if_neg (by omega), monthIndex_spec x.month x.year ⟨h1, h2⟩]
  simp only
  rw [if_neg (by omega)]
  simp only [Ymd.number, Date.ymd] at hn
  rw [hn]

/-- C44. Two Dates are equal (`=` compares day numbers) exactly when they agree in day, month and year; equal Dates have equal hashes. -/
theorem equal_iff_parts {x z : Date} (hx : Made x) (hz : Made z) : x.days = z.days ↔ x.ymd = z.ymd := by
  obtain ⟨vx, nx⟩ := made_valid hx
  obtain ⟨vz, nz⟩ := made_valid hz
  constructor
  · intro h; exact number_inj _ _ vx vz (by rw [nx, nz, h])
  · intro h; rw [← nx, ← nz, h]

/-- C44. A day of the month out of range counts on from the month before: day `d` of a month is `d - 1` days after its first.
Outside months 1 to 12 the answer is an error unless `d < 1`. -/
theorem newDay_normalises (d m y : Int) (hm : 1 ≤ m ∧ m ≤ 12) :
    ∃ x f, setDay d m y = some x ∧ setDay 1 m y = some f ∧ f.ymd = ⟨y, m, 1⟩ ∧ x = f.addDays (d - 1) := by
  have hp := monthLength_pos y m
  have hf : setDay 1 m y = some ⟨1 + daysUntilMonth m y, 1, m, y⟩ := by
    rw [setDay, if_neg (by omega), monthIndex_spec m y hm]
    simp only
    rw [if_neg (by omega)]
  refine ⟨_, _, ?_, hf, rfl, rfl⟩
  have e : (1 + daysUntilMonth m y) + (d - 1) = d + daysUntilMonth m y := by omega
  simp only [Date.addDays, e]
  rw [setDay]
  by_cases hd : d < 1
  · rw [if_pos hd]
  · rw [if_neg hd, monthIndex_spec m y hm]
    simp only
    by_cases hk : monthLength y m < d
    · rw [if_pos hk]
    · rw [if_neg hk]
      have := setDays_number ⟨y, m, d⟩ ⟨hm.1, hm.2, by simp only; omega, by simp only; omega⟩
      simp only [Ymd.number] at this
      rw [this]

example : (setDay 31 2 2023).map Date.ymd = some ⟨2023, 3, 3⟩ ∧ (setDay 0 3 2023).map Date.ymd = some ⟨2023, 2, 28⟩ := by decide

/-- C44. A month that does not exist is an error, unless the day is below 1: then some date is answered, and it need not be that of the month counted on
(day 0 of the fifteenth month of 2022, the day before 1 March 2023, comes out as 2 March). -/
theorem newDay_bad_month (d m y : Int) (hm : ¬(1 ≤ m ∧ m ≤ 12)) : (setDay d m y = none ↔ 1 ≤ d) := by
  rw [setDay]
  by_cases hd : d < 1
  · rw [if_pos hd]; simp; omega
  · rw [if_neg hd, index_none m y hm]; simp; omega

theorem bad_month_wrong : (setDay 0 15 2022).map Date.ymd = some ⟨2023, 3, 2⟩ ∧ (setDay 0 3 2023).map Date.ymd = some ⟨2023, 2, 28⟩ := by decide

/-- C44. Adding and subtracting days: exact, and inverse to each other; the difference of two Dates counts the days. -/
theorem addDays_exact {x : Date} (h : Made x) (n k : Int) :
    (x.addDays n).days = x.days + n ∧ (x.subtractDays n).days = x.days - n ∧ (x.addDays n).addDays k = x.addDays (n + k) ∧
    (x.addDays n).subtractDays n = x ∧ (x.subtractDays n).addDays n = x := by
  have hs := (store_round_trip h).2
  have hd := fun n => (setDays_spec n).2.2
  simp only [Date.addDays, Date.subtractDays, hd]
  refine ⟨trivial, trivial, by rw [Int.add_assoc], ?_, ?_⟩
  · rw [show x.days + n - n = x.days by omega, hs]
  · rw [show x.days - n + n = x.days by omega, hs]

/-- C45. `daysInYear:` is 366 in leap years and 365 otherwise. -/
theorem daysInYear_correct (y : Int) : daysInYear y = if Leap y then 366 else 365 := daysInYear_spec y

/-- C45. `isLeapYear` tells leap years. -/
theorem isLeapYear_correct (x : Date) : x.isLeapYear = true ↔ Leap x.year := by
  rw [Date.isLeapYear, daysInYear_spec]
  by_cases h : Leap x.year <;> simp [h]

/-- C45. `daysInMonth` is the length of the month. -/
theorem daysInMonth_correct {x : Date} (h : Made x) : x.daysInMonth = some (monthLength x.year x.month) :=
  monthIndex_spec _ _ ⟨(made_valid h).1.1, (made_valid h).1.2.1⟩

/-- The days of the months before month `m` of year `y`. -/
def daysBefore (y : Int) : Nat → Int
  | 0 => 0
  | k + 1 => daysBefore y k + monthLength y (k + 1)

theorem until_before (y : Int) (k : Nat) (h : k < 12) : daysUntilMonth (k + 1) y = daysUntilMonth 1 y + daysBefore y k := by
  induction k with
  | zero => simp [daysBefore]
  | succ k ih =>
    have := until_next (k + 1) y ⟨by omega, by omega⟩
    rw [daysBefore, ← Int.add_assoc, ← ih (by omega), ← this]
    push_cast; rfl

theorem year_january (y : Int) : yearAsDays y = daysUntilMonth 1 y := by
  rw [until_month 1 y (by omega), if_pos (by omega), yearAsDays]; omega

/-- C45. `dayOfYear` is the day of the month plus the lengths of the months before. -/
theorem dayOfYear_correct {x : Date} (h : Made x) : x.dayOfYear = daysBefore x.year (x.month - 1).toNat + x.day := by
  obtain ⟨⟨h1, h2, -, -⟩, hn⟩ := made_valid h
  simp only [Date.ymd] at h1 h2
  have := until_before x.year (x.month - 1).toNat (by omega)
  rw [show (((x.month - 1).toNat : Int) + 1) = x.month by omega] at this
  rw [Date.dayOfYear, ← hn, Ymd.number, year_january]
  simp only [Date.ymd]
  omega

example : (setDays 45000).dayOfYear = 76 ∧ (setDays 45000).ymd = ⟨2024, 3, 16⟩ := by decide

/-- C45. `newDay:year:` and `dayOfYear` are inverse to each other on the days of the year. -/
theorem newDayYear_correct (d y : Int) (h : 1 ≤ d ∧ d ≤ daysInYear y) : (newDayYear d y).year = y ∧ (newDayYear d y).dayOfYear = d := by
  have hx := setDays_spec (d + yearAsDays y)
  have hy : (setDays (d + yearAsDays y)).year = y := by
    have hm : Made (setDays (d + yearAsDays y)) := .fromDays _
    have a : ∃ f, setDay 1 1 y = some f ∧ f.ymd = ⟨y, 1, 1⟩ ∧ setDays f.days = f :=
      newDay_exact 1 1 y ⟨by simp, by simp, by simp, by simp [monthLength]⟩
    have b : ∃ l, setDay 31 12 y = some l ∧ l.ymd = ⟨y, 12, 31⟩ ∧ setDays l.days = l :=
      newDay_exact 31 12 y ⟨by simp, by simp, by simp, by simp [monthLength]⟩
    obtain ⟨f, hf, pf, -⟩ := a
    obtain ⟨l, hl, pl, -⟩ := b
    have mf : Made f := .dayMonthYear _ _ _ _ hf
    have ml : Made l := .dayMonthYear _ _ _ _ hl
    have nf := (made_valid mf).2
    have nl := (made_valid ml).2
    have c1 := days_ordered hm mf
    have c2 := days_ordered ml hm
    have e1 := until_next_year y
    have e2 : daysInYear y = yearAsDays (y + 1) - yearAsDays y := by
      rw [daysInYear, yearAsDays, yearAsDays]
      rw [show y + 1 + 4799 = y + 4800 by omega, show y + 1 + 4899 = y + 4900 by omega]
      omega
    rw [year_january, year_january] at e2
    rw [pf, Ymd.number] at nf
    rw [pl, Ymd.number] at nl
    simp only [Date.ymd, Ymd.mk.injEq] at pf pl nf nl
    rw [hx.2.2, year_january] at c1 c2
    have v := hx.1
    rw [year_january] at v ⊢
    simp only [Ymd.Valid, Date.ymd] at v
    omega
  refine ⟨hy, ?_⟩
  rw [newDayYear] at *
  rw [Date.dayOfYear, hx.2.2, hy]; omega

example : (newDayYear 60 2023).ymd = ⟨2023, 3, 1⟩ ∧ (newDayYear 60 2024).ymd = ⟨2024, 2, 29⟩ := by decide

/-- C45. Days left in the year and in the month: to the last day, inclusive of it. -/
theorem daysLeft_correct {x : Date} (h : Made x) :
    x.daysLeftInMonth = some (monthLength x.year x.month - x.day) ∧ x.daysLeftInYear = daysInYear x.year - x.dayOfYear := by
  constructor
  · rw [Date.daysLeftInMonth, monthIndex_spec x.month x.year ⟨(made_valid h).1.1, (made_valid h).1.2.1⟩]; rfl
  · rw [Date.daysLeftInYear, Date.dayOfYear, daysInYear, yearAsDays, yearAsDays,
      show x.year + 1 + 4799 = x.year + 4800 by omega, show x.year + 1 + 4899 = x.year + 4900 by omega]
    omega

/-- C45. First and last day of the month. -/
theorem firstLast_correct {x : Date} (h : Made x) :
    x.firstDayOfMonth.ymd = ⟨x.year, x.month, 1⟩ ∧
    x.lastDayOfMonth.map Date.ymd = some ⟨x.year, x.month, monthLength x.year x.month⟩ := by
  obtain ⟨⟨h1, h2, h3, h4⟩, hn⟩ := made_valid h
  simp only [Date.ymd] at h1 h2 h3 h4
  have hp := monthLength_pos x.year x.month
  simp only [Ymd.number, Date.ymd] at hn
  constructor
  · have := setDays_number ⟨x.year, x.month, 1⟩ ⟨h1, h2, by simp, by simp only; omega⟩
    rw [Ymd.number] at this
    simp only at this
    rw [Date.firstDayOfMonth, Date.subtractDays, show x.days - (x.day - 1) = 1 + daysUntilMonth x.month x.year by omega, this]
    rfl
  · have := setDays_number ⟨x.year, x.month, monthLength x.year x.month⟩ ⟨h1, h2, by simp only; omega, by simp⟩
    rw [Ymd.number] at this
    simp only at this
    rw [Date.lastDayOfMonth, (daysLeft_correct h).1]
    simp only [Option.map_some, Date.addDays]
    rw [show x.days + (monthLength x.year x.month - x.day) = monthLength x.year x.month + daysUntilMonth x.month x.year by omega, this]
    rfl

/-- C45. The day of the week: 1 January 1901 was a Tuesday (2), and each day is followed by the next of the seven. -/
theorem dayOfWeek_correct (n : Int) :
    (setDays 0).dayOfWeek = 2 ∧ 1 ≤ (setDays n).dayOfWeek ∧ (setDays n).dayOfWeek ≤ 7 ∧
    (setDays (n + 1)).dayOfWeek = if (setDays n).dayOfWeek = 7 then 1 else (setDays n).dayOfWeek + 1 := by
  simp only [Date.dayOfWeek, (setDays_spec _).2.2]
  refine ⟨by decide, by omega, by omega, ?_⟩
  split <;> omega

/-- C45. Known days: 20 July 1969 was a Sunday, 1 January 2000 a Saturday. -/
example : (setDay 20 7 1969).map Date.dayOfWeek = some 7 ∧ (setDay 1 1 2000).map Date.dayOfWeek = some 6 := by decide

end Verif.Calendar
