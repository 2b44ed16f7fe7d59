import Verif.Calendar.DateTheorems
/-!
# Times, durations and timestamps (kernel/Time.st, kernel/AnsiDates.st)

Durations are whole numbers of seconds here (Smalltalk also allows fractions, which `Duration milliseconds:` makes).
`quo:`/`rem:` truncate: `Int.tdiv`, `Int.tmod`.
-/
namespace Verif.Calendar

/-- kernel/Time.st l.432-435 (`setSeconds:`), on which `fromSeconds:`, `hour:minute:second:`, `addSeconds:`, `addTime:`, `subtractTime:` all rest
(l.185-248, 393-414). A Time is its number of seconds. -/
def timeFromSeconds (s : Int) : Int := s % 86400

/-- kernel/Time.st l.199-205 (`hour:minute:second:`). -/
def timeHms (h m s : Int) : Int := timeFromSeconds ((h * 60 + m) * 60 + s)

/-- kernel/Time.st l.314-333 (`hours`, `minutes`, `seconds`). -/
def hours (s : Int) : Int := (s.tdiv 3600).tmod 24
def minutes (s : Int) : Int := (s.tdiv 60).tmod 60
def secs (s : Int) : Int := s.tmod 60

/-- kernel/Time.st l.335-370 (`hour`, `hour12`, `minute`, `second`). -/
def hour (s : Int) : Int := s / 3600 % 24
def hour12 (s : Int) : Int := let h := hour s % 12; if h = 0 then 12 else h
def minute (s : Int) : Int := s / 60 % 60
def second (s : Int) : Int := s % 60

/-- kernel/AnsiDates.st l.687-692 (`Duration >> days`). A Duration is its number of seconds (l.758-761). -/
def durDays (d : Int) : Int := d.tdiv 86400

/-- kernel/AnsiDates.st l.584-590 (`days:hours:minutes:seconds:`). -/
def durOf (d h m s : Int) : Int := ((d * 24 + h) * 60 + m) * 60 + s

/-- kernel/AnsiDates.st l.702-718 (`Duration >> storeOn:`): what the stored expression evaluates to. -/
def durRestored (d : Int) : Int := durOf (durDays d) (hours d) (minutes d) (secs d)

/-- The instance variables of a DateTime; the offset is a Duration. -/
structure DateTime where
  date : Date
  seconds : Int
  offset : Int
  deriving DecidableEq, Repr

/-- kernel/AnsiDates.st l.79-88 (`fromDays:seconds:offset:`), with l.519-527. -/
def fromDays (days secs ofs : Int) : DateTime := ⟨setDays (days + secs / 86400), secs % 86400, ofs⟩

/-- kernel/AnsiDates.st l.54-61 (`fromSeconds:offset:`). -/
def fromSeconds (secs ofs : Int) : DateTime := fromDays 0 secs ofs

/-- kernel/AnsiDates.st l.90-98 (`date:time:offset:`). -/
def dateTime (d : Date) (t ofs : Int) : DateTime := ⟨setDays d.days, t, ofs⟩

/-- kernel/AnsiDates.st l.178-193 (`year:month:day:hour:minute:second:offset:`); the time is not brought into range. -/
def ymdHms (y m d h min s ofs : Int) : Option DateTime := (setDay d m y).map fun x => ⟨x, (h * 60 + min) * 60 + s, ofs⟩

/-- kernel/AnsiDates.st l.236-253 (`+`). -/
def DateTime.plus (t : DateTime) (dur : Int) : DateTime :=
  let newSecs := t.seconds + dur.tmod 86400
  if newSecs > 86400 then fromDays (t.date.days + durDays dur + 1) (newSecs - 86400) t.offset
  else fromDays (t.date.days + durDays dur) newSecs t.offset

/-- kernel/AnsiDates.st l.255-280 (`-` of a Duration). -/
def DateTime.minus (t : DateTime) (dur : Int) : DateTime :=
  let newSecs := t.seconds - dur.tmod 86400
  if newSecs < 0 then fromDays (t.date.days - durDays dur - 1) (newSecs + 86400) t.offset
  else fromDays (t.date.days - durDays dur) newSecs t.offset

/-- kernel/AnsiDates.st l.379-397 (`asUTC`). -/
def DateTime.asUTC (t : DateTime) : DateTime :=
  if t.offset = 0 then t
  else
    let newSecs := t.seconds - t.offset
    if newSecs < 0 then fromDays (t.date.days + durDays t.offset - 1) (newSecs + 86400) 0
    else fromDays (t.date.days + durDays t.offset) newSecs 0

/-- kernel/AnsiDates.st l.255-280 (`-` of a DateTime, for equal offsets), with l.554-561. -/
def DateTime.diffSame (t u : DateTime) : Int :=
  let newSecs := t.seconds - u.seconds
  if newSecs < 0 then (t.date.days - u.date.days - 1) * 86400 + (newSecs + 86400)
  else (t.date.days - u.date.days) * 86400 + newSecs

/-- kernel/AnsiDates.st l.255-280 (`-` of a DateTime); after `asUTC` the offsets are equal. -/
def DateTime.diff (t u : DateTime) : Int :=
  if t.offset = u.offset then t.diffSame u else t.asUTC.diffSame u.asUTC

/-- kernel/AnsiDates.st l.211-218 (`<`), kernel/Date.st l.376-388. -/
def DateTime.ltSame (t u : DateTime) : Bool := t.date.days < u.date.days || (t.date.days == u.date.days && decide (t.seconds < u.seconds))
def DateTime.lt (t u : DateTime) : Bool := if t.offset = u.offset then t.ltSame u else t.asUTC.ltSame u.asUTC

/-- kernel/AnsiDates.st l.220-227 (`=`, on two DateTimes). -/
def DateTime.eqSame (t u : DateTime) : Bool := t.date.days == u.date.days && t.seconds == u.seconds
def DateTime.eq (t u : DateTime) : Bool := if t.offset = u.offset then t.eqSame u else t.asUTC.eqSame u.asUTC

/-- kernel/AnsiDates.st l.229-234 (`hash`); `self offset seconds` is `seconds rem: 60` of the offset. -/
def DateTime.hash (t : DateTime) : Int := t.date.days * 37 + (t.seconds - secs t.offset)

/-- kernel/AnsiDates.st l.282-287 (`asSeconds`). -/
def DateTime.asSeconds (t : DateTime) : Int := t.date.days * 86400 + t.seconds

/-- kernel/AnsiDates.st l.366-377 (`asLocal`), `bias` the answer of the primitive `timezoneBias:`. -/
def DateTime.asLocal (bias : Int → Int) (t : DateTime) : DateTime :=
  let utcSecs := t.asSeconds - t.offset
  let offset := bias utcSecs
  fromSeconds (utcSecs + offset) offset

/-- kernel/AnsiDates.st l.297-339 (`hour`, `minute`, `second`). -/
def DateTime.hour (t : DateTime) : Int := t.seconds / 3600
def DateTime.minute (t : DateTime) : Int := t.seconds / 60 % 60
def DateTime.second (t : DateTime) : Int := t.seconds % 60

/-- kernel/AnsiDates.st l.289-295 (`dayOfWeek`): 1 = Sunday. -/
def DateTime.dayOfWeek (t : DateTime) : Option Int := [2, 3, 4, 5, 6, 7, 1][(t.date.dayOfWeek - 1).toNat]?

/-- kernel/AnsiDates.st l.478-505 (`storeOn:`): what the stored expression evaluates to. -/
def DateTime.restored (t : DateTime) : Option DateTime :=
  ymdHms t.date.year t.date.month t.date.day t.hour t.minute t.second (if t.offset = 0 then 0 else durRestored t.offset)

/-- kernel/Date.st l.401-410 (`Date >> +`): a Date when `aDuration seconds` is zero, a DateTime otherwise. -/
def Date.plus (x : Date) (dur : Int) : Date ⊕ DateTime :=
  if secs dur = 0 then .inl (setDays (x.days + durDays dur)) else .inr (fromDays (x.days + durDays dur) (secs dur) 0)

/-- kernel/Date.st l.393-399 (`Date >> -`): a Duration. -/
def Date.minus (x z : Date) : Int := (x.days - z.days) * 86400

/-- kernel/AnsiDates.st l.419-432 (`timeZoneAbbreviation`): sign, hour and minute shown. -/
def DateTime.zone (t : DateTime) : Bool × Int × Int := (decide (t.offset ≥ 0), Calendar.hour t.offset, Calendar.minute t.offset)

/-! ## The line of time -/

/-- Seconds since midnight UTC of 1 January 1901: the moment a timestamp stands for. -/
def DateTime.instant (t : DateTime) : Int := t.date.days * 86400 + t.seconds - t.offset

/-- A timestamp with its time of day in range and its date a day of the calendar. -/
def DateTime.Good (t : DateTime) : Prop := 0 ≤ t.seconds ∧ t.seconds < 86400 ∧ Made t.date

/-- Time zones are less than a day away from UTC. -/
def DateTime.Zoned (t : DateTime) : Prop := -86400 < t.offset ∧ t.offset < 86400

theorem tdiv_tmod (a b : Int) : b * a.tdiv b + a.tmod b = a := Int.mul_tdiv_add_tmod a b

theorem tdiv_cases (a b : Int) (_hb : 0 < b) : (0 ≤ a ∧ a.tdiv b = a / b ∧ a.tmod b = a % b) ∨
    (a < 0 ∧ a.tdiv b = -((-a) / b) ∧ a.tmod b = -((-a) % b)) := by
  rcases (by omega : a < 0 ∨ 0 ≤ a) with h | h
  · refine Or.inr ⟨h, ?_, ?_⟩
    · have h1 : a.tdiv b = -((-a).tdiv b) := by simp
      rw [h1, Int.tdiv_eq_ediv_of_nonneg (by omega)]
    · have h1 : a.tmod b = -((-a).tmod b) := by simp
      rw [h1, Int.tmod_eq_emod_of_nonneg (by omega)]
  · exact Or.inl ⟨h, Int.tdiv_eq_ediv_of_nonneg h, Int.tmod_eq_emod_of_nonneg h⟩

theorem fromDays_good (d s o : Int) : (fromDays d s o).Good :=
  ⟨Int.emod_nonneg _ (by decide), Int.emod_lt_of_pos _ (by decide), .fromDays _⟩

theorem fromDays_instant (d s o : Int) : (fromDays d s o).instant = d * 86400 + s - o := by
  simp only [fromDays, DateTime.instant, (setDays_spec _).2.2]; omega

/-- C46. Every timestamp computed from days and seconds has its time of day in range and stands for the moment asked for. -/
theorem fromDays_exact (d s o : Int) :
    (fromDays d s o).Good ∧ (fromDays d s o).instant = d * 86400 + s - o ∧ (fromDays d s o).offset = o ∧
    (fromDays d s o).asSeconds = d * 86400 + s := by
  refine ⟨fromDays_good d s o, fromDays_instant d s o, rfl, ?_⟩
  have := fromDays_instant d s o
  rw [DateTime.instant] at this
  rw [DateTime.asSeconds]
  have h : (fromDays d s o).offset = o := rfl
  omega

/-- C46. Adding a Duration, of either sign and any length, moves the timestamp by exactly that many seconds and keeps its offset. -/
theorem plus_exact (t : DateTime) (dur : Int) :
    (t.plus dur).Good ∧ (t.plus dur).instant = t.instant + dur ∧ (t.plus dur).offset = t.offset := by
  have := tdiv_tmod dur 86400
  rw [DateTime.plus]
  simp only [durDays]
  split
  · refine ⟨fromDays_good _ _ _, ?_, rfl⟩
    rw [fromDays_instant, DateTime.instant]; omega
  · refine ⟨fromDays_good _ _ _, ?_, rfl⟩
    rw [fromDays_instant, DateTime.instant]; omega

/-- C46. So does subtracting one. -/
theorem minus_exact (t : DateTime) (dur : Int) :
    (t.minus dur).Good ∧ (t.minus dur).instant = t.instant - dur ∧ (t.minus dur).offset = t.offset := by
  have := tdiv_tmod dur 86400
  rw [DateTime.minus]
  simp only [durDays]
  split
  · refine ⟨fromDays_good _ _ _, ?_, rfl⟩
    rw [fromDays_instant, DateTime.instant]; omega
  · refine ⟨fromDays_good _ _ _, ?_, rfl⟩
    rw [fromDays_instant, DateTime.instant]; omega

theorem good_ext (t u : DateTime) (ht : t.Good) (hu : u.Good) (ho : t.offset = u.offset) (hi : t.instant = u.instant) : t = u := by
  obtain ⟨t1, t2, t3⟩ := ht
  obtain ⟨u1, u2, u3⟩ := hu
  simp only [DateTime.instant] at hi
  have hd : t.date.days = u.date.days := by omega
  have hs : t.seconds = u.seconds := by omega
  have he : t.date = u.date := by rw [← (store_round_trip t3).2, ← (store_round_trip u3).2, hd]
  cases t; cases u; simp_all

/-- C46. Adding and subtracting the same Duration comes back to the same timestamp; adding in two steps is adding the sum. -/
theorem plus_minus (t : DateTime) (a b : Int) (h : t.Good) :
    (t.plus a).minus a = t ∧ (t.minus a).plus a = t ∧ (t.plus a).plus b = t.plus (a + b) := by
  refine ⟨?_, ?_, ?_⟩
  · apply good_ext _ _ (minus_exact _ _).1 h
    · rw [(minus_exact _ _).2.2, (plus_exact _ _).2.2]
    · rw [(minus_exact _ _).2.1, (plus_exact _ _).2.1]; omega
  · apply good_ext _ _ (plus_exact _ _).1 h
    · rw [(plus_exact _ _).2.2, (minus_exact _ _).2.2]
    · rw [(plus_exact _ _).2.1, (minus_exact _ _).2.1]; omega
  · apply good_ext _ _ (plus_exact _ _).1 (plus_exact _ _).1
    · rw [(plus_exact _ _).2.2, (plus_exact _ _).2.2, (plus_exact _ _).2.2]
    · rw [(plus_exact _ _).2.1, (plus_exact _ _).2.1, (plus_exact _ _).2.1]; omega

example : (fromDays 100 86399 3600).Good ∧ (fromDays 100 86399 3600).plus 1 = fromDays 101 0 3600 := ⟨fromDays_good _ _ _, by decide⟩

/-- C46. `asUTC` keeps the moment when the offset is less than a day; in general it is off by the whole days of the offset. -/
theorem asUTC_instant (t : DateTime) : t.asUTC.instant = t.instant + 86400 * durDays t.offset ∧ t.asUTC.offset = 0 := by
  rw [DateTime.asUTC]
  by_cases h : t.offset = 0
  · rw [if_pos h, h]; simp [durDays]
  · rw [if_neg h]
    simp only
    split
    · refine ⟨?_, rfl⟩
      rw [fromDays_instant, DateTime.instant]; omega
    · refine ⟨?_, rfl⟩
      rw [fromDays_instant, DateTime.instant]; omega

theorem asUTC_good (t : DateTime) (h : t.Good) : t.asUTC.Good := by
  rw [DateTime.asUTC]
  split
  · exact h
  · simp only
    split <;> exact fromDays_good _ _ _

theorem zoned_days (t : DateTime) (h : t.Zoned) : durDays t.offset = 0 := by
  obtain ⟨h1, h2⟩ := h
  rw [durDays]
  rcases tdiv_cases t.offset 86400 (by decide) with ⟨_, h, _⟩ | ⟨_, h, _⟩ <;> omega

theorem asUTC_partial (t : DateTime) (h : t.Zoned) : t.asUTC.instant = t.instant ∧ t.asUTC.offset = 0 := by
  have := asUTC_instant t
  rw [zoned_days t h] at this
  simpa using this

/-- C46 fails for offsets of a day or more, which nothing refuses: `asUTC` of midnight at offset +1 day stands for another moment. -/
theorem asUTC_wrong : (fromDays 10 0 86400).asUTC.instant ≠ (fromDays 10 0 86400).instant := by decide

/-- C46. `-` of two timestamps counts the seconds between their moments, whatever their offsets (less than a day). -/
theorem diff_partial (t u : DateTime) (ht : t.Zoned) (hu : u.Zoned) : t.diff u = t.instant - u.instant := by
  have a := asUTC_partial t ht
  have b := asUTC_partial u hu
  have key : ∀ x y : DateTime, x.offset = y.offset → x.diffSame y = x.instant - y.instant := by
    intro x y h
    rw [DateTime.diffSame]
    simp only [DateTime.instant]
    split <;> omega
  rw [DateTime.diff]
  by_cases h : t.offset = u.offset
  · rw [if_pos h, key t u h]
  · rw [if_neg h, key _ _ (by rw [a.2, b.2]), a.1, b.1]

/-- C46. Adding the difference of two timestamps to the earlier gives one equal to the later. -/
theorem plus_diff_partial (t u : DateTime) (ht : t.Zoned) (hu : u.Zoned) : (u.plus (t.diff u)).instant = t.instant := by
  rw [(plus_exact _ _).2.1, diff_partial t u ht hu]; omega

/-- C46. `<` is the order of the moments. -/
theorem lt_partial (t u : DateTime) (gt : t.Good) (gu : u.Good) (ht : t.Zoned) (hu : u.Zoned) : t.lt u = true ↔ t.instant < u.instant := by
  have a := asUTC_partial t ht
  have b := asUTC_partial u hu
  have key : ∀ x y : DateTime, x.Good → y.Good → x.offset = y.offset → (x.ltSame y = true ↔ x.instant < y.instant) := by
    intro x y ⟨gx1, gx2, _⟩ ⟨gy1, gy2, _⟩ h
    simp only [DateTime.ltSame, DateTime.instant, Bool.or_eq_true, Bool.and_eq_true, decide_eq_true_eq, beq_iff_eq]
    omega
  rw [DateTime.lt]
  by_cases h : t.offset = u.offset
  · rw [if_pos h, key t u gt gu h]
  · rw [if_neg h, key _ _ (asUTC_good t gt) (asUTC_good u gu) (by rw [a.2, b.2]), a.1, b.1]

/-- C46. `=` is equality of the moments. -/
theorem eq_partial (t u : DateTime) (gt : t.Good) (gu : u.Good) (ht : t.Zoned) (hu : u.Zoned) : t.eq u = true ↔ t.instant = u.instant := by
  have a := asUTC_partial t ht
  have b := asUTC_partial u hu
  have key : ∀ x y : DateTime, x.Good → y.Good → x.offset = y.offset → (x.eqSame y = true ↔ x.instant = y.instant) := by
    intro x y ⟨gx1, gx2, _⟩ ⟨gy1, gy2, _⟩ h
    simp only [DateTime.eqSame, DateTime.instant, Bool.and_eq_true, beq_iff_eq]
    omega
  rw [DateTime.eq]
  by_cases h : t.offset = u.offset
  · rw [if_pos h, key t u gt gu h]
  · rw [if_neg h, key _ _ (asUTC_good t gt) (asUTC_good u gu) (by rw [a.2, b.2]), a.1, b.1]

example : (fromDays 100 3600 7200).Good ∧ (fromDays 100 3600 7200).Zoned ∧ (fromDays 99 82800 0).Zoned ∧
    (fromDays 100 3600 7200).eq (fromDays 99 82800 0) = true := ⟨fromDays_good _ _ _, by unfold DateTime.Zoned; decide, by unfold DateTime.Zoned; decide, by decide⟩

/-- C46 fails for times not in range, which `year:month:day:hour:minute:second:` makes: 24 hours after midnight of the 1st is the same moment as
midnight of the 2nd, yet the two are not equal, and 30 hours after is later but compares as earlier. -/
theorem hms_unnormalised :
    ∃ a b c, ymdHms 2020 1 1 24 0 0 0 = some a ∧ ymdHms 2020 1 2 0 0 0 0 = some b ∧ ymdHms 2020 1 1 30 0 0 0 = some c ∧
      a.instant = b.instant ∧ a.eq b = false ∧ b.instant < c.instant ∧ c.lt b = true :=
  ⟨_, _, _, rfl, rfl, rfl, by decide, by decide, by decide, by decide⟩

/-- C47. Timestamps with the same offset that are equal have the same hash. -/
theorem hash_partial (t u : DateTime) (ho : t.offset = u.offset) (h : t.eq u = true) : t.hash = u.hash := by
  rw [DateTime.eq, if_pos ho] at h
  simp only [DateTime.eqSame, Bool.and_eq_true, beq_iff_eq] at h
  rw [DateTime.hash, DateTime.hash, h.1, h.2, ho]

example : (fromDays 100 3600 7200).eq (fromDays 100 3600 7200) = true := by decide

/-- C47 fails: the same moment in two time zones is equal but hashes differently, so a Set or a Dictionary keeps both. -/
theorem hash_differs : (fromDays 100 7200 7200).eq (fromDays 100 0 0) = true ∧ (fromDays 100 7200 7200).hash ≠ (fromDays 100 0 0).hash := by
  decide

/-- C46. `asLocal` keeps the moment, whatever the operating system says of the time zone. -/
theorem asLocal_exact (bias : Int → Int) (t : DateTime) :
    (t.asLocal bias).Good ∧ (t.asLocal bias).instant = t.instant ∧ (t.asLocal bias).offset = bias t.instant := by
  refine ⟨fromDays_good _ _ _, ?_, rfl⟩
  rw [DateTime.asLocal]
  simp only [fromSeconds]
  rw [fromDays_instant, DateTime.asSeconds, DateTime.instant]; omega

/-- C47. Hour, minute and second are in range and make up the time of day. -/
theorem parts_exact (t : DateTime) (h : t.Good) :
    0 ≤ t.hour ∧ t.hour < 24 ∧ 0 ≤ t.minute ∧ t.minute < 60 ∧ 0 ≤ t.second ∧ t.second < 60 ∧ t.seconds = (t.hour * 60 + t.minute) * 60 + t.second := by
  obtain ⟨h1, h2, _⟩ := h
  simp only [DateTime.hour, DateTime.minute, DateTime.second]
  omega

theorem dur_parts (d : Int) : ((durDays d * 24 + hours d) * 60 + minutes d) * 60 + secs d = d := by
  simp only [durDays, hours, minutes, secs]
  rcases tdiv_cases d 60 (by decide) with ⟨h0, h1, h2⟩ | ⟨h0, h1, h2⟩
  · rw [Int.tdiv_eq_ediv_of_nonneg h0, Int.tdiv_eq_ediv_of_nonneg h0, h1, h2, Int.tmod_eq_emod_of_nonneg (by omega),
      Int.tmod_eq_emod_of_nonneg (by omega)]
    omega
  · have a1 : d.tdiv 86400 = -((-d) / 86400) := by
      rcases tdiv_cases d 86400 (by decide) with h | h <;> omega
    have a2 : d.tdiv 3600 = -((-d) / 3600) := by
      rcases tdiv_cases d 3600 (by decide) with h | h <;> omega
    rw [a1, a2, h1, h2, Int.neg_tmod, Int.neg_tmod, Int.tmod_eq_emod_of_nonneg (by omega), Int.tmod_eq_emod_of_nonneg (by omega)]
    omega

/-- C47. Days, hours, minutes and seconds of a Duration of either sign add up to it, each is below the next unit, and none has the other sign;
so what `storeOn:` writes evaluates to an equal Duration. -/
theorem duration_parts (d : Int) :
    durRestored d = d ∧ (hours d).natAbs < 24 ∧ (minutes d).natAbs < 60 ∧ (secs d).natAbs < 60 ∧
    (0 ≤ d → 0 ≤ durDays d ∧ 0 ≤ hours d ∧ 0 ≤ minutes d ∧ 0 ≤ secs d) ∧ (d ≤ 0 → durDays d ≤ 0 ∧ hours d ≤ 0 ∧ minutes d ≤ 0 ∧ secs d ≤ 0) := by
  refine ⟨by rw [durRestored, durOf, dur_parts], ?_⟩
  simp only [durDays, hours, minutes, secs]
  have c1 := tdiv_cases d 86400 (by decide)
  have c2 := tdiv_cases d 3600 (by decide)
  have c3 := tdiv_cases d 60 (by decide)
  have c4 := tdiv_cases (d.tdiv 3600) 24 (by decide)
  have c5 := tdiv_cases (d.tdiv 60) 60 (by decide)
  refine ⟨?_, ?_, ?_, ?_, ?_⟩ <;> omega

example : hours (-90061) = -1 ∧ durDays (-90061) = -1 ∧ minutes (-90061) = -1 ∧ secs (-90061) = -1 := by decide

/-- C47. What a timestamp's `storeOn:` writes evaluates to the same timestamp. -/
theorem store_exact (t : DateTime) (h : t.Good) : t.restored = some t := by
  obtain ⟨h1, h2, h3, h4, h5, h6, h7⟩ := parts_exact t h
  rw [DateTime.restored, ymdHms, (store_round_trip h.2.2).1, Option.map_some, ← h7]
  by_cases ho : t.offset = 0
  · rw [if_pos ho]; exact congrArg some (by cases t; simp only at ho; rw [ho])
  · rw [if_neg ho, (duration_parts _).1]

/-- C47. A Time is between midnight and midnight; hour, minute and second make it up; seconds are added around the clock. -/
theorem time_exact (s n : Int) :
    0 ≤ timeFromSeconds s ∧ timeFromSeconds s < 86400 ∧ timeFromSeconds (timeFromSeconds s + n) = timeFromSeconds (s + n) ∧
    timeHms (hour (timeFromSeconds s)) (minute (timeFromSeconds s)) (second (timeFromSeconds s)) = timeFromSeconds s ∧
    hours (timeFromSeconds s) = hour (timeFromSeconds s) ∧ minutes (timeFromSeconds s) = minute (timeFromSeconds s) ∧
    secs (timeFromSeconds s) = second (timeFromSeconds s) ∧ (hour12 s = 12 ∨ 1 ≤ hour12 s ∧ hour12 s < 12) ∧ hour12 s % 12 = hour s % 12 := by
  have h0 : 0 ≤ timeFromSeconds s := by rw [timeFromSeconds]; omega
  have h1 : timeFromSeconds s < 86400 := by rw [timeFromSeconds]; omega
  refine ⟨h0, h1, by simp only [timeFromSeconds]; omega, ?_, ?_, ?_, ?_, ?_, ?_⟩
  · generalize timeFromSeconds s = u at h0 h1
    simp only [timeHms, timeFromSeconds, hour, minute, second]; omega
  · rw [hours, hour, Int.tdiv_eq_ediv_of_nonneg h0, Int.tmod_eq_emod_of_nonneg (by omega)]
  · rw [minutes, minute, Int.tdiv_eq_ediv_of_nonneg h0, Int.tmod_eq_emod_of_nonneg (by omega)]
  · rw [secs, second, Int.tmod_eq_emod_of_nonneg h0]
  · simp only [hour12]; split <;> omega
  · simp only [hour12]; split <;> omega

/-- C47. `DateTime >> dayOfWeek` is that of the date, counted from Sunday = 1. -/
theorem weekday_exact (t : DateTime) : t.dayOfWeek = some (t.date.dayOfWeek % 7 + 1) := by
  have : t.date.dayOfWeek = (t.date.days + 1) % 7 + 1 := rfl
  have h : 1 ≤ t.date.dayOfWeek ∧ t.date.dayOfWeek ≤ 7 := by omega
  rw [DateTime.dayOfWeek]
  generalize t.date.dayOfWeek = k at h
  obtain ⟨h1, h2⟩ := h
  interval_cases k <;> rfl

/-- C46. A timestamp made of a Date and a Time has them as its date and its time of day. -/
theorem dateTime_split {x : Date} (h : Made x) (s o : Int) :
    (dateTime x (timeFromSeconds s) o).Good ∧ (dateTime x (timeFromSeconds s) o).date = x ∧ (dateTime x (timeFromSeconds s) o).seconds = timeFromSeconds s ∧
    (dateTime x (timeFromSeconds s) o).instant = x.days * 86400 + timeFromSeconds s - o := by
  have hx := (store_round_trip h).2
  simp only [dateTime, hx, DateTime.instant]
  exact ⟨⟨(time_exact s 0).1, (time_exact s 0).2.1, by simpa using h⟩, trivial, trivial, trivial⟩

example : Made (setDays 100) ∧ (dateTime (setDays 100) (timeFromSeconds 90000) 0).seconds = 3600 := ⟨.fromDays _, by decide⟩

/-- The moment of the answer of `Date >> +`. -/
def moment : Date ⊕ DateTime → Int
  | .inl x => x.days * 86400
  | .inr t => t.instant

/-- C46. `Date >> +` is exact only for Durations without hours and minutes: the others lose them. -/
theorem date_plus_partial (x : Date) (dur : Int) : moment (x.plus dur) = x.days * 86400 + dur ↔ hours dur = 0 ∧ minutes dur = 0 := by
  have hp := dur_parts dur
  obtain ⟨-, b1, b2, b3, b4, b5⟩ := duration_parts dur
  have : moment (x.plus dur) = (x.days + durDays dur) * 86400 + secs dur := by
    rw [Date.plus]
    split
    · simp only [moment, (setDays_spec _).2.2]; omega
    · rw [moment, fromDays_instant]; omega
  rw [this]
  rcases Int.le_total 0 dur with h | h
  · have := b4 h; omega
  · have := b5 h; omega

/-- C46 fails for `Date >> +`: a Date plus five hours is the same Date. -/
theorem date_plus_loses : (setDays 100).plus (5 * 3600) = .inl (setDays 100) := by decide

/-- C46. `Date >> -` and `+` agree. -/
theorem date_minus_exact {x z : Date} (hx : Made x) : z.plus (x.minus z) = .inl x := by
  have h : (x.minus z) = 86400 * (x.days - z.days) := by rw [Date.minus]; omega
  have h1 : secs (x.minus z) = 0 := by
    rw [secs]; rcases tdiv_cases (x.minus z) 60 (by decide) with h | h <;> omega
  have h2 : durDays (x.minus z) = x.days - z.days := by
    rw [durDays, h, Int.mul_tdiv_cancel_left _ (by decide)]
  rw [Date.plus, if_pos h1, h2, show z.days + (x.days - z.days) = x.days by omega, (store_round_trip hx).2]

example : Made (setDays 100) ∧ (setDays 3).plus ((setDays 100).minus (setDays 3)) = .inl (setDays 100) := ⟨.fromDays _, by decide⟩

/-- C47. East of Greenwich the abbreviation of the time zone shows the hours and minutes of the offset. -/
theorem zone_partial (t : DateTime) (h : 0 ≤ t.offset) (hd : t.offset < 86400) :
    t.zone = (true, hours t.offset, minutes t.offset) := by
  rw [DateTime.zone, hours, minutes, Calendar.hour, Calendar.minute, Int.tdiv_eq_ediv_of_nonneg h, Int.tdiv_eq_ediv_of_nonneg h,
    Int.tmod_eq_emod_of_nonneg (by omega), Int.tmod_eq_emod_of_nonneg (by omega)]
  simp [h]

example : (fromDays 0 0 19800).zone = (true, 5, 30) := by decide

/-- C47 fails west of it: five hours behind UTC is shown as `-1900`. -/
theorem zone_wrong : (fromDays 0 0 (-18000)).zone = (false, 19, 0) := by decide

end Verif.Calendar
