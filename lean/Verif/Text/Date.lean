import Verif.Text.Numbers

/-!
# The start time as a date (C97)

core/utils/system_time_stamp.cpp: what is made of the number of seconds that has been given on the command line.
-/

namespace Maike.Text.Date

open Maike.Text.Numbers

/-! ## Calendar (specification) -/

structure Day where
  year : Int
  month : Nat
  day : Nat
deriving DecidableEq, Repr

/-- Leap years of the Gregorian calendar. -/
def IsLeap (y : Int) : Prop := y % 4 = 0 ∧ (y % 100 ≠ 0 ∨ y % 400 = 0)

instance (y : Int) : Decidable (IsLeap y) := by unfold IsLeap; infer_instance

/-- The number of days of a month. -/
def daysIn (y : Int) : Nat → Nat
  | 1 => 31
  | 2 => if IsLeap y then 29 else 28
  | 3 => 31
  | 4 => 30
  | 5 => 31
  | 6 => 30
  | 7 => 31
  | 8 => 31
  | 9 => 30
  | 10 => 31
  | 11 => 30
  | 12 => 31
  | _ => 0

/-- The day exists. -/
def Day.Valid (d : Day) : Prop := 1 ≤ d.month ∧ d.month ≤ 12 ∧ 1 ≤ d.day ∧ d.day ≤ daysIn d.year d.month

/-- The day after a day. -/
def Day.next (d : Day) : Day :=
  if d.day < daysIn d.year d.month then ⟨d.year, d.month, d.day + 1⟩
  else if d.month < 12 then ⟨d.year, d.month + 1, 1⟩
  else ⟨d.year + 1, 1, 1⟩

/-- `f n` is the day `n` days after 1 January 1970 (before, if `n` is negative). -/
structure IsCalendar (f : Int → Day) : Prop where
  epoch : f 0 = ⟨1970, 1, 1⟩
  step : ∀ n, f (n + 1) = (f n).next
  valid : ∀ n, (f n).Valid

theorem next_injective {a b : Day} (ha : a.Valid) (hb : b.Valid) (h : a.next = b.next) : a = b := by
  obtain ⟨y, m, d⟩ := a
  obtain ⟨y', m', d'⟩ := b
  simp only [Day.Valid] at ha hb
  simp only [Day.next] at h
  by_cases h1 : d < daysIn y m <;> by_cases h2 : d' < daysIn y' m' <;> by_cases h3 : m < 12 <;> by_cases h4 : m' < 12 <;>
    simp only [h1, h2, h3, h4, if_true, if_false, Day.mk.injEq] at h ⊢ <;> try omega
  · obtain ⟨g1, g2, -⟩ := h
    have g2 : m = m' := by omega
    subst g1 g2
    exact ⟨rfl, rfl, by omega⟩
  · have g1 : y = y' := by omega
    have g2 : m = m' := by omega
    subst g1 g2
    exact ⟨rfl, rfl, by omega⟩

/-- There is only one calendar. -/
theorem calendar_unique {f g : Int → Day} (hf : IsCalendar f) (hg : IsCalendar g) (n : Int) : f n = g n := by
  have hpos : ∀ k : Nat, f k = g k := by
    intro k
    induction k with
    | zero => rw [show ((0 : Nat) : Int) = 0 from rfl, hf.epoch, hg.epoch]
    | succ k ih => rw [show ((k + 1 : Nat) : Int) = (k : Int) + 1 by omega, hf.step, hg.step, ih]
  have hneg : ∀ k : Nat, f (-k) = g (-k) := by
    intro k
    induction k with
    | zero => exact hpos 0
    | succ k ih =>
      apply next_injective (hf.valid _) (hg.valid _)
      rw [← hf.step, ← hg.step, show -((k + 1 : Nat) : Int) + 1 = -(k : Int) by omega, ih]
  rcases Int.le_total 0 n with h | h
  · have := hpos n.toNat
    rwa [Int.toNat_of_nonneg h] at this
  · have := hneg (-n).toNat
    rwa [Int.toNat_of_nonneg (by omega), Int.neg_neg] at this

/-! ## Model -/

/-- Years that begin on 1 March: the year, and the number of days since its beginning, of the day `z` days after 1 March of year 0. -/
def marchYear (z : Int) : Int × Nat :=
  let era := z / 146097
  let doe := (z % 146097).toNat
  let c := min 3 (doe / 36524)
  let r := doe - c * 36524
  let q := r / 1461
  let r := r % 1461
  let a := min 3 (r / 365)
  (400 * era + (100 * c + 4 * q + a : Nat), r - 365 * a)

/-- The first day of each month in a year that begins on 1 March. -/
def monthStarts : List (Nat × Nat) :=
  [(2, 337), (1, 306), (12, 275), (11, 245), (10, 214), (9, 184), (8, 153), (7, 122), (6, 92), (5, 61), (4, 31), (3, 0)]

/-- Month, and the day in it. -/
def monthOf (doy : Nat) : Nat × Nat :=
  match monthStarts.find? fun e => e.2 ≤ doy with
  | some (m, s) => (m, doy - s + 1)
  | none => (0, 0)

/-- The date that `gmtime_r` computes (`tm_year + 1900`, `tm_mon + 1`, `tm_mday`), core/utils/system_time_stamp.cpp:28-29. This is a
function of the C library; it is represented by a computation that is proved to be right (`civil_calendar`). -/
def civil (n : Int) : Day :=
  let (y, doy) := marchYear (n + 719468)
  let (m, d) := monthOf doy
  ⟨if m ≤ 2 then y + 1 else y, m, d⟩

theorem marchYear_eq {z era : Int} {c q a d : Nat} (hz : z = 146097 * era + (36524 * c + 1461 * q + 365 * a + d : Nat)) (hc : c ≤ 3) (hq : q ≤ 24)
    (ha : a ≤ 3) (hd : d < 365 ∨ d = 365 ∧ a = 3 ∧ (q < 24 ∨ c = 3)) : marchYear z = (400 * era + (100 * c + 4 * q + a : Nat), d) := by
  have h1 : z / 146097 = era := by omega
  have h2 : (z % 146097).toNat = 36524 * c + 1461 * q + 365 * a + d := by omega
  have h3 : min 3 ((36524 * c + 1461 * q + 365 * a + d) / 36524) = c := by omega
  have h4 : 36524 * c + 1461 * q + 365 * a + d - c * 36524 = 1461 * q + 365 * a + d := by omega
  have h5 : (1461 * q + 365 * a + d) / 1461 = q := by omega
  have h6 : (1461 * q + 365 * a + d) % 1461 = 365 * a + d := by omega
  have h7 : min 3 ((365 * a + d) / 365) = a := by omega
  simp only [marchYear, h1, h2, h3, h4, h5, h6, h7]
  simp

theorem marchYear_exists (z : Int) : ∃ (era : Int) (c q a d : Nat), z = 146097 * era + (36524 * c + 1461 * q + 365 * a + d : Nat) ∧ c ≤ 3 ∧ q ≤ 24 ∧
    a ≤ 3 ∧ (d < 365 ∨ d = 365 ∧ a = 3 ∧ (q < 24 ∨ c = 3)) := by
  have hz : z = 146097 * (z / 146097) + ((z % 146097).toNat : Int) := by omega
  generalize z / 146097 = era at hz
  have hd : (z % 146097).toNat < 146097 := by omega
  generalize (z % 146097).toNat = doe at hz hd
  have h1 : ∃ c r, doe = 36524 * c + r ∧ c ≤ 3 ∧ (r < 36524 ∨ r = 36524 ∧ c = 3) :=
    ⟨min 3 (doe / 36524), doe - 36524 * min 3 (doe / 36524), by omega, by omega, by omega⟩
  obtain ⟨c, r, rfl, hc, hr⟩ := h1
  refine ⟨era, c, r / 1461, min 3 (r % 1461 / 365), r % 1461 - 365 * min 3 (r % 1461 / 365), by omega, hc, by omega, by omega, by omega⟩

theorem leap_iff {era : Int} {c q a : Nat} (hc : c ≤ 3) (hq : q ≤ 24) (ha : a ≤ 3) :
    IsLeap (400 * era + (100 * c + 4 * q + a : Nat) + 1) ↔ a = 3 ∧ (q < 24 ∨ c = 3) := by
  unfold IsLeap
  omega

/-- The length of a year that begins on 1 March. -/
def marchLength (y : Int) : Nat := if IsLeap (y + 1) then 366 else 365

theorem marchYear_next (z : Int) :
    (marchYear z).2 < marchLength (marchYear z).1 ∧
    marchYear (z + 1) =
      if (marchYear z).2 + 1 < marchLength (marchYear z).1 then ((marchYear z).1, (marchYear z).2 + 1) else ((marchYear z).1 + 1, 0) := by
  obtain ⟨era, c, q, a, d, hz, hc, hq, ha, hd⟩ := marchYear_exists z
  rw [marchYear_eq hz hc hq ha hd]
  by_cases hl : a = 3 ∧ (q < 24 ∨ c = 3)
  · have hlen : marchLength (400 * era + (100 * c + 4 * q + a : Nat)) = 366 := if_pos ((leap_iff hc hq ha).2 hl)
    simp only [hlen]
    refine ⟨by omega, ?_⟩
    split
    · exact marchYear_eq (by omega) hc hq ha (by omega)
    · by_cases h1 : q < 24
      · rw [marchYear_eq (era := era) (c := c) (q := q + 1) (a := 0) (d := 0) (by omega) hc (by omega) (by omega) (by omega)]
        simp; omega
      · rw [marchYear_eq (era := era + 1) (c := 0) (q := 0) (a := 0) (d := 0) (by omega) (by omega) (by omega) (by omega) (by omega)]
        simp; omega
  · have hlen : marchLength (400 * era + (100 * c + 4 * q + a : Nat)) = 365 := if_neg (fun h => hl ((leap_iff hc hq ha).1 h))
    simp only [hlen]
    refine ⟨by omega, ?_⟩
    split
    · exact marchYear_eq (by omega) hc hq ha (by omega)
    · by_cases h1 : a < 3
      · rw [marchYear_eq (era := era) (c := c) (q := q) (a := a + 1) (d := 0) (by omega) hc (by omega) (by omega) (by omega)]
        simp; omega
      · rw [marchYear_eq (era := era) (c := c + 1) (q := 0) (a := 0) (d := 0) (by omega) (by omega) (by omega) (by omega) (by omega)]
        simp; omega

/-- Months of years that begin on 1 March: lengths. The last month has as many days as there are. -/
theorem monthOf_next : ∀ d : Nat, d < 366 →
    (1 ≤ (monthOf d).1 ∧ (monthOf d).1 ≤ 12 ∧ 1 ≤ (monthOf d).2) ∧
    ((monthOf d).1 ≠ 2 → (monthOf d).2 ≤ daysIn 0 (monthOf d).1 ∧
      monthOf (d + 1) = if (monthOf d).2 < daysIn 0 (monthOf d).1 then ((monthOf d).1, (monthOf d).2 + 1) else
        (if (monthOf d).1 = 12 then 1 else (monthOf d).1 + 1, 1)) ∧
    ((monthOf d).1 = 2 → (monthOf d).2 = d - 336 ∧ 337 ≤ d ∧ monthOf (d + 1) = (2, (monthOf d).2 + 1)) := by
  decide +kernel

theorem daysIn_eq (y : Int) {m : Nat} (h : m ≠ 2) : daysIn y m = daysIn 0 m := by
  unfold daysIn
  split <;> simp_all

/-- The model of `gmtime_r` is the calendar. -/
theorem civil_calendar : IsCalendar civil := by
  have key : ∀ n, (civil n).Valid ∧ civil (n + 1) = (civil n).next := by
    intro n
    obtain ⟨h1, h2⟩ := marchYear_next (n + 719468)
    have h3 : n + 1 + 719468 = n + 719468 + 1 := by omega
    simp only [civil, h3, h2]
    generalize marchYear (n + 719468) = yd at *
    obtain ⟨y, d⟩ := yd
    simp only at h1 h2 ⊢
    have hd : d < 366 := by
      unfold marchLength at h1
      split at h1 <;> omega
    obtain ⟨⟨m1, m2, m3⟩, m4, m5⟩ := monthOf_next d hd
    by_cases hm : (monthOf d).1 = 2
    · obtain ⟨k1, k2, k3⟩ := m5 hm
      have hlen : daysIn (y + 1) 2 = marchLength y - 337 := by
        simp only [daysIn, marchLength]; split <;> rfl
      have hv : monthOf d = (2, d - 336) := Prod.ext hm k1
      rw [hv] at k3
      have hlt : d - 336 < marchLength y - 337 ↔ d + 1 < marchLength y := by omega
      rw [hv]
      refine ⟨⟨Nat.le_succ 1, by simp, by simp only; omega, ?_⟩, ?_⟩
      · show d - 336 ≤ daysIn (y + 1) 2
        rw [hlen]; omega
      · simp only [Day.next, Nat.le_refl, if_true, hlen, hlt]
        by_cases h : d + 1 < marchLength y
        · simp only [h, if_true, k3, Nat.le_refl]
        · simp only [h, if_false, show monthOf 0 = (3, 1) by decide]
          simp
    · obtain ⟨k1, k2⟩ := m4 hm
      have hnot : d + 1 < marchLength y := by
        have : d < 337 := by
          rcases Nat.lt_or_ge d 337 with h | h
          · exact h
          · exact absurd ((by decide +kernel : ∀ d, d < 366 → 337 ≤ d → (monthOf d).1 = 2) d hd h) hm
        unfold marchLength
        split <;> omega
      have hdy := fun y => daysIn_eq y hm
      refine ⟨⟨m1, m2, m3, by simp only [hdy]; exact k1⟩, ?_⟩
      rw [if_pos hnot]
      simp only [k2, Day.next, hdy]
      split
      · simp
      · by_cases h12 : (monthOf d).1 = 12
        · simp [h12]
        · have : (monthOf d).1 < 12 := by omega
          simp only [h12, this, if_false, if_true, Day.mk.injEq, and_true]
          by_cases h1' : (monthOf d).1 = 1
          · simp [h1']
          · rw [if_neg (by omega), if_neg (by omega)]
  exact ⟨by decide +kernel, fun n => (key n).2, fun n => (key n).1⟩

/-- The number of nanoseconds in a `std::chrono::system_clock::time_point`: `from_time_t`, core/utils/system_time_stamp.cpp:21. `none` stands for an overflow of the
signed integer type (undefined behaviour). -/
def fromTimeT (v : Int) : Option Int := if minLL ≤ v * 1000000000 ∧ v * 1000000000 ≤ maxLL then some (v * 1000000000) else none

/-- `std::chrono::system_clock::to_time_t`, core/utils/system_time_stamp.cpp:26; also used for the member `start_time` of what recipes are told,
core/build/info.hpp:84. The conversion truncates towards zero. -/
def toTimeT (ns : Int) : Int := ns.tdiv 1000000000

/-- The conversion `%0wd` of `printf`. -/
def padded (w : Nat) (n : Int) : List Char :=
  let ds := Nat.toDigits 10 n.natAbs
  if n < 0 then '-' :: (List.replicate (w - 1 - ds.length) '0' ++ ds) else List.replicate (w - ds.length) '0' ++ ds

/-- `format`, core/utils/system_time_stamp.cpp:24-42. Also `print` for time stamps, core/bin/maike.cpp:218-234. -/
def format (ns : Int) : List Char :=
  let t := toTimeT ns
  let day := civil (t / 86400)
  let rem := t % 86400
  padded 4 day.year ++ '-' :: (padded 2 day.month ++ '-' :: (padded 2 day.day ++ ' ' :: (padded 0 (rem / 3600) ++ ':' ::
    (padded 2 (rem % 3600 / 60) ++ ':' :: (padded 2 (rem % 60) ++ [' ', 'U', 'T', 'C'])))))

/-- The start time that is given on the command line, as a `SystemTimeStamp`, core/utils/system_time_stamp.cpp:13-22: rejected (`none`), undefined (`some none`),
or accepted. -/
def startTime (s : List Char) : Option (Option Int) := (timeStamp s).map fromTimeT

/-! ## C97 -/

/-- The text for a moment: date, hours, minutes and seconds. -/
def text (d : Day) (h m s : Nat) : List Char :=
  padded 4 d.year ++ '-' :: (padded 2 d.month ++ '-' :: (padded 2 d.day ++ ' ' :: (padded 0 h ++ ':' :: (padded 2 m ++ ':' :: (padded 2 s ++ [' ', 'U', 'T', 'C'])))))

/-- C97: the text that is printed consists of the day in the Gregorian calendar, and of the time on this day. -/
theorem C97_text {f : Int → Day} (hf : IsCalendar f) (ns : Int) : ∃ h m s : Nat, h < 24 ∧ m < 60 ∧ s < 60 ∧
    ((3600 * h + 60 * m + s : Nat) : Int) = toTimeT ns % 86400 ∧ format ns = text (f (toTimeT ns / 86400)) h m s := by
  refine ⟨(toTimeT ns % 86400 / 3600).toNat, (toTimeT ns % 86400 % 3600 / 60).toNat, (toTimeT ns % 86400 % 60).toNat, by omega, by omega, by omega,
    by omega, ?_⟩
  rw [calendar_unique hf civil_calendar]
  simp only [format, text]
  rw [Int.toNat_of_nonneg (by omega), Int.toNat_of_nonneg (by omega), Int.toNat_of_nonneg (by omega)]

theorem toTimeT_seconds (v : Int) : toTimeT (v * 1000000000) = v := Int.mul_tdiv_cancel _ (by decide)

/-- C97: a start time that is given on the command line is what recipes are told, and what is printed, if it is between 1677 and 2262. -/
theorem C97_given {s : List Char} {v : Int} (hs : timeStamp s = some v) (h1 : -9223372036 ≤ v) (h2 : v ≤ 9223372036) :
    ∃ ns, startTime s = some (some ns) ∧ toTimeT ns = v ∧ ∀ f, IsCalendar f → ∃ h m s : Nat, h < 24 ∧ m < 60 ∧ s < 60 ∧
      ((3600 * h + 60 * m + s : Nat) : Int) = v % 86400 ∧ format ns = text (f (v / 86400)) h m s := by
  refine ⟨v * 1000000000, ?_, toTimeT_seconds v, fun f hf => ?_⟩
  · simp only [startTime, hs, Option.map_some, fromTimeT]
    rw [if_pos (by simp only [minLL, maxLL]; omega)]
  · have := C97_text hf (v * 1000000000)
    rwa [toTimeT_seconds] at this

/-- C97: other numbers that are accepted lead to an overflow. -/
theorem C97_overflow {s : List Char} : startTime s = some none ↔ ∃ v, timeStamp s = some v ∧ (v < -9223372036 ∨ 9223372036 < v) := by
  simp only [startTime, Option.map_eq_some_iff, fromTimeT]
  constructor
  · rintro ⟨v, h1, h2⟩
    split at h2
    · cases h2
    · rename_i h
      simp only [minLL, maxLL] at h
      exact ⟨v, h1, by omega⟩
  · rintro ⟨v, h1, h2⟩
    exact ⟨v, h1, if_neg (by simp only [minLL, maxLL]; omega)⟩

theorem civil_year {n : Int} (h1 : -106752 ≤ n) (h2 : n ≤ 106751) : 1000 ≤ (civil n).year ∧ (civil n).year < 10000 := by
  obtain ⟨era, c, q, a, d, hz, hc, hq, ha, hd⟩ := marchYear_exists (n + 719468)
  simp only [civil, marchYear_eq hz hc hq ha hd]
  split <;> omega

theorem padded_nat (w n : Nat) : padded w (n : Int) = List.replicate (w - (Nat.toDigits 10 n).length) '0' ++ Nat.toDigits 10 n := by
  simp only [padded, Int.natAbs_natCast]
  rw [if_neg (by omega)]

theorem padded_digit {w n : Nat} : ∀ c ∈ padded w (n : Int), c.isDigit := by
  intro c hc
  rw [padded_nat] at hc
  rcases List.mem_append.1 hc with h | h
  · rw [(List.mem_replicate.1 h).2]; decide
  · exact Nat.isDigit_of_mem_toDigits (by decide) (by decide) h

theorem padded_injective {w n n' : Nat} (h : padded w (n : Int) = padded w (n' : Int)) : n = n' := by
  have hv : ∀ k : Nat, Nat.ofDigitChars 10 (padded w (k : Int)) 0 = k := by
    intro k
    rw [padded_nat, Nat.ofDigitChars_append, Nat.ofDigitChars_replicate_zero]
    simp
  rw [← hv n, h, hv n']

theorem digits_split {a b r r' : List Char} {c : Char} (ha : ∀ x ∈ a, x.isDigit) (hb : ∀ x ∈ b, x.isDigit) (hc : c.isDigit = false)
    (h : a ++ c :: r = b ++ c :: r') : a = b ∧ r = r' := by
  induction a generalizing b with
  | nil =>
    cases b with
    | nil => simpa using h
    | cons y b =>
      simp only [List.nil_append, List.cons_append, List.cons.injEq] at h
      have := hb y (by simp)
      rw [← h.1, hc] at this
      cases this
  | cons x a ih =>
    cases b with
    | nil =>
      simp only [List.nil_append, List.cons_append, List.cons.injEq] at h
      have := ha x (by simp)
      rw [h.1, hc] at this
      cases this
    | cons y b =>
      simp only [List.cons_append, List.cons.injEq] at h
      obtain ⟨h1, h2⟩ := ih (fun z hz => ha z (by simp [hz])) (fun z hz => hb z (by simp [hz])) h.2
      exact ⟨by rw [h.1, h1], h2⟩

theorem text_injective {d d' : Day} {h m s h' m' s' : Nat} (hd : 0 ≤ d.year) (hd' : 0 ≤ d'.year) (he : text d h m s = text d' h' m' s') :
    d = d' ∧ h = h' ∧ m = m' ∧ s = s' := by
  obtain ⟨y, mo, da⟩ := d
  obtain ⟨y', mo', da'⟩ := d'
  obtain ⟨y, rfl⟩ := Int.eq_ofNat_of_zero_le hd
  obtain ⟨y', rfl⟩ := Int.eq_ofNat_of_zero_le hd'
  simp only [text] at he
  obtain ⟨e1, he⟩ := digits_split padded_digit padded_digit (by decide) he
  obtain ⟨e2, he⟩ := digits_split padded_digit padded_digit (by decide) he
  obtain ⟨e3, he⟩ := digits_split padded_digit padded_digit (by decide) he
  obtain ⟨e4, he⟩ := digits_split padded_digit padded_digit (by decide) he
  obtain ⟨e5, he⟩ := digits_split padded_digit padded_digit (by decide) he
  obtain ⟨e6, he⟩ := digits_split padded_digit padded_digit (by decide) he
  rw [padded_injective e1, padded_injective e2, padded_injective e3]
  exact ⟨rfl, padded_injective e4, padded_injective e5, padded_injective e6⟩

theorem next_later {f : Int → Day} (hf : IsCalendar f) (n : Int) :
    (f n).year < (f (n + 1)).year ∨ (f n).year = (f (n + 1)).year ∧ ((f n).month < (f (n + 1)).month ∨
      (f n).month = (f (n + 1)).month ∧ (f n).day < (f (n + 1)).day) := by
  rw [hf.step]
  simp only [Day.next]
  split
  · exact .inr ⟨rfl, .inr ⟨rfl, by simp only; omega⟩⟩
  split
  · exact .inr ⟨rfl, .inl (by simp only; omega)⟩
  · exact .inl (by simp only; omega)

theorem later {f : Int → Day} (hf : IsCalendar f) (n : Int) (k : Nat) :
    (f n).year < (f (n + (k + 1 : Nat))).year ∨ (f n).year = (f (n + (k + 1 : Nat))).year ∧ ((f n).month < (f (n + (k + 1 : Nat))).month ∨
      (f n).month = (f (n + (k + 1 : Nat))).month ∧ (f n).day < (f (n + (k + 1 : Nat))).day) := by
  induction k with
  | zero => exact next_later hf n
  | succ k ih =>
    have h := next_later hf (n + (k + 1 : Nat))
    rw [show n + ((k + 1 : Nat) : Int) + 1 = n + ((k + 1 + 1 : Nat) : Int) by omega] at h
    omega

theorem calendar_injective {f : Int → Day} (hf : IsCalendar f) {n n' : Int} (h : f n = f n') : n = n' := by
  have key : ∀ a b : Int, a < b → f a ≠ f b := by
    intro a b hab he
    have := later hf a (b - a - 1).toNat
    rw [show a + (((b - a - 1).toNat + 1 : Nat) : Int) = b by omega, he] at this
    omega
  rcases Int.lt_trichotomy n n' with h1 | h1 | h1
  · exact absurd h (key _ _ h1)
  · exact h1
  · exact absurd h.symm (key _ _ h1)

/-- C97: different start times are printed differently. -/
theorem C97_injective {ns ns' : Int} (h1 : minLL ≤ ns) (h2 : ns ≤ maxLL) (h1' : minLL ≤ ns') (h2' : ns' ≤ maxLL) (h : format ns = format ns') :
    toTimeT ns = toTimeT ns' := by
  have rng : ∀ ns : Int, minLL ≤ ns → ns ≤ maxLL → 0 ≤ (civil (toTimeT ns / 86400)).year := by
    intro ns h1 h2
    have ht : -9223372037 < toTimeT ns ∧ toTimeT ns < 9223372037 := by
      simp only [minLL, maxLL, toTimeT, Int.tdiv_eq_ediv, show Int.sign 1000000000 = 1 from rfl] at h1 h2 ⊢
      split <;> omega
    have := civil_year (n := toTimeT ns / 86400) (by omega) (by omega)
    omega
  obtain ⟨a, b, c, -, -, -, e, hf⟩ := C97_text civil_calendar ns
  obtain ⟨a', b', c', -, -, -, e', hf'⟩ := C97_text civil_calendar ns'
  rw [hf, hf'] at h
  obtain ⟨g1, g2, g3, g4⟩ := text_injective (rng _ h1 h2) (rng _ h1' h2') h
  have := calendar_injective civil_calendar g1
  subst g2 g3 g4
  omega

/-- C97: the text fits into the buffer of 64 characters, with the terminator. -/
theorem C97_fits {ns : Int} (h1 : minLL ≤ ns) (h2 : ns ≤ maxLL) : (format ns).length + 1 ≤ 64 := by
  have two : ∀ n : Nat, n < 100 → ∀ w, w ≤ 2 → (padded w (n : Int)).length ≤ 2 := by
    intro n hn w hw
    have := (Nat.length_toDigits_le_iff (b := 10) (n := n) (k := 2) (by decide) (by decide)).2 (by omega)
    rw [padded_nat, List.length_append, List.length_replicate]
    omega
  obtain ⟨a, b, c, ha, hb, hc, e, hf⟩ := C97_text civil_calendar ns
  have hv := civil_calendar.valid (toTimeT ns / 86400)
  have ht : -9223372037 < toTimeT ns ∧ toTimeT ns < 9223372037 := by
    simp only [minLL, maxLL, toTimeT, Int.tdiv_eq_ediv, show Int.sign 1000000000 = 1 from rfl] at h1 h2 ⊢
    split <;> omega
  have hy := civil_year (n := toTimeT ns / 86400) (by omega) (by omega)
  rw [hf]
  generalize civil (toTimeT ns / 86400) = d at *
  obtain ⟨y, m, d⟩ := d
  obtain ⟨v1, v2, v3, v4⟩ := hv
  simp only at hy v1 v2 v3 v4
  obtain ⟨y, rfl⟩ := Int.eq_ofNat_of_zero_le (show 0 ≤ y by omega)
  have hd : d ≤ 31 := by
    refine Nat.le_trans v4 ?_
    unfold daysIn
    split <;> first | omega | (split <;> omega)
  have h4 : (padded 4 (y : Int)).length ≤ 4 := by
    have := (Nat.length_toDigits_le_iff (b := 10) (n := y) (k := 4) (by decide) (by decide)).2 (by omega)
    rw [padded_nat, List.length_append, List.length_replicate]
    omega
  have l1 := two m (by omega) 2 (by omega)
  have l2 := two d (by omega) 2 (by omega)
  have l3 := two a (by omega) 0 (by omega)
  have l4 := two b (by omega) 2 (by omega)
  have l5 := two c (by omega) 2 (by omega)
  simp only [text, List.length_append, List.length_cons, List.length_nil]
  omega

/-! ## Examples -/

/-- 29 February 2000, a few seconds before midnight. -/
example : timeStamp "951868790".toList = some 951868790 ∧ String.ofList (format 951868790000000000) = "2000-02-29 23:59:50 UTC" := by decide +kernel

/-- Before 1970. -/
example : String.ofList (format (-1000000000)) = "1969-12-31 23:59:59 UTC" := by decide +kernel

/-- C97_overflow: in the year 2286. -/
example : startTime "9999999999".toList = some none := by decide +kernel

/-- The order of texts is not that of times: hours before ten have one digit. -/
theorem C97_order : ∃ ns ns' : Int, ns < ns' ∧ format ns' < format ns := ⟨32400000000000, 36000000000000, by decide, by decide +kernel⟩

end Maike.Text.Date
