import Verif.Json
/-!
# Rfc3339: an instant as a text

libferry/types.go:98-102, 159: the times of the status report, as Go's `time` writes and reads them in JSON: RFC 3339 with as many digits of
the second's fraction as are needed.  All of ferryd's times are in UTC (server.go:73, store.go:175, 305, worker.go:141).

An instant is the number of nanoseconds since the beginning of the year 1, which is Go's zero time.

Simplified: no instant before the year 1; a time that is read has hours of two digits and ends with `Z` (Go also takes an hour of one digit
and offsets), at most nine digits of a fraction (Go takes more when the last nine are significant), and its text has no escapes.
-/
namespace Ferryd.Rfc3339
open Ferryd.Json (Bytes)

/-! ## The calendar -/

/-- time.go `isLeap`. -/
def isLeap (y : Nat) : Bool := y % 4 == 0 && (y % 100 != 0 || y % 400 == 0)
/-- time.go `daysBefore`: the days of a year of 365 before month `m`, January being 1. -/
def daysBefore : Nat → Nat
  | 1 => 0 | 2 => 31 | 3 => 59 | 4 => 90 | 5 => 120 | 6 => 151 | 7 => 181 | 8 => 212 | 9 => 243 | 10 => 273 | 11 => 304 | 12 => 334
  | _ => 365
/-- time.go `absDate`, the first half: the year, counted from 0, and the day in it. -/
def yearOf (d : Nat) : Nat × Nat :=
  let n := d / 146097
  let d := d - 146097 * n
  let c := d / 36524
  let c := c - c / 4
  let d := d - 36524 * c
  let q := d / 1461
  let d := d - 1461 * q
  let a := d / 365
  let a := a - a / 4
  let d := d - 365 * a
  (400 * n + 100 * c + 4 * q + a, d)
/-- time.go `absDate`, the second half: the month and its day. -/
def monthOf (leap : Bool) (yday : Nat) : Nat × Nat :=
  if leap && yday == 59 then (2, 29)
  else
    let day := if leap && decide (59 < yday) then yday - 1 else yday
    let m := day / 31
    if daysBefore (m + 2) ≤ day then (m + 2, day - daysBefore (m + 2) + 1) else (m + 1, day - daysBefore (m + 1) + 1)
/-- time.go `Time.Date`: the year, the month and the day of day `d`, the first day of year 1 being 0. -/
def dateOf (d : Nat) : Nat × Nat × Nat :=
  let y := (yearOf d).1 + 1
  (y, monthOf (isLeap y) (yearOf d).2)
/-- time.go `Date`: the day of a date. -/
def dayOf (y m d : Nat) : Nat :=
  let p := y - 1
  146097 * (p / 400) + 36524 * (p % 400 / 100) + 1461 * (p % 400 % 100 / 4) + 365 * (p % 400 % 100 % 4) + daysBefore m
    + (if isLeap y && decide (3 ≤ m) then 1 else 0) + (d - 1)
/-- format.go `daysIn`. -/
def daysIn (m y : Nat) : Nat := if m = 2 ∧ isLeap y = true then 29 else daysBefore (m + 1) - daysBefore m

/-! ## Writing -/

/-- format.go `appendInt`: a number of `k` digits. -/
def digits : Nat → Nat → Bytes
  | 0, _ => []
  | k + 1, n => digits k (n / 10) ++ [UInt8.ofNat (48 + n % 10)]
/-- format.go `formatNano` with `trim`: the zeros at the end are left out. -/
def trim : Bytes → Bytes
  | [] => []
  | b :: s => match trim s with
    | [] => if b = 48 then [] else [b]
    | r => b :: r
/-- format.go `formatNano`. -/
def fraction (ns : Nat) : Bytes := match trim (digits 9 ns) with
  | [] => []
  | r => 46 :: r
/-- format.go `AppendFormat` with `RFC3339Nano`, in UTC. -/
def format (t : Nat) : Bytes :=
  let sec := t / 1000000000
  let d := dateOf (sec / 86400)
  let s := sec % 86400
  digits 4 d.1 ++ 45 :: (digits 2 d.2.1 ++ 45 :: (digits 2 d.2.2 ++ 84 :: (digits 2 (s / 3600) ++ 58 :: (digits 2 (s % 3600 / 60) ++
    58 :: (digits 2 (s % 60) ++ (fraction (t % 1000000000) ++ [90]))))))
/-- time.go `Time.MarshalJSON`: a year of five digits is an error. -/
def marshal (t : Nat) : Option Bytes :=
  if 10000 ≤ (dateOf (t / 1000000000 / 86400)).1 then none else some (format t)

/-! ## Reading -/

/-- format.go `isDigit`. -/
def isDigit (b : UInt8) : Bool := decide (48 ≤ b) && decide (b ≤ 57)
/-- format.go `getnum`, `atoi`: a number of `k` digits. -/
def number : Nat → Nat → Bytes → Option (Nat × Bytes)
  | 0, a, s => some (a, s)
  | k + 1, a, b :: s => if isDigit b then number k (a * 10 + (b.toNat - 48)) s else none
  | _ + 1, _, [] => none
/-- format.go `skip`: one character of the layout. -/
def expect (b : UInt8) : Bytes → Option Bytes
  | [] => none
  | c :: s => if c = b then some s else none
/-- format.go `parse`: "Special case: do we have a fractional second but no fractional second in the format?": at most `k` digits, and as
many zeros as are missing. -/
def fracDigits : Nat → Nat → Bytes → Nat × Bytes
  | 0, a, s => (a, s)
  | k + 1, a, [] => (a * 10 ^ (k + 1), [])
  | k + 1, a, b :: s => if isDigit b then fracDigits k (a * 10 + (b.toNat - 48)) s else (a * 10 ^ (k + 1), b :: s)
/-- format.go `parse`, `parseNanoseconds`. -/
def readFraction : Bytes → Nat × Bytes
  | 46 :: b :: s => if isDigit b then fracDigits 9 0 (b :: s) else (0, 46 :: b :: s)
  | s => (0, s)
/-- format.go `parse` with `RFC3339`; time.go `Time.UnmarshalJSON`. -/
def parse (s : Bytes) : Option Nat :=
  (number 4 0 s).bind fun y => (expect 45 y.2).bind fun s =>
  (number 2 0 s).bind fun mo => (expect 45 mo.2).bind fun s =>
  (number 2 0 s).bind fun d => (expect 84 d.2).bind fun s =>
  (number 2 0 s).bind fun h => (expect 58 h.2).bind fun s =>
  (number 2 0 s).bind fun mi => (expect 58 mi.2).bind fun s =>
  (number 2 0 s).bind fun se =>
  let f := readFraction se.2
  if f.2 = [90] ∧ 1 ≤ y.1 ∧ 1 ≤ mo.1 ∧ mo.1 ≤ 12 ∧ 1 ≤ d.1 ∧ d.1 ≤ daysIn mo.1 y.1 ∧ h.1 < 24 ∧ mi.1 < 60 ∧ se.1 < 60 then
    some (((dayOf y.1 mo.1 d.1 * 24 + h.1) * 60 + mi.1) * 60000000000 + se.1 * 1000000000 + f.1)
  else none

/-! ## Specification -/

namespace Spec

/-- A date: the year, the month, the day. -/
structure Date where
  y : Nat
  m : Nat
  d : Nat
deriving DecidableEq

/-- Every fourth year has a 29 February, but of the years that end a century only every fourth. -/
def Leap (y : Nat) : Prop := if 100 ∣ y then 400 ∣ y else 4 ∣ y
/-- Thirty days hath September, April, June and November. -/
def Length (y m n : Nat) : Prop :=
  (m ∈ [9, 4, 6, 11] ∧ n = 30) ∨ (m ∈ [1, 3, 5, 7, 8, 10, 12] ∧ n = 31) ∨ (m = 2 ∧ Leap y ∧ n = 29) ∨ (m = 2 ∧ ¬ Leap y ∧ n = 28)
/-- The day after a day. -/
inductive Next : Date → Date → Prop
  | day {y m d n : Nat} : Length y m n → d < n → Next ⟨y, m, d⟩ ⟨y, m, d + 1⟩
  | month {y m d : Nat} : Length y m d → m < 12 → Next ⟨y, m, d⟩ ⟨y, m + 1, 1⟩
  | year {y : Nat} : Next ⟨y, 12, 31⟩ ⟨y + 1, 1, 1⟩
/-- The date that comes `n` days after 1 January of the year 1. -/
inductive DayNumber : Nat → Date → Prop
  | first : DayNumber 0 ⟨1, 1, 1⟩
  | next {n : Nat} {a b : Date} : DayNumber n a → Next a b → DayNumber (n + 1) b

end Spec
open Spec

/-! ## The calendar is right -/

theorem isLeap_iff (y : Nat) : isLeap y = true ↔ Leap y := by
  unfold isLeap Leap
  simp only [Bool.and_eq_true, Bool.or_eq_true, bne_iff_ne, beq_iff_eq]
  split <;> omega

theorem yearOf_spec (d : Nat) : ∃ n c q a r, yearOf d = (400 * n + 100 * c + 4 * q + a, r) ∧ c ≤ 3 ∧ q ≤ 24 ∧ a ≤ 3 ∧ r ≤ 365 ∧
    d = 146097 * n + 36524 * c + 1461 * q + 365 * a + r ∧ (r = 365 → a = 3 ∧ (q = 24 → c = 3)) := by
  unfold yearOf
  dsimp only
  refine ⟨_, _, _, _, _, rfl, ?_⟩
  omega

theorem leap_of {n c q a : Nat} (hc : c ≤ 3) (hq : q ≤ 24) (ha : a ≤ 3) :
    isLeap (400 * n + 100 * c + 4 * q + a + 1) = true ↔ a = 3 ∧ (q = 24 → c = 3) := by
  unfold isLeap
  simp only [Bool.and_eq_true, Bool.or_eq_true, bne_iff_ne, beq_iff_eq]
  omega

/-- The first day of a year. -/
def start (y : Nat) : Nat := dayOf y 1 1

theorem monthOf_table (leap : Bool) (r : Fin 366) (h : r.val = 365 → leap = true) :
    let m := (monthOf leap r.val).1
    let d := (monthOf leap r.val).2
    1 ≤ m ∧ m ≤ 12 ∧ 1 ≤ d ∧ d ≤ (if m = 2 ∧ leap = true then 29 else daysBefore (m + 1) - daysBefore m) ∧
      daysBefore m + (if leap && decide (3 ≤ m) then 1 else 0) + (d - 1) = r.val := by
  revert h; revert r; cases leap <;> decide +kernel

/-- Day `d` has a date, and the date has that day. -/
theorem dayOf_dateOf (d : Nat) : 1 ≤ (dateOf d).1 ∧ 1 ≤ (dateOf d).2.1 ∧ (dateOf d).2.1 ≤ 12 ∧ 1 ≤ (dateOf d).2.2 ∧
    (dateOf d).2.2 ≤ daysIn (dateOf d).2.1 (dateOf d).1 ∧ dayOf (dateOf d).1 (dateOf d).2.1 (dateOf d).2.2 = d := by
  obtain ⟨n, c, q, a, r, e, hc, hq, ha, hr, hd, h365⟩ := yearOf_spec d
  have hl := leap_of (n := n) hc hq ha
  unfold dateOf
  rw [e]
  dsimp only
  generalize hL : isLeap (400 * n + 100 * c + 4 * q + a + 1) = L at *
  have ht := monthOf_table L ⟨r, by omega⟩ (fun h => hl.2 (h365 h))
  dsimp only at ht
  generalize monthOf L r = md at *
  obtain ⟨h1, h2, h3, h4, h5⟩ := ht
  refine ⟨by omega, h1, h2, h3, ?_, ?_⟩
  · unfold daysIn; rw [hL]; exact h4
  · unfold dayOf; rw [hL]
    dsimp only
    omega


/-- The day in the year. -/
def ydayOf (leap : Bool) (m d : Nat) : Nat := daysBefore m + (if leap && decide (3 ≤ m) then 1 else 0) + (d - 1)

theorem dayOf_eq (y m d : Nat) : dayOf y m d = start y + ydayOf (isLeap y) m d := by
  unfold start dayOf ydayOf; simp [daysBefore]; omega

theorem start_eq (y : Nat) : start y = 146097 * ((y - 1) / 400) + 36524 * ((y - 1) % 400 / 100) + 1461 * ((y - 1) % 400 % 100 / 4)
    + 365 * ((y - 1) % 400 % 100 % 4) := by
  unfold start dayOf; simp [daysBefore]

theorem start_succ {y : Nat} (h : 1 ≤ y) : start (y + 1) = start y + 365 + (if isLeap y then 1 else 0) := by
  rw [start_eq, start_eq]
  have e : isLeap y = true ↔ (y % 4 = 0 ∧ (¬ y % 100 = 0 ∨ y % 400 = 0)) := by
    unfold isLeap; simp [bne_iff_ne]
  by_cases hl : isLeap y = true
  · rw [if_pos hl]
    have := e.1 hl
    omega
  · rw [if_neg hl]
    have h2 : ¬ (y % 4 = 0 ∧ (¬ y % 100 = 0 ∨ y % 400 = 0)) := fun x => hl (e.2 x)
    omega

theorem start_mono {y : Nat} (k : Nat) (h : 1 ≤ y) : start y + 365 * k ≤ start (y + k) := by
  induction k with
  | zero => simp
  | succ k ih =>
    have := start_succ (y := y + k) (by omega)
    rw [← Nat.add_assoc, this]; omega

/-- A date there is. -/
def Valid (x : Nat × Nat × Nat) : Prop := 1 ≤ x.1 ∧ 1 ≤ x.2.1 ∧ x.2.1 ≤ 12 ∧ 1 ≤ x.2.2 ∧ x.2.2 ≤ daysIn x.2.1 x.1

theorem yday_table (leap : Bool) (m : Fin 13) (d : Fin 32) (h1 : 1 ≤ m.val) (h2 : 1 ≤ d.val)
    (h3 : d.val ≤ if m.val = 2 ∧ leap = true then 29 else daysBefore (m.val + 1) - daysBefore m.val) :
    monthOf leap (ydayOf leap m.val d.val) = (m.val, d.val) ∧ ydayOf leap m.val d.val < 365 + (if leap then 1 else 0) := by
  revert h1 h2 h3; revert m d; cases leap <;> decide +kernel

theorem daysIn_le (m y : Nat) : daysIn m y ≤ 31 ∨ 12 < m ∨ m = 0 := by
  by_cases h : m < 13
  · have : ∀ m : Fin 13, daysBefore (m.val + 1) - daysBefore m.val ≤ 31 ∨ m.val = 0 := by decide
    have := this ⟨m, h⟩
    unfold daysIn; dsimp only at this
    split <;> omega
  · omega

theorem dateOf_dayOf {y m d : Nat} (h : Valid (y, m, d)) : dateOf (dayOf y m d) = (y, m, d) := by
  have key : ∀ {y m d : Nat}, Valid (y, m, d) → monthOf (isLeap y) (ydayOf (isLeap y) m d) = (m, d) ∧
      start y ≤ dayOf y m d ∧ dayOf y m d < start (y + 1) := by
    rintro y m d ⟨h1, h2, h3, h4, h5⟩
    dsimp only at *
    have hd := daysIn_le m y
    have ht := yday_table (isLeap y) ⟨m, by omega⟩ ⟨d, by omega⟩ h2 h4 h5
    dsimp only at ht
    refine ⟨ht.1, ?_, ?_⟩
    · rw [dayOf_eq]; omega
    · rw [dayOf_eq, start_succ h1]; omega
  generalize hx : dayOf y m d = x
  obtain ⟨a1, a2, a3⟩ := key h
  have hv := dayOf_dateOf x
  generalize hD : dateOf x = D at *
  obtain ⟨y', m', d'⟩ := D
  dsimp only at hv
  have hv' : Valid (y', m', d') := ⟨hv.1, hv.2.1, hv.2.2.1, hv.2.2.2.1, hv.2.2.2.2.1⟩
  obtain ⟨b1, b2, b3⟩ := key hv'
  have e := hv.2.2.2.2.2
  have hy : y' = y := by
    rcases Nat.lt_trichotomy y' y with hlt | heq | hgt
    · have := start_mono (y := y' + 1) (y - (y' + 1)) (by omega)
      rw [show y' + 1 + (y - (y' + 1)) = y by omega] at this
      omega
    · exact heq
    · have := start_mono (y := y + 1) (y' - (y + 1)) (by omega)
      rw [show y + 1 + (y' - (y + 1)) = y' by omega] at this
      omega
  subst hy
  rw [dayOf_eq] at hx e
  have : ydayOf (isLeap y') m d = ydayOf (isLeap y') m' d' := by omega
  rw [this, b1] at a1
  cases a1
  rfl

theorem length_iff {y m n : Nat} (h1 : 1 ≤ m) (h2 : m ≤ 12) : Length y m n ↔ daysIn m y = n := by
  unfold Length daysIn
  rw [← isLeap_iff]
  generalize isLeap y = L
  have e : m = 1 ∨ m = 2 ∨ m = 3 ∨ m = 4 ∨ m = 5 ∨ m = 6 ∨ m = 7 ∨ m = 8 ∨ m = 9 ∨ m = 10 ∨ m = 11 ∨ m = 12 := by omega
  cases L <;> rcases e with rfl | rfl | rfl | rfl | rfl | rfl | rfl | rfl | rfl | rfl | rfl | rfl <;> simp [daysBefore] <;> omega

theorem next_day {y m d y' m' d' : Nat} (h : Valid (y, m, d)) (hn : Next ⟨y, m, d⟩ ⟨y', m', d'⟩) :
    Valid (y', m', d') ∧ dayOf y' m' d' = dayOf y m d + 1 := by
  obtain ⟨h1, h2, h3, h4, h5⟩ := h
  dsimp only at *
  cases hn with
  | day hl hd =>
    have := (length_iff h2 h3).1 hl
    exact ⟨⟨h1, h2, h3, by simp, by show d + 1 ≤ daysIn m y; omega⟩, by rw [dayOf_eq, dayOf_eq]; unfold ydayOf; omega⟩
  | month hl hm =>
    have e1 := (length_iff h2 h3).1 hl
    have e2 : 1 ≤ daysIn (m + 1) y := by
      unfold daysIn; split
      · omega
      · have : ∀ m : Fin 13, 1 ≤ m.val → daysBefore m.val + 1 ≤ daysBefore (m.val + 1) := by decide
        have := this ⟨m + 1, by omega⟩ (by simp)
        dsimp only at this; omega
    refine ⟨⟨h1, by simp, by show m + 1 ≤ 12; omega, Nat.le_refl 1, e2⟩, ?_⟩
    rw [dayOf_eq, dayOf_eq, ← e1]
    unfold daysIn
    generalize isLeap y = L
    have ht : ∀ (L : Bool) (m : Fin 12), 1 ≤ m.val → ydayOf L (m.val + 1) 1 =
        ydayOf L m.val (if m.val = 2 ∧ L = true then 29 else daysBefore (m.val + 1) - daysBefore m.val) + 1 := by decide
    have := ht L ⟨m, hm⟩ h2
    dsimp only at this
    omega
  | year =>
    refine ⟨⟨by simp, by simp, by simp, by simp, by simp [daysIn, daysBefore]⟩, ?_⟩
    rw [dayOf_eq, dayOf_eq, start_succ h1]
    generalize isLeap y = L
    have : ydayOf L 12 31 = 364 + (if L then 1 else 0) := by cases L <;> decide
    have e : ydayOf (isLeap (y + 1)) 1 1 = 0 := by simp [ydayOf, daysBefore]
    rw [this, e]; omega

theorem next_exists {y m d : Nat} (h : Valid (y, m, d)) : ∃ y' m' d', Next ⟨y, m, d⟩ ⟨y', m', d'⟩ := by
  obtain ⟨h1, h2, h3, h4, h5⟩ := h
  dsimp only at *
  have hl := (length_iff (y := y) (n := daysIn m y) h2 h3).2 rfl
  by_cases hd : d < daysIn m y
  · exact ⟨_, _, _, .day hl hd⟩
  · have : d = daysIn m y := by omega
    subst this
    by_cases hm : m < 12
    · exact ⟨_, _, _, .month hl hm⟩
    · have : m = 12 := by omega
      subst this
      have e : daysIn 12 y = 31 := by simp [daysIn, daysBefore]
      rw [e]
      exact ⟨_, _, _, .year⟩

/-- The date that is written is the calendar's. -/
theorem dateOf_iff (n y m d : Nat) : DayNumber n ⟨y, m, d⟩ ↔ dateOf n = (y, m, d) := by
  have fwd : ∀ {n : Nat} {D : Date}, DayNumber n D → Valid (D.y, D.m, D.d) ∧ dayOf D.y D.m D.d = n := by
    intro n D h
    induction h with
    | first => exact ⟨by simp [Valid, daysIn, daysBefore], by decide⟩
    | @next n a b _ hn ih =>
      obtain ⟨ya, ma, da⟩ := a
      obtain ⟨yb, mb, db⟩ := b
      obtain ⟨hv, he⟩ := next_day ih.1 hn
      exact ⟨hv, by rw [he, ih.2]⟩
  have ex : ∀ n : Nat, ∃ D, DayNumber n D := by
    intro n
    induction n with
    | zero => exact ⟨_, .first⟩
    | succ n ih =>
      obtain ⟨⟨y, m, d⟩, hD⟩ := ih
      obtain ⟨y', m', d', hn⟩ := next_exists (fwd hD).1
      exact ⟨_, .next hD hn⟩
  constructor
  · intro h
    have := fwd h
    rw [← this.2]
    exact dateOf_dayOf this.1
  · intro h
    obtain ⟨⟨y', m', d'⟩, hD⟩ := ex n
    have hf := fwd hD
    rw [← hf.2, dateOf_dayOf hf.1] at h
    cases h
    exact hD

/-! ## Reading what was written -/

theorem isDigit_ofNat {d : Nat} (h : d < 10) : isDigit (UInt8.ofNat (48 + d)) = true ∧ (UInt8.ofNat (48 + d)).toNat - 48 = d := by
  unfold isDigit
  simp only [Bool.and_eq_true, decide_eq_true_eq, UInt8.le_iff_toNat_le]
  simp; omega

theorem number_digits (k : Nat) : ∀ (j n a : Nat) (s : Bytes), n < 10 ^ k → number (k + j) a (digits k n ++ s) =
    number j (a * 10 ^ k + n) s := by
  induction k with
  | zero => intro j n a s h; simp at h; subst h; simp [digits]
  | succ k ih =>
    intro j n a s h
    rw [Nat.pow_succ] at h
    have hm : n % 10 < 10 := Nat.mod_lt _ (by decide)
    obtain ⟨h1, h2⟩ := isDigit_ofNat hm
    rw [digits, List.append_assoc, show k + 1 + j = k + (j + 1) by omega, ih (j + 1) (n / 10) a _ (by omega)]
    show number (j + 1) _ (UInt8.ofNat (48 + n % 10) :: s) = _
    rw [number, if_pos h1, h2]
    congr 1
    rw [Nat.pow_succ, Nat.add_mul, Nat.mul_assoc]
    omega

theorem number_ok {k n : Nat} (h : n < 10 ^ k) (s : Bytes) : number k 0 (digits k n ++ s) = some (n, s) := by
  have := number_digits k 0 n 0 s h
  simpa [number] using this

theorem digits_digits (k n : Nat) : ∀ b ∈ digits k n, isDigit b = true := by
  induction k generalizing n with
  | zero => intro b h; simp [digits] at h
  | succ k ih =>
    intro b h
    rw [digits, List.mem_append] at h
    rcases h with h | h
    · exact ih _ b h
    · cases List.mem_singleton.1 h
      exact (isDigit_ofNat (Nat.mod_lt _ (by decide))).1

theorem digits_length (k n : Nat) : (digits k n).length = k := by
  induction k generalizing n with
  | zero => rfl
  | succ k ih => simp [digits, ih]

theorem trim_spec (l : Bytes) : ∃ j, l = trim l ++ List.replicate j 48 := by
  induction l with
  | nil => exact ⟨0, rfl⟩
  | cons b l ih =>
    obtain ⟨j, e⟩ := ih
    rw [trim]
    generalize trim l = r at *
    cases r with
    | nil =>
      simp only [List.nil_append] at e
      by_cases h : b = 48
      · exact ⟨j + 1, by simp [h, e, List.replicate_succ]⟩
      · exact ⟨j, by simp [h, e]⟩
    | cons c r => exact ⟨j, by simp [e]⟩

theorem number_zeros (j a : Nat) : number j a (List.replicate j 48) = some (a * 10 ^ j, []) := by
  induction j generalizing a with
  | zero => simp [number]
  | succ j ih =>
    rw [List.replicate_succ, number, if_pos (by decide), ih]
    congr 2
    rw [Nat.pow_succ, show (48 : UInt8).toNat - 48 = 0 by decide, Nat.add_zero, Nat.mul_assoc, Nat.mul_comm 10]

/-- The digits there are and the zeros that are not give the number. -/
theorem fracDigits_of (l : Bytes) : ∀ (j a v : Nat) (s : Bytes), (∀ b ∈ l, isDigit b = true) → (∀ b t, s = b :: t → isDigit b = false) →
    number (l.length + j) a (l ++ List.replicate j 48) = some (v, []) → fracDigits (l.length + j) a (l ++ s) = (v, s) := by
  induction l with
  | nil =>
    intro j a v s _ hs h
    simp only [List.length_nil, Nat.zero_add, List.nil_append] at h ⊢
    rw [number_zeros] at h
    cases j with
    | zero => simp at h; subst h; rfl
    | succ j =>
      simp only [Option.some.injEq, Prod.mk.injEq, and_true] at h
      cases s with
      | nil => simp [fracDigits, h]
      | cons b t => simp [fracDigits, h, hs b t rfl]
  | cons b l ih =>
    intro j a v s hl hs h
    rw [List.length_cons, show l.length + 1 + j = (l.length + j) + 1 by omega] at h ⊢
    rw [List.cons_append, number, if_pos (hl b (by simp))] at h
    rw [List.cons_append, fracDigits, if_pos (hl b (by simp))]
    exact ih j _ v s (fun x hx => hl x (by simp [hx])) hs h

theorem readFraction_fraction {ns : Nat} (h : ns < 1000000000) : readFraction (fraction ns ++ [90]) = (ns, [90]) := by
  obtain ⟨j, e⟩ := trim_spec (digits 9 ns)
  have hlen := congrArg List.length e
  rw [digits_length, List.length_append, List.length_replicate] at hlen
  have hn := number_ok (k := 9) (n := ns) (by simpa using h) []
  rw [List.append_nil, e] at hn
  have hd : ∀ b ∈ trim (digits 9 ns), isDigit b = true := fun b hb => digits_digits 9 ns b (by rw [e]; simp [hb])
  unfold fraction
  generalize trim (digits 9 ns) = l at *
  cases l with
  | nil =>
    have hj : j = 9 := by simp at hlen; omega
    subst hj
    simp only [List.nil_append] at hn
    rw [number_zeros] at hn
    simp at hn
    subst hn
    rfl
  | cons b l =>
    have hf := fracDigits_of (b :: l) j 0 ns [90] hd (by intro b t h; cases h; decide) (by rw [← hlen]; exact hn)
    rw [← hlen] at hf
    show readFraction (46 :: b :: (l ++ [90])) = _
    rw [readFraction, if_pos (hd b (by simp))]
    exact hf

/-- What is written is read. -/
theorem parse_format {t : Nat} (h : (dateOf (t / 1000000000 / 86400)).1 < 10000) : parse (format t) = some t := by
  have hv := dayOf_dateOf (t / 1000000000 / 86400)
  unfold format
  generalize hD : dateOf (t / 1000000000 / 86400) = D at *
  obtain ⟨y, m, d⟩ := D
  dsimp only at *
  rw [hD]
  dsimp only
  obtain ⟨h1, h2, h3, h4, h5, h6⟩ := hv
  have hd := daysIn_le m y
  have ex : ∀ (b : UInt8) (s : Bytes), expect b (b :: s) = some s := fun b s => by simp [expect]
  have hs : t / 1000000000 % 86400 < 86400 := Nat.mod_lt _ (by decide)
  unfold parse
  rw [number_ok (by omega), Option.bind_some, ex, Option.bind_some, number_ok (by omega), Option.bind_some, ex, Option.bind_some,
    number_ok (by omega), Option.bind_some, ex, Option.bind_some, number_ok (by omega), Option.bind_some, ex, Option.bind_some,
    number_ok (by omega), Option.bind_some, ex, Option.bind_some, number_ok (by omega), Option.bind_some,
    readFraction_fraction (Nat.mod_lt _ (by decide))]
  dsimp only
  rw [if_pos ⟨rfl, h1, h2, h3, h4, h5, by omega, by omega, by omega⟩, h6]
  congr 1
  omega

/-- A text of digits, dashes, colons, dots, `T` and `Z`. -/
def Plain (l : Bytes) : Prop := ∀ b ∈ l, isDigit b = true ∨ b = 45 ∨ b = 58 ∨ b = 46 ∨ b = 84 ∨ b = 90

theorem plain_digits (k n : Nat) : Plain (digits k n) := fun b h => .inl (digits_digits k n b h)

theorem plain_append {l m : Bytes} (h : Plain l) (h' : Plain m) : Plain (l ++ m) := fun b hb => by
  rcases List.mem_append.1 hb with hb | hb
  · exact h b hb
  · exact h' b hb

theorem plain_cons {x : UInt8} {m : Bytes} (h : x = 45 ∨ x = 58 ∨ x = 46 ∨ x = 84 ∨ x = 90) (h' : Plain m) : Plain (x :: m) :=
  fun b hb => by
    rcases List.mem_cons.1 hb with rfl | hb
    · exact .inr h
    · exact h' b hb

theorem plain_fraction (ns : Nat) : Plain (fraction ns) := by
  obtain ⟨j, e⟩ := trim_spec (digits 9 ns)
  have hd : Plain (trim (digits 9 ns)) := fun b hb => .inl (digits_digits 9 ns b (by rw [e]; simp [hb]))
  unfold fraction
  split
  · intro b h; cases h
  · rename_i hne; exact plain_cons (by simp) hd

theorem plain_format (t : Nat) : Plain (format t) := by
  unfold format
  exact plain_append (plain_digits _ _) (plain_cons (by simp) (plain_append (plain_digits _ _) (plain_cons (by simp)
    (plain_append (plain_digits _ _) (plain_cons (by simp) (plain_append (plain_digits _ _) (plain_cons (by simp)
      (plain_append (plain_digits _ _) (plain_cons (by simp) (plain_append (plain_digits _ _) (plain_append (plain_fraction _)
        (plain_cons (by simp) (fun b h => by cases h)))))))))))))

theorem format_ascii (t : Nat) : ∀ b ∈ format t, b < 128 := by
  intro b hb
  rcases plain_format t b hb with h | h | h | h | h | h
  · unfold isDigit at h
    simp only [Bool.and_eq_true, decide_eq_true_eq, UInt8.le_iff_toNat_le] at h
    rw [UInt8.lt_iff_toNat_lt]
    have := h.2; simp at this ⊢; omega
  all_goals subst h; decide

/-- Go's zero time, as the text of a job that has not begun. -/
example : format 0 = "0001-01-01T00:00:00Z".toUTF8.data.toList := by decide +kernel
/-- 29 February 2024, with a fraction. -/
example : format ((dayOf 2024 2 29 * 86400 + 3723) * 1000000000 + 40500000) = "2024-02-29T01:02:03.0405Z".toUTF8.data.toList := by
  decide +kernel

end Ferryd.Rfc3339
