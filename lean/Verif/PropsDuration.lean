import Verif.PropsReport
/-!
# PropsDuration: the times and durations that `ferryctl status` shows (C161)

ferryctl/cmd/status.go:66-77, 102-108, 133-139, 160: a moment is shown with `Format("2006-01-02 15:04:05")`, a duration with Go's
`Duration.String`; which moments and durations is in `Listing` and `PropsStatus`.

Simplified: moments in years of four digits.
-/
namespace Ferryd.Json
open Ferryd.Rfc3339 (digits trim isDigit dateOf)
open Ferryd.Rfc3339.Spec (DayNumber)
open Spec

/-! ## Durations -/

/-- time.go `fmtInt`; a uint64 has at most 20 digits. -/
def fmtInt (v : Nat) : Bytes := decGo 20 v []
/-- time.go `fmtFrac`: the last `k` digits of `v` after a dot, without the zeros at the end. -/
def fmtFrac (k v : Nat) : Bytes := match trim (digits k (v % 10 ^ k)) with
  | [] => []
  | r => 46 :: r
/-- time.go `Duration.String`, from a second on. -/
def showLong (u : Nat) : Bytes :=
  let sec := u / 1000000000
  let hours := if 0 < sec / 60 / 60 then fmtInt (sec / 60 / 60) ++ [104] else []
  let minutes := if 0 < sec / 60 then hours ++ fmtInt (sec / 60 % 60) ++ [109] else []
  minutes ++ fmtInt (sec % 60) ++ fmtFrac 9 u ++ [115]
/-- time.go `Duration.String`, below a second: `ns`, `µs`, `ms`. -/
def showShort (u : Nat) : Bytes :=
  if u = 0 then [48, 115]
  else if u < 1000 then fmtInt u ++ [110, 115]
  else if u < 1000000 then fmtInt (u / 1000) ++ fmtFrac 3 u ++ [0xC2, 0xB5, 115]
  else fmtInt (u / 1000000) ++ fmtFrac 6 u ++ [109, 115]
/-- time.go `Duration.String`; status.go:75, 105, 136, 137, 160. -/
def showDuration (d : Int) : Bytes :=
  let s := if d.natAbs < 1000000000 then showShort d.natAbs else showLong d.natAbs
  if d < 0 then 45 :: s else s
/-- format.go `AppendFormat` with "2006-01-02 15:04:05"; status.go:74, 104, 135. -/
def showMoment (t : Nat) : Bytes :=
  let sec := t / 1000000000
  let d := dateOf (sec / 86400)
  let s := sec % 86400
  digits 4 d.1 ++ 45 :: (digits 2 d.2.1 ++ 45 :: (digits 2 d.2.2 ++ 32 :: (digits 2 (s / 3600) ++ 58 :: (digits 2 (s % 3600 / 60) ++
    58 :: digits 2 (s % 60)))))

/-- time.go `Time.Sub`: it saturates. -/
def subTime (a b : Nat) : Int :=
  let d := (a : Int) - b
  if 2 ^ 63 ≤ d then 2 ^ 63 - 1 else if d < -2 ^ 63 then -2 ^ 63 else d
/-- An `int64`: addition wraps around. libferry/types.go:126. -/
def wrap (d : Int) : Int := (d + 2 ^ 63) % 2 ^ 64 - 2 ^ 63
/-- libferry/types.go:115-117 `ExecutionTime`. -/
def Job.execution (j : Job) : Int := subTime j.timing.ended j.timing.began
/-- libferry/types.go:120-122 `QueuedTime`. -/
def Job.waited (j : Job) : Int := subTime j.timing.began j.timing.queued
/-- libferry/types.go:125-127 `TotalTime`. -/
def Job.total (j : Job) : Int := wrap (j.waited + j.execution)
/-- libferry/types.go:105-107 `QueuedSince`, asked at the instant `now`. -/
def Job.queuedSince (now : Nat) (j : Job) : Int := subTime now j.timing.queued
/-- ferryctl/cmd/status.go:66-77: a row of the table of current jobs; `IsZero` is the beginning of the year 1. -/
def activeRow (now : Nat) (j : Job) : List Bytes :=
  [if j.timing.began = 0 then [113, 117, 101, 117, 101, 100] else [114, 117, 110, 110, 105, 110, 103],
   showMoment j.timing.queued, showDuration (j.queuedSince now), j.description]
/-- ferryctl/cmd/status.go:102-108: a row of the table of failed jobs. -/
def failedRow (j : Job) : List Bytes :=
  [[102, 97, 105, 108, 101, 100], showMoment j.timing.ended, showDuration j.execution, j.description, j.error]
/-- ferryctl/cmd/status.go:133-139: a row of the table of completed jobs. -/
def completedRow (j : Job) : List Bytes :=
  [[115, 117, 99, 99, 101, 115, 115], showMoment j.timing.ended, showDuration j.total, showDuration j.execution, j.description]

/-! ## Specification -/

namespace Spec

/-- The nanoseconds of a unit. -/
inductive Unit : Bytes → Nat → Prop
  | hour : Unit [104] (60 * 60 * 10 ^ 9)
  | minute : Unit [109] (60 * 10 ^ 9)
  | second : Unit [115] (10 ^ 9)
  | milli : Unit [109, 115] (10 ^ 6)
  | micro : Unit [0xC2, 0xB5, 115] (10 ^ 3)
  | nano : Unit [110, 115] 1
/-- Decimal digits, at least one. -/
def Digits (s : Bytes) : Prop := s ≠ [] ∧ ∀ b ∈ s, 48 ≤ b ∧ b ≤ 57
/-- A number, with or without a fraction, and a unit: `12.5ms`, in nanoseconds. -/
inductive Part : Bytes → Nat → Prop
  | whole {i name : Bytes} {w : Nat} : Digits i → Unit name w → Part (i ++ name) (value i * w)
  | frac {i f name : Bytes} {w n : Nat} : Digits i → Digits f → Unit name w →
      n * 10 ^ f.length = (value i * 10 ^ f.length + value f) * w → Part (i ++ [46] ++ f ++ name) n
/-- Parts that are added. -/
inductive Sum : Bytes → Nat → Prop
  | one {s : Bytes} {n : Nat} : Part s n → Sum s n
  | more {s t : Bytes} {n m : Nat} : Part s n → Sum t m → Sum (s ++ t) (n + m)
/-- A text and the duration it stands for. -/
inductive Denotes : Bytes → Int → Prop
  | plus {s : Bytes} {n : Nat} : Sum s n → Denotes s n
  | minus {s : Bytes} {n : Nat} : Sum s n → Denotes (45 :: s) (-(n : Int))
/-- `2024-02-29 01:02:03`: the second in which an instant lies. -/
def Moment (t : Nat) (s : Bytes) : Prop :=
  ∃ n y m d h mi se ns Y M D H I S, DayNumber n ⟨y, m, d⟩ ∧ h < 24 ∧ mi < 60 ∧ se < 60 ∧ ns < 10 ^ 9 ∧
    t = (((n * 24 + h) * 60 + mi) * 60 + se) * 10 ^ 9 + ns ∧
    Dec 4 y Y ∧ Dec 2 m M ∧ Dec 2 d D ∧ Dec 2 h H ∧ Dec 2 mi I ∧ Dec 2 se S ∧
    s = Y ++ [45] ++ M ++ [45] ++ D ++ [32] ++ H ++ [58] ++ I ++ [58] ++ S

end Spec

/-! ## A text stands for one duration -/

/-- What the digits at the front are, and what follows. -/
theorem digits_split {i j x y : Bytes} (hi : ∀ b ∈ i, 48 ≤ b ∧ b ≤ 57) (hj : ∀ b ∈ j, 48 ≤ b ∧ b ≤ 57) (hx : End x) (hy : End y)
    (h : i ++ x = j ++ y) : i = j ∧ x = y := by
  induction i generalizing j with
  | nil =>
    cases j with
    | nil => exact ⟨rfl, h⟩
    | cons b j => exact absurd (hj b (by simp)) (hx b _ h)
  | cons a i ih =>
    cases j with
    | nil => exact absurd (hi a (by simp)) (hy a _ h.symm)
    | cons b j =>
      simp only [List.cons_append, List.cons.injEq] at h
      obtain ⟨rfl, h⟩ := h
      obtain ⟨rfl, e⟩ := ih (fun c hc => hi c (by simp [hc])) (fun c hc => hj c (by simp [hc])) h
      exact ⟨rfl, e⟩

theorem unit_end {n : Bytes} {w : Nat} (h : Unit n w) (s : Bytes) : End (n ++ s) ∧ (∀ t, n ++ s ≠ 46 :: t) := by
  cases h <;> exact ⟨by intro b t e; simp at e; rw [← e.1]; decide, by intro t e; simp at e⟩

/-- Nothing, or a digit first. -/
def Clean (s : Bytes) : Prop := ∀ b t, s = b :: t → 48 ≤ b ∧ b ≤ 57

theorem unit_split {n m x y : Bytes} {w v : Nat} (hn : Unit n w) (hm : Unit m v) (hx : Clean x) (hy : Clean y) (h : n ++ x = m ++ y) :
    w = v ∧ x = y := by
  have key : ∀ {z : Bytes} {t : Bytes}, Clean z → z = 115 :: t → False := fun hz e => absurd (hz _ _ e) (by decide)
  cases hn <;> cases hm <;> simp at h
  all_goals first
    | exact ⟨rfl, h⟩
    | exact (key hx h).elim
    | exact (key hy h.symm).elim

theorem part_clean {s : Bytes} {n : Nat} (h : Part s n) (t : Bytes) : Clean (s ++ t) ∧ s ≠ [] := by
  have key : ∀ {i u : Bytes}, Digits i → Clean (i ++ u) ∧ i ++ u ≠ [] := by
    rintro (_ | ⟨b, i⟩) u ⟨h1, h2⟩
    · exact absurd rfl h1
    · refine ⟨?_, by simp⟩
      intro c t e
      simp at e
      exact e.1 ▸ h2 b (by simp)
  cases h with
  | whole a b => rw [List.append_assoc]; exact ⟨(key a).1, (key a).2⟩
  | frac a b c d =>
    refine ⟨by simp only [List.append_assoc]; exact (key a).1, by simp only [List.append_assoc]; exact (key a).2⟩

theorem part_split {s t x y : Bytes} {n m : Nat} (hs : Part s n) (ht : Part t m) (hx : Clean x) (hy : Clean y) (h : s ++ x = t ++ y) :
    n = m ∧ x = y := by
  have dot : ∀ l : Bytes, End (46 :: l) := fun l b t e => by simp at e; rw [← e.1]; decide
  cases hs with
  | whole a b =>
    rw [List.append_assoc] at h
    cases ht with
    | whole a' b' =>
      rw [List.append_assoc] at h
      obtain ⟨rfl, e⟩ := digits_split a.2 a'.2 (unit_end b _).1 (unit_end b' _).1 h
      obtain ⟨rfl, e⟩ := unit_split b b' hx hy e
      exact ⟨rfl, e⟩
    | frac a' f' b' e' =>
      simp only [List.append_assoc, List.cons_append, List.nil_append] at h
      obtain ⟨_, e⟩ := digits_split a.2 a'.2 (unit_end b _).1 (dot _) h
      exact absurd e ((unit_end b _).2 _)
  | frac a f b e =>
    simp only [List.append_assoc, List.cons_append, List.nil_append] at h
    cases ht with
    | whole a' b' =>
      rw [List.append_assoc] at h
      obtain ⟨_, e⟩ := digits_split a.2 a'.2 (dot _) (unit_end b' _).1 h
      exact absurd e.symm ((unit_end b' _).2 _)
    | frac a' f' b' e' =>
      simp only [List.append_assoc, List.cons_append, List.nil_append] at h
      obtain ⟨rfl, h2⟩ := digits_split a.2 a'.2 (dot _) (dot _) h
      obtain ⟨rfl, h3⟩ := digits_split f.2 f'.2 (unit_end b _).1 (unit_end b' _).1 (List.cons.inj h2).2
      obtain ⟨rfl, h4⟩ := unit_split b b' hx hy h3
      refine ⟨Nat.eq_of_mul_eq_mul_right (Nat.pow_pos (by decide)) (e.trans e'.symm), h4⟩

theorem clean_nil : Clean [] := fun b t h => by cases h

theorem sum_clean {s : Bytes} {n : Nat} (h : Sum s n) : Clean s ∧ s ≠ [] := by
  cases h with
  | one h => have := part_clean h []; simpa using this
  | more h _ =>
    have := part_clean h
    exact ⟨(this _).1, by simp [(this []).2]⟩

theorem sum_unique {s : Bytes} {n m : Nat} (h : Sum s n) (h' : Sum s m) : n = m := by
  induction h generalizing m with
  | one h =>
    cases h' with
    | one h' => exact (part_split (x := []) (y := []) h h' clean_nil clean_nil rfl).1
    | more h' r =>
      have := (part_split (x := []) h h' clean_nil (sum_clean r).1 (by simp)).2
      exact absurd this.symm (sum_clean r).2
  | more h r ih =>
    rename_i s t n k
    generalize hu : s ++ t = u at h'
    cases h' with
    | one h' =>
      have := (part_split (y := []) h h' (sum_clean r).1 clean_nil (by simpa using hu)).2
      exact absurd this (sum_clean r).2
    | more h' r' =>
      obtain ⟨rfl, rfl⟩ := part_split h h' (sum_clean r).1 (sum_clean r').1 hu
      rw [ih r']

theorem denotes_unique {s : Bytes} {d e : Int} (h : Denotes s d) (h' : Denotes s e) : d = e := by
  cases h with
  | plus h =>
    cases h' with
    | plus h' => rw [sum_unique h h']
    | minus h' => exact absurd ((sum_clean h).1 _ _ rfl) (by decide)
  | @minus s n h =>
    generalize hu : 45 :: s = u at h'
    cases h' with
    | plus h' => exact absurd ((sum_clean h').1 45 s hu.symm) (by decide)
    | minus h' =>
      cases (List.cons.inj hu).2
      rw [sum_unique h h']

/-! ## What is shown -/

theorem value_cons (b : UInt8) (l : Bytes) : value (b :: l) = (b.toNat - 48) * 10 ^ l.length + value l := by
  have key : ∀ (l : Bytes) (a : Nat), l.foldl (fun a b => a * 10 + (b.toNat - 48)) a = a * 10 ^ l.length + value l := by
    intro l
    unfold value
    induction l with
    | nil => simp
    | cons b l ih =>
      intro a
      rw [List.foldl_cons, ih, List.foldl_cons, ih (0 * 10 + _), List.length_cons, Nat.pow_succ, Nat.add_mul, Nat.add_mul, Nat.mul_assoc,
        Nat.mul_comm 10]
      simp; omega
  unfold value
  rw [List.foldl_cons, key]; simp [value]

theorem decGo_value (k : Nat) : ∀ (n : Nat) (acc : Bytes), n < 10 ^ (k + 1) → (∀ b ∈ acc, 48 ≤ b ∧ b ≤ 57) →
    Digits (decGo (k + 1) n acc) ∧ value (decGo (k + 1) n acc) = n * 10 ^ acc.length + value acc := by
  induction k with
  | zero =>
    intro n acc h ha
    have hn : n < 10 := by simpa using h
    rw [decGo, if_pos hn]
    obtain ⟨h1, h2, h3⟩ := digit_ok hn
    refine ⟨⟨by simp, fun b hb => ?_⟩, by rw [value_cons, h3]⟩
    rcases List.mem_cons.1 hb with rfl | hb
    · exact ⟨h1, h2⟩
    · exact ha b hb
  | succ k ih =>
    intro n acc h ha
    rw [decGo]
    split
    · rename_i hn
      obtain ⟨h1, h2, h3⟩ := digit_ok hn
      refine ⟨⟨by simp, fun b hb => ?_⟩, by rw [value_cons, h3]⟩
      rcases List.mem_cons.1 hb with rfl | hb
      · exact ⟨h1, h2⟩
      · exact ha b hb
    · obtain ⟨h1, h2, h3⟩ := digit_ok (d := n % 10) (Nat.mod_lt _ (by decide))
      rw [Nat.pow_succ] at h
      obtain ⟨a, b⟩ := ih (n / 10) (UInt8.ofNat (48 + n % 10) :: acc) (by omega) (fun b hb => by
        rcases List.mem_cons.1 hb with rfl | hb
        · exact ⟨h1, h2⟩
        · exact ha b hb)
      refine ⟨a, ?_⟩
      rw [b, value_cons, h3, List.length_cons, Nat.pow_succ, ← Nat.add_assoc, Nat.mul_comm (10 ^ acc.length), ← Nat.mul_assoc, ← Nat.add_mul]
      congr 2; omega

theorem fmtInt_ok {n : Nat} (h : n < 10 ^ 20) : Digits (fmtInt n) ∧ value (fmtInt n) = n := by
  have := decGo_value 19 n [] h (by simp)
  simpa [fmtInt, value] using this

/-- A number with its last digits after the dot, and a unit. -/
theorem part_frac {k : Nat} (u : Nat) {name : Bytes} (hn : Unit name (10 ^ k)) {i : Nat} (hi : i < 10 ^ 20) :
    Part (fmtInt i ++ fmtFrac k u ++ name) (i * 10 ^ k + u % 10 ^ k) := by
  have hm : u % 10 ^ k < 10 ^ k := Nat.mod_lt _ (Nat.pow_pos (by decide))
  obtain ⟨hd, hv⟩ := fmtInt_ok hi
  obtain ⟨j, e⟩ := Rfc3339.trim_spec (digits k (u % 10 ^ k))
  have hD := dec_digits hm
  unfold fmtFrac
  generalize trim (digits k (u % 10 ^ k)) = l at *
  rw [e] at hD
  obtain ⟨h1, h2, h3⟩ := hD
  rw [List.length_append, List.length_replicate] at h1
  rw [value_zeros] at h3
  cases l with
  | nil =>
    simp only [List.append_nil]
    have := Part.whole hd hn
    rw [hv] at this
    rw [← h3]; simpa [value] using this
  | cons b l =>
    have hf : Digits (b :: l) := ⟨by simp, fun x hx => h2 x (List.mem_append.2 (.inl hx))⟩
    have := Part.frac (n := i * 10 ^ k + u % 10 ^ k) hd hf hn (by
      rw [hv, ← h3, ← h1, Nat.pow_add, Nat.add_mul, Nat.add_mul]
      congr 1
      · simp only [Nat.mul_assoc, Nat.mul_comm, Nat.mul_left_comm]
      · rw [Nat.mul_assoc, Nat.mul_comm (10 ^ j)])
    simpa [List.append_assoc] using this

theorem part_whole {i w : Nat} (hi : i < 10 ^ 20) {name : Bytes} (hn : Unit name w) : Part (fmtInt i ++ name) (i * w) := by
  obtain ⟨hd, hv⟩ := fmtInt_ok hi
  have := Part.whole hd hn
  rwa [hv] at this

theorem sum_short {u : Nat} (h : u < 1000000000) : Sum (showShort u) u := by
  unfold showShort
  split
  · rename_i h0; subst h0
    exact .one (Part.whole (i := [48]) (name := [115]) ⟨by simp, by decide⟩ .second)
  · split
    · have := part_whole (i := u) (by omega) .nano
      rw [Nat.mul_one] at this
      exact .one this
    · split
      · have := part_frac (k := 3) u .micro (i := u / 1000) (by omega)
        rw [show u / 1000 * 10 ^ 3 + u % 10 ^ 3 = u by omega] at this
        exact .one this
      · have := part_frac (k := 6) u .milli (i := u / 1000000) (by omega)
        rw [show u / 1000000 * 10 ^ 6 + u % 10 ^ 6 = u by omega] at this
        exact .one this

theorem sum_long {u : Nat} (h : u < 10 ^ 20) : Sum (showLong u) u := by
  have hs := part_frac (k := 9) u .second (i := u / 1000000000 % 60) (by omega)
  have hm := part_whole (i := u / 1000000000 / 60 % 60) (by omega) .minute
  have hh := part_whole (i := u / 1000000000 / 60 / 60) (by omega) .hour
  unfold showLong
  dsimp only
  split
  · rename_i h1
    split
    · have := Sum.more hh (Sum.more hm (.one hs))
      rw [show u / 1000000000 / 60 / 60 * (60 * 60 * 10 ^ 9) + (u / 1000000000 / 60 % 60 * (60 * 10 ^ 9) +
        (u / 1000000000 % 60 * 10 ^ 9 + u % 10 ^ 9)) = u by omega] at this
      simpa [List.append_assoc] using this
    · have := Sum.more hm (.one hs)
      rw [show u / 1000000000 / 60 % 60 * (60 * 10 ^ 9) + (u / 1000000000 % 60 * 10 ^ 9 + u % 10 ^ 9) = u by omega] at this
      simpa [List.append_assoc] using this
  · have := Sum.one hs
    rw [show u / 1000000000 % 60 * 10 ^ 9 + u % 10 ^ 9 = u by omega] at this
    simpa [List.append_assoc] using this

/-! ## C161 -/

/-- C161: the text of a duration, an `int64` of nanoseconds, stands for that duration and for no other. -/
theorem C161_duration {d : Int} (h : IsInt64 d) (e : Int) : Denotes (showDuration d) e ↔ e = d := by
  have key : Denotes (showDuration d) d := by
    have hs : Sum (if d.natAbs < 1000000000 then showShort d.natAbs else showLong d.natAbs) d.natAbs := by
      split
      · rename_i h1; exact sum_short h1
      · unfold IsInt64 at h; exact sum_long (by omega)
    unfold showDuration
    dsimp only
    split
    · have := Denotes.minus hs
      rwa [show -(d.natAbs : Int) = d by omega] at this
    · have := Denotes.plus hs
      rwa [show (d.natAbs : Int) = d by omega] at this
  exact ⟨fun h' => denotes_unique h' key, fun h' => h' ▸ key⟩

/-- C161: two durations that look the same are the same. -/
theorem C161_injective {d e : Int} (hd : IsInt64 d) (he : IsInt64 e) (h : showDuration d = showDuration e) : d = e :=
  ((C161_duration he d).1 (h ▸ (C161_duration hd d).2 rfl))

/-- C161: the text of a moment is the date and the time of day that the calendar gives to its second, in UTC. -/
theorem C161_moment {t : Nat} (h : InRange t) : Moment t (showMoment t) := by
  have hy := (year_inRange t).2 h
  have hv := Rfc3339.dayOf_dateOf (t / 1000000000 / 86400)
  have hn := Rfc3339.dateOf_iff (t / 1000000000 / 86400) (dateOf (t / 1000000000 / 86400)).1 (dateOf (t / 1000000000 / 86400)).2.1
    (dateOf (t / 1000000000 / 86400)).2.2
  obtain ⟨h1, h2, h3, h4, h5, _⟩ := hv
  have hd := Rfc3339.daysIn_le (dateOf (t / 1000000000 / 86400)).2.1 (dateOf (t / 1000000000 / 86400)).1
  have hs : t / 1000000000 % 86400 < 86400 := Nat.mod_lt _ (by decide)
  refine ⟨t / 1000000000 / 86400, _, _, _, t / 1000000000 % 86400 / 3600, t / 1000000000 % 86400 % 3600 / 60, t / 1000000000 % 86400 % 60,
    t % 1000000000, _, _, _, _, _, _, hn.2 rfl, by omega, by omega, by omega, Nat.mod_lt _ (by decide), by omega,
    dec_digits (by omega), dec_digits (by omega), dec_digits (by omega), dec_digits (by omega), dec_digits (by omega), dec_digits (by omega),
    ?_⟩
  simp [showMoment]

theorem subTime_eq {a b : Nat} (h : IsInt64 ((a : Int) - b)) : subTime a b = (a : Int) - b := by
  unfold IsInt64 at h
  unfold subTime
  dsimp only
  rw [if_neg (by omega), if_neg (by omega)]

/-- C161: the row of a failed job: the second in which it ended, how long it ran, its description and its error. -/
theorem C161_failed_row (j : Job) (ht : InRange j.timing.ended) (hd : IsInt64 ((j.timing.ended : Int) - j.timing.began)) :
    ∃ when took, failedRow j = ["failed".toUTF8.data.toList, when, took, j.description, j.error] ∧ Moment j.timing.ended when ∧
      ∀ d, Denotes took d ↔ d = (j.timing.ended : Int) - j.timing.began := by
  refine ⟨_, showDuration j.execution, ?_, C161_moment ht, fun d => ?_⟩
  · rw [show "failed".toUTF8.data.toList = [102, 97, 105, 108, 101, 100] by decide +kernel]; rfl
  · rw [show j.execution = (j.timing.ended : Int) - j.timing.began from subTime_eq hd]
    exact C161_duration hd d

/-- C161: the row of a completed job: the second in which it ended, the time from its submission to its end, how long it ran, and its
description. -/
theorem C161_completed_row (j : Job) (ht : InRange j.timing.ended) (hd : IsInt64 ((j.timing.ended : Int) - j.timing.began))
    (hw : IsInt64 ((j.timing.began : Int) - j.timing.queued)) (hq : IsInt64 ((j.timing.ended : Int) - j.timing.queued)) :
    ∃ when all took, completedRow j = ["success".toUTF8.data.toList, when, all, took, j.description] ∧ Moment j.timing.ended when ∧
      (∀ d, Denotes all d ↔ d = (j.timing.ended : Int) - j.timing.queued) ∧
      ∀ d, Denotes took d ↔ d = (j.timing.ended : Int) - j.timing.began := by
  refine ⟨_, showDuration j.total, showDuration j.execution, ?_, C161_moment ht, fun d => ?_, fun d => ?_⟩
  · rw [show "success".toUTF8.data.toList = [115, 117, 99, 99, 101, 115, 115] by decide +kernel]; rfl
  · have e1 : j.execution = (j.timing.ended : Int) - j.timing.began := subTime_eq hd
    have e2 : j.waited = (j.timing.began : Int) - j.timing.queued := subTime_eq hw
    have e : j.total = (j.timing.ended : Int) - j.timing.queued := by
      unfold Job.total wrap
      rw [e1, e2]
      unfold IsInt64 at hq
      omega
    rw [e]
    exact C161_duration hq d
  · rw [show j.execution = (j.timing.ended : Int) - j.timing.began from subTime_eq hd]
    exact C161_duration hd d

/-- C161: the row of a current job: whether it has begun, the second in which it was submitted, the time since, and its description. -/
theorem C161_active_row (now : Nat) (j : Job) (ht : InRange j.timing.queued) (hd : IsInt64 ((now : Int) - j.timing.queued)) :
    ∃ state when wait, activeRow now j = [state, when, wait, j.description] ∧
      (state = "queued".toUTF8.data.toList ↔ j.timing.began = 0) ∧ (state = "running".toUTF8.data.toList ↔ j.timing.began ≠ 0) ∧
      Moment j.timing.queued when ∧ ∀ d, Denotes wait d ↔ d = (now : Int) - j.timing.queued := by
  refine ⟨_, _, showDuration (j.queuedSince now), rfl, ?_, ?_, C161_moment ht, fun d => ?_⟩
  · rw [show "queued".toUTF8.data.toList = [113, 117, 101, 117, 101, 100] by decide +kernel]; split <;> simp_all
  · rw [show "running".toUTF8.data.toList = [114, 117, 110, 110, 105, 110, 103] by decide +kernel]; split <;> simp_all
  · rw [show j.queuedSince now = (now : Int) - j.timing.queued from subTime_eq hd]
    exact C161_duration hd d

/-- The hypotheses hold of a job that failed in 2024. -/
example : ∃ j ∈ sampleReport.failed, InRange j.timing.ended ∧ IsInt64 ((j.timing.ended : Int) - j.timing.began) ∧
    IsInt64 ((j.timing.began : Int) - j.timing.queued) ∧ IsInt64 ((j.timing.ended : Int) - j.timing.queued) :=
  ⟨_, List.mem_singleton.2 rfl, (year_inRange _).1 (by decide +kernel), by simp [IsInt64], by simp [IsInt64], by simp [IsInt64]⟩

example : showDuration 3723040500000 = "1h2m3.0405s".toUTF8.data.toList := by decide +kernel
example : showDuration (-1500) = "-1.5µs".toUTF8.data.toList := by decide +kernel
example : showDuration 0 = "0s".toUTF8.data.toList ∧ showDuration 60000000000 = "1m0s".toUTF8.data.toList ∧
    showDuration 9223372036854775807 = "2562047h47m16.854775807s".toUTF8.data.toList := by decide +kernel
example : showMoment ((Rfc3339.dayOf 2024 2 29 * 86400 + 3723) * 1000000000 + 40500000) = "2024-02-29 01:02:03".toUTF8.data.toList := by
  decide +kernel

end Ferryd.Json
