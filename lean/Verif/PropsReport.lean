import Verif.Rfc3339
import Verif.PropsJson
/-!
# PropsReport: the status report arrives (C160)

handlers.go:66-100, libferry/types.go:98-102, 141-165, libferry/main.go:229-240: the report as the daemon writes it and as ferryctl reads it.

Simplified: as in Json and Rfc3339; a job that is null is an error (in Go a nil pointer, which ferryctl would follow: the daemon sends none).
-/
namespace Ferryd.Json
open Ferryd.Rfc3339 (format marshal dateOf parse_format dateOf_iff format_ascii)
open Ferryd.Rfc3339.Spec (DayNumber)
open Ferryd.Escape.Spec (utf8)
open Spec

/-! ## The report -/

/-- libferry/types.go:98-102. -/
structure Timing where
  queued : Nat
  began : Nat
  ended : Nat
deriving DecidableEq
/-- libferry/types.go:141-146. -/
structure Job where
  description : Bytes
  timing : Timing
  failed : Bool
  error : Bytes
deriving DecidableEq
/-- libferry/types.go:150-161; handlers.go:67-92 leaves the fields of the embedded `Response` at their zero values. -/
structure Report where
  started : Nat
  version : Bytes
  failed : List Job
  current : List Job
  completed : List Job
deriving DecidableEq

/-- (No code: names of fields.) -/
def nDescription : Bytes := [100, 101, 115, 99, 114, 105, 112, 116, 105, 111, 110]
/-- (No code: names of fields.) -/
def nTiming : Bytes := [116, 105, 109, 105, 110, 103]
/-- (No code: names of fields.) -/
def nQueued : Bytes := [113, 117, 101, 117, 101, 100]
/-- (No code: names of fields.) -/
def nBegin : Bytes := [98, 101, 103, 105, 110]
/-- (No code: names of fields.) -/
def nEnd : Bytes := [101, 110, 100]
/-- (No code: names of fields.) -/
def nFailed : Bytes := [102, 97, 105, 108, 101, 100]
/-- (No code: names of fields.) -/
def nJobError : Bytes := [101, 114, 114, 111, 114]
/-- (No code: names of fields.) -/
def nTimeStarted : Bytes := [116, 105, 109, 101, 83, 116, 97, 114, 116, 101, 100]
/-- (No code: names of fields.) -/
def nVersion : Bytes := [118, 101, 114, 115, 105, 111, 110]
/-- (No code: names of fields.) -/
def nFailedJobs : Bytes := [102, 97, 105, 108, 101, 100, 74, 111, 98, 115]
/-- (No code: names of fields.) -/
def nCurrentJobs : Bytes := [99, 117, 114, 114, 101, 110, 116, 74, 111, 98, 115]
/-- (No code: names of fields.) -/
def nCompletedJobs : Bytes := [99, 111, 109, 112, 108, 101, 116, 101, 100, 74, 111, 98, 115]

/-- time.go `Time.MarshalJSON`. -/
def timeVal (t : Nat) : Option Val := (marshal t).map .str
/-- libferry/types.go:98-102, in the order of the fields. -/
def Timing.val (x : Timing) : Option Val :=
  (timeVal x.queued).bind fun q => (timeVal x.began).bind fun b => (timeVal x.ended).map fun e =>
    .obj (.cons nQueued q (.cons nBegin b (.cons nEnd e .nil)))
/-- libferry/types.go:141-146, in the order of the fields. -/
def Job.val (j : Job) : Option Val :=
  j.timing.val.map fun t => .obj (.cons nDescription (.str j.description) (.cons nTiming t (.cons nFailed (.bool j.failed)
    (.cons nJobError (.str j.error) .nil))))
/-- libferry/types.go:125: a `JobSet`. -/
def jobVals : List Job → Option Vals
  | [] => some .nil
  | j :: l => j.val.bind fun v => (jobVals l).map fun vs => .cons v vs
/-- handlers.go:67-94, libferry/types.go:150-161: a list that was never appended to is null (store.go:352-409). -/
def Report.val (r : Report) : Option Val :=
  (timeVal r.started).bind fun t => (jobVals r.failed).bind fun f => (jobVals r.current).bind fun c => (jobVals r.completed).map fun d =>
    withResponse false [] (.cons nTimeStarted t (.cons nVersion (.str r.version) (.cons nFailedJobs (orNull f)
      (.cons nCurrentJobs (orNull c) (.cons nCompletedJobs (orNull d) .nil)))))
/-- handlers.go:94-99: the bytes of the answer, or an error, which is answered with 500. -/
def Report.write (r : Report) : Option Bytes := r.val.map printLine

/-- time.go `Time.UnmarshalJSON`; null leaves the zero time. -/
def fieldTime : Option Val → Option Nat
  | none | some .null => some 0
  | some (.str s) => Rfc3339.parse s
  | _ => none
/-- libferry/types.go:98-102, encoding/json decode.go `object`. -/
def fieldTiming : Option Val → Option Timing
  | none | some .null => some ⟨0, 0, 0⟩
  | some (.obj m) => (fieldTime (m.get nQueued)).bind fun q => (fieldTime (m.get nBegin)).bind fun b => (fieldTime (m.get nEnd)).map fun e =>
      ⟨q, b, e⟩
  | _ => none
/-- libferry/types.go:141-146, encoding/json decode.go `object`. -/
def readJob : Val → Option Job
  | .obj m => (fieldStr (m.get nDescription)).bind fun d => (fieldTiming (m.get nTiming)).bind fun t =>
      (fieldBool (m.get nFailed)).bind fun f => (fieldStr (m.get nJobError)).map fun e => ⟨d, t, f, e⟩
  | _ => none
/-- libferry/types.go:125, encoding/json decode.go `array`. -/
def readJobs : Vals → Option (List Job)
  | .nil => some []
  | .cons v vs => (readJob v).bind fun j => (readJobs vs).map (j :: ·)
/-- As `fieldStrs`, for a `JobSet`. encoding/json, decode.go `array`. -/
def fieldJobs : Option Val → Option (List Job)
  | none | some .null => some []
  | some (.arr vs) => readJobs vs
  | _ => none
/-- libferry/main.go:229-240. -/
def readReport (s : Bytes) : Option Report :=
  match parse s with
  | some (.obj m) => (fieldBool (m.get nError)).bind fun _ => (fieldStr (m.get nErrorString)).bind fun _ =>
    (fieldTime (m.get nTimeStarted)).bind fun t => (fieldStr (m.get nVersion)).bind fun v =>
    (fieldJobs (m.get nFailedJobs)).bind fun f => (fieldJobs (m.get nCurrentJobs)).bind fun c =>
    (fieldJobs (m.get nCompletedJobs)).map fun d => ⟨t, v, f, c, d⟩
  | _ => none

/-! ## Specification -/

namespace Spec

/-- An instant in the years 1 to 9999 (instants are nanoseconds since the beginning of year 1). -/
def InRange (t : Nat) : Prop := ∃ y m d, DayNumber (t / (24 * 60 * 60 * 10 ^ 9)) ⟨y, m, d⟩ ∧ y ≤ 9999

/-- The times of a job. -/
def jobTimes (j : Job) : List Nat := [j.timing.queued, j.timing.began, j.timing.ended]
/-- The times of a report. -/
def times (r : Report) : List Nat := r.started :: (r.failed ++ r.current ++ r.completed).flatMap jobTimes
/-- The texts of a report. -/
def texts (r : Report) : List Bytes := r.version :: (r.failed ++ r.current ++ r.completed).flatMap fun j => [j.description, j.error]

/-- Two lists of jobs: the same jobs, in the same order, with the same times and outcomes. -/
inductive JobsBecome : List Job → List Job → Prop
  | nil : JobsBecome [] []
  | cons {d d' e e' : Bytes} (t : Timing) (f : Bool) {l m : List Job} : Becomes d d' → Becomes e e' → JobsBecome l m →
      JobsBecome (⟨d, t, f, e⟩ :: l) (⟨d', t, f, e'⟩ :: m)
/-- Two reports that differ in their texts only. -/
inductive ReportBecomes : Report → Report → Prop
  | mk (t : Nat) {v v' : Bytes} {f f' c c' d d' : List Job} : Becomes v v' → JobsBecome f f' → JobsBecome c c' → JobsBecome d d' →
      ReportBecomes ⟨t, v, f, c, d⟩ ⟨t, v', f', c', d'⟩

/-- The value of decimal digits. -/
def value (s : Bytes) : Nat := s.foldl (fun a b => a * 10 + (b.toNat - 48)) 0
/-- `n` in `k` decimal digits. -/
def Dec (k n : Nat) (s : Bytes) : Prop := s.length = k ∧ (∀ b ∈ s, 48 ≤ b ∧ b ≤ 57) ∧ value s = n
/-- The nanoseconds of a second: nothing, or a dot and digits of which the last is not zero. -/
def Frac (ns : Nat) (s : Bytes) : Prop :=
  (ns = 0 ∧ s = []) ∨ ∃ k n l, s = 46 :: l ∧ 1 ≤ k ∧ k ≤ 9 ∧ Dec k n l ∧ n * 10 ^ (9 - k) = ns ∧ ¬ 10 ∣ n
/-- `2024-02-29T01:02:03.0405Z`: an instant as a text. -/
def Stamp (t : Nat) (s : Bytes) : Prop :=
  ∃ n y m d h mi se ns Y M D H I S F, DayNumber n ⟨y, m, d⟩ ∧ h < 24 ∧ mi < 60 ∧ se < 60 ∧ ns < 10 ^ 9 ∧
    t = (((n * 24 + h) * 60 + mi) * 60 + se) * 10 ^ 9 + ns ∧
    Dec 4 y Y ∧ Dec 2 m M ∧ Dec 2 d D ∧ Dec 2 h H ∧ Dec 2 mi I ∧ Dec 2 se S ∧ Frac ns F ∧
    s = Y ++ [45] ++ M ++ [45] ++ D ++ [84] ++ H ++ [58] ++ I ++ [58] ++ S ++ F ++ [90]

end Spec

/-! ## Times -/

theorem year_inRange (t : Nat) : (dateOf (t / 1000000000 / 86400)).1 < 10000 ↔ InRange t := by
  unfold InRange
  rw [show t / (24 * 60 * 60 * 10 ^ 9) = t / 1000000000 / 86400 by rw [Nat.div_div_eq_div_mul]]
  constructor
  · intro h
    exact ⟨(dateOf (t / 1000000000 / 86400)).1, (dateOf (t / 1000000000 / 86400)).2.1, (dateOf (t / 1000000000 / 86400)).2.2,
      (dateOf_iff _ _ _ _).2 rfl, by omega⟩
  · rintro ⟨y, m, d, h, hy⟩
    rw [(dateOf_iff _ _ _ _).1 h]; dsimp only; omega

theorem timeVal_eq (t : Nat) : (∃ v, timeVal t = some v) ↔ InRange t := by
  rw [← year_inRange]
  unfold timeVal marshal
  by_cases h : 10000 ≤ (dateOf (t / 1000000000 / 86400)).1
  · rw [if_pos h]
    exact ⟨fun ⟨v, hv⟩ => by simp at hv, fun h' => by omega⟩
  · rw [if_neg h]
    exact ⟨fun _ => by omega, fun _ => ⟨_, rfl⟩⟩

theorem timeVal_some {t : Nat} {v : Val} (h : timeVal t = some v) : v = .str (format t) ∧ VB v v ∧ fieldTime (some v) = some t := by
  have hr := (year_inRange t).2 ((timeVal_eq t).1 ⟨v, h⟩)
  have e : v = .str (format t) := by
    unfold timeVal marshal at h
    rw [if_neg (by omega)] at h
    simpa using h.symm
  subst e
  exact ⟨rfl, .str (becomes_ascii (format_ascii t)), parse_format hr⟩

/-! ## Jobs -/

theorem timing_some {x : Timing} {v : Val} (h : x.val = some v) : VB v v ∧ fieldTiming (some v) = some x := by
  obtain ⟨q, b, e⟩ := x
  unfold Timing.val at h
  simp only [Option.bind_eq_some_iff, Option.map_eq_some_iff] at h
  obtain ⟨vq, hq, vb, hb, ve, he, rfl⟩ := h
  obtain ⟨_, q1, q2⟩ := timeVal_some hq
  obtain ⟨_, b1, b2⟩ := timeVal_some hb
  obtain ⟨_, e1, e2⟩ := timeVal_some he
  refine ⟨.obj (.cons (becomes_ascii (by decide)) q1 (.cons (becomes_ascii (by decide)) b1 (.cons (becomes_ascii (by decide)) e1 .nil))), ?_⟩
  show ((fieldTime (some vq)).bind fun q => (fieldTime (some vb)).bind fun b => (fieldTime (some ve)).map fun e =>
      (⟨q, b, e⟩ : Timing)) = _
  rw [q2, b2, e2]; rfl

theorem timing_exists {x : Timing} : (∃ v, x.val = some v) ↔ InRange x.queued ∧ InRange x.began ∧ InRange x.ended := by
  rw [← timeVal_eq, ← timeVal_eq, ← timeVal_eq]
  unfold Timing.val
  simp only [Option.bind_eq_some_iff, Option.map_eq_some_iff]
  constructor
  · rintro ⟨v, vq, hq, vb, hb, ve, he, _⟩; exact ⟨⟨_, hq⟩, ⟨_, hb⟩, ⟨_, he⟩⟩
  · rintro ⟨⟨_, hq⟩, ⟨_, hb⟩, ⟨_, he⟩⟩; exact ⟨_, _, hq, _, hb, _, he, rfl⟩

theorem jobVals_some {l : List Job} : ∀ {vs : Vals} {m : List Job}, jobVals l = some vs → JobsBecome l m →
    ∃ ws, VsB vs ws ∧ readJobs ws = some m := by
  induction l with
  | nil => intro vs m h hb; cases hb; cases h; exact ⟨_, .nil, rfl⟩
  | cons j l ih =>
    intro vs m h hb
    cases hb with
    | @cons d d' e e' t f _ m hd he hl =>
      simp only [jobVals, Job.val, Option.bind_eq_some_iff, Option.map_eq_some_iff] at h
      obtain ⟨v, ⟨tv, ht, rfl⟩, us, hu, rfl⟩ := h
      obtain ⟨t1, t2⟩ := timing_some ht
      obtain ⟨ws, w1, w2⟩ := ih hu hl
      refine ⟨_, .cons (.obj (.cons (becomes_ascii (by decide)) (.str hd) (.cons (becomes_ascii (by decide)) t1
        (.cons (becomes_ascii (by decide)) (.bool f) (.cons (becomes_ascii (by decide)) (.str he) .nil))))) w1, ?_⟩
      have hj : readJob (.obj (.cons nDescription (.str d') (.cons nTiming tv (.cons nFailed (.bool f) (.cons nJobError (.str e') .nil)))))
          = some ⟨d', t, f, e'⟩ := by
        show ((fieldTiming (some tv)).bind fun t => some (⟨d', t, f, e'⟩ : Job)) = _
        rw [t2]; rfl
      simp only [readJobs, hj, w2, Option.bind_some, Option.map_some]

theorem jobVals_exists (l : List Job) : (∃ vs, jobVals l = some vs) ↔ ∀ t ∈ l.flatMap jobTimes, InRange t := by
  induction l with
  | nil => simp [jobVals]
  | cons j l ih =>
    have e : (∃ vs, jobVals (j :: l) = some vs) ↔ (∃ v, j.timing.val = some v) ∧ ∃ vs, jobVals l = some vs := by
      simp only [jobVals, Job.val, Option.bind_eq_some_iff, Option.map_eq_some_iff]
      constructor
      · rintro ⟨_, _, ⟨v, hv, _⟩, vs, hvs, _⟩; exact ⟨⟨v, hv⟩, vs, hvs⟩
      · rintro ⟨⟨v, hv⟩, vs, hvs⟩; exact ⟨_, _, ⟨v, hv, rfl⟩, vs, hvs, rfl⟩
    rw [e, ih, timing_exists]
    simp only [List.flatMap_cons, jobTimes, List.mem_append, List.mem_cons, List.not_mem_nil, or_false]
    constructor
    · rintro ⟨⟨a, b, c⟩, h⟩ t (h' | h')
      · rcases h' with rfl | rfl | rfl <;> assumption
      · exact h t h'
    · intro h
      exact ⟨⟨h _ (.inl (.inl rfl)), h _ (.inl (.inr (.inl rfl))), h _ (.inl (.inr (.inr rfl)))⟩, fun t ht => h t (.inr ht)⟩

theorem fieldJobs_orNull {vs : Vals} {l : List Job} (h : readJobs vs = some l) : fieldJobs (some (orNull vs)) = some l := by
  cases vs with
  | nil => exact h
  | cons v vs => exact h

theorem jobs_exists (l : List Job) : ∃ m, JobsBecome l m := by
  induction l with
  | nil => exact ⟨_, .nil⟩
  | cons j l ih =>
    obtain ⟨m, hm⟩ := ih
    obtain ⟨d, hd⟩ := becomes_exists j.description
    obtain ⟨e, he⟩ := becomes_exists j.error
    exact ⟨_, .cons j.timing j.failed hd he hm⟩

theorem jobs_self (l : List Job) : JobsBecome l l ↔ ∀ s ∈ l.flatMap (fun j => [j.description, j.error]), Utf8 s := by
  induction l with
  | nil => exact ⟨fun _ s hs => by simp at hs, fun _ => .nil⟩
  | cons j l ih =>
    simp only [List.flatMap_cons, List.mem_append, List.mem_cons, List.not_mem_nil, or_false]
    constructor
    · intro h
      cases h with
      | cons t f hd he hl =>
        rintro s ((rfl | rfl) | hs)
        · exact becomes_self.1 hd
        · exact becomes_self.1 he
        · exact ih.1 hl s hs
    · intro h
      exact .cons j.timing j.failed (becomes_self.2 (h _ (.inl (.inl rfl)))) (becomes_self.2 (h _ (.inl (.inr rfl))))
        (ih.2 fun s hs => h s (.inr hs))

/-! ## The text of a time -/

theorem value_append (l : Bytes) (b : UInt8) : value (l ++ [b]) = value l * 10 + (b.toNat - 48) := by simp [value]

theorem dec_digits {k n : Nat} (h : n < 10 ^ k) : Dec k n (Rfc3339.digits k n) := by
  refine ⟨Rfc3339.digits_length k n, fun b hb => ?_, ?_⟩
  · have := Rfc3339.digits_digits k n b hb
    simpa [Rfc3339.isDigit] using this
  · induction k generalizing n with
    | zero => simp at h; subst h; rfl
    | succ k ih =>
      rw [Nat.pow_succ] at h
      rw [Rfc3339.digits, value_append, ih (by omega)]
      have := (Rfc3339.isDigit_ofNat (d := n % 10) (Nat.mod_lt _ (by decide))).2
      omega

theorem value_zeros (l : Bytes) (j : Nat) : value (l ++ List.replicate j 48) = value l * 10 ^ j := by
  induction j generalizing l with
  | zero => simp
  | succ j ih =>
    rw [List.replicate_succ, show l ++ 48 :: List.replicate j 48 = (l ++ [48]) ++ List.replicate j 48 by simp, ih, value_append,
      show (48 : UInt8).toNat - 48 = 0 by decide, Nat.pow_succ, Nat.add_zero, Nat.mul_assoc, Nat.mul_comm 10]

theorem trim_last (l : Bytes) : ∀ m b, Rfc3339.trim l = m ++ [b] → b ≠ 48 := by
  induction l with
  | nil => intro m b h; simp [Rfc3339.trim] at h
  | cons x l ih =>
    intro m b h
    rw [Rfc3339.trim] at h
    generalize Rfc3339.trim l = r at *
    cases r with
    | nil =>
      dsimp only at h
      by_cases h0 : x = 48
      · rw [if_pos h0] at h; simp at h
      · rw [if_neg h0] at h
        cases m with
        | nil => simp at h; exact h ▸ h0
        | cons y m => simp at h
    | cons y r =>
      dsimp only at h
      cases m with
      | nil => simp at h
      | cons z m =>
        simp only [List.cons_append, List.cons.injEq] at h
        exact ih m b h.2

theorem frac_fraction {ns : Nat} (h : ns < 10 ^ 9) : Frac ns (Rfc3339.fraction ns) := by
  obtain ⟨j, e⟩ := Rfc3339.trim_spec (Rfc3339.digits 9 ns)
  have hd := dec_digits (k := 9) (n := ns) h
  have hlast := trim_last (Rfc3339.digits 9 ns)
  unfold Rfc3339.fraction
  generalize Rfc3339.trim (Rfc3339.digits 9 ns) = l at *
  rw [e] at hd
  obtain ⟨h1, h2, h3⟩ := hd
  rw [List.length_append, List.length_replicate] at h1
  rw [value_zeros] at h3
  cases l with
  | nil => left; exact ⟨by rw [← h3]; simp [value], rfl⟩
  | cons b l =>
    right
    refine ⟨(b :: l).length, value (b :: l), b :: l, rfl, by simp, by omega, ⟨rfl, fun x hx => h2 x (List.mem_append.2 (.inl hx)), rfl⟩,
      by rw [show 9 - (b :: l).length = j by omega]; exact h3, ?_⟩
    have hne : b :: l ≠ [] := by simp
    have hs := List.dropLast_concat_getLast hne
    generalize (b :: l).getLast hne = z at hs
    have hz := h2 z (by rw [← hs]; simp)
    have hz0 := hlast _ _ hs.symm
    rw [← hs, value_append]
    have : ¬ z.toNat = 48 := fun hh => hz0 (UInt8.toNat_inj.1 hh)
    simp only [UInt8.le_iff_toNat_le] at hz
    have a := hz.1; have c := hz.2
    simp at a c
    omega

theorem stamp_format {t : Nat} (h : InRange t) : Stamp t (format t) := by
  have hy := (year_inRange t).2 h
  have hv := Rfc3339.dayOf_dateOf (t / 1000000000 / 86400)
  have hn := dateOf_iff (t / 1000000000 / 86400) (dateOf (t / 1000000000 / 86400)).1 (dateOf (t / 1000000000 / 86400)).2.1
    (dateOf (t / 1000000000 / 86400)).2.2
  obtain ⟨h1, h2, h3, h4, h5, _⟩ := hv
  have hd := Rfc3339.daysIn_le (dateOf (t / 1000000000 / 86400)).2.1 (dateOf (t / 1000000000 / 86400)).1
  have hs : t / 1000000000 % 86400 < 86400 := Nat.mod_lt _ (by decide)
  refine ⟨t / 1000000000 / 86400, _, _, _, t / 1000000000 % 86400 / 3600, t / 1000000000 % 86400 % 3600 / 60, t / 1000000000 % 86400 % 60,
    t % 1000000000, _, _, _, _, _, _, _, hn.2 rfl, by omega, by omega, by omega, Nat.mod_lt _ (by decide), by omega,
    dec_digits (by omega), dec_digits (by omega), dec_digits (by omega), dec_digits (by omega), dec_digits (by omega), dec_digits (by omega),
    frac_fraction (Nat.mod_lt _ (by decide)), ?_⟩
  simp [format]

/-! ## C160 -/

/-- C160: a report can be written exactly when all its times are in the years 1 to 9999. -/
theorem C160_written (r : Report) : r.write.isSome ↔ ∀ t ∈ times r, InRange t := by
  have e : r.write.isSome ↔ (∃ v, timeVal r.started = some v) ∧ (∃ vs, jobVals r.failed = some vs) ∧ (∃ vs, jobVals r.current = some vs) ∧
      ∃ vs, jobVals r.completed = some vs := by
    rw [Option.isSome_iff_exists]
    simp only [Report.write, Report.val, Option.bind_eq_some_iff, Option.map_eq_some_iff]
    constructor
    · rintro ⟨_, _, ⟨t, ht, f, hf, c, hc, d, hd, _⟩, _⟩; exact ⟨⟨_, ht⟩, ⟨_, hf⟩, ⟨_, hc⟩, ⟨_, hd⟩⟩
    · rintro ⟨⟨_, ht⟩, ⟨_, hf⟩, ⟨_, hc⟩, ⟨_, hd⟩⟩; exact ⟨_, _, ⟨_, ht, _, hf, _, hc, _, hd, rfl⟩, rfl⟩
  rw [e, timeVal_eq, jobVals_exists, jobVals_exists, jobVals_exists]
  simp only [times, List.flatMap_append, List.mem_cons, List.mem_append]
  constructor
  · rintro ⟨a, b, c, d⟩ t (rfl | (h | h) | h)
    · exact a
    · exact b t h
    · exact c t h
    · exact d t h
  · intro h
    exact ⟨h _ (.inl rfl), fun t ht => h t (.inr (.inl (.inl ht))), fun t ht => h t (.inr (.inl (.inr ht))), fun t ht => h t (.inr (.inr ht))⟩

/-- C160: what ferryctl gets of the report that the daemon wrote: when the daemon was started, and the failed, current and completed jobs, in
their order, each with its times to the nanosecond and whether it failed; of the texts, each byte that begins no character becomes U+FFFD,
and nothing else. -/
theorem C160_arrives (r r' : Report) {s : Bytes} (h : r.write = some s) : readReport s = some r' ↔ ReportBecomes r r' := by
  have fwd : ∀ q, ReportBecomes r q → readReport s = some q := by
    intro q hq
    cases hq with
    | mk t hv hf hc hd =>
      simp only [Report.write, Report.val, Option.bind_eq_some_iff, Option.map_eq_some_iff] at h
      obtain ⟨_, ⟨tv, ht, fs, hfs, cs, hcs, ds, hds, rfl⟩, rfl⟩ := h
      obtain ⟨_, t1, t2⟩ := timeVal_some ht
      obtain ⟨fw, f1, f2⟩ := jobVals_some hfs hf
      obtain ⟨cw, c1, c2⟩ := jobVals_some hcs hc
      obtain ⟨dw, d1, d2⟩ := jobVals_some hds hd
      unfold readReport
      rw [parse_print (vb_withResponse .nil (.cons (becomes_ascii (by decide)) t1 (.cons (becomes_ascii (by decide)) (.str hv)
        (.cons (becomes_ascii (by decide)) (vb_orNull f1) (.cons (becomes_ascii (by decide)) (vb_orNull c1)
          (.cons (becomes_ascii (by decide)) (vb_orNull d1) .nil))))))]
      have f3 := fieldJobs_orNull f2
      have c3 := fieldJobs_orNull c2
      have d3 := fieldJobs_orNull d2
      generalize orNull fw = fw at *
      generalize orNull cw = cw at *
      generalize orNull dw = dw at *
      show ((fieldTime (some tv)).bind fun t => (fieldStr (some (.str _))).bind fun v => (fieldJobs (some fw)).bind fun f =>
        (fieldJobs (some cw)).bind fun c => (fieldJobs (some dw)).map fun d => (⟨t, v, f, c, d⟩ : Report)) = _
      rw [t2, f3, c3, d3]; rfl
  refine ⟨fun hr => ?_, fwd r'⟩
  obtain ⟨v, hv⟩ := becomes_exists r.version
  obtain ⟨f, hf⟩ := jobs_exists r.failed
  obtain ⟨c, hc⟩ := jobs_exists r.current
  obtain ⟨d, hd⟩ := jobs_exists r.completed
  have hq : ReportBecomes r ⟨r.started, v, f, c, d⟩ := .mk r.started hv hf hc hd
  rw [fwd _ hq] at hr
  cases hr
  exact hq

/-- C160: exactly the reports whose texts are UTF-8 arrive as they were given. -/
theorem C160_same (r : Report) {s : Bytes} (h : r.write = some s) : readReport s = some r ↔ ∀ x ∈ texts r, Utf8 x := by
  rw [C160_arrives r r h]
  simp only [texts, List.flatMap_append, List.mem_cons, List.mem_append]
  constructor
  · intro hb
    cases hb with
    | mk t hv hf hc hd =>
      rintro x (rfl | (hx | hx) | hx)
      · exact becomes_self.1 hv
      · exact (jobs_self _).1 hf x hx
      · exact (jobs_self _).1 hc x hx
      · exact (jobs_self _).1 hd x hx
  · intro hx
    exact .mk r.started (becomes_self.2 (hx _ (.inl rfl))) ((jobs_self _).2 fun x h => hx x (.inr (.inl (.inl h))))
      ((jobs_self _).2 fun x h => hx x (.inr (.inl (.inr h)))) ((jobs_self _).2 fun x h => hx x (.inr (.inr h)))

/-- C160: the text of a time is the date and the time of day that the calendar gives it, in UTC. -/
theorem C160_stamp {t : Nat} {s : Bytes} (h : marshal t = some s) : Stamp t s := by
  have hr : InRange t := (timeVal_eq t).1 ⟨.str s, by simp [timeVal, h]⟩
  have hy := (year_inRange t).2 hr
  unfold marshal at h
  rw [if_neg (by omega)] at h
  cases h
  exact stamp_format hr

/-- A report of a job that failed, one that runs and one that waits. (No code: an example.) -/
def sampleReport : Report :=
  ⟨63_843_217_323_040_500_000, [49, 46, 48],
   [⟨utf8 ['"', 'é', '😀', '\n'], ⟨63_843_217_324_000_000_000, 63_843_217_324_000_000_001, 63_843_217_325_123_456_789⟩, true, [60, 38]⟩],
   [⟨[97], ⟨63_843_217_326_000_000_000, 63_843_217_327_100_000_000, 0⟩, false, []⟩, ⟨[98], ⟨63_843_217_328_000_000_000, 0, 0⟩, false, []⟩],
   []⟩

example : ∀ x ∈ texts sampleReport, Utf8 x := by
  have a : ∀ l : Bytes, (∀ b ∈ l, b < 128) → Utf8 l := fun l h => becomes_self.1 (becomes_ascii h)
  intro x hx
  simp only [texts, sampleReport, List.cons_append, List.nil_append, List.flatMap_cons, List.flatMap_nil, List.append_nil, List.mem_cons,
    List.not_mem_nil, or_false] at hx
  rcases hx with rfl | rfl | rfl | rfl | rfl | rfl | rfl
  · exact a _ (by decide)
  · exact ⟨_, rfl⟩
  all_goals exact a _ (by decide)

example : (sampleReport.write.bind readReport) = some sampleReport := by decide +kernel

/-- The year 10000 cannot be written. -/
example : (⟨315_537_897_600_000_000_000, [], [], [], []⟩ : Report).write = none := by decide +kernel
example : (⟨315_537_897_599_999_999_999, [], [], [], []⟩ : Report).write ≠ none := by decide +kernel

end Ferryd.Json
