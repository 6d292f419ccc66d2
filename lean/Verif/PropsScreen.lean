import Verif.PropsStatus
import Verif.PropsDuration
import Verif.ClientBytes
/-!
# PropsScreen: from the job store to the screen (C162)

Joins `PropsStatus` (the four reads of the store), `PropsReport` (the bytes of the answer), `Listing` (sorting and printing) and
`PropsDuration` (the texts of the rows).  Characters of the store's texts stand for bytes; its times are nanoseconds since the year 1.
-/
namespace Ferryd.Listing
open Ferryd.Jobs
open Ferryd.Client (toBytes)
open Ferryd.Json (Bytes Report readReport activeRow failedRow completedRow)
open Ferryd.Json.Spec

/-- libferry/types.go:141-146: a job of the store (`libferry.Job` there, too: jobs/store.go:352-412). -/
def jobOf (r : Record) : Json.Job :=
  ⟨toBytes r.description, ⟨r.timing.queued, r.timing.begin_, r.timing.end_⟩, r.failed, toBytes r.error⟩
/-- handlers.go:67-92. -/
def reportOf (started : Nat) (version : Bytes) (current failed completed : List Record) : Report :=
  ⟨started, version, failed.map jobOf, current.map jobOf, completed.map jobOf⟩

/-- status.go:60-65, 96-101, 127-132: the loop that prints a table, over what the client has read. -/
def printedJobs (all : Bool) : Nat → List Json.Job → List Json.Job
  | _, [] => []
  | i, j :: js => if i ≥ maxPrintJobs ∧ ¬ all then [] else j :: printedJobs all (i + 1) js
/-- The three tables on the screen. ferryctl/cmd/status.go:144-182. -/
structure Screen where
  failed : List (List Bytes)
  current : List (List Bytes)
  completed : List (List Bytes)
/-- status.go:144-182: what may be printed, `now` being asked for each row; the sort is not stable. -/
def Printed (now : Nat) (all : Bool) (r : Report) (t : Screen) : Prop :=
  ∃ f c d : List Json.Job, f.Perm r.failed ∧ f.Pairwise (fun a b => b.timing.queued ≤ a.timing.queued) ∧
    c.Perm r.current ∧ c.Pairwise (fun a b => a.timing.queued ≤ b.timing.queued) ∧
    d.Perm r.completed ∧ d.Pairwise (fun a b => b.timing.queued ≤ a.timing.queued) ∧
    t = ⟨(printedJobs all 0 f).map failedRow, (printedJobs all 0 c).map (activeRow now), (printedJobs all 0 d).map completedRow⟩

/-! ## Specification -/

namespace Spec

/-- A text that stands for `d` nanoseconds and nothing else. -/
def Lasts (d : Int) (s : Bytes) : Prop := ∀ e, Denotes s e ↔ e = d
/-- A row about a job of the store that is waiting or running. -/
def CurrentRow (now : Nat) (line : Record) (row : List Bytes) : Prop := ∃ state when wait text, row = [state, when, wait, text] ∧
  (state = "queued".toUTF8.data.toList ∧ line.timing.begin_ = 0 ∨ state = "running".toUTF8.data.toList ∧ line.timing.begin_ ≠ 0) ∧
  Moment line.timing.queued when ∧ Lasts ((now : Int) - line.timing.queued) wait ∧ Becomes (toBytes line.description) text
/-- A row about a job that failed. -/
def FailedRow (r : Record) (row : List Bytes) : Prop := ∃ when took text error, row = ["failed".toUTF8.data.toList, when, took, text, error] ∧
  Moment r.timing.end_ when ∧ Lasts ((r.timing.end_ : Int) - r.timing.begin_) took ∧
  Becomes (toBytes r.description) text ∧ Becomes (toBytes r.error) error
/-- A row about a job that succeeded. -/
def CompletedRow (r : Record) (row : List Bytes) : Prop := ∃ when total took text, row = ["success".toUTF8.data.toList, when, total, took, text] ∧
  Moment r.timing.end_ when ∧ Lasts ((r.timing.end_ : Int) - r.timing.queued) total ∧
  Lasts ((r.timing.end_ : Int) - r.timing.begin_) took ∧ Becomes (toBytes r.description) text
/-- The times of a finished job are within 292 years. -/
def Near (r : Record) : Prop := IsInt64 ((r.timing.end_ : Int) - r.timing.begin_) ∧ IsInt64 ((r.timing.begin_ : Int) - r.timing.queued) ∧
  IsInt64 ((r.timing.end_ : Int) - r.timing.queued)

end Spec
open Ferryd.Listing.Spec

/-! ## C162 -/

theorem printedJobs_all (l : List Json.Job) : ∀ i, printedJobs true i l = l := by
  induction l with
  | nil => intro i; rfl
  | cons j l ih => intro i; simp [printedJobs, ih]

theorem printedJobs_ten (l : List Json.Job) : ∀ i, i ≤ maxPrintJobs → printedJobs false i l = l.take (maxPrintJobs - i) := by
  induction l with
  | nil => intro i _; simp [printedJobs]
  | cons j l ih =>
    intro i hi
    unfold printedJobs
    by_cases h : i ≥ maxPrintJobs
    · rw [if_pos ⟨h, by simp⟩, show maxPrintJobs - i = 0 by omega, List.take_zero]
    · rw [if_neg (fun x => h x.1), ih (i + 1) (by omega), show maxPrintJobs - i = (maxPrintJobs - (i + 1)) + 1 by omega, List.take_succ_cons]

theorem becomes_mem {l m : List Json.Job} (h : JobsBecome l m) {j : Json.Job} (hj : j ∈ l) : ∃ d e, Becomes j.description d ∧
    Becomes j.error e ∧ ⟨d, j.timing, j.failed, e⟩ ∈ m := by
  induction h with
  | nil => cases hj
  | @cons d d' e e' t f l m hd he _ ih =>
    rcases List.mem_cons.1 hj with rfl | hj
    · exact ⟨d', e', hd, he, List.mem_cons_self ..⟩
    · obtain ⟨a, b, h1, h2, h3⟩ := ih hj
      exact ⟨a, b, h1, h2, List.mem_cons_of_mem _ h3⟩

theorem mem_times {r : Report} {j : Json.Job} (h : j ∈ r.failed ∨ j ∈ r.current ∨ j ∈ r.completed) : ∀ t ∈ jobTimes j, t ∈ times r := by
  intro t ht
  unfold times
  refine List.mem_cons_of_mem _ (List.mem_flatMap.2 ⟨j, ?_, ht⟩)
  simp only [List.mem_append]
  rcases h with h | h | h
  · exact .inl (.inl h)
  · exact .inl (.inr h)
  · exact .inr h

section
variable {C : Codec} {poison : Str → List Str → Prop}

/-- What stands on the screen for the lists that the daemon read. -/
theorem screen_rows {started : Nat} {version : Bytes} {current failed completed : List Record} {s : Bytes} {r : Report} {now : Nat} {t : Screen}
    (hw : (reportOf started version current failed completed).write = some s) (hr : readReport s = some r) (hp : Printed now true r t) :
    (∀ line ∈ current, IsInt64 ((now : Int) - line.timing.queued) → ∃ row ∈ t.current, CurrentRow now line row) ∧
    (∀ x ∈ failed, Near x → ∃ row ∈ t.failed, FailedRow x row) ∧ (∀ x ∈ completed, Near x → ∃ row ∈ t.completed, CompletedRow x row) := by
  have hb := (Json.C160_arrives _ r hw).1 hr
  have hin := (Json.C160_written _).1 (by rw [hw]; rfl)
  obtain ⟨f, c, d, pf, -, pc, -, pd, -, rfl⟩ := hp
  simp only [printedJobs_all]
  have q : "queued".toUTF8.data.toList ≠ "running".toUTF8.data.toList := by decide +kernel
  unfold reportOf at hb hin
  generalize hR : (⟨started, version, failed.map jobOf, current.map jobOf, completed.map jobOf⟩ : Report) = R at *
  cases hb with
  | mk ti hv hf hc hd =>
    cases hR
    dsimp only at pf pc pd hin
    refine ⟨fun line hl hi => ?_, fun x hx hn => ?_, fun x hx hn => ?_⟩
    · have hm : jobOf line ∈ current.map jobOf := List.mem_map_of_mem hl
      obtain ⟨a, b, h1, h2, h3⟩ := becomes_mem hc hm
      obtain ⟨state, when, wait, e, e1, e2, e3, e4⟩ := Json.C161_active_row now ⟨a, (jobOf line).timing, (jobOf line).failed, b⟩
        (hin _ (mem_times (.inr (.inl hm)) _ (by simp [jobTimes]))) hi
      refine ⟨_, List.mem_map_of_mem (pc.symm.mem_iff.1 h3), state, when, wait, a, e, ?_, e3, e4, h1⟩
      by_cases hz : line.timing.begin_ = 0
      · exact .inl ⟨e1.2 hz, hz⟩
      · exact .inr ⟨e2.2 hz, hz⟩
    · have hm : jobOf x ∈ failed.map jobOf := List.mem_map_of_mem hx
      obtain ⟨a, b, h1, h2, h3⟩ := becomes_mem hf hm
      obtain ⟨when, took, e, e1, e2⟩ := Json.C161_failed_row ⟨a, (jobOf x).timing, (jobOf x).failed, b⟩
        (hin _ (mem_times (.inl hm) _ (by simp [jobTimes]))) hn.1
      exact ⟨_, List.mem_map_of_mem (pf.symm.mem_iff.1 h3), when, took, a, b, e, e1, e2, h1, h2⟩
    · have hm : jobOf x ∈ completed.map jobOf := List.mem_map_of_mem hx
      obtain ⟨a, b, h1, h2, h3⟩ := becomes_mem hd hm
      obtain ⟨when, total, took, e, e1, e2, e3⟩ := Json.C161_completed_row ⟨a, (jobOf x).timing, (jobOf x).failed, b⟩
        (hin _ (mem_times (.inr (.inr hm)) _ (by simp [jobTimes]))) hn.1 hn.2.1 hn.2.2
      exact ⟨_, List.mem_map_of_mem (pd.symm.mem_iff.1 h3), when, total, took, a, e, e1, e2, e3, h1⟩

/-- C162: `ferryctl status -a` prints a row for every job that is not finished when the daemon begins to put the report together: a row of
its state, or, if it finishes meanwhile, a row of its outcome (at most a hundred jobs finish meanwhile, and nobody clears the histories);
the row gives the moment of its submission or of its end in UTC, the exact durations, and its description and error. -/
theorem C162_on_screen {s1 s2 s3 s4 : Sys} {L1 L2 L3 : List (Nat × Record)} (hs : Reach C poison s1) (hup : s1.up = true)
    (h12 : Live C poison L1 s1 s2) (h23 : Live C poison L2 s2 s3) (h34 : Live C poison L3 s3 s4) (hN : s4.reqs.length < 2 ^ 62)
    (hL : (L1 ++ L2 ++ L3).length ≤ 100) {current failed completed : List Record}
    (hrep : Reports C s1 s2 s3 s4 current failed completed) {started now : Nat} {version s : Bytes} {r : Report} {screen : Screen}
    (hw : (reportOf started version current failed completed).write = some s) (hr : readReport s = some r)
    (hp : Printed now true r screen) (hnow : ∀ line ∈ current, IsInt64 ((now : Int) - line.timing.queued))
    (hnear : ∀ x ∈ failed ++ completed, Near x) {t : Nat} (ht : t < s1.reqs.length) (hd : t ∉ s1.done) :
    (∃ line, (ShowsLine s1 t line ∨ ShowsLine s2 t line) ∧ ∃ row ∈ screen.current, CurrentRow now line row) ∨
    ∃ x, (t, x) ∈ L1 ∧ if x.failed then ∃ row ∈ screen.failed, FailedRow x row else ∃ row ∈ screen.completed, CompletedRow x row := by
  obtain ⟨h1, h2, h3⟩ := screen_rows hw hr hp
  rcases C123_report_misses_no_job hs hup h12 h23 h34 hN hL hrep ht hd with ⟨line, hm, hl⟩ | ⟨x, hx, hm⟩
  · exact .inl ⟨line, hl, h1 line hm (hnow line hm)⟩
  · refine .inr ⟨x, hx, ?_⟩
    split
    · rename_i hf
      rw [if_pos hf] at hm
      exact h2 x hm (hnear x (List.mem_append_left _ hm))
    · rename_i hf
      rw [if_neg hf] at hm
      exact h3 x hm (hnear x (List.mem_append_right _ hm))

/-- C162: the screen has no other rows: one for each job of the lists that the daemon read, and without `-a` at most ten in each table. -/
theorem C162_counts {started now : Nat} {version s : Bytes} {current failed completed : List Record} {r : Report} {screen : Screen} {all : Bool}
    (hw : (reportOf started version current failed completed).write = some s) (hr : readReport s = some r)
    (hp : Printed now all r screen) :
    (screen.current.length, screen.failed.length, screen.completed.length) =
      if all then (current.length, failed.length, completed.length)
      else (min 10 current.length, min 10 failed.length, min 10 completed.length) := by
  have len : ∀ {l m : List Json.Job}, JobsBecome l m → m.length = l.length := by
    intro l m h
    induction h with
    | nil => rfl
    | cons _ _ _ _ _ ih => simp [ih]
  have hb := (Json.C160_arrives _ r hw).1 hr
  obtain ⟨f, c, d, pf, -, pc, -, pd, -, rfl⟩ := hp
  unfold reportOf at hb
  generalize hR : (⟨started, version, failed.map jobOf, current.map jobOf, completed.map jobOf⟩ : Report) = R at *
  cases hb with
  | mk ti hv hf hc hd =>
    cases hR
    have f1 := pf.length_eq.trans (len hf)
    have c1 := pc.length_eq.trans (len hc)
    have d1 := pd.length_eq.trans (len hd)
    rw [List.length_map] at f1 c1 d1
    cases all with
    | true => simp [printedJobs_all, f1, c1, d1]
    | false => simp [printedJobs_ten c 0 (Nat.zero_le _), printedJobs_ten f 0 (Nat.zero_le _), printedJobs_ten d 0 (Nat.zero_le _), f1, c1, d1, maxPrintJobs]

/-- C162: the daemon's report cannot fail to arrive: whenever its times are in the years 1 to 9999, it is written and read, and something is
printed for it. -/
theorem C162_always {started : Nat} {version : Bytes} {current failed completed : List Record}
    (h : ∀ u ∈ started :: (failed ++ current ++ completed).flatMap (fun x => [x.timing.queued, x.timing.begin_, x.timing.end_]), InRange u)
    (now : Nat) (all : Bool) : ∃ s r screen, (reportOf started version current failed completed).write = some s ∧ readReport s = some r ∧
      Printed now all r screen := by
  have hw := (Json.C160_written (reportOf started version current failed completed)).2 (by
    intro u hu
    apply h u
    unfold times reportOf at hu
    rcases List.mem_cons.1 hu with rfl | hu
    · exact List.mem_cons_self ..
    · refine List.mem_cons_of_mem _ ?_
      dsimp only at hu
      rw [← List.map_append, ← List.map_append, List.flatMap_map] at hu
      exact hu)
  obtain ⟨s, hs⟩ := Option.isSome_iff_exists.1 hw
  generalize hR : reportOf started version current failed completed = R at *
  obtain ⟨v, hv⟩ := Json.becomes_exists R.version
  obtain ⟨f, hf⟩ := Json.jobs_exists R.failed
  obtain ⟨c, hc⟩ := Json.jobs_exists R.current
  obtain ⟨d, hd⟩ := Json.jobs_exists R.completed
  have hb : ReportBecomes R ⟨R.started, v, f, c, d⟩ := .mk R.started hv hf hc hd
  have up : ∀ l : List Json.Job, ∃ m : List Json.Job, m.Perm l ∧ m.Pairwise (fun a b => a.timing.queued ≤ b.timing.queued) := fun l =>
    ⟨l.mergeSort (fun a b => decide (a.timing.queued ≤ b.timing.queued)), List.mergeSort_perm .., by
      have := List.pairwise_mergeSort (le := fun a b : Json.Job => decide (a.timing.queued ≤ b.timing.queued))
        (fun a b c h1 h2 => by simp at *; omega) (fun a b => by simp; omega) l
      exact this.imp (by simp)⟩
  have down : ∀ l : List Json.Job, ∃ m : List Json.Job, m.Perm l ∧ m.Pairwise (fun a b => b.timing.queued ≤ a.timing.queued) := fun l =>
    ⟨l.mergeSort (fun a b => decide (b.timing.queued ≤ a.timing.queued)), List.mergeSort_perm .., by
      have := List.pairwise_mergeSort (le := fun a b : Json.Job => decide (b.timing.queued ≤ a.timing.queued))
        (fun a b c h1 h2 => by simp at *; omega) (fun a b => by simp; omega) l
      exact this.imp (by simp)⟩
  obtain ⟨f', f1, f2⟩ := down f
  obtain ⟨c', c1, c2⟩ := up c
  obtain ⟨d', d1, d2⟩ := down d
  exact ⟨s, _, _, hs, (Json.C160_arrives R _ hs).2 hb, f', c', d', f1, f2, c1, c2, d1, d2, rfl⟩

end

/-- The hypotheses are met: a job that finishes while the report is taken (`Demo.reports`). -/
example : ∃ s r screen, (reportOf 1 [49] [⟨Demo.j0.describe, ⟨5, 8, 0⟩, false, []⟩] [] [Demo.rec0]).write = some s ∧ readReport s = some r ∧
    Printed 20 true r screen ∧ (∀ x ∈ ([] : List Record) ++ [Demo.rec0], Near x) ∧
    ∀ line ∈ [(⟨Demo.j0.describe, ⟨5, 8, 0⟩, false, []⟩ : Record)], IsInt64 ((20 : Int) - line.timing.queued) := by
  obtain ⟨s, r, screen, h1, h2, h3⟩ := C162_always (started := 1) (version := [49]) (current := [⟨Demo.j0.describe, ⟨5, 8, 0⟩, false, []⟩])
    (failed := []) (completed := [Demo.rec0]) (by
      intro u hu
      refine (Json.year_inRange u).1 ?_
      have : u < 100 := by
        revert u
        decide +kernel
      have : u / 1000000000 / 86400 = 0 := by omega
      rw [this]; decide) 20 true
  refine ⟨s, r, screen, h1, h2, h3, ?_, ?_⟩
  · intro x hx
    cases List.mem_singleton.1 hx
    unfold Near IsInt64
    decide +kernel
  · intro x hx
    cases List.mem_singleton.1 hx
    simp [IsInt64]

end Ferryd.Listing
