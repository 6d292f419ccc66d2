import Verif.PropsRefused
/-!
# PropsTold: what ferryctl tells of a command (C165)

The executions in which the daemon stays up and nobody clears a history, with the records made on the way; then C159, C163 and C164 for one command.
-/
namespace Ferryd.Daemon
open Ferryd.Jobs Ferryd.Db Ferryd.Spec Ferryd.Daemon.Spec Ferryd.Client Ferryd.Client.Spec

/-- Executions in which the daemon stays up and nobody clears a history; `L` are the numbers of the jobs that finished on the way, with what was recorded
of them, in order.  (No code: the steps of `Daemon.Step` without deaths and resets.) -/
inductive Watch (U : Str → Content → Prop) (E : Env) (T : TramEnv) (C : Codec) : List (Nat × Record) → Sys → Sys → Prop
  | refl {d : Sys} : Watch U E T C [] d d
  | submit {L : List (Nat × Record)} {d e : Sys} (r : Request) (now : Nat) : Watch U E T C L d e → e.jobs.up = true →
      Watch U E T C L d { e with jobs := e.jobs.submit C r now }
  | claim {L : List (Nat × Record)} {d e : Sys} {i : Nat} {q : Queue} (now : Nat) : Watch U E T C L d e → e.jobs.up = true → now ≠ 0 →
      e.jobs.Idle i q → Watch U E T C L d { e with jobs := e.jobs.claim C i q now }
  | finish {L : List (Nat × Record)} {d e : Sys} {i : Nat} {q : Queue} {id : Str} {j : JobEntry} {K l : List Request} {f : Option Str} {s : St}
      (now : Nat) : Watch U E T C L d e → e.jobs.up = true → e.jobs.Runs i q id j → Ended E T j e.core K l f s →
      Watch U E T C (L ++ [(e.jobs.ticket q id, (finishedOf id j now f).record)]) d
        { jobs := (pushAll C e.jobs l now).finish C i q id j now f, core := s }
  | outside {L : List (Nat × Record)} {d e : Sys} (o : Op) : Watch U E T C L d e → Outside U o → Watch U E T C L d { e with core := o.exec E e.core }

namespace Spec
/-- Job `t`, which asked for `r`, was finished between `d` and `d'`, in the step from `a` to `b`, having done what it asked for.
(No code: a notion of the statements.) -/
def DoneOnTheWay (W : World) (T : TramEnv) (C : Codec) (d d' : Sys) (t : Nat) (r : Request) : Prop :=
  ∃ a b K1 K2 K3, Steps (worldUploads W) W.E T C K1 d a ∧ Step (worldUploads W) W.E T C K2 a b ∧ Steps (worldUploads W) W.E T C K3 b d' ∧
    t ∉ a.jobs.done ∧ t ∈ b.jobs.done ∧ Done W T a.core b.core r
/-- Job `t`, which asked for `r`, was finished between `d` and `d'`, in the step from `a` to `b`, although what it asked for could not be carried out on the
repositories of `a`, or was cut short by an I/O error. (No code: a notion of the statements.) -/
def FailedOnTheWay (W : World) (T : TramEnv) (C : Codec) (d d' : Sys) (t : Nat) (r : Request) : Prop :=
  ∃ a b K1 K2 K3, Steps (worldUploads W) W.E T C K1 d a ∧ Step (worldUploads W) W.E T C K2 a b ∧ Steps (worldUploads W) W.E T C K3 b d' ∧
    t ∉ a.jobs.done ∧ t ∈ b.jobs.done ∧ (K2 = [] ∧ (∀ l, (perform W.E T r a.core).res ≠ .ok l) ∨ K2 = [r])
end Spec

section
variable {W : World} {T : TramEnv} {C : Codec} {K K' : List Request} {d d' : Sys} {U : Str → Content → Prop} {E : Env} {L : List (Nat × Record)}

theorem Watch.steps (h : Watch U E T C L d d') : ∃ K, Steps U E T C K d d' := by
  induction h with
  | refl => exact ⟨_, .refl⟩
  | submit r now _ hup ih => exact ⟨_, ih.choose_spec.tail (.submit r now hup)⟩
  | claim now _ hup hn hi ih => exact ⟨_, ih.choose_spec.tail (.claim now hup hn hi)⟩
  | finish now _ hup hr he ih => exact ⟨_, ih.choose_spec.tail (.finish now hup hr he)⟩
  | outside o _ ho ih => exact ⟨_, ih.choose_spec.tail (.outside o ho)⟩

theorem live_pushAll {s s' : Jobs.Sys} (h : Live C calm L s s') (hup : s'.up = true) (l : List Request) (now : Nat) :
    Live C calm L s (pushAll C s' l now) := by
  induction l generalizing s' with
  | nil => exact h
  | cons r l ih => exact ih (s' := s'.submit C r now) (.submit r now h hup) hup

theorem Watch.live (h : Watch U E T C L d d') (hd : Jobs.Steps C calm Jobs.Sys.init d.jobs) (hN : d'.jobs.reqs.length < 2 ^ 62) :
    Live C calm L d.jobs d'.jobs := by
  induction h with
  | refl => exact .refl
  | submit r now h hup ih =>
    simp only [Jobs.Sys.submit, List.length_append, List.length_singleton] at hN
    exact .submit r now (ih hd (by omega)) hup
  | claim now h hup hn hi ih => exact .claim now (ih hd hN) hup hn hi
  | @finish L d e i q id j K l f s now h hup hr he ih =>
    obtain ⟨hw, hu, hdn, -, hq⟩ := pushAll_eq (C := C) e.jobs l now
    have hN1 : (pushAll C e.jobs l now).reqs.length < 2 ^ 62 := hN
    rw [hq] at hN1
    have hNe : e.jobs.reqs.length < 2 ^ 62 := by rw [List.length_append] at hN1; omega
    have hl := ih hd hNe
    have hre : Jobs.Reach C calm e.jobs := ⟨hd.trans hl.steps, hNe⟩
    obtain ⟨A, hi⟩ := hre.inv
    obtain ⟨A1, -, -, g3⟩ := pushAll_keeps hi hup l now hN1
    have hruns : (pushAll C e.jobs l now).Runs i q id j := by unfold Jobs.Sys.Runs; rw [hw]; exact hr
    have := Live.finish now f (live_pushAll hl hup l now) (hu.trans hup) hruns (poison := calm) (fun x => x)
    rw [g3 i q id j hr] at this
    exact this
  | outside o h ho ih => exact ih hd hN

/-- A success recorded on the way is that of a job that had done what was asked for. -/
theorem Watch.carried (ok : W.OK) (hz : W.NoTorn) (hd : ∀ d, W.isDelta d = false) (h : Reach (worldUploads W) W.E T C K d)
    (hw : Watch (worldUploads W) W.E T C L d d') (hN : d'.jobs.reqs.length < 2 ^ 62) {t : Nat} {r : Request} (hr : d.jobs.reqs[t]? = some r)
    {x : Record} (hx : (t, x) ∈ L) (hf : x.failed = false) : DoneOnTheWay W T C d d' t r := by
  induction hw with
  | refl => cases hx
  | submit r' now h' hup ih =>
    simp only [Jobs.Sys.submit, List.length_append, List.length_singleton] at hN
    obtain ⟨a, b, K1, K2, K3, g1, g2, g3, g4⟩ := ih h (by omega) hr hx
    exact ⟨a, b, K1, K2, _, g1, g2, g3.tail (.submit r' now hup), g4⟩
  | claim now h' hup hn hi ih =>
    obtain ⟨a, b, K1, K2, K3, g1, g2, g3, g4⟩ := ih h hN hr hx
    exact ⟨a, b, K1, K2, _, g1, g2, g3.tail (.claim now hup hn hi), g4⟩
  | outside o h' ho ih =>
    obtain ⟨a, b, K1, K2, K3, g1, g2, g3, g4⟩ := ih h hN hr hx
    exact ⟨a, b, K1, K2, _, g1, g2, g3.tail (.outside o ho), g4⟩
  | @finish L d e i q id j K1 l f s now h' hup hruns he ih =>
    obtain ⟨hw, hu, hdn, -, hq⟩ := pushAll_eq (C := C) e.jobs l now
    have hN1 : (pushAll C e.jobs l now).reqs.length < 2 ^ 62 := hN
    rw [hq] at hN1
    have hNe : e.jobs.reqs.length < 2 ^ 62 := by rw [List.length_append] at hN1; omega
    have hstep := Step.finish (U := worldUploads W) (C := C) now hup hruns he
    rcases List.mem_append.1 hx with hx | hx
    · obtain ⟨a, b, K1, K2, K3, g1, g2, g3, g4⟩ := ih h hNe hr hx
      exact ⟨a, b, K1, K2, _, g1, g2, g3.tail hstep, g4⟩
    · simp only [List.mem_singleton, Prod.mk.injEq] at hx
      obtain ⟨rfl, rfl⟩ := hx
      obtain ⟨K0, hs⟩ := h'.steps
      have hre : Reach (worldUploads W) W.E T C (K ++ K0) e := ⟨h.1.trans hs, hNe⟩
      obtain ⟨g1, r', g2, g3, g4, g5⟩ := ended_done ok hz hd (l := l) (f := f) (now := now) hre hruns he (by
        have : (finishedOf id j now f).failure.isSome = false := hf
        simpa using this)
      have : r' = r := by
        have := jobs_reqs hs.jobs hr
        rw [g2] at this
        exact Option.some.inj this
      subst this
      obtain ⟨A, hi⟩ := hre.jobs.inv
      obtain ⟨A1, -, -, k3⟩ := pushAll_keeps hi hup l now hN1
      refine ⟨e, _, _, _, _, hs, hstep, .refl, g1, ?_, g5⟩
      rw [← k3 i q id j hruns]
      exact List.mem_cons_self ..

/-- A failure recorded on the way is that of a job that could not be carried out, or was cut short. -/
theorem Watch.failing (h : Reach (worldUploads W) W.E T C K d)
    (hw : Watch (worldUploads W) W.E T C L d d') (hN : d'.jobs.reqs.length < 2 ^ 62) {t : Nat} {r : Request} (hr : d.jobs.reqs[t]? = some r)
    {x : Record} (hx : (t, x) ∈ L) (hf : x.failed = true) : FailedOnTheWay W T C d d' t r := by
  induction hw with
  | refl => cases hx
  | submit r' now h' hup ih =>
    simp only [Jobs.Sys.submit, List.length_append, List.length_singleton] at hN
    obtain ⟨a, b, K1, K2, K3, g1, g2, g3, g4⟩ := ih h (by omega) hr hx
    exact ⟨a, b, K1, K2, _, g1, g2, g3.tail (.submit r' now hup), g4⟩
  | claim now h' hup hn hi ih =>
    obtain ⟨a, b, K1, K2, K3, g1, g2, g3, g4⟩ := ih h hN hr hx
    exact ⟨a, b, K1, K2, _, g1, g2, g3.tail (.claim now hup hn hi), g4⟩
  | outside o h' ho ih =>
    obtain ⟨a, b, K1, K2, K3, g1, g2, g3, g4⟩ := ih h hN hr hx
    exact ⟨a, b, K1, K2, _, g1, g2, g3.tail (.outside o ho), g4⟩
  | @finish L d e i q id j K1 l f s now h' hup hruns he ih =>
    obtain ⟨hw, hu, hdn, -, hq⟩ := pushAll_eq (C := C) e.jobs l now
    have hN1 : (pushAll C e.jobs l now).reqs.length < 2 ^ 62 := hN
    rw [hq] at hN1
    have hNe : e.jobs.reqs.length < 2 ^ 62 := by rw [List.length_append] at hN1; omega
    have hstep := Step.finish (U := worldUploads W) (C := C) now hup hruns he
    rcases List.mem_append.1 hx with hx | hx
    · obtain ⟨a, b, K1, K2, K3, g1, g2, g3, g4⟩ := ih h hNe hr hx
      exact ⟨a, b, K1, K2, _, g1, g2, g3.tail hstep, g4⟩
    · simp only [List.mem_singleton, Prod.mk.injEq] at hx
      obtain ⟨rfl, rfl⟩ := hx
      obtain ⟨K0, hs⟩ := h'.steps
      have hre : Reach (worldUploads W) W.E T C (K ++ K0) e := ⟨h.1.trans hs, hNe⟩
      obtain ⟨g1, r', g2, g3, g4⟩ := ended_failed (l := l) (f := f) (now := now) hre hruns he hf
      have : r' = r := by
        have := jobs_reqs hs.jobs hr
        rw [g2] at this
        exact Option.some.inj this
      subst this
      obtain ⟨A, hi⟩ := hre.jobs.inv
      obtain ⟨A1, -, -, k3⟩ := pushAll_keeps hi hup l now hN1
      refine ⟨e, _, _, _, _, hs, hstep, .refl, g1, ?_, g4⟩
      rw [← k3 i q id j hruns]
      exact List.mem_cons_self ..

open Ferryd.Listing Ferryd.Listing.Spec in
/-- C165: a command reaches the daemon, which from then on stays up; less than a hundred jobs finish and nobody clears the histories.  Then whenever
`ferryctl status -a` is run, it shows that very command: as waiting or running, with the moment of its submission and the exact time since, or with its
outcome; and if that outcome is a success, then what the command asked for had been done to the repositories, by that job and since it was submitted; if it
is a failure, then that job could not carry it out on the repositories as they then were, or an I/O error cut it short. -/
theorem C165_told (ok : W.OK) (hz : W.NoTorn) (hd : ∀ d, W.isDelta d = false) {d0 d1 d2 d3 d4 : Sys} (h : Reach (worldUploads W) W.E T C K d0)
    (hup : d0.jobs.up = true) {c : Client.Call} (hc : Sound c) {r : Request} (hm : meaning c = .push r) (hv : r.Valid) (hu : Utf8Text r.describe)
    {stamp : Nat} {L0 L1 L2 L3 : List (Nat × Record)}
    (h01 : Watch (worldUploads W) W.E T C L0 { d0 with jobs := d0.jobs.submit C r stamp } d1) (h12 : Watch (worldUploads W) W.E T C L1 d1 d2)
    (h23 : Watch (worldUploads W) W.E T C L2 d2 d3) (h34 : Watch (worldUploads W) W.E T C L3 d3 d4) (hN : d4.jobs.reqs.length < 2 ^ 62)
    (hL : (L0 ++ L1 ++ L2 ++ L3).length ≤ 100) {current failed completed : List Record}
    (hrep : Reports C d1.jobs d2.jobs d3.jobs d4.jobs current failed completed)
    {started now : Nat} {version s : Json.Bytes} {rp : Json.Report} {screen : Screen}
    (hw : (reportOf started version current failed completed).write = some s) (hr : Json.readReport s = some rp)
    (hp : Printed now true rp screen) (hnow : Json.Spec.IsInt64 ((now : Int) - stamp)) (hnear : ∀ x ∈ failed ++ completed, Near x) :
    deliverBytes c = some (.push r) ∧
    OnScreen now d1.jobs d2.jobs (L0 ++ L1) d0.jobs.reqs.length r stamp screen ∧
    (∀ x, (d0.jobs.reqs.length, x) ∈ L0 ++ L1 → x.failed = false →
      DoneOnTheWay W T C { d0 with jobs := d0.jobs.submit C r stamp } d2 d0.jobs.reqs.length r) ∧
    ∀ x, (d0.jobs.reqs.length, x) ∈ L0 ++ L1 → x.failed = true →
      FailedOnTheWay W T C { d0 with jobs := d0.jobs.submit C r stamp } d2 d0.jobs.reqs.length r := by
  obtain ⟨k1, s1⟩ := h01.steps
  obtain ⟨k2, s2⟩ := h12.steps
  obtain ⟨k3, s3⟩ := h23.steps
  obtain ⟨k4, s4⟩ := h34.steps
  have hN3 := Nat.lt_of_le_of_lt s4.jobs.reqs_le hN
  have hN2 := Nat.lt_of_le_of_lt s3.jobs.reqs_le hN3
  have hN1 := Nat.lt_of_le_of_lt s2.jobs.reqs_le hN2
  have hNs := Nat.lt_of_le_of_lt s1.jobs.reqs_le hN1
  have st : Steps (worldUploads W) W.E T C (K ++ []) Sys.init { d0 with jobs := d0.jobs.submit C r stamp } := h.1.tail (.submit r stamp hup)
  have j0 := st.jobs
  have l01 := h01.live j0 hN1
  have l12 := h12.live (j0.trans l01.steps) hN2
  have l23 := h23.live ((j0.trans l01.steps).trans l12.steps) hN3
  have l34 := h34.live (((j0.trans l01.steps).trans l12.steps).trans l23.steps) hN
  refine ⟨by rw [C82_wire_partial hc.1 hc.2.1 hc.2.2, hm], C163_kept h.jobs hup hv hu l01 l12 l23 l34 hN hL hrep hw hr hp hnow hnear, ?_⟩
  have hq : ({ d0 with jobs := d0.jobs.submit C r stamp } : Sys).jobs.reqs[d0.jobs.reqs.length]? = some r := by simp [Jobs.Sys.submit]
  constructor
  · intro x hx hf
    rcases List.mem_append.1 hx with hx | hx
    · obtain ⟨a, b, K1, K2, K3, g1, g2, g3, g4⟩ := h01.carried ok hz hd ⟨st, hNs⟩ hN1 hq hx hf
      exact ⟨a, b, K1, K2, _, g1, g2, g3.trans s2, g4⟩
    · obtain ⟨a, b, K1, K2, K3, g1, g2, g3, g4⟩ := h12.carried ok hz hd ⟨st.trans s1, hN1⟩ hN2 (jobs_reqs s1.jobs hq) hx hf
      exact ⟨a, b, _, K2, K3, s1.trans g1, g2, g3, g4⟩
  · intro x hx hf
    rcases List.mem_append.1 hx with hx | hx
    · obtain ⟨a, b, K1, K2, K3, g1, g2, g3, g4⟩ := h01.failing ⟨st, hNs⟩ hN1 hq hx hf
      exact ⟨a, b, K1, K2, _, g1, g2, g3.trans s2, g4⟩
    · obtain ⟨a, b, K1, K2, K3, g1, g2, g3, g4⟩ := h12.failing ⟨st.trans s1, hN1⟩ hN2 (jobs_reqs s1.jobs hq) hx hf
      exact ⟨a, b, _, K2, K3, s1.trans g1, g2, g3, g4⟩
end

namespace Demo
/-- What the daemon recorded of it. (No code: demonstration.) -/
def kx : Record := (finishedOf (be8 0) kc 13 (Out.failure ko [])).record

/-- C165: `ferryctl trim packages a 3` reaches the daemon that has carried out two jobs; while it is up the job is claimed and finished, with success; so it
had been done on the way. -/
example : Reach (worldUploads W) W.E tram demoCodec [] g9 ∧ g9.jobs.up = true ∧ Sound (.trimPackages ['a'] 3) ∧
    meaning (.trimPackages ['a'] 3) = .push q2 ∧ q2.Valid ∧ Utf8Text q2.describe ∧
    Watch (worldUploads W) W.E tram demoCodec [(2, kx)] { g9 with jobs := g9.jobs.submit demoCodec q2 11 } k3 ∧ g9.jobs.reqs.length = 2 ∧
    k3.jobs.reqs.length < 2 ^ 62 ∧ kx.failed = false ∧
    DoneOnTheWay W tram demoCodec { g9 with jobs := g9.jobs.submit demoCodec q2 11 } k3 2 q2 := by
  have hs : Sound (.trimPackages ['a'] 3) :=
    ⟨(by intro r hr; cases hr; decide), (by intro s hs; cases hs), by
      intro i hi; cases List.mem_singleton.1 hi; unfold Json.Spec.IsInt64; decide⟩
  have hw : Watch (worldUploads W) W.E tram demoCodec [(k2.jobs.ticket .seq (be8 0), kx)] { g9 with jobs := g9.jobs.submit demoCodec q2 11 } k3 :=
    .finish (L := []) (e := k2) 13 (.claim 12 .refl upK1 (by decide) idleK) upK2 runsK endK
  have ht : k2.jobs.ticket .seq (be8 0) = 2 := by decide +kernel
  rw [ht] at hw
  have hf : kx.failed = false := by decide +kernel
  have hst := Steps.tail (K := []) (K' := []) r144.1 (Step.submit (U := worldUploads W) (E := W.E) (T := tram) (C := demoCodec) q2 11 upG9)
  exact ⟨r144, upG9, hs, rfl, by decide +kernel,
    ⟨by decide +kernel, Json.becomes_self.1 (Json.becomes_ascii (by decide +kernel))⟩, hw, by decide +kernel, rK3.2, hf,
    hw.carried ok noTorn (fun _ => rfl) ⟨hst, by decide +kernel⟩ rK3.2 (by decide +kernel) (List.mem_cons_self ..) hf⟩

theorem reportsK : ∃ completed, Reports demoCodec k3.jobs k3.jobs k3.jobs k3.jobs [] [] completed ∧ completed.length = 3 ∧ kx ∈ completed ∧
    (∀ x ∈ completed, x.timing.queued < 100 ∧ x.timing.begin_ < 100 ∧ x.timing.end_ < 100) := by
  have h : (match (pastJobs demoCodec false k3.jobs.raw).res with
      | .ok l => decide (l.length = 3 ∧ kx ∈ l ∧ ∀ x ∈ l, x.timing.queued < 100 ∧ x.timing.begin_ < 100 ∧ x.timing.end_ < 100)
      | .error _ => false) = true := by decide +kernel
  cases hl : (pastJobs demoCodec false k3.jobs.raw).res with
  | ok l =>
    rw [hl] at h
    obtain ⟨h1, h2, h3⟩ := of_decide_eq_true h
    exact ⟨l, ⟨⟨[], [], by decide +kernel, by decide +kernel, rfl⟩, by decide +kernel, hl⟩, h1, h2, h3⟩
  | error e => rw [hl] at h; cases h

open Ferryd.Listing Ferryd.Listing.Spec in
/-- And `ferryctl status -a` at 20 shows it. -/
example : ∃ screen, deliverBytes (.trimPackages ['a'] 3) = some (.push q2) ∧ OnScreen 20 k3.jobs k3.jobs [(2, kx)] 2 q2 11 screen := by
  have hs : Sound (.trimPackages ['a'] 3) :=
    ⟨(by intro r hr; cases hr; decide), (by intro s hs; cases hs), by
      intro i hi; cases List.mem_singleton.1 hi; unfold Json.Spec.IsInt64; decide⟩
  have hw : Watch (worldUploads W) W.E tram demoCodec [(k2.jobs.ticket .seq (be8 0), kx)] { g9 with jobs := g9.jobs.submit demoCodec q2 11 } k3 :=
    .finish (L := []) (e := k2) 13 (.claim 12 .refl upK1 (by decide) idleK) upK2 runsK endK
  have ht : k2.jobs.ticket .seq (be8 0) = 2 := by decide +kernel
  have hg : g9.jobs.reqs.length = 2 := by decide +kernel
  rw [ht] at hw
  obtain ⟨completed, hrep, -, -, hlt⟩ := reportsK
  have hin : ∀ u, u < 100 → Json.Spec.InRange u := by
    intro u hu
    refine (Json.year_inRange u).1 ?_
    have : u / 1000000000 / 86400 = 0 := by omega
    rw [this]; decide
  obtain ⟨s, r, screen, h1, h2, h3⟩ := C162_always (started := 1) (version := [49]) (current := []) (failed := []) (completed := completed) (by
      intro u hu
      refine hin u ?_
      rcases List.mem_cons.1 hu with rfl | hu
      · decide
      · obtain ⟨x, hx, hu⟩ := List.mem_flatMap.1 hu
        obtain ⟨a, b, c⟩ := hlt x (by simpa using hx)
        simp only [List.mem_cons, List.not_mem_nil, or_false] at hu
        rcases hu with rfl | rfl | rfl <;> assumption) 20 true
  obtain ⟨g1, g2, -⟩ := C165_told (L2 := []) (L3 := []) ok noTorn (fun _ => rfl) r144 upG9 hs (r := q2) rfl (by decide +kernel)
    ⟨by decide +kernel, Json.becomes_self.1 (Json.becomes_ascii (by decide +kernel))⟩ (stamp := 11) hw .refl .refl .refl rK3.2 (by decide) hrep h1 h2 h3
    (by unfold Json.Spec.IsInt64; decide) (by
      intro x hx
      obtain ⟨a, b, c⟩ := hlt x (by simpa using hx)
      unfold Near Json.Spec.IsInt64
      omega)
  rw [hg] at g2
  exact ⟨screen, g1, g2⟩
/-- What the daemon recorded of the second `ferryctl create-repo a` of C166. (No code: demonstration.) -/
def wx : Record := (finishedOf (be8 0) wc 13 (Out.failure wo ['x'])).record

/-- C165, a failure: it is recorded as failed while the daemon is up, and it had failed on the way. -/
example : Watch (worldUploads W) W.E tram demoCodec [(2, wx)] { g9 with jobs := g9.jobs.submit demoCodec q0 11 } w3 ∧ wx.failed = true ∧
    FailedOnTheWay W tram demoCodec { g9 with jobs := g9.jobs.submit demoCodec q0 11 } w3 2 q0 := by
  have hw : Watch (worldUploads W) W.E tram demoCodec [(w2.jobs.ticket .seq (be8 0), wx)] { g9 with jobs := g9.jobs.submit demoCodec q0 11 } w3 :=
    .finish (L := []) (e := w2) 13 (.claim 12 .refl (by decide +kernel) (by decide) (by unfold Jobs.Sys.Idle; decide +kernel)) (by decide +kernel)
      (by unfold Jobs.Sys.Runs; decide +kernel) (.whole ['x'] (ne_panic (by decide +kernel)))
  have ht : w2.jobs.ticket .seq (be8 0) = 2 := by decide +kernel
  rw [ht] at hw
  have hf : wx.failed = true := by decide +kernel
  have hst := Steps.tail (K := []) (K' := []) r144.1 (Step.submit (U := worldUploads W) (E := W.E) (T := tram) (C := demoCodec) q0 11 upG9)
  exact ⟨hw, hf, hw.failing ⟨hst, by decide +kernel⟩ (by decide +kernel) (by decide +kernel) (List.mem_cons_self ..) hf⟩
end Demo

end Ferryd.Daemon
