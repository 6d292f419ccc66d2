import Verif.PropsDaemon2
import Verif.PropsLive
/-!
# PropsDaemon3: every request is eventually carried out on the repositories (C132)

Infinite runs of the whole daemon, from any state that clients, workers, crashes and I/O errors can lead to, in which it stays up: the liveness of
the job queue (C125) carried over to the product of job queue and repositories.
-/
namespace Ferryd.Daemon
open Ferryd.Jobs Ferryd.Db Ferryd.Spec Ferryd.Daemon.Spec

/-- What happens at one moment of the daemon while it stays up; the list tells which requests were cut short by an I/O error: the steps of `Step`
other than kills and starts.  worker.go:109-160, handlers.go. -/
inductive Moves (U : Str → Content → Prop) (E : Env) (T : TramEnv) (C : Codec) : Act → List Request → Sys → Sys → Prop
  | nothing {d : Sys} : Moves U E T C .nothing [] d d
  | submit {d : Sys} (r now) : d.jobs.up = true → Moves U E T C (.submit r now) [] d { d with jobs := d.jobs.submit C r now }
  | poll {d : Sys} {i : Nat} {q : Queue} (now) : d.jobs.up = true → now ≠ 0 → d.jobs.Idle i q →
      Moves U E T C (.poll i q now) [] d { d with jobs := d.jobs.claim C i q now }
  | finish {d : Sys} {i : Nat} {q : Queue} {id : Str} {j : JobEntry} {K l f s} (now) : d.jobs.up = true → d.jobs.Runs i q id j →
      Ended E T j d.core K l f s →
      Moves U E T C (.finish i q id j now f) K d { jobs := (pushAll C d.jobs l now).finish C i q id j now f, core := s }
  | reset {d : Sys} (b) : d.jobs.up = true → Moves U E T C (.reset b) [] d { d with jobs := d.jobs.reset b }
  | outside {d : Sys} (o : Op) : Outside U o → Moves U E T C .nothing [] d { d with core := o.exec E d.core }

/-- An infinite run of the daemon.  (No code: Go's scheduler, the clients and the hardware choose; job numbers stay below 2^62.) -/
structure Run (U : Str → Content → Prop) (E : Env) (T : TramEnv) (C : Codec) (f : Nat → Sys) (a : Nat → Act) (K : Nat → List Request) : Prop where
  start : ∃ K0, Reach U E T C K0 (f 0)
  up : (f 0).jobs.up = true
  moves : ∀ n, Moves U E T C (a n) (K n) (f n) (f (n + 1))
  few : ∀ n, (f n).jobs.reqs.length < 2 ^ 62

section
variable {U : Str → Content → Prop} {E : Env} {T : TramEnv} {C : Codec} {f : Nat → Sys} {a : Nat → Act} {K : Nat → List Request}

theorem Moves.step {x : Act} {K : List Request} {d d' : Sys} (h : Moves U E T C x K d d') : (K = [] ∧ d' = d) ∨ Step U E T C K d d' := by
  cases h with
  | nothing => exact .inl ⟨rfl, rfl⟩
  | submit r now hup => exact .inr (.submit r now hup)
  | poll now hup hn hi => exact .inr (.claim now hup hn hi)
  | finish now hup hr he => exact .inr (.finish now hup hr he)
  | reset b hup => exact .inr (.reset b hup)
  | outside o ho => exact .inr (.outside o ho)

theorem Moves.acts {x : Act} {K : List Request} {d d' : Sys} (h : Moves U E T C x K d d') : Acts C calm x d.jobs d'.jobs := by
  cases h with
  | nothing => exact .nothing
  | submit r now hup => exact .submit r now hup
  | poll now hup hn hi => exact .poll now hup hn hi
  | @finish _ i q id j K l f s now hup hr he => exact .finish l now f hup hr (fun h => h)
  | reset b hup => exact .reset b hup
  | outside o ho => exact .nothing

/-- The job queue of an infinite run of the daemon. -/
theorem Run.jobs (h : Run U E T C f a K) : Jobs.Run C calm (fun n => (f n).jobs) a where
  start := h.start.elim fun _ h => h.jobs
  up := h.up
  acts n := (h.moves n).acts
  few := h.few

theorem Run.reach (h : Run U E T C f a K) (n : Nat) : ∃ K0, Reach U E T C K0 (f n) := by
  induction n with
  | zero => exact h.start
  | succ n ih =>
    obtain ⟨K0, h0⟩ := ih
    rcases (h.moves n).step with ⟨_, e⟩ | hs
    · exact ⟨K0, by rw [e]; exact h0⟩
    · exact ⟨K0 ++ K n, .tail h0.1 hs, h.few _⟩

/-- The moment at which something comes to be. -/
theorem turn {p : Nat → Prop} {n m : Nat} (hn : ¬ p n) (hm : p m) (hnm : n ≤ m) : ∃ k, n ≤ k ∧ ¬ p k ∧ p (k + 1) := by
  induction hnm with
  | refl => exact absurd hm hn
  | @step m hnm ih =>
    by_cases hp : p m
    · exact ih hp
    · exact ⟨m, hnm, hp, hm⟩

/-- C132: Every request that was submitted and is not finished yet (as number `t`; some worker serves its queue) is finished at exactly one later
moment `m`.  At this moment it is carried out on the repositories as they are then, its outcome is recorded, and the jobs it asks for have been
submitted; or (the second case) an I/O error ends it early and it is recorded as failed. -/
theorem C132_carried_out (h : Run U E T C f a K) (hf : Fair (fun n => (f n).jobs) a) {n t i : Nat} {r : Request} (hr : (f n).jobs.reqs[t]? = some r)
    (hv : Serves (f n).jobs i (queueOf r)) (ht : t ∉ (f n).jobs.done) :
    ∃ m, n ≤ m ∧ (∀ k, n ≤ k → (t ∈ (f k).jobs.done ↔ m < k)) ∧
      let o := perform E T r (f m).core
      ∃ x, Recorded C (f m).jobs (f (m + 1)).jobs x ∧ (r.Valid → x.description = r.describe) ∧
      ((K m = [] ∧ (f (m + 1)).core = o.st ∧ (x.failed = true ↔ ∀ l, o.res ≠ .ok l) ∧
          (∀ l, o.res = .ok l → (f (m + 1)).jobs.reqs = (f m).jobs.reqs ++ l)) ∨
       (K m = [r] ∧ (∃ u c, u ∈ o.tr ∧ Torn (assetTarget r) u c ∧ (f (m + 1)).core = { c with pend := [] }) ∧ x.failed = true)) := by
  have hj := h.jobs
  obtain ⟨m', hm', hd⟩ := C125_every_job_is_executed hj hf (n := n) (t := t) ⟨r, hr, rfl⟩ hv
  obtain ⟨m, hnm, h1, h2⟩ := turn (p := fun k => t ∈ (f k).jobs.done) ht hd hm'
  refine ⟨m, hnm, fun k hk => ⟨fun hd => ?_, fun hmk => hj.done (n := m + 1) hmk h2⟩, ?_⟩
  · rcases Nat.lt_or_ge m k with hlt | hle
    · exact hlt
    · exact absurd (hj.done hle hd) h1
  · obtain ⟨K0, h0⟩ := h.reach m
    have hrm : (f m).jobs.reqs[t]? = some r := by
      obtain ⟨r', hr', _⟩ := hj.inQueue hnm (q := queueOf r) ⟨r, hr, rfl⟩
      have key : ∀ k, n ≤ k → (f k).jobs.reqs[t]? = some r := by
        intro k hk
        induction hk with
        | refl => exact hr
        | step _ ih => exact (hj.acts _).reqs ih
      exact key m hnm
    have hs : Step U E T C (K m) (f m) (f (m + 1)) := by
      rcases (h.moves m).step with ⟨_, e⟩ | hs
      · rw [e] at h2; exact absurd h2 h1
      · exact hs
    obtain ⟨_, x, hx, hdesc, hc⟩ := C118_outcome h0 hs (h.few _) (hj.reach (m + 1)).2 hrm h1 h2
    refine ⟨x, hx, hdesc, ?_⟩
    rcases hc with ⟨g1, g2, g3, g4, _⟩ | ⟨g1, g2, g3, _⟩
    · exact .inl ⟨g1, g2, g3, g4⟩
    · exact .inr ⟨g1, g2, g3⟩

/-- C132: requests for the repositories always have a worker, and when one is carried out all those submitted before it have been. -/
theorem C132_in_order (h : Run U E T C f a K) (hf : Fair (fun n => (f n).jobs) a) {n t : Nat} {r : Request} (hr : (f n).jobs.reqs[t]? = some r)
    (hq : queueOf r = .seq) (ht : t ∉ (f n).jobs.done) :
    ∃ m, n ≤ m ∧ (∀ k, n ≤ k → (t ∈ (f k).jobs.done ↔ m < k)) ∧
      (∀ t' r', t' < t → (f m).jobs.reqs[t']? = some r' → queueOf r' = .seq → t' ∈ (f m).jobs.done) ∧
      ((K m = [] ∧ (f (m + 1)).core = (perform E T r (f m).core).st) ∨
       (K m = [r] ∧ ∃ u c, u ∈ (perform E T r (f m).core).tr ∧ Torn (assetTarget r) u c ∧ (f (m + 1)).core = { c with pend := [] })) := by
  obtain ⟨hrn, hup⟩ := h.jobs.reach n
  obtain ⟨A, hA⟩ := hrn.inv
  obtain ⟨m, hm, hd, x, _, _, hx⟩ := C132_carried_out h hf hr (i := 0) (by rw [hq]; exact hA.seqWorker' hup) ht
  refine ⟨m, hm, hd, fun t' r' hlt hr' hq' => ?_, ?_⟩
  · have hreach := (h.jobs.reach m).1
    have hreach' := (h.jobs.reach (m + 1)).1
    have h1 : t' ∈ (f (m + 1)).jobs.done := by
      obtain ⟨r1, hr1, hq1⟩ := h.jobs.inQueue (m := m + 1) (q := .seq) (by omega : n ≤ m + 1) ⟨r, hr, hq⟩
      exact C36_sequential_order hreach' ⟨r1, hr1, hq1⟩ ⟨r', (h.jobs.acts m).reqs hr', hq'⟩ hlt (.inl ((hd (m + 1) (by omega)).2 (by omega)))
    refine Classical.byContradiction fun hn => ?_
    obtain ⟨K0, h0⟩ := h.reach m
    have hs : Step U E T C (K m) (f m) (f (m + 1)) := by
      rcases (h.moves m).step with ⟨_, e⟩ | hs
      · rw [e] at h1; exact absurd h1 hn
      · exact hs
    obtain ⟨g1, _⟩ := C118_outcome h0 hs (h.few _) (h.jobs.reach (m + 1)).2 hr' hn h1
    have h2 : t ∈ (f (m + 1)).jobs.done := (hd (m + 1) (by omega)).2 (by omega)
    rw [g1] at h2
    rcases List.mem_cons.1 h2 with e | e
    · omega
    · have := (hd m hm).1 e
      omega
  · rcases hx with ⟨g1, g2, _⟩ | ⟨g1, g2, _⟩
    · exact .inl ⟨g1, g2⟩
    · exact .inr ⟨g1, g2⟩

/-- C132: and nothing but a scheduler that never runs its worker, or a function of the library or the kernel that never returns, stands in the way:
with well-formed packages a running job never panics, so its worker can always finish it. -/
theorem C132_never_stuck {W : World} {K : List Request} {d : Sys} (ok : W.OK) (hz : W.NoTorn) (hd : ∀ d, W.isDelta d = false)
    (h : Reach (worldUploads W) W.E T C K d) (hup : d.jobs.up = true) {i : Nat} {q : Queue} {id : Str} {j : JobEntry} (hr : d.jobs.Runs i q id j) (now : Nat) :
    ∃ f d', Moves (worldUploads W) W.E T C (.finish i q id j now f) [] d d' ∧ d'.core = (runJob W.E T j.type j.params d.core).st :=
  ⟨_, _, .finish now hup hr (.whole [] ((C119_survives ok hz hd h).1 i q id j hr)), rfl⟩

end

/-! ## Not vacuous: the daemon has the trim job left to do, carries it out, and its workers poll in turn for ever -/

namespace Demo

/-- The trim job is taken. (No code: demonstration.) -/
def z1 : Sys := { x10 with jobs := x10.jobs.claim demoCodec 0 .seq 11 }
/-- The entry of the running trim job. (No code: demonstration.) -/
def c2 : JobEntry := ⟨q2.type, true, q2.params, ⟨6, 11, 0⟩⟩
/-- Its execution. (No code: demonstration.) -/
def o2 := runJob W.E tram c2.type c2.params z1.core
/-- The trim job is finished. (No code: demonstration.) -/
def z2 : Sys :=
  { jobs := (pushAll demoCodec z1.jobs (Out.pushed o2) 12).finish demoCodec 0 .seq (be8 2) c2 12 (Out.failure o2 []), core := o2.st }
theorem up10 : x10.jobs.up = true := by decide +kernel
theorem idle10 : x10.jobs.Idle 0 .seq := by unfold Jobs.Sys.Idle; decide +kernel
theorem runsZ : z1.jobs.Runs 0 .seq (be8 2) c2 := by unfold Jobs.Sys.Runs; decide +kernel
theorem upZ : z1.jobs.up = true := by decide +kernel
theorem upZ2 : z2.jobs.up = true := by decide +kernel
theorem moveZ : Moves (worldUploads W) W.E tram demoCodec (.finish 0 .seq (be8 2) c2 12 (Out.failure o2 [])) [] z1 z2 :=
  .finish (d := z1) 12 upZ runsZ (.whole [] (ne_panic (by decide +kernel)))

/-- A delta-repository job. (No code: demonstration.) -/
def q4 : Request := .deltaRepo ['a']
/-- It is submitted. (No code: demonstration.) -/
def v1 : Sys := { z2 with jobs := z2.jobs.submit demoCodec q4 13 }
/-- Its record when it has been taken. (No code: demonstration.) -/
def c4 : JobEntry := ⟨q4.type, true, q4.params, ⟨13, 14, 0⟩⟩
/-- It is taken. (No code: demonstration.) -/
def v2 : Sys := { v1 with jobs := v1.jobs.claim demoCodec 0 .seq 14 }
/-- Its execution. (No code: demonstration.) -/
def o4 := runJob W.E tram c4.type c4.params v2.core
/-- It is finished. (No code: demonstration.) -/
def v3 : Sys :=
  { jobs := (pushAll demoCodec v2.jobs (Out.pushed o4) 15).finish demoCodec 0 .seq (be8 0) c4 15 (Out.failure o4 []), core := o4.st }
theorem idleV : v1.jobs.Idle 0 .seq := by unfold Jobs.Sys.Idle; decide +kernel
theorem runsV : v2.jobs.Runs 0 .seq (be8 0) c4 := by unfold Jobs.Sys.Runs; decide +kernel
/-- C117_submitted: the repository lists one name; the delta job for it is submitted. -/
example : Step (worldUploads W) W.E tram demoCodec [] v2 v3 ∧ v3.jobs.up = true ∧ v2.jobs.reqs[3]? = some (.deltaRepo ['a']) ∧ 3 ∉ v2.jobs.done ∧
    3 ∈ v3.jobs.done ∧ Repo v2.core ['a'] ∧ v3.jobs.reqs = v2.jobs.reqs ++ [Request.delta ['a'] ['a']] :=
  ⟨.finish (d := v2) 15 upZ2 runsV (.whole [] (ne_panic (by decide +kernel))), by decide +kernel, by decide +kernel, by decide +kernel, by decide +kernel,
   by unfold Repo; decide +kernel, by decide +kernel⟩
example : Reach (worldUploads W) W.E tram demoCodec [] v2 :=
  ⟨.tail (K := []) (K' := []) (.tail (K := []) (K' := []) (.tail (K := []) (K' := []) (.tail (K := []) (K' := []) r10.1 (.claim 11 up10 (by decide) idle10))
    (.finish (d := z1) 12 upZ runsZ (.whole [] (ne_panic (by decide +kernel))))) (.submit q4 13 upZ2)) (.claim 14 upZ2 (by decide) idleV), by decide +kernel⟩

/-- The run. (No code: demonstration.) -/
def dRun : Nat → Sys
  | 0 => x10
  | 1 => z1
  | _ + 2 => z2
/-- Which queue the worker polling at moment `n` serves. (No code: demonstration.) -/
def turnQueue (n : Nat) : Queue := if n % 2 = 0 then .seq else .async
/-- Its actions. (No code: demonstration.) -/
def dActs : Nat → Act
  | 0 => .poll 0 .seq 11
  | 1 => .finish 0 .seq (be8 2) c2 12 (Out.failure o2 [])
  | n + 2 => .poll (n % 2) (turnQueue n) 13

theorem workersZ : z2.jobs.workers = [⟨.seq, none⟩, ⟨.async, none⟩] := by decide +kernel
theorem rZ2 : Reach (worldUploads W) W.E tram demoCodec [] z2 :=
  ⟨.tail (K := []) (K' := []) (.tail (K := []) (K' := []) r10.1 (.claim 11 up10 (by decide) idle10))
    (.finish (d := z1) 12 upZ runsZ (.whole [] (ne_panic (by decide +kernel)))), by decide +kernel⟩

theorem idleZ (n : Nat) : z2.jobs.Idle (n % 2) (turnQueue n) := by
  unfold Jobs.Sys.Idle turnQueue
  rw [workersZ]
  rcases (show n % 2 = 0 ∨ n % 2 = 1 by omega) with e | e <;> rw [e] <;> rfl

theorem quietZ (n : Nat) : z2.jobs.claim demoCodec (n % 2) (turnQueue n) 13 = z2.jobs := by
  refine (C36_claims_earliest rZ2.jobs upZ2 (idleZ n) 13).2 fun t ht => ?_
  obtain ⟨r, hr, -⟩ := ht.1
  have h3 : z2.jobs.done = [2, 1, 0] := by decide +kernel
  have h4 : z2.jobs.reqs.length = 3 := by decide +kernel
  have hlt := (List.getElem?_eq_some_iff.1 hr).1
  refine ht.2.1 ?_
  rw [h3]
  rcases (show t = 0 ∨ t = 1 ∨ t = 2 by omega) with rfl | rfl | rfl <;> decide

theorem isRunD : Run (worldUploads W) W.E tram demoCodec dRun dActs (fun _ => []) where
  start := ⟨[], r10⟩
  up := up10
  moves := by
    intro n
    match n with
    | 0 => exact .poll 11 up10 (by decide) idle10
    | 1 => exact moveZ
    | n + 2 =>
      have := Moves.poll (U := worldUploads W) (E := W.E) (T := tram) (C := demoCodec) 13 upZ2 (by decide) (idleZ n)
      rw [quietZ] at this
      exact this
  few := by
    intro n
    match n with
    | 0 => exact r10.2
    | 1 => exact (show z1.jobs.reqs.length < 2 ^ 62 by decide +kernel)
    | n + 2 => exact rZ2.2

theorem lenD : ∀ n, (dRun n).jobs.workers.length = 2
  | 0 => by decide +kernel
  | 1 => by decide +kernel
  | n + 2 => by show z2.jobs.workers.length = 2; decide +kernel

theorem isFairD : Fair (fun n => (dRun n).jobs) dActs where
  polls := by
    intro n i q hi
    have hlt : i < 2 := by rw [← lenD n]; exact (List.getElem?_eq_some_iff.1 hi).1
    refine ⟨2 * n + i + 2, by omega, turnQueue (2 * n + i), 13, ?_⟩
    show Act.poll ((2 * n + i) % 2) _ _ = _
    rw [show (2 * n + i) % 2 = i by omega]
  returns := by
    intro n i q id j hr
    match n, hr with
    | 0, hr =>
      exfalso
      unfold Jobs.Sys.Runs at hr
      rw [show (dRun 0).jobs.workers = [⟨.seq, none⟩, ⟨.async, none⟩] by decide +kernel] at hr
      match i with
      | 0 => cases hr
      | 1 => cases hr
      | i + 2 => cases hr
    | 1, hr =>
      unfold Jobs.Sys.Runs at hr
      rw [show (dRun 1).jobs.workers = [⟨.seq, some (be8 2, c2)⟩, ⟨.async, none⟩] by decide +kernel] at hr
      match i with
      | 0 => exact ⟨1, Nat.le_refl _, _, _, _, _, _, rfl⟩
      | 1 => cases hr
      | i + 2 => cases hr
    | n + 2, hr =>
      exfalso
      unfold Jobs.Sys.Runs at hr
      rw [show (dRun (n + 2)).jobs.workers = z2.jobs.workers from rfl, workersZ] at hr
      match i with
      | 0 => cases hr
      | 1 => cases hr
      | i + 2 => cases hr

/-- C132_never_stuck: the trim job runs in the second state. -/
example : Reach (worldUploads W) W.E tram demoCodec [] z1 ∧ z1.jobs.Runs 0 .seq (be8 2) c2 ∧ W.OK ∧ W.NoTorn :=
  ⟨⟨.tail (K := []) (K' := []) r10.1 (.claim 11 up10 (by decide) idle10), by decide +kernel⟩, runsZ, ok, noTorn⟩
/-- C132: the trim job waits in the first state of the run. -/
example : (dRun 0).jobs.reqs[2]? = some q2 ∧ queueOf q2 = .seq ∧ 2 ∉ (dRun 0).jobs.done ∧ Serves (dRun 0).jobs 0 .seq :=
  ⟨by decide +kernel, rfl, by decide +kernel, none, by decide +kernel⟩
example : ∃ m, 0 ≤ m ∧ 2 ∈ (dRun (m + 1)).jobs.done := by
  obtain ⟨m, hm, hd, _⟩ := C132_in_order isRunD isFairD (n := 0) (t := 2) (r := q2) (by decide +kernel) rfl (by decide +kernel)
  exact ⟨m, hm, (hd (m + 1) (by omega)).2 (by omega)⟩
end Demo
end Ferryd.Daemon
