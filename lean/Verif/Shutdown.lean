import Verif.PropsJobs
/-!
# Shutdown: the orderly end of the daemon

On SIGINT or SIGTERM a goroutine runs `Server.Close` (ferryd/server.go:123-133, 230-250) while the worker goroutines
(jobs/worker.go:109-160), the watcher and the HTTP handlers go on.  The state is that of the job processing
(`Verif.JobsSys`), the loop state of every worker goroutine, and how far `Close` has got.

Simplifications.  The watcher's submissions are those of any client.  `closed` and `running` guard against a second call
only and are left out.  Go's `select` takes any ready case.  Timers: a worker that has been told to stop gets no new tick:
`Stop` stops the timer (worker.go:100-105), and when the worker sets it again, for at least two seconds (worker.go:163-170), the
exit channel is ready at once; that a goroutine gets to run within two seconds is assumed here.
-/
namespace Ferryd.Shutdown
open Ferryd.Jobs Ferryd.Db

/-- The loop of a worker goroutine, worker.go:109-160: a tick waits in its timer's channel; `Stop` (worker.go:100-105) has put
the token into its exit channel; it has returned. -/
structure Gor where
  fired : Bool
  told : Bool
  gone : Bool
deriving DecidableEq, Repr

/-- How far `Server.Close` has got (server.go:230-250); `down`: there is no process. -/
inductive Phase
  | down
  /-- no signal yet -/
  | serving
  /-- server.go:233-237: the lock file is unlocked and removed -/
  | unlocked
  /-- server.go:238, monitor.go:67-70 -/
  | unwatched
  /-- processor.go:83-93: the first `k` workers have been told -/
  | stopping (k : Nat)
  /-- processor.go:95: `wg.Wait` -/
  | waiting
  /-- server.go:240, store.go:95-97: the job database is closed, the pointer not yet cleared -/
  | dbClosed
  /-- store.go:98 -/
  | storeClosed
  /-- server.go:241 -/
  | managerClosed
deriving DecidableEq, Repr

/-- The job database is open. store.go:95-100. -/
def Phase.dbOpen : Phase → Bool
  | .serving | .unlocked | .unwatched | .stopping _ | .waiting => true
  | _ => false
/-- server.go:36-58, worker.go:43-54, store.go:62-65. -/
structure Sys where
  jobs : Jobs.Sys
  gor : List Gor
  phase : Phase
  /-- the process holds the lock on the lock file -/
  locked : Bool
  /-- ghost: the requests answered without an error, in order -/
  accepted : List Request
  /-- ghost: the numbers of the jobs that workers began to execute, last first -/
  begun : List Nat
  /-- ghost: the process died other than by `Close` at least once -/
  crashed : Bool
  /-- ghost: a request was answered between the closing of the job database and the end of `JobStore.Close` -/
  late : Bool
/-- (No code: before the first start.) -/
def Sys.init : Sys := ⟨Jobs.Sys.init, [], .down, false, [], [], false, false⟩
/-- processor.go:98-106: a worker just started. -/
def Gor.new : Gor := ⟨false, false, false⟩

/-- The job a worker has just taken, by number. (No code: for the ghost `begun`.) -/
def took (j j' : Jobs.Sys) (i : Nat) : List Nat :=
  match j.workers[i]?, j'.workers[i]? with
  | some ⟨_, none⟩, some ⟨q, some (id, _)⟩ => [j'.ticket q id]
  | _, _ => []

/-- Who makes a step. (No code.) -/
inductive Who | client | worker | closer | world
deriving DecidableEq, Repr

variable (C : Codec) (poison : Str → List Str → Prop)

/-- One step. server.go:123-250, processor.go:82-116, worker.go:100-160, store.go:95-100. -/
inductive Step : Who → Sys → Sys → Prop
  /-- a request, while the store works -/
  | submit {s : Sys} (r now) : s.phase.dbOpen = true →
      Step .client s { s with jobs := s.jobs.submit C r now, accepted := s.accepted ++ [r] }
  /-- a request after the database has been closed: store.go:303-321 returns the error, processor.go:110-116 drops it, and
  the handler answers as always (handlers.go:143-154) -/
  | submitLate {s : Sys} (r : Request) : s.phase = .dbClosed →
      Step .client s { s with accepted := s.accepted ++ [r], late := true }
  | reset {s : Sys} (b) : s.phase.dbOpen = true → Step .client s { s with jobs := s.jobs.reset b }
  /-- a worker's timer runs out -/
  | tick {s : Sys} {i : Nat} {g : Gor} {q : Queue} : s.gor[i]? = some g → g.told = false → g.gone = false → s.jobs.Idle i q →
      Step .worker s { s with gor := s.gor.set i { g with fired := true } }
  /-- worker.go:121-135: the worker takes the tick and polls -/
  | poll {s : Sys} {i : Nat} {g : Gor} {q : Queue} (now) : s.gor[i]? = some g → g.fired = true → g.gone = false →
      s.jobs.Idle i q → now ≠ 0 → s.phase.dbOpen = true →
      Step .worker s
        { s with
          jobs := s.jobs.claim C i q now
          gor := s.gor.set i { g with fired := false }
          begun := took s.jobs (s.jobs.claim C i q now) i ++ s.begun }
  /-- worker.go:138-157 -/
  | finish {s : Sys} {i : Nat} {q : Queue} {id : Str} {j : JobEntry} (now outcome) : s.jobs.Runs i q id j →
      ¬ poison j.type j.params → s.phase.dbOpen = true →
      Step .worker s { s with jobs := s.jobs.finish C i q id j now outcome }
  /-- worker.go:117-119 -/
  | exit {s : Sys} {i : Nat} {g : Gor} {q : Queue} : s.gor[i]? = some g → g.told = true → g.gone = false → s.jobs.Idle i q →
      Step .worker s { s with gor := s.gor.set i { g with gone := true } }
  /-- server.go:123-133, 233-237 -/
  | signal {s : Sys} : s.phase = .serving → Step .world s { s with phase := .unlocked, locked := false }
  /-- server.go:238 -/
  | stopWatching {s : Sys} : s.phase = .unlocked → Step .closer s { s with phase := .unwatched }
  | beginStop {s : Sys} : s.phase = .unwatched → Step .closer s { s with phase := .stopping 0 }
  /-- processor.go:91-93, worker.go:100-105 -/
  | tell {s : Sys} {k : Nat} {g : Gor} : s.phase = .stopping k → s.gor[k]? = some g →
      Step .closer s { s with phase := .stopping (k + 1), gor := s.gor.set k { g with told := true } }
  | allTold {s : Sys} {k : Nat} : s.phase = .stopping k → s.gor.length ≤ k → Step .closer s { s with phase := .waiting }
  /-- processor.go:95, store.go:95-97: all workers have returned -/
  | closeDb {s : Sys} : s.phase = .waiting → (∀ g ∈ s.gor, g.gone = true) → Step .closer s { s with phase := .dbClosed }
  | closeStore {s : Sys} : s.phase = .dbClosed → Step .closer s { s with phase := .storeClosed }
  /-- server.go:241 -/
  | closeManager {s : Sys} : s.phase = .storeClosed → Step .closer s { s with phase := .managerClosed }
  /-- server.go:242-249, 130: the process ends -/
  | end_ {s : Sys} : s.phase = .managerClosed → Step .closer s { s with jobs := s.jobs.kill, gor := [], phase := .down }
  /-- the process dies while the store is open, perhaps in the middle of a call of the store -/
  | crash {s : Sys} {j' : Jobs.Sys} : s.phase.dbOpen = true → Jobs.Step C poison s.jobs j' → j'.up = false →
      Step .world s { s with jobs := j', gor := [], phase := .down, locked := false, crashed := true }
  /-- the process dies later -/
  | crashLate {s : Sys} : s.phase ≠ .down → s.phase.dbOpen = false →
      Step .world s { s with jobs := s.jobs.kill, gor := [], phase := .down, locked := false, crashed := true }
  /-- server.go:137-227, processor.go:98-106: the daemon starts with `n` background workers -/
  | boot {s : Sys} (n) : s.phase = .down → (s.jobs.boot C n).up = true →
      Step .world s { s with
        jobs := s.jobs.boot C n, gor := List.replicate (n + 1) Gor.new, phase := .serving, locked := true }
  /-- a start that fails or is cut short in `NewStore` (store.go:73-109) -/
  | bootFails {s : Sys} {j' : Jobs.Sys} : s.phase = .down → Jobs.Step C poison s.jobs j' → j'.up = false →
      Step .world s { s with jobs := j', crashed := true }

/-- Any number of steps. Go's scheduler chooses. -/
inductive Steps : Sys → Sys → Prop
  | refl {s : Sys} : Steps s s
  | tail {s s' s'' : Sys} {w : Who} : Steps s s' → Step C poison w s' s'' → Steps s s''

/-- The states reachable from a fresh installation, with fewer than 2^62 jobs submitted.
(No code: a notion of the statements and proofs.) -/
def Reach (s : Sys) : Prop := Steps C poison Sys.init s ∧ s.jobs.reqs.length < 2 ^ 62

end Ferryd.Shutdown
