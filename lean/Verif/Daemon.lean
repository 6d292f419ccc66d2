import Verif.PropsJobs
import Verif.PropsTransit
import Verif.DeltaJob
/-!
# Daemon: the job queue and the repositories together

The state is that of the job processing (`Verif.JobsSys`) beside that of the repositories (`Verif.CoreModel`).  A worker
that finishes a job has executed it on the repositories, or an I/O error has cut the execution short; the process may die at
any durable point of that execution (also while a file is being copied), or after it and before the job is retired.

Simplification: a job's effect on the repositories and changes made by others to the file system (uploads, asset files)
do not interleave: the latter fall between jobs.  Client requests and other workers' steps may fall anywhere, because they
do not touch the repositories; the jobs a delta-repository job submits are taken to be submitted together, at its end.
-/
namespace Ferryd.Daemon
open Ferryd.Jobs Ferryd.Db

/-- `Execute` of the handlers: bulk_add.go:55-61, copy_source.go:69, clone_repo.go:60, create_repo.go:53-59, delete_repo.go:53-59,
delta_repo.go:58-82, index.go:57, pull_repo.go:54-72, remove_source.go:61, transit_job.go:54, trim_obsoletes.go:53,
trim_packages.go:59.  The value is the list of jobs the execution submits.  (Follow-up delta jobs of the pull and transit
jobs are switched off, index.go:28.)  Delta jobs have no handler and get here never; see `runJob`. -/
def execute (E : Env) (T : TramEnv) : Request → M (List Request)
  | .bulkAdd r ps => do mAddPackages E r ps false; pure []
  | .copySource r t s n k => do mCopySource E r t s n k; pure []
  | .cloneRepo r n all => do mCloneRepo E r n all; pure []
  | .createRepo r => do mCreateRepo E r; pure []
  | .deleteRepo r => do mDeleteRepo r; pure []
  | .delta _ _ => throwE .arity
  | .deltaIndex _ _ => throwE .arity
  | .deltaRepo r => do
    getRepo r
    let names ← getPackageNames r
    pure (names.map (Request.delta r))
  | .indexRepo r => do mIndex E r; pure []
  | .pullRepo s t => do let _ ← mPullRepo E s t; pure []
  | .removeSource r s n => do mRemoveSource E r s n; pure []
  | .transit p => do transitJob E T p; pure []
  | .trimObsolete r => do mTrimObsolete E r; pure []
  | .trimPackages r n => do mTrimPackages E r n; pure []

/-- worker.go:174-204 `processJob`: the handler is found by the stored type and parameters; without one the job fails. -/
def runJob (E : Env) (T : TramEnv) (type : Str) (params : List Str) : M (List Request) :=
  match newJobHandler type params with
  | none => throwE .arity
  | some r => execute E T r

/-- Job processing and repositories. ferryd/server.go:38-55. -/
structure Sys where
  jobs : Jobs.Sys
  core : St
/-- ferryd/server.go:137-203 on an empty installation. -/
def Sys.init : Sys := ⟨Jobs.Sys.init, St.init⟩

/-- What the outside does to the file system; `U f c`: a file `f` with content `c` may get uploaded.
No code of the daemon: uploads and clean-up by whoever runs it. -/
inductive Outside (U : Str → Content → Prop) : Op → Prop
  | upload {f c} : U f c → Outside U (.upload f c)
  | unlink (f) : Outside U (.unlink f)
  | putAsset (r a c) : Outside U (.putAsset r a c)

/-- PushJob for each (delta_repo.go:78-80). -/
def pushAll (C : Codec) (s : Jobs.Sys) (rs : List Request) (now : Nat) : Jobs.Sys :=
  rs.foldl (fun s r => s.submit C r now) s

/-- The jobs submitted by an execution.
The `PushJob` calls made by `Execute`: e.g. ferryd/jobs/bulk_add.go, ferryd/jobs/transit_job.go:88-110. -/
def Out.pushed (o : Out (List Request)) : List Request :=
  match o.res with
  | .ok l => l
  | _ => []

/-- The error recorded for an execution (`msg` stands for its text). ferryd/jobs/worker.go:136-150. -/
def Out.failure (o : Out (List Request)) (msg : Str) : Option Str :=
  match o.res with
  | .ok _ => none
  | _ => some msg

/-- The repository whose asset files a job overwrites: those of a clone or a pull (core/repo.go:842-867 `pullAssets`, called from
core/repo.go:871-924 `CloneFrom` and core/repo.go:948-1016 `PullFrom`). -/
def assetTarget : Request → Option Str
  | .cloneRepo _ n _ => some n
  | .pullRepo _ t => some t
  | _ => none

/-- A moment of core/util.go:32-60 `CopyFile` (and of the copying branch of core/util.go:66-74 `LinkOrCopyFile`): beside the durable points of an
execution, those at which a package file that has been opened for writing, and so emptied, has got a part of what the file of
that name it is copied from holds, or an asset file of repository `a` anything.  (No code: which durable states there are is a
matter of the file system.) -/
inductive Torn (a : Option Str) (t : St) : St → Prop
  | whole : Torn a t t
  | package (p q : Path) (i : Nat) (c c' : Content) (hp : p.isAsset = false) (hq : q.isAsset = false) (hb : q.base = p.base)
      (hi : t.fs.tab p = some i) (he : t.fs.data i = []) (hr : t.fs.read q = some c) (hc : c' <+: c) :
      Torn a t (t.setFs (t.fs.setData i c'))
  | asset (r : Str) (x : Asset) (i : Nat) (c : Content) (hr : a = some r) (hi : t.fs.tab (.asset r x) = some i) :
      Torn a t (t.setFs (t.fs.setData i c))

/-- What a stored job asks for (ferryd/jobs/main.go:137-166 `NewJobHandler`). -/
def wanted (j : JobEntry) : Option Request := newJobHandler j.type j.params

/-- How the execution of a stored job in state `s` may end, without the death of the daemon: the requests that were cut short by an
I/O error, the jobs submitted, the recorded error and the state of the repositories.  After an I/O error the job returns, an open
batch is dropped (libdb/leveldb.go:178-193) and the job is recorded as failed (worker.go:136-150). -/
inductive Ended (E : Env) (T : TramEnv) (j : JobEntry) (s : St) : List Request → List Request → Option Str → St → Prop
  | whole (msg : Str) : (runJob E T j.type j.params s).res ≠ .panic →
      Ended E T j s [] (Out.pushed (runJob E T j.type j.params s)) (Out.failure (runJob E T j.type j.params s) msg)
        (runJob E T j.type j.params s).st
  | fault (msg : Str) {t c : St} : t ∈ (runJob E T j.type j.params s).tr → Torn ((wanted j).bind assetTarget) t c →
      Ended E T j s (wanted j).toList [] (some msg) { c with pend := [] }

/-- The states in which the death of the daemon may leave the repositories during an execution `m` that overwrites asset files of `a`.
(No code: a notion of the model.) -/
def CutAt {α : Type} (a : Option Str) (m : M α) (s c : St) : Prop :=
  c = s ∨ (∃ t ∈ (m s).tr, Torn a t c) ∨ c = (m s).st

variable (U : Str → Content → Prop) (E : Env) (T : TramEnv) (C : Codec)

/-- One step.  The list tells which requests were cut short: by an I/O error, or because the process died while they were being
executed, or before they were retired, so that they will be executed again.
ferryd/jobs/worker.go:95-180, ferryd/jobs/store.go:142-330, ferryd/jobs/processor.go; the crash steps are those of the process, not of the code. -/
inductive Step : List Request → Sys → Sys → Prop
  | submit {d : Sys} (r now) : d.jobs.up = true → Step [] d { d with jobs := d.jobs.submit C r now }
  | claim {d : Sys} {i : Nat} {q : Queue} (now) : d.jobs.up = true → now ≠ 0 → d.jobs.Idle i q →
      Step [] d { d with jobs := d.jobs.claim C i q now }
  | reset {d : Sys} (b) : d.jobs.up = true → Step [] d { d with jobs := d.jobs.reset b }
  /-- worker.go:138-157: the execution of the job has ended, without a panic, and it is retired -/
  | finish {d : Sys} {i : Nat} {q : Queue} {id : Str} {j : JobEntry} {K l f s} (now) : d.jobs.up = true → d.jobs.Runs i q id j →
      Ended E T j d.core K l f s →
      Step K d { jobs := (pushAll C d.jobs l now).finish C i q id j now f, core := s }
  /-- as `finish`, and the process dies while retiring the job (after it has left the queue) -/
  | killRetire {d : Sys} {i : Nat} {q : Queue} {id : Str} {j : JobEntry} {K l f s} (now c) : d.jobs.up = true →
      d.jobs.Runs i q id j → Ended E T j d.core K l f s →
      c ∈ (retire C q (finishedOf id j now f) (pushAll C d.jobs l now).raw).tr →
      Step K d
        { jobs := { (pushAll C d.jobs l now).kill with
            raw := c
            done := (pushAll C d.jobs l now).ticket q id :: d.jobs.done
            log := upd d.jobs.log (finishedOf id j now f).failure.isSome none }
          core := s.crash }
  /-- the process dies at a durable point of the execution, or at its end, or by a panic of the job; the first `n` of the
  jobs it submits are already queued -/
  | killRun {d : Sys} {i : Nat} {q : Queue} {id : Str} {j : JobEntry} (now n c) : d.jobs.up = true → d.jobs.Runs i q id j →
      CutAt ((wanted j).bind assetTarget) (runJob E T j.type j.params) d.core c →
      Step (wanted j).toList d
        { jobs := (pushAll C d.jobs ((Out.pushed (runJob E T j.type j.params d.core)).take n) now).kill, core := c.crash }
  /-- the process dies while no repository job is being executed -/
  | kill {d : Sys} : d.jobs.up = true → (∀ i id j, ¬ d.jobs.Runs i .seq id j) →
      Step [] d { jobs := d.jobs.kill, core := d.core.crash }
  | killReset {d : Sys} (b c) : d.jobs.up = true → (∀ i id j, ¬ d.jobs.Runs i .seq id j) →
      c ∈ (Jobs.reset b d.jobs.raw).tr →
      Step [] d { jobs := { d.jobs.kill with raw := c, log := upd d.jobs.log b none }, core := d.core.crash }
  | killResetRun {d : Sys} {i : Nat} {q : Queue} {id : Str} {j : JobEntry} (now n c b r) : d.jobs.up = true →
      d.jobs.Runs i q id j →
      CutAt ((wanted j).bind assetTarget) (runJob E T j.type j.params) d.core c →
      r ∈ (Jobs.reset b (pushAll C d.jobs ((Out.pushed (runJob E T j.type j.params d.core)).take n) now).raw).tr →
      Step (wanted j).toList d
        { jobs := { (pushAll C d.jobs ((Out.pushed (runJob E T j.type j.params d.core)).take n) now).kill with
            raw := r, log := upd d.jobs.log b none }
          core := c.crash }
  | boot {d : Sys} (n) : d.jobs.up = false → Step [] d { d with jobs := d.jobs.boot C n }
  | killBoot {d : Sys} (c) : d.jobs.up = false → c ∈ (setup C d.jobs.raw).tr →
      Step [] d { d with jobs := { d.jobs with raw := c } }
  | outside {d : Sys} (o : Op) : Outside U o → Step [] d { d with core := o.exec E d.core }

/-- Executions, with the requests that were cut short (perhaps several times), by an I/O error or by the death of the process.
(No code: a notion of the statements and proofs.) -/
inductive Steps : List Request → Sys → Sys → Prop
  | refl {d : Sys} : Steps [] d d
  | tail {d d' d'' : Sys} {K K' : List Request} : Steps K d d' → Step U E T C K' d' d'' → Steps (K ++ K') d d''

/-- States of the daemon reachable from a fresh installation, with fewer than 2^62 jobs submitted.
(No code: a notion of the statements and proofs.) -/
def Reach (K : List Request) (d : Sys) : Prop := Steps U E T C K Sys.init d ∧ d.jobs.reqs.length < 2 ^ 62

end Ferryd.Daemon
