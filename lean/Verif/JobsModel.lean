import Verif.Db
/-!
# JobsModel: the job store, the job handlers' parameters and the workers

Models `src/ferryd/jobs/{store,main,worker,processor}.go` and the constructors in the other files of that
directory, on top of the database layer of `Verif.Db`.

Every exported method of the store holds `modMut` for its whole run (store.go:115, 157, 273, 288, 310, 350,
392, 417), so calls from different goroutines do not interleave; a crash can fall between two durable writes
of one call, which is what the traces of `DM` record.  `pushJobInternal` calls NextSequence once outside the
lock (store.go:308), but overwrites the value under it.
-/
namespace Ferryd.Jobs
open Ferryd.Db

/-! ## Numbers in parameters -/

/-- Decimal digit. Part of `%d`. -/
def digit (n : Nat) : Char := Char.ofNat (48 + n)

/-- `%d` of a non-negative number (`fmt.Sprintf`).
Standard library; used at copy_source.go:43, remove_source.go:41, trim_packages.go:39, bulk_add.go:64. -/
def fmtNat (n : Nat) : Str :=
  if n < 10 then [digit n] else fmtNat (n / 10) ++ [digit (n % 10)]
termination_by n

/-- `%d` of an `int`. Standard library; used at copy_source.go:43, remove_source.go:41, trim_packages.go:39. -/
def fmtInt (i : Int) : Str :=
  if i < 0 then '-' :: fmtNat i.natAbs else fmtNat i.natAbs

/-- Value of a decimal digit. Part of `strconv.ParseInt`. -/
def digitVal (c : Char) : Option Nat :=
  if 48 ≤ c.toNat ∧ c.toNat ≤ 57 then some (c.toNat - 48) else none

/-- The digits of a number, all required to be decimal (`strconv.ParseUint` with base 10).
Part of `strconv.ParseInt`; an overflow of 64 bits is also out of the range of int32. -/
def parseDigits : Str → Nat → Option Nat
  | [], acc => some acc
  | c :: s, acc =>
    match digitVal c with
    | none => none
    | some d => parseDigits s (acc * 10 + d)

/-- The optional sign of `strconv.ParseInt`: the rest and whether there was a minus. Part of `strconv.ParseInt`. -/
def splitSign : Str → Str × Bool
  | [] => ([], false)
  | c :: t => if c = '-' then (t, true) else if c = '+' then (t, false) else (c :: t, false)

/-- `strconv.ParseInt(s, 10, 32)`: optional sign, at least one digit, range of int32; `none` on error.
Standard library; called in copy_source.go, remove_source.go, trim_packages.go (jobs and ferryctl/cmd). -/
def parseInt32 (s : Str) : Option Int :=
  if (splitSign s).1 = [] then none else
  match parseDigits (splitSign s).1 0 with
  | none => none
  | some n =>
    if (splitSign s).2 then (if n ≤ 2 ^ 31 then some (-(n : Int)) else none)
    else (if n < 2 ^ 31 then some (n : Int) else none)

/-- `%t`. Standard library; used at copy_source.go:43. -/
def fmtBool (b : Bool) : Str := if b then "true".toList else "false".toList

/-- `strconv.ParseBool`. Standard library; called in the handler constructor of copy_source.go. -/
def parseBool (s : Str) : Option Bool :=
  if s ∈ ["1".toList, "t".toList, "T".toList, "TRUE".toList, "true".toList, "True".toList] then some true
  else if s ∈ ["0".toList, "f".toList, "F".toList, "FALSE".toList, "false".toList, "False".toList] then some false
  else none

/-! ## Jobs -/

/-- The two queues (store.go:32-35). -/
inductive Queue | async | seq
deriving DecidableEq, Repr

/-- libferry.TimingInformation (types.go:98-102); times are numbers, 0 is the zero time. -/
structure Timing where
  queued : Nat
  begin_ : Nat
  end_ : Nat
deriving DecidableEq, Repr

/-- The serialised part of a JobEntry (jobs/main.go:89-103; Serialize, Deserialize and GetID, 110-133).  `sequential` is not stored; the queue a job is
put in depends on it (processor.go:110-116). -/
structure JobEntry where
  type : Str
  claimed : Bool
  params : List Str
  timing : Timing
deriving DecidableEq, Repr

/-- libferry.Job (types.go:149-154). -/
structure Record where
  description : Str
  timing : Timing
  failed : Bool
  error : Str
deriving DecidableEq, Repr

/-- The gob encoding of the three stored types (transcoder.go): taken to read back what was written; gob is one such encoding: `Verif.GobCodec`. -/
structure Codec where
  encJ : JobEntry → Str
  decJ : Str → Option JobEntry
  encR : Record → Str
  decR : Str → Option Record
  encI : Nat → Str
  decI : Str → Option Nat
  lawJ : ∀ j, decJ (encJ j) = some j
  lawR : ∀ r, decR (encR r) = some r
  lawI : ∀ n, decI (encI n) = some n

/-- What the user (or the daemon) asks for: the calls `NewXxxJob(...)` made by handlers.go, monitor.go and
delta_repo.go. -/
inductive Request
  | bulkAdd (repo : Str) (pkgs : List Str)
  | copySource (repo target source : Str) (release : Int) (skipIndex : Bool)
  | cloneRepo (repo newClone : Str) (all : Bool)
  | createRepo (repo : Str)
  | deleteRepo (repo : Str)
  | delta (repo pkg : Str)
  | deltaIndex (repo pkg : Str)
  | deltaRepo (repo : Str)
  | indexRepo (repo : Str)
  | pullRepo (source target : Str)
  | removeSource (repo source : Str) (release : Int)
  | transit (path : Str)
  | trimObsolete (repo : Str)
  | trimPackages (repo : Str) (maxKeep : Int)
deriving DecidableEq, Repr

/-- The job type strings (jobs/main.go:33-78). -/
def Request.type : Request → Str
  | .bulkAdd .. => "BulkAdd".toList
  | .copySource .. => "CopySource".toList
  | .cloneRepo .. => "CloneRepo".toList
  | .createRepo .. => "CreateRepo".toList
  | .deleteRepo .. => "DeleteRepo".toList
  | .delta .. => "Delta".toList
  | .deltaIndex .. => "Delta+Index".toList
  | .deltaRepo .. => "DeltaRepo".toList
  | .indexRepo .. => "IndexRepo".toList
  | .pullRepo .. => "PullRepo".toList
  | .removeSource .. => "RemoveSource".toList
  | .transit .. => "TransitProcess".toList
  | .trimObsolete .. => "TrimObsolete".toList
  | .trimPackages .. => "TrimPackages".toList

/-- The parameters stored by the constructors: bulk_add.go:35-41, copy_source.go:38-44, clone_repo.go:35-43,
create_repo.go:34-40, delete_repo.go:34-40, delta.go:41-57, delta_repo.go:34-40, index.go:38-44, pull_repo.go:38,
remove_source.go:41, transit_job.go:36-42, trim_obsoletes.go:34-40, trim_packages.go:39. -/
def Request.params : Request → List Str
  | .bulkAdd r ps => r :: ps
  | .copySource r t s n k => [r, t, s, fmtInt n, fmtBool k]
  | .cloneRepo r n all => [r, n, if all then "full".toList else "tip".toList]
  | .createRepo r => [r]
  | .deleteRepo r => [r]
  | .delta r p => [r, p]
  | .deltaIndex r p => [r, p]
  | .deltaRepo r => [r]
  | .indexRepo r => [r]
  | .pullRepo s t => [s, t]
  | .removeSource r s n => [r, s, fmtInt n]
  | .transit p => [p]
  | .trimObsolete r => [r]
  | .trimPackages r n => [r, fmtInt n]

/-- The queue a job goes to: `sequential` in the constructors and PushJob (processor.go:110-116). -/
def Request.queue : Request → Queue
  | .delta .. => .async
  | .deltaIndex .. => .async
  | _ => .seq

/-- NewJobHandler (jobs/main.go:134-166) with the handler constructors it calls (bulk_add.go:44-52, create_repo.go:43-50,
delete_repo.go:43-50, delta_repo.go:43-50, index.go:47-54, transit_job.go:45-52, trim_obsoletes.go:43-50 and so on): what the handler will
execute, or `none` for the error `unknown job type` or invalid parameters.  There is no case for the types
"Delta" and "Delta+Index".  The clone handler keeps the mode string and compares it with "full" when
executing (clone_repo.go:61-64). -/
def newJobHandler (type : Str) (params : List Str) : Option Request :=
  if type = "BulkAdd".toList then
    match params with
    | r :: p :: ps => some (.bulkAdd r (p :: ps))
    | _ => none
  else if type = "CopySource".toList then
    match params with
    | [r, t, s, n, k] =>
      match parseInt32 n with
      | none => none
      | some rel =>
        match parseBool k with
        | none => none
        | some si => some (.copySource r t s rel si)
    | _ => none
  else if type = "CloneRepo".toList then
    match params with
    | [r, n, mode] => some (.cloneRepo r n (mode == "full".toList))
    | _ => none
  else if type = "CreateRepo".toList then
    match params with
    | [r] => some (.createRepo r)
    | _ => none
  else if type = "DeleteRepo".toList then
    match params with
    | [r] => some (.deleteRepo r)
    | _ => none
  else if type = "DeltaRepo".toList then
    match params with
    | [r] => some (.deltaRepo r)
    | _ => none
  else if type = "IndexRepo".toList then
    match params with
    | [r] => some (.indexRepo r)
    | _ => none
  else if type = "RemoveSource".toList then
    match params with
    | [r, s, n] =>
      match parseInt32 n with
      | none => none
      | some rel => some (.removeSource r s rel)
    | _ => none
  else if type = "PullRepo".toList then
    match params with
    | [s, t] => some (.pullRepo s t)
    | _ => none
  else if type = "TransitProcess".toList then
    match params with
    | [p] => some (.transit p)
    | _ => none
  else if type = "TrimObsolete".toList then
    match params with
    | [r] => some (.trimObsolete r)
    | _ => none
  else if type = "TrimPackages".toList then
    match params with
    | [r, n] =>
      match parseInt32 n with
      | none => none
      | some k => some (.trimPackages r k)
    | _ => none
  else none

/-- Describe of each handler (bulk_add.go:64-66, copy_source.go:84, clone_repo.go:74-76, create_repo.go:62-64,
delete_repo.go:62-64, delta_repo.go:82-84, index.go:66-68, remove_source.go:74, pull_repo.go:84-86, transit_job.go:121-127,
trim_obsoletes.go:62-64, trim_packages.go:71-73, delta.go:216-221). -/
def Request.describe : Request → Str
  | .bulkAdd r ps => "Add ".toList ++ fmtNat ps.length ++ " packages to repository '".toList ++ r ++ "'".toList
  | .copySource r t s n _ => "Copy sources by id '".toList ++ s ++ "' (rel: ".toList ++ fmtInt n ++
      ") in '".toList ++ r ++ "' to '".toList ++ t ++ "'".toList
  | .cloneRepo r n _ => "Clone repository '".toList ++ r ++ "' into '".toList ++ n ++ "'".toList
  | .createRepo r => "Create repository '".toList ++ r ++ "'".toList
  | .deleteRepo r => "Delete repository '".toList ++ r ++ "'".toList
  | .delta r p => "Delta package '".toList ++ p ++ "' on '".toList ++ r ++ "'".toList
  | .deltaIndex r p => "Delta package '".toList ++ p ++ "' on '".toList ++ r ++ "', then re-index".toList
  | .deltaRepo r => "Produce deltas for '".toList ++ r ++ "'".toList
  | .indexRepo r => "Index repository '".toList ++ r ++ "'".toList
  | .pullRepo s t => "Pull repository '".toList ++ s ++ "' into '".toList ++ t ++ "'".toList
  | .removeSource r s n => "Remove sources by id '".toList ++ s ++ "' (rel: ".toList ++ fmtInt n ++
      ") in '".toList ++ r ++ "'".toList
  | .transit p => "Process manifest '".toList ++ p ++ "'".toList
  | .trimObsolete r => "Trim obsoletes from repository '".toList ++ r ++ "'".toList
  | .trimPackages r n => "Trim packages to maximum of ".toList ++ fmtInt n ++ " in '".toList ++ r ++ "'".toList

/-! ## The store -/

/-- The queue buckets (store.go:32-35). -/
def Queue.handle : Queue → Handle
  | .async => root.bucket ['A', 's', 'y', 'n', 'c']
  | .seq => root.bucket ['S', 'y', 'n', 'c']

/-- "CompletedFailure" / "CompletedSuccess" (store.go:38-41). -/
def histHandle (failed : Bool) : Handle :=
  if failed then
    root.bucket ['C', 'o', 'm', 'p', 'l', 'e', 't', 'e', 'd', 'F', 'a', 'i', 'l', 'u', 'r', 'e']
  else root.bucket ['C', 'o', 'm', 'p', 'l', 'e', 't', 'e', 'd', 'S', 'u', 'c', 'c', 'e', 's', 's']

/-- The sub-bucket "Record" (store.go:50) and its only key (store.go:53). -/
def recHandle (failed : Bool) : Handle := (histHandle failed).bucket ['R', 'e', 'c', 'o', 'r', 'd']
/-- IndexRecordKey (store.go:53). -/
def recKey : Str := ['I', 'n', 'd', 'e', 'x', 'R', 'e', 'c', 'o', 'r', 'd', '0', '0']

/-- MaxJobsStored (store.go:58). -/
def maxJobsStored : Nat := 100

variable (C : Codec)

/-- The body of unclaimJobs' loop (store.go:122-135). -/
def unclaimLoop (h : Handle) : List (Str × Str) → Prog Unit
  | [] => .ret ()
  | (id, v) :: rest =>
    match C.decJ v with
    | none => .fail .decode
    | some j =>
      if j.claimed then
        (h.putObject id (C.encJ { j with timing := { j.timing with begin_ := 0, end_ := 0 }, claimed := false })).bind
          fun _ => unclaimLoop h rest
      else unclaimLoop h rest

/-- unclaimJobs (store.go:114-137). -/
def unclaimJobs (q : Queue) : DM Unit :=
  update (q.handle.forEach (fun l => unclaimLoop C q.handle l))

/-- setup (store.go:104-109). -/
def setup : DM Unit := do
  unclaimJobs C .seq
  unclaimJobs C .async

/-- The search loop of claimJobInternal (store.go:167-184): the first job not claimed; `fail` on an
undecodable one before it. -/
def firstUnclaimed : List (Str × Str) → Prog (Option (Str × JobEntry))
  | [] => .ret none
  | (id, v) :: rest =>
    match C.decJ v with
    | none => .fail .decode
    | some j => if j.claimed then firstUnclaimed rest else .ret (some (id, j))

/-- claimJobInternal (store.go:156-202): `none` is ErrEmptyQueue.  `now` is `time.Now()`. -/
def claim (q : Queue) (now : Nat) : DM (Option (Str × JobEntry)) :=
  update (q.handle.forEach (fun l => (firstUnclaimed C l).bind fun r =>
    match r with
    | none => .ret none
    | some (id, j) =>
      let j' := { j with claimed := true, timing := { j.timing with begin_ := now } }
      (q.handle.putObject id (C.encJ j')).bind fun _ => .ret (some (id, j'))))

/-- What the worker knows of a job it has executed (worker.go:138-141, 174-204): the entry with its end time,
the description and the error (`none`: success). -/
structure Finished where
  id : Str
  timing : Timing
  description : Str
  failure : Option Str

/-- The next position in the ring (store.go:227-243); a missing or unreadable index record means 0. -/
def nextIndex (stored : Option Str) : Nat :=
  let i := match stored with
    | none => 0
    | some v =>
      match C.decI v with
      | none => 0
      | some n => (n + 1) % 2 ^ 64
  if i ≥ maxJobsStored then 0 else i

/-- The stored record (store.go:256-265). -/
def Finished.record (f : Finished) : Record :=
  ⟨f.description, f.timing, f.failure.isSome, f.failure.getD []⟩

/-- markCompletion (store.go:215-269): the index record is written first, on its own; then the job's record
in a transaction. -/
def markCompletion (f : Finished) : DM Unit := do
  let b := f.failure.isSome
  let stored ← direct ((recHandle b).getObject recKey)
  let i := nextIndex C stored
  direct ((recHandle b).putObject recKey (C.encI i))
  update ((histHandle b).putObject (be8 i) (C.encR f.record))

/-- RetireAsyncJob / RetireSequentialJob (store.go:272-299). -/
def retire (q : Queue) (f : Finished) : DM Unit := do
  update (q.handle.deleteObject f.id)
  markCompletion C f

/-- pushJobInternal (store.go:303-321) with the job built by its constructor. -/
def push (q : Queue) (type : Str) (params : List Str) (now : Nat) : DM Str :=
  update ((q.handle.nextSequence).bind fun id =>
    (q.handle.putObject id (C.encJ ⟨type, false, params, ⟨now, 0, 0⟩⟩)).bind fun _ => .ret id)

/-- PushJob (processor.go:110-116).  Its caller ignores errors. -/
def pushRequest (r : Request) (now : Nat) : DM Str := push C r.queue r.type r.params now

/-- The loop of cloneCurrentJobs (store.go:353-373). -/
def currentLoop : List (Str × Str) → Prog (List Record)
  | [] => .ret []
  | (_, v) :: rest =>
    match C.decJ v with
    | none => .fail .decode
    | some j =>
      match newJobHandler j.type j.params with
      | none => .fail (.user 0)
      | some h => (currentLoop rest).bind fun l => .ret (⟨h.describe, j.timing, false, []⟩ :: l)

/-- ActiveJobs (store.go:334-346): the sequential jobs, then the asynchronous ones. -/
def activeJobs : DM (List Record) := do
  let a ← direct (Queue.seq.handle.forEach (currentLoop C))
  let b ← direct (Queue.async.handle.forEach (currentLoop C))
  pure (a ++ b)

/-- The loop of clonePastJobs (store.go:402-410). -/
def pastLoop : List (Str × Str) → Prog (List Record)
  | [] => .ret []
  | (_, v) :: rest =>
    match C.decR v with
    | none => .fail .decode
    | some r => (pastLoop rest).bind fun l => .ret (r :: l)

/-- CompletedJobs / FailedJobs (store.go:378-412). -/
def pastJobs (failed : Bool) : DM (List Record) :=
  direct ((histHandle failed).forEach (pastLoop C))

/-- The loop of resetInternal (store.go:433-435). -/
def deleteLoop (h : Handle) : List (Str × Str) → Prog Unit
  | [] => .ret ()
  | (id, _) :: rest => (h.deleteObject id).bind fun _ => deleteLoop h rest

/-- resetInternal (store.go:416-437). -/
def reset (failed : Bool) : DM Unit := do
  let hasIndex ← direct ((recHandle failed).hasObject recKey)
  if hasIndex then direct ((recHandle failed).deleteObject recKey) else pure ()
  update ((histHandle failed).forEach (fun l => deleteLoop (histHandle failed) l))

/-- NewProcessor (processor.go:43-52): the number of asynchronous workers for the requested number and the
number of CPUs. -/
def workerCount (njobs : Int) (numCPU : Nat) : Int :=
  let n := if njobs < 0 then (numCPU : Int) / 2 else njobs
  if n < 2 then numCPU else n

end Ferryd.Jobs
