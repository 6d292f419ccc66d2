import Verif.DbRefine
import Verif.Spec
import Verif.Demo
import Verif.PropsJobs
/-!
# Listing: what `ferryctl list` and `ferryctl status` show (C88, C89)

The daemon's answers travel as JSON, whose encoding of strings and numbers is taken to be lossless here (`ListingBytes` has the bytes
of the listings, `PropsReport` those of the status report: text that is not UTF-8 changes there, too); `PropsDuration` has the texts of
the times and durations; the layout of the tables is not modelled.
-/
namespace Ferryd.Listing
open Ferryd.Db

/-- Decoding the visited values one after another; the first failure ends the call (pool.go:95-102, repo.go:160-167). -/
def decodeAll {α : Type} (dec : Str → Option α) : List (Str × Str) → Option (List α)
  | [] => some []
  | (_, v) :: rest => match dec v with
    | none => none
    | some a => (decodeAll dec rest).map (a :: ·)

/-- repo.go:157-173 `GetRepos` and handlers.go:98-116: the repository names answered (`none`: an error). -/
def getRepos (K : CoreCodec) (raw : Raw) : Option (List Str) := decodeAll K.decRepo (Bkt.iterates .repo raw)

/-- pool.go:92-108 `GetPoolItems` and handlers.go:119-140: name and `int(RefCount)` (no count reaches 2^63). -/
def getPoolItems (K : CoreCodec) (raw : Raw) : Option (List (Str × Nat)) :=
  (decodeAll K.decPool (Bkt.iterates .pool raw)).map fun l => l.map fun e => (e.name, e.refCount)

/-- ferryctl/cmd/list_repos.go:42-64: the names printed, in order. -/
def listRepos (K : CoreCodec) (raw : Raw) : Option (List Str) := (getRepos K raw).map sortS

/-- ferryctl/cmd/list_pool.go:38-60: the lines printed, in order. -/
def listPool (K : CoreCodec) (raw : Raw) : Option (List (Str × Nat)) := getPoolItems K raw

open Ferryd.Jobs

/-- types.go:137-139 `Less`, as used by `sort.Sort`: `sorted` is a possible outcome of sorting `l` (the sort is not
stable). -/
def Sorts (l sorted : List Record) : Prop := sorted.Perm l ∧ sorted.Pairwise fun a b => a.timing.queued ≤ b.timing.queued
/-- The same with `sort.Reverse`. status.go:165, 178. -/
def SortsDown (l sorted : List Record) : Prop :=
  sorted.Perm l ∧ sorted.Pairwise fun a b => b.timing.queued ≤ a.timing.queued

/-- status.go:39: how many jobs are printed by default. -/
def maxPrintJobs : Nat := 10

/-- status.go:60-80, 96-111, 127-141: the loop that prints a table. -/
def printed (all : Bool) : Nat → List Record → List Record
  | _, [] => []
  | i, j :: js => if i ≥ maxPrintJobs ∧ ¬ all then [] else j :: printed all (i + 1) js

/-- status.go:67-71: a job is shown as running when its start time is set. -/
def shownRunning (r : Record) : Bool := r.timing.begin_ != 0

/-- types.go:115-117 `ExecutionTime` (durations of less than 292 years, where time.Duration does not saturate). -/
def executionTime (r : Record) : Int := (r.timing.end_ : Int) - r.timing.begin_
/-- types.go:120-122 `QueuedTime`. -/
def queuedTime (r : Record) : Int := (r.timing.begin_ : Int) - r.timing.queued
/-- types.go:125-127 `TotalTime`. -/
def totalTime (r : Record) : Int := queuedTime r + executionTime r
/-- types.go:105-107 `QueuedSince`, asked at the time `now`. -/
def queuedSince (now : Nat) (r : Record) : Int := (now : Int) - r.timing.queued

/-- status.go:66-77: status, queued, waited. -/
def activeColumns (now : Nat) (r : Record) : Bool × Nat × Int := (shownRunning r, r.timing.queued, queuedSince now r)
/-- status.go:102-108: completed, duration. -/
def failedColumns (r : Record) : Nat × Int := (r.timing.end_, executionTime r)
/-- status.go:133-139: completed, duration, execution time. -/
def completedColumns (r : Record) : Nat × Int × Int := (r.timing.end_, totalTime r, executionTime r)

/-- status.go:144-182: the three tables for the lists answered by the daemon. -/
structure Status where
  failed : List Record
  current : List Record
  completed : List Record

/-- `ferryctl status` on a daemon with database `raw` may print `t`.
status.go:144-182, handlers.go:66-96.  The four reads of the store are taken from one state; see `Verif.PropsStatus` for reads at different moments. -/
def Prints (C : Codec) (raw : Raw) (all : Bool) (t : Status) : Prop :=
  ∃ a f c a' f' c', (activeJobs C raw).res = .ok a ∧ (pastJobs C true raw).res = .ok f ∧ (pastJobs C false raw).res = .ok c ∧
    Sorts a a' ∧ SortsDown f f' ∧ SortsDown c c' ∧
    t = ⟨printed all 0 f', printed all 0 a', printed all 0 c'⟩

end Ferryd.Listing
