import Verif.Delta
import Verif.CoreModel
/-!
# DeltaJob: jobs/delta.go and the delta methods of the manager it uses

(These jobs are queued only when `deltasEnabled` is set, jobs/index.go:28, which the pinned commit has switched off;
the code is modelled as it would run.)
-/
namespace Ferryd
open Ferryd.Delta

/-- core/util.go:159-174 `ProduceDelta` on the contents of two package files: the delta's content, "pointless"
(libeopkg.ErrDeltaPointless) or another failure.  The check for mismatched packages it repeats is the one `createDelta`
has already made on the same metadata. -/
inductive Made
  | made (c : Content)
  | pointless
  | failed

/-- Outside of the delta job: Go's (unstable) `sort.Sort(PackageSet)`, ascending by release, and the producer.
ferryd/jobs/delta.go:89, 138; core/repo.go:805-825. -/
structure DeltaEnv where
  produce : Content → Content → Made
  sortAsc : List Meta → List Meta
  sortAsc_perm : ∀ l, (sortAsc l).Perm l
  sortAsc_sorted : ∀ l, (sortAsc l).Pairwise
    (fun a b => (a.history.head?.map Update.release).getD 0 ≤ (b.history.head?.map Update.release).getD 0)

/-- What `CreateDelta` tells the job, errors other than these two aside. ferryd/jobs/delta.go:138-158. -/
inductive DeltaOutcome
  | staged
  | pointless
  | mismatched

/-- repo.go:805-826 `CreateDelta`: a delta already staged is used as it is; else one is produced from the two served
files and linked into the staging area (one atomic step here: the link of a complete temporary file). -/
def createDelta (D : DeltaEnv) (rid d : Str) (old tip : Meta) (ro rn : Int) : M DeltaOutcome := do
  if !isDeltaPossible old tip ro rn then pure .mismatched
  else
    let s ← getSt
    if (s.fs.tab (.stage rid d)).isSome then pure .staged
    else
      let co ← pathComp old
      let cn ← pathComp tip
      match s.fs.read (.repo rid co old.getID), s.fs.read (.repo rid cn tip.getID) with
      | some a, some b => match D.produce a b with
        | .made c => do
          stepM fun s => s.setFs { (s.fs.setTab (.stage rid d) (some s.fs.next)).setData s.fs.next c with
            next := s.fs.next + 1 }
          pure .staged
        | .pointless => pure .pointless
        | .failed => throwE .badDelta
      | _, _ => throwE .io

/-- jobs/delta.go:93-171: one round of the loop in `executeInternal`; the value counts the deltas produced. -/
def deltaStep (E : Env) (D : DeltaEnv) (rid name : Str) (tip old : Meta) : M Nat := do
  let ro ← getRelease old
  let rn ← getRelease tip
  let d := deltaName tip ro rn
  if ← getDeltaFailed d then pure 0
  else
    getRepo rid
    let e ← repoGet rid name
    if d ∈ e.deltas then pure 0
    else
      match ← poolGet? (baseName d) with
      | some _ => do
        mRefDelta E rid d
        pure 0
      | none => do
        getRepo rid
        match ← createDelta D rid d old tip ro rn with
        | .pointless => do
          markDeltaFailed d ⟨ro, old.getID, rn, tip.getID⟩
          pure 0
        | .mismatched => pure 0
        | .staged => do
          mAddDelta E rid (.stage rid d) old.getID tip.getID
          removeFile (.stage rid d)
          pure 1

/-- jobs/delta.go:74-176 `executeInternal`. -/
def deltaInternal (E : Env) (D : DeltaEnv) (rid name : Str) : M Nat := do
  getRepo rid
  let pkgs ← getPackages rid name
  if pkgs.length < 2 then pure 0
  else
    match (D.sortAsc pkgs).getLast? with
    | none => pure 0
    | some tip => foldL (D.sortAsc pkgs).dropLast 0 fun n old => do
        let k ← deltaStep E D rid name tip old
        pure (n + k)

/-- jobs/delta.go:190-212 `Execute`. -/
def deltaJob (E : Env) (D : DeltaEnv) (rid name : Str) (index : Bool) : M Unit := do
  let n ← deltaInternal E D rid name
  if index && decide (1 ≤ n) then mIndex E rid else pure ()

end Ferryd
