import Verif.CoreOps
/-!
# Mutexes: the repository jobs with the mutexes they take

`Verif.CoreModel` leaves the mutexes of core/repo.go out.  Here they are put back: every function that takes one, directly or
through a function it calls, is written again in a monad that keeps track of the mutexes held.  Go's `sync.Mutex` is not
re-entrant: a goroutine that locks a mutex it holds already waits for ever.  `defer m.Unlock()` releases the mutex on every way
out of the function.  Functions that take no mutex are used as they are in `Verif.CoreModel`.
-/
namespace Ferryd

/-- The mutexes of the daemon: core/repo.go:65 `repoLock`, 80 `insertMut` and 81 `indexMut` of each repository (bakeRepo makes
one pair per repository and the cache keeps it, core/repo.go:129-134, 178-195), jobs/store.go:64 `modMut`, libdb/leveldb.go:41
`seqLock` of the job database. -/
inductive Mutex
  | repos
  | insert (rid : Str)
  | index (rid : Str)
  | store
  | seq
deriving DecidableEq, Repr

/-- What a goroutine does to a mutex: `Lock()` or `Unlock()`. (sync.Mutex, used at core/repo.go:203-204 etc.) -/
inductive Ev
  | acq (m : Mutex)
  | rel (m : Mutex)
deriving DecidableEq, Repr

/-- Outcome of a function that takes mutexes: `none` when the goroutine waits for a mutex it holds itself.
Plumbing of the model: control flow of the Go functions. -/
structure LOut (α : Type) where
  res : Option (Res α)
  st : St
  held : List Mutex
  ev : List Ev

/-- Computations of a goroutine that holds some mutexes.  Plumbing of the model: control flow of the Go functions. -/
def LM (α : Type) := St → List Mutex → LOut α

/-- `x, err := m(); if err != nil { return err }; …`.  Plumbing of the model: control flow of the Go functions. -/
def LM.bind' {α β : Type} (m : LM α) (f : α → LM β) : LM β := fun s h =>
  match (m s h).res with
  | some (.ok a) => ⟨(f a (m s h).st (m s h).held).res, (f a (m s h).st (m s h).held).st, (f a (m s h).st (m s h).held).held,
      (m s h).ev ++ (f a (m s h).st (m s h).held).ev⟩
  | some (.err e) => ⟨some (.err e), (m s h).st, (m s h).held, (m s h).ev⟩
  | some .panic => ⟨some .panic, (m s h).st, (m s h).held, (m s h).ev⟩
  | none => ⟨none, (m s h).st, (m s h).held, (m s h).ev⟩

instance : Monad LM where
  pure a := fun s h => ⟨some (.ok a), s, h, []⟩
  bind := LM.bind'

/-- A function that takes no mutex.  Plumbing of the model: control flow of the Go functions. -/
def free {α : Type} (m : M α) : LM α := fun s h => ⟨some (m s).res, (m s).st, h, []⟩

/-- `l.Lock(); defer l.Unlock(); body` (core/repo.go:203-204, 240-241, 335-336, 407-408, 455-456, 581-582, 672-673, 873-874, 950-951,
1143-1144, core/repo_index.go:287-288): blocks for ever when the mutex is held already by the same goroutine. -/
def locked {α : Type} (l : Mutex) (body : LM α) : LM α := fun s h =>
  if l ∈ h then ⟨none, s, h, []⟩
  else
    match (body s (l :: h)).res with
    | none => ⟨none, (body s (l :: h)).st, (body s (l :: h)).held, .acq l :: (body s (l :: h)).ev⟩
    | some r => ⟨some r, (body s (l :: h)).st, (body s (l :: h)).held.erase l, .acq l :: (body s (l :: h)).ev ++ [.rel l]⟩

/-- `for _, x := range l { if err := f(x); err != nil { return err } }`, e.g. core/repo.go:909-913. -/
def lForL {α : Type} : List α → (α → LM Unit) → LM Unit
  | [], _ => pure ()
  | x :: xs, f => do f x; lForL xs f

/-- Loop appending to a slice, e.g. core/repo.go:529-543. -/
def lCollectL {α β : Type} : List α → (α → LM (List β)) → LM (List β)
  | [], _ => pure []
  | x :: xs, f => do
    let a ← f x
    let b ← lCollectL xs f
    pure (a ++ b)

/-- libdb/leveldb.go:178-193 `Update` around a body that takes mutexes (core/repo.go:254). -/
def lUpdate (body : LM Unit) : LM Unit := fun s h =>
  let o := body { s with pend := [] } h
  match o.res with
  | some (.ok _) => ⟨some (.ok ()), { o.st with db := o.st.pend.foldl DbWrite.apply o.st.db, pend := [] }, o.held, o.ev⟩
  | some (.err e) => ⟨some (.err e), { o.st with pend := [] }, o.held, o.ev⟩
  | some .panic => ⟨some .panic, { o.st with pend := [] }, o.held, o.ev⟩
  | none => ⟨none, o.st, o.held, o.ev⟩

/-! ## core/repo.go and core/repo_index.go -/

/-- repo.go:202-235 `CreateRepo` under `repoLock`. -/
def lCreateRepo (rid : Str) : LM Unit := locked .repos (free (createRepo rid))

/-- repo.go:454-489 `removePackageInternal` under `insertMut` (and removeDeltaInternal, 490-492). -/
def lRemovePackageInternal (h : Handle) (rid id : Str) : LM Unit := locked (.insert rid) (free (removePackageInternal h rid id))

/-- repo.go:254-283, the transaction of `DeleteRepo`. -/
def lDeleteRepoBody (rid : Str) : LM Unit := do
  let es ← free (repoEntries rid)
  lForL es fun e => do
    lForL e.available (lRemovePackageInternal .batch rid)
    lForL e.deltas (lRemovePackageInternal .batch rid)
    free (dbWrite .batch (.delEnt rid e.name))
  free (dbWrite .batch (.delRepo rid))

/-- repo.go:239-315 `DeleteRepo` under `repoLock`. -/
def lDeleteRepo (rid : Str) : LM Unit := locked .repos do
  free (getRepo rid)
  free (volM (fun s => { s with cache := s.cache.filter (· ≠ rid) }))
  lUpdate (lDeleteRepoBody rid)
  free (rmRepoTree rid)
  free (rmRepoAux rid)

/-- repo.go:334-386 `RefDelta` under `insertMut`. -/
def lRefDelta (E : Env) (rid id : Str) : LM Unit := locked (.insert rid) (free (refDelta E rid id))

/-- repo.go:389-403 `AddDelta`, then 406-451 `AddLocalDelta` under `insertMut`. -/
def lAddDelta (E : Env) (rid : Str) (file : Path) (fromID toID : Str) : LM Unit := do
  let p ← free (openPkg E file)
  locked (.insert rid) (free (do
    let e ← repoGet rid p.pkg.name
    let comp ← pathComp p.pkg
    if p.id ∈ e.deltas then pure ()
    else do
      let _ ← poolAddDelta E p fromID toID false
      linkOrCopy E (.pool comp p.id) (.repo rid comp p.id) false
      repoPut rid { e with deltas := sortS (e.deltas ++ [p.id]) }))

/-- repo.go:524-543, the loop of `UnrefPackage` over the deltas. -/
def lUnrefDeltas (rid pkgID : Str) (ds : List Str) : LM (List Str) :=
  lCollectL ds fun d => do
    let pd ← free (poolGet d)
    match pd.delta with
    | none => free panicM
    | some di =>
      if di.fromID = pkgID ∨ di.toID = pkgID then do
        lRemovePackageInternal .direct rid pd.name
        pure []
      else pure [pd.name]

/-- repo.go:501-577 `UnrefPackage` (no mutex of its own). -/
def lUnrefPackage (rid pkgID : Str) : LM Unit := do
  let pe ← free (poolGet pkgID)
  let e ← free (repoGet rid pe.pkg.name)
  lRemovePackageInternal .direct rid pkgID
  let ds ← lUnrefDeltas rid pkgID e.deltas
  let acc ← free (unrefAvail pkgID e.available)
  if acc.2.2.length < 1 then free (dbWrite .direct (.delEnt rid e.name))
  else free (repoPut rid { e with deltas := sortS ds, available := sortS acc.2.2, published := acc.2.1 })

/-- repo.go:580-616 `RefPackage` under `insertMut`. -/
def lRefPackage (E : Env) (rid pkgID : Str) : LM Unit := locked (.insert rid) (free (refPackage E rid pkgID))

/-- repo.go:671-703 `AddLocalPackage` under `insertMut`. -/
def lAddLocalPackage (E : Env) (rid : Str) (p : Pkg) : LM Unit := locked (.insert rid) (free (addLocalPackage E rid p))

/-- repo.go:707-750 `AddPackage` (no mutex of its own). -/
def lAddPackage (E : Env) (rid : Str) (file : Path) (strict : Bool) : LM Unit := do
  let p ← free (openPkg E file)
  if !strict then lAddLocalPackage E rid p
  else
    match ← free (repoGet? rid p.pkg.name) with
    | none => lAddLocalPackage E rid p
    | some l => do
      let pub ← free (poolGet l.published)
      let pr ← free (getRelease pub.pkg)
      let nr ← free (getRelease p.pkg)
      if pr > nr then free (throwE .higherRelease)
      else if pr = nr then free (throwE .sameRelease)
      else lAddLocalPackage E rid p

/-- repo.go:871-924 `CloneFrom` under the `insertMut` of the source. -/
def lCloneFrom (E : Env) (dst src : Str) (full : Bool) : LM Unit := locked (.insert src) do
  free (pullAssets dst src)
  let es ← free (repoEntries src)
  let ids := if full then es.flatMap RepoEntry.available else es.map RepoEntry.published
  let ds := if full then es.flatMap RepoEntry.deltas else []
  lForL ids (lRefPackage E dst)
  lForL ds (lRefDelta E dst)

/-- repo.go:948-1016 `PullFrom` under the `insertMut` of the source. -/
def lPullFrom (E : Env) (dst src : Str) : LM (List Str) := locked (.insert src) do
  free (pullAssets dst src)
  let es ← free (repoEntries src)
  let todo ← free (collectL es (pullOne dst))
  lForL (todo.map Prod.fst) (lRefPackage E dst)
  pure (todo.map Prod.snd)

/-- repo.go:1024-1077 `RemoveSource` (no mutex of its own). -/
def lRemoveSource (rid source : Str) (release : Int) : LM Unit := do
  let ids ← free (matchingSource rid source release)
  if ids.length = 0 then free (throwE .noMatch)
  else lForL ids (lUnrefPackage rid)

/-- repo.go:1081-1133 `CopySourceFrom` (no mutex of its own). -/
def lCopySourceFrom (E : Env) (dst src source : Str) (release : Int) : LM Unit := do
  let ids ← free (matchingSource src source release)
  if ids.length = 0 then free (throwE .noMatch)
  else lForL ids (lRefPackage E dst)

/-- repo.go:1142-1214 `TrimObsolete` under `indexMut`. -/
def lTrimObsolete (E : Env) (rid : Str) : LM Unit := locked (.index rid) do
  match ← free (initDistribution E rid) with
  | none => free (throwE .noDist)
  | some obs => do
    let es ← free (repoEntries rid)
    let ids ← free (collectL es fun e => trimObsoleteScan obs e.name e.available)
    lForL ids (lUnrefPackage rid)

/-- repo.go:1219-1281 `TrimPackages` (no mutex of its own). -/
def lTrimPackages (E : Env) (rid : Str) (maxKeep : Int) : LM Unit := do
  if maxKeep < 1 then free (throwE .tooSmall)
  else do
    let es ← free (repoEntries rid)
    let ids ← free (collectL es (trimScan E maxKeep.toNat))
    lForL ids (lUnrefPackage rid)

/-- repo_index.go:286-416 `Index` under `indexMut`. -/
def lIndexRepo (E : Env) (rid : Str) : LM Unit := locked (.index rid) (free (indexRepo E rid))

/-! ## core/api.go -/

/-- api.go:198-205 -/
def lmIndex (E : Env) (rid : Str) : LM Unit := do
  free (getRepo rid)
  lIndexRepo E rid

/-- The jobs with their mutexes, core/api.go:29-269 (`Op.run` is the same without). -/
def Op.lrun (E : Env) : Op → LM Unit
  | .create r => do lCreateRepo r; lmIndex E r
  | .delete r => lDeleteRepo r
  | .clone a b f => do
    free (getRepo a)
    lCreateRepo b
    lCloneFrom E b a f
    lmIndex E b
  | .pull a b => do
    free (getRepo a)
    free (getRepo b)
    let changed ← lPullFrom E b a
    lmIndex E b
    let _ ← pure changed
    pure ()
  | .removeSource r n k => do
    free (getRepo r)
    lRemoveSource r n k
    lmIndex E r
  | .copySource a b n k sk => do
    free (getRepo a)
    free (getRepo b)
    lCopySourceFrom E b a n k
    if sk then lmIndex E b else pure ()
  | .trimObsolete r => do
    free (getRepo r)
    lTrimObsolete E r
    lmIndex E r
  | .trimPackages r k => do
    free (getRepo r)
    lTrimPackages E r k
    lmIndex E r
  | .addPackages r fs st => do
    free (getRepo r)
    lForL fs (fun f => lAddPackage E r (.ext f) st)
    lmIndex E r
  | .index r => lmIndex E r
  | .addDelta r d f t => do
    free (getRepo r)
    lAddDelta E r (.stage r d) f t
  | .refDelta r d => do
    free (getRepo r)
    lRefDelta E r d
  | o => free (o.run E)

/-! ## Order of the mutexes -/

/-- The order in which a goroutine takes mutexes: those further down are taken while holding those further up.
(No code: a notion of the statements and proofs; the code documents no order.) -/
def Mutex.rank : Mutex → Nat
  | .store => 0
  | .seq => 1
  | .repos => 2
  | .index _ => 3
  | .insert _ => 4

/-- The mutexes held after some events, `none` when one of them goes against the order, locks a mutex that is held or unlocks one
that is not.  (No code: a notion of the statements and proofs.) -/
def follow : List Mutex → List Ev → Option (List Mutex)
  | h, [] => some h
  | h, .acq m :: es => if m ∈ h ∨ ∃ x ∈ h, m.rank < x.rank then none else follow (m :: h) es
  | h, .rel m :: es => if m ∈ h then follow (h.erase m) es else none

/-! ## All goroutines together -/

/-- What goroutines other than the sequential worker call, and what the sequential worker calls between jobs: the functions of
jobs/store.go, each of which holds `modMut` for its whole duration (jobs/store.go:114-116 unclaim, 156-158 claim, 272-274 and
287-289 retire, 349-351 and 397-399 listings, 416-418 reset), `pushJobInternal` which asks the database for a sequence number
before and under `modMut` (jobs/store.go:302-317, libdb/leveldb.go:197-199), and the inclusion of a delta in a repository
(core/repo.go:335-336, 407-408), which a delta job does once NewJobHandler knows delta jobs (today it does not,
jobs/main.go:137-166). -/
inductive Call
  | store
  | push
  | includeDelta (rid : Str)
deriving DecidableEq, Repr

/-- The mutexes of a call: jobs/store.go:114-116 etc., 302-317, core/repo.go:335-336, 407-408 (see `Call`). -/
def Call.ev : Call → List Ev
  | .store => [.acq .store, .rel .store]
  | .push => [.acq .seq, .rel .seq, .acq .store, .acq .seq, .rel .seq, .rel .store]
  | .includeDelta r => [.acq (.insert r), .rel (.insert r)]

/-- What the goroutines have still to do to mutexes, and which mutexes each holds. (No code: a notion of the statements.) -/
structure Conf where
  prog : Nat → List Ev
  hold : Nat → List Mutex

/-- Goroutine `i` goes on with `p`, holding `h`. (No code: a notion of the statements.) -/
def Conf.set (c : Conf) (i : Nat) (p : List Ev) (h : List Mutex) : Conf :=
  ⟨fun j => if j = i then p else c.prog j, fun j => if j = i then h else c.hold j⟩

/-- One step of one goroutine: `sync.Mutex.Lock` returns only when nobody holds the mutex, `Unlock` always.
(sync.Mutex; the calls are those at core/repo.go:203-204 etc. and jobs/store.go:115-116 etc.) -/
inductive Conf.Step : Conf → Conf → Prop
  | acq {c : Conf} (i : Nat) (m : Mutex) (rest : List Ev) (hp : c.prog i = .acq m :: rest) (hf : ∀ j, m ∉ c.hold j) :
      Conf.Step c (c.set i rest (m :: c.hold i))
  | rel {c : Conf} (i : Nat) (m : Mutex) (rest : List Ev) (hp : c.prog i = .rel m :: rest) :
      Conf.Step c (c.set i rest ((c.hold i).erase m))

/-- Any number of steps. (No code: a notion of the statements.) -/
inductive Conf.Steps (c : Conf) : Conf → Prop
  | refl : Conf.Steps c c
  | tail {d e : Conf} (h : Conf.Steps c d) (hs : Conf.Step d e) : Conf.Steps c e

/-- What the sequential worker does (jobs/worker.go:110-156, 174-209): calls of the job store and jobs, one after the other, each job
in a state of the repositories of which `P` holds. -/
inductive Work (E : Env) (P : St → Prop) : List Ev → Prop
  | done : Work E P []
  | call {p : List Ev} (h : Work E P p) (k : Call) : Work E P (k.ev ++ p)
  | job {p : List Ev} (h : Work E P p) (o : Op) {s : St} (hs : P s) : Work E P ((o.lrun E s []).ev ++ p)

end Ferryd
