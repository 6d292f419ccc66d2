import Verif.CoreOps
import Verif.Transit
/-!
# Handles: the repository jobs with the files they open

`Verif.CoreModel` reads and writes files as if that took no descriptor and could not fail for want of one.  Here the opening and
closing of files is put back: every function that opens a file, directly or through a function it calls, is written again in a
monad that counts the open files, and in which any system call may fail (`fail n` says whether the n-th one does: no descriptor
left, no permission, disk full, …).  Functions that open nothing are used as they are in `Verif.CoreModel`.

Left out: the descriptors of the databases, the log and the lock file (opened once), of the directory reading of
`os.RemoveAll` and `ioutil.ReadDir` and of `exec.Command` (closed by the standard library before it returns), and the connections of
the cache purge.
-/
namespace Ferryd

/-- The kinds of files opened: core/util.go:43 and 47 (the two sides of `CopyFile`), core/mmap.go:39, libeopkg/package.go:61 (the
archive) and 103 (a member of it), libeopkg/distribution.go:45, components.go:67 and groups.go:57 (assets), core/repo_index.go:314 (the
new index), and the file of `ioutil.WriteFile` (core/util.go:135, 145) and `ioutil.ReadFile` (core/transit_manifest.go:118). -/
inductive Fd | src | dst | map | zip | member | asset | index | sum | manifest
deriving DecidableEq, Repr

/-- State of a run: the repositories and the disk, the files open (latest first), how many have been open at once so far, system
calls made.  Plumbing of the model: control flow of the Go functions. -/
structure HSt where
  st : St
  fds : List Fd
  peak : Nat
  tick : Nat

/-- Outcome of a run.  Plumbing of the model: control flow of the Go functions. -/
structure HOut (α : Type) where
  res : Res α
  now : HSt

/-- Computations that open files; the first argument says which system calls fail.
Plumbing of the model: control flow of the Go functions. -/
def HM (α : Type) := (Nat → Bool) → HSt → HOut α

/-- `x, err := m(); if err != nil { return err }; …`.  Plumbing of the model: control flow of the Go functions. -/
def HM.bind' {α β : Type} (m : HM α) (f : α → HM β) : HM β := fun F x =>
  match (m F x).res with
  | .ok a => f a F (m F x).now
  | .err e => ⟨.err e, (m F x).now⟩
  | .panic => ⟨.panic, (m F x).now⟩

instance : Monad HM where
  pure a := fun _ x => ⟨.ok a, x⟩
  bind := HM.bind'

/-- A function that opens no file.  Plumbing of the model: control flow of the Go functions. -/
def calm {α : Type} (m : M α) : HM α := fun _ x => ⟨(m x.st).res, { x with st := (m x.st).st }⟩

/-- A system call; does it fail?  Plumbing of the model: control flow of the Go functions. -/
def hfails : HM Bool := fun F x => ⟨.ok (F x.tick), { x with tick := x.tick + 1 }⟩

/-- `os.Open`, `os.Create`, `os.OpenFile`, `zip.OpenReader`: a descriptor more, or an error.
Used at the places listed at `Fd` (core/util.go:43, 47 etc.). -/
def hopen (h : Fd) : HM Unit := fun F x =>
  if F x.tick then ⟨.err .io, { x with tick := x.tick + 1 }⟩
  else ⟨.ok (), { x with tick := x.tick + 1, fds := h :: x.fds, peak := max x.peak (x.fds.length + 1) }⟩

/-- `f.Close()`. Used at core/util.go:46, 52, 55, core/mmap.go:45, 51, 68 etc. -/
def hclose (h : Fd) : HM Unit := fun _ x => ⟨.ok (), { x with fds := x.fds.erase h }⟩

/-- `defer f.Close()`, or a `Close` at the end on both ways out: core/util.go:46, 108, 121, core/repo.go:395, 713,
core/repo_index.go:322, libeopkg/package.go:107, libeopkg/distribution.go:49, components.go:71, groups.go:61. -/
def hdefer {α : Type} (h : Fd) (body : HM α) : HM α := fun F x =>
  ⟨(body F x).res, { (body F x).now with fds := (body F x).now.fds.erase h }⟩

/-- `for _, x := range l { if err := f(x); err != nil { return err } }`, e.g. core/repo.go:909-913. -/
def hForL {α : Type} : List α → (α → HM Unit) → HM Unit
  | [], _ => pure ()
  | x :: xs, f => do f x; hForL xs f

/-! ## core/mmap.go, core/util.go, libeopkg -/

/-- mmap.go:36-56 `MapFile`: the file stays open when it succeeds.  An empty file cannot be mapped. -/
def hMapFile (p : Path) : HM Content := do
  let s ← calm getSt
  match s.fs.read p with
  | none => calm (throwE .io)
  | some c => do
    hopen .map
    if ← hfails then do
      hclose .map
      calm (throwE .io)
    else
      let bad ← hfails
      if c = [] ∨ bad then do
        hclose .map
        calm (throwE .io)
      else pure c

/-- util.go:103-113 `FileSha1sum`, with mmap.go:59-71 `Close`. -/
def hFileSha1 (E : Env) (p : Path) : HM Str := do
  let c ← hMapFile p
  hdefer .map (pure (E.sha1 c))

/-- util.go:116-126 `FileSha256sum`, with mmap.go:59-71 `Close`. -/
def hFileSha256 (E : Env) (p : Path) : HM Str := do
  let c ← hMapFile p
  hdefer .map (pure (E.sha256 c))

/-- util.go:32-60 `CopyFile`: a failing `os.Stat` is no error; a copy that fails half-way leaves the destination cut short (here:
empty). -/
def hCopyFile (src dst : Path) : HM Unit := do
  let s ← calm getSt
  if ← hfails then pure ()
  else
    match s.fs.tab src with
    | none => pure ()
    | some i => do
      hopen .src
      hdefer .src do
        hopen .dst
        calm (stepM (fun s => s.setFs (s.fs.openTrunc dst).1))
        if ← hfails then do
          hclose .dst
          calm (throwE .io)
        else do
          calm (stepM (fun s' => s'.setFs (s'.fs.setData (s.fs.openTrunc dst).2 (s'.fs.data i))))
          hclose .dst

/-- util.go:65-73 `LinkOrCopyFile`. -/
def hLinkOrCopy (E : Env) (src dst : Path) (forceCopy : Bool) : HM Unit := do
  if forceCopy then hCopyFile src dst
  else
    let s ← calm getSt
    match s.fs.tab src, s.fs.tab dst with
    | some i, none => do
      let bad ← hfails
      if E.linkOk src dst ∧ !bad then calm (stepM (fun s => s.setFs (s.fs.setTab dst (some i))))
      else hCopyFile src dst
    | _, _ => hCopyFile src dst

/-- libeopkg/package.go:56-68 `Open`, by the content of the file: what is not there cannot be opened.
(`zip.OpenReader` closes a file that is no archive before it returns; here such a file counts as open until the deferred `Close`.) -/
def hOpen (p : Path) : HM Content := do
  let s ← calm getSt
  match s.fs.read p with
  | none => calm (throwE .io)
  | some c => do
    hopen .zip
    pure c

/-- libeopkg/package.go:94-127 `ReadMetadata`. -/
def hReadMetadata (E : Env) (p : Path) (c : Content) : HM Pkg := do
  hopen .member
  hdefer .member do
    match E.parse c with
    | .bad => calm (throwE .corrupt)
    | .crash => calm panicM
    | .good m => pure ⟨p, p.base, m⟩

/-- util.go:130-136 `WriteSha1sum` and 140-146 `WriteSha256sum` of a file of the index: mapping, and `ioutil.WriteFile`.  The contents are
`Verif.IndexFiles`'s matter. -/
def hWriteSum : HM Unit := do
  hopen .map
  if ← hfails then do
    hclose .map
    calm (throwE .io)
  else do
    hclose .map
    hopen .sum
    let bad ← hfails
    hclose .sum
    if bad then calm (throwE .io) else pure ()

/-! ## core/pool.go -/

/-- pool.go:187-236 `addPackageInternal`. -/
def hPoolAddInternal (E : Env) (p : Pkg) (copyDisk : Bool) (delta : Option DeltaInfo) : HM PoolEntry := do
  match ← calm (poolGet? p.id) with
  | some e => do
    let e' := { e with refCount := e.refCount + 1 }
    calm (dbWrite .direct (.putPool e.name e'))
    pure e'
  | none => do
    let s ← calm getSt
    match s.fs.read p.path with
    | none => calm (throwE .io)
    | some c => do
      let comp ← calm (pathComp p.pkg)
      hLinkOrCopy E p.path (.pool comp p.id) copyDisk
      let sha ← hFileSha1 E p.path
      let e : PoolEntry :=
        { name := p.id, refCount := 1, delta := delta,
          pkg := { p.pkg with hash := sha, size := c.length, uri := mkURI comp p.id } }
      if reservedKey p.id then do
        calm (removeFile (.pool comp p.id))
        calm (throwE .reserved)
      else do
        calm (dbWrite .direct (.putPool p.id e))
        pure e

/-- pool.go:161-183 `AddDelta`. -/
def hPoolAddDelta (E : Env) (p : Pkg) (fromID toID : Str) (copyDisk : Bool) : HM PoolEntry := do
  match ← calm (poolGet? p.id) with
  | some e => do
    let e' := { e with refCount := e.refCount + 1 }
    calm (dbWrite .direct (.putPool e.name e'))
    pure e'
  | none => do
    let src ← calm (poolGet fromID)
    let tgt ← calm (poolGet toID)
    let tr ← calm (getRelease tgt.pkg)
    let fr ← calm (getRelease src.pkg)
    hPoolAddInternal E p copyDisk (some ⟨fr, fromID, tr, toID⟩)

/-! ## core/repo.go -/

/-- repo.go:334-386 `RefDelta`. -/
def hRefDelta (E : Env) (rid id : Str) : HM Unit := do
  let pe ← calm (poolGet id)
  let e ← calm (repoGet rid pe.pkg.name)
  let comp ← calm (pathComp pe.pkg)
  if id ∈ e.deltas then pure ()
  else do
    calm (refEntry id)
    hLinkOrCopy E (.pool comp id) (.repo rid comp id) false
    calm (repoPut rid { e with deltas := sortS (e.deltas ++ [id]) })

/-- repo.go:389-403 `AddDelta` and 406-451 `AddLocalDelta`. -/
def hAddDelta (E : Env) (rid : Str) (file : Path) (fromID toID : Str) : HM Unit := do
  let c ← hOpen file
  hdefer .zip do
    let p ← hReadMetadata E file c
    let e ← calm (repoGet rid p.pkg.name)
    let comp ← calm (pathComp p.pkg)
    if p.id ∈ e.deltas then pure ()
    else do
      let _ ← hPoolAddDelta E p fromID toID false
      hLinkOrCopy E (.pool comp p.id) (.repo rid comp p.id) false
      calm (repoPut rid { e with deltas := sortS (e.deltas ++ [p.id]) })

/-- repo.go:580-616 `RefPackage`. -/
def hRefPackage (E : Env) (rid pkgID : Str) : HM Unit := do
  let pe ← calm (poolGet pkgID)
  let comp ← calm (pathComp pe.pkg)
  match ← calm (buildSaneEntry rid pe.pkg pkgID) with
  | none => pure ()
  | some ne => do
    calm (refEntry pkgID)
    hLinkOrCopy E (.pool comp pkgID) (.repo rid comp pkgID) false
    calm (repoPut rid ne)

/-- repo.go:671-703 `AddLocalPackage`. -/
def hAddLocalPackage (E : Env) (rid : Str) (p : Pkg) : HM Unit := do
  let comp ← calm (pathComp p.pkg)
  match ← calm (buildSaneEntry rid p.pkg p.id) with
  | none => pure ()
  | some ne => do
    let _ ← hPoolAddInternal E p false none
    hLinkOrCopy E (.pool comp p.id) (.repo rid comp p.id) false
    calm (repoPut rid ne)

/-- repo.go:707-750 `AddPackage`. -/
def hAddPackage (E : Env) (rid : Str) (file : Path) (strict : Bool) : HM Unit := do
  let c ← hOpen file
  hdefer .zip do
    let p ← hReadMetadata E file c
    if !strict then hAddLocalPackage E rid p
    else
      match ← calm (repoGet? rid p.pkg.name) with
      | none => hAddLocalPackage E rid p
      | some l => do
        let pub ← calm (poolGet l.published)
        let pr ← calm (getRelease pub.pkg)
        let nr ← calm (getRelease p.pkg)
        if pr > nr then calm (throwE .higherRelease)
        else if pr = nr then calm (throwE .sameRelease)
        else hAddLocalPackage E rid p

/-- repo.go:842-868 `pullAssets`, one file. -/
def hPullAsset (dst src : Str) (a : Asset) : HM Unit := do
  let s ← calm getSt
  match s.fs.tab (.asset src a) with
  | none => pure ()
  | some _ => hCopyFile (.asset src a) (.asset dst a)

/-- repo.go:842-868 `pullAssets`. -/
def hPullAssets (dst src : Str) : HM Unit := do
  hPullAsset dst src .distribution
  hPullAsset dst src .components
  hPullAsset dst src .groups

/-- repo.go:871-924 `CloneFrom`. -/
def hCloneFrom (E : Env) (dst src : Str) (full : Bool) : HM Unit := do
  hPullAssets dst src
  let es ← calm (repoEntries src)
  let ids := if full then es.flatMap RepoEntry.available else es.map RepoEntry.published
  let ds := if full then es.flatMap RepoEntry.deltas else []
  hForL ids (hRefPackage E dst)
  hForL ds (hRefDelta E dst)

/-- repo.go:948-1016 `PullFrom`. -/
def hPullFrom (E : Env) (dst src : Str) : HM (List Str) := do
  hPullAssets dst src
  let es ← calm (repoEntries src)
  let todo ← calm (collectL es (pullOne dst))
  hForL (todo.map Prod.fst) (hRefPackage E dst)
  pure (todo.map Prod.snd)

/-- repo.go:1081-1133 `CopySourceFrom`. -/
def hCopySourceFrom (E : Env) (dst src source : Str) (release : Int) : HM Unit := do
  let ids ← calm (matchingSource src source release)
  if ids.length = 0 then calm (throwE .noMatch)
  else hForL ids (hRefPackage E dst)

/-! ## core/repo_index.go -/

/-- repo_index.go:35-51 `initDistribution` with libeopkg/distribution.go:44-61 `NewDistribution`. -/
def hInitDistribution (E : Env) (rid : Str) : HM (Option (List Str)) := do
  let s ← calm getSt
  match s.fs.read (.asset rid .distribution) with
  | none => pure none
  | some c => do
    hopen .asset
    hdefer .asset do
      match E.parseDist c with
      | none => calm (throwE .badAsset)
      | some d => pure (some d)

/-- repo_index.go:64-93 `emitComponents` and 97-124 `emitGroups` with libeopkg/components.go:66-91 and groups.go:56-80. -/
def hEmitAsset (p : Content → ParsedAsset) (rid : Str) (a : Asset) : HM (List Str) := do
  let s ← calm getSt
  match s.fs.read (.asset rid a) with
  | none => pure []
  | some c => do
    hopen .asset
    hdefer .asset do
      match p c with
      | .bad => calm (throwE .badAsset)
      | .crash => calm panicM
      | .good l => pure l

/-- repo_index.go:218-283 `emitIndex`. -/
def hEmitIndex (E : Env) (rid : Str) (dist : Option (List Str)) : HM Doc := do
  let es ← calm (repoEntries rid)
  let ids := sortS ((es.filter fun e => !(dist.getD []).contains e.name).map RepoEntry.published)
  let pkgs ← calm (collectL ids fun id => do
    let pe ← poolGet id
    emitPackage rid dist pe)
  let comps ← hEmitAsset E.parseComps rid .components
  let grps ← hEmitAsset E.parseGroups rid .groups
  pure ⟨dist, pkgs, comps, grps⟩

/-- repo_index.go:286-416 `Index`: the new index is created, written and closed, then six checksums are written (330, 339, 357, 366, 384,
393).  What is published is decided as in `indexRepo`. -/
def hIndexRepo (E : Env) (rid : Str) : HM Unit := do
  let dist ← hInitDistribution E rid
  hopen .index
  let doc ← hdefer .index (hEmitIndex E rid dist)
  hWriteSum; hWriteSum
  hWriteSum; hWriteSum
  hWriteSum; hWriteSum
  let s ← calm getSt
  calm (volM (fun s => { s with clock := s.clock + 1 }))
  match E.indexIO s.clock with
  | .failBefore => calm (throwE .indexIO)
  | .ok => calm (stepM fun s => s.setFs { s.fs with idx := fun r => if r = rid then some doc else s.fs.idx r })
  | .failAfter => do
    calm (stepM fun s => s.setFs { s.fs with idx := fun r => if r = rid then some doc else s.fs.idx r })
    calm (throwE .indexIO)

/-- repo.go:1142-1214 `TrimObsolete`. -/
def hTrimObsolete (E : Env) (rid : Str) : HM Unit := do
  match ← hInitDistribution E rid with
  | none => calm (throwE .noDist)
  | some obs => do
    let es ← calm (repoEntries rid)
    let ids ← calm (collectL es fun e => trimObsoleteScan obs e.name e.available)
    calm (forL ids (unrefPackage rid))

/-! ## core/api.go, jobs/transit_job.go -/

/-- api.go:198-205 -/
def hmIndex (E : Env) (rid : Str) : HM Unit := do
  calm (getRepo rid)
  hIndexRepo E rid

/-- api.go:182-195 -/
def hmAddPackages (E : Env) (rid : Str) (files : List Str) (strict : Bool) : HM Unit := do
  calm (getRepo rid)
  hForL files (fun f => hAddPackage E rid (.ext f) strict)
  hmIndex E rid

/-- The jobs with the files they open, core/api.go:29-269 (`Op.run` is the same without). -/
def Op.hrun (E : Env) : Op → HM Unit
  | .create r => do calm (createRepo r); hmIndex E r
  | .clone a b f => do
    calm (getRepo a)
    calm (createRepo b)
    hCloneFrom E b a f
    hmIndex E b
  | .pull a b => do
    calm (getRepo a)
    calm (getRepo b)
    let changed ← hPullFrom E b a
    hmIndex E b
    let _ ← pure changed
    pure ()
  | .removeSource r n k => do
    calm (getRepo r)
    calm (Ferryd.removeSource r n k)
    hmIndex E r
  | .copySource a b n k sk => do
    calm (getRepo a)
    calm (getRepo b)
    hCopySourceFrom E b a n k
    if sk then hmIndex E b else pure ()
  | .trimObsolete r => do
    calm (getRepo r)
    hTrimObsolete E r
    hmIndex E r
  | .trimPackages r k => do
    calm (getRepo r)
    calm (Ferryd.trimPackages E r k)
    hmIndex E r
  | .addPackages r fs st => hmAddPackages E r fs st
  | .index r => hmIndex E r
  | .addDelta r d f t => do
    calm (getRepo r)
    hAddDelta E r (.stage r d) f t
  | .refDelta r d => do
    calm (getRepo r)
    hRefDelta E r d
  | o => calm (o.run E)

/-- transit_manifest.go:106-156 `NewTransitManifest`: `ioutil.ReadFile` opens, reads and closes. -/
def hNewManifest (T : TramEnv) (path : Str) : HM Manifest := do
  hopen .manifest
  let bad ← hfails
  hclose .manifest
  if bad then calm (throwE .io) else calm (newManifest T path)

/-- transit_manifest.go:161-177 `ValidatePayload`. -/
def hValidatePayload (E : Env) (m : Manifest) : HM Unit :=
  hForL m.files fun f => do
    let h ← hFileSha256 E (.ext (Paths.join m.dir f.path))
    if h ≠ f.sha then calm (throwE .badHash) else pure ()

/-- jobs/transit_job.go:54-97 `Execute`. -/
def hTransitJob (E : Env) (T : TramEnv) (path : Str) : HM Unit := do
  let m ← hNewManifest T path
  hValidatePayload E m
  calm (getRepo m.target)
  hmAddPackages E m.target m.paths true
  calm (forL (m.paths ++ [Paths.absP T.cwd path]) fun p => removeFile (.ext p))

end Ferryd
