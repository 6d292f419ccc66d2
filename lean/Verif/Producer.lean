import Verif.Delta
/-!
# Producer: how a delta package is made on disk (libeopkg/delta.go, libeopkg/package.go, core/util.go, core/repo.go)

`Verif.Delta` says which bytes a delta consists of.  Here are the files: the working directory, its temporaries, the
staging area the finished delta is put into, what each step leaves behind when it fails, the deferred clean-ups, the
open file handles, and every durable state in between.

Any step may fail: `World.fail n` says whether the n-th step of the run does.  A write that fails, or is cut by a kill,
leaves a truncated file (`Data.part`).
-/
namespace Ferryd.Producer
open Ferryd.Delta Ferryd.Jobs

/-- The names used inside one working directory: delta.go:171 "delta-eopkg.install.tar" and 191 its ".xz", package.go:169
"install.tar.xz" and delta.go:206 "install.tar", delta.go:329 the delta itself; anything else is `stray`. -/
inductive Tmp
  | ball | ballXz | inst | instXz
  | delta (name : Str)
  | stray (name : Str)
deriving DecidableEq, Repr

/-- Files of one repository: in a working directory below its delta build directory, in its staging area (repo.go:810),
or anywhere else (the served packages among them). -/
inductive Path
  | work (dir : Str) (f : Tmp)
  | staged (name : Str)
  | other (name : Str)
deriving DecidableEq, Repr

/-- An .eopkg file: its contents as in `Verif.Delta`, whether it has an install.tar.xz, and whether its metadata.xml and
files.xml can be read (package.go:159-164 `ReadAll`). -/
structure Arch where
  pack : Pack
  hasTar : Bool
  readable : Bool
deriving DecidableEq, Repr

/-- Contents of files: a whole zip archive, a tar archive, a compressed one, or a file cut short.
Made at libeopkg/delta.go:177, 190, 330 and libeopkg/package.go:181. -/
inductive Data
  | zip (a : Arch)
  | tar (t : List TarEntry)
  | xz (t : List TarEntry)
  | part
deriving DecidableEq, Repr

/-- The durable state: files, and which working directories exist.
Made at libeopkg/delta.go:91-96, 177, 330 and core/util.go:159-174. -/
structure Disk where
  file : Path → Option Data
  dir : Str → Bool
/-- Effect of creating, writing or removing one file.  Plumbing of the model: control flow of the Go functions. -/
def Disk.set (s : Disk) (p : Path) (d : Option Data) : Disk := { s with file := fun q => if q = p then d else s.file q }
/-- Effect of making a working directory (`os.MkdirAll`, libeopkg/delta.go:94). -/
def Disk.mkdir (s : Disk) (d : Str) : Disk := { s with dir := fun e => if e = d then true else s.dir e }
/-- os.RemoveAll of a working directory that fails half-way. libeopkg/delta.go:113. -/
def Disk.rmsome (s : Disk) (d : Str) (keep : Path → Bool) : Disk :=
  { s with file := fun q => match q with | .work e _ => if e = d && !keep q then none else s.file q | _ => s.file q }
/-- os.RemoveAll of a working directory. libeopkg/delta.go:113. -/
def Disk.rmdir (s : Disk) (d : Str) : Disk :=
  { file := fun q => match q with | .work e _ => if e = d then none else s.file q | _ => s.file q
    dir := fun e => if e = d then false else s.dir e }

/-- Open files.
Opened at libeopkg/delta.go:61, 70, 177, 207, 280, 330, libeopkg/package.go:181 and core/util.go:43-47. -/
inductive Hnd | old | new | ballOut | tarIn | instOut | deltaOut | ballIn | copySrc | copyDst
deriving DecidableEq, Repr

/-- A run: disk, open files, durable states passed through (latest first), number of steps made.
Plumbing of the model: control flow of the Go functions. -/
structure Run where
  disk : Disk
  hs : List Hnd
  tr : List Disk
  tick : Nat

/-- The outside of a run.
Which steps fail and what the clock and the other processes do.  Plumbing of the model: control flow of the Go functions. -/
structure World where
  /-- the n-th step of the run fails -/
  fail : Nat → Bool
  /-- hard links are possible between the build directory and the staging area -/
  linkOk : Bool
  /-- removing a whole directory succeeds -/
  rmOk : Bool
  /-- what a failing removal of a directory leaves -/
  keep : Path → Bool
/-- libeopkg/delta.go:39-47, libeopkg/package.go:101, 136, 173 and any failing system call. -/
inductive Err | io | corrupted | mismatched | pointless
deriving DecidableEq, Repr

/-- Computations: result and run. Plumbing of the model: control flow of the Go functions. -/
def P (α : Type) : Type := World → Run → Except Err α × Run

namespace P
/-- Plumbing of the model: control flow of the Go functions. -/
def pure (a : α) : P α := fun _ r => (.ok a, r)
/-- Plumbing of the model: control flow of the Go functions. -/
def bind (x : P α) (f : α → P β) : P β := fun w r =>
  match x w r with
  | (.ok a, r') => f a w r'
  | (.error e, r') => (.error e, r')
instance : Monad P := { pure := P.pure, bind := P.bind }
/-- Plumbing of the model: control flow of the Go functions. -/
def throw (e : Err) : P α := fun _ r => (.error e, r)
/-- `defer c()`: `c` runs after `x`, whatever `x` returned; its own result is dropped.
libeopkg/delta.go:169-173, 211, 257, 289; core/util.go:46, 164, 171. -/
def finally_ (x : P α) (c : P Unit) : P α := fun w r =>
  let (v, r') := x w r
  (v, (c w r').2)
/-- `defer func() { if err != nil { c() } }()`. libeopkg/delta.go:56-60, 317-325. -/
def onErr (x : P α) (c : P Unit) : P α := fun w r =>
  match x w r with
  | (.ok a, r') => (.ok a, r')
  | (.error e, r') => (.error e, (c w r').2)
/-- The error is dropped. libeopkg/delta.go:319, 323. -/
def ignore (x : P Unit) : P Unit := fun w r => (.ok (), (x w r).2)
end P
/-- Plumbing of the model: control flow of the Go functions. -/
def get : P Disk := fun _ r => (.ok r.disk, r)
/-- A durable change of the disk. Plumbing of the model: control flow of the Go functions. -/
def put (f : Disk → Disk) : P Unit := fun _ r => (.ok (), { r with disk := f r.disk, tr := f r.disk :: r.tr })
/-- A file descriptor is taken.  Plumbing of the model: control flow of the Go functions. -/
def opened (h : Hnd) : P Unit := fun _ r => (.ok (), { r with hs := h :: r.hs })
/-- A file descriptor is given back.  Plumbing of the model: control flow of the Go functions. -/
def closed (h : Hnd) : P Unit := fun _ r => (.ok (), { r with hs := r.hs.erase h })
/-- A step that may fail. Any system call of libeopkg/delta.go and core/util.go:37-74. -/
def step : P Unit := fun w r =>
  if w.fail r.tick then (.error .io, { r with tick := r.tick + 1 }) else (.ok (), { r with tick := r.tick + 1 })

/-- The directory of a file exists (the staging area always does, repo.go:138-147). -/
def Disk.hasDir (s : Disk) : Path → Bool
  | .work d _ => s.dir d
  | _ => true

/-- os.Create: the file is there, with no content. libeopkg/delta.go:177, 330, libeopkg/package.go:181. -/
def create (p : Path) (h : Hnd) : P Unit := do
  step
  if (← get).hasDir p then do
    put fun s => s.set p (some .part)
    opened h
  else P.throw .io

/-- Writing all of a created file: until it is done the file is cut short.
libeopkg/delta.go:177-190, 214-241, 330-347, libeopkg/package.go:181-189. -/
def fill (p : Path) (d : Data) : P Unit := do
  step
  put fun s => s.set p (some d)

/-- libeopkg/package.go:57-68 `Open`: a file that is not a zip archive is an error. -/
def openPkg (p : Path) (h : Hnd) : P Arch := do
  step
  match (← get).file p with
  | some (.zip a) => do opened h; pure a
  | _ => P.throw .io

/-- libeopkg/package.go:159-164 `ReadAll`. -/
def readAll (a : Arch) : P Unit := do
  step
  if a.readable then pure () else P.throw .corrupted

/-- os.RemoveAll. libeopkg/delta.go:113. -/
def removeAll (d : Str) : P Unit := fun w r =>
  if w.rmOk then put (fun s => s.rmdir d) w r
  else
    let r' := (put (fun s => s.rmsome d w.keep) w r).2
    (.error .io, r')

/-- os.Remove. libeopkg/delta.go:319, 323, core/util.go:171. -/
def remove (p : Path) : P Unit := do
  step
  put fun s => s.set p none

/-- libeopkg/delta.go:84-89: name of the working directory. -/
def workDir (old new : Meta) : Str :=
  new.name ++ '-' :: ((new.history.head?.map Update.version).getD [] ++ '-' :: (new.arch ++ '-' ::
    (fmtInt (relOf old) ++ '-' :: fmtInt (relOf new))))

/-- delta.go:103-110: the packages opened are closed. -/
def closeAll : List Hnd → P Unit
  | [] => pure ()
  | h :: hs => do closed h; closeAll hs

/-- delta.go:102-116 `Close` of a producer that has opened `hs` and, with `d`, chosen a working directory. -/
def close (hs : List Hnd) (d : Option Str) : P Unit := do
  closeAll hs
  match d with
  | some d => P.ignore (removeAll d)
  | none => pure ()

/-- delta.go:51-99 `NewDeltaProducer`.  On an error the producer is closed, except in 80, where `err` is still nil. -/
def newProducer (pold pnew : Path) : P (Arch × Arch × Str) := do
  let o ← openPkg pold .old
  P.onErr (readAll o) (close [.old] none)
  let n ← P.onErr (openPkg pnew .new) (close [.old] none)
  P.onErr (readAll n) (close [.old, .new] none)
  if !isDeltaPossible o.pack.pkg n.pack.pkg (relOf o.pack.pkg) (relOf n.pack.pkg) then P.throw .mismatched
  else
    let d := workDir o.pack.pkg n.pack.pkg
    P.onErr (do step; put fun s => s.mkdir d) (close [.old, .new] (some d))
    pure (o, n, d)

/-- libeopkg/util.go:73-87 `UnxzFile` without keeping the original: refuses to overwrite. -/
def unxz (src dst : Path) : P Unit := do
  step
  let s ← get
  match s.file src, s.file dst with
  | some (.xz t), none => do
    put fun s => s.set dst (some .part)
    put fun s => s.set dst (some (.tar t))
    put fun s => s.set src none
  | _, _ => P.throw .io

/-- libeopkg/util.go:56-70 `XzFile` without keeping the original: refuses to overwrite. -/
def xz (src dst : Path) : P Unit := do
  step
  let s ← get
  match s.file src, s.file dst with
  | some (.tar t), none => do
    put fun s => s.set dst (some .part)
    put fun s => s.set dst (some (.xz t))
    put fun s => s.set src none
  | _, _ => P.throw .io

/-- libeopkg/package.go:168-190 `ExtractTarball`. -/
def extractTarball (n : Arch) (d : Str) : P Unit := do
  if !n.hasTar then P.throw .corrupted
  else
    create (.work d .instXz) .instOut
    P.finally_ (do
      fill (.work d .instXz) (.xz n.pack.tar)
      unxz (.work d .instXz) (.work d .inst)) (closed .instOut)

/-- delta.go:199-241 `copyInstallPartial`: the entries of the extracted tar that are in the diff map. -/
def copyInstallPartial (n : Arch) (d : Str) (dm : List Str) : P Unit := do
  extractTarball n d
  step
  match (← get).file (.work d .inst) with
  | some (.tar t) => do
    opened .tarIn
    P.finally_ (fill (.work d .ball) (.tar (copyInstall dm t))) (closed .tarIn)
  | _ => P.throw .io

/-- delta.go:133-194 `produceInstallBall`: is there an install.tar.xz to put into the delta?  The output file of 172 is
never closed. -/
def produceInstallBall (o n : Arch) (d : Str) : P Bool := do
  let dm := diffMap o.pack.files n.pack.files
  if dm.length = n.pack.files.length then P.throw .pointless
  else if dm.length = 0 then pure false
  else
    create (.work d .ball) .ballOut
    copyInstallPartial n d dm
    xz (.work d .ball) (.work d .ballXz)
    pure true

/-- delta.go:275-310 `pushInstallBall`: the entries put in.  If the file cannot be examined (284) it is not closed. -/
def pushInstallBall (d : Str) (has : Bool) : P (List TarEntry) := do
  if !has then pure []
  else
    step
    match (← get).file (.work d .ballXz) with
    | some (.xz t) => do
      opened .ballIn
      step
      P.finally_ (do step; pure t) (closed .ballIn)
    | _ => P.throw .io

/-- delta.go:314-352 `Commit`: the temporary is removed on failure; the output file of 330 is never closed. -/
def commit (o n : Arch) (d : Str) : P Path := do
  let has ← produceInstallBall o n d
  let out : Path := .work d (.delta (deltaName n.pack.pkg (relOf o.pack.pkg) (relOf n.pack.pkg)))
  P.finally_ (do
      create out .deltaOut
      P.onErr (do
          step -- copyZipPartial
          let es ← pushInstallBall d has
          fill out (.zip ⟨⟨n.pack.pkg, n.pack.files, es, copyZip n.pack.zip⟩, has, true⟩))
        (P.ignore (remove out))
      pure out)
    (if has then P.ignore (remove (.work d .ballXz)) else pure ())

/-- core/util.go:32-63 `CopyFile`: a source that is not there is no error. -/
def copyFile (src dst : Path) : P Unit := do
  match (← get).file src with
  | none => pure ()
  | some c => do
    step
    opened .copySrc
    P.finally_ (do
        create dst .copyDst
        P.finally_ (fill dst c) (closed .copyDst))
      (closed .copySrc)

/-- os.Link of `src` to `dst`: did it succeed?  Not over an existing file. core/util.go:70. -/
def link (src dst : Path) : P Bool := fun w r =>
  let r := { r with tick := r.tick + 1 }
  match r.disk.file src, r.disk.file dst with
  | some c, none =>
    if w.linkOk then (.ok true, { r with disk := r.disk.set dst (some c), tr := r.disk.set dst (some c) :: r.tr })
    else (.ok false, r)
  | _, _ => (.ok false, r)

/-- core/util.go:66-75 `LinkOrCopyFile` without forcing a copy. -/
def linkOrCopy (src dst : Path) : P Unit := do
  if ← link src dst then pure () else copyFile src dst

/-- core/util.go:159-174 `ProduceDelta`. -/
def produceDelta (pold pnew target : Path) : P Unit := do
  let (o, n, d) ← newProducer pold pnew
  P.finally_ (do
      let p ← commit o n d
      P.finally_ (linkOrCopy p target) (P.ignore (remove p)))
    (close [.old, .new] (some d))

/-- core/repo.go:805-825 `CreateDelta` for the packages of the metadata `mo` and `mn`, served at `pold` and `pnew`: the
path of the staged delta. -/
def createDelta (mo mn : Meta) (pold pnew : Path) : P Path := do
  if !isDeltaPossible mo mn (relOf mo) (relOf mn) then P.throw .mismatched
  else
    let target : Path := .staged (deltaName mn (relOf mo) (relOf mn))
    if ((← get).file target).isSome then pure target
    else do
      produceDelta pold pnew target
      pure target

end Ferryd.Producer
