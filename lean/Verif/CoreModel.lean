import Verif.Base
/-!
# CoreModel: pool, repositories and the manager API of ferryd

Models src/ferryd/core/{pool,repo,repo_index,util,api}.go function by function, in a monad that
threads the state of the world (database, file system, repository cache), records in a trace every
durable intermediate state, and can end in a result, an error or a Go panic.

Simplifications, common to the whole file:
* The database is typed: one map per bucket (`DB`).  The byte-level key layout that implements it is
  modelled separately in `Verif.Db`; the bucket-name collisions proved there are therefore not visible
  here.  Encoding/decoding of values (gob) is taken to be lossless.
* Directories are not modelled except a repository's base directory (needed by CreateRepo); creating and
  removing package directories (`MkdirAll`, `RemovePackageParents`) never changes files
  (RemovePackageParents is modelled in `Verif.Layout`).  File modes/owners/times are not modelled.
* I/O errors of the operating system other than "source does not exist", "link target exists",
  "link not possible between these places", "empty file cannot be mapped" are not modelled.
* Mutexes are left out here: all repository-changing jobs run on the one sequential worker (`Verif.Jobs`), and
  `Verif.Mutexes` puts them back and shows that they never change what a job does.
-/
namespace Ferryd

/-- Bytes of a file. Files of the pool, the repositories and the assets (core/util.go:37-61, 130-146). -/
abbrev Content := List Nat

/-- libeopkg/metadata.go:69-83 `Update` (fields used by ferryd). -/
structure Update where
  release : Int
  version : Str
deriving DecidableEq, Repr

/-- libeopkg/metadata.go:102-107 `Delta`. -/
structure DocDelta where
  releaseFrom : Int
  uri : Str
  size : Nat
  hash : Str
deriving DecidableEq, Repr

/-- libeopkg/metadata.go:113-150 `MetaPackage` (fields ferryd reads or writes; the rest is carried
opaquely by the real code). -/
structure Meta where
  name : Str
  source : Str
  history : List Update
  distRelease : Str
  arch : Str
  hash : Str
  size : Nat
  uri : Str
  /-- `DeltaPackages`: a list that came with the package's own metadata.xml -/
  own : List DocDelta
deriving DecidableEq, Repr

/-- pool.go:46-51 `DeltaInformation`. -/
structure DeltaInfo where
  fromRelease : Int
  fromID : Str
  toRelease : Int
  toID : Str
deriving DecidableEq, Repr

/-- pool.go:68-74 `PoolEntry` (schema version omitted).  `refCount` is uint64: increments are modelled
unbounded, the decrement in `unrefEntry` wraps at zero as in Go. -/
structure PoolEntry where
  name : Str
  refCount : Nat
  pkg : Meta
  delta : Option DeltaInfo
deriving DecidableEq, Repr

/-- repo.go:85-91 `RepoEntry` (schema version omitted). -/
structure RepoEntry where
  name : Str
  available : List Str
  published : Str
  deltas : List Str
deriving DecidableEq, Repr

/-- The main database: pool.go:31-35 buckets "pool", "deltaSkip"; repo.go:47-51 buckets "repo" and
"repo"/<id>/"package". -/
structure DB where
  pool : KV PoolEntry
  skip : KV DeltaInfo
  repos : KV Unit
  ents : Str → KV RepoEntry

/-- The three asset files, repo.go:843-847. -/
inductive Asset | distribution | components | groups
deriving DecidableEq, Repr

/-- Places where ferryd keeps files: outside files (uploads), pool.go:142-146 `<pool>/<comp>/<id>`,
repository tree `<repo>/<rid>/<comp>/<id>`, asset files, staged deltas. -/
inductive Path
  | ext (p : Str)
  | pool (comp id : Str)
  | repo (rid comp id : Str)
  | asset (rid : Str) (a : Asset)
  | stage (rid id : Str)
deriving DecidableEq, Repr

/-- One `<Package>` element of the index.
libeopkg/metadata.go:113-150 `MetaPackage`, the fields that the properties are about, as encoded at core/repo_index.go:166-195. -/
structure DocPkg where
  id : Str
  /-- the other fields -/
  pkg : Meta
  /-- `DeltaPackages` as emitted -/
  deltas : List DocDelta
deriving DecidableEq, Repr

/-- The index document (repo_index.go:218-283): the obsolete names of its distribution element, the packages, and the
component and group elements, each as its text. -/
structure Doc where
  obsoletes : Option (List Str)
  packages : List DocPkg
  components : List Str
  groups : List Str
deriving DecidableEq, Repr

/-- File system: a directory table to inodes, inode contents, next free inode; which repository base
directories exist; the published index of each repository (the nine index files are modelled in
`Verif.IndexFiles`).
The directories are those of core/repo.go:95-110, 201-215 and core/pool.go:83-86; files and links are made at core/util.go:37-74. -/
structure FS where
  tab : Path → Option Nat
  data : Nat → Content
  next : Nat
  rdir : Str → Bool
  idx : Str → Option Doc

/-- Writes to the main database.
The `PutObject` and `DeleteObject` calls of core/repo.go:222, 279, 285, 330, 572 and core/pool.go:123, 139, 288. -/
inductive DbWrite
  | putPool (k : Str) (e : PoolEntry)
  | delPool (k : Str)
  | putSkip (k : Str) (d : DeltaInfo)
  | putRepo (k : Str)
  | delRepo (k : Str)
  | putEnt (rid k : Str) (e : RepoEntry)
  | delEnt (rid k : Str)

/-- State of the world.  `cache` is RepositoryManager.repos (repo.go:67), `pend` the LevelDB batch of a
running `Update` (libdb/leveldb.go:178-193); both are lost in a crash.  `clock` only numbers index runs
so that their outside conditions (compressors, cloudflare) may differ each time. -/
structure St where
  db : DB
  fs : FS
  cache : List Str
  pend : List DbWrite
  clock : Nat

/-- Errors returned by the code, by cause.
One constructor per kind of failing call in core/*.go (e.g. core/repo.go:185, 321; core/pool.go:115; core/util.go:43-53); the texts are dropped. -/
inductive Err
  | notFound | exists_ | artifacts | reserved | io | corrupt | noMatch | tooSmall | noDist | badAsset
  | inconsistent | higherRelease | sameRelease | badDelta | indexIO | arity | badManifest | badHash
deriving DecidableEq, Repr

/-- Outcome of a call: value, Go error, or a Go panic (which kills the daemon).
Panics: an index out of range at libeopkg/metadata.go:159, 164, 192 and a nil dereference at the pool entry of a delta (core/repo_index.go:60-110). -/
inductive Res (α : Type)
  | ok (a : α)
  | err (e : Err)
  | panic
deriving DecidableEq, Repr
/-- A result, the state reached and the durable states passed through on the way.  Plumbing of the model: control flow of the Go functions. -/
structure Out (α : Type) where
  res : Res α
  st : St
  tr : List St      -- durable states passed through, oldest first
/-- Computations on the daemon's state.  Plumbing of the model: control flow of the Go functions. -/
def M (α : Type) := St → Out α

namespace M
/-- `return x, nil`.  Plumbing of the model: control flow of the Go functions. -/
def pure' {α} (a : α) : M α := fun s => ⟨.ok a, s, []⟩
/-- `x, err := m(); if err != nil { return err }; …`.  Plumbing of the model: control flow of the Go functions. -/
def bind' {α β} (m : M α) (f : α → M β) : M β := fun s =>
  match (m s).res with
  | .ok a => ⟨(f a (m s).st).res, (f a (m s).st).st, (m s).tr ++ (f a (m s).st).tr⟩
  | .err e => ⟨.err e, (m s).st, (m s).tr⟩
  | .panic => ⟨.panic, (m s).st, (m s).tr⟩
end M

instance : Monad M where
  pure := M.pure'
  bind := M.bind'
/-- `return err`.  Plumbing of the model: control flow of the Go functions. -/
def throwE {α} (e : Err) : M α := fun s => ⟨.err e, s, []⟩
/-- A Go run-time panic.  Plumbing of the model: control flow of the Go functions. -/
def panicM {α} : M α := fun s => ⟨.panic, s, []⟩
/-- Read the current state. Plumbing of the model: control flow of the Go functions. -/
def getSt : M St := fun s => ⟨.ok s, s, []⟩
/-- A durable effect: the new state is a possible crash state.
Plumbing of the model: control flow of the Go functions. -/
def stepM (f : St → St) : M Unit := fun s => ⟨.ok (), f s, [f s]⟩
/-- A volatile effect. Plumbing of the model: control flow of the Go functions. -/
def volM (f : St → St) : M Unit := fun s => ⟨.ok (), f s, []⟩

/-- `for _, x := range l { if err := f(x); err != nil { return err } }`
E.g. core/repo.go:541-548, core/api.go:126-131. -/
def forL {α} : List α → (α → M Unit) → M Unit
  | [], _ => pure ()
  | x :: xs, f => do f x; forL xs f

/-- Loop appending to a slice. E.g. core/repo.go:887-905. -/
def collectL {α β} : List α → (α → M (List β)) → M (List β)
  | [], _ => pure []
  | x :: xs, f => do
    let a ← f x
    let b ← collectL xs f
    pure (a ++ b)

/-- Loop with accumulator. E.g. core/repo.go:1230-1245. -/
def foldL {α β} : List α → β → (β → α → M β) → M β
  | [], b, _ => pure b
  | x :: xs, b, f => do
    let b' ← f b x
    foldL xs b' f

/-! ## Environment -/

/-- Result of libeopkg.Open + ReadMetadata (package.go:56-127): not an eopkg, a Go panic
(main.go:49-57 indexes the first element of an empty Summary/Description), or metadata. -/
inductive Parsed
  | bad
  | crash
  | good (m : Meta)

/-- What happens in the part of an index run after the document is written: success, failure before
publication (compressor), failure after publication (cloudflare).
core/repo_index.go:326-414; the details are in `Verif.IndexFiles`. -/
inductive IndexIO | ok | failBefore | failAfter
deriving DecidableEq

/-- Result of reading components.xml or groups.xml (libeopkg/components.go:66-88, groups.go:56-74, modelled in
`Verif.Eopkg`): unreadable, a Go panic (a component or group without a local name, or a component without summary or
description, main.go:49-57), or the elements in the order in which they are emitted. -/
inductive ParsedAsset
  | bad
  | crash
  | good (elements : List Str)
deriving DecidableEq

/-- Everything outside the modelled code.
Decoding of files (libeopkg/package.go:57-164), the file system's hard links (core/util.go:70), `path/filepath` and the order of Go's unstable sort (core/repo.go:1251). -/
structure Env where
  /-- can a hard link be made between these two places (same file system)? -/
  linkOk : Path → Path → Bool
  parse : Content → Parsed
  sha1 : Content → Str
  sha256 : Content → Str
  /-- obsolete names of distribution.xml; `none` when it does not parse. -/
  parseDist : Content → Option (List Str)
  parseComps : Content → ParsedAsset
  parseGroups : Content → ParsedAsset
  indexIO : Nat → IndexIO
  /-- the result of Go's (unstable) `sort.Sort(sort.Reverse(PackageSet))`: some permutation sorted by
  descending release. -/
  sortDesc : List Meta → List Meta
  sortDesc_perm : ∀ l, (sortDesc l).Perm l
  sortDesc_sorted : ∀ l, (sortDesc l).Pairwise
    (fun a b => (b.history.head?.map Update.release).getD 0 ≤ (a.history.head?.map Update.release).getD 0)

/-! ## libeopkg metadata helpers -/

/-- metadata.go:158-160 `GetRelease`: panics without history. -/
def getRelease (m : Meta) : M Int :=
  match m.history with
  | [] => panicM
  | u :: _ => pure u.release

/-- metadata.go:163-165 `GetVersion`. -/
def getVersion (m : Meta) : M Str :=
  match m.history with
  | [] => panicM
  | u :: _ => pure u.version

/-- `strings.ToLower` on ASCII letters (other letters are left alone: simplification). libeopkg/metadata.go:191. -/
def lowerC (c : Char) : Char :=
  if 'A'.val ≤ c.val ∧ c.val ≤ 'Z'.val then Char.ofNat (c.toNat + 32) else c
/-- `strings.ToLower`, libeopkg/metadata.go:191 (ASCII only: simplification). -/
def lowerS (s : Str) : Str := s.map lowerC

/-- metadata.go:190-200 `GetPathComponent` as a function; `none` is the panic of `nom[0:1]` on the empty
name.  `filepath.Join` is plain concatenation with '/' here (its cleaning of "." and ".." and of embedded
slashes is in `Verif.Paths`). -/
def pathComp? (source : Str) : Option Str :=
  match lowerS source with
  | [] => none
  | 'l' :: 'i' :: 'b' :: c :: rest => some (['l','i','b',c] ++ '/' :: ('l' :: 'i' :: 'b' :: c :: rest))
  | c :: rest => some (c :: '/' :: c :: rest)

/-- metadata.go:190-200 in the monad. -/
def pathComp (m : Meta) : M Str :=
  match pathComp? m.source with
  | none => panicM
  | some c => pure c

/-- The part of a path after the last slash. Part of `filepath.Base` (libeopkg/package.go:60). -/
def afterSlash : Str → Str
  | [] => []
  | c :: cs => if '/' ∈ cs then afterSlash cs else if c = '/' then cs else c :: cs

/-- `filepath.Base` for a path not ending in a slash (package paths).
libeopkg/package.go:60, libeopkg/metadata.go:154, core/api.go:283. -/
def baseName (p : Str) : Str := afterSlash p

/-- metadata.go:153-155 `GetID`: base of the package URI. -/
def Meta.getID (m : Meta) : Str := baseName m.uri

/-- The name by which package.go:56-60 `Open` identifies a file: the base name of its path. -/
def Path.base : Path → Str
  | .ext p => baseName p
  | .pool _ i => i
  | .repo _ _ i => i
  | .asset _ _ => []
  | .stage _ i => i

/-! ## Database access -/

/-- libdb/leveldb.go:89-116: keys PutObject and DeleteObject refuse. -/
def reservedKey (k : Str) : Bool :=
  "|bucket|".toList.isPrefixOf k || "|rootBucket|-".toList.isPrefixOf k
/-- The key a write goes to; one key per bucket path (libdb/leveldb.go:72-74, 149-165). -/
def DbWrite.key : DbWrite → Str
  | .putPool k _ => k | .delPool k => k | .putSkip k _ => k | .putRepo k => k | .delRepo k => k
  | .putEnt _ k _ => k | .delEnt _ k => k

/-- Update of one repository's package bucket. Bucket `repo/<id>/package`, core/repo.go:319, 329. -/
def setEnts (f : Str → KV RepoEntry) (rid : Str) (m : KV RepoEntry) : Str → KV RepoEntry :=
  fun r => if r = rid then m else f r
/-- Effect of a `Put` or `Delete` on the database, libdb/leveldb.go:89-116. -/
def DbWrite.apply (d : DB) : DbWrite → DB
  | .putPool k e => { d with pool := d.pool.put k e }
  | .delPool k => { d with pool := d.pool.del k }
  | .putSkip k e => { d with skip := d.skip.put k e }
  | .putRepo k => { d with repos := d.repos.put k () }
  | .delRepo k => { d with repos := d.repos.del k }
  | .putEnt r k e => { d with ents := setEnts d.ents r ((d.ents r).put k e) }
  | .delEnt r k => { d with ents := setEnts d.ents r ((d.ents r).del k) }

/-- Handle passed to the code: the database itself, or the batch of a running Update.
libdb/leveldb.go:178-193 `Update`. -/
inductive Handle | direct | batch
deriving DecidableEq

/-- libdb/leveldb.go:89-116 PutObject/DeleteObject: direct handles write through, a batch handle queues. -/
def dbWrite (h : Handle) (w : DbWrite) : M Unit :=
  if reservedKey w.key then throwE .reserved
  else match h with
    | .direct => stepM (fun s => { s with db := w.apply s.db })
    | .batch => volM (fun s => { s with pend := s.pend ++ [w] })

/-- libdb/leveldb.go:178-193 `Update`: run the body against a batch; write the whole batch atomically if it
succeeds, drop it otherwise.  Reads inside see the committed state only. -/
def dbUpdate (body : M Unit) : M Unit := fun s =>
  let o := body { s with pend := [] }
  match o.res with
  | .ok _ =>
    let s' := { o.st with db := o.st.pend.foldl DbWrite.apply o.st.db, pend := [] }
    ⟨.ok (), s', o.tr ++ [s']⟩
  | .err e => ⟨.err e, { o.st with pend := [] }, o.tr⟩
  | .panic => ⟨.panic, { o.st with pend := [] }, o.tr⟩

/-! ## File helpers (util.go) -/
/-- Effect on the directory table of `os.Link`, `os.OpenFile(O_CREATE)` or `os.Remove` (core/util.go:47, 70; core/pool.go:271). -/
def FS.setTab (fs : FS) (p : Path) (i : Option Nat) : FS :=
  { fs with tab := fun q => if q = p then i else fs.tab q }
/-- Effect on an inode of writing to an open file (core/util.go:47-55: truncation and `io.Copy`). -/
def FS.setData (fs : FS) (i : Nat) (c : Content) : FS :=
  { fs with data := fun j => if j = i then c else fs.data j }

/-- Content of a path, if it exists. `os.Open` and reading to the end (core/util.go:43-55). -/
def FS.read (fs : FS) (p : Path) : Option Content := (fs.tab p).map fs.data
/-- Plumbing of the model: control flow of the Go functions. -/
def St.setFs (s : St) (fs : FS) : St := { s with fs := fs }

/-- util.go:32-62 `os.OpenFile(dest, O_TRUNC|O_CREATE|O_WRONLY)`: empties the existing inode or creates a
new one. -/
def FS.openTrunc (fs : FS) (dst : Path) : FS × Nat :=
  match fs.tab dst with
  | some j => (fs.setData j [], j)
  | none => ({ (fs.setTab dst (some fs.next)).setData fs.next [] with next := fs.next + 1 }, fs.next)

/-- util.go:32-62 `CopyFile`: a missing source is silently ignored (line 40-42); the destination is
truncated first, then the source's content *at that time* is written. -/
def copyFile (src dst : Path) : M Unit := do
  let s ← getSt
  match s.fs.tab src with
  | none => pure ()
  | some i =>
    stepM (fun s => s.setFs (s.fs.openTrunc dst).1)
    stepM (fun s' => s'.setFs (s'.fs.setData (s.fs.openTrunc dst).2 (s'.fs.data i)))

/-- util.go:67-75 `LinkOrCopyFile`. `os.Link` fails when the source is missing, the target exists, or
linking between the two places is impossible. -/
def linkOrCopy (E : Env) (src dst : Path) (forceCopy : Bool) : M Unit := do
  if forceCopy then copyFile src dst
  else
    let s ← getSt
    match s.fs.tab src, s.fs.tab dst with
    | some i, none =>
      if E.linkOk src dst then stepM (fun s => s.setFs (s.fs.setTab dst (some i)))
      else copyFile src dst
    | _, _ => copyFile src dst

/-- `os.Remove` (a missing file is only a warning to every caller). core/pool.go:231, 271, core/repo.go:467. -/
def removeFile (p : Path) : M Unit := stepM (fun s => s.setFs (s.fs.setTab p none))

/-- util.go:105-115 `FileSha1sum`: mapping a missing or empty file fails (mmap.go). -/
def fileSha1 (E : Env) (p : Path) : M Str := do
  let s ← getSt
  match s.fs.read p with
  | none => throwE .io
  | some c => if c = [] then throwE .io else pure (E.sha1 c)

/-- util.go:118-128 `FileSha256sum`. -/
def fileSha256 (E : Env) (p : Path) : M Str := do
  let s ← getSt
  match s.fs.read p with
  | none => throwE .io
  | some c => if c = [] then throwE .io else pure (E.sha256 c)

/-- libeopkg.Package (package.go:44-52): path, ID and metadata. -/
structure Pkg where
  path : Path
  id : Str
  pkg : Meta

/-- package.go:56-127 `Open` followed by `ReadMetadata`. -/
def openPkg (E : Env) (p : Path) : M Pkg := do
  let s ← getSt
  match s.fs.read p with
  | none => throwE .io
  | some c => match E.parse c with
    | .bad => throwE .corrupt
    | .crash => panicM
    | .good m => pure ⟨p, p.base, m⟩

/-! ## Pool (pool.go) -/

/-- pool.go:111-119 `GetEntry`; `none` is the not-found error. -/
def poolGet? (id : Str) : M (Option PoolEntry) := do
  let s ← getSt
  pure (s.db.pool.get id)

/-- pool.go:111-119 `GetEntry` where the caller returns the error (as in GetPoolEntry, core/api.go:282-288). -/
def poolGet (id : Str) : M PoolEntry := do
  match ← poolGet? id with
  | none => throwE .notFound
  | some e => pure e

/-- `fmt.Sprintf("%s/%s", comp, id)`, pool.go:213. -/
def mkURI (comp id : Str) : Str := comp ++ '/' :: id

/-- pool.go:187-236 `addPackageInternal` (and AddPackage, pool.go:241-243). -/
def poolAddInternal (E : Env) (p : Pkg) (copyDisk : Bool) (delta : Option DeltaInfo) : M PoolEntry := do
  match ← poolGet? p.id with
  | some e =>
    let e' := { e with refCount := e.refCount + 1 }
    dbWrite .direct (.putPool e.name e')
    pure e'
  | none =>
    let s ← getSt
    match s.fs.read p.path with
    | none => throwE .io
    | some c =>
      let comp ← pathComp p.pkg
      linkOrCopy E p.path (.pool comp p.id) copyDisk
      let sha ← fileSha1 E p.path
      let e : PoolEntry :=
        { name := p.id, refCount := 1, delta := delta,
          pkg := { p.pkg with hash := sha, size := c.length, uri := mkURI comp p.id } }
      if reservedKey p.id then do
        removeFile (.pool comp p.id)
        throwE .reserved
      else do
        dbWrite .direct (.putPool p.id e)
        pure e

/-- pool.go:161-183 `AddDelta`. -/
def poolAddDelta (E : Env) (p : Pkg) (fromID toID : Str) (copyDisk : Bool) : M PoolEntry := do
  match ← poolGet? p.id with
  | some e =>
    let e' := { e with refCount := e.refCount + 1 }
    dbWrite .direct (.putPool e.name e')
    pure e'
  | none =>
    let src ← poolGet fromID
    let tgt ← poolGet toID
    let tr ← getRelease tgt.pkg
    let fr ← getRelease src.pkg
    poolAddInternal E p copyDisk (some ⟨fr, fromID, tr, toID⟩)

/-- pool.go:247-254 `RefEntry`. -/
def refEntry (id : Str) : M Unit := do
  let e ← poolGet id
  dbWrite .direct (.putPool e.name { e with refCount := e.refCount + 1 })

/-- Decrement of a uint64, wrapping at zero. core/pool.go:264 `entry.RefCount--`. -/
def dec64 (n : Nat) : Nat := if n = 0 then 2 ^ 64 - 1 else n - 1

/-- pool.go:259-289 `UnrefEntry`. -/
def unrefEntry (h : Handle) (id : Str) : M Unit := do
  let e ← poolGet id
  if dec64 e.refCount > 0 then
    dbWrite h (.putPool e.name { e with refCount := dec64 e.refCount })
  else do
    let comp ← pathComp e.pkg
    removeFile (.pool comp id)
    dbWrite h (.delPool id)

/-- pool.go:293-310 `MarkDeltaFailed` (and Manager.MarkDeltaFailed, api.go:271-273). -/
def markDeltaFailed (id : Str) (d : DeltaInfo) : M Unit := do
  let s ← getSt
  match s.db.skip.get id with
  | some _ => pure ()
  | none => dbWrite .direct (.putSkip id d)

/-- pool.go:314-320 `GetDeltaFailed` (and Manager.GetDeltaFailed, api.go:277-279). -/
def getDeltaFailed (id : Str) : M Bool := do
  let s ← getSt
  pure (s.db.skip.get id).isSome

/-! ## Repository manager (repo.go) -/

/-- repo.go:125-154 `bakeRepo`: ensures the directories. -/
def bakeRepo (rid : Str) : M Unit :=
  stepM (fun s => s.setFs { s.fs with rdir := fun r => if r = rid then true else s.fs.rdir r })

/-- repo.go:177-199 `GetRepo`. -/
def getRepo (rid : Str) : M Unit := do
  let s ← getSt
  if rid ∈ s.cache then pure ()
  else match s.db.repos.get rid with
    | none => throwE .notFound
    | some _ => do
      bakeRepo rid
      volM (fun s => { s with cache := rid :: s.cache })

/-- repo.go:202-235 `CreateRepo`. -/
def createRepo (rid : Str) : M Unit := do
  let s ← getSt
  match (getRepo rid s).res with
  | .ok _ => do getRepo rid; throwE .exists_
  | _ =>
    if s.fs.rdir rid then throwE .artifacts
    else do
      dbWrite .direct (.putRepo rid)
      bakeRepo rid
      volM (fun s => { s with cache := rid :: s.cache })

/-- repo.go:318-325 `GetEntry`; `none` is the not-found error. -/
def repoGet? (rid name : Str) : M (Option RepoEntry) := do
  let s ← getSt
  pure ((s.db.ents rid).get name)
/-- core/repo.go:317-325 `GetEntry`. -/
def repoGet (rid name : Str) : M RepoEntry := do
  match ← repoGet? rid name with
  | none => throwE .notFound
  | some e => pure e

/-- repo.go:328-331 `putEntry`. -/
def repoPut (rid : Str) (e : RepoEntry) : M Unit := dbWrite .direct (.putEnt rid e.name e)

/-- `rootBucket.ForEach` over the package bucket of a repository: the entries in key order, as of the
start of the iteration (LevelDB iterators read a snapshot).
core/repo.go:256, 759, 887, 964, 1030, 1087, 1162, 1230, core/repo_index.go:222. -/
def repoEntries (rid : Str) : M (List RepoEntry) := do
  let s ← getSt
  pure ((s.db.ents rid).map Prod.snd)

/-- repo.go:454-489 `removePackageInternal` (and removeDeltaInternal, 490-492). A missing pool entry is
silently ignored. -/
def removePackageInternal (h : Handle) (rid id : Str) : M Unit := do
  match ← poolGet? id with
  | none => pure ()
  | some e => do
    let comp ← pathComp e.pkg
    removeFile (.repo rid comp e.name)
    unrefEntry h id

/-- repo.go:334-386 `RefDelta`. -/
def refDelta (E : Env) (rid id : Str) : M Unit := do
  let pe ← poolGet id
  let e ← repoGet rid pe.pkg.name
  let comp ← pathComp pe.pkg
  if id ∈ e.deltas then pure ()
  else do
    refEntry id
    linkOrCopy E (.pool comp id) (.repo rid comp id) false
    repoPut rid { e with deltas := sortS (e.deltas ++ [id]) }

/-- repo.go:389-451 `AddDelta` + `AddLocalDelta`. -/
def addDelta (E : Env) (rid : Str) (file : Path) (fromID toID : Str) : M Unit := do
  let p ← openPkg E file
  let e ← repoGet rid p.pkg.name
  let comp ← pathComp p.pkg
  if p.id ∈ e.deltas then pure ()
  else do
    let _ ← poolAddDelta E p fromID toID false
    linkOrCopy E (.pool comp p.id) (.repo rid comp p.id) false
    repoPut rid { e with deltas := sortS (e.deltas ++ [p.id]) }

/-- repo.go:524-543, the loop over the deltas of an entry in `UnrefPackage`: garbage-collect those from
or to the package, return the others.  A pool entry without delta information is a nil dereference. -/
def unrefDeltas (rid pkgID : Str) (ds : List Str) : M (List Str) :=
  collectL ds fun d => do
    let pd ← poolGet d
    match pd.delta with
    | none => panicM
    | some di =>
      if di.fromID = pkgID ∨ di.toID = pkgID then do
        removePackageInternal .direct rid pd.name
        pure []
      else pure [pd.name]

/-- repo.go:550-566, the loop over the available ids: drop the package, learn the highest release.
The accumulator is (newHighest, newHighestID, remaining). -/
def unrefAvail (pkgID : Str) (av : List Str) : M (Int × Str × List Str) :=
  foldL av ((0 : Int), ([] : Str), ([] : List Str)) fun acc id => do
    if id = pkgID then pure acc
    else do
      let pe ← poolGet id
      let rel ← getRelease pe.pkg
      if rel > acc.1 then pure (rel, id, acc.2.2 ++ [id])
      else pure (acc.1, acc.2.1, acc.2.2 ++ [id])

/-- repo.go:501-577 `UnrefPackage`. -/
def unrefPackage (rid pkgID : Str) : M Unit := do
  let pe ← poolGet pkgID
  let e ← repoGet rid pe.pkg.name
  removePackageInternal .direct rid pkgID
  let ds ← unrefDeltas rid pkgID e.deltas
  let acc ← unrefAvail pkgID e.available
  if acc.2.2.length < 1 then dbWrite .direct (.delEnt rid e.name)
  else repoPut rid { e with deltas := sortS ds, available := sortS acc.2.2, published := acc.2.1 }

/-- repo.go:620-668 `buildSaneEntry`; `none` means "already included".  The new entry starts without
deltas even when the old entry had some (line 622-626, 633-634). -/
def buildSaneEntry (rid : Str) (m : Meta) (newID : Str) : M (Option RepoEntry) := do
  match ← repoGet? rid m.name with
  | none => pure (some ⟨m.name, [newID], newID, []⟩)
  | some e => do
    let pub ← (do
      match ← poolGet? e.published with
      | none => pure newID
      | some pa => do
        let nr ← getRelease m
        let pr ← getRelease pa.pkg
        if nr > pr then pure newID else pure e.published)
    if newID ∈ e.available then pure none
    else pure (some ⟨m.name, sortS (e.available ++ [newID]), pub, []⟩)

/-- repo.go:580-616 `RefPackage`. -/
def refPackage (E : Env) (rid pkgID : Str) : M Unit := do
  let pe ← poolGet pkgID
  let comp ← pathComp pe.pkg
  match ← buildSaneEntry rid pe.pkg pkgID with
  | none => pure ()
  | some ne => do
    refEntry pkgID
    linkOrCopy E (.pool comp pkgID) (.repo rid comp pkgID) false
    repoPut rid ne

/-- repo.go:671-703 `AddLocalPackage`. -/
def addLocalPackage (E : Env) (rid : Str) (p : Pkg) : M Unit := do
  let comp ← pathComp p.pkg
  match ← buildSaneEntry rid p.pkg p.id with
  | none => pure ()
  | some ne => do
    let _ ← poolAddInternal E p false none
    linkOrCopy E (.pool comp p.id) (.repo rid comp p.id) false
    repoPut rid ne

/-- repo.go:707-750 `AddPackage`; `strict` is the parameter "anal". -/
def addPackage (E : Env) (rid : Str) (file : Path) (strict : Bool) : M Unit := do
  let p ← openPkg E file
  if !strict then addLocalPackage E rid p
  else
    match ← repoGet? rid p.pkg.name with
    | none => addLocalPackage E rid p
    | some l => do
      let pub ← poolGet l.published
      let pr ← getRelease pub.pkg
      let nr ← getRelease p.pkg
      if pr > nr then throwE .higherRelease
      else if pr = nr then throwE .sameRelease
      else addLocalPackage E rid p

/-- repo.go:755-772 `GetPackageNames`. -/
def getPackageNames (rid : Str) : M (List Str) := do
  let es ← repoEntries rid
  pure (es.map RepoEntry.name)

/-- repo.go:775-792 `GetPackages`. -/
def getPackages (rid name : Str) : M (List Meta) := do
  let e ← repoGet rid name
  collectL e.available fun id => do
    let pe ← poolGet id
    pure [pe.pkg]

/-- repo.go:842-868 `pullAssets`, one file. -/
def pullAsset (dst src : Str) (a : Asset) : M Unit := do
  let s ← getSt
  match s.fs.tab (.asset src a) with
  | none => pure ()
  | some _ => copyFile (.asset src a) (.asset dst a)

/-- repo.go:842-868 `pullAssets`. -/
def pullAssets (dst src : Str) : M Unit := do
  pullAsset dst src .distribution
  pullAsset dst src .components
  pullAsset dst src .groups

/-- repo.go:871-924 `CloneFrom` (into `dst`, from `src`). -/
def cloneFrom (E : Env) (dst src : Str) (full : Bool) : M Unit := do
  pullAssets dst src
  let es ← repoEntries src
  let ids := if full then es.flatMap RepoEntry.available else es.map RepoEntry.published
  let ds := if full then es.flatMap RepoEntry.deltas else []
  forL ids (refPackage E dst)
  forL ds (refDelta E dst)

/-- repo.go:965-1000, the closure of `PullFrom`: which tip to copy for one source entry. -/
def pullOne (dst : Str) (e : RepoEntry) : M (List (Str × Str)) := do
  match ← repoGet? dst e.name with
  | none => pure [(e.published, e.name)]
  | some l => do
    let tip ← poolGet e.published
    let our ← poolGet l.published
    let tr ← getRelease tip.pkg
    let orl ← getRelease our.pkg
    if tr < orl then throwE .inconsistent
    else if tr > orl then pure [(e.published, e.name)]
    else pure []

/-- repo.go:948-1016 `PullFrom`; returns the changed names. -/
def pullFrom (E : Env) (dst src : Str) : M (List Str) := do
  pullAssets dst src
  let es ← repoEntries src
  let todo ← collectL es (pullOne dst)
  forL (todo.map Prod.fst) (refPackage E dst)
  pure (todo.map Prod.snd)

/-- repo.go:1030-1055 / 1087-1112: ids of a repository's packages with the given source and release
(any release when `release ≤ 0`). -/
def matchingSource (rid source : Str) (release : Int) : M (List Str) := do
  let es ← repoEntries rid
  collectL es fun e => collectL e.available fun id => do
    let pe ← poolGet id
    if pe.pkg.source ≠ source then pure []
    else if release > 0 then do
      let r ← getRelease pe.pkg
      if r ≠ release then pure [] else pure [id]
    else pure [id]

/-- repo.go:1024-1077 `RemoveSource`. -/
def removeSource (rid source : Str) (release : Int) : M Unit := do
  let ids ← matchingSource rid source release
  if ids.length = 0 then throwE .noMatch
  else forL ids (unrefPackage rid)

/-- repo.go:1081-1133 `CopySourceFrom`. -/
def copySourceFrom (E : Env) (dst src source : Str) (release : Int) : M Unit := do
  let ids ← matchingSource src source release
  if ids.length = 0 then throwE .noMatch
  else forL ids (refPackage E dst)

/-- repo_index.go:35-51 `initDistribution`: the obsolete set, if there is a distribution.xml. -/
def initDistribution (E : Env) (rid : Str) : M (Option (List Str)) := do
  let s ← getSt
  match s.fs.read (.asset rid .distribution) with
  | none => pure none
  | some c => match E.parseDist c with
    | none => throwE .badAsset
    | some d => pure (some d)
/-- core/repo.go:1176, core/repo_index.go:178. -/
def dbgSuffix : Str := "-dbginfo".toList

/-- repo.go:1176-1180, repo_index.go:177-181: drop a "-dbginfo" suffix. -/
def stripDbg (nom : Str) : Str :=
  if dbgSuffix.isSuffixOf nom then nom.take (nom.length - 8) else nom

/-- repo.go:1166-1196, the scan of one entry in `TrimObsolete`: it stops at the first available package
whose stripped name is obsolete, and records that id only if the name differs from the entry's name. -/
def trimObsoleteScan (obs : List Str) (name : Str) : List Str → M (List Str)
  | [] => pure []
  | id :: ids => do
    let pe ← poolGet id
    if stripDbg pe.pkg.name ∈ obs then
      (if stripDbg pe.pkg.name ≠ name then pure [id] else pure [])
    else trimObsoleteScan obs name ids

/-- repo.go:1142-1214 `TrimObsolete`. -/
def trimObsolete (E : Env) (rid : Str) : M Unit := do
  match ← initDistribution E rid with
  | none => throwE .noDist
  | some obs => do
    let es ← repoEntries rid
    let ids ← collectL es fun e => trimObsoleteScan obs e.name e.available
    forL ids (unrefPackage rid)

/-- repo.go:1229-1259, the scan of one entry in `TrimPackages`. -/
def trimScan (E : Env) (maxKeep : Nat) (e : RepoEntry) : M (List Str) := do
  if e.available.length < maxKeep then pure []
  else do
    let cands ← collectL e.available fun id => do
      let pe ← poolGet id
      let _ ← (if e.available.length > 1 then getRelease pe.pkg else pure 0)
      pure [pe.pkg]
    pure (((E.sortDesc cands).drop maxKeep).filterMap fun m =>
      if m.getID = e.published then none else some m.getID)

/-- repo.go:1219-1281 `TrimPackages`. -/
def trimPackages (E : Env) (rid : Str) (maxKeep : Int) : M Unit := do
  if maxKeep < 1 then throwE .tooSmall
  else do
    let es ← repoEntries rid
    let ids ← collectL es (trimScan E maxKeep.toNat)
    forL ids (unrefPackage rid)

/-- repo.go:285-310: `os.RemoveAll` of the repository tree (with its index), one atomic step (the real
removal is file by file, after the repository has left the database). -/
def rmRepoTree (rid : Str) : M Unit := stepM fun s => s.setFs
  { s.fs with
    tab := fun p => match p with
      | .repo r _ _ => if r = rid then none else s.fs.tab p
      | _ => s.fs.tab p
    rdir := fun r => if r = rid then false else s.fs.rdir r
    idx := fun r => if r = rid then none else s.fs.idx r }

/-- repo.go:285-310: `os.RemoveAll` of the asset and delta directories. -/
def rmRepoAux (rid : Str) : M Unit := stepM fun s => s.setFs
  { s.fs with
    tab := fun p => match p with
      | .asset r _ => if r = rid then none else s.fs.tab p
      | .stage r _ => if r = rid then none else s.fs.tab p
      | _ => s.fs.tab p }

/-- repo.go:254-283, the transaction of `DeleteRepo`. -/
def deleteRepoBody (rid : Str) : M Unit := do
  let es ← repoEntries rid
  forL es fun e => do
    forL e.available (removePackageInternal .batch rid)
    forL e.deltas (removePackageInternal .batch rid)
    dbWrite .batch (.delEnt rid e.name)
  dbWrite .batch (.delRepo rid)

/-- repo.go:239-315 `DeleteRepo`. -/
def deleteRepo (rid : Str) : M Unit := do
  getRepo rid
  volM (fun s => { s with cache := s.cache.filter (· ≠ rid) })
  dbUpdate (deleteRepoBody rid)
  rmRepoTree rid
  rmRepoAux rid

/-! ## Index (repo_index.go) -/

/-- repo_index.go:127-166 `pushDeltaPackages`. -/
def pushDeltas (rid : Str) (pe : PoolEntry) : M (List DocDelta) := do
  let re ← repoGet rid pe.pkg.name
  collectL re.deltas fun d => do
    let pd ← poolGet d
    match pd.delta with
    | none => throwE .badDelta
    | some di => do
      let rel ← getRelease pe.pkg
      if di.toRelease ≠ rel then pure []
      else pure [⟨di.fromRelease, pd.pkg.uri, pd.pkg.size, pd.pkg.hash⟩]

/-- repo_index.go:168-214 `emitIndexPackage`, with 160-163 of `pushDeltaPackages`: when the repository has no delta for the
package, the `DeltaPackages` of its own metadata stay in place. -/
def emitPackage (rid : Str) (dist : Option (List Str)) (pe : PoolEntry) : M (List DocPkg) := do
  if (dist.getD []).contains (stripDbg pe.pkg.name) then pure []
  else do
    let ds ← pushDeltas rid pe
    pure [⟨pe.name, pe.pkg, if ds = [] then pe.pkg.own else ds⟩]

/-- repo_index.go:64-93 `emitComponents` and 97-124 `emitGroups`: the elements of an asset file; none without the file. -/
def emitAsset (p : Content → ParsedAsset) (rid : Str) (a : Asset) : M (List Str) := do
  let s ← getSt
  match s.fs.read (.asset rid a) with
  | none => pure []
  | some c =>
    match p c with
    | .bad => throwE .badAsset
    | .crash => panicM
    | .good l => pure l

/-- repo_index.go:218-283 `emitIndex`. -/
def emitIndex (E : Env) (rid : Str) (dist : Option (List Str)) : M Doc := do
  let es ← repoEntries rid
  let ids := sortS ((es.filter fun e => !(dist.getD []).contains e.name).map RepoEntry.published)
  let pkgs ← collectL ids fun id => do
    let pe ← poolGet id
    emitPackage rid dist pe
  let comps ← emitAsset E.parseComps rid .components
  let grps ← emitAsset E.parseGroups rid .groups
  pure ⟨dist, pkgs, comps, grps⟩

/-- repo_index.go:286-416 `Index`, with the writing, checksumming, compressing and renaming of the nine
files condensed to "publish the document" (see `Verif.IndexFiles`). -/
def indexRepo (E : Env) (rid : Str) : M Unit := do
  let dist ← initDistribution E rid
  let doc ← emitIndex E rid dist
  let s ← getSt
  volM (fun s => { s with clock := s.clock + 1 })
  match E.indexIO s.clock with
  | .failBefore => throwE .indexIO
  | .ok => stepM fun s => s.setFs { s.fs with idx := fun r => if r = rid then some doc else s.fs.idx r }
  | .failAfter => do
    stepM fun s => s.setFs { s.fs with idx := fun r => if r = rid then some doc else s.fs.idx r }
    throwE .indexIO

/-! ## Manager API (api.go) -/

/-- api.go:198-205 -/
def mIndex (E : Env) (rid : Str) : M Unit := do
  getRepo rid
  indexRepo E rid

/-- api.go:29-35 -/
def mCreateRepo (E : Env) (rid : Str) : M Unit := do
  createRepo rid
  mIndex E rid

/-- api.go:42-63 -/
def mCloneRepo (E : Env) (src new : Str) (full : Bool) : M Unit := do
  getRepo src
  createRepo new
  cloneFrom E new src full
  mIndex E new

/-- api.go:66-92 -/
def mPullRepo (E : Env) (src dst : Str) : M (List Str) := do
  getRepo src
  getRepo dst
  let changed ← pullFrom E dst src
  mIndex E dst
  pure changed

/-- api.go:96-107 -/
def mRemoveSource (E : Env) (rid source : Str) (release : Int) : M Unit := do
  getRepo rid
  removeSource rid source release
  mIndex E rid

/-- api.go:110-130 (the flag is tested the wrong way round: the index is rebuilt when it is set). -/
def mCopySource (E : Env) (src dst source : Str) (release : Int) (skipIndex : Bool) : M Unit := do
  getRepo src
  getRepo dst
  copySourceFrom E dst src source release
  if skipIndex then mIndex E dst else pure ()

/-- api.go:133-144 -/
def mTrimObsolete (E : Env) (rid : Str) : M Unit := do
  getRepo rid
  trimObsolete E rid
  mIndex E rid

/-- api.go:147-158 -/
def mTrimPackages (E : Env) (rid : Str) (maxKeep : Int) : M Unit := do
  getRepo rid
  trimPackages E rid maxKeep
  mIndex E rid

/-- api.go:166-168 -/
def mDeleteRepo (rid : Str) : M Unit := deleteRepo rid

/-- api.go:182-195 -/
def mAddPackages (E : Env) (rid : Str) (files : List Str) (strict : Bool) : M Unit := do
  getRepo rid
  forL files (fun f => addPackage E rid (.ext f) strict)
  mIndex E rid

/-- api.go:253-260 -/
def mAddDelta (E : Env) (rid : Str) (file : Path) (fromID toID : Str) : M Unit := do
  getRepo rid
  addDelta E rid file fromID toID

/-- api.go:263-269 -/
def mRefDelta (E : Env) (rid id : Str) : M Unit := do
  getRepo rid
  refDelta E rid id

/-! ## What a user observes -/

/-- The packages a repository lists as available under a name. (No code: a notion of the statements and proofs.) -/
def St.availOf (s : St) (rid name : Str) : List Str :=
  match (s.db.ents rid).get name with
  | some e => e.available
  | none => []

/-- Is the package available in the repository (under any name)? (No code: a notion of the statements and proofs.) -/
def St.has (s : St) (rid id : Str) : Bool :=
  (s.db.ents rid).any fun p => p.2.available.contains id

/-- Is the delta listed in the repository? (No code: a notion of the statements and proofs.) -/
def St.hasDelta (s : St) (rid id : Str) : Bool :=
  (s.db.ents rid).any fun p => p.2.deltas.contains id

/-- The repositories in which a package is available. (No code: a notion of the statements and proofs.) -/
def St.holders (s : St) (id : Str) : List Str := s.db.repos.keys.filter fun r => s.has r id

/-- The state found by a daemon started after a crash in state `s`: cache and batch are gone.
The volatile state is the cache of core/repo.go:178-195 and the batch of libdb/leveldb.go:178-193. -/
def St.crash (s : St) : St := { s with cache := [], pend := [] }

/-- The empty daemon. After core/manager.go:38-91 on an empty base directory. -/
def St.init : St :=
  { db := ⟨[], [], [], fun _ => []⟩,
    fs := { tab := fun _ => none, data := fun _ => [], next := 0, rdir := fun _ => false, idx := fun _ => none },
    cache := [], pend := [], clock := 0 }

end Ferryd
