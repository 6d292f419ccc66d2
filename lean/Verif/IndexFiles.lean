/-!
# IndexFiles: the files written by `Repository.Index`, core/repo_index.go:286-416

The nine served files of a repository's index, their temporaries, the order of the steps, what a failing step leaves
behind, the clean-up, the renames in map order, and every durable state in between.  What the XML encoder emits is given
(`Verif.CoreModel` models which packages are emitted).
-/
namespace Ferryd.IndexFiles
/-- Bytes of a file (core/repo_index.go:314). -/
abbrev Content := List Nat

/-- The index and its two compressed forms. core/repo_index.go:291-402. -/
inductive Art | plain | xz | zst
  deriving DecidableEq, Repr

/-- The file itself and its checksum files. core/repo_index.go:291-402, core/util.go:130-146. -/
inductive Kind | data | sha1 | sha256
  deriving DecidableEq, Repr

/-- One of the nine files of the mapping. core/repo_index.go:291-402. -/
structure File where
  art : Art
  kind : Kind
  deriving DecidableEq, Repr

/-- core/repo_index.go:291-402: the keys of `mapping` (temporaries, `tmp`) and its values (served files, `pub`):
eopkg-index.xml[.xz|.zst][.sha1sum|.sha256sum]. -/
inductive Name | tmp (f : File) | pub (f : File)
  deriving DecidableEq, Repr

/-- The files of one repository directory. core/repo_index.go:291-292. -/
abbrev FS := Name → Option Content
/-- Effect of creating, writing or removing one file (core/repo_index.go:304, 314). -/
def FS.set (s : FS) (n : Name) (c : Option Content) : FS := fun m => if m = n then c else s m

/-- os.Rename. core/repo_index.go:405. -/
def FS.rename (s : FS) (a b : Name) : FS := (s.set b (s a)).set a none

/-- What the outside does in one run. core/repo_index.go:286-416. -/
structure World where
  /-- the document the encoder emits -/
  index : Content
  sha1 : Content → Content
  sha256 : Content → Content
  xz : Content → Content
  zst : Content → Content
  /-- contents a temporary goes through before it is complete (any bytes) -/
  parts : File → List Content
  /-- initDistribution, 309: the distribution file is readable -/
  distOk : Bool
  /-- creating and writing this temporary succeeds -/
  stepOk : File → Bool
  /-- what the compressor leaves when it fails -/
  left : File → Option Content
  /-- iteration order of the mapping, 404 -/
  order : List File
  renameOk : File → Bool
  /-- purgeCloudflare, 410 -/
  purgeOk : Bool

/-- Registration order of the mapping. core/repo_index.go:311-402. -/
def files : List File :=
  [⟨.plain, .data⟩, ⟨.plain, .sha1⟩, ⟨.plain, .sha256⟩, ⟨.xz, .data⟩, ⟨.xz, .sha1⟩, ⟨.xz, .sha256⟩,
   ⟨.zst, .data⟩, ⟨.zst, .sha1⟩, ⟨.zst, .sha256⟩]
/-- core/repo_index.go:286 `errAbort`. -/
inductive Res | ok | err
  deriving DecidableEq, Repr

/-- Result, files, and the durable states passed through. Plumbing of the model: control flow of the Go functions. -/
structure Out where
  res : Res
  fs : FS
  tr : List FS

/-- A file is created (or truncated) and filled: core/repo_index.go:315-322 `os.Create` and `emitIndex`,
core/util.go:130-146 `ioutil.WriteFile`.  On failure the last part remains. -/
def fill (s : FS) (f : File) (parts : List Content) (ok : Bool) (c : Content) : Out :=
  let tr := (([] :: parts).map fun p => s.set (.tmp f) (some p))
  if ok then ⟨.ok, s.set (.tmp f) (some c), tr ++ [s.set (.tmp f) (some c)]⟩
  else ⟨.err, (tr.getLast?).getD s, tr⟩

/-- core/util.go:130-146 `WriteSha1sum`, `WriteSha256sum`: hash the temporary of the file, write the checksum. -/
def checksum (w : World) (s : FS) (f : File) : Out :=
  match s (.tmp ⟨f.art, .data⟩) with
  | none => ⟨.err, s, []⟩
  | some c => fill s f (w.parts f) (w.stepOk f) (match f.kind with | .sha256 => w.sha256 c | _ => w.sha1 c)

/-- libeopkg/util.go:56-69,91-104 `XzFile`, `ZstdFile` with the original kept: xz and zstd refuse to overwrite an
existing output file. -/
def compress (w : World) (s : FS) (f : File) : Out :=
  match s (.tmp ⟨.plain, .data⟩), s (.tmp f) with
  | none, _ => ⟨.err, s, []⟩
  | _, some _ => ⟨.err, s, []⟩
  | some c, none =>
    let tr := (([] :: w.parts f).map fun p => s.set (.tmp f) (some p))
    if w.stepOk f then
      let c' := match f.art with | .zst => w.zst c | _ => w.xz c
      ⟨.ok, s.set (.tmp f) (some c'), tr ++ [s.set (.tmp f) (some c')]⟩
    else ⟨.err, s.set (.tmp f) (w.left f), tr ++ [s.set (.tmp f) (w.left f)]⟩

/-- The step that makes one temporary. core/repo_index.go:314-402. -/
def make (w : World) (s : FS) (f : File) : Out :=
  match f.kind, f.art with
  | .data, .plain => fill s f (w.parts f) (w.stepOk f) w.index
  | .data, _ => compress w s f
  | _, _ => checksum w s f

/-- core/repo_index.go:296-307: the deferred clean-up of the keys registered so far (order immaterial). -/
def cleanup (s : FS) : List File → Out
  | [] => ⟨.err, s, []⟩
  | f :: fs =>
    let s' := s.set (.tmp f) none
    let o := cleanup s' fs
    ⟨.err, o.fs, s' :: o.tr⟩

/-- core/repo_index.go:314-402: the steps in order; `done` are the keys registered before. -/
def makeAll (w : World) (s : FS) (done : List File) : List File → Out
  | [] => ⟨.ok, s, []⟩
  | f :: fs =>
    let o := make w s f
    match o.res with
    | .ok =>
      let o' := makeAll w o.fs (done ++ [f]) fs
      ⟨o'.res, o'.fs, o.tr ++ o'.tr⟩
    | .err =>
      let o' := cleanup o.fs (done ++ [f])
      ⟨.err, o'.fs, o.tr ++ o'.tr⟩

/-- core/repo_index.go:404-408: the renames. -/
def renames (w : World) (s : FS) : List File → Out
  | [] => ⟨.ok, s, []⟩
  | f :: fs =>
    if w.renameOk f then
      let s' := s.rename (.tmp f) (.pub f)
      let o := renames w s' fs
      ⟨o.res, o.fs, s' :: o.tr⟩
    else
      let o := cleanup s files
      ⟨.err, o.fs, o.tr⟩

/-- core/repo_index.go:286-416 `Index`. -/
def run (w : World) (s : FS) : Out :=
  if !w.distOk then ⟨.err, s, []⟩
  else
    let o := makeAll w s [] files
    match o.res with
    | .err => o
    | .ok =>
      let o' := renames w o.fs w.order
      match o'.res with
      | .err => ⟨.err, o'.fs, o.tr ++ o'.tr⟩
      | .ok =>
        if w.purgeOk then ⟨.ok, o'.fs, o.tr ++ o'.tr⟩
        else
          let o'' := cleanup o'.fs files
          ⟨.err, o''.fs, o.tr ++ o'.tr ++ o''.tr⟩

end Ferryd.IndexFiles
