import Verif.JobsParams
import Verif.CoreModel
/-!
# Delta: production of delta packages (libeopkg/delta.go, libeopkg/util.go)

A package is its metadata, the list of files in its files.xml, the entries of its install.tar and the members of
its zip archive.  The archive formats themselves (zip, tar, xz) are not modelled: an archive is the list of its
members.  Go maps used as sets are lists here; nothing depends on their order.
-/
namespace Ferryd.Delta
open Ferryd.Jobs

/-- libeopkg/files.go:37-48 `File` (fields used in delta production).  The hash is empty for directories. -/
structure File where
  path : Str
  hash : Str
deriving DecidableEq, Repr

/-- One entry of install.tar: header name, is it a regular file, content. libeopkg/delta.go:214-241. -/
structure TarEntry where
  name : Str
  reg : Bool
  data : Content
deriving DecidableEq, Repr

/-- A member of the zip archive other than install.tar.xz, and the install.tar.xz as its entries.
libeopkg/package.go:40-52, 166-190. -/
structure Pack where
  pkg : Meta
  files : List File
  tar : List TarEntry
  zip : List (Str × Content)
deriving DecidableEq, Repr

/-- `strings.TrimSuffix(p, "/")`. libeopkg/delta.go:154, 225. -/
def trimSlash (p : Str) : Str := if p.getLast? = some '/' then p.dropLast else p

/-- delta.go:133-160: the set of paths to include (`diffMap`), without repetition. -/
def diffMap (old new : List File) : List Str :=
  ((new.filter fun f => !((old.map File.hash).contains f.hash) || f.hash == []).map fun f => trimSlash f.path).eraseDups

/-- What `produceInstallBall` and `Commit` can return. libeopkg/delta.go:130-194, 311-353. -/
inductive Ball
  | pointless
  | noBall
  | ball (entries : List TarEntry)
deriving DecidableEq, Repr

/-- delta.go:199-241 `copyInstallPartial`: entries in the diff map, with content for regular files. -/
def copyInstall (dm : List Str) (tar : List TarEntry) : List TarEntry :=
  (tar.filter fun t => dm.contains (trimSlash t.name)).map fun t => if t.reg then t else { t with data := [] }

/-- delta.go:133-194 `produceInstallBall`. -/
def produceBall (old new : Pack) : Ball :=
  let dm := diffMap old.files new.files
  if dm.length = new.files.length then .pointless
  else if dm.length = 0 then .noBall
  else .ball (copyInstall dm new.tar)

/-- "install.tar", the prefix of the members `copyZipPartial` leaves out (delta.go:249). -/
def installPrefix : Str := ['i', 'n', 's', 't', 'a', 'l', 'l', '.', 't', 'a', 'r']

/-- delta.go:246-274 `copyZipPartial`. -/
def copyZip (zip : List (Str × Content)) : List (Str × Content) :=
  zip.filter fun m => !(installPrefix.isPrefixOf m.1)

/-- libeopkg/util.go:45-50 `IsDeltaPossible` on two releases. -/
def isDeltaPossible (old new : Meta) (ro rn : Int) : Bool :=
  decide (ro < rn) && old.name == new.name && old.distRelease == new.distRelease && old.arch == new.arch

/-- libeopkg/util.go:31-38 `ComputeDeltaName` on two releases. -/
def deltaName (new : Meta) (ro rn : Int) : Str :=
  new.name ++ '-' :: (fmtInt ro ++ '-' :: (fmtInt rn ++ '-' :: (new.distRelease ++ '-' :: (new.arch ++
    ['.', 'd', 'e', 'l', 't', 'a', '.', 'e', 'o', 'p', 'k', 'g']))))

/-- Releases of a package as a number (the panic on an empty history is in `Verif.CoreModel.getRelease`).
libeopkg/metadata.go:158-160. -/
def relOf (m : Meta) : Int := (m.history.head?.map Update.release).getD 0

/-- Result of producing a delta package (delta.go:49-95 `NewDeltaProducer`, 314-352 `Commit`). -/
inductive Produced
  | mismatched
  | pointless
  | pack (p : Pack)
deriving DecidableEq, Repr

/-- delta.go:49-95 and 314-352: the delta package has the members of the new one except its install.tar, and the
partial install.tar (none when no file differs). -/
def produce (old new : Pack) : Produced :=
  if !isDeltaPossible old.pkg new.pkg (relOf old.pkg) (relOf new.pkg) then .mismatched
  else match produceBall old new with
    | .pointless => .pointless
    | .noBall => .pack { pkg := new.pkg, files := new.files, tar := [], zip := copyZip new.zip }
    | .ball es => .pack { pkg := new.pkg, files := new.files, tar := es, zip := copyZip new.zip }

end Ferryd.Delta
