import Verif.Paths
import Verif.CoreFrame
/-!
# Transit: uploads (core/transit_manifest.go, jobs/transit_job.go)

Strings read from a manifest are sequences of Unicode characters (TOML text is UTF-8); all other modules see
them as opaque names, and '/' and '.' are single bytes in UTF-8, so nothing depends on the difference.
-/
namespace Ferryd

/-- Go's `unicode.IsSpace` (the property White_Space), used by `strings.TrimSpace`. Standard library. -/
def isSpace (c : Char) : Bool :=
  let n := c.toNat
  (9 ≤ n && n ≤ 13) || n == 32 || n == 0x85 || n == 0xA0 || n == 0x1680 || (0x2000 ≤ n && n ≤ 0x200A)
    || n == 0x2028 || n == 0x2029 || n == 0x202F || n == 0x205F || n == 0x3000

/-- `strings.TrimSpace`. core/transit_manifest.go:128-129, 145-146. -/
def trimSpace (s : Str) : Str := ((s.dropWhile isSpace).reverse.dropWhile isSpace).reverse

/-- transit_manifest.go:95-102 `TransitManifestFile`. -/
structure TramFile where
  path : Str
  sha : Str
deriving DecidableEq, Repr

/-- transit_manifest.go:53-76: the decoded sections of a manifest. -/
structure Tram where
  version : Str
  target : Str
  files : List TramFile
deriving DecidableEq, Repr

/-- What is outside: the TOML decoder (BurntSushi/toml; `none` is a decoding error) and the daemon's working
directory. core/transit_manifest.go:108, 120. -/
structure TramEnv where
  dec : Content → Option Tram
  cwd : Str

/-- A loaded manifest (transit_manifest.go:63-76). -/
structure Manifest where
  dir : Str
  path : Str
  target : Str
  files : List TramFile
deriving DecidableEq, Repr

/-- `strings.HasSuffix(p, ".eopkg")`. core/transit_manifest.go:152. -/
def eopkgSuffix : Str := ['.', 'e', 'o', 'p', 'k', 'g']
/-- core/transit_manifest.go:152 `strings.HasSuffix(f.Path, ".eopkg")`. -/
def hasEopkg (p : Str) : Bool := eopkgSuffix.isSuffixOf p

/-- transit_manifest.go:141-153, the loop over the payload. -/
def checkFiles : List TramFile → Option (List TramFile)
  | [] => some []
  | f :: fs =>
    let p := trimSpace f.path
    let h := trimSpace f.sha
    if p = [] ∨ h = [] then none
    else if !hasEopkg p then none
    else (checkFiles fs).map (⟨p, h⟩ :: ·)

/-- transit_manifest.go:128-156: the validation of a decoded manifest. -/
def checkTram (dir path : Str) (t : Tram) : Option Manifest :=
  if trimSpace t.version ≠ ['1', '.', '0'] then none
  else if trimSpace t.target = [] then none
  else if t.files = [] then none
  else (checkFiles t.files).map fun fs => ⟨dir, path, trimSpace t.target, fs⟩

/-- transit_manifest.go:106-156 `NewTransitManifest`. -/
def newManifest (T : TramEnv) (path : Str) : M Manifest := do
  let s ← getSt
  let a := Paths.absP T.cwd path
  match s.fs.read (.ext a) with
  | none => throwE .io
  | some c => match T.dec c with
    | none => throwE .badManifest
    | some t => match checkTram (Paths.dir a) a t with
      | none => throwE .badManifest
      | some m => pure m

/-- transit_manifest.go:84-91 `GetPaths`. -/
def Manifest.paths (m : Manifest) : List Str := m.files.map fun f => Paths.join m.dir f.path

/-- transit_manifest.go:161-177 `ValidatePayload`. -/
def validatePayload (E : Env) (m : Manifest) : M Unit :=
  forL m.files fun f => do
    let h ← fileSha256 E (.ext (Paths.join m.dir f.path))
    if h ≠ f.sha then throwE .badHash else pure ()

/-- jobs/transit_job.go:54-97 `Execute` (the delta scheduling after it is dead code: `deltasEnabled` is a
constant false, jobs/index.go:28).  Failing removals are only logged. -/
def transitJob (E : Env) (T : TramEnv) (path : Str) : M Unit := do
  let m ← newManifest T path
  validatePayload E m
  getRepo m.target
  mAddPackages E m.target m.paths true
  forL (m.paths ++ [Paths.absP T.cwd path]) fun p => removeFile (.ext p)

end Ferryd
