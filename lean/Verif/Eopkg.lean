import Verif.CoreModel
/-!
# Eopkg: reading packages and asset files (libeopkg), purging the cache (core/purge_cloudflare.go)

The zip and XML decoders of Go's standard library are parameters (`Dec`); what the code does with their results is here:
which member is read, the clean-up of the texts, the default language, the file modes, the order of components and groups.
-/
namespace Ferryd.Eopkg

/-- main.go:42-45 `LocalisedField`. -/
structure Field where
  value : Str
  lang : Str
deriving DecidableEq, Repr

/-- unicode.IsSpace: the Unicode property White_Space. Standard library. -/
def isSpace (c : Char) : Bool :=
  let n := c.toNat
  (9 ≤ n && n ≤ 13) || n == 0x20 || n == 0x85 || n == 0xA0 || n == 0x1680 || (0x2000 ≤ n && n ≤ 0x200A) ||
    n == 0x2028 || n == 0x2029 || n == 0x202F || n == 0x205F || n == 0x3000

/-- strings.TrimSpace. libeopkg/package.go:117, 122. -/
def trimSpace (s : Str) : Str := ((s.dropWhile isSpace).reverse.dropWhile isSpace).reverse

/-- main.go:49-57 `FixMissingLocalLanguage`; `none` is the panic of indexing an empty list.  (The test for nil in 50 never
applies: every caller passes the address of a field.) -/
def fixMissing : List Field → Option (List Field)
  | [] => none
  | f :: fs => some ((if f.lang = [] then { f with lang := ['e', 'n'] } else f) :: fs)

/-- metadata.go:173-176 `Metadata`: the two translated texts of the package, and the rest. -/
structure Metadata where
  summary : List Field
  description : List Field
  rest : Meta
deriving DecidableEq, Repr

/-- files.go:37-48 `File`: path, octal text of the mode, hash (empty for a directory), and the mode computed from it. -/
structure File where
  path : Str
  mode : Str
  hash : Str
  bits : Nat
deriving DecidableEq, Repr

/-- A member of the zip archive; no data if it cannot be opened. libeopkg/package.go:84-91, 103, 138. -/
structure Member where
  name : Str
  data : Option Content
deriving DecidableEq, Repr

/-- package.go:45-52 `Package`. -/
structure Package where
  zip : List Member
  info : Option Metadata
  files : Option (List File)
deriving DecidableEq, Repr

/-- components.go:26-43 `Component`: the rest stands for group and maintainer. -/
structure Component where
  name : Str
  localName : List Field
  summary : List Field
  description : List Field
  rest : Str
deriving DecidableEq, Repr

/-- groups.go:26-33 `Group`: the rest stands for the icon. -/
structure Group where
  name : Str
  localName : List Field
  rest : Str
deriving DecidableEq, Repr

/-- The decoders; `none` when they return an error.  `sortComps` and `sortGroups` are what Go's unstable sort.Sort makes of
a list. encoding/xml, used at libeopkg/package.go:110, 145, components.go:73-78, groups.go:63-67. -/
structure Dec where
  zip : Content → Option (List Member)
  info : Content → Option Metadata
  files : Content → Option (List File)
  comps : Content → Option (List Component)
  groups : Content → Option (List Group)
  sortComps : List Component → List Component
  sortComps_perm : ∀ l, (sortComps l).Perm l
  sortComps_sorted : ∀ l, (sortComps l).Pairwise (fun a b => strLe a.name b.name = true)
  sortGroups : List Group → List Group
  sortGroups_perm : ∀ l, (sortGroups l).Perm l
  sortGroups_sorted : ∀ l, (sortGroups l).Pairwise (fun a b => strLe a.name b.name = true)

/-- How a call ends. libeopkg/package.go:93-164. -/
inductive Res
  | ok
  /-- main.go:36-37 `ErrEopkgCorrupted` -/
  | corrupted
  /-- an error of a decoder or of opening the member -/
  | failed
  | panic
deriving DecidableEq, Repr

variable (D : Dec)

/-- package.go:57-68 `Open`. -/
def open_ (c : Content) : Option Package := (D.zip c).map fun z => ⟨z, none, none⟩

/-- package.go:84-91 `FindFile`. -/
def findFile (z : List Member) (name : Str) : Option Member := z.find? (fun m => m.name = name)
/-- libeopkg/package.go:99. -/
def metadataXml : Str := ['m', 'e', 't', 'a', 'd', 'a', 't', 'a', '.', 'x', 'm', 'l']
/-- libeopkg/package.go:134. -/
def filesXml : Str := ['f', 'i', 'l', 'e', 's', '.', 'x', 'm', 'l']

/-- package.go:115-118, 120-123: the texts without surrounding blanks. -/
def trimAll (fs : List Field) : List Field := fs.map fun f => { f with value := trimSpace f.value }

/-- package.go:95-126 `ReadMetadata`.  `p.Meta` is set before the clean-up (113). -/
def readMetadata (p : Package) : Res × Package :=
  if p.info.isSome then (.ok, p)
  else
    match findFile p.zip metadataXml with
    | none => (.corrupted, p)
    | some m =>
      match m.data.bind D.info with
      | none => (.failed, p)
      | some md =>
        match fixMissing (trimAll md.summary) with
        | none => (.panic, { p with info := some { md with summary := trimAll md.summary } })
        | some s =>
          match fixMissing (trimAll md.description) with
          | none => (.panic, { p with info := some { md with summary := s, description := trimAll md.description } })
          | some d => (.ok, { p with info := some { md with summary := s, description := d } })

/-- The loop of strconv.ParseUint(s, 8, 32). libeopkg/files.go:57. -/
def parseOctal : Str → Nat → Option Nat
  | [], n => some n
  | c :: cs, n =>
    let d := c.toNat - 48
    if c.toNat < 48 ∨ 7 < d then none
    else if 2 ^ 32 ≤ n * 8 + d then none
    else parseOctal cs (n * 8 + d)

/-- files.go:56-63 `initFileMode`: strconv.ParseUint(f.Mode, 8, 32), which refuses the empty string. -/
def initFileMode (f : File) : Option File :=
  if f.mode = [] then none else (parseOctal f.mode 0).map fun n => { f with bits := n }

/-- files.go:66-68 `FileMode`, and os.FileMode of Go: its permission bits are the nine lowest, the set-uid bit is number 23,
the set-gid bit 22, the sticky bit 20. -/
def File.perm (f : File) : Nat := f.bits % 512
/-- `os.FileMode` bit of libeopkg/files.go:56-68. -/
def File.setuid (f : File) : Bool := f.bits.testBit 23
/-- `os.FileMode` bit of libeopkg/files.go:56-68. -/
def File.setgid (f : File) : Bool := f.bits.testBit 22
/-- `os.FileMode` bit of libeopkg/files.go:56-68. -/
def File.sticky (f : File) : Bool := f.bits.testBit 20

/-- package.go:149-153: the loop over the files. -/
def initModes : List File → Option (List File)
  | [] => some []
  | f :: fs =>
    match initFileMode f with
    | none => none
    | some f' => (initModes fs).map (f' :: ·)

/-- package.go:130-156 `ReadFiles`. -/
def readFiles (p : Package) : Res × Package :=
  if p.files.isSome then (.ok, p)
  else
    match findFile p.zip filesXml with
    | none => (.corrupted, p)
    | some m =>
      match m.data.bind D.files with
      | none => (.failed, p)
      | some fs =>
        match initModes fs with
        | none => (.failed, p)
        | some fs' => (.ok, { p with files := some fs' })

/-- package.go:159-164 `ReadAll`. -/
def readAll (p : Package) : Res × Package :=
  match readMetadata D p with
  | (.ok, p') => readFiles D p'
  | (r, p') => (r, p')

/-- The opening of a package as the repositories do it: `Open` and `ReadMetadata` (repo.go:708-716). -/
def parse (c : Content) : Parsed :=
  match open_ D c with
  | none => .bad
  | some p =>
    match readMetadata D p with
    | (.panic, _) => .crash
    | (.ok, ⟨_, some md, _⟩) => .good md.rest
    | _ => .bad

/-- components.go:81-86: the languages of one component. -/
def Component.fix (c : Component) : Option Component :=
  match fixMissing c.localName with
  | none => none
  | some l =>
    match fixMissing c.summary with
    | none => none
    | some s =>
      match fixMissing c.description with
      | none => none
      | some d => some { c with localName := l, summary := s, description := d }

/-- groups.go:69-72. -/
def Group.fix (g : Group) : Option Group :=
  match fixMissing g.localName with
  | none => none
  | some l => some { g with localName := l }

/-- A loop that panics when one of its rounds does. libeopkg/components.go:81-86, groups.go:69-72. -/
def fixAll {α : Type} (f : α → Option α) : List α → Option (List α)
  | [] => some []
  | x :: xs =>
    match f x with
    | none => none
    | some y => (fixAll f xs).map (y :: ·)

/-- Result of loading an asset file. libeopkg/components.go:66-88, groups.go:56-74. -/
inductive Loaded (α : Type)
  | failed
  | panic
  | good (l : List α)
deriving DecidableEq

/-- components.go:66-88 `NewComponents`. -/
def newComponents (c : Content) : Loaded Component :=
  match D.comps c with
  | none => .failed
  | some l =>
    match fixAll Component.fix (D.sortComps l) with
    | none => .panic
    | some l' => .good l'

/-- groups.go:56-74 `NewGroups`. -/
def newGroups (c : Content) : Loaded Group :=
  match D.groups c with
  | none => .failed
  | some l =>
    match fixAll Group.fix (D.sortGroups l) with
    | none => .panic
    | some l' => .good l'

/-- repo_index.go:84-89, 117-122: the elements emitted, each encoded by `enc`. -/
def Loaded.parsed {α : Type} (enc : α → Str) : Loaded α → ParsedAsset
  | .failed => .bad
  | .panic => .crash
  | .good l => .good (l.map enc)

/-! ## purge_cloudflare.go -/

/-- What the API answers. core/purge_cloudflare.go:64-72. -/
inductive Answer
  /-- an error of the transport or an HTTP error status -/
  | error
  | success
  /-- `success: false` with these messages -/
  | refused (messages : List Str)
deriving DecidableEq, Repr

/-- The surroundings: environment variables, the file /etc/ferryd/<repository> (absent, unreadable or its contents),
whether a client can be made of the token, and the API. core/purge_cloudflare.go:31-66. -/
structure Cloud where
  token : Str
  zone : Str
  list : Option (Option Str)
  client : Bool
  api : Str → List Str → Answer

/-- strings.Split(s, "\n"). core/purge_cloudflare.go:54. -/
def splitLines : Str → List Str
  | [] => [[]]
  | c :: cs =>
    if c = '\n' then [] :: splitLines cs
    else
      match splitLines cs with
      | [] => [[c]]
      | l :: ls => (c :: l) :: ls

/-- purge_cloudflare.go:31-73 `purgeCloudflare`: result and the requests sent.  `Errors[0]` (72) panics without messages. -/
def purge (C : Cloud) : Res × List (Str × List Str) :=
  if C.token = [] then (.ok, [])
  else if C.zone = [] then (.ok, [])
  else
    match C.list with
    | none => (.ok, [])
    | some none => (.failed, [])
    | some (some content) =>
      let files := (splitLines content).filter (fun e => e ≠ [])
      if !C.client then (.failed, [])
      else
        match C.api C.zone files with
        | .error => (.failed, [(C.zone, files)])
        | .success => (.ok, [(C.zone, files)])
        | .refused [] => (.panic, [(C.zone, files)])
        | .refused (_ :: _) => (.failed, [(C.zone, files)])

end Ferryd.Eopkg
