import Verif.Paths
/-!
# Layout: directories on disk

libeopkg/metadata.go:176-200 `GetPathComponent`, core/util.go:76-101 `RemovePackageParents`, and
ferryctl/cmd/import.go:41-104 `GetEopkgs` and the collection loop of `importEx`.
-/
namespace Ferryd.Layout
open Ferryd.Paths

/-! ## GetPathComponent -/
/-- libeopkg/metadata.go:194. -/
def libS : Str := ['l', 'i', 'b']

/-- metadata.go:190-200, with the real `filepath.Join`.  `none` is the panic of `nom[0:1]`.  Characters stand for bytes
(`nom[0:1]` and `nom[0:4]` slice bytes) and `ToLower` is the ASCII one: simplification. -/
def pathComponent (source : Str) : Option Str :=
  let nom := lowerS source
  if nom = [] then none
  else if libS <+: nom ∧ 3 < nom.length then some (join (nom.take 4) nom)
  else some (join (nom.take 1) nom)

/-- pool.go:144-145, repo.go:416-417,463-464,591-592,675-676: `Join(Join(base, component), file)`. -/
def packagePath (baseDir comp file : Str) : Str := join (join baseDir comp) file

/-- pool.go:270 `Join(base, component, file)`: one `Clean` of the three elements (none of them empty). -/
def packagePath3 (baseDir comp file : Str) : Str := clean (baseDir ++ '/' :: (comp ++ '/' :: file))

/-- repo.go:128-131,211 `Join(repoBase, id)`. -/
def repoDir (repoBase id : Str) : Str := join repoBase id

/-! ## RemovePackageParents -/
/-- What a path is: a directory or a file (core/util.go:76-100). -/
inductive Kind
  | file
  | dir
deriving DecidableEq, Repr

/-- What is on disk, by absolute path. core/util.go:76-100. -/
abbrev Tree := List (Str × Kind)
/-- `os.Stat`, core/util.go:76-100. -/
def Tree.get (t : Tree) (p : Str) : Option Kind := (t.find? (·.1 = p)).map (·.2)

/-- `ioutil.ReadDir`: the entries right below. core/util.go:88. -/
def Tree.children (t : Tree) (p : Str) : Tree := t.filter (fun e => dir e.1 = p ∧ e.1 ≠ p)

/-- `os.Remove` core/util.go:95. -/
def Tree.remove (t : Tree) (p : Str) : Tree := t.filter (fun e => e.1 ≠ p)

/-- util.go:87-99 the body of the loop.  `os.Remove` of an empty directory is taken to succeed (permissions, mount points
are not modelled). -/
def removeIfEmpty (t : Tree) (p : Str) : Option Tree :=
  if t.get p = some .dir then
    if t.children p = [] then some (t.remove p) else some t
  else none

/-- util.go:78-101.  The tree is returned with whether there was an error. -/
def removePackageParents (t : Tree) (path : Str) : Tree × Bool :=
  match removeIfEmpty t (dir path) with
  | none => (t, false)
  | some t1 =>
    match removeIfEmpty t1 (dir (dir path)) with
    | none => (t1, false)
    | some t2 => (t2, true)

/-! ## GetEopkgs -/

mutual
/-- A directory tree as the client sees it. ferryctl/cmd/import.go:44-75. -/
inductive Node
  /-- anything that can be opened and is not a directory -/
  | file
  /-- cannot be opened, stat'ed or listed -/
  | broken
  | dir (es : Entries)
/-- The entries of a directory, ferryctl/cmd/import.go:44-75. -/
inductive Entries
  | nil
  | cons (name : Str) (n : Node) (es : Entries)
end

/-- import.go:65 -/
def suffix : Str := ['x', '8', '6', '_', '6', '4', '.', 'e', 'o', 'p', 'k', 'g']

mutual
/-- import.go:43-75; the second component is `getErr == nil`.  Symbolic links are followed by `os.Open`: a link is the
node it leads to; cycles of links are not modelled. -/
def getEopkgs (path : Str) : Node → List Str × Bool
  | .broken => ([], false)
  | .file => (if suffix <:+ base path then [path] else [], true)
  | .dir es => getAll path es
/-- import.go:54-62 -/
def getAll (path : Str) : Entries → List Str × Bool
  | .nil => ([], true)
  | .cons n t es =>
    match getEopkgs (join path n) t, getAll path es with
    | (fs, true), (gs, ok) => (fs ++ gs, ok)
    | (_, false), (gs, _) => (gs, false)
end

/-- import.go:88-102: arguments in turn, the first failure ends the command and nothing is submitted. -/
def collect : List (Str × Node) → Option (List Str)
  | [] => some []
  | (p, t) :: r =>
    match getEopkgs p t with
    | (fs, true) => (collect r).map (fs ++ ·)
    | (_, false) => none

end Ferryd.Layout
