import Verif.XmlDoc
import Verif.JobsModel
/-!
# XmlPackage: the structures of libeopkg as elements

libeopkg/metadata.go:25-150, main.go:42-45, distribution.go:25-41, components.go:26-44, groups.go:26-35: the structures that
are encoded into the index (core/repo_index.go:54-61, 83-90, 114-121, 176-213), and the elements `encoding/xml` makes of them: one
child for each field in the order of the declaration, attributes for the fields marked `attr`, nothing for a field marked
`omitempty` that is empty (also for each entry of a list of strings so marked), one enclosing element for `A>B`.  Numbers are
printed by strconv.  `int` and `int64` are unbounded integers.
-/
namespace Ferryd.Xml
open Ferryd.Jobs (fmtInt)

open Lean in
/-- A name as a list of characters. (No code: notation.) -/
macro:max "n!" s:str : term => do
  let cs := (s.getString.toList.map fun c => Syntax.mkCharLit c).toArray
  `([$cs,*])

/-- libeopkg/main.go:42-45 `LocalisedField`; also the entries of `Description` in libeopkg/distribution.go:29-32. -/
structure Text where
  value : List Char
  lang : List Char
deriving DecidableEq

/-- libeopkg/metadata.go:27-30 `Packager`; also `Maintainer` in libeopkg/components.go:39-42. -/
structure Person where
  name : List Char
  email : List Char
deriving DecidableEq

/-- libeopkg/metadata.go:36-40 `Source`. -/
structure Source where
  name : List Char
  homepage : List Char
  packager : Person
deriving DecidableEq

/-- libeopkg/metadata.go:44-56 `Dependency`. -/
structure Dependency where
  name : List Char
  releaseFrom : Int
  releaseTo : Int
  release : Int
  versionFrom : List Char
  versionTo : List Char
  version : List Char
deriving DecidableEq

/-- libeopkg/metadata.go:60-63 `Action`. -/
structure Action where
  value : List Char
  package : List Char
deriving DecidableEq

/-- libeopkg/metadata.go:67-82 `Update`. -/
structure History where
  release : Int
  type : List Char
  date : List Char
  version : List Char
  comment : List Char
  name : List Char
  email : List Char
  requires : Option (List Action)
deriving DecidableEq

/-- libeopkg/metadata.go:85-88 `COMAR`. -/
structure Comar where
  value : List Char
  script : List Char
deriving DecidableEq

/-- libeopkg/metadata.go:91-95 `Provides`. -/
structure Provides where
  comar : List Comar
  pkgConfig : List (List Char)
  pkgConfig32 : List (List Char)
deriving DecidableEq

/-- libeopkg/metadata.go:104-109 `Delta`. -/
structure PkgDelta where
  releaseFrom : Int
  uri : List Char
  size : Int
  hash : List Char
deriving DecidableEq

/-- libeopkg/metadata.go:113-150 `MetaPackage`. -/
structure Package where
  name : List Char
  summary : List Text
  description : List Text
  isA : List Char
  partOf : List Char
  license : List (List Char)
  dependencies : Option (List Dependency)
  conflicts : Option (List (List Char))
  replaces : Option (List (List Char))
  provides : Option Provides
  history : List History
  buildHost : List Char
  distribution : List Char
  distributionRelease : List Char
  architecture : List Char
  installedSize : Int
  size : Int
  hash : List Char
  uri : List Char
  deltas : Option (List PkgDelta)
  format : List Char
  source : Source
deriving DecidableEq

/-- libeopkg/distribution.go:25-41 `Distribution` (the map of obsolete names is not exported, so not encoded). -/
structure Distribution where
  sourceName : List Char
  description : List Text
  version : List Char
  type : List Char
  binaryName : List Char
  obsoletes : List (List Char)
deriving DecidableEq

/-- libeopkg/components.go:26-44 `Component`. -/
structure Component where
  name : List Char
  localName : List Text
  summary : List Text
  description : List Text
  group : List Char
  maintainer : Person
deriving DecidableEq

/-- libeopkg/groups.go:26-35 `Group`. -/
structure Group where
  name : List Char
  localName : List Text
  icon : List Char
deriving DecidableEq

/-- A field of type string without a tag, or an entry of a list of strings. Fields of libeopkg/metadata.go:114-149. -/
def field (n t : List Char) : Elem := .leaf n [] false t
/-- A field of type string marked `omitempty`: libeopkg/metadata.go:38, 124, 125. -/
def fieldOpt (n t : List Char) : List Elem := if t = [] then [] else [field n t]
/-- An attribute of type string marked `omitempty`: libeopkg/metadata.go:53-55, 62, 71, 87, main.go:44, distribution.go:31. -/
def attrOpt (n t : List Char) : List (List Char × List Char) := if t = [] then [] else [(n, t)]
/-- An attribute of type int marked `omitempty`: libeopkg/metadata.go:48-50, 105. -/
def attrNum (n : List Char) (i : Int) : List (List Char × List Char) := if i = 0 then [] else [(n, fmtInt i)]

/-- libeopkg/main.go:42-45; the attribute has the namespace of XML, whose prefix is `xml`. -/
def Text.elem (n : List Char) (t : Text) : Elem := .leaf n (attrOpt n!"xml:lang" t.lang) true t.value
/-- libeopkg/distribution.go:29-32: here the attribute has no namespace, so it is written without a prefix. -/
def Text.elemDist (n : List Char) (t : Text) : Elem := .leaf n (attrOpt n!"lang" t.lang) true t.value

/-- libeopkg/metadata.go:27-30, components.go:39-42. -/
def Person.elem (n : List Char) (p : Person) : Elem := .node n [] [field n!"Name" p.name, field n!"Email" p.email]

/-- libeopkg/metadata.go:36-40. -/
def Source.elem (s : Source) : Elem :=
  .node n!"Source" [] ([field n!"Name" s.name] ++ fieldOpt n!"Homepage" s.homepage ++ [s.packager.elem n!"Packager"])

/-- libeopkg/metadata.go:44-56. -/
def Dependency.elem (d : Dependency) : Elem :=
  .leaf n!"Dependency" (attrNum n!"releaseFrom" d.releaseFrom ++ attrNum n!"releaseTo" d.releaseTo ++ attrNum n!"release" d.release ++
    attrOpt n!"versionFrom" d.versionFrom ++ attrOpt n!"versionTo" d.versionTo ++ attrOpt n!"version" d.version) false d.name

/-- libeopkg/metadata.go:60-63. -/
def Action.elem (a : Action) : Elem := .leaf n!"Action" (attrOpt n!"package" a.package) false a.value

/-- libeopkg/metadata.go:67-82; `Comment` and `Name` are structures with a `,cdata` field. -/
def History.elem (u : History) : Elem :=
  .node n!"Update" ([(n!"release", fmtInt u.release)] ++ attrOpt n!"type" u.type)
    ([field n!"Date" u.date, field n!"Version" u.version, .leaf n!"Comment" [] true u.comment, .leaf n!"Name" [] true u.name,
      field n!"Email" u.email] ++
      match u.requires with
      | none => []
      | some as => [.node n!"Requires" [] (as.map Action.elem)])

/-- libeopkg/metadata.go:85-88. -/
def Comar.elem (c : Comar) : Elem := .leaf n!"COMAR" (attrOpt n!"script" c.script) false c.value

/-- libeopkg/metadata.go:91-95. -/
def Provides.elem (p : Provides) : Elem :=
  .node n!"Provides" [] (p.comar.map Comar.elem ++ p.pkgConfig.flatMap (fieldOpt n!"PkgConfig") ++
    p.pkgConfig32.flatMap (fieldOpt n!"PkgConfig32"))

/-- libeopkg/metadata.go:104-109. -/
def PkgDelta.elem (d : PkgDelta) : Elem :=
  .node n!"Delta" (attrNum n!"releaseFrom" d.releaseFrom)
    [field n!"PackageURI" d.uri, field n!"PackageSize" (fmtInt d.size), field n!"PackageHash" d.hash]

/-- libeopkg/metadata.go:113-150, under the name of core/repo_index.go:177-181. -/
def Package.elem (p : Package) : Elem :=
  .node n!"Package" [] (
    [field n!"Name" p.name] ++
    p.summary.map (Text.elem n!"Summary") ++
    p.description.map (Text.elem n!"Description") ++
    fieldOpt n!"IsA" p.isA ++
    fieldOpt n!"PartOf" p.partOf ++
    p.license.map (field n!"License") ++
    (match p.dependencies with
      | none => []
      | some ds => [.node n!"RuntimeDependencies" [] (ds.map Dependency.elem)]) ++
    (match p.conflicts with
      | none => []
      | some cs => [.node n!"Conflicts" [] (cs.flatMap (fieldOpt n!"Package"))]) ++
    (match p.replaces with
      | none => []
      | some rs => [.node n!"Replaces" [] (rs.flatMap (fieldOpt n!"Package"))]) ++
    (match p.provides with
      | none => []
      | some q => [q.elem]) ++
    [.node n!"History" [] (p.history.map History.elem)] ++
    [field n!"BuildHost" p.buildHost] ++
    [field n!"Distribution" p.distribution] ++
    [field n!"DistributionRelease" p.distributionRelease] ++
    [field n!"Architecture" p.architecture] ++
    [field n!"InstalledSize" (fmtInt p.installedSize)] ++
    [field n!"PackageSize" (fmtInt p.size)] ++
    [field n!"PackageHash" p.hash] ++
    [field n!"PackageURI" p.uri] ++
    (match p.deltas with
      | none => []
      | some ds => [.node n!"DeltaPackages" [] (ds.map PkgDelta.elem)]) ++
    [field n!"PackageFormat" p.format] ++
    [p.source.elem])

/-- libeopkg/distribution.go:25-41, under the name of core/repo_index.go:55-59. -/
def Distribution.elem (d : Distribution) : Elem :=
  .node n!"Distribution" [] (
    [field n!"SourceName" d.sourceName] ++
    d.description.map (Text.elemDist n!"Description") ++
    [field n!"Version" d.version] ++
    [field n!"Type" d.type] ++
    [field n!"BinaryName" d.binaryName] ++
    [.node n!"Obsoletes" [] (d.obsoletes.map (field n!"Package"))])

/-- libeopkg/components.go:26-44, under the name of core/repo_index.go:79-83. -/
def Component.elem (c : Component) : Elem :=
  .node n!"Component" [] (
    [field n!"Name" c.name] ++
    c.localName.map (Text.elem n!"LocalName") ++
    c.summary.map (Text.elem n!"Summary") ++
    c.description.map (Text.elem n!"Description") ++
    [field n!"Group" c.group] ++
    [c.maintainer.elem n!"Maintainer"])

/-- libeopkg/groups.go:26-35, under the name of core/repo_index.go:110-114. -/
def Group.elem (g : Group) : Elem :=
  .node n!"Group" [] ([field n!"Name" g.name] ++ g.localName.map (Text.elem n!"LocalName") ++ [field n!"Icon" g.icon])

/-- What gets into the index: core/repo_index.go:218-283. The distribution is left out if there is none (a nil pointer
encodes to nothing, core/repo_index.go:61). -/
structure Index where
  distribution : Option Distribution
  packages : List Package
  components : List Component
  groups : List Group
deriving DecidableEq

/-- core/repo_index.go:243-281: the text given to the escaping writer. -/
def Index.text (i : Index) : List Char :=
  document (i.distribution.toList.map Distribution.elem) (i.packages.map Package.elem) (i.components.map Component.elem)
    (i.groups.map Group.elem)

end Ferryd.Xml
