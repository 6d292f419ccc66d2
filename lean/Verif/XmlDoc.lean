import Verif.XmlText
/-!
# XmlDoc: the text of the index

core/repo_index.go:218-283 (`emitIndex`) on top of the printer of `encoding/xml`, as in Go's source: `writeStart`,
`writeEnd`, `writeIndent` with the prefix and indentation of core/repo_index.go:244.  An element is given as the tree the
encoder walks; how the fields of a Go structure become children is in `XmlPackage`.  Errors of the encoder (a failed write)
are left out: they abort the index (`IndexFiles`).
-/
namespace Ferryd.Xml

/-- An element as the encoder meets it: with text only (a string, or a structure with a `,chardata` or `,cdata` field), or with
child elements only.  The types are those of libeopkg/metadata.go:26-150, main.go:42-45, components.go:26-44,
groups.go:26-35, distribution.go:25-41; none mixes text and children. -/
inductive Elem
  | leaf (name : List Char) (attrs : List (List Char × List Char)) (cdata : Bool) (text : List Char)
  | node (name : List Char) (attrs : List (List Char × List Char)) (kids : List Elem)

/-- The printer of encoding/xml, made at core/repo_index.go:243-244. -/
structure Pr where
  out : List Char
  depth : Nat
  indentedIn : Bool
  putNewline : Bool

/-- xml.NewEncoder, core/repo_index.go:243. -/
def Pr.init : Pr := ⟨[], 0, false, false⟩

/-- encoding/xml `writeIndent`, the part that writes: a line feed except at the very beginning, the prefix, and one indentation
for each level; both are four spaces (core/repo_index.go:244). -/
def Pr.line (p : Pr) : Pr :=
  { p with
    out := p.out ++ (if p.putNewline then ['\n'] else []) ++ List.replicate 4 ' ' ++ List.replicate (4 * p.depth) ' '
    putNewline := true }

/-- encoding/xml `writeStart`: one attribute. The attributes are those of libeopkg/metadata.go:44-107, main.go:44. -/
def attrText (a : List Char × List Char) : List Char := [' '] ++ a.1 ++ ['=', '"'] ++ escapeText a.2 ++ ['"']

/-- encoding/xml `writeStart`, with `writeIndent(1)`; called at core/repo_index.go:247 and by EncodeElement (core/repo_index.go:61, 87, 118, 213). -/
def Pr.start (p : Pr) (name : List Char) (attrs : List (List Char × List Char)) : Pr :=
  let q := p.line
  { q with depth := q.depth + 1, indentedIn := true, out := q.out ++ ['<'] ++ name ++ attrs.flatMap attrText ++ ['>'] }

/-- encoding/xml `writeEnd`, with `writeIndent(-1)`: on the line of the start tag if nothing was indented since.
Called at core/repo_index.go:277 and by EncodeElement. -/
def Pr.finish (p : Pr) (name : List Char) : Pr :=
  let p := { p with depth := p.depth - 1 }
  let q := if p.indentedIn then { p with indentedIn := false } else p.line
  { q with out := q.out ++ ['<', '/'] ++ name ++ ['>'] }

/-- encoding/xml: the text of an element (marshalSimple, or the `,chardata` and `,cdata` cases of marshalStruct).
Called through core/repo_index.go:61, 87, 118, 213. -/
def Pr.text (p : Pr) (cdata : Bool) (t : List Char) : Pr :=
  { p with out := p.out ++ (if cdata then emitCDATA t else escapeText t) }

mutual
/-- encoding/xml `marshalValue` for an element, called through EncodeElement (core/repo_index.go:61, 87, 118, 213). -/
def Elem.emit : Elem → Pr → Pr
  | .leaf n a cd t, p => ((p.start n a).text cd t).finish n
  | .node n a ks, p => (emitAll ks (p.start n a)).finish n
/-- Elements one after the other: the loops of core/repo_index.go:256-264, 85-90, 116-121. -/
def emitAll : List Elem → Pr → Pr
  | [], p => p
  | e :: es, p => emitAll es (e.emit p)
end

/-- The name of the outermost element, core/repo_index.go:247. -/
def cPISI : List Char := ['P', 'I', 'S', 'I']

/-- core/repo_index.go:243-281 `emitIndex`: the start of `PISI`, the distribution, the packages, the components, the groups, and
the end of `PISI`. -/
def document (dist packages components groups : List Elem) : List Char :=
  let p := Pr.init.start cPISI []
  let p := emitAll dist p
  let p := emitAll packages p
  let p := emitAll components p
  let p := emitAll groups p
  (p.finish cPISI).out

end Ferryd.Xml
