import Verif.Escape
/-!
# XmlText: how texts get into the index

core/repo_index.go:243-281 writes the index with `encoding/xml` (`EncodeToken`, `EncodeElement`) through the escaping
writer of core/escape.go.  This file has the parts of `encoding/xml` that turn a string into text, as documented in Go's
source: `EscapeText` for attributes, for elements that are plain strings and for `,chardata` fields
(libeopkg/metadata.go:28-150), and `emitCDATA` for `,cdata` fields (libeopkg/metadata.go:73-78, libeopkg/main.go:42-45,
libeopkg/distribution.go:29-32).  Strings come from an XML or TOML decoder and are valid UTF-8, so they are lists of characters.
-/
namespace Ferryd.Xml

/-- `isInCharacterRange` of encoding/xml, used by the encoder made at core/repo_index.go:243. -/
def inRange (c : Char) : Bool :=
  c.toNat = 0x09 || c.toNat = 0x0A || c.toNat = 0x0D || (0x20 ≤ c.toNat && c.toNat ≤ 0xD7FF) ||
    (0xE000 ≤ c.toNat && c.toNat ≤ 0xFFFD) || 0x10000 ≤ c.toNat

/-- `EscapeText` of encoding/xml for one character. The encoder is made at core/repo_index.go:243. -/
def escT (c : Char) : List Char :=
  if c = '"' then ['&', '#', '3', '4', ';']
  else if c = '\'' then ['&', '#', '3', '9', ';']
  else if c = '&' then ['&', 'a', 'm', 'p', ';']
  else if c = '<' then ['&', 'l', 't', ';']
  else if c = '>' then ['&', 'g', 't', ';']
  else if c = '\t' then ['&', '#', 'x', '9', ';']
  else if c = '\n' then ['&', '#', 'x', 'A', ';']
  else if c = '\r' then ['&', '#', 'x', 'D', ';']
  else if inRange c then [c]
  else [Char.ofNat 0xFFFD]

/-- `EscapeText` of encoding/xml, through which elements and attributes of type string pass
(libeopkg/metadata.go:28-150, encoded at core/repo_index.go:213). -/
def escapeText (v : List Char) : List Char := v.flatMap escT

/-- encoding/xml: `<![CDATA[`. Written for libeopkg/main.go:43. -/
def cdataStart : List Char := ['<', '!', '[', 'C', 'D', 'A', 'T', 'A', '[']
/-- encoding/xml: `]]>`. Written for libeopkg/main.go:43. -/
def cdataEnd : List Char := [']', ']', '>']

/-- `emitCDATA` of encoding/xml, the loop: `]]>` is cut in two by `]]]]><![CDATA[>`. Used for libeopkg/main.go:43. -/
def cdataBody : List Char → List Char
  | [] => []
  | ']' :: ']' :: '>' :: r => [']', ']'] ++ cdataEnd ++ cdataStart ++ ['>'] ++ cdataBody r
  | c :: r => c :: cdataBody r

/-- `emitCDATA` of encoding/xml, for the fields marked `,cdata` (libeopkg/main.go:43, metadata.go:74, 77,
distribution.go:30): nothing for the empty string. -/
def emitCDATA (v : List Char) : List Char := if v = [] then [] else cdataStart ++ cdataBody v ++ cdataEnd

end Ferryd.Xml
