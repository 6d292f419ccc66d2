import Verif.XmlPackage
/-!
# Gob: how values are stored

libdb/transcoder.go:57-78 and libdb/leveldb.go:76-124: every value in the databases is one gob stream: the definitions of its
types, then the value.  Modelled after Go's `encoding/gob` (numbers, strings, slices, pointers, structures, `time.Time`, messages).

A byte is a character, strings of Go are lists of bytes.  The messages that define the types are a parameter: they depend on the type
only, and the decoder is given the same type, so that it uses them to find the fields in the places the encoder put them.
-/
namespace Ferryd.Gob
open Ferryd.Jobs (JobEntry Record Timing)

/-- (No code: a byte.) -/
def byte (n : Nat) : Char := Char.ofNat n

/-- The `k` low bytes of a number, the highest first. encoding/gob, encode.go `encodeUint`; encoding/binary. -/
def be : Nat → Nat → Str
  | 0, _ => []
  | k + 1, n => byte (n / 256 ^ k % 256) :: be k n
/-- Reading `k` bytes. encoding/gob, decode.go `decodeUint`; encoding/binary. -/
def ofBe : Nat → Nat → Str → Option (Nat × Str)
  | 0, acc, s => some (acc, s)
  | _ + 1, _, [] => none
  | k + 1, acc, c :: s => ofBe k (acc * 256 + c.toNat) s
/-- How many bytes a number takes, if it takes at most `k` and one more. (No code: helper.) -/
def widthN : Nat → Nat → Nat
  | 0, _ => 1
  | k + 1, n => if n < 256 then 1 else widthN k (n / 256) + 1
/-- How many bytes a number of 64 bits takes. encoding/gob, encode.go `encodeUint` (leading zero bytes are dropped). -/
def width (n : Nat) : Nat := widthN 7 n

/-- encoding/gob, encode.go `encodeUint`: small numbers are one byte, others the negated count of bytes and the bytes. -/
def encUint (n : Nat) : Str := if n ≤ 127 then [byte n] else byte (256 - width n) :: be (width n) n
/-- encoding/gob, decode.go `decodeUint`. -/
def decUint : Str → Option (Nat × Str)
  | [] => none
  | c :: s => if c.toNat ≤ 127 then some (c.toNat, s) else
    if c.toNat < 256 ∧ 256 - c.toNat ≤ 8 then ofBe (256 - c.toNat) 0 s else none

/-- encoding/gob, encode.go `encodeInt`: the sign is the lowest bit. -/
def encInt (i : Int) : Str := encUint (if i < 0 then 2 * (-i - 1).toNat + 1 else 2 * i.toNat)
/-- encoding/gob, decode.go `toInt`. -/
def toInt (u : Nat) : Int := if u % 2 = 1 then -(u / 2 : Int) - 1 else (u / 2 : Int)
/-- encoding/gob, decode.go `decodeInt`. -/
def decInt (s : Str) : Option (Int × Str) := (decUint s).map fun x => (toInt x.1, x.2)

/-- Reading `n` bytes. encoding/gob, decode.go `decString`. -/
def takeN (n : Nat) (s : Str) : Option (Str × Str) := if n ≤ s.length then some (s.take n, s.drop n) else none

/-- How gob treats a type: Go's zero value, whether a field with this value is left out, how a value is written, and how bytes are
read into a variable that holds a value already. encoding/gob, encode.go `encOpFor`, decode.go `decOpFor`. -/
structure Fmt (α : Type) where
  zero : α
  isZero : α → Bool
  enc : α → Str
  dec : α → Str → Option (α × Str)

/-- encoding/gob `encBool`, `decBool`. -/
def boolF : Fmt Bool where
  zero := false
  isZero b := !b
  enc b := encUint (if b then 1 else 0)
  dec _ s := (decUint s).map fun x => (x.1 != 0, x.2)
/-- encoding/gob `encUint`, `decUint64`. -/
def uintF : Fmt Nat where
  zero := 0
  isZero n := n == 0
  enc := encUint
  dec _ := decUint
/-- encoding/gob `encInt`, `decInt64`. -/
def intF : Fmt Int where
  zero := 0
  isZero n := n == 0
  enc := encInt
  dec _ := decInt
/-- encoding/gob `encString`, `decString`. -/
def strF : Fmt Str where
  zero := []
  isZero t := t.isEmpty
  enc t := encUint t.length ++ t
  dec _ s := (decUint s).bind fun x => takeN x.1 x.2
/-- A time, as nanoseconds since the year 1 (0 is Go's zero time); all times are in UTC (libferry/types.go:94-102). encoding/gob
`gobEncodeOpFor`, `gobDecodeOpFor`; package time, `MarshalBinary`: version, seconds, nanoseconds, an offset of -1. -/
def timeF : Fmt Nat where
  zero := 0
  isZero t := t == 0
  enc t := encUint 15 ++ (byte 1 :: (be 8 (t / 1000000000) ++ (be 4 (t % 1000000000) ++ [byte 255, byte 255])))
  dec _ s := (decUint s).bind fun x => (takeN x.1 x.2).bind fun y =>
    match y.1 with
    | v :: b => if v = byte 1 then
        (ofBe 8 0 b).bind fun z => (ofBe 4 0 z.2).map fun w => (z.1 * 1000000000 + w.1, y.2)
      else none
    | [] => none

/-- encoding/gob, dec_helpers.go `decoder.tooBig`, decode.go `tooBig` on machines of 64 bits: 8 GiB. -/
def tooBig : Nat := 2 ^ 33

/-- Reading `n` elements, each into a fresh variable. encoding/gob, decode.go `decodeArrayHelper`. -/
def decList {α} (F : Fmt α) : Nat → Str → Option (List α × Str)
  | 0, s => some ([], s)
  | n + 1, s => (F.dec F.zero s).bind fun x => (decList F n x.2).map fun y => (x.1 :: y.1, y.2)
/-- A slice whose elements take `sz` bytes in memory. encoding/gob, encode.go `encOpFor` and `encodeArray`, decode.go `decodeSlice`.  A new
array is always made: only fresh variables are decoded into. -/
def slice {α} (sz : Nat) (F : Fmt α) : Fmt (List α) where
  zero := []
  isZero l := l.isEmpty
  enc l := encUint l.length ++ l.flatMap F.enc
  dec _ s := (decUint s).bind fun x => if x.1 * sz > tooBig then none else decList F x.1 x.2

/-- A pointer, to a value that is sent as it is. encoding/gob, encode.go `encIndirect`, decode.go `decAlloc`. -/
def ptr {α} (F : Fmt α) : Fmt (Option α) where
  zero := none
  isZero
    | none => true
    | some a => F.isZero a
  enc
    | none => []
    | some a => F.enc a
  dec o s := (F.dec (o.getD F.zero) s).map fun x => (some x.1, x.2)

/-- The fields of a structure, from some field on.  `enc g`: the last field sent was `g` places before; `dec d`: the next field sent is
number `d`, counted from 1, and 0 ends the structure; a field that is not sent keeps its value.
encoding/gob, encode.go `encodeStruct`, decode.go `decodeStruct`. -/
structure Fields (α : Type) where
  zero : α
  len : Nat
  enc : Nat → α → Str
  dec : α → Nat → Str → Option (α × Str)

/-- No more fields: `encodeUint(0)`; a field number out of range is an error. encoding/gob, encode.go `encodeStruct`, decode.go
`decodeStruct`. -/
def nil : Fields Unit where
  zero := ()
  len := 0
  enc _ _ := encUint 0
  dec _ d s := if d = 0 then some ((), s) else none
/-- One more field in front. encoding/gob, encode.go `encodeStruct`, `encoderState.update`, decode.go `decodeStruct`. -/
def cons {α β} (F : Fmt β) (G : Fields α) : Fields (β × α) where
  zero := (F.zero, G.zero)
  len := G.len + 1
  enc g x := if F.isZero x.1 then G.enc (g + 1) x.2 else encUint g ++ (F.enc x.1 ++ G.enc 1 x.2)
  dec x d s :=
    if d = 1 then
      (F.dec x.1 s).bind fun y => (decUint y.2).bind fun z => (G.dec x.2 z.1 z.2).map fun w => ((y.1, w.1), w.2)
    else (G.dec x.2 (d - 1) s).map fun w => ((x.1, w.1), w.2)

/-- A structure: sent whatever it holds. encoding/gob, encode.go `encodeStruct`, decode.go `decodeStruct`. -/
def struct {α β} (G : Fields α) (to : β → α) (of : α → β) : Fmt β where
  zero := of G.zero
  isZero _ := false
  enc b := G.enc 1 (to b)
  dec b s := (decUint s).bind fun x => (G.dec (to b) x.1 x.2).map fun y => (of y.1, y.2)

/-! ## Streams -/

/-- What the stream of a type begins with: the messages that define it, and its number. (No code: a parameter, see above.) -/
structure Header where
  defs : List Str
  id : Nat

/-- encoding/gob, encoder.go `writeMessage`. -/
def message (c : Str) : Str := encUint c.length ++ c
/-- libdb/transcoder.go:38-44, 57-66, encoding/gob, encoder.go `EncodeValue`: nothing is written if the message is too big. -/
def encode {α} (H : Header) (F : Fmt α) (a : α) : Option Str :=
  let c := encInt H.id ++ F.enc a
  if c.length ≥ tooBig then none else some (H.defs.flatMap message ++ message c)
/-- libdb/transcoder.go:47-53, 69-78, encoding/gob, decoder.go `Decode`, `decodeTypeSequence`: definitions (negative numbers) are taken
in, then a value is read.  The number of messages is bounded by the bytes there are (`n`). -/
def decodeN {α} (F : Fmt α) (a : α) : Nat → Str → Option α
  | 0, _ => none
  | n + 1, s => (decUint s).bind fun x => if x.1 ≥ tooBig then none else
    (takeN x.1 x.2).bind fun m => (decInt m.1).bind fun t =>
      if t.1 < 0 then decodeN F a n m.2 else (F.dec a t.2).map Prod.fst
/-- libdb/transcoder.go:69-78, into a variable that holds `a`. -/
def decode {α} (F : Fmt α) (a : α) (s : Str) : Option α := decodeN F a s.length s

/-! ## The stored types -/
section
open Xml

/-- libferry/types.go:98-102 `TimingInformation`. -/
def timingF : Fmt Timing :=
  struct (cons timeF (cons timeF (cons timeF nil))) (fun t => (t.queued, t.begin_, t.end_, ())) (fun (a, b, c, _) => ⟨a, b, c⟩)
/-- jobs/main.go:94-100 `JobEntry`: the exported fields. -/
def jobF : Fmt JobEntry :=
  struct (cons strF (cons boolF (cons (slice 16 strF) (cons timingF nil)))) (fun j => (j.type, j.claimed, j.params, j.timing, ()))
    (fun (a, b, c, d, _) => ⟨a, b, c, d⟩)
/-- libferry/types.go:149-154 `Job`. -/
def recordF : Fmt Record :=
  struct (cons strF (cons timingF (cons boolF (cons strF nil)))) (fun j => (j.description, j.timing, j.failed, j.error, ()))
    (fun (a, b, c, d, _) => ⟨a, b, c, d⟩)
/-- jobs/store.go:68-70 `IndexRecord`. -/
def indexF : Fmt Nat := struct (cons uintF nil) (fun n => (n, ())) (fun (n, _) => n)

/-- core/repo.go:86-92 `RepoEntry`. -/
structure RepoEntry where
  schema : Str
  name : Str
  available : List Str
  published : Str
  deltas : List Str
deriving DecidableEq
/-- core/pool.go:46-51 `DeltaInformation`. -/
structure DeltaInformation where
  fromRelease : Int
  fromID : Str
  toRelease : Int
  toID : Str
deriving DecidableEq
/-- core/pool.go:55-59 `DeltaSkipEntry`. -/
structure DeltaSkipEntry where
  schema : Str
  name : Str
  delta : DeltaInformation
deriving DecidableEq
/-- core/pool.go:68-74 `PoolEntry`. -/
structure PoolEntry where
  schema : Str
  name : Str
  refCount : Nat
  pkg : Option Package
  delta : Option DeltaInformation
deriving DecidableEq

/-- core/repo.go:86-92. -/
def repoEntryF : Fmt RepoEntry :=
  struct (cons strF (cons strF (cons (slice 16 strF) (cons strF (cons (slice 16 strF) nil)))))
    (fun e => (e.schema, e.name, e.available, e.published, e.deltas, ())) (fun (a, b, c, d, e, _) => ⟨a, b, c, d, e⟩)
/-- core/repo.go:72-82 `Repository`: the only exported field is the name. -/
def repositoryF : Fmt Str := struct (cons strF nil) (fun n => (n, ())) (fun (n, _) => n)
/-- core/pool.go:46-51. -/
def deltaInformationF : Fmt DeltaInformation :=
  struct (cons intF (cons strF (cons intF (cons strF nil)))) (fun d => (d.fromRelease, d.fromID, d.toRelease, d.toID, ()))
    (fun (a, b, c, d, _) => ⟨a, b, c, d⟩)
/-- core/pool.go:55-59. -/
def deltaSkipF : Fmt DeltaSkipEntry :=
  struct (cons strF (cons strF (cons deltaInformationF nil))) (fun d => (d.schema, d.name, d.delta, ())) (fun (a, b, c, _) => ⟨a, b, c⟩)

/-- libeopkg/main.go:42-45. -/
def textF : Fmt Text := struct (cons strF (cons strF nil)) (fun t => (t.value, t.lang, ())) (fun (a, b, _) => ⟨a, b⟩)
/-- libeopkg/metadata.go:27-30. -/
def personF : Fmt Person := struct (cons strF (cons strF nil)) (fun t => (t.name, t.email, ())) (fun (a, b, _) => ⟨a, b⟩)
/-- libeopkg/metadata.go:36-40. -/
def sourceF : Fmt Source :=
  struct (cons strF (cons strF (cons personF nil))) (fun t => (t.name, t.homepage, t.packager, ())) (fun (a, b, c, _) => ⟨a, b, c⟩)
/-- libeopkg/metadata.go:44-56. -/
def dependencyF : Fmt Dependency :=
  struct (cons strF (cons intF (cons intF (cons intF (cons strF (cons strF (cons strF nil)))))))
    (fun d => (d.name, d.releaseFrom, d.releaseTo, d.release, d.versionFrom, d.versionTo, d.version, ()))
    (fun (a, b, c, d, e, f, g, _) => ⟨a, b, c, d, e, f, g⟩)
/-- libeopkg/metadata.go:60-63. -/
def actionF : Fmt Action := struct (cons strF (cons strF nil)) (fun t => (t.value, t.package, ())) (fun (a, b, _) => ⟨a, b⟩)
/-- libeopkg/metadata.go:73-78: `Comment` and `Name` are structures of one text. -/
def wrapF : Fmt Str := struct (cons strF nil) (fun n => (n, ())) (fun (n, _) => n)
/-- libeopkg/metadata.go:67-82. -/
def historyF : Fmt History :=
  struct (cons intF (cons strF (cons strF (cons strF (cons wrapF (cons wrapF (cons strF (cons (ptr (slice 32 actionF)) nil))))))))
    (fun u => (u.release, u.type, u.date, u.version, u.comment, u.name, u.email, u.requires, ()))
    (fun (a, b, c, d, e, f, g, h, _) => ⟨a, b, c, d, e, f, g, h⟩)
/-- libeopkg/metadata.go:85-88. -/
def comarF : Fmt Comar := struct (cons strF (cons strF nil)) (fun t => (t.value, t.script, ())) (fun (a, b, _) => ⟨a, b⟩)
/-- libeopkg/metadata.go:91-95. -/
def providesF : Fmt Provides :=
  struct (cons (slice 32 comarF) (cons (slice 16 strF) (cons (slice 16 strF) nil))) (fun p => (p.comar, p.pkgConfig, p.pkgConfig32, ()))
    (fun (a, b, c, _) => ⟨a, b, c⟩)
/-- libeopkg/metadata.go:104-109. -/
def pkgDeltaF : Fmt PkgDelta :=
  struct (cons intF (cons strF (cons intF (cons strF nil)))) (fun d => (d.releaseFrom, d.uri, d.size, d.hash, ()))
    (fun (a, b, c, d, _) => ⟨a, b, c, d⟩)
/-- libeopkg/metadata.go:113-150. -/
def packageF : Fmt Package :=
  struct (cons strF (cons (slice 32 textF) (cons (slice 32 textF) (cons strF (cons strF (cons (slice 16 strF)
    (cons (ptr (slice 88 dependencyF)) (cons (ptr (slice 16 strF)) (cons (ptr (slice 16 strF)) (cons (ptr providesF)
    (cons (slice 136 historyF) (cons strF (cons strF (cons strF (cons strF (cons intF (cons intF (cons strF (cons strF
    (cons (ptr (slice 48 pkgDeltaF)) (cons strF (cons sourceF nil))))))))))))))))))))))
    (fun p => (p.name, p.summary, p.description, p.isA, p.partOf, p.license, p.dependencies, p.conflicts, p.replaces, p.provides,
      p.history, p.buildHost, p.distribution, p.distributionRelease, p.architecture, p.installedSize, p.size, p.hash, p.uri,
      p.deltas, p.format, p.source, ()))
    (fun (a, b, c, d, e, f, g, h, i, j, k, l, m, n, o, p, q, r, s, t, u, v, _) =>
      ⟨a, b, c, d, e, f, g, h, i, j, k, l, m, n, o, p, q, r, s, t, u, v⟩)
/-- core/pool.go:68-74. -/
def poolEntryF : Fmt PoolEntry :=
  struct (cons strF (cons strF (cons uintF (cons (ptr packageF) (cons (ptr deltaInformationF) nil)))))
    (fun e => (e.schema, e.name, e.refCount, e.pkg, e.delta, ())) (fun (a, b, c, d, e, _) => ⟨a, b, c, d, e⟩)
end

end Ferryd.Gob
