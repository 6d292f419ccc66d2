import Verif.Escape
/-!
# Json: what ferryctl and the daemon say to each other

libferry/main.go:118-125 (`json.NewEncoder(b).Encode(inT)`), ferryd/handlers.go:181-290 (`json.NewDecoder(r.Body).Decode(&req)`) and
the answers (handlers.go:47-63, 104-143; libferry/main.go:75-143), with Go's `encoding/json`.  Strings of Go are lists of bytes.

Simplified: of numbers only integers are read (others are errors for every field there is); a name of a field is matched
exactly (Go also takes it in another case); the status report is in `Rfc3339` and `PropsReport`.
-/
namespace Ferryd.Json
open Ferryd.Escape (decodeRune encodeRune runeError)

/-- (No code: bytes.) -/
abbrev Bytes := List UInt8

mutual
/-- A JSON value. (No code: as in encoding/json.) -/
inductive Val
  | null
  | bool (b : Bool)
  | int (i : Int)
  | str (s : Bytes)
  | arr (vs : Vals)
  | obj (ms : Members)
/-- The elements of an array. (No code.) -/
inductive Vals
  | nil
  | cons (v : Val) (vs : Vals)
/-- The members of an object, with their names. (No code.) -/
inductive Members
  | nil
  | cons (name : Bytes) (v : Val) (ms : Members)
end

/-! ## Writing -/

/-- encoding/json `hex`: a digit, in lower case. -/
def hexDigit (d : Nat) : UInt8 := if d < 10 then UInt8.ofNat (48 + d) else UInt8.ofNat (87 + d)
/-- encoding/json, encode.go `string`: one ASCII byte of a string; `<`, `>` and `&` are escaped for HTML. -/
def escAscii (b : UInt8) : Bytes :=
  if b = 34 ∨ b = 92 then [92, b]
  else if b = 10 then [92, 110]
  else if b = 13 then [92, 114]
  else if b = 9 then [92, 116]
  else if b < 32 ∨ b = 60 ∨ b = 62 ∨ b = 38 then [92, 117, 48, 48, hexDigit (b.toNat / 16), hexDigit (b.toNat % 16)]
  else [b]
/-- encoding/json, encode.go `string`: `skip` bytes belong to a rune already written.  A byte that is not UTF-8 is written as the
replacement character. -/
def esc : Nat → Bytes → Bytes
  | _, [] => []
  | k + 1, _ :: bs => esc k bs
  | 0, b :: bs =>
    if b < 128 then escAscii b ++ esc 0 bs
    else
      let r := decodeRune (b :: bs)
      if r.1 = runeError ∧ r.2 = 1 then [92, 117, 102, 102, 102, 100] ++ esc 0 bs
      else if r.1 = 0x2028 ∨ r.1 = 0x2029 then [92, 117, 50, 48, 50, hexDigit (r.1 % 16)] ++ esc (r.2 - 1) bs
      else (b :: bs).take r.2 ++ esc (r.2 - 1) bs
/-- encoding/json, encode.go `string`. -/
def quote (s : Bytes) : Bytes := 34 :: (esc 0 s ++ [34])

/-- strconv.AppendInt, base 10; numbers of Go have at most 19 digits. -/
def decGo : Nat → Nat → Bytes → Bytes
  | 0, _, acc => acc
  | k + 1, n, acc => if n < 10 then UInt8.ofNat (48 + n) :: acc else decGo k (n / 10) (UInt8.ofNat (48 + n % 10) :: acc)
/-- strconv.AppendInt, base 10. -/
def printInt (i : Int) : Bytes := if i < 0 then 45 :: decGo 19 i.natAbs [] else decGo 19 i.natAbs []

mutual
/-- encoding/json, encode.go: no white space; a newline ends the text (`printLine`). -/
def Val.print : Val → Bytes
  | .null => [110, 117, 108, 108]
  | .bool true => [116, 114, 117, 101]
  | .bool false => [102, 97, 108, 115, 101]
  | .int i => printInt i
  | .str s => quote s
  | .arr .nil => [91, 93]
  | .arr (.cons v vs) => 91 :: (v.print ++ vs.print)
  | .obj .nil => [123, 125]
  | .obj (.cons n v ms) => 123 :: (quote n ++ 58 :: (v.print ++ ms.print))
/-- encoding/json, encode.go `arrayEncoder.encode`: the elements after the first. -/
def Vals.print : Vals → Bytes
  | .nil => [93]
  | .cons v vs => 44 :: (v.print ++ vs.print)
/-- encoding/json, encode.go `structEncoder.encode`: the members after the first. -/
def Members.print : Members → Bytes
  | .nil => [125]
  | .cons n v ms => 44 :: (quote n ++ 58 :: (v.print ++ ms.print))
end
/-- encoding/json, stream.go `Encoder.Encode`. -/
def printLine (v : Val) : Bytes := v.print ++ [10]

/-! ## Reading -/

/-- encoding/json, scanner.go `isSpace`: white space is skipped. -/
def ws : Bytes → Bytes
  | [] => []
  | b :: bs => if b = 32 ∨ b = 9 ∨ b = 10 ∨ b = 13 then ws bs else b :: bs
/-- encoding/json, decode.go `getu4`: a digit. -/
def hexVal (b : UInt8) : Option Nat :=
  if 48 ≤ b ∧ b ≤ 57 then some (b.toNat - 48)
  else if 97 ≤ b ∧ b ≤ 102 then some (b.toNat - 87)
  else if 65 ≤ b ∧ b ≤ 70 then some (b.toNat - 55)
  else none
/-- encoding/json, decode.go `getu4`. -/
def readU : Bytes → Option (Nat × Bytes)
  | a :: b :: c :: d :: s =>
    match hexVal a, hexVal b, hexVal c, hexVal d with
    | some w, some x, some y, some z => some (((w * 16 + x) * 16 + y) * 16 + z, s)
    | _, _, _, _ => none
  | _ => none
/-- encoding/json, decode.go `unquoteBytes`, with scanner.go `stateInString`: the string up to its closing quote, and what follows.
`n` bounds the number of runes. -/
def readStr : Nat → Bytes → Option (Bytes × Bytes)
  | 0, _ => none
  | _ + 1, [] => none
  | n + 1, b :: s =>
    if b = 34 then some ([], s)
    else if b = 92 then
      match s with
      | [] => none
      | e :: s =>
        if e = 34 ∨ e = 92 ∨ e = 47 then (readStr n s).map fun x => (e :: x.1, x.2)
        else if e = 98 then (readStr n s).map fun x => (8 :: x.1, x.2)
        else if e = 102 then (readStr n s).map fun x => (12 :: x.1, x.2)
        else if e = 110 then (readStr n s).map fun x => (10 :: x.1, x.2)
        else if e = 114 then (readStr n s).map fun x => (13 :: x.1, x.2)
        else if e = 116 then (readStr n s).map fun x => (9 :: x.1, x.2)
        else if e = 117 then
          match readU s with
          | none => none
          | some (r, s) =>
            if 0xD800 ≤ r ∧ r ≤ 0xDFFF then
              match s with
              | 92 :: 117 :: t =>
                match readU t with
                | none => none
                | some (r', t) =>
                  if r < 0xDC00 ∧ 0xDC00 ≤ r' ∧ r' ≤ 0xDFFF then
                    (readStr n t).map fun x => (encodeRune ((r - 0xD800) * 1024 + (r' - 0xDC00) + 0x10000) ++ x.1, x.2)
                  else (readStr n s).map fun x => (encodeRune runeError ++ x.1, x.2)
              | _ => (readStr n s).map fun x => (encodeRune runeError ++ x.1, x.2)
            else (readStr n s).map fun x => (encodeRune r ++ x.1, x.2)
        else none
    else if b < 32 then none
    else if b < 128 then (readStr n s).map fun x => (b :: x.1, x.2)
    else
      let r := decodeRune (b :: s)
      (readStr n ((b :: s).drop r.2)).map fun x => (encodeRune r.1 ++ x.1, x.2)

/-- encoding/json, scanner.go `state1`: the digits that follow. -/
def readDigits : Nat → Bytes → Nat × Bytes
  | a, [] => (a, [])
  | a, b :: s => if 48 ≤ b ∧ b ≤ 57 then readDigits (a * 10 + (b.toNat - 48)) s else (a, b :: s)
/-- encoding/json, scanner.go `stateNeg`, `state0`, `state1`; a fraction or an exponent is not read. -/
def readNat : Bytes → Option (Nat × Bytes)
  | [] => none
  | b :: s =>
    if b = 48 then some (0, s)
    else if 49 ≤ b ∧ b ≤ 57 then some (readDigits (b.toNat - 48) s)
    else none
/-- encoding/json, scanner.go `stateBeginValue`, `stateNeg`. -/
def readInt : Bytes → Option (Int × Bytes)
  | [] => none
  | b :: s =>
    if b = 45 then (readNat s).map fun x => (-(x.1 : Int), x.2)
    else (readNat (b :: s)).map fun x => ((x.1 : Int), x.2)

mutual
/-- encoding/json, scanner.go `stateBeginValue`, decode.go `value`. `n` bounds the depth and the number of values. -/
def readVal : Nat → Bytes → Option (Val × Bytes)
  | 0, _ => none
  | n + 1, s =>
    match ws s with
    | 110 :: 117 :: 108 :: 108 :: s => some (.null, s)
    | 116 :: 114 :: 117 :: 101 :: s => some (.bool true, s)
    | 102 :: 97 :: 108 :: 115 :: 101 :: s => some (.bool false, s)
    | 34 :: s => (readStr s.length s).map fun x => (.str x.1, x.2)
    | 91 :: s =>
      match ws s with
      | 93 :: s => some (.arr .nil, s)
      | s => (readVal n s).bind fun x => (readVals n x.2).map fun y => (.arr (.cons x.1 y.1), y.2)
    | 123 :: s =>
      match ws s with
      | 125 :: s => some (.obj .nil, s)
      | s => (readMember n s).bind fun x => (readMembers n x.2).map fun y => (.obj (.cons x.1.1 x.1.2 y.1), y.2)
    | s => (readInt s).map fun x => (.int x.1, x.2)
/-- encoding/json, decode.go `array`: after an element. -/
def readVals : Nat → Bytes → Option (Vals × Bytes)
  | 0, _ => none
  | n + 1, s =>
    match ws s with
    | 93 :: s => some (.nil, s)
    | 44 :: s => (readVal n s).bind fun x => (readVals n x.2).map fun y => (.cons x.1 y.1, y.2)
    | _ => none
/-- encoding/json, decode.go `object`: a name and a value. -/
def readMember : Nat → Bytes → Option ((Bytes × Val) × Bytes)
  | 0, _ => none
  | n + 1, s =>
    match ws s with
    | 34 :: s =>
      (readStr s.length s).bind fun x =>
        match ws x.2 with
        | 58 :: t => (readVal n t).map fun y => ((x.1, y.1), y.2)
        | _ => none
    | _ => none
/-- encoding/json, decode.go `object`: after a member. -/
def readMembers : Nat → Bytes → Option (Members × Bytes)
  | 0, _ => none
  | n + 1, s =>
    match ws s with
    | 125 :: s => some (.nil, s)
    | 44 :: s => (readMember n s).bind fun x => (readMembers n x.2).map fun y => (.cons x.1.1 x.1.2 y.1, y.2)
    | _ => none
end
/-- encoding/json, stream.go `Decoder.Decode`: the first value of a text. -/
def parse (s : Bytes) : Option Val := (readVal (2 * s.length + 2) s).map Prod.fst

/-! ## The structures of libferry -/

/-- The last member with a name. encoding/json, decode.go `object`: members are stored as they are met. -/
def Members.get (name : Bytes) : Members → Option Val
  | .nil => none
  | .cons n v ms => match ms.get name with
    | some w => some w
    | none => if n = name then some v else none

/-- encoding/json, decode.go `literalStore`: null and an absent member leave the zero value; another kind of value is an error. -/
def fieldStr : Option Val → Option Bytes
  | none | some .null => some []
  | some (.str s) => some s
  | _ => none
/-- As `fieldStr`, for booleans. encoding/json, decode.go `literalStore`. -/
def fieldBool : Option Val → Option Bool
  | none | some .null => some false
  | some (.bool b) => some b
  | _ => none
/-- As `fieldStr`, for `int`: a number outside is an error. encoding/json, decode.go `literalStore`. -/
def fieldInt : Option Val → Option Int
  | none | some .null => some 0
  | some (.int i) => if -2 ^ 63 ≤ i ∧ i < 2 ^ 63 then some i else none
  | _ => none
/-- The elements of an array of strings. encoding/json, decode.go `array`. -/
def strings : Vals → Option (List Bytes)
  | .nil => some []
  | .cons v vs => (fieldStr (some v)).bind fun s => (strings vs).map (s :: ·)
/-- As `fieldStr`, for slices of strings. encoding/json, decode.go `array`. -/
def fieldStrs : Option Val → Option (List Bytes)
  | none | some .null => some []
  | some (.arr vs) => strings vs
  | _ => none
/-- An array of strings. encoding/json, encode.go `arrayEncoder.encode`. -/
def arrOf : List Bytes → Vals
  | [] => .nil
  | s :: l => .cons (.str s) (arrOf l)

/-- The bodies of the requests: libferry/types.go:33-36, 60-92. -/
inductive Request
  | importPackages (path : List Bytes)
  | clone (cloneName : Bytes) (copyAll : Bool)
  | pull (source : Bytes)
  | removeSource (source : Bytes) (release : Int)
  | copySource (target source : Bytes) (release : Int) (skipIndex : Bool)
  | trimPackages (maxKeep : Int)
deriving DecidableEq

/-- The routes that take a body: server.go:92-118. -/
inductive Kind | importPackages | clone | pull | removeSource | copySource | trimPackages
deriving DecidableEq
/-- handlers.go:180-295: the type that a route's handler reads into. -/
def Request.kind : Request → Kind
  | .importPackages _ => .importPackages
  | .clone _ _ => .clone
  | .pull _ => .pull
  | .removeSource _ _ => .removeSource
  | .copySource _ _ _ _ => .copySource
  | .trimPackages _ => .trimPackages

/-- (No code: names of fields.) -/
def nError : Bytes := [69, 114, 114, 111, 114]
/-- (No code: names of fields.) -/
def nErrorString : Bytes := [69, 114, 114, 111, 114, 83, 116, 114, 105, 110, 103]
/-- (No code: names of fields.) -/
def nPath : Bytes := [112, 97, 116, 104]
/-- (No code: names of fields.) -/
def nCloneName : Bytes := [99, 108, 111, 110, 101, 78, 97, 109, 101]
/-- (No code: names of fields.) -/
def nCopyAll : Bytes := [99, 111, 112, 121, 65, 108, 108]
/-- (No code: names of fields.) -/
def nSource : Bytes := [115, 111, 117, 114, 99, 101]
/-- (No code: names of fields.) -/
def nTarget : Bytes := [116, 97, 114, 103, 101, 116]
/-- (No code: names of fields.) -/
def nRelno : Bytes := [114, 101, 108, 110, 111]
/-- (No code: names of fields.) -/
def nSkipIndex : Bytes := [115, 107, 105, 112, 73, 110, 100, 101, 120]
/-- (No code: names of fields.) -/
def nMaxPackages : Bytes := [109, 97, 120, 80, 97, 99, 107, 97, 103, 101, 115]
/-- (No code: names of fields.) -/
def nRepos : Bytes := [114, 101, 112, 111, 115]
/-- (No code: names of fields.) -/
def nItems : Bytes := [105, 116, 101, 109, 115]
/-- (No code: names of fields.) -/
def nId : Bytes := [105, 100]
/-- (No code: names of fields.) -/
def nRefCount : Bytes := [114, 101, 102, 67, 111, 117, 110, 116]

/-- The fields of the embedded `Response`, which come first. libferry/types.go:25-28. -/
def withResponse (error : Bool) (text : Bytes) (ms : Members) : Val :=
  .obj (.cons nError (.bool error) (.cons nErrorString (.str text) ms))
/-- libferry/types.go:33-36, 60-92, in the order of the fields. -/
def Request.val : Request → Val
  | .importPackages ps => withResponse false [] (.cons nPath (.arr (arrOf ps)) .nil)
  | .clone n a => withResponse false [] (.cons nCloneName (.str n) (.cons nCopyAll (.bool a) .nil))
  | .pull s => withResponse false [] (.cons nSource (.str s) .nil)
  | .removeSource s r => withResponse false [] (.cons nSource (.str s) (.cons nRelno (.int r) .nil))
  | .copySource t s r k => withResponse false []
      (.cons nTarget (.str t) (.cons nSource (.str s) (.cons nRelno (.int r) (.cons nSkipIndex (.bool k) .nil))))
  | .trimPackages n => withResponse false [] (.cons nMaxPackages (.int n) .nil)
/-- libferry/main.go:118-125: the bytes of a body. -/
def Request.write (r : Request) : Bytes := printLine r.val

/-- handlers.go:183-290: what a handler gets from an object. -/
def Kind.read : Kind → Members → Option Request
  | .importPackages, m => (fieldStrs (m.get nPath)).map .importPackages
  | .clone, m => (fieldStr (m.get nCloneName)).bind fun n => (fieldBool (m.get nCopyAll)).map fun a => .clone n a
  | .pull, m => (fieldStr (m.get nSource)).map .pull
  | .removeSource, m => (fieldStr (m.get nSource)).bind fun s => (fieldInt (m.get nRelno)).map fun r => .removeSource s r
  | .copySource, m => (fieldStr (m.get nTarget)).bind fun t => (fieldStr (m.get nSource)).bind fun s =>
      (fieldInt (m.get nRelno)).bind fun r => (fieldBool (m.get nSkipIndex)).map fun k => .copySource t s r k
  | .trimPackages, m => (fieldInt (m.get nMaxPackages)).map .trimPackages
/-- handlers.go:185, 204, 224, 243, 263, 285: the handler's request, or an error (answered with 500). The fields of `Response` are read
too. -/
def receive (k : Kind) (s : Bytes) : Option Request :=
  match parse s with
  | some (.obj m) => (fieldBool (m.get nError)).bind fun _ => (fieldStr (m.get nErrorString)).bind fun _ => k.read m
  | _ => none

/-! ## Answers -/

/-- The pool in an answer: identifiers with their counts. libferry/types.go:46-56. -/
def itemsOf : List (Bytes × Int) → Vals
  | [] => .nil
  | x :: l => .cons (.obj (.cons nId (.str x.1) (.cons nRefCount (.int x.2) .nil))) (itemsOf l)
/-- libferry/types.go:25-56: the answers with a body. -/
inductive Answer
  | response (error : Bool) (text : Bytes)
  | repos (names : List Bytes)
  | pool (items : List (Bytes × Int))
deriving DecidableEq
/-- (No code: see `Answer.val`.) -/
def orNull : Vals → Val
  | .nil => .null
  | vs => .arr vs
/-- handlers.go:55-58, 104-143: a list that was never appended to is null. -/
def Answer.val : Answer → Val
  | .response e t => withResponse e t .nil
  | .repos l => withResponse false [] (.cons nRepos (orNull (arrOf l)) .nil)
  | .pool l => withResponse false [] (.cons nItems (orNull (itemsOf l)) .nil)
/-- handlers.go:57, 114, 136: the bytes of an answer. -/
def Answer.write (a : Answer) : Bytes := printLine a.val

/-- libferry/types.go:46-49: an element of the pool's listing. -/
def readItem : Val → Option (Bytes × Int)
  | .null => some ([], 0)
  | .obj m => (fieldStr (m.get nId)).bind fun s => (fieldInt (m.get nRefCount)).map fun n => (s, n)
  | _ => none
/-- libferry/types.go:52-55. -/
def readItems : Vals → Option (List (Bytes × Int))
  | .nil => some []
  | .cons v vs => (readItem v).bind fun x => (readItems vs).map (x :: ·)
/-- The three types a client reads an answer into. libferry/main.go:75-143. -/
inductive AnswerKind | response | repos | pool
deriving DecidableEq
/-- libferry/main.go:75-143: the answer as the client's structures hold it. -/
def readAnswer (k : AnswerKind) (s : Bytes) : Option Answer :=
  match parse s with
  | some (.obj m) => (fieldBool (m.get nError)).bind fun e => (fieldStr (m.get nErrorString)).bind fun t =>
    match k with
    | .response => some (.response e t)
    | .repos => (fieldStrs (m.get nRepos)).map .repos
    | .pool => match m.get nItems with
      | none | some .null => some (.pool [])
      | some (.arr vs) => (readItems vs).map .pool
      | _ => none
  | _ => none
/-- libferry/main.go:75-143. -/
def Answer.kind : Answer → AnswerKind
  | .response _ _ => .response
  | .repos _ => .repos
  | .pool _ => .pool

end Ferryd.Json
