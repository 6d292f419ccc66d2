/-!
# Escape: core/escape.go, the writer between the XML encoder and the index file

Bytes are `UInt8`, runes are code points (`Nat`).  The Unicode class test `unicode.In(r, Symbol, C, Space)` is a
parameter `cls` (table of Go's unicode package); all theorems hold for every `cls`.
-/
namespace Ferryd.Escape

/-- utf8.RuneError = unicode.ReplacementChar. core/escape.go:40-41. -/
def runeError : Nat := 0xFFFD

/-- utf8.DecodeRune of Go's standard library, used at core/escape.go:27: code point and width of the first rune; an
invalid or cut sequence gives `RuneError` and width 1. -/
def decodeRune : List UInt8 → Nat × Nat
  | [] => (runeError, 0)
  | b0 :: rest =>
    let x := b0.toNat
    if x < 0x80 then (x, 1)
    else if x < 0xC2 then (runeError, 1)
    else if x < 0xE0 then
      match rest with
      | b1 :: _ =>
        if 0x80 ≤ b1.toNat ∧ b1.toNat ≤ 0xBF then ((x - 0xC0) * 64 + (b1.toNat - 0x80), 2) else (runeError, 1)
      | [] => (runeError, 1)
    else if x < 0xF0 then
      match rest with
      | b1 :: b2 :: _ =>
        if (if x = 0xE0 then 0xA0 else 0x80) ≤ b1.toNat ∧ b1.toNat ≤ (if x = 0xED then 0x9F else 0xBF) ∧
            0x80 ≤ b2.toNat ∧ b2.toNat ≤ 0xBF
        then ((x - 0xE0) * 4096 + (b1.toNat - 0x80) * 64 + (b2.toNat - 0x80), 3) else (runeError, 1)
      | _ => (runeError, 1)
    else if x < 0xF5 then
      match rest with
      | b1 :: b2 :: b3 :: _ =>
        if (if x = 0xF0 then 0x90 else 0x80) ≤ b1.toNat ∧ b1.toNat ≤ (if x = 0xF4 then 0x8F else 0xBF) ∧
            0x80 ≤ b2.toNat ∧ b2.toNat ≤ 0xBF ∧ 0x80 ≤ b3.toNat ∧ b3.toNat ≤ 0xBF
        then ((x - 0xF0) * 262144 + (b1.toNat - 0x80) * 4096 + (b2.toNat - 0x80) * 64 + (b3.toNat - 0x80), 4)
        else (runeError, 1)
      | _ => (runeError, 1)
    else (runeError, 1)

/-- utf8.AppendRune of Go's standard library, used at core/escape.go:42,46 (surrogates and code points out of range
become the replacement character). -/
def encodeRune (r : Nat) : List UInt8 :=
  if r < 0x80 then [UInt8.ofNat r]
  else if r < 0x800 then [UInt8.ofNat (0xC0 + r / 64), UInt8.ofNat (0x80 + r % 64)]
  else if (0xD800 ≤ r ∧ r ≤ 0xDFFF) ∨ 0x10FFFF < r then [0xEF, 0xBF, 0xBD]
  else if r < 0x10000 then
    [UInt8.ofNat (0xE0 + r / 4096), UInt8.ofNat (0x80 + r / 64 % 64), UInt8.ofNat (0x80 + r % 64)]
  else
    [UInt8.ofNat (0xF0 + r / 262144), UInt8.ofNat (0x80 + r / 4096 % 64), UInt8.ofNat (0x80 + r / 64 % 64),
      UInt8.ofNat (0x80 + r % 64)]

/-- One digit of `%X`. core/escape.go:43. -/
def hexDigit (d : Nat) : UInt8 := if d < 10 then UInt8.ofNat (48 + d) else UInt8.ofNat (55 + d)

/-- `%X` of fmt for a non-negative number (at most 8 digits: `uint32`), core/escape.go:44. -/
def hexGo : Nat → Nat → List UInt8 → List UInt8
  | 0, _, acc => acc
  | fuel + 1, n, acc => if n < 16 then hexDigit n :: acc else hexGo fuel (n / 16) (hexDigit (n % 16) :: acc)
/-- `%X`, core/escape.go:43. -/
def hex (n : Nat) : List UInt8 := hexGo 8 n []

/-- core/escape.go:50-52 `mustEscape`. -/
def mustEscape (cls : Nat → Bool) (r : Nat) : Bool := decide (0x7F < r) && cls r

/-- core/escape.go:39-48 `appendRune`: what is appended for one rune. -/
def appendRune (cls : Nat → Bool) (r : Nat) : List UInt8 :=
  if r = runeError then encodeRune 0xFFFD
  else if mustEscape cls r then [0x26, 0x23, 0x78] ++ hex r ++ [0x3B]
  else encodeRune r

/-- core/escape.go:26-30: the loop; `skip` counts bytes of the current rune still to be passed over. -/
def escapeLoop (cls : Nat → Bool) : Nat → List UInt8 → List UInt8
  | _, [] => []
  | skip + 1, _ :: xs => escapeLoop cls skip xs
  | 0, x :: xs =>
    appendRune cls (decodeRune (x :: xs)).1 ++ escapeLoop cls ((decodeRune (x :: xs)).2 - 1) xs

/-- core/escape.go:22-37 `Write`: what one call writes to the underlying file. -/
def write (cls : Nat → Bool) (b : List UInt8) : List UInt8 := escapeLoop cls 0 b

/-- A sequence of calls of `Write`. The calls are made by the encoder of core/repo_index.go:243. -/
def writes (cls : Nat → Bool) (bs : List (List UInt8)) : List UInt8 := bs.flatMap (write cls)

/-- bufio.Writer of Go's standard library, through which xml.Encoder (core/repo_index.go:243) calls `Write`: `size`
bytes of buffer (4096 in bufio.NewWriter), the first argument of `fuel` bounds the inner loop (each round takes at
least one byte).  Value: chunks passed on, and bytes buffered. -/
def bufWrite (size : Nat) : Nat → List UInt8 → List UInt8 → List (List UInt8) × List UInt8
  | 0, buf, p => ([], buf ++ p)
  | fuel + 1, buf, p =>
    if p.length ≤ size - buf.length then ([], buf ++ p)
    else if buf = [] then ([p], [])
    else
      let n := size - buf.length
      let (cs, b) := bufWrite size fuel [] (p.drop n)
      ((buf ++ p.take n) :: cs, b)

/-- A sequence of writes to the bufio.Writer followed by Flush (xml.Encoder.Flush, core/repo_index.go:281). -/
def buffered (size : Nat) : List UInt8 → List (List UInt8) → List (List UInt8)
  | buf, [] => [buf]
  | buf, p :: ps =>
    let (cs, b) := bufWrite size (p.length + 2) buf p
    cs ++ buffered size b ps

end Ferryd.Escape
