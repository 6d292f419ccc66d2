import Verif.Escape
/-!
# PropsEscape: the index escaper (C50, C51, C52)
-/
namespace Ferryd.Escape

/-! ## Specification -/

namespace Spec

/-- The UTF-8 bytes of a text (encoder of Lean's core library). -/
def utf8 (cs : List Char) : List UInt8 := cs.flatMap String.utf8EncodeChar

def decVal (c : Char) : Option Nat := if 48 ≤ c.toNat ∧ c.toNat ≤ 57 then some (c.toNat - 48) else none

def hexVal (c : Char) : Option Nat :=
  if 48 ≤ c.toNat ∧ c.toNat ≤ 57 then some (c.toNat - 48)
  else if 65 ≤ c.toNat ∧ c.toNat ≤ 70 then some (c.toNat - 55)
  else if 97 ≤ c.toNat ∧ c.toNat ≤ 102 then some (c.toNat - 87)
  else none

/-- Digits up to a semicolon: their value and what follows. -/
def readNum (val : Char → Option Nat) (base : Nat) : Nat → Bool → List Char → Option (Nat × List Char)
  | _, _, [] => none
  | acc, seen, c :: cs =>
    match val c with
    | some d => readNum val base (acc * base + d) true cs
    | none => if c = ';' ∧ seen = true then some (acc, cs) else none

def charOf (x : Nat × List Char) : Option (Char × List Char) :=
  if x.1.isValidChar then some (Char.ofNat x.1, x.2) else none

/-- A character reference after `&#`: hexadecimal or decimal. -/
def readRef : List Char → Option (Char × List Char)
  | [] => none
  | c :: cs => if c = 'x' then (readNum hexVal 16 0 false cs).bind charOf else (readNum decVal 10 0 false (c :: cs)).bind charOf

theorem readNum_length {val : Char → Option Nat} {base acc : Nat} {seen : Bool} {cs : List Char} {n : Nat} {r : List Char}
    (h : readNum val base acc seen cs = some (n, r)) : r.length < cs.length := by
  induction cs generalizing acc seen with
  | nil => cases h
  | cons c cs ih =>
    simp only [readNum] at h
    split at h
    · have := ih h; simp only [List.length_cons]; omega
    · split at h
      · cases h; simp
      · cases h

theorem charOf_some {x : Nat × List Char} {c : Char} {r : List Char} (h : charOf x = some (c, r)) : r = x.2 := by
  unfold charOf at h; split at h
  · cases h; rfl
  · cases h

theorem readRef_length {cs : List Char} {c : Char} {r : List Char} (h : readRef cs = some (c, r)) :
    r.length < cs.length := by
  cases cs with
  | nil => cases h
  | cons d ds =>
    simp only [readRef] at h
    split at h
    · obtain ⟨⟨n, r'⟩, h1, h2⟩ := Option.bind_eq_some_iff.1 h
      have := readNum_length h1
      rw [charOf_some h2]
      simp only [List.length_cons]; omega
    · obtain ⟨⟨n, r'⟩, h1, h2⟩ := Option.bind_eq_some_iff.1 h
      have := readNum_length h1
      rw [charOf_some h2]
      exact this

/-- Reading a text as XML does: character references are replaced, once, from left to right. -/
def xmlRead : List Char → List Char
  | [] => []
  | [c] => [c]
  | c :: d :: cs =>
    if c = '&' ∧ d = '#' then
      match h : readRef cs with
      | some (x, r) => x :: xmlRead r
      | none => c :: xmlRead (d :: cs)
    else c :: xmlRead (d :: cs)
  termination_by cs => cs.length
  decreasing_by
    · have := readRef_length h; simp only [List.length_cons]; omega
    · simp
    · simp

/-- The text contains no character reference. -/
def NoRef (cs : List Char) : Prop := ¬ ['&', '#'] <:+: cs

end Spec
open Spec

/-! ## Decoding what was encoded -/

theorem char_valid (c : Char) : c.toNat < 0xD800 ∨ (0xDFFF < c.toNat ∧ c.toNat < 0x110000) := by
  have := c.valid
  unfold UInt32.isValidChar Nat.isValidChar at this
  exact this

theorem toNat_ofNat8 (n : Nat) : (UInt8.ofNat n).toNat = n % 256 := by simp

theorem encodeRune_char (c : Char) : encodeRune c.toNat = String.utf8EncodeChar c := by
  have hv := char_valid c
  have e : c.val.toNat = c.toNat := rfl
  unfold encodeRune String.utf8EncodeChar
  simp only [e]
  generalize c.toNat = n at *
  by_cases h1 : n < 0x80
  · rw [if_pos h1, if_pos (show n ≤ 0x7f by omega)]
  · rw [if_neg h1, if_neg (show ¬ n ≤ 0x7f by omega)]
    by_cases h2 : n < 0x800
    · rw [if_pos h2, if_pos (show n ≤ 0x7ff by omega)]
      rw [show n / 64 % 0x20 + 0xc0 = 0xC0 + n / 64 by omega, show n % 0x40 + 0x80 = 0x80 + n % 64 by omega]
    · rw [if_neg h2, if_neg (show ¬ n ≤ 0x7ff by omega),
        if_neg (show ¬ ((0xD800 ≤ n ∧ n ≤ 0xDFFF) ∨ 0x10FFFF < n) by omega)]
      by_cases h3 : n < 0x10000
      · rw [if_pos h3, if_pos (show n ≤ 0xffff by omega)]
        rw [show n / 4096 % 0x10 + 0xe0 = 0xE0 + n / 4096 by omega, show n / 64 % 0x40 + 0x80 = 0x80 + n / 64 % 64 by omega,
          show n % 0x40 + 0x80 = 0x80 + n % 64 by omega]
      · rw [if_neg h3, if_neg (show ¬ n ≤ 0xffff by omega)]
        rw [show n / 262144 % 0x08 + 0xf0 = 0xF0 + n / 262144 by omega,
          show n / 4096 % 0x40 + 0x80 = 0x80 + n / 4096 % 64 by omega,
          show n / 64 % 0x40 + 0x80 = 0x80 + n / 64 % 64 by omega,
          show n % 0x40 + 0x80 = 0x80 + n % 64 by omega]

theorem decode_encode (c : Char) (b : List UInt8) :
    decodeRune (String.utf8EncodeChar c ++ b) = (c.toNat, (String.utf8EncodeChar c).length) := by
  have hv := char_valid c
  rw [← encodeRune_char]
  unfold encodeRune
  generalize c.toNat = n at *
  by_cases h1 : n < 0x80
  · simp only [if_pos h1, List.cons_append, decodeRune, toNat_ofNat8, List.nil_append, List.length_singleton]
    rw [if_pos (by omega), show n % 256 = n by omega]
  · by_cases h2 : n < 0x800
    · simp only [if_neg h1, if_pos h2, List.cons_append, decodeRune, toNat_ofNat8, List.nil_append, List.length_cons,
        List.length_nil]
      have e1 : (0xC0 + n / 64) % 256 = 0xC0 + n / 64 := by omega
      have e2 : (0x80 + n % 64) % 256 = 0x80 + n % 64 := by omega
      rw [e1, e2, if_neg (by omega), if_neg (by omega), if_pos (by omega), if_pos (by omega)]
      refine Prod.ext ?_ rfl; show _ = n; omega
    · have h3 : ¬ ((0xD800 ≤ n ∧ n ≤ 0xDFFF) ∨ 0x10FFFF < n) := by omega
      by_cases h4 : n < 0x10000
      · simp only [if_neg h1, if_neg h2, if_neg h3, if_pos h4, List.cons_append, decodeRune, toNat_ofNat8,
          List.nil_append, List.length_cons, List.length_nil]
        have e1 : (0xE0 + n / 4096) % 256 = 0xE0 + n / 4096 := by omega
        have e2 : (0x80 + n / 64 % 64) % 256 = 0x80 + n / 64 % 64 := by omega
        have e3 : (0x80 + n % 64) % 256 = 0x80 + n % 64 := by omega
        rw [e1, e2, e3, if_neg (by omega), if_neg (by omega), if_neg (by omega), if_pos (by omega), if_pos]
        · refine Prod.ext ?_ rfl; show _ = n; omega
        · refine ⟨?_, ?_, by omega, by omega⟩ <;> split <;> omega
      · simp only [if_neg h1, if_neg h2, if_neg h3, if_neg h4, List.cons_append, decodeRune, toNat_ofNat8,
          List.nil_append, List.length_cons, List.length_nil]
        have e1 : (0xF0 + n / 262144) % 256 = 0xF0 + n / 262144 := by omega
        have e2 : (0x80 + n / 4096 % 64) % 256 = 0x80 + n / 4096 % 64 := by omega
        have e3 : (0x80 + n / 64 % 64) % 256 = 0x80 + n / 64 % 64 := by omega
        have e4 : (0x80 + n % 64) % 256 = 0x80 + n % 64 := by omega
        rw [e1, e2, e3, e4, if_neg (by omega), if_neg (by omega), if_neg (by omega), if_neg (by omega), if_pos (by omega),
          if_pos]
        · refine Prod.ext ?_ rfl; show _ = n; omega
        · refine ⟨?_, ?_, by omega, by omega, by omega, by omega⟩ <;> split <;> omega

theorem escapeLoop_skip (cls : Nat → Bool) (l b : List UInt8) : escapeLoop cls l.length (l ++ b) = escapeLoop cls 0 b := by
  induction l with
  | nil => rfl
  | cons x xs ih => exact ih

theorem write_char (cls : Nat → Bool) (c : Char) (b : List UInt8) :
    write cls (String.utf8EncodeChar c ++ b) = appendRune cls c.toNat ++ write cls b := by
  have hd := decode_encode c b
  have hne : String.utf8EncodeChar c ≠ [] := String.utf8EncodeChar_ne_nil
  unfold write
  generalize String.utf8EncodeChar c = l at hd hne
  cases l with
  | nil => exact absurd rfl hne
  | cons x xs =>
    rw [List.cons_append] at hd ⊢
    simp only [escapeLoop, hd, List.length_cons, Nat.add_sub_cancel]
    rw [escapeLoop_skip]

theorem write_append (cls : Nat → Bool) (cs : List Char) (b : List UInt8) :
    write cls (utf8 cs ++ b) = write cls (utf8 cs) ++ write cls b := by
  have key : ∀ b, write cls (utf8 cs ++ b) = cs.flatMap (fun c => appendRune cls c.toNat) ++ write cls b := by
    intro b
    induction cs with
    | nil => rfl
    | cons c cs ih =>
      simp only [utf8, List.flatMap_cons, List.append_assoc]
      rw [write_char]
      exact congrArg _ ih
  have h0 := key []
  rw [List.append_nil] at h0
  rw [key, h0]
  simp [write, escapeLoop]

/-! ## The escaped text as characters -/

def toC (b : UInt8) : Char := Char.ofNat b.toNat

/-- What one character becomes. -/
def escC (cls : Nat → Bool) (c : Char) : List Char :=
  if c.toNat = runeError then [c]
  else if mustEscape cls c.toNat then ['&', '#', 'x'] ++ (hex c.toNat).map toC ++ [';']
  else [c]

def esc (cls : Nat → Bool) (cs : List Char) : List Char := cs.flatMap (escC cls)

theorem toNat_ofNat {n : Nat} (h : n < 0xD800) : (Char.ofNat n).toNat = n := by
  unfold Char.ofNat
  rw [dif_pos (Or.inl h)]
  rfl

theorem utf8_append (a b : List Char) : utf8 (a ++ b) = utf8 a ++ utf8 b := by simp [utf8]

theorem hexDigit_lt (d : Nat) (h : d < 16) : (hexDigit d).toNat < 128 := by
  unfold hexDigit; split <;> simp only [toNat_ofNat8] <;> omega

theorem hexGo_mem {fuel n : Nat} {acc : List UInt8} (ha : ∀ x ∈ acc, x.toNat < 128) :
    ∀ x ∈ hexGo fuel n acc, x.toNat < 128 := by
  induction fuel generalizing n acc with
  | zero => exact ha
  | succ k ih =>
    simp only [hexGo]
    split
    · rename_i h
      intro x hx
      rcases List.mem_cons.1 hx with rfl | hx
      · exact hexDigit_lt n h
      · exact ha x hx
    · apply ih
      intro x hx
      rcases List.mem_cons.1 hx with rfl | hx
      · exact hexDigit_lt _ (Nat.mod_lt _ (by omega))
      · exact ha x hx

theorem utf8_toC {l : List UInt8} (h : ∀ x ∈ l, x.toNat < 128) : utf8 (l.map toC) = l := by
  induction l with
  | nil => rfl
  | cons x xs ih =>
    have hx := h x (by simp)
    simp only [List.map_cons, utf8, List.flatMap_cons]
    have h1 : String.utf8EncodeChar (toC x) = [x] := by
      rw [← encodeRune_char]
      have ht : (toC x).toNat = x.toNat := by
        unfold toC
        rw [toNat_ofNat (by omega)]
      rw [ht]
      unfold encodeRune
      rw [if_pos hx]
      simp
    rw [h1]
    exact congrArg _ (ih (fun y hy => h y (by simp [hy])))

theorem appendRune_char (cls : Nat → Bool) (c : Char) : appendRune cls c.toNat = utf8 (escC cls c) := by
  unfold appendRune escC
  split
  · rename_i h
    have : (0xFFFD : Nat) = c.toNat := h.symm
    rw [this, encodeRune_char]; simp [utf8]
  · split
    · rw [utf8_append, utf8_append, utf8_toC (l := hex c.toNat) (hexGo_mem (by simp))]
      have h1 : utf8 ['&', '#', 'x'] = [0x26, 0x23, 0x78] := by decide
      have h2 : utf8 [';'] = [0x3B] := by decide
      rw [h1, h2]
    · rw [encodeRune_char]; simp [utf8]

theorem write_utf8 (cls : Nat → Bool) (cs : List Char) : write cls (utf8 cs) = utf8 (esc cls cs) := by
  induction cs with
  | nil => rfl
  | cons c cs ih =>
    have h1 : utf8 (c :: cs) = String.utf8EncodeChar c ++ utf8 cs := by simp [utf8]
    have h2 : esc cls (c :: cs) = escC cls c ++ esc cls cs := by simp [esc]
    rw [h1, h2, write_char, ih, appendRune_char, utf8_append]

/-! ## Reading it back -/

theorem escC_ascii (cls : Nat → Bool) {c : Char} (h : c.toNat < 128) : escC cls c = [c] := by
  unfold escC mustEscape
  split
  · rfl
  · simp only [show ¬ (0x7F < c.toNat) by omega, decide_false, Bool.false_and, Bool.false_eq_true, if_false]

/-- Beyond ASCII, what a character becomes starts with a character that is no digit, `x`, `;` or `#`. -/
theorem escC_head (cls : Nat → Bool) {c : Char} (h : 128 ≤ c.toNat) :
    escC cls c = [c] ∨ ∃ t, escC cls c = '&' :: t := by
  unfold escC
  split
  · exact .inl rfl
  · split
    · exact .inr ⟨_, rfl⟩
    · exact .inl rfl

theorem readNum_esc (cls : Nat → Bool) {val : Char → Option Nat} (hv : ∀ c : Char, 128 ≤ c.toNat → val c = none)
    (ha : val '&' = none) (base acc : Nat) (seen : Bool) (cs : List Char) :
    readNum val base acc seen (esc cls cs) = (readNum val base acc seen cs).map (fun x => (x.1, esc cls x.2)) := by
  induction cs generalizing acc seen with
  | nil => rfl
  | cons c cs ih =>
    by_cases hc : c.toNat < 128
    · have : esc cls (c :: cs) = c :: esc cls cs := by
        simp only [esc, List.flatMap_cons, escC_ascii cls hc]; rfl
      rw [this]
      simp only [readNum]
      cases val c with
      | some d => exact ih _ _
      | none =>
        simp only
        split <;> rfl
    · have hc' : 128 ≤ c.toNat := by omega
      have hne : c ≠ ';' := by rintro rfl; exact absurd hc' (by decide)
      have hr : readNum val base acc seen (c :: cs) = none := by
        simp only [readNum, hv c hc', hne, false_and, if_false]
      rw [hr]
      rcases escC_head cls hc' with h | ⟨t, h⟩
      · have : esc cls (c :: cs) = c :: esc cls cs := by
          simp only [esc, List.flatMap_cons, h]; rfl
        rw [this]
        simp only [readNum, hv c hc', hne, false_and, if_false]; rfl
      · have : esc cls (c :: cs) = '&' :: (t ++ esc cls cs) := by
          simp only [esc, List.flatMap_cons, h]; rfl
        rw [this]
        simp only [readNum, ha]
        rw [if_neg (fun h => absurd h.1 (by decide))]; rfl

theorem hexVal_big (c : Char) (h : 128 ≤ c.toNat) : hexVal c = none := by
  unfold hexVal; rw [if_neg (by omega), if_neg (by omega), if_neg (by omega)]

theorem decVal_big (c : Char) (h : 128 ≤ c.toNat) : decVal c = none := by
  unfold decVal; rw [if_neg (by omega)]

theorem readRef_esc (cls : Nat → Bool) (cs : List Char) :
    readRef (esc cls cs) = (readRef cs).map (fun x => (x.1, esc cls x.2)) := by
  have bindMap : ∀ o : Option (Nat × List Char), (o.map (fun x => (x.1, esc cls x.2))).bind charOf =
      (o.bind charOf).map (fun x => (x.1, esc cls x.2)) := by
    intro o
    cases o with
    | none => rfl
    | some x =>
      simp only [Option.map_some, Option.bind_some, charOf]
      split <;> rfl
  have hd := readNum_esc cls decVal_big (by decide) 10 0 false cs
  have hh := fun cs => readNum_esc cls hexVal_big (by decide) 16 0 false cs
  cases cs with
  | nil => rfl
  | cons c cs =>
    by_cases hx : c = 'x'
    · subst hx
      have : esc cls ('x' :: cs) = 'x' :: esc cls cs := by
        simp only [esc, List.flatMap_cons, escC_ascii cls (c := 'x') (by decide)]; rfl
      rw [this]
      simp only [readRef, if_true]
      rw [hh, bindMap]
    · have h1 : readRef (c :: cs) = (readNum decVal 10 0 false (c :: cs)).bind charOf := by
        simp only [readRef, if_neg hx]
      have h2 : readRef (esc cls (c :: cs)) = (readNum decVal 10 0 false (esc cls (c :: cs))).bind charOf := by
        have hhd : ∃ d t, esc cls (c :: cs) = d :: t ∧ d ≠ 'x' := by
          by_cases hc : c.toNat < 128
          · exact ⟨c, esc cls cs, by simp only [esc, List.flatMap_cons, escC_ascii cls hc]; rfl, hx⟩
          · rcases escC_head cls (c := c) (by omega) with h | ⟨t, h⟩
            · exact ⟨c, esc cls cs, by simp only [esc, List.flatMap_cons, h]; rfl, hx⟩
            · exact ⟨'&', t ++ esc cls cs, by simp only [esc, List.flatMap_cons, h]; rfl, by decide⟩
        obtain ⟨d, t, ht, hdx⟩ := hhd
        rw [ht]
        simp only [readRef, if_neg hdx]
      rw [h2, h1, hd, bindMap]

theorem hexVal_digit : ∀ d : Fin 16, hexVal (toC (hexDigit d.val)) = some d.val := by decide

theorem readNum_hex {fuel n : Nat} (hn : n < 16 ^ fuel) (hf : 1 ≤ fuel) (seen : Bool) (acc : List UInt8) (l : List Char) :
    readNum hexVal 16 0 seen ((hexGo fuel n acc).map toC ++ l) = readNum hexVal 16 n true (acc.map toC ++ l) := by
  induction fuel generalizing n acc seen with
  | zero => omega
  | succ k ih =>
    simp only [hexGo]
    split
    · rename_i h
      simp only [List.map_cons, List.cons_append, readNum, hexVal_digit ⟨n, h⟩]
      simp
    · rename_i h
      have hk : 1 ≤ k := by
        rcases Nat.eq_zero_or_pos k with rfl | h0
        · simp at hn; omega
        · exact h0
      rw [ih (by rw [Nat.pow_succ] at hn; omega) hk]
      simp only [List.map_cons, List.cons_append, readNum, hexVal_digit ⟨n % 16, Nat.mod_lt _ (by omega)⟩]
      rw [show n / 16 * 16 + n % 16 = n by omega]

theorem readRef_escaped (c : Char) (l : List Char) :
    readRef ('x' :: ((hex c.toNat).map toC ++ ';' :: l)) = some (c, l) := by
  have hv := char_valid c
  simp only [readRef, if_true]
  unfold hex
  rw [readNum_hex (by omega) (by omega)]
  simp only [List.map_nil, List.nil_append, readNum]
  rw [show hexVal ';' = none by decide]
  simp only [and_self, if_true, Option.bind_some, charOf]
  have : c.toNat.isValidChar := by unfold Nat.isValidChar; omega
  rw [if_pos this]
  simp

theorem xmlRead_cons {c : Char} {cs : List Char} (h : ¬ (c = '&' ∧ ∃ t, cs = '#' :: t)) :
    xmlRead (c :: cs) = c :: xmlRead cs := by
  cases cs with
  | nil => rw [xmlRead, xmlRead]
  | cons d ds =>
    rw [xmlRead, if_neg]
    rintro ⟨h1, rfl⟩
    exact h ⟨h1, ds, rfl⟩

theorem xmlRead_ref {cs r : List Char} {c : Char} (h : readRef cs = some (c, r)) :
    xmlRead ('&' :: '#' :: cs) = c :: xmlRead r := by
  rw [xmlRead, if_pos (by decide)]
  split
  · rename_i h'
    rw [h] at h'; cases h'; rfl
  · rename_i h'
    rw [h] at h'; cases h'

theorem xmlRead_noref {cs : List Char} (h : readRef cs = none) :
    xmlRead ('&' :: '#' :: cs) = '&' :: xmlRead ('#' :: cs) := by
  rw [xmlRead, if_pos (by decide)]
  split
  · rename_i h'
    rw [h] at h'; cases h'
  · rfl

theorem esc_cons (cls : Nat → Bool) (c : Char) (cs : List Char) : esc cls (c :: cs) = escC cls c ++ esc cls cs := by
  simp [esc]

theorem xmlRead_esc (cls : Nat → Bool) (cs : List Char) : xmlRead (esc cls cs) = xmlRead cs := by
  generalize hn : cs.length = n
  induction n using Nat.strongRecOn generalizing cs with
  | _ n ih =>
    cases cs with
    | nil => rfl
    | cons c cs =>
      simp only [List.length_cons] at hn
      have ih1 : xmlRead (esc cls cs) = xmlRead cs := ih cs.length (by omega) cs rfl
      rw [esc_cons]
      by_cases hc : c.toNat < 128
      · rw [escC_ascii cls hc]
        show xmlRead (c :: esc cls cs) = _
        by_cases hamp : c = '&' ∧ ∃ t, cs = '#' :: t
        · obtain ⟨rfl, t, rfl⟩ := hamp
          have he : esc cls ('#' :: t) = '#' :: esc cls t := by
            rw [esc_cons, escC_ascii cls (c := '#') (by decide)]; rfl
          rw [he] at ih1 ⊢
          simp only [List.length_cons] at hn
          have hr := readRef_esc cls t
          cases hrt : readRef t with
          | none =>
            rw [hrt] at hr
            rw [xmlRead_noref hr, xmlRead_noref hrt, ih1]
          | some x =>
            obtain ⟨x, r⟩ := x
            rw [hrt] at hr
            have hl := readRef_length hrt
            rw [xmlRead_ref hr, xmlRead_ref hrt]
            simp only
            rw [ih r.length (by omega) r rfl]
        · rw [xmlRead_cons hamp, xmlRead_cons, ih1]
          rintro ⟨rfl, t, ht⟩
          apply hamp
          refine ⟨rfl, ?_⟩
          cases cs with
          | nil => cases ht
          | cons d ds =>
            rw [esc_cons] at ht
            by_cases hd : d.toNat < 128
            · rw [escC_ascii cls hd] at ht
              cases ht; exact ⟨ds, rfl⟩
            · rcases escC_head cls (c := d) (by omega) with h | ⟨t', h⟩
              · rw [h] at ht; cases ht; exact absurd (by decide) hd
              · rw [h] at ht; cases ht
      · have hne : c ≠ '&' := by rintro rfl; exact hc (by decide)
        rw [xmlRead_cons (fun h => hne h.1)]
        unfold escC
        split
        · show xmlRead (c :: esc cls cs) = _
          rw [xmlRead_cons (fun h => hne h.1), ih1]
        · split
          · show xmlRead ('&' :: '#' :: ('x' :: ((hex c.toNat).map toC ++ [';'] ++ esc cls cs))) = _
            rw [List.append_assoc]
            show xmlRead ('&' :: '#' :: ('x' :: ((hex c.toNat).map toC ++ ';' :: esc cls cs))) = _
            rw [xmlRead_ref (readRef_escaped c (esc cls cs)), ih1]
          · show xmlRead (c :: esc cls cs) = _
            rw [xmlRead_cons (fun h => hne h.1), ih1]

theorem xmlRead_plain {cs : List Char} (h : NoRef cs) : xmlRead cs = cs := by
  induction cs with
  | nil => rw [xmlRead]
  | cons c cs ih =>
    rw [xmlRead_cons, ih]
    · intro hi
      exact h (hi.trans (List.suffix_cons c cs).isInfix)
    · rintro ⟨rfl, t, rfl⟩
      exact h ⟨[], t, rfl⟩

/-! ## The claims -/

/-- C50.  ASCII bytes pass unchanged. -/
theorem C50_ascii_unchanged (cls : Nat → Bool) (b : List UInt8) (h : ∀ x ∈ b, x.toNat < 128) : write cls b = b := by
  have hb := utf8_toC h
  have hesc : esc cls (b.map toC) = b.map toC := by
    clear hb
    induction b with
    | nil => rfl
    | cons x xs ih =>
      rw [List.map_cons, esc_cons, ih (fun y hy => h y (by simp [hy])), escC_ascii]
      · rfl
      · have hx := h x (by simp)
        unfold toC
        rw [toNat_ofNat (by omega)]
        exact hx
  rw [← hb, write_utf8, hesc]

example : write (fun _ => true) (utf8 "a&#x41; <Name>é".toList.dropLast) = utf8 "a&#x41; <Name>".toList := by decide +kernel

/-- C51.  For every text, the escaper writes the UTF-8 bytes of a text that reads, as XML, like the original, and that
has no character above ASCII of the escaped classes (other than the replacement character). -/
theorem C51_reads_back (cls : Nat → Bool) (cs : List Char) :
    ∃ out, write cls (utf8 cs) = utf8 out ∧ xmlRead out = xmlRead cs ∧ (NoRef cs → xmlRead out = cs) ∧
      ∀ c ∈ out, c.toNat = 0xFFFD ∨ c.toNat < 128 ∨ cls c.toNat = false := by
  refine ⟨esc cls cs, write_utf8 cls cs, xmlRead_esc cls cs, fun h => ?_, ?_⟩
  · rw [xmlRead_esc, xmlRead_plain h]
  · intro c hc
    obtain ⟨d, _, hd⟩ := List.mem_flatMap.1 hc
    unfold escC at hd
    split at hd
    · rw [List.mem_singleton.1 hd]; left; assumption
    · split at hd
      · right; left
        simp only [List.mem_append, List.mem_cons, List.not_mem_nil, or_false, List.mem_map] at hd
        rcases hd with (h | ⟨x, hx, rfl⟩) | rfl
        · rcases h with rfl | rfl | rfl <;> decide
        · have := hexGo_mem (acc := []) (by simp) x hx
          unfold toC
          rw [toNat_ofNat (by omega)]
          exact this
        · decide
      · rename_i hm
        have hcd : c = d := List.mem_singleton.1 hd
        subst hcd
        unfold mustEscape at hm
        simp only [Bool.and_eq_true, decide_eq_true_eq, not_and, Bool.not_eq_true] at hm
        by_cases h1 : c.toNat < 128
        · exact .inr (.inl h1)
        · right; right
          exact hm (by omega)

/-- A text with a symbol (escaped), a letter (not) and a reference of its own. -/
example : write (fun n => n == 0x2122) (utf8 "x™é&#65;".toList) = utf8 "x&#x2122;é&#65;".toList := by decide +kernel
example : NoRef "x™é".toList := by
  unfold NoRef; decide +kernel

theorem utf8_inj {a b : List Char} (h : utf8 a = utf8 b) : a = b := by
  induction a generalizing b with
  | nil =>
    cases b with
    | nil => rfl
    | cons d ds =>
      simp only [utf8, List.flatMap_nil, List.flatMap_cons] at h
      exact absurd (List.append_eq_nil_iff.1 h.symm).1 String.utf8EncodeChar_ne_nil
  | cons c cs ih =>
    cases b with
    | nil =>
      simp only [utf8, List.flatMap_nil, List.flatMap_cons] at h
      exact absurd (List.append_eq_nil_iff.1 h).1 String.utf8EncodeChar_ne_nil
    | cons d ds =>
      simp only [utf8, List.flatMap_cons] at h
      have h1 := decode_encode c (cs.flatMap String.utf8EncodeChar)
      have h2 := decode_encode d (ds.flatMap String.utf8EncodeChar)
      rw [h, h2] at h1
      have hcd : c = d := by
        have := (Prod.mk.inj h1).1
        exact Char.toNat_inj.1 this.symm
      subst hcd
      rw [ih (List.append_cancel_left h)]

/-- C51.  Distinct texts without references of their own are never written alike. -/
theorem C51_injective (cls : Nat → Bool) (a b : List Char) (ha : NoRef a) (hb : NoRef b)
    (he : write cls (utf8 a) = write cls (utf8 b)) : a = b := by
  rw [write_utf8, write_utf8] at he
  have := congrArg xmlRead (utf8_inj he)
  rwa [xmlRead_esc, xmlRead_esc, xmlRead_plain ha, xmlRead_plain hb] at this

/-- C52 in full: cutting a text into writes makes no difference. -/
def C52_statement : Prop :=
  ∀ (cls : Nat → Bool) (cs : List Char) (bs : List (List UInt8)), bs.flatten = utf8 cs →
    writes cls bs = write cls (utf8 cs)

/-- C52 fails: `é` cut in two is written as two replacement characters. -/
theorem C52_violated : ¬ C52_statement := by
  intro h
  have := h (fun _ => false) ['é'] [[0xC3], [0xA9]] (by decide +kernel)
  exact absurd this (by decide +kernel)

/-- The chunks a buffered writer passes on are the text, cut. -/
theorem bufWrite_flatten (size fuel : Nat) (buf p : List UInt8) :
    (bufWrite size fuel buf p).1.flatten ++ (bufWrite size fuel buf p).2 = buf ++ p := by
  induction fuel generalizing buf p with
  | zero => rfl
  | succ k ih =>
    simp only [bufWrite]
    split
    · rfl
    · split
      · rename_i h; subst h; simp
      · have := ih [] (p.drop (size - buf.length))
        simp only [List.flatten_cons, List.append_assoc]
        rw [this]
        simp

theorem buffered_flatten (size : Nat) (buf : List UInt8) (ps : List (List UInt8)) :
    (buffered size buf ps).flatten = buf ++ ps.flatten := by
  induction ps generalizing buf with
  | nil => simp [buffered]
  | cons p ps ih =>
    simp only [buffered, List.flatten_append, ih, List.flatten_cons]
    rw [← List.append_assoc, bufWrite_flatten, List.append_assoc]

theorem cut_letter {cs : List Char} (hl : (utf8 cs).length = 4095) {cls : Nat → Bool} (hc : cls 0xE9 = false) :
    writes cls (buffered 4096 [] [utf8 cs, utf8 ['é']]) ≠ write cls (utf8 (cs ++ ['é'])) := by
  have h1 : buffered 4096 [] [utf8 cs, utf8 ['é']] = [utf8 cs ++ [0xC3], [0xA9]] := by
    have hne : utf8 cs ≠ [] := by
      intro h; rw [h] at hl; simp at hl
    have he : utf8 ['é'] = [0xC3, 0xA9] := by decide
    generalize utf8 cs = l at hl hne
    rw [he]
    simp [buffered, bufWrite, hl, hne]
  rw [h1]
  simp only [writes, List.flatMap_cons, List.flatMap_nil, List.append_nil]
  rw [utf8_append, write_append, write_append, List.append_assoc]
  intro h
  have h2 := List.append_cancel_left h
  have e1 : write cls [0xC3] ++ write cls [0xA9] = [0xEF, 0xBF, 0xBD, 0xEF, 0xBF, 0xBD] := by
    have hr : ∀ x : UInt8, (decodeRune [x]).1 = runeError → (decodeRune [x]).2 = 1 →
        write cls [x] = [0xEF, 0xBF, 0xBD] := by
      intro x h1 h2
      simp only [write, escapeLoop, h1, appendRune, if_true, List.append_nil]
      decide
    rw [hr _ (by decide) (by decide), hr _ (by decide) (by decide)]; rfl
  have e2 : write cls (utf8 ['é']) = [0xC3, 0xA9] := by
    have hm : mustEscape cls ('é' : Char).toNat = false := by
      unfold mustEscape
      rw [show ('é' : Char).toNat = 0xE9 by decide, hc, Bool.and_false]
    have : esc cls ['é'] = ['é'] := by
      simp [esc, escC]
      intro _; exact hm
    rw [write_utf8, this]; decide
  rw [e1, e2] at h2
  exact absurd h2 (by decide)

theorem utf8_replicate (n : Nat) : (utf8 (List.replicate n 'a')).length = n := by
  induction n with
  | zero => rfl
  | succ n ih =>
    have : utf8 (List.replicate (n + 1) 'a') = 97 :: utf8 (List.replicate n 'a') := by
      rw [List.replicate_succ]; simp only [utf8, List.flatMap_cons]; rfl
    rw [this, List.length_cons, ih]

/-- C52 fails for an index: the XML encoder writes through a buffer of 4096 bytes, and a letter that happens to lie
across its end is lost although each write of the encoder is a complete text. -/
theorem C52_index_violated :
    ∃ cs1 cs2 : List Char, ∀ cls : Nat → Bool, (cls 0xE9 = false) →
      writes cls (buffered 4096 [] [utf8 cs1, utf8 cs2]) ≠ write cls (utf8 (cs1 ++ cs2)) :=
  ⟨List.replicate 4095 'a', ['é'], fun _ hc => cut_letter (utf8_replicate 4095) hc⟩

/-- C52, the part that holds: cuts between characters make no difference, whatever is written last. -/
theorem C52_between_characters_partial (cls : Nat → Bool) (ts : List (List Char)) (last : List UInt8) :
    writes cls (ts.map utf8 ++ [last]) = write cls ((ts.map utf8).flatten ++ last) := by
  induction ts with
  | nil => simp [writes]
  | cons t ts ih =>
    simp only [writes, List.map_cons, List.cons_append, List.flatMap_cons, List.flatten_cons, List.append_assoc]
    rw [write_append]
    exact congrArg _ ih

/-- C52, the part that holds: for ASCII text every cut is harmless, so that an ASCII index is written as encoded
whatever the buffer does. -/
theorem C52_ascii_partial (cls : Nat → Bool) (size : Nat) (ps : List (List UInt8)) (h : ∀ p ∈ ps, ∀ x ∈ p, x.toNat < 128) :
    writes cls (buffered size [] ps) = ps.flatten := by
  have hf := buffered_flatten size [] ps
  rw [List.nil_append] at hf
  have hall : ∀ c ∈ buffered size [] ps, ∀ x ∈ c, x.toNat < 128 := by
    intro c hc x hx
    have : x ∈ ps.flatten := by rw [← hf]; exact List.mem_flatten.2 ⟨c, hc, hx⟩
    obtain ⟨p, hp, hxp⟩ := List.mem_flatten.1 this
    exact h p hp x hxp
  have : writes cls (buffered size [] ps) = (buffered size [] ps).flatten := by
    generalize buffered size [] ps = cs at hall
    clear hf
    induction cs with
    | nil => rfl
    | cons c cs ih =>
      simp only [writes, List.flatMap_cons, List.flatten_cons]
      rw [C50_ascii_unchanged cls c (hall c (by simp))]
      exact congrArg _ (ih (fun c' hc' => hall c' (by simp [hc'])))
  rw [this, hf]

example : writes (fun _ => false) ([['x', 'é'], ['ü']].map utf8 ++ [utf8 ['z']]) = utf8 ['x', 'é', 'ü', 'z'] := by
  decide +kernel

end Ferryd.Escape
