import Verif.XmlText
import Verif.PropsEscape
/-!
# PropsXmlText: texts in the index read back (C153)
-/
namespace Ferryd.Xml
open Ferryd.Escape Ferryd.Escape.Spec

/-! ## Specification: reading text as XML 1.0 says -/

namespace Spec
/-- What follows `p`, if the text begins with it. -/
def strip : List Char → List Char → Option (List Char)
  | [], s => some s
  | _ :: _, [] => none
  | p :: ps, c :: s => if p = c then strip ps s else none

theorem strip_length {p s r : List Char} (h : strip p s = some r) : r.length + p.length = s.length := by
  induction p generalizing s with
  | nil => cases h; rfl
  | cons a p ih =>
    cases s with
    | nil => cases h
    | cons c s =>
      simp only [strip] at h
      split at h
      · have := ih h; simp only [List.length_cons]; omega
      · cases h

/-- A character XML 1.0 allows (production 2). -/
def XmlChar (c : Char) : Prop :=
  c.toNat = 0x9 ∨ c.toNat = 0xA ∨ c.toNat = 0xD ∨ (0x20 ≤ c.toNat ∧ c.toNat ≤ 0xD7FF) ∨
    (0xE000 ≤ c.toNat ∧ c.toNat ≤ 0xFFFD) ∨ (0x10000 ≤ c.toNat ∧ c.toNat ≤ 0x10FFFF)
instance (c : Char) : Decidable (XmlChar c) := by unfold XmlChar; infer_instance

/-- After an ampersand: one of the five named entities or a character reference; the character and what follows. -/
def readEnt (s : List Char) : Option (Char × List Char) :=
  match strip ['a', 'm', 'p', ';'] s with
  | some r => some ('&', r)
  | none =>
  match strip ['l', 't', ';'] s with
  | some r => some ('<', r)
  | none =>
  match strip ['g', 't', ';'] s with
  | some r => some ('>', r)
  | none =>
  match strip ['q', 'u', 'o', 't', ';'] s with
  | some r => some ('"', r)
  | none =>
  match strip ['a', 'p', 'o', 's', ';'] s with
  | some r => some ('\'', r)
  | none =>
  match s with
  | '#' :: t => (readRef t).bind (fun x => if XmlChar x.1 then some x else none)
  | _ => none

theorem readEnt_length {s r : List Char} {c : Char} (h : readEnt s = some (c, r)) : r.length < s.length := by
  unfold readEnt at h
  repeat' split at h
  all_goals first
    | (cases h; rename_i hs; have := strip_length hs; simp at this; omega)
    | (obtain ⟨x, hx, h2⟩ := Option.bind_eq_some_iff.1 h
       split at h2
       · cases h2; have := readRef_length hx; simp only [List.length_cons]; omega
       · cases h2)
    | cases h

/-- Without the line feed after a carriage return (section 2.11). -/
def dropLF : List Char → List Char
  | '\n' :: r => r
  | r => r
theorem dropLF_length (s : List Char) : (dropLF s).length ≤ s.length := by
  unfold dropLF; split <;> simp

/-- Character data up to the next tag or the end: what a reader sees, and what follows.  `cd` says whether a CDATA
section is open: there nothing but its end is special.  Ends of lines are made line feeds (section 2.11).  No value if
the text is not well formed. -/
def readText (cd : Bool) (s : List Char) : Option (List Char × List Char) :=
  match s with
  | [] => if cd then none else some ([], [])
  | c :: r =>
    if cd then
      match _hs : strip cdataEnd (c :: r) with
      | some r' => readText false r'
      | none =>
        if c = '\r' then (readText true (dropLF r)).map (fun x => ('\n' :: x.1, x.2))
        else if XmlChar c then (readText true r).map (fun x => (c :: x.1, x.2)) else none
    else
      match _hs : strip cdataStart (c :: r) with
      | some r' => readText true r'
      | none =>
        if c = '<' then some ([], c :: r)
        else if (strip cdataEnd (c :: r)).isSome then none
        else if c = '&' then
          match _he : readEnt r with
          | some (x, r') => (readText false r').map (fun y => (x :: y.1, y.2))
          | none => none
        else if c = '\r' then (readText false (dropLF r)).map (fun x => ('\n' :: x.1, x.2))
        else if XmlChar c then (readText false r).map (fun x => (c :: x.1, x.2)) else none
  termination_by s.length
  decreasing_by
    · have := strip_length _hs; simp [cdataEnd] at this ⊢; omega
    · have := dropLF_length r; simp; omega
    · simp
    · have := strip_length _hs; simp [cdataStart] at this ⊢; omega
    · have := readEnt_length _he; simp; omega
    · have := dropLF_length r; simp; omega
    · simp

/-- The text of an element that contains nothing but text. -/
def elementText (s : List Char) : Option (List Char) :=
  match readText false s with
  | some (v, []) => some v
  | _ => none

/-- The value of an attribute (section 3.3.3): references are replaced, blanks and ends of lines become spaces; the
quotation mark ends it. -/
def readAttr (s : List Char) : Option (List Char × List Char) :=
  match s with
  | [] => none
  | c :: r =>
    if c = '"' then some ([], r)
    else if c = '<' then none
    else if c = '&' then
      match _he : readEnt r with
      | some (x, r') => (readAttr r').map (fun y => (x :: y.1, y.2))
      | none => none
    else if c = '\r' then (readAttr (dropLF r)).map (fun x => (' ' :: x.1, x.2))
    else if c = '\n' ∨ c = '\t' then (readAttr r).map (fun x => (' ' :: x.1, x.2))
    else if XmlChar c then (readAttr r).map (fun x => (c :: x.1, x.2)) else none
  termination_by s.length
  decreasing_by
    · have := readEnt_length _he; simp; omega
    · have := dropLF_length r; simp; omega
    · simp
    · simp

/-- Ends of lines made line feeds. -/
def lines : List Char → List Char
  | [] => []
  | '\r' :: '\n' :: r => '\n' :: lines r
  | '\r' :: r => '\n' :: lines r
  | c :: r => c :: lines r
end Spec
open Spec

/-! ## Steps of the reader -/

theorem strip_append (p r : List Char) : strip p (p ++ r) = some r := by
  induction p with
  | nil => rfl
  | cons a p ih => simp [strip, ih]

theorem strip_head {a c : Char} {p s : List Char} (h : a ≠ c) : strip (a :: p) (c :: s) = none := by
  simp [strip, h]

/-- What a text must be followed by: the end, or a tag. -/
def Stops (rest : List Char) : Prop := rest = [] ∨ ∃ t, rest = '<' :: t ∧ strip cdataStart rest = none

theorem readText_stops {rest : List Char} (h : Stops rest) : readText false rest = some ([], rest) := by
  rcases h with rfl | ⟨t, rfl, hs⟩
  · rw [readText]; rfl
  · rw [readText]
    simp only [Bool.false_eq_true, if_false]
    split
    · rename_i h2; rw [hs] at h2; cases h2
    · simp

theorem noEnd {t rest : List Char} (ht : '>' ∉ t) (hr : Stops rest) : strip cdataEnd (t ++ rest) = none := by
  have key : ∀ c, c = ']' ∨ c = '>' → ∀ p, strip (c :: p) rest = none := by
    intro c hc p
    rcases hr with rfl | ⟨u, rfl, _⟩
    · rfl
    · apply strip_head; rcases hc with rfl | rfl <;> decide
  unfold cdataEnd
  match t, ht with
  | [], _ => exact key _ (.inl rfl) _
  | [a], ht =>
    show strip _ (a :: rest) = none
    simp only [strip]; split
    · exact key _ (.inl rfl) _
    · rfl
  | [a, b], ht =>
    show strip _ (a :: b :: rest) = none
    simp only [strip]
    split
    · split
      · exact key _ (.inr rfl) _
      · rfl
    · rfl
  | a :: b :: c :: u, ht =>
    have hc : '>' ≠ c := by rintro rfl; exact ht (by simp)
    show strip _ (a :: b :: c :: (u ++ rest)) = none
    simp [strip, hc]

/-- A character that stands for itself. -/
theorem readText_plain {c : Char} {t : List Char} (h1 : c ≠ '<') (h2 : c ≠ '&') (h3 : c ≠ '\r') (hx : XmlChar c)
    (he : strip cdataEnd (c :: t) = none) :
    readText false (c :: t) = (readText false t).map (fun x => (c :: x.1, x.2)) := by
  rw [readText]
  simp only [Bool.false_eq_true, if_false]
  have hs : strip cdataStart (c :: t) = none := strip_head (Ne.symm h1)
  split
  · rename_i h; rw [hs] at h; cases h
  · rw [if_neg h1, he, if_neg (by simp), if_neg h2, if_neg h3, if_pos hx]

theorem readText_ent {x : Char} {t r : List Char} (h : readEnt t = some (x, r)) :
    readText false ('&' :: t) = (readText false r).map (fun y => (x :: y.1, y.2)) := by
  rw [readText]
  simp only [Bool.false_eq_true, if_false]
  have hs : strip cdataStart ('&' :: t) = none := strip_head (by decide)
  have he : strip cdataEnd ('&' :: t) = none := strip_head (by decide)
  split
  · rename_i h; rw [hs] at h; cases h
  · rw [if_neg (by decide), he, if_neg (by simp), if_pos trivial]
    split
    · rename_i h'; rw [h] at h'; cases h'; rfl
    · rename_i h'; rw [h] at h'; cases h'

theorem readAttr_ent {x : Char} {t r : List Char} (h : readEnt t = some (x, r)) :
    readAttr ('&' :: t) = (readAttr r).map (fun y => (x :: y.1, y.2)) := by
  rw [readAttr, if_neg (by decide), if_neg (by decide), if_pos rfl]
  split
  · rename_i h'; rw [h] at h'; cases h'; rfl
  · rename_i h'; rw [h] at h'; cases h'

theorem readAttr_plain {c : Char} {t : List Char} (h0 : c ≠ '"') (h1 : c ≠ '<') (h2 : c ≠ '&') (h3 : c ≠ '\r')
    (h4 : c ≠ '\n') (h5 : c ≠ '\t') (hx : XmlChar c) :
    readAttr (c :: t) = (readAttr t).map (fun x => (c :: x.1, x.2)) := by
  rw [readAttr, if_neg h0, if_neg h1, if_neg h2, if_neg h3, if_neg (by simp [h4, h5]), if_pos hx]

/-! ## The escaper on what the encoder writes -/

theorem esc_append (cls : Nat → Bool) (a b : List Char) : esc cls (a ++ b) = esc cls a ++ esc cls b := by simp [esc]

theorem esc_ascii (cls : Nat → Bool) {l : List Char} (h : ∀ c ∈ l, c.toNat < 128) : esc cls l = l := by
  induction l with
  | nil => rfl
  | cons c l ih => rw [esc_cons, escC_ascii cls (h c (by simp)), ih (fun d hd => h d (by simp [hd]))]; rfl

/-- A hexadecimal digit is a letter or a digit. -/
theorem hex_digits (n : Nat) : ∀ c ∈ (hex n).map toC, (48 ≤ c.toNat ∧ c.toNat ≤ 57) ∨ (65 ≤ c.toNat ∧ c.toNat ≤ 70) := by
  have dig : ∀ d : Fin 16, (48 ≤ (toC (hexDigit d.val)).toNat ∧ (toC (hexDigit d.val)).toNat ≤ 57) ∨
      (65 ≤ (toC (hexDigit d.val)).toNat ∧ (toC (hexDigit d.val)).toNat ≤ 70) := by decide
  have go : ∀ (fuel n : Nat) (acc : List UInt8),
      (∀ x ∈ acc, (48 ≤ (toC x).toNat ∧ (toC x).toNat ≤ 57) ∨ (65 ≤ (toC x).toNat ∧ (toC x).toNat ≤ 70)) →
      ∀ x ∈ hexGo fuel n acc, (48 ≤ (toC x).toNat ∧ (toC x).toNat ≤ 57) ∨ (65 ≤ (toC x).toNat ∧ (toC x).toNat ≤ 70) := by
    intro fuel
    induction fuel with
    | zero => intro n acc h; exact h
    | succ k ih =>
      intro n acc h
      simp only [hexGo]
      split
      · rename_i hn
        intro x hx
        rcases List.mem_cons.1 hx with rfl | hx
        · exact dig ⟨n, hn⟩
        · exact h x hx
      · apply ih
        intro x hx
        rcases List.mem_cons.1 hx with rfl | hx
        · exact dig ⟨n % 16, Nat.mod_lt _ (by omega)⟩
        · exact h x hx
  intro c hc
  obtain ⟨x, hx, rfl⟩ := List.mem_map.1 hc
  exact go 8 n [] (by simp) x hx

/-- What a character beyond ASCII becomes: itself, or a reference that reads back. -/
theorem escC_cases (cls : Nat → Bool) {c : Char} (h : 128 ≤ c.toNat) :
    (escC cls c = [c] ∧ (c.toNat = 0xFFFD ∨ cls c.toNat = false)) ∨
    (escC cls c = ['&', '#', 'x'] ++ (hex c.toNat).map toC ++ [';'] ∧ c.toNat ≠ 0xFFFD ∧ cls c.toNat = true) := by
  unfold escC mustEscape runeError
  have h127 : (0x7F < c.toNat) := by omega
  by_cases h1 : c.toNat = 0xFFFD
  · rw [if_pos h1]; exact .inl ⟨rfl, .inl h1⟩
  · rw [if_neg h1]
    cases h2 : cls c.toNat with
    | true => rw [if_pos (by simp [h127])]; exact .inr ⟨rfl, h1, rfl⟩
    | false => rw [if_neg (by simp)]; exact .inl ⟨rfl, .inr rfl⟩

theorem readEnt_ref {t r : List Char} {c : Char} (h : readRef t = some (c, r)) (hx : XmlChar c) :
    readEnt ('#' :: t) = some (c, r) := by
  unfold readEnt
  rw [strip_head (by decide), strip_head (by decide), strip_head (by decide), strip_head (by decide), strip_head (by decide)]
  simp [h, hx]

theorem readEnt_escaped {c : Char} (hx : XmlChar c) (l : List Char) :
    readEnt ('#' :: 'x' :: ((hex c.toNat).map toC ++ ';' :: l)) = some (c, l) :=
  readEnt_ref (readRef_escaped c l) hx

theorem inRange_iff (c : Char) : inRange c = true ↔ XmlChar c := by
  have := char_valid c
  unfold inRange XmlChar
  simp only [Bool.or_eq_true, Bool.and_eq_true, decide_eq_true_eq]
  omega

/-- No character of an escaped text is a `>`, a quotation mark or a `<`. -/
theorem escT_chars {c d : Char} (h : d ∈ escT c) : d ≠ '>' ∧ d ≠ '<' ∧ d ≠ '"' := by
  unfold escT at h
  by_cases h1 : c = '"'
  · rw [if_pos h1] at h; revert d; decide
  rw [if_neg h1] at h
  by_cases h2 : c = '\''
  · rw [if_pos h2] at h; revert d; decide
  rw [if_neg h2] at h
  by_cases h3 : c = '&'
  · rw [if_pos h3] at h; revert d; decide
  rw [if_neg h3] at h
  by_cases h4 : c = '<'
  · rw [if_pos h4] at h; revert d; decide
  rw [if_neg h4] at h
  by_cases h5 : c = '>'
  · rw [if_pos h5] at h; revert d; decide
  rw [if_neg h5] at h
  by_cases h6 : c = '\t'
  · rw [if_pos h6] at h; revert d; decide
  rw [if_neg h6] at h
  by_cases h7 : c = '\n'
  · rw [if_pos h7] at h; revert d; decide
  rw [if_neg h7] at h
  by_cases h8 : c = '\r'
  · rw [if_pos h8] at h; revert d; decide
  rw [if_neg h8] at h
  split at h
  · rw [List.mem_singleton] at h; subst h; exact ⟨h5, h4, h1⟩
  · rw [List.mem_singleton] at h; subst h; decide

theorem escC_chars (cls : Nat → Bool) {c d : Char} (h : d ∈ escC cls c) :
    d = c ∨ d = '&' ∨ d = '#' ∨ d = 'x' ∨ d = ';' ∨ (48 ≤ d.toNat ∧ d.toNat ≤ 57) ∨ (65 ≤ d.toNat ∧ d.toNat ≤ 70) := by
  by_cases hc : c.toNat < 128
  · rw [escC_ascii cls hc] at h; simp at h; exact .inl h
  · rcases escC_cases cls (c := c) (by omega) with ⟨e, _⟩ | ⟨e, _⟩
    · rw [e] at h; simp at h; exact .inl h
    · rw [e] at h
      simp only [List.mem_append, List.mem_cons, List.not_mem_nil, or_false] at h
      rcases h with (h | h) | h
      · rcases h with h | h | h <;> simp [h]
      · exact .inr (.inr (.inr (.inr (.inr (hex_digits _ d h)))))
      · simp [h]

theorem esc_noGt (cls : Nat → Bool) {v : List Char} (h : '>' ∉ v) : '>' ∉ esc cls v := by
  intro hm
  obtain ⟨c, hc, hd⟩ := List.mem_flatMap.1 hm
  rcases escC_chars cls hd with rfl | h1 | h1 | h1 | h1 | h1 | h1
  · exact h hc
  all_goals first | (revert h1; decide)

theorem escapeText_noGt (v : List Char) : '>' ∉ escapeText v := by
  intro h
  obtain ⟨c, _, hc⟩ := List.mem_flatMap.1 h
  exact (escT_chars hc).1 rfl

/-- One character, as an element's text and as an attribute. -/
theorem read_char (cls : Nat → Bool) {c : Char} (hx : XmlChar c) {t : List Char}
    (ht : strip cdataEnd (c :: t) = none ∨ c ≠ ']') :
    readText false (esc cls (escT c) ++ t) = (readText false t).map (fun x => (c :: x.1, x.2)) ∧
    readAttr (esc cls (escT c) ++ t) = (readAttr t).map (fun x => (c :: x.1, x.2)) := by
  have ent : ∀ u : List Char, readEnt (u ++ t) = some (c, t) → (∀ d ∈ '&' :: u, d.toNat < 128) → escT c = '&' :: u →
      readText false (esc cls (escT c) ++ t) = (readText false t).map (fun x => (c :: x.1, x.2)) ∧
      readAttr (esc cls (escT c) ++ t) = (readAttr t).map (fun x => (c :: x.1, x.2)) := by
    intro u hu ha he
    rw [he, esc_ascii cls ha, List.cons_append]
    exact ⟨readText_ent hu, readAttr_ent hu⟩
  by_cases h1 : c = '"'
  · subst h1; exact ent ['#', '3', '4', ';'] (readEnt_ref rfl (by decide)) (by decide) rfl
  by_cases h2 : c = '\''
  · subst h2; exact ent ['#', '3', '9', ';'] (readEnt_ref rfl (by decide)) (by decide) rfl
  by_cases h3 : c = '&'
  · subst h3; exact ent ['a', 'm', 'p', ';'] rfl (by decide) rfl
  by_cases h4 : c = '<'
  · subst h4; exact ent ['l', 't', ';'] rfl (by decide) rfl
  by_cases h5 : c = '>'
  · subst h5; exact ent ['g', 't', ';'] rfl (by decide) rfl
  by_cases h6 : c = '\t'
  · subst h6; exact ent ['#', 'x', '9', ';'] (readEnt_ref rfl (by decide)) (by decide) rfl
  by_cases h7 : c = '\n'
  · subst h7; exact ent ['#', 'x', 'A', ';'] (readEnt_ref rfl (by decide)) (by decide) rfl
  by_cases h8 : c = '\r'
  · subst h8; exact ent ['#', 'x', 'D', ';'] (readEnt_ref rfl (by decide)) (by decide) rfl
  have he : escT c = [c] := by
    unfold escT
    rw [if_neg h1, if_neg h2, if_neg h3, if_neg h4, if_neg h5, if_neg h6, if_neg h7, if_neg h8,
      if_pos ((inRange_iff c).2 hx)]
  have hend : strip cdataEnd (c :: t) = none := by
    rcases ht with h | h
    · exact h
    · exact strip_head (Ne.symm h)
  have ee : esc cls [c] = escC cls c := by simp [esc]
  rw [he, ee]
  have plain : escC cls c = [c] → readText false (escC cls c ++ t) = (readText false t).map (fun x => (c :: x.1, x.2)) ∧
      readAttr (escC cls c ++ t) = (readAttr t).map (fun x => (c :: x.1, x.2)) := by
    intro e
    rw [e]
    exact ⟨readText_plain h4 h3 h8 hx hend, readAttr_plain h1 h4 h3 h8 h7 h6 hx⟩
  by_cases hc : c.toNat < 128
  · exact plain (escC_ascii cls hc)
  · rcases escC_cases cls (c := c) (by omega) with ⟨e, _⟩ | ⟨e, _⟩
    · exact plain e
    · rw [e]
      have hr := readEnt_escaped hx t
      have e2 : ['&', '#', 'x'] ++ (hex c.toNat).map toC ++ [';'] ++ t =
          '&' :: '#' :: 'x' :: ((hex c.toNat).map toC ++ ';' :: t) := by simp
      rw [e2]
      exact ⟨readText_ent hr, readAttr_ent hr⟩

theorem escapeText_cons (c : Char) (v : List Char) : escapeText (c :: v) = escT c ++ escapeText v := by
  simp [escapeText]

/-- The text of a plain element reads back. -/
theorem readText_escaped (cls : Nat → Bool) {v : List Char} (hv : ∀ c ∈ v, XmlChar c) {rest : List Char}
    (hr : Stops rest) : readText false (esc cls (escapeText v) ++ rest) = some (v, rest) := by
  induction v with
  | nil => exact readText_stops hr
  | cons c v ih =>
    rw [escapeText_cons, esc_append, List.append_assoc]
    have hend : strip cdataEnd (c :: (esc cls (escapeText v) ++ rest)) = none ∨ c ≠ ']' := by
      by_cases hc : c = ']'
      · refine .inl (noEnd (t := c :: esc cls (escapeText v)) ?_ hr)
        intro hm
        rcases List.mem_cons.1 hm with h | h
        · rw [hc] at h; exact absurd h (by decide)
        · exact esc_noGt cls (escapeText_noGt v) h
      · exact .inr hc
    rw [(read_char cls (hv c (by simp)) hend).1, ih (fun d hd => hv d (by simp [hd]))]
    rfl

/-- The value of an attribute reads back. -/
theorem readAttr_escaped (cls : Nat → Bool) {v : List Char} (hv : ∀ c ∈ v, XmlChar c) (rest : List Char) :
    readAttr (esc cls (escapeText v) ++ '"' :: rest) = some (v, rest) := by
  induction v with
  | nil => show readAttr ('"' :: rest) = _; rw [readAttr, if_pos rfl]
  | cons c v ih =>
    rw [escapeText_cons, esc_append, List.append_assoc]
    have hend : strip cdataEnd (c :: (esc cls (escapeText v) ++ '"' :: rest)) = none ∨ c ≠ ']' := by
      by_cases hc : c = ']'
      · left
        have h1 : '>' ∉ esc cls (escapeText v) := esc_noGt cls (escapeText_noGt v)
        subst hc
        unfold cdataEnd
        simp only [strip, if_true]
        match hl : esc cls (escapeText v) with
        | [] => simp [strip]
        | [a] => simp [strip]
        | a :: b :: u =>
          rw [hl] at h1
          have hb : '>' ≠ b := by rintro rfl; exact h1 (by simp)
          simp [strip, hb]
      · exact .inr hc
    rw [(read_char cls (hv c (by simp)) hend).2, ih (fun d hd => hv d (by simp [hd]))]
    rfl

/-! ## CDATA -/

theorem cdataBody_end (r : List Char) :
    cdataBody (']' :: ']' :: '>' :: r) = ']' :: ']' :: (cdataEnd ++ (cdataStart ++ ('>' :: cdataBody r))) := by
  rw [cdataBody]; rfl

theorem cdataBody_cons {c : Char} {r : List Char} (h : strip cdataEnd (c :: r) = none) :
    cdataBody (c :: r) = c :: cdataBody r := by
  conv => lhs; unfold cdataBody
  split
  · rename_i heq; cases heq
  · rename_i heq; cases heq; simp [cdataEnd, strip] at h
  · rename_i heq; cases heq; rfl

/-- In a CDATA section the end is not seen too early. -/
theorem noEnd_body {c : Char} {r u : List Char} (h : strip cdataEnd (c :: r) = none) :
    strip cdataEnd (c :: (cdataBody r ++ (cdataEnd ++ u))) = none := by
  by_cases hc : c = ']'
  · subst hc
    unfold cdataEnd at h ⊢
    simp only [strip, if_true] at h ⊢
    match r with
    | [] => simp [cdataBody, strip]
    | d :: r =>
      cases hs : strip cdataEnd (d :: r) with
      | some w =>
        -- the next characters are cut in two themselves
        cases r with
        | nil => simp [cdataEnd, strip] at hs
        | cons e r =>
          cases r with
          | nil => simp [cdataEnd, strip] at hs
          | cons f r =>
            simp only [cdataEnd, strip] at hs
            by_cases h1 : ']' = d
            · by_cases h2 : ']' = e
              · by_cases h3 : '>' = f
                · subst h1 h2 h3
                  rw [cdataBody_end]
                  simp [strip]
                · simp [h3] at hs
              · simp [h2] at hs
            · simp [h1] at hs
      | none =>
        rw [cdataBody_cons hs]
        by_cases hd : ']' = d
        · subst hd
          simp only [strip, if_true] at h
          simp only [strip, List.cons_append, if_true]
          match r with
          | [] => simp [cdataBody, strip]
          | e :: r =>
            have he : '>' ≠ e := by rintro rfl; simp [strip] at h
            cases hs2 : strip cdataEnd (e :: r) with
            | none => rw [cdataBody_cons hs2]; simp [strip, he]
            | some w =>
              have : e = ']' := by
                apply Classical.byContradiction
                intro hne
                rw [show strip cdataEnd (e :: r) = none from strip_head (Ne.symm hne)] at hs2
                cases hs2
              subst this
              cases r with
              | nil => simp [cdataEnd, strip] at hs2
              | cons f r =>
                cases r with
                | nil => simp [cdataEnd, strip] at hs2
                | cons g r =>
                  simp only [cdataEnd, strip, if_true] at hs2
                  by_cases h2 : ']' = f
                  · by_cases h3 : '>' = g
                    · subst h2 h3; rw [cdataBody_end]; simp [strip]
                    · simp [h3] at hs2
                  · simp [h2] at hs2
        · simp [strip, hd]
  · exact strip_head (Ne.symm hc)

theorem readText_end (rest : List Char) : readText true (cdataEnd ++ rest) = readText false rest := by
  have hs := strip_append cdataEnd rest
  have e : cdataEnd ++ rest = ']' :: ']' :: '>' :: rest := rfl
  rw [e] at hs ⊢
  rw [readText]
  simp only [if_true]
  split
  · rename_i h; rw [hs] at h; cases h; rfl
  · rename_i h; rw [hs] at h; cases h

theorem readText_start (rest : List Char) : readText false (cdataStart ++ rest) = readText true rest := by
  have hs := strip_append cdataStart rest
  have e : cdataStart ++ rest = '<' :: '!' :: '[' :: 'C' :: 'D' :: 'A' :: 'T' :: 'A' :: '[' :: rest := rfl
  rw [e] at hs ⊢
  rw [readText]
  simp only [Bool.false_eq_true, if_false]
  split
  · rename_i h; rw [hs] at h; cases h; rfl
  · rename_i h; rw [hs] at h; cases h

theorem readText_raw {c : Char} {t : List Char} (h : c ≠ '\r') (hx : XmlChar c) (he : strip cdataEnd (c :: t) = none) :
    readText true (c :: t) = (readText true t).map (fun x => (c :: x.1, x.2)) := by
  rw [readText]
  simp only [if_true]
  split
  · rename_i h; rw [he] at h; cases h
  · rw [if_neg h, if_pos hx]

theorem readText_cr {t : List Char} :
    readText true ('\r' :: t) = (readText true (dropLF t)).map (fun x => ('\n' :: x.1, x.2)) := by
  have he : strip cdataEnd ('\r' :: t) = none := strip_head (by decide)
  rw [readText]
  simp only [if_true]
  split
  · rename_i h; rw [he] at h; cases h
  · rfl

theorem lines_cons {c : Char} {r : List Char} (h : c ≠ '\r') : lines (c :: r) = c :: lines r := by
  conv => lhs; unfold lines
  split
  · rename_i heq; cases heq
  · rename_i heq; cases heq; exact absurd rfl h
  · rename_i heq; cases heq; exact absurd rfl h
  · rename_i heq; cases heq; rfl

theorem lines_cr {r : List Char} : lines ('\r' :: r) = '\n' :: lines (dropLF r) := by
  cases r with
  | nil => rfl
  | cons d r =>
    by_cases h : d = '\n'
    · subst h; rfl
    · have e : dropLF (d :: r) = d :: r := by
        unfold dropLF; split
        · rename_i heq; cases heq; exact absurd rfl h
        · rfl
      rw [e]
      conv => lhs; unfold lines
      split
      · rename_i heq; cases heq
      · rename_i heq; cases heq; exact absurd rfl h
      · rename_i heq; cases heq; rfl
      · rename_i h1 heq; cases heq; exact (h1 rfl).elim

/-- The head of the body is the head of the text. -/
theorem dropLF_body (r u : List Char) :
    dropLF (cdataBody r ++ (cdataEnd ++ u)) = cdataBody (dropLF r) ++ (cdataEnd ++ u) := by
  match r with
  | [] => rfl
  | d :: r =>
    by_cases hd : d = '\n'
    · subst hd
      rw [cdataBody_cons (strip_head (by decide))]; rfl
    · have e : dropLF (d :: r) = d :: r := by
        unfold dropLF; split
        · rename_i heq; cases heq; exact absurd rfl hd
        · rfl
      rw [e]
      have key : ∃ t, cdataBody (d :: r) = d :: t := by
        unfold cdataBody
        split
        · rename_i heq; cases heq
        · rename_i heq; cases heq; exact ⟨_, rfl⟩
        · rename_i heq; cases heq; exact ⟨_, rfl⟩
      obtain ⟨t, ht⟩ := key
      rw [ht]
      show dropLF (d :: (t ++ (cdataEnd ++ u))) = _
      unfold dropLF; split
      · rename_i heq; cases heq; exact absurd rfl hd
      · rfl

theorem dropLF_mem {r : List Char} {c : Char} (h : c ∈ dropLF r) : c ∈ r := by
  unfold dropLF at h; split at h
  · exact List.mem_cons_of_mem _ h
  · exact h

/-- What a reader sees of a CDATA section: the text, with the ends of lines made line feeds. -/
theorem readText_body {w rest : List Char} (hw : ∀ c ∈ w, XmlChar c) :
    readText true (cdataBody w ++ (cdataEnd ++ rest)) = (readText false rest).map (fun x => (lines w ++ x.1, x.2)) := by
  generalize hn : w.length = n
  induction n using Nat.strongRecOn generalizing w with
  | _ n ih =>
  match w, hw, hn with
  | [], _, _ =>
    show readText true (cdataEnd ++ rest) = _
    rw [readText_end]
    cases readText false rest <;> rfl
  | c :: r, hw, hn =>
    simp only [List.length_cons] at hn
    have hr : ∀ d ∈ r, XmlChar d := fun d hd => hw d (by simp [hd])
    by_cases hcr : c = '\r'
    · subst hcr
      rw [cdataBody_cons (strip_head (by decide)), List.cons_append, readText_cr, dropLF_body, lines_cr,
        ih (dropLF r).length (by have := dropLF_length r; omega) (fun d hd => hr d (dropLF_mem hd)) rfl]
      cases readText false rest <;> rfl
    · cases hs : strip cdataEnd (c :: r) with
      | none =>
        rw [cdataBody_cons hs, List.cons_append, readText_raw hcr (hw c (by simp)) (noEnd_body hs), lines_cons hcr,
          ih r.length (by omega) hr rfl]
        cases readText false rest <;> rfl
      | some q =>
        have hc : c = ']' := Classical.byContradiction fun hne => by
          rw [show strip cdataEnd (c :: r) = none from strip_head (Ne.symm hne)] at hs; cases hs
        subst hc
        match r, hs, hn, hr with
        | [], hs, _, _ => simp [cdataEnd, strip] at hs
        | [_], hs, _, _ => simp [cdataEnd, strip] at hs
        | e :: f :: r, hs, hn, hr =>
          simp only [cdataEnd, strip, if_true] at hs
          by_cases h1 : ']' = e
          · by_cases h2 : '>' = f
            · subst h1 h2
              simp only [List.length_cons] at hn
              rw [cdataBody_end]
              have e1 : ']' :: ']' :: (cdataEnd ++ (cdataStart ++ ('>' :: cdataBody r))) ++ (cdataEnd ++ rest) =
                  ']' :: ']' :: (cdataEnd ++ (cdataStart ++ ('>' :: (cdataBody r ++ (cdataEnd ++ rest))))) := by simp
              rw [e1, readText_raw (by decide) (by decide) (by simp [cdataEnd, strip]),
                readText_raw (by decide) (by decide) (by simp [cdataEnd, strip]), readText_end, readText_start,
                readText_raw (by decide) (by decide) (strip_head (by decide)),
                ih r.length (by omega) (fun d hd => hr d (by simp [hd])) rfl,
                lines_cons (by decide), lines_cons (by decide), lines_cons (by decide)]
              cases readText false rest <;> rfl
            · simp [h2] at hs
          · simp [h1] at hs

/-! ## The escaper on CDATA -/

theorem escC_first (cls : Nat → Bool) (c : Char) : ∃ d t, escC cls c = d :: t ∧ (d = c ∨ (d = '&' ∧ 128 ≤ c.toNat)) := by
  by_cases hc : c.toNat < 128
  · exact ⟨c, [], escC_ascii cls hc, .inl rfl⟩
  · rcases escC_cases cls (c := c) (by omega) with ⟨e, _⟩ | ⟨e, _⟩
    · exact ⟨c, [], e, .inl rfl⟩
    · exact ⟨'&', _, e, .inr ⟨rfl, by omega⟩⟩

/-- The escaper does not make or break an end of a section. -/
theorem strip_end_esc (cls : Nat → Bool) (w : List Char) :
    (strip cdataEnd w = none → strip cdataEnd (esc cls w) = none) := by
  have key : ∀ (p : List Char), (∀ a ∈ p, a = ']' ∨ a = '>') → ∀ w, strip p w = none → strip p (esc cls w) = none := by
    intro p
    induction p with
    | nil => intro _ w h; cases h
    | cons a p ih =>
      intro hp w h
      cases w with
      | nil => rfl
      | cons c w =>
        rw [esc_cons]
        by_cases hac : a = c
        · subst hac
          have ha : a.toNat < 128 := by rcases hp a (by simp) with rfl | rfl <;> decide
          rw [escC_ascii cls ha]
          simp only [List.cons_append, List.nil_append, strip, if_true] at h ⊢
          exact ih (fun b hb => hp b (by simp [hb])) w h
        · obtain ⟨d, t, e, hd⟩ := escC_first cls c
          rw [e, List.cons_append]
          apply strip_head
          rcases hd with rfl | ⟨rfl, _⟩
          · exact hac
          · rcases hp a (by simp) with rfl | rfl <;> decide
  exact key cdataEnd (by decide) w

theorem cdataBody_skip {l : List Char} (h : ']' ∉ l) (r : List Char) : cdataBody (l ++ r) = l ++ cdataBody r := by
  induction l with
  | nil => rfl
  | cons c l ih =>
    have hc : ']' ≠ c := by rintro rfl; exact h (by simp)
    rw [List.cons_append, cdataBody_cons (strip_head hc), ih (fun hm => h (by simp [hm]))]; rfl

theorem esc_cdataBody (cls : Nat → Bool) (w : List Char) : esc cls (cdataBody w) = cdataBody (esc cls w) := by
  generalize hn : w.length = n
  induction n using Nat.strongRecOn generalizing w with
  | _ n ih =>
  match w, hn with
  | [], _ => rfl
  | c :: r, hn =>
    simp only [List.length_cons] at hn
    cases hs : strip cdataEnd (c :: r) with
    | none =>
      rw [cdataBody_cons hs, esc_cons, ih r.length (by omega) r rfl]
      have hs' := strip_end_esc cls _ hs
      rw [esc_cons] at hs' ⊢
      by_cases hc : c.toNat < 128
      · rw [escC_ascii cls hc] at hs' ⊢
        exact (cdataBody_cons hs').symm
      · rw [cdataBody_skip]
        intro hm
        rcases escC_chars cls hm with h | h | h | h | h | h | h
        · rw [← h] at hc; exact hc (by decide)
        all_goals revert h; decide
    | some q =>
      have hc : c = ']' := Classical.byContradiction fun hne => by
        rw [show strip cdataEnd (c :: r) = none from strip_head (Ne.symm hne)] at hs; cases hs
      subst hc
      match r, hs, hn with
      | [], hs, _ => simp [cdataEnd, strip] at hs
      | [_], hs, _ => simp [cdataEnd, strip] at hs
      | e :: f :: r, hs, hn =>
        simp only [cdataEnd, strip, if_true] at hs
        by_cases h1 : ']' = e
        · by_cases h2 : '>' = f
          · subst h1 h2
            simp only [List.length_cons] at hn
            have a1 : escC cls ']' = [']'] := escC_ascii cls (by decide)
            have a2 : escC cls '>' = ['>'] := escC_ascii cls (by decide)
            have e1 : esc cls (']' :: ']' :: '>' :: r) = ']' :: ']' :: '>' :: esc cls r := by
              rw [esc_cons, esc_cons, esc_cons, a1, a2]; rfl
            rw [e1, cdataBody_end, cdataBody_end, ← ih r.length (by omega) r rfl]
            have e2 : ∀ x, ']' :: ']' :: (cdataEnd ++ (cdataStart ++ ('>' :: x))) =
                ([']', ']'] ++ cdataEnd ++ cdataStart ++ ['>']) ++ x := by intro x; simp
            rw [e2, e2, esc_append, esc_ascii cls (l := [']', ']'] ++ cdataEnd ++ cdataStart ++ ['>']) (by decide)]
          · simp [h2] at hs
        · simp [h1] at hs

theorem esc_xml (cls : Nat → Bool) {v : List Char} (hv : ∀ c ∈ v, XmlChar c) : ∀ c ∈ esc cls v, XmlChar c := by
  intro d hd
  obtain ⟨c, hc, hd⟩ := List.mem_flatMap.1 hd
  rcases escC_chars cls hd with rfl | h | h | h | h | h | h
  · exact hv _ hc
  · subst h; decide
  · subst h; decide
  · subst h; decide
  · subst h; decide
  · unfold XmlChar; omega
  · unfold XmlChar; omega

/-- What a reader sees of a `,cdata` field: the text as the escaper wrote it, with the ends of lines made line feeds. -/
theorem readText_cdata (cls : Nat → Bool) {v rest : List Char} (hv : ∀ c ∈ v, XmlChar c) (hr : Stops rest) :
    readText false (esc cls (emitCDATA v) ++ rest) = some (lines (esc cls v), rest) := by
  unfold emitCDATA
  by_cases h : v = []
  · rw [if_pos h, h]; exact readText_stops hr
  · rw [if_neg h, esc_append, esc_append, esc_ascii cls (l := cdataStart) (by decide),
      esc_ascii cls (l := cdataEnd) (by decide), esc_cdataBody, List.append_assoc, List.append_assoc, readText_start,
      readText_body (esc_xml cls hv), readText_stops hr]
    simp

theorem lines_noCR (w : List Char) : '\r' ∉ lines w := by
  generalize hn : w.length = n
  induction n using Nat.strongRecOn generalizing w with
  | _ n ih =>
  match w, hn with
  | [], _ => simp [lines]
  | c :: r, hn =>
    simp only [List.length_cons] at hn
    by_cases h : c = '\r'
    · subst h
      rw [lines_cr]
      have := ih (dropLF r).length (by have := dropLF_length r; omega) _ rfl
      simp [this]
    · rw [lines_cons h]
      have := ih r.length (by omega) r rfl
      simp [this, Ne.symm h]

theorem lines_id {w : List Char} (h : '\r' ∉ w) : lines w = w := by
  induction w with
  | nil => rfl
  | cons c w ih =>
    have hc : c ≠ '\r' := by rintro rfl; exact h (by simp)
    rw [lines_cons hc, ih (fun hm => h (by simp [hm]))]

theorem escC_length (cls : Nat → Bool) (c : Char) :
    (escC cls c).length = 1 ∧ escC cls c = [c] ∧ (c.toNat < 128 ∨ c.toNat = 0xFFFD ∨ cls c.toNat = false) ∨
    (2 ≤ (escC cls c).length ∧ 128 ≤ c.toNat ∧ c.toNat ≠ 0xFFFD ∧ cls c.toNat = true) := by
  by_cases hc : c.toNat < 128
  · rw [escC_ascii cls hc]; exact .inl ⟨rfl, rfl, .inl hc⟩
  · rcases escC_cases cls (c := c) (by omega) with ⟨e, h⟩ | ⟨e, h1, h2⟩
    · rw [e]; exact .inl ⟨rfl, rfl, .inr h⟩
    · rw [e]; exact .inr ⟨by simp, by omega, h1, h2⟩

theorem esc_length (cls : Nat → Bool) (v : List Char) : v.length ≤ (esc cls v).length := by
  induction v with
  | nil => simp
  | cons c v ih =>
    rw [esc_cons, List.length_append, List.length_cons]
    rcases escC_length cls c with ⟨h, _⟩ | ⟨h, _⟩ <;> omega

theorem esc_id_iff (cls : Nat → Bool) (v : List Char) :
    esc cls v = v ↔ ∀ c ∈ v, c.toNat < 128 ∨ c.toNat = 0xFFFD ∨ cls c.toNat = false := by
  induction v with
  | nil => simp [esc]
  | cons c v ih =>
    rw [esc_cons]
    rcases escC_length cls c with ⟨_, e, h⟩ | ⟨h, h1, h2, h3⟩
    · rw [e]
      simp [h, ih]
    · constructor
      · intro he
        have := congrArg List.length he
        rw [List.length_append, List.length_cons] at this
        have := esc_length cls v
        omega
      · intro ha
        rcases ha c (by simp) with h | h | h
        · omega
        · exact absurd h h2
        · rw [h3] at h; cases h

theorem esc_noCR (cls : Nat → Bool) {v : List Char} (h : '\r' ∉ v) : '\r' ∉ esc cls v := by
  intro hm
  obtain ⟨c, hc, hd⟩ := List.mem_flatMap.1 hm
  rcases escC_chars cls hd with rfl | h1 | h1 | h1 | h1 | h1 | h1
  · exact h hc
  all_goals revert h1; decide

theorem lines_esc_iff (cls : Nat → Bool) (v : List Char) :
    lines (esc cls v) = v ↔ '\r' ∉ v ∧ ∀ c ∈ v, c.toNat < 128 ∨ c.toNat = 0xFFFD ∨ cls c.toNat = false := by
  constructor
  · intro h
    have h1 : '\r' ∉ v := by rw [← h]; exact lines_noCR _
    rw [lines_id (esc_noCR cls h1)] at h
    exact ⟨h1, (esc_id_iff cls v).1 h⟩
  · rintro ⟨h1, h2⟩
    rw [lines_id (esc_noCR cls h1), (esc_id_iff cls v).2 h2]

/-! ## C153 -/

/-- The full claim: whatever the text of a field of the index, the bytes written for it are a text that a reader of XML
reads as that text.  The third kind are the summaries, descriptions, comments and names of people.  `cls` is the table
of symbols, control characters and blanks of Go; U+2122 (the trade mark sign) is a symbol. -/
def C153_statement : Prop := ∀ (cls : Nat → Bool), cls 0x2122 = true → ∀ v : List Char, (∀ c ∈ v, XmlChar c) →
  (∃ out, write cls (utf8 (escapeText v)) = utf8 out ∧ elementText out = some v) ∧
  (∃ out, write cls (utf8 (escapeText v ++ ['"'])) = utf8 out ∧ readAttr out = some (v, [])) ∧
  (∃ out, write cls (utf8 (emitCDATA v)) = utf8 out ∧ elementText out = some v)

/-- Elements and attributes of type string: every text reads back. -/
theorem C153_plain_partial (cls : Nat → Bool) {v : List Char} (hv : ∀ c ∈ v, XmlChar c) :
    (∃ out, write cls (utf8 (escapeText v)) = utf8 out ∧ elementText out = some v) ∧
    (∃ out, write cls (utf8 (escapeText v ++ ['"'])) = utf8 out ∧ readAttr out = some (v, [])) := by
  constructor
  · refine ⟨_, write_utf8 cls _, ?_⟩
    have := readText_escaped cls hv (rest := []) (.inl rfl)
    rw [List.append_nil] at this
    unfold elementText; rw [this]
  · refine ⟨_, write_utf8 cls _, ?_⟩
    rw [esc_append, esc_ascii cls (l := ['"']) (by decide)]
    exact readAttr_escaped cls hv []

/-- Summaries, descriptions, comments and names of people: always well formed, and read back exactly if they contain no
carriage return and no symbol, control character or blank beyond ASCII.  (Missing: all the other texts, which are
shown with the reference in place of the character.) -/
theorem C153_cdata_partial (cls : Nat → Bool) {v : List Char} (hv : ∀ c ∈ v, XmlChar c) :
    ∃ out seen, write cls (utf8 (emitCDATA v)) = utf8 out ∧ elementText out = some seen ∧
      (seen = v ↔ '\r' ∉ v ∧ ∀ c ∈ v, c.toNat < 128 ∨ c.toNat = 0xFFFD ∨ cls c.toNat = false) := by
  refine ⟨_, lines (esc cls v), write_utf8 cls _, ?_, lines_esc_iff cls v⟩
  have := readText_cdata cls hv (rest := []) (.inl rfl)
  rw [List.append_nil] at this
  unfold elementText; rw [this]

/-- The trade mark sign in a summary is shown as the eight characters `&#x2122;`, since character references mean
nothing in a CDATA section. -/
theorem C153_violated : ¬ C153_statement := by
  intro h
  obtain ⟨out, h1, h2⟩ := (h (fun n => n == 0x2122) rfl ['™'] (by decide)).2.2
  obtain ⟨out', seen, h3, h4, h5⟩ := C153_cdata_partial (fun n => n == 0x2122) (v := ['™']) (by decide)
  have e : out = out' := utf8_inj (h1.symm.trans h3)
  rw [e, h4] at h2
  have hs : seen = ['™'] := Option.some.inj h2
  have := (h5.1 hs).2 '™' (by simp)
  revert this; decide

/-- What a reader sees instead. -/
theorem C153_violated_shown (cls : Nat → Bool) (hc : cls 0x2122 = true) :
    ∃ out, write cls (utf8 (emitCDATA ['™'])) = utf8 out ∧
      elementText out = some ['&', '#', 'x', '2', '1', '2', '2', ';'] := by
  refine ⟨_, write_utf8 cls _, ?_⟩
  have := readText_cdata cls (v := ['™']) (rest := []) (by decide) (.inl rfl)
  rw [List.append_nil] at this
  unfold elementText; rw [this]
  have e : esc cls ['™'] = ['&', '#', 'x', '2', '1', '2', '2', ';'] := by
    rw [esc_cons]
    rcases escC_cases cls (c := '™') (by decide) with ⟨_, h | h⟩ | ⟨e, _⟩
    · exact absurd h (by decide)
    · rw [show ('™' : Char).toNat = 0x2122 from rfl, hc] at h; cases h
    · rw [e, show esc cls [] = [] from rfl]; decide
  rw [e]
  show some (lines _) = _
  rw [lines_id (by decide)]

/-- A concrete case: a text with markup, the end of a CDATA section and a letter beyond ASCII. -/
example : (∀ c ∈ ['<', 'é', '&', ']', ']', '>', '"'], XmlChar c) ∧ '\r' ∉ ['<', 'é', '&', ']', ']', '>', '"'] := by decide

end Ferryd.Xml
