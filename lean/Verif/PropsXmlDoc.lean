import Verif.XmlDoc
import Verif.PropsXmlText
/-!
# PropsXmlDoc: the index is a well-formed document (C154)
-/
namespace Ferryd.Xml
open Ferryd.Escape Ferryd.Escape.Spec Spec

/-! ## Specification: reading a document -/

namespace Spec
/-- What a reader of XML sees of an element. -/
inductive Seen
  | mk (name : List Char) (attrs : List (List Char × List Char)) (text : List Char) (kids : List Seen)

def isLetter (c : Char) : Bool := (65 ≤ c.toNat && c.toNat ≤ 90) || (97 ≤ c.toNat && c.toNat ≤ 122)
/-- The characters of names, as far as they are ASCII. -/
def isNameChar (c : Char) : Bool :=
  isLetter c || (48 ≤ c.toNat && c.toNat ≤ 57) || c = '_' || c = '-' || c = '.' || c = ':'
def isBlank (c : Char) : Bool := c = ' ' || c = '\n' || c = '\t' || c = '\r'

/-- The longest run of name characters, and what follows. -/
def spanName : List Char → List Char × List Char
  | [] => ([], [])
  | c :: s => if isNameChar c then (c :: (spanName s).1, (spanName s).2) else ([], c :: s)

/-- A name begins with a letter. -/
def readName (s : List Char) : Option (List Char × List Char) :=
  match (spanName s).1 with
  | [] => none
  | c :: _ => if isLetter c then some (spanName s) else none

/-- The attributes of a start tag up to its `>`; no name twice.  The first argument bounds their number. -/
def readAttrs : Nat → List Char → Option (List (List Char × List Char) × List Char)
  | 0, _ => none
  | k + 1, s =>
    match s with
    | '>' :: r => some ([], r)
    | ' ' :: r =>
      match readName r with
      | some (n, '=' :: '"' :: r2) =>
        match readAttr r2 with
        | some (v, r3) =>
          match readAttrs k r3 with
          | some (as, r4) => if n ∈ as.map Prod.fst then none else some ((n, v) :: as, r4)
          | none => none
        | none => none
      | _ => none
    | _ => none

mutual
/-- An element: start tag, content, end tag of the same name.  Blanks between child elements are not kept.  The first
argument bounds the depth and number of elements. -/
def readElem : Nat → List Char → Option (Seen × List Char)
  | 0, _ => none
  | k + 1, s =>
    match s with
    | '<' :: r =>
      match readName r with
      | none => none
      | some (n, r1) =>
        match readAttrs r1.length r1 with
        | none => none
        | some (as, r2) =>
          match readContent k r2 with
          | none => none
          | some (t, ks, r3) =>
            match strip (['<', '/'] ++ n ++ ['>']) r3 with
            | none => none
            | some r4 => some (.mk n as (if !ks.isEmpty && t.all isBlank then [] else t) ks, r4)
    | _ => none
/-- Text and elements up to an end tag. -/
def readContent : Nat → List Char → Option (List Char × List Seen × List Char)
  | 0, _ => none
  | k + 1, s =>
    match readText false s with
    | none => none
    | some (t, r) =>
      if (strip ['<', '/'] r).isSome then some (t, [], r)
      else
        match readElem k r with
        | none => none
        | some (e, r1) =>
          match readContent k r1 with
          | none => none
          | some (t2, es, r2) => some (t ++ t2, e :: es, r2)
end

/-- A document: one element, with blanks around it. -/
def readDocument (s : List Char) : Option Seen :=
  match readElem (s.dropWhile isBlank).length (s.dropWhile isBlank) with
  | some (e, r) => if r.all isBlank then some e else none
  | none => none

/-- A name as it is used in the index. -/
def IsName (n : List Char) : Prop := (∃ c t, n = c :: t ∧ isLetter c = true) ∧ ∀ c ∈ n, isNameChar c = true

/-- Attributes with names, no name twice, and texts XML can express. -/
def GoodAttrs (as : List (List Char × List Char)) : Prop :=
  (∀ a ∈ as, IsName a.1 ∧ ∀ c ∈ a.2, XmlChar c) ∧ (as.map Prod.fst).Nodup

mutual
/-- An element whose names are names and whose texts consist of characters that XML can express. -/
inductive Good : Elem → Prop
  | leaf {n as cd t} : IsName n → GoodAttrs as → (∀ c ∈ t, XmlChar c) → Good (.leaf n as cd t)
  | node {n as ks} : IsName n → GoodAttrs as → AllGood ks → Good (.node n as ks)
inductive AllGood : List Elem → Prop
  | nil : AllGood []
  | cons {e es} : Good e → AllGood es → AllGood (e :: es)
end

/-- A text that survives a CDATA section of the index (see C153). -/
def Clean (cls : Nat → Bool) (t : List Char) : Prop :=
  '\r' ∉ t ∧ ∀ c ∈ t, c.toNat < 128 ∨ c.toNat = 0xFFFD ∨ cls c.toNat = false

mutual
/-- The reader sees the element: the same name, the same attributes, the same text (in a CDATA section: if it is
clean), and the child elements one by one. -/
inductive Matches (cls : Nat → Bool) : Elem → Seen → Prop
  | plain {n as t} : Matches cls (.leaf n as false t) (.mk n as t [])
  | cdata {n as t u} : (Clean cls t → u = t) → Matches cls (.leaf n as true t) (.mk n as u [])
  | node {n as ks ss} : MatchesAll cls ks ss → Matches cls (.node n as ks) (.mk n as [] ss)
inductive MatchesAll (cls : Nat → Bool) : List Elem → List Seen → Prop
  | nil : MatchesAll cls [] []
  | cons {e es s ss} : Matches cls e s → MatchesAll cls es ss → MatchesAll cls (e :: es) (s :: ss)
end
end Spec

/-! ## Names and attributes -/

theorem isNameChar_ascii {c : Char} (h : isNameChar c = true) : c.toNat < 128 := by
  unfold isNameChar isLetter at h
  simp only [Bool.or_eq_true, Bool.and_eq_true, decide_eq_true_eq] at h
  rcases h with ((((h | h) | h) | h) | h) | h
  · omega
  · omega
  all_goals (subst h; decide)

theorem isName_ascii {n : List Char} (h : IsName n) : ∀ c ∈ n, c.toNat < 128 := fun c hc => isNameChar_ascii (h.2 c hc)

theorem spanName_append {n : List Char} (h : ∀ c ∈ n, isNameChar c = true) {d : Char} (hd : isNameChar d = false)
    (rest : List Char) : spanName (n ++ d :: rest) = (n, d :: rest) := by
  induction n with
  | nil => simp [spanName, hd]
  | cons c n ih =>
    rw [List.cons_append, spanName, if_pos (h c (by simp)), ih (fun x hx => h x (by simp [hx]))]

theorem readName_append {n : List Char} (h : IsName n) {d : Char} (hd : isNameChar d = false) (rest : List Char) :
    readName (n ++ d :: rest) = some (n, d :: rest) := by
  obtain ⟨⟨c, t, e, hl⟩, hall⟩ := h
  unfold readName
  rw [spanName_append hall hd]
  subst e
  simp [hl]

/-- An attribute after the escaper. -/
def attrOut (cls : Nat → Bool) (a : List Char × List Char) : List Char :=
  [' '] ++ a.1 ++ ['=', '"'] ++ esc cls (escapeText a.2) ++ ['"']

theorem esc_attrs (cls : Nat → Bool) {as : List (List Char × List Char)} (h : ∀ a ∈ as, IsName a.1) :
    esc cls (as.flatMap attrText) = as.flatMap (attrOut cls) := by
  induction as with
  | nil => rfl
  | cons a as ih =>
    rw [List.flatMap_cons, List.flatMap_cons, esc_append, ih (fun b hb => h b (by simp [hb]))]
    congr 1
    unfold attrText attrOut
    rw [esc_append, esc_append, esc_append, esc_append, esc_ascii cls (l := [' ']) (by decide),
      esc_ascii cls (l := ['=', '"']) (by decide), esc_ascii cls (l := ['"']) (by decide),
      esc_ascii cls (isName_ascii (h a (by simp)))]

theorem readAttrs_out (cls : Nat → Bool) {as : List (List Char × List Char)} (h : GoodAttrs as) (rest : List Char) {k : Nat}
    (hk : as.length < k) : readAttrs k (as.flatMap (attrOut cls) ++ '>' :: rest) = some (as, rest) := by
  induction as generalizing k with
  | nil => cases k with
    | zero => omega
    | succ k => rfl
  | cons a as ih =>
    cases k with
    | zero => simp at hk
    | succ k =>
      simp only [List.length_cons] at hk
      have hn := (h.1 a (by simp)).1
      have hv := (h.1 a (by simp)).2
      have hnd : a.1 ∉ as.map Prod.fst := by
        have := h.2; rw [List.map_cons, List.nodup_cons] at this; exact this.1
      have hrest : GoodAttrs as := ⟨fun b hb => h.1 b (by simp [hb]), by
        have := h.2; rw [List.map_cons, List.nodup_cons] at this; exact this.2⟩
      have e : List.flatMap (attrOut cls) (a :: as) ++ '>' :: rest =
          ' ' :: (a.1 ++ '=' :: '"' :: (esc cls (escapeText a.2) ++ '"' :: (as.flatMap (attrOut cls) ++ '>' :: rest))) := by
        simp [attrOut]
      rw [e]
      unfold readAttrs
      simp only
      rw [readName_append hn (by decide)]
      simp only
      rw [readAttr_escaped cls hv]
      simp only
      rw [ih hrest (by omega)]
      simp only
      rw [if_neg hnd]

/-! ## The printed text -/

/-- A new line at some depth. -/
def lineOf (d : Nat) : List Char := '\n' :: (List.replicate 4 ' ' ++ List.replicate (4 * d) ' ')

mutual
/-- An element after the escaper, from its start tag to its end tag. -/
def shape (cls : Nat → Bool) (d : Nat) : Elem → List Char
  | .leaf n as cd t => ['<'] ++ n ++ as.flatMap (attrOut cls) ++ ['>'] ++
      esc cls (if cd then emitCDATA t else escapeText t) ++ (['<', '/'] ++ n ++ ['>'])
  | .node n as ks => ['<'] ++ n ++ as.flatMap (attrOut cls) ++ ['>'] ++
      ((shapes cls (d + 1) ks) ++ (if ks.isEmpty then [] else lineOf d)) ++ (['<', '/'] ++ n ++ ['>'])
/-- Elements, each on a new line. -/
def shapes (cls : Nat → Bool) (d : Nat) : List Elem → List Char
  | [] => []
  | e :: es => lineOf d ++ shape cls d e ++ shapes cls d es
end

theorem esc_line (cls : Nat → Bool) (d : Nat) (b : Bool) :
    esc cls ((if b then ['\n'] else []) ++ List.replicate 4 ' ' ++ List.replicate (4 * d) ' ') =
      (if b then ['\n'] else []) ++ (List.replicate 4 ' ' ++ List.replicate (4 * d) ' ') := by
  rw [esc_ascii cls, List.append_assoc]
  intro c hc
  simp only [List.mem_append, List.mem_replicate] at hc
  rcases hc with (hc | hc) | hc
  · cases b <;> simp at hc
    subst hc; decide
  · rw [hc.2]; decide
  · rw [hc.2]; decide

theorem start_out (cls : Nat → Bool) (p : Pr) {n : List Char} {as : List (List Char × List Char)} (hn : IsName n)
    (ha : GoodAttrs as) :
    esc cls (p.start n as).out = esc cls p.out ++ ((if p.putNewline then ['\n'] else []) ++
      (List.replicate 4 ' ' ++ List.replicate (4 * p.depth) ' ') ++ (['<'] ++ n ++ as.flatMap (attrOut cls) ++ ['>'])) := by
  unfold Pr.start Pr.line
  simp only
  have e : ∀ (o a b c x y z w : List Char), o ++ a ++ b ++ c ++ x ++ y ++ z ++ w = o ++ (a ++ b ++ c) ++ (x ++ (y ++ (z ++ w))) := by
    intros; simp only [List.append_assoc]
  rw [e, esc_append, esc_append, esc_line, esc_append, esc_append, esc_append, esc_ascii cls (l := ['<']) (by decide),
    esc_ascii cls (l := ['>']) (by decide), esc_ascii cls (isName_ascii hn), esc_attrs cls (fun a h => (ha.1 a h).1)]
  simp only [List.append_assoc]

theorem finish_out_in (cls : Nat → Bool) (p : Pr) {n : List Char} (hn : IsName n) (hi : p.indentedIn = true) :
    esc cls (p.finish n).out = esc cls p.out ++ (['<', '/'] ++ n ++ ['>']) ∧ (p.finish n).depth = p.depth - 1 ∧
      (p.finish n).indentedIn = false ∧ (p.finish n).putNewline = p.putNewline := by
  obtain ⟨o, d, i, l⟩ := p
  cases hi
  refine ⟨?_, rfl, rfl, rfl⟩
  show esc cls (o ++ ['<', '/'] ++ n ++ ['>']) = _
  rw [esc_append, esc_append, esc_append, esc_ascii cls (l := ['<', '/']) (by decide), esc_ascii cls (l := ['>']) (by decide),
    esc_ascii cls (isName_ascii hn)]
  simp only [List.append_assoc]

theorem finish_out_new (cls : Nat → Bool) (p : Pr) {n : List Char} (hn : IsName n) (hi : p.indentedIn = false)
    (hp : p.putNewline = true) :
    esc cls (p.finish n).out = esc cls p.out ++ (lineOf (p.depth - 1) ++ (['<', '/'] ++ n ++ ['>'])) ∧
      (p.finish n).depth = p.depth - 1 ∧ (p.finish n).indentedIn = false ∧ (p.finish n).putNewline = true := by
  obtain ⟨o, d, i, l⟩ := p
  cases hi; cases hp
  refine ⟨?_, rfl, rfl, rfl⟩
  show esc cls (o ++ (if true then ['\n'] else []) ++ List.replicate 4 ' ' ++ List.replicate (4 * (d - 1)) ' ' ++ ['<', '/'] ++ n ++ ['>']) = _
  have e : ∀ (o a b c x y z : List Char), o ++ a ++ b ++ c ++ x ++ y ++ z = o ++ (a ++ b ++ c) ++ (x ++ (y ++ z)) := by
    intros; simp only [List.append_assoc]
  rw [e, esc_append, esc_append, esc_line cls (d - 1) true, esc_append, esc_append,
    esc_ascii cls (l := ['<', '/']) (by decide), esc_ascii cls (l := ['>']) (by decide), esc_ascii cls (isName_ascii hn)]
  simp [lineOf]

theorem Pr.start_state (p : Pr) (n : List Char) (as : List (List Char × List Char)) :
    (p.start n as).depth = p.depth + 1 ∧ (p.start n as).indentedIn = true ∧ (p.start n as).putNewline = true := ⟨rfl, rfl, rfl⟩

mutual
theorem emit_out (cls : Nat → Bool) : ∀ (e : Elem) (p : Pr), Good e →
    esc cls (e.emit p).out = esc cls p.out ++ ((if p.putNewline then ['\n'] else []) ++
        (List.replicate 4 ' ' ++ List.replicate (4 * p.depth) ' ') ++ shape cls p.depth e) ∧
      (e.emit p).depth = p.depth ∧ (e.emit p).indentedIn = false ∧ (e.emit p).putNewline = true
  | .leaf n as cd t, p, hg => by
    cases hg with
    | leaf hn ha ht =>
    unfold Elem.emit
    obtain ⟨h1, h2, h3, h4⟩ := finish_out_in cls ((p.start n as).text cd t) hn rfl
    refine ⟨?_, by rw [h2]; rfl, h3, by rw [h4]; rfl⟩
    rw [h1]
    have : esc cls ((p.start n as).text cd t).out =
        esc cls (p.start n as).out ++ esc cls (if cd then emitCDATA t else escapeText t) := by
      unfold Pr.text; rw [esc_append]
    rw [this, start_out cls p hn ha, shape]
    simp only [List.append_assoc]
  | .node n as ks, p, hg => by
    cases hg with
    | node hn ha hks =>
    unfold Elem.emit
    obtain ⟨k1, k2, k3, k4⟩ := emitAll_out cls ks (p.start n as) hks rfl
    cases ks with
    | nil =>
      obtain ⟨h1, h2, h3, h4⟩ := finish_out_in cls (emitAll [] (p.start n as)) hn rfl
      refine ⟨?_, by rw [h2]; rfl, h3, by rw [h4]; rfl⟩
      rw [h1, k1, start_out cls p hn ha, shape]
      simp [shapes]
    | cons e es =>
      obtain ⟨h1, h2, h3, h4⟩ := finish_out_new cls (emitAll (e :: es) (p.start n as)) hn (k3 (by simp)) k4
      refine ⟨?_, by rw [h2, k2]; rfl, h3, h4⟩
      rw [h1, k1, k2, start_out cls p hn ha, shape]
      simp [Pr.start_state]
theorem emitAll_out (cls : Nat → Bool) : ∀ (es : List Elem) (p : Pr), AllGood es → p.putNewline = true →
    esc cls (emitAll es p).out = esc cls p.out ++ shapes cls p.depth es ∧ (emitAll es p).depth = p.depth ∧
      (es ≠ [] → (emitAll es p).indentedIn = false) ∧ (emitAll es p).putNewline = true
  | [], p, _, hp => by
    unfold emitAll shapes
    exact ⟨by simp, rfl, fun h => absurd rfl h, hp⟩
  | e :: es, p, hg, hp => by
    cases hg with
    | cons he hes =>
    unfold emitAll
    obtain ⟨h1, h2, h3, h4⟩ := emit_out cls e p he
    obtain ⟨k1, k2, k3, k4⟩ := emitAll_out cls es (e.emit p) hes h4
    refine ⟨?_, by rw [k2, h2], fun _ => ?_, k4⟩
    · rw [k1, h1, h2, hp, shapes]
      simp [lineOf]
    · cases es with
      | nil => exact h3
      | cons a b => exact k3 (by simp)
end

theorem emitAll_append (a b : List Elem) (p : Pr) : emitAll (a ++ b) p = emitAll b (emitAll a p) := by
  induction a generalizing p with
  | nil => rfl
  | cons e es ih => rw [List.cons_append, emitAll, emitAll, ih]

theorem document_eq (dist packages components groups : List Elem) :
    document dist packages components groups =
      ((Elem.node cPISI [] (dist ++ packages ++ components ++ groups)).emit Pr.init).out := by
  unfold document Elem.emit
  rw [emitAll_append, emitAll_append, emitAll_append]

/-! ## Reading the printed text -/

mutual
/-- What is seen of an element. -/
def seen (cls : Nat → Bool) : Elem → Seen
  | .leaf n as cd t => .mk n as (if cd then lines (esc cls t) else t) []
  | .node n as ks => .mk n as [] (seenAll cls ks)
def seenAll (cls : Nat → Bool) : List Elem → List Seen
  | [] => []
  | e :: es => seen cls e :: seenAll cls es
end

mutual
theorem seen_matches (cls : Nat → Bool) : ∀ e : Elem, Matches cls e (seen cls e)
  | .leaf n as false t => by unfold seen; exact .plain
  | .leaf n as true t => by
    unfold seen
    exact .cdata (fun h => (lines_esc_iff cls t).2 h)
  | .node n as ks => by unfold seen; exact .node (seenAll_matches cls ks)
theorem seenAll_matches (cls : Nat → Bool) : ∀ es : List Elem, MatchesAll cls es (seenAll cls es)
  | [] => by unfold seenAll; exact .nil
  | e :: es => by unfold seenAll; exact .cons (seen_matches cls e) (seenAll_matches cls es)
end

theorem stops_end (u : List Char) : Stops ('<' :: '/' :: u) := .inr ⟨_, rfl, by simp [cdataStart, strip]⟩

theorem stops_name {n : List Char} (hn : IsName n) (u : List Char) : Stops ('<' :: (n ++ u)) := by
  obtain ⟨⟨c, t, rfl, hl⟩, _⟩ := hn
  refine .inr ⟨_, rfl, ?_⟩
  have : '!' ≠ c := by rintro rfl; revert hl; decide
  simp [cdataStart, strip, this]

theorem noEndTag_name {n : List Char} (hn : IsName n) (u : List Char) : strip ['<', '/'] ('<' :: (n ++ u)) = none := by
  obtain ⟨⟨c, t, rfl, hl⟩, _⟩ := hn
  have : '/' ≠ c := by rintro rfl; revert hl; decide
  simp [strip, this]

/-- Spaces and line feeds are text. -/
theorem readText_blank {ws r : List Char} (hw : ∀ c ∈ ws, c = ' ' ∨ c = '\n') (hr : Stops r) :
    readText false (ws ++ r) = some (ws, r) := by
  induction ws with
  | nil => exact readText_stops hr
  | cons c ws ih =>
    have hc := hw c (by simp)
    rw [List.cons_append, readText_plain, ih (fun d hd => hw d (by simp [hd]))]
    · rfl
    all_goals first
      | (rcases hc with rfl | rfl <;> decide)
      | (apply strip_head; rcases hc with rfl | rfl <;> decide)

theorem lineOf_blank (d : Nat) : ∀ c ∈ lineOf d, c = ' ' ∨ c = '\n' := by
  intro c hc
  simp only [lineOf, List.mem_cons, List.mem_append, List.mem_replicate] at hc
  rcases hc with hc | hc | hc
  · exact .inr hc
  · exact .inl hc.2
  · exact .inl hc.2

theorem attrs_length (cls : Nat → Bool) (as : List (List Char × List Char)) :
    as.length ≤ (as.flatMap (attrOut cls)).length := by
  induction as with
  | nil => simp
  | cons a as ih =>
    rw [List.flatMap_cons, List.length_append, List.length_cons]
    have : 1 ≤ (attrOut cls a).length := by simp [attrOut]
    omega

/-- A start tag, and what the reader makes of the rest. -/
theorem readElem_start (cls : Nat → Bool) {n : List Char} {as : List (List Char × List Char)} (hn : IsName n)
    (ha : GoodAttrs as) (body : List Char) (k : Nat) {t : List Char} {ks : List Seen} {rest : List Char}
    (hc : readContent k body = some (t, ks, ['<', '/'] ++ n ++ ['>'] ++ rest)) :
    readElem (k + 1) ('<' :: (n ++ (as.flatMap (attrOut cls) ++ '>' :: body))) =
      some (.mk n as (if !ks.isEmpty && t.all isBlank then [] else t) ks, rest) := by
  have hname : readName (n ++ (as.flatMap (attrOut cls) ++ '>' :: body)) = some (n, as.flatMap (attrOut cls) ++ '>' :: body) := by
    cases as with
    | nil => exact readName_append hn (by decide) _
    | cons a as =>
      have e : (a :: as).flatMap (attrOut cls) ++ '>' :: body =
          ' ' :: (a.1 ++ ['=', '"'] ++ esc cls (escapeText a.2) ++ ['"'] ++ as.flatMap (attrOut cls) ++ '>' :: body) := by
        simp [attrOut]
      rw [e]
      exact readName_append hn (by decide) _
  rw [readElem, hname]
  dsimp only
  rw [readAttrs_out cls ha body (by
    have := attrs_length cls as
    rw [List.length_append, List.length_cons]; omega)]
  dsimp only
  rw [hc]
  dsimp only
  rw [strip_append]

mutual
theorem readElem_shape (cls : Nat → Bool) : ∀ (e : Elem) (d : Nat) (rest : List Char) (k : Nat), Good e →
    (shape cls d e).length ≤ k → readElem k (shape cls d e ++ rest) = some (seen cls e, rest)
  | .leaf n as cd t, d, rest, k, hg, hk => by
    cases hg with
    | leaf hn ha ht =>
    have e : shape cls d (.leaf n as cd t) ++ rest = '<' :: (n ++ (as.flatMap (attrOut cls) ++ '>' ::
        (esc cls (if cd then emitCDATA t else escapeText t) ++ (['<', '/'] ++ n ++ ['>'] ++ rest)))) := by
      rw [shape]; simp
    have hlen : 3 ≤ (shape cls d (.leaf n as cd t)).length := by rw [shape]; simp; omega
    obtain ⟨k, rfl⟩ : ∃ j, k = j + 2 := ⟨k - 2, by omega⟩
    rw [e]
    have hstop : Stops (['<', '/'] ++ n ++ ['>'] ++ rest) := stops_end _
    have htext : readText false (esc cls (if cd then emitCDATA t else escapeText t) ++ (['<', '/'] ++ n ++ ['>'] ++ rest)) =
        some (if cd then lines (esc cls t) else t, ['<', '/'] ++ n ++ ['>'] ++ rest) := by
      cases cd with
      | true => exact readText_cdata cls ht hstop
      | false => exact readText_escaped cls ht hstop
    have hc : readContent (k + 1) (esc cls (if cd then emitCDATA t else escapeText t) ++ (['<', '/'] ++ n ++ ['>'] ++ rest)) =
        some (if cd then lines (esc cls t) else t, [], ['<', '/'] ++ n ++ ['>'] ++ rest) := by
      unfold readContent
      rw [htext]
      dsimp only
      have : strip ['<', '/'] (['<', '/'] ++ n ++ ['>'] ++ rest) = some (n ++ ['>'] ++ rest) := by
        simp [strip]
      rw [this]; rfl
    rw [readElem_start cls hn ha _ _ hc]
    rfl
  | .node n as ks, d, rest, k, hg, hk => by
    cases hg with
    | node hn ha hks =>
    have e : shape cls d (.node n as ks) ++ rest = '<' :: (n ++ (as.flatMap (attrOut cls) ++ '>' ::
        (shapes cls (d + 1) ks ++ ((if ks.isEmpty then [] else lineOf d) ++ (['<', '/'] ++ n ++ ['>'] ++ rest))))) := by
      rw [shape]; simp
    have hlen : (shapes cls (d + 1) ks).length + 5 ≤ (shape cls d (.node n as ks)).length := by
      rw [shape]; simp only [List.length_append, List.length_cons, List.length_nil]; omega
    obtain ⟨k, rfl⟩ : ∃ j, k = j + 1 := ⟨k - 1, by omega⟩
    rw [e]
    obtain ⟨t, hc, hb, ht⟩ := readContent_shapes cls ks (d + 1) (if ks.isEmpty then [] else lineOf d) (n ++ ['>'] ++ rest) k hks
      (by
        intro c hc
        split at hc
        · cases hc
        · exact lineOf_blank d c hc)
      (by omega)
    have e2 : ['<', '/'] ++ n ++ ['>'] ++ rest = '<' :: '/' :: (n ++ ['>'] ++ rest) := by simp
    rw [e2]
    rw [readElem_start cls hn ha _ k (t := t) (ks := seenAll cls ks) (rest := rest) (by rw [hc]; simp)]
    unfold seen
    cases ks with
    | nil =>
      have : t = [] := ht rfl
      subst this
      simp [seenAll]
    | cons a b => simp [seenAll, hb]
theorem readContent_shapes (cls : Nat → Bool) : ∀ (es : List Elem) (d : Nat) (ws u : List Char) (k : Nat), AllGood es →
    (∀ c ∈ ws, c = ' ' ∨ c = '\n') → (shapes cls d es).length + 1 ≤ k →
    ∃ t, readContent k (shapes cls d es ++ (ws ++ '<' :: '/' :: u)) = some (t, seenAll cls es, '<' :: '/' :: u) ∧
      t.all isBlank = true ∧ (es = [] → t = ws)
  | [], d, ws, u, k, _, hw, hk => by
    obtain ⟨k, rfl⟩ : ∃ j, k = j + 1 := ⟨k - 1, by omega⟩
    refine ⟨ws, ?_, ?_, fun _ => rfl⟩
    · unfold readContent shapes
      rw [List.nil_append, readText_blank hw (stops_end u)]
      dsimp only
      have : strip ['<', '/'] ('<' :: '/' :: u) = some u := by simp [strip]
      rw [this]; rfl
    · rw [List.all_eq_true]
      intro c hc
      rcases hw c hc with rfl | rfl <;> decide
  | e :: es, d, ws, u, k, hg, hw, hk => by
    cases hg with
    | cons he hes =>
    have hsh : shapes cls d (e :: es) = lineOf d ++ shape cls d e ++ shapes cls d es := by rw [shapes]
    rw [hsh] at hk ⊢
    simp only [List.length_append] at hk
    have hl : 1 ≤ (lineOf d).length := by simp [lineOf]
    obtain ⟨k, rfl⟩ : ∃ j, k = j + 1 := ⟨k - 1, by omega⟩
    obtain ⟨t, hc, hb, _⟩ := readContent_shapes cls es d ws u k hes hw (by omega)
    refine ⟨lineOf d ++ t, ?_, ?_, fun h => by cases h⟩
    · have hel := readElem_shape cls e d (shapes cls d es ++ (ws ++ '<' :: '/' :: u)) k he (by omega)
      have hshape : ∃ n r, IsName n ∧ shape cls d e = '<' :: (n ++ r) := by
        cases he with
        | leaf hn _ _ => exact ⟨_, _, hn, by rw [shape]; simp; rfl⟩
        | node hn _ _ => exact ⟨_, _, hn, by rw [shape]; simp; rfl⟩
      obtain ⟨n, r, hn, hr⟩ := hshape
      have e1 : lineOf d ++ shape cls d e ++ shapes cls d es ++ (ws ++ '<' :: '/' :: u) =
          lineOf d ++ (shape cls d e ++ (shapes cls d es ++ (ws ++ '<' :: '/' :: u))) := by simp
      rw [e1]
      unfold readContent
      have hstop : Stops (shape cls d e ++ (shapes cls d es ++ (ws ++ '<' :: '/' :: u))) := by
        rw [hr, List.cons_append, List.append_assoc]; exact stops_name hn _
      rw [readText_blank (lineOf_blank d) hstop]
      dsimp only
      have hne : strip ['<', '/'] (shape cls d e ++ (shapes cls d es ++ (ws ++ '<' :: '/' :: u))) = none := by
        rw [hr, List.cons_append, List.append_assoc]; exact noEndTag_name hn _
      rw [hne, hel]
      simp only [Option.isSome_none, Bool.false_eq_true, if_false]
      rw [hc]
      simp [seenAll]
    · rw [List.all_append, hb, Bool.and_true, List.all_eq_true]
      intro c hc
      rcases lineOf_blank d c hc with rfl | rfl <;> decide
end

/-! ## C154 -/

theorem allGood_append {a b : List Elem} (ha : AllGood a) (hb : AllGood b) : AllGood (a ++ b) := by
  induction a with
  | nil => exact hb
  | cons e es ih =>
    cases ha with
    | cons he hes => exact .cons he (ih hes)

/-- The bytes written, and all that a reader sees in them. -/
theorem document_read (cls : Nat → Bool) {dist packages components groups : List Elem} (hd : AllGood dist)
    (hp : AllGood packages) (hc : AllGood components) (hg : AllGood groups) :
    ∃ out, write cls (utf8 (document dist packages components groups)) = utf8 out ∧
      readDocument out = some (.mk ['P', 'I', 'S', 'I'] [] [] (seenAll cls (dist ++ packages ++ components ++ groups))) := by
  have hks : AllGood (dist ++ packages ++ components ++ groups) :=
    allGood_append (allGood_append (allGood_append hd hp) hc) hg
  refine ⟨_, write_utf8 cls _, ?_⟩
  rw [document_eq]
  have hroot : Good (.node cPISI [] (dist ++ packages ++ components ++ groups)) :=
    .node ⟨⟨'P', ['I', 'S', 'I'], rfl, by decide⟩, by decide⟩ ⟨by simp, by simp⟩ hks
  obtain ⟨h1, _⟩ := emit_out cls _ Pr.init hroot
  rw [h1]
  generalize hroot' : Elem.node cPISI [] (dist ++ packages ++ components ++ groups) = root at *
  have hsh : ∃ r, shape cls 0 root = '<' :: r := by subst hroot'; rw [shape]; exact ⟨_, rfl⟩
  obtain ⟨r, hr⟩ := hsh
  have e : esc cls Pr.init.out ++ ((if Pr.init.putNewline then ['\n'] else []) ++
      (List.replicate 4 ' ' ++ List.replicate (4 * Pr.init.depth) ' ') ++ shape cls Pr.init.depth root) =
      [' ', ' ', ' ', ' '] ++ shape cls 0 root := rfl
  rw [e]
  unfold readDocument
  have e2 : ([' ', ' ', ' ', ' '] ++ shape cls 0 root).dropWhile isBlank = shape cls 0 root := by
    rw [hr]; rfl
  rw [e2]
  have := readElem_shape cls root 0 [] _ hroot (Nat.le_refl _)
  rw [List.append_nil] at this
  rw [this]
  subst hroot'
  rfl

/-- Whatever the distribution, the packages, the components and the groups: the bytes written are one well-formed XML
document, in which a reader sees the element `PISI` with exactly those elements in exactly that order, each with its
name, its attributes, its text and its child elements (for texts in CDATA sections see C153). -/
theorem C154_well_formed (cls : Nat → Bool) {dist packages components groups : List Elem} (hd : AllGood dist)
    (hp : AllGood packages) (hc : AllGood components) (hg : AllGood groups) :
    ∃ out ss, write cls (utf8 (document dist packages components groups)) = utf8 out ∧
      readDocument out = some (.mk ['P', 'I', 'S', 'I'] [] [] ss) ∧
      MatchesAll cls (dist ++ packages ++ components ++ groups) ss := by
  obtain ⟨out, h1, h2⟩ := document_read cls hd hp hc hg
  exact ⟨out, _, h1, h2, seenAll_matches cls _⟩

namespace Demo
/-- A small index: one package with a summary, a dependency and a history. -/
def pkg : Elem := .node ['P', 'a', 'c', 'k', 'a', 'g', 'e'] []
  [.leaf ['N', 'a', 'm', 'e'] [] false ['n', 'a', 'n', 'o'],
   .leaf ['S', 'u', 'm', 'm', 'a', 'r', 'y'] [(['x', 'm', 'l', ':', 'l', 'a', 'n', 'g'], ['e', 'n'])] true ['<', ']', ']', '>'],
   .node ['H', 'i', 's', 't', 'o', 'r', 'y'] [] [], .leaf ['I', 's', 'A'] [] false []]
end Demo

/-- A concrete case meets the hypotheses, and what is written for it. -/
example : AllGood [Demo.pkg] ∧
    document [] [Demo.pkg] [] [] = ("    <PISI>\n        <Package>\n            <Name>nano</Name>\n            " ++
      "<Summary xml:lang=\"en\"><![CDATA[<]]]]><![CDATA[>]]></Summary>\n            <History></History>\n            <IsA></IsA>\n" ++
      "        </Package>\n    </PISI>").toList := by
  constructor
  · have nm : ∀ n : List Char, (n.head?.map isLetter = some true ∧ n.all isNameChar = true) → IsName n := by
      intro n h
      cases n with
      | nil => simp at h
      | cons c t => exact ⟨⟨c, t, rfl, by simpa using h.1⟩, by simpa [List.all_eq_true] using h.2⟩
    have na : GoodAttrs [] := ⟨by simp, by simp⟩
    refine .cons (.node (nm _ (by decide)) na (.cons (.leaf (nm _ (by decide)) na (by decide)) (.cons (.leaf (nm _ (by decide)) ?_ (by decide))
      (.cons (.node (nm _ (by decide)) na .nil) (.cons (.leaf (nm _ (by decide)) na (by simp)) .nil))))) .nil
    refine ⟨?_, by simp⟩
    intro a ha
    simp only [List.mem_singleton] at ha
    subst ha
    exact ⟨nm _ (by decide), by decide⟩
  · decide +kernel

end Ferryd.Xml
