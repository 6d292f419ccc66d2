import Verif.XmlPackage
import Verif.PropsXmlDoc
import Verif.JobsParams
/-!
# PropsXmlPackage: what the index tells about packages, components and groups (C155)

A reader that goes by the names of elements and attributes, as the package manager does, and what it gets from the bytes
of the index.
-/
namespace Ferryd.Xml
open Ferryd.Escape Ferryd.Escape.Spec Ferryd.Xml.Spec

/-! ## Specification: what a reader takes from an element -/

namespace Spec
def Seen.name : Seen → List Char | .mk n _ _ _ => n
def Seen.attrs : Seen → List (List Char × List Char) | .mk _ as _ _ => as
def Seen.text : Seen → List Char | .mk _ _ t _ => t
def Seen.kids : Seen → List Seen | .mk _ _ _ ks => ks

/-- The children of a name, in order. -/
def Seen.all (s : Seen) (n : List Char) : List Seen := s.kids.filter fun k => k.name = n
/-- The text of the child of a name; empty if there is none. -/
def Seen.one (s : Seen) (n : List Char) : List Char := ((s.all n).head?.map Seen.text).getD []
/-- The children of the child of a name, if there is one. -/
def Seen.inside (s : Seen) (n m : List Char) : Option (List Seen) := (s.all n).head?.map fun k => k.all m
/-- The value of an attribute; empty if there is none. -/
def Seen.attr (s : Seen) (n : List Char) : List Char := ((s.attrs.find? fun a => a.1 = n).map Prod.snd).getD []

/-- The number a decimal numeral denotes. -/
def digits (s : List Char) : Nat := s.foldl (fun n c => 10 * n + (c.toNat - 48)) 0
def number : List Char → Int
  | '-' :: s => - (digits s : Int)
  | s => digits s

def readLocal (s : Seen) : Text := ⟨s.text, s.attr n!"xml:lang"⟩
def readPerson (s : Seen) (n : List Char) : Person :=
  match (s.all n).head? with
  | none => ⟨[], []⟩
  | some k => ⟨k.one n!"Name", k.one n!"Email"⟩
def readDependency (s : Seen) : Dependency :=
  ⟨s.text, number (s.attr n!"releaseFrom"), number (s.attr n!"releaseTo"), number (s.attr n!"release"),
    s.attr n!"versionFrom", s.attr n!"versionTo", s.attr n!"version"⟩
def readAction (s : Seen) : Action := ⟨s.text, s.attr n!"package"⟩
def readHistory (s : Seen) : History :=
  ⟨number (s.attr n!"release"), s.attr n!"type", s.one n!"Date", s.one n!"Version", s.one n!"Comment", s.one n!"Name",
    s.one n!"Email", (s.inside n!"Requires" n!"Action").map (·.map readAction)⟩
def readComar (s : Seen) : Comar := ⟨s.text, s.attr n!"script"⟩
def readProvides (s : Seen) : Provides :=
  ⟨(s.all n!"COMAR").map readComar, (s.all n!"PkgConfig").map Seen.text, (s.all n!"PkgConfig32").map Seen.text⟩
def readDelta (s : Seen) : PkgDelta :=
  ⟨number (s.attr n!"releaseFrom"), s.one n!"PackageURI", number (s.one n!"PackageSize"), s.one n!"PackageHash"⟩
def readSource (s : Seen) : Source := ⟨s.one n!"Name", s.one n!"Homepage", readPerson s n!"Packager"⟩
def readPackage (s : Seen) : Package where
  name := s.one n!"Name"
  summary := (s.all n!"Summary").map readLocal
  description := (s.all n!"Description").map readLocal
  isA := s.one n!"IsA"
  partOf := s.one n!"PartOf"
  license := (s.all n!"License").map Seen.text
  dependencies := (s.inside n!"RuntimeDependencies" n!"Dependency").map (·.map readDependency)
  conflicts := (s.inside n!"Conflicts" n!"Package").map (·.map Seen.text)
  replaces := (s.inside n!"Replaces" n!"Package").map (·.map Seen.text)
  provides := (s.all n!"Provides").head?.map readProvides
  history := ((s.inside n!"History" n!"Update").getD []).map readHistory
  buildHost := s.one n!"BuildHost"
  distribution := s.one n!"Distribution"
  distributionRelease := s.one n!"DistributionRelease"
  architecture := s.one n!"Architecture"
  installedSize := number (s.one n!"InstalledSize")
  size := number (s.one n!"PackageSize")
  hash := s.one n!"PackageHash"
  uri := s.one n!"PackageURI"
  deltas := (s.inside n!"DeltaPackages" n!"Delta").map (·.map readDelta)
  format := s.one n!"PackageFormat"
  source := match (s.all n!"Source").head? with
    | none => ⟨[], [], ⟨[], []⟩⟩
    | some k => readSource k
def readDistribution (s : Seen) : Distribution where
  sourceName := s.one n!"SourceName"
  description := (s.all n!"Description").map readLocal
  version := s.one n!"Version"
  type := s.one n!"Type"
  binaryName := s.one n!"BinaryName"
  obsoletes := ((s.inside n!"Obsoletes" n!"Package").getD []).map Seen.text
def readComponent (s : Seen) : Component where
  name := s.one n!"Name"
  localName := (s.all n!"LocalName").map readLocal
  summary := (s.all n!"Summary").map readLocal
  description := (s.all n!"Description").map readLocal
  group := s.one n!"Group"
  maintainer := readPerson s n!"Maintainer"
def readGroup (s : Seen) : Group where
  name := s.one n!"Name"
  localName := (s.all n!"LocalName").map readLocal
  icon := s.one n!"Icon"
/-- The whole index; its outermost element is `PISI`. -/
def readIndex (s : Seen) : Option Index :=
  if s.name = n!"PISI" then
    some ⟨(s.all n!"Distribution").head?.map readDistribution, (s.all n!"Package").map readPackage,
      (s.all n!"Component").map readComponent, (s.all n!"Group").map readGroup⟩
  else none
/-- The bytes of the index, as characters. -/
def readBytes (out : List Char) : Option Index := (readDocument out).bind readIndex

/-! All strings of a structure. -/

def Text.strings (t : Text) : List (List Char) := [t.value, t.lang]
def Person.strings (p : Person) : List (List Char) := [p.name, p.email]
def Source.strings (s : Source) : List (List Char) := [s.name, s.homepage] ++ Person.strings s.packager
def Dependency.strings (d : Dependency) : List (List Char) := [d.name, d.versionFrom, d.versionTo, d.version]
def Action.strings (a : Action) : List (List Char) := [a.value, a.package]
def History.strings (u : History) : List (List Char) :=
  [u.type, u.date, u.version, u.comment, u.name, u.email] ++ (u.requires.getD []).flatMap Action.strings
def Comar.strings (c : Comar) : List (List Char) := [c.value, c.script]
def Provides.strings (p : Provides) : List (List Char) := p.comar.flatMap Comar.strings ++ p.pkgConfig ++ p.pkgConfig32
def PkgDelta.strings (d : PkgDelta) : List (List Char) := [d.uri, d.hash]
def Package.strings (p : Package) : List (List Char) :=
  [p.name, p.isA, p.partOf, p.buildHost, p.distribution, p.distributionRelease, p.architecture, p.hash, p.uri, p.format] ++
    p.summary.flatMap Text.strings ++ p.description.flatMap Text.strings ++ p.license ++
    (p.dependencies.getD []).flatMap Dependency.strings ++ p.conflicts.getD [] ++ p.replaces.getD [] ++
    p.provides.toList.flatMap Provides.strings ++ p.history.flatMap History.strings ++
    (p.deltas.getD []).flatMap PkgDelta.strings ++ Source.strings p.source
def Distribution.strings (d : Distribution) : List (List Char) :=
  [d.sourceName, d.version, d.type, d.binaryName] ++ d.description.flatMap Text.strings ++ d.obsoletes
def Component.strings (c : Component) : List (List Char) :=
  [c.name, c.group] ++ c.localName.flatMap Text.strings ++ c.summary.flatMap Text.strings ++
    c.description.flatMap Text.strings ++ Person.strings c.maintainer
def Group.strings (g : Group) : List (List Char) := [g.name, g.icon] ++ g.localName.flatMap Text.strings
def Index.strings (i : Index) : List (List Char) :=
  i.distribution.toList.flatMap Distribution.strings ++ i.packages.flatMap Package.strings ++
    i.components.flatMap Component.strings ++ i.groups.flatMap Group.strings

/-- All texts consist of characters XML has. -/
def Index.Expressible (i : Index) : Prop := ∀ t ∈ Index.strings i, ∀ c ∈ t, XmlChar c

/-! Replacing the summaries, descriptions, comments, local names and names of updaters, and leaving out empty
entries of the lists of conflicts, replaced packages and pkgconfig names. -/

def Text.over (f : List Char → List Char) (t : Text) : Text := { t with value := f t.value }
def History.over (f : List Char → List Char) (u : History) : History := { u with comment := f u.comment, name := f u.name }
def nonempty (l : List (List Char)) : List (List Char) := l.filter fun t => t ≠ []
def Provides.over (p : Provides) : Provides :=
  { p with pkgConfig := nonempty p.pkgConfig, pkgConfig32 := nonempty p.pkgConfig32 }
def Package.over (f : List Char → List Char) (p : Package) : Package :=
  { p with
    summary := p.summary.map (Text.over f)
    description := p.description.map (Text.over f)
    history := p.history.map (History.over f)
    conflicts := p.conflicts.map nonempty
    replaces := p.replaces.map nonempty
    provides := p.provides.map Provides.over }
def Distribution.over (f : List Char → List Char) (d : Distribution) : Distribution :=
  { d with description := d.description.map (Text.over f) }
def Component.over (f : List Char → List Char) (c : Component) : Component :=
  { c with
    localName := c.localName.map (Text.over f)
    summary := c.summary.map (Text.over f)
    description := c.description.map (Text.over f) }
def Group.over (f : List Char → List Char) (g : Group) : Group := { g with localName := g.localName.map (Text.over f) }
def Index.over (f : List Char → List Char) (i : Index) : Index where
  distribution := i.distribution.map (Distribution.over f)
  packages := i.packages.map (Package.over f)
  components := i.components.map (Component.over f)
  groups := i.groups.map (Group.over f)

/-- The index without the languages of the descriptions of its distribution. -/
def Index.mute (i : Index) : Index :=
  { i with distribution := i.distribution.map fun d => { d with description := d.description.map fun t => { t with lang := [] } } }
end Spec

/-! ## Numbers -/

theorem digits_append (a b : List Char) : digits (a ++ b) = b.foldl (fun n c => 10 * n + (c.toNat - 48)) (digits a) := by
  unfold digits; rw [List.foldl_append]

theorem digits_fmtNat (n : Nat) : digits (Jobs.fmtNat n) = n := by
  induction n using Nat.strongRecOn with
  | _ n ih =>
    unfold Jobs.fmtNat
    split
    · rename_i h
      show 10 * 0 + ((Jobs.digit n).toNat - 48) = n
      rw [Jobs.digit_toNat h]; omega
    · rename_i h
      rw [digits_append, ih (n / 10) (by omega)]
      have hd : n % 10 < 10 := Nat.mod_lt _ (by omega)
      show 10 * (n / 10) + ((Jobs.digit (n % 10)).toNat - 48) = n
      rw [Jobs.digit_toNat hd]; omega

theorem number_fmtInt (i : Int) : number (Jobs.fmtInt i) = i := by
  unfold Jobs.fmtInt
  by_cases h : i < 0
  · rw [if_pos h]
    show -(digits (Jobs.fmtNat i.natAbs) : Int) = i
    rw [digits_fmtNat]; omega
  · rw [if_neg h]
    obtain ⟨k, t, hk, e⟩ := Jobs.fmtNat_head i.natAbs
    have hd := digits_fmtNat i.natAbs
    rw [e] at hd ⊢
    have h1 : Jobs.digit k ≠ '-' := Jobs.digit_ne hk (by decide)
    have : number (Jobs.digit k :: t) = (digits (Jobs.digit k :: t) : Int) := by
      unfold number
      split
      · rename_i heq; exact absurd (List.cons.inj heq).1 h1
      · rfl
    rw [this, hd]; omega

theorem fmtInt_xml (i : Int) : ∀ c ∈ Jobs.fmtInt i, XmlChar c := by
  have hn : ∀ n : Nat, ∀ c ∈ Jobs.fmtNat n, XmlChar c := by
    intro n
    have dig : ∀ k, k < 10 → XmlChar (Jobs.digit k) := by
      intro k hk
      have := Jobs.digit_toNat hk
      unfold XmlChar; omega
    induction n using Nat.strongRecOn with
    | _ n ih =>
      unfold Jobs.fmtNat
      split
      · rename_i h
        intro c hc
        rw [List.mem_singleton] at hc
        rw [hc]; exact dig n h
      · rename_i h
        intro c hc
        rcases List.mem_append.1 hc with hc | hc
        · exact ih (n / 10) (by omega) c hc
        · rw [List.mem_singleton] at hc
          rw [hc]; exact dig _ (Nat.mod_lt _ (by omega))
  unfold Jobs.fmtInt
  split
  · intro c hc
    rcases List.mem_cons.1 hc with rfl | hc
    · decide
    · exact hn _ c hc
  · exact hn _

/-! ## Children by name -/

def Elem.name : Elem → List Char
  | .leaf n _ _ _ => n
  | .node n _ _ => n

theorem seen_name (cls : Nat → Bool) (e : Elem) : (seen cls e).name = e.name := by
  cases e <;> (unfold seen; rfl)

theorem seenAll_map (cls : Nat → Bool) (es : List Elem) : seenAll cls es = es.map (seen cls) := by
  induction es with
  | nil => unfold seenAll; rfl
  | cons e es ih => unfold seenAll; rw [ih]; rfl

theorem filter_name (cls : Nat → Bool) {n : List Char} {es : List Elem} (h : ∀ e ∈ es, e.name = n) (m : List Char) :
    (es.map (seen cls)).filter (fun k => k.name = m) = if n = m then es.map (seen cls) else [] := by
  by_cases hm : n = m
  · rw [if_pos hm, List.filter_eq_self]
    intro k hk
    obtain ⟨e, he, rfl⟩ := List.mem_map.1 hk
    simp [seen_name, h e he, hm]
  · rw [if_neg hm, List.filter_eq_nil_iff]
    intro k hk
    obtain ⟨e, he, rfl⟩ := List.mem_map.1 hk
    simp [seen_name, h e he, hm]

/-- Every part has elements of its name only. -/
def Labelled (parts : List (List Char × List Elem)) : Prop := ∀ q ∈ parts, ∀ e ∈ q.2, e.name = q.1

theorem all_parts (cls : Nat → Bool) {parts : List (List Char × List Elem)} (h : Labelled parts) (n : List Char)
    (as : List (List Char × List Char)) (t m : List Char) :
    (Seen.mk n as t (seenAll cls (parts.flatMap Prod.snd))).all m =
      ((parts.filter fun q => q.1 = m).flatMap Prod.snd).map (seen cls) := by
  show (seenAll cls (parts.flatMap Prod.snd)).filter (fun k => k.name = m) = _
  rw [seenAll_map]
  induction parts with
  | nil => rfl
  | cons q qs ih =>
    rw [List.flatMap_cons, List.map_append, List.filter_append, filter_name cls (h q (by simp)),
      ih (fun q hq => h q (List.mem_cons_of_mem _ hq)), List.filter_cons]
    by_cases hm : q.1 = m
    · simp [hm]
    · simp [hm]

theorem labelled_nil : Labelled [] := by intro q hq; cases hq
theorem labelled_cons {n : List Char} {es : List Elem} {qs : List (List Char × List Elem)} (h : ∀ e ∈ es, e.name = n)
    (hq : Labelled qs) : Labelled ((n, es) :: qs) := by
  intro q hm
  rcases List.mem_cons.1 hm with rfl | hm
  · exact h
  · exact hq q hm

theorem name_map {α : Type} {n : List Char} {g : α → Elem} (h : ∀ a, (g a).name = n) (l : List α) :
    ∀ e ∈ l.map g, e.name = n := by
  intro e he
  obtain ⟨a, _, rfl⟩ := List.mem_map.1 he
  exact h a

theorem name_one {n : List Char} {e : Elem} (h : e.name = n) : ∀ x ∈ [e], x.name = n := by
  intro x hx; rw [List.mem_singleton.1 hx]; exact h

theorem name_opt (n t : List Char) : ∀ e ∈ fieldOpt n t, e.name = n := by
  intro e he
  unfold fieldOpt at he
  split at he
  · cases he
  · rw [List.mem_singleton.1 he]; rfl

theorem name_opts (n : List Char) (l : List (List Char)) : ∀ e ∈ l.flatMap (fieldOpt n), e.name = n := by
  intro e he
  obtain ⟨t, _, h⟩ := List.mem_flatMap.1 he
  exact name_opt n t e h

/-- What a reader sees of a text in a CDATA section. -/
def shown (cls : Nat → Bool) (t : List Char) : List Char := lines (esc cls t)

theorem seen_field (cls : Nat → Bool) (n t : List Char) : seen cls (field n t) = .mk n [] t [] := by
  unfold field seen; rfl

theorem text_opt (cls : Nat → Bool) (n t : List Char) :
    (((fieldOpt n t).map (seen cls)).head?.map Seen.text).getD [] = t := by
  unfold fieldOpt
  split
  · rename_i h; rw [h]; rfl
  · rw [List.map_cons, seen_field]; rfl

theorem text_opts (cls : Nat → Bool) (n : List Char) (l : List (List Char)) :
    ((l.flatMap (fieldOpt n)).map (seen cls)).map Seen.text = nonempty l := by
  induction l with
  | nil => rfl
  | cons t l ih =>
    rw [List.flatMap_cons, List.map_append, List.map_append, ih]
    unfold nonempty
    rw [List.filter_cons]
    unfold fieldOpt
    by_cases h : t = []
    · simp [h]
    · simp [h, seen_field, Seen.text]

theorem text_fields (cls : Nat → Bool) (n : List Char) (l : List (List Char)) :
    ((l.map (field n)).map (seen cls)).map Seen.text = l := by
  rw [List.map_map, List.map_map]
  conv => rhs; rw [← List.map_id l]
  apply List.map_congr_left
  intro t _
  show (seen cls (field n t)).text = t
  rw [seen_field]; rfl

theorem attr_skip {n m : List Char} (h : m ≠ n) (v : List Char) (as : List (List Char × List Char)) :
    ((m, v) :: as).find? (fun a => a.1 = n) = as.find? (fun a => a.1 = n) := by
  rw [List.find?_cons_of_neg]; simpa using h

/-- Attributes as they come out of the parts. -/
def attrGet (as : List (List Char × List Char)) (n : List Char) : List Char :=
  ((as.find? fun a => a.1 = n).map Prod.snd).getD []

theorem attrGet_opt_eq (n t : List Char) (as : List (List Char × List Char)) (h : n ∉ as.map Prod.fst) :
    attrGet (attrOpt n t ++ as) n = t := by
  unfold attrGet attrOpt
  split
  · rename_i ht
    rw [List.nil_append, List.find?_eq_none.2]
    · rw [ht]; rfl
    · intro a ha hn
      exact h (List.mem_map.2 ⟨a, ha, by simpa using hn⟩)
  · simp

theorem attrGet_opt_ne {n m : List Char} (h : m ≠ n) (t : List Char) (as : List (List Char × List Char)) :
    attrGet (attrOpt m t ++ as) n = attrGet as n := by
  unfold attrGet attrOpt
  split
  · rfl
  · simp [h]

theorem number_nil : number [] = 0 := rfl

theorem attrGet_num_eq (n : List Char) (i : Int) (as : List (List Char × List Char)) (h : n ∉ as.map Prod.fst) :
    number (attrGet (attrNum n i ++ as) n) = i := by
  unfold attrGet attrNum
  split
  · rename_i ht
    rw [List.nil_append, List.find?_eq_none.2]
    · rw [ht]; rfl
    · intro a ha hn
      exact h (List.mem_map.2 ⟨a, ha, by simpa using hn⟩)
  · simp [number_fmtInt]

theorem attrGet_num_ne {n m : List Char} (h : m ≠ n) (i : Int) (as : List (List Char × List Char)) :
    attrGet (attrNum m i ++ as) n = attrGet as n := by
  unfold attrGet attrNum
  split
  · rfl
  · simp [h]

theorem fst_opt (n t m : List Char) (h : m ∈ (attrOpt n t).map Prod.fst) : m = n := by
  unfold attrOpt at h
  split at h
  · cases h
  · simpa using h

theorem fst_num (n : List Char) (i : Int) (m : List Char) (h : m ∈ (attrNum n i).map Prod.fst) : m = n := by
  unfold attrNum at h
  split at h
  · cases h
  · simpa using h

/-! ## What is read of each structure -/

theorem read_text (cls : Nat → Bool) (n : List Char) (t : Text) : readLocal (seen cls (t.elem n)) = Text.over (shown cls) t := by
  cases t with
  | mk v l =>
  show Text.mk _ (attrGet (attrOpt n!"xml:lang" l) n!"xml:lang") = _
  rw [← List.append_nil (attrOpt _ _), attrGet_opt_eq _ _ _ (by simp)]
  rfl

theorem read_textDist (cls : Nat → Bool) (n : List Char) (t : Text) :
    readLocal (seen cls (t.elemDist n)) = { Text.over (shown cls) t with lang := [] } := by
  cases t with
  | mk v l =>
  show Text.mk _ (attrGet (attrOpt n!"lang" l) n!"xml:lang") = _
  rw [← List.append_nil (attrOpt _ _), attrGet_opt_ne (by decide)]
  rfl

theorem map_read {α β : Type} {cls : Nat → Bool} {g : α → Elem} {r : Seen → β} {k : α → β} (h : ∀ a, r (seen cls (g a)) = k a)
    (l : List α) : ((l.map g).map (seen cls)).map r = l.map k := by
  rw [List.map_map, List.map_map]
  apply List.map_congr_left
  intro a _
  exact h a

theorem read_person (cls : Nat → Bool) (n : List Char) (p : Person) :
    (seen cls (p.elem n)).one n!"Name" = p.name ∧ (seen cls (p.elem n)).one n!"Email" = p.email := by
  have e : p.elem n = .node n [] (([(n!"Name", [field n!"Name" p.name]), (n!"Email", [field n!"Email" p.email])] :
      List (List Char × List Elem)).flatMap Prod.snd) := rfl
  have hl : Labelled [(n!"Name", [field n!"Name" p.name]), (n!"Email", [field n!"Email" p.email])] :=
    labelled_cons (name_one rfl) (labelled_cons (name_one rfl) labelled_nil)
  rw [e]
  unfold seen Seen.one
  rw [all_parts cls hl, all_parts cls hl]
  constructor
  · show (((seen cls (field n!"Name" p.name)) :: []).head?.map Seen.text).getD [] = _
    rw [seen_field]; rfl
  · show (((seen cls (field n!"Email" p.email)) :: []).head?.map Seen.text).getD [] = _
    rw [seen_field]; rfl

theorem read_action (cls : Nat → Bool) (a : Action) : readAction (seen cls a.elem) = a := by
  cases a with
  | mk v p =>
  show Action.mk v (attrGet (attrOpt n!"package" p) n!"package") = _
  rw [← List.append_nil (attrOpt _ _), attrGet_opt_eq _ _ _ (by simp)]

theorem read_comar (cls : Nat → Bool) (a : Comar) : readComar (seen cls a.elem) = a := by
  cases a with
  | mk v p =>
  show Comar.mk v (attrGet (attrOpt n!"script" p) n!"script") = _
  rw [← List.append_nil (attrOpt _ _), attrGet_opt_eq _ _ _ (by simp)]

theorem not_fst {n : List Char} {l r : List (List Char × List Char)} (h1 : n ∉ l.map Prod.fst) (h2 : n ∉ r.map Prod.fst) :
    n ∉ (l ++ r).map Prod.fst := by
  rw [List.map_append, List.mem_append]
  rintro (h | h)
  · exact h1 h
  · exact h2 h

theorem not_opt {n m : List Char} (h : n ≠ m) (t : List Char) : n ∉ (attrOpt m t).map Prod.fst :=
  fun h1 => h (fst_opt _ _ _ h1)
theorem not_num {n m : List Char} (h : n ≠ m) (i : Int) : n ∉ (attrNum m i).map Prod.fst :=
  fun h1 => h (fst_num _ _ _ h1)

theorem read_dependency (cls : Nat → Bool) (d : Dependency) : readDependency (seen cls d.elem) = d := by
  cases d with
  | mk n rf rt r vf vt v =>
  show Dependency.mk n
    (number (attrGet (attrNum n!"releaseFrom" rf ++ attrNum n!"releaseTo" rt ++ attrNum n!"release" r ++
      attrOpt n!"versionFrom" vf ++ attrOpt n!"versionTo" vt ++ attrOpt n!"version" v) n!"releaseFrom"))
    (number (attrGet (attrNum n!"releaseFrom" rf ++ attrNum n!"releaseTo" rt ++ attrNum n!"release" r ++
      attrOpt n!"versionFrom" vf ++ attrOpt n!"versionTo" vt ++ attrOpt n!"version" v) n!"releaseTo"))
    (number (attrGet (attrNum n!"releaseFrom" rf ++ attrNum n!"releaseTo" rt ++ attrNum n!"release" r ++
      attrOpt n!"versionFrom" vf ++ attrOpt n!"versionTo" vt ++ attrOpt n!"version" v) n!"release"))
    (attrGet (attrNum n!"releaseFrom" rf ++ attrNum n!"releaseTo" rt ++ attrNum n!"release" r ++
      attrOpt n!"versionFrom" vf ++ attrOpt n!"versionTo" vt ++ attrOpt n!"version" v) n!"versionFrom")
    (attrGet (attrNum n!"releaseFrom" rf ++ attrNum n!"releaseTo" rt ++ attrNum n!"release" r ++
      attrOpt n!"versionFrom" vf ++ attrOpt n!"versionTo" vt ++ attrOpt n!"version" v) n!"versionTo")
    (attrGet (attrNum n!"releaseFrom" rf ++ attrNum n!"releaseTo" rt ++ attrNum n!"release" r ++
      attrOpt n!"versionFrom" vf ++ attrOpt n!"versionTo" vt ++ attrOpt n!"version" v) n!"version") = _
  simp only [List.append_assoc]
  rw [attrGet_num_eq _ _ _ (not_fst (not_num (by decide) _) (not_fst (not_num (by decide) _) (not_fst (not_opt (by decide) _)
      (not_fst (not_opt (by decide) _) (not_opt (by decide) _))))),
    attrGet_num_ne (by decide), attrGet_num_eq _ _ _ (not_fst (not_num (by decide) _) (not_fst (not_opt (by decide) _)
      (not_fst (not_opt (by decide) _) (not_opt (by decide) _)))),
    attrGet_num_ne (by decide), attrGet_num_ne (by decide), attrGet_num_eq _ _ _ (not_fst (not_opt (by decide) _)
      (not_fst (not_opt (by decide) _) (not_opt (by decide) _))),
    attrGet_num_ne (by decide), attrGet_num_ne (by decide), attrGet_num_ne (by decide),
      attrGet_opt_eq _ _ _ (not_fst (not_opt (by decide) _) (not_opt (by decide) _)),
    attrGet_num_ne (by decide), attrGet_num_ne (by decide), attrGet_num_ne (by decide), attrGet_opt_ne (by decide),
      attrGet_opt_eq _ _ _ (not_opt (by decide) _),
    attrGet_num_ne (by decide), attrGet_num_ne (by decide), attrGet_num_ne (by decide), attrGet_opt_ne (by decide),
      attrGet_opt_ne (by decide), ← List.append_nil (attrOpt _ v), attrGet_opt_eq _ _ _ (by simp)]

/-- The child elements of an update, by name. -/
def History.parts (u : History) : List (List Char × List Elem) :=
  [(n!"Date", [field n!"Date" u.date]), (n!"Version", [field n!"Version" u.version]),
   (n!"Comment", [.leaf n!"Comment" [] true u.comment]), (n!"Name", [.leaf n!"Name" [] true u.name]),
   (n!"Email", [field n!"Email" u.email]),
   (n!"Requires", match u.requires with
      | none => []
      | some as => [.node n!"Requires" [] (as.map Action.elem)])]

theorem history_labelled (u : History) : Labelled u.parts := by
  refine labelled_cons (name_one rfl) (labelled_cons (name_one rfl) (labelled_cons (name_one rfl) (labelled_cons (name_one rfl)
    (labelled_cons (name_one rfl) (labelled_cons ?_ labelled_nil)))))
  cases u.requires with
  | none => intro e he; cases he
  | some as => exact name_one rfl

theorem read_history (cls : Nat → Bool) (u : History) : readHistory (seen cls u.elem) = History.over (shown cls) u := by
  have e : u.elem = .node n!"Update" ([(n!"release", Jobs.fmtInt u.release)] ++ attrOpt n!"type" u.type) (u.parts.flatMap Prod.snd) := by
    unfold History.elem History.parts; cases u.requires <;> simp
  rw [e]
  unfold seen readHistory Seen.one Seen.inside
  simp only [all_parts cls (history_labelled u)]
  cases u with
  | mk release type date version comment name email requires =>
  unfold Spec.History.over
  refine (History.mk.injEq ..).mpr ⟨?_, ?_, ?_, ?_, ?_, ?_, ?_, ?_⟩
  · simp [Seen.attr, Seen.attrs, number_fmtInt]
  · show attrGet ((n!"release", Jobs.fmtInt release) :: attrOpt n!"type" type) n!"type" = _
    unfold attrGet
    rw [attr_skip (by decide)]
    show attrGet _ _ = _
    rw [← List.append_nil (attrOpt _ _), attrGet_opt_eq _ _ _ (by simp)]
  · show (((seen cls (field n!"Date" date)) :: []).head?.map Seen.text).getD [] = _
    rw [seen_field]; rfl
  · show (((seen cls (field n!"Version" version)) :: []).head?.map Seen.text).getD [] = _
    rw [seen_field]; rfl
  · show (((seen cls (.leaf n!"Comment" [] true comment)) :: []).head?.map Seen.text).getD [] = _
    unfold seen; rfl
  · show (((seen cls (.leaf n!"Name" [] true name)) :: []).head?.map Seen.text).getD [] = _
    unfold seen; rfl
  · show (((seen cls (field n!"Email" email)) :: []).head?.map Seen.text).getD [] = _
    rw [seen_field]; rfl
  · cases requires with
    | none => rfl
    | some as =>
      show some (List.map readAction ((seenAll cls (as.map Action.elem)).filter _)) = _
      rw [seenAll_map, filter_name cls (name_map (by intro _; rfl) as), if_pos rfl, map_read (read_action cls), List.map_id']

theorem provides_labelled (p : Provides) : Labelled [(n!"COMAR", p.comar.map Comar.elem),
    (n!"PkgConfig", p.pkgConfig.flatMap (fieldOpt n!"PkgConfig")), (n!"PkgConfig32", p.pkgConfig32.flatMap (fieldOpt n!"PkgConfig32"))] :=
  labelled_cons (name_map (by intro _; rfl) _) (labelled_cons (name_opts _ _) (labelled_cons (name_opts _ _) labelled_nil))

theorem read_provides (cls : Nat → Bool) (p : Provides) : readProvides (seen cls p.elem) = Provides.over p := by
  have e : p.elem = .node n!"Provides" [] (([(n!"COMAR", p.comar.map Comar.elem),
      (n!"PkgConfig", p.pkgConfig.flatMap (fieldOpt n!"PkgConfig")), (n!"PkgConfig32", p.pkgConfig32.flatMap (fieldOpt n!"PkgConfig32"))] :
      List (List Char × List Elem)).flatMap Prod.snd) := by
    unfold Provides.elem; simp
  rw [e]
  unfold seen readProvides
  simp only [all_parts cls (provides_labelled p)]
  unfold Spec.Provides.over
  refine (Provides.mk.injEq ..).mpr ⟨?_, ?_, ?_⟩
  · show List.map readComar (List.map (seen cls) (p.comar.map Comar.elem ++ [])) = _
    rw [List.append_nil, map_read (read_comar cls), List.map_id']
  · show List.map Seen.text (List.map (seen cls) (p.pkgConfig.flatMap (fieldOpt n!"PkgConfig") ++ [])) = _
    rw [List.append_nil, text_opts]
  · show List.map Seen.text (List.map (seen cls) (p.pkgConfig32.flatMap (fieldOpt n!"PkgConfig32") ++ [])) = _
    rw [List.append_nil, text_opts]

theorem one_field (cls : Nat → Bool) (n t : List Char) :
    ((([field n t] ++ []).map (seen cls)).head?.map Seen.text).getD [] = t := by
  show (((seen cls (field n t)) :: []).head?.map Seen.text).getD [] = t
  rw [seen_field]; rfl

theorem read_delta (cls : Nat → Bool) (d : PkgDelta) : readDelta (seen cls d.elem) = d := by
  have hl : Labelled [(n!"PackageURI", [field n!"PackageURI" d.uri]), (n!"PackageSize", [field n!"PackageSize" (Jobs.fmtInt d.size)]),
      (n!"PackageHash", [field n!"PackageHash" d.hash])] :=
    labelled_cons (name_one rfl) (labelled_cons (name_one rfl) (labelled_cons (name_one rfl) labelled_nil))
  have e : d.elem = .node n!"Delta" (attrNum n!"releaseFrom" d.releaseFrom) (([(n!"PackageURI", [field n!"PackageURI" d.uri]),
      (n!"PackageSize", [field n!"PackageSize" (Jobs.fmtInt d.size)]), (n!"PackageHash", [field n!"PackageHash" d.hash])] :
      List (List Char × List Elem)).flatMap Prod.snd) := rfl
  rw [e]
  unfold seen readDelta Seen.one
  simp only [all_parts cls hl]
  cases d with
  | mk rf uri size hash =>
  refine (PkgDelta.mk.injEq ..).mpr ⟨?_, ?_, ?_, ?_⟩
  · show number (attrGet (attrNum n!"releaseFrom" rf) n!"releaseFrom") = _
    rw [← List.append_nil (attrNum _ _), attrGet_num_eq _ _ _ (by simp)]
  · exact one_field cls _ _
  · refine (congrArg number (one_field cls n!"PackageSize" _)).trans (number_fmtInt _)
  · exact one_field cls _ _

theorem read_source (cls : Nat → Bool) (s : Source) : readSource (seen cls s.elem) = s := by
  have hl : Labelled [(n!"Name", [field n!"Name" s.name]), (n!"Homepage", fieldOpt n!"Homepage" s.homepage),
      (n!"Packager", [s.packager.elem n!"Packager"])] :=
    labelled_cons (name_one rfl) (labelled_cons (name_opt _ _) (labelled_cons (name_one rfl) labelled_nil))
  have e : s.elem = .node n!"Source" [] (([(n!"Name", [field n!"Name" s.name]), (n!"Homepage", fieldOpt n!"Homepage" s.homepage),
      (n!"Packager", [s.packager.elem n!"Packager"])] : List (List Char × List Elem)).flatMap Prod.snd) := by
    unfold Source.elem; simp
  rw [e]
  unfold seen readSource readPerson Seen.one
  simp only [all_parts cls hl]
  cases s with
  | mk name homepage packager =>
  refine (Source.mk.injEq ..).mpr ⟨?_, ?_, ?_⟩
  · exact one_field cls _ _
  · show (((fieldOpt n!"Homepage" homepage ++ []).map (seen cls)).head?.map Seen.text).getD [] = _
    rw [List.append_nil, text_opt]
  · show Person.mk ((seen cls (packager.elem n!"Packager")).one n!"Name") ((seen cls (packager.elem n!"Packager")).one n!"Email") = _
    rw [(read_person cls _ packager).1, (read_person cls _ packager).2]

/-- The child elements of a package, by name. -/
def Package.parts (p : Package) : List (List Char × List Elem) :=
  [(n!"Name", [field n!"Name" p.name]),
   (n!"Summary", p.summary.map (Text.elem n!"Summary")),
   (n!"Description", p.description.map (Text.elem n!"Description")),
   (n!"IsA", fieldOpt n!"IsA" p.isA),
   (n!"PartOf", fieldOpt n!"PartOf" p.partOf),
   (n!"License", p.license.map (field n!"License")),
   (n!"RuntimeDependencies", match p.dependencies with
      | none => []
      | some ds => [.node n!"RuntimeDependencies" [] (ds.map Dependency.elem)]),
   (n!"Conflicts", match p.conflicts with
      | none => []
      | some cs => [.node n!"Conflicts" [] (cs.flatMap (fieldOpt n!"Package"))]),
   (n!"Replaces", match p.replaces with
      | none => []
      | some rs => [.node n!"Replaces" [] (rs.flatMap (fieldOpt n!"Package"))]),
   (n!"Provides", match p.provides with
      | none => []
      | some q => [q.elem]),
   (n!"History", [.node n!"History" [] (p.history.map History.elem)]),
   (n!"BuildHost", [field n!"BuildHost" p.buildHost]),
   (n!"Distribution", [field n!"Distribution" p.distribution]),
   (n!"DistributionRelease", [field n!"DistributionRelease" p.distributionRelease]),
   (n!"Architecture", [field n!"Architecture" p.architecture]),
   (n!"InstalledSize", [field n!"InstalledSize" (Jobs.fmtInt p.installedSize)]),
   (n!"PackageSize", [field n!"PackageSize" (Jobs.fmtInt p.size)]),
   (n!"PackageHash", [field n!"PackageHash" p.hash]),
   (n!"PackageURI", [field n!"PackageURI" p.uri]),
   (n!"DeltaPackages", match p.deltas with
      | none => []
      | some ds => [.node n!"DeltaPackages" [] (ds.map PkgDelta.elem)]),
   (n!"PackageFormat", [field n!"PackageFormat" p.format]),
   (n!"Source", [p.source.elem])]

theorem package_elem (p : Package) : p.elem = .node n!"Package" [] (p.parts.flatMap Prod.snd) := by
  unfold Package.elem Package.parts
  cases p.dependencies <;> cases p.conflicts <;> cases p.replaces <;> cases p.provides <;> cases p.deltas <;> simp

theorem package_labelled (p : Package) : Labelled p.parts := by
  unfold Package.parts
  refine labelled_cons (name_one rfl) (labelled_cons (name_map (by intro _; rfl) _) (labelled_cons (name_map (by intro _; rfl) _)
    (labelled_cons (name_opt _ _) (labelled_cons (name_opt _ _) (labelled_cons (name_map (by intro _; rfl) _) (labelled_cons ?_
    (labelled_cons ?_ (labelled_cons ?_ (labelled_cons ?_ (labelled_cons (name_one rfl) (labelled_cons (name_one rfl)
    (labelled_cons (name_one rfl) (labelled_cons (name_one rfl) (labelled_cons (name_one rfl) (labelled_cons (name_one rfl)
    (labelled_cons (name_one rfl) (labelled_cons (name_one rfl) (labelled_cons (name_one rfl) (labelled_cons ?_
    (labelled_cons (name_one rfl) (labelled_cons (name_one rfl) labelled_nil)))))))))))))))))))))
  · cases p.dependencies with
    | none => intro e he; cases he
    | some _ => exact name_one rfl
  · cases p.conflicts with
    | none => intro e he; cases he
    | some _ => exact name_one rfl
  · cases p.replaces with
    | none => intro e he; cases he
    | some _ => exact name_one rfl
  · cases p.provides with
    | none => intro e he; cases he
    | some _ => exact name_one rfl
  · cases p.deltas with
    | none => intro e he; cases he
    | some _ => exact name_one rfl

theorem read_package (cls : Nat → Bool) (p : Package) : readPackage (seen cls p.elem) = Package.over (shown cls) p := by
  rw [package_elem]
  unfold seen readPackage Seen.one Seen.inside
  simp only [all_parts cls (package_labelled p)]
  unfold Spec.Package.over
  cases p with
  | mk name summary description isA partOf license dependencies conflicts replaces provides history buildHost distribution
      distributionRelease architecture installedSize size hash uri deltas format source =>
  refine (Package.mk.injEq ..).mpr ⟨?_, ?_, ?_, ?_, ?_, ?_, ?_, ?_, ?_, ?_, ?_, ?_, ?_, ?_, ?_, ?_, ?_, ?_, ?_, ?_, ?_, ?_⟩
  · exact one_field cls _ _
  · show List.map readLocal (List.map (seen cls) (summary.map (Text.elem n!"Summary") ++ [])) = _
    rw [List.append_nil, map_read (read_text cls _)]
  · show List.map readLocal (List.map (seen cls) (description.map (Text.elem n!"Description") ++ [])) = _
    rw [List.append_nil, map_read (read_text cls _)]
  · show (((fieldOpt n!"IsA" isA ++ []).map (seen cls)).head?.map Seen.text).getD [] = _
    rw [List.append_nil, text_opt]
  · show (((fieldOpt n!"PartOf" partOf ++ []).map (seen cls)).head?.map Seen.text).getD [] = _
    rw [List.append_nil, text_opt]
  · show List.map Seen.text (List.map (seen cls) (license.map (field n!"License") ++ [])) = _
    rw [List.append_nil, text_fields]
  · cases dependencies with
    | none => rfl
    | some ds =>
      show some (List.map readDependency ((seenAll cls (ds.map Dependency.elem)).filter _)) = _
      rw [seenAll_map, filter_name cls (name_map (by intro _; rfl) ds), if_pos rfl, map_read (read_dependency cls), List.map_id']
  · cases conflicts with
    | none => rfl
    | some cs =>
      show some (List.map Seen.text ((seenAll cls (cs.flatMap (fieldOpt n!"Package"))).filter _)) = _
      rw [seenAll_map, filter_name cls (name_opts _ cs), if_pos rfl, text_opts]; rfl
  · cases replaces with
    | none => rfl
    | some cs =>
      show some (List.map Seen.text ((seenAll cls (cs.flatMap (fieldOpt n!"Package"))).filter _)) = _
      rw [seenAll_map, filter_name cls (name_opts _ cs), if_pos rfl, text_opts]; rfl
  · cases provides with
    | none => rfl
    | some q =>
      show some (readProvides (seen cls q.elem)) = _
      rw [read_provides]; rfl
  · show List.map readHistory ((seenAll cls (history.map History.elem)).filter _) = _
    rw [seenAll_map, filter_name cls (name_map (by intro _; rfl) history), if_pos rfl, map_read (read_history cls)]
  · exact one_field cls _ _
  · exact one_field cls _ _
  · exact one_field cls _ _
  · exact one_field cls _ _
  · exact (congrArg number (one_field cls n!"InstalledSize" _)).trans (number_fmtInt _)
  · exact (congrArg number (one_field cls n!"PackageSize" _)).trans (number_fmtInt _)
  · exact one_field cls _ _
  · exact one_field cls _ _
  · cases deltas with
    | none => rfl
    | some ds =>
      show some (List.map readDelta ((seenAll cls (ds.map PkgDelta.elem)).filter _)) = _
      rw [seenAll_map, filter_name cls (name_map (by intro _; rfl) ds), if_pos rfl, map_read (read_delta cls), List.map_id']
  · exact one_field cls _ _
  · show readSource (seen cls source.elem) = _
    rw [read_source]

theorem read_distribution (cls : Nat → Bool) (d : Distribution) : readDistribution (seen cls d.elem) =
    { Distribution.over (shown cls) d with description := (Distribution.over (shown cls) d).description.map fun t => { t with lang := [] } } := by
  have hl : Labelled [(n!"SourceName", [field n!"SourceName" d.sourceName]), (n!"Description", d.description.map (Text.elemDist n!"Description")),
      (n!"Version", [field n!"Version" d.version]), (n!"Type", [field n!"Type" d.type]), (n!"BinaryName", [field n!"BinaryName" d.binaryName]),
      (n!"Obsoletes", [.node n!"Obsoletes" [] (d.obsoletes.map (field n!"Package"))])] :=
    labelled_cons (name_one rfl) (labelled_cons (name_map (by intro _; rfl) _) (labelled_cons (name_one rfl) (labelled_cons (name_one rfl)
      (labelled_cons (name_one rfl) (labelled_cons (name_one rfl) labelled_nil)))))
  have e : d.elem = .node n!"Distribution" [] (([(n!"SourceName", [field n!"SourceName" d.sourceName]), (n!"Description", d.description.map (Text.elemDist n!"Description")),
      (n!"Version", [field n!"Version" d.version]), (n!"Type", [field n!"Type" d.type]), (n!"BinaryName", [field n!"BinaryName" d.binaryName]),
      (n!"Obsoletes", [.node n!"Obsoletes" [] (d.obsoletes.map (field n!"Package"))])] : List (List Char × List Elem)).flatMap Prod.snd) := by
    unfold Distribution.elem; simp
  rw [e]
  unfold seen readDistribution Seen.one Seen.inside
  simp only [all_parts cls hl]
  cases d with
  | mk sourceName description version type binaryName obsoletes =>
  refine (Distribution.mk.injEq ..).mpr ⟨?_, ?_, ?_, ?_, ?_, ?_⟩
  · exact one_field cls _ _
  · show List.map readLocal (List.map (seen cls) (description.map (Text.elemDist n!"Description") ++ [])) = _
    rw [List.append_nil, map_read (read_textDist cls _)]
    show _ = List.map _ (List.map _ _)
    rw [List.map_map]; rfl
  · exact one_field cls _ _
  · exact one_field cls _ _
  · exact one_field cls _ _
  · show List.map Seen.text ((seenAll cls (obsoletes.map (field n!"Package"))).filter _) = _
    rw [seenAll_map, filter_name cls (name_map (by intro _; rfl) obsoletes), if_pos rfl, text_fields]; rfl

theorem read_component (cls : Nat → Bool) (c : Component) : readComponent (seen cls c.elem) = Component.over (shown cls) c := by
  have hl : Labelled [(n!"Name", [field n!"Name" c.name]), (n!"LocalName", c.localName.map (Text.elem n!"LocalName")),
      (n!"Summary", c.summary.map (Text.elem n!"Summary")), (n!"Description", c.description.map (Text.elem n!"Description")),
      (n!"Group", [field n!"Group" c.group]), (n!"Maintainer", [c.maintainer.elem n!"Maintainer"])] :=
    labelled_cons (name_one rfl) (labelled_cons (name_map (by intro _; rfl) _) (labelled_cons (name_map (by intro _; rfl) _) (labelled_cons (name_map (by intro _; rfl) _)
      (labelled_cons (name_one rfl) (labelled_cons (name_one rfl) labelled_nil)))))
  have e : c.elem = .node n!"Component" [] (([(n!"Name", [field n!"Name" c.name]), (n!"LocalName", c.localName.map (Text.elem n!"LocalName")),
      (n!"Summary", c.summary.map (Text.elem n!"Summary")), (n!"Description", c.description.map (Text.elem n!"Description")),
      (n!"Group", [field n!"Group" c.group]), (n!"Maintainer", [c.maintainer.elem n!"Maintainer"])] :
      List (List Char × List Elem)).flatMap Prod.snd) := by
    unfold Component.elem; simp
  rw [e]
  unfold seen readComponent readPerson Seen.one
  simp only [all_parts cls hl]
  cases c with
  | mk name localName summary description group maintainer =>
  refine (Component.mk.injEq ..).mpr ⟨?_, ?_, ?_, ?_, ?_, ?_⟩
  · exact one_field cls _ _
  · show List.map readLocal (List.map (seen cls) (localName.map (Text.elem n!"LocalName") ++ [])) = _
    rw [List.append_nil, map_read (read_text cls _)]
  · show List.map readLocal (List.map (seen cls) (summary.map (Text.elem n!"Summary") ++ [])) = _
    rw [List.append_nil, map_read (read_text cls _)]
  · show List.map readLocal (List.map (seen cls) (description.map (Text.elem n!"Description") ++ [])) = _
    rw [List.append_nil, map_read (read_text cls _)]
  · exact one_field cls _ _
  · show Person.mk ((seen cls (maintainer.elem n!"Maintainer")).one n!"Name") ((seen cls (maintainer.elem n!"Maintainer")).one n!"Email") = _
    rw [(read_person cls _ maintainer).1, (read_person cls _ maintainer).2]

theorem read_group (cls : Nat → Bool) (g : Group) : readGroup (seen cls g.elem) = Group.over (shown cls) g := by
  have hl : Labelled [(n!"Name", [field n!"Name" g.name]), (n!"LocalName", g.localName.map (Text.elem n!"LocalName")),
      (n!"Icon", [field n!"Icon" g.icon])] :=
    labelled_cons (name_one rfl) (labelled_cons (name_map (by intro _; rfl) _) (labelled_cons (name_one rfl) labelled_nil))
  have e : g.elem = .node n!"Group" [] (([(n!"Name", [field n!"Name" g.name]), (n!"LocalName", g.localName.map (Text.elem n!"LocalName")),
      (n!"Icon", [field n!"Icon" g.icon])] : List (List Char × List Elem)).flatMap Prod.snd) := by
    unfold Group.elem; simp
  rw [e]
  unfold seen readGroup Seen.one
  simp only [all_parts cls hl]
  cases g with
  | mk name localName icon =>
  refine (Group.mk.injEq ..).mpr ⟨?_, ?_, ?_⟩
  · exact one_field cls _ _
  · show List.map readLocal (List.map (seen cls) (localName.map (Text.elem n!"LocalName") ++ [])) = _
    rw [List.append_nil, map_read (read_text cls _)]
  · exact one_field cls _ _

/-! ## The elements are well formed -/

/-- All texts consist of characters XML has. -/
def Fine (l : List (List Char)) : Prop := ∀ t ∈ l, ∀ c ∈ t, XmlChar c

theorem fine_cons {t : List Char} {l : List (List Char)} : Fine (t :: l) ↔ (∀ c ∈ t, XmlChar c) ∧ Fine l := by
  simp [Fine]
theorem fine_append {a b : List (List Char)} : Fine (a ++ b) ↔ Fine a ∧ Fine b := by
  constructor
  · intro h; exact ⟨fun t ht => h t (List.mem_append_left _ ht), fun t ht => h t (List.mem_append_right _ ht)⟩
  · rintro ⟨h1, h2⟩ t ht
    rcases List.mem_append.1 ht with ht | ht
    · exact h1 t ht
    · exact h2 t ht
theorem fine_flatMap {α : Type} {l : List α} {g : α → List (List Char)} : Fine (l.flatMap g) ↔ ∀ a ∈ l, Fine (g a) := by
  constructor
  · intro h a ha t ht
    exact h t (List.mem_flatMap.2 ⟨a, ha, ht⟩)
  · intro h t ht
    obtain ⟨a, ha, ht⟩ := List.mem_flatMap.1 ht
    exact h a ha t ht

theorem name_ok {n : List Char} (h : n.head?.map isLetter = some true ∧ n.all isNameChar = true) : IsName n := by
  cases n with
  | nil => simp at h
  | cons c t => exact ⟨⟨c, t, rfl, by simpa using h.1⟩, by simpa [List.all_eq_true] using h.2⟩

theorem allGood_of {es : List Elem} (h : ∀ e ∈ es, Good e) : AllGood es := by
  induction es with
  | nil => exact .nil
  | cons e es ih => exact .cons (h e (by simp)) (ih fun x hx => h x (List.mem_cons_of_mem _ hx))

theorem allGood_map {α : Type} {l : List α} {g : α → Elem} (h : ∀ a ∈ l, Good (g a)) : AllGood (l.map g) :=
  allGood_of fun e he => by
    obtain ⟨a, ha, rfl⟩ := List.mem_map.1 he
    exact h a ha

theorem noAttrs : GoodAttrs [] := ⟨by simp, by simp⟩

theorem good_field {n t : List Char} (hn : IsName n) (ht : ∀ c ∈ t, XmlChar c) : Good (field n t) := .leaf hn noAttrs ht
theorem good_opt {n t : List Char} (hn : IsName n) (ht : ∀ c ∈ t, XmlChar c) : AllGood (fieldOpt n t) := by
  unfold fieldOpt
  split
  · exact .nil
  · exact .cons (good_field hn ht) .nil
theorem good_opts {n : List Char} {l : List (List Char)} (hn : IsName n) (hl : Fine l) : AllGood (l.flatMap (fieldOpt n)) := by
  induction l with
  | nil => exact .nil
  | cons t l ih =>
    rw [fine_cons] at hl
    exact allGood_append (good_opt hn hl.1) (ih hl.2)
theorem good_one {e : Elem} (h : Good e) : AllGood [e] := .cons h .nil

/-- Attributes, all or some of them present, with distinct names. -/
theorem goodAttrs {as : List (List Char × List Char)} {ns : List (List Char)} (h : ∀ a ∈ as, ∀ c ∈ a.2, XmlChar c)
    (hs : List.Sublist (as.map Prod.fst) ns) (hn : ∀ n ∈ ns, n.head?.map isLetter = some true ∧ n.all isNameChar = true) (hd : ns.Nodup) :
    GoodAttrs as :=
  ⟨fun a ha => ⟨name_ok (hn a.1 (hs.subset (List.mem_map_of_mem ha))), h a ha⟩, hs.nodup hd⟩

theorem sub_opt (n t : List Char) : List.Sublist ((attrOpt n t).map Prod.fst) [n] := by
  unfold attrOpt
  split
  · exact List.nil_sublist _
  · exact List.Sublist.refl _
theorem sub_num (n : List Char) (i : Int) : List.Sublist ((attrNum n i).map Prod.fst) [n] := by
  unfold attrNum
  split
  · exact List.nil_sublist _
  · exact List.Sublist.refl _
theorem fine_opt {n t : List Char} (h : ∀ c ∈ t, XmlChar c) : ∀ a ∈ attrOpt n t, ∀ c ∈ a.2, XmlChar c := by
  intro a ha
  unfold attrOpt at ha
  split at ha
  · cases ha
  · rw [List.mem_singleton.1 ha]; exact h
theorem fine_num (n : List Char) (i : Int) : ∀ a ∈ attrNum n i, ∀ c ∈ a.2, XmlChar c := by
  intro a ha
  unfold attrNum at ha
  split at ha
  · cases ha
  · rw [List.mem_singleton.1 ha]; exact fmtInt_xml i

theorem fine_two {a b : List (List Char × List Char)} (h1 : ∀ x ∈ a, ∀ c ∈ x.2, XmlChar c) (h2 : ∀ x ∈ b, ∀ c ∈ x.2, XmlChar c) :
    ∀ x ∈ a ++ b, ∀ c ∈ x.2, XmlChar c := by
  intro x hx
  rcases List.mem_append.1 hx with hx | hx
  · exact h1 x hx
  · exact h2 x hx

theorem good_attrOpt {n t : List Char} (hn : n.head?.map isLetter = some true ∧ n.all isNameChar = true) (ht : ∀ c ∈ t, XmlChar c) :
    GoodAttrs (attrOpt n t) :=
  goodAttrs (fine_opt ht) (sub_opt n t) (by intro m hm; rw [List.mem_singleton.1 hm]; exact hn) (by simp)

theorem good_text {n : List Char} (hn : IsName n) {t : Text} (h : Fine (Text.strings t)) : Good (t.elem n) := by
  simp only [Spec.Text.strings, fine_cons] at h
  exact .leaf hn (good_attrOpt (by decide) h.2.1) h.1
theorem good_textDist {n : List Char} (hn : IsName n) {t : Text} (h : Fine (Text.strings t)) : Good (t.elemDist n) := by
  simp only [Spec.Text.strings, fine_cons] at h
  exact .leaf hn (good_attrOpt (by decide) h.2.1) h.1
theorem good_person {n : List Char} (hn : IsName n) {p : Person} (h : Fine (Person.strings p)) : Good (p.elem n) := by
  simp only [Spec.Person.strings, fine_cons] at h
  exact .node hn noAttrs (.cons (good_field (name_ok (by decide)) h.1) (.cons (good_field (name_ok (by decide)) h.2.1) .nil))
theorem good_source {s : Source} (h : Fine (Source.strings s)) : Good s.elem := by
  simp only [Spec.Source.strings, fine_append, fine_cons] at h
  exact .node (name_ok (by decide)) noAttrs (allGood_append (allGood_append (good_one (good_field (name_ok (by decide)) h.1.1))
    (good_opt (name_ok (by decide)) h.1.2.1)) (good_one (good_person (name_ok (by decide)) h.2)))
theorem good_action {a : Action} (h : Fine (Action.strings a)) : Good a.elem := by
  simp only [Spec.Action.strings, fine_cons] at h
  exact .leaf (name_ok (by decide)) (good_attrOpt (by decide) h.2.1) h.1
theorem good_comar {a : Comar} (h : Fine (Comar.strings a)) : Good a.elem := by
  simp only [Spec.Comar.strings, fine_cons] at h
  exact .leaf (name_ok (by decide)) (good_attrOpt (by decide) h.2.1) h.1
theorem good_dependency {d : Dependency} (h : Fine (Dependency.strings d)) : Good d.elem := by
  simp only [Spec.Dependency.strings, fine_cons] at h
  refine .leaf (name_ok (by decide)) (goodAttrs (ns := [n!"releaseFrom"] ++ [n!"releaseTo"] ++ [n!"release"] ++ [n!"versionFrom"] ++
    [n!"versionTo"] ++ [n!"version"]) (fine_two (fine_two (fine_two (fine_two (fine_two (fine_num _ _) (fine_num _ _)) (fine_num _ _))
      (fine_opt h.2.1)) (fine_opt h.2.2.1)) (fine_opt h.2.2.2.1)) ?_ (by decide) (by decide)) h.1
  simp only [List.map_append]
  exact ((((((sub_num _ _).append (sub_num _ _)).append (sub_num _ _)).append (sub_opt _ _)).append (sub_opt _ _)).append (sub_opt _ _))
theorem good_history {u : History} (h : Fine (History.strings u)) : Good u.elem := by
  simp only [Spec.History.strings, fine_append, fine_cons, fine_flatMap] at h
  obtain ⟨⟨h1, h2, h3, h4, h5, h6, _⟩, h7⟩ := h
  refine .node (name_ok (by decide)) (goodAttrs (ns := [n!"release"] ++ [n!"type"]) (fine_two ?_ (fine_opt h1)) ?_ (by decide) (by decide))
    (allGood_append (.cons (good_field (name_ok (by decide)) h2) (.cons (good_field (name_ok (by decide)) h3)
      (.cons (.leaf (name_ok (by decide)) noAttrs h4) (.cons (.leaf (name_ok (by decide)) noAttrs h5)
        (.cons (good_field (name_ok (by decide)) h6) .nil))))) ?_)
  · intro a ha
    rw [List.mem_singleton.1 ha]; exact fmtInt_xml _
  · rw [List.map_append]
    exact (List.Sublist.refl _).append (sub_opt _ _)
  · cases hr : u.requires with
    | none => exact .nil
    | some as =>
      rw [hr] at h7
      exact good_one (.node (name_ok (by decide)) noAttrs (allGood_map fun a ha => good_action (h7 a ha)))
theorem good_provides {p : Provides} (h : Fine (Provides.strings p)) : Good p.elem := by
  simp only [Spec.Provides.strings, fine_append, fine_flatMap] at h
  exact .node (name_ok (by decide)) noAttrs (allGood_append (allGood_append (allGood_map fun a ha => good_comar (h.1.1 a ha))
    (good_opts (name_ok (by decide)) h.1.2)) (good_opts (name_ok (by decide)) h.2))
theorem good_delta {d : PkgDelta} (h : Fine (PkgDelta.strings d)) : Good d.elem := by
  simp only [Spec.PkgDelta.strings, fine_cons] at h
  exact .node (name_ok (by decide)) (goodAttrs (fine_num _ _) (sub_num _ _) (by decide) (by decide))
    (.cons (good_field (name_ok (by decide)) h.1) (.cons (good_field (name_ok (by decide)) (fmtInt_xml _))
      (.cons (good_field (name_ok (by decide)) h.2.1) .nil)))

theorem good_parts {parts : List (List Char × List Elem)} (h : ∀ q ∈ parts, AllGood q.2) : AllGood (parts.flatMap Prod.snd) := by
  induction parts with
  | nil => exact .nil
  | cons q qs ih => exact allGood_append (h q (by simp)) (ih fun q hq => h q (List.mem_cons_of_mem _ hq))

theorem good_package {p : Package} (h : Fine (Package.strings p)) : Good p.elem := by
  simp only [Spec.Package.strings, fine_append, fine_cons, fine_flatMap] at h
  obtain ⟨⟨⟨⟨⟨⟨⟨⟨⟨⟨⟨h1, h2, h3, h4, h5, h6, h7, h8, h9, h10, _⟩, h11⟩, h12⟩, h13⟩, h14⟩, h15⟩, h16⟩, h17⟩, h18⟩, h19⟩, h20⟩ := h
  rw [package_elem]
  refine .node (name_ok (by decide)) noAttrs (good_parts ?_)
  unfold Package.parts
  simp only [List.forall_mem_cons]
  refine ⟨good_one (good_field (name_ok (by decide)) h1), allGood_map fun a ha => good_text (name_ok (by decide)) (h11 a ha),
    allGood_map fun a ha => good_text (name_ok (by decide)) (h12 a ha), good_opt (name_ok (by decide)) h2,
    good_opt (name_ok (by decide)) h3, allGood_map fun a ha => good_field (name_ok (by decide)) (h13 a ha), ?_, ?_, ?_, ?_,
    good_one (.node (name_ok (by decide)) noAttrs (allGood_map fun a ha => good_history (h18 a ha))),
    good_one (good_field (name_ok (by decide)) h4), good_one (good_field (name_ok (by decide)) h5),
    good_one (good_field (name_ok (by decide)) h6), good_one (good_field (name_ok (by decide)) h7),
    good_one (good_field (name_ok (by decide)) (fmtInt_xml _)), good_one (good_field (name_ok (by decide)) (fmtInt_xml _)),
    good_one (good_field (name_ok (by decide)) h8), good_one (good_field (name_ok (by decide)) h9), ?_,
    good_one (good_field (name_ok (by decide)) h10), good_one (good_source h20), by simp⟩
  · cases hr : p.dependencies with
    | none => exact .nil
    | some ds =>
      rw [hr] at h14
      exact good_one (.node (name_ok (by decide)) noAttrs (allGood_map fun a ha => good_dependency (h14 a ha)))
  · cases hr : p.conflicts with
    | none => exact .nil
    | some ds =>
      rw [hr] at h15
      exact good_one (.node (name_ok (by decide)) noAttrs (good_opts (name_ok (by decide)) h15))
  · cases hr : p.replaces with
    | none => exact .nil
    | some ds =>
      rw [hr] at h16
      exact good_one (.node (name_ok (by decide)) noAttrs (good_opts (name_ok (by decide)) h16))
  · cases hr : p.provides with
    | none => exact .nil
    | some q =>
      rw [hr] at h17
      exact good_one (good_provides (h17 q (by simp)))
  · cases hr : p.deltas with
    | none => exact .nil
    | some ds =>
      rw [hr] at h19
      exact good_one (.node (name_ok (by decide)) noAttrs (allGood_map fun a ha => good_delta (h19 a ha)))

theorem good_distribution {d : Distribution} (h : Fine (Distribution.strings d)) : Good d.elem := by
  simp only [Spec.Distribution.strings, fine_append, fine_cons, fine_flatMap] at h
  obtain ⟨⟨⟨h1, h2, h3, h4, _⟩, h5⟩, h6⟩ := h
  exact .node (name_ok (by decide)) noAttrs (allGood_append (allGood_append (allGood_append (allGood_append (allGood_append
    (good_one (good_field (name_ok (by decide)) h1)) (allGood_map fun a ha => good_textDist (name_ok (by decide)) (h5 a ha)))
    (good_one (good_field (name_ok (by decide)) h2))) (good_one (good_field (name_ok (by decide)) h3)))
    (good_one (good_field (name_ok (by decide)) h4)))
    (good_one (.node (name_ok (by decide)) noAttrs (allGood_map fun a ha => good_field (name_ok (by decide)) (h6 a ha)))))
theorem good_component {c : Component} (h : Fine (Component.strings c)) : Good c.elem := by
  simp only [Spec.Component.strings, fine_append, fine_cons, fine_flatMap] at h
  obtain ⟨⟨⟨⟨⟨h1, h2, _⟩, h3⟩, h4⟩, h5⟩, h6⟩ := h
  exact .node (name_ok (by decide)) noAttrs (allGood_append (allGood_append (allGood_append (allGood_append (allGood_append
    (good_one (good_field (name_ok (by decide)) h1)) (allGood_map fun a ha => good_text (name_ok (by decide)) (h3 a ha)))
    (allGood_map fun a ha => good_text (name_ok (by decide)) (h4 a ha))) (allGood_map fun a ha => good_text (name_ok (by decide)) (h5 a ha)))
    (good_one (good_field (name_ok (by decide)) h2))) (good_one (good_person (name_ok (by decide)) h6)))
theorem good_group {g : Group} (h : Fine (Group.strings g)) : Good g.elem := by
  simp only [Spec.Group.strings, fine_append, fine_cons, fine_flatMap] at h
  obtain ⟨⟨h1, h2, _⟩, h3⟩ := h
  exact .node (name_ok (by decide)) noAttrs (allGood_append (allGood_append
    (good_one (good_field (name_ok (by decide)) h1)) (allGood_map fun a ha => good_text (name_ok (by decide)) (h3 a ha)))
    (good_one (good_field (name_ok (by decide)) h2)))

/-! ## C155 -/

/-- The full claim: whatever the index is made of, a reader gets all of it back from the bytes written, except for what a
CDATA section does to texts that are not clean (see C153), and for empty entries of lists of names. -/
def C155_statement : Prop := ∀ (cls : Nat → Bool) (i : Index), Index.Expressible i →
  ∃ out f, write cls (utf8 i.text) = utf8 out ∧ (∀ t, Clean cls t → f t = t) ∧ readBytes out = some (Index.over f i)

theorem readBytes_index (cls : Nat → Bool) {i : Index} (h : Index.Expressible i) :
    ∃ out, write cls (utf8 i.text) = utf8 out ∧ readBytes out = some (Index.mute (Index.over (shown cls) i)) := by
  have h' : Fine (Index.strings i) := h
  simp only [Spec.Index.strings, fine_append, fine_flatMap] at h'
  obtain ⟨⟨⟨h1, h2⟩, h3⟩, h4⟩ := h'
  obtain ⟨out, hw, hr⟩ := document_read cls (allGood_map fun a ha => good_distribution (h1 a ha)) (allGood_map fun a ha => good_package (h2 a ha))
    (allGood_map fun a ha => good_component (h3 a ha)) (allGood_map fun a ha => good_group (h4 a ha))
  refine ⟨out, hw, ?_⟩
  unfold readBytes
  rw [hr]
  have hl : Labelled [(n!"Distribution", i.distribution.toList.map Distribution.elem), (n!"Package", i.packages.map Package.elem),
      (n!"Component", i.components.map Component.elem), (n!"Group", i.groups.map Group.elem)] :=
    labelled_cons (name_map (by intro _; rfl) _) (labelled_cons (name_map (by intro _; rfl) _) (labelled_cons (name_map (by intro _; rfl) _)
      (labelled_cons (name_map (by intro _; rfl) _) labelled_nil)))
  have e : i.distribution.toList.map Distribution.elem ++ i.packages.map Package.elem ++ i.components.map Component.elem ++ i.groups.map Group.elem =
      ([(n!"Distribution", i.distribution.toList.map Distribution.elem), (n!"Package", i.packages.map Package.elem),
      (n!"Component", i.components.map Component.elem), (n!"Group", i.groups.map Group.elem)] : List (List Char × List Elem)).flatMap Prod.snd := by
    simp
  rw [e]
  show readIndex _ = _
  unfold readIndex
  show (if n!"PISI" = n!"PISI" then _ else none) = _
  rw [if_pos rfl]
  simp only [all_parts cls hl]
  refine congrArg some ((Index.mk.injEq ..).mpr ⟨?_, ?_, ?_, ?_⟩)
  · show Option.map readDistribution (List.map (seen cls) (i.distribution.toList.map Distribution.elem ++ [])).head? = _
    cases hd : i.distribution with
    | none => unfold Spec.Index.over; rw [hd]; rfl
    | some d =>
      show some (readDistribution (seen cls d.elem)) = _
      rw [read_distribution]
      unfold Spec.Index.over
      rw [hd]; rfl
  · show List.map readPackage (List.map (seen cls) (i.packages.map Package.elem ++ [])) = _
    rw [List.append_nil, map_read (read_package cls)]; rfl
  · show List.map readComponent (List.map (seen cls) (i.components.map Component.elem ++ [])) = _
    rw [List.append_nil, map_read (read_component cls)]; rfl
  · show List.map readGroup (List.map (seen cls) (i.groups.map Group.elem ++ [])) = _
    rw [List.append_nil, map_read (read_group cls)]; rfl

/-- What holds: of every package everything (names, releases, sizes, hashes, places, dependencies, deltas, history, …), of every
component and group everything, and of the distribution everything but the languages of its descriptions, is read back.
(Missing: those languages, see `C155_violated`.) -/
theorem C155_all_but_languages_partial (cls : Nat → Bool) {i : Index} (h : Index.Expressible i) :
    ∃ out f, write cls (utf8 i.text) = utf8 out ∧ (∀ t, Clean cls t → f t = t) ∧
      readBytes out = some (Index.mute (Index.over f i)) := by
  obtain ⟨out, h1, h2⟩ := readBytes_index cls h
  exact ⟨out, shown cls, h1, fun t ht => (lines_esc_iff cls t).2 ht, h2⟩

namespace Demo
/-- A distribution whose description is marked as English. -/
def dist : Distribution := ⟨n!"Solus", [⟨n!"Repo", n!"en"⟩], ['1'], n!"main", n!"Solus", [n!"old"]⟩
/-- A package with a dependency, a history, a delta and a negative size. -/
def nano : Package where
  name := n!"nano"
  summary := [⟨['a', '<', 'b'], n!"en"⟩]
  description := [⟨['&'], n!"en"⟩, ⟨n!"x", n!"de"⟩]
  isA := []
  partOf := n!"system.base"
  license := [n!"GPL", []]
  dependencies := some [⟨n!"glibc", 0, 0, 12, [], [], n!"2.1"⟩]
  conflicts := some [n!"pico", []]
  replaces := none
  provides := some ⟨[⟨n!"x", n!"y.py"⟩], [], [n!"z"]⟩
  history := [⟨12, n!"security", n!"d", n!"2.1", n!"c", n!"me", n!"e", some [⟨n!"reboot", n!"k"⟩]⟩, ⟨-3, [], [], [], [], [], [], none⟩]
  buildHost := []
  distribution := n!"Solus"
  distributionRelease := ['1']
  architecture := n!"x86_64"
  installedSize := -7
  size := 1024
  hash := n!"ab"
  uri := n!"n"
  deltas := some [⟨11, n!"d", 5, n!"h"⟩]
  format := n!"1.2"
  source := ⟨n!"nano", [], ⟨n!"me", n!"e"⟩⟩
def index : Index := ⟨some dist, [nano], [], [⟨n!"g", [⟨n!"G", []⟩], n!"i"⟩]⟩
end Demo

/-- The language of the distribution's description is read with whatever prefix and written without: a reader that looks for
`xml:lang`, as everywhere else in the index, finds none. -/
theorem C155_violated : ¬ C155_statement := by
  intro h
  have hx : Index.Expressible ⟨some Demo.dist, [], [], []⟩ := by unfold Spec.Index.Expressible; decide +kernel
  obtain ⟨out, f, h1, _, h2⟩ := h (fun _ => false) ⟨some Demo.dist, [], [], []⟩ hx
  obtain ⟨out', h3, h4⟩ := readBytes_index (fun _ => false) hx
  have e : out = out' := utf8_inj (h1.symm.trans h3)
  rw [e, h4] at h2
  have := congrArg (fun i : Option Index => i.map fun i => i.distribution.map fun d => d.description.map Text.lang) h2
  revert this
  show ¬ (some (some [[]]) = some (some [n!"en"]))
  decide

/-- A concrete case: a distribution, a package with every kind of field, and a group. -/
example : Index.Expressible Demo.index ∧ (∀ t ∈ Index.strings Demo.index, Clean (fun n => n == 0x2122) t) := by
  unfold Spec.Index.Expressible Clean; decide +kernel

end Ferryd.Xml
