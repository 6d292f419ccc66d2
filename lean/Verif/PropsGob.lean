import Verif.Gob
/-!
# PropsGob: what is stored is read back (C157)
-/
namespace Ferryd.Gob
open Ferryd.Jobs (JobEntry Record Timing)
open Ferryd.Xml (Package)

/-! ## Numbers -/

theorem byte_toNat {n : Nat} (h : n < 256) : (byte n).toNat = n := by
  have h1 : ∀ n : Fin 256, (Char.ofNat n.1).toNat = n.1 := by decide +kernel
  exact h1 ⟨n, h⟩

theorem ofBe_be (k : Nat) : ∀ (n acc : Nat) (r : Str), ofBe k acc (be k n ++ r) = some (acc * 256 ^ k + n % 256 ^ k, r) := by
  induction k with
  | zero => intro n acc r; simp [be, ofBe, Nat.mod_one]
  | succ k ih =>
    intro n acc r
    show ofBe k (acc * 256 + (byte (n / 256 ^ k % 256)).toNat) (be k n ++ r) = _
    rw [byte_toNat (Nat.mod_lt _ (by omega)), ih]
    congr 2
    have h : n % 256 ^ (k + 1) = n % 256 ^ k + 256 ^ k * (n / 256 ^ k % 256) := Nat.mod_pow_succ
    rw [h, Nat.pow_succ, Nat.add_mul, Nat.mul_assoc, Nat.mul_comm 256 (256 ^ k), Nat.mul_comm (n / 256 ^ k % 256) (256 ^ k)]
    omega

theorem be_length (k n : Nat) : (be k n).length = k := by
  induction k with
  | zero => rfl
  | succ k ih => simp [be, ih]

theorem widthN_spec (k : Nat) : ∀ n, n < 256 ^ (k + 1) → n < 256 ^ widthN k n ∧ 1 ≤ widthN k n ∧ widthN k n ≤ k + 1 := by
  induction k with
  | zero => intro n h; exact ⟨h, Nat.le_refl _, Nat.le_refl _⟩
  | succ k ih =>
    intro n h
    show n < 256 ^ (if n < 256 then 1 else _) ∧ 1 ≤ (if n < 256 then 1 else _) ∧ (if n < 256 then 1 else _) ≤ _
    split
    · omega
    · have := ih (n / 256) (by rw [Nat.pow_succ] at h; omega)
      rw [Nat.pow_succ]
      omega

theorem decUint_encUint {n : Nat} (h : n < 2 ^ 64) (r : Str) : decUint (encUint n ++ r) = some (n, r) := by
  unfold encUint
  split
  · next hn =>
    show (if (byte n).toNat ≤ 127 then _ else _) = _
    rw [byte_toNat (by omega), if_pos hn]
    rfl
  · next hn =>
    obtain ⟨h0, h1, h2⟩ : n < 256 ^ width n ∧ 1 ≤ width n ∧ width n ≤ 8 := widthN_spec 7 n (by simpa using h)
    have hb : (byte (256 - width n)).toNat = 256 - width n := byte_toNat (by omega)
    show (if (byte (256 - width n)).toNat ≤ 127 then _ else if (byte (256 - width n)).toNat < 256 ∧ 256 - (byte (256 - width n)).toNat ≤ 8
      then ofBe (256 - (byte (256 - width n)).toNat) 0 (be (width n) n ++ r) else none) = _
    rw [hb, if_neg (by omega), if_pos ⟨by omega, by omega⟩, show 256 - (256 - width n) = width n by omega, ofBe_be,
      Nat.mod_eq_of_lt h0]
    simp

/-- An `int` or `int64` of Go. -/
def Spec.Int64 (i : Int) : Prop := -2 ^ 63 ≤ i ∧ i < 2 ^ 63
/-- A `uint64` of Go. -/
def Spec.Uint64 (n : Nat) : Prop := n < 2 ^ 64
/-- A string of Go. -/
def Spec.String (t : Str) : Prop := t.length < 2 ^ 63
/-- A slice whose elements, of `sz` bytes each, take up at most 8 GiB. -/
def Spec.Slice {α} (sz : Nat) (ok : α → Prop) (l : List α) : Prop := l.length * sz ≤ 2 ^ 33 ∧ ∀ a ∈ l, ok a
/-- A pointer to a slice: none, or one to a slice that is not empty (which is how the XML decoder makes them). -/
def Spec.SlicePtr {α} (sz : Nat) (ok : α → Prop) (o : Option (List α)) : Prop := ∀ l, o = some l → l ≠ [] ∧ Spec.Slice sz ok l
/-- A time: nanoseconds since the year 1, its seconds fitting in 63 bits. -/
def Spec.Time (t : Nat) : Prop := t / 1000000000 < 2 ^ 63

theorem decInt_encInt {i : Int} (h : Spec.Int64 i) (r : Str) : decInt (encInt i ++ r) = some (i, r) := by
  obtain ⟨h1, h2⟩ := h
  unfold decInt encInt
  rw [decUint_encUint (by split <;> omega)]
  simp only [Option.map_some, Option.some.injEq, Prod.mk.injEq, and_true]
  unfold toInt
  split
  · next h => split <;> omega
  · next h => split <;> omega

theorem takeN_append (a r : Str) : takeN a.length (a ++ r) = some (a, r) := by
  unfold takeN
  rw [if_pos (by simp)]
  simp

/-! ## Formats -/

/-- Fields with such values are read back. -/
structure Good {α} (F : Fmt α) (ok : α → Prop) : Prop where
  zero_ : ∀ a, ok a → F.isZero a = true → a = F.zero
  back : ∀ a, ok a → F.isZero a = false → ∀ r, F.dec F.zero (F.enc a ++ r) = some (a, r)

/-- Elements with such values are read back, too. -/
structure Full {α} (F : Fmt α) (ok : α → Prop) : Prop extends Good F ok where
  back' : ∀ a, ok a → ∀ r, F.dec F.zero (F.enc a ++ r) = some (a, r)

theorem Full.mk' {α} {F : Fmt α} {ok : α → Prop} (h1 : ∀ a, ok a → F.isZero a = true → a = F.zero)
    (h2 : ∀ a, ok a → ∀ r, F.dec F.zero (F.enc a ++ r) = some (a, r)) : Full F ok :=
  ⟨⟨h1, fun a h _ r => h2 a h r⟩, h2⟩

theorem boolF_full : Full boolF (fun _ => True) := by
  refine .mk' (fun a _ h => by cases a <;> first | rfl | cases h) fun a _ r => ?_
  show (decUint (encUint (if a then 1 else 0) ++ r)).map _ = _
  rw [decUint_encUint (by split <;> omega)]
  cases a <;> rfl

theorem uintF_full : Full uintF Spec.Uint64 :=
  .mk' (fun a _ h => by simpa [uintF] using h) fun _ h r => decUint_encUint h r

theorem intF_full : Full intF Spec.Int64 :=
  .mk' (fun a _ h => by simpa [intF] using h) fun _ h r => decInt_encInt h r

theorem strF_full : Full strF Spec.String := by
  refine .mk' (fun a _ h => by simpa [strF] using h) fun a h r => ?_
  show (decUint (encUint a.length ++ a ++ r)).bind _ = _
  rw [List.append_assoc, decUint_encUint (by unfold Spec.String at h; omega)]
  exact takeN_append a r

theorem timeF_full : Full timeF Spec.Time := by
  refine .mk' (fun a _ h => by simpa [timeF] using h) fun a h r => ?_
  have hl : (byte 1 :: (be 8 (a / 1000000000) ++ (be 4 (a % 1000000000) ++ [byte 255, byte 255]))).length = 15 := by
    simp [be_length]
  have e : timeF.enc a = encUint 15 ++ (byte 1 :: (be 8 (a / 1000000000) ++ (be 4 (a % 1000000000) ++ [byte 255, byte 255]))) := rfl
  have ht := takeN_append (byte 1 :: (be 8 (a / 1000000000) ++ (be 4 (a % 1000000000) ++ [byte 255, byte 255]))) r
  rw [hl] at ht
  unfold timeF
  simp only [List.append_assoc]
  rw [decUint_encUint (by omega), Option.bind_some]
  simp only [← List.append_assoc] at ht ⊢
  rw [ht]
  simp only [Option.bind_some, if_true, List.append_assoc]
  rw [ofBe_be, Option.bind_some, ofBe_be]
  unfold Spec.Time at h
  simp only [Option.map_some, Nat.zero_mul, Nat.zero_add]
  rw [Nat.mod_eq_of_lt (show a / 1000000000 < 256 ^ 8 by omega), Nat.mod_eq_of_lt (show a % 1000000000 < 256 ^ 4 by omega)]
  congr 2
  omega

theorem decList_enc {α} {F : Fmt α} {ok : α → Prop} (hF : Full F ok) (l : List α) (h : ∀ a ∈ l, ok a) (r : Str) :
    decList F l.length (l.flatMap F.enc ++ r) = some (l, r) := by
  induction l with
  | nil => rfl
  | cons a l ih =>
    show (F.dec F.zero (F.enc a ++ l.flatMap F.enc ++ r)).bind _ = _
    rw [List.append_assoc, hF.back' a (h a (by simp))]
    show (decList F l.length (l.flatMap F.enc ++ r)).map _ = _
    rw [ih fun x hx => h x (by simp [hx])]
    rfl

theorem slice_full {α} {F : Fmt α} {ok : α → Prop} {sz : Nat} (hs : 0 < sz) (hF : Full F ok) : Full (slice sz F) (Spec.Slice sz ok) := by
  refine .mk' (fun a _ h => by simpa [slice] using h) fun a h r => ?_
  have hl : a.length ≤ 2 ^ 33 := Nat.le_trans (Nat.le_mul_of_pos_right _ hs) h.1
  show (decUint (encUint a.length ++ a.flatMap F.enc ++ r)).bind _ = _
  rw [List.append_assoc, decUint_encUint (by omega)]
  show (if a.length * sz > tooBig then none else _) = _
  rw [if_neg (by have := h.1; unfold tooBig; omega)]
  exact decList_enc hF a h.2 r

theorem ptr_good {α} {F : Fmt α} {ok : α → Prop} (hF : Good F ok) : Good (ptr F) (fun o => ∀ a, o = some a → F.isZero a = false ∧ ok a) := by
  constructor
  · intro o h hz
    cases o with
    | none => rfl
    | some a => rw [show (ptr F).isZero (some a) = F.isZero a from rfl, (h a rfl).1] at hz; cases hz
  · intro o h hz r
    cases o with
    | none => cases hz
    | some a =>
      show (F.dec F.zero (F.enc a ++ r)).map _ = _
      rw [hF.back a (h a rfl).2 (h a rfl).1]
      rfl

theorem ptr_slice_good {α} {F : Fmt α} {ok : α → Prop} {sz : Nat} (hs : 0 < sz) (hF : Full F ok) :
    Good (ptr (slice sz F)) (Spec.SlicePtr sz ok) := by
  have h := ptr_good (slice_full hs hF).toGood
  have hw : ∀ o, Spec.SlicePtr sz ok o → ∀ a, o = some a → (slice sz F).isZero a = false ∧ Spec.Slice sz ok a := fun o ho a ha =>
    ⟨by
      have := (ho a ha).1
      cases a with
      | nil => exact absurd rfl this
      | cons _ _ => rfl, (ho a ha).2⟩
  exact ⟨fun a ha => h.zero_ a (hw a ha), fun a ha => h.back a (hw a ha)⟩

/-! ## Structures -/

/-- The fields from some field on are read back. -/
structure FGood {α} (G : Fields α) (ok : α → Prop) : Prop where
  done : ∀ s, G.dec G.zero 0 s = some (G.zero, s)
  back : ∀ a, ok a → ∀ g, 1 ≤ g → g + G.len < 2 ^ 64 → ∀ r, ∃ d s, decUint (G.enc g a ++ r) = some (d, s) ∧
    ((d = 0 ∧ s = r ∧ a = G.zero) ∨ (g ≤ d ∧ G.dec G.zero (d + 1 - g) s = some (a, r)))

theorem nil_good : FGood nil (fun _ => True) :=
  ⟨fun _ => rfl, fun _ _ _ _ _ r => ⟨0, r, decUint_encUint (n := 0) (by omega) r, .inl ⟨rfl, rfl, rfl⟩⟩⟩

theorem cons_good {α β} {F : Fmt β} {G : Fields α} {ok1 : β → Prop} {ok2 : α → Prop} (hF : Good F ok1) (hG : FGood G ok2) :
    FGood (cons F G) (fun x => ok1 x.1 ∧ ok2 x.2) := by
  constructor
  · intro s
    have e : (cons F G).dec (cons F G).zero 0 s = (G.dec G.zero 0 s).map fun w => ((F.zero, w.1), w.2) := rfl
    rw [e, hG.done]
    rfl
  · rintro ⟨a, b⟩ ⟨ha, hb⟩ g hg hl r
    have hl' : g + (G.len + 1) < 2 ^ 64 := hl
    cases hz : F.isZero a with
    | true =>
      have e : (cons F G).enc g (a, b) = G.enc (g + 1) b := if_pos hz
      rw [e]
      obtain ⟨d, s, h1, h2⟩ := hG.back b hb (g + 1) (by omega) (by omega) r
      refine ⟨d, s, h1, ?_⟩
      rcases h2 with ⟨rfl, rfl, rfl⟩ | ⟨h2, h3⟩
      · exact .inl ⟨rfl, rfl, by rw [hF.zero_ a ha hz]; rfl⟩
      · refine .inr ⟨by omega, ?_⟩
        show (if d + 1 - g = 1 then _ else (G.dec G.zero (d + 1 - g - 1) s).map _) = _
        rw [if_neg (by omega), show d + 1 - g - 1 = d + 1 - (g + 1) by omega, h3, hF.zero_ a ha hz]
        rfl
    | false =>
      have e : (cons F G).enc g (a, b) = encUint g ++ (F.enc a ++ G.enc 1 b) := if_neg (by rw [hz]; simp)
      rw [e]
      refine ⟨g, F.enc a ++ (G.enc 1 b ++ r), by rw [List.append_assoc, decUint_encUint (by omega), List.append_assoc],
        .inr ⟨Nat.le_refl _, ?_⟩⟩
      rw [show g + 1 - g = 1 by omega]
      have e : ∀ t, (cons F G).dec (cons F G).zero 1 t =
        (F.dec F.zero t).bind fun y => (decUint y.2).bind fun z => (G.dec G.zero z.1 z.2).map fun w => ((y.1, w.1), w.2) := fun _ => rfl
      rw [e, hF.back a ha hz]
      obtain ⟨d, s, h1, h2⟩ := hG.back b hb 1 (by omega) (by omega) r
      show (decUint (G.enc 1 b ++ r)).bind _ = _
      rw [h1]
      show (G.dec G.zero d s).map _ = _
      rcases h2 with ⟨rfl, rfl, rfl⟩ | ⟨_, h3⟩
      · rw [hG.done]; rfl
      · rw [show d + 1 - 1 = d by omega] at h3
        rw [h3]; rfl

theorem struct_full {α β} {G : Fields α} {ok : α → Prop} (hG : FGood G ok) (hlen : G.len < 1000) {to : β → α} {of : α → β}
    (h1 : ∀ b, of (to b) = b) (h2 : to (of G.zero) = G.zero) : Full (struct G to of) (fun b => ok (to b)) := by
  refine .mk' (fun _ _ h => by cases h) fun b hb r => ?_
  obtain ⟨d, s, h3, h4⟩ := hG.back (to b) hb 1 (by omega) (by omega) r
  show (decUint (G.enc 1 (to b) ++ r)).bind _ = _
  rw [h3]
  show (G.dec (to (of G.zero)) d s).map _ = _
  rw [h2]
  rcases h4 with ⟨rfl, rfl, h5⟩ | ⟨_, h5⟩
  · rw [hG.done]
    show some (of G.zero, s) = _
    rw [← h5, h1]
  · rw [show d + 1 - 1 = d by omega] at h5
    rw [h5]
    show some (of (to b), r) = _
    rw [h1]

theorem Full.mono {α} {F : Fmt α} {ok ok' : α → Prop} (h : Full F ok) (hi : ∀ a, ok' a → ok a) : Full F ok' :=
  .mk' (fun a ha => h.zero_ a (hi a ha)) fun a ha => h.back' a (hi a ha)

/-! ## Specification: the values that Go's types hold, on machines of 64 bits -/
namespace Spec
open Xml

/-- The times of a job. -/
structure Timing (t : Jobs.Timing) : Prop where
  queued : Time t.queued
  begin_ : Time t.begin_
  end_ : Time t.end_
/-- A job in a queue. -/
structure Job (j : JobEntry) : Prop where
  type : String j.type
  params : Slice 16 String j.params
  timing : Timing j.timing
/-- A finished job. -/
structure Finished (j : Record) : Prop where
  description : String j.description
  timing : Timing j.timing
  error : String j.error
/-- An entry of a repository. -/
structure RepoEntry (e : Gob.RepoEntry) : Prop where
  schema : String e.schema
  name : String e.name
  available : Slice 16 String e.available
  published : String e.published
  deltas : Slice 16 String e.deltas
/-- What a delta leads from and to. -/
structure DeltaInformation (d : Gob.DeltaInformation) : Prop where
  fromRelease : Int64 d.fromRelease
  fromID : String d.fromID
  toRelease : Int64 d.toRelease
  toID : String d.toID
/-- A delta found to be impossible. -/
structure DeltaSkip (d : DeltaSkipEntry) : Prop where
  schema : String d.schema
  name : String d.name
  delta : DeltaInformation d.delta
/-- A text with its language. -/
structure Text (t : Xml.Text) : Prop where
  value : String t.value
  lang : String t.lang
/-- A person. -/
structure Person (p : Xml.Person) : Prop where
  name : String p.name
  email : String p.email
/-- The source of a package. -/
structure Source (s : Xml.Source) : Prop where
  name : String s.name
  homepage : String s.homepage
  packager : Person s.packager
/-- A dependency. -/
structure Dependency (d : Xml.Dependency) : Prop where
  name : String d.name
  releaseFrom : Int64 d.releaseFrom
  releaseTo : Int64 d.releaseTo
  release : Int64 d.release
  versionFrom : String d.versionFrom
  versionTo : String d.versionTo
  version : String d.version
/-- An action. -/
structure Action (a : Xml.Action) : Prop where
  value : String a.value
  package : String a.package
/-- An entry of the history of a package. -/
structure History (u : Xml.History) : Prop where
  release : Int64 u.release
  type : String u.type
  date : String u.date
  version : String u.version
  comment : String u.comment
  name : String u.name
  email : String u.email
  requires : SlicePtr 32 Action u.requires
/-- A COMAR script. -/
structure Comar (c : Xml.Comar) : Prop where
  value : String c.value
  script : String c.script
/-- What a package provides. -/
structure Provides (p : Xml.Provides) : Prop where
  comar : Slice 32 Comar p.comar
  pkgConfig : Slice 16 String p.pkgConfig
  pkgConfig32 : Slice 16 String p.pkgConfig32
/-- A delta listed in the metadata of a package. -/
structure PkgDelta (d : Xml.PkgDelta) : Prop where
  releaseFrom : Int64 d.releaseFrom
  uri : String d.uri
  size : Int64 d.size
  hash : String d.hash
/-- The metadata of a package. -/
structure Package (p : Xml.Package) : Prop where
  name : String p.name
  summary : Slice 32 Text p.summary
  description : Slice 32 Text p.description
  isA : String p.isA
  partOf : String p.partOf
  license : Slice 16 String p.license
  dependencies : SlicePtr 88 Dependency p.dependencies
  conflicts : SlicePtr 16 String p.conflicts
  replaces : SlicePtr 16 String p.replaces
  provides : ∀ x, p.provides = some x → Provides x
  history : Slice 136 History p.history
  buildHost : String p.buildHost
  distribution : String p.distribution
  distributionRelease : String p.distributionRelease
  architecture : String p.architecture
  installedSize : Int64 p.installedSize
  size : Int64 p.size
  hash : String p.hash
  uri : String p.uri
  deltas : SlicePtr 48 PkgDelta p.deltas
  format : String p.format
  source : Source p.source
/-- An entry of the pool. -/
structure PoolEntry (e : Gob.PoolEntry) : Prop where
  schema : String e.schema
  name : String e.name
  refCount : Uint64 e.refCount
  pkg : ∀ p, e.pkg = some p → Package p
  delta : ∀ d, e.delta = some d → DeltaInformation d

end Spec

/-! ## Every stored type -/

theorem timingF_full : Full timingF Spec.Timing :=
  (struct_full (cons_good timeF_full.toGood (cons_good timeF_full.toGood (cons_good timeF_full.toGood nil_good))) (by decide)
    (fun _ => rfl) rfl).mono fun _ h => ⟨h.queued, h.begin_, h.end_, trivial⟩

theorem jobF_full : Full jobF Spec.Job :=
  (struct_full (cons_good strF_full.toGood (cons_good boolF_full.toGood (cons_good (slice_full (by decide) strF_full).toGood
    (cons_good timingF_full.toGood nil_good)))) (by decide) (fun _ => rfl) rfl).mono
    fun _ h => ⟨h.type, trivial, h.params, h.timing, trivial⟩

theorem recordF_full : Full recordF Spec.Finished :=
  (struct_full (cons_good strF_full.toGood (cons_good timingF_full.toGood (cons_good boolF_full.toGood
    (cons_good strF_full.toGood nil_good)))) (by decide) (fun _ => rfl) rfl).mono
    fun _ h => ⟨h.description, h.timing, trivial, h.error, trivial⟩

theorem indexF_full : Full indexF Spec.Uint64 :=
  (struct_full (cons_good uintF_full.toGood nil_good) (by decide) (fun _ => rfl) rfl).mono fun _ h => ⟨h, trivial⟩

theorem repositoryF_full : Full repositoryF Spec.String :=
  (struct_full (cons_good strF_full.toGood nil_good) (by decide) (fun _ => rfl) rfl).mono fun _ h => ⟨h, trivial⟩

theorem wrapF_full : Full wrapF Spec.String :=
  (struct_full (cons_good strF_full.toGood nil_good) (by decide) (fun _ => rfl) rfl).mono fun _ h => ⟨h, trivial⟩

theorem repoEntryF_full : Full repoEntryF Spec.RepoEntry :=
  (struct_full (cons_good strF_full.toGood (cons_good strF_full.toGood (cons_good (slice_full (by decide) strF_full).toGood
    (cons_good strF_full.toGood (cons_good (slice_full (by decide) strF_full).toGood nil_good))))) (by decide) (fun _ => rfl) rfl).mono
    fun _ h => ⟨h.schema, h.name, h.available, h.published, h.deltas, trivial⟩

theorem deltaInformationF_full : Full deltaInformationF Spec.DeltaInformation :=
  (struct_full (cons_good intF_full.toGood (cons_good strF_full.toGood (cons_good intF_full.toGood
    (cons_good strF_full.toGood nil_good)))) (by decide) (fun _ => rfl) rfl).mono
    fun _ h => ⟨h.fromRelease, h.fromID, h.toRelease, h.toID, trivial⟩

theorem deltaSkipF_full : Full deltaSkipF Spec.DeltaSkip :=
  (struct_full (cons_good strF_full.toGood (cons_good strF_full.toGood (cons_good deltaInformationF_full.toGood nil_good)))
    (by decide) (fun _ => rfl) rfl).mono fun _ h => ⟨h.schema, h.name, h.delta, trivial⟩

theorem textF_full : Full textF Spec.Text :=
  (struct_full (cons_good strF_full.toGood (cons_good strF_full.toGood nil_good)) (by decide) (fun _ => rfl) rfl).mono
    fun _ h => ⟨h.value, h.lang, trivial⟩
theorem personF_full : Full personF Spec.Person :=
  (struct_full (cons_good strF_full.toGood (cons_good strF_full.toGood nil_good)) (by decide) (fun _ => rfl) rfl).mono
    fun _ h => ⟨h.name, h.email, trivial⟩
theorem actionF_full : Full actionF Spec.Action :=
  (struct_full (cons_good strF_full.toGood (cons_good strF_full.toGood nil_good)) (by decide) (fun _ => rfl) rfl).mono
    fun _ h => ⟨h.value, h.package, trivial⟩
theorem comarF_full : Full comarF Spec.Comar :=
  (struct_full (cons_good strF_full.toGood (cons_good strF_full.toGood nil_good)) (by decide) (fun _ => rfl) rfl).mono
    fun _ h => ⟨h.value, h.script, trivial⟩
theorem sourceF_full : Full sourceF Spec.Source :=
  (struct_full (cons_good strF_full.toGood (cons_good strF_full.toGood (cons_good personF_full.toGood nil_good))) (by decide)
    (fun _ => rfl) rfl).mono fun _ h => ⟨h.name, h.homepage, h.packager, trivial⟩

theorem dependencyF_full : Full dependencyF Spec.Dependency :=
  (struct_full (cons_good strF_full.toGood (cons_good intF_full.toGood (cons_good intF_full.toGood (cons_good intF_full.toGood
    (cons_good strF_full.toGood (cons_good strF_full.toGood (cons_good strF_full.toGood nil_good))))))) (by decide)
    (fun _ => rfl) rfl).mono
    fun _ h => ⟨h.name, h.releaseFrom, h.releaseTo, h.release, h.versionFrom, h.versionTo, h.version, trivial⟩

theorem historyF_full : Full historyF Spec.History :=
  (struct_full (cons_good intF_full.toGood (cons_good strF_full.toGood (cons_good strF_full.toGood (cons_good strF_full.toGood
    (cons_good wrapF_full.toGood (cons_good wrapF_full.toGood (cons_good strF_full.toGood
    (cons_good (ptr_slice_good (by decide) actionF_full) nil_good)))))))) (by decide) (fun _ => rfl) rfl).mono
    fun _ h => ⟨h.release, h.type, h.date, h.version, h.comment, h.name, h.email, h.requires, trivial⟩

theorem providesF_full : Full providesF Spec.Provides :=
  (struct_full (cons_good (slice_full (by decide) comarF_full).toGood (cons_good (slice_full (by decide) strF_full).toGood
    (cons_good (slice_full (by decide) strF_full).toGood nil_good))) (by decide) (fun _ => rfl) rfl).mono
    fun _ h => ⟨h.comar, h.pkgConfig, h.pkgConfig32, trivial⟩

theorem pkgDeltaF_full : Full pkgDeltaF Spec.PkgDelta :=
  (struct_full (cons_good intF_full.toGood (cons_good strF_full.toGood (cons_good intF_full.toGood
    (cons_good strF_full.toGood nil_good)))) (by decide) (fun _ => rfl) rfl).mono
    fun _ h => ⟨h.releaseFrom, h.uri, h.size, h.hash, trivial⟩

theorem packageF_full : Full packageF Spec.Package :=
  (struct_full (cons_good strF_full.toGood (cons_good (slice_full (by decide) textF_full).toGood
    (cons_good (slice_full (by decide) textF_full).toGood (cons_good strF_full.toGood (cons_good strF_full.toGood
    (cons_good (slice_full (by decide) strF_full).toGood (cons_good (ptr_slice_good (by decide) dependencyF_full)
    (cons_good (ptr_slice_good (by decide) strF_full) (cons_good (ptr_slice_good (by decide) strF_full)
    (cons_good (ptr_good providesF_full.toGood) (cons_good (slice_full (by decide) historyF_full).toGood
    (cons_good strF_full.toGood (cons_good strF_full.toGood (cons_good strF_full.toGood (cons_good strF_full.toGood
    (cons_good intF_full.toGood (cons_good intF_full.toGood (cons_good strF_full.toGood (cons_good strF_full.toGood
    (cons_good (ptr_slice_good (by decide) pkgDeltaF_full) (cons_good strF_full.toGood (cons_good sourceF_full.toGood
    nil_good)))))))))))))))))))))) (by decide) (fun _ => rfl) rfl).mono
    fun _ h => ⟨h.name, h.summary, h.description, h.isA, h.partOf, h.license, h.dependencies, h.conflicts, h.replaces,
      fun x hx => ⟨rfl, h.provides x hx⟩, h.history, h.buildHost, h.distribution, h.distributionRelease, h.architecture,
      h.installedSize, h.size, h.hash, h.uri, h.deltas, h.format, h.source, trivial⟩

theorem poolEntryF_full : Full poolEntryF Spec.PoolEntry :=
  (struct_full (cons_good strF_full.toGood (cons_good strF_full.toGood (cons_good uintF_full.toGood
    (cons_good (ptr_good packageF_full.toGood) (cons_good (ptr_good deltaInformationF_full.toGood) nil_good))))) (by decide)
    (fun _ => rfl) rfl).mono
    fun _ h => ⟨h.schema, h.name, h.refCount, fun x hx => ⟨rfl, h.pkg x hx⟩, fun x hx => ⟨rfl, h.delta x hx⟩, trivial⟩

/-! ## Streams -/

/-- The definitions of a type are messages of type definitions: each begins with a negative number and is not too big; the number
of the type fits. -/
structure Spec.Defines (H : Header) : Prop where
  defs : ∀ c ∈ H.defs, c.length < 2 ^ 33 ∧ ∃ k t, 0 < k ∧ k < 2 ^ 63 ∧ c = encInt (-k) ++ t
  id : H.id < 2 ^ 63

theorem decodeN_value {α} {F : Fmt α} {ok : α → Prop} (hF : Full F ok) {a : α} (ha : ok a) {H : Header} (hid : H.id < 2 ^ 63)
    (hl : ¬ (encInt H.id ++ F.enc a).length ≥ tooBig) {n : Nat} :
    decodeN F F.zero (n + 1) (message (encInt H.id ++ F.enc a)) = some a := by
  have hl' : (encInt H.id ++ F.enc a).length < 2 ^ 33 := by unfold tooBig at hl; omega
  unfold message decodeN
  rw [decUint_encUint (by omega), Option.bind_some, if_neg hl]
  have ht := takeN_append (encInt H.id ++ F.enc a) []
  rw [List.append_nil] at ht
  rw [ht, Option.bind_some, decInt_encInt ⟨by omega, by omega⟩, Option.bind_some, if_neg (by omega)]
  have := hF.back' a ha []
  rw [List.append_nil] at this
  rw [this]
  rfl

theorem decodeN_defs {α} {F : Fmt α} (a : α) (ds : List Str)
    (h : ∀ c ∈ ds, c.length < 2 ^ 33 ∧ ∃ k t, 0 < k ∧ k < 2 ^ 63 ∧ c = encInt (-k) ++ t) (n : Nat) (s : Str) :
    decodeN F a (n + ds.length) (ds.flatMap message ++ s) = decodeN F a n s := by
  induction ds with
  | nil => rfl
  | cons c ds ih =>
    obtain ⟨hc, k, t, hk, hk', rfl⟩ := h c (by simp)
    show decodeN F a (n + ds.length + 1) (message (encInt (-k) ++ t) ++ ds.flatMap message ++ s) = _
    unfold message
    conv => lhs; unfold decodeN
    rw [List.append_assoc, List.append_assoc, decUint_encUint (by omega), Option.bind_some, if_neg (by unfold tooBig; omega),
      takeN_append, Option.bind_some, decInt_encInt ⟨by omega, by omega⟩, Option.bind_some, if_pos (by omega)]
    exact ih fun x hx => h x (by simp [hx])

theorem message_pos (c : Str) : 1 ≤ (message c).length := by
  unfold message encUint
  split <;> simp

theorem flatMap_message_length (ds : List Str) : ds.length ≤ (ds.flatMap message).length := by
  induction ds with
  | nil => simp
  | cons c ds ih =>
    have := message_pos c
    simp only [List.flatMap_cons, List.length_append, List.length_cons]
    omega

theorem decode_encode {α} {F : Fmt α} {ok : α → Prop} (hF : Full F ok) {a : α} (ha : ok a) {H : Header} (hH : Spec.Defines H) {b : Str}
    (he : encode H F a = some b) : decode F F.zero b = some a := by
  unfold encode at he
  dsimp only at he
  split at he
  · cases he
  · next hl =>
    obtain rfl := Option.some.inj he
    unfold decode
    have h1 := message_pos (encInt H.id ++ F.enc a)
    have h2 := flatMap_message_length H.defs
    obtain ⟨n, hn⟩ : ∃ n, (H.defs.flatMap message ++ message (encInt H.id ++ F.enc a)).length = n + 1 + H.defs.length :=
      ⟨(H.defs.flatMap message ++ message (encInt H.id ++ F.enc a)).length - 1 - H.defs.length, by rw [List.length_append]; omega⟩
    rw [hn, decodeN_defs _ _ hH.defs, decodeN_value hF ha hH.id hl]

/-! ## C157 -/

/-- C157: a job put into a queue is read back as it was: into a fresh `JobEntry`. -/
theorem C157_jobs {H : Header} (hH : Spec.Defines H) {j : JobEntry} (hj : Spec.Job j) {b : Str} (h : encode H jobF j = some b) :
    decode jobF ⟨[], false, [], ⟨0, 0, 0⟩⟩ b = some j := decode_encode jobF_full hj hH h

/-- C157: so is an entry of the history of jobs, -/
theorem C157_finished {H : Header} (hH : Spec.Defines H) {j : Record} (hj : Spec.Finished j) {b : Str}
    (h : encode H recordF j = some b) : decode recordF ⟨[], ⟨0, 0, 0⟩, false, []⟩ b = some j := decode_encode recordF_full hj hH h

/-- C157: and the place in the history where the next one goes, -/
theorem C157_index {H : Header} (hH : Spec.Defines H) {n : Nat} (hn : n < 2 ^ 64) {b : Str} (h : encode H indexF n = some b) :
    decode indexF 0 b = some n := decode_encode indexF_full hn hH h

/-- C157: and the name of a repository, -/
theorem C157_repository {H : Header} (hH : Spec.Defines H) {r : Str} (hr : Spec.String r) {b : Str} (h : encode H repositoryF r = some b) :
    decode repositoryF [] b = some r := decode_encode repositoryF_full hr hH h

/-- C157: and what a repository holds under a name, -/
theorem C157_entry {H : Header} (hH : Spec.Defines H) {e : RepoEntry} (he : Spec.RepoEntry e) {b : Str} (h : encode H repoEntryF e = some b) :
    decode repoEntryF ⟨[], [], [], [], []⟩ b = some e := decode_encode repoEntryF_full he hH h

/-- C157: and a delta found impossible, -/
theorem C157_skip {H : Header} (hH : Spec.Defines H) {e : DeltaSkipEntry} (he : Spec.DeltaSkip e) {b : Str}
    (h : encode H deltaSkipF e = some b) : decode deltaSkipF ⟨[], [], ⟨0, [], 0, []⟩⟩ b = some e := decode_encode deltaSkipF_full he hH h

/-- C157: and an entry of the pool, with every field of the package's metadata. -/
theorem C157_pool {H : Header} (hH : Spec.Defines H) {e : PoolEntry} (he : Spec.PoolEntry e) {b : Str}
    (h : encode H poolEntryF e = some b) : decode poolEntryF ⟨[], [], 0, none, none⟩ b = some e := decode_encode poolEntryF_full he hH h

/-- C157: a value is refused only if its encoding, without the definitions of types, has 8 GiB or more. -/
theorem C157_refused {α} (H : Header) (F : Fmt α) (a : α) : encode H F a = none ↔ 2 ^ 33 ≤ (encInt H.id ++ F.enc a).length := by
  unfold encode
  dsimp only
  split
  · next h => simp only [true_iff]; exact h
  · next h => simp only [reduceCtorEq, false_iff]; exact h

/-! ## Concrete cases -/

/-- Definitions as Go writes them: the one message that defines `IndexRecord`. (No code: for the examples.) -/
def Demo.header : Header where
  defs := [encInt (-65) ++ [byte 3, byte 1, byte 1, byte 11] ++ n!"IndexRecord" ++
    [byte 1, byte 255, byte 130, byte 0, byte 1, byte 1, byte 1, byte 5] ++ n!"Index" ++ [byte 1, byte 6, byte 0, byte 0, byte 0]]
  id := 65

theorem Demo.header_ok : Spec.Defines Demo.header :=
  ⟨fun c hc => by
    obtain rfl : c = _ := by simpa [Demo.header] using hc
    exact ⟨by decide +kernel, 65, _, by omega, by omega, rfl⟩, by decide⟩

/-- A concrete case: the third place of the history, byte for byte. -/
example : encode Demo.header indexF 3 = some ([byte 35] ++ Demo.header.defs.flatten ++ [byte 5, byte 255, byte 130, byte 1, byte 3, byte 0]) := by
  decide +kernel
/-- A concrete case: a job with parameters; the field that says it is not claimed is left out, and so is an empty time. -/
example : Spec.Job ⟨n!"BulkAdd", false, [n!"unstable", []], ⟨5000000007, 0, 0⟩⟩ ∧
    (encode Demo.header jobF ⟨n!"BulkAdd", false, [n!"unstable", []], ⟨5000000007, 0, 0⟩⟩).map (fun b => (b.drop 36).map Char.toNat) =
      some [43, 255, 130, 1, 7, 66, 117, 108, 107, 65, 100, 100, 2, 2, 8, 117, 110, 115, 116, 97, 98, 108, 101, 0,
        1, 1, 15, 1, 0, 0, 0, 0, 0, 0, 0, 5, 0, 0, 0, 7, 255, 255, 0, 0] := by
  refine ⟨⟨?_, ⟨?_, ?_⟩, ?_, ?_, ?_⟩, by decide +kernel⟩
  · show _ < _; decide
  · decide
  · show ∀ a ∈ [n!"unstable", []], a.length < 2 ^ 63; decide
  · show _ < _; decide
  · show _ < _; decide
  · show _ < _; decide
/-- Why it matters that the variable is fresh: a zero is not written, so a variable keeps what it holds. -/
example : (encode Demo.header indexF 0).bind (decode indexF 7) = some 7 := by decide +kernel

end Ferryd.Gob
