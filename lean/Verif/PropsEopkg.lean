import Verif.Eopkg
import Verif.PropsCore3
import Verif.Demo
/-!
# PropsEopkg: what reading a package, an asset file, and purging the cache guarantee (C101–C107)
-/
namespace Ferryd.Eopkg
open Ferryd.Spec

/-! ## Specification -/

/-- `v'` is `v` without the blanks around it. -/
structure Trimmed (v v' : Str) : Prop where
  cut : ∃ a b, v = a ++ v' ++ b ∧ (∀ c ∈ a, White c) ∧ (∀ c ∈ b, White c)
  front : ∀ c, v'.head? = some c → ¬ White c
  back : ∀ c, v'.getLast? = some c → ¬ White c

/-- The texts have their languages: as before, but the first is English if it had none. -/
structure Languages (l l' : List Field) : Prop where
  some_ : l ≠ []
  len : l'.length = l.length
  lang : ∀ (i : Nat) f f', l[i]? = some f → l'[i]? = some f' →
    f'.lang = if i = 0 ∧ f.lang = [] then ['e', 'n'] else f.lang

/-- The texts `l'` are the texts `l` made ready: trimmed, with languages. -/
structure Ready (l l' : List Field) : Prop extends Languages l l' where
  text : ∀ (i : Nat) f f', l[i]? = some f → l'[i]? = some f' → Trimmed f.value f'.value

/-- The same texts, with languages. -/
structure Filled (l l' : List Field) : Prop extends Languages l l' where
  text : l'.map Field.value = l.map Field.value

/-- The first member of this name. -/
def First (z : List Member) (name : Str) (m : Member) : Prop :=
  ∃ a b, z = a ++ m :: b ∧ m.name = name ∧ ∀ x ∈ a, x.name ≠ name

/-- `s` is an octal numeral of `n` (leading zeros allowed). -/
def Octal (s : Str) (n : Nat) : Prop :=
  s ≠ [] ∧ (∀ c ∈ s, '0' ≤ c ∧ c ≤ '7') ∧ n = s.foldl (fun n c => n * 8 + (c.toNat - '0'.toNat)) 0

/-! ## Lemmas -/

theorem findFile_first {z : List Member} {n : Str} {m : Member} (h : findFile z n = some m) : First z n m := by
  unfold findFile at h
  induction z with
  | nil => simp at h
  | cons x xs ih =>
    rw [List.find?_cons] at h
    by_cases hx : x.name = n
    · simp [hx] at h; subst h
      exact ⟨[], xs, rfl, hx, by simp⟩
    · simp [hx] at h
      obtain ⟨a, b, hz, hn, ha⟩ := ih (by simpa using h)
      refine ⟨x :: a, b, by rw [hz]; rfl, hn, ?_⟩
      intro y hy
      rcases List.mem_cons.1 hy with rfl | hy
      · exact hx
      · exact ha y hy

theorem first_findFile {z : List Member} {n : Str} {m : Member} (h : First z n m) : findFile z n = some m := by
  obtain ⟨a, b, rfl, hn, ha⟩ := h
  unfold findFile
  induction a with
  | nil => simp [hn]
  | cons x xs ih =>
    rw [List.cons_append, List.find?_cons]
    have hx := ha x (by simp)
    simp only [hx, decide_false]
    exact ih (fun y hy => ha y (List.mem_cons_of_mem _ hy))

theorem findFile_none {z : List Member} {n : Str} (h : findFile z n = none) : ∀ m, ¬ First z n m := by
  intro m hm; rw [first_findFile hm] at h; cases h

theorem takeWhile_all (p : α → Bool) (l : List α) : ∀ c ∈ l.takeWhile p, p c = true := by
  induction l with
  | nil => simp
  | cons x xs ih =>
    intro c hc
    rw [List.takeWhile_cons] at hc
    split at hc
    · rcases List.mem_cons.1 hc with rfl | hc
      · assumption
      · exact ih c hc
    · simp at hc

theorem dropWhile_head (p : α → Bool) (l : List α) (c : α) (h : (l.dropWhile p).head? = some c) : p c = false := by
  induction l with
  | nil => simp at h
  | cons x xs ih =>
    rw [List.dropWhile_cons] at h
    split at h
    · exact ih h
    · rename_i hx; simp at h; subst h; simpa using hx

theorem white_iff (c : Char) : White c ↔ isSpace c = true := by
  unfold White isSpace
  generalize c.toNat = n
  simp only [List.mem_cons, List.not_mem_nil, or_false, Bool.or_eq_true, Bool.and_eq_true, decide_eq_true_eq, beq_iff_eq]
  omega

theorem trimmed (v : Str) : Trimmed v (trimSpace v) := by
  have e1 := List.takeWhile_append_dropWhile (p := isSpace) (l := v)
  generalize hw : v.dropWhile isSpace = w at e1
  have e2 := List.takeWhile_append_dropWhile (p := isSpace) (l := w.reverse)
  have hts : trimSpace v = (w.reverse.dropWhile isSpace).reverse := by unfold trimSpace; rw [hw]
  have e3 : w = trimSpace v ++ (w.reverse.takeWhile isSpace).reverse := by
    rw [hts, ← List.reverse_append, e2, List.reverse_reverse]
  refine ⟨⟨v.takeWhile isSpace, (w.reverse.takeWhile isSpace).reverse, ?_, fun c hc => (white_iff c).2 (takeWhile_all _ _ c hc), ?_⟩, ?_, ?_⟩
  · rw [List.append_assoc, ← e3, e1]
  · intro c hc; exact (white_iff c).2 (takeWhile_all _ _ c (List.mem_reverse.1 hc))
  · intro c hc
    rw [white_iff, Bool.not_eq_true]
    have : w.head? = some c := by
      rw [e3]
      cases hx : trimSpace v with
      | nil => rw [hx] at hc; simp at hc
      | cons y ys => rw [hx] at hc; simpa using hc
    exact dropWhile_head isSpace v c (by rw [hw]; exact this)
  · intro c hc
    rw [white_iff, Bool.not_eq_true]
    rw [hts, List.getLast?_reverse] at hc
    exact dropWhile_head _ _ c hc

theorem fixMissing_none {l : List Field} : fixMissing l = none ↔ l = [] := by
  cases l <;> simp [fixMissing]

theorem fixMissing_languages {l l' : List Field} (h : fixMissing l = some l') :
    Languages l l' ∧ l'.map Field.value = l.map Field.value := by
  cases l with
  | nil => simp [fixMissing] at h
  | cons f fs =>
    simp only [fixMissing, Option.some.injEq] at h
    subst h
    refine ⟨⟨by simp, by simp, ?_⟩, ?_⟩
    · intro i g g' h1 h2
      cases i with
      | zero =>
        simp only [List.getElem?_cons_zero, Option.some.injEq] at h1 h2
        subst h1; subst h2
        by_cases he : f.lang = [] <;> simp [he]
      | succ i =>
        simp only [List.getElem?_cons_succ] at h1 h2
        rw [h1] at h2; cases h2; simp
    · simp only [List.map_cons]; split <;> rfl

theorem ready_of {l l' : List Field} (h : fixMissing (trimAll l) = some l') : Ready l l' := by
  obtain ⟨hl, hv⟩ := fixMissing_languages h
  have hlen : (trimAll l).length = l.length := by simp [trimAll]
  refine ⟨⟨?_, by rw [hl.len, hlen], ?_⟩, ?_⟩
  · rintro rfl; simp [trimAll, fixMissing] at h
  · intro i f f' h1 h2
    have := hl.lang i { f with value := trimSpace f.value } f' (by simp [trimAll, h1]) h2
    simpa using this
  · intro i f f' h1 h2
    have e : (l'.map Field.value)[i]? = ((trimAll l).map Field.value)[i]? := by rw [hv]
    simp only [trimAll, List.getElem?_map, h1, h2, Option.map_some, Option.some.injEq] at e
    rw [e]; exact trimmed _

section Props
variable {D : Dec}

/-- Which way a reading of the metadata went. -/
theorem readMetadata_cases (p : Package) (hp : p.info = none) :
    (readMetadata D p = (.corrupted, p) ∧ ∀ m, ¬ First p.zip metadataXml m) ∨
    (∃ m, First p.zip metadataXml m ∧ m.data.bind D.info = none ∧ readMetadata D p = (.failed, p)) ∨
    (∃ m d md, First p.zip metadataXml m ∧ m.data = some d ∧ D.info d = some md ∧
      ((md.summary = [] ∨ md.description = []) ∧ (readMetadata D p).1 = .panic ∨
        ∃ su de, fixMissing (trimAll md.summary) = some su ∧ fixMissing (trimAll md.description) = some de ∧
          readMetadata D p = (.ok, { p with info := some { md with summary := su, description := de } }))) := by
  unfold readMetadata
  rw [hp]
  simp only [Option.isSome_none, Bool.false_eq_true, if_false]
  cases hf : findFile p.zip metadataXml with
  | none => exact .inl ⟨rfl, findFile_none hf⟩
  | some m =>
    simp only
    cases hb : m.data.bind D.info with
    | none => exact .inr (.inl ⟨m, findFile_first hf, hb, rfl⟩)
    | some md =>
      obtain ⟨d, hd, hi⟩ := Option.bind_eq_some_iff.1 hb
      refine .inr (.inr ⟨m, d, md, findFile_first hf, hd, hi, ?_⟩)
      simp only
      cases hs : fixMissing (trimAll md.summary) with
      | none =>
        have := fixMissing_none.1 hs
        exact .inl ⟨.inl (by simpa [trimAll] using this), rfl⟩
      | some su =>
        simp only
        cases hde : fixMissing (trimAll md.description) with
        | none =>
          have := fixMissing_none.1 hde
          exact .inl ⟨.inr (by simpa [trimAll] using this), rfl⟩
        | some de => exact .inr ⟨su, de, rfl, rfl, rfl⟩

theorem readMetadata_cached {p : Package} (hp : p.info.isSome = true) : readMetadata D p = (.ok, p) := by
  unfold readMetadata; rw [if_pos hp]

/-! ## C101: what is read is what the package says -/

/-- C101: when reading succeeds the metadata are those of the first member called metadata.xml, with the summary and
description texts trimmed and their languages completed, and nothing else of the package has changed. -/
theorem C101_read {c : Content} {p p' : Package} (ho : open_ D c = some p) (hr : readMetadata D p = (.ok, p')) :
    ∃ m d md md', First p.zip metadataXml m ∧ m.data = some d ∧ D.info d = some md ∧ p'.info = some md' ∧
      md'.rest = md.rest ∧ Ready md.summary md'.summary ∧ Ready md.description md'.description ∧
      p'.zip = p.zip ∧ p'.files = p.files := by
  have hp : p.info = none := by
    unfold open_ at ho
    obtain ⟨z, _, rfl⟩ := Option.map_eq_some_iff.1 ho
    rfl
  rcases readMetadata_cases (D := D) p hp with ⟨h, _⟩ | ⟨m, _, _, h⟩ | ⟨m, d, md, h1, h2, h3, ⟨_, h4⟩ | ⟨su, de, h5, h6, h7⟩⟩
  · rw [h] at hr; cases hr
  · rw [h] at hr; cases hr
  · rw [hr] at h4; cases h4
  · rw [h7] at hr; cases hr
    exact ⟨m, d, md, _, h1, h2, h3, rfl, rfl, ready_of h5, ready_of h6, rfl, rfl⟩

/-- C101: a reading that reports an error leaves the package as it was; so does one after a success. -/
theorem C101_unchanged (p : Package) :
    ((readMetadata D p).1 = .corrupted ∨ (readMetadata D p).1 = .failed → (readMetadata D p).2 = p) ∧
    (∀ p', readMetadata D p = (.ok, p') → readMetadata D p' = (.ok, p')) := by
  by_cases hp : p.info.isSome = true
  · rw [readMetadata_cached hp]
    refine ⟨by simp, ?_⟩
    intro p' h; cases h; exact readMetadata_cached hp
  · have hp' : p.info = none := by simpa using hp
    rcases readMetadata_cases (D := D) p hp' with ⟨h, _⟩ | ⟨m, _, _, h⟩ | ⟨m, d, md, h1, h2, h3, ⟨_, h4⟩ | ⟨su, de, h5, h6, h7⟩⟩
    · rw [h]; exact ⟨fun _ => rfl, fun p' h => by cases h⟩
    · rw [h]; exact ⟨fun _ => rfl, fun p' h => by cases h⟩
    · refine ⟨?_, ?_⟩
      · rintro (h | h) <;> rw [h4] at h <;> cases h
      · intro p' h; rw [h] at h4; cases h4
    · rw [h7]
      refine ⟨by simp, ?_⟩
      intro p' h; cases h
      exact readMetadata_cached rfl

/-! ## C103: file records and modes -/

theorem char_octal {c : Char} : ('0' ≤ c ∧ c ≤ '7') ↔ ¬ (c.toNat < 48 ∨ 7 < c.toNat - 48) := by
  have h1 : ('0' ≤ c) ↔ 48 ≤ c.toNat := by
    show (48 : UInt32) ≤ c.val ↔ _
    rw [UInt32.le_iff_toNat_le]; rfl
  have h2 : (c ≤ '7') ↔ c.toNat ≤ 55 := by
    show c.val ≤ (55 : UInt32) ↔ _
    rw [UInt32.le_iff_toNat_le]; rfl
  rw [h1, h2]; omega

theorem foldl_ge (s : Str) : ∀ n : Nat, n ≤ s.foldl (fun n c => n * 8 + (c.toNat - '0'.toNat)) n := by
  induction s with
  | nil => intro n; exact Nat.le_refl _
  | cons c cs ih =>
    intro n
    have := ih (n * 8 + (c.toNat - '0'.toNat))
    rw [List.foldl_cons]; omega

theorem parseOctal_iff (s : Str) : ∀ (n k : Nat), n < 2 ^ 32 → (parseOctal s n = some k ↔
    (∀ c ∈ s, '0' ≤ c ∧ c ≤ '7') ∧ k = s.foldl (fun n c => n * 8 + (c.toNat - '0'.toNat)) n ∧ k < 2 ^ 32) := by
  induction s with
  | nil =>
    intro n k hn
    simp only [parseOctal, Option.some.injEq, List.foldl_nil]
    constructor
    · rintro rfl; exact ⟨by simp, rfl, hn⟩
    · rintro ⟨_, h, _⟩; exact h.symm
  | cons c cs ih =>
    intro n k hn
    unfold parseOctal
    by_cases hc : c.toNat < 48 ∨ 7 < c.toNat - 48
    · simp only [hc, if_true]
      constructor
      · intro h; cases h
      · rintro ⟨h, _⟩
        exact absurd hc (char_octal.1 (h c (by simp)))
    · simp only [hc, if_false]
      have hcc := char_octal.2 hc
      have e48 : '0'.toNat = 48 := rfl
      by_cases hb : 2 ^ 32 ≤ n * 8 + (c.toNat - 48)
      · simp only [hb, if_true]
        constructor
        · intro h; cases h
        · rintro ⟨_, h, hk⟩
          have := foldl_ge cs (n * 8 + (c.toNat - '0'.toNat))
          rw [List.foldl_cons] at h
          omega
      · simp only [hb, if_false]
        rw [ih _ k (by omega), List.foldl_cons, e48]
        constructor
        · rintro ⟨h, h1, hk⟩
          refine ⟨?_, h1, hk⟩
          intro x hx
          rcases List.mem_cons.1 hx with rfl | hx
          · exact hcc
          · exact h x hx
        · rintro ⟨h, h1, hk⟩; exact ⟨fun x hx => h x (List.mem_cons_of_mem _ hx), h1, hk⟩

theorem initFileMode_iff (f f' : File) : initFileMode f = some f' ↔
    ∃ n, Octal f.mode n ∧ n < 2 ^ 32 ∧ f' = { f with bits := n } := by
  unfold initFileMode
  by_cases he : f.mode = []
  · simp only [he, if_true]
    constructor
    · intro h; cases h
    · rintro ⟨n, h, _⟩; exact absurd rfl h.1
  · simp only [he, if_false, Option.map_eq_some_iff]
    constructor
    · rintro ⟨n, h, rfl⟩
      obtain ⟨h1, h2, h3⟩ := (parseOctal_iff _ 0 n (by omega)).1 h
      exact ⟨n, ⟨he, h1, h2⟩, h3, rfl⟩
    · rintro ⟨n, ⟨_, h1, h2⟩, h3, rfl⟩
      exact ⟨n, (parseOctal_iff _ 0 n (by omega)).2 ⟨h1, h2, h3⟩, rfl⟩

/-- Two lists of files correspond: the same paths, hashes and mode texts, and every mode is the number its text denotes. -/
def Moded : List File → List File → Prop
  | [], [] => True
  | f :: fs, f' :: fs' => (∃ n, Octal f.mode n ∧ n < 2 ^ 32 ∧ f' = { f with bits := n }) ∧ Moded fs fs'
  | _, _ => False

theorem initModes_iff (fs fs' : List File) : initModes fs = some fs' ↔ Moded fs fs' := by
  induction fs generalizing fs' with
  | nil => cases fs' <;> simp [initModes, Moded]
  | cons f fs ih =>
    unfold initModes
    cases hf : initFileMode f with
    | none =>
      simp only
      constructor
      · intro h; cases h
      · intro h
        cases fs' with
        | nil => exact h.elim
        | cons f' fs' => rw [(initFileMode_iff f f').2 h.1] at hf; cases hf
    | some g =>
      simp only [Option.map_eq_some_iff]
      constructor
      · rintro ⟨l, hl, rfl⟩
        exact ⟨(initFileMode_iff f g).1 hf, (ih l).1 hl⟩
      · intro h
        cases fs' with
        | nil => exact h.elim
        | cons f' fs' =>
          have := (initFileMode_iff f f').2 h.1
          rw [this] at hf; cases hf
          exact ⟨fs', (ih fs').2 h.2, rfl⟩

/-- The mode of a file of a Unix system: permission, set-uid, set-gid and sticky bits. -/
structure ModeOf (n : Nat) (f : File) : Prop where
  perm : f.perm = n % 512
  setuid : f.setuid = n.testBit 11
  setgid : f.setgid = n.testBit 10
  sticky : f.sticky = n.testBit 9

/-- C103 as a statement: the files are read exactly if every mode is an octal number of 32 bits, and then each file has
the mode its record denotes. -/
def C103_statement : Prop := ∀ (D : Dec) (c : Content) (p p' : Package), open_ D c = some p → readFiles D p = (.ok, p') →
  ∀ fs', p'.files = some fs' → ∀ f ∈ fs', ∃ n, Octal f.mode n ∧ ModeOf n f

/-- C103, what holds: the file list of a package is read exactly if the first member called files.xml decodes and every
file in it has an octal mode of at most 32 bits; then it is that list, in its order, each file with the number of its mode, and so
with the right permission bits.  (Missing: set-uid, set-gid and sticky bits, see `C103_violated`.) -/
theorem C103_files_partial {c : Content} {p p' : Package} (ho : open_ D c = some p) :
    (readFiles D p = (.ok, p') ↔ ∃ m d fs fs', First p.zip filesXml m ∧ m.data = some d ∧ D.files d = some fs ∧
      Moded fs fs' ∧ p' = { p with files := some fs' }) ∧
    (∀ fs fs', Moded fs fs' → fs'.length = fs.length ∧ ∀ f' ∈ fs', ∃ n, Octal f'.mode n ∧ f'.perm = n % 512) := by
  have hp : p.files = none := by
    unfold open_ at ho
    obtain ⟨z, _, rfl⟩ := Option.map_eq_some_iff.1 ho
    rfl
  constructor
  · unfold readFiles
    rw [hp]
    simp only [Option.isSome_none, Bool.false_eq_true, if_false]
    constructor
    · intro h
      cases hf : findFile p.zip filesXml with
      | none => rw [hf] at h; cases h
      | some m =>
        rw [hf] at h; simp only at h
        cases hb : m.data.bind D.files with
        | none => rw [hb] at h; cases h
        | some fs =>
          rw [hb] at h; simp only at h
          obtain ⟨d, hd, hi⟩ := Option.bind_eq_some_iff.1 hb
          cases hm : initModes fs with
          | none => rw [hm] at h; cases h
          | some fs' =>
            rw [hm] at h
            simp only [Prod.mk.injEq, true_and] at h
            exact ⟨m, d, fs, fs', findFile_first hf, hd, hi, (initModes_iff _ _).1 hm, h.symm⟩
    · rintro ⟨m, d, fs, fs', h1, h2, h3, h4, rfl⟩
      rw [first_findFile h1]
      simp only [h2, Option.bind_some, h3, (initModes_iff _ _).2 h4]
  · intro fs
    induction fs with
    | nil => intro fs' h; cases fs' with
      | nil => simp
      | cons => exact h.elim
    | cons f fs ih =>
      intro fs' h
      cases fs' with
      | nil => exact h.elim
      | cons f' fs' =>
        obtain ⟨⟨n, hn, _, rfl⟩, hr⟩ := h
        obtain ⟨h1, h2⟩ := ih fs' hr
        refine ⟨by simp [h1], ?_⟩
        intro g hg
        rcases List.mem_cons.1 hg with rfl | hg
        · exact ⟨n, hn, rfl⟩
        · exact h2 g hg

/-- C103, what goes wrong, in general: a file with an ordinary Unix mode (below 2^16) is never reported as set-uid, set-gid
or sticky, whatever its record says. -/
theorem C103_special_bits_partial {f f' : File} {n : Nat} (h : initFileMode f = some f') (ho : Octal f.mode n) (hn : n < 2 ^ 16) :
    f'.setuid = false ∧ f'.setgid = false ∧ f'.sticky = false := by
  obtain ⟨k, hk, _, rfl⟩ := (initFileMode_iff f f').1 h
  have hkn : n = k := ho.2.2.trans hk.2.2.symm
  subst hkn
  refine ⟨?_, ?_, ?_⟩ <;>
  · show Nat.testBit n _ = false
    apply Nat.testBit_lt_two_pow
    exact Nat.lt_of_lt_of_le hn (Nat.pow_le_pow_right (by omega) (by omega))

/-! ## C102: no package takes the daemon down -/

/-- C102 as a statement: reading a package that can be opened returns. -/
def C102_statement : Prop := ∀ (D : Dec) (c : Content) (p : Package), open_ D c = some p → (readAll D p).1 ≠ .panic

theorem readFiles_no_panic (p : Package) : (readFiles D p).1 ≠ .panic := by
  unfold readFiles
  split
  · simp
  · split
    · simp
    · split
      · simp
      · split <;> simp

/-- C102, what holds: reading a package panics exactly if its metadata decode and have no summary or no description; in
all other cases it returns. -/
theorem C102_panics_iff_partial {c : Content} {p : Package} (ho : open_ D c = some p) :
    (readAll D p).1 = .panic ↔ ∃ m d md, First p.zip metadataXml m ∧ m.data = some d ∧ D.info d = some md ∧
      (md.summary = [] ∨ md.description = []) := by
  have hp : p.info = none := by
    unfold open_ at ho
    obtain ⟨z, _, rfl⟩ := Option.map_eq_some_iff.1 ho
    rfl
  unfold readAll
  rcases readMetadata_cases (D := D) p hp with ⟨h, hn⟩ | ⟨m, hm, hb, h⟩ | ⟨m, d, md, h1, h2, h3, ⟨h5, h4⟩ | ⟨su, de, h5, h6, h7⟩⟩
  · rw [h]
    refine ⟨by simp, ?_⟩
    rintro ⟨m, _, _, hm, _⟩; exact absurd hm (hn m)
  · rw [h]
    refine ⟨by simp, ?_⟩
    rintro ⟨m', d, md, hm', hd, hi, _⟩
    have : m' = m := Option.some.inj ((first_findFile hm').symm.trans (first_findFile hm))
    subst this
    rw [hd] at hb; simp [hi] at hb
  · refine ⟨fun _ => ⟨m, d, md, h1, h2, h3, h5⟩, fun _ => ?_⟩
    rcases hx : readMetadata D p with ⟨r, p'⟩
    rw [hx] at h4; simp only at h4; subst h4; rfl
  · rw [h7]
    refine ⟨fun h => absurd h (readFiles_no_panic _), ?_⟩
    rintro ⟨m', d', md', hm', hd', hi', he⟩
    have : m' = m := Option.some.inj ((first_findFile hm').symm.trans (first_findFile h1))
    subst this
    rw [hd'] at h2; cases h2
    rw [hi'] at h3; cases h3
    rcases he with he | he
    · rw [he] at h5; simp [trimAll, fixMissing] at h5
    · rw [he] at h6; simp [trimAll, fixMissing] at h6

/-- C102, what the repositories see (`Env.parse`): the package of the first metadata.xml, an error, or the panic. -/
theorem C102_import_partial (c : Content) :
    (∀ m, parse D c = .good m → ∃ p x d md, open_ D c = some p ∧ First p.zip metadataXml x ∧ x.data = some d ∧
      D.info d = some md ∧ m = md.rest ∧ md.summary ≠ [] ∧ md.description ≠ []) ∧
    (parse D c = .crash ↔ ∃ p x d md, open_ D c = some p ∧ First p.zip metadataXml x ∧ x.data = some d ∧
      D.info d = some md ∧ (md.summary = [] ∨ md.description = [])) := by
  unfold parse
  cases ho : open_ D c with
  | none => exact ⟨by simp, by simp⟩
  | some p =>
    have hp : p.info = none := by
      unfold open_ at ho
      obtain ⟨z, _, rfl⟩ := Option.map_eq_some_iff.1 ho
      rfl
    simp only
    rcases readMetadata_cases (D := D) p hp with ⟨h, hn⟩ | ⟨m, hm, hb, h⟩ | ⟨m, d, md, h1, h2, h3, ⟨h5, h4⟩ | ⟨su, de, h5, h6, h7⟩⟩
    · rw [h]
      refine ⟨by simp, by simp, ?_⟩
      rintro ⟨p', x, _, _, hp', hx, _⟩
      cases hp'; exact absurd hx (hn x)
    · rw [h]
      refine ⟨by simp, by simp, ?_⟩
      rintro ⟨p', x, d, md, hp', hx, hd, hi, _⟩
      cases hp'
      have : x = m := Option.some.inj ((first_findFile hx).symm.trans (first_findFile hm))
      subst this
      rw [hd] at hb; simp [hi] at hb
    · rcases hx : readMetadata D p with ⟨r, p'⟩
      rw [hx] at h4; simp only at h4; subst h4
      refine ⟨by simp, fun _ => ⟨p, m, d, md, rfl, h1, h2, h3, h5⟩, fun _ => rfl⟩
    · rw [h7]
      have n1 : md.summary ≠ [] := (ready_of h5).some_
      have n2 : md.description ≠ [] := (ready_of h6).some_
      refine ⟨?_, by simp, ?_⟩
      · intro x hx
        simp only [Parsed.good.injEq] at hx
        exact ⟨p, m, d, md, rfl, h1, h2, h3, hx.symm, n1, n2⟩
      · rintro ⟨p', x, d', md', hp', hx, hd', hi', he⟩
        cases hp'
        have : x = m := Option.some.inj ((first_findFile hx).symm.trans (first_findFile h1))
        subst this
        rw [hd'] at h2; cases h2
        rw [hi'] at h3; cases h3
        rcases he with he | he
        · exact absurd he n1
        · exact absurd he n2

/-! ## C104, C105: components and groups -/

/-- Two lists correspond element by element. -/
structure Each {α : Type} (R : α → α → Prop) (l l' : List α) : Prop where
  len : l'.length = l.length
  each : ∀ (i : Nat) x x', l[i]? = some x → l'[i]? = some x' → R x x'

/-- The same component, with languages. -/
structure CompFilled (c c' : Component) : Prop where
  name : c'.name = c.name
  rest : c'.rest = c.rest
  localName : Filled c.localName c'.localName
  summary : Filled c.summary c'.summary
  description : Filled c.description c'.description

/-- The same group, with languages. -/
structure GroupFilled (g g' : Group) : Prop where
  name : g'.name = g.name
  rest : g'.rest = g.rest
  localName : Filled g.localName g'.localName

/-- `l'` has the entries of `l` ordered by name, with languages. -/
def Arranged {α : Type} (name : α → Str) (R : α → α → Prop) (l l' : List α) : Prop :=
  ∃ m, m.Perm l ∧ m.Pairwise (fun a b => strLe (name a) (name b) = true) ∧ Each R m l'

/-- All texts a component must have. -/
def Component.Complete (c : Component) : Prop := c.localName ≠ [] ∧ c.summary ≠ [] ∧ c.description ≠ []
def Group.Complete (g : Group) : Prop := g.localName ≠ []

theorem filled_of {l l' : List Field} (h : fixMissing l = some l') : Filled l l' :=
  ⟨(fixMissing_languages h).1, (fixMissing_languages h).2⟩

theorem Component.fix_some {c c' : Component} (h : c.fix = some c') : CompFilled c c' ∧ c.Complete := by
  unfold Component.fix at h
  cases h1 : fixMissing c.localName with
  | none => rw [h1] at h; cases h
  | some l =>
    cases h2 : fixMissing c.summary with
    | none => rw [h1, h2] at h; cases h
    | some s =>
      cases h3 : fixMissing c.description with
      | none => rw [h1, h2, h3] at h; cases h
      | some d =>
        rw [h1, h2, h3] at h
        cases h
        exact ⟨⟨rfl, rfl, filled_of h1, filled_of h2, filled_of h3⟩, (filled_of h1).some_, (filled_of h2).some_, (filled_of h3).some_⟩

theorem Component.fix_none {c : Component} (h : c.fix = none) : ¬ c.Complete := by
  rintro ⟨a, b, d⟩
  unfold Component.fix at h
  cases h1 : fixMissing c.localName with
  | none => exact a (fixMissing_none.1 h1)
  | some l =>
    cases h2 : fixMissing c.summary with
    | none => exact b (fixMissing_none.1 h2)
    | some s =>
      cases h3 : fixMissing c.description with
      | none => exact d (fixMissing_none.1 h3)
      | some d => rw [h1, h2, h3] at h; cases h

theorem Group.fix_some {g g' : Group} (h : g.fix = some g') : GroupFilled g g' ∧ g.Complete := by
  unfold Group.fix at h
  cases h1 : fixMissing g.localName with
  | none => rw [h1] at h; cases h
  | some l => rw [h1] at h; cases h; exact ⟨⟨rfl, rfl, filled_of h1⟩, (filled_of h1).some_⟩

theorem Group.fix_none {g : Group} (h : g.fix = none) : ¬ g.Complete := by
  intro a
  unfold Group.fix at h
  cases h1 : fixMissing g.localName with
  | none => exact a (fixMissing_none.1 h1)
  | some l => rw [h1] at h; cases h

theorem fixAll_some {α : Type} {f : α → Option α} {R : α → α → Prop} {C : α → Prop} (hf : ∀ x y, f x = some y → R x y ∧ C x)
    {l l' : List α} (h : fixAll f l = some l') : Each R l l' ∧ ∀ x ∈ l, C x := by
  induction l generalizing l' with
  | nil => simp only [fixAll, Option.some.injEq] at h; subst h; exact ⟨⟨rfl, by simp⟩, by simp⟩
  | cons x xs ih =>
    unfold fixAll at h
    cases hx : f x with
    | none => rw [hx] at h; cases h
    | some y =>
      rw [hx] at h
      obtain ⟨ys, hys, rfl⟩ := Option.map_eq_some_iff.1 h
      obtain ⟨h1, h2⟩ := ih hys
      obtain ⟨r1, r2⟩ := hf x y hx
      refine ⟨⟨by simp [h1.len], ?_⟩, ?_⟩
      · intro i a a' ha ha'
        cases i with
        | zero =>
          simp only [List.getElem?_cons_zero, Option.some.injEq] at ha ha'
          subst ha; subst ha'; exact r1
        | succ i => exact h1.each i a a' (by simpa using ha) (by simpa using ha')
      · intro a ha
        rcases List.mem_cons.1 ha with rfl | ha
        · exact r2
        · exact h2 a ha

theorem fixAll_none {α : Type} {f : α → Option α} {C : α → Prop} (hf : ∀ x, f x = none → ¬ C x) {l : List α}
    (h : fixAll f l = none) : ∃ x ∈ l, ¬ C x := by
  induction l with
  | nil => cases h
  | cons x xs ih =>
    unfold fixAll at h
    cases hx : f x with
    | none => exact ⟨x, by simp, hf x hx⟩
    | some y =>
      rw [hx] at h
      obtain ⟨z, hz, hc⟩ := ih (Option.map_eq_none_iff.1 h)
      exact ⟨z, List.mem_cons_of_mem _ hz, hc⟩

theorem newComponents_spec (c : Content) :
    (newComponents D c = .failed ∧ D.comps c = none) ∨
    (∃ l, D.comps c = some l ∧ (∃ x ∈ l, ¬ x.Complete) ∧ newComponents D c = .panic) ∨
    (∃ l l', D.comps c = some l ∧ (∀ x ∈ l, x.Complete) ∧ newComponents D c = .good l' ∧
      Arranged Component.name CompFilled l l') := by
  unfold newComponents
  cases hl : D.comps c with
  | none => exact .inl ⟨rfl, rfl⟩
  | some l =>
    simp only
    have hperm := D.sortComps_perm l
    cases hf : fixAll Component.fix (D.sortComps l) with
    | none =>
      obtain ⟨x, hx, hc⟩ := fixAll_none (fun _ h => Component.fix_none h) hf
      exact .inr (.inl ⟨l, rfl, ⟨x, hperm.mem_iff.1 hx, hc⟩, rfl⟩)
    | some l' =>
      obtain ⟨h1, h2⟩ := fixAll_some (f := Component.fix) (R := CompFilled) (C := Component.Complete) (fun _ _ h => Component.fix_some h) hf
      exact .inr (.inr ⟨l, l', rfl, fun x hx => h2 x (hperm.mem_iff.2 hx), rfl, _, hperm, D.sortComps_sorted l, h1⟩)

theorem newGroups_spec (c : Content) :
    (newGroups D c = .failed ∧ D.groups c = none) ∨
    (∃ l, D.groups c = some l ∧ (∃ x ∈ l, ¬ x.Complete) ∧ newGroups D c = .panic) ∨
    (∃ l l', D.groups c = some l ∧ (∀ x ∈ l, x.Complete) ∧ newGroups D c = .good l' ∧
      Arranged Group.name GroupFilled l l') := by
  unfold newGroups
  cases hl : D.groups c with
  | none => exact .inl ⟨rfl, rfl⟩
  | some l =>
    simp only
    have hperm := D.sortGroups_perm l
    cases hf : fixAll Group.fix (D.sortGroups l) with
    | none =>
      obtain ⟨x, hx, hc⟩ := fixAll_none (fun _ h => Group.fix_none h) hf
      exact .inr (.inl ⟨l, rfl, ⟨x, hperm.mem_iff.1 hx, hc⟩, rfl⟩)
    | some l' =>
      obtain ⟨h1, h2⟩ := fixAll_some (f := Group.fix) (R := GroupFilled) (C := Group.Complete) (fun _ _ h => Group.fix_some h) hf
      exact .inr (.inr ⟨l, l', rfl, fun x hx => h2 x (hperm.mem_iff.2 hx), rfl, _, hperm, D.sortGroups_sorted l, h1⟩)

/-- The environment of the repositories reads asset files the way libeopkg does. -/
structure Reads (D : Dec) (enc : Component → Str) (encG : Group → Str) (E : Env) : Prop where
  comps : E.parseComps = fun c => (newComponents D c).parsed enc
  groups : E.parseGroups = fun c => (newGroups D c).parsed encG

/-- C104: whenever a job has published a repository's index, the index carries the components and the groups of the asset
files of the repository, ordered by name, each as it is in the file but for the language of its first texts; and none when
there is no such file. -/
theorem C104_components {W : World} {s : St} {enc : Component → Str} {encG : Group → Str} (ok : W.OK) (hE : Reads D enc encG W.E)
    (h : Reachable W s) (o : Op) (ho : o.Ok W) {r : Str} (hp : o.publishes = some r) (hres : (o.run W.E s).res = .ok ()) :
    ∃ doc, (o.exec W.E s).fs.idx r = some doc ∧
      ((o.exec W.E s).fs.read (.asset r .components) = none → doc.components = []) ∧
      ((o.exec W.E s).fs.read (.asset r .groups) = none → doc.groups = []) ∧
      (∀ c, (o.exec W.E s).fs.read (.asset r .components) = some c →
        ∃ l l', D.comps c = some l ∧ Arranged Component.name CompFilled l l' ∧ doc.components = l'.map enc) ∧
      (∀ c, (o.exec W.E s).fs.read (.asset r .groups) = some c →
        ∃ l l', D.groups c = some l ∧ Arranged Group.name GroupFilled l l' ∧ doc.groups = l'.map encG) := by
  obtain ⟨doc, hd, hc⟩ := C21_index_exact ok h o ho hp hres
  have h1 := hc.components
  have h2 := hc.groups
  rw [hE.comps] at h1
  rw [hE.groups] at h2
  refine ⟨doc, hd, ?_, ?_, ?_, ?_⟩
  · intro hn; rw [hn] at h1; exact h1
  · intro hn; rw [hn] at h2; exact h2
  · intro c hr
    rw [hr] at h1
    replace h1 : (newComponents D c).parsed enc = .good doc.components := h1
    rcases newComponents_spec (D := D) c with ⟨hx, _⟩ | ⟨l, _, _, hx⟩ | ⟨l, l', hl, _, hx, ha⟩
    · rw [hx] at h1; cases h1
    · rw [hx] at h1; cases h1
    · rw [hx] at h1
      simp only [Loaded.parsed, ParsedAsset.good.injEq] at h1
      exact ⟨l, l', hl, ha, h1.symm⟩
  · intro c hr
    rw [hr] at h2
    replace h2 : (newGroups D c).parsed encG = .good doc.groups := h2
    rcases newGroups_spec (D := D) c with ⟨hx, _⟩ | ⟨l, _, _, hx⟩ | ⟨l, l', hl, _, hx, ha⟩
    · rw [hx] at h2; cases h2
    · rw [hx] at h2; cases h2
    · rw [hx] at h2
      simp only [Loaded.parsed, ParsedAsset.good.injEq] at h2
      exact ⟨l, l', hl, ha, h2.symm⟩

theorem sorted_unique {α : Type} {name : α → Str} {l l₁ l₂ : List α} (hn : (l.map name).Nodup)
    (p1 : l₁.Perm l) (p2 : l₂.Perm l) (s1 : l₁.Pairwise (fun a b => strLe (name a) (name b) = true))
    (s2 : l₂.Pairwise (fun a b => strLe (name a) (name b) = true)) : l₁ = l₂ := by
  refine (p1.trans p2.symm).eq_of_pairwise ?_ s1 s2
  intro a b ha hb h1 h2
  have e := strLe_antisymm h1 h2
  have ha := p1.mem_iff.1 ha
  have hb := p2.mem_iff.1 hb
  clear p1 p2 s1 s2
  induction l with
  | nil => cases ha
  | cons x xs ih =>
    rw [List.map_cons, List.nodup_cons] at hn
    rcases List.mem_cons.1 ha with ha' | ha'
    · rcases List.mem_cons.1 hb with hb' | hb'
      · rw [ha', hb']
      · exact absurd (ha' ▸ e ▸ List.mem_map_of_mem (f := name) hb') hn.1
    · rcases List.mem_cons.1 hb with hb' | hb'
      · exact absurd (hb' ▸ e ▸ List.mem_map_of_mem (f := name) ha') hn.1
      · exact ih hn.2 ha' hb'

/-- C104: the order in which the asset file lists its components does not matter, if no two have the same name. -/
theorem C104_order {c₁ c₂ : Content} {l₁ l₂ : List Component} (h1 : D.comps c₁ = some l₁) (h2 : D.comps c₂ = some l₂)
    (hp : l₁.Perm l₂) (hn : (l₁.map Component.name).Nodup) : newComponents D c₁ = newComponents D c₂ := by
  unfold newComponents
  rw [h1, h2]
  simp only
  rw [sorted_unique hn (D.sortComps_perm l₁) ((D.sortComps_perm l₂).trans hp.symm) (D.sortComps_sorted l₁) (D.sortComps_sorted l₂)]

/-- C104: the same for groups. -/
theorem C104_order_groups {c₁ c₂ : Content} {l₁ l₂ : List Group} (h1 : D.groups c₁ = some l₁) (h2 : D.groups c₂ = some l₂)
    (hp : l₁.Perm l₂) (hn : (l₁.map Group.name).Nodup) : newGroups D c₁ = newGroups D c₂ := by
  unfold newGroups
  rw [h1, h2]
  simp only
  rw [sorted_unique hn (D.sortGroups_perm l₁) ((D.sortGroups_perm l₂).trans hp.symm) (D.sortGroups_sorted l₁) (D.sortGroups_sorted l₂)]

/-- C105 as a statement: whatever asset files the administrator installs, rebuilding an index returns. -/
def C105_statement : Prop := ∀ (D : Dec) (enc : Component → Str) (encG : Group → Str) (E : Env), Reads D enc encG E →
  ∀ (ops : List Op) (r : Str), (mIndex E r (runAll E St.init ops)).res ≠ .panic

/-- C105, what holds: loading an asset file panics exactly if it decodes and one of its components lacks a local name, a
summary or a description, or one of its groups a local name. -/
theorem C105_panics_iff_partial (c : Content) (enc : Component → Str) (encG : Group → Str) :
    ((newComponents D c).parsed enc = .crash ↔ ∃ l, D.comps c = some l ∧ ∃ x ∈ l, ¬ x.Complete) ∧
    ((newGroups D c).parsed encG = .crash ↔ ∃ l, D.groups c = some l ∧ ∃ x ∈ l, ¬ x.Complete) := by
  constructor
  · rcases newComponents_spec (D := D) c with ⟨hx, hl⟩ | ⟨l, hl, hi, hx⟩ | ⟨l, l', hl, hc, hx, ha⟩
    · rw [hx]; refine ⟨fun h => (by cases h), ?_⟩; rintro ⟨l, h, _⟩; rw [h] at hl; cases hl
    · rw [hx]; exact ⟨fun _ => ⟨l, hl, hi⟩, fun _ => rfl⟩
    · rw [hx]
      refine ⟨fun h => (by cases h), ?_⟩
      rintro ⟨l2, h, x, hx, hn⟩; rw [h] at hl; cases hl; exact absurd (hc x hx) hn
  · rcases newGroups_spec (D := D) c with ⟨hx, hl⟩ | ⟨l, hl, hi, hx⟩ | ⟨l, l', hl, hc, hx, ha⟩
    · rw [hx]; refine ⟨fun h => (by cases h), ?_⟩; rintro ⟨l, h, _⟩; rw [h] at hl; cases hl
    · rw [hx]; exact ⟨fun _ => ⟨l, hl, hi⟩, fun _ => rfl⟩
    · rw [hx]
      refine ⟨fun h => (by cases h), ?_⟩
      rintro ⟨l2, h, x, hx, hn⟩; rw [h] at hl; cases hl; exact absurd (hc x hx) hn

/-- C105, what holds: with complete asset files, and packages that are complete, no job of any history panics. -/
theorem C105_complete_partial {W : World} {s : St} {enc : Component → Str} {encG : Group → Str} (hE : Reads D enc encG W.E)
    (hc : ∀ c l, D.comps c = some l → ∀ x ∈ l, x.Complete) (hg : ∀ c l, D.groups c = some l → ∀ x ∈ l, x.Complete)
    (h1 : W.E.parse [] = .bad) (h2 : ∀ id, W.E.parse (W.canon id) ≠ .crash)
    (h3 : ∀ id m, W.E.parse (W.canon id) = .good m → GoodMeta m ∧ GoodId id)
    (h : Reachable W s) (o : Op) (ho : o.Ok W) : (o.run W.E s).res ≠ .panic := by
  have ok : W.OK := {
    parse_nil := h1
    no_crash := h2
    comps_no_crash := by
      intro c hx
      rw [hE.comps] at hx
      obtain ⟨l, hl, x, hx, hn⟩ := ((C105_panics_iff_partial (D := D) c enc encG).1).1 hx
      exact hn (hc c l hl x hx)
    groups_no_crash := by
      intro c hx
      rw [hE.groups] at hx
      obtain ⟨l, hl, x, hx, hn⟩ := ((C105_panics_iff_partial (D := D) c enc encG).2).1 hx
      exact hn (hg c l hl x hx)
    good := h3 }
  exact (Op.sound ok (h.inv ok) o ho).noPanic

/-! ## C106, C107: the cache -/

/-- The lines of a text. -/
def Lines (text : Str) (ls : List Str) : Prop :=
  ls ≠ [] ∧ (∀ l ∈ ls, '\n' ∉ l) ∧ text = List.intercalate ['\n'] ls

theorem splitLines_ne (s : Str) : splitLines s ≠ [] := by
  induction s with
  | nil => simp [splitLines]
  | cons c cs ih =>
    unfold splitLines
    split
    · simp
    · cases h : splitLines cs <;> simp

theorem splitLines_lines (s : Str) : Lines s (splitLines s) := by
  refine ⟨splitLines_ne s, ?_, ?_⟩
  · induction s with
    | nil => simp [splitLines]
    | cons c cs ih =>
      unfold splitLines
      split
      · intro l hl
        rcases List.mem_cons.1 hl with rfl | hl
        · simp
        · exact ih l hl
      · rename_i hc
        cases h : splitLines cs with
        | nil => simp; exact fun h => hc h.symm
        | cons l ls =>
          rw [h] at ih
          intro x hx
          rcases List.mem_cons.1 hx with rfl | hx
          · simp only [List.mem_cons, not_or]; exact ⟨fun h => hc h.symm, ih l (by simp)⟩
          · exact ih x (by simp [hx])
  · induction s with
    | nil => simp [splitLines, List.intercalate]
    | cons c cs ih =>
      unfold splitLines
      split
      · rename_i hc
        subst hc
        cases h : splitLines cs with
        | nil => exact absurd h (splitLines_ne cs)
        | cons l ls =>
          rw [h] at ih
          rw [ih]
          simp [List.intercalate, List.intersperse]
      · cases h : splitLines cs with
        | nil => exact absurd h (splitLines_ne cs)
        | cons l ls =>
          rw [h] at ih
          rw [ih]
          cases ls <;> simp [List.intercalate, List.intersperse]

/-- C106: the cache is asked to purge exactly the non-empty lines of the repository's list, in their order and in one
request for the configured zone, if a token, a zone and a readable list are there (and a client can be made); in all other cases nothing is sent. -/
theorem C106_requests (C : Cloud) :
    (∀ text, C.token ≠ [] → C.zone ≠ [] → C.list = some (some text) → C.client = true →
      ∃ ls, Lines text ls ∧ (purge C).2 = [(C.zone, ls.filter (fun l => l ≠ []))]) ∧
    ((C.token = [] ∨ C.zone = [] ∨ (∀ text, C.list ≠ some (some text)) ∨ C.client = false) → (purge C).2 = []) := by
  constructor
  · intro text h1 h2 h3 h4
    refine ⟨splitLines text, splitLines_lines text, ?_⟩
    unfold purge
    simp only [h1, h2, h3, h4, if_false, Bool.not_true, Bool.false_eq_true]
    split <;> rfl
  · intro h
    unfold purge
    by_cases h1 : C.token = []
    · simp [h1]
    · by_cases h2 : C.zone = []
      · simp [h1, h2]
      · simp only [h1, h2, if_false]
        cases hl : C.list with
        | none => rfl
        | some o =>
          cases o with
          | none => rfl
          | some text =>
            rcases h with h | h | h | h
            · exact absurd h h1
            · exact absurd h h2
            · exact absurd hl (h text)
            · simp [h]

theorem splitLines_append (l rest : Str) (h : '\n' ∉ l) : splitLines (l ++ '\n' :: rest) = l :: splitLines rest := by
  induction l with
  | nil => simp [splitLines]
  | cons c cs ih =>
    simp only [List.mem_cons, not_or] at h
    have hc : ¬ c = '\n' := fun e => h.1 e.symm
    rw [List.cons_append]
    conv => lhs; unfold splitLines
    rw [if_neg hc, ih h.2]

theorem splitLines_single (l : Str) (h : '\n' ∉ l) : splitLines l = [l] := by
  induction l with
  | nil => rfl
  | cons c cs ih =>
    simp only [List.mem_cons, not_or] at h
    have hc : ¬ c = '\n' := fun e => h.1 e.symm
    conv => lhs; unfold splitLines
    rw [if_neg hc, ih h.2]

theorem Lines.unique {text : Str} {ls : List Str} (h : Lines text ls) : ls = splitLines text := by
  obtain ⟨hne, hn, rfl⟩ := h
  induction ls with
  | nil => exact absurd rfl hne
  | cons l ls ih =>
    have hl := hn l (by simp)
    cases ls with
    | nil => simp only [List.intercalate, List.intersperse, List.flatten_cons, List.flatten_nil, List.append_nil]; exact (splitLines_single l hl).symm
    | cons l2 ls =>
      have := ih (by simp) (fun x hx => hn x (List.mem_cons_of_mem _ hx))
      have e : List.intercalate ['\n'] (l :: l2 :: ls) = l ++ '\n' :: List.intercalate ['\n'] (l2 :: ls) := by
        simp [List.intercalate, List.intersperse]
      rw [e, splitLines_append _ _ hl, ← this]

/-- C106: the index run reports success exactly if there was nothing to purge or the purge succeeded. -/
theorem C106_result (C : Cloud) : (purge C).1 = .ok ↔
    (C.token = [] ∨ C.zone = [] ∨ C.list = none ∨
      ∃ text ls, C.list = some (some text) ∧ C.client = true ∧ Lines text ls ∧ C.api C.zone (ls.filter (fun l => l ≠ [])) = .success) := by
  unfold purge
  by_cases h1 : C.token = []
  · simp [h1]
  · by_cases h2 : C.zone = []
    · simp [h1, h2]
    · simp only [h1, h2, if_false, false_or]
      cases hl : C.list with
      | none => simp
      | some o =>
        cases o with
        | none => simp
        | some text =>
          simp only
          by_cases hc : C.client = true
          · simp only [hc, Bool.not_true, Bool.false_eq_true, if_false]
            cases ha : C.api C.zone ((splitLines text).filter (fun e => e ≠ [])) with
            | error =>
              refine ⟨fun h => (by cases h), ?_⟩
              rintro (h | ⟨t, ls, h, _, hls, h3⟩)
              · cases h
              · cases h; rw [hls.unique, ha] at h3; cases h3
            | success =>
              exact ⟨fun _ => .inr ⟨text, _, rfl, trivial, splitLines_lines text, ha⟩, fun _ => rfl⟩
            | refused ms =>
              refine ⟨fun h => (by cases ms <;> cases h), ?_⟩
              rintro (h | ⟨t, ls, h, _, hls, h3⟩)
              · cases h
              · cases h; rw [hls.unique, ha] at h3; cases h3
          · have hc' : C.client = false := by simpa using hc
            simp [hc']

/-- C107 as a statement: no answer of the API takes the daemon down. -/
def C107_statement : Prop := ∀ C : Cloud, (purge C).1 ≠ .panic

/-- C107, what holds: only a refusal without any message does. -/
theorem C107_answers_partial (C : Cloud) (h : ∀ fs, C.api C.zone fs ≠ .refused []) : (purge C).1 ≠ .panic := by
  unfold purge
  split
  · simp
  · split
    · simp
    · split
      · simp
      · simp
      · simp only
        split
        · simp
        · split
          · simp
          · simp
          · exact absurd ‹_› (h _)
          · simp

/-- C107 fails: Cloudflare's `errors` list is indexed without looking whether it is empty. -/
theorem C107_violated : ¬ C107_statement := by
  intro h
  exact h ⟨['t'], ['z'], some (some ['/', 'i']), true, fun _ _ => .refused []⟩ (by decide +kernel)

end Props

/-! ## Concrete cases -/
namespace Demo

/-- Insertion sort by a key. -/
def ins {α : Type} (key : α → Str) (x : α) : List α → List α
  | [] => [x]
  | y :: ys => if strLe (key x) (key y) then x :: y :: ys else y :: ins key x ys
def sortBy {α : Type} (key : α → Str) : List α → List α
  | [] => []
  | x :: xs => ins key x (sortBy key xs)

theorem ins_perm {α : Type} (key : α → Str) (x : α) (l : List α) : (ins key x l).Perm (x :: l) := by
  induction l with
  | nil => exact .refl _
  | cons y ys ih =>
    unfold ins; split
    · exact .refl _
    · exact (ih.cons y).trans (.swap x y ys)

theorem sortBy_perm {α : Type} (key : α → Str) (l : List α) : (sortBy key l).Perm l := by
  induction l with
  | nil => exact .refl _
  | cons x xs ih => exact (ins_perm key x _).trans (ih.cons x)

theorem ins_sorted {α : Type} (key : α → Str) (x : α) (l : List α)
    (h : l.Pairwise (fun a b => strLe (key a) (key b) = true)) :
    (ins key x l).Pairwise (fun a b => strLe (key a) (key b) = true) := by
  induction l with
  | nil => simp [ins]
  | cons y ys ih =>
    rw [List.pairwise_cons] at h
    unfold ins; split
    · rename_i hxy
      refine List.pairwise_cons.2 ⟨?_, List.pairwise_cons.2 h⟩
      intro z hz
      rcases List.mem_cons.1 hz with rfl | hz
      · exact hxy
      · exact strLe_trans hxy (h.1 z hz)
    · rename_i hxy
      refine List.pairwise_cons.2 ⟨?_, ih h.2⟩
      intro z hz
      rcases List.mem_cons.1 ((ins_perm key x ys).mem_iff.1 hz) with rfl | hz
      · exact (strLe_total _ _).resolve_left hxy
      · exact h.1 z hz

theorem sortBy_sorted {α : Type} (key : α → Str) (l : List α) :
    (sortBy key l).Pairwise (fun a b => strLe (key a) (key b) = true) := by
  induction l with
  | nil => exact .nil
  | cons x xs ih => exact ins_sorted key x _ ih

def nano : Metadata := ⟨[⟨[' ', 'e', 'd', '\n'], []⟩, ⟨['E'], ['d', 'e']⟩], [⟨['x'], []⟩], Ferryd.Demo.mk "a" "a" 1⟩
def base : Component := ⟨['b'], [⟨['B'], []⟩], [⟨['s'], []⟩], [⟨['d'], ['d', 'e']⟩], ['g']⟩
def apps : Component := ⟨['a'], [⟨['A'], ['e', 'n']⟩], [⟨['s'], []⟩], [⟨['d'], []⟩], ['g']⟩

/-- Package 1 is complete, package 2 has a set-uid file, package 3 has no summary, package 4 has no metadata; the
components of file 30 are complete, one of file 31 has no description. -/
def D : Dec where
  zip c := match c with
    | [1] => some [⟨['x'], none⟩, ⟨metadataXml, some [10]⟩, ⟨filesXml, some [20]⟩, ⟨metadataXml, some [11]⟩]
    | [2] => some [⟨metadataXml, some [10]⟩, ⟨filesXml, some [21]⟩]
    | [3] => some [⟨metadataXml, some [12]⟩]
    | [4] => some [⟨filesXml, some [20]⟩]
    | _ => none
  info c := match c with
    | [10] => some nano
    | [12] => some { nano with summary := [] }
    | _ => none
  files c := match c with
    | [20] => some [⟨['n'], ['0', '7', '5', '5'], ['h'], 0⟩, ⟨['m'], ['6', '4', '4'], ['i'], 0⟩]
    | [21] => some [⟨['s', 'u'], ['0', '4', '7', '5', '5'], ['h'], 0⟩]
    | _ => none
  comps c := match c with
    | [30] => some [base, apps]
    | [32] => some [apps, base]
    | [31] => some [base, { apps with description := [] }]
    | _ => none
  groups c := match c with
    | [40] => some [⟨['g'], [⟨['G'], []⟩], ['i']⟩]
    | _ => none
  sortComps := sortBy Component.name
  sortComps_perm := sortBy_perm _
  sortComps_sorted := sortBy_sorted _
  sortGroups := sortBy Group.name
  sortGroups_perm := sortBy_perm _
  sortGroups_sorted := sortBy_sorted _

def encC (c : Component) : Str := c.name ++ (c.localName.map Field.lang).flatten
def encG (g : Group) : Str := g.name

def E : Env := { Ferryd.Demo.E with
  parseComps := fun c => (newComponents D c).parsed encC
  parseGroups := fun c => (newGroups D c).parsed encG }

theorem reads : Reads D encC encG E := ⟨rfl, rfl⟩

end Demo

/-- The first metadata.xml is read (not the later one), trimmed, and English. -/
example : ∃ p p', open_ Demo.D [1] = some p ∧ readMetadata Demo.D p = (.ok, p') ∧
    p'.info = some { Demo.nano with summary := [⟨['e', 'd'], ['e', 'n']⟩, ⟨['E'], ['d', 'e']⟩], description := [⟨['x'], ['e', 'n']⟩] } :=
  ⟨_, _, rfl, rfl, by decide +kernel⟩

/-- A package without metadata.xml is refused as corrupted and stays as it was. -/
example : ∃ p, open_ Demo.D [4] = some p ∧ readMetadata Demo.D p = (.corrupted, p) := ⟨_, rfl, rfl⟩

/-- Two files with their modes. -/
example : ∃ p p', open_ Demo.D [1] = some p ∧ readFiles Demo.D p = (.ok, p') ∧
    p'.files.map (·.map File.perm) = some [493, 420] := ⟨_, _, rfl, rfl, by decide +kernel⟩

/-- C102 fails: a package without a summary panics. -/
theorem C102_violated : ¬ C102_statement := by
  intro h
  exact h Demo.D [3] ⟨[⟨metadataXml, some [12]⟩], none, none⟩ rfl (by decide +kernel)

/-- C102: ... and so does the job that imports it. -/
theorem C102_violated_import : (mAddPackages { Ferryd.Demo.E with parse := parse Demo.D } (Ferryd.Demo.S "u") [Ferryd.Demo.S "/up/x.eopkg"] false
    (runAll Ferryd.Demo.E St.init [.create (Ferryd.Demo.S "u"), .upload (Ferryd.Demo.S "/up/x.eopkg") [3]])).res = .panic := by
  decide +kernel

/-- C103 fails: the set-uid bit of `04755` is lost (bit 11 of the number is not the bit Go's os.FileMode has for it). -/
theorem C103_violated : ¬ C103_statement := by
  intro h
  obtain ⟨n, ho, hm⟩ := h Demo.D [2] ⟨[⟨metadataXml, some [10]⟩, ⟨filesXml, some [21]⟩], none, none⟩ _ rfl rfl
    _ rfl ⟨['s', 'u'], ['0', '4', '7', '5', '5'], ['h'], 2541⟩ (by decide +kernel)
  have hn : n = 2541 := ho.2.2.trans (by decide +kernel)
  subst hn
  exact absurd hm.setuid (by decide +kernel)

/-- C105 fails: a component without a description in components.xml panics the job that rebuilds the index. -/
theorem C105_violated : ¬ C105_statement := by
  intro h
  exact h Demo.D Demo.encC Demo.encG Demo.E Demo.reads
    [.create (Ferryd.Demo.S "u"), .putAsset (Ferryd.Demo.S "u") .components [31]] (Ferryd.Demo.S "u") (by decide +kernel)

/-- Components in the order of their names, first language completed. -/
example : newComponents Demo.D [30] = .good
    [{ Demo.apps with summary := [⟨['s'], ['e', 'n']⟩], description := [⟨['d'], ['e', 'n']⟩] },
     { Demo.base with localName := [⟨['B'], ['e', 'n']⟩], summary := [⟨['s'], ['e', 'n']⟩] }] := by decide +kernel

/-- The two orders of the same components agree (C104_order applies). -/
example : newComponents Demo.D [30] = newComponents Demo.D [32] :=
  C104_order rfl rfl (.swap _ _ _) (by decide +kernel)

/-- An index run that publishes components and a group. -/
example : let s := runAll Demo.E St.init [.create (Ferryd.Demo.S "u"), .putAsset (Ferryd.Demo.S "u") .components [30],
      .putAsset (Ferryd.Demo.S "u") .groups [40]]
    let o := mIndex Demo.E (Ferryd.Demo.S "u") s
    o.res = .ok () ∧ (o.st.fs.idx (Ferryd.Demo.S "u")).map Doc.components = some [['a', 'e', 'n'], ['b', 'e', 'n']] ∧
      (o.st.fs.idx (Ferryd.Demo.S "u")).map Doc.groups = some [['g']] := by decide +kernel

/-- A purge of two lines. -/
example : purge ⟨['t'], ['z'], some (some ['a', '\n', '\n', 'b', '\n']), true, fun _ _ => .success⟩ =
    (.ok, [(['z'], [['a'], ['b']])]) := by decide +kernel

end Ferryd.Eopkg
