import Verif.Transit
import Verif.Demo2
/-!
# PropsTransit: uploads (C24, C25, C26, C63, C78)
-/
namespace Ferryd
open Spec
variable {W : World} {s : St}

/-! ## Specification -/

namespace Spec
/-- Only white space. -/
def Blank (x : Str) : Prop := ∀ c ∈ x, White c

/-- `y` is `x` without the white space around it. -/
def Stripped (x y : Str) : Prop :=
  (∃ a b, Blank a ∧ Blank b ∧ x = a ++ y ++ b) ∧
  (∀ c, y.head? = some c → ¬ White c) ∧ (∀ c, y.getLast? = some c → ¬ White c)

/-- A manifest the documentation calls valid. -/
structure WellFormed (t : Tram) : Prop where
  version : Stripped t.version ['1', '.', '0']
  target : ¬ Blank t.target
  some_file : t.files ≠ []
  files : ∀ f ∈ t.files, ¬ Blank f.sha ∧ ∃ q, Stripped f.path (q ++ ['.', 'e', 'o', 'p', 'k', 'g'])

/-- The manifest at `path` can be read and decodes to `t`. -/
def Decodes (T : TramEnv) (s : St) (path : Str) (t : Tram) : Prop :=
  ∃ c, s.fs.read (.ext (Paths.absP T.cwd path)) = some c ∧ T.dec c = some t

/-- Where the manifest at `path` says its payload file `f` is. -/
def PayloadAt (T : TramEnv) (path : Str) (f : TramFile) (p : Str) : Prop :=
  ∃ q, Stripped f.path q ∧ p = Paths.join (Paths.dir (Paths.absP T.cwd path)) q

/-- The payload file is there, is not empty and has the announced checksum. -/
def Intact (E : Env) (T : TramEnv) (s : St) (path : Str) (f : TramFile) : Prop :=
  ∃ p h c, PayloadAt T path f p ∧ Stripped f.sha h ∧ s.fs.read (.ext p) = some c ∧ c ≠ [] ∧ E.sha256 c = h
end Spec

/-! ## Trimming -/

theorem dropWhile_all {p : Char → Bool} {a b : Str} (h : ∀ c ∈ a, p c = true) :
    (a ++ b).dropWhile p = b.dropWhile p := by
  induction a with
  | nil => rfl
  | cons x xs ih =>
    have hx := h x (by simp)
    simp only [List.cons_append, List.dropWhile_cons, hx, if_true]
    exact ih (fun c hc => h c (by simp [hc]))

theorem dropWhile_split (p : Char → Bool) (a : Str) : ∃ x, (∀ c ∈ x, p c = true) ∧ a = x ++ a.dropWhile p ∧
    ∀ c, (a.dropWhile p).head? = some c → p c = false := by
  induction a with
  | nil => exact ⟨[], by simp, rfl, by simp⟩
  | cons y ys ih =>
    simp only [List.dropWhile_cons]
    split
    · rename_i hy
      obtain ⟨x, h1, h2, h3⟩ := ih
      exact ⟨y :: x, by simpa [hy] using h1, by rw [List.cons_append, ← h2], h3⟩
    · rename_i hy
      exact ⟨[], by simp, rfl, by simpa using hy⟩

theorem dropWhile_head {p : Char → Bool} {a : Str} (h : ∀ c, a.head? = some c → p c = false) :
    a.dropWhile p = a := by
  cases a with
  | nil => rfl
  | cons x xs => simp [h x rfl]

theorem white_iff (c : Char) : White c ↔ isSpace c = true := by
  unfold White isSpace
  generalize c.toNat = n
  simp only [List.mem_cons, List.not_mem_nil, or_false, Bool.or_eq_true, Bool.and_eq_true, decide_eq_true_eq, beq_iff_eq]
  omega

theorem trim_eq {x y : Str} (h : Stripped x y) : trimSpace x = y := by
  obtain ⟨⟨a, b, ha, hb, rfl⟩, h1, h2⟩ := h
  simp only [Blank, white_iff, Bool.not_eq_true] at ha hb h1 h2
  unfold trimSpace
  rw [List.append_assoc, dropWhile_all ha]
  cases hy : y with
  | nil =>
    have : b.dropWhile isSpace = [] := by
      have := dropWhile_all (p := isSpace) (a := b) (b := []) hb
      simpa using this
    simp [this]
  | cons c cs =>
    have hyb : (y ++ b).dropWhile isSpace = y ++ b := by
      apply dropWhile_head
      intro d hd; rw [hy] at hd; exact h1 d (by rw [hy]; simpa using hd)
    rw [← hy, hyb, List.reverse_append, dropWhile_all (by intro d hd; exact hb d (by simpa using hd)),
      dropWhile_head (by intro d hd; exact h2 d (by rw [List.head?_reverse] at hd; exact hd))]
    simp

theorem trim_stripped (x : Str) : Stripped x (trimSpace x) := by
  obtain ⟨a, ha, h1, h2⟩ := dropWhile_split isSpace x
  obtain ⟨b, hb, h3, h4⟩ := dropWhile_split isSpace (x.dropWhile isSpace).reverse
  have h5 : x.dropWhile isSpace = trimSpace x ++ b.reverse := by
    have := congrArg List.reverse h3
    rw [List.reverse_reverse, List.reverse_append] at this
    exact this
  unfold Stripped Blank
  simp only [white_iff, Bool.not_eq_true]
  refine ⟨⟨a, b.reverse, ha, fun c hc => hb c (by simpa using hc), ?_⟩, ?_, ?_⟩
  · rw [List.append_assoc, ← h5]; exact h1
  · intro c hc
    apply h2
    rw [h5]
    cases ht : trimSpace x with
    | nil => rw [ht] at hc; simp at hc
    | cons d ds => rw [ht] at hc; simpa using hc
  · intro c hc
    apply h4
    unfold trimSpace at hc
    rw [List.getLast?_reverse] at hc; exact hc

theorem stripped_iff (x y : Str) : Stripped x y ↔ trimSpace x = y :=
  ⟨trim_eq, fun h => h ▸ trim_stripped x⟩

theorem trim_nil (x : Str) : trimSpace x = [] ↔ Blank x := by
  constructor
  · intro h
    obtain ⟨⟨a, b, ha, hb, e⟩, _⟩ := (stripped_iff x []).2 h
    rw [List.append_nil] at e
    intro c hc
    rw [e] at hc
    rcases List.mem_append.1 hc with hc | hc
    · exact ha c hc
    · exact hb c hc
  · intro h
    exact trim_eq ⟨⟨x, [], h, by intro c hc; simp at hc, by simp⟩, by simp, by simp⟩

/-! ## C25 -/

theorem hasEopkg_iff (p : Str) : hasEopkg p = true ↔ ∃ q, p = q ++ ['.', 'e', 'o', 'p', 'k', 'g'] := by
  unfold hasEopkg eopkgSuffix
  rw [List.isSuffixOf_iff_suffix]
  constructor
  · rintro ⟨q, h⟩; exact ⟨q, h.symm⟩
  · rintro ⟨q, h⟩; exact ⟨q, h.symm⟩

theorem checkFiles_some (fs : List TramFile) : (∃ r, checkFiles fs = some r) ↔
    ∀ f ∈ fs, ¬ Blank f.sha ∧ ∃ q, Stripped f.path (q ++ ['.', 'e', 'o', 'p', 'k', 'g']) := by
  induction fs with
  | nil => simp [checkFiles]
  | cons f fs ih =>
    rw [List.forall_mem_cons, ← ih]
    simp only [checkFiles]
    have hp : (∃ q, Stripped f.path (q ++ ['.', 'e', 'o', 'p', 'k', 'g'])) ↔ hasEopkg (trimSpace f.path) = true := by
      rw [hasEopkg_iff]; simp only [stripped_iff]
    rw [hp, ← trim_nil]
    by_cases h1 : trimSpace f.sha = []
    · simp [h1]
    · by_cases h2 : hasEopkg (trimSpace f.path) = true
      · have h3 : trimSpace f.path ≠ [] := by
          intro e; rw [e] at h2; simp [hasEopkg, eopkgSuffix, List.isSuffixOf] at h2
        simp only [h1, h2, h3, or_self, if_false, Bool.not_true, Bool.false_eq_true, not_false_eq_true, true_and]
        cases checkFiles fs <;> simp
      · simp only [h2, Bool.not_false, if_true]
        split <;> simp

theorem checkFiles_eq (fs r : List TramFile) (h : checkFiles fs = some r) :
    r = fs.map fun f => ⟨trimSpace f.path, trimSpace f.sha⟩ := by
  induction fs generalizing r with
  | nil => simp only [checkFiles, Option.some.injEq] at h; rw [← h]; rfl
  | cons f fs ih =>
    simp only [checkFiles] at h
    split at h
    · cases h
    · split at h
      · cases h
      · cases hc : checkFiles fs with
        | none => rw [hc] at h; cases h
        | some r' =>
          rw [hc] at h
          simp only [Option.map_some, Option.some.injEq] at h
          rw [← h, ih r' hc]; rfl

theorem checkTram_some (d p : Str) (t : Tram) (m : Manifest) : checkTram d p t = some m ↔
    WellFormed t ∧ m = ⟨d, p, trimSpace t.target, t.files.map fun f => ⟨trimSpace f.path, trimSpace f.sha⟩⟩ := by
  unfold checkTram
  constructor
  · intro h
    split at h
    · cases h
    · rename_i h1
      split at h
      · cases h
      · rename_i h2
        split at h
        · cases h
        · rename_i h3
          cases hc : checkFiles t.files with
          | none => rw [hc] at h; cases h
          | some r =>
            rw [hc] at h
            simp only [Option.map_some, Option.some.injEq] at h
            have := checkFiles_eq _ _ hc
            subst this
            refine ⟨⟨(stripped_iff _ _).2 (Classical.not_not.1 h1), fun hb => h2 ((trim_nil _).2 hb), h3,
              (checkFiles_some _).1 ⟨_, hc⟩⟩, h.symm⟩
  · rintro ⟨⟨h1, h2, h3, h4⟩, rfl⟩
    rw [if_neg (by simp [(stripped_iff _ _).1 h1]), if_neg (fun e => h2 ((trim_nil _).1 e)), if_neg h3]
    obtain ⟨r, hr⟩ := (checkFiles_some _).2 h4
    rw [hr, checkFiles_eq _ _ hr]; rfl

/-- Running `newManifest` never changes anything. -/
theorem newManifest_run (T : TramEnv) (path : Str) (s : St) :
    (∃ t, Decodes T s path t ∧ WellFormed t ∧ newManifest T path s =
      ⟨.ok ⟨Paths.dir (Paths.absP T.cwd path), Paths.absP T.cwd path, trimSpace t.target,
        t.files.map fun f => ⟨trimSpace f.path, trimSpace f.sha⟩⟩, s, []⟩) ∨
    ((¬ ∃ t, Decodes T s path t ∧ WellFormed t) ∧ ∃ e, newManifest T path s = ⟨.err e, s, []⟩) := by
  unfold newManifest
  simp only [getSt_bind]
  cases hr : s.fs.read (.ext (Paths.absP T.cwd path)) with
  | none => right; refine ⟨?_, _, rfl⟩; rintro ⟨t, ⟨c, hc, _⟩, _⟩; rw [hr] at hc; cases hc
  | some c =>
    simp only
    cases hd : T.dec c with
    | none =>
      right; refine ⟨?_, _, rfl⟩
      rintro ⟨t, ⟨c', hc, hd'⟩, _⟩; rw [hr] at hc; cases hc; rw [hd] at hd'; cases hd'
    | some t =>
      simp only
      cases hk : checkTram (Paths.dir (Paths.absP T.cwd path)) (Paths.absP T.cwd path) t with
      | none =>
        right; refine ⟨?_, _, rfl⟩
        rintro ⟨t', ⟨c', hc, hd'⟩, hw⟩; rw [hr] at hc; cases hc; rw [hd] at hd'; cases hd'
        rw [(checkTram_some _ _ _ _).2 ⟨hw, rfl⟩] at hk; cases hk
      | some m =>
        obtain ⟨hw, rfl⟩ := (checkTram_some _ _ _ _).1 hk
        exact .inl ⟨t, ⟨c, hr, hd⟩, hw, rfl⟩

/-- C25: a manifest is accepted exactly when it is well formed; what is then used is its target and its files'
paths and hashes without surrounding white space.  Loading never changes the state. -/
theorem C25_accepted_iff (T : TramEnv) (path : Str) (s : St) :
    (newManifest T path s).st = s ∧ (newManifest T path s).tr = [] ∧
    ((∃ m, (newManifest T path s).res = .ok m) ↔ ∃ t, Decodes T s path t ∧ WellFormed t) ∧
    (∀ m t, (newManifest T path s).res = .ok m → Decodes T s path t →
      Stripped t.target m.target ∧ m.files.length = t.files.length ∧
      ∀ (i : Nat) (f g : TramFile), t.files[i]? = some f → m.files[i]? = some g → Stripped f.path g.path ∧ Stripped f.sha g.sha) := by
  rcases newManifest_run T path s with ⟨t, hd, hw, he⟩ | ⟨hn, e, he⟩
  · rw [he]
    refine ⟨rfl, rfl, ⟨fun _ => ⟨t, hd, hw⟩, fun _ => ⟨_, rfl⟩⟩, ?_⟩
    intro m t' hm hd'
    have : t' = t := by
      obtain ⟨c, h1, h2⟩ := hd; obtain ⟨c', h1', h2'⟩ := hd'
      rw [h1] at h1'; cases h1'; rw [h2] at h2'; cases h2'; rfl
    subst this
    simp only [Res.ok.injEq] at hm
    subst hm
    refine ⟨trim_stripped _, by simp, ?_⟩
    intro i f g hf hg
    simp only [List.getElem?_map, hf, Option.map_some, Option.some.injEq] at hg
    subst hg
    exact ⟨trim_stripped _, trim_stripped _⟩
  · rw [he]
    refine ⟨rfl, rfl, ⟨?_, fun h => absurd h hn⟩, ?_⟩
    · rintro ⟨m, hm⟩; cases hm
    · intro m t hm; cases hm

/-- Non-vacuity of C25: a manifest with blanks around its fields is accepted, one with a wrong version, a blank target,
no file, or a payload that is not an eopkg is refused. -/
example :
    (checkTram [] [] ⟨" 1.0\n".toList, "\tunstable ".toList, [⟨" a-1.eopkg".toList, "ab".toList⟩]⟩).isSome = true ∧
    checkTram [] [] ⟨"1.1".toList, "unstable".toList, [⟨"a-1.eopkg".toList, "ab".toList⟩]⟩ = none ∧
    checkTram [] [] ⟨"1.0".toList, " ".toList, [⟨"a-1.eopkg".toList, "ab".toList⟩]⟩ = none ∧
    checkTram [] [] ⟨"1.0".toList, "unstable".toList, []⟩ = none ∧
    checkTram [] [] ⟨"1.0".toList, "unstable".toList, [⟨"a-1.zip".toList, "ab".toList⟩]⟩ = none := by decide +kernel

/-! ## C24 -/

theorem validatePayload_run (E : Env) (d : Str) (fs : List TramFile) (s : St) :
    let m : List TramFile := fs
    (forL m (fun f => do
      let h ← fileSha256 E (.ext (Paths.join d f.path))
      if h ≠ f.sha then throwE .badHash else pure ()) s = ⟨.ok (), s, []⟩ ∧
      ∀ f ∈ fs, ∃ c, s.fs.read (.ext (Paths.join d f.path)) = some c ∧ c ≠ [] ∧ E.sha256 c = f.sha) ∨
    ((∃ e, forL m (fun f => do
      let h ← fileSha256 E (.ext (Paths.join d f.path))
      if h ≠ f.sha then throwE .badHash else pure ()) s = ⟨.err e, s, []⟩) ∧
      ∃ f ∈ fs, ¬ ∃ c, s.fs.read (.ext (Paths.join d f.path)) = some c ∧ c ≠ [] ∧ E.sha256 c = f.sha) := by
  induction fs with
  | nil => left; exact ⟨rfl, by simp⟩
  | cons f fs ih =>
    simp only at ih ⊢
    cases hr : s.fs.read (.ext (Paths.join d f.path)) with
    | none =>
      right
      refine ⟨⟨.io, ?_⟩, f, by simp, ?_⟩
      · rw [forL_cons, bind_err (s1 := s) (e := .io) (t := [])]
        rw [bind_err (s1 := s) (e := .io) (t := [])]
        simp [fileSha256, hr]
      · rw [hr]; rintro ⟨c, hc, _⟩; cases hc
    | some c =>
      by_cases h1 : c = []
      · right
        refine ⟨⟨.io, ?_⟩, f, by simp, ?_⟩
        · rw [forL_cons, bind_err (s1 := s) (e := .io) (t := [])]
          rw [bind_err (s1 := s) (e := .io) (t := [])]
          simp [fileSha256, hr, h1]
        · rw [hr]; rintro ⟨c', hc, hne, _⟩; cases hc; exact hne h1
      · by_cases h2 : E.sha256 c = f.sha
        · have hstep : (fileSha256 E (.ext (Paths.join d f.path)) >>= fun h =>
              (if h ≠ f.sha then throwE .badHash else pure () : M Unit)) s = ⟨.ok (), s, []⟩ := by
            rw [bind_ok (a := E.sha256 c) (s1 := s) (t := []) (by simp [fileSha256, hr, h1])]
            simp [h2]
          rw [forL_cons, bind_ok hstep]
          rcases ih with ⟨he, hall⟩ | ⟨⟨e, he⟩, g, hg, hbad⟩
          · left
            rw [he]
            refine ⟨rfl, ?_⟩
            intro g hg
            rcases List.mem_cons.1 hg with rfl | hg
            · exact ⟨c, hr, h1, h2⟩
            · exact hall g hg
          · right
            rw [he]
            exact ⟨⟨e, rfl⟩, g, by simp [hg], hbad⟩
        · right
          refine ⟨⟨.badHash, ?_⟩, f, by simp, ?_⟩
          · rw [forL_cons, bind_err (s1 := s) (e := .badHash) (t := [])]
            rw [bind_ok (a := E.sha256 c) (s1 := s) (t := []) (by simp [fileSha256, hr, h1])]
            simp [h2]
          · rw [hr]; rintro ⟨c', hc, _, hs⟩; cases hc; exact h2 hs

/-- How an upload job goes: it is refused without any effect, or everything is intact and the packages are imported
in strict mode, then the upload is cleared if that succeeded. -/
theorem transitJob_cases (E : Env) (T : TramEnv) (path : Str) (s : St) :
    (∃ e, transitJob E T path s = ⟨.err e, s, []⟩ ∧
      ((¬ ∃ t, Decodes T s path t ∧ WellFormed t) ∨
       (∃ t f, Decodes T s path t ∧ f ∈ t.files ∧ ¬ Intact E T s path f))) ∨
    (∃ t, Decodes T s path t ∧ WellFormed t ∧ (∀ f ∈ t.files, Intact E T s path f) ∧
      ∃ target files, Stripped t.target target ∧
        files = t.files.map (fun f => Paths.join (Paths.dir (Paths.absP T.cwd path)) (trimSpace f.path)) ∧
      transitJob E T path s = (do
        getRepo target
        mAddPackages E target files true
        forL (files ++ [Paths.absP T.cwd path]) fun p => removeFile (.ext p)) s) := by
  have pure_pre : ∀ {α} (o : Out α), o.pre [] = o := by intro α o; cases o; rfl
  rcases newManifest_run T path s with ⟨t, hd, hw, he⟩ | ⟨hn, e, he⟩
  · have hint : ∀ f : TramFile, Intact E T s path f ↔ ∃ c,
        s.fs.read (.ext (Paths.join (Paths.dir (Paths.absP T.cwd path)) (trimSpace f.path))) = some c ∧
        c ≠ [] ∧ E.sha256 c = trimSpace f.sha := by
      intro f
      constructor
      · rintro ⟨p, h, c, ⟨q, hq, rfl⟩, hh, h1, h2, h3⟩
        rw [stripped_iff] at hq hh
        subst hq; subst hh
        exact ⟨c, h1, h2, h3⟩
      · rintro ⟨c, h1, h2, h3⟩
        exact ⟨_, _, c, ⟨_, trim_stripped _, rfl⟩, trim_stripped _, h1, h2, h3⟩
    rcases validatePayload_run E (Paths.dir (Paths.absP T.cwd path))
      (t.files.map fun f => ⟨trimSpace f.path, trimSpace f.sha⟩) s with ⟨hv, hall⟩ | ⟨⟨e, hv⟩, g, hg, hbad⟩
    · right
      refine ⟨t, hd, hw, ?_, trimSpace t.target, _, trim_stripped _, rfl, ?_⟩
      · intro f hf
        rw [hint]
        exact hall ⟨trimSpace f.path, trimSpace f.sha⟩ (List.mem_map.2 ⟨f, hf, rfl⟩)
      · unfold transitJob
        rw [bind_ok he, pure_pre, bind_ok (show validatePayload E ⟨Paths.dir (Paths.absP T.cwd path), Paths.absP T.cwd path, trimSpace t.target,
          t.files.map fun f => ⟨trimSpace f.path, trimSpace f.sha⟩⟩ s = _ from hv), pure_pre]
        simp only [Manifest.paths, List.map_map]
        rfl
    · left
      obtain ⟨f, hf, rfl⟩ := List.mem_map.1 hg
      refine ⟨e, ?_, .inr ⟨t, f, hd, hf, fun hi => hbad ((hint f).1 hi)⟩⟩
      unfold transitJob
      rw [bind_ok he, pure_pre, bind_err (show validatePayload E ⟨Paths.dir (Paths.absP T.cwd path), Paths.absP T.cwd path, trimSpace t.target,
          t.files.map fun f => ⟨trimSpace f.path, trimSpace f.sha⟩⟩ s = _ from hv)]
  · left
    refine ⟨e, ?_, .inl hn⟩
    unfold transitJob
    rw [bind_err he]

/-- C24: if any file of an upload is missing, empty, or does not have the checksum the manifest announces, the upload job
fails and changes nothing at all: no pool entry, no repository, no file, at no time.  (For every state and every
environment, no assumption on either.) -/
theorem C24_bad_checksum_imports_nothing (E : Env) (T : TramEnv) (path : Str) (s : St) (t : Tram) (f : TramFile)
    (hd : Decodes T s path t) (hf : f ∈ t.files) (hbad : ¬ Intact E T s path f) :
    ∃ e, transitJob E T path s = ⟨.err e, s, []⟩ := by
  rcases transitJob_cases E T path s with ⟨e, he, _⟩ | ⟨t', hd', _, hall, _⟩
  · exact ⟨e, he⟩
  · have : t' = t := by
      obtain ⟨c, h1, h2⟩ := hd; obtain ⟨c', h1', h2'⟩ := hd'
      rw [h1] at h1'; cases h1'; rw [h2] at h2'; cases h2'; rfl
    subst this
    exact absurd (hall f hf) hbad

/-- A malformed manifest imports nothing either. -/
theorem C24_malformed_imports_nothing (E : Env) (T : TramEnv) (path : Str) (s : St)
    (hbad : ¬ ∃ t, Decodes T s path t ∧ WellFormed t) :
    ∃ e, transitJob E T path s = ⟨.err e, s, []⟩ := by
  rcases transitJob_cases E T path s with ⟨e, he, _⟩ | ⟨t', hd', hw, _⟩
  · exact ⟨e, he⟩
  · exact absurd ⟨t', hd', hw⟩ hbad

/-! ## C26 -/

/-- Removing a list of outside files. -/
def unlinks (s : St) : List Str → St
  | [] => s
  | p :: ps => unlinks (s.setFs (s.fs.setTab (.ext p) none)) ps

theorem removeLoop_run (ps : List Str) (s : St) : ∃ tr,
    forL ps (fun p => removeFile (.ext p)) s = ⟨.ok (), unlinks s ps, tr⟩ ∧
    ∀ t ∈ tr, ∃ qs, t = unlinks s qs := by
  induction ps generalizing s with
  | nil => exact ⟨[], rfl, by simp⟩
  | cons p ps ih =>
    obtain ⟨tr, h, ht⟩ := ih (s.setFs (s.fs.setTab (.ext p) none))
    refine ⟨s.setFs (s.fs.setTab (.ext p) none) :: tr, ?_, ?_⟩
    · rw [forL_cons, removeFile_bind, h]; rfl
    · intro t hm
      rcases List.mem_cons.1 hm with rfl | hm
      · exact ⟨[p], rfl⟩
      · obtain ⟨qs, rfl⟩ := ht t hm
        exact ⟨p :: qs, rfl⟩

theorem unlinks_db (ps : List Str) (s : St) : (unlinks s ps).db = s.db := by
  induction ps generalizing s with
  | nil => rfl
  | cons p ps ih => simp only [unlinks]; rw [ih]; rfl

theorem unlinks_read (ps : List Str) (s : St) (q : Path) :
    (unlinks s ps).fs.read q = if ∃ p ∈ ps, q = .ext p then none else s.fs.read q := by
  induction ps generalizing s with
  | nil => simp [unlinks]
  | cons p ps ih =>
    simp only [unlinks]
    rw [ih]
    by_cases h1 : ∃ p' ∈ ps, q = .ext p'
    · rw [if_pos h1, if_pos (by obtain ⟨x, hx, e⟩ := h1; exact ⟨x, by simp [hx], e⟩)]
    · rw [if_neg h1]
      by_cases h2 : q = .ext p
      · rw [if_pos ⟨p, by simp, h2⟩, h2]
        simp [FS.read]
      · rw [if_neg]
        · simp [FS.read, h2, FS.setTab]
        · rintro ⟨x, hx, e⟩
          rcases List.mem_cons.1 hx with rfl | hx
          · exact h2 e
          · exact h1 ⟨x, hx, e⟩

theorem unlinks_runAll (ps : List Str) (s : St) : unlinks s ps = runAll W.E s (ps.map Op.unlink) := by
  induction ps generalizing s with
  | nil => rfl
  | cons p ps ih =>
    simp only [unlinks, List.map_cons, runAll, List.foldl_cons]
    rw [ih]; rfl

theorem Reachable.unlinks (h : Reachable W s) (ps : List Str) : Reachable W (unlinks s ps) := by
  induction ps generalizing s with
  | nil => exact h
  | cons p ps ih => exact ih (h.step (.unlink p) trivial)

theorem got_got (s : St) (r : Str) : (s.got r).got r = s.got r := by
  have : r ∈ (s.got r).cache := by
    unfold St.got; split
    · assumption
    · simp
  rw [St.got, if_pos this]

/-- Looking the repository up first makes no difference. -/
theorem addPackages_got (h : Inv W s) {r : Str} (hr : r ∈ s.db.repos.keys) (fs : List Str) (b : Bool) :
    (mAddPackages W.E r fs b (s.got r)).res = (mAddPackages W.E r fs b s).res ∧
    (mAddPackages W.E r fs b (s.got r)).st = (mAddPackages W.E r fs b s).st := by
  obtain ⟨t0, h0, _⟩ := getRepo_run h hr
  obtain ⟨t1, h1, _⟩ := getRepo_run (h.got hr) (r := r) (by simpa using hr)
  unfold mAddPackages
  rw [bind_ok h0, bind_ok h1, got_got]
  exact ⟨rfl, rfl⟩

/-- The payload holds no delta packages. -/
def NoDeltas (W : World) (T : TramEnv) (s : St) (path : Str) : Prop :=
  ∀ t f p, Decodes T s path t → f ∈ t.files → PayloadAt T path f p → W.isDelta (baseName p) = false

/-- An upload job in a consistent state: refused without trace, or as good as importing the packages in strict mode and
then unlinking the upload. -/
theorem transitJob_run (ok : W.OK) (h : Inv W s) (T : TramEnv) (path : Str) (hnd : NoDeltas W T s path) :
    (∃ e, transitJob W.E T path s = ⟨.err e, s, []⟩) ∨
    (∃ t target files, Decodes T s path t ∧ WellFormed t ∧ (∀ f ∈ t.files, Intact W.E T s path f) ∧
      Stripped t.target target ∧ Repo s target ∧
      files = t.files.map (fun f => Paths.join (Paths.dir (Paths.absP T.cwd path)) (trimSpace f.path)) ∧
      (∀ f ∈ files, W.isDelta (baseName f) = false) ∧
      let a := mAddPackages W.E target files true s
      ((∃ e, a.res = .err e ∧ (transitJob W.E T path s).res = .err e ∧ (transitJob W.E T path s).st = a.st) ∨
       (a.res = .ok () ∧ (transitJob W.E T path s).res = .ok () ∧
        (transitJob W.E T path s).st = unlinks a.st (files ++ [Paths.absP T.cwd path])))) := by
  rcases transitJob_cases W.E T path s with ⟨e, he, _⟩ | ⟨t, hd, hw, hint, target, files, hs, hf, he⟩
  · exact .inl ⟨e, he⟩
  · by_cases hr : target ∈ s.db.repos.keys
    · right
      have hnd' : ∀ f ∈ files, W.isDelta (baseName f) = false := by
        intro f hfm
        rw [hf] at hfm
        obtain ⟨g, hg, rfl⟩ := List.mem_map.1 hfm
        exact hnd t g _ hd hg ⟨_, trim_stripped _, rfl⟩
      refine ⟨t, target, files, hd, hw, hint, hs, hr, hf, hnd', ?_⟩
      intro a
      obtain ⟨t0, h0, _⟩ := getRepo_run h hr
      obtain ⟨hres, hst⟩ := addPackages_got h hr files true
      have hnp := (mAddPackagesStrict_run ok h hr files hnd').noPanic
      rw [he, bind_ok h0]
      cases ha : mAddPackages W.E target files true (s.got target) with
      | mk res st tr =>
        rw [ha] at hres hst
        simp only at hres hst
        cases res with
        | panic => exact absurd hres.symm hnp
        | err e =>
          left
          rw [bind_err ha]
          exact ⟨e, hres.symm, rfl, hst⟩
        | ok u =>
          right
          rw [bind_ok ha]
          obtain ⟨tr2, hl, _⟩ := removeLoop_run (files ++ [Paths.absP T.cwd path]) st
          rw [hl]
          exact ⟨hres.symm, rfl, by simp only [Out.pre_st]; rw [hst]⟩
    · left
      rw [he, bind_err (getRepo_missing h hr)]
      exact ⟨_, rfl⟩

/-- Histories with upload jobs: the state after an upload job is again the state after a history of operations, so every
theorem about reachable states also covers daemons that process uploads. -/
theorem C26_history (ok : W.OK) (h : Reachable W s) (T : TramEnv) (path : Str) (hnd : NoDeltas W T s path) :
    Reachable W (transitJob W.E T path s).st ∧ (transitJob W.E T path s).res ≠ .panic := by
  rcases transitJob_run ok (h.inv ok) T path hnd with ⟨e, he⟩ | ⟨t, target, files, _, _, _, _, _, _, hnd', hor⟩
  · rw [he]; exact ⟨h, by simp⟩
  · have hstep := h.step (.addPackages target files true) hnd'
    rcases hor with ⟨e, _, h1, h2⟩ | ⟨_, h1, h2⟩
    · rw [h1, h2]; exact ⟨hstep, by simp⟩
    · rw [h1, h2]; exact ⟨hstep.unlinks _, by simp⟩

/-- C26, success: after a successful upload job the manifest and every payload file are gone, every payload package is
listed in the target repository, and no other file outside ferryd's directories has changed. -/
theorem C26_success_clears (ok : W.OK) (h : Reachable W s) (T : TramEnv) (path : Str) (hnd : NoDeltas W T s path)
    (hres : (transitJob W.E T path s).res = .ok ()) :
    let s' := (transitJob W.E T path s).st
    ∃ t target, Decodes T s path t ∧ Stripped t.target target ∧
      s'.fs.read (.ext (Paths.absP T.cwd path)) = none ∧
      (∀ f ∈ t.files, ∀ p, PayloadAt T path f p → s'.fs.read (.ext p) = none ∧ Has s' target (baseName p)) ∧
      (∀ q, q ≠ Paths.absP T.cwd path → (∀ f ∈ t.files, ¬ PayloadAt T path f q) →
        s'.fs.read (.ext q) = s.fs.read (.ext q)) := by
  have hi := h.inv ok
  intro s'
  rcases transitJob_run ok hi T path hnd with ⟨e, he⟩ | ⟨t, target, files, hd, _, _, hs, hr, hf, hnd', hor⟩
  · rw [he] at hres; cases hres
  · rcases hor with ⟨e, _, h1, _⟩ | ⟨ha, _, h2⟩
    · rw [h1] at hres; cases hres
    · obtain ⟨done, rest, hdr, haj, _, _, hrest, _⟩ := (mAddPackagesStrict_run ok hi hr files hnd').spec
      have hrest' : rest = [] := by
        cases rest with
        | nil => rfl
        | cons x xs => obtain ⟨e, he⟩ := hrest (by simp); rw [ha] at he; cases he
      subst hrest'
      rw [List.append_nil] at hdr
      have hsp : ∀ f ∈ t.files, ∀ p, PayloadAt T path f p → p ∈ files := by
        rintro f hfm p ⟨q, hq, rfl⟩
        rw [stripped_iff] at hq
        subst hq
        rw [hf]; exact List.mem_map.2 ⟨f, hfm, rfl⟩
      have hs' : s' = unlinks (mAddPackages W.E target files true s).st (files ++ [Paths.absP T.cwd path]) := h2
      refine ⟨t, target, hd, hs, ?_, ?_, ?_⟩
      · rw [hs', unlinks_read, if_pos ⟨_, by simp, rfl⟩]
      · intro f hfm p hp
        have hm := hsp f hfm p hp
        refine ⟨?_, ?_⟩
        · rw [hs', unlinks_read, if_pos ⟨p, by simp [hm], rfl⟩]
        · have : (mAddPackages W.E target files true s).st.has target (baseName p) = true :=
            (haj.has target (baseName p)).2 (.inr ⟨rfl, List.mem_map.2 ⟨p, hdr ▸ hm, rfl⟩⟩)
          obtain ⟨n, e, hg, hid⟩ := (haj.inv.spec_has _ _).2 this
          exact ⟨n, e, by rw [hs', unlinks_db]; exact hg, hid⟩
      · intro q hq hnp
        rw [hs', unlinks_read, if_neg]
        · exact haj.frame.read _ rfl rfl (fun hf => hf.elim)
        · rintro ⟨p, hp, e⟩
          cases e
          rcases List.mem_append.1 hp with hp | hp
          · rw [hf] at hp
            obtain ⟨g, hg, e⟩ := List.mem_map.1 hp
            exact hnp g hg ⟨_, trim_stripped _, e.symm⟩
          · exact hq (by simpa using hp)

/-- C26, failure: an upload job that does not succeed leaves every uploaded file in place, with its content. -/
theorem C26_failure_keeps (ok : W.OK) (h : Reachable W s) (T : TramEnv) (path : Str) (hnd : NoDeltas W T s path)
    (hres : (transitJob W.E T path s).res ≠ .ok ()) (q : Str) :
    (transitJob W.E T path s).st.fs.read (.ext q) = s.fs.read (.ext q) := by
  have hi := h.inv ok
  rcases transitJob_run ok hi T path hnd with ⟨e, he⟩ | ⟨t, target, files, hd, _, _, hs, hr, hf, hnd', hor⟩
  · rw [he]
  · rcases hor with ⟨e, _, _, h2⟩ | ⟨_, h1, _⟩
    · obtain ⟨done, rest, hdr, haj, _⟩ := (mAddPackagesStrict_run ok hi hr files hnd').spec
      rw [h2]
      exact haj.frame.read _ rfl rfl (fun hf => hf.elim)
    · exact absurd h1 hres

/-! ## A concrete upload -/

namespace Demo
/-- The manifest in file "u.tram" of the demo world (content `[0]`): two packages for repository "u". -/
def tramOf (files : List (String × String)) : Tram :=
  ⟨S "1.0", S "u", files.map fun f => ⟨S f.1, S f.2⟩⟩
def tenv (files : List (String × String)) : TramEnv := ⟨fun c => if c = [0] then some (tramOf files) else none, S "/"⟩

def hist7 : List Op := [upload "/in/a-1.eopkg", upload "/in/b-1.eopkg", upload "/in/u.tram", upload "/in/bad.eopkg",
  upload "/home/a-2.eopkg", .create (S "u")]
def st7 : St := runAll E St.init hist7
theorem hist7_ok : ∀ o ∈ hist7, o.Ok Demo.W := by
  unfold hist7
  refine List.forall_mem_cons.2 ⟨upload_ok _, List.forall_mem_cons.2 ⟨upload_ok _, List.forall_mem_cons.2 ⟨upload_ok _,
    List.forall_mem_cons.2 ⟨upload_ok _, List.forall_mem_cons.2 ⟨upload_ok _, List.forall_mem_cons.2 ⟨trivial, ?_⟩⟩⟩⟩⟩⟩
  intro o ho; cases ho
theorem reach7 : Reachable Demo.W st7 := ⟨hist7, hist7_ok, rfl⟩
/-- Both packages, with their checksums. -/
def good7 : TramEnv := tenv [("a-1.eopkg", "\x01"), ("b-1.eopkg", "\x04")]
/-- The second checksum is wrong. -/
def wrong7 : TramEnv := tenv [("a-1.eopkg", "\x01"), ("b-1.eopkg", "\x05")]
/-- The second file has the right checksum but is not a package. -/
def corrupt7 : TramEnv := tenv [("a-1.eopkg", "\x01"), ("bad.eopkg", "\x00")]
/-- A file of another directory. -/
def escape7 : TramEnv := tenv [("../home/a-2.eopkg", "\x02")]
def run7 (T : TramEnv) : Out Unit := transitJob E T (S "/in/u.tram") st7

theorem nodeltas7 (fs : List (String × String))
    (h : ∀ f ∈ (tramOf fs).files, Demo.W.isDelta (baseName (Paths.join (S "/in") (trimSpace f.path))) = false) (s : St) :
    NoDeltas Demo.W (tenv fs) s (S "/in/u.tram") := by
  intro t f p hd hf hp
  have ht : t = tramOf fs := by
    obtain ⟨c, _, h2⟩ := hd
    simp only [tenv] at h2
    split at h2
    · cases h2; rfl
    · cases h2
  subst ht
  obtain ⟨q, hq, rfl⟩ := hp
  rw [stripped_iff] at hq
  subst hq
  have : Paths.dir (Paths.absP (tenv fs).cwd (S "/in/u.tram")) = S "/in" := by
    show Paths.dir (Paths.absP (S "/") (S "/in/u.tram")) = S "/in"
    decide +kernel
  rw [this]
  exact h f hf
end Demo

/-- Non-vacuity of C24 and C26: the intact upload succeeds and is cleared, the one with a wrong checksum changes
nothing; and both meet the hypotheses of the theorems. -/
example : NoDeltas Demo.W Demo.good7 Demo.st7 (Demo.S "/in/u.tram") ∧ (Demo.run7 Demo.good7).res = .ok () ∧
    (Demo.run7 Demo.good7).st.availOf (Demo.S "u") (Demo.S "b") = [Demo.S "b-1.eopkg"] ∧
    (Demo.run7 Demo.good7).st.fs.read (.ext (Demo.S "/in/u.tram")) = none ∧
    (Demo.run7 Demo.good7).st.fs.read (.ext (Demo.S "/in/bad.eopkg")) = some [0] ∧
    (Demo.run7 Demo.wrong7).res = .err .badHash ∧ (Demo.run7 Demo.corrupt7).res = .err .corrupt :=
  ⟨Demo.nodeltas7 _ (by decide +kernel) _, by decide +kernel⟩

/-- The upload with the wrong checksum meets the hypotheses of C24. -/
example : ∃ t f, Decodes Demo.wrong7 Demo.st7 (Demo.S "/in/u.tram") t ∧ f ∈ t.files ∧
    ¬ Intact Demo.E Demo.wrong7 Demo.st7 (Demo.S "/in/u.tram") f := by
  refine ⟨Demo.tramOf [("a-1.eopkg", "\x01"), ("b-1.eopkg", "\x05")], ⟨Demo.S "b-1.eopkg", Demo.S "\x05"⟩,
    ⟨[0], by decide +kernel, rfl⟩, by simp [Demo.tramOf], ?_⟩
  rintro ⟨p, h, c, ⟨q, hq, rfl⟩, hh, hc, _, he⟩
  rw [stripped_iff] at hq hh
  subst hq; subst hh
  have : Demo.st7.fs.read (.ext (Paths.join (Paths.dir (Paths.absP Demo.wrong7.cwd (Demo.S "/in/u.tram")))
    (trimSpace (Demo.S "b-1.eopkg")))) = some [4] := by decide +kernel
  rw [this] at hc
  cases hc
  exact absurd he (by decide +kernel)

/-! ## C63 -/

/-- The path `p` is below directory `d`: `d`, a slash, and names none of which is "..". -/
def Spec.Below (d p : Str) : Prop :=
  ∃ rest, rest ≠ [] ∧ p = (if d = ['/'] then [] else d) ++ '/' :: rest ∧ Paths.dotdot ∉ Paths.splitC rest

/-- C63, as a user would expect it: every file an accepted manifest refers to lies below the directory of the
manifest. -/
def C63_statement : Prop := ∀ (T : TramEnv) (path : Str) (t : Tram), WellFormed t → Paths.isAbs T.cwd = true →
  ∀ f ∈ t.files, ∀ p, PayloadAt T path f p → Below (Paths.dir (Paths.absP T.cwd path)) p

/-- C63 does not hold: a path with ".." leaves the directory. -/
theorem C63_violated : ¬ C63_statement := by
  intro h
  have hw : WellFormed (Demo.tramOf [("../home/a-2.eopkg", "\x02")]) :=
    ((checkTram_some [] [] _ _).1 (by decide +kernel : checkTram [] [] (Demo.tramOf [("../home/a-2.eopkg", "\x02")]) =
      some ⟨[], [], Demo.S "u", [⟨Demo.S "../home/a-2.eopkg", Demo.S "\x02"⟩]⟩)).1
  obtain ⟨rest, _, hp, _⟩ := h Demo.escape7 (Demo.S "/in/u.tram") _ hw (by decide +kernel)
    ⟨Demo.S "../home/a-2.eopkg", Demo.S "\x02"⟩ (by simp [Demo.tramOf]) (Demo.S "/home/a-2.eopkg")
    ⟨Demo.S "../home/a-2.eopkg", (stripped_iff _ _).2 (by decide +kernel), by decide +kernel⟩
  have hd : Paths.dir (Paths.absP Demo.escape7.cwd (Demo.S "/in/u.tram")) = ['/', 'i', 'n'] := by decide +kernel
  rw [hd] at hp
  have := congrArg (List.take 3) hp
  simp [Demo.S] at this

/-- What this does on a running daemon: the upload in "/in" imports a package of another user's directory, and deletes it
there. -/
theorem C63_violated_job : (Demo.run7 Demo.escape7).res = .ok () ∧
    Demo.st7.fs.read (.ext (Demo.S "/home/a-2.eopkg")) = some [2] ∧
    (Demo.run7 Demo.escape7).st.fs.read (.ext (Demo.S "/home/a-2.eopkg")) = none ∧
    (Demo.run7 Demo.escape7).st.availOf (Demo.S "u") (Demo.S "a") = [Demo.S "a-2.eopkg"] := by decide +kernel

/-- C63 for manifests whose paths have no ".." component: then every file is below the manifest's directory.  (Missing:
nothing in the code refuses the other manifests.) -/
theorem C63_below_partial (T : TramEnv) (path : Str) (hcwd : Paths.isAbs T.cwd = true) (t : Tram) (hw : WellFormed t)
    (hname : Paths.absP T.cwd path ≠ ['/'])
    (f : TramFile) (hf : f ∈ t.files) (hdd : ∀ q, Stripped f.path q → Paths.dotdot ∉ Paths.splitC q)
    (p : Str) (hp : PayloadAt T path f p) : Below (Paths.dir (Paths.absP T.cwd path)) p := by
  obtain ⟨q, hq, rfl⟩ := hp
  have hdd := hdd q hq
  obtain ⟨cs, hcs, he⟩ := Paths.absP_abs hcwd path
  rw [he] at hname ⊢
  have hne : cs ≠ [] := by rintro rfl; exact hname rfl
  obtain ⟨ds, c, rfl⟩ : ∃ ds c, cs = ds ++ [c] := ⟨cs.dropLast, cs.getLast hne, (List.dropLast_concat_getLast hne).symm⟩
  have hds : ∀ x ∈ ds, Paths.Normal x := fun x hx => hcs x (by simp [hx])
  rw [Paths.dir_rooted hcs, Paths.join_rooted hds, Paths.cleanL_noDotdot _ _ _ hdd, List.reverse_reverse]
  -- the names kept
  obtain ⟨x, hx⟩ := (hw.files f hf).2
  have hqx : q = x ++ ['.', 'e', 'o', 'p', 'k', 'g'] := by
    rw [stripped_iff] at hq hx; rw [← hq, hx]
  let ks := (Paths.splitC q).filter (fun c => decide (¬ (c = [] ∨ c = Paths.dot)))
  have hks : ks ≠ [] := by
    intro hnil
    have hall : ∀ y ∈ Paths.splitC q, y = [] ∨ y = Paths.dot := by
      intro y hy
      have := List.filter_eq_nil_iff.1 hnil y hy
      simp only [decide_eq_true_eq] at this
      exact Classical.not_not.1 this
    have hmem : ∀ (l : List Str), (∀ y ∈ l, y = [] ∨ y = Paths.dot) → 'g' ∉ Paths.joinS l := by
      intro l
      induction l with
      | nil => intro _; simp [Paths.joinS]
      | cons y ys ih =>
        intro hy
        have h1 := ih (fun z hz => hy z (by simp [hz]))
        have h2 : 'g' ∉ y := by
          rcases hy y (by simp) with rfl | rfl
          · simp
          · decide
        cases ys with
        | nil => simpa [Paths.joinS] using h2
        | cons z zs => simp only [Paths.joinS, List.mem_append, List.mem_cons, not_or]; exact ⟨h2, by decide, h1⟩
    have := hmem _ hall
    rw [Paths.joinS_splitC, hqx] at this
    exact this (by simp)
  have hkn : ∀ y ∈ ks, Paths.Normal y := by
    intro y hy
    have hy' := List.mem_filter.1 hy
    have h1 : ¬ (y = [] ∨ y = Paths.dot) := by simpa using hy'.2
    simp only [not_or] at h1
    exact ⟨h1.1, h1.2, fun e => hdd (e ▸ hy'.1), Paths.splitC_noSlash q y hy'.1⟩
  refine ⟨Paths.joinS ks, ?_, ?_, ?_⟩
  · intro e
    have := Paths.splitC_joinS ks hks (fun y hy => (hkn y hy).2.2.2)
    rw [e] at this
    have : ([] : Str) ∈ ks := by rw [← this]; simp [Paths.splitC]
    exact (hkn _ this).1 rfl
  · show Paths.rooted (ds ++ ks) = _
    by_cases hd : ds = []
    · subst hd
      rw [if_pos (by rfl)]; rfl
    · rw [if_neg]
      · unfold Paths.rooted
        rw [Paths.joinS_append _ _ hd hks]; rfl
      · intro e
        unfold Paths.rooted at e
        have h1 := Paths.splitC_joinS ds hd (fun y hy => (hds y hy).2.2.2)
        rw [List.cons.inj e |>.2] at h1
        have : ([] : Str) ∈ ds := by rw [← h1]; simp [Paths.splitC]
        exact (hds _ this).1 rfl
  · rw [Paths.splitC_joinS ks hks (fun y hy => (hkn y hy).2.2.2)]
    intro hm; exact (hkn _ hm).2.2.1 rfl

/-- Non-vacuity of the partial theorem. -/
example : Below (Demo.S "/in") (Demo.S "/in/a-1.eopkg") ∧ Paths.dotdot ∉ Paths.splitC (Demo.S "a-1.eopkg") ∧
    PayloadAt Demo.good7 (Demo.S "/in/u.tram") ⟨Demo.S "a-1.eopkg", Demo.S "\x01"⟩ (Demo.S "/in/a-1.eopkg") :=
  ⟨⟨Demo.S "a-1.eopkg", by decide +kernel⟩, by decide +kernel,
    ⟨Demo.S "a-1.eopkg", (stripped_iff _ _).2 (by decide +kernel), by decide +kernel⟩⟩

/-! ## C78: uploads are not all-or-nothing -/

/-- C78, as a user would expect it: a failed upload leaves the repositories as they were. -/
def C78_statement : Prop := ∀ (W : World), W.OK → ∀ s, Reachable W s → ∀ (T : TramEnv) (path : Str),
  NoDeltas W T s path → (transitJob W.E T path s).res ≠ .ok () →
  ∀ r id, Has (transitJob W.E T path s).st r id → Has s r id

/-- C78 does not hold: when the second file of an upload is not a package, the first one is imported all the same; and
because uploads are strict, repeating the upload after replacing the broken file is refused for ever. -/
theorem C78_violated : ¬ C78_statement := by
  intro h
  have h1 := h Demo.W Demo.ok Demo.st7 Demo.reach7 Demo.corrupt7 (Demo.S "/in/u.tram")
    (Demo.nodeltas7 _ (by decide +kernel) _) (by decide +kernel) (Demo.S "u") (Demo.S "a-1.eopkg")
  have hr : Reachable Demo.W (transitJob Demo.W.E Demo.corrupt7 (Demo.S "/in/u.tram") Demo.st7).st :=
    (C26_history Demo.ok Demo.reach7 Demo.corrupt7 (Demo.S "/in/u.tram") (Demo.nodeltas7 _ (by decide +kernel) _)).1
  have h2 := h1 (((hr.inv Demo.ok).spec_has _ _).2 (by decide +kernel))
  have h3 := ((Demo.reach7.inv Demo.ok).spec_has _ _).1 h2
  exact absurd h3 (by decide +kernel)

/-- ... and the repaired upload (now with the right second package) can never be accepted. -/
theorem C78_violated_retry :
    (transitJob Demo.E Demo.good7 (Demo.S "/in/u.tram") (Demo.run7 Demo.corrupt7).st).res = .err .sameRelease := by
  decide +kernel

/-- What does hold of a failed upload: the packages listed before are still listed, only payload packages of the target
repository may be new, and no tip goes back. -/
theorem C78_failed_upload_partial (ok : W.OK) (h : Reachable W s) (T : TramEnv) (path : Str) (hnd : NoDeltas W T s path) :
    let s' := (transitJob W.E T path s).st
    (∀ r id, Has s r id → Has s' r id) ∧
    (∀ r id, Has s' r id → Has s r id ∨ ∃ t target f p, Decodes T s path t ∧ Stripped t.target target ∧ r = target ∧
      f ∈ t.files ∧ PayloadAt T path f p ∧ id = baseName p ∧ Intact W.E T s path f) := by
  have hi := h.inv ok
  intro s'
  have hi' : Inv W s' := (C26_history ok h T path hnd).1.inv ok
  rcases transitJob_run ok hi T path hnd with ⟨e, he⟩ | ⟨t, target, files, hd, _, hint, hs, hr, hf, hnd', hor⟩
  · have : s' = s := by show (transitJob W.E T path s).st = s; rw [he]
    rw [this]; exact ⟨fun _ _ x => x, fun _ _ x => .inl x⟩
  · obtain ⟨done, rest, hdr, haj, _⟩ := (mAddPackagesStrict_run ok hi hr files hnd').spec
    have hdb : s'.db = (mAddPackages W.E target files true s).st.db := by
      rcases hor with ⟨e, _, _, h2⟩ | ⟨_, _, h2⟩
      · show (transitJob W.E T path s).st.db = _; rw [h2]
      · show (transitJob W.E T path s).st.db = _; rw [h2, unlinks_db]
    have hhas : ∀ r id, Has s' r id ↔ Has s r id ∨ (r = target ∧ id ∈ done.map baseName) := by
      intro r id
      rw [hi'.spec_has, hi.spec_has, St.has_congr hdb]; exact haj.has r id
    refine ⟨fun r id hx => (hhas r id).2 (.inl hx), ?_⟩
    intro r id hx
    rcases (hhas r id).1 hx with h1 | ⟨rfl, h1⟩
    · exact .inl h1
    · obtain ⟨p, hp, rfl⟩ := List.mem_map.1 h1
      have : p ∈ files := by rw [hdr]; simp [hp]
      rw [hf] at this
      obtain ⟨f, hfm, rfl⟩ := List.mem_map.1 this
      exact .inr ⟨t, _, f, _, hd, hs, rfl, hfm, ⟨_, trim_stripped _, rfl⟩, rfl, hint f hfm⟩

/-- C23 for uploads: whatever an upload job adds to the listing of its target, also when it fails part-way, is newer than
everything the repository listed under that name before; and if the job succeeds, every package of the payload was newer. -/
theorem C23_upload (ok : W.OK) (h : Reachable W s) (T : TramEnv) (path : Str) (hnd : NoDeltas W T s path) :
    let o := transitJob W.E T path s
    (∀ r n id, Lists o.st r n id → ¬ Lists s r n id → ∀ x, Lists s r n x → relOf W x < relOf W id) ∧
    (o.res = .ok () → ∀ t f p target, Decodes T s path t → Stripped t.target target → f ∈ t.files → PayloadAt T path f p →
      ∀ x, Lists s target (nameOf W (baseName p)) x → relOf W x < relOf W (baseName p)) := by
  have hi := h.inv ok
  intro o
  have hi' : Inv W o.st := (C26_history ok h T path hnd).1.inv ok
  rcases transitJob_run ok hi T path hnd with ⟨e, he⟩ | ⟨t, target, files, hd, _, hint, hs, hr, hf, hnd', hor⟩
  · have : o = ⟨.err e, s, []⟩ := he
    rw [this]
    exact ⟨fun r n id h1 h2 => absurd h1 h2, fun h => by cases h⟩
  · obtain ⟨done, rest, hdr, haj, hst, _, hrest, _⟩ := (mAddPackagesStrict_run ok hi hr files hnd').spec
    have hdb : o.st.db = (mAddPackages W.E target files true s).st.db := by
      rcases hor with ⟨e, _, _, h2⟩ | ⟨_, _, h2⟩
      · show (transitJob W.E T path s).st.db = _; rw [h2]
      · show (transitJob W.E T path s).st.db = _; rw [h2, unlinks_db]
    have hnew : ∀ f ∈ done, ∀ x, Lists s target (nameOf W (baseName f)) x → relOf W x < relOf W (baseName f) := by
      intro f hfd x hx
      obtain ⟨h1, h2⟩ := (hi.lists_iff _ _ _).1 hx
      exact hst.newer f hfd x h1 h2
    constructor
    · intro r n id h1 h2 x hx
      obtain ⟨h3, rfl⟩ := (hi'.lists_iff r n id).1 h1
      rw [St.has_congr hdb] at h3
      rcases (haj.has r id).1 h3 with h4 | ⟨rfl, h4⟩
      · exact absurd ((hi.lists_iff _ _ _).2 ⟨h4, rfl⟩) h2
      · obtain ⟨f, hfd, rfl⟩ := List.mem_map.1 h4
        exact hnew f hfd x hx
    · intro hok t' f p target' hd' hs' hfm hp x hx
      have : t' = t := by
        obtain ⟨c, h1, h2⟩ := hd
        obtain ⟨c', h1', h2'⟩ := hd'
        rw [h1] at h1'; cases h1'
        rw [h2] at h2'; cases h2'; rfl
      subst this
      rw [stripped_iff] at hs hs'
      rw [hs] at hs'; subst hs'
      obtain ⟨q, hq, rfl⟩ := hp
      rw [stripped_iff] at hq
      subst hq
      refine hnew _ ?_ x hx
      have hre : rest = [] := by
        refine Classical.byContradiction fun hne => ?_
        obtain ⟨e, he⟩ := hrest hne
        rcases hor with ⟨e', _, h1, _⟩ | ⟨h1, _, _⟩
        · rw [show o.res = _ from h1] at hok; cases hok
        · rw [he] at h1; cases h1
      rw [hre, List.append_nil] at hdr
      rw [← hdr, hf]
      exact List.mem_map.2 ⟨f, hfm, rfl⟩

/-- Not vacuous: uploading again what was uploaded is refused; the first upload went through and listed `a-1`. -/
example : (Demo.run7 Demo.good7).res = .ok () ∧
    (Demo.run7 Demo.good7).st.availOf (Demo.S "u") (Demo.S "a") = [Demo.S "a-1.eopkg"] ∧
    Demo.st7.availOf (Demo.S "u") (Demo.S "a") = [] ∧
    (transitJob Demo.E Demo.good7 (Demo.S "/in/u.tram") (Demo.run7 Demo.corrupt7).st).res = .err .sameRelease := by decide +kernel

end Ferryd
