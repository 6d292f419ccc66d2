import Verif.CoreFiles
import Verif.Demo2
import Verif.PropsTransit
/-!
# PropsAlias: C135, uploads and served files
-/
namespace Ferryd
open Spec

/-- Somebody writes other bytes into an uploaded file, in place (`cp new /up/f`, `rsync --inplace`, an editor). (No code of the
daemon: an event outside.) -/
def St.rewrite (s : St) (f : Str) (c : Content) : St :=
  match s.fs.tab (.ext f) with
  | none => s
  | some i => s.setFs (s.fs.setData i c)

/-- C135 in full: writing into an uploaded file never changes what is served. -/
def C135_statement : Prop :=
  ∀ (W : World) (s : St) (f : Str) (c : Content) (r id : Str) (c0 : Content), W.OK → Reachable W s →
    ServedAs W s r id c0 → ServedAs W (s.rewrite f c) r id c0

variable {W : World} {s : St}

theorem rewrite_read {f : Str} {c : Content} {p : Path}
    (h : ∀ i, s.fs.tab (.ext f) = some i → s.fs.tab p ≠ some i) : (s.rewrite f c).fs.read p = s.fs.read p := by
  unfold St.rewrite
  cases hx : s.fs.tab (.ext f) with
  | none => rfl
  | some i =>
    show (s.fs.tab p).map _ = (s.fs.tab p).map _
    cases hy : s.fs.tab p with
    | none => rfl
    | some j =>
      simp only [Option.map_some, St.setFs_fs, FS.setData]
      rw [if_neg]
      rintro rfl
      exact h _ hx hy

/-- No file shares its bytes with an upload. (No code: a notion of the statements and proofs.) -/
structure Apart (fs : FS) : Prop where
  fresh : ∀ p i, fs.tab p = some i → i < fs.next
  apart : ∀ f p i, fs.tab (.ext f) = some i → fs.tab p = some i → p = .ext f

theorem Apart.setTab {fs : FS} (h : Apart fs) {p : Path} {o : Option Nat} (hn : ∀ i, o = some i → i < fs.next)
    (ho : ∀ i, o = some i → ∀ q, fs.tab q = some i → q.isExt = false) (hp : p.isExt = false) : Apart (fs.setTab p o) where
  fresh q i hq := by
    simp only [FS.setTab] at hq ⊢
    by_cases e : q = p
    · rw [if_pos e] at hq; exact hn i hq
    · rw [if_neg e] at hq; exact h.fresh q i hq
  apart f q i hf hq := by
    simp only [FS.setTab] at hf hq
    have e' : ¬ (Path.ext f = p) := by rintro rfl; cases hp
    rw [if_neg e'] at hf
    by_cases e : q = p
    · rw [if_pos e] at hq
      have := ho i hq _ hf
      cases this
    · rw [if_neg e] at hq; exact h.apart f q i hf hq

theorem Apart.new {fs : FS} (h : Apart fs) (p : Path) (c : Content) :
    Apart { (fs.setTab p (some fs.next)).setData fs.next c with next := fs.next + 1 } where
  fresh q i hq := by
    show i < fs.next + 1
    simp only [FS.setTab, FS.setData] at hq
    by_cases e : q = p
    · rw [if_pos e] at hq; cases hq; omega
    · rw [if_neg e] at hq; have := h.fresh q i hq; omega
  apart f q i hf hq := by
    simp only [FS.setTab, FS.setData] at hf hq
    by_cases e : q = p
    · rw [if_pos e] at hq
      by_cases e' : Path.ext f = p
      · rw [e, e']
      · rw [if_neg e'] at hf
        have := h.fresh _ i hf
        cases hq; omega
    · rw [if_neg e] at hq
      by_cases e' : Path.ext f = p
      · rw [if_pos e'] at hf
        have := h.fresh _ i hq
        cases hf; omega
      · rw [if_neg e'] at hf; exact h.apart f q i hf hq

theorem Apart.rm {fs : FS} (h : Apart fs) (p : Path) : Apart (fs.setTab p none) where
  fresh q i hq := by
    simp only [FS.setTab] at hq ⊢
    split at hq
    · cases hq
    · exact h.fresh q i hq
  apart f q i hf hq := by
    simp only [FS.setTab] at hf hq
    split at hf
    · cases hf
    · split at hq
      · cases hq
      · exact h.apart f q i hf hq

/-- Where uploads cannot be hard-linked, every job keeps them apart. -/
theorem apart_closed {E : Env} (hl : ∀ f p, E.linkOk (.ext f) p = false) : FsClosed E Apart where
  rm fs p h _ := h.rm p
  link fs a b i h ha hb hk hx := by
    refine h.setTab (fun j hj => by cases hj; exact h.fresh a i ha) (fun j hj q hq => ?_) hx
    cases hj
    cases q with
    | ext f =>
      have := h.apart f a i hq ha
      subst this
      rw [hl] at hk; cases hk
    | _ => rfl
  create fs p h _ _ := h.new p []
  write fs p i c h _ _ := ⟨h.fresh, h.apart⟩
  drop fs k h _ := by
    refine ⟨fun p i hp => ?_, fun f p i hf hp => ?_⟩
    · simp only at hp
      split at hp
      · cases hp
      · exact h.fresh p i hp
    · simp only at hf hp
      split at hf
      · cases hf
      · split at hp
        · cases hp
        · exact h.apart f p i hf hp
  dirs fs f g h := ⟨h.fresh, h.apart⟩

theorem Wild.apart (hl : ∀ f p, W.E.linkOk (.ext f) p = false) (h : Wild W s) : Apart s.fs := by
  have key : ∀ o : Op, Always Apart (o.run W.E) := fun o =>
    always_op (apart_closed hl) o (fun fs p c h _ => h.new p c) (fun fs f c h => h.new (.ext f) c) (fun fs f h => h.rm _)
  have half : ∀ {o : Op} {t u : St}, Half W o t u → Apart t.fs → Apart u.fs := by
    intro o t u hh ht
    cases hh with
    | whole => exact ht
    | package p i c => exact ⟨ht.fresh, ht.apart⟩
    | asset r a i c => exact ⟨ht.fresh, ht.apart⟩
  induction h with
  | init => exact ⟨fun p i hp => by (cases hp), fun f p i hf => by (cases hf)⟩
  | job h o ho ih => exact (key o).fin _ ih
  | dies h o ho hm ih => obtain ⟨t, ht, hh⟩ := hm; have := half hh ((key o).tr _ ih t ht); exact this
  | fails h o ho hm ih => obtain ⟨t, ht, hh⟩ := hm; have := half hh ((key o).tr _ ih t ht); exact this

/-- C135 (part): where an upload cannot be hard-linked into the pool (it is on another file system), writing into it never changes
what is pooled or served, after any history of jobs, crashes and I/O errors. -/
theorem C135_nolink_partial (hl : ∀ f p, W.E.linkOk (.ext f) p = false) (h : Wild W s) (f : Str) (c : Content) (id : Str)
    (c0 : Content) : (PooledAs W s id c0 ↔ PooledAs W (s.rewrite f c) id c0) ∧
    ∀ r, (ServedAs W s r id c0 ↔ ServedAs W (s.rewrite f c) r id c0) := by
  have ha := h.apart hl
  have key : ∀ p : Path, p ≠ .ext f → (s.rewrite f c).fs.read p = s.fs.read p := fun p hp =>
    rewrite_read fun i hf hi => hp (ha.apart f p i hf hi)
  refine ⟨?_, fun r => ?_⟩
  · unfold PooledAs
    simp only [key (.pool _ _) (by simp)]
  · unfold ServedAs
    simp only [key (.repo _ _ _) (by simp)]

/-- C135 (part): writing into an upload can only change what is pooled and served under the name of the uploaded file, after any
history of jobs, crashes and I/O errors. -/
theorem C135_name_partial (ok : W.OK) (hn : W.NoTorn) (h : Wild W s) (f : Str) (c : Content) {id : Str}
    (hid : id ≠ baseName f) (c0 : Content) : (PooledAs W s id c0 ↔ PooledAs W (s.rewrite f c) id c0) ∧
    ∀ r, (ServedAs W s r id c0 ↔ ServedAs W (s.rewrite f c) r id c0) := by
  have hr := h.rough ok hn
  have key : ∀ p : Path, p.isAsset = false → p.base = id → (s.rewrite f c).fs.read p = s.fs.read p := fun p hp hb =>
    rewrite_read fun i hf hi => by
      have := hr.fs.owner _ _ i hf hi
      apply hid
      rw [← hb]
      cases p <;> simp_all [Path.owner, Path.isAsset, Path.base]
  refine ⟨?_, fun r => ?_⟩
  · unfold PooledAs
    simp only [key (.pool _ _) rfl rfl]
  · unfold ServedAs
    simp only [key (.repo _ _ _) rfl rfl]

/-- C135 (part): putting a new file in the place of an upload, instead of writing into it, is safe: neither that nor writing into
the new file changes what is pooled or served. -/
theorem C135_replace_partial (ok : W.OK) (hn : W.NoTorn) (h : Wild W s) (f : Str) (c1 c2 : Content) (id : Str) (c0 : Content) :
    let s' := ((Op.upload f c1).exec W.E s).rewrite f c2
    (PooledAs W s id c0 ↔ PooledAs W s' id c0) ∧ ∀ r, (ServedAs W s r id c0 ↔ ServedAs W s' r id c0) := by
  intro s'
  have hr := h.rough ok hn
  have key : ∀ p : Path, p ≠ .ext f → s'.fs.read p = s.fs.read p := by
    intro p hp
    have hu : ((Op.upload f c1).exec W.E s) = s.putFile (.ext f) c1 := rfl
    have hne : ∀ i, (s.putFile (.ext f) c1).fs.tab (.ext f) = some i → (s.putFile (.ext f) c1).fs.tab p ≠ some i := by
      intro i hi hj
      have h1 : i = s.fs.next := by
        have : some s.fs.next = some i := by simpa [St.putFile] using hi
        exact (Option.some.inj this).symm
      have h2 : s.fs.tab p = some i := by simpa [St.putFile, hp] using hj
      have := hr.fs.fresh p i h2
      omega
    show (((Op.upload f c1).exec W.E s).rewrite f c2).fs.read p = _
    rw [hu, rewrite_read hne]
    unfold FS.read
    have h1 : (s.putFile (.ext f) c1).fs.tab p = s.fs.tab p := by simp [St.putFile, hp]
    rw [h1]
    cases hy : s.fs.tab p with
    | none => rfl
    | some j =>
      have := hr.fs.fresh p j hy
      simp only [Option.map_some, St.putFile, St.setFs_fs, FS.setData]
      rw [if_neg (show ¬ j = s.fs.next by omega)]
      rfl
  refine ⟨?_, fun r => ?_⟩
  · unfold PooledAs
    simp only [key (.pool _ _) (by simp)]
  · unfold ServedAs
    simp only [key (.repo _ _ _) (by simp)]

/-- C135 (part): an upload by a manifest that was taken in is safe: its files are gone from their places afterwards, so nobody can
write into a served package through them. -/
theorem C135_transit_partial (ok : W.OK) (h : Reachable W s) (T : TramEnv) (path : Str) (hnd : NoDeltas W T s path)
    (hres : (transitJob W.E T path s).res = .ok ()) {t : Tram} (hd : Decodes T s path t) {f : TramFile} (hf : f ∈ t.files) {p : Str}
    (hp : PayloadAt T path f p) (c : Content) :
    (transitJob W.E T path s).st.rewrite p c = (transitJob W.E T path s).st := by
  obtain ⟨t', target, hd', _, _, h2, _⟩ := C26_success_clears ok h T path hnd hres
  have : t' = t := by
    obtain ⟨c, h1, h2⟩ := hd; obtain ⟨c', h1', h2'⟩ := hd'
    rw [h1] at h1'; cases h1'; rw [h2] at h2'; cases h2'; rfl
  subst this
  have hr := (h2 f hf p hp).1
  unfold St.rewrite
  have : (transitJob W.E T path s).st.fs.tab (.ext p) = none := by
    unfold FS.read at hr
    cases hx : (transitJob W.E T path s).st.fs.tab (.ext p) with
    | none => rfl
    | some i => rw [hx] at hr; cases hr
  rw [this]

end Ferryd

namespace Ferryd.Demo
open Spec

theorem dir_a1 : dirOf W (S "a-1.eopkg") = some (S "a/a") := by decide +kernel

/-- C135, refuted: an import hard-links the upload into pool and repository where it can, so whoever writes into the uploaded file
afterwards changes the served package, with a published index that still gives the old hash. -/
theorem C135_violated : ¬ C135_statement := by
  intro h
  obtain ⟨d, h1, h2⟩ := h W st1 (S "/up/a-1.eopkg") [99] (S "unstable") (S "a-1.eopkg") [1] ok reach1
    ⟨S "a/a", dir_a1, by decide +kernel⟩
  have hd : d = S "a/a" := by rw [dir_a1] at h1; exact (Option.some.inj h1).symm
  subst hd
  exact absurd h2 (by decide +kernel)

/-- The bytes served have changed, in both repositories, and the index has not. -/
example : (st1.rewrite (S "/up/a-2.eopkg") [99]).fs.read (.repo (S "shannon") (S "a/a") (S "a-2.eopkg")) = some [99] ∧
    ((st1.rewrite (S "/up/a-2.eopkg") [99]).fs.idx (S "shannon")).map
      (fun d => d.packages.map fun p => (p.id, p.pkg.hash)) =
    some [(S "a-2.eopkg", E.sha1 [2]), (S "b-1.eopkg", E.sha1 [4])] := by decide +kernel

/-- The demo world with uploads on another file system. (No code: a case for the examples.) -/
def Wfar : World := { W with E := { E with linkOk := fun a _ => !a.isExt } }

/-- `C135_nolink_partial` applies to the same history there: the packages are served, and writing into the upload changes
nothing. -/
example : (∀ f p, Wfar.E.linkOk (.ext f) p = false) ∧ Wild Wfar (runAll Wfar.E St.init hist1) ∧
    (runAll Wfar.E St.init hist1).fs.read (.repo (S "shannon") (S "a/a") (S "a-2.eopkg")) = some [2] ∧
    ((runAll Wfar.E St.init hist1).rewrite (S "/up/a-2.eopkg") [99]).fs.read (.repo (S "shannon") (S "a/a") (S "a-2.eopkg")) =
      some [2] := by
  refine ⟨fun _ _ => rfl, ?_, by decide +kernel, by decide +kernel⟩
  have key : ∀ (ops : List Op) (s : St), Wild Wfar s → (∀ o ∈ ops, o.Ok Wfar) → Wild Wfar (runAll Wfar.E s ops) := by
    intro ops
    induction ops with
    | nil => intro s h _; exact h
    | cons o os ih => intro s h ho; exact ih _ (h.job o (ho o (by simp))) fun x hx => ho x (by simp [hx])
  refine key hist1 _ .init fun o ho => ?_
  have := hist1_ok o ho
  cases o <;> exact this

/-- `C135_name_partial` and `C135_replace_partial` apply to the refuting state: what is served under another name, or after the
upload was replaced instead of written into, stays. -/
example : Wild W st1 ∧ W.NoTorn ∧ S "b-1.eopkg" ≠ baseName (S "/up/a-1.eopkg") ∧ ServedAs W st1 (S "shannon") (S "b-1.eopkg") [4] ∧
    (((Op.upload (S "/up/a-1.eopkg") [98]).exec E st1).rewrite (S "/up/a-1.eopkg") [99]).fs.read
      (.repo (S "shannon") (S "a/a") (S "a-1.eopkg")) = some [1] :=
  ⟨reach1.wild, noTorn, by decide +kernel, ⟨S "b/b", by decide +kernel, by decide +kernel⟩, by decide +kernel⟩

/-- `C135_transit_partial` applies to the good upload of `Demo2`. -/
example : ∃ t f, NoDeltas W good7 st7 (S "/in/u.tram") ∧ (transitJob W.E good7 (S "/in/u.tram") st7).res = .ok () ∧
    Decodes good7 st7 (S "/in/u.tram") t ∧ f ∈ t.files ∧ PayloadAt good7 (S "/in/u.tram") f (S "/in/a-1.eopkg") ∧
    (transitJob W.E good7 (S "/in/u.tram") st7).st.fs.read (.repo (S "u") (S "a/a") (S "a-1.eopkg")) = some [1] :=
  ⟨_, ⟨S "a-1.eopkg", S "\x01"⟩, nodeltas7 _ (by decide +kernel) _, by decide +kernel, ⟨[0], by decide +kernel, rfl⟩, by decide +kernel,
    ⟨S "a-1.eopkg", (stripped_iff _ _).2 (by decide +kernel), by decide +kernel⟩, by decide +kernel⟩

end Ferryd.Demo
