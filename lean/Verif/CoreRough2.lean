import Verif.CoreRough
/-!
# CoreRough2: what a successful job has done, from any rough state
-/
namespace Ferryd
open Spec
variable {W : World} {tgt : Option Str} {α β : Type} {s t : St}

/-! ## Logic -/

/-- When the program succeeds, its value and final state satisfy `P`. -/
structure Post (m : M α) (s : St) (P : α → St → Prop) : Prop where
  run : ∀ a, (m s).res = .ok a → P a (m s).st

theorem Post.bind {m : M α} {f : α → M β} {P : α → St → Prop} {R : β → St → Prop} (h : Post m s P)
    (hf : ∀ a t, P a t → Post (f a) t R) : Post (m >>= f) s R := by
  constructor
  intro b hb
  rcases hm : (m s).res with a | e | _
  · have e : (m >>= f) s = ⟨(f a (m s).st).res, (f a (m s).st).st, (m s).tr ++ (f a (m s).st).tr⟩ := by
      show M.bind' m f s = _
      unfold M.bind'; rw [hm]
    rw [e] at hb ⊢
    exact (hf a _ (h.run a hm)).run b hb
  · have e : (m >>= f) s = ⟨.err e, (m s).st, (m s).tr⟩ := by
      show M.bind' m f s = _
      unfold M.bind'; rw [hm]
    rw [e] at hb; cases hb
  · have e : (m >>= f) s = ⟨.panic, (m s).st, (m s).tr⟩ := by
      show M.bind' m f s = _
      unfold M.bind'; rw [hm]
    rw [e] at hb; cases hb

theorem Post.mono {m : M α} {P R : α → St → Prop} (h : Post m s P) (hr : ∀ a t, P a t → R a t) : Post m s R :=
  ⟨fun a ha => hr a _ (h.run a ha)⟩
theorem Post.and {m : M α} {P R : α → St → Prop} (h : Post m s P) (k : Post m s R) : Post m s (fun a t => P a t ∧ R a t) :=
  ⟨fun a ha => ⟨h.run a ha, k.run a ha⟩⟩
theorem Post.pure {a : α} {P : α → St → Prop} (h : P a s) : Post (pure a : M α) s P := ⟨fun b hb => by
  simp at hb; subst hb; exact h⟩
theorem Post.throw {e : Err} {P : α → St → Prop} : Post (throwE e : M α) s P := ⟨fun b hb => by simp at hb⟩
theorem Post.getSt {k : St → M β} {R : β → St → Prop} (h : Post (k s) s R) : Post (getSt >>= k) s R := ⟨h.run⟩
theorem Post.step {g : St → St} : Post (stepM g) s (fun _ t => t = g s) := ⟨fun _ _ => rfl⟩
theorem Post.vol {g : St → St} : Post (volM g) s (fun _ t => t = g s) := ⟨fun _ _ => rfl⟩

/-- The rough invariant is kept. -/
theorem Keeps.post {m : M α} {Q : α → Prop} (h : Keeps W tgt m Q) (hs : Rough W s) : Post m s (fun a t => Rough W t ∧ Q a) :=
  ⟨fun a ha => ⟨(h s hs).fin, (h s hs).val a ha⟩⟩
theorem At.post {m : M α} {Q : α → Prop} (h : At W tgt m s Q) (hm : Reads m) : Post m s (fun a t => t = s ∧ Q a) :=
  ⟨fun a ha => ⟨hm.st s, h.val a ha⟩⟩

/-- The program leaves all listings alone. -/
structure Ents (m : M α) : Prop where
  st : ∀ s, (m s).st.db.ents = s.db.ents

theorem Ents.bind {m : M α} {f : α → M β} (h : Ents m) (hf : ∀ a, Ents (f a)) : Ents (m >>= f) := ⟨fun s => by
  show (M.bind' m f s).st.db.ents = _
  unfold M.bind'
  cases (m s).res with
  | ok a => simp only; rw [(hf a).st, h.st]
  | err e => exact h.st s
  | panic => exact h.st s⟩

theorem Reads.ents {m : M α} (h : Reads m) : Ents m := ⟨fun s => by rw [h.st]⟩
theorem Ents.pure (a : α) : Ents (pure a : M α) := (Reads.pure a).ents
theorem Ents.throw (e : Err) : Ents (throwE e : M α) := (Reads.throw e).ents
theorem Ents.ite {c : Prop} [Decidable c] {m n : M α} (h : Ents m) (k : Ents n) : Ents (if c then m else n) := by
  split
  · exact h
  · exact k
theorem Ents.post {m : M α} (h : Ents m) : Post m s (fun _ t => t.db.ents = s.db.ents) := ⟨fun _ _ => h.st s⟩
theorem Ents.stepFs (g : St → FS) : Ents (stepM fun s => s.setFs (g s)) := ⟨fun _ => rfl⟩

theorem copyFile_ents (src dst : Path) : Ents (copyFile src dst) := by
  refine Reads.getSt.ents.bind fun s => ?_
  cases s.fs.tab src with
  | none => exact Ents.pure _
  | some i => exact (Ents.stepFs _).bind fun _ => Ents.stepFs _

theorem linkOrCopy_ents (E : Env) (src dst : Path) (b : Bool) : Ents (linkOrCopy E src dst b) := by
  unfold linkOrCopy
  refine Ents.ite (copyFile_ents _ _) (Reads.getSt.ents.bind fun s => ?_)
  cases s.fs.tab src with
  | none => exact copyFile_ents _ _
  | some i =>
    cases s.fs.tab dst with
    | some j => exact copyFile_ents _ _
    | none => exact Ents.ite (Ents.stepFs _) (copyFile_ents _ _)

theorem removeFile_ents (p : Path) : Ents (removeFile p) := Ents.stepFs _

theorem dbWrite_ents {w : DbWrite} (h : ∀ d : DB, (w.apply d).ents = d.ents) : Ents (dbWrite .direct w) := by
  unfold dbWrite
  refine Ents.ite (Ents.throw _) ⟨fun s => h s.db⟩

theorem fileSha1_reads (E : Env) (p : Path) : Reads (fileSha1 E p) := Reads.getSt.bind fun s => by
  cases s.fs.read p with
  | none => exact Reads.throw _
  | some c => exact Reads.ite (Reads.throw _) (Reads.pure _)

theorem poolAddInternal_ents (E : Env) (p : Pkg) (b : Bool) (d : Option DeltaInfo) : Ents (poolAddInternal E p b d) := by
  refine (poolGet?_reads _).ents.bind fun o => ?_
  cases o with
  | some e => exact (dbWrite_ents fun _ => rfl).bind fun _ => Ents.pure _
  | none =>
    refine Reads.getSt.ents.bind fun s => ?_
    cases s.fs.read p.path with
    | none => exact Ents.throw _
    | some c =>
      refine (pathComp_reads _).ents.bind fun comp => (linkOrCopy_ents _ _ _ _).bind fun _ => (fileSha1_reads _ _).ents.bind fun sha => ?_
      exact Ents.ite ((removeFile_ents _).bind fun _ => Ents.throw _) ((dbWrite_ents fun _ => rfl).bind fun _ => Ents.pure _)

theorem refEntry_ents (id : Str) : Ents (refEntry id) :=
  (poolGet_reads _).ents.bind fun _ => dbWrite_ents fun _ => rfl

theorem unrefEntry_ents (id : Str) : Ents (unrefEntry .direct id) :=
  (poolGet_reads _).ents.bind fun _ => Ents.ite (dbWrite_ents fun _ => rfl)
    ((pathComp_reads _).ents.bind fun _ => (removeFile_ents _).bind fun _ => dbWrite_ents fun _ => rfl)

theorem removePackageInternal_ents (rid id : Str) : Ents (removePackageInternal .direct rid id) := by
  refine (poolGet?_reads _).ents.bind fun o => ?_
  cases o with
  | none => exact Ents.pure _
  | some e => exact (pathComp_reads _).ents.bind fun _ => (removeFile_ents _).bind fun _ => unrefEntry_ents _

theorem bakeRepo_ents (rid : Str) : Ents (bakeRepo rid) := ⟨fun _ => rfl⟩

theorem getRepo_ents (rid : Str) : Ents (getRepo rid) := by
  refine Reads.getSt.ents.bind fun s => Ents.ite (Ents.pure _) ?_
  cases s.db.repos.get rid with
  | none => exact Ents.throw _
  | some _ => exact (bakeRepo_ents _).bind fun _ => ⟨fun _ => rfl⟩

theorem createRepo_ents (rid : Str) : Ents (createRepo rid) := by
  refine Reads.getSt.ents.bind fun s => ?_
  have k : Ents (if s.fs.rdir rid then throwE .artifacts
    else do
      dbWrite .direct (.putRepo rid)
      bakeRepo rid
      volM (fun s => { s with cache := rid :: s.cache }) : M Unit) :=
    Ents.ite (Ents.throw _) ((dbWrite_ents fun _ => rfl).bind fun _ => (bakeRepo_ents _).bind fun _ => ⟨fun _ => rfl⟩)
  cases (getRepo rid s).res with
  | ok _ => exact (getRepo_ents rid).bind fun _ => Ents.throw _
  | err _ => exact k
  | panic => exact k

theorem pullAsset_ents (dst src : Str) (a : Asset) : Ents (pullAsset dst src a) := by
  refine Reads.getSt.ents.bind fun s => ?_
  cases s.fs.tab (.asset src a) with
  | none => exact Ents.pure _
  | some _ => exact copyFile_ents _ _

theorem pullAssets_ents (dst src : Str) : Ents (pullAssets dst src) :=
  (pullAsset_ents _ _ _).bind fun _ => (pullAsset_ents _ _ _).bind fun _ => pullAsset_ents _ _ _

theorem indexRepo_ents (E : Env) (rid : Str) : Ents (indexRepo E rid) := by
  refine (initDistribution_reads _ _).ents.bind fun d => (emitIndex_reads _ _ _).ents.bind fun doc => Reads.getSt.ents.bind fun s => ?_
  refine Ents.bind ⟨fun _ => rfl⟩ fun _ => ?_
  cases E.indexIO s.clock with
  | failBefore => exact Ents.throw _
  | ok => exact Ents.stepFs _
  | failAfter => exact (Ents.stepFs _).bind fun _ => Ents.throw _

theorem mIndex_ents (E : Env) (rid : Str) : Ents (mIndex E rid) := (getRepo_ents rid).bind fun _ => indexRepo_ents E rid

/-! ## Adding -/

theorem Lists.congr {r : Str} (h : t.db.ents = s.db.ents) (n id : Str) : Lists t r n id ↔ Lists s r n id := by
  unfold Lists; rw [h]

/-- Repository `r` now lists also `id`; nothing else is listed anew or no longer, in any repository. -/
structure Adds (W : World) (r id : Str) (s t : St) : Prop where
  here : ∀ n x, Lists t r n x ↔ Lists s r n x ∨ (x = id ∧ nameOf W x = n)
  there : ∀ r', r' ≠ r → t.db.ents r' = s.db.ents r'

theorem repoPut_post {rid : Str} {e : RepoEntry} :
    Post (repoPut rid e) s (fun _ t => t.db.ents = setEnts s.db.ents rid ((s.db.ents rid).put e.name e)) := by
  unfold repoPut dbWrite
  split
  · exact Post.throw
  · exact ⟨fun _ _ => rfl⟩

theorem repoGet?_post (r n : Str) : Post (repoGet? r n) s (fun o t => t = s ∧ o = (s.db.ents r).get n) := ⟨fun o ho => by
  refine ⟨rfl, ?_⟩
  have : (repoGet? r n s).res = .ok ((s.db.ents r).get n) := rfl
  rw [this] at ho; cases ho; rfl⟩

theorem repoGet_post (r n : Str) : Post (repoGet r n) s (fun e t => t = s ∧ (s.db.ents r).get n = some e) :=
  (repoGet?_post r n).bind fun o t h => by
    obtain ⟨rfl, rfl⟩ := h
    cases hg : (t.db.ents r).get n with
    | none => exact Post.throw
    | some e => exact Post.pure ⟨rfl, rfl⟩

theorem Reads.post {m : M α} (h : Reads m) : Post m s (fun _ t => t = s) := ⟨fun _ _ => h.st s⟩

theorem buildSaneEntry_post (rid : Str) (m : Meta) (id : Str) :
    Post (buildSaneEntry rid m id) s (fun o t => t = s ∧
      match o with
      | none => ∃ e, (s.db.ents rid).get m.name = some e ∧ id ∈ e.available
      | some ne => ne.name = m.name ∧ ∀ x, x ∈ ne.available ↔ x = id ∨ ∃ e, (s.db.ents rid).get m.name = some e ∧ x ∈ e.available) := by
  refine (repoGet?_post rid m.name).bind fun o t h => ?_
  obtain ⟨rfl, rfl⟩ := h
  cases hg : (t.db.ents rid).get m.name with
  | none => exact Post.pure ⟨rfl, rfl, fun x => by simp⟩
  | some e =>
    refine Post.bind (P := fun _ u => u = t) ?_ fun pub u hu => ?_
    · refine (Reads.bind (poolGet?_reads _) fun o => ?_).post
      cases o with
      | none => exact Reads.pure _
      | some pa => exact (getRelease_reads _).bind fun _ => (getRelease_reads _).bind fun _ => Reads.ite (Reads.pure _) (Reads.pure _)
    · subst hu
      split
      · rename_i hi; exact Post.pure ⟨rfl, e, rfl, hi⟩
      · refine Post.pure ⟨rfl, rfl, fun x => ?_⟩
        simp only [mem_sortS, List.mem_append, List.mem_singleton, Option.some.injEq, exists_eq_left']
        exact Or.comm

theorem put_lists {r n' id' : Str} {e : RepoEntry} (ht : t.db.ents = setEnts s.db.ents r ((s.db.ents r).put e.name e)) :
    Lists t r n' id' ↔ (if n' = e.name then id' ∈ e.available else Lists s r n' id') := by
  unfold Lists
  rw [ht]
  simp only [setEnts, if_true, KV.get_put]
  split
  · simp
  · exact Iff.rfl

/-- Storing the record computed by `buildSaneEntry` lists the package, and no other. -/
theorem adds_of_put {rid id : Str} {m : Meta} (hm : m.name = nameOf W id) {ne : RepoEntry} {u : St} (hu : u.db.ents = s.db.ents)
    (hn : ne.name = m.name) (ha : ∀ x, x ∈ ne.available ↔ x = id ∨ ∃ e, (s.db.ents rid).get m.name = some e ∧ x ∈ e.available)
    (ht : t.db.ents = setEnts u.db.ents rid ((u.db.ents rid).put ne.name ne)) : Adds W rid id s t := by
  rw [hu] at ht
  refine ⟨fun n x => ?_, fun r' hr' => ?_⟩
  · rw [put_lists ht]
    split
    · rename_i h
      rw [ha, h, hn]
      constructor
      · rintro (rfl | ⟨e, h1, h2⟩)
        · exact .inr ⟨rfl, hm.symm⟩
        · exact .inl ⟨e, h1, h2⟩
      · rintro (⟨e, h1, h2⟩ | ⟨rfl, _⟩)
        · exact .inr ⟨e, h1, h2⟩
        · exact .inl rfl
    · rename_i h
      constructor
      · exact .inl
      · rintro (h' | ⟨rfl, h'⟩)
        · exact h'
        · exact absurd (by rw [hn, hm, h']) h
  · rw [ht]; simp [setEnts, hr']

theorem adds_already {rid id n : Str} (hs : Rough W s) (h : Lists s rid n id) : Adds W rid id s s := by
  refine ⟨fun n' x => ⟨.inl, ?_⟩, fun _ _ => rfl⟩
  rintro (h' | ⟨rfl, hn⟩)
  · exact h'
  · obtain ⟨e, hg, hi⟩ := h
    have := ((hs.db.ent rid n e hg).avail _ hi).2.2
    rw [show nameOf W x = n from this] at hn
    subst hn
    exact ⟨e, hg, hi⟩

theorem refPackage_post (rid id : Str) (hs : Rough W s) : Post (refPackage W.E rid id) s (fun _ t => Adds W rid id s t) := by
  refine ((poolGet_at (tgt := some rid) id hs).post (poolGet_reads _)).bind fun pe t h => ?_
  obtain ⟨rfl, _, hpe⟩ := h
  refine (pathComp_reads _).post.bind fun c t' h => ?_
  subst h
  refine (buildSaneEntry_post rid pe.pkg id).bind fun o t h => ?_
  obtain ⟨rfl, h⟩ := h
  cases o with
  | none =>
    obtain ⟨e, hg, hi⟩ := h
    exact Post.pure (adds_already hs ⟨e, hg, hi⟩)
  | some ne =>
    refine (refEntry_ents id).post.bind fun _ u hu => (linkOrCopy_ents _ _ _ _).post.bind fun _ v hv => repoPut_post.mono fun _ t' ht => ?_
    exact adds_of_put (m := pe.pkg) hpe.pname (hv.trans hu) h.1 h.2 ht

theorem addLocalPackage_post (rid : Str) {p : Pkg} {file : Path} (hs : Rough W s) (hp : ROpen W p file) :
    Post (addLocalPackage W.E rid p) s (fun _ t => Adds W rid p.id s t) := by
  refine (pathComp_reads _).post.bind fun c t' h => ?_
  subst h
  refine (buildSaneEntry_post rid p.pkg p.id).bind fun o t h => ?_
  obtain ⟨rfl, h⟩ := h
  cases o with
  | none =>
    obtain ⟨e, hg, hi⟩ := h
    exact Post.pure (adds_already hs ⟨e, hg, hi⟩)
  | some ne =>
    refine (poolAddInternal_ents _ _ _ _).post.bind fun _ u hu => (linkOrCopy_ents _ _ _ _).post.bind fun _ v hv => repoPut_post.mono fun _ t' ht => ?_
    exact adds_of_put (m := p.pkg) (by rw [hp.pkg]; rfl) (hv.trans hu) h.1 h.2 ht

theorem addPackage_post (ok : W.OK) (hz : W.NoTorn) (rid : Str) {file : Path} {strict : Bool} (hn : file.isAsset = false) (hs : Rough W s) :
    Post (addPackage W.E rid file strict) s (fun _ t => Adds W rid file.base s t) := by
  refine ((openPkg_at (tgt := some rid) ok hz hn hs).post (openPkg_reads _ _)).bind fun p t h => ?_
  obtain ⟨rfl, hp, _⟩ := h
  have hal := addLocalPackage_post rid hs hp
  rw [hp.id] at hal
  split
  · exact hal
  · refine (repoGet?_reads _ _).post.bind fun o u hu => ?_
    subst hu
    cases o with
    | none => exact hal
    | some l =>
      refine (poolGet_reads _).post.bind fun _ u hu => ?_
      subst hu
      refine (getRelease_reads _).post.bind fun _ u hu => ?_
      subst hu
      refine (getRelease_reads _).post.bind fun _ u hu => ?_
      subst hu
      split
      · exact Post.throw
      · split
        · exact Post.throw
        · exact hal

/-- Repository `r` now lists also the packages `ids`; nothing else is listed anew or no longer, in any repository. -/
structure AddsAll (W : World) (r : Str) (ids : List Str) (s t : St) : Prop where
  here : ∀ n x, Lists t r n x ↔ Lists s r n x ∨ (x ∈ ids ∧ nameOf W x = n)
  there : ∀ r', r' ≠ r → t.db.ents r' = s.db.ents r'

theorem AddsAll.nil (W : World) (r : Str) (s : St) : AddsAll W r [] s s := ⟨fun n x => by simp, fun _ _ => rfl⟩
theorem AddsAll.cons {r id : Str} {ids : List Str} {u : St} (h : Adds W r id s t) (k : AddsAll W r ids t u) : AddsAll W r (id :: ids) s u := by
  refine ⟨fun n x => ?_, fun r' hr => (k.there r' hr).trans (h.there r' hr)⟩
  rw [k.here, h.here, List.mem_cons]
  constructor
  · rintro ((h | ⟨h1, h2⟩) | ⟨h1, h2⟩)
    · exact .inl h
    · exact .inr ⟨.inl h1, h2⟩
    · exact .inr ⟨.inr h1, h2⟩
  · rintro (h | ⟨h1 | h1, h2⟩)
    · exact .inl (.inl h)
    · exact .inl (.inr ⟨h1, h2⟩)
    · exact .inr ⟨h1, h2⟩
theorem AddsAll.ents {r : Str} {ids : List Str} {s' t' : St} (h : AddsAll W r ids s t) (hs : s.db.ents = s'.db.ents) (ht : t'.db.ents = t.db.ents) :
    AddsAll W r ids s' t' :=
  ⟨fun n x => by rw [Lists.congr ht, h.here, Lists.congr hs], fun r' hr => by rw [ht, h.there r' hr, hs]⟩

theorem forL_adds {γ : Type} {r : Str} {f : γ → M Unit} {id : γ → Str} : ∀ (l : List γ) {s : St}, Rough W s →
    (∀ x ∈ l, Keeps W (some r) (f x) (fun _ => True)) → (∀ x ∈ l, ∀ s, Rough W s → Post (f x) s (fun _ t => Adds W r (id x) s t)) →
    Post (forL l f) s (fun _ t => Rough W t ∧ AddsAll W r (l.map id) s t) := by
  intro l
  induction l with
  | nil => intro s hs _ _; exact Post.pure ⟨hs, AddsAll.nil W r s⟩
  | cons x xs ih =>
    intro s hs hk hp
    refine (((hk x (by simp)).post hs).and (hp x (by simp) s hs)).bind fun _ t h => ?_
    refine (ih h.1.1 (fun y hy => hk y (by simp [hy])) (fun y hy => hp y (by simp [hy]))).mono fun _ u hu => ?_
    exact ⟨hu.1, AddsAll.cons h.2 hu.2⟩

/-! ## Removing -/

/-- Repository `r` no longer lists `id`; nothing else changes in any listing. -/
structure Drops (r id : Str) (s t : St) : Prop where
  here : ∀ n x, Lists t r n x ↔ Lists s r n x ∧ x ≠ id
  there : ∀ r', r' ≠ r → t.db.ents r' = s.db.ents r'

theorem Ents.forL {γ : Type} {l : List γ} {f : γ → M Unit} (h : ∀ x ∈ l, Ents (f x)) : Ents (forL l f) := by
  induction l with
  | nil => exact Ents.pure _
  | cons x xs ih => exact (h x (by simp)).bind fun _ => ih fun y hy => h y (by simp [hy])

theorem Ents.collectL {γ δ : Type} {l : List γ} {f : γ → M (List δ)} (h : ∀ x ∈ l, Ents (f x)) : Ents (collectL l f) := by
  induction l with
  | nil => exact Ents.pure _
  | cons x xs ih =>
    exact (h x (by simp)).bind fun a => (ih fun y hy => h y (by simp [hy])).bind fun b => Ents.pure _

theorem Reads.foldL {γ δ : Type} {l : List γ} {f : δ → γ → M δ} (h : ∀ x b, Reads (f b x)) : ∀ {b : δ}, Reads (foldL l b f) := by
  induction l with
  | nil => intro b; exact Reads.pure _
  | cons x xs ih => intro b; exact (h x b).bind fun b' => ih

theorem unrefDeltas_ents (rid pkgID : Str) (ds : List Str) : Ents (unrefDeltas rid pkgID ds) := by
  refine Ents.collectL fun d _ => (poolGet_reads _).ents.bind fun pd => ?_
  cases pd.delta with
  | none => exact Reads.panic.ents
  | some di => exact Ents.ite ((removePackageInternal_ents _ _).bind fun _ => Ents.pure _) (Ents.pure _)

theorem unrefAvail_reads (pkgID : Str) (av : List Str) : Reads (unrefAvail pkgID av) :=
  Reads.foldL fun _ _ => Reads.ite (Reads.pure _) ((poolGet_reads _).bind fun _ => (getRelease_reads _).bind fun _ =>
    Reads.ite (Reads.pure _) (Reads.pure _))

theorem unrefPackage_post (ok : W.OK) (rid pkgID : Str) (hs : Rough W s) : Post (unrefPackage rid pkgID) s (fun _ t => Drops rid pkgID s t) := by
  refine ((poolGet_at (tgt := some rid) pkgID hs).post (poolGet_reads _)).bind fun pe t h => ?_
  obtain ⟨rfl, _, hpe⟩ := h
  refine (repoGet_post rid pe.pkg.name).bind fun e t' h => ?_
  obtain ⟨rfl, hg⟩ := h
  have he := hs.db.ent _ _ _ hg
  refine (((removePackageInternal_keeps ok .direct rid pkgID).post hs).and (removePackageInternal_ents rid pkgID).post).bind fun _ u hu => ?_
  refine (((unrefDeltas_keeps ok he.deltas).post hu.1.1).and (unrefDeltas_ents rid pkgID _).post).bind fun ds v hv => ?_
  have hents : v.db.ents = t'.db.ents := hv.2.trans hu.2
  have hra := (unrefAvail_keeps (tgt := some rid) ok (pkgID := pkgID) e.available [] (0, [], []) ⟨rfl, fun _ => rfl, fun h => absurd rfl h⟩
    (fun id hid => (he.avail id hid).2.1)).post hv.1.1
  refine (hra.and (unrefAvail_reads pkgID e.available).post).bind fun acc w hw => ?_
  obtain ⟨⟨_, hacc⟩, rfl⟩ := hw
  have hrest := hacc.rest
  simp only [List.nil_append] at hrest
  -- packages under another name are not this one
  have hother : ∀ n x, n ≠ e.name → Lists t' rid n x → x ≠ pkgID := by
    rintro n x hne ⟨e', hg', hx⟩ rfl
    have := ((hs.db.ent _ _ _ hg').avail _ hx).2.2
    exact hne (by rw [← this, ← hpe.pname, he.name])
  have hself : ∀ x, Lists t' rid e.name x ↔ x ∈ e.available := by
    intro x
    unfold Lists
    rw [he.name, hg]; simp
  split
  · rename_i hlen
    have hnil : acc.2.2 = [] := by
      cases hl : acc.2.2 with
      | nil => rfl
      | cons a l => rw [hl] at hlen; simp at hlen
    rw [hnil] at hrest
    unfold dbWrite
    split
    · exact Post.throw
    · refine ⟨fun _ _ => ?_⟩
      refine ⟨fun n x => ?_, fun r' hr' => ?_⟩
      · show (∃ e', ((setEnts w.db.ents rid ((w.db.ents rid).del e.name)) rid).get n = some e' ∧ x ∈ e'.available) ↔ _
        simp only [setEnts, if_true, KV.get_del]
        by_cases hne : n = e.name
        · subst hne
          rw [if_pos rfl, hself]
          simp only [reduceCtorEq, false_and, exists_false, false_iff, not_and, Decidable.not_not]
          intro hx
          have := List.filter_eq_nil_iff.1 hrest.symm x hx
          simpa using this
        · rw [if_neg hne, hents]
          exact ⟨fun h => ⟨h, hother n x hne h⟩, fun h => h.1⟩
      · show setEnts w.db.ents rid ((w.db.ents rid).del e.name) r' = _
        simp only [setEnts, if_neg hr']; rw [hents]
  · refine repoPut_post.mono fun _ t2 ht2 => ?_
    rw [hents] at ht2
    refine ⟨fun n x => ?_, fun r' hr' => ?_⟩
    · rw [put_lists ht2]
      simp only
      split
      · rename_i hn; subst hn
        rw [mem_sortS, hrest, hself, List.mem_filter]; simp
      · rename_i hne
        exact ⟨fun h => ⟨h, hother n x hne h⟩, fun h => h.1⟩
    · rw [ht2]; simp [setEnts, hr']

structure DropsAll (r : Str) (ids : List Str) (s t : St) : Prop where
  here : ∀ n x, Lists t r n x ↔ Lists s r n x ∧ x ∉ ids
  there : ∀ r', r' ≠ r → t.db.ents r' = s.db.ents r'

theorem DropsAll.ents {r : Str} {ids : List Str} {s' t' : St} (h : DropsAll r ids s t) (hs : s.db.ents = s'.db.ents) (ht : t'.db.ents = t.db.ents) :
    DropsAll r ids s' t' :=
  ⟨fun n x => by rw [Lists.congr ht, h.here, Lists.congr hs], fun r' hr => by rw [ht, h.there r' hr, hs]⟩

theorem forL_drops (ok : W.OK) {r : Str} : ∀ (l : List Str) {s : St}, Rough W s →
    Post (forL l (unrefPackage r)) s (fun _ t => Rough W t ∧ DropsAll r l s t) := by
  intro l
  induction l with
  | nil => intro s hs; exact Post.pure ⟨hs, ⟨fun n x => by simp, fun _ _ => rfl⟩⟩
  | cons x xs ih =>
    intro s hs
    refine (((unrefPackage_keeps ok r x).post hs).and (unrefPackage_post ok r x hs)).bind fun _ t h => (ih h.1.1).mono fun _ u hu => ⟨hu.1, ?_⟩
    refine ⟨fun n y => ?_, fun r' hr => (hu.2.there r' hr).trans (h.2.there r' hr)⟩
    rw [hu.2.here, h.2.here, List.mem_cons]
    constructor
    · rintro ⟨⟨a, b⟩, c⟩; exact ⟨a, fun h => h.elim b c⟩
    · rintro ⟨a, b⟩; exact ⟨⟨a, fun h => b (.inl h)⟩, fun h => b (.inr h)⟩

/-! ## Selecting -/

theorem matchingSource_reads (rid source : Str) (release : Int) : Reads (matchingSource rid source release) :=
  (repoEntries_reads _).bind fun _ => Reads.collectL fun _ _ => Reads.collectL fun _ _ => (poolGet_reads _).bind fun _ =>
    Reads.ite (Reads.pure _) (Reads.ite ((getRelease_reads _).bind fun _ => Reads.ite (Reads.pure _) (Reads.pure _)) (Reads.pure _))

/-- Is the package the one asked for? -/
def Matches (W : World) (source : Str) (release : Int) (id : Str) : Prop :=
  sourceOf W id = source ∧ (0 < release → relOf W id = release)

theorem matchingSource_at (ok : W.OK) (rid source : Str) (release : Int) (hs : Rough W s) :
    At W tgt (matchingSource rid source release) s
      (fun o => ∀ id, id ∈ o ↔ Has s rid id ∧ Matches W source release id) := by
  have he : At W tgt (repoEntries rid) s (fun es => es = (s.db.ents rid).map Prod.snd) := At.getSt (At.pure hs rfl)
  refine he.read (repoEntries_reads _) fun es hes => ?_
  subst hes
  classical
  refine At.mono (At.collect (g := fun e => e.available.flatMap fun id => if Matches W source release id then [id] else []) hs ?_ ?_) ?_
  · intro e _
    exact Reads.collectL fun _ _ => (poolGet_reads _).bind fun _ =>
      Reads.ite (Reads.pure _) (Reads.ite ((getRelease_reads _).bind fun _ => Reads.ite (Reads.pure _) (Reads.pure _)) (Reads.pure _))
  · intro e _
    refine At.collect hs (fun _ _ => (poolGet_reads _).bind fun _ =>
      Reads.ite (Reads.pure _) (Reads.ite ((getRelease_reads _).bind fun _ => Reads.ite (Reads.pure _) (Reads.pure _)) (Reads.pure _))) ?_
    intro id _
    refine (poolGet_at id hs).read (poolGet_reads _) fun pe hpe => ?_
    have hsrc : pe.pkg.source = sourceOf W id := by rw [hpe.2.pkg]; rfl
    split
    · rename_i hne
      exact At.pure hs (by rw [if_neg (fun h => hne (by rw [hsrc]; exact h.1))])
    · rename_i heq
      have heq := Decidable.not_not.1 heq
      rw [hsrc] at heq
      split
      · rename_i hpos
        refine (getRelease_keeps (hpe.2.hist ok) s hs).read (getRelease_reads _) fun rel hrel => ?_
        rw [hpe.2.rel] at hrel
        split
        · rename_i hne
          exact At.pure hs (by rw [if_neg (fun h => hne (by rw [hrel]; exact h.2 hpos))])
        · rename_i hre
          exact At.pure hs (by rw [if_pos ⟨heq, fun _ => by rw [relOf_eq, ← hrel]; exact Decidable.not_not.1 hre⟩])
      · rename_i hpos
        exact At.pure hs (by rw [if_pos ⟨heq, fun h => absurd h hpos⟩])
  · rintro o rfl id
    simp only [List.mem_flatMap, List.mem_map]
    constructor
    · rintro ⟨e, ⟨⟨n, e'⟩, hm, rfl⟩, x, hx, hi⟩
      split at hi
      · rename_i hmat
        simp only [List.mem_singleton] at hi
        subst hi
        exact ⟨⟨n, e', KV.get_of_mem (hs.db.wfEnts rid) hm, hx⟩, hmat⟩
      · cases hi
    · rintro ⟨⟨n, e, hg, hx⟩, hmat⟩
      exact ⟨e, ⟨(n, e), KV.mem_of_get hg, rfl⟩, id, hx, by rw [if_pos hmat]; simp⟩

/-! ## Indexing -/

/-- A run that succeeds has published the right document; nothing else differs. -/
theorem indexRepo_post (ok : W.OK) (rid : Str) (hs : Rough W s) :
    Post (indexRepo W.E rid) s (fun _ t => ∃ d, W.distOf s rid = some d ∧ W.compsOk s rid = true ∧
      t = ({ s with clock := s.clock + 1 } : St).publish rid (W.docOf s rid d)) := by
  refine ((initDistribution_at (tgt := some rid) rid hs).post (initDistribution_reads _ _)).bind fun d t h => ?_
  obtain ⟨rfl, hd⟩ := h
  refine ((emitIndex_at (tgt := some rid) ok rid d hs).post (emitIndex_reads _ _ _)).bind fun doc t' h => ?_
  obtain ⟨rfl, rfl, hc⟩ := h
  refine Post.getSt ?_
  refine Post.vol.bind fun _ u hu => ?_
  subst hu
  cases W.E.indexIO t'.clock with
  | failBefore => exact Post.throw
  | ok => exact Post.step.mono fun _ v hv => ⟨d, hd, hc, hv⟩
  | failAfter => exact Post.step.bind fun _ _ _ => Post.throw

/-- What a correct index says, the bytes in the served files aside. -/
structure IndexRight (W : World) (s : St) (r : Str) (doc : Doc) : Prop where
  obsoletes : doc.obsoletes = (s.fs.read (.asset r .distribution)).bind W.E.parseDist
  components : Carries W.E.parseComps (s.fs.read (.asset r .components)) doc.components
  groups : Carries W.E.parseGroups (s.fs.read (.asset r .groups)) doc.groups
  sorted : SortedS (doc.packages.map DocPkg.id)
  exact_ : ∃ obs, Obsolete W s r = some obs ∧
    Enumerates (doc.packages.map DocPkg.id) (fun id => ∃ n, Tip s r n id ∧ ¬ Hidden obs n)
  pkgs : ∀ p ∈ doc.packages, ∃ d, dirOf W p.id = some d ∧
    p.pkg.uri = d ++ '/' :: p.id ∧ p.pkg.size = (W.canon p.id).length ∧ p.pkg.hash = W.E.sha1 (W.canon p.id) ∧
    p.pkg.name = nameOf W p.id ∧ p.pkg.source = sourceOf W p.id ∧ p.pkg.history = (W.mOf p.id).history

theorem Rough.tip_avail (hs : Rough W s) {r n id : Str} (h : Tip s r n id) :
    ∃ e, (s.db.ents r).get n = some e ∧ id ∈ e.available ∧ W.IsPkg id ∧ (W.mOf id).name = n := by
  obtain ⟨e, hg, rfl⟩ := h
  have he := hs.db.ent r n e hg
  exact ⟨e, hg, he.pub, (he.avail _ he.pub).2⟩

theorem Rough.docRight (ok : W.OK) (hs : Rough W s) {r : Str} {d : Option (List Str)} (hd : W.distOf s r = some d)
    (hc : W.compsOk s r = true) : IndexRight W s r (W.docOf s r d) ∧ IndexDeltas W s r (W.docOf s r d) := by
  refine ⟨⟨obsoletes_of_dist hd, carries_of (Bool.and_eq_true _ _ ▸ hc).1, carries_of (Bool.and_eq_true _ _ ▸ hc).2, ?_, ⟨d.getD [], obsolete_of_dist hd, ?_, ?_⟩, ?_⟩, ?_⟩
  · show SortedS ((List.map _ _).map DocPkg.id)
    rw [map_docPkg_id]; exact sorted_docIds r _
  · show ((List.map _ _).map DocPkg.id).Nodup
    rw [map_docPkg_id]; exact hs.nodup_docIds r _
  · intro id
    show id ∈ (List.map _ _).map DocPkg.id ↔ _
    rw [map_docPkg_id]; exact hs.mem_docIds r _ id
  · intro p hp
    obtain ⟨id, hid, rfl⟩ := List.mem_map.1 hp
    obtain ⟨n, ht, _⟩ := (hs.mem_docIds r _ id).1 hid
    obtain ⟨e, hg, hin, hpk, hnm⟩ := hs.tip_avail ht
    obtain ⟨c, hc⟩ := ok.comp hpk
    refine ⟨c, hc, ?_, rfl, rfl, rfl, rfl, rfl⟩
    show mkURI ((W.compOf id).getD []) id = _
    rw [show W.compOf id = some c from hc]; rfl
  · intro p hp x
    obtain ⟨id, hid, rfl⟩ := List.mem_map.1 hp
    obtain ⟨n, ht, _⟩ := (hs.mem_docIds r _ id).1 hid
    obtain ⟨e, hg, hin, hpk, hn⟩ := hs.tip_avail ht
    have hg' : (s.db.ents r).get (W.mOf id).name = some e := by rw [hn]; exact hg
    show x ∈ (match (s.db.ents r).get (W.mOf id).name with
      | some e => W.docDeltas s e (W.mOf id).rel
      | none => []) ↔ _
    rw [hg']
    simp only [World.docDeltas, List.mem_filterMap]
    constructor
    · rintro ⟨dd, hdd, hm⟩
      cases hpg : s.db.pool.get dd with
      | none => rw [hpg] at hm; cases hm
      | some pe =>
        rw [hpg] at hm
        cases hdi : pe.delta with
        | none => simp only [hdi] at hm; cases hm
        | some di =>
          simp only [hdi] at hm
          split at hm
          · rename_i hrel
            refine ⟨dd, pe, di, ⟨n, e, hg, hdd⟩, ?_, hpg, hdi, hrel, ?_⟩
            · exact (((hs.db.ent r n e hg).deltas dd hdd).2.2).trans hn.symm
            · simpa [World.stamped, mkURI, dirOf, World.compOf, sourceOf] using hm.symm
          · cases hm
    · rintro ⟨dd, pe, di, ⟨n', e', hg2, hdd⟩, hnm, hpg, hdi, hrel, rfl⟩
      have h1 := ((hs.db.ent r n' e' hg2).deltas dd hdd).2.2
      have : n' = n := h1.symm.trans (hnm.trans hn)
      subst this
      rw [hg] at hg2; cases hg2
      refine ⟨dd, hdd, ?_⟩
      simp only [hpg, hdi]
      refine (if_pos hrel).trans ?_
      rfl

/-! ## DelWrite: always possible -/

/-- The program succeeds, without touching the database. -/
structure Sure (m : M Unit) (s : St) (P : St → Prop) : Prop where
  res : (m s).res = .ok ()
  st : P (m s).st

theorem Sure.bind {m : M Unit} {f : Unit → M Unit} {P R : St → Prop} (h : Sure m s P) (hf : ∀ t, P t → Sure (f ()) t R) :
    Sure (m >>= f) s R := by
  have e : (m >>= f) s = ⟨(f () (m s).st).res, (f () (m s).st).st, (m s).tr ++ (f () (m s).st).tr⟩ := by
    show M.bind' m f s = _
    unfold M.bind'; rw [h.res]
  have k := hf _ h.st
  constructor <;> rw [e]
  · exact k.res
  · exact k.st

theorem Sure.read {m : M α} {f : α → M Unit} {a : α} {R : St → Prop} (hm : m s = ⟨.ok a, s, []⟩) (h : Sure (f a) s R) : Sure (m >>= f) s R := by
  have e : (m >>= f) s = f a s := by
    show M.bind' m f s = _
    unfold M.bind'; rw [hm]; simp
  constructor <;> rw [e]
  · exact h.res
  · exact h.st

/-- The batch has grown by `more`, the database is as it was. -/
def Queued (s : St) (ok : DbWrite → Prop) (must : List DbWrite) (t : St) : Prop :=
  t.db = s.db ∧ ∃ more, t.pend = s.pend ++ more ∧ (∀ w ∈ more, ok w) ∧ ∀ w ∈ must, w ∈ more

theorem Queued.refl (s : St) (ok : DbWrite → Prop) : Queued s ok [] s := ⟨rfl, [], by simp, by simp, by simp⟩
theorem Queued.trans {ok : DbWrite → Prop} {a b : List DbWrite} {u : St} (h : Queued s ok a t) (k : Queued t ok b u) : Queued s ok (a ++ b) u := by
  obtain ⟨h1, m1, h2, h3, h4⟩ := h
  obtain ⟨k1, m2, k2, k3, k4⟩ := k
  refine ⟨k1.trans h1, m1 ++ m2, by rw [k2, h2, List.append_assoc], ?_, ?_⟩
  · intro w hw
    rcases List.mem_append.1 hw with hw | hw
    · exact h3 w hw
    · exact k3 w hw
  · intro w hw
    rcases List.mem_append.1 hw with hw | hw
    · exact List.mem_append.2 (.inl (h4 w hw))
    · exact List.mem_append.2 (.inr (k4 w hw))
theorem Queued.weaken {ok : DbWrite → Prop} {a b : List DbWrite} (h : Queued s ok a t) (hb : ∀ w ∈ b, w ∈ a) : Queued s ok b t := by
  obtain ⟨h1, m, h2, h3, h4⟩ := h
  exact ⟨h1, m, h2, h3, fun w hw => h4 w (hb w hw)⟩

theorem queue_sure {w : DbWrite} {ok : DbWrite → Prop} (hk : reservedKey w.key = false) (hw : ok w) :
    Sure (dbWrite .batch w) s (Queued s ok [w]) := by
  unfold dbWrite
  rw [if_neg (by rw [hk]; simp)]
  exact ⟨rfl, rfl, [w], rfl, by simpa using hw, by simp⟩

/-- Writes of a deletion. -/
def DelWrite (r : Str) : DbWrite → Prop
  | .putPool _ _ => True
  | .delPool _ => True
  | .delEnt r' _ => r' = r
  | .delRepo r' => r' = r
  | _ => False

theorem removeFile_sure (p : Path) (ok : DbWrite → Prop) : Sure (removeFile p) s (Queued s ok []) := ⟨rfl, Queued.refl s ok⟩

theorem pathComp_run {m : Meta} (h : m.source ≠ []) : ∃ c, pathComp m s = ⟨.ok c, s, []⟩ := by
  obtain ⟨c, hc⟩ := pathComp?_isSome h
  exact ⟨c, by unfold pathComp; rw [hc]; rfl⟩

theorem removePackageInternal_sure (ok : W.OK) (rid id : Str) {db : DB} (hp : ∀ id pe, db.pool.get id = some pe → RPool W id pe)
    (hdb : s.db = db) : Sure (removePackageInternal .batch rid id) s (Queued s (DelWrite rid) []) := by
  subst hdb
  unfold removePackageInternal
  cases hg : s.db.pool.get id with
  | none => exact Sure.read (a := none) (by rw [← hg]; rfl) ⟨rfl, Queued.refl s _⟩
  | some e =>
    have he := hp id e hg
    refine Sure.read (a := some e) (by rw [← hg]; rfl) ?_
    obtain ⟨c, hc⟩ := pathComp_run (s := s) (he.src ok)
    refine Sure.read hc ?_
    refine (removeFile_sure _ (DelWrite rid)).bind fun t ht => ?_
    have htd : t.db = s.db := ht.1
    have hgt : t.db.pool.get id = some e := by rw [htd]; exact hg
    have hpg : poolGet id t = ⟨.ok e, t, []⟩ := by
      have h0 : poolGet? id t = ⟨.ok (some e), t, []⟩ := by rw [← hgt]; rfl
      unfold poolGet
      rw [bind_ok h0]; rfl
    unfold unrefEntry
    have hres : reservedKey id = false := (ok.gid he.isPkg).nres
    have fin : Sure (if dec64 e.refCount > 0 then
        dbWrite .batch (.putPool e.name { e with refCount := dec64 e.refCount })
      else do
        let comp ← pathComp e.pkg
        removeFile (.pool comp id)
        dbWrite .batch (.delPool id)) t (Queued t (DelWrite rid) []) := by
      split
      · have := queue_sure (s := t) (w := .putPool e.name { e with refCount := dec64 e.refCount }) (ok := DelWrite rid)
          (by show reservedKey e.name = false; rw [he.name]; exact hres) trivial
        exact ⟨this.res, this.st.weaken (by simp)⟩
      · obtain ⟨c, hc⟩ := pathComp_run (s := t) (he.src ok)
        refine Sure.read hc ((removeFile_sure _ (DelWrite rid)).bind fun u hu => ?_)
        have := queue_sure (s := u) (w := .delPool id) (ok := DelWrite rid) hres trivial
        exact ⟨this.res, (hu.trans this.st).weaken (by simp)⟩
    have := Sure.read (f := fun e => if dec64 e.refCount > 0 then
        dbWrite .batch (.putPool e.name { e with refCount := dec64 e.refCount })
      else do
        let comp ← pathComp e.pkg
        removeFile (.pool comp id)
        dbWrite .batch (.delPool id)) hpg fin
    exact ⟨this.res, (ht.trans this.st).weaken (by simp)⟩

theorem forL_sure {γ : Type} {ok : DbWrite → Prop} {must : γ → List DbWrite} {f : γ → M Unit} : ∀ (l : List γ) {s : St},
    (∀ x ∈ l, ∀ t, t.db = s.db → Sure (f x) t (Queued t ok (must x))) → Sure (forL l f) s (Queued s ok (l.flatMap must)) := by
  intro l
  induction l with
  | nil => intro s _; exact ⟨rfl, Queued.refl s ok⟩
  | cons x xs ih =>
    intro s h
    refine Sure.bind (h x (by simp) s rfl) fun t ht => ?_
    have k := ih (s := t) fun y hy u hu => h y (by simp [hy]) u (hu.trans ht.1)
    exact ⟨k.res, by rw [List.flatMap_cons]; exact ht.trans k.st⟩

theorem Sure.map {m : M Unit} {P R : St → Prop} (h : Sure m s P) (hr : ∀ t, P t → R t) : Sure m s R := ⟨h.res, hr _ h.st⟩

theorem REntry.name_resv (ok : W.OK) {n : Str} {e : RepoEntry} (h : REntry W n e) : reservedKey e.name = false := by
  have := h.avail _ h.pub
  rw [h.name, ← this.2.2]
  exact (ok.meta this.2.1).nres

theorem deleteRepoBody_sure (ok : W.OK) {rid : Str} (hs : RDb W s.db) (hres : reservedKey rid = false) :
    Sure (deleteRepoBody rid) s
      (Queued s (DelWrite rid) (((s.db.ents rid).map Prod.snd).map (fun e => .delEnt rid e.name) ++ [.delRepo rid])) := by
  unfold deleteRepoBody
  refine Sure.read (a := (s.db.ents rid).map Prod.snd) rfl ?_
  refine Sure.bind (forL_sure (ok := DelWrite rid) (must := fun e => [.delEnt rid e.name]) _ ?_) fun t ht => ?_
  · intro e he t htd
    obtain ⟨⟨n, e'⟩, hm, rfl⟩ := List.mem_map.1 he
    have hent := hs.ent rid n e' (KV.get_of_mem (hs.wfEnts rid) hm)
    have hp : ∀ u : St, u.db = s.db → ∀ id, Sure (removePackageInternal .batch rid id) u (Queued u (DelWrite rid) []) :=
      fun u hu id => removePackageInternal_sure ok rid id hs.pool hu
    refine Sure.bind (forL_sure (ok := DelWrite rid) (must := fun _ => []) _ fun id _ u hu => hp u (hu.trans htd) id) fun u hu => ?_
    have hud : u.db = s.db := hu.1.trans htd
    refine Sure.bind (forL_sure (ok := DelWrite rid) (must := fun _ => []) _ fun id _ v hv => hp v (hv.trans hud) id) fun v hv => ?_
    refine (queue_sure (w := .delEnt rid e'.name) (ok := DelWrite rid) (hent.name_resv ok) rfl).map fun w hw => ?_
    exact ((hu.trans hv).trans hw).weaken (by simp)
  · refine (queue_sure (w := .delRepo rid) (ok := DelWrite rid) hres rfl).map fun u hu => ?_
    refine (ht.trans hu).weaken fun w hw => ?_
    rcases List.mem_append.1 hw with hw | hw
    · refine List.mem_append.2 (.inl ?_)
      obtain ⟨e, he, rfl⟩ := List.mem_map.1 hw
      exact List.mem_flatMap.2 ⟨e, he, by simp⟩
    · exact List.mem_append.2 (.inr hw)

theorem deleting_gone {r : Str} : ∀ (ws : List DbWrite) (d : DB), (∀ w ∈ ws, DelWrite r w) →
    (∀ n e, ((ws.foldl DbWrite.apply d).ents r).get n = some e → (d.ents r).get n = some e ∧ .delEnt r n ∉ ws) ∧
    (∀ x u, (ws.foldl DbWrite.apply d).repos.get x = some u → d.repos.get x = some u ∧ .delRepo x ∉ ws) := by
  intro ws
  induction ws with
  | nil => intro d _; exact ⟨fun n e h => ⟨h, by simp⟩, fun x u h => ⟨h, by simp⟩⟩
  | cons w ws ih =>
    intro d hw
    obtain ⟨h1, h2⟩ := ih (w.apply d) fun x hx => hw x (by simp [hx])
    have hd := hw w (by simp)
    refine ⟨fun n e h => ?_, fun x u h => ?_⟩
    · obtain ⟨a, b⟩ := h1 n e h
      cases w with
      | putPool k v => exact ⟨a, by simpa using b⟩
      | delPool k => exact ⟨a, by simpa using b⟩
      | putSkip k v => exact absurd hd id
      | putRepo k => exact absurd hd id
      | putEnt r' k v => exact absurd hd id
      | delRepo k => exact ⟨a, by simpa using b⟩
      | delEnt r' k =>
        obtain rfl : r' = r := hd
        simp only [DbWrite.apply, setEnts, if_true, KV.get_del] at a
        split at a
        · cases a
        · rename_i hne
          exact ⟨a, by simp only [List.mem_cons, not_or]; exact ⟨fun h => hne (by cases h; rfl), b⟩⟩
    · obtain ⟨a, b⟩ := h2 x u h
      cases w with
      | putPool k v => exact ⟨a, by simpa using b⟩
      | delPool k => exact ⟨a, by simpa using b⟩
      | putSkip k v => exact absurd hd id
      | putRepo k => exact absurd hd id
      | putEnt r' k v => exact absurd hd id
      | delEnt r' k => exact ⟨a, by simpa using b⟩
      | delRepo k =>
        simp only [DbWrite.apply, KV.get_del] at a
        split at a
        · cases a
        · rename_i hne
          exact ⟨a, by simp only [List.mem_cons, not_or]; exact ⟨fun h => hne (by cases h; rfl), b⟩⟩

theorem getRepo_sure {rid : Str} (h : ∃ u, s.db.repos.get rid = some u) : Sure (getRepo rid) s (fun t => t.db = s.db) := by
  obtain ⟨u, hu⟩ := h
  unfold getRepo
  refine Sure.read (a := s) rfl ?_
  split
  · exact ⟨rfl, rfl⟩
  · rw [hu]; exact ⟨rfl, rfl⟩

/-- The deletion of an existing repository succeeds from every rough state, and leaves nothing of it. -/
theorem deleteRepo_sure (ok : W.OK) {rid : Str} (hs : Rough W s) (h : ∃ u, s.db.repos.get rid = some u) :
    Sure (deleteRepo rid) s (fun t => t.db.repos.get rid = none ∧ (∀ n, (t.db.ents rid).get n = none) ∧
      (∀ d id, t.fs.tab (.repo rid d id) = none) ∧ (∀ a, t.fs.tab (.asset rid a) = none) ∧ t.fs.idx rid = none ∧ t.fs.rdir rid = false) := by
  have hres : reservedKey rid = false := by obtain ⟨u, hu⟩ := h; exact hs.db.resv rid u hu
  unfold deleteRepo
  refine (getRepo_sure h).bind fun t ht => ?_
  refine Sure.bind (P := fun u => u.db = s.db) ⟨rfl, ht⟩ fun t ht => ?_
  have hb := deleteRepoBody_sure (s := { t with pend := [] }) ok (rid := rid) (by show RDb W t.db; rw [ht]; exact hs.db) hres
  refine Sure.bind (P := fun u => u.db.repos.get rid = none ∧ (∀ n, (u.db.ents rid).get n = none)) ?_ fun u hu => ?_
  · obtain ⟨b1, b2, more, b3, b4, b5⟩ := hb
    have e : dbUpdate (deleteRepoBody rid) t = ⟨.ok (), { (deleteRepoBody rid { t with pend := [] }).st with db := (deleteRepoBody rid { t with pend := [] }).st.pend.foldl DbWrite.apply (deleteRepoBody rid { t with pend := [] }).st.db, pend := [] }, (deleteRepoBody rid { t with pend := [] }).tr ++ [{ (deleteRepoBody rid { t with pend := [] }).st with db := (deleteRepoBody rid { t with pend := [] }).st.pend.foldl DbWrite.apply (deleteRepoBody rid { t with pend := [] }).st.db, pend := [] }]⟩ := by
      unfold dbUpdate; simp only [b1]
    refine ⟨by rw [e], ?_⟩
    rw [e]
    simp only
    rw [b3, b2]
    simp only [List.nil_append]
    obtain ⟨g1, g2⟩ := deleting_gone (r := rid) more t.db b4
    refine ⟨?_, fun n => ?_⟩
    · cases hx : (List.foldl DbWrite.apply t.db more).repos.get rid with
      | none => rfl
      | some u => exact absurd (b5 _ (by simp)) (g2 rid u hx).2
    · cases hx : ((List.foldl DbWrite.apply t.db more).ents rid).get n with
      | none => rfl
      | some e' =>
        obtain ⟨q1, q2⟩ := g1 n e' hx
        have hn : e'.name = n := by rw [ht] at q1; exact (hs.db.ent rid n e' q1).name
        refine absurd (b5 (.delEnt rid n) (List.mem_append.2 (.inl ?_))) q2
        exact List.mem_map.2 ⟨e', List.mem_map.2 ⟨(n, e'), KV.mem_of_get q1, rfl⟩, by rw [hn]⟩
  · refine Sure.bind (P := fun v => (v.db.repos.get rid = none ∧ (∀ n, (v.db.ents rid).get n = none)) ∧
        (∀ d id, v.fs.tab (.repo rid d id) = none) ∧ v.fs.idx rid = none ∧ v.fs.rdir rid = false) ⟨rfl, hu, ?_, ?_, ?_⟩ fun v hv => ?_
    · intro d id; simp [rmRepoTree]
    · simp [rmRepoTree]
    · simp [rmRepoTree]
    · refine ⟨rfl, hv.1.1, hv.1.2, ?_, ?_, ?_, ?_⟩
      · intro d id; exact hv.2.1 d id
      · intro a; simp [rmRepoAux]
      · exact hv.2.2.1
      · exact hv.2.2.2

end Ferryd
