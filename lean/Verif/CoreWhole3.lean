import Verif.CoreWhole2
/-!
# CoreWhole3: deltas, assets, adding packages
-/
namespace Ferryd
open Spec
variable {W : World} {s : St} {α β : Type} {J : St → Prop} {tgt : Option Str}

theorem Ever.noPend {m : M α} {P : α → St → Prop} (h : Ever J m s P) (hm : NoPend m) (hs : s.pend = []) :
    Ever J m s (fun a t => t.pend = [] ∧ P a t) := ⟨h.fin, h.tr, fun a ha => ⟨hm.st s hs, h.val a ha⟩⟩
theorem Ends.noPend {m : M α} {P : α → St → Prop} (h : Ends J m s P) (hm : NoPend m) (hs : s.pend = []) :
    Ends J m s (fun a t => t.pend = [] ∧ P a t) := ⟨h.fin, fun a ha => ⟨hm.st s hs, h.val a ha⟩⟩

/-! ## Deltas and assets -/

theorem pullAsset_tidy (dst src : Str) (a : Asset) (hr : Rough W s) (h : Tidy W s) :
    Ever (Tidy W) (pullAsset dst src a) s (fun _ t => t.db = s.db ∧ t.cache = s.cache) := by
  refine Ever.getSt ?_
  cases s.fs.tab (.asset src a) with
  | none => exact Ever.pure h ⟨rfl, rfl⟩
  | some _ => exact (copyFile_tidy (src := .asset src a) (dst := .asset dst a) ⟨rfl, rfl⟩ (.inl rfl) hr h).mono fun _ _ h => ⟨h.1, h.2.1⟩

theorem pullAssets_tidy (dst src : Str) (hr : Rough W s) (h : Tidy W s) :
    Ever (Tidy W) (pullAssets dst src) s (fun _ t => t.db = s.db ∧ t.cache = s.cache) := by
  refine ((pullAsset_tidy dst src .distribution hr h).keeps (pullAsset_keeps dst src _) hr).bind fun _ t ht hp => ?_
  obtain ⟨hrt, _, h1, h2⟩ := hp
  refine ((pullAsset_tidy dst src .components hrt ht).keeps (pullAsset_keeps dst src _) hrt).bind fun _ u hu hp => ?_
  obtain ⟨hru, _, h3, h4⟩ := hp
  exact (pullAsset_tidy dst src .groups hru hu).mono fun _ v hv => ⟨hv.1.trans (h3.trans h1), hv.2.trans (h4.trans h2)⟩

theorem refEntry_tidy (id : Str) (h : Tidy W s) :
    Ever (Tidy W) (refEntry id) s (fun _ t => t.db.ents = s.db.ents ∧ t.cache = s.cache ∧ t.fs = s.fs ∧ t.pend = s.pend) :=
  Ever.skip h (poolGet_reads id) fun e => (dbWrite_tidy (w := .putPool e.name _) trivial h).mono fun _ t ht => by rw [ht]; exact ⟨rfl, rfl, rfl, rfl⟩

/-- Linking a delta into a repository and listing it. -/
theorem placeDelta_tidy {E : Env} {rid c id n : Str} {e : RepoEntry} {ds : List Str} (hd : W.isDelta id = true) (hg : (s.db.ents rid).get n = some e) (hn : e.name = n)
    (hr : Rough W s) (h : Tidy W s) :
    Ever (Tidy W) (do linkOrCopy E (.pool c id) (.repo rid c id) false; repoPut rid { e with deltas := ds }) s (fun _ t => t.cache = s.cache) := by
  refine (linkOrCopy_tidy (src := .pool c id) (dst := .repo rid c id) ⟨rfl, rfl⟩ (.inr hd) hr h).bind fun _ t ht hp => ?_
  refine (dbWrite_tidy (w := .putEnt rid e.name { e with deltas := ds }) ?_ ht).mono fun _ u hu => by rw [hu]; exact hp.2
  rintro d x c' _ _ ⟨e', hg', hm⟩
  rw [hp.1, hn, hg] at hg'; cases hg'; exact hm

theorem refDelta_tidy (ok : W.OK) (rid id : Str) (hd : W.isDelta id = true) (hr : Rough W s) (h : Tidy W s) :
    Ever (Tidy W) (refDelta W.E rid id) s (fun _ t => t.cache = s.cache) := by
  refine Ever.read (tgt := none) h (poolGet_reads id) (poolGet_at id hr) fun pe hpe => ?_
  refine Ever.read (tgt := none) h (repoGet_reads rid _) (repoGet_at rid _ hr) fun e he => ?_
  refine Ever.skip h (pathComp_reads _) fun c => ?_
  split
  · exact Ever.pure h rfl
  · refine ((refEntry_tidy id h).keeps (refEntry_keeps (tgt := none) id) hr).bind fun _ t ht hp => ?_
    obtain ⟨hrt, _, h1, h2, _⟩ := hp
    exact (placeDelta_tidy hd (by rw [h1]; exact he.1) he.2.name hrt ht).mono fun _ u hu => hu.trans h2

theorem poolAddInternal_delta_tidy {p : Pkg} {file : Path} {b : Bool} {delta : Option DeltaInfo} (hp : ROpen W p file)
    (hn : file.isAsset = false) (hd : W.isDelta p.id = true) (hr : Rough W s) (h : Tidy W s) :
    Ever (Tidy W) (poolAddInternal W.E p b delta) s (fun _ t => t.cache = s.cache) := by
  unfold poolAddInternal
  refine Ever.skip h (poolGet?_reads _) fun o => ?_
  cases o with
  | some e => exact (dbWrite_tidy (w := .putPool e.name { e with refCount := e.refCount + 1 }) trivial h).bind fun _ t ht he => Ever.pure ht (by rw [he])
  | none =>
    refine Ever.getSt ?_
    cases s.fs.read p.path with
    | none => exact Ever.throw h
    | some c =>
      refine Ever.skip h (pathComp_reads _) fun comp => ?_
      have hal : Alike p.path (.pool comp p.id) := by rw [hp.path]; exact ⟨hn.symm, hp.id.symm⟩
      refine (linkOrCopy_tidy hal (.inr hd) hr h).bind fun _ t ht hq => Ever.skip ht (fileSha1_reads _ _) fun sha => ?_
      dsimp only
      split
      · exact (removeFile_tidy _ ht).bind fun _ u hu _ => Ever.throw hu
      · exact (dbWrite_tidy (w := .putPool p.id _) trivial ht).bind fun _ u hu he => Ever.pure hu (by rw [he]; exact hq.2)

theorem poolAddDelta_tidy {p : Pkg} {file : Path} {b : Bool} {f g : Str} (hp : ROpen W p file)
    (hn : file.isAsset = false) (hd : W.isDelta p.id = true) (hr : Rough W s) (h : Tidy W s) :
    Ever (Tidy W) (poolAddDelta W.E p f g b) s (fun _ t => t.cache = s.cache) := by
  unfold poolAddDelta
  refine Ever.skip h (poolGet?_reads _) fun o => ?_
  cases o with
  | some e => exact (dbWrite_tidy (w := .putPool e.name { e with refCount := e.refCount + 1 }) trivial h).bind fun _ t ht he => Ever.pure ht (by rw [he])
  | none =>
    exact Ever.skip h (poolGet_reads _) fun _ => Ever.skip h (poolGet_reads _) fun _ => Ever.skip h (getRelease_reads _) fun _ => Ever.skip h (getRelease_reads _) fun _ =>
      poolAddInternal_delta_tidy hp hn hd hr h

theorem poolAddDelta_ents (E : Env) (p : Pkg) (f g : Str) (b : Bool) : Ents (poolAddDelta E p f g b) := by
  refine (poolGet?_reads _).ents.bind fun o => ?_
  cases o with
  | some e => exact (dbWrite_ents (w := .putPool e.name { e with refCount := e.refCount + 1 }) fun _ => rfl).bind fun _ => Ents.pure _
  | none =>
    exact (poolGet_reads _).ents.bind fun _ => (poolGet_reads _).ents.bind fun _ => (getRelease_reads _).ents.bind fun _ =>
      (getRelease_reads _).ents.bind fun _ => poolAddInternal_ents _ _ _ _

theorem addDelta_tidy (ok : W.OK) (hz : W.NoTorn) (rid : Str) {file : Path} {f g : Str} (hn : file.isAsset = false) (hd : W.isDelta file.base = true)
    (hf : (W.mOf f).name = (W.mOf file.base).name) (hg : (W.mOf g).name = (W.mOf file.base).name) (hr : Rough W s) (h : Tidy W s) :
    Ever (Tidy W) (addDelta W.E rid file f g) s (fun _ _ => True) := by
  refine Ever.read (tgt := none) h (openPkg_reads _ _) (openPkg_at ok hz hn hr) fun p hp => ?_
  obtain ⟨hp, hrd⟩ := hp
  refine Ever.read (tgt := none) h (repoGet_reads rid _) (repoGet_at rid _ hr) fun e he => ?_
  refine Ever.skip h (pathComp_reads _) fun c => ?_
  split
  · exact Ever.pure h trivial
  · have hd' : W.isDelta p.id = true := by rw [hp.id]; exact hd
    have hat := poolAddDelta_at (f := f) (t := g) (tgt := none) (cd := false) ok hp hn hd' (by rw [hp.id]; exact hf) (by rw [hp.id]; exact hg) hr hrd
    refine ((poolAddDelta_tidy (f := f) (g := g) (b := false) hp hn hd' hr h).post (R := fun _ t => Rough W t ∧ t.db.ents = s.db.ents)
      ⟨fun a ha => ⟨hat.fin, (poolAddDelta_ents _ _ _ _ _).st s⟩⟩).bind fun _ t ht hq => ?_
    obtain ⟨⟨hrt, h1⟩, _⟩ := hq
    exact (placeDelta_tidy hd' (by rw [h1]; exact he.1) he.2.name hrt ht).mono fun _ _ _ => trivial

theorem putFile_tidy {p : Path} (c : Content) (hp : (∀ d id, p ≠ .pool d id) ∧ ∀ r d id, p ≠ .repo r d id) (hr : Rough W s) (h : Tidy W s) :
    Ever (Tidy W) (stepM fun s => s.putFile p c) s (fun _ _ => True) := by
  have hread : ∀ q, q ≠ p → (s.putFile p c).fs.read q = s.fs.read q := fun q hq => hr.fs.fresh.read_fresh c hq
  refine (Ever.step (J := Tidy W) (g := fun s => s.putFile p c) ?_).mono fun _ _ _ => trivial
  exact h.setFs (fun d id c' _ hc => by rw [← hread _ (hp.1 d id).symm]; exact hc) (fun r d id c' _ hc => by rw [← hread _ (hp.2 r d id).symm]; exact hc) (fun _ h => h)

/-! ## AddTo -/

/-- A new package file is linked where it belongs. -/
theorem Tidy.linkRepo {fs' : FS} {rid c id : Str} (h : Tidy W s) (hf : s.fs.Fresh) (hl : FS.Linked s.fs fs' (.pool c id) (.repo rid c id))
    (hd : W.isDelta id = false) (hrd : s.fs.rdir rid = true) (hh : Has s rid id) : Tidy W (s.setFs fs') := by
  have hread : ∀ q, q ≠ .repo rid c id → fs'.read q = s.fs.read q := by
    intro q hq
    unfold FS.read
    rw [hl.tab q hq]
    cases hi : s.fs.tab q with
    | none => rfl
    | some i => simp only [Option.map_some]; rw [hl.data i (hf q i hi)]
  refine ⟨fun d x y hx hy => h.pool d x y hx (by rw [← hread _ (by simp)]; exact hy), fun r d x y hx hy => ?_, fun r hm => ?_, fun x hm hx d => ?_⟩
  · by_cases he : Path.repo r d x = .repo rid c id
    · obtain ⟨rfl, rfl, rfl⟩ : r = rid ∧ d = c ∧ x = id := by simpa using he
      have hy' : s.fs.read (.pool d x) = some y := by rw [← hl.read_dst]; exact hy
      obtain ⟨h1, h2, h3⟩ := h.pool d x y hx hy'
      refine ⟨h1, h2, ?_, fun _ _ => hh⟩
      show fs'.rdir r = true
      rw [hl.rdir]; exact hrd
    · obtain ⟨h1, h2, h3, h4⟩ := h.repo r d x y hx (by rw [← hread _ he]; exact hy)
      refine ⟨h1, h2, ?_, h4⟩
      show fs'.rdir r = true
      rw [hl.rdir]; exact h3
  · refine ⟨?_, (h.cache r hm).2⟩
    show fs'.rdir r = true
    rw [hl.rdir]; exact (h.cache r hm).1
  · show fs'.read _ = none
    rw [hread _ (by simp)]; exact h.pend x hm hx d

theorem Tidy.linkPool {fs' : FS} {src : Path} {c id : Str} (h : Tidy W s) (hf : s.fs.Fresh) (hl : FS.Linked s.fs fs' src (.pool c id))
    (hw : s.fs.read src = some (W.canon id)) (hc : W.compOf id = some c) (hp : ∃ pe, s.db.pool.get id = some pe) (hn : s.pend = []) : Tidy W (s.setFs fs') := by
  have hread : ∀ q, q ≠ .pool c id → fs'.read q = s.fs.read q := by
    intro q hq
    unfold FS.read
    rw [hl.tab q hq]
    cases hi : s.fs.tab q with
    | none => rfl
    | some i => simp only [Option.map_some]; rw [hl.data i (hf q i hi)]
  refine ⟨fun d x y hx hy => ?_, fun r d x y hx hy => ?_, fun r hm => ?_, fun x hm hx d => ?_⟩
  · by_cases he : Path.pool d x = .pool c id
    · obtain ⟨rfl, rfl⟩ : d = c ∧ x = id := by simpa using he
      have hy' : s.fs.read src = some y := by rw [← hl.read_dst]; exact hy
      rw [hw] at hy'; cases hy'
      exact ⟨rfl, hc, hp⟩
    · exact h.pool d x y hx (by rw [← hread _ he]; exact hy)
  · obtain ⟨h1, h2, h3, h4⟩ := h.repo r d x y hx (by rw [← hread _ (by simp)]; exact hy)
    refine ⟨h1, h2, ?_, h4⟩
    show fs'.rdir r = true
    rw [hl.rdir]; exact h3
  · refine ⟨?_, (h.cache r hm).2⟩
    show fs'.rdir r = true
    rw [hl.rdir]; exact (h.cache r hm).1
  · change _ ∈ s.pend at hm
    rw [hn] at hm; cases hm

theorem linkOrCopy_missing {E : Env} {src dst : Path} {b : Bool} (h : s.fs.tab src = none) : linkOrCopy E src dst b s = ⟨.ok (), s, []⟩ := by
  unfold linkOrCopy
  split
  · exact copyFile_missing h
  · show ((getSt >>= fun s => _ : M Unit)) s = _
    rw [getSt_bind, h]
    exact copyFile_missing h

/-- Linking a package into a repository and listing it. -/
theorem place_tidy (ok : W.OK) {rid c id : Str} {ne : RepoEntry} {n : Str} (hd : W.isDelta id = false) (hin : rid ∈ s.cache)
    (hnot : ¬ Has s rid id) (hne : REntry W ne.name ne) (hnn : ne.name = n)
    (ha : ∀ x, x ∈ ne.available ↔ x = id ∨ ∃ e, (s.db.ents rid).get n = some e ∧ x ∈ e.available)
    (hr : Rough W s) (h : Tidy W s) :
    Ends (Tidy W) (do linkOrCopy W.E (.pool c id) (.repo rid c id) false; repoPut rid ne) s (fun _ t => t.cache = s.cache) := by
  obtain ⟨hrd, u, hu⟩ := h.cache rid hin
  have hres := hne.name_resv ok
  have hw : TWrite W s (.putEnt rid ne.name ne) := by
    rintro d x y hx hy ⟨e', hg, hm⟩
    rw [hnn] at hg
    exact (ha x).2 (.inr ⟨e', hg, hm⟩)
  have hput : ∀ t : St, repoPut rid ne t = ⟨.ok (), { t with db := (DbWrite.putEnt rid ne.name ne).apply t.db }, [{ t with db := (DbWrite.putEnt rid ne.name ne).apply t.db }]⟩ := by
    intro t
    unfold repoPut dbWrite
    rw [if_neg (by simp [DbWrite.key, hres])]; rfl
  have t1 := TWrite.apply h hw
  cases hi : s.fs.tab (.pool c id) with
  | none =>
    have e : ((do linkOrCopy W.E (.pool c id) (.repo rid c id) false; repoPut rid ne : M Unit) s).st = (repoPut rid ne s).st := by
      rw [bind_ok (linkOrCopy_missing hi)]; rfl
    refine ⟨?_, fun a _ => ?_⟩ <;> rw [e, hput]
    · exact t1
  | some i =>
    have hdst : s.fs.tab (.repo rid c id) = none := by
      cases hx : s.fs.tab (.repo rid c id) with
      | none => rfl
      | some j => exact absurd ((h.repo rid c id _ hd (FS.read_eq_some.2 ⟨j, hx, rfl⟩)).2.2.2 u hu) hnot
    obtain ⟨fs', tr, he, hl, _⟩ := linkOrCopy_fresh W.E (src := .pool c id) (dst := .repo rid c id) hr.fs.fresh false (FS.read_eq_some.2 ⟨i, hi, rfl⟩) hdst
    have e : ((do linkOrCopy W.E (.pool c id) (.repo rid c id) false; repoPut rid ne : M Unit) s).st = (repoPut rid ne (s.setFs fs')).st := by
      rw [bind_ok he]; rfl
    refine ⟨?_, fun a _ => ?_⟩ <;> rw [e, hput]
    · exact t1.linkRepo (s := { s with db := (DbWrite.putEnt rid ne.name ne).apply s.db }) hr.fs.fresh hl hd hrd
        ⟨ne.name, ne, by simp [DbWrite.apply, setEnts, KV.get_put], (ha id).2 (.inl rfl)⟩
    · rfl

theorem not_has {rid id : Str} {m : Meta} (hm : m.name = nameOf W id) (hr : Rough W s)
    (hn : ¬ ∃ e, (s.db.ents rid).get m.name = some e ∧ id ∈ e.available) : ¬ Has s rid id := by
  rintro ⟨n, e, hg, hx⟩
  have := (hr.db.ent rid n e hg).avail id hx
  refine hn ⟨e, ?_, hx⟩
  rw [hm]
  show (s.db.ents rid).get (W.mOf id).name = _
  rw [this.2.2]; exact hg


theorem buildSaneEntry_new (rid : Str) (m : Meta) (id : Str) :
    Post (buildSaneEntry rid m id) s (fun o _ => ∀ ne, o = some ne → ¬ ∃ e, (s.db.ents rid).get m.name = some e ∧ id ∈ e.available) := by
  refine (repoGet?_post rid m.name).bind fun o t h => ?_
  obtain ⟨rfl, rfl⟩ := h
  cases hg : (t.db.ents rid).get m.name with
  | none => exact Post.pure fun ne _ => by simp
  | some e =>
    refine Post.bind (P := fun _ u => u = t) ?_ fun pub u hu => ?_
    · refine (Reads.bind (poolGet?_reads _) fun o => ?_).post
      cases o with
      | none => exact Reads.pure _
      | some pa => exact (getRelease_reads _).bind fun _ => (getRelease_reads _).bind fun _ => Reads.ite (Reads.pure _) (Reads.pure _)
    · subst hu
      split
      · exact Post.pure fun ne h => by cases h
      · rename_i hi
        refine Post.pure fun ne _ h => ?_
        obtain ⟨e', he, hm⟩ := h
        cases he; exact hi hm

/-- What `buildSaneEntry` reads off the state. -/
theorem sane_read (ok : W.OK) {rid id : Str} {m : Meta} {f : Option RepoEntry → M β} {R : β → St → Prop} (hd : W.isDelta id = false) (hp : W.IsPkg id)
    (hm : m.name = (W.mOf id).name) (hh : m.history ≠ []) (hr : Rough W s) (h : Tidy W s)
    (hnone : Ends (Tidy W) (f none) s R)
    (hsome : ∀ ne, REntry W ne.name ne → ne.name = m.name → (∀ x, x ∈ ne.available ↔ x = id ∨ ∃ e, (s.db.ents rid).get m.name = some e ∧ x ∈ e.available) →
      ¬ Has s rid id → Ends (Tidy W) (f (some ne)) s R) :
    Ends (Tidy W) (buildSaneEntry rid m id >>= f) s R := by
  have hk := buildSaneEntry_keeps (tgt := none) (rid := rid) ok hd hp hm hh s hr
  have hpost := buildSaneEntry_post (s := s) rid m id
  have hnew := buildSaneEntry_new (s := s) rid m id
  refine (Ends.post (Ever.reads h (buildSaneEntry_reads _ _ _)).ends (R := fun o _ => (∀ e, o = some e → REntry W e.name e) ∧
      (∀ ne, o = some ne → ¬ ∃ e, (s.db.ents rid).get m.name = some e ∧ id ∈ e.available) ∧
      match o with
      | none => True
      | some ne => ne.name = m.name ∧ ∀ x, x ∈ ne.available ↔ x = id ∨ ∃ e, (s.db.ents rid).get m.name = some e ∧ x ∈ e.available)
    ⟨fun o ho => ⟨hk.val o ho, hnew.run o ho, ?_⟩⟩).bind fun o t ht hq => ?_
  · have := (hpost.run o ho).2
    cases o with
    | none => trivial
    | some ne => exact this
  · obtain ⟨⟨h1, h2, h3⟩, rfl⟩ := hq
    cases o with
    | none => exact hnone
    | some ne => exact hsome ne (h1 ne rfl) h3.1 h3.2 (not_has hm hr (h2 ne rfl))

/-- What is kept from one package to the next. -/
structure AddTo (W : World) (rid : Str) (t : St) : Prop where
  rough : Rough W t
  pend : t.pend = []
  cache : rid ∈ t.cache

theorem refPackage_tidy (ok : W.OK) (rid id : Str) (hd : W.isDelta id = false) (ha : AddTo W rid s) (h : Tidy W s) :
    Ends (Tidy W) (refPackage W.E rid id) s (fun _ t => AddTo W rid t) := by
  refine Ends.mono (P := fun _ t => t.pend = [] ∧ Rough W t ∧ True ∧ rid ∈ t.cache) (((?_ : Ends (Tidy W) (refPackage W.E rid id) s (fun _ t => rid ∈ t.cache)).keeps
    (refPackage_keeps ok rid id hd) ha.rough).noPend (refPackage_noPend _ _ _) ha.pend) fun _ t h => ⟨h.2.1, h.1, h.2.2.2⟩
  refine Ends.read (tgt := none) h (poolGet_reads id) (poolGet_at id ha.rough) fun pe hpe => Ends.skip h (pathComp_reads _) fun c => ?_
  refine sane_read ok hd hpe.2.isPkg hpe.2.pname (hpe.2.hist ok) ha.rough h (Ever.pure h ha.cache).ends fun ne hne hnn hav hnot => ?_
  refine ((refEntry_tidy id h).keeps (refEntry_keeps (tgt := none) id) ha.rough).ends.bind fun _ t ht hq => ?_
  obtain ⟨hrt, _, h1, h2, _⟩ := hq
  refine (place_tidy ok (n := pe.pkg.name) hd (by rw [h2]; exact ha.cache) (by unfold Has Lists at hnot ⊢; rw [h1]; exact hnot) hne hnn
    (by rw [h1]; exact hav) hrt ht).mono fun _ u hu => by rw [hu, h2]; exact ha.cache

theorem poolAddInternal_tidy (ok : W.OK) {p : Pkg} {file : Path} (hp : ROpen W p file)
    (hn : file.isAsset = false) (hd : W.isDelta p.id = false) (hrd : s.fs.read p.path = some (W.canon p.id)) (hpe : s.pend = []) (hr : Rough W s) (h : Tidy W s) :
    Ends (Tidy W) (poolAddInternal W.E p false none) s (fun _ t => t.cache = s.cache) := by
  have hpost : At W none (poolGet? p.id) s (fun o => o = s.db.pool.get p.id) := by
    have := poolGet?_keeps (tgt := none) (W := W) p.id s hr
    exact ⟨this.np, this.fin, this.fsame, this.tr, this.tsame, fun a ha => by cases ha; rfl⟩
  unfold poolAddInternal
  refine Ends.read h (poolGet?_reads _) hpost fun o ho => ?_
  cases o with
  | some e => exact ((dbWrite_tidy (w := .putPool e.name { e with refCount := e.refCount + 1 }) trivial h).bind fun _ t ht he => Ever.pure ht (by rw [he])).ends
  | none =>
    refine Ends.getSt ?_
    rw [hrd]
    dsimp only
    obtain ⟨comp, hc⟩ := ok.comp hp.isPkg
    have hc' : pathComp? p.pkg.source = some comp := by rw [hp.pkg]; exact hc
    have hdst : s.fs.tab (.pool comp p.id) = none := by
      cases hx : s.fs.tab (.pool comp p.id) with
      | none => rfl
      | some j =>
        obtain ⟨_, _, pe, hg⟩ := h.pool comp p.id _ hd (FS.read_eq_some.2 ⟨j, hx, rfl⟩)
        rw [← ho] at hg; cases hg
    obtain ⟨fs', tr, he, hl, _⟩ := linkOrCopy_fresh W.E (src := p.path) (dst := .pool comp p.id) hr.fs.fresh false hrd hdst
    have hne : p.path ≠ .pool comp p.id := by rintro e; rw [e] at hrd; rw [FS.read, hdst] at hrd; cases hrd
    have hsrc : fs'.read p.path = some (W.canon p.id) := by rw [hl.linking.read_ne hr.fs.fresh hne]; exact hrd
    have hcn : W.canon p.id ≠ [] := by
      intro e
      have := hp.isPkg
      unfold World.IsPkg at this
      rw [e, ok.parse_nil] at this; cases this
    have hsha : fileSha1 W.E p.path (s.setFs fs') = ⟨.ok (W.E.sha1 (W.canon p.id)), s.setFs fs', []⟩ := by
      unfold fileSha1
      rw [getSt_bind, St.setFs_fs, hsrc]
      simp only [if_neg hcn]; rfl
    have hres : reservedKey p.id = false := (ok.gid hp.isPkg).nres
    rw [show ∀ (f : Str → M PoolEntry) (P : PoolEntry → St → Prop), Ends (Tidy W) (pathComp p.pkg >>= f) s P = Ends (Tidy W) (f comp) s P from fun f P => by
      have e := pathComp_bind (s := s) hc' f
      exact propext ⟨fun h => ⟨by rw [← e]; exact h.fin, by rw [← e]; exact h.val⟩, fun h => ⟨by rw [e]; exact h.fin, by rw [e]; exact h.val⟩⟩]
    obtain ⟨e, hev⟩ : ∃ e : PoolEntry, e = { name := p.id, refCount := 1, delta := none, pkg := { p.pkg with hash := W.E.sha1 (W.canon p.id), size := (W.canon p.id).length, uri := mkURI comp p.id } } := ⟨_, rfl⟩
    have hdbw : dbWrite .direct (.putPool p.id e) (s.setFs fs') = ⟨.ok (), { s.setFs fs' with db := (DbWrite.putPool p.id e).apply s.db },
        [{ s.setFs fs' with db := (DbWrite.putPool p.id e).apply s.db }]⟩ := by
      unfold dbWrite
      rw [if_neg (by simp [DbWrite.key, hres])]; rfl
    have run : ∃ tr', (do
        linkOrCopy W.E p.path (.pool comp p.id) false
        let sha ← fileSha1 W.E p.path
        let e : PoolEntry :=
          { name := p.id, refCount := 1, delta := none,
            pkg := { p.pkg with hash := sha, size := (W.canon p.id).length, uri := mkURI comp p.id } }
        if reservedKey p.id then do
          removeFile (.pool comp p.id)
          throwE .reserved
        else do
          dbWrite .direct (.putPool p.id e)
          pure e : M PoolEntry) s = ⟨.ok e, { s.setFs fs' with db := (DbWrite.putPool p.id e).apply s.db }, tr'⟩ := by
      refine ⟨tr ++ ([] ++ ([{ s.setFs fs' with db := (DbWrite.putPool p.id e).apply s.db }] ++ [])), ?_⟩
      rw [bind_ok he, bind_ok hsha]
      simp only [hres, Bool.false_eq_true, if_false]
      rw [← hev, bind_ok hdbw]
      rfl
    obtain ⟨tr', hrun⟩ := run
    refine ⟨?_, ?_⟩
    · rw [hrun]
      exact (TWrite.apply h (w := .putPool p.id e) trivial).linkPool (s := { s with db := (DbWrite.putPool p.id e).apply s.db }) hr.fs.fresh hl hrd hc
        ⟨e, by simp [DbWrite.apply, KV.get_put]⟩ hpe
    · rw [hrun]; intro _ _; rfl

theorem addLocalPackage_tidy (ok : W.OK) (rid : Str) {p : Pkg} {file : Path} (hp : ROpen W p file) (hn : file.isAsset = false)
    (hd : W.isDelta p.id = false) (hrd : s.fs.read p.path = some (W.canon p.id)) (ha : AddTo W rid s) (h : Tidy W s) :
    Ends (Tidy W) (addLocalPackage W.E rid p) s (fun _ t => AddTo W rid t) := by
  have hat := addLocalPackage_at ok rid hp hn hd ha.rough hrd
  refine Ends.mono (P := fun _ t => Rough W t ∧ t.pend = [] ∧ rid ∈ t.cache) (Ends.post (((?_ : Ends (Tidy W) (addLocalPackage W.E rid p) s (fun _ t => rid ∈ t.cache))).noPend
    (addLocalPackage_noPend _ _ _) ha.pend) ⟨fun _ _ => hat.fin⟩) fun _ t h => ⟨h.1, h.2.1, h.2.2⟩
  have hg := ok.meta hp.isPkg
  refine Ends.skip h (pathComp_reads _) fun c => ?_
  refine sane_read ok hd hp.isPkg (by rw [hp.pkg]) (by rw [hp.pkg]; exact hg.hist) ha.rough h (Ever.pure h ha.cache).ends fun ne hne hnn hav hnot => ?_
  have hpa := poolAddInternal_at (tgt := none) (cd := false) (delta := none) ok hp hn (by simp [hd]) (by intro _ h; cases h) ha.rough hrd
  refine ((poolAddInternal_tidy ok hp hn hd hrd ha.pend ha.rough h).post (R := fun _ t => Rough W t ∧ t.db.ents = s.db.ents)
    ⟨fun _ _ => ⟨hpa.fin, (poolAddInternal_ents _ _ _ _).st s⟩⟩).bind fun _ t ht hq => ?_
  obtain ⟨⟨hrt, h1⟩, h2⟩ := hq
  refine (place_tidy ok (n := p.pkg.name) hd (by rw [h2]; exact ha.cache) (by unfold Has Lists at hnot ⊢; rw [h1]; exact hnot) hne hnn
    (by rw [h1]; exact hav) hrt ht).mono fun _ u hu => by rw [hu, h2]; exact ha.cache

theorem addPackage_tidy (ok : W.OK) (hz : W.NoTorn) (rid : Str) {file : Path} {strict : Bool} (hn : file.isAsset = false)
    (hd : W.isDelta file.base = false) (ha : AddTo W rid s) (h : Tidy W s) :
    Ends (Tidy W) (addPackage W.E rid file strict) s (fun _ t => AddTo W rid t) := by
  refine Ends.read (tgt := none) h (openPkg_reads _ _) (openPkg_at ok hz hn ha.rough) fun p hp => ?_
  obtain ⟨hp, hr⟩ := hp
  have hal := addLocalPackage_tidy ok rid hp hn (by rw [hp.id]; exact hd) hr ha h
  split
  · exact hal
  · refine Ends.skip h (repoGet?_reads _ _) fun o => ?_
    cases o with
    | none => exact hal
    | some l =>
      refine Ends.skip h (poolGet_reads _) fun pub => Ends.skip h (getRelease_reads _) fun pr => Ends.skip h (getRelease_reads _) fun nr => ?_
      split
      · exact (Ever.throw h).ends
      · split
        · exact (Ever.throw h).ends
        · exact hal

theorem refAll_tidy (ok : W.OK) (rid : Str) {ids : List Str} (hd : ∀ id ∈ ids, W.isDelta id = false) (ha : AddTo W rid s) (h : Tidy W s) :
    Ends (Tidy W) (forL ids (refPackage W.E rid)) s (fun _ t => AddTo W rid t) :=
  Ends.forL (P := AddTo W rid) ids h ha fun id hm t ht hat => refPackage_tidy ok rid id (hd id hm) hat ht


theorem AddTo.of {m : M α} {P : α → St → Prop} {rid : Str} (h : Ever (Tidy W) m s P) (hk : Keeps W tgt m (fun _ => True)) (hm : NoPend m)
    (hr : Rough W s) (hp : s.pend = []) (hc : ∀ a t, P a t → rid ∈ t.cache) : Ends (Tidy W) m s (fun _ t => AddTo W rid t) :=
  ⟨h.fin, fun a ha => ⟨(hk s hr).fin, hm.st s hp, hc a _ (h.val a ha)⟩⟩

theorem cloneFrom_tidy (ok : W.OK) (dst src : Str) (full : Bool) (ha : AddTo W dst s) (h : Tidy W s) :
    Ends (Tidy W) (cloneFrom W.E dst src full) s (fun _ t => AddTo W dst t) := by
  refine (AddTo.of (pullAssets_tidy dst src ha.rough h) (pullAssets_keeps dst src) (pullAssets_noPend _ _) ha.rough ha.pend
    (fun _ t ht => by rw [ht.2]; exact ha.cache)).bind fun _ t ht hat => ?_
  refine Ends.read (tgt := none) ht (repoEntries_reads _) (repoEntries_keeps src t hat.rough) fun es hes => ?_
  dsimp only
  refine (refAll_tidy ok dst ?_ hat ht).bind fun _ u hu hau => ?_
  · intro id hid
    cases full with
    | true =>
      simp only [if_true, List.mem_flatMap] at hid
      obtain ⟨e, he, hi⟩ := hid
      exact ((hes e he).avail id hi).1
    | false =>
      simp only [Bool.false_eq_true, if_false, List.mem_map] at hid
      obtain ⟨e, he, rfl⟩ := hid
      exact ((hes e he).avail _ (hes e he).pub).1
  · refine Ends.forL (P := AddTo W dst) _ hu hau fun d hd v hv hav => ?_
    have hdd : W.isDelta d = true := by
      cases full with
      | true =>
        simp only [if_true, List.mem_flatMap] at hd
        obtain ⟨e, he, hi⟩ := hd
        exact ((hes e he).deltas d hi).1
      | false => simp at hd
    exact AddTo.of (refDelta_tidy ok dst d hdd hav.rough hv) (refDelta_keeps ok dst d hdd) (refDelta_noPend _ _ _) hav.rough hav.pend
      (fun _ t ht => by rw [ht]; exact hav.cache)

theorem pullFrom_tidy (ok : W.OK) (dst src : Str) (ha : AddTo W dst s) (h : Tidy W s) :
    Ends (Tidy W) (pullFrom W.E dst src) s (fun _ t => AddTo W dst t) := by
  refine (AddTo.of (pullAssets_tidy dst src ha.rough h) (pullAssets_keeps dst src) (pullAssets_noPend _ _) ha.rough ha.pend
    (fun _ t ht => by rw [ht.2]; exact ha.cache)).bind fun _ t ht hat => ?_
  refine Ends.read (tgt := none) ht (repoEntries_reads _) (repoEntries_keeps src t hat.rough) fun es hes => ?_
  refine Ends.read (tgt := none) ht (Reads.collectL fun e _ => pullOne_reads _ _) ((Keeps.collectL fun e he => pullOne_keeps ok dst (hes e he)) t hat.rough) fun todo htodo => ?_
  refine (refAll_tidy ok dst ?_ hat ht).bind fun _ u hu hau => (Ever.pure (P := fun _ t => AddTo W dst t) hu hau).ends
  intro id hid
  obtain ⟨x, hx, rfl⟩ := List.mem_map.1 hid
  exact htodo x hx

theorem copySourceFrom_tidy (ok : W.OK) (dst src source : Str) (k : Int) (ha : AddTo W dst s) (h : Tidy W s) :
    Ends (Tidy W) (copySourceFrom W.E dst src source k) s (fun _ t => AddTo W dst t) := by
  refine Ends.read (tgt := none) h (matchingSource_reads _ _ _) (matchingSource_keeps ok src source k s ha.rough) fun ids hids => ?_
  split
  · exact (Ever.throw h).ends
  · exact refAll_tidy ok dst hids ha h

/-! ## Operations -/

/-- The operations that put packages into a repository. -/
def Op.adds : Op → Bool
  | .addPackages _ _ _ => true
  | .clone _ _ _ => true
  | .pull _ _ => true
  | .copySource _ _ _ _ _ => true
  | _ => false

theorem Op.ever (ok : W.OK) (hz : W.NoTorn) {o : Op} (ho : o.Ok W) (ha : o.adds = false) (hr : Rough W s) (h : Tidy W s) :
    Ever (Tidy W) (o.run W.E) s (fun _ _ => True) := by
  have rm : ∀ {m : M Unit} {r : Str}, (∀ t, Rough W t → Tidy W t → Ever (Tidy W) m t (fun _ u => Rough W u)) →
      Ever (Tidy W) (do getRepo r; m; mIndex W.E r) s (fun _ _ => True) := fun {m r} hm =>
    ((getRepo_tidy r h).keeps (getRepo_keeps (tgt := none) r) hr).bind fun _ t ht hp => (hm t hp.1 ht).bind fun _ u hu _ => mIndex_tidy W.E r hu
  cases o with
  | create r => exact (createRepo_tidy r h).bind fun _ t ht _ => mIndex_tidy W.E r ht
  | delete r => exact deleteRepo_tidy ok r hr h
  | clone a b f => cases ha
  | pull a b => cases ha
  | removeSource r n k => exact rm fun t hrt ht => removeSource_tidy ok r n k hrt ht
  | copySource a b n k sk => cases ha
  | trimObsolete r => exact rm fun t hrt ht => trimObsolete_tidy ok r hrt ht
  | trimPackages r k => exact rm fun t hrt ht => trimPackages_tidy ok r k hrt ht
  | addPackages r fs st => cases ha
  | index r => exact mIndex_tidy W.E r h
  | addDelta r d f t =>
    exact ((getRepo_tidy r h).keeps (getRepo_keeps (tgt := none) r) hr).bind fun _ t' ht hp =>
      addDelta_tidy ok hz r (file := .stage r d) rfl ho.1 ho.2.1 ho.2.2 hp.1 ht
  | refDelta r d =>
    exact ((getRepo_tidy r h).keeps (getRepo_keeps (tgt := none) r) hr).bind fun _ t' ht hp =>
      (refDelta_tidy ok r d ho hp.1 ht).mono fun _ _ _ => trivial
  | markFailed i d =>
    refine Ever.getSt ?_
    cases s.db.skip.get i with
    | some _ => exact Ever.pure h trivial
    | none => exact (dbWrite_tidy (w := .putSkip i d) trivial h).mono fun _ _ _ => trivial
  | upload f c => exact putFile_tidy (p := .ext f) c ⟨by simp, by simp⟩ hr h
  | unlink f => exact (removeFile_tidy (.ext f) h).mono fun _ _ _ => trivial
  | putAsset r a c => exact putFile_tidy (p := .asset r a) c ⟨by simp, by simp⟩ hr h
  | stage r d c => exact putFile_tidy (p := .stage r d) c ⟨by simp, by simp⟩ hr h
  | unstage r d => exact (removeFile_tidy (.stage r d) h).mono fun _ _ _ => trivial
  | restart => exact (Ever.step h.crash).mono fun _ _ _ => trivial

theorem Op.ends (ok : W.OK) (hz : W.NoTorn) {o : Op} (ho : o.Ok W) (hp : s.pend = []) (hr : Rough W s) (h : Tidy W s) :
    Ends (Tidy W) (o.run W.E) s (fun _ _ => True) := by
  have get : ∀ {t : St} (r : Str), Rough W t → t.pend = [] → Tidy W t → Ends (Tidy W) (getRepo r) t (fun _ u => AddTo W r u) := fun r hrt hpt ht =>
    AddTo.of (getRepo_tidy r ht) (getRepo_keeps (tgt := none) r) (getRepo_noPend r) hrt hpt fun _ _ h => h.1
  have idx : ∀ {t : St} (r : Str), Tidy W t → Ends (Tidy W) (mIndex W.E r) t (fun _ _ => True) := fun r ht => (mIndex_tidy W.E r ht).ends
  cases hadd : o.adds with
  | false => exact (o.ever ok hz ho hadd hr h).ends
  | true =>
    cases o with
    | clone a b f =>
      refine (get a hr hp h).bind fun _ t ht hat => (AddTo.of (createRepo_tidy b ht) (createRepo_keeps b) (createRepo_noPend b) hat.rough hat.pend
        fun _ _ h => h.1).bind fun _ u hu hau => ?_
      exact (cloneFrom_tidy ok b a f hau hu).bind fun _ v hv _ => idx b hv
    | pull a b =>
      refine Ends.bind (m := mPullRepo W.E a b) (P := fun _ _ => True) ?_ fun _ v hv _ => (Ever.pure hv trivial).ends
      refine (get a hr hp h).bind fun _ t ht hat => (get b hat.rough hat.pend ht).bind fun _ u hu hau => ?_
      exact (pullFrom_tidy ok b a hau hu).bind fun _ v hv _ => (idx b hv).bind fun _ w hw _ => (Ever.pure hw trivial).ends
    | copySource a b n k sk =>
      refine (get a hr hp h).bind fun _ t ht hat => (get b hat.rough hat.pend ht).bind fun _ u hu hau => ?_
      refine (copySourceFrom_tidy ok b a n k hau hu).bind fun _ v hv _ => ?_
      split
      · exact idx b hv
      · exact (Ever.pure hv trivial).ends
    | addPackages r fs st =>
      refine (get r hr hp h).bind fun _ t ht hat => ?_
      refine (Ends.forL (P := AddTo W r) fs ht hat fun f hf u hu hau => ?_).bind fun _ v hv _ => idx r hv
      exact addPackage_tidy ok hz r (file := .ext f) rfl (ho f hf) hau hu
    | _ => cases hadd

end Ferryd
