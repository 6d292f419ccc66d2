import Verif.CoreWhole3
import Verif.CoreSafe
/-!
# CoreStock: no file is missing, if removals and deletions come to their end

`Stocked`: every pool record has its file, and every package or delta a repository lists has one there.  Jobs that add keep this at all their
points, however they are cut; removals and deletions keep it when they come to their end.
-/
namespace Ferryd
open Spec
variable {W : World} {s : St} {α β : Type} {J : St → Prop} {tgt : Option Str}

structure Stocked (W : World) (s : St) : Prop where
  pool : ∀ id pe, s.db.pool.get id = some pe → ∃ d, W.compOf id = some d ∧ s.fs.tab (.pool d id) ≠ none
  repo : ∀ r id, Holds s.db r id → ∃ d, W.compOf id = some d ∧ s.fs.tab (.repo r d id) ≠ none
  cache : ∀ r ∈ s.cache, ∃ u, s.db.repos.get r = some u

theorem stocked_init (W : World) : Stocked W St.init where
  pool _ _ h := by simp [St.init] at h
  repo _ _ h := by obtain ⟨n, e, h, _⟩ := h; simp [St.init] at h
  cache _ h := by simp [St.init] at h

theorem Stocked.crash (h : Stocked W s) : Stocked W s.crash := ⟨h.pool, h.repo, fun _ hm => by simp [St.crash] at hm⟩
theorem Stocked.dropPend (h : Stocked W s) : Stocked W { s with pend := [] } := ⟨h.pool, h.repo, h.cache⟩

/-- No file is gone. -/
def Grown (f g : FS) : Prop := ∀ p, f.tab p ≠ none → g.tab p ≠ none

theorem Grown.refl (f : FS) : Grown f f := fun _ h => h
theorem Grown.trans {f g h : FS} (a : Grown f g) (b : Grown g h) : Grown f h := fun p hp => b p (a p hp)
theorem grown_set (f : FS) (p : Path) (i : Nat) : Grown f (f.setTab p (some i)) := fun q hq => by
  rw [FS.setTab_tab]; split
  · simp
  · exact hq

theorem grown_open (f : FS) (p : Path) : Grown f (f.openTrunc p).1 := by
  intro q hq
  unfold FS.openTrunc
  cases f.tab p with
  | some j => exact hq
  | none =>
    show (if q = p then some _ else f.tab q) ≠ none
    split
    · simp
    · exact hq

theorem open_tab (f : FS) (p : Path) : (f.openTrunc p).1.tab p ≠ none := by
  unfold FS.openTrunc
  cases hp : f.tab p with
  | some j => show f.tab p ≠ none; rw [hp]; simp
  | none => show (if p = p then some _ else f.tab p) ≠ none; simp

theorem Stocked.fs (h : Stocked W s) {g : FS} (hg : Grown s.fs g) : Stocked W (s.setFs g) where
  pool id pe hp := by obtain ⟨d, h1, h2⟩ := h.pool id pe hp; exact ⟨d, h1, hg _ h2⟩
  repo r id hh := by obtain ⟨d, h1, h2⟩ := h.repo r id hh; exact ⟨d, h1, hg _ h2⟩
  cache := h.cache

structure Same' (s t : St) : Prop where
  db : t.db = s.db
  cache : t.cache = s.cache
  grown : Grown s.fs t.fs

theorem Same'.refl (s : St) : Same' s s := ⟨rfl, rfl, Grown.refl _⟩
theorem Same'.trans {t u : St} (a : Same' s t) (b : Same' t u) : Same' s u := ⟨b.db.trans a.db, b.cache.trans a.cache, a.grown.trans b.grown⟩

theorem copyFile_stock (src dst : Path) (h : Stocked W s) :
    Ever (Stocked W) (copyFile src dst) s (fun _ t => Same' s t ∧ (s.fs.tab src ≠ none → t.fs.tab dst ≠ none)) := by
  refine Ever.getSt ?_
  cases hi : s.fs.tab src with
  | none => exact Ever.pure h ⟨Same'.refl s, fun h => absurd rfl h⟩
  | some i =>
    refine (Ever.step (g := fun t => t.setFs (t.fs.openTrunc dst).1) (h.fs (grown_open _ _))).bind fun _ t ht he => ?_
    refine (Ever.step (g := fun s' => s'.setFs (s'.fs.setData (s.fs.openTrunc dst).2 (s'.fs.data i))) (ht.fs (fun _ h => h))).mono fun _ u hu => ?_
    subst hu he
    exact ⟨⟨rfl, rfl, grown_open s.fs dst⟩, fun _ => open_tab s.fs dst⟩

theorem linkOrCopy_stock {E : Env} (src dst : Path) (b : Bool) (h : Stocked W s) :
    Ever (Stocked W) (linkOrCopy E src dst b) s (fun _ t => Same' s t ∧ (s.fs.tab src ≠ none → t.fs.tab dst ≠ none)) := by
  have hc := copyFile_stock src dst h
  unfold linkOrCopy
  split
  · exact hc
  · refine Ever.getSt ?_
    cases hi : s.fs.tab src with
    | none => rw [hi] at hc; exact hc
    | some i =>
      rw [hi] at hc
      cases hj : s.fs.tab dst with
      | some j => exact hc
      | none =>
        simp only
        split
        · refine (Ever.step (g := fun s => s.setFs (s.fs.setTab dst (some i))) (h.fs (grown_set _ _ _))).mono fun _ t ht => ?_
          subst ht
          exact ⟨⟨rfl, rfl, grown_set _ _ _⟩, fun _ => by simp⟩
        · exact hc

/-- What a write to the database must respect. -/
def SWrite (W : World) (s : St) : DbWrite → Prop
  | .putPool id _ => ∃ d, W.compOf id = some d ∧ s.fs.tab (.pool d id) ≠ none
  | .putEnt r _ e => ∀ id, id ∈ e.available ∨ id ∈ e.deltas → ∃ d, W.compOf id = some d ∧ s.fs.tab (.repo r d id) ≠ none
  | .delRepo r => r ∉ s.cache
  | _ => True

theorem SWrite.apply (h : Stocked W s) {w : DbWrite} (hw : SWrite W s w) : Stocked W { s with db := w.apply s.db } := by
  cases w with
  | putPool k e =>
    refine ⟨fun id pe hg => ?_, h.repo, h.cache⟩
    simp only [DbWrite.apply, KV.get_put] at hg
    split at hg
    · rename_i he; subst he; exact hw
    · exact h.pool id pe hg
  | delPool k =>
    refine ⟨fun id pe hg => ?_, h.repo, h.cache⟩
    simp only [DbWrite.apply, KV.get_del] at hg
    split at hg
    · cases hg
    · exact h.pool id pe hg
  | putSkip k v => exact ⟨h.pool, h.repo, h.cache⟩
  | putRepo k =>
    refine ⟨h.pool, h.repo, fun r hm => ?_⟩
    obtain ⟨u, hu⟩ := h.cache r hm
    simp only [DbWrite.apply, KV.get_put]
    split
    · exact ⟨_, rfl⟩
    · exact ⟨u, hu⟩
  | delRepo k =>
    refine ⟨h.pool, h.repo, fun r hm => ?_⟩
    obtain ⟨u, hu⟩ := h.cache r hm
    simp only [DbWrite.apply, KV.get_del]
    rw [if_neg (by rintro rfl; exact hw hm)]
    exact ⟨u, hu⟩
  | putEnt a k e =>
    refine ⟨h.pool, fun r id hh => ?_, h.cache⟩
    rcases holds_put (d := s.db) (d' := (DbWrite.putEnt a k e).apply s.db) rfl hh with hh | ⟨rfl, hm⟩
    · exact h.repo r id hh
    · exact hw id hm
  | delEnt a k =>
    refine ⟨h.pool, fun r id hh => ?_, h.cache⟩
    obtain ⟨n, e, hg, hm⟩ := hh
    refine h.repo r id ⟨n, e, ?_, hm⟩
    simp only [DbWrite.apply, setEnts] at hg
    split at hg
    · rename_i hr; subst hr
      rw [KV.get_del] at hg
      split at hg
      · cases hg
      · exact hg
    · exact hg

theorem dbWrite_stock {w : DbWrite} (hw : SWrite W s w) (h : Stocked W s) :
    Ever (Stocked W) (dbWrite .direct w) s (fun _ t => t = { s with db := w.apply s.db }) := by
  unfold dbWrite
  split
  · exact Ever.throw h
  · exact Ever.step (g := fun s => { s with db := w.apply s.db }) (SWrite.apply h hw)

theorem refEntry_stock (id : Str) (hr : Rough W s) (h : Stocked W s) :
    Ever (Stocked W) (refEntry id) s (fun _ t => t.db.ents = s.db.ents ∧ t.fs = s.fs ∧ (∃ d, W.compOf id = some d ∧ s.fs.tab (.pool d id) ≠ none)) := by
  refine Ever.read (tgt := none) h (poolGet_reads id) (poolGet_at id hr) fun pe hpe => ?_
  have hp := h.pool id pe hpe.1
  refine (dbWrite_stock (w := .putPool pe.name _) (by rw [hpe.2.name]; exact hp) h).mono fun _ t ht => ?_
  rw [ht]
  exact ⟨rfl, rfl, hp⟩

/-- Linking into a repository and listing. -/
theorem place_stock {E : Env} {rid c id : Str} {ne : RepoEntry} (hc : W.compOf id = some c)
    (hp : s.fs.tab (.pool c id) ≠ none)
    (ha : ∀ x, x ∈ ne.available ∨ x ∈ ne.deltas → x = id ∨ Holds s.db rid x) (h : Stocked W s) :
    Ever (Stocked W) (do linkOrCopy E (.pool c id) (.repo rid c id) false; repoPut rid ne) s (fun _ _ => True) := by
  refine (linkOrCopy_stock _ _ _ h).bind fun _ t ht hq => ?_
  refine (dbWrite_stock (w := .putEnt rid ne.name ne) ?_ ht).mono fun _ _ _ => trivial
  intro x hx
  rcases ha x hx with rfl | hh
  · exact ⟨c, hc, hq.2 hp⟩
  · exact ht.repo rid x (by rw [hq.1.db]; exact hh)

theorem refDelta_stock (ok : W.OK) (rid id : Str) (hr : Rough W s) (h : Stocked W s) :
    Ever (Stocked W) (refDelta W.E rid id) s (fun _ _ => True) := by
  refine Ever.read (tgt := none) h (poolGet_reads id) (poolGet_at id hr) fun pe hpe => ?_
  refine Ever.read (tgt := none) h (repoGet_reads rid _) (repoGet_at rid _ hr) fun e he => ?_
  refine Ever.read (tgt := none) h (pathComp_reads _) (pathComp_keeps (hpe.2.src ok) s hr) fun c hc => ?_
  split
  · exact Ever.pure h trivial
  · refine (refEntry_stock id hr h).bind fun _ t ht hq => ?_
    obtain ⟨h1, h2, d, hd1, hd2⟩ := hq
    have hcomp := poolComp hpe.2 hc
    rw [hcomp] at hd1; cases hd1
    refine place_stock hcomp (by rw [h2]; exact hd2) ?_ ht
    intro x hx
    have hold : ∀ y, y ∈ e.available ∨ y ∈ e.deltas → Holds t.db rid y := fun y hy => ⟨_, e, by rw [h1]; exact he.1, hy⟩
    simp only [mem_sortS, List.mem_append, List.mem_singleton] at hx
    rcases hx with hx | hx | hx
    · exact .inr (hold x (.inl hx))
    · exact .inr (hold x (.inr hx))
    · exact .inl hx

theorem poolAddInternal_stock (ok : W.OK) {p : Pkg} {file : Path} {b : Bool} {delta : Option DeltaInfo} (hp : ROpen W p file) (hr : Rough W s) (h : Stocked W s) :
    Ever (Stocked W) (poolAddInternal W.E p b delta) s (fun _ t => t.db.ents = s.db.ents ∧ (∃ d, W.compOf p.id = some d ∧ t.fs.tab (.pool d p.id) ≠ none)) := by
  have hpost : At W none (poolGet? p.id) s (fun o => o = s.db.pool.get p.id) := by
    have := poolGet?_keeps (tgt := none) (W := W) p.id s hr
    exact ⟨this.np, this.fin, this.fsame, this.tr, this.tsame, fun a ha => by cases ha; rfl⟩
  unfold poolAddInternal
  refine Ever.read h (poolGet?_reads _) hpost fun o ho => ?_
  cases o with
  | some e =>
    have hst := h.pool p.id e ho.symm
    refine (dbWrite_stock (w := .putPool e.name { e with refCount := e.refCount + 1 }) ?_ h).bind fun _ t ht he => Ever.pure ht (by rw [he]; exact ⟨rfl, hst⟩)
    rw [(hr.db.pool p.id e ho.symm).name]; exact hst
  | none =>
    refine Ever.getSt ?_
    cases hrd : s.fs.read p.path with
    | none => exact Ever.throw h
    | some c =>
      have hsrc : s.fs.tab p.path ≠ none := by obtain ⟨i, hi, _⟩ := FS.read_eq_some.1 hrd; rw [hi]; simp
      refine Ever.read (tgt := none) h (pathComp_reads _) (pathComp_keeps (by rw [hp.pkg]; exact (ok.meta hp.isPkg).src) s hr) fun comp hc => ?_
      rw [hp.pkg] at hc
      refine (linkOrCopy_stock p.path (.pool comp p.id) b h).bind fun _ t ht hq => Ever.skip ht (fileSha1_reads _ _) fun sha => ?_
      have hex : ∃ d, W.compOf p.id = some d ∧ t.fs.tab (.pool d p.id) ≠ none := ⟨comp, hc, hq.2 hsrc⟩
      dsimp only
      rw [if_neg (by simp [(ok.gid hp.isPkg).nres])]
      refine (dbWrite_stock (w := .putPool p.id _) hex ht).bind fun _ u hu he => Ever.pure hu (by rw [he]; exact ⟨show t.db.ents = s.db.ents by rw [hq.1.db], hex⟩)

theorem poolAddDelta_stock (ok : W.OK) {p : Pkg} {file : Path} {b : Bool} {f g : Str} (hp : ROpen W p file) (hr : Rough W s) (h : Stocked W s) :
    Ever (Stocked W) (poolAddDelta W.E p f g b) s (fun _ t => t.db.ents = s.db.ents ∧ (∃ d, W.compOf p.id = some d ∧ t.fs.tab (.pool d p.id) ≠ none)) := by
  have hpost : At W none (poolGet? p.id) s (fun o => o = s.db.pool.get p.id) := by
    have := poolGet?_keeps (tgt := none) (W := W) p.id s hr
    exact ⟨this.np, this.fin, this.fsame, this.tr, this.tsame, fun a ha => by cases ha; rfl⟩
  unfold poolAddDelta
  refine Ever.read h (poolGet?_reads _) hpost fun o ho => ?_
  cases o with
  | some e =>
    have hst := h.pool p.id e ho.symm
    refine (dbWrite_stock (w := .putPool e.name { e with refCount := e.refCount + 1 }) ?_ h).bind fun _ t ht he => Ever.pure ht (by rw [he]; exact ⟨rfl, hst⟩)
    rw [(hr.db.pool p.id e ho.symm).name]; exact hst
  | none =>
    exact Ever.skip h (poolGet_reads _) fun _ => Ever.skip h (poolGet_reads _) fun _ => Ever.skip h (getRelease_reads _) fun _ => Ever.skip h (getRelease_reads _) fun _ =>
      poolAddInternal_stock ok hp hr h

theorem addDelta_stock (ok : W.OK) (hz : W.NoTorn) (rid : Str) {file : Path} {f g : Str} (hn : file.isAsset = false) (hr : Rough W s) (h : Stocked W s) :
    Ever (Stocked W) (addDelta W.E rid file f g) s (fun _ _ => True) := by
  refine Ever.read (tgt := none) h (openPkg_reads _ _) (openPkg_at ok hz hn hr) fun p hp => ?_
  obtain ⟨hp, hrd⟩ := hp
  refine Ever.read (tgt := none) h (repoGet_reads rid _) (repoGet_at rid _ hr) fun e he => ?_
  refine Ever.read (tgt := none) h (pathComp_reads _) (pathComp_keeps (by rw [hp.pkg]; exact (ok.meta hp.isPkg).src) s hr) fun c hc => ?_
  rw [hp.pkg] at hc
  split
  · exact Ever.pure h trivial
  · refine (poolAddDelta_stock (f := f) (g := g) (b := false) ok hp hr h).bind fun _ t ht hq => ?_
    obtain ⟨h1, d, hd1, hd2⟩ := hq
    have hc' : W.compOf p.id = some c := hc
    rw [hc'] at hd1; cases hd1
    refine place_stock hc hd2 ?_ ht
    intro x hx
    have hold : ∀ y, y ∈ e.available ∨ y ∈ e.deltas → Holds t.db rid y := fun y hy => ⟨_, e, by rw [h1]; exact he.1, hy⟩
    simp only [mem_sortS, List.mem_append, List.mem_singleton] at hx
    rcases hx with hx | hx | hx
    · exact .inr (hold x (.inl hx))
    · exact .inr (hold x (.inr hx))
    · exact .inl hx

theorem buildSaneEntry_held (rid : Str) (m : Meta) (id : Str) :
    Post (buildSaneEntry rid m id) s (fun o _ => ∀ ne, o = some ne → ∀ x, x ∈ ne.available ∨ x ∈ ne.deltas → x = id ∨ Holds s.db rid x) := by
  refine (repoGet?_post rid m.name).bind fun o t h => ?_
  obtain ⟨rfl, rfl⟩ := h
  cases hg : (t.db.ents rid).get m.name with
  | none =>
    refine Post.pure fun ne he => ?_
    cases he
    intro x hx
    simp only [List.mem_singleton, List.not_mem_nil, or_false] at hx
    exact .inl hx
  | some e =>
    refine Post.bind (P := fun _ u => u = t) ?_ fun pub u hu => ?_
    · refine (Reads.bind (poolGet?_reads _) fun o => ?_).post
      cases o with
      | none => exact Reads.pure _
      | some pa => exact (getRelease_reads _).bind fun _ => (getRelease_reads _).bind fun _ => Reads.ite (Reads.pure _) (Reads.pure _)
    · subst hu
      split
      · exact Post.pure fun ne h => by cases h
      · refine Post.pure fun ne he => ?_
        cases he
        intro x hx
        simp only [mem_sortS, List.mem_append, List.mem_singleton, List.not_mem_nil, or_false] at hx
        rcases hx with hx | hx
        · exact .inr ⟨_, e, hg, .inl hx⟩
        · exact .inl hx

theorem saneStock {rid id : Str} {m : Meta} {f : Option RepoEntry → M β} {R : β → St → Prop} (h : Stocked W s)
    (hnone : Ever (Stocked W) (f none) s R)
    (hsome : ∀ ne, (∀ x, x ∈ ne.available ∨ x ∈ ne.deltas → x = id ∨ Holds s.db rid x) → Ever (Stocked W) (f (some ne)) s R) :
    Ever (Stocked W) (buildSaneEntry rid m id >>= f) s R := by
  refine ((Ever.reads h (buildSaneEntry_reads _ _ _)).post (buildSaneEntry_held (s := s) rid m id)).bind fun o t ht hq => ?_
  obtain ⟨h1, rfl⟩ := hq
  cases o with
  | none => exact hnone
  | some ne => exact hsome ne (h1 ne rfl)

theorem refPackage_stock (ok : W.OK) (rid id : Str) (hr : Rough W s) (h : Stocked W s) :
    Ever (Stocked W) (refPackage W.E rid id) s (fun _ _ => True) := by
  refine Ever.read (tgt := none) h (poolGet_reads id) (poolGet_at id hr) fun pe hpe => ?_
  refine Ever.read (tgt := none) h (pathComp_reads _) (pathComp_keeps (hpe.2.src ok) s hr) fun c hc => ?_
  refine saneStock h (Ever.pure h trivial) fun ne hne => ?_
  refine (refEntry_stock id hr h).bind fun _ t ht hq => ?_
  obtain ⟨h1, h2, d, hd1, hd2⟩ := hq
  have hcomp := poolComp hpe.2 hc
  rw [hcomp] at hd1; cases hd1
  exact place_stock hcomp (by rw [h2]; exact hd2) (fun x hx => (hne x hx).imp (fun h => h) (Holds.congr h1 _ _).2) ht

theorem addLocalPackage_stock (ok : W.OK) (rid : Str) {p : Pkg} {file : Path} (hp : ROpen W p file) (hr : Rough W s) (h : Stocked W s) :
    Ever (Stocked W) (addLocalPackage W.E rid p) s (fun _ _ => True) := by
  refine Ever.read (tgt := none) h (pathComp_reads _) (pathComp_keeps (by rw [hp.pkg]; exact (ok.meta hp.isPkg).src) s hr) fun c hc => ?_
  rw [hp.pkg] at hc
  refine saneStock h (Ever.pure h trivial) fun ne hne => ?_
  refine (poolAddInternal_stock ok hp hr h).bind fun _ t ht hq => ?_
  obtain ⟨h1, d, hd1, hd2⟩ := hq
  have hc' : W.compOf p.id = some c := hc
  rw [hc'] at hd1; cases hd1
  exact place_stock hc hd2 (fun x hx => (hne x hx).imp (fun h => h) (Holds.congr h1 _ _).2) ht

theorem addPackage_stock (ok : W.OK) (hz : W.NoTorn) (rid : Str) {file : Path} {strict : Bool} (hn : file.isAsset = false)
    (hr : Rough W s) (h : Stocked W s) : Ever (Stocked W) (addPackage W.E rid file strict) s (fun _ _ => True) := by
  refine Ever.read (tgt := none) h (openPkg_reads _ _) (openPkg_at ok hz hn hr) fun p hp => ?_
  have hal := addLocalPackage_stock ok rid hp.1 hr h
  split
  · exact hal
  · refine Ever.skip h (repoGet?_reads _ _) fun o => ?_
    cases o with
    | none => exact hal
    | some l =>
      refine Ever.skip h (poolGet_reads _) fun pub => Ever.skip h (getRelease_reads _) fun pr => Ever.skip h (getRelease_reads _) fun nr => ?_
      split
      · exact Ever.throw h
      · split
        · exact Ever.throw h
        · exact hal

theorem bakeRepo_stock (rid : Str) (h : Stocked W s) : Ever (Stocked W) (bakeRepo rid) s (fun _ t => t.db = s.db ∧ t.cache = s.cache) :=
  (Ever.step (g := fun s => s.setFs { s.fs with rdir := fun r => if r = rid then true else s.fs.rdir r }) (h.fs (fun _ h => h))).mono fun _ t ht => by
    subst ht; exact ⟨rfl, rfl⟩

theorem cached_stock {rid : Str} (h : Stocked W s) (hr : ∃ u, s.db.repos.get rid = some u) : Stocked W { s with cache := rid :: s.cache } :=
  ⟨h.pool, h.repo, fun r hm => by
    rcases List.mem_cons.1 hm with rfl | hm
    · exact hr
    · exact h.cache r hm⟩

theorem getRepo_stock (rid : Str) (h : Stocked W s) : Ever (Stocked W) (getRepo rid) s (fun _ t => t.db = s.db ∧ ∃ u, s.db.repos.get rid = some u) := by
  refine Ever.getSt ?_
  split
  · rename_i hm; exact Ever.pure h ⟨rfl, h.cache rid hm⟩
  · cases hu : s.db.repos.get rid with
    | none => exact Ever.throw h
    | some u =>
      refine (bakeRepo_stock rid h).bind fun _ t ht hq => ?_
      refine (Ever.vol (g := fun s => { s with cache := rid :: s.cache }) (cached_stock ht ⟨u, by rw [hq.1]; exact hu⟩)).mono fun _ v hv => ?_
      subst hv
      exact ⟨hq.1, u, rfl⟩

theorem createRepo_stock (rid : Str) (h : Stocked W s) : Ever (Stocked W) (createRepo rid) s (fun _ _ => True) := by
  refine Ever.getSt ?_
  split
  · exact (getRepo_stock rid h).bind fun _ t ht _ => Ever.throw ht
  · split
    · exact Ever.throw h
    · refine (dbWrite_stock (w := .putRepo rid) trivial h).bind fun _ t ht hq => ?_
      refine (bakeRepo_stock rid ht).bind fun _ u hu hq' => ?_
      refine (Ever.vol (g := fun s => { s with cache := rid :: s.cache }) (cached_stock hu ⟨(), ?_⟩)).mono fun _ _ _ => trivial
      rw [hq'.1, hq]
      simp [DbWrite.apply]

theorem indexRepo_stock (E : Env) (rid : Str) (h : Stocked W s) : Ever (Stocked W) (indexRepo E rid) s (fun _ _ => True) := by
  refine Ever.skip h (initDistribution_reads _ _) fun dist => Ever.skip h (emitIndex_reads _ _ _) fun doc => Ever.getSt ?_
  have q1 : Stocked W { s with clock := s.clock + 1 } := ⟨h.pool, h.repo, h.cache⟩
  refine (Ever.vol (g := fun s => { s with clock := s.clock + 1 }) q1).bind fun _ t ht he => ?_
  subst he
  have hp : Ever (Stocked W) (stepM fun s' => s'.setFs { s'.fs with idx := fun r => if r = rid then some doc else s'.fs.idx r })
      { s with clock := s.clock + 1 } (fun _ _ => True) :=
    (Ever.step (g := fun s' => s'.setFs { s'.fs with idx := fun r => if r = rid then some doc else s'.fs.idx r }) (q1.fs (fun _ h => h))).mono fun _ _ _ => trivial
  cases E.indexIO s.clock with
  | failBefore => exact Ever.throw ht
  | ok => exact hp
  | failAfter => exact hp.bind fun _ t ht _ => Ever.throw ht

theorem mIndex_stock (E : Env) (rid : Str) (h : Stocked W s) : Ever (Stocked W) (mIndex E rid) s (fun _ _ => True) :=
  (getRepo_stock rid h).bind fun _ _ ht _ => indexRepo_stock E rid ht

theorem pullAsset_stock (dst src : Str) (a : Asset) (h : Stocked W s) : Ever (Stocked W) (pullAsset dst src a) s (fun _ _ => True) := by
  refine Ever.getSt ?_
  cases s.fs.tab (.asset src a) with
  | none => exact Ever.pure h trivial
  | some _ => exact (copyFile_stock _ _ h).mono fun _ _ _ => trivial

theorem pullAssets_stock (dst src : Str) (h : Stocked W s) : Ever (Stocked W) (pullAssets dst src) s (fun _ _ => True) :=
  (pullAsset_stock dst src .distribution h).bind fun _ _ ht _ => (pullAsset_stock dst src .components ht).bind fun _ _ hu _ => pullAsset_stock dst src .groups hu

/-- A loop of jobs that keep rough states rough. -/
theorem Ever.loop {γ : Type} {f : γ → M Unit} (l : List γ) (hr : Rough W s) (h : Stocked W s)
    (hk : ∀ x ∈ l, Keeps W tgt (f x) (fun _ => True)) (hf : ∀ x ∈ l, ∀ t, Rough W t → Stocked W t → Ever (Stocked W) (f x) t (fun _ _ => True)) :
    Ever (Stocked W) (Ferryd.forL l f) s (fun _ t => Rough W t) :=
  Ever.forL (P := Rough W) l h hr fun x hx t ht hrt => ((hf x hx t hrt ht).keeps (hk x hx) hrt).mono fun _ _ h => h.1

theorem cloneFrom_stock (ok : W.OK) (dst src : Str) (full : Bool) (hr : Rough W s) (h : Stocked W s) :
    Ever (Stocked W) (cloneFrom W.E dst src full) s (fun _ _ => True) := by
  refine ((pullAssets_stock dst src h).keeps (pullAssets_keeps dst src) hr).bind fun _ t ht hrt => ?_
  refine Ever.read (tgt := none) ht (repoEntries_reads _) (repoEntries_keeps src t hrt.1) fun es hes => ?_
  dsimp only
  refine (Ever.loop (tgt := some dst) _ hrt.1 ht ?_ fun id _ u hru hu => refPackage_stock ok dst id hru hu).bind fun _ u hu hru => ?_
  · intro id hid
    refine refPackage_keeps ok dst id ?_
    cases full with
    | true =>
      simp only [if_true, List.mem_flatMap] at hid
      obtain ⟨e, he, hi⟩ := hid
      exact ((hes e he).avail id hi).1
    | false =>
      simp only [Bool.false_eq_true, if_false, List.mem_map] at hid
      obtain ⟨e, he, rfl⟩ := hid
      exact ((hes e he).avail _ (hes e he).pub).1
  · refine (Ever.loop (tgt := some dst) _ hru hu ?_ fun id _ u hru hu => refDelta_stock ok dst id hru hu).mono fun _ _ _ => trivial
    intro d hd
    refine refDelta_keeps ok dst d ?_
    cases full with
    | true =>
      simp only [if_true, List.mem_flatMap] at hd
      obtain ⟨e, he, hi⟩ := hd
      exact ((hes e he).deltas d hi).1
    | false => simp at hd

theorem pullFrom_stock (ok : W.OK) (dst src : Str) (hr : Rough W s) (h : Stocked W s) :
    Ever (Stocked W) (pullFrom W.E dst src) s (fun _ _ => True) := by
  refine ((pullAssets_stock dst src h).keeps (pullAssets_keeps dst src) hr).bind fun _ t ht hrt => ?_
  refine Ever.read (tgt := none) ht (repoEntries_reads _) (repoEntries_keeps src t hrt.1) fun es hes => ?_
  refine Ever.read (tgt := none) ht (Reads.collectL fun e _ => pullOne_reads _ _) ((Keeps.collectL fun e he => pullOne_keeps ok dst (hes e he)) t hrt.1) fun todo htodo => ?_
  refine (Ever.loop (tgt := some dst) _ hrt.1 ht ?_ fun id _ u hru hu => refPackage_stock ok dst id hru hu).bind fun _ u hu hru => Ever.pure (P := fun _ _ => True) hu trivial
  intro id hid
  obtain ⟨x, hx, rfl⟩ := List.mem_map.1 hid
  exact refPackage_keeps ok dst _ (htodo x hx)

theorem copySourceFrom_stock (ok : W.OK) (dst src source : Str) (k : Int) (hr : Rough W s) (h : Stocked W s) :
    Ever (Stocked W) (copySourceFrom W.E dst src source k) s (fun _ _ => True) := by
  refine Ever.read (tgt := none) h (matchingSource_reads _ _ _) (matchingSource_keeps ok src source k s hr) fun ids hids => ?_
  split
  · exact Ever.throw h
  · exact (Ever.loop (tgt := some dst) _ hr h (fun id hid => refPackage_keeps ok dst id (hids id hid)) fun id _ u hru hu => refPackage_stock ok dst id hru hu).mono fun _ _ _ => trivial

theorem putFile_stock (p : Path) (c : Content) (h : Stocked W s) : Ever (Stocked W) (stepM fun s => s.putFile p c) s (fun _ _ => True) := by
  have hg : Grown s.fs (s.putFile p c).fs := by
    intro q hq
    show (if q = p then some _ else s.fs.tab q) ≠ none
    split
    · simp
    · exact hq
  have hf : Stocked W (s.putFile p c) := by
    refine ⟨fun id pe hp => ?_, fun r id hh => ?_, h.cache⟩
    · obtain ⟨d, h1, h2⟩ := h.pool id pe hp; exact ⟨d, h1, hg _ h2⟩
    · obtain ⟨d, h1, h2⟩ := h.repo r id hh; exact ⟨d, h1, hg _ h2⟩
  exact (Ever.step (g := fun s => s.putFile p c) hf).mono fun _ _ _ => trivial

theorem removeFile_stock {p : Path} (hp : (∀ d id, p ≠ .pool d id) ∧ ∀ r d id, p ≠ .repo r d id) (h : Stocked W s) :
    Ever (Stocked W) (removeFile p) s (fun _ _ => True) := by
  refine (Ever.step (g := fun s => s.setFs (s.fs.setTab p none)) ⟨fun id pe hg => ?_, fun r id hh => ?_, h.cache⟩).mono fun _ _ _ => trivial
  · obtain ⟨d, h1, h2⟩ := h.pool id pe hg
    refine ⟨d, h1, ?_⟩
    show (s.fs.setTab p none).tab _ ≠ none
    rw [FS.setTab_tab, if_neg (hp.1 d id).symm]; exact h2
  · obtain ⟨d, h1, h2⟩ := h.repo r id hh
    refine ⟨d, h1, ?_⟩
    show (s.fs.setTab p none).tab _ ≠ none
    rw [FS.setTab_tab, if_neg (hp.2 r d id).symm]; exact h2

/-- The jobs that take packages or whole repositories away. -/
def Op.takes : Op → Bool
  | .delete _ => true
  | .removeSource _ _ _ => true
  | .trimObsolete _ => true
  | .trimPackages _ _ => true
  | _ => false

/-- Every other job keeps every file in its place, at all its points. -/
theorem Op.stock (ok : W.OK) (hz : W.NoTorn) {o : Op} (ho : o.Ok W) (hn : o.takes = false) (hr : Rough W s) (h : Stocked W s) :
    Ever (Stocked W) (o.run W.E) s (fun _ _ => True) := by
  have get : ∀ {β : Type} (r : Str) {f : Unit → M β} {s : St}, Rough W s → Stocked W s → (∀ t, Rough W t → Stocked W t → Ever (Stocked W) (f ()) t (fun _ _ => True)) →
      Ever (Stocked W) (getRepo r >>= f) s (fun _ _ => True) := by
    intro β r f s hr hs hf
    exact ((getRepo_stock r hs).keeps (getRepo_keeps (tgt := none) r) hr).bind fun _ t hst ht => hf t ht.1 hst
  cases o with
  | create r => exact (createRepo_stock r h).bind fun _ t ht _ => mIndex_stock W.E r ht
  | delete r => cases hn
  | clone a b f =>
    refine get a hr h fun t hrt ht => ?_
    refine ((createRepo_stock b ht).keeps (createRepo_keeps b) hrt).bind fun _ u hu hru => ?_
    exact (cloneFrom_stock ok b a f hru.1 hu).bind fun _ v hv _ => mIndex_stock W.E b hv
  | pull a b =>
    refine Ever.bind (P := fun _ _ => True) ?_ fun _ t ht _ => Ever.pure ht trivial
    exact get a hr h fun t hrt ht => get b hrt ht fun u hru hu => (pullFrom_stock ok b a hru hu).bind fun _ v hv _ =>
      (mIndex_stock W.E b hv).bind fun _ w hw _ => Ever.pure hw trivial
  | removeSource r n k => cases hn
  | trimObsolete r => cases hn
  | trimPackages r k => cases hn
  | copySource a b n k sk =>
    refine get a hr h fun t hrt ht => get b hrt ht fun u hru hu => (copySourceFrom_stock ok b a n k hru hu).bind fun _ v hv _ => ?_
    cases sk with
    | true => exact mIndex_stock W.E b hv
    | false => exact Ever.pure hv trivial
  | addPackages r fs st =>
    refine get r hr h fun t hrt ht => ?_
    exact (Ever.loop (tgt := some r) fs hrt ht (fun f hf => addPackage_keeps ok hz r (file := .ext f) rfl (ho f hf))
      fun f hf s hr hs => addPackage_stock ok hz r (file := .ext f) rfl hr hs).bind fun _ u hu _ => mIndex_stock W.E r hu
  | index r => exact mIndex_stock W.E r h
  | addDelta r d f t => exact get r hr h fun u hru hu => addDelta_stock ok hz r (file := .stage r d) rfl hru hu
  | refDelta r d => exact get r hr h fun u hru hu => refDelta_stock ok r d hru hu
  | markFailed i d =>
    refine Ever.getSt ?_
    cases s.db.skip.get i with
    | some _ => exact Ever.pure h trivial
    | none => exact (dbWrite_stock (w := .putSkip i d) trivial h).mono fun _ _ _ => trivial
  | upload f c => exact putFile_stock (.ext f) c h
  | unlink f => exact removeFile_stock (p := .ext f) ⟨by simp, by simp⟩ h
  | putAsset r a c => exact putFile_stock (.asset r a) c h
  | stage r d c => exact putFile_stock (.stage r d) c h
  | unstage r d => exact removeFile_stock (p := .stage r d) ⟨by simp, by simp⟩ h
  | restart => exact (Ever.step h.crash).mono fun _ _ _ => trivial

end Ferryd
