import Verif.CoreStock2
/-!
# CoreOffer: what the published index offers is listed

Jobs that take nothing away keep every package the published index offers in the listing, at all their points; jobs that take packages away
either publish the index anew or leave it alone.
-/
namespace Ferryd
open Spec

/-- The published index of repository `r` offers the package file `id`. (No code: specification over the index file of core/repo_index.go.) -/
def Spec.Offers (s : St) (r id : Str) : Prop := ∃ doc, s.fs.idx r = some doc ∧ ∃ p ∈ doc.packages, p.id = id

variable {W : World} {s : St} {α β : Type} {tgt : Option Str} {q : Str}

/-- What is offered is listed. (No code: invariant.) -/
structure OnOffer (q : Str) (s : St) : Prop where
  all : ∀ id, Offers s q id → Has s q id

theorem off_init : OnOffer q St.init := ⟨fun id h => by obtain ⟨doc, h, _⟩ := h; simp [St.init] at h⟩
theorem OnOffer.crash (h : OnOffer q s) : OnOffer q s.crash := ⟨h.all⟩
theorem OnOffer.dropPend (h : OnOffer q s) : OnOffer q { s with pend := [] } := ⟨h.all⟩

/-- The index and the listings stay. (No code: proof device.) -/
structure Held (s t : St) : Prop where
  ents : t.db.ents = s.db.ents
  idx : t.fs.idx = s.fs.idx

theorem Held.refl (s : St) : Held s s := ⟨rfl, rfl⟩
theorem Held.trans {t u : St} (a : Held s t) (b : Held t u) : Held s u := ⟨b.ents.trans a.ents, b.idx.trans a.idx⟩
theorem Held.has {t : St} (h : Held s t) (r id : Str) : Has t r id ↔ Has s r id := by unfold Has Lists; rw [h.ents]
theorem Held.offers {t : St} (h : Held s t) (r id : Str) : Offers t r id ↔ Offers s r id := by unfold Offers; rw [h.idx]
theorem OnOffer.held {t : St} (h : OnOffer q s) (k : Held s t) : OnOffer q t := ⟨fun id ho => (k.has q id).2 (h.all id ((k.offers q id).1 ho))⟩

theorem openTrunc_idx (f : FS) (p : Path) : (f.openTrunc p).1.idx = f.idx := by
  unfold FS.openTrunc
  cases f.tab p <;> rfl

theorem copyFile_held (src dst : Path) (h : OnOffer q s) : Ever (OnOffer q) (copyFile src dst) s (fun _ t => Held s t) := by
  refine Ever.getSt ?_
  cases hi : s.fs.tab src with
  | none => exact Ever.pure h (Held.refl s)
  | some i =>
    have h1 : Held s (s.setFs (s.fs.openTrunc dst).1) := ⟨rfl, openTrunc_idx _ _⟩
    refine (Ever.step (g := fun t => t.setFs (t.fs.openTrunc dst).1) (h.held h1)).bind fun _ t ht he => ?_
    subst he
    have h2 : Held s ((s.setFs (s.fs.openTrunc dst).1).setFs ((s.setFs (s.fs.openTrunc dst).1).fs.setData (s.fs.openTrunc dst).2 ((s.setFs (s.fs.openTrunc dst).1).fs.data i))) :=
      h1.trans ⟨rfl, rfl⟩
    refine (Ever.step (g := fun s' => s'.setFs (s'.fs.setData (s.fs.openTrunc dst).2 (s'.fs.data i))) (h.held h2)).mono fun _ u hu => ?_
    subst hu
    exact h2

theorem linkOrCopy_held {E : Env} (src dst : Path) (b : Bool) (h : OnOffer q s) : Ever (OnOffer q) (linkOrCopy E src dst b) s (fun _ t => Held s t) := by
  have hc := copyFile_held src dst h
  unfold linkOrCopy
  split
  · exact hc
  · refine Ever.getSt ?_
    cases hi : s.fs.tab src with
    | none => exact hc
    | some i =>
      cases hj : s.fs.tab dst with
      | some j => exact hc
      | none =>
        simp only
        split
        · exact (Ever.step (g := fun s => s.setFs (s.fs.setTab dst (some i))) (h.held ⟨rfl, rfl⟩)).mono fun _ t ht => by subst ht; exact ⟨rfl, rfl⟩
        · exact hc

/-- A write that takes nothing from a listing. (No code: proof device.) -/
def OWrite (s : St) : DbWrite → Prop
  | .putEnt r n e => ∀ e0, (s.db.ents r).get n = some e0 → ∀ x ∈ e0.available, x ∈ e.available
  | .delEnt _ _ => False
  | _ => True

theorem OWrite.has {w : DbWrite} (hw : OWrite s w) {r id : Str} (h : Has s r id) : Has { s with db := w.apply s.db } r id := by
  cases w with
  | putEnt a k e =>
    obtain ⟨n, e0, hg, hx⟩ := h
    by_cases hn : r = a ∧ n = k
    · obtain ⟨rfl, rfl⟩ := hn
      refine ⟨n, e, ?_, hw e0 hg id hx⟩
      simp [DbWrite.apply, setEnts]
    · refine ⟨n, e0, ?_, hx⟩
      simp only [DbWrite.apply, setEnts]
      split
      · rename_i hr; subst hr
        rw [KV.get_put, if_neg (fun hk => hn ⟨rfl, hk⟩)]; exact hg
      · exact hg
  | delEnt a k => exact hw.elim
  | _ => exact h

theorem dbWrite_off {w : DbWrite} (hw : OWrite s w) (h : OnOffer q s) :
    Ever (OnOffer q) (dbWrite .direct w) s (fun _ t => t = { s with db := w.apply s.db }) := by
  unfold dbWrite
  split
  · exact Ever.throw h
  · exact Ever.step (g := fun s => { s with db := w.apply s.db }) ⟨fun id ho => hw.has (h.all id ho)⟩

theorem putPool_held {k : Str} {e : PoolEntry} (h : OnOffer q s) : Ever (OnOffer q) (dbWrite .direct (.putPool k e)) s (fun _ t => Held s t) :=
  (dbWrite_off (w := .putPool k e) trivial h).mono fun _ t ht => by subst ht; exact ⟨rfl, rfl⟩

theorem refEntry_held (id : Str) (h : OnOffer q s) : Ever (OnOffer q) (refEntry id) s (fun _ t => Held s t) :=
  Ever.skip h (poolGet_reads id) fun _ => putPool_held h

theorem place_off {E : Env} {p p' : Path} {rid : Str} {ne : RepoEntry}
    (ha : ∀ e0, (s.db.ents rid).get ne.name = some e0 → ∀ x ∈ e0.available, x ∈ ne.available) (h : OnOffer q s) :
    Ever (OnOffer q) (do linkOrCopy E p p' false; repoPut rid ne) s (fun _ _ => True) := by
  refine (linkOrCopy_held _ _ _ h).bind fun _ t ht hq => ?_
  refine (dbWrite_off (w := .putEnt rid ne.name ne) ?_ ht).mono fun _ _ _ => trivial
  intro e0 hg
  rw [hq.ents] at hg
  exact ha e0 hg

theorem refDelta_off {E : Env} (rid id : Str) (hr : Rough W s) (h : OnOffer q s) : Ever (OnOffer q) (refDelta E rid id) s (fun _ _ => True) := by
  refine Ever.skip h (poolGet_reads id) fun pe => ?_
  refine Ever.read (tgt := none) h (repoGet_reads rid _) (repoGet_at rid _ hr) fun e he => ?_
  refine Ever.skip h (pathComp_reads _) fun c => ?_
  split
  · exact Ever.pure h trivial
  · refine (refEntry_held id h).bind fun _ t ht hq => place_off ?_ ht
    intro e0 hg x hx
    rw [hq.ents] at hg
    have hg' : (s.db.ents rid).get e.name = some e0 := hg
    rw [he.2.name] at hg'
    rw [he.1] at hg'; cases hg'
    exact hx

theorem poolAddInternal_held {E : Env} (p : Pkg) (b : Bool) (delta : Option DeltaInfo) (h : OnOffer q s) :
    Ever (OnOffer q) (poolAddInternal E p b delta) s (fun _ t => Held s t) := by
  unfold poolAddInternal
  refine Ever.skip h (poolGet?_reads _) fun o => ?_
  cases o with
  | some e => exact (putPool_held h).bind fun _ t ht he => Ever.pure ht he
  | none =>
    refine Ever.getSt ?_
    cases hrd : s.fs.read p.path with
    | none => exact Ever.throw h
    | some c =>
      refine Ever.skip h (pathComp_reads _) fun comp => ?_
      refine (linkOrCopy_held p.path (.pool comp p.id) b h).bind fun _ t ht hq => Ever.skip ht (fileSha1_reads _ _) fun sha => ?_
      dsimp only
      split
      · refine (Ever.step (g := fun s => s.setFs (s.fs.setTab _ none)) (ht.held ⟨rfl, rfl⟩)).bind fun _ u hu _ => Ever.throw hu
      · exact (putPool_held ht).bind fun _ u hu he => Ever.pure hu (hq.trans he)

theorem poolAddDelta_held {E : Env} (p : Pkg) (f g : Str) (b : Bool) (h : OnOffer q s) : Ever (OnOffer q) (poolAddDelta E p f g b) s (fun _ t => Held s t) := by
  unfold poolAddDelta
  refine Ever.skip h (poolGet?_reads _) fun o => ?_
  cases o with
  | some e => exact (putPool_held h).bind fun _ t ht he => Ever.pure ht he
  | none =>
    exact Ever.skip h (poolGet_reads _) fun _ => Ever.skip h (poolGet_reads _) fun _ => Ever.skip h (getRelease_reads _) fun _ => Ever.skip h (getRelease_reads _) fun _ =>
      poolAddInternal_held _ _ _ h

theorem addDelta_off {E : Env} (rid : Str) {file : Path} {f g : Str} (hr : Rough W s) (h : OnOffer q s) :
    Ever (OnOffer q) (addDelta E rid file f g) s (fun _ _ => True) := by
  refine Ever.skip h (openPkg_reads _ _) fun p => ?_
  refine Ever.read (tgt := none) h (repoGet_reads rid _) (repoGet_at rid _ hr) fun e he => ?_
  refine Ever.skip h (pathComp_reads _) fun c => ?_
  split
  · exact Ever.pure h trivial
  · refine (poolAddDelta_held _ _ _ _ h).bind fun _ t ht hq => place_off ?_ ht
    intro e0 hg x hx
    rw [hq.ents] at hg
    have hg' : (s.db.ents rid).get e.name = some e0 := hg
    rw [he.2.name] at hg'
    rw [he.1] at hg'; cases hg'
    exact hx

theorem buildSaneEntry_super (rid : Str) (m : Meta) (id : Str) :
    Post (buildSaneEntry rid m id) s (fun o _ => ∀ ne, o = some ne → ∀ e0, (s.db.ents rid).get ne.name = some e0 → ∀ x ∈ e0.available, x ∈ ne.available) := by
  refine (repoGet?_post rid m.name).bind fun o t h => ?_
  obtain ⟨rfl, rfl⟩ := h
  cases hg : (t.db.ents rid).get m.name with
  | none =>
    refine Post.pure fun ne he => ?_
    cases he
    intro e0 h0
    rw [hg] at h0; cases h0
  | some e =>
    refine Post.bind (P := fun _ u => u = t) ?_ fun pub u hu => ?_
    · refine (Reads.bind (poolGet?_reads _) fun o => ?_).post
      cases o with
      | none => exact Reads.pure _
      | some pa => exact (getRelease_reads _).bind fun _ => (getRelease_reads _).bind fun _ => Reads.ite (Reads.pure _) (Reads.pure _)
    · subst hu
      split
      · exact Post.pure fun ne h => by cases h
      · refine Post.pure fun ne he => ?_
        cases he
        intro e0 h0 x hx
        rw [hg] at h0; cases h0
        simp only [mem_sortS, List.mem_append, List.mem_singleton]
        exact .inl hx

theorem saneOff {rid id : Str} {m : Meta} {f : Option RepoEntry → M β} {R : β → St → Prop} (h : OnOffer q s)
    (hnone : Ever (OnOffer q) (f none) s R)
    (hsome : ∀ ne, (∀ e0, (s.db.ents rid).get ne.name = some e0 → ∀ x ∈ e0.available, x ∈ ne.available) → Ever (OnOffer q) (f (some ne)) s R) :
    Ever (OnOffer q) (buildSaneEntry rid m id >>= f) s R := by
  refine ((Ever.reads h (buildSaneEntry_reads _ _ _)).post (buildSaneEntry_super (s := s) rid m id)).bind fun o t ht hq => ?_
  obtain ⟨h1, rfl⟩ := hq
  cases o with
  | none => exact hnone
  | some ne => exact hsome ne (h1 ne rfl)

theorem refPackage_off {E : Env} (rid id : Str) (h : OnOffer q s) : Ever (OnOffer q) (refPackage E rid id) s (fun _ _ => True) := by
  refine Ever.skip h (poolGet_reads id) fun pe => Ever.skip h (pathComp_reads _) fun c => saneOff h (Ever.pure h trivial) fun ne hne => ?_
  refine (refEntry_held id h).bind fun _ t ht hq => place_off (fun e0 hg => ?_) ht
  rw [hq.ents] at hg
  exact hne e0 hg

theorem addLocalPackage_off {E : Env} (rid : Str) (p : Pkg) (h : OnOffer q s) : Ever (OnOffer q) (addLocalPackage E rid p) s (fun _ _ => True) := by
  refine Ever.skip h (pathComp_reads _) fun c => saneOff h (Ever.pure h trivial) fun ne hne => ?_
  refine (poolAddInternal_held _ _ _ h).bind fun _ t ht hq => place_off (fun e0 hg => ?_) ht
  rw [hq.ents] at hg
  exact hne e0 hg

theorem addPackage_off {E : Env} (rid : Str) (file : Path) (strict : Bool) (h : OnOffer q s) : Ever (OnOffer q) (addPackage E rid file strict) s (fun _ _ => True) := by
  refine Ever.skip h (openPkg_reads _ _) fun p => ?_
  have hal := addLocalPackage_off (E := E) rid p h
  split
  · exact hal
  · refine Ever.skip h (repoGet?_reads _ _) fun o => ?_
    cases o with
    | none => exact hal
    | some l =>
      refine Ever.skip h (poolGet_reads _) fun pub => Ever.skip h (getRelease_reads _) fun pr => Ever.skip h (getRelease_reads _) fun nr => ?_
      split
      · exact Ever.throw h
      · split
        · exact Ever.throw h
        · exact hal

theorem getRepo_off (rid : Str) (h : OnOffer q s) : Ever (OnOffer q) (getRepo rid) s (fun _ t => Held s t) := by
  refine Ever.getSt ?_
  split
  · exact Ever.pure h (Held.refl s)
  · cases hu : s.db.repos.get rid with
    | none => exact Ever.throw h
    | some u =>
      refine (Ever.step (g := fun s => s.setFs { s.fs with rdir := fun r => if r = rid then true else s.fs.rdir r }) (h.held ⟨rfl, rfl⟩)).bind fun _ t ht he => ?_
      refine (Ever.vol (g := fun s => { s with cache := rid :: s.cache }) (ht.held ⟨rfl, rfl⟩)).mono fun _ v hv => ?_
      subst hv he
      exact ⟨rfl, rfl⟩

theorem createRepo_off (rid : Str) (h : OnOffer q s) : Ever (OnOffer q) (createRepo rid) s (fun _ _ => True) := by
  refine Ever.getSt ?_
  split
  · exact (getRepo_off rid h).bind fun _ t ht _ => Ever.throw ht
  · split
    · exact Ever.throw h
    · refine (dbWrite_off (w := .putRepo rid) trivial h).bind fun _ t ht _ => ?_
      refine (Ever.step (g := fun s => s.setFs { s.fs with rdir := fun r => if r = rid then true else s.fs.rdir r }) (ht.held ⟨rfl, rfl⟩)).bind fun _ t ht he => ?_
      exact (Ever.vol (g := fun s => { s with cache := rid :: s.cache }) (ht.held ⟨rfl, rfl⟩)).mono fun _ _ _ => trivial

/-- Everything a freshly made document offers is listed. -/
theorem Rough.docListed (h : Rough W s) {r : Str} {dist : Option (List Str)} {p : DocPkg} (hp : p ∈ (W.docOf s r dist).packages) : Has s r p.id := by
  obtain ⟨id, hid, rfl⟩ := List.mem_map.1 hp
  obtain ⟨n, ⟨e, hg, rfl⟩, _⟩ := (h.mem_docIds r _ id).1 hid
  exact ⟨n, e, hg, (h.db.ent r n e hg).pub⟩

/-- An index run leaves the index, or publishes one all of which is listed. -/
theorem indexRepo_off (ok : W.OK) {J : St → Prop} (rid : Str) (hr : Rough W s) (hJ : J s) (hv : J { s with clock := s.clock + 1 })
    (hp : ∀ doc, (∀ p ∈ doc.packages, Has s rid p.id) → J (({ s with clock := s.clock + 1 } : St).publish rid doc)) :
    Ever J (indexRepo W.E rid) s (fun _ _ => True) := by
  refine Ever.skip hJ (initDistribution_reads _ _) fun dist => ?_
  refine Ever.read (tgt := none) hJ (emitIndex_reads _ _ _) (emitIndex_at ok rid dist hr) fun doc hdoc => ?_
  obtain ⟨rfl, _⟩ := hdoc
  refine Ever.getSt ?_
  refine (Ever.vol (g := fun s => { s with clock := s.clock + 1 }) hv).bind fun _ t ht he => ?_
  subst he
  have hq : Ever J (stepM fun s' => s'.setFs { s'.fs with idx := fun r => if r = rid then some (W.docOf s rid dist) else s'.fs.idx r })
      { s with clock := s.clock + 1 } (fun _ _ => True) :=
    (Ever.step (g := fun s' => s'.publish rid (W.docOf s rid dist)) (hp _ fun p hp => hr.docListed hp)).mono fun _ _ _ => trivial
  cases W.E.indexIO s.clock with
  | failBefore => exact Ever.throw ht
  | ok => exact hq
  | failAfter => exact hq.bind fun _ t ht _ => Ever.throw ht

theorem OnOffer.publish (h : OnOffer q s) {rid : Str} {doc : Doc} (hd : ∀ p ∈ doc.packages, Has s rid p.id) :
    OnOffer q (({ s with clock := s.clock + 1 } : St).publish rid doc) := by
  refine ⟨fun id ho => ?_⟩
  obtain ⟨doc', hg, p, hp, rfl⟩ := ho
  simp only [St.publish, St.setFs_fs] at hg
  split at hg
  · rename_i hr; subst hr; cases hg; exact hd p hp
  · exact h.all p.id ⟨doc', hg, p, hp, rfl⟩

theorem mIndex_off (ok : W.OK) (rid : Str) (hr : Rough W s) (h : OnOffer q s) : Ever (OnOffer q) (mIndex W.E rid) s (fun _ _ => True) :=
  ((getRepo_off rid h).keeps (getRepo_keeps (tgt := none) rid) hr).bind fun _ _ ht hk =>
    indexRepo_off ok rid hk.1 ht (ht.held ⟨rfl, rfl⟩) fun _ hd => ht.publish hd

theorem pullAsset_off (dst src : Str) (a : Asset) (h : OnOffer q s) : Ever (OnOffer q) (pullAsset dst src a) s (fun _ _ => True) := by
  refine Ever.getSt ?_
  cases s.fs.tab (.asset src a) with
  | none => exact Ever.pure h trivial
  | some _ => exact (copyFile_held _ _ h).mono fun _ _ _ => trivial

theorem pullAssets_off (dst src : Str) (h : OnOffer q s) : Ever (OnOffer q) (pullAssets dst src) s (fun _ _ => True) :=
  (pullAsset_off dst src .distribution h).bind fun _ _ ht _ => (pullAsset_off dst src .components ht).bind fun _ _ hu _ => pullAsset_off dst src .groups hu

theorem Ever.loopOff {γ : Type} {f : γ → M Unit} (l : List γ) (hr : Rough W s) (h : OnOffer q s)
    (hk : ∀ x ∈ l, Keeps W tgt (f x) (fun _ => True)) (hf : ∀ x ∈ l, ∀ t, Rough W t → OnOffer q t → Ever (OnOffer q) (f x) t (fun _ _ => True)) :
    Ever (OnOffer q) (Ferryd.forL l f) s (fun _ t => Rough W t) :=
  Ever.forL (P := Rough W) l h hr fun x hx t ht hrt => ((hf x hx t hrt ht).keeps (hk x hx) hrt).mono fun _ _ h => h.1

theorem cloneFrom_off (ok : W.OK) (dst src : Str) (full : Bool) (hr : Rough W s) (h : OnOffer q s) :
    Ever (OnOffer q) (cloneFrom W.E dst src full) s (fun _ t => Rough W t) := by
  refine ((pullAssets_off dst src h).keeps (pullAssets_keeps dst src) hr).bind fun _ t ht hrt => ?_
  refine Ever.read (tgt := none) ht (repoEntries_reads _) (repoEntries_keeps src t hrt.1) fun es hes => ?_
  dsimp only
  refine (Ever.loopOff (tgt := some dst) _ hrt.1 ht ?_ fun id _ u hru hu => refPackage_off dst id hu).bind fun _ u hu hru => ?_
  · intro id hid
    refine refPackage_keeps ok dst id ?_
    cases full with
    | true =>
      simp only [if_true, List.mem_flatMap] at hid
      obtain ⟨e, he, hi⟩ := hid
      exact ((hes e he).avail id hi).1
    | false =>
      simp only [Bool.false_eq_true, if_false, List.mem_map] at hid
      obtain ⟨e, he, rfl⟩ := hid
      exact ((hes e he).avail _ (hes e he).pub).1
  · refine Ever.loopOff (tgt := some dst) _ hru hu ?_ fun id _ u hru hu => refDelta_off dst id hru hu
    intro d hd
    refine refDelta_keeps ok dst d ?_
    cases full with
    | true =>
      simp only [if_true, List.mem_flatMap] at hd
      obtain ⟨e, he, hi⟩ := hd
      exact ((hes e he).deltas d hi).1
    | false => simp at hd

theorem pullFrom_off (ok : W.OK) (dst src : Str) (hr : Rough W s) (h : OnOffer q s) :
    Ever (OnOffer q) (pullFrom W.E dst src) s (fun _ t => Rough W t) := by
  refine ((pullAssets_off dst src h).keeps (pullAssets_keeps dst src) hr).bind fun _ t ht hrt => ?_
  refine Ever.read (tgt := none) ht (repoEntries_reads _) (repoEntries_keeps src t hrt.1) fun es hes => ?_
  refine Ever.read (tgt := none) ht (Reads.collectL fun e _ => pullOne_reads _ _) ((Keeps.collectL fun e he => pullOne_keeps ok dst (hes e he)) t hrt.1) fun todo htodo => ?_
  refine (Ever.loopOff (tgt := some dst) _ hrt.1 ht ?_ fun id _ u hru hu => refPackage_off dst id hu).bind fun _ u hu hru => Ever.pure (P := fun _ t => Rough W t) hu hru
  intro id hid
  obtain ⟨x, hx, rfl⟩ := List.mem_map.1 hid
  exact refPackage_keeps ok dst _ (htodo x hx)

theorem copySourceFrom_off (ok : W.OK) (dst src source : Str) (k : Int) (hr : Rough W s) (h : OnOffer q s) :
    Ever (OnOffer q) (copySourceFrom W.E dst src source k) s (fun _ t => Rough W t) := by
  refine Ever.read (tgt := none) h (matchingSource_reads _ _ _) (matchingSource_keeps ok src source k s hr) fun ids hids => ?_
  split
  · exact Ever.throw h
  · exact Ever.loopOff (tgt := some dst) _ hr h (fun id hid => refPackage_keeps ok dst id (hids id hid)) fun id _ u hru hu => refPackage_off dst id hu

/-- A job that takes nothing away keeps what is offered listed, at all its points. -/
theorem Op.off (ok : W.OK) (hz : W.NoTorn) {o : Op} (ho : o.Ok W) (hn : o.takes = false) (hr : Rough W s) (h : OnOffer q s) :
    Ever (OnOffer q) (o.run W.E) s (fun _ _ => True) := by
  have get : ∀ {β : Type} (r : Str) {f : Unit → M β} {s : St}, Rough W s → OnOffer q s → (∀ t, Rough W t → OnOffer q t → Ever (OnOffer q) (f ()) t (fun _ _ => True)) →
      Ever (OnOffer q) (getRepo r >>= f) s (fun _ _ => True) := by
    intro β r f s hr hs hf
    exact ((getRepo_off r hs).keeps (getRepo_keeps (tgt := none) r) hr).bind fun _ t hst ht => hf t ht.1 hst
  cases o with
  | create r => exact ((createRepo_off r h).keeps (createRepo_keeps r) hr).bind fun _ t ht hk => mIndex_off ok r hk.1 ht
  | delete r => cases hn
  | clone a b f =>
    refine get a hr h fun t hrt ht => ?_
    refine ((createRepo_off b ht).keeps (createRepo_keeps b) hrt).bind fun _ u hu hru => ?_
    exact (cloneFrom_off ok b a f hru.1 hu).bind fun _ v hv hrv => mIndex_off ok b hrv hv
  | pull a b =>
    refine Ever.bind (P := fun _ _ => True) ?_ fun _ t ht _ => Ever.pure ht trivial
    exact get a hr h fun t hrt ht => get b hrt ht fun u hru hu => (pullFrom_off ok b a hru hu).bind fun _ v hv hrv =>
      (mIndex_off ok b hrv hv).bind fun _ w hw _ => Ever.pure hw trivial
  | removeSource r n k => cases hn
  | trimObsolete r => cases hn
  | trimPackages r k => cases hn
  | copySource a b n k sk =>
    refine get a hr h fun t hrt ht => get b hrt ht fun u hru hu => (copySourceFrom_off ok b a n k hru hu).bind fun _ v hv hrv => ?_
    cases sk with
    | true => exact mIndex_off ok b hrv hv
    | false => exact Ever.pure hv trivial
  | addPackages r fs st =>
    refine get r hr h fun t hrt ht => ?_
    exact (Ever.loopOff (tgt := some r) fs hrt ht (fun f hf => addPackage_keeps ok hz r (file := .ext f) rfl (ho f hf))
      fun f hf s hr hs => addPackage_off r (.ext f) st hs).bind fun _ u hu hru => mIndex_off ok r hru hu
  | index r => exact mIndex_off ok r hr h
  | addDelta r d f t => exact get r hr h fun u hru hu => addDelta_off r (file := .stage r d) hru hu
  | refDelta r d => exact get r hr h fun u hru hu => refDelta_off r d hru hu
  | markFailed i d =>
    refine Ever.getSt ?_
    cases s.db.skip.get i with
    | some _ => exact Ever.pure h trivial
    | none => exact (dbWrite_off (w := .putSkip i d) trivial h).mono fun _ _ _ => trivial
  | upload f c => exact (Ever.step (g := fun s => s.putFile (.ext f) c) (h.held ⟨rfl, rfl⟩)).mono fun _ _ _ => trivial
  | unlink f => exact (Ever.step (g := fun s => s.setFs (s.fs.setTab (.ext f) none)) (h.held ⟨rfl, rfl⟩)).mono fun _ _ _ => trivial
  | putAsset r a c => exact (Ever.step (g := fun s => s.putFile (.asset r a) c) (h.held ⟨rfl, rfl⟩)).mono fun _ _ _ => trivial
  | stage r d c => exact (Ever.step (g := fun s => s.putFile (.stage r d) c) (h.held ⟨rfl, rfl⟩)).mono fun _ _ _ => trivial
  | unstage r d => exact (Ever.step (g := fun s => s.setFs (s.fs.setTab (.stage r d) none)) (h.held ⟨rfl, rfl⟩)).mono fun _ _ _ => trivial
  | restart => exact (Ever.step h.crash).mono fun _ _ _ => trivial

/-! ## Jobs that take packages away -/

/-- The published indices stay. (No code: proof device.) -/
structure NoIdx (m : M α) : Prop where
  st : ∀ s, (m s).st.fs.idx = s.fs.idx

theorem NoIdx.bind {m : M α} {f : α → M β} (h : NoIdx m) (hf : ∀ a, NoIdx (f a)) : NoIdx (m >>= f) := ⟨fun s => by
  show (M.bind' m f s).st.fs.idx = _
  unfold M.bind'
  cases hm : (m s).res with
  | ok a => exact ((hf a).st _).trans (h.st s)
  | err e => exact h.st s
  | panic => exact h.st s⟩
theorem Reads.noIdx {m : M α} (h : Reads m) : NoIdx m := ⟨fun s => by rw [h.st]⟩
theorem NoIdx.ite {c : Prop} [Decidable c] {m n : M α} (h : NoIdx m) (k : NoIdx n) : NoIdx (if c then m else n) := by
  split
  · exact h
  · exact k
theorem NoIdx.forL {γ : Type} {f : γ → M Unit} : ∀ {l : List γ}, (∀ x ∈ l, NoIdx (f x)) → NoIdx (forL l f) := by
  intro l
  induction l with
  | nil => intro _; exact (Reads.pure ()).noIdx
  | cons x xs ih => intro h; exact (h x (by simp)).bind fun _ => ih fun y hy => h y (by simp [hy])
theorem NoIdx.collectL {γ δ : Type} {f : γ → M (List δ)} : ∀ {l : List γ}, (∀ x ∈ l, NoIdx (f x)) → NoIdx (collectL l f) := by
  intro l
  induction l with
  | nil => intro _; exact (Reads.pure _).noIdx
  | cons x xs ih => intro h; exact (h x (by simp)).bind fun _ => (ih fun y hy => h y (by simp [hy])).bind fun _ => (Reads.pure _).noIdx
theorem removeFile_noIdx (p : Path) : NoIdx (removeFile p) := ⟨fun _ => rfl⟩
theorem dbWrite_noIdx (w : DbWrite) : NoIdx (dbWrite .direct w) := NoIdx.ite (Reads.throw _).noIdx ⟨fun _ => rfl⟩
theorem unrefEntry_noIdx (id : Str) : NoIdx (unrefEntry .direct id) := (poolGet_reads _).noIdx.bind fun _ =>
  NoIdx.ite (dbWrite_noIdx _) ((pathComp_reads _).noIdx.bind fun _ => (removeFile_noIdx _).bind fun _ => dbWrite_noIdx _)
theorem removePackageInternal_noIdx (rid id : Str) : NoIdx (removePackageInternal .direct rid id) := (poolGet?_reads _).noIdx.bind fun o => by
  cases o with
  | none => exact (Reads.pure _).noIdx
  | some e => exact (pathComp_reads _).noIdx.bind fun _ => (removeFile_noIdx _).bind fun _ => unrefEntry_noIdx _
theorem getRepo_noIdx (rid : Str) : NoIdx (getRepo rid) := Reads.getSt.noIdx.bind fun s => NoIdx.ite (Reads.pure _).noIdx (by
  cases s.db.repos.get rid with
  | none => exact (Reads.throw _).noIdx
  | some u => exact NoIdx.bind (m := bakeRepo rid) ⟨fun _ => rfl⟩ fun _ => ⟨fun _ => rfl⟩)
theorem unrefPackage_noIdx (rid id : Str) : NoIdx (unrefPackage rid id) := by
  refine (poolGet_reads _).noIdx.bind fun pe => (repoGet_reads _ _).noIdx.bind fun e => (removePackageInternal_noIdx _ _).bind fun _ => ?_
  refine NoIdx.bind (NoIdx.collectL fun d _ => (poolGet_reads _).noIdx.bind fun pd => ?_) fun ds => (unrefAvail_reads _ _).noIdx.bind fun acc => ?_
  · cases pd.delta with
    | none => exact Reads.panic.noIdx
    | some di => exact NoIdx.ite ((removePackageInternal_noIdx _ _).bind fun _ => (Reads.pure _).noIdx) (Reads.pure _).noIdx
  · exact NoIdx.ite (dbWrite_noIdx _) (dbWrite_noIdx _)

/-- From `s` to `t` the index of `rid` was left alone or published anew, with listed packages only. (No code: proof device.) -/
def Republished (rid : Str) (s t : St) : Prop := t.fs.idx rid = s.fs.idx rid ∨ ∀ id, Offers t rid id → Has t rid id

theorem mIndex_republished (ok : W.OK) (rid : Str) (hr : Rough W s) : Ever (Republished rid s) (mIndex W.E rid) s (fun _ _ => True) := by
  have h0 : ∀ t : St, t.fs.idx = s.fs.idx → Republished rid s t := fun t h => .inl (by rw [h])
  have hg : Ever (fun t => t.fs.idx = s.fs.idx) (getRepo rid) s (fun _ _ => True) := by
    refine Ever.getSt ?_
    split
    · exact Ever.pure (J := fun t => t.fs.idx = s.fs.idx) (P := fun _ _ => True) rfl trivial
    · cases hu : s.db.repos.get rid with
      | none => exact Ever.throw (J := fun t => t.fs.idx = s.fs.idx) rfl
      | some u =>
        refine (Ever.step (J := fun t => t.fs.idx = s.fs.idx) (g := fun s => s.setFs { s.fs with rdir := fun r => if r = rid then true else s.fs.rdir r }) rfl).bind fun _ t ht he => ?_
        exact (Ever.vol (g := fun s => { s with cache := rid :: s.cache }) ht).mono fun _ v hv => trivial
  have hg' : Ever (Republished rid s) (getRepo rid) s (fun _ t => t.fs.idx = s.fs.idx) := ⟨h0 _ hg.fin, fun t ht => h0 t (hg.tr t ht), fun _ _ => hg.fin⟩
  refine (hg'.keeps (getRepo_keeps (tgt := none) rid) hr).bind fun _ t ht hk => ?_
  obtain ⟨hrt, -, hidx⟩ : Rough W t ∧ _ ∧ t.fs.idx = s.fs.idx := hk
  refine indexRepo_off ok rid hrt ht (h0 _ hidx) fun doc hd => .inr ?_
  rintro id ⟨doc', hg, p, hp, rfl⟩
  simp only [St.publish, St.setFs_fs, if_true] at hg
  cases hg
  exact hd p hp

/-- The end of a remove-source or trim job. -/
theorem Op.takes_republished (ok : W.OK) (hz : W.NoTorn) {o : Op} (ho : o.Ok W) (hn : o.removes = true) {r : Str} (ht : o.target = some r) (hr : Rough W s) :
    Republished r s (o.exec W.E s) := by
  have fin : ∀ (r : Str) {m : M Unit}, NoIdx m → Keeps W (some r) m (fun _ => True) →
      Republished r s ((do getRepo r; m; mIndex W.E r : M Unit) s).st := by
    intro r m hm hk
    show Republished r s (M.bind' _ _ s).st
    unfold M.bind'
    have h1 := (getRepo_noIdx r).st s
    have k1 := (getRepo_keeps (W := W) (tgt := none) r s hr).fin
    cases hg : (getRepo r s).res with
    | err e => exact .inl (by rw [h1])
    | panic => exact .inl (by rw [h1])
    | ok a =>
      show Republished r s (M.bind' _ _ _).st
      unfold M.bind'
      have h2 := hm.st (getRepo r s).st
      have k2 := (hk _ k1).fin
      cases h3 : (m (getRepo r s).st).res with
      | err e => exact .inl (by rw [h2, h1])
      | panic => exact .inl (by rw [h2, h1])
      | ok b =>
        rcases (mIndex_republished ok r k2).fin with h | h
        · exact .inl (by rw [h, h2, h1])
        · exact .inr h
  cases o with
  | removeSource x n k =>
    cases ht
    refine fin r ?_ (removeSource_keeps ok r n k)
    exact (matchingSource_reads _ _ _).noIdx.bind fun ids => NoIdx.ite (Reads.throw _).noIdx (NoIdx.forL fun _ _ => unrefPackage_noIdx _ _)
  | trimObsolete x =>
    cases ht
    refine fin r ?_ (trimObsolete_keeps ok r)
    refine (initDistribution_reads _ _).noIdx.bind fun d => ?_
    cases d with
    | none => exact (Reads.throw _).noIdx
    | some obs => exact (repoEntries_reads _).noIdx.bind fun es => (Reads.collectL fun e _ => trimObsoleteScan_reads _ _ _).noIdx.bind fun _ => NoIdx.forL fun _ _ => unrefPackage_noIdx _ _
  | trimPackages x k =>
    cases ht
    refine fin r ?_ (trimPackages_keeps ok r k)
    refine NoIdx.ite (Reads.throw _).noIdx ?_
    exact (repoEntries_reads _).noIdx.bind fun es => (Reads.collectL fun e _ => trimScan_reads _ _ _).noIdx.bind fun _ => NoIdx.forL fun _ _ => unrefPackage_noIdx _ _
  | _ => cases hn

end Ferryd
