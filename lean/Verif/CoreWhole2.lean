import Verif.CoreWhole
/-!
# CoreWhole2: deleting, and batches
-/
namespace Ferryd
open Spec
variable {W : World} {s : St} {α β : Type} {J : St → Prop} {tgt : Option Str}

theorem unrefAll_tidy (ok : W.OK) (rid : Str) (ids : List Str) (hr : Rough W s) (h : Tidy W s) :
    Ever (Tidy W) (forL ids (unrefPackage rid)) s (fun _ t => Rough W t) :=
  Ever.forL (P := Rough W) ids h hr fun id _ t ht hrt =>
    ((unrefPackage_tidy ok rid id hrt ht).keeps (unrefPackage_keeps ok rid id) hrt).mono fun _ _ h => h.1

theorem removeSource_tidy (ok : W.OK) (rid source : Str) (k : Int) (hr : Rough W s) (h : Tidy W s) :
    Ever (Tidy W) (removeSource rid source k) s (fun _ t => Rough W t) := by
  refine Ever.skip h (matchingSource_reads _ _ _) fun ids => ?_
  split
  · exact Ever.throw h
  · exact unrefAll_tidy ok rid ids hr h

theorem trimObsolete_tidy (ok : W.OK) (rid : Str) (hr : Rough W s) (h : Tidy W s) :
    Ever (Tidy W) (trimObsolete W.E rid) s (fun _ t => Rough W t) := by
  refine Ever.skip h (initDistribution_reads _ _) fun d => ?_
  cases d with
  | none => exact Ever.throw h
  | some obs =>
    refine Ever.skip h (repoEntries_reads _) fun es => Ever.skip h (Reads.collectL fun e _ => trimObsoleteScan_reads _ _ _) fun ids => ?_
    exact unrefAll_tidy ok rid ids hr h

theorem trimPackages_tidy (ok : W.OK) (rid : Str) (k : Int) (hr : Rough W s) (h : Tidy W s) :
    Ever (Tidy W) (trimPackages W.E rid k) s (fun _ t => Rough W t) := by
  unfold trimPackages
  split
  · exact Ever.throw h
  · refine Ever.skip h (repoEntries_reads _) fun es => Ever.skip h (Reads.collectL fun e _ => trimScan_reads _ _ _) fun ids => ?_
    exact unrefAll_tidy ok rid ids hr h

/-! ## Deleting a repository -/

theorem pool_applied : ∀ (ws : List DbWrite) (d : DB) {id : Str}, (∃ pe, d.pool.get id = some pe) → .delPool id ∉ ws →
    ∃ pe, (ws.foldl DbWrite.apply d).pool.get id = some pe := by
  intro ws
  induction ws with
  | nil => intro d id h _; exact h
  | cons w ws ih =>
    intro d id h hn
    refine ih _ ?_ (fun hx => hn (by simp [hx]))
    obtain ⟨pe, h⟩ := h
    cases w with
    | putPool k e =>
      show ∃ pe, (d.pool.put k e).get id = some pe
      rw [KV.get_put]
      split
      · exact ⟨_, rfl⟩
      · exact ⟨pe, h⟩
    | delPool k =>
      refine ⟨pe, ?_⟩
      show (d.pool.del k).get id = some pe
      rw [KV.get_del, if_neg]
      · exact h
      · rintro rfl; exact hn (by simp)
    | putSkip k e => exact ⟨pe, h⟩
    | putRepo k => exact ⟨pe, h⟩
    | delRepo k => exact ⟨pe, h⟩
    | putEnt r k e => exact ⟨pe, h⟩
    | delEnt r k => exact ⟨pe, h⟩

theorem deleteRepoBody_tidy (ok : W.OK) (rid : Str) (hr : Rough W s) (h : Tidy W s) :
    Ever (Tidy W) (deleteRepoBody rid) s (fun _ t => Less s t) := by
  have rpi : ∀ (ids : List Str) {t : St}, Rough W t → Tidy W t → Less s t →
      Ever (Tidy W) (forL ids (removePackageInternal .batch rid)) t (fun _ u => Rough W u ∧ Less s u) := fun ids t hrt ht hl =>
    Ever.forL (P := fun u => Rough W u ∧ Less s u) ids ht ⟨hrt, hl⟩ fun id _ u hu hp =>
      ((removePackageInternal_tidy ok .batch rid id hp.1 hu).keeps (removePackageInternal_keeps ok .batch rid id) hp.1).mono
        fun _ _ h => ⟨h.1, hp.2.trans h.2.2.1⟩
  have q : ∀ {w : DbWrite} {t : St}, (∀ id, w ≠ .delPool id) → RWrite W w → w.Avoids [] ∨ True → Rough W t → Tidy W t → Less s t →
      Ever (Tidy W) (dbWrite .batch w) t (fun _ u => Rough W u ∧ Less s u) := by
    intro w t hn hw _ hrt ht hl
    refine (dbQueue_tidy (fun id e => absurd e (hn id)) ht).mono fun _ u hu => ?_
    subst hu
    exact ⟨⟨hrt.db, hrt.fs, hrt.idx, fun w' hw' => by
      rcases List.mem_append.1 hw' with hx | hx
      · exact hrt.pend w' hx
      · simp at hx; rw [hx]; exact hw⟩, hl.trans ⟨rfl, rfl, rfl, fun _ _ h => h⟩⟩
  refine Ever.skip h (repoEntries_reads _) fun es => ?_
  refine (Ever.forL (P := fun u => Rough W u ∧ Less s u) es h ⟨hr, Less.refl s⟩ fun e _ t ht hp => ?_).bind fun _ t ht hp => ?_
  · refine (rpi _ hp.1 ht hp.2).bind fun _ u hu hp => (rpi _ hp.1 hu hp.2).bind fun _ v hv hp => ?_
    exact q (by simp) trivial (.inr trivial) hp.1 hv hp.2
  · exact (q (w := .delRepo rid) (by simp) trivial (.inr trivial) hp.1 ht hp.2).mono fun _ _ h => h.2

theorem dbUpdate_delete_tidy (ok : W.OK) {rid : Str} (hr : Rough W s) (h : Tidy W s) (hc : rid ∉ s.cache) (hres : reservedKey rid = false) :
    Ever (Tidy W) (dbUpdate (deleteRepoBody rid)) s (fun _ t => Rough W t ∧ rid ∉ t.cache ∧ t.db.repos.get rid = none) := by
  have hr0 : Rough W { s with pend := [] } := ⟨hr.db, hr.fs, hr.idx, fun _ h => by simp at h⟩
  have hb := deleteRepoBody_tidy ok rid hr0 h.dropPend
  have hk := deleteRepoBody_keeps ok rid _ hr0
  have hsure := deleteRepoBody_sure (s := { s with pend := [] }) ok hr0.db hres
  have hl := hb.val () hsure.res
  obtain ⟨hdb, more, hpd, hok, hmust⟩ := hsure.st
  simp only [List.nil_append] at hpd
  have hres' := hsure.res
  have hb1 := hb.fin
  have hbt := hb.tr
  have hkf := hk.fin
  clear hb hk hsure
  generalize ho : deleteRepoBody rid { s with pend := [] } = o at *
  have e : dbUpdate (deleteRepoBody rid) s = ⟨.ok (), { o.st with db := o.st.pend.foldl DbWrite.apply o.st.db, pend := [] },
      o.tr ++ [{ o.st with db := o.st.pend.foldl DbWrite.apply o.st.db, pend := [] }]⟩ := by
    unfold dbUpdate
    simp only [ho, hres']
  have hmem : DbWrite.delRepo rid ∈ more := hmust _ (by simp)
  have hgone := deleting_gone more o.st.db hok
  rw [hpd] at e
  have hcache : o.st.cache = s.cache := hl.cache
  have tid : Tidy W { o.st with db := more.foldl DbWrite.apply o.st.db, pend := [] } := by
    refine ⟨fun d id c hi hx => ?_, fun r d id c hi hx => ?_, fun r hm => ?_, fun _ h => by simp at h⟩
    · obtain ⟨h1, h2, h3⟩ := hb1.pool d id c hi hx
      refine ⟨h1, h2, pool_applied _ _ h3 fun hm => ?_⟩
      have := hb1.pend id (by rw [hpd]; exact hm) hi d
      rw [this] at hx; cases hx
    · obtain ⟨h1, h2, h3, h4⟩ := hb1.repo r d id c hi hx
      refine ⟨h1, h2, h3, fun u hu => ?_⟩
      have hu' := hgone.2 r u hu
      have hne : r ≠ rid := by rintro rfl; exact hu'.2 hmem
      have hsd := Avoids.applyAll (r := r) o.st.db (ws := more) (fun w hw => by
        have := hok w hw
        cases w <;> simp only [DelWrite, DbWrite.Avoids] at this ⊢ <;> first | exact this.elim | (subst this; exact fun e => hne e.symm))
      obtain ⟨n, en, hg, hm⟩ := h4 u hu'.1
      exact ⟨n, en, by show (((more.foldl DbWrite.apply o.st.db).ents r).get n) = _; rw [hsd.ents]; exact hg, hm⟩
    · change r ∈ o.st.cache at hm
      refine ⟨(hb1.cache r hm).1, ?_⟩
      have hne : r ≠ rid := by rintro rfl; rw [hcache] at hm; exact hc hm
      have hsd := Avoids.applyAll (r := r) o.st.db (ws := more) (fun w hw => by
        have := hok w hw
        cases w <;> simp only [DelWrite, DbWrite.Avoids] at this ⊢ <;> first | exact this.elim | (subst this; exact fun e => hne e.symm))
      show ∃ u, (more.foldl DbWrite.apply o.st.db).repos.get r = some u
      rw [hsd.repo]; exact (hb1.cache r hm).2
  refine ⟨?_, ?_, ?_⟩ <;> rw [e]
  · exact tid
  · intro t ht
    rcases List.mem_append.1 ht with ht | ht
    · exact hbt t ht
    · simp at ht; rw [ht]; exact tid
  · intro _ _
    refine ⟨⟨?_, hkf.fs, hkf.idx, fun _ h => by simp at h⟩, by show rid ∉ o.st.cache; rw [hcache]; exact hc, ?_⟩
    · exact hkf.db.applyAll (fun w hw => hkf.pend w (by rw [hpd]; exact hw))
    · cases hx : (more.foldl DbWrite.apply o.st.db).repos.get rid with
      | none => rfl
      | some u => exact absurd hmem (hgone.2 rid u hx).2

theorem deleteRepo_tidy (ok : W.OK) (rid : Str) (hr : Rough W s) (h : Tidy W s) : Ever (Tidy W) (deleteRepo rid) s (fun _ _ => True) := by
  refine ((getRepo_tidy rid h).keeps (getRepo_keeps (tgt := none) rid) hr).bind fun _ t ht hp => ?_
  obtain ⟨hrt, _, hin, _, _, _⟩ := hp
  obtain ⟨_, u, hu⟩ := ht.cache rid hin
  have hres := hrt.db.resv rid u hu
  have t2 : Tidy W { t with cache := t.cache.filter (· ≠ rid) } :=
    ⟨ht.pool, ht.repo, fun r hm => ht.cache r (List.mem_filter.1 hm).1, ht.pend⟩
  refine (Ever.vol (g := fun s => { s with cache := s.cache.filter (· ≠ rid) }) t2).bind fun _ t' ht' he => ?_
  subst he
  refine (dbUpdate_delete_tidy ok (rid := rid) (s := { t with cache := t.cache.filter (· ≠ rid) }) ⟨hrt.db, hrt.fs, hrt.idx, hrt.pend⟩ t2 (by simp) hres).bind fun _ v hv hp => ?_
  obtain ⟨hrv, hcv, hnv⟩ := hp
  have hread : ∀ p c, (FS.read { v.fs with
      tab := fun p => match p with
        | .repo r _ _ => if r = rid then none else v.fs.tab p
        | _ => v.fs.tab p
      rdir := fun r => if r = rid then false else v.fs.rdir r
      idx := fun r => if r = rid then none else v.fs.idx r } p = some c) → v.fs.read p = some c ∧ ∀ d id, p ≠ .repo rid d id := by
    intro p c hc
    unfold FS.read at hc
    cases p with
    | repo r d id =>
      simp only at hc
      split at hc
      · simp at hc
      · rename_i hne
        refine ⟨hc, fun d' id' e => ?_⟩
        cases e; exact hne rfl
    | _ => exact ⟨hc, fun _ _ e => by cases e⟩
  have t3 : Tidy W (v.setFs { v.fs with
      tab := fun p => match p with
        | .repo r _ _ => if r = rid then none else v.fs.tab p
        | _ => v.fs.tab p
      rdir := fun r => if r = rid then false else v.fs.rdir r
      idx := fun r => if r = rid then none else v.fs.idx r }) := by
    refine ⟨fun d id c hi hc => hv.pool d id c hi (hread _ _ hc).1, fun r d id c hi hc => ?_, fun r hm => ?_, fun id hm hi d => ?_⟩
    · obtain ⟨h1, h2⟩ := hread _ _ hc
      obtain ⟨k1, k2, k3, k4⟩ := hv.repo r d id c hi h1
      refine ⟨k1, k2, ?_, k4⟩
      show (if r = rid then false else v.fs.rdir r) = true
      rw [if_neg (by rintro rfl; exact h2 d id rfl)]; exact k3
    · change r ∈ v.cache at hm
      refine ⟨?_, (hv.cache r hm).2⟩
      show (if r = rid then false else v.fs.rdir r) = true
      rw [if_neg (by rintro rfl; exact hcv hm)]; exact (hv.cache r hm).1
    · exact hv.pend id hm hi d
  refine (Ever.step t3).bind fun _ x hx he => ?_
  have hread4 : ∀ p c, (FS.read { x.fs with
    tab := fun p => match p with
      | .asset r _ => if r = rid then none else x.fs.tab p
      | .stage r _ => if r = rid then none else x.fs.tab p
      | _ => x.fs.tab p } p = some c) → x.fs.read p = some c := by
    intro p c hc
    unfold FS.read at hc ⊢
    cases p <;> simp only at hc <;> first | exact hc | (split at hc <;> first | exact hc | simp at hc)
  exact (Ever.step (hx.setFs (fun d id c hi hc => hread4 _ _ hc) (fun r d id c hi hc => hread4 _ _ hc) (fun _ h => h))).mono fun _ _ _ => trivial


/-! ## No batch is open between jobs -/

/-- An empty batch stays empty. -/
structure NoPend (m : M α) : Prop where
  st : ∀ s, s.pend = [] → (m s).st.pend = []

theorem NoPend.bind {m : M α} {f : α → M β} (h : NoPend m) (hf : ∀ a, NoPend (f a)) : NoPend (m >>= f) := ⟨fun s hs => by
  show (M.bind' m f s).st.pend = []
  unfold M.bind'
  cases hm : (m s).res with
  | ok a => exact (hf a).st _ (h.st s hs)
  | err e => exact h.st s hs
  | panic => exact h.st s hs⟩
theorem Reads.noPend {m : M α} (h : Reads m) : NoPend m := ⟨fun s hs => by rw [h.st]; exact hs⟩
theorem NoPend.pure (a : α) : NoPend (pure a : M α) := (Reads.pure a).noPend
theorem NoPend.throw (e : Err) : NoPend (throwE e : M α) := (Reads.throw e).noPend
theorem NoPend.ite {c : Prop} [Decidable c] {m n : M α} (h : NoPend m) (k : NoPend n) : NoPend (if c then m else n) := by
  split
  · exact h
  · exact k
theorem NoPend.stepFs (g : St → FS) : NoPend (stepM fun s => s.setFs (g s)) := ⟨fun _ h => h⟩
theorem NoPend.forL {γ : Type} {f : γ → M Unit} : ∀ {l : List γ}, (∀ x ∈ l, NoPend (f x)) → NoPend (forL l f) := by
  intro l
  induction l with
  | nil => intro _; exact NoPend.pure ()
  | cons x xs ih => intro h; exact (h x (by simp)).bind fun _ => ih fun y hy => h y (by simp [hy])
theorem NoPend.collectL {γ δ : Type} {f : γ → M (List δ)} : ∀ {l : List γ}, (∀ x ∈ l, NoPend (f x)) → NoPend (collectL l f) := by
  intro l
  induction l with
  | nil => intro _; exact NoPend.pure _
  | cons x xs ih => intro h; exact (h x (by simp)).bind fun _ => (ih fun y hy => h y (by simp [hy])).bind fun _ => NoPend.pure _
theorem NoPend.getSt {k : St → M β} (h : ∀ s, NoPend (k s)) : NoPend (getSt >>= k) := Reads.getSt.noPend.bind h

theorem copyFile_noPend (src dst : Path) : NoPend (copyFile src dst) := NoPend.getSt fun s => by
  cases s.fs.tab src with
  | none => exact NoPend.pure ()
  | some i => exact (NoPend.stepFs _).bind fun _ => NoPend.stepFs _
theorem linkOrCopy_noPend (E : Env) (src dst : Path) (b : Bool) : NoPend (linkOrCopy E src dst b) := by
  unfold linkOrCopy
  refine NoPend.ite (copyFile_noPend _ _) (NoPend.getSt fun s => ?_)
  cases s.fs.tab src with
  | none => exact copyFile_noPend _ _
  | some i =>
    cases s.fs.tab dst with
    | some j => exact copyFile_noPend _ _
    | none => exact NoPend.ite (NoPend.stepFs _) (copyFile_noPend _ _)
theorem removeFile_noPend (p : Path) : NoPend (removeFile p) := NoPend.stepFs _
theorem dbWrite_noPend (w : DbWrite) : NoPend (dbWrite .direct w) := NoPend.ite (NoPend.throw _) ⟨fun _ h => h⟩
theorem poolAddInternal_noPend (E : Env) (p : Pkg) (b : Bool) (d : Option DeltaInfo) : NoPend (poolAddInternal E p b d) := by
  refine (poolGet?_reads _).noPend.bind fun o => ?_
  cases o with
  | some e => exact (dbWrite_noPend _).bind fun _ => NoPend.pure _
  | none =>
    refine NoPend.getSt fun s => ?_
    cases s.fs.read p.path with
    | none => exact NoPend.throw _
    | some c =>
      refine (pathComp_reads _).noPend.bind fun comp => (linkOrCopy_noPend _ _ _ _).bind fun _ => (fileSha1_reads _ _).noPend.bind fun sha => ?_
      exact NoPend.ite ((removeFile_noPend _).bind fun _ => NoPend.throw _) ((dbWrite_noPend _).bind fun _ => NoPend.pure _)
theorem poolAddDelta_noPend (E : Env) (p : Pkg) (f t : Str) (b : Bool) : NoPend (poolAddDelta E p f t b) := by
  refine (poolGet?_reads _).noPend.bind fun o => ?_
  cases o with
  | some e => exact (dbWrite_noPend _).bind fun _ => NoPend.pure _
  | none =>
    exact (poolGet_reads _).noPend.bind fun _ => (poolGet_reads _).noPend.bind fun _ => (getRelease_reads _).noPend.bind fun _ =>
      (getRelease_reads _).noPend.bind fun _ => poolAddInternal_noPend _ _ _ _
theorem refEntry_noPend (id : Str) : NoPend (refEntry id) := (poolGet_reads _).noPend.bind fun _ => dbWrite_noPend _
theorem unrefEntry_noPend (id : Str) : NoPend (unrefEntry .direct id) := (poolGet_reads _).noPend.bind fun _ =>
  NoPend.ite (dbWrite_noPend _) ((pathComp_reads _).noPend.bind fun _ => (removeFile_noPend _).bind fun _ => dbWrite_noPend _)
theorem removePackageInternal_noPend (rid id : Str) : NoPend (removePackageInternal .direct rid id) := (poolGet?_reads _).noPend.bind fun o => by
  cases o with
  | none => exact NoPend.pure _
  | some e => exact (pathComp_reads _).noPend.bind fun _ => (removeFile_noPend _).bind fun _ => unrefEntry_noPend _
theorem getRepo_noPend (rid : Str) : NoPend (getRepo rid) := NoPend.getSt fun s => NoPend.ite (NoPend.pure _) (by
  cases s.db.repos.get rid with
  | none => exact NoPend.throw _
  | some u => exact (NoPend.stepFs _).bind fun _ => ⟨fun _ h => h⟩)
theorem createRepo_noPend (rid : Str) : NoPend (createRepo rid) := NoPend.getSt fun s => by
  have k : NoPend (if s.fs.rdir rid then throwE .artifacts
    else do
      dbWrite .direct (.putRepo rid)
      bakeRepo rid
      volM (fun s => { s with cache := rid :: s.cache }) : M Unit) :=
    NoPend.ite (NoPend.throw _) ((dbWrite_noPend _).bind fun _ => (NoPend.stepFs _).bind fun _ => ⟨fun _ h => h⟩)
  cases (getRepo rid s).res with
  | ok _ => exact (getRepo_noPend rid).bind fun _ => NoPend.throw _
  | err _ => exact k
  | panic => exact k
theorem unrefPackage_noPend (rid id : Str) : NoPend (unrefPackage rid id) := by
  refine (poolGet_reads _).noPend.bind fun pe => (repoGet_reads _ _).noPend.bind fun e => (removePackageInternal_noPend _ _).bind fun _ => ?_
  refine NoPend.bind (NoPend.collectL fun d _ => (poolGet_reads _).noPend.bind fun pd => ?_) fun ds => (unrefAvail_reads _ _).noPend.bind fun acc => ?_
  · cases pd.delta with
    | none => exact Reads.panic.noPend
    | some di => exact NoPend.ite ((removePackageInternal_noPend _ _).bind fun _ => NoPend.pure _) (NoPend.pure _)
  · exact NoPend.ite (dbWrite_noPend _) (dbWrite_noPend _)
theorem refPackage_noPend (E : Env) (rid id : Str) : NoPend (refPackage E rid id) := by
  refine (poolGet_reads _).noPend.bind fun pe => (pathComp_reads _).noPend.bind fun c => (buildSaneEntry_reads _ _ _).noPend.bind fun o => ?_
  cases o with
  | none => exact NoPend.pure _
  | some ne => exact (refEntry_noPend _).bind fun _ => (linkOrCopy_noPend _ _ _ _).bind fun _ => dbWrite_noPend _
theorem refDelta_noPend (E : Env) (rid id : Str) : NoPend (refDelta E rid id) := by
  refine (poolGet_reads _).noPend.bind fun pe => (repoGet_reads _ _).noPend.bind fun e => (pathComp_reads _).noPend.bind fun c => ?_
  exact NoPend.ite (NoPend.pure _) ((refEntry_noPend _).bind fun _ => (linkOrCopy_noPend _ _ _ _).bind fun _ => dbWrite_noPend _)
theorem addDelta_noPend (E : Env) (rid : Str) (file : Path) (f t : Str) : NoPend (addDelta E rid file f t) := by
  refine (openPkg_reads _ _).noPend.bind fun pe => (repoGet_reads _ _).noPend.bind fun e => (pathComp_reads _).noPend.bind fun c => ?_
  exact NoPend.ite (NoPend.pure _) ((poolAddDelta_noPend _ _ _ _ _).bind fun _ => (linkOrCopy_noPend _ _ _ _).bind fun _ => dbWrite_noPend _)
theorem addLocalPackage_noPend (E : Env) (rid : Str) (p : Pkg) : NoPend (addLocalPackage E rid p) := by
  refine (pathComp_reads _).noPend.bind fun c => (buildSaneEntry_reads _ _ _).noPend.bind fun o => ?_
  cases o with
  | none => exact NoPend.pure _
  | some ne => exact (poolAddInternal_noPend _ _ _ _).bind fun _ => (linkOrCopy_noPend _ _ _ _).bind fun _ => dbWrite_noPend _
theorem addPackage_noPend (E : Env) (rid : Str) (file : Path) (strict : Bool) : NoPend (addPackage E rid file strict) := by
  refine (openPkg_reads _ _).noPend.bind fun p => NoPend.ite (addLocalPackage_noPend _ _ _) ((repoGet?_reads _ _).noPend.bind fun o => ?_)
  cases o with
  | none => exact addLocalPackage_noPend _ _ _
  | some l =>
    exact (poolGet_reads _).noPend.bind fun _ => (getRelease_reads _).noPend.bind fun _ => (getRelease_reads _).noPend.bind fun _ =>
      NoPend.ite (NoPend.throw _) (NoPend.ite (NoPend.throw _) (addLocalPackage_noPend _ _ _))
theorem pullAsset_noPend (dst src : Str) (a : Asset) : NoPend (pullAsset dst src a) := NoPend.getSt fun s => by
  cases s.fs.tab (.asset src a) with
  | none => exact NoPend.pure _
  | some _ => exact copyFile_noPend _ _
theorem pullAssets_noPend (dst src : Str) : NoPend (pullAssets dst src) :=
  (pullAsset_noPend _ _ _).bind fun _ => (pullAsset_noPend _ _ _).bind fun _ => pullAsset_noPend _ _ _
theorem indexRepo_noPend (E : Env) (rid : Str) : NoPend (indexRepo E rid) := by
  refine (initDistribution_reads _ _).noPend.bind fun d => (emitIndex_reads _ _ _).noPend.bind fun doc => NoPend.getSt fun s =>
    NoPend.bind (m := volM _) ⟨fun _ h => h⟩ fun _ => ?_
  cases E.indexIO s.clock with
  | failBefore => exact NoPend.throw _
  | ok => exact NoPend.stepFs _
  | failAfter => exact (NoPend.stepFs _).bind fun _ => NoPend.throw _
theorem mIndex_noPend (E : Env) (rid : Str) : NoPend (mIndex E rid) := (getRepo_noPend rid).bind fun _ => indexRepo_noPend E rid
theorem dbUpdate_noPend (b : M Unit) : NoPend (dbUpdate b) := ⟨fun s _ => by
  unfold dbUpdate
  dsimp only
  cases (b { s with pend := [] }).res <;> rfl⟩
theorem Op.noPend (E : Env) (o : Op) : NoPend (o.run E) := by
  cases o with
  | create r => exact (createRepo_noPend r).bind fun _ => mIndex_noPend E r
  | delete r => exact (getRepo_noPend r).bind fun _ => NoPend.bind (m := volM _) ⟨fun _ h => h⟩ fun _ => (dbUpdate_noPend _).bind fun _ =>
      (NoPend.stepFs _).bind fun _ => NoPend.stepFs _
  | clone a b f =>
    refine (getRepo_noPend a).bind fun _ => (createRepo_noPend b).bind fun _ => NoPend.bind (m := cloneFrom E b a f) ?_ fun _ => mIndex_noPend E b
    exact (pullAssets_noPend _ _).bind fun _ => (repoEntries_reads _).noPend.bind fun es => (NoPend.forL fun _ _ => refPackage_noPend _ _ _).bind fun _ =>
      NoPend.forL fun _ _ => refDelta_noPend _ _ _
  | pull a b =>
    refine NoPend.bind (m := mPullRepo E a b) ?_ fun _ => NoPend.pure _
    refine (getRepo_noPend a).bind fun _ => (getRepo_noPend b).bind fun _ => NoPend.bind (m := pullFrom E b a) ?_ fun _ => (mIndex_noPend E b).bind fun _ => NoPend.pure _
    exact (pullAssets_noPend _ _).bind fun _ => (repoEntries_reads _).noPend.bind fun es => (Reads.collectL fun e _ => pullOne_reads _ _).noPend.bind fun _ =>
      (NoPend.forL fun _ _ => refPackage_noPend _ _ _).bind fun _ => NoPend.pure _
  | removeSource r n k =>
    refine (getRepo_noPend r).bind fun _ => NoPend.bind (m := Ferryd.removeSource r n k) ?_ fun _ => mIndex_noPend E r
    exact (matchingSource_reads _ _ _).noPend.bind fun ids => NoPend.ite (NoPend.throw _) (NoPend.forL fun _ _ => unrefPackage_noPend _ _)
  | copySource a b n k sk =>
    refine (getRepo_noPend a).bind fun _ => (getRepo_noPend b).bind fun _ => NoPend.bind (m := copySourceFrom E b a n k) ?_ fun _ => NoPend.ite (mIndex_noPend E b) (NoPend.pure _)
    exact (matchingSource_reads _ _ _).noPend.bind fun ids => NoPend.ite (NoPend.throw _) (NoPend.forL fun _ _ => refPackage_noPend _ _ _)
  | trimObsolete r =>
    refine (getRepo_noPend r).bind fun _ => NoPend.bind (m := Ferryd.trimObsolete E r) ?_ fun _ => mIndex_noPend E r
    refine (initDistribution_reads _ _).noPend.bind fun d => ?_
    cases d with
    | none => exact NoPend.throw _
    | some obs => exact (repoEntries_reads _).noPend.bind fun es => (Reads.collectL fun e _ => trimObsoleteScan_reads _ _ _).noPend.bind fun _ => NoPend.forL fun _ _ => unrefPackage_noPend _ _
  | trimPackages r k =>
    refine (getRepo_noPend r).bind fun _ => NoPend.bind (m := Ferryd.trimPackages E r k) ?_ fun _ => mIndex_noPend E r
    refine NoPend.ite (NoPend.throw _) ?_
    exact (repoEntries_reads _).noPend.bind fun es => (Reads.collectL fun e _ => trimScan_reads _ _ _).noPend.bind fun _ => NoPend.forL fun _ _ => unrefPackage_noPend _ _
  | addPackages r fs st =>
    exact (getRepo_noPend r).bind fun _ => (NoPend.forL fun _ _ => addPackage_noPend _ _ _ _).bind fun _ => mIndex_noPend E r
  | index r => exact mIndex_noPend E r
  | addDelta r d f t => exact (getRepo_noPend r).bind fun _ => addDelta_noPend _ _ _ _ _
  | refDelta r d => exact (getRepo_noPend r).bind fun _ => refDelta_noPend _ _ _
  | markFailed i d =>
    refine NoPend.getSt fun s => ?_
    cases s.db.skip.get i with
    | some _ => exact NoPend.pure _
    | none => exact dbWrite_noPend _
  | upload f c => exact ⟨fun _ h => h⟩
  | unlink f => exact ⟨fun _ h => h⟩
  | putAsset r a c => exact ⟨fun _ h => h⟩
  | stage r d c => exact ⟨fun _ h => h⟩
  | unstage r d => exact ⟨fun _ h => h⟩
  | restart => exact ⟨fun _ _ => rfl⟩

end Ferryd
