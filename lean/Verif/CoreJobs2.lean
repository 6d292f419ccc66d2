import Verif.CoreJobs
/-!
# CoreJobs2: trimming, copying, pulling, cloning and creating
-/
namespace Ferryd

variable {W : World} {s s' : St} {r : Str}

/-! ## TrimPackages -/

theorem afterSlash_noslash {l : Str} (h : '/' ∉ l) : afterSlash l = l := by
  cases l with
  | nil => rfl
  | cons c cs =>
    simp only [List.mem_cons, not_or] at h
    unfold afterSlash
    rw [if_neg h.2, if_neg (Ne.symm h.1)]

theorem afterSlash_append (a id : Str) (h : '/' ∉ id) : afterSlash (a ++ '/' :: id) = id := by
  induction a with
  | nil => simp [afterSlash, h]
  | cons c cs ih =>
    rw [List.cons_append]
    unfold afterSlash
    rw [if_pos (by simp)]
    exact ih

/-- The ID of a pool package is its file name. -/
theorem World.stamped_getID (ok : W.OK) {id : Str} (hp : W.IsPkg id) : (W.stamped id).getID = id := by
  show afterSlash (mkURI ((W.compOf id).getD []) id) = id
  exact afterSlash_append _ _ (ok.gid hp).noSlash

/-- What TrimPackages removes from one record. -/
def World.trimIds (W : World) (k : Nat) (e : RepoEntry) : List Str :=
  if e.available.length < k then []
  else ((W.E.sortDesc (e.available.map W.stamped)).drop k).filterMap fun m =>
    if m.getID = e.published then none else some m.getID

theorem trimScan_run (ok : W.OK) (h : Inv W s) {n : Str} {e : RepoEntry} (k : Nat)
    (hge : (s.db.ents r).get n = some e) :
    trimScan W.E k e s = ⟨.ok (W.trimIds k e), s, []⟩ := by
  unfold trimScan World.trimIds
  by_cases hk : e.available.length < k
  · rw [if_pos hk, if_pos hk]; rfl
  · rw [if_neg hk, if_neg hk]
    have : collectL e.available (fun id => do
        let pe ← poolGet id
        let _ ← (if e.available.length > 1 then getRelease pe.pkg else pure 0)
        pure [pe.pkg]) s = ⟨.ok (e.available.map W.stamped), s, []⟩ := by
      refine (collectL_pure (g := fun id => [W.stamped id]) ?_).trans ?_
      · intro id hid
        obtain ⟨_, ⟨pe, hpe⟩, _⟩ := (h.ent r n e hge).avail id hid
        have hp := h.pool id pe hpe
        have h2 : pe.pkg.history ≠ [] := by rw [hp.pkg]; exact (ok.meta hp.isPkg).hist
        rw [poolGet_bind_some _ hpe]
        split
        · rw [getRelease_bind h2, hp.pkg]; rfl
        · rw [pure_bind_run, hp.pkg]; rfl
      · congr 2
        generalize e.available = l
        induction l with
        | nil => rfl
        | cons x xs ih => simp [ih]
    rw [bind_ok this]
    rfl

theorem EntOk.isPkg (h : Inv W s) {n : Str} {e : RepoEntry} (hge : (s.db.ents r).get n = some e) {id : Str}
    (hid : id ∈ e.available) : W.IsPkg id := by
  obtain ⟨_, ⟨pe, hpe⟩, _⟩ := (h.ent r n e hge).avail id hid
  exact (h.pool id pe hpe).isPkg

/-- The ids in the order in which TrimPackages ranks them: newest first. -/
def World.ranked (W : World) (e : RepoEntry) : List Str :=
  (W.E.sortDesc (e.available.map W.stamped)).map Meta.getID

theorem ranked_spec (ok : W.OK) {e : RepoEntry} (hp : ∀ id ∈ e.available, W.IsPkg id) :
    (W.ranked e).Perm e.available ∧
    (W.ranked e).Pairwise (fun a b => (W.mOf b).rel ≤ (W.mOf a).rel) := by
  have hperm := W.E.sortDesc_perm (e.available.map W.stamped)
  have hm : ∀ m ∈ W.E.sortDesc (e.available.map W.stamped), ∃ id ∈ e.available, m = W.stamped id ∧ m.getID = id := by
    intro m hm
    have := hperm.mem_iff.1 hm
    obtain ⟨id, hid, rfl⟩ := List.mem_map.1 this
    exact ⟨id, hid, rfl, W.stamped_getID ok (hp id hid)⟩
  refine ⟨?_, ?_⟩
  · unfold World.ranked
    have h1 := hperm.map Meta.getID
    rw [List.map_map] at h1
    have h2 : e.available.map (Meta.getID ∘ W.stamped) = e.available := by
      conv => rhs; rw [← List.map_id e.available]
      apply List.map_congr_left
      intro id hid
      exact W.stamped_getID ok (hp id hid)
    rw [h2] at h1; exact h1
  · unfold World.ranked
    rw [List.pairwise_map]
    refine (W.E.sortDesc_sorted (e.available.map W.stamped)).imp_of_mem ?_
    intro a b ha hb hle
    obtain ⟨i, _, e1, e2⟩ := hm a ha
    obtain ⟨j, _, f1, f2⟩ := hm b hb
    rw [e2, f2]
    rw [e1, f1] at hle
    exact hle

theorem trimIds_eq (W : World) (k : Nat) (e : RepoEntry) : W.trimIds k e =
    if e.available.length < k then [] else ((W.ranked e).drop k).filter (· ≠ e.published) := by
  unfold World.trimIds World.ranked
  split
  · rfl
  · rw [← List.map_drop]
    generalize (W.E.sortDesc (e.available.map W.stamped)).drop k = l
    induction l with
    | nil => rfl
    | cons x xs ih =>
      rw [List.filterMap_cons, List.map_cons, List.filter_cons, ih]
      by_cases hx : x.getID = e.published <;> simp [hx]

theorem trimIds_sub (ok : W.OK) (h : Inv W s) {n : Str} {e : RepoEntry} (k : Nat)
    (hge : (s.db.ents r).get n = some e) :
    (∀ j ∈ W.trimIds k e, j ∈ e.available) ∧ (W.trimIds k e).Nodup := by
  have hp : ∀ id ∈ e.available, W.IsPkg id := fun id hid => EntOk.isPkg h hge hid
  obtain ⟨h1, _⟩ := ranked_spec ok hp
  rw [trimIds_eq]
  split
  · simp
  · refine ⟨?_, ?_⟩
    · intro j hj
      exact h1.mem_iff.1 (List.mem_of_mem_drop (List.mem_filter.1 hj).1)
    · have := h1.nodup_iff.2 (h.ent r n e hge).nodup
      exact (this.sublist (List.drop_sublist _ _)).filter _

/-- All packages TrimPackages removes from a repository. -/
def World.trimAll (W : World) (s : St) (r : Str) (k : Nat) : List Str :=
  ((s.db.ents r).map Prod.snd).flatMap (W.trimIds k)

theorem mTrimPackages_run (ok : W.OK) (h : Inv W s) (hr : r ∈ s.db.repos.keys) (k : Int) (hk : 1 ≤ k) :
    RemovedOut W s r (W.trimAll s r k.toNat) (mTrimPackages W.E r k s) := by
  have hgi : Inv W (s.got r) := h.got hr
  unfold mTrimPackages
  refine removeJob ok h hr ?_ ?_ ?_
  · exact nodup_flat h r _ (fun n e he => trimIds_sub ok h _ he)
  · intro id hid
    obtain ⟨n, e, hg, hj⟩ := (mem_flat h r _ id).1 hid
    exact (St.has_iff (h.wfEnts r) id).2 ⟨n, e, hg, (trimIds_sub ok h _ hg).1 id hj⟩
  · unfold trimPackages
    rw [if_neg (by omega), repoEntries_bind]
    refine (bind_ok (collectL_pure (g := W.trimIds k.toNat) ?_)).trans ?_
    · intro e he
      exact trimScan_run ok hgi _ (mem_entries hgi r he)
    · unfold World.trimAll; simp

theorem mTrimPackages_small (h : Inv W s) (hr : r ∈ s.db.repos.keys) (k : Int) (hk : k < 1) :
    ∃ tr, mTrimPackages W.E r k s = ⟨.err .tooSmall, s.got r, tr⟩ ∧ ∀ t ∈ tr, SameObs s t ∧ Inv W t := by
  obtain ⟨t0, hg, ht0⟩ := getRepo_run h hr
  refine ⟨t0, ?_, ht0⟩
  unfold mTrimPackages trimPackages
  rw [bind_ok hg, if_pos hk, throwE_bind]
  simp

theorem mTrimPackages_missing (h : Inv W s) (hr : r ∉ s.db.repos.keys) (k : Int) :
    mTrimPackages W.E r k s = ⟨.err .notFound, s, []⟩ := by
  unfold mTrimPackages; rw [bind_err (getRepo_missing h hr)]

/-! ## TrimObsolete -/

/-- What TrimObsolete removes from one record: the first available package whose stripped name is obsolete,
provided that name is not the record's own. -/
def World.obsIds (W : World) (obs : List Str) (name : Str) : List Str → List Str
  | [] => []
  | id :: ids =>
    if stripDbg (W.mOf id).name ∈ obs then
      (if stripDbg (W.mOf id).name ≠ name then [id] else [])
    else W.obsIds obs name ids

theorem trimObsoleteScan_run (h : Inv W s) (obs : List Str) (name : Str) (l : List Str)
    (hl : ∀ id ∈ l, ∃ pe, s.db.pool.get id = some pe) :
    trimObsoleteScan obs name l s = ⟨.ok (W.obsIds obs name l), s, []⟩ := by
  induction l with
  | nil => rfl
  | cons id ids ih =>
    obtain ⟨pe, hpe⟩ := hl id (by simp)
    have hp := h.pool id pe hpe
    have hn : pe.pkg.name = (W.mOf id).name := by rw [hp.pkg]; rfl
    unfold trimObsoleteScan World.obsIds
    rw [poolGet_bind_some _ hpe, hn]
    by_cases c1 : stripDbg (W.mOf id).name ∈ obs
    · rw [if_pos c1, if_pos c1]
      by_cases c2 : stripDbg (W.mOf id).name ≠ name
      · rw [if_pos c2, if_pos c2]; rfl
      · rw [if_neg c2, if_neg c2]; rfl
    · rw [if_neg c1, if_neg c1]
      exact ih (fun j hj => hl j (by simp [hj]))

theorem obsIds_sub (W : World) (obs : List Str) (name : Str) (l : List Str) :
    (∀ j ∈ W.obsIds obs name l, j ∈ l ∧ stripDbg (W.mOf j).name ∈ obs ∧ stripDbg (W.mOf j).name ≠ name) ∧
    (W.obsIds obs name l).Nodup := by
  induction l with
  | nil => simp [World.obsIds]
  | cons id ids ih =>
    unfold World.obsIds
    by_cases c1 : stripDbg (W.mOf id).name ∈ obs
    · rw [if_pos c1]
      by_cases c2 : stripDbg (W.mOf id).name ≠ name
      · rw [if_pos c2]; simp [c1, c2]
      · rw [if_neg c2]; simp
    · rw [if_neg c1]
      exact ⟨fun j hj => ⟨by simp [(ih.1 j hj).1], (ih.1 j hj).2⟩, ih.2⟩

/-- All packages TrimObsolete removes. -/
def World.obsAll (W : World) (s : St) (r : Str) (obs : List Str) : List Str :=
  ((s.db.ents r).map Prod.snd).flatMap fun e => W.obsIds obs e.name e.available

theorem mTrimObsolete_run (ok : W.OK) (h : Inv W s) (hr : r ∈ s.db.repos.keys) {obs : List Str}
    (hd : W.distOf s r = some (some obs)) :
    RemovedOut W s r (W.obsAll s r obs) (mTrimObsolete W.E r s) := by
  have hgi : Inv W (s.got r) := h.got hr
  unfold mTrimObsolete
  refine removeJob ok h hr ?_ ?_ ?_
  · refine nodup_flat h r _ (fun n e he => ⟨fun j hj => ((obsIds_sub W obs e.name e.available).1 j hj).1,
      (obsIds_sub W obs e.name e.available).2⟩)
  · intro id hid
    obtain ⟨n, e, hg, hj⟩ := (mem_flat h r _ id).1 hid
    exact (St.has_iff (h.wfEnts r) id).2 ⟨n, e, hg, ((obsIds_sub W obs e.name e.available).1 id hj).1⟩
  · unfold trimObsolete
    have hin := initDistribution_run (W := W) (s.got r) r
    rw [World.distOf_congr (s.got_read r), hd] at hin
    rw [bind_ok hin, Out.pre_nil]
    simp only
    rw [repoEntries_bind]
    refine (bind_ok (collectL_pure (g := fun e => W.obsIds obs e.name e.available) ?_)).trans ?_
    · intro e he
      refine trimObsoleteScan_run hgi obs e.name e.available ?_
      intro id hid
      exact ((hgi.ent r _ e (mem_entries hgi r he)).avail id hid).2.1
    · unfold World.obsAll; simp

theorem mTrimObsolete_err (h : Inv W s) (hr : r ∈ s.db.repos.keys)
    (hd : W.distOf s r = none ∨ W.distOf s r = some none) :
    ∃ e tr, mTrimObsolete W.E r s = ⟨.err e, s.got r, tr⟩ ∧ ∀ t ∈ tr, SameObs s t ∧ Inv W t := by
  obtain ⟨t0, hg, ht0⟩ := getRepo_run h hr
  have hin := initDistribution_run (W := W) (s.got r) r
  rw [World.distOf_congr (s.got_read r)] at hin
  rcases hd with hd | hd
  · rw [hd] at hin
    refine ⟨.badAsset, t0, ?_, ht0⟩
    unfold mTrimObsolete trimObsolete
    rw [bind_ok hg, bind_assoc_run, bind_err hin]; simp
  · rw [hd] at hin
    refine ⟨.noDist, t0, ?_, ht0⟩
    unfold mTrimObsolete trimObsolete
    rw [bind_ok hg, bind_assoc_run, bind_ok hin]; simp

theorem mTrimObsolete_missing (h : Inv W s) (hr : r ∉ s.db.repos.keys) :
    mTrimObsolete W.E r s = ⟨.err .notFound, s, []⟩ := by
  unfold mTrimObsolete; rw [bind_err (getRepo_missing h hr)]

/-! ## CopySource -/

/-- Outcome of a job adding exactly `ids` to `r`. -/
structure AddedOut {α : Type} (W : World) (s : St) (r : Str) (ids : List Str) (o : Out α) : Prop where
  noPanic : o.res ≠ .panic
  served : ∀ t ∈ o.tr, Served W (fun _ => True) t
  job : AddedJob W s o.st r ids

theorem mCopySource_run (ok : W.OK) (h : Inv W s) {src dst : Str} (hs : src ∈ s.db.repos.keys)
    (hd : dst ∈ s.db.repos.keys) (source : Str) (release : Int) (skip : Bool)
    (hne : (s.ids src).filter (W.matchesSrc source release) ≠ []) :
    ∃ o, mCopySource W.E src dst source release skip s = o ∧ o.res ≠ .panic ∧
      (∀ t ∈ o.tr, Served W (fun _ => True) t) ∧
      AddedJob W s o.st dst ((s.ids src).filter (W.matchesSrc source release)) ∧
      (skip = true → (o.res = .ok () → W.Fresh o.st dst) ∧ (o.res = .ok () ↔ W.Indexable o.st dst s.clock)) ∧
      (skip = false → o.res = .ok () ∧ o.st.fs.idx = s.fs.idx) := by
  obtain ⟨t0, hg, ht0⟩ := getRepo_run h hs
  have hgi : Inv W (s.got src) := h.got hs
  obtain ⟨t1, hg1, ht1⟩ := getRepo_run (r := dst) hgi (by simpa using hd)
  have hgi1 : Inv W ((s.got src).got dst) := hgi.got (by simpa using hd)
  have hms := matchingSource_run (r := src) ok hgi1 source release
  rw [Inv.ids_got, Inv.ids_got] at hms
  obtain ⟨s2, t2, hrun, ha, htr⟩ := refLoop_run (r := dst) ok
    ((s.ids src).filter (W.matchesSrc source release)) hgi1 (by simpa using hd) (by
      intro id hid
      have := (h.mem_ids src id).1 (List.mem_filter.1 hid).1
      have hf := h.has_facts this
      exact ⟨hf.2.1, by simpa using hf.2.2⟩)
  have hcopy : copySourceFrom W.E dst src source release ((s.got src).got dst) = ⟨.ok (), s2, t2⟩ := by
    unfold copySourceFrom
    rw [bind_ok hms, Out.pre_nil, if_neg (by simpa using hne), hrun]
  have hn1 := (neutral_got' s dst src).trans (neutral_got (s.got src) dst)
  refine ⟨_, rfl, ?_⟩
  cases skip with
  | false =>
    have : mCopySource W.E src dst source release false s = (((⟨.ok (), s2, []⟩ : Out Unit).pre t2).pre t1).pre t0 := by
      unfold mCopySource
      rw [bind_ok hg, bind_ok hg1, bind_ok hcopy]; rfl
    rw [this]
    refine ⟨by simp, ?_, AddedJob.prior hn1 ha.job, by simp, fun _ => ⟨rfl, ?_⟩⟩
    · intro t ht
      simp only [Out.pre_tr, List.mem_append, List.append_nil] at ht
      rcases ht with ht | ht | ht
      · exact got_served ok ht0 _ t ht
      · exact got_served ok ht1 _ t ht
      · exact htr t ht
    · simp only [Out.pre_st]; rw [ha.idx]; simp
  | true =>
    have hm := mIndex_run (r := dst) ok ha.inv (by rw [ha.repos]; simpa using hd)
    have : mCopySource W.E src dst source release true s = (((mIndex W.E dst s2).pre t2).pre t1).pre t0 := by
      unfold mCopySource
      rw [bind_ok hg, bind_ok hg1, bind_ok hcopy]; rfl
    rw [this]
    refine ⟨hm.noPanic, ?_, AddedJob.prior hn1 (ha.job.post hm.neutral hm.inv), fun _ => ⟨hm.fresh, by
      have := hm.okIff
      rw [ha.clock, St.got_clock, St.got_clock] at this
      exact this⟩, by simp⟩
    intro t ht
    simp only [Out.pre_tr, List.mem_append] at ht
    rcases ht with ht | ht | ht | ht
    · exact got_served ok ht0 _ t ht
    · exact got_served ok ht1 _ t ht
    · exact htr t ht
    · exact (hm.tr t ht).2.served ok _

theorem mCopySource_none (ok : W.OK) (h : Inv W s) {src dst : Str} (hs : src ∈ s.db.repos.keys)
    (hd : dst ∈ s.db.repos.keys) (source : Str) (release : Int) (skip : Bool)
    (hne : (s.ids src).filter (W.matchesSrc source release) = []) :
    ∃ tr, mCopySource W.E src dst source release skip s = ⟨.err .noMatch, (s.got src).got dst, tr⟩ ∧
      ∀ t ∈ tr, SameObs s t ∧ Inv W t := by
  obtain ⟨t0, hg, ht0⟩ := getRepo_run h hs
  have hgi : Inv W (s.got src) := h.got hs
  obtain ⟨t1, hg1, ht1⟩ := getRepo_run (r := dst) hgi (by simpa using hd)
  have hgi1 : Inv W ((s.got src).got dst) := hgi.got (by simpa using hd)
  have hms := matchingSource_run (r := src) ok hgi1 source release
  rw [Inv.ids_got, Inv.ids_got, hne] at hms
  have hcopy : copySourceFrom W.E dst src source release ((s.got src).got dst) =
      ⟨.err .noMatch, (s.got src).got dst, []⟩ := by
    unfold copySourceFrom
    rw [bind_ok hms]; rfl
  refine ⟨t0 ++ t1, ?_, ?_⟩
  · unfold mCopySource
    rw [bind_ok hg, bind_ok hg1, bind_err hcopy]; simp
  · intro t ht
    rcases List.mem_append.1 ht with ht | ht
    · exact ht0 t ht
    · exact ⟨(SameObs.got s src).trans (ht1 t ht).1, (ht1 t ht).2⟩

theorem mCopySource_missing (h : Inv W s) {src dst : Str}
    (hk : src ∉ s.db.repos.keys ∨ dst ∉ s.db.repos.keys) (source : Str) (release : Int) (skip : Bool) :
    ∃ u tr, mCopySource W.E src dst source release skip s = ⟨.err .notFound, u, tr⟩ ∧ SameObs s u ∧ Inv W u ∧
      ∀ t ∈ tr, SameObs s t ∧ Inv W t := by
  by_cases hs : src ∈ s.db.repos.keys
  · have hd : dst ∉ s.db.repos.keys := by rcases hk with h | h; exact absurd hs h; exact h
    obtain ⟨t0, hg, ht0⟩ := getRepo_run h hs
    refine ⟨s.got src, t0, ?_, SameObs.got s src, h.got hs, ht0⟩
    unfold mCopySource
    rw [bind_ok hg, bind_err (getRepo_missing (h.got hs) (by simpa using hd))]; simp
  · refine ⟨s, [], ?_, SameObs.refl s, h, by simp⟩
    unfold mCopySource
    rw [bind_err (getRepo_missing h hs)]

end Ferryd
