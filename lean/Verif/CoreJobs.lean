import Verif.CoreUnrefs
/-!
# CoreJobs: outcome of every manager job in a state satisfying the invariant
-/
namespace Ferryd

variable {W : World} {s s' : St} {r : Str}

/-! ## Steps that change nothing but caches, base directory and index of `r` -/

/-- Database and all files are the same; only the published index, the base directory and the caches
concerning `r` may differ. -/
structure Neutral (s s' : St) (r : Str) : Prop where
  db : s'.db = s.db
  tab : s'.fs.tab = s.fs.tab
  data : s'.fs.data = s.fs.data
  next : s'.fs.next = s.fs.next
  idx : ∀ r', r' ≠ r → s'.fs.idx r' = s.fs.idx r'

theorem Neutral.refl (s : St) (r : Str) : Neutral s s r := ⟨rfl, rfl, rfl, rfl, fun _ _ => rfl⟩

theorem Neutral.trans {a b c : St} (h1 : Neutral a b r) (h2 : Neutral b c r) : Neutral a c r :=
  ⟨h2.db.trans h1.db, h2.tab.trans h1.tab, h2.data.trans h1.data, h2.next.trans h1.next,
    fun r' h => (h2.idx r' h).trans (h1.idx r' h)⟩

theorem Neutral.read (h : Neutral s s' r) : s'.fs.read = s.fs.read := by
  funext p; unfold FS.read; rw [h.tab, h.data]

theorem Neutral.frame {dl : Prop} (h : Neutral s s' r) : Frame W dl s s' r where
  skip := by rw [h.db]
  ents _ _ := by rw [h.db]
  idx := h.idx
  tab _ _ _ := by rw [h.tab]
  read _ _ _ _ := by rw [h.read]

theorem Neutral.tight (h : Neutral s s' r) (ht : Tight W s) : Tight W s' := by
  obtain ⟨h1, h2, h3⟩ := ht
  have hd : ∀ d, s'.dholders d = s.dholders d := by
    intro d; unfold St.dholders St.hasDelta; rw [h.db]
  refine ⟨?_, ?_, ?_⟩
  · intro d pe hx hg; rw [h.db] at hg; rw [hd]; exact h1 d pe hx hg
  · rw [h.read, St.hasDelta_congr h.db]; exact h2
  · unfold CanonFS; rw [h.read]; exact h3

theorem neutral_got' (s : St) (r x : Str) : Neutral s (s.got x) r :=
  ⟨by simp, by simp, by simp, by simp, fun _ _ => by simp⟩

theorem neutral_got (s : St) (r : Str) : Neutral s (s.got r) r := neutral_got' s r r

theorem IdxOnly.neutral (h : IdxOnly s s' r) : Neutral s s' r :=
  ⟨h.db, h.tab, h.data, h.next, h.idx⟩

theorem World.distOf_congr (h : s'.fs.read = s.fs.read) (r : Str) : W.distOf s' r = W.distOf s r := by
  unfold World.distOf; rw [h]
theorem World.compsOk_congr (h : s'.fs.read = s.fs.read) (r : Str) : W.compsOk s' r = W.compsOk s r := by
  unfold World.compsOk elementsOf; rw [h]
theorem World.docOf_congr (h : s'.db = s.db) (hr : s'.fs.read = s.fs.read) (r : Str) (d : Option (List Str)) :
    W.docOf s' r d = W.docOf s r d := by
  unfold World.docOf World.docIds World.docPkg World.docDeltas elementsOf; rw [h, hr]

/-- The published index of `r` is the current one. -/
def World.Fresh (W : World) (s : St) (r : Str) : Prop :=
  ∃ d, W.distOf s r = some d ∧ W.compsOk s r = true ∧ s.fs.idx r = some (W.docOf s r d)

/-- An index run in this state will succeed: asset files parse and the tools work. -/
def World.CanIndex (W : World) (s : St) (r : Str) : Prop :=
  (W.distOf s r).isSome = true ∧ W.compsOk s r = true ∧ W.E.indexIO s.clock = .ok

/-- The asset files of `r` found in `t` parse, and the `k`-th index run meets no failing tool. -/
structure World.Indexable (W : World) (t : St) (r : Str) (k : Nat) : Prop where
  dist : (W.distOf t r).isSome = true
  comps : W.compsOk t r = true
  io : W.E.indexIO k = .ok

/-- Outcome of the final index run of a job. -/
structure MIndexed (W : World) (s : St) (r : Str) (o : Out Unit) : Prop where
  neutral : Neutral s o.st r
  inv : Inv W o.st
  tr : ∀ t ∈ o.tr, Neutral s t r ∧ Inv W t
  noPanic : o.res ≠ .panic
  fresh : o.res = .ok () → W.Fresh o.st r
  err : ∀ e, o.res = .err e → o.st.fs.idx r = s.fs.idx r ∨ W.Fresh o.st r
  succeeds : W.CanIndex s r → o.res = .ok ()
  okIff : o.res = .ok () ↔ W.Indexable o.st r s.clock

theorem mIndex_run (ok : W.OK) (h : Inv W s) (hr : r ∈ s.db.repos.keys) :
    MIndexed W s r (mIndex W.E r s) := by
  obtain ⟨tr, hg, htr⟩ := getRepo_run h hr
  have hgi : Inv W (s.got r) := h.got hr
  have hn := neutral_got s r
  have hi := indexRepo_run (r := r) ok hgi
  have hrun : mIndex W.E r s = (indexRepo W.E r (s.got r)).pre tr := by
    unfold mIndex; rw [bind_ok hg]
  rw [hrun]
  have hfr : ∀ t : St, IdxOnly (s.got r) t r → (∃ d, W.distOf (s.got r) r = some d ∧ W.compsOk (s.got r) r = true ∧
      t.fs.idx r = some (W.docOf (s.got r) r d)) → W.Fresh t r := by
    rintro t ht ⟨d, h1, h3, h2⟩
    exact ⟨d, by rw [World.distOf_congr ht.read]; exact h1, by rw [World.compsOk_congr ht.read]; exact h3, by rw [World.docOf_congr ht.db ht.read]; exact h2⟩
  exact {
    neutral := hn.trans hi.only.neutral
    inv := hi.only.inv hgi
    tr := by
      intro t ht
      rcases List.mem_append.1 ht with ht | ht
      · obtain ⟨h1, h2⟩ := htr t ht
        exact ⟨⟨h1.db, h1.tab, h1.data, h1.next, fun _ _ => by rw [h1.idx]⟩, h2⟩
      · obtain ⟨h1, _⟩ := hi.tr t ht
        exact ⟨hn.trans h1.neutral, h1.inv hgi⟩
    noPanic := hi.noPanic
    fresh := fun hok => hfr _ hi.only (hi.okDoc hok)
    err := by
      intro e he
      rcases hi.errDoc e he with hx | hx
      · left; rw [Out.pre_st, hx]; simp
      · exact Or.inr (hfr _ hi.only hx)
    succeeds := by
      rintro ⟨h1, h2, h3⟩
      refine hi.succeeds ?_ ?_ ?_
      · rw [World.distOf_congr (s.got_read r)]; exact h1
      · rw [World.compsOk_congr (s.got_read r)]; exact h2
      · simpa using h3
    okIff := by
      have hrd : ((indexRepo W.E r (s.got r)).pre tr).st.fs.read = (s.got r).fs.read := hi.only.read
      constructor
      · intro hok
        obtain ⟨h2, h3⟩ := hi.needs hok
        obtain ⟨d, h1, _⟩ := hi.okDoc hok
        exact ⟨by rw [World.distOf_congr hrd, h1]; rfl, by rw [World.compsOk_congr hrd]; exact h2, by simpa using h3⟩
      · rintro ⟨h1, h2, h3⟩
        rw [World.distOf_congr hrd] at h1
        rw [World.compsOk_congr hrd] at h2
        exact hi.succeeds h1 h2 (by simpa using h3) }

/-- Indexing a repository whose published index is already the one of its contents leaves that index, whatever the result. -/
theorem mIndex_idle (ok : W.OK) (h : Inv W s) (hr : r ∈ s.db.repos.keys) (hf : W.Fresh s r) :
    (mIndex W.E r s).st.fs.idx = s.fs.idx := by
  have hm := mIndex_run ok h hr
  have key : W.Fresh (mIndex W.E r s).st r → (mIndex W.E r s).st.fs.idx r = s.fs.idx r := by
    rintro ⟨d, h1, h2, h3⟩
    obtain ⟨d', h1', h2', h3'⟩ := hf
    rw [World.distOf_congr hm.neutral.read, h1'] at h1
    cases h1
    rw [h3, h3', World.docOf_congr hm.neutral.db hm.neutral.read]
  funext x
  by_cases hx : x = r
  · subst hx
    cases he : (mIndex W.E x s).res with
    | ok u => exact key (hm.fresh he)
    | err e => exact (hm.err e he).elim id key
    | panic => exact absurd he hm.noPanic
  · exact hm.neutral.idx x hx

theorem mIndex_missing (h : Inv W s) (hr : r ∉ s.db.repos.keys) :
    mIndex W.E r s = ⟨.err .notFound, s, []⟩ := by
  unfold mIndex; rw [bind_err (getRepo_missing h hr)]

/-! ## Adding jobs -/

/-- Summary of a job that adds the packages `ids` to `r`. -/
structure AddedJob (W : World) (s s' : St) (r : Str) (ids : List Str) : Prop where
  inv : Inv W s'
  has : ∀ r' j, s'.has r' j = true ↔ s.has r' j = true ∨ (r' = r ∧ j ∈ ids)
  hasDelta : ∀ r' j, s'.hasDelta r' j = true → s.hasDelta r' j = true
  frame : Frame W False s s' r
  repos : s'.db.repos = s.db.repos
  names : ∀ n, (∀ j ∈ ids, (W.mOf j).name = n → s.has r j = true) →
    (s'.db.ents r).get n = (s.db.ents r).get n
  poolDelta : ∀ j, W.isDelta j = true → s'.db.pool.get j = s.db.pool.get j
  dread : ∀ q, q.isAsset = false → W.isDelta q.base = true → s'.fs.read q = s.fs.read q

theorem AddedAll.job {ids : List Str} (h : AddedAll W s s' r ids) : AddedJob W s s' r ids :=
  ⟨h.inv, h.has, h.hasDelta, h.frame, h.repos, h.names, h.poolDelta, h.dread⟩

theorem AddedJob.post {a b c : St} {ids : List Str} (h : AddedJob W a b r ids) (hn : Neutral b c r)
    (hi : Inv W c) : AddedJob W a c r ids where
  inv := hi
  has := by intro r' j; rw [St.has_congr hn.db]; exact h.has r' j
  hasDelta := by rw [St.hasDelta_congr hn.db]; exact h.hasDelta
  frame := h.frame.trans hn.frame
  repos := by rw [hn.db]; exact h.repos
  names := by rw [hn.db]; exact h.names
  poolDelta := by rw [hn.db]; exact h.poolDelta
  dread := by rw [hn.read]; exact h.dread

theorem AddedJob.prior {a b c : St} {ids : List Str} (hn : Neutral a b r) (h : AddedJob W b c r ids) :
    AddedJob W a c r ids where
  inv := h.inv
  has := by intro r' j; rw [← St.has_congr hn.db]; exact h.has r' j
  hasDelta := by rw [← St.hasDelta_congr hn.db]; exact h.hasDelta
  frame := hn.frame.trans h.frame
  repos := by rw [← hn.db]; exact h.repos
  names := by rw [← hn.db, ← St.has_congr hn.db]; exact h.names
  poolDelta := by rw [← hn.db]; exact h.poolDelta
  dread := by rw [← hn.read]; exact h.dread

theorem got_served (ok : W.OK) {tr : List St} (h : ∀ t ∈ tr, SameObs s t ∧ Inv W t) (P : Str → Prop) :
    ∀ t ∈ tr, Served W P t := fun t ht => (h t ht).2.served ok P

/-- Outcome of an import job (default mode). -/
structure Imported (W : World) (s : St) (r : Str) (files : List Str) (o : Out Unit) : Prop where
  noPanic : o.res ≠ .panic
  served : ∀ t ∈ o.tr, Served W (fun _ => True) t
  spec : ∃ done rest, files = done ++ rest ∧ AddedJob W s o.st r (done.map baseName) ∧
    (∀ f ∈ done, W.Importable s f) ∧ (∀ f rest', rest = f :: rest' → ¬ W.Importable s f) ∧
    (rest ≠ [] → ∃ e, o.res = .err e) ∧ (o.res = .ok () → W.Fresh o.st r) ∧
    (rest = [] → (o.res = .ok () ↔ W.Indexable o.st r s.clock))

theorem mAddPackages_run (ok : W.OK) (h : Inv W s) (hr : r ∈ s.db.repos.keys) (files : List Str)
    (hnd : ∀ f ∈ files, W.isDelta (baseName f) = false) :
    Imported W s r files (mAddPackages W.E r files false s) := by
  obtain ⟨t0, hg, ht0⟩ := getRepo_run h hr
  have hgi : Inv W (s.got r) := h.got hr
  have hn := neutral_got s r
  obtain ⟨res, s1, t1, done, rest, hrun, hfs, ha, himp, hor, htr⟩ :=
    addLoop_run (r := r) ok files hgi (by simpa using hr) hnd
  have himp' : ∀ f, W.Importable (s.got r) f ↔ W.Importable s f := by
    intro f; unfold World.Importable; simp
  have hserv := got_served ok ht0 (fun _ => True)
  rcases hor with ⟨rfl, rfl⟩ | ⟨e, f, rest', rfl, rfl, hbad⟩
  · have hm := mIndex_run (r := r) ok ha.inv (by rw [ha.repos]; simpa using hr)
    have : mAddPackages W.E r files false s = ((mIndex W.E r s1).pre t1).pre t0 := by
      unfold mAddPackages; rw [bind_ok hg, bind_ok hrun]
    rw [this]
    refine ⟨hm.noPanic, ?_, done, [], hfs, ?_, fun f hf => (himp' f).1 (himp f hf), by simp, by simp,
      fun hok => hm.fresh hok, fun _ => by
        have := hm.okIff
        rw [ha.clock, St.got_clock] at this
        exact this⟩
    · intro t ht
      simp only [Out.pre_tr, List.mem_append] at ht
      rcases ht with ht | ht | ht
      · exact hserv t ht
      · exact htr t ht
      · exact (hm.tr t ht).2.served ok _
    · exact AddedJob.prior hn (ha.job.post hm.neutral hm.inv)
  · have : mAddPackages W.E r files false s = (⟨.err e, s1, t1⟩ : Out Unit).pre t0 := by
      unfold mAddPackages; rw [bind_ok hg, bind_err hrun]
    rw [this]
    refine ⟨by simp, ?_, done, f :: rest', hfs, AddedJob.prior hn ha.job,
      fun f hf => (himp' f).1 (himp f hf), ?_, fun _ => ⟨e, rfl⟩, by simp, by simp⟩
    · intro t ht
      simp only [Out.pre_mk, List.mem_append] at ht
      rcases ht with ht | ht
      · exact hserv t ht
      · exact htr t ht
    · intro g rest'' hx; cases hx
      exact fun hh => hbad ((himp' _).2 hh)

/-- Outcome of an import job in strict mode. -/
structure ImportedStrict (W : World) (s : St) (r : Str) (files : List Str) (o : Out Unit) : Prop where
  noPanic : o.res ≠ .panic
  served : ∀ t ∈ o.tr, Served W (fun _ => True) t
  spec : ∃ done rest, files = done ++ rest ∧ AddedJob W s o.st r (done.map baseName) ∧
    W.StrictOk s r done ∧ (∀ f rest', rest = f :: rest' → ¬ W.StrictOk s r (done ++ [f])) ∧
    (rest ≠ [] → ∃ e, o.res = .err e) ∧ (o.res = .ok () → W.Fresh o.st r) ∧
    (rest = [] → (o.res = .ok () ↔ W.Indexable o.st r s.clock))

theorem mAddPackagesStrict_run (ok : W.OK) (h : Inv W s) (hr : r ∈ s.db.repos.keys) (files : List Str)
    (hnd : ∀ f ∈ files, W.isDelta (baseName f) = false) :
    ImportedStrict W s r files (mAddPackages W.E r files true s) := by
  obtain ⟨t0, hg, ht0⟩ := getRepo_run h hr
  have hgi : Inv W (s.got r) := h.got hr
  have hn := neutral_got s r
  obtain ⟨res, s1, t1, done, rest, hrun, hfs, ha, himp, hor, htr⟩ :=
    addLoopStrict_run (r := r) ok files hgi (by simpa using hr) hnd
  have himp' : ∀ l, W.StrictOk (s.got r) r l ↔ W.StrictOk s r l := by
    intro l
    constructor
    · rintro ⟨h1, h2, h3⟩
      exact ⟨fun f hf => by simpa [World.Importable] using h1 f hf, fun f hf j hj => h2 f hf j (by
        rw [St.has_congr (s.got_db r)]; exact hj), h3⟩
    · rintro ⟨h1, h2, h3⟩
      exact ⟨fun f hf => by simpa [World.Importable] using h1 f hf, fun f hf j hj => h2 f hf j (by
        rw [St.has_congr (s.got_db r)] at hj; exact hj), h3⟩
  have hserv := got_served ok ht0 (fun _ => True)
  rcases hor with ⟨rfl, rfl⟩ | ⟨e, f, rest', rfl, rfl, hbad⟩
  · have hm := mIndex_run (r := r) ok ha.inv (by rw [ha.repos]; simpa using hr)
    have : mAddPackages W.E r files true s = ((mIndex W.E r s1).pre t1).pre t0 := by
      unfold mAddPackages; rw [bind_ok hg, bind_ok hrun]
    rw [this]
    refine ⟨hm.noPanic, ?_, done, [], hfs, ?_, (himp' _).1 himp, by simp, by simp,
      fun hok => hm.fresh hok, fun _ => by
        have := hm.okIff
        rw [ha.clock, St.got_clock] at this
        exact this⟩
    · intro t ht
      simp only [Out.pre_tr, List.mem_append] at ht
      rcases ht with ht | ht | ht
      · exact hserv t ht
      · exact htr t ht
      · exact (hm.tr t ht).2.served ok _
    · exact AddedJob.prior hn (ha.job.post hm.neutral hm.inv)
  · have : mAddPackages W.E r files true s = (⟨.err e, s1, t1⟩ : Out Unit).pre t0 := by
      unfold mAddPackages; rw [bind_ok hg, bind_err hrun]
    rw [this]
    refine ⟨by simp, ?_, done, f :: rest', hfs, AddedJob.prior hn ha.job,
      (himp' _).1 himp, ?_, fun _ => ⟨e, rfl⟩, by simp, by simp⟩
    rotate_left
    · intro g rest'' hx; cases hx
      exact fun hh => hbad ((himp' _).2 hh)
    intro t ht
    simp only [Out.pre_mk, List.mem_append] at ht
    rcases ht with ht | ht
    · exact hserv t ht
    · exact htr t ht

theorem mAddPackages_missing (h : Inv W s) (hr : r ∉ s.db.repos.keys) (files : List Str) (b : Bool) :
    mAddPackages W.E r files b s = ⟨.err .notFound, s, []⟩ := by
  unfold mAddPackages; rw [bind_err (getRepo_missing h hr)]

/-! ## Listings -/

/-- All packages of a repository, in the order of its records. -/
def St.ids (s : St) (r : Str) : List Str := ((s.db.ents r).map Prod.snd).flatMap RepoEntry.available

theorem Inv.mem_ids (h : Inv W s) (r j : Str) : j ∈ s.ids r ↔ s.has r j = true := by
  rw [St.has_iff (h.wfEnts r)]
  simp only [St.ids, List.mem_flatMap, List.mem_map, Prod.exists, exists_eq_right]
  constructor
  · rintro ⟨e, ⟨n, hm⟩, hj⟩; exact ⟨n, e, KV.get_of_mem (h.wfEnts r) hm, hj⟩
  · rintro ⟨n, e, hg, hj⟩; exact ⟨e, ⟨n, KV.mem_of_get hg⟩, hj⟩

theorem nodup_flat (h : Inv W s) (r : Str) (g : RepoEntry → List Str)
    (hg : ∀ n e, (s.db.ents r).get n = some e → (∀ j ∈ g e, j ∈ e.available) ∧ (g e).Nodup) :
    (((s.db.ents r).map Prod.snd).flatMap g).Nodup := by
  have hk := (h.wfEnts r).nodup_keys
  have key : ∀ l : List (Str × RepoEntry), (l.map Prod.fst).Nodup →
      (∀ p ∈ l, (s.db.ents r).get p.1 = some p.2) → ((l.map Prod.snd).flatMap g).Nodup := by
    intro l
    induction l with
    | nil => intro _ _; simp
    | cons p ps ih =>
      intro hn hm
      simp only [List.map_cons, List.nodup_cons] at hn
      simp only [List.map_cons, List.flatMap_cons]
      have hp := hm p (by simp)
      rw [List.nodup_append]
      refine ⟨(hg p.1 p.2 hp).2, ih hn.2 (fun q hq => hm q (by simp [hq])), ?_⟩
      intro a ha b hb hab
      subst hab
      simp only [List.mem_flatMap, List.mem_map] at hb
      obtain ⟨e, ⟨q, hq, rfl⟩, hb⟩ := hb
      have hqg := hm q (by simp [hq])
      have n1 := ((h.ent r _ _ hp).avail a ((hg _ _ hp).1 a ha)).2.2
      have n2 := ((h.ent r _ _ hqg).avail a ((hg _ _ hqg).1 a hb)).2.2
      apply hn.1
      rw [← n1, n2]
      exact List.mem_map_of_mem hq
  exact key _ hk (fun p hp => KV.get_of_mem (h.wfEnts r) hp)

theorem mem_flat (h : Inv W s) (r : Str) (g : RepoEntry → List Str) (j : Str) :
    j ∈ ((s.db.ents r).map Prod.snd).flatMap g ↔ ∃ n e, (s.db.ents r).get n = some e ∧ j ∈ g e := by
  simp only [List.mem_flatMap, List.mem_map, Prod.exists, exists_eq_right]
  constructor
  · rintro ⟨e, ⟨n, hm⟩, hj⟩; exact ⟨n, e, KV.get_of_mem (h.wfEnts r) hm, hj⟩
  · rintro ⟨n, e, hg, hj⟩; exact ⟨e, ⟨n, KV.mem_of_get hg⟩, hj⟩

theorem mem_entries (h : Inv W s) (r : Str) {e : RepoEntry} (he : e ∈ (s.db.ents r).map Prod.snd) :
    (s.db.ents r).get e.name = some e := by
  simp only [List.mem_map, Prod.exists, exists_eq_right] at he
  obtain ⟨n, hm⟩ := he
  have hg := KV.get_of_mem (h.wfEnts r) hm
  rw [(h.ent r n e hg).name]; exact hg

/-! ## RemoveSource / CopySource -/

/-- The package `id` is of this source, and of this release if one was given. -/
def World.matchesSrc (W : World) (source : Str) (release : Int) (id : Str) : Bool :=
  decide ((W.mOf id).source = source) && (decide (release ≤ 0) || decide ((W.mOf id).rel = release))

theorem matchingSource_run (ok : W.OK) (h : Inv W s) (source : Str) (release : Int) :
    matchingSource r source release s = ⟨.ok ((s.ids r).filter (W.matchesSrc source release)), s, []⟩ := by
  unfold matchingSource
  rw [repoEntries_bind]
  refine (collectL_pure (g := fun e => e.available.filter (W.matchesSrc source release)) ?_).trans ?_
  · intro e he
    have hge := mem_entries h r he
    refine (collectL_pure (g := fun id => if W.matchesSrc source release id then [id] else []) ?_).trans ?_
    · intro id hid
      obtain ⟨_, ⟨pe, hpe⟩, _⟩ := (h.ent r _ e hge).avail id hid
      have hp := h.pool id pe hpe
      have h1 : pe.pkg.source = (W.mOf id).source := by rw [hp.pkg]; rfl
      have h2 : pe.pkg.history ≠ [] := by rw [hp.pkg]; exact (ok.meta hp.isPkg).hist
      have h3 : pe.pkg.rel = (W.mOf id).rel := by rw [hp.pkg]; rfl
      rw [poolGet_bind_some _ hpe, h1]
      unfold World.matchesSrc
      by_cases c1 : (W.mOf id).source = source
      · by_cases c2 : release > 0
        · have : ¬ release ≤ 0 := by omega
          simp only [c1, ne_eq, not_true_eq_false, if_false, c2, if_true, getRelease_bind h2, h3, this]
          by_cases c3 : (W.mOf id).rel = release <;> simp [c3]
        · have : release ≤ 0 := by omega
          simp [c1, c2, this]
      · simp [c1]
    · congr 2
      generalize e.available = l
      induction l with
      | nil => rfl
      | cons x xs ih =>
        rw [List.flatMap_cons, ih, List.filter_cons]
        by_cases c : W.matchesSrc source release x = true <;> simp [c]
  · congr 2
    unfold St.ids
    generalize (s.db.ents r).map Prod.snd = l
    induction l with
    | nil => rfl
    | cons x xs ih => simp [List.filter_append, ih]

/-- Summary of a job that removes the packages `ids` from `r`. -/
structure RemovedJob (W : World) (s s' : St) (r : Str) (ids : List Str) : Prop where
  inv : Inv W s'
  has : ∀ r' j, s'.has r' j = true ↔ s.has r' j = true ∧ ¬ (r' = r ∧ j ∈ ids)
  frame : Frame W False s s' r
  repos : s'.db.repos = s.db.repos
  names : ∀ n, (∀ j ∈ ids, (W.mOf j).name ≠ n) → (s'.db.ents r).get n = (s.db.ents r).get n
  hasDelta : ∀ j, s'.hasDelta r j = true → s.hasDelta r j = true ∧ ∀ id ∈ ids, gcDelta s.db.pool id j = false
  keepDelta : ∀ j, s.hasDelta r j = true → (∀ id ∈ ids, gcDelta s.db.pool id j = false) →
    (∃ k, s'.has r k = true ∧ (W.mOf k).name = (W.mOf j).name) → s'.hasDelta r j = true
  deltaInfo : ∀ j pe', s'.db.pool.get j = some pe' → ∃ pe, s.db.pool.get j = some pe ∧ pe'.delta = pe.delta
  tight : Tight W s → (∀ d, s.hasDelta r d = true → s'.hasDelta r d = true ∨
    ∃ id ∈ ids, s.has r id = true ∧ gcDelta s.db.pool id d = true) → Tight W s'

theorem RemovedAll.job {ids : List Str} (h : RemovedAll W s s' r ids) : RemovedJob W s s' r ids :=
  ⟨h.inv, h.has, h.frame, h.repos, h.names, h.hasDelta, h.keepDelta, h.deltaInfo, h.tight⟩

theorem RemovedJob.post {a b c : St} {ids : List Str} (h : RemovedJob W a b r ids) (hn : Neutral b c r)
    (hi : Inv W c) : RemovedJob W a c r ids where
  inv := hi
  has := by intro r' j; rw [St.has_congr hn.db]; exact h.has r' j
  frame := h.frame.trans hn.frame
  repos := by rw [hn.db]; exact h.repos
  names := by rw [hn.db]; exact h.names
  hasDelta := by rw [St.hasDelta_congr hn.db]; exact h.hasDelta
  keepDelta := by rw [St.hasDelta_congr hn.db, St.has_congr hn.db]; exact h.keepDelta
  deltaInfo := by rw [hn.db]; exact h.deltaInfo
  tight := by rw [St.hasDelta_congr hn.db]; exact fun ht hk => hn.tight (h.tight ht hk)

theorem RemovedJob.prior {a b c : St} {ids : List Str} (hn : Neutral a b r) (h : RemovedJob W b c r ids) :
    RemovedJob W a c r ids where
  inv := h.inv
  has := by intro r' j; rw [← St.has_congr hn.db]; exact h.has r' j
  frame := hn.frame.trans h.frame
  repos := by rw [← hn.db]; exact h.repos
  names := by rw [← hn.db]; exact h.names
  hasDelta := by rw [← St.hasDelta_congr hn.db, ← hn.db]; exact h.hasDelta
  keepDelta := by rw [← St.hasDelta_congr hn.db, ← hn.db]; exact h.keepDelta
  deltaInfo := by rw [← hn.db]; exact h.deltaInfo
  tight := by
    rw [← St.hasDelta_congr hn.db, ← St.has_congr hn.db, ← hn.db]
    exact fun ht hk => h.tight (hn.tight ht) hk

/-- Outcome of a job that removes exactly the packages `ids` and rebuilds the index. -/
structure RemovedOut (W : World) (s : St) (r : Str) (ids : List Str) (o : Out Unit) : Prop where
  noPanic : o.res ≠ .panic
  served : ∀ t ∈ o.tr, Served W (· ≠ r) t
  job : RemovedJob W s o.st r ids
  fresh : o.res = .ok () → W.Fresh o.st r
  succeeds : W.CanIndex s r → o.res = .ok ()
  okIff : o.res = .ok () ↔ W.Indexable o.st r s.clock
  asset : ∀ r' a, o.st.fs.read (.asset r' a) = s.fs.read (.asset r' a)
  idle : ids = [] → Neutral s o.st r ∧ (W.Fresh s r → o.st.fs.idx = s.fs.idx)

/-- A job of the form GetRepo; compute ids; remove them; Index. -/
theorem removeJob (ok : W.OK) (h : Inv W s) (hr : r ∈ s.db.repos.keys) {ids : List Str} {body : M Unit}
    (hnd : ids.Nodup) (hids : ∀ id ∈ ids, s.has r id = true)
    (hbody : body (s.got r) = forL ids (unrefPackage r) (s.got r)) :
    RemovedOut W s r ids ((do getRepo r; body; mIndex W.E r) s) := by
  obtain ⟨t0, hg, ht0⟩ := getRepo_run h hr
  have hgi : Inv W (s.got r) := h.got hr
  have hn := neutral_got s r
  obtain ⟨s1, t1, hrun, ha, htr⟩ := unrefLoop_run (r := r) ok ids hgi hnd (by
    intro id hid; rw [St.has_congr (s.got_db r)]; exact hids id hid)
  have hm := mIndex_run (r := r) ok ha.inv (by rw [ha.repos]; simpa using hr)
  have : (do getRepo r; body; mIndex W.E r : M Unit) s = ((mIndex W.E r s1).pre t1).pre t0 := by
    rw [bind_ok hg, bind_ok (hbody.trans hrun)]
  rw [this]
  refine ⟨hm.noPanic, ?_, RemovedJob.prior hn (ha.job.post hm.neutral hm.inv), hm.fresh, ?_, by
    have := hm.okIff
    rw [ha.clock, St.got_clock] at this
    exact this, fun r' a => by
    show (mIndex W.E r s1).st.fs.read _ = _
    rw [hm.neutral.read, ha.asset]; simp, ?_⟩
  rotate_left 2
  · rintro rfl
    obtain rfl : s1 = s.got r := by
      have hx : (forL [] (unrefPackage r) (s.got r)).st = s1 := by rw [hrun]
      exact hx.symm
    refine ⟨hn.trans hm.neutral, fun hf => ?_⟩
    have hf' : W.Fresh (s.got r) r := by
      obtain ⟨d, h1, h2, h3⟩ := hf
      exact ⟨d, by rw [World.distOf_congr (s.got_read r)]; exact h1, by rw [World.compsOk_congr (s.got_read r)]; exact h2,
        by rw [World.docOf_congr (s.got_db r) (s.got_read r)]; simpa using h3⟩
    show (mIndex W.E r (s.got r)).st.fs.idx = _
    rw [mIndex_idle ok hgi (by simpa using hr) hf']; simp
  · intro t ht
    simp only [Out.pre_tr, List.mem_append] at ht
    rcases ht with ht | ht | ht
    · exact got_served ok ht0 _ t ht
    · exact htr t ht
    · exact (hm.tr t ht).2.served ok _
  · rintro ⟨h1, h2, h3⟩
    refine hm.succeeds ⟨?_, ?_, ?_⟩
    · have : W.distOf s1 r = W.distOf s r := by
        unfold World.distOf; rw [ha.asset]; simp
      rw [this]; exact h1
    · have : W.compsOk s1 r = W.compsOk s r := by
        unfold World.compsOk elementsOf; rw [ha.asset, ha.asset]; simp
      rw [this]; exact h2
    · rw [ha.clock]; simpa using h3

theorem Inv.ids_got (s : St) (r r' : Str) : (s.got r).ids r' = s.ids r' := by
  unfold St.ids; simp

theorem mRemoveSource_run (ok : W.OK) (h : Inv W s) (hr : r ∈ s.db.repos.keys) (source : Str) (release : Int) :
    ((s.ids r).filter (W.matchesSrc source release) ≠ [] ∧
      RemovedOut W s r ((s.ids r).filter (W.matchesSrc source release)) (mRemoveSource W.E r source release s)) ∨
    ((s.ids r).filter (W.matchesSrc source release) = [] ∧
      ∃ tr, mRemoveSource W.E r source release s = ⟨.err .noMatch, s.got r, tr⟩ ∧
        ∀ t ∈ tr, SameObs s t ∧ Inv W t) := by
  have hgi : Inv W (s.got r) := h.got hr
  have hms := matchingSource_run (r := r) ok hgi source release
  rw [Inv.ids_got] at hms
  by_cases hne : (s.ids r).filter (W.matchesSrc source release) = []
  · right
    refine ⟨hne, ?_⟩
    obtain ⟨t0, hg, ht0⟩ := getRepo_run h hr
    refine ⟨t0, ?_, ht0⟩
    unfold mRemoveSource
    rw [bind_ok hg]
    have : removeSource r source release (s.got r) = ⟨.err .noMatch, s.got r, []⟩ := by
      unfold removeSource
      rw [bind_ok hms, hne]
      rfl
    rw [bind_err this]
    simp
  · left
    refine ⟨hne, ?_⟩
    unfold mRemoveSource
    refine removeJob ok h hr ?_ ?_ ?_
    · exact (nodup_flat h r RepoEntry.available (fun n e he =>
        ⟨fun j hj => hj, (h.ent r n e he).nodup⟩)).filter _
    · intro id hid
      exact (h.mem_ids r id).1 (List.mem_filter.1 hid).1
    · unfold removeSource
      rw [bind_ok hms, Out.pre_nil, if_neg]
      simpa using hne

theorem mRemoveSource_missing (h : Inv W s) (hr : r ∉ s.db.repos.keys) (source : Str) (release : Int) :
    mRemoveSource W.E r source release s = ⟨.err .notFound, s, []⟩ := by
  unfold mRemoveSource; rw [bind_err (getRepo_missing h hr)]

end Ferryd
