import Verif.CoreJobs3
/-!
# CoreOps: histories of jobs and outside events, and the global invariant over all of them
-/
namespace Ferryd

/-- What can happen to a daemon: the jobs and API calls of src/ferryd/core/api.go (run one after the other
on the sequential worker), and outside events. -/
inductive Op
  | create (r : Str)
  | delete (r : Str)
  | clone (src new : Str) (full : Bool)
  | pull (src dst : Str)
  | removeSource (r source : Str) (release : Int)
  | copySource (src dst source : Str) (release : Int) (skipIndex : Bool)
  | trimObsolete (r : Str)
  | trimPackages (r : Str) (maxKeep : Int)
  | addPackages (r : Str) (files : List Str) (strict : Bool)
  | index (r : Str)
  /-- a produced delta, staged in the repository's delta directory, is added (jobs/delta.go:134-171) -/
  | addDelta (r d fromID toID : Str)
  /-- a delta already in the pool is referenced (jobs/delta.go:112-121) -/
  | refDelta (r d : Str)
  /-- jobs/delta.go:124-133 -/
  | markFailed (id : Str) (d : DeltaInfo)
  /-- outside: an uploaded file appears -/
  | upload (f : Str) (c : Content)
  /-- outside: an uploaded file disappears -/
  | unlink (f : Str)
  /-- outside: the administrator installs an asset file -/
  | putAsset (r : Str) (a : Asset) (c : Content)
  /-- outside: the delta producer writes a delta file -/
  | stage (r d : Str) (c : Content)
  /-- a staged delta file is removed after its inclusion (jobs/delta.go:170) -/
  | unstage (r d : Str)
  /-- the daemon is stopped between jobs and started again -/
  | restart
  deriving Repr

/-- A file appears at `p` (new inode). -/
def St.putFile (s : St) (p : Path) (c : Content) : St :=
  s.setFs { (s.fs.setTab p (some s.fs.next)).setData s.fs.next c with next := s.fs.next + 1 }

/-- Forget the value of a job. -/
def discard {α} (m : M α) : M Unit := do let _ ← m; pure ()

/-- The job of an operation (api.go:29-269). -/
def Op.run (E : Env) : Op → M Unit
  | .create r => mCreateRepo E r
  | .delete r => mDeleteRepo r
  | .clone a b f => mCloneRepo E a b f
  | .pull a b => discard (mPullRepo E a b)
  | .removeSource r n k => mRemoveSource E r n k
  | .copySource a b n k sk => mCopySource E a b n k sk
  | .trimObsolete r => mTrimObsolete E r
  | .trimPackages r k => mTrimPackages E r k
  | .addPackages r fs st => mAddPackages E r fs st
  | .index r => mIndex E r
  | .addDelta r d f t => mAddDelta E r (.stage r d) f t
  | .refDelta r d => mRefDelta E r d
  | .markFailed i d => markDeltaFailed i d
  | .upload f c => stepM fun s => s.putFile (.ext f) c
  | .unlink f => removeFile (.ext f)
  | .putAsset r a c => stepM fun s => s.putFile (.asset r a) c
  | .stage r d c => stepM fun s => s.putFile (.stage r d) c
  | .unstage r d => removeFile (.stage r d)
  | .restart => stepM St.crash

/-- Conditions on operations: files carry the content their name stands for, package imports name packages
and delta calls name deltas of the right package. Nothing else is assumed: the repositories, sources,
releases, paths named need not exist. -/
def Op.Ok (W : World) : Op → Prop
  | .addPackages _ fs _ => ∀ f ∈ fs, W.isDelta (baseName f) = false
  | .addDelta _ d f t => W.isDelta d = true ∧ (W.mOf f).name = (W.mOf d).name ∧ (W.mOf t).name = (W.mOf d).name
  | .refDelta _ d => W.isDelta d = true
  | .upload f c => c = W.canon (baseName f)
  | .stage _ d c => c = W.canon d
  | _ => True

/-- State after an operation, whatever its result. -/
def Op.exec (E : Env) (s : St) (o : Op) : St := (o.run E s).st

/-- State after a history. -/
def runAll (E : Env) (s : St) (ops : List Op) : St := ops.foldl (Op.exec E) s

/-- States reachable from the empty daemon by histories of operations. -/
def Reachable (W : World) (s : St) : Prop :=
  ∃ ops : List Op, (∀ o ∈ ops, o.Ok W) ∧ s = runAll W.E St.init ops

variable {W : World} {s : St}

theorem inv_putFile (h : Inv W s) {p : Path} {c : Content}
    (hp : (∃ f, p = .ext f) ∨ (∃ r a, p = .asset r a) ∨ (∃ r d, p = .stage r d))
    (hc : p.isAsset = false → c = W.canon p.base) : Inv W (s.putFile p c) := by
  have hread : ∀ q, q ≠ p → (s.putFile p c).fs.read q = s.fs.read q := by
    intro q hq
    simp only [St.putFile, St.setFs_fs, FS.read, FS.setData_tab, FS.setTab_tab, if_neg hq]
    cases hi : s.fs.tab q with
    | none => rfl
    | some i =>
      have := h.fs.fresh q i hi
      simp only [Option.map_some, FS.setData_data]
      rw [if_neg (by omega)]; rfl
  have htab : ∀ q, q ≠ p → (s.putFile p c).fs.tab q = s.fs.tab q := by
    intro q hq; simp [St.putFile, hq]
  have hself : (s.putFile p c).fs.tab p = some s.fs.next := by simp [St.putFile]
  have hfs : FInv W (s.putFile p c).fs := by
    refine ⟨?_, ?_, ?_⟩
    · intro q i hq
      have : (s.putFile p c).fs.next = s.fs.next + 1 := rfl
      by_cases e : q = p
      · subst e; rw [hself] at hq; cases hq; omega
      · rw [htab q e] at hq; have := h.fs.fresh q i hq; omega
    · intro q q' i hq hq'
      by_cases e : q = p <;> by_cases e' : q' = p
      · rw [e, e']
      · subst e; rw [hself] at hq; cases hq; rw [htab q' e'] at hq'
        exact absurd (h.fs.fresh q' _ hq') (by omega)
      · subst e'; rw [hself] at hq'; cases hq'; rw [htab q e] at hq
        exact absurd (h.fs.fresh q _ hq) (by omega)
      · rw [htab q e] at hq; rw [htab q' e'] at hq'; exact h.fs.owner q q' i hq hq'
    · intro q d hq hr
      by_cases e : q = p
      · subst e
        have : (s.putFile q c).fs.read q = some c := by
          simp [St.putFile, FS.read]
        rw [this] at hr; cases hr; left; exact hc hq
      · rw [hread q e] at hr; exact h.fs.content q d hq hr
  have hdb : (s.putFile p c).db = s.db := rfl
  have hpool : ∀ x id, (s.putFile p c).fs.tab (.pool x id) = s.fs.tab (.pool x id) := by
    intro x id; apply htab; rintro rfl
    rcases hp with ⟨f, hf⟩ | ⟨r, a, hf⟩ | ⟨r, a, hf⟩ <;> cases hf
  have hrepo : ∀ r x id, (s.putFile p c).fs.tab (.repo r x id) = s.fs.tab (.repo r x id) := by
    intro r x id; apply htab; rintro rfl
    rcases hp with ⟨f, hf⟩ | ⟨r, a, hf⟩ | ⟨r, a, hf⟩ <;> cases hf
  exact
  { wfPool := h.wfPool, wfSkip := h.wfSkip, wfRepos := h.wfRepos, wfEnts := h.wfEnts, noEnts := h.noEnts
    cache := h.cache, rdir := h.rdir, repoRes := h.repoRes, pend := h.pend
    ent := fun r n e hg => (h.ent r n e hg).congr rfl
    pool := fun id pe hg => (h.pool id pe hg).congr rfl
    fs := hfs
    poolFile := fun id x => by rw [hpool]; exact h.poolFile id x
    repoFile := fun r id x hd => by rw [hrepo, St.has_congr hdb]; exact h.repoFile r id x hd
    dFile := fun r d x hx hy => by
      rw [hrepo]; rw [St.hasDelta_congr hdb] at hx; exact h.dFile r d x hx hy
    noOrphan := fun r x id hx => by rw [hrepo] at hx; exact h.noOrphan r x id hx }

theorem inv_removed (h : Inv W s) {p : Path} (hp : (∃ f, p = .ext f) ∨ (∃ r d, p = .stage r d)) :
    Inv W (s.setFs (s.fs.setTab p none)) := by
  have hpl : ∀ x id, Path.pool x id ≠ p := by rcases hp with ⟨f, rfl⟩ | ⟨r, d, rfl⟩ <;> simp
  have hrl : ∀ r x id, Path.repo r x id ≠ p := by rcases hp with ⟨f, rfl⟩ | ⟨r, d, rfl⟩ <;> simp
  have htab : ∀ q, q ≠ p → (s.fs.setTab p none).tab q = s.fs.tab q := by
    intro q hq; simp [hq]
  exact
  { wfPool := h.wfPool, wfSkip := h.wfSkip, wfRepos := h.wfRepos, wfEnts := h.wfEnts, noEnts := h.noEnts
    cache := h.cache, rdir := h.rdir, repoRes := h.repoRes, pend := h.pend
    ent := fun r n e hg => (h.ent r n e hg).congr rfl
    pool := fun id pe hg => (h.pool id pe hg).congr rfl
    fs := h.fs.removed rfl rfl (fun q i hq => by
      simp only [St.setFs_fs, FS.setTab_tab] at hq
      split at hq
      · cases hq
      · exact hq)
    poolFile := fun id x => by
      simp only [St.setFs_fs]; rw [htab _ (hpl x id)]; exact h.poolFile id x
    repoFile := fun r id x hd => by
      simp only [St.setFs_fs]; rw [htab _ (hrl _ _ _)]; exact h.repoFile r id x hd
    dFile := fun r d x hx hy => by
      simp only [St.setFs_fs]; rw [htab _ (hrl _ _ _)]; exact h.dFile r d x hx hy
    noOrphan := fun r x id hx => by
      simp only [St.setFs_fs] at hx; rw [htab _ (hrl _ _ _)] at hx; exact h.noOrphan r x id hx }

theorem inv_unlink (h : Inv W s) (f : Str) : Inv W (s.setFs (s.fs.setTab (.ext f) none)) :=
  inv_removed h (.inl ⟨f, rfl⟩)

theorem inv_restart (h : Inv W s) : Inv W s.crash :=
  h.vol rfl rfl rfl rfl rfl (fun _ hr => by simp [St.crash] at hr) (fun r hr => h.rdir r hr)

theorem SameObs.served (ok : W.OK) {t : St} (h : Inv W s) (ht : SameObs s t ∧ Inv W t) (P : Str → Prop) :
    Served W P t := ht.2.served ok P

/-- The repository a removing operation works on. -/
def Op.removesFrom : Op → Option Str
  | .delete r => some r
  | .removeSource r _ _ => some r
  | .trimObsolete r => some r
  | .trimPackages r _ => some r
  | _ => none

/-- `deleteRepo`: at every intermediate state the other repositories are whole. -/
theorem Deleting.served {t : St} {r : Str} (hd : Deleting W s t r) (ok : W.OK) (h : Inv W s) :
    Served W (· ≠ r) t where
  ent r' n e hP hg := by
    have hents : t.db.ents r' = s.db.ents r' := by
      rcases hd.db with h1 | h1
      · rw [h1]
      · exact h1.entsOther r' hP
    rw [hents] at hg
    obtain ⟨h1, h2, h3, h4, h5, h6⟩ := (h.served ok (fun _ => True)).ent r' n e trivial hg
    refine ⟨h1, h2, h3, h4, h5, ?_⟩
    intro id hid
    obtain ⟨a1, a2, a3, ⟨k, hk, hpg⟩, c, hc, hr1, hr2⟩ := h6 id hid
    have hhas : s.has r' id = true := (St.has_iff (h.wfEnts r') id).2 ⟨n, e, hg, hid⟩
    have hk' : k = (s.holders id).length := by
      have := h.pool_eq hpg a1; injection this
    -- if r also lists it then the count is at least two
    have htwo : id ∈ s.listed r → 2 ≤ k := by
      intro hl
      have hhr : s.has r id = true := by
        rcases (h.mem_listed r id).1 hl with h | hx
        · exact h
        · obtain ⟨e', hg', hi'⟩ := (h.hasDelta_iff r id).1 hx
          have := ((h.ent r _ e' hg').deltas id hi').1
          rw [a1] at this; cases this
      rw [hk']
      have hm1 : r ∈ s.holders id := (h.mem_holders r id).2 hhr
      have hm2 : r' ∈ s.holders id := (h.mem_holders r' id).2 hhas
      match hL : s.holders id with
      | [] => rw [hL] at hm1; cases hm1
      | [x] =>
        rw [hL] at hm1 hm2
        simp only [List.mem_singleton] at hm1 hm2
        exact absurd (hm2.trans hm1.symm) hP
      | _ :: _ :: _ => simp
    have hrm : rmPath W s.db.pool r (s.listed r) (.pool c id) = false := by
      simp only [rmPath, hpg, Option.bind_some, decEntry]
      by_cases hl : id ∈ s.listed r
      · have := htwo hl
        rw [if_neg (by omega)]; simp
      · simp [hl]
    refine ⟨a1, a2, a3, ?_, c, hc, ?_, ?_⟩
    · rcases hd.db with hdb | hdb
      · rw [hdb]; exact ⟨k, hk, hpg⟩
      · rw [hdb.pool]
        by_cases hl : id ∈ s.listed r
        · have := htwo hl
          rw [if_pos hl, hpg, Option.bind_some, decEntry, if_neg (by simp; omega)]
          exact ⟨k - 1, by omega, rfl⟩
        · rw [if_neg hl]; exact ⟨k, hk, hpg⟩
    · rcases hd.tab (.pool c id) with h' | ⟨h', _⟩
      · rw [← hr1]; unfold FS.read; rw [h', hd.data]
      · rw [hrm] at h'; simp [Path.inRepo] at h'
    · rcases hd.tab (.repo r' c id) with h' | ⟨h', _⟩
      · rw [← hr2]; unfold FS.read; rw [h', hd.data]
      · simp [rmPath, Path.inRepo, hP] at h'
  pos j pe hg := by
    rcases hd.db with hdb | hdb
    · rw [hdb] at hg; exact (h.pool j pe hg).pos
    · rw [hdb.pool] at hg
      split at hg
      · cases hgj : s.db.pool.get j with
        | none => rw [hgj] at hg; cases hg
        | some pe0 =>
          rw [hgj, Option.bind_some] at hg
          obtain ⟨h1, rfl⟩ := decEntry_some hg
          simp only; omega
      · exact (h.pool j pe hg).pos
  cnt j pe L hg hnd hL hm := by
    have hents : ∀ x, x ≠ r → t.db.ents x = s.db.ents x := by
      intro x hx
      rcases hd.db with h1 | h1
      · rw [h1]
      · exact h1.entsOther x hx
    have hm' : ∀ r' ∈ L, r' ≠ r ∧ s.has r' j = true := fun x hx => by
      rw [← St.has_ents (hents x (hm x hx).1)]; exact hm x hx
    rcases hd.db with hdb | hdb
    · rw [hdb] at hg; exact h.cnt hg hnd hL (fun x hx => (hm' x hx).2)
    · rw [hdb.pool] at hg
      split at hg
      · rename_i hl
        have hhr : s.has r j = true := by
          rcases (h.mem_listed r j).1 hl with h | hx
          · exact h
          · obtain ⟨e', hg', hi'⟩ := (h.hasDelta_iff r j).1 hx
            have := ((h.ent r _ e' hg').deltas j hi').1
            rw [hnd] at this; cases this
        cases hgj : s.db.pool.get j with
        | none => rw [hgj] at hg; cases hg
        | some pe0 =>
          rw [hgj, Option.bind_some] at hg
          obtain ⟨h1, rfl⟩ := decEntry_some hg
          have := h.cnt_other hgj hnd hhr hL hm'
          simp only; omega
      · exact h.cnt hg hnd hL (fun x hx => (hm' x hx).2)

/-- What every operation guarantees: no panic, the invariant afterwards, and at every durable intermediate
state every repository it does not remove from is whole. -/
structure OpSound (W : World) (o : Op) (out : Out Unit) : Prop where
  noPanic : out.res ≠ .panic
  inv : Inv W out.st
  served : ∀ t ∈ out.tr, Served W (fun r => o.removesFrom ≠ some r) t

theorem discard_run {α} (m : M α) (s : St) : ((discard m) s).st = (m s).st ∧ ((discard m) s).tr = (m s).tr ∧
    (((discard m) s).res = .panic ↔ (m s).res = .panic) := by
  unfold discard
  rw [bind_def]
  cases (m s).res <;> simp

theorem Served.all {t : St} {o : Op} (h : Served W (fun _ => True) t) :
    Served W (fun r => o.removesFrom ≠ some r) t := h.mono (fun _ _ => trivial)

theorem Op.sound (ok : W.OK) (h : Inv W s) (o : Op) (ho : o.Ok W) : OpSound W o (o.run W.E s) := by
  have errSame : ∀ {e : Err} {u : St} {tr : List St}, Inv W u → (∀ t ∈ tr, SameObs s t ∧ Inv W t) →
      OpSound W o (⟨.err e, u, tr⟩ : Out Unit) := fun hu ht =>
    ⟨by simp, hu, fun t h' => (ht t h').2.served ok _⟩
  cases o with
  | create r =>
    simp only [Op.run]
    by_cases hr : r ∈ s.db.repos.keys
    · obtain ⟨tr, hrun, ht⟩ := mCreateRepo_exists (W := W) h hr
      rw [hrun]; exact errSame (h.got hr) ht
    · cases hres : reservedKey r with
      | true => rw [mCreateRepo_reserved h hr hres]; exact errSame h (by simp)
      | false =>
        have := mCreateRepo_run ok h hr hres
        exact ⟨this.noPanic, this.inv, fun t ht => (this.served t ht).served ok _⟩
  | delete r =>
    simp only [Op.run, mDeleteRepo]
    by_cases hr : r ∈ s.db.repos.keys
    · obtain ⟨s', tr, hrun, hd, ht⟩ := deleteRepo_run ok (h.delReady hr)
      rw [hrun]
      refine ⟨by simp, hd.inv h, fun t h' => ((ht t h').served ok h).mono ?_⟩
      intro x hx e; exact hx (by rw [e]; rfl)
    · rw [deleteRepo_missing h hr]; exact errSame h (by simp)
  | clone a b f =>
    simp only [Op.run]
    by_cases ha : a ∈ s.db.repos.keys
    · by_cases hb : b ∈ s.db.repos.keys ∨ reservedKey b = true
      · obtain ⟨e, u, tr, hrun, _, hi, ht⟩ := mCloneRepo_bad (W := W) h ha hb f
        rw [hrun]; exact errSame hi ht
      · have hb1 : b ∉ s.db.repos.keys := fun x => hb (.inl x)
        have hb2 : reservedKey b = false := by
          cases hx : reservedKey b with
          | true => exact absurd (.inr hx) hb
          | false => rfl
        have := mCloneRepo_run ok h ha hb1 hb2 f
        exact ⟨this.noPanic, this.inv, fun t ht => (this.served t ht).all⟩
    · rw [mCloneRepo_missing h ha]; exact errSame h (by simp)
  | pull a b =>
    simp only [Op.run]
    obtain ⟨d1, d2, d3⟩ := discard_run (mPullRepo W.E a b) s
    have key : (mPullRepo W.E a b s).res ≠ .panic ∧ Inv W (mPullRepo W.E a b s).st ∧
        ∀ t ∈ (mPullRepo W.E a b s).tr, Served W (fun _ => True) t := by
      by_cases hk : a ∈ s.db.repos.keys ∧ b ∈ s.db.repos.keys
      · rcases mPullRepo_run ok h hk.1 hk.2 with ⟨_, hp⟩ | ⟨_, s', tr, hrun, _, hi, _, _, _, ht⟩
        · exact ⟨hp.noPanic, hp.job.inv, hp.served⟩
        · rw [hrun]; exact ⟨by simp, hi, ht⟩
      · have hk' : a ∉ s.db.repos.keys ∨ b ∉ s.db.repos.keys := by
          by_cases ha : a ∈ s.db.repos.keys
          · exact .inr fun hb => hk ⟨ha, hb⟩
          · exact .inl ha
        obtain ⟨u, tr, hrun, _, hi, ht⟩ := mPullRepo_missing (W := W) h hk'
        rw [hrun]; exact ⟨by simp, hi, fun t h' => (ht t h').2.served ok _⟩
    refine ⟨fun hx => key.1 (d3.1 hx), by rw [d1]; exact key.2.1, ?_⟩
    intro t ht; rw [d2] at ht; exact (key.2.2 t ht).all
  | removeSource r n k =>
    simp only [Op.run]
    by_cases hr : r ∈ s.db.repos.keys
    · rcases mRemoveSource_run ok h hr n k with ⟨_, hj⟩ | ⟨_, tr, hrun, ht⟩
      · refine ⟨hj.noPanic, hj.job.inv, fun t h' => (hj.served t h').mono ?_⟩
        intro x hx e; exact hx (by rw [e]; rfl)
      · rw [hrun]; exact errSame (h.got hr) ht
    · rw [mRemoveSource_missing h hr]; exact errSame h (by simp)
  | copySource a b n k sk =>
    simp only [Op.run]
    by_cases hk : a ∈ s.db.repos.keys ∧ b ∈ s.db.repos.keys
    · by_cases hne : (s.ids a).filter (W.matchesSrc n k) = []
      · obtain ⟨tr, hrun, ht⟩ := mCopySource_none ok h hk.1 hk.2 n k sk hne
        rw [hrun]; exact errSame ((h.got hk.1).got (by simpa using hk.2)) ht
      · obtain ⟨o, hrun, h1, h2, h3, _, _⟩ := mCopySource_run ok h hk.1 hk.2 n k sk hne
        rw [hrun]; exact ⟨h1, h3.inv, fun t ht => (h2 t ht).all⟩
    · have hk' : a ∉ s.db.repos.keys ∨ b ∉ s.db.repos.keys := by
        by_cases ha : a ∈ s.db.repos.keys
        · exact .inr fun hb => hk ⟨ha, hb⟩
        · exact .inl ha
      obtain ⟨u, tr, hrun, _, hi, ht⟩ := mCopySource_missing (W := W) h hk' n k sk
      rw [hrun]; exact errSame hi ht
  | trimObsolete r =>
    simp only [Op.run]
    by_cases hr : r ∈ s.db.repos.keys
    · by_cases hd : ∃ obs, W.distOf s r = some (some obs)
      · obtain ⟨obs, hd⟩ := hd
        have hj := mTrimObsolete_run ok h hr hd
        refine ⟨hj.noPanic, hj.job.inv, fun t h' => (hj.served t h').mono ?_⟩
        intro x hx e; exact hx (by rw [e]; rfl)
      · have hd' : W.distOf s r = none ∨ W.distOf s r = some none := by
          match hx : W.distOf s r with
          | none => exact .inl rfl
          | some none => exact .inr rfl
          | some (some obs) => exact absurd ⟨obs, hx⟩ hd
        obtain ⟨e, tr, hrun, ht⟩ := mTrimObsolete_err (W := W) h hr hd'
        rw [hrun]; exact errSame (h.got hr) ht
    · rw [mTrimObsolete_missing h hr]; exact errSame h (by simp)
  | trimPackages r k =>
    simp only [Op.run]
    by_cases hr : r ∈ s.db.repos.keys
    · by_cases hk : 1 ≤ k
      · have hj := mTrimPackages_run ok h hr k hk
        refine ⟨hj.noPanic, hj.job.inv, fun t h' => (hj.served t h').mono ?_⟩
        intro x hx e; exact hx (by rw [e]; rfl)
      · obtain ⟨tr, hrun, ht⟩ := mTrimPackages_small (W := W) h hr k (by omega)
        rw [hrun]; exact errSame (h.got hr) ht
    · rw [mTrimPackages_missing h hr]; exact errSame h (by simp)
  | addPackages r fs st =>
    simp only [Op.run]
    by_cases hr : r ∈ s.db.repos.keys
    · cases st with
      | false =>
        have := mAddPackages_run ok h hr fs ho
        obtain ⟨_, _, _, hj, _⟩ := this.spec
        exact ⟨this.noPanic, hj.inv, fun t ht => (this.served t ht).all⟩
      | true =>
        have := mAddPackagesStrict_run ok h hr fs ho
        obtain ⟨_, _, _, hj, _⟩ := this.spec
        exact ⟨this.noPanic, hj.inv, fun t ht => (this.served t ht).all⟩
    · rw [mAddPackages_missing h hr]; exact errSame h (by simp)
  | index r =>
    simp only [Op.run]
    by_cases hr : r ∈ s.db.repos.keys
    · have := mIndex_run ok h hr
      exact ⟨this.noPanic, this.inv, fun t ht => (this.tr t ht).2.served ok _⟩
    · rw [mIndex_missing h hr]; exact errSame h (by simp)
  | addDelta r d f t =>
    simp only [Op.run, mAddDelta]
    by_cases hr : r ∈ s.db.repos.keys
    · obtain ⟨t0, hg, ht0⟩ := getRepo_run h hr
      rcases addDelta_all (r := r) ok (h.got hr) ho.1 ho.2.1 ho.2.2 with ⟨⟨er, hrun⟩, _⟩ | ⟨s', tr, hrun, hD, _, _, ht⟩
      · rw [bind_ok hg, hrun]
        simp only [Out.pre_mk, List.append_nil]; exact errSame (h.got hr) ht0
      · rw [bind_ok hg, hrun]
        refine ⟨by simp, hD.inv, fun x hx => ?_⟩
        rcases List.mem_append.1 hx with hx | hx
        · exact (ht0 x hx).2.served ok _
        · exact (ht x hx).all
    · rw [bind_err (getRepo_missing h hr)]; exact errSame h (by simp)
  | refDelta r d =>
    simp only [Op.run, mRefDelta]
    by_cases hr : r ∈ s.db.repos.keys
    · obtain ⟨t0, hg, ht0⟩ := getRepo_run h hr
      rcases refDelta_all (r := r) ok (h.got hr) ho with ⟨hrun, _⟩ | ⟨s', tr, hrun, hD, _, _, ht⟩
      · rw [bind_ok hg, hrun]
        simp only [Out.pre_mk, List.append_nil]; exact errSame (h.got hr) ht0
      · rw [bind_ok hg, hrun]
        refine ⟨by simp, hD.inv, fun x hx => ?_⟩
        rcases List.mem_append.1 hx with hx | hx
        · exact (ht0 x hx).2.served ok _
        · exact (ht x hx).all
    · rw [bind_err (getRepo_missing h hr)]; exact errSame h (by simp)
  | markFailed i d =>
    simp only [Op.run]
    rcases markDeltaFailed_run s i d with ⟨hrun, _⟩ | hrun | ⟨s', hrun, rfl⟩
    · rw [hrun]; exact ⟨by simp, h, by simp⟩
    · rw [hrun]; exact errSame h (by simp)
    · rw [hrun]
      refine ⟨by simp, h.putSkip i d, ?_⟩
      intro t ht; simp only [List.mem_singleton] at ht; rw [ht]; exact (h.putSkip i d).served ok _
  | upload f c =>
    have hi : Inv W (s.putFile (.ext f) c) := inv_putFile h (.inl ⟨f, rfl⟩) (fun _ => ho)
    refine ⟨by simp [Op.run], hi, ?_⟩
    intro t ht; simp only [Op.run, stepM_run, List.mem_singleton] at ht; rw [ht]; exact hi.served ok _
  | unlink f =>
    refine ⟨by simp [Op.run], inv_unlink h f, ?_⟩
    intro t ht; simp only [Op.run, removeFile_run, List.mem_singleton] at ht; rw [ht]
    exact (inv_unlink h f).served ok _
  | putAsset r a c =>
    have hi : Inv W (s.putFile (.asset r a) c) :=
      inv_putFile h (.inr (.inl ⟨r, a, rfl⟩)) (fun hx => by simp [Path.isAsset] at hx)
    refine ⟨by simp [Op.run], hi, ?_⟩
    intro t ht; simp only [Op.run, stepM_run, List.mem_singleton] at ht; rw [ht]; exact hi.served ok _
  | stage r d c =>
    have hi : Inv W (s.putFile (.stage r d) c) :=
      inv_putFile h (.inr (.inr ⟨r, d, rfl⟩)) (fun _ => ho)
    refine ⟨by simp [Op.run], hi, ?_⟩
    intro t ht; simp only [Op.run, stepM_run, List.mem_singleton] at ht; rw [ht]; exact hi.served ok _
  | unstage r d =>
    have hi := inv_removed h (p := .stage r d) (.inr ⟨r, d, rfl⟩)
    refine ⟨by simp [Op.run], hi, ?_⟩
    intro t ht; simp only [Op.run, removeFile_run, List.mem_singleton] at ht; rw [ht]
    exact hi.served ok _
  | restart =>
    refine ⟨by simp [Op.run], inv_restart h, ?_⟩
    intro t ht; simp only [Op.run, stepM_run, List.mem_singleton] at ht; rw [ht]
    exact (inv_restart h).served ok _

theorem inv_runAll (ok : W.OK) (ops : List Op) (hops : ∀ o ∈ ops, o.Ok W) (h : Inv W s) :
    Inv W (runAll W.E s ops) := by
  induction ops generalizing s with
  | nil => exact h
  | cons o ops ih =>
    exact ih (fun o ho => hops o (List.mem_cons_of_mem _ ho)) (Op.sound ok h o (hops o List.mem_cons_self)).inv

theorem Reachable.inv (ok : W.OK) (h : Reachable W s) : Inv W s := by
  obtain ⟨ops, ho, rfl⟩ := h
  exact inv_runAll ok ops ho (inv_init W)

theorem Reachable.step (h : Reachable W s) (o : Op) (ho : o.Ok W) : Reachable W (o.exec W.E s) := by
  obtain ⟨ops, hops, rfl⟩ := h
  refine ⟨ops ++ [o], ?_, ?_⟩
  · intro x hx
    rcases List.mem_append.1 hx with hx | hx
    · exact hops x hx
    · simp only [List.mem_singleton] at hx; rw [hx]; exact ho
  · simp [runAll, List.foldl_append]

end Ferryd
