import Verif.PropsCrash
/-!
# Properties C31–C33, C67, C73, C75: delta packages and asset files
-/
namespace Ferryd
open Spec
variable {W : World} {s : St}

/-! ## C33: deltas recorded as impossible -/

/-- No operation but the one recording a failure touches the records of impossible deltas. -/
theorem Op.skip_eq (ok : W.OK) (h : Inv W s) (o : Op) (ho : o.Ok W) (hm : ∀ i d, o ≠ .markFailed i d) :
    (o.exec W.E s).db.skip = s.db.skip := by
  unfold Op.exec
  cases o with
  | create x =>
    simp only [Op.run]
    by_cases hk : x ∈ s.db.repos.keys
    · obtain ⟨tr, hrun, ht⟩ := mCreateRepo_exists (W := W) h hk
      rw [hrun]; exact congrArg DB.skip (SameObs.got s x).db
    · cases hres : reservedKey x with
      | true => rw [mCreateRepo_reserved h hk hres]
      | false =>
        have := mCreateRepo_run ok h hk hres
        exact this.frame.skip
  | delete x =>
    simp only [Op.run, mDeleteRepo]
    by_cases hk : x ∈ s.db.repos.keys
    · obtain ⟨s', tr, hrun, hd, ht⟩ := deleteRepo_run ok (h.delReady hk)
      rw [hrun]; exact hd.skip
    · rw [deleteRepo_missing h hk]
  | clone a b f =>
    simp only [Op.run]
    by_cases ha : a ∈ s.db.repos.keys
    · by_cases hb : b ∈ s.db.repos.keys ∨ reservedKey b = true
      · obtain ⟨e, u, tr, hrun, hso, hi, ht⟩ := mCloneRepo_bad (W := W) h ha hb f
        rw [hrun]; exact congrArg DB.skip hso.db
      · have hb1 : b ∉ s.db.repos.keys := fun x => hb (.inl x)
        have hb2 : reservedKey b = false := by
          cases hx : reservedKey b with
          | true => exact absurd (.inr hx) hb
          | false => rfl
        have := mCloneRepo_run ok h ha hb1 hb2 f
        exact this.frame.skip
    · rw [mCloneRepo_missing h ha]
  | pull a b =>
    simp only [Op.run]
    rw [(discard_run (mPullRepo W.E a b) s).1]
    by_cases hk : a ∈ s.db.repos.keys ∧ b ∈ s.db.repos.keys
    · rcases mPullRepo_run ok h hk.1 hk.2 with ⟨_, hp⟩ | ⟨_, s', tr, hrun, hdb, hi, hf, _, _, ht⟩
      · exact hp.job.frame.skip
      · rw [hrun]; exact congrArg DB.skip hdb
    · have hk' : a ∉ s.db.repos.keys ∨ b ∉ s.db.repos.keys := by
        by_cases ha : a ∈ s.db.repos.keys
        · exact .inr fun hb => hk ⟨ha, hb⟩
        · exact .inl ha
      obtain ⟨u, tr, hrun, hso, hi, ht⟩ := mPullRepo_missing (W := W) h hk'
      rw [hrun]; exact congrArg DB.skip hso.db
  | removeSource x n k =>
    simp only [Op.run]
    by_cases hk : x ∈ s.db.repos.keys
    · rcases mRemoveSource_run ok h hk n k with ⟨_, hj⟩ | ⟨_, tr, hrun, ht⟩
      · exact hj.job.frame.skip
      · rw [hrun]; exact congrArg DB.skip (SameObs.got s x).db
    · rw [mRemoveSource_missing h hk]
  | copySource a b n k sk =>
    simp only [Op.run]
    by_cases hk : a ∈ s.db.repos.keys ∧ b ∈ s.db.repos.keys
    · by_cases hne : (s.ids a).filter (W.matchesSrc n k) = []
      · obtain ⟨tr, hrun, ht⟩ := mCopySource_none ok h hk.1 hk.2 n k sk hne
        rw [hrun]; exact congrArg DB.skip ((SameObs.got s a).trans (SameObs.got _ b)).db
      · obtain ⟨o, hrun, h1, h2, h3, _, _⟩ := mCopySource_run ok h hk.1 hk.2 n k sk hne
        rw [hrun]; exact h3.frame.skip
    · have hk' : a ∉ s.db.repos.keys ∨ b ∉ s.db.repos.keys := by
        by_cases ha : a ∈ s.db.repos.keys
        · exact .inr fun hb => hk ⟨ha, hb⟩
        · exact .inl ha
      obtain ⟨u, tr, hrun, hso, hi, ht⟩ := mCopySource_missing (W := W) h hk' n k sk
      rw [hrun]; exact congrArg DB.skip hso.db
  | trimObsolete x =>
    simp only [Op.run]
    by_cases hk : x ∈ s.db.repos.keys
    · by_cases hd : ∃ obs, W.distOf s x = some (some obs)
      · obtain ⟨obs, hd⟩ := hd
        have hj := mTrimObsolete_run ok h hk hd
        exact hj.job.frame.skip
      · have hd' : W.distOf s x = none ∨ W.distOf s x = some none := by
          match hx : W.distOf s x with
          | none => exact .inl rfl
          | some none => exact .inr rfl
          | some (some obs) => exact absurd ⟨obs, hx⟩ hd
        obtain ⟨e, tr, hrun, ht⟩ := mTrimObsolete_err (W := W) h hk hd'
        rw [hrun]; exact congrArg DB.skip (SameObs.got s x).db
    · rw [mTrimObsolete_missing h hk]
  | trimPackages x k =>
    simp only [Op.run]
    by_cases hk : x ∈ s.db.repos.keys
    · by_cases hk1 : 1 ≤ k
      · have hj := mTrimPackages_run ok h hk k hk1
        exact hj.job.frame.skip
      · obtain ⟨tr, hrun, ht⟩ := mTrimPackages_small (W := W) h hk k (by omega)
        rw [hrun]; exact congrArg DB.skip (SameObs.got s x).db
    · rw [mTrimPackages_missing h hk]
  | addPackages x fs st =>
    simp only [Op.run]
    by_cases hk : x ∈ s.db.repos.keys
    · cases st with
      | false =>
        obtain ⟨_, _, _, hj, _⟩ := (mAddPackages_run ok h hk fs ho).spec
        exact hj.frame.skip
      | true =>
        obtain ⟨_, _, _, hj, _⟩ := (mAddPackagesStrict_run ok h hk fs ho).spec
        exact hj.frame.skip
    · rw [mAddPackages_missing h hk]
  | index x =>
    simp only [Op.run]
    by_cases hk : x ∈ s.db.repos.keys
    · have := mIndex_run ok h hk
      exact congrArg DB.skip this.neutral.db
    · rw [mIndex_missing h hk]
  | addDelta x d f t =>
    simp only [Op.run, mAddDelta]
    by_cases hk : x ∈ s.db.repos.keys
    · obtain ⟨t0, hg, ht0⟩ := getRepo_run h hk
      rcases addDelta_all (r := x) ok (h.got hk) ho.1 ho.2.1 ho.2.2 with ⟨⟨er, hrun⟩, _⟩ | ⟨s', tr, hrun, hD, _, _, ht⟩
      · rw [bind_ok hg, hrun]; exact congrArg DB.skip (SameObs.got s x).db
      · rw [bind_ok hg, hrun]
        exact ((got_frame W True s x).trans hD.frame).skip
    · rw [bind_err (getRepo_missing h hk)]
  | refDelta x d =>
    simp only [Op.run, mRefDelta]
    by_cases hk : x ∈ s.db.repos.keys
    · obtain ⟨t0, hg, ht0⟩ := getRepo_run h hk
      rcases refDelta_all (r := x) ok (h.got hk) ho with ⟨hrun, _⟩ | ⟨s', tr, hrun, hD, _, _, ht⟩
      · rw [bind_ok hg, hrun]; exact congrArg DB.skip (SameObs.got s x).db
      · rw [bind_ok hg, hrun]
        exact ((got_frame W True s x).trans hD.frame).skip
    · rw [bind_err (getRepo_missing h hk)]
  | markFailed i d => exact absurd rfl (hm i d)
  | upload f c => rfl
  | unlink f => simp only [Op.run, removeFile_run]; rfl
  | putAsset x a c => rfl
  | stage x d c => rfl
  | unstage x d => simp only [Op.run, removeFile_run]; rfl
  | restart => rfl

/-- The daemon reports the delta `d` as impossible (`GetDeltaFailed`, pool.go). -/
def Spec.MarkedFailed (s : St) (d : Str) : Prop := (getDeltaFailed d s).res = .ok true

theorem markedFailed_iff (s : St) (d : Str) : MarkedFailed s d ↔ (s.db.skip.get d).isSome = true := by
  show Res.ok (s.db.skip.get d).isSome = .ok true ↔ _
  simp

theorem Op.skip_mono (ok : W.OK) (h : Inv W s) (o : Op) (ho : o.Ok W) {d : Str} (hd : MarkedFailed s d) :
    MarkedFailed (o.exec W.E s) d := by
  rw [markedFailed_iff] at hd ⊢
  by_cases hm : ∃ i x, o = .markFailed i x
  · obtain ⟨i, x, rfl⟩ := hm
    unfold Op.exec
    simp only [Op.run]
    rcases markDeltaFailed_run s i x with ⟨hrun, _⟩ | hrun | ⟨s', hrun, rfl⟩
    · rw [hrun]; exact hd
    · rw [hrun]; exact hd
    · rw [hrun]
      show ((s.db.skip.put i x).get d).isSome = true
      rw [KV.get_put]
      split
      · rfl
      · exact hd
  · rw [o.skip_eq ok h ho (fun i x e => hm ⟨i, x, e⟩)]; exact hd

/-- C33: recording a delta as impossible succeeds for every unreserved name, and from then on it stays recorded through
every further history of operations, restarts included. -/
theorem C33_failed_delta_permanent (ok : W.OK) (h : Reachable W s) {d : Str} (hd : MarkedFailed s d)
    (ops : List Op) (hops : ∀ o ∈ ops, o.Ok W) : MarkedFailed (runAll W.E s ops) d := by
  induction ops generalizing s with
  | nil => exact hd
  | cons o ops ih =>
    exact ih (h.step o (hops o (by simp))) (o.skip_mono ok (h.inv ok) (hops o (by simp)) hd)
      (fun o ho => hops o (by simp [ho]))

/-- Recording a delta as impossible makes it reported as such. -/
theorem C33_mark_failed (s : St) (d : Str) (di : DeltaInfo) (hres : reservedKey d = false) :
    (markDeltaFailed d di s).res = .ok () ∧ MarkedFailed (markDeltaFailed d di s).st d := by
  rw [markedFailed_iff]
  rcases markDeltaFailed_run s d di with ⟨hrun, hs⟩ | hrun | ⟨s', hrun, rfl⟩
  · rw [hrun]; exact ⟨rfl, hs⟩
  · exfalso
    unfold markDeltaFailed at hrun
    simp only [getSt_bind] at hrun
    cases hg : s.db.skip.get d with
    | some x => rw [hg] at hrun; cases congrArg Out.res hrun
    | none =>
      rw [hg] at hrun
      simp only [dbWrite] at hrun
      rw [if_neg (by rw [show (DbWrite.putSkip d di).key = d from rfl, hres]; simp)] at hrun
      cases congrArg Out.res hrun
  · rw [hrun]
    refine ⟨rfl, ?_⟩
    show ((s.db.skip.put d di).get d).isSome = true
    rw [KV.get_put]; simp

/-- Non-vacuity of C33: a delta is recorded, and stays so after a restart and a trim. -/
example : let s := (markDeltaFailed (Demo.S "x.delta.eopkg") ⟨1, Demo.S "a-1.eopkg", 2, Demo.S "a-2.eopkg"⟩ Demo.st1).st
    MarkedFailed (runAll Demo.E s [.restart, .trimPackages (Demo.S "unstable") 1]) (Demo.S "x.delta.eopkg") := by
  unfold MarkedFailed; decide +kernel

/-! ## C31: importing keeps the deltas -/

/-- C31 at full strength: an import leaves every delta the repository lists listed. -/
def C31_statement : Prop := ∀ (W : World) (s : St), W.OK → Reachable W s → ∀ r, Repo s r →
  ∀ files, (∀ f ∈ files, W.isDelta (baseName f) = false) →
  ∀ d, HasDelta s r d → HasDelta (mAddPackages W.E r files false s).st r d

/-- C31 is false of the code: the entry rebuilt for a new package starts with an empty delta list
(repo.go:620-668). -/
theorem C31_violated : ¬ C31_statement := by
  intro hst
  have hd := hst Demo.W Demo.st5 Demo.ok Demo.reach5 (Demo.S "unstable") (by unfold Repo; decide +kernel)
    [Demo.S "/up/a-3.eopkg"] (by decide +kernel) (Demo.S "a-1-2.delta.eopkg")
    (((Demo.reach5.inv Demo.ok).spec_delta _ _).2 (by decide +kernel))
  have hi := (Demo.reach5.step (.addPackages (Demo.S "unstable") [Demo.S "/up/a-3.eopkg"] false)
    (show ∀ f ∈ [Demo.S "/up/a-3.eopkg"], Demo.W.isDelta (baseName f) = false by decide +kernel)).inv Demo.ok
  have := (hi.spec_delta _ _).1 hd
  revert this; decide +kernel

/-- C31, what holds: an import keeps every delta of every name for which it brings no package the repository does not list
already, and every delta of every other repository; and it never adds one. -/
theorem C31_import_deltas_partial (ok : W.OK) (h : Reachable W s) {r : Str} (hr : Repo s r) (files : List Str)
    (hf : ∀ f ∈ files, W.isDelta (baseName f) = false) (strict : Bool) :
    let s' := (mAddPackages W.E r files strict s).st
    (∀ d, HasDelta s r d → (∀ f ∈ files, nameOf W (baseName f) = nameOf W d → Has s r (baseName f)) → HasDelta s' r d) ∧
    (∀ x d, HasDelta s' x d → HasDelta s x d) ∧ (∀ x d, x ≠ r → (HasDelta s' x d ↔ HasDelta s x d)) := by
  have hi := h.inv ok
  have key : ∃ done rest, files = done ++ rest ∧
      AddedJob W s (mAddPackages W.E r files strict s).st r (done.map baseName) := by
    cases strict with
    | false =>
      obtain ⟨done, rest, h1, h2, _⟩ := (mAddPackages_run ok hi hr files hf).spec
      exact ⟨done, rest, h1, h2⟩
    | true =>
      obtain ⟨done, rest, h1, h2, _⟩ := (mAddPackagesStrict_run ok hi hr files hf).spec
      exact ⟨done, rest, h1, h2⟩
  obtain ⟨done, rest, hsp, ha⟩ := key
  intro s'
  have hi' : Inv W s' := ha.inv
  refine ⟨?_, ?_, ?_⟩
  · rintro d ⟨n, e, hg, hd⟩ hold
    have hn : nameOf W d = n := ((hi.ent r n e hg).deltas d hd).2.2
    refine ⟨n, e, ?_, hd⟩
    rw [show (s'.db.ents r).get n = _ from ha.names n ?_]
    · exact hg
    · intro j hj hjn
      obtain ⟨f, hfd, rfl⟩ := List.mem_map.1 hj
      exact (hi.spec_has r _).1 (hold f (by rw [hsp]; simp [hfd]) (by rw [hn]; exact hjn))
  · intro x d hd
    exact (hi.spec_delta x d).2 (ha.hasDelta x d ((hi'.spec_delta x d).1 hd))
  · intro x d hx
    unfold HasDelta
    rw [ha.frame.ents x hx]

/-! ## C75: delta references -/

/-- C75 at full strength: the pool's count of a delta package is the number of repositories listing it. -/
def C75_statement : Prop := ∀ (W : World) (s : St), W.OK → Reachable W s → ∀ d k, W.isDelta d = true → Count s d k →
  ∃ L, Enumerates L (fun r => Repo s r ∧ HasDelta s r d) ∧ L.length = k

/-- C75 is false of the code: the delta forgotten by an import (C31) keeps its reference, pool entry and files for ever. -/
theorem C75_violated : ¬ C75_statement := by
  intro hst
  have hr := Demo.reach5.step (.addPackages (Demo.S "unstable") [Demo.S "/up/a-3.eopkg"] false)
    (show ∀ f ∈ [Demo.S "/up/a-3.eopkg"], Demo.W.isDelta (baseName f) = false by decide +kernel)
  have hi := hr.inv Demo.ok
  have hc : ∃ pe, ((Op.addPackages (Demo.S "unstable") [Demo.S "/up/a-3.eopkg"] false).exec Demo.W.E Demo.st5).db.pool.get
      (Demo.S "a-1-2.delta.eopkg") = some pe ∧ pe.refCount = 1 := by
    have : (((Op.addPackages (Demo.S "unstable") [Demo.S "/up/a-3.eopkg"] false).exec Demo.W.E Demo.st5).db.pool.get
      (Demo.S "a-1-2.delta.eopkg")).map PoolEntry.refCount = some 1 := by decide +kernel
    rw [Option.map_eq_some_iff] at this; exact this
  obtain ⟨L, ⟨_, hL⟩, hlen⟩ := hst Demo.W _ Demo.ok hr (Demo.S "a-1-2.delta.eopkg") 1 (by decide +kernel) hc
  cases L with
  | nil => cases hlen
  | cons x l =>
    obtain ⟨hx, hd⟩ := (hL x).1 (by simp)
    have h1 := (hi.spec_delta _ _).1 hd
    have hk : ∀ x ∈ ((Op.addPackages (Demo.S "unstable") [Demo.S "/up/a-3.eopkg"] false).exec Demo.W.E Demo.st5).db.repos.keys,
      ((Op.addPackages (Demo.S "unstable") [Demo.S "/up/a-3.eopkg"] false).exec Demo.W.E Demo.st5).hasDelta x
        (Demo.S "a-1-2.delta.eopkg") = false := by decide +kernel
    rw [show _ = false from hk x hx] at h1; cases h1

/-- C75, what holds: the count never falls below the number of repositories listing the delta, so no delta a repository lists
is ever removed from the pool. -/
theorem C75_delta_refs_partial (ok : W.OK) (h : Reachable W s) {d : Str} (hd : W.isDelta d = true) :
    (∀ k, Count s d k → ∃ L, Enumerates L (fun r => Repo s r ∧ HasDelta s r d) ∧ L.length ≤ k) ∧
    (∀ r, HasDelta s r d → InPool s d) := by
  refine ⟨fun k hk => C01_delta_refcount_ge ok h hd hk, ?_⟩
  rintro r ⟨n, e, hg, hm⟩
  exact (((h.inv ok).ent r n e hg).deltas d hm).2.1

/-! ## C32: removing a package removes its deltas -/

/-- What a removing job (other than deleting the repository) did. -/
theorem Op.removed (ok : W.OK) (h : Inv W s) (o : Op) {r : Str} (hrem : o.removesFrom = some r)
    (hd : ∀ x, o ≠ .delete x) :
    ∃ ids, (∀ id ∈ ids, s.has r id = true) ∧ RemovedJob W s (o.exec W.E s) r ids := by
  have same : ∀ u, u.db = s.db → Inv W u → Neutral s u r →
      ∃ ids, (∀ id ∈ ids, s.has r id = true) ∧ RemovedJob W s u r ids := fun u hu hi hn =>
    ⟨[], by simp, ((RemovedAll.nil h r).job).post hn hi⟩
  unfold Op.exec
  cases o <;> simp only [Op.removesFrom, reduceCtorEq, Option.some.injEq] at hrem <;> subst hrem <;> simp only [Op.run]
  case delete x => exact absurd rfl (hd x)
  case removeSource x n k =>
    by_cases hk : x ∈ s.db.repos.keys
    · rcases mRemoveSource_run ok h hk n k with ⟨_, hj⟩ | ⟨_, tr, hrun, ht⟩
      · refine ⟨_, ?_, hj.job⟩
        intro id hid
        exact (h.mem_ids x id).1 (List.mem_filter.1 hid).1
      · rw [hrun]; exact same _ (by simp) (h.got hk) (neutral_got s x)
    · rw [mRemoveSource_missing h hk]; exact same _ rfl h (Neutral.refl s x)
  case trimObsolete x =>
    by_cases hk : x ∈ s.db.repos.keys
    · by_cases hd : ∃ obs, W.distOf s x = some (some obs)
      · obtain ⟨obs, hd⟩ := hd
        refine ⟨_, ?_, (mTrimObsolete_run ok h hk hd).job⟩
        intro id hid
        unfold World.obsAll at hid
        rw [mem_flat h] at hid
        obtain ⟨n, e, hg, hid⟩ := hid
        exact (St.has_iff (h.wfEnts x) id).2 ⟨n, e, hg, ((obsIds_sub W obs _ _).1 id hid).1⟩
      · have hd' : W.distOf s x = none ∨ W.distOf s x = some none := by
          match hx : W.distOf s x with
          | none => exact .inl rfl
          | some none => exact .inr rfl
          | some (some obs) => exact absurd ⟨obs, hx⟩ hd
        obtain ⟨e, tr, hrun, ht⟩ := mTrimObsolete_err (W := W) h hk hd'
        rw [hrun]; exact same _ (by simp) (h.got hk) (neutral_got s x)
    · rw [mTrimObsolete_missing h hk]; exact same _ rfl h (Neutral.refl s x)
  case trimPackages x k =>
    by_cases hk : x ∈ s.db.repos.keys
    · by_cases hk1 : 1 ≤ k
      · refine ⟨_, ?_, (mTrimPackages_run ok h hk k hk1).job⟩
        intro id hid
        unfold World.trimAll at hid
        rw [mem_flat h] at hid
        obtain ⟨n, e, hg, hid⟩ := hid
        exact (St.has_iff (h.wfEnts x) id).2 ⟨n, e, hg, (trimIds_sub ok h _ hg).1 id hid⟩
      · obtain ⟨tr, hrun, ht⟩ := mTrimPackages_small (W := W) h hk k (by omega)
        rw [hrun]; exact same _ (by simp) (h.got hk) (neutral_got s x)
    · rw [mTrimPackages_missing h hk]; exact same _ rfl h (Neutral.refl s x)

/-- C32: after a job that removes packages from a repository (remove-source, either trim), no delta from or to a removed package is
listed there; deltas whose packages both were not removed stay listed as long as the package name has any package
left; and no delta is added. -/
theorem C32_delta_gc (ok : W.OK) (h : Reachable W s) (o : Op) {r : Str} (hrem : o.removesFrom = some r)
    (hd : ∀ x, o ≠ .delete x) :
    let s' := o.exec W.E s
    let Removed : Str → Prop := fun id => Has s r id ∧ ¬ Has s' r id
    (∀ d, HasDelta s' r d → HasDelta s r d ∧ ∀ pe di, s.db.pool.get d = some pe → pe.delta = some di →
      ¬ Removed di.fromID ∧ ¬ Removed di.toID) ∧
    (∀ d pe di, HasDelta s r d → s.db.pool.get d = some pe → pe.delta = some di →
      ¬ Removed di.fromID → ¬ Removed di.toID → (∃ id, Lists s' r (nameOf W d) id) → HasDelta s' r d) := by
  have hi := h.inv ok
  obtain ⟨ids, hids, hj⟩ := o.removed ok hi hrem hd
  intro s' Removed
  have hi' : Inv W s' := hj.inv
  have hremoved : ∀ id, Removed id ↔ id ∈ ids := by
    intro id
    show Has s r id ∧ ¬ Has s' r id ↔ _
    rw [hi.spec_has, hi'.spec_has, show (s'.has r id = true ↔ _) from hj.has r id]
    constructor
    · rintro ⟨h1, h2⟩
      by_cases hx : id ∈ ids
      · exact hx
      · exact absurd ⟨h1, fun hc => hx hc.2⟩ h2
    · intro hx
      exact ⟨hids id hx, fun hc => hc.2 ⟨rfl, hx⟩⟩
  constructor
  · intro d hdd
    obtain ⟨h1, h2⟩ := hj.hasDelta d ((hi'.spec_delta r d).1 hdd)
    refine ⟨(hi.spec_delta r d).2 h1, ?_⟩
    intro pe di hg hdi
    constructor <;> intro hc <;> have := h2 _ ((hremoved _).1 hc) <;>
      simp [gcDelta, hg, hdi] at this
  · intro d pe di hdd hg hdi h1 h2 hex
    obtain ⟨id, hid⟩ := hex
    refine (hi'.spec_delta r d).2 (hj.keepDelta d ((hi.spec_delta r d).1 hdd) ?_ ?_)
    · intro x hx
      cases hgc : gcDelta s.db.pool x d with
      | false => rfl
      | true =>
        simp only [gcDelta, hg, hdi, decide_eq_true_eq] at hgc
        rcases hgc with rfl | rfl
        · exact absurd ((hremoved _).2 hx) h1
        · exact absurd ((hremoved _).2 hx) h2
    · obtain ⟨h3, h4⟩ := (hi'.lists_iff r _ id).1 hid
      exact ⟨id, h3, h4⟩

/-- Non-vacuity of C32: trimming the demo repository to its tips removes `a-1` and with it the delta from `a-1` to `a-2`. -/
example : Demo.st5.hasDelta (Demo.S "unstable") (Demo.S "a-1-2.delta.eopkg") = true ∧
    ((Op.trimPackages (Demo.S "unstable") 1).exec Demo.E Demo.st5).hasDelta (Demo.S "unstable")
      (Demo.S "a-1-2.delta.eopkg") = false ∧
    ((Op.trimPackages (Demo.S "unstable") 1).exec Demo.E Demo.st5).db.pool.get (Demo.S "a-1-2.delta.eopkg") = none := by
  decide +kernel

/-! ## C73: listed deltas are served -/

/-- C73 at full strength: every delta a repository lists is served with the bytes its pool entry describes. -/
def C73_statement : Prop := ∀ (W : World) (s : St), W.OK → Reachable W s → ∀ r d, HasDelta s r d →
  ∃ c pe, ServedAs W s r d c ∧ s.db.pool.get d = some pe ∧ pe.pkg.hash = W.E.sha1 c ∧ pe.pkg.size = c.length

/-- C73 is false of the code: a delta forgotten by an import (C31) leaves its served file behind; when a later delta job references it
again, linking fails as the file exists, and the fallback copies the file onto itself, emptying it (and the pool's). -/
theorem C73_violated : ¬ C73_statement := by
  intro hst
  have hr := (Demo.reach5.step (.addPackages (Demo.S "unstable") [Demo.S "/up/a-3.eopkg"] false)
    (show ∀ f ∈ [Demo.S "/up/a-3.eopkg"], Demo.W.isDelta (baseName f) = false by decide +kernel)).step
    (.refDelta (Demo.S "unstable") (Demo.S "a-1-2.delta.eopkg"))
    (show Demo.W.isDelta (Demo.S "a-1-2.delta.eopkg") = true by decide +kernel)
  have hi := hr.inv Demo.ok
  obtain ⟨c, pe, ⟨d, hd, hread⟩, hpe, _, hsize⟩ := hst Demo.W _ Demo.ok hr (Demo.S "unstable") (Demo.S "a-1-2.delta.eopkg")
    ((hi.spec_delta _ _).2 (by decide +kernel))
  have hd' : dirOf Demo.W (Demo.S "a-1-2.delta.eopkg") = some (Demo.S "a/a") := by decide +kernel
  rw [hd'] at hd; cases hd
  have hc : ((Op.refDelta (Demo.S "unstable") (Demo.S "a-1-2.delta.eopkg")).exec Demo.W.E
    ((Op.addPackages (Demo.S "unstable") [Demo.S "/up/a-3.eopkg"] false).exec Demo.W.E Demo.st5)).fs.read
    (.repo (Demo.S "unstable") (Demo.S "a/a") (Demo.S "a-1-2.delta.eopkg")) = some [] := by decide +kernel
  rw [show _ = some [] from hc] at hread
  cases hread
  have hs : (((Op.refDelta (Demo.S "unstable") (Demo.S "a-1-2.delta.eopkg")).exec Demo.W.E
    ((Op.addPackages (Demo.S "unstable") [Demo.S "/up/a-3.eopkg"] false).exec Demo.W.E Demo.st5)).db.pool.get
    (Demo.S "a-1-2.delta.eopkg")).map (fun pe => pe.pkg.size) = some 1 := by decide +kernel
  rw [show _ = some pe from hpe] at hs
  simp only [Option.map_some, Option.some.injEq] at hs
  rw [hs] at hsize; cases hsize

/-- C73, what holds: the delta is in the pool and a file is served for it at the location the index gives. -/
theorem C73_delta_file_partial (ok : W.OK) (h : Reachable W s) {r d : Str} (hd : HasDelta s r d) :
    InPool s d ∧ ∃ c, ServedAs W s r d c := by
  have hi := h.inv ok
  obtain ⟨n, e, hg, hm⟩ := id hd
  obtain ⟨hx, ⟨pe, hpe⟩, _⟩ := (hi.ent r n e hg).deltas d hm
  refine ⟨⟨pe, hpe⟩, ?_⟩
  obtain ⟨c, hc⟩ := ok.comp (hi.pool d pe hpe).isPkg
  have := hi.dFile r d c ((hi.spec_delta r d).1 hd) hc
  obtain ⟨i, hti⟩ := Option.isSome_iff_exists.1 this
  exact ⟨_, c, hc, by unfold FS.read; rw [hti]; rfl⟩

/-! ## C67: asset files -/

/-- C67 at full strength: a pull leaves each asset file of the target with the source's content (if the source has one), and the
source's asset files as they were. -/
def C67_statement : Prop := ∀ (W : World) (s : St), W.OK → Reachable W s → ∀ src dst, Repo s src → Repo s dst →
  ∀ a c, s.fs.read (.asset src a) = some c →
    (mPullRepo W.E src dst s).st.fs.read (.asset dst a) = some c ∧
    (mPullRepo W.E src dst s).st.fs.read (.asset src a) = some c

/-- C67 is false of the code when a repository is pulled into itself: nothing forbids it, and each asset file is copied onto itself,
which empties it (util.go:37-64 opens the target with truncation before reading). -/
theorem C67_violated : ¬ C67_statement := by
  intro hst
  have h := (hst Demo.W Demo.st4 Demo.ok Demo.reach4 (Demo.S "unstable") (Demo.S "unstable") (by unfold Repo; decide +kernel)
    (by unfold Repo; decide +kernel) .distribution [100] (by decide +kernel)).1
  revert h; decide +kernel

/-- C67, what holds: between two different repositories, a pull that finds no downgrade copies every asset file of the source
completely and leaves the source's alone; files the source lacks stay as they were. -/
theorem C67_pull_assets_partial (ok : W.OK) (h : Reachable W s) {src dst : Str} (hs : Repo s src) (hd : Repo s dst)
    (hne : src ≠ dst) (hnew : ¬ Newer W s dst src) (a : Asset) :
    (mPullRepo W.E src dst s).st.fs.read (.asset src a) = s.fs.read (.asset src a) ∧
    (∀ c, s.fs.read (.asset src a) = some c → (mPullRepo W.E src dst s).st.fs.read (.asset dst a) = some c) ∧
    (s.fs.read (.asset src a) = none →
      (mPullRepo W.E src dst s).st.fs.read (.asset dst a) = s.fs.read (.asset dst a)) := by
  have hi := h.inv ok
  rcases mPullRepo_run ok hi hs hd with ⟨_, hp⟩ | ⟨hc, _⟩
  · have ha := hp.assets hne.symm a
    refine ⟨?_, ?_, ?_⟩
    · exact hp.job.frame.read _ (by simp [Path.inRepo, hne]) rfl (fun hf => hf.elim)
    · intro c hc; rw [ha, hc]
    · intro hc; rw [ha, hc]
  · exact absurd ((newer_iff W s dst src).2 hc) hnew

/-- Non-vacuity of C67: the distribution file reaches the target. -/
example : let s := runAll Demo.E Demo.st4 [.create (Demo.S "two")]
    (mPullRepo Demo.E (Demo.S "unstable") (Demo.S "two") s).st.fs.read (.asset (Demo.S "two") .distribution) = some [100] := by
  decide +kernel

end Ferryd
