import Verif.CoreRemove
/-! # CoreRepo: getting, creating and deleting repositories -/
namespace Ferryd

theorem St.has_congr {s s' : St} (h : s'.db = s.db) : s'.has = s.has := by
  unfold St.has; rw [h]
theorem St.hasDelta_congr {s s' : St} (h : s'.db = s.db) : s'.hasDelta = s.hasDelta := by
  unfold St.hasDelta; rw [h]
theorem St.holders_congr {s s' : St} (h : s'.db = s.db) : s'.holders = s.holders := by
  unfold St.holders St.has; rw [h]
theorem St.dholders_congr {s s' : St} (h : s'.db = s.db) : s'.dholders = s.dholders := by
  unfold St.dholders St.hasDelta; rw [h]

theorem EntOk.congr {W : World} {s s' : St} {n : Str} {e : RepoEntry} (h : EntOk W s n e)
    (hp : s'.db.pool = s.db.pool) : EntOk W s' n e :=
  { h with
    avail := by rw [hp]; exact h.avail
    deltas := by rw [hp]; exact h.deltas }

theorem PoolOk.congr {W : World} {s s' : St} {id : Str} {pe : PoolEntry} (h : PoolOk W s id pe)
    (hd : s'.db = s.db) : PoolOk W s' id pe :=
  { h with
    count := by rw [St.holders_congr hd]; exact h.count
    dcount := by rw [St.dholders_congr hd]; exact h.dcount }

/-- The invariant does not depend on cache, clock, published index, and hardly on directories. -/
theorem Inv.vol {W : World} {s s' : St} (h : Inv W s) (hdb : s'.db = s.db) (htab : s'.fs.tab = s.fs.tab)
    (hdata : s'.fs.data = s.fs.data) (hnext : s'.fs.next = s.fs.next) (hpend : s'.pend = [])
    (hcache : ∀ r ∈ s'.cache, r ∈ s.db.repos.keys)
    (hrdir : ∀ r, s'.fs.rdir r = true → r ∈ s.db.repos.keys) : Inv W s' where
  wfPool := by rw [hdb]; exact h.wfPool
  wfSkip := by rw [hdb]; exact h.wfSkip
  wfRepos := by rw [hdb]; exact h.wfRepos
  wfEnts := by rw [hdb]; exact h.wfEnts
  noEnts := by rw [hdb]; exact h.noEnts
  cache := by rw [hdb]; exact hcache
  rdir := by rw [hdb]; exact hrdir
  repoRes := by rw [hdb]; exact h.repoRes
  pend := hpend
  ent := by
    intro r n e hg
    rw [hdb] at hg
    exact (h.ent r n e hg).congr (by rw [hdb])
  pool := by
    intro id pe hg
    rw [hdb] at hg
    exact (h.pool id pe hg).congr hdb
  fs := by
    refine h.fs.removed hdata hnext ?_
    intro p i hp; rw [htab] at hp; exact hp
  poolFile := by rw [hdb, htab]; exact h.poolFile
  repoFile := by rw [St.has_congr hdb, htab]; exact h.repoFile
  dFile := by rw [St.hasDelta_congr hdb, htab]; exact h.dFile
  noOrphan := by rw [hdb, htab]; exact h.noOrphan

/-! ## getRepo / createRepo -/

/-- The state after a successful GetRepo. -/
def St.got (s : St) (r : Str) : St :=
  if r ∈ s.cache then s
  else { s with
    cache := r :: s.cache
    fs := { s.fs with rdir := fun r' => if r' = r then true else s.fs.rdir r' } }

@[simp] theorem St.got_db (s : St) (r : Str) : (s.got r).db = s.db := by unfold St.got; split <;> rfl
@[simp] theorem St.got_pend (s : St) (r : Str) : (s.got r).pend = s.pend := by unfold St.got; split <;> rfl
@[simp] theorem St.got_clock (s : St) (r : Str) : (s.got r).clock = s.clock := by unfold St.got; split <;> rfl
@[simp] theorem St.got_tab (s : St) (r : Str) : (s.got r).fs.tab = s.fs.tab := by unfold St.got; split <;> rfl
@[simp] theorem St.got_data (s : St) (r : Str) : (s.got r).fs.data = s.fs.data := by unfold St.got; split <;> rfl
@[simp] theorem St.got_next (s : St) (r : Str) : (s.got r).fs.next = s.fs.next := by unfold St.got; split <;> rfl
@[simp] theorem St.got_idx (s : St) (r : Str) : (s.got r).fs.idx = s.fs.idx := by unfold St.got; split <;> rfl
@[simp] theorem St.got_read (s : St) (r : Str) : (s.got r).fs.read = s.fs.read := by
  funext p; simp [FS.read]
theorem St.got_rdir_le (s : St) (r r' : Str) (h : (s.got r).fs.rdir r' = true) :
    r' = r ∨ s.fs.rdir r' = true := by
  unfold St.got at h
  split at h
  · exact Or.inr h
  · simp only at h; split at h
    · left; assumption
    · exact Or.inr h
theorem St.got_cache_le (s : St) (r r' : Str) (h : r' ∈ (s.got r).cache) : r' = r ∨ r' ∈ s.cache := by
  unfold St.got at h
  split at h
  · exact Or.inr h
  · simpa using h
theorem St.got_cache (s : St) (r : Str) : r ∈ (s.got r).cache := by
  unfold St.got
  split
  · assumption
  · simp
theorem St.got_cache_ge (s : St) (r r' : Str) (h : r' ∈ s.cache) : r' ∈ (s.got r).cache := by
  unfold St.got
  split
  · assumption
  · simp [h]
theorem St.got_got (s : St) (r : Str) : (s.got r).got r = s.got r := by
  rw [St.got, if_pos (s.got_cache r)]

/-- Observable equality: same database, same files, same published indexes (cache, clock and the
existence of empty base directories aside). -/
structure SameObs (s t : St) : Prop where
  db : t.db = s.db
  tab : t.fs.tab = s.fs.tab
  data : t.fs.data = s.fs.data
  next : t.fs.next = s.fs.next
  idx : t.fs.idx = s.fs.idx

theorem SameObs.refl (s : St) : SameObs s s := ⟨rfl, rfl, rfl, rfl, rfl⟩
theorem SameObs.symm {s t : St} (h : SameObs s t) : SameObs t s :=
  ⟨h.db.symm, h.tab.symm, h.data.symm, h.next.symm, h.idx.symm⟩
theorem SameObs.trans {s t u : St} (h : SameObs s t) (k : SameObs t u) : SameObs s u :=
  ⟨k.db.trans h.db, k.tab.trans h.tab, k.data.trans h.data, k.next.trans h.next, k.idx.trans h.idx⟩
theorem SameObs.got (s : St) (r : Str) : SameObs s (s.got r) := ⟨by simp, by simp, by simp, by simp, by simp⟩
theorem SameObs.read {s t : St} (h : SameObs s t) : t.fs.read = s.fs.read := by
  funext p; unfold FS.read; rw [h.tab, h.data]

theorem KV.mem_keys_get {α : Type} {m : KV α} {k : Str} : k ∈ m.keys ↔ ∃ v, m.get k = some v := by
  rw [KV.mem_keys_iff]

theorem getRepo_run {W : World} {s : St} {r : Str} (h : Inv W s) (hr : r ∈ s.db.repos.keys) :
    ∃ tr, getRepo r s = ⟨.ok (), s.got r, tr⟩ ∧ ∀ t ∈ tr, SameObs s t ∧ Inv W t := by
  unfold getRepo
  simp only [getSt_bind]
  by_cases hc : r ∈ s.cache
  · exact ⟨[], by simp [hc, St.got], by simp⟩
  · obtain ⟨u, hu⟩ := KV.mem_keys_get.1 hr
    simp only [hc, if_false, hu]
    refine ⟨[s.setFs { s.fs with rdir := fun r' => if r' = r then true else s.fs.rdir r' }], ?_, ?_⟩
    · simp [bakeRepo, St.got, hc, St.setFs]
    · intro t ht
      simp only [List.mem_singleton] at ht
      subst ht
      refine ⟨⟨rfl, rfl, rfl, rfl, rfl⟩, h.vol rfl rfl rfl rfl h.pend h.cache ?_⟩
      intro r' hr'
      simp only [St.setFs_fs] at hr'
      split at hr'
      · rename_i e; rw [e]; exact hr
      · exact h.rdir r' hr'

theorem getRepo_missing {W : World} {s : St} {r : Str} (h : Inv W s) (hr : r ∉ s.db.repos.keys) :
    getRepo r s = ⟨.err .notFound, s, []⟩ := by
  unfold getRepo
  have hc : r ∉ s.cache := fun hx => hr (h.cache r hx)
  have hg : s.db.repos.get r = none := by
    cases hx : s.db.repos.get r with
    | none => rfl
    | some u => exact absurd (KV.mem_keys_get.2 ⟨u, hx⟩) hr
  simp [hc, hg]

theorem Inv.got {W : World} {s : St} {r : Str} (h : Inv W s) (hr : r ∈ s.db.repos.keys) :
    Inv W (s.got r) := by
  refine h.vol (by simp) (by simp) (by simp) (by simp) (by simp [h.pend]) ?_ ?_
  · intro r' hr'
    rcases s.got_cache_le r r' hr' with rfl | hx
    · exact hr
    · exact h.cache r' hx
  · intro r' hr'
    rcases s.got_rdir_le r r' hr' with rfl | hx
    · exact hr
    · exact h.rdir r' hx

/-- The state after a successful CreateRepo. -/
def St.created (s : St) (r : Str) : St :=
  { s with
    db := { s.db with repos := s.db.repos.put r () }
    cache := r :: s.cache
    fs := { s.fs with rdir := fun r' => if r' = r then true else s.fs.rdir r' } }

/-- States after each durable step of CreateRepo. -/
theorem createRepo_run {W : World} {s : St} {r : Str} (h : Inv W s) (hr : r ∉ s.db.repos.keys)
    (hd : s.fs.rdir r = false) (hres : reservedKey r = false) :
    createRepo r s = ⟨.ok (), s.created r,
      [{ s with db := { s.db with repos := s.db.repos.put r () } },
       { s with
          db := { s.db with repos := s.db.repos.put r () }
          fs := { s.fs with rdir := fun r' => if r' = r then true else s.fs.rdir r' } }]⟩ := by
  have hw : reservedKey (DbWrite.putRepo r).key = false := hres
  unfold createRepo
  simp only [getSt_bind, getRepo_missing h hr, hd, Bool.false_eq_true, if_false]
  rw [bind_ok (dbWrite_direct hw s)]
  simp [bakeRepo, St.created, St.setFs, DbWrite.apply]

theorem createRepo_exists {W : World} {s : St} {r : Str} (h : Inv W s) (hr : r ∈ s.db.repos.keys) :
    ∃ tr, createRepo r s = ⟨.err .exists_, s.got r, tr⟩ ∧ ∀ t ∈ tr, SameObs s t ∧ Inv W t := by
  obtain ⟨tr, hg, htr⟩ := getRepo_run h hr
  refine ⟨tr, ?_, htr⟩
  unfold createRepo
  simp only [getSt_bind]
  rw [hg]
  simp only
  rw [bind_ok hg]; simp

theorem createRepo_artifacts {W : World} {s : St} {r : Str} (h : Inv W s) (hr : r ∉ s.db.repos.keys)
    (hd : s.fs.rdir r = true) : createRepo r s = ⟨.err .artifacts, s, []⟩ := by
  unfold createRepo
  simp only [getSt_bind, getRepo_missing h hr, hd, if_true, throwE_run]

theorem createRepo_reserved {W : World} {s : St} {r : Str} (h : Inv W s) (hr : r ∉ s.db.repos.keys)
    (hd : s.fs.rdir r = false) (hres : reservedKey r = true) :
    createRepo r s = ⟨.err .reserved, s, []⟩ := by
  unfold createRepo
  simp only [getSt_bind, getRepo_missing h hr, hd, Bool.false_eq_true, if_false]
  have : dbWrite .direct (.putRepo r) s = ⟨.err .reserved, s, []⟩ := by
    unfold dbWrite
    have : reservedKey (DbWrite.putRepo r).key = true := hres
    rw [if_pos this]; rfl
  rw [bind_err this]

/-- Adding an empty repository to the database keeps the invariant. -/
theorem Inv.putRepo {W : World} {s s' : St} {r : Str} (h : Inv W s) (hr : r ∉ s.db.repos.keys)
    (hres : reservedKey r = false) (hdb : s'.db = { s.db with repos := s.db.repos.put r () })
    (htab : s'.fs.tab = s.fs.tab) (hdata : s'.fs.data = s.fs.data) (hnext : s'.fs.next = s.fs.next)
    (hpend : s'.pend = []) (hcache : ∀ r' ∈ s'.cache, r' = r ∨ r' ∈ s.cache)
    (hrdir : ∀ r', s'.fs.rdir r' = true → r' = r ∨ s.fs.rdir r' = true) : Inv W s' := by
  have hhas : s'.has = s.has := by unfold St.has; rw [hdb]
  have hhd : s'.hasDelta = s.hasDelta := by unfold St.hasDelta; rw [hdb]
  have hk : ∀ x, x ∈ s'.db.repos.keys ↔ x = r ∨ x ∈ s.db.repos.keys := by
    intro x; rw [hdb]; exact KV.mem_keys_put _ _ _ _
  have hperm : s'.db.repos.keys.Perm (r :: s.db.repos.keys) := by
    have h1 : s'.db.repos.keys.Nodup := by rw [hdb]; exact (h.wfRepos.put _ _).nodup_keys
    have h2 : (r :: s.db.repos.keys).Nodup := List.nodup_cons.2 ⟨hr, h.wfRepos.nodup_keys⟩
    rw [List.perm_ext_iff_of_nodup h1 h2]
    intro a; rw [hk, List.mem_cons]
  have hrno : ∀ id, s.has r id = false := by
    intro id; rw [Bool.eq_false_iff]; intro hx; exact hr (h.has_facts hx).1
  have hrnod : ∀ id, s.hasDelta r id = false := by
    intro id; unfold St.hasDelta; rw [h.noEnts r hr]; rfl
  have hhold : ∀ id, (s'.holders id).length = (s.holders id).length := by
    intro id
    unfold St.holders
    rw [hhas, (hperm.filter _).length_eq, List.filter_cons]
    simp [hrno]
  have hdhold : ∀ id, (s'.dholders id).length = (s.dholders id).length := by
    intro id
    unfold St.dholders
    rw [hhd, (hperm.filter _).length_eq, List.filter_cons]
    simp [hrnod]
  exact {
    wfPool := by rw [hdb]; exact h.wfPool
    wfSkip := by rw [hdb]; exact h.wfSkip
    wfRepos := by rw [hdb]; exact h.wfRepos.put _ _
    wfEnts := by rw [hdb]; exact h.wfEnts
    noEnts := by
      intro r' hr'
      rw [hk, not_or] at hr'
      rw [hdb]; exact h.noEnts r' hr'.2
    cache := by
      intro r' hr'
      rw [hk]
      exact (hcache r' hr').imp id (h.cache r')
    rdir := by
      intro r' hr'
      rw [hk]
      exact (hrdir r' hr').imp id (h.rdir r')
    repoRes := by
      intro r' hr'
      rcases (hk r').1 hr' with rfl | hx
      · exact hres
      · exact h.repoRes r' hx
    pend := hpend
    ent := by
      intro r' n e hg
      rw [hdb] at hg
      exact (h.ent r' n e hg).congr (by rw [hdb])
    pool := by
      intro id pe hg
      rw [hdb] at hg
      have hpo := h.pool id pe hg
      exact { hpo with
        count := by rw [hhold]; exact hpo.count
        dcount := by rw [hdhold]; exact hpo.dcount }
    fs := by
      refine h.fs.removed hdata hnext ?_
      intro p i hp; rw [htab] at hp; exact hp
    poolFile := by rw [hdb, htab]; exact h.poolFile
    repoFile := by rw [hhas, htab]; exact h.repoFile
    dFile := by rw [hhd, htab]; exact h.dFile
    noOrphan := by
      intro r' k j hx
      rw [htab] at hx
      rw [hdb]
      exact (KV.mem_keys_put _ _ _ _).2 (Or.inr (h.noOrphan r' k j hx)) }

theorem Inv.created {W : World} {s : St} {r : Str} (h : Inv W s) (hr : r ∉ s.db.repos.keys)
    (hres : reservedKey r = false) : Inv W (s.created r) := by
  refine h.putRepo hr hres rfl rfl rfl rfl h.pend ?_ ?_
  · intro r' hr'; simpa [St.created] using hr'
  · intro r' hr'
    simp only [St.created] at hr'
    split at hr'
    · left; assumption
    · exact Or.inr hr'

theorem createRepo_trace_inv {W : World} {s : St} {r : Str} (h : Inv W s) (hr : r ∉ s.db.repos.keys)
    (hd : s.fs.rdir r = false) (hres : reservedKey r = false) :
    ∀ t ∈ (createRepo r s).tr, Inv W t := by
  rw [createRepo_run h hr hd hres]
  intro t ht
  simp only [List.mem_cons, List.not_mem_nil, or_false] at ht
  rcases ht with rfl | rfl
  · refine h.putRepo hr hres rfl rfl rfl rfl h.pend (fun r' hr' => Or.inr hr') (fun r' hr' => Or.inr hr')
  · refine h.putRepo hr hres rfl rfl rfl rfl h.pend (fun r' hr' => Or.inr hr') ?_
    intro r' hr'
    simp only at hr'
    split at hr'
    · left; assumption
    · exact Or.inr hr'

/-! ## deleteRepo -/

/-- The write queued for one dropped package. -/
def dropW (pool : KV PoolEntry) (id : Str) : DbWrite :=
  match (pool.get id).bind decEntry with
  | some pe => .putPool id pe
  | none => .delPool id

/-- Effect of the transaction body so far: files of `L` gone, writes `ws` queued, database untouched. -/
structure BRm (W : World) (s s' : St) (r : Str) (L : List Str) (ws : List DbWrite) : Prop where
  db : s'.db = s.db
  cache : s'.cache = s.cache
  clock : s'.clock = s.clock
  pend : s'.pend = s.pend ++ ws
  rdir : s'.fs.rdir = s.fs.rdir
  idx : s'.fs.idx = s.fs.idx
  data : s'.fs.data = s.fs.data
  next : s'.fs.next = s.fs.next
  tab : ∀ p, s'.fs.tab p = if rmPath W s.db.pool r L p then none else s.fs.tab p

/-- A state inside the transaction body. -/
structure BRming (W : World) (s t : St) (r : Str) (L : List Str) : Prop where
  db : t.db = s.db
  cache : t.cache = s.cache
  rdir : t.fs.rdir = s.fs.rdir
  idx : t.fs.idx = s.fs.idx
  data : t.fs.data = s.fs.data
  next : t.fs.next = s.fs.next
  tab : ∀ p, t.fs.tab p = s.fs.tab p ∨ (rmPath W s.db.pool r L p = true ∧ t.fs.tab p = none)

theorem BRm.nil (W : World) (s : St) (r : Str) : BRm W s s r [] [] where
  db := rfl
  cache := rfl
  clock := rfl
  pend := by simp
  rdir := rfl
  idx := rfl
  data := rfl
  next := rfl
  tab := by intro p; cases p <;> simp [rmPath]

theorem rmPath_append (W : World) (pool : KV PoolEntry) (r : Str) (L K : List Str) (p : Path) :
    rmPath W pool r (L ++ K) p = (rmPath W pool r L p || rmPath W pool r K p) := by
  rw [Bool.eq_iff_iff, Bool.or_eq_true]
  cases p with
  | repo r' c j =>
    simp only [rmPath, decide_eq_true_eq, List.mem_append]
    constructor
    · rintro ⟨a, b | b, c⟩
      · exact Or.inl ⟨a, b, c⟩
      · exact Or.inr ⟨a, b, c⟩
    · rintro (⟨a, b, c⟩ | ⟨a, b, c⟩)
      · exact ⟨a, Or.inl b, c⟩
      · exact ⟨a, Or.inr b, c⟩
  | pool c j =>
    simp only [rmPath, Bool.and_eq_true, decide_eq_true_eq, List.mem_append]
    constructor
    · rintro ⟨⟨b | b, c⟩, d⟩
      · exact Or.inl ⟨⟨b, c⟩, d⟩
      · exact Or.inr ⟨⟨b, c⟩, d⟩
    · rintro (⟨⟨b, c⟩, d⟩ | ⟨⟨b, c⟩, d⟩)
      · exact ⟨⟨Or.inl b, c⟩, d⟩
      · exact ⟨⟨Or.inr b, c⟩, d⟩
  | _ => simp [rmPath]

theorem BRm.trans {W : World} {s s1 s2 : St} {r : Str} {L K : List Str} {ws vs : List DbWrite}
    (h1 : BRm W s s1 r L ws) (h2 : BRm W s1 s2 r K vs) : BRm W s s2 r (L ++ K) (ws ++ vs) where
  db := h2.db.trans h1.db
  cache := h2.cache.trans h1.cache
  clock := h2.clock.trans h1.clock
  pend := by rw [h2.pend, h1.pend, List.append_assoc]
  rdir := h2.rdir.trans h1.rdir
  idx := h2.idx.trans h1.idx
  data := h2.data.trans h1.data
  next := h2.next.trans h1.next
  tab := by
    intro p
    rw [h2.tab, h1.tab, h1.db, rmPath_append]
    cases rmPath W s.db.pool r L p <;> cases rmPath W s.db.pool r K p <;> simp

theorem BRm.then_ming {W : World} {s s1 t : St} {r : Str} {L K : List Str} {ws : List DbWrite}
    (h1 : BRm W s s1 r L ws) (h2 : BRming W s1 t r K) : BRming W s t r (L ++ K) where
  db := h2.db.trans h1.db
  cache := h2.cache.trans h1.cache
  rdir := h2.rdir.trans h1.rdir
  idx := h2.idx.trans h1.idx
  data := h2.data.trans h1.data
  next := h2.next.trans h1.next
  tab := by
    intro p
    rw [rmPath_append]
    rcases h2.tab p with h | ⟨h, h'⟩
    · rw [h, h1.tab]
      by_cases a : rmPath W s.db.pool r L p = true
      · right; simp [a]
      · left; simp [a]
    · right; rw [h1.db] at h; simp [h, h']

theorem BRming.mono {W : World} {s t : St} {r : Str} {L K : List Str} (h : BRming W s t r L)
    (hs : ∀ j ∈ L, j ∈ K) : BRming W s t r K :=
  { h with tab := fun p => (h.tab p).imp id (fun x => ⟨rmPath_mono hs x.1, x.2⟩) }

theorem BRm.ming {W : World} {s s' : St} {r : Str} {L : List Str} {ws : List DbWrite}
    (h : BRm W s s' r L ws) : BRming W s s' r L :=
  { h with
    tab := by
      intro p; rw [h.tab]
      by_cases a : rmPath W s.db.pool r L p = true
      · right; simp [a]
      · left; simp [a] }

theorem removeBatch_run {W : World} {s : St} {r id : Str} {pe : PoolEntry} (ok : W.OK)
    (hg : s.db.pool.get id = some pe) (hd : Droppable W id pe) :
    ∃ s' tr, removePackageInternal .batch r id s = ⟨.ok (), s', tr⟩ ∧
      BRm W s s' r [id] [dropW s.db.pool id] ∧ ∀ t ∈ tr, BRming W s t r [id] := by
  obtain ⟨c, hc⟩ := ok.comp hd.isPkg
  have hcomp : pathComp? pe.pkg.source = some c := by rw [hd.pkg]; exact hc
  have hnr := (ok.gid hd.isPkg).nres
  let s1 : St := s.setFs (s.fs.setTab (.repo r c id) none)
  have hg1 : s1.db.pool.get id = some pe := hg
  have hrem1 : BRming W s s1 r [id] := {
    db := rfl, cache := rfl, rdir := rfl, idx := rfl, data := rfl, next := rfl
    tab := by
      intro p
      by_cases e : p = .repo r c id
      · subst e; exact Or.inr ⟨by simp [rmPath, hc], by simp [s1]⟩
      · exact Or.inl (by simp [s1, e]) }
  by_cases hpos : dec64 pe.refCount > 0
  · have hle := (dec64_pos hd.pos).1 hpos
    have hdec : dec64 pe.refCount = pe.refCount - 1 := by
      unfold dec64; have := hd.pos; split <;> omega
    let w : DbWrite := .putPool pe.name { pe with refCount := dec64 pe.refCount }
    have hwd : dropW s.db.pool id = w := by
      unfold dropW
      simp only [hg, Option.bind_some, decEntry, hle, if_false]
      show DbWrite.putPool _ _ = DbWrite.putPool _ _
      rw [hdec, hd.name]
    have hres : reservedKey w.key = false := by
      show reservedKey pe.name = false; rw [hd.name]; exact hnr
    let s2 : St := { s1 with pend := s1.pend ++ [w] }
    have hR : BRm W s s2 r [id] [dropW s.db.pool id] := {
      db := rfl, cache := rfl, clock := rfl
      pend := by show s.pend ++ [w] = _; rw [hwd]
      rdir := rfl, idx := rfl, data := rfl, next := rfl
      tab := by
        intro p
        show (if p = Path.repo r c id then none else s.fs.tab p) = _
        cases p with
        | repo r' c' j =>
          by_cases e : Path.repo r' c' j = .repo r c id
          · cases e; simp [rmPath, hc]
          · have : ¬ (r' = r ∧ j = id ∧ W.compOf j = some c') := by
              rintro ⟨rfl, rfl, h3⟩
              rw [hc] at h3; cases h3; exact e rfl
            simp [rmPath, e, this]
        | pool c' j =>
          by_cases e : j = id
          · subst e; simp [rmPath, hg, decEntry, hle]
          · simp [rmPath, e]
        | _ => simp [rmPath] }
    refine ⟨s2, [s1], ?_, hR, ?_⟩
    · unfold removePackageInternal
      simp only [poolGet?_bind, hg]
      rw [pathComp_bind hcomp, removeFile_bind, hd.name]
      have : unrefEntry .batch id s1 = ⟨.ok (), s2, []⟩ := by
        unfold unrefEntry
        rw [poolGet_bind_some _ hg1]
        simp only [hpos, if_true]
        rw [dbWrite_batch hres]
      show (unrefEntry .batch id s1).pre [s1] = _
      rw [this]; rfl
    · intro t ht
      simp at ht
      subst ht
      exact hrem1
  · have hle : pe.refCount ≤ 1 := by
      rcases Nat.lt_or_ge 1 pe.refCount with h | h
      · exact absurd ((dec64_pos hd.pos).2 (by omega)) hpos
      · exact h
    let s2 : St := s1.setFs (s1.fs.setTab (.pool c id) none)
    let w : DbWrite := .delPool id
    have hwd : dropW s.db.pool id = w := by
      unfold dropW
      simp only [hg, Option.bind_some, decEntry, hle, if_true]
      rfl
    have hres : reservedKey w.key = false := hnr
    let s3 : St := { s2 with pend := s2.pend ++ [w] }
    have htab2 : ∀ p, (if p = Path.pool c id then none else if p = Path.repo r c id then none else s.fs.tab p) =
        if rmPath W s.db.pool r [id] p then none else s.fs.tab p := by
      intro p
      cases p with
      | repo r' c' j =>
        by_cases e : Path.repo r' c' j = .repo r c id
        · cases e; simp [rmPath, hc]
        · have : ¬ (r' = r ∧ j = id ∧ W.compOf j = some c') := by
            rintro ⟨rfl, rfl, h3⟩
            rw [hc] at h3; cases h3; exact e rfl
          simp [rmPath, e, this]
      | pool c' j =>
        by_cases e : Path.pool c' j = .pool c id
        · cases e; simp [rmPath, hc, hg, decEntry, hle]
        · have : ¬ (j = id ∧ W.compOf j = some c') := by
            rintro ⟨rfl, h3⟩
            rw [hc] at h3; cases h3; exact e rfl
          simp [rmPath, e, this]
      | _ => simp [rmPath]
    have hR : BRm W s s3 r [id] [dropW s.db.pool id] := {
      db := rfl, cache := rfl, clock := rfl
      pend := by show s.pend ++ [w] = _; rw [hwd]
      rdir := rfl, idx := rfl, data := rfl, next := rfl
      tab := htab2 }
    have hrem2 : BRming W s s2 r [id] := {
      db := rfl, cache := rfl, rdir := rfl, idx := rfl, data := rfl, next := rfl
      tab := by
        intro p
        have : s2.fs.tab p = if rmPath W s.db.pool r [id] p then none else s.fs.tab p := htab2 p
        rw [this]
        by_cases a : rmPath W s.db.pool r [id] p = true
        · exact Or.inr ⟨a, by simp [a]⟩
        · exact Or.inl (by simp [a]) }
    refine ⟨s3, [s1, s2], ?_, hR, ?_⟩
    · unfold removePackageInternal
      simp only [poolGet?_bind, hg]
      rw [pathComp_bind hcomp, removeFile_bind, hd.name]
      have : unrefEntry .batch id s1 = ⟨.ok (), s3, [s2]⟩ := by
        unfold unrefEntry
        rw [poolGet_bind_some _ hg1]
        simp only [hpos, if_false]
        rw [pathComp_bind hcomp, removeFile_bind, dbWrite_batch hres]; rfl
      show (unrefEntry .batch id s1).pre [s1] = _
      rw [this]; rfl
    · intro t ht
      simp at ht
      rcases ht with rfl | rfl
      · exact hrem1
      · exact hrem2

theorem removeBatchL_run {W : World} (ok : W.OK) {r : Str} (L : List Str) {s : St}
    (hL : ∀ j ∈ L, ∃ pe, s.db.pool.get j = some pe ∧ Droppable W j pe) :
    ∃ s' tr, forL L (removePackageInternal .batch r) s = ⟨.ok (), s', tr⟩ ∧
      BRm W s s' r L (L.map (dropW s.db.pool)) ∧ ∀ t ∈ tr, BRming W s t r L := by
  induction L generalizing s with
  | nil => exact ⟨s, [], rfl, BRm.nil W s r, by simp⟩
  | cons x xs ih =>
    obtain ⟨pe, hg, hd⟩ := hL x (by simp)
    obtain ⟨s1, tr1, h1, hB1, ht1⟩ := removeBatch_run (r := r) ok hg hd
    obtain ⟨s2, tr2, h2, hB2, ht2⟩ := ih (s := s1) (by
      intro j hj; rw [hB1.db]; exact hL j (by simp [hj]))
    rw [hB1.db] at hB2
    refine ⟨s2, tr1 ++ tr2, ?_, ?_, ?_⟩
    · rw [forL_cons, bind_ok h1, h2]; rfl
    · have := hB1.trans hB2
      simpa using this
    · intro t ht
      rcases List.mem_append.1 ht with ht | ht
      · exact (ht1 t ht).mono (by simp)
      · have := hB1.then_ming (ht2 t ht)
        simpa using this

/-- All writes of the transaction for a list of records. -/
def delWrites (pool : KV PoolEntry) (r : Str) (es : List RepoEntry) : List DbWrite :=
  es.flatMap fun e => (e.available ++ e.deltas).map (dropW pool) ++ [.delEnt r e.name]

theorem deleteBody_loop {W : World} (ok : W.OK) {r : Str} (es : List RepoEntry) {s : St}
    (hL : ∀ e ∈ es, reservedKey e.name = false ∧
      ∀ j ∈ e.available ++ e.deltas, ∃ pe, s.db.pool.get j = some pe ∧ Droppable W j pe) :
    ∃ s' tr, forL es (fun e => do
        forL e.available (removePackageInternal .batch r)
        forL e.deltas (removePackageInternal .batch r)
        dbWrite .batch (.delEnt r e.name)) s = ⟨.ok (), s', tr⟩ ∧
      BRm W s s' r (es.flatMap fun e => e.available ++ e.deltas) (delWrites s.db.pool r es) ∧
      ∀ t ∈ tr, BRming W s t r (es.flatMap fun e => e.available ++ e.deltas) := by
  induction es generalizing s with
  | nil => exact ⟨s, [], rfl, BRm.nil W s r, by simp⟩
  | cons e es ih =>
    obtain ⟨hres, hde⟩ := hL e (by simp)
    obtain ⟨s1, tr1, h1, hB1, ht1⟩ := removeBatchL_run (r := r) ok (e.available ++ e.deltas) hde
    have hw : reservedKey (DbWrite.delEnt r e.name).key = false := hres
    let s2 : St := { s1 with pend := s1.pend ++ [.delEnt r e.name] }
    have hB2 : BRm W s1 s2 r [] [.delEnt r e.name] := { BRm.nil W s1 r with pend := rfl }
    have hB12 := hB1.trans hB2
    have hs2db : s2.db = s.db := hB12.db
    obtain ⟨s3, tr3, h3, hB3, ht3⟩ := ih (s := s2) (by
      intro e' he'
      rw [hs2db]
      exact hL e' (by simp [he']))
    rw [hs2db] at hB3
    refine ⟨s3, tr1 ++ tr3, ?_, ?_, ?_⟩
    · have hbody : (do
          forL e.available (removePackageInternal .batch r)
          forL e.deltas (removePackageInternal .batch r)
          dbWrite .batch (.delEnt r e.name) : M Unit) s = ⟨.ok (), s2, tr1⟩ := by
        rw [← M.bind_assoc, ← forL_append, bind_ok h1, dbWrite_batch hw]
        simp [s2]
      rw [forL_cons, bind_ok hbody, h3]; rfl
    · have := hB12.trans hB3
      simpa [delWrites] using this
    · intro t ht
      rcases List.mem_append.1 ht with ht | ht
      · exact (ht1 t ht).mono (by
          intro j hj; rw [List.flatMap_cons, List.mem_append]; exact Or.inl hj)
      · have := hB12.then_ming (ht3 t ht)
        simpa using this

/-! ### Effect of the committed batch -/

theorem dropW_apply_get (pool0 : KV PoolEntry) (d : DB) (x j : Str) :
    ((dropW pool0 x).apply d).pool.get j =
      if j = x then (pool0.get x).bind decEntry else d.pool.get j := by
  unfold dropW
  cases hb : (pool0.get x).bind decEntry with
  | none => simp only [DbWrite.apply, KV.get_del]
  | some pe => simp only [DbWrite.apply, KV.get_put]

theorem dropW_apply_frame (pool0 : KV PoolEntry) (d : DB) (x : Str) :
    ((dropW pool0 x).apply d).skip = d.skip ∧ ((dropW pool0 x).apply d).repos = d.repos ∧
    ((dropW pool0 x).apply d).ents = d.ents ∧ (d.pool.WF → ((dropW pool0 x).apply d).pool.WF) := by
  unfold dropW
  cases (pool0.get x).bind decEntry with
  | none => exact ⟨rfl, rfl, rfl, fun h => h.del _⟩
  | some pe => exact ⟨rfl, rfl, rfl, fun h => h.put _ _⟩

theorem dropWs_apply (pool0 : KV PoolEntry) (L : List Str) (d : DB) :
    (∀ j, ((L.map (dropW pool0)).foldl DbWrite.apply d).pool.get j =
      if j ∈ L then (pool0.get j).bind decEntry else d.pool.get j) ∧
    ((L.map (dropW pool0)).foldl DbWrite.apply d).skip = d.skip ∧
    ((L.map (dropW pool0)).foldl DbWrite.apply d).repos = d.repos ∧
    ((L.map (dropW pool0)).foldl DbWrite.apply d).ents = d.ents ∧
    (d.pool.WF → ((L.map (dropW pool0)).foldl DbWrite.apply d).pool.WF) := by
  induction L generalizing d with
  | nil => simp
  | cons x xs ih =>
    obtain ⟨h1, h2, h3, h4, h5⟩ := ih ((dropW pool0 x).apply d)
    obtain ⟨f1, f2, f3, f4⟩ := dropW_apply_frame pool0 d x
    simp only [List.map_cons, List.foldl_cons]
    refine ⟨?_, h2.trans f1, h3.trans f2, h4.trans f3, fun h => h5 (f4 h)⟩
    intro j
    rw [h1, dropW_apply_get]
    by_cases a : j ∈ xs
    · simp [a]
    · by_cases b : j = x
      · subst b; simp
      · simp [a, b]

theorem delWrites_apply (pool0 : KV PoolEntry) (r : Str) (es : List RepoEntry) (d : DB) :
    (∀ j, ((delWrites pool0 r es).foldl DbWrite.apply d).pool.get j =
      if j ∈ es.flatMap (fun e => e.available ++ e.deltas) then (pool0.get j).bind decEntry
      else d.pool.get j) ∧
    ((delWrites pool0 r es).foldl DbWrite.apply d).skip = d.skip ∧
    ((delWrites pool0 r es).foldl DbWrite.apply d).repos = d.repos ∧
    (∀ r' n, (((delWrites pool0 r es).foldl DbWrite.apply d).ents r').get n =
      if r' = r ∧ n ∈ es.map RepoEntry.name then none else (d.ents r').get n) ∧
    (∀ r', r' ≠ r → ((delWrites pool0 r es).foldl DbWrite.apply d).ents r' = d.ents r') ∧
    ((d.ents r).WF → (((delWrites pool0 r es).foldl DbWrite.apply d).ents r).WF) ∧
    (d.pool.WF → ((delWrites pool0 r es).foldl DbWrite.apply d).pool.WF) := by
  induction es generalizing d with
  | nil => simp [delWrites]
  | cons e es ih =>
    obtain ⟨g1, g2, g3, g4, g5⟩ := dropWs_apply pool0 (e.available ++ e.deltas) d
    let d1 := ((e.available ++ e.deltas).map (dropW pool0)).foldl DbWrite.apply d
    let d2 := (DbWrite.delEnt r e.name).apply d1
    have hd2 : d2.ents = setEnts d.ents r ((d.ents r).del e.name) := by
      show setEnts d1.ents r ((d1.ents r).del e.name) = _
      rw [g4]
    obtain ⟨h1, h2, h3, h4, h5, h6, h7⟩ := ih d2
    have hfold : (delWrites pool0 r (e :: es)).foldl DbWrite.apply d =
        (delWrites pool0 r es).foldl DbWrite.apply d2 := by
      simp only [delWrites, List.flatMap_cons, List.foldl_append, List.foldl_cons, List.foldl_nil]
      rfl
    rw [hfold]
    refine ⟨?_, h2.trans g2, h3.trans g3, ?_, ?_, ?_, fun h => h7 (g5 h)⟩
    · intro j
      rw [h1]
      have : d2.pool.get j = if j ∈ e.available ++ e.deltas then (pool0.get j).bind decEntry else d.pool.get j := g1 j
      rw [this]
      simp only [List.flatMap_cons, List.mem_append (s := e.available ++ e.deltas)]
      by_cases a : j ∈ es.flatMap (fun e => e.available ++ e.deltas)
      · simp only [a, if_true, or_true]
      · simp only [a, if_false, or_false]
    · intro r' n
      rw [h4, hd2]
      unfold setEnts
      by_cases er : r' = r
      · subst er
        simp only [if_true, true_and, List.map_cons, List.mem_cons, KV.get_del]
        by_cases a : n ∈ es.map RepoEntry.name
        · simp only [a, if_true, or_true]
        · simp only [a, if_false, or_false]
      · simp [er]
    · intro r' hr'
      rw [h5 r' hr', hd2]; simp [setEnts, hr']
    · intro hw
      apply h6
      rw [hd2]; simp only [setEnts, if_true]
      exact hw.del _

/-- The packages and deltas a repository lists. -/
def St.listed (s : St) (r : Str) : List Str :=
  ((s.db.ents r).map Prod.snd).flatMap fun e => e.available ++ e.deltas

/-- `s'` is `s` with repository `r` gone from the database (its remaining files and directories not
considered). -/
structure Deleted (W : World) (s s' : St) (r : Str) : Prop where
  wfPool : s.db.pool.WF → s'.db.pool.WF
  pool : ∀ j, s'.db.pool.get j =
    if j ∈ s.listed r then (s.db.pool.get j).bind decEntry else s.db.pool.get j
  skip : s'.db.skip = s.db.skip
  repos : s'.db.repos = s.db.repos.del r
  entsOther : ∀ r', r' ≠ r → s'.db.ents r' = s.db.ents r'
  entsSelf : s'.db.ents r = []

theorem Inv.mem_listed {W : World} {s : St} (h : Inv W s) (r j : Str) :
    j ∈ s.listed r ↔ s.has r j = true ∨ s.hasDelta r j = true := by
  rw [St.has_iff (h.wfEnts r), St.hasDelta_iff (h.wfEnts r)]
  simp only [St.listed, List.mem_flatMap, List.mem_map, List.mem_append, Prod.exists]
  constructor
  · rintro ⟨e, ⟨n, e', hm, rfl⟩, hj | hj⟩
    · exact Or.inl ⟨n, e', KV.get_of_mem (h.wfEnts r) hm, hj⟩
    · exact Or.inr ⟨n, e', KV.get_of_mem (h.wfEnts r) hm, hj⟩
  · rintro (⟨n, e, hg, hj⟩ | ⟨n, e, hg, hj⟩)
    · exact ⟨e, ⟨n, e, KV.mem_of_get hg, rfl⟩, Or.inl hj⟩
    · exact ⟨e, ⟨n, e, KV.mem_of_get hg, rfl⟩, Or.inr hj⟩

/-- Does the path lie in the trees of repository `r`? -/
def Path.inRepo (r : Str) : Path → Bool
  | .repo r' _ _ => decide (r' = r)
  | .asset r' _ => decide (r' = r)
  | .stage r' _ => decide (r' = r)
  | _ => false

/-- What the database must look like for the deletion to go through. -/
structure DelReady (W : World) (s : St) (r : Str) : Prop where
  key : s.db.repos.get r = some ()
  nres : reservedKey r = false
  wf : (s.db.ents r).WF
  ents : ∀ n e, (s.db.ents r).get n = some e → e.name = n ∧ reservedKey n = false ∧
    ∀ j ∈ e.available ++ e.deltas, ∃ pe, s.db.pool.get j = some pe ∧ Droppable W j pe

theorem Inv.delReady {W : World} {s : St} {r : Str} (h : Inv W s) (hr : r ∈ s.db.repos.keys) :
    DelReady W s r where
  key := by obtain ⟨u, hu⟩ := KV.mem_keys_get.1 hr; exact hu
  nres := h.repoRes r hr
  wf := h.wfEnts r
  ents := by
    intro n e hg
    have he := h.ent r n e hg
    refine ⟨he.name, he.nres, ?_⟩
    intro j hj
    rcases List.mem_append.1 hj with hj | hj
    · obtain ⟨pe, hpe⟩ := (he.avail j hj).2.1
      exact ⟨pe, hpe, (h.pool j pe hpe).droppable⟩
    · obtain ⟨pe, hpe⟩ := (he.deltas j hj).2.1
      exact ⟨pe, hpe, (h.pool j pe hpe).droppable⟩

theorem DelReady.congr {W : World} {s t : St} {r : Str} (h : DelReady W s r) (hd : t.db = s.db) :
    DelReady W t r := by
  obtain ⟨a, b, c, d⟩ := h
  exact ⟨by rw [hd]; exact a, b, by rw [hd]; exact c, by rw [hd]; exact d⟩

/-- The complete effect of DeleteRepo. -/
structure DeletedFull (W : World) (s s' : St) (r : Str) : Prop extends Deleted W s s' r where
  cache : ∀ r', r' ∈ s'.cache → r' ≠ r ∧ r' ∈ s.cache
  pend : s'.pend = []
  clock : s'.clock = s.clock
  rdir : ∀ r', s'.fs.rdir r' = if r' = r then false else s.fs.rdir r'
  idx : ∀ r', s'.fs.idx r' = if r' = r then none else s.fs.idx r'
  data : s'.fs.data = s.fs.data
  next : s'.fs.next = s.fs.next
  tab : ∀ p, s'.fs.tab p =
    if rmPath W s.db.pool r (s.listed r) p || p.inRepo r then none else s.fs.tab p

/-- A state in the middle of DeleteRepo. -/
structure Deleting (W : World) (s t : St) (r : Str) : Prop where
  db : t.db = s.db ∨ Deleted W s t r
  idx : ∀ r', r' ≠ r → t.fs.idx r' = s.fs.idx r'
  data : t.fs.data = s.fs.data
  next : t.fs.next = s.fs.next
  tab : ∀ p, t.fs.tab p = s.fs.tab p ∨
    ((rmPath W s.db.pool r (s.listed r) p || p.inRepo r) = true ∧ t.fs.tab p = none)

theorem deleteRepo_run {W : World} {s : St} {r : Str} (ok : W.OK) (hd : DelReady W s r) :
    ∃ s' tr, deleteRepo r s = ⟨.ok (), s', tr⟩ ∧ DeletedFull W s s' r ∧ ∀ t ∈ tr, Deleting W s t r := by
  have hget : ∃ tr, getRepo r s = ⟨.ok (), s.got r, tr⟩ ∧ ∀ t ∈ tr, SameObs s t := by
    unfold getRepo
    simp only [getSt_bind]
    by_cases hc : r ∈ s.cache
    · exact ⟨[], by simp [hc, St.got], by simp⟩
    · simp only [hc, if_false, hd.key]
      refine ⟨[s.setFs { s.fs with rdir := fun r' => if r' = r then true else s.fs.rdir r' }], ?_, ?_⟩
      · simp [bakeRepo, St.got, hc, St.setFs]
      · intro t ht
        simp only [List.mem_singleton] at ht
        subst ht
        exact ⟨rfl, rfl, rfl, rfl, rfl⟩
  obtain ⟨tr0, hrun0, htr0⟩ := hget
  let s1 : St := { s.got r with cache := (s.got r).cache.filter (· ≠ r) }
  let s2 : St := { s1 with pend := [] }
  have h2db : s2.db = s.db := s.got_db r
  have h2tab : s2.fs.tab = s.fs.tab := s.got_tab r
  let es := (s.db.ents r).map Prod.snd
  have hes : ∀ e ∈ es, ∃ n, (s.db.ents r).get n = some e := by
    intro e he
    simp only [es, List.mem_map, Prod.exists] at he
    obtain ⟨n, e', hm, rfl⟩ := he
    exact ⟨n, KV.get_of_mem hd.wf hm⟩
  obtain ⟨s3, tr3, hrun3, hB, htr3⟩ := deleteBody_loop (r := r) ok es (s := s2) (by
    intro e he
    obtain ⟨n, hn⟩ := hes e he
    obtain ⟨e1, e2, e3⟩ := hd.ents n e hn
    refine ⟨by rw [e1]; exact e2, ?_⟩
    rw [h2db]; exact e3)
  rw [h2db] at hB
  have hw : reservedKey (DbWrite.delRepo r).key = false := hd.nres
  let s4 : St := { s3 with pend := s3.pend ++ [.delRepo r] }
  have hbody : deleteRepoBody r s2 = ⟨.ok (), s4, tr3⟩ := by
    unfold deleteRepoBody
    rw [repoEntries_bind]
    have : (s2.db.ents r).map Prod.snd = es := by rw [h2db]
    rw [this, bind_ok hrun3, dbWrite_batch hw]
    simp [s4]
  let s5 : St := { s4 with db := s4.pend.foldl DbWrite.apply s4.db, pend := [] }
  have hupd : dbUpdate (deleteRepoBody r) s1 = ⟨.ok (), s5, tr3 ++ [s5]⟩ := by
    unfold dbUpdate
    show (match (deleteRepoBody r s2).res with | .ok _ => _ | .err e => _ | .panic => _) = _
    rw [hbody]
  obtain ⟨a1, a2, a3, a4, a5, a6, a7⟩ := delWrites_apply s.db.pool r es s.db
  have h5db : s5.db = (DbWrite.delRepo r).apply ((delWrites s.db.pool r es).foldl DbWrite.apply s.db) := by
    show (s3.pend ++ [DbWrite.delRepo r]).foldl DbWrite.apply s3.db = _
    rw [hB.pend, hB.db]
    show (([] ++ delWrites s.db.pool r es) ++ [DbWrite.delRepo r]).foldl DbWrite.apply s2.db = _
    rw [h2db, List.nil_append, List.foldl_append]; rfl
  have hDel : ∀ t : St, t.db = s5.db → Deleted W s t r := by
    intro t ht
    exact {
      wfPool := fun h => by rw [ht, h5db]; exact a7 h
      pool := by intro j; rw [ht, h5db]; exact a1 j
      skip := by rw [ht, h5db]; exact a2
      repos := by rw [ht, h5db]; show KV.del _ r = _; rw [a3]
      entsOther := by intro r' hr'; rw [ht, h5db]; exact a5 r' hr'
      entsSelf := by
        rw [ht, h5db]
        show ((delWrites s.db.pool r es).foldl DbWrite.apply s.db).ents r = []
        apply KV.ext (a6 hd.wf) KV.WF_nil
        intro n
        rw [a4]
        by_cases hn : n ∈ es.map RepoEntry.name
        · simp [hn]
        · simp only [hn, and_false, if_false, KV.get_nil]
          cases hg : (s.db.ents r).get n with
          | none => rfl
          | some e =>
            exfalso; apply hn
            rw [List.mem_map]
            refine ⟨e, ?_, (hd.ents n e hg).1⟩
            exact List.mem_map.2 ⟨(n, e), KV.mem_of_get hg, rfl⟩ }
  have h5tab : ∀ p, s5.fs.tab p = if rmPath W s.db.pool r (s.listed r) p then none else s.fs.tab p := by
    intro p
    show s3.fs.tab p = _
    rw [hB.tab, h2db, h2tab]; rfl
  let s6 : St := s5.setFs
    { s5.fs with
      tab := fun p => match p with
        | .repo r' _ _ => if r' = r then none else s5.fs.tab p
        | _ => s5.fs.tab p
      rdir := fun r' => if r' = r then false else s5.fs.rdir r'
      idx := fun r' => if r' = r then none else s5.fs.idx r' }
  let s7 : St := s6.setFs
    { s6.fs with
      tab := fun p => match p with
        | .asset r' _ => if r' = r then none else s6.fs.tab p
        | .stage r' _ => if r' = r then none else s6.fs.tab p
        | _ => s6.fs.tab p }
  have h7tab : ∀ p, s7.fs.tab p =
      if rmPath W s.db.pool r (s.listed r) p || p.inRepo r then none else s.fs.tab p := by
    intro p
    cases p with
    | repo r' c j =>
      show (if r' = r then none else s5.fs.tab _) = _
      rw [h5tab]
      by_cases e : r' = r
      · simp [e, Path.inRepo]
      · simp [e, Path.inRepo]
    | asset r' a =>
      show (if r' = r then none else s5.fs.tab _) = _
      rw [h5tab]
      by_cases e : r' = r
      · simp [e, Path.inRepo]
      · simp [e, Path.inRepo]
    | stage r' a =>
      show (if r' = r then none else s5.fs.tab _) = _
      rw [h5tab]
      by_cases e : r' = r
      · simp [e, Path.inRepo]
      · simp [e, Path.inRepo]
    | ext q => show s5.fs.tab _ = _; rw [h5tab]; simp [Path.inRepo]
    | pool c j => show s5.fs.tab _ = _; rw [h5tab]; simp [Path.inRepo]
  have h6tab : ∀ p, s6.fs.tab p = s5.fs.tab p ∨ (p.inRepo r = true ∧ s6.fs.tab p = none) := by
    intro p
    cases p with
    | repo r' c j =>
      show (if r' = r then none else s5.fs.tab _) = _ ∨ (_ ∧ (if r' = r then none else s5.fs.tab _) = _)
      by_cases e : r' = r
      · right; simp [e, Path.inRepo]
      · left; simp [e]
    | _ => left; rfl
  have h3idx : s3.fs.idx = s.fs.idx := hB.idx.trans (s.got_idx r)
  have h3data : s3.fs.data = s.fs.data := hB.data.trans (s.got_data r)
  have h3next : s3.fs.next = s.fs.next := hB.next.trans (s.got_next r)
  have h3rdir : s3.fs.rdir = (s.got r).fs.rdir := hB.rdir
  have hFull : DeletedFull W s s7 r := {
    hDel s7 rfl with
    cache := by
      intro r' hr'
      have hx : r' ∈ s3.cache := hr'
      rw [hB.cache] at hx
      have hx' : r' ∈ (s.got r).cache.filter (· ≠ r) := hx
      rw [List.mem_filter] at hx'
      have hne : r' ≠ r := by simpa using hx'.2
      refine ⟨hne, ?_⟩
      rcases s.got_cache_le r r' hx'.1 with h | h
      · exact absurd h hne
      · exact h
    pend := rfl
    clock := by show s3.clock = _; rw [hB.clock]; exact s.got_clock r
    rdir := by
      intro r'
      show (if r' = r then false else s3.fs.rdir r') = _
      rw [h3rdir]
      by_cases e : r' = r
      · simp [e]
      · simp only [e, if_false]
        unfold St.got; split
        · rfl
        · simp [e]
    idx := by
      intro r'
      show (if r' = r then none else s3.fs.idx r') = _
      rw [h3idx]
    data := h3data
    next := h3next
    tab := h7tab }
  refine ⟨s7, tr0 ++ (tr3 ++ [s5] ++ [s6, s7]), ?_, hFull, ?_⟩
  · unfold deleteRepo
    rw [bind_ok hrun0, volM_bind]
    show ((dbUpdate (deleteRepoBody r) >>= fun _ => rmRepoTree r >>= fun _ => rmRepoAux r) s1).pre tr0 = _
    rw [bind_ok hupd]
    unfold rmRepoTree rmRepoAux
    simp only [stepM_bind, stepM_run, Out.pre_mk, List.append_assoc]
    rfl
  · intro t ht
    rcases List.mem_append.1 ht with ht | ht
    · have := htr0 t ht
      exact { db := Or.inl this.db, idx := fun _ _ => by rw [this.idx], data := this.data, next := this.next
              tab := fun p => Or.inl (by rw [this.tab]) }
    · rcases List.mem_append.1 ht with ht | ht
      · rcases List.mem_append.1 ht with ht | ht
        · have := htr3 t ht
          exact {
            db := Or.inl (this.db.trans h2db)
            idx := fun _ _ => by rw [this.idx]; simp [s2, s1]
            data := this.data.trans (s.got_data r), next := this.next.trans (s.got_next r)
            tab := by
              intro p
              rcases this.tab p with h | ⟨h, h'⟩
              · left; rw [h, h2tab]
              · right
                rw [h2db] at h
                refine ⟨?_, h'⟩
                rw [Bool.or_eq_true]; exact Or.inl h }
        · simp at ht; subst ht
          exact {
            db := Or.inr (hDel _ rfl)
            idx := fun r' _ => by show s3.fs.idx r' = _; rw [h3idx]
            data := h3data, next := h3next
            tab := by
              intro p; rw [h5tab]
              by_cases a : rmPath W s.db.pool r (s.listed r) p = true
              · right; simp [a]
              · left; simp [a] }
      · simp at ht
        rcases ht with rfl | rfl
        · exact {
            db := Or.inr (hDel _ rfl)
            idx := fun r' hr' => by show (if r' = r then none else s3.fs.idx r') = _; rw [if_neg hr', h3idx]
            data := h3data, next := h3next
            tab := by
              intro p
              rcases h6tab p with h | ⟨h, h'⟩
              · rw [h, h5tab]
                by_cases a : rmPath W s.db.pool r (s.listed r) p = true
                · right; simp [a]
                · left; simp [a]
              · right; exact ⟨by simp [h], h'⟩ }
        · exact {
            db := Or.inr (hDel _ rfl)
            idx := fun r' hr' => by rw [hFull.idx, if_neg hr']
            data := h3data, next := h3next
            tab := by
              intro p; rw [h7tab]
              by_cases a : (rmPath W s.db.pool r (s.listed r) p || p.inRepo r) = true
              · right; exact ⟨a, by simp [a]⟩
              · left; simp [a] }

theorem deleteRepo_missing {W : World} {s : St} {r : Str} (h : Inv W s) (hr : r ∉ s.db.repos.keys) :
    deleteRepo r s = ⟨.err .notFound, s, []⟩ := by
  unfold deleteRepo
  rw [bind_err (getRepo_missing h hr)]

section
variable {W : World} {s s' : St} {r : Str}

theorem Deleted.has (hd : Deleted W s s' r) (r' j : Str) :
    s'.has r' j = if r' = r then false else s.has r' j := by
  unfold St.has
  by_cases e : r' = r
  · subst e; rw [hd.entsSelf]; simp
  · rw [hd.entsOther r' e]; simp [e]

theorem Deleted.hasDelta (hd : Deleted W s s' r) (r' j : Str) :
    s'.hasDelta r' j = if r' = r then false else s.hasDelta r' j := by
  unfold St.hasDelta
  by_cases e : r' = r
  · subst e; rw [hd.entsSelf]; simp
  · rw [hd.entsOther r' e]; simp [e]

theorem Deleted.keys (hd : Deleted W s s' r) (h : Inv W s) (x : Str) :
    x ∈ s'.db.repos.keys ↔ x ≠ r ∧ x ∈ s.db.repos.keys := by
  rw [hd.repos, KV.mem_keys_get, KV.mem_keys_get]
  constructor
  · rintro ⟨v, hv⟩
    rw [KV.get_del] at hv
    split at hv
    · cases hv
    · exact ⟨by assumption, v, hv⟩
  · rintro ⟨a, v, hv⟩
    exact ⟨v, by rw [KV.get_del, if_neg a]; exact hv⟩

/-- Deleting a repository keeps the invariant. -/
theorem DeletedFull.inv (hd : DeletedFull W s s' r) (h : Inv W s) : Inv W s' := by
  have hD := hd.toDeleted
  have hk := hD.keys h
  have hfilt : ∀ (p : Str → Bool), p r = false → (s'.db.repos.keys.filter p) = s.db.repos.keys.filter p := by
    intro p hp
    have hs1 : SortedS (s'.db.repos.keys.filter p) := by
      apply SortedS.filter'
      rw [hD.repos]; exact (h.wfRepos.del r).sorted_keys
    have hs2 : SortedS (s.db.repos.keys.filter p) := h.wfRepos.sorted_keys.filter' p
    have hn0 : s'.db.repos.keys.Nodup := by
      rw [hD.repos]; exact (h.wfRepos.del r).nodup_keys
    have hn1 : (s'.db.repos.keys.filter p).Nodup := hn0.filter p
    have hn2 : (s.db.repos.keys.filter p).Nodup := h.wfRepos.nodup_keys.filter p
    refine SortedS.ext hs1 hs2 hn1 hn2 ?_
    intro a
    simp only [List.mem_filter, hk]
    constructor
    · rintro ⟨⟨_, b⟩, c⟩; exact ⟨b, c⟩
    · rintro ⟨b, c⟩
      refine ⟨⟨?_, b⟩, c⟩
      rintro rfl; rw [hp] at c; cases c
  have hh : ∀ r' j, s'.has r' j = true ↔ s.has r' j = true ∧ ¬ (r' = r ∧ j ∈ s.listed r) := by
    intro r' j
    rw [hD.has]
    by_cases e : r' = r
    · subst e
      simp only [if_true, Bool.false_eq_true, true_and, false_iff, not_and, Classical.not_not]
      intro hx; exact (h.mem_listed r' j).2 (Or.inl hx)
    · simp [e]
  have hhd : ∀ r' j, s'.hasDelta r' j = true → s.hasDelta r' j = true ∧ ¬ (r' = r ∧ j ∈ s.listed r) := by
    intro r' j hx
    rw [hD.hasDelta] at hx
    by_cases e : r' = r
    · simp [e] at hx
    · simp only [e, if_false] at hx; exact ⟨hx, fun y => e y.1⟩
  obtain ⟨hP, hA, hDl⟩ := drop_pool (s' := s') (r := r) (L := s.listed r) h
    (fun j hj => (h.mem_listed r j).1 hj) hD.pool hh hhd
    (fun j => by unfold St.holders; apply hfilt; rw [hD.has]; simp)
    (fun j => by unfold St.dholders; apply hfilt; rw [hD.hasDelta]; simp)
  have htabR : ∀ r' c j, W.isDelta j = false → ((s'.fs.tab (.repo r' c j)).isSome = true ↔
      (s.fs.tab (.repo r' c j)).isSome = true ∧ ¬ (r' = r ∧ j ∈ s.listed r)) := by
    intro r' c j hj
    rw [hd.tab]
    by_cases e : r' = r
    · subst e
      have : (Path.repo r' c j).inRepo r' = true := by simp [Path.inRepo]
      simp only [this, Bool.or_true, if_true, Option.isSome_none, Bool.false_eq_true, true_and, false_iff,
        not_and, Classical.not_not]
      intro hx
      exact (h.mem_listed r' j).2 (Or.inl ((h.repoFile r' j c hj).1 hx).1)
    · simp [Path.inRepo, rmPath, e]
  obtain ⟨hF1, hF2⟩ := drop_files (s' := s') (r := r) (L := s.listed r) h hD.pool hh
    (fun c j => by rw [hd.tab]; simp [Path.inRepo]) htabR
  have hwfE : ∀ r', (s'.db.ents r').WF := by
    intro r'
    by_cases e : r' = r
    · subst e; rw [hD.entsSelf]; exact KV.WF_nil
    · rw [hD.entsOther r' e]; exact h.wfEnts r'
  exact {
    wfPool := hD.wfPool h.wfPool
    wfSkip := by rw [hD.skip]; exact h.wfSkip
    wfRepos := by rw [hD.repos]; exact h.wfRepos.del _
    wfEnts := hwfE
    noEnts := by
      intro r' hr'
      by_cases e : r' = r
      · subst e; exact hD.entsSelf
      · rw [hD.entsOther r' e]
        apply h.noEnts
        intro hx; exact hr' ((hk r').2 ⟨e, hx⟩)
    cache := by
      intro r' hr'
      obtain ⟨a, b⟩ := hd.cache r' hr'
      exact (hk r').2 ⟨a, h.cache r' b⟩
    rdir := by
      intro r' hr'
      rw [hd.rdir] at hr'
      split at hr'
      · cases hr'
      · rename_i e; exact (hk r').2 ⟨e, h.rdir r' hr'⟩
    repoRes := by
      intro r' hr'
      exact h.repoRes r' ((hk r').1 hr').2
    pend := hd.pend
    ent := by
      intro r' n e hg
      have hmem : ∀ j, j ∈ e.available → s'.has r' j = true := fun j hj =>
        (St.has_iff (hwfE r') j).2 ⟨n, e, hg, hj⟩
      have hdmem : ∀ j, j ∈ e.deltas → s'.hasDelta r' j = true := fun j hj =>
        (St.hasDelta_iff (hwfE r') j).2 ⟨n, e, hg, hj⟩
      by_cases er : r' = r
      · subst er; rw [hD.entsSelf] at hg; simp at hg
      · rw [hD.entsOther r' er] at hg
        have he := h.ent r' n e hg
        exact { he with
          avail := fun x hx => ⟨(he.avail x hx).1, hA r' x (hmem x hx), (he.avail x hx).2.2⟩
          deltas := fun x hx => ⟨(he.deltas x hx).1, hDl r' x (hdmem x hx), (he.deltas x hx).2.2⟩ }
    pool := hP
    fs := h.fs.removed hd.data hd.next (by
      intro p i hp
      rw [hd.tab] at hp
      split at hp
      · cases hp
      · exact hp)
    poolFile := hF1
    repoFile := hF2
    dFile := by
      intro r' d k hx hk'
      rw [hD.hasDelta] at hx
      by_cases e : r' = r
      · simp [e] at hx
      · simp only [e, if_false] at hx
        rw [hd.tab]
        simp only [rmPath, Path.inRepo, e, false_and, decide_false, Bool.or_self, Bool.false_eq_true,
          if_false]
        exact h.dFile r' d k hx hk'
    noOrphan := by
      intro r' k j hx
      rw [hd.tab] at hx
      split at hx
      · simp at hx
      · rename_i hn
        rw [hD.keys h]
        refine ⟨?_, h.noOrphan r' k j hx⟩
        rintro rfl
        simp [Path.inRepo] at hn }

end

end Ferryd
