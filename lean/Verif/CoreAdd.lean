import Verif.CoreInv
/-! # CoreAdd: adding one package to one repository (refPackage / addLocalPackage) -/
namespace Ferryd

/-- The repository record after adding package `id`: available list extended, tip moved if the new
release is higher; the delta list starts empty. -/
def World.addedEntry (W : World) (s : St) (r id : Str) : RepoEntry :=
  match (s.db.ents r).get (W.mOf id).name with
  | none => ⟨(W.mOf id).name, [id], id, []⟩
  | some e => ⟨(W.mOf id).name, sortS (e.available ++ [id]),
      if (W.mOf id).rel > (W.mOf e.published).rel then id else e.published, []⟩

/-- `s'` is `s` with package `id` added to repository `r`. -/
structure Added (W : World) (s s' : St) (r id c : Str) : Prop where
  pool : s'.db.pool = s.db.pool.put id ⟨id, (s.holders id).length + 1, W.stamped id, none⟩
  skip : s'.db.skip = s.db.skip
  repos : s'.db.repos = s.db.repos
  ents : s'.db.ents = setEnts s.db.ents r ((s.db.ents r).put (W.mOf id).name (W.addedEntry s r id))
  cache : s'.cache = s.cache
  pend : s'.pend = s.pend
  clock : s'.clock = s.clock
  rdir : s'.fs.rdir = s.fs.rdir
  idx : s'.fs.idx = s.fs.idx
  fs : FInv W s'.fs
  tabOther : ∀ q, q ≠ .pool c id → q ≠ .repo r c id → s'.fs.tab q = s.fs.tab q
  readOther : ∀ q, q ≠ .pool c id → q ≠ .repo r c id → s'.fs.read q = s.fs.read q
  poolTab : (s'.fs.tab (.pool c id)).isSome = true
  repoTab : (s'.fs.tab (.repo r c id)).isSome = true

theorem mem_addedEntry (W : World) (s : St) (r id j : Str) :
    j ∈ (W.addedEntry s r id).available ↔ j ∈ s.availOf r (W.mOf id).name ∨ j = id := by
  unfold World.addedEntry St.availOf
  cases (s.db.ents r).get (W.mOf id).name with
  | none => simp
  | some e => simp

theorem Inv.availOf_iff {W : World} {s : St} (h : Inv W s) (r j n : Str) :
    j ∈ s.availOf r n ↔ s.has r j = true ∧ (W.mOf j).name = n := by
  unfold St.availOf
  rw [h.has_iff]
  constructor
  · intro hj
    cases hg : (s.db.ents r).get n with
    | none => simp [hg] at hj
    | some e =>
      simp only [hg] at hj
      have hn := ((h.ent r n e hg).avail j hj).2.2
      subst hn
      exact ⟨⟨e, hg, hj⟩, rfl⟩
  · rintro ⟨⟨e, hg, hj⟩, rfl⟩
    simp only [hg]; exact hj

theorem Inv.count_eq {W : World} {s : St} (h : Inv W s) {id : Str} (hd : W.isDelta id = false) :
    (match s.db.pool.get id with | some pe => pe.refCount | none => 0) = (s.holders id).length := by
  cases hg : s.db.pool.get id with
  | some pe => exact (h.pool id pe hg).count hd
  | none =>
    have : s.holders id = [] := by
      rw [List.eq_nil_iff_forall_not_mem]
      intro r hr
      obtain ⟨_, _, pe, hp⟩ := h.has_facts ((h.mem_holders r id).1 hr)
      rw [hg] at hp; cases hp
    simp [this]

section
variable {W : World} {s s' : St} {r id c : Str}

theorem Added.has (ha : Added W s s' r id c) (h : Inv W s) (r' j : Str) :
    s'.has r' j = true ↔ s.has r' j = true ∨ (r' = r ∧ j = id) := by
  have hwf : ∀ r', (s'.db.ents r').WF := by
    intro r'; rw [ha.ents]; unfold setEnts; split
    · exact (h.wfEnts r).put _ _
    · exact h.wfEnts r'
  rw [St.has_iff (hwf r'), ha.ents]
  unfold setEnts
  by_cases e : r' = r
  · subst e
    simp only [if_true, true_and]
    constructor
    · rintro ⟨n, e, hg, hj⟩
      rw [KV.get_put] at hg
      split at hg
      · cases hg
        rcases (mem_addedEntry W s r' id j).1 hj with h1 | h1
        · exact Or.inl ((h.availOf_iff _ _ _).1 h1).1
        · exact Or.inr h1
      · exact Or.inl ((St.has_iff (h.wfEnts r') j).2 ⟨n, e, hg, hj⟩)
    · rintro (hj | rfl)
      · obtain ⟨e, hg, hi⟩ := (h.has_iff r' j).1 hj
        by_cases hn : (W.mOf j).name = (W.mOf id).name
        · refine ⟨(W.mOf id).name, _, KV.get_put_self _ _ _, ?_⟩
          rw [mem_addedEntry]
          exact Or.inl ((h.availOf_iff _ _ _).2 ⟨hj, hn⟩)
        · exact ⟨_, e, by rw [KV.get_put_ne _ _ hn]; exact hg, hi⟩
      · refine ⟨(W.mOf j).name, _, KV.get_put_self _ _ _, ?_⟩
        rw [mem_addedEntry]; exact Or.inr rfl
  · simp only [e, if_false, false_and, or_false]
    exact (St.has_iff (h.wfEnts r') j).symm

theorem addedEntry_deltas (W : World) (s : St) (r id : Str) : (W.addedEntry s r id).deltas = [] := by
  unfold World.addedEntry; split <;> rfl

theorem addedEntry_name (W : World) (s : St) (r id : Str) :
    (W.addedEntry s r id).name = (W.mOf id).name := by
  unfold World.addedEntry; split <;> rfl

theorem Added.hasDelta_le (ha : Added W s s' r id c) (h : Inv W s) (r' j : Str) :
    s'.hasDelta r' j = true → s.hasDelta r' j = true := by
  have hwf : ∀ r', (s'.db.ents r').WF := by
    intro r'; rw [ha.ents]; unfold setEnts; split
    · exact (h.wfEnts r).put _ _
    · exact h.wfEnts r'
  rw [St.hasDelta_iff (hwf r'), ha.ents, St.hasDelta_iff (h.wfEnts r')]
  unfold setEnts
  rintro ⟨n, e, hg, hj⟩
  split at hg
  · rename_i er; subst er
    rw [KV.get_put] at hg
    split at hg
    · cases hg; rw [addedEntry_deltas] at hj; simp at hj
    · exact ⟨n, e, hg, hj⟩
  · exact ⟨n, e, hg, hj⟩

/-- Adding a package keeps the invariant. -/
theorem Added.inv (ha : Added W s s' r id c) (ok : W.OK) (h : Inv W s) (hr : r ∈ s.db.repos.keys)
    (hnd : W.isDelta id = false) (hp : W.IsPkg id) (hc : W.compOf id = some c)
    (hnew : s.has r id = false) : Inv W s' := by
  have hhas := ha.has h
  have hpoolmono : ∀ j, (∃ pe, s.db.pool.get j = some pe) → ∃ pe, s'.db.pool.get j = some pe := by
    rintro j ⟨pe, hpe⟩
    rw [ha.pool, KV.get_put]
    split
    · exact ⟨_, rfl⟩
    · exact ⟨pe, hpe⟩
  have hpoolid : ∃ pe, s'.db.pool.get id = some pe := by rw [ha.pool, KV.get_put_self]; exact ⟨_, rfl⟩
  -- an unchanged entry stays fine
  have hentmono : ∀ n e, EntOk W s n e → EntOk W s' n e := by
    intro n e he
    exact { he with
      avail := fun j hj => ⟨(he.avail j hj).1, hpoolmono j (he.avail j hj).2.1, (he.avail j hj).2.2⟩
      deltas := fun j hj => ⟨(he.deltas j hj).1, hpoolmono j (he.deltas j hj).2.1, (he.deltas j hj).2.2⟩ }
  have hnewEnt : EntOk W s' (W.mOf id).name (W.addedEntry s r id) := by
    have hidnotin : id ∉ s.availOf r (W.mOf id).name := by
      intro hm
      have := ((h.availOf_iff r id _).1 hm).1
      rw [hnew] at this; cases this
    unfold World.addedEntry
    cases hg : (s.db.ents r).get (W.mOf id).name with
    | none =>
      exact {
        name := rfl, nres := (ok.meta hp).nres, sorted := List.pairwise_singleton _ _
        nodup := by simp
        avail := by
          intro j hj
          simp at hj; subst hj
          exact ⟨hnd, hpoolid, rfl⟩
        pub := by simp
        top := by intro j hj; simp at hj; subst hj; exact Int.le_refl _
        dnodup := List.nodup_nil
        deltas := by simp }
    | some e =>
      have he := h.ent r _ e hg
      have hidn : id ∉ e.available := by
        intro hm; apply hidnotin; unfold St.availOf; rw [hg]; exact hm
      exact {
        name := rfl, nres := he.nres, sorted := sortS_sorted _
        nodup := by
          rw [nodup_sortS, List.nodup_append]
          refine ⟨he.nodup, by simp, ?_⟩
          intro a hma b hb
          simp at hb; subst hb
          rintro rfl; exact hidn hma
        avail := by
          intro j hj
          simp at hj
          rcases hj with hj | rfl
          · exact ⟨(he.avail j hj).1, hpoolmono j (he.avail j hj).2.1, (he.avail j hj).2.2⟩
          · exact ⟨hnd, hpoolid, rfl⟩
        pub := by
          simp only [mem_sortS, List.mem_append, List.mem_singleton]
          split
          · exact Or.inr rfl
          · exact Or.inl he.pub
        top := by
          intro j hj
          simp at hj
          simp only
          split
          · rename_i hlt
            rcases hj with hj | rfl
            · have := he.top j hj; omega
            · omega
          · rename_i hlt
            rcases hj with hj | rfl
            · exact he.top j hj
            · omega
        dnodup := List.nodup_nil
        deltas := by simp }
  exact {
    wfPool := by rw [ha.pool]; exact h.wfPool.put _ _
    wfSkip := by rw [ha.skip]; exact h.wfSkip
    wfRepos := by rw [ha.repos]; exact h.wfRepos
    wfEnts := by
      intro r'; rw [ha.ents]; unfold setEnts; split
      · exact (h.wfEnts r).put _ _
      · exact h.wfEnts r'
    noEnts := by
      intro r' hr'
      rw [ha.repos] at hr'
      rw [ha.ents]; unfold setEnts; split
      · rename_i e; subst e; exact absurd hr hr'
      · exact h.noEnts r' hr'
    cache := by rw [ha.cache, ha.repos]; exact h.cache
    rdir := by rw [ha.rdir, ha.repos]; exact h.rdir
    repoRes := by rw [ha.repos]; exact h.repoRes
    pend := by rw [ha.pend]; exact h.pend
    ent := by
      intro r' n e hg
      rw [ha.ents] at hg
      unfold setEnts at hg
      split at hg
      · rename_i er; subst er
        rw [KV.get_put] at hg
        split at hg
        · rename_i hn; cases hg; subst hn; exact hnewEnt
        · exact hentmono n e (h.ent _ n e hg)
      · exact hentmono n e (h.ent _ n e hg)
    pool := by
      intro j pe hg
      rw [ha.pool, KV.get_put] at hg
      have hholdne : j ≠ id → s'.holders j = s.holders j := by
        intro hne
        unfold St.holders
        rw [ha.repos]
        apply List.filter_congr
        intro r' _
        have := hhas r' j
        rw [Bool.eq_iff_iff, this]
        simp [hne]
      have hdh : (s'.dholders j).length ≤ (s.dholders j).length := by
        unfold St.dholders
        rw [ha.repos, ← List.countP_eq_length_filter, ← List.countP_eq_length_filter]
        apply List.countP_mono_left
        intro r' _ hx
        exact ha.hasDelta_le h r' j hx
      split at hg
      · rename_i e; subst e
        cases hg
        exact {
          name := rfl, isPkg := hp, pkg := rfl, delta := by simp [hnd], pos := by simp
          count := by
            intro _
            unfold St.holders
            rw [ha.repos]
            have := length_filter_flip (l := s.db.repos.keys) h.wfRepos.nodup_keys hr
              (p := fun r' => s.has r' j) (q := fun r' => s'.has r' j) hnew
              ((hhas r j).2 (Or.inr ⟨rfl, rfl⟩)) (by
                intro x hx
                rw [Bool.eq_iff_iff, hhas x j]; simp [hx])
            simp only
            omega
          dcount := by intro hx; rw [hnd] at hx; cases hx
          dinfo := by intro di hx; cases hx }
      · rename_i hne
        have hpo := h.pool j pe hg
        exact { hpo with
          count := by intro hx; rw [hholdne hne]; exact hpo.count hx
          dcount := by intro hx; exact Nat.le_trans hdh (hpo.dcount hx) }
    fs := ha.fs
    poolFile := by
      intro j d
      by_cases e : j = id
      · subst e
        by_cases ec : d = c
        · subst ec
          exact ⟨fun _ => ⟨hpoolid, hc⟩, fun _ => ha.poolTab⟩
        · rw [ha.tabOther _ (by simp [ec]) (by simp)]
          have h1 := h.poolFile j d
          rw [h1]
          constructor
          · rintro ⟨_, h2⟩; rw [hc] at h2; cases h2; exact absurd rfl ec
          · rintro ⟨_, h2⟩; rw [hc] at h2; cases h2; exact absurd rfl ec
      · rw [ha.tabOther _ (by simp [e]) (by simp), h.poolFile j d, ha.pool, KV.get_put]
        simp [e]
    repoFile := by
      intro r' j d hjd
      rw [hhas r' j]
      by_cases e : j = id ∧ r' = r
      · obtain ⟨rfl, rfl⟩ := e
        by_cases ec : d = c
        · subst ec
          exact ⟨fun _ => ⟨Or.inr ⟨rfl, rfl⟩, hc⟩, fun _ => ha.repoTab⟩
        · rw [ha.tabOther _ (by simp) (by simp [ec])]
          rw [h.repoFile r' j d hjd, hnew]
          constructor
          · rintro ⟨h2, _⟩; cases h2
          · rintro ⟨_, h2⟩; rw [hc] at h2; cases h2; exact absurd rfl ec
      · rw [ha.tabOther _ (by simp) (by simp; intro a _ b; exact e ⟨b, a⟩), h.repoFile r' j d hjd]
        have : ¬ (r' = r ∧ j = id) := fun hx => e ⟨hx.2, hx.1⟩
        simp [this]
    dFile := by
      intro r' d k hx hk
      have h0 := ha.hasDelta_le h r' d hx
      have hdd : W.isDelta d = true := by
        obtain ⟨n, e, hg, hi⟩ := (St.hasDelta_iff (h.wfEnts r') d).1 h0
        exact ((h.ent r' n e hg).deltas d hi).1
      have hne : d ≠ id := by rintro rfl; rw [hnd] at hdd; cases hdd
      rw [ha.tabOther _ (by simp) (by simp [hne])]
      exact h.dFile r' d k h0 hk
    noOrphan := by
      intro r' k j hx
      rw [ha.repos]
      by_cases e : r' = r
      · rw [e]; exact hr
      · rw [ha.tabOther _ (by simp) (by simp [e])] at hx
        exact h.noOrphan r' k j hx }

end

/-! ## Execution -/

theorem buildSaneEntry_run {W : World} {s : St} {r id : Str} {m : Meta} (ok : W.OK) (h : Inv W s)
    (hp : W.IsPkg id) (hm : m.name = (W.mOf id).name) (hh : m.history = (W.mOf id).history) :
    buildSaneEntry r m id s =
      ⟨.ok (if s.has r id then none else some (W.addedEntry s r id)), s, []⟩ := by
  have hrel : m.rel = (W.mOf id).rel := by unfold Meta.rel; rw [hh]
  have hhist : m.history ≠ [] := by rw [hh]; exact (ok.meta hp).hist
  unfold buildSaneEntry World.addedEntry
  simp only [repoGet?_bind]
  rw [hm]
  cases hg : (s.db.ents r).get (W.mOf id).name with
  | none =>
    have : s.has r id = false := by
      rw [Bool.eq_false_iff]; intro hx
      obtain ⟨e, he, _⟩ := (h.has_iff r id).1 hx
      rw [hg] at he; cases he
    simp [this]
  | some e =>
    have he := h.ent r _ e hg
    obtain ⟨pe, hpe⟩ := (he.avail _ he.pub).2.1
    have hpo := h.pool _ pe hpe
    have hh2 : pe.pkg.history ≠ [] := by rw [hpo.pkg]; exact (ok.meta hpo.isPkg).hist
    have hr2 : pe.pkg.rel = (W.mOf e.published).rel := by rw [hpo.pkg]; rfl
    have hmem : s.has r id = decide (id ∈ e.available) := by
      rw [Bool.eq_iff_iff, h.has_iff, hg]; simp
    simp only [bind_assoc_run, poolGet?_bind, hpe, getRelease_bind hhist, getRelease_bind hh2, hrel, hr2,
      hmem]
    by_cases hin : id ∈ e.available
    · simp only [hin, decide_true, if_true]
      split <;> simp
    · simp only [hin, decide_false, if_false]
      split <;> simp

/-- What a crash inside an addition can leave behind: the database either untouched or with only the
reference count raised (or the new pool entry written), the files of the package possibly linked. -/
structure Adding (W : World) (s t : St) (r id c : Str) : Prop where
  pool : t.db.pool = s.db.pool ∨
    t.db.pool = s.db.pool.put id ⟨id, (s.holders id).length + 1, W.stamped id, none⟩
  skip : t.db.skip = s.db.skip
  repos : t.db.repos = s.db.repos
  ents : t.db.ents = s.db.ents
  cache : t.cache = s.cache
  rdir : t.fs.rdir = s.fs.rdir
  idx : t.fs.idx = s.fs.idx
  fresh : t.fs.Fresh
  tabOther : ∀ q, q ≠ .pool c id → q ≠ .repo r c id → t.fs.tab q = s.fs.tab q
  readOther : ∀ q, q ≠ .pool c id → q ≠ .repo r c id → t.fs.read q = s.fs.read q
  poolKept : (∃ pe, s.db.pool.get id = some pe) → t.fs.read (.pool c id) = s.fs.read (.pool c id)
  /-- once the pool entry is in the database its file is complete -/
  poolNew : (∃ pe, t.db.pool.get id = some pe) → t.fs.read (.pool c id) = some (W.canon id)

theorem Inv.poolRead {W : World} {s : St} (h : Inv W s) {id c : Str} {pe : PoolEntry}
    (hg : s.db.pool.get id = some pe) (hnd : W.isDelta id = false) (hc : W.compOf id = some c) :
    s.fs.read (.pool c id) = some (W.canon id) := by
  have h1 := (h.poolFile id c).2 ⟨⟨pe, hg⟩, hc⟩
  obtain ⟨i, hi⟩ := Option.isSome_iff_exists.1 h1
  have hr : s.fs.read (.pool c id) = some (s.fs.data i) := by simp [FS.read, hi]
  rcases h.fs.content _ _ rfl hr with h2 | h2
  · rw [hr, h2]; rfl
  · simp [Path.base] at h2; rw [hnd] at h2; simp at h2

theorem Inv.repoRead {W : World} {s : St} (h : Inv W s) {r id c : Str}
    (hg : s.has r id = true) (hnd : W.isDelta id = false) (hc : W.compOf id = some c) :
    s.fs.read (.repo r c id) = some (W.canon id) := by
  have h1 := (h.repoFile r id c hnd).2 ⟨hg, hc⟩
  obtain ⟨i, hi⟩ := Option.isSome_iff_exists.1 h1
  have hr : s.fs.read (.repo r c id) = some (s.fs.data i) := by simp [FS.read, hi]
  rcases h.fs.content _ _ rfl hr with h2 | h2
  · rw [hr, h2]; rfl
  · simp [Path.base] at h2; rw [hnd] at h2; simp at h2

/-- The second half of both additions: link into the repository tree, write the record.
`s1` is the state after the pool part. -/
theorem finishAdd_run {W : World} {s s1 : St} {r id c : Str} (ok : W.OK) (h : Inv W s)
    (hnd : W.isDelta id = false) (hp : W.IsPkg id) (hc : W.compOf id = some c)
    (hnew : s.has r id = false)
    (hdb : s1.db = { s.db with pool := s.db.pool.put id ⟨id, (s.holders id).length + 1, W.stamped id, none⟩ })
    (hcache : s1.cache = s.cache) (hpend : s1.pend = s.pend) (hclock : s1.clock = s.clock)
    (hrdir : s1.fs.rdir = s.fs.rdir) (hidx : s1.fs.idx = s.fs.idx)
    (hfs : FInv W s1.fs)
    (htab : ∀ q, q ≠ .pool c id → s1.fs.tab q = s.fs.tab q)
    (hread : ∀ q, q ≠ .pool c id → s1.fs.read q = s.fs.read q)
    (hpool : s1.fs.read (.pool c id) = some (W.canon id)) :
    ∃ s' tr, (linkOrCopy W.E (.pool c id) (.repo r c id) false >>= fun _ =>
        repoPut r (W.addedEntry s r id)) s1 = ⟨.ok (), s', tr⟩ ∧ Added W s s' r id c ∧
      ∀ t ∈ tr, Adding W s t r id c ∨ Added W s t r id c := by
  have hdst : s1.fs.tab (.repo r c id) = none := by
    rw [htab _ (by simp)]
    cases hx : s.fs.tab (.repo r c id) with
    | none => rfl
    | some i =>
      have := (h.repoFile r id c hnd).1 (by rw [hx]; rfl)
      rw [hnew] at this; cases this.1
  obtain ⟨fs', tr, hrun, hL, htr⟩ := linkOrCopy_fresh W.E hfs.fresh false hpool hdst
  have hres : reservedKey (DbWrite.putEnt r (W.addedEntry s r id).name (W.addedEntry s r id)).key = false := by
    simp only [DbWrite.key, addedEntry_name]; exact (ok.meta hp).nres
  have hput := dbWrite_direct hres (s1.setFs fs')
  have hfs' : FInv W fs' := hfs.linked hL rfl rfl rfl rfl
  let w : DbWrite := .putEnt r (W.addedEntry s r id).name (W.addedEntry s r id)
  let s2 : St := { s1.setFs fs' with db := w.apply s1.db }
  have hs2 : s2.db = w.apply s1.db := rfl
  have hA : Added W s s2 r id c := by
    refine {
      pool := by simp [hs2, w, DbWrite.apply, hdb]
      skip := by simp [hs2, w, DbWrite.apply, hdb]
      repos := by simp [hs2, w, DbWrite.apply, hdb]
      ents := by simp [hs2, w, DbWrite.apply, hdb, addedEntry_name]
      cache := hcache, pend := hpend, clock := hclock
      rdir := hL.rdir.trans hrdir
      idx := hL.idx.trans hidx
      fs := hfs'
      tabOther := ?_, readOther := ?_, poolTab := ?_, repoTab := ?_ }
    · intro q h1 h2
      show fs'.tab q = _
      rw [hL.tab q h2, htab q h1]
    · intro q h1 h2
      show fs'.read q = _
      rw [hL.linking.read_ne hfs.fresh h2, hread q h1]
    · show (fs'.tab _).isSome = true
      rw [hL.tab _ (by simp)]
      obtain ⟨i, hi, _⟩ := FS.read_eq_some.1 hpool
      rw [hi]; rfl
    · show (fs'.tab _).isSome = true
      obtain ⟨j, hj, _⟩ := hL.dst
      rw [hj]; rfl
  refine ⟨s2, tr ++ [s2], ?_, hA, ?_⟩
  · rw [bind_ok hrun]
    unfold repoPut
    rw [hput]; rfl
  · intro t ht
    rcases List.mem_append.1 ht with ht | ht
    · left
      obtain ⟨g, rfl, hg⟩ := htr t ht
      exact {
        pool := Or.inr (by simp [hdb])
        skip := by simp [hdb]
        repos := by simp [hdb]
        ents := by simp [hdb]
        cache := hcache
        rdir := by simp [hg.rdir, hrdir]
        idx := by simp [hg.idx, hidx]
        fresh := hfs.fresh.linking hg
        tabOther := by
          intro q h1 h2
          show g.tab q = _
          rw [hg.tab q h2, htab q h1]
        readOther := by
          intro q h1 h2
          show g.read q = _
          rw [hg.read_ne hfs.fresh h2, hread q h1]
        poolKept := by
          rintro ⟨pe, hpe⟩
          show g.read _ = _
          rw [hg.read_ne hfs.fresh (by simp), hpool, h.poolRead hpe hnd hc]
        poolNew := by
          intro _
          show g.read _ = _
          rw [hg.read_ne hfs.fresh (by simp), hpool] }
    · simp at ht; subst ht; right; exact hA

/-- repo.go:580-616: adding a pool package to a repository that does not have it. -/
theorem refPackage_new {W : World} {s : St} {r id : Str} (ok : W.OK) (h : Inv W s)
    {pe : PoolEntry} (hg : s.db.pool.get id = some pe) (hnd : W.isDelta id = false)
    (hnew : s.has r id = false) :
    ∃ c s' tr, W.compOf id = some c ∧ refPackage W.E r id s = ⟨.ok (), s', tr⟩ ∧ Added W s s' r id c ∧
      ∀ t ∈ tr, Adding W s t r id c ∨ Added W s t r id c := by
  have hpo := h.pool id pe hg
  have hp := hpo.isPkg
  obtain ⟨c, hc⟩ := ok.comp hp
  have hcomp : pathComp? pe.pkg.source = some c := by rw [hpo.pkg]; exact hc
  have hb := buildSaneEntry_run (r := r) (m := pe.pkg) ok h hp (by rw [hpo.pkg]; rfl) (by rw [hpo.pkg]; rfl)
  have hent : ({ pe with refCount := pe.refCount + 1 } : PoolEntry) =
      ⟨id, (s.holders id).length + 1, W.stamped id, none⟩ := by
    have h1 := hpo.count hnd
    have h2 : pe.delta = none := by
      have := hpo.delta; rw [hnd] at this
      cases hd : pe.delta with
      | none => rfl
      | some d => rw [hd] at this; cases this
    rw [hpo.name, hpo.pkg, h2, h1]
  have hres : reservedKey (DbWrite.putPool pe.name { pe with refCount := pe.refCount + 1 }).key = false := by
    simp only [DbWrite.key, hpo.name]; exact (ok.gid hp).nres
  let s1 : St := { s with db := (DbWrite.putPool pe.name { pe with refCount := pe.refCount + 1 }).apply s.db }
  have hs1db : s1.db = { s.db with pool := s.db.pool.put id ⟨id, (s.holders id).length + 1, W.stamped id, none⟩ } := by
    show (DbWrite.putPool pe.name { pe with refCount := pe.refCount + 1 }).apply s.db = _
    rw [hent]; simp [DbWrite.apply, hpo.name]
  obtain ⟨s', tr, hrun, hA, htr⟩ := finishAdd_run (s1 := s1) ok h hnd hp hc hnew hs1db rfl rfl rfl rfl rfl h.fs
    (fun _ _ => rfl) (fun _ _ => rfl) (h.poolRead hg hnd hc)
  refine ⟨c, s', s1 :: tr, hc, ?_, hA, ?_⟩
  · unfold refPackage
    rw [poolGet_bind_some _ hg, pathComp_bind hcomp, bind_ok hb]
    simp only [hnew, Bool.false_eq_true, if_false, Out.pre_nil]
    have href : refEntry id s = ⟨.ok (), s1, [s1]⟩ := by
      unfold refEntry
      rw [poolGet_bind_some _ hg, dbWrite_direct hres]
    rw [bind_ok href, hrun]; rfl
  · intro t ht
    rcases List.mem_cons.1 ht with rfl | ht
    · left
      exact {
        pool := Or.inr (by rw [hs1db])
        skip := by rw [hs1db]
        repos := by rw [hs1db]
        ents := by rw [hs1db]
        cache := rfl, rdir := rfl, idx := rfl
        fresh := h.fs.fresh
        tabOther := fun _ _ _ => rfl
        readOther := fun _ _ _ => rfl
        poolKept := fun _ => rfl
        poolNew := fun _ => h.poolRead hg hnd hc }
    · exact htr t ht

/-- repo.go:593-596: a package the repository already has is skipped. -/
theorem refPackage_old {W : World} {s : St} {r id : Str} (ok : W.OK) (h : Inv W s)
    (hold : s.has r id = true) : refPackage W.E r id s = ⟨.ok (), s, []⟩ := by
  obtain ⟨_, hnd, pe, hg⟩ := h.has_facts hold
  have hpo := h.pool id pe hg
  obtain ⟨c, hc⟩ := ok.comp hpo.isPkg
  have hcomp : pathComp? pe.pkg.source = some c := by rw [hpo.pkg]; exact hc
  have hb := buildSaneEntry_run (r := r) (m := pe.pkg) ok h hpo.isPkg (by rw [hpo.pkg]; rfl) (by rw [hpo.pkg]; rfl)
  unfold refPackage
  rw [poolGet_bind_some _ hg, pathComp_bind hcomp, bind_ok hb]
  simp [hold]

/-- Opening a package file. -/
theorem openPkg_run {W : World} {s : St} (h : Inv W s) (ok : W.OK) {p : Path} (hna : p.isAsset = false) :
    (openPkg W.E p s = ⟨.err .io, s, []⟩ ∧ s.fs.read p = none) ∨
    (openPkg W.E p s = ⟨.err .corrupt, s, []⟩ ∧ ∃ c, s.fs.read p = some c ∧ W.E.parse c = .bad) ∨
    (openPkg W.E p s = ⟨.ok ⟨p, p.base, W.mOf p.base⟩, s, []⟩ ∧ s.fs.read p = some (W.canon p.base) ∧
      W.IsPkg p.base) := by
  unfold openPkg
  simp only [getSt_bind]
  cases hr : s.fs.read p with
  | none => left; simp
  | some c =>
    right
    rcases h.fs.content p c hna hr with rfl | ⟨_, rfl⟩
    · cases hpz : W.E.parse (W.canon p.base) with
      | bad => left; exact ⟨by simp [hpz], _, rfl, hpz⟩
      | crash => exact absurd hpz (ok.no_crash _)
      | good m =>
        right
        have := World.isPkg_of hpz
        rw [this.2]
        exact ⟨by simp [hpz], rfl, this.1⟩
    · left
      exact ⟨by simp [ok.parse_nil], _, rfl, ok.parse_nil⟩

/-- repo.go:671-703: importing a package file into a repository that does not have it. -/
theorem addLocalPackage_new {W : World} {s : St} {r id : Str} {p : Path} (ok : W.OK) (h : Inv W s)
    (hid : p.base = id) (hext : ∃ f, p = .ext f)
    (hread : s.fs.read p = some (W.canon id)) (hp : W.IsPkg id) (hnd : W.isDelta id = false)
    (hnew : s.has r id = false) :
    ∃ c s' tr, W.compOf id = some c ∧ addLocalPackage W.E r ⟨p, id, W.mOf id⟩ s = ⟨.ok (), s', tr⟩ ∧
      Added W s s' r id c ∧ ∀ t ∈ tr, Adding W s t r id c ∨ Added W s t r id c := by
  obtain ⟨c, hc⟩ := ok.comp hp
  have hb := buildSaneEntry_run (r := r) (m := W.mOf id) ok h hp rfl rfl
  obtain ⟨f, rfl⟩ := hext
  cases hg : s.db.pool.get id with
  | some pe =>
    have hpo := h.pool id pe hg
    have hent : ({ pe with refCount := pe.refCount + 1 } : PoolEntry) =
        ⟨id, (s.holders id).length + 1, W.stamped id, none⟩ := by
      have h1 := hpo.count hnd
      have h2 : pe.delta = none := by
        have := hpo.delta; rw [hnd] at this
        cases hd : pe.delta with
        | none => rfl
        | some d => rw [hd] at this; cases this
      rw [hpo.name, hpo.pkg, h2, h1]
    have hres : reservedKey (DbWrite.putPool pe.name { pe with refCount := pe.refCount + 1 }).key = false := by
      simp only [DbWrite.key, hpo.name]; exact (ok.gid hp).nres
    let s1 : St := { s with db := (DbWrite.putPool pe.name { pe with refCount := pe.refCount + 1 }).apply s.db }
    have hs1db : s1.db = { s.db with pool := s.db.pool.put id ⟨id, (s.holders id).length + 1, W.stamped id, none⟩ } := by
      show (DbWrite.putPool pe.name { pe with refCount := pe.refCount + 1 }).apply s.db = _
      rw [hent]; simp [DbWrite.apply, hpo.name]
    obtain ⟨s', tr, hrun, hA, htr⟩ := finishAdd_run (s1 := s1) ok h hnd hp hc hnew hs1db rfl rfl rfl rfl rfl h.fs
      (fun _ _ => rfl) (fun _ _ => rfl) (h.poolRead hg hnd hc)
    have hadd : poolAddInternal W.E ⟨.ext f, id, W.mOf id⟩ false none s =
        ⟨.ok { pe with refCount := pe.refCount + 1 }, s1, [s1]⟩ := by
      unfold poolAddInternal
      simp only [poolGet?_bind, hg]
      rw [bind_ok (dbWrite_direct hres s)]
      rfl
    refine ⟨c, s', s1 :: tr, hc, ?_, hA, ?_⟩
    · unfold addLocalPackage
      rw [pathComp_bind (by exact hc), bind_ok hb]
      simp only [hnew, Bool.false_eq_true, if_false, Out.pre_nil]
      rw [bind_ok hadd, hrun]; rfl
    · intro t ht
      rcases List.mem_cons.1 ht with rfl | ht
      · left
        exact {
          pool := Or.inr (by rw [hs1db])
          skip := by rw [hs1db]
          repos := by rw [hs1db]
          ents := by rw [hs1db]
          cache := rfl, rdir := rfl, idx := rfl
          fresh := h.fs.fresh
          tabOther := fun _ _ _ => rfl
          readOther := fun _ _ _ => rfl
          poolKept := fun _ => rfl
          poolNew := fun _ => h.poolRead hg hnd hc }
      · exact htr t ht
  | none =>
    have hcnt : (s.holders id).length = 0 := by
      have := h.count_eq hnd; rw [hg] at this; exact this.symm
    have hdst : s.fs.tab (.pool c id) = none := by
      cases hx : s.fs.tab (.pool c id) with
      | none => rfl
      | some i =>
        obtain ⟨⟨pe, hpe⟩, _⟩ := (h.poolFile id c).1 (by rw [hx]; rfl)
        rw [hg] at hpe; cases hpe
    obtain ⟨fs1, tr1, hrun1, hL1, htr1⟩ := linkOrCopy_fresh W.E h.fs.fresh false hread hdst
    have hfs1 : FInv W fs1 := h.fs.linked hL1 (by simp [Path.owner, Path.base] at hid ⊢; exact hid) rfl hid rfl
    have hne : (Path.ext f) ≠ .pool c id := by simp
    have hr1 : fs1.read (.ext f) = some (W.canon id) := by
      rw [hL1.linking.read_ne h.fs.fresh hne, hread]
    have hsha : fileSha1 W.E (.ext f) (s.setFs fs1) = ⟨.ok (W.E.sha1 (W.canon id)), s.setFs fs1, []⟩ := by
      unfold fileSha1
      simp only [getSt_bind, St.setFs_fs, hr1, ok.canon_ne hp, if_false, pure_run]
    have hnr := (ok.gid hp).nres
    let e : PoolEntry := ⟨id, 1, W.stamped id, none⟩
    have hres : reservedKey (DbWrite.putPool id e).key = false := hnr
    let s1 : St := { s.setFs fs1 with db := (DbWrite.putPool id e).apply s.db }
    have hs1db : s1.db = { s.db with pool := s.db.pool.put id ⟨id, (s.holders id).length + 1, W.stamped id, none⟩ } := by
      show (DbWrite.putPool id e).apply s.db = _
      rw [hcnt]; rfl
    have hpoolread : fs1.read (.pool c id) = some (W.canon id) := by rw [hL1.read_dst, hread]
    obtain ⟨s', tr, hrun, hA, htr⟩ := finishAdd_run (s1 := s1) ok h hnd hp hc hnew hs1db rfl rfl rfl hL1.rdir hL1.idx hfs1
      (fun q hq => hL1.tab q hq) (fun q hq => hL1.linking.read_ne h.fs.fresh hq) hpoolread
    have hcD : (W.compOf id).getD [] = c := by rw [hc]; rfl
    have hadd : poolAddInternal W.E ⟨.ext f, id, W.mOf id⟩ false none s = ⟨.ok e, s1, tr1 ++ [s1]⟩ := by
      unfold poolAddInternal
      simp only [poolGet?_bind, hg, getSt_bind, hread]
      rw [pathComp_bind (by exact hc), bind_ok hrun1, bind_ok hsha]
      simp only [hnr, Bool.false_eq_true, if_false]
      have he : (⟨id, 1, { W.mOf id with
            hash := W.E.sha1 (W.canon id), size := (W.canon id).length,
            uri := mkURI c id }, none⟩ : PoolEntry) = e := by
        show _ = (⟨id, 1, W.stamped id, none⟩ : PoolEntry)
        unfold World.stamped; rw [hcD]
      rw [he, bind_ok (dbWrite_direct hres (s.setFs fs1))]
      simp [s1]
    refine ⟨c, s', (tr1 ++ [s1]) ++ tr, hc, ?_, hA, ?_⟩
    · unfold addLocalPackage
      rw [pathComp_bind (by exact hc), bind_ok hb]
      simp only [hnew, Bool.false_eq_true, if_false, Out.pre_nil]
      rw [bind_ok hadd, hrun]; rfl
    · intro t ht
      rcases List.mem_append.1 ht with ht | ht
      · left
        rcases List.mem_append.1 ht with ht | ht
        · obtain ⟨g, rfl, hG⟩ := htr1 t ht
          exact {
            pool := Or.inl rfl, skip := rfl, repos := rfl, ents := rfl, cache := rfl
            rdir := hG.rdir, idx := hG.idx
            fresh := h.fs.fresh.linking hG
            tabOther := fun q h1 _ => hG.tab q h1
            readOther := fun q h1 _ => hG.read_ne h.fs.fresh h1
            poolKept := by rintro ⟨pe, hpe⟩; rw [hg] at hpe; cases hpe
            poolNew := by rintro ⟨pe, hpe⟩; simp [hg] at hpe }
        · simp at ht; subst ht
          exact {
            pool := Or.inr (by rw [hs1db])
            skip := by rw [hs1db]
            repos := by rw [hs1db]
            ents := by rw [hs1db]
            cache := rfl, rdir := hL1.rdir, idx := hL1.idx
            fresh := hfs1.fresh
            tabOther := fun q h1 _ => hL1.tab q h1
            readOther := fun q h1 _ => hL1.linking.read_ne h.fs.fresh h1
            poolKept := by rintro ⟨pe, hpe⟩; rw [hg] at hpe; cases hpe
            poolNew := fun _ => hpoolread }
      · exact htr t ht

/-- repo.go:681-683: importing a package the repository already has changes nothing. -/
theorem addLocalPackage_old {W : World} {s : St} {r id : Str} {p : Path} (ok : W.OK) (h : Inv W s)
    (hp : W.IsPkg id) (hold : s.has r id = true) :
    addLocalPackage W.E r ⟨p, id, W.mOf id⟩ s = ⟨.ok (), s, []⟩ := by
  obtain ⟨c, hc⟩ := ok.comp hp
  have hb := buildSaneEntry_run (r := r) (m := W.mOf id) ok h hp rfl rfl
  unfold addLocalPackage
  rw [pathComp_bind (by exact hc), bind_ok hb]
  simp [hold]

end Ferryd
