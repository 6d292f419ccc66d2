import Verif.CoreRepo
/-! # CoreDelta: delta packages, asset files and index runs -/
namespace Ferryd

/-! ## Linking a delta package -/

/-- `dst`, a file of delta package `d`, has been created or overwritten; nothing else is affected except
other copies of `d`. -/
structure DL (W : World) (fs fs' : FS) (dst : Path) : Prop where
  finv : FInv W fs'
  tab : ∀ q, q ≠ dst → fs'.tab q = fs.tab q
  dstTab : (fs'.tab dst).isSome = true
  read : ∀ q, q.owner ≠ dst.owner → fs'.read q = fs.read q
  rdir : fs'.rdir = fs.rdir
  idx : fs'.idx = fs.idx

theorem Path.owner_base {p q : Path} (h : p.owner = q.owner) (hp : p.isAsset = false) : p.base = q.base := by
  cases p <;> cases q <;> simp_all [Path.owner, Path.isAsset]

theorem Path.owner_of_base {p q : Path} (h : p.base = q.base) (hp : p.isAsset = false)
    (hq : q.isAsset = false) : p.owner = q.owner := by
  cases p <;> cases q <;> simp_all [Path.owner, Path.isAsset]

theorem DL.overwrite {W : World} {fs : FS} (h : FInv W fs) {dst : Path} {c : Content}
    (hna : dst.isAsset = false) (hdl : W.isDelta dst.base = true) (hc : c = W.canon dst.base ∨ c = []) :
    DL W fs (fs.overwrite dst c) dst where
  finv := h.overwrite_delta hna hdl hc
  tab := fun q hq => FS.overwrite_tab_ne fs dst c hq
  dstTab := by rw [FS.overwrite_tab_dst]; rfl
  read := by
    intro q hq
    have hne : q ≠ dst := by rintro rfl; exact hq rfl
    apply FS.overwrite_read_ne h.fresh c hne
    intro i hi hq'
    exact hq (h.owner _ _ i hq' hi)
  rdir := by simp
  idx := by simp

theorem FS.openTrunc_overwrite (fs : FS) (dst : Path) : (fs.openTrunc dst).1 = fs.overwrite dst [] := by
  unfold FS.overwrite FS.openTrunc
  cases fs.tab dst with
  | none =>
    simp only [FS.setData]
    congr 1
    funext j; split <;> rfl
  | some j =>
    simp only [FS.setData]
    congr 1
    funext k; split <;> rfl

theorem DL.linked {W : World} {fs fs' : FS} {src dst : Path} (h : FInv W fs)
    (hl : FS.Linked fs fs' src dst) (ho : src.owner = dst.owner) (hna : dst.isAsset = false)
    (hsa : src.isAsset = false) : DL W fs fs' dst where
  finv := h.linked hl ho hna (Path.owner_base ho hsa) hsa
  tab := hl.tab
  dstTab := by obtain ⟨j, hj, _⟩ := hl.dst; rw [hj]; rfl
  read := by
    intro q hq
    have hne : q ≠ dst := by rintro rfl; exact hq rfl
    exact hl.linking.read_ne h.fresh hne
  rdir := hl.rdir
  idx := hl.idx

/-- util.go:67-75 for delta packages, whether or not the destination exists. -/
theorem linkOrCopy_delta {W : World} {s : St} {src dst : Path} (h : FInv W s.fs)
    (ho : src.owner = dst.owner) (hsa : src.isAsset = false) (hna : dst.isAsset = false)
    (hdl : W.isDelta dst.base = true) (hs : (s.fs.tab src).isSome = true) :
    ∃ fs' tr, linkOrCopy W.E src dst false s = ⟨.ok (), s.setFs fs', tr⟩ ∧ DL W s.fs fs' dst ∧
      (∀ t ∈ tr, ∃ g, t = s.setFs g ∧ DL W s.fs g dst) ∧
      (s.fs.tab dst = none → CanonFS W s.fs → CanonFS W fs') := by
  suffices ∃ fs' tr, linkOrCopy W.E src dst false s = ⟨.ok (), s.setFs fs', tr⟩ ∧ DL W s.fs fs' dst ∧
      ∀ t ∈ tr, ∃ g, t = s.setFs g ∧ DL W s.fs g dst by
    obtain ⟨fs', tr, h1, h2, h3⟩ := this
    refine ⟨fs', tr, h1, h2, h3, fun hn hcan => ?_⟩
    obtain ⟨i, hi⟩ := Option.isSome_iff_exists.1 hs
    obtain ⟨fs2, tr2, h4, h5, _⟩ := linkOrCopy_fresh W.E h.fresh false (src := src) (c := s.fs.data i)
      (by unfold FS.read; rw [hi]; rfl) hn
    rw [h1] at h4
    have : fs' = fs2 := by
      have := congrArg (fun o : Out Unit => o.st.fs) h4
      simpa using this
    rw [this]
    exact hcan.linked h.fresh h5 (Path.owner_base ho hsa) hsa
  obtain ⟨i, hi⟩ := Option.isSome_iff_exists.1 hs
  have hb : src.base = dst.base := Path.owner_base ho hsa
  have hcopy : ∃ fs' tr, copyFile src dst s = ⟨.ok (), s.setFs fs', tr⟩ ∧ DL W s.fs fs' dst ∧
      ∀ t ∈ tr, ∃ g, t = s.setFs g ∧ DL W s.fs g dst := by
    have hc : (s.fs.openTrunc dst).1.data i = W.canon dst.base ∨ (s.fs.openTrunc dst).1.data i = [] := by
      rw [FS.openTrunc_overwrite]
      have hread : (s.fs.overwrite dst []).read src = some ((s.fs.overwrite dst []).data i) := by
        unfold FS.read
        by_cases e : src = dst
        · subst e
          have : (s.fs.overwrite src []).tab src = some i := by
            rw [FS.overwrite_tab_dst]; unfold FS.openTrunc; rw [hi]
          rw [this]; rfl
        · rw [FS.overwrite_tab_ne _ _ _ e, hi]; rfl
      rcases (h.overwrite_delta (c := []) hna hdl (Or.inr rfl)).content src _ hsa hread with hx | hx
      · left; rw [← hb]; exact hx
      · right; exact hx.2
    have hD := DL.overwrite h hna hdl hc
    refine ⟨_, _, copyFile_run hi, hD, ?_⟩
    intro t ht
    simp only [List.mem_cons, List.not_mem_nil, or_false] at ht
    rcases ht with rfl | rfl
    · exact ⟨_, rfl, by rw [FS.openTrunc_overwrite]; exact DL.overwrite h hna hdl (Or.inr rfl)⟩
    · exact ⟨_, rfl, hD⟩
  unfold linkOrCopy
  simp only [getSt_bind, hi, Bool.false_eq_true, if_false]
  cases hd : s.fs.tab dst with
  | some j => simp only; exact hcopy
  | none =>
    simp only
    by_cases hl : W.E.linkOk src dst = true
    · simp only [hl, if_true, stepM_run]
      have hL : FS.Linked s.fs (s.fs.setTab dst (some i)) src dst := by
        refine ⟨?_, ?_, ?_, rfl, rfl, i, ?_, ?_, ?_, ?_⟩
        · intro q hq; simp [hq]
        · intro k hk; simp
        · simp
        · simp
        · exact h.fresh src i hi
        · simp [FS.read, hi]
        · left; exact hi
      have hD := DL.linked h hL ho hna hsa
      refine ⟨_, _, rfl, hD, ?_⟩
      intro t ht
      simp only [List.mem_cons, List.not_mem_nil, or_false] at ht
      subst ht
      exact ⟨_, rfl, hD⟩
    · simp only [hl]; exact hcopy

/-! ## Adding a delta to a repository -/

/-- `s'` is `s` with delta `d` listed in the record `e` of repository `r`, pool count now `k`. -/
structure DAdded (W : World) (s s' : St) (r d c : Str) (e : RepoEntry) (k : Nat) (di : DeltaInfo) : Prop where
  pool : s'.db.pool = s.db.pool.put d ⟨d, k, W.stamped d, some di⟩
  skip : s'.db.skip = s.db.skip
  repos : s'.db.repos = s.db.repos
  ents : s'.db.ents = setEnts s.db.ents r
    ((s.db.ents r).put (W.mOf d).name { e with deltas := sortS (e.deltas ++ [d]) })
  cache : s'.cache = s.cache
  pend : s'.pend = s.pend
  clock : s'.clock = s.clock
  rdir : s'.fs.rdir = s.fs.rdir
  idx : s'.fs.idx = s.fs.idx
  fs : FInv W s'.fs
  tabOther : ∀ q, q ≠ .pool c d → q ≠ .repo r c d → s'.fs.tab q = s.fs.tab q
  readOther : ∀ q, q.owner ≠ .inr d → s'.fs.read q = s.fs.read q
  poolTab : (s'.fs.tab (.pool c d)).isSome = true
  repoTab : (s'.fs.tab (.repo r c d)).isSome = true
  canon : s.fs.tab (.repo r c d) = none → CanonFS W s.fs → CanonFS W s'.fs

/-- A state in the middle of adding a delta. -/
structure DAdding (W : World) (s t : St) (r d c : Str) : Prop where
  pool : t.db.pool = s.db.pool ∨ ∃ k di, 0 < k ∧ t.db.pool = s.db.pool.put d ⟨d, k, W.stamped d, some di⟩
  skip : t.db.skip = s.db.skip
  repos : t.db.repos = s.db.repos
  ents : t.db.ents = s.db.ents
  cache : t.cache = s.cache
  rdir : t.fs.rdir = s.fs.rdir
  idx : t.fs.idx = s.fs.idx
  tabOther : ∀ q, q ≠ .pool c d → q ≠ .repo r c d → t.fs.tab q = s.fs.tab q
  readOther : ∀ q, q.owner ≠ .inr d → t.fs.read q = s.fs.read q

section
variable {W : World} {s s' : St} {r d c : Str} {e : RepoEntry} {k : Nat} {di : DeltaInfo}

theorem DAdded.wfEnts (ha : DAdded W s s' r d c e k di) (h : Inv W s) (r' : Str) : (s'.db.ents r').WF := by
  rw [ha.ents]; unfold setEnts; split
  · exact (h.wfEnts r).put _ _
  · exact h.wfEnts r'

theorem DAdded.get (ha : DAdded W s s' r d c e k di) (r' n : Str) : (s'.db.ents r').get n =
    if r' = r ∧ n = (W.mOf d).name then some { e with deltas := sortS (e.deltas ++ [d]) }
    else (s.db.ents r').get n := by
  rw [ha.ents]; unfold setEnts
  by_cases er : r' = r
  · subst er; simp only [if_true, true_and, KV.get_put]
  · simp [er]

theorem DAdded.has (ha : DAdded W s s' r d c e k di) (h : Inv W s)
    (hge : (s.db.ents r).get (W.mOf d).name = some e) (r' j : Str) : s'.has r' j = s.has r' j := by
  rw [Bool.eq_iff_iff, St.has_iff (ha.wfEnts h r'), St.has_iff (h.wfEnts r')]
  constructor
  · rintro ⟨n, e', hg, hj⟩
    rw [ha.get] at hg
    split at hg
    · rename_i hc; obtain ⟨rfl, rfl⟩ := hc
      cases hg; exact ⟨_, e, hge, hj⟩
    · exact ⟨n, e', hg, hj⟩
  · rintro ⟨n, e', hg, hj⟩
    by_cases hc : r' = r ∧ n = (W.mOf d).name
    · refine ⟨n, _, by rw [ha.get, if_pos hc], ?_⟩
      obtain ⟨rfl, rfl⟩ := hc
      rw [hge] at hg; cases hg; exact hj
    · exact ⟨n, e', by rw [ha.get, if_neg hc]; exact hg, hj⟩

theorem DAdded.hasDelta (ha : DAdded W s s' r d c e k di) (h : Inv W s)
    (hge : (s.db.ents r).get (W.mOf d).name = some e) (r' j : Str) :
    s'.hasDelta r' j = true ↔ s.hasDelta r' j = true ∨ (r' = r ∧ j = d) := by
  rw [St.hasDelta_iff (ha.wfEnts h r'), St.hasDelta_iff (h.wfEnts r')]
  constructor
  · rintro ⟨n, e', hg, hj⟩
    rw [ha.get] at hg
    split at hg
    · rename_i hc; obtain ⟨rfl, rfl⟩ := hc
      cases hg
      simp only [mem_sortS, List.mem_append, List.mem_singleton] at hj
      rcases hj with hj | hj
      · exact Or.inl ⟨_, e, hge, hj⟩
      · exact Or.inr ⟨rfl, hj⟩
    · exact Or.inl ⟨n, e', hg, hj⟩
  · rintro (⟨n, e', hg, hj⟩ | ⟨rfl, rfl⟩)
    · by_cases hc : r' = r ∧ n = (W.mOf d).name
      · refine ⟨n, _, by rw [ha.get, if_pos hc], ?_⟩
        obtain ⟨rfl, rfl⟩ := hc
        rw [hge] at hg; cases hg; simp [hj]
      · exact ⟨n, e', by rw [ha.get, if_neg hc]; exact hg, hj⟩
    · exact ⟨(W.mOf j).name, _, by rw [ha.get, if_pos ⟨rfl, rfl⟩], by simp⟩

theorem Inv.hasDelta_key (h : Inv W s) {r' j : Str} (hx : s.hasDelta r' j = true) : r' ∈ s.db.repos.keys := by
  obtain ⟨n, e, hg, _⟩ := (St.hasDelta_iff (h.wfEnts r') j).1 hx
  apply Decidable.byContradiction
  intro hn
  rw [h.noEnts r' hn] at hg; simp at hg

/-- Listing one more delta keeps the invariant. -/
theorem DAdded.inv (ha : DAdded W s s' r d c e k di) (h : Inv W s)
    (hge : (s.db.ents r).get (W.mOf d).name = some e) (hd : W.isDelta d = true) (hp : W.IsPkg d)
    (hc : W.compOf d = some c) (hnew : d ∉ e.deltas)
    (hk : k = (match s.db.pool.get d with | some pe => pe.refCount | none => 0) + 1)
    (hdi : W.DInfoOk d di) : Inv W s' := by
  have hhas := ha.has h hge
  have hhd := ha.hasDelta h hge
  have he := h.ent r _ e hge
  have hr : r ∈ s.db.repos.keys := by
    apply Decidable.byContradiction
    intro hn
    rw [h.noEnts r hn] at hge; simp at hge
  have hnotd : s.hasDelta r d = false := by
    rw [Bool.eq_false_iff]; intro hx
    obtain ⟨e', hg', hi⟩ := (h.hasDelta_iff r d).1 hx
    rw [hge] at hg'; cases hg'; exact hnew hi
  have hpoolmono : ∀ j, (∃ pe, s.db.pool.get j = some pe) → ∃ pe, s'.db.pool.get j = some pe := by
    rintro j ⟨pe, hpe⟩
    rw [ha.pool, KV.get_put]
    split
    · exact ⟨_, rfl⟩
    · exact ⟨pe, hpe⟩
  have hpoold : ∃ pe, s'.db.pool.get d = some pe := by rw [ha.pool, KV.get_put_self]; exact ⟨_, rfl⟩
  have hhold : ∀ j, s'.holders j = s.holders j := by
    intro j; unfold St.holders; rw [ha.repos]
    apply List.filter_congr; intro x _; exact hhas x j
  have hentmono : ∀ n e, EntOk W s n e → EntOk W s' n e := by
    intro n e he
    exact { he with
      avail := fun j hj => ⟨(he.avail j hj).1, hpoolmono j (he.avail j hj).2.1, (he.avail j hj).2.2⟩
      deltas := fun j hj => ⟨(he.deltas j hj).1, hpoolmono j (he.deltas j hj).2.1, (he.deltas j hj).2.2⟩ }
  exact {
    wfPool := by rw [ha.pool]; exact h.wfPool.put _ _
    wfSkip := by rw [ha.skip]; exact h.wfSkip
    wfRepos := by rw [ha.repos]; exact h.wfRepos
    wfEnts := ha.wfEnts h
    noEnts := by
      intro r' hr'
      rw [ha.repos] at hr'
      rw [ha.ents]; unfold setEnts; split
      · rename_i er; subst er; exact absurd hr hr'
      · exact h.noEnts r' hr'
    cache := by rw [ha.cache, ha.repos]; exact h.cache
    rdir := by rw [ha.rdir, ha.repos]; exact h.rdir
    repoRes := by rw [ha.repos]; exact h.repoRes
    pend := by rw [ha.pend]; exact h.pend
    ent := by
      intro r' n e' hg
      rw [ha.get] at hg
      split at hg
      · rename_i hcc; obtain ⟨rfl, rfl⟩ := hcc
        cases hg
        have h1 := hentmono _ _ he
        exact { h1 with
          dnodup := by
            simp only [nodup_sortS]
            rw [List.nodup_append]
            refine ⟨he.dnodup, by simp, ?_⟩
            intro a hma b hb
            simp at hb; subst hb
            rintro rfl; exact hnew hma
          deltas := by
            intro j hj
            simp only [mem_sortS, List.mem_append, List.mem_singleton] at hj
            rcases hj with hj | rfl
            · exact h1.deltas j hj
            · exact ⟨hd, hpoold, rfl⟩ }
      · exact hentmono n e' (h.ent _ n e' hg)
    pool := by
      intro j pe hg
      rw [ha.pool, KV.get_put] at hg
      split at hg
      · rename_i ej; subst ej
        cases hg
        exact {
          name := rfl, isPkg := hp, pkg := rfl, delta := by simp [hd], pos := by simp only; omega
          count := by intro hx; rw [hd] at hx; cases hx
          dinfo := by intro di' hx; cases hx; exact hdi
          dcount := by
            intro _
            have hflip := length_filter_flip (l := s.db.repos.keys) h.wfRepos.nodup_keys hr
              (p := fun r' => s.hasDelta r' j) (q := fun r' => s'.hasDelta r' j) hnotd
              ((hhd r j).2 (Or.inr ⟨rfl, rfl⟩)) (by
                intro x hx
                rw [Bool.eq_iff_iff, hhd x j]; simp [hx])
            have hle : (s.dholders j).length ≤ (match s.db.pool.get j with | some pe => pe.refCount | none => 0) := by
              cases hgj : s.db.pool.get j with
              | some pe => exact (h.pool j pe hgj).dcount hd
              | none =>
                have : s.dholders j = [] := by
                  rw [List.eq_nil_iff_forall_not_mem]
                  intro x hx
                  obtain ⟨n, e', hg', hi⟩ := (St.hasDelta_iff (h.wfEnts x) j).1 (List.mem_filter.1 hx).2
                  obtain ⟨_, ⟨pe, hpe⟩, _⟩ := (h.ent x n e' hg').deltas j hi
                  rw [hgj] at hpe; cases hpe
                simp [this]
            unfold St.dholders at hle ⊢
            rw [ha.repos]
            simp only
            omega }
      · rename_i hne
        have hpo := h.pool j pe hg
        have hdh : (s'.dholders j) = (s.dholders j) := by
          unfold St.dholders; rw [ha.repos]
          apply List.filter_congr; intro x _
          rw [Bool.eq_iff_iff, hhd x j]; simp [hne]
        exact { hpo with
          count := by rw [hhold]; exact hpo.count
          dcount := by rw [hdh]; exact hpo.dcount }
    fs := ha.fs
    poolFile := by
      intro j k'
      by_cases ej : j = d
      · subst ej
        by_cases ec : k' = c
        · subst ec
          exact ⟨fun _ => ⟨hpoold, hc⟩, fun _ => ha.poolTab⟩
        · rw [ha.tabOther _ (by simp [ec]) (by simp), h.poolFile j k']
          constructor
          · rintro ⟨_, h2⟩; rw [hc] at h2; cases h2; exact absurd rfl ec
          · rintro ⟨_, h2⟩; rw [hc] at h2; cases h2; exact absurd rfl ec
      · rw [ha.tabOther _ (by simp [ej]) (by simp), h.poolFile j k', ha.pool, KV.get_put]
        simp [ej]
    repoFile := by
      intro r' j k' hj
      have hne : j ≠ d := by rintro rfl; rw [hd] at hj; cases hj
      rw [ha.tabOther _ (by simp) (by simp [hne]), hhas]
      exact h.repoFile r' j k' hj
    dFile := by
      intro r' j k' hx hk'
      by_cases ej : r' = r ∧ j = d
      · obtain ⟨rfl, rfl⟩ := ej
        rw [hc] at hk'; cases hk'; exact ha.repoTab
      · rw [ha.tabOther _ (by simp) (by
          simp only [ne_eq, Path.repo.injEq, not_and]
          intro a _ b; exact ej ⟨a, b⟩)]
        rcases (hhd r' j).1 hx with h0 | h0
        · exact h.dFile r' j k' h0 hk'
        · exact absurd h0 ej
    noOrphan := by
      intro r' k' j hx
      rw [ha.repos]
      by_cases e : r' = r
      · rw [e]
        apply Decidable.byContradiction
        intro hn; rw [h.noEnts r hn] at hge; simp at hge
      · rw [ha.tabOther _ (by simp) (by simp [e])] at hx
        exact h.noOrphan r' k' j hx }

/-- Listing one more delta keeps the counts exact and the files whole. -/
theorem DAdded.tight (ha : DAdded W s s' r d c e k di) (h : Inv W s)
    (hge : (s.db.ents r).get (W.mOf d).name = some e) (hd : W.isDelta d = true)
    (hc : W.compOf d = some c) (hnew : d ∉ e.deltas)
    (hk : k = (match s.db.pool.get d with | some pe => pe.refCount | none => 0) + 1) (ht : Tight W s) : Tight W s' := by
  have hhd := ha.hasDelta h hge
  have hr : r ∈ s.db.repos.keys := by
    apply Decidable.byContradiction
    intro hn
    rw [h.noEnts r hn] at hge; simp at hge
  have hnotd : s.hasDelta r d = false := by
    rw [Bool.eq_false_iff]; intro hx
    obtain ⟨e', hg', hi⟩ := (h.hasDelta_iff r d).1 hx
    rw [hge] at hg'; cases hg'; exact hnew hi
  have hnone : s.fs.tab (.repo r c d) = none := by
    cases hx : s.fs.tab (.repo r c d) with
    | none => rfl
    | some i =>
      have := (ht.file r c d hd (by rw [FS.read_isSome, hx]; rfl)).1
      rw [hnotd] at this; cases this
  refine ⟨?_, ?_, ha.canon hnone ht.canon⟩
  · intro j pe hj hg
    rw [ha.pool, KV.get_put] at hg
    split at hg
    · rename_i ej; subst ej
      cases hg
      have hflip := length_filter_flip (l := s.db.repos.keys) h.wfRepos.nodup_keys hr
        (p := fun r' => s.hasDelta r' j) (q := fun r' => s'.hasDelta r' j) hnotd
        ((hhd r j).2 (Or.inr ⟨rfl, rfl⟩)) (by
          intro x hx
          rw [Bool.eq_iff_iff, hhd x j]; simp [hx])
      have heq : (match s.db.pool.get j with | some pe => pe.refCount | none => 0) = (s.dholders j).length := by
        cases hgj : s.db.pool.get j with
        | some pe => exact ht.count j pe hd hgj
        | none =>
          have : s.dholders j = [] := by
            rw [List.eq_nil_iff_forall_not_mem]
            intro x hx
            obtain ⟨n, e', hg', hi⟩ := (St.hasDelta_iff (h.wfEnts x) j).1 (List.mem_filter.1 hx).2
            obtain ⟨_, ⟨pe, hpe⟩, _⟩ := (h.ent x n e' hg').deltas j hi
            rw [hgj] at hpe; cases hpe
          simp [this]
      unfold St.dholders at heq ⊢
      rw [ha.repos]
      simp only
      omega
    · rename_i hne
      have hdh : (s'.dholders j) = (s.dholders j) := by
        unfold St.dholders; rw [ha.repos]
        apply List.filter_congr; intro x _
        rw [Bool.eq_iff_iff, hhd x j]; simp [hne]
      rw [hdh]; exact ht.count j pe hj hg
  · intro r' c' j hj hx
    by_cases hp : Path.repo r' c' j = .repo r c d
    · cases hp; exact ⟨(hhd r d).2 (Or.inr ⟨rfl, rfl⟩), hc⟩
    · rw [FS.read_isSome, ha.tabOther _ (by simp) hp, ← FS.read_isSome] at hx
      obtain ⟨h1, h2⟩ := ht.file r' c' j hj hx
      exact ⟨(hhd r' j).2 (Or.inl h1), h2⟩

end

theorem finishDelta_run {W : World} {s s1 : St} {r d c : Str} {e : RepoEntry} {k : Nat} {di : DeltaInfo}
    (hk0 : 0 < k) (hres : reservedKey e.name = false) (hname : e.name = (W.mOf d).name) (hd : W.isDelta d = true)
    (hdb : s1.db = { s.db with pool := s.db.pool.put d ⟨d, k, W.stamped d, some di⟩ })
    (hcache : s1.cache = s.cache) (hpend : s1.pend = s.pend) (hclock : s1.clock = s.clock)
    (hrdir : s1.fs.rdir = s.fs.rdir) (hidx : s1.fs.idx = s.fs.idx)
    (hfs : FInv W s1.fs)
    (htab : ∀ q, q ≠ .pool c d → s1.fs.tab q = s.fs.tab q)
    (hread : ∀ q, q.owner ≠ .inr d → s1.fs.read q = s.fs.read q)
    (hpool : (s1.fs.tab (.pool c d)).isSome = true) (hcan : CanonFS W s.fs → CanonFS W s1.fs) :
    ∃ s' tr, (linkOrCopy W.E (.pool c d) (.repo r c d) false >>= fun _ =>
        repoPut r { e with deltas := sortS (e.deltas ++ [d]) }) s1 = ⟨.ok (), s', tr⟩ ∧
      DAdded W s s' r d c e k di ∧
      ∀ t ∈ tr, DAdding W s t r d c ∨ DAdded W s t r d c e k di := by
  obtain ⟨fs', tr, hrun, hD, htr, hcn⟩ := linkOrCopy_delta (W := W) (s := s1) (src := .pool c d) (dst := .repo r c d)
    hfs rfl rfl rfl hd hpool
  let ne : RepoEntry := { e with deltas := sortS (e.deltas ++ [d]) }
  let w : DbWrite := .putEnt r ne.name ne
  have hw : reservedKey w.key = false := hres
  let s2 : St := { s1.setFs fs' with db := w.apply s1.db }
  have hA : DAdded W s s2 r d c e k di := {
    pool := by show s1.db.pool = _; rw [hdb]
    skip := by show s1.db.skip = _; rw [hdb]
    repos := by show s1.db.repos = _; rw [hdb]
    ents := by
      show setEnts s1.db.ents r ((s1.db.ents r).put e.name ne) = _
      rw [hdb, ← hname]
    cache := hcache, pend := hpend, clock := hclock
    rdir := hD.rdir.trans hrdir, idx := hD.idx.trans hidx
    fs := hD.finv
    tabOther := fun q h1 h2 => (hD.tab q h2).trans (htab q h1)
    readOther := fun q hq => (hD.read q hq).trans (hread q hq)
    poolTab := by
      show (fs'.tab _).isSome = true
      rw [hD.tab _ (by simp)]; exact hpool
    repoTab := hD.dstTab
    canon := fun hn hc => hcn (by rw [htab _ (by simp)]; exact hn) (hcan hc) }
  refine ⟨s2, tr ++ [s2], ?_, hA, ?_⟩
  · rw [bind_ok hrun]
    unfold repoPut
    rw [dbWrite_direct (w := w) hw]; rfl
  · intro t ht
    rcases List.mem_append.1 ht with ht | ht
    · left
      obtain ⟨g, rfl, hG⟩ := htr t ht
      exact {
        pool := Or.inr ⟨k, di, hk0, by simp [hdb]⟩
        skip := by simp [hdb]
        repos := by simp [hdb]
        ents := by simp [hdb]
        cache := hcache
        rdir := hG.rdir.trans hrdir, idx := hG.idx.trans hidx
        tabOther := fun q h1 h2 => (hG.tab q h2).trans (htab q h1)
        readOther := fun q hq => (hG.read q hq).trans (hread q hq) }
    · simp at ht; subst ht; right; exact hA

/-- What RefDelta can do: fail without effect, find the delta already listed, or list it. -/
theorem refDelta_run {W : World} {s : St} {r d : Str} (ok : W.OK) (h : Inv W s) (hd : W.isDelta d = true) :
    (refDelta W.E r d s = ⟨.err .notFound, s, []⟩ ∧
      (s.db.pool.get d = none ∨ (s.db.ents r).get (W.mOf d).name = none)) ∨
    (refDelta W.E r d s = ⟨.ok (), s, []⟩ ∧ s.hasDelta r d = true) ∨
    (∃ c e k di s' tr, refDelta W.E r d s = ⟨.ok (), s', tr⟩ ∧ DAdded W s s' r d c e k di ∧
      (s.db.ents r).get (W.mOf d).name = some e ∧ W.IsPkg d ∧ W.compOf d = some c ∧ d ∉ e.deltas ∧
      k = (match s.db.pool.get d with | some pe => pe.refCount | none => 0) + 1 ∧
      W.DInfoOk d di ∧
      ∀ t ∈ tr, DAdding W s t r d c ∨ DAdded W s t r d c e k di) := by
  cases hg : s.db.pool.get d with
  | none =>
    left
    refine ⟨?_, Or.inl rfl⟩
    unfold refDelta
    rw [poolGet_bind_none _ hg]
  | some pe =>
    have hpo := h.pool d pe hg
    have hnm : pe.pkg.name = (W.mOf d).name := by rw [hpo.pkg]; rfl
    cases hge : (s.db.ents r).get (W.mOf d).name with
    | none =>
      left
      refine ⟨?_, Or.inr rfl⟩
      unfold refDelta
      rw [poolGet_bind_some _ hg, hnm, repoGet_bind_none _ hge]
    | some e =>
      right
      have he := h.ent r _ e hge
      obtain ⟨c, hc⟩ := ok.comp hpo.isPkg
      have hcomp : pathComp? pe.pkg.source = some c := by rw [hpo.pkg]; exact hc
      by_cases hin : d ∈ e.deltas
      · left
        refine ⟨?_, (St.hasDelta_iff (h.wfEnts r) d).2 ⟨_, e, hge, hin⟩⟩
        unfold refDelta
        rw [poolGet_bind_some _ hg, hnm, repoGet_bind_some _ hge, pathComp_bind hcomp]
        simp [hin]
      · right
        obtain ⟨di, hdi⟩ : ∃ di, pe.delta = some di := by
          rw [← Option.isSome_iff_exists, hpo.delta]; exact hd
        have hent : ({ pe with refCount := pe.refCount + 1 } : PoolEntry) =
            ⟨d, pe.refCount + 1, W.stamped d, some di⟩ := by rw [hpo.name, hpo.pkg, hdi]
        let w : DbWrite := .putPool pe.name { pe with refCount := pe.refCount + 1 }
        have hw : reservedKey w.key = false := by
          show reservedKey pe.name = false; rw [hpo.name]; exact (ok.gid hpo.isPkg).nres
        let s1 : St := { s with db := w.apply s.db }
        have hs1db : s1.db = { s.db with pool := s.db.pool.put d ⟨d, pe.refCount + 1, W.stamped d, some di⟩ } := by
          show DbWrite.apply s.db (.putPool pe.name { pe with refCount := pe.refCount + 1 }) = _
          rw [hent]; simp [DbWrite.apply, hpo.name]
        obtain ⟨s', tr, hrun, hA, htr⟩ := finishDelta_run (s := s) (s1 := s1) (r := r) (d := d) (c := c) (e := e) (hk0 := Nat.succ_pos _)
          (by rw [he.name]; exact he.nres) he.name hd hs1db rfl rfl rfl rfl rfl h.fs (fun _ _ => rfl)
          (fun _ _ => rfl) ((h.poolFile d c).2 ⟨⟨pe, hg⟩, hc⟩) (fun h => h)
        refine ⟨c, e, pe.refCount + 1, di, s', s1 :: tr, ?_, hA, rfl, hpo.isPkg, hc, hin, rfl,
          hpo.dinfo di hdi, ?_⟩
        · unfold refDelta
          rw [poolGet_bind_some _ hg, hnm, repoGet_bind_some _ hge, pathComp_bind hcomp]
          simp only [hin, if_false]
          have href : refEntry d s = ⟨.ok (), s1, [s1]⟩ := by
            unfold refEntry
            rw [poolGet_bind_some _ hg, dbWrite_direct (w := w) hw]
          rw [bind_ok href, hrun]; rfl
        · intro t ht
          rcases List.mem_cons.1 ht with rfl | ht
          · left
            exact {
              pool := Or.inr ⟨_, di, Nat.succ_pos _, by rw [hs1db]⟩
              skip := by rw [hs1db]
              repos := by rw [hs1db]
              ents := by rw [hs1db]
              cache := rfl, rdir := rfl, idx := rfl
              tabOther := fun _ _ _ => rfl
              readOther := fun _ _ => rfl }
          · exact htr t ht

/-- What AddDelta of the delta `d` from `f` to `t`, staged for `r`, needs. -/
def World.DeltaReady (W : World) (s : St) (r d f t : Str) : Prop :=
  s.fs.read (.stage r d) = some (W.canon d) ∧ W.IsPkg d ∧ ∃ e, (s.db.ents r).get (W.mOf d).name = some e ∧
    (d ∈ e.deltas ∨ (∃ pe, s.db.pool.get d = some pe) ∨
      ((∃ pe, s.db.pool.get f = some pe) ∧ ∃ pe, s.db.pool.get t = some pe))

/-- What AddDelta of a staged file can do. -/
theorem addDelta_run {W : World} {s : St} {r d : Str} {f t : Str} (ok : W.OK) (h : Inv W s)
    (hd : W.isDelta d = true) (hnf : (W.mOf f).name = (W.mOf d).name) (hnt : (W.mOf t).name = (W.mOf d).name) :
    ((∃ er, addDelta W.E r (.stage r d) f t s = ⟨.err er, s, []⟩) ∧ ¬ W.DeltaReady s r d f t) ∨
    (addDelta W.E r (.stage r d) f t s = ⟨.ok (), s, []⟩ ∧ s.hasDelta r d = true) ∨
    (∃ c e k di s' tr, addDelta W.E r (.stage r d) f t s = ⟨.ok (), s', tr⟩ ∧ DAdded W s s' r d c e k di ∧
      (s.db.ents r).get (W.mOf d).name = some e ∧ W.IsPkg d ∧ W.compOf d = some c ∧ d ∉ e.deltas ∧
      k = (match s.db.pool.get d with | some pe => pe.refCount | none => 0) + 1 ∧
      (s.db.pool.get d = none → di = ⟨(W.mOf f).rel, f, (W.mOf t).rel, t⟩) ∧
      W.DInfoOk d di ∧
      ∀ t' ∈ tr, DAdding W s t' r d c ∨ DAdded W s t' r d c e k di) := by
  have hop := openPkg_run h ok (p := .stage r d) rfl
  rcases hop with ⟨h1, hx⟩ | ⟨h1, c, hx, hb⟩ | ⟨h1, hread, hp⟩
  · left
    refine ⟨⟨_, by unfold addDelta; rw [bind_err h1]⟩, ?_⟩
    rintro ⟨hr, _⟩; rw [hx] at hr; cases hr
  · left
    refine ⟨⟨_, by unfold addDelta; rw [bind_err h1]⟩, ?_⟩
    rintro ⟨hr, hp, _⟩; rw [hx] at hr; cases hr
    unfold World.IsPkg at hp; rw [hb] at hp; cases hp
  simp only [Path.base] at h1 hread hp
  obtain ⟨c, hc⟩ := ok.comp hp
  cases hge : (s.db.ents r).get (W.mOf d).name with
  | none =>
    left
    refine ⟨⟨.notFound, ?_⟩, ?_⟩
    rotate_left
    · rintro ⟨_, _, e, he, _⟩; rw [hge] at he; cases he
    unfold addDelta
    rw [bind_ok h1]
    simp only [Out.pre_nil]
    rw [repoGet_bind_none _ (by exact hge)]
  | some e =>
    have he := h.ent r _ e hge
    by_cases hin : d ∈ e.deltas
    · right; left
      refine ⟨?_, (St.hasDelta_iff (h.wfEnts r) d).2 ⟨_, e, hge, hin⟩⟩
      unfold addDelta
      rw [bind_ok h1]
      simp only [Out.pre_nil]
      rw [repoGet_bind_some _ (by exact hge), pathComp_bind (by exact hc)]
      simp [hin]
    · -- the shape of the run once the pool part is known
      have hshape : addDelta W.E r (.stage r d) f t s =
          (poolAddDelta W.E ⟨.stage r d, d, W.mOf d⟩ f t false >>= fun _ =>
            linkOrCopy W.E (.pool c d) (.repo r c d) false >>= fun _ =>
            repoPut r { e with deltas := sortS (e.deltas ++ [d]) }) s := by
        unfold addDelta
        rw [bind_ok h1]
        simp only [Out.pre_nil]
        rw [repoGet_bind_some _ (by exact hge), pathComp_bind (by exact hc)]
        simp [hin]
      have hres : reservedKey e.name = false := by rw [he.name]; exact he.nres
      cases hg : s.db.pool.get d with
      | some pe =>
        right; right
        have hpo := h.pool d pe hg
        obtain ⟨di, hdi⟩ : ∃ di, pe.delta = some di := by
          rw [← Option.isSome_iff_exists, hpo.delta]; exact hd
        have hent : ({ pe with refCount := pe.refCount + 1 } : PoolEntry) =
            ⟨d, pe.refCount + 1, W.stamped d, some di⟩ := by rw [hpo.name, hpo.pkg, hdi]
        let w : DbWrite := .putPool pe.name { pe with refCount := pe.refCount + 1 }
        have hw : reservedKey w.key = false := by
          show reservedKey pe.name = false; rw [hpo.name]; exact (ok.gid hpo.isPkg).nres
        let s1 : St := { s with db := w.apply s.db }
        have hs1db : s1.db = { s.db with pool := s.db.pool.put d ⟨d, pe.refCount + 1, W.stamped d, some di⟩ } := by
          show DbWrite.apply s.db (.putPool pe.name { pe with refCount := pe.refCount + 1 }) = _
          rw [hent]; simp [DbWrite.apply, hpo.name]
        obtain ⟨s', tr, hrun, hA, htr⟩ := finishDelta_run (s := s) (s1 := s1) (r := r) (d := d) (c := c) (e := e) (hk0 := Nat.succ_pos _)
          hres he.name hd hs1db rfl rfl rfl rfl rfl h.fs (fun _ _ => rfl)
          (fun _ _ => rfl) ((h.poolFile d c).2 ⟨⟨pe, hg⟩, hc⟩) (fun h => h)
        refine ⟨c, e, pe.refCount + 1, di, s', s1 :: tr, ?_, hA, rfl, hp, hc, hin, rfl, (by intro hx; cases hx),
          hpo.dinfo di hdi, ?_⟩
        · rw [hshape]
          have hadd : poolAddDelta W.E ⟨.stage r d, d, W.mOf d⟩ f t false s =
              ⟨.ok { pe with refCount := pe.refCount + 1 }, s1, [s1]⟩ := by
            unfold poolAddDelta
            simp only [poolGet?_bind, hg]
            rw [bind_ok (dbWrite_direct (w := w) hw s)]
            rfl
          rw [bind_ok hadd, hrun]; rfl
        · intro t' ht
          rcases List.mem_cons.1 ht with rfl | ht
          · left
            exact {
              pool := Or.inr ⟨_, di, Nat.succ_pos _, by rw [hs1db]⟩
              skip := by rw [hs1db]
              repos := by rw [hs1db]
              ents := by rw [hs1db]
              cache := rfl, rdir := rfl, idx := rfl
              tabOther := fun _ _ _ => rfl
              readOther := fun _ _ => rfl }
          · exact htr t' ht
      | none =>
        cases hgf : s.db.pool.get f with
        | none =>
          left
          refine ⟨⟨.notFound, ?_⟩, ?_⟩
          rotate_left
          · rintro ⟨_, _, e', he', hx | ⟨pe, hx⟩ | ⟨⟨pe, hx⟩, _⟩⟩
            · rw [hge] at he'; cases he'; exact hin hx
            · rw [hg] at hx; cases hx
            · rw [hgf] at hx; cases hx
          rw [hshape]
          have : poolAddDelta W.E ⟨.stage r d, d, W.mOf d⟩ f t false s = ⟨.err .notFound, s, []⟩ := by
            unfold poolAddDelta
            simp only [poolGet?_bind, hg]
            rw [poolGet_bind_none _ hgf]
          rw [bind_err this]
        | some pf =>
          cases hgt : s.db.pool.get t with
          | none =>
            left
            refine ⟨⟨.notFound, ?_⟩, ?_⟩
            rotate_left
            · rintro ⟨_, _, e', he', hx | ⟨pe, hx⟩ | ⟨_, ⟨pe, hx⟩⟩⟩
              · rw [hge] at he'; cases he'; exact hin hx
              · rw [hg] at hx; cases hx
              · rw [hgt] at hx; cases hx
            rw [hshape]
            have : poolAddDelta W.E ⟨.stage r d, d, W.mOf d⟩ f t false s = ⟨.err .notFound, s, []⟩ := by
              unfold poolAddDelta
              simp only [poolGet?_bind, hg]
              rw [poolGet_bind_some _ hgf, poolGet_bind_none _ hgt]
            rw [bind_err this]
          | some pt =>
            right; right
            have hpf := h.pool f pf hgf
            have hpt := h.pool t pt hgt
            let di : DeltaInfo := ⟨(W.mOf f).rel, f, (W.mOf t).rel, t⟩
            have hdst : s.fs.tab (.pool c d) = none := by
              cases hx : s.fs.tab (.pool c d) with
              | none => rfl
              | some i =>
                obtain ⟨⟨pe, hpe⟩, _⟩ := (h.poolFile d c).1 (by rw [hx]; rfl)
                rw [hg] at hpe; cases hpe
            obtain ⟨fs1, tr1, hrun1, hL1, htr1⟩ := linkOrCopy_fresh W.E h.fs.fresh false hread hdst
            have hfs1 : FInv W fs1 := h.fs.linked hL1 rfl rfl rfl rfl
            have hne : (Path.stage r d) ≠ .pool c d := by simp
            have hr1 : fs1.read (.stage r d) = some (W.canon d) := by
              rw [hL1.linking.read_ne h.fs.fresh hne, hread]
            have hsha : fileSha1 W.E (.stage r d) (s.setFs fs1) = ⟨.ok (W.E.sha1 (W.canon d)), s.setFs fs1, []⟩ := by
              unfold fileSha1
              simp only [getSt_bind, St.setFs_fs, hr1, ok.canon_ne hp, if_false, pure_run]
            have hnr := (ok.gid hp).nres
            let pe : PoolEntry := ⟨d, 1, W.stamped d, some di⟩
            have hw : reservedKey (DbWrite.putPool d pe).key = false := hnr
            let s1 : St := { s.setFs fs1 with db := (DbWrite.putPool d pe).apply s.db }
            have hs1db : s1.db = { s.db with pool := s.db.pool.put d ⟨d, 0 + 1, W.stamped d, some di⟩ } := rfl
            have hreado : ∀ (g : FS), FS.Linking s.fs g (.stage r d) (.pool c d) →
                ∀ q, q.owner ≠ .inr d → g.read q = s.fs.read q := by
              intro g hG q hq
              apply hG.read_ne h.fs.fresh
              rintro rfl; exact hq rfl
            have hpooltab : (fs1.tab (.pool c d)).isSome = true := by
              obtain ⟨j, hj, _⟩ := hL1.dst; rw [hj]; rfl
            obtain ⟨s', tr, hrun, hA, htr⟩ := finishDelta_run (s := s) (s1 := s1) (r := r) (d := d) (c := c) (e := e) (hk0 := Nat.succ_pos _)
              hres he.name hd hs1db rfl rfl rfl hL1.rdir hL1.idx hfs1 (fun q hq => hL1.tab q hq)
              (hreado fs1 hL1.linking) hpooltab (fun hcan => hcan.linked h.fs.fresh hL1 rfl rfl)
            have hcD : (W.compOf d).getD [] = c := by rw [hc]; rfl
            have hadd : poolAddInternal W.E ⟨.stage r d, d, W.mOf d⟩ false (some di) s = ⟨.ok pe, s1, tr1 ++ [s1]⟩ := by
              unfold poolAddInternal
              simp only [poolGet?_bind, hg, getSt_bind, hread]
              rw [pathComp_bind (by exact hc), bind_ok hrun1, bind_ok hsha]
              simp only [hnr, Bool.false_eq_true, if_false]
              have he' : (⟨d, 1, { W.mOf d with
                    hash := W.E.sha1 (W.canon d), size := (W.canon d).length,
                    uri := mkURI c d }, some di⟩ : PoolEntry) = pe := by
                show _ = (⟨d, 1, W.stamped d, some di⟩ : PoolEntry)
                unfold World.stamped; rw [hcD]
              rw [he', bind_ok (dbWrite_direct hw (s.setFs fs1))]
              simp [s1]
            have haddD : poolAddDelta W.E ⟨.stage r d, d, W.mOf d⟩ f t false s = ⟨.ok pe, s1, tr1 ++ [s1]⟩ := by
              unfold poolAddDelta
              simp only [poolGet?_bind, hg]
              have hhf : pf.pkg.history ≠ [] := by rw [hpf.pkg]; exact (ok.meta hpf.isPkg).hist
              have hht : pt.pkg.history ≠ [] := by rw [hpt.pkg]; exact (ok.meta hpt.isPkg).hist
              rw [poolGet_bind_some _ hgf, poolGet_bind_some _ hgt, getRelease_bind hht, getRelease_bind hhf]
              have e1 : pf.pkg.rel = (W.mOf f).rel := by rw [hpf.pkg]; rfl
              have e2 : pt.pkg.rel = (W.mOf t).rel := by rw [hpt.pkg]; rfl
              rw [e1, e2]
              exact hadd
            refine ⟨c, e, 0 + 1, di, s', (tr1 ++ [s1]) ++ tr, ?_, hA, rfl, hp, hc, hin, rfl, fun _ => rfl,
              ⟨hnf, hnt, rfl, rfl⟩, ?_⟩
            · rw [hshape, bind_ok haddD, hrun]; rfl
            · intro t' ht
              rcases List.mem_append.1 ht with ht | ht
              · left
                rcases List.mem_append.1 ht with ht | ht
                · obtain ⟨g, rfl, hG⟩ := htr1 t' ht
                  exact {
                    pool := Or.inl rfl, skip := rfl, repos := rfl, ents := rfl, cache := rfl
                    rdir := hG.rdir, idx := hG.idx
                    tabOther := fun q h1 _ => hG.tab q h1
                    readOther := hreado g hG }
                · simp at ht; subst ht
                  exact {
                    pool := Or.inr ⟨1, di, Nat.one_pos, rfl⟩, skip := rfl, repos := rfl, ents := rfl, cache := rfl
                    rdir := hL1.rdir, idx := hL1.idx
                    tabOther := fun q h1 _ => hL1.tab q h1
                    readOther := hreado fs1 hL1.linking }
              · exact htr t' ht

/-- AddDelta needs what `DeltaReady` says. -/
theorem addDelta_needs {W : World} {s : St} {r d f t : Str} (ok : W.OK) (h : Inv W s)
    (hok : (addDelta W.E r (.stage r d) f t s).res = .ok ()) : W.DeltaReady s r d f t := by
  rcases openPkg_run h ok (p := .stage r d) rfl with ⟨h1, _⟩ | ⟨h1, _⟩ | ⟨h1, hread, hp⟩
  · unfold addDelta at hok; rw [bind_err h1] at hok; cases hok
  · unfold addDelta at hok; rw [bind_err h1] at hok; cases hok
  simp only [Path.base] at h1 hread hp
  refine ⟨hread, hp, ?_⟩
  obtain ⟨c, hc⟩ := ok.comp hp
  unfold addDelta at hok
  rw [bind_ok h1] at hok
  simp only [Out.pre_nil] at hok
  cases hge : (s.db.ents r).get (W.mOf d).name with
  | none => rw [repoGet_bind_none _ (by exact hge)] at hok; cases hok
  | some e =>
    refine ⟨e, rfl, ?_⟩
    by_cases hin : d ∈ e.deltas
    · exact Or.inl hin
    right
    cases hg : s.db.pool.get d with
    | some pe => exact Or.inl ⟨pe, rfl⟩
    | none =>
      right
      rw [repoGet_bind_some _ (by exact hge), pathComp_bind (by exact hc)] at hok
      simp only [hin, if_false] at hok
      cases hgf : s.db.pool.get f with
      | none =>
        have : poolAddDelta W.E ⟨.stage r d, d, W.mOf d⟩ f t false s = ⟨.err .notFound, s, []⟩ := by
          unfold poolAddDelta
          simp only [poolGet?_bind, hg]
          rw [poolGet_bind_none _ hgf]
        rw [bind_err this] at hok; cases hok
      | some pf =>
        cases hgt : s.db.pool.get t with
        | none =>
          have : poolAddDelta W.E ⟨.stage r d, d, W.mOf d⟩ f t false s = ⟨.err .notFound, s, []⟩ := by
            unfold poolAddDelta
            simp only [poolGet?_bind, hg]
            rw [poolGet_bind_some _ hgf, poolGet_bind_none _ hgt]
          rw [bind_err this] at hok; cases hok
        | some pt => exact ⟨⟨pf, rfl⟩, ⟨pt, rfl⟩⟩

/-! ## Recording impossible deltas -/

theorem markDeltaFailed_run (s : St) (id : Str) (d : DeltaInfo) :
    (markDeltaFailed id d s = ⟨.ok (), s, []⟩ ∧ (s.db.skip.get id).isSome = true) ∨
    (markDeltaFailed id d s = ⟨.err .reserved, s, []⟩) ∨
    (∃ s', markDeltaFailed id d s = ⟨.ok (), s', [s']⟩ ∧
      s' = { s with db := { s.db with skip := s.db.skip.put id d } }) := by
  unfold markDeltaFailed
  simp only [getSt_bind]
  cases hg : s.db.skip.get id with
  | some x => left; simp
  | none =>
    right
    simp only
    cases hr : reservedKey id with
    | true =>
      left
      have : reservedKey (DbWrite.putSkip id d).key = true := hr
      unfold dbWrite; rw [if_pos this]; rfl
    | false =>
      right
      have : reservedKey (DbWrite.putSkip id d).key = false := hr
      exact ⟨_, dbWrite_direct this s, rfl⟩

theorem Inv.putSkip {W : World} {s : St} (h : Inv W s) (id : Str) (d : DeltaInfo) :
    Inv W { s with db := { s.db with skip := s.db.skip.put id d } } where
  wfPool := h.wfPool
  wfSkip := h.wfSkip.put _ _
  wfRepos := h.wfRepos
  wfEnts := h.wfEnts
  noEnts := h.noEnts
  cache := h.cache
  rdir := h.rdir
  repoRes := h.repoRes
  pend := h.pend
  ent := fun r n e hg => (h.ent r n e hg).congr rfl
  pool := fun i pe hg => by
    have hpo := h.pool i pe hg
    exact { hpo with count := hpo.count, dcount := hpo.dcount }
  fs := h.fs
  poolFile := h.poolFile
  repoFile := h.repoFile
  dFile := h.dFile
  noOrphan := h.noOrphan

/-! ## Asset files -/

/-- Only asset files of repository `r` differ between `s` and `s'`. -/
structure AssetOnly (W : World) (s s' : St) (r : Str) : Prop where
  db : s'.db = s.db
  cache : s'.cache = s.cache
  pend : s'.pend = s.pend
  clock : s'.clock = s.clock
  rdir : s'.fs.rdir = s.fs.rdir
  idx : s'.fs.idx = s.fs.idx
  fs : FInv W s'.fs
  tab : ∀ p, (∀ a, p ≠ .asset r a) → s'.fs.tab p = s.fs.tab p
  read : ∀ p, (∀ a, p ≠ .asset r a) → s'.fs.read p = s.fs.read p

theorem AssetOnly.refl {W : World} {s : St} (h : FInv W s.fs) (r : Str) : AssetOnly W s s r :=
  ⟨rfl, rfl, rfl, rfl, rfl, rfl, h, fun _ _ => rfl, fun _ _ => rfl⟩

theorem AssetOnly.trans {W : World} {s t u : St} {r : Str} (h1 : AssetOnly W s t r) (h2 : AssetOnly W t u r) :
    AssetOnly W s u r where
  db := h2.db.trans h1.db
  cache := h2.cache.trans h1.cache
  pend := h2.pend.trans h1.pend
  clock := h2.clock.trans h1.clock
  rdir := h2.rdir.trans h1.rdir
  idx := h2.idx.trans h1.idx
  fs := h2.fs
  tab := fun p hp => (h2.tab p hp).trans (h1.tab p hp)
  read := fun p hp => (h2.read p hp).trans (h1.read p hp)

theorem AssetOnly.inv {W : World} {s s' : St} {r : Str} (h1 : AssetOnly W s s' r) (h : Inv W s) : Inv W s' where
  wfPool := by rw [h1.db]; exact h.wfPool
  wfSkip := by rw [h1.db]; exact h.wfSkip
  wfRepos := by rw [h1.db]; exact h.wfRepos
  wfEnts := by rw [h1.db]; exact h.wfEnts
  noEnts := by rw [h1.db]; exact h.noEnts
  cache := by rw [h1.db, h1.cache]; exact h.cache
  rdir := by rw [h1.db, h1.rdir]; exact h.rdir
  repoRes := by rw [h1.db]; exact h.repoRes
  pend := by rw [h1.pend]; exact h.pend
  ent := by
    intro r n e hg
    rw [h1.db] at hg
    exact (h.ent r n e hg).congr (by rw [h1.db])
  pool := by
    intro id pe hg
    rw [h1.db] at hg
    exact (h.pool id pe hg).congr h1.db
  fs := h1.fs
  poolFile := by
    intro id c; rw [h1.db, h1.tab _ (by intro a; simp)]; exact h.poolFile id c
  repoFile := by
    intro r id c; rw [St.has_congr h1.db, h1.tab _ (by intro a; simp)]; exact h.repoFile r id c
  dFile := by
    intro r id c; rw [St.hasDelta_congr h1.db, h1.tab _ (by intro a; simp)]; exact h.dFile r id c
  noOrphan := by
    intro r c id; rw [h1.tab _ (by intro a; simp), h1.db]; exact h.noOrphan r c id

theorem AssetOnly.overwrite {W : World} {s : St} (h : FInv W s.fs) (r : Str) (a : Asset) (c : Content) :
    AssetOnly W s (s.setFs (s.fs.overwrite (.asset r a) c)) r where
  db := rfl
  cache := rfl
  pend := rfl
  clock := rfl
  rdir := by simp
  idx := by simp
  fs := (h.overwrite_asset r a c).1
  tab := fun p hp => FS.overwrite_tab_ne _ _ _ (hp a)
  read := fun p hp => (h.overwrite_asset r a c).2 p (hp a)

/-- repo.go:842-868, one file: only that asset file changes; between different repositories it becomes a
copy. -/
theorem pullAsset_run {W : World} {s : St} (h : FInv W s.fs) (dst src : Str) (a : Asset) :
    ∃ s' tr, pullAsset dst src a s = ⟨.ok (), s', tr⟩ ∧ AssetOnly W s s' dst ∧
      (∀ t ∈ tr, AssetOnly W s t dst) ∧
      (∀ b, b ≠ a → s'.fs.read (.asset dst b) = s.fs.read (.asset dst b)) ∧
      (dst ≠ src → s'.fs.read (.asset dst a) =
        (match s.fs.read (.asset src a) with | some c => some c | none => s.fs.read (.asset dst a))) := by
  unfold pullAsset
  simp only [getSt_bind]
  cases hi : s.fs.tab (.asset src a) with
  | none =>
    refine ⟨s, [], rfl, AssetOnly.refl h dst, by simp, fun _ _ => rfl, fun _ => ?_⟩
    simp [FS.read, hi]
  | some i =>
    simp only
    rw [copyFile_run hi]
    have hread : ∀ b, b ≠ a → ∀ c, (s.fs.overwrite (.asset dst a) c).read (.asset dst b) =
        s.fs.read (.asset dst b) := fun b hb c =>
      (h.overwrite_asset dst a c).2 _ (by simp [hb])
    refine ⟨_, _, rfl, AssetOnly.overwrite h dst a _, ?_, fun b hb => hread b hb _, ?_⟩
    · intro t ht
      simp only [List.mem_cons, List.not_mem_nil, or_false] at ht
      rcases ht with rfl | rfl
      · rw [FS.openTrunc_overwrite]; exact AssetOnly.overwrite h dst a _
      · exact AssetOnly.overwrite h dst a _
    · intro hne
      have hsrc : s.fs.read (.asset src a) = some (s.fs.data i) := by simp [FS.read, hi]
      rw [hsrc]
      have h1 := FS.overwrite_read_dst s.fs (.asset dst a) ((s.fs.openTrunc (.asset dst a)).1.data i)
      have h2 : (s.fs.openTrunc (.asset dst a)).1.data i = s.fs.data i := by
        rw [FS.openTrunc_overwrite]
        have := (h.overwrite_asset dst a []).2 (.asset src a) (by simp; intro hx; exact absurd hx.symm hne)
        rw [hsrc] at this
        unfold FS.read at this
        rw [FS.overwrite_tab_ne _ _ _ (by simp; intro hx; exact absurd hx.symm hne), hi] at this
        simpa using this
      rw [h2] at h1
      have h3 : ((s.setFs (((s.fs.openTrunc (.asset dst a)).1).setData (s.fs.openTrunc (.asset dst a)).2
          ((s.fs.openTrunc (.asset dst a)).1.data i))).fs).read (.asset dst a) = some (s.fs.data i) := by
        rw [h2]; exact h1
      exact h3

/-- repo.go:842-868. -/
theorem pullAssets_run {W : World} {s : St} (h : FInv W s.fs) (dst src : Str) :
    ∃ s' tr, pullAssets dst src s = ⟨.ok (), s', tr⟩ ∧ AssetOnly W s s' dst ∧
      (∀ t ∈ tr, AssetOnly W s t dst) ∧
      (dst ≠ src → ∀ a, s'.fs.read (.asset dst a) =
        (match s.fs.read (.asset src a) with | some c => some c | none => s.fs.read (.asset dst a))) := by
  obtain ⟨s1, tr1, h1, o1, t1, r1, e1⟩ := pullAsset_run h dst src .distribution
  obtain ⟨s2, tr2, h2, o2, t2, r2, e2⟩ := pullAsset_run o1.fs dst src .components
  obtain ⟨s3, tr3, h3, o3, t3, r3, e3⟩ := pullAsset_run o2.fs dst src .groups
  refine ⟨s3, tr1 ++ (tr2 ++ tr3), ?_, (o1.trans o2).trans o3, ?_, ?_⟩
  · unfold pullAssets
    rw [bind_ok h1, bind_ok h2, h3]; simp
  · intro t ht
    rcases List.mem_append.1 ht with ht | ht
    · exact t1 t ht
    · rcases List.mem_append.1 ht with ht | ht
      · exact o1.trans (t2 t ht)
      · exact (o1.trans o2).trans (t3 t ht)
  · intro hne a
    have hs1 : ∀ b, s1.fs.read (.asset src b) = s.fs.read (.asset src b) := fun b =>
      o1.read _ (by intro x; simp; intro hx; exact absurd hx.symm hne)
    have hs2 : ∀ b, s2.fs.read (.asset src b) = s.fs.read (.asset src b) := fun b =>
      (o2.read _ (by intro x; simp; intro hx; exact absurd hx.symm hne)).trans (hs1 b)
    cases a with
    | distribution => rw [r3 _ (by simp), r2 _ (by simp), e1 hne]
    | components => rw [r3 _ (by simp), e2 hne, hs1, r1 _ (by simp)]
    | groups => rw [e3 hne, hs2, r2 _ (by simp), r1 _ (by simp)]

/-- repo.go:842-868, one file, a repository pulling from itself: an existing file is emptied (util.go:47 truncates
before reading), a missing one stays missing. -/
theorem pullAsset_self {W : World} {s s' : St} {tr : List St} (h : FInv W s.fs) {dst : Str} {a : Asset}
    (hrun : pullAsset dst dst a s = ⟨.ok (), s', tr⟩) :
    s'.fs.read (.asset dst a) = (s.fs.read (.asset dst a)).map fun _ => [] := by
  unfold pullAsset at hrun
  simp only [getSt_bind] at hrun
  cases hi : s.fs.tab (.asset dst a) with
  | none =>
    rw [hi] at hrun
    have hx : s' = s := by
      have := congrArg Out.st hrun; exact this.symm
    rw [hx]; simp [FS.read, hi]
  | some i =>
    rw [hi] at hrun
    simp only at hrun
    rw [copyFile_run hi] at hrun
    have hx := congrArg Out.st hrun
    simp only at hx
    rw [← hx]
    have h1 := FS.overwrite_read_dst s.fs (.asset dst a) ((s.fs.openTrunc (.asset dst a)).1.data i)
    have h2 : (s.fs.openTrunc (.asset dst a)).1.data i = [] := by
      rw [FS.openTrunc_overwrite]
      have := FS.overwrite_read_dst s.fs (.asset dst a) []
      unfold FS.read at this
      have ht : (s.fs.overwrite (.asset dst a) []).tab (.asset dst a) = some i := by
        unfold FS.overwrite FS.openTrunc; simp [hi]
      rw [ht] at this
      simpa using this
    rw [h2] at h1 ⊢
    have h3 : s.fs.read (.asset dst a) = some (s.fs.data i) := by simp [FS.read, hi]
    rw [h3]
    exact h1

/-- repo.go:842-868, a repository pulling from itself. -/
theorem pullAssets_self {W : World} {s s' : St} {tr : List St} (h : FInv W s.fs) {dst : Str}
    (hrun : pullAssets dst dst s = ⟨.ok (), s', tr⟩) (a : Asset) :
    s'.fs.read (.asset dst a) = (s.fs.read (.asset dst a)).map fun _ => [] := by
  obtain ⟨s1, tr1, h1, o1, t1, r1, e1⟩ := pullAsset_run h dst dst .distribution
  obtain ⟨s2, tr2, h2, o2, t2, r2, e2⟩ := pullAsset_run o1.fs dst dst .components
  obtain ⟨s3, tr3, h3, o3, t3, r3, e3⟩ := pullAsset_run o2.fs dst dst .groups
  have hx : s' = s3 := by
    unfold pullAssets at hrun
    rw [bind_ok h1, bind_ok h2, h3] at hrun
    exact (congrArg Out.st hrun).symm
  subst hx
  cases a with
  | distribution => rw [r3 _ (by simp), r2 _ (by simp), pullAsset_self h h1]
  | components => rw [r3 _ (by simp), pullAsset_self o1.fs h2, r1 _ (by simp)]
  | groups => rw [pullAsset_self o2.fs h3, r2 _ (by simp), r1 _ (by simp)]

end Ferryd
