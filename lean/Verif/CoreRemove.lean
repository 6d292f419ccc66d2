import Verif.CoreAdd
/-! # CoreRemove: dropping references -/
namespace Ferryd

/-- A pool entry after losing one reference; `none` when it was the last. -/
def decEntry (pe : PoolEntry) : Option PoolEntry :=
  if pe.refCount ≤ 1 then none else some { pe with refCount := pe.refCount - 1 }

/-- The paths that disappear when repository `r` drops the packages in `L`. -/
def rmPath (W : World) (pool : KV PoolEntry) (r : Str) (L : List Str) : Path → Bool
  | .repo r' c j => decide (r' = r ∧ j ∈ L ∧ W.compOf j = some c)
  | .pool c j => decide (j ∈ L ∧ W.compOf j = some c) && ((pool.get j).bind decEntry).isNone
  | _ => false

/-- `s'` is `s` after repository `r` has dropped the packages of `L` from disk and pool (its own records
not yet updated). -/
structure Removed (W : World) (s s' : St) (r : Str) (L : List Str) : Prop where
  wf : s.db.pool.WF → s'.db.pool.WF
  pool : ∀ j, s'.db.pool.get j = if j ∈ L then (s.db.pool.get j).bind decEntry else s.db.pool.get j
  skip : s'.db.skip = s.db.skip
  repos : s'.db.repos = s.db.repos
  ents : s'.db.ents = s.db.ents
  cache : s'.cache = s.cache
  pend : s'.pend = s.pend
  clock : s'.clock = s.clock
  rdir : s'.fs.rdir = s.fs.rdir
  idx : s'.fs.idx = s.fs.idx
  data : s'.fs.data = s.fs.data
  next : s'.fs.next = s.fs.next
  tab : ∀ p, s'.fs.tab p = if rmPath W s.db.pool r L p then none else s.fs.tab p

theorem Removed.nil (W : World) (s : St) (r : Str) : Removed W s s r [] where
  wf := id
  pool := by simp
  skip := rfl
  repos := rfl
  ents := rfl
  cache := rfl
  pend := rfl
  clock := rfl
  rdir := rfl
  idx := rfl
  data := rfl
  next := rfl
  tab := by intro p; cases p <;> simp [rmPath]

theorem Removed.trans {W : World} {s s1 s2 : St} {r : Str} {L K : List Str}
    (h1 : Removed W s s1 r L) (h2 : Removed W s1 s2 r K) (hd : ∀ j ∈ L, j ∉ K) :
    Removed W s s2 r (L ++ K) where
  wf := fun h => h2.wf (h1.wf h)
  pool := by
    intro j
    rw [h2.pool, h1.pool]
    by_cases a : j ∈ L
    · simp [a, hd j a]
    · by_cases b : j ∈ K <;> simp [a, b]
  skip := h2.skip.trans h1.skip
  repos := h2.repos.trans h1.repos
  ents := h2.ents.trans h1.ents
  cache := h2.cache.trans h1.cache
  pend := h2.pend.trans h1.pend
  clock := h2.clock.trans h1.clock
  rdir := h2.rdir.trans h1.rdir
  idx := h2.idx.trans h1.idx
  data := h2.data.trans h1.data
  next := h2.next.trans h1.next
  tab := by
    intro p
    rw [h2.tab, h1.tab]
    cases p with
    | pool c j =>
      by_cases a : j ∈ L
      · have := hd j a
        simp [rmPath, a, this]
      · simp [rmPath, a, h1.pool]
    | repo r' c j =>
      simp only [rmPath, List.mem_append]
      by_cases a : r' = r ∧ j ∈ L ∧ W.compOf j = some c
      · simp [a]
      · by_cases b : r' = r ∧ j ∈ K ∧ W.compOf j = some c
        · simp [b]
        · have : ¬ (r' = r ∧ (j ∈ L ∨ j ∈ K) ∧ W.compOf j = some c) := by
            rintro ⟨x, y | y, z⟩
            · exact a ⟨x, y, z⟩
            · exact b ⟨x, y, z⟩
          simp [a, b, this]
    | _ => simp [rmPath]

/-- What the code needs to know about a pool entry to drop it. -/
structure Droppable (W : World) (id : Str) (pe : PoolEntry) : Prop where
  name : pe.name = id
  isPkg : W.IsPkg id
  pkg : pe.pkg = W.stamped id
  pos : 0 < pe.refCount

theorem PoolOk.droppable {W : World} {s : St} {id : Str} {pe : PoolEntry} (h : PoolOk W s id pe) :
    Droppable W id pe := ⟨h.name, h.isPkg, h.pkg, h.pos⟩

theorem dec64_pos {n : Nat} (h : 0 < n) : (dec64 n > 0) ↔ ¬ n ≤ 1 := by
  unfold dec64; split <;> omega

/-- States passed through while dropping: the files of `L` may be partly gone, the database records of
the repository are untouched. -/
structure Removing (W : World) (s t : St) (r : Str) (L : List Str) : Prop where
  pool : ∀ j, t.db.pool.get j = s.db.pool.get j ∨
    (j ∈ L ∧ t.db.pool.get j = (s.db.pool.get j).bind decEntry)
  skip : t.db.skip = s.db.skip
  repos : t.db.repos = s.db.repos
  ents : t.db.ents = s.db.ents
  cache : t.cache = s.cache
  rdir : t.fs.rdir = s.fs.rdir
  idx : t.fs.idx = s.fs.idx
  data : t.fs.data = s.fs.data
  next : t.fs.next = s.fs.next
  tab : ∀ p, t.fs.tab p = s.fs.tab p ∨ (rmPath W s.db.pool r L p = true ∧ t.fs.tab p = none)

theorem Removed.removing {W : World} {s s' : St} {r : Str} {L : List Str} (h : Removed W s s' r L) :
    Removing W s s' r L where
  pool := by
    intro j
    rw [h.pool]
    by_cases a : j ∈ L
    · exact Or.inr ⟨a, by simp [a]⟩
    · exact Or.inl (by simp [a])
  skip := h.skip
  repos := h.repos
  ents := h.ents
  cache := h.cache
  rdir := h.rdir
  idx := h.idx
  data := h.data
  next := h.next
  tab := by
    intro p
    rw [h.tab]
    by_cases a : rmPath W s.db.pool r L p = true
    · exact Or.inr ⟨a, by simp [a]⟩
    · exact Or.inl (by simp [a])

theorem Removed.then_removing {W : World} {s s1 t : St} {r : Str} {L K : List Str}
    (h1 : Removed W s s1 r L) (h2 : Removing W s1 t r K) (hd : ∀ j ∈ L, j ∉ K) :
    Removing W s t r (L ++ K) where
  pool := by
    intro j
    rcases h2.pool j with h | ⟨hk, h⟩
    · rw [h, h1.pool]
      by_cases a : j ∈ L
      · exact Or.inr ⟨by simp [a], by simp [a]⟩
      · exact Or.inl (by simp [a])
    · have : j ∉ L := fun a => hd j a hk
      rw [h, h1.pool]
      exact Or.inr ⟨by simp [hk], by simp [this]⟩
  skip := h2.skip.trans h1.skip
  repos := h2.repos.trans h1.repos
  ents := h2.ents.trans h1.ents
  cache := h2.cache.trans h1.cache
  rdir := h2.rdir.trans h1.rdir
  idx := h2.idx.trans h1.idx
  data := h2.data.trans h1.data
  next := h2.next.trans h1.next
  tab := by
    intro p
    have hmono : ∀ p, rmPath W s.db.pool r L p = true → rmPath W s.db.pool r (L ++ K) p = true := by
      intro p hp
      cases p with
      | repo r' c j =>
        simp only [rmPath, decide_eq_true_eq, List.mem_append] at hp ⊢
        exact ⟨hp.1, Or.inl hp.2.1, hp.2.2⟩
      | pool c j =>
        simp only [rmPath, Bool.and_eq_true, decide_eq_true_eq, List.mem_append] at hp ⊢
        exact ⟨⟨Or.inl hp.1.1, hp.1.2⟩, hp.2⟩
      | _ => exact hp
    rcases h2.tab p with h | ⟨hk, h⟩
    · rw [h, h1.tab]
      by_cases a : rmPath W s.db.pool r L p = true
      · exact Or.inr ⟨hmono p a, by simp [a]⟩
      · exact Or.inl (by simp [a])
    · refine Or.inr ⟨?_, h⟩
      cases p with
      | repo r' c j =>
        simp only [rmPath, decide_eq_true_eq, List.mem_append] at hk ⊢
        exact ⟨hk.1, Or.inr hk.2.1, hk.2.2⟩
      | pool c j =>
        simp only [rmPath, Bool.and_eq_true, decide_eq_true_eq, List.mem_append] at hk ⊢
        have hnl : j ∉ L := fun a => hd j a hk.1.1
        rw [h1.pool] at hk
        simp only [hnl, if_false] at hk
        exact ⟨⟨Or.inr hk.1.1, hk.1.2⟩, hk.2⟩
      | _ => exact hk

theorem rmPath_mono {W : World} {pool : KV PoolEntry} {r : Str} {L K : List Str} (h : ∀ j ∈ L, j ∈ K)
    {p : Path} (hp : rmPath W pool r L p = true) : rmPath W pool r K p = true := by
  cases p with
  | repo r' c j =>
    simp only [rmPath, decide_eq_true_eq] at hp ⊢
    exact ⟨hp.1, h _ hp.2.1, hp.2.2⟩
  | pool c j =>
    simp only [rmPath, Bool.and_eq_true, decide_eq_true_eq] at hp ⊢
    exact ⟨⟨h _ hp.1.1, hp.1.2⟩, hp.2⟩
  | _ => exact hp

theorem Removing.mono {W : World} {s t : St} {r : Str} {L K : List Str} (h : Removing W s t r L)
    (hs : ∀ j ∈ L, j ∈ K) : Removing W s t r K :=
  { h with
    pool := fun j => (h.pool j).imp id (fun x => ⟨hs j x.1, x.2⟩)
    tab := fun p => (h.tab p).imp id (fun x => ⟨rmPath_mono hs x.1, x.2⟩) }

theorem removePackageInternal_run {W : World} {s : St} {r id : Str} {pe : PoolEntry} (ok : W.OK)
    (hg : s.db.pool.get id = some pe) (hd : Droppable W id pe) :
    ∃ s' tr, removePackageInternal .direct r id s = ⟨.ok (), s', tr⟩ ∧ Removed W s s' r [id] ∧
      ∀ t ∈ tr, Removing W s t r [id] := by
  obtain ⟨c, hc⟩ := ok.comp hd.isPkg
  have hcomp : pathComp? pe.pkg.source = some c := by rw [hd.pkg]; exact hc
  have hnr := (ok.gid hd.isPkg).nres
  let s1 : St := s.setFs (s.fs.setTab (.repo r c id) none)
  have hg1 : s1.db.pool.get id = some pe := hg
  have hrem1 : Removing W s s1 r [id] := {
    pool := fun j => Or.inl rfl
    skip := rfl, repos := rfl, ents := rfl, cache := rfl, rdir := rfl, idx := rfl, data := rfl, next := rfl
    tab := by
      intro p
      by_cases e : p = .repo r c id
      · subst e; exact Or.inr ⟨by simp [rmPath, hc], by simp [s1]⟩
      · exact Or.inl (by simp [s1, e]) }
  by_cases hpos : dec64 pe.refCount > 0
  · have hle := (dec64_pos hd.pos).1 hpos
    have hdec : dec64 pe.refCount = pe.refCount - 1 := by
      unfold dec64; have := hd.pos; split <;> omega
    let w : DbWrite := .putPool pe.name { pe with refCount := dec64 pe.refCount }
    have hres : reservedKey w.key = false := by
      show reservedKey pe.name = false; rw [hd.name]; exact hnr
    let s2 : St := { s1 with db := w.apply s1.db }
    have hR : Removed W s s2 r [id] := {
      wf := fun h => by show (s.db.pool.put _ _).WF; exact h.put _ _
      pool := by
        intro j
        show (s.db.pool.put pe.name _).get j = _
        rw [hd.name, KV.get_put]
        by_cases e : j = id
        · subst e; have hn := hd.name; cases pe; simp_all [decEntry]
        · simp [e]
      skip := rfl, repos := rfl, ents := rfl, cache := rfl, pend := rfl, clock := rfl, rdir := rfl,
      idx := rfl, data := rfl, next := rfl
      tab := by
        intro p
        show (if p = Path.repo r c id then none else s.fs.tab p) = _
        cases p with
        | repo r' c' j =>
          by_cases e : Path.repo r' c' j = .repo r c id
          · cases e; simp [rmPath, hc]
          · have : ¬ (r' = r ∧ j = id ∧ W.compOf j = some c') := by
              rintro ⟨rfl, rfl, h3⟩
              rw [hc] at h3; cases h3; exact e rfl
            simp [rmPath, e, this]
        | pool c' j =>
          by_cases e : j = id
          · subst e; simp [rmPath, hg, decEntry, hle]
          · simp [rmPath, e]
        | _ => simp [rmPath] }
    refine ⟨s2, [s1, s2], ?_, hR, ?_⟩
    · unfold removePackageInternal
      simp only [poolGet?_bind, hg]
      rw [pathComp_bind hcomp, removeFile_bind, hd.name]
      have : unrefEntry .direct id s1 = ⟨.ok (), s2, [s2]⟩ := by
        unfold unrefEntry
        rw [poolGet_bind_some _ hg1]
        simp only [hpos, if_true]
        rw [dbWrite_direct hres]
      show (unrefEntry .direct id s1).pre [s1] = _
      rw [this]; rfl
    · intro t ht
      simp at ht
      rcases ht with rfl | rfl
      · exact hrem1
      · exact hR.removing
  · have hle : pe.refCount ≤ 1 := by
      rcases Nat.lt_or_ge 1 pe.refCount with h | h
      · exact absurd ((dec64_pos hd.pos).2 (by omega)) hpos
      · exact h
    let s2 : St := s1.setFs (s1.fs.setTab (.pool c id) none)
    let w : DbWrite := .delPool id
    have hres : reservedKey w.key = false := hnr
    let s3 : St := { s2 with db := w.apply s2.db }
    have htab2 : ∀ p, (if p = Path.pool c id then none else if p = Path.repo r c id then none else s.fs.tab p) =
        if rmPath W s.db.pool r [id] p then none else s.fs.tab p := by
      intro p
      cases p with
      | repo r' c' j =>
        by_cases e : Path.repo r' c' j = .repo r c id
        · cases e; simp [rmPath, hc]
        · have : ¬ (r' = r ∧ j = id ∧ W.compOf j = some c') := by
            rintro ⟨rfl, rfl, h3⟩
            rw [hc] at h3; cases h3; exact e rfl
          simp [rmPath, e, this]
      | pool c' j =>
        by_cases e : Path.pool c' j = .pool c id
        · cases e; simp [rmPath, hc, hg, decEntry, hle]
        · have : ¬ (j = id ∧ W.compOf j = some c') := by
            rintro ⟨rfl, h3⟩
            rw [hc] at h3; cases h3; exact e rfl
          simp [rmPath, e, this]
      | _ => simp [rmPath]
    have hR : Removed W s s3 r [id] := {
      wf := fun h => by show (s.db.pool.del _).WF; exact h.del _
      pool := by
        intro j
        show (s.db.pool.del id).get j = _
        rw [KV.get_del]
        by_cases e : j = id
        · subst e; simp [hg, decEntry, hle]
        · simp [e]
      skip := rfl, repos := rfl, ents := rfl, cache := rfl, pend := rfl, clock := rfl, rdir := rfl,
      idx := rfl, data := rfl, next := rfl
      tab := htab2 }
    have hrem2 : Removing W s s2 r [id] := {
      pool := fun j => Or.inl rfl
      skip := rfl, repos := rfl, ents := rfl, cache := rfl, rdir := rfl, idx := rfl, data := rfl, next := rfl
      tab := by
        intro p
        have : s2.fs.tab p = if rmPath W s.db.pool r [id] p then none else s.fs.tab p := htab2 p
        rw [this]
        by_cases a : rmPath W s.db.pool r [id] p = true
        · exact Or.inr ⟨a, by simp [a]⟩
        · exact Or.inl (by simp [a]) }
    refine ⟨s3, [s1, s2, s3], ?_, hR, ?_⟩
    · unfold removePackageInternal
      simp only [poolGet?_bind, hg]
      rw [pathComp_bind hcomp, removeFile_bind, hd.name]
      have : unrefEntry .direct id s1 = ⟨.ok (), s3, [s2, s3]⟩ := by
        unfold unrefEntry
        rw [poolGet_bind_some _ hg1]
        simp only [hpos, if_false]
        rw [pathComp_bind hcomp, removeFile_bind, dbWrite_direct hres]; rfl
      show (unrefEntry .direct id s1).pre [s1] = _
      rw [this]; rfl
    · intro t ht
      simp at ht
      rcases ht with rfl | rfl | rfl
      · exact hrem1
      · exact hrem2
      · exact hR.removing

/-! ## The general effect of dropping packages and deltas on the pool -/

theorem decEntry_some {pe pe' : PoolEntry} (h : decEntry pe = some pe') :
    1 < pe.refCount ∧ pe' = { pe with refCount := pe.refCount - 1 } := by
  unfold decEntry at h; split at h
  · cases h
  · cases h; exact ⟨by omega, rfl⟩

/-- If every package of `L` is dropped from repository `r` and nothing else changes in the listings,
the pool stays consistent. -/
theorem drop_pool {W : World} {s s' : St} {r : Str} {L : List Str} (h : Inv W s)
    (hL : ∀ j ∈ L, s.has r j = true ∨ s.hasDelta r j = true)
    (hpool : ∀ j, s'.db.pool.get j = if j ∈ L then (s.db.pool.get j).bind decEntry else s.db.pool.get j)
    (hh : ∀ r' j, s'.has r' j = true ↔ s.has r' j = true ∧ ¬ (r' = r ∧ j ∈ L))
    (hhd : ∀ r' j, s'.hasDelta r' j = true → s.hasDelta r' j = true ∧ ¬ (r' = r ∧ j ∈ L))
    (hhold : ∀ j, s'.holders j = s.db.repos.keys.filter (fun r' => s'.has r' j))
    (hdhold : ∀ j, s'.dholders j = s.db.repos.keys.filter (fun r' => s'.hasDelta r' j)) :
    (∀ id pe, s'.db.pool.get id = some pe → PoolOk W s' id pe) ∧
    (∀ r' j, s'.has r' j = true → ∃ pe, s'.db.pool.get j = some pe) ∧
    (∀ r' j, s'.hasDelta r' j = true → ∃ pe, s'.db.pool.get j = some pe) := by
  -- classification of members of L
  have hLdelta : ∀ j ∈ L, W.isDelta j = false → s.has r j = true := by
    intro j hj hd
    rcases hL j hj with h1 | h1
    · exact h1
    · obtain ⟨n, e, hg, hi⟩ := (St.hasDelta_iff (h.wfEnts r) j).1 h1
      have := ((h.ent r n e hg).deltas j hi).1
      rw [hd] at this; cases this
  have hLpkg : ∀ j ∈ L, W.isDelta j = true → s.hasDelta r j = true := by
    intro j hj hd
    rcases hL j hj with h1 | h1
    · have := (h.has_facts h1).2.1
      rw [hd] at this; cases this
    · exact h1
  have hkeyD : ∀ r' j, s.hasDelta r' j = true → r' ∈ s.db.repos.keys := by
    intro r' j hx
    obtain ⟨n, e, hg, _⟩ := (St.hasDelta_iff (h.wfEnts r') j).1 hx
    apply Decidable.byContradiction
    intro hn
    rw [h.noEnts r' hn] at hg; simp at hg
  have cnt : ∀ j, W.isDelta j = false →
      (s.holders j).length = (s'.holders j).length + (if j ∈ L then 1 else 0) := by
    intro j hd
    rw [hhold]
    unfold St.holders
    by_cases hj : j ∈ L
    · simp only [hj, if_true]
      have hrj := hLdelta j hj hd
      apply length_filter_flip h.wfRepos.nodup_keys (h.has_facts hrj).1
      · rw [Bool.eq_false_iff]; intro hx
        exact ((hh r j).1 hx).2 ⟨rfl, hj⟩
      · exact hrj
      · intro x hx
        rw [Bool.eq_iff_iff, hh x j]
        simp [hx]
    · simp only [hj, if_false, Nat.add_zero]
      congr 1
      apply List.filter_congr
      intro x _
      rw [Bool.eq_iff_iff, hh x j]; simp [hj]
  have dcnt : ∀ j, W.isDelta j = true →
      (s'.dholders j).length + (if j ∈ L then 1 else 0) ≤ (s.dholders j).length := by
    intro j hd
    rw [hdhold]
    unfold St.dholders
    by_cases hj : j ∈ L
    · simp only [hj, if_true]
      have hrj := hLpkg j hj hd
      have hkey := hkeyD r j hrj
      have := length_filter_flip (l := s.db.repos.keys) h.wfRepos.nodup_keys hkey
        (p := fun r' => s.hasDelta r' j && decide (r' ≠ r)) (q := fun r' => s.hasDelta r' j)
        (by simp) hrj (by intro x hx; simp [hx])
      rw [this]
      apply Nat.add_le_add_right
      rw [← List.countP_eq_length_filter, ← List.countP_eq_length_filter]
      apply List.countP_mono_left
      intro x _ hx
      have h1 := hhd x j hx
      simp only [h1.1, Bool.true_and, decide_eq_true_eq]
      rintro rfl; exact h1.2 ⟨rfl, hj⟩
    · simp only [hj, if_false, Nat.add_zero]
      rw [← List.countP_eq_length_filter, ← List.countP_eq_length_filter]
      apply List.countP_mono_left
      intro x _ hx
      exact (hhd x j hx).1
  refine ⟨?_, ?_, ?_⟩
  · intro id pe hg
    rw [hpool] at hg
    by_cases hj : id ∈ L
    · simp only [hj, if_true] at hg
      cases hg0 : s.db.pool.get id with
      | none => rw [hg0] at hg; simp at hg
      | some pe0 =>
        rw [hg0] at hg
        obtain ⟨hlt, rfl⟩ := decEntry_some hg
        have hpo := h.pool id pe0 hg0
        exact {
          name := hpo.name, isPkg := hpo.isPkg, pkg := hpo.pkg, delta := hpo.delta, dinfo := hpo.dinfo
          pos := by simp only; omega
          count := by
            intro hd
            have h1 := cnt id hd
            have h2 := hpo.count hd
            simp only [hj, if_true] at h1
            simp only; omega
          dcount := by
            intro hd
            have h1 := dcnt id hd
            have h2 := hpo.dcount hd
            simp only [hj, if_true] at h1
            simp only; omega }
    · simp only [hj, if_false] at hg
      have hpo := h.pool id pe hg
      exact { hpo with
        count := by
          intro hd
          have h1 := cnt id hd
          have h2 := hpo.count hd
          simp only [hj, if_false] at h1; omega
        dcount := by
          intro hd
          have h1 := dcnt id hd
          have h2 := hpo.dcount hd
          simp only [hj, if_false] at h1; omega }
  · intro r' j hx
    have h0 := (hh r' j).1 hx
    obtain ⟨hkey, hd, pe, hg⟩ := h.has_facts h0.1
    rw [hpool]
    by_cases hj : j ∈ L
    · simp only [hj, if_true, hg, Option.bind_some]
      have h1 := cnt j hd
      have h2 := (h.pool j pe hg).count hd
      have h3 : 0 < (s'.holders j).length := by
        rw [hhold]
        apply List.length_pos_of_mem (a := r')
        rw [List.mem_filter]; exact ⟨hkey, hx⟩
      simp only [hj, if_true] at h1
      refine ⟨{ pe with refCount := pe.refCount - 1 }, ?_⟩
      unfold decEntry
      rw [if_neg (by omega)]
    · simp only [hj, if_false]; exact ⟨pe, hg⟩
  · intro r' j hx
    have h0 := hhd r' j hx
    obtain ⟨n, e, hg1, hi⟩ := (St.hasDelta_iff (h.wfEnts r') j).1 h0.1
    obtain ⟨hd, ⟨pe, hg⟩, _⟩ := (h.ent r' n e hg1).deltas j hi
    rw [hpool]
    by_cases hj : j ∈ L
    · simp only [hj, if_true, hg, Option.bind_some]
      have h1 := dcnt j hd
      have h2 := (h.pool j pe hg).dcount hd
      have h3 : 0 < (s'.dholders j).length := by
        rw [hdhold]
        apply List.length_pos_of_mem (a := r')
        rw [List.mem_filter]; exact ⟨hkeyD r' j h0.1, hx⟩
      simp only [hj, if_true] at h1
      refine ⟨{ pe with refCount := pe.refCount - 1 }, ?_⟩
      unfold decEntry
      rw [if_neg (by omega)]
    · simp only [hj, if_false]; exact ⟨pe, hg⟩

/-- The files stay in step with the pool and the listings when packages are dropped. -/
theorem drop_files {W : World} {s s' : St} {r : Str} {L : List Str} (h : Inv W s)
    (hpool : ∀ j, s'.db.pool.get j = if j ∈ L then (s.db.pool.get j).bind decEntry else s.db.pool.get j)
    (hh : ∀ r' j, s'.has r' j = true ↔ s.has r' j = true ∧ ¬ (r' = r ∧ j ∈ L))
    (htabP : ∀ c j, s'.fs.tab (.pool c j) =
      if rmPath W s.db.pool r L (.pool c j) then none else s.fs.tab (.pool c j))
    (htabR : ∀ r' c j, W.isDelta j = false → ((s'.fs.tab (.repo r' c j)).isSome = true ↔
      (s.fs.tab (.repo r' c j)).isSome = true ∧ ¬ (r' = r ∧ j ∈ L))) :
    (∀ id c, ((s'.fs.tab (.pool c id)).isSome = true ↔
      (∃ pe, s'.db.pool.get id = some pe) ∧ W.compOf id = some c)) ∧
    (∀ r' id c, W.isDelta id = false → ((s'.fs.tab (.repo r' c id)).isSome = true ↔
      s'.has r' id = true ∧ W.compOf id = some c)) := by
  constructor
  · intro id c
    have h0 := h.poolFile id c
    rw [htabP, hpool]
    by_cases hj : id ∈ L
    · by_cases hc : W.compOf id = some c
      · simp only [rmPath, hj, hc, and_self, decide_true, Bool.true_and, if_true, and_true] at h0 ⊢
        cases hb : (s.db.pool.get id).bind decEntry with
        | none => simp
        | some pe =>
          simp only [Option.isNone_some, Bool.false_eq_true, if_false, Option.some.injEq, exists_eq', iff_true]
          rw [h0]
          cases hg : s.db.pool.get id with
          | none => rw [hg] at hb; simp at hb
          | some pe0 => exact ⟨pe0, rfl⟩
      · simp [rmPath, hc] at h0 ⊢
        simp [h0]
    · simp [rmPath, hj] at h0 ⊢
      exact h0
  · intro r' id c hd
    rw [htabR r' c id hd, h.repoFile r' id c hd, hh r' id]
    constructor
    · rintro ⟨⟨a, b⟩, d⟩; exact ⟨⟨a, d⟩, b⟩
    · rintro ⟨⟨a, d⟩, b⟩; exact ⟨⟨a, b⟩, d⟩

theorem decEntry_inpool {W : World} {s s' : St} {r : Str} {L : List Str} {j : Str}
    (h : Removed W s s' r L) (hj : j ∉ L) : s'.db.pool.get j = s.db.pool.get j := by
  rw [h.pool, if_neg hj]

/-! ## unrefPackage -/

/-- The deltas of a list that lead from or to package `id`. -/
def gcDelta (pool : KV PoolEntry) (id d : Str) : Bool :=
  match pool.get d with
  | some pd => match pd.delta with
    | some di => decide (di.fromID = id ∨ di.toID = id)
    | none => false
  | none => false

/-- The tip chosen among `l` by the loop of repo.go:550-566. -/
def topStep (W : World) (acc : Int × Str × List Str) (id : Str) : Int × Str × List Str :=
  if (W.mOf id).rel > acc.1 then ((W.mOf id).rel, id, acc.2.2 ++ [id]) else (acc.1, acc.2.1, acc.2.2 ++ [id])

def topOf (W : World) (l : List Str) : Str := (l.foldl (topStep W) (0, [], [])).2.1

theorem topFold_rest (W : World) (l : List Str) (acc : Int × Str × List Str) :
    (l.foldl (topStep W) acc).2.2 = acc.2.2 ++ l := by
  induction l generalizing acc with
  | nil => simp
  | cons x xs ih =>
    rw [List.foldl_cons, ih]
    unfold topStep; split <;> simp

theorem topFold_max (W : World) (l : List Str) (acc : Int × Str × List Str) :
    acc.1 ≤ (l.foldl (topStep W) acc).1 ∧ (∀ x ∈ l, (W.mOf x).rel ≤ (l.foldl (topStep W) acc).1) ∧
    (((l.foldl (topStep W) acc).2.1 ∈ l ∧ (W.mOf (l.foldl (topStep W) acc).2.1).rel = (l.foldl (topStep W) acc).1)
      ∨ ((l.foldl (topStep W) acc).2.1 = acc.2.1 ∧ (l.foldl (topStep W) acc).1 = acc.1)) := by
  induction l generalizing acc with
  | nil => simp
  | cons x xs ih =>
    rw [List.foldl_cons]
    obtain ⟨h1, h2, h3⟩ := ih (topStep W acc x)
    have hs : acc.1 ≤ (topStep W acc x).1 ∧ (W.mOf x).rel ≤ (topStep W acc x).1 := by
      unfold topStep; split <;> simp <;> omega
    refine ⟨by omega, ?_, ?_⟩
    · intro y hy
      rcases List.mem_cons.1 hy with rfl | hy
      · omega
      · exact h2 y hy
    · rcases h3 with ⟨a, b⟩ | ⟨a, b⟩
      · exact Or.inl ⟨List.mem_cons_of_mem _ a, b⟩
      · rw [a, b]
        unfold topStep; split
        · left; simp
        · right; simp

theorem topOf_spec (W : World) {l : List Str} (hne : l ≠ []) (hpos : ∀ x ∈ l, 1 ≤ (W.mOf x).rel) :
    topOf W l ∈ l ∧ ∀ x ∈ l, (W.mOf x).rel ≤ (W.mOf (topOf W l)).rel := by
  obtain ⟨_, h2, h3⟩ := topFold_max W l (0, [], [])
  cases l with
  | nil => exact absurd rfl hne
  | cons x xs =>
    have hx := h2 x (by simp)
    have hp := hpos x (by simp)
    rcases h3 with ⟨a, b⟩ | ⟨a, b⟩
    · exact ⟨a, by unfold topOf; intro y hy; rw [b]; exact h2 y hy⟩
    · simp only at b; omega

theorem unrefDeltas_run {W : World} (ok : W.OK) {r id : Str} (ds : List Str) {s : St}
    (hnd : ds.Nodup)
    (hds : ∀ d ∈ ds, ∃ pe, s.db.pool.get d = some pe ∧ Droppable W d pe ∧ pe.delta.isSome = true) :
    ∃ s' tr, unrefDeltas r id ds s = ⟨.ok (ds.filter fun d => !gcDelta s.db.pool id d), s', tr⟩ ∧
      Removed W s s' r (ds.filter (gcDelta s.db.pool id)) ∧
      ∀ t ∈ tr, Removing W s t r (ds.filter (gcDelta s.db.pool id)) := by
  induction ds generalizing s with
  | nil => exact ⟨s, [], rfl, Removed.nil W s r, by simp⟩
  | cons d ds ih =>
    obtain ⟨pe, hg, hdr, hdel⟩ := hds d (by simp)
    obtain ⟨di, hdi⟩ := Option.isSome_iff_exists.1 hdel
    rw [List.nodup_cons] at hnd
    unfold unrefDeltas collectL
    by_cases hgc : di.fromID = id ∨ di.toID = id
    · have hb : gcDelta s.db.pool id d = true := by simp [gcDelta, hg, hdi, hgc]
      obtain ⟨s1, tr1, hrun1, hR1, htr1⟩ := removePackageInternal_run (r := r) ok hg hdr
      have hsame : ∀ j ∈ ds, s1.db.pool.get j = s.db.pool.get j := by
        intro j hj; apply decEntry_inpool hR1
        simp; rintro rfl; exact hnd.1 hj
      have hgcs : ∀ j ∈ ds, gcDelta s1.db.pool id j = gcDelta s.db.pool id j := by
        intro j hj; unfold gcDelta; rw [hsame j hj]
      obtain ⟨s2, tr2, hrun2, hR2, htr2⟩ := ih (s := s1) hnd.2 (by
        intro j hj
        obtain ⟨pe', h1, h2⟩ := hds j (by simp [hj])
        exact ⟨pe', by rw [hsame j hj]; exact h1, h2⟩)
      rw [List.filter_congr (q := fun d => !gcDelta s.db.pool id d) (fun j hj => by rw [hgcs j hj])] at hrun2
      rw [List.filter_congr (fun j hj => hgcs j hj)] at hR2 htr2
      have hdisj : ∀ j ∈ [d], j ∉ ds.filter (gcDelta s.db.pool id) := by
        intro j hj; simp at hj; subst hj
        intro hm; exact hnd.1 (List.mem_filter.1 hm).1
      refine ⟨s2, tr1 ++ tr2, ?_, ?_, ?_⟩
      · have hbody : (do
            let pd ← poolGet d
            match pd.delta with
            | none => panicM
            | some di =>
              if di.fromID = id ∨ di.toID = id then do
                removePackageInternal .direct r pd.name
                pure []
              else pure [pd.name] : M (List Str)) s = ⟨.ok [], s1, tr1⟩ := by
          rw [poolGet_bind_some _ hg]
          simp only [hdi, hgc, if_true]
          rw [hdr.name, bind_ok hrun1]; simp
        refine (bind_ok hbody).trans ?_
        unfold unrefDeltas at hrun2
        rw [bind_ok hrun2]
        simp [hb, List.filter_cons]
      · have := hR1.trans hR2 hdisj
        simpa [hb] using this
      · intro t ht
        rcases List.mem_append.1 ht with ht | ht
        · have h1 := htr1 t ht
          have := (Removed.nil W s r).then_removing h1 (by simp)
          have hsub : ∀ j, j ∈ [d] → j ∈ (d :: ds).filter (gcDelta s.db.pool id) := by
            intro j hj; simp at hj; subst hj; simp [hb]
          exact Removing.mono h1 hsub
        · have := hR1.then_removing (htr2 t ht) hdisj
          simpa [hb] using this
    · have hb : gcDelta s.db.pool id d = false := by simp [gcDelta, hg, hdi]; simpa using hgc
      obtain ⟨s2, tr2, hrun2, hR2, htr2⟩ := ih (s := s) hnd.2 (fun j hj => hds j (by simp [hj]))
      refine ⟨s2, tr2, ?_, ?_, ?_⟩
      · have hbody : (do
            let pd ← poolGet d
            match pd.delta with
            | none => panicM
            | some di =>
              if di.fromID = id ∨ di.toID = id then do
                removePackageInternal .direct r pd.name
                pure []
              else pure [pd.name] : M (List Str)) s = ⟨.ok [d], s, []⟩ := by
          rw [poolGet_bind_some _ hg]
          simp only [hdi, hgc, if_false, hdr.name, pure_run]
        refine (bind_ok hbody).trans ?_
        unfold unrefDeltas at hrun2
        rw [bind_ok hrun2]
        simp [hb, List.filter_cons]
      · simpa [hb] using hR2
      · simpa [hb] using htr2

theorem unrefAvail_run {W : World} {s : St} {id : Str} (av : List Str)
    (h : ∀ x ∈ av, x ≠ id → ∃ pe, s.db.pool.get x = some pe ∧ pe.pkg.history ≠ [] ∧
      pe.pkg.rel = (W.mOf x).rel) :
    unrefAvail id av s =
      ⟨.ok ((av.filter (· ≠ id)).foldl (topStep W) ((0 : Int), ([] : Str), ([] : List Str))), s, []⟩ := by
  unfold unrefAvail
  have hgen : ∀ (l : List Str) (acc : Int × Str × List Str), (∀ x ∈ l, x ∈ av) →
      l.foldl (fun acc x => if x = id then acc else topStep W acc x) acc =
        (l.filter (· ≠ id)).foldl (topStep W) acc := by
    intro l
    induction l with
    | nil => intros; rfl
    | cons x xs ih =>
      intro acc hm
      by_cases e : x = id
      · simp only [List.foldl_cons, e, if_true, List.filter_cons, ne_eq, not_true_eq_false, decide_false]
        exact ih acc (fun y hy => hm y (by simp [hy]))
      · simp only [List.foldl_cons, e, if_false, List.filter_cons, ne_eq, not_false_eq_true, decide_true,
          if_true]
        exact ih _ (fun y hy => hm y (by simp [hy]))
  rw [← hgen av _ (fun _ h => h)]
  apply foldL_pure
  intro b x hx
  by_cases e : x = id
  · simp [e]
  · obtain ⟨pe, hg, hh, hrel⟩ := h x hx e
    simp only [e, if_false]
    rw [poolGet_bind_some _ hg, getRelease_bind hh, hrel]
    unfold topStep
    split <;> simp

/-- The record of `id`'s name after dropping `id`, if any is left. -/
def World.droppedEntry (W : World) (pool : KV PoolEntry) (e : RepoEntry) (id : Str) : RepoEntry :=
  { e with deltas := sortS (e.deltas.filter fun d => !gcDelta pool id d),
           available := e.available.filter (· ≠ id),
           published := topOf W (e.available.filter (· ≠ id)) }

/-- `s'` is `s` after repository `r` dropped package `id`, whose record was `e`. -/
structure Unref (W : World) (s s' : St) (r id : Str) (e : RepoEntry) : Prop where
  wf : s.db.pool.WF → s'.db.pool.WF
  pool : ∀ j, s'.db.pool.get j = if j ∈ id :: e.deltas.filter (gcDelta s.db.pool id)
    then (s.db.pool.get j).bind decEntry else s.db.pool.get j
  skip : s'.db.skip = s.db.skip
  repos : s'.db.repos = s.db.repos
  ents : s'.db.ents = setEnts s.db.ents r
    (if e.available.filter (· ≠ id) = [] then (s.db.ents r).del (W.mOf id).name
     else (s.db.ents r).put (W.mOf id).name (W.droppedEntry s.db.pool e id))
  cache : s'.cache = s.cache
  pend : s'.pend = s.pend
  clock : s'.clock = s.clock
  rdir : s'.fs.rdir = s.fs.rdir
  idx : s'.fs.idx = s.fs.idx
  data : s'.fs.data = s.fs.data
  next : s'.fs.next = s.fs.next
  tab : ∀ p, s'.fs.tab p =
    if rmPath W s.db.pool r (id :: e.deltas.filter (gcDelta s.db.pool id)) p then none else s.fs.tab p

theorem SortedS.filter' {l : List Str} (h : SortedS l) (p : Str → Bool) : SortedS (l.filter p) :=
  List.Pairwise.filter p h

/-- repo.go:501-577: dropping a package the repository has. -/
theorem unrefPackage_run {W : World} {s : St} {r id : Str} (ok : W.OK) (h : Inv W s)
    (hh : s.has r id = true) :
    ∃ e s' tr, (s.db.ents r).get (W.mOf id).name = some e ∧ id ∈ e.available ∧
      unrefPackage r id s = ⟨.ok (), s', tr⟩ ∧ Unref W s s' r id e ∧
      ∀ t ∈ tr, Removing W s t r (id :: e.deltas.filter (gcDelta s.db.pool id)) ∨ t = s' := by
  obtain ⟨e, hge, hin⟩ := (h.has_iff r id).1 hh
  obtain ⟨_, hnd, pe, hg⟩ := h.has_facts hh
  have he := h.ent r _ e hge
  have hpo := h.pool id pe hg
  obtain ⟨s1, tr1, hrun1, hR1, htr1⟩ := removePackageInternal_run (r := r) ok hg hpo.droppable
  have hidn : ∀ d ∈ e.deltas, d ≠ id := by
    rintro d hd rfl
    have := (he.deltas d hd).1
    rw [hnd] at this; cases this
  have hsame : ∀ j, j ≠ id → s1.db.pool.get j = s.db.pool.get j := by
    intro j hj; apply decEntry_inpool hR1; simpa using hj
  have hgcs : ∀ d ∈ e.deltas, gcDelta s1.db.pool id d = gcDelta s.db.pool id d := by
    intro d hd; unfold gcDelta; rw [hsame d (hidn d hd)]
  obtain ⟨s2, tr2, hrun2, hR2, htr2⟩ := unrefDeltas_run (r := r) (id := id) ok e.deltas (s := s1) he.dnodup (by
    intro d hd
    obtain ⟨hdd, ⟨pd, hpd⟩, _⟩ := he.deltas d hd
    have hpdo := h.pool d pd hpd
    exact ⟨pd, by rw [hsame d (hidn d hd)]; exact hpd, hpdo.droppable, by rw [hpdo.delta]; exact hdd⟩)
  rw [List.filter_congr (q := fun d => !gcDelta s.db.pool id d) (fun j hj => by rw [hgcs j hj])] at hrun2
  rw [List.filter_congr (fun j hj => hgcs j hj)] at hR2 htr2
  have hdisj : ∀ j ∈ [id], j ∉ e.deltas.filter (gcDelta s.db.pool id) := by
    intro j hj; simp at hj; subst hj
    intro hm; exact hidn _ (List.mem_filter.1 hm).1 rfl
  have hR := hR1.trans hR2 hdisj
  simp only [List.singleton_append] at hR
  have hav := unrefAvail_run (W := W) (s := s2) (id := id) e.available (by
    intro x hx hxid
    obtain ⟨hxd, ⟨px, hpx⟩, _⟩ := he.avail x hx
    have hpxo := h.pool x px hpx
    refine ⟨px, ?_, ?_, ?_⟩
    · rw [decEntry_inpool hR]; exact hpx
      simp only [List.mem_cons, List.mem_filter, not_or, not_and]
      refine ⟨hxid, fun hxx => ?_⟩
      have := (he.deltas x hxx).1
      rw [hxd] at this; cases this
    · rw [hpxo.pkg]; exact (ok.meta hpxo.isPkg).hist
    · rw [hpxo.pkg]; rfl)
  let rem := e.available.filter (· ≠ id)
  have hrest : (rem.foldl (topStep W) ((0 : Int), ([] : Str), ([] : List Str))).2.2 = rem := by
    rw [topFold_rest]; rfl
  have hsorted : sortS rem = rem := sortS_of_sorted (he.sorted.filter' _)
  have hnm : pe.pkg.name = (W.mOf id).name := by rw [hpo.pkg]; rfl
  have htr12 : ∀ t ∈ tr1 ++ tr2, Removing W s t r (id :: e.deltas.filter (gcDelta s.db.pool id)) := by
    intro t ht
    rcases List.mem_append.1 ht with ht | ht
    · exact (htr1 t ht).mono (by intro j hj; simp at hj; subst hj; simp)
    · have := hR1.then_removing (htr2 t ht) hdisj
      simpa using this
  by_cases hre : rem = []
  · let w : DbWrite := .delEnt r e.name
    have hres : reservedKey w.key = false := by show reservedKey e.name = false; rw [he.name]; exact he.nres
    let s3 : St := { s2 with db := w.apply s2.db }
    refine ⟨e, s3, (tr1 ++ tr2) ++ [s3], hge, hin, ?_, ?_, ?_⟩
    · unfold unrefPackage
      rw [poolGet_bind_some _ hg, hnm, repoGet_bind_some _ hge, bind_ok hrun1, bind_ok hrun2, bind_ok hav]
      have : ((e.available.filter (· ≠ id)).foldl (topStep W) ((0 : Int), ([] : Str), ([] : List Str))).2.2.length < 1 := by
        show (rem.foldl (topStep W) _).2.2.length < 1
        rw [hrest, hre]; simp
      rw [if_pos this, dbWrite_direct hres]
      simp [s3, w]
    · exact {
        wf := hR.wf
        pool := hR.pool
        skip := hR.skip
        repos := hR.repos
        ents := by
          show setEnts s2.db.ents r ((s2.db.ents r).del e.name) = _
          rw [hR.ents, he.name, if_pos hre]
        cache := hR.cache, pend := hR.pend, clock := hR.clock, rdir := hR.rdir, idx := hR.idx
        data := hR.data, next := hR.next, tab := hR.tab }
    · intro t ht
      rcases List.mem_append.1 ht with ht | ht
      · exact Or.inl (htr12 t ht)
      · simp at ht; exact Or.inr ht
  · let ne := W.droppedEntry s.db.pool e id
    let w : DbWrite := .putEnt r ne.name ne
    have hnn : ne.name = (W.mOf id).name := he.name
    have hres : reservedKey w.key = false := by show reservedKey ne.name = false; rw [hnn]; exact he.nres
    let s3 : St := { s2 with db := w.apply s2.db }
    refine ⟨e, s3, (tr1 ++ tr2) ++ [s3], hge, hin, ?_, ?_, ?_⟩
    · unfold unrefPackage
      rw [poolGet_bind_some _ hg, hnm, repoGet_bind_some _ hge, bind_ok hrun1, bind_ok hrun2, bind_ok hav]
      have : ¬ ((e.available.filter (· ≠ id)).foldl (topStep W) ((0 : Int), ([] : Str), ([] : List Str))).2.2.length < 1 := by
        show ¬ (rem.foldl (topStep W) _).2.2.length < 1
        rw [hrest]
        have := List.length_pos_iff.2 hre
        omega
      rw [if_neg this]
      have hne : ({ e with
          deltas := sortS (e.deltas.filter fun d => !gcDelta s.db.pool id d),
          available := sortS ((e.available.filter (· ≠ id)).foldl (topStep W) ((0 : Int), ([] : Str), ([] : List Str))).2.2,
          published := ((e.available.filter (· ≠ id)).foldl (topStep W) ((0 : Int), ([] : Str), ([] : List Str))).2.1 } : RepoEntry) = ne := by
        have h1 : sortS (rem.foldl (topStep W) ((0 : Int), ([] : Str), ([] : List Str))).2.2 = rem := by
          rw [hrest, hsorted]
        show (⟨_, sortS (rem.foldl (topStep W) ((0 : Int), ([] : Str), ([] : List Str))).2.2, _, _⟩ : RepoEntry) = _
        rw [h1]; rfl
      rw [hne]
      unfold repoPut
      rw [dbWrite_direct hres]
      simp [s3, w]
    · exact {
        wf := hR.wf
        pool := hR.pool
        skip := hR.skip
        repos := hR.repos
        ents := by
          show setEnts s2.db.ents r ((s2.db.ents r).put ne.name ne) = _
          rw [hR.ents, hnn, if_neg hre]
        cache := hR.cache, pend := hR.pend, clock := hR.clock, rdir := hR.rdir, idx := hR.idx
        data := hR.data, next := hR.next, tab := hR.tab }
    · intro t ht
      rcases List.mem_append.1 ht with ht | ht
      · exact Or.inl (htr12 t ht)
      · simp at ht; exact Or.inr ht

section
variable {W : World} {s s' : St} {r id : Str} {e : RepoEntry}

theorem Unref.wfEnts (hu : Unref W s s' r id e) (h : Inv W s) (r' : Str) : (s'.db.ents r').WF := by
  rw [hu.ents]; unfold setEnts
  by_cases er : r' = r
  · simp only [er, if_true]
    split
    · exact (h.wfEnts r).del _
    · exact (h.wfEnts r).put _ _
  · simp only [er, if_false]; exact h.wfEnts r'

/-- The record of any name after the drop. -/
theorem Unref.get (hu : Unref W s s' r id e) (r' n : Str) : (s'.db.ents r').get n =
    if r' = r ∧ n = (W.mOf id).name then
      (if e.available.filter (· ≠ id) = [] then none else some (W.droppedEntry s.db.pool e id))
    else (s.db.ents r').get n := by
  rw [hu.ents]; unfold setEnts
  by_cases er : r' = r
  · subst er
    simp only [if_true, true_and]
    by_cases hn : n = (W.mOf id).name
    · subst hn; simp only [if_true]
      split
      · rw [KV.get_del]; simp
      · rw [KV.get_put]; simp
    · simp only [hn, if_false]
      split
      · rw [KV.get_del]; simp [hn]
      · rw [KV.get_put]; simp [hn]
  · simp [er]

theorem Unref.has (hu : Unref W s s' r id e) (h : Inv W s)
    (hge : (s.db.ents r).get (W.mOf id).name = some e) (r' j : Str) :
    s'.has r' j = true ↔ s.has r' j = true ∧ ¬ (r' = r ∧ j = id) := by
  rw [St.has_iff (hu.wfEnts h r'), St.has_iff (h.wfEnts r')]
  constructor
  · rintro ⟨n, e', hg, hj⟩
    rw [hu.get] at hg
    split at hg
    · rename_i hc
      obtain ⟨rfl, rfl⟩ := hc
      split at hg
      · cases hg
      · cases hg
        simp only [World.droppedEntry, List.mem_filter, decide_eq_true_eq] at hj
        exact ⟨⟨_, e, hge, hj.1⟩, fun hx => hj.2 hx.2⟩
    · rename_i hc
      refine ⟨⟨n, e', hg, hj⟩, ?_⟩
      rintro ⟨rfl, rfl⟩
      exact hc ⟨rfl, (((h.ent r' n e' hg).avail j hj).2.2).symm⟩
  · rintro ⟨⟨n, e', hg, hj⟩, hne⟩
    by_cases hc : r' = r ∧ n = (W.mOf id).name
    · obtain ⟨rfl, rfl⟩ := hc
      rw [hge] at hg; cases hg
      have hjid : j ≠ id := fun hx => hne ⟨rfl, hx⟩
      have hm : j ∈ e.available.filter (· ≠ id) := by simp [hj, hjid]
      have hnn : e.available.filter (· ≠ id) ≠ [] := by
        intro hx; rw [hx] at hm; simp at hm
      refine ⟨(W.mOf id).name, W.droppedEntry s.db.pool e id, ?_, hm⟩
      rw [hu.get]; simp only [and_self, if_true]; rw [if_neg hnn]
    · exact ⟨n, e', by rw [hu.get, if_neg hc]; exact hg, hj⟩

theorem Unref.hasDelta_le (hu : Unref W s s' r id e) (h : Inv W s) (hnd : W.isDelta id = false)
    (hge : (s.db.ents r).get (W.mOf id).name = some e) (r' j : Str) (hx : s'.hasDelta r' j = true) :
    s.hasDelta r' j = true ∧ ¬ (r' = r ∧ j ∈ id :: e.deltas.filter (gcDelta s.db.pool id)) := by
  rw [St.hasDelta_iff (hu.wfEnts h r')] at hx
  rw [St.hasDelta_iff (h.wfEnts r')]
  obtain ⟨n, e', hg, hj⟩ := hx
  rw [hu.get] at hg
  split at hg
  · rename_i hc
    obtain ⟨rfl, rfl⟩ := hc
    split at hg
    · cases hg
    · cases hg
      simp only [World.droppedEntry, mem_sortS, List.mem_filter, Bool.not_eq_true'] at hj
      refine ⟨⟨_, e, hge, hj.1⟩, ?_⟩
      rintro ⟨_, hm⟩
      rcases List.mem_cons.1 hm with rfl | hm
      · have hd := ((h.ent r' _ e hge).deltas j hj.1).1
        rw [hnd] at hd; cases hd
      · rw [(List.mem_filter.1 hm).2] at hj; cases hj.2
  · rename_i hc
    refine ⟨⟨n, e', hg, hj⟩, ?_⟩
    rintro ⟨rfl, hm⟩
    have hd := ((h.ent r' n e' hg).deltas j hj)
    have hn2 : (W.mOf j).name = (W.mOf id).name := by
      rcases List.mem_cons.1 hm with rfl | hm
      · rfl
      · exact ((h.ent r' _ e hge).deltas j (List.mem_filter.1 hm).1).2.2
    exact hc ⟨rfl, by rw [← hn2, hd.2.2]⟩

/-- Dropping a package keeps the invariant. -/
theorem Unref.inv (hu : Unref W s s' r id e) (ok : W.OK) (h : Inv W s)
    (hge : (s.db.ents r).get (W.mOf id).name = some e) (hin : id ∈ e.available) : Inv W s' := by
  have he := h.ent r _ e hge
  have hnd := (he.avail id hin).1
  have hhas := hu.has h hge
  let L := id :: e.deltas.filter (gcDelta s.db.pool id)
  have hLd : ∀ j ∈ L, j ≠ id → W.isDelta j = true := by
    intro j hj hne
    rcases List.mem_cons.1 hj with rfl | hj
    · exact absurd rfl hne
    · exact (he.deltas j (List.mem_filter.1 hj).1).1
  have hhas2 : ∀ r' j, s'.has r' j = true ↔ s.has r' j = true ∧ ¬ (r' = r ∧ j ∈ L) := by
    intro r' j
    rw [hhas]
    constructor
    · rintro ⟨a, b⟩
      refine ⟨a, ?_⟩
      rintro ⟨c, d⟩
      have hjid : j ≠ id := fun x => b ⟨c, x⟩
      have := hLd j d hjid
      rw [(h.has_facts a).2.1] at this; cases this
    · rintro ⟨a, b⟩
      refine ⟨a, ?_⟩
      rintro ⟨c, rfl⟩
      exact b ⟨c, by simp [L]⟩
  have hL : ∀ j ∈ L, s.has r j = true ∨ s.hasDelta r j = true := by
    intro j hj
    rcases List.mem_cons.1 hj with rfl | hj
    · exact Or.inl ((h.has_iff r j).2 ⟨e, hge, hin⟩)
    · exact Or.inr ((St.hasDelta_iff (h.wfEnts r) j).2 ⟨_, e, hge, (List.mem_filter.1 hj).1⟩)
  obtain ⟨hP, hA, hD⟩ := drop_pool (s' := s') (r := r) (L := L) h hL hu.pool hhas2
    (fun r' j hx => hu.hasDelta_le h hnd hge r' j hx)
    (fun j => by unfold St.holders; rw [hu.repos])
    (fun j => by unfold St.dholders; rw [hu.repos])
  have htabR : ∀ r' c j, W.isDelta j = false → ((s'.fs.tab (.repo r' c j)).isSome = true ↔
      (s.fs.tab (.repo r' c j)).isSome = true ∧ ¬ (r' = r ∧ j ∈ L)) := by
    intro r' c j hj
    rw [hu.tab]
    by_cases hc : r' = r ∧ j ∈ L
    · by_cases hcc : W.compOf j = some c
      · have hrm : rmPath W s.db.pool r L (.repo r' c j) = true := by
          simp only [rmPath, decide_eq_true_eq]; exact ⟨hc.1, hc.2, hcc⟩
        rw [hrm]; simp [hc]
      · have : (s.fs.tab (.repo r' c j)).isSome = false := by
          rw [Bool.eq_false_iff]; intro hx
          exact hcc ((h.repoFile r' j c hj).1 hx).2
        rw [show rmPath W s.db.pool r L (.repo r' c j) = false by simp [rmPath, hcc]]
        simp [this]
    · have : rmPath W s.db.pool r L (.repo r' c j) = false := by
        simp only [rmPath, decide_eq_false_iff_not]
        rintro ⟨a, b, _⟩; exact hc ⟨a, b⟩
      rw [this]; simp [hc]
  obtain ⟨hF1, hF2⟩ := drop_files (s' := s') (r := r) (L := L) h hu.pool hhas2 (fun c j => hu.tab _) htabR
  exact {
    wfPool := hu.wf h.wfPool
    wfSkip := by rw [hu.skip]; exact h.wfSkip
    wfRepos := by rw [hu.repos]; exact h.wfRepos
    wfEnts := hu.wfEnts h
    noEnts := by
      intro r' hr'
      rw [hu.repos] at hr'
      have h0 := h.noEnts r' hr'
      rw [hu.ents]; unfold setEnts
      by_cases er : r' = r
      · subst er; rw [h0] at hge; simp at hge
      · simp only [er, if_false]; exact h0
    cache := by rw [hu.cache, hu.repos]; exact h.cache
    rdir := by rw [hu.rdir, hu.repos]; exact h.rdir
    repoRes := by rw [hu.repos]; exact h.repoRes
    pend := by rw [hu.pend]; exact h.pend
    ent := by
      intro r' n e' hg
      have hmem : ∀ j, j ∈ e'.available → s'.has r' j = true := fun j hj =>
        (St.has_iff (hu.wfEnts h r') j).2 ⟨n, e', hg, hj⟩
      have hdmem : ∀ j, j ∈ e'.deltas → s'.hasDelta r' j = true := fun j hj =>
        (St.hasDelta_iff (hu.wfEnts h r') j).2 ⟨n, e', hg, hj⟩
      rw [hu.get] at hg
      split at hg
      · rename_i hc
        obtain ⟨rfl, rfl⟩ := hc
        split at hg
        · cases hg
        · rename_i hne
          cases hg
          have hsub : ∀ x ∈ e.available.filter (· ≠ id), x ∈ e.available := fun x hx => (List.mem_filter.1 hx).1
          have htop := topOf_spec W hne (by
            intro x hx
            obtain ⟨pe, hpe⟩ := (he.avail x (hsub x hx)).2.1
            exact (ok.meta (h.pool x pe hpe).isPkg).rel)
          exact {
            name := he.name, nres := he.nres, sorted := he.sorted.filter' _
            nodup := he.nodup.filter _
            avail := fun x hx => ⟨(he.avail x (hsub x hx)).1, hA r' x (hmem x hx), (he.avail x (hsub x hx)).2.2⟩
            pub := htop.1
            top := htop.2
            dnodup := by
              simp only [World.droppedEntry, nodup_sortS]
              exact he.dnodup.filter _
            deltas := by
              intro d hd
              have hd' : d ∈ e.deltas := by
                simp only [World.droppedEntry, mem_sortS, List.mem_filter] at hd; exact hd.1
              exact ⟨(he.deltas d hd').1, hD r' d (hdmem d hd), (he.deltas d hd').2.2⟩ }
      · have he' := h.ent r' n e' hg
        exact { he' with
          avail := fun x hx => ⟨(he'.avail x hx).1, hA r' x (hmem x hx), (he'.avail x hx).2.2⟩
          deltas := fun x hx => ⟨(he'.deltas x hx).1, hD r' x (hdmem x hx), (he'.deltas x hx).2.2⟩ }
    pool := hP
    fs := h.fs.removed hu.data hu.next (by
      intro p i hp
      rw [hu.tab] at hp
      split at hp
      · cases hp
      · exact hp)
    poolFile := hF1
    repoFile := hF2
    dFile := by
      intro r' d k hx hk
      obtain ⟨h0, h1⟩ := hu.hasDelta_le h hnd hge r' d hx
      rw [hu.tab]
      have : rmPath W s.db.pool r L (.repo r' k d) = false := by
        simp only [rmPath, decide_eq_false_iff_not]
        rintro ⟨a, b, _⟩; exact h1 ⟨a, b⟩
      rw [if_neg (by rw [this]; simp)]
      exact h.dFile r' d k h0 hk
    noOrphan := by
      intro r' k j hx
      rw [hu.repos]
      rw [hu.tab] at hx
      split at hx
      · simp at hx
      · exact h.noOrphan r' k j hx }

end

end Ferryd
