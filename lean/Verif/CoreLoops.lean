import Verif.CoreIndex
/-!
# CoreLoops: the adding and removing loops used by all jobs, with crash states
-/
namespace Ferryd

variable {W : World} {s s' : St} {r : Str}

def Path.isPool : Path → Bool
  | .pool _ _ => true
  | _ => false

/-- Nothing outside repository `r` and the pool changed.  With `dl` the content of delta files is
exempt. -/
structure Frame (W : World) (dl : Prop) (s s' : St) (r : Str) : Prop where
  skip : s'.db.skip = s.db.skip
  ents : ∀ r', r' ≠ r → s'.db.ents r' = s.db.ents r'
  idx : ∀ r', r' ≠ r → s'.fs.idx r' = s.fs.idx r'
  tab : ∀ q, q.inRepo r = false → q.isPool = false → (s'.fs.tab q).isSome = (s.fs.tab q).isSome
  read : ∀ q, q.inRepo r = false → q.isPool = false → (dl → q.isAsset = true ∨ W.isDelta q.base = false) →
    s'.fs.read q = s.fs.read q

theorem Frame.refl (W : World) (dl : Prop) (s : St) (r : Str) : Frame W dl s s r :=
  ⟨rfl, fun _ _ => rfl, fun _ _ => rfl, fun _ _ _ => rfl, fun _ _ _ _ => rfl⟩

theorem Frame.trans {dl : Prop} {a b c : St} (h1 : Frame W dl a b r) (h2 : Frame W dl b c r) : Frame W dl a c r where
  skip := h2.skip.trans h1.skip
  ents r' h := (h2.ents r' h).trans (h1.ents r' h)
  idx r' h := (h2.idx r' h).trans (h1.idx r' h)
  tab q h k := (h2.tab q h k).trans (h1.tab q h k)
  read q h k l := (h2.read q h k l).trans (h1.read q h k l)

theorem Frame.weaken {dl dl' : Prop} {a b : St} (h : Frame W dl a b r) (hd : dl → dl') : Frame W dl' a b r :=
  { h with read := fun q h1 h2 h3 => h.read q h1 h2 (fun x => h3 (hd x)) }

theorem IdxOnly.frame {dl : Prop} (h : IdxOnly s s' r) : Frame W dl s s' r where
  skip := by rw [h.db]
  ents _ _ := by rw [h.db]
  idx := h.idx
  tab _ _ _ := by rw [h.tab]
  read _ _ _ _ := by rw [h.read]

theorem got_frame (W : World) (dl : Prop) (s : St) (r : Str) : Frame W dl s (s.got r) r where
  skip := by simp
  ents _ _ := by simp
  idx _ _ := by simp
  tab _ _ _ := by simp
  read _ _ _ _ := by simp

theorem AssetOnly.frame {dl : Prop} (h : AssetOnly W s s' r) : Frame W dl s s' r where
  skip := by rw [h.db]
  ents _ _ := by rw [h.db]
  idx _ _ := by rw [h.idx]
  tab q hq _ := by rw [h.tab q]; rintro a rfl; simp [Path.inRepo] at hq
  read q hq _ _ := by rw [h.read q]; rintro a rfl; simp [Path.inRepo] at hq

theorem Added.frame {dl : Prop} {id c : Str} (h : Added W s s' r id c) : Frame W dl s s' r where
  skip := h.skip
  ents r' hr := by rw [h.ents]; simp [setEnts, hr]
  idx _ _ := by rw [h.idx]
  tab q hq hp := by
    rw [h.tabOther q (by rintro rfl; simp [Path.isPool] at hp) (by rintro rfl; simp [Path.inRepo] at hq)]
  read q hq hp _ := by
    rw [h.readOther q (by rintro rfl; simp [Path.isPool] at hp) (by rintro rfl; simp [Path.inRepo] at hq)]

theorem Unref.frame {dl : Prop} {id : Str} {e : RepoEntry} (h : Unref W s s' r id e) : Frame W dl s s' r := by
  have ht : ∀ q, q.inRepo r = false → q.isPool = false → s'.fs.tab q = s.fs.tab q := by
    intro q hq hp
    rw [h.tab]
    cases q <;> simp_all [rmPath, Path.inRepo, Path.isPool]
  exact {
    skip := h.skip
    ents := fun r' hr => by rw [h.ents]; simp [setEnts, hr]
    idx := fun _ _ => by rw [h.idx]
    tab := fun q hq hp => by rw [ht q hq hp]
    read := fun q hq hp _ => by unfold FS.read; rw [ht q hq hp, h.data] }

theorem DAdded.frame {d c : Str} {e : RepoEntry} {k : Nat} {di : DeltaInfo} (hd : W.isDelta d = true)
    (h : DAdded W s s' r d c e k di) : Frame W True s s' r where
  skip := h.skip
  ents r' hr := by rw [h.ents]; simp [setEnts, hr]
  idx _ _ := by rw [h.idx]
  tab q hq hp := by
    rw [h.tabOther q (by rintro rfl; simp [Path.isPool] at hp) (by rintro rfl; simp [Path.inRepo] at hq)]
  read q hq hp hdl := by
    apply h.readOther
    intro ho
    cases hdl trivial with
    | inl ha => cases q <;> simp [Path.isAsset] at ha; simp [Path.owner] at ho
    | inr hn =>
      have : q.base = d := by cases q <;> simp_all [Path.owner, Path.base]
      rw [this, hd] at hn; cases hn

/-! ## Crash consistency -/

/-- Every package that some repository satisfying `P` lists has a pool entry describing it, a pool file and a
served file with the right bytes. -/
structure Served (W : World) (P : Str → Prop) (t : St) : Prop where
  ent : ∀ r n e, P r → (t.db.ents r).get n = some e →
    e.name = n ∧ SortedS e.available ∧ e.available.Nodup ∧ e.published ∈ e.available ∧
    (∀ id ∈ e.available, (W.mOf id).rel ≤ (W.mOf e.published).rel) ∧
    ∀ id ∈ e.available, W.isDelta id = false ∧ W.IsPkg id ∧ (W.mOf id).name = n ∧
      (∃ k, 0 < k ∧ t.db.pool.get id = some ⟨id, k, W.stamped id, none⟩) ∧
      ∃ c, W.compOf id = some c ∧ t.fs.read (.pool c id) = some (W.canon id) ∧
        t.fs.read (.repo r c id) = some (W.canon id)
  pos : ∀ id pe, t.db.pool.get id = some pe → 0 < pe.refCount
  cnt : ∀ id pe (L : List Str), t.db.pool.get id = some pe → W.isDelta id = false → L.Nodup →
    (∀ r ∈ L, P r ∧ t.has r id = true) → L.length ≤ pe.refCount

theorem St.has_ents {s t : St} {r : Str} (h : t.db.ents r = s.db.ents r) (j : Str) : t.has r j = s.has r j := by
  unfold St.has; rw [h]

theorem Inv.cnt (h : Inv W s) {id : Str} {pe : PoolEntry} (hg : s.db.pool.get id = some pe)
    (hd : W.isDelta id = false) {L : List Str} (hL : L.Nodup) (hm : ∀ r ∈ L, s.has r id = true) :
    L.length ≤ pe.refCount := by
  rw [(h.pool id pe hg).count hd]
  exact List.Nodup.length_le_of_subset hL (fun r hr => (h.mem_holders r id).2 (hm r hr))

/-- Without repository `r`, which lists the package too, one less. -/
theorem Inv.cnt_other (h : Inv W s) {id : Str} {pe : PoolEntry} (hg : s.db.pool.get id = some pe)
    (hd : W.isDelta id = false) {r : Str} (hr : s.has r id = true) {L : List Str} (hL : L.Nodup)
    (hm : ∀ r' ∈ L, r' ≠ r ∧ s.has r' id = true) : L.length + 1 ≤ pe.refCount := by
  have := h.cnt hg hd (L := r :: L)
    (List.nodup_cons.2 ⟨fun hx => (hm r hx).1 rfl, hL⟩)
    (fun x hx => by
      rcases List.mem_cons.1 hx with rfl | hx
      · exact hr
      · exact (hm x hx).2)
  simpa using this

theorem Served.congr {P : Str → Prop} {t u : St} (h : Served W P t) (hdb : u.db = t.db)
    (hr : ∀ c id, u.fs.read (.pool c id) = t.fs.read (.pool c id))
    (hr2 : ∀ r c id, u.fs.read (.repo r c id) = t.fs.read (.repo r c id)) : Served W P u where
  ent r n e hP hg := by
    rw [hdb] at hg ⊢
    have := h.ent r n e hP hg
    simpa only [hr, hr2] using this
  pos := by rw [hdb]; exact h.pos
  cnt := by rw [hdb, St.has_congr hdb]; exact h.cnt

theorem Served.mono {P Q : Str → Prop} {t : St} (h : Served W P t) (hq : ∀ r, Q r → P r) : Served W Q t where
  ent r n e hQ hg := h.ent r n e (hq r hQ) hg
  pos := h.pos
  cnt id pe L hg hd hL hm := h.cnt id pe L hg hd hL (fun r hr => ⟨hq r (hm r hr).1, (hm r hr).2⟩)

theorem Inv.pool_eq (h : Inv W s) {id : Str} {pe : PoolEntry}
    (hg : s.db.pool.get id = some pe) (hd : W.isDelta id = false) :
    pe = ⟨id, (s.holders id).length, W.stamped id, none⟩ := by
  have hp := h.pool id pe hg
  have h1 := hp.name; have h2 := hp.pkg; have h3 := hp.delta; have h4 := hp.count hd
  rw [hd] at h3
  cases pe with
  | mk a b c d => simp_all

theorem Inv.served (ok : W.OK) (h : Inv W s) (P : Str → Prop) : Served W P s where
  ent r n e _ hg := by
    have he := h.ent r n e hg
    refine ⟨he.name, he.sorted, he.nodup, he.pub, he.top, ?_⟩
    intro id hid
    obtain ⟨hd, ⟨pe, hpe⟩, hn⟩ := he.avail id hid
    have hp := h.pool id pe hpe
    obtain ⟨c, hc⟩ := ok.comp hp.isPkg
    have hhas : s.has r id = true := (St.has_iff (h.wfEnts r) id).2 ⟨n, e, hg, hid⟩
    refine ⟨hd, hp.isPkg, hn, ⟨(s.holders id).length, ?_, ?_⟩, c, hc, h.poolRead hpe hd hc, h.repoRead hhas hd hc⟩
    · rw [← hp.count hd]; exact hp.pos
    · rw [hpe, ← h.pool_eq hpe hd]
  pos id pe hg := (h.pool id pe hg).pos
  cnt id pe L hg hd hL hm := h.cnt hg hd hL (fun r hr => (hm r hr).2)

/-- In the middle of adding a package, all listings are still fully served. -/
theorem Adding.served {t : St} {id c : Str} (ha : Adding W s t r id c) (ok : W.OK) (h : Inv W s)
    (hnd : W.isDelta id = false) (hnew : s.has r id = false) (hc : W.compOf id = some c) (P : Str → Prop) :
    Served W P t where
  ent r' n e hP hg := by
    rw [ha.ents] at hg
    obtain ⟨h1, h2, h3, h4, h5, h6⟩ := (h.served ok P).ent r' n e hP hg
    refine ⟨h1, h2, h3, h4, h5, ?_⟩
    intro j hj
    obtain ⟨g1, g2, g3, ⟨k, hk, hpk⟩, c', hc', hpr, hrr⟩ := h6 j hj
    have hhas : s.has r' j = true := (St.has_iff (h.wfEnts r') j).2 ⟨n, e, hg, hj⟩
    refine ⟨g1, g2, g3, ?_, c', hc', ?_, ?_⟩
    · rcases ha.pool with hp | hp
      · rw [hp]; exact ⟨k, hk, hpk⟩
      · rw [hp]
        by_cases e : j = id
        · subst e; exact ⟨_, Nat.succ_pos _, KV.get_put_self _ _ _⟩
        · rw [KV.get_put_ne _ _ e]; exact ⟨k, hk, hpk⟩
    · by_cases e : j = id
      · subst e; rw [hc] at hc'; cases hc'
        rw [ha.poolKept ⟨_, hpk⟩]; exact hpr
      · rw [ha.readOther _ (by simp [e]) (by simp)]; exact hpr
    · by_cases e : r' = r ∧ j = id
      · obtain ⟨rfl, rfl⟩ := e; rw [hnew] at hhas; cases hhas
      · rw [ha.readOther _ (by simp) (by
          simp only [ne_eq, Path.repo.injEq, not_and]; intro a _ b; exact e ⟨a, b⟩)]; exact hrr
  pos j pe hg := by
    rcases ha.pool with hp | hp
    · rw [hp] at hg; exact (h.pool j pe hg).pos
    · rw [hp, KV.get_put] at hg
      split at hg
      · cases hg; exact Nat.succ_pos _
      · exact (h.pool j pe hg).pos
  cnt j pe L hg hd hL hm := by
    have hm' : ∀ r ∈ L, s.has r j = true := fun r hr => by
      rw [← St.has_ents (congrFun ha.ents r)]; exact (hm r hr).2
    rcases ha.pool with hp | hp
    · rw [hp] at hg; exact h.cnt hg hd hL hm'
    · rw [hp, KV.get_put] at hg
      split at hg
      · rename_i e; subst e; cases hg
        refine Nat.le_succ_of_le (List.Nodup.length_le_of_subset hL (fun r hr => (h.mem_holders r j).2 (hm' r hr)))
      · exact h.cnt hg hd hL hm'

theorem DAdding.served {t : St} {d c : Str} (ha : DAdding W s t r d c) (ok : W.OK) (h : Inv W s)
    (hd : W.isDelta d = true) (P : Str → Prop) : Served W P t where
  ent r' n e hP hg := by
    rw [ha.ents] at hg
    obtain ⟨h1, h2, h3, h4, h5, h6⟩ := (h.served ok P).ent r' n e hP hg
    refine ⟨h1, h2, h3, h4, h5, ?_⟩
    intro j hj
    obtain ⟨g1, g2, g3, ⟨k, hk, hpk⟩, c', hc', hpr, hrr⟩ := h6 j hj
    have hne : j ≠ d := by rintro rfl; rw [hd] at g1; cases g1
    refine ⟨g1, g2, g3, ?_, c', hc', ?_, ?_⟩
    · rcases ha.pool with hp | ⟨k', di, _, hp⟩
      · rw [hp]; exact ⟨k, hk, hpk⟩
      · rw [hp, KV.get_put_ne _ _ hne]; exact ⟨k, hk, hpk⟩
    · rw [ha.readOther _ (by simp [Path.owner, Path.base, hne])]; exact hpr
    · rw [ha.readOther _ (by simp [Path.owner, Path.base, hne])]; exact hrr
  pos j pe hg := by
    rcases ha.pool with hp | ⟨k', di, hk', hp⟩
    · rw [hp] at hg; exact (h.pool j pe hg).pos
    · rw [hp, KV.get_put] at hg
      split at hg
      · cases hg; exact hk'
      · exact (h.pool j pe hg).pos
  cnt j pe L hg hnd hL hm := by
    have hm' : ∀ r ∈ L, s.has r j = true := fun r hr => by
      rw [← St.has_ents (congrFun ha.ents r)]; exact (hm r hr).2
    have hne : j ≠ d := by rintro rfl; rw [hd] at hnd; cases hnd
    rcases ha.pool with hp | ⟨k', di, hk', hp⟩
    · rw [hp] at hg; exact h.cnt hg hnd hL hm'
    · rw [hp, KV.get_put_ne _ _ hne] at hg; exact h.cnt hg hnd hL hm'

theorem Removing.served {t : St} {L : List Str} (ha : Removing W s t r L) (ok : W.OK) (h : Inv W s)
    (hL : ∀ j ∈ L, W.isDelta j = false → s.has r j = true) : Served W (· ≠ r) t where
  ent r' n e hP hg := by
    rw [ha.ents] at hg
    obtain ⟨h1, h2, h3, h4, h5, h6⟩ := (h.served ok (fun _ => True)).ent r' n e trivial hg
    refine ⟨h1, h2, h3, h4, h5, ?_⟩
    intro j hj
    obtain ⟨g1, g2, g3, ⟨k, hk, hpk⟩, c', hc', hpr, hrr⟩ := h6 j hj
    have hhas : s.has r' j = true := (St.has_iff (h.wfEnts r') j).2 ⟨n, e, hg, hj⟩
    have hcnt := h.pool j _ hpk
    -- a package of another repository has at least two references when also in r
    have htwo : j ∈ L → 1 < k := by
      intro hjL
      have hr := hL j hjL g1
      have := hcnt.count g1
      simp only at this
      rw [this]
      have m1 : r ∈ s.holders j := (h.mem_holders r j).2 hr
      have m2 : r' ∈ s.holders j := (h.mem_holders r' j).2 hhas
      match hl : s.holders j with
      | [] => rw [hl] at m1; simp at m1
      | [x] =>
        rw [hl] at m1 m2; simp at m1 m2
        exact absurd (m2.trans m1.symm) hP
      | x :: y :: l => simp
    have hkeep : j ∈ L → ((s.db.pool.get j).bind decEntry) = some ⟨j, k - 1, W.stamped j, none⟩ := by
      intro hjL
      rw [hpk]
      simp only [Option.bind_some, decEntry]
      rw [if_neg (by have := htwo hjL; omega)]
    have hdat : ∀ q, t.fs.tab q = s.fs.tab q → t.fs.read q = s.fs.read q := by
      intro q hq; unfold FS.read; rw [hq, ha.data]
    refine ⟨g1, g2, g3, ?_, c', hc', ?_, ?_⟩
    · rcases ha.pool j with hp | ⟨hjL, hp⟩
      · rw [hp]; exact ⟨k, hk, hpk⟩
      · rw [hp, hkeep hjL]
        exact ⟨k - 1, by have := htwo hjL; omega, rfl⟩
    · rcases ha.tab (.pool c' j) with hx | ⟨hx, _⟩
      · rw [hdat _ hx]; exact hpr
      · simp only [rmPath, Bool.and_eq_true, decide_eq_true_eq] at hx
        rw [hkeep hx.1.1] at hx
        simp at hx
    · rcases ha.tab (.repo r' c' j) with hx | ⟨hx, _⟩
      · rw [hdat _ hx]; exact hrr
      · simp only [rmPath, decide_eq_true_eq] at hx
        exact absurd hx.1 hP
  pos j pe hg := by
    rcases ha.pool j with hp | ⟨_, hp⟩
    · rw [hp] at hg; exact (h.pool j pe hg).pos
    · rw [hp] at hg
      cases hgj : s.db.pool.get j with
      | none => rw [hgj] at hg; cases hg
      | some pe0 =>
        rw [hgj, Option.bind_some] at hg
        obtain ⟨h1, rfl⟩ := decEntry_some hg
        simp only; omega
  cnt j pe L' hg hnd hL' hm := by
    have hm' : ∀ r' ∈ L', r' ≠ r ∧ s.has r' j = true := fun x hx => by
      rw [← St.has_ents (congrFun ha.ents x)]; exact hm x hx
    rcases ha.pool j with hp | ⟨hjL, hp⟩
    · rw [hp] at hg; exact h.cnt hg hnd hL' (fun x hx => (hm' x hx).2)
    · rw [hp] at hg
      cases hgj : s.db.pool.get j with
      | none => rw [hgj] at hg; cases hg
      | some pe0 =>
        rw [hgj, Option.bind_some] at hg
        obtain ⟨h1, rfl⟩ := decEntry_some hg
        have := h.cnt_other hgj hnd (hL j hjL hnd) hL' hm'
        simp only; omega

/-! ## Adding loop -/

/-- Summary of adding the packages `ids` (some of which may be there already) to `r`. -/
structure AddedAll (W : World) (s s' : St) (r : Str) (ids : List Str) : Prop where
  inv : Inv W s'
  has : ∀ r' j, s'.has r' j = true ↔ s.has r' j = true ∨ (r' = r ∧ j ∈ ids)
  hasDelta : ∀ r' j, s'.hasDelta r' j = true → s.hasDelta r' j = true
  frame : Frame W False s s' r
  repos : s'.db.repos = s.db.repos
  cache : s'.cache = s.cache
  clock : s'.clock = s.clock
  idx : s'.fs.idx = s.fs.idx
  rdir : s'.fs.rdir = s.fs.rdir
  asset : ∀ r' a, s'.fs.read (.asset r' a) = s.fs.read (.asset r' a)
  names : ∀ n, (∀ j ∈ ids, (W.mOf j).name = n → s.has r j = true) →
    (s'.db.ents r).get n = (s.db.ents r).get n
  poolGe : ∀ j pe, s.db.pool.get j = some pe → ∃ pe', s'.db.pool.get j = some pe'
  poolDelta : ∀ j, W.isDelta j = true → s'.db.pool.get j = s.db.pool.get j
  dread : ∀ q, q.isAsset = false → W.isDelta q.base = true → s'.fs.read q = s.fs.read q

theorem AddedAll.nil (h : Inv W s) (r : Str) : AddedAll W s s r [] where
  inv := h
  has := by simp
  hasDelta := fun _ _ h => h
  frame := Frame.refl _ _ _ _
  repos := rfl
  cache := rfl
  clock := rfl
  idx := rfl
  rdir := rfl
  asset := fun _ _ => rfl
  names := fun _ _ => rfl
  poolGe := fun j pe h => ⟨pe, h⟩
  poolDelta := fun _ _ => rfl
  dread := fun _ _ _ => rfl

theorem AddedAll.old {id : Str} (h : Inv W s) (ho : s.has r id = true) : AddedAll W s s r [id] where
  inv := h
  has := by
    intro r' j
    constructor
    · exact Or.inl
    · rintro (h | ⟨rfl, hj⟩)
      · exact h
      · simp at hj; subst hj; exact ho
  hasDelta := fun _ _ h => h
  frame := Frame.refl _ _ _ _
  repos := rfl
  cache := rfl
  clock := rfl
  idx := rfl
  rdir := rfl
  asset := fun _ _ => rfl
  names := fun _ _ => rfl
  poolGe := fun j pe h => ⟨pe, h⟩
  poolDelta := fun _ _ => rfl
  dread := fun _ _ _ => rfl

theorem Added.all {id c : Str} (ha : Added W s s' r id c) (ok : W.OK) (h : Inv W s) (hr : r ∈ s.db.repos.keys)
    (hnd : W.isDelta id = false) (hp : W.IsPkg id) (hc : W.compOf id = some c)
    (hnew : s.has r id = false) : AddedAll W s s' r [id] where
  inv := ha.inv ok h hr hnd hp hc hnew
  has := by
    intro r' j; rw [ha.has h]; simp
  hasDelta := ha.hasDelta_le h
  frame := ha.frame
  repos := ha.repos
  cache := ha.cache
  clock := ha.clock
  idx := ha.idx
  rdir := ha.rdir
  asset := fun r' a => ha.readOther _ (by simp) (by simp)
  names := by
    intro n hn
    have : (W.mOf id).name ≠ n := by
      intro e
      have := hn id (by simp) e
      rw [hnew] at this; cases this
    rw [ha.ents]
    simp only [setEnts, if_true]
    rw [KV.get_put_ne _ _ (Ne.symm this)]
  poolGe := by
    intro j pe hg
    rw [ha.pool]
    by_cases e : j = id
    · subst e; exact ⟨_, KV.get_put_self _ _ _⟩
    · rw [KV.get_put_ne _ _ e]; exact ⟨pe, hg⟩
  poolDelta := by
    intro j hj
    rw [ha.pool, KV.get_put_ne]
    rintro rfl; rw [hnd] at hj; cases hj
  dread := by
    intro q _ hq
    apply ha.readOther <;> (rintro rfl; simp only [Path.base] at hq; rw [hnd] at hq; cases hq)

theorem AddedAll.trans {a b c : St} {l k : List Str} (h1 : AddedAll W a b r l) (h2 : AddedAll W b c r k) :
    AddedAll W a c r (l ++ k) where
  inv := h2.inv
  has := by
    intro r' j
    rw [h2.has, h1.has, List.mem_append]
    constructor
    · rintro ((h | h) | h)
      · exact Or.inl h
      · exact Or.inr ⟨h.1, Or.inl h.2⟩
      · exact Or.inr ⟨h.1, Or.inr h.2⟩
    · rintro (h | ⟨e, h | h⟩)
      · exact Or.inl (Or.inl h)
      · exact Or.inl (Or.inr ⟨e, h⟩)
      · exact Or.inr ⟨e, h⟩
  hasDelta r' j h := h1.hasDelta r' j (h2.hasDelta r' j h)
  frame := h1.frame.trans h2.frame
  repos := h2.repos.trans h1.repos
  cache := h2.cache.trans h1.cache
  clock := h2.clock.trans h1.clock
  idx := h2.idx.trans h1.idx
  rdir := h2.rdir.trans h1.rdir
  asset r' a := (h2.asset r' a).trans (h1.asset r' a)
  names n hn := by
    rw [h2.names n, h1.names n]
    · intro j hj; exact hn j (by simp [hj])
    · intro j hj e
      exact (h1.has r j).2 (Or.inl (hn j (by simp [hj]) e))
  poolGe j pe hg := by
    obtain ⟨p, hp⟩ := h1.poolGe j pe hg
    exact h2.poolGe j p hp
  poolDelta j hj := (h2.poolDelta j hj).trans (h1.poolDelta j hj)
  dread q h k := (h2.dread q h k).trans (h1.dread q h k)

/-- RefPackage, whether or not the package is already there. -/
theorem refPackage_run {id : Str} (ok : W.OK) (h : Inv W s) (hr : r ∈ s.db.repos.keys)
    (hnd : W.isDelta id = false) {pe : PoolEntry} (hg : s.db.pool.get id = some pe) :
    ∃ s' tr, refPackage W.E r id s = ⟨.ok (), s', tr⟩ ∧ AddedAll W s s' r [id] ∧
      ∀ t ∈ tr, Served W (fun _ => True) t := by
  cases hh : s.has r id with
  | true => exact ⟨s, [], refPackage_old ok h hh, AddedAll.old h hh, by simp⟩
  | false =>
    obtain ⟨c, s', tr, hc, hrun, ha, htr⟩ := refPackage_new ok h hg hnd hh
    have hp := (h.pool id pe hg).isPkg
    refine ⟨s', tr, hrun, ha.all ok h hr hnd hp hc hh, ?_⟩
    intro t ht
    rcases htr t ht with hx | hx
    · exact hx.served ok h hnd hh hc _
    · exact (hx.inv ok h hr hnd hp hc hh).served ok _

theorem refLoop_run (ok : W.OK) (ids : List Str) {s : St} (h : Inv W s) (hr : r ∈ s.db.repos.keys)
    (hids : ∀ id ∈ ids, W.isDelta id = false ∧ ∃ pe, s.db.pool.get id = some pe) :
    ∃ s' tr, forL ids (refPackage W.E r) s = ⟨.ok (), s', tr⟩ ∧ AddedAll W s s' r ids ∧
      ∀ t ∈ tr, Served W (fun _ => True) t := by
  induction ids generalizing s with
  | nil => exact ⟨s, [], rfl, AddedAll.nil h r, by simp⟩
  | cons x xs ih =>
    obtain ⟨hnd, pe, hg⟩ := hids x (by simp)
    obtain ⟨s1, t1, hrun, ha, htr⟩ := refPackage_run ok h hr hnd hg
    obtain ⟨s2, t2, hrun2, ha2, htr2⟩ := ih ha.inv (by rw [ha.repos]; exact hr) (by
      intro id hid
      obtain ⟨k1, pe', k2⟩ := hids id (by simp [hid])
      exact ⟨k1, ha.poolGe id pe' k2⟩)
    refine ⟨s2, t1 ++ t2, ?_, ha.trans ha2, ?_⟩
    · rw [forL_cons, bind_ok hrun, hrun2]; rfl
    · intro t ht
      rcases List.mem_append.1 ht with ht | ht
      · exact htr t ht
      · exact htr2 t ht

/-! ## Importing files -/

/-- AddPackage of one file, default mode: the file is unreadable or no package (error, nothing changed), or
it is added. -/
theorem addPackage_run (ok : W.OK) (h : Inv W s) (hr : r ∈ s.db.repos.keys) (f : Str)
    (hnd : W.isDelta (baseName f) = false) :
    (s.fs.read (.ext f) = some (W.canon (baseName f)) ∧ W.IsPkg (baseName f) ∧
      ∃ s' tr, addPackage W.E r (.ext f) false s = ⟨.ok (), s', tr⟩ ∧ AddedAll W s s' r [baseName f] ∧
        ∀ t ∈ tr, Served W (fun _ => True) t) ∨
    (¬ (s.fs.read (.ext f) = some (W.canon (baseName f)) ∧ W.IsPkg (baseName f)) ∧
      ∃ e, addPackage W.E r (.ext f) false s = ⟨.err e, s, []⟩) := by
  unfold addPackage
  rcases openPkg_run (p := .ext f) h ok rfl with ⟨ho, hx⟩ | ⟨ho, c, hx, hb⟩ | ⟨ho, hx, hp⟩
  · right
    refine ⟨by rw [hx]; simp, _, bind_err ho⟩
  · right
    refine ⟨?_, _, bind_err ho⟩
    rintro ⟨h1, h2⟩
    rw [hx] at h1; cases h1
    unfold World.IsPkg at h2; rw [hb] at h2; cases h2
  · left
    refine ⟨hx, hp, ?_⟩
    simp only [Path.base] at ho hx hp
    rw [bind_ok ho]
    simp only [Bool.not_false, if_true, Out.pre_nil]
    cases hh : s.has r (baseName f) with
    | true => exact ⟨s, [], addLocalPackage_old ok h hp hh, AddedAll.old h hh, by simp⟩
    | false =>
      obtain ⟨c, s', tr, hc, hrun, ha, htr⟩ :=
        addLocalPackage_new (p := .ext f) ok h rfl ⟨f, rfl⟩ hx hp hnd hh
      refine ⟨s', tr, hrun, ha.all ok h hr hnd hp hc hh, ?_⟩
      intro t ht
      rcases htr t ht with hx | hx
      · exact hx.served ok h hnd hh hc _
      · exact (hx.inv ok h hr hnd hp hc hh).served ok _

/-- A file that AddPackage can read. -/
def World.Importable (W : World) (s : St) (f : Str) : Prop :=
  s.fs.read (.ext f) = some (W.canon (baseName f)) ∧ W.IsPkg (baseName f)

/-- The import loop in default mode. -/
theorem addLoop_run (ok : W.OK) (fs : List Str) {s : St} (h : Inv W s) (hr : r ∈ s.db.repos.keys)
    (hnd : ∀ f ∈ fs, W.isDelta (baseName f) = false) :
    ∃ res s' tr done rest, forL fs (fun f => addPackage W.E r (.ext f) false) s = ⟨res, s', tr⟩ ∧
      fs = done ++ rest ∧ AddedAll W s s' r (done.map baseName) ∧
      (∀ f ∈ done, W.Importable s f) ∧
      ((res = .ok () ∧ rest = []) ∨ (∃ e f rest', res = .err e ∧ rest = f :: rest' ∧ ¬ W.Importable s f)) ∧
      ∀ t ∈ tr, Served W (fun _ => True) t := by
  induction fs generalizing s with
  | nil =>
    exact ⟨.ok (), s, [], [], [], rfl, rfl, AddedAll.nil h r, by simp, Or.inl ⟨rfl, rfl⟩, by simp⟩
  | cons f fs ih =>
    rcases addPackage_run ok h hr f (hnd f (by simp)) with ⟨hx, hp, s1, t1, hrun, ha, htr⟩ | ⟨hn, e, hrun⟩
    · obtain ⟨res, s2, t2, done, rest, hrun2, hfs, ha2, himp, hor, htr2⟩ :=
        ih ha.inv (by rw [ha.repos]; exact hr) (fun f hf => hnd f (by simp [hf]))
      have hiff : ∀ g, W.Importable s1 g ↔ W.Importable s g := by
        intro g; unfold World.Importable
        rw [ha.frame.read (.ext g) rfl rfl (by simp)]
      refine ⟨res, s2, t1 ++ t2, f :: done, rest, ?_, by rw [hfs]; rfl, ?_, ?_, ?_, ?_⟩
      · rw [forL_cons, bind_ok hrun, hrun2]; rfl
      · exact ha.trans ha2
      · intro g hg
        rcases List.mem_cons.1 hg with rfl | hg
        · exact ⟨hx, hp⟩
        · exact (hiff g).1 (himp g hg)
      · rcases hor with h | ⟨e, g, rest', h1, h2, h3⟩
        · exact Or.inl h
        · exact Or.inr ⟨e, g, rest', h1, h2, fun x => h3 ((hiff g).2 x)⟩
      · intro t ht
        rcases List.mem_append.1 ht with ht | ht
        · exact htr t ht
        · exact htr2 t ht
    · refine ⟨.err e, s, [], [], f :: fs, ?_, rfl, AddedAll.nil h r, by simp,
        Or.inr ⟨e, f, fs, rfl, rfl, hn⟩, by simp⟩
      rw [forL_cons, bind_err hrun]

/-! ## Strict import -/

/-- AddPackage of one file, strict mode: refused with nothing changed, or added; it is added exactly when
readable and newer than the current tip of its name (if any). -/
theorem addPackageStrict_run (ok : W.OK) (h : Inv W s) (hr : r ∈ s.db.repos.keys) (f : Str)
    (hnd : W.isDelta (baseName f) = false) :
    (W.Importable s f ∧
      (∀ e, (s.db.ents r).get (W.mOf (baseName f)).name = some e →
        (W.mOf e.published).rel < (W.mOf (baseName f)).rel) ∧
      ∃ s' tr, addPackage W.E r (.ext f) true s = ⟨.ok (), s', tr⟩ ∧ AddedAll W s s' r [baseName f] ∧
        ∀ t ∈ tr, Served W (fun _ => True) t) ∨
    (¬ (W.Importable s f ∧
      (∀ e, (s.db.ents r).get (W.mOf (baseName f)).name = some e →
        (W.mOf e.published).rel < (W.mOf (baseName f)).rel)) ∧
      ∃ e, addPackage W.E r (.ext f) true s = ⟨.err e, s, []⟩) := by
  rcases openPkg_run (p := .ext f) h ok rfl with ⟨ho, hx⟩ | ⟨ho, c, hx, hb⟩ | ⟨ho, hx, hp⟩
  · right
    refine ⟨by unfold World.Importable; rw [hx]; simp, _, bind_err ho⟩
  · right
    refine ⟨?_, _, bind_err ho⟩
    rintro ⟨⟨h1, h2⟩, _⟩
    rw [hx] at h1; cases h1
    unfold World.IsPkg at h2; rw [hb] at h2; cases h2
  · simp only [Path.base] at ho hx hp
    have hlocal : ∃ s' tr, addLocalPackage W.E r ⟨.ext f, baseName f, W.mOf (baseName f)⟩ s = ⟨.ok (), s', tr⟩ ∧
        AddedAll W s s' r [baseName f] ∧ ∀ t ∈ tr, Served W (fun _ => True) t := by
      cases hh : s.has r (baseName f) with
      | true => exact ⟨s, [], addLocalPackage_old ok h hp hh, AddedAll.old h hh, by simp⟩
      | false =>
        obtain ⟨c, s', tr, hc, hrun, ha, htr⟩ :=
          addLocalPackage_new (p := .ext f) ok h rfl ⟨f, rfl⟩ hx hp hnd hh
        refine ⟨s', tr, hrun, ha.all ok h hr hnd hp hc hh, ?_⟩
        intro t ht
        rcases htr t ht with hx | hx
        · exact hx.served ok h hnd hh hc _
        · exact (hx.inv ok h hr hnd hp hc hh).served ok _
    have hrun0 : addPackage W.E r (.ext f) true s =
        (match (s.db.ents r).get (W.mOf (baseName f)).name with
        | none => addLocalPackage W.E r ⟨.ext f, baseName f, W.mOf (baseName f)⟩
        | some l => poolGet l.published >>= fun pub => getRelease pub.pkg >>= fun pr =>
            getRelease (W.mOf (baseName f)) >>= fun nr =>
            if pr > nr then throwE .higherRelease
            else if pr = nr then throwE .sameRelease
            else addLocalPackage W.E r ⟨.ext f, baseName f, W.mOf (baseName f)⟩) s := by
      unfold addPackage
      rw [bind_ok ho]
      simp only [Bool.not_true, Bool.false_eq_true, if_false, Out.pre_nil]
      rw [repoGet?_bind]
      cases hh : (s.db.ents r).get (W.mOf (baseName f)).name <;> rfl
    cases hge : (s.db.ents r).get (W.mOf (baseName f)).name with
    | none =>
      left
      refine ⟨⟨hx, hp⟩, by simp, ?_⟩
      rw [hrun0, hge]; exact hlocal
    | some l =>
      rw [hge] at hrun0
      have hl := h.ent r _ l hge
      obtain ⟨hd', ⟨pe, hpe⟩, _⟩ := hl.avail _ hl.pub
      have hpo := h.pool _ pe hpe
      have hhist : pe.pkg.history ≠ [] := by rw [hpo.pkg]; exact (ok.meta hpo.isPkg).hist
      have hrel : pe.pkg.rel = (W.mOf l.published).rel := by rw [hpo.pkg]; rfl
      simp only at hrun0
      rw [poolGet_bind_some _ hpe, getRelease_bind hhist, getRelease_bind (ok.meta hp).hist, hrel] at hrun0
      by_cases c1 : (W.mOf l.published).rel > (W.mOf (baseName f)).rel
      · right
        rw [if_pos c1] at hrun0
        refine ⟨?_, _, hrun0⟩
        rintro ⟨_, h2⟩
        have := h2 l rfl
        omega
      · rw [if_neg c1] at hrun0
        by_cases c2 : (W.mOf l.published).rel = (W.mOf (baseName f)).rel
        · right
          rw [if_pos c2] at hrun0
          refine ⟨?_, _, hrun0⟩
          rintro ⟨_, h2⟩
          have := h2 l rfl
          omega
        · left
          rw [if_neg c2] at hrun0
          refine ⟨⟨hx, hp⟩, ?_, ?_⟩
          · intro e he; cases he; omega
          · rw [hrun0]; exact hlocal

/-- Every file of the list is readable and newer than everything of its name, in the repository and before it
in the list. -/
structure World.StrictOk (W : World) (s : St) (r : Str) (fs : List Str) : Prop where
  imp : ∀ f ∈ fs, W.Importable s f
  newer : ∀ f ∈ fs, ∀ j, s.has r j = true → (W.mOf j).name = (W.mOf (baseName f)).name →
    (W.mOf j).rel < (W.mOf (baseName f)).rel
  incr : fs.Pairwise fun f g => (W.mOf (baseName f)).name = (W.mOf (baseName g)).name →
    (W.mOf (baseName f)).rel < (W.mOf (baseName g)).rel

theorem newerThanTip_iff (h : Inv W s) (r n : Str) (k : Int) :
    (∀ e, (s.db.ents r).get n = some e → (W.mOf e.published).rel < k) ↔
    ∀ j, s.has r j = true → (W.mOf j).name = n → (W.mOf j).rel < k := by
  constructor
  · rintro hx j hj rfl
    obtain ⟨e, hg, hm⟩ := (h.has_iff r j).1 hj
    have := hx e hg
    have := (h.ent r _ e hg).top j hm
    omega
  · intro hx e hg
    have he := h.ent r n e hg
    exact hx _ ((St.has_iff (h.wfEnts r) _).2 ⟨n, e, hg, he.pub⟩) (he.avail _ he.pub).2.2

theorem StrictOk.cons_iff {f : Str} {l : List Str} {s s1 : St} (ha : AddedAll W s s1 r [baseName f])
    (hx : W.Importable s f)
    (hn : ∀ j, s.has r j = true → (W.mOf j).name = (W.mOf (baseName f)).name →
      (W.mOf j).rel < (W.mOf (baseName f)).rel) :
    W.StrictOk s r (f :: l) ↔ W.StrictOk s1 r l := by
  have hiff : ∀ g, W.Importable s1 g ↔ W.Importable s g := by
    intro g; unfold World.Importable
    rw [ha.frame.read (.ext g) rfl rfl (by simp)]
  constructor
  · rintro ⟨h1, h2, h3⟩
    rw [List.pairwise_cons] at h3
    refine ⟨fun g hg => (hiff g).2 (h1 g (by simp [hg])), ?_, h3.2⟩
    intro g hg j hj hnm
    rcases (ha.has r j).1 hj with hj | ⟨_, hj⟩
    · exact h2 g (by simp [hg]) j hj hnm
    · simp only [List.mem_singleton] at hj
      subst hj; exact h3.1 g hg hnm
  · rintro ⟨h1, h2, h3⟩
    refine ⟨?_, ?_, ?_⟩
    · intro g hg
      rcases List.mem_cons.1 hg with rfl | hg
      · exact hx
      · exact (hiff g).1 (h1 g hg)
    · intro g hg
      rcases List.mem_cons.1 hg with rfl | hg
      · exact hn
      · intro j hj; exact h2 g hg j ((ha.has r j).2 (Or.inl hj))
    · rw [List.pairwise_cons]
      refine ⟨?_, h3⟩
      intro g hg; exact h2 g hg _ ((ha.has r _).2 (Or.inr ⟨rfl, by simp⟩))

/-- The import loop in strict mode: the longest acceptable prefix is added. -/
theorem addLoopStrict_run (ok : W.OK) (fs : List Str) {s : St} (h : Inv W s) (hr : r ∈ s.db.repos.keys)
    (hnd : ∀ f ∈ fs, W.isDelta (baseName f) = false) :
    ∃ res s' tr done rest, forL fs (fun f => addPackage W.E r (.ext f) true) s = ⟨res, s', tr⟩ ∧
      fs = done ++ rest ∧ AddedAll W s s' r (done.map baseName) ∧
      W.StrictOk s r done ∧
      ((res = .ok () ∧ rest = []) ∨
        (∃ e f rest', res = .err e ∧ rest = f :: rest' ∧ ¬ W.StrictOk s r (done ++ [f]))) ∧
      ∀ t ∈ tr, Served W (fun _ => True) t := by
  induction fs generalizing s with
  | nil =>
    exact ⟨.ok (), s, [], [], [], rfl, rfl, AddedAll.nil h r, ⟨by simp, by simp, by simp⟩, Or.inl ⟨rfl, rfl⟩, by simp⟩
  | cons f fs ih =>
    rcases addPackageStrict_run ok h hr f (hnd f (by simp)) with ⟨hx, hn, s1, t1, hrun, ha, htr⟩ | ⟨hn, e, hrun⟩
    · rw [newerThanTip_iff h] at hn
      obtain ⟨res, s2, t2, done, rest, hrun2, hfs, ha2, himp, hor, htr2⟩ :=
        ih ha.inv (by rw [ha.repos]; exact hr) (fun f hf => hnd f (by simp [hf]))
      refine ⟨res, s2, t1 ++ t2, f :: done, rest, ?_, by rw [hfs]; rfl, ?_, ?_, ?_, ?_⟩
      · rw [forL_cons, bind_ok hrun, hrun2]; rfl
      · exact ha.trans ha2
      · exact (StrictOk.cons_iff ha hx hn).2 himp
      · rcases hor with h1 | ⟨e, g, rest', h1, h2, h3⟩
        · exact Or.inl h1
        · refine Or.inr ⟨e, g, rest', h1, h2, fun h4 => h3 ?_⟩
          exact (StrictOk.cons_iff ha hx hn).1 h4
      · intro t ht
        rcases List.mem_append.1 ht with ht | ht
        · exact htr t ht
        · exact htr2 t ht
    · refine ⟨.err e, s, [], [], f :: fs, ?_, rfl, AddedAll.nil h r, ⟨by simp, by simp, by simp⟩,
        Or.inr ⟨e, f, fs, rfl, rfl, ?_⟩, by simp⟩
      · rw [forL_cons, bind_err hrun]
      · rintro ⟨h1, h2, _⟩
        exact hn ⟨h1 f (by simp), (newerThanTip_iff h r _ _).2 (h2 f (by simp))⟩

theorem StrictOk.prefix {a b : List Str} (h : W.StrictOk s r (a ++ b)) : W.StrictOk s r a :=
  ⟨fun f hf => h.imp f (by simp [hf]), fun f hf => h.newer f (by simp [hf]), (List.pairwise_append.1 h.incr).1⟩

end Ferryd
