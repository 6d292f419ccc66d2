import Verif.CoreLoops
/-!
# CoreUnrefs: the removing loop (RemoveSource, TrimPackages, TrimObsolete) and the delta loop of a full clone
-/
namespace Ferryd

variable {W : World} {s s' : St} {r : Str}

/-- Summary of removing the packages `ids` from `r`. -/
structure RemovedAll (W : World) (s s' : St) (r : Str) (ids : List Str) : Prop where
  inv : Inv W s'
  has : ∀ r' j, s'.has r' j = true ↔ s.has r' j = true ∧ ¬ (r' = r ∧ j ∈ ids)
  frame : Frame W False s s' r
  repos : s'.db.repos = s.db.repos
  cache : s'.cache = s.cache
  clock : s'.clock = s.clock
  idx : s'.fs.idx = s.fs.idx
  rdir : s'.fs.rdir = s.fs.rdir
  asset : ∀ r' a, s'.fs.read (.asset r' a) = s.fs.read (.asset r' a)
  names : ∀ n, (∀ j ∈ ids, (W.mOf j).name ≠ n) → (s'.db.ents r).get n = (s.db.ents r).get n
  hasDelta : ∀ j, s'.hasDelta r j = true → s.hasDelta r j = true ∧ ∀ id ∈ ids, gcDelta s.db.pool id j = false
  keepDelta : ∀ j, s.hasDelta r j = true → (∀ id ∈ ids, gcDelta s.db.pool id j = false) →
    (∃ k, s'.has r k = true ∧ (W.mOf k).name = (W.mOf j).name) → s'.hasDelta r j = true
  /-- as long as a delta stays in the pool, what it leads from and to does not change -/
  deltaInfo : ∀ j pe', s'.db.pool.get j = some pe' → ∃ pe, s.db.pool.get j = some pe ∧ pe'.delta = pe.delta
  /-- unless a record with deltas of other packages is dropped, counts stay exact -/
  tight : Tight W s → (∀ d, s.hasDelta r d = true → s'.hasDelta r d = true ∨
    ∃ id ∈ ids, s.has r id = true ∧ gcDelta s.db.pool id d = true) → Tight W s'

theorem RemovedAll.nil (h : Inv W s) (r : Str) : RemovedAll W s s r [] where
  inv := h
  has := by simp
  frame := Frame.refl _ _ _ _
  repos := rfl
  cache := rfl
  clock := rfl
  idx := rfl
  rdir := rfl
  asset := fun _ _ => rfl
  names := fun _ _ => rfl
  hasDelta := fun j h => ⟨h, by simp⟩
  keepDelta := fun j h _ _ => h
  deltaInfo := fun j pe h => ⟨pe, h, rfl⟩
  tight := fun h _ => h

theorem decEntry_delta {pe pe' : PoolEntry} (h : decEntry pe = some pe') : pe'.delta = pe.delta := by
  obtain ⟨_, rfl⟩ := decEntry_some h; rfl

theorem gcDelta_congr {p q : KV PoolEntry} {j : Str} {pe pe' : PoolEntry} (h1 : p.get j = some pe)
    (h2 : q.get j = some pe') (hd : pe'.delta = pe.delta) (id : Str) : gcDelta q id j = gcDelta p id j := by
  unfold gcDelta; rw [h1, h2]; simp only [hd]

/-- A delta from or to `id` carries the same package name. -/
theorem gcDelta_name (h : Inv W s) {id j : Str} (hgc : gcDelta s.db.pool id j = true) :
    (W.mOf id).name = (W.mOf j).name := by
  unfold gcDelta at hgc
  split at hgc
  · rename_i pd hpd
    split at hgc
    · rename_i di hdi
      simp only [decide_eq_true_eq] at hgc
      have := (h.pool j pd hpd).dinfo di hdi
      rcases hgc with e | e
      · rw [← e]; exact this.1
      · rw [← e]; exact this.2.1
    · cases hgc
  · cases hgc

theorem Unref.all {id : Str} {e : RepoEntry} (hu : Unref W s s' r id e) (ok : W.OK) (h : Inv W s)
    (hge : (s.db.ents r).get (W.mOf id).name = some e) (hin : id ∈ e.available) : RemovedAll W s s' r [id] where
  inv := hu.inv ok h hge hin
  has := by intro r' j; rw [hu.has h hge]; simp
  frame := hu.frame
  repos := hu.repos
  cache := hu.cache
  clock := hu.clock
  idx := hu.idx
  rdir := hu.rdir
  asset := by
    intro r' a
    unfold FS.read; rw [hu.tab, hu.data]; simp [rmPath]
  names := by
    intro n hn
    rw [hu.get, if_neg]
    rintro ⟨_, rfl⟩; exact hn id (by simp) rfl
  hasDelta := by
    intro j hj
    have hnd := ((h.ent r _ e hge).avail id hin).1
    obtain ⟨h0, h1⟩ := hu.hasDelta_le h hnd hge r j hj
    refine ⟨h0, ?_⟩
    intro k hk
    simp only [List.mem_singleton] at hk; subst hk
    cases hgc : gcDelta s.db.pool k j with
    | false => rfl
    | true =>
      exfalso
      obtain ⟨e0, he0, hj0⟩ := (h.hasDelta_iff r j).1 h0
      have hn := gcDelta_name h hgc
      rw [← hn, hge] at he0; cases he0
      exact h1 ⟨rfl, by simp [hj0, hgc]⟩
  keepDelta := by
    rintro j hj hgc ⟨k, hk, hn⟩
    have hi := hu.inv ok h hge hin
    obtain ⟨e0, he0, hj0⟩ := (h.hasDelta_iff r j).1 hj
    rw [hi.hasDelta_iff, hu.get]
    by_cases hc : (W.mOf j).name = (W.mOf id).name
    · rw [if_pos ⟨rfl, hc⟩]
      rw [hc, hge] at he0; cases he0
      obtain ⟨e', he', hk'⟩ := (hi.has_iff r k).1 hk
      rw [hu.get, if_pos ⟨rfl, hn.trans hc⟩] at he'
      split at he'
      · cases he'
      · rename_i hne
        rw [if_neg hne]
        refine ⟨_, rfl, ?_⟩
        simp only [World.droppedEntry, mem_sortS, List.mem_filter]
        exact ⟨hj0, by rw [hgc id (by simp)]; rfl⟩
    · rw [if_neg (by rintro ⟨_, x⟩; exact hc x)]
      exact ⟨e0, he0, hj0⟩
  deltaInfo := by
    intro j pe' hg
    rw [hu.pool] at hg
    split at hg
    · cases hp : s.db.pool.get j with
      | none => rw [hp] at hg; simp at hg
      | some pe => rw [hp] at hg; exact ⟨pe, rfl, decEntry_delta hg⟩
    · exact ⟨pe', hg, rfl⟩
  tight := by
    intro ht hk
    have hnd := ((h.ent r _ e hge).avail id hin).1
    have hsub := hu.hasDelta_le h hnd hge
    have hoth : ∀ r' d, r' ≠ r → s'.hasDelta r' d = s.hasDelta r' d := by
      intro r' d hr'; unfold St.hasDelta; rw [hu.ents]; simp [setEnts, hr']
    have hr : r ∈ s.db.repos.keys := by
      apply Decidable.byContradiction
      intro hn
      rw [h.noEnts r hn] at hge; simp at hge
    -- the deltas released are those listed and from or to `id`
    have hgcmem : ∀ d, W.isDelta d = true → (d ∈ id :: e.deltas.filter (gcDelta s.db.pool id) ↔
        s.hasDelta r d = true ∧ gcDelta s.db.pool id d = true) := by
      intro d hd
      have hne : d ≠ id := by rintro rfl; rw [hnd] at hd; cases hd
      simp only [List.mem_cons, hne, false_or, List.mem_filter]
      constructor
      · rintro ⟨h1, h2⟩; exact ⟨(St.hasDelta_iff (h.wfEnts r) d).2 ⟨_, e, hge, h1⟩, h2⟩
      · rintro ⟨h1, h2⟩
        obtain ⟨e0, he0, hj0⟩ := (h.hasDelta_iff r d).1 h1
        rw [← gcDelta_name h h2, hge] at he0; cases he0
        exact ⟨hj0, h2⟩
    have hself : ∀ d, W.isDelta d = true → (s'.hasDelta r d = true ↔
        s.hasDelta r d = true ∧ d ∉ id :: e.deltas.filter (gcDelta s.db.pool id)) := by
      intro d hd
      constructor
      · intro hx
        obtain ⟨h0, h1⟩ := hsub r d hx
        exact ⟨h0, fun hm => h1 ⟨rfl, hm⟩⟩
      · rintro ⟨h0, h1⟩
        rcases hk d h0 with hx | ⟨j, hj, _, hgc⟩
        · exact hx
        · simp only [List.mem_singleton] at hj; subst hj
          exact absurd ((hgcmem d hd).2 ⟨h0, hgc⟩) h1
    refine ⟨?_, ?_, ?_⟩
    · intro d pe hd hg
      rw [hu.pool] at hg
      by_cases hm : d ∈ id :: e.deltas.filter (gcDelta s.db.pool id)
      · rw [if_pos hm] at hg
        cases hp : s.db.pool.get d with
        | none => rw [hp] at hg; simp at hg
        | some pe0 =>
          rw [hp, Option.bind_some] at hg
          obtain ⟨h1, rfl⟩ := decEntry_some hg
          have h0 := (hgcmem d hd).1 hm
          have hc := ht.count d pe0 hd hp
          have hflip := length_filter_flip (l := s.db.repos.keys) h.wfRepos.nodup_keys hr
            (p := fun r' => s'.hasDelta r' d) (q := fun r' => s.hasDelta r' d)
            (by rw [Bool.eq_false_iff]; intro hx; exact ((hself d hd).1 hx).2 hm) h0.1
            (by intro x hx; exact (hoth x d hx).symm)
          unfold St.dholders at hc ⊢
          rw [hu.repos]
          simp only
          omega
      · rw [if_neg hm] at hg
        have hdh : s'.dholders d = s.dholders d := by
          unfold St.dholders; rw [hu.repos]
          apply List.filter_congr; intro x _
          by_cases e' : x = r
          · subst e'; rw [Bool.eq_iff_iff, hself d hd]; simp only [hm, not_false_eq_true, and_true]
          · exact hoth x d e'
        rw [hdh]; exact ht.count d pe hd hg
    · intro r' c d hd hx
      rw [FS.read_isSome, hu.tab] at hx
      split at hx
      · cases hx
      · rename_i hrm
        obtain ⟨h1, h2⟩ := ht.file r' c d hd (by rw [FS.read_isSome]; exact hx)
        refine ⟨?_, h2⟩
        by_cases e' : r' = r
        · subst e'
          refine (hself d hd).2 ⟨h1, fun hm => hrm ?_⟩
          simp only [rmPath, decide_eq_true_eq]
          exact ⟨trivial, hm, h2⟩
        · rw [hoth r' d e']; exact h1
    · intro p c hp hr'
      unfold FS.read at hr'
      rw [hu.tab, hu.data] at hr'
      split at hr'
      · cases hr'
      · exact ht.canon p c hp hr'

theorem RemovedAll.trans {a b c : St} {l k : List Str} (h : Inv W a) (h1 : RemovedAll W a b r l) (h2 : RemovedAll W b c r k)
    (hl : ∀ id ∈ l, a.has r id = true) : RemovedAll W a c r (l ++ k) := by
  have hgceq : ∀ j, b.hasDelta r j = true → ∀ id, gcDelta b.db.pool id j = gcDelta a.db.pool id j := by
    intro j hj id
    obtain ⟨n, e, hg, hi⟩ := (St.hasDelta_iff (h1.inv.wfEnts r) j).1 hj
    obtain ⟨_, ⟨pe', hpe'⟩, _⟩ := (h1.inv.ent r n e hg).deltas j hi
    obtain ⟨pe, hpe, hdd⟩ := h1.deltaInfo j pe' hpe'
    exact gcDelta_congr hpe hpe' hdd id
  exact {
  inv := h2.inv
  has := by
    intro r' j
    rw [h2.has, h1.has, List.mem_append]
    constructor
    · rintro ⟨⟨x, y⟩, z⟩
      refine ⟨x, ?_⟩
      rintro ⟨e, q | q⟩
      · exact y ⟨e, q⟩
      · exact z ⟨e, q⟩
    · rintro ⟨x, y⟩
      exact ⟨⟨x, fun q => y ⟨q.1, Or.inl q.2⟩⟩, fun q => y ⟨q.1, Or.inr q.2⟩⟩
  frame := h1.frame.trans h2.frame
  repos := h2.repos.trans h1.repos
  cache := h2.cache.trans h1.cache
  clock := h2.clock.trans h1.clock
  idx := h2.idx.trans h1.idx
  rdir := h2.rdir.trans h1.rdir
  asset := fun r' a => (h2.asset r' a).trans (h1.asset r' a)
  names := by
    intro n hn
    rw [h2.names n (fun j hj => hn j (by simp [hj])), h1.names n (fun j hj => hn j (by simp [hj]))]
  hasDelta := by
    intro j hj
    obtain ⟨x1, x2⟩ := h2.hasDelta j hj
    obtain ⟨y1, y2⟩ := h1.hasDelta j x1
    refine ⟨y1, ?_⟩
    intro id hid
    rcases List.mem_append.1 hid with hid | hid
    · exact y2 id hid
    · rw [← hgceq j x1]; exact x2 id hid
  keepDelta := by
    rintro j hj hgc ⟨k', hk, hn⟩
    have hb : b.hasDelta r j = true := h1.keepDelta j hj (fun id hid => hgc id (by simp [hid]))
      ⟨k', ((h2.has r k').1 hk).1, hn⟩
    exact h2.keepDelta j hb (fun id hid => by rw [hgceq j hb]; exact hgc id (by simp [hid])) ⟨k', hk, hn⟩
  deltaInfo := by
    intro j pe hg
    obtain ⟨p1, q1, e1⟩ := h2.deltaInfo j pe hg
    obtain ⟨p2, q2, e2⟩ := h1.deltaInfo j p1 q1
    exact ⟨p2, q2, e1.trans e2⟩
  tight := by
    intro ht hk
    refine h2.tight (h1.tight ht ?_) ?_
    · intro d hd
      rcases hk d hd with hx | ⟨id, hid, hh, hgc⟩
      · exact Or.inl (h2.hasDelta d hx).1
      · by_cases hidl : id ∈ l
        · exact Or.inr ⟨id, hidl, hh, hgc⟩
        · by_cases hex : ∃ x ∈ l, gcDelta a.db.pool x d = true
          · obtain ⟨x, hx, hxg⟩ := hex
            exact Or.inr ⟨x, hx, hl x hx, hxg⟩
          · left
            refine h1.keepDelta d hd (fun x hx => ?_) ⟨id, (h1.has r id).2 ⟨hh, fun q => hidl q.2⟩, gcDelta_name h hgc⟩
            cases hg : gcDelta a.db.pool x d with
            | false => rfl
            | true => exact absurd ⟨x, hx, hg⟩ hex
    · intro d hd
      obtain ⟨h0, hno⟩ := h1.hasDelta d hd
      rcases hk d h0 with hx | ⟨id, hid, hh, hgc⟩
      · exact Or.inl hx
      · have hidl : id ∉ l := fun hm => by rw [hno id hm] at hgc; cases hgc
        refine Or.inr ⟨id, (List.mem_append.1 hid).resolve_left hidl, (h1.has r id).2 ⟨hh, fun q => hidl q.2⟩, ?_⟩
        rw [hgceq d hd]; exact hgc }

theorem unrefPackage_all {id : Str} (ok : W.OK) (h : Inv W s) (hh : s.has r id = true) :
    ∃ s' tr, unrefPackage r id s = ⟨.ok (), s', tr⟩ ∧ RemovedAll W s s' r [id] ∧
      ∀ t ∈ tr, Served W (· ≠ r) t := by
  obtain ⟨e, s', tr, hge, hin, hrun, hu, htr⟩ := unrefPackage_run ok h hh
  refine ⟨s', tr, hrun, hu.all ok h hge hin, ?_⟩
  intro t ht
  rcases htr t ht with hx | rfl
  · refine hx.served ok h ?_
    intro j hj hnd
    rcases List.mem_cons.1 hj with rfl | hj
    · exact hh
    · have := ((h.ent r _ e hge).deltas j (List.mem_filter.1 hj).1).1
      rw [this] at hnd; cases hnd
  · exact (hu.inv ok h hge hin).served ok _

theorem unrefLoop_run (ok : W.OK) (ids : List Str) {s : St} (h : Inv W s) (hnd : ids.Nodup)
    (hids : ∀ id ∈ ids, s.has r id = true) :
    ∃ s' tr, forL ids (unrefPackage r) s = ⟨.ok (), s', tr⟩ ∧ RemovedAll W s s' r ids ∧
      ∀ t ∈ tr, Served W (· ≠ r) t := by
  induction ids generalizing s with
  | nil => exact ⟨s, [], rfl, RemovedAll.nil h r, by simp⟩
  | cons x xs ih =>
    obtain ⟨s1, t1, hrun, ha, htr⟩ := unrefPackage_all ok h (hids x (by simp))
    obtain ⟨s2, t2, hrun2, ha2, htr2⟩ := ih ha.inv (List.nodup_cons.1 hnd).2 (by
      intro id hid
      rw [ha.has]
      refine ⟨hids id (by simp [hid]), ?_⟩
      rintro ⟨_, e⟩
      simp only [List.mem_singleton] at e
      subst e
      exact (List.nodup_cons.1 hnd).1 hid)
    refine ⟨s2, t1 ++ t2, ?_, ha.trans h ha2 (by
      intro id hid; simp only [List.mem_singleton] at hid; subst hid; exact hids _ (by simp)), ?_⟩
    · rw [forL_cons, bind_ok hrun, hrun2]; rfl
    · intro t ht
      rcases List.mem_append.1 ht with ht | ht
      · exact htr t ht
      · exact htr2 t ht

/-! ## Delta loop (full clone) and single delta jobs -/

/-- Summary of referencing deltas in `r`: packages are untouched. -/
structure DeltasAll (W : World) (s s' : St) (r : Str) : Prop where
  inv : Inv W s'
  has : ∀ r' j, s'.has r' j = s.has r' j
  hasDelta : ∀ r' j, s.hasDelta r' j = true → s'.hasDelta r' j = true
  hasDeltaOther : ∀ r' j, r' ≠ r → s'.hasDelta r' j = s.hasDelta r' j
  frame : Frame W True s s' r
  repos : s'.db.repos = s.db.repos
  cache : s'.cache = s.cache
  clock : s'.clock = s.clock
  idx : s'.fs.idx = s.fs.idx
  rdir : s'.fs.rdir = s.fs.rdir
  asset : ∀ r' a, s'.fs.read (.asset r' a) = s.fs.read (.asset r' a)
  ents : ∀ n, (∀ e', (s'.db.ents r).get n = some e' → ∃ e, (s.db.ents r).get n = some e ∧
      e'.name = e.name ∧ e'.available = e.available ∧ e'.published = e.published) ∧
    (∀ e, (s.db.ents r).get n = some e → ∃ e', (s'.db.ents r).get n = some e')
  pool : ∀ j, W.isDelta j = false → s'.db.pool.get j = s.db.pool.get j
  pread : ∀ q, W.isDelta q.base = false → q.isAsset = false → s'.fs.read q = s.fs.read q
  /-- what a delta in the pool leads from and to does not change -/
  poolDelta : ∀ j pe, s.db.pool.get j = some pe → ∃ pe', s'.db.pool.get j = some pe' ∧
    pe'.delta.isSome = pe.delta.isSome
  tight : Tight W s → Tight W s'

theorem DeltasAll.refl (h : Inv W s) (r : Str) : DeltasAll W s s r :=
  ⟨h, fun _ _ => rfl, fun _ _ h => h, fun _ _ _ => rfl, Frame.refl _ _ _ _, rfl, rfl, rfl, rfl, rfl, fun _ _ => rfl,
    fun n => ⟨fun e he => ⟨e, he, rfl, rfl, rfl⟩, fun e he => ⟨e, he⟩⟩, fun _ _ => rfl, fun _ _ _ => rfl,
    fun j pe h => ⟨pe, h, rfl⟩, fun h => h⟩

theorem DeltasAll.trans {a b c : St} (h1 : DeltasAll W a b r) (h2 : DeltasAll W b c r) : DeltasAll W a c r where
  inv := h2.inv
  has r' j := (h2.has r' j).trans (h1.has r' j)
  hasDelta r' j h := h2.hasDelta r' j (h1.hasDelta r' j h)
  hasDeltaOther r' j h := (h2.hasDeltaOther r' j h).trans (h1.hasDeltaOther r' j h)
  frame := h1.frame.trans h2.frame
  repos := h2.repos.trans h1.repos
  cache := h2.cache.trans h1.cache
  clock := h2.clock.trans h1.clock
  idx := h2.idx.trans h1.idx
  rdir := h2.rdir.trans h1.rdir
  asset r' a := (h2.asset r' a).trans (h1.asset r' a)
  ents n := by
    refine ⟨?_, ?_⟩
    · intro e2 he2
      obtain ⟨e1, he1, p1, p2, p3⟩ := (h2.ents n).1 e2 he2
      obtain ⟨e0, he0, q1, q2, q3⟩ := (h1.ents n).1 e1 he1
      exact ⟨e0, he0, p1.trans q1, p2.trans q2, p3.trans q3⟩
    · intro e0 he0
      obtain ⟨e1, he1⟩ := (h1.ents n).2 e0 he0
      exact (h2.ents n).2 e1 he1
  pool j h := (h2.pool j h).trans (h1.pool j h)
  pread q h k := (h2.pread q h k).trans (h1.pread q h k)
  poolDelta j pe h := by
    obtain ⟨p, hp, e1⟩ := h1.poolDelta j pe h
    obtain ⟨q, hq, e2⟩ := h2.poolDelta j p hp
    exact ⟨q, hq, e2.trans e1⟩
  tight h := h2.tight (h1.tight h)

theorem DAdded.all {d c : Str} {e : RepoEntry} {k : Nat} {di : DeltaInfo}
    (ha : DAdded W s s' r d c e k di) (h : Inv W s)
    (hge : (s.db.ents r).get (W.mOf d).name = some e) (hd : W.isDelta d = true) (hp : W.IsPkg d)
    (hc : W.compOf d = some c) (hnew : d ∉ e.deltas)
    (hk : k = (match s.db.pool.get d with | some pe => pe.refCount | none => 0) + 1)
    (hdi : W.DInfoOk d di) : DeltasAll W s s' r ∧ s'.hasDelta r d = true := by
  refine ⟨?_, (ha.hasDelta h hge r d).2 (Or.inr ⟨rfl, rfl⟩)⟩
  exact {
    inv := ha.inv h hge hd hp hc hnew hk hdi
    has := ha.has h hge
    hasDelta := fun r' j hx => (ha.hasDelta h hge r' j).2 (Or.inl hx)
    hasDeltaOther := by
      intro r' j hr
      have := ha.hasDelta h hge r' j
      cases hx : s.hasDelta r' j <;> cases hy : s'.hasDelta r' j <;> simp_all
    frame := ha.frame hd
    repos := ha.repos
    cache := ha.cache
    clock := ha.clock
    idx := ha.idx
    rdir := ha.rdir
    asset := fun r' a => ha.readOther _ (by simp [Path.owner])
    ents := by
      intro n
      refine ⟨?_, ?_⟩
      · intro e' he'
        rw [ha.get] at he'
        split at he'
        · rename_i hx
          cases he'
          exact ⟨e, by rw [hx.2]; exact hge, rfl, rfl, rfl⟩
        · exact ⟨e', he', rfl, rfl, rfl⟩
      · intro e0 he0
        rw [ha.get]
        split
        · exact ⟨_, rfl⟩
        · exact ⟨e0, he0⟩
    pool := by
      intro j hj
      rw [ha.pool, KV.get_put_ne]
      rintro rfl; rw [hd] at hj; cases hj
    pread := by
      intro q hq ha'
      apply ha.readOther
      intro ho
      have : q.base = d := by cases q <;> simp_all [Path.owner, Path.base]
      rw [this, hd] at hq; cases hq
    poolDelta := by
      intro j pe hg
      rw [ha.pool]
      by_cases e : j = d
      · subst e
        rw [KV.get_put_self]
        exact ⟨_, rfl, by rw [(h.pool j pe hg).delta, hd]; rfl⟩
      · rw [KV.get_put_ne _ _ e]; exact ⟨pe, hg, rfl⟩
    tight := ha.tight h hge hd hc hnew hk }

/-- RefDelta: fails without effect, or the delta is listed afterwards and packages are untouched. -/
theorem refDelta_all {d : Str} (ok : W.OK) (h : Inv W s) (hd : W.isDelta d = true) :
    (refDelta W.E r d s = ⟨.err .notFound, s, []⟩ ∧
      (s.db.pool.get d = none ∨ (s.db.ents r).get (W.mOf d).name = none)) ∨
    (∃ s' tr, refDelta W.E r d s = ⟨.ok (), s', tr⟩ ∧ DeltasAll W s s' r ∧ s'.hasDelta r d = true ∧
      (∀ r' j, s'.hasDelta r' j = true → s.hasDelta r' j = true ∨ (r' = r ∧ j = d)) ∧
      ∀ t ∈ tr, Served W (fun _ => True) t) := by
  rcases refDelta_run (r := r) ok h hd with hx | ⟨hx, hy⟩ | ⟨c, e, k, di, s', tr, hrun, ha, hge, hp, hc, hnew, hk, hdi, htr⟩
  · exact Or.inl hx
  · exact Or.inr ⟨s, [], hx, DeltasAll.refl h r, hy, fun _ _ => Or.inl, by simp⟩
  · right
    obtain ⟨h1, h2⟩ := ha.all h hge hd hp hc hnew hk hdi
    refine ⟨s', tr, hrun, h1, h2, fun r' j hx => (ha.hasDelta h hge r' j).1 hx, ?_⟩
    intro t ht
    rcases htr t ht with hx | hx
    · exact hx.served ok h hd _
    · exact (hx.inv h hge hd hp hc hnew hk hdi).served ok _

theorem addDelta_all {d f t : Str} (ok : W.OK) (h : Inv W s) (hd : W.isDelta d = true)
    (hnf : (W.mOf f).name = (W.mOf d).name) (hnt : (W.mOf t).name = (W.mOf d).name) :
    ((∃ er, addDelta W.E r (.stage r d) f t s = ⟨.err er, s, []⟩) ∧ ¬ W.DeltaReady s r d f t) ∨
    (∃ s' tr, addDelta W.E r (.stage r d) f t s = ⟨.ok (), s', tr⟩ ∧ DeltasAll W s s' r ∧
      s'.hasDelta r d = true ∧ (∀ r' j, s'.hasDelta r' j = true → s.hasDelta r' j = true ∨ (r' = r ∧ j = d)) ∧
      ∀ t ∈ tr, Served W (fun _ => True) t) := by
  rcases addDelta_run (r := r) ok h hd hnf hnt with hx | ⟨hx, hy⟩ |
    ⟨c, e, k, di, s', tr, hrun, ha, hge, hp, hc, hnew, hk, _, hdi, htr⟩
  · exact Or.inl hx
  · exact Or.inr ⟨s, [], hx, DeltasAll.refl h r, hy, fun _ _ => Or.inl, by simp⟩
  · right
    obtain ⟨h1, h2⟩ := ha.all h hge hd hp hc hnew hk hdi
    refine ⟨s', tr, hrun, h1, h2, fun r' j hx => (ha.hasDelta h hge r' j).1 hx, ?_⟩
    intro t ht
    rcases htr t ht with hx | hx
    · exact hx.served ok h hd _
    · exact (hx.inv h hge hd hp hc hnew hk hdi).served ok _

theorem deltaLoop_run (ok : W.OK) (ds : List Str) {s : St} (h : Inv W s)
    (hds : ∀ d ∈ ds, W.isDelta d = true ∧ (∃ pe, s.db.pool.get d = some pe) ∧
      ∃ e, (s.db.ents r).get (W.mOf d).name = some e) :
    ∃ s' tr, forL ds (refDelta W.E r) s = ⟨.ok (), s', tr⟩ ∧ DeltasAll W s s' r ∧
      (∀ d ∈ ds, s'.hasDelta r d = true) ∧
      (∀ r' j, s'.hasDelta r' j = true → s.hasDelta r' j = true ∨ (r' = r ∧ j ∈ ds)) ∧
      ∀ t ∈ tr, Served W (fun _ => True) t := by
  induction ds generalizing s with
  | nil => exact ⟨s, [], rfl, DeltasAll.refl h r, by simp, fun _ _ => Or.inl, by simp⟩
  | cons d ds ih =>
    obtain ⟨hd, ⟨pe, hpe⟩, e, he⟩ := hds d (by simp)
    rcases refDelta_all (r := r) ok h hd with ⟨_, hx⟩ | ⟨s1, t1, hrun, hD, hin, hle, htr⟩
    · rw [hpe, he] at hx; simp at hx
    · obtain ⟨s2, t2, hrun2, hD2, hin2, hle2, htr2⟩ := ih hD.inv (by
        intro d' hd'
        obtain ⟨k1, ⟨p, k2⟩, e', k3⟩ := hds d' (by simp [hd'])
        obtain ⟨p', hp', _⟩ := hD.poolDelta d' p k2
        exact ⟨k1, ⟨p', hp'⟩, (hD.ents _).2 e' k3⟩)
      refine ⟨s2, t1 ++ t2, ?_, hD.trans hD2, ?_, ?_, ?_⟩
      · rw [forL_cons, bind_ok hrun, hrun2]; rfl
      · intro x hx
        rcases List.mem_cons.1 hx with rfl | hx
        · exact hD2.hasDelta r x hin
        · exact hin2 x hx
      · intro r' j hj
        rcases hle2 r' j hj with hj | ⟨e, hj⟩
        · rcases hle r' j hj with hj | ⟨e, hj⟩
          · exact Or.inl hj
          · exact Or.inr ⟨e, by simp [hj]⟩
        · exact Or.inr ⟨e, by simp [hj]⟩
      · intro t ht
        rcases List.mem_append.1 ht with ht | ht
        · exact htr t ht
        · exact htr2 t ht

end Ferryd
