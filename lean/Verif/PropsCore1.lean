import Verif.CoreFrame
import Verif.Demo
import Verif.SpecIndex
/-!
# Properties C01–C10: pool, tips, served files, import, frame, create, delete

All are about an arbitrary state `s` reached from the empty daemon by an arbitrary history of operations
(`Reachable W s`) in an arbitrary world meeting `W.OK`.
-/
namespace Ferryd
open Spec
variable {W : World} {s : St}

/-! ## C01 -/

/-- C01: the pool's count of a package is the number of repositories that list it. -/
theorem C01_refcount (ok : W.OK) (h : Reachable W s) {id : Str} {k : Nat} (hd : W.isDelta id = false)
    (hc : Count s id k) : ∃ L, Enumerates L (fun r => Repo s r ∧ Has s r id) ∧ k = L.length := by
  have hi := h.inv ok
  obtain ⟨pe, hg, rfl⟩ := hc
  refine ⟨s.holders id, ⟨?_, ?_⟩, (hi.pool id pe hg).count hd⟩
  · exact hi.wfRepos.nodup_keys.filter _
  · intro r
    show _ ↔ Repo s r ∧ Has s r id
    rw [hi.mem_holders, hi.spec_has]
    exact ⟨fun x => ⟨(hi.has_facts x).1, x⟩, fun x => x.2⟩

/-- C01 for delta packages: the count never falls below the number of repositories listing the delta
(it may exceed it, see `C31`). -/
theorem C01_delta_refcount_ge (ok : W.OK) (h : Reachable W s) {d : Str} {k : Nat} (hd : W.isDelta d = true)
    (hc : Count s d k) : ∃ L, Enumerates L (fun r => Repo s r ∧ HasDelta s r d) ∧ L.length ≤ k := by
  have hi := h.inv ok
  obtain ⟨pe, hg, rfl⟩ := hc
  refine ⟨s.dholders d, ⟨?_, ?_⟩, (hi.pool d pe hg).dcount hd⟩
  · exact hi.wfRepos.nodup_keys.filter _
  · intro r
    show _ ↔ Repo s r ∧ HasDelta s r d
    rw [hi.spec_delta]
    simp only [St.dholders, List.mem_filter, Repo]

/-- Not vacuous: after the demo history package a-2 is in the pool with two references. -/
example : Reachable Demo.W Demo.st1 ∧ Demo.W.isDelta (Demo.S "a-2.eopkg") = false ∧
    Count Demo.st1 (Demo.S "a-2.eopkg") 2 :=
  ⟨Demo.reach1, by decide +kernel, (Demo.st1.db.pool.get (Demo.S "a-2.eopkg")).get (by decide +kernel),
    by decide +kernel, by decide +kernel⟩

/-! ## C02 -/

/-- C02: a package is in the pool exactly while some repository lists it, and its pool file is there, with
the uploaded bytes, exactly then. -/
theorem C02_pool_iff_used (ok : W.OK) (h : Reachable W s) {id : Str} (hd : W.isDelta id = false) :
    (InPool s id ↔ ∃ r, Repo s r ∧ Has s r id) ∧
    (InPool s id → PooledAs W s id (W.canon id)) ∧
    (∀ d c, s.fs.read (.pool d id) = some c → InPool s id) := by
  have hi := h.inv ok
  refine ⟨⟨?_, ?_⟩, ?_, ?_⟩
  · rintro ⟨pe, hg⟩
    have hp := hi.pool id pe hg
    have hc := hp.count hd
    have hpos := hp.pos
    cases hL : s.holders id with
    | nil => rw [hL] at hc; simp at hc; omega
    | cons r l =>
      have : r ∈ s.holders id := by rw [hL]; exact List.mem_cons_self
      have hh := (hi.mem_holders r id).1 this
      exact ⟨r, (hi.has_facts hh).1, (hi.spec_has r id).2 hh⟩
  · rintro ⟨r, _, hh⟩
    exact (hi.has_facts ((hi.spec_has r id).1 hh)).2.2
  · rintro ⟨pe, hg⟩
    obtain ⟨c, hc⟩ := ok.comp (hi.pool id pe hg).isPkg
    exact ⟨c, hc, hi.poolRead hg hd hc⟩
  · intro d c hr
    have : (s.fs.tab (.pool d id)).isSome = true := by
      obtain ⟨i, hi, _⟩ := FS.read_eq_some.1 hr; rw [hi]; rfl
    exact ((hi.poolFile id d).1 this).1

/-- C02, the step form: after any further operation, a package still listed somewhere is still pooled, and one
listed nowhere has left the pool, entry and file. -/
theorem C02_after_any_job (ok : W.OK) (h : Reachable W s) (o : Op) (ho : o.Ok W) {id : Str}
    (hd : W.isDelta id = false) :
    ((∃ r, Has (o.exec W.E s) r id) → InPool (o.exec W.E s) id ∧ PooledAs W (o.exec W.E s) id (W.canon id)) ∧
    ((¬ ∃ r, Has (o.exec W.E s) r id) →
      ¬ InPool (o.exec W.E s) id ∧ ∀ d, (o.exec W.E s).fs.read (.pool d id) = none) := by
  have h' := h.step o ho
  have hi := h'.inv ok
  obtain ⟨h1, h2, h3⟩ := C02_pool_iff_used ok h' hd
  constructor
  · rintro ⟨r, hr⟩
    have hin := h1.2 ⟨r, (hi.has_facts ((hi.spec_has r id).1 hr)).1, hr⟩
    exact ⟨hin, h2 hin⟩
  · intro hn
    have hnot : ¬ InPool (o.exec W.E s) id := fun hp => hn (by
      obtain ⟨r, _, hr⟩ := h1.1 hp; exact ⟨r, hr⟩)
    refine ⟨hnot, fun d => ?_⟩
    cases hx : (o.exec W.E s).fs.read (.pool d id) with
    | none => rfl
    | some c => exact absurd (h3 d c hx) hnot

/-- Not vacuous: removing source `a` from one of the two repositories keeps a-2 pooled, removing it from both
drops it. -/
example :
    (let s1 := Op.exec Demo.E Demo.st1 (.removeSource (Demo.S "shannon") (Demo.S "a") 0)
     let s2 := Op.exec Demo.E s1 (.removeSource (Demo.S "unstable") (Demo.S "a") 0)
     (s1.db.pool.get (Demo.S "a-2.eopkg")).isSome = true ∧ s1.has (Demo.S "shannon") (Demo.S "a-2.eopkg") = false ∧
     (s2.db.pool.get (Demo.S "a-2.eopkg")).isSome = false ∧
     s2.fs.read (.pool (Demo.S "a/a") (Demo.S "a-2.eopkg")) = none) := by decide +kernel

/-! ## C03 -/

/-- C03: in every durable state any operation passes through every stored count is positive; the counter is
therefore never decremented at zero, and its decrement never wraps around. -/
theorem C03_no_underflow (ok : W.OK) (h : Reachable W s) (o : Op) (ho : o.Ok W) :
    (∀ t ∈ s :: o.exec W.E s :: (o.run W.E s).tr, ∀ id k, Count t id k → 1 ≤ k ∧ dec64 k = k - 1) := by
  have hi := h.inv ok
  have hs := Op.sound ok hi o ho
  have key : ∀ t, (∀ id pe, t.db.pool.get id = some pe → 0 < pe.refCount) →
      ∀ id k, Count t id k → 1 ≤ k ∧ dec64 k = k - 1 := by
    rintro t ht id k ⟨pe, hg, rfl⟩
    have := ht id pe hg
    refine ⟨this, ?_⟩
    unfold dec64; rw [if_neg (by omega)]
  intro t ht
  rcases List.mem_cons.1 ht with rfl | ht
  · exact key _ (fun id pe hg => (hi.pool id pe hg).pos)
  · rcases List.mem_cons.1 ht with rfl | ht
    · exact key _ (fun id pe hg => (hs.inv.pool id pe hg).pos)
    · exact key _ (hs.served t ht).pos

/-! ## C04 -/

/-- C04: the tip is listed and no listed package of that name has a higher release; every listed name has a
tip. -/
theorem C04_tip_is_highest (ok : W.OK) (h : Reachable W s) {r n : Str} :
    (∀ t, Tip s r n t → Lists s r n t ∧ ∀ id, Lists s r n id → relOf W id ≤ relOf W t) ∧
    (∀ id, Lists s r n id → ∃ t, Tip s r n t) := by
  have hi := h.inv ok
  refine ⟨?_, ?_⟩
  · rintro t ⟨e, hg, rfl⟩
    have he := hi.ent r n e hg
    refine ⟨⟨e, hg, he.pub⟩, ?_⟩
    rintro id ⟨e', hg', hid⟩
    rw [hg] at hg'; cases hg'
    exact he.top id hid
  · rintro id ⟨e, hg, _⟩; exact ⟨e.published, e, hg, rfl⟩

/-- C04 at every crash point of every operation, for the repositories it does not remove packages from. -/
theorem C04_tip_at_crash_points (ok : W.OK) (h : Reachable W s) (o : Op) (ho : o.Ok W) {t : St}
    (ht : t ∈ (o.run W.E s).tr) {r n : Str} (hr : o.removesFrom ≠ some r) :
    ∀ p, Tip t r n p → Lists t r n p ∧ ∀ id, Lists t r n id → relOf W id ≤ relOf W p := by
  have hs := (Op.sound ok (h.inv ok) o ho).served t ht
  rintro p ⟨e, hg, rfl⟩
  obtain ⟨_, _, _, h4, h5, _⟩ := hs.ent r n e hr hg
  refine ⟨⟨e, hg, h4⟩, ?_⟩
  rintro id ⟨e', hg', hid⟩
  rw [hg] at hg'; cases hg'
  exact h5 id hid

example : Tip Demo.st1 (Demo.S "shannon") (Demo.S "a") (Demo.S "a-2.eopkg") ∧
    Lists Demo.st1 (Demo.S "shannon") (Demo.S "a") (Demo.S "a-1.eopkg") :=
  ⟨⟨((Demo.st1.db.ents (Demo.S "shannon")).get (Demo.S "a")).get (by decide +kernel), by decide +kernel, by decide +kernel⟩,
   ⟨((Demo.st1.db.ents (Demo.S "shannon")).get (Demo.S "a")).get (by decide +kernel), by decide +kernel, by decide +kernel⟩⟩

/-! ## C05 -/

/-- C05: every listed package is served with the bytes of the uploaded file, and the recorded SHA-1, size and
location are those of that file. -/
theorem C05_served_bytes (ok : W.OK) (h : Reachable W s) {r n id : Str} (hl : Lists s r n id) :
    ServedAs W s r id (W.canon id) ∧
    ∃ pe d, s.db.pool.get id = some pe ∧ dirOf W id = some d ∧ pe.pkg.hash = W.E.sha1 (W.canon id) ∧
      pe.pkg.size = (W.canon id).length ∧ pe.pkg.uri = d ++ '/' :: id ∧
      pe.pkg.name = nameOf W id ∧ pe.pkg.history = (W.mOf id).history := by
  have hi := h.inv ok
  obtain ⟨e, hg, hid⟩ := hl
  obtain ⟨_, _, _, _, _, h6⟩ := (hi.served ok (fun _ => True)).ent r n e trivial hg
  obtain ⟨_, _, _, ⟨k, _, hpk⟩, c, hc, _, hrr⟩ := h6 id hid
  refine ⟨⟨c, hc, hrr⟩, _, c, hpk, hc, rfl, rfl, ?_, rfl, rfl⟩
  show mkURI ((W.compOf id).getD []) id = _
  rw [hc]; rfl

/-- Nothing else is served: a package file in a repository's tree belongs to a listed package. -/
theorem C05_only_listed_served (ok : W.OK) (h : Reachable W s) {r id d : Str} {c : Content}
    (hd : W.isDelta id = false) (hr : s.fs.read (.repo r d id) = some c) : Has s r id := by
  have hi := h.inv ok
  have : (s.fs.tab (.repo r d id)).isSome = true := by
    obtain ⟨i, hi, _⟩ := FS.read_eq_some.1 hr; rw [hi]; rfl
  exact (hi.spec_has r id).2 ((hi.repoFile r id d hd).1 this).1

/-! ## C06 -/

theorem addPackage_old (ok : W.OK) (h : Inv W s) {r f : Str} (hf : W.Importable s f)
    (hold : s.has r (baseName f) = true) : addPackage W.E r (.ext f) false s = ⟨.ok (), s, []⟩ := by
  obtain ⟨e, hg, hin⟩ := (h.has_iff r (baseName f)).1 hold
  have he := h.ent r _ e hg
  obtain ⟨c, hc⟩ := ok.comp hf.2
  obtain ⟨pe, hpe, hph, hpr⟩ := h.pubEntry ok hg
  have hopen : openPkg W.E (.ext f) s = ⟨.ok ⟨.ext f, baseName f, W.mOf (baseName f)⟩, s, []⟩ := by
    unfold openPkg
    rw [getSt_bind, hf.1]
    have := hf.2; unfold World.IsPkg at this
    simp only; rw [this]; rfl
  have hbse : buildSaneEntry r (W.mOf (baseName f)) (baseName f) s = ⟨.ok none, s, []⟩ := by
    unfold buildSaneEntry
    rw [repoGet?_bind, hg]
    simp only [bind_assoc_run, poolGet?_bind]
    rw [hpe]
    simp only [bind_assoc_run]
    rw [getRelease_bind (ok.meta hf.2).hist, bind_assoc_run, getRelease_bind hph]
    by_cases hx : (W.mOf (baseName f)).rel > pe.pkg.rel
    · rw [if_pos hx]; simp [hin]
    · rw [if_neg hx]; simp [hin]
  unfold addPackage
  rw [bind_ok hopen]
  simp only [Bool.not_false, if_true]
  unfold addLocalPackage
  rw [show pathComp (W.mOf (baseName f)) = pathComp (W.mOf (baseName f)) from rfl, pathComp_bind hc, bind_ok hbse]
  rfl

theorem addLoop_old (ok : W.OK) (h : Inv W s) {r : Str} (files : List Str)
    (hf : ∀ f ∈ files, W.Importable s f) (hold : ∀ f ∈ files, s.has r (baseName f) = true) :
    forL files (fun f => addPackage W.E r (.ext f) false) s = ⟨.ok (), s, []⟩ := by
  induction files with
  | nil => rfl
  | cons f fs ih =>
    rw [forL_cons, bind_ok (addPackage_old ok h (hf f List.mem_cons_self) (hold f List.mem_cons_self))]
    simp only [Out.pre_nil]
    exact ih (fun x hx => hf x (List.mem_cons_of_mem _ hx)) (fun x hx => hold x (List.mem_cons_of_mem _ hx))

/-- C06: importing packages that the repository already lists leaves the database (pool counts, listings) and
all package and asset files exactly as they were, and succeeds whenever the index can be written. -/
theorem C06_reimport (ok : W.OK) (h : Reachable W s) {r : Str} (hr : Repo s r) (files : List Str)
    (hup : ∀ f ∈ files, s.fs.read (.ext f) = some (W.canon (baseName f)) ∧ W.IsPkg (baseName f))
    (hold : ∀ f ∈ files, Has s r (baseName f)) :
    (mAddPackages W.E r files false s).st.db = s.db ∧
    (mAddPackages W.E r files false s).st.fs.read = s.fs.read ∧
    (AssetsParse W s r ∧ W.E.indexIO s.clock = .ok → (mAddPackages W.E r files false s).res = .ok ()) := by
  have hi := h.inv ok
  obtain ⟨t0, hg, ht0⟩ := getRepo_run (r := r) hi hr
  have hgi := hi.got hr
  have hloop := addLoop_old (W := W) (s := s.got r) (r := r) ok hgi files
    (fun f hf => by
      have := hup f hf
      exact ⟨by rw [St.got_read]; exact this.1, this.2⟩)
    (fun f hf => by rw [St.has_congr (s.got_db r)]; exact (hi.spec_has _ _).1 (hold f hf))
  have hm := mIndex_run (r := r) ok hgi (by rw [St.got_db]; exact hr)
  have hrun : mAddPackages W.E r files false s = (mIndex W.E r (s.got r)).pre t0 := by
    unfold mAddPackages
    rw [bind_ok hg, bind_ok hloop]; simp
  rw [hrun]
  refine ⟨?_, ?_, ?_⟩
  · simp only [Out.pre_st]; rw [hm.neutral.db]; simp
  · simp only [Out.pre_st]; rw [hm.neutral.read]; simp
  · intro hc
    rw [← canIndex_iff] at hc
    simp only [Out.pre_res]
    apply hm.succeeds
    refine ⟨?_, ?_, ?_⟩
    · rw [World.distOf_congr (s.got_read r)]; exact hc.1
    · rw [World.compsOk_congr (s.got_read r)]; exact hc.2.1
    · rw [St.got_clock]; exact hc.2.2

example : Reachable Demo.W Demo.st1 ∧ Repo Demo.st1 (Demo.S "unstable") ∧
    (∀ f ∈ Demo.files, Demo.st1.fs.read (.ext f) = some (Demo.W.canon (baseName f))) ∧
    (∀ f ∈ Demo.files, Demo.st1.has (Demo.S "unstable") (baseName f) = true) :=
  ⟨Demo.reach1, by unfold Repo; decide +kernel, by decide +kernel, by decide +kernel⟩

/-! ## C07 -/

/-- C07: importing the same uploads in two orders gives the same lists of available packages, the same pool
entries (counts included), and tips of the same release; the very same tip when releases are distinct. -/
theorem C07_order_independent (ok : W.OK) (h : Reachable W s) {r : Str} (hr : Repo s r) {fs gs : List Str}
    (hp : fs.Perm gs)
    (hup : ∀ f ∈ fs, s.fs.read (.ext f) = some (W.canon (baseName f)) ∧ W.IsPkg (baseName f))
    (hnd : ∀ f ∈ fs, W.isDelta (baseName f) = false) :
    let a := (mAddPackages W.E r fs false s).st
    let b := (mAddPackages W.E r gs false s).st
    (∀ r' n, a.availOf r' n = b.availOf r' n) ∧
    (∀ id, a.db.pool.get id = b.db.pool.get id) ∧
    (∀ r' n x y, Tip a r' n x → Tip b r' n y → relOf W x = relOf W y ∧
      ((∀ i j, Lists a r' n i → Lists a r' n j → relOf W i = relOf W j → i = j) → x = y)) := by
  have hi := h.inv ok
  intro a b
  have h1 := mAddPackages_run ok hi hr fs hnd
  have h2 := mAddPackages_run ok hi hr gs (fun f hf => hnd f (hp.mem_iff.2 hf))
  obtain ⟨d1, e1, hf1, j1, _, hb1, _⟩ := h1.spec
  obtain ⟨d2, e2, hf2, j2, _, hb2, _⟩ := h2.spec
  have he1 : e1 = [] := by
    cases e1 with
    | nil => rfl
    | cons x xs => exact absurd (hup x (by rw [hf1]; simp)) (hb1 x xs rfl)
  have he2 : e2 = [] := by
    cases e2 with
    | nil => rfl
    | cons x xs => exact absurd (hup x (hp.mem_iff.2 (by rw [hf2]; simp))) (hb2 x xs rfl)
  subst he1 he2
  simp only [List.append_nil] at hf1 hf2
  subst hf1 hf2
  have ia : Inv W a := j1.inv
  have ib : Inv W b := j2.inv
  have hhas : ∀ r' j, a.has r' j = true ↔ b.has r' j = true := by
    intro r' j
    rw [show a.has r' j = true ↔ _ from j1.has r' j, show b.has r' j = true ↔ _ from j2.has r' j]
    have : j ∈ fs.map baseName ↔ j ∈ gs.map baseName := (hp.map _).mem_iff
    rw [this]
  have hhasE : a.has = b.has := by
    funext r' j
    cases hx : a.has r' j <;> cases hy : b.has r' j <;> try rfl
    · have := (hhas r' j).2 hy; rw [hx] at this; cases this
    · have := (hhas r' j).1 hx; rw [hy] at this; cases this
  have hrep : a.db.repos = b.db.repos := by
    rw [show a.db.repos = _ from j1.repos, show b.db.repos = _ from j2.repos]
  have hold : a.holders = b.holders := by
    funext id; unfold St.holders; rw [hhasE, hrep]
  have hmem : ∀ r' n id, Lists a r' n id ↔ Lists b r' n id := by
    intro r' n id
    rw [ia.lists_iff, ib.lists_iff, hhas]
  have hav : ∀ r' n, a.availOf r' n = b.availOf r' n := by
    intro r' n
    have mem_iff : ∀ (t : St) id, id ∈ t.availOf r' n ↔ Lists t r' n id := by
      intro t id
      unfold St.availOf Lists
      cases (t.db.ents r').get n <;> simp
    have srt : ∀ {t : St}, Inv W t → SortedS (t.availOf r' n) ∧ (t.availOf r' n).Nodup := by
      intro t it
      unfold St.availOf
      cases hg : (t.db.ents r').get n with
      | none => exact ⟨List.Pairwise.nil, List.nodup_nil⟩
      | some e => exact ⟨(it.ent r' n e hg).sorted, (it.ent r' n e hg).nodup⟩
    exact SortedS.ext (srt ia).1 (srt ib).1 (srt ia).2 (srt ib).2
      (fun id => by rw [mem_iff a, mem_iff b, hmem])
  refine ⟨hav, ?_, ?_⟩
  · intro id
    cases hd : W.isDelta id with
    | true =>
      rw [show a.db.pool.get id = _ from j1.poolDelta id hd, show b.db.pool.get id = _ from j2.poolDelta id hd]
    | false =>
      have hin : ∀ {t : St}, Inv W t → ((∃ pe, t.db.pool.get id = some pe) ↔ ∃ r', t.has r' id = true) := by
        intro t it
        constructor
        · rintro ⟨pe, hg⟩
          have hp := it.pool id pe hg
          have hc := hp.count hd
          have hpos := hp.pos
          cases hL : t.holders id with
          | nil => rw [hL] at hc; simp at hc; omega
          | cons r' l =>
            exact ⟨r', (it.mem_holders r' id).1 (by rw [hL]; exact List.mem_cons_self)⟩
        · rintro ⟨r', hh⟩; exact (it.has_facts hh).2.2
      have hiff : (∃ pe, a.db.pool.get id = some pe) ↔ (∃ pe, b.db.pool.get id = some pe) := by
        rw [hin ia, hin ib, hhasE]
      cases hga : a.db.pool.get id with
      | none =>
        cases hgb : b.db.pool.get id with
        | none => rfl
        | some pe => obtain ⟨pe', hx⟩ := hiff.2 ⟨pe, hgb⟩; rw [hga] at hx; cases hx
      | some pe =>
        obtain ⟨pe', hgb⟩ := hiff.1 ⟨pe, hga⟩
        rw [hgb, ia.pool_eq hga hd, ib.pool_eq hgb hd, hold]
  · rintro r' n x y ⟨e, hg, rfl⟩ ⟨e', hg', rfl⟩
    have he := ia.ent r' n e hg
    have he' := ib.ent r' n e' hg'
    have hxb : Lists b r' n e.published := (hmem _ _ _).1 ⟨e, hg, he.pub⟩
    have hya : Lists a r' n e'.published := (hmem _ _ _).2 ⟨e', hg', he'.pub⟩
    obtain ⟨e2, hg2, hm2⟩ := hxb
    rw [hg'] at hg2; cases hg2
    obtain ⟨e3, hg3, hm3⟩ := hya
    rw [hg] at hg3; cases hg3
    have hrel : relOf W e.published = relOf W e'.published := by
      have h1 := he.top _ hm3
      have h2 := he'.top _ hm2
      simp only [Spec.relOf_eq]; omega
    exact ⟨hrel, fun hinj => hinj _ _ ⟨e, hg, he.pub⟩ ⟨e, hg, hm3⟩ hrel⟩

/-- Not vacuous: the demo uploads into an empty repository, in two orders. -/
example : (let s := Op.exec Demo.E Demo.st1 (.create (Demo.S "new"))
    (∀ f ∈ Demo.files, s.fs.read (.ext f) = some (Demo.W.canon (baseName f))) ∧
    (mAddPackages Demo.E (Demo.S "new") Demo.files.reverse false s).st.availOf (Demo.S "new") (Demo.S "a") =
      [Demo.S "a-1.eopkg", Demo.S "a-2.eopkg"]) := by decide +kernel

/-! ## C08 -/

/-- C08: an operation leaves every repository it is not directed at alone: its existence, its listings (available
packages, tips, deltas), its published index, its asset files and its served package files.  (Served *delta*
files are only shown unchanged for operations that add no deltas; see `C73`.) -/
theorem C08_frame (ok : W.OK) (h : Reachable W s) (o : Op) (ho : o.Ok W) (r : Str) (hr : o.target ≠ some r) :
    let s' := o.exec W.E s
    (Repo s' r ↔ Repo s r) ∧
    (∀ n id, Lists s' r n id ↔ Lists s r n id) ∧ (∀ n id, Tip s' r n id ↔ Tip s r n id) ∧
    (∀ d, HasDelta s' r d ↔ HasDelta s r d) ∧
    s'.fs.idx r = s.fs.idx r ∧
    (∀ a, s'.fs.read (.asset r a) = s.fs.read (.asset r a)) ∧
    (∀ d id, (o.addsDeltas = true → W.isDelta id = false) →
      s'.fs.read (.repo r d id) = s.fs.read (.repo r d id)) := by
  have hu := Op.untouched ok (h.inv ok) o ho r hr
  intro s'
  refine ⟨hu.repo, ?_, ?_, ?_, hu.idx, hu.asset, hu.file⟩
  · intro n id; unfold Lists; rw [show s'.db.ents r = _ from hu.ents]
  · intro n id; unfold Tip; rw [show s'.db.ents r = _ from hu.ents]
  · intro d; unfold HasDelta; rw [show s'.db.ents r = _ from hu.ents]

example : (Op.target (.trimPackages (Demo.S "shannon") 1) ≠ some (Demo.S "unstable")) ∧
    (Op.exec Demo.E Demo.st1 (.trimPackages (Demo.S "shannon") 1)).availOf (Demo.S "unstable") (Demo.S "a") =
      [Demo.S "a-1.eopkg", Demo.S "a-2.eopkg"] ∧
    (Op.exec Demo.E Demo.st1 (.trimPackages (Demo.S "shannon") 1)).availOf (Demo.S "shannon") (Demo.S "a") =
      [Demo.S "a-2.eopkg"] := by
  refine ⟨by simp [Op.target]; decide +kernel, ?_, ?_⟩ <;> decide +kernel

/-! ## C09 -/

/-- C09: creating a repository under an unused (and not reserved) name adds exactly that repository, empty; the
pool and every other repository's records are unchanged. -/
theorem C09_create (ok : W.OK) (h : Reachable W s) {r : Str} (hr : ¬ Repo s r) (hres : reservedKey r = false) :
    let s' := (mCreateRepo W.E r s).st
    (∀ x, Repo s' x ↔ x = r ∨ Repo s x) ∧ (∀ n id, ¬ Lists s' r n id) ∧
    s'.db.ents = s.db.ents ∧ s'.db.pool = s.db.pool ∧
    (AssetsParse W s r ∧ W.E.indexIO s.clock = .ok → (mCreateRepo W.E r s).res = .ok ()) := by
  have hi := h.inv ok
  have hc := mCreateRepo_run ok hi hr hres
  intro s'
  refine ⟨?_, ?_, hc.ents, hc.pool, ?_⟩
  · intro x; unfold Repo; rw [show s'.db.repos = _ from hc.repos, KV.mem_keys_put]
  · rintro n id ⟨e, hg, _⟩
    rw [show s'.db.ents = _ from hc.ents, hi.noEnts r hr] at hg; simp at hg
  · intro hcan
    obtain ⟨tr, hrun, _⟩ := Neutral.inv_trace_created hi hr (hi.rdir_false hr) hres
    have hci := hi.created hr hres
    have hm := mIndex_run (r := r) ok hci ((mem_created s hi r r).2 (.inl rfl))
    unfold mCreateRepo
    rw [bind_ok hrun]
    simp only [Out.pre_res]
    apply hm.succeeds
    exact (canIndex_iff W s r).2 hcan

/-- C09, second half: creating a repository whose name exists, or is reserved, fails and changes nothing. -/
theorem C09_create_refused (ok : W.OK) (h : Reachable W s) {r : Str} (hr : Repo s r ∨ reservedKey r = true) :
    (∃ e, (mCreateRepo W.E r s).res = .err e) ∧ (mCreateRepo W.E r s).st.db = s.db ∧
    (mCreateRepo W.E r s).st.fs.read = s.fs.read ∧ (mCreateRepo W.E r s).st.fs.idx = s.fs.idx := by
  have hi := h.inv ok
  by_cases hk : Repo s r
  · obtain ⟨tr, hrun, _⟩ := mCreateRepo_exists (W := W) hi hk
    rw [hrun]; exact ⟨⟨_, rfl⟩, by simp, by simp, by simp⟩
  · rw [mCreateRepo_reserved hi hk (hr.resolve_left hk)]; exact ⟨⟨_, rfl⟩, rfl, rfl, rfl⟩

example : ¬ Repo Demo.st1 (Demo.S "new") ∧ Repo Demo.st1 (Demo.S "shannon") ∧
    reservedKey (Demo.S "new") = false ∧
    (mCreateRepo Demo.E (Demo.S "new") Demo.st1).res = .ok () := by
  unfold Repo; refine ⟨?_, ?_, ?_, ?_⟩ <;> decide +kernel

/-! ## C10 -/

/-- C10: deleting a repository succeeds; afterwards it is not listed, has no records, no served files, assets or
index; every package and delta it listed has lost exactly one reference (leaving the pool when that was the last), other
pool entries are unchanged, other repositories are unchanged. -/
theorem C10_delete (ok : W.OK) (h : Reachable W s) {r : Str} (hr : Repo s r) :
    let s' := (mDeleteRepo r s).st
    (mDeleteRepo r s).res = .ok () ∧
    (∀ x, Repo s' x ↔ x ≠ r ∧ Repo s x) ∧ (∀ n, (s'.db.ents r).get n = none) ∧
    (∀ d id, s'.fs.read (.repo r d id) = none) ∧ (∀ a, s'.fs.read (.asset r a) = none) ∧ s'.fs.idx r = none ∧
    (∀ id k, Has s r id ∨ HasDelta s r id → Count s id k → (k = 1 ∧ ¬ InPool s' id) ∨ (1 < k ∧ Count s' id (k - 1))) ∧
    (∀ id, ¬ Has s r id → ¬ HasDelta s r id → s'.db.pool.get id = s.db.pool.get id) ∧
    (∀ x, x ≠ r → s'.db.ents x = s.db.ents x) := by
  have hi := h.inv ok
  obtain ⟨s2, tr, hrun, hd, _⟩ := deleteRepo_run ok (hi.delReady hr)
  intro s'
  have hs' : s' = s2 := by show (deleteRepo r s).st = s2; rw [hrun]
  rw [hs']
  refine ⟨by show (deleteRepo r s).res = _; rw [hrun], fun x => hd.toDeleted.keys hi x, ?_, ?_, ?_, ?_, ?_, ?_,
    hd.entsOther⟩
  · intro n; rw [hd.entsSelf]; rfl
  · intro d id; unfold FS.read; rw [hd.tab]; simp [Path.inRepo]
  · intro a; unfold FS.read; rw [hd.tab]; simp [Path.inRepo]
  · rw [hd.idx, if_pos rfl]
  · rintro id k hh ⟨pe, hg, rfl⟩
    have hl : id ∈ s.listed r := (hi.mem_listed r id).2 (hh.imp (hi.spec_has r id).1 (hi.spec_delta r id).1)
    have hpos := (hi.pool id pe hg).pos
    by_cases hk : pe.refCount ≤ 1
    · left
      refine ⟨by omega, ?_⟩
      rintro ⟨pe', hg'⟩
      rw [hd.pool, if_pos hl, hg, Option.bind_some, decEntry, if_pos hk] at hg'; cases hg'
    · right
      refine ⟨by omega, { pe with refCount := pe.refCount - 1 }, ?_, rfl⟩
      rw [hd.pool, if_pos hl, hg, Option.bind_some, decEntry, if_neg hk]
  · intro id h1 h2
    rw [hd.pool, if_neg]
    intro hl
    rcases (hi.mem_listed r id).1 hl with hx | hx
    · exact h1 ((hi.spec_has r id).2 hx)
    · exact h2 ((hi.spec_delta r id).2 hx)

/-- C10, second half: deleting an unknown repository fails and changes nothing at all. -/
theorem C10_delete_unknown (ok : W.OK) (h : Reachable W s) {r : Str} (hr : ¬ Repo s r) :
    mDeleteRepo r s = ⟨.err .notFound, s, []⟩ := deleteRepo_missing (h.inv ok) hr

example : Repo Demo.st1 (Demo.S "shannon") ∧ Demo.st1.has (Demo.S "shannon") (Demo.S "a-2.eopkg") = true ∧
    ((mDeleteRepo (Demo.S "shannon") Demo.st1).st.db.pool.get (Demo.S "a-2.eopkg")).map PoolEntry.refCount =
      some 1 := by
  unfold Repo; refine ⟨?_, ?_, ?_⟩ <;> decide +kernel

end Ferryd
