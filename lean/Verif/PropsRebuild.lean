import Verif.PropsSafe
import Verif.CoreStock2
/-!
# PropsRebuild: exactly when an index can be rebuilt, after any history of crashes and I/O errors (C126)
-/
namespace Ferryd
open Spec
variable {W : World} {s : St} {α β : Type} {tgt : Option Str}

namespace Spec

/-- What indexing `r` needs of the pool: a record for the published package of every name that is not itself on the obsolete list of the
distribution file, and for every delta of a name not hidden by that list. -/
structure Recorded (W : World) (s : St) (r : Str) (obs : List Str) : Prop where
  tips : ∀ n id, Tip s r n id → n ∉ obs → InPool s id
  deltas : ∀ d, HasDelta s r d → ¬ Hidden obs (nameOf W d) → InPool s d

end Spec

/-- The program succeeds from `s`. -/
def Good (m : M α) (s : St) : Prop := ∃ a, (m s).res = .ok a

theorem good_bind {m : M α} {f : α → M β} (h : Reads m) : Good (m >>= f) s ↔ ∃ a, (m s).res = .ok a ∧ Good (f a) s := by
  unfold Good
  have e : (m >>= f) s = M.bind' m f s := rfl
  rw [e]; unfold M.bind'
  have hst := h.st s
  cases hm : (m s).res with
  | ok a =>
    simp only [hst]
    constructor
    · rintro ⟨b, hb⟩; exact ⟨a, rfl, b, hb⟩
    · rintro ⟨a', ha, b, hb⟩; cases ha; exact ⟨b, hb⟩
  | err e => simp
  | panic => simp

theorem good_pure {a : α} : Good (pure a : M α) s := ⟨a, rfl⟩
theorem not_good_throw {e : Err} : ¬ Good (throwE e : M α) s := by rintro ⟨a, h⟩; cases h
theorem not_good_panic : ¬ Good (panicM : M α) s := by rintro ⟨a, h⟩; cases h

theorem good_collect {γ δ : Type} {f : γ → M (List δ)} (h : ∀ x, Reads (f x)) {l : List γ} : Good (collectL l f) s ↔ ∀ x ∈ l, Good (f x) s := by
  induction l with
  | nil => exact ⟨fun _ x hx => (by cases hx), fun _ => good_pure⟩
  | cons x xs ih =>
    show Good (f x >>= fun b => collectL xs f >>= fun bs => pure (b ++ bs)) s ↔ _
    rw [good_bind (h x)]
    simp only [good_bind (Reads.collectL (fun y _ => h y) : Reads (collectL xs f))]
    constructor
    · rintro ⟨a, ha, b, hb, _⟩ y hy
      rcases List.mem_cons.1 hy with rfl | hy
      · exact ⟨a, ha⟩
      · exact ih.1 ⟨b, hb⟩ y hy
    · intro hh
      obtain ⟨a, ha⟩ := hh x (by simp)
      obtain ⟨b, hb⟩ := ih.2 fun y hy => hh y (by simp [hy])
      exact ⟨a, ha, b, hb, good_pure⟩

theorem poolGet_ok {id : Str} {pe : PoolEntry} : (poolGet id s).res = .ok pe ↔ s.db.pool.get id = some pe := by
  have : poolGet id s = (match s.db.pool.get id with | none => throwE .notFound | some e => pure e : M PoolEntry) s := by
    unfold poolGet poolGet?
    rfl
  rw [this]
  cases s.db.pool.get id with
  | none => simp [throwE]
  | some e => exact ⟨fun h => by cases h; rfl, fun h => by cases h; rfl⟩

theorem repoGet_ok {r n : Str} {e : RepoEntry} : (repoGet r n s).res = .ok e ↔ (s.db.ents r).get n = some e := by
  have : repoGet r n s = (match (s.db.ents r).get n with | none => throwE .notFound | some e => pure e : M RepoEntry) s := by
    unfold repoGet repoGet?
    rfl
  rw [this]
  cases (s.db.ents r).get n with
  | none => simp [throwE]
  | some e => exact ⟨fun h => by cases h; rfl, fun h => by cases h; rfl⟩

theorem getRelease_good {m : Meta} (h : m.history ≠ []) : Good (getRelease m) s := by
  obtain ⟨a, h, _⟩ := getRelease_wins (s := s) h
  exact ⟨a, h⟩

theorem pushDeltas_good (ok : W.OK) (hr : Rough W s) {r n : Str} {e : RepoEntry} {id : Str} {pe : PoolEntry} (hg : (s.db.ents r).get n = some e)
    (hp : RPool W id pe) (hn : pe.pkg.name = n) : Good (pushDeltas r pe) s ↔ ∀ d ∈ e.deltas, InPool s d := by
  unfold pushDeltas
  rw [good_bind (repoGet_reads _ _)]
  simp only [repoGet_ok, hn, hg, Option.some.injEq]
  have hrd : ∀ d, Reads (do
      let pd ← poolGet d
      match pd.delta with
      | none => throwE .badDelta
      | some di => do
        let rel ← getRelease pe.pkg
        if di.toRelease ≠ rel then pure []
        else pure [⟨di.fromRelease, pd.pkg.uri, pd.pkg.size, pd.pkg.hash⟩] : M (List DocDelta)) := fun d =>
    (poolGet_reads d).bind fun pd => by
      cases pd.delta with
      | none => exact Reads.throw _
      | some di => exact (getRelease_reads _).bind fun _ => Reads.ite (Reads.pure _) (Reads.pure _)
  have he := hr.db.ent r n e hg
  constructor
  · rintro ⟨a, rfl, h⟩ d hd
    have := (good_collect hrd).1 h d hd
    obtain ⟨pd, hpd, _⟩ := (good_bind (poolGet_reads d)).1 this
    exact ⟨pd, poolGet_ok.1 hpd⟩
  · intro h
    refine ⟨e, rfl, (good_collect hrd).2 fun d hd => ?_⟩
    obtain ⟨pd, hpd⟩ := h d hd
    refine (good_bind (poolGet_reads d)).2 ⟨pd, poolGet_ok.2 hpd, ?_⟩
    have hsome := (hr.db.pool d pd hpd).delta
    rw [(he.deltas d hd).1] at hsome
    cases hdl : pd.delta with
    | none => rw [hdl] at hsome; cases hsome
    | some di =>
      obtain ⟨k, hk⟩ := getRelease_good (s := s) (hp.hist ok)
      refine (good_bind (getRelease_reads _)).2 ⟨k, hk, ?_⟩
      split
      · exact good_pure
      · exact good_pure

theorem emitPackage_good (ok : W.OK) (hr : Rough W s) {r n : Str} {e : RepoEntry} {id : Str} {pe : PoolEntry} {dist : Option (List Str)}
    (hg : (s.db.ents r).get n = some e) (hp : RPool W id pe) (hn : pe.pkg.name = n) :
    Good (emitPackage r dist pe) s ↔ (stripDbg n ∉ dist.getD [] → ∀ d ∈ e.deltas, InPool s d) := by
  unfold emitPackage
  rw [hn]
  by_cases hc : stripDbg n ∈ dist.getD []
  · rw [if_pos (by simpa using hc)]
    exact ⟨fun _ h => absurd hc h, fun _ => good_pure⟩
  · rw [if_neg (by simpa using hc), good_bind (pushDeltas_reads _ _)]
    have := pushDeltas_good ok hr hg hp hn
    constructor
    · rintro ⟨a, ha, _⟩ _; exact this.1 ⟨a, ha⟩
    · intro h
      obtain ⟨a, ha⟩ := this.2 (h hc)
      exact ⟨a, ha, good_pure⟩

theorem emitAsset_good {p : Content → ParsedAsset} {r : Str} {a : Asset} :
    Good (emitAsset p r a) s ↔ ∀ c, s.fs.read (.asset r a) = some c → ∃ l, p c = .good l := by
  unfold emitAsset
  rw [good_bind Reads.getSt]
  constructor
  · rintro ⟨s', h0, h⟩ c hc
    have h0 : s = s' := by cases h0; rfl
    subst h0
    rw [hc] at h
    simp only at h
    cases hp : p c with
    | bad => rw [hp] at h; exact absurd h not_good_throw
    | crash => rw [hp] at h; exact absurd h not_good_panic
    | good l => exact ⟨l, rfl⟩
  · intro h
    refine ⟨s, rfl, ?_⟩
    cases hc : s.fs.read (.asset r a) with
    | none => exact good_pure
    | some c =>
      obtain ⟨l, hl⟩ := h c hc
      simp only [hl]
      exact good_pure

theorem emitIndex_good (ok : W.OK) (hr : Rough W s) {r : Str} {dist : Option (List Str)} :
    Good (emitIndex W.E r dist) s ↔ Recorded W s r (dist.getD []) ∧
      (∀ c, s.fs.read (.asset r .components) = some c → ∃ l, W.E.parseComps c = .good l) ∧
      (∀ c, s.fs.read (.asset r .groups) = some c → ∃ l, W.E.parseGroups c = .good l) := by
  have hrd : ∀ id, Reads (do
      let pe ← poolGet id
      emitPackage r dist pe) := fun id => (poolGet_reads id).bind fun _ => emitPackage_reads _ _ _
  have hp : Good (collectL (sortS ((((s.db.ents r).map Prod.snd).filter fun e => !(dist.getD []).contains e.name).map RepoEntry.published))
      fun id => do
        let pe ← poolGet id
        emitPackage r dist pe) s ↔ Recorded W s r (dist.getD []) := by
    rw [good_collect hrd]
    constructor
    · intro h
      have key : ∀ n e, (s.db.ents r).get n = some e → n ∉ dist.getD [] → ∃ pe, s.db.pool.get e.published = some pe ∧ Good (emitPackage r dist pe) s := by
        intro n e hg hn
        have he := hr.db.ent r n e hg
        obtain ⟨pe, h1, h2⟩ := (good_bind (poolGet_reads _)).1 (h e.published (by
          simp only [mem_sortS, List.mem_map, List.mem_filter]
          exact ⟨e, ⟨⟨(n, e), KV.mem_of_get hg, rfl⟩, by rw [he.name]; simpa using hn⟩, rfl⟩))
        exact ⟨pe, poolGet_ok.1 h1, h2⟩
      refine ⟨?_, ?_⟩
      · rintro n id ⟨e, hg, rfl⟩ hn
        obtain ⟨pe, h1, _⟩ := key n e hg hn
        exact ⟨pe, h1⟩
      · rintro d ⟨n, e, hg, hd⟩ hh
        have he := hr.db.ent r n e hg
        have hdn : nameOf W d = n := (he.deltas d hd).2.2
        rw [hdn, hidden_iff] at hh
        obtain ⟨pe, h1, h2⟩ := key n e hg fun h => hh (.inl h)
        have hpe := hr.db.pool _ pe h1
        exact (emitPackage_good ok hr hg hpe (hpe.pname.trans (he.avail _ he.pub).2.2)).1 h2 (fun h => hh (.inr h)) d hd
    · intro h id hid
      simp only [mem_sortS, List.mem_map, List.mem_filter] at hid
      obtain ⟨e, ⟨⟨⟨n, e'⟩, hm, rfl⟩, hn⟩, rfl⟩ := hid
      have hg := KV.get_of_mem (hr.db.wfEnts r) hm
      have he := hr.db.ent r n e' hg
      have hn : n ∉ dist.getD [] := by
        simp only at hn; rw [he.name] at hn; simpa using hn
      obtain ⟨pe, h1⟩ := h.tips n e'.published ⟨e', hg, rfl⟩ hn
      have hpe := hr.db.pool _ pe h1
      refine (good_bind (poolGet_reads _)).2 ⟨pe, poolGet_ok.2 h1, ?_⟩
      refine (emitPackage_good ok hr hg hpe (hpe.pname.trans (he.avail _ he.pub).2.2)).2 fun hs d hd => ?_
      refine h.deltas d ⟨n, e', hg, hd⟩ ?_
      rw [show nameOf W d = n from (he.deltas d hd).2.2, hidden_iff]
      exact fun hx => hx.elim hn hs
  unfold emitIndex
  rw [good_bind (repoEntries_reads r)]
  have he : ∀ a, (repoEntries r s).res = .ok a ↔ a = (s.db.ents r).map Prod.snd := fun a =>
    ⟨fun h => by cases h; rfl, fun h => by rw [h]; rfl⟩
  simp only [he, exists_eq_left]
  rw [good_bind (Reads.collectL fun id _ => hrd id)]
  simp only [good_bind (emitAsset_reads _ _ _)]
  constructor
  · rintro ⟨a, ha, b, hb, c, hc, _⟩
    exact ⟨hp.1 ⟨a, ha⟩, emitAsset_good.1 ⟨b, hb⟩, emitAsset_good.1 ⟨c, hc⟩⟩
  · rintro ⟨h1, h2, h3⟩
    obtain ⟨a, ha⟩ := hp.2 h1
    obtain ⟨b, hb⟩ := emitAsset_good.2 h2
    obtain ⟨c, hc⟩ := emitAsset_good.2 h3
    exact ⟨a, ha, b, hb, c, hc, good_pure⟩

theorem indexRepo_good (ok : W.OK) (hr : Rough W s) {r : Str} : Good (indexRepo W.E r) s ↔
    AssetsParse W s r ∧ (∀ obs, Obsolete W s r = some obs → Recorded W s r obs) ∧ W.E.indexIO s.clock = .ok := by
  unfold indexRepo
  rw [good_bind (initDistribution_reads _ _)]
  have hd : ∀ d, (initDistribution W.E r s).res = .ok d ↔
      (∀ c, s.fs.read (.asset r .distribution) = some c → ∃ obs, W.E.parseDist c = some obs) ∧
      d = (s.fs.read (.asset r .distribution)).bind W.E.parseDist := by
    intro d
    unfold initDistribution
    rw [getSt_bind]
    cases hc : s.fs.read (.asset r .distribution) with
    | none =>
      refine ⟨fun h => ⟨fun c h' => (by cases h'), (by cases h; rfl)⟩, fun h => ?_⟩
      rw [h.2]; rfl
    | some c =>
      cases hp : W.E.parseDist c with
      | none =>
        simp only [hp]
        refine ⟨fun h => (by cases h), fun h => ?_⟩
        obtain ⟨o, ho⟩ := h.1 c rfl
        rw [hp] at ho; cases ho
      | some o =>
        simp only [hp]
        refine ⟨fun h => ⟨fun c' h' => (by cases h'; exact ⟨o, hp⟩), (by cases h; simp [hp])⟩, fun h => ?_⟩
        rw [h.2]; simp [hp]
  have hio : ∀ doc, Good (do
      let s ← getSt
      volM (fun s => { s with clock := s.clock + 1 })
      match W.E.indexIO s.clock with
      | .failBefore => throwE .indexIO
      | .ok => stepM fun s => s.setFs { s.fs with idx := fun x => if x = r then some doc else s.fs.idx x }
      | .failAfter => do
        stepM fun s => s.setFs { s.fs with idx := fun x => if x = r then some doc else s.fs.idx x }
        throwE .indexIO) s ↔ W.E.indexIO s.clock = .ok := by
    intro doc
    rw [good_bind Reads.getSt]
    have : ∀ a : St, (getSt s).res = .ok a ↔ a = s := fun a => ⟨fun h => by cases h; rfl, fun h => by rw [h]; rfl⟩
    simp only [this, exists_eq_left]
    cases W.E.indexIO s.clock with
    | ok => exact ⟨fun _ => rfl, fun _ => ⟨(), rfl⟩⟩
    | failBefore => exact ⟨fun ⟨a, h⟩ => (by cases h), fun h => by cases h⟩
    | failAfter => exact ⟨fun ⟨a, h⟩ => (by cases h), fun h => by cases h⟩
  have hobs : ∀ obs, Obsolete W s r = some obs → ((s.fs.read (.asset r .distribution)).bind W.E.parseDist).getD [] = obs := by
    intro obs h
    unfold Obsolete at h
    cases hc : s.fs.read (.asset r .distribution) with
    | none => rw [hc] at h; cases h; rfl
    | some c => rw [hc] at h; simp only at h; simp [h]
  simp only [hd, and_assoc, exists_and_left, exists_eq_left, good_bind (emitIndex_reads _ _ _), hio]
  constructor
  · rintro ⟨h1, doc, h2, h3⟩
    obtain ⟨k1, k2, k3⟩ := (emitIndex_good ok hr).1 ⟨doc, h2⟩
    exact ⟨⟨h1, k2, k3⟩, fun obs ho => by rw [hobs obs ho] at k1; exact k1, (hio doc).1 h3⟩
  · rintro ⟨h1, h2, h3⟩
    have hex : ∃ obs, Obsolete W s r = some obs := by
      unfold Obsolete
      cases hc : s.fs.read (.asset r .distribution) with
      | none => exact ⟨[], rfl⟩
      | some c => exact h1.dist c hc
    obtain ⟨obs, ho⟩ := hex
    obtain ⟨doc, hdoc⟩ := (emitIndex_good (dist := (s.fs.read (.asset r .distribution)).bind W.E.parseDist) ok hr).2
      ⟨by rw [hobs obs ho]; exact h2 obs ho, h1.comps, h1.groups⟩
    exact ⟨h1.dist, doc, hdoc, (hio doc).2 h3⟩

/-! ## What a removal cut short leaves -/

/-- At most one package, with deltas of its name, is listed by `r` without a record in the pool. -/
def Gap (W : World) (r : Str) (t : St) : Prop :=
  ∃ x, ∀ id, Holds t.db r id → InPool t id ∨ id = x ∨ (W.isDelta id = true ∧ nameOf W id = nameOf W x)

/-- Compared with `s`, `r` lists nothing more in `t`, and the pool lacks at most `x` and deltas of its name. -/
structure Short (W : World) (s : St) (r x : Str) (t : St) : Prop where
  holds : ∀ id, Holds t.db r id → Holds s.db r id
  pool : ∀ j, InPool s j → InPool t j ∨ j = x ∨ (W.isDelta j = true ∧ nameOf W j = nameOf W x)

theorem Short.refl (W : World) (s : St) (r x : Str) : Short W s r x s := ⟨fun _ h => h, fun _ h => .inl h⟩

theorem Short.gap {r x : Str} {t : St} (h : Short W s r x t) (hs : Safe W s.db) : Gap W r t :=
  ⟨x, fun id hi => by
    obtain ⟨pe, hp, _⟩ := hs.pool (h.holds id hi)
    exact h.pool id ⟨pe, hp⟩⟩

theorem Short.fs {r x : Str} {t : St} {f : FS} (h : Short W s r x t) : Short W s r x (t.setFs f) := ⟨h.holds, h.pool⟩

theorem Short.put {r x k : Str} {e : PoolEntry} {t : St} (h : Short W s r x t) : Short W s r x { t with db := (DbWrite.putPool k e).apply t.db } := by
  refine ⟨h.holds, fun j hj => (h.pool j hj).imp_left ?_⟩
  rintro ⟨pe, hp⟩
  unfold InPool
  simp only [DbWrite.apply, KV.get_put]
  split
  · exact ⟨_, rfl⟩
  · exact ⟨pe, hp⟩

theorem Short.del {r x k : Str} {t : St} (h : Short W s r x t) (hk : k = x ∨ (W.isDelta k = true ∧ nameOf W k = nameOf W x)) :
    Short W s r x { t with db := (DbWrite.delPool k).apply t.db } := by
  refine ⟨h.holds, fun j hj => ?_⟩
  by_cases hjk : j = k
  · subst hjk; exact .inr hk
  · refine (h.pool j hj).imp_left ?_
    rintro ⟨pe, hp⟩
    refine ⟨pe, ?_⟩
    simp only [DbWrite.apply, KV.get_del]
    rw [if_neg hjk]; exact hp

theorem dbWrite_less {r x : Str} {t : St} {w : DbWrite} (h : Short W s r x t) (hw : Short W s r x { t with db := w.apply t.db }) :
    Ever (Short W s r x) (dbWrite .direct w) t (fun _ _ => True) := by
  unfold dbWrite
  split
  · exact Ever.throw h
  · exact (Ever.step hw).mono fun _ _ _ => trivial

theorem unrefEntry_less {r x k : Str} {t : St} (h : Short W s r x t) (hk : k = x ∨ (W.isDelta k = true ∧ nameOf W k = nameOf W x)) :
    Ever (Short W s r x) (unrefEntry .direct k) t (fun _ _ => True) := by
  refine Ever.skip h (poolGet_reads k) fun e => ?_
  split
  · exact dbWrite_less h h.put
  · refine Ever.skip h (pathComp_reads _) fun c => ?_
    refine (Ever.step h.fs).bind fun _ u hu _ => ?_
    exact dbWrite_less hu (hu.del hk)

theorem removePackageInternal_less {r x k : Str} {t : St} (h : Short W s r x t) (hk : k = x ∨ (W.isDelta k = true ∧ nameOf W k = nameOf W x)) :
    Ever (Short W s r x) (removePackageInternal .direct r k) t (fun _ _ => True) := by
  refine Ever.skip h (poolGet?_reads k) fun o => ?_
  cases o with
  | none => exact Ever.pure h trivial
  | some e =>
    refine Ever.skip h (pathComp_reads _) fun c => ?_
    refine (Ever.step h.fs).bind fun _ u hu _ => ?_
    exact unrefEntry_less hu hk

theorem unrefDeltas_less (ok : W.OK) {r x : Str} {ds : List Str} {t : St} (hr : Rough W t) (h : Short W s r x t)
    (hd : ∀ d ∈ ds, W.isDelta d = true ∧ nameOf W d = nameOf W x) :
    Ever (Short W s r x) (unrefDeltas r x ds) t (fun _ _ => True) := by
  refine (Ever.collectL (P := Rough W) ds h hr fun d hdm u hu hru => ?_).mono fun _ _ _ => trivial
  refine Ever.read (tgt := some r) hu (poolGet_reads d) (poolGet_at d hru) fun pd hpd => ?_
  cases pd.delta with
  | none => exact ⟨hu, fun v hv => (by cases hv), fun a ha => (by cases ha)⟩
  | some di =>
    simp only
    split
    · rw [hpd.2.name]
      refine ((removePackageInternal_less hu (.inr (hd d hdm))).keeps (removePackageInternal_keeps ok .direct r d) hru).bind fun _ v hv hh => ?_
      exact Ever.pure hv hh.1
    · exact Ever.pure hu hru

theorem Ever.wins {J : St → Prop} {m : M α} {P R : α → St → Prop} (h : Ever J m s P) (hw : Wins m s R) : Ever J m s (fun a t => R a t ∧ P a t) :=
  ⟨h.fin, h.tr, fun a ha => by
    obtain ⟨b, hb, hR⟩ := hw
    rw [hb] at ha; cases ha
    exact ⟨hR, h.val _ hb⟩⟩

theorem Ever.weaken {J K : St → Prop} {m : M α} {P : α → St → Prop} (h : Ever J m s P) (hk : ∀ t, J t → K t) : Ever K m s P :=
  ⟨hk _ h.fin, fun t ht => hk t (h.tr t ht), h.val⟩

theorem unrefPackage_less (ok : W.OK) {r x : Str} (hr : Rough W s) (hs : Safe W s.db) (hx : Has s r x) :
    Ever (Short W s r x) (unrefPackage r x) s (fun _ _ => True) := by
  obtain ⟨n, e, hg, hid⟩ := hx
  have he := hr.db.ent r n e hg
  obtain ⟨hidd, hip, hin⟩ := he.avail x hid
  obtain ⟨pe, hpe, _⟩ := hs.pool (r := r) (id := x) ⟨n, e, hg, .inl hid⟩
  have h0 := Short.refl W s r x
  refine ((Ever.reads h0 (poolGet_reads x)).wins (poolGet_wins hpe)).bind ?_
  rintro a t _ ⟨⟨rfl, rfl⟩, _⟩
  have hname : a.pkg.name = n := (hr.db.pool x a hpe).pname.trans hin
  rw [hname]
  refine ((Ever.reads h0 (repoGet_reads r n)).wins (repoGet_wins hg)).bind ?_
  rintro e' t' _ ⟨⟨rfl, rfl⟩, _⟩
  refine (((removePackageInternal_less h0 (.inl rfl)).keeps (removePackageInternal_keeps ok .direct r x) hr).wins
    (removePackageInternal_wins (rid := r) ok hr hpe)).bind fun _ u hu hh => ?_
  obtain ⟨⟨hsh, hen⟩, hru, _⟩ := hh
  have hdn : ∀ d ∈ e'.deltas, W.isDelta d = true ∧ nameOf W d = nameOf W x := fun d hd =>
    ⟨(he.deltas d hd).1, (he.deltas d hd).2.2.trans hin.symm⟩
  have hdne : ∀ d ∈ e'.deltas, d ≠ x := by
    rintro d hd rfl
    have := (he.deltas d hd).1
    rw [hidd] at this; cases this
  refine ((unrefDeltas_less ok hru hu hdn).wins (unrefDeltas_wins ok r x e'.deltas (hs.dnd r n e' hg) hru (fun d hd => ⟨(he.deltas d hd).1, ?_⟩))).bind
    fun ds v hv hh => ?_
  · rw [hsh.keep d (hdne d hd)]
    obtain ⟨pd, h1, _⟩ := hs.pool (r := r) (id := d) ⟨n, e', hg, .inr hd⟩
    exact ⟨pd, h1⟩
  obtain ⟨⟨_, hv2, hv3, _⟩, _⟩ := hh
  have hents : v.db.ents = t'.db.ents := hv2.trans hen
  have havl : Post (unrefAvail x e'.available) v (fun acc w => w = v ∧ ∀ y ∈ acc.2.2, y ∈ e'.available) := by
    exact (unrefAvail_sub x e'.available).mono fun _ _ h => ⟨h.1, fun y hy => (h.2 y hy).1⟩
  refine ((Ever.reads hv (unrefAvail_reads x e'.available)).post havl).bind ?_
  rintro acc w hw ⟨⟨rfl, hacc⟩, _⟩
  have hname' : e'.name = n := he.name
  split
  · refine dbWrite_less hw ⟨?_, hw.pool⟩
    rintro id ⟨k, f, hf, hi⟩
    simp only [DbWrite.apply, setEnts, hents, if_true, KV.get_del] at hf
    split at hf
    · cases hf
    · exact ⟨k, f, hf, hi⟩
  · refine dbWrite_less hw ⟨?_, hw.pool⟩
    rintro id ⟨k, f, hf, hi⟩
    simp only [DbWrite.apply, setEnts, hents, if_true, KV.get_put] at hf
    split at hf
    · rename_i hk
      cases hf
      simp only [mem_sortS] at hi
      exact ⟨n, e', hg, hi.imp (hacc id) (fun h => hv3.subset h)⟩
    · exact ⟨k, f, hf, hi⟩

/-- Removing listed packages one after the other, at no point more than one is listed without a record. -/
theorem unrefAll_gap (ok : W.OK) (r : Str) (ids : List Str) (hn : ids.Nodup) (hr : Rough W s) (hs : Safe W s.db) (hh : ∀ id ∈ ids, Has s r id) :
    Ever (Gap W r) (forL ids (unrefPackage r)) s (fun _ _ => True) := by
  induction ids generalizing s with
  | nil => exact Ever.pure ((Short.refl W s r []).gap hs) trivial
  | cons x xs ih =>
    obtain ⟨hx, hxs⟩ := List.nodup_cons.1 hn
    have h1 := hh x (by simp)
    have hE : Ever (Gap W r) (unrefPackage r x) s (fun _ _ => True) := (unrefPackage_less ok hr hs h1).weaken fun t ht => ht.gap hs
    have hW := (unrefPackage_wins ok hr hs h1).keeps (unrefPackage_keeps ok r x) hr
    refine ((hE.wins hW).post (unrefPackage_post ok r x hr)).bind fun _ t _ ht => ?_
    obtain ⟨hd, ⟨hrt, hst⟩, _⟩ := ht
    refine ih hxs hrt hst fun id hid => ?_
    obtain ⟨n, e, hg, hi⟩ := hh id (by simp [hid])
    obtain ⟨e', hg', hi'⟩ := (hd.here n id).2 ⟨⟨e, hg, hi⟩, fun h => hx (h ▸ hid)⟩
    exact ⟨n, e', hg', hi'⟩

theorem Gap.congr {r : Str} {t u : St} (h : Gap W r t) (hp : u.db.pool = t.db.pool) (he : u.db.ents = t.db.ents) : Gap W r u := by
  obtain ⟨x, hx⟩ := h
  refine ⟨x, fun id hi => ?_⟩
  rw [Holds.congr he] at hi
  unfold InPool; rw [hp]
  exact hx id hi

theorem Still.gap {m : M α} {r : Str} (h : Still m) (hs : Gap W r s) : Ever (Gap W r) m s (fun _ t => t.db.pool = s.db.pool ∧ t.db.ents = s.db.ents) :=
  ⟨hs.congr (h.fin s).1 (h.fin s).2, fun t ht => hs.congr (h.tr s t ht).1 (h.tr s t ht).2, fun _ _ => h.fin s⟩

/-- A removal, at each of its points. -/
theorem Op.removes_gap (ok : W.OK) (o : Op) (hn : o.removes = true) {r : Str} (ht : o.target = some r) (hr : Rough W s) (hs : Safe W s.db) :
    Ever (Gap W r) (o.run W.E) s (fun _ _ => True) := by
  have hg := (Short.refl W s r []).gap hs
  have all : ∀ {m : M Unit}, (∀ t, Rough W t → Safe W t.db → Ever (Gap W r) m t (fun _ _ => True)) →
      Ever (Gap W r) (do getRepo r; m; mIndex W.E r : M Unit) s (fun _ _ => True) := by
    intro m hm
    refine (((getRepo_still r).gap hg).keeps (getRepo_keeps (tgt := none) r) hr).bind fun _ t _ hh => ?_
    refine (hm t hh.1 (hs.congr hh.2.2.1 hh.2.2.2)).bind fun _ u hu _ => ?_
    exact ((mIndex_still W.E r).gap hu).mono fun _ _ _ => trivial
  have scan : ∀ {f : RepoEntry → M (List Str)} {t : St}, (∀ e, Reads (f e)) → Rough W t → Safe W t.db →
      (∀ n e, (t.db.ents r).get n = some e → Wins (f e) t (fun o u => u = t ∧ o.Nodup ∧ ∀ y ∈ o, y ∈ e.available)) →
      Ever (Gap W r) (do
        let es ← repoEntries r
        let ids ← collectL es f
        forL ids (unrefPackage r)) t (fun _ _ => True) := by
    intro f t hf hrt hst hw
    have hgt := (Short.refl W t r []).gap hst
    have h1 := (Ever.reads hgt ((repoEntries_reads r).bind fun es => Reads.collectL fun e (_ : e ∈ es) => hf e)).wins (scan_wins hrt hw)
    have := h1.bind (f := fun ids => forL ids (unrefPackage r)) (R := fun _ _ => True) (by
      rintro ids u _ ⟨⟨rfl, h2, h3⟩, _⟩
      exact unrefAll_gap ok r ids h2 hrt hst h3)
    rw [M.bind_assoc] at this
    exact this
  cases o with
  | removeSource x n k =>
    cases ht
    refine all fun t hrt hst => ?_
    unfold Ferryd.removeSource
    have hgt := (Short.refl W t r []).gap hst
    refine ((Ever.reads hgt (matchingSource_reads r n k)).wins (matchingSource_wins ok r n k hrt hst)).bind ?_
    rintro ids u _ ⟨⟨rfl, h1, h2⟩, _⟩
    split
    · exact Ever.throw hgt
    · exact unrefAll_gap ok r ids h1 hrt hst h2
  | trimPackages x k =>
    cases ht
    refine all fun t hrt hst => ?_
    unfold Ferryd.trimPackages
    split
    · exact Ever.throw ((Short.refl W t r []).gap hst)
    · exact scan (fun e => trimScan_reads _ _ _) hrt hst fun n e hge => trimScan_wins ok _ hrt hst hge
  | trimObsolete x =>
    cases ht
    refine all fun t hrt hst => ?_
    unfold Ferryd.trimObsolete
    have hgt := (Short.refl W t r []).gap hst
    refine Ever.skip hgt (initDistribution_reads _ _) fun o => ?_
    cases o with
    | none => exact Ever.throw hgt
    | some obs =>
      exact scan (fun e => trimObsoleteScan_reads _ _ _) hrt hst fun n e hge => trimObsoleteScan_wins obs e.name e.available fun y hy => by
        obtain ⟨pe, h1, _⟩ := listed_pool hrt hst hge hy
        exact ⟨pe, h1⟩
  | _ => cases hn

/-! ## C126 -/

/-- C126: after any history of jobs, crashes and I/O errors, indexing an existing repository succeeds if and only if its asset files parse, no
tool of the index run fails, and the pool has a record of the published package of every name that is not on the obsolete list and of every
delta of a name that list does not hide. -/
theorem C126_index_iff (ok : W.OK) (hz : W.NoTorn) (h : Wild W s) {r : Str} (hr : Repo s r) :
    (mIndex W.E r s).res = .ok () ↔
      AssetsParse W s r ∧ (∀ obs, Obsolete W s r = some obs → Recorded W s r obs) ∧ W.E.indexIO s.clock = .ok := by
  have hs := h.rough ok hz
  have hsure := getRepo_sure (s := s) (rid := r) (by unfold Repo at hr; rwa [KV.mem_keys_iff] at hr)
  obtain ⟨hc1, hc2⟩ := (getRepo_calm r).st s
  have hst : (getRepo r s).st.db = s.db := hsure.st
  have hrt : Rough W (getRepo r s).st := (getRepo_keeps (tgt := none) r s hs).fin
  have e : (mIndex W.E r s).res = (indexRepo W.E r (getRepo r s).st).res := by
    show (M.bind' _ _ s).res = _
    unfold M.bind'
    rw [hsure.res]
  rw [e]
  have hg := indexRepo_good ok hrt (r := r)
  have hread : ∀ a, (getRepo r s).st.fs.read (.asset r a) = s.fs.read (.asset r a) := fun a => hc2 r a
  have h1 : AssetsParse W (getRepo r s).st r ↔ AssetsParse W s r := by
    constructor
    · rintro ⟨a, b, c⟩; simp only [hread] at a b c; exact ⟨a, b, c⟩
    · rintro ⟨a, b, c⟩; simp only [← hread] at a b c; exact ⟨a, b, c⟩
  have h2 : ∀ obs, Obsolete W (getRepo r s).st r = some obs ↔ Obsolete W s r = some obs := by
    intro obs; unfold Obsolete; rw [hread]
  have h3 : ∀ obs, Recorded W (getRepo r s).st r obs ↔ Recorded W s r obs := by
    intro obs
    constructor
    · rintro ⟨a, b⟩
      unfold Tip InPool at a; unfold HasDelta InPool at b; rw [hst] at a b
      exact ⟨a, b⟩
    · rintro ⟨a, b⟩
      constructor
      · unfold Tip InPool; rw [hst]; exact a
      · unfold HasDelta InPool; rw [hst]; exact b
  rw [h1] at hg
  simp only [h2, h3, hc1] at hg
  rw [← hg]
  exact ⟨fun h => ⟨(), h⟩, fun ⟨a, h⟩ => h⟩

/-- C126: as long as no removal was cut short before, at whatever point a remove-source or trim job is cut short, at most one package, with
deltas of its name, is listed in its repository without a record in the pool. -/
theorem C126_one_package (ok : W.OK) (hz : W.NoTorn) (h : Careful W s) (o : Op) (ho : o.removes = true) {r : Str} (ht : o.target = some r)
    (u : St) (hu : Moment W o s u) :
    ∃ x, ∀ id, Has u r id ∨ HasDelta u r id → InPool u id ∨ id = x ∨ (W.isDelta id = true ∧ nameOf W id = nameOf W x) := by
  obtain ⟨t, htr, hh⟩ := hu
  obtain ⟨x, hx⟩ := (o.removes_gap ok ho ht (h.wild.rough ok hz) (h.safe ok hz)).tr t htr
  have hdb : u.db = t.db := by cases hh <;> rfl
  refine ⟨x, fun id hid => ?_⟩
  unfold Has Lists HasDelta InPool at *
  rw [hdb] at hid ⊢
  refine hx id ?_
  rcases hid with ⟨n, e, hg, hi⟩ | ⟨n, e, hg, hi⟩
  · exact ⟨n, e, hg, .inl hi⟩
  · exact ⟨n, e, hg, .inr hi⟩

/-- C29, what is proved of the repository itself: when a remove-source or trim job is cut short at any point (and none was before), there is one
name such that a later index succeeds (if the asset files parse and no tool of the index run fails) if and only if the published package
of that name and its deltas are still recorded in the pool, unless the obsolete list hides them. -/
theorem C29_index_iff_partial (ok : W.OK) (hz : W.NoTorn) (h : Careful W s) (o : Op) (hok : o.Ok W) (ho : o.removes = true) {r : Str}
    (ht : o.target = some r) (u : St) (hu : Moment W o s u) (hr : Repo u r) (ha : AssetsParse W u r) (hi : ∀ k, W.E.indexIO k = .ok) :
    ∃ n, (mIndex W.E r u.crash).res = .ok () ↔ ∀ obs, Obsolete W u r = some obs →
      (∀ id, Tip u r n id → n ∉ obs → InPool u id) ∧ (∀ d, HasDelta u r d → nameOf W d = n → ¬ Hidden obs n → InPool u d) := by
  obtain ⟨x, hx⟩ := C126_one_package ok hz h o ho ht u hu
  have hw : Wild W u.crash := h.wild.dies o hok hu
  have hl := fun n => C111_listings ok hz hw r n
  refine ⟨nameOf W x, ?_⟩
  rw [C126_index_iff ok hz hw (r := r) hr]
  constructor
  · rintro ⟨_, h2, _⟩ obs hob
    have := h2 obs hob
    exact ⟨fun id hid hn => this.tips _ id hid hn, fun d hd hn hh => this.deltas d hd (by rw [hn]; exact hh)⟩
  · intro hh
    refine ⟨⟨ha.dist, ha.comps, ha.groups⟩, fun obs hob => ⟨fun n id hid hn => ?_, fun d hd hn => ?_⟩, hi _⟩
    · have hlist : Lists u r n id := (hl n).2.1 id hid
      rcases hx id (.inl ⟨n, hlist⟩) with h' | rfl | ⟨hd, _⟩
      · exact h'
      · have : nameOf W id = n := ((hl n).1 id hlist).1
        rw [this] at hh
        exact (hh obs hob).1 id hid hn
      · have := ((hl n).1 id hlist).2.2
        rw [this] at hd; cases hd
    · rcases hx d (.inr hd) with h' | rfl | ⟨_, hnn⟩
      · exact h'
      · exact (hh obs hob).2 d hd rfl hn
      · exact (hh obs hob).2 d hd hnn (hnn ▸ hn)

/-- The hypotheses are met, and both outcomes occur: after the removal of "b" from "unstable" was cut short, indexing "unstable" works at the first
point and fails at the third. -/
example : Careful Demo.W Demo.st4 ∧ Demo.jobB.removes = true ∧ Demo.jobB.target = some (Demo.S "unstable") ∧
    Moment Demo.W Demo.jobB Demo.st4 (Demo.cut Demo.jobB Demo.st4 0) ∧ Moment Demo.W Demo.jobB Demo.st4 (Demo.cut Demo.jobB Demo.st4 2) ∧
    (mIndex Demo.E (Demo.S "unstable") (Demo.cut Demo.jobB Demo.st4 0).crash).res = .ok () ∧
    (mIndex Demo.E (Demo.S "unstable") (Demo.cut Demo.jobB Demo.st4 2).crash).res ≠ .ok () ∧
    Repo (Demo.cut Demo.jobB Demo.st4 2) (Demo.S "unstable") := by
  refine ⟨Demo.reach4.careful, rfl, rfl, Demo.cut_moment (by decide +kernel), Demo.cut_moment (by decide +kernel), ?_, ?_, ?_⟩
  · decide +kernel
  · decide +kernel
  · unfold Repo; decide +kernel

end Ferryd
