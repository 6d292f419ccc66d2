import Verif.CoreSafe
import Verif.PropsSuccess
/-!
# PropsSafe: histories with crashes and I/O errors in which no removal is cut short (C115, C116)
-/
namespace Ferryd
open Spec
variable {W : World} {s : St} {α β : Type} {tgt : Option Str}

/-- Histories in which every job may be cut short anywhere, any number of times, by the death of the daemon or by an I/O error, except the jobs
that take packages out of a repository one by one (remove-source, the two trims): those come to their end, successful or not. -/
inductive Careful (W : World) : St → Prop
  | init : Careful W St.init
  | job {s : St} (h : Careful W s) (o : Op) (ho : o.Ok W) : Careful W (o.exec W.E s)
  | dies {s u : St} (h : Careful W s) (o : Op) (ho : o.Ok W) (hn : o.removes = false) (hm : Moment W o s u) : Careful W u.crash
  | fails {s u : St} (h : Careful W s) (o : Op) (ho : o.Ok W) (hn : o.removes = false) (hm : Moment W o s u) : Careful W { u with pend := [] }

theorem Careful.wild (h : Careful W s) : Wild W s := by
  induction h with
  | init => exact .init
  | job _ o ho ih => exact ih.job o ho
  | dies _ o ho _ hm ih => exact ih.dies o ho hm
  | fails _ o ho _ hm ih => exact ih.fails o ho hm

theorem Reachable.careful (h : Reachable W s) : Careful W s := by
  obtain ⟨ops, hok, rfl⟩ := h
  have key : ∀ (ops : List Op) (s : St), (∀ o ∈ ops, o.Ok W) → Careful W s → Careful W (runAll W.E s ops) := by
    intro ops
    induction ops with
    | nil => intro s _ h; exact h
    | cons o ops ih => intro s ho h; exact ih _ (fun x hx => ho x (by simp [hx])) (h.job o (ho o (by simp)))
  exact key ops _ hok .init

theorem Moment.safe (ok : W.OK) (hz : W.NoTorn) {o : Op} (ho : o.Ok W) (hn : o.removes = false) {u : St} (h : Moment W o s u) (hr : Rough W s)
    (hs : Safe W s.db) : Safe W u.db := by
  obtain ⟨t, ht, hu⟩ := h
  have := (o.safe ok hz ho hn hr hs).tr t ht
  cases hu <;> exact this

theorem Careful.safe (ok : W.OK) (hz : W.NoTorn) (h : Careful W s) : Safe W s.db := by
  induction h with
  | init => exact safe_init W
  | job h o ho ih =>
    have hr := h.wild.rough ok hz
    cases hn : o.removes with
    | true => exact o.removes_safe ok hn hr ih
    | false => exact (o.safe ok hz ho hn hr ih).fin
  | dies h o ho hn hm ih => exact hm.safe ok hz ho hn (h.wild.rough ok hz) ih
  | fails h o ho hn hm ih => exact hm.safe ok hz ho hn (h.wild.rough ok hz) ih

/-! ## Indexing succeeds -/

theorem indexRepo_wins (ok : W.OK) (r : Str) (hr : Rough W s) (hs : Safe W s.db) (ha : AssetsParse W s r) (hi : W.E.indexIO s.clock = .ok) :
    Wins (indexRepo W.E r) s (fun _ _ => True) := by
  have hd : Wins (initDistribution W.E r) s (fun _ t => t = s) := by
    refine Wins.getSt ?_
    cases hc : s.fs.read (.asset r .distribution) with
    | none => exact Wins.pure rfl
    | some c =>
      obtain ⟨obs, ho⟩ := ha.dist c hc
      simp only [ho]
      exact Wins.pure rfl
  have hasset : ∀ (p : Content → ParsedAsset) (a : Asset), (∀ c, s.fs.read (.asset r a) = some c → ∃ l, p c = .good l) →
      Wins (emitAsset p r a) s (fun _ t => t = s) := by
    intro p a h
    refine Wins.getSt ?_
    cases hc : s.fs.read (.asset r a) with
    | none => exact Wins.pure rfl
    | some c =>
      obtain ⟨l, hl⟩ := h c hc
      simp only [hl]
      exact Wins.pure rfl
  have hpush : ∀ n e (pe : PoolEntry), (s.db.ents r).get n = some e → pe.pkg.name = n → pe.pkg.history ≠ [] →
      Wins (pushDeltas r pe) s (fun _ t => t = s) := by
    intro n e pe hg hn hh
    unfold pushDeltas
    rw [hn]
    refine (repoGet_wins hg).bind ?_
    rintro a t ⟨rfl, rfl⟩
    have he := hr.db.ent r n a hg
    have : ∀ (l : List Str), (∀ d ∈ l, d ∈ a.deltas) → Wins (collectL l fun d => do
        let pd ← poolGet d
        match pd.delta with
        | none => throwE .badDelta
        | some di => do
          let rel ← getRelease pe.pkg
          if di.toRelease ≠ rel then pure []
          else pure [⟨di.fromRelease, pd.pkg.uri, pd.pkg.size, pd.pkg.hash⟩]) t (fun (_ : List DocDelta) u => u = t) := by
      intro l
      induction l with
      | nil => intro _; exact Wins.pure rfl
      | cons d ds ih =>
        intro hl
        have hdm := hl d (by simp)
        obtain ⟨pd, h1, _⟩ := hs.pool (r := r) (id := d) ⟨n, a, hg, .inr hdm⟩
        have hpd := hr.db.pool d pd h1
        refine Wins.bind (P := fun _ u => u = t) ?_ ?_
        · refine (poolGet_wins h1).bind ?_
          rintro x u ⟨rfl, rfl⟩
          have hsome := hpd.delta
          rw [(he.deltas d hdm).1] at hsome
          cases hdl : x.delta with
          | none => rw [hdl] at hsome; cases hsome
          | some di =>
            refine (getRelease_wins hh).bind ?_
            rintro k v ⟨rfl, rfl⟩
            split
            · exact Wins.pure rfl
            · exact Wins.pure rfl
        · rintro x u rfl
          refine (ih fun y hy => hl y (by simp [hy])).bind ?_
          rintro y v rfl
          exact Wins.pure rfl
    exact this a.deltas fun _ h => h
  have hemit : ∀ d, Wins (emitIndex W.E r d) s (fun _ t => t = s) := by
    intro d
    unfold emitIndex
    refine Wins.bind (P := fun a t => a = (s.db.ents r).map Prod.snd ∧ t = s) ⟨_, rfl, rfl, rfl⟩ ?_
    rintro es t ⟨rfl, rfl⟩
    have : ∀ (l : List Str), (∀ id ∈ l, ∃ n e, (t.db.ents r).get n = some e ∧ id ∈ e.available) →
        Wins (collectL l fun id => do
          let pe ← poolGet id
          emitPackage r d pe) t (fun _ u => u = t) := by
      intro l
      induction l with
      | nil => intro _; exact Wins.pure rfl
      | cons x xs ih =>
        intro hl
        obtain ⟨n, e, hg, hx⟩ := hl x (by simp)
        obtain ⟨pe, h1, h2⟩ := listed_pool hr hs hg hx
        have hn : pe.pkg.name = n := h2.pname.trans ((hr.db.ent r n e hg).avail x hx).2.2
        refine Wins.bind (P := fun _ u => u = t) ?_ ?_
        · refine (poolGet_wins h1).bind ?_
          rintro a u ⟨rfl, rfl⟩
          unfold emitPackage
          split
          · exact Wins.pure rfl
          · refine (hpush n e a hg hn (h2.hist ok)).bind ?_
            rintro ds v rfl
            exact Wins.pure rfl
        · rintro a u rfl
          refine (ih fun y hy => hl y (by simp [hy])).bind ?_
          rintro y v rfl
          exact Wins.pure rfl
    refine (this _ ?_).bind ?_
    · intro id hid
      simp only [mem_sortS, List.mem_map, List.mem_filter] at hid
      obtain ⟨e, ⟨⟨⟨n, e'⟩, hm, rfl⟩, _⟩, rfl⟩ := hid
      have hg := KV.get_of_mem (hr.db.wfEnts r) hm
      exact ⟨n, e', hg, (hr.db.ent r n e' hg).pub⟩
    rintro pk u rfl
    refine (hasset _ _ ha.comps).bind ?_
    rintro c v rfl
    refine (hasset _ _ ha.groups).bind ?_
    rintro g w rfl
    exact Wins.pure rfl
  unfold indexRepo
  refine hd.bind ?_
  rintro d t rfl
  refine (hemit d).bind ?_
  rintro doc u rfl
  refine Wins.getSt ?_
  refine Wins.bind (P := fun _ _ => True) ⟨(), rfl, trivial⟩ fun _ v _ => ?_
  rw [hi]
  exact Wins.step trivial

/-- `m` touches neither asset files nor the clock. -/
structure Calm (m : M α) : Prop where
  st : ∀ s, (m s).st.clock = s.clock ∧ ∀ r a, (m s).st.fs.read (.asset r a) = s.fs.read (.asset r a)

theorem Calm.bind {m : M α} {f : α → M β} (h : Calm m) (hf : ∀ a, Calm (f a)) : Calm (m >>= f) := ⟨fun s => by
  show (M.bind' m f s).st.clock = _ ∧ ∀ r a, (M.bind' m f s).st.fs.read _ = _
  unfold M.bind'
  cases (m s).res with
  | ok a =>
    obtain ⟨h1, h2⟩ := h.st s
    obtain ⟨h3, h4⟩ := (hf a).st (m s).st
    exact ⟨h3.trans h1, fun r x => (h4 r x).trans (h2 r x)⟩
  | err e => exact h.st s
  | panic => exact h.st s⟩
theorem Reads.calm {m : M α} (h : Reads m) : Calm m := ⟨fun s => by rw [h.st]; exact ⟨rfl, fun _ _ => rfl⟩⟩
theorem Calm.ite {c : Prop} [Decidable c] {m n : M α} (h : Calm m) (k : Calm n) : Calm (if c then m else n) := by
  split
  · exact h
  · exact k
theorem Calm.forL {γ : Type} {l : List γ} {f : γ → M Unit} (h : ∀ x ∈ l, Calm (f x)) : Calm (forL l f) := by
  induction l with
  | nil => exact (Reads.pure _).calm
  | cons x xs ih => exact (h x (by simp)).bind fun _ => ih fun y hy => h y (by simp [hy])
theorem Calm.collectL {γ δ : Type} {l : List γ} {f : γ → M (List δ)} (h : ∀ x ∈ l, Calm (f x)) : Calm (collectL l f) := by
  induction l with
  | nil => exact (Reads.pure _).calm
  | cons x xs ih => exact (h x (by simp)).bind fun _ => (ih fun y hy => h y (by simp [hy])).bind fun _ => (Reads.pure _).calm

theorem dbWrite_calm (w : DbWrite) : Calm (dbWrite .direct w) := by
  unfold dbWrite
  exact Calm.ite (Reads.throw _).calm ⟨fun _ => ⟨rfl, fun _ _ => rfl⟩⟩
theorem removeFile_calm {p : Path} (h : p.isAsset = false) : Calm (removeFile p) := ⟨fun s => ⟨rfl, fun r a => by
  have hne : Path.asset r a ≠ p := by rintro rfl; cases h
  show (FS.setTab s.fs p none).read _ = _
  unfold FS.read FS.setTab
  simp only
  rw [if_neg hne]⟩⟩
theorem unrefEntry_calm (id : Str) : Calm (unrefEntry .direct id) :=
  (poolGet_reads id).calm.bind fun _ => Calm.ite (dbWrite_calm _) ((pathComp_reads _).calm.bind fun _ => (removeFile_calm rfl).bind fun _ => dbWrite_calm _)
theorem removePackageInternal_calm (r id : Str) : Calm (removePackageInternal .direct r id) := by
  refine (poolGet?_reads id).calm.bind fun o => ?_
  cases o with
  | none => exact (Reads.pure _).calm
  | some e => exact (pathComp_reads _).calm.bind fun _ => (removeFile_calm rfl).bind fun _ => unrefEntry_calm id
theorem unrefPackage_calm (r id : Str) : Calm (unrefPackage r id) := by
  refine (poolGet_reads id).calm.bind fun pe => (repoGet_reads r _).calm.bind fun e => (removePackageInternal_calm r id).bind fun _ => ?_
  refine Calm.bind (Calm.collectL fun d _ => (poolGet_reads d).calm.bind fun pd => ?_) fun ds => ?_
  · cases pd.delta with
    | none => exact Reads.panic.calm
    | some di => exact Calm.ite ((removePackageInternal_calm r _).bind fun _ => (Reads.pure _).calm) (Reads.pure _).calm
  · exact (unrefAvail_reads id _).calm.bind fun acc => Calm.ite (dbWrite_calm _) (dbWrite_calm _)
theorem removeSource_calm (r source : Str) (rel : Int) : Calm (removeSource r source rel) :=
  (matchingSource_reads r source rel).calm.bind fun _ => Calm.ite (Reads.throw _).calm (Calm.forL fun id _ => unrefPackage_calm r id)
theorem trimPackages_calm (r : Str) (k : Int) : Calm (trimPackages W.E r k) :=
  Calm.ite (Reads.throw _).calm ((repoEntries_reads r).calm.bind fun _ => (Reads.collectL fun e _ => trimScan_reads _ _ e).calm.bind fun _ =>
    Calm.forL fun id _ => unrefPackage_calm r id)
theorem trimObsolete_calm (r : Str) : Calm (trimObsolete W.E r) := by
  refine (initDistribution_reads W.E r).calm.bind fun o => ?_
  cases o with
  | none => exact (Reads.throw _).calm
  | some obs =>
    exact (repoEntries_reads r).calm.bind fun _ => (Reads.collectL fun e _ => trimObsoleteScan_reads _ _ _).calm.bind fun _ =>
      (Calm.forL fun id _ => unrefPackage_calm r id)

theorem getRepo_calm (r : Str) : Calm (getRepo r) := by
  refine Reads.getSt.calm.bind fun s => Calm.ite (Reads.pure _).calm ?_
  cases s.db.repos.get r with
  | none => exact (Reads.throw _).calm
  | some _ => exact Calm.bind ⟨fun _ => ⟨rfl, fun _ _ => rfl⟩⟩ fun _ => ⟨fun _ => ⟨rfl, fun _ _ => rfl⟩⟩

theorem Wins.calm {m : M α} {P : α → St → Prop} (h : Wins m s P) (hc : Calm m) {r : Str} (ha : AssetsParse W s r) :
    Wins m s (fun a t => (AssetsParse W t r ∧ t.clock = s.clock ∧ ∀ a, t.fs.read (.asset r a) = s.fs.read (.asset r a)) ∧ P a t) := by
  obtain ⟨a, h1, h2⟩ := h
  obtain ⟨h3, h4⟩ := hc.st s
  refine ⟨a, h1, ⟨⟨?_, ?_, ?_⟩, h3, h4 r⟩, h2⟩
  · rw [h4]; exact ha.dist
  · rw [h4]; exact ha.comps
  · rw [h4]; exact ha.groups

theorem getRepo_wins (r : Str) (h : Repo s r) (hr : Rough W s) (hs : Safe W s.db) (ha : AssetsParse W s r) :
    Wins (getRepo r) s (fun _ t => (AssetsParse W t r ∧ t.clock = s.clock ∧ ∀ a, t.fs.read (.asset r a) = s.fs.read (.asset r a)) ∧ Rough W t ∧ Safe W t.db ∧ t.db = s.db) := by
  have := getRepo_sure (s := s) (rid := r) (by unfold Repo at h; rwa [KV.mem_keys_iff] at h)
  have hw : Wins (getRepo r) s (fun _ t => Rough W t ∧ Safe W t.db ∧ t.db = s.db) :=
    ⟨(), this.res, (getRepo_keeps (tgt := none) r s hr).fin, by rw [this.st]; exact hs, this.st⟩
  exact hw.calm (getRepo_calm r) ha

theorem mIndex_wins (ok : W.OK) (r : Str) (h : Repo s r) (hr : Rough W s) (hs : Safe W s.db) (ha : AssetsParse W s r) (hi : W.E.indexIO s.clock = .ok) :
    Wins (mIndex W.E r) s (fun _ _ => True) :=
  (getRepo_wins r h hr hs ha).bind fun _ t ht => indexRepo_wins ok r ht.2.1 ht.2.2.1 ht.1.1 (by rw [ht.1.2.1]; exact hi)

/-- Jobs that take packages out do not take the repository's record out. -/
theorem job_wins (ok : W.OK) (r : Str) {m : M Unit} (h : Repo s r) (hr : Rough W s) (hs : Safe W s.db) (ha : AssetsParse W s r) (hi : W.E.indexIO s.clock = .ok)
    (hm : ∀ t, Rough W t → Safe W t.db → t.db = s.db → (∀ a, t.fs.read (.asset r a) = s.fs.read (.asset r a)) → Wins m t (fun _ u => Safe W u.db ∧ Rough W u)) (hc : Calm m)
    (hrep : ∀ t, Repo t r → Repo (m t).st r) : Wins (do getRepo r; m; mIndex W.E r : M Unit) s (fun _ _ => True) := by
  refine (getRepo_wins r h hr hs ha).bind fun _ t ht => ?_
  obtain ⟨⟨h1, h2, h6⟩, h3, h4, h5⟩ := ht
  obtain ⟨a, hw1, hw2⟩ := (hm t h3 h4 h5 h6).calm hc h1
  refine Wins.bind (P := fun _ u => Repo u r ∧ (AssetsParse W u r ∧ u.clock = t.clock ∧ ∀ a, u.fs.read (.asset r a) = t.fs.read (.asset r a)) ∧ Safe W u.db ∧ Rough W u) ⟨a, hw1, ?_, hw2⟩ fun _ u hu => ?_
  · exact hrep t (by unfold Repo at h ⊢; rw [h5]; exact h)
  · obtain ⟨k1, ⟨k2, k3, _⟩, k4, k5⟩ := hu
    exact mIndex_wins ok r k1 k5 k4 k2 (by rw [k3, h2]; exact hi)

/-- `m` leaves the list of repositories alone. -/
structure SameRepos (m : M α) : Prop where
  st : ∀ s, (m s).st.db.repos = s.db.repos
theorem SameRepos.bind {m : M α} {f : α → M β} (h : SameRepos m) (hf : ∀ a, SameRepos (f a)) : SameRepos (m >>= f) := ⟨fun s => by
  show (M.bind' m f s).st.db.repos = _
  unfold M.bind'
  cases (m s).res with
  | ok a => exact ((hf a).st _).trans (h.st s)
  | err e => exact h.st s
  | panic => exact h.st s⟩
theorem Reads.repos {m : M α} (h : Reads m) : SameRepos m := ⟨fun s => by rw [h.st]⟩
theorem SameRepos.ite {c : Prop} [Decidable c] {m n : M α} (h : SameRepos m) (k : SameRepos n) : SameRepos (if c then m else n) := by
  split
  · exact h
  · exact k
theorem SameRepos.forL {γ : Type} {l : List γ} {f : γ → M Unit} (h : ∀ x ∈ l, SameRepos (f x)) : SameRepos (forL l f) := by
  induction l with
  | nil => exact (Reads.pure _).repos
  | cons x xs ih => exact (h x (by simp)).bind fun _ => ih fun y hy => h y (by simp [hy])
theorem SameRepos.collectL {γ δ : Type} {l : List γ} {f : γ → M (List δ)} (h : ∀ x ∈ l, SameRepos (f x)) : SameRepos (collectL l f) := by
  induction l with
  | nil => exact (Reads.pure _).repos
  | cons x xs ih => exact (h x (by simp)).bind fun _ => (ih fun y hy => h y (by simp [hy])).bind fun _ => (Reads.pure _).repos
theorem dbWrite_repos {w : DbWrite} (h : ∀ d : DB, (w.apply d).repos = d.repos) : SameRepos (dbWrite .direct w) := by
  unfold dbWrite
  exact SameRepos.ite (Reads.throw _).repos ⟨fun _ => h _⟩
theorem removeFile_repos (p : Path) : SameRepos (removeFile p) := ⟨fun _ => rfl⟩
theorem unrefEntry_repos (id : Str) : SameRepos (unrefEntry .direct id) :=
  (poolGet_reads id).repos.bind fun _ => SameRepos.ite (dbWrite_repos fun _ => rfl) ((pathComp_reads _).repos.bind fun _ => (removeFile_repos _).bind fun _ => dbWrite_repos fun _ => rfl)
theorem removePackageInternal_repos (r id : Str) : SameRepos (removePackageInternal .direct r id) := by
  refine (poolGet?_reads id).repos.bind fun o => ?_
  cases o with
  | none => exact (Reads.pure _).repos
  | some e => exact (pathComp_reads _).repos.bind fun _ => (removeFile_repos _).bind fun _ => unrefEntry_repos id
theorem unrefPackage_repos (r id : Str) : SameRepos (unrefPackage r id) := by
  refine (poolGet_reads id).repos.bind fun pe => (repoGet_reads r _).repos.bind fun e => (removePackageInternal_repos r id).bind fun _ => ?_
  refine SameRepos.bind (SameRepos.collectL fun d _ => (poolGet_reads d).repos.bind fun pd => ?_) fun ds => ?_
  · cases pd.delta with
    | none => exact Reads.panic.repos
    | some di => exact SameRepos.ite ((removePackageInternal_repos r _).bind fun _ => (Reads.pure _).repos) (Reads.pure _).repos
  · exact (unrefAvail_reads id _).repos.bind fun acc => SameRepos.ite (dbWrite_repos fun _ => rfl) (dbWrite_repos fun _ => rfl)
theorem removeSource_repos (r source : Str) (rel : Int) : SameRepos (removeSource r source rel) :=
  (matchingSource_reads r source rel).repos.bind fun _ => SameRepos.ite (Reads.throw _).repos (SameRepos.forL fun id _ => unrefPackage_repos r id)
theorem trimPackages_repos (r : Str) (k : Int) : SameRepos (trimPackages W.E r k) :=
  SameRepos.ite (Reads.throw _).repos ((repoEntries_reads r).repos.bind fun _ => (Reads.collectL fun e _ => trimScan_reads _ _ e).repos.bind fun _ =>
    SameRepos.forL fun id _ => unrefPackage_repos r id)
theorem trimObsolete_repos (r : Str) : SameRepos (trimObsolete W.E r) := by
  refine (initDistribution_reads W.E r).repos.bind fun o => ?_
  cases o with
  | none => exact (Reads.throw _).repos
  | some obs =>
    exact (repoEntries_reads r).repos.bind fun _ => (Reads.collectL fun e _ => trimObsoleteScan_reads _ _ _).repos.bind fun _ =>
      (SameRepos.forL fun id _ => unrefPackage_repos r id)

/-! ## The demo -/
namespace Demo
/-- The import into "v", cut short after the reference count, and retried: a careful history. -/
theorem carefulCut : Careful Demo.W cutV.crash :=
  ((reach6.careful.job (.addPackages (S "u") [S "/up/a-1.eopkg"] false)
    (show ∀ f ∈ [S "/up/a-1.eopkg"], Demo.W.isDelta (baseName f) = false by decide +kernel)).job (.create (S "v")) trivial).dies jobV jobV_ok rfl cutV_moment
theorem carefulR : Careful Demo.W stR := carefulCut.job jobV jobV_ok
end Demo

/-! ## C115 -/

/-- C115, what is proved: as long as no remove-source or trim job is cut short (every other job, imports, clones, pulls, copies and deletions of
repositories included, may be, anywhere, any number of times, by crashes or I/O errors), the published release of a name is the
highest one its repository lists.  Missing: histories in which a remove-source or trim is cut, where it is false (`C115_violated`). -/
theorem C115_newest_partial (ok : W.OK) (hz : W.NoTorn) (h : Careful W s) {r n t x : Str} (ht : Tip s r n t) (hx : Lists s r n x) :
    relOf W x ≤ relOf W t := by
  obtain ⟨e, hg, rfl⟩ := ht
  obtain ⟨e', hg', hx⟩ := hx
  rw [hg] at hg'; cases hg'
  exact (h.safe ok hz).top r n e hg x hx

/-- Not vacuous: an import into "v" cut short and run again. -/
example : Careful Demo.W Demo.stR ∧ Tip Demo.stR (Demo.S "v") (Demo.S "a") (Demo.S "a-1.eopkg") ∧ Lists Demo.stR (Demo.S "v") (Demo.S "a") (Demo.S "a-1.eopkg") :=
  ⟨Demo.carefulR, ⟨((Demo.stR.db.ents (Demo.S "v")).get (Demo.S "a")).get (by decide +kernel), by decide +kernel, by decide +kernel⟩,
    ⟨((Demo.stR.db.ents (Demo.S "v")).get (Demo.S "a")).get (by decide +kernel), by decide +kernel, by decide +kernel⟩⟩

/-! ## C116 -/

/-- C116, references: as long as no remove-source or trim job is cut short, whatever several repositories list, as package or as delta, the pool has, with
a count of at least the number of those repositories; so no removal elsewhere takes away what a repository needs.  This also holds at every
moment of a job other than a removal. -/
theorem C116_counted (ok : W.OK) (hz : W.NoTorn) (h : Careful W s) (u : St)
    (hu : u = s ∨ ∃ o : Op, o.Ok W ∧ o.removes = false ∧ Moment W o s u) {id : Str} {L : List Str} (hn : L.Nodup) (hne : L ≠ [])
    (hL : ∀ r ∈ L, Has u r id ∨ HasDelta u r id) : ∃ k, Count u id k ∧ L.length ≤ k := by
  have hs : Safe W u.db := by
    rcases hu with rfl | ⟨o, ho, hrm, hm⟩
    · exact h.safe ok hz
    · exact hm.safe ok hz ho hrm (h.wild.rough ok hz) (h.safe ok hz)
  obtain ⟨pe, h1, h2⟩ := hs.cover id L hn (fun r hr => by
    rcases hL r hr with ⟨n, e, hg, hi⟩ | ⟨n, e, hg, hi⟩
    · exact ⟨n, e, hg, .inl hi⟩
    · exact ⟨n, e, hg, .inr hi⟩) hne
  exact ⟨pe.refCount, ⟨pe, h1, rfl⟩, h2⟩

/-- C116, the jobs: as long as no remove-source or trim job is cut short, every valid index, remove-source or trim request succeeds, whatever else was cut
short before, if the asset files parse and no tool of the index run fails. -/
theorem C116_succeeds (ok : W.OK) (hz : W.NoTorn) (h : Careful W s) (o : Op) {r : Str}
    (hop : o = .index r ∨ (∃ source rel, o = .removeSource r source rel) ∨ o = .trimObsolete r ∨ ∃ k, o = .trimPackages r k)
    (hv : Accepts W s o) (ha : AssetsParse W s r) (hi : W.E.indexIO s.clock = .ok) : (o.run W.E s).res = .ok () := by
  have hr := h.wild.rough ok hz
  have hs := h.safe ok hz
  have fin : ∀ {m : M Unit}, Wins m s (fun _ _ => True) → (m s).res = .ok () := fun hw => by obtain ⟨_, h1, _⟩ := hw; exact h1
  rcases hop with rfl | ⟨source, rel, rfl⟩ | rfl | ⟨k, rfl⟩
  · exact fin (mIndex_wins ok r hv hr hs ha hi)
  · obtain ⟨hrep, id, hid, hf⟩ := hv
    refine fin (job_wins ok r hrep hr hs ha hi (fun t ht hst hdb _ => ?_) (removeSource_calm r source rel)
      fun t ht => by unfold Repo at ht ⊢; rw [(removeSource_repos r source rel).st]; exact ht)
    refine removeSource_wins ok r source rel ht hst ⟨id, ?_, (matches_iff W source rel id).2 hf⟩
    unfold Has Lists at hid ⊢; rw [hdb]; exact hid
  · obtain ⟨hrep, c, hc⟩ := hv
    refine fin (job_wins ok r hrep hr hs ha hi (fun t ht hst hdb hat => ?_) (trimObsolete_calm r)
      fun t ht => by unfold Repo at ht ⊢; rw [(trimObsolete_repos r).st]; exact ht)
    obtain ⟨obs, ho⟩ := ha.dist c hc
    have hin : initDistribution W.E r t = ⟨.ok (some obs), t, []⟩ := by
      unfold initDistribution
      rw [getSt_bind, hat .distribution, hc]
      simp only [ho]
      rfl
    unfold trimObsolete
    refine Wins.bind (P := fun a u => a = some obs ∧ u = t) ⟨some obs, by rw [hin], rfl, by rw [hin]⟩ ?_
    rintro a u ⟨rfl, rfl⟩
    exact trimObsolete_scan_wins ok r obs ht hst
  · obtain ⟨hrep, hk⟩ := hv
    exact fin (job_wins ok r hrep hr hs ha hi (fun t ht hst hdb _ => trimPackages_wins ok r hk ht hst) (trimPackages_calm r k)
      fun t ht => by unfold Repo at ht ⊢; rw [(trimPackages_repos r k).st]; exact ht)

/-- Not vacuous: "v" after an import into it was cut short, its package in two repositories; "v" is then indexed, and the package removed from it. -/
example : Careful Demo.W Demo.stR ∧ [Demo.S "u", Demo.S "v"].Nodup ∧ (∀ r ∈ [Demo.S "u", Demo.S "v"], Has Demo.stR r (Demo.S "a-1.eopkg")) ∧
    Accepts Demo.W Demo.stR (.removeSource (Demo.S "v") (Demo.S "a") 0) ∧ Accepts Demo.W Demo.stR (.index (Demo.S "v")) ∧
    AssetsParse Demo.W Demo.stR (Demo.S "v") ∧ Demo.E.indexIO Demo.stR.clock = .ok := by
  have hh : ∀ r ∈ [Demo.S "u", Demo.S "v"], Has Demo.stR r (Demo.S "a-1.eopkg") := by
    intro r hr
    simp only [List.mem_cons, List.not_mem_nil, or_false] at hr
    rcases hr with rfl | rfl
    · exact ⟨Demo.S "a", ((Demo.stR.db.ents (Demo.S "u")).get (Demo.S "a")).get (by decide +kernel), by decide +kernel, by decide +kernel⟩
    · exact ⟨Demo.S "a", ((Demo.stR.db.ents (Demo.S "v")).get (Demo.S "a")).get (by decide +kernel), by decide +kernel, by decide +kernel⟩
  have hv : Repo Demo.stR (Demo.S "v") := by unfold Repo; decide +kernel
  have hno : ∀ a, Demo.stR.fs.read (.asset (Demo.S "v") a) = none := by intro a; cases a <;> decide +kernel
  refine ⟨Demo.carefulR, by decide +kernel, hh, ⟨hv, Demo.S "a-1.eopkg", hh _ (by simp), ?_⟩, hv, ⟨?_, ?_, ?_⟩, by decide +kernel⟩
  · unfold FromSource; decide +kernel
  · intro c hc; rw [hno] at hc; cases hc
  · intro c hc; rw [hno] at hc; cases hc
  · intro c hc; rw [hno] at hc; cases hc

/-- The condition on removals is needed: after the removal from "u" was cut short and run again, "v" lists `a-2`, the pool does not have it, and indexing
"v" fails. -/
theorem C116_needs_whole_removals :
    Wild Demo.W Demo.st8' ∧ Has Demo.st8' (Demo.S "v") (Demo.S "a-2.eopkg") ∧ ¬ InPool Demo.st8' (Demo.S "a-2.eopkg") ∧
    (mIndex Demo.E (Demo.S "v") Demo.st8').res ≠ .ok () := by
  refine ⟨Demo.wild8.job Demo.job8 trivial, ?_, ?_, ?_⟩
  · exact ⟨Demo.S "a", ((Demo.st8'.db.ents (Demo.S "v")).get (Demo.S "a")).get (by decide +kernel), by decide +kernel, by decide +kernel⟩
  · rintro ⟨pe, hpe⟩
    have : Demo.st8'.db.pool.get (Demo.S "a-2.eopkg") = none := by decide +kernel
    rw [this] at hpe; cases hpe
  · decide +kernel

end Ferryd
