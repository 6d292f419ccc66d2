import Verif.PropsCore3
import Verif.CoreFrame
/-!
# CoreRepeat: a job that has succeeded and is run once more

Supports C133.  The daemon runs a job again when it was stopped after the job's last effect and before its record was
retired (jobs/store.go:140-149 `UnclaimSequential`, `UnclaimAsync`, jobs/worker.go:140-204).
-/
namespace Ferryd
open Spec

/-- Nothing a client can see differs: the database, what can be read from every file, the published indexes. (No code:
specification.) -/
structure Unchanged (s t : St) : Prop where
  db : t.db = s.db
  read : t.fs.read = s.fs.read
  idx : t.fs.idx = s.fs.idx

section
variable {W : World} {s s' : St} {r : Str}

theorem Unchanged.refl (s : St) : Unchanged s s := ⟨rfl, rfl, rfl⟩
theorem Unchanged.trans {a b c : St} (h : Unchanged a b) (k : Unchanged b c) : Unchanged a c :=
  ⟨k.db.trans h.db, k.read.trans h.read, k.idx.trans h.idx⟩
theorem SameObs.unchanged (h : SameObs s s') : Unchanged s s' := ⟨h.db, h.read, h.idx⟩

theorem World.fresh_congr (hdb : s'.db = s.db) (hrd : s'.fs.read = s.fs.read) (hidx : s'.fs.idx r = s.fs.idx r)
    (h : W.Fresh s r) : W.Fresh s' r := by
  obtain ⟨d, h1, h2, h3⟩ := h
  exact ⟨d, by rw [World.distOf_congr hrd]; exact h1, by rw [World.compsOk_congr hrd]; exact h2,
    by rw [World.docOf_congr hdb hrd, hidx]; exact h3⟩

theorem Unchanged.fresh (h : Unchanged s s') (hf : W.Fresh s r) : W.Fresh s' r :=
  World.fresh_congr h.db h.read (by rw [h.idx]) hf

theorem mIndex_same (ok : W.OK) (h : Inv W s) (hr : r ∈ s.db.repos.keys) (hf : W.Fresh s r) :
    Unchanged s (mIndex W.E r s).st :=
  ⟨(mIndex_run ok h hr).neutral.db, (mIndex_run ok h hr).neutral.read, mIndex_idle ok h hr hf⟩

theorem forL_idle {α : Type} {l : List α} {f : α → M Unit} {s : St} (h : ∀ x ∈ l, f x s = ⟨.ok (), s, []⟩) :
    forL l f s = ⟨.ok (), s, []⟩ := by
  induction l with
  | nil => rfl
  | cons x l ih => rw [forL_cons, bind_ok (h x (by simp)), ih fun y hy => h y (by simp [hy])]; rfl

/-- Importing files whose packages the repository already lists does nothing but index. -/
theorem addPackages_idle (ok : W.OK) (h : Inv W s) (hr : r ∈ s.db.repos.keys) {files : List Str}
    (himp : ∀ f ∈ files, W.Importable s f) (hh : ∀ f ∈ files, s.has r (baseName f) = true) (hf : W.Fresh s r) :
    Unchanged s (mAddPackages W.E r files false s).st := by
  obtain ⟨t0, hg, _⟩ := getRepo_run h hr
  have hgi : Inv W (s.got r) := h.got hr
  have hu : Unchanged s (s.got r) := (SameObs.got s r).unchanged
  have hl : forL files (fun f => addPackage W.E r (.ext f) false) (s.got r) = ⟨.ok (), s.got r, []⟩ := by
    refine forL_idle fun f hf => ?_
    have hi := himp f hf
    rcases openPkg_run (p := .ext f) hgi ok rfl with ⟨ho, hx⟩ | ⟨ho, c, hx, hb⟩ | ⟨ho, hx, hp⟩
    · rw [hu.read, hi.1] at hx; cases hx
    · rw [hu.read, hi.1] at hx; cases hx
      have := hi.2
      unfold World.IsPkg at this; rw [hb] at this; cases this
    · unfold addPackage
      rw [bind_ok ho]
      simp only [Path.base, Bool.not_false, if_true, Out.pre_nil]
      exact addLocalPackage_old ok hgi hi.2 (by rw [St.has_congr (s.got_db r)]; exact hh f hf)
  have hrun : mAddPackages W.E r files false s = ((mIndex W.E r (s.got r)).pre []).pre t0 := by
    unfold mAddPackages; rw [bind_ok hg, bind_ok hl]
  rw [hrun]
  exact hu.trans (mIndex_same ok hgi (by simpa using hr) (hu.fresh hf))

/-- A strict import of files whose packages the repository already lists is refused at the first file, or only indexes. -/
theorem addPackagesStrict_idle (ok : W.OK) (h : Inv W s) (hr : r ∈ s.db.repos.keys) {files : List Str}
    (hnd : ∀ f ∈ files, W.isDelta (baseName f) = false)
    (hh : ∀ f ∈ files, s.has r (baseName f) = true) (hf : W.Fresh s r) :
    Unchanged s (mAddPackages W.E r files true s).st := by
  obtain ⟨t0, hg, _⟩ := getRepo_run h hr
  have hgi : Inv W (s.got r) := h.got hr
  have hu : Unchanged s (s.got r) := (SameObs.got s r).unchanged
  cases files with
  | nil =>
    have hrun : mAddPackages W.E r [] true s = ((mIndex W.E r (s.got r)).pre []).pre t0 := by
      unfold mAddPackages; rw [bind_ok hg]; rfl
    rw [hrun]
    exact hu.trans (mIndex_same ok hgi (by simpa using hr) (hu.fresh hf))
  | cons f fs =>
    rcases addPackageStrict_run ok hgi (by simpa using hr) f (hnd f (by simp)) with ⟨_, hx, _⟩ | ⟨_, e, hrun⟩
    · rw [newerThanTip_iff hgi] at hx
      have := hx (baseName f) (by rw [St.has_congr (s.got_db r)]; exact hh f (by simp)) rfl
      omega
    · have : mAddPackages W.E r (f :: fs) true s = (⟨.err e, s.got r, []⟩ : Out Unit).pre t0 := by
        unfold mAddPackages; rw [bind_ok hg, forL_cons, bind_assoc_run, bind_err hrun]
      rw [this]
      exact hu

/-- Copying packages the destination already lists does nothing but (perhaps) index. -/
theorem copySource_idle (ok : W.OK) (h : Inv W s) {src dst : Str} (hs : src ∈ s.db.repos.keys)
    (hd : dst ∈ s.db.repos.keys) (source : Str) (release : Int) (skip : Bool)
    (hh : ∀ j ∈ (s.ids src).filter (W.matchesSrc source release), s.has dst j = true)
    (hf : skip = true → W.Fresh s dst) :
    Unchanged s (mCopySource W.E src dst source release skip s).st := by
  obtain ⟨t0, hg, ht0⟩ := getRepo_run h hs
  have hgi : Inv W (s.got src) := h.got hs
  obtain ⟨t1, hg1, ht1⟩ := getRepo_run (r := dst) hgi (by simpa using hd)
  have hgi1 : Inv W ((s.got src).got dst) := hgi.got (by simpa using hd)
  have hu : Unchanged s ((s.got src).got dst) :=
    (SameObs.got s src).unchanged.trans (SameObs.got _ dst).unchanged
  have hms := matchingSource_run (r := src) ok hgi1 source release
  rw [Inv.ids_got, Inv.ids_got] at hms
  have hl : forL ((s.ids src).filter (W.matchesSrc source release)) (refPackage W.E dst) ((s.got src).got dst) =
      ⟨.ok (), (s.got src).got dst, []⟩ :=
    forL_idle fun j hj => refPackage_old ok hgi1 (by rw [St.has_congr hu.db]; exact hh j hj)
  by_cases hne : (s.ids src).filter (W.matchesSrc source release) = []
  · obtain ⟨tr, hx, _⟩ := mCopySource_none ok h hs hd source release skip hne
    rw [hx]; exact hu
  · have hcopy : copySourceFrom W.E dst src source release ((s.got src).got dst) =
        ⟨.ok (), (s.got src).got dst, []⟩ := by
      unfold copySourceFrom
      rw [bind_ok hms, Out.pre_nil, if_neg (by simpa using hne), hl]
    cases skip with
    | false =>
      have : mCopySource W.E src dst source release false s =
          (((⟨.ok (), (s.got src).got dst, []⟩ : Out Unit).pre []).pre t1).pre t0 := by
        unfold mCopySource
        rw [bind_ok hg, bind_ok hg1, bind_ok hcopy]; rfl
      rw [this]; exact hu
    | true =>
      have : mCopySource W.E src dst source release true s =
          (((mIndex W.E dst ((s.got src).got dst)).pre []).pre t1).pre t0 := by
        unfold mCopySource
        rw [bind_ok hg, bind_ok hg1, bind_ok hcopy]; rfl
      rw [this]
      exact hu.trans (mIndex_same ok hgi1 (by simpa using hd) (hu.fresh (hf rfl)))

/-- Pulling when the destination already has every tip and the same assets does nothing but index. -/
theorem pull_idle (ok : W.OK) (h : Inv W s) {src dst : Str} (hs : src ∈ s.db.repos.keys)
    (hd : dst ∈ s.db.repos.keys) (hc : ¬ W.Conflict s dst src) (htodo : W.pullTodo s dst src = [])
    (hass : dst ≠ src → ∀ a c, s.fs.read (.asset src a) = some c → s.fs.read (.asset dst a) = some c)
    (hself : dst = src → ∀ a c, s.fs.read (.asset dst a) = some c → c = [])
    (hf : W.Fresh s dst) :
    Unchanged s (mPullRepo W.E src dst s).st := by
  obtain ⟨t0, hg, ht0⟩ := getRepo_run h hs
  have hgi : Inv W (s.got src) := h.got hs
  obtain ⟨t1, hg1, ht1⟩ := getRepo_run (r := dst) hgi (by simpa using hd)
  have hgi1 : Inv W ((s.got src).got dst) := hgi.got (by simpa using hd)
  have hu : Unchanged s ((s.got src).got dst) :=
    (SameObs.got s src).unchanged.trans (SameObs.got _ dst).unchanged
  obtain ⟨s2, t2, hrun2, hA, _, hcopy⟩ := pullAssets_run (W := W) hgi1.fs dst src
  have hi2 : Inv W s2 := hA.inv hgi1
  have hdb2 : s2.db = s.db := by rw [hA.db]; simp
  have hrd2 : s2.fs.read = s.fs.read := by
    funext p
    by_cases hp : ∀ a, p ≠ .asset dst a
    · rw [hA.read p hp]; simp
    · obtain ⟨a, rfl⟩ : ∃ a, p = .asset dst a := by
        apply Classical.byContradiction
        exact fun hx => hp fun a e => hx ⟨a, e⟩
      by_cases he : dst = src
      · subst he
        rw [pullAssets_self hgi1.fs hrun2, hu.read]
        cases hx : s.fs.read (.asset dst a) with
        | none => rfl
        | some c => rw [hself rfl a c hx]; rfl
      · rw [hcopy he a, hu.read]
        cases hx : s.fs.read (.asset src a) with
        | none => rfl
        | some c => rw [hass he a c hx]
  have hu2 : Unchanged s s2 := ⟨hdb2, hrd2, by rw [hA.idx]; simp⟩
  have hscan : collectL ((s2.db.ents src).map Prod.snd) (pullOne dst) s2 = ⟨.ok [], s2, []⟩ := by
    have := collectL_scan (l := (s2.db.ents src).map Prod.snd) (f := pullOne dst) (g := W.pullSel s2 dst)
      (e := .inconsistent) (s := s2) (fun e he => by
        rw [pullOne_run (dst := dst) ok hi2 (mem_entries hi2 src he)]
        cases W.pullSel s2 dst e <;> rfl)
    rw [this, if_pos (by rw [not_conflict_iff hi2, World.conflict_congr hdb2]; exact hc)]
    have h2 : W.pullTodo s2 dst src = [] := by rw [World.pullTodo_congr hdb2]; exact htodo
    unfold World.pullTodo at h2
    rw [h2]
  have hpf : pullFrom W.E dst src ((s.got src).got dst) = ⟨.ok [], s2, t2⟩ := by
    unfold pullFrom
    rw [bind_ok hrun2, repoEntries_bind]
    refine (congrArg (Out.pre t2) ((bind_ok hscan).trans (c := (⟨.ok [], s2, []⟩ : Out (List Str))) ?_)).trans ?_
    · rfl
    · simp
  have hm := mIndex_run (r := dst) ok hi2 (by rw [hdb2]; exact hd)
  have hm2 := mIndex_same (r := dst) ok hi2 (by rw [hdb2]; exact hd) (hu2.fresh hf)
  have hst : (mPullRepo W.E src dst s).st = (mIndex W.E dst s2).st := by
    unfold mPullRepo
    rw [bind_ok hg, bind_ok hg1, bind_ok hpf]
    cases hx : mIndex W.E dst s2 with
    | mk res s4 t4 =>
      cases res with
      | ok u => rw [bind_ok hx]; rfl
      | err e => rw [bind_err hx]; rfl
      | panic => exact absurd (by rw [hx]) hm.noPanic
  rw [hst]
  exact hu2.trans hm2

end
end Ferryd
