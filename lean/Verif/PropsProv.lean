import Verif.CoreProv
import Verif.PropsSafe
import Verif.PropsLeak
/-!
# PropsProv: the published release never falls (C140); where listed packages come from (C141); additions only add (C142)
-/
namespace Ferryd
open Spec
variable {W : World} {s : St}

/-- What is written into a file half way changes nothing in the database. -/
theorem Half.db {o : Op} {t u : St} (h : Half W o t u) : u.db = t.db := by cases h <;> rfl

theorem Moment.within (ok : W.OK) {o : Op} {u : St} (hm : Moment W o s u) (hr : Rough W s) :
    Within (fun r x => Has s r x ∨ Brings W s o r x) u := by
  obtain ⟨t, ht, hu⟩ := hm
  have := (o.within ok hr).tr t ht
  exact ⟨by rw [hu.db]; exact this.ents⟩

theorem Moment.rises (ok : W.OK) (hz : W.NoTorn) {F : Prop} {o : Op} {u : St} (ho : o.Ok W) (hn : o.takes = false) (hm : Moment W o s u) (hr : Rough W s)
    (hs : F → Safe W s.db) : Rises W F s.db u := by
  obtain ⟨t, ht, hu⟩ := hm
  have := (o.rises (F := F) ok hz ho hn hr hs).tr t ht
  exact ⟨by rw [hu.db]; exact this.ents⟩

theorem rises_at (ok : W.OK) (hz : W.NoTorn) {F : Prop} {o : Op} (u : St) (hu : Moment W o s u ∨ u = o.exec W.E s) (ho : o.Ok W) (hn : o.takes = false)
    (hr : Rough W s) (hs : F → Safe W s.db) : Rises W F s.db u := by
  rcases hu with hm | rfl
  · exact hm.rises ok hz ho hn hr hs
  · exact (o.rises (F := F) ok hz ho hn hr hs).fin

/-! ## C140 -/

/-- C140 at full strength: after any history of jobs, crashes and I/O errors, a job that does not take packages out of a repository never lowers the
release the repository publishes under a name, at its end or at any moment of it. -/
def C140_statement : Prop := ∀ (W : World) (s : St), W.OK → W.NoTorn → Wild W s → ∀ (o : Op), o.Ok W → ∀ (r : Str), (o.takes = true → o.target ≠ some r) →
  ∀ (u : St), Moment W o s u ∨ u = o.exec W.E s → ∀ (n x : Str), Tip s r n x → ∃ y, Tip u r n y ∧ relOf W x ≤ relOf W y

/-- C140 is false of the code after a removal that was cut short and run again (the history of `C115_violated`): importing release 1 into "v", which
publishes release 2, makes it publish release 1, because the pool record of release 2 has gone (repo.go:633-651). -/
theorem C140_violated : ¬ C140_statement := by
  intro h
  have ht : Tip Demo.st8' (Demo.S "v") (Demo.S "a") (Demo.S "a-2.eopkg") :=
    ⟨((Demo.st8'.db.ents (Demo.S "v")).get (Demo.S "a")).get (by decide +kernel), by decide +kernel, by decide +kernel⟩
  obtain ⟨y, ⟨e, he, hy⟩, hle⟩ := h Demo.W Demo.st8' Demo.ok Demo.noTorn (Demo.wild8.job Demo.job8 trivial) Demo.job9
    (show ∀ f ∈ [Demo.S "/up/a-1.eopkg"], Demo.W.isDelta (baseName f) = false by decide +kernel) (Demo.S "v") (fun h => by cases h) Demo.st9 (.inr rfl) _ _ ht
  have hp : ((Demo.st9.db.ents (Demo.S "v")).get (Demo.S "a")).map RepoEntry.published = some (Demo.S "a-1.eopkg") := by decide +kernel
  rw [he] at hp
  have : y = Demo.S "a-1.eopkg" := by rw [← hy]; simpa using hp
  subst this
  revert hle; decide +kernel

/-- C140, for histories in which jobs that remove packages from existing repositories were not cut short (all others may be, any number of times, by
crashes and by I/O errors): a job that does not take packages out of a repository never lowers the release published there under a name, at any of its
moments (so also if it is cut short there) or at its end.  Missing: histories with a cut removal, where it is false (`C140_violated`). -/
theorem C140_no_downgrade_partial (ok : W.OK) (hz : W.NoTorn) (h : Careful W s) (o : Op) (ho : o.Ok W) (r : Str) (hr : o.takes = true → o.target ≠ some r)
    (u : St) (hu : Moment W o s u ∨ u = o.exec W.E s) (n x : Str) (ht : Tip s r n x) : ∃ y, Tip u r n y ∧ relOf W x ≤ relOf W y := by
  cases hn : o.takes with
  | true => exact ⟨x, ((C108_isolation ok hz h.wild o ho r (hr hn) u hu).2.2.1 n x).2 ht, Int.le_refl _⟩
  | false =>
    have k := rises_at (F := True) ok hz u hu ho hn (h.wild.rough ok hz) (fun _ => h.safe ok hz)
    obtain ⟨e, he, rfl⟩ := ht
    obtain ⟨e', h1, _, h3⟩ := k.ents r n e he
    exact ⟨_, ⟨e', h1, rfl⟩, h3 trivial⟩

/-- An import of both releases of "a" into "v", newest first. -/
def Demo.job140 : Op := .addPackages (Demo.S "v") [Demo.S "/up/a-2.eopkg", Demo.S "/up/a-1.eopkg"] false

def Demo.st140 : St := (Demo.upload "/up/a-2.eopkg").exec Demo.E Demo.stR

/-- Not vacuous: after a crash in the middle of an import and its repetition, "v" publishes release 1 of "a"; importing both releases in one job
(newest first) raises it to 2. -/
example : Careful Demo.W Demo.st140 ∧ Demo.job140.Ok Demo.W ∧ Tip Demo.st140 (Demo.S "v") (Demo.S "a") (Demo.S "a-1.eopkg") ∧
    Tip (Demo.job140.exec Demo.E Demo.st140) (Demo.S "v") (Demo.S "a") (Demo.S "a-2.eopkg") :=
  ⟨Demo.carefulR.job _ (Demo.upload_ok _), show ∀ f ∈ [Demo.S "/up/a-2.eopkg", Demo.S "/up/a-1.eopkg"], Demo.W.isDelta (baseName f) = false by decide +kernel,
    ⟨((Demo.st140.db.ents (Demo.S "v")).get (Demo.S "a")).get (by decide +kernel), by decide +kernel, by decide +kernel⟩,
    ⟨(((Demo.job140.exec Demo.E Demo.st140).db.ents (Demo.S "v")).get (Demo.S "a")).get (by decide +kernel), by decide +kernel, by decide +kernel⟩⟩

/-! ## C141 -/

/-- C141: after any history of jobs, crashes and I/O errors, what a repository lists at any moment of a job, or after it, it listed before the job, or the
job is an import into it of a file of that name, or a clone of / pull from / copy from a repository that listed it before the job (a clone that is not
full and a pull: published it; a copy: it is of the source and release asked for). -/
theorem C141_provenance (ok : W.OK) (hz : W.NoTorn) (h : Wild W s) (o : Op) (u : St) (hu : Moment W o s u ∨ u = o.exec W.E s) (r x : Str)
    (hx : Has u r x) : Has s r x ∨ Brings W s o r x := by
  have k : Within (fun r x => Has s r x ∨ Brings W s o r x) u := by
    rcases hu with hm | rfl
    · exact hm.within ok (h.rough ok hz)
    · exact (o.within ok (h.rough ok hz)).fin
  obtain ⟨n, e, he, hx⟩ := hx
  exact k.ents r n e he x hx

/-- Histories as `Wild`, with the jobs on record, newest first, whether they ended or were cut short. (No code: a notion of the statements.) -/
inductive Ran (W : World) : List Op → St → Prop
  | init : Ran W [] St.init
  | job {l : List Op} {s : St} (h : Ran W l s) (o : Op) (ho : o.Ok W) : Ran W (o :: l) (o.exec W.E s)
  | dies {l : List Op} {s u : St} (h : Ran W l s) (o : Op) (ho : o.Ok W) (hm : Moment W o s u) : Ran W (o :: l) u.crash
  | fails {l : List Op} {s u : St} (h : Ran W l s) (o : Op) (ho : o.Ok W) (hm : Moment W o s u) : Ran W (o :: l) { u with pend := [] }

/-- How package `x` may have come into repository `r`, by the jobs of the list (newest first). (No code: a notion of the statements.) -/
inductive Spec.Came (W : World) : List Op → Str → Str → Prop
  | earlier {l : List Op} {r x : Str} (o : Op) (h : Came W l r x) : Came W (o :: l) r x
  | imported {l : List Op} {r f : Str} {fs : List Str} {st : Bool} (hf : f ∈ fs) : Came W (.addPackages r fs st :: l) r (baseName f)
  | cloned {l : List Op} {a r x : Str} {full : Bool} (h : Came W l a x) : Came W (.clone a r full :: l) r x
  | pulled {l : List Op} {a r x : Str} (h : Came W l a x) : Came W (.pull a r :: l) r x
  | copied {l : List Op} {a r x src : Str} {rel : Int} {sk : Bool} (h : Came W l a x) (hs : FromSource W src rel x) :
      Came W (.copySource a r src rel sk :: l) r x

theorem Ran.wild {l : List Op} (h : Ran W l s) : Wild W s := by
  induction h with
  | init => exact .init
  | job _ o ho ih => exact ih.job o ho
  | dies _ o ho hm ih => exact ih.dies o ho hm
  | fails _ o ho hm ih => exact ih.fails o ho hm

/-- Every history is such a one. -/
theorem Wild.ran (h : Wild W s) : ∃ l, Ran W l s := by
  induction h with
  | init => exact ⟨[], .init⟩
  | job _ o ho ih => obtain ⟨l, hl⟩ := ih; exact ⟨_, hl.job o ho⟩
  | dies _ o ho hm ih => obtain ⟨l, hl⟩ := ih; exact ⟨_, hl.dies o ho hm⟩
  | fails _ o ho hm ih => obtain ⟨l, hl⟩ := ih; exact ⟨_, hl.fails o ho hm⟩

theorem came_of_brings {l : List Op} {s : St} (ih : ∀ r x, Has s r x → Came W l r x) (o : Op) {r x : Str} (h : Has s r x ∨ Brings W s o r x)
    (hr : Rough W s) : Came W (o :: l) r x := by
  have tip : ∀ {a : Str}, (∃ n, Tip s a n x) → Has s a x := by
    rintro a ⟨n, e, he, rfl⟩
    exact ⟨n, e, he, (hr.db.ent a n e he).pub⟩
  rcases h with h | h
  · exact .earlier o (ih r x h)
  · cases o <;> first | exact h.elim | skip
    case clone a b full =>
      obtain ⟨rfl, h⟩ := h
      refine .cloned (ih a x ?_)
      cases full with
      | true => exact h
      | false => exact tip h
    case pull a b => obtain ⟨rfl, h⟩ := h; exact .pulled (ih a x (tip h))
    case copySource a b src rel sk => obtain ⟨rfl, h1, h2⟩ := h; exact .copied (ih a x h1) h2
    case addPackages b fs st => obtain ⟨rfl, f, hf, rfl⟩ := h; exact .imported hf

/-- C141, over whole histories: a package a repository lists was once imported under its name, and got where it is by clones, pulls and copies of the
history, each of them run when the package was (by the same rule) in its source. -/
theorem C141_origin (ok : W.OK) (hz : W.NoTorn) {l : List Op} (h : Ran W l s) (r x : Str) (hx : Has s r x) : Came W l r x := by
  induction h generalizing r x with
  | init => obtain ⟨n, e, he, _⟩ := hx; simp [St.init] at he
  | job h o ho ih => exact came_of_brings ih o (C141_provenance ok hz h.wild o _ (.inr rfl) r x hx) (h.wild.rough ok hz)
  | dies h o ho hm ih => exact came_of_brings ih o (C141_provenance ok hz h.wild o _ (.inl hm) r x hx) (h.wild.rough ok hz)
  | fails h o ho hm ih => exact came_of_brings ih o (C141_provenance ok hz h.wild o _ (.inl hm) r x hx) (h.wild.rough ok hz)

/-- C141: in particular nothing is ever listed that was not named in an import of the history. -/
theorem C141_imported (ok : W.OK) (hz : W.NoTorn) {l : List Op} (h : Ran W l s) (r x : Str) (hx : Has s r x) :
    ∃ r' fs st, Op.addPackages r' fs st ∈ l ∧ ∃ f ∈ fs, baseName f = x := by
  have := C141_origin ok hz h r x hx
  clear hx h
  induction this with
  | earlier o _ ih => obtain ⟨r', fs, st, h1, h2⟩ := ih; exact ⟨r', fs, st, List.mem_cons_of_mem _ h1, h2⟩
  | imported hf => exact ⟨_, _, _, List.mem_cons_self, _, hf, rfl⟩
  | cloned _ ih => obtain ⟨r', fs, st, h1, h2⟩ := ih; exact ⟨r', fs, st, List.mem_cons_of_mem _ h1, h2⟩
  | pulled _ ih => obtain ⟨r', fs, st, h1, h2⟩ := ih; exact ⟨r', fs, st, List.mem_cons_of_mem _ h1, h2⟩
  | copied _ _ ih => obtain ⟨r', fs, st, h1, h2⟩ := ih; exact ⟨r', fs, st, List.mem_cons_of_mem _ h1, h2⟩

/-- Not vacuous: a history with a crash in it, after which "v" lists a package. -/
example : (∃ l, Ran Demo.W l Demo.stR) ∧ Has Demo.stR (Demo.S "v") (Demo.S "a-1.eopkg") :=
  ⟨Demo.wildR.ran, Demo.S "a", ((Demo.stR.db.ents (Demo.S "v")).get (Demo.S "a")).get (by decide +kernel), by decide +kernel, by decide +kernel⟩

/-! ## C142 -/

/-- C142: after any history of jobs, crashes and I/O errors, a job that does not take packages out of a repository keeps all its listings, at every one of
its moments and at its end; and what it publishes names for it goes on publishing something for. -/
theorem C142_additions_keep (ok : W.OK) (hz : W.NoTorn) (h : Wild W s) (o : Op) (ho : o.Ok W) (r : Str) (hr : o.takes = true → o.target ≠ some r)
    (u : St) (hu : Moment W o s u ∨ u = o.exec W.E s) (n : Str) :
    (∀ x, Lists s r n x → Lists u r n x) ∧ ((∃ x, Tip s r n x) → ∃ y, Tip u r n y) := by
  cases hn : o.takes with
  | true =>
    have k := C108_isolation ok hz h o ho r (hr hn) u hu
    exact ⟨fun x => (k.2.1 n x).2, fun ⟨x, hx⟩ => ⟨x, (k.2.2.1 n x).2 hx⟩⟩
  | false =>
    have k := rises_at (F := False) ok hz u hu ho hn (h.rough ok hz) (fun h => h.elim)
    refine ⟨fun x ⟨e, he, hx⟩ => ?_, fun ⟨x, e, he, _⟩ => ?_⟩
    · obtain ⟨e', h1, h2, _⟩ := k.ents r n e he
      exact ⟨e', h1, h2 x hx⟩
    · obtain ⟨e', h1, _⟩ := k.ents r n e he
      exact ⟨_, e', h1, rfl⟩

/-- Not vacuous: the history of `C140_violated`; both listings of "v" are kept there. -/
example : Wild Demo.W Demo.st8' ∧ Demo.job9.takes = false ∧ Lists Demo.st8' (Demo.S "v") (Demo.S "a") (Demo.S "a-2.eopkg") ∧
    Demo.st9.availOf (Demo.S "v") (Demo.S "a") = [Demo.S "a-1.eopkg", Demo.S "a-2.eopkg"] :=
  ⟨Demo.wild8.job Demo.job8 trivial, rfl, ⟨((Demo.st8'.db.ents (Demo.S "v")).get (Demo.S "a")).get (by decide +kernel), by decide +kernel, by decide +kernel⟩,
    by decide +kernel⟩

end Ferryd
