import Verif.CoreLax
import Verif.Demo2
/-!
# PropsLax: the catalogue stays well formed, whatever the files contain (C147), and no job panics (C72)

Nothing is assumed of the outside world: uploads may carry any bytes under any name, files may change behind the daemon's back at any time, jobs may be cut
short anywhere, and the jobs may be asked for anything.
-/
namespace Ferryd
open Spec

/-- Histories of the requests in `A` in which anything may happen to the files at any time.
(No code: a notion of the statements; the jobs are those of core/api.go:29-269.) -/
inductive Freely (E : Env) (A : Op → Prop) : St → Prop
  | init : Freely E A St.init
  /-- a job runs to its end, successful or not -/
  | job {s : St} (h : Freely E A s) (o : Op) (ho : A o) : Freely E A (o.exec E s)
  /-- the daemon dies during a job and is started again on whatever files are then there -/
  | dies {s t : St} (h : Freely E A s) (o : Op) (ho : A o) (ht : t ∈ (o.run E s).tr) (g : FS) : Freely E A (t.setFs g).crash
  /-- an I/O error ends the job: an open batch is dropped (libdb/leveldb.go:178-193) -/
  | fails {s t : St} (h : Freely E A s) (o : Op) (ho : A o) (ht : t ∈ (o.run E s).tr) : Freely E A { t with pend := [] }
  /-- the files change behind the daemon's back -/
  | files {s : St} (h : Freely E A s) (g : FS) : Freely E A (s.setFs g)

theorem Freely.fits {E : Env} {A : Op → Prop} {s : St} (h : Freely E A s) (D : Str → Prop) (F : Prop) (hA : F → ∀ o, A o → o.apart D) : Fit ⟨E, D, F⟩ s := by
  have key : ∀ o, A o → Fits ⟨E, D, F⟩ (o.run E) (fun _ => True) := fun o ho => Op.fit o fun hf => hA hf o ho
  induction h with
  | init => exact fit_init _
  | job _ o ho ih => exact ((key o ho).run _ ih).fin
  | dies _ o ho ht g ih => exact ((((key o ho).run _ ih).tr _ ht).setFs g).crash
  | fails _ o ho ht ih => exact (((key o ho).run _ ih).tr _ ht).congr rfl (.inr rfl)
  | files _ g ih => exact ih.setFs g

theorem Freely.fit {E : Env} {A : Op → Prop} {s : St} (h : Freely E A s) : Fit ⟨E, fun _ => False, False⟩ s := h.fits _ _ fun hf => hf.elim

/-- Any request at all. (No code: a notion of the statements.) -/
def Any (_ : Op) : Prop := True

/-- C147, the full statement: a name that a repository shows has its published package among those listed. -/
def C147_statement : Prop := ∀ (E : Env) (s : St), Freely E Any s → ∀ r n p, Tip s r n p → Lists s r n p

/-- C147: a name that a repository shows has its published package among those listed, after every history, whatever the files contain, provided that
every package that can be read has a positive release.  Missing: packages with release zero or less (`C147_violated`). -/
theorem C147_published_partial {E : Env} (hE : E.Pos) {s : St} (h : Freely E Any s) {r n p : Str} (ht : Tip s r n p) : Lists s r n p := by
  obtain ⟨e, he, rfl⟩ := ht
  exact ⟨e, he, (h.fit.ent he).pub hE⟩

/-- C147: in the same histories, without any condition on the packages, no name is shown with nothing listed under it; the listing of a name is in order
and shows nothing twice, nor do its deltas; and the pool shows nothing with no references. -/
theorem C147_shape {E : Env} {s : St} (h : Freely E Any s) :
    (∀ r n p, Tip s r n p → ∃ id, Lists s r n id) ∧
    (∀ r n e, (s.db.ents r).get n = some e → e.name = n ∧ SortedS e.available ∧ e.available.Nodup ∧ SortedS e.deltas ∧ e.deltas.Nodup) ∧
    (∀ id k, Count s id k → 1 ≤ k) := by
  refine ⟨fun r n p ht => ?_, fun r n e he => ?_, fun id k hk => ?_⟩
  · obtain ⟨e, he, _⟩ := ht
    obtain ⟨x, hx⟩ := List.exists_mem_of_ne_nil _ (h.fit.ent he).some
    exact ⟨x, e, he, hx⟩
  · have := h.fit.ent he
    exact ⟨this.name, this.sorted, this.nodup, this.dsorted, this.dnodup⟩
  · obtain ⟨pe, hp, rfl⟩ := hk
    exact (h.fit.pool id pe hp).count

namespace Demo

/-- The demo environment, but the file with content 1 has release 0. -/
def E0 : Env := { E with parse := fun c => if c = [1] then .good (mk "a" "a" 0) else E.parse c }

/-- The releases 0 and 2 of "a" are imported, then release 2 is removed. -/
def st0 : St := runAll E0 St.init [.create (S "u"), .upload (S "/up/a-1.eopkg") [1], .upload (S "/up/a-2.eopkg") [2],
  .addPackages (S "u") [S "/up/a-1.eopkg", S "/up/a-2.eopkg"] false, .removeSource (S "u") (S "a") 2]

theorem freely0 : Freely E0 Any st0 := ((((Freely.init.job _ trivial).job _ trivial).job _ trivial).job _ trivial).job _ trivial

end Demo

/-- C147 fails: after the removal of release 2, release 0 is still listed but nothing is published, because the search for the highest release starts at
zero and demands more (core/repo.go:502, 560-563). -/
theorem C147_violated : ¬ C147_statement := by
  intro h
  have key : (match (Demo.st0.db.ents (Demo.S "u")).get (Demo.S "a") with
      | some e => e.available == [Demo.S "a-1.eopkg"] && e.published == []
      | none => false) = true := by decide +kernel
  cases hg : (Demo.st0.db.ents (Demo.S "u")).get (Demo.S "a") with
  | none => rw [hg] at key; cases key
  | some e =>
    rw [hg] at key
    simp only [Bool.and_eq_true, beq_iff_eq] at key
    obtain ⟨e', he', hm⟩ := h _ _ Demo.freely0 (Demo.S "u") (Demo.S "a") [] ⟨e, hg, key.2⟩
    rw [hg] at he'; cases he'
    rw [key.1] at hm
    revert hm; decide +kernel

/-- C147: worse, the repository can then not be indexed any more (core/repo_index.go:232, 257-261 looks up the published package of every name); the removal
itself already reports that failure. -/
theorem C147_violated_index : (mIndex Demo.E0 (Demo.S "u") Demo.st0).res = .err .notFound := by decide +kernel

/-- The demo world has positive releases, and its histories are among those considered. -/
example : Demo.E.Pos := by
  intro c m h
  have key : ∀ e ∈ Demo.table, 1 ≤ e.2.2.1.rel := by decide +kernel
  simp only [Demo.E] at h
  split at h
  · split at h
    · rename_i e he
      cases h
      exact key e (List.mem_of_find?_eq_some he)
    · cases h
  · cases h
/-- A history with a wrong upload, after which all files vanish: `a-2.eopkg` carries the bytes of `b-1.eopkg`. -/
example : ∃ s, Freely Demo.E Any s ∧ Tip s (Demo.S "u") (Demo.S "b") (Demo.S "a-2.eopkg") := by
  refine ⟨_, ((((Freely.init.job (.create (Demo.S "u")) trivial).job (.upload (Demo.S "/up/a-2.eopkg") [4]) trivial).job
    (.addPackages (Demo.S "u") [Demo.S "/up/a-2.eopkg"] false) trivial).files St.init.fs), ?_⟩
  refine ⟨⟨Demo.S "b", [Demo.S "a-2.eopkg"], Demo.S "a-2.eopkg", []⟩, ?_, rfl⟩
  decide +kernel

/-! ## C72 again: no panics, whatever the files contain -/

/-- C72, without any assumption on which bytes a file holds: if every readable package has a history and a source name and reading files does not panic,
no job panics, in any history of requests in which file names of deltas (`D`) and of packages are not confused, whatever happens to the files. -/
theorem C72_any_files {E : Env} (hE : E.Tame) (D : Str → Prop) {s : St} (h : Freely E (Op.apart D) s) (o : Op) (ho : o.apart D) :
    (o.run E s).res ≠ .panic :=
  (Op.fit (K := ⟨E, D, True⟩) o fun _ => ho).np trivial hE s (h.fits D True fun _ _ h => h)

/-- C72: that condition is needed.  A file with the name of a delta, imported as a package and then referenced as a delta, panics the removal of the package
(core/repo.go:529-534 uses the delta information, and there is none). -/
theorem C72_needs_apart : ∃ s, Freely Demo.E Any s ∧ ((Op.removeSource (Demo.S "u") (Demo.S "a") 1).run Demo.E s).res = .panic := by
  refine ⟨_, ((((Freely.init.job (.create (Demo.S "u")) trivial).job (.upload (Demo.S "/up/a-1.eopkg") [1]) trivial).job
    (.upload (Demo.S "/up/a-1-2.delta.eopkg") [8]) trivial).job (.addPackages (Demo.S "u") [Demo.S "/up/a-1.eopkg", Demo.S "/up/a-1-2.delta.eopkg"] false) trivial).job
    (.refDelta (Demo.S "u") (Demo.S "a-1-2.delta.eopkg")) trivial, ?_⟩
  decide +kernel

/-- The demo environment is tame, and a daemon that is given no delta jobs confuses nothing. -/
example : Demo.E.Tame := by
  have key : ∀ e ∈ Demo.table, e.2.2.1.history ≠ [] ∧ e.2.2.1.source ≠ [] := by decide +kernel
  have good : ∀ c m, Demo.E.parse c = .good m → ∃ e ∈ Demo.table, e.2.2.1 = m := by
    intro c m h
    simp only [Demo.E] at h
    split at h
    · split at h
      · rename_i e he
        cases h
        exact ⟨e, List.mem_of_find?_eq_some he, rfl⟩
      · cases h
    · cases h
  refine ⟨fun c h => ?_, fun c h => ?_, fun c h => ?_, fun c m h => ?_, fun c m h => ?_⟩
  · simp only [Demo.E] at h
    split at h
    · split at h <;> cases h
    · cases h
  · simp only [Demo.E] at h; split at h <;> cases h
  · simp only [Demo.E] at h; split at h <;> cases h
  · obtain ⟨e, he, rfl⟩ := good c m h; exact (key e he).1
  · obtain ⟨e, he, rfl⟩ := good c m h; exact (key e he).2
example : (Op.addPackages (Demo.S "u") [Demo.S "/up/a-1.eopkg"] true).apart (fun _ => False) := fun _ _ h => h

end Ferryd
