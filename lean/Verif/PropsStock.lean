import Verif.CoreStock2
import Verif.PropsSafe
import Verif.PropsWhole
/-!
# PropsStock: what is listed is served (C121)
-/
namespace Ferryd
open Spec
section
variable {W : World} {s : St} {α β : Type} {tgt : Option Str}

/-- Histories in which every job may be cut short anywhere, any number of times, by the death of the daemon or by an I/O error, except the jobs
that take packages away (delete, remove-source, the two trims): those come to their end, successful or not. -/
inductive Kept (W : World) : St → Prop
  | init : Kept W St.init
  | job {s : St} (h : Kept W s) (o : Op) (ho : o.Ok W) : Kept W (o.exec W.E s)
  | dies {s u : St} (h : Kept W s) (o : Op) (ho : o.Ok W) (hn : o.takes = false) (hm : Moment W o s u) : Kept W u.crash
  | fails {s u : St} (h : Kept W s) (o : Op) (ho : o.Ok W) (hn : o.takes = false) (hm : Moment W o s u) : Kept W { u with pend := [] }

theorem Op.removes_of_takes {o : Op} (h : o.takes = false) : o.removes = false := by cases o <;> first | rfl | cases h

theorem Kept.careful (h : Kept W s) : Careful W s := by
  induction h with
  | init => exact .init
  | job _ o ho ih => exact ih.job o ho
  | dies _ o ho hn hm ih => exact ih.dies o ho (o.removes_of_takes hn) hm
  | fails _ o ho hn hm ih => exact ih.fails o ho (o.removes_of_takes hn) hm

theorem Kept.wild (h : Kept W s) : Wild W s := h.careful.wild

theorem Reachable.kept (h : Reachable W s) : Kept W s := by
  obtain ⟨ops, hok, rfl⟩ := h
  have key : ∀ (ops : List Op) (s : St), (∀ o ∈ ops, o.Ok W) → Kept W s → Kept W (runAll W.E s ops) := by
    intro ops
    induction ops with
    | nil => intro s _ h; exact h
    | cons o ops ih => intro s ho h; exact ih _ (fun x hx => ho x (by simp [hx])) (h.job o (ho o (by simp)))
  exact key ops _ hok .init

theorem Half.stock {o : Op} {t u : St} (h : Half W o t u) (ht : Stocked W t) : Stocked W u := by
  cases h with
  | whole => exact ht
  | package p i c hp hi he hc => exact ht.fs (fun _ h => h)
  | asset r a i c hr hi => exact ht.fs (fun _ h => h)

theorem Moment.stock (ok : W.OK) (hz : W.NoTorn) {o : Op} (ho : o.Ok W) (hn : o.takes = false) {u : St} (h : Moment W o s u) (hr : Rough W s)
    (hs : Stocked W s) : Stocked W u := by
  obtain ⟨t, ht, hu⟩ := h
  exact hu.stock ((o.stock ok hz ho hn hr hs).tr t ht)

theorem Kept.end (ok : W.OK) (hz : W.NoTorn) (h : Kept W s) (hs : Stocked W s) (o : Op) (ho : o.Ok W) : Stocked W (o.exec W.E s) := by
  have hr := h.wild.rough ok hz
  cases hn : o.takes with
  | true => exact o.takes_stock ok hn hr (h.careful.safe ok hz) hs
  | false => exact (o.stock ok hz ho hn hr hs).fin

theorem Kept.stocked (ok : W.OK) (hz : W.NoTorn) (h : Kept W s) : Stocked W s := by
  induction h with
  | init => exact stocked_init W
  | job h o ho ih => exact h.end ok hz ih o ho
  | dies h o ho hn hm ih => exact (hm.stock ok hz ho hn (h.wild.rough ok hz) ih).crash
  | fails h o ho hn hm ih => exact (hm.stock ok hz ho hn (h.wild.rough ok hz) ih).dropPend

/-! ## C121 -/

/-- C121 at full strength: after any history of jobs, crashes and I/O errors, an import, pull, copy or clone that reports success leaves every
package it put into the listing of its repository served there. -/
def C121_statement : Prop := ∀ (W : World) (s : St) (o : Op) (r : Str), W.OK → W.NoTorn → Wild W s → o.Ok W → o.adds = true → o.target = some r →
  (o.run W.E s).res = .ok () → ∀ id, Has (o.exec W.E s) r id → ¬ Has s r id → ∃ c, ServedAs W (o.exec W.E s) r id c

/-- C121, what holds: as long as no delete, remove-source or trim is cut short, and however often any other job is, wherever: at every moment of
the next such job, and at the end of every job, successful or not, every package or delta a repository lists has its file there, and everything in
the pool has its pool file, each with a beginning of the uploaded bytes; and with all of them if no adding job was cut short either (deltas
aside).  (Not covered, and false: histories in which a removal or deletion was cut short, `C121_violated`.) -/
theorem C121_served_partial (ok : W.OK) (hz : W.NoTorn) (h : Kept W s) (o : Op) (ho : o.Ok W) (u : St)
    (hu : u = s ∨ (o.takes = false ∧ Moment W o s u) ∨ u = o.exec W.E s) :
    (∀ r id, Has u r id ∨ HasDelta u r id → ∃ c, ServedAs W u r id c ∧ c <+: W.canon id) ∧
    (∀ id, InPool u id → ∃ c, PooledAs W u id c ∧ c <+: W.canon id) ∧
    (Steady W s → u = s ∨ (o.adds = false ∧ Moment W o s u) ∨ u = o.exec W.E s →
      (∀ r id, Has u r id → ServedAs W u r id (W.canon id)) ∧ ∀ id, W.isDelta id = false → InPool u id → PooledAs W u id (W.canon id)) := by
  have hs := h.stocked ok hz
  have hr := h.wild.rough ok hz
  have ht : Stocked W u := by
    rcases hu with rfl | ⟨hn, hm⟩ | rfl
    · exact hs
    · exact hm.stock ok hz ho hn hr hs
    · exact h.end ok hz hs o ho
  have hru : Rough W u := by
    rcases hu with rfl | ⟨_, hm⟩ | rfl
    · exact hr
    · exact hm.rough ok hz ho hr
    · exact (o.keeps ok hz ho s hr).fin
  have hrepo : ∀ r id, Has u r id ∨ HasDelta u r id → ∃ c, ServedAs W u r id c := by
    intro r id hh
    have : Holds u.db r id := by
      rcases hh with ⟨n, e, hg, hi⟩ | ⟨n, e, hg, hi⟩
      · exact ⟨n, e, hg, .inl hi⟩
      · exact ⟨n, e, hg, .inr hi⟩
    obtain ⟨d, hd, hne⟩ := ht.repo r id this
    cases hi : u.fs.tab (.repo r d id) with
    | none => exact absurd hi hne
    | some i => exact ⟨_, d, hd, FS.read_eq_some.2 ⟨i, hi, rfl⟩⟩
  have hpool : ∀ id, InPool u id → ∃ c, PooledAs W u id c := by
    rintro id ⟨pe, hg⟩
    obtain ⟨d, hd, hne⟩ := ht.pool id pe hg
    cases hi : u.fs.tab (.pool d id) with
    | none => exact absurd hi hne
    | some i => exact ⟨_, d, hd, FS.read_eq_some.2 ⟨i, hi, rfl⟩⟩
  refine ⟨fun r id hh => ?_, fun id hh => ?_, fun hst hu' => ?_⟩
  · obtain ⟨c, d, hd, hc⟩ := hrepo r id hh
    exact ⟨c, ⟨d, hd, hc⟩, hru.fs.content (.repo r d id) c rfl hc⟩
  · obtain ⟨c, d, hd, hc⟩ := hpool id hh
    exact ⟨c, ⟨d, hd, hc⟩, hru.fs.content (.pool d id) c rfl hc⟩
  · have hwhole := C110_uncut_additions_partial ok hz hst o ho u hu'
    refine ⟨fun r id hh => ?_, fun id hi hh => ?_⟩
    · obtain ⟨c, d, hd, hc⟩ := hrepo r id (.inl hh)
      have hi : W.isDelta id = false := by
        obtain ⟨n, e, hg, hm⟩ := hh
        exact ((hru.db.ent r n e hg).avail id hm).1
      have := (hwhole.1 r d id c hi hc).1
      subst this
      exact ⟨d, hd, hc⟩
    · obtain ⟨c, d, hd, hc⟩ := hpool id hh
      have := (hwhole.2 d id c hi hc).1
      subst this
      exact ⟨d, hd, hc⟩
end

namespace Demo
/-- The deletion of "u", which alone has a-1, is cut after the pool file went. -/
def jobD : Op := .delete (S "u")
def cutD : St := (cut jobD stV 1).crash
theorem wildD : Wild Demo.W cutD := wildV.dies jobD trivial (cut_moment (by decide +kernel))
/-- An import into "v", cut after the package was listed and before the index was published. -/
def cutK : St := (cut jobV stV 2).crash
theorem keptV : Kept Demo.W stV := ((reach6.kept.job (.addPackages (S "u") [S "/up/a-1.eopkg"] false)
  (show ∀ f ∈ [S "/up/a-1.eopkg"], Demo.W.isDelta (baseName f) = false by decide +kernel)).job (.create (S "v")) trivial)
theorem keptK : Kept Demo.W cutK := keptV.dies jobV jobV_ok rfl (cut_moment (by decide +kernel))
end Demo

/-- C121 is false of the code: the deletion of repository "u", the only one with package a-1, is cut short after it removed the pool file; the pool
record is still there, since the transaction was not committed.  Importing a-1 into "v" then finds the record, asks for a link to the missing
pool file, and copying a missing file is not an error (util.go:37-42): the import reports success, "v" lists and indexes the package and does not
have it. -/
theorem C121_violated : ¬ C121_statement := by
  intro h
  have := h Demo.W Demo.cutD Demo.jobV (Demo.S "v") Demo.ok Demo.noTorn Demo.wildD Demo.jobV_ok rfl rfl (by decide +kernel) (Demo.S "a-1.eopkg")
    ⟨Demo.S "a", (((Demo.jobV.exec Demo.W.E Demo.cutD).db.ents (Demo.S "v")).get (Demo.S "a")).get (by decide +kernel), by decide +kernel, by decide +kernel⟩
    (by
      rintro ⟨n, e, hg, _⟩
      rw [show Demo.cutD.db.ents (Demo.S "v") = [] by decide +kernel] at hg
      cases hg)
  obtain ⟨c, d, hd, hc⟩ := this
  have hd' : dirOf Demo.W (Demo.S "a-1.eopkg") = some (Demo.S "a/a") := by decide +kernel
  rw [hd'] at hd; cases hd
  rw [show (Demo.jobV.exec Demo.W.E Demo.cutD).fs.read (.repo (Demo.S "v") (Demo.S "a/a") (Demo.S "a-1.eopkg")) = none by decide +kernel] at hc
  cases hc

/-- An import cut short has listed a package; both repositories have its file. -/
example : Kept Demo.W Demo.cutK ∧ Has Demo.cutK (Demo.S "v") (Demo.S "a-1.eopkg") ∧
    ServedAs Demo.W Demo.cutK (Demo.S "u") (Demo.S "a-1.eopkg") [1] ∧ ServedAs Demo.W Demo.cutK (Demo.S "v") (Demo.S "a-1.eopkg") [1] ∧
    InPool Demo.cutK (Demo.S "a-1.eopkg") :=
  ⟨Demo.keptK, ⟨Demo.S "a", ((Demo.cutK.db.ents (Demo.S "v")).get (Demo.S "a")).get (by decide +kernel), by decide +kernel, by decide +kernel⟩,
    ⟨Demo.S "a/a", by decide +kernel, by decide +kernel⟩, ⟨Demo.S "a/a", by decide +kernel, by decide +kernel⟩,
    ⟨(Demo.cutK.db.pool.get (Demo.S "a-1.eopkg")).get (by decide +kernel), by decide +kernel⟩⟩

end Ferryd
