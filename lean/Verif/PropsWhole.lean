import Verif.CoreWhole3
import Verif.PropsSafe
/-!
# PropsWhole: histories with crashes and I/O errors in which no job that adds packages is cut short (C110)
-/
namespace Ferryd
open Spec
variable {W : World} {s : St}

/-- Histories in which every job may be cut short anywhere, any number of times, by the death of the daemon or by an I/O error, except the jobs
that put packages into a repository (import, clone, pull, copy-source): those come to their end, successful or not. -/
inductive Steady (W : World) : St → Prop
  | init : Steady W St.init
  | job {s : St} (h : Steady W s) (o : Op) (ho : o.Ok W) : Steady W (o.exec W.E s)
  | dies {s u : St} (h : Steady W s) (o : Op) (ho : o.Ok W) (hn : o.adds = false) (hm : Moment W o s u) : Steady W u.crash
  | fails {s u : St} (h : Steady W s) (o : Op) (ho : o.Ok W) (hn : o.adds = false) (hm : Moment W o s u) : Steady W { u with pend := [] }

theorem Steady.wild (h : Steady W s) : Wild W s := by
  induction h with
  | init => exact .init
  | job _ o ho ih => exact ih.job o ho
  | dies _ o ho _ hm ih => exact ih.dies o ho hm
  | fails _ o ho _ hm ih => exact ih.fails o ho hm

theorem Reachable.steady (h : Reachable W s) : Steady W s := by
  obtain ⟨ops, hok, rfl⟩ := h
  have key : ∀ (ops : List Op) (s : St), (∀ o ∈ ops, o.Ok W) → Steady W s → Steady W (runAll W.E s ops) := by
    intro ops
    induction ops with
    | nil => intro s _ h; exact h
    | cons o ops ih => intro s ho h; exact ih _ (fun x hx => ho x (by simp [hx])) (h.job o (ho o (by simp)))
  exact key ops _ hok .init

theorem Steady.pend (h : Steady W s) : s.pend = [] := by
  induction h with
  | init => rfl
  | job _ o _ ih => exact (o.noPend W.E).st _ ih
  | dies => rfl
  | fails => rfl

theorem Half.tidy {o : Op} {t u : St} (h : Half W o t u) (hr : Rough W t) (ht : Tidy W t) : Tidy W u := by
  have key : ∀ (p : Path) (i : Nat) (c : Content), t.fs.tab p = some i →
      (∀ q, q.isAsset = false → q.owner = p.owner → t.fs.tab q = some i → t.fs.read q = some (W.canon q.base) → c = W.canon q.base) →
      Tidy W (t.setFs (t.fs.setData i c)) := by
    intro p i c hi hc
    have hq : ∀ q y, q.isAsset = false → (∀ z, t.fs.read q = some z → z = W.canon q.base) → (t.fs.setData i c).read q = some y → t.fs.read q = some y := by
      intro q y ha hw hy
      cases hj : t.fs.tab q with
      | none => simp [FS.read, hj] at hy
      | some j =>
        by_cases e : j = i
        · subst e
          have hcan := hw _ (FS.read_eq_some.2 ⟨j, hj, rfl⟩)
          have := hc q ha (hr.fs.owner _ _ _ hj hi) hj (FS.read_eq_some.2 ⟨j, hj, hcan⟩)
          simp only [FS.read, FS.setData_tab, hj, Option.map_some, FS.setData_data, if_true, Option.some.injEq] at hy ⊢
          rw [← hy, this]; exact hcan
        · simp only [FS.read, FS.setData_tab, hj, Option.map_some, FS.setData_data, if_neg e] at hy ⊢
          exact hy
    exact ht.setFs (fun d id y hd hy => hq (.pool d id) y rfl (fun z hz => (ht.pool d id z hd hz).1) hy)
      (fun r d id y hd hy => hq (.repo r d id) y rfl (fun z hz => (ht.repo r d id z hd hz).1) hy) (fun _ h => h)
  cases h with
  | whole => exact ht
  | package p i c hp hi he hc =>
    refine key p i c hi fun q ha ho hj hrd => ?_
    have hb : q.base = p.base := by cases p <;> cases q <;> simp_all [Path.owner, Path.isAsset]
    have hnil : W.canon q.base = [] := by
      obtain ⟨j, hj', hd⟩ := FS.read_eq_some.1 hrd
      rw [hj] at hj'; cases hj'
      rw [← hd, he]
    rw [hb] at hnil ⊢
    rw [hnil] at hc ⊢
    exact List.prefix_nil.1 hc
  | asset r a i c hr' hi =>
    refine key _ i c hi fun q ha ho _ _ => ?_
    cases q <;> simp [Path.owner, Path.isAsset] at ho ha

theorem Moment.tidy (ok : W.OK) (hz : W.NoTorn) {o : Op} (ho : o.Ok W) (hn : o.adds = false) {u : St} (h : Moment W o s u) (hr : Rough W s)
    (hs : Tidy W s) : Tidy W u := by
  obtain ⟨t, ht, hu⟩ := h
  exact hu.tidy ((o.keeps ok hz ho s hr).tr t ht) ((o.ever ok hz ho hn hr hs).tr t ht)

theorem Steady.tidy (ok : W.OK) (hz : W.NoTorn) (h : Steady W s) : Tidy W s := by
  induction h with
  | init => exact tidy_init W
  | job h o ho ih => exact (o.ends ok hz ho h.pend (h.wild.rough ok hz) ih).fin
  | dies h o ho hn hm ih => exact (hm.tidy ok hz ho hn (h.wild.rough ok hz) ih).crash
  | fails h o ho hn hm ih => exact (hm.tidy ok hz ho hn (h.wild.rough ok hz) ih).dropPend

/-- C110 in full, for histories in which jobs that add packages come to their end: whatever else is cut short, wherever and however often, and
at every moment of the next such job, every package file in a repository and in the pool is the whole file uploaded under that name (deltas
aside); a file in an existing repository is one the repository lists, and a pool file has its record.  (Not covered, and false: histories with a
cut import, `C110_violated`.) -/
theorem C110_uncut_additions_partial (ok : W.OK) (hz : W.NoTorn) (h : Steady W s) (o : Op) (ho : o.Ok W) (u : St)
    (hu : u = s ∨ (o.adds = false ∧ Moment W o s u) ∨ u = o.exec W.E s) :
    (∀ r d id c, W.isDelta id = false → u.fs.read (.repo r d id) = some c →
      c = W.canon id ∧ dirOf W id = some d ∧ (Repo u r → Has u r id)) ∧
    (∀ d id c, W.isDelta id = false → u.fs.read (.pool d id) = some c → c = W.canon id ∧ dirOf W id = some d ∧ InPool u id) := by
  have hs := h.wild.rough ok hz
  have ht : Tidy W u := by
    rcases hu with rfl | ⟨hn, hm⟩ | rfl
    · exact h.tidy ok hz
    · exact hm.tidy ok hz ho hn hs (h.tidy ok hz)
    · exact (o.ends ok hz ho h.pend hs (h.tidy ok hz)).fin
  refine ⟨fun r d id c hi hc => ?_, fun d id c hi hc => ht.pool d id c hi hc⟩
  obtain ⟨h1, h2, _, h4⟩ := ht.repo r d id c hi hc
  refine ⟨h1, h2, fun hrp => ?_⟩
  obtain ⟨v, hv⟩ := (KV.mem_keys_iff _ _).1 hrp
  exact h4 v hv

namespace Demo
theorem steady8 : Steady Demo.W cut8 := (Reachable.steady ⟨hist8, hist8_ok, rfl⟩).dies job8 trivial rfl (cut_moment (by decide +kernel))
end Demo
example : Steady Demo.W Demo.cut8 ∧ Has Demo.cut8 (Demo.S "u") (Demo.S "a-2.eopkg") ∧
    Demo.cut8.fs.read (.repo (Demo.S "u") (Demo.S "a/a") (Demo.S "a-2.eopkg")) = none ∧
    Demo.cut8.fs.read (.repo (Demo.S "v") (Demo.S "a/a") (Demo.S "a-2.eopkg")) = some [2] :=
  ⟨Demo.steady8, ⟨Demo.S "a", ((Demo.cut8.db.ents (Demo.S "u")).get (Demo.S "a")).get (by decide +kernel), by decide +kernel, by decide +kernel⟩,
    by decide +kernel, by decide +kernel⟩

end Ferryd
