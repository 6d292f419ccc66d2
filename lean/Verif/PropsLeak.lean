import Verif.CoreLeak
import Verif.CoreReal
/-!
# PropsLeak: what crashes leave behind in the pool, and listings of repositories (C137, C138)
-/
namespace Ferryd
open Spec
variable {W : World} {s : St} {k : Nat}

/-- Histories of jobs, crashes and I/O errors, as `Wild`, in which `k` counts the jobs that add packages to a repository (imports, clones, pulls,
copies) and were cut short.  Any number of other jobs may be. (No code: a notion of the statements.) -/
inductive Cuts (W : World) : Nat → St → Prop
  | init : Cuts W 0 St.init
  | job {k : Nat} {s : St} (h : Cuts W k s) (o : Op) (ho : o.Ok W) : Cuts W k (o.exec W.E s)
  | dies {k : Nat} {s u : St} (h : Cuts W k s) (o : Op) (ho : o.Ok W) (hm : Moment W o s u) : Cuts W (k + if o.adds then 1 else 0) u.crash
  | fails {k : Nat} {s u : St} (h : Cuts W k s) (o : Op) (ho : o.Ok W) (hm : Moment W o s u) : Cuts W (k + if o.adds then 1 else 0) { u with pend := [] }

theorem Cuts.wild (h : Cuts W k s) : Wild W s := by
  induction h with
  | init => exact .init
  | job _ o ho ih => exact ih.job o ho
  | dies _ o ho hm ih => exact ih.dies o ho hm
  | fails _ o ho hm ih => exact ih.fails o ho hm

theorem Wild.cuts (h : Wild W s) : ∃ k, Cuts W k s := by
  induction h with
  | init => exact ⟨0, .init⟩
  | job _ o ho ih => exact ⟨_, ih.choose_spec.job o ho⟩
  | dies _ o ho hm ih => exact ⟨_, ih.choose_spec.dies o ho hm⟩
  | fails _ o ho hm ih => exact ⟨_, ih.choose_spec.fails o ho hm⟩

theorem leak_init (W : World) : Leak W [] St.init.db := ⟨fun id pe _ h => by simp [St.init] at h⟩

theorem Moment.leak (ok : W.OK) (hz : W.NoTorn) {o : Op} {u : St} {lost : List Str} (ho : o.Ok W) (hm : Moment W o s u) (hr : Rough W s) (hs : Leak W lost s.db) :
    Almost W o.inHand lost u.db := by
  obtain ⟨t, ht, hu⟩ := hm
  have := o.leaks ok hz ho hr hs t ht
  cases hu <;> exact this

theorem Cuts.leak (ok : W.OK) (hz : W.NoTorn) (h : Cuts W k s) : ∃ lost : List Str, lost.length ≤ k ∧ Leak W lost s.db := by
  induction h with
  | init => exact ⟨[], Nat.le_refl _, leak_init W⟩
  | job h o ho ih =>
    obtain ⟨lost, h1, h2⟩ := ih
    exact ⟨lost, h1, o.leak ok hz ho (h.wild.rough ok hz) h2⟩
  | dies h o ho hm ih =>
    obtain ⟨lost, h1, h2⟩ := ih
    obtain ⟨x, h3, h4⟩ := hm.leak ok hz ho (h.wild.rough ok hz) h2
    refine ⟨x ++ lost, ?_, h4⟩
    have : o.inHand = if o.adds = true then 1 else 0 := rfl
    rw [List.length_append]; omega
  | fails h o ho hm ih =>
    obtain ⟨lost, h1, h2⟩ := ih
    obtain ⟨x, h3, h4⟩ := hm.leak ok hz ho (h.wild.rough ok hz) h2
    refine ⟨x ++ lost, ?_, h4⟩
    have : o.inHand = if o.adds = true then 1 else 0 := rfl
    rw [List.length_append]; omega

theorem Moment.real (ok : W.OK) (hz : W.NoTorn) {o : Op} {u : St} (ho : o.Ok W) (hm : Moment W o s u) (hr : Rough W s) (hs : Real s) : Real u := by
  obtain ⟨t, ht, hu⟩ := hm
  have := (o.real hr hs).tr t ht
  cases hu with
  | whole => exact this
  | package p i c => exact this.setFs _
  | asset r a i c => exact this.setFs _

theorem Wild.real (ok : W.OK) (hz : W.NoTorn) (h : Wild W s) : Real s := by
  induction h with
  | init => exact real_init
  | job h o ho ih => exact (o.real (h.rough ok hz) ih).fin
  | dies h o ho hm ih => exact (hm.real ok hz ho (h.rough ok hz) ih).crash
  | fails h o ho hm ih => exact (hm.real ok hz ho (h.rough ok hz) ih).dropPend

/-! ## C137 -/

/-- C137: if `k` imports, clones, pulls and copies were cut short, then the reference counts of all packages together exceed what the existing
repositories account for by at most `k`: there is a list of at most `k` package names such that every package is counted at most once
for each existing repository that lists it and once for each occurrence in that list.  However many other jobs were cut short. -/
theorem C137_bounded (ok : W.OK) (hz : W.NoTorn) (h : Cuts W k s) :
    ∃ lost : List Str, lost.length ≤ k ∧ ∀ id n, W.isDelta id = false → Count s id n →
      ∃ L : List Str, L.Nodup ∧ (∀ r ∈ L, Repo s r ∧ Has s r id) ∧ n ≤ L.length + lost.count id := by
  obtain ⟨lost, h1, h2⟩ := h.leak ok hz
  refine ⟨lost, h1, ?_⟩
  rintro id _ hd ⟨pe, hg, rfl⟩
  obtain ⟨L, h3, h4, h5⟩ := h2.le id pe hd hg
  refine ⟨L, h3, fun r hr => ?_, h5⟩
  obtain ⟨n, e, he, hi⟩ := h4 r hr
  exact ⟨(h.wild.real ok hz).ents r n e he, n, e, he, hi⟩

theorem nodup_le_of_count : ∀ (X lost : List Str), X.Nodup → (∀ x ∈ X, 1 ≤ lost.count x) → X.length ≤ lost.length := by
  intro X
  induction X with
  | nil => intro lost _ _; simp
  | cons x xs ih =>
    intro lost hn hc
    have hx : x ∈ lost := List.count_pos_iff.1 (hc x (by simp))
    have := ih (lost.erase x) (List.nodup_cons.1 hn).2 fun y hy => by
      have hyx : y ≠ x := fun h => (List.nodup_cons.1 hn).1 (h ▸ hy)
      rw [List.count_erase_of_ne hyx]
      exact hc y (by simp [hy])
    rw [List.length_erase_of_mem hx] at this
    have hpos : 0 < lost.length := List.length_pos_of_mem hx
    simp only [List.length_cons]
    omega

/-- C137: packages left in the pool that no repository lists, or whose repositories are gone: after `k` interrupted additions there are at most
`k` of them. -/
theorem C137_stale (ok : W.OK) (hz : W.NoTorn) (h : Cuts W k s) (X : List Str) (hX : X.Nodup)
    (hx : ∀ id ∈ X, W.isDelta id = false ∧ InPool s id ∧ ¬ ∃ r, Repo s r ∧ Has s r id) : X.length ≤ k := by
  obtain ⟨lost, h1, h2⟩ := C137_bounded ok hz h
  refine Nat.le_trans (nodup_le_of_count X lost hX fun id hid => ?_) h1
  obtain ⟨hd, ⟨pe, hg⟩, hno⟩ := hx id hid
  obtain ⟨L, _, h3, h4⟩ := h2 id pe.refCount hd ⟨pe, hg, rfl⟩
  have hL : L = [] := by
    cases L with
    | nil => rfl
    | cons r rs => exact absurd ⟨r, h3 r (by simp)⟩ hno
  subst hL
  have := ((h.wild.rough ok hz).db.pool id pe hg).pos
  simp only [List.length_nil] at h4
  omega

/-- C137: crashes and I/O errors during any jobs other than imports, clones, pulls and copies (deletions of repositories, removals, trims, index
runs, deltas) leave nothing behind: every package in the pool is listed by an existing repository, and counted at most once for
each. -/
theorem C137_nothing_left (ok : W.OK) (hz : W.NoTorn) (h : Cuts W 0 s) {id : Str} {n : Nat} (hd : W.isDelta id = false) (hc : Count s id n) :
    (∃ r, Repo s r ∧ Has s r id) ∧ ∃ L : List Str, L.Nodup ∧ (∀ r ∈ L, Repo s r ∧ Has s r id) ∧ n ≤ L.length := by
  obtain ⟨lost, h1, h2⟩ := C137_bounded ok hz h
  obtain rfl : lost = [] := List.length_eq_zero_iff.1 (Nat.le_zero.1 h1)
  obtain ⟨L, h3, h4, h5⟩ := h2 id n hd hc
  have hp : 0 < n := C109_counts ok hz h.wild hc
  simp only [List.count_nil, Nat.add_zero] at h5
  refine ⟨?_, L, h3, h4, h5⟩
  cases L with
  | nil => simp at h5; omega
  | cons r rs => exact ⟨r, h4 r (by simp)⟩

namespace Demo
/-- Repository "u" has the package; the import of it into "v" is cut short after the reference count. -/
theorem cutsV : Cuts Demo.W 1 cutV.crash := by
  have key : ∀ (ops : List Op) (s : St), (∀ o ∈ ops, o.Ok Demo.W) → Cuts Demo.W 0 s → Cuts Demo.W 0 (runAll Demo.W.E s ops) := by
    intro ops
    induction ops with
    | nil => intro s _ h; exact h
    | cons o os ih => intro s ho h; exact ih _ (fun x hx => ho x (by simp [hx])) (h.job o (ho o (by simp)))
  have h6 : Cuts Demo.W 0 st6 := by
    obtain ⟨ops, h1, h2⟩ := reach6
    rw [h2]; exact key ops _ h1 .init
  exact ((h6.job (.addPackages (S "u") [S "/up/a-1.eopkg"] false)
    (show ∀ f ∈ [S "/up/a-1.eopkg"], Demo.W.isDelta (baseName f) = false by decide +kernel)).job (.create (S "v")) trivial).dies jobV jobV_ok cutV_moment

/-- Then the package is removed from "u". -/
def dropU : Op := .removeSource (S "u") (S "a") 1
/-- The state afterwards. -/
def stStale : St := dropU.exec Demo.W.E cutV.crash
theorem cutsStale : Cuts Demo.W 1 stStale := cutsV.job dropU trivial
end Demo

/-- The bound is attained: one interrupted import, one package left over, which no repository lists. -/
example : Cuts Demo.W 1 Demo.stStale ∧ [Demo.S "a-1.eopkg"].Nodup ∧ Demo.W.isDelta (Demo.S "a-1.eopkg") = false ∧ Count Demo.stStale (Demo.S "a-1.eopkg") 1 ∧
    ∀ r ∈ Demo.stStale.db.repos.keys, (Demo.stStale.db.ents r).get (Demo.S "a") = none := by
  refine ⟨Demo.cutsStale, by decide +kernel, by decide +kernel, ?_, by decide +kernel⟩
  have : (Demo.stStale.db.pool.get (Demo.S "a-1.eopkg")).map (·.refCount) = some 1 := by decide +kernel
  cases hg : Demo.stStale.db.pool.get (Demo.S "a-1.eopkg") with
  | none => rw [hg] at this; cases this
  | some pe => rw [hg] at this; exact ⟨pe, hg, by simpa using this⟩

/-! ## C138 -/

/-- C138: whatever crashes and I/O errors went before, and at every moment of every job, only existing repositories list anything: nothing is listed,
as package or delta, under a name that `list repos` does not show. -/
theorem C138_no_ghosts (ok : W.OK) (hz : W.NoTorn) (h : Wild W s) (o : Op) (ho : o.Ok W) (u : St)
    (hu : u = s ∨ Moment W o s u ∨ u = o.exec W.E s) {r : Str} (hr : ¬ Repo u r) :
    (∀ n id, ¬ Lists u r n id) ∧ (∀ n id, ¬ Tip u r n id) ∧ ∀ d, ¬ HasDelta u r d := by
  have hs := h.real ok hz
  have hru := h.rough ok hz
  have : Real u := by
    rcases hu with rfl | hm | rfl
    · exact hs
    · exact hm.real ok hz ho hru hs
    · exact (o.real hru hs).fin
  refine ⟨?_, ?_, ?_⟩
  · rintro n id ⟨e, hg, _⟩; exact hr (this.ents r n e hg)
  · rintro n id ⟨e, hg, _⟩; exact hr (this.ents r n e hg)
  · rintro d ⟨n, e, hg, _⟩; exact hr (this.ents r n e hg)

/-- C138: whatever went before, a repository just created is empty, and was not there; in particular one of the same name, deleted before, maybe
in a deletion that was cut short, has left nothing behind in it. -/
theorem C138_created_empty (ok : W.OK) (hz : W.NoTorn) (h : Wild W s) {r : Str} (hres : (mCreateRepo W.E r s).res = .ok ()) :
    let t := (mCreateRepo W.E r s).st
    ¬ Repo s r ∧ Repo t r ∧ (∀ n id, ¬ Lists t r n id) ∧ (∀ d, ¬ HasDelta t r d) ∧
    ∀ r' n id, Lists t r' n id ↔ Lists s r' n id := by
  have hs := h.real ok hz
  have key : Post (mCreateRepo W.E r) s (fun _ t => ¬ Repo s r ∧ Repo t r ∧ t.db.ents = s.db.ents) := by
    refine Post.bind (P := fun _ t => Known r t ∧ t.db.ents = s.db.ents ∧ ¬ Repo s r) ⟨(createRepo_real r hs).val⟩ fun _ t ht => ?_
    refine ⟨fun a ha => ⟨ht.2.2, ?_, ((mIndex_still W.E r).fin t).2.trans ht.2.1⟩⟩
    have hk : Ever Real (mIndex W.E r) t (fun _ u => Known r u) :=
      (getRepo_real r ht.1.1).bind fun _ u _ hu => (thru_indexRepo (known_closed r) r).ever hu.1
    exact (hk.val a ha).2
  obtain ⟨h1, h2, h3⟩ := key.run () hres
  have hn := C138_no_ghosts ok hz h .restart trivial s (.inl rfl) h1
  refine ⟨h1, h2, ?_, ?_, ?_⟩
  · rintro n id ⟨e, hg, hi⟩
    rw [h3] at hg; exact hn.1 n id ⟨e, hg, hi⟩
  · rintro d ⟨n, e, hg, hi⟩
    rw [h3] at hg; exact hn.2.2 d ⟨n, e, hg, hi⟩
  · intro r' n id
    unfold Lists; rw [h3]

/-- C138: whatever went before, a successful clone lists exactly what the source does: everything, or the tips. -/
theorem C138_cloned (ok : W.OK) (hz : W.NoTorn) (h : Wild W s) {src new : Str} {full : Bool} (hres : (mCloneRepo W.E src new full s).res = .ok ()) :
    let t := (mCloneRepo W.E src new full s).st
    ¬ Repo s new ∧ ∀ n x, Lists t new n x ↔ (if full then Lists s src n x else Tip s src n x) := by
  have hs := h.real ok hz
  have key : Post (mCloneRepo W.E src new full) s (fun _ _ => ¬ Repo s new) := by
    refine Post.bind (P := fun _ t => Known src t ∧ t.db = s.db) ⟨(getRepo_real src hs).val⟩ fun _ t ht => ?_
    refine Post.bind (P := fun _ u => Known new u ∧ u.db.ents = t.db.ents ∧ ¬ Repo t new) ⟨(createRepo_real new ht.1.1).val⟩ fun _ u hu => ?_
    have : ¬ Repo s new := by unfold Repo; rw [← ht.2]; exact hu.2.2
    exact ⟨fun _ _ => this⟩
  have hn := key.run () hres
  refine ⟨hn, fun n x => ?_⟩
  rw [(C113_clone ok hz h hres).1 n x]
  constructor
  · rintro (hl | hr)
    · exact absurd hl ((C138_no_ghosts ok hz h .restart trivial s (.inl rfl) hn).1 n x)
    · exact hr
  · exact .inr

/-- Not vacuous: after an import into "v" cut short, "w" is not there, can be created, and can be cloned from "u", which lists something. -/
example : Wild Demo.W Demo.cutV.crash ∧ ¬ Repo Demo.cutV.crash (Demo.S "w") ∧ (mCreateRepo Demo.E (Demo.S "w") Demo.cutV.crash).res = .ok () ∧
    (mCloneRepo Demo.E (Demo.S "u") (Demo.S "w") true Demo.cutV.crash).res = .ok () ∧ Demo.cutV.crash.availOf (Demo.S "u") (Demo.S "a") = [Demo.S "a-1.eopkg"] := by
  refine ⟨Demo.wildCut, ?_, ?_, ?_, ?_⟩
  · unfold Repo; decide +kernel
  · decide +kernel
  · decide +kernel
  · decide +kernel

end Ferryd
