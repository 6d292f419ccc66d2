import Verif.PropsDelta3
import Verif.CoreTight
/-!
# PropsDelta4: what holds of deltas as long as no step forgets one (C31, C73, C75, C90)
-/
namespace Ferryd
open Spec
variable {W : World} {s : St}

namespace Spec
/-- From `s` to `s'` a delta is forgotten: a repository that goes on existing listed it and lists it no longer, although no
package it leads from or to was taken out of that repository. -/
def Forgets (s s' : St) : Prop := ∃ r d, HasDelta s r d ∧ Repo s' r ∧ ¬ HasDelta s' r d ∧
  ∀ pe di, s.db.pool.get d = some pe → pe.delta = some di →
    ∀ id, (id = di.fromID ∨ id = di.toID) → Has s r id → Has s' r id

/-- States reached from the empty daemon by a history none of whose steps forgets a delta. -/
inductive CarefulReach (W : World) : St → Prop
  | init : CarefulReach W St.init
  | step {s : St} (o : Op) : CarefulReach W s → o.Ok W → ¬ Forgets s (o.exec W.E s) → CarefulReach W (o.exec W.E s)
end Spec

theorem Spec.CarefulReach.reachable (h : CarefulReach W s) : Reachable W s := by
  induction h with
  | init => exact ⟨[], by simp, rfl⟩
  | step o _ ho _ ih => exact ih.step o ho

/-- Not forgetting, in the terms of the invariant proofs. -/
theorem keep_of_not_forgets {s' : St} (h : Inv W s) (h' : Inv W s') (hf : ¬ Forgets s s') :
    ∀ r d, s.hasDelta r d = true → r ∈ s'.db.repos.keys → s'.hasDelta r d = true ∨
      ∃ id, s.has r id = true ∧ s'.has r id = false ∧ gcDelta s.db.pool id d = true := by
  intro r d hd hr
  apply Classical.byContradiction
  intro hc
  rw [not_or] at hc
  refine hf ⟨r, d, (h.spec_delta r d).2 hd, hr, fun hx => hc.1 ((h'.spec_delta r d).1 hx), ?_⟩
  intro pe di hg hdi id hid hh
  apply Classical.byContradiction
  intro hn
  refine hc.2 ⟨id, (h.spec_has r id).1 hh, ?_, ?_⟩
  · rw [Bool.eq_false_iff]; intro hx; exact hn ((h'.spec_has r id).2 hx)
  · simp only [gcDelta, hg, hdi, decide_eq_true_eq]
    exact hid.imp Eq.symm Eq.symm

theorem Spec.CarefulReach.tight (ok : W.OK) (h : CarefulReach W s) : Tight W s := by
  induction h with
  | init => exact tight_init W
  | step o h0 ho hf ih =>
    have hi := h0.reachable.inv ok
    exact Op.tight ok hi ih o ho (keep_of_not_forgets hi ((h0.reachable.step o ho).inv ok) hf)

/-! ## Which steps forget -/

/-- How each operation treats the deltas listed: it drops none of a repository that stays, or it adds packages, or it
removes packages. -/
theorem Op.kind (ok : W.OK) (h : Inv W s) (o : Op) (ho : o.Ok W) :
    (∀ r d, s.hasDelta r d = true → r ∈ (o.exec W.E s).db.repos.keys → (o.exec W.E s).hasDelta r d = true) ∨
    (∃ r ids, ((∃ f b, o = .addPackages r f b) ∨ (∃ a, o = .pull a r) ∨ (∃ a n k b, o = .copySource a r n k b)) ∧
      AddedJob W s (o.exec W.E s) r ids) ∨
    (∃ r ids, o.removesFrom = some r ∧ (∀ x, o ≠ .delete x) ∧ (∀ id ∈ ids, s.has r id = true) ∧
      RemovedJob W s (o.exec W.E s) r ids) := by
  have keepdb : ∀ u : St, u.db = s.db → ∀ r d, s.hasDelta r d = true → r ∈ u.db.repos.keys → u.hasDelta r d = true :=
    fun u hu r d hd _ => by rw [St.hasDelta_congr hu]; exact hd
  have rem : ∀ r, o.removesFrom = some r → (∀ x, o ≠ .delete x) →
      ∃ r ids, o.removesFrom = some r ∧ (∀ x, o ≠ .delete x) ∧ (∀ id ∈ ids, s.has r id = true) ∧
        RemovedJob W s (o.exec W.E s) r ids := by
    intro r h1 h2
    obtain ⟨ids, h3, hj⟩ := Op.removed ok h o h1 h2
    exact ⟨r, ids, h1, h2, h3, hj⟩
  cases o with
  | create r =>
    left
    simp only [Op.exec, Op.run]
    by_cases hr : r ∈ s.db.repos.keys
    · obtain ⟨tr, hrun, _⟩ := mCreateRepo_exists (W := W) h hr
      rw [hrun]; exact keepdb _ (by simp)
    · cases hres : reservedKey r with
      | true => rw [mCreateRepo_reserved h hr hres]; exact keepdb _ rfl
      | false =>
        have hc := (mCreateRepo_run ok h hr hres).ents
        intro r' d hd _
        unfold St.hasDelta at hd ⊢; rw [hc]; exact hd
  | delete r =>
    left
    simp only [Op.exec, Op.run, mDeleteRepo]
    by_cases hr : r ∈ s.db.repos.keys
    · obtain ⟨s', tr, hrun, hd, _⟩ := deleteRepo_run ok (h.delReady hr)
      rw [hrun]
      intro r' d hx hk
      have := (hd.toDeleted.keys h r').1 hk
      rw [hd.toDeleted.hasDelta, if_neg this.1]; exact hx
    · rw [deleteRepo_missing h hr]; exact keepdb _ rfl
  | clone a b f =>
    left
    intro r d hd hk
    by_cases e : some b = some r
    · cases e
      have hb := h.hasDelta_key hd
      simp only [Op.exec, Op.run]
      by_cases ha : a ∈ s.db.repos.keys
      · obtain ⟨e, u, tr, hrun, hs, _, _⟩ := mCloneRepo_bad (W := W) h ha (.inl hb) f
        rw [hrun]; exact keepdb _ hs.db _ _ hd (by rw [hs.db]; exact hb)
      · rw [mCloneRepo_missing h ha]; exact hd
    · have hu := Op.untouched ok h (.clone a b f) trivial r (by simpa [Op.target] using e)
      unfold St.hasDelta at hd ⊢; rw [hu.ents]; exact hd
  | pull a b =>
    simp only [Op.exec, Op.run]
    rw [(discard_run (mPullRepo W.E a b) s).1]
    by_cases hkk : a ∈ s.db.repos.keys ∧ b ∈ s.db.repos.keys
    · rcases mPullRepo_run ok h hkk.1 hkk.2 with ⟨_, hp⟩ | ⟨_, s', tr, hrun, hdb, _, _, _, _, _⟩
      · exact .inr (.inl ⟨b, _, .inr (.inl ⟨a, rfl⟩), hp.job⟩)
      · left; rw [hrun]; exact keepdb _ hdb
    · have hk' : a ∉ s.db.repos.keys ∨ b ∉ s.db.repos.keys := by
        by_cases ha : a ∈ s.db.repos.keys
        · exact .inr fun hb => hkk ⟨ha, hb⟩
        · exact .inl ha
      obtain ⟨u, tr, hrun, hs, _, _⟩ := mPullRepo_missing (W := W) h hk'
      left; rw [hrun]; exact keepdb _ hs.db
  | removeSource r n k => exact .inr (.inr (rem r rfl (fun _ => by simp)))
  | trimObsolete r => exact .inr (.inr (rem r rfl (fun _ => by simp)))
  | trimPackages r k => exact .inr (.inr (rem r rfl (fun _ => by simp)))
  | copySource a b n k sk =>
    simp only [Op.exec, Op.run]
    by_cases hkk : a ∈ s.db.repos.keys ∧ b ∈ s.db.repos.keys
    · by_cases hne : (s.ids a).filter (W.matchesSrc n k) = []
      · obtain ⟨tr, hrun, _⟩ := mCopySource_none ok h hkk.1 hkk.2 n k sk hne
        left; rw [hrun]; exact keepdb _ (by simp)
      · obtain ⟨o, hrun, _, _, h3, _, _⟩ := mCopySource_run ok h hkk.1 hkk.2 n k sk hne
        rw [hrun]
        exact .inr (.inl ⟨b, _, .inr (.inr ⟨a, n, k, sk, rfl⟩), h3⟩)
    · have hk' : a ∉ s.db.repos.keys ∨ b ∉ s.db.repos.keys := by
        by_cases ha : a ∈ s.db.repos.keys
        · exact .inr fun hb => hkk ⟨ha, hb⟩
        · exact .inl ha
      obtain ⟨u, tr, hrun, hs, hi, _⟩ := mCopySource_missing (W := W) h hk' n k sk
      left; rw [hrun]; exact keepdb _ hs.db
  | addPackages r fs st =>
    simp only [Op.exec, Op.run]
    by_cases hr : r ∈ s.db.repos.keys
    · cases st with
      | false =>
        obtain ⟨_, _, _, hj, _⟩ := (mAddPackages_run ok h hr fs ho).spec
        exact .inr (.inl ⟨r, _, .inl ⟨fs, false, rfl⟩, hj⟩)
      | true =>
        obtain ⟨_, _, _, hj, _⟩ := (mAddPackagesStrict_run ok h hr fs ho).spec
        exact .inr (.inl ⟨r, _, .inl ⟨fs, true, rfl⟩, hj⟩)
    · left; rw [mAddPackages_missing h hr]; exact keepdb _ rfl
  | index r =>
    left
    simp only [Op.exec, Op.run]
    by_cases hr : r ∈ s.db.repos.keys
    · exact keepdb _ (mIndex_run ok h hr).neutral.db
    · rw [mIndex_missing h hr]; exact keepdb _ rfl
  | addDelta r d f t =>
    left
    simp only [Op.exec, Op.run, mAddDelta]
    by_cases hr : r ∈ s.db.repos.keys
    · obtain ⟨t0, hg, ht0⟩ := getRepo_run h hr
      rcases addDelta_all (r := r) ok (h.got hr) ho.1 ho.2.1 ho.2.2 with ⟨⟨er, hrun⟩, _⟩ | ⟨s', tr, hrun, hD, _, _, _⟩
      · rw [bind_ok hg, hrun]; exact keepdb _ (by simp)
      · rw [bind_ok hg, hrun]
        exact fun r' d' hd _ => hD.hasDelta r' d' (by rw [St.hasDelta_congr (s.got_db r)]; exact hd)
    · rw [bind_err (getRepo_missing h hr)]; exact keepdb _ rfl
  | refDelta r d =>
    left
    simp only [Op.exec, Op.run, mRefDelta]
    by_cases hr : r ∈ s.db.repos.keys
    · obtain ⟨t0, hg, ht0⟩ := getRepo_run h hr
      rcases refDelta_all (r := r) ok (h.got hr) ho with ⟨hrun, _⟩ | ⟨s', tr, hrun, hD, _, _, _⟩
      · rw [bind_ok hg, hrun]; exact keepdb _ (by simp)
      · rw [bind_ok hg, hrun]
        exact fun r' d' hd _ => hD.hasDelta r' d' (by rw [St.hasDelta_congr (s.got_db r)]; exact hd)
    · rw [bind_err (getRepo_missing h hr)]; exact keepdb _ rfl
  | markFailed i d =>
    left
    simp only [Op.exec, Op.run]
    rcases markDeltaFailed_run s i d with ⟨hrun, _⟩ | hrun | ⟨s', hrun, rfl⟩
    · rw [hrun]; exact keepdb _ rfl
    · rw [hrun]; exact keepdb _ rfl
    · rw [hrun]; exact fun _ _ hd _ => hd
  | upload f c => exact .inl fun _ _ hd _ => hd
  | unlink f => exact .inl fun _ _ hd _ => hd
  | putAsset r a c => exact .inl fun _ _ hd _ => hd
  | stage r d c => exact .inl fun _ _ hd _ => hd
  | unstage r d => exact .inl fun _ _ hd _ => hd
  | restart => exact .inl fun _ _ hd _ => hd

/-- C31, which steps forget deltas: a delta is forgotten only by an import, pull or copy that brings the repository a package
of the delta's name it did not list, or by a removal that leaves the repository no package of that name. No other operation
makes a repository forget a delta. -/
theorem C31_forget_only_partial (ok : W.OK) (h : Reachable W s) (o : Op) (ho : o.Ok W)
    (hf : Forgets s (o.exec W.E s)) : ∃ r d, HasDelta s r d ∧ ¬ HasDelta (o.exec W.E s) r d ∧
      ((((∃ f b, o = .addPackages r f b) ∨ (∃ a, o = .pull a r) ∨ (∃ a n k b, o = .copySource a r n k b)) ∧
          ∃ id, Lists (o.exec W.E s) r (nameOf W d) id ∧ ¬ Has s r id) ∨
        (((∃ n k, o = .removeSource r n k) ∨ o = .trimObsolete r ∨ (∃ k, o = .trimPackages r k)) ∧
          ∀ id, ¬ Lists (o.exec W.E s) r (nameOf W d) id)) := by
  have hi := h.inv ok
  have hi' := (h.step o ho).inv ok
  obtain ⟨r, d, hd, hr, hnd, hgc⟩ := hf
  refine ⟨r, d, hd, hnd, ?_⟩
  have hd' := (hi.spec_delta r d).1 hd
  have hnd' : ¬ (o.exec W.E s).hasDelta r d = true := fun hx => hnd ((hi'.spec_delta r d).2 hx)
  rcases Op.kind ok hi o ho with hk | ⟨x, ids, hop, hj⟩ | ⟨x, ids, hrem, hdel, hids, hj⟩
  · exact absurd (hk r d hd' hr) hnd'
  · left
    by_cases e : r = x
    · subst e
      refine ⟨hop, ?_⟩
      apply Classical.byContradiction
      intro hc
      refine hnd' ?_
      obtain ⟨e, hg, hm⟩ := (hi.hasDelta_iff r d).1 hd'
      refine (hi'.hasDelta_iff r d).2 ⟨e, ?_, hm⟩
      rw [hj.names _ ?_]
      · exact hg
      · intro j hj' hjn
        apply Classical.byContradiction
        intro hh
        exact hc ⟨j, (hi'.lists_iff r _ j).2 ⟨(hj.has r j).2 (.inr ⟨rfl, hj'⟩), hjn⟩, fun hx => hh ((hi.spec_has r j).1 hx)⟩
    · refine absurd ?_ hnd'
      unfold St.hasDelta at hd' ⊢; rw [hj.frame.ents r e]; exact hd'
  · right
    by_cases e : r = x
    · subst e
      refine ⟨?_, ?_⟩
      · cases o <;> simp only [Op.removesFrom, reduceCtorEq, Option.some.injEq] at hrem <;> subst hrem
        case delete x => exact absurd rfl (hdel x)
        case removeSource x n k => exact .inl ⟨n, k, rfl⟩
        case trimObsolete x => exact .inr (.inl rfl)
        case trimPackages x k => exact .inr (.inr ⟨k, rfl⟩)
      · intro id hl
        obtain ⟨h1, h2⟩ := (hi'.lists_iff r _ id).1 hl
        refine hnd' (hj.keepDelta d hd' ?_ ⟨id, h1, h2⟩)
        intro k hk
        cases hx : gcDelta s.db.pool k d with
        | false => rfl
        | true =>
          unfold gcDelta at hx
          cases hg : s.db.pool.get d with
          | none => rw [hg] at hx; cases hx
          | some pe =>
            rw [hg] at hx; dsimp only at hx
            cases hdi : pe.delta with
            | none => rw [hdi] at hx; cases hx
            | some di =>
              rw [hdi] at hx
              simp only [decide_eq_true_eq] at hx
              have hh := (hi'.spec_has r k).1 (hgc pe di hg hdi k (hx.imp Eq.symm Eq.symm)
                ((hi.spec_has r k).2 (hids k hk)))
              exact absurd ⟨rfl, hk⟩ ((hj.has r k).1 hh).2
    · refine absurd ?_ hnd'
      unfold St.hasDelta at hd' ⊢; rw [hj.frame.ents r e]; exact hd'

/-! ## Careful histories -/

/-- C75, exact counts: as long as no step of the history forgets a delta, the pool's count of every delta package is the
number of repositories listing it, so one that no repository lists is out of the pool. -/
theorem C75_careful_partial (ok : W.OK) (h : CarefulReach W s) {d : Str} (hd : W.isDelta d = true) :
    (∀ k, Count s d k → ∃ L, Enumerates L (fun r => Repo s r ∧ HasDelta s r d) ∧ L.length = k) ∧
    (InPool s d ↔ ∃ r, HasDelta s r d) := by
  have hi := h.reachable.inv ok
  have ht := h.tight ok
  have hen : Enumerates (s.dholders d) (fun r => Repo s r ∧ HasDelta s r d) := by
    refine ⟨hi.wfRepos.nodup_keys.filter _, fun x => ?_⟩
    unfold St.dholders
    rw [List.mem_filter]
    show _ ↔ Repo s x ∧ HasDelta s x d
    rw [hi.spec_delta]; rfl
  refine ⟨?_, ?_, ?_⟩
  · rintro k ⟨pe, hg, rfl⟩
    exact ⟨_, hen, (ht.count d pe hd hg).symm⟩
  · rintro ⟨pe, hg⟩
    have h1 := ht.count d pe hd hg
    have h2 := (hi.pool d pe hg).pos
    cases hl : s.dholders d with
    | nil => rw [hl] at h1; simp at h1; omega
    | cons x l => exact ⟨x, ((hen.2 x).1 (by rw [hl]; simp)).2⟩
  · rintro ⟨r, hr⟩
    exact (C75_delta_refs_partial ok h.reachable hd).2 r hr

/-- C73 for histories that forget no delta: every listed delta is served, with the bytes its pool entry and so the index
describe. -/
theorem C73_careful_partial (ok : W.OK) (h : CarefulReach W s) {r d : Str} (hd : HasDelta s r d) :
    ∃ c pe, ServedAs W s r d c ∧ s.db.pool.get d = some pe ∧ pe.pkg.hash = W.E.sha1 c ∧ pe.pkg.size = c.length := by
  have hi := h.reachable.inv ok
  obtain ⟨⟨pe, hg⟩, c, x, hx, hr⟩ := C73_delta_file_partial ok h.reachable hd
  have hc := (h.tight ok).canon _ c rfl hr
  have hp := (hi.pool d pe hg).pkg
  refine ⟨c, pe, ⟨x, hx, hr⟩, hg, ?_, ?_⟩
  · rw [hp, hc]; rfl
  · rw [hp, hc]; rfl

/-- C90 for histories that forget no delta: whatever operation comes next, every file served by a repository it is not
directed at is as it was. -/
theorem C90_careful_partial (ok : W.OK) (h : CarefulReach W s) (o : Op) (ho : o.Ok W) (r : Str) (hr : o.target ≠ some r)
    (d id : Str) : (o.exec W.E s).fs.read (.repo r d id) = s.fs.read (.repo r d id) := by
  have hi := h.reachable.inv ok
  have hu := Op.untouched ok hi o ho r hr
  by_cases ha : o.addsDeltas = true
  · have ht := h.tight ok
    have ht' : Tight W (o.exec W.E s) := by
      refine Op.tight ok hi ht o ho (fun r' d' hd hk => .inl ?_)
      rcases Op.kind ok hi o ho with hx | ⟨x, ids, hop, _⟩ | ⟨x, ids, hrem, _, _, _⟩
      · exact hx r' d' hd hk
      · rcases hop with ⟨_, _, rfl⟩ | ⟨_, rfl⟩ | ⟨_, _, _, _, rfl⟩ <;> cases ha
      · cases o <;> first | (cases ha; done) | (cases hrem; done)
    have htab := hu.fileTab d id
    rw [← FS.read_isSome, ← FS.read_isSome] at htab
    cases h1 : s.fs.read (.repo r d id) with
    | none => rw [h1] at htab; simpa using htab
    | some c =>
      rw [h1] at htab
      obtain ⟨c', hc'⟩ := Option.isSome_iff_exists.1 htab
      rw [hc', ht.canon _ c rfl h1, ht'.canon _ c' rfl hc']
  · exact hu.file d id (fun hx => absurd hx ha)

/-! ## C96: served deltas are listed -/

/-- C96 at full strength: every delta file in the public tree of a repository is of a delta that repository lists, and lies in
the directory of its source. -/
def C96_statement : Prop := ∀ (W : World) (s : St), W.OK → Reachable W s → ∀ r x d, W.isDelta d = true →
  (s.fs.read (.repo r x d)).isSome = true → HasDelta s r d ∧ dirOf W d = some x

/-- C96 is false of the code: a delta forgotten by an import (C31) stays in the public tree. -/
theorem C96_violated : ¬ C96_statement := by
  intro hst
  have hr := Demo.reach5.step (.addPackages (Demo.S "unstable") [Demo.S "/up/a-3.eopkg"] false)
    (show ∀ f ∈ [Demo.S "/up/a-3.eopkg"], Demo.W.isDelta (baseName f) = false by decide +kernel)
  have h := (hst Demo.W _ Demo.ok hr (Demo.S "unstable") (Demo.S "a/a") (Demo.S "a-1-2.delta.eopkg") (by decide +kernel)
    (by decide +kernel)).1
  have := ((hr.inv Demo.ok).spec_delta _ _).1 h
  revert this; decide +kernel

/-- C96, what holds: as long as no step of the history forgets a delta, every delta file served is of a listed delta, in the
directory of its source. -/
theorem C96_careful_partial (ok : W.OK) (h : CarefulReach W s) {r x d : Str} (hd : W.isDelta d = true)
    (hf : (s.fs.read (.repo r x d)).isSome = true) : HasDelta s r d ∧ dirOf W d = some x := by
  obtain ⟨h1, h2⟩ := (h.tight ok).file r x d hd hf
  exact ⟨((h.reachable.inv ok).spec_delta r d).2 h1, h2⟩

/-! ## The demo history is careful -/

/-- A sufficient condition that can be computed: all deltas listed before are listed after. -/
theorem not_forgets_of {s' : St} (hi : Inv W s) (hi' : Inv W s')
    (h : (s.db.repos.keys.all fun r => (s.db.ents r).all fun p => p.2.deltas.all fun d => s'.hasDelta r d) = true) :
    ¬ Forgets s s' := by
  rintro ⟨r, d, hd, _, hn, _⟩
  have hr := hi.hasDelta_key ((hi.spec_delta r d).1 hd)
  obtain ⟨n, e, hg, hm⟩ := hd
  rw [List.all_eq_true] at h
  have h1 := h r hr
  rw [List.all_eq_true] at h1
  have h2 := h1 _ (KV.mem_of_get hg)
  rw [List.all_eq_true] at h2
  exact hn ((hi'.spec_delta r d).2 (h2 d hm))

namespace Demo
/-- Do all steps of a history keep all deltas listed? -/
def keeps (s : St) : List Op → Bool
  | [] => true
  | o :: os => (s.db.repos.keys.all fun r => (s.db.ents r).all fun p => p.2.deltas.all fun d => (o.exec E s).hasDelta r d) &&
      keeps (o.exec E s) os

theorem keeps_careful (ops : List Op) (hops : ∀ o ∈ ops, o.Ok Demo.W) (s : St) (h : CarefulReach Demo.W s)
    (hk : keeps s ops = true) : CarefulReach Demo.W (runAll E s ops) := by
  induction ops generalizing s with
  | nil => exact h
  | cons o os ih =>
    rw [keeps, Bool.and_eq_true] at hk
    have ho := hops o (by simp)
    exact ih (fun x hx => hops x (by simp [hx])) _ (CarefulReach.step o h ho (not_forgets_of (h.reachable.inv ok)
      ((h.reachable.step o ho).inv ok) hk.1)) hk.2

/-- The history leading to `st5`, with a full clone after it, forgets no delta. -/
def histM : List Op := hist1 ++ hist5 ++ [.clone (S "unstable") (S "mirror") true]
def stM : St := runAll E St.init histM
theorem carefulM : CarefulReach Demo.W stM := by
  refine keeps_careful histM ?_ _ .init (by decide +kernel)
  intro o ho
  rcases List.mem_append.1 ho with ho | ho
  · exact hist5_ok o ho
  · simp only [List.mem_singleton] at ho; subst ho; trivial
/-- Trimming removes a package the delta leads from; that is not forgetting. -/
def stT : St := (Op.trimPackages (S "unstable") 1).exec E stM
theorem carefulT : CarefulReach Demo.W stT := by
  refine .step _ carefulM trivial ?_
  rintro ⟨r, d, hd, hr, hn, hgc⟩
  have hi := carefulM.reachable.inv ok
  have hd' := (hi.spec_delta r d).1 hd
  have hk := hi.hasDelta_key hd'
  have hi' := (carefulM.reachable.step (.trimPackages (S "unstable") 1) trivial).inv ok
  have key : (stM.db.repos.keys.all fun r => (stM.db.ents r).all fun p => p.2.deltas.all fun d =>
      (((Op.trimPackages (S "unstable") 1).exec E stM).hasDelta r d ||
        (match stM.db.pool.get d with
        | some pe => match pe.delta with
          | some di => stM.has r di.fromID && !((Op.trimPackages (S "unstable") 1).exec E stM).has r di.fromID
          | none => false
        | none => false))) = true := by decide +kernel
  obtain ⟨n, e, hg, hm⟩ := hd
  rw [List.all_eq_true] at key
  have h1 := key r hk
  rw [List.all_eq_true] at h1
  have h2 := h1 _ (KV.mem_of_get hg)
  rw [List.all_eq_true] at h2
  have h3 := h2 d hm
  rw [Bool.or_eq_true] at h3
  rcases h3 with h3 | h3
  · exact hn ((hi'.spec_delta r d).2 h3)
  · cases hp : stM.db.pool.get d with
    | none => rw [hp] at h3; cases h3
    | some pe =>
      rw [hp] at h3; dsimp only at h3
      cases hdi : pe.delta with
      | none => rw [hdi] at h3; cases h3
      | some di =>
        rw [hdi] at h3
        simp only [Bool.and_eq_true, Bool.not_eq_true'] at h3
        have := (hi'.spec_has r di.fromID).1 (hgc pe di hp hdi di.fromID (.inl rfl) ((hi.spec_has r _).2 h3.1))
        exact absurd (this.symm.trans h3.2) (by decide)
end Demo

/-- Non-vacuity: after a careful history the delta is listed by the mirror only and counted once; two operations before it
was listed by both and counted twice. -/
example : CarefulReach Demo.W Demo.stT ∧
    (Demo.stM.db.pool.get (Demo.S "a-1-2.delta.eopkg")).map PoolEntry.refCount = some 2 ∧
    (Demo.stT.db.pool.get (Demo.S "a-1-2.delta.eopkg")).map PoolEntry.refCount = some 1 ∧
    Demo.stT.hasDelta (Demo.S "mirror") (Demo.S "a-1-2.delta.eopkg") = true ∧
    Demo.stT.hasDelta (Demo.S "unstable") (Demo.S "a-1-2.delta.eopkg") = false ∧
    Demo.stT.fs.read (.repo (Demo.S "mirror") (Demo.S "a/a") (Demo.S "a-1-2.delta.eopkg")) = some [8] :=
  ⟨Demo.carefulT, by decide +kernel, by decide +kernel, by decide +kernel, by decide +kernel, by decide +kernel⟩

/-- Non-vacuity of the forgetting clause: the import of `a-3` forgets the delta. -/
example : Forgets Demo.st5 ((Op.addPackages (Demo.S "unstable") [Demo.S "/up/a-3.eopkg"] false).exec Demo.W.E Demo.st5) := by
  have hi := Demo.reach5.inv Demo.ok
  have hi' := (Demo.reach5.step (.addPackages (Demo.S "unstable") [Demo.S "/up/a-3.eopkg"] false)
    (show ∀ f ∈ [Demo.S "/up/a-3.eopkg"], Demo.W.isDelta (baseName f) = false by decide +kernel)).inv Demo.ok
  refine ⟨Demo.S "unstable", Demo.S "a-1-2.delta.eopkg", (hi.spec_delta _ _).2 (by decide +kernel),
    by unfold Repo; decide +kernel, fun hx => ?_, ?_⟩
  · have := (hi'.spec_delta _ _).1 hx
    revert this; decide +kernel
  · intro pe di hg hdi id hid _
    have : ((Demo.st5.db.pool.get (Demo.S "a-1-2.delta.eopkg")).bind PoolEntry.delta).map
        (fun di => (di.fromID, di.toID)) = some (Demo.S "a-1.eopkg", Demo.S "a-2.eopkg") := by decide +kernel
    rw [hg, Option.bind_some, hdi, Option.map_some, Option.some.injEq, Prod.mk.injEq] at this
    rcases hid with rfl | rfl
    · rw [this.1]; exact (hi'.spec_has _ _).2 (by decide +kernel)
    · rw [this.2]; exact (hi'.spec_has _ _).2 (by decide +kernel)

end Ferryd
