import Verif.DeltaJob
import Verif.PropsDelta
/-!
# PropsDeltaJob: the delta job (C34)
-/
namespace Ferryd
open Spec
variable {W : World} {s : St} {D : DeltaEnv} {r : Str}

/-! ## Specification -/

namespace Spec
/-- The file name of the delta between two packages. -/
def deltaOf (W : World) (old new : Str) : Str := Delta.deltaName (W.mOf new) (relOf W old) (relOf W new)

/-- A delta is possible from package file `old` to package file `new`. -/
def Possible (W : World) (old new : Str) : Prop :=
  relOf W old < relOf W new ∧ nameOf W old = nameOf W new ∧
  (W.mOf old).distRelease = (W.mOf new).distRelease ∧ (W.mOf old).arch = (W.mOf new).arch
end Spec

/-- Assumptions on delta files: their names (which have no slash) are used for deltas only, a delta package carries the
name of the package, and the producer makes the file that belongs to the name. -/
structure DeltaWorld (W : World) (D : DeltaEnv) : Prop where
  name : ∀ old new, W.IsPkg old → W.IsPkg new → W.isDelta old = false → W.isDelta new = false →
    nameOf W old = nameOf W new →
    W.isDelta (deltaOf W old new) = true ∧ '/' ∉ deltaOf W old new ∧
    (W.IsPkg (deltaOf W old new) → nameOf W (deltaOf W old new) = nameOf W new)
  content : ∀ old new c, Possible W old new → D.produce (W.canon old) (W.canon new) = .made c →
    c = W.canon (deltaOf W old new)

/-! ## One round -/

theorem pre_nil {α} (o : Out α) : o.pre [] = o := by cases o; rfl

theorem trimPackages_got (h : Inv W s) (hr : r ∈ s.db.repos.keys) :
    Op.exec W.E s (.trimPackages r 0) = s.got r := by
  obtain ⟨t0, hg, _⟩ := getRepo_run h hr
  unfold Op.exec
  simp only [Op.run]
  unfold mTrimPackages
  rw [bind_ok hg]
  have : trimPackages W.E r 0 (s.got r) = ⟨.err .tooSmall, s.got r, []⟩ := rfl
  rw [bind_err this]
  rfl

theorem Reachable.got (ok : W.OK) (h : Reachable W s) (hr : r ∈ s.db.repos.keys) : Reachable W (s.got r) := by
  rw [← trimPackages_got (h.inv ok) hr]
  exact h.step (.trimPackages r 0) trivial

/-- What rounds of the delta job for repository `r` and the packages `olds` may change. -/
structure DRel (W : World) (D : DeltaEnv) (r tip : Str) (olds : List Str) (s s' : St) : Prop where
  reach : Reachable W s'
  repos : s'.db.repos.keys = s.db.repos.keys
  has : ∀ r' j, s'.has r' j = s.has r' j
  hasDelta : ∀ r' d, s'.hasDelta r' d = true → s.hasDelta r' d = true ∨
    (r' = r ∧ ¬ MarkedFailed s d ∧ ∃ old ∈ olds, d = deltaOf W old tip)
  mono : ∀ r' d, s.hasDelta r' d = true → s'.hasDelta r' d = true
  skip : ∀ d, MarkedFailed s' d → MarkedFailed s d ∨ ∃ old ∈ olds, d = deltaOf W old tip ∧ Possible W old tip ∧
    D.produce (W.canon old) (W.canon tip) = .pointless
  skipMono : ∀ d, MarkedFailed s d → MarkedFailed s' d

theorem DRel.refl (h : Reachable W s) (tip : Str) (olds : List Str) : DRel W D r tip olds s s :=
  ⟨h, rfl, fun _ _ => rfl, fun _ _ h => .inl h, fun _ _ h => h, fun _ h => .inl h, fun _ h => h⟩

theorem DRel.trans {a b c : St} {tip : Str} {l1 l2 l : List Str} (h1 : DRel W D r tip l1 a b)
    (h2 : DRel W D r tip l2 b c) (s1 : l1 ⊆ l) (s2 : l2 ⊆ l) : DRel W D r tip l a c where
  reach := h2.reach
  repos := h2.repos.trans h1.repos
  has r' j := (h2.has r' j).trans (h1.has r' j)
  hasDelta r' d hx := by
    rcases h2.hasDelta r' d hx with hx | ⟨he, hn, o, ho, hd⟩
    · rcases h1.hasDelta r' d hx with hx | ⟨he, hn, o, ho, hd⟩
      · exact .inl hx
      · exact .inr ⟨he, hn, o, s1 ho, hd⟩
    · exact .inr ⟨he, fun hf => hn (h1.skipMono d hf), o, s2 ho, hd⟩
  mono r' d hx := h2.mono r' d (h1.mono r' d hx)
  skip d hx := by
    rcases h2.skip d hx with hx | ⟨o, ho, hd⟩
    · rcases h1.skip d hx with hx | ⟨o, ho, hd⟩
      · exact .inl hx
      · exact .inr ⟨o, s1 ho, hd⟩
    · exact .inr ⟨o, s2 ho, hd⟩
  skipMono d hx := h2.skipMono d (h1.skipMono d hx)

theorem DRel.weaken {a b : St} {tip : Str} {l l' : List Str} (h : DRel W D r tip l a b) (hs : l ⊆ l') :
    DRel W D r tip l' a b := h.trans (DRel.refl h.reach tip []) hs (by simp)

/-- A change of files only. -/
theorem DRel.files {a b : St} {tip : Str} {l : List Str} (hr : Reachable W b) (hdb : b.db = a.db) :
    DRel W D r tip l a b :=
  ⟨hr, by rw [hdb], fun _ _ => by rw [St.has_congr hdb], fun _ _ h => .inl (by rw [← St.hasDelta_congr hdb]; exact h),
    fun _ _ h => by rw [St.hasDelta_congr hdb]; exact h,
    fun d h => .inl (by rw [markedFailed_iff] at h ⊢; rwa [hdb] at h),
    fun d h => by rw [markedFailed_iff] at h ⊢; rwa [hdb]⟩

theorem DeltasAll.drel {a b : St} {tip old : Str} (h : DeltasAll W a b r) (hb : Reachable W b)
    (hd : ∀ r' j, b.hasDelta r' j = true → a.hasDelta r' j = true ∨ (r' = r ∧ j = deltaOf W old tip))
    (hnf : ¬ MarkedFailed a (deltaOf W old tip)) : DRel W D r tip [old] a b where
  reach := hb
  repos := by rw [h.repos]
  has := h.has
  hasDelta r' d hx := by
    rcases hd r' d hx with hx | ⟨h1, h2⟩
    · exact .inl hx
    · exact .inr ⟨h1, by rw [h2]; exact hnf, old, by simp, h2⟩
  mono := h.hasDelta
  skip d hx := .inl (by rw [markedFailed_iff] at hx ⊢; rwa [h.frame.skip] at hx)
  skipMono d hx := by rw [markedFailed_iff] at hx ⊢; rwa [h.frame.skip]

theorem St.hasDelta_ents {s t : St} {r : Str} (h : t.db.ents r = s.db.ents r) (j : Str) :
    t.hasDelta r j = s.hasDelta r j := by
  unfold St.hasDelta; rw [h]

theorem baseName_self {d : Str} (h : '/' ∉ d) : baseName d = d := by
  unfold baseName
  cases d with
  | nil => rfl
  | cons c cs =>
    simp only [List.mem_cons, not_or] at h
    unfold afterSlash
    rw [if_neg h.2, if_neg (fun e => h.1 e.symm)]

theorem possible_iff (old tip : Str) :
    Delta.isDeltaPossible (W.stamped old) (W.stamped tip) (relOf W old) (relOf W tip) = true ↔ Possible W old tip := by
  unfold Delta.isDeltaPossible Possible
  simp only [Bool.and_eq_true, decide_eq_true_eq, beq_iff_eq, and_assoc]
  rfl

/-- One round of the loop. -/
theorem deltaStep_run (ok : W.OK) (hW : DeltaWorld W D) (h : Reachable W s) {n tip old : Str}
    (ht : Lists s r n tip) (ho : Lists s r n old) :
    let out := deltaStep W.E D r n (W.stamped tip) (W.stamped old) s
    out.res ≠ .panic ∧ DRel W D r tip [old] s out.st ∧
    (∀ k, out.res = .ok k → Possible W old tip →
      MarkedFailed out.st (deltaOf W old tip) ∨ HasDelta out.st r (deltaOf W old tip)) := by
  have hi := h.inv ok
  have pkgOf : ∀ {id}, Lists s r n id → W.IsPkg id ∧ W.isDelta id = false := by
    intro id hl
    obtain ⟨e, hg, hid⟩ := hl
    obtain ⟨h1, ⟨pe, h2⟩, _⟩ := (hi.ent r n e hg).avail id hid
    exact ⟨(hi.pool id pe h2).isPkg, h1⟩
  obtain ⟨hpt, hdt⟩ := pkgOf ht
  obtain ⟨hpo, hdo⟩ := pkgOf ho
  have hnt : nameOf W tip = n := hi.lists_name ht
  have hno : nameOf W old = n := hi.lists_name ho
  obtain ⟨hdd, hslash, hdname⟩ := hW.name old tip hpo hpt hdo hdt (by rw [hno, hnt])
  have hrepo : r ∈ s.db.repos.keys := (hi.has_facts ((hi.spec_has r tip).1 ⟨n, ht⟩)).1
  have hro : getRelease (W.stamped old) = fun s => ⟨.ok (relOf W old), s, []⟩ :=
    funext fun s => getRelease_run (by rw [W.stamped_history]; exact (ok.meta hpo).hist) s
  have hrn : getRelease (W.stamped tip) = fun s => ⟨.ok (relOf W tip), s, []⟩ :=
    funext fun s => getRelease_run (by rw [W.stamped_history]; exact (ok.meta hpt).hist) s
  have hname : Delta.deltaName (W.stamped tip) (relOf W old) (relOf W tip) = deltaOf W old tip := rfl
  intro out
  have hout : out = deltaStep W.E D r n (W.stamped tip) (W.stamped old) s := rfl
  unfold deltaStep at hout
  rw [bind_ok (by rw [hro]), pre_nil, bind_ok (by rw [hrn]), pre_nil] at hout
  simp only [hname] at hout
  generalize hd : deltaOf W old tip = d at *
  rw [bind_ok (show getDeltaFailed d s = ⟨.ok (s.db.skip.get d).isSome, s, []⟩ from rfl), pre_nil] at hout
  cases hsk : (s.db.skip.get d).isSome with
  | true =>
    rw [hsk] at hout
    simp only [if_true, pure_run] at hout
    rw [hout]
    exact ⟨by simp, DRel.refl h tip _, fun _ _ _ => .inl ((markedFailed_iff s d).2 hsk)⟩
  | false =>
    have hnf : ¬ MarkedFailed s d := by rw [markedFailed_iff, hsk]; simp
    rw [hsk] at hout
    simp only [Bool.false_eq_true, if_false] at hout
    obtain ⟨t0, hg, _⟩ := getRepo_run hi hrepo
    have hgr := h.got ok hrepo
    have hgi := hgr.inv ok
    have hrel0 : DRel W D r tip [old] s (s.got r) := DRel.files hgr (by simp)
    rw [bind_ok hg] at hout
    obtain ⟨e, hge, hte⟩ := ht
    have hge' : ((s.got r).db.ents r).get n = some e := by simpa using hge
    rw [repoGet_bind_some _ hge'] at hout
    by_cases hin : d ∈ e.deltas
    · rw [if_pos hin] at hout
      rw [hout]
      refine ⟨by simp, hrel0, fun _ _ _ => .inr ?_⟩
      exact ⟨n, e, hge', hin⟩
    · rw [if_neg hin, poolGet?_bind, baseName_self hslash] at hout
      cases hpg : (s.got r).db.pool.get d with
      | some pe =>
        rw [hpg] at hout
        simp only at hout
        have hpd : W.IsPkg d := (hgi.pool d pe hpg).isPkg
        have hdn : (W.mOf d).name = n := by rw [← hnt]; exact hdname hpd
        have hrun : mRefDelta W.E r d (s.got r) = (Op.refDelta r d).run W.E (s.got r) := rfl
        have hstep : Reachable W ((Op.refDelta r d).exec W.E (s.got r)) := hgr.step (.refDelta r d) hdd
        obtain ⟨t1, hg1, _⟩ := getRepo_run hgi (r := r) (by simpa using hrepo)
        rw [St.got_got] at hg1
        rcases refDelta_all (r := r) ok hgi hdd with ⟨_, hbad⟩ | ⟨s', tr, hrd, hall, hhd, honly, _⟩
        · rcases hbad with hb | hb
          · rw [hpg] at hb; cases hb
          · rw [hdn, hge'] at hb; cases hb
        · have hm : mRefDelta W.E r d (s.got r) = (⟨.ok (), s', tr⟩ : Out Unit).pre t1 := by
            unfold mRefDelta; rw [bind_ok hg1, hrd]
          have hs' : Reachable W s' := by
            have : (Op.refDelta r d).exec W.E (s.got r) = s' := by
              unfold Op.exec; rw [← hrun, hm]; rfl
            rw [← this]; exact hstep
          rw [Out.pre_mk] at hm
          rw [bind_ok hm] at hout
          rw [hout]
          have hnf' : ¬ MarkedFailed (s.got r) d := fun hx => hnf (by
            rw [markedFailed_iff] at hx ⊢; simpa using hx)
          subst hd
          refine ⟨by simp, hrel0.trans (hall.drel hs' honly hnf') (by simp) (by simp), fun _ _ _ => .inr ?_⟩
          exact ((hs'.inv ok).spec_delta r _).2 hhd
      | none =>
        rw [hpg] at hout
        simp only at hout
        obtain ⟨t1, hg1, _⟩ := getRepo_run hgi (r := r) (by simpa using hrepo)
        rw [St.got_got] at hg1
        rw [bind_ok hg1] at hout
        -- the state in which a delta is staged
        have staged : ∀ s2 : St, Reachable W s2 → s2.db = (s.got r).db → (s2.fs.tab (.stage r d)).isSome = true →
            r ∈ s2.cache →
            let o2 := (do
              mAddDelta W.E r (.stage r d) (W.stamped old).getID (W.stamped tip).getID
              removeFile (.stage r d)
              pure 1 : M Nat) s2
            o2.res ≠ .panic ∧ DRel W D r tip [old] s o2.st ∧
              (∀ k, o2.res = .ok k → Possible W old tip → MarkedFailed o2.st d ∨ HasDelta o2.st r d) := by
          intro s2 h2 hdb htab hcache
          have hi2 := h2.inv ok
          have hrepo2 : r ∈ s2.db.repos.keys := hi2.cache r hcache
          have hrel2 : DRel W D r tip [old] s s2 := DRel.files h2 (by rw [hdb]; simp)
          rw [W.stamped_getID ok hpo, W.stamped_getID ok hpt]
          have hgot2 : s2.got r = s2 := by unfold St.got; rw [if_pos hcache]
          obtain ⟨t2, hg2, _⟩ := getRepo_run hi2 hrepo2
          rw [hgot2] at hg2
          by_cases hpd : W.IsPkg d
          · have hdn : (W.mOf d).name = n := by rw [← hnt]; exact hdname hpd
            have hok : (Op.addDelta r d old tip).Ok W := ⟨hdd, by rw [hdn]; exact hno, by rw [hdn]; exact hnt⟩
            have hstep := h2.step (.addDelta r d old tip) hok
            rcases addDelta_all (r := r) ok hi2 hdd hok.2.1 hok.2.2 with ⟨⟨er, hrun⟩, _⟩ | ⟨s', tr, hrd, hall, hhd, honly, _⟩
            · have hm : mAddDelta W.E r (.stage r d) old tip s2 = ⟨.err er, s2, t2⟩ := by
                unfold mAddDelta; rw [bind_ok hg2, hrun]; simp
              rw [bind_err hm]
              exact ⟨by simp, hrel2, fun k hk => by cases hk⟩
            · have hm : mAddDelta W.E r (.stage r d) old tip s2 = ⟨.ok (), s', t2 ++ tr⟩ := by
                unfold mAddDelta; rw [bind_ok hg2, hrd]; simp
              have hs' : Reachable W s' := by
                have : (Op.addDelta r d old tip).exec W.E s2 = s' := by
                  unfold Op.exec
                  show (mAddDelta W.E r (.stage r d) old tip s2).st = s'
                  rw [hm]
                rw [← this]; exact hstep
              have hs'' : Reachable W ((Op.unstage r d).exec W.E s') := hs'.step (.unstage r d) trivial
              rw [bind_ok hm, removeFile_bind]
              have hnf' : ¬ MarkedFailed s2 d := fun hx => hnf (by
                rw [markedFailed_iff] at hx ⊢; rw [hdb] at hx; simpa using hx)
              refine ⟨by simp, ?_, fun _ _ _ => .inr ?_⟩
              · subst hd
                have := hall.drel (D := D) hs' honly hnf'
                refine (hrel2.trans (l := [old]) this (by simp) (by simp)).trans (DRel.files (l := [old]) hs'' ?_) (by simp) (by simp)
                rfl
              · have := ((hs'.inv ok).spec_delta r d).2 hhd
                exact this
          · -- what is staged is not a package
            have hbad : openPkg W.E (.stage r d) s2 = ⟨.err .corrupt, s2, []⟩ := by
              unfold openPkg
              simp only [getSt_bind]
              cases hrd : s2.fs.read (.stage r d) with
              | none =>
                exfalso
                unfold FS.read at hrd
                cases ht' : s2.fs.tab (.stage r d) with
                | none => rw [ht'] at htab; cases htab
                | some i => rw [ht'] at hrd; cases hrd
              | some c =>
                simp only
                have hp : W.E.parse c = .bad := by
                  have hcan : W.E.parse (W.canon d) = .bad := by
                    cases hc : W.E.parse (W.canon d) with
                    | bad => rfl
                    | crash => exact absurd hc (ok.no_crash d)
                    | good m => exact absurd (W.isPkg_of hc).1 hpd
                  rcases hi2.fs.content _ _ rfl hrd with h | h
                  · rw [h]; exact hcan
                  · rw [h.2]; exact ok.parse_nil
                rw [hp]; rfl
            have hm : mAddDelta W.E r (.stage r d) old tip s2 = ⟨.err .corrupt, s2, t2⟩ := by
              unfold mAddDelta addDelta
              rw [bind_ok hg2, bind_err hbad]; simp
            rw [bind_err hm]
            exact ⟨by simp, hrel2, fun k hk => by cases hk⟩
        -- creating the delta
        have hcache : r ∈ (s.got r).cache := by
          unfold St.got; split
          · assumption
          · simp
        by_cases hpos : Possible W old tip
        · have hb : Delta.isDeltaPossible (W.stamped old) (W.stamped tip) (relOf W old) (relOf W tip) = true :=
            (possible_iff old tip).2 hpos
          cases htab : ((s.got r).fs.tab (.stage r d)).isSome with
          | true =>
            have hc : createDelta D r d (W.stamped old) (W.stamped tip) (relOf W old) (relOf W tip) (s.got r) =
                ⟨.ok .staged, s.got r, []⟩ := by
              unfold createDelta
              simp only [hb, Bool.not_true, Bool.false_eq_true, if_false, getSt_bind, htab, if_true, pure_run]
            rw [bind_ok hc] at hout
            simp only at hout
            rw [hout]
            obtain ⟨a1, a2, a3⟩ := staged (s.got r) hgr rfl htab hcache
            exact ⟨a1, a2, a3⟩
          | false =>
            obtain ⟨co, hco⟩ := ok.comp hpo
            obtain ⟨cn, hcn⟩ := ok.comp hpt
            have hpco : ∀ s, pathComp (W.stamped old) s = ⟨.ok co, s, []⟩ := by
              intro s; unfold pathComp; rw [W.stamped_source, show pathComp? (W.mOf old).source = some co from hco]; rfl
            have hpcn : ∀ s, pathComp (W.stamped tip) s = ⟨.ok cn, s, []⟩ := by
              intro s; unfold pathComp; rw [W.stamped_source, show pathComp? (W.mOf tip).source = some cn from hcn]; rfl
            have hread : ∀ {id c}, Lists s r n id → W.IsPkg id → W.isDelta id = false → W.compOf id = some c →
                (s.got r).fs.read (.repo r c id) = some (W.canon id) := by
              intro id c hl hp hdel hc
              obtain ⟨e', hg', hid'⟩ := hl
              obtain ⟨_, _, _, _, _, h6⟩ := (hgi.served ok (fun _ => True)).ent r n e' trivial (by simpa using hg')
              obtain ⟨_, _, _, _, c', hc', _, hr2⟩ := h6 id hid'
              rw [hc] at hc'; cases hc'; exact hr2
            have hrdo := hread ho hpo hdo hco
            have hrdt := hread ⟨e, hge, hte⟩ hpt hdt hcn
            have hc : createDelta D r d (W.stamped old) (W.stamped tip) (relOf W old) (relOf W tip) (s.got r) =
                (match D.produce (W.canon old) (W.canon tip) with
                | .made c => do
                  stepM fun s => s.setFs { (s.fs.setTab (.stage r d) (some s.fs.next)).setData s.fs.next c with
                    next := s.fs.next + 1 }
                  pure .staged
                | .pointless => pure .pointless
                | .failed => throwE .badDelta : M DeltaOutcome) (s.got r) := by
              unfold createDelta
              simp only [hb, Bool.not_true, Bool.false_eq_true, if_false, getSt_bind, htab]
              rw [bind_ok (hpco _), pre_nil, bind_ok (hpcn _), pre_nil, W.stamped_getID ok hpo, W.stamped_getID ok hpt,
                hrdo, hrdt]
              rfl
            cases hmade : D.produce (W.canon old) (W.canon tip) with
            | made c =>
              have hcc : c = W.canon d := by rw [← hd]; exact hW.content old tip c hpos hmade
              rw [hmade] at hc
              have hst : Reachable W ((Op.stage r d c).exec W.E (s.got r)) := hgr.step (.stage r d c) hcc
              have hc' : createDelta D r d (W.stamped old) (W.stamped tip) (relOf W old) (relOf W tip) (s.got r) =
                  ⟨.ok .staged, (s.got r).putFile (.stage r d) c, [(s.got r).putFile (.stage r d) c]⟩ := hc
              rw [bind_ok hc'] at hout
              simp only at hout
              rw [hout]
              obtain ⟨a1, a2, a3⟩ := staged ((s.got r).putFile (.stage r d) c) hst rfl
                (by simp [St.putFile]) hcache
              exact ⟨a1, a2, a3⟩
            | pointless =>
              rw [hmade] at hc
              rw [bind_ok (show createDelta D r d (W.stamped old) (W.stamped tip) (relOf W old) (relOf W tip) (s.got r) = ⟨.ok .pointless, s.got r, []⟩ from hc)] at hout
              simp only at hout
              rw [W.stamped_getID ok hpo, W.stamped_getID ok hpt] at hout
              let di : DeltaInfo := ⟨relOf W old, old, relOf W tip, tip⟩
              have hst : Reachable W ((Op.markFailed d di).exec W.E (s.got r)) := hgr.step (.markFailed d di) trivial
              rcases markDeltaFailed_run (s.got r) d di with ⟨hrun, hsome⟩ | hrun | ⟨s', hrun, hs'⟩
              · exfalso; simp [hsk] at hsome
              · rw [bind_err hrun] at hout
                rw [hout]
                exact ⟨by simp, hrel0, fun k hk => by cases hk⟩
              · rw [bind_ok hrun] at hout
                rw [hout]
                have hr' : Reachable W s' := by
                  have : (Op.markFailed d di).exec W.E (s.got r) = s' := by
                    unfold Op.exec
                    show (markDeltaFailed d di (s.got r)).st = s'
                    rw [hrun]
                  rw [← this]; exact hst
                have hself : MarkedFailed s' d := by
                  rw [markedFailed_iff, hs']; simp [KV.get_put]
                refine ⟨by simp, ?_, fun _ _ _ => .inl hself⟩
                have hents : s'.db.ents = s.db.ents := by rw [hs']; simp
                refine ⟨hr', by rw [hs']; simp, ?_, ?_, ?_, ?_, ?_⟩
                · intro r' j; exact St.has_ents (s := s) (t := s') (congrFun hents r') j
                · intro r' j hx; left; rw [← St.hasDelta_ents (s := s) (t := s') (congrFun hents r')]; exact hx
                · intro r' j hx; simp only [Out.pre_st, pure_run]; rw [St.hasDelta_ents (s := s) (t := s') (congrFun hents r')]; exact hx
                · intro j hj
                  simp only [Out.pre_st, pure_run] at hj
                  rw [markedFailed_iff, hs'] at hj
                  simp only [KV.get_put] at hj
                  by_cases hjd : j = d
                  · exact .inr ⟨old, by simp, by rw [hjd, hd], hpos, hmade⟩
                  · rw [if_neg hjd] at hj
                    exact .inl (by rw [markedFailed_iff]; simpa using hj)
                · intro j hj
                  simp only [Out.pre_st, pure_run]
                  rw [markedFailed_iff] at hj ⊢
                  rw [hs']; simp only [KV.get_put]
                  split
                  · rfl
                  · simpa using hj
            | failed =>
              rw [hmade] at hc
              rw [bind_err (show createDelta D r d (W.stamped old) (W.stamped tip) (relOf W old) (relOf W tip) (s.got r) = ⟨.err .badDelta, s.got r, []⟩ from hc)] at hout
              rw [hout]
              exact ⟨by simp, hrel0, fun k hk => by cases hk⟩
        · have hb : Delta.isDeltaPossible (W.stamped old) (W.stamped tip) (relOf W old) (relOf W tip) = false := by
            cases hx : Delta.isDeltaPossible (W.stamped old) (W.stamped tip) (relOf W old) (relOf W tip) with
            | false => rfl
            | true => exact absurd ((possible_iff old tip).1 hx) hpos
          have hc : createDelta D r d (W.stamped old) (W.stamped tip) (relOf W old) (relOf W tip) (s.got r) =
              ⟨.ok .mismatched, s.got r, []⟩ := by
            unfold createDelta
            simp only [hb, Bool.not_false, if_true, pure_run]
          rw [bind_ok hc] at hout
          simp only at hout
          rw [hout]
          exact ⟨by simp, hrel0, fun _ _ hp => absurd hp hpos⟩

/-! ## The whole job -/

theorem DRel.lists {a b : St} {tip : Str} {l : List Str} (ok : W.OK) (h : DRel W D r tip l a b) (ha : Inv W a)
    {r' n id : Str} : Lists b r' n id ↔ Lists a r' n id := by
  have hb := h.reach.inv ok
  have key : ∀ {x y : St}, Inv W x → Inv W y → (∀ r' j, y.has r' j = x.has r' j) → Lists y r' n id → Lists x r' n id := by
    intro x y hx hy hh hl
    have h1 := (hy.spec_has r' id).1 ⟨n, hl⟩
    rw [hh] at h1
    obtain ⟨m, hm⟩ := (hx.spec_has r' id).2 h1
    have e1 := hx.lists_name hm
    have e2 := hy.lists_name hl
    rw [← e2, e1]; exact hm
  exact ⟨key ha hb h.has, key hb ha (fun r' j => (h.has r' j).symm)⟩

theorem deltaRounds_run (ok : W.OK) (hW : DeltaWorld W D) {n tip : Str} (olds : List Str) (s : St) (k0 : Nat)
    (h : Reachable W s) (ht : Lists s r n tip) (ho : ∀ old ∈ olds, Lists s r n old) :
    let out := foldL (olds.map W.stamped) k0 (fun k old => do
      let j ← deltaStep W.E D r n (W.stamped tip) old
      pure (k + j)) s
    out.res ≠ .panic ∧ DRel W D r tip olds s out.st ∧
    (∀ k, out.res = .ok k → ∀ old ∈ olds, Possible W old tip →
      MarkedFailed out.st (deltaOf W old tip) ∨ HasDelta out.st r (deltaOf W old tip)) := by
  induction olds generalizing s k0 with
  | nil => exact ⟨by simp [foldL], DRel.refl h tip _, by simp⟩
  | cons o os ih =>
    obtain ⟨p1, p2, p3⟩ := deltaStep_run ok hW h ht (ho o (by simp))
    intro out
    have hout : out = ((do
        let j ← deltaStep W.E D r n (W.stamped tip) (W.stamped o)
        pure (k0 + j) : M Nat) >>= fun k1 => foldL (os.map W.stamped) k1 (fun k old => do
          let j ← deltaStep W.E D r n (W.stamped tip) old
          pure (k + j))) s := rfl
    generalize hx : deltaStep W.E D r n (W.stamped tip) (W.stamped o) s = x at *
    obtain ⟨res, s1, t1⟩ := x
    cases res with
    | panic => exact absurd rfl p1
    | err e =>
      have h1 : (do
          let j ← deltaStep W.E D r n (W.stamped tip) (W.stamped o)
          pure (k0 + j) : M Nat) s = ⟨.err e, s1, t1⟩ := by rw [bind_err hx]
      rw [bind_err h1] at hout
      rw [hout]
      exact ⟨by simp, p2.weaken (by simp), fun k hk => by cases hk⟩
    | ok j =>
      have h1 : (do
          let j ← deltaStep W.E D r n (W.stamped tip) (W.stamped o)
          pure (k0 + j) : M Nat) s = ⟨.ok (k0 + j), s1, t1⟩ := by
        rw [bind_ok hx]; simp
      rw [bind_ok h1] at hout
      have hi := h.inv ok
      obtain ⟨q1, q2, q3⟩ := ih s1 (k0 + j) p2.reach ((p2.lists ok hi).2 ht)
        (fun o' ho' => (p2.lists ok hi).2 (ho o' (by simp [ho'])))
      rw [hout]
      refine ⟨?_, p2.trans q2 (by simp) (by simp), ?_⟩
      · simpa using q1
      · intro k hk o' ho' hp
        have hk' : (foldL (os.map W.stamped) (k0 + j) (fun k old => do
          let j ← deltaStep W.E D r n (W.stamped tip) old
          pure (k + j)) s1).res = .ok k := by simpa using hk
        simp only [Out.pre_st]
        rcases List.mem_cons.1 ho' with rfl | hm
        · rcases p3 j rfl hp with hf | hd
          · exact .inl (q2.skipMono _ hf)
          · exact .inr (((q2.reach.inv ok).spec_delta r _).2 (q2.mono _ _ (((p2.reach.inv ok).spec_delta r _).1 hd)))
        · exact q3 k hk' o' hm hp

theorem getPackages_run (h : Inv W s) {n : Str} {e : RepoEntry} (hge : (s.db.ents r).get n = some e) :
    getPackages r n s = ⟨.ok (e.available.map W.stamped), s, []⟩ := by
  unfold getPackages
  rw [repoGet_bind_some _ hge]
  refine (collectL_pure (g := fun id => [W.stamped id]) ?_).trans ?_
  · intro id hid
    obtain ⟨_, ⟨pe, hpe⟩, _⟩ := (h.ent r n e hge).avail id hid
    rw [poolGet_bind_some _ hpe, (h.pool id pe hpe).pkg]; rfl
  · congr 2
    generalize e.available = l
    induction l with
    | nil => rfl
    | cons x xs ih => simp [ih]

/-- What the job may change, whatever its result. -/
structure DeltaRun (W : World) (D : DeltaEnv) (r n : Str) (s s' : St) (tip : Str) : Prop where
  lists : Lists s r n tip
  newest : ∀ id, Lists s r n id → relOf W id ≤ relOf W tip
  added : ∀ r' d, HasDelta s' r' d → HasDelta s r' d ∨
    (r' = r ∧ ¬ MarkedFailed s d ∧ ∃ old, Lists s r n old ∧ old ≠ tip ∧ d = deltaOf W old tip)
  kept : ∀ r' d, HasDelta s r' d → HasDelta s' r' d
  marked : ∀ d, MarkedFailed s' d → MarkedFailed s d ∨ ∃ old, Lists s r n old ∧ old ≠ tip ∧ d = deltaOf W old tip ∧
    Possible W old tip ∧ D.produce (W.canon old) (W.canon tip) = .pointless
  keptMarks : ∀ d, MarkedFailed s d → MarkedFailed s' d

theorem deltaInternal_run (ok : W.OK) (hW : DeltaWorld W D) (h : Reachable W s) (n : Str) :
    let out := deltaInternal W.E D r n s
    out.res ≠ .panic ∧ DRel W D r [] [] s out.st ∧ ((∀ k, out.res = .ok k → r ∈ s.db.repos.keys) ∧
      ∀ k, out.res = .ok k → ∀ a b, Lists s r n a → Lists s r n b → a = b) ∨
    out.res ≠ .panic ∧ r ∈ s.db.repos.keys ∧ ∃ tip olds, DRel W D r tip olds s out.st ∧ Lists s r n tip ∧
      (∀ id, Lists s r n id → relOf W id ≤ relOf W tip) ∧ (∀ id, id ∈ olds ↔ Lists s r n id ∧ id ≠ tip) ∧
      (∀ k, out.res = .ok k → ∀ old ∈ olds, Possible W old tip →
        MarkedFailed out.st (deltaOf W old tip) ∨ HasDelta out.st r (deltaOf W old tip)) := by
  have hi := h.inv ok
  intro out
  have hout : out = deltaInternal W.E D r n s := rfl
  unfold deltaInternal at hout
  by_cases hrepo : r ∈ s.db.repos.keys
  · obtain ⟨t0, hg, _⟩ := getRepo_run hi hrepo
    have hgr := h.got ok hrepo
    have hgi := hgr.inv ok
    rw [bind_ok hg] at hout
    cases hge : (s.db.ents r).get n with
    | none =>
      have hge' : ((s.got r).db.ents r).get n = none := by simpa using hge
      have he : getPackages r n (s.got r) = ⟨.err .notFound, s.got r, []⟩ := by
        unfold getPackages
        rw [bind_err (show repoGet r n (s.got r) = ⟨.err .notFound, s.got r, []⟩ by
          unfold repoGet
          show (match ((s.got r).db.ents r).get n with | none => throwE .notFound | some e => pure e : M RepoEntry) (s.got r) = _
          rw [hge']; rfl)]
      rw [bind_err he] at hout
      rw [hout]
      exact .inl ⟨by simp, DRel.files hgr (by simp), by simp, by simp⟩
    | some e =>
      have hge' : ((s.got r).db.ents r).get n = some e := by simpa using hge
      rw [bind_ok (getPackages_run hgi hge')] at hout
      have hl : ∀ id, Lists s r n id ↔ id ∈ e.available := fun id =>
        ⟨fun ⟨e', h1, h2⟩ => by rw [hge] at h1; cases h1; exact h2, fun hm => ⟨e, hge, hm⟩⟩
      by_cases hlen : (e.available.map W.stamped).length < 2
      · rw [if_pos hlen] at hout
        rw [hout]
        refine .inl ⟨by simp, DRel.files hgr (by simp), fun _ _ => hrepo, fun _ _ a b ha hb => ?_⟩
        rw [hl] at ha hb
        match hav : e.available with
        | [] => rw [hav] at ha; cases ha
        | [x] =>
          rw [hav, List.mem_singleton] at ha hb
          rw [ha, hb]
        | x :: y :: z => rw [hav] at hlen; simp only [List.map_cons, List.length_cons] at hlen; omega
      · rw [if_neg hlen] at hout
        have hperm := D.sortAsc_perm (e.available.map W.stamped)
        have hsort := D.sortAsc_sorted (e.available.map W.stamped)
        generalize hL : D.sortAsc (e.available.map W.stamped) = L at hperm hsort hout
        have hst : ∀ m ∈ L, m = W.stamped m.getID ∧ m.getID ∈ e.available := by
          intro m hm
          obtain ⟨id, hid, rfl⟩ := List.mem_map.1 (hperm.mem_iff.1 hm)
          rw [W.stamped_getID ok (EntOk.isPkg hi hge hid)]
          exact ⟨rfl, hid⟩
        have hids : (L.map Meta.getID).Perm e.available := by
          have h1 := hperm.map Meta.getID
          rw [List.map_map] at h1
          have : e.available.map (Meta.getID ∘ W.stamped) = e.available := by
            conv => rhs; rw [← List.map_id e.available]
            apply List.map_congr_left
            intro id hid
            exact W.stamped_getID ok (EntOk.isPkg hi hge hid)
          rwa [this] at h1
        rcases List.eq_nil_or_concat L with hnil | ⟨L', t, hcat⟩
        · rw [hnil] at hids
          have := hids.length_eq
          simp at this hlen; omega
        · rw [List.concat_eq_append] at hcat
          have htm : t ∈ L := by rw [hcat]; simp
          obtain ⟨ht1, ht2⟩ := hst t htm
          have hlast : L.getLast? = some t := by rw [hcat]; simp
          have hdrop : L.dropLast = L' := by rw [hcat]; simp
          simp only [hlast, hdrop] at hout
          have hmap : L' = (L'.map Meta.getID).map W.stamped := by
            rw [List.map_map]
            conv => lhs; rw [← List.map_id L']
            apply List.map_congr_left
            intro m hm
            exact (hst m (by rw [hcat]; simp [hm])).1
          generalize holds : L'.map Meta.getID = olds at hmap
          generalize htip : t.getID = tip at ht1 ht2
          have hidl : (olds ++ [tip]).Perm e.available := by
            rw [hcat, List.map_append, holds] at hids
            simpa [htip] using hids
          have hnd : (olds ++ [tip]).Nodup := hidl.nodup_iff.2 (hi.ent r n e hge).nodup
          have hmem : ∀ id, id ∈ olds ↔ Lists s r n id ∧ id ≠ tip := by
            intro id
            rw [hl, ← hidl.mem_iff]
            simp only [List.mem_append, List.mem_singleton]
            constructor
            · intro hm
              refine ⟨.inl hm, fun he => ?_⟩
              rw [List.nodup_append] at hnd
              exact hnd.2.2 id hm tip (by simp) he
            · rintro ⟨hm | hm, hne⟩
              · exact hm
              · exact absurd hm hne
          subst hmap
          subst ht1
          have hl' : ∀ id, Lists (s.got r) r n id ↔ Lists s r n id := fun id => by
            unfold Spec.Lists; simp
          obtain ⟨q1, q2, q3⟩ := deltaRounds_run ok hW olds (s.got r) 0 hgr ((hl' tip).2 ((hl tip).2 ht2))
            (fun o ho => (hl' o).2 ((hmem o).1 ho).1)
          rw [hout]
          refine .inr ⟨by simpa using q1, hrepo, tip, olds, ?_, (hl tip).2 ht2, ?_, hmem, ?_⟩
          · exact (DRel.files (l := []) hgr (by simp)).trans q2 (by simp) (by simp)
          · intro id hid
            rw [hl, ← hidl.mem_iff] at hid
            rcases List.mem_append.1 hid with hm | hm
            · rw [hcat, List.pairwise_append] at hsort
              exact hsort.2.2 (W.stamped id) (List.mem_map.2 ⟨id, hm, rfl⟩) (W.stamped tip) (by simp)
            · rw [List.mem_singleton.1 hm]; exact Int.le_refl _
          · intro k hk
            exact q3 k (by simpa using hk)
  · rw [bind_err (getRepo_missing hi hrepo)] at hout
    rw [hout]
    exact .inl ⟨by simp, DRel.refl h [] [], by simp, by simp⟩


/-- C34.  A delta job never panics, changes no package listing, and lists no delta twice.  It stops without touching any
delta (nothing recorded, at most one package file listed), or it picks a listed package file of the newest release, and
then every delta it lists or marks belongs to a pair (other listed package, that tip): only pairs not marked before are
listed, only pairs whose delta is pointless are marked, and nothing is dropped.  If it reports success, each such pair
for which a delta is possible ends up marked or listed. -/
theorem C34_delta_job (ok : W.OK) (hW : DeltaWorld W D) (h : Reachable W s) (r n : Str) (index : Bool) :
    let out := deltaJob W.E D r n index s
    out.res ≠ .panic ∧ Reachable W out.st ∧
    (∀ r' m id, Lists out.st r' m id ↔ Lists s r' m id) ∧
    (∀ r' m e, (out.st.db.ents r').get m = some e → e.deltas.Nodup) ∧
    ((∀ r' d, HasDelta out.st r' d ↔ HasDelta s r' d) ∧ (∀ d, MarkedFailed out.st d ↔ MarkedFailed s d) ∧
        (out.res = .ok () → Repo s r ∧ ∀ a b, Lists s r n a → Lists s r n b → a = b) ∨
      ∃ tip, DeltaRun W D r n s out.st tip ∧
        (out.res = .ok () → ∀ old, Lists s r n old → Possible W old tip →
          MarkedFailed out.st (deltaOf W old tip) ∨ HasDelta out.st r (deltaOf W old tip))) := by
  have hi := h.inv ok
  intro out
  have hout : out = deltaJob W.E D r n index s := rfl
  unfold deltaJob at hout
  have hrun := deltaInternal_run (r := r) ok hW h n
  generalize hx : deltaInternal W.E D r n s = x at hrun hout
  obtain ⟨res, s1, t1⟩ := x
  -- indexing changes nothing of interest
  have idx : ∀ u : St, Reachable W u → (mIndex W.E r u).res ≠ .panic ∧ Reachable W (mIndex W.E r u).st ∧
      (mIndex W.E r u).st.db = u.db := by
    intro u hu
    by_cases hr : r ∈ u.db.repos.keys
    · have hm := mIndex_run (r := r) ok (hu.inv ok) hr
      exact ⟨hm.noPanic, hu.step (.index r) trivial, hm.neutral.db⟩
    · rw [mIndex_missing (hu.inv ok) hr]
      exact ⟨by simp, hu, rfl⟩
  have step : res ≠ .panic → Reachable W s1 →
      out.res ≠ .panic ∧ Reachable W out.st ∧ out.st.db = s1.db ∧ (out.res = .ok () → ∃ k, res = .ok k) := by
    intro hp h1
    cases res with
    | panic => exact absurd rfl hp
    | err e =>
      rw [bind_err hx] at hout
      rw [hout]
      exact ⟨by simp, h1, rfl, by simp⟩
    | ok k =>
      rw [bind_ok hx] at hout
      cases hc : (index && decide (1 ≤ k)) with
      | true =>
        rw [hc, if_pos rfl] at hout
        rw [hout]
        obtain ⟨a, b, c⟩ := idx s1 h1
        exact ⟨by simpa using a, by simpa using b, by simpa using c, fun _ => ⟨k, rfl⟩⟩
      | false =>
        rw [hc, if_neg (by simp)] at hout
        rw [hout]
        exact ⟨by simp, by simpa using h1, by simp, fun _ => ⟨k, rfl⟩⟩
  have nd : ∀ u : St, Reachable W u → ∀ r' m e, (u.db.ents r').get m = some e → e.deltas.Nodup :=
    fun u hu r' m e hg => ((hu.inv ok).ent r' m e hg).dnodup
  rcases hrun with ⟨p1, p2, p3, p4⟩ | ⟨p1, p2, tip, olds, p3, p4, p5, p6, p7⟩
  · obtain ⟨a, b, c, d⟩ := step p1 p2.reach
    have hrel : DRel W D r [] [] s out.st := p2.trans (DRel.files (l := []) b c) (by simp) (by simp)
    refine ⟨a, b, fun r' m id => hrel.lists ok hi, nd _ b, .inl ⟨?_, ?_, ?_⟩⟩
    · intro r' d
      rw [(b.inv ok).spec_delta, hi.spec_delta]
      refine ⟨fun hd => ?_, hrel.mono r' d⟩
      rcases hrel.hasDelta r' d hd with hd | ⟨_, _, o, ho, _⟩
      · exact hd
      · cases ho
    · intro d
      refine ⟨fun hd => ?_, hrel.skipMono d⟩
      rcases hrel.skip d hd with hd | ⟨o, ho, _⟩
      · exact hd
      · cases ho
    · intro hres
      obtain ⟨k, hk⟩ := d hres
      exact ⟨p3 k hk, p4 k hk⟩
  · obtain ⟨a, b, c, d⟩ := step p1 p3.reach
    have hrel : DRel W D r tip olds s out.st := p3.trans (DRel.files (l := olds) b c) (by simp) (by simp)
    refine ⟨a, b, fun r' m id => hrel.lists ok hi, nd _ b, .inr ⟨tip, ⟨p4, p5, ?_, ?_, ?_, hrel.skipMono⟩, ?_⟩⟩
    · intro r' d hd
      rw [(b.inv ok).spec_delta] at hd
      rw [hi.spec_delta]
      rcases hrel.hasDelta r' d hd with hd | ⟨h1, h2, o, ho, h3⟩
      · exact .inl hd
      · exact .inr ⟨h1, h2, o, ((p6 o).1 ho).1, ((p6 o).1 ho).2, h3⟩
    · intro r' d hd
      rw [(b.inv ok).spec_delta]
      rw [hi.spec_delta] at hd
      exact hrel.mono r' d hd
    · intro d hd
      rcases hrel.skip d hd with hd | ⟨o, ho, h3⟩
      · exact .inl hd
      · exact .inr ⟨o, ((p6 o).1 ho).1, ((p6 o).1 ho).2, h3⟩
    · intro hres old ho hp
      obtain ⟨k, hk⟩ := d hres
      have hne : old ≠ tip := by rintro rfl; exact absurd hp.1 (by omega)
      rcases p7 k hk old ((p6 old).2 ⟨ho, hne⟩) hp with hm | hd
      · left
        rw [markedFailed_iff] at hm ⊢
        rwa [c]
      · right
        unfold Spec.HasDelta at hd ⊢
        rwa [c]

/-! ## A concrete delta run -/

namespace Demo

/-- The demo world with every `.delta.eopkg` name reserved for deltas. -/
def W2 : World := { Demo.W with isDelta := fun id => (S ".delta.eopkg").isSuffixOf id }

theorem ok2 : W2.OK := ⟨ok.parse_nil, ok.no_crash, ok.comps_no_crash, ok.groups_no_crash, ok.good⟩

/-- A producer that knows one delta, finds the one between releases 2 and 3 pointless, and fails otherwise. -/
def D2 : DeltaEnv where
  produce a b := if a = [1] ∧ b = [2] then .made [11] else if a = [2] ∧ b = [9] then .pointless else .failed
  sortAsc l := (sortD l).reverse
  sortAsc_perm l := (List.reverse_perm _).trans (sortD_perm l)
  sortAsc_sorted l := List.pairwise_reverse.2 (sortD_sorted l)

theorem isPkg2 {id : Str} (h : W2.IsPkg id) : ∃ e ∈ table, e.1 = id ∧ W2.mOf id = e.2.2.1 := by
  have h' : W2.E.parse (W2.canon id) = .good (W2.mOf id) := h
  simp only [W2, Demo.W, E] at h'
  cases hl : lookupId id with
  | none => rw [hl] at h'; simp only [show lookupByte 0 = none by decide +kernel] at h'; cases h'
  | some e =>
    rw [hl] at h'; simp only at h'
    have hm : e ∈ table := List.mem_of_find?_eq_some hl
    rw [byte_table e hm] at h'
    simp only [Parsed.good.injEq] at h'
    exact ⟨e, hm, by have := List.find?_some hl; simpa using this, h'.symm⟩

theorem table2 : ∀ e1 ∈ table, ∀ e2 ∈ table, e1.2.2.1.name = e2.2.2.1.name →
    W2.isDelta (Delta.deltaName e2.2.2.1 e1.2.2.1.rel e2.2.2.1.rel) = true ∧
    '/' ∉ Delta.deltaName e2.2.2.1 e1.2.2.1.rel e2.2.2.1.rel ∧
    ∀ e3 ∈ table, e3.1 = Delta.deltaName e2.2.2.1 e1.2.2.1.rel e2.2.2.1.rel → e3.2.2.1.name = e2.2.2.1.name := by
  decide +kernel

theorem canon2 {id : Str} {k : Nat} (h : W2.canon id = [k]) (hk : k ≠ 0) : ∃ e ∈ table, e.1 = id ∧ e.2.1 = k := by
  simp only [W2, Demo.W] at h
  cases hl : lookupId id with
  | none => rw [hl] at h; simp at h; exact absurd h.symm hk
  | some e =>
    rw [hl] at h; simp at h
    exact ⟨e, List.mem_of_find?_eq_some hl, by have := List.find?_some hl; simpa using this, h⟩

theorem table3 : (∀ e ∈ table, e.2.1 = 1 → e.1 = S "a-1.eopkg") ∧ (∀ e ∈ table, e.2.1 = 2 → e.1 = S "a-2.eopkg") := by
  decide +kernel

/-- The assumptions of C34 are met by this world. -/
theorem deltaWorld2 : DeltaWorld W2 D2 where
  name old new h1 h2 _ _ hn := by
    obtain ⟨e1, m1, rfl, g1⟩ := isPkg2 h1
    obtain ⟨e2, m2, rfl, g2⟩ := isPkg2 h2
    unfold Spec.nameOf at hn ⊢
    rw [g1, g2] at hn
    obtain ⟨a, b, c⟩ := table2 e1 m1 e2 m2 hn
    unfold Spec.deltaOf Spec.relOf
    rw [g1, g2]
    refine ⟨a, b, fun h3 => ?_⟩
    obtain ⟨e3, m3, k3, g3⟩ := isPkg2 h3
    rw [g3]
    exact c e3 m3 k3
  content old new c _ hp := by
    simp only [D2] at hp
    split at hp
    · rename_i h
      cases hp
      obtain ⟨e1, m1, rfl, k1⟩ := canon2 h.1 (by decide)
      obtain ⟨e2, m2, rfl, k2⟩ := canon2 h.2 (by decide)
      rw [table3.1 e1 m1 k1, table3.2 e2 m2 k2]
      decide +kernel
    · split at hp <;> cases hp

theorem reach2 : Reachable W2 st1 := by
  refine ⟨hist1, ?_, rfl⟩
  intro o ho
  simp only [hist1, List.mem_cons, List.not_mem_nil, or_false] at ho
  rcases ho with rfl | rfl | rfl | rfl | rfl | rfl
  · exact upload_ok _
  · exact upload_ok _
  · exact upload_ok _
  · trivial
  · show ∀ f ∈ files, W2.isDelta (baseName f) = false
    decide +kernel
  · trivial

/-- The job lists the delta between the two releases of `a`, without leaving it staged. -/
example :
    let out := deltaJob W2.E D2 (S "unstable") (S "a") true st1
    out.res = .ok () ∧
    ((out.st.db.ents (S "unstable")).get (S "a")).map RepoEntry.deltas = some [S "a-1-2-Solus-x86_64.delta.eopkg"] ∧
    out.st.fs.read (.repo (S "unstable") (S "a/a") (S "a-1-2-Solus-x86_64.delta.eopkg")) = some [11] ∧
    out.st.fs.tab (.stage (S "unstable") (S "a-1-2-Solus-x86_64.delta.eopkg")) = none := by decide +kernel

/-- The pair is one the theorem speaks about. -/
example : Lists st1 (S "unstable") (S "a") (S "a-1.eopkg") ∧ Lists st1 (S "unstable") (S "a") (S "a-2.eopkg") ∧
    Possible W2 (S "a-1.eopkg") (S "a-2.eopkg") :=
  ⟨⟨_, rfl, by decide +kernel⟩, ⟨_, rfl, by decide +kernel⟩, by unfold Spec.Possible; decide +kernel⟩

end Demo
end Ferryd
