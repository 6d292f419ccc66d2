import Verif.CoreRepeat
/-!
# PropsRepeat: running a job again right after it succeeded (C133)

The daemon gives at-least-once execution: when it is stopped between a job's last effect and the retirement of its
record, the job runs again after the restart (C117–C119).  C133 says what the second run does.
-/
namespace Ferryd
open Spec

section
variable {W : World} {s : St}

/-- C133 at full strength: running any operation again, right after it succeeded, changes nothing: not the database,
not what can be read from any file, not the published indexes (whatever the second run's result is). -/
def C133_statement : Prop := ∀ (W : World) (s : St) (o : Op), W.OK → Reachable W s → o.Ok W →
  (o.run W.E s).res = .ok () → Unchanged (o.exec W.E s) (o.exec W.E (o.exec W.E s))

/-- C133 is false of the code: trim-obsolete removes only the first debug package of an obsolete name (repo.go:1186
`break`), so each repetition removes one more. -/
theorem C133_violated : ¬ C133_statement := by
  intro hst
  have h := hst Demo.W Demo.st4 (.trimObsolete (Demo.S "unstable")) Demo.ok Demo.reach4 trivial (by decide +kernel)
  have h1 := congrFun (congrFun (St.has_congr h.db) (Demo.S "unstable")) (Demo.S "o-dbginfo-2.eopkg")
  revert h1
  decide +kernel

/-- What C133 needs of the two jobs for which it fails: trimming to a number of packages must find, for every name, no
second package with the tip's release; trim-obsolete must find at most one debug package of each obsolete name. -/
def Op.Settles (W : World) (s : St) : Op → Prop
  | .trimPackages r _ => ∀ n t id, Tip s r n t → Lists s r n id → relOf W id = relOf W t → id = t
  | .trimObsolete r => ∀ c obs, s.fs.read (.asset r .distribution) = some c → W.E.parseDist c = some obs →
      ∀ b ∈ obs, ∀ x y, Lists s r (b ++ "-dbginfo".toList) x → Lists s r (b ++ "-dbginfo".toList) y → x = y
  | _ => True

theorem trim_repeat (ok : W.OK) (h : Reachable W s) {r : Str} (hr : Repo s r) {k : Int} (hk : 1 ≤ k)
    (hu : ∀ n t id, Tip s r n t → Lists s r n id → relOf W id = relOf W t → id = t) :
    W.trimAll (mTrimPackages W.E r k s).st r k.toNat = [] := by
  have hm := mTrimPackages_run ok (h.inv ok) hr k hk
  have hi' := hm.job.inv
  unfold World.trimAll
  rw [List.flatMap_eq_nil_iff]
  intro e he
  have hge := mem_entries hi' r he
  have hE := hi'.ent r _ e hge
  obtain ⟨t, ht⟩ : ∃ t, Tip s r e.name t := by
    have hl : Lists s r e.name e.published := by
      have := (hi'.lists_iff r e.name e.published).1 ⟨e, hge, hE.pub⟩
      exact ((h.inv ok).lists_iff r e.name e.published).2 ⟨((hm.job.has r _).1 this.1).1, this.2⟩
    exact Inv.tip_of_lists hl
  have hb := (C19_trim_bound_partial ok h hr k.toNat (by omega) e.name e.available (fun x hx => by
    rw [show ((k.toNat : Nat) : Int) = k by omega]; exact ⟨e, hge, hx⟩) hE.nodup).2 t ht (fun id hid hrel => hu _ t id ht hid hrel)
  rw [trimIds_eq]
  split
  · rfl
  · have hp := (ranked_spec ok (e := e) (fun id hid => EntOk.isPkg hi' hge hid)).1
    rw [List.drop_eq_nil_of_le (by rw [hp.length_eq]; exact hb)]; rfl

theorem obsolete_repeat (ok : W.OK) (h : Reachable W s) {r : Str} (hr : Repo s r) {c : Content} {obs : List Str}
    (hc : s.fs.read (.asset r .distribution) = some c) (hobs : W.E.parseDist c = some obs)
    (hu : ∀ b ∈ obs, ∀ x y, Lists s r (b ++ "-dbginfo".toList) x → Lists s r (b ++ "-dbginfo".toList) y → x = y) :
    W.obsAll (mTrimObsolete W.E r s).st r obs = [] := by
  have hd : W.distOf s r = some (some obs) := by unfold World.distOf; rw [hc]; simp [hobs]
  have hm := mTrimObsolete_run ok (h.inv ok) hr hd
  have hi' := hm.job.inv
  have hC := C20_trim_obsolete_partial ok h hr hc hobs
  unfold World.obsAll
  rw [List.flatMap_eq_nil_iff]
  intro e he
  have hge := mem_entries hi' r he
  have hE := hi'.ent r _ e hge
  rw [obsIds_entry W obs e.name _ fun x hx => (hE.avail x hx).2.2]
  split
  · rename_i hcond
    exfalso
    rcases stripDbg_cases e.name with ⟨b, hb, hs⟩ | ⟨_, hs⟩
    · rw [hs] at hcond
      have hl : Lists (mTrimObsolete W.E r s).st r (b ++ "-dbginfo".toList) e.published := by
        rw [← hb]; exact ⟨e, hge, hE.pub⟩
      obtain ⟨h1, x, h2, h3, _⟩ := (hC.2.1 b hcond.1 e.published).1 hl
      exact h3 (hu b hcond.1 _ _ h2 h1)
    · exact hcond.2 hs
  · rfl

theorem pull_repeat (ok : W.OK) (h : Reachable W s) {src dst : Str} (hs : Repo s src) (hd : Repo s dst)
    (hok : ∃ l, (mPullRepo W.E src dst s).res = .ok l) {s1 : St} (hso : SameObs (mPullRepo W.E src dst s).st s1)
    (hi1 : Inv W s1) : Unchanged s1 (mPullRepo W.E src dst s1).st := by
  have hi := h.inv ok
  obtain ⟨l, hl⟩ := hok
  obtain ⟨hc, hp⟩ : ¬ W.Conflict s dst src ∧ Pulled W s dst src (mPullRepo W.E src dst s) := by
    rcases mPullRepo_run ok hi hs hd with hx | ⟨_, s', tr, hx, _⟩
    · exact hx
    · rw [hx] at hl; cases hl
  have hi' := hp.job.inv
  have hC := C13_pull ok h hs hd (by rw [newer_iff]; exact hc)
  have key : ∀ n e, ((mPullRepo W.E src dst s).st.db.ents src).get n = some e →
      ∃ l, ((mPullRepo W.E src dst s).st.db.ents dst).get n = some l ∧
        (W.mOf e.published).rel = (W.mOf l.published).rel := by
    intro n e hge
    by_cases he : dst = src
    · subst he; exact ⟨e, hge, rfl⟩
    · rw [hp.job.frame.ents src (fun e => he e.symm)] at hge
      have ht : Tip s src n e.published := ⟨e, hge, rfl⟩
      obtain ⟨t', ht', hle⟩ := hC.2.1 n _ ht
      obtain ⟨l, hg, rfl⟩ := ht'
      refine ⟨l, hg, ?_⟩
      simp only [relOf_eq] at hle
      rcases (hC.1 n l.published).1 ⟨l, hg, (hi'.ent dst n l hg).pub⟩ with ho | ⟨ho, _⟩
      · obtain ⟨t0, ht0⟩ := Inv.tip_of_lists ho
        have h1 := hi.tip_top ht0 ho
        obtain ⟨l0, hl0, rfl⟩ := ht0
        simp only [relOf_eq] at h1
        have h2 : ¬ (W.mOf e.published).rel < (W.mOf l0.published).rel := fun hx => hc ⟨n, e, l0, hge, hl0, hx⟩
        omega
      · rw [tip_unique ho ht]
  have hc' : ¬ W.Conflict (mPullRepo W.E src dst s).st dst src := by
    rintro ⟨n, e, l, h1, h2, h3⟩
    obtain ⟨l', h4, h5⟩ := key n e h1
    rw [h2] at h4; cases h4; omega
  refine pull_idle ok hi1 (by rw [hso.db, hp.job.repos]; exact hs) (by rw [hso.db, hp.job.repos]; exact hd)
    (by rw [World.conflict_congr hso.db]; exact hc') ?_ ?_ ?_ (hso.unchanged.fresh (hp.changed l hl).2)
  · rw [World.pullTodo_congr hso.db]
    cases htodo : W.pullTodo (mPullRepo W.E src dst s).st dst src with
    | nil => rfl
    | cons x xs =>
      exfalso
      obtain ⟨j, n⟩ := x
      obtain ⟨e, h1, _, h3⟩ := (mem_pullTodo hi' dst src hc' j n).1 (by rw [htodo]; simp)
      obtain ⟨l', h4, h5⟩ := key n e h1
      have := h3 l' h4
      omega
  · intro hne a c hr
    have h1 := hp.job.frame.read (.asset src a) (by simp [Path.inRepo]; exact fun e => hne e.symm) rfl (by simp)
    rw [hso.read, h1] at hr
    rw [hso.read, hp.assets hne a, hr]
  · intro he a c hr
    rw [hso.read, hp.selfAssets he a] at hr
    cases hx : s.fs.read (.asset dst a) with
    | none => rw [hx] at hr; cases hr
    | some c' => rw [hx] at hr; simpa using hr.symm

theorem putFile_again {p : Path} {c : Content} (h : Inv W s) (hc : s.fs.read p = some c) :
    Unchanged s (s.putFile p c) where
  db := rfl
  idx := rfl
  read := by
    funext q
    by_cases hq : q = p
    · subst hq
      rw [hc]; simp [St.putFile, FS.read]
    · exact putFile_read h hq c

/-- A second run from any state that agrees with the first one's result, except in the memory of the daemon. -/
theorem op_again (ok : W.OK) (h : Reachable W s) (o : Op) (ho : o.Ok W)
    (hok : (o.run W.E s).res = .ok ()) (hset : o.Settles W s) {s1 : St} (hso : SameObs (o.exec W.E s) s1)
    (hi1 : Inv W s1) : Unchanged s1 (o.exec W.E s1) := by
  have hi := h.inv ok
  unfold Op.exec at hso ⊢
  cases o with
  | create r =>
    simp only [Op.run] at hok hso ⊢
    have hr1 : r ∈ s1.db.repos.keys := by
      rw [hso.db]
      by_cases hr : r ∈ s.db.repos.keys
      · obtain ⟨tr, hx, _⟩ := mCreateRepo_exists (W := W) hi hr
        rw [hx] at hok; cases hok
      · cases hres : reservedKey r with
        | true => rw [mCreateRepo_reserved hi hr hres] at hok; cases hok
        | false =>
          rw [(mCreateRepo_run ok hi hr hres).repos]
          exact (KV.mem_keys_put _ _ _ _).2 (Or.inl rfl)
    obtain ⟨tr, hx, _⟩ := mCreateRepo_exists (W := W) hi1 hr1
    rw [hx]
    exact (SameObs.got _ r).unchanged
  | delete r =>
    simp only [Op.run, mDeleteRepo] at hok hso ⊢
    by_cases hr : r ∈ s.db.repos.keys
    · obtain ⟨s', tr, hx, hdl, _⟩ := deleteRepo_run ok (hi.delReady hr)
      rw [hx] at hso
      have hr1 : r ∉ s1.db.repos.keys := by
        rw [hso.db, hdl.repos, KV.mem_keys_del]; simp
      rw [deleteRepo_missing hi1 hr1]
      exact Unchanged.refl _
    · rw [deleteRepo_missing hi hr] at hok; cases hok
  | clone a b f =>
    simp only [Op.run] at hok hso ⊢
    by_cases ha : a ∈ s.db.repos.keys
    · by_cases hb : b ∈ s.db.repos.keys ∨ reservedKey b = true
      · obtain ⟨e, u, tr, hx, _⟩ := mCloneRepo_bad (W := W) hi ha hb f
        rw [hx] at hok; cases hok
      · simp only [not_or, Bool.not_eq_true] at hb
        have hc := mCloneRepo_run ok hi ha hb.1 hb.2 f
        obtain ⟨e, u, tr, hx, hso, _⟩ := mCloneRepo_bad (W := W) (src := a) (new := b) hi1
          (by rw [hso.db, hc.repos]; exact (KV.mem_keys_put _ _ _ _).2 (Or.inr ha))
          (Or.inl (by rw [hso.db, hc.repos]; exact (KV.mem_keys_put _ _ _ _).2 (Or.inl rfl))) f
        rw [hx]
        exact hso.unchanged
    · rw [mCloneRepo_missing hi ha] at hok; cases hok
  | pull a b =>
    simp only [Op.run, discard_st] at hok hso ⊢
    by_cases hk : a ∈ s.db.repos.keys ∧ b ∈ s.db.repos.keys
    · exact pull_repeat ok h hk.1 hk.2 (discard_ok hok) hso hi1
    · obtain ⟨u, tr, hx, _⟩ := mPullRepo_missing (W := W) hi (src := a) (dst := b)
        (Classical.byContradiction fun hx => hk ⟨Classical.byContradiction fun h1 => hx (Or.inl h1),
          Classical.byContradiction fun h1 => hx (Or.inr h1)⟩)
      obtain ⟨l, hl⟩ := discard_ok hok
      rw [hx] at hl; cases hl
  | removeSource r n k =>
    simp only [Op.run] at hok hso ⊢
    by_cases hr : r ∈ s.db.repos.keys
    · rcases mRemoveSource_run ok hi hr n k with ⟨_, hm⟩ | ⟨_, tr, hx, _⟩
      · have hr1 : r ∈ s1.db.repos.keys := by rw [hso.db, hm.job.repos]; exact hr
        rcases mRemoveSource_run ok hi1 hr1 n k with ⟨hne, _⟩ | ⟨_, tr, hx, _⟩
        · exfalso
          obtain ⟨j, hj⟩ := List.exists_mem_of_ne_nil _ hne
          obtain ⟨hj1, hj2⟩ := List.mem_filter.1 hj
          have h2 := (hm.job.has r j).1 (by rw [← St.has_congr hso.db]; exact (hi1.mem_ids r j).1 hj1)
          exact h2.2 ⟨rfl, List.mem_filter.2 ⟨(hi.mem_ids r j).2 h2.1, hj2⟩⟩
        · rw [hx]; exact (SameObs.got _ r).unchanged
      · rw [hx] at hok; cases hok
    · rw [mRemoveSource_missing hi hr] at hok; cases hok
  | copySource a b n k sk =>
    simp only [Op.run] at hok hso ⊢
    by_cases hk : a ∈ s.db.repos.keys ∧ b ∈ s.db.repos.keys
    · by_cases hne : (s.ids a).filter (W.matchesSrc n k) = []
      · obtain ⟨tr, hx, _⟩ := mCopySource_none ok hi hk.1 hk.2 n k sk hne
        rw [hx] at hok; cases hok
      · obtain ⟨o, hx, _, _, hj, h1, h2⟩ := mCopySource_run ok hi hk.1 hk.2 n k sk hne
        subst hx
        refine copySource_idle ok hi1 (by rw [hso.db, hj.repos]; exact hk.1) (by rw [hso.db, hj.repos]; exact hk.2) n k sk ?_ ?_
        · intro j hjm
          obtain ⟨hj1, hj2⟩ := List.mem_filter.1 hjm
          rcases (hj.has a j).1 (by rw [← St.has_congr hso.db]; exact (hi1.mem_ids a j).1 hj1) with h3 | ⟨h3, h4⟩
          · rw [St.has_congr hso.db]
            exact (hj.has b j).2 (Or.inr ⟨rfl, List.mem_filter.2 ⟨(hi.mem_ids a j).2 h3, hj2⟩⟩)
          · rw [St.has_congr hso.db]
            exact (hj.has b j).2 (Or.inr ⟨rfl, h4⟩)
        · intro hsk; exact hso.unchanged.fresh ((h1 hsk).1 hok)
    · obtain ⟨u, tr, hx, _⟩ := mCopySource_missing (W := W) hi (src := a) (dst := b)
        (Classical.byContradiction fun hx => hk ⟨Classical.byContradiction fun h1 => hx (Or.inl h1),
          Classical.byContradiction fun h1 => hx (Or.inr h1)⟩) n k sk
      rw [hx] at hok; cases hok
  | trimObsolete r =>
    simp only [Op.run] at hok hso ⊢
    by_cases hr : r ∈ s.db.repos.keys
    · cases hd : W.distOf s r with
      | none =>
        obtain ⟨e, tr, hx, _⟩ := mTrimObsolete_err (W := W) hi hr (Or.inl hd)
        rw [hx] at hok; cases hok
      | some d =>
        cases d with
        | none =>
          obtain ⟨e, tr, hx, _⟩ := mTrimObsolete_err (W := W) hi hr (Or.inr hd)
          rw [hx] at hok; cases hok
        | some obs =>
          obtain ⟨c, hc, hobs⟩ : ∃ c, s.fs.read (.asset r .distribution) = some c ∧ W.E.parseDist c = some obs := by
            unfold World.distOf at hd
            cases hx : s.fs.read (.asset r .distribution) with
            | none => rw [hx] at hd; simp at hd
            | some c =>
              rw [hx] at hd
              refine ⟨c, rfl, ?_⟩
              simp only at hd
              cases hy : W.E.parseDist c with
              | none => rw [hy] at hd; cases hd
              | some o => rw [hy] at hd; simpa using hd
          have hm := mTrimObsolete_run ok hi hr hd
          have hr1 : r ∈ s1.db.repos.keys := by rw [hso.db, hm.job.repos]; exact hr
          have hd1 : W.distOf s1 r = some (some obs) := by
            rw [← hd]; unfold World.distOf; rw [hso.read, hm.asset]
          have hm1 := mTrimObsolete_run ok hi1 hr1 hd1
          have hid := hm1.idle (by unfold World.obsAll; rw [hso.db]; exact obsolete_repeat ok h hr hc hobs (hset c obs hc hobs))
          exact ⟨hid.1.db, hid.1.read, hid.2 (hso.unchanged.fresh (hm.fresh hok))⟩
    · rw [mTrimObsolete_missing hi hr] at hok; cases hok
  | trimPackages r k =>
    simp only [Op.run] at hok hso ⊢
    by_cases hr : r ∈ s.db.repos.keys
    · by_cases hk : 1 ≤ k
      · have hm := mTrimPackages_run ok hi hr k hk
        have hr1 : r ∈ s1.db.repos.keys := by rw [hso.db, hm.job.repos]; exact hr
        have hid := (mTrimPackages_run ok hi1 hr1 k hk).idle (by unfold World.trimAll; rw [hso.db]; exact trim_repeat ok h hr hk hset)
        exact ⟨hid.1.db, hid.1.read, hid.2 (hso.unchanged.fresh (hm.fresh hok))⟩
      · obtain ⟨tr, hx, _⟩ := mTrimPackages_small (W := W) hi hr k (by omega)
        rw [hx] at hok; cases hok
    · rw [mTrimPackages_missing hi hr] at hok; cases hok
  | addPackages r fs st =>
    simp only [Op.run] at hok hso ⊢
    by_cases hr : r ∈ s.db.repos.keys
    · cases st with
      | false =>
        obtain ⟨done, rest, hfs, hj, himp, _, herr, hfr, _⟩ := (mAddPackages_run ok hi hr fs ho).spec
        obtain rfl : rest = [] := by
          apply Classical.byContradiction
          intro hx
          obtain ⟨e, he⟩ := herr hx
          rw [he] at hok; cases hok
        rw [List.append_nil] at hfs; subst hfs
        refine addPackages_idle ok hi1 (by rw [hso.db, hj.repos]; exact hr) ?_ ?_ (hso.unchanged.fresh (hfr hok))
        · intro f hf
          refine ⟨?_, (himp f hf).2⟩
          rw [hso.read, hj.frame.read (.ext f) rfl rfl (by simp)]; exact (himp f hf).1
        · intro f hf
          rw [St.has_congr hso.db]
          exact (hj.has r _).2 (Or.inr ⟨rfl, List.mem_map.2 ⟨f, hf, rfl⟩⟩)
      | true =>
        obtain ⟨done, rest, hfs, hj, himp, _, herr, hfr, _⟩ := (mAddPackagesStrict_run ok hi hr fs ho).spec
        obtain rfl : rest = [] := by
          apply Classical.byContradiction
          intro hx
          obtain ⟨e, he⟩ := herr hx
          rw [he] at hok; cases hok
        rw [List.append_nil] at hfs; subst hfs
        refine addPackagesStrict_idle ok hi1 (by rw [hso.db, hj.repos]; exact hr) ho ?_ (hso.unchanged.fresh (hfr hok))
        intro f hf
        rw [St.has_congr hso.db]
        exact (hj.has r _).2 (Or.inr ⟨rfl, List.mem_map.2 ⟨f, hf, rfl⟩⟩)
    · rw [mAddPackages_missing hi hr] at hok; cases hok
  | index r =>
    simp only [Op.run] at hok hso ⊢
    by_cases hr : r ∈ s.db.repos.keys
    · have hm := mIndex_run ok hi hr
      exact mIndex_same ok hi1 (by rw [hso.db, hm.neutral.db]; exact hr) (hso.unchanged.fresh (hm.fresh hok))
    · rw [mIndex_missing hi hr] at hok; cases hok
  | addDelta r d f t =>
    simp only [Op.run, mAddDelta] at hok hso ⊢
    by_cases hr : r ∈ s.db.repos.keys
    · obtain ⟨tr, hg, _⟩ := getRepo_run hi hr
      have hgi := hi.got hr
      rw [bind_ok hg] at hok hso
      have key : r ∈ s1.db.repos.keys ∧ s1.hasDelta r d = true := by
        rw [hso.db, St.hasDelta_congr hso.db]
        show r ∈ (addDelta W.E r (.stage r d) f t (s.got r)).st.db.repos.keys ∧ (addDelta W.E r (.stage r d) f t (s.got r)).st.hasDelta r d = true
        rcases addDelta_run (r := r) ok hgi ho.1 ho.2.1 ho.2.2 with ⟨⟨e, hx⟩, _⟩ | ⟨hx, hh⟩ |
            ⟨c, e, k, di, s', tr', hx, ha, hge, _⟩
        · rw [hx] at hok; cases hok
        · rw [hx]; exact ⟨by simpa using hr, hh⟩
        · rw [hx]; exact ⟨by rw [ha.repos]; simpa using hr, (ha.hasDelta hgi hge r d).2 (Or.inr ⟨rfl, rfl⟩)⟩
      obtain ⟨k2, k3⟩ := key
      have k1 := hi1
      obtain ⟨tr1, hg1, _⟩ := getRepo_run k1 k2
      rw [bind_ok hg1]
      have hgi1 := k1.got k2
      rcases addDelta_run (r := r) ok hgi1 ho.1 ho.2.1 ho.2.2 with ⟨⟨e, hx⟩, _⟩ | ⟨hx, hh⟩ |
          ⟨c, e, k, di, s', tr', hx, ha, hge, _, _, hni, _⟩
      · rw [hx]; exact (SameObs.got _ r).unchanged
      · rw [hx]; exact (SameObs.got _ r).unchanged
      · exfalso
        rw [← St.hasDelta_congr (s1.got_db r)] at k3
        obtain ⟨e', h1, h2⟩ := (hgi1.hasDelta_iff r d).1 k3
        rw [hge] at h1; cases h1; exact hni h2
    · rw [bind_err (getRepo_missing hi hr)] at hok; cases hok
  | refDelta r d =>
    simp only [Op.run, mRefDelta] at hok hso ⊢
    by_cases hr : r ∈ s.db.repos.keys
    · obtain ⟨tr, hg, _⟩ := getRepo_run hi hr
      have hgi := hi.got hr
      rw [bind_ok hg] at hok hso
      have key : r ∈ s1.db.repos.keys ∧ s1.hasDelta r d = true := by
        rw [hso.db, St.hasDelta_congr hso.db]
        show r ∈ (refDelta W.E r d (s.got r)).st.db.repos.keys ∧ (refDelta W.E r d (s.got r)).st.hasDelta r d = true
        rcases refDelta_run (r := r) ok hgi ho with ⟨hx, _⟩ | ⟨hx, hh⟩ |
            ⟨c, e, k, di, s', tr', hx, ha, hge, _⟩
        · rw [hx] at hok; cases hok
        · rw [hx]; exact ⟨by simpa using hr, hh⟩
        · rw [hx]; exact ⟨by rw [ha.repos]; simpa using hr, (ha.hasDelta hgi hge r d).2 (Or.inr ⟨rfl, rfl⟩)⟩
      obtain ⟨k2, k3⟩ := key
      have k1 := hi1
      obtain ⟨tr1, hg1, _⟩ := getRepo_run k1 k2
      rw [bind_ok hg1]
      have hgi1 := k1.got k2
      rcases refDelta_run (r := r) ok hgi1 ho with ⟨hx, _⟩ | ⟨hx, hh⟩ |
          ⟨c, e, k, di, s', tr', hx, ha, hge, _, _, hni, _⟩
      · rw [hx]; exact (SameObs.got _ r).unchanged
      · rw [hx]; exact (SameObs.got _ r).unchanged
      · exfalso
        rw [← St.hasDelta_congr (s1.got_db r)] at k3
        obtain ⟨e', h1, h2⟩ := (hgi1.hasDelta_iff r d).1 k3
        rw [hge] at h1; cases h1; exact hni h2
    · rw [bind_err (getRepo_missing hi hr)] at hok; cases hok
  | markFailed i d =>
    simp only [Op.run] at hok hso ⊢
    have key : (s1.db.skip.get i).isSome = true := by
      rw [hso.db]
      rcases markDeltaFailed_run s i d with ⟨hx, hh⟩ | hx | ⟨s', hx, rfl⟩
      · rw [hx]; exact hh
      · rw [hx] at hok; cases hok
      · rw [hx]; simp
    rcases markDeltaFailed_run s1 i d with ⟨hx, hh⟩ | hx | ⟨s', hx, rfl⟩
    · rw [hx]; exact Unchanged.refl _
    · rw [hx]; exact Unchanged.refl _
    · exfalso
      unfold markDeltaFailed at hx
      simp only [getSt_bind] at hx
      cases hy : s1.db.skip.get i with
      | none => rw [hy] at key; cases key
      | some v => rw [hy] at hx; cases congrArg Out.tr hx
  | upload f c => exact putFile_again hi1 (by rw [hso.read]; simp [Op.run, stepM, St.putFile, FS.read])
  | unlink f =>
    simp only [Op.run, removeFile_run] at hso ⊢
    exact ⟨rfl, by
      funext q
      rw [hso.read]
      have := congrFun hso.read q
      revert this
      simp only [St.setFs, FS.read, FS.setTab]
      split <;> simp_all, rfl⟩
  | putAsset r a c => exact putFile_again hi1 (by rw [hso.read]; simp [Op.run, stepM, St.putFile, FS.read])
  | stage r d c => exact putFile_again hi1 (by rw [hso.read]; simp [Op.run, stepM, St.putFile, FS.read])
  | unstage r d =>
    simp only [Op.run, removeFile_run] at hso ⊢
    exact ⟨rfl, by
      funext q
      rw [hso.read]
      have := congrFun hso.read q
      revert this
      simp only [St.setFs, FS.read, FS.setTab]
      split <;> simp_all, rfl⟩
  | restart => exact ⟨rfl, rfl, rfl⟩

/-- C133, what holds: running an operation again right after it succeeded changes nothing, for every operation; the two
trimming jobs need what `Op.Settles` says. -/
theorem C133_repeat_partial (ok : W.OK) (h : Reachable W s) (o : Op) (ho : o.Ok W)
    (hok : (o.run W.E s).res = .ok ()) (hset : o.Settles W s) :
    Unchanged (o.exec W.E s) (o.exec W.E (o.exec W.E s)) :=
  op_again ok h o ho hok hset (SameObs.refl _) ((h.step o ho).inv ok)

/-- C133, the case of a daemon stopped after the job's last effect and before the job was retired: the job runs again on the
restarted daemon and changes nothing. -/
theorem C133_repeat_restarted_partial (ok : W.OK) (h : Reachable W s) (o : Op) (ho : o.Ok W)
    (hok : (o.run W.E s).res = .ok ()) (hset : o.Settles W s) :
    Unchanged (o.exec W.E s) (o.exec W.E (Op.exec W.E (o.exec W.E s) .restart)) :=
  Unchanged.trans (b := Op.exec W.E (o.exec W.E s) .restart) ⟨rfl, rfl, rfl⟩
    (op_again ok h o ho hok hset ⟨rfl, rfl, rfl, rfl, rfl⟩ (((h.step o ho).step .restart trivial).inv ok))

/-- Non-vacuity of C133: in the demo history, trimming to one package succeeds, meets `Op.Settles`, and removes something;
so does an import, and its repetition succeeds. -/
example : (Op.trimPackages (Demo.S "unstable") 1).Settles Demo.W Demo.st1 ∧
    ((Op.trimPackages (Demo.S "unstable") 1).run Demo.E Demo.st1).res = .ok () ∧
    ((Op.trimPackages (Demo.S "unstable") 1).exec Demo.E Demo.st1).has (Demo.S "unstable") (Demo.S "a-1.eopkg") = false ∧
    Demo.st1.has (Demo.S "unstable") (Demo.S "a-1.eopkg") = true := by
  refine ⟨?_, by decide +kernel, by decide +kernel, by decide +kernel⟩
  intro n t id ht hl hrel
  have hi := Demo.reach1.inv Demo.ok
  obtain ⟨e, hge, rfl⟩ := ht
  obtain ⟨e', hge', hin⟩ := hl
  rw [hge] at hge'; cases hge'
  have key : ∀ x ∈ Demo.st1.db.ents (Demo.S "unstable"), ∀ id ∈ x.2.available,
      (Demo.W.mOf id).rel = (Demo.W.mOf x.2.published).rel → id = x.2.published := by decide +kernel
  exact key _ (KV.mem_of_get hge) id hin hrel

end
end Ferryd
