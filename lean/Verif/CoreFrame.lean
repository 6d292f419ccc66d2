import Verif.Spec
/-!
# CoreFrame: which repository an operation may touch
-/
namespace Ferryd
variable {W : World} {s : St}

/-- The repository an operation is asked to change. -/
def Op.target : Op → Option Str
  | .create r => some r
  | .delete r => some r
  | .clone _ b _ => some b
  | .pull _ b => some b
  | .removeSource r _ _ => some r
  | .copySource _ b _ _ _ => some b
  | .trimObsolete r => some r
  | .trimPackages r _ => some r
  | .addPackages r _ _ => some r
  | .index r => some r
  | .addDelta r _ _ _ => some r
  | .refDelta r _ => some r
  | .markFailed _ _ => none
  | .upload _ _ => none
  | .unlink _ => none
  | .putAsset r _ _ => some r
  | .stage r _ _ => some r
  | .unstage r _ => some r
  | .restart => none

/-- Operations that reference delta packages. -/
def Op.addsDeltas : Op → Bool
  | .clone _ _ full => full
  | .addDelta _ _ _ _ => true
  | .refDelta _ _ => true
  | _ => false

/-- Another repository `r` is as it was. -/
structure Untouched (W : World) (dl : Prop) (s s' : St) (r : Str) : Prop where
  repo : r ∈ s'.db.repos.keys ↔ r ∈ s.db.repos.keys
  ents : s'.db.ents r = s.db.ents r
  idx : s'.fs.idx r = s.fs.idx r
  file : ∀ d id, (dl → W.isDelta id = false) → s'.fs.read (.repo r d id) = s.fs.read (.repo r d id)
  fileTab : ∀ d id, (s'.fs.tab (.repo r d id)).isSome = (s.fs.tab (.repo r d id)).isSome
  asset : ∀ a, s'.fs.read (.asset r a) = s.fs.read (.asset r a)

theorem Frame.untouched {dl : Prop} {s' : St} {x r : Str} (h : Frame W dl s s' x) (hr : r ≠ x)
    (hk : r ∈ s'.db.repos.keys ↔ r ∈ s.db.repos.keys) : Untouched W dl s s' r where
  repo := hk
  ents := h.ents r hr
  idx := h.idx r hr
  file d id hd := h.read _ (by simp [Path.inRepo, hr]) rfl (fun hdl => .inr (hd hdl))
  fileTab d id := h.tab _ (by simp [Path.inRepo, hr]) rfl
  asset a := h.read _ (by simp [Path.inRepo, hr]) rfl (fun _ => .inl rfl)

theorem SameObs.untouched {dl : Prop} {s' : St} {r : Str} (h : SameObs s s') : Untouched W dl s s' r where
  repo := by rw [h.db]
  ents := by rw [h.db]
  idx := by rw [h.idx]
  file d id _ := by rw [h.read]
  fileTab d id := by rw [h.tab]
  asset a := by rw [h.read]

theorem DeletedFull.untouched {dl : Prop} {s' : St} {x r : Str} (h : DeletedFull W s s' x) (hi : Inv W s)
    (hr : r ≠ x) : Untouched W dl s s' r where
  repo := by
    rw [h.toDeleted.keys hi]; exact ⟨fun y => y.2, fun y => ⟨hr, y⟩⟩
  ents := h.entsOther r hr
  idx := by rw [h.idx, if_neg hr]
  file d id _ := by
    unfold FS.read
    rw [h.tab, h.data]; simp [rmPath, Path.inRepo, hr]
  fileTab d id := by rw [h.tab]; simp [rmPath, Path.inRepo, hr]
  asset a := by
    unfold FS.read
    rw [h.tab, h.data]; simp [rmPath, Path.inRepo, hr]

theorem putFile_read (h : Inv W s) {p q : Path} (hq : q ≠ p) (c : Content) :
    (s.putFile p c).fs.read q = s.fs.read q := by
  simp only [St.putFile, St.setFs_fs, FS.read, FS.setData_tab, FS.setTab_tab, if_neg hq]
  cases hi : s.fs.tab q with
  | none => rfl
  | some i =>
    have := h.fs.fresh q i hi
    simp only [Option.map_some, FS.setData_data]
    rw [if_neg (by omega)]; rfl

theorem putFile_untouched {dl : Prop} (h : Inv W s) {p : Path} {c : Content} {r : Str}
    (hp : ∀ d id, p ≠ .repo r d id) (ha : ∀ a, p ≠ .asset r a) : Untouched W dl s (s.putFile p c) r where
  repo := Iff.rfl
  ents := rfl
  idx := rfl
  file d id _ := putFile_read h (Ne.symm (hp d id)) c
  fileTab d id := by simp [St.putFile, Ne.symm (hp d id)]
  asset a := putFile_read h (Ne.symm (ha a)) c

theorem Op.untouched (ok : W.OK) (h : Inv W s) (o : Op) (ho : o.Ok W) (r : Str) (hr : o.target ≠ some r) :
    Untouched W (o.addsDeltas = true) s (o.exec W.E s) r := by
  unfold Op.exec
  cases o with
  | create x =>
    have hx : r ≠ x := fun e => hr (by rw [e]; rfl)
    simp only [Op.run]
    by_cases hk : x ∈ s.db.repos.keys
    · obtain ⟨tr, hrun, ht⟩ := mCreateRepo_exists (W := W) h hk
      rw [hrun]; exact (SameObs.got s x).untouched
    · cases hres : reservedKey x with
      | true => rw [mCreateRepo_reserved h hk hres]; exact (SameObs.refl s).untouched
      | false =>
        have := mCreateRepo_run ok h hk hres
        refine (this.frame.weaken (fun hf => hf.elim)).untouched hx ?_
        rw [this.repos, KV.mem_keys_put]; exact ⟨fun y => y.resolve_left hx, .inr⟩
  | delete x =>
    have hx : r ≠ x := fun e => hr (by rw [e]; rfl)
    simp only [Op.run, mDeleteRepo]
    by_cases hk : x ∈ s.db.repos.keys
    · obtain ⟨s', tr, hrun, hd, ht⟩ := deleteRepo_run ok (h.delReady hk)
      rw [hrun]; exact hd.untouched h hx
    · rw [deleteRepo_missing h hk]; exact (SameObs.refl s).untouched
  | clone a b f =>
    have hx : r ≠ b := fun e => hr (by rw [e]; rfl)
    simp only [Op.run]
    by_cases ha : a ∈ s.db.repos.keys
    · by_cases hb : b ∈ s.db.repos.keys ∨ reservedKey b = true
      · obtain ⟨e, u, tr, hrun, hso, hi, ht⟩ := mCloneRepo_bad (W := W) h ha hb f
        rw [hrun]; exact hso.untouched
      · have hb1 : b ∉ s.db.repos.keys := fun x => hb (.inl x)
        have hb2 : reservedKey b = false := by
          cases hx : reservedKey b with
          | true => exact absurd (.inr hx) hb
          | false => rfl
        have := mCloneRepo_run ok h ha hb1 hb2 f
        refine this.frame.untouched hx ?_
        rw [this.repos, KV.mem_keys_put]; exact ⟨fun y => y.resolve_left hx, .inr⟩
    · rw [mCloneRepo_missing h ha]; exact (SameObs.refl s).untouched
  | pull a b =>
    have hx : r ≠ b := fun e => hr (by rw [e]; rfl)
    simp only [Op.run]
    rw [(discard_run (mPullRepo W.E a b) s).1]
    by_cases hk : a ∈ s.db.repos.keys ∧ b ∈ s.db.repos.keys
    · rcases mPullRepo_run ok h hk.1 hk.2 with ⟨_, hp⟩ | ⟨_, s', tr, hrun, hdb, hi, hf, _, _, ht⟩
      · exact (hp.job.frame.weaken (fun hf => hf.elim)).untouched hx (by rw [hp.job.repos])
      · rw [hrun]; exact (hf.weaken (fun hf => hf.elim)).untouched hx (by rw [hdb])
    · have hk' : a ∉ s.db.repos.keys ∨ b ∉ s.db.repos.keys := by
        by_cases ha : a ∈ s.db.repos.keys
        · exact .inr fun hb => hk ⟨ha, hb⟩
        · exact .inl ha
      obtain ⟨u, tr, hrun, hso, hi, ht⟩ := mPullRepo_missing (W := W) h hk'
      rw [hrun]; exact hso.untouched
  | removeSource x n k =>
    have hx : r ≠ x := fun e => hr (by rw [e]; rfl)
    simp only [Op.run]
    by_cases hk : x ∈ s.db.repos.keys
    · rcases mRemoveSource_run ok h hk n k with ⟨_, hj⟩ | ⟨_, tr, hrun, ht⟩
      · exact (hj.job.frame.weaken (fun hf => hf.elim)).untouched hx (by rw [hj.job.repos])
      · rw [hrun]; exact (SameObs.got s x).untouched
    · rw [mRemoveSource_missing h hk]; exact (SameObs.refl s).untouched
  | copySource a b n k sk =>
    have hx : r ≠ b := fun e => hr (by rw [e]; rfl)
    simp only [Op.run]
    by_cases hk : a ∈ s.db.repos.keys ∧ b ∈ s.db.repos.keys
    · by_cases hne : (s.ids a).filter (W.matchesSrc n k) = []
      · obtain ⟨tr, hrun, ht⟩ := mCopySource_none ok h hk.1 hk.2 n k sk hne
        rw [hrun]; exact ((SameObs.got s a).trans (SameObs.got _ b)).untouched
      · obtain ⟨o, hrun, h1, h2, h3, _, _⟩ := mCopySource_run ok h hk.1 hk.2 n k sk hne
        rw [hrun]; exact (h3.frame.weaken (fun hf => hf.elim)).untouched hx (by rw [h3.repos])
    · have hk' : a ∉ s.db.repos.keys ∨ b ∉ s.db.repos.keys := by
        by_cases ha : a ∈ s.db.repos.keys
        · exact .inr fun hb => hk ⟨ha, hb⟩
        · exact .inl ha
      obtain ⟨u, tr, hrun, hso, hi, ht⟩ := mCopySource_missing (W := W) h hk' n k sk
      rw [hrun]; exact hso.untouched
  | trimObsolete x =>
    have hx : r ≠ x := fun e => hr (by rw [e]; rfl)
    simp only [Op.run]
    by_cases hk : x ∈ s.db.repos.keys
    · by_cases hd : ∃ obs, W.distOf s x = some (some obs)
      · obtain ⟨obs, hd⟩ := hd
        have hj := mTrimObsolete_run ok h hk hd
        exact (hj.job.frame.weaken (fun hf => hf.elim)).untouched hx (by rw [hj.job.repos])
      · have hd' : W.distOf s x = none ∨ W.distOf s x = some none := by
          match hx : W.distOf s x with
          | none => exact .inl rfl
          | some none => exact .inr rfl
          | some (some obs) => exact absurd ⟨obs, hx⟩ hd
        obtain ⟨e, tr, hrun, ht⟩ := mTrimObsolete_err (W := W) h hk hd'
        rw [hrun]; exact (SameObs.got s x).untouched
    · rw [mTrimObsolete_missing h hk]; exact (SameObs.refl s).untouched
  | trimPackages x k =>
    have hx : r ≠ x := fun e => hr (by rw [e]; rfl)
    simp only [Op.run]
    by_cases hk : x ∈ s.db.repos.keys
    · by_cases hk1 : 1 ≤ k
      · have hj := mTrimPackages_run ok h hk k hk1
        exact (hj.job.frame.weaken (fun hf => hf.elim)).untouched hx (by rw [hj.job.repos])
      · obtain ⟨tr, hrun, ht⟩ := mTrimPackages_small (W := W) h hk k (by omega)
        rw [hrun]; exact (SameObs.got s x).untouched
    · rw [mTrimPackages_missing h hk]; exact (SameObs.refl s).untouched
  | addPackages x fs st =>
    have hx : r ≠ x := fun e => hr (by rw [e]; rfl)
    simp only [Op.run]
    by_cases hk : x ∈ s.db.repos.keys
    · cases st with
      | false =>
        obtain ⟨_, _, _, hj, _⟩ := (mAddPackages_run ok h hk fs ho).spec
        exact (hj.frame.weaken (fun hf => hf.elim)).untouched hx (by rw [hj.repos])
      | true =>
        obtain ⟨_, _, _, hj, _⟩ := (mAddPackagesStrict_run ok h hk fs ho).spec
        exact (hj.frame.weaken (fun hf => hf.elim)).untouched hx (by rw [hj.repos])
    · rw [mAddPackages_missing h hk]; exact (SameObs.refl s).untouched
  | index x =>
    have hx : r ≠ x := fun e => hr (by rw [e]; rfl)
    simp only [Op.run]
    by_cases hk : x ∈ s.db.repos.keys
    · have := mIndex_run ok h hk
      exact (this.neutral.frame).untouched hx (by rw [this.neutral.db])
    · rw [mIndex_missing h hk]; exact (SameObs.refl s).untouched
  | addDelta x d f t =>
    have hx : r ≠ x := fun e => hr (by rw [e]; rfl)
    simp only [Op.run, mAddDelta]
    by_cases hk : x ∈ s.db.repos.keys
    · obtain ⟨t0, hg, ht0⟩ := getRepo_run h hk
      rcases addDelta_all (r := x) ok (h.got hk) ho.1 ho.2.1 ho.2.2 with ⟨⟨er, hrun⟩, _⟩ | ⟨s', tr, hrun, hD, _, _, ht⟩
      · rw [bind_ok hg, hrun]; exact (SameObs.got s x).untouched
      · rw [bind_ok hg, hrun]
        exact (((got_frame W True s x).trans hD.frame).weaken (fun _ => rfl)).untouched hx
          (by rw [show s'.db.repos = s.db.repos by rw [hD.repos]; simp])
    · rw [bind_err (getRepo_missing h hk)]; exact (SameObs.refl s).untouched
  | refDelta x d =>
    have hx : r ≠ x := fun e => hr (by rw [e]; rfl)
    simp only [Op.run, mRefDelta]
    by_cases hk : x ∈ s.db.repos.keys
    · obtain ⟨t0, hg, ht0⟩ := getRepo_run h hk
      rcases refDelta_all (r := x) ok (h.got hk) ho with ⟨hrun, _⟩ | ⟨s', tr, hrun, hD, _, _, ht⟩
      · rw [bind_ok hg, hrun]; exact (SameObs.got s x).untouched
      · rw [bind_ok hg, hrun]
        exact (((got_frame W True s x).trans hD.frame).weaken (fun _ => rfl)).untouched hx
          (by rw [show s'.db.repos = s.db.repos by rw [hD.repos]; simp])
    · rw [bind_err (getRepo_missing h hk)]; exact (SameObs.refl s).untouched
  | markFailed i d =>
    simp only [Op.run]
    rcases markDeltaFailed_run s i d with ⟨hrun, _⟩ | hrun | ⟨s', hrun, rfl⟩
    · rw [hrun]; exact (SameObs.refl s).untouched
    · rw [hrun]; exact (SameObs.refl s).untouched
    · rw [hrun]
      exact ⟨Iff.rfl, rfl, rfl, fun _ _ _ => rfl, fun _ _ => rfl, fun _ => rfl⟩
  | upload f c => exact putFile_untouched h (by simp) (by simp)
  | unlink f =>
    simp only [Op.run, removeFile_run]
    exact ⟨Iff.rfl, rfl, rfl, fun d id _ => by simp [FS.read], fun d id => by simp, fun a => by simp [FS.read]⟩
  | putAsset x a c =>
    have hx : r ≠ x := fun e => hr (by rw [e]; rfl)
    exact putFile_untouched h (by simp) (by
      intro a' e; injection e with e1; exact hx e1.symm)
  | stage x d c => exact putFile_untouched h (by simp) (by simp)
  | unstage x d =>
    simp only [Op.run, removeFile_run]
    exact ⟨Iff.rfl, rfl, rfl, fun d id _ => by simp [FS.read], fun d id => by simp, fun a => by simp [FS.read]⟩
  | restart => exact ⟨Iff.rfl, rfl, rfl, fun _ _ _ => rfl, fun _ _ => rfl, fun _ => rfl⟩

end Ferryd
