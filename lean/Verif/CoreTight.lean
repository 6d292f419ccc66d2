import Verif.CoreOps
/-!
# CoreTight: delta counts and files stay exact as long as no step forgets a delta
-/
namespace Ferryd

variable {W : World} {s s' : St} {r : Str}

theorem SameObs.tight (h : SameObs s s') (hi : Inv W s') (ht : Tight W s) : Tight W s' :=
  ht.quiet hi.fs h.db (fun _ _ => by unfold FS.read; rw [h.tab, h.data])

theorem RemovedJob.keep {ids : List Str} (h : RemovedJob W s s' r ids) (ht : Tight W s)
    (hk : ∀ d, s.hasDelta r d = true → s'.hasDelta r d = true ∨
      ∃ id, s.has r id = true ∧ s'.has r id = false ∧ gcDelta s.db.pool id d = true) : Tight W s' := by
  refine h.tight ht (fun d hd => ?_)
  rcases hk d hd with hx | ⟨id, h1, h2, h3⟩
  · exact Or.inl hx
  · refine Or.inr ⟨id, ?_, h1, h3⟩
    apply Decidable.byContradiction
    intro hn
    rw [(h.has r id).2 ⟨h1, fun q => hn q.2⟩] at h2; cases h2

theorem AddedJob.keep {ids : List Str} (h : AddedJob W s s' r ids) (ht : Tight W s)
    (hk : ∀ d, s.hasDelta r d = true → s'.hasDelta r d = true ∨
      ∃ id, s.has r id = true ∧ s'.has r id = false ∧ gcDelta s.db.pool id d = true) : Tight W s' := by
  refine h.tight ht (fun d hd => ?_)
  rcases hk d hd with hx | ⟨id, h1, h2, _⟩
  · exact hx
  · rw [(h.has r id).2 (Or.inl h1)] at h2; cases h2

theorem tight_putFile (h : Inv W (s.putFile p c)) (hf : Inv W s) (ht : Tight W s)
    (hp : (∃ f, p = .ext f) ∨ (∃ r a, p = .asset r a) ∨ (∃ r d, p = .stage r d))
    (hc : p.isAsset = false → c = W.canon p.base) : Tight W (s.putFile p c) := by
  have hread : ∀ q, q ≠ p → (s.putFile p c).fs.read q = s.fs.read q := by
    intro q hq
    simp only [St.putFile, St.setFs_fs, FS.read, FS.setData_tab, FS.setTab_tab, if_neg hq]
    cases hi : s.fs.tab q with
    | none => rfl
    | some i =>
      have := hf.fs.fresh q i hi
      simp only [Option.map_some, FS.setData_data]
      rw [if_neg (by omega)]; rfl
  obtain ⟨h1, h2, h3⟩ := ht
  refine ⟨h1, ?_, ?_⟩
  · intro r' c' d hd hx
    rw [hread _ (by rintro rfl; rcases hp with ⟨_, hp⟩ | ⟨_, _, hp⟩ | ⟨_, _, hp⟩ <;> cases hp)] at hx
    exact h2 r' c' d hd hx
  · intro q x hq hr
    by_cases e : q = p
    · subst e
      have : (s.putFile q c).fs.read q = some c := by simp [St.putFile, FS.read]
      rw [this] at hr; cases hr; exact hc hq
    · rw [hread q e] at hr; exact h3 q x hq hr

theorem tight_removed (ht : Tight W s) (hp : (∃ f, p = Path.ext f) ∨ (∃ r d, p = Path.stage r d)) :
    Tight W (s.setFs (s.fs.setTab p none)) := by
  obtain ⟨h1, h2, h3⟩ := ht
  have hread : ∀ q, q ≠ p → (s.setFs (s.fs.setTab p none)).fs.read q = s.fs.read q := by
    intro q hq; simp [FS.read, hq]
  refine ⟨h1, ?_, ?_⟩
  · intro r' c' d hd hx
    rw [hread _ (by rintro rfl; rcases hp with ⟨_, hp⟩ | ⟨_, _, hp⟩ <;> cases hp)] at hx
    exact h2 r' c' d hd hx
  · intro q x hq hr
    by_cases e : q = p
    · subst e; simp [FS.read] at hr
    · rw [hread q e] at hr; exact h3 q x hq hr

/-- Every operation keeps delta counts, files and contents exact unless it makes a record forget a delta. -/
theorem Op.tight (ok : W.OK) (h : Inv W s) (ht : Tight W s) (o : Op) (ho : o.Ok W)
    (hk : ∀ r d, s.hasDelta r d = true → r ∈ (o.exec W.E s).db.repos.keys → (o.exec W.E s).hasDelta r d = true ∨
      ∃ id, s.has r id = true ∧ (o.exec W.E s).has r id = false ∧ gcDelta s.db.pool id d = true) :
    Tight W (o.exec W.E s) := by
  unfold Op.exec at hk ⊢
  cases o with
  | create r =>
    simp only [Op.run] at hk ⊢
    by_cases hr : r ∈ s.db.repos.keys
    · obtain ⟨tr, hrun, _⟩ := mCreateRepo_exists (W := W) h hr
      rw [hrun]; exact (neutral_got s r).tight ht
    · cases hres : reservedKey r with
      | true => rw [mCreateRepo_reserved h hr hres]; exact ht
      | false => exact (mCreateRepo_run ok h hr hres).tight ht
  | delete r =>
    simp only [Op.run, mDeleteRepo] at hk ⊢
    by_cases hr : r ∈ s.db.repos.keys
    · obtain ⟨s', tr, hrun, hd, _⟩ := deleteRepo_run ok (h.delReady hr)
      rw [hrun]; exact hd.tight h hr ht
    · rw [deleteRepo_missing h hr]; exact ht
  | clone a b f =>
    simp only [Op.run] at hk ⊢
    by_cases ha : a ∈ s.db.repos.keys
    · by_cases hb : b ∈ s.db.repos.keys ∨ reservedKey b = true
      · obtain ⟨e, u, tr, hrun, hs, hi, _⟩ := mCloneRepo_bad (W := W) h ha hb f
        rw [hrun]; exact hs.tight hi ht
      · have hb1 : b ∉ s.db.repos.keys := fun x => hb (.inl x)
        have hb2 : reservedKey b = false := by
          cases hx : reservedKey b with
          | true => exact absurd (.inr hx) hb
          | false => rfl
        exact (mCloneRepo_run ok h ha hb1 hb2 f).tight ht
    · rw [mCloneRepo_missing h ha]; exact ht
  | pull a b =>
    simp only [Op.run] at hk ⊢
    rw [(discard_run (mPullRepo W.E a b) s).1] at hk ⊢
    by_cases hkk : a ∈ s.db.repos.keys ∧ b ∈ s.db.repos.keys
    · rcases mPullRepo_run ok h hkk.1 hkk.2 with ⟨_, hp⟩ | ⟨_, s', tr, hrun, hdb, hi, _, hrd, _, _⟩
      · exact hp.job.keep ht (fun d hd => hk b d hd (by rw [hp.job.repos]; exact hkk.2))
      · rw [hrun]; exact ht.quiet hi.fs hdb (fun q hq => hrd q (by rintro a rfl; cases hq))
    · have hk' : a ∉ s.db.repos.keys ∨ b ∉ s.db.repos.keys := by
        by_cases ha : a ∈ s.db.repos.keys
        · exact .inr fun hb => hkk ⟨ha, hb⟩
        · exact .inl ha
      obtain ⟨u, tr, hrun, hs, hi, _⟩ := mPullRepo_missing (W := W) h hk'
      rw [hrun]; exact hs.tight hi ht
  | removeSource r n k =>
    simp only [Op.run] at hk ⊢
    by_cases hr : r ∈ s.db.repos.keys
    · rcases mRemoveSource_run ok h hr n k with ⟨_, hj⟩ | ⟨_, tr, hrun, _⟩
      · exact hj.job.keep ht (fun d hd => hk r d hd (by rw [hj.job.repos]; exact hr))
      · rw [hrun]; exact (neutral_got s r).tight ht
    · rw [mRemoveSource_missing h hr]; exact ht
  | copySource a b n k sk =>
    simp only [Op.run] at hk ⊢
    by_cases hkk : a ∈ s.db.repos.keys ∧ b ∈ s.db.repos.keys
    · by_cases hne : (s.ids a).filter (W.matchesSrc n k) = []
      · obtain ⟨tr, hrun, _⟩ := mCopySource_none ok h hkk.1 hkk.2 n k sk hne
        rw [hrun]; exact (neutral_got' _ b b).tight ((neutral_got' s b a).tight ht)
      · obtain ⟨o, hrun, _, _, h3, _, _⟩ := mCopySource_run ok h hkk.1 hkk.2 n k sk hne
        rw [hrun] at hk ⊢
        exact h3.keep ht (fun d hd => hk b d hd (by rw [h3.repos]; exact hkk.2))
    · have hk' : a ∉ s.db.repos.keys ∨ b ∉ s.db.repos.keys := by
        by_cases ha : a ∈ s.db.repos.keys
        · exact .inr fun hb => hkk ⟨ha, hb⟩
        · exact .inl ha
      obtain ⟨u, tr, hrun, hs, hi, _⟩ := mCopySource_missing (W := W) h hk' n k sk
      rw [hrun]; exact hs.tight hi ht
  | trimObsolete r =>
    simp only [Op.run] at hk ⊢
    by_cases hr : r ∈ s.db.repos.keys
    · by_cases hd : ∃ obs, W.distOf s r = some (some obs)
      · obtain ⟨obs, hd⟩ := hd
        have hj := mTrimObsolete_run ok h hr hd
        exact hj.job.keep ht (fun d hd => hk r d hd (by rw [hj.job.repos]; exact hr))
      · have hd' : W.distOf s r = none ∨ W.distOf s r = some none := by
          match hx : W.distOf s r with
          | none => exact .inl rfl
          | some none => exact .inr rfl
          | some (some obs) => exact absurd ⟨obs, hx⟩ hd
        obtain ⟨e, tr, hrun, _⟩ := mTrimObsolete_err (W := W) h hr hd'
        rw [hrun]; exact (neutral_got s r).tight ht
    · rw [mTrimObsolete_missing h hr]; exact ht
  | trimPackages r k =>
    simp only [Op.run] at hk ⊢
    by_cases hr : r ∈ s.db.repos.keys
    · by_cases hkk : 1 ≤ k
      · have hj := mTrimPackages_run ok h hr k hkk
        exact hj.job.keep ht (fun d hd => hk r d hd (by rw [hj.job.repos]; exact hr))
      · obtain ⟨tr, hrun, _⟩ := mTrimPackages_small (W := W) h hr k (by omega)
        rw [hrun]; exact (neutral_got s r).tight ht
    · rw [mTrimPackages_missing h hr]; exact ht
  | addPackages r fs st =>
    simp only [Op.run] at hk ⊢
    by_cases hr : r ∈ s.db.repos.keys
    · cases st with
      | false =>
        obtain ⟨_, _, _, hj, _⟩ := (mAddPackages_run ok h hr fs ho).spec
        exact hj.keep ht (fun d hd => hk r d hd (by rw [hj.repos]; exact hr))
      | true =>
        obtain ⟨_, _, _, hj, _⟩ := (mAddPackagesStrict_run ok h hr fs ho).spec
        exact hj.keep ht (fun d hd => hk r d hd (by rw [hj.repos]; exact hr))
    · rw [mAddPackages_missing h hr]; exact ht
  | index r =>
    simp only [Op.run]
    by_cases hr : r ∈ s.db.repos.keys
    · exact (mIndex_run ok h hr).neutral.tight ht
    · rw [mIndex_missing h hr]; exact ht
  | addDelta r d f t =>
    simp only [Op.run, mAddDelta]
    by_cases hr : r ∈ s.db.repos.keys
    · obtain ⟨t0, hg, ht0⟩ := getRepo_run h hr
      rcases addDelta_all (r := r) ok (h.got hr) ho.1 ho.2.1 ho.2.2 with ⟨⟨er, hrun⟩, _⟩ | ⟨s', tr, hrun, hD, _, _, _⟩
      · rw [bind_ok hg, hrun]; exact (neutral_got s r).tight ht
      · rw [bind_ok hg, hrun]; exact hD.tight ((neutral_got s r).tight ht)
    · rw [bind_err (getRepo_missing h hr)]; exact ht
  | refDelta r d =>
    simp only [Op.run, mRefDelta]
    by_cases hr : r ∈ s.db.repos.keys
    · obtain ⟨t0, hg, ht0⟩ := getRepo_run h hr
      rcases refDelta_all (r := r) ok (h.got hr) ho with ⟨hrun, _⟩ | ⟨s', tr, hrun, hD, _, _, _⟩
      · rw [bind_ok hg, hrun]; exact (neutral_got s r).tight ht
      · rw [bind_ok hg, hrun]; exact hD.tight ((neutral_got s r).tight ht)
    · rw [bind_err (getRepo_missing h hr)]; exact ht
  | markFailed i d =>
    simp only [Op.run]
    rcases markDeltaFailed_run s i d with ⟨hrun, _⟩ | hrun | ⟨s', hrun, rfl⟩
    · rw [hrun]; exact ht
    · rw [hrun]; exact ht
    · rw [hrun]
      exact ht.same (h.putSkip i d).fs (fun _ _ => rfl) (fun _ _ => rfl) (fun _ _ _ x => x) (fun _ _ _ => rfl)
  | upload f c =>
    exact tight_putFile (inv_putFile h (.inl ⟨f, rfl⟩) (fun _ => ho)) h ht (.inl ⟨f, rfl⟩) (fun _ => ho)
  | unlink f => exact tight_removed ht (.inl ⟨f, rfl⟩)
  | putAsset r a c =>
    exact tight_putFile (inv_putFile h (.inr (.inl ⟨r, a, rfl⟩)) (fun hx => by simp [Path.isAsset] at hx)) h ht
      (.inr (.inl ⟨r, a, rfl⟩)) (fun hx => by simp [Path.isAsset] at hx)
  | stage r d c =>
    exact tight_putFile (inv_putFile h (.inr (.inr ⟨r, d, rfl⟩)) (fun _ => ho)) h ht (.inr (.inr ⟨r, d, rfl⟩))
      (fun _ => ho)
  | unstage r d => exact tight_removed ht (.inr ⟨r, d, rfl⟩)
  | restart => exact ht.quiet (inv_restart h).fs rfl (fun _ _ => rfl)

theorem tight_init (W : World) : Tight W St.init where
  count := by intro d pe _ hg; simp [St.init, KV.get] at hg
  file := by intro r c d _ hx; simp [St.init, FS.read] at hx
  canon := by intro p c _ hr; simp [St.init, FS.read] at hr

end Ferryd
