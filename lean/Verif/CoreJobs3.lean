import Verif.CoreJobs2
/-!
# CoreJobs3: pulling, cloning and creating
-/
namespace Ferryd

variable {W : World} {s s' : St} {r : Str}

theorem AddedJob.prior' {a b c : St} {ids : List Str} (hdb : b.db = a.db) (hf : Frame W False a b r)
    (hrd : ∀ q, q.isAsset = false → b.fs.read q = a.fs.read q)
    (h : AddedJob W b c r ids) : AddedJob W a c r ids where
  inv := h.inv
  has := by intro r' j; rw [← St.has_congr hdb]; exact h.has r' j
  hasDelta := by rw [← St.hasDelta_congr hdb]; exact h.hasDelta
  frame := hf.trans h.frame
  repos := by rw [← hdb]; exact h.repos
  names := by rw [← hdb, ← St.has_congr hdb]; exact h.names
  poolDelta := by rw [← hdb]; exact h.poolDelta
  dread := fun q h1 h2 => (h.dread q h1 h2).trans (hrd q h1)

/-- Nothing about package files and the database changes. -/
theorem Tight.quiet (ht : Tight W s) (hfs : FInv W s'.fs) (hdb : s'.db = s.db)
    (hrd : ∀ q, q.isAsset = false → s'.fs.read q = s.fs.read q) : Tight W s' :=
  ht.same hfs (fun _ _ => by rw [hdb]) (fun _ _ => by unfold St.dholders St.hasDelta; rw [hdb])
    (fun _ _ _ h => by rw [St.hasDelta_congr hdb]; exact h) (fun q h _ => hrd q h)

/-- Adding packages, as long as no record of `r` forgets a delta. -/
theorem AddedJob.tight {ids : List Str} (h : AddedJob W s s' r ids) (ht : Tight W s)
    (hk : ∀ d, s.hasDelta r d = true → s'.hasDelta r d = true) : Tight W s' := by
  have hke : ∀ r' d, s.hasDelta r' d = true → s'.hasDelta r' d = true := by
    intro r' d hd
    by_cases e : r' = r
    · subst e; exact hk d hd
    · unfold St.hasDelta at hd ⊢; rw [h.frame.ents r' e]; exact hd
  refine ht.same h.inv.fs (fun d hd => h.poolDelta d hd) (fun d _ => ?_) (fun r' d _ => hke r' d) h.dread
  unfold St.dholders
  rw [h.repos]
  congr 1
  apply List.filter_congr
  intro x _
  rw [Bool.eq_iff_iff]
  exact ⟨h.hasDelta x d, hke x d⟩

/-- Two keyed maps with the same holders have as many. -/
theorem dholders_put (h : Inv W s) (hr : r ∉ s.db.repos.keys) (hrep : s'.db.repos = s.db.repos.put r ())
    (hent : s'.db.ents = s.db.ents) (d : Str) : (s'.dholders d).length = (s.dholders d).length := by
  have hx : s'.hasDelta = s.hasDelta := by funext a b; unfold St.hasDelta; rw [hent]
  have hno : s.hasDelta r d = false := by
    cases hx : s.hasDelta r d with
    | false => rfl
    | true => exact absurd (h.hasDelta_key hx) hr
  unfold St.dholders
  rw [hx]
  apply List.Perm.length_eq
  have hn1 : s'.db.repos.keys.Nodup := by rw [hrep]; exact (h.wfRepos.put r ()).nodup_keys
  rw [List.perm_ext_iff_of_nodup (hn1.filter _) (h.wfRepos.nodup_keys.filter _)]
  intro a
  simp only [List.mem_filter, hrep, KV.mem_keys_put]
  constructor
  · rintro ⟨rfl | h1, h2⟩
    · rw [hno] at h2; cases h2
    · exact ⟨h1, h2⟩
  · rintro ⟨h1, h2⟩; exact ⟨Or.inr h1, h2⟩

/-- A new, empty repository. -/
theorem Tight.put (ht : Tight W s) (h : Inv W s) (hi : Inv W s') (hr : r ∉ s.db.repos.keys)
    (hrep : s'.db.repos = s.db.repos.put r ()) (hent : s'.db.ents = s.db.ents) (hpool : s'.db.pool = s.db.pool)
    (hrd : ∀ q, q.isAsset = false → s'.fs.read q = s.fs.read q) : Tight W s' :=
  ht.same hi.fs (fun _ _ => by rw [hpool]) (fun d _ => dholders_put h hr hrep hent d)
    (fun _ _ _ h => by unfold St.hasDelta at h ⊢; rw [hent]; exact h) (fun q h _ => hrd q h)

/-- Deleting a repository releases all its deltas. -/
theorem DeletedFull.tight (hd : DeletedFull W s s' r) (h : Inv W s) (hr : r ∈ s.db.repos.keys) (ht : Tight W s) :
    Tight W s' := by
  have hD := hd.toDeleted
  have hlen : ∀ d, (s.dholders d).length = (s'.dholders d).length + (if s.hasDelta r d = true then 1 else 0) := by
    intro d
    have hperm : (s.dholders d).Perm ((if s.hasDelta r d = true then [r] else []) ++ s'.dholders d) := by
      have hnd' : s'.db.repos.keys.Nodup := by rw [hD.repos]; exact (h.wfRepos.del r).nodup_keys
      rw [List.perm_ext_iff_of_nodup (show (s.dholders d).Nodup from h.wfRepos.nodup_keys.filter _)]
      · intro a
        simp only [List.mem_append, St.dholders, List.mem_filter, hD.keys h, hD.hasDelta]
        by_cases e : a = r
        · subst e; by_cases hx : s.hasDelta a d = true <;> simp [hx, hr]
        · by_cases hx : s.hasDelta r d = true <;> simp [hx, e]
      · rw [List.nodup_append]
        refine ⟨by split <;> simp, hnd'.filter _, ?_⟩
        intro a ha b hb e
        subst e
        have h1 := (List.mem_filter.1 hb).1
        rw [hD.keys h] at h1
        split at ha
        · exact h1.1 (by simpa using ha)
        · cases ha
    rw [hperm.length_eq, List.length_append]
    split <;> simp <;> omega
  refine ⟨?_, ?_, ?_⟩
  · intro d pe hdl hg
    rw [hD.pool] at hg
    have hmem : d ∈ s.listed r ↔ s.hasDelta r d = true := by
      rw [h.mem_listed]
      constructor
      · rintro (hx | hx)
        · rw [(h.has_facts hx).2.1] at hdl; cases hdl
        · exact hx
      · exact Or.inr
    have := hlen d
    by_cases hm : s.hasDelta r d = true
    · rw [if_pos (hmem.2 hm)] at hg
      rw [if_pos hm] at this
      cases hp : s.db.pool.get d with
      | none => rw [hp] at hg; simp at hg
      | some pe0 =>
        rw [hp, Option.bind_some] at hg
        obtain ⟨h1, rfl⟩ := decEntry_some hg
        have hc := ht.count d pe0 hdl hp
        simp only
        omega
    · rw [if_neg (fun x => hm (hmem.1 x))] at hg
      rw [if_neg hm] at this
      have hc := ht.count d pe hdl hg
      omega
  · intro r' c d hdl hx
    rw [FS.read_isSome, hd.tab] at hx
    split at hx
    · cases hx
    · rename_i hrm
      obtain ⟨h1, h2⟩ := ht.file r' c d hdl (by rw [FS.read_isSome]; exact hx)
      refine ⟨?_, h2⟩
      rw [hD.hasDelta]
      by_cases e : r' = r
      · subst e; exact absurd (by simp [Path.inRepo]) hrm
      · rw [if_neg e]; exact h1
  · intro p c hp hr'
    unfold FS.read at hr'
    rw [hd.tab, hd.data] at hr'
    split at hr'
    · cases hr'
    · exact ht.canon p c hp hr'

/-- A scan that may fail: state unchanged either way. -/
theorem collectL_scan {α β : Type} {l : List α} {f : α → M (List β)} {g : α → Option (List β)} {e : Err} {s : St}
    (h : ∀ x ∈ l, f x s = match g x with | some b => ⟨.ok b, s, []⟩ | none => ⟨.err e, s, []⟩) :
    collectL l f s = if (∀ x ∈ l, (g x).isSome) then ⟨.ok (l.flatMap fun x => (g x).getD []), s, []⟩
      else ⟨.err e, s, []⟩ := by
  induction l with
  | nil => simp [collectL]
  | cons x xs ih =>
    have ih := ih (fun y hy => h y (by simp [hy]))
    have hx := h x (by simp)
    simp only [collectL]
    cases hg : g x with
    | none =>
      rw [hg] at hx
      rw [bind_err hx, if_neg]
      intro hall
      have := hall x (by simp)
      rw [hg] at this; cases this
    | some b =>
      rw [hg] at hx
      rw [bind_ok hx, Out.pre_nil]
      by_cases hall : ∀ y ∈ xs, (g y).isSome
      · rw [if_pos hall] at ih
        rw [bind_ok ih, if_pos]
        · simp [hg]
        · intro y hy
          rcases List.mem_cons.1 hy with rfl | hy
          · rw [hg]; rfl
          · exact hall y hy
      · rw [if_neg hall] at ih
        rw [bind_err ih, if_neg]
        intro hh; exact hall (fun y hy => hh y (by simp [hy]))

/-! ## Pull -/

/-- What pull decides for one source record: `none` means the target is newer. -/
def World.pullSel (W : World) (s : St) (dst : Str) (e : RepoEntry) : Option (List (Str × Str)) :=
  match (s.db.ents dst).get e.name with
  | none => some [(e.published, e.name)]
  | some l =>
    if (W.mOf e.published).rel < (W.mOf l.published).rel then none
    else if (W.mOf e.published).rel > (W.mOf l.published).rel then some [(e.published, e.name)]
    else some []

theorem Inv.pubEntry (ok : W.OK) (h : Inv W s) {n : Str} {e : RepoEntry} (hge : (s.db.ents r).get n = some e) :
    ∃ pe, s.db.pool.get e.published = some pe ∧ pe.pkg.history ≠ [] ∧ pe.pkg.rel = (W.mOf e.published).rel := by
  have he := h.ent r n e hge
  obtain ⟨_, ⟨pe, hpe⟩, _⟩ := he.avail _ he.pub
  have hp := h.pool _ pe hpe
  exact ⟨pe, hpe, by rw [hp.pkg]; exact (ok.meta hp.isPkg).hist, by rw [hp.pkg]; rfl⟩

theorem pullOne_run (ok : W.OK) (h : Inv W s) {src dst : Str} {e : RepoEntry}
    (he : (s.db.ents src).get e.name = some e) :
    pullOne dst e s = match W.pullSel s dst e with
      | some b => ⟨.ok b, s, []⟩ | none => ⟨.err .inconsistent, s, []⟩ := by
  unfold pullOne World.pullSel
  rw [repoGet?_bind]
  cases hd : (s.db.ents dst).get e.name with
  | none => rfl
  | some l =>
    obtain ⟨pe, h1, h2, h3⟩ := h.pubEntry ok he
    obtain ⟨pl, l1, l2, l3⟩ := h.pubEntry ok hd
    simp only
    rw [poolGet_bind_some _ h1, poolGet_bind_some _ l1, getRelease_bind h2, getRelease_bind l2, h3, l3]
    by_cases c1 : (W.mOf e.published).rel < (W.mOf l.published).rel
    · rw [if_pos c1, if_pos c1]; rfl
    · rw [if_neg c1, if_neg c1]
      by_cases c2 : (W.mOf e.published).rel > (W.mOf l.published).rel
      · rw [if_pos c2, if_pos c2]; rfl
      · rw [if_neg c2, if_neg c2]; rfl

/-- The target has a newer tip than the source for some name. -/
def World.Conflict (W : World) (s : St) (dst src : Str) : Prop :=
  ∃ n e l, (s.db.ents src).get n = some e ∧ (s.db.ents dst).get n = some l ∧
    (W.mOf e.published).rel < (W.mOf l.published).rel

/-- What pull copies: (id, name). -/
def World.pullTodo (W : World) (s : St) (dst src : Str) : List (Str × Str) :=
  ((s.db.ents src).map Prod.snd).flatMap fun e => (W.pullSel s dst e).getD []

theorem pullSel_isSome (W : World) (s : St) (dst : Str) (e : RepoEntry) :
    (W.pullSel s dst e).isSome = true ↔ ¬ ∃ l, (s.db.ents dst).get e.name = some l ∧
      (W.mOf e.published).rel < (W.mOf l.published).rel := by
  unfold World.pullSel
  cases hd : (s.db.ents dst).get e.name with
  | none => simp
  | some l =>
    simp only
    by_cases c1 : (W.mOf e.published).rel < (W.mOf l.published).rel
    · simp [c1]
    · simp only [c1, if_false]
      split <;> simp [c1]

theorem not_conflict_iff (h : Inv W s) (dst src : Str) :
    (∀ e ∈ (s.db.ents src).map Prod.snd, (W.pullSel s dst e).isSome = true) ↔ ¬ W.Conflict s dst src := by
  constructor
  · rintro hall ⟨n, e, l, h1, h2, h3⟩
    have hn := (h.ent src n e h1).name
    have := hall e (List.mem_map_of_mem (f := Prod.snd) (KV.mem_of_get h1))
    rw [pullSel_isSome] at this
    exact this ⟨l, by rw [hn]; exact h2, h3⟩
  · intro hc e he
    rw [pullSel_isSome]
    rintro ⟨l, h2, h3⟩
    exact hc ⟨e.name, e, l, mem_entries h src he, h2, h3⟩

theorem mem_pullTodo (h : Inv W s) (dst src : Str) (hc : ¬ W.Conflict s dst src) (j n : Str) :
    (j, n) ∈ W.pullTodo s dst src ↔ ∃ e, (s.db.ents src).get n = some e ∧ j = e.published ∧
      ∀ l, (s.db.ents dst).get n = some l → (W.mOf l.published).rel < (W.mOf e.published).rel := by
  unfold World.pullTodo
  simp only [List.mem_flatMap]
  constructor
  · rintro ⟨e, he, hm⟩
    have hg := mem_entries h src he
    unfold World.pullSel at hm
    cases hd : (s.db.ents dst).get e.name with
    | none =>
      rw [hd] at hm
      simp at hm
      obtain ⟨rfl, rfl⟩ := hm
      exact ⟨e, hg, rfl, by rw [hd]; simp⟩
    | some l =>
      rw [hd] at hm
      simp only at hm
      by_cases c1 : (W.mOf e.published).rel < (W.mOf l.published).rel
      · simp [c1] at hm
      · by_cases c2 : (W.mOf e.published).rel > (W.mOf l.published).rel
        · simp only [c1, if_false, c2, if_true] at hm
          simp at hm
          obtain ⟨rfl, rfl⟩ := hm
          refine ⟨e, hg, rfl, ?_⟩
          rw [hd]; intro l' hl; cases hl; exact c2
        · simp [c1, c2] at hm
  · rintro ⟨e, hg, rfl, hl⟩
    have hn := (h.ent src n e hg).name
    refine ⟨e, List.mem_map_of_mem (f := Prod.snd) (KV.mem_of_get hg), ?_⟩
    unfold World.pullSel
    rw [hn]
    cases hd : (s.db.ents dst).get n with
    | none => simp
    | some l =>
      have := hl l hd
      simp only
      rw [if_neg (by omega), if_pos (by omega)]
      simp

/-- Outcome of a pull that is not refused. -/
structure Pulled (W : World) (s : St) (dst src : Str) (o : Out (List Str)) : Prop where
  noPanic : o.res ≠ .panic
  served : ∀ t ∈ o.tr, Served W (fun _ => True) t
  job : AddedJob W s o.st dst ((W.pullTodo s dst src).map Prod.fst)
  changed : ∀ l, o.res = .ok l → l = (W.pullTodo s dst src).map Prod.snd ∧ W.Fresh o.st dst
  okIff : (∃ l, o.res = .ok l) ↔ W.Indexable o.st dst s.clock
  assets : dst ≠ src → ∀ a, o.st.fs.read (.asset dst a) =
    (match s.fs.read (.asset src a) with | some c => some c | none => s.fs.read (.asset dst a))
  selfAssets : dst = src → ∀ a, o.st.fs.read (.asset dst a) = (s.fs.read (.asset dst a)).map fun _ => []

theorem World.pullTodo_congr (h : s'.db = s.db) (dst src : Str) : W.pullTodo s' dst src = W.pullTodo s dst src := by
  unfold World.pullTodo World.pullSel; rw [h]
theorem World.conflict_congr (h : s'.db = s.db) (dst src : Str) : W.Conflict s' dst src ↔ W.Conflict s dst src := by
  unfold World.Conflict; rw [h]

theorem mPullRepo_run (ok : W.OK) (h : Inv W s) {src dst : Str} (hs : src ∈ s.db.repos.keys)
    (hd : dst ∈ s.db.repos.keys) :
    (¬ W.Conflict s dst src ∧ Pulled W s dst src (mPullRepo W.E src dst s)) ∨
    (W.Conflict s dst src ∧ ∃ s' tr, mPullRepo W.E src dst s = ⟨.err .inconsistent, s', tr⟩ ∧
      s'.db = s.db ∧ Inv W s' ∧ Frame W False s s' dst ∧
      (∀ p, (∀ a, p ≠ .asset dst a) → s'.fs.read p = s.fs.read p) ∧
      s'.fs.idx = s.fs.idx ∧ ∀ t ∈ tr, Served W (fun _ => True) t) := by
  obtain ⟨t0, hg, ht0⟩ := getRepo_run h hs
  have hgi : Inv W (s.got src) := h.got hs
  obtain ⟨t1, hg1, ht1⟩ := getRepo_run (r := dst) hgi (by simpa using hd)
  have hgi1 : Inv W ((s.got src).got dst) := hgi.got (by simpa using hd)
  have hn1 := (neutral_got' s dst src).trans (neutral_got (s.got src) dst)
  obtain ⟨s2, t2, hrun2, hA, htrA, hass⟩ := pullAssets_run (W := W) hgi1.fs dst src
  have hi2 : Inv W s2 := hA.inv hgi1
  have hdb2 : s2.db = s.db := by rw [hA.db]; simp
  have hf2 : Frame W False s s2 dst := hn1.frame.trans hA.frame
  have hscan : collectL ((s2.db.ents src).map Prod.snd) (pullOne dst) s2 =
      if (∀ x ∈ (s2.db.ents src).map Prod.snd, (W.pullSel s2 dst x).isSome)
      then ⟨.ok (W.pullTodo s2 dst src), s2, []⟩ else ⟨.err .inconsistent, s2, []⟩ :=
    collectL_scan (fun e he => by
      rw [pullOne_run (dst := dst) ok hi2 (mem_entries hi2 src he)]
      cases W.pullSel s2 dst e <;> rfl)
  have hserv : ∀ t ∈ t0 ++ (t1 ++ t2), Served W (fun _ => True) t := by
    intro t ht
    simp only [List.mem_append] at ht
    rcases ht with ht | ht | ht
    · exact got_served ok ht0 _ t ht
    · exact got_served ok ht1 _ t ht
    · exact ((htrA t ht).inv hgi1).served ok _
  by_cases hc : W.Conflict s dst src
  · right
    refine ⟨hc, s2, t0 ++ (t1 ++ t2), ?_, hdb2, hi2, hf2, ?_, ?_, hserv⟩
    · rw [if_neg (by rw [not_conflict_iff hi2, World.conflict_congr hdb2]; simpa using hc)] at hscan
      unfold mPullRepo pullFrom
      rw [bind_ok hg, bind_ok hg1, bind_assoc_run, bind_ok hrun2, bind_assoc_run, repoEntries_bind]
      rw [bind_assoc_run, bind_err hscan]; simp
    · intro p hp; rw [hA.read p hp]; simp
    · rw [hA.idx]; simp
  · left
    refine ⟨hc, ?_⟩
    rw [if_pos (by rw [not_conflict_iff hi2, World.conflict_congr hdb2]; exact hc)] at hscan
    have hids : ∀ id ∈ (W.pullTodo s2 dst src).map Prod.fst,
        W.isDelta id = false ∧ ∃ pe, s2.db.pool.get id = some pe := by
      intro id hid
      obtain ⟨⟨j, n⟩, hm, rfl⟩ := List.mem_map.1 hid
      obtain ⟨e, hge, rfl, _⟩ := (mem_pullTodo hi2 dst src (by rw [World.conflict_congr hdb2]; exact hc) j n).1 hm
      have he := hi2.ent src n e hge
      have := he.avail _ he.pub
      exact ⟨this.1, this.2.1⟩
    obtain ⟨s3, t3, hrun3, ha, htr3⟩ := refLoop_run (r := dst) ok _ hi2 (by rw [hdb2]; exact hd) hids
    have hm := mIndex_run (r := dst) ok ha.inv (by rw [ha.repos, hdb2]; exact hd)
    have hpf : pullFrom W.E dst src ((s.got src).got dst) =
        ⟨.ok ((W.pullTodo s2 dst src).map Prod.snd), s3, t2 ++ t3⟩ := by
      unfold pullFrom
      rw [bind_ok hrun2, repoEntries_bind]
      refine (congrArg (Out.pre t2) ((bind_ok hscan).trans
        (c := (⟨.ok ((W.pullTodo s2 dst src).map Prod.snd), s3, t3⟩ : Out (List Str))) ?_)).trans ?_
      · rw [Out.pre_nil, bind_ok hrun3]; simp
      · simp
    have hrun : mPullRepo W.E src dst s =
        Out.pre t0 (Out.pre t1 (Out.pre (t2 ++ t3)
          ((mIndex W.E dst >>= fun _ => pure ((W.pullTodo s2 dst src).map Prod.snd)) s3))) := by
      unfold mPullRepo
      rw [bind_ok hg, bind_ok hg1, bind_ok hpf]
    have hcase : (∃ s4 t4, (mIndex W.E dst >>= fun _ => pure ((W.pullTodo s2 dst src).map Prod.snd)) s3 =
          ⟨.ok ((W.pullTodo s2 dst src).map Prod.snd), s4, t4⟩ ∧ mIndex W.E dst s3 = ⟨.ok (), s4, t4⟩) ∨
        (∃ e s4 t4, (mIndex W.E dst >>= fun _ => pure ((W.pullTodo s2 dst src).map Prod.snd)) s3 =
          ⟨.err e, s4, t4⟩ ∧ mIndex W.E dst s3 = ⟨.err e, s4, t4⟩) := by
      cases hx : mIndex W.E dst s3 with
      | mk res s4 t4 =>
        cases res with
        | ok u => left; exact ⟨s4, t4, by rw [bind_ok hx]; simp, rfl⟩
        | err e => right; exact ⟨e, s4, t4, by rw [bind_err hx], rfl⟩
        | panic => exact absurd (by rw [hx]) hm.noPanic
    have hjob : AddedJob W s (mIndex W.E dst s3).st dst ((W.pullTodo s dst src).map Prod.fst) := by
      rw [← World.pullTodo_congr hdb2]
      exact AddedJob.prior' hdb2 hf2 (fun q hq => by
        rw [hA.read q (by rintro a rfl; cases hq)]; simp) (ha.job.post hm.neutral hm.inv)
    have hassets : dst ≠ src → ∀ a, (mIndex W.E dst s3).st.fs.read (.asset dst a) =
        (match s.fs.read (.asset src a) with | some c => some c | none => s.fs.read (.asset dst a)) := by
      intro hne a
      rw [hm.neutral.read, ha.asset, hass hne a]; simp only [St.got_read]
      cases s.fs.read (.asset src a) <;> rfl
    have hself : dst = src → ∀ a, (mIndex W.E dst s3).st.fs.read (.asset dst a) =
        (s.fs.read (.asset dst a)).map fun _ => [] := by
      intro he a
      subst he
      rw [hm.neutral.read, ha.asset, pullAssets_self hgi1.fs hrun2]; simp
    have hserv' : ∀ t ∈ (mIndex W.E dst s3).tr, Served W (fun _ => True) t :=
      fun t ht => (hm.tr t ht).2.served ok _
    have hok : (mIndex W.E dst s3).res = .ok () ↔ W.Indexable (mIndex W.E dst s3).st dst s.clock := by
      have := hm.okIff
      rw [ha.clock, hA.clock, St.got_clock, St.got_clock] at this
      exact this
    rw [hrun]
    rcases hcase with ⟨s4, t4, hx, hy⟩ | ⟨e, s4, t4, hx, hy⟩
    · rw [hx]
      rw [hy] at hjob hassets hself hserv' hm hok
      refine ⟨by simp, ?_, hjob, ?_, ⟨fun _ => hok.1 rfl, fun _ => ⟨_, rfl⟩⟩, hassets, hself⟩
      · intro t ht
        simp only [Out.pre_tr, List.mem_append] at ht
        rcases ht with ht | ht | (ht | ht) | ht
        · exact hserv t (by simp [ht])
        · exact hserv t (by simp [ht])
        · exact hserv t (by simp [ht])
        · exact htr3 t ht
        · exact hserv' t ht
      · intro l hl
        simp only [Out.pre_res, Res.ok.injEq] at hl
        exact ⟨by rw [← hl, World.pullTodo_congr hdb2], hm.fresh rfl⟩
    · rw [hx]
      rw [hy] at hjob hassets hself hserv' hok
      refine ⟨by simp, ?_, hjob, by simp, ⟨by simp, fun hx => by cases hok.2 hx⟩, hassets, hself⟩
      intro t ht
      simp only [Out.pre_tr, List.mem_append] at ht
      rcases ht with ht | ht | (ht | ht) | ht
      · exact hserv t (by simp [ht])
      · exact hserv t (by simp [ht])
      · exact hserv t (by simp [ht])
      · exact htr3 t ht
      · exact hserv' t ht

theorem mPullRepo_missing (h : Inv W s) {src dst : Str}
    (hk : src ∉ s.db.repos.keys ∨ dst ∉ s.db.repos.keys) :
    ∃ u tr, mPullRepo W.E src dst s = ⟨.err .notFound, u, tr⟩ ∧ SameObs s u ∧ Inv W u ∧
      ∀ t ∈ tr, SameObs s t ∧ Inv W t := by
  by_cases hs : src ∈ s.db.repos.keys
  · have hd : dst ∉ s.db.repos.keys := by rcases hk with h | h; exact absurd hs h; exact h
    obtain ⟨t0, hg, ht0⟩ := getRepo_run h hs
    refine ⟨s.got src, t0, ?_, SameObs.got s src, h.got hs, ht0⟩
    unfold mPullRepo
    rw [bind_ok hg, bind_err (getRepo_missing (h.got hs) (by simpa using hd))]; simp
  · refine ⟨s, [], ?_, SameObs.refl s, h, by simp⟩
    unfold mPullRepo
    rw [bind_err (getRepo_missing h hs)]

/-! ## Create -/

/-- Outcome of creating a repository with a usable, unused name. -/
structure Created (W : World) (s : St) (r : Str) (o : Out Unit) : Prop where
  noPanic : o.res ≠ .panic
  inv : Inv W o.st
  served : ∀ t ∈ o.tr, Inv W t
  repos : o.st.db.repos = s.db.repos.put r ()
  ents : o.st.db.ents = s.db.ents
  pool : o.st.db.pool = s.db.pool
  frame : Frame W False s o.st r
  fresh : o.res = .ok () → W.Fresh o.st r
  okIff : o.res = .ok () ↔ W.Indexable o.st r s.clock
  tight : Tight W s → Tight W o.st

theorem Neutral.inv_trace_created (h : Inv W s) (hr : r ∉ s.db.repos.keys) (hd : s.fs.rdir r = false)
    (hres : reservedKey r = false) : ∃ tr, createRepo r s = ⟨.ok (), s.created r, tr⟩ ∧ ∀ t ∈ tr, Inv W t := by
  refine ⟨(createRepo r s).tr, ?_, createRepo_trace_inv h hr hd hres⟩
  rw [createRepo_run h hr hd hres]

theorem Inv.rdir_false (h : Inv W s) (hr : r ∉ s.db.repos.keys) : s.fs.rdir r = false := by
  cases hd : s.fs.rdir r with
  | false => rfl
  | true => exact absurd (h.rdir r hd) hr

theorem created_frame (W : World) (s : St) (r : Str) : Frame W False s (s.created r) r :=
  ⟨rfl, fun _ _ => rfl, fun _ _ => rfl, fun _ _ _ => rfl, fun _ _ _ _ => rfl⟩

theorem mem_created (s : St) (h : Inv W s) (r x : Str) : x ∈ (s.created r).db.repos.keys ↔ x = r ∨ x ∈ s.db.repos.keys :=
  KV.mem_keys_put _ _ _ _

theorem mCreateRepo_run (ok : W.OK) (h : Inv W s) (hr : r ∉ s.db.repos.keys) (hres : reservedKey r = false) :
    Created W s r (mCreateRepo W.E r s) := by
  obtain ⟨tr, hrun, htr⟩ := Neutral.inv_trace_created h hr (h.rdir_false hr) hres
  have hi := h.created hr hres
  have hm := mIndex_run (r := r) ok hi ((mem_created s h r r).2 (Or.inl rfl))
  have : mCreateRepo W.E r s = (mIndex W.E r (s.created r)).pre tr := by
    unfold mCreateRepo; rw [bind_ok hrun]
  rw [this]
  exact {
    noPanic := hm.noPanic
    inv := hm.inv
    served := by
      intro t ht
      rcases List.mem_append.1 ht with ht | ht
      · exact htr t ht
      · exact (hm.tr t ht).2
    repos := by rw [Out.pre_st, hm.neutral.db]; rfl
    ents := by rw [Out.pre_st, hm.neutral.db]; rfl
    pool := by rw [Out.pre_st, hm.neutral.db]; rfl
    frame := (created_frame W s r).trans hm.neutral.frame
    fresh := hm.fresh
    okIff := hm.okIff
    tight := fun ht => hm.neutral.tight (ht.put h hi hr rfl rfl rfl (fun _ _ => rfl)) }

theorem mCreateRepo_exists (h : Inv W s) (hr : r ∈ s.db.repos.keys) :
    ∃ tr, mCreateRepo W.E r s = ⟨.err .exists_, s.got r, tr⟩ ∧ ∀ t ∈ tr, SameObs s t ∧ Inv W t := by
  obtain ⟨tr, hrun, htr⟩ := createRepo_exists h hr
  refine ⟨tr, ?_, htr⟩
  unfold mCreateRepo; rw [bind_err hrun]

theorem mCreateRepo_reserved (h : Inv W s) (hr : r ∉ s.db.repos.keys) (hres : reservedKey r = true) :
    mCreateRepo W.E r s = ⟨.err .reserved, s, []⟩ := by
  unfold mCreateRepo; rw [bind_err (createRepo_reserved h hr (h.rdir_false hr) hres)]

/-! ## Clone -/

/-- What a clone copies: all packages, or only the tips. -/
def St.cloneIds (s : St) (src : Str) (full : Bool) : List Str :=
  if full then s.ids src else ((s.db.ents src).map Prod.snd).map RepoEntry.published

/-- Outcome of cloning into an unused name. -/
structure Cloned (W : World) (s : St) (src new : Str) (full : Bool) (o : Out Unit) : Prop where
  noPanic : o.res ≠ .panic
  served : ∀ t ∈ o.tr, Served W (fun _ => True) t
  inv : Inv W o.st
  repos : o.st.db.repos = s.db.repos.put new ()
  has : ∀ r' j, o.st.has r' j = true ↔ s.has r' j = true ∨ (r' = new ∧ j ∈ s.cloneIds src full)
  hasDelta : ∀ j, o.st.hasDelta new j = true ↔ full = true ∧ s.hasDelta src j = true
  frame : Frame W (full = true) s o.st new
  assets : ∀ a, o.st.fs.read (.asset new a) =
    (match s.fs.read (.asset src a) with | some c => some c | none => s.fs.read (.asset new a))
  fresh : o.res = .ok () → W.Fresh o.st new
  okIff : o.res = .ok () ↔ W.Indexable o.st new s.clock
  tight : Tight W s → Tight W o.st

theorem cloneIds_facts (h : Inv W s) (src : Str) (full : Bool) {j : Str} (hj : j ∈ s.cloneIds src full) :
    s.has src j = true := by
  unfold St.cloneIds at hj
  split at hj
  · exact (h.mem_ids src j).1 hj
  · simp only [List.mem_map] at hj
    obtain ⟨e, ⟨⟨n, e'⟩, hm, rfl⟩, rfl⟩ := hj
    have hg := KV.get_of_mem (h.wfEnts src) hm
    exact (St.has_iff (h.wfEnts src) _).2 ⟨n, e', hg, (h.ent src n e' hg).pub⟩

theorem mCloneRepo_run (ok : W.OK) (h : Inv W s) {src new : Str} (hs : src ∈ s.db.repos.keys)
    (hn : new ∉ s.db.repos.keys) (hres : reservedKey new = false) (full : Bool) :
    Cloned W s src new full (mCloneRepo W.E src new full s) := by
  have hne : new ≠ src := by rintro rfl; exact hn hs
  obtain ⟨t0, hg, ht0⟩ := getRepo_run h hs
  have hgi : Inv W (s.got src) := h.got hs
  have hn' : new ∉ (s.got src).db.repos.keys := by simpa using hn
  obtain ⟨t1, hrun1, htr1⟩ := Neutral.inv_trace_created hgi hn' (hgi.rdir_false hn') hres
  have hi1 := hgi.created hn' hres
  have hdb1e : ((s.got src).created new).db.ents = s.db.ents := by simp [St.created]
  have hdb1p : ((s.got src).created new).db.pool = s.db.pool := by simp [St.created]
  have hdb1r : ((s.got src).created new).db.repos = s.db.repos.put new () := by simp [St.created]
  obtain ⟨s2, t2, hrun2, hA, htrA, hass⟩ := pullAssets_run (W := W) hi1.fs new src
  have hi2 : Inv W s2 := hA.inv hi1
  have he2 : s2.db.ents = s.db.ents := by rw [hA.db, hdb1e]
  have hp2 : s2.db.pool = s.db.pool := by rw [hA.db, hdb1p]
  have hr2 : s2.db.repos = s.db.repos.put new () := by rw [hA.db, hdb1r]
  have hnewk : new ∈ s2.db.repos.keys := by rw [hr2]; exact (KV.mem_keys_put _ _ _ _).2 (Or.inl rfl)
  have hf2 : Frame W False s s2 new := by
    have f0 : Frame W False s (s.got src) new := (neutral_got' s new src).frame
    exact (f0.trans (created_frame W _ new)).trans hA.frame
  have hhas2 : ∀ r' j, s2.has r' j = s.has r' j := by
    intro r' j; unfold St.has; rw [he2]
  have hhd2 : ∀ r' j, s2.hasDelta r' j = s.hasDelta r' j := by
    intro r' j; unfold St.hasDelta; rw [he2]
  have hnonew : ∀ j, s.has new j = false := by
    intro j
    cases hx : s.has new j with
    | false => rfl
    | true => exact absurd (h.has_facts hx).1 hn
  have hnonewd : ∀ j, s.hasDelta new j = false := by
    intro j
    cases hx : s.hasDelta new j with
    | false => rfl
    | true => exact absurd (h.hasDelta_key hx) hn
  obtain ⟨s3, t3, hrun3, ha, htr3⟩ := refLoop_run (r := new) ok (s.cloneIds src full) hi2 hnewk (by
    intro id hid
    have hf := h.has_facts (cloneIds_facts h src full hid)
    exact ⟨hf.2.1, by rw [hp2]; exact hf.2.2⟩)
  -- the delta part
  have hdl : ∃ s4 t4, forL (if full then ((s.db.ents src).map Prod.snd).flatMap RepoEntry.deltas else [])
      (refDelta W.E new) s3 = ⟨.ok (), s4, t4⟩ ∧ DeltasAll W s3 s4 new ∧ Frame W (full = true) s3 s4 new ∧
      (∀ j, s4.hasDelta new j = true ↔ full = true ∧ s.hasDelta src j = true) ∧
      ∀ t ∈ t4, Served W (fun _ => True) t := by
    have hzero : ∀ j, s3.hasDelta new j = false := by
      intro j
      cases hx : s3.hasDelta new j with
      | false => rfl
      | true =>
        have := ha.hasDelta new j hx
        rw [hhd2, hnonewd] at this; cases this
    cases full with
    | false =>
      refine ⟨s3, [], rfl, DeltasAll.refl ha.inv new, Frame.refl _ _ _ _, ?_, by simp⟩
      intro j; rw [hzero]; simp
    | true =>
      have hmemd : ∀ j, j ∈ ((s.db.ents src).map Prod.snd).flatMap RepoEntry.deltas ↔ s.hasDelta src j = true := by
        intro j
        rw [mem_flat h src, St.hasDelta_iff (h.wfEnts src)]
      obtain ⟨s4, t4, hrun4, hD, hin, hle, htr4⟩ := deltaLoop_run (r := new) ok
        (((s.db.ents src).map Prod.snd).flatMap RepoEntry.deltas) ha.inv (by
          intro d hd
          obtain ⟨n, e, hge, hde⟩ := (mem_flat h src _ d).1 hd
          obtain ⟨k1, ⟨pe, k2⟩, k3⟩ := (h.ent src n e hge).deltas d hde
          refine ⟨k1, ?_, ?_⟩
          · exact ha.poolGe d pe (by rw [hp2]; exact k2)
          · -- the name is present in the clone: its tip was copied
            have hpub := (h.ent src n e hge).pub
            have hh : s3.has new e.published = true := by
              rw [ha.has]
              right
              refine ⟨rfl, ?_⟩
              show e.published ∈ s.ids src
              rw [h.mem_ids]
              exact (St.has_iff (h.wfEnts src) _).2 ⟨n, e, hge, hpub⟩
            obtain ⟨e3, he3, _⟩ := (ha.inv.has_iff new e.published).1 hh
            rw [((h.ent src n e hge).avail _ hpub).2.2] at he3
            rw [k3]; exact ⟨e3, he3⟩)
      refine ⟨s4, t4, by simpa using hrun4, hD, hD.frame.weaken (fun _ => rfl), ?_, htr4⟩
      intro j
      constructor
      · intro hj
        rcases hle new j hj with hx | ⟨_, hx⟩
        · rw [hzero] at hx; cases hx
        · exact ⟨rfl, (hmemd j).1 hx⟩
      · rintro ⟨_, hj⟩
        exact hin j ((hmemd j).2 hj)
  obtain ⟨s4, t4, hrun4, hD, hDf, hDd, htr4⟩ := hdl
  have hclone : cloneFrom W.E new src full ((s.got src).created new) = ⟨.ok (), s4, t2 ++ (t3 ++ t4)⟩ := by
    unfold cloneFrom
    rw [bind_ok hrun2, repoEntries_bind, he2]
    have : (if full then ((s.db.ents src).map Prod.snd).flatMap RepoEntry.available
        else ((s.db.ents src).map Prod.snd).map RepoEntry.published) = s.cloneIds src full := by
      unfold St.cloneIds St.ids; rfl
    rw [this, bind_ok hrun3, hrun4]
    simp
  have hm := mIndex_run (r := new) ok hD.inv (by rw [hD.repos, ha.repos]; exact hnewk)
  have hrun : mCloneRepo W.E src new full s = (((mIndex W.E new s4).pre (t2 ++ (t3 ++ t4))).pre t1).pre t0 := by
    unfold mCloneRepo
    rw [bind_ok hg, bind_ok hrun1, bind_ok hclone]
  rw [hrun]
  exact {
    noPanic := hm.noPanic
    served := by
      intro t ht
      simp only [Out.pre_tr, List.mem_append] at ht
      rcases ht with ht | ht | (ht | ht | ht) | ht
      · exact got_served ok ht0 _ t ht
      · exact (htr1 t ht).served ok _
      · exact ((htrA t ht).inv hi1).served ok _
      · exact htr3 t ht
      · exact htr4 t ht
      · exact (hm.tr t ht).2.served ok _
    inv := hm.inv
    repos := by simp only [Out.pre_st]; rw [hm.neutral.db, hD.repos, ha.repos, hr2]
    has := by
      intro r' j
      simp only [Out.pre_st]
      rw [St.has_congr hm.neutral.db, hD.has, ha.has, hhas2]
    hasDelta := by
      intro j
      simp only [Out.pre_st]
      rw [St.hasDelta_congr hm.neutral.db]; exact hDd j
    frame := by
      have f1 : Frame W (full = true) s s3 new := (hf2.trans ha.frame).weaken (fun h => h.elim)
      exact (f1.trans hDf).trans hm.neutral.frame
    assets := by
      intro a
      simp only [Out.pre_st]
      rw [hm.neutral.read, hD.asset, ha.asset, hass hne a]
      have : ((s.got src).created new).fs.read = s.fs.read := by
        have : ((s.got src).created new).fs.read = (s.got src).fs.read := rfl
        rw [this]; simp
      rw [this]
      cases s.fs.read (.asset src a) <;> rfl
    fresh := hm.fresh
    okIff := by
      have := hm.okIff
      have hc1 : ((s.got src).created new).clock = (s.got src).clock := rfl
      rw [hD.clock, ha.clock, hA.clock, hc1, St.got_clock] at this
      exact this
    tight := by
      intro ht
      have h0 : Tight W (s.got src) := (neutral_got' s new src).tight ht
      have h1 : Tight W ((s.got src).created new) := h0.put hgi hi1 hn' rfl rfl rfl (fun _ _ => rfl)
      have h2 : Tight W s2 := h1.quiet hi2.fs hA.db (fun q hq => hA.read q (by rintro a rfl; cases hq))
      have h3 : Tight W s3 := ha.job.tight h2 (fun d hd => by rw [hhd2, hnonewd] at hd; cases hd)
      exact hm.neutral.tight (hD.tight h3) }

theorem mCloneRepo_missing (h : Inv W s) {src new : Str} (hs : src ∉ s.db.repos.keys) (full : Bool) :
    mCloneRepo W.E src new full s = ⟨.err .notFound, s, []⟩ := by
  unfold mCloneRepo; rw [bind_err (getRepo_missing h hs)]

theorem mCloneRepo_bad (h : Inv W s) {src new : Str} (hs : src ∈ s.db.repos.keys)
    (hn : new ∈ s.db.repos.keys ∨ reservedKey new = true) (full : Bool) :
    ∃ e u tr, mCloneRepo W.E src new full s = ⟨.err e, u, tr⟩ ∧ SameObs s u ∧ Inv W u ∧
      ∀ t ∈ tr, SameObs s t ∧ Inv W t := by
  obtain ⟨t0, hg, ht0⟩ := getRepo_run h hs
  have hgi : Inv W (s.got src) := h.got hs
  by_cases hk : new ∈ s.db.repos.keys
  · obtain ⟨t1, hrun, ht1⟩ := createRepo_exists (r := new) hgi (by simpa using hk)
    refine ⟨.exists_, (s.got src).got new, t0 ++ t1, ?_, ?_, hgi.got (by simpa using hk), ?_⟩
    · unfold mCloneRepo; rw [bind_ok hg, bind_err hrun]; simp
    · exact (SameObs.got s src).trans (SameObs.got _ new)
    · intro t ht
      rcases List.mem_append.1 ht with ht | ht
      · exact ht0 t ht
      · exact ⟨(SameObs.got s src).trans (ht1 t ht).1, (ht1 t ht).2⟩
  · have hres : reservedKey new = true := by rcases hn with h | h; exact absurd h hk; exact h
    have hk' : new ∉ (s.got src).db.repos.keys := by simpa using hk
    refine ⟨.reserved, s.got src, t0, ?_, SameObs.got s src, hgi, ht0⟩
    unfold mCloneRepo
    rw [bind_ok hg, bind_err (createRepo_reserved hgi hk' (hgi.rdir_false hk') hres)]; simp

end Ferryd
