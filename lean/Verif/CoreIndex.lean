import Verif.CoreDelta
/-!
# CoreIndex: what an index run does in a state satisfying the invariant
-/
namespace Ferryd

variable {W : World} {s s' : St} {r : Str}

/-- Only the published index of `r` (and the run counter) may differ. -/
structure IdxOnly (s s' : St) (r : Str) : Prop where
  db : s'.db = s.db
  tab : s'.fs.tab = s.fs.tab
  data : s'.fs.data = s.fs.data
  next : s'.fs.next = s.fs.next
  rdir : s'.fs.rdir = s.fs.rdir
  cache : s'.cache = s.cache
  pend : s'.pend = s.pend
  idx : ∀ r', r' ≠ r → s'.fs.idx r' = s.fs.idx r'

theorem IdxOnly.refl (s : St) (r : Str) : IdxOnly s s r := ⟨rfl, rfl, rfl, rfl, rfl, rfl, rfl, fun _ _ => rfl⟩

theorem IdxOnly.read (h : IdxOnly s s' r) : s'.fs.read = s.fs.read := by
  funext p; unfold FS.read; rw [h.tab, h.data]

theorem IdxOnly.inv (h : IdxOnly s s' r) (hi : Inv W s) : Inv W s' :=
  hi.vol h.db h.tab h.data h.next (by rw [h.pend]; exact hi.pend) (by rw [h.cache]; exact hi.cache)
    (by rw [h.rdir]; exact hi.rdir)

/-- The deltas of a repository record offered for the package `id` of release `rel`. -/
def World.docDeltas (W : World) (s : St) (e : RepoEntry) (rel : Int) : List DocDelta :=
  e.deltas.filterMap fun d =>
    match s.db.pool.get d with
    | some pd => match pd.delta with
      | some di => if di.toRelease = rel then
          some ⟨di.fromRelease, (W.stamped d).uri, (W.stamped d).size, (W.stamped d).hash⟩ else none
      | none => none
    | none => none

/-- The index element of a published package. -/
def World.docPkg (W : World) (s : St) (r id : Str) : DocPkg :=
  ⟨id, W.stamped id, match (s.db.ents r).get (W.mOf id).name with
    | some e => W.docDeltas s e (W.mOf id).rel
    | none => []⟩

/-- The ids published in the index. -/
def World.docIds (W : World) (s : St) (r : Str) (obs : List Str) : List Str :=
  (sortS ((((s.db.ents r).map Prod.snd).filter fun e => !obs.contains e.name).map RepoEntry.published)).filter
    fun id => !obs.contains (stripDbg (W.mOf id).name)

/-- The elements of an asset file of repository `r`; `none` when it does not parse. -/
def elementsOf (p : Content → ParsedAsset) (s : St) (r : Str) (a : Asset) : Option (List Str) :=
  match s.fs.read (.asset r a) with
  | none => some []
  | some c => match p c with | .good l => some l | _ => none

def World.docOf (W : World) (s : St) (r : Str) (dist : Option (List Str)) : Doc :=
  ⟨dist, (W.docIds s r (dist.getD [])).map (W.docPkg s r),
    (elementsOf W.E.parseComps s r .components).getD [], (elementsOf W.E.parseGroups s r .groups).getD []⟩

theorem emitAsset_run {p : Content → ParsedAsset} (hp : ∀ c, p c ≠ .crash) (a : Asset) :
    emitAsset p r a s = match elementsOf p s r a with
      | some l => ⟨.ok l, s, []⟩
      | none => ⟨.err .badAsset, s, []⟩ := by
  unfold emitAsset elementsOf
  rw [getSt_bind]
  cases hr : s.fs.read (.asset r a) with
  | none => rfl
  | some c =>
    cases hc : p c with
    | bad => simp [hc]
    | crash => exact absurd hc (hp c)
    | good l => simp [hc]

theorem pushDeltas_run (ok : W.OK) (h : Inv W s) {id : Str} {pe : PoolEntry} {e : RepoEntry}
    (hg : s.db.pool.get id = some pe) (he : (s.db.ents r).get (W.mOf id).name = some e) :
    pushDeltas r pe s = ⟨.ok (W.docDeltas s e (W.mOf id).rel), s, []⟩ := by
  have hp := h.pool id pe hg
  have hm : pe.pkg.name = (W.mOf id).name := by rw [hp.pkg]; rfl
  unfold pushDeltas
  rw [hm, repoGet_bind_some _ he]
  refine (collectL_pure (g := fun d => (match s.db.pool.get d with
        | some pd => match pd.delta with
          | some di => if di.toRelease = (W.mOf id).rel then
              some (⟨di.fromRelease, (W.stamped d).uri, (W.stamped d).size, (W.stamped d).hash⟩ : DocDelta)
              else none
          | none => none
        | none => none).toList) ?_).trans ?_
  · intro d hd
    obtain ⟨hdl, ⟨pd, hpd⟩, _⟩ := (h.ent r _ e he).deltas d hd
    have hpo := h.pool d pd hpd
    rw [poolGet_bind_some _ hpd]
    have hsome : pd.delta.isSome = true := by rw [hpo.delta, hdl]
    cases hdi : pd.delta with
    | none => rw [hdi] at hsome; cases hsome
    | some di =>
      have hh : pe.pkg.history ≠ [] := by rw [hp.pkg]; exact (ok.meta hp.isPkg).hist
      have hr : pe.pkg.rel = (W.mOf id).rel := by rw [hp.pkg]; rfl
      simp only [getRelease_bind hh, hr, hpo.pkg, hpd, hdi]
      by_cases hx : di.toRelease = (W.mOf id).rel <;> simp [hx]
  · unfold World.docDeltas
    congr 2
    generalize e.deltas = l
    induction l with
    | nil => rfl
    | cons x xs ih =>
      rw [List.flatMap_cons, ih, List.filterMap_cons]
      generalize (match s.db.pool.get x with
        | some pd => match pd.delta with
          | some di => if di.toRelease = (W.mOf id).rel then
              some (⟨di.fromRelease, (W.stamped x).uri, (W.stamped x).size, (W.stamped x).hash⟩ : DocDelta)
              else none
          | none => none
        | none => none) = o
      cases o <;> rfl

theorem emitPackage_run (ok : W.OK) (h : Inv W s) {id : Str} {pe : PoolEntry} {e : RepoEntry}
    (hg : s.db.pool.get id = some pe) (he : (s.db.ents r).get (W.mOf id).name = some e)
    (dist : Option (List Str)) :
    emitPackage r dist pe s =
      ⟨.ok (if (dist.getD []).contains (stripDbg (W.mOf id).name) then [] else [W.docPkg s r id]), s, []⟩ := by
  have hp := h.pool id pe hg
  have hm : pe.pkg.name = (W.mOf id).name := by rw [hp.pkg]; rfl
  unfold emitPackage
  rw [hm]
  by_cases hc : (dist.getD []).contains (stripDbg (W.mOf id).name) = true
  · rw [if_pos hc, if_pos hc]; rfl
  · rw [if_neg hc, if_neg hc, bind_ok (pushDeltas_run ok h hg he)]
    have ho : (W.stamped id).own = [] := (ok.meta hp.isPkg).own
    simp [World.docPkg, he, hp.name, hp.pkg, ho]

/-- Do the components and groups files parse? -/
def World.compsOk (W : World) (s : St) (r : Str) : Bool :=
  (elementsOf W.E.parseComps s r .components).isSome && (elementsOf W.E.parseGroups s r .groups).isSome

/-- The obsolete set in force: `none` when distribution.xml does not parse. -/
def World.distOf (W : World) (s : St) (r : Str) : Option (Option (List Str)) :=
  match s.fs.read (.asset r .distribution) with
  | none => some none
  | some c => (W.E.parseDist c).map some

theorem emitIndex_run (ok : W.OK) (h : Inv W s) (dist : Option (List Str)) :
    emitIndex W.E r dist s =
      if W.compsOk s r then ⟨.ok (W.docOf s r dist), s, []⟩ else ⟨.err .badAsset, s, []⟩ := by
  unfold emitIndex
  rw [repoEntries_bind]
  have key : ∀ id ∈ sortS ((((s.db.ents r).map Prod.snd).filter
        fun e => !(dist.getD []).contains e.name).map RepoEntry.published),
      (poolGet id >>= fun pe => emitPackage r dist pe) s =
      ⟨.ok (if (dist.getD []).contains (stripDbg (W.mOf id).name) then [] else [W.docPkg s r id]), s, []⟩ := by
    intro id hid
    rw [mem_sortS] at hid
    simp only [List.mem_map, List.mem_filter] at hid
    obtain ⟨e, ⟨⟨⟨n, e'⟩, hm, rfl⟩, _⟩, rfl⟩ := hid
    have hge := KV.get_of_mem (h.wfEnts r) hm
    have heo := h.ent r n e' hge
    obtain ⟨_, ⟨pe, hpe⟩, hn⟩ := heo.avail _ heo.pub
    rw [poolGet_bind_some _ hpe]
    exact emitPackage_run ok h hpe (by rw [hn]; exact hge) dist
  refine (bind_ok (collectL_pure key)).trans ?_
  have hdoc : (sortS ((((s.db.ents r).map Prod.snd).filter
        fun e => !(dist.getD []).contains e.name).map RepoEntry.published)).flatMap
      (fun id => if (dist.getD []).contains (stripDbg (W.mOf id).name) then [] else [W.docPkg s r id]) =
      (W.docOf s r dist).packages := by
    unfold World.docOf World.docIds
    generalize sortS _ = l
    induction l with
    | nil => rfl
    | cons x xs ih =>
      simp only [List.flatMap_cons, ih, List.filter_cons]
      by_cases hc : (dist.getD []).contains (stripDbg (W.mOf x).name) = true
      · simp only [hc]; simp
      · simp only [hc]; simp
  rw [hdoc]
  rw [Out.pre_nil]
  unfold World.compsOk
  have h1 := emitAsset_run (s := s) (r := r) ok.comps_no_crash .components
  have h2 := emitAsset_run (s := s) (r := r) ok.groups_no_crash .groups
  cases hc : elementsOf W.E.parseComps s r .components with
  | none =>
    rw [hc] at h1
    rw [bind_err h1]
    simp
  | some l =>
    rw [hc] at h1
    rw [bind_ok h1, Out.pre_nil]
    cases hg : elementsOf W.E.parseGroups s r .groups with
    | none =>
      rw [hg] at h2
      rw [bind_err h2]
      simp
    | some g =>
      rw [hg] at h2
      rw [bind_ok h2, Out.pre_nil]
      simp [World.docOf, hc, hg]

theorem initDistribution_run (s : St) (r : Str) :
    initDistribution W.E r s = match W.distOf s r with
      | none => ⟨.err .badAsset, s, []⟩
      | some d => ⟨.ok d, s, []⟩ := by
  unfold initDistribution World.distOf
  rw [getSt_bind]
  cases hr : s.fs.read (.asset r .distribution) with
  | none => rfl
  | some c =>
    cases hd : W.E.parseDist c with
    | none => simp [hd]
    | some d => simp [hd]

/-- What an index run does: never panics, changes nothing but the published index of `r`; on success that
is the document describing the repository; without success it is the old one or (failure after
publication) the new one. -/
structure Indexed (W : World) (s : St) (r : Str) (o : Out Unit) : Prop where
  only : IdxOnly s o.st r
  tr : ∀ t ∈ o.tr, IdxOnly s t r ∧
    (t.fs.idx r = s.fs.idx r ∨ ∃ d, W.distOf s r = some d ∧ W.compsOk s r = true ∧ t.fs.idx r = some (W.docOf s r d))
  noPanic : o.res ≠ .panic
  okDoc : o.res = .ok () → ∃ d, W.distOf s r = some d ∧ W.compsOk s r = true ∧ o.st.fs.idx r = some (W.docOf s r d)
  errDoc : ∀ e, o.res = .err e → o.st.fs.idx r = s.fs.idx r ∨
    ∃ d, W.distOf s r = some d ∧ W.compsOk s r = true ∧ o.st.fs.idx r = some (W.docOf s r d)
  succeeds : (W.distOf s r).isSome = true → W.compsOk s r = true → W.E.indexIO s.clock = .ok →
    o.res = .ok ()
  needs : o.res = .ok () → W.compsOk s r = true ∧ W.E.indexIO s.clock = .ok
  bad : (W.distOf s r).isSome = false ∨ W.compsOk s r = false → o = ⟨.err .badAsset, s, []⟩

theorem indexRepo_run (ok : W.OK) (h : Inv W s) : Indexed W s r (indexRepo W.E r s) := by
  unfold indexRepo
  cases hd : W.distOf s r with
  | none =>
    have := initDistribution_run (W := W) s r
    rw [hd] at this
    rw [bind_err this]
    exact ⟨IdxOnly.refl s r, by simp, by simp, by simp, fun e _ => Or.inl rfl, by simp [hd], by simp, fun _ => rfl⟩
  | some d =>
    have := initDistribution_run (W := W) s r
    rw [hd] at this
    rw [bind_ok this, Out.pre_nil]
    have hem := emitIndex_run (r := r) ok h d
    by_cases hc : W.compsOk s r = true
    · rw [if_pos hc] at hem
      rw [bind_ok hem, Out.pre_nil, getSt_bind, volM_bind]
      cases hio : W.E.indexIO s.clock with
      | failBefore =>
        simp only [throwE_run]
        exact ⟨⟨rfl, rfl, rfl, rfl, rfl, rfl, rfl, fun _ _ => rfl⟩, by simp, by simp, by simp,
          fun e _ => Or.inl rfl, by simp [hio], by simp, by simp [hc, hd]⟩
      | ok =>
        simp only [stepM_run]
        have hio' : IdxOnly s (St.setFs { s with clock := s.clock + 1 }
            { s.fs with idx := fun r' => if r' = r then some (W.docOf s r d) else s.fs.idx r' }) r :=
          ⟨rfl, rfl, rfl, rfl, rfl, rfl, rfl, fun r' hr' => by simp [hr']⟩
        refine ⟨hio', ?_, by simp, fun _ => ⟨d, hd, hc, by simp⟩, by simp, by simp,
          fun _ => ⟨hc, hio⟩, by simp [hc, hd]⟩
        intro t ht
        simp only [List.mem_singleton] at ht
        subst ht
        exact ⟨hio', Or.inr ⟨d, hd, hc, by simp⟩⟩
      | failAfter =>
        simp only [stepM_bind, throwE_run, Out.pre_mk]
        have hio' : IdxOnly s (St.setFs { s with clock := s.clock + 1 }
            { s.fs with idx := fun r' => if r' = r then some (W.docOf s r d) else s.fs.idx r' }) r :=
          ⟨rfl, rfl, rfl, rfl, rfl, rfl, rfl, fun r' hr' => by simp [hr']⟩
        refine ⟨hio', ?_, by simp, by simp, fun e _ => Or.inr ⟨d, hd, hc, by simp⟩, by simp [hio],
          by simp, by simp [hc, hd]⟩
        intro t ht
        simp only [List.append_nil, List.mem_singleton] at ht
        subst ht
        exact ⟨hio', Or.inr ⟨d, hd, hc, by simp⟩⟩
    · rw [if_neg hc] at hem
      rw [bind_err hem]
      exact ⟨IdxOnly.refl s r, by simp, by simp, by simp, fun e _ => Or.inl rfl, by simp [hc], by simp, fun _ => rfl⟩

end Ferryd
