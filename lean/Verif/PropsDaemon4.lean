import Verif.PropsDaemon2
import Verif.PropsProv
/-!
# PropsDaemon4: what the repositories of a daemon list was submitted (C143), and only requests make a repository shrink (C144)
-/
namespace Ferryd.Daemon
open Ferryd.Jobs Ferryd.Db Ferryd.Spec Ferryd.Daemon.Spec

section
variable {W : World} {T : TramEnv} {C : Codec} {K K' : List Request} {d d' : Sys} {s : St}

/-- Properties `H` of the repositories that certain operations (`can`) keep when they run to their end and, those of them that `may`, also when they are
cut short. (No code: a notion of the proofs.) -/
structure Closure (W : World) (can : Op → Prop) (H : St → Prop) (may : Op → Bool) : Prop where
  job : ∀ {s}, H s → ∀ o : Op, o.Ok W → can o → H (o.exec W.E s)
  dies : ∀ {s u}, H s → ∀ o : Op, o.Ok W → can o → may o = true → Moment W o s u → H u.crash
  fails : ∀ {s u}, H s → ∀ o : Op, o.Ok W → can o → may o = true → Moment W o s u → H { u with pend := [] }
  wild : ∀ {s}, H s → Wild W s
  got : ∀ {s} r, H s → H (getRepo r s).st
  index : ∀ r, can (.index r) ∧ may (.index r) = true
  unlink : ∀ f, can (.unlink f) ∧ may (.unlink f) = true
  restart : can .restart

variable {can : Op → Prop} {H : St → Prop} {may : Op → Bool}

/-- The files a manifest at `p`, as it reads in state `s`, asks to import into `target`. -/
def Spec.Uploads (T : TramEnv) (s : St) (p target : Str) (files : List Str) : Prop :=
  ∃ t, Decodes T s p t ∧ WellFormed t ∧ Stripped t.target target ∧
    files = t.files.map (fun f => Paths.join (Paths.dir (Paths.absP T.cwd p)) (trimSpace f.path))

/-- All a request may carry out is allowed. (No code: a notion of the proofs.) -/
def Allowed (W : World) (T : TramEnv) (can : Op → Prop) (r : Request) : Prop :=
  (∀ o, operation r = some o → can o) ∧ ∀ p, r = .transit p → ∀ s target files, Wild W s → Uploads T s p target files → can (.addPackages target files true)

theorem Closure.moment (hh : Closure W can H may) (ok : W.OK) (hz : W.NoTorn) (h : H s) (o : Op) (ho : o.Ok W) (hc : can o) (hm : may o = true) {a : Option Str}
    (ha : ∀ r, a = some r → o.target = some r) {t c : St} (ht : t ∈ (o.run W.E s).tr) (hcut : Torn a t c) : H c.crash ∧ H { c with pend := [] } := by
  have hr : Rough W t := (o.keeps ok hz ho s ((hh.wild h).rough ok hz)).tr t ht
  exact ⟨hh.dies h o ho hc hm ⟨t, ht, hcut.half hr ha⟩, hh.fails h o ho hc hm ⟨t, ht, hcut.half hr ha⟩⟩

theorem Closure.op (hh : Closure W can H may) (ok : W.OK) (hz : W.NoTorn) (h : H s) (o : Op) (ho : o.Ok W) (hc : can o) {k : Bool} (hk : k = true → may o = true)
    {a : Option Str} (ha : ∀ r, a = some r → o.target = some r) : Lasts H k a (o.run W.E s) :=
  ⟨hh.job h o ho hc, fun he _ ht _ hcut => hh.moment ok hz h o ho hc (hk he) ha ht hcut, C109_no_panic ok hz (hh.wild h) o ho⟩

theorem Closure.gets (hh : Closure W can H may) (ok : W.OK) (hz : W.NoTorn) (h : H s) (r : Str) {k : Bool} : Lasts H k none (getRepo r s) := by
  have hl := Lasts.got (k := k) (hist_wild (W := W)) ok hz (hh.wild h) r
  refine ⟨hh.got r h, fun _ t ht c hc => ?_, hl.np⟩
  refine hh.moment ok hz h (.index r) trivial (hh.index r).1 (hh.index r).2 (fun _ h => by cases h) ?_ hc
  simp only [Op.run]
  unfold mIndex
  rcases hg : getRepo r s with ⟨res, s1, tr⟩
  rw [hg] at ht
  cases res with
  | ok a => rw [bind_ok hg]; simp only [Out.pre_tr, List.mem_append]; exact .inl ht
  | err e => rw [bind_err hg]; exact ht
  | panic => rw [bind_panic hg]; exact ht

theorem Closure.unlinks (hh : Closure W can H may) (h : H s) (ps : List Str) : H (unlinks s ps) := by
  induction ps generalizing s with
  | nil => exact h
  | cons p ps ih => exact ih (hh.job h (.unlink p) trivial (hh.unlink p).1)

theorem Closure.transit (hh : Closure W can H may) (ok : W.OK) (hz : W.NoTorn) (hd : ∀ d, W.isDelta d = false) (h : H s) (path : Str)
    (hc : ∀ target files, Uploads T s path target files → can (.addPackages target files true)) {k : Bool}
    (hk : k = true → ∀ r fs, may (.addPackages r fs true) = true) : Lasts H k none (transitJob W.E T path s) := by
  rcases transitJob_cases W.E T path s with ⟨e, he, _⟩ | ⟨t, hdec, hwf, _, target, files, hst, hfs, he⟩
  · rw [he]; exact ⟨h, fun _ c hc => (by cases hc), by simp⟩
  · have hcan := hc target files ⟨t, hdec, hwf, hst, hfs⟩
    rw [he]
    refine Lasts.then (hh.gets ok hz h target) fun _ _ => ?_
    have h1 := hh.got target h
    refine Lasts.then (hh.op ok hz h1 (.addPackages target files true) (fun f _ => hd _) hcan (fun he => hk he _ _) (fun _ h => by cases h)) fun _ _ => ?_
    have h2 : H (mAddPackages W.E target files true (getRepo target s).st).st :=
      hh.job h1 (.addPackages target files true) (fun f _ => hd _) hcan
    refine ⟨?_, fun _ t ht c hc => ?_, ?_⟩
    · obtain ⟨tr, e2, _⟩ := removeLoop_run (files ++ [Paths.absP T.cwd path]) (mAddPackages W.E target files true (getRepo target s).st).st
      show H (forL _ _ (mAddPackages W.E target files true (getRepo target s).st).st).st
      rw [e2]; exact hh.unlinks h2 _
    · obtain ⟨qs, p, rfl⟩ := removeLoop_trace _ _ t ht
      rw [unlinks_snoc (E := W.E)] at hc
      exact hh.moment ok hz (hh.unlinks h2 qs) (.unlink p) trivial (hh.unlink p).1 (hh.unlink p).2 (fun _ h => by cases h) (List.mem_singleton.2 rfl) hc
    · obtain ⟨tr, e2, _⟩ := removeLoop_run (files ++ [Paths.absP T.cwd path]) (mAddPackages W.E target files true (getRepo target s).st).st
      show (forL _ _ (mAddPackages W.E target files true (getRepo target s).st).st).res ≠ .panic
      rw [e2]; simp

open Classical in
theorem Closure.performs (hh : Closure W can H may) (ok : W.OK) (hz : W.NoTorn) (hd : ∀ d, W.isDelta d = false) (h : H s) (r : Request) (hr : Allowed W T can r) :
    Lasts H (decide (Cuttable may r)) (assetTarget r) (perform W.E T r s) := by
  have op : ∀ o : Op, o.Ok W → operation r = some o → (∀ x, assetTarget r = some x → o.target = some x) →
      Lasts H (decide (Cuttable may r)) (assetTarget r) ((do o.run W.E; Pure.pure ([] : List Request)) s) := fun o ho hro ha =>
    Lasts.then (β := List Request) (hh.op ok hz h o ho (hr.1 o hro) (fun hk => (of_decide_eq_true hk).1 o hro) ha) fun a _ =>
      Lasts.pure (hh.job h o ho (hr.1 o hro)) []
  unfold Spec.perform
  split
  · cases r with
    | bulkAdd r ps => exact op _ (fun f _ => hd _) rfl (fun _ h => by cases h)
    | copySource r t x n k => exact op _ trivial rfl (fun _ h => by cases h)
    | cloneRepo r n all => exact op _ trivial rfl (fun _ h => h)
    | createRepo r => exact op _ trivial rfl (fun _ h => by cases h)
    | deleteRepo r => exact op _ trivial rfl (fun _ h => by cases h)
    | indexRepo r => exact op _ trivial rfl (fun _ h => by cases h)
    | pullRepo a b => exact op _ trivial rfl (fun _ h => h)
    | removeSource r x n => exact op _ trivial rfl (fun _ h => by cases h)
    | trimObsolete r => exact op _ trivial rfl (fun _ h => by cases h)
    | trimPackages r n => exact op _ trivial rfl (fun _ h => by cases h)
    | delta r p => exact Lasts.err h _
    | deltaIndex r p => exact Lasts.err h _
    | deltaRepo r =>
      refine Lasts.then (hh.gets ok hz h r) fun _ _ => ?_
      refine Lasts.then (m := getPackageNames r) ?_ fun a _ => Lasts.pure ?_ _
      · rw [deltaRepo_names]; exact ⟨hh.got r h, fun _ c hc => (by cases hc), by simp⟩
      · rw [deltaRepo_names]; exact hh.got r h
    | transit p =>
      have := hh.transit (T := T) ok hz hd h p (fun target files hu => hr.2 p rfl s target files (hh.wild h) hu) (k := decide (Cuttable may (.transit p)))
        (fun hk x fs => (of_decide_eq_true hk).2 ⟨p, rfl⟩ x fs)
      exact Lasts.then this fun _ _ => Lasts.pure this.fin _
  · exact Lasts.err h _

/-! ## What a step of the daemon does to the repositories -/

/-- A worker executes a request that was submitted and not finished. -/
theorem runs_request (h : Jobs.Reach C calm d.jobs) {i : Nat} {q : Queue} {id : Str} {j : JobEntry} (hr : d.jobs.Runs i q id j) :
    ∃ t r, d.jobs.reqs[t]? = some r ∧ t ∉ d.jobs.done ∧ (∀ E s, runJob E T j.type j.params s = perform E T r s) ∧ wanted j = if r.Valid then some r else none := by
  obtain ⟨r, h1, _, h3, h4, h5⟩ := running h hr
  exact ⟨_, r, h1, h5, fun E s => by rw [← h3, ← h4, runJob_eq], wanted_eq h3 h4⟩

theorem Closure.ended (hh : Closure W can H may) (ok : W.OK) (hz : W.NoTorn) (hd : ∀ d, W.isDelta d = false) (hH : H d.core) {j : JobEntry} {r : Request}
    (hrun : ∀ E s, runJob E T j.type j.params s = perform E T r s) (hw : wanted j = if r.Valid then some r else none) (hr : Allowed W T can r)
    {l : List Request} {f : Option Str} {c : St} (he : Ended W.E T j d.core K l f c) (hK : ∀ r ∈ K, Cuttable may r) : H c := by
  have hp := hh.performs ok hz hd hH r hr
  cases he with
  | whole msg hn => rw [hrun]; exact hp.fin
  | fault msg ht hc =>
    rw [hrun] at ht
    by_cases hv : r.Valid
    · rw [hw, if_pos hv] at hc hK
      exact (hp.dies (by simpa using hK r (by simp)) _ ht _ hc).2
    · rw [perform_invalid hv] at ht; cases ht

theorem Closure.cutAt (hh : Closure W can H may) (ok : W.OK) (hz : W.NoTorn) (hd : ∀ d, W.isDelta d = false) (hH : H s) {j : JobEntry} {r : Request}
    (hrun : ∀ E s, runJob E T j.type j.params s = perform E T r s) (hw : wanted j = if r.Valid then some r else none) (hr : Allowed W T can r)
    {c : St} (hc : CutAt ((wanted j).bind assetTarget) (runJob W.E T j.type j.params) s c) (hK : ∀ r ∈ (wanted j).toList, Cuttable may r) : H c.crash := by
  have hp := hh.performs ok hz hd hH r hr
  have rst : ∀ {x}, H x → H x.crash := fun hx => hh.job hx .restart trivial hh.restart
  rcases hc with rfl | ⟨t, ht, hc⟩ | rfl
  · exact rst hH
  · rw [hrun] at ht
    by_cases hv : r.Valid
    · rw [hw, if_pos hv] at hc hK
      exact (hp.dies (by simpa using hK r (by simp)) _ ht _ hc).1
    · rw [perform_invalid hv] at ht; cases ht
  · rw [hrun]; exact rst hp.fin

/-- One step of the daemon keeps what all the unfinished requests keep. -/
theorem Closure.step (hh : Closure W can H may) (ok : W.OK) (hz : W.NoTorn) (hd : ∀ d, W.isDelta d = false) (h : Jobs.Reach C calm d.jobs) (hs : Step (worldUploads W) W.E T C K d d')
    (hcan : ∀ t r, d.jobs.reqs[t]? = some r → t ∉ d.jobs.done → Allowed W T can r)
    (hout : ∀ o, Outside (worldUploads W) o → can o) (hK : ∀ r ∈ K, Cuttable may r) (hH : H d.core) : H d'.core := by
  have rst : ∀ {x}, H x → H x.crash := fun hx => hh.job hx .restart trivial hh.restart
  cases hs with
  | submit r now hup => exact hH
  | claim now hup hn hi => exact hH
  | reset b hup => exact hH
  | finish now hup hr hend =>
    obtain ⟨t, r, h1, h2, h3, h4⟩ := runs_request (T := T) h hr
    exact hh.ended ok hz hd hH h3 h4 (hcan t r h1 h2) hend hK
  | killRetire now c hup hr hend hc =>
    obtain ⟨t, r, h1, h2, h3, h4⟩ := runs_request (T := T) h hr
    exact rst (hh.ended ok hz hd hH h3 h4 (hcan t r h1 h2) hend hK)
  | killRun now n c hup hr hc =>
    obtain ⟨t, r, h1, h2, h3, h4⟩ := runs_request (T := T) h hr
    exact hh.cutAt ok hz hd hH h3 h4 (hcan t r h1 h2) hc hK
  | kill hup hn => exact rst hH
  | killReset b c hup hn hc => exact rst hH
  | killResetRun now n c b r' hup hr hc hrr' =>
    obtain ⟨t, r, h1, h2, h3, h4⟩ := runs_request (T := T) h hr
    exact hh.cutAt ok hz hd hH h3 h4 (hcan t r h1 h2) hc hK
  | boot n hup => exact hH
  | killBoot c hup hc => exact hH
  | outside o ho =>
    refine hh.job hH o ?_ (hout o ho)
    cases ho with
    | upload hu => exact hu
    | unlink f => trivial
    | putAsset r a c => trivial

theorem jobs_done {s s' : Jobs.Sys} (h : Jobs.Steps C calm s s') {t : Nat} (ht : t ∈ s.done) : t ∈ s'.done := by
  induction h with
  | refl => exact ht
  | tail _ hs ih =>
    cases hs <;> first
      | exact ih
      | exact List.mem_cons_of_mem _ ih
      | (simp only [Jobs.Sys.boot]; split <;> exact ih)

theorem jobs_reqs {s s' : Jobs.Sys} (h : Jobs.Steps C calm s s') {t : Nat} {r : Request} (ht : s.reqs[t]? = some r) : s'.reqs[t]? = some r := by
  obtain ⟨l, hl⟩ := C38_submissions_kept h
  rw [hl, List.getElem?_append_left]
  · exact ht
  · exact (List.getElem?_eq_some_iff.1 ht).1

/-- Steps of the daemon keep what all the requests keep that are submitted by their end and were not finished at their beginning. -/
theorem Closure.steps (hh : Closure W can H may) (ok : W.OK) (hz : W.NoTorn) (hd : ∀ d, W.isDelta d = false) (h : Reach (worldUploads W) W.E T C K d)
    (hs : Steps (worldUploads W) W.E T C K' d d') (hN : d'.jobs.reqs.length < 2 ^ 62)
    (hcan : ∀ t r, d'.jobs.reqs[t]? = some r → t ∉ d.jobs.done → Allowed W T can r)
    (hout : ∀ o, Outside (worldUploads W) o → can o) (hK : ∀ r ∈ K', Cuttable may r) (hH : H d.core) : H d'.core := by
  induction hs with
  | refl => exact hH
  | tail h1 hs ih =>
    have hle := Nat.lt_of_le_of_lt hs.reqs_le hN
    have j1 := h1.jobs
    have hmid := ih h hle (fun t r hr ht => hcan t r (jobs_reqs (hs.jobs .refl) hr) ht) (fun r hr => hK r (List.mem_append_left _ hr)) hH
    exact hh.step ok hz hd ⟨h.1.jobs.trans j1, hle⟩ hs (fun t r hr ht => hcan t r (jobs_reqs (hs.jobs .refl) hr) fun hx => ht (jobs_done j1 hx))
      hout (fun r hr => hK r (List.mem_append_right _ hr)) hmid

/-- Looking a repository up changes no listing. -/
theorem got_ents (r : Str) (s : St) : (getRepo r s).st.db.ents = s.db.ents := ((getRepo_still r).mute.fin s)

theorem lists_congr {s t : St} (h : t.db.ents = s.db.ents) (r n x : Str) : Lists t r n x ↔ Lists s r n x := by unfold Lists; rw [h]
theorem tip_congr {s t : St} (h : t.db.ents = s.db.ents) (r n x : Str) : Tip t r n x ↔ Tip s r n x := by unfold Tip; rw [h]

/-! ## C143 -/

namespace Spec
/-- The request names a file called `x` for import: in a bulk import, or in the manifest of an upload as it read at some time. -/
def Names (W : World) (T : TramEnv) (q : Request) (x : Str) : Prop :=
  (∃ r fs, q = .bulkAdd r fs ∧ ∃ f ∈ fs, baseName f = x) ∨
  (∃ p s target fs, q = .transit p ∧ Wild W s ∧ Uploads T s p target fs ∧ ∃ f ∈ fs, baseName f = x)
/-- The request may take packages out of repository `r`. -/
def TakesFrom (q : Request) (r : Str) : Prop :=
  q = .deleteRepo r ∨ (∃ x n, q = .removeSource r x n) ∨ q = .trimObsolete r ∨ ∃ n, q = .trimPackages r n
end Spec

theorem closure_named (ok : W.OK) (hz : W.NoTorn) (J : List Request) :
    Closure W (fun o => ∀ r fs st, o = .addPackages r fs st → ∀ f ∈ fs, ∃ q ∈ J, Names W T q (baseName f))
      (fun t => Wild W t ∧ ∀ r x, Has t r x → ∃ q ∈ J, Names W T q x) (fun _ => true) := by
  have key : ∀ {s : St} (h : Wild W s ∧ ∀ r x, Has s r x → ∃ q ∈ J, Names W T q x) (o : Op)
      (hc : ∀ r fs st, o = .addPackages r fs st → ∀ f ∈ fs, ∃ q ∈ J, Names W T q (baseName f)) (u : St) (hu : Moment W o s u ∨ u = o.exec W.E s),
      ∀ r x, Has u r x → ∃ q ∈ J, Names W T q x := by
    intro s h o hc u hu r x hx
    have tip : ∀ {a : Str}, (∃ n, Tip s a n x) → Has s a x := by
      rintro a ⟨n, e, he, rfl⟩
      exact ⟨n, e, he, ((h.1.rough ok hz).db.ent a n e he).pub⟩
    rcases C141_provenance ok hz h.1 o u hu r x hx with hx | hx
    · exact h.2 r x hx
    · cases o <;> first | exact hx.elim | skip
      case clone a b full =>
        cases full with
        | true => exact h.2 a x hx.2
        | false => exact h.2 a x (tip hx.2)
      case pull a b => exact h.2 a x (tip hx.2)
      case copySource a b src rel sk => exact h.2 a x hx.2.1
      case addPackages b fs st => obtain ⟨_, f, hf, rfl⟩ := hx; exact hc b fs st rfl f hf
  refine ⟨fun h o ho hc => ⟨h.1.job o ho, key h o hc _ (.inr rfl)⟩, fun h o ho hc _ hm => ⟨h.1.dies o ho hm, by have := key h o hc _ (.inl hm); exact this⟩,
    fun h o ho hc _ hm => ⟨h.1.fails o ho hm, by have := key h o hc _ (.inl hm); exact this⟩, fun h => h.1, fun r h => ⟨hist_wild.got h.1 r, fun r' x hx => ?_⟩,
    fun r => ⟨fun _ _ _ h => (by cases h), rfl⟩, fun r => ⟨fun _ _ _ h => (by cases h), rfl⟩, fun _ _ _ h => by cases h⟩
  obtain ⟨n, hn⟩ := hx
  exact h.2 r' x ⟨n, (lists_congr (got_ents r _) r' n x).1 hn⟩

/-- C143: whatever has been submitted, however often the daemon died or met I/O errors, also in the middle of jobs: each package that a repository lists
was named in a bulk import that was submitted, or in the manifest of an upload that was. -/
theorem C143_submitted (ok : W.OK) (hz : W.NoTorn) (hd : ∀ d, W.isDelta d = false) (h : Reach (worldUploads W) W.E T C K d) (r x : Str) (hx : Has d.core r x) :
    ∃ q ∈ d.jobs.reqs, Names W T q x := by
  refine ((closure_named (T := T) ok hz d.jobs.reqs).steps ok hz hd (d := Sys.init) ⟨.refl, Nat.two_pow_pos 62⟩ h.1 h.2 (fun t q hq _ => ⟨?_, ?_⟩) ?_ ?_ ?_).2 r x hx
  · intro o ho r fs st e f hf
    subst e
    cases q <;> simp [operation] at ho
    obtain ⟨rfl, rfl, _⟩ := ho
    exact ⟨_, List.mem_of_getElem? hq, .inl ⟨_, _, rfl, f, hf, rfl⟩⟩
  · rintro p rfl s target files hs hu r fs st e f hf
    cases e
    exact ⟨_, List.mem_of_getElem? hq, .inr ⟨p, s, _, _, rfl, hs, hu, f, hf, rfl⟩⟩
  · intro o ho r fs st e
    subst e; cases ho
  · intro r _; exact ⟨fun _ _ => rfl, fun _ _ _ => rfl⟩
  · exact ⟨.init, fun r x hx => by obtain ⟨n, e, he, _⟩ := hx; simp [Sys.init, St.init] at he⟩

/-! ## C144 -/

/-- From here on no package leaves repository `r`: no request that may take some is unfinished or gets submitted. -/
theorem allowed_keeps {r : Str} {q : Request} (hq : ¬ TakesFrom q r) : Allowed W T (fun o => o.takes = true → o.target ≠ some r) q := by
  refine ⟨fun o ho ht he => hq ?_, fun p _ s target files _ _ ht => by cases ht⟩
  cases q <;> simp [operation] at ho <;> subst ho <;> first | (cases ht; done) | (cases he)
  · exact .inl rfl
  · exact .inr (.inl ⟨_, _, rfl⟩)
  · exact .inr (.inr (.inl rfl))
  · exact .inr (.inr (.inr ⟨_, rfl⟩))

/-- C144: as long as no request that takes packages out of a repository (a deletion, a removal of a source, a trim of it) is unfinished or gets submitted,
the repository keeps everything it lists and goes on publishing some release of every name, at all times, whatever else is submitted, however often the
daemon dies and whatever I/O errors it meets. -/
theorem C144_kept (ok : W.OK) (hz : W.NoTorn) (hd : ∀ d, W.isDelta d = false) (h : Reach (worldUploads W) W.E T C K d)
    (hs : Steps (worldUploads W) W.E T C K' d d') (hN : d'.jobs.reqs.length < 2 ^ 62) (r : Str)
    (hq : ∀ t q, d'.jobs.reqs[t]? = some q → t ∉ d.jobs.done → ¬ TakesFrom q r) (n : Str) :
    (∀ x, Lists d.core r n x → Lists d'.core r n x) ∧ ((∃ x, Tip d.core r n x) → ∃ y, Tip d'.core r n y) := by
  have hw := C119_histories ok hz hd h
  have cl : Closure W (fun o => o.takes = true → o.target ≠ some r)
      (fun t => Wild W t ∧ ((∀ x, Lists d.core r n x → Lists t r n x) ∧ ((∃ x, Tip d.core r n x) → ∃ y, Tip t r n y))) (fun _ => true) := by
    have key : ∀ {s : St} (h : Wild W s ∧ ((∀ x, Lists d.core r n x → Lists s r n x) ∧ ((∃ x, Tip d.core r n x) → ∃ y, Tip s r n y))) (o : Op) (ho : o.Ok W)
        (hc : o.takes = true → o.target ≠ some r) (u : St) (hu : Moment W o s u ∨ u = o.exec W.E s),
        (∀ x, Lists d.core r n x → Lists u r n x) ∧ ((∃ x, Tip d.core r n x) → ∃ y, Tip u r n y) := fun h o ho hc u hu => by
      have k := C142_additions_keep ok hz h.1 o ho r hc u hu n
      exact ⟨fun x hx => k.1 x (h.2.1 x hx), fun hx => k.2 (h.2.2 hx)⟩
    exact ⟨fun h o ho hc => ⟨h.1.job o ho, key h o ho hc _ (.inr rfl)⟩, fun h o ho hc _ hm => ⟨h.1.dies o ho hm, by have := key h o ho hc _ (.inl hm); exact this⟩,
      fun h o ho hc _ hm => ⟨h.1.fails o ho hm, by have := key h o ho hc _ (.inl hm); exact this⟩, fun h => h.1,
      fun x h => ⟨hist_wild.got h.1 x, fun y hy => (lists_congr (got_ents x _) r n y).2 (h.2.1 y hy), fun hy => by
        obtain ⟨y, hy⟩ := h.2.2 hy
        exact ⟨y, (tip_congr (got_ents x _) r n y).2 hy⟩⟩,
      fun _ => ⟨fun h => (by cases h), rfl⟩, fun _ => ⟨fun h => (by cases h), rfl⟩, fun h => by cases h⟩
  exact (cl.steps ok hz hd h hs hN (fun t q h1 h2 => allowed_keeps (hq t q h1 h2)) (fun o ho ht => by cases ho <;> cases ht)
    (fun _ _ => ⟨fun _ _ => rfl, fun _ _ _ => rfl⟩) ⟨hw, fun _ hx => hx, fun hx => hx⟩).2

/-- C140 at the daemon: as long as no request that takes packages out of a repository is unfinished or gets submitted, the releases it publishes never
fall, at any time, whatever else is submitted, however often the daemon dies and whatever I/O errors it meets; provided no remove-source or trim job (of
any repository) is ever cut short.  Missing: that case, where it is false (`C140_violated`). -/
theorem C140_daemon_partial (ok : W.OK) (hz : W.NoTorn) (hd : ∀ d, W.isDelta d = false) (h : Reach (worldUploads W) W.E T C K d)
    (hs : Steps (worldUploads W) W.E T C K' d d') (hN : d'.jobs.reqs.length < 2 ^ 62) (hK : ∀ q ∈ K ++ K', Spec.removes q = false) (r : Str)
    (hq : ∀ t q, d'.jobs.reqs[t]? = some q → t ∉ d.jobs.done → ¬ TakesFrom q r) (n x : Str) (hx : Tip d.core r n x) :
    ∃ y, Tip d'.core r n y ∧ relOf W x ≤ relOf W y := by
  have hw := h.hist hist_careful ok hz hd fun q hq => cuttable_removes (hK q (List.mem_append_left _ hq))
  have cl : Closure W (fun o => o.takes = true → o.target ≠ some r)
      (fun t => Careful W t ∧ ∃ y, Tip t r n y ∧ relOf W x ≤ relOf W y) (fun o => !o.removes) := by
    have key : ∀ {s : St} (h : Careful W s ∧ ∃ y, Tip s r n y ∧ relOf W x ≤ relOf W y) (o : Op) (ho : o.Ok W)
        (hc : o.takes = true → o.target ≠ some r) (u : St) (hu : Moment W o s u ∨ u = o.exec W.E s),
        ∃ y, Tip u r n y ∧ relOf W x ≤ relOf W y := fun h o ho hc u hu => by
      obtain ⟨y, h1, h2⟩ := h.2
      obtain ⟨z, h3, h4⟩ := C140_no_downgrade_partial ok hz h.1 o ho r hc u hu n y h1
      exact ⟨z, h3, Int.le_trans h2 h4⟩
    exact ⟨fun h o ho hc => ⟨h.1.job o ho, key h o ho hc _ (.inr rfl)⟩,
      fun h o ho hc hm' hm => ⟨h.1.dies o ho (by simpa using hm') hm, by have := key h o ho hc _ (.inl hm); exact this⟩,
      fun h o ho hc hm' hm => ⟨h.1.fails o ho (by simpa using hm') hm, by have := key h o ho hc _ (.inl hm); exact this⟩, fun h => h.1.wild,
      fun a h => ⟨hist_careful.got h.1 a, by
        obtain ⟨y, h1, h2⟩ := h.2
        exact ⟨y, (tip_congr (got_ents a _) r n y).2 h1, h2⟩⟩,
      fun _ => ⟨fun h => (by cases h), rfl⟩, fun _ => ⟨fun h => (by cases h), rfl⟩, fun h => by cases h⟩
  exact (cl.steps ok hz hd h hs hN (fun t q h1 h2 => allowed_keeps (hq t q h1 h2)) (fun o ho ht => by cases ho <;> cases ht)
    (fun q hq => cuttable_removes (hK q (List.mem_append_right _ hq))) ⟨hw, x, hx, Int.le_refl _⟩).2

end

/-! ## Not vacuous -/

namespace Demo

/-- The daemon creates "a", imports a package into it, is told to create "b" and dies when it has begun with that. -/
def g6 : Sys := { x4 with jobs := x4.jobs.claim demoCodec 0 .seq 7 }
def p0 := runJob W.E tram c0.type c0.params g6.core
def g7 : Sys :=
  { jobs := (pushAll demoCodec g6.jobs (Out.pushed p0) 8).finish demoCodec 0 .seq (be8 0) c0 8 (Out.failure p0 []), core := p0.st }
def g8 : Sys := { g7 with jobs := g7.jobs.claim demoCodec 0 .seq 9 }
def p1 := runJob W.E tram c1.type c1.params g8.core
def g9 : Sys :=
  { jobs := (pushAll demoCodec g8.jobs (Out.pushed p1) 10).finish demoCodec 0 .seq (be8 1) c1 10 (Out.failure p1 []), core := p1.st }
def q5 : Request := .createRepo ['b']
def c5 : JobEntry := ⟨q5.type, true, q5.params, ⟨11, 12, 0⟩⟩
def g10 : Sys := { g9 with jobs := g9.jobs.submit demoCodec q5 11 }
def g11 : Sys := { g10 with jobs := g10.jobs.claim demoCodec 0 .seq 12 }
def g12 : Sys := { jobs := (pushAll demoCodec g11.jobs ((Out.pushed (runJob W.E tram c5.type c5.params g11.core)).take 0) 13).kill, core := g11.core.crash }

theorem s144a : Steps (worldUploads W) W.E tram demoCodec [] Sys.init g9 :=
  .tail (K := []) (K' := []) (.tail (K := []) (K' := []) (.tail (K := []) (K' := []) (.tail (K := []) (K' := [])
    (.tail (K := []) (K' := []) (.tail (K := []) (K' := [])
    (.tail (K := []) (K' := []) (.tail (K := []) (K' := []) .refl
      (.boot 1 rfl)) (.outside _ (.upload rfl))) (.submit q0 5 up1)) (.submit q1 6 up1))
      (.claim 7 up1 (by decide) (by unfold Jobs.Sys.Idle; decide +kernel)))
      (.finish (d := g6) 8 up1 (by unfold Jobs.Sys.Runs; decide +kernel) (.whole [] (ne_panic (by decide +kernel)))))
      (.claim 9 (by decide +kernel) (by decide) (by unfold Jobs.Sys.Idle; decide +kernel)))
      (.finish (d := g8) 10 (by decide +kernel) (by unfold Jobs.Sys.Runs; decide +kernel) (.whole [] (ne_panic (by decide +kernel))))
theorem r144 : Reach (worldUploads W) W.E tram demoCodec [] g9 := ⟨s144a, by decide +kernel⟩
theorem s144 : Steps (worldUploads W) W.E tram demoCodec [q5] g9 g12 :=
  .tail (K := []) (K' := [q5]) (.tail (K := []) (K' := []) (.tail (K := []) (K' := []) .refl (.submit q5 11 (by decide +kernel)))
    (.claim 12 (by decide +kernel) (by decide) (by unfold Jobs.Sys.Idle; decide +kernel)))
    (.killRun (d := g11) (i := 0) (q := .seq) (id := be8 0) (j := c5) 13 0 g11.core (by decide +kernel) (by unfold Jobs.Sys.Runs; decide +kernel) (.inl rfl))

/-- C143: a package is listed. -/
example : Reach (worldUploads W) W.E tram demoCodec [] g9 ∧ Has g9.core ['a'] (baseName file) :=
  ⟨r144, ['a'], ((g9.core.db.ents ['a']).get ['a']).get (by decide +kernel), by decide +kernel, by decide +kernel⟩

/-- C144, C140: the hypotheses hold, the job being executed when the daemon dies is unfinished, and the package is still published. -/
example : Steps (worldUploads W) W.E tram demoCodec [q5] g9 g12 ∧ g12.jobs.reqs = [q0, q1, q5] ∧ g9.jobs.done = [1, 0] ∧ g12.jobs.done = [1, 0] ∧
    (∀ t q, g12.jobs.reqs[t]? = some q → t ∉ g9.jobs.done → ¬ TakesFrom q ['a']) ∧ (∀ q ∈ [] ++ [q5], Spec.removes q = false) ∧
    Tip g9.core ['a'] ['a'] (baseName file) := by
  have h1 : g12.jobs.reqs = [q0, q1, q5] := by decide +kernel
  refine ⟨s144, h1, by decide +kernel, by decide +kernel, ?_, by decide, ⟨((g9.core.db.ents ['a']).get ['a']).get (by decide +kernel), by decide +kernel, by decide +kernel⟩⟩
  intro t q hq _ ht
  have hm := List.mem_of_getElem? hq
  rw [h1] at hm
  simp only [List.mem_cons, List.not_mem_nil, or_false] at hm
  rcases hm with rfl | rfl | rfl <;> rcases ht with h | ⟨_, _, h⟩ | h | ⟨_, h⟩ <;> cases h

end Demo

end Ferryd.Daemon
