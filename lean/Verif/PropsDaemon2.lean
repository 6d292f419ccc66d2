import Verif.PropsDaemon
import Verif.PropsStock
/-!
# PropsDaemon2: delta-repository jobs, recorded outcomes, and the daemon with crashes in the middle of repository jobs (C117–C119)
-/
namespace Ferryd.Daemon
open Ferryd.Jobs Ferryd.Db Ferryd.Spec Daemon.Spec

section
variable {U : Str → Content → Prop} {E : Env} {T : TramEnv} {C : Codec} {d d' : Sys} {K K' : List Request} {W : World} {s : St}

/-! ## C117 -/

theorem deltaRepo_names (r : Str) (t : St) : getPackageNames r t = ⟨.ok ((t.db.ents r).map fun kv => kv.2.name), t, []⟩ := by
  simp [getPackageNames, repoEntries, Function.comp_def]

/-- C117: executing a delta-repository job on an existing repository submits one delta job for each name the repository
lists, in byte order and no other job, and leaves the repositories alone; for an unknown repository it fails and submits
nothing. -/
theorem C117_delta_repo (ok : W.OK) (h : Reachable W s) (r : Str) :
    let o := runJob W.E T (Request.deltaRepo r).type (Request.deltaRepo r).params s
    o.st.db = s.db ∧ (∀ p, o.st.fs.read p = s.fs.read p) ∧
    (Repo s r → ∃ names, o.res = .ok (names.map (Request.delta r)) ∧ Enumerates names (fun n => ∃ id, Lists s r n id) ∧ SortedS names) ∧
    (¬ Repo s r → ∃ e, o.res = .err e) := by
  have hi := h.inv ok
  rw [runJob_eq]
  intro o
  by_cases hr : r ∈ s.db.repos.keys
  · obtain ⟨t, hg, _⟩ := getRepo_run hi hr
    have ho : o = ⟨.ok (((s.db.ents r).map fun kv => kv.2.name).map (Request.delta r)), s.got r, t⟩ := by
      show perform W.E T (.deltaRepo r) s = _
      unfold perform
      rw [if_pos (by trivial)]
      simp only [operation]
      rw [bind_ok hg, bind_ok (deltaRepo_names r (s.got r))]
      simp [Out.pre]
    rw [ho]
    have hn : ((s.db.ents r).map fun kv => kv.2.name) = (s.db.ents r).keys := by
      unfold KV.keys
      apply List.map_congr_left
      intro kv hkv
      exact (hi.ent r kv.1 kv.2 (KV.get_of_mem (hi.wfEnts r) hkv)).name
    refine ⟨by simp, fun p => by unfold St.got; split <;> rfl, fun _ => ⟨_, rfl, ?_, ?_⟩, fun hn => absurd hr hn⟩
    · rw [hn]
      refine ⟨(hi.wfEnts r).nodup_keys, fun n => ?_⟩
      constructor
      · intro hm
        obtain ⟨e, he⟩ := (KV.mem_keys_iff _ _).1 hm
        exact ⟨_, e, he, (hi.ent r n e he).pub⟩
      · rintro ⟨id, e, he, _⟩
        exact (KV.mem_keys_iff _ _).2 ⟨e, he⟩
    · rw [hn]
      exact (hi.wfEnts r).sorted_keys
  · have ho : o = ⟨.err .notFound, s, []⟩ := by
      show perform W.E T (.deltaRepo r) s = _
      unfold perform
      rw [if_pos (by trivial)]
      simp only [operation]
      rw [bind_err (getRepo_missing hi hr)]
    rw [ho]
    exact ⟨rfl, fun _ => rfl, fun h => absurd h hr, fun _ => ⟨_, rfl⟩⟩

/-! ## C118 -/

/-- A step by which job `t` gets finished while the daemon keeps running is the end of its execution by a worker. -/
theorem Step.finishes (hs : Step U E T C K' d d') (hup : d'.jobs.up = true) {t : Nat} (ht : t ∉ d.jobs.done) (ht' : t ∈ d'.jobs.done) :
    ∃ i q id j now l f s, d.jobs.up = true ∧ d.jobs.Runs i q id j ∧ Ended E T j d.core K' l f s ∧
      (pushAll C d.jobs l now).ticket q id = t ∧
      d' = { jobs := (pushAll C d.jobs l now).finish C i q id j now f, core := s } := by
  cases hs with
  | submit r now h => exact absurd ht' ht
  | claim now h hn hi => exact absurd ht' ht
  | reset b h => exact absurd ht' ht
  | @finish _ i q id j K l f s now h hr he =>
    refine ⟨i, q, id, j, now, l, f, s, h, hr, he, ?_, rfl⟩
    have hd := (pushAll_eq (C := C) d.jobs l now).2.2.1
    have : t ∈ (pushAll C d.jobs l now).ticket q id :: (pushAll C d.jobs l now).done := ht'
    rw [hd] at this
    rcases List.mem_cons.1 this with h1 | h1
    · exact h1.symm
    · exact absurd h1 ht
  | killRetire now c h hr he hc => cases hup
  | killRun now n c h hr hc => cases hup
  | kill h hn => cases hup
  | killReset b c h hn hc => cases hup
  | killResetRun now n c b r h hr hc hrr => cases hup
  | boot n h => exact absurd (by simp only [Jobs.Sys.boot] at ht'; split at ht' <;> exact ht') ht
  | killBoot c h hc => exact absurd ht' ht
  | outside o ho => exact absurd ht' ht

theorem finish_record {s : Jobs.Sys} {poison : Str → List Str → Prop} (hs : Jobs.Reach C poison s) (hup : s.up = true) {i : Nat} {q : Queue} {id : Str} {j : JobEntry}
    (hr : s.Runs i q id j) (now : Nat) (outcome : Option Str) :
    ∃ H, History C (s.finish C i q id j now outcome) (finishedOf id j now outcome).record.failed H ∧ (finishedOf id j now outcome).record ∈ H := by
  obtain ⟨A, hA⟩ := hs.inv
  have hA' := hA.finish hup hs.2 hr now outcome
  refine ⟨_, pastJobs_run hA'.rel _, ?_⟩
  generalize hf : finishedOf id j now outcome = f at *
  have hb : f.record.failed = f.failure.isSome := rfl
  rw [hb]
  refine mapsnd_get (k := be8 (ringNext (A.idx f.failure.isSome))) (hA'.rel.histWF _) ?_
  simp only [retire3, upd_self, KV.get_put_self]

/-- What the retirement of a job leaves in the histories: record `x` is added to the history of its kind, and the other history
stays as it was. -/
def Spec.Recorded (C : Codec) (d d' : Jobs.Sys) (x : Record) : Prop :=
  ∃ H, History C d' x.failed H ∧ x ∈ H ∧ d'.log x.failed = (d.log x.failed).map (· ++ [x]) ∧ d'.log (!x.failed) = d.log (!x.failed)

/-- C118: when a job gets finished (and the daemon is not stopped at that moment), its request has been carried out on the
repositories; a record of it is added to the failed history if its parameters are bad or carrying it out failed, otherwise
to the completed history, and the other history stays as it was; and what has been submitted besides are the jobs it asked
for.  If it was cut short by an I/O error (the second case) the repositories are as at a moment of its execution, an open batch
dropped; it is recorded as failed and nothing is submitted. -/
theorem C118_outcome (h : Reach U E T C K d) (hs : Step U E T C K' d d') (hN : d'.jobs.reqs.length < 2 ^ 62) (hup : d'.jobs.up = true)
    {t : Nat} {r : Request} (hr : d.jobs.reqs[t]? = some r) (ht : t ∉ d.jobs.done) (ht' : t ∈ d'.jobs.done) :
    let o := perform E T r d.core
    d'.jobs.done = t :: d.jobs.done ∧
    ∃ x, Spec.Recorded C d.jobs d'.jobs x ∧ (r.Valid → x.description = r.describe) ∧
    ((K' = [] ∧ d'.core = o.st ∧ (x.failed = true ↔ ∀ l, o.res ≠ .ok l) ∧
        (∀ l, o.res = .ok l → d'.jobs.reqs = d.jobs.reqs ++ l) ∧ (∀ e, o.res = .err e → d'.jobs.reqs = d.jobs.reqs)) ∨
     (K' = [r] ∧ (∃ u c, u ∈ o.tr ∧ Torn (assetTarget r) u c ∧ d'.core = { c with pend := [] }) ∧ x.failed = true ∧
        d'.jobs.reqs = d.jobs.reqs)) := by
  obtain ⟨i, q, id, j, now, l, f, s, h0, hrun, hend, htk, rfl⟩ := hs.finishes hup ht ht'
  obtain ⟨hw, hu, hd, hl, hq⟩ := pushAll_eq (C := C) d.jobs l now
  have hrr : Jobs.Reach C calm (pushAll C d.jobs l now) := ⟨pushAll_steps h.jobs.1 h0 _ now, hN⟩
  have hruns : (pushAll C d.jobs l now).Runs i q id j := by
    unfold Jobs.Sys.Runs; rw [hw]; exact hrun
  have hru : (pushAll C d.jobs l now).up = true := hu.trans h0
  obtain ⟨r', h1, _, h3, h4, _⟩ := running hrr hruns
  have : r' = r := by
    rw [htk, hq, List.getElem?_append_left (List.getElem?_eq_some_iff.1 hr).1, hr] at h1
    exact (Option.some.inj h1).symm
  subst this
  have hj : runJob E T j.type j.params = perform E T r' := by rw [← h3, ← h4, runJob_eq]
  have hnew : newJobHandler j.type j.params = if r'.Valid then some r' else none := by rw [← h3, ← h4, newJobHandler_request]
  obtain ⟨H, hH, hxH⟩ := finish_record hrr hru hruns now f
  have hrec : Spec.Recorded C d.jobs ((pushAll C d.jobs l now).finish C i q id j now f) (finishedOf id j now f).record := by
    refine ⟨H, hH, hxH, ?_, ?_⟩
    · show upd _ _ _ _ = _
      rw [hl]
      exact upd_self _ _ _
    · show upd _ _ _ _ = _
      rw [hl]
      refine upd_ne _ _ ?_
      show (!(finishedOf id j now f).failure.isSome) ≠ (finishedOf id j now f).failure.isSome
      cases (finishedOf id j now f).failure.isSome <;> simp
  refine ⟨?_, (finishedOf id j now f).record, hrec, ?_, ?_⟩
  · show _ :: _ = _
    rw [← htk, hd]
  · intro hv
    unfold finishedOf
    rw [hnew, if_pos hv]; rfl
  · have hff : (finishedOf id j now f).record.failed = true ↔ (r'.Valid → f.isSome = true) := by
      unfold finishedOf
      rw [hnew]
      by_cases hv : r'.Valid
      · rw [if_pos hv]; exact ⟨fun h _ => h, fun h => h hv⟩
      · rw [if_neg hv]; exact ⟨fun _ h => absurd h hv, fun _ => rfl⟩
    cases hend with
    | whole msg hp =>
      rw [hj] at hff hq ⊢
      refine .inl ⟨rfl, rfl, ?_, fun l hl' => ?_, fun e he => ?_⟩
      · rw [hff]
        constructor
        · intro hv l hx
          by_cases hr : r'.Valid
          · have := hv hr
            unfold Out.failure at this
            rw [hx] at this; cases this
          · rw [perform_invalid hr] at hx; cases hx
        · intro hx _
          unfold Out.failure
          split
          · rename_i l hl; exact absurd hl (hx l)
          · rfl
      · exact hq.trans (by unfold Out.pushed; rw [hl'])
      · exact hq.trans (by unfold Out.pushed; rw [he]; simp)
    | fault msg hut hc =>
      rw [hj] at hut
      have hv : r'.Valid := by
        by_cases hv : r'.Valid
        · exact hv
        · rw [perform_invalid hv] at hut; cases hut
      have hwj : wanted j = some r' := by rw [wanted_eq h3 h4, if_pos hv]
      rw [hwj] at hc ⊢
      exact .inr ⟨rfl, ⟨_, _, hut, hc, rfl⟩, hff.2 fun _ => rfl, hq.trans (by simp)⟩

/-- C43: and so executing a delta job, however it was submitted, is recorded as a failure and changes nothing. -/
theorem C43_daemon (h : Reach U E T C K d) (hs : Step U E T C K' d d') (hN : d'.jobs.reqs.length < 2 ^ 62) (hup : d'.jobs.up = true)
    {t : Nat} {r : Request} (hd : ∃ repo pkg, r = .delta repo pkg ∨ r = .deltaIndex repo pkg) (hr : d.jobs.reqs[t]? = some r)
    (ht : t ∉ d.jobs.done) (ht' : t ∈ d'.jobs.done) :
    d'.core = d.core ∧ ∃ x H, x.failed = true ∧ History C d'.jobs true H ∧ x ∈ H := by
  have hp : perform E T r d.core = ⟨.err .arity, d.core, []⟩ := by
    obtain ⟨repo, pkg, rfl | rfl⟩ := hd <;> rfl
  obtain ⟨_, x, ⟨H, h3, h4, _⟩, _, ⟨_, h1, h2, _⟩ | ⟨_, ⟨u, c, hu, _⟩, _⟩⟩ := C118_outcome h hs hN hup hr ht ht'
  · rw [hp] at h1 h2
    have hf : x.failed = true := h2.2 fun l hl => by cases hl
    rw [hf] at h3
    exact ⟨h1, x, H, hf, h3, h4⟩
  · rw [hp] at hu; cases hu

/-! ## C119 -/

section Wild
variable {s : St}

/-- Kinds of histories with crashes and I/O errors: `may` tells which jobs may be cut short. -/
structure Hist (W : World) (H : St → Prop) (may : Op → Bool) : Prop where
  init : H St.init
  job : ∀ {s}, H s → ∀ o : Op, o.Ok W → H (o.exec W.E s)
  dies : ∀ {s u}, H s → ∀ o : Op, o.Ok W → may o = true → Moment W o s u → H u.crash
  fails : ∀ {s u}, H s → ∀ o : Op, o.Ok W → may o = true → Moment W o s u → H { u with pend := [] }
  wild : ∀ {s}, H s → Wild W s
  /-- reading a repository's record and removing uploads may always be cut short -/
  index : ∀ r, may (.index r) = true
  unlink : ∀ f, may (.unlink f) = true

theorem hist_wild : Hist W (Wild W) (fun _ => true) :=
  ⟨.init, fun h o ho => h.job o ho, fun h o ho _ hm => h.dies o ho hm, fun h o ho _ hm => h.fails o ho hm, fun h => h, fun _ => rfl, fun _ => rfl⟩
theorem hist_careful : Hist W (Careful W) (fun o => !o.removes) :=
  ⟨.init, fun h o ho => h.job o ho, fun h o ho hn hm => h.dies o ho (by simpa using hn) hm, fun h o ho hn hm => h.fails o ho (by simpa using hn) hm,
    fun h => h.wild, fun _ => rfl, fun _ => rfl⟩
theorem hist_kept : Hist W (Kept W) (fun o => !o.takes) :=
  ⟨.init, fun h o ho => h.job o ho, fun h o ho hn hm => h.dies o ho (by simpa using hn) hm, fun h o ho hn hm => h.fails o ho (by simpa using hn) hm,
    fun h => h.wild, fun _ => rfl, fun _ => rfl⟩
theorem hist_steady : Hist W (Steady W) (fun o => !o.adds) :=
  ⟨.init, fun h o ho => h.job o ho, fun h o ho hn hm => h.dies o ho (by simpa using hn) hm, fun h o ho hn hm => h.fails o ho (by simpa using hn) hm,
    fun h => h.wild, fun _ => rfl, fun _ => rfl⟩

variable {H : St → Prop} {may : Op → Bool}

theorem Torn.half {a : Option Str} {t u : St} {o : Op} (h : Torn a t u) (ht : Rough W t) (ha : ∀ r, a = some r → o.target = some r) : Half W o t u := by
  cases h with
  | whole => exact .whole
  | package p q i c c' hp hq hb hi he hr hc =>
    exact .package p i c' hp hi he (hc.trans (hb ▸ ht.fs.content q c hq hr))
  | asset r x i c hr hi => exact .asset r x i c (ha r hr) hi

theorem Hist.got (hh : Hist W H may) (h : H s) (r : Str) : H (getRepo r s).st := by
  have e : (getRepo r s).st = (Op.trimPackages r 0).exec W.E s := by
    unfold Op.exec
    simp only [Op.run]
    unfold mTrimPackages
    rcases hg : getRepo r s with ⟨res, s1, t⟩
    cases res with
    | ok a =>
      rw [bind_ok hg]
      have : trimPackages W.E r 0 s1 = ⟨.err .tooSmall, s1, []⟩ := rfl
      rw [bind_err this]; rfl
    | err e => rw [bind_err hg]
    | panic => rw [bind_panic hg]
  rw [e]
  exact hh.job h _ trivial

theorem Hist.unlinks (hh : Hist W H may) (h : H s) (ps : List Str) : H (unlinks s ps) := by
  induction ps generalizing s with
  | nil => exact h
  | cons p ps ih => exact ih (hh.job h (.unlink p) trivial)

theorem unlinks_snoc (s : St) (ps : List Str) (p : Str) : unlinks s (ps ++ [p]) = (Op.unlink p).exec E (unlinks s ps) := by
  induction ps generalizing s with
  | nil => rfl
  | cons q ps ih => exact ih _

theorem removeLoop_trace (ps : List Str) (s : St) : ∀ t ∈ (forL ps (fun p => removeFile (.ext p)) s).tr, ∃ qs p, t = unlinks s (qs ++ [p]) := by
  induction ps generalizing s with
  | nil => intro t ht; cases ht
  | cons p ps ih =>
    intro t ht
    rw [forL_cons, removeFile_bind] at ht
    rcases List.mem_cons.1 ht with rfl | ht
    · exact ⟨[], p, rfl⟩
    · obtain ⟨qs, q, rfl⟩ := ih _ t ht
      exact ⟨p :: qs, q, rfl⟩

/-- What can be seen of a piece of work: the state after it, or, if it may be cut short (`cut`), that after the daemon died or an I/O
error occurred at one of its moments, belongs to the history. -/
structure Lasts (H : St → Prop) (cut : Bool) (a : Option Str) {α : Type} (o : Out α) : Prop where
  fin : H o.st
  dies : cut = true → ∀ t ∈ o.tr, ∀ c, Torn a t c → H c.crash ∧ H { c with pend := [] }
  np : o.res ≠ .panic

theorem Lasts.then {α β : Type} {m : M α} {f : α → M β} {k : Bool} {a : Option Str} (h : Lasts H k a (m s))
    (hf : ∀ x, (m s).res = .ok x → Lasts H k a (f x (m s).st)) : Lasts H k a ((m >>= f) s) := by
  rcases hm : m s with ⟨res, s1, t⟩
  rw [hm] at h hf
  cases res with
  | ok a =>
    rw [bind_ok hm]
    have := hf a rfl
    refine ⟨this.fin, fun hk u hu c hc => ?_, this.np⟩
    simp only [Out.pre_tr, List.mem_append] at hu
    rcases hu with hu | hu
    · exact h.dies hk u hu c hc
    · exact this.dies hk u hu c hc
  | err e => rw [bind_err hm]; exact ⟨h.fin, h.dies, by simp⟩
  | panic => exact absurd rfl h.np

theorem Hist.moment (hh : Hist W H may) (ok : W.OK) (hz : W.NoTorn) (h : H s) (o : Op) (ho : o.Ok W) (hm : may o = true) {a : Option Str}
    (ha : ∀ r, a = some r → o.target = some r) {t c : St} (ht : t ∈ (o.run W.E s).tr) (hc : Torn a t c) : H c.crash ∧ H { c with pend := [] } := by
  have hr : Rough W t := (o.keeps ok hz ho s ((hh.wild h).rough ok hz)).tr t ht
  exact ⟨hh.dies h o ho hm ⟨t, ht, hc.half hr ha⟩, hh.fails h o ho hm ⟨t, ht, hc.half hr ha⟩⟩

theorem Lasts.op (hh : Hist W H may) (ok : W.OK) (hz : W.NoTorn) (h : H s) (o : Op) (ho : o.Ok W) {k : Bool} (hk : k = true → may o = true) {a : Option Str}
    (ha : ∀ r, a = some r → o.target = some r) : Lasts H k a (o.run W.E s) :=
  ⟨hh.job h o ho, fun he _ ht _ hc => hh.moment ok hz h o ho (hk he) ha ht hc, C109_no_panic ok hz (hh.wild h) o ho⟩

theorem Lasts.got (hh : Hist W H may) (ok : W.OK) (hz : W.NoTorn) (h : H s) (r : Str) {k : Bool} : Lasts H k none (getRepo r s) := by
  refine ⟨hh.got h r, fun _ t ht c hc => ?_, ?np⟩
  case np => unfold getRepo; rw [getSt_bind]; split; exact (by simp); cases s.db.repos.get r <;> simp [throwE, bakeRepo]
  refine hh.moment ok hz h (.index r) trivial (hh.index r) (fun _ h => by cases h) ?_ hc
  simp only [Op.run]
  unfold mIndex
  rcases hg : getRepo r s with ⟨res, s1, tr⟩
  rw [hg] at ht
  cases res with
  | ok a => rw [bind_ok hg]; simp only [Out.pre_tr, List.mem_append]; exact .inl ht
  | err e => rw [bind_err hg]; exact ht
  | panic => rw [bind_panic hg]; exact ht

theorem Lasts.pure {α : Type} {k : Bool} {o : Option Str} (h : H s) (a : α) : Lasts H k o ((Pure.pure a : M α) s) :=
  ⟨h, fun _ c hc => (by cases hc), by simp⟩
theorem Lasts.err {α : Type} {k : Bool} {o : Option Str} (h : H s) (e : Err) : Lasts H k o ((throwE e : M α) s) :=
  ⟨h, fun _ c hc => (by cases hc), by simp [throwE]⟩

theorem Lasts.transit (hh : Hist W H may) (ok : W.OK) (hz : W.NoTorn) (hd : ∀ d, W.isDelta d = false) (h : H s) (T : TramEnv) (path : Str) {k : Bool}
    (hk : k = true → ∀ r fs, may (.addPackages r fs true) = true) : Lasts H k none (transitJob W.E T path s) := by
  rcases transitJob_cases W.E T path s with ⟨e, he, _⟩ | ⟨t, _, _, _, target, files, _, _, he⟩
  · rw [he]; exact ⟨h, fun _ c hc => (by cases hc), by simp⟩
  · rw [he]
    refine Lasts.then (Lasts.got hh ok hz h target) fun _ _ => ?_
    have h1 := hh.got h target
    refine Lasts.then (Lasts.op hh ok hz h1 (.addPackages target files true) (fun f _ => hd _) (fun he => hk he _ _) (fun _ h => by cases h)) fun _ _ => ?_
    have h2 : H (mAddPackages W.E target files true (getRepo target s).st).st :=
      hh.job h1 (.addPackages target files true) (fun f _ => hd _)
    refine ⟨?_, fun _ t ht c hc => ?_, ?_⟩
    · obtain ⟨tr, e2, _⟩ := removeLoop_run (files ++ [Paths.absP T.cwd path]) (mAddPackages W.E target files true (getRepo target s).st).st
      show H (forL _ _ (mAddPackages W.E target files true (getRepo target s).st).st).st
      rw [e2]; exact hh.unlinks h2 _
    · obtain ⟨qs, p, rfl⟩ := removeLoop_trace _ _ t ht
      rw [unlinks_snoc (E := W.E)] at hc
      exact hh.moment ok hz (hh.unlinks h2 qs) (.unlink p) trivial (hh.unlink p) (fun _ h => by cases h) (List.mem_singleton.2 rfl) hc
    · obtain ⟨tr, e2, _⟩ := removeLoop_run (files ++ [Paths.absP T.cwd path]) (mAddPackages W.E target files true (getRepo target s).st).st
      show (forL _ _ (mAddPackages W.E target files true (getRepo target s).st).st).res ≠ .panic
      rw [e2]; simp

/-- The operations a request may carry out, as far as the kinds of histories are concerned. -/
def Cuttable (may : Op → Bool) (r : Request) : Prop :=
  (∀ o, operation r = some o → may o = true) ∧ ((∃ p, r = .transit p) → ∀ x fs, may (.addPackages x fs true) = true)

open Classical in
theorem Lasts.perform (hh : Hist W H may) (ok : W.OK) (hz : W.NoTorn) (hd : ∀ d, W.isDelta d = false) (h : H s) (T : TramEnv) (r : Request) :
    Lasts H (decide (Cuttable may r)) (assetTarget r) (perform W.E T r s) := by
  have op : ∀ o : Op, o.Ok W → operation r = some o → (∀ x, assetTarget r = some x → o.target = some x) →
      Lasts H (decide (Cuttable may r)) (assetTarget r) ((do o.run W.E; Pure.pure ([] : List Request)) s) := fun o ho hr ha =>
    Lasts.then (β := List Request) (Lasts.op hh ok hz h o ho (fun hk => (of_decide_eq_true hk).1 o hr) ha) fun a _ => Lasts.pure (hh.job h o ho) []
  unfold Spec.perform
  split
  · cases r with
    | bulkAdd r ps => exact op _ (fun f _ => hd _) rfl (fun _ h => by cases h)
    | copySource r t x n k => exact op _ trivial rfl (fun _ h => by cases h)
    | cloneRepo r n all => exact op _ trivial rfl (fun _ h => h)
    | createRepo r => exact op _ trivial rfl (fun _ h => by cases h)
    | deleteRepo r => exact op _ trivial rfl (fun _ h => by cases h)
    | indexRepo r => exact op _ trivial rfl (fun _ h => by cases h)
    | pullRepo a b => exact op _ trivial rfl (fun _ h => h)
    | removeSource r x n => exact op _ trivial rfl (fun _ h => by cases h)
    | trimObsolete r => exact op _ trivial rfl (fun _ h => by cases h)
    | trimPackages r n => exact op _ trivial rfl (fun _ h => by cases h)
    | delta r p => exact Lasts.err h _
    | deltaIndex r p => exact Lasts.err h _
    | deltaRepo r =>
      refine Lasts.then (Lasts.got hh ok hz h r) fun _ _ => ?_
      refine Lasts.then (m := getPackageNames r) ?_ fun a _ => Lasts.pure ?_ _
      · rw [deltaRepo_names]; exact ⟨hh.got h r, fun _ c hc => (by cases hc), by simp⟩
      · rw [deltaRepo_names]; exact hh.got h r
    | transit p =>
      have := Lasts.transit hh ok hz hd h T p (k := decide (Cuttable may (.transit p))) (fun hk x fs => (of_decide_eq_true hk).2 ⟨p, rfl⟩ x fs)
      exact Lasts.then this fun _ _ => Lasts.pure this.fin _
  · exact Lasts.err h _

end Wild

/-- The repositories of a daemon belong to a history of the kind in which all the requests that were cut short may be. -/
theorem Reach.hist {H : St → Prop} {may : Op → Bool} (hh : Hist W H may) (ok : W.OK) (hz : W.NoTorn) (hd : ∀ d, W.isDelta d = false)
    (h : Reach (worldUploads W) W.E T C K d) (hK : ∀ r ∈ K, Cuttable may r) : H d.core := by
  have := C85_serial h
  generalize finished d = n at this
  generalize d.core = c at this
  induction this with
  | init => exact hh.init
  | job _ _ ih => exact (Lasts.perform hh ok hz hd ih T _).fin
  | fault hk _ _ ht hc ih => exact ((Lasts.perform hh ok hz hd ih T _).dies (by simpa using hK _ hk) _ ht _ hc).2
  | cut hk _ _ hc ih =>
    rcases hc with rfl | ⟨t, ht, hc⟩ | rfl
    · exact hh.job ih .restart trivial
    · exact ((Lasts.perform hh ok hz hd ih T _).dies (by simpa using hK _ hk) _ ht _ hc).1
    · exact hh.job (Lasts.perform hh ok hz hd ih T _).fin .restart trivial
  | upload _ hu ih => exact hh.job ih (.upload _ _) hu
  | unlink _ ih => exact hh.job ih (.unlink _) trivial
  | asset _ ih => exact hh.job ih (.putAsset _ _ _) trivial
  | restart _ ih => exact hh.job ih .restart trivial

/-- C119: whatever has been submitted and however often the daemon died or met I/O errors, also in the middle of repository jobs and
of copying files, its repositories are those of a history of repository operations with crashes and I/O errors, so that all that is
proved of such histories (C108 to C114) holds of the daemon as a whole. -/
theorem C119_histories (ok : W.OK) (hz : W.NoTorn) (hd : ∀ d, W.isDelta d = false) (h : Reach (worldUploads W) W.E T C K d) : Wild W d.core :=
  h.hist hist_wild ok hz hd fun _ _ => ⟨fun _ _ => rfl, fun _ _ _ => rfl⟩

theorem deltaRepo_perform {r : Str} (hr : Repo s r) :
    (perform E T (.deltaRepo r) s).res = .ok (((s.db.ents r).map fun kv => kv.2.name).map (Request.delta r)) ∧ (perform E T (.deltaRepo r) s).st.db = s.db := by
  have hg := getRepo_sure (s := s) (rid := r) (KV.mem_keys_get.1 hr)
  rcases hx : getRepo r s with ⟨res, s1, tr⟩
  have h1 : res = .ok () := by have := hg.res; rw [hx] at this; exact this
  have h2 : s1.db = s.db := by have := hg.st; rw [hx] at this; exact this
  subst h1
  have ho : perform E T (.deltaRepo r) s = Out.pre tr ⟨.ok (((s1.db.ents r).map fun kv => kv.2.name).map (Request.delta r)), s1, []⟩ := by
    unfold perform
    rw [if_pos (by trivial)]
    simp only [operation]
    rw [bind_ok hx, bind_ok (deltaRepo_names r s1)]
    rfl
  rw [ho]
  exact ⟨by show Res.ok (((s1.db.ents r).map fun kv => kv.2.name).map (Request.delta r)) = _; rw [h2], h2⟩

/-- C117: at the daemon: whatever crashes and I/O errors there were before, when a delta-repository job for an existing repository gets finished
(the daemon is not stopped at that moment and no I/O error ended the job early), one delta job for each name the repository lists has been submitted
behind all others, in byte order, and nothing else; the job is recorded as completed. -/
theorem C117_submitted (ok : W.OK) (hz : W.NoTorn) (hd : ∀ d, W.isDelta d = false) (h : Reach (worldUploads W) W.E T C K d)
    (hs : Step (worldUploads W) W.E T C [] d d') (hN : d'.jobs.reqs.length < 2 ^ 62) (hup : d'.jobs.up = true)
    {t : Nat} {r : Str} (hr : d.jobs.reqs[t]? = some (.deltaRepo r)) (ht : t ∉ d.jobs.done) (ht' : t ∈ d'.jobs.done) (hrep : Repo d.core r) :
    ∃ names, d'.jobs.reqs = d.jobs.reqs ++ names.map (Request.delta r) ∧ Enumerates names (fun n => ∃ id, Lists d.core r n id) ∧ SortedS names ∧
      d'.core.db = d.core.db ∧ ∃ x, Spec.Recorded C d.jobs d'.jobs x ∧ x.failed = false := by
  have hw := (C119_histories ok hz hd h).rough ok hz
  obtain ⟨hp1, hp2⟩ := deltaRepo_perform (E := W.E) (T := T) hrep
  obtain ⟨_, x, hx, _, hc⟩ := C118_outcome h hs hN hup hr ht ht'
  rcases hc with ⟨_, g2, g3, g4, _⟩ | ⟨g1, _⟩
  · have hn : ((d.core.db.ents r).map fun kv => kv.2.name) = (d.core.db.ents r).keys := by
      unfold KV.keys
      apply List.map_congr_left
      intro kv hkv
      exact (hw.db.ent r kv.1 kv.2 (KV.get_of_mem (hw.db.wfEnts r) hkv)).name
    refine ⟨_, g4 _ hp1, ?_, ?_, by rw [g2]; exact hp2, x, hx, ?_⟩
    · rw [hn]
      refine ⟨(hw.db.wfEnts r).nodup_keys, fun n => ?_⟩
      constructor
      · intro hm
        obtain ⟨e, he⟩ := (KV.mem_keys_iff _ _).1 hm
        exact ⟨_, e, he, (hw.db.ent r n e he).pub⟩
      · rintro ⟨id, e, he, _⟩
        exact (KV.mem_keys_iff _ _).2 ⟨e, he⟩
    · rw [hn]
      exact (hw.db.wfEnts r).sorted_keys
    · cases hf : x.failed with
      | false => rfl
      | true => exact absurd hp1 (g3.1 hf _)
  · cases g1

/-- C119: in particular, no job brings the daemon down, reference counts are positive, what is listed under a name is a readable
package of that name, a name listed has exactly one published package, which is listed, the files served are beginnings of
the uploaded ones, and a published index never gives a wrong size or hash. -/
theorem C119_survives (ok : W.OK) (hz : W.NoTorn) (hd : ∀ d, W.isDelta d = false) (h : Reach (worldUploads W) W.E T C b d) :
    (∀ i q id j, d.jobs.Runs i q id j → (runJob W.E T j.type j.params d.core).res ≠ .panic) ∧
    (∀ id k, Count d.core id k → 0 < k) ∧
    (∀ r n id, Lists d.core r n id → nameOf W id = n ∧ (∃ m, W.E.parse (W.canon id) = .good m) ∧
      ∃ t, Tip d.core r n t ∧ Lists d.core r n t ∧ ∀ t', Tip d.core r n t' → t' = t) ∧
    (∀ r dir id c, d.core.fs.read (.repo r dir id) = some c → c <+: W.canon id) ∧
    (∀ r doc, d.core.fs.idx r = some doc → ∀ p ∈ doc.packages, p.pkg.size = (W.canon p.id).length ∧ p.pkg.hash = W.E.sha1 (W.canon p.id)) := by
  have hw := C119_histories ok hz hd h
  refine ⟨?_, fun id k hc => C109_counts ok hz hw hc, ?_, ?_, ?_⟩
  · intro i q id j hr
    obtain ⟨r, _, _, h1, h2, _⟩ := running h.jobs hr
    rw [← h1, ← h2, runJob_eq]
    exact (Lasts.perform hist_wild ok hz hd hw T r).np
  · intro r n id hl
    obtain ⟨h1, h2, h3, h4, _⟩ := C111_listings ok hz hw r n
    obtain ⟨t, ht⟩ := h3 ⟨id, hl⟩
    exact ⟨(h1 id hl).1, (h1 id hl).2.1, t, ht, h2 t ht, fun t' ht' => h4 _ _ ht' ht⟩
  · exact (C110_prefix_partial ok hz hw .restart trivial d.core (.inl rfl)).1
  · intro r doc hdoc p hp
    obtain ⟨_, _, h3⟩ := C112_served_index ok hz hw .restart trivial d.core (.inl rfl) hdoc
    exact ⟨(h3 p hp).1, (h3 p hp).2.1⟩

/-! ## C130 -/

namespace Spec
/-- Requests that take packages out of a repository one by one. -/
def removes : Request → Bool
  | .removeSource _ _ _ | .trimObsolete _ | .trimPackages _ _ => true
  | _ => false
/-- Requests that take packages away. -/
def takesAway : Request → Bool
  | .deleteRepo _ | .removeSource _ _ _ | .trimObsolete _ | .trimPackages _ _ => true
  | _ => false
/-- Requests that put packages into a repository. -/
def putsIn : Request → Bool
  | .bulkAdd _ _ | .copySource _ _ _ _ _ | .cloneRepo _ _ _ | .pullRepo _ _ | .transit _ => true
  | _ => false
end Spec

theorem cuttable_removes {r : Request} (h : Spec.removes r = false) : Cuttable (fun o => !o.removes) r := by
  refine ⟨fun o ho => ?_, fun _ _ _ => rfl⟩
  cases r <;> simp [operation] at ho <;> first | (subst ho; rfl) | cases h
theorem cuttable_takes {r : Request} (h : Spec.takesAway r = false) : Cuttable (fun o => !o.takes) r := by
  refine ⟨fun o ho => ?_, fun _ _ _ => rfl⟩
  cases r <;> simp [operation] at ho <;> first | (subst ho; rfl) | cases h
theorem cuttable_adds {r : Request} (h : Spec.putsIn r = false) : Cuttable (fun o => !o.adds) r := by
  refine ⟨fun o ho => ?_, fun ⟨p, hp⟩ _ _ => by subst hp; cases h⟩
  cases r <;> simp [operation] at ho <;> first | (subst ho; rfl) | cases h

/-- C130: what the daemon was doing when it died or met an I/O error decides what can be damaged.  If no remove-source or trim job was
cut short, the published package of a name is the newest one listed, and every package listed is in the pool, with a count of at least
the number of repositories listing it; if no deletion either, every package listed is served, as a beginning of the uploaded file at
least; if no job that puts packages into a repository, every package file served is the uploaded file, whole, and its package is
listed; and if both, every package listed is served with the uploaded bytes. -/
theorem C130_damage (ok : W.OK) (hz : W.NoTorn) (hd : ∀ d, W.isDelta d = false) (h : Reach (worldUploads W) W.E T C K d) :
    ((∀ r ∈ K, Spec.removes r = false) →
      (∀ r n t x, Tip d.core r n t → Lists d.core r n x → relOf W x ≤ relOf W t) ∧
      (∀ id (L : List Str), L.Nodup → L ≠ [] → (∀ r ∈ L, Has d.core r id) → ∃ k, Count d.core id k ∧ L.length ≤ k)) ∧
    ((∀ r ∈ K, Spec.takesAway r = false) → ∀ r id, Has d.core r id → ∃ c, ServedAs W d.core r id c ∧ c <+: W.canon id) ∧
    ((∀ r ∈ K, Spec.putsIn r = false) →
      ∀ r dir id c, d.core.fs.read (.repo r dir id) = some c → c = W.canon id ∧ dirOf W id = some dir ∧ (Repo d.core r → Has d.core r id)) ∧
    ((∀ r ∈ K, Spec.takesAway r = false ∧ Spec.putsIn r = false) → ∀ r id, Has d.core r id → ServedAs W d.core r id (W.canon id)) := by
  refine ⟨fun hK => ?_, fun hK r id hr => ?_, fun hK r dir id c hr => ?_, fun hK r id hr => ?_⟩
  · have hc := h.hist hist_careful ok hz hd fun r hr => cuttable_removes (hK r hr)
    exact ⟨fun r n t x ht hx => C115_newest_partial ok hz hc ht hx,
      fun id L hn hne hL => C116_counted ok hz hc d.core (.inl rfl) hn hne fun r hr => .inl (hL r hr)⟩
  · have hk := h.hist hist_kept ok hz hd fun r hr => cuttable_takes (hK r hr)
    exact (C121_served_partial ok hz hk .restart trivial d.core (.inl rfl)).1 r id (.inl hr)
  · have hs := h.hist hist_steady ok hz hd fun r hr => cuttable_adds (hK r hr)
    exact (C110_uncut_additions_partial ok hz hs .restart trivial d.core (.inl rfl)).1 r dir id c (hd id) hr
  · have hk := h.hist hist_kept ok hz hd fun r hr => cuttable_takes (hK r hr).1
    have hs := h.hist hist_steady ok hz hd fun r hr => cuttable_adds (hK r hr).2
    exact ((C121_served_partial ok hz hk .restart trivial d.core (.inl rfl)).2.2 hs (.inl rfl)).1 r id hr

/-- C130: and as long as no remove-source or trim job was cut short, a valid index, remove-source or trim job that is executed succeeds if
the asset files of its repository parse and the index tools work. -/
theorem C130_succeeds (ok : W.OK) (hz : W.NoTorn) (hd : ∀ d, W.isDelta d = false) (h : Reach (worldUploads W) W.E T C K d)
    (hK : ∀ r ∈ K, Spec.removes r = false) {r : Request} {o : Op} {x : Str} (hv : r.Valid) (hr : r = .indexRepo x ∨ Spec.removes r = true)
    (ho : operation r = some o) (hx : o.target = some x) (ha : Accepts W d.core o) (hp : AssetsParse W d.core x)
    (hi : W.E.indexIO d.core.clock = .ok) : (perform W.E T r d.core).res = .ok [] := by
  have hc := h.hist hist_careful ok hz hd fun r hr => cuttable_removes (hK r hr)
  have hop : o = .index x ∨ (∃ source rel, o = .removeSource x source rel) ∨ o = .trimObsolete x ∨ ∃ k, o = .trimPackages x k := by
    rcases hr with rfl | hr
    · left; simp [operation] at ho; exact ho.symm
    · cases r with
      | removeSource y s k =>
        simp [operation] at ho; subst ho; cases hx; exact .inr (.inl ⟨_, _, rfl⟩)
      | trimObsolete y => simp [operation] at ho; subst ho; cases hx; exact .inr (.inr (.inl rfl))
      | trimPackages y k => simp [operation] at ho; subst ho; cases hx; exact .inr (.inr (.inr ⟨_, rfl⟩))
      | _ => cases hr
  have hs := C116_succeeds ok hz hc o hop ha hp hi
  unfold perform
  rw [if_pos hv, ho]
  rcases hm : o.run W.E d.core with ⟨res, s1, tr⟩
  rw [hm] at hs
  cases hs
  show ((o.run W.E >>= fun _ => Pure.pure []) d.core).res = _
  rw [bind_ok hm]; rfl

end

/-! ## Not vacuous -/

namespace Demo

theorem noTorn : W.NoTorn := by
  intro id c hp hne
  exact Ferryd.Demo.noTorn id c hp hne

/-- C117: repository "a" lists one name; a delta-repository job submits one delta job. -/
example : Reachable W x10.core ∧ Repo x10.core ['a'] ∧
    (runJob W.E tram (Request.deltaRepo ['a']).type (Request.deltaRepo ['a']).params x10.core).res = .ok [Request.delta ['a'] ['a']] :=
  ⟨C86_histories ok (fun _ => rfl) r10, by unfold Repo; decide +kernel, by decide +kernel⟩

/-- C118: the step in which the import gets finished. -/
example : Step (worldUploads W) W.E tram demoCodec [] x8 x10 ∧ x10.jobs.reqs.length < 2 ^ 62 ∧ x10.jobs.up = true ∧
    x8.jobs.reqs[1]? = some q1 ∧ 1 ∉ x8.jobs.done ∧ 1 ∈ x10.jobs.done :=
  ⟨.finish (d := x8) 10 up7 runs8 (.whole [] (ne_panic (by decide +kernel))), by decide +kernel, by decide +kernel, by decide +kernel,
   by decide +kernel, by decide +kernel⟩

/-- C43: a delta job being executed, and finished as failed. -/
def q3 : Request := .delta ['a'] ['a']
def y1 : Sys := { x1 with jobs := x1.jobs.submit demoCodec q3 5 }
def y2 : Sys := { y1 with jobs := y1.jobs.claim demoCodec 1 .async 7 }
def e3 : JobEntry := ⟨q3.type, true, q3.params, ⟨5, 7, 0⟩⟩
def o3 := runJob W.E tram e3.type e3.params y2.core
def y3 : Sys :=
  { jobs := (pushAll demoCodec y2.jobs (Out.pushed o3) 8).finish demoCodec 1 .async (be8 0) e3 8 (Out.failure o3 []), core := o3.st }
theorem idleY : y1.jobs.Idle 1 .async := by unfold Jobs.Sys.Idle; decide +kernel
theorem runsY : y2.jobs.Runs 1 .async (be8 0) e3 := by unfold Jobs.Sys.Runs; decide +kernel
theorem rY : Reach (worldUploads W) W.E tram demoCodec [] y2 :=
  ⟨.tail (K := []) (K' := []) (.tail (K := []) (K' := []) (.tail (K := []) (K' := []) .refl
      (.boot 1 rfl)) (.submit q3 5 up1)) (.claim 7 up1 (by decide) idleY), by decide +kernel⟩
example : Step (worldUploads W) W.E tram demoCodec [] y2 y3 ∧ y3.jobs.up = true ∧ y2.jobs.reqs[0]? = some q3 ∧
    0 ∉ y2.jobs.done ∧ 0 ∈ y3.jobs.done :=
  ⟨.finish (d := y2) 8 up1 runsY (.whole [] (ne_panic (by decide +kernel))), by decide +kernel, by decide +kernel, by decide +kernel, by decide +kernel⟩

/-- C119: the daemon that died in the middle of the import; the pool has a record although no repository lists the package. -/
example : Wild W x9.core ∧ Count x9.core (baseName file) 1 ∧ x9.core.has ['a'] (baseName file) = false :=
  ⟨C119_histories ok noTorn (fun _ => rfl) r9,
   ⟨(x9.core.db.pool.get (baseName file)).get (by decide +kernel), by decide +kernel, by decide +kernel⟩, by decide +kernel⟩

/-- C118, C130: an I/O error at the same point of the import: it is recorded as failed. -/
def x11 : Sys :=
  { jobs := (pushAll demoCodec x8.jobs [] 10).finish demoCodec 0 .seq (be8 1) c1 10 (some []), core := { mid with pend := [] } }
theorem s11 : Step (worldUploads W) W.E tram demoCodec [q1] x8 x11 :=
  .finish (d := x8) (j := c1) 10 up7 runs8 (.fault [] (List.getElem_mem mid_lt) .whole)
theorem r11 : Reach (worldUploads W) W.E tram demoCodec [q1] x11 := ⟨.tail (K := []) (K' := [q1]) s8 s11, by decide +kernel⟩
example : x11.jobs.up = true ∧ 1 ∉ x8.jobs.done ∧ 1 ∈ x11.jobs.done ∧ Count x11.core (baseName file) 1 ∧ finished x11 = 2 ∧
    ((pastJobs demoCodec true x11.jobs.raw).res.toOption.map List.length) = some 1 :=
  ⟨by decide +kernel, by decide +kernel, by decide +kernel,
   ⟨(x11.core.db.pool.get (baseName file)).get (by decide +kernel), by decide +kernel, by decide +kernel⟩, by decide +kernel, by decide +kernel⟩
/-- C130: the hypotheses hold of this history: the import is not among the jobs that remove packages. -/
example : (∀ r ∈ [q1], Spec.removes r = false) ∧ (∀ r ∈ [q1], Spec.takesAway r = false) := by decide
/-- C130: and of the one in which nothing was cut short, where a package is listed. -/
example : Reach (worldUploads W) W.E tram demoCodec [] x10 ∧ Has x10.core ['a'] (baseName file) :=
  ⟨r10, ['a'], ((x10.core.db.ents ['a']).get ['a']).get (by decide +kernel), by decide +kernel, by decide +kernel⟩
/-- C130: an index job of repository "a" after the I/O error. -/
example : (perform W.E tram (.indexRepo ['a']) x11.core).res = .ok [] :=
  C130_succeeds ok noTorn (fun _ => rfl) r11 (by decide) (o := .index ['a']) trivial (.inl rfl) rfl rfl
    (by unfold Accepts; show Repo _ _; unfold Repo; decide +kernel) (by
      have h0 : ∀ a : Asset, x11.core.fs.read (.asset ['a'] a) = none := by intro a; cases a <;> decide +kernel
      refine ⟨?_, ?_, ?_⟩ <;> intro c hc <;> rw [h0] at hc <;> cases hc) rfl

/-- C119: a copy into the pool that was cut off in the middle. -/
example : ∃ (s : St) (p q : Path) (i : Nat), s.fs.tab p = some i ∧ s.fs.data i = [] ∧ s.fs.read q = some [1, 2, 3] ∧ q.base = p.base ∧
    Torn none s (s.setFs (s.fs.setData i [1, 2])) := by
  let s0 := (St.init.putFile (.ext (Ferryd.Demo.S "/up/a-1.eopkg")) [1, 2, 3]).putFile (.pool (Ferryd.Demo.S "a/a") (Ferryd.Demo.S "a-1.eopkg")) []
  refine ⟨s0, .pool (Ferryd.Demo.S "a/a") (Ferryd.Demo.S "a-1.eopkg"), .ext (Ferryd.Demo.S "/up/a-1.eopkg"), 1, by decide +kernel, by decide +kernel, by decide +kernel,
    by decide +kernel, ?_⟩
  exact .package (.pool (Ferryd.Demo.S "a/a") (Ferryd.Demo.S "a-1.eopkg")) (.ext (Ferryd.Demo.S "/up/a-1.eopkg")) 1 [1, 2, 3] [1, 2] rfl rfl
    (by decide +kernel) (by decide +kernel) (by decide +kernel) (by decide +kernel) ⟨[3], rfl⟩
end Demo

end Ferryd.Daemon
