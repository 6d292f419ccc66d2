import Verif.Daemon
import Verif.PropsDeltaJob
/-!
# PropsDaemon: the repositories are what executing the submitted jobs in order makes of them (C85, C86)
-/
namespace Ferryd.Daemon
open Ferryd.Jobs Ferryd.Db

namespace Spec
/-- The repository operation a request asks for, if it is one of them. -/
def operation : Request → Option Op
  | .bulkAdd r files => some (.addPackages r files false)
  | .copySource r target source release skipIndex => some (.copySource r target source release skipIndex)
  | .cloneRepo r clone all => some (.clone r clone all)
  | .createRepo r => some (.create r)
  | .deleteRepo r => some (.delete r)
  | .indexRepo r => some (.index r)
  | .pullRepo source target => some (.pull source target)
  | .removeSource r source release => some (.removeSource r source release)
  | .trimObsolete r => some (.trimObsolete r)
  | .trimPackages r keep => some (.trimPackages r keep)
  | .transit _ | .deltaRepo _ | .delta _ _ | .deltaIndex _ _ => none

/-- What executing a submitted job means: a job with bad parameters fails and does nothing; otherwise the repository
operation asked for is carried out, or the upload is imported, or the packages of the repository are looked up and a delta
job is submitted for each. -/
def perform (E : Env) (T : TramEnv) (r : Request) : M (List Request) :=
  if r.Valid then
    match operation r, r with
    | some o, _ => do o.run E; pure []
    | none, .transit path => do transitJob E T path; pure []
    | none, .deltaRepo repo => do getRepo repo; let names ← getPackageNames repo; pure (names.map (Request.delta repo))
    | none, _ => throwE .arity
  else throwE .arity

/-- The repository jobs submitted so far, in order. -/
def repoJobs (d : Sys) : List Request := d.jobs.reqs.filter (queueOf · = .seq)

/-- How many repository jobs have been finished. -/
def finished (d : Sys) : Nat :=
  (d.jobs.done.filter fun t => (d.jobs.reqs[t]?.map queueOf) = some .seq).length

/-- `Effects U E T subs K n s`: the state `s` of the repositories can come about by executing the first `n` of the jobs
`subs`, each once, to its end and in order, with changes made by the outside and restarts of the daemon in between; except that
those in `K` may also have been attempted before, cut short by the death of the daemon, or have ended early, by an I/O error. -/
inductive Effects (U : Str → Content → Prop) (E : Env) (T : TramEnv) (subs K : List Request) : Nat → St → Prop
  | init : Effects U E T subs K 0 St.init
  | job {n s r} : Effects U E T subs K n s → subs[n]? = some r → Effects U E T subs K (n + 1) (perform E T r s).st
  | fault {n s r t c} : r ∈ K → Effects U E T subs K n s → subs[n]? = some r → t ∈ (perform E T r s).tr →
      Torn (assetTarget r) t c → Effects U E T subs K (n + 1) { c with pend := [] }
  | cut {n s r c} : r ∈ K → Effects U E T subs K n s → subs[n]? = some r →
      CutAt (assetTarget r) (perform E T r) s c → Effects U E T subs K n c.crash
  | upload {n s f c} : Effects U E T subs K n s → U f c → Effects U E T subs K n (s.putFile (.ext f) c)
  | unlink {n s f} : Effects U E T subs K n s → Effects U E T subs K n ((Op.unlink f).exec E s)
  | asset {n s r a c} : Effects U E T subs K n s → Effects U E T subs K n (s.putFile (.asset r a) c)
  | restart {n s} : Effects U E T subs K n s → Effects U E T subs K n s.crash
end Spec
open Daemon.Spec

variable {U : Str → Content → Prop} {E : Env} {T : TramEnv} {C : Codec} {d d' : Sys} {K : List Request}

/-! ## The job processing of the daemon is that of `Verif.JobsSys` -/

def calm : Str → List Str → Prop := fun _ _ => False

theorem pushAll_eq (s : Jobs.Sys) (l : List Request) (now : Nat) :
    (pushAll C s l now).workers = s.workers ∧ (pushAll C s l now).up = s.up ∧ (pushAll C s l now).done = s.done ∧
    (pushAll C s l now).log = s.log ∧ (pushAll C s l now).reqs = s.reqs ++ l := by
  induction l generalizing s with
  | nil => simp [pushAll]
  | cons r l ih =>
    have := ih (s.submit C r now)
    simp only [pushAll, List.foldl_cons] at this ⊢
    obtain ⟨h1, h2, h3, h4, h5⟩ := this
    refine ⟨h1, h2, h3, h4, ?_⟩
    rw [h5]; simp [Jobs.Sys.submit]

theorem pushAll_steps {s0 s : Jobs.Sys} (h : Jobs.Steps C calm s0 s) (hup : s.up = true) (l : List Request) (now : Nat) :
    Jobs.Steps C calm s0 (pushAll C s l now) := by
  induction l generalizing s with
  | nil => exact h
  | cons r l ih => exact ih (s := s.submit C r now) (h.tail (.submit r now hup)) hup

theorem Step.jobs (h : Step U E T C K d d') {s0 : Jobs.Sys} (h0 : Jobs.Steps C calm s0 d.jobs) :
    Jobs.Steps C calm s0 d'.jobs := by
  cases h with
  | submit r now hup => exact h0.tail (.submit r now hup)
  | claim now hup hn hi => exact h0.tail (.claim now hup hn hi)
  | reset b hup => exact h0.tail (.reset b hup)
  | @finish _ i q id j K l f s now hup hr he =>
    obtain ⟨hw, hu, -⟩ := pushAll_eq (C := C) d.jobs l now
    refine (pushAll_steps h0 hup _ now).tail (.finish now _ (hu.trans hup) ?_ (fun h => h))
    unfold Jobs.Sys.Runs; rw [hw]; exact hr
  | @killRetire _ i q id j K l f s now c hup hr he hc =>
    obtain ⟨hw, hu, hd, hl, -⟩ := pushAll_eq (C := C) d.jobs l now
    have := (pushAll_steps h0 hup l now).tail
      (.killRetire now _ c (hu.trans hup) (by unfold Jobs.Sys.Runs; rw [hw]; exact hr) (fun h => h) hc)
    rw [hd, hl] at this
    exact this
  | @killRun _ i q id j now n c hup hr hc =>
    obtain ⟨hw, hu, -⟩ := pushAll_eq (C := C) d.jobs ((Out.pushed (runJob E T j.type j.params d.core)).take n) now
    exact (pushAll_steps h0 hup _ now).tail (.kill (hu.trans hup))
  | kill hup hn => exact h0.tail (.kill hup)
  | killReset b c hup hn hc => exact h0.tail (.killReset b c hup hc)
  | @killResetRun _ i q id j now n c b r hup hr hc hrr =>
    obtain ⟨hw, hu, hd, hl, -⟩ := pushAll_eq (C := C) d.jobs ((Out.pushed (runJob E T j.type j.params d.core)).take n) now
    have := (pushAll_steps h0 hup ((Out.pushed (runJob E T j.type j.params d.core)).take n) now).tail
      (.killReset b r (hu.trans hup) hrr)
    rw [hl] at this
    exact this
  | boot n hup => exact h0.tail (.boot n hup)
  | killBoot c hup hc => exact h0.tail (.killBoot c hup hc)
  | outside o ho => exact h0

theorem Steps.jobs (h : Steps U E T C K d d') : Jobs.Steps C calm d.jobs d'.jobs := by
  induction h with
  | refl => exact .refl
  | tail _ hs ih => exact hs.jobs ih

/-- Everything proved of the job processing holds of the daemon. -/
theorem Reach.jobs (h : Reach U E T C K d) : Jobs.Reach C calm d.jobs := ⟨h.1.jobs, h.2⟩

/-! ## C85 -/

theorem perform_execute (r : Request) : perform E T r = if r.Valid then execute E T r else throwE .arity := by
  unfold perform
  by_cases h : r.Valid
  · rw [if_pos h, if_pos h]
    cases r <;> try rfl
    simp only [operation, execute, Op.run, discard, Functor.discard]
    exact M.bind_assoc _ _ _
  · rw [if_neg h, if_neg h]

theorem runJob_eq (r : Request) : runJob E T r.type r.params = perform E T r := by
  rw [perform_execute]
  unfold runJob
  rw [newJobHandler_request]
  by_cases h : r.Valid
  · rw [if_pos h, if_pos h]
  · rw [if_neg h, if_neg h]

theorem Spec.Effects.outside {subs : List Request} {n : Nat} {s : St} {o : Op} (h : Effects U E T subs K n s) (ho : Outside U o) :
    Effects U E T subs K n (o.exec E s) := by
  cases ho with
  | upload hu => exact h.upload hu
  | unlink f => exact h.unlink
  | putAsset r a c => exact h.asset

theorem Effects_mono {subs l K K' : List Request} (hb : ∀ r ∈ K, r ∈ K') {n : Nat} {s : St}
    (h : Effects U E T subs K n s) : Effects U E T (subs ++ l) K' n s := by
  have hget : ∀ {n : Nat} {r : Request}, subs[n]? = some r → (subs ++ l)[n]? = some r := by
    intro n r h
    have := (List.getElem?_eq_some_iff.mp h).1
    rw [List.getElem?_append_left this]; exact h
  induction h with
  | init => exact .init
  | job _ h ih => exact ih.job (hget h)
  | fault hk _ h ht hc ih => exact ih.fault (hb _ hk) (hget h) ht hc
  | cut hk _ h hc ih => exact ih.cut (hb _ hk) (hget h) hc
  | upload _ hu ih => exact ih.upload hu
  | unlink _ ih => exact ih.unlink
  | asset _ ih => exact ih.asset
  | restart _ ih => exact ih.restart

theorem length_filter_take {α : Type} (p : α → Bool) (l : List α) {t : Nat} {r : α} (h : l[t]? = some r) (hp : p r = true) :
    (l.filter p)[((l.take t).filter p).length]? = some r := by
  induction l generalizing t with
  | nil => simp at h
  | cons a l ih =>
    cases t with
    | zero =>
      simp at h; subst h
      simp [hp]
    | succ t =>
      simp at h
      have := ih h
      simp only [List.take_succ_cons, List.filter_cons]
      split
      · simpa using this
      · exact this

theorem length_range_filter {α : Type} (p : α → Bool) (l : List α) (t : Nat) :
    ((List.range t).filter fun k => decide ((l[k]?.map p) = some true)).length = ((l.take t).filter p).length := by
  induction t with
  | zero => simp
  | succ t ih =>
    rw [List.range_succ, List.filter_append, List.length_append, ih]
    by_cases ht : t < l.length
    · rw [List.take_succ_eq_append_getElem ht, List.filter_append, List.length_append]
      congr 1
      simp only [List.filter_cons, List.filter_nil, List.getElem?_eq_getElem ht]
      cases hp : p l[t] <;> simp [hp]
    · rw [List.take_of_length_le (by omega), List.take_of_length_le (by omega)]
      have : l[t]? = none := List.getElem?_eq_none (by omega)
      simp [this]

/-- What a worker executes is a submission that is not finished; a repository job is the first unfinished one. -/
theorem running {s : Jobs.Sys} (h : Jobs.Reach C calm s) {i : Nat} {q : Queue} {id : Str} {j : JobEntry} (hr : s.Runs i q id j) :
    ∃ r, s.reqs[s.ticket q id]? = some r ∧ queueOf r = q ∧ r.type = j.type ∧ r.params = j.params ∧ s.ticket q id ∉ s.done := by
  obtain ⟨A, hA⟩ := h.inv
  have hh := (hA.held _ _ _ _ hr).1
  obtain ⟨r, h1, h2, h3, h4⟩ := hA.req _ _ _ hh
  refine ⟨r, h1, (queueOf_eq r).trans h2, h3, h4, ?_⟩
  have := hA.tick_mem ((KV.mem_keys_iff _ _).2 ⟨_, hh⟩)
  exact (mem_pending.1 this).2

theorem next_job {s : Jobs.Sys} (h : Jobs.Reach C calm s) {i : Nat} {id : Str} {j : JobEntry} (hr : s.Runs i .seq id j)
    {r : Request} (h1 : s.reqs[s.ticket .seq id]? = some r) (c : St) :
    (repoJobs ⟨s, c⟩)[finished ⟨s, c⟩]? = some r := by
  obtain ⟨r', h1', hq, _, _, hnd⟩ := running h hr
  rw [h1] at h1'; cases h1'
  have hin : InQueue s .seq (s.ticket .seq id) := ⟨r, h1, hq⟩
  have hruns : ∃ i, RunsOn s i (s.ticket .seq id) := ⟨i, .seq, id, j, hr, rfl⟩
  have hfin : finished ⟨s, c⟩ = ((s.reqs.take (s.ticket .seq id)).filter fun r => decide (queueOf r = .seq)).length := by
    rw [← length_range_filter]
    unfold finished
    apply List.Perm.length_eq
    rw [List.perm_ext_iff_of_nodup ((C38_done_once h).filter _) (List.nodup_range.filter _)]
    intro t
    simp only [List.mem_filter, decide_eq_true_eq, List.mem_range]
    constructor
    · rintro ⟨hd, hq'⟩
      cases ht : s.reqs[t]? with
      | none => rw [ht] at hq'; simp at hq'
      | some r' =>
        rw [ht] at hq'
        simp at hq'
        refine ⟨?_, by simp [hq']⟩
        by_contra hlt
        rcases Nat.lt_or_eq_of_le (Nat.le_of_not_lt hlt) with hlt | he
        · exact hnd (C36_sequential_order h ⟨r', ht, hq'⟩ hin hlt (.inl hd))
        · exact hnd (he ▸ hd)
    · rintro ⟨hlt, hq'⟩
      cases ht : s.reqs[t]? with
      | none => rw [ht] at hq'; simp at hq'
      | some r' =>
        rw [ht] at hq'
        simp at hq'
        exact ⟨C36_sequential_order h hin ⟨r', ht, hq'⟩ hlt (.inr hruns), by simp [hq']⟩
  rw [hfin]
  exact length_filter_take _ _ h1 (by simp [hq])

/-- Submitting a job changes nothing but the list of submissions. -/
theorem submit_effects {s : Jobs.Sys} (h : Jobs.Reach C calm s) {c : St}
    (he : Effects U E T (repoJobs ⟨s, c⟩) K (finished ⟨s, c⟩) c) (r : Request) (now : Nat) :
    Effects U E T (repoJobs ⟨s.submit C r now, c⟩) K (finished ⟨s.submit C r now, c⟩) c := by
  have hr : (s.submit C r now).reqs = s.reqs ++ [r] := by simp [Jobs.Sys.submit]
  have hd : (s.submit C r now).done = s.done := by simp [Jobs.Sys.submit]
  have h1 : repoJobs ⟨s.submit C r now, c⟩ = repoJobs ⟨s, c⟩ ++ [r].filter (fun r => decide (queueOf r = .seq)) := by
    simp only [repoJobs, hr, List.filter_append]
  have h2 : finished ⟨s.submit C r now, c⟩ = finished ⟨s, c⟩ := by
    obtain ⟨A, hA⟩ := h.inv
    unfold finished
    simp only [hd, hr]
    congr 1
    apply List.filter_congr
    intro t ht
    rw [List.getElem?_append_left (hA.fin t ht)]
  rw [h1, h2]
  exact Effects_mono (fun _ h => h) he

theorem reach_submit {s : Jobs.Sys} {r : Request} {now : Nat} (h : Jobs.Reach C calm (s.submit C r now))
    (h0 : Jobs.Steps C calm Jobs.Sys.init s) : Jobs.Reach C calm s :=
  ⟨h0, by have := h.2; simp [Jobs.Sys.submit] at this; omega⟩

theorem pushAll_effects {s : Jobs.Sys} (h0 : Jobs.Steps C calm Jobs.Sys.init s) (hup : s.up = true) (l : List Request)
    (now : Nat) (hN : (s.reqs ++ l).length < 2 ^ 62) {c : St}
    (he : Effects U E T (repoJobs ⟨s, c⟩) K (finished ⟨s, c⟩) c) :
    Effects U E T (repoJobs ⟨pushAll C s l now, c⟩) K (finished ⟨pushAll C s l now, c⟩) c := by
  induction l generalizing s with
  | nil => exact he
  | cons r l ih =>
    have hl : s.reqs.length < 2 ^ 62 := by simp at hN; omega
    refine ih (s := s.submit C r now) (h0.tail (.submit r now hup)) hup ?_ (submit_effects ⟨h0, hl⟩ he r now)
    simp [Jobs.Sys.submit] at hN ⊢; omega

/-- What a stored job asks for is the submission, if it is valid. -/
theorem wanted_eq {r : Request} {j : JobEntry} (h1 : r.type = j.type) (h2 : r.params = j.params) :
    wanted j = if r.Valid then some r else none := by
  unfold wanted; rw [← h1, ← h2, newJobHandler_request]

theorem perform_invalid {r : Request} (hv : ¬ r.Valid) (s : St) : perform E T r s = ⟨.err .arity, s, []⟩ := by
  unfold perform; rw [if_neg hv]; rfl

/-- The repositories after a job has been executed by a worker. -/
theorem retire_effects {s : Jobs.Sys} (h : Jobs.Reach C calm s) {c c1 : St} {i : Nat} {q : Queue} {id : Str} {j : JobEntry}
    {K' l : List Request} {f : Option Str}
    (hr : s.Runs i q id j) (hend : Ended E T j c K' l f c1)
    (he : Effects U E T (repoJobs ⟨s, c⟩) K (finished ⟨s, c⟩) c) {s' : Jobs.Sys}
    (hreqs : s'.reqs = s.reqs) (hdone : s'.done = s.ticket q id :: s.done) (c' : St) :
    Effects U E T (repoJobs ⟨s', c'⟩) (K ++ K') (finished ⟨s', c'⟩) c1 := by
  obtain ⟨r, h1, hq, ht, hp, hnd⟩ := running h hr
  have e1 : repoJobs ⟨s', c'⟩ = repoJobs ⟨s, c⟩ := by simp [repoJobs, hreqs]
  have he' : Effects U E T (repoJobs ⟨s, c⟩) (K ++ K') (finished ⟨s, c⟩) c := by
    have := Effects_mono (l := []) (K' := K ++ K') (fun _ h => List.mem_append_left _ h) he
    simpa using this
  rw [e1]
  cases q with
  | seq =>
    have e2 : finished ⟨s', c'⟩ = finished ⟨s, c⟩ + 1 := by
      simp [finished, hreqs, hdone, h1, hq]
    rw [e2]
    cases hend with
    | whole msg hp' =>
      rw [← ht, ← hp, runJob_eq]
      exact he'.job (next_job h hr h1 c)
    | fault msg htr htorn =>
      rw [← ht, ← hp, runJob_eq] at htr
      by_cases hv : r.Valid
      · rw [wanted_eq ht hp, if_pos hv] at htorn he' ⊢
        exact he'.fault (List.mem_append_right _ (by simp)) (next_job h hr h1 c) htr htorn
      · rw [perform_invalid hv] at htr; cases htr
  | async =>
    have e2 : finished ⟨s', c'⟩ = finished ⟨s, c⟩ := by
      simp [finished, hreqs, hdone, h1, hq]
    rw [e2]
    cases hend with
    | whole msg hp' =>
      rw [← ht, ← hp, runJob_eq]
      have : (perform E T r c).st = c := by
        cases r <;> simp [queueOf] at hq <;> rfl
      rw [this]; exact he'
    | fault msg htr htorn =>
      rw [← ht, ← hp, runJob_eq] at htr
      have : (perform E T r c).tr = [] := by
        cases r <;> simp [queueOf] at hq <;> rfl
      rw [this] at htr; cases htr

theorem cut_effects {s : Jobs.Sys} (h : Jobs.Reach C calm s) {c : St} {i : Nat} {q : Queue} {id : Str} {j : JobEntry}
    (hr : s.Runs i q id j) (he : Effects U E T (repoJobs ⟨s, c⟩) K (finished ⟨s, c⟩) c) {s' : Jobs.Sys}
    (hreqs : s'.reqs = s.reqs) (hdone : s'.done = s.done) {x : St}
    (hx : CutAt ((wanted j).bind assetTarget) (runJob E T j.type j.params) c x) (c' : St) :
    Effects U E T (repoJobs ⟨s', c'⟩) (K ++ (wanted j).toList) (finished ⟨s', c'⟩) x.crash := by
  obtain ⟨r, h1, hq, ht, hp, hnd⟩ := running h hr
  have e1 : repoJobs ⟨s', c'⟩ = repoJobs ⟨s, c⟩ := by simp [repoJobs, hreqs]
  have e2 : finished ⟨s', c'⟩ = finished ⟨s, c⟩ := by simp [finished, hreqs, hdone]
  have he' : Effects U E T (repoJobs ⟨s, c⟩) (K ++ (wanted j).toList) (finished ⟨s, c⟩) c := by
    have := Effects_mono (l := []) (K' := K ++ (wanted j).toList) (fun _ h => List.mem_append_left _ h) he
    simpa using this
  rw [← ht, ← hp, runJob_eq] at hx
  rw [e1, e2]
  by_cases hv : r.Valid
  · rw [wanted_eq ht hp, if_pos hv] at hx he' ⊢
    cases q with
    | seq => exact he'.cut (List.mem_append_right _ (by simp)) (next_job h hr h1 c) hx
    | async =>
      have : x = c := by
        cases r <;> simp [queueOf] at hq <;> rcases hx with hx | ⟨_, hx, _⟩ | hx <;> first | exact hx | (cases hx)
      rw [this]; exact he'.restart
  · have : x = c := by
      unfold CutAt at hx
      rw [perform_invalid hv] at hx
      rcases hx with hx | ⟨_, hx, _⟩ | hx <;> first | exact hx | (cases hx)
    rw [this]; exact he'.restart

theorem Step.effects (hs : Step U E T C K d d') (h0 : Jobs.Steps C calm Jobs.Sys.init d.jobs) (hN : d'.jobs.reqs.length < 2 ^ 62)
    {K0 : List Request} (he : Effects U E T (repoJobs d) K0 (finished d) d.core) :
    Effects U E T (repoJobs d') (K0 ++ K) (finished d') d'.core := by
  have sub : ∀ {s' : Jobs.Sys} {c' : St} {x : St}, s'.reqs = d.jobs.reqs → s'.done = d.jobs.done →
      Effects U E T (repoJobs d) K0 (finished d) x → Effects U E T (repoJobs ⟨s', c'⟩) K0 (finished ⟨s', c'⟩) x := by
    intro s' c' x h1 h2 h
    have e1 : repoJobs ⟨s', c'⟩ = repoJobs d := by simp [repoJobs, h1]
    have e2 : finished ⟨s', c'⟩ = finished d := by simp [finished, h1, h2]
    rw [e1, e2]; exact h
  cases hs with
  | submit r now hup =>
    rw [List.append_nil]
    refine submit_effects ⟨h0, ?_⟩ he r now
    simp [Jobs.Sys.submit] at hN; omega
  | claim now hup hn hi => rw [List.append_nil]; exact sub rfl rfl he
  | reset b hup => rw [List.append_nil]; exact sub rfl rfl he
  | @finish _ i q id j K l f s now hup hr hend =>
    obtain ⟨hw, hu, hd, hl, hq⟩ := pushAll_eq (C := C) d.jobs l now
    have hN' : (pushAll C d.jobs l now).reqs.length < 2 ^ 62 := hN
    have hrr : Jobs.Reach C calm (pushAll C d.jobs l now) := ⟨pushAll_steps h0 hup _ now, hN'⟩
    have hruns : (pushAll C d.jobs l now).Runs i q id j := by
      unfold Jobs.Sys.Runs; rw [hw]; exact hr
    exact retire_effects (s' := (pushAll C d.jobs l now).finish C i q id j now f) hrr hruns hend
      (pushAll_effects h0 hup _ now (by rw [← hq]; exact hN') he) rfl rfl _
  | @killRetire _ i q id j K l f s now c hup hr hend hc =>
    obtain ⟨hw, hu, hd, hl, hq⟩ := pushAll_eq (C := C) d.jobs l now
    have hN' : (pushAll C d.jobs l now).reqs.length < 2 ^ 62 := hN
    have hrr : Jobs.Reach C calm (pushAll C d.jobs l now) := ⟨pushAll_steps h0 hup _ now, hN'⟩
    have hruns : (pushAll C d.jobs l now).Runs i q id j := by
      unfold Jobs.Sys.Runs; rw [hw]; exact hr
    exact (retire_effects (s' := { (pushAll C d.jobs l now).kill with
            raw := c
            done := (pushAll C d.jobs l now).ticket q id :: d.jobs.done
            log := upd d.jobs.log (finishedOf id j now f).failure.isSome none }) hrr hruns hend
      (pushAll_effects h0 hup _ now (by rw [← hq]; exact hN') he) rfl (by rw [hd]) _).restart
  | @killRun _ i q id j now n c hup hr hc =>
    obtain ⟨hw, hu, hd, hl, hq⟩ := pushAll_eq (C := C) d.jobs ((Out.pushed (runJob E T j.type j.params d.core)).take n) now
    have hN' : (pushAll C d.jobs ((Out.pushed (runJob E T j.type j.params d.core)).take n) now).reqs.length < 2 ^ 62 := hN
    have hrr : Jobs.Reach C calm (pushAll C d.jobs ((Out.pushed (runJob E T j.type j.params d.core)).take n) now) :=
      ⟨pushAll_steps h0 hup _ now, hN'⟩
    have hruns : (pushAll C d.jobs ((Out.pushed (runJob E T j.type j.params d.core)).take n) now).Runs i q id j := by
      unfold Jobs.Sys.Runs; rw [hw]; exact hr
    exact cut_effects hrr hruns (pushAll_effects h0 hup _ now (by rw [← hq]; exact hN') he) rfl rfl hc c.crash
  | kill hup hn => rw [List.append_nil]; exact sub rfl rfl he.restart
  | killReset b c hup hn hc => rw [List.append_nil]; exact sub rfl rfl he.restart
  | @killResetRun _ i q id j now n c b r hup hr hc hrr' =>
    obtain ⟨hw, hu, hd, hl, hq⟩ := pushAll_eq (C := C) d.jobs ((Out.pushed (runJob E T j.type j.params d.core)).take n) now
    have hN' : (pushAll C d.jobs ((Out.pushed (runJob E T j.type j.params d.core)).take n) now).reqs.length < 2 ^ 62 := hN
    have hrr : Jobs.Reach C calm (pushAll C d.jobs ((Out.pushed (runJob E T j.type j.params d.core)).take n) now) :=
      ⟨pushAll_steps h0 hup _ now, hN'⟩
    have hruns : (pushAll C d.jobs ((Out.pushed (runJob E T j.type j.params d.core)).take n) now).Runs i q id j := by
      unfold Jobs.Sys.Runs; rw [hw]; exact hr
    exact cut_effects hrr hruns (pushAll_effects h0 hup _ now (by rw [← hq]; exact hN') he) rfl rfl hc c.crash
  | boot n hup =>
    rw [List.append_nil]
    refine sub ?_ ?_ he
    · simp only [Jobs.Sys.boot]; split <;> rfl
    · simp only [Jobs.Sys.boot]; split <;> rfl
  | killBoot c hup hc => rw [List.append_nil]; exact sub rfl rfl he
  | outside o ho => rw [List.append_nil]; exact he.outside ho

theorem Step.reqs_le (hs : Step U E T C K d d') : d.jobs.reqs.length ≤ d'.jobs.reqs.length := by
  have := hs.jobs (C := C) (s0 := d.jobs) .refl
  obtain ⟨l, hl⟩ := C38_submissions_kept this
  rw [hl]; simp

/-- C85: at any moment, whatever has been submitted when and however often the daemon died, the repositories are as if
the finished repository jobs had been executed one after another, each exactly once, in the order of their submission,
except that before a job attempts at that same job may have been cut short by the death of the daemon, and that a job may have
been ended early by an I/O error.  `K` has the jobs with which this happened; it is empty if the daemon never died in the middle of
a repository job and no I/O error occurred. -/
theorem C85_serial (h : Reach U E T C K d) : Effects U E T (repoJobs d) K (finished d) d.core := by
  obtain ⟨hs, hN⟩ := h
  generalize hz : Sys.init = z at hs
  induction hs with
  | refl => subst hz; exact .init
  | tail h1 h2 ih =>
    subst hz
    exact h2.effects (h1.jobs) hN (ih (Nat.lt_of_le_of_lt h2.reqs_le hN) rfl)


/-! ## C86 -/

section World
variable {W : World} {s : St}

/-- The uploads of a world: one file name stands for one content. -/
def worldUploads (W : World) : Str → Content → Prop := fun f c => c = W.canon (baseName f)

theorem then_st {α β : Type} (m : M α) (f : α → β) (s : St) :
    ((m >>= fun a => (pure (f a) : M β)) s).st = (m s).st ∧
    (((m >>= fun a => (pure (f a) : M β)) s).res = .panic ↔ (m s).res = .panic) := by
  rcases hm : m s with ⟨res, s1, t⟩
  cases res with
  | ok a => rw [bind_ok hm]; exact ⟨rfl, by constructor <;> intro h <;> cases h⟩
  | err e => rw [bind_err hm]; exact ⟨rfl, by constructor <;> intro h <;> cases h⟩
  | panic => rw [bind_panic hm]; exact ⟨rfl, by constructor <;> intro _ <;> rfl⟩

theorem op_reach (ok : W.OK) (h : Reachable W s) (o : Op) (ho : o.Ok W) {α : Type} (m : M α) (f : α → List Request)
    (hm : (m s).st = (o.run W.E s).st) (hp : (m s).res = .panic → (o.run W.E s).res = .panic) :
    Reachable W ((m >>= fun a => (pure (f a) : M _)) s).st ∧ ((m >>= fun a => (pure (f a) : M _)) s).res ≠ .panic := by
  obtain ⟨h1, h2⟩ := then_st m f s
  rw [h1, hm]
  exact ⟨h.step o ho, fun hx => C72_no_panic ok h o ho (hp (h2.1 hx))⟩

/-- Executing a job in a reachable state of the repositories leads to one. -/
theorem execute_reach (ok : W.OK) (hd : ∀ d, W.isDelta d = false) (h : Reachable W s) (T : TramEnv) (r : Request) :
    Reachable W (execute W.E T r s).st ∧ (execute W.E T r s).res ≠ .panic := by
  cases r with
  | bulkAdd r ps => exact op_reach ok h (.addPackages r ps false) (fun f _ => hd _) _ _ rfl (fun h => h)
  | copySource r t x n k => exact op_reach ok h (.copySource r t x n k) trivial _ _ rfl (fun h => h)
  | cloneRepo r n all => exact op_reach ok h (.clone r n all) trivial _ _ rfl (fun h => h)
  | createRepo r => exact op_reach ok h (.create r) trivial _ _ rfl (fun h => h)
  | deleteRepo r => exact op_reach ok h (.delete r) trivial _ _ rfl (fun h => h)
  | delta r p => exact ⟨h, by simp [execute, throwE]⟩
  | deltaIndex r p => exact ⟨h, by simp [execute, throwE]⟩
  | deltaRepo r =>
    by_cases hr : r ∈ s.db.repos.keys
    · obtain ⟨t, ht, _⟩ := getRepo_run (h.inv ok) hr
      simp only [execute]
      rw [bind_ok ht]
      exact ⟨h.got ok hr, by simp [getPackageNames, Out.pre]⟩
    · simp only [execute]
      rw [bind_err (getRepo_missing (h.inv ok) hr)]
      exact ⟨h, by simp⟩
  | indexRepo r => exact op_reach ok h (.index r) trivial _ _ rfl (fun h => h)
  | pullRepo a b =>
    have := then_st (mPullRepo W.E a b) (fun _ => ()) s
    exact op_reach ok h (.pull a b) trivial _ _ this.1.symm this.2.2
  | removeSource r x n => exact op_reach ok h (.removeSource r x n) trivial _ _ rfl (fun h => h)
  | transit p =>
    obtain ⟨h1, h2⟩ := C26_history ok h T p (fun t f p _ _ _ => hd _)
    obtain ⟨h3, h4⟩ := then_st (transitJob W.E T p) (fun _ => ([] : List Request)) s
    exact ⟨h3 ▸ h1, fun hx => h2 (h4.1 hx)⟩
  | trimObsolete r => exact op_reach ok h (.trimObsolete r) trivial _ _ rfl (fun h => h)
  | trimPackages r n => exact op_reach ok h (.trimPackages r n) trivial _ _ rfl (fun h => h)

theorem perform_reach (ok : W.OK) (hd : ∀ d, W.isDelta d = false) (h : Reachable W s) (T : TramEnv) (r : Request) :
    Reachable W (perform W.E T r s).st ∧ (perform W.E T r s).res ≠ .panic := by
  rw [perform_execute]
  split
  · exact execute_reach ok hd h T r
  · exact ⟨h, by simp [throwE]⟩

/-- C86: the repositories of a running daemon that has not died in the middle of a repository job are those of a history of
repository operations, so that everything proved of such histories holds of the daemon as a whole, whatever is submitted,
claimed and finished when and whenever else it was stopped. -/
theorem C86_histories (ok : W.OK) (hd : ∀ d, W.isDelta d = false) (h : Reach (worldUploads W) W.E T C [] d) :
    Reachable W d.core := by
  have := C85_serial h
  generalize finished d = n at this
  generalize d.core = c at this
  induction this with
  | init => exact ⟨[], by simp, rfl⟩
  | job _ _ ih => exact (perform_reach ok hd ih T _).1
  | fault hk => cases hk
  | cut hk => cases hk
  | upload _ hu ih => exact ih.step (.upload _ _) hu
  | unlink _ ih => exact ih.step (.unlink _) trivial
  | asset _ ih => exact ih.step (.putAsset _ _ _) trivial
  | restart _ ih => exact ih.step .restart trivial

open Ferryd.Spec in
/-- C86: then, in particular, the reference count of every package in the pool is the number of repositories listing it,
every package listed is served with the bytes of the upload, and the published package of each name is listed and has the
highest release. -/
theorem C86_consistent (ok : W.OK) (hd : ∀ d, W.isDelta d = false) (h : Reach (worldUploads W) W.E T C [] d) :
    (∀ id k, Count d.core id k → ∃ L, Enumerates L (fun r => Repo d.core r ∧ Has d.core r id) ∧ k = L.length) ∧
    (∀ r n id, Lists d.core r n id → ServedAs W d.core r id (W.canon id) ∧
      ∃ t, Tip d.core r n t ∧ Lists d.core r n t ∧ relOf W id ≤ relOf W t) := by
  have hr := C86_histories ok hd h
  refine ⟨fun id k hc => C01_refcount ok hr (hd id) hc, fun r n id hl => ⟨(C05_served_bytes ok hr hl).1, ?_⟩⟩
  obtain ⟨h1, h2⟩ := C04_tip_is_highest ok hr (r := r) (n := n)
  obtain ⟨t, ht⟩ := h2 id hl
  exact ⟨t, ht, (h1 t ht).1, (h1 t ht).2 id hl⟩

/-- C86: and no job brings the daemon down. -/
theorem C86_no_panic (ok : W.OK) (hd : ∀ d, W.isDelta d = false) (h : Reach (worldUploads W) W.E T C [] d)
    {i : Nat} {q : Queue} {id : Str} {j : JobEntry} (hr : d.jobs.Runs i q id j) :
    (runJob W.E T j.type j.params d.core).res ≠ .panic := by
  obtain ⟨r, _, _, ht, hp, _⟩ := running h.jobs hr
  rw [← ht, ← hp, runJob_eq]
  exact (perform_reach ok hd (C86_histories ok hd h) T r).2

theorem Steps.trans {d d' d'' : Sys} {K K' : List Request} (h1 : Steps U E T C K d d') (h2 : Steps U E T C K' d' d'') :
    Steps U E T C (K ++ K') d d'' := by
  induction h2 with
  | refl => simpa using h1
  | tail _ hs ih => rw [← List.append_assoc]; exact (ih h1).tail hs

theorem Reach.mk' {d d' : Sys} {K K' : List Request} (h : Reach U E T C K d) (hs : Step U E T C K' d d')
    (hN : d'.jobs.reqs.length < 2 ^ 62) : Reach U E T C (K ++ K') d' := ⟨h.1.tail hs, hN⟩

/-- Executing a job other than a delta-repository job submits no jobs. -/
theorem perform_pushed (r : Request) (hr : ∀ x, r ≠ .deltaRepo x) (s : St) : Out.pushed (perform E T r s) = [] := by
  have key : ∀ {α : Type} (m : M α), Out.pushed ((m >>= fun _ => (pure [] : M (List Request))) s) = [] := by
    intro α m
    rcases hm : m s with ⟨res, s1, t⟩
    cases res with
    | ok a => rw [bind_ok hm]; rfl
    | err e => rw [bind_err hm]; rfl
    | panic => rw [bind_panic hm]; rfl
  rw [perform_execute]
  split
  · cases r <;> first | exact key _ | rfl | exact absurd rfl (hr _)
  · rfl

/-- C86: every repository job gets executed.  With the repository worker free, whatever is pending before job `t` (delta
repository jobs aside), the daemon can go on, without any restart, until `t` is finished. -/
theorem C86_progress (ok : W.OK) (hd : ∀ d, W.isDelta d = false) (h : Reach (worldUploads W) W.E T C [] d)
    (hup : d.jobs.up = true) (hi : d.jobs.Idle 0 .seq) {t : Nat} (ht : InQueue d.jobs .seq t) (hnd : t ∉ d.jobs.done)
    (hok : ∀ t' r, t' ≤ t → d.jobs.reqs[t']? = some r → t' ∉ d.jobs.done → ∀ x, r ≠ .deltaRepo x) :
    ∃ d', Steps (worldUploads W) W.E T C [] d d' ∧ d'.jobs.up = true ∧ d'.jobs.reqs = d.jobs.reqs ∧ t ∈ d'.jobs.done := by
  generalize hn : (pending d.jobs .seq).length = n
  induction n generalizing d with
  | zero =>
    have : t ∈ pending d.jobs .seq := mem_pending'.2 ⟨ht, hnd⟩
    rw [List.length_eq_zero_iff.1 hn] at this
    cases this
  | succ n ih =>
    have hs := h.jobs
    obtain ⟨A, hA⟩ := hs.inv
    obtain ⟨p, rest, hp⟩ : ∃ p rest, pending d.jobs .seq = p :: rest := by
      cases hx : pending d.jobs .seq with
      | nil => rw [hx] at hn; cases hn
      | cons p rest => exact ⟨p, rest, rfl⟩
    have hpm : p ∈ pending d.jobs .seq := by rw [hp]; simp
    have hple : ∀ t' ∈ pending d.jobs .seq, p ≤ t' := by
      intro t' ht'
      by_cases e : t' = p
      · omega
      · exact Nat.le_of_lt (head_lt (pending_sorted d.jobs .seq) (by rw [hp]; rfl) ht' e)
    have hnorun : ∀ t', InQueue d.jobs .seq t' → ¬ ∃ i, RunsOn d.jobs i t' := by
      rintro t' ⟨r', hr', hq'⟩ ⟨i, q, id, j, hr, rfl⟩
      obtain ⟨r1, a1, b1, -⟩ := hA.req _ _ _ (hA.held _ _ _ _ hr).1
      rw [hr'] at a1; cases a1
      have : q = .seq := b1.symm.trans ((queueOf_eq _).symm.trans hq')
      subst this
      have := hA.seqWorker hup hr rfl
      subst this
      unfold Jobs.Sys.Runs at hr
      rw [show d.jobs.workers[0]? = _ from hi] at hr
      cases hr
    have hw : Waiting d.jobs .seq p := ⟨(mem_pending'.1 hpm).1, (mem_pending'.1 hpm).2, hnorun p (mem_pending'.1 hpm).1⟩
    have hclaim := (C36_claims_earliest hs hup hi 1).1 p hw
      (fun t' ht' => hple t' (mem_pending'.2 ⟨ht'.1, ht'.2.1⟩))
    have st1 : Step (worldUploads W) W.E T C [] d { d with jobs := d.jobs.claim C 0 .seq 1 } :=
      .claim 1 hup (by decide) hi
    have f1 : (d.jobs.claim C 0 .seq 1).reqs = d.jobs.reqs ∧ (d.jobs.claim C 0 .seq 1).done = d.jobs.done ∧
      (d.jobs.claim C 0 .seq 1).up = d.jobs.up := ⟨rfl, rfl, rfl⟩
    have hs1 : Reach (worldUploads W) W.E T C [] { d with jobs := d.jobs.claim C 0 .seq 1 } :=
      ⟨.tail h.1 st1, by show (d.jobs.claim C 0 .seq 1).reqs.length < _; rw [f1.1]; exact h.2⟩
    generalize d.jobs.claim C 0 .seq 1 = s1 at *
    obtain ⟨fr, fd, fu⟩ := f1
    obtain ⟨q, id, j, hr, htk⟩ := hclaim
    obtain ⟨r1, a1, b1, c1, d1, _⟩ := running hs1.jobs hr
    have a2 : s1.reqs[s1.ticket q id]? = some r1 := a1
    rw [htk, fr] at a2
    obtain ⟨rp, ap, bp⟩ := (mem_pending'.1 hpm).1
    have hnp := C86_no_panic ok hd hs1 hr
    rw [a2] at ap; cases ap
    have hq : q = .seq := b1.symm.trans bp
    subst hq
    have hup1 : s1.up = true := by rw [fu]; exact hup
    have hpush : Out.pushed (runJob W.E T j.type j.params d.core) = [] := by
      rw [← c1, ← d1, runJob_eq]
      exact perform_pushed _ (hok p r1 (hple t (mem_pending'.2 ⟨ht, hnd⟩)) a2 (mem_pending'.1 hpm).2) _
    have st2 : Step (worldUploads W) W.E T C [] { d with jobs := s1 } _ := .finish (i := 0) 2 hup1 hr (.whole [] hnp)
    simp only [hpush, pushAll, List.foldl_nil] at st2
    generalize hout : Out.failure (runJob W.E T j.type j.params d.core) [] = oc at st2
    have f2 : (s1.finish C 0 .seq id j 2 oc).reqs = d.jobs.reqs ∧
        (s1.finish C 0 .seq id j 2 oc).done = p :: d.jobs.done ∧
        (s1.finish C 0 .seq id j 2 oc).up = true ∧
        (s1.finish C 0 .seq id j 2 oc).Idle 0 .seq := by
      refine ⟨fr, ?_, hup1, ?_⟩
      · show s1.ticket .seq id :: s1.done = _
        rw [htk, fd]
      · unfold Jobs.Sys.Idle Jobs.Sys.finish
        exact List.getElem?_set_self (List.getElem?_eq_some_iff.1 hr).1
    have hs2 := Reach.mk' (h := hs1) st2 (by show (s1.finish C 0 .seq id j 2 oc).reqs.length < _; rw [f2.1]; exact h.2)
    generalize s1.finish C 0 .seq id j 2 oc = s2 at *
    obtain ⟨gr, gd, gu, gi⟩ := f2
    have hss := (Steps.refl.tail st1).tail st2
    by_cases e : t = p
    · exact ⟨_, hss, gu, gr, by show t ∈ s2.done; rw [gd, e]; simp⟩
    · have hpend : pending s2 .seq = rest := by
        rw [pending_done_eq gr gd, hp, List.filter_cons, if_neg (by simp)]
        rw [List.filter_eq_self]
        intro x hx
        have := (List.pairwise_cons.1 (hp ▸ pending_sorted d.jobs .seq)).1 x hx
        simp; omega
      have hq2 : ∀ t', InQueue s2 .seq t' ↔ InQueue d.jobs .seq t' := fun t' => by unfold InQueue; rw [gr]
      obtain ⟨s', h1, h2, h3, h4⟩ := ih hs2 gu gi ((hq2 t).2 ht) (by show t ∉ s2.done; rw [gd]; simp [e, hnd]) (by
        intro t' r hle hr' hnd'
        change t' ∉ s2.done at hnd'
        change s2.reqs[t']? = _ at hr'
        rw [gd] at hnd'
        rw [gr] at hr'
        exact hok t' r hle hr' (fun h => hnd' (List.mem_cons_of_mem _ h))) (by
        show (pending s2 .seq).length = n
        rw [hpend]; rw [hp] at hn; simpa using hn)
      exact ⟨s', hss.trans h1, h2, h3.trans gr, h4⟩
end World


/-! ## Not vacuous -/

namespace Demo
open Ferryd.Spec

/-- The demo packages, none of them a delta. -/
def W : World := { Ferryd.Demo.W with isDelta := fun _ => false }
theorem ok : W.OK := ⟨Ferryd.Demo.ok.parse_nil, Ferryd.Demo.ok.no_crash, Ferryd.Demo.ok.comps_no_crash, Ferryd.Demo.ok.groups_no_crash, Ferryd.Demo.ok.good⟩
def tram : TramEnv := ⟨fun _ => none, ['/']⟩
def file : Str := Ferryd.Demo.S "/i/a-1.eopkg"
def q0 : Request := .createRepo ['a']
def q1 : Request := .bulkAdd ['a'] [file]
def q2 : Request := .trimPackages ['a'] 3

def x1 : Sys := { Sys.init with jobs := Sys.init.jobs.boot demoCodec 1 }
def x2 : Sys := { x1 with core := (Op.upload file (W.canon (baseName file))).exec W.E x1.core }
def x3 : Sys := { x2 with jobs := x2.jobs.submit demoCodec q0 5 }
def x4 : Sys := { x3 with jobs := x3.jobs.submit demoCodec q1 6 }
def x5 : Sys := { x4 with jobs := x4.jobs.submit demoCodec q2 6 }
def x6 : Sys := { x5 with jobs := x5.jobs.claim demoCodec 0 .seq 7 }
def c0 : JobEntry := ⟨q0.type, true, q0.params, ⟨5, 7, 0⟩⟩
def o0 := runJob W.E tram c0.type c0.params x6.core
def x7 : Sys :=
  { jobs := (pushAll demoCodec x6.jobs (Out.pushed o0) 8).finish demoCodec 0 .seq (be8 0) c0 8 (Out.failure o0 []), core := o0.st }
def x8 : Sys := { x7 with jobs := x7.jobs.claim demoCodec 0 .seq 9 }
def c1 : JobEntry := ⟨q1.type, true, q1.params, ⟨6, 9, 0⟩⟩
def o1 := runJob W.E tram c1.type c1.params x8.core
theorem mid_lt : 2 < o1.tr.length := by decide +kernel
/-- The daemon dies in the middle of the import. -/
def mid : St := o1.tr[2]'mid_lt
def x9 : Sys := { jobs := (pushAll demoCodec x8.jobs ((Out.pushed o1).take 0) 9).kill, core := mid.crash }
/-- It completes the import instead. -/
def x10 : Sys :=
  { jobs := (pushAll demoCodec x8.jobs (Out.pushed o1) 10).finish demoCodec 0 .seq (be8 1) c1 10 (Out.failure o1 []), core := o1.st }

theorem up1 : x1.jobs.up = true := by decide +kernel
theorem idle5 : x5.jobs.Idle 0 .seq := by unfold Jobs.Sys.Idle; decide +kernel
theorem runs6 : x6.jobs.Runs 0 .seq (be8 0) c0 := by unfold Jobs.Sys.Runs; decide +kernel
theorem idle7 : x7.jobs.Idle 0 .seq := by unfold Jobs.Sys.Idle; decide +kernel
theorem runs8 : x8.jobs.Runs 0 .seq (be8 1) c1 := by unfold Jobs.Sys.Runs; decide +kernel
theorem up7 : x7.jobs.up = true := by decide +kernel

def isPanic {α : Type} : Res α → Bool
  | .panic => true
  | _ => false
theorem ne_panic {α : Type} {r : Res α} (h : isPanic r = false) : r ≠ .panic := by rintro rfl; cases h

theorem s7 : Steps (worldUploads W) W.E tram demoCodec [] Sys.init x7 :=
  .tail (K := []) (K' := []) (.tail (K := []) (K' := []) (.tail (K := []) (K' := [])
    (.tail (K := []) (K' := []) (.tail (K := []) (K' := []) (.tail (K := []) (K' := [])
    (.tail (K := []) (K' := []) .refl
      (.boot 1 rfl)) (.outside _ (.upload rfl))) (.submit q0 5 up1)) (.submit q1 6 up1)) (.submit q2 6 up1))
      (.claim 7 up1 (by decide) idle5)) (.finish (d := x6) 8 up1 runs6 (.whole [] (ne_panic (by decide +kernel))))
theorem r7 : Reach (worldUploads W) W.E tram demoCodec [] x7 := ⟨s7, by decide +kernel⟩
theorem s8 : Steps (worldUploads W) W.E tram demoCodec [] Sys.init x8 :=
  .tail (K := []) (K' := []) s7 (.claim 9 up7 (by decide) idle7)
theorem r8 : Reach (worldUploads W) W.E tram demoCodec [] x8 := ⟨s8, by decide +kernel⟩
theorem r9 : Reach (worldUploads W) W.E tram demoCodec [q1] x9 :=
  ⟨.tail (K := []) (K' := [q1]) s8 (.killRun (d := x8) 9 0 mid up7 runs8
    (.inr (.inl ⟨mid, List.getElem_mem mid_lt, .whole⟩))), by decide +kernel⟩
theorem r10 : Reach (worldUploads W) W.E tram demoCodec [] x10 :=
  ⟨.tail (K := []) (K' := []) s8 (.finish (d := x8) 10 up7 runs8 (.whole [] (ne_panic (by decide +kernel)))), by decide +kernel⟩

/-- C85: three repository jobs submitted, two finished; the package is listed. -/
example : repoJobs x10 = [q0, q1, q2] ∧ finished x10 = 2 ∧ (x10.core.has ['a'] (baseName file)) = true := by
  refine ⟨by decide +kernel, by decide +kernel, by decide +kernel⟩
/-- C85: and with the import cut short. -/
example : repoJobs x9 = [q0, q1, q2] ∧ finished x9 = 1 ∧ x9.core.db.pool.keys = [baseName file] ∧
    (x9.core.has ['a'] (baseName file)) = false := by
  refine ⟨by decide +kernel, by decide +kernel, by decide +kernel, by decide +kernel⟩
/-- C86 -/
example : Count x10.core (baseName file) 1 ∧ Lists x10.core ['a'] ['a'] (baseName file) :=
  ⟨⟨(x10.core.db.pool.get (baseName file)).get (by decide +kernel), by decide +kernel, by decide +kernel⟩,
   ⟨((x10.core.db.ents ['a']).get ['a']).get (by decide +kernel), by decide +kernel, by decide +kernel⟩⟩
/-- C86_progress -/
example : x7.jobs.up = true ∧ x7.jobs.Idle 0 .seq ∧ InQueue x7.jobs .seq 2 ∧ 2 ∉ x7.jobs.done :=
  ⟨up7, idle7, ⟨q2, by decide +kernel, by decide +kernel⟩, by decide +kernel⟩
example : ∃ d', Steps (worldUploads W) W.E tram demoCodec [] x7 d' ∧ d'.jobs.up = true ∧ d'.jobs.reqs = x7.jobs.reqs ∧
    2 ∈ d'.jobs.done :=
  C86_progress ok (fun _ => rfl) r7 up7 idle7 ⟨q2, by decide +kernel, by decide +kernel⟩ (by decide +kernel) (by
    intro t' r _ hr _ x hx
    have h3 : x7.jobs.reqs = [q0, q1, q2] := by decide +kernel
    rw [h3] at hr
    match t', hr with
    | 0, h => cases h; cases hx
    | 1, h => cases h; cases hx
    | 2, h => cases h; cases hx)
end Demo

end Ferryd.Daemon
