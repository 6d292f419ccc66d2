import Verif.PropsStatus
/-!
# PropsLive: every job is eventually executed (C125)

An infinite run of the job system from any reachable state on, in which the daemon stays up: clients submit jobs and clear histories, workers
poll and finish, in any order; a job may submit others.  Fairness: a worker that waits polls again (worker.go:109-135, its timer is always set again: 163-170), and the
execution of a job returns.
-/
namespace Ferryd.Jobs
open Ferryd.Db

/-- What happens at one moment.  worker.go:109-160, handlers.go. -/
inductive Act
  | nothing
  | submit (r : Request) (now : Nat)
  | poll (i : Nat) (q : Queue) (now : Nat)
  | finish (i : Nat) (q : Queue) (id : Str) (j : JobEntry) (now : Nat) (outcome : Option Str)
  | reset (b : Bool)

/-- The jobs an execution submits (delta_repo.go:78-80), one after another. -/
def Sys.submits (C : Codec) (s : Sys) (l : List Request) (now : Nat) : Sys := l.foldl (fun s r => s.submit C r now) s

/-- The action takes the daemon from `s` to `s'`: the steps of `Jobs.Step` other than kills and starts. -/
inductive Acts (C : Codec) (poison : Str → List Str → Prop) : Act → Sys → Sys → Prop
  | nothing {s : Sys} : Acts C poison .nothing s s
  | submit {s : Sys} (r now) : s.up = true → Acts C poison (.submit r now) s (s.submit C r now)
  | poll {s : Sys} {i : Nat} {q : Queue} (now) : s.up = true → now ≠ 0 → s.Idle i q → Acts C poison (.poll i q now) s (s.claim C i q now)
  | finish {s : Sys} {i : Nat} {q : Queue} {id : Str} {j : JobEntry} (l now outcome) : s.up = true → s.Runs i q id j →
      ¬ poison j.type j.params → Acts C poison (.finish i q id j now outcome) s ((s.submits C l now).finish C i q id j now outcome)
  | reset {s : Sys} (b) : s.up = true → Acts C poison (.reset b) s (s.reset b)

/-- An infinite run.  (No code: Go's scheduler and the clients choose; job numbers stay below 2^62.) -/
structure Run (C : Codec) (poison : Str → List Str → Prop) (f : Nat → Sys) (a : Nat → Act) : Prop where
  start : Reach C poison (f 0)
  up : (f 0).up = true
  acts : ∀ n, Acts C poison (a n) (f n) (f (n + 1))
  few : ∀ n, (f n).reqs.length < 2 ^ 62

/-- Waiting workers poll again and executions return. -/
structure Fair (f : Nat → Sys) (a : Nat → Act) : Prop where
  polls : ∀ n i q, (f n).Idle i q → ∃ m, n ≤ m ∧ ∃ q' now, a m = .poll i q' now
  returns : ∀ n i q id j, (f n).Runs i q id j → ∃ m, n ≤ m ∧ ∃ q' id' j' now o, a m = .finish i q' id' j' now o

variable {C : Codec} {poison : Str → List Str → Prop} {s s' : Sys} {f : Nat → Sys} {a : Nat → Act} {x : Act}

theorem Sys.submits_eq (s : Sys) (l : List Request) (now : Nat) :
    (s.submits C l now).workers = s.workers ∧ (s.submits C l now).up = s.up ∧ (s.submits C l now).done = s.done ∧
    (s.submits C l now).reqs = s.reqs ++ l := by
  induction l generalizing s with
  | nil => simp [Sys.submits]
  | cons r l ih =>
    have := ih (s.submit C r now)
    simp only [Sys.submits, List.foldl_cons] at this ⊢
    obtain ⟨h1, h2, h3, h5⟩ := this
    refine ⟨h1, h2, h3, ?_⟩
    rw [h5]; simp [Sys.submit]

theorem Sys.submits_runs {s : Sys} {l : List Request} {now i : Nat} {q : Queue} {id : Str} {j : JobEntry} (hr : s.Runs i q id j) :
    (s.submits C l now).Runs i q id j := by
  unfold Sys.Runs; rw [(s.submits_eq l now).1]; exact hr

theorem Sys.submits_steps {s0 s : Sys} (h : Steps C poison s0 s) (hup : s.up = true) (l : List Request) (now : Nat) :
    Steps C poison s0 (s.submits C l now) := by
  induction l generalizing s with
  | nil => exact h
  | cons r l ih => exact ih (s := s.submit C r now) (h.tail (.submit r now hup)) hup

theorem Sys.submits_ticket {s : Sys} (h : Reach C poison s) (hup : s.up = true) (l : List Request) (now : Nat) (hN : s.reqs.length + l.length < 2 ^ 62)
    {i : Nat} {q : Queue} {id : Str} {j : JobEntry} (hr : s.Runs i q id j) : (s.submits C l now).ticket q id = s.ticket q id := by
  induction l generalizing s with
  | nil => rfl
  | cons r l ih =>
    obtain ⟨A, hA⟩ := h.inv
    have hkey := (KV.mem_keys_iff _ _).2 ⟨_, (hA.held _ _ _ _ hr).1⟩
    have hlen : (s.submit C r now).reqs.length = s.reqs.length + 1 := by simp [Sys.submit]
    simp only [List.length_cons] at hN
    have h' : Reach C poison (s.submit C r now) := h.steps (.tail .refl (.submit r now hup)) (by omega)
    have := ih h' hup (by omega) hr
    exact this.trans (hA.submit_ticket h.2 r now hkey)

theorem Acts.steps (h : Acts C poison x s s') : Steps C poison s s' := by
  cases h with
  | nothing => exact .refl
  | submit r now hup => exact .tail .refl (.submit r now hup)
  | poll now hup hn hi => exact .tail .refl (.claim now hup hn hi)
  | finish l now o hup hr hp => exact .tail (Sys.submits_steps .refl hup l now) (.finish now o (((Sys.submits_eq _ l now).2.1).trans hup) (Sys.submits_runs hr) hp)
  | reset b hup => exact .tail .refl (.reset b hup)

theorem Acts.stays (h : Acts C poison x s s') (hup : s.up = true) : s'.up = true := by
  cases h with
  | finish l now o _ _ _ => exact ((Sys.submits_eq s l now).2.1).trans hup
  | nothing => exact hup
  | submit => exact hup
  | poll => exact hup
  | reset => exact hup

theorem Run.reach (h : Run C poison f a) (n : Nat) : Reach C poison (f n) ∧ (f n).up = true := by
  induction n with
  | zero => exact ⟨h.start, h.up⟩
  | succ n ih => exact ⟨ih.1.steps (h.acts n).steps (h.few _), (h.acts n).stays ih.2⟩

theorem Acts.reqs (h : Acts C poison x s s') {t : Nat} {r : Request} (ht : s.reqs[t]? = some r) : s'.reqs[t]? = some r := by
  cases h with
  | submit r now hup =>
    show (s.reqs ++ [r])[t]? = _
    rw [List.getElem?_append_left (List.getElem?_eq_some_iff.1 ht).1]
    exact ht
  | nothing => exact ht
  | poll => exact ht
  | finish l now o hup hr hp =>
    show (s.submits C l now).reqs[t]? = _
    rw [(Sys.submits_eq s l now).2.2.2, List.getElem?_append_left (List.getElem?_eq_some_iff.1 ht).1]
    exact ht
  | reset => exact ht

theorem Acts.done (h : Acts C poison x s s') {t : Nat} (ht : t ∈ s.done) : t ∈ s'.done := by
  cases h with
  | finish l now o hup hr hp =>
    refine List.mem_cons_of_mem _ ?_
    rw [(Sys.submits_eq s l now).2.2.1]; exact ht
  | nothing => exact ht
  | submit => exact ht
  | poll => exact ht
  | reset => exact ht

theorem Run.inQueue (h : Run C poison f a) {n m : Nat} (hnm : n ≤ m) {q : Queue} {t : Nat} (ht : InQueue (f n) q t) : InQueue (f m) q t := by
  induction hnm with
  | refl => exact ht
  | step _ ih => obtain ⟨r, hr, hq⟩ := ih; exact ⟨r, (h.acts _).reqs hr, hq⟩

theorem Run.done (h : Run C poison f a) {n m : Nat} (hnm : n ≤ m) {t : Nat} (ht : t ∈ (f n).done) : t ∈ (f m).done := by
  induction hnm with
  | refl => exact ht
  | step _ ih => exact (h.acts _).done ih

/-- A worker that executes a job goes on with it unless it finishes it now. -/
theorem Acts.runs (h : Acts C poison x s s') (hs : Reach C poison s) (hN : s'.reqs.length < 2 ^ 62) {i : Nat} {q : Queue} {id : Str} {j : JobEntry} (hr : s.Runs i q id j)
    (hx : ∀ q' id' j' now o, x ≠ .finish i q' id' j' now o) : s'.Runs i q id j ∧ s'.ticket q id = s.ticket q id := by
  obtain ⟨A, hA⟩ := hs.inv
  have hkey := (KV.mem_keys_iff _ _).2 ⟨_, (hA.held _ _ _ _ hr).1⟩
  cases h with
  | nothing => exact ⟨hr, rfl⟩
  | submit r now hup => exact ⟨hr, hA.submit_ticket hs.2 r now hkey⟩
  | @poll _ k q' now hup hn hi =>
    refine ⟨?_, rfl⟩
    have hne : i ≠ k := by
      rintro rfl
      unfold Sys.Runs at hr; unfold Sys.Idle at hi
      rw [hi] at hr; cases hr
    cases hf : firstFree (A.q q') with
    | none => rw [Sys.claim_none hA now hf]; exact hr
    | some p =>
      obtain ⟨id', j'⟩ := p
      rw [Sys.claim_some hA hs.2 now hf]
      exact (runs_set ⟨_, hi⟩).2 (.inr ⟨hne, hr⟩)
  | @finish _ k q' id' j' l now o hup hr' hp =>
    have hne : i ≠ k := by
      rintro rfl
      exact hx _ _ _ _ _ rfl
    have hN' : s.reqs.length + l.length < 2 ^ 62 := by
      have : ((s.submits C l now).reqs).length < 2 ^ 62 := hN
      rwa [(Sys.submits_eq s l now).2.2.2, List.length_append] at this
    exact ⟨(runs_set ⟨_, Sys.submits_runs hr'⟩).2 (.inr ⟨hne, Sys.submits_runs hr⟩), Sys.submits_ticket hs hup l now hN' hr⟩
  | reset b hup => exact ⟨hr, rfl⟩

theorem least {p : Nat → Prop} {n m : Nat} (hnm : n ≤ m) (hm : p m) : ∃ k, n ≤ k ∧ p k ∧ ∀ l, n ≤ l → l < k → ¬ p l := by
  induction m using Nat.strongRecOn with
  | ind m ih =>
    by_cases hc : ∃ l, n ≤ l ∧ l < m ∧ p l
    · obtain ⟨l, h1, h2, h3⟩ := hc
      exact ih l h2 h1 h3
    · exact ⟨m, hnm, hm, fun l h1 h2 h3 => hc ⟨l, h1, h2, h3⟩⟩

/-- A running job is eventually finished, and its worker then is idle. -/
theorem Run.returns (h : Run C poison f a) (hf : Fair f a) {n i : Nat} {q : Queue} {id : Str} {j : JobEntry} (hr : (f n).Runs i q id j) :
    ∃ m, n ≤ m ∧ (f n).ticket q id ∈ (f m).done ∧ (f m).Idle i q := by
  obtain ⟨m, hm, hfin⟩ := hf.returns n i q id j hr
  obtain ⟨k, hk, ⟨q', id', j', now, o, e⟩, hmin⟩ := least (p := fun m => ∃ q' id' j' now o, a m = .finish i q' id' j' now o) hm hfin
  have key : ∀ l, n ≤ l → l ≤ k → (f l).Runs i q id j ∧ (f l).ticket q id = (f n).ticket q id := by
    intro l hl
    induction hl with
    | refl => exact fun _ => ⟨hr, rfl⟩
    | @step l hl ih =>
      intro hlk
      obtain ⟨h1, h2⟩ := ih (by omega)
      obtain ⟨h3, h4⟩ := (h.acts l).runs (h.reach l).1 (h.few _) h1 fun q' id' j' now o e => hmin l hl (by omega) ⟨q', id', j', now, o, e⟩
      exact ⟨h3, h4.trans h2⟩
  obtain ⟨hrk, htk⟩ := key k hk (Nat.le_refl _)
  have hact := h.acts k
  rw [e] at hact
  generalize hs' : f (k + 1) = s' at hact
  generalize hsk : f k = s at *
  cases hact with
  | finish l now o hup hr' hp =>
    have hN' : s.reqs.length + l.length < 2 ^ 62 := by
      have : ((s.submits C l now).reqs).length < 2 ^ 62 := by have := h.few (k + 1); rw [hs'] at this; exact this
      rwa [(Sys.submits_eq s l now).2.2.2, List.length_append] at this
    have e1 : (⟨q, some (id, j)⟩ : Worker) = ⟨q', some (id', j')⟩ := by
      unfold Sys.Runs at hrk hr'
      rw [hrk] at hr'
      exact Option.some.inj hr'
    cases e1
    refine ⟨k + 1, by omega, ?_, ?_⟩
    · rw [hs', ← htk, ← Sys.submits_ticket (by rw [← hsk]; exact (h.reach k).1) hup l now hN' hr']; exact List.mem_cons_self
    · rw [hs']
      unfold Sys.Idle
      show ((s.submits C l now).workers.set i ⟨q, none⟩)[i]? = _
      rw [(Sys.submits_eq s l now).1]
      rw [List.getElem?_set_self (List.getElem?_eq_some_iff.1 hrk).1]

/-- Worker `i` serves queue `q`. -/
def Serves (s : Sys) (i : Nat) (q : Queue) : Prop := ∃ j, s.workers[i]? = some ⟨q, j⟩

theorem Acts.serves (h : Acts C poison x s s') (hs : Reach C poison s) {i : Nat} {q : Queue} (hv : Serves s i q) : Serves s' i q := by
  have hset : ∀ {k : Nat} {q' : Queue} {o o' : Option (Str × JobEntry)}, s.workers[k]? = some ⟨q', o⟩ →
      ∃ j, (s.workers.set k ⟨q', o'⟩)[i]? = some ⟨q, j⟩ := by
    intro k q' o o' hk
    obtain ⟨j, hj⟩ := hv
    by_cases e : k = i
    · subst e
      rw [hk] at hj
      cases hj
      exact ⟨_, List.getElem?_set_self (List.getElem?_eq_some_iff.1 hk).1⟩
    · exact ⟨j, by rw [List.getElem?_set_ne e]; exact hj⟩
  obtain ⟨A, hA⟩ := hs.inv
  cases h with
  | nothing => exact hv
  | submit r now hup => exact hv
  | @poll _ k q' now hup hn hi =>
    cases hf : firstFree (A.q q') with
    | none => rw [Sys.claim_none hA now hf]; exact hv
    | some p =>
      obtain ⟨id', j'⟩ := p
      rw [Sys.claim_some hA hs.2 now hf]
      exact hset hi
  | @finish _ k q' id' j' l now o hup hr' hp =>
    obtain ⟨j, hj⟩ := hset (o' := none) hr'
    refine ⟨j, ?_⟩
    show ((s.submits C l now).workers.set k ⟨q', none⟩)[i]? = _
    rw [(Sys.submits_eq s l now).1]; exact hj
  | reset b hup => exact hv

theorem Run.serves (h : Run C poison f a) {n m : Nat} (hnm : n ≤ m) {i : Nat} {q : Queue} (hv : Serves (f n) i q) : Serves (f m) i q := by
  induction hnm with
  | refl => exact hv
  | step _ ih => exact (h.acts _).serves (h.reach _).1 ih

/-- A worker eventually polls. -/
theorem Run.polls (h : Run C poison f a) (hf : Fair f a) {n i : Nat} {q : Queue} (hv : Serves (f n) i q) :
    ∃ m, n ≤ m ∧ (f m).Idle i q ∧ ∃ now, a m = .poll i q now := by
  have idle : ∀ n, (f n).Idle i q → ∃ m, n ≤ m ∧ (f m).Idle i q ∧ ∃ now, a m = .poll i q now := by
    intro n hi
    obtain ⟨m, hm, q', now, e⟩ := hf.polls n i q hi
    have hact := h.acts m
    have hv : Serves (f m) i q := h.serves hm ⟨_, hi⟩
    rw [e] at hact
    generalize f (m + 1) = s' at hact
    cases hact with
    | poll now hup hn hi' =>
      obtain ⟨j, hj⟩ := hv
      have := hi'
      unfold Sys.Idle at this
      rw [hj] at this
      cases this
      exact ⟨m, hm, hi', now, e⟩
  obtain ⟨j, hj⟩ := hv
  cases j with
  | none => exact idle n hj
  | some p =>
    obtain ⟨id, e⟩ := p
    obtain ⟨m, hm, -, hi⟩ := h.returns hf (show (f n).Runs i q id e from hj)
    obtain ⟨k, hk, hk'⟩ := idle m hi
    exact ⟨k, by omega, hk'⟩

open Classical in
/-- The jobs of the queue up to number `t` that wait. -/
noncomputable def ahead (s : Sys) (q : Queue) (t : Nat) : Nat :=
  ((List.range (t + 1)).filter fun t' => decide (Waiting s q t')).length

theorem filter_len_le {p p' : Nat → Bool} {l : List Nat} (h : ∀ x ∈ l, p' x = true → p x = true) : (l.filter p').length ≤ (l.filter p).length := by
  induction l with
  | nil => exact Nat.le_refl _
  | cons x l ih =>
    have := ih fun y hy => h y (List.mem_cons_of_mem _ hy)
    simp only [List.filter_cons]
    have hx := h x List.mem_cons_self
    cases e' : p' x <;> cases e : p x <;> simp_all <;> omega

theorem filter_len_lt {p p' : Nat → Bool} {l : List Nat} (h : ∀ x ∈ l, p' x = true → p x = true) {y : Nat} (hy : y ∈ l) (hp : p y = true)
    (hp' : p' y = false) : (l.filter p').length < (l.filter p).length := by
  induction l with
  | nil => cases hy
  | cons x l ih =>
    have hle := filter_len_le (p := p) (p' := p') (l := l) fun y hy => h y (List.mem_cons_of_mem _ hy)
    simp only [List.filter_cons]
    have hx := h x List.mem_cons_self
    rcases List.mem_cons.1 hy with rfl | hy
    · rw [hp, hp']; simp; omega
    · have := ih (fun y hy => h y (List.mem_cons_of_mem _ hy)) hy
      cases e' : p' x <;> cases e : p x <;> simp_all <;> omega

/-- What is submitted and does not wait does not come to wait again while the daemon stays up. -/
theorem Acts.waits (h : Acts C poison x s s') (hs : Reach C poison s) (hN : s'.reqs.length < 2 ^ 62) {q : Queue} {t : Nat} (hq : InQueue s q t) (hw : Waiting s' q t) :
    Waiting s q t := by
  refine ⟨hq, fun hd => hw.2.1 (h.done hd), ?_⟩
  rintro ⟨i, q', id, j, hr, e⟩
  by_cases hx : ∃ q' id' j' now o, x = .finish i q' id' j' now o
  · obtain ⟨q'', id', j', now, o, rfl⟩ := hx
    cases h with
    | finish l now o hup hr' hp =>
      have hN' : s.reqs.length + l.length < 2 ^ 62 := by
        have : ((s.submits C l now).reqs).length < 2 ^ 62 := hN
        rwa [(Sys.submits_eq s l now).2.2.2, List.length_append] at this
      have htk := Sys.submits_ticket hs hup l now hN' hr'
      unfold Sys.Runs at hr hr'
      rw [hr] at hr'
      cases hr'
      refine hw.2.1 ?_
      rw [← e, ← htk]
      exact List.mem_cons_self
  · obtain ⟨h1, h2⟩ := h.runs hs hN hr fun q' id' j' now o e => hx ⟨q', id', j', now, o, e⟩
    exact hw.2.2 ⟨i, q', id, j, h1, h2.trans e⟩

open Classical in
theorem Acts.ahead_le (h : Acts C poison x s s') (hs : Reach C poison s) (hN : s'.reqs.length < 2 ^ 62) {q : Queue} {t : Nat} (ht : t < s.reqs.length) :
    ahead s' q t ≤ ahead s q t := by
  refine filter_len_le fun t' hm hw => ?_
  rw [List.mem_range] at hm
  rw [decide_eq_true_iff] at hw ⊢
  refine h.waits hs hN ?_ hw
  obtain ⟨r, hr, hq⟩ := hw.1
  have : t' < s.reqs.length := by omega
  refine ⟨r, ?_, hq⟩
  have h1 := h.reqs (List.getElem?_eq_getElem this)
  rw [List.getElem?_eq_getElem this, ← h1]
  exact hr

open Classical in
/-- Every job that was submitted and is not finished is eventually finished, if some worker serves its queue. -/
theorem C125_every_job_is_executed (h : Run C poison f a) (hf : Fair f a) {n t i : Nat} {q : Queue} (ht : InQueue (f n) q t)
    (hv : Serves (f n) i q) : ∃ m, n ≤ m ∧ t ∈ (f m).done := by
  -- a running job
  have running : ∀ n, (∃ k, RunsOn (f n) k t) → ∃ m, n ≤ m ∧ t ∈ (f m).done := by
    rintro n ⟨k, q', id, j, hr, rfl⟩
    obtain ⟨m, hm, hd, -⟩ := h.returns hf hr
    exact ⟨m, hm, hd⟩
  -- by induction on the number of waiting jobs up to `t`
  have main : ∀ w n, ahead (f n) q t ≤ w → InQueue (f n) q t → Serves (f n) i q → ∃ m, n ≤ m ∧ t ∈ (f m).done := by
    intro w
    induction w with
    | zero =>
      intro n hw hq hv
      by_cases hd : t ∈ (f n).done
      · exact ⟨n, Nat.le_refl _, hd⟩
      by_cases hr : ∃ k, RunsOn (f n) k t
      · exact running n hr
      exfalso
      have hmem : t ∈ (List.range (t + 1)).filter fun t' => decide (Waiting (f n) q t') := by
        rw [List.mem_filter]
        exact ⟨List.mem_range.2 (by omega), by simpa using ⟨hq, hd, hr⟩⟩
      have := List.length_pos_of_mem hmem
      unfold ahead at hw
      omega
    | succ w ih =>
      intro n hw hq hv
      obtain ⟨m, hm, hi, now, e⟩ := h.polls hf hv
      have hqm := h.inQueue hm hq
      have hvm := h.serves hm hv
      have htlen : ∀ k, n ≤ k → t < (f k).reqs.length := by
        intro k hk
        obtain ⟨r, hr, -⟩ := h.inQueue hk hq
        exact (List.getElem?_eq_some_iff.1 hr).1
      have hle : ahead (f m) q t ≤ ahead (f n) q t := by
        clear hi e hqm hvm
        induction hm with
        | refl => exact Nat.le_refl _
        | step hk ih => exact Nat.le_trans ((h.acts _).ahead_le (h.reach _).1 (h.few _) (htlen _ hk)) ih
      by_cases hd : t ∈ (f m).done
      · exact ⟨m, hm, hd⟩
      by_cases hr : ∃ k, RunsOn (f m) k t
      · obtain ⟨m', h1, h2⟩ := running m hr
        exact ⟨m', by omega, h2⟩
      -- the worker takes the first of the waiting jobs
      have hwt : Waiting (f m) q t := ⟨hqm, hd, hr⟩
      obtain ⟨t0, ⟨ht0, hle0⟩, hmin⟩ : ∃ t0, (Waiting (f m) q t0 ∧ t0 ≤ t) ∧ ∀ t', Waiting (f m) q t' → t0 ≤ t' := by
        obtain ⟨k, -, hk, hmin⟩ := least (p := fun k => Waiting (f m) q k) (Nat.zero_le t) hwt
        refine ⟨k, ⟨hk, ?_⟩, fun t' ht' => ?_⟩
        · rcases Nat.lt_or_ge t k with hc | hc
          · exact absurd hwt (hmin t (Nat.zero_le _) hc)
          · exact hc
        · rcases Nat.lt_or_ge t' k with hc | hc
          · exact absurd ht' (hmin t' (Nat.zero_le _) hc)
          · exact hc
      obtain ⟨hrm, hupm⟩ := h.reach m
      have htake := (C36_claims_earliest hrm hupm hi now).1 t0 ht0 hmin
      have hact := h.acts m
      have hnext : f (m + 1) = (f m).claim C i q now := by
        rw [e] at hact
        generalize f (m + 1) = s' at hact
        cases hact; rfl
      have hlt : ahead (f (m + 1)) q t < ahead (f m) q t := by
        refine filter_len_lt (fun t' hm' hw' => ?_) (List.mem_range.2 (show t0 < t + 1 by omega)) (by simpa using ht0) ?_
        · rw [List.mem_range] at hm'
          rw [decide_eq_true_iff] at hw' ⊢
          refine hact.waits hrm (h.few _) ?_ hw'
          obtain ⟨r, hr, hq⟩ := hw'.1
          have : t' < (f m).reqs.length := by have := htlen m hm; omega
          refine ⟨r, ?_, hq⟩
          have h1 := hact.reqs (List.getElem?_eq_getElem this)
          rw [List.getElem?_eq_getElem this, ← h1]
          exact hr
        · rw [decide_eq_false_iff_not]
          intro hw'
          exact hw'.2.2 ⟨i, by rw [hnext]; exact htake⟩
      obtain ⟨m', h1, h2⟩ := ih (m + 1) (by omega) (h.inQueue (Nat.le_succ m) hqm) (h.serves (Nat.le_succ m) hvm)
      exact ⟨m', by omega, h2⟩
  exact main _ n (Nat.le_refl _) ht hv

/-- There are always such workers: a daemon that is up has one for the sequential queue, and those for the other queue stay. -/
theorem C125_sequential (h : Run C poison f a) (hf : Fair f a) {n t : Nat} {r : Request} (ht : (f n).reqs[t]? = some r)
    (hq : queueOf r = .seq) : ∃ m, n ≤ m ∧ t ∈ (f m).done := by
  obtain ⟨hr, hup⟩ := h.reach n
  obtain ⟨A, hA⟩ := hr.inv
  exact C125_every_job_is_executed h hf ⟨r, ht, hq⟩ (i := 0) (hA.seqWorker' hup)

/-- So if no more jobs are submitted, all queues run empty and stay empty (with at least one worker for deltas, see C68). -/
theorem C125_drains (h : Run C poison f a) (hf : Fair f a) {n i : Nat} (hv : Serves (f n) i .async)
    (hno : ∀ m, n ≤ m → (f m).reqs = (f n).reqs) : ∃ m, n ≤ m ∧ ∀ k, m ≤ k → ∀ t, t < (f k).reqs.length → t ∈ (f k).done := by
  have all : ∀ N, N ≤ (f n).reqs.length → ∃ m, n ≤ m ∧ ∀ t, t < N → t ∈ (f m).done := by
    intro N
    induction N with
    | zero => exact fun _ => ⟨n, Nat.le_refl _, fun t ht => by omega⟩
    | succ N ih =>
      intro hN
      obtain ⟨m, hm, hd⟩ := ih (by omega)
      have hr : (f n).reqs[N]? = some (f n).reqs[N] := List.getElem?_eq_getElem (by omega)
      obtain ⟨m', hm', hd'⟩ : ∃ m, n ≤ m ∧ N ∈ (f m).done := by
        cases hq : queueOf (f n).reqs[N] with
        | seq => exact C125_sequential h hf hr hq
        | async => exact C125_every_job_is_executed h hf ⟨_, hr, hq⟩ hv
      refine ⟨max m m', by omega, fun t ht => ?_⟩
      by_cases e : t = N
      · subst e; exact h.done (by omega) hd'
      · exact h.done (Nat.le_max_left m m') (hd t (by omega))
  obtain ⟨m, hm, hd⟩ := all _ (Nat.le_refl _)
  refine ⟨m, hm, fun k hk t ht => h.done hk (hd t ?_)⟩
  rw [hno k (by omega)] at ht
  exact ht

/-! ## Demo: one job, then the workers poll in turn forever -/

namespace Demo

def run : Nat → Sys
  | 0 => d1
  | 1 => e1
  | _ + 2 => e2

def workerQueue (n : Nat) : Queue := if n % 3 = 0 then .seq else .async

def acts : Nat → Act
  | 0 => .poll 0 .seq 8
  | 1 => .finish 0 .seq id0 claimed0 10 none
  | n + 2 => .poll (n % 3) (workerQueue n) 11

theorem re2 : Reach demoCodec noPoison e2 := re1.steps (live12 (by simp [noPoison])).steps (by decide +kernel)
theorem upe2 : e2.up = true := by decide +kernel
theorem workers2 : e2.workers = [⟨.seq, none⟩, ⟨.async, none⟩, ⟨.async, none⟩] := by decide +kernel

theorem idle2 (n : Nat) : e2.Idle (n % 3) (workerQueue n) := by
  unfold Sys.Idle workerQueue
  rw [workers2]
  have : n % 3 < 3 := Nat.mod_lt _ (by decide)
  rcases (show n % 3 = 0 ∨ n % 3 = 1 ∨ n % 3 = 2 by omega) with e | e | e <;> rw [e] <;> rfl

theorem quiet2 (n : Nat) : e2.claim demoCodec (n % 3) (workerQueue n) 11 = e2 := by
  refine (C36_claims_earliest re2 upe2 (idle2 n) 11).2 fun t ht => ?_
  obtain ⟨r, hr, -⟩ := ht.1
  rw [show e2.reqs = [j0] from rfl] at hr
  match t, hr with
  | 0, _ => exact ht.2.1 (by decide +kernel)
  | t + 1, hr => cases hr

theorem isRun : Run demoCodec noPoison run acts where
  start := r1
  up := up1
  acts := by
    intro n
    match n with
    | 0 => exact .poll 8 up1 (by decide) idle1
    | 1 => exact .finish [] 10 none upe1 runse1 (by simp [noPoison])
    | n + 2 =>
      have := Acts.poll (C := demoCodec) (poison := noPoison) 11 upe2 (by decide) (idle2 n)
      rw [quiet2] at this
      exact this
  few := by
    intro n
    match n with
    | 0 => decide +kernel
    | 1 => decide +kernel
    | n + 2 => exact (show e2.reqs.length < 2 ^ 62 by decide +kernel)

theorem lenRun : ∀ n, (run n).workers.length = 3
  | 0 => by decide +kernel
  | 1 => by decide +kernel
  | n + 2 => by show e2.workers.length = 3; decide +kernel

theorem isFair : Fair run acts where
  polls := by
    intro n i q hi
    have hlt : i < 3 := by rw [← lenRun n]; exact (List.getElem?_eq_some_iff.1 hi).1
    refine ⟨3 * n + i + 2, by omega, workerQueue (3 * n + i), 11, ?_⟩
    show Act.poll ((3 * n + i) % 3) _ _ = _
    rw [show (3 * n + i) % 3 = i by omega]
  returns := by
    intro n i q id j hr
    match n, hr with
    | 0, hr =>
      exfalso
      unfold Sys.Runs at hr
      rw [show (run 0).workers = [⟨.seq, none⟩, ⟨.async, none⟩, ⟨.async, none⟩] by decide +kernel] at hr
      match i with
      | 0 => cases hr
      | 1 => cases hr
      | 2 => cases hr
      | i + 3 => cases hr
    | 1, hr =>
      unfold Sys.Runs at hr
      rw [show (run 1).workers = [⟨.seq, some (id0, claimed0)⟩, ⟨.async, none⟩, ⟨.async, none⟩] by decide +kernel] at hr
      match i with
      | 0 => exact ⟨1, Nat.le_refl _, _, _, _, _, _, rfl⟩
      | 1 => cases hr
      | 2 => cases hr
      | i + 3 => cases hr
    | n + 2, hr =>
      exfalso
      unfold Sys.Runs at hr
      rw [show (run (n + 2)).workers = e2.workers from rfl, workers2] at hr
      match i with
      | 0 => cases hr
      | 1 => cases hr
      | 2 => cases hr
      | i + 3 => cases hr

end Demo

example : ∃ m, 0 ≤ m ∧ 0 ∈ (Demo.run m).done :=
  C125_sequential Demo.isRun Demo.isFair (n := 0) (t := 0) (r := Demo.j0) rfl rfl

example : Serves (Demo.run 0) 1 .async ∧ ∀ m, 0 ≤ m → (Demo.run m).reqs = (Demo.run 0).reqs :=
  ⟨⟨none, by decide +kernel⟩, fun m _ => match m with | 0 => rfl | 1 => rfl | _ + 2 => rfl⟩

end Ferryd.Jobs
