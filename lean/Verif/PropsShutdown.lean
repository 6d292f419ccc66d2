import Verif.Shutdown
/-!
# PropsShutdown: the orderly end of the daemon (C92-C95)
-/
namespace Ferryd.Shutdown
open Ferryd.Jobs Ferryd.Db

variable {C : Codec} {poison : Str → List Str → Prop} {s s' : Sys}

/-! ## Invariant -/

/-- What holds in every reachable state. -/
structure SI (s : Sys) : Prop where
  up : s.jobs.up = true ↔ s.phase ≠ .down
  len : s.gor.length = s.jobs.workers.length
  gone : ∀ i g, s.gor[i]? = some g → g.gone = true → ∃ q, s.jobs.Idle i q
  closed : s.phase ≠ .down → s.phase.dbOpen = false → ∀ g ∈ s.gor, g.gone = true
  told : ∀ k, s.phase = .stopping k → ∀ i g, i < k → s.gor[i]? = some g → g.told = true
  toldAll : s.phase = .waiting → ∀ g ∈ s.gor, g.told = true
  locked : s.phase = .serving → s.locked = true

theorem claim_workers {j : Jobs.Sys} (h : Jobs.Reach C poison j) {i : Nat} {q : Queue} (now : Nat) :
    (j.claim C i q now = j) ∨ ∃ id e, (Stored C j q id e ∧ e.claimed = false) ∧
      (j.claim C i q now).workers = j.workers.set i ⟨q, some (id, claimedAt e now)⟩ := by
  obtain ⟨A, hA⟩ := h.inv
  cases hf : firstFree (A.q q) with
  | none => exact .inl (Sys.claim_none hA now hf)
  | some x =>
    obtain ⟨id, e⟩ := x
    have hg := firstFree_some (hA.rel.qWF q) hf
    refine .inr ⟨id, e, ⟨(hA.rel.stored _ _ _).2 hg.1, hg.2.1⟩, ?_⟩
    rw [Sys.claim_some hA h.2 now hf]

/-- Every step is one of the job processing, or leaves that alone. -/
theorem Step.jobs {w : Who} (h : Step C poison w s s') (hi : SI s) : s'.jobs = s.jobs ∨ Jobs.Step C poison s.jobs s'.jobs := by
  have hup : s.phase.dbOpen = true → s.jobs.up = true := fun h => hi.up.2 (by intro e; rw [e] at h; cases h)
  cases h with
  | submit r now ho => exact .inr (.submit r now (hup ho))
  | submitLate => exact .inl rfl
  | reset b ho => exact .inr (.reset b (hup ho))
  | tick => exact .inl rfl
  | poll now _ _ _ hidle hn ho => exact .inr (.claim now (hup ho) hn hidle)
  | finish now oc hr hp ho => exact .inr (.finish now oc (hup ho) hr hp)
  | exit => exact .inl rfl
  | signal => exact .inl rfl
  | stopWatching => exact .inl rfl
  | beginStop => exact .inl rfl
  | tell => exact .inl rfl
  | allTold => exact .inl rfl
  | closeDb => exact .inl rfl
  | closeStore => exact .inl rfl
  | closeManager => exact .inl rfl
  | end_ hp => exact .inr (.kill (hi.up.2 (by rw [hp]; simp)))
  | crash _ hj _ => exact .inr hj
  | crashLate hp _ => exact .inr (.kill (hi.up.2 hp))
  | boot n hp _ =>
    refine .inr (.boot n ?_)
    cases hu : s.jobs.up with
    | false => rfl
    | true => exact absurd hp (hi.up.1 hu)
  | bootFails _ hj _ => exact .inr hj

theorem down_workers {j : Jobs.Sys} (h : Jobs.Reach C poison j) (hu : j.up = false) : j.workers = [] := by
  obtain ⟨A, hA⟩ := h.inv
  exact hA.down hu

theorem boot_workers {j : Jobs.Sys} {n : Nat} (hu : (j.boot C n).up = true) (hd : j.up = false) :
    (j.boot C n).workers = ⟨.seq, none⟩ :: List.replicate n ⟨.async, none⟩ := by
  unfold Jobs.Sys.boot at hu ⊢
  cases h : (setup C j.raw).res with
  | ok a => simp only [h]
  | error e => simp only [h, hd] at hu; cases hu

theorem boot_reqs {j : Jobs.Sys} {n : Nat} : (j.boot C n).reqs = j.reqs := by
  unfold Jobs.Sys.boot
  cases h : (setup C j.raw).res <;> simp only [h]

theorem Step.reqs_le {w : Who} (h : Step C poison w s s') : s.jobs.reqs.length ≤ s'.jobs.reqs.length := by
  cases h with
  | submit => simp [Jobs.Sys.submit]
  | crash _ hj _ => exact Jobs.Steps.reqs_le (.tail .refl hj)
  | boot n _ _ => show _ ≤ (s.jobs.boot C n).reqs.length; rw [boot_reqs]; exact Nat.le_refl _
  | bootFails _ hj _ => exact Jobs.Steps.reqs_le (.tail .refl hj)
  | _ => exact Nat.le_refl _

theorem SI.step {w : Who} (h : Step C poison w s s') (hi : SI s) (hr : Jobs.Reach C poison s.jobs)
    (hr' : Jobs.Reach C poison s'.jobs) : SI s' := by
  have hdead : ∀ j : Jobs.Sys, Jobs.Reach C poison j → j.up = false → ∀ (b : Bool) a e c l,
      SI ⟨j, [], .down, b, a, e, c, l⟩ := by
    intro j hj hu b a e c l
    refine ⟨by simp [hu], ?_, ?_, ?_, ?_, ?_, ?_⟩
    · show 0 = j.workers.length; rw [down_workers hj hu]; rfl
    · intro i g hg; simp at hg
    · intro h; exact absurd rfl h
    · intro k h; cases h
    · intro h; cases h
    · intro h; cases h
  cases h with
  | submit r now ho =>
    exact ⟨hi.up, hi.len, hi.gone, hi.closed, hi.told, hi.toldAll, hi.locked⟩
  | submitLate r hp => exact ⟨hi.up, hi.len, hi.gone, hi.closed, hi.told, hi.toldAll, hi.locked⟩
  | reset b ho => exact ⟨hi.up, hi.len, hi.gone, hi.closed, hi.told, hi.toldAll, hi.locked⟩
  | @tick _ i g q hg ht hgo hid =>
    have hlt := (List.getElem?_eq_some_iff.1 hg).1
    have key : ∀ (i' : Nat) (g' : Gor), (s.gor.set i { g with fired := true })[i']? = some g' →
        ∃ g0 : Gor, s.gor[i']? = some g0 ∧ g'.told = g0.told ∧ g'.gone = g0.gone := by
      intro i' g' h'
      rw [List.getElem?_set] at h'
      split at h'
      · rename_i e; subst e; simp at h'; subst h'; exact ⟨g, hg, rfl, rfl⟩
      · exact ⟨g', h', rfl, rfl⟩
    refine ⟨hi.up, by simpa using hi.len, ?_, ?_, ?_, ?_, hi.locked⟩
    · intro i' g' h' hgone
      obtain ⟨g0, a, _, c⟩ := key i' g' h'
      exact hi.gone i' g0 a (c ▸ hgone)
    · intro h1 h2 g' hg'
      obtain ⟨i', h'⟩ := List.getElem?_of_mem hg'
      obtain ⟨g0, a, _, c⟩ := key i' g' h'
      rw [c]; exact hi.closed h1 h2 g0 (List.mem_of_getElem? a)
    · intro k hk i' g' hlt' h'
      obtain ⟨g0, a, b, _⟩ := key i' g' h'
      rw [b]; exact hi.told k hk i' g0 hlt' a
    · intro hw g' hg'
      obtain ⟨i', h'⟩ := List.getElem?_of_mem hg'
      obtain ⟨g0, a, b, _⟩ := key i' g' h'
      rw [b]; exact hi.toldAll hw g0 (List.mem_of_getElem? a)
  | @poll _ i g q now hg hf hgo hid hn ho =>
    have hlt := (List.getElem?_eq_some_iff.1 hg).1
    have key : ∀ (i' : Nat) (g' : Gor), (s.gor.set i { g with fired := false })[i']? = some g' →
        ∃ g0 : Gor, s.gor[i']? = some g0 ∧ g'.told = g0.told ∧ g'.gone = g0.gone := by
      intro i' g' h'
      rw [List.getElem?_set] at h'
      split at h'
      · rename_i e; subst e; simp at h'; subst h'; exact ⟨g, hg, rfl, rfl⟩
      · exact ⟨g', h', rfl, rfl⟩
    have hwk := claim_workers hr (i := i) (q := q) now
    refine ⟨?_, ?_, ?_, ?_, ?_, ?_, hi.locked⟩
    · show (s.jobs.claim C i q now).up = true ↔ _
      exact hi.up
    · show (s.gor.set i _).length = (s.jobs.claim C i q now).workers.length
      rw [List.length_set, hi.len]
      rcases hwk with e | ⟨id, e, _, hw⟩
      · rw [e]
      · rw [hw, List.length_set]
    · intro i' g' h' hgone
      obtain ⟨g0, a, _, c⟩ := key i' g' h'
      obtain ⟨q', hq'⟩ := hi.gone i' g0 a (c ▸ hgone)
      refine ⟨q', ?_⟩
      rcases hwk with e | ⟨id, e, _, hw⟩
      · rw [e]; exact hq'
      · unfold Jobs.Sys.Idle
        rw [hw, List.getElem?_set_ne]
        · exact hq'
        · rintro rfl
          rw [hg] at a; cases a
          rw [c, hgo] at hgone; cases hgone
    · intro _ h2
      change s.phase.dbOpen = false at h2
      rw [ho] at h2; cases h2
    · intro k hk i' g' hlt' h'
      obtain ⟨g0, a, b, _⟩ := key i' g' h'
      rw [b]; exact hi.told k hk i' g0 hlt' a
    · intro hw g' hg'
      obtain ⟨i', h'⟩ := List.getElem?_of_mem hg'
      obtain ⟨g0, a, b, _⟩ := key i' g' h'
      rw [b]; exact hi.toldAll hw g0 (List.mem_of_getElem? a)
  | @finish _ i q id j now oc hrun hp ho =>
    refine ⟨hi.up, ?_, ?_, hi.closed, hi.told, hi.toldAll, hi.locked⟩
    · show s.gor.length = (s.jobs.workers.set i _).length
      rw [List.length_set, hi.len]
    · intro i' g' h' hgone
      obtain ⟨q', hq'⟩ := hi.gone i' g' h' hgone
      refine ⟨q', ?_⟩
      show (s.jobs.workers.set i _)[i']? = _
      rw [List.getElem?_set_ne]
      · exact hq'
      · rintro rfl
        unfold Jobs.Sys.Idle at hq'; unfold Jobs.Sys.Runs at hrun
        rw [hrun] at hq'; cases hq'
  | @exit _ i g q hg ht hgo hid =>
    have hlt := (List.getElem?_eq_some_iff.1 hg).1
    have key : ∀ (i' : Nat) (g' : Gor), (s.gor.set i { g with gone := true })[i']? = some g' →
        ∃ g0 : Gor, s.gor[i']? = some g0 ∧ g'.told = g0.told ∧ (g'.gone = g0.gone ∨ i' = i ∧ g'.gone = true) := by
      intro i' g' h'
      rw [List.getElem?_set] at h'
      split at h'
      · rename_i e; subst e; simp at h'; subst h'; exact ⟨g, hg, rfl, .inr ⟨rfl, rfl⟩⟩
      · exact ⟨g', h', rfl, .inl rfl⟩
    refine ⟨hi.up, by simpa using hi.len, ?_, ?_, ?_, ?_, hi.locked⟩
    · intro i' g' h' hgone
      obtain ⟨g0, a, _, c⟩ := key i' g' h'
      rcases c with c | ⟨rfl, _⟩
      · exact hi.gone i' g0 a (c ▸ hgone)
      · exact ⟨q, hid⟩
    · intro h1 h2 g' hg'
      obtain ⟨i', h'⟩ := List.getElem?_of_mem hg'
      obtain ⟨g0, a, _, c⟩ := key i' g' h'
      rcases c with c | ⟨_, c⟩
      · rw [c]; exact hi.closed h1 h2 g0 (List.mem_of_getElem? a)
      · exact c
    · intro k hk i' g' hlt' h'
      obtain ⟨g0, a, b, _⟩ := key i' g' h'
      rw [b]; exact hi.told k hk i' g0 hlt' a
    · intro hw g' hg'
      obtain ⟨i', h'⟩ := List.getElem?_of_mem hg'
      obtain ⟨g0, a, b, _⟩ := key i' g' h'
      rw [b]; exact hi.toldAll hw g0 (List.mem_of_getElem? a)
  | signal hp =>
    refine ⟨by rw [hi.up, hp]; simp, hi.len, hi.gone, by intro _ h; simp [Phase.dbOpen] at h, by intro k h; simp at h, by intro h; simp at h, by intro h; simp at h⟩
  | stopWatching hp =>
    refine ⟨by rw [hi.up, hp]; simp, hi.len, hi.gone, by intro _ h; simp [Phase.dbOpen] at h, by intro k h; simp at h, by intro h; simp at h, by intro h; simp at h⟩
  | beginStop hp =>
    refine ⟨by rw [hi.up, hp]; simp, hi.len, hi.gone, by intro _ h; simp [Phase.dbOpen] at h, ?_, by intro h; simp at h, by intro h; simp at h⟩
    intro k hk i g hlt
    simp at hk; omega
  | @tell _ k g hp hg =>
    have hlt := (List.getElem?_eq_some_iff.1 hg).1
    refine ⟨by rw [hi.up, hp]; simp, by simpa using hi.len, ?_, by intro _ h; simp [Phase.dbOpen] at h, ?_, by intro h; simp at h, by intro h; simp at h⟩
    · intro i' g' h' hgone
      simp only [List.getElem?_set] at h'
      split at h'
      · rename_i e; subst e; simp at h'; subst h'; exact hi.gone k g hg hgone
      · exact hi.gone i' g' h' hgone
    · intro k' hk i' g' hlt' h'
      simp at hk; subst hk
      simp only [List.getElem?_set] at h'
      split at h'
      · rename_i e; subst e; simp at h'; subst h'; rfl
      · exact hi.told k hp i' g' (by omega) h'
  | @allTold _ k hp hle =>
    refine ⟨by rw [hi.up, hp]; simp, hi.len, hi.gone, by intro _ h; simp [Phase.dbOpen] at h, by intro k h; simp at h, ?_, by intro h; simp at h⟩
    intro _ g hg
    obtain ⟨i, h⟩ := List.getElem?_of_mem hg
    have : i < s.gor.length := (List.getElem?_eq_some_iff.1 h).1
    exact hi.told k hp i g (by omega) h
  | closeDb hp hall =>
    exact ⟨by rw [hi.up, hp]; simp, hi.len, hi.gone, fun _ _ => hall, by intro k h; simp at h, by intro h; simp at h, by intro h; simp at h⟩
  | closeStore hp =>
    exact ⟨by rw [hi.up, hp]; simp, hi.len, hi.gone, fun _ _ => hi.closed (by rw [hp]; simp) (by rw [hp]; rfl), by intro k h; simp at h, by intro h; simp at h, by intro h; simp at h⟩
  | closeManager hp =>
    exact ⟨by rw [hi.up, hp]; simp, hi.len, hi.gone, fun _ _ => hi.closed (by rw [hp]; simp) (by rw [hp]; rfl), by intro k h; simp at h, by intro h; simp at h, by intro h; simp at h⟩
  | end_ hp => exact hdead _ hr' rfl _ _ _ _ _
  | crash ho hj hu => exact hdead _ hr' hu _ _ _ _ _
  | crashLate => exact hdead _ hr' rfl _ _ _ _ _
  | boot n hp hu =>
    have hd : s.jobs.up = false := by
      cases hu : s.jobs.up with
      | false => rfl
      | true => exact absurd hp (hi.up.1 hu)
    refine ⟨by simp [hu], ?_, ?_, by intro _ h; simp [Phase.dbOpen] at h, by intro k h; simp at h, by intro h; simp at h, fun _ => rfl⟩
    · simp [boot_workers hu hd]
    · intro i g hg hgone
      have := List.eq_of_mem_replicate (List.mem_of_getElem? hg)
      subst this; cases hgone
  | bootFails hp hj hu =>
    have hgor : s.gor = [] := by
      have := hi.len
      have hd : s.jobs.up = false := by
        cases hu : s.jobs.up with
        | false => rfl
        | true => exact absurd hp (hi.up.1 hu)
      rw [down_workers hr hd] at this
      exact List.length_eq_zero_iff.1 this
    have := hdead _ hr' hu s.locked s.accepted s.begun true s.late
    rw [← hgor, ← hp] at this
    exact this

theorem Steps.inv (h : Steps C poison Sys.init s) (hN : s.jobs.reqs.length < 2 ^ 62) :
    SI s ∧ Jobs.Reach C poison s.jobs := by
  induction h with
  | refl =>
    exact ⟨⟨by simp [Sys.init, Jobs.Sys.init], rfl, by intro i g h; simp [Sys.init] at h, by intro h; exact absurd rfl h,
      by intro k h; simp [Sys.init] at h, by intro h; simp [Sys.init] at h, by intro h; simp [Sys.init] at h⟩, .refl, by simp [Sys.init, Jobs.Sys.init]⟩
  | @tail s1 s2 w h1 hs ih =>
    -- the bound holds before, as submissions are never forgotten
    have hle : s1.jobs.reqs.length ≤ s2.jobs.reqs.length := hs.reqs_le
    obtain ⟨hi, hr⟩ := ih (by omega)
    have hr' : Jobs.Reach C poison s2.jobs := by
      rcases hs.jobs hi with e | e
      · rw [e]; exact hr
      · exact ⟨.tail hr.1 e, hN⟩
    exact ⟨hi.step hs hr hr', hr'⟩

theorem Reach.si (h : Reach C poison s) : SI s := (h.1.inv h.2).1
theorem Reach.jobs (h : Reach C poison s) : Jobs.Reach C poison s.jobs := (h.1.inv h.2).2

/-! ## C92: no job is cut by an orderly end -/

theorem SI.quiet (h : SI s) (hr : Jobs.Reach C poison s.jobs) (hc : s.phase.dbOpen = false) (i : Nat) (q : Queue) (id : Str) (j : JobEntry) :
    ¬ s.jobs.Runs i q id j := by
  intro hrun
  by_cases hd : s.phase = .down
  · have : s.jobs.up = false := by
      cases hu : s.jobs.up with
      | false => rfl
      | true => exact absurd hd (h.up.1 hu)
    unfold Jobs.Sys.Runs at hrun
    rw [down_workers hr this] at hrun
    cases hrun
  · have hlt : i < s.gor.length := by rw [h.len]; exact (List.getElem?_eq_some_iff.1 hrun).1
    obtain ⟨q', hq'⟩ := h.gone i _ (List.getElem?_eq_getElem hlt) (h.closed hd hc _ (List.getElem_mem hlt))
    unfold Jobs.Sys.Runs at hrun; unfold Jobs.Sys.Idle at hq'
    rw [hrun] at hq'; cases hq'

/-- C92: as long as a worker executes a job, the daemon keeps the job database (and with it the repositories' database) open. -/
theorem C92_open_while_running (h : Reach C poison s) {i t : Nat} (hr : RunsOn s.jobs i t) : s.phase.dbOpen = true := by
  obtain ⟨q, id, j, hr, -⟩ := hr
  cases ho : s.phase.dbOpen with
  | true => rfl
  | false => exact absurd hr (h.si.quiet h.jobs ho i q id j)

/-- C92: once an orderly end has closed the job database, no job is executing and no stored job is marked as taken: whatever
was begun has been executed to its end and retired. -/
theorem C92_nothing_cut (h : Reach C poison s) (hp : s.phase = .dbClosed ∨ s.phase = .storeClosed ∨ s.phase = .managerClosed) :
    (∀ i t, ¬ RunsOn s.jobs i t) ∧ ∀ q id j, Stored C s.jobs q id j → j.claimed = false := by
  have hc : s.phase.dbOpen = false := by rcases hp with e | e | e <;> rw [e] <;> rfl
  have hq := h.si.quiet h.jobs hc
  refine ⟨fun i t ⟨q, id, j, hr, _⟩ => hq i q id j hr, fun q id j hs => ?_⟩
  obtain ⟨A, hA⟩ := h.jobs.inv
  have hg := (hA.rel.stored _ _ _).1 hs
  cases hcl : j.claimed with
  | false => rfl
  | true =>
    obtain ⟨i, hi⟩ := hA.owner (h.si.up.2 (by rcases hp with e | e | e <;> rw [e] <;> simp)) _ _ _ hg hcl
    exact absurd hi (hq i q id j)

/-- What has been begun is finished or still executing. -/
structure Begun (s : Sys) : Prop where
  nodup : s.begun.Nodup
  where_ : ∀ t ∈ s.begun, t ∈ s.jobs.done ∨ ∃ i, RunsOn s.jobs i t

theorem RunsOn.submit {j : Jobs.Sys} (h : Jobs.Reach C poison j) (r : Request) (now : Nat) {i t : Nat} (hr : RunsOn j i t) :
    RunsOn (j.submit C r now) i t := by
  obtain ⟨A, hA⟩ := h.inv
  obtain ⟨q, id, e, hrun, rfl⟩ := hr
  refine ⟨q, id, e, hrun, ?_⟩
  exact hA.submit_ticket h.2 r now ((KV.mem_keys_iff _ _).2 ⟨_, (hA.held _ _ _ _ hrun).1⟩)

theorem not_running_of_down {j : Jobs.Sys} (h : Jobs.Reach C poison j) (hu : j.up = false) (i t : Nat) : ¬ RunsOn j i t := by
  rintro ⟨q, id, e, hrun, -⟩
  unfold Jobs.Sys.Runs at hrun
  rw [down_workers h hu] at hrun
  cases hrun

theorem Begun.step {w : Who} (h : Step C poison w s s') (hb : Begun s) (hi : SI s) (hr : Jobs.Reach C poison s.jobs)
    (hr' : Jobs.Reach C poison s'.jobs) (hc : s'.crashed = false) : Begun s' := by
  cases h with
  | submit r now ho =>
    refine ⟨hb.nodup, fun t ht => ?_⟩
    rcases hb.where_ t ht with h | ⟨i, h⟩
    · exact .inl h
    · exact .inr ⟨i, RunsOn.submit hr r now h⟩
  | @poll _ i g q now hg hf hgo hid hn ho =>
    have hup : s.jobs.up = true := hi.up.2 (by intro e; rw [e] at ho; cases ho)
    obtain ⟨A, hA⟩ := hr.inv
    cases hff : firstFree (A.q q) with
    | none =>
      have e := Sys.claim_none hA (i := i) now hff
      have : took s.jobs (s.jobs.claim C i q now) i = [] := by
        unfold took
        rw [e, show s.jobs.workers[i]? = _ from hid]
      refine ⟨by simp only [this]; exact hb.nodup, fun t ht => ?_⟩
      simp only [this, List.nil_append] at ht
      simp only [e]
      exact hb.where_ t ht
    | some x =>
      obtain ⟨id, e⟩ := x
      have hfs := firstFree_some (hA.rel.qWF q) hff
      have hcl := Sys.claim_some hA hr.2 (i := i) now hff
      have hlt : i < s.jobs.workers.length := (List.getElem?_eq_some_iff.1 hid).1
      have htook : took s.jobs (s.jobs.claim C i q now) i = [s.jobs.ticket q id] := by
        unfold took
        rw [hcl]
        simp only [List.getElem?_set_self hlt]
        rw [show s.jobs.workers[i]? = _ from hid]
      have hnew : RunsOn (s.jobs.claim C i q now) i (s.jobs.ticket q id) := by
        rw [hcl]
        exact ⟨q, id, claimedAt e now, (runs_set ⟨_, hid⟩).2 (.inl ⟨rfl, rfl⟩), rfl⟩
      have hkeep : ∀ k t, RunsOn s.jobs k t → RunsOn (s.jobs.claim C i q now) k t := by
        rintro k t ⟨q', id', e', hrun, rfl⟩
        rw [hcl]
        refine ⟨q', id', e', (runs_set ⟨_, hid⟩).2 (.inr ⟨?_, hrun⟩), rfl⟩
        rintro rfl
        unfold Jobs.Sys.Runs at hrun; unfold Jobs.Sys.Idle at hid
        rw [hrun] at hid; cases hid
      have hfresh : s.jobs.ticket q id ∉ s.begun := by
        intro hm
        rcases hb.where_ _ hm with hd | hrun
        · exact (mem_pending.1 (hA.tick_mem hfs.2.2)).2 hd
        · have := (hA.runsOn_iff hup hfs.1).2 hrun
          rw [hfs.2.1] at this; cases this
      refine ⟨?_, fun t ht => ?_⟩
      · simp only [htook]
        exact List.nodup_cons.2 ⟨hfresh, hb.nodup⟩
      · simp only [htook] at ht
        rcases List.mem_cons.1 ht with rfl | ht
        · exact .inr ⟨i, hnew⟩
        · rcases hb.where_ t ht with hd | ⟨k, hk⟩
          · exact .inl hd
          · exact .inr ⟨k, hkeep k t hk⟩
  | @finish _ i q id j now oc hrun hp ho =>
    refine ⟨hb.nodup, fun t ht => ?_⟩
    rcases hb.where_ t ht with h | ⟨k, q', id', j', hk, rfl⟩
    · exact .inl (List.mem_cons_of_mem _ h)
    · by_cases e : k = i
      · subst e
        unfold Jobs.Sys.Runs at hrun hk
        rw [hrun] at hk; cases hk
        exact .inl List.mem_cons_self
      · refine .inr ⟨k, q', id', j', ?_, rfl⟩
        show (s.jobs.workers.set i _)[k]? = _
        rw [List.getElem?_set_ne (Ne.symm e)]; exact hk
  | end_ hp =>
    refine ⟨hb.nodup, fun t ht => ?_⟩
    rcases hb.where_ t ht with h | ⟨k, q', id', j', hk, rfl⟩
    · exact .inl h
    · exact absurd hk (hi.quiet hr (by rw [hp]; rfl) _ _ _ _)
  | crash => cases hc
  | crashLate => cases hc
  | bootFails => cases hc
  | boot n hp hu =>
    refine ⟨hb.nodup, fun t ht => ?_⟩
    have hd : s.jobs.up = false := by
      cases hu : s.jobs.up with
      | false => rfl
      | true => exact absurd hp (hi.up.1 hu)
    rcases hb.where_ t ht with h | ⟨k, hk⟩
    · refine .inl ?_
      show t ∈ (s.jobs.boot C n).done
      unfold Jobs.Sys.boot
      cases h' : (setup C s.jobs.raw).res <;> simp only [h'] <;> exact h
    · exact absurd hk (not_running_of_down hr hd k t)
  | _ => exact ⟨hb.nodup, hb.where_⟩

theorem Step.crashed {w : Who} (h : Step C poison w s s') (hc : s'.crashed = false) : s.crashed = false := by
  cases h <;> first | exact hc | cases hc

theorem Steps.begun (h : Steps C poison Sys.init s) (hN : s.jobs.reqs.length < 2 ^ 62) (hc : s.crashed = false) : Begun s := by
  induction h with
  | refl => exact ⟨List.nodup_nil, by intro t ht; cases ht⟩
  | tail h1 hs ih =>
    have hle := hs.reqs_le
    have h0 := h1.inv (by omega)
    exact (ih (by omega) (hs.crashed hc)).step hs h0.1 h0.2 ((h1.tail hs).inv hN).2 hc

/-- C92: a daemon that is only ever stopped in an orderly way begins no job twice, over any number of restarts; and whenever it
is down, every job it began has been executed to its end. -/
theorem C92_begun_once (h : Reach C poison s) (hc : s.crashed = false) :
    s.begun.Nodup ∧ (s.phase = .down → ∀ t ∈ s.begun, t ∈ s.jobs.done) := by
  have hb := h.1.begun h.2 hc
  refine ⟨hb.nodup, fun hp t ht => ?_⟩
  rcases hb.where_ t ht with hd | ⟨i, q, id, j, hk, -⟩
  · exact hd
  · exact absurd hk (h.si.quiet h.jobs (by rw [hp]; rfl) _ _ _ _)

/-! ## C93: what is accepted is queued -/

/-- Every request that was answered without an error has become a job, in that order, and every job is queued or has been
executed to its end. -/
def AcceptedIsQueued (C : Codec) (s : Sys) : Prop :=
  s.accepted.Sublist s.jobs.reqs ∧ ∀ t < s.jobs.reqs.length, Queued C s.jobs t ∨ t ∈ s.jobs.done

/-- C93 in full: whatever the schedule. -/
def C93_statement : Prop := ∀ (C : Codec) (s : Sys), Reach C (fun _ _ => False) s → AcceptedIsQueued C s

theorem step_down_reqs {j j' : Jobs.Sys} (h : Jobs.Step C poison j j') (hu : j'.up = false) : j'.reqs = j.reqs := by
  cases h with
  | submit r now hup => exact absurd (show j.up = false from hu) (by rw [hup]; simp)
  | claim now hup _ _ => rfl
  | finish => rfl
  | reset => rfl
  | kill => rfl
  | killRetire => rfl
  | killReset => rfl
  | boot n _ => exact boot_reqs
  | killBoot => rfl

theorem Steps.accepted (h : Steps C poison Sys.init s) (hl : s.late = false) : s.accepted = s.jobs.reqs := by
  induction h with
  | refl => rfl
  | @tail s1 s2 w h1 hs ih =>
    have h0 : s1.late = false := by cases hs <;> first | exact hl | cases hl
    have ih := ih h0
    cases hs with
    | submit r now ho => show s1.accepted ++ [r] = (s1.jobs.submit C r now).reqs; rw [ih]; rfl
    | submitLate => cases hl
    | crash _ hj hu => exact ih.trans (step_down_reqs hj hu).symm
    | bootFails _ hj hu => exact ih.trans (step_down_reqs hj hu).symm
    | boot n _ _ => exact ih.trans (boot_reqs).symm
    | _ => exact ih

/-- C93, the part that holds: unless a request is answered in the short time between the closing of the job database and the
end of `JobStore.Close`, every accepted request is a job, queued or executed.  Missing: that window (`C93_violated`). -/
theorem C93_accepted_partial (h : Reach C poison s) (hl : s.late = false) : AcceptedIsQueued C s := by
  refine ⟨by rw [h.1.accepted hl], fun t ht => ?_⟩
  rcases C38_queued_or_done h.jobs t ht with h | h
  · exact .inl h.1
  · exact .inr h.2

/-! ## C94: an orderly end comes to an end -/

/-- A schedule from the signal on: at each moment nothing happens or a client, a worker or the closing goroutine makes a step;
the process is not killed. -/
def Schedule (C : Codec) (poison : Str → List Str → Prop) (f : Nat → Sys) (l : Nat → Option Who) : Prop :=
  ∀ n, match l n with
    | none => f (n + 1) = f n
    | some w => w ≠ .world ∧ Step C poison w (f n) (f (n + 1))

/-- Fairness: if the closing goroutine (a worker) can make a step, then it (some worker) will make one. -/
def Fair (C : Codec) (poison : Str → List Str → Prop) (f : Nat → Sys) (l : Nat → Option Who) : Prop :=
  (∀ n, (∃ s', Step C poison .closer (f n) s') → ∃ m ≥ n, l m = some .closer) ∧
  (∀ n, (∃ s', Step C poison .worker (f n) s') → ∃ m ≥ n, l m = some .worker)

/-- How many steps the closing goroutine has before it. -/
def rank (s : Sys) : Nat :=
  match s.phase with
  | .down => 0
  | .managerClosed => 1
  | .storeClosed => 2
  | .dbClosed => 3
  | .waiting => 4
  | .stopping k => 5 + (s.gor.length - k)
  | .unwatched => 6 + s.gor.length
  | .unlocked => 7 + s.gor.length
  | .serving => 8 + s.gor.length

def running (w : Worker) : Bool := w.job.isSome

/-- What the workers still have to do. -/
def todo (s : Sys) : Nat :=
  s.gor.countP (fun g => !g.gone) + 2 * s.gor.countP (fun g => g.fired) + s.jobs.workers.countP running

theorem countP_set' {α : Type} (p : α → Bool) (l : List α) {i : Nat} {a b : α} (h : l[i]? = some a) :
    (l.set i b).countP p + (if p a then 1 else 0) = l.countP p + (if p b then 1 else 0) := by
  induction l generalizing i with
  | nil => cases h
  | cons x l ih =>
    cases i with
    | zero =>
      cases h
      simp only [List.set_cons_zero, List.countP_cons]
      omega
    | succ i =>
      have := ih (i := i) h
      simp only [List.set_cons_succ, List.countP_cons]
      omega

theorem rank_waiting (h : rank s = 4) : s.phase = .waiting := by
  unfold rank at h
  split at h <;> first | assumption | omega

theorem Step.rank_closer (h : Step C poison .closer s s') : rank s' < rank s := by
  cases h with
  | stopWatching hp => simp [rank, hp]
  | beginStop hp => simp [rank, hp]
  | @tell _ k g hp hg =>
    have : k < s.gor.length := (List.getElem?_eq_some_iff.1 hg).1
    simp [rank, hp]; omega
  | allTold hp hle => simp [rank, hp]; omega
  | closeDb hp _ => simp [rank, hp]
  | closeStore hp => simp [rank, hp]
  | closeManager hp => simp [rank, hp]
  | end_ hp => simp [rank, hp]

theorem Step.rank_other {w : Who} (h : Step C poison w s s') (hw : w = .client ∨ w = .worker) : rank s' = rank s := by
  cases h <;> first | (rcases hw with e | e <;> cases e; done) | simp [rank]

theorem Step.phase_client (h : Step C poison .client s s') : todo s' = todo s := by
  cases h <;> rfl

theorem Step.todo_worker (h : Step C poison .worker s s') (hr : Jobs.Reach C poison s.jobs) (hi : SI s)
    (hp : s.phase = .waiting) : todo s' < todo s := by
  cases h with
  | tick hg ht _ _ => rw [hi.toldAll hp _ (List.mem_of_getElem? hg)] at ht; cases ht
  | @poll _ i g q now hg hf hgo hid hn ho =>
    obtain ⟨gf, gt, gg⟩ := g
    simp only at hf hgo
    subst hf hgo
    have h1 := countP_set' (fun g : Gor => !g.gone) s.gor (b := ⟨false, gt, false⟩) hg
    have h2 := countP_set' (fun g : Gor => g.fired) s.gor (b := ⟨false, gt, false⟩) hg
    have h3 : (s.jobs.claim C i q now).workers.countP running ≤ s.jobs.workers.countP running + 1 := by
      rcases claim_workers hr (i := i) (q := q) now with e | ⟨id, e, _, hw⟩
      · rw [e]; omega
      · rw [hw]
        have := countP_set' running s.jobs.workers (b := ⟨q, some (id, claimedAt e now)⟩) hid
        simp [running] at this
        omega
    simp only [if_pos, Bool.not_false, Bool.false_eq_true, if_false] at h1 h2
    simp only [todo]
    omega
  | @finish _ i q id j now oc hrun _ _ =>
    have := countP_set' running s.jobs.workers (b := ⟨q, none⟩) hrun
    rw [show running ⟨q, some (id, j)⟩ = true from rfl, show running ⟨q, none⟩ = false from rfl] at this
    simp only [Bool.false_eq_true, if_true, if_false] at this
    simp only [todo]
    show _ + (s.jobs.workers.set i ⟨q, none⟩).countP running < _
    omega
  | @exit _ i g q hg ht hgo hid =>
    obtain ⟨gf, gt, gg⟩ := g
    simp only at ht hgo
    subst ht hgo
    have h1 := countP_set' (fun g : Gor => !g.gone) s.gor (b := ⟨gf, true, true⟩) hg
    have h2 := countP_set' (fun g : Gor => g.fired) s.gor (b := ⟨gf, true, true⟩) hg
    simp only [Bool.not_false, Bool.not_true, Bool.false_eq_true, if_true, if_false] at h1
    dsimp only at h2
    simp only [todo]
    omega

theorem Schedule.reach {f : Nat → Sys} {l : Nat → Option Who} (hs : Schedule C poison f l) (h0 : Steps C poison Sys.init (f 0))
    (n : Nat) : Steps C poison Sys.init (f n) := by
  induction n with
  | zero => exact h0
  | succ n ih =>
    have := hs n
    cases hl : l n with
    | none => rw [hl] at this; rw [this]; exact ih
    | some w => rw [hl] at this; exact ih.tail this.2

theorem Schedule.rank_step {f : Nat → Sys} {l : Nat → Option Who} (hs : Schedule C poison f l) (n : Nat) :
    rank (f (n + 1)) ≤ rank (f n) := by
  have := hs n
  cases hl : l n with
  | none => rw [hl] at this; rw [this]; exact Nat.le_refl _
  | some w =>
    rw [hl] at this
    cases w with
    | client => exact Nat.le_of_eq (this.2.rank_other (.inl rfl))
    | worker => exact Nat.le_of_eq (this.2.rank_other (.inr rfl))
    | closer => exact Nat.le_of_lt this.2.rank_closer
    | world => exact absurd rfl this.1

theorem Schedule.rank_mono {f : Nat → Sys} {l : Nat → Option Who} (hs : Schedule C poison f l) {n m : Nat} (h : n ≤ m) :
    rank (f m) ≤ rank (f n) := by
  induction h with
  | refl => exact Nat.le_refl _
  | step _ ih => exact Nat.le_trans (hs.rank_step _) ih

/-- In the waiting phase with a worker left, some worker can make a step. -/
theorem worker_enabled (hi : SI s) (hp : s.phase = .waiting) (hng : ¬ ∀ g ∈ s.gor, g.gone = true)
    (hpo : ∀ i q id j, s.jobs.Runs i q id j → ¬ poison j.type j.params) : ∃ s', Step C poison .worker s s' := by
  have : ∃ g ∈ s.gor, g.gone = false := by
    by_contra hc
    apply hng
    intro g hg
    cases e : g.gone with
    | true => rfl
    | false => exact absurd ⟨g, hg, e⟩ hc
  obtain ⟨g, hg, hgo⟩ := this
  obtain ⟨i, hi'⟩ := List.getElem?_of_mem hg
  have hlt : i < s.jobs.workers.length := by rw [← hi.len]; exact (List.getElem?_eq_some_iff.1 hi').1
  obtain ⟨⟨q, job⟩, hw⟩ : ∃ w, s.jobs.workers[i]? = some w := ⟨_, List.getElem?_eq_getElem hlt⟩
  cases job with
  | none => exact ⟨_, .exit hi' (hi.toldAll hp g hg) hgo hw⟩
  | some x =>
    obtain ⟨id, j⟩ := x
    exact ⟨_, .finish 0 none hw (hpo i q id j hw) (by rw [hp]; rfl)⟩

/-- Unless the daemon is up without a signal, or down, or waiting for workers, the closing goroutine can go on. -/
theorem closer_enabled (h1 : s.phase ≠ .serving) (h2 : s.phase ≠ .down)
    (h3 : s.phase = .waiting → ∀ g ∈ s.gor, g.gone = true) : ∃ s', Step C poison .closer s s' := by
  cases hp : s.phase with
  | down => exact absurd hp h2
  | serving => exact absurd hp h1
  | unlocked => exact ⟨_, .stopWatching hp⟩
  | unwatched => exact ⟨_, .beginStop hp⟩
  | stopping k =>
    by_cases hk : k < s.gor.length
    · exact ⟨_, .tell hp (List.getElem?_eq_getElem hk)⟩
    · exact ⟨_, .allTold hp (by omega)⟩
  | waiting => exact ⟨_, .closeDb hp (h3 hp)⟩
  | dbClosed => exact ⟨_, .closeStore hp⟩
  | storeClosed => exact ⟨_, .closeManager hp⟩
  | managerClosed => exact ⟨_, .end_ hp⟩

/-- C94: an orderly end is never stuck: until the process is gone, the closing goroutine or a worker can make a step. -/
theorem C94_never_stuck (h : Reach C poison s) (hstop : s.phase ≠ .serving) (hup : s.phase ≠ .down)
    (hpo : ∀ i q id j, s.jobs.Runs i q id j → ¬ poison j.type j.params) :
    (∃ s', Step C poison .closer s s') ∨ ∃ s', Step C poison .worker s s' := by
  by_cases hw : s.phase = .waiting → ∀ g ∈ s.gor, g.gone = true
  · exact .inl (closer_enabled hstop hup hw)
  · simp only [Classical.not_imp] at hw
    exact .inr (worker_enabled h.si hw.1 hw.2 hpo)

/-- C94: after the signal the daemon ends, under every fair schedule in which the jobs being executed come to an end:
clients may go on submitting as they like. -/
theorem C94_stop_ends {f : Nat → Sys} {l : Nat → Option Who} (hs : Schedule C poison f l) (hfair : Fair C poison f l)
    (h0 : Steps C poison Sys.init (f 0)) (hN : ∀ n, (f n).jobs.reqs.length < 2 ^ 62) (hstop : (f 0).phase ≠ .serving)
    (hpo : ∀ n i q id j, (f n).jobs.Runs i q id j → ¬ poison j.type j.params) : ∃ n, (f n).phase = .down := by
  have hreach : ∀ n, Reach C poison (f n) := fun n => ⟨hs.reach h0 n, hN n⟩
  -- no way back to serving
  have hnot : ∀ n, (f n).phase ≠ .serving := by
    intro n
    induction n with
    | zero => exact hstop
    | succ n ih =>
      have := hs n
      cases hl : l n with
      | none => rw [hl] at this; rw [this]; exact ih
      | some w =>
        rw [hl] at this
        obtain ⟨hw, st⟩ := this
        generalize f (n + 1) = b at st
        generalize f n = a at st ih
        cases st <;> first | exact ih | exact absurd rfl hw | simp
  have down0 : ∀ n, rank (f n) = 0 → (f n).phase = .down := by
    intro n h
    unfold rank at h
    split at h <;> first | assumption | omega
  -- the waiting phase is left
  have wait : ∀ u n, (f n).phase = .waiting → todo (f n) ≤ u → ∃ m ≥ n, rank (f m) < 4 := by
    have mono : ∀ n m, n ≤ m → rank (f m) = 4 → (f n).phase = .waiting → todo (f m) ≤ todo (f n) := by
      intro n m hnm
      induction hnm with
      | refl => intro _ _; exact Nat.le_refl _
      | @step m hnm ih =>
        intro h4 hp
        change rank (f (m + 1)) = 4 at h4
        change todo (f (m + 1)) ≤ _
        have hm4 : rank (f m) = 4 := by
          have a := hs.rank_mono hnm
          have b := hs.rank_step m
          have : rank (f n) = 4 := by unfold rank; rw [hp]
          omega
        refine Nat.le_trans ?_ (ih hm4 hp)
        have := hs m
        cases hl : l m with
        | none => rw [hl] at this; rw [this]; exact Nat.le_refl _
        | some w =>
          rw [hl] at this
          cases w with
          | client => exact Nat.le_of_eq this.2.phase_client
          | worker => exact Nat.le_of_lt (this.2.todo_worker (hreach m).jobs (hreach m).si (rank_waiting hm4))
          | closer => have := this.2.rank_closer; omega
          | world => exact absurd rfl this.1
    intro u
    induction u with
    | zero =>
      intro n hp hu
      by_cases hall : ∀ g ∈ (f n).gor, g.gone = true
      · obtain ⟨m, hm, hl⟩ := hfair.1 n (closer_enabled (hnot n) (by rw [hp]; simp) (fun _ => hall))
        have a := hs.rank_mono hm
        have st := hs m
        rw [hl] at st
        have b := st.2.rank_closer
        exact ⟨m + 1, by omega, by have : rank (f n) = 4 := by { unfold rank; rw [hp] }
                                   omega⟩
      · obtain ⟨s', hs'⟩ := worker_enabled (C := C) (hreach n).si hp hall (hpo n)
        have := hs'.todo_worker (hreach n).jobs (hreach n).si hp
        omega
    | succ u ih =>
      intro n hp hu
      have hr4 : rank (f n) = 4 := by unfold rank; rw [hp]
      by_cases hall : ∀ g ∈ (f n).gor, g.gone = true
      · obtain ⟨m, hm, hl⟩ := hfair.1 n (closer_enabled (hnot n) (by rw [hp]; simp) (fun _ => hall))
        have a := hs.rank_mono hm
        have st := hs m
        rw [hl] at st
        have b := st.2.rank_closer
        exact ⟨m + 1, by omega, by omega⟩
      · obtain ⟨m, hm, hl⟩ := hfair.2 n (worker_enabled (hreach n).si hp hall (hpo n))
        have a := hs.rank_mono hm
        by_cases h4 : rank (f m) = 4
        · have st := hs m
          rw [hl] at st
          have d := st.2.todo_worker (hreach m).jobs (hreach m).si (rank_waiting h4)
          have e := mono n m hm h4 hp
          have r' := st.2.rank_other (.inr rfl)
          obtain ⟨m', hm', hr'⟩ := ih (m + 1) (rank_waiting (by omega)) (by omega)
          exact ⟨m', by omega, hr'⟩
        · exact ⟨m, hm, by omega⟩
  have main : ∀ k n, rank (f n) ≤ k → ∃ m, (f m).phase = .down := by
    intro k
    induction k with
    | zero => intro n h; exact ⟨n, down0 n (by omega)⟩
    | succ k ih =>
      intro n h
      by_cases hd : (f n).phase = .down
      · exact ⟨n, hd⟩
      by_cases hp : (f n).phase = .waiting
      · obtain ⟨m, _, hm⟩ := wait _ n hp (Nat.le_refl _)
        have : rank (f n) = 4 := by unfold rank; rw [hp]
        exact ih m (by omega)
      · obtain ⟨m, hm, hl⟩ := hfair.1 n (closer_enabled (hnot n) hd (fun h => absurd h hp))
        have a := hs.rank_mono hm
        have st := hs m
        rw [hl] at st
        have b := st.2.rank_closer
        exact ih (m + 1) (by omega)
  exact main _ 0 (Nat.le_refl _)

/-! ## C95: the lock outlasts the work -/

/-- C95 in full: as long as the daemon executes a job, it holds the lock. -/
def C95_statement : Prop := ∀ (C : Codec) (s : Sys), Reach C (fun _ _ => False) s → ∀ i t, RunsOn s.jobs i t → s.locked = true

/-- C95, the part that holds: until it is told to stop.  Missing: the time from the signal until the last job is finished
(`C95_violated`). -/
theorem C95_lock_held_partial (h : Reach C poison s) (hp : s.phase = .serving) : s.locked = true := h.si.locked hp

/-! ## A run of the daemon -/

namespace Demo
open Jobs.Demo

/-- the daemon starts with one background worker -/
def u0 : Sys := { Sys.init with
  jobs := Sys.init.jobs.boot demoCodec 1, gor := List.replicate 2 Gor.new, phase := .serving, locked := true }
def u1 : Sys := { u0 with jobs := u0.jobs.submit demoCodec j0 5, accepted := u0.accepted ++ [j0] }
def u2 : Sys := { u1 with gor := u1.gor.set 0 { Gor.new with fired := true } }
/-- worker 0 executes the job -/
def u3 : Sys :=
  { u2 with
    jobs := u2.jobs.claim demoCodec 0 .seq 8
    gor := u2.gor.set 0 { (⟨true, false, false⟩ : Gor) with fired := false }
    begun := took u2.jobs (u2.jobs.claim demoCodec 0 .seq 8) 0 ++ u2.begun }
/-- the signal, while the job is being executed -/
def u4 : Sys := { u3 with phase := .unlocked, locked := false }
def u5 : Sys := { u4 with phase := .unwatched }
def u6 : Sys := { u5 with phase := .stopping 0 }
def u7 : Sys := { u6 with phase := .stopping 1, gor := u6.gor.set 0 { Gor.new with told := true } }
def u8 : Sys := { u7 with phase := .stopping 2, gor := u7.gor.set 1 { Gor.new with told := true } }
def u9 : Sys := { u8 with phase := .waiting }
/-- the worker finishes its job -/
def u10 : Sys := { u9 with jobs := u9.jobs.finish demoCodec 0 .seq id0 claimed0 10 none }
def u11 : Sys := { u10 with gor := u10.gor.set 0 { (⟨false, true, false⟩ : Gor) with gone := true } }
def u12 : Sys := { u11 with gor := u11.gor.set 1 { (⟨false, true, false⟩ : Gor) with gone := true } }
def u13 : Sys := { u12 with phase := .dbClosed }
def u14 : Sys := { u13 with phase := .storeClosed }
def u15 : Sys := { u14 with phase := .managerClosed }
def u16 : Sys := { u15 with jobs := u15.jobs.kill, gor := [], phase := .down }
/-- a request in the window -/
def v14 : Sys := { u13 with accepted := u13.accepted ++ [j2], late := true }

variable {poison : Str → List Str → Prop}

theorem s0 : Step demoCodec poison .world Sys.init u0 := .boot 1 rfl (by decide +kernel)
theorem s1 : Step demoCodec poison .client u0 u1 := .submit _ _ rfl
theorem s2 : Step demoCodec poison .worker u1 u2 :=
  .tick (i := 0) (g := Gor.new) (q := .seq) rfl rfl rfl (by unfold Jobs.Sys.Idle; decide +kernel)
theorem s3 : Step demoCodec poison .worker u2 u3 :=
  .poll (i := 0) (g := ⟨true, false, false⟩) (q := .seq) 8 (by decide +kernel) rfl rfl
    (by unfold Jobs.Sys.Idle; decide +kernel) (by decide) rfl
theorem s4 : Step demoCodec poison .world u3 u4 := .signal rfl
theorem s5 : Step demoCodec poison .closer u4 u5 := .stopWatching rfl
theorem s6 : Step demoCodec poison .closer u5 u6 := .beginStop rfl
theorem s7 : Step demoCodec poison .closer u6 u7 := .tell (k := 0) (g := Gor.new) rfl (by decide +kernel)
theorem s8 : Step demoCodec poison .closer u7 u8 := .tell (k := 1) (g := Gor.new) rfl (by decide +kernel)
theorem s9 : Step demoCodec poison .closer u8 u9 := .allTold (k := 2) rfl (by decide +kernel)
theorem runs9 : u9.jobs.Runs 0 .seq id0 claimed0 := by unfold Jobs.Sys.Runs; decide +kernel
theorem s10 (h : ¬ poison j0.type j0.params) : Step demoCodec poison .worker u9 u10 := .finish 10 none runs9 h rfl
theorem s11 : Step demoCodec poison .worker u10 u11 :=
  .exit (i := 0) (g := ⟨false, true, false⟩) (q := .seq) (by decide +kernel) rfl rfl (by unfold Jobs.Sys.Idle; decide +kernel)
theorem s12 : Step demoCodec poison .worker u11 u12 :=
  .exit (i := 1) (g := ⟨false, true, false⟩) (q := .async) (by decide +kernel) rfl rfl (by unfold Jobs.Sys.Idle; decide +kernel)
theorem s13 : Step demoCodec poison .closer u12 u13 := .closeDb rfl (by decide +kernel)
theorem s14 : Step demoCodec poison .closer u13 u14 := .closeStore rfl
theorem s15 : Step demoCodec poison .closer u14 u15 := .closeManager rfl
theorem s16 : Step demoCodec poison .closer u15 u16 := .end_ rfl
theorem late : Step demoCodec poison .client u13 v14 := .submitLate _ rfl

theorem t4 : Steps demoCodec poison Sys.init u4 := ((((Steps.refl.tail s0).tail s1).tail s2).tail s3).tail s4
theorem t9 : Steps demoCodec poison Sys.init u9 := ((((t4.tail s5).tail s6).tail s7).tail s8).tail s9
theorem t13 : Steps demoCodec noPoison Sys.init u13 := (((t9.tail (s10 id)).tail s11).tail s12).tail s13
theorem t16 : Steps demoCodec noPoison Sys.init u16 := ((t13.tail s14).tail s15).tail s16
theorem r4 : Reach demoCodec poison u4 := ⟨t4, by decide +kernel⟩
theorem r9 : Reach demoCodec poison u9 := ⟨t9, by decide +kernel⟩
theorem r13 : Reach demoCodec noPoison u13 := ⟨t13, by decide +kernel⟩
theorem r16 : Reach demoCodec noPoison u16 := ⟨t16, by decide +kernel⟩
theorem rlate : Reach demoCodec noPoison v14 := ⟨t13.tail late, by decide +kernel⟩
theorem runs4 : RunsOn u4.jobs 0 0 := ⟨.seq, id0, claimed0, by unfold Jobs.Sys.Runs; decide +kernel, by decide +kernel⟩

/-- the end of the daemon, from the signal on -/
def f : Nat → Sys
  | 0 => u4 | 1 => u5 | 2 => u6 | 3 => u7 | 4 => u8 | 5 => u9 | 6 => u10 | 7 => u11 | 8 => u12 | 9 => u13 | 10 => u14
  | 11 => u15 | _ => u16

def l : Nat → Option Who
  | 0 | 1 | 2 | 3 | 4 => some .closer
  | 5 | 6 | 7 => some .worker
  | 8 | 9 | 10 | 11 => some .closer
  | _ => none

theorem schedule : Schedule demoCodec noPoison f l := by
  intro n
  match n with
  | 0 => exact ⟨by simp, s5⟩
  | 1 => exact ⟨by simp, s6⟩
  | 2 => exact ⟨by simp, s7⟩
  | 3 => exact ⟨by simp, s8⟩
  | 4 => exact ⟨by simp, s9⟩
  | 5 => exact ⟨by simp, s10 id⟩
  | 6 => exact ⟨by simp, s11⟩
  | 7 => exact ⟨by simp, s12⟩
  | 8 => exact ⟨by simp, s13⟩
  | 9 => exact ⟨by simp, s14⟩
  | 10 => exact ⟨by simp, s15⟩
  | 11 => exact ⟨by simp, s16⟩
  | n + 12 => exact rfl

theorem end_closer {s' : Sys} : ¬ Step demoCodec noPoison .closer u16 s' := by
  have hp : u16.phase = .down := rfl
  have hg : u16.gor = [] := rfl
  intro h
  generalize u16 = s at *
  cases h <;> simp_all

theorem end_worker {s' : Sys} : ¬ Step demoCodec noPoison .worker u16 s' := by
  have hp : u16.phase = .down := rfl
  have hg : u16.gor = [] := rfl
  intro h
  generalize u16 = s at *
  cases h <;> simp_all [Phase.dbOpen]

theorem fair : Fair demoCodec noPoison f l := by
  constructor
  · intro n h
    match n with
    | 0 | 1 | 2 | 3 | 4 | 5 | 6 | 7 | 8 | 9 | 10 | 11 => exact ⟨11, by omega, rfl⟩
    | n + 12 => exact absurd h.choose_spec end_closer
  · intro n h
    match n with
    | 0 | 1 | 2 | 3 | 4 | 5 | 6 | 7 => exact ⟨7, by omega, rfl⟩
    | 8 => exact absurd h.choose_spec (allGone rfl rfl)
    | 9 => exact absurd h.choose_spec (allGone rfl rfl)
    | 10 => exact absurd h.choose_spec (allGone rfl rfl)
    | 11 => exact absurd h.choose_spec (allGone rfl rfl)
    | n + 12 => exact absurd h.choose_spec end_worker
where
  allGone {s s' : Sys} (hg : s.gor = [⟨false, true, true⟩, ⟨false, true, true⟩])
      (hw : s.jobs.workers = [⟨.seq, none⟩, ⟨.async, none⟩]) : ¬ Step demoCodec noPoison .worker s s' := by
    intro h
    have hall : ∀ (i : Nat) (g : Gor), s.gor[i]? = some g → g.gone = true := by
      intro i g h
      rw [hg] at h
      match i, h with
      | 0, h => cases h; rfl
      | 1, h => cases h; rfl
    have hidle : ∀ i q id j, ¬ s.jobs.Runs i q id j := by
      intro i q id j h
      unfold Jobs.Sys.Runs at h
      rw [hw] at h
      match i, h with
      | 0, h => cases h
      | 1, h => cases h
    cases h with
    | tick hg _ hn _ => rw [hall _ _ hg] at hn; cases hn
    | poll _ hg _ hn _ => rw [hall _ _ hg] at hn; cases hn
    | finish _ _ hr _ _ => exact hidle _ _ _ _ hr
    | exit hg _ hn _ => rw [hall _ _ hg] at hn; cases hn

end Demo

/-- C92: the hypotheses are met: the signal arrives while a job is executed; it is executed to its end. -/
example : Reach demoCodec Jobs.Demo.noPoison Demo.u4 ∧ RunsOn Demo.u4.jobs 0 0 ∧ Demo.u4.phase = .unlocked ∧
    Reach demoCodec Jobs.Demo.noPoison Demo.u13 ∧ Demo.u13.phase = .dbClosed ∧
    Reach demoCodec Jobs.Demo.noPoison Demo.u16 ∧ Demo.u16.crashed = false ∧ Demo.u16.phase = .down ∧ Demo.u16.begun = [0] ∧
    Demo.u16.jobs.done = [0] :=
  ⟨Demo.r4, Demo.runs4, rfl, Demo.r13, rfl, Demo.r16, rfl, rfl, by decide +kernel, by decide +kernel⟩

/-- It is not so: a request answered between the closing of the database and the end of `JobStore.Close` is lost. -/
theorem C93_violated : ¬ C93_statement := by
  intro h
  have := (h demoCodec Demo.v14 Demo.rlate).1.length_le
  revert this
  decide +kernel

/-- C93: the hypotheses are met. -/
example : Reach demoCodec Jobs.Demo.noPoison Demo.u9 ∧ Demo.u9.late = false ∧ Demo.u9.accepted = [Jobs.Demo.j0] :=
  ⟨Demo.r9, rfl, rfl⟩

/-- C94: the hypotheses are met by a fair schedule that starts while a job is executed. -/
example : Schedule demoCodec Jobs.Demo.noPoison Demo.f Demo.l ∧ Fair demoCodec Jobs.Demo.noPoison Demo.f Demo.l ∧
    Steps demoCodec Jobs.Demo.noPoison Sys.init (Demo.f 0) ∧ (Demo.f 0).phase ≠ .serving ∧ RunsOn (Demo.f 0).jobs 0 0 :=
  ⟨Demo.schedule, Demo.fair, Demo.t4, (by intro h; cases h), Demo.runs4⟩

/-- It is not so: `Close` gives up the lock first and waits for the workers later (server.go:233-239). -/
theorem C95_violated : ¬ C95_statement := by
  intro h
  have := h demoCodec Demo.u4 Demo.r4 0 0 Demo.runs4
  cases this

/-- C95: the hypothesis is met while a job is executed. -/
example : Reach demoCodec Jobs.Demo.noPoison Demo.u3 ∧ Demo.u3.phase = .serving ∧ RunsOn Demo.u3.jobs 0 0 :=
  ⟨⟨(((Steps.refl.tail Demo.s0).tail Demo.s1).tail Demo.s2).tail Demo.s3, by decide +kernel⟩, rfl, Demo.runs4⟩

end Ferryd.Shutdown
