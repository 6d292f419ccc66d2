import Verif.JobsInv
/-!
# JobsOrder: further invariants of the job system

Sequential jobs finish in the order of submission; a job that brings the process down never finishes; the
stored bytes and the abstract content.
-/
namespace Ferryd.Jobs
open Ferryd.Db

variable {C : Codec} {s : Sys} {A : AS} {poison : Str → List Str → Prop}

/-- The database holds job `j` under `id` in queue `q`. -/
def Stored (C : Codec) (s : Sys) (q : Queue) (id : Str) (j : JobEntry) : Prop :=
  s.raw.get (q.handle.realKey id) = some (C.encJ j)

theorem encJ_inj {a b : JobEntry} (h : C.encJ a = C.encJ b) : a = b := by
  have := C.lawJ a
  rw [h, C.lawJ] at this
  exact (Option.some.inj this).symm

theorem Rel.stored (h : Rel C s.raw A) (q : Queue) (id : Str) (j : JobEntry) :
    Stored C s q id j ↔ (A.q q).get id = some j := by
  unfold Stored
  rw [← view_get h.wf, h.q, KV.get_mapV, Option.map_eq_some_iff]
  constructor
  · rintro ⟨x, hx, e⟩
    rw [hx, encJ_inj e]
  · intro hj; exact ⟨j, hj, rfl⟩

theorem Steps.trans {s s' s'' : Sys} (h : Steps C poison s s') (h' : Steps C poison s' s'') :
    Steps C poison s s'' := by
  induction h' with
  | refl => exact h
  | tail _ hs ih => exact .tail ih hs

theorem Steps.reqs_le {s s' : Sys} (h : Steps C poison s s') : s.reqs.length ≤ s'.reqs.length := by
  induction h with
  | refl => exact Nat.le_refl _
  | tail _ hs ih => exact Nat.le_trans ih (Step.reqs_le hs)

theorem Reach.steps {s s' : Sys} (h : Reach C poison s) (hs : Steps C poison s s')
    (hN : s'.reqs.length < 2 ^ 62) : Reach C poison s' := ⟨h.1.trans hs, hN⟩

/-- Induction over reachable states with the store invariant at hand. -/
theorem Reach.induct {P : Sys → Prop} (h0 : P Sys.init)
    (hstep : ∀ s s' A, SInv C s A → s.reqs.length < 2 ^ 62 → P s → Step C poison s s' → P s')
    (h : Reach C poison s) : P s := by
  obtain ⟨h, hN⟩ := h
  induction h with
  | refl => exact h0
  | tail hss hs ih =>
    have hle := Step.reqs_le hs
    have hN' : _ < 2 ^ 62 := Nat.lt_of_le_of_lt hle hN
    obtain ⟨A, hA⟩ := Reach.inv (C := C) (poison := poison) ⟨hss, hN'⟩
    exact hstep _ _ A hA hN' (ih hN') hs

/-- The only worker of the sequential queue is the first one. -/
theorem SInv.seqWorker (h : SInv C s A) (hup : s.up = true) {i : Nat} {w : Worker} (hw : s.workers[i]? = some w)
    (hq : w.queue = .seq) : i = 0 := by
  obtain ⟨n, hn⟩ := h.shape hup
  cases i with
  | zero => rfl
  | succ i =>
    have : (s.workers.map Worker.queue)[i + 1]? = some .seq := by
      rw [List.getElem?_map, hw]; simp [hq]
    rw [hn, List.getElem?_cons_succ, List.getElem?_replicate] at this
    split at this <;> cases this

theorem SInv.seqWorker' (h : SInv C s A) (hup : s.up = true) : ∃ j, s.workers[0]? = some ⟨.seq, j⟩ := by
  obtain ⟨n, hn⟩ := h.shape hup
  cases hw : s.workers with
  | nil => rw [hw] at hn; simp at hn
  | cons w ws =>
    rw [hw] at hn
    simp only [List.map_cons, List.cons.injEq] at hn
    exact ⟨w.job, by simp [← hn.1]⟩

theorem firstFree_head {m : KV JobEntry} (h : ∀ id j, m.get id = some j → j.claimed = false) (hw : m.WF) :
    firstFree m = m.head? := by
  cases m with
  | nil => rfl
  | cons kv m =>
    obtain ⟨id, j⟩ := kv
    have := h id j (by unfold KV.get; simp)
    simp [firstFree, this]

/-- Jobs of the sequential queue are run in the order of submission, across crashes. -/
structure InOrder (s : Sys) : Prop where
  /-- the running one is the first pending one -/
  run : ∀ i id j, s.Runs i .seq id j → (pending s .seq).head? = some (s.ticket .seq id)
  /-- the finished ones come before the pending ones -/
  fin : ∀ t ∈ s.done, s.reqs[t]?.map Request.queue = some .seq → ∀ t' ∈ pending s .seq, t < t'

theorem pending_sorted (s : Sys) (q : Queue) : (pending s q).Pairwise (· < ·) :=
  List.pairwise_lt_range.filter _

theorem pending_done_eq {s s' : Sys} {q : Queue} {t0 : Nat} (hreqs : s'.reqs = s.reqs) (hdone : s'.done = t0 :: s.done) :
    pending s' q = (pending s q).filter (fun t => t ≠ t0) := by
  unfold pending
  rw [hreqs, hdone, List.filter_filter]
  apply List.filter_congr
  intro t _
  simp only [List.mem_cons, not_or, ne_eq, Bool.decide_and]
  cases hd : decide (t = t0) <;> simp_all

theorem head_lt {l : List Nat} {a : Nat} (hs : l.Pairwise (· < ·)) (h : l.head? = some a) {b : Nat} (hb : b ∈ l)
    (hne : b ≠ a) : a < b := by
  cases l with
  | nil => cases hb
  | cons x l =>
    simp only [List.head?_cons, Option.some.injEq] at h
    subst h
    rcases List.mem_cons.1 hb with rfl | hb
    · exact absurd rfl hne
    · exact (List.pairwise_cons.1 hs).1 b hb

theorem InOrder.finished {s s' : Sys} (h : InOrder s) (hA : SInv C s A) {i : Nat} {q : Queue} {id : Str} {j : JobEntry}
    (hr : s.Runs i q id j) (hreqs : s'.reqs = s.reqs) (hdone : s'.done = s.ticket q id :: s.done)
    (htick : s'.ticket = s.ticket)
    (hruns : ∀ k id' j', s'.Runs k .seq id' j' → s.Runs k .seq id' j' ∧ ¬ (q = .seq ∧ id' = id)) : InOrder s' where
  run := by
    intro k id' j' hk
    obtain ⟨hk1, hne⟩ := hruns k id' j' hk
    rw [pending_done_eq hreqs hdone, htick]
    have h1 := h.run _ _ _ hk1
    have hkey : id ∈ (A.q q).keys := (KV.mem_keys_iff _ _).2 ⟨_, (hA.held _ _ _ _ hr).1⟩
    have hkey' : id' ∈ (A.q .seq).keys := (KV.mem_keys_iff _ _).2 ⟨_, (hA.held _ _ _ _ hk1).1⟩
    have hneq : s.ticket .seq id' ≠ s.ticket q id := by
      intro e
      have h1 := (mem_pending.1 (hA.tick_mem hkey)).1
      have h2 := (mem_pending.1 (hA.tick_mem hkey')).1
      obtain ⟨r1, a1, b1⟩ := h1
      obtain ⟨r2, a2, b2⟩ := h2
      rw [e, a1] at a2; cases a2
      have eq : q = .seq := b1.symm.trans b2
      subst eq
      exact hne ⟨rfl, hA.tick_inj hkey' hkey e⟩
    cases hp : pending s .seq with
    | nil => rw [hp] at h1; cases h1
    | cons a l =>
      rw [hp] at h1
      simp only [List.head?_cons, Option.some.injEq] at h1
      rw [h1, List.filter_cons, if_pos (by simpa using hneq)]
      rfl
  fin := by
    intro t ht hseq t' ht'
    rw [pending_done_eq hreqs hdone] at ht'
    obtain ⟨ht1, ht2⟩ := List.mem_filter.1 ht'
    rw [hdone] at ht
    rw [hreqs] at hseq
    rcases List.mem_cons.1 ht with rfl | ht
    · have hkey : id ∈ (A.q q).keys := (KV.mem_keys_iff _ _).2 ⟨_, (hA.held _ _ _ _ hr).1⟩
      obtain ⟨r1, a1, b1⟩ := (mem_pending.1 (hA.tick_mem hkey)).1
      rw [a1] at hseq
      simp only [Option.map_some, Option.some.injEq] at hseq
      have eq : q = .seq := b1.symm.trans hseq
      subst eq
      exact head_lt (pending_sorted s .seq) (h.run _ _ _ hr) ht1 (by simpa using ht2)
    · exact h.fin t ht hseq t' ht1

theorem InOrder.same {s s' : Sys} (h : InOrder s) (hreqs : s'.reqs = s.reqs) (hdone : s'.done = s.done)
    (htick : s'.ticket = s.ticket) (hruns : ∀ k id' j', s'.Runs k .seq id' j' → s.Runs k .seq id' j') :
    InOrder s' := by
  have hp : pending s' .seq = pending s .seq := by unfold pending; rw [hreqs, hdone]
  exact {
    run := by intro i id j hr; rw [hp, htick]; exact h.run _ _ _ (hruns _ _ _ hr)
    fin := by rw [hp, hdone, hreqs]; exact h.fin }

theorem Sys.submit_fields (s : Sys) (r : Request) (now : Nat) :
    (s.submit C r now).reqs = s.reqs ++ [r] ∧ (s.submit C r now).done = s.done ∧
    (s.submit C r now).workers = s.workers ∧ (s.submit C r now).up = s.up := ⟨rfl, rfl, rfl, rfl⟩

theorem pending_append {s s' : Sys} {r : Request} (hreqs : s'.reqs = s.reqs ++ [r]) (hdone : s'.done = s.done)
    (hfin : ∀ t ∈ s.done, t < s.reqs.length) (q : Queue) :
    pending s' q = pending s q ++ (if r.queue = q then [s.reqs.length] else []) := by
  unfold pending
  rw [hreqs, hdone]
  simp only [List.length_append, List.length_singleton, List.range_succ, List.filter_append]
  congr 1
  · apply List.filter_congr
    intro t ht
    rw [List.mem_range] at ht
    rw [List.getElem?_append_left ht]
  · have h1 : s.reqs.length ∉ s.done := fun hc => by have := hfin _ hc; omega
    by_cases e : r.queue = q
    · simp [e, h1]
    · simp [e]

/-- The number of an old job does not change when a new one is submitted. -/
theorem SInv.submit_ticket (h : SInv C s A) (hN : s.reqs.length < 2 ^ 62) (r : Request) (now : Nat) {q : Queue}
    {id : Str} (hid : id ∈ (A.q q).keys) : (s.submit C r now).ticket q id = s.ticket q id := by
  obtain ⟨m, hm, hlt, hrun, -⟩ := push_run h.rel hN h.ids r.queue r.type r.params now
  unfold Sys.submit pushRequest
  simp only [hrun]
  rw [if_neg]
  rintro ⟨rfl, rfl⟩
  obtain ⟨n, hn, e⟩ := h.ids _ _ hid
  have := hlt n hn (e ▸ hid)
  have := be8_inj (by omega) (by omega) e
  omega

theorem Reach.inOrder (h : Reach C poison s) : InOrder s := by
  refine Reach.induct (P := InOrder) ?_ ?_ h
  · exact ⟨by intro i id j hr; simp [Sys.Runs, Sys.init] at hr, by intro t ht; cases ht⟩
  · intro s s' A hA hN ih hs
    cases hs with
    | submit r now hup =>
      have hp := pending_append (s := s) (s' := s.submit C r now) rfl rfl hA.fin
      constructor
      · intro i id j hr
        have hr' : s.Runs i .seq id j := hr
        rw [hA.submit_ticket hN r now ((KV.mem_keys_iff _ _).2 ⟨_, (hA.held _ _ _ _ hr').1⟩), hp]
        have := ih.run _ _ _ hr'
        cases hq : pending s .seq with
        | nil => rw [hq] at this; cases this
        | cons a l => rw [hq] at this; exact this
      · intro t ht hseq t' ht'
        have ht0 : t ∈ s.done := ht
        rw [hp] at ht'
        have hlt := hA.fin t ht0
        rcases List.mem_append.1 ht' with ht' | ht'
        · refine ih.fin t ht0 ?_ t' ht'
          have : (s.reqs ++ [r])[t]?.map Request.queue = some .seq := hseq
          rwa [List.getElem?_append_left hlt] at this
        · split at ht'
          · rw [List.mem_singleton] at ht'; omega
          · cases ht'
    | @claim i q now hup hnow hi =>
      cases hf : firstFree (A.q q) with
      | none => rw [Sys.claim_none hA now hf]; exact ih
      | some x =>
        obtain ⟨id, j⟩ := x
        rw [Sys.claim_some hA hN now hf]
        refine ⟨?_, ih.fin⟩
        intro k id' j' hr
        have hp : pending { s with
          raw := s.raw.put (q.handle.realKey id) (C.encJ (claimedAt j now))
          workers := s.workers.set i ⟨q, some (id, claimedAt j now)⟩ } .seq = pending s .seq := rfl
        rw [hp]
        rcases (runs_set ⟨_, hi⟩).1 hr with ⟨rfl, hw⟩ | ⟨hne, hr'⟩
        · cases hw
          have hfree : ∀ id j, (A.q .seq).get id = some j → j.claimed = false := by
            intro id j hj
            cases hc : j.claimed with
            | false => rfl
            | true =>
              obtain ⟨k', hk'⟩ := hA.owner hup _ _ _ hj hc
              have e1 := hA.seqWorker hup hk' rfl
              have e2 := hA.seqWorker hup hi rfl
              subst e1; subst e2
              unfold Sys.Runs at hk'
              rw [show s.workers[0]? = _ from hi] at hk'
              cases hk'
          rw [firstFree_head hfree (hA.rel.qWF _)] at hf
          rw [← hA.tick]
          cases hm : A.q .seq with
          | nil => rw [hm] at hf; cases hf
          | cons kv m =>
            rw [hm] at hf
            simp only [List.head?_cons, Option.some.injEq] at hf
            subst hf
            rfl
        · exact ih.run _ _ _ hr'
    | @finish i q id j now outcome hup hr hp =>
      refine ih.finished hA hr rfl rfl rfl ?_
      intro k id' j' hk
      rcases (runs_set ⟨_, hr⟩).1 hk with ⟨-, hw⟩ | ⟨hne, hk'⟩
      · cases hw
      · refine ⟨hk', ?_⟩
        rintro ⟨rfl, rfl⟩
        exact hne (hA.excl _ _ _ _ _ _ hk' hr)
    | reset b hup => exact ih.same rfl rfl rfl (fun _ _ _ h => h)
    | kill hup => exact ih.same rfl rfl rfl (fun _ _ _ h => by simp [Sys.Runs, Sys.kill] at h)
    | killRetire now outcome c hup hr hp hc =>
      exact ih.finished hA hr rfl rfl rfl (fun _ _ _ h => by simp [Sys.Runs, Sys.kill] at h)
    | killReset b c hup hc => exact ih.same rfl rfl rfl (fun _ _ _ h => by simp [Sys.Runs, Sys.kill] at h)
    | boot n hup =>
      obtain ⟨raw', e, -⟩ := Sys.boot_eq hA hN n
      rw [e]
      refine ih.same rfl rfl rfl (fun k id j hk => ?_)
      unfold Sys.Runs at hk
      cases k with
      | zero => simp at hk
      | succ k =>
        simp only [List.getElem?_cons_succ, List.getElem?_replicate] at hk
        split at hk <;> simp at hk
    | killBoot c hup hc => exact ih.same rfl rfl rfl (fun _ _ _ h => h)

/-- A job that brings the process down is never finished. -/
theorem Reach.notPoison (h : Reach C poison s) :
    ∀ t ∈ s.done, ∃ r, s.reqs[t]? = some r ∧ ¬ poison r.type r.params := by
  refine Reach.induct (P := fun s => ∀ t ∈ s.done, ∃ r, s.reqs[t]? = some r ∧ ¬ poison r.type r.params) ?_ ?_ h
  · intro t ht; cases ht
  · intro s s' A hA hN ih hs
    have fin : ∀ {i q id j}, s.Runs i q id j → ¬ poison j.type j.params →
        ∀ t ∈ s.ticket q id :: s.done, ∃ r, s.reqs[t]? = some r ∧ ¬ poison r.type r.params := by
      intro i q id j hr hp t ht
      rcases List.mem_cons.1 ht with rfl | ht
      · obtain ⟨r, h1, -, h2, h3⟩ := hA.req _ _ _ (hA.held _ _ _ _ hr).1
        exact ⟨r, h1, by rw [h2, h3]; exact hp⟩
      · exact ih t ht
    cases hs with
    | submit r now hup =>
      intro t ht
      obtain ⟨r', h1, h2⟩ := ih t ht
      exact ⟨r', by
        show (s.reqs ++ [r])[t]? = some r'
        rw [List.getElem?_append_left (List.getElem?_eq_some_iff.1 h1).1]; exact h1, h2⟩
    | finish now outcome hup hr hp => exact fin hr hp
    | killRetire now outcome c hup hr hp hc => exact fin hr hp
    | boot n hup =>
      obtain ⟨raw', e, -⟩ := Sys.boot_eq hA hN n
      rw [e]; exact ih
    | _ => exact ih

end Ferryd.Jobs
