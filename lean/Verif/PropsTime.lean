import Verif.PropsListing
/-!
# PropsTime: the times of jobs (C120)

JobsSys lets every step happen at an arbitrary time.  Here the clock does not go back, and what happens is written down as it happens; the
times found in the database and shown by `ferryctl status` are then compared with what was written down.
-/
namespace Ferryd.Jobs
open Ferryd.Db

/-- What happens, and when. -/
inductive Event
  /-- somebody who is submitting a job reads the clock (store.go:305; this is before the lock of the store is taken) -/
  | read (t : Nat)
  /-- the job with number `n` (its position in the order of submission) gets into the queue, with the time read -/
  | queued (n t : Nat)
  /-- a worker claims job `n` (store.go:175, under the lock) -/
  | begun (n t : Nat)
  /-- the execution of job `n` returns, and the worker reads the clock (worker.go:141) -/
  | returned (n t : Nat)
  /-- job `n` is taken from the queue and recorded -/
  | retired (n : Nat)
deriving DecidableEq

/-- The time on the clock, for the events at which it is read. -/
def Event.clock : Event → Option Nat
  | .read t | .begun _ t | .returned _ t => some t
  | .queued _ _ | .retired _ => none

variable (C : Codec) (poison : Str → List Str → Prop)

/-- Histories of the job system (the steps of `Jobs.Step`) under a clock that does not go back: the state, the last time read, and everything
that happened so far, in order. -/
inductive Timed : Sys → Nat → List Event → Prop
  | init : Timed Sys.init 0 []
  | read {s : Sys} {t : Nat} {ev : List Event} (h : Timed s t ev) (now : Nat) : t ≤ now → Timed s now (ev ++ [.read now])
  | submit {s : Sys} {t : Nat} {ev : List Event} (h : Timed s t ev) (r : Request) (stamp : Nat) : s.up = true → .read stamp ∈ ev →
      Timed (s.submit C r stamp) t (ev ++ [.queued s.reqs.length stamp])
  /-- a worker finds nothing to do -/
  | poll {s : Sys} {t : Nat} {ev : List Event} (h : Timed s t ev) {i : Nat} {q : Queue} (now : Nat) : s.up = true → now ≠ 0 → t ≤ now →
      s.Idle i q → (Jobs.claim C q now s.raw).res = .ok none → Timed (s.claim C i q now) now ev
  /-- a worker claims a job -/
  | claim {s : Sys} {t : Nat} {ev : List Event} (h : Timed s t ev) {i : Nat} {q : Queue} {id : Str} {j : JobEntry} (now : Nat) :
      s.up = true → now ≠ 0 → t ≤ now → s.Idle i q → (Jobs.claim C q now s.raw).res = .ok (some (id, j)) →
      Timed (s.claim C i q now) now (ev ++ [.begun (s.ticket q id) now])
  /-- the execution returns -/
  | returns {s : Sys} {t : Nat} {ev : List Event} (h : Timed s t ev) {i : Nat} {q : Queue} {id : Str} {j : JobEntry} (now : Nat) :
      s.up = true → t ≤ now → s.Runs i q id j → ¬ poison j.type j.params → Timed s now (ev ++ [.returned (s.ticket q id) now])
  /-- the worker then retires the job, with the time it has read -/
  | finish {s : Sys} {t : Nat} {a c : List Event} {i : Nat} {q : Queue} {id : Str} {j : JobEntry} (stamp : Nat)
      (outcome : Option Str) (h : Timed s t (a ++ .returned (s.ticket q id) stamp :: c)) (hc : ∀ x, .begun (s.ticket q id) x ∉ c) :
      s.up = true → s.Runs i q id j → ¬ poison j.type j.params →
      Timed (s.finish C i q id j stamp outcome) t (a ++ .returned (s.ticket q id) stamp :: c ++ [.retired (s.ticket q id)])
  | reset {s : Sys} {t : Nat} {ev : List Event} (h : Timed s t ev) (b : Bool) : s.up = true → Timed (s.reset b) t ev
  | kill {s : Sys} {t : Nat} {ev : List Event} (h : Timed s t ev) : s.up = true → Timed s.kill t ev
  | killRetire {s : Sys} {t : Nat} {a c : List Event} {i : Nat} {q : Queue} {id : Str} {j : JobEntry} (stamp : Nat)
      (outcome : Option Str) (w : Raw) (h : Timed s t (a ++ .returned (s.ticket q id) stamp :: c)) (hc : ∀ x, .begun (s.ticket q id) x ∉ c) :
      s.up = true → s.Runs i q id j → ¬ poison j.type j.params → w ∈ (retire C q (finishedOf id j stamp outcome) s.raw).tr →
      Timed { s.kill with
        raw := w, done := s.ticket q id :: s.done
        log := upd s.log (finishedOf id j stamp outcome).failure.isSome none } t
        (a ++ .returned (s.ticket q id) stamp :: c ++ [.retired (s.ticket q id)])
  | killReset {s : Sys} {t : Nat} {ev : List Event} (h : Timed s t ev) (b : Bool) (c : Raw) : s.up = true → c ∈ (Jobs.reset b s.raw).tr →
      Timed { s.kill with raw := c, log := upd s.log b none } t ev
  | boot {s : Sys} {t : Nat} {ev : List Event} (h : Timed s t ev) (n : Nat) : s.up = false → Timed (s.boot C n) t ev
  | killBoot {s : Sys} {t : Nat} {ev : List Event} (h : Timed s t ev) (c : Raw) : s.up = false → c ∈ (setup C s.raw).tr →
      Timed { s with raw := c } t ev

variable {C : Codec} {poison : Str → List Str → Prop} {s : Sys} {t : Nat} {ev : List Event} {A : AS}

/-- They are histories of the job system. -/
theorem Timed.steps (h : Timed C poison s t ev) : Steps C poison Sys.init s := by
  induction h with
  | init => exact .refl
  | read _ _ _ ih => exact ih
  | submit _ r now hup _ ih => exact ih.tail (.submit r now hup)
  | poll _ now hup hn _ hi _ ih => exact ih.tail (.claim now hup hn hi)
  | claim _ now hup hn _ hi _ ih => exact ih.tail (.claim now hup hn hi)
  | returns _ _ _ _ _ _ ih => exact ih
  | finish now o _ _ hup hr hp ih => exact ih.tail (.finish now o hup hr hp)
  | reset _ b hup ih => exact ih.tail (.reset b hup)
  | kill _ hup ih => exact ih.tail (.kill hup)
  | killRetire now o c _ _ hup hr hp hc ih => exact ih.tail (.killRetire now o c hup hr hp hc)
  | killReset _ b c hup hc ih => exact ih.tail (.killReset b c hup hc)
  | boot _ n hup ih => exact ih.tail (.boot n hup)
  | killBoot _ c hup hc ih => exact ih.tail (.killBoot c hup hc)

/-- The readings of the clock are in order, and none is later than the last. -/
theorem Timed.sorted (h : Timed C poison s t ev) :
    (ev.filterMap Event.clock).Pairwise (· ≤ ·) ∧ ∀ x ∈ ev.filterMap Event.clock, x ≤ t := by
  have add : ∀ {ev : List Event} {t now : Nat} {e : Event}, t ≤ now → e.clock = some now →
      ((ev.filterMap Event.clock).Pairwise (· ≤ ·) ∧ ∀ x ∈ ev.filterMap Event.clock, x ≤ t) →
      (((ev ++ [e]).filterMap Event.clock).Pairwise (· ≤ ·) ∧ ∀ x ∈ (ev ++ [e]).filterMap Event.clock, x ≤ now) := by
    intro ev t now e hle he ⟨h1, h2⟩
    have hx : (ev ++ [e]).filterMap Event.clock = ev.filterMap Event.clock ++ [now] := by
      rw [List.filterMap_append]; simp [he]
    rw [hx]
    refine ⟨List.pairwise_append.2 ⟨h1, List.pairwise_singleton _ _, fun a ha b hb => ?_⟩, fun x hx => ?_⟩
    · rw [List.mem_singleton] at hb; subst hb; exact Nat.le_trans (h2 a ha) hle
    · rw [List.mem_append, List.mem_singleton] at hx
      rcases hx with hx | rfl
      · exact Nat.le_trans (h2 x hx) hle
      · exact Nat.le_refl _
  have skip : ∀ {ev : List Event} {e : Event}, e.clock = none → (ev ++ [e]).filterMap Event.clock = ev.filterMap Event.clock := by
    intro ev e he
    rw [List.filterMap_append]; simp [he]
  induction h with
  | init => exact ⟨.nil, fun e he => by cases he⟩
  | read _ now hle ih => exact add hle rfl ih
  | submit _ r now _ _ ih => rw [skip rfl]; exact ih
  | poll _ now _ _ hle _ _ ih => exact ⟨ih.1, fun e he => Nat.le_trans (ih.2 e he) hle⟩
  | claim _ now _ _ hle _ _ ih => exact add hle rfl ih
  | returns _ now _ hle _ _ ih => exact add hle rfl ih
  | finish now o _ _ _ _ _ ih => rw [skip rfl]; exact ih
  | killRetire now o c _ _ _ _ _ _ ih => rw [skip rfl]; exact ih
  | reset _ b hup ih => exact ih
  | kill _ hup ih => exact ih
  | killReset _ b c hup hc ih => exact ih
  | boot _ n hup ih => exact ih
  | killBoot _ c hup hc ih => exact ih

/-! ## The description -/

/-- Somebody read the clock and then job number `n` got into the queue. -/
def Asked (ev : List Event) (n queued : Nat) : Prop := ∃ a c, ev = a ++ .queued n queued :: c ∧ .read queued ∈ a

/-- Job number `n` was submitted and later begun at the given times, and has not been begun again since. -/
def Began (ev : List Event) (n queued begun : Nat) : Prop :=
  ∃ a c, ev = a ++ .begun n begun :: c ∧ Asked a n queued ∧ ∀ t, .begun n t ∉ c

/-- Job number `n` was submitted, later begun, and this execution returned later, at the given times. -/
def Ran (ev : List Event) (n queued begun ended : Nat) : Prop :=
  ∃ a b c, ev = a ++ .begun n begun :: (b ++ .returned n ended :: c) ∧ Asked a n queued ∧ ∀ t, .begun n t ∉ b

theorem Asked.append {n q : Nat} (h : Asked ev n q) (l : List Event) : Asked (ev ++ l) n q := by
  obtain ⟨a, c, rfl, hr⟩ := h
  exact ⟨a, c ++ l, by simp, hr⟩

theorem Asked.le {n q : Nat} (h : Asked ev n q) {x : Nat} (hx : ∀ y ∈ ev.filterMap Event.clock, y ≤ x) : q ≤ x := by
  obtain ⟨a, c, rfl, hr⟩ := h
  exact hx q (List.mem_filterMap.2 ⟨.read q, List.mem_append_left _ hr, rfl⟩)

theorem Began.append {n q b : Nat} (h : Began ev n q b) {e : Event} (he : ∀ t, e ≠ .begun n t) : Began (ev ++ [e]) n q b := by
  obtain ⟨a, c, rfl, hq, hc⟩ := h
  refine ⟨a, c ++ [e], by simp, hq, fun t ht => ?_⟩
  rw [List.mem_append, List.mem_singleton] at ht
  rcases ht with ht | ht
  · exact hc t ht
  · exact he t ht.symm

theorem Began.new {n q : Nat} (h : Asked ev n q) (b : Nat) : Began (ev ++ [.begun n b]) n q b :=
  ⟨ev, [], rfl, h, fun t ht => by cases ht⟩

theorem Ran.append {n q b e : Nat} (h : Ran ev n q b e) (l : List Event) : Ran (ev ++ l) n q b e := by
  obtain ⟨a, m, c, rfl, hq, hm⟩ := h
  exact ⟨a, m, c ++ l, by simp, hq, hm⟩

/-- A return that follows the last start belongs to it. -/
theorem Began.ran {n q b e : Nat} {a c : List Event} (h : Began (a ++ .returned n e :: c) n q b) (hc : ∀ x, .begun n x ∉ c) :
    Ran (a ++ .returned n e :: c) n q b e := by
  obtain ⟨a', c', he, hq, hc'⟩ := h
  rcases List.append_eq_append_iff.1 he with ⟨d, h1, h2⟩ | ⟨d, h1, h2⟩
  · -- the start would be in `returned :: c`
    cases d with
    | nil => simp at h2
    | cons x d =>
      simp only [List.cons_append, List.cons.injEq] at h2
      exact absurd (by rw [h2.2]; simp) (hc b)
  · cases d with
    | nil => simp at h2
    | cons x d =>
      simp only [List.cons_append, List.cons.injEq] at h2
      obtain ⟨rfl, rfl⟩ := h2
      refine ⟨a', d, c, by rw [h1]; simp, hq, fun t ht => hc' t (by simp [ht])⟩

theorem clock_le {a b : List Event} (hs : ((a ++ b).filterMap Event.clock).Pairwise (· ≤ ·)) {x y : Event} {u v : Nat} (hx : x ∈ a) (hy : y ∈ b)
    (hu : x.clock = some u) (hv : y.clock = some v) : u ≤ v := by
  rw [List.filterMap_append, List.pairwise_append] at hs
  exact hs.2.2 u (List.mem_filterMap.2 ⟨x, hx, hu⟩) v (List.mem_filterMap.2 ⟨y, hy, hv⟩)

theorem Began.order {n q b : Nat} (h : Began ev n q b) (hs : (ev.filterMap Event.clock).Pairwise (· ≤ ·)) : q ≤ b := by
  obtain ⟨a, c, rfl, ⟨a1, c1, rfl, hr⟩, hc⟩ := h
  exact clock_le hs (x := .read q) (y := .begun n b) (List.mem_append_left _ hr) (by simp) rfl rfl

theorem Ran.order {n q b e : Nat} (h : Ran ev n q b e) (hs : (ev.filterMap Event.clock).Pairwise (· ≤ ·)) : q ≤ b ∧ b ≤ e := by
  obtain ⟨a, m, c, rfl, ⟨a1, c1, rfl, hr⟩, hm⟩ := h
  refine ⟨clock_le hs (x := .read q) (y := .begun n b) (List.mem_append_left _ hr) (by simp) rfl rfl, ?_⟩
  rw [show a1 ++ .queued n q :: c1 ++ .begun n b :: (m ++ .returned n e :: c) = (a1 ++ .queued n q :: c1 ++ [.begun n b]) ++ (m ++ .returned n e :: c) by simp] at hs
  exact clock_le hs (x := .begun n b) (y := .returned n e) (by simp) (by simp) rfl rfl

/-! ## The invariant -/

structure TInv (s : Sys) (A : AS) (ev : List Event) : Prop where
  queued : ∀ q id j, (A.q q).get id = some j → Asked ev (s.ticket q id) j.timing.queued
  began : ∀ q id j, (A.q q).get id = some j → j.claimed = true → Began ev (s.ticket q id) j.timing.queued j.timing.begin_
  past : ∀ b k r, (A.hist b).get k = some r → ∃ n, Ran ev n r.timing.queued r.timing.begin_ r.timing.end_

theorem mapV_inj {α β : Type} {f : α → β} (hf : ∀ a b, f a = f b → a = b) {m m' : KV α} (h : KV.mapV f m = KV.mapV f m') : m = m' := by
  induction m generalizing m' with
  | nil => cases m' with
    | nil => rfl
    | cons x xs => simp [KV.mapV] at h
  | cons x xs ih => cases m' with
    | nil => simp [KV.mapV] at h
    | cons y ys =>
      simp only [KV.mapV, List.map_cons, List.cons.injEq, Prod.mk.injEq] at h
      obtain ⟨⟨h1, h2⟩, h3⟩ := h
      have := ih (m' := ys) h3
      subst this
      obtain ⟨a, b⟩ := x; obtain ⟨c, d⟩ := y
      simp only at h1 h2
      rw [h1, hf _ _ h2]

/-- The database determines the queues and the histories. -/
theorem Rel.unique {raw : Raw} {A A' : AS} (h : Rel C raw A) (h' : Rel C raw A') : A.q = A'.q ∧ A.hist = A'.hist := by
  constructor
  · funext q
    refine mapV_inj (f := C.encJ) (fun a b e => ?_) ((h.q q).symm.trans (h'.q q))
    have := congrArg C.decJ e
    rw [C.lawJ, C.lawJ] at this
    exact Option.some.inj this
  · funext b
    refine mapV_inj (f := C.encR) (fun a b e => ?_) ((h.hist b).symm.trans (h'.hist b))
    have := congrArg C.decR e
    rw [C.lawR, C.lawR] at this
    exact Option.some.inj this

theorem TInv.congr {A' : AS} (h : TInv s A ev) (hq : A.q = A'.q) (hh : A.hist = A'.hist) : TInv s A' ev :=
  ⟨fun q id j hg => h.queued q id j (by rw [hq]; exact hg), fun q id j hg => h.began q id j (by rw [hq]; exact hg),
    fun b k r hg => h.past b k r (by rw [hh]; exact hg)⟩

/-- Different jobs have different numbers. -/
theorem SInv.ticket_inj (h : SInv C s A) {q q' : Queue} {id id' : Str} {j j' : JobEntry} (hg : (A.q q).get id = some j)
    (hg' : (A.q q').get id' = some j') (e : s.ticket q id = s.ticket q' id') : q = q' ∧ id = id' := by
  obtain ⟨r, hr, hq, _⟩ := h.req q id j hg
  obtain ⟨r', hr', hq', _⟩ := h.req q' id' j' hg'
  rw [e, hr'] at hr
  cases hr
  have : q = q' := hq.symm.trans hq'
  subst this
  exact ⟨rfl, h.tick_inj ((KV.mem_keys_iff _ _).2 ⟨_, hg⟩) ((KV.mem_keys_iff _ _).2 ⟨_, hg'⟩) e⟩

theorem SInv.ticket_lt (h : SInv C s A) {q : Queue} {id : Str} {j : JobEntry} (hg : (A.q q).get id = some j) :
    s.ticket q id < s.reqs.length := by
  obtain ⟨r, hr, _⟩ := h.req q id j hg
  exact (List.getElem?_eq_some_iff.1 hr).1

/-- The entry of a finished job goes, and, if `rec` says so, its record comes. -/
theorem TInv.retired (hi : SInv C s A) (h : TInv s A ev) {i : Nat} {q : Queue} {id : Str} {j : JobEntry} (hr : s.Runs i q id j) (now : Nat)
    (outcome : Option Str) (hran : ∀ q0 b0, Began ev (s.ticket q id) q0 b0 → Ran ev (s.ticket q id) q0 b0 now) {s' : Sys} (ht : s'.ticket = s.ticket) {A' : AS} (hq : A'.q = upd A.q q ((A.q q).del id))
    (hh : A'.hist = A.hist ∨ ∃ b k, A'.hist = upd A.hist b ((A.hist b).put k (finishedOf id j now outcome).record)) :
    TInv s' A' (ev ++ [.retired (s.ticket q id)]) := by
  obtain ⟨hg, hcl⟩ := hi.held _ _ _ _ hr
  have hsub : ∀ q' id' j', (A'.q q').get id' = some j' → (A.q q').get id' = some j' := by
    intro q' id' j' hx
    rw [hq, upd_apply] at hx
    split at hx
    · rename_i e; subst e
      rw [KV.get_del] at hx
      split at hx
      · cases hx
      · exact hx
    · exact hx
  refine ⟨fun q' id' j' hx => ?_, fun q' id' j' hx hc => ?_, fun b k r hx => ?_⟩
  · rw [ht]; exact (h.queued _ _ _ (hsub _ _ _ hx)).append _
  · rw [ht]; exact (h.began _ _ _ (hsub _ _ _ hx) hc).append fun t => by simp
  · have old : (A.hist b).get k = some r → ∃ n, Ran (ev ++ [.retired (s.ticket q id)]) n r.timing.queued r.timing.begin_ r.timing.end_ :=
      fun hx => (h.past b k r hx).imp fun n hn => hn.append _
    rcases hh with hh | ⟨b', k', hh⟩
    · rw [hh] at hx; exact old hx
    · rw [hh, upd_apply] at hx
      split at hx
      · rename_i e; subst e
        rw [KV.get_put] at hx
        split at hx
        · cases hx
          refine ⟨s.ticket q id, ?_⟩
          have := (hran _ _ (h.began _ _ _ hg hcl)).append [.retired (s.ticket q id)]
          unfold finishedOf Finished.record
          cases newJobHandler j.type j.params <;> exact this
        · exact old hx
      · exact old hx

theorem TInv.freedQ (h : TInv s A ev) {A' : AS} {s' : Sys} (ht : s'.ticket = s.ticket) (hq : ∀ q, A'.q q = A.q q ∨ A'.q q = KV.mapV freed (A.q q))
    (hh : A'.hist = A.hist) : TInv s' A' ev := by
  refine ⟨fun q id j hg => ?_, fun q id j hg hc => ?_, fun b k r hx => h.past b k r (by rw [← hh]; exact hx)⟩
  · rw [ht]
    rcases hq q with e | e
    · rw [e] at hg; exact h.queued q id j hg
    · rw [e, KV.get_mapV] at hg
      cases hx : (A.q q).get id with
      | none => rw [hx] at hg; cases hg
      | some j0 =>
        rw [hx] at hg
        cases hg
        have := h.queued q id j0 hx
        unfold freed; split <;> exact this
  · rw [ht]
    rcases hq q with e | e
    · rw [e] at hg; exact h.began q id j hg hc
    · rw [e, KV.get_mapV] at hg
      cases hx : (A.q q).get id with
      | none => rw [hx] at hg; cases hg
      | some j0 => rw [hx] at hg; cases hg; rw [freed_claimed] at hc; cases hc

theorem Sys.boot_ghosts (s : Sys) (n : Nat) : (s.boot C n).reqs = s.reqs ∧ (s.boot C n).ticket = s.ticket ∧ (s.boot C n).done = s.done := by
  unfold Sys.boot
  dsimp only
  split <;> exact ⟨rfl, rfl, rfl⟩

theorem Timed.inv (h : Timed C poison s t ev) (hN : s.reqs.length < 2 ^ 62) : ∃ A, SInv C s A ∧ TInv s A ev := by
  induction h with
  | init => exact ⟨_, SInv.init, ⟨fun q id j hg => (by cases hg), fun q id j hg => (by cases hg), fun b k r hg => (by cases hg)⟩⟩
  | @read s t ev _ now hle ih =>
    obtain ⟨A, hi, ht⟩ := ih hN
    exact ⟨A, hi, ⟨fun q id j hg => (ht.queued q id j hg).append _, fun q id j hg hc => (ht.began q id j hg hc).append fun t => (by simp),
      fun b k r hx => (ht.past b k r hx).imp fun n hn => hn.append _⟩⟩
  | @returns s t ev _ i q id j now hup hle hr hp ih =>
    obtain ⟨A, hi, ht⟩ := ih hN
    exact ⟨A, hi, ⟨fun q id j hg => (ht.queued q id j hg).append _, fun q id j hg hc => (ht.began q id j hg hc).append fun t => (by simp),
      fun b k r hx => (ht.past b k r hx).imp fun n hn => hn.append _⟩⟩
  | @submit s t ev _ r now hup hle ih =>
    have hN' : s.reqs.length < 2 ^ 62 := Nat.lt_of_le_of_lt (Step.reqs_le (C := C) (poison := poison) (.submit r now hup)) hN
    obtain ⟨A, hi, ht⟩ := ih hN'
    obtain ⟨A', hi'⟩ := hi.submit hup hN' r now
    obtain ⟨m, hm, hlt, hrun, hrel⟩ := push_run hi.rel hN' hi.ids r.queue r.type r.params now
    have hnew : be8 m ∉ (A.q r.queue).keys := by
      intro hk
      obtain ⟨n, hn, e⟩ := hi.ids _ _ hk
      have := hlt n hn (e ▸ hk)
      have := be8_inj (by omega) (by omega) e
      omega
    have hs : s.submit C r now = { s with
        raw := s.raw.put (r.queue.handle.realKey (be8 m)) (C.encJ ⟨r.type, false, r.params, ⟨now, 0, 0⟩⟩)
        reqs := s.reqs ++ [r]
        ticket := fun q i => if q = r.queue ∧ i = be8 m then s.reqs.length else s.ticket q i } := by
      unfold Sys.submit pushRequest
      rw [hrun]
    refine ⟨A', hi', ?_⟩
    rw [hs] at hi' ⊢
    obtain ⟨eq, eh⟩ := hrel.unique hi'.rel
    refine TInv.congr (A := { A with q := upd A.q r.queue (A.q r.queue ++ [(be8 m, ⟨r.type, false, r.params, ⟨now, 0, 0⟩⟩)]) }) ?_ eq eh
    have hcase : ∀ q id j, ((upd A.q r.queue (A.q r.queue ++ [(be8 m, (⟨r.type, false, r.params, ⟨now, 0, 0⟩⟩ : JobEntry))])) q).get id = some j →
        (q = r.queue ∧ id = be8 m ∧ j = ⟨r.type, false, r.params, ⟨now, 0, 0⟩⟩) ∨ (¬ (q = r.queue ∧ id = be8 m) ∧ (A.q q).get id = some j) := by
      intro q id j hg
      rw [upd_apply] at hg
      split at hg
      · rename_i e; subst e
        rw [KV.get_append_new hnew] at hg
        split at hg
        · rename_i e; cases hg; exact .inl ⟨rfl, e, rfl⟩
        · rename_i e; exact .inr ⟨fun x => e x.2, hg⟩
      · rename_i e; exact .inr ⟨fun x => e x.1, hg⟩
    refine ⟨fun q id j hg => ?_, fun q id j hg hc => ?_, fun b k x hx => ?_⟩
    · rcases hcase q id j hg with ⟨rfl, rfl, rfl⟩ | ⟨hne, hg⟩
      · simp only [and_self, if_true]
        exact ⟨ev, [], rfl, hle⟩
      · simp only [if_neg hne]; exact (ht.queued q id j hg).append _
    · rcases hcase q id j hg with ⟨rfl, rfl, rfl⟩ | ⟨hne, hg⟩
      · cases hc
      · simp only [if_neg hne]; exact (ht.began q id j hg hc).append fun t => by simp
    · exact (ht.past b k x hx).imp fun n hn => hn.append _
  | @poll s t ev _ i q now hup hn hle hidle hres ih =>
    have hN' : s.reqs.length < 2 ^ 62 := Nat.lt_of_le_of_lt (Step.reqs_le (C := C) (poison := poison) (.claim now hup hn hidle)) hN
    obtain ⟨A, hi, ht⟩ := ih hN'
    cases hf : firstFree (A.q q) with
    | none => exact ⟨A, by rw [Sys.claim_none hi now hf]; exact ⟨hi, ht⟩⟩
    | some x =>
      obtain ⟨id, j⟩ := x
      rw [(Jobs.claim_some hi.rel hN' hi.ids q now hf).1] at hres
      cases hres
  | @claim s t ev _ i q id j now hup hn hle hidle hres ih =>
    have hN' : s.reqs.length < 2 ^ 62 := Nat.lt_of_le_of_lt (Step.reqs_le (C := C) (poison := poison) (.claim now hup hn hidle)) hN
    obtain ⟨A, hi, ht⟩ := ih hN'
    obtain ⟨A', hi'⟩ := hi.claim hup hN' hn hidle
    cases hf : firstFree (A.q q) with
    | none => rw [Jobs.claim_none hi.rel q now hf] at hres; cases hres
    | some x =>
      obtain ⟨id0, j0⟩ := x
      obtain ⟨hrun, hrel⟩ := Jobs.claim_some hi.rel hN' hi.ids q now hf
      rw [hrun] at hres
      simp only [Except.ok.injEq, Option.some.injEq, Prod.mk.injEq] at hres
      obtain ⟨rfl, rfl⟩ := hres
      refine ⟨A', hi', ?_⟩
      rw [Sys.claim_some hi hN' now hf] at hi' ⊢
      obtain ⟨hg0, hfree, hkey⟩ := firstFree_some (hi.rel.qWF q) hf
      obtain ⟨eq, eh⟩ := hrel.unique hi'.rel
      refine TInv.congr ?_ eq eh
      have hcase : ∀ q' id' j', ((upd A.q q ((A.q q).put id0 (claimedAt j0 now))) q').get id' = some j' →
          (q' = q ∧ id' = id0 ∧ j' = claimedAt j0 now) ∨ (¬ (q' = q ∧ id' = id0) ∧ (A.q q').get id' = some j') := by
        intro q' id' j' hg
        rw [upd_apply] at hg
        split at hg
        · rename_i e; subst e
          rw [KV.get_put] at hg
          split at hg
          · rename_i e; cases hg; exact .inl ⟨rfl, e, rfl⟩
          · rename_i e; exact .inr ⟨fun x => e x.2, hg⟩
        · rename_i e; exact .inr ⟨fun x => e x.1, hg⟩
      refine ⟨fun q' id' j' hg => ?_, fun q' id' j' hg hc => ?_, fun b k x hx => (ht.past b k x hx).imp fun n hn => hn.append _⟩
      · rcases hcase q' id' j' hg with ⟨rfl, rfl, rfl⟩ | ⟨hne, hg⟩
        · exact (ht.queued q' id' j0 hg0).append _
        · exact (ht.queued q' id' j' hg).append _
      · rcases hcase q' id' j' hg with ⟨rfl, rfl, rfl⟩ | ⟨hne, hg⟩
        · exact Began.new (ht.queued q' id' j0 hg0) now
        · refine (ht.began q' id' j' hg hc).append fun t e => ?_
          simp only [Event.begun.injEq] at e
          exact hne ((hi.ticket_inj hg hg0 e.1.symm))
  | @finish s t a c i q id j now outcome _ hc hup hr hp ih =>
    have hN' : s.reqs.length < 2 ^ 62 := hN
    obtain ⟨A, hi, ht⟩ := ih hN'
    refine ⟨_, hi.finish hup hN' hr now outcome, ht.retired (s' := s.finish C i q id j now outcome) hi hr now outcome (fun _ _ h => h.ran hc) rfl ?_ (.inr ⟨_, _, rfl⟩)⟩
    simp [retire1, retire2, retire3, finishedOf_id]
  | @reset s t ev _ b hup ih =>
    obtain ⟨A, hi, ht⟩ := ih hN
    refine ⟨_, hi.reset b, ht.queued, ht.began, fun b' k r hx => ?_⟩
    simp only [reset2, upd_apply] at hx
    split at hx
    · cases hx
    · exact ht.past b' k r hx
  | @kill s t ev _ hup ih =>
    obtain ⟨A, hi, ht⟩ := ih hN
    exact ⟨A, hi.kill, ht.queued, ht.began, ht.past⟩
  | @killRetire s t a e0 i q id j now outcome c _ he0 hup hr hp hc ih =>
    obtain ⟨A, hi, ht⟩ := ih hN
    obtain ⟨A', hi'⟩ := hi.killRetire hN hr now outcome hc
    refine ⟨A', hi', ?_⟩
    obtain ⟨raw1, raw2, raw3, e, r1, r2, r3⟩ := retire_run hi.rel q (finishedOf id j now outcome)
      (by rw [finishedOf_id]; exact hi.id_ok hN hr)
    rw [e] at hc
    simp only [List.mem_cons, List.not_mem_nil, or_false] at hc
    rcases hc with rfl | rfl | rfl
    · obtain ⟨eq, eh⟩ := r1.unique hi'.rel
      exact (ht.retired (s' := { s.kill with raw := _, done := s.ticket q id :: s.done, log := upd s.log (finishedOf id j now outcome).failure.isSome none }) hi hr now outcome (fun _ _ h => h.ran he0) (A' := retire1 A q (finishedOf id j now outcome)) rfl (by simp [retire1, finishedOf_id]) (.inl rfl)).congr eq eh
    · obtain ⟨eq, eh⟩ := r2.unique hi'.rel
      exact (ht.retired (s' := { s.kill with raw := _, done := s.ticket q id :: s.done, log := upd s.log (finishedOf id j now outcome).failure.isSome none }) hi hr now outcome (fun _ _ h => h.ran he0) (A' := retire2 A q (finishedOf id j now outcome)) rfl (by simp [retire1, retire2, finishedOf_id]) (.inl rfl)).congr eq eh
    · obtain ⟨eq, eh⟩ := r3.unique hi'.rel
      exact (ht.retired (s' := { s.kill with raw := _, done := s.ticket q id :: s.done, log := upd s.log (finishedOf id j now outcome).failure.isSome none }) hi hr now outcome (fun _ _ h => h.ran he0) (A' := retire3 A q (finishedOf id j now outcome)) rfl (by simp [retire1, retire2, retire3, finishedOf_id])
        (.inr ⟨_, _, rfl⟩)).congr eq eh
  | @killReset s t ev _ b c hup hc ih =>
    obtain ⟨A, hi, ht⟩ := ih hN
    obtain ⟨A', hi'⟩ := hi.killReset b hc
    refine ⟨A', hi', ?_⟩
    obtain ⟨raw2, tr, e, -, hrel⟩ := reset_run hi.rel b (hi.hist_ok b)
    rw [e] at hc
    rcases hrel c hc with r | r
    · obtain ⟨eq, eh⟩ := r.unique hi'.rel
      exact TInv.congr (A := reset1 A b) ⟨ht.queued, ht.began, ht.past⟩ eq eh
    · obtain ⟨eq, eh⟩ := r.unique hi'.rel
      refine TInv.congr (A := reset2 A b) ⟨ht.queued, ht.began, fun b' k r hx => ?_⟩ eq eh
      simp only [reset2, upd_apply] at hx
      split at hx
      · cases hx
      · exact ht.past b' k r hx
  | @boot s t ev _ n hup ih =>
    rw [(Sys.boot_ghosts s n).1] at hN
    obtain ⟨A, hi, ht⟩ := ih hN
    refine ⟨_, hi.boot hup hN n, ht.freedQ (Sys.boot_ghosts s n).2.1 (fun q => .inr rfl) rfl⟩
  | @killBoot s t ev _ c hup hc ih =>
    obtain ⟨A, hi, ht⟩ := ih hN
    obtain ⟨A', hi'⟩ := hi.killBoot hup hN hc
    refine ⟨A', hi', ?_⟩
    obtain ⟨raw1, raw2, e, r1, r2⟩ := setup_run hi.rel hN hi.ids
    rw [e] at hc
    simp only [List.mem_cons, List.not_mem_nil, or_false] at hc
    rcases hc with rfl | rfl
    · obtain ⟨eq, eh⟩ := r1.unique hi'.rel
      refine TInv.congr (ht.freedQ rfl (A' := { A with q := upd A.q .seq (KV.mapV freed (A.q .seq)) }) ?_ rfl) eq eh
      intro q
      simp only [upd_apply]
      split
      · rename_i eq; subst eq; exact .inr rfl
      · exact .inl rfl
    · obtain ⟨eq, eh⟩ := r2.unique hi'.rel
      exact TInv.congr (ht.freedQ rfl (A' := freeAll A) (fun q => .inr rfl) rfl) eq eh

/-- A job that was retired is done. -/
theorem Timed.done (h : Timed C poison s t ev) : ∀ n, .retired n ∈ ev → n ∈ s.done := by
  have skip : ∀ {ev : List Event} {e : Event} {n : Nat}, (∀ n, e ≠ .retired n) → .retired n ∈ ev ++ [e] → .retired n ∈ ev := by
    intro ev e n hne he
    rw [List.mem_append, List.mem_singleton] at he
    rcases he with he | he
    · exact he
    · exact absurd he.symm (hne n)
  induction h with
  | init => intro n he; cases he
  | read _ now _ ih => exact fun n he => ih n (skip (fun n => (by simp)) he)
  | submit _ r now hup _ ih => exact fun n he => ih n (skip (fun n => (by simp)) he)
  | poll _ now hup hn _ hi _ ih => exact fun n he => ih n he
  | claim _ now hup hn _ hi _ ih => exact fun n he => ih n (skip (fun n => (by simp)) he)
  | returns _ _ _ _ _ _ ih => exact fun n he => ih n (skip (fun n => (by simp)) he)
  | finish now o _ _ hup hr hp ih =>
    intro n he
    rw [List.mem_append, List.mem_singleton, Event.retired.injEq] at he
    rcases he with he | rfl
    · exact List.mem_cons_of_mem _ (ih n he)
    · exact List.mem_cons_self
  | reset _ b hup ih => exact ih
  | kill _ hup ih => exact ih
  | killRetire now o c _ _ hup hr hp hc ih =>
    intro n he
    rw [List.mem_append, List.mem_singleton, Event.retired.injEq] at he
    rcases he with he | rfl
    · exact List.mem_cons_of_mem _ (ih n he)
    · exact List.mem_cons_self
  | killReset _ b c hup hc ih => exact ih
  | boot _ n hup ih =>
    intro m he
    rw [(Sys.boot_ghosts _ n).2.2]; exact ih m he
  | killBoot _ c hup hc ih => exact ih

theorem linesOf_mem {l : List JobEntry} {rs : List Record} (h : linesOf l = some rs) {r : Record} (hr : r ∈ rs) : ∃ j ∈ l, lineOf j = some r := by
  induction l generalizing rs with
  | nil => simp only [linesOf, Option.some.injEq] at h; subst h; cases hr
  | cons j l ih =>
    simp only [linesOf] at h
    cases hj : lineOf j with
    | none => rw [hj] at h; cases h
    | some r0 =>
      rw [hj] at h
      simp only [Option.map_eq_some_iff] at h
      obtain ⟨rs', h1, rfl⟩ := h
      rcases List.mem_cons.1 hr with rfl | hr
      · exact ⟨j, List.mem_cons_self, hj⟩
      · obtain ⟨j', h2, h3⟩ := ih h1 hr
        exact ⟨j', List.mem_cons_of_mem _ h2, h3⟩

/-! ## C120 -/

/-- C120: the record of a finished job in either history has the times of its submission, of the beginning of the execution that ended, and of
its end; they are in this order and not in the future.  (If the clock does not go back.) -/
theorem C120_past (h : Timed C poison s t ev) (hN : s.reqs.length < 2 ^ 62) {b : Bool} {l : List Record} {r : Record}
    (hl : (pastJobs C b s.raw).res = .ok l) (hr : r ∈ l) :
    (∃ n, Ran ev n r.timing.queued r.timing.begin_ r.timing.end_) ∧
    r.timing.queued ≤ r.timing.begin_ ∧ r.timing.begin_ ≤ r.timing.end_ ∧ r.timing.end_ ≤ t := by
  obtain ⟨A, hi, ht⟩ := h.inv hN
  rw [pastJobs_run hi.rel] at hl
  simp only [Except.ok.injEq] at hl
  subst hl
  obtain ⟨⟨k, r'⟩, hm, rfl⟩ := List.mem_map.1 hr
  obtain ⟨n, hn⟩ := ht.past b k r' (KV.get_of_mem (hi.rel.histWF b) hm)
  obtain ⟨hs, hle⟩ := h.sorted
  refine ⟨⟨n, hn⟩, (hn.order hs).1, (hn.order hs).2, ?_⟩
  obtain ⟨a, m, c, e, _⟩ := hn
  exact hle _ (List.mem_filterMap.2 ⟨.returned n r'.timing.end_, by rw [e]; simp, rfl⟩)

/-- C120: an active job is shown with the time of its submission; if it is shown as running, with the time of its last start as well, and if not,
with none; and it has not ended. -/
theorem C120_active (h : Timed C poison s t ev) (hN : s.reqs.length < 2 ^ 62) {l : List Record} {r : Record}
    (hl : (activeJobs C s.raw).res = .ok l) (hr : r ∈ l) :
    ∃ n, Asked ev n r.timing.queued ∧ .retired n ∉ ev ∧ r.timing.queued ≤ t ∧
      (Listing.shownRunning r = true → Began ev n r.timing.queued r.timing.begin_ ∧ r.timing.queued ≤ r.timing.begin_ ∧ r.timing.begin_ ≤ t) ∧
      (Listing.shownRunning r = false → r.timing.begin_ = 0) := by
  obtain ⟨A, hi, ht⟩ := h.inv hN
  obtain ⟨hs, hle⟩ := h.sorted
  have key : ∀ q rs, linesOf ((A.q q).map Prod.snd) = some rs → r ∈ rs → ∃ n, Asked ev n r.timing.queued ∧ .retired n ∉ ev ∧ r.timing.queued ≤ t ∧
      (Listing.shownRunning r = true → Began ev n r.timing.queued r.timing.begin_ ∧ r.timing.queued ≤ r.timing.begin_ ∧ r.timing.begin_ ≤ t) ∧
      (Listing.shownRunning r = false → r.timing.begin_ = 0) := by
    intro q rs h1 h2
    obtain ⟨j, hj, hline⟩ := linesOf_mem h1 h2
    obtain ⟨⟨id, j'⟩, hm, rfl⟩ := List.mem_map.1 hj
    have hg := KV.get_of_mem (hi.rel.qWF q) hm
    have htm : r.timing = j'.timing := by
      unfold lineOf at hline
      obtain ⟨x, _, rfl⟩ := Option.map_eq_some_iff.1 hline
      rfl
    refine ⟨s.ticket q id, ?_, ?_, ?_, ?_, ?_⟩
    · rw [htm]; exact ht.queued q id j' hg
    · intro he
      exact (mem_pending.1 (hi.tick_mem ((KV.mem_keys_iff _ _).2 ⟨_, hg⟩))).2 (h.done _ he)
    · rw [htm]; exact (ht.queued q id j' hg).le hle
    · intro hrun
      have hb : j'.timing.begin_ ≠ 0 := by
        have : (r.timing.begin_ != 0) = true := hrun
        rw [htm] at this
        exact bne_iff_ne.1 this
      have hB := ht.began q id j' hg ((hi.time q id j' hg).1 hb)
      rw [htm]
      refine ⟨hB, hB.order hs, ?_⟩
      obtain ⟨a, c, e, _⟩ := hB
      exact hle _ (List.mem_filterMap.2 ⟨.begun (s.ticket q id) j'.timing.begin_, by rw [e]; simp, rfl⟩)
    · intro hrun
      have : (r.timing.begin_ != 0) = false := hrun
      simpa using this
  rw [activeJobs_run hi.rel] at hl
  cases ha : linesOf ((A.q .seq).map Prod.snd) with
  | none => rw [ha] at hl; cases hl
  | some a =>
    cases hb : linesOf ((A.q .async).map Prod.snd) with
    | none => rw [ha, hb] at hl; cases hl
    | some b =>
      rw [ha, hb] at hl
      simp only [Except.ok.injEq] at hl
      subst hl
      rcases List.mem_append.1 hr with hr | hr
      · exact key .seq a ha hr
      · exact key .async b hb hr

open Listing in
theorem printed_sub {all : Bool} {i : Nat} {l : List Record} {r : Record} (h : r ∈ printed all i l) : r ∈ l := by
  cases all with
  | true => rw [printed_all] at h; exact h
  | false => rw [printed_take] at h; exact List.mem_of_mem_take h

open Listing in
/-- C120: what `ferryctl status` prints, asked at a time `now`: for a completed job its end, the time from its submission to its end and the time its
last execution took; for a failed one its end and the time the execution took; for an active one its submission and how long ago that
was; and none of these durations is negative. -/
theorem C120_status (h : Timed C poison s t ev) (hN : s.reqs.length < 2 ^ 62) {all : Bool} {tab : Status} (hp : Prints C s.raw all tab)
    {now : Nat} (hnow : t ≤ now) :
    (∀ r ∈ tab.completed, ∃ n q b e : Nat, Ran ev n q b e ∧ completedColumns r = (e, (e : Int) - q, (e : Int) - b) ∧ 0 ≤ (e : Int) - q ∧ 0 ≤ (e : Int) - b) ∧
    (∀ r ∈ tab.failed, ∃ n q b e : Nat, Ran ev n q b e ∧ failedColumns r = (e, (e : Int) - b) ∧ 0 ≤ (e : Int) - b) ∧
    (∀ r ∈ tab.current, ∃ n q : Nat, Asked ev n q ∧ .retired n ∉ ev ∧ (activeColumns now r).2 = (q, (now : Int) - q) ∧ 0 ≤ (now : Int) - q ∧
      ((activeColumns now r).1 = true → ∃ b, Began ev n q b)) := by
  obtain ⟨a, f, c, a', f', c', ha, hf, hc, sa, sf, sc, rfl⟩ := hp
  refine ⟨fun r hr => ?_, fun r hr => ?_, fun r hr => ?_⟩
  · obtain ⟨⟨n, hn⟩, h1, h2, _⟩ := C120_past h hN hc (sc.1.mem_iff.1 (printed_sub hr))
    refine ⟨n, _, _, _, hn, ?_, by omega, by omega⟩
    simp only [completedColumns, totalTime, queuedTime, executionTime, Prod.mk.injEq, true_and, and_true]
    omega
  · obtain ⟨⟨n, hn⟩, h1, h2, _⟩ := C120_past h hN hf (sf.1.mem_iff.1 (printed_sub hr))
    exact ⟨n, _, _, _, hn, rfl, by omega⟩
  · obtain ⟨n, hq, he, hle, hrun, _⟩ := C120_active h hN ha (sa.1.mem_iff.1 (printed_sub hr))
    exact ⟨n, _, hq, he, rfl, by omega, fun hx => ⟨_, (hrun hx).1⟩⟩

namespace Demo

/-- Three jobs are submitted; the first is begun at 8, and so is the delta job at 9; the daemon is killed and started again; the first is begun again at
12 and ends at 15. -/
def e6 : Sys := d5.kill.boot demoCodec 2
def e7 : Sys := e6.claim demoCodec 0 .seq 12
def claimed0' : JobEntry := ⟨j0.type, true, j0.params, ⟨5, 12, 0⟩⟩
def e8 : Sys := e7.finish demoCodec 0 .seq id0 claimed0' 15 none
def evs : List Event := [.read 5, .queued 0 5, .read 6, .read 7, .queued 1 6, .queued 2 7, .begun 0 8, .begun 1 9, .begun 0 12, .returned 0 15, .retired 0]
theorem timed5 : Timed demoCodec noPoison d5 9 [.read 5, .queued 0 5, .read 6, .read 7, .queued 1 6, .queued 2 7, .begun 0 8, .begun 1 9] := by
  have h3 : Timed demoCodec noPoison d3 7 [.read 5, .queued 0 5, .read 6, .read 7, .queued 1 6, .queued 2 7] :=
    .submit (.submit (.read (.read (.submit (.read (.boot .init 2 rfl) 5 (by decide)) j0 5 up0 (by simp)) 6 (by decide)) 7 (by decide)) j1 6 up0 (by simp)) j2 7 up0 (by simp)
  have h4 : Timed demoCodec noPoison d4 8 _ := .claim (id := id0) (j := claimed0) h3 8 up0 (by decide) (by decide) idle3 (by decide +kernel)
  have h5 : Timed demoCodec noPoison d5 9 _ := .claim (id := id0) (j := claimed1) h4 9 up4 (by decide) (by decide) idle4 (by decide +kernel)
  have e : d3.ticket .seq id0 = 0 := by decide +kernel
  have e' : d4.ticket .async id0 = 1 := by decide +kernel
  rw [e, e'] at h5
  exact h5
theorem timed7 : Timed demoCodec noPoison e7 12 [.read 5, .queued 0 5, .read 6, .read 7, .queued 1 6, .queued 2 7, .begun 0 8, .begun 1 9, .begun 0 12] := by
  have h : Timed demoCodec noPoison e7 12 _ := Timed.claim (i := 0) (q := .seq) (id := id0) (j := claimed0') (.boot (.kill timed5 up5) 2 rfl) 12 (by decide +kernel) (by decide) (by decide)
    (show e6.Idle 0 .seq by unfold Sys.Idle; decide +kernel) (by decide +kernel)
  have e : (Sys.boot demoCodec d5.kill 2).ticket .seq id0 = 0 := by decide +kernel
  rw [e] at h
  exact h
theorem runs7 : e7.Runs 0 .seq id0 claimed0' := by unfold Sys.Runs; decide +kernel
theorem timed8 : Timed demoCodec noPoison e8 15 evs := by
  have e : e7.ticket .seq id0 = 0 := by decide +kernel
  have h7 := Timed.returns timed7 15 (by decide +kernel) (by decide) runs7 (fun h => h)
  have h : Timed demoCodec noPoison e8 15 _ := Timed.finish (c := []) 15 none h7 (fun x hx => by cases hx) (by decide +kernel) runs7 (fun h => h)
  rw [e] at h
  exact h
example : Timed demoCodec noPoison e8 15 evs ∧ e8.reqs.length < 2 ^ 62 ∧
    (pastJobs demoCodec false e8.raw).res = .ok [⟨j0.describe, ⟨5, 12, 15⟩, false, []⟩] := ⟨timed8, by decide +kernel, by decide +kernel⟩

end Demo
end Ferryd.Jobs
