import Verif.PropsScreen
import Verif.PropsTime
/-!
# PropsWatch: a command on the screen (C163)

The time of submission that the store keeps, through claims, crashes and restarts; then `PropsScreen` for one submitted job.
-/
namespace Ferryd.Jobs
open Ferryd.Db

variable {C : Codec} {poison : Str → List Str → Prop} {s s' : Sys} {A A' : AS} {t stamp : Nat}

/-- The store's entry of submission `t` has this time of submission. (No code: used in the proofs only.) -/
def Stamped (s : Sys) (A : AS) (t stamp : Nat) : Prop := ∀ q id j, (A.q q).get id = some j → s.ticket q id = t → j.timing.queued = stamp

theorem Stamped.congr (h : Stamped s A t stamp) (e : A.q = A'.q) : Stamped s A' t stamp := fun q id j hg => h q id j (by rw [e]; exact hg)

theorem Stamped.del (h : Stamped s A t stamp) (ht : s'.ticket = s.ticket) {q : Queue} {id : Str} (e : A'.q = upd A.q q ((A.q q).del id)) :
    Stamped s' A' t stamp := by
  intro q' id' j hx hk
  rw [ht] at hk
  rw [e, upd_apply] at hx
  split at hx
  · rename_i e; subst e
    rw [KV.get_del] at hx
    split at hx
    · cases hx
    · exact h _ _ _ hx hk
  · exact h _ _ _ hx hk

theorem Stamped.freed (h : Stamped s A t stamp) (ht : s'.ticket = s.ticket) (hq : ∀ q, A'.q q = A.q q ∨ A'.q q = KV.mapV freed (A.q q)) :
    Stamped s' A' t stamp := by
  intro q id j hg hk
  rw [ht] at hk
  rcases hq q with e | e
  · rw [e] at hg; exact h q id j hg hk
  · rw [e, KV.get_mapV] at hg
    cases hx : (A.q q).get id with
    | none => rw [hx] at hg; cases hg
    | some j0 =>
      rw [hx] at hg
      cases hg
      have := h q id j0 hx hk
      unfold Jobs.freed; split <;> exact this

/-- Submitting: the new entry has the time of the submission, the others keep theirs. -/
theorem SInv.submit_stamped (hi : SInv C s A) (hup : s.up = true) (hN : s.reqs.length < 2 ^ 62) (r : Request) (now : Nat) :
    ∃ A', SInv C (s.submit C r now) A' ∧ Stamped (s.submit C r now) A' s.reqs.length now ∧
      ∀ t stamp, t < s.reqs.length → Stamped s A t stamp → Stamped (s.submit C r now) A' t stamp := by
  obtain ⟨A', hi'⟩ := hi.submit hup hN r now
  obtain ⟨m, hm, hlt, hrun, hrel⟩ := push_run hi.rel hN hi.ids r.queue r.type r.params now
  have hnew : be8 m ∉ (A.q r.queue).keys := by
    intro hk
    obtain ⟨n, hn, e⟩ := hi.ids _ _ hk
    have := hlt n hn (e ▸ hk)
    have := be8_inj (by omega) (by omega) e
    omega
  have hs : s.submit C r now = { s with
      raw := s.raw.put (r.queue.handle.realKey (be8 m)) (C.encJ ⟨r.type, false, r.params, ⟨now, 0, 0⟩⟩)
      reqs := s.reqs ++ [r]
      ticket := fun q i => if q = r.queue ∧ i = be8 m then s.reqs.length else s.ticket q i } := by
    unfold Sys.submit pushRequest
    rw [hrun]
  refine ⟨A', hi', ?_⟩
  rw [hs] at hi' ⊢
  obtain ⟨eq, -⟩ := hrel.unique hi'.rel
  have hcase : ∀ q id j, (A'.q q).get id = some j →
      (q = r.queue ∧ id = be8 m ∧ j = ⟨r.type, false, r.params, ⟨now, 0, 0⟩⟩) ∨ (¬ (q = r.queue ∧ id = be8 m) ∧ (A.q q).get id = some j) := by
    intro q id j hg
    rw [← eq] at hg
    dsimp only at hg
    rw [upd_apply] at hg
    split at hg
    · rename_i e; subst e
      rw [KV.get_append_new hnew] at hg
      split at hg
      · rename_i e; cases hg; exact .inl ⟨rfl, e, rfl⟩
      · rename_i e; exact .inr ⟨fun x => e x.2, hg⟩
    · rename_i e; exact .inr ⟨fun x => e x.1, hg⟩
  refine ⟨fun q id j hg hk => ?_, fun t stamp ht h q id j hg hk => ?_⟩
  · rcases hcase q id j hg with ⟨rfl, rfl, rfl⟩ | ⟨hne, hg⟩
    · rfl
    · simp only [if_neg hne] at hk
      exact absurd hk (Nat.ne_of_lt (hi.ticket_lt hg))
  · rcases hcase q id j hg with ⟨rfl, rfl, rfl⟩ | ⟨hne, hg⟩
    · simp only [and_self, if_true] at hk
      omega
    · simp only [if_neg hne] at hk
      exact h _ _ _ hg hk

/-- Every step keeps the time of submission of every job in the queues. -/
theorem SInv.step_stamped (hi : SInv C s A) (hN : s.reqs.length < 2 ^ 62) (ht : t < s.reqs.length) (h : Stamped s A t stamp)
    (hs : Step C poison s s') : ∃ A', SInv C s' A' ∧ Stamped s' A' t stamp := by
  cases hs with
  | submit r now hup =>
    obtain ⟨A', h1, -, h3⟩ := hi.submit_stamped hup hN r now
    exact ⟨A', h1, h3 t stamp ht h⟩
  | @claim i q now hup hn hidle =>
    obtain ⟨A', hi'⟩ := hi.claim hup hN hn hidle
    refine ⟨A', hi', ?_⟩
    cases hf : firstFree (A.q q) with
    | none =>
      rw [Sys.claim_none hi now hf] at hi' ⊢
      exact h.congr (hi.rel.unique hi'.rel).1
    | some x =>
      obtain ⟨id0, j0⟩ := x
      obtain ⟨hrun, hrel⟩ := Jobs.claim_some hi.rel hN hi.ids q now hf
      rw [Sys.claim_some hi hN now hf] at hi' ⊢
      obtain ⟨hg0, hfree, hkey⟩ := firstFree_some (hi.rel.qWF q) hf
      obtain ⟨eq, -⟩ := hrel.unique hi'.rel
      intro q' id' j' hg hk
      rw [← eq] at hg
      dsimp only at hg
      rw [upd_apply] at hg
      split at hg
      · rename_i e; subst e
        rw [KV.get_put] at hg
        split at hg
        · rename_i e; subst e; cases hg; exact h _ _ j0 hg0 hk
        · exact h _ _ _ hg hk
      · exact h _ _ _ hg hk
  | @finish i q id j now outcome hup hr hp =>
    exact ⟨_, hi.finish hup hN hr now outcome, h.del (q := q) (id := id) rfl (by simp [retire1, retire2, retire3, finishedOf_id])⟩
  | reset b hup => exact ⟨_, hi.reset b, h⟩
  | kill hup => exact ⟨A, hi.kill, h⟩
  | @killRetire i q id j now outcome c hup hr hp hc =>
    obtain ⟨A', hi'⟩ := hi.killRetire hN hr now outcome hc
    refine ⟨A', hi', ?_⟩
    obtain ⟨raw1, raw2, raw3, e, r1, r2, r3⟩ := retire_run hi.rel q (finishedOf id j now outcome)
      (by rw [finishedOf_id]; exact hi.id_ok hN hr)
    rw [e] at hc
    simp only [List.mem_cons, List.not_mem_nil, or_false] at hc
    rcases hc with rfl | rfl | rfl
    · exact (h.del (q := q) (id := id) (A' := retire1 A q (finishedOf id j now outcome)) rfl (by simp [retire1, finishedOf_id])).congr (r1.unique hi'.rel).1
    · exact (h.del (q := q) (id := id) (A' := retire2 A q (finishedOf id j now outcome)) rfl (by simp [retire1, retire2, finishedOf_id])).congr (r2.unique hi'.rel).1
    · exact (h.del (q := q) (id := id) (A' := retire3 A q (finishedOf id j now outcome)) rfl (by simp [retire1, retire2, retire3, finishedOf_id])).congr
        (r3.unique hi'.rel).1
  | killReset b c hup hc =>
    obtain ⟨A', hi'⟩ := hi.killReset b hc
    refine ⟨A', hi', ?_⟩
    obtain ⟨raw2, tr, e, -, hrel⟩ := reset_run hi.rel b (hi.hist_ok b)
    rw [e] at hc
    rcases hrel c hc with r | r
    · exact Stamped.congr (A := reset1 A b) h (r.unique hi'.rel).1
    · exact Stamped.congr (A := reset2 A b) h (r.unique hi'.rel).1
  | boot n hup => exact ⟨_, hi.boot hup hN n, h.freed (Sys.boot_ghosts s n).2.1 (fun q => .inr rfl)⟩
  | killBoot c hup hc =>
    obtain ⟨A', hi'⟩ := hi.killBoot hup hN hc
    refine ⟨A', hi', ?_⟩
    obtain ⟨raw1, raw2, e, r1, r2⟩ := setup_run hi.rel hN hi.ids
    rw [e] at hc
    simp only [List.mem_cons, List.not_mem_nil, or_false] at hc
    rcases hc with rfl | rfl
    · refine Stamped.congr (h.freed rfl (A' := { A with q := upd A.q .seq (KV.mapV freed (A.q .seq)) }) ?_) (r1.unique hi'.rel).1
      intro q
      simp only [upd_apply]
      split
      · rename_i eq; subst eq; exact .inr rfl
      · exact .inl rfl
    · exact Stamped.congr (h.freed rfl (A' := freeAll A) (fun q => .inr rfl)) (r2.unique hi'.rel).1

theorem Steps.stamped (h : Steps C poison s s') (hN : s'.reqs.length < 2 ^ 62) (hi : SInv C s A) (ht : t < s.reqs.length)
    (hst : Stamped s A t stamp) : ∃ A', SInv C s' A' ∧ Stamped s' A' t stamp ∧ t < s'.reqs.length := by
  induction h with
  | refl => exact ⟨A, hi, hst, ht⟩
  | tail h1 h2 ih =>
    have hN' := Nat.lt_of_le_of_lt h2.reqs_le hN
    obtain ⟨A1, g1, g2, g3⟩ := ih hN'
    obtain ⟨A2, k1, k2⟩ := g1.step_stamped hN' g3 g2 h2
    exact ⟨A2, k1, k2, Nat.lt_of_lt_of_le g3 h2.reqs_le⟩

theorem Steps.reqs_get (h : Steps C poison s s') {r : Request} (ht : s.reqs[t]? = some r) : s'.reqs[t]? = some r := by
  obtain ⟨l, hl⟩ := C38_submissions_kept h
  rw [hl, List.getElem?_append_left (List.getElem?_eq_some_iff.1 ht).1]
  exact ht

/-- What is recorded of a job that finishes. -/
theorem Live.recorded {L : List (Nat × Record)} (h : Live C poison L s s') (hN : s'.reqs.length < 2 ^ 62) (hi : SInv C s A)
    (ht : t < s.reqs.length) (hst : Stamped s A t stamp) {r : Request} (hr : s.reqs[t]? = some r) (hv : r.Valid) {x : Record} (hx : (t, x) ∈ L) :
    x.description = r.describe ∧ x.timing.queued = stamp := by
  induction h with
  | refl => cases hx
  | submit r' now h hup ih =>
    simp only [Sys.submit, List.length_append, List.length_singleton] at hN
    exact ih (by omega) hi ht hst hr hx
  | claim now h hup hn hidle ih => exact ih hN hi ht hst hr hx
  | @finish L s s' i q id j now o h hup hruns hp ih =>
    rcases List.mem_append.1 hx with hx | hx
    · exact ih hN hi ht hst hr hx
    · simp only [List.mem_singleton, Prod.mk.injEq] at hx
      obtain ⟨htk, hxr⟩ := hx
      obtain ⟨A1, g1, g2, -⟩ := h.steps.stamped hN hi ht hst
      obtain ⟨hg, -⟩ := g1.held _ _ _ _ hruns
      obtain ⟨r1, k1, k2, k3, k4⟩ := g1.req _ _ _ hg
      rw [← htk, h.reqs_get hr] at k1
      cases k1
      have hq := g2 q id j hg htk.symm
      have hn : newJobHandler j.type j.params = some r := by rw [← k3, ← k4, newJobHandler_request, if_pos hv]
      subst hxr
      unfold finishedOf
      rw [hn]
      exact ⟨rfl, hq⟩

/-- A read of a queue shows the time of submission. -/
theorem SInv.listing_stamped (h : SInv C s A) (hup : s.up = true) {q : Queue} {l : List Record} (hl : (currentJobs C q s.raw).res = .ok l)
    (ht : t ∈ pending s q) (hst : Stamped s A t stamp) : ∃ line ∈ l, ShowsLine s t line ∧ line.timing.queued = stamp := by
  obtain ⟨h1, h2⟩ := linesOf_lines (currentJobs_run h.rel hl)
  obtain ⟨id, j, hj, rfl⟩ := h.pending_queued.1 (mem_pending'.1 ht)
  obtain ⟨line, hm, e⟩ := h2 j (List.mem_map.2 ⟨(id, j), KV.mem_of_get hj, rfl⟩)
  obtain ⟨r, a, b, c, d⟩ := h.req q id j hj
  refine ⟨line, hm, ⟨r, a, ?_⟩, ?_⟩ <;> unfold lineOf at e <;> rw [← c, ← d, newJobHandler_request] at e <;> split at e
  · simp only [Option.map_some, Option.some.injEq] at e
    subst e
    exact ⟨rfl, rfl, (h.time _ _ _ hj).trans (h.runsOn_iff hup hj)⟩
  · cases e
  · simp only [Option.map_some, Option.some.injEq] at e
    subst e
    exact hst q id j hj rfl
  · cases e

/-- The report on one job, with its time of submission. -/
theorem report_stamped {s1 s2 s3 s4 : Sys} {L1 L2 L3 : List (Nat × Record)} (hi : SInv C s1 A) (hs : Reach C poison s1) (hup : s1.up = true)
    (h12 : Live C poison L1 s1 s2) (h23 : Live C poison L2 s2 s3) (h34 : Live C poison L3 s3 s4) (hN : s4.reqs.length < 2 ^ 62)
    (hL : (L1 ++ L2 ++ L3).length ≤ 100) {current failed completed : List Record}
    (hrep : Reports C s1 s2 s3 s4 current failed completed) (ht : t < s1.reqs.length) (hd : t ∉ s1.done) (hst : Stamped s1 A t stamp) :
    (∃ line ∈ current, (ShowsLine s1 t line ∨ ShowsLine s2 t line) ∧ line.timing.queued = stamp) ∨
    ∃ x, (t, x) ∈ L1 ∧ (if x.failed then x ∈ failed else x ∈ completed) := by
  obtain ⟨a, b, ha, hb, e⟩ := hrep.current
  have hN3 : s3.reqs.length < 2 ^ 62 := Nat.lt_of_le_of_lt h34.steps.reqs_le hN
  have hN2 : s2.reqs.length < 2 ^ 62 := Nat.lt_of_le_of_lt h23.steps.reqs_le hN3
  have hr1 : s1.reqs[t]? = some s1.reqs[t] := List.getElem?_eq_getElem ht
  obtain ⟨A2, hi2, hst2, -⟩ := h12.steps.stamped hN2 hi ht hst
  cases hq : s1.reqs[t].queue with
  | seq =>
    obtain ⟨line, hl, hsl, hq⟩ := hi.listing_stamped hup ha (mem_pending.2 ⟨⟨_, hr1, hq⟩, hd⟩) hst
    exact .inl ⟨line, e ▸ List.mem_append_left _ hl, .inl hsl, hq⟩
  | async =>
    by_cases hd2 : t ∈ s2.done
    · rcases C123_report_misses_no_job hs hup h12 h23 h34 hN hL hrep ht hd with ⟨line, hl, hsl⟩ | h
      · -- then it is a record anyway
        rw [h12.done, List.mem_append, List.mem_reverse, List.mem_map] at hd2
        rcases hd2 with ⟨⟨t', x⟩, hm, rfl⟩ | hd2
        · refine .inr ⟨x, hm, ?_⟩
          simp only [List.length_append] at hL
          cases hf : x.failed with
          | true =>
            refine C123_finished hs (h12.trans h23) hN3 (by simp only [List.length_append]; omega) (List.mem_append_left _ hm) (r := x) ?_
            rw [hf]; exact hrep.failed
          | false =>
            refine C123_finished hs ((h12.trans h23).trans h34) hN (by simp only [List.length_append]; omega)
              (List.mem_append_left _ (List.mem_append_left _ hm)) (r := x) ?_
            rw [hf]; exact hrep.completed
        · exact absurd hd2 hd
      · exact .inr h
    · obtain ⟨line, hl, hsl, hq⟩ := hi2.listing_stamped (h12.up hup) hb (mem_pending.2 ⟨⟨_, h12.reqs_get hr1, hq⟩, hd2⟩) hst2
      exact .inl ⟨line, e ▸ List.mem_append_right _ hl, .inr hsl, hq⟩

end Ferryd.Jobs

namespace Ferryd.Listing
open Ferryd.Jobs
open Ferryd.Client (toBytes)
open Ferryd.Client.Spec (Utf8Text)
open Ferryd.Json (Bytes Report readReport)
open Ferryd.Json.Spec
open Ferryd.Listing.Spec

/-! ## Specification -/

namespace Spec

/-- The screen has a row for submission number `t`, of the request `r` at the time `stamp`: a row of its state, or of its recorded outcome.
In the row: the moment of submission and the time since (or the moment of its end and its durations), and the request's description.
`now` is when the client prints, `s` and `s'` are the moments at which the daemon reads its two queues, and `L` is what finished before. -/
def OnScreen (now : Nat) (s s' : Sys) (L : List (Nat × Record)) (t : Nat) (r : Request) (stamp : Nat) (screen : Screen) : Prop :=
  (∃ row ∈ screen.current, ∃ state when wait, row = [state, when, wait, toBytes r.describe] ∧ Moment stamp when ∧ Lasts ((now : Int) - stamp) wait ∧
    (state = "queued".toUTF8.data.toList ∧ ((∀ i, ¬ RunsOn s i t) ∨ ∀ i, ¬ RunsOn s' i t) ∨
     state = "running".toUTF8.data.toList ∧ ((∃ i, RunsOn s i t) ∨ ∃ i, RunsOn s' i t))) ∨
  ∃ x, (t, x) ∈ L ∧ x.description = r.describe ∧ x.timing.queued = stamp ∧
    if x.failed then
      ∃ row ∈ screen.failed, ∃ when took error, row = ["failed".toUTF8.data.toList, when, took, toBytes r.describe, error] ∧
        Moment x.timing.end_ when ∧ Lasts ((x.timing.end_ : Int) - x.timing.begin_) took ∧ Becomes (toBytes x.error) error
    else
      ∃ row ∈ screen.completed, ∃ when total took, row = ["success".toUTF8.data.toList, when, total, took, toBytes r.describe] ∧
        Moment x.timing.end_ when ∧ Lasts ((x.timing.end_ : Int) - stamp) total ∧ Lasts ((x.timing.end_ : Int) - x.timing.begin_) took

end Spec

/-! ## C163 -/

section
variable {C : Codec} {poison : Str → List Str → Prop} {s0 s1 s2 s3 s4 : Sys} {L0 L1 L2 L3 : List (Nat × Record)} {A : AS}

theorem becomes_text {d : Str} {t : Bytes} (hu : Utf8Text d) (h : Becomes (toBytes d) t) : t = toBytes d :=
  (Json.becomes_unique h (Json.becomes_self.2 hu.2))

/-- From the lists to the rows. -/
theorem onScreen {t : Nat} {r : Request} {stamp : Nat} {L : List (Nat × Record)} (hr1 : s1.reqs[t]? = some r) (hr2 : s2.reqs[t]? = some r)
    (hu : Utf8Text r.describe) {current failed completed : List Record} {started now : Nat} {version s : Bytes} {rp : Report} {screen : Screen}
    (hw : (reportOf started version current failed completed).write = some s) (hr : readReport s = some rp)
    (hp : Printed now true rp screen) (hnow : IsInt64 ((now : Int) - stamp)) (hnear : ∀ x ∈ failed ++ completed, Near x)
    (h : (∃ line ∈ current, (ShowsLine s1 t line ∨ ShowsLine s2 t line) ∧ line.timing.queued = stamp) ∨
      ∃ x, (t, x) ∈ L ∧ (x.description = r.describe ∧ x.timing.queued = stamp) ∧ (if x.failed then x ∈ failed else x ∈ completed)) :
    OnScreen now s1 s2 L t r stamp screen := by
  obtain ⟨h1, h2, h3⟩ := screen_rows hw hr hp
  rcases h with ⟨line, hm, hsh, hq⟩ | ⟨x, hx, ⟨hd, hq⟩, hm⟩
  · left
    obtain ⟨row, hrow, state, when, wait, text, e, hst, hmo, hla, hbe⟩ := h1 line hm (by rw [hq]; exact hnow)
    rw [hq] at hmo hla
    have hdesc : line.description = r.describe := by
      rcases hsh with ⟨r', a, b, -⟩ | ⟨r', a, b, -⟩
      · rw [hr1] at a; cases a; exact b
      · rw [hr2] at a; cases a; exact b
    rw [hdesc] at hbe
    refine ⟨row, hrow, state, when, wait, by rw [e, becomes_text hu hbe], hmo, hla, ?_⟩
    rcases hst with ⟨e1, e2⟩ | ⟨e1, e2⟩
    · refine .inl ⟨e1, ?_⟩
      rcases hsh with ⟨r', -, -, -, g⟩ | ⟨r', -, -, -, g⟩
      · exact .inl fun i hi => (g.2 ⟨i, hi⟩) e2
      · exact .inr fun i hi => (g.2 ⟨i, hi⟩) e2
    · refine .inr ⟨e1, ?_⟩
      rcases hsh with ⟨r', -, -, -, g⟩ | ⟨r', -, -, -, g⟩
      · exact .inl (g.1 e2)
      · exact .inr (g.1 e2)
  · right
    refine ⟨x, hx, hd, hq, ?_⟩
    split
    · rename_i hf
      rw [if_pos hf] at hm
      obtain ⟨row, hrow, when, took, text, error, e, g1, g2, g3, g4⟩ := h2 x hm (hnear x (List.mem_append_left _ hm))
      rw [hd] at g3
      exact ⟨row, hrow, when, took, error, by rw [e, becomes_text hu g3], g1, g2, g4⟩
    · rename_i hf
      rw [if_neg hf] at hm
      obtain ⟨row, hrow, when, total, took, text, e, g1, g2, g3, g4⟩ := h3 x hm (hnear x (List.mem_append_right _ hm))
      rw [hd] at g4
      rw [hq] at g2
      exact ⟨row, hrow, when, total, took, by rw [e, becomes_text hu g4], g1, g2, g3⟩

/-- C163: a job is submitted, and whatever happens then (other submissions, deaths and restarts of the daemon), as long as it is not finished,
`ferryctl status -a` shows it: with the very description of what was asked for, the moment of its submission and the exact time since, as running if
it is being executed and as queued otherwise; or with its outcome, if it finishes while the report is put together. -/
theorem C163_unfinished (h0 : Reach C poison s0) (hup0 : s0.up = true) {r : Request} (hv : r.Valid) (hu : Utf8Text r.describe) {stamp : Nat}
    (h01 : Steps C poison (s0.submit C r stamp) s1) (hup : s1.up = true) (hnd : s0.reqs.length ∉ s1.done)
    (h12 : Live C poison L1 s1 s2) (h23 : Live C poison L2 s2 s3) (h34 : Live C poison L3 s3 s4) (hN : s4.reqs.length < 2 ^ 62)
    (hL : (L1 ++ L2 ++ L3).length ≤ 100) {current failed completed : List Record}
    (hrep : Reports C s1 s2 s3 s4 current failed completed) {started now : Nat} {version s : Bytes} {rp : Report} {screen : Screen}
    (hw : (reportOf started version current failed completed).write = some s) (hr : readReport s = some rp)
    (hp : Printed now true rp screen) (hnow : IsInt64 ((now : Int) - stamp)) (hnear : ∀ x ∈ failed ++ completed, Near x) :
    OnScreen now s1 s2 L1 s0.reqs.length r stamp screen := by
  have hN2 : s2.reqs.length < 2 ^ 62 := Nat.lt_of_le_of_lt (h23.trans h34).steps.reqs_le hN
  have hN1 : s1.reqs.length < 2 ^ 62 := Nat.lt_of_le_of_lt h12.steps.reqs_le hN2
  obtain ⟨A0, hA0⟩ := h0.inv
  obtain ⟨A', g1, g2, -⟩ := hA0.submit_stamped hup0 h0.2 r stamp
  have hlen : s0.reqs.length < (s0.submit C r stamp).reqs.length := by simp [Sys.submit]
  obtain ⟨A1, k1, k2, k3⟩ := h01.stamped hN1 g1 hlen g2
  have hrr : (s0.submit C r stamp).reqs[s0.reqs.length]? = some r := by simp [Sys.submit]
  have hr1 := h01.reqs_get hrr
  have hs1 : Reach C poison s1 := ⟨(h0.1.tail (.submit r stamp hup0)).trans h01, hN1⟩
  refine onScreen hr1 (h12.reqs_get hr1) hu hw hr hp hnow hnear ?_
  rcases report_stamped k1 hs1 hup h12 h23 h34 hN hL hrep k3 hnd k2 with h | ⟨x, hx, hm⟩
  · exact .inl h
  · exact .inr ⟨x, hx, h12.recorded hN2 k1 k3 k2 hr1 hv hx, hm⟩

/-- C163: and when the daemon stays up, finished or not: until a hundred jobs have finished after it was submitted (or somebody clears the
histories), `ferryctl status -a` shows it. -/
theorem C163_kept (h0 : Reach C poison s0) (hup0 : s0.up = true) {r : Request} (hv : r.Valid) (hu : Utf8Text r.describe) {stamp : Nat}
    (h01 : Live C poison L0 (s0.submit C r stamp) s1)
    (h12 : Live C poison L1 s1 s2) (h23 : Live C poison L2 s2 s3) (h34 : Live C poison L3 s3 s4) (hN : s4.reqs.length < 2 ^ 62)
    (hL : (L0 ++ L1 ++ L2 ++ L3).length ≤ 100) {current failed completed : List Record}
    (hrep : Reports C s1 s2 s3 s4 current failed completed) {started now : Nat} {version s : Bytes} {rp : Report} {screen : Screen}
    (hw : (reportOf started version current failed completed).write = some s) (hr : readReport s = some rp)
    (hp : Printed now true rp screen) (hnow : IsInt64 ((now : Int) - stamp)) (hnear : ∀ x ∈ failed ++ completed, Near x) :
    OnScreen now s1 s2 (L0 ++ L1) s0.reqs.length r stamp screen := by
  have hup : s1.up = true := h01.up hup0
  have hN3 : s3.reqs.length < 2 ^ 62 := Nat.lt_of_le_of_lt h34.steps.reqs_le hN
  have hN2 : s2.reqs.length < 2 ^ 62 := Nat.lt_of_le_of_lt h23.steps.reqs_le hN3
  have hN1 : s1.reqs.length < 2 ^ 62 := Nat.lt_of_le_of_lt h12.steps.reqs_le hN2
  have hNs : (s0.submit C r stamp).reqs.length < 2 ^ 62 := Nat.lt_of_le_of_lt h01.steps.reqs_le hN1
  by_cases hd : s0.reqs.length ∈ s1.done
  · obtain ⟨A0, hA0⟩ := h0.inv
    obtain ⟨A', g1, g2, -⟩ := hA0.submit_stamped hup0 h0.2 r stamp
    have hlen : s0.reqs.length < (s0.submit C r stamp).reqs.length := by simp [Sys.submit]
    have hrr : (s0.submit C r stamp).reqs[s0.reqs.length]? = some r := by simp [Sys.submit]
    have hr1 := h01.reqs_get hrr
    have hs0 : Reach C poison (s0.submit C r stamp) := ⟨h0.1.tail (.submit r stamp hup0), hNs⟩
    rw [h01.done, List.mem_append, List.mem_reverse, List.mem_map] at hd
    rcases hd with ⟨⟨t', x⟩, hm, rfl⟩ | hd
    · refine onScreen hr1 (h12.reqs_get hr1) hu hw hr hp hnow hnear (.inr ⟨x, List.mem_append_left _ hm, h01.recorded hN1 g1 hlen g2 hrr hv hm, ?_⟩)
      simp only [List.length_append] at hL
      cases hf : x.failed with
      | true =>
        refine C123_finished hs0 ((h01.trans h12).trans h23) hN3 (by simp only [List.length_append]; omega)
          (List.mem_append_left _ (List.mem_append_left _ hm)) (r := x) ?_
        rw [hf]; exact hrep.failed
      | false =>
        refine C123_finished hs0 (((h01.trans h12).trans h23).trans h34) hN (by simp only [List.length_append]; omega)
          (List.mem_append_left _ (List.mem_append_left _ (List.mem_append_left _ hm))) (r := x) ?_
        rw [hf]; exact hrep.completed
    · exact absurd (hA0.fin _ hd) (Nat.lt_irrefl _)
  · have := C163_unfinished h0 hup0 hv hu h01.steps hup hd h12 h23 h34 hN
      (by simp only [List.length_append] at hL ⊢; omega) hrep hw hr hp hnow hnear
    rcases this with h | ⟨x, hx, h⟩
    · exact .inl h
    · exact .inr ⟨x, List.mem_append_right _ hx, h⟩
end

/-- The hypotheses are met: a job is submitted and claimed, and finishes while the report is taken; it is on the screen. -/
example : ∃ screen L, OnScreen 20 Demo.e1 Demo.e2 L 0 Demo.j0 5 screen := by
  obtain ⟨s, r, screen, h1, h2, h3⟩ := C162_always (started := 1) (version := [49]) (current := [⟨Demo.j0.describe, ⟨5, 8, 0⟩, false, []⟩])
    (failed := []) (completed := [Demo.rec0]) (by
      intro u hu
      refine (Json.year_inRange u).1 ?_
      have : u < 100 := by
        revert u
        decide +kernel
      have : u / 1000000000 / 86400 = 0 := by omega
      rw [this]; decide) 20 true
  refine ⟨screen, [] ++ [(0, Demo.rec0)], C163_kept (poison := Demo.noPoison) (Demo.r0) Demo.up0 (r := Demo.j0) (by decide +kernel) ⟨by decide +kernel, ?_⟩ (stamp := 5)
    (.claim 8 .refl Demo.up1 (by decide) Demo.idle1) (Demo.live12 (by simp [Demo.noPoison])) .refl .refl (by decide +kernel) (by decide)
    Demo.reports h1 h2 h3 (by simp [IsInt64]) ?_⟩
  · exact Json.becomes_self.1 (Json.becomes_ascii (by decide +kernel))
  · intro x hx
    cases List.mem_singleton.1 hx
    unfold Near IsInt64
    decide +kernel

end Ferryd.Listing
