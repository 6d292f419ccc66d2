import Verif.PropsListing
/-!
# PropsStatus: the status report is not taken at one moment (C123, C124)

`GetStatus` reads the two queues and the two histories one after another, taking and releasing the lock of the store each time
(handlers.go:66-96, store.go:334-412).  Jobs are submitted, claimed and finished in between.
-/
namespace Ferryd.Jobs
open Ferryd.Db

/-- store.go:349-375 `cloneCurrentJobs`: the lines for one queue. -/
def currentJobs (C : Codec) (q : Queue) : DM (List Record) := direct (q.handle.forEach (currentLoop C))

/-- `ActiveJobs` is the two reads one after another. -/
theorem activeJobs_eq (C : Codec) (raw : Raw) (a b : List Record) (h1 : currentJobs C .seq raw = ⟨.ok a, raw, []⟩)
    (h2 : currentJobs C .async raw = ⟨.ok b, raw, []⟩) : activeJobs C raw = ⟨.ok (a ++ b), raw, []⟩ := by
  show (currentJobs C .seq >>= fun a => currentJobs C .async >>= fun b => pure (a ++ b)) raw = _
  rw [DM.bind_ok h1, DM.bind_ok h2]
  rfl

/-- The daemon goes on from `s` to `s'`: jobs are submitted, claimed and finished; it stays up and nobody clears a history.  `L` are the
numbers of the jobs that finished on the way, with what was recorded of them, in order.  (No code: the steps of `Jobs.Step` without kills and
resets.) -/
inductive Live (C : Codec) (poison : Str → List Str → Prop) : List (Nat × Record) → Sys → Sys → Prop
  | refl {s : Sys} : Live C poison [] s s
  | submit {L : List (Nat × Record)} {s s' : Sys} (r : Request) (now : Nat) : Live C poison L s s' → s'.up = true →
      Live C poison L s (s'.submit C r now)
  | claim {L : List (Nat × Record)} {s s' : Sys} {i : Nat} {q : Queue} (now : Nat) : Live C poison L s s' → s'.up = true → now ≠ 0 →
      s'.Idle i q → Live C poison L s (s'.claim C i q now)
  | finish {L : List (Nat × Record)} {s s' : Sys} {i : Nat} {q : Queue} {id : Str} {j : JobEntry} (now : Nat) (outcome : Option Str) :
      Live C poison L s s' → s'.up = true → s'.Runs i q id j → ¬ poison j.type j.params →
      Live C poison (L ++ [(s'.ticket q id, (finishedOf id j now outcome).record)]) s (s'.finish C i q id j now outcome)

/-- What the daemon answers to a status request whose four reads happen in the states `s1`, `s2`, `s3` and `s4`.
handlers.go:66-96, store.go:334-412. -/
structure Reports (C : Codec) (s1 s2 s3 s4 : Sys) (current failed completed : List Record) : Prop where
  current : ∃ a b, (currentJobs C .seq s1.raw).res = .ok a ∧ (currentJobs C .async s2.raw).res = .ok b ∧ current = a ++ b
  failed : (pastJobs C true s3.raw).res = .ok failed
  completed : (pastJobs C false s4.raw).res = .ok completed

theorem KV.length_put {α : Type} (m : KV α) (k : Str) (v : α) : (m.put k v).length = m.length ∨ (m.put k v).length = m.length + 1 := by
  induction m with
  | nil => exact .inr rfl
  | cons kv m ih =>
    obtain ⟨k', v'⟩ := kv
    unfold KV.put
    split
    · exact .inl rfl
    · split
      · exact .inr rfl
      · rcases ih with ih | ih
        · exact .inl (by simp [ih])
        · exact .inr (by simp [ih])

variable {C : Codec} {poison : Str → List Str → Prop} {L L' : List (Nat × Record)} {s s' s'' : Sys} {A A' : AS}

theorem Live.steps (h : Live C poison L s s') : Steps C poison s s' := by
  induction h with
  | refl => exact .refl
  | submit r now _ hup ih => exact ih.tail (.submit r now hup)
  | claim now _ hup hn hi ih => exact ih.tail (.claim now hup hn hi)
  | finish now o _ hup hr hp ih => exact ih.tail (.finish now o hup hr hp)

theorem Live.trans (h : Live C poison L s s') (h' : Live C poison L' s' s'') : Live C poison (L ++ L') s s'' := by
  induction h' with
  | refl => rw [List.append_nil]; exact h
  | submit r now _ hup ih => exact .submit r now (ih h) hup
  | claim now _ hup hn hi ih => exact .claim now (ih h) hup hn hi
  | finish now o _ hup hr hp ih => rw [← List.append_assoc]; exact .finish now o (ih h) hup hr hp

theorem Live.up (h : Live C poison L s s') (hup : s.up = true) : s'.up = true := by
  induction h with
  | refl => exact hup
  | submit r now _ h ih => exact h
  | claim now _ h hn hi ih => exact h
  | finish now o _ h hr hp ih => exact h

/-- Exactly the jobs in `L` are finished on the way. -/
theorem Live.done (h : Live C poison L s s') : s'.done = (L.map Prod.fst).reverse ++ s.done := by
  induction h with
  | refl => rfl
  | submit r now _ h ih => exact ih
  | claim now _ h hn hi ih => exact ih
  | finish now o _ h hr hp ih => simp [Sys.finish, ih]

theorem Live.reqs_get (h : Live C poison L s s') {t : Nat} {r : Request} (ht : s.reqs[t]? = some r) : s'.reqs[t]? = some r := by
  induction h with
  | refl => exact ht
  | submit r now _ h ih =>
    show (_ ++ [r])[t]? = _
    rw [List.getElem?_append_left (List.getElem?_eq_some_iff.1 (ih ht)).1]
    exact ih ht
  | claim now _ h hn hi ih => exact ih ht
  | finish now o _ h hr hp ih => exact ih ht

/-- The records of one class in `L`. -/
def ofClass (b : Bool) (L : List (Nat × Record)) : List Record := (L.map Prod.snd).filter fun r => r.failed == b

theorem ofClass_length (b : Bool) (L : List (Nat × Record)) : (ofClass b L).length ≤ L.length := by
  unfold ofClass
  exact Nat.le_trans (List.length_filter_le _ _) (by simp)

theorem record_failed (f : Finished) : f.record.failed = f.failure.isSome := rfl

/-- Where the records made on the way are in the ring. -/
theorem Live.ring (h : Live C poison L s s') (hA : SInv C s A) (hN : s'.reqs.length < 2 ^ 62) :
    ∃ A', SInv C s' A' ∧ (∀ b, ringNext (A'.idx b) = (ringNext (A.idx b) + (ofClass b L).length) % 100) ∧
      (∀ b, (A.hist b).length ≤ (A'.hist b).length ∧ (A'.hist b).length ≤ (A.hist b).length + (ofClass b L).length) ∧
      ∀ b k r, (ofClass b L)[k]? = some r → (ofClass b L).length ≤ k + 100 →
        (A'.hist b).get (be8 ((ringNext (A.idx b) + k) % 100)) = some r := by
  induction h with
  | refl =>
    refine ⟨A, hA, fun b => ?_, fun b => ⟨Nat.le_refl _, by simp [ofClass]⟩, fun b k r hk => by cases hk⟩
    have := ringNext_lt (A.idx b)
    simp only [ofClass, List.map_nil, List.filter_nil, List.length_nil]; omega
  | submit r now h hup ih =>
    simp only [Sys.submit, List.length_append, List.length_singleton] at hN
    obtain ⟨A', h1, h2, h3, h4⟩ := ih hA (by omega)
    obtain ⟨A'', g1, g2, g3⟩ := h1.submit' hup (by omega) r now
    exact ⟨A'', g1, by rw [g3]; exact h2, by rw [g2]; exact h3, by rw [g2]; exact h4⟩
  | claim now h hup hn hi ih =>
    obtain ⟨A', h1, h2, h3, h4⟩ := ih hA hN
    obtain ⟨A'', g1, g2, g3⟩ := h1.claim' hup hN hn hi
    exact ⟨A'', g1, by rw [g3]; exact h2, by rw [g2]; exact h3, by rw [g2]; exact h4⟩
  | @finish L s s' i q id j now o h hup hr hp ih =>
    obtain ⟨A', h1, h2, h3, h4⟩ := ih hA hN
    refine ⟨_, h1.finish hup hN hr now o, ?_⟩
    generalize finishedOf id j now o = f
    have hcls : ∀ b, ofClass b (L ++ [(s'.ticket q id, f.record)]) =
        ofClass b L ++ (if b = f.failure.isSome then [f.record] else []) := by
      intro b
      unfold ofClass
      rw [List.map_append, List.filter_append]
      congr 1
      by_cases e : b = f.failure.isSome
      · subst e; simp [record_failed]
      · rw [if_neg e]
        rw [List.filter_eq_nil_iff]
        intro x hx
        simp only [List.map_cons, List.map_nil, List.mem_singleton] at hx
        subst hx
        rw [record_failed]
        simpa using fun x => e x.symm
    have hlt := fun b => ringNext_lt (A.idx b)
    refine ⟨fun b => ?_, fun b => ?_, fun b k r hk hk2 => ?_⟩
    · rw [hcls]
      simp only [retire3, retire2, upd_apply]
      by_cases e : b = f.failure.isSome
      · subst e
        rw [if_pos rfl, if_pos rfl, h2]
        simp only [List.length_append, List.length_singleton]
        generalize ringNext (A.idx f.failure.isSome) = x
        generalize (ofClass f.failure.isSome L).length = y
        have hx : (x + y) % 100 < 100 := Nat.mod_lt _ (by decide)
        show (if ((x + y) % 100 + 1) % 2 ^ 64 ≥ 100 then 0 else ((x + y) % 100 + 1) % 2 ^ 64) = (x + (y + 1)) % 100
        split <;> omega
      · rw [if_neg e, if_neg e, List.append_nil]; exact h2 b
    · rw [hcls]
      simp only [retire3, retire2, upd_apply]
      have := h3 b
      by_cases e : b = f.failure.isSome
      · subst e
        rw [if_pos rfl, if_pos rfl]
        simp only [List.length_append, List.length_singleton]
        have hl := Jobs.KV.length_put (A'.hist f.failure.isSome) (be8 (ringNext (A'.idx f.failure.isSome))) f.record
        omega
      · rw [if_neg e, if_neg e, List.append_nil]; exact this
    · rw [hcls] at hk hk2
      simp only [retire3, retire2, upd_apply]
      by_cases e : b = f.failure.isSome
      · subst e
        rw [if_pos rfl] at hk hk2 ⊢
        simp only [List.length_append, List.length_singleton] at hk2
        rw [KV.get_put, h2]
        by_cases hkl : k < (ofClass f.failure.isSome L).length
        · rw [List.getElem?_append_left hkl] at hk
          rw [if_neg]
          · exact h4 _ k r hk (by omega)
          · intro e
            have := be8_inj (by have := Nat.mod_lt (ringNext (A.idx f.failure.isSome) + k) (show 100 > 0 by decide); omega)
              (by have := Nat.mod_lt (ringNext (A.idx f.failure.isSome) + (ofClass f.failure.isSome L).length) (show 100 > 0 by decide); omega) e
            omega
        · rw [List.getElem?_append_right (by omega)] at hk
          have : k - (ofClass f.failure.isSome L).length = 0 := by
            rcases Nat.eq_zero_or_pos (k - (ofClass f.failure.isSome L).length) with h | h
            · exact h
            · rw [List.getElem?_eq_none (by simp only [List.length_singleton]; omega)] at hk; cases hk
          rw [this] at hk
          simp only [List.getElem?_cons_zero, Option.some.injEq] at hk
          have : k = (ofClass f.failure.isSome L).length := by omega
          subst this
          rw [if_pos rfl, hk]
      · rw [if_neg e, List.append_nil] at hk hk2
        rw [if_neg e]
        exact h4 b k r hk hk2

/-! ## Reading the store -/

theorem linesOf_lines {js : List JobEntry} {l : List Record} (h : linesOf js = some l) :
    l.length = js.length ∧ ∀ j ∈ js, ∃ r ∈ l, lineOf j = some r := by
  induction js generalizing l with
  | nil => cases h; exact ⟨rfl, fun j hj => by cases hj⟩
  | cons j js ih =>
    simp only [linesOf] at h
    cases hj : lineOf j with
    | none => rw [hj] at h; cases h
    | some r =>
      rw [hj] at h
      cases hl : linesOf js with
      | none => rw [hl] at h; cases h
      | some l' =>
        rw [hl] at h
        cases h
        obtain ⟨h1, h2⟩ := ih hl
        refine ⟨by simp [h1], fun x hx => ?_⟩
        rcases List.mem_cons.1 hx with rfl | hx
        · exact ⟨r, List.mem_cons_self, hj⟩
        · obtain ⟨y, hy, e⟩ := h2 x hx
          exact ⟨y, List.mem_cons_of_mem _ hy, e⟩

theorem currentJobs_run (h : Rel C s.raw A) {q : Queue} {l : List Record} (hl : (currentJobs C q s.raw).res = .ok l) :
    linesOf ((A.q q).map Prod.snd) = some l := by
  unfold currentJobs at hl
  rw [direct_forEach, h.visitsQ, currentLoop_run] at hl
  cases hx : linesOf ((A.q q).map Prod.snd) with
  | none => rw [hx] at hl; cases hl
  | some l' => rw [hx] at hl; cases hl; rfl

/-- A read of a queue that succeeds has a line for every job of the queue, and no more lines. -/
theorem SInv.listing (h : SInv C s A) (hup : s.up = true) {q : Queue} {l : List Record} (hl : (currentJobs C q s.raw).res = .ok l) :
    l.length = (pending s q).length ∧ ∀ t ∈ pending s q, ∃ line ∈ l, ShowsLine s t line := by
  obtain ⟨h1, h2⟩ := linesOf_lines (currentJobs_run h.rel hl)
  constructor
  · rw [h1, ← h.tick]; simp [KV.keys]
  · intro t ht
    obtain ⟨id, j, hj, rfl⟩ := h.pending_queued.1 (mem_pending'.1 ht)
    obtain ⟨line, hm, e⟩ := h2 j (List.mem_map.2 ⟨(id, j), KV.mem_of_get hj, rfl⟩)
    obtain ⟨r, a, b, c, d⟩ := h.req q id j hj
    refine ⟨line, hm, r, a, ?_⟩
    unfold lineOf at e
    rw [← c, ← d, newJobHandler_request] at e
    split at e
    · simp only [Option.map_some, Option.some.injEq] at e
      subst e
      exact ⟨rfl, rfl, (h.time _ _ _ hj).trans (h.runsOn_iff hup hj)⟩
    · cases e

theorem SInv.history (h : SInv C s A) {b : Bool} {l : List Record} (hl : (pastJobs C b s.raw).res = .ok l) :
    l = (A.hist b).map Prod.snd := by
  rw [pastJobs_run h.rel] at hl
  cases hl; rfl

/-! ## C123: a status report misses no job -/

/-- What finished shows up in the history that is read next, as long as it is among the last hundred. -/
theorem C123_finished (hs : Reach C poison s) (h : Live C poison L s s') (hN : s'.reqs.length < 2 ^ 62) (hL : L.length ≤ 100)
    {t : Nat} {r : Record} (hr : (t, r) ∈ L) {l : List Record} (hl : (pastJobs C r.failed s'.raw).res = .ok l) : r ∈ l := by
  obtain ⟨A, hA⟩ := hs.inv
  obtain ⟨A', hA', -, -, h4⟩ := h.ring hA hN
  have hm : r ∈ ofClass r.failed L := by
    unfold ofClass
    rw [List.mem_filter]
    exact ⟨List.mem_map.2 ⟨_, hr, rfl⟩, by simp⟩
  obtain ⟨k, hk⟩ := List.getElem?_of_mem hm
  have := ofClass_length r.failed L
  have := h4 _ k r hk (by omega)
  rw [hA'.history hl]
  exact List.mem_map.2 ⟨_, KV.mem_of_get this, rfl⟩

/-- A job that is not finished when the report begins is shown: with a line for its state when its queue is read, or, if it finished before
that, with its result in the history it belongs to (unless more than a hundred jobs finish while the report is taken). -/
theorem C123_report_misses_no_job {s1 s2 s3 s4 : Sys} {L1 L2 L3 : List (Nat × Record)} (hs : Reach C poison s1) (hup : s1.up = true)
    (h12 : Live C poison L1 s1 s2) (h23 : Live C poison L2 s2 s3) (h34 : Live C poison L3 s3 s4) (hN : s4.reqs.length < 2 ^ 62)
    (hL : (L1 ++ L2 ++ L3).length ≤ 100) {current failed completed : List Record}
    (hrep : Reports C s1 s2 s3 s4 current failed completed) {t : Nat} (ht : t < s1.reqs.length) (hd : t ∉ s1.done) :
    (∃ line ∈ current, ShowsLine s1 t line ∨ ShowsLine s2 t line) ∨
    ∃ r, (t, r) ∈ L1 ∧ (if r.failed then r ∈ failed else r ∈ completed) := by
  obtain ⟨a, b, ha, hb, rfl⟩ := hrep.current
  have hN3 : s3.reqs.length < 2 ^ 62 := Nat.lt_of_le_of_lt h34.steps.reqs_le hN
  have hN2 : s2.reqs.length < 2 ^ 62 := Nat.lt_of_le_of_lt h23.steps.reqs_le hN3
  have hs2 := hs.steps h12.steps hN2
  obtain ⟨A1, hA1⟩ := hs.inv
  obtain ⟨A2, hA2⟩ := hs2.inv
  have hr1 : s1.reqs[t]? = some s1.reqs[t] := List.getElem?_eq_getElem ht
  cases hq : s1.reqs[t].queue with
  | seq =>
    obtain ⟨line, hl, hsl⟩ := (hA1.listing hup ha).2 t (mem_pending.2 ⟨⟨_, hr1, hq⟩, hd⟩)
    exact .inl ⟨line, List.mem_append_left _ hl, .inl hsl⟩
  | async =>
    have hr2 : s2.reqs[t]? = some s1.reqs[t] := h12.reqs_get hr1
    by_cases hd2 : t ∈ s2.done
    · rw [h12.done, List.mem_append, List.mem_reverse, List.mem_map] at hd2
      rcases hd2 with ⟨⟨t', r⟩, hm, rfl⟩ | hd2
      · refine .inr ⟨r, hm, ?_⟩
        simp only [List.length_append] at hL
        cases hf : r.failed with
        | true =>
          refine C123_finished hs (h12.trans h23) hN3 (by simp only [List.length_append]; omega) (List.mem_append_left _ hm) (r := r) ?_
          rw [hf]; exact hrep.failed
        | false =>
          refine C123_finished hs ((h12.trans h23).trans h34) hN (by simp only [List.length_append]; omega)
            (List.mem_append_left _ (List.mem_append_left _ hm)) (r := r) ?_
          rw [hf]; exact hrep.completed
      · exact absurd hd2 hd
    · obtain ⟨line, hl, hsl⟩ := (hA2.listing (h12.up hup) hb).2 t (mem_pending.2 ⟨⟨_, hr2, hq⟩, hd2⟩)
      exact .inl ⟨line, List.mem_append_right _ hl, .inr hsl⟩

/-! ## C124: no job is shown twice -/

/-- C124 as stated by the property: a report has no more lines than jobs were ever submitted. -/
def C124_statement : Prop :=
  ∀ (C : Codec) (s1 s2 s3 s4 : Sys) (L1 L2 L3 : List (Nat × Record)) (current failed completed : List Record),
    Reach C (fun _ _ => False) s1 → s1.up = true → Live C (fun _ _ => False) L1 s1 s2 → Live C (fun _ _ => False) L2 s2 s3 →
    Live C (fun _ _ => False) L3 s3 s4 → s4.reqs.length < 2 ^ 62 → Reports C s1 s2 s3 s4 current failed completed →
    current.length + failed.length + completed.length ≤ s4.reqs.length

/-- The number of records in the two histories. -/
def recorded (raw : Raw) : Nat := ((histHandle true).view raw).length + ((histHandle false).view raw).length

theorem Rel.recorded_eq {raw : Raw} (h : Rel C raw A) : recorded raw = (A.hist true).length + (A.hist false).length := by
  unfold recorded
  rw [h.hist, h.hist]
  simp [KV.mapV]

theorem retire3_count (A : AS) (q : Queue) (f : Finished) : ((retire3 A q f).hist true).length + ((retire3 A q f).hist false).length ≤
    (A.hist true).length + (A.hist false).length + 1 := by
  simp only [retire3, retire2, retire1, upd_apply]
  cases f.failure.isSome with
  | true =>
    rw [if_pos rfl, if_neg (by decide)]
    have := Jobs.KV.length_put (A.hist true) (be8 (ringNext (A.idx true))) f.record
    omega
  | false =>
    rw [if_neg (by decide), if_pos rfl]
    have := Jobs.KV.length_put (A.hist false) (be8 (ringNext (A.idx false))) f.record
    omega

theorem reset2_count (A : AS) (b : Bool) : ((reset2 A b).hist true).length + ((reset2 A b).hist false).length ≤
    (A.hist true).length + (A.hist false).length := by
  simp only [reset2, reset1, upd_apply]
  cases b with
  | true => rw [if_pos rfl, if_neg (by decide)]; simp
  | false => rw [if_neg (by decide), if_pos rfl]; simp

/-- There are never more records than finished jobs. -/
theorem Reach.recorded_le (h : Reach C poison s) : recorded s.raw ≤ s.done.length := by
  refine h.induct (P := fun s => recorded s.raw ≤ s.done.length) ?_ ?_
  · rw [(SInv.init (C := C)).rel.recorded_eq]; exact Nat.le_refl _
  intro s s' A hA hN ih hst
  rw [hA.rel.recorded_eq] at ih
  cases hst with
  | submit r now hup =>
    obtain ⟨A', h1, h2, -⟩ := hA.submit' hup hN r now
    rw [h1.rel.recorded_eq, h2]; exact ih
  | claim now hup hn hi =>
    obtain ⟨A', h1, h2, -⟩ := hA.claim' hup hN hn hi
    rw [h1.rel.recorded_eq, h2]; exact ih
  | @finish i q id j now o hup hr hp =>
    rw [(hA.finish hup hN hr now o).rel.recorded_eq]
    refine Nat.le_trans (retire3_count _ _ _) ?_
    simp only [Sys.finish, List.length_cons]; omega
  | reset b hup =>
    rw [(hA.reset b).rel.recorded_eq]
    exact Nat.le_trans (reset2_count _ _) ih
  | kill hup => rw [hA.kill.rel.recorded_eq]; exact ih
  | @killRetire i q id j now o c hup hr hp hc =>
    obtain ⟨raw1, raw2, raw3, e, r1, r2, r3⟩ := retire_run hA.rel q (finishedOf id j now o)
      (by rw [finishedOf_id]; exact hA.id_ok hN hr)
    rw [e] at hc
    simp only [List.mem_cons, List.not_mem_nil, or_false] at hc
    simp only [List.length_cons]
    rcases hc with rfl | rfl | rfl
    · rw [r1.recorded_eq]; exact Nat.le_succ_of_le ih
    · rw [r2.recorded_eq]; exact Nat.le_succ_of_le ih
    · rw [r3.recorded_eq]
      exact Nat.le_trans (retire3_count _ _ _) (Nat.succ_le_succ ih)
  | killReset b c hup hc =>
    obtain ⟨raw2, t, e, -, h3⟩ := reset_run hA.rel b (hA.hist_ok b)
    rw [e] at hc
    rcases h3 c hc with r | r
    · show recorded c ≤ _; rw [r.recorded_eq]; exact ih
    · show recorded c ≤ _; rw [r.recorded_eq]; exact Nat.le_trans (reset2_count _ _) ih
  | boot n hup => 
    obtain ⟨raw', e, r⟩ := Sys.boot_eq hA hN n
    rw [e]
    show recorded raw' ≤ s.done.length
    rw [r.recorded_eq]; exact ih
  | killBoot c hup hc =>
    obtain ⟨raw1, raw2, e, r1, r2⟩ := setup_run hA.rel hN hA.ids
    rw [e] at hc
    simp only [List.mem_cons, List.not_mem_nil, or_false] at hc
    rcases hc with rfl | rfl
    · show recorded c ≤ _; rw [r1.recorded_eq]; exact ih
    · show recorded c ≤ _; rw [r2.recorded_eq]; exact ih

theorem pending_lt {q : Queue} {t : Nat} (h : t ∈ pending s q) : t < s.reqs.length := by
  obtain ⟨⟨r, hr, -⟩, -⟩ := mem_pending.1 h
  exact (List.getElem?_eq_some_iff.1 hr).1

/-- A report has at most as many lines as jobs were submitted, and one more for every job that finished while it was taken.  (Missing for C124:
a job that finishes between two of the reads can be shown twice.) -/
theorem C124_lines_partial {s1 s2 s3 s4 : Sys} {L1 L2 L3 : List (Nat × Record)} (hs : Reach C poison s1) (hup : s1.up = true)
    (h12 : Live C poison L1 s1 s2) (h23 : Live C poison L2 s2 s3) (h34 : Live C poison L3 s3 s4) (hN : s4.reqs.length < 2 ^ 62)
    {current failed completed : List Record} (hrep : Reports C s1 s2 s3 s4 current failed completed) :
    current.length + failed.length + completed.length ≤ s4.reqs.length + (L1 ++ L2 ++ L3).length := by
  obtain ⟨a, b, ha, hb, rfl⟩ := hrep.current
  have hN3 : s3.reqs.length < 2 ^ 62 := Nat.lt_of_le_of_lt h34.steps.reqs_le hN
  have hN2 : s2.reqs.length < 2 ^ 62 := Nat.lt_of_le_of_lt h23.steps.reqs_le hN3
  have hs2 := hs.steps h12.steps hN2
  have hs3 := hs2.steps h23.steps hN3
  have hs4 := hs3.steps h34.steps hN
  obtain ⟨A1, hA1⟩ := hs.inv
  obtain ⟨A2, hA2⟩ := hs2.inv
  obtain ⟨A3, hA3⟩ := hs3.inv
  obtain ⟨A4, hA4, -, h5, -⟩ := h34.ring hA3 hN
  have la := (hA1.listing hup ha).1
  have lb := (hA2.listing (h12.up hup) hb).1
  have lf : failed.length ≤ (A4.hist true).length := by
    rw [hA3.history hrep.failed, List.length_map]; exact (h5 true).1
  have lc : completed.length = (A4.hist false).length := by
    rw [hA4.history hrep.completed, List.length_map]
  have hrec := hs4.recorded_le
  rw [hA4.rel.recorded_eq, ((h12.trans h23).trans h34).done, List.length_append, List.length_reverse, List.length_map] at hrec
  have hnd : (pending s1 .seq ++ pending s2 .async ++ s1.done).Nodup := by
    rw [List.nodup_append, List.nodup_append]
    refine ⟨⟨pending_nodup _ _, pending_nodup _ _, fun x hx y hy e => ?_⟩, hA1.once, fun x hx y hy e => ?_⟩
    · subst e
      obtain ⟨⟨r, hr, hq⟩, -⟩ := mem_pending.1 hx
      obtain ⟨⟨r', hr', hq'⟩, -⟩ := mem_pending.1 hy
      rw [h12.reqs_get hr] at hr'
      cases hr'
      rw [hq] at hq'; cases hq'
    · subst e
      rcases List.mem_append.1 hx with hx | hx
      · exact (mem_pending.1 hx).2 hy
      · refine (mem_pending.1 hx).2 ?_
        rw [h12.done]
        exact List.mem_append_right _ hy
  have hsub : (pending s1 .seq ++ pending s2 .async ++ s1.done) ⊆ List.range s2.reqs.length := by
    intro x hx
    have h1 := h12.steps.reqs_le
    rw [List.mem_range]
    rcases List.mem_append.1 hx with hx | hx
    · rcases List.mem_append.1 hx with hx | hx
      · have := pending_lt hx; omega
      · exact pending_lt hx
    · have := hA1.fin _ hx; omega
  have hle := (List.subperm_of_subset hnd hsub).length_le
  simp only [List.length_append, List.length_range] at hle hrec ⊢
  have h24 := Nat.le_trans h23.steps.reqs_le h34.steps.reqs_le
  omega

/-- So a report taken while no job finishes shows no job twice: it has at most one line per job. -/
theorem C124_quiet_partial {s1 s2 s3 s4 : Sys} (hs : Reach C poison s1) (hup : s1.up = true)
    (h12 : Live C poison [] s1 s2) (h23 : Live C poison [] s2 s3) (h34 : Live C poison [] s3 s4) (hN : s4.reqs.length < 2 ^ 62)
    {current failed completed : List Record} (hrep : Reports C s1 s2 s3 s4 current failed completed) :
    current.length + failed.length + completed.length ≤ s4.reqs.length :=
  C124_lines_partial hs hup h12 h23 h34 hN hrep

/-! ## Demo: the job finishes between the first and the third read -/

namespace Demo

/-- worker 0 executes j0 -/
def e1 : Sys := d1.claim demoCodec 0 .seq 8
/-- j0 has finished -/
def e2 : Sys := e1.finish demoCodec 0 .seq id0 claimed0 10 none
/-- what is recorded of it -/
def rec0 : Record := (finishedOf id0 claimed0 10 none).record

theorem idle1 : d1.Idle 0 .seq := by unfold Sys.Idle; decide +kernel
theorem re1 : Reach demoCodec poison e1 := ⟨.tail r1.1 (.claim 8 up1 (by decide) idle1), by decide +kernel⟩
theorem upe1 : e1.up = true := by decide +kernel
theorem runse1 : e1.Runs 0 .seq id0 claimed0 := by unfold Sys.Runs; decide +kernel
theorem live12 (h : ¬ poison j0.type j0.params) : Live demoCodec poison [(0, rec0)] e1 e2 := by
  have := Live.finish 10 none (Live.refl (C := demoCodec) (poison := poison) (s := e1)) upe1 runse1 h
  rw [show e1.ticket .seq id0 = 0 by decide +kernel] at this
  exact this

theorem reports : Reports demoCodec e1 e2 e2 e2 [⟨j0.describe, ⟨5, 8, 0⟩, false, []⟩] [] [rec0] := by
  refine ⟨⟨[⟨j0.describe, ⟨5, 8, 0⟩, false, []⟩], [], ?_, ?_, rfl⟩, ?_, ?_⟩
  · decide +kernel
  · decide +kernel
  · decide +kernel
  · decide +kernel

end Demo

/-- A job that finishes while the report is taken is shown as running and as completed. -/
theorem C124_violated : ¬ C124_statement := by
  intro h
  have := h demoCodec Demo.e1 Demo.e2 Demo.e2 Demo.e2 _ _ _ _ _ _ Demo.re1 Demo.upe1 (Demo.live12 (by simp)) .refl .refl (by decide +kernel)
    Demo.reports
  revert this
  decide +kernel

/-- The hypotheses of the theorems are met by this run. -/
example : 0 < Demo.e1.reqs.length ∧ 0 ∉ Demo.e1.done ∧ (0, Demo.rec0) ∈ [(0, Demo.rec0)] ∧
    Live demoCodec Demo.noPoison [(0, Demo.rec0)] Demo.e1 Demo.e2 :=
  ⟨by decide +kernel, by decide +kernel, by simp, Demo.live12 (by simp [Demo.noPoison])⟩

end Ferryd.Jobs
