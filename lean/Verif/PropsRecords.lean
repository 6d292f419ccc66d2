import Verif.PropsDone
import Verif.PropsCommand
import Verif.PropsWatch
/-!
# PropsRecords: a success row on the screen (C164)

Where the records of the history of completed jobs come from: each of them from the retirement of a job that had carried out its request.
-/
namespace Ferryd.Daemon
open Ferryd.Jobs Ferryd.Db Ferryd.Spec Ferryd.Daemon.Spec

namespace Spec
/-- In the past of `d` a job that asked for what `x` describes was finished (in the step from `a` to `b`), having done what it asked for to the
repositories (`u`; unless the daemon died in that very step they were the same after it, otherwise they were what a crash leaves of them: the same
files and database, with nothing in memory).  (No code: a notion of the statements.) -/
def WasDone (W : World) (T : TramEnv) (C : Codec) (d : Sys) (x : Record) : Prop :=
  ∃ a b u K1 K2 K3 t r, Steps (worldUploads W) W.E T C K1 Sys.init a ∧ Step (worldUploads W) W.E T C K2 a b ∧ Steps (worldUploads W) W.E T C K3 b d ∧
    t ∉ a.jobs.done ∧ t ∈ b.jobs.done ∧ a.jobs.reqs[t]? = some r ∧ r.Valid ∧ x.description = r.describe ∧ Done W T a.core u r ∧
    (b.core = u ∨ b.core = u.crash)
end Spec

section
variable {W : World} {T : TramEnv} {C : Codec} {K K' : List Request} {d d' : Sys} {U : Str → Content → Prop} {E : Env}

/-- Submitting jobs changes neither the histories nor the numbers of the jobs being executed. -/
theorem pushAll_keeps {s : Jobs.Sys} {A : AS} (hi : SInv C s A) (hup : s.up = true) (l : List Request) (now : Nat) (hN : (s.reqs ++ l).length < 2 ^ 62) :
    ∃ A', SInv C (pushAll C s l now) A' ∧ A'.hist = A.hist ∧
      ∀ i q id j, s.Runs i q id j → (pushAll C s l now).ticket q id = s.ticket q id := by
  induction l generalizing s A with
  | nil => exact ⟨A, hi, rfl, fun _ _ _ _ _ => rfl⟩
  | cons r l ih =>
    have hl : s.reqs.length < 2 ^ 62 := by simp at hN; omega
    obtain ⟨A1, h1, h2, -⟩ := hi.submit' hup hl r now
    obtain ⟨A2, g1, g2, g3⟩ := ih (s := s.submit C r now) h1 hup (by simp [Jobs.Sys.submit] at hN ⊢; omega)
    refine ⟨A2, g1, g2.trans h2, fun i q id j hr => ?_⟩
    have hr' : (s.submit C r now).Runs i q id j := hr
    exact (g3 i q id j hr').trans (hi.submit_ticket hl r now ((KV.mem_keys_iff _ _).2 ⟨_, (hi.held _ _ _ _ hr).1⟩))

/-- Where the records of a history come from, in one step. -/
theorem step_records (v : Bool) (h : Reach U E T C K d) (hs : Step U E T C K' d d') (hN : d'.jobs.reqs.length < 2 ^ 62) :
    ∃ A A', SInv C d.jobs A ∧ SInv C d'.jobs A' ∧ ∀ k x, (A'.hist v).get k = some x → (∃ k0, (A.hist v).get k0 = some x) ∨
      ∃ i q id j now l f s, d.jobs.Runs i q id j ∧ Ended E T j d.core K' l f s ∧ x = (finishedOf id j now f).record ∧
        (finishedOf id j now f).failure.isSome = v ∧ (d'.core = s ∨ d'.core = s.crash) ∧ d.jobs.ticket q id ∈ d'.jobs.done := by
  obtain ⟨A, hi⟩ := h.jobs.inv
  have hN0 := h.2
  refine ⟨A, ?_⟩
  have same : ∀ {A' : AS}, SInv C d'.jobs A' → A'.hist = A.hist → ∃ A', SInv C d.jobs A ∧ SInv C d'.jobs A' ∧ ∀ k x, (A'.hist v).get k = some x →
      (∃ k0, (A.hist v).get k0 = some x) ∨
      ∃ i q id j now l f s, d.jobs.Runs i q id j ∧ Ended E T j d.core K' l f s ∧ x = (finishedOf id j now f).record ∧
        (finishedOf id j now f).failure.isSome = v ∧ (d'.core = s ∨ d'.core = s.crash) ∧ d.jobs.ticket q id ∈ d'.jobs.done :=
    fun g e => ⟨_, hi, g, fun k x hx => .inl ⟨k, by rw [← e]; exact hx⟩⟩
  have cleared : ∀ {A' A1 : AS} {b : Bool}, SInv C d'.jobs A' → A'.hist = (reset2 A1 b).hist → A1.hist = A.hist →
      ∃ A', SInv C d.jobs A ∧ SInv C d'.jobs A' ∧ ∀ k x, (A'.hist v).get k = some x →
      (∃ k0, (A.hist v).get k0 = some x) ∨
      ∃ i q id j now l f s, d.jobs.Runs i q id j ∧ Ended E T j d.core K' l f s ∧ x = (finishedOf id j now f).record ∧
        (finishedOf id j now f).failure.isSome = v ∧ (d'.core = s ∨ d'.core = s.crash) ∧ d.jobs.ticket q id ∈ d'.jobs.done := by
    intro A' A1 b g e e1
    refine ⟨_, hi, g, fun k x hx => .inl ⟨k, ?_⟩⟩
    rw [e] at hx
    simp only [reset2, upd_apply] at hx
    split at hx
    · cases hx
    · rw [← e1]; exact hx
  cases hs with
  | submit r now hup =>
    obtain ⟨A', g1, g2, -⟩ := hi.submit' hup hN0 r now
    exact same g1 g2
  | claim now hup hn hidle =>
    obtain ⟨A', g1, g2, -⟩ := hi.claim' hup hN0 hn hidle
    exact same g1 g2
  | reset b hup => exact cleared (A1 := A) (b := b) (hi.reset b) rfl rfl
  | @finish _ i q id j K l f s now hup hr he =>
    obtain ⟨hw, hu, hdn, -, hq⟩ := pushAll_eq (C := C) d.jobs l now
    have hN' : (d.jobs.reqs ++ l).length < 2 ^ 62 := by rw [← hq]; exact hN
    obtain ⟨A1, g1, g2, g3⟩ := pushAll_keeps hi hup l now hN'
    have hruns : (pushAll C d.jobs l now).Runs i q id j := by unfold Jobs.Sys.Runs; rw [hw]; exact hr
    refine ⟨_, hi, g1.finish (hu.trans hup) hN hruns now f, fun k x hx => ?_⟩
    simp only [retire3, retire2, retire1, upd_apply] at hx
    split at hx
    · rename_i e
      rw [KV.get_put] at hx
      split at hx
      · cases hx
        refine .inr ⟨i, q, id, j, now, l, f, s, hr, he, rfl, ?_, .inl rfl, ?_⟩
        · exact e.symm
        · rw [← g3 i q id j hr]; exact List.mem_cons_self ..
      · exact .inl ⟨k, by rw [← g2, e]; exact hx⟩
    · exact .inl ⟨k, by rw [← g2]; exact hx⟩
  | @killRetire _ i q id j K l f s now c hup hr he hc =>
    obtain ⟨hw, hu, hdn, hlog, hq⟩ := pushAll_eq (C := C) d.jobs l now
    have hN' : (d.jobs.reqs ++ l).length < 2 ^ 62 := by rw [← hq]; exact hN
    obtain ⟨A1, g1, g2, g3⟩ := pushAll_keeps hi hup l now hN'
    have hruns : (pushAll C d.jobs l now).Runs i q id j := by unfold Jobs.Sys.Runs; rw [hw]; exact hr
    obtain ⟨A', hi'⟩ := g1.killRetire hN hruns now f hc
    rw [hdn, hlog] at hi'
    refine ⟨A', hi, hi', fun k x hx => ?_⟩
    obtain ⟨raw1, raw2, raw3, e, r1, r2, r3⟩ := retire_run g1.rel q (finishedOf id j now f)
      (by rw [finishedOf_id]; exact g1.id_ok hN hruns)
    rw [e] at hc
    simp only [List.mem_cons, List.not_mem_nil, or_false] at hc
    rcases hc with rfl | rfl | rfl
    · rw [← (r1.unique hi'.rel).2] at hx
      exact .inl ⟨k, by rw [← g2]; exact hx⟩
    · rw [← (r2.unique hi'.rel).2] at hx
      exact .inl ⟨k, by rw [← g2]; exact hx⟩
    · rw [← (r3.unique hi'.rel).2] at hx
      simp only [retire3, retire2, retire1, upd_apply] at hx
      split at hx
      · rename_i e
        rw [KV.get_put] at hx
        split at hx
        · cases hx
          refine .inr ⟨i, q, id, j, now, l, f, s, hr, he, rfl, ?_, .inr rfl, ?_⟩
          · exact e.symm
          · rw [← g3 i q id j hr]; exact List.mem_cons_self ..
        · exact .inl ⟨k, by rw [← g2, e]; exact hx⟩
      · exact .inl ⟨k, by rw [← g2]; exact hx⟩
  | @killRun _ i q id j now n c hup hr hc =>
    obtain ⟨A1, g1, g2, -⟩ := pushAll_keeps hi hup ((Out.pushed (runJob E T j.type j.params d.core)).take n) now
      (by rw [← (pushAll_eq (C := C) d.jobs _ now).2.2.2.2]; exact hN)
    exact same g1.kill g2
  | kill hup hno => exact same hi.kill rfl
  | killReset b c hup hno hc =>
    obtain ⟨A', hi'⟩ := hi.killReset b hc
    obtain ⟨raw2, tr, e, -, hrel⟩ := reset_run hi.rel b (hi.hist_ok b)
    rw [e] at hc
    rcases hrel c hc with r | r
    · exact same hi' (r.unique hi'.rel).2.symm
    · exact cleared (A1 := A) (b := b) hi' (r.unique hi'.rel).2.symm rfl
  | @killResetRun _ i q id j now n c b r hup hr hc hres =>
    obtain ⟨A1, g1, g2, -⟩ := pushAll_keeps hi hup ((Out.pushed (runJob E T j.type j.params d.core)).take n) now
      (by rw [← (pushAll_eq (C := C) d.jobs _ now).2.2.2.2]; exact hN)
    have hlog := (pushAll_eq (C := C) d.jobs ((Out.pushed (runJob E T j.type j.params d.core)).take n) now).2.2.2.1
    obtain ⟨A', hi'⟩ := g1.killReset b hres
    rw [hlog] at hi'
    obtain ⟨raw2, tr, e, -, hrel⟩ := reset_run g1.rel b (g1.hist_ok b)
    rw [e] at hres
    rcases hrel r hres with r | r
    · exact same hi' ((r.unique hi'.rel).2.symm.trans g2)
    · exact cleared (A1 := A1) (b := b) hi' (r.unique hi'.rel).2.symm g2
  | boot n hup => exact same (hi.boot hup hN0 n) rfl
  | killBoot c hup hc =>
    obtain ⟨A', hi'⟩ := hi.killBoot hup hN0 hc
    obtain ⟨raw1, raw2, e, r1, r2⟩ := setup_run hi.rel hN0 hi.ids
    rw [e] at hc
    simp only [List.mem_cons, List.not_mem_nil, or_false] at hc
    rcases hc with rfl | rfl
    · exact same hi' (r1.unique hi'.rel).2.symm
    · exact same hi' (r2.unique hi'.rel).2.symm
  | outside o ho => exact same hi rfl

/-- A job recorded without a failure has done what was requested. -/
theorem ended_done (ok : W.OK) (hz : W.NoTorn) (hd : ∀ d, W.isDelta d = false) (h : Reach (worldUploads W) W.E T C K d) {i : Nat} {q : Queue} {id : Str}
    {j : JobEntry} {now : Nat} {l : List Request} {f : Option Str} {s : St} (hr : d.jobs.Runs i q id j) (he : Ended W.E T j d.core K' l f s)
    (hf : (finishedOf id j now f).failure = none) :
    d.jobs.ticket q id ∉ d.jobs.done ∧ ∃ r, d.jobs.reqs[d.jobs.ticket q id]? = some r ∧ r.Valid ∧ (finishedOf id j now f).record.description = r.describe ∧
      Done W T d.core s r := by
  obtain ⟨r, h1, _, h3, h4, h5⟩ := running h.jobs hr
  refine ⟨h5, r, h1, ?_⟩
  have hnew : newJobHandler j.type j.params = if r.Valid then some r else none := by rw [← h3, ← h4, newJobHandler_request]
  have hj : runJob W.E T j.type j.params = perform W.E T r := by rw [← h3, ← h4, runJob_eq]
  unfold finishedOf at hf ⊢
  rw [hnew] at hf ⊢
  by_cases hv : r.Valid
  · rw [if_pos hv] at hf ⊢
    dsimp only at hf
    refine ⟨hv, rfl, ?_⟩
    cases he with
    | whole msg hp =>
      rw [hj] at hf ⊢
      unfold Out.failure at hf
      split at hf
      · rename_i l hl
        exact (perform_done ok hz hd (C119_histories ok hz hd h) hl).2
      · cases hf
    | fault msg _ _ => cases hf
  · rw [if_neg hv] at hf
    cases hf

theorem completed_inv (ok : W.OK) (hz : W.NoTorn) (hd : ∀ d, W.isDelta d = false) (hs : Steps (worldUploads W) W.E T C K d d') :
    d = Sys.init → d'.jobs.reqs.length < 2 ^ 62 →
    ∃ A, SInv C d'.jobs A ∧ ∀ k x, (A.hist false).get k = some x → WasDone W T C d' x := by
  induction hs with
  | refl =>
    rintro rfl _
    exact ⟨_, SInv.init, fun k x hx => by cases hx⟩
  | @tail d0 m e K1 K2 h1 h2 ih =>
    rintro rfl hN
    have hNm := Nat.lt_of_le_of_lt h2.reqs_le hN
    obtain ⟨A0, i0, p0⟩ := ih rfl hNm
    obtain ⟨A, A', hA, hA', hcase⟩ := step_records false ⟨h1, hNm⟩ h2 hN
    refine ⟨A', hA', fun k x hx => ?_⟩
    rcases hcase k x hx with ⟨k0, h0⟩ | ⟨i, q, id, j, now, l, f, s, hr, he, rfl, hf, hc, hdn⟩
    · rw [← (i0.rel.unique hA.rel).2] at h0
      obtain ⟨a, b, u, L1, L2, L3, t, r, g1, g2, g3, g4⟩ := p0 k0 x h0
      exact ⟨a, b, u, L1, L2, _, t, r, g1, g2, g3.tail h2, g4⟩
    · obtain ⟨g1, r, g2, g3, g4, g5⟩ := ended_done ok hz hd ⟨h1, hNm⟩ hr he (by simpa using hf)
      exact ⟨m, e, s, K1, K2, [], _, r, h1, h2, .refl, g1, hdn, g2, g3, g4, g5, hc⟩

/-- C164: every record in the history of completed jobs (whatever was submitted, and however often the daemon died, also while it was making that
record) is that of a job that had done what was asked for: the listings had changed as requested and not otherwise, and the repository served the right
index of them. -/
theorem C164_completed (ok : W.OK) (hz : W.NoTorn) (hd : ∀ d, W.isDelta d = false) (h : Reach (worldUploads W) W.E T C K d) {l : List Record}
    (hl : (pastJobs C false d.jobs.raw).res = .ok l) {x : Record} (hx : x ∈ l) : WasDone W T C d x := by
  obtain ⟨A, hA, hp⟩ := completed_inv ok hz hd h.1 rfl h.2
  rw [hA.history hl] at hx
  obtain ⟨⟨k, x'⟩, hm, rfl⟩ := List.mem_map.1 hx
  exact hp k _ (KV.get_of_mem (hA.rel.histWF _) hm)

open Ferryd.Listing Ferryd.Listing.Spec in
/-- C164: so every row of the table of completed jobs on `ferryctl status`'s screen (with or without `-a`) is about a request that had been carried out
before the report was read; its description is the request's. -/
theorem C164_screen (ok : W.OK) (hz : W.NoTorn) (hd : ∀ d, W.isDelta d = false) (h : Reach (worldUploads W) W.E T C K d)
    {current failed completed : List Record} (hl : (pastJobs C false d.jobs.raw).res = .ok completed)
    {started now : Nat} {version s : Json.Bytes} {rp : Json.Report} {screen : Screen} {all : Bool}
    (hw : (reportOf started version current failed completed).write = some s) (hr : Json.readReport s = some rp)
    (hp : Printed now all rp screen) {row : List Json.Bytes} (hrow : row ∈ screen.completed) :
    ∃ x, WasDone W T C d x ∧ ∃ when total took text, row = ["success".toUTF8.data.toList, when, total, took, text] ∧
      Json.Spec.Becomes (Client.toBytes x.description) text := by
  have mem : ∀ {l m : List Json.Job}, Json.Spec.JobsBecome l m → ∀ j ∈ m, ∃ j0 ∈ l, Json.Spec.Becomes j0.description j.description := by
    intro l m hb
    induction hb with
    | nil => intro j hj; cases hj
    | @cons d d' e e' t f l m hd he _ ih =>
      intro j hj
      rcases List.mem_cons.1 hj with rfl | hj
      · exact ⟨_, List.mem_cons_self .., hd⟩
      · obtain ⟨j0, h0, h1⟩ := ih j hj
        exact ⟨j0, List.mem_cons_of_mem _ h0, h1⟩
  have sub : ∀ (l : List Json.Job) i, ∀ j ∈ printedJobs all i l, j ∈ l := by
    intro l
    induction l with
    | nil => intro i j hj; cases hj
    | cons a l ih =>
      intro i j hj
      unfold printedJobs at hj
      split at hj
      · cases hj
      · rcases List.mem_cons.1 hj with rfl | hj
        · exact List.mem_cons_self ..
        · exact List.mem_cons_of_mem _ (ih _ j hj)
  have hb := (Json.C160_arrives _ rp hw).1 hr
  obtain ⟨f, c, e, -, -, -, -, pe, -, rfl⟩ := hp
  unfold reportOf at hb
  generalize hR : (⟨started, version, failed.map jobOf, current.map jobOf, completed.map jobOf⟩ : Json.Report) = R at *
  cases hb with
  | mk ti hv hf hc hcomp =>
    cases hR
    obtain ⟨j, hj, rfl⟩ := List.mem_map.1 hrow
    obtain ⟨j0, h0, h1⟩ := mem hcomp j (pe.mem_iff.1 (sub _ _ j hj))
    obtain ⟨x, hx, rfl⟩ := List.mem_map.1 h0
    exact ⟨x, C164_completed ok hz hd h hl hx, _, _, _, _, rfl, h1⟩
end

/-- The hypotheses are met: after three commands the history of completed jobs has three records that C164 is about. -/
example : Reach (worldUploads Demo.W) Demo.W.E Demo.tram demoCodec [] Demo.k3 ∧ ∃ l, (pastJobs demoCodec false Demo.k3.jobs.raw).res = .ok l ∧
    l.map Record.description = [Demo.q0.describe, Demo.q1.describe, Demo.q2.describe] := by
  refine ⟨Demo.rK3, ?_⟩
  have h : (match (pastJobs demoCodec false Demo.k3.jobs.raw).res with
      | .ok l => decide (l.map Record.description = [Demo.q0.describe, Demo.q1.describe, Demo.q2.describe]) | .error _ => false) = true := by
    decide +kernel
  cases hl : (pastJobs demoCodec false Demo.k3.jobs.raw).res with
  | ok l => rw [hl] at h; exact ⟨l, rfl, of_decide_eq_true h⟩
  | error e => rw [hl] at h; cases h

end Ferryd.Daemon
