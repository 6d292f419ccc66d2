import Verif.PropsDone
import Verif.PropsDaemon3
import Verif.ClientBytes
/-!
# PropsCommand: a command, from the shell to the repositories (C159)
-/
namespace Ferryd.Daemon
open Ferryd.Jobs Ferryd.Db Ferryd.Spec Ferryd.Daemon.Spec Ferryd.Client Ferryd.Client.Spec

namespace Spec
/-- What the caller wrote arrives unharmed: the repository name has no characters special in URLs, the other strings are UTF-8, the numbers are 64-bit
integers. (No code: a notion of the statements.) -/
def Sound (c : Client.Call) : Prop :=
  (∀ r, inUrl c = some r → PlainName r) ∧ (∀ s ∈ texts c, Utf8Text s) ∧ (∀ i ∈ Ferryd.Client.Spec.numbers c, Json.Spec.IsInt64 i)

/-- Submission `t`, which asked for `r`, is retired in the course of the execution from `d` to `d'`, in the step from `a` to `b`.  Unless the process dies
in this very step, the recorded outcome describes the request, and if it is "completed" then the request has been carried out.
(No code: a notion of the statements.) -/
def CarriedOut (W : World) (T : TramEnv) (C : Codec) (d d' : Sys) (t : Nat) (r : Request) : Prop :=
  ∃ a b K1 K2 K3, Steps (worldUploads W) W.E T C K1 d a ∧ Step (worldUploads W) W.E T C K2 a b ∧ Steps (worldUploads W) W.E T C K3 b d' ∧
    t ∉ a.jobs.done ∧ t ∈ b.jobs.done ∧
    (b.jobs.up = true → ∃ x, Recorded C a.jobs b.jobs x ∧ (r.Valid → x.description = r.describe) ∧
      (x.failed = false → r.Valid ∧ Done W T a.core b.core r))
end Spec

section
variable {W : World} {T : TramEnv} {C : Codec} {K K' : List Request} {d d' : Sys}

/-- Where a submission gets finished.  (No code: a proof about the model.) -/
theorem finished_at {U : Str → Content → Prop} {E : Env} (hs : Steps U E T C K d d') {t : Nat} (h : t ∉ d.jobs.done) (h' : t ∈ d'.jobs.done) :
    ∃ a b K1 K2 K3, Steps U E T C K1 d a ∧ Step U E T C K2 a b ∧ Steps U E T C K3 b d' ∧ t ∉ a.jobs.done ∧ t ∈ b.jobs.done := by
  induction hs with
  | refl => exact absurd h' h
  | tail h1 h2 ih =>
    rename_i m e _ _
    by_cases hm : t ∈ m.jobs.done
    · obtain ⟨a, b, K1, K2, K3, s1, s2, s3, g⟩ := ih h hm
      exact ⟨a, b, K1, K2, _, s1, s2, s3.tail h2, g⟩
    · exact ⟨m, e, _, _, _, h1, h2, .refl, hm, h'⟩

/-- C159: a call of the client library whose arguments arrive unharmed makes the daemon submit the one job it means; from then on, whatever else is
submitted and however often the daemon dies and is started again, the job is stored, with its parameters, until it is retired; and when it is retired as
completed, what the call asks for has been done to the repositories, by that very job. -/
theorem C159_call (ok : W.OK) (hz : W.NoTorn) (hd : ∀ d, W.isDelta d = false) (h : Reach (worldUploads W) W.E T C K d) (hup : d.jobs.up = true)
    {c : Client.Call} (hc : Sound c) {r : Request} (hm : meaning c = .push r) (now : Nat)
    (hs : Steps (worldUploads W) W.E T C K' { d with jobs := d.jobs.submit C r now } d') (hN : d'.jobs.reqs.length < 2 ^ 62) :
    deliverBytes c = some (.push r) ∧
    ((Ferryd.Jobs.Queued C d'.jobs d.jobs.reqs.length ∧ d.jobs.reqs.length ∉ d'.jobs.done) ∨
      (¬ Ferryd.Jobs.Queued C d'.jobs d.jobs.reqs.length ∧ d.jobs.reqs.length ∈ d'.jobs.done)) ∧
    d'.jobs.reqs[d.jobs.reqs.length]? = some r ∧
    (d.jobs.reqs.length ∈ d'.jobs.done → CarriedOut W T C { d with jobs := d.jobs.submit C r now } d' d.jobs.reqs.length r) := by
  have e : (d.jobs.submit C r now).reqs = d.jobs.reqs ++ [r] ∧ (d.jobs.submit C r now).done = d.jobs.done := ⟨rfl, rfl⟩
  have h1 : Steps (worldUploads W) W.E T C (K ++ []) Sys.init { d with jobs := d.jobs.submit C r now } := h.1.tail (.submit r now hup)
  have hq : (d.jobs.submit C r now).reqs[d.jobs.reqs.length]? = some r := by rw [e.1]; simp
  have hq' := jobs_reqs hs.jobs hq
  have hR : Jobs.Reach C calm d'.jobs := ⟨(h1.trans hs).jobs, hN⟩
  refine ⟨by rw [C82_wire_partial hc.1 hc.2.1 hc.2.2, hm], C38_queued_or_done hR _ (List.getElem?_eq_some_iff.1 hq').1, hq', fun hdone => ?_⟩
  have hnd : d.jobs.reqs.length ∉ (d.jobs.submit C r now).done := by
    obtain ⟨A, hA⟩ := h.jobs.inv
    rw [e.2]
    intro hx
    exact Nat.lt_irrefl _ (hA.fin _ hx)
  obtain ⟨a, b, K1, K2, K3, s1, s2, s3, ha, hb⟩ := finished_at (d := { d with jobs := d.jobs.submit C r now }) hs hnd hdone
  refine ⟨a, b, K1, K2, K3, s1, s2, s3, ha, hb, fun hu => ?_⟩
  have hNb := Nat.lt_of_le_of_lt s3.jobs.reqs_le hN
  have hNa := Nat.lt_of_le_of_lt s2.reqs_le hNb
  exact C146_completed ok hz hd ⟨h1.trans s1, hNa⟩ s2 hNb hu (jobs_reqs s1.jobs hq) ha hb

/-- C159 for a command line of `ferryctl`: it makes the call it means, and what C159 says of that call. -/
theorem C159_command (ok : W.OK) (hz : W.NoTorn) (hd : ∀ d, W.isDelta d = false) (h : Reach (worldUploads W) W.E T C K d) (hup : d.jobs.up = true)
    {cmd : Cmd} {args : List Str} {c : Client.Call} (hm : Means cmd args c) (hn : ∀ r, inUrl c = some r → PlainName r) (ht : ∀ s ∈ texts c, Utf8Text s)
    {r : Request} (hr : meaning c = .push r) (now : Nat)
    (hs : Steps (worldUploads W) W.E T C K' { d with jobs := d.jobs.submit C r now } d') (hN : d'.jobs.reqs.length < 2 ^ 62) :
    cmd.call args = some c ∧ deliverBytes c = some (.push r) ∧ newJobHandler r.type r.params = some r ∧
    ((Ferryd.Jobs.Queued C d'.jobs d.jobs.reqs.length ∧ d.jobs.reqs.length ∉ d'.jobs.done) ∨
      (d.jobs.reqs.length ∈ d'.jobs.done ∧ CarriedOut W T C { d with jobs := d.jobs.submit C r now } d' d.jobs.reqs.length r)) := by
  have hi : ∀ i ∈ Ferryd.Client.Spec.numbers c, Json.Spec.IsInt64 i := by
    cases hm <;> simp only [Ferryd.Client.Spec.numbers, List.mem_singleton, List.not_mem_nil, forall_eq, false_implies, implies_true] <;>
      (unfold Json.Spec.IsInt64; omega)
  obtain ⟨g1, g2, _, g4⟩ := C159_call ok hz hd h hup ⟨hn, ht, hi⟩ hr now hs hN
  refine ⟨C83_command hm, g1, ?_, ?_⟩
  · have hv : r.Valid := by
      cases hm <;> cases hr <;> simp only [Request.Valid] <;> omega
    have := newJobHandler_request r
    rwa [if_pos hv] at this
  · rcases g2 with g | g
    · exact .inl g
    · exact .inr ⟨g.2, g4 g.2⟩

/-- C159, in a run in which every worker gets its turn: the call is carried out.  If the client's call reaches the daemon at moment `n`, there is one later
moment `m` at which the job is retired; then the outcome is recorded, under the right description, and if it is "completed" then what the call asks for has been
done to the repositories at that moment. -/
theorem C159_fair (ok : W.OK) (hz : W.NoTorn) (hd : ∀ d, W.isDelta d = false) {f : Nat → Sys} {a : Nat → Act} {K : Nat → List Request}
    (h : Run (worldUploads W) W.E T C f a K) (hf : Fair (fun n => (f n).jobs) a)
    {c : Client.Call} (hc : Sound c) {r : Request} (hm : meaning c = .push r) {n now : Nat} (hn : a n = .submit r now) :
    deliverBytes c = some (.push r) ∧
    ∃ m, n < m ∧ (∀ k, n < k → ((f n).jobs.reqs.length ∈ (f k).jobs.done ↔ m < k)) ∧
      ∃ x, Recorded C (f m).jobs (f (m + 1)).jobs x ∧ (r.Valid → x.description = r.describe) ∧
        (x.failed = false → r.Valid ∧ Done W T (f m).core (f (m + 1)).core r) := by
  refine ⟨by rw [C82_wire_partial hc.1 hc.2.1 hc.2.2, hm], ?_⟩
  have hmv := h.moves n
  rw [hn] at hmv
  have hs : (f (n + 1)).jobs.reqs = (f n).jobs.reqs ++ [r] ∧ (f (n + 1)).jobs.done = (f n).jobs.done := by
    generalize f (n + 1) = e at hmv
    generalize K n = k at hmv
    cases hmv with
    | submit r now hup => exact ⟨rfl, rfl⟩
  have hr : (f (n + 1)).jobs.reqs[(f n).jobs.reqs.length]? = some r := by rw [hs.1]; simp
  have ht : (f n).jobs.reqs.length ∉ (f (n + 1)).jobs.done := by
    obtain ⟨_, hR⟩ := h.reach n
    obtain ⟨A, hA⟩ := hR.jobs.inv
    rw [hs.2]
    intro hx
    exact Nat.lt_irrefl _ (hA.fin _ hx)
  have hv : Serves (f (n + 1)).jobs 0 (queueOf r) := by
    have hq : queueOf r = .seq := by cases c <;> cases hm <;> rfl
    obtain ⟨hrn, hup⟩ := h.jobs.reach (n + 1)
    obtain ⟨A, hA⟩ := hrn.inv
    rw [hq]; exact hA.seqWorker' hup
  obtain ⟨m, hnm, hdone, _⟩ := C132_carried_out h hf hr hv ht
  refine ⟨m, hnm, hdone, ?_⟩
  have g1 : (f n).jobs.reqs.length ∉ (f m).jobs.done := fun hx => Nat.lt_irrefl _ ((hdone m hnm).1 hx)
  have g2 : (f n).jobs.reqs.length ∈ (f (m + 1)).jobs.done := (hdone (m + 1) (Nat.le_succ_of_le hnm)).2 (Nat.lt_succ_self m)
  obtain ⟨K0, hR⟩ := h.reach m
  rcases (h.moves m).step with ⟨_, e⟩ | hst
  · rw [e] at g2; exact absurd g2 g1
  · have key : ∀ k, n + 1 ≤ k → (f k).jobs.reqs[(f n).jobs.reqs.length]? = some r := by
      intro k hk
      induction hk with
      | refl => exact hr
      | step _ ih => exact (h.jobs.acts _).reqs ih
    have hq := key m hnm
    exact C146_completed ok hz hd hR hst (h.few _) (h.jobs.reach (m + 1)).2 hq g1 g2
end

/-! ## Not vacuous -/

namespace Demo

theorem r159 : Reach (worldUploads W) W.E tram demoCodec [] x2 :=
  ⟨.tail (K := []) (K' := []) (.tail (K := []) (K' := []) .refl (.boot 1 rfl)) (.outside _ (.upload rfl)), by decide +kernel⟩
theorem s159 : Steps (worldUploads W) W.E tram demoCodec [] { x2 with jobs := x2.jobs.submit demoCodec q0 5 } g7 :=
  .tail (K := []) (K' := []) (.tail (K := []) (K' := []) (.tail (K := []) (K' := []) .refl (.submit q1 6 up1))
    (.claim 7 up1 (by decide) (by unfold Jobs.Sys.Idle; decide +kernel)))
    (.finish (d := g6) 8 up1 (by unfold Jobs.Sys.Runs; decide +kernel) (.whole [] (ne_panic (by decide +kernel))))

/-- C159: `ferryctl create-repo a`, and another job; the daemon executes the first. -/
example : Means .createRepo [['a']] (.createRepo ['a']) ∧ (∀ r, inUrl (.createRepo ['a']) = some r → PlainName r) ∧
    (∀ s ∈ texts (.createRepo ['a']), Utf8Text s) ∧ meaning (.createRepo ['a']) = .push q0 ∧
    Reach (worldUploads W) W.E tram demoCodec [] x2 ∧ x2.jobs.up = true ∧
    Steps (worldUploads W) W.E tram demoCodec [] { x2 with jobs := x2.jobs.submit demoCodec q0 5 } g7 ∧ g7.jobs.reqs.length < 2 ^ 62 ∧
    x2.jobs.reqs.length ∈ g7.jobs.done ∧ Repo g7.core ['a'] :=
  ⟨.createRepo _, (by intro r hr; cases hr; decide), (by intro s hs; cases hs), rfl, r159, up1, s159, by decide +kernel, by decide +kernel, by unfold Repo; decide +kernel⟩

/-- The daemon has imported a package into "a" (C144); `ferryctl trim packages a 3` arrives. (No code: demonstration.) -/
def k1 : Sys := { g9 with jobs := g9.jobs.submit demoCodec q2 11 }
/-- It is claimed. (No code: demonstration.) -/
def k2 : Sys := { k1 with jobs := k1.jobs.claim demoCodec 0 .seq 12 }
/-- Its entry. (No code: demonstration.) -/
def kc : JobEntry := ⟨q2.type, true, q2.params, ⟨11, 12, 0⟩⟩
/-- Its execution. (No code: demonstration.) -/
def ko := runJob W.E tram kc.type kc.params k2.core
/-- It is finished. (No code: demonstration.) -/
def k3 : Sys :=
  { jobs := (pushAll demoCodec k2.jobs (Out.pushed ko) 13).finish demoCodec 0 .seq (be8 0) kc 13 (Out.failure ko []), core := ko.st }
theorem upG9 : g9.jobs.up = true := by decide +kernel
theorem upK1 : k1.jobs.up = true := by decide +kernel
theorem upK2 : k2.jobs.up = true := by decide +kernel
theorem upK3 : k3.jobs.up = true := by decide +kernel
theorem idleK : k1.jobs.Idle 0 .seq := by unfold Jobs.Sys.Idle; decide +kernel
theorem runsK : k2.jobs.Runs 0 .seq (be8 0) kc := by unfold Jobs.Sys.Runs; decide +kernel
theorem endK : Ended W.E tram kc k2.core [] (Out.pushed ko) (Out.failure ko []) ko.st := .whole [] (ne_panic (by decide +kernel))
theorem rK3 : Reach (worldUploads W) W.E tram demoCodec [] k3 :=
  ⟨.tail (K := []) (K' := []) (.tail (K := []) (K' := []) (.tail (K := []) (K' := []) r144.1 (.submit q2 11 upG9)) (.claim 12 upK1 (by decide) idleK))
    (.finish (d := k2) 13 upK2 runsK endK), by decide +kernel⟩

/-- The run. (No code: demonstration.) -/
def kRun : Nat → Sys
  | 0 => g9
  | 1 => k1
  | 2 => k2
  | _ + 3 => k3
/-- Its actions. (No code: demonstration.) -/
def kActs : Nat → Act
  | 0 => .submit q2 11
  | 1 => .poll 0 .seq 12
  | 2 => .finish 0 .seq (be8 0) kc 13 (Out.failure ko [])
  | n + 3 => .poll (n % 2) (turnQueue n) 14

theorem workersK : k3.jobs.workers = [⟨.seq, none⟩, ⟨.async, none⟩] := by decide +kernel
theorem idleK3 (n : Nat) : k3.jobs.Idle (n % 2) (turnQueue n) := by
  unfold Jobs.Sys.Idle turnQueue
  rw [workersK]
  rcases (show n % 2 = 0 ∨ n % 2 = 1 by omega) with e | e <;> rw [e] <;> rfl
theorem quietK (n : Nat) : k3.jobs.claim demoCodec (n % 2) (turnQueue n) 14 = k3.jobs := by
  refine (C36_claims_earliest rK3.jobs upK3 (idleK3 n) 14).2 fun t ht => ?_
  obtain ⟨r, hr, -⟩ := ht.1
  have h3 : k3.jobs.done = [2, 1, 0] := by decide +kernel
  have h4 : k3.jobs.reqs.length = 3 := by decide +kernel
  have hlt := (List.getElem?_eq_some_iff.1 hr).1
  refine ht.2.1 ?_
  rw [h3]
  rcases (show t = 0 ∨ t = 1 ∨ t = 2 by omega) with rfl | rfl | rfl <;> decide

theorem isRunK : Run (worldUploads W) W.E tram demoCodec kRun kActs (fun _ => []) where
  start := ⟨[], r144⟩
  up := upG9
  moves := by
    intro n
    match n with
    | 0 => exact .submit q2 11 upG9
    | 1 => exact .poll 12 upK1 (by decide) idleK
    | 2 => exact .finish (d := k2) 13 upK2 runsK endK
    | n + 3 =>
      have := Moves.poll (U := worldUploads W) (E := W.E) (T := tram) (C := demoCodec) 14 upK3 (by decide) (idleK3 n)
      rw [quietK] at this
      exact this
  few := by
    intro n
    match n with
    | 0 => exact r144.2
    | 1 => exact (show k1.jobs.reqs.length < 2 ^ 62 by decide +kernel)
    | 2 => exact (show k2.jobs.reqs.length < 2 ^ 62 by decide +kernel)
    | n + 3 => exact rK3.2

theorem lenK : ∀ n, (kRun n).jobs.workers.length = 2
  | 0 => by decide +kernel
  | 1 => by decide +kernel
  | 2 => by decide +kernel
  | n + 3 => by show k3.jobs.workers.length = 2; decide +kernel

theorem isFairK : Fair (fun n => (kRun n).jobs) kActs where
  polls := by
    intro n i q hi
    have hlt : i < 2 := by rw [← lenK n]; exact (List.getElem?_eq_some_iff.1 hi).1
    refine ⟨2 * n + i + 3, by omega, turnQueue (2 * n + i), 14, ?_⟩
    show Act.poll ((2 * n + i) % 2) _ _ = _
    rw [show (2 * n + i) % 2 = i by omega]
  returns := by
    have idle : ∀ {s : Jobs.Sys}, s.workers = [⟨.seq, none⟩, ⟨.async, none⟩] → ∀ {i q id j}, ¬ s.Runs i q id j := by
      intro s hs i q id j hr
      unfold Jobs.Sys.Runs at hr
      rw [hs] at hr
      match i with
      | 0 => cases hr
      | 1 => cases hr
      | i + 2 => cases hr
    intro n i q id j hr
    match n, hr with
    | 0, hr => exact absurd hr (idle (show g9.jobs.workers = _ by decide +kernel))
    | 1, hr => exact absurd hr (idle (show k1.jobs.workers = _ by decide +kernel))
    | 2, hr =>
      unfold Jobs.Sys.Runs at hr
      rw [show (kRun 2).jobs.workers = [⟨.seq, some (be8 0, kc)⟩, ⟨.async, none⟩] by decide +kernel] at hr
      match i with
      | 0 => exact ⟨2, Nat.le_refl _, _, _, _, _, _, rfl⟩
      | 1 => cases hr
      | i + 2 => cases hr
    | n + 3, hr => exact absurd hr (idle workersK)

/-- C159_fair: the trimming is carried out. -/
example : Means .trimPackages [['a'], ['3']] (.trimPackages ['a'] 3) ∧ Sound (.trimPackages ['a'] 3) ∧
    ∃ m, 0 < m ∧ 2 ∈ (kRun (m + 1)).jobs.done := by
  have hs : Sound (.trimPackages ['a'] 3) :=
    ⟨(by intro r hr; cases hr; decide), (by intro s hs; cases hs), by
      intro i hi; cases List.mem_singleton.1 hi; unfold Json.Spec.IsInt64; decide⟩
  obtain ⟨_, m, hm, hd, _⟩ := C159_fair ok noTorn (fun _ => rfl) isRunK isFairK hs (r := q2) rfl (n := 0) (now := 11) rfl
  refine ⟨?_, hs, m, hm, (hd (m + 1) (by omega)).2 (by omega)⟩
  have h3 : fmtInt 3 = ['3'] := by decide +kernel
  exact h3 ▸ .trimPackages ['a'] 3 (by decide) (by decide)

end Demo
end Ferryd.Daemon
