import Verif.PropsRecords
/-!
# PropsRefused: a failure row on the screen (C166)

Where the records of the history of failed jobs come from: each of them from the end of a job that could not be carried out, or was cut short.
-/
namespace Ferryd.Daemon
open Ferryd.Jobs Ferryd.Db Ferryd.Spec Ferryd.Daemon.Spec

namespace Spec
/-- In the past of `d` a job that asked for what `x` describes was finished (in the step from `a` to `b`) although what it asked for had not been carried
out: its parameters were bad or carrying it out on the repositories of `a` fails; or an I/O error cut it short.
(No code: a notion of the statements.) -/
def HadFailed (W : World) (T : TramEnv) (C : Codec) (d : Sys) (x : Record) : Prop :=
  ∃ a b K1 K2 K3 t r, Steps (worldUploads W) W.E T C K1 Sys.init a ∧ Step (worldUploads W) W.E T C K2 a b ∧ Steps (worldUploads W) W.E T C K3 b d ∧
    t ∉ a.jobs.done ∧ t ∈ b.jobs.done ∧ a.jobs.reqs[t]? = some r ∧ (r.Valid → x.description = r.describe) ∧
    (K2 = [] ∧ (∀ l, (perform W.E T r a.core).res ≠ .ok l) ∨ K2 = [r])
end Spec

section
variable {W : World} {T : TramEnv} {C : Codec} {K K' : List Request} {d d' : Sys}

/-- A job recorded with a failure could not be carried out, or was cut short. -/
theorem ended_failed {E : Env} {U : Str → Content → Prop} (h : Reach U E T C K d) {i : Nat} {q : Queue} {id : Str}
    {j : JobEntry} {now : Nat} {l : List Request} {f : Option Str} {s : St} (hr : d.jobs.Runs i q id j) (he : Ended E T j d.core K' l f s)
    (hf : (finishedOf id j now f).failure.isSome = true) :
    d.jobs.ticket q id ∉ d.jobs.done ∧ ∃ r, d.jobs.reqs[d.jobs.ticket q id]? = some r ∧
      (r.Valid → (finishedOf id j now f).record.description = r.describe) ∧
      (K' = [] ∧ (∀ l, (perform E T r d.core).res ≠ .ok l) ∨ K' = [r]) := by
  obtain ⟨r, h1, _, h3, h4, h5⟩ := running h.jobs hr
  have hnew : newJobHandler j.type j.params = if r.Valid then some r else none := by rw [← h3, ← h4, newJobHandler_request]
  have hj : runJob E T j.type j.params = perform E T r := by rw [← h3, ← h4, runJob_eq]
  refine ⟨h5, r, h1, ?_, ?_⟩
  · intro hv
    unfold finishedOf
    rw [hnew, if_pos hv]
    rfl
  · by_cases hv : r.Valid
    · cases he with
      | whole msg hp =>
        left
        refine ⟨rfl, fun l hl => ?_⟩
        unfold finishedOf at hf
        rw [hnew, if_pos hv] at hf
        dsimp only at hf
        unfold Out.failure at hf
        rw [hj, hl] at hf
        cases hf
      | fault msg _ _ =>
        right
        unfold wanted
        rw [hnew, if_pos hv]
        rfl
    · left
      have hno : ∀ l, (perform E T r d.core).res ≠ .ok l := by
        intro l hl
        unfold perform at hl
        rw [if_neg hv] at hl
        cases hl
      cases he with
      | whole msg hp => exact ⟨rfl, hno⟩
      | fault msg _ _ =>
        refine ⟨?_, hno⟩
        unfold wanted
        rw [hnew, if_neg hv]
        rfl

/-- `HadFailed`, with the requests that were cut short on the way. (No code: a notion of the proof.) -/
def FailedIn (W : World) (T : TramEnv) (C : Codec) (K : List Request) (d : Sys) (x : Record) : Prop :=
  ∃ a b K1 K2 K3 t r, Steps (worldUploads W) W.E T C K1 Sys.init a ∧ Step (worldUploads W) W.E T C K2 a b ∧ Steps (worldUploads W) W.E T C K3 b d ∧
    t ∉ a.jobs.done ∧ t ∈ b.jobs.done ∧ a.jobs.reqs[t]? = some r ∧ (r.Valid → x.description = r.describe) ∧
    (K2 = [] ∧ (∀ l, (perform W.E T r a.core).res ≠ .ok l) ∨ K2 = [r]) ∧ K = K1 ++ K2 ++ K3

theorem FailedIn.had {x : Record} (h : FailedIn W T C K d x) : HadFailed W T C d x := by
  obtain ⟨a, b, L1, L2, L3, t, r, g1, g2, g3, g4, g5, g6, g7, g8, -⟩ := h
  exact ⟨a, b, L1, L2, L3, t, r, g1, g2, g3, g4, g5, g6, g7, g8⟩

theorem failed_inv (hs : Steps (worldUploads W) W.E T C K d d') :
    d = Sys.init → d'.jobs.reqs.length < 2 ^ 62 →
    ∃ A, SInv C d'.jobs A ∧ ∀ k x, (A.hist true).get k = some x → FailedIn W T C K d' x := by
  induction hs with
  | refl =>
    rintro rfl _
    exact ⟨_, SInv.init, fun k x hx => by cases hx⟩
  | @tail d0 m e K1 K2 h1 h2 ih =>
    rintro rfl hN
    have hNm := Nat.lt_of_le_of_lt h2.reqs_le hN
    obtain ⟨A0, i0, p0⟩ := ih rfl hNm
    obtain ⟨A, A', hA, hA', hcase⟩ := step_records true ⟨h1, hNm⟩ h2 hN
    refine ⟨A', hA', fun k x hx => ?_⟩
    rcases hcase k x hx with ⟨k0, h0⟩ | ⟨i, q, id, j, now, l, f, s, hr, he, rfl, hf, -, hdn⟩
    · rw [← (i0.rel.unique hA.rel).2] at h0
      obtain ⟨a, b, L1, L2, L3, t, r, g1, g2, g3, g4, g5, g6, g7, g8, g9⟩ := p0 k0 x h0
      exact ⟨a, b, L1, L2, _, t, r, g1, g2, g3.tail h2, g4, g5, g6, g7, g8, by simp only [g9, List.append_assoc]⟩
    · obtain ⟨g1, r, g2, g3, g4⟩ := ended_failed ⟨h1, hNm⟩ hr he hf
      exact ⟨m, e, K1, K2, [], _, r, h1, h2, .refl, g1, hdn, g2, g3, g4, by simp⟩

/-- C166: every record in the history of failed jobs (whatever was submitted, and however often the daemon died, also while it was making that record) is
that of a job that could not be carried out in the repositories as they were, or was cut short by an I/O error. -/
theorem C166_failed (h : Reach (worldUploads W) W.E T C K d) {l : List Record}
    (hl : (pastJobs C true d.jobs.raw).res = .ok l) {x : Record} (hx : x ∈ l) : HadFailed W T C d x := by
  obtain ⟨A, hA, hp⟩ := failed_inv h.1 rfl h.2
  rw [hA.history hl] at hx
  obtain ⟨⟨k, x'⟩, hm, rfl⟩ := List.mem_map.1 hx
  exact (hp k _ (KV.get_of_mem (hA.rel.histWF _) hm)).had

open Ferryd.Listing Ferryd.Listing.Spec in
/-- C166: so every row of the table of failed jobs on `ferryctl status`'s screen (with or without `-a`) is about such a job; its description is the
request's and its error the recorded one. -/
theorem C166_screen (h : Reach (worldUploads W) W.E T C K d)
    {current failed completed : List Record} (hl : (pastJobs C true d.jobs.raw).res = .ok failed)
    {started now : Nat} {version s : Json.Bytes} {rp : Json.Report} {screen : Screen} {all : Bool}
    (hw : (reportOf started version current failed completed).write = some s) (hr : Json.readReport s = some rp)
    (hp : Printed now all rp screen) {row : List Json.Bytes} (hrow : row ∈ screen.failed) :
    ∃ x, HadFailed W T C d x ∧ ∃ when took text error, row = ["failed".toUTF8.data.toList, when, took, text, error] ∧
      Json.Spec.Becomes (Client.toBytes x.description) text ∧ Json.Spec.Becomes (Client.toBytes x.error) error := by
  have mem : ∀ {l m : List Json.Job}, Json.Spec.JobsBecome l m → ∀ j ∈ m, ∃ j0 ∈ l, Json.Spec.Becomes j0.description j.description ∧
      Json.Spec.Becomes j0.error j.error := by
    intro l m hb
    induction hb with
    | nil => intro j hj; cases hj
    | @cons d d' e e' t f l m hd he _ ih =>
      intro j hj
      rcases List.mem_cons.1 hj with rfl | hj
      · exact ⟨_, List.mem_cons_self .., hd, he⟩
      · obtain ⟨j0, h0, h1⟩ := ih j hj
        exact ⟨j0, List.mem_cons_of_mem _ h0, h1⟩
  have sub : ∀ (l : List Json.Job) i, ∀ j ∈ printedJobs all i l, j ∈ l := by
    intro l
    induction l with
    | nil => intro i j hj; cases hj
    | cons a l ih =>
      intro i j hj
      unfold printedJobs at hj
      split at hj
      · cases hj
      · rcases List.mem_cons.1 hj with rfl | hj
        · exact List.mem_cons_self ..
        · exact List.mem_cons_of_mem _ (ih _ j hj)
  have hb := (Json.C160_arrives _ rp hw).1 hr
  obtain ⟨f, c, e, pf, -, -, -, -, -, rfl⟩ := hp
  unfold reportOf at hb
  generalize hR : (⟨started, version, failed.map jobOf, current.map jobOf, completed.map jobOf⟩ : Json.Report) = R at *
  cases hb with
  | mk ti hv hf hc hcomp =>
    cases hR
    obtain ⟨j, hj, rfl⟩ := List.mem_map.1 hrow
    obtain ⟨j0, h0, h1, h2⟩ := mem hf j (pf.mem_iff.1 (sub _ _ j hj))
    obtain ⟨x, hx, rfl⟩ := List.mem_map.1 h0
    exact ⟨x, C166_failed h hl hx, _, _, _, _, rfl, h1, h2⟩

/-- An upload whose manifest is valid, whose payload is intact and whose files would be accepted if they were imported, succeeds. -/
theorem transit_ok (ok : W.OK) (hd : ∀ d, W.isDelta d = false) {s : St} (h : Reachable W s) {p target : Str} {files : List Str} {t : Tram}
    (hdec : Decodes T s p t) (hwf : WellFormed t) (hint : ∀ f ∈ t.files, Intact W.E T s p f) (hst : Stripped t.target target)
    (hfs : files = t.files.map (fun f => Paths.join (Paths.dir (Paths.absP T.cwd p)) (trimSpace f.path)))
    (hacc : Accepts W s (.addPackages target files true)) (hpa : AssetsParse W ((Op.addPackages target files true).exec W.E s) target)
    (hio : W.E.indexIO s.clock = .ok) : (transitJob W.E T p s).res = .ok () := by
  have once : ∀ {t' : Tram}, Decodes T s p t' → t' = t := by
    rintro t' ⟨c, h1, h2⟩
    obtain ⟨c', h3, h4⟩ := hdec
    rw [h1] at h3; cases h3
    rw [h2] at h4; exact Option.some.inj h4
  have hadd : (mAddPackages W.E target files true s).res = .ok () :=
    (C91_succeeds_iff ok h (.addPackages target files true) (fun f _ => hd _)).2 ⟨hacc, fun r' hr' => by cases hr'; exact ⟨hpa, hio⟩⟩
  have hrepo : target ∈ s.db.repos.keys := hacc.1
  rcases transitJob_cases W.E T p s with ⟨e, -, hn | ⟨t', f, h1, h2, h3⟩⟩ | ⟨t', h1, -, -, target', files', h2, h3, he⟩
  · exact absurd ⟨t, hdec, hwf⟩ hn
  · cases once h1
    exact absurd (hint f h2) h3
  · cases once h1
    have e1 : target' = target := by rw [← (stripped_iff _ _).1 h2, (stripped_iff _ _).1 hst]
    subst e1
    have e2 : files' = files := h3.trans hfs.symm
    subst e2
    obtain ⟨tr, hg, -⟩ := getRepo_run (h.inv ok) hrepo
    have hc : target' ∈ (s.got target').cache := by
      unfold St.got
      split
      · assumption
      · exact List.mem_cons_self ..
    have hg2 : getRepo target' (s.got target') = ⟨.ok (), s.got target', []⟩ := by
      unfold getRepo
      simp only [getSt_bind]
      rw [if_pos hc]
      rfl
    have hadd2 : (mAddPackages W.E target' files' true (s.got target')).res = .ok () := by
      unfold mAddPackages at hadd ⊢
      rw [bind_ok hg] at hadd
      rw [bind_ok hg2]
      exact hadd
    rw [he, bind_ok hg]
    show ((mAddPackages W.E target' files' true >>= fun _ => _) (s.got target')).res = _
    show (M.bind' _ _ _).res = _
    unfold M.bind'
    rw [hadd2]
    obtain ⟨tr', e3, -⟩ := removeLoop_run (files' ++ [Paths.absP T.cwd p]) (mAddPackages W.E target' files' true (s.got target')).st
    dsimp only
    rw [e3]

/-- C166: as long as no job was cut short (by an I/O error or by the death of the daemon) every record in the history of failed jobs is deserved: the
parameters were bad, or it is a delta job, or one for the deltas of a repository that did not exist, or a request that was not valid for the repositories as they were (`Accepts`, see C91), or an upload without a
valid manifest, an intact payload and files that the repository takes, or the index of the repository could not be made (its asset files did not parse, or
a tool failed). -/
theorem C166_deserved (ok : W.OK) (hd : ∀ d, W.isDelta d = false) (h : Reach (worldUploads W) W.E T C [] d) {l : List Record}
    (hl : (pastJobs C true d.jobs.raw).res = .ok l) {x : Record} (hx : x ∈ l) :
    ∃ a b t r, Steps (worldUploads W) W.E T C [] Sys.init a ∧ Step (worldUploads W) W.E T C [] a b ∧ Steps (worldUploads W) W.E T C [] b d ∧
      t ∉ a.jobs.done ∧ t ∈ b.jobs.done ∧ a.jobs.reqs[t]? = some r ∧ (r.Valid → x.description = r.describe) ∧ Reachable W a.core ∧
      (∀ o, r.Valid → operation r = some o → ¬ (Accepts W a.core o ∧
        ∀ n, reindexed o = some n → AssetsParse W (o.exec W.E a.core) n ∧ W.E.indexIO a.core.clock = .ok)) ∧
      (∀ n, r = .deltaRepo n → ¬ Repo a.core n) ∧
      (∀ p, r.Valid → r = .transit p → ¬ ∃ t target files, Decodes T a.core p t ∧ WellFormed t ∧ (∀ f ∈ t.files, Intact W.E T a.core p f) ∧
        Stripped t.target target ∧ files = t.files.map (fun f => Paths.join (Paths.dir (Paths.absP T.cwd p)) (trimSpace f.path)) ∧
        Accepts W a.core (.addPackages target files true) ∧ AssetsParse W ((Op.addPackages target files true).exec W.E a.core) target ∧
        W.E.indexIO a.core.clock = .ok) := by
  obtain ⟨A, hA, hp⟩ := failed_inv h.1 rfl h.2
  rw [hA.history hl] at hx
  obtain ⟨⟨k, x'⟩, hm, rfl⟩ := List.mem_map.1 hx
  obtain ⟨a, b, L1, L2, L3, t, r, g1, g2, g3, g4, g5, g6, g7, g8, g9⟩ := hp k _ (KV.get_of_mem (hA.rel.histWF _) hm)
  obtain ⟨e1, e3⟩ := List.append_eq_nil_iff.1 g9.symm
  obtain ⟨e1, e2⟩ := List.append_eq_nil_iff.1 e1
  subst e1 e2 e3
  have hN := Nat.lt_of_le_of_lt g2.reqs_le (Nat.lt_of_le_of_lt g3.jobs.reqs_le h.2)
  have hre := C86_histories ok hd ⟨g1, hN⟩
  have hno : ∀ l, (perform W.E T r a.core).res ≠ .ok l := by
    rcases g8 with ⟨-, hno⟩ | h8
    · exact hno
    · cases h8
  refine ⟨a, b, t, r, g1, g2, g3, g4, g5, g6, g7, hre, fun o hv ho hacc => ?_, ?_, ?_⟩
  · have hok : o.Ok W := by
      cases r <;> simp only [operation] at ho <;> cases ho <;> first | exact trivial | exact fun f _ => hd _
    have hrun := (C91_succeeds_iff ok hre o hok).2 hacc
    refine hno [] ?_
    unfold perform
    rw [if_pos hv]
    simp only [ho]
    show (M.bind' _ _ _).res = _
    unfold M.bind'
    rw [hrun]
    rfl
  · rintro n rfl hn
    exact hno _ (deltaRepo_perform hn).1
  · rintro p hv rfl ⟨tr, target, files, h1, h2, h3, h4, h5, h6, h7, h8⟩
    have hrun := transit_ok ok hd hre h1 h2 h3 h4 h5 h6 h7 h8
    refine hno [] ?_
    unfold perform
    rw [if_pos hv]
    show (M.bind' _ _ _).res = _
    unfold M.bind'
    rw [hrun]
    rfl
end

namespace Demo
/-- The daemon has the repository "a"; `ferryctl create-repo a` arrives again. (No code: demonstration.) -/
def w1 : Sys := { g9 with jobs := g9.jobs.submit demoCodec q0 11 }
/-- It is claimed. (No code: demonstration.) -/
def w2 : Sys := { w1 with jobs := w1.jobs.claim demoCodec 0 .seq 12 }
/-- Its entry. (No code: demonstration.) -/
def wc : JobEntry := ⟨q0.type, true, q0.params, ⟨11, 12, 0⟩⟩
/-- Its execution. (No code: demonstration.) -/
def wo := runJob W.E tram wc.type wc.params w2.core
/-- It is finished. (No code: demonstration.) -/
def w3 : Sys :=
  { jobs := (pushAll demoCodec w2.jobs (Out.pushed wo) 13).finish demoCodec 0 .seq (be8 0) wc 13 (Out.failure wo ['x']), core := wo.st }

/-- C166 and C166_deserved: it fails, and is in the history of failed jobs; no job was cut short. -/
example : Reach (worldUploads W) W.E tram demoCodec [] w3 ∧ ∃ x, (pastJobs demoCodec true w3.jobs.raw).res = .ok [x] ∧
    x.description = q0.describe ∧ x.error = ['x'] ∧ HadFailed W tram demoCodec w3 x := by
  have hr : Reach (worldUploads W) W.E tram demoCodec [] w3 :=
    ⟨.tail (K := []) (K' := []) (.tail (K := []) (K' := []) (.tail (K := []) (K' := []) r144.1 (.submit q0 11 upG9))
      (.claim 12 (by decide +kernel) (by decide) (by unfold Jobs.Sys.Idle; decide +kernel)))
      (.finish (d := w2) 13 (by decide +kernel) (by unfold Jobs.Sys.Runs; decide +kernel) (.whole ['x'] (ne_panic (by decide +kernel)))), by decide +kernel⟩
  have h : (match (pastJobs demoCodec true w3.jobs.raw).res with
      | .ok [x] => decide (x.description = q0.describe ∧ x.error = ['x']) | _ => false) = true := by decide +kernel
  refine ⟨hr, ?_⟩
  cases hl : (pastJobs demoCodec true w3.jobs.raw).res with
  | ok l =>
    rw [hl] at h
    match l, h, hl with
    | [x], h, hl =>
      obtain ⟨h1, h2⟩ := of_decide_eq_true h
      exact ⟨x, rfl, h1, h2, C166_failed hr hl (List.mem_cons_self ..)⟩
  | error e => rw [hl] at h; cases h
end Demo

end Ferryd.Daemon
