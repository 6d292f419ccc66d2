import Verif.PropsDaemon4
/-!
# PropsRepos: repositories come and go only on request (C145)
-/
namespace Ferryd
open Spec
variable {W : World} {s t u : St} {r : Str} {P : Prop}

theorem repoIs_closed (x r : Str) (P : Prop) : DbClosed x (fun t => Repo t r ↔ P) where
  fs _ _ h := h
  pend _ _ h := h
  clock _ _ h := h
  write s w h hw := by
    cases w <;> first | exact h | exact hw.elim

theorem getRepo_repoIs (x : Str) : Thru (fun t => Repo t r ↔ P) (getRepo x) := by
  unfold getRepo
  refine (Thru.reads Reads.getSt).bind fun s => .ite (.pure _) ?_
  cases s.db.repos.get x with
  | none => exact .throw _
  | some _ =>
    refine Thru.bind (m := bakeRepo x) ?_ fun _ => .vol fun _ h => h
    exact .step fun _ h => h

theorem mIndex_repoIs (E : Env) (x : Str) : Thru (fun t => Repo t r ↔ P) (mIndex E x) :=
  (getRepo_repoIs x).bind fun _ => thru_indexRepo (repoIs_closed x r P) x

theorem createRepo_repoIs (x : Str) : Thru (fun t => Repo t r ↔ True) (createRepo x) := by
  unfold createRepo
  refine (Thru.reads Reads.getSt).bind fun s => ?_
  have rest : Thru (fun t => Repo t r ↔ True) (if s.fs.rdir x then throwE .artifacts else do
      dbWrite .direct (.putRepo x)
      bakeRepo x
      volM (fun s => { s with cache := x :: s.cache })) := by
    refine .ite (.throw _) (Thru.bind ?_ fun _ => Thru.bind (.step fun _ h => h) fun _ => .vol fun _ h => h)
    unfold dbWrite
    refine .ite (.throw _) (.step fun s h => ⟨fun _ => trivial, fun _ => ?_⟩)
    exact (KV.mem_keys_put _ _ _ _).2 (.inr (h.2 trivial))
  cases (getRepo x s).res with
  | ok _ => exact (getRepo_repoIs x).bind fun _ => .throw _
  | err _ => exact rest
  | panic => exact rest

namespace Spec
/-- The job founds repository `r`. -/
def Founds (o : Op) (r : Str) : Prop := o = .create r ∨ ∃ a full, o = .clone a r full
end Spec

theorem Op.repoIs (E : Env) (o : Op) (ht : o.target = some r) (hn : o ≠ .delete r) (hf : Founds o r → P) : Thru (fun t => Repo t r ↔ P) (o.run E) := by
  have cl := fun x => repoIs_closed x r P
  have stp : ∀ {g : St → FS}, Thru (fun t => Repo t r ↔ P) (stepM fun s => s.setFs (g s)) := fun {g} => .step fun _ h => h
  have cr : Founds o r → Thru (fun t => Repo t r ↔ P) (createRepo r) := fun h => by
    have := eq_true (hf h); subst this; exact createRepo_repoIs r
  cases o with
  | create x => cases ht; exact (cr (.inl rfl)).bind fun _ => mIndex_repoIs E r
  | delete x => cases ht; exact absurd rfl hn
  | clone a b f =>
    cases ht
    exact (getRepo_repoIs a).bind fun _ => (cr (.inr ⟨a, f, rfl⟩)).bind fun _ => (thru_cloneFrom (cl r) a f).bind fun _ => mIndex_repoIs E r
  | pull a b =>
    exact Thru.bind ((getRepo_repoIs a).bind fun _ => (getRepo_repoIs b).bind fun _ => (thru_pullFrom (cl b) a).bind fun _ => (mIndex_repoIs E b).bind fun _ => .pure _)
      fun _ => .pure _
  | removeSource x n k => exact (getRepo_repoIs x).bind fun _ => (thru_removeSource (cl x) n k).bind fun _ => mIndex_repoIs E x
  | trimObsolete x => exact (getRepo_repoIs x).bind fun _ => (thru_trimObsolete (cl x)).bind fun _ => mIndex_repoIs E x
  | trimPackages x k => exact (getRepo_repoIs x).bind fun _ => (thru_trimPackages (cl x) k).bind fun _ => mIndex_repoIs E x
  | copySource a b n k sk =>
    refine (getRepo_repoIs a).bind fun _ => (getRepo_repoIs b).bind fun _ => (thru_copySourceFrom (cl b) a n k).bind fun _ => .ite (mIndex_repoIs E b) (.pure _)
  | addPackages x fs st => exact (getRepo_repoIs x).bind fun _ => (Thru.forL fun f _ => thru_addPackage (cl x) _ st).bind fun _ => mIndex_repoIs E x
  | index x => exact mIndex_repoIs E x
  | addDelta x d f t => exact (getRepo_repoIs x).bind fun _ => thru_addDelta (cl x) _ f t
  | refDelta x d => exact (getRepo_repoIs x).bind fun _ => thru_refDelta (cl x) d
  | markFailed i d => cases ht
  | upload f c => cases ht
  | unlink f => cases ht
  | putAsset x a c => exact stp
  | stage x d c => exact stp
  | unstage x d => exact stp
  | restart => cases ht

theorem repo_half {o : Op} (h : Half W o t u) : Repo u r ↔ Repo t r := by unfold Repo; rw [h.db]

/-- Deleting a repository that does not exist does nothing to the database. -/
theorem delete_missing (hre : Real s) (hn : ¬ Repo s r) : deleteRepo r s = ⟨.err .notFound, s, []⟩ := by
  have hg : s.db.repos.get r = none := by
    cases h : s.db.repos.get r with
    | none => rfl
    | some u => exact absurd (repo_of_get h) hn
  have e : getRepo r s = ⟨.err .notFound, s, []⟩ := by
    unfold getRepo
    show M.bind' getSt _ s = _
    simp only [M.bind', getSt]
    rw [if_neg (fun hc => hn (hre.cache r hc)), hg]
    rfl
  unfold deleteRepo
  rw [bind_err e]

/-- C145: however many crashes and I/O errors went before, a repository comes into being only by a job that creates it or clones into it, and ceases to
be only by a job that deletes it; at the end of the job as at any moment of it. -/
theorem C145_repositories (ok : W.OK) (hz : W.NoTorn) (h : Wild W s) (o : Op) (ho : o.Ok W) (u : St) (hu : Moment W o s u ∨ u = o.exec W.E s) (r : Str) :
    (Repo u r → Repo s r ∨ Founds o r) ∧ (Repo s r → Repo u r ∨ o = .delete r) := by
  by_cases ht : o.target = some r
  · by_cases hd : o = .delete r
    · subst hd
      refine ⟨fun hr => ?_, fun _ => .inr rfl⟩
      apply Classical.byContradiction
      intro hn
      have hn : ¬ Repo s r := fun hx => hn (.inl hx)
      have e : (Op.delete r).run W.E s = ⟨.err .notFound, s, []⟩ := delete_missing (h.real ok hz) hn
      rcases hu with ⟨t, ht, _⟩ | rfl
      · rw [e] at ht; cases ht
      · have : (Op.delete r).exec W.E s = s := by unfold Op.exec; rw [e]
        rw [this] at hr; exact hn hr
    · have key : ∀ P : Prop, (Founds o r → P) → (Repo s r ↔ P) → (Repo u r ↔ P) := by
        intro P hf hs
        have := o.repoIs (P := P) W.E ht hd hf
        rcases hu with ⟨t, ht, hh⟩ | rfl
        · rw [repo_half hh]; exact this.tr s hs t ht
        · exact this.fin s hs
      by_cases hr : Repo s r
      · exact ⟨fun _ => .inl hr, fun _ => .inl ((key True (fun _ => trivial) (iff_true_intro hr)).2 trivial)⟩
      · refine ⟨fun hx => ?_, fun hx => absurd hx hr⟩
        by_cases hf : Founds o r
        · exact .inr hf
        · exact ((key False hf (iff_false_intro hr)).1 hx).elim
  · have := (C108_isolation ok hz h o ho r ht u hu).1
    exact ⟨fun hx => .inl (this.1 hx), fun hx => .inl (this.2 hx)⟩

end Ferryd

namespace Ferryd.Daemon
open Ferryd.Jobs Ferryd.Db Ferryd.Spec Ferryd.Daemon.Spec

section
variable {W : World} {T : TramEnv} {C : Codec} {K K' : List Request} {d d' : Sys} {s : St}

theorem got_repo (x r : Str) (s : St) : Repo (getRepo x s).st r ↔ Repo s r :=
  (getRepo_repoIs (r := r) (P := Repo s r) x).fin s Iff.rfl

namespace Spec
/-- The request asks for repository `r` to be founded. -/
def AsksFor (q : Request) (r : Str) : Prop := q = .createRepo r ∨ ∃ a all, q = .cloneRepo a r all
end Spec

/-- C145 at the daemon: each repository there is was asked for, by a request to create it or to clone another into it; whatever has been submitted,
however often the daemon died and whatever I/O errors it met. -/
theorem C145_asked (ok : W.OK) (hz : W.NoTorn) (hd : ∀ d, W.isDelta d = false) (h : Reach (worldUploads W) W.E T C K d) (r : Str) (hr : Repo d.core r) :
    ∃ q ∈ d.jobs.reqs, AsksFor q r := by
  have cl : Closure W (fun o => Founds o r → ∃ q ∈ d.jobs.reqs, AsksFor q r) (fun t => Wild W t ∧ (Repo t r → ∃ q ∈ d.jobs.reqs, AsksFor q r)) (fun _ => true) := by
    have key : ∀ {s : St} (h : Wild W s ∧ (Repo s r → ∃ q ∈ d.jobs.reqs, AsksFor q r)) (o : Op) (ho : o.Ok W)
        (hc : Founds o r → ∃ q ∈ d.jobs.reqs, AsksFor q r) (u : St) (hu : Moment W o s u ∨ u = o.exec W.E s), Repo u r → ∃ q ∈ d.jobs.reqs, AsksFor q r := by
      intro s h o ho hc u hu hx
      exact ((C145_repositories ok hz h.1 o ho u hu r).1 hx).elim h.2 hc
    have nf : ∀ {o : Op}, ¬ Founds o r → (Founds o r → ∃ q ∈ d.jobs.reqs, AsksFor q r) := fun h h' => absurd h' h
    exact ⟨fun h o ho hc => ⟨h.1.job o ho, key h o ho hc _ (.inr rfl)⟩, fun h o ho hc _ hm => ⟨h.1.dies o ho hm, by have := key h o ho hc _ (.inl hm); exact this⟩,
      fun h o ho hc _ hm => ⟨h.1.fails o ho hm, by have := key h o ho hc _ (.inl hm); exact this⟩, fun h => h.1,
      fun x h => ⟨hist_wild.got h.1 x, fun hx => h.2 ((got_repo x r _).1 hx)⟩,
      fun _ => ⟨nf (by rintro (h | ⟨_, _, h⟩) <;> cases h), rfl⟩, fun _ => ⟨nf (by rintro (h | ⟨_, _, h⟩) <;> cases h), rfl⟩,
      nf (by rintro (h | ⟨_, _, h⟩) <;> cases h)⟩
  refine (cl.steps ok hz hd (d := Sys.init) ⟨.refl, Nat.two_pow_pos 62⟩ h.1 h.2 (fun t q hq _ => ⟨?_, ?_⟩) ?_ ?_ ⟨.init, ?_⟩).2 hr
  · rintro o ho (rfl | ⟨a, f, rfl⟩)
    · cases q <;> simp [operation] at ho
      subst ho
      exact ⟨_, List.mem_of_getElem? hq, .inl rfl⟩
    · cases q <;> simp [operation] at ho
      obtain ⟨rfl, rfl, rfl⟩ := ho
      exact ⟨_, List.mem_of_getElem? hq, .inr ⟨_, _, rfl⟩⟩
  · rintro p rfl s target files hs hu (h | ⟨_, _, h⟩) <;> cases h
  · rintro o ho (rfl | ⟨_, _, rfl⟩) <;> cases ho
  · intro r _; exact ⟨fun _ _ => rfl, fun _ _ _ => rfl⟩
  · intro hx; exact absurd hx (by unfold Repo; simp [Sys.init, St.init, KV.keys])

/-- C145 at the daemon: as long as no request to delete a repository is unfinished or gets submitted, the repository stays; and as long as no request
to found it is, none of that name appears. -/
theorem C145_stays (ok : W.OK) (hz : W.NoTorn) (hd : ∀ d, W.isDelta d = false) (h : Reach (worldUploads W) W.E T C K d)
    (hs : Steps (worldUploads W) W.E T C K' d d') (hN : d'.jobs.reqs.length < 2 ^ 62) (r : Str) :
    ((∀ t, d'.jobs.reqs[t]? = some (.deleteRepo r) → t ∈ d.jobs.done) → Repo d.core r → Repo d'.core r) ∧
    ((∀ t q, d'.jobs.reqs[t]? = some q → AsksFor q r → t ∈ d.jobs.done) → Repo d'.core r → Repo d.core r) := by
  have hw := C119_histories ok hz hd h
  constructor
  · intro hq hr
    have cl : Closure W (fun o => o ≠ .delete r) (fun t => Wild W t ∧ Repo t r) (fun _ => true) := by
      have key : ∀ {s : St} (h : Wild W s ∧ Repo s r) (o : Op) (ho : o.Ok W) (hc : o ≠ .delete r) (u : St) (hu : Moment W o s u ∨ u = o.exec W.E s), Repo u r :=
        fun h o ho hc u hu => ((C145_repositories ok hz h.1 o ho u hu r).2 h.2).resolve_right hc
      exact ⟨fun h o ho hc => ⟨h.1.job o ho, key h o ho hc _ (.inr rfl)⟩, fun h o ho hc _ hm => ⟨h.1.dies o ho hm, by have := key h o ho hc _ (.inl hm); exact this⟩,
        fun h o ho hc _ hm => ⟨h.1.fails o ho hm, by have := key h o ho hc _ (.inl hm); exact this⟩, fun h => h.1,
        fun x h => ⟨hist_wild.got h.1 x, (got_repo x r _).2 h.2⟩,
        fun _ => ⟨(by intro h; cases h), rfl⟩, fun _ => ⟨(by intro h; cases h), rfl⟩, by intro h; cases h⟩
    refine (cl.steps ok hz hd h hs hN (fun t q h1 h2 => ⟨?_, ?_⟩) ?_ (fun _ _ => ⟨fun _ _ => rfl, fun _ _ _ => rfl⟩) ⟨hw, hr⟩).2
    · rintro o ho rfl
      cases q <;> simp [operation] at ho
      subst ho
      exact h2 (hq t h1)
    · rintro p rfl s target files hs hu h; cases h
    · rintro o ho rfl; cases ho
  · intro hq hr
    apply Classical.byContradiction
    intro hr0
    have cl : Closure W (fun o => ¬ Founds o r) (fun t => Wild W t ∧ ¬ Repo t r) (fun _ => true) := by
      have key : ∀ {s : St} (h : Wild W s ∧ ¬ Repo s r) (o : Op) (ho : o.Ok W) (hc : ¬ Founds o r) (u : St) (hu : Moment W o s u ∨ u = o.exec W.E s), ¬ Repo u r :=
        fun h o ho hc u hu hx => ((C145_repositories ok hz h.1 o ho u hu r).1 hx).elim h.2 hc
      exact ⟨fun h o ho hc => ⟨h.1.job o ho, key h o ho hc _ (.inr rfl)⟩, fun h o ho hc _ hm => ⟨h.1.dies o ho hm, by have := key h o ho hc _ (.inl hm); exact this⟩,
        fun h o ho hc _ hm => ⟨h.1.fails o ho hm, by have := key h o ho hc _ (.inl hm); exact this⟩, fun h => h.1,
        fun x h => ⟨hist_wild.got h.1 x, fun hx => h.2 ((got_repo x r _).1 hx)⟩,
        fun _ => ⟨(by rintro (h | ⟨_, _, h⟩) <;> cases h), rfl⟩, fun _ => ⟨(by rintro (h | ⟨_, _, h⟩) <;> cases h), rfl⟩, (by rintro (h | ⟨_, _, h⟩) <;> cases h)⟩
    refine (cl.steps ok hz hd h hs hN (fun t q h1 h2 => ⟨?_, ?_⟩) ?_ (fun _ _ => ⟨fun _ _ => rfl, fun _ _ _ => rfl⟩) ⟨hw, hr0⟩).2 hr
    · rintro o ho (rfl | ⟨a, f, rfl⟩)
      · cases q <;> simp [operation] at ho
        subst ho
        exact h2 (hq t _ h1 (.inl rfl))
      · cases q <;> simp [operation] at ho
        obtain ⟨rfl, rfl, rfl⟩ := ho
        exact h2 (hq t _ h1 (.inr ⟨_, _, rfl⟩))
    · rintro p rfl s target files hs hu (h | ⟨_, _, h⟩) <;> cases h
    · rintro o ho (rfl | ⟨_, _, rfl⟩) <;> cases ho

end

/-! ## Not vacuous -/

namespace Demo

/-- C145: "a" has been created and not deleted while the daemon died creating "b", which was asked for. -/
example : Reach (worldUploads W) W.E tram demoCodec [] g9 ∧ Repo g9.core ['a'] ∧ Steps (worldUploads W) W.E tram demoCodec [q5] g9 g12 ∧
    (∀ t, g12.jobs.reqs[t]? = some (.deleteRepo ['a']) → t ∈ g9.jobs.done) ∧
    (∀ t q, g12.jobs.reqs[t]? = some q → AsksFor q ['c'] → t ∈ g9.jobs.done) := by
  have h1 : g12.jobs.reqs = [q0, q1, q5] := by decide +kernel
  refine ⟨r144, by unfold Repo; decide +kernel, s144, fun t ht => ?_, fun t q hq ht => ?_⟩
  · have hm := List.mem_of_getElem? ht
    rw [h1] at hm
    simp only [List.mem_cons, List.not_mem_nil, or_false] at hm
    rcases hm with h | h | h <;> cases h
  · have hm := List.mem_of_getElem? hq
    rw [h1] at hm
    simp only [List.mem_cons, List.not_mem_nil, or_false] at hm
    rcases hm with rfl | rfl | rfl <;> rcases ht with h | ⟨_, _, h⟩ <;> cases h

/-- C145 for one job: the states of the last example, and the moment between the two halves of the creation of "b": the record is there. -/
example : Wild W g11.core ∧ ¬ Repo g11.core ['b'] ∧ ∃ u, Moment W (.create ['b']) g11.core u ∧ Repo u ['b'] := by
  refine ⟨C119_histories Demo.ok noTorn (fun _ => rfl) (K := []) ⟨Steps.tail (K := []) (K' := []) (.tail (K := []) (K' := []) s144a (.submit q5 11 (by decide +kernel)))
    (.claim 12 (by decide +kernel) (by decide) (by unfold Jobs.Sys.Idle; decide +kernel)), by decide +kernel⟩, by unfold Repo; decide +kernel, ?_⟩
  refine ⟨((Op.create ['b']).run W.E g11.core).tr.head (by decide +kernel), ⟨_, List.head_mem _, .whole⟩, by unfold Repo; decide +kernel⟩

end Demo

end Ferryd.Daemon
