import Verif.PropsRepos
/-!
# PropsDone: a request recorded as completed has been carried out (C146)
-/
namespace Ferryd.Daemon
open Ferryd.Jobs Ferryd.Db Ferryd.Spec Ferryd.Daemon.Spec

namespace Spec
/-- No other repository's listing has changed. -/
def Elsewhere (s t : St) (r : Str) : Prop := ∀ r' n x, r' ≠ r → (Lists t r' n x ↔ Lists s r' n x)
/-- No listing has changed. -/
def AllKept (s t : St) : Prop := ∀ r n x, Lists t r n x ↔ Lists s r n x
/-- The repository serves the right index: its tips not hidden by the distribution file, exactly these, in order and rightly described, components and
groups of the asset files, and the listed deltas. -/
def Shows (W : World) (t : St) (r : Str) : Prop := ∃ doc, t.fs.idx r = some doc ∧ IndexRight W t r doc ∧ IndexDeltas W t r doc
/-- The files are listed besides what was. -/
def TakenIn (W : World) (s t : St) (r : Str) (files : List Str) : Prop :=
  ∀ n x, Lists t r n x ↔ Lists s r n x ∨ ((∃ f ∈ files, x = baseName f) ∧ nameOf W x = n)

/-- What each kind of request asks for, as a relation between the repositories before (`s`) and after (`t`).  (A copy of a source publishes the index
only if the flag that ought to suppress this is set, C17; and trimming obsolete packages removes only the first debug package of a name, C20.) -/
def Done (W : World) (T : TramEnv) (s t : St) : Request → Prop
  | .createRepo r => ¬ Repo s r ∧ Repo t r ∧ AllKept s t ∧ Shows W t r
  | .deleteRepo r => Repo s r ∧ ¬ Repo t r ∧ (∀ n x, ¬ Lists t r n x) ∧ (∀ d id, t.fs.read (.repo r d id) = none) ∧
      (∀ a, t.fs.read (.asset r a) = none) ∧ t.fs.idx r = none ∧ Elsewhere s t r
  | .cloneRepo a b all => Repo s a ∧ ¬ Repo s b ∧ Repo t b ∧ (∀ n x, Lists t b n x ↔ if all then Lists s a n x else Tip s a n x) ∧
      Elsewhere s t b ∧ Shows W t b
  | .pullRepo a b => Repo s a ∧ Repo s b ∧ (∀ n x, Lists t b n x ↔ Lists s b n x ∨ (Tip s a n x ∧ Behind W s b n x)) ∧ Elsewhere s t b ∧ Shows W t b
  | .copySource a b source rel flag => Repo s a ∧ Repo s b ∧ (∀ n x, Lists t b n x ↔ Lists s b n x ∨ (Lists s a n x ∧ FromSource W source rel x)) ∧
      Elsewhere s t b ∧ (flag = true → Shows W t b)
  | .removeSource r source rel => Repo s r ∧ (∀ n x, Lists t r n x ↔ Lists s r n x ∧ ¬ FromSource W source rel x) ∧ Elsewhere s t r ∧ Shows W t r
  | .trimPackages r k => Repo s r ∧ (∀ n x, Lists t r n x → Lists s r n x) ∧ (∀ n x, Tip s r n x → Lists t r n x) ∧
      (∀ n x L, Lists s r n x → Enumerates L (fun y => Lists s r n y ∧ y ≠ x ∧ relOf W x ≤ relOf W y) → (L.length : Int) < k → Lists t r n x) ∧
      (∀ n x L, Lists s r n x → ¬ Tip s r n x → Enumerates L (fun y => Lists s r n y ∧ relOf W x < relOf W y) → k ≤ L.length → ¬ Lists t r n x) ∧
      Elsewhere s t r ∧ Shows W t r
  | .trimObsolete r => Repo s r ∧ (∃ obs, (s.fs.read (.asset r .distribution)).bind W.E.parseDist = some obs ∧
      (∀ n x, (¬ ∃ b ∈ obs, n = b ++ "-dbginfo".toList) → (Lists t r n x ↔ Lists s r n x)) ∧
      (∀ b ∈ obs, ∀ x, Lists t r (b ++ "-dbginfo".toList) x ↔ Lists s r (b ++ "-dbginfo".toList) x ∧
        ∃ y, Lists s r (b ++ "-dbginfo".toList) y ∧ y ≠ x ∧ strLe y x = true)) ∧ Elsewhere s t r ∧ Shows W t r
  | .indexRepo r => Repo s r ∧ AllKept s t ∧ Shows W t r
  | .bulkAdd r files => Repo s r ∧ TakenIn W s t r files ∧ Elsewhere s t r ∧ Shows W t r
  | .transit p => ∃ r files, Uploads T s p r files ∧ Repo s r ∧ TakenIn W s t r files ∧ Elsewhere s t r ∧ Shows W t r ∧
      (∀ f ∈ files, t.fs.read (.ext f) = none) ∧ t.fs.read (.ext (Paths.absP T.cwd p)) = none
  | .deltaRepo r => Repo s r ∧ AllKept s t
  | .delta _ _ | .deltaIndex _ _ => False
end Spec

section
variable {W : World} {T : TramEnv} {C : Codec} {K K' : List Request} {d d' : Sys} {s t : St} {α β : Type}

/-- A job that looks a repository up succeeds only if it exists. -/
theorem gets_post (hre : Real s) (x : Str) {f : Unit → M β} {P : β → St → Prop} (hf : ∀ t, Real t → t.db = s.db → Repo s x → Post (f ()) t P) :
    Post (getRepo x >>= f) s P :=
  Post.bind (m := getRepo x) (P := fun _ t => Known x t ∧ t.db = s.db) ⟨(getRepo_real x hre).val⟩ fun _ t ht => hf t ht.1.1 ht.2 (by
    have := ht.1.2
    unfold Repo at *; rwa [ht.2] at this)

theorem needs (hre : Real s) (x : Str) {f : Unit → M β} {b : β} (h : ((getRepo x >>= f) s).res = .ok b) : Repo s x :=
  (gets_post hre x (P := fun _ _ => Repo s x) fun _ _ _ hx => ⟨fun _ _ => hx⟩).run b h

theorem needs2 (hre : Real s) (x y : Str) {f : Unit → M β} {b : β} (h : ((getRepo x >>= fun _ => getRepo y >>= f) s).res = .ok b) : Repo s x ∧ Repo s y :=
  (gets_post hre x (P := fun _ _ => Repo s x ∧ Repo s y) fun t ht e hx => (gets_post ht y fun _ _ _ hy => ⟨fun _ _ => ⟨hx, by unfold Repo at *; rwa [e] at hy⟩⟩)).run b h

/-- A creation that succeeds was of a repository that did not exist, and now does. -/
theorem founded (hre : Real s) (x : Str) {f : Unit → M Unit} (hf : Thru (fun t => Repo t x ↔ True) (f ())) (h : ((createRepo x >>= f) s).res = .ok ()) :
    ¬ Repo s x ∧ Repo ((createRepo x >>= f) s).st x :=
  (Post.bind (m := createRepo x) (P := fun _ t => Known x t ∧ t.db.ents = s.db.ents ∧ ¬ Repo s x) (R := fun _ t => ¬ Repo s x ∧ Repo t x)
    ⟨(createRepo_real x hre).val⟩ fun _ t ht => ⟨fun _ _ => ⟨ht.2.2, (hf.fin t (iff_true_intro ht.1.2)).2 trivial⟩⟩).run () h

theorem shows_of (ok : W.OK) (hz : W.NoTorn) (h : Wild W s) (o : Op) (ho : o.Ok W) {r : Str} (hp : o.publishes = some r)
    (hres : (o.run W.E s).res = .ok ()) : Shows W (o.run W.E s).st r := C112_index ok hz h o ho hp hres

theorem none_listed (hre : Real s) {r : Str} (hr : ¬ Repo s r) (n x : Str) : ¬ Lists s r n x := fun ⟨e, he, _⟩ => hr (hre.ents r n e he)

/-- A repository operation that succeeds has done what the request asks for. -/
theorem op_done (ok : W.OK) (hz : W.NoTorn) (hd : ∀ d, W.isDelta d = false) (h : Wild W s) (q : Request) {o : Op} (hq : operation q = some o)
    (hres : (o.run W.E s).res = .ok ()) : Done W T s (o.run W.E s).st q := by
  have hre := h.real ok hz
  cases q <;> cases hq
  case bulkAdd r files =>
    have := C113_import ok hz h (strict := false) (fun f _ => hd _) hres
    exact ⟨needs hre r hres, this.1, this.2, shows_of ok hz h (.addPackages r files false) (fun f _ => hd _) rfl hres⟩
  case copySource a b source rel sk =>
    have := C113_copy_source ok hz h hres
    have hn := needs2 hre a b hres
    refine ⟨hn.1, hn.2, this.1, this.2, fun hf => ?_⟩
    subst hf
    have hk : Post ((Op.copySource a b source rel true).run W.E) s (fun _ t => Shows W t b) :=
      ((getRepo_keeps (tgt := some b) a).post (h.rough ok hz)).bind fun _ u hu => ((getRepo_keeps (tgt := some b) b).post hu.1).bind fun _ v hv =>
        ((copySourceFrom_keeps ok b a source rel).post hv.1).bind fun _ w hw => (mIndex_post ok b hw.1).mono fun _ _ hx => hx.2
    exact hk.run () hres
  case cloneRepo a b all =>
    have := C113_clone ok hz h hres
    have hn := needs hre a hres
    have hf : ¬ Repo s b ∧ Repo ((Op.clone a b all).run W.E s).st b :=
      (gets_post hre a (P := fun _ t => ¬ Repo s b ∧ Repo t b) fun t ht e _ => ⟨fun _ hx => by
        have := founded (s := t) ht b ((thru_cloneFrom (repoIs_closed b b True) a all).bind fun _ => mIndex_repoIs W.E b) hx
        refine ⟨?_, this.2⟩
        have h1 := this.1
        unfold Repo at *; rwa [e] at h1⟩).run () hres
    refine ⟨hn, hf.1, hf.2, fun n x => (this.1 n x).trans ⟨fun hx => hx.resolve_left (none_listed hre hf.1 n x), .inr⟩, this.2, shows_of ok hz h (.clone a b all) trivial rfl hres⟩
  case createRepo r =>
    have hf := founded hre r (mIndex_repoIs W.E r) hres
    refine ⟨hf.1, hf.2, fun r' n x => ?_, shows_of ok hz h (.create r) trivial rfl hres⟩
    have e : (mCreateRepo W.E r s).st.db.ents = s.db.ents :=
      (((createRepo_ents r).bind fun _ => mIndex_ents W.E r).post (s := s)).run () hres
    exact lists_congr e r' n x
  case deleteRepo r =>
    have hn : Repo s r := needs hre r hres
    have := C114_delete_always ok hz h hn
    exact ⟨hn, this.2.1, this.2.2.1, this.2.2.2.2.1, this.2.2.2.2.2.1, this.2.2.2.2.2.2.1, fun r' n x hr => this.2.2.2.2.2.2.2 r' n x hr⟩
  case indexRepo r =>
    refine ⟨needs hre r hres, fun r' n x => ?_, shows_of ok hz h (.index r) trivial rfl hres⟩
    have e : (mIndex W.E r s).st.db.ents = s.db.ents := ((mIndex_ents W.E r).post (s := s)).run () hres
    exact lists_congr e r' n x
  case pullRepo a b =>
    have hp : ∃ l, (mPullRepo W.E a b s).res = .ok l := by
      cases hx : (mPullRepo W.E a b s).res with
      | ok l => exact ⟨l, rfl⟩
      | err e =>
        exfalso
        rcases hm : mPullRepo W.E a b s with ⟨res, st, tr⟩
        rw [hm] at hx; simp only at hx; subst hx
        have : (discard (mPullRepo W.E a b) s).res = .ok () := hres
        unfold discard at this
        rw [bind_err hm] at this; cases this
      | panic =>
        exfalso
        rcases hm : mPullRepo W.E a b s with ⟨res, st, tr⟩
        rw [hm] at hx; simp only at hx; subst hx
        have : (discard (mPullRepo W.E a b) s).res = .ok () := hres
        unfold discard at this
        rw [bind_panic hm] at this; cases this
    obtain ⟨l, hl⟩ := hp
    have := C113_pull ok hz h hl
    have hn := needs2 hre a b hl
    have e : ((Op.pull a b).run W.E s).st = (mPullRepo W.E a b s).st := discard_st _ _
    have sh := shows_of ok hz h (.pull a b) trivial rfl hres
    rw [e] at sh ⊢
    exact ⟨hn.1, hn.2, this.1, this.2.1, sh⟩
  case removeSource r source rel =>
    have := C113_remove_source ok hz h hres
    exact ⟨needs hre r hres, this.1, this.2, shows_of ok hz h (.removeSource r source rel) trivial rfl hres⟩
  case trimObsolete r =>
    obtain ⟨obs, h1, h2, h3, h4⟩ := C113_trim_obsolete ok hz h hres
    exact ⟨needs hre r hres, ⟨obs, h1, h2, h3⟩, h4, shows_of ok hz h (.trimObsolete r) trivial rfl hres⟩
  case trimPackages r k =>
    obtain ⟨h1, h2, h3, h4, h5⟩ := C113_trim ok hz h hres
    exact ⟨needs hre r hres, h1, h2, h3, h4, h5, shows_of ok hz h (.trimPackages r k) trivial rfl hres⟩

theorem bind_res {m : M α} {f : α → M β} {b : β} (h : ((m >>= f) s).res = .ok b) :
    ∃ a, (m s).res = .ok a ∧ (f a (m s).st).res = .ok b ∧ ((m >>= f) s).st = (f a (m s).st).st := by
  have e : (m >>= f) s = M.bind' m f s := rfl
  rw [e] at h ⊢
  unfold M.bind' at h ⊢
  rcases hm : (m s).res with a | e | _
  · rw [hm] at h; exact ⟨a, rfl, h, rfl⟩
  · rw [hm] at h; cases h
  · rw [hm] at h; cases h

theorem shows_congr {r : Str} (hd : t.db = s.db) (hi : t.fs.idx r = s.fs.idx r) (ha : ∀ a, t.fs.read (.asset r a) = s.fs.read (.asset r a)) (h : Shows W s r) :
    Shows W t r := by
  obtain ⟨doc, h1, h2, h3⟩ := h
  have ht : ∀ n x, Tip t r n x ↔ Tip s r n x := fun n x => tip_congr (by rw [hd]) r n x
  have ho : Obsolete W t r = Obsolete W s r := by unfold Obsolete; rw [ha]
  refine ⟨doc, hi.trans h1, ⟨by rw [ha]; exact h2.obsoletes, by rw [ha]; exact h2.components, by rw [ha]; exact h2.groups, h2.sorted, ?_, h2.pkgs⟩, ?_⟩
  · obtain ⟨obs, h4, h5⟩ := h2.exact_
    refine ⟨obs, ho.trans h4, h5.1, fun x => (h5.2 x).trans ⟨fun ⟨n, a, b⟩ => ⟨n, (ht n x).2 a, b⟩, fun ⟨n, a, b⟩ => ⟨n, (ht n x).1 a, b⟩⟩⟩
  · unfold IndexDeltas at *
    unfold HasDelta at *
    rw [hd]
    exact h3

theorem unlinks_idx (ps : List Str) (s : St) : (unlinks s ps).fs.idx = s.fs.idx := by
  induction ps generalizing s with
  | nil => rfl
  | cons p ps ih => simp only [unlinks]; rw [ih]; rfl

/-- An upload job that succeeds has done what the request asks for. -/
theorem transit_done (ok : W.OK) (hz : W.NoTorn) (hd : ∀ d, W.isDelta d = false) (h : Wild W s) (p : Str)
    (hres : (transitJob W.E T p s).res = .ok ()) : Done W T s (transitJob W.E T p s).st (.transit p) := by
  rcases transitJob_cases W.E T p s with ⟨e, he, _⟩ | ⟨t, hdec, hwf, _, target, files, hst, hfs, he⟩
  · rw [he] at hres; cases hres
  · rw [he] at hres ⊢
    have hn := needs (h.real ok hz) target hres
    obtain ⟨_, _, h2, e1⟩ := bind_res hres
    obtain ⟨_, h3, h4, e2⟩ := bind_res h2
    rw [e1, e2]
    have hw : Wild W (getRepo target s).st := hist_wild.got h target
    have hi := C113_import ok hz hw (fun f _ => hd _) h3
    have sh := shows_of ok hz hw (.addPackages target files true) (fun f _ => hd _) rfl h3
    have eg := got_ents target s
    obtain ⟨tr, e3, _⟩ := removeLoop_run (files ++ [Paths.absP T.cwd p]) (mAddPackages W.E target files true (getRepo target s).st).st
    rw [e3]
    have hl : ∀ r n x, Lists (unlinks (mAddPackages W.E target files true (getRepo target s).st).st (files ++ [Paths.absP T.cwd p])) r n x ↔
        Lists (mAddPackages W.E target files true (getRepo target s).st).st r n x := fun r n x => lists_congr (by rw [unlinks_db]) r n x
    refine ⟨target, files, ⟨t, hdec, hwf, hst, hfs⟩, hn, fun n x => ?_, fun r' n x hr => ?_, ?_, fun f hf => ?_, ?_⟩
    · rw [hl, hi.1, lists_congr eg]
    · rw [hl, hi.2 r' n x hr, lists_congr eg]
    · refine shows_congr (unlinks_db _ _) (by rw [unlinks_idx]) (fun a => ?_) sh
      rw [unlinks_read, if_neg (by rintro ⟨_, _, h⟩; cases h)]
    · show (unlinks _ _).fs.read _ = none
      rw [unlinks_read, if_pos ⟨f, by simp [hf], rfl⟩]
    · show (unlinks _ _).fs.read _ = none
      rw [unlinks_read, if_pos ⟨_, by simp, rfl⟩]

/-- An execution that returns without an error has done what was requested. -/
theorem perform_done (ok : W.OK) (hz : W.NoTorn) (hd : ∀ d, W.isDelta d = false) {s : St} (hw : Wild W s) {q : Request} {l : List Request}
    (hl : (perform W.E T q s).res = .ok l) : q.Valid ∧ Done W T s (perform W.E T q s).st q := by
  by_cases hv : q.Valid
  · refine ⟨hv, ?_⟩
    unfold perform at hl ⊢
    rw [if_pos hv] at hl ⊢
    cases hop : operation q with
    | some o =>
      simp only [hop] at hl ⊢
      obtain ⟨_, h1, _, e⟩ := bind_res hl
      rw [e]
      exact op_done ok hz hd hw q hop h1
    | none =>
      cases q <;> simp only [operation] at hop <;> first | (cases hop; done) | skip
      case transit p =>
        simp only [operation] at hl ⊢
        obtain ⟨_, h1, _, e⟩ := bind_res hl
        rw [e]
        exact transit_done ok hz hd hw p h1
      case deltaRepo r =>
        simp only [operation] at hl ⊢
        have hn := needs (hw.real ok hz) r hl
        have e : (perform W.E T (.deltaRepo r) s).st.db = s.db := (deltaRepo_perform hn).2
        unfold perform at e
        rw [if_pos hv] at e
        simp only [operation] at e
        exact ⟨hn, fun r' n x => lists_congr (congrArg DB.ents e) r' n x⟩
      case delta => cases hl
      case deltaIndex => cases hl
  · rw [perform_invalid hv] at hl; cases hl

/-- C146: whatever has been submitted and however often the daemon died or met I/O errors, when a job is recorded as completed, its request has been
carried out: the listings have changed as the request asks and not otherwise, and the repository serves the right index of them.  (Delta jobs are never
recorded as completed.) -/
theorem C146_completed (ok : W.OK) (hz : W.NoTorn) (hd : ∀ d, W.isDelta d = false) (h : Reach (worldUploads W) W.E T C K d)
    (hs : Step (worldUploads W) W.E T C K' d d') (hN : d'.jobs.reqs.length < 2 ^ 62) (hup : d'.jobs.up = true)
    {t : Nat} {q : Request} (hq : d.jobs.reqs[t]? = some q) (ht : t ∉ d.jobs.done) (ht' : t ∈ d'.jobs.done) :
    ∃ x, Spec.Recorded C d.jobs d'.jobs x ∧ (q.Valid → x.description = q.describe) ∧ (x.failed = false → q.Valid ∧ Done W T d.core d'.core q) := by
  have hw := C119_histories ok hz hd h
  obtain ⟨_, x, hx, hdesc, hc⟩ := C118_outcome h hs hN hup hq ht ht'
  refine ⟨x, hx, hdesc, fun hf => ?_⟩
  rcases hc with ⟨_, g2, g3, g4, g5⟩ | ⟨_, _, g3, _⟩
  · have hok : ∃ l, (perform W.E T q d.core).res = .ok l := by
      apply Classical.byContradiction
      intro hn
      have := g3.2 fun l hl => hn ⟨l, hl⟩
      rw [hf] at this; cases this
    obtain ⟨l, hl⟩ := hok
    rw [g2]
    exact perform_done ok hz hd hw hl
  · rw [hf] at g3; cases g3

end

/-! ## Not vacuous -/

namespace Demo

/-- C146: the step that finishes the import into "a"; it is recorded as completed. -/
example : Reach (worldUploads W) W.E tram demoCodec [] g8 ∧ Step (worldUploads W) W.E tram demoCodec [] g8 g9 ∧ g9.jobs.up = true ∧
    g8.jobs.reqs[1]? = some q1 ∧ 1 ∉ g8.jobs.done ∧ 1 ∈ g9.jobs.done ∧ g9.jobs.log true = some [] ∧ Lists g9.core ['a'] ['a'] (baseName file) ∧
    ¬ Has g8.core ['a'] (baseName file) := by
  refine ⟨⟨?_, by decide +kernel⟩, .finish (d := g8) 10 (by decide +kernel) (by unfold Jobs.Sys.Runs; decide +kernel) (.whole [] (ne_panic (by decide +kernel))),
    by decide +kernel, by decide +kernel, by decide +kernel, by decide +kernel, by decide +kernel,
    ⟨((g9.core.db.ents ['a']).get ['a']).get (by decide +kernel), by decide +kernel, by decide +kernel⟩, ?_⟩
  · exact .tail (K := []) (K' := []) (.tail (K := []) (K' := []) (.tail (K := []) (K' := []) (.tail (K := []) (K' := [])
      (.tail (K := []) (K' := []) (.tail (K := []) (K' := [])
      (.tail (K := []) (K' := []) .refl
      (.boot 1 rfl)) (.outside _ (.upload rfl))) (.submit q0 5 up1)) (.submit q1 6 up1))
      (.claim 7 up1 (by decide) (by unfold Jobs.Sys.Idle; decide +kernel)))
      (.finish (d := g6) 8 up1 (by unfold Jobs.Sys.Runs; decide +kernel) (.whole [] (ne_panic (by decide +kernel)))))
      (.claim 9 (by decide +kernel) (by decide) (by unfold Jobs.Sys.Idle; decide +kernel))
  · rintro ⟨n, e, he, _⟩
    have : (g8.core.db.ents ['a']) = [] := by decide +kernel
    rw [this] at he; cases he

end Demo

end Ferryd.Daemon
