import Verif.Mutexes
import Verif.PropsLax
/-!
# PropsMutex: no job waits for a mutex it holds (C148)
-/
namespace Ferryd
open Spec

section
variable {α β : Type} {E : Env}

theorem follow_append : ∀ (es fs : List Ev) (h : List Mutex), follow h (es ++ fs) = (follow h es).bind fun k => follow k fs
  | [], _, _ => rfl
  | .acq m :: es, fs, h => by
    simp only [List.cons_append, follow]
    split
    · rfl
    · exact follow_append es fs _
  | .rel m :: es, fs, h => by
    simp only [List.cons_append, follow]
    split
    · exact follow_append es fs _
    · rfl

/-- With the mutexes `h` held, the function with mutexes does what the one without does, never blocks on a mutex it holds, follows
the order and gives everything back. (No code: a notion of the proofs.) -/
structure Sim (lm : LM α) (m : M α) (s : St) (h : List Mutex) : Prop where
  res : (lm s h).res = some (m s).res
  st : (lm s h).st = (m s).st
  held : (lm s h).held = h
  ev : follow h (lm s h).ev = some h

theorem Sim.free (m : M α) (s : St) (h : List Mutex) : Sim (free m) m s h := ⟨rfl, rfl, rfl, rfl⟩
theorem Sim.pure (a : α) (s : St) (h : List Mutex) : Sim (pure a) (Pure.pure a : M α) s h := ⟨rfl, rfl, rfl, rfl⟩

theorem Sim.bind {lm : LM α} {m : M α} {lf : α → LM β} {f : α → M β} {s : St} {h : List Mutex} (hm : Sim lm m s h)
    (hf : ∀ a, (m s).res = .ok a → Sim (lf a) (f a) (m s).st h) : Sim (lm >>= lf) (m >>= f) s h := by
  have e1 : (lm >>= lf) s h = LM.bind' lm lf s h := rfl
  have e2 : (m >>= f) s = M.bind' m f s := rfl
  have h1 := hm.res
  cases hr : (m s).res with
  | ok a =>
    have hk := hf a hr
    rw [hr] at h1
    have e1' : (lm >>= lf) s h = ⟨(lf a (m s).st h).res, (lf a (m s).st h).st, (lf a (m s).st h).held, (lm s h).ev ++ (lf a (m s).st h).ev⟩ := by
      rw [e1, LM.bind', h1]; simp only [hm.st, hm.held]
    have e2' : (m >>= f) s = ⟨(f a (m s).st).res, (f a (m s).st).st, (m s).tr ++ (f a (m s).st).tr⟩ := by rw [e2, M.bind', hr]
    refine ⟨?_, ?_, ?_, ?_⟩
    · rw [e1', e2']; exact hk.res
    · rw [e1', e2']; exact hk.st
    · rw [e1']; exact hk.held
    · rw [e1', follow_append, hm.ev]; exact hk.ev
  | err e =>
    rw [hr] at h1
    have e1' : (lm >>= lf) s h = ⟨some (.err e), (lm s h).st, (lm s h).held, (lm s h).ev⟩ := by rw [e1, LM.bind', h1]
    have e2' : (m >>= f) s = ⟨.err e, (m s).st, (m s).tr⟩ := by rw [e2, M.bind', hr]
    rw [← hm.st] at e2'
    exact ⟨by rw [e1', e2'], by rw [e1', e2'], by rw [e1']; exact hm.held, by rw [e1']; exact hm.ev⟩
  | panic =>
    rw [hr] at h1
    have e1' : (lm >>= lf) s h = ⟨some .panic, (lm s h).st, (lm s h).held, (lm s h).ev⟩ := by rw [e1, LM.bind', h1]
    have e2' : (m >>= f) s = ⟨.panic, (m s).st, (m s).tr⟩ := by rw [e2, M.bind', hr]
    rw [← hm.st] at e2'
    exact ⟨by rw [e1', e2'], by rw [e1', e2'], by rw [e1']; exact hm.held, by rw [e1']; exact hm.ev⟩

theorem Sim.locked {l : Mutex} {lm : LM α} {m : M α} {s : St} {h : List Mutex} (hl : l ∉ h) (ho : ∀ x ∈ h, x.rank ≤ l.rank)
    (hm : Sim lm m s (l :: h)) : Sim (Ferryd.locked l lm) m s h := by
  have e : Ferryd.locked l lm s h = ⟨some (m s).res, (m s).st, h, .acq l :: (lm s (l :: h)).ev ++ [.rel l]⟩ := by
    unfold Ferryd.locked
    rw [if_neg hl, hm.res]
    simp only [hm.st, hm.held, List.erase_cons_head]
  have hf : follow h (.acq l :: (lm s (l :: h)).ev ++ [.rel l]) = some h := by
    have hn : ¬ (l ∈ h ∨ ∃ x ∈ h, l.rank < x.rank) := by
      rintro (h1 | ⟨x, hx, h2⟩)
      · exact hl h1
      · exact absurd (ho x hx) (by omega)
    show (if l ∈ h ∨ ∃ x ∈ h, l.rank < x.rank then none else follow (l :: h) ((lm s (l :: h)).ev ++ [.rel l])) = some h
    rw [if_neg hn, follow_append, hm.ev]
    simp [follow]
  exact ⟨by rw [e], by rw [e], by rw [e], by rw [e]; exact hf⟩

theorem Sim.forL {γ : Type} {lf : γ → LM Unit} {f : γ → M Unit} {h : List Mutex} (hf : ∀ x s, Sim (lf x) (f x) s h) :
    ∀ (l : List γ) s, Sim (lForL l lf) (Ferryd.forL l f) s h
  | [], s => .pure () s h
  | x :: xs, s => (hf x s).bind fun _ _ => Sim.forL hf xs _

theorem Sim.collectL {γ δ : Type} {lf : γ → LM (List δ)} {f : γ → M (List δ)} {h : List Mutex} (hf : ∀ x s, Sim (lf x) (f x) s h) :
    ∀ (l : List γ) s, Sim (lCollectL l lf) (Ferryd.collectL l f) s h
  | [], s => .pure [] s h
  | x :: xs, s => (hf x s).bind fun _ _ => (Sim.collectL hf xs _).bind fun _ _ => .pure _ _ _

theorem Sim.update {lb : LM Unit} {b : M Unit} {h : List Mutex} (hb : ∀ s, Sim lb b s h) (s : St) : Sim (lUpdate lb) (dbUpdate b) s h := by
  have hm := hb { s with pend := [] }
  have h1 := hm.res
  unfold lUpdate dbUpdate
  cases hr : (b { s with pend := [] }).res with
  | ok a => rw [hr] at h1; exact ⟨by simp only [h1, hr], by simp only [h1, hr, hm.st], by simp only [h1, hm.held], by simp only [h1]; exact hm.ev⟩
  | err e => rw [hr] at h1; exact ⟨by simp only [h1, hr], by simp only [h1, hr, hm.st], by simp only [h1, hm.held], by simp only [h1]; exact hm.ev⟩
  | panic => rw [hr] at h1; exact ⟨by simp only [h1, hr], by simp only [h1, hr, hm.st], by simp only [h1, hm.held], by simp only [h1]; exact hm.ev⟩

/-- Nothing held forbids taking the `insertMut` of `r`. (No code: a notion of the proofs.) -/
theorem Sim.insert {r : Str} {lm : LM α} {m : M α} {s : St} {h : List Mutex} (hl : .insert r ∉ h) (hm : Sim lm m s (.insert r :: h)) :
    Sim (Ferryd.locked (.insert r) lm) m s h := .locked hl (fun x _ => by cases x <;> simp [Mutex.rank]) hm

theorem sim_removePackageInternal {r : Str} {h : List Mutex} (hl : .insert r ∉ h) (k : Handle) (id : Str) (s : St) :
    Sim (lRemovePackageInternal k r id) (removePackageInternal k r id) s h := .insert hl (.free _ _ _)

theorem sim_refPackage {r : Str} {h : List Mutex} (hl : .insert r ∉ h) (id : Str) (s : St) :
    Sim (lRefPackage E r id) (refPackage E r id) s h := .insert hl (.free _ _ _)

theorem sim_refDelta {r : Str} {h : List Mutex} (hl : .insert r ∉ h) (id : Str) (s : St) :
    Sim (lRefDelta E r id) (refDelta E r id) s h := .insert hl (.free _ _ _)

theorem sim_addLocalPackage {r : Str} {h : List Mutex} (hl : .insert r ∉ h) (p : Pkg) (s : St) :
    Sim (lAddLocalPackage E r p) (addLocalPackage E r p) s h := .insert hl (.free _ _ _)

theorem Sim.ite {c : Prop} [Decidable c] {a b : LM α} {m n : M α} {s : St} {h : List Mutex} (h1 : Sim a m s h) (h2 : Sim b n s h) :
    Sim (if c then a else b) (if c then m else n) s h := by
  split
  · exact h1
  · exact h2

theorem sim_addDelta {r : Str} {h : List Mutex} (hl : .insert r ∉ h) (p : Path) (f t : Str) (s : St) :
    Sim (lAddDelta E r p f t) (addDelta E r p f t) s h := (Sim.free _ s h).bind fun _ _ => .insert hl (.free _ _ _)

theorem sim_addPackage {r : Str} {h : List Mutex} (hl : .insert r ∉ h) (p : Path) (st : Bool) (s : St) :
    Sim (lAddPackage E r p st) (addPackage E r p st) s h := by
  refine (Sim.free _ s h).bind fun p _ => .ite (sim_addLocalPackage hl _ _) ((Sim.free _ _ _).bind fun o _ => ?_)
  cases o with
  | none => exact sim_addLocalPackage hl _ _
  | some l =>
    exact (Sim.free _ _ _).bind fun _ _ => (Sim.free _ _ _).bind fun _ _ => (Sim.free _ _ _).bind fun _ _ =>
      .ite (.free _ _ _) (.ite (.free _ _ _) (sim_addLocalPackage hl _ _))

theorem sim_unrefPackage {r : Str} {h : List Mutex} (hl : .insert r ∉ h) (id : Str) (s : St) :
    Sim (lUnrefPackage r id) (unrefPackage r id) s h := by
  refine (Sim.free _ s h).bind fun _ _ => (Sim.free _ _ _).bind fun e _ => (sim_removePackageInternal hl _ _ _).bind fun _ _ =>
    (Sim.collectL (fun d s => ?_) _ _).bind fun _ _ => (Sim.free _ _ _).bind fun _ _ => .ite (.free _ _ _) (.free _ _ _)
  refine (Sim.free _ s h).bind fun pd _ => ?_
  cases pd.delta with
  | none => exact .free _ _ _
  | some di => exact .ite ((sim_removePackageInternal hl _ _ _).bind fun _ _ => .pure _ _ _) (.pure _ _ _)

theorem sim_createRepo (r : Str) (s : St) : Sim (lCreateRepo r) (createRepo r) s [] := .locked (by simp) (by simp) (.free _ _ _)

theorem sim_index (r : Str) (s : St) : Sim (lmIndex E r) (mIndex E r) s [] :=
  (Sim.free _ s []).bind fun _ _ => .locked (by simp) (by simp) (.free _ _ _)

theorem sim_deleteRepo (r : Str) (s : St) : Sim (lDeleteRepo r) (deleteRepo r) s [] := by
  refine .locked (by simp) (by simp) ((Sim.free _ _ _).bind fun _ _ => (Sim.free _ _ _).bind fun _ _ =>
    (Sim.update (fun s => ?_) _).bind fun _ _ => (Sim.free _ _ _).bind fun _ _ => .free _ _ _)
  have hl : Mutex.insert r ∉ [Mutex.repos] := by simp
  exact (Sim.free _ s _).bind fun es _ => (Sim.forL (fun e s => (Sim.forL (sim_removePackageInternal hl _) _ s).bind fun _ _ =>
    (Sim.forL (sim_removePackageInternal hl _) _ _).bind fun _ _ => .free _ _ _) _ _).bind fun _ _ => .free _ _ _

theorem sim_cloneFrom {d r : Str} (hd : d ≠ r) (full : Bool) (s : St) : Sim (lCloneFrom E d r full) (cloneFrom E d r full) s [] := by
  have hl : Mutex.insert d ∉ [Mutex.insert r] := by simpa using hd
  exact .insert (by simp) ((Sim.free _ _ _).bind fun _ _ => (Sim.free _ _ _).bind fun _ _ =>
    (Sim.forL (sim_refPackage hl) _ _).bind fun _ _ => Sim.forL (sim_refDelta hl) _ _)

theorem sim_removeSource (r n : Str) (k : Int) (s : St) : Sim (lRemoveSource r n k) (removeSource r n k) s [] :=
  (Sim.free _ s []).bind fun _ _ => .ite (.free _ _ _) (Sim.forL (sim_unrefPackage (by simp)) _ _)

theorem sim_copySource (a b n : Str) (k : Int) (s : St) : Sim (lCopySourceFrom E b a n k) (copySourceFrom E b a n k) s [] :=
  (Sim.free _ s []).bind fun _ _ => .ite (.free _ _ _) (Sim.forL (sim_refPackage (by simp)) _ _)

theorem sim_trimObsolete (r : Str) (s : St) : Sim (lTrimObsolete E r) (trimObsolete E r) s [] := by
  refine .locked (by simp) (by simp) ((Sim.free _ _ _).bind fun o _ => ?_)
  cases o with
  | none => exact .free _ _ _
  | some obs => exact (Sim.free _ _ _).bind fun _ _ => (Sim.free _ _ _).bind fun _ _ => Sim.forL (sim_unrefPackage (by simp)) _ _

theorem sim_trimPackages (r : Str) (k : Int) (s : St) : Sim (lTrimPackages E r k) (trimPackages E r k) s [] :=
  .ite (.free _ _ _) ((Sim.free _ _ _).bind fun _ _ => (Sim.free _ _ _).bind fun _ _ => Sim.forL (sim_unrefPackage (by simp)) _ _)

/-- A repository's own tips are never newer than its tips. -/
theorem pullOne_self {K : Lax} {s : St} (hs : Fit K s) {r : Str} {e : RepoEntry} (he : e ∈ (s.db.ents r).map Prod.snd) :
    (pullOne r e s).st = s ∧ ∀ l, (pullOne r e s).res = .ok l → l = [] := by
  obtain ⟨⟨k, e'⟩, hp, rfl⟩ := List.mem_map.1 he
  have hn : e'.name = k := (hs.ents r _ hp).name
  have hg : (s.db.ents r).get e'.name = some e' := by rw [hn]; exact KV.get_of_mem (hs.wfEnts r) hp
  have e1 : pullOne r e' s = (do
      let tip ← poolGet e'.published
      let our ← poolGet e'.published
      let tr ← getRelease tip.pkg
      let orl ← getRelease our.pkg
      if tr < orl then throwE .inconsistent
      else if tr > orl then pure [(e'.published, e'.name)]
      else pure [] : M (List (Str × Str))) s := by
    unfold pullOne
    have : (repoGet? r e'.name : M _) s = ⟨.ok (some e'), s, []⟩ := by
      show (⟨.ok ((s.db.ents r).get e'.name), s, []⟩ : Out _) = _
      rw [hg]
    rw [bind_ok this]; rfl
  rw [e1]
  cases hp : s.db.pool.get e'.published with
  | none =>
    have h0 : poolGet e'.published s = ⟨.err .notFound, s, []⟩ := by rw [poolGet_run, hp]
    rw [bind_err h0]
    exact ⟨rfl, fun l h => by cases h⟩
  | some pe =>
    rw [bind_ok (poolGet_some hp)]
    simp only [Out.pre_nil]
    rw [bind_ok (poolGet_some hp)]
    simp only [Out.pre_nil]
    cases hh : pe.pkg.history with
    | nil =>
      have h0 : getRelease pe.pkg s = ⟨.panic, s, []⟩ := by unfold getRelease; rw [hh]; rfl
      rw [bind_panic h0]
      exact ⟨rfl, fun l h => by cases h⟩
    | cons u us =>
      have h0 : getRelease pe.pkg s = ⟨.ok u.release, s, []⟩ := by unfold getRelease; rw [hh]; rfl
      rw [bind_ok h0]
      simp only [Out.pre_nil]
      rw [bind_ok h0]
      simp only [Out.pre_nil, gt_iff_lt, Int.lt_irrefl, if_false]
      exact ⟨rfl, fun l h => by cases h; rfl⟩

theorem collect_nothing {γ δ : Type} {s : St} {f : γ → M (List δ)} : ∀ (es : List γ), (∀ e ∈ es, (f e s).st = s ∧ ∀ l, (f e s).res = .ok l → l = []) →
    (collectL es f s).st = s ∧ ∀ l, (collectL es f s).res = .ok l → l = []
  | [], _ => ⟨rfl, fun l h => by cases h; rfl⟩
  | e :: es, h => by
    have ih := collect_nothing es fun x hx => h x (by simp [hx])
    have h1 := h e (by simp)
    have e0 : collectL (e :: es) f s = M.bind' (f e) (fun a => collectL es f >>= fun b => pure (a ++ b)) s := rfl
    rw [e0, M.bind']
    cases hr : (f e s).res with
    | ok a =>
      simp only [h1.1]
      have e2 : (collectL es f >>= fun b => (pure (a ++ b) : M (List δ))) s = M.bind' (collectL es f) (fun b => pure (a ++ b)) s := rfl
      rw [e2, M.bind']
      cases hr2 : (collectL es f s).res with
      | ok b =>
        simp only [ih.1]
        refine ⟨rfl, fun l hl => ?_⟩
        have : l = a ++ b := by cases hl; rfl
        rw [this, h1.2 a hr, ih.2 b hr2]; rfl
      | err x => exact ⟨ih.1, fun l hl => by cases hl⟩
      | panic => exact ⟨ih.1, fun l hl => by cases hl⟩
    | err x => exact ⟨h1.1, fun l hl => by cases hl⟩
    | panic => exact ⟨h1.1, fun l hl => by cases hl⟩

theorem sim_pullFrom {K : Lax} {s : St} (hs : Fit K s) (d r : Str) : Sim (lPullFrom E d r) (pullFrom E d r) s [] := by
  by_cases hd : d = r
  · subst hd
    refine .insert (by simp) ((Sim.free _ _ _).bind fun _ _ => (Sim.free _ _ _).bind fun es hes => (Sim.free _ _ _).bind fun todo htodo => ?_)
    have hf : Fit K (pullAssets d d s).st := ((fit_pullAssets (K := K) d d).run s hs).fin
    have : es = ((pullAssets d d s).st.db.ents d).map Prod.snd := by cases hes; rfl
    subst this
    obtain rfl : todo = [] := (collect_nothing _ fun e he => pullOne_self hf he).2 todo htodo
    exact (Sim.pure () _ _).bind fun _ _ => .pure _ _ _
  · have hl : Mutex.insert d ∉ [Mutex.insert r] := by simpa using hd
    exact .insert (by simp) ((Sim.free _ _ _).bind fun _ _ => (Sim.free _ _ _).bind fun _ _ => (Sim.free _ _ _).bind fun _ _ =>
      (Sim.forL (sim_refPackage hl) _ _).bind fun _ _ => .pure _ _ _)

/-- A repository that was just looked up cannot be created. -/
theorem create_twice {s : St} {r : Str} (h : (getRepo r s).res = .ok ()) : (createRepo r (getRepo r s).st).res ≠ .ok () := by
  have hc : r ∈ (getRepo r s).st.cache := by
    unfold getRepo at h ⊢
    rw [getSt_bind] at h ⊢
    by_cases hm : r ∈ s.cache
    · rw [if_pos hm]; exact hm
    · rw [if_neg hm] at h ⊢
      cases hg : s.db.repos.get r with
      | none => rw [hg] at h; cases h
      | some u => exact List.mem_cons_self
  generalize (getRepo r s).st = t at hc
  have hg : getRepo r t = ⟨.ok (), t, []⟩ := by
    unfold getRepo
    rw [getSt_bind, if_pos hc]; rfl
  unfold createRepo
  rw [getSt_bind, hg]
  show ((getRepo r >>= fun _ => throwE .exists_ : M Unit) t).res ≠ _
  rw [bind_ok hg]
  intro h; cases h

theorem Op.sim {K : Lax} {s : St} (hs : Fit K s) (o : Op) : Sim (o.lrun E) (o.run E) s [] := by
  have gr : ∀ r t, Fit K t → Fit K (getRepo r t).st := fun r t ht => ((fit_getRepo (K := K) r).run t ht).fin
  cases o with
  | create r => exact (sim_createRepo r s).bind fun _ _ => sim_index r _
  | delete r => exact sim_deleteRepo r s
  | clone a b f =>
    refine (Sim.free _ s []).bind fun _ ha => (sim_createRepo b _).bind fun _ hb => (sim_cloneFrom ?_ f _).bind fun _ _ => sim_index b _
    rintro rfl
    exact create_twice ha hb
  | pull a b =>
    show Sim (_ >>= _) (discard (mPullRepo E a b)) s []
    have e : discard (mPullRepo E a b) = (do getRepo a; getRepo b; let c ← pullFrom E b a; mIndex E b; let _ ← pure c; pure ()) := by
      unfold discard mPullRepo
      simp only [M.bind_assoc]
    rw [e]
    exact (Sim.free _ s []).bind fun _ _ => (Sim.free _ _ _).bind fun _ _ => (sim_pullFrom (gr b _ (gr a s hs)) b a).bind fun _ _ =>
      (sim_index b _).bind fun _ _ => (Sim.pure _ _ _).bind fun _ _ => .pure _ _ _
  | removeSource r n k => exact (Sim.free _ s []).bind fun _ _ => (sim_removeSource r n k _).bind fun _ _ => sim_index r _
  | copySource a b n k sk =>
    exact (Sim.free _ s []).bind fun _ _ => (Sim.free _ _ _).bind fun _ _ => (sim_copySource a b n k _).bind fun _ _ => .ite (sim_index b _) (.pure _ _ _)
  | trimObsolete r => exact (Sim.free _ s []).bind fun _ _ => (sim_trimObsolete r _).bind fun _ _ => sim_index r _
  | trimPackages r k => exact (Sim.free _ s []).bind fun _ _ => (sim_trimPackages r k _).bind fun _ _ => sim_index r _
  | addPackages r fs st =>
    exact (Sim.free _ s []).bind fun _ _ => (Sim.forL (fun f => sim_addPackage (by simp) (.ext f) st) _ _).bind fun _ _ => sim_index r _
  | index r => exact sim_index r s
  | addDelta r d f t => exact (Sim.free _ s []).bind fun _ _ => sim_addDelta (by simp) _ f t _
  | refDelta r d => exact (Sim.free _ s []).bind fun _ _ => sim_refDelta (by simp) d _
  | markFailed => exact .free _ _ _
  | upload => exact .free _ _ _
  | unlink => exact .free _ _ _
  | putAsset => exact .free _ _ _
  | stage => exact .free _ _ _
  | unstage => exact .free _ _ _
  | restart => exact .free _ _ _

end

/-- C148: from every state, whatever jobs ran before, were cut off or failed, and whatever the files contain, a job that takes the
mutexes as the code does never waits for one that it holds itself; it does exactly what the job does without mutexes, and it holds
none when it is over.  While a mutex of an index is held those of package lists are taken, never the other way round. -/
theorem C148_no_self_deadlock {E : Env} {s : St} (h : Freely E Any s) (o : Op) :
    (o.lrun E s []).res = some (o.run E s).res ∧ (o.lrun E s []).st = (o.run E s).st ∧ (o.lrun E s []).held = [] ∧
      follow [] (o.lrun E s []).ev = some [] :=
  have := Op.sim (E := E) h.fit o
  ⟨this.res, this.st, this.held, this.ev⟩

/-! ## All goroutines -/

/-- The strict order of the goroutines other than the sequential worker. (No code: a notion of the proofs.) -/
def followS : List Mutex → List Ev → Option (List Mutex)
  | h, [] => some h
  | h, .acq m :: es => if ∃ x ∈ h, m.rank ≤ x.rank then none else followS (m :: h) es
  | h, .rel m :: es => if m ∈ h then followS (h.erase m) es else none

theorem followS_append : ∀ (es fs : List Ev) (h : List Mutex), followS h (es ++ fs) = (followS h es).bind fun k => followS k fs
  | [], _, _ => rfl
  | .acq m :: es, fs, h => by
    simp only [List.cons_append, followS]
    split
    · rfl
    · exact followS_append es fs _
  | .rel m :: es, fs, h => by
    simp only [List.cons_append, followS]
    split
    · exact followS_append es fs _
    · rfl

theorem Call.followS (k : Call) : Ferryd.followS [] k.ev = some [] := by
  cases k <;> simp [Call.ev, Ferryd.followS, Mutex.rank]

theorem Call.follow (k : Call) : Ferryd.follow [] k.ev = some [] := by
  cases k <;> simp [Call.ev, Ferryd.follow, Mutex.rank]

theorem calls_followS : ∀ ks : List Call, followS [] (ks.flatMap Call.ev) = some []
  | [] => rfl
  | k :: ks => by rw [List.flatMap_cons, followS_append, k.followS]; exact calls_followS ks

theorem Work.follow {E : Env} {A : Op → Prop} {p : List Ev} (h : Work E (Freely E A) p) : Ferryd.follow [] p = some [] := by
  induction h with
  | done => rfl
  | call _ k ih => rw [follow_append, k.follow]; exact ih
  | job _ o hs ih => rw [follow_append, (Op.sim (E := E) hs.fit o).ev]; exact ih

/-- What is true of every configuration. (No code: a notion of the proofs.) -/
structure Conf.Good (c : Conf) : Prop where
  zero : follow (c.hold 0) (c.prog 0) = some []
  other : ∀ i, i ≠ 0 → followS (c.hold i) (c.prog i) = some []
  excl : ∀ i j m, m ∈ c.hold i → m ∈ c.hold j → i = j
  nodup : ∀ i, (c.hold i).Nodup

theorem Conf.Good.step {c d : Conf} (h : c.Good) (hs : Conf.Step c d) : d.Good := by
  cases hs with
  | acq i m rest hp hf =>
    refine ⟨?_, fun j hj => ?_, fun j k x h1 h2 => ?_, fun j => ?_⟩
    · show Ferryd.follow (if 0 = i then _ else _) (if 0 = i then _ else _) = _
      by_cases hi : 0 = i
      · subst hi
        have := h.zero
        rw [hp, Ferryd.follow] at this
        split at this
        · cases this
        · simpa using this
      · rw [if_neg hi, if_neg hi]; exact h.zero
    · show followS (if j = i then _ else _) (if j = i then _ else _) = _
      by_cases hi : j = i
      · subst hi
        have := h.other j hj
        rw [hp, followS] at this
        split at this
        · cases this
        · simpa using this
      · rw [if_neg hi, if_neg hi]; exact h.other j hj
    · simp only [Conf.set] at h1 h2
      split at h1 <;> split at h2
      · rename_i a b; rw [a, b]
      · rename_i a b
        rcases List.mem_cons.1 h1 with rfl | h1
        · exact absurd h2 (hf k)
        · rw [a]; exact h.excl i k x h1 h2
      · rename_i a b
        rcases List.mem_cons.1 h2 with rfl | h2
        · exact absurd h1 (hf j)
        · rw [b]; exact h.excl j i x h1 h2
      · exact h.excl j k x h1 h2
    · simp only [Conf.set]
      split
      · exact List.nodup_cons.2 ⟨hf i, h.nodup i⟩
      · exact h.nodup j
  | rel i m rest hp =>
    refine ⟨?_, fun j hj => ?_, fun j k x h1 h2 => ?_, fun j => ?_⟩
    · show Ferryd.follow (if 0 = i then _ else _) (if 0 = i then _ else _) = _
      by_cases hi : 0 = i
      · subst hi
        have := h.zero
        rw [hp, Ferryd.follow] at this
        split at this
        · simpa using this
        · cases this
      · rw [if_neg hi, if_neg hi]; exact h.zero
    · show followS (if j = i then _ else _) (if j = i then _ else _) = _
      by_cases hi : j = i
      · subst hi
        have := h.other j hj
        rw [hp, followS] at this
        split at this
        · simpa using this
        · cases this
      · rw [if_neg hi, if_neg hi]; exact h.other j hj
    · simp only [Conf.set] at h1 h2
      have sub : ∀ j x, x ∈ (if j = i then (c.hold i).erase m else c.hold j) → x ∈ c.hold j := by
        intro j x hx
        split at hx
        · rename_i a; rw [a]; exact List.mem_of_mem_erase hx
        · exact hx
      exact h.excl j k x (sub j x h1) (sub k x h2)
    · simp only [Conf.set]
      split
      · exact (h.nodup i).erase m
      · exact h.nodup j

theorem Conf.Good.steps {c d : Conf} (h : c.Good) (hs : Conf.Steps c d) : d.Good := by
  induction hs with
  | refl => exact h
  | tail _ s ih => exact ih.step s

/-- A goroutine that holds a mutex has something left to do. -/
theorem Conf.Good.busy {c : Conf} (h : c.Good) {i : Nat} {m : Mutex} (hm : m ∈ c.hold i) : c.prog i ≠ [] := by
  intro hp
  by_cases hi : i = 0
  · subst hi
    have := h.zero
    rw [hp, follow] at this
    rw [Option.some.inj this] at hm; cases hm
  · have := h.other i hi
    rw [hp, followS] at this
    rw [Option.some.inj this] at hm; cases hm

/-- Whoever waits for a mutex waits, in the end, for a goroutine that can go on. -/
theorem Conf.Good.holder {c : Conf} (h : c.Good) : ∀ (n : Nat) (i : Nat) (m : Mutex), m ∈ c.hold i → 4 < m.rank + n → ∃ d, Conf.Step c d := by
  have key : ∀ (i : Nat) (m : Mutex), m ∈ c.hold i → (∃ d, Conf.Step c d) ∨
      ∃ j m', m' ∈ c.hold j ∧ j ≠ i ∧ m.rank ≤ m'.rank ∧ (i ≠ 0 → m.rank < m'.rank) := by
    intro i m hm
    cases hp : c.prog i with
    | nil => exact absurd hp (h.busy hm)
    | cons e rest =>
      cases e with
      | rel x => exact .inl ⟨_, .rel i x rest hp⟩
      | acq x =>
        by_cases hf : ∀ j, x ∉ c.hold j
        · exact .inl ⟨_, .acq i x rest hp hf⟩
        · obtain ⟨j, hj⟩ : ∃ j, x ∈ c.hold j := Classical.byContradiction fun hn => hf fun j hx => hn ⟨j, hx⟩
          refine .inr ⟨j, x, hj, ?_, ?_, fun hi => ?_⟩
          · rintro rfl
            by_cases hi : j = 0
            · subst hi
              have := h.zero
              rw [hp, follow, if_pos (.inl hj)] at this
              cases this
            · have := h.other j hi
              rw [hp, followS, if_pos ⟨x, hj, Nat.le_refl _⟩] at this
              cases this
          · by_cases hi : i = 0
            · subst hi
              refine Classical.byContradiction fun hlt => ?_
              have := h.zero
              rw [hp, follow, if_pos (.inr ⟨m, hm, by omega⟩)] at this
              cases this
            · refine Classical.byContradiction fun hlt => ?_
              have := h.other i hi
              rw [hp, followS, if_pos ⟨m, hm, by omega⟩] at this
              cases this
          · refine Classical.byContradiction fun hlt => ?_
            have := h.other i hi
            rw [hp, followS, if_pos ⟨m, hm, by omega⟩] at this
            cases this
  intro n
  induction n with
  | zero =>
    intro i m _ hlt
    have : m.rank ≤ 4 := by cases m <;> simp [Mutex.rank]
    omega
  | succ n ih =>
    intro i m hm hlt
    rcases key i m hm with h1 | ⟨j, m', hj, hne, hle, hstrict⟩
    · exact h1
    · by_cases hi : i = 0
      · rcases key j m' hj with h1 | ⟨k, m'', hk, _, _, hs⟩
        · exact h1
        · have := hs (by omega)
          exact ih k m'' hk (by omega)
      · have := hstrict hi
        exact ih j m' hj (by omega)

theorem Conf.Good.goes {c : Conf} (h : c.Good) {i : Nat} (hi : c.prog i ≠ []) : ∃ d, Conf.Step c d := by
  cases hp : c.prog i with
  | nil => exact absurd hp hi
  | cons e rest =>
    cases e with
    | rel x => exact ⟨_, .rel i x rest hp⟩
    | acq x =>
      by_cases hf : ∀ j, x ∉ c.hold j
      · exact ⟨_, .acq i x rest hp hf⟩
      · obtain ⟨j, hj⟩ : ∃ j, x ∈ c.hold j := Classical.byContradiction fun hn => hf fun j hx => hn ⟨j, hx⟩
        exact h.holder 5 j x hj (by omega)

theorem good_start {E : Env} {A : Op → Prop} {p : List Ev} (hw : Work E (Freely E A) p) (calls : Nat → List Call) :
    Conf.Good ⟨fun i => if i = 0 then p else (calls i).flatMap Call.ev, fun _ => []⟩ :=
  ⟨hw.follow, fun i hi => by simp only [if_neg hi]; exact calls_followS _, fun i j m hm => (by cases hm), fun _ => List.nodup_nil⟩

/-- C149: the goroutines of the daemon — the sequential worker with its jobs and its calls of the job store, and any number of others
that submit, list, claim, retire and reset jobs or include deltas — never block one another for good: whenever one of them has
not finished, one of them can go on. -/
theorem C149_no_deadlock {E : Env} {p : List Ev} (hw : Work E (Freely E Any) p) (calls : Nat → List Call) {c : Conf}
    (hc : Conf.Steps ⟨fun i => if i = 0 then p else (calls i).flatMap Call.ev, fun _ => []⟩ c) {i : Nat} (hi : c.prog i ≠ []) :
    ∃ d, Conf.Step c d := ((good_start hw calls).steps hc).goes hi

/-- Number of events left. (No code: a notion of the proofs.) -/
def Conf.left (c : Conf) (n : Nat) : Nat := ((List.range n).map fun i => (c.prog i).length).sum

theorem sum_set (f : Nat → Nat) (i a : Nat) : ∀ n, i < n →
    ((List.range n).map fun j => if j = i then a else f j).sum + f i = ((List.range n).map f).sum + a
  | 0, h => by omega
  | n + 1, h => by
    rw [List.range_succ, List.map_append, List.map_append, List.sum_append, List.sum_append]
    by_cases hi : i = n
    · subst hi
      have : ((List.range i).map fun j => if j = i then a else f j) = (List.range i).map f :=
        List.map_congr_left fun j hj => if_neg (by have := List.mem_range.1 hj; omega)
      rw [this]
      simp; omega
    · have ih := sum_set f i a n (by omega)
      have e : (if n = i then a else f n) = f n := if_neg (by omega)
      simp only [List.map_cons, List.map_nil, List.sum_cons, List.sum_nil, e]
      omega

theorem Conf.Step.left {c d : Conf} {n : Nat} (hn : ∀ i, n ≤ i → c.prog i = []) (h : Conf.Step c d) :
    d.left n + 1 = c.left n ∧ ∀ i, n ≤ i → d.prog i = [] := by
  have key : ∀ (i : Nat) (e : Ev) (rest : List Ev) (k : List Mutex), c.prog i = e :: rest →
      (c.set i rest k).left n + 1 = c.left n ∧ ∀ j, n ≤ j → (c.set i rest k).prog j = [] := by
    intro i e rest k hp
    have hi : i < n := Classical.byContradiction fun hlt => by
      rw [hn i (by omega)] at hp; cases hp
    have := sum_set (fun j => (c.prog j).length) i rest.length n hi
    refine ⟨?_, fun j hj => ?_⟩
    · have e1 : (c.set i rest k).left n = ((List.range n).map fun j => if j = i then rest.length else (c.prog j).length).sum := by
        unfold Conf.left Conf.set
        congr 1
        refine List.map_congr_left fun j _ => ?_
        by_cases hj : j = i
        · simp [hj]
        · simp [hj]
      have e2 : (c.prog i).length = rest.length + 1 := by rw [hp]; rfl
      rw [e1]
      unfold Conf.left
      simp only [e2] at this
      omega
    · show (if j = i then rest else c.prog j) = []
      rw [if_neg (by omega)]
      exact hn j hj
  cases h with
  | acq i m rest hp hf => exact key i _ rest _ hp
  | rel i m rest hp => exact key i _ rest _ hp

/-- C149: the calls of finitely many goroutines all return, whatever the scheduler does: there is no infinite run, and a run that
cannot be continued has brought every goroutine to its end. -/
theorem C149_all_return {E : Env} {p : List Ev} (hw : Work E (Freely E Any) p) (calls : Nat → List Call) (n : Nat) (hn : 0 < n)
    (hf : ∀ i, n ≤ i → calls i = []) (c0 : Conf) (h0 : c0 = ⟨fun i => if i = 0 then p else (calls i).flatMap Call.ev, fun _ => []⟩) :
    (∀ run : Nat → Conf, run 0 = c0 → ¬ ∀ k, Conf.Step (run k) (run (k + 1))) ∧
      ∀ c, Conf.Steps c0 c → (¬ ∃ d, Conf.Step c d) → ∀ i, c.prog i = [] ∧ c.hold i = [] := by
  have hz : ∀ i, n ≤ i → c0.prog i = [] := fun i hi => by
    subst h0
    show (if i = 0 then p else (calls i).flatMap Call.ev) = []
    rw [if_neg (by omega), hf i hi]; rfl
  refine ⟨fun run hr hs => ?_, fun c hc hd i => ?_⟩
  · have key : ∀ k, (run k).left n + k = c0.left n ∧ ∀ i, n ≤ i → (run k).prog i = [] := by
      intro k
      induction k with
      | zero => rw [hr]; exact ⟨rfl, hz⟩
      | succ k ih =>
        have := (hs k).left ih.2
        exact ⟨by have := this.1; have := ih.1; omega, this.2⟩
    have := (key (c0.left n + 1)).1
    omega
  · subst h0
    have hg := (good_start hw calls).steps hc
    have hp : c.prog i = [] := Classical.byContradiction fun hne => hd (hg.goes hne)
    refine ⟨hp, ?_⟩
    cases hh : c.hold i with
    | nil => rfl
    | cons m l => exact absurd hp (hg.busy (m := m) (by rw [hh]; exact List.mem_cons_self))

namespace Demo

/-- "u" has `a`, "v" has `b`. -/
def stMx : St := runAll E St.init [.create (S "u"), .create (S "v"), .upload (S "/up/a-1.eopkg") [1], .upload (S "/up/b-1.eopkg") [4],
  .addPackages (S "u") [S "/up/a-1.eopkg"] false, .addPackages (S "v") [S "/up/b-1.eopkg"] false]

theorem freelyM : Freely E Any stMx :=
  (((((Freely.init.job _ trivial).job _ trivial).job _ trivial).job _ trivial).job _ trivial).job _ trivial

theorem evM1 : ((Op.pull (S "u") (S "v")).lrun E stMx []).ev = [.acq (.insert (S "u")), .acq (.insert (S "v")), .rel (.insert (S "v")),
    .rel (.insert (S "u")), .acq (.index (S "v")), .rel (.index (S "v"))] := by decide +kernel

theorem evM2 : ((Op.pull (S "v") (S "u")).lrun E stMx []).ev = [.acq (.insert (S "v")), .acq (.insert (S "u")), .rel (.insert (S "u")),
    .rel (.insert (S "v")), .acq (.index (S "u")), .rel (.index (S "u"))] := by decide +kernel

/-- A pull holds two mutexes at once and releases both; a repository can be pulled from itself without blocking; deleting a repository
takes the mutex of its package list under that of the repositories. -/
example : ((Op.pull (S "u") (S "v")).lrun E stMx []).res = some (.ok ()) ∧ ((Op.pull (S "u") (S "u")).lrun E stMx []).res = some (.ok ()) ∧
    ((Op.delete (S "u")).lrun E stMx []).ev = [.acq .repos, .acq (.insert (S "u")), .rel (.insert (S "u")), .rel .repos] := by decide +kernel

/-- The order matters: with the index lists the other way round the events would not be in order. -/
example : follow [] [.acq (.insert (S "u")), .acq (.index (S "u")), .rel (.index (S "u")), .rel (.insert (S "u"))] = none := by decide +kernel

/-- The sequential worker claims a job, pulls, and retires the job, while requests are submitted. -/
example : Work E (Freely E Any) (Call.store.ev ++ (((Op.pull (S "u") (S "v")).lrun E stMx []).ev ++ (Call.store.ev ++ []))) :=
  .call (.job (.call .done _) _ freelyM) _

end Demo

/-- C149 rests on there being one sequential worker: two that pulled in opposite directions could block each other for ever. -/
theorem C149_needs_one_worker : ∃ (E : Env) (s : St) (o1 o2 : Op) (c : Conf), Freely E Any s ∧
    Conf.Steps ⟨fun i => if i = 0 then (o1.lrun E s []).ev else if i = 1 then (o2.lrun E s []).ev else [], fun _ => []⟩ c ∧
      c.prog 0 ≠ [] ∧ c.prog 1 ≠ [] ∧ ¬ ∃ d, Conf.Step c d := by
  let u : Mutex := .insert (Demo.S "u")
  let v : Mutex := .insert (Demo.S "v")
  refine ⟨Demo.E, Demo.stMx, .pull (Demo.S "u") (Demo.S "v"), .pull (Demo.S "v") (Demo.S "u"), ?_, Demo.freelyM, ?_⟩
  · exact ((⟨fun i => if i = 0 then ((Op.pull (Demo.S "u") (Demo.S "v")).lrun Demo.E Demo.stMx []).ev else if i = 1 then ((Op.pull (Demo.S "v") (Demo.S "u")).lrun Demo.E Demo.stMx []).ev else [],
      fun _ => []⟩ : Conf).set 0 [.acq v, .rel v, .rel u, .acq (.index (Demo.S "v")), .rel (.index (Demo.S "v"))] [u]).set 1
      [.acq u, .rel u, .rel v, .acq (.index (Demo.S "u")), .rel (.index (Demo.S "u"))] [v]
  · have huv : u ≠ v := by decide +kernel
    refine ⟨.tail (.tail .refl (.acq 0 u [.acq v, .rel v, .rel u, .acq (.index (Demo.S "v")), .rel (.index (Demo.S "v"))] Demo.evM1 fun j hj => by cases hj))
      (.acq 1 v [.acq u, .rel u, .rel v, .acq (.index (Demo.S "u")), .rel (.index (Demo.S "u"))] Demo.evM2 fun j hj => ?_), ?_, ?_, ?_⟩
    · change v ∈ (if j = 0 then [u] else []) at hj
      split at hj
      · exact huv (List.mem_singleton.1 hj).symm
      · cases hj
    · intro h; cases h
    · intro h; cases h
    · rintro ⟨d, hd⟩
      cases hd with
      | acq i m rest hp hf =>
        have h0 := hf 0
        have h1 := hf 1
        have e0 : m ≠ u := fun e => h0 (by rw [e]; exact List.mem_singleton_self u)
        have e1 : m ≠ v := fun e => h1 (by rw [e]; exact List.mem_singleton_self v)
        by_cases hi : i = 0
        · subst hi
          have : m = v := by cases hp; rfl
          exact e1 this
        · by_cases hi1 : i = 1
          · subst hi1
            have : m = u := by cases hp; rfl
            exact e0 this
          · have : (if i = 1 then _ else if i = 0 then _ else if i = 0 then _ else if i = 1 then _ else []) = (Ev.acq m :: rest) := hp
            rw [if_neg hi1, if_neg hi, if_neg hi, if_neg hi1] at this
            cases this
      | rel i m rest hp =>
        by_cases hi : i = 0
        · subst hi; cases hp
        · by_cases hi1 : i = 1
          · subst hi1; cases hp
          · have : (if i = 1 then _ else if i = 0 then _ else if i = 0 then _ else if i = 1 then _ else []) = (Ev.rel m :: rest) := hp
            rw [if_neg hi1, if_neg hi, if_neg hi, if_neg hi1] at this
            cases this

end Ferryd
