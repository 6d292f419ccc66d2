import Verif.CoreReal
import Verif.CoreStock
/-!
# CoreProv: where listings come from, and that additions never set a published release back

Two facts about every point of every job, in any state that crashes may have left: a repository lists only what it listed before or what the job brings
(`Op.within`); and a job that takes nothing out of repositories keeps every listing and never publishes an older release (`Op.rise`).
-/
namespace Ferryd
open Spec
variable {W : World} {s t : St} {α β : Type}

/-! ## Programs that leave the listings alone -/

/-- `m` leaves all listings alone, at all its points. (No code: a notion of the proofs.) -/
structure Mute (m : M α) : Prop where
  fin : ∀ s, (m s).st.db.ents = s.db.ents
  tr : ∀ s, ∀ t ∈ (m s).tr, t.db.ents = s.db.ents

theorem Still.mute {m : M α} (h : Still m) : Mute m := ⟨fun s => (h.fin s).2, fun s t ht => (h.tr s t ht).2⟩
theorem Reads.mute {m : M α} (h : Reads m) : Mute m := h.still.mute

theorem Mute.bind {m : M α} {f : α → M β} (h : Mute m) (hf : ∀ a, Mute (f a)) : Mute (m >>= f) := by
  have key : ∀ s, ((m >>= f) s).st.db.ents = s.db.ents ∧ ∀ t ∈ ((m >>= f) s).tr, t.db.ents = s.db.ents := by
    intro s
    show (M.bind' m f s).st.db.ents = _ ∧ ∀ t ∈ (M.bind' m f s).tr, _
    unfold M.bind'
    cases (m s).res with
    | ok a =>
      refine ⟨((hf a).fin _).trans (h.fin s), fun t ht => ?_⟩
      rcases List.mem_append.1 ht with ht | ht
      · exact h.tr s t ht
      · exact ((hf a).tr _ t ht).trans (h.fin s)
    | err e => exact ⟨h.fin s, h.tr s⟩
    | panic => exact ⟨h.fin s, h.tr s⟩
  exact ⟨fun s => (key s).1, fun s => (key s).2⟩

theorem Mute.pure (a : α) : Mute (pure a : M α) := (Still.pure a).mute
theorem Mute.throw (e : Err) : Mute (throwE e : M α) := (Still.throw e).mute
theorem Mute.ite {c : Prop} [Decidable c] {m n : M α} (h : Mute m) (k : Mute n) : Mute (if c then m else n) := by
  split
  · exact h
  · exact k
theorem Mute.collectL {γ δ : Type} {l : List γ} {f : γ → M (List δ)} (h : ∀ x ∈ l, Mute (f x)) : Mute (collectL l f) := by
  induction l with
  | nil => exact Mute.pure _
  | cons x xs ih => exact (h x (by simp)).bind fun a => (ih fun y hy => h y (by simp [hy])).bind fun b => Mute.pure _

theorem dbWrite_mute {w : DbWrite} (h : ∀ d : DB, (w.apply d).ents = d.ents) : Mute (dbWrite .direct w) := by
  unfold dbWrite
  refine Mute.ite (Mute.throw _) ⟨fun s => h s.db, fun s t ht => ?_⟩
  have ht : t ∈ [_] := ht
  simp only [List.mem_singleton] at ht; subst ht; exact h s.db

theorem poolAddInternal_mute (E : Env) (p : Pkg) (b : Bool) (d : Option DeltaInfo) : Mute (poolAddInternal E p b d) := by
  refine (poolGet?_reads _).mute.bind fun o => ?_
  cases o with
  | some e => exact (dbWrite_mute fun _ => rfl).bind fun _ => Mute.pure _
  | none =>
    refine Reads.getSt.mute.bind fun s => ?_
    cases s.fs.read p.path with
    | none => exact Mute.throw _
    | some c =>
      refine (pathComp_reads _).mute.bind fun comp => (linkOrCopy_still _ _ _ _).mute.bind fun _ => (fileSha1_reads _ _).mute.bind fun sha => ?_
      exact Mute.ite ((removeFile_still _).mute.bind fun _ => Mute.throw _) ((dbWrite_mute fun _ => rfl).bind fun _ => Mute.pure _)

theorem poolAddDelta_mute (E : Env) (p : Pkg) (f t : Str) (b : Bool) : Mute (poolAddDelta E p f t b) := by
  unfold poolAddDelta
  refine (poolGet?_reads _).mute.bind fun o => ?_
  cases o with
  | some e => exact (dbWrite_mute fun _ => rfl).bind fun _ => Mute.pure _
  | none =>
    refine (poolGet_reads _).mute.bind fun x => (poolGet_reads _).mute.bind fun y => ?_
    refine (getRelease_reads _).mute.bind fun _ => (getRelease_reads _).mute.bind fun _ => ?_
    exact poolAddInternal_mute _ _ _ _

theorem refEntry_mute (id : Str) : Mute (refEntry id) :=
  (poolGet_reads _).mute.bind fun _ => dbWrite_mute fun _ => rfl

theorem unrefEntry_mute (id : Str) : Mute (unrefEntry .direct id) :=
  (poolGet_reads _).mute.bind fun _ => Mute.ite (dbWrite_mute fun _ => rfl)
    ((pathComp_reads _).mute.bind fun _ => (removeFile_still _).mute.bind fun _ => dbWrite_mute fun _ => rfl)

theorem removePackageInternal_mute (rid id : Str) : Mute (removePackageInternal .direct rid id) := by
  refine (poolGet?_reads _).mute.bind fun o => ?_
  cases o with
  | none => exact Mute.pure _
  | some e => exact (pathComp_reads _).mute.bind fun _ => (removeFile_still _).mute.bind fun _ => unrefEntry_mute _

theorem unrefDeltas_mute (rid pkgID : Str) (ds : List Str) : Mute (unrefDeltas rid pkgID ds) := by
  refine Mute.collectL fun d _ => (poolGet_reads _).mute.bind fun pd => ?_
  cases pd.delta with
  | none => exact Reads.panic.mute
  | some di => exact Mute.ite ((removePackageInternal_mute _ _).bind fun _ => Mute.pure _) (Mute.pure _)

/-- `J` speaks of the listings only. (No code: a notion of the proofs.) -/
structure OnEnts (J : St → Prop) : Prop where
  congr : ∀ s t, J s → t.db.ents = s.db.ents → J t

theorem Mute.ever {J : St → Prop} {m : M α} (h : Mute m) (hj : OnEnts J) (hs : J s) : Ever J m s (fun _ t => t.db.ents = s.db.ents) :=
  ⟨hj.congr s _ hs (h.fin s), fun t ht => hj.congr s t hs (h.tr s t ht), fun _ _ => h.fin s⟩

theorem repoPut_ever {J : St → Prop} {r : Str} {e : RepoEntry} (hs : J s)
    (h : J { s with db := (DbWrite.putEnt r e.name e).apply s.db }) : Ever J (repoPut r e) s (fun _ _ => True) := by
  unfold repoPut dbWrite
  split
  · exact Ever.throw hs
  · exact (Ever.step h).mono fun _ _ _ => trivial

/-! ## Where listings come from -/

/-- Every repository lists only what `H` allows. (No code: a notion of the proofs.) -/
structure Within (H : Str → Str → Prop) (s : St) : Prop where
  ents : ∀ r n e, (s.db.ents r).get n = some e → ∀ x ∈ e.available, H r x

variable {H : Str → Str → Prop}

theorem within_onEnts (H : Str → Str → Prop) : OnEnts (Within H) := ⟨fun s t h e => ⟨by rw [e]; exact h.ents⟩⟩

theorem Within.put (h : Within H s) {r : Str} {e : RepoEntry} (he : ∀ x ∈ e.available, H r x) :
    Within H { s with db := (DbWrite.putEnt r e.name e).apply s.db } := by
  refine ⟨fun r' n e' hg x hx => ?_⟩
  have hg : (setEnts s.db.ents r ((s.db.ents r).put e.name e) r').get n = some e' := hg
  unfold setEnts at hg
  split at hg
  · rename_i hr; subst hr
    rw [KV.get_put] at hg
    split at hg
    · cases hg; exact he x hx
    · exact h.ents _ n e' hg x hx
  · exact h.ents _ n e' hg x hx

theorem Within.del (h : Within H s) {r n : Str} : Within H { s with db := (DbWrite.delEnt r n).apply s.db } := by
  refine ⟨fun r' n' e' hg x hx => ?_⟩
  have hg : (setEnts s.db.ents r ((s.db.ents r).del n) r').get n' = some e' := hg
  unfold setEnts at hg
  split at hg
  · rename_i hr; subst hr
    rw [KV.get_del] at hg
    split at hg
    · cases hg
    · exact h.ents _ n' e' hg x hx
  · exact h.ents _ n' e' hg x hx

theorem buildSaneEntry_within (rid : Str) (m : Meta) (id : Str) (h : Within H s) (hid : H rid id) :
    Post (buildSaneEntry rid m id) s (fun o _ => ∀ ne, o = some ne → ∀ x ∈ ne.available, H rid x) := by
  refine (repoGet?_post _ _).bind fun o t ht => ?_
  obtain ⟨rfl, ho⟩ := ht
  cases o with
  | none =>
    refine Post.pure fun ne hn => ?_
    cases hn
    intro x hx; simp only [List.mem_singleton] at hx; subst hx; exact hid
  | some e =>
    refine Post.bind (P := fun _ _ => True) ⟨fun _ _ => trivial⟩ fun pub u _ => ?_
    split
    · exact Post.pure fun _ hn => by cases hn
    · refine Post.pure fun ne hn => ?_
      cases hn
      intro x hx
      simp only [mem_sortS, List.mem_append, List.mem_singleton] at hx
      rcases hx with hx | rfl
      · exact h.ents rid m.name e ho.symm x hx
      · exact hid

theorem refPackage_within (E : Env) (rid id : Str) (h : Within H s) (hid : H rid id) : Ever (Within H) (refPackage E rid id) s (fun _ _ => True) := by
  refine Ever.skip h (poolGet_reads _) fun pe => Ever.skip h (pathComp_reads _) fun comp => ?_
  refine ((Ever.reads h (buildSaneEntry_reads rid pe.pkg id)).post (buildSaneEntry_within rid pe.pkg id h hid)).bind fun o t _ ht => ?_
  obtain ⟨hne, rfl⟩ := ht
  cases o with
  | none => exact Ever.pure h trivial
  | some ne =>
    refine ((refEntry_mute id).ever (within_onEnts H) h).bind fun _ u hu _ => ((linkOrCopy_still _ _ _ _).mute.ever (within_onEnts H) hu).bind fun _ v hv _ => ?_
    exact repoPut_ever hv (hv.put (hne ne rfl))

theorem addLocalPackage_within (E : Env) (rid : Str) (p : Pkg) (h : Within H s) (hid : H rid p.id) : Ever (Within H) (addLocalPackage E rid p) s (fun _ _ => True) := by
  refine Ever.skip h (pathComp_reads _) fun comp => ?_
  refine ((Ever.reads h (buildSaneEntry_reads rid p.pkg p.id)).post (buildSaneEntry_within rid p.pkg p.id h hid)).bind fun o t _ ht => ?_
  obtain ⟨hne, rfl⟩ := ht
  cases o with
  | none => exact Ever.pure h trivial
  | some ne =>
    refine ((poolAddInternal_mute E p _ _).ever (within_onEnts H) h).bind fun _ u hu _ => ((linkOrCopy_still _ _ _ _).mute.ever (within_onEnts H) hu).bind fun _ v hv _ => ?_
    exact repoPut_ever hv (hv.put (hne ne rfl))

theorem openPkg_base (E : Env) (p : Path) : Post (openPkg E p) s (fun o t => o.id = p.base ∧ t = s) := by
  refine Post.getSt ?_
  cases s.fs.read p with
  | none => exact Post.throw
  | some c =>
    simp only
    cases E.parse c with
    | bad => exact Post.throw
    | crash => exact ⟨fun a ha => by cases ha⟩
    | good m => exact Post.pure ⟨rfl, rfl⟩

theorem addPackage_within (E : Env) (rid : Str) (file : Path) (strict : Bool) (h : Within H s) (hid : H rid file.base) :
    Ever (Within H) (addPackage E rid file strict) s (fun _ _ => True) := by
  refine ((Ever.reads h (openPkg_reads _ _)).post (openPkg_base E file)).bind fun p t _ ht => ?_
  obtain ⟨⟨hp, _⟩, rfl⟩ := ht
  have key := addLocalPackage_within E rid p h (by rw [hp]; exact hid)
  split
  · exact key
  · refine Ever.skip h (repoGet?_reads _ _) fun o => ?_
    cases o with
    | none => exact key
    | some l =>
      refine Ever.skip h (poolGet_reads _) fun pub => Ever.skip h (getRelease_reads _) fun _ => Ever.skip h (getRelease_reads _) fun _ => ?_
      split
      · exact Ever.throw h
      · split
        · exact Ever.throw h
        · exact key

theorem refDelta_within (E : Env) (rid id : Str) (h : Within H s) : Ever (Within H) (refDelta E rid id) s (fun _ _ => True) := by
  refine Ever.skip h (poolGet_reads _) fun pe => ?_
  refine ((Ever.reads h (repoGet_reads _ _)).post (repoGet_post _ _)).bind fun e t _ ht => ?_
  obtain ⟨⟨_, he⟩, rfl⟩ := ht
  refine Ever.skip h (pathComp_reads _) fun comp => ?_
  split
  · exact Ever.pure h trivial
  · refine ((refEntry_mute id).ever (within_onEnts H) h).bind fun _ u hu _ => ((linkOrCopy_still _ _ _ _).mute.ever (within_onEnts H) hu).bind fun _ v hv _ => ?_
    exact repoPut_ever hv (hv.put fun x hx => h.ents rid _ e he x hx)

theorem addDelta_within (E : Env) (rid : Str) (file : Path) (f g : Str) (h : Within H s) : Ever (Within H) (addDelta E rid file f g) s (fun _ _ => True) := by
  refine Ever.skip h (openPkg_reads _ _) fun p => ?_
  refine ((Ever.reads h (repoGet_reads _ _)).post (repoGet_post _ _)).bind fun e t _ ht => ?_
  obtain ⟨⟨_, he⟩, rfl⟩ := ht
  refine Ever.skip h (pathComp_reads _) fun comp => ?_
  split
  · exact Ever.pure h trivial
  · refine ((poolAddDelta_mute E p f g _).ever (within_onEnts H) h).bind fun _ u hu _ => ((linkOrCopy_still _ _ _ _).mute.ever (within_onEnts H) hu).bind fun _ v hv _ => ?_
    exact repoPut_ever hv (hv.put fun x hx => h.ents rid _ e he x hx)

theorem unrefAvail_within (pkgID : Str) (av : List Str) : Post (unrefAvail pkgID av) s (fun acc _ => ∀ x ∈ acc.2.2, x ∈ av) := by
  unfold unrefAvail
  have key : ∀ (l : List Str) (acc : Int × Str × List Str) {s : St}, (∀ x ∈ l, x ∈ av) → (∀ x ∈ acc.2.2, x ∈ av) →
      Post (foldL l acc fun acc id => do
        if id = pkgID then pure acc
        else do
          let pe ← poolGet id
          let rel ← getRelease pe.pkg
          if rel > acc.1 then pure (rel, id, acc.2.2 ++ [id])
          else pure (acc.1, acc.2.1, acc.2.2 ++ [id])) s (fun acc _ => ∀ x ∈ acc.2.2, x ∈ av) := by
    intro l
    induction l with
    | nil => intro acc s _ ha; exact Post.pure ha
    | cons y ys ih =>
      intro acc s hl ha
      refine Post.bind (P := fun (b : Int × Str × List Str) _ => ∀ x ∈ b.2.2, x ∈ av) ?_ fun b t hb => ih b (fun x hx => hl x (by simp [hx])) hb
      dsimp only
      split
      · exact Post.pure ha
      · refine Post.bind (P := fun _ _ => True) ⟨fun _ _ => trivial⟩ fun pe t _ => Post.bind (P := fun _ _ => True) ⟨fun _ _ => trivial⟩ fun rel u _ => ?_
        have : ∀ x ∈ acc.2.2 ++ [y], x ∈ av := by
          intro x hx
          rcases List.mem_append.1 hx with hx | hx
          · exact ha x hx
          · simp only [List.mem_singleton] at hx; subst hx; exact hl x (by simp)
        split
        · exact Post.pure this
        · exact Post.pure this
  exact key av _ (fun x hx => hx) (by simp)

theorem unrefPackage_within (rid id : Str) (h : Within H s) : Ever (Within H) (unrefPackage rid id) s (fun _ _ => True) := by
  refine Ever.skip h (poolGet_reads _) fun pe => ?_
  refine ((Ever.reads h (repoGet_reads _ _)).post (repoGet_post _ _)).bind fun e t _ ht => ?_
  obtain ⟨⟨_, he⟩, rfl⟩ := ht
  refine ((removePackageInternal_mute rid id).ever (within_onEnts H) h).bind fun _ u hu _ => ?_
  refine ((unrefDeltas_mute rid id e.deltas).ever (within_onEnts H) hu).bind fun ds v hv _ => ?_
  refine ((Ever.reads hv (unrefAvail_reads _ _)).post (unrefAvail_within id e.available)).bind fun acc w _ hw => ?_
  obtain ⟨hacc, rfl⟩ := hw
  split
  · unfold dbWrite
    split
    · exact Ever.throw hv
    · exact (Ever.step hv.del).mono fun _ _ _ => trivial
  · refine repoPut_ever hv (hv.put fun x hx => ?_)
    have hx : x ∈ sortS acc.2.2 := hx
    rw [mem_sortS] at hx
    exact h.ents rid _ e he x (hacc x hx)

theorem forL_within {γ : Type} {l : List γ} {f : γ → M Unit} (h : Within H s)
    (hf : ∀ x ∈ l, ∀ t, Within H t → Ever (Within H) (f x) t (fun _ _ => True)) : Ever (Within H) (forL l f) s (fun _ _ => True) :=
  Ever.forL (P := fun _ => True) l h trivial fun x hx t ht _ => hf x hx t ht

theorem deleteRepo_within (x : Str) (hr : Rough W s) (h : Within H s) : Ever (Within H) (deleteRepo x) s (fun _ _ => True) := by
  have oe := within_onEnts H
  unfold deleteRepo
  refine (((getRepo_still x).mute.ever oe h).keeps (getRepo_keeps (tgt := none) x) hr).bind fun _ t ht hp => ?_
  have h1 : Within H { t with cache := t.cache.filter (· ≠ x) } := ⟨ht.ents⟩
  refine ((Ever.vol (J := Within H) (g := fun s => { s with cache := s.cache.filter (· ≠ x) }) h1).keeps
    (cache_keeps (tgt := none) fun l => l.filter (· ≠ x)) hp.1).bind fun _ u hu hpu => ?_
  obtain ⟨hru, _, rfl⟩ := hpu
  refine Ever.bind (P := fun _ _ => True) ?_ fun _ v hv _ => (Ever.step (J := Within H) (g := _) ⟨hv.ents⟩).bind fun _ w hw _ =>
    (Ever.step (J := Within H) (g := _) ⟨hw.ents⟩).mono fun _ _ _ => trivial
  generalize hv : ({ t with cache := t.cache.filter (· ≠ x) } : St) = v at *
  have hb := fixed_body (d := v.db) (c := v.cache) x
  have hf : Fixed v.db v.cache { v with pend := [] } := ⟨rfl, rfl⟩
  have hfin := hb.fin _ hf
  have htr := hb.tr _ hf
  have hq := (deleteRepoBody_queues (s := { v with pend := [] }) (rid := x) hru.db).run
  have same : ∀ {y : St}, Fixed v.db v.cache y → Within H y := fun {y} hy => oe.congr v y hu (by rw [hy.1])
  unfold dbUpdate
  rcases hres : (deleteRepoBody x { v with pend := [] }).res with a | e | _
  · obtain ⟨q1, more, q2, q3, q4⟩ := hq a hres
    have hdel : ∀ w ∈ more, DelWrite x w := fun w hw => (q3 w hw).del
    obtain ⟨g1, g2⟩ := deleting_gone (r := x) more v.db hdel
    have go := deleting_others more v.db hdel
    have key : ∀ {y : St}, y.db = more.foldl DbWrite.apply v.db → Within H y := by
      intro y e1
      refine ⟨fun z n e hg => ?_⟩
      rw [e1] at hg
      by_cases hz : z = x
      · subst hz; exact hu.ents z n e (g1 n e hg).1
      · rw [(go z hz).1] at hg; exact hu.ents z n e hg
    have k2 := key (y := { (deleteRepoBody x { v with pend := [] }).st with
      db := (deleteRepoBody x { v with pend := [] }).st.pend.foldl DbWrite.apply (deleteRepoBody x { v with pend := [] }).st.db, pend := [] })
      (by show List.foldl DbWrite.apply _ _ = _; rw [q2, q1]; rfl)
    refine ⟨?_, ?_, fun _ _ => trivial⟩
    · simp only [hres]; exact k2
    · intro y hy
      simp only [hres] at hy
      rcases List.mem_append.1 hy with hy | hy
      · exact same (htr y hy)
      · simp only [List.mem_singleton] at hy
        subst hy; exact k2
  · exact ⟨by simp only [hres]; exact ⟨(same hfin).ents⟩, fun y hy => by simp only [hres] at hy; exact same (htr y hy), fun _ _ => trivial⟩
  · exact ⟨by simp only [hres]; exact ⟨(same hfin).ents⟩, fun y hy => by simp only [hres] at hy; exact same (htr y hy), fun _ _ => trivial⟩

/-- What a job may bring into repository `r`: an import the packages named by its files; a clone, a pull or a copy what the request selects from the
source.  Other jobs bring nothing. (No code: a notion of the statements.) -/
def Spec.Brings (W : World) (s : St) : Op → Str → Str → Prop
  | .addPackages x fs _, r, id => r = x ∧ ∃ f ∈ fs, id = baseName f
  | .clone a b full, r, id => r = b ∧ if full then Has s a id else ∃ n, Tip s a n id
  | .pull a b, r, id => r = b ∧ ∃ n, Tip s a n id
  | .copySource a b source rel _, r, id => r = b ∧ Has s a id ∧ FromSource W source rel id
  | _, _, _ => False

theorem tip_of_entry (hr : Rough W t) (he : t.db.ents = s.db.ents) {r : Str} {e : RepoEntry} (h : e ∈ (t.db.ents r).map Prod.snd) :
    Tip s r e.name e.published := by
  have := (hr.entry h).1
  rw [he] at this
  exact ⟨e, this, rfl⟩

/-- At every point of every job a repository lists only what it listed before, or what the job brings it. -/
theorem Op.within (ok : W.OK) (o : Op) (hr : Rough W s) :
    Ever (Within fun r x => Has s r x ∨ Brings W s o r x) (o.run W.E) s (fun _ _ => True) := by
  have h0 : ∀ (B : Str → Str → Prop), Within (fun r x => Has s r x ∨ B r x) s := fun B => ⟨fun r n e hg x hx => .inl ⟨n, e, hg, hx⟩⟩
  have idx : ∀ {H : Str → Str → Prop} {x : Str} {s : St}, Within H s → Ever (Within H) (mIndex W.E x) s (fun _ _ => True) :=
    fun h => ((mIndex_still W.E _).mute.ever (within_onEnts _) h).mono fun _ _ _ => trivial
  have get : ∀ {H : Str → Str → Prop} {β : Type} (x : Str) {f : Unit → M β} {s : St} {P : β → St → Prop}, Within H s → Rough W s →
      (∀ t, Within H t → Rough W t → t.db.ents = s.db.ents → Ever (Within H) (f ()) t P) → Ever (Within H) (getRepo x >>= f) s P :=
    fun {_ _} x {_ _ _} h hr hf => (((getRepo_still x).mute.ever (within_onEnts _) h).keeps (getRepo_keeps (tgt := none) x) hr).bind
      fun _ t ht hp => hf t ht hp.1 hp.2.2
  have stp : ∀ {H : Str → Str → Prop} {g : St → FS}, Within H s → Ever (Within H) (stepM fun s => s.setFs (g s)) s (fun _ _ => True) := fun {H g} h =>
    (Ever.step (J := Within H) (g := fun s => s.setFs (g s)) ⟨h.ents⟩).mono fun _ _ _ => trivial
  have h := h0 (Brings W s o)
  cases o with
  | create x => exact ((createRepo_still x).mute.ever (within_onEnts _) h).bind fun _ t ht _ => idx ht
  | delete x => exact deleteRepo_within x hr h
  | clone a b full =>
    refine get a h hr fun t ht hrt et => ?_
    refine (((createRepo_still b).mute.ever (within_onEnts _) ht).keeps (createRepo_keeps b) hrt).bind fun _ u hu hpu => ?_
    refine Ever.bind (P := fun _ _ => True) ?_ fun _ v hv _ => idx hv
    refine (((pullAssets_still b a).mute.ever (within_onEnts _) hu).keeps (pullAssets_keeps b a) hpu.1).bind fun _ v hv hpv => ?_
    have ev : v.db.ents = s.db.ents := hpv.2.2.trans (hpu.2.2.trans et)
    have he : At W none (repoEntries a) v (fun es => es = (v.db.ents a).map Prod.snd) := At.getSt (At.pure hpv.1 rfl)
    refine Ever.read (tgt := none) hv (repoEntries_reads a) he fun es hes => ?_
    subst hes
    refine (forL_within hv fun id hid w hw => ?_).bind fun _ w hw _ => forL_within hw fun d _ y hy => refDelta_within W.E b d hy
    refine refPackage_within W.E b id hw (.inr ⟨rfl, ?_⟩)
    cases full with
    | true =>
      obtain ⟨e, he, hx⟩ := List.mem_flatMap.1 hid
      have := (hpv.1.entry he).1
      rw [ev] at this
      exact ⟨_, e, this, hx⟩
    | false =>
      obtain ⟨e, he, rfl⟩ := List.mem_map.1 hid
      exact ⟨_, tip_of_entry hpv.1 ev he⟩
  | pull a b =>
    refine Ever.bind (P := fun _ _ => True) ?_ fun _ t ht _ => Ever.pure ht trivial
    refine get a h hr fun t ht hrt et => get b ht hrt fun u hu hru eu => ?_
    refine Ever.bind (P := fun _ _ => True) ?_ fun _ v hv _ => (idx hv).bind fun _ w hw _ => Ever.pure hw trivial
    refine (((pullAssets_still b a).mute.ever (within_onEnts _) hu).keeps (pullAssets_keeps b a) hru).bind fun _ v hv hpv => ?_
    have ev : v.db.ents = s.db.ents := hpv.2.2.trans (eu.trans et)
    have he : At W none (repoEntries a) v (fun es => es = (v.db.ents a).map Prod.snd) := At.getSt (At.pure hpv.1 rfl)
    refine Ever.read (tgt := none) hv (repoEntries_reads a) he fun es hes => ?_
    subst hes
    classical
    refine Ever.read (tgt := none) hv (Reads.collectL fun e _ => pullOne_reads b e)
      (At.collect (tgt := none) hpv.1 (fun e _ => pullOne_reads b e) (fun e _ => pullOne_at ok b e hpv.1)) fun todo htd => ?_
    subst htd
    refine (forL_within hv fun id hid w hw => ?_).bind fun _ w hw _ => Ever.pure hw trivial
    refine refPackage_within W.E b id hw (.inr ⟨rfl, ?_⟩)
    obtain ⟨p, hp, rfl⟩ := List.mem_map.1 hid
    obtain ⟨e, he, hx⟩ := List.mem_flatMap.1 hp
    split at hx
    · simp only [List.mem_singleton] at hx
      subst hx
      exact ⟨_, tip_of_entry hpv.1 ev he⟩
    · simp at hx
  | removeSource x n k =>
    refine get x h hr fun t ht hrt et => Ever.bind (P := fun _ _ => True) ?_ fun _ v hv _ => idx hv
    refine Ever.skip ht (matchingSource_reads _ _ _) fun ids => ?_
    split
    · exact Ever.throw ht
    · exact forL_within ht fun id _ w hw => unrefPackage_within x id hw
  | trimObsolete x =>
    refine get x h hr fun t ht hrt et => Ever.bind (P := fun _ _ => True) ?_ fun _ v hv _ => idx hv
    refine Ever.skip ht (initDistribution_reads _ _) fun o => ?_
    cases o with
    | none => exact Ever.throw ht
    | some obs =>
      refine Ever.skip ht (repoEntries_reads _) fun es => Ever.skip ht (Reads.collectL fun e _ => trimObsoleteScan_reads _ _ _) fun ids => ?_
      exact forL_within ht fun id _ w hw => unrefPackage_within x id hw
  | trimPackages x k =>
    refine get x h hr fun t ht hrt et => Ever.bind (P := fun _ _ => True) ?_ fun _ v hv _ => idx hv
    unfold Ferryd.trimPackages
    split
    · exact Ever.throw ht
    · refine Ever.skip ht (repoEntries_reads _) fun es => Ever.skip ht (Reads.collectL fun e _ => trimScan_reads _ _ _) fun ids => ?_
      exact forL_within ht fun id _ w hw => unrefPackage_within x id hw
  | copySource a b source rel sk =>
    refine get a h hr fun t ht hrt et => get b ht hrt fun u hu hru eu => ?_
    refine Ever.bind (P := fun _ _ => True) ?_ fun _ v hv _ => ?_
    · refine Ever.read (tgt := none) hu (matchingSource_reads _ _ _) (matchingSource_at ok a source rel hru) fun ids hids => ?_
      split
      · exact Ever.throw hu
      · refine forL_within hu fun id hid w hw => refPackage_within W.E b id hw (.inr ⟨rfl, ?_⟩)
        have := (hids id).1 hid
        rw [matches_iff] at this
        have e : Has u a id ↔ Has s a id := by unfold Has Lists; rw [eu, et]
        rw [e] at this
        exact this
    · cases sk with
      | true => exact idx hv
      | false => exact Ever.pure hv trivial
  | addPackages x fs st =>
    refine get x h hr fun t ht hrt et => Ever.bind (P := fun _ _ => True) ?_ fun _ v hv _ => idx hv
    exact forL_within ht fun f hf w hw => addPackage_within W.E x (.ext f) st hw (.inr ⟨rfl, f, hf, rfl⟩)
  | index x => exact idx h
  | addDelta x d f t => exact get x h hr fun u hu _ _ => addDelta_within W.E x _ f t hu
  | refDelta x d => exact get x h hr fun u hu _ _ => refDelta_within W.E x d hu
  | markFailed i d => exact ((markDeltaFailed_still i d).mute.ever (within_onEnts _) h).mono fun _ _ _ => trivial
  | upload f c => exact stp h
  | unlink f => exact stp h
  | putAsset x a c => exact stp h
  | stage x d c => exact stp h
  | unstage x d => exact stp h
  | restart => exact (Ever.step (J := Within _) (g := _) ⟨h.ents⟩).mono fun _ _ _ => trivial

/-! ## Additions keep the listings and never publish an older release -/

/-- Every listing of `d` is still there, and, where `F` holds, the release published is at least the one published in `d`. (No code: a notion of the proofs.) -/
structure Rises (W : World) (F : Prop) (d : DB) (s : St) : Prop where
  ents : ∀ r n e, (d.ents r).get n = some e → ∃ e', (s.db.ents r).get n = some e' ∧ (∀ x ∈ e.available, x ∈ e'.available) ∧
    (F → (W.mOf e.published).rel ≤ (W.mOf e'.published).rel)

variable {d : DB} {F : Prop}

theorem rises_onEnts (W : World) (F : Prop) (d : DB) : OnEnts (Rises W F d) := ⟨fun s t h e => ⟨by rw [e]; exact h.ents⟩⟩
theorem Rises.refl (s : St) : Rises W F s.db s := ⟨fun _ _ e hg => ⟨e, hg, fun _ hx => hx, fun _ => Int.le_refl _⟩⟩

theorem Rises.put (h : Rises W F d s) {r : Str} {e : RepoEntry} (he : ∀ e0, (s.db.ents r).get e.name = some e0 →
    (∀ x ∈ e0.available, x ∈ e.available) ∧ (F → (W.mOf e0.published).rel ≤ (W.mOf e.published).rel)) :
    Rises W F d { s with db := (DbWrite.putEnt r e.name e).apply s.db } := by
  refine ⟨fun r' n e0 hg => ?_⟩
  obtain ⟨e1, h1, h2, h3⟩ := h.ents r' n e0 hg
  have key : ∀ e2, (setEnts s.db.ents r ((s.db.ents r).put e.name e) r').get n = some e2 →
      (∀ x ∈ e1.available, x ∈ e2.available) ∧ (F → (W.mOf e1.published).rel ≤ (W.mOf e2.published).rel) →
      ∃ e', (setEnts s.db.ents r ((s.db.ents r).put e.name e) r').get n = some e' ∧ (∀ x ∈ e0.available, x ∈ e'.available) ∧
        (F → (W.mOf e0.published).rel ≤ (W.mOf e'.published).rel) :=
    fun e2 ha hb => ⟨e2, ha, fun x hx => hb.1 x (h2 x hx), fun hf => Int.le_trans (h3 hf) (hb.2 hf)⟩
  have same : (∀ x ∈ e1.available, x ∈ e1.available) ∧ (F → (W.mOf e1.published).rel ≤ (W.mOf e1.published).rel) := ⟨fun _ hx => hx, fun _ => Int.le_refl _⟩
  show ∃ e', (setEnts s.db.ents r ((s.db.ents r).put e.name e) r').get n = some e' ∧ _
  by_cases hr : r' = r
  · subst hr
    by_cases hn : n = e.name
    · subst hn
      exact key e (by simp [setEnts, KV.get_put]) (he e1 h1)
    · exact key e1 (by simp [setEnts, KV.get_put, hn, h1]) same
  · exact key e1 (by simp [setEnts, hr, h1]) same

theorem buildSaneEntry_rises (ok : W.OK) (rid : Str) {m : Meta} {id : Str} (hm : m.history ≠ []) (hrel : m.rel = (W.mOf id).rel) (hr : Rough W s)
    (hs : F → Safe W s.db) : Post (buildSaneEntry rid m id) s (fun o _ => ∀ ne, o = some ne → ne.name = m.name ∧ ∀ e0, (s.db.ents rid).get m.name = some e0 →
      (∀ x ∈ e0.available, x ∈ ne.available) ∧ (F → (W.mOf e0.published).rel ≤ (W.mOf ne.published).rel)) := by
  refine (repoGet?_post _ _).bind fun o t ht => ?_
  obtain ⟨rfl, ho⟩ := ht
  cases o with
  | none =>
    refine Post.pure fun ne h => ?_
    cases h
    exact ⟨rfl, fun e0 h0 => by rw [← ho] at h0; cases h0⟩
  | some e =>
    have he := hr.db.ent rid m.name e ho.symm
    have key : Post (do
      match ← poolGet? e.published with
      | none => pure id
      | some pa => do
        let nr ← getRelease m
        let pr ← getRelease pa.pkg
        if nr > pr then pure id else pure e.published) t
        (fun p u => u = t ∧ (F → (W.mOf e.published).rel ≤ (W.mOf p).rel)) := by
      have h0 : At W none (poolGet? e.published) t (fun o => o = t.db.pool.get e.published) := At.getSt (At.pure hr rfl)
      refine (h0.post (poolGet?_reads _)).bind fun og u hu => ?_
      obtain ⟨rfl, hpa⟩ := hu
      cases og with
      | none =>
        refine Post.pure ⟨rfl, fun hf => ?_⟩
        obtain ⟨pa, h1, _⟩ := (hs hf).pool (r := rid) (id := e.published) ⟨_, e, ho.symm, .inl he.pub⟩
        rw [← hpa] at h1; cases h1
      | some pa =>
      have hrp := hr.db.pool _ _ hpa.symm
      refine ((getRelease_keeps (tgt := none) hm u hr).post (getRelease_reads _)).bind fun nr v hv => ?_
      obtain ⟨rfl, rfl⟩ := hv
      refine ((getRelease_keeps (tgt := none) (hrp.hist ok) v hr).post (getRelease_reads _)).bind fun pr w hw => ?_
      obtain ⟨rfl, rfl⟩ := hw
      rw [hrp.rel, hrel]
      split
      · exact Post.pure ⟨rfl, fun _ => by omega⟩
      · exact Post.pure ⟨rfl, fun _ => Int.le_refl _⟩
    refine key.bind fun pub u hu => ?_
    obtain ⟨rfl, h1⟩ := hu
    split
    · exact Post.pure fun _ h => by cases h
    · refine Post.pure fun ne h => ?_
      cases h
      refine ⟨rfl, fun e0 h0 => ?_⟩
      rw [← ho] at h0; cases h0
      exact ⟨fun x hx => by simp [mem_sortS, hx], h1⟩

theorem refPackage_rises (ok : W.OK) (rid id : Str) (hr : Rough W s) (hs : F → Safe W s.db) (h : Rises W F d s) :
    Ever (Rises W F d) (refPackage W.E rid id) s (fun _ _ => True) := by
  refine Ever.read (tgt := none) h (poolGet_reads id) (poolGet_at id hr) fun pe hpe => Ever.skip h (pathComp_reads _) fun comp => ?_
  refine ((Ever.reads h (buildSaneEntry_reads rid pe.pkg id)).post (buildSaneEntry_rises ok rid (hpe.2.hist ok) hpe.2.rel hr hs)).bind fun o t _ ht => ?_
  obtain ⟨hne, rfl⟩ := ht
  cases o with
  | none => exact Ever.pure h trivial
  | some ne =>
    obtain ⟨hn, hq⟩ := hne ne rfl
    refine ((refEntry_mute id).ever (rises_onEnts W F d) h).bind fun _ u hu eu => ((linkOrCopy_still _ _ _ _).mute.ever (rises_onEnts W F d) hu).bind fun _ v hv ev => ?_
    exact repoPut_ever hv (hv.put fun e0 h0 => hq e0 (by rw [← eu, ← ev, ← hn]; exact h0))

theorem addLocalPackage_rises (ok : W.OK) (rid : Str) {p : Pkg} {file : Path} (hp : ROpen W p file) (hr : Rough W s) (hs : F → Safe W s.db) (h : Rises W F d s) :
    Ever (Rises W F d) (addLocalPackage W.E rid p) s (fun _ _ => True) := by
  have hm := ok.meta hp.isPkg
  refine Ever.skip h (pathComp_reads _) fun comp => ?_
  refine ((Ever.reads h (buildSaneEntry_reads rid p.pkg p.id)).post
    (buildSaneEntry_rises ok rid (by rw [hp.pkg]; exact hm.hist) (by rw [hp.pkg]) hr hs)).bind fun o t _ ht => ?_
  obtain ⟨hne, rfl⟩ := ht
  cases o with
  | none => exact Ever.pure h trivial
  | some ne =>
    obtain ⟨hn, hq⟩ := hne ne rfl
    refine ((poolAddInternal_mute W.E p _ _).ever (rises_onEnts W F d) h).bind fun _ u hu eu => ((linkOrCopy_still _ _ _ _).mute.ever (rises_onEnts W F d) hu).bind fun _ v hv ev => ?_
    exact repoPut_ever hv (hv.put fun e0 h0 => hq e0 (by rw [← eu, ← ev, ← hn]; exact h0))

theorem addPackage_rises (ok : W.OK) (hz : W.NoTorn) (rid : Str) {file : Path} {strict : Bool} (hn : file.isAsset = false) (hr : Rough W s)
    (hs : F → Safe W s.db) (h : Rises W F d s) : Ever (Rises W F d) (addPackage W.E rid file strict) s (fun _ _ => True) := by
  refine Ever.read (tgt := none) h (openPkg_reads _ _) (openPkg_at ok hz hn hr) fun p hp => ?_
  have key := addLocalPackage_rises ok rid hp.1 hr hs h
  split
  · exact key
  · refine Ever.skip h (repoGet?_reads _ _) fun o => ?_
    cases o with
    | none => exact key
    | some l =>
      refine Ever.skip h (poolGet_reads _) fun pub => Ever.skip h (getRelease_reads _) fun _ => Ever.skip h (getRelease_reads _) fun _ => ?_
      split
      · exact Ever.throw h
      · split
        · exact Ever.throw h
        · exact key

theorem putDeltas_rises {rid n : Str} {e : RepoEntry} {ds : List Str} (h : Rises W F d s) (hg : (s.db.ents rid).get n = some e) (hn : e.name = n) :
    Rises W F d { s with db := (DbWrite.putEnt rid e.name { e with deltas := ds }).apply s.db } :=
  h.put (e := { e with deltas := ds }) fun e0 h0 => by
    have h0 : (s.db.ents rid).get e.name = some e0 := h0
    rw [hn, hg] at h0; cases h0
    exact ⟨fun _ hx => hx, fun _ => Int.le_refl _⟩

theorem refDelta_rises (rid id : Str) (hr : Rough W s) (h : Rises W F d s) : Ever (Rises W F d) (refDelta W.E rid id) s (fun _ _ => True) := by
  refine Ever.skip h (poolGet_reads _) fun pe => ?_
  refine Ever.read (tgt := none) h (repoGet_reads _ _) (repoGet_at _ _ hr) fun e he => ?_
  refine Ever.skip h (pathComp_reads _) fun comp => ?_
  split
  · exact Ever.pure h trivial
  · refine ((refEntry_mute id).ever (rises_onEnts W F d) h).bind fun _ u hu eu => ((linkOrCopy_still _ _ _ _).mute.ever (rises_onEnts W F d) hu).bind fun _ v hv ev => ?_
    exact repoPut_ever hv (putDeltas_rises (e := e) hv (by rw [ev, eu]; exact he.1) he.2.name)

theorem addDelta_rises (rid : Str) (file : Path) (f g : Str) (hr : Rough W s) (h : Rises W F d s) :
    Ever (Rises W F d) (addDelta W.E rid file f g) s (fun _ _ => True) := by
  refine Ever.skip h (openPkg_reads _ _) fun p => ?_
  refine Ever.read (tgt := none) h (repoGet_reads _ _) (repoGet_at _ _ hr) fun e he => ?_
  refine Ever.skip h (pathComp_reads _) fun comp => ?_
  split
  · exact Ever.pure h trivial
  · refine ((poolAddDelta_mute W.E p f g _).ever (rises_onEnts W F d) h).bind fun _ u hu eu => ((linkOrCopy_still _ _ _ _).mute.ever (rises_onEnts W F d) hu).bind fun _ v hv ev => ?_
    exact repoPut_ever hv (putDeltas_rises (e := e) hv (by rw [ev, eu]; exact he.1) he.2.name)

theorem forL_rises {γ : Type} {tgt : Option Str} {l : List γ} {f : γ → M Unit} (hr : Rough W s) (hs : F → Safe W s.db) (h : Rises W F d s)
    (hk : ∀ x ∈ l, Keeps W tgt (f x) (fun _ => True)) (hsf : ∀ x ∈ l, ∀ s, Rough W s → Safe W s.db → Run W (f x) s (fun _ _ => True))
    (hf : ∀ x ∈ l, ∀ t, Rough W t → (F → Safe W t.db) → Rises W F d t → Ever (Rises W F d) (f x) t (fun _ _ => True)) :
    Ever (Rises W F d) (forL l f) s (fun _ t => Rough W t ∧ (F → Safe W t.db)) :=
  Ever.forL (P := fun t => Rough W t ∧ (F → Safe W t.db)) l h ⟨hr, hs⟩ fun x hx t ht hp => by
    have k := hf x hx t hp.1 hp.2 ht
    exact ⟨k.fin, k.tr, fun _ _ => ⟨(hk x hx t hp.1).fin, fun hf => (hsf x hx t hp.1 (hp.2 hf)).fin⟩⟩

theorem Still.rises {tgt : Option Str} {m : M α} {Q : α → Prop} (hm : Still m) (hk : Keeps W tgt m Q) (hr : Rough W s) (hs : F → Safe W s.db) (h : Rises W F d s) :
    Ever (Rises W F d) m s (fun _ t => Rough W t ∧ (F → Safe W t.db)) := by
  have k := hm.mute.ever (rises_onEnts W F d) h
  exact ⟨k.fin, k.tr, fun _ _ => ⟨(hk s hr).fin, fun hf => (hm.run (hs hf)).fin⟩⟩

/-- A job that takes nothing out of repositories: at every point every listing is kept, and, in a state that no cut removal has spoilt, the published
release does not fall. -/
theorem Op.rises (ok : W.OK) (hz : W.NoTorn) {o : Op} (ho : o.Ok W) (hn : o.takes = false) (hr : Rough W s) (hs : F → Safe W s.db) :
    Ever (Rises W F s.db) (o.run W.E) s (fun _ _ => True) := by
  obtain ⟨d, hd⟩ : ∃ d, d = s.db := ⟨_, rfl⟩
  have h : Rises W F d s := by rw [hd]; exact Rises.refl s
  rw [← hd]
  have oe := rises_onEnts W F d
  have idx : ∀ {x : Str} {s : St}, Rises W F d s → Ever (Rises W F d) (mIndex W.E x) s (fun _ _ => True) :=
    fun h => ((mIndex_still W.E _).mute.ever oe h).mono fun _ _ _ => trivial
  have get : ∀ {β : Type} (x : Str) {f : Unit → M β} {s : St} {P : β → St → Prop}, Rises W F d s → Rough W s → (F → Safe W s.db) →
      (∀ t, Rises W F d t → Rough W t → (F → Safe W t.db) → Ever (Rises W F d) (f ()) t P) → Ever (Rises W F d) (getRepo x >>= f) s P :=
    fun {_} x {_ s _} h hr hs hf => ((getRepo_still x).rises (getRepo_keeps (tgt := none) x) hr hs h).bind fun _ t ht hp => hf t ht hp.1 hp.2
  have stp : ∀ {g : St → FS}, Ever (Rises W F d) (stepM fun s => s.setFs (g s)) s (fun _ _ => True) := fun {g} =>
    (Ever.step (J := Rises W F d) (g := fun s => s.setFs (g s)) ⟨h.ents⟩).mono fun _ _ _ => trivial
  cases o with
  | create x => exact ((createRepo_still x).mute.ever oe h).bind fun _ t ht _ => idx ht
  | delete x => cases hn
  | clone a b full =>
    refine get a h hr hs fun t ht hrt hst => ?_
    refine ((createRepo_still b).rises (createRepo_keeps b) hrt hst ht).bind fun _ u hu hpu => ?_
    refine Ever.bind (P := fun _ _ => True) ?_ fun _ v hv _ => idx hv
    refine ((pullAssets_still b a).rises (pullAssets_keeps b a) hpu.1 hpu.2 hu).bind fun _ v hv hpv => ?_
    refine Ever.read (tgt := none) hv (repoEntries_reads a) (repoEntries_keeps a v hpv.1) fun es hes => ?_
    refine (forL_rises (tgt := some b) hpv.1 hpv.2 hv ?_ (fun id _ s hr hs => refPackage_safe ok b id hr hs)
      (fun id _ t hr hs h => refPackage_rises ok b id hr hs h)).bind fun _ w hw hpw =>
      (forL_rises (tgt := some b) hpw.1 hpw.2 hw ?_ (fun id _ s hr hs => refDelta_safe b id hr hs) (fun id _ t hr _ h => refDelta_rises b id hr h)).mono fun _ _ _ => trivial
    · intro id hid
      refine refPackage_keeps ok b id ?_
      cases full with
      | true =>
        simp only [if_true, List.mem_flatMap] at hid
        obtain ⟨e, he, hi⟩ := hid
        exact ((hes e he).avail id hi).1
      | false =>
        simp only [Bool.false_eq_true, if_false, List.mem_map] at hid
        obtain ⟨e, he, rfl⟩ := hid
        exact ((hes e he).avail _ (hes e he).pub).1
    · intro d hd
      refine refDelta_keeps ok b d ?_
      cases full with
      | true =>
        simp only [if_true, List.mem_flatMap] at hd
        obtain ⟨e, he, hi⟩ := hd
        exact ((hes e he).deltas d hi).1
      | false => simp at hd
  | pull a b =>
    refine Ever.bind (P := fun _ _ => True) ?_ fun _ t ht _ => Ever.pure ht trivial
    refine get a h hr hs fun t ht hrt hst => get b ht hrt hst fun u hu hru hsu => ?_
    refine Ever.bind (P := fun _ _ => True) ?_ fun _ v hv _ => (idx hv).bind fun _ w hw _ => Ever.pure hw trivial
    refine ((pullAssets_still b a).rises (pullAssets_keeps b a) hru hsu hu).bind fun _ v hv hpv => ?_
    refine Ever.read (tgt := none) hv (repoEntries_reads a) (repoEntries_keeps a v hpv.1) fun es hes => ?_
    refine Ever.read (tgt := none) hv (Reads.collectL fun e _ => pullOne_reads b e)
      (Keeps.collectL (fun e he => pullOne_keeps ok b (hes e he)) v hpv.1) fun todo htd => ?_
    refine (forL_rises (tgt := some b) hpv.1 hpv.2 hv (fun id hid => ?_) (fun id _ s hr hs => refPackage_safe ok b id hr hs)
      (fun id _ t hr hs h => refPackage_rises ok b id hr hs h)).bind fun _ w hw _ => Ever.pure hw trivial
    obtain ⟨p, hp, rfl⟩ := List.mem_map.1 hid
    exact refPackage_keeps ok b _ (htd p hp)
  | removeSource x n k => cases hn
  | trimObsolete x => cases hn
  | trimPackages x k => cases hn
  | copySource a b source rel sk =>
    refine get a h hr hs fun t ht hrt hst => get b ht hrt hst fun u hu hru hsu => ?_
    refine Ever.bind (P := fun _ _ => True) ?_ fun _ v hv _ => ?_
    · refine Ever.read (tgt := none) hu (matchingSource_reads _ _ _) (matchingSource_keeps ok a source rel u hru) fun ids hids => ?_
      split
      · exact Ever.throw hu
      · exact (forL_rises (tgt := some b) hru hsu hu (fun id hid => refPackage_keeps ok b id (hids id hid)) (fun id _ s hr hs => refPackage_safe ok b id hr hs)
          (fun id _ t hr hs h => refPackage_rises ok b id hr hs h)).mono fun _ _ _ => trivial
    · cases sk with
      | true => exact idx hv
      | false => exact Ever.pure hv trivial
  | addPackages x fs st =>
    refine get x h hr hs fun t ht hrt hst => Ever.bind (P := fun _ _ => True) ?_ fun _ v hv _ => idx hv
    exact (forL_rises (tgt := some x) hrt hst ht (fun f hf => addPackage_keeps ok hz x (file := .ext f) rfl (ho f hf))
      (fun f _ s hr hs => addPackage_safe ok hz x (file := .ext f) rfl hr hs) (fun f _ t hr hs h => addPackage_rises ok hz x (file := .ext f) rfl hr hs h)).mono
      fun _ _ _ => trivial
  | index x => exact idx h
  | addDelta x d f t => exact get x h hr hs fun u hu hru _ => addDelta_rises x _ f t hru hu
  | refDelta x d => exact get x h hr hs fun u hu hru _ => refDelta_rises x d hru hu
  | markFailed i d => exact ((markDeltaFailed_still i d).mute.ever oe h).mono fun _ _ _ => trivial
  | upload f c => exact stp
  | unlink f => exact stp
  | putAsset x a c => exact stp
  | stage x d c => exact stp
  | unstage x d => exact stp
  | restart => exact (Ever.step (J := Rises W F _) (g := _) ⟨h.ents⟩).mono fun _ _ _ => trivial

end Ferryd
