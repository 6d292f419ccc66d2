import Verif.DbCore
import Verif.CoreOps
import Verif.Demo
/-!
# DbRefine: the whole core on the flat database (C87)

Every operation of `Verif.CoreModel`, with repository names that do not contain `-package`, changes its tables only by calls
that the flat database carries out as well; so in every state, crash points included, the tables of the model and the flat
database of the code say the same.
-/
namespace Ferryd.Db

/-- The repository names an operation is given. -/
def repoNames : Op → List Str
  | .create r | .delete r | .removeSource r _ _ | .trimObsolete r | .trimPackages r _ | .addPackages r _ _ | .index r
  | .addDelta r _ _ _ | .refDelta r _ | .putAsset r _ _ | .stage r _ _ | .unstage r _ => [r]
  | .clone a b _ | .pull a b | .copySource a b _ _ _ => [a, b]
  | .markFailed _ _ | .upload _ _ | .unlink _ | .restart => []

/-! ## Proof -/

/-- From the tables `d` a history of admissible calls leads to `d'`. -/
def Via (d d' : DB) : Prop := ∃ cs : List Call, (∀ c ∈ cs, c.Safe) ∧ d' = cs.foldl (fun d c => c.tables d) d

theorem Via.refl {d : DB} : Via d d := ⟨[], by simp, rfl⟩
theorem Via.trans {a b c : DB} (h : Via a b) (h' : Via b c) : Via a c := by
  obtain ⟨cs, h1, rfl⟩ := h
  obtain ⟨ds, h2, rfl⟩ := h'
  refine ⟨cs ++ ds, ?_, by rw [List.foldl_append]⟩
  intro c hc
  rcases List.mem_append.1 hc with hc | hc
  · exact h1 c hc
  · exact h2 c hc

/-- A write that may be part of an admissible call. -/
def Fine (w : DbWrite) : Prop := reservedKey w.key = false ∧ ∀ r, repoOf w = some r → SafeName r

/-- The running batch holds such writes only. -/
def FinePend (s : St) : Prop := ∀ w ∈ s.pend, Fine w

/-- A computation that changes the tables by admissible calls only, at every crash point. -/
structure DbM {α : Type} (m : M α) : Prop where
  on : ∀ s, FinePend s → FinePend (m s).st ∧ Via s.db (m s).st.db ∧ ∀ x ∈ (m s).tr, Via s.db x.db

variable {α β : Type}

theorem dbm_pure (a : α) : DbM (pure a : M α) := ⟨fun s h => ⟨h, .refl, by intro x hx; cases hx⟩⟩
theorem dbm_throw (e : Err) : DbM (throwE e : M α) := ⟨fun s h => ⟨h, .refl, by intro x hx; cases hx⟩⟩
theorem dbm_panic : DbM (panicM : M α) := ⟨fun s h => ⟨h, .refl, by intro x hx; cases hx⟩⟩
theorem dbm_get : DbM getSt := ⟨fun s h => ⟨h, .refl, by intro x hx; cases hx⟩⟩

theorem dbm_bind {m : M α} {f : α → M β} (hm : DbM m) (hf : ∀ a, DbM (f a)) : DbM (m >>= f) := by
  constructor
  intro s hs
  obtain ⟨h1, h2, h3⟩ := hm.on s hs
  show FinePend (M.bind' m f s).st ∧ Via s.db (M.bind' m f s).st.db ∧ ∀ x ∈ (M.bind' m f s).tr, Via s.db x.db
  unfold M.bind'
  cases hr : (m s).res with
  | err e => exact ⟨h1, h2, h3⟩
  | panic => exact ⟨h1, h2, h3⟩
  | ok a =>
    obtain ⟨g1, g2, g3⟩ := (hf a).on (m s).st h1
    refine ⟨g1, h2.trans g2, ?_⟩
    intro x hx
    rcases List.mem_append.1 hx with hx | hx
    · exact h3 x hx
    · exact h2.trans (g3 x hx)

theorem dbm_step {f : St → St} (hd : ∀ s, (f s).db = s.db) (hp : ∀ s, FinePend s → FinePend (f s)) : DbM (stepM f) := by
  constructor
  intro s hs
  refine ⟨hp s hs, by show Via s.db (f s).db; rw [hd]; exact .refl, ?_⟩
  intro x hx
  simp only [stepM, List.mem_singleton] at hx
  subst hx; rw [hd]; exact .refl

theorem dbm_vol {f : St → St} (hd : ∀ s, (f s).db = s.db) (hp : ∀ s, FinePend s → FinePend (f s)) : DbM (volM f) := by
  constructor
  intro s hs
  refine ⟨hp s hs, by show Via s.db (f s).db; rw [hd]; exact .refl, ?_⟩
  intro x hx; cases hx

theorem dbm_forL {l : List α} {f : α → M Unit} (hf : ∀ a, DbM (f a)) : DbM (forL l f) := by
  induction l with
  | nil => exact dbm_pure ()
  | cons a l ih => exact dbm_bind (hf a) fun _ => ih
theorem dbm_collectL {l : List α} {f : α → M (List β)} (hf : ∀ a, DbM (f a)) : DbM (collectL l f) := by
  induction l with
  | nil => exact dbm_pure []
  | cons a l ih => exact dbm_bind (hf a) fun _ => dbm_bind ih fun _ => dbm_pure _
theorem dbm_foldL {l : List α} {b : β} {f : β → α → M β} (hf : ∀ b a, DbM (f b a)) : DbM (foldL l b f) := by
  induction l generalizing b with
  | nil => exact dbm_pure b
  | cons a l ih => exact dbm_bind (hf b a) fun _ => ih

theorem dbm_write (h : Ferryd.Handle) (w : DbWrite) (hw : ∀ r, repoOf w = some r → SafeName r) : DbM (dbWrite h w) := by
  constructor
  intro s hs
  unfold dbWrite
  by_cases hr : reservedKey w.key = true
  · rw [if_pos hr]; exact (dbm_throw _).on s hs
  · rw [if_neg hr]
    cases h with
    | batch =>
      refine ⟨?_, .refl, by intro x hx; cases hx⟩
      intro v hv
      rcases List.mem_append.1 hv with hv | hv
      · exact hs v hv
      · rw [List.mem_singleton] at hv; subst hv
        exact ⟨by simpa using hr, hw⟩
    | direct =>
      have : Via s.db (w.apply s.db) := ⟨[.direct w], by
        intro c hc; rw [List.mem_singleton] at hc; subst hc; exact hw, by simp [Call.tables, hr]⟩
      refine ⟨hs, this, ?_⟩
      intro x hx
      simp only [stepM, List.mem_singleton] at hx
      subst hx; exact this

theorem dbm_update {m : M Unit} (hm : DbM m) : DbM (dbUpdate m) := by
  constructor
  intro s hs
  obtain ⟨h1, h2, h3⟩ := hm.on { s with pend := [] } (by intro w hw; cases hw)
  have nil : ∀ t : St, FinePend { t with pend := [] } := by intro t w hw; cases hw
  unfold dbUpdate
  cases hr : (m { s with pend := [] }).res with
  | err e => simp only [hr]; exact ⟨nil _, h2, h3⟩
  | panic => simp only [hr]; exact ⟨nil _, h2, h3⟩
  | ok a =>
    simp only [hr]
    have hv : Via s.db ((m { s with pend := [] }).st.pend.foldl DbWrite.apply (m { s with pend := [] }).st.db) := by
      refine h2.trans ⟨[.update (m { s with pend := [] }).st.pend], ?_, ?_⟩
      · intro c hc; rw [List.mem_singleton] at hc; subst hc
        exact fun w hw => (h1 w hw).2
      · have : ((m { s with pend := [] }).st.pend.any fun w => reservedKey w.key) = false := by
          rw [List.any_eq_false]
          intro w hw; rw [(h1 w hw).1]; simp
        simp only [List.foldl_cons, List.foldl_nil, Call.tables]; rw [this]; rfl
    refine ⟨fun w hw => (by cases hw), hv, ?_⟩
    intro x hx
    rcases List.mem_append.1 hx with hx | hx
    · exact h3 x hx
    · rw [List.mem_singleton] at hx; subst hx; exact hv

macro "dbm" : tactic => `(tactic| repeat' (first
  | assumption
  | exact dbm_pure _ | exact dbm_throw _ | exact dbm_panic | exact dbm_get
  | (apply dbm_write; (intro r h; first | (cases h; done) | (cases h; assumption)))
  | (apply dbm_step <;> (intro s; first | rfl | exact fun h => h))
  | (apply dbm_vol <;> (intro s; first | rfl | exact fun h => h))
  | apply dbm_bind | apply dbm_forL | apply dbm_collectL | apply dbm_foldL
  | intro _ | split | (show DbM _; dsimp only)))

theorem dbm_getRelease (m : Meta) : DbM (getRelease m) := by unfold getRelease; dbm
theorem dbm_pathComp (m : Meta) : DbM (pathComp m) := by unfold pathComp; dbm
theorem dbm_removeFile (p : Path) : DbM (removeFile p) := by unfold removeFile; dbm
theorem dbm_copyFile (p q : Path) : DbM (copyFile p q) := by unfold copyFile; dbm
theorem dbm_linkOrCopy (E : Env) (p q : Path) (b : Bool) : DbM (linkOrCopy E p q b) := by
  unfold linkOrCopy
  have h := dbm_copyFile p q
  dbm
theorem dbm_fileSha1 (E : Env) (p : Path) : DbM (fileSha1 E p) := by unfold fileSha1; dbm
theorem dbm_openPkg (E : Env) (p : Path) : DbM (openPkg E p) := by unfold openPkg; dbm
theorem dbm_poolGet? (id : Str) : DbM (poolGet? id) := by unfold poolGet?; dbm
theorem dbm_poolGet (id : Str) : DbM (poolGet id) := by
  unfold poolGet
  have h := dbm_poolGet? id
  dbm
theorem dbm_repoGet? (r n : Str) : DbM (repoGet? r n) := by unfold repoGet?; dbm
theorem dbm_repoGet (r n : Str) : DbM (repoGet r n) := by
  unfold repoGet
  have h := dbm_repoGet? r n
  dbm
theorem dbm_repoEntries (r : Str) : DbM (repoEntries r) := by unfold repoEntries; dbm

/-- With the functions above. -/
macro "dbm1" : tactic => `(tactic| repeat' (first
  | exact dbm_getRelease _ | exact dbm_pathComp _ | exact dbm_removeFile _ | exact dbm_copyFile _ _
  | exact dbm_linkOrCopy _ _ _ _ | exact dbm_fileSha1 _ _ | exact dbm_openPkg _ _ | exact dbm_poolGet? _
  | exact dbm_poolGet _ | exact dbm_repoGet? _ _ | exact dbm_repoGet _ _ | exact dbm_repoEntries _
  | assumption
  | exact dbm_pure _ | exact dbm_throw _ | exact dbm_panic | exact dbm_get
  | (apply dbm_write; (intro r h; first | (cases h; done) | (cases h; assumption)))
  | (apply dbm_step <;> (intro s; first | rfl | exact fun h => h))
  | (apply dbm_vol <;> (intro s; first | rfl | exact fun h => h))
  | apply dbm_bind | apply dbm_forL | apply dbm_collectL | apply dbm_foldL
  | intro _ | split | (show DbM _; dsimp only)))

theorem dbm_poolAddInternal (E : Env) (p : Pkg) (b : Bool) (d : Option DeltaInfo) : DbM (poolAddInternal E p b d) := by
  unfold poolAddInternal; dbm1
theorem dbm_poolAddDelta (E : Env) (p : Pkg) (f t : Str) (b : Bool) : DbM (poolAddDelta E p f t b) := by
  unfold poolAddDelta
  have h := dbm_poolAddInternal E p b
  dbm1
theorem dbm_refEntry (id : Str) : DbM (refEntry id) := by unfold refEntry; dbm1
theorem dbm_unrefEntry (h : Ferryd.Handle) (id : Str) : DbM (unrefEntry h id) := by unfold unrefEntry; dbm1
theorem dbm_markDeltaFailed (id : Str) (d : DeltaInfo) : DbM (markDeltaFailed id d) := by unfold markDeltaFailed; dbm1
theorem dbm_getRepo (r : Str) : DbM (getRepo r) := by unfold getRepo bakeRepo; dbm1
theorem dbm_createRepo (r : Str) : DbM (createRepo r) := by
  unfold createRepo bakeRepo
  have h := dbm_getRepo r
  dbm1
theorem dbm_removePackageInternal (h : Ferryd.Handle) (r id : Str) : DbM (removePackageInternal h r id) := by
  unfold removePackageInternal
  have h := dbm_unrefEntry h id
  dbm1

variable {r : Str} (hr : SafeName r)
include hr

theorem dbm_repoPut (e : RepoEntry) : DbM (repoPut r e) := by unfold repoPut; dbm1
theorem dbm_refDelta (E : Env) (id : Str) : DbM (refDelta E r id) := by
  unfold refDelta
  have h := dbm_repoPut hr
  have h2 := dbm_refEntry id
  dbm1
theorem dbm_addDelta (E : Env) (file : Path) (f t : Str) : DbM (addDelta E r file f t) := by
  unfold addDelta
  have h := dbm_repoPut hr
  dbm1
theorem dbm_unrefPackage (id : Str) : DbM (unrefPackage r id) := by
  unfold unrefPackage unrefDeltas unrefAvail
  have h := dbm_repoPut hr
  have h2 := fun (h : Ferryd.Handle) (i : Str) => dbm_removePackageInternal h r i
  dbm1
  all_goals first | exact h _ | exact h2 _ _
omit hr in
theorem dbm_buildSaneEntry (r : Str) (m : Meta) (id : Str) : DbM (buildSaneEntry r m id) := by
  unfold buildSaneEntry; dbm1
theorem dbm_refPackage (E : Env) (id : Str) : DbM (refPackage E r id) := by
  unfold refPackage
  have h := dbm_repoPut hr
  have h2 := dbm_refEntry id
  dbm1
  all_goals first | exact h _ | exact dbm_buildSaneEntry _ _ _
theorem dbm_addLocalPackage (E : Env) (p : Pkg) : DbM (addLocalPackage E r p) := by
  unfold addLocalPackage
  have h := dbm_repoPut hr
  dbm1
  all_goals first | exact h _ | exact dbm_buildSaneEntry _ _ _ | exact dbm_poolAddInternal _ _ _ _
theorem dbm_addPackage (E : Env) (f : Path) (b : Bool) : DbM (addPackage E r f b) := by
  unfold addPackage
  have h := dbm_addLocalPackage hr E
  dbm1
  all_goals exact h _
omit hr in
theorem dbm_pullAssets (a b : Str) : DbM (pullAssets a b) := by unfold pullAssets pullAsset; dbm1
theorem dbm_cloneFrom (E : Env) (src : Str) (b : Bool) : DbM (cloneFrom E r src b) := by
  unfold cloneFrom
  have h := dbm_refPackage hr E
  have h2 := dbm_refDelta hr E
  have h3 := dbm_pullAssets r src
  dbm1
  all_goals first | exact h _ | exact h2 _
theorem dbm_pullFrom (E : Env) (src : Str) : DbM (pullFrom E r src) := by
  unfold pullFrom pullOne
  have h := dbm_refPackage hr E
  have h3 := dbm_pullAssets r src
  dbm1
omit hr in
theorem dbm_matchingSource (r n : Str) (k : Int) : DbM (matchingSource r n k) := by unfold matchingSource; dbm1
theorem dbm_removeSource (n : Str) (k : Int) : DbM (removeSource r n k) := by
  unfold removeSource
  have h := dbm_unrefPackage hr
  have h2 := dbm_matchingSource r n k
  dbm1
theorem dbm_copySourceFrom (E : Env) (src n : Str) (k : Int) : DbM (copySourceFrom E r src n k) := by
  unfold copySourceFrom
  have h := dbm_refPackage hr E
  have h2 := dbm_matchingSource src n k
  dbm1
omit hr in
theorem dbm_initDistribution (E : Env) (r : Str) : DbM (initDistribution E r) := by unfold initDistribution; dbm1
omit hr in
theorem dbm_trimObsoleteScan (o : List Str) (n : Str) (l : List Str) : DbM (trimObsoleteScan o n l) := by
  induction l with
  | nil => exact dbm_pure _
  | cons a l ih => unfold trimObsoleteScan; dbm1
theorem dbm_trimObsolete (E : Env) : DbM (trimObsolete E r) := by
  unfold trimObsolete
  have h := dbm_unrefPackage hr
  have h2 := dbm_initDistribution E r
  dbm1
  all_goals first | exact h _ | exact dbm_trimObsoleteScan _ _ _
theorem dbm_trimPackages (E : Env) (k : Int) : DbM (trimPackages E r k) := by
  unfold trimPackages trimScan
  have h := dbm_unrefPackage hr
  dbm1
  all_goals exact h _
theorem dbm_deleteRepoBody : DbM (deleteRepoBody r) := by
  unfold deleteRepoBody
  have h2 := fun (h : Ferryd.Handle) (i : Str) => dbm_removePackageInternal h r i
  dbm1
  all_goals exact h2 _ _
theorem dbm_deleteRepo : DbM (deleteRepo r) := by
  unfold deleteRepo rmRepoTree rmRepoAux
  have h := dbm_getRepo r
  have h2 := dbm_update (dbm_deleteRepoBody hr)
  dbm1
omit hr in
theorem dbm_indexRepo (E : Env) (r : Str) : DbM (indexRepo E r) := by
  unfold indexRepo emitIndex emitPackage pushDeltas
  have h2 := dbm_initDistribution E r
  dbm1
omit hr in
theorem dbm_mIndex (E : Env) (r : Str) : DbM (mIndex E r) :=
  dbm_bind (dbm_getRepo r) fun _ => dbm_indexRepo E r

omit hr in
theorem dbm_op (E : Env) (o : Op) (h : ∀ r ∈ repoNames o, SafeName r) : DbM (o.run E) := by
  have gr := dbm_getRepo
  have ix := dbm_mIndex E
  cases o with
  | create r => exact dbm_bind (dbm_createRepo r) fun _ => ix r
  | delete r => exact dbm_deleteRepo (h r (by simp [repoNames]))
  | clone a b f =>
    exact dbm_bind (gr a) fun _ => dbm_bind (dbm_createRepo b) fun _ =>
      dbm_bind (dbm_cloneFrom (h b (by simp [repoNames])) E a f) fun _ => ix b
  | pull a b =>
    exact dbm_bind (dbm_bind (gr a) fun _ => dbm_bind (gr b) fun _ =>
      dbm_bind (dbm_pullFrom (h b (by simp [repoNames])) E a) fun _ => dbm_bind (ix b) fun _ => dbm_pure _) fun _ => dbm_pure _
  | removeSource r n k =>
    exact dbm_bind (gr r) fun _ => dbm_bind (dbm_removeSource (h r (by simp [repoNames])) n k) fun _ => ix r
  | copySource a b n k sk =>
    refine dbm_bind (gr a) fun _ => dbm_bind (gr b) fun _ =>
      dbm_bind (dbm_copySourceFrom (h b (by simp [repoNames])) E a n k) fun _ => ?_
    split
    · exact ix b
    · exact dbm_pure _
  | trimObsolete r => exact dbm_bind (gr r) fun _ => dbm_bind (dbm_trimObsolete (h r (by simp [repoNames])) E) fun _ => ix r
  | trimPackages r k => exact dbm_bind (gr r) fun _ => dbm_bind (dbm_trimPackages (h r (by simp [repoNames])) E k) fun _ => ix r
  | addPackages r fs st =>
    exact dbm_bind (gr r) fun _ => dbm_bind (dbm_forL fun f => dbm_addPackage (h r (by simp [repoNames])) E _ st) fun _ => ix r
  | index r => exact ix r
  | addDelta r d f t => exact dbm_bind (gr r) fun _ => dbm_addDelta (h r (by simp [repoNames])) E _ f t
  | refDelta r d => exact dbm_bind (gr r) fun _ => dbm_refDelta (h r (by simp [repoNames])) E d
  | markFailed i d => exact dbm_markDeltaFailed i d
  | upload f c => exact dbm_step (fun _ => rfl) fun _ h => h
  | unlink f => exact dbm_removeFile _
  | putAsset r a c => exact dbm_step (fun _ => rfl) fun _ h => h
  | stage r d c => exact dbm_step (fun _ => rfl) fun _ h => h
  | unstage r d => exact dbm_removeFile _
  | restart => exact dbm_step (fun _ => rfl) fun _ _ w hw => (by cases hw)

omit hr in
theorem via_history (E : Env) (ops : List Op) (h : ∀ o ∈ ops, ∀ r ∈ repoNames o, SafeName r) {s : St} (hs : FinePend s) :
    FinePend (runAll E s ops) ∧ Via s.db (runAll E s ops).db := by
  induction ops generalizing s with
  | nil => exact ⟨hs, .refl⟩
  | cons o ops ih =>
    obtain ⟨h1, h2, _⟩ := (dbm_op E o (h o (by simp))).on s hs
    obtain ⟨g1, g2⟩ := ih (fun o ho => h o (List.mem_cons_of_mem _ ho)) (s := o.exec E s) h1
    exact ⟨g1, h2.trans g2⟩

variable (K : CoreCodec)

omit hr in
/-- **C87** for the daemon: after any history of operations with repository names that do not contain `-package`, the
tables are those of a history of bucket calls, and the flat database after these calls says the same. -/
theorem C87_daemon (E : Env) (ops : List Op) (h : ∀ o ∈ ops, ∀ r ∈ repoNames o, SafeName r) :
    ∃ cs : List Call, tablesAfter cs = (runAll E St.init ops).db ∧ Agree K (flatAfter K cs) (runAll E St.init ops).db := by
  obtain ⟨_, cs, h1, h2⟩ := via_history E ops h (s := St.init) (by intro w hw; cases hw)
  have : tablesAfter cs = (runAll E St.init ops).db := h2.symm
  exact ⟨cs, this, this ▸ C87_tables cs h1⟩

omit hr in
/-- **C87** for the daemon at crash points: also what an operation leaves when it is cut short is what a history of bucket
calls leaves. -/
theorem C87_daemon_crash (E : Env) (ops : List Op) (h : ∀ o ∈ ops, ∀ r ∈ repoNames o, SafeName r)
    (o : Op) (ho : ∀ r ∈ repoNames o, SafeName r) {x : St} (hx : x ∈ (o.run E (runAll E St.init ops)).tr) :
    ∃ cs : List Call, tablesAfter cs = x.db ∧ Agree K (flatAfter K cs) x.db := by
  obtain ⟨h0, h1⟩ := via_history E ops h (s := St.init) (by intro w hw; cases hw)
  obtain ⟨_, _, h3⟩ := (dbm_op E o ho).on _ h0
  obtain ⟨cs, h4, h5⟩ := h1.trans (h3 x hx)
  have : tablesAfter cs = x.db := h5.symm
  exact ⟨cs, this, this ▸ C87_tables cs h4⟩

instance (r : Str) : Decidable (SafeName r) := by unfold SafeName; infer_instance

omit hr in
/-- The history of `Verif.Demo` names such repositories. -/
theorem demo_safe : ∀ o ∈ Demo.hist1, ∀ r ∈ repoNames o, SafeName r := by decide +kernel

end Ferryd.Db
