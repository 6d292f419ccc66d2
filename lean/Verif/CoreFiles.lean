import Verif.PropsRough
/-!
# CoreFiles: what every job can do to the files

Whatever the state, the jobs change the files only by a few kinds of steps, and none of them changes an upload's directory entry. A
property of the files kept by these steps holds at every durable point of every job.
-/
namespace Ferryd

/-- The place of an upload. (No code: a notion of the statements and proofs.) -/
def Path.isExt : Path → Bool
  | .ext _ => true
  | _ => false

/-- `J` is kept by everything the jobs do to files: removing, hard-linking where that is possible, creating, writing, removing a
repository's tree, its assets and staged deltas, making directories, publishing an index. (No code: a notion of the statements and
proofs.) -/
structure FsClosed (E : Env) (J : FS → Prop) : Prop where
  rm : ∀ fs p, J fs → p.isExt = false → J (fs.setTab p none)
  link : ∀ fs a b i, J fs → fs.tab a = some i → fs.tab b = none → E.linkOk a b = true → b.isExt = false →
    J (fs.setTab b (some i))
  create : ∀ fs p, J fs → p.isExt = false → fs.tab p = none →
    J { (fs.setTab p (some fs.next)).setData fs.next [] with next := fs.next + 1 }
  write : ∀ fs p i c, J fs → p.isExt = false → fs.tab p = some i → J (fs.setData i c)
  drop : ∀ fs (k : Path → Bool), J fs → (∀ p, k p = true → p.isExt = false) →
    J { fs with tab := fun p => if k p then none else fs.tab p }
  dirs : ∀ fs f g, J fs → J { fs with rdir := f, idx := g }

/-- `J` holds of the files at every durable point and at the end. (No code: a notion of the statements and proofs.) -/
structure Always (J : FS → Prop) {α : Type} (m : M α) : Prop where
  fin : ∀ s, J s.fs → J (m s).st.fs
  tr : ∀ s, J s.fs → ∀ t ∈ (m s).tr, J t.fs

section
variable {J : FS → Prop} {E : Env} {α β : Type}

theorem Always.bind {m : M α} {f : α → M β} (h : Always J m) (hf : ∀ a, Always J (f a)) : Always J (m >>= f) := by
  have e : ∀ s, (∃ a, (m s).res = .ok a ∧
      (m >>= f) s = ⟨(f a (m s).st).res, (f a (m s).st).st, (m s).tr ++ (f a (m s).st).tr⟩) ∨
      (((m >>= f) s).st = (m s).st ∧ ((m >>= f) s).tr = (m s).tr) := by
    intro s
    show (∃ a, (m s).res = .ok a ∧ M.bind' m f s = _) ∨ ((M.bind' m f s).st = _ ∧ (M.bind' m f s).tr = _)
    unfold M.bind'
    rcases hm : (m s).res with a | e | _
    · exact .inl ⟨a, rfl, rfl⟩
    · exact .inr ⟨rfl, rfl⟩
    · exact .inr ⟨rfl, rfl⟩
  refine ⟨fun s hs => ?_, fun s hs t ht => ?_⟩
  · rcases e s with ⟨a, _, h2⟩ | ⟨h1, _⟩
    · rw [h2]; exact (hf a).fin _ (h.fin s hs)
    · rw [h1]; exact h.fin s hs
  · rcases e s with ⟨a, _, h2⟩ | ⟨_, h1⟩
    · rw [h2] at ht
      rcases List.mem_append.1 ht with ht | ht
      · exact h.tr s hs t ht
      · exact (hf a).tr _ (h.fin s hs) t ht
    · rw [h1] at ht; exact h.tr s hs t ht

theorem Always.reads {m : M α} (h : Reads m) : Always J m :=
  ⟨fun s hs => by rw [h.st]; exact hs, fun s _ t ht => by rw [h.tr] at ht; cases ht⟩
theorem Always.pure (a : α) : Always J (Pure.pure a : M α) := .reads (Reads.pure a)
theorem Always.throw (e : Err) : Always J (throwE e : M α) := .reads (Reads.throw e)
theorem Always.panic : Always J (panicM : M α) := .reads Reads.panic
theorem Always.getSt {f : St → M α} (h : ∀ s, J s.fs → J ((f s) s).st.fs ∧ ∀ t ∈ ((f s) s).tr, J t.fs) :
    Always J (getSt >>= f) := ⟨fun s hs => (h s hs).1, fun s hs => (h s hs).2⟩
theorem Always.ite {c : Prop} [Decidable c] {m n : M α} (h : Always J m) (k : Always J n) :
    Always J (if c then m else n) := by split <;> assumption
theorem Always.vol {f : St → St} (h : ∀ s, (f s).fs = s.fs) : Always J (volM f) :=
  ⟨fun s hs => by show J (f s).fs; rw [h]; exact hs, fun s _ t ht => by cases ht⟩
theorem Always.step {f : St → St} (h : ∀ s, J s.fs → J (f s).fs) : Always J (stepM f) :=
  ⟨h, fun s hs t ht => by
    obtain rfl : t = f s := by simpa [stepM] using ht
    exact h s hs⟩

theorem Always.forL {l : List α} {f : α → M Unit} (h : ∀ x ∈ l, Always J (f x)) : Always J (Ferryd.forL l f) := by
  induction l with
  | nil => exact .pure ()
  | cons x xs ih => exact (h x (by simp)).bind fun _ => ih fun y hy => h y (by simp [hy])

theorem Always.collectL {l : List α} {f : α → M (List β)} (h : ∀ x ∈ l, Always J (f x)) :
    Always J (Ferryd.collectL l f) := by
  induction l with
  | nil => exact .pure []
  | cons x xs ih =>
    exact (h x (by simp)).bind fun _ => (ih fun y hy => h y (by simp [hy])).bind fun _ => .pure _

theorem Always.foldL {l : List α} {f : β → α → M β} (h : ∀ b x, Always J (f b x)) :
    ∀ b, Always J (Ferryd.foldL l b f) := by
  induction l with
  | nil => intro b; exact .pure b
  | cons x xs ih => intro b; exact (h b x).bind fun b' => ih b'

variable (hJ : FsClosed E J)
include hJ

theorem always_copyFile (a : Path) {b : Path} (hb : b.isExt = false) : Always J (copyFile a b) := by
  unfold copyFile
  refine .getSt fun s hs => ?_
  cases hx : s.fs.tab a with
  | none => exact ⟨hs, fun t ht => by cases ht⟩
  | some k =>
    have h1 : J (s.fs.openTrunc b).1 ∧ (s.fs.openTrunc b).1.tab b = some (s.fs.openTrunc b).2 := by
      unfold FS.openTrunc
      cases hy : s.fs.tab b with
      | some j => exact ⟨hJ.write _ b j _ hs hb hy, hy⟩
      | none => exact ⟨hJ.create _ b hs hb hy, by simp [FS.setTab, FS.setData]⟩
    have h2 := hJ.write _ b _ ((s.fs.openTrunc b).1.data k) h1.1 hb h1.2
    refine ⟨h2, fun t ht => ?_⟩
    have : t = s.setFs (s.fs.openTrunc b).1 ∨ t = (s.setFs (s.fs.openTrunc b).1).setFs
        ((s.fs.openTrunc b).1.setData (s.fs.openTrunc b).2 ((s.fs.openTrunc b).1.data k)) := by
      simpa [stepM_bind, stepM_run] using ht
    rcases this with rfl | rfl
    · exact h1.1
    · exact h2

theorem always_linkOrCopy (a : Path) {b : Path} (hb : b.isExt = false) (k : Bool) : Always J (linkOrCopy E a b k) := by
  unfold linkOrCopy
  refine .ite (always_copyFile hJ a hb) (.getSt fun s hs => ?_)
  have hc := always_copyFile hJ a hb
  have hc' := And.intro (hc.fin s hs) (hc.tr s hs)
  cases hx : s.fs.tab a with
  | none => exact hc'
  | some j =>
    cases hy : s.fs.tab b with
    | some j' => exact hc'
    | none =>
      simp only
      split
      · rename_i hl
        have := hJ.link _ a b j hs hx hy hl hb
        refine ⟨this, fun t ht => ?_⟩
        obtain rfl : t = s.setFs (s.fs.setTab b (some j)) := by simpa [stepM] using ht
        exact this
      · exact hc'

omit hJ in
theorem always_dbWrite (h : Handle) (w : DbWrite) : Always J (dbWrite h w) := by
  unfold dbWrite
  refine .ite (.throw _) ?_
  cases h with
  | direct => exact .step fun s hs => hs
  | batch => exact .vol fun s => rfl

theorem always_removeFile {p : Path} (hp : p.isExt = false) : Always J (removeFile p) :=
  .step fun _ hs => hJ.rm _ p hs hp

theorem always_poolAddInternal (p : Pkg) (k : Bool) (d : Option DeltaInfo) : Always J (poolAddInternal E p k d) := by
  unfold poolAddInternal
  refine (Always.reads (poolGet?_reads _)).bind fun o => ?_
  cases o with
  | some e => exact (always_dbWrite _ _).bind fun _ => .pure _
  | none =>
    refine (Always.reads Reads.getSt).bind fun s => ?_
    cases s.fs.read p.path with
    | none => exact .throw _
    | some x =>
      refine (Always.reads (pathComp_reads _)).bind fun comp => (always_linkOrCopy hJ _ rfl k).bind fun _ =>
        Always.bind (Always.reads (Reads.getSt.bind fun s => by
          cases s.fs.read p.path with
          | none => exact Reads.throw _
          | some c => exact Reads.ite (Reads.throw _) (Reads.pure _))) fun sha => ?_
      exact .ite ((always_removeFile hJ rfl).bind fun _ => .throw _) ((always_dbWrite _ _).bind fun _ => .pure _)

theorem always_poolAddDelta (p : Pkg) (f t : Str) (k : Bool) : Always J (poolAddDelta E p f t k) := by
  unfold poolAddDelta
  refine (Always.reads (poolGet?_reads _)).bind fun o => ?_
  cases o with
  | some e => exact (always_dbWrite _ _).bind fun _ => .pure _
  | none =>
    exact (Always.reads (poolGet_reads _)).bind fun _ => (Always.reads (poolGet_reads _)).bind fun _ =>
      (Always.reads (getRelease_reads _)).bind fun _ => (Always.reads (getRelease_reads _)).bind fun _ =>
      always_poolAddInternal hJ _ _ _

omit hJ in
theorem always_refEntry (id : Str) : Always J (refEntry id) :=
  (Always.reads (poolGet_reads _)).bind fun _ => always_dbWrite _ _

theorem always_unrefEntry (h : Handle) (id : Str) : Always J (unrefEntry h id) := by
  unfold unrefEntry
  refine (Always.reads (poolGet_reads _)).bind fun e => .ite (always_dbWrite _ _) ?_
  exact (Always.reads (pathComp_reads _)).bind fun _ => (always_removeFile hJ rfl).bind fun _ => always_dbWrite _ _

theorem always_bakeRepo (r : Str) : Always J (bakeRepo r) := .step fun s hs => hJ.dirs s.fs _ s.fs.idx hs

theorem always_getRepo (r : Str) : Always J (getRepo r) := by
  unfold getRepo
  refine (Always.reads Reads.getSt).bind fun s => .ite (.pure _) ?_
  cases s.db.repos.get r with
  | none => exact .throw _
  | some _ => exact (always_bakeRepo hJ r).bind fun _ => .vol (by intro; rfl)

theorem always_createRepo (r : Str) : Always J (createRepo r) := by
  unfold createRepo
  refine (Always.reads Reads.getSt).bind fun s => ?_
  split
  · exact (always_getRepo hJ r).bind fun _ => .throw _
  · exact .ite (.throw _) ((always_dbWrite _ _).bind fun _ => (always_bakeRepo hJ r).bind fun _ => .vol (by intro; rfl))

theorem always_removePackageInternal (h : Handle) (r id : Str) : Always J (removePackageInternal h r id) := by
  unfold removePackageInternal
  refine (Always.reads (poolGet?_reads _)).bind fun o => ?_
  cases o with
  | none => exact .pure _
  | some e =>
    exact (Always.reads (pathComp_reads _)).bind fun _ => (always_removeFile hJ rfl).bind fun _ => always_unrefEntry hJ _ _

theorem always_refDelta (r id : Str) : Always J (refDelta E r id) := by
  unfold refDelta
  refine (Always.reads (poolGet_reads _)).bind fun _ => (Always.reads (repoGet_reads _ _)).bind fun _ =>
    (Always.reads (pathComp_reads _)).bind fun _ => .ite (.pure _) ?_
  exact (always_refEntry _).bind fun _ => (always_linkOrCopy hJ _ rfl _).bind fun _ => always_dbWrite _ _

theorem always_addDelta (r : Str) (file : Path) (f t : Str) : Always J (addDelta E r file f t) := by
  unfold addDelta
  refine (Always.reads (openPkg_reads _ _)).bind fun _ => (Always.reads (repoGet_reads _ _)).bind fun _ =>
    (Always.reads (pathComp_reads _)).bind fun _ => .ite (.pure _) ?_
  exact (always_poolAddDelta hJ _ _ _ _).bind fun _ => (always_linkOrCopy hJ _ rfl _).bind fun _ => always_dbWrite _ _

theorem always_unrefDeltas (r id : Str) (ds : List Str) : Always J (unrefDeltas r id ds) := by
  refine .collectL fun d _ => (Always.reads (poolGet_reads _)).bind fun pd => ?_
  cases pd.delta with
  | none => exact .panic
  | some di => exact .ite ((always_removePackageInternal hJ _ _ _).bind fun _ => .pure _) (.pure _)

omit hJ in
theorem always_unrefAvail (id : Str) (av : List Str) : Always J (unrefAvail id av) :=
  .foldL (fun acc x => .ite (.pure _) ((Always.reads (poolGet_reads _)).bind fun _ =>
    (Always.reads (getRelease_reads _)).bind fun _ => .ite (.pure _) (.pure _))) _

theorem always_unrefPackage (r id : Str) : Always J (unrefPackage r id) := by
  unfold unrefPackage
  refine (Always.reads (poolGet_reads _)).bind fun _ => (Always.reads (repoGet_reads _ _)).bind fun _ =>
    (always_removePackageInternal hJ _ _ _).bind fun _ => (always_unrefDeltas hJ _ _ _).bind fun _ =>
    (always_unrefAvail _ _).bind fun _ => .ite (always_dbWrite _ _) (always_dbWrite _ _)

theorem always_refPackage (r id : Str) : Always J (refPackage E r id) := by
  unfold refPackage
  refine (Always.reads (poolGet_reads _)).bind fun _ => (Always.reads (pathComp_reads _)).bind fun _ =>
    (Always.reads (buildSaneEntry_reads _ _ _)).bind fun o => ?_
  cases o with
  | none => exact .pure _
  | some ne => exact (always_refEntry _).bind fun _ => (always_linkOrCopy hJ _ rfl _).bind fun _ => always_dbWrite _ _

theorem always_addLocalPackage (r : Str) (p : Pkg) : Always J (addLocalPackage E r p) := by
  unfold addLocalPackage
  refine (Always.reads (pathComp_reads _)).bind fun _ => (Always.reads (buildSaneEntry_reads _ _ _)).bind fun o => ?_
  cases o with
  | none => exact .pure _
  | some ne =>
    exact (always_poolAddInternal hJ _ _ _).bind fun _ => (always_linkOrCopy hJ _ rfl _).bind fun _ => always_dbWrite _ _

theorem always_addPackage (r : Str) (file : Path) (strict : Bool) : Always J (addPackage E r file strict) := by
  unfold addPackage
  refine (Always.reads (openPkg_reads _ _)).bind fun p => .ite (always_addLocalPackage hJ _ _) ?_
  refine (Always.reads (repoGet?_reads _ _)).bind fun o => ?_
  cases o with
  | none => exact always_addLocalPackage hJ _ _
  | some l =>
    exact (Always.reads (poolGet_reads _)).bind fun _ => (Always.reads (getRelease_reads _)).bind fun _ =>
      (Always.reads (getRelease_reads _)).bind fun _ => .ite (.throw _) (.ite (.throw _) (always_addLocalPackage hJ _ _))

theorem always_pullAsset (d r : Str) (a : Asset) : Always J (pullAsset d r a) := by
  unfold pullAsset
  refine (Always.reads Reads.getSt).bind fun s => ?_
  cases s.fs.tab (.asset r a) with
  | none => exact .pure _
  | some _ => exact always_copyFile hJ _ rfl

theorem always_pullAssets (d r : Str) : Always J (pullAssets d r) :=
  (always_pullAsset hJ d r _).bind fun _ => (always_pullAsset hJ d r _).bind fun _ => always_pullAsset hJ d r _

theorem always_cloneFrom (d r : Str) (full : Bool) : Always J (cloneFrom E d r full) := by
  unfold cloneFrom
  exact (always_pullAssets hJ d r).bind fun _ => (Always.reads (repoEntries_reads _)).bind fun es =>
    (Always.forL fun x _ => always_refPackage hJ d x).bind fun _ => Always.forL fun x _ => always_refDelta hJ d x

theorem always_pullFrom (d r : Str) : Always J (pullFrom E d r) := by
  unfold pullFrom
  exact (always_pullAssets hJ d r).bind fun _ => (Always.reads (repoEntries_reads _)).bind fun es =>
    (Always.reads (Reads.collectL fun e _ => pullOne_reads d e)).bind fun todo =>
    (Always.forL fun x _ => always_refPackage hJ d x).bind fun _ => .pure _

theorem always_removeSource (r n : Str) (k : Int) : Always J (removeSource r n k) := by
  unfold removeSource
  exact (Always.reads (matchingSource_reads _ _ _)).bind fun ids =>
    .ite (.throw _) (Always.forL fun x _ => always_unrefPackage hJ r x)

theorem always_copySourceFrom (d r n : Str) (k : Int) : Always J (copySourceFrom E d r n k) := by
  unfold copySourceFrom
  exact (Always.reads (matchingSource_reads _ _ _)).bind fun ids =>
    .ite (.throw _) (Always.forL fun x _ => always_refPackage hJ d x)

theorem always_trimObsolete (r : Str) : Always J (trimObsolete E r) := by
  unfold trimObsolete
  refine (Always.reads (initDistribution_reads _ _)).bind fun o => ?_
  cases o with
  | none => exact .throw _
  | some obs =>
    exact (Always.reads (repoEntries_reads _)).bind fun es =>
      (Always.reads (Reads.collectL fun e _ => trimObsoleteScan_reads _ _ _)).bind fun ids =>
      Always.forL fun x _ => always_unrefPackage hJ r x

theorem always_trimPackages (r : Str) (k : Int) : Always J (trimPackages E r k) := by
  unfold trimPackages
  exact .ite (.throw _) ((Always.reads (repoEntries_reads _)).bind fun es =>
    (Always.reads (Reads.collectL fun e _ => trimScan_reads _ _ _)).bind fun ids =>
    Always.forL fun x _ => always_unrefPackage hJ r x)

omit hJ in
theorem always_dbUpdate {m : M Unit} (h : Always J m) : Always J (dbUpdate m) := by
  refine ⟨fun s hs => ?_, fun s hs t ht => ?_⟩
  · have := h.fin { s with pend := [] } hs
    unfold dbUpdate
    simp only
    split <;> exact this
  · have h1 := h.fin { s with pend := [] } hs
    have h2 := h.tr { s with pend := [] } hs
    unfold dbUpdate at ht
    simp only at ht
    split at ht
    · rcases List.mem_append.1 ht with ht | ht
      · exact h2 t ht
      · obtain rfl := List.mem_singleton.1 ht; exact h1
    · exact h2 t ht
    · exact h2 t ht

theorem always_deleteRepo (r : Str) : Always J (deleteRepo r) := by
  unfold deleteRepo
  refine (always_getRepo hJ r).bind fun _ => (Always.vol (by intro; rfl)).bind fun _ => (always_dbUpdate ?_).bind fun _ =>
    Always.bind ?_ fun _ => ?_
  · unfold deleteRepoBody
    exact (Always.reads (repoEntries_reads _)).bind fun es =>
      (Always.forL fun e _ => (Always.forL fun x _ => always_removePackageInternal hJ _ _ _).bind fun _ =>
        (Always.forL fun x _ => always_removePackageInternal hJ _ _ _).bind fun _ => always_dbWrite _ _).bind fun _ =>
      always_dbWrite _ _
  · refine .step fun s hs => ?_
    have h1 := hJ.drop s.fs (fun p => match p with | .repo x _ _ => x == r | _ => false) hs (by
      intro p hp; cases p <;> first | rfl | cases hp)
    have h2 := hJ.dirs _ (fun x => if x = r then false else s.fs.rdir x) (fun x => if x = r then none else s.fs.idx x) h1
    refine cast (congrArg J ?_) h2
    simp only [St.setFs_fs, FS.mk.injEq, and_true]
    funext p; cases p <;> simp
  · refine .step fun s hs => ?_
    have h1 := hJ.drop s.fs (fun p => match p with | .asset x _ => x == r | .stage x _ => x == r | _ => false) hs (by
      intro p hp; cases p <;> first | rfl | cases hp)
    refine cast (congrArg J ?_) h1
    simp only [St.setFs_fs, FS.mk.injEq, and_true]
    funext p; cases p <;> simp

theorem always_indexRepo (r : Str) : Always J (indexRepo E r) := by
  unfold indexRepo
  have pub : ∀ doc : Doc, Always J (stepM fun s => s.setFs { s.fs with idx := fun x => if x = r then some doc else s.fs.idx x }) :=
    fun doc => .step fun s hs => hJ.dirs s.fs s.fs.rdir _ hs
  refine (Always.reads (initDistribution_reads _ _)).bind fun dist => (Always.reads (emitIndex_reads _ _ _)).bind fun doc =>
    (Always.reads Reads.getSt).bind fun s => (Always.vol (by intro; rfl)).bind fun _ => ?_
  cases E.indexIO s.clock with
  | failBefore => exact .throw _
  | ok => exact pub doc
  | failAfter => exact (pub doc).bind fun _ => .throw _

theorem always_mIndex (r : Str) : Always J (mIndex E r) := (always_getRepo hJ r).bind fun _ => always_indexRepo hJ r

/-- Every job on a repository, from any state. -/
theorem always_job (o : Op) (ht : o.target.isSome = true)
    (hup : ∀ fs p c, J fs → p.isExt = false → J { (fs.setTab p (some fs.next)).setData fs.next c with next := fs.next + 1 }) : Always J (o.run E) := by
  have gi := always_mIndex hJ
  have gr := always_getRepo hJ
  cases o with
  | create r => exact (always_createRepo hJ r).bind fun _ => gi r
  | delete r => exact always_deleteRepo hJ r
  | clone a b f =>
    exact (gr a).bind fun _ => (always_createRepo hJ b).bind fun _ => (always_cloneFrom hJ b a f).bind fun _ => gi b
  | pull a b =>
    exact Always.bind ((gr a).bind fun _ => (gr b).bind fun _ => (always_pullFrom hJ b a).bind fun _ =>
      (gi b).bind fun _ => .pure _) fun _ => .pure _
  | removeSource r n k => exact (gr r).bind fun _ => (always_removeSource hJ r n k).bind fun _ => gi r
  | copySource a b n k sk =>
    exact (gr a).bind fun _ => (gr b).bind fun _ => (always_copySourceFrom hJ b a n k).bind fun _ => .ite (gi b) (.pure _)
  | trimObsolete r => exact (gr r).bind fun _ => (always_trimObsolete hJ r).bind fun _ => gi r
  | trimPackages r k => exact (gr r).bind fun _ => (always_trimPackages hJ r k).bind fun _ => gi r
  | addPackages r fs st =>
    exact (gr r).bind fun _ => (Always.forL fun f _ => always_addPackage hJ r _ st).bind fun _ => gi r
  | index r => exact gi r
  | addDelta r d f t => exact (gr r).bind fun _ => always_addDelta hJ r _ f t
  | refDelta r d => exact (gr r).bind fun _ => always_refDelta hJ r d
  | markFailed i d => cases ht
  | upload f c => cases ht
  | unlink f => cases ht
  | putAsset r a c => exact .step fun s hs => hup s.fs _ c hs rfl
  | stage r d c => exact .step fun s hs => hup s.fs _ c hs rfl
  | unstage r d => exact always_removeFile hJ rfl
  | restart => cases ht

/-- Every job, from any state. -/
theorem always_op (o : Op) (hup : ∀ fs p c, J fs → p.isExt = false → J { (fs.setTab p (some fs.next)).setData fs.next c with next := fs.next + 1 })
    (hu : ∀ fs f c, J fs → J { (fs.setTab (.ext f) (some fs.next)).setData fs.next c with next := fs.next + 1 })
    (hr : ∀ fs f, J fs → J (fs.setTab (.ext f) none)) : Always J (o.run E) := by
  cases o with
  | markFailed i d =>
    refine (Always.reads Reads.getSt).bind fun s => ?_
    cases s.db.skip.get i with
    | some _ => exact .pure _
    | none => exact always_dbWrite _ _
  | upload f c => exact .step fun s hs => hu s.fs f c hs
  | unlink f => exact .step fun s hs => hr s.fs f hs
  | restart => exact .step fun s hs => hs
  | _ => exact always_job hJ _ rfl hup

end

end Ferryd
