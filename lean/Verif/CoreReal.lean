import Verif.CoreWhole3
import Verif.CoreSafe
/-!
# CoreReal: what a job can do to the database

Apart from creation and deletion, the jobs on repository `r` write only pool records, failed deltas and listings of `r`.  A property kept by such
writes, and independent of the files, holds at every durable point of every such job.
-/
namespace Ferryd

/-- A write of the pool, or of the listings of `r`. (No code: a notion of the proofs.) -/
def AtRepo (r : Str) : DbWrite → Prop
  | .putPool _ _ => True
  | .delPool _ => True
  | .putSkip _ _ => True
  | .putEnt x _ _ => x = r
  | .delEnt x _ => x = r
  | _ => False

/-- `J` does not look at the files, the batch or the clock, and is kept by the writes of the jobs on `r`. (No code: a notion of the proofs.) -/
structure DbClosed (r : Str) (J : St → Prop) : Prop where
  fs : ∀ s g, J s → J (s.setFs g)
  pend : ∀ s p, J s → J { s with pend := p }
  clock : ∀ s n, J s → J { s with clock := n }
  write : ∀ s w, J s → AtRepo r w → J { s with db := w.apply s.db }

/-- `J` holds at every durable point and at the end. (No code: a notion of the proofs.) -/
structure Thru (J : St → Prop) {α : Type} (m : M α) : Prop where
  fin : ∀ s, J s → J (m s).st
  tr : ∀ s, J s → ∀ t ∈ (m s).tr, J t

section
variable {J : St → Prop} {E : Env} {r : Str} {α β : Type}

theorem Thru.bind {m : M α} {f : α → M β} (h : Thru J m) (hf : ∀ a, Thru J (f a)) : Thru J (m >>= f) := by
  have e : ∀ s, (∃ a, (m s).res = .ok a ∧
      (m >>= f) s = ⟨(f a (m s).st).res, (f a (m s).st).st, (m s).tr ++ (f a (m s).st).tr⟩) ∨
      (((m >>= f) s).st = (m s).st ∧ ((m >>= f) s).tr = (m s).tr) := by
    intro s
    show (∃ a, (m s).res = .ok a ∧ M.bind' m f s = _) ∨ ((M.bind' m f s).st = _ ∧ (M.bind' m f s).tr = _)
    unfold M.bind'
    rcases hm : (m s).res with a | e | _
    · exact .inl ⟨a, rfl, rfl⟩
    · exact .inr ⟨rfl, rfl⟩
    · exact .inr ⟨rfl, rfl⟩
  refine ⟨fun s hs => ?_, fun s hs t ht => ?_⟩
  · rcases e s with ⟨a, _, h2⟩ | ⟨h1, _⟩
    · rw [h2]; exact (hf a).fin _ (h.fin s hs)
    · rw [h1]; exact h.fin s hs
  · rcases e s with ⟨a, _, h2⟩ | ⟨_, h1⟩
    · rw [h2] at ht
      rcases List.mem_append.1 ht with ht | ht
      · exact h.tr s hs t ht
      · exact (hf a).tr _ (h.fin s hs) t ht
    · rw [h1] at ht; exact h.tr s hs t ht

theorem Thru.reads {m : M α} (h : Reads m) : Thru J m :=
  ⟨fun s hs => by rw [h.st]; exact hs, fun s _ t ht => by rw [h.tr] at ht; cases ht⟩
theorem Thru.pure (a : α) : Thru J (Pure.pure a : M α) := .reads (Reads.pure a)
theorem Thru.throw (e : Err) : Thru J (throwE e : M α) := .reads (Reads.throw e)
theorem Thru.panic : Thru J (panicM : M α) := .reads Reads.panic
theorem Thru.getSt {f : St → M α} (h : ∀ s, J s → J ((f s) s).st ∧ ∀ t ∈ ((f s) s).tr, J t) :
    Thru J (getSt >>= f) := ⟨fun s hs => (h s hs).1, fun s hs => (h s hs).2⟩
theorem Thru.ite {c : Prop} [Decidable c] {m n : M α} (h : Thru J m) (k : Thru J n) :
    Thru J (if c then m else n) := by split <;> assumption
theorem Thru.vol {f : St → St} (h : ∀ s, J s → J (f s)) : Thru J (volM f) :=
  ⟨h, fun s _ t ht => by cases ht⟩
theorem Thru.step {f : St → St} (h : ∀ s, J s → J (f s)) : Thru J (stepM f) :=
  ⟨h, fun s hs t ht => by
    obtain rfl : t = f s := by simpa [stepM] using ht
    exact h s hs⟩

theorem Thru.forL {l : List α} {f : α → M Unit} (h : ∀ x ∈ l, Thru J (f x)) : Thru J (Ferryd.forL l f) := by
  induction l with
  | nil => exact .pure ()
  | cons x xs ih => exact (h x (by simp)).bind fun _ => ih fun y hy => h y (by simp [hy])

theorem Thru.collectL {l : List α} {f : α → M (List β)} (h : ∀ x ∈ l, Thru J (f x)) :
    Thru J (Ferryd.collectL l f) := by
  induction l with
  | nil => exact .pure []
  | cons x xs ih =>
    exact (h x (by simp)).bind fun _ => (ih fun y hy => h y (by simp [hy])).bind fun _ => .pure _

theorem Thru.foldL {l : List α} {f : β → α → M β} (h : ∀ b x, Thru J (f b x)) :
    ∀ b, Thru J (Ferryd.foldL l b f) := by
  induction l with
  | nil => intro b; exact .pure b
  | cons x xs ih => intro b; exact (h b x).bind fun b' => ih b'

variable (hJ : DbClosed r J)
include hJ

theorem thru_fs {f : St → FS} : Thru J (stepM fun s => s.setFs (f s)) := .step fun s hs => hJ.fs s _ hs

theorem thru_copyFile (a b : Path) : Thru J (copyFile a b) := by
  unfold copyFile
  refine .getSt fun s hs => ?_
  cases hx : s.fs.tab a with
  | none => exact ⟨hs, fun t ht => by cases ht⟩
  | some k =>
    have h1 := hJ.fs s (s.fs.openTrunc b).1 hs
    have h2 := hJ.fs _ ((s.fs.openTrunc b).1.setData (s.fs.openTrunc b).2 ((s.fs.openTrunc b).1.data k)) h1
    refine ⟨h2, fun t ht => ?_⟩
    have : t = s.setFs (s.fs.openTrunc b).1 ∨ t = (s.setFs (s.fs.openTrunc b).1).setFs
        ((s.fs.openTrunc b).1.setData (s.fs.openTrunc b).2 ((s.fs.openTrunc b).1.data k)) := by
      simpa [stepM_bind, stepM_run] using ht
    rcases this with rfl | rfl
    · exact h1
    · exact h2

theorem thru_linkOrCopy (a b : Path) (k : Bool) : Thru J (linkOrCopy E a b k) := by
  unfold linkOrCopy
  refine .ite (thru_copyFile hJ a b) (.getSt fun s hs => ?_)
  have hc := thru_copyFile hJ a b
  have hc' := And.intro (hc.fin s hs) (hc.tr s hs)
  cases hx : s.fs.tab a with
  | none => exact hc'
  | some j =>
    cases hy : s.fs.tab b with
    | some j' => exact hc'
    | none =>
      simp only
      split
      · have := hJ.fs s (s.fs.setTab b (some j)) hs
        refine ⟨this, fun t ht => ?_⟩
        obtain rfl : t = s.setFs (s.fs.setTab b (some j)) := by simpa [stepM] using ht
        exact this
      · exact hc'

theorem thru_dbWrite (h : Handle) {w : DbWrite} (hw : AtRepo r w) : Thru J (dbWrite h w) := by
  unfold dbWrite
  refine .ite (.throw _) ?_
  cases h with
  | direct => exact .step fun s hs => hJ.write s w hs hw
  | batch => exact .vol fun s hs => hJ.pend s _ hs

theorem thru_removeFile (p : Path) : Thru J (removeFile p) := thru_fs hJ

theorem thru_poolAddInternal (p : Pkg) (k : Bool) (d : Option DeltaInfo) : Thru J (poolAddInternal E p k d) := by
  unfold poolAddInternal
  refine (Thru.reads (poolGet?_reads _)).bind fun o => ?_
  cases o with
  | some e => exact (thru_dbWrite hJ _ (by first | trivial | rfl)).bind fun _ => .pure _
  | none =>
    refine (Thru.reads Reads.getSt).bind fun s => ?_
    cases s.fs.read p.path with
    | none => exact .throw _
    | some x =>
      refine (Thru.reads (pathComp_reads _)).bind fun comp => (thru_linkOrCopy hJ _ _ k).bind fun _ =>
        Thru.bind (Thru.reads (Reads.getSt.bind fun s => by
          cases s.fs.read p.path with
          | none => exact Reads.throw _
          | some c => exact Reads.ite (Reads.throw _) (Reads.pure _))) fun sha => ?_
      exact .ite ((thru_removeFile hJ _).bind fun _ => .throw _) ((thru_dbWrite hJ _ (by first | trivial | rfl)).bind fun _ => .pure _)

theorem thru_poolAddDelta (p : Pkg) (f t : Str) (k : Bool) : Thru J (poolAddDelta E p f t k) := by
  unfold poolAddDelta
  refine (Thru.reads (poolGet?_reads _)).bind fun o => ?_
  cases o with
  | some e => exact (thru_dbWrite hJ _ (by first | trivial | rfl)).bind fun _ => .pure _
  | none =>
    exact (Thru.reads (poolGet_reads _)).bind fun _ => (Thru.reads (poolGet_reads _)).bind fun _ =>
      (Thru.reads (getRelease_reads _)).bind fun _ => (Thru.reads (getRelease_reads _)).bind fun _ =>
      thru_poolAddInternal hJ _ _ _

theorem thru_refEntry (id : Str) : Thru J (refEntry id) :=
  (Thru.reads (poolGet_reads _)).bind fun _ => thru_dbWrite hJ _ (by first | trivial | rfl)

theorem thru_unrefEntry (h : Handle) (id : Str) : Thru J (unrefEntry h id) := by
  unfold unrefEntry
  refine (Thru.reads (poolGet_reads _)).bind fun e => .ite (thru_dbWrite hJ _ (by first | trivial | rfl)) ?_
  exact (Thru.reads (pathComp_reads _)).bind fun _ => (thru_removeFile hJ _).bind fun _ => thru_dbWrite hJ _ (by first | trivial | rfl)

theorem thru_removePackageInternal (h : Handle) (x id : Str) : Thru J (removePackageInternal h x id) := by
  unfold removePackageInternal
  refine (Thru.reads (poolGet?_reads _)).bind fun o => ?_
  cases o with
  | none => exact .pure _
  | some e =>
    exact (Thru.reads (pathComp_reads _)).bind fun _ => (thru_removeFile hJ _).bind fun _ => thru_unrefEntry hJ _ _

theorem thru_refDelta (id : Str) : Thru J (refDelta E r id) := by
  unfold refDelta
  refine (Thru.reads (poolGet_reads _)).bind fun _ => (Thru.reads (repoGet_reads _ _)).bind fun _ =>
    (Thru.reads (pathComp_reads _)).bind fun _ => .ite (.pure _) ?_
  exact (thru_refEntry hJ _).bind fun _ => (thru_linkOrCopy hJ _ _ _).bind fun _ => thru_dbWrite hJ _ (by first | trivial | rfl)

theorem thru_addDelta (file : Path) (f t : Str) : Thru J (addDelta E r file f t) := by
  unfold addDelta
  refine (Thru.reads (openPkg_reads _ _)).bind fun _ => (Thru.reads (repoGet_reads _ _)).bind fun _ =>
    (Thru.reads (pathComp_reads _)).bind fun _ => .ite (.pure _) ?_
  exact (thru_poolAddDelta hJ _ _ _ _).bind fun _ => (thru_linkOrCopy hJ _ _ _).bind fun _ => thru_dbWrite hJ _ (by first | trivial | rfl)

theorem thru_unrefDeltas (id : Str) (ds : List Str) : Thru J (unrefDeltas r id ds) := by
  refine .collectL fun d _ => (Thru.reads (poolGet_reads _)).bind fun pd => ?_
  cases pd.delta with
  | none => exact .panic
  | some di => exact .ite ((thru_removePackageInternal hJ _ _ _).bind fun _ => .pure _) (.pure _)

omit hJ in
theorem thru_unrefAvail (id : Str) (av : List Str) : Thru J (unrefAvail id av) :=
  .foldL (fun acc x => .ite (.pure _) ((Thru.reads (poolGet_reads _)).bind fun _ =>
    (Thru.reads (getRelease_reads _)).bind fun _ => .ite (.pure _) (.pure _))) _

theorem thru_unrefPackage (id : Str) : Thru J (unrefPackage r id) := by
  unfold unrefPackage
  refine (Thru.reads (poolGet_reads _)).bind fun _ => (Thru.reads (repoGet_reads _ _)).bind fun _ =>
    (thru_removePackageInternal hJ _ _ _).bind fun _ => (thru_unrefDeltas hJ _ _).bind fun _ =>
    (thru_unrefAvail _ _).bind fun _ => .ite (thru_dbWrite hJ _ (by first | trivial | rfl)) (thru_dbWrite hJ _ (by first | trivial | rfl))

theorem thru_refPackage (id : Str) : Thru J (refPackage E r id) := by
  unfold refPackage
  refine (Thru.reads (poolGet_reads _)).bind fun _ => (Thru.reads (pathComp_reads _)).bind fun _ =>
    (Thru.reads (buildSaneEntry_reads _ _ _)).bind fun o => ?_
  cases o with
  | none => exact .pure _
  | some ne => exact (thru_refEntry hJ _).bind fun _ => (thru_linkOrCopy hJ _ _ _).bind fun _ => thru_dbWrite hJ _ (by first | trivial | rfl)

theorem thru_addLocalPackage (p : Pkg) : Thru J (addLocalPackage E r p) := by
  unfold addLocalPackage
  refine (Thru.reads (pathComp_reads _)).bind fun _ => (Thru.reads (buildSaneEntry_reads _ _ _)).bind fun o => ?_
  cases o with
  | none => exact .pure _
  | some ne =>
    exact (thru_poolAddInternal hJ _ _ _).bind fun _ => (thru_linkOrCopy hJ _ _ _).bind fun _ => thru_dbWrite hJ _ (by first | trivial | rfl)

theorem thru_addPackage (file : Path) (strict : Bool) : Thru J (addPackage E r file strict) := by
  unfold addPackage
  refine (Thru.reads (openPkg_reads _ _)).bind fun p => .ite (thru_addLocalPackage hJ _) ?_
  refine (Thru.reads (repoGet?_reads _ _)).bind fun o => ?_
  cases o with
  | none => exact thru_addLocalPackage hJ _
  | some l =>
    exact (Thru.reads (poolGet_reads _)).bind fun _ => (Thru.reads (getRelease_reads _)).bind fun _ =>
      (Thru.reads (getRelease_reads _)).bind fun _ => .ite (.throw _) (.ite (.throw _) (thru_addLocalPackage hJ _))

theorem thru_pullAsset (d x : Str) (a : Asset) : Thru J (pullAsset d x a) := by
  unfold pullAsset
  refine (Thru.reads Reads.getSt).bind fun s => ?_
  cases s.fs.tab (.asset x a) with
  | none => exact .pure _
  | some _ => exact thru_copyFile hJ _ _

theorem thru_pullAssets (d x : Str) : Thru J (pullAssets d x) :=
  (thru_pullAsset hJ d x _).bind fun _ => (thru_pullAsset hJ d x _).bind fun _ => thru_pullAsset hJ d x _

theorem thru_cloneFrom (x : Str) (full : Bool) : Thru J (cloneFrom E r x full) := by
  unfold cloneFrom
  exact (thru_pullAssets hJ r x).bind fun _ => (Thru.reads (repoEntries_reads _)).bind fun es =>
    (Thru.forL fun x _ => thru_refPackage hJ x).bind fun _ => Thru.forL fun x _ => thru_refDelta hJ x

theorem thru_pullFrom (x : Str) : Thru J (pullFrom E r x) := by
  unfold pullFrom
  exact (thru_pullAssets hJ r x).bind fun _ => (Thru.reads (repoEntries_reads _)).bind fun es =>
    (Thru.reads (Reads.collectL fun e _ => pullOne_reads r e)).bind fun todo =>
    (Thru.forL fun x _ => thru_refPackage hJ x).bind fun _ => .pure _

theorem thru_removeSource (n : Str) (k : Int) : Thru J (removeSource r n k) := by
  unfold removeSource
  exact (Thru.reads (matchingSource_reads _ _ _)).bind fun ids =>
    .ite (.throw _) (Thru.forL fun x _ => thru_unrefPackage hJ x)

theorem thru_copySourceFrom (x n : Str) (k : Int) : Thru J (copySourceFrom E r x n k) := by
  unfold copySourceFrom
  exact (Thru.reads (matchingSource_reads _ _ _)).bind fun ids =>
    .ite (.throw _) (Thru.forL fun x _ => thru_refPackage hJ x)

theorem thru_trimObsolete : Thru J (trimObsolete E r) := by
  unfold trimObsolete
  refine (Thru.reads (initDistribution_reads _ _)).bind fun o => ?_
  cases o with
  | none => exact .throw _
  | some obs =>
    exact (Thru.reads (repoEntries_reads _)).bind fun es =>
      (Thru.reads (Reads.collectL fun e _ => trimObsoleteScan_reads _ _ _)).bind fun ids =>
      Thru.forL fun x _ => thru_unrefPackage hJ x

theorem thru_trimPackages (k : Int) : Thru J (trimPackages E r k) := by
  unfold trimPackages
  exact .ite (.throw _) ((Thru.reads (repoEntries_reads _)).bind fun es =>
    (Thru.reads (Reads.collectL fun e _ => trimScan_reads _ _ _)).bind fun ids =>
    Thru.forL fun x _ => thru_unrefPackage hJ x)


theorem thru_indexRepo (x : Str) : Thru J (indexRepo E x) := by
  unfold indexRepo
  refine (Thru.reads (initDistribution_reads _ _)).bind fun dist => (Thru.reads (emitIndex_reads _ _ _)).bind fun doc =>
    (Thru.reads Reads.getSt).bind fun s => (Thru.vol fun s hs => hJ.clock s _ hs).bind fun _ => ?_
  cases E.indexIO s.clock with
  | failBefore => exact .throw _
  | ok => exact thru_fs hJ
  | failAfter => exact (thru_fs hJ).bind fun _ => .throw _

end

/-! ## Listings belong to repositories -/

open Spec
variable {W : World} {s t : St} {r : Str} {α β : Type}

/-- What is cached or listed is of an existing repository. (No code: a notion of the proofs.) -/
structure Real (s : St) : Prop where
  cache : ∀ r ∈ s.cache, Repo s r
  ents : ∀ r n e, (s.db.ents r).get n = some e → Repo s r

theorem real_init : Real St.init := ⟨fun r h => by simp [St.init] at h, fun r n e h => by simp [St.init] at h⟩
theorem Real.crash (h : Real s) : Real s.crash := ⟨fun _ hm => by simp [St.crash] at hm, h.ents⟩
theorem Real.setFs (h : Real s) (g : FS) : Real (s.setFs g) := ⟨h.cache, h.ents⟩
theorem Real.dropPend (h : Real s) : Real { s with pend := [] } := ⟨h.cache, h.ents⟩

theorem Real.addCache (h : Real s) (hr : Repo s r) : Real { s with cache := r :: s.cache } :=
  ⟨fun x hx => by rcases List.mem_cons.1 hx with rfl | hx; exact hr; exact h.cache x hx, h.ents⟩
theorem Ever.throw_bind {J : St → Prop} {f : α → M β} {e : Err} {R : β → St → Prop} (h : J s) : Ever J ((throwE e : M α) >>= f) s R :=
  (Ever.throw (P := fun _ _ => False) h).bind fun _ _ _ hf => hf.elim

/-- The same, and `r` exists. (No code: a notion of the proofs.) -/
def Known (r : Str) (s : St) : Prop := Real s ∧ Repo s r

theorem known_closed (r : Str) : DbClosed r (Known r) where
  fs s g h := ⟨⟨h.1.cache, h.1.ents⟩, h.2⟩
  pend s p h := ⟨⟨h.1.cache, h.1.ents⟩, h.2⟩
  clock s n h := ⟨⟨h.1.cache, h.1.ents⟩, h.2⟩
  write s w h hw := by
    have rp : ∀ x, Repo s x → Repo { s with db := w.apply s.db } x := by
      intro x hx
      cases w <;> first | exact hx | exact hw.elim
    refine ⟨⟨fun x hx => rp x (h.1.cache x hx), fun x n e hg => ?_⟩, rp r h.2⟩
    by_cases hx : x = r
    · subst hx; exact rp x h.2
    · refine rp x (h.1.ents x n e ?_)
      cases w with
      | putEnt a k v =>
        obtain rfl : a = r := hw
        simpa [DbWrite.apply, setEnts, hx] using hg
      | delEnt a k =>
        obtain rfl : a = r := hw
        simpa [DbWrite.apply, setEnts, hx] using hg
      | putPool => exact hg
      | delPool => exact hg
      | putSkip => exact hg
      | putRepo => exact hw.elim
      | delRepo => exact hw.elim

theorem Thru.ever {m : M α} (h : Thru (Known r) m) (hs : Known r s) : Ever Real m s (fun _ t => Known r t) :=
  ⟨(h.fin s hs).1, fun t ht => (h.tr s hs t ht).1, fun _ _ => h.fin s hs⟩

theorem repo_of_get {x : Str} {u : Unit} (h : s.db.repos.get x = some u) : Repo s x := (KV.mem_keys_iff _ _).2 ⟨u, h⟩

theorem getRepo_real (r : Str) (h : Real s) : Ever Real (getRepo r) s (fun _ t => Known r t ∧ t.db = s.db) := by
  unfold getRepo
  refine Ever.getSt ?_
  split
  · rename_i hc; exact Ever.pure h ⟨⟨h, h.cache r hc⟩, rfl⟩
  · cases hg : s.db.repos.get r with
    | none => exact Ever.throw h
    | some u =>
      have hr := repo_of_get hg
      refine (Ever.step (J := Real) (g := _) (h.setFs _)).bind fun _ t _ e => ?_
      subst e
      have : Real { (s.setFs { s.fs with rdir := fun x => if x = r then true else s.fs.rdir x }) with cache := r :: s.cache } :=
        ⟨fun x hx => by rcases List.mem_cons.1 hx with rfl | hx; exact hr; exact h.cache x hx, h.ents⟩
      exact (Ever.vol (g := fun s => { s with cache := r :: s.cache }) this).mono fun _ t e => by subst e; exact ⟨⟨this, hr⟩, rfl⟩

theorem createRepo_real (r : Str) (h : Real s) : Ever Real (createRepo r) s (fun _ t => Known r t ∧ t.db.ents = s.db.ents ∧ ¬ Repo s r) := by
  unfold createRepo
  refine Ever.getSt ?_
  rcases hg : (getRepo r s).res with a | e | _
  · exact (getRepo_real r h).bind fun _ t ht _ => Ever.throw ht
  all_goals
    have hn : ¬ Repo s r := by
      intro hr
      obtain ⟨u, hu⟩ := (KV.mem_keys_iff _ _).1 hr
      have : (getRepo r s).res = .ok () := by
        unfold getRepo
        show (M.bind' getSt _ s).res = _
        simp only [M.bind', getSt]
        split
        · rfl
        · rw [hu]; rfl
      rw [this] at hg; cases hg
    simp only
    split
    · exact Ever.throw h
    · have rp : ∀ x, Repo s x ∨ x = r → x ∈ (s.db.repos.put r ()).keys := fun x hx => (KV.mem_keys_put _ _ _ _).2 (by
        rcases hx with hx | rfl
        · exact .inr hx
        · exact .inl rfl)
      unfold dbWrite
      have h1 : Real { s with db := (DbWrite.putRepo r).apply s.db } := ⟨fun x hx => rp x (.inl (h.cache x hx)), fun x n e hx => rp x (.inl (h.ents x n e hx))⟩
      split
      · exact Ever.throw_bind h
      · refine (Ever.step h1).bind fun _ t ht e => ?_
        have hr : Repo t r := by subst e; exact rp r (.inr rfl)
        have he : t.db.ents = s.db.ents := by subst e; rfl
        refine (Ever.step (J := Real) (g := _) (ht.setFs _)).bind fun _ u hu e' => ?_
        have hru : Repo u r := by subst e'; exact hr
        have heu : u.db.ents = s.db.ents := by subst e'; exact he
        have hk := hu.addCache hru
        exact (Ever.vol (J := Real) (g := fun s => { s with cache := r :: s.cache }) hk).mono fun _ v e => by subst e; exact ⟨⟨hk, hru⟩, heu, hn⟩

theorem mIndex_real (E : Env) (x : Str) (h : Real s) : Ever Real (mIndex E x) s (fun _ _ => True) :=
  (getRepo_real x h).bind fun _ t _ ht => ((thru_indexRepo (known_closed x) x).ever ht.1).mono fun _ _ _ => trivial

/-! ### Deletion -/

/-- Database and cache are as given. (No code: a notion of the proofs.) -/
def Fixed (d : DB) (c : List Str) (s : St) : Prop := s.db = d ∧ s.cache = c

variable {d : DB} {c : List Str}

theorem fixed_batch (w : DbWrite) : Thru (Fixed d c) (dbWrite .batch w) := by
  unfold dbWrite
  exact .ite (.throw _) (.vol fun s hs => hs)

theorem fixed_rm (p : Path) : Thru (Fixed d c) (removeFile p) := Thru.step (f := fun s => s.setFs (s.fs.setTab p none)) fun s hs => hs

theorem fixed_remove (x id : Str) : Thru (Fixed d c) (removePackageInternal .batch x id) := by
  refine (Thru.reads (poolGet?_reads _)).bind fun o => ?_
  cases o with
  | none => exact .pure _
  | some e =>
    refine (Thru.reads (pathComp_reads _)).bind fun _ => (fixed_rm _).bind fun _ => ?_
    refine (Thru.reads (poolGet_reads _)).bind fun e => .ite (fixed_batch _) ?_
    exact (Thru.reads (pathComp_reads _)).bind fun _ => (fixed_rm _).bind fun _ => fixed_batch _

theorem fixed_body (x : Str) : Thru (Fixed d c) (deleteRepoBody x) :=
  (Thru.reads (repoEntries_reads _)).bind fun es =>
    (Thru.forL fun e _ => (Thru.forL fun x _ => fixed_remove _ _).bind fun _ => (Thru.forL fun x _ => fixed_remove _ _).bind fun _ => fixed_batch _).bind fun _ =>
    fixed_batch _

theorem deleting_others {r : Str} : ∀ (ws : List DbWrite) (d : DB), (∀ w ∈ ws, DelWrite r w) → ∀ x, x ≠ r →
    (ws.foldl DbWrite.apply d).ents x = d.ents x ∧ (ws.foldl DbWrite.apply d).repos.get x = d.repos.get x := by
  intro ws
  induction ws with
  | nil => intro d _ x _; exact ⟨rfl, rfl⟩
  | cons w ws ih =>
    intro d hw x hx
    obtain ⟨h1, h2⟩ := ih (w.apply d) (fun y hy => hw y (by simp [hy])) x hx
    have h0 := hw w (by simp)
    rw [List.foldl_cons, h1, h2]
    cases w with
    | putPool => exact ⟨rfl, rfl⟩
    | delPool => exact ⟨rfl, rfl⟩
    | putSkip => first | exact ⟨rfl, rfl⟩ | exact h0.elim
    | putRepo => exact h0.elim
    | delRepo k =>
      obtain rfl : k = r := h0
      exact ⟨rfl, by simp [DbWrite.apply, KV.get_del, hx]⟩
    | putEnt => exact h0.elim
    | delEnt a k =>
      obtain rfl : a = r := h0
      exact ⟨by simp [DbWrite.apply, setEnts, hx], rfl⟩

theorem deleteRepo_real (x : Str) (hr : Rough W s) (h : Real s) : Ever Real (deleteRepo x) s (fun _ _ => True) := by
  unfold deleteRepo
  refine ((getRepo_real x h).keeps (getRepo_keeps (tgt := none) x) hr).bind fun _ t ht hp => ?_
  have h1 : Real { t with cache := t.cache.filter (· ≠ x) } := ⟨fun y hy => ht.cache y (List.mem_filter.1 hy).1, ht.ents⟩
  refine ((Ever.vol (J := Real) (g := fun s => { s with cache := s.cache.filter (· ≠ x) }) h1).keeps
    (cache_keeps (tgt := none) fun l => l.filter (· ≠ x)) hp.1).bind fun _ u hu hpu => ?_
  obtain ⟨hru, _, rfl⟩ := hpu
  refine Ever.bind (P := fun _ _ => True) ?_ fun _ v hv _ => (Ever.step (J := Real) (g := _) (hv.setFs _)).bind fun _ w hw _ =>
    (Ever.step (J := Real) (g := _) (hw.setFs _)).mono fun _ _ _ => trivial
  generalize hv : ({ t with cache := t.cache.filter (· ≠ x) } : St) = v at *
  have hvc : x ∉ v.cache := by rw [← hv]; simp
  have hb := fixed_body (d := v.db) (c := v.cache) x
  have hf : Fixed v.db v.cache { v with pend := [] } := ⟨rfl, rfl⟩
  have hfin := hb.fin _ hf
  have htr := hb.tr _ hf
  have hq := (deleteRepoBody_queues (s := { v with pend := [] }) (rid := x) hru.db).run
  have same : ∀ {y : St}, Fixed v.db v.cache y → Real y := by
    intro y hy
    refine ⟨?_, ?_⟩
    · unfold Repo; rw [hy.1, hy.2]; exact hu.cache
    · unfold Repo; rw [hy.1]; exact hu.ents
  unfold dbUpdate
  rcases hres : (deleteRepoBody x { v with pend := [] }).res with a | e | _
  · obtain ⟨q1, more, q2, q3, q4⟩ := hq a hres
    have hdel : ∀ w ∈ more, DelWrite x w := fun w hw => (q3 w hw).del
    obtain ⟨g1, g2⟩ := deleting_gone (r := x) more v.db hdel
    have go := deleting_others more v.db hdel
    have key : ∀ {y : St}, y.db = more.foldl DbWrite.apply v.db → y.cache = v.cache → Real y := by
      intro y e1 e2
      have rp : ∀ z, z ≠ x → Repo v z → Repo y z := by
        intro z hz hzr
        obtain ⟨u, hu⟩ := (KV.mem_keys_iff _ _).1 hzr
        exact repo_of_get (u := u) (by rw [e1, (go z hz).2]; exact hu)
      refine ⟨fun z hz => ?_, fun z n e hg => ?_⟩
      · rw [e2] at hz
        exact rp z (fun hc => hvc (hc ▸ hz)) (hu.cache z hz)
      · rw [e1] at hg
        by_cases hz : z = x
        · subst hz
          obtain ⟨ha, hb⟩ := g1 n e hg
          refine absurd (q4 (.delEnt z n) (List.mem_append.2 (.inl (List.mem_map.2 ⟨e, List.mem_map.2 ⟨(n, e), KV.mem_of_get ha, rfl⟩, ?_⟩)))) hb
          rw [(hru.db.ent z n e ha).name]
        · rw [(go z hz).1] at hg
          exact rp z hz (hu.ents z n e hg)
    have k2 := key (y := { (deleteRepoBody x { v with pend := [] }).st with
      db := (deleteRepoBody x { v with pend := [] }).st.pend.foldl DbWrite.apply (deleteRepoBody x { v with pend := [] }).st.db, pend := [] })
      (by show List.foldl DbWrite.apply _ _ = _; rw [q2, q1]; rfl) hfin.2
    refine ⟨?_, ?_, fun _ _ => trivial⟩
    · simp only [hres]; exact k2
    · intro y hy
      simp only [hres] at hy
      rcases List.mem_append.1 hy with hy | hy
      · exact same (htr y hy)
      · simp only [List.mem_singleton] at hy
        subst hy; exact k2
  · exact ⟨by simp only [hres]; exact (same hfin).dropPend, fun y hy => by simp only [hres] at hy; exact same (htr y hy), fun _ _ => trivial⟩
  · exact ⟨by simp only [hres]; exact (same hfin).dropPend, fun y hy => by simp only [hres] at hy; exact same (htr y hy), fun _ _ => trivial⟩

/-- Every operation, at every durable point. -/
theorem Op.real (o : Op) (hr : Rough W s) (h : Real s) : Ever Real (o.run W.E) s (fun _ _ => True) := by
  have get : ∀ {β : Type} (x : Str) {f : Unit → M β} {s : St} {P : β → St → Prop}, Real s → (∀ t, Known x t → Ever Real (f ()) t P) → Ever Real (getRepo x >>= f) s P :=
    fun {_} x {_ _ _} hs hf => (getRepo_real x hs).bind fun _ t _ ht => hf t ht.1
  have fin : ∀ {β : Type} {x : Str} {m : M β} {s : St}, Thru (Known x) m → Known x s → Ever Real (m >>= fun _ => mIndex W.E x) s (fun _ _ => True) :=
    fun hm hs => (hm.ever hs).bind fun _ t ht _ => mIndex_real W.E _ ht
  have stp : ∀ {g : St → FS}, Ever Real (stepM fun s => s.setFs (g s)) s (fun _ _ => True) := fun {g} =>
    (Ever.step (J := Real) (g := fun s => s.setFs (g s)) (h.setFs _)).mono fun _ _ _ => trivial
  cases o with
  | create x => exact (createRepo_real x h).bind fun _ t ht _ => mIndex_real W.E x ht
  | delete x => exact deleteRepo_real x hr h
  | clone a b f =>
    exact get a h fun t ht => (createRepo_real b ht.1).bind fun _ u _ hu => fin (thru_cloneFrom (known_closed b) a f) hu.1
  | pull a b =>
    refine Ever.bind (P := fun _ _ => True) ?_ fun _ t ht _ => Ever.pure ht trivial
    exact get a h fun t ht => get b ht.1 fun u hu => ((thru_pullFrom (known_closed b) a).ever hu).bind fun _ v hv _ =>
      (mIndex_real W.E b hv).bind fun _ w hw _ => Ever.pure hw trivial
  | removeSource x n k => exact get x h fun t ht => fin (thru_removeSource (known_closed x) n k) ht
  | trimObsolete x => exact get x h fun t ht => fin (thru_trimObsolete (known_closed x)) ht
  | trimPackages x k => exact get x h fun t ht => fin (thru_trimPackages (known_closed x) k) ht
  | copySource a b n k sk =>
    refine get a h fun t ht => get b ht.1 fun u hu => ((thru_copySourceFrom (known_closed b) a n k).ever hu).bind fun _ v hv _ => ?_
    cases sk with
    | true => exact mIndex_real W.E b hv
    | false => exact Ever.pure hv trivial
  | addPackages x fs st =>
    exact get x h fun t ht => fin (Thru.forL fun f _ => thru_addPackage (known_closed x) _ st) ht
  | index x => exact mIndex_real W.E x h
  | addDelta x d f t => exact get x h fun u hu => ((thru_addDelta (known_closed x) _ f t).ever hu).mono fun _ _ _ => trivial
  | refDelta x d => exact get x h fun u hu => ((thru_refDelta (known_closed x) d).ever hu).mono fun _ _ _ => trivial
  | markFailed i d =>
    refine Ever.getSt ?_
    cases s.db.skip.get i with
    | some _ => exact Ever.pure h trivial
    | none =>
      have h' : Real { s with db := (DbWrite.putSkip i d).apply s.db } := ⟨h.cache, h.ents⟩
      show Ever Real (dbWrite .direct (.putSkip i d)) s _
      unfold dbWrite
      split
      · exact Ever.throw h
      · exact (Ever.step h').mono fun _ _ _ => trivial
  | upload f c => exact stp
  | unlink f => exact stp
  | putAsset x a c => exact stp
  | stage x d c => exact stp
  | unstage x d => exact stp
  | restart => exact (Ever.step (J := Real) (g := _) h.crash).mono fun _ _ _ => trivial

end Ferryd
