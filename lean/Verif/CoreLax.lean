import Verif.CoreReal
/-!
# CoreLax: the shape of the database, whatever the files contain

No assumption on the outside world: files may carry any bytes and change at any time, names may be reused, jobs may be cut short anywhere.  What can be
written to the database is nevertheless well formed, because every write is built from values read from it before.
-/
namespace Ferryd

/-- Every package that can be read has a positive release. (No code: a notion of the statements and proofs; the producers of packages count from 1.) -/
def Env.Pos (E : Env) : Prop := ∀ c m, E.parse c = .good m → 1 ≤ m.rel

/-- Every package that can be read has a history and a source name, and reading a file does not panic.
(No code: a notion of the statements and proofs.  The panics are those of libeopkg/metadata.go:157-165, 190-200 and libeopkg/main.go:49-57.) -/
structure Env.Tame (E : Env) : Prop where
  parse : ∀ c, E.parse c ≠ .crash
  comps : ∀ c, E.parseComps c ≠ .crash
  groups : ∀ c, E.parseGroups c ≠ .crash
  history : ∀ c m, E.parse c = .good m → m.history ≠ []
  source : ∀ c m, E.parse c = .good m → m.source ≠ []

/-- Parameters of the invariant: the environment, the file names of deltas, and whether deltas and packages are kept apart.
(No code: a notion of the proofs.) -/
structure Lax where
  E : Env
  D : Str → Prop
  F : Prop

/-- The request names deltas only where deltas belong. (No code: a notion of the statements and proofs.) -/
def Op.apart (D : Str → Prop) : Op → Prop
  | .addPackages _ fs _ => ∀ f ∈ fs, ¬ D (baseName f)
  | .addDelta _ d _ _ => D d
  | .refDelta _ d => D d
  | _ => True

section
variable {K : Lax} {s t : St} {α β : Type}

/-- Metadata some package file holds. (No code: a notion of the proofs.) -/
def FitMeta (E : Env) (m : Meta) : Prop := ∃ c m0, E.parse c = .good m0 ∧ m.history = m0.history ∧ m.source = m0.source

theorem FitMeta.rel {E : Env} {m : Meta} (h : FitMeta E m) (hp : E.Pos) : 1 ≤ m.rel := by
  obtain ⟨c, m0, h0, h1, _⟩ := h
  have := hp c m0 h0
  unfold Meta.rel at *
  rw [h1]; exact this

/-- A well-formed pool record. (No code: a notion of the proofs.) -/
structure FitPool (K : Lax) (k : Str) (e : PoolEntry) : Prop where
  name : e.name = k
  count : 1 ≤ e.refCount
  pkg : FitMeta K.E e.pkg
  delta : K.F → K.D k → e.delta ≠ none

/-- A well-formed listing of a name. (No code: a notion of the proofs.) -/
structure FitEnt (K : Lax) (k : Str) (e : RepoEntry) : Prop where
  name : e.name = k
  some : e.available ≠ []
  sorted : SortedS e.available
  nodup : e.available.Nodup
  dsorted : SortedS e.deltas
  dnodup : e.deltas.Nodup
  pub : K.E.Pos → e.published ∈ e.available
  dl : K.F → ∀ d ∈ e.deltas, K.D d

/-- A well-formed write. (No code: a notion of the proofs.) -/
def FitWrite (K : Lax) : DbWrite → Prop
  | .putPool k e => FitPool K k e
  | .putEnt _ k e => FitEnt K k e
  | _ => True

/-- The database, and what is to be written to it, are well formed. (No code: a notion of the proofs.) -/
structure Fit (K : Lax) (s : St) : Prop where
  pool : ∀ k e, s.db.pool.get k = some e → FitPool K k e
  ents : ∀ r, ∀ p ∈ s.db.ents r, FitEnt K p.1 p.2
  pend : ∀ w ∈ s.pend, FitWrite K w
  wfPool : s.db.pool.WF
  wfEnts : ∀ r, (s.db.ents r).WF

theorem KV.of_mem_put {γ : Type} {m : KV γ} {k : Str} {v : γ} {p : Str × γ} (h : p ∈ m.put k v) : p = (k, v) ∨ p ∈ m := by
  induction m with
  | nil => exact .inl (by simpa [KV.put] using h)
  | cons q m ih =>
    obtain ⟨a, b⟩ := q
    simp only [KV.put] at h
    split at h
    · rcases List.mem_cons.1 h with h | h
      · exact .inl h
      · exact .inr (List.mem_cons_of_mem _ h)
    · split at h
      · exact List.mem_cons.1 h
      · rcases List.mem_cons.1 h with h | h
        · exact .inr (by rw [h]; exact List.mem_cons_self)
        · exact (ih h).imp id (List.mem_cons_of_mem _)

theorem KV.of_mem_del {γ : Type} {m : KV γ} {k : Str} {p : Str × γ} (h : p ∈ m.del k) : p ∈ m := by
  induction m with
  | nil => exact h
  | cons q m ih =>
    obtain ⟨a, b⟩ := q
    simp only [KV.del] at h
    split at h
    · exact List.mem_cons_of_mem _ (ih h)
    · rcases List.mem_cons.1 h with h | h
      · rw [h]; exact List.mem_cons_self
      · exact List.mem_cons_of_mem _ (ih h)

theorem Fit.ent (h : Fit K s) {r k : Str} {e : RepoEntry} (hg : (s.db.ents r).get k = .some e) : FitEnt K k e := h.ents r (k, e) (KV.mem_of_get hg)

theorem fit_init (K : Lax) : Fit K St.init :=
  ⟨fun k e h => by simp [St.init] at h, fun r k h => by simp [St.init] at h, fun w h => by simp [St.init] at h, KV.WF_nil, fun _ => KV.WF_nil⟩

theorem Fit.congr (h : Fit K s) (hd : t.db = s.db) (hp : t.pend = s.pend ∨ t.pend = []) : Fit K t :=
  ⟨by rw [hd]; exact h.pool, by rw [hd]; exact h.ents, (by
    rcases hp with hp | hp
    · rw [hp]; exact h.pend
    · rw [hp]; intro w hw; cases hw), by rw [hd]; exact h.wfPool, by rw [hd]; exact h.wfEnts⟩

theorem Fit.setFs (h : Fit K s) (g : FS) : Fit K (s.setFs g) := h.congr rfl (.inl rfl)
theorem Fit.crash (h : Fit K s) : Fit K s.crash := h.congr rfl (.inr rfl)

theorem Fit.apply (h : Fit K s) {w : DbWrite} (hw : FitWrite K w) : Fit K { s with db := w.apply s.db } := by
  refine ⟨fun k e hk => ?_, fun r p hk => ?_, h.pend, ?_, fun r => ?_⟩
  · cases w with
    | putPool a v =>
      have hk : (s.db.pool.put a v).get k = .some e := hk
      rw [KV.get_put] at hk
      split at hk
      · cases hk; rename_i he; subst he; exact hw
      · exact h.pool k e hk
    | delPool a =>
      have hk : (s.db.pool.del a).get k = .some e := hk
      rw [KV.get_del] at hk
      split at hk
      · cases hk
      · exact h.pool k e hk
    | putSkip => exact h.pool k e hk
    | putRepo => exact h.pool k e hk
    | delRepo => exact h.pool k e hk
    | putEnt => exact h.pool k e hk
    | delEnt => exact h.pool k e hk
  · cases w with
    | putPool => exact h.ents r p hk
    | delPool => exact h.ents r p hk
    | putSkip => exact h.ents r p hk
    | putRepo => exact h.ents r p hk
    | delRepo => exact h.ents r p hk
    | putEnt a n v =>
      have hk : p ∈ setEnts s.db.ents a ((s.db.ents a).put n v) r := hk
      unfold setEnts at hk
      split at hk
      · rcases KV.of_mem_put hk with rfl | hk
        · exact hw
        · exact h.ents _ p hk
      · exact h.ents r p hk
    | delEnt a n =>
      have hk : p ∈ setEnts s.db.ents a ((s.db.ents a).del n) r := hk
      unfold setEnts at hk
      split at hk
      · exact h.ents _ p (KV.of_mem_del hk)
      · exact h.ents r p hk
  · cases w <;> first | exact h.wfPool.put _ _ | exact h.wfPool.del _ | exact h.wfPool
  · cases w with
    | putEnt a n v =>
      show (setEnts s.db.ents a ((s.db.ents a).put n v) r).WF
      unfold setEnts
      split
      · exact (h.wfEnts a).put n v
      · exact h.wfEnts r
    | delEnt a n =>
      show (setEnts s.db.ents a ((s.db.ents a).del n) r).WF
      unfold setEnts
      split
      · exact (h.wfEnts a).del n
      · exact h.wfEnts r
    | _ => exact h.wfEnts r

theorem Fit.commit : ∀ (ws : List DbWrite) {d : DB} {s : St}, (∀ w ∈ ws, FitWrite K w) → Fit K { s with db := d, pend := [] } →
    Fit K { s with db := ws.foldl DbWrite.apply d, pend := [] } := by
  intro ws
  induction ws with
  | nil => intro d s _ h; exact h
  | cons w ws ih =>
    intro d s hw h
    exact ih (fun x hx => hw x (by simp [hx])) (h.apply (hw w (by simp)))

/-- From a well-formed database `m` goes through well-formed ones only, its value satisfies `P`, and it does not panic in a tame environment.
(No code: a notion of the proofs.) -/
structure Fits (K : Lax) (m : M α) (P : α → Prop) : Prop where
  run : ∀ s, Fit K s → Ever (Fit K) m s (fun a _ => P a)
  np : K.F → K.E.Tame → ∀ s, Fit K s → (m s).res ≠ .panic

theorem Fits.bind {m : M α} {f : α → M β} {P : α → Prop} {R : β → Prop} (h : Fits K m P) (hf : ∀ a, P a → Fits K (f a) R) : Fits K (m >>= f) R :=
  ⟨fun s hs => (h.run s hs).bind fun a t ht hp => (hf a hp).run t ht, fun hk he s hs => by
    have h1 := h.run s hs
    have h0 := h.np hk he s hs
    show (M.bind' m f s).res ≠ .panic
    unfold M.bind'
    rcases hm : (m s).res with a | e | _
    · exact (hf a (h1.val a hm)).np hk he _ h1.fin
    · simp
    · exact absurd hm h0⟩

theorem Fits.mono {m : M α} {P R : α → Prop} (h : Fits K m P) (hr : ∀ a, P a → R a) : Fits K m R :=
  ⟨fun s hs => (h.run s hs).mono fun a _ => hr a, h.np⟩
theorem Fits.pure {a : α} {P : α → Prop} (h : P a) : Fits K (Pure.pure a : M α) P := ⟨fun _ hs => Ever.pure hs h, fun _ _ _ _ h => by cases h⟩
theorem Fits.throw {e : Err} {P : α → Prop} : Fits K (throwE e : M α) P := ⟨fun _ hs => Ever.throw hs, fun _ _ _ _ h => by cases h⟩
theorem Fits.panic {P : α → Prop} (h : K.F → K.E.Tame → False) : Fits K (panicM : M α) P :=
  ⟨fun s hs => ⟨hs, fun t ht => (by cases ht), fun a ha => (by cases ha)⟩, fun hk he => (h hk he).elim⟩
theorem Fits.getSt {f : St → M β} {R : β → Prop} (hf : ∀ s, Fits K (f s) R) : Fits K (Ferryd.getSt >>= f) R :=
  Fits.bind (P := fun _ => True) ⟨fun _ hs => (Ever.reads hs Reads.getSt).mono fun _ _ _ => trivial, fun _ _ _ _ h => by cases h⟩ fun a _ => hf a
theorem Fits.ite {c : Prop} [Decidable c] {m n : M α} {P : α → Prop} (h : c → Fits K m P) (k : ¬ c → Fits K n P) : Fits K (if c then m else n) P := by
  split
  · exact h ‹_›
  · exact k ‹_›
theorem Fits.step {f : St → St} (h : ∀ s, Fit K s → Fit K (f s)) : Fits K (stepM f) (fun _ => True) :=
  ⟨fun s hs => (Ever.step (h s hs)).mono fun _ _ _ => trivial, fun _ _ _ _ h => by cases h⟩
theorem Fits.vol {f : St → St} (h : ∀ s, Fit K s → Fit K (f s)) : Fits K (volM f) (fun _ => True) :=
  ⟨fun s hs => (Ever.vol (h s hs)).mono fun _ _ _ => trivial, fun _ _ _ _ h => by cases h⟩

theorem Fits.forL {γ : Type} {l : List γ} {f : γ → M Unit} (h : ∀ x ∈ l, Fits K (f x) (fun _ => True)) : Fits K (Ferryd.forL l f) (fun _ => True) := by
  induction l with
  | nil => exact .pure trivial
  | cons x xs ih => exact (h x (by simp)).bind fun _ _ => ih fun y hy => h y (by simp [hy])

theorem Fits.collectL {γ δ : Type} {l : List γ} {f : γ → M (List δ)} (h : ∀ x ∈ l, Fits K (f x) (fun _ => True)) :
    Fits K (Ferryd.collectL l f) (fun _ => True) := by
  induction l with
  | nil => exact .pure trivial
  | cons x xs ih => exact (h x (by simp)).bind fun _ _ => (ih fun y hy => h y (by simp [hy])).bind fun _ _ => .pure trivial

/-! ## Files -/

theorem fit_fs {f : St → FS} : Fits K (stepM fun s => s.setFs (f s)) (fun _ => True) := .step fun _ hs => hs.setFs _

theorem fit_copyFile (a b : Path) : Fits K (copyFile a b) (fun _ => True) := by
  unfold copyFile
  refine .getSt fun s => ?_
  cases s.fs.tab a with
  | none => exact .pure trivial
  | some i => exact Fits.bind (P := fun _ => True) fit_fs fun _ _ => fit_fs

theorem fit_linkOrCopy (E : Env) (a b : Path) (k : Bool) : Fits K (linkOrCopy E a b k) (fun _ => True) := by
  unfold linkOrCopy
  refine .ite (fun _ => fit_copyFile a b) fun _ => .getSt fun s => ?_
  split
  · exact .ite (fun _ => fit_fs) fun _ => fit_copyFile a b
  · exact fit_copyFile a b

theorem fit_removeFile (p : Path) : Fits K (removeFile p) (fun _ => True) := fit_fs

theorem fit_fileSha1 (E : Env) (p : Path) : Fits K (fileSha1 E p) (fun _ => True) := by
  unfold fileSha1
  refine .getSt fun s => ?_
  cases s.fs.read p with
  | none => exact .throw
  | some c => exact .ite (fun _ => .throw) fun _ => .pure trivial

/-! ## Database -/

theorem fit_dbWrite (h : Handle) {w : DbWrite} (hw : FitWrite K w) : Fits K (dbWrite h w) (fun _ => True) := by
  unfold dbWrite
  refine .ite (fun _ => .throw) fun _ => ?_
  cases h with
  | direct => exact .step fun s hs => hs.apply hw
  | batch => exact .vol fun s hs => ⟨hs.pool, hs.ents, fun x hx => (by
      rcases List.mem_append.1 hx with hx | hx
      · exact hs.pend x hx
      · simp only [List.mem_singleton] at hx; subst hx; exact hw), hs.wfPool, hs.wfEnts⟩

theorem fit_poolGet? (id : Str) : Fits K (poolGet? id) (fun o => ∀ e, o = some e → FitPool K id e) :=
  ⟨fun s hs => Ever.getSt (Ever.pure hs fun e he => hs.pool id e he), fun _ _ _ _ h => by cases h⟩

theorem fit_poolGet (id : Str) : Fits K (poolGet id) (FitPool K id) :=
  (fit_poolGet? id).bind fun o ho => by
    cases o with
    | none => exact .throw
    | some e => exact .pure (ho e rfl)

theorem fit_repoGet? (r n : Str) : Fits K (repoGet? r n) (fun o => ∀ e, o = some e → FitEnt K n e) :=
  ⟨fun s hs => Ever.getSt (Ever.pure hs fun e he => hs.ent he), fun _ _ _ _ h => by cases h⟩

theorem fit_repoGet (r n : Str) : Fits K (repoGet r n) (FitEnt K n) :=
  (fit_repoGet? r n).bind fun o ho => by
    cases o with
    | none => exact .throw
    | some e => exact .pure (ho e rfl)

theorem fit_repoEntries (r : Str) : Fits K (repoEntries r) (fun es => ∀ e ∈ es, FitEnt K e.name e) :=
  ⟨fun s hs => Ever.getSt (Ever.pure hs fun e he => by
    obtain ⟨p, hp, rfl⟩ := List.mem_map.1 he
    have := hs.ents r p hp
    rw [this.name]; exact this), fun _ _ _ _ h => by cases h⟩

theorem fit_repoPut (r : Str) {k : Str} {e : RepoEntry} (h : FitEnt K k e) : Fits K (repoPut r e) (fun _ => True) :=
  fit_dbWrite _ (show FitEnt K e.name e from h.name ▸ h)

theorem fit_getRelease {m : Meta} (h : FitMeta K.E m) : Fits K (getRelease m) (fun n => n = m.rel) := by
  unfold getRelease
  cases hh : m.history with
  | nil =>
    refine .panic fun _ he => ?_
    obtain ⟨c, m0, h0, h1, _⟩ := h
    exact he.history c m0 h0 (h1.symm.trans hh)
  | cons u l => exact .pure (by simp [Meta.rel, hh])

theorem fit_pathComp {m : Meta} (h : FitMeta K.E m) : Fits K (pathComp m) (fun _ => True) := by
  unfold pathComp
  cases hh : pathComp? m.source with
  | none =>
    refine .panic fun _ he => ?_
    obtain ⟨c, m0, h0, _, h1⟩ := h
    exact he.source c m0 h0 (h1.symm.trans ((pathComp?_none_iff _).1 hh))
  | some c => exact .pure trivial

theorem fit_openPkg (p : Path) : Fits K (openPkg K.E p) (fun o => FitMeta K.E o.pkg ∧ o.id = p.base) := by
  refine .getSt fun s => ?_
  cases s.fs.read p with
  | none => exact .throw
  | some c =>
    dsimp only
    cases hp : K.E.parse c with
    | bad => exact .throw
    | crash => exact .panic fun _ he => he.parse c hp
    | good m => exact .pure ⟨⟨c, m, hp, rfl, rfl⟩, rfl⟩

theorem fit_poolPut (h : Handle) {k : Str} {e : PoolEntry} (he : FitPool K k e) {n : Nat} (hn : 1 ≤ n) :
    Fits K (dbWrite h (.putPool e.name { e with refCount := n })) (fun _ => True) :=
  fit_dbWrite h (show FitPool K e.name _ from ⟨rfl, hn, he.pkg, fun hk hd => he.delta hk (he.name ▸ hd)⟩)

theorem fit_poolAddInternal {p : Pkg} (hp : FitMeta K.E p.pkg) (k : Bool) {d : Option DeltaInfo} (hd : K.F → K.D p.id → d ≠ none) :
    Fits K (poolAddInternal K.E p k d) (fun _ => True) := by
  unfold poolAddInternal
  refine (fit_poolGet? _).bind fun o ho => ?_
  cases o with
  | some e => exact (fit_poolPut _ (ho e rfl) (by omega)).bind fun _ _ => .pure trivial
  | none =>
    refine .getSt fun s => ?_
    cases s.fs.read p.path with
    | none => exact .throw
    | some x =>
      refine (fit_pathComp hp).bind fun comp _ => (fit_linkOrCopy _ _ _ k).bind fun _ _ => (fit_fileSha1 _ _).bind fun sha _ => ?_
      refine .ite (fun _ => (fit_removeFile _).bind fun _ _ => .throw) fun _ => (fit_dbWrite _ ?_).bind fun _ _ => .pure trivial
      exact ⟨rfl, Nat.le_refl 1, hp, hd⟩

theorem fit_poolAddDelta {p : Pkg} (hp : FitMeta K.E p.pkg) (f t : Str) (k : Bool) : Fits K (poolAddDelta K.E p f t k) (fun _ => True) := by
  unfold poolAddDelta
  refine (fit_poolGet? _).bind fun o ho => ?_
  cases o with
  | some e => exact (fit_poolPut _ (ho e rfl) (by omega)).bind fun _ _ => .pure trivial
  | none =>
    exact (fit_poolGet _).bind fun _ h1 => (fit_poolGet _).bind fun _ h2 => (fit_getRelease h2.pkg).bind fun _ _ => (fit_getRelease h1.pkg).bind fun _ _ =>
      fit_poolAddInternal hp _ fun _ _ h => by cases h

theorem fit_refEntry (id : Str) : Fits K (refEntry id) (fun _ => True) :=
  (fit_poolGet id).bind fun e he => fit_poolPut _ he (by omega)

theorem fit_unrefEntry (h : Handle) (id : Str) : Fits K (unrefEntry h id) (fun _ => True) := by
  unfold unrefEntry
  refine (fit_poolGet id).bind fun e he => .ite (fun hc => fit_poolPut _ he hc) fun _ => ?_
  exact (fit_pathComp he.pkg).bind fun _ _ => (fit_removeFile _).bind fun _ _ => fit_dbWrite (w := .delPool id) _ trivial

theorem fit_removePackageInternal (h : Handle) (x id : Str) : Fits K (removePackageInternal h x id) (fun _ => True) := by
  unfold removePackageInternal
  refine (fit_poolGet? _).bind fun o ho => ?_
  cases o with
  | none => exact .pure trivial
  | some e => exact (fit_pathComp (ho e rfl).pkg).bind fun _ _ => (fit_removeFile _).bind fun _ _ => fit_unrefEntry _ _

/-! ## Listings -/

theorem FitEnt.addDelta {k : Str} {e : RepoEntry} (h : FitEnt K k e) {d : Str} (hd : d ∉ e.deltas) (hD : K.F → K.D d) :
    FitEnt K k { e with deltas := sortS (e.deltas ++ [d]) } :=
  ⟨h.name, h.some, h.sorted, h.nodup, sortS_sorted _, nodup_sortS.2 (List.nodup_append.2 ⟨h.dnodup, by simp, fun a ha b hb => by
    simp only [List.mem_singleton] at hb; subst hb; rintro rfl; exact hd ha⟩), h.pub, fun hk x hx => by
      have hx : x ∈ sortS (e.deltas ++ [d]) := hx
      simp only [mem_sortS, List.mem_append, List.mem_singleton] at hx
      rcases hx with hx | rfl
      · exact h.dl hk x hx
      · exact hD hk⟩

theorem fit_refDelta (r : Str) {id : Str} (hD : K.F → K.D id) : Fits K (refDelta K.E r id) (fun _ => True) := by
  unfold refDelta
  refine (fit_poolGet _).bind fun _ hp => (fit_repoGet _ _).bind fun e he => (fit_pathComp hp.pkg).bind fun _ _ => .ite (fun _ => .pure trivial) fun hd => ?_
  exact (fit_refEntry _).bind fun _ _ => (fit_linkOrCopy _ _ _ _).bind fun _ _ => fit_repoPut _ (he.addDelta hd hD)

theorem fit_addDelta (r : Str) (file : Path) (f t : Str) (hD : K.F → K.D file.base) : Fits K (addDelta K.E r file f t) (fun _ => True) := by
  unfold addDelta
  refine (fit_openPkg _).bind fun p hp => (fit_repoGet _ _).bind fun e he => (fit_pathComp hp.1).bind fun _ _ => .ite (fun _ => .pure trivial) fun hd => ?_
  exact (fit_poolAddDelta hp.1 _ _ _).bind fun _ _ => (fit_linkOrCopy _ _ _ _).bind fun _ _ => fit_repoPut _ (he.addDelta hd (hp.2 ▸ hD))

theorem fit_unrefDeltas (r id : Str) : ∀ ds : List Str, (K.F → ∀ d ∈ ds, K.D d) → Fits K (unrefDeltas r id ds) (fun l => l.Sublist ds)
  | [], _ => .pure (List.Sublist.refl _)
  | d :: ds, hD => by
    unfold unrefDeltas
    refine Fits.bind (P := fun l => l.Sublist [d]) ?_ fun l hl => (fit_unrefDeltas r id ds fun hk x hx => hD hk x (by simp [hx])).bind fun k hk => .pure ?_
    · refine (fit_poolGet d).bind fun pd hp => ?_
      cases hpd : pd.delta with
      | none => exact .panic fun hk _ => hp.delta hk (hD hk d (by simp)) hpd
      | some di =>
        refine .ite (fun _ => (fit_removePackageInternal _ _ _).bind fun _ _ => .pure (by simp)) fun _ => .pure ?_
        rw [hp.name]; exact List.Sublist.refl _
    · exact hl.append hk

/-- The accumulator of the loop over the available packages. (No code: a notion of the proofs.) -/
structure FitAcc (K : Lax) (seen : List Str) (acc : Int × Str × List Str) : Prop where
  sub : acc.2.2.Sublist seen
  pos : K.E.Pos → acc.2.2 ≠ [] → acc.2.1 ∈ acc.2.2
  start : K.E.Pos → acc.2.2 = [] → acc.1 = 0

theorem fit_unrefAvail (id : Str) (av : List Str) : Fits K (unrefAvail id av) (FitAcc K av) := by
  unfold unrefAvail
  have key : ∀ (l seen : List Str) (acc : Int × Str × List Str), FitAcc K seen acc →
      Fits K (foldL l acc fun acc x => do
        if x = id then pure acc
        else do
          let pe ← poolGet x
          let rel ← getRelease pe.pkg
          if rel > acc.1 then pure (rel, x, acc.2.2 ++ [x])
          else pure (acc.1, acc.2.1, acc.2.2 ++ [x])) (FitAcc K (seen ++ l)) := by
    intro l
    induction l with
    | nil => intro seen acc h; rw [List.append_nil]; exact .pure h
    | cons y ys ih =>
      intro seen acc h
      have e : seen ++ y :: ys = seen ++ [y] ++ ys := by simp
      rw [e]
      refine Fits.bind (P := FitAcc K (seen ++ [y])) ?_ fun b hb => ih (seen ++ [y]) b hb
      refine .ite (fun _ => .pure ⟨h.sub.trans (List.sublist_append_left _ _), h.pos, h.start⟩) fun _ => ?_
      refine (fit_poolGet y).bind fun pe hpe => (fit_getRelease hpe.pkg).bind fun rel hrel => ?_
      subst hrel
      have hs : (acc.2.2 ++ [y]).Sublist (seen ++ [y]) := h.sub.append (List.Sublist.refl _)
      refine .ite (fun _ => .pure ⟨hs, fun _ _ => by simp, fun _ hn => by simp at hn⟩) fun hc => .pure ⟨hs, fun hp _ => ?_, fun _ hn => by simp at hn⟩
      have h1 := hpe.pkg.rel hp
      rcases Classical.em (acc.2.2 = []) with hn | hn
      · have := h.start hp hn; omega
      · exact List.mem_append.2 (.inl (h.pos hp hn))
  have := key av [] (0, [], []) ⟨List.Sublist.refl _, fun _ hn => absurd rfl hn, fun _ _ => rfl⟩
  rwa [List.nil_append] at this

theorem fit_unrefPackage (r id : Str) : Fits K (unrefPackage r id) (fun _ => True) := by
  unfold unrefPackage
  refine (fit_poolGet _).bind fun pe _ => (fit_repoGet _ _).bind fun e he => (fit_removePackageInternal _ _ _).bind fun _ _ => ?_
  refine (fit_unrefDeltas _ _ _ he.dl).bind fun ds hds => (fit_unrefAvail _ _).bind fun acc hacc => ?_
  refine .ite (fun _ => fit_dbWrite (w := .delEnt r e.name) _ trivial) fun hl => fit_repoPut (k := pe.pkg.name) _ ?_
  have hn : acc.2.2 ≠ [] := fun h => hl (by rw [h]; exact Nat.lt_succ_self 0)
  refine ⟨he.name, fun h => ?_, sortS_sorted _, nodup_sortS.2 (hacc.sub.nodup he.nodup), sortS_sorted _, nodup_sortS.2 (hds.nodup he.dnodup), fun hp => ?_,
    fun hk x hx => he.dl hk x (hds.subset (mem_sortS.1 hx))⟩
  · have h : sortS acc.2.2 = [] := h
    have := length_sortS acc.2.2
    rw [h] at this
    exact hn (List.length_eq_zero_iff.1 this.symm)
  · exact mem_sortS.2 (hacc.pos hp hn)

theorem fit_buildSaneEntry (r : Str) {m : Meta} (hm : FitMeta K.E m) (id : Str) :
    Fits K (buildSaneEntry r m id) (fun o => ∀ ne, o = some ne → FitEnt K m.name ne) := by
  unfold buildSaneEntry
  refine (fit_repoGet? _ _).bind fun o ho => ?_
  cases o with
  | none =>
    exact .pure fun ne hn => by
      cases hn
      exact ⟨rfl, by simp, by simp [SortedS], by simp, by simp [SortedS], by simp, fun _ => by simp, fun _ d hd => by cases hd⟩
  | some e =>
    have he := ho e rfl
    refine Fits.bind (P := fun pub => pub = id ∨ pub = e.published) ?_ fun pub hpub => ?_
    · refine (fit_poolGet? _).bind fun o ho => ?_
      cases o with
      | none => exact .pure (.inl rfl)
      | some pa =>
        exact (fit_getRelease hm).bind fun _ _ => (fit_getRelease (ho pa rfl).pkg).bind fun _ _ => .ite (fun _ => .pure (.inl rfl)) fun _ => .pure (.inr rfl)
    · refine .ite (fun _ => .pure fun _ hn => by cases hn) fun hi => .pure fun ne hn => ?_
      cases hn
      refine ⟨rfl, fun h => ?_, sortS_sorted _, nodup_sortS.2 (List.nodup_append.2 ⟨he.nodup, by simp, fun a ha b hb => ?_⟩), by simp [SortedS], by simp, fun hp => ?_,
        fun _ d hd => by cases hd⟩
      · have h : sortS (e.available ++ [id]) = [] := h
        have : id ∈ sortS (e.available ++ [id]) := by simp
        rw [h] at this; cases this
      · simp only [List.mem_singleton] at hb; subst hb; rintro rfl; exact hi ha
      · show pub ∈ sortS (e.available ++ [id])
        rcases hpub with rfl | rfl
        · simp
        · have := he.pub hp; simp [this]

theorem fit_refPackage (r id : Str) : Fits K (refPackage K.E r id) (fun _ => True) := by
  unfold refPackage
  refine (fit_poolGet _).bind fun pe hp => (fit_pathComp hp.pkg).bind fun _ _ => (fit_buildSaneEntry _ hp.pkg _).bind fun o ho => ?_
  cases o with
  | none => exact .pure trivial
  | some ne => exact (fit_refEntry _).bind fun _ _ => (fit_linkOrCopy _ _ _ _).bind fun _ _ => fit_repoPut _ (ho ne rfl)

theorem fit_addLocalPackage (r : Str) {p : Pkg} (hp : FitMeta K.E p.pkg) (hD : K.F → ¬ K.D p.id) : Fits K (addLocalPackage K.E r p) (fun _ => True) := by
  unfold addLocalPackage
  refine (fit_pathComp hp).bind fun _ _ => (fit_buildSaneEntry _ hp _).bind fun o ho => ?_
  cases o with
  | none => exact .pure trivial
  | some ne =>
    exact (fit_poolAddInternal hp _ fun hk hd => absurd hd (hD hk)).bind fun _ _ => (fit_linkOrCopy _ _ _ _).bind fun _ _ => fit_repoPut _ (ho ne rfl)

theorem fit_addPackage (r : Str) (file : Path) (strict : Bool) (hD : K.F → ¬ K.D file.base) : Fits K (addPackage K.E r file strict) (fun _ => True) := by
  unfold addPackage
  refine (fit_openPkg _).bind fun p hp => ?_
  have hD' : K.F → ¬ K.D p.id := by rw [hp.2]; exact hD
  refine .ite (fun _ => fit_addLocalPackage _ hp.1 hD') fun _ => (fit_repoGet? _ _).bind fun o _ => ?_
  cases o with
  | none => exact fit_addLocalPackage _ hp.1 hD'
  | some l =>
    exact (fit_poolGet _).bind fun _ h1 => (fit_getRelease h1.pkg).bind fun _ _ => (fit_getRelease hp.1).bind fun _ _ =>
      .ite (fun _ => .throw) fun _ => .ite (fun _ => .throw) fun _ => fit_addLocalPackage _ hp.1 hD'

/-! ## Scans -/

theorem fit_pullOne (r : Str) (e : RepoEntry) : Fits K (pullOne r e) (fun _ => True) := by
  unfold pullOne
  refine (fit_repoGet? _ _).bind fun o _ => ?_
  cases o with
  | none => exact .pure trivial
  | some l =>
    exact (fit_poolGet _).bind fun _ h1 => (fit_poolGet _).bind fun _ h2 => (fit_getRelease h1.pkg).bind fun _ _ => (fit_getRelease h2.pkg).bind fun _ _ =>
      .ite (fun _ => .throw) fun _ => .ite (fun _ => .pure trivial) fun _ => .pure trivial

theorem fit_matchingSource (r n : Str) (k : Int) : Fits K (matchingSource r n k) (fun _ => True) := by
  unfold matchingSource
  refine (fit_repoEntries _).bind fun es _ => .collectL fun e _ => .collectL fun x _ => (fit_poolGet _).bind fun pe hp => ?_
  exact .ite (fun _ => .pure trivial) fun _ => .ite (fun _ => (fit_getRelease hp.pkg).bind fun _ _ => .ite (fun _ => .pure trivial) fun _ => .pure trivial) fun _ => .pure trivial

theorem fit_initDistribution (r : Str) : Fits K (initDistribution K.E r) (fun _ => True) := by
  unfold initDistribution
  refine .getSt fun s => ?_
  cases s.fs.read (.asset r .distribution) with
  | none => exact .pure trivial
  | some c =>
    dsimp only
    cases K.E.parseDist c with
    | none => exact .throw
    | some d => exact .pure trivial

theorem fit_trimObsoleteScan (obs : List Str) (n : Str) : ∀ l, Fits K (trimObsoleteScan obs n l) (fun _ => True)
  | [] => .pure trivial
  | x :: xs => by
    unfold trimObsoleteScan
    exact (fit_poolGet _).bind fun _ _ => .ite (fun _ => .ite (fun _ => .pure trivial) fun _ => .pure trivial) fun _ => fit_trimObsoleteScan obs n xs

theorem fit_trimScan (k : Nat) (e : RepoEntry) : Fits K (trimScan K.E k e) (fun _ => True) := by
  unfold trimScan
  refine .ite (fun _ => .pure trivial) fun _ => Fits.bind (P := fun _ => True) (.collectL fun x _ => ?_) fun _ _ => .pure trivial
  refine (fit_poolGet _).bind fun pe hp => Fits.bind (P := fun _ => True) ?_ fun _ _ => .pure trivial
  exact .ite (fun _ => (fit_getRelease hp.pkg).mono fun _ _ => trivial) fun _ => .pure trivial

theorem fit_emitAsset {p : Content → ParsedAsset} (hp : K.E.Tame → ∀ c, p c ≠ .crash) (r : Str) (a : Asset) : Fits K (emitAsset p r a) (fun _ => True) := by
  unfold emitAsset
  refine .getSt fun s => ?_
  cases s.fs.read (.asset r a) with
  | none => exact .pure trivial
  | some c =>
    dsimp only
    cases hc : p c with
    | bad => exact .throw
    | crash => exact .panic fun _ he => hp he c hc
    | good l => exact .pure trivial

theorem fit_emitIndex (r : Str) (dist : Option (List Str)) : Fits K (emitIndex K.E r dist) (fun _ => True) := by
  unfold emitIndex
  refine (fit_repoEntries _).bind fun es _ => Fits.bind (P := fun _ => True) (.collectL fun x _ => (fit_poolGet _).bind fun pe hp => ?_) fun _ _ =>
    (fit_emitAsset (fun he => he.comps) _ _).bind fun _ _ => (fit_emitAsset (fun he => he.groups) _ _).bind fun _ _ => .pure trivial
  unfold emitPackage
  refine .ite (fun _ => .pure trivial) fun _ => Fits.bind (P := fun _ => True) ?_ fun _ _ => .pure trivial
  unfold pushDeltas
  refine (fit_repoGet _ _).bind fun re _ => .collectL fun d _ => (fit_poolGet _).bind fun pd _ => ?_
  cases pd.delta with
  | none => exact .throw
  | some di => exact (fit_getRelease hp.pkg).bind fun _ _ => .ite (fun _ => .pure trivial) fun _ => .pure trivial

/-! ## Jobs -/

theorem fit_pullAsset (d x : Str) (a : Asset) : Fits K (pullAsset d x a) (fun _ => True) := by
  unfold pullAsset
  refine .getSt fun s => ?_
  cases s.fs.tab (.asset x a) with
  | none => exact .pure trivial
  | some _ => exact fit_copyFile _ _

theorem fit_pullAssets (d x : Str) : Fits K (pullAssets d x) (fun _ => True) :=
  (fit_pullAsset d x _).bind fun _ _ => (fit_pullAsset d x _).bind fun _ _ => fit_pullAsset d x _

theorem fit_bakeRepo (r : Str) : Fits K (bakeRepo r) (fun _ => True) := fit_fs

theorem fit_cache (f : List Str → List Str) : Fits K (volM fun s => { s with cache := f s.cache }) (fun _ => True) :=
  .vol fun _ hs => hs.congr rfl (.inl rfl)

theorem fit_getRepo (r : Str) : Fits K (getRepo r) (fun _ => True) := by
  unfold getRepo
  refine .getSt fun s => .ite (fun _ => .pure trivial) fun _ => ?_
  cases s.db.repos.get r with
  | none => exact .throw
  | some _ => exact (fit_bakeRepo r).bind fun _ _ => fit_cache (r :: ·)

theorem fit_createRepo (r : Str) : Fits K (createRepo r) (fun _ => True) := by
  unfold createRepo
  refine .getSt fun s => ?_
  have key : Fits K (if s.fs.rdir r then throwE .artifacts else do
      dbWrite .direct (.putRepo r); bakeRepo r; volM (fun s => { s with cache := r :: s.cache })) (fun _ => True) :=
    .ite (fun _ => .throw) fun _ => (fit_dbWrite (w := .putRepo r) _ trivial).bind fun _ _ => (fit_bakeRepo r).bind fun _ _ => fit_cache (r :: ·)
  rcases (getRepo r s).res with a | e | _
  · exact (fit_getRepo r).bind fun _ _ => .throw
  · exact key
  · exact key

theorem fit_indexRepo (x : Str) : Fits K (indexRepo K.E x) (fun _ => True) := by
  unfold indexRepo
  refine (fit_initDistribution _).bind fun _ _ => (fit_emitIndex _ _).bind fun doc _ => .getSt fun s => ?_
  refine Fits.bind (P := fun _ => True) (.vol fun _ hs => hs.congr rfl (.inl rfl)) fun _ _ => ?_
  cases K.E.indexIO s.clock with
  | failBefore => exact .throw
  | ok => exact fit_fs
  | failAfter => exact Fits.bind (P := fun _ => True) fit_fs fun _ _ => .throw

theorem fit_mIndex (x : Str) : Fits K (mIndex K.E x) (fun _ => True) := (fit_getRepo x).bind fun _ _ => fit_indexRepo x

theorem fit_dbUpdate {m : M Unit} (h : Fits K m (fun _ => True)) : Fits K (dbUpdate m) (fun _ => True) := by
  refine ⟨fun s hs => ?_, fun hk he s hs => ?_⟩
  · have h1 := h.run { s with pend := [] } (hs.congr rfl (.inr rfl))
    have h0 := h1.fin
    have ht := h1.tr
    unfold dbUpdate
    rcases hm : (m { s with pend := [] }).res with a | e | _
    · have hc : Fit K { (m { s with pend := [] }).st with
          db := (m { s with pend := [] }).st.pend.foldl DbWrite.apply (m { s with pend := [] }).st.db, pend := [] } :=
        Fit.commit _ h0.pend (h0.congr rfl (.inr rfl))
      refine ⟨by simp only [hm]; exact hc, fun t hx => ?_, fun _ _ => trivial⟩
      simp only [hm] at hx
      rcases List.mem_append.1 hx with hx | hx
      · exact ht t hx
      · simp only [List.mem_singleton] at hx; subst hx; exact hc
    · exact ⟨by simp only [hm]; exact h0.congr rfl (.inr rfl), fun t hx => by simp only [hm] at hx; exact ht t hx, fun _ _ => trivial⟩
    · exact ⟨by simp only [hm]; exact h0.congr rfl (.inr rfl), fun t hx => by simp only [hm] at hx; exact ht t hx, fun _ _ => trivial⟩
  · have h1 := h.np hk he { s with pend := [] } (hs.congr rfl (.inr rfl))
    unfold dbUpdate
    rcases hm : (m { s with pend := [] }).res with a | e | _
    · simp only [hm]; intro h; cases h
    · simp only [hm]; intro h; cases h
    · exact absurd hm h1

theorem fit_deleteRepo (r : Str) : Fits K (deleteRepo r) (fun _ => True) := by
  unfold deleteRepo
  refine (fit_getRepo r).bind fun _ _ => (fit_cache (·.filter (· ≠ r))).bind fun _ _ => (fit_dbUpdate ?_).bind fun _ _ =>
    Fits.bind (P := fun _ => True) fit_fs fun _ _ => fit_fs
  unfold deleteRepoBody
  refine (fit_repoEntries _).bind fun es _ => (Fits.forL fun e _ => ?_).bind fun _ _ => fit_dbWrite (w := .delRepo r) _ trivial
  exact (Fits.forL fun x _ => fit_removePackageInternal _ _ _).bind fun _ _ =>
    (Fits.forL fun x _ => fit_removePackageInternal _ _ _).bind fun _ _ => fit_dbWrite (w := .delEnt r e.name) _ trivial

theorem Op.fit (o : Op) (ho : K.F → o.apart K.D) : Fits K (o.run K.E) (fun _ => True) := by
  cases o with
  | create r => exact (fit_createRepo r).bind fun _ _ => fit_mIndex r
  | delete r => exact fit_deleteRepo r
  | clone a b f =>
    refine (fit_getRepo a).bind fun _ _ => (fit_createRepo b).bind fun _ _ => Fits.bind (P := fun _ => True) ?_ fun _ _ => fit_mIndex b
    unfold cloneFrom
    refine (fit_pullAssets _ _).bind fun _ _ => (fit_repoEntries _).bind fun es hes =>
      (Fits.forL fun x _ => fit_refPackage _ x).bind fun _ _ => Fits.forL fun x hx => fit_refDelta _ fun hk => ?_
    split at hx
    · obtain ⟨e, he, hd⟩ := List.mem_flatMap.1 hx
      exact (hes e he).dl hk x hd
    · cases hx
  | pull a b =>
    refine Fits.bind (P := fun _ => True) ?_ fun _ _ => .pure trivial
    refine (fit_getRepo a).bind fun _ _ => (fit_getRepo b).bind fun _ _ => Fits.bind (P := fun _ => True) ?_ fun _ _ =>
      (fit_mIndex b).bind fun _ _ => .pure trivial
    unfold pullFrom
    exact (fit_pullAssets _ _).bind fun _ _ => (fit_repoEntries _).bind fun es _ => Fits.bind (P := fun _ => True) (.collectL fun e _ => fit_pullOne _ e) fun todo _ =>
      (Fits.forL fun x _ => fit_refPackage _ x).bind fun _ _ => .pure trivial
  | removeSource r n k =>
    refine (fit_getRepo r).bind fun _ _ => Fits.bind (P := fun _ => True) ?_ fun _ _ => fit_mIndex r
    exact (fit_matchingSource _ _ _).bind fun ids _ => .ite (fun _ => .throw) fun _ => Fits.forL fun x _ => fit_unrefPackage _ x
  | copySource a b n k sk =>
    refine (fit_getRepo a).bind fun _ _ => (fit_getRepo b).bind fun _ _ => Fits.bind (P := fun _ => True) ?_ fun _ _ =>
      .ite (fun _ => fit_mIndex b) fun _ => .pure trivial
    exact (fit_matchingSource _ _ _).bind fun ids _ => .ite (fun _ => .throw) fun _ => Fits.forL fun x _ => fit_refPackage _ x
  | trimObsolete r =>
    refine (fit_getRepo r).bind fun _ _ => Fits.bind (P := fun _ => True) ?_ fun _ _ => fit_mIndex r
    unfold Ferryd.trimObsolete
    refine (fit_initDistribution _).bind fun o _ => ?_
    cases o with
    | none => exact .throw
    | some obs =>
      exact (fit_repoEntries _).bind fun es _ => Fits.bind (P := fun _ => True) (.collectL fun e _ => fit_trimObsoleteScan _ _ _) fun ids _ =>
        Fits.forL fun x _ => fit_unrefPackage _ x
  | trimPackages r k =>
    refine (fit_getRepo r).bind fun _ _ => Fits.bind (P := fun _ => True) ?_ fun _ _ => fit_mIndex r
    unfold Ferryd.trimPackages
    exact .ite (fun _ => .throw) fun _ => (fit_repoEntries _).bind fun es _ => Fits.bind (P := fun _ => True) (.collectL fun e _ => fit_trimScan _ _) fun ids _ =>
      Fits.forL fun x _ => fit_unrefPackage _ x
  | addPackages r fs st =>
    exact (fit_getRepo r).bind fun _ _ => (Fits.forL fun f hf => fit_addPackage r (.ext f) st fun hk => ho hk f hf).bind fun _ _ => fit_mIndex r
  | index r => exact fit_mIndex r
  | addDelta r d f t => exact (fit_getRepo r).bind fun _ _ => fit_addDelta _ _ _ _ ho
  | refDelta r d => exact (fit_getRepo r).bind fun _ _ => fit_refDelta _ ho
  | markFailed i d =>
    refine .getSt fun s => ?_
    cases s.db.skip.get i with
    | some _ => exact .pure trivial
    | none => exact fit_dbWrite (w := .putSkip i d) _ trivial
  | upload f c => exact fit_fs
  | unlink f => exact fit_removeFile _
  | putAsset r a c => exact fit_fs
  | stage r d c => exact fit_fs
  | unstage r d => exact fit_removeFile _
  | restart => exact .step fun s hs => hs.crash

end
end Ferryd
