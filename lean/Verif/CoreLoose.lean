import Verif.CoreOps
import Verif.CoreRough
/-!
# CoreLoose: uploads that do not carry the bytes their name stands for

The histories of `CoreOps` assume that two files of one name have the same bytes.  Here that is dropped: a rebuilt package
may come back under its old name with other bytes, and an upload may be truncated or no package at all.  A state of such a
history has a *twin*: a state that differs from it only in the bytes of outside files, and that satisfies the invariant for
some choice of what each name stands for.  The code looks at the bytes of an outside file only when it takes it in.
-/
namespace Ferryd

/-- A file outside pool, repositories and assets: an upload or a staged delta. (No code: a notion of the statements and
proofs.) -/
def Path.Outside (p : Path) : Prop := (∃ f, p = .ext f) ∨ ∃ r d, p = .stage r d

/-- `t` is `s` but for the bytes of those outside files that satisfy `L`; the other version of a file reads as the same
package, unless it is no package at all. (No code: a notion of the statements and proofs.) -/
structure Twin (E : Env) (L : Path → Prop) (s t : St) : Prop where
  db : s.db = t.db
  cache : s.cache = t.cache
  pend : s.pend = t.pend
  clock : s.clock = t.clock
  tab : s.fs.tab = t.fs.tab
  next : s.fs.next = t.fs.next
  rdir : s.fs.rdir = t.fs.rdir
  idx : s.fs.idx = t.fs.idx
  data : ∀ i, s.fs.data i = t.fs.data i ∨ ((∀ p, s.fs.tab p = some i → p.Outside ∧ L p) ∧
    (E.parse (s.fs.data i) = E.parse (t.fs.data i) ∨ E.parse (s.fs.data i) = .bad))

variable {E : Env} {L : Path → Prop} {s t : St}

theorem Twin.refl (s : St) : Twin E L s s := ⟨rfl, rfl, rfl, rfl, rfl, rfl, rfl, rfl, fun _ => .inl rfl⟩

theorem Twin.inode (h : Twin E L s t) {p : Path} (hp : ¬ (p.Outside ∧ L p)) {i : Nat} (hi : s.fs.tab p = some i) :
    s.fs.data i = t.fs.data i := by
  rcases h.data i with h | ⟨h, _⟩
  · exact h
  · exact absurd (h p hi) hp

theorem Twin.read (h : Twin E L s t) {p : Path} (hp : ¬ (p.Outside ∧ L p)) : s.fs.read p = t.fs.read p := by
  unfold FS.read
  rw [← h.tab]
  cases hi : s.fs.tab p with
  | none => rfl
  | some i => simp only [Option.map_some]; rw [h.inode hp hi]

theorem Twin.has (h : Twin E L s t) : s.has = t.has := St.has_congr h.db
theorem Twin.hasDelta (h : Twin E L s t) (r d : Str) : s.hasDelta r d = t.hasDelta r d := by
  unfold St.hasDelta; rw [h.db]

/-- The same file-system table and database written on both sides. -/
theorem Twin.setDb (h : Twin E L s t) (d : DB) : Twin E L { s with db := d } { t with db := d } :=
  ⟨rfl, h.cache, h.pend, h.clock, h.tab, h.next, h.rdir, h.idx, h.data⟩

theorem Twin.setTab (h : Twin E L s t) {p : Path} (i : Option Nat)
    (hi : ∀ j, i = some j → s.fs.data j = t.fs.data j) :
    Twin E L (s.setFs (s.fs.setTab p i)) (t.setFs (t.fs.setTab p i)) where
  db := h.db
  cache := h.cache
  pend := h.pend
  clock := h.clock
  tab := by funext q; simp [h.tab]
  next := h.next
  rdir := h.rdir
  idx := h.idx
  data j := by
    simp only [St.setFs_fs, FS.setTab_data, FS.setTab_tab]
    by_cases e : i = some j
    · exact .inl (hi j e)
    · rcases h.data j with h' | ⟨h1, h2⟩
      · exact .inl h'
      · refine .inr ⟨?_, h2⟩
        intro q hq
        split at hq
        · exact absurd hq e
        · exact h1 q hq

theorem Twin.setData (h : Twin E L s t) (i : Nat) (c : Content) :
    Twin E L (s.setFs (s.fs.setData i c)) (t.setFs (t.fs.setData i c)) where
  db := h.db
  cache := h.cache
  pend := h.pend
  clock := h.clock
  tab := h.tab
  next := h.next
  rdir := h.rdir
  idx := h.idx
  data j := by
    simp only [St.setFs_fs, FS.setData_data, FS.setData_tab]
    by_cases e : j = i
    · left; rw [if_pos e, if_pos e]
    · rw [if_neg e, if_neg e]; exact h.data j

theorem Twin.setNext (h : Twin E L s t) (n : Nat) :
    Twin E L (s.setFs { s.fs with next := n }) (t.setFs { t.fs with next := n }) :=
  ⟨h.db, h.cache, h.pend, h.clock, h.tab, rfl, h.rdir, h.idx, h.data⟩

theorem Twin.openTrunc (h : Twin E L s t) (p : Path) :
    (s.fs.openTrunc p).2 = (t.fs.openTrunc p).2 ∧
    Twin E L (s.setFs (s.fs.openTrunc p).1) (t.setFs (t.fs.openTrunc p).1) := by
  unfold FS.openTrunc
  rw [← h.tab, ← h.next]
  cases hp : s.fs.tab p with
  | some j => exact ⟨rfl, h.setData j []⟩
  | none =>
    refine ⟨rfl, ?_⟩
    have h1 := h.setData s.fs.next []
    have h2 := h1.setTab (p := p) (some s.fs.next) (by intro j hj; cases hj; simp)
    exact h2.setNext (s.fs.next + 1)

/-! ## Running the same code on twins -/

/-- Two runs end alike, in twin states. (No code: a notion of the statements and proofs.) -/
structure Par (E : Env) (L : Path → Prop) {α : Type} (m : M α) (s t : St) : Prop where
  res : (m s).res = (m t).res
  st : Twin E L (m s).st (m t).st

theorem Par.bind {α β : Type} {m : M α} {f : α → M β} (h : Par E L m s t)
    (hf : ∀ a s' t', (m s).res = .ok a → (m t).res = .ok a → Twin E L s' t' → Par E L (f a) s' t') :
    Par E L (m >>= f) s t := by
  have h1 := h.res
  have h2 := h.st
  constructor
  · rw [bind_def, bind_def]
    rcases hm : (m s).res with a | e | _
    · have hm' := hm; rw [h1] at hm'; rw [hm']; exact (hf a _ _ hm hm' h2).res
    · have hm' := hm; rw [h1] at hm'; rw [hm']
    · have hm' := hm; rw [h1] at hm'; rw [hm']
  · rw [bind_def, bind_def]
    rcases hm : (m s).res with a | e | _
    · have hm' := hm; rw [h1] at hm'; rw [hm']; exact (hf a _ _ hm hm' h2).st
    · have hm' := hm; rw [h1] at hm'; rw [hm']; exact h2
    · have hm' := hm; rw [h1] at hm'; rw [hm']; exact h2

theorem Par.seq {α β : Type} {m : M α} {f : α → M β} (h : Par E L m s t)
    (hf : ∀ a s' t', Twin E L s' t' → Par E L (f a) s' t') : Par E L (m >>= f) s t :=
  h.bind fun a s' t' _ _ ht => hf a s' t' ht

theorem Par.pure {α : Type} (h : Twin E L s t) (a : α) : Par E L (Pure.pure a : M α) s t := ⟨rfl, h⟩
theorem Par.throw {α : Type} (h : Twin E L s t) (e : Err) : Par E L (throwE e : M α) s t := ⟨rfl, h⟩
theorem Par.panic {α : Type} (h : Twin E L s t) : Par E L (panicM : M α) s t := ⟨rfl, h⟩
theorem Par.step {g : St → St} (h : Twin E L (g s) (g t)) : Par E L (stepM g) s t := ⟨rfl, h⟩
theorem Par.vol {g : St → St} (h : Twin E L (g s) (g t)) : Par E L (volM g) s t := ⟨rfl, h⟩

theorem Par.read {α : Type} {f : St → M α} (h : Par E L (f s) s t) (he : (f s) t = (f t) t) :
    Par E L (getSt >>= f) s t := by
  constructor
  · rw [getSt_bind, getSt_bind, ← he]; exact h.res
  · rw [getSt_bind, getSt_bind, ← he]; exact h.st

theorem Par.forL {α : Type} {l : List α} {f : α → M Unit}
    (hf : ∀ a ∈ l, ∀ s' t', Twin E L s' t' → Par E L (f a) s' t') (h : Twin E L s t) : Par E L (forL l f) s t := by
  induction l generalizing s t with
  | nil => exact .pure h ()
  | cons x xs ih =>
    rw [forL_cons]
    exact (hf x (by simp) s t h).seq fun _ s' t' h' => ih (fun a ha => hf a (by simp [ha])) h'

theorem Par.collectL {α β : Type} {l : List α} {f : α → M (List β)}
    (hf : ∀ a ∈ l, ∀ s' t', Twin E L s' t' → Par E L (f a) s' t') (h : Twin E L s t) : Par E L (collectL l f) s t := by
  induction l generalizing s t with
  | nil => exact .pure h []
  | cons x xs ih =>
    exact (hf x (by simp) s t h).seq fun _ s' t' h' =>
      (ih (fun a ha => hf a (by simp [ha])) h').seq fun _ s' t' h' => .pure h' _

theorem Par.foldL {α β : Type} {l : List α} {f : β → α → M β} {b : β}
    (hf : ∀ b a, ∀ s' t', Twin E L s' t' → Par E L (f b a) s' t') (h : Twin E L s t) : Par E L (foldL l b f) s t := by
  induction l generalizing s t b with
  | nil => exact .pure h b
  | cons x xs ih => exact (hf b x s t h).seq fun _ s' t' h' => ih h'

/-! ### Database -/

theorem same_getRelease (h : Twin E L s t) (m : Meta) : Par E L (getRelease m) s t := by
  unfold getRelease; split
  · exact .panic h
  · exact .pure h _

theorem same_pathComp (h : Twin E L s t) (m : Meta) : Par E L (pathComp m) s t := by
  unfold pathComp; split
  · exact .panic h
  · exact .pure h _

theorem same_poolGet? (h : Twin E L s t) (id : Str) : Par E L (poolGet? id) s t := by
  unfold poolGet?
  exact .read (.pure h _) (by rw [h.db])

theorem same_poolGet (h : Twin E L s t) (id : Str) : Par E L (poolGet id) s t := by
  unfold poolGet
  refine (same_poolGet? h id).seq fun a s' t' h' => ?_
  cases a
  · exact .throw h' _
  · exact .pure h' _

theorem same_repoGet? (h : Twin E L s t) (r n : Str) : Par E L (repoGet? r n) s t := by
  unfold repoGet?
  exact .read (.pure h _) (by rw [h.db])

theorem same_repoGet (h : Twin E L s t) (r n : Str) : Par E L (repoGet r n) s t := by
  unfold repoGet
  refine (same_repoGet? h r n).seq fun a s' t' h' => ?_
  cases a
  · exact .throw h' _
  · exact .pure h' _

theorem same_repoEntries (h : Twin E L s t) (r : Str) : Par E L (repoEntries r) s t := by
  unfold repoEntries
  exact .read (.pure h _) (by rw [h.db])

theorem same_dbWrite (h : Twin E L s t) (k : Handle) (w : DbWrite) : Par E L (dbWrite k w) s t := by
  unfold dbWrite
  split
  · exact .throw h _
  · cases k
    · refine .step ?_
      rw [h.db]
      have := h.setDb (w.apply t.db)
      exact this
    · refine .vol ?_
      exact ⟨h.db, h.cache, by show s.pend ++ [w] = t.pend ++ [w]; rw [h.pend], h.clock, h.tab, h.next, h.rdir, h.idx,
        h.data⟩

theorem same_repoPut (h : Twin E L s t) (r : Str) (e : RepoEntry) : Par E L (repoPut r e) s t := same_dbWrite h _ _

theorem same_dbUpdate (h : Twin E L s t) {body : M Unit}
    (hb : ∀ s' t', Twin E L s' t' → Par E L body s' t') : Par E L (dbUpdate body) s t := by
  have h0 : Twin E L { s with pend := [] } { t with pend := [] } :=
    ⟨h.db, h.cache, rfl, h.clock, h.tab, h.next, h.rdir, h.idx, h.data⟩
  obtain ⟨h1, h2⟩ := hb _ _ h0
  unfold dbUpdate
  constructor
  · simp only
    rcases hm : (body { s with pend := [] }).res with a | e | _ <;> (have hm' := hm; rw [h1] at hm'; rw [hm'])
  · simp only
    rcases hm : (body { s with pend := [] }).res with a | e | _
    · have hm' := hm; rw [h1] at hm'; rw [hm']
      refine ⟨?_, h2.cache, rfl, h2.clock, h2.tab, h2.next, h2.rdir, h2.idx, h2.data⟩
      simp only; rw [h2.pend, h2.db]
    · have hm' := hm; rw [h1] at hm'; rw [hm']
      exact ⟨h2.db, h2.cache, rfl, h2.clock, h2.tab, h2.next, h2.rdir, h2.idx, h2.data⟩
    · have hm' := hm; rw [h1] at hm'; rw [hm']
      exact ⟨h2.db, h2.cache, rfl, h2.clock, h2.tab, h2.next, h2.rdir, h2.idx, h2.data⟩

/-! ### Files -/

theorem same_removeFile (h : Twin E L s t) (p : Path) : Par E L (removeFile p) s t :=
  .step (h.setTab none (by simp))

theorem same_copyFile (h : Twin E L s t) {a b : Path} (ha : s.fs.read a = t.fs.read a)
    : Par E L (copyFile a b) s t := by
  unfold copyFile
  constructor
  · rw [getSt_bind, getSt_bind, ← h.tab]
    cases s.fs.tab a <;> rfl
  · rw [getSt_bind, getSt_bind, ← h.tab]
    cases hi : s.fs.tab a with
    | none => exact h
    | some i =>
      obtain ⟨e, h1⟩ := h.openTrunc b
      have hd : s.fs.data i = t.fs.data i := by
        unfold FS.read at ha; rw [← h.tab, hi] at ha; simpa using ha
      have hd1 : (s.fs.openTrunc b).1.data i = (t.fs.openTrunc b).1.data i := by
        unfold FS.openTrunc
        rw [← h.tab, ← h.next]
        cases s.fs.tab b with
        | some j => simp only [FS.setData_data]; rw [hd]
        | none => simp only [FS.setData_data, FS.setTab_data]; rw [hd]
      have h2 := h1.setData (s.fs.openTrunc b).2 ((s.fs.openTrunc b).1.data i)
      simp only [stepM_bind, stepM_run, St.setFs_fs, St.setFs_setFs] at h2 ⊢
      rw [← e, ← hd1]
      exact h2

theorem same_linkOrCopy (h : Twin E L s t) {a b : Path} (ha : s.fs.read a = t.fs.read a) (f : Bool) :
    Par E L (linkOrCopy E a b f) s t := by
  unfold linkOrCopy
  cases f with
  | true => simpa using same_copyFile h ha
  | false =>
    simp only [Bool.false_eq_true, if_false]
    refine .read ?_ (by rw [h.tab])
    cases hi : s.fs.tab a with
    | none => exact same_copyFile h ha
    | some i =>
      cases hj : s.fs.tab b with
      | some j => exact same_copyFile h ha
      | none =>
        simp only
        split
        · refine .step (h.setTab _ ?_)
          intro j e; cases e
          unfold FS.read at ha; rw [← h.tab, hi] at ha; simpa using ha
        · exact same_copyFile h ha

theorem same_fileSha1 (h : Twin E L s t) {a : Path} (ha : s.fs.read a = t.fs.read a) : Par E L (fileSha1 E a) s t := by
  unfold fileSha1
  refine .read ?_ (by rw [ha])
  cases s.fs.read a with
  | none => exact .throw h _
  | some c =>
    simp only
    split
    · exact .throw h _
    · exact .pure h _

theorem same_openPkg (h : Twin E L s t) {a : Path} (ha : (s.fs.read a).map E.parse = (t.fs.read a).map E.parse) :
    Par E L (openPkg E a) s t := by
  unfold openPkg
  constructor
  · rw [getSt_bind, getSt_bind]
    cases h1 : s.fs.read a <;> cases h2 : t.fs.read a <;> rw [h1, h2] at ha <;> simp at ha ⊢
    rw [ha]; cases E.parse _ <;> rfl
  · rw [getSt_bind, getSt_bind]
    cases h1 : s.fs.read a <;> cases h2 : t.fs.read a <;> rw [h1, h2] at ha <;> simp at ha ⊢
    · exact h
    · rw [ha]; cases E.parse _ <;> exact h

/-- Neither the pool nor a repository nor an asset is an outside file. -/
theorem not_loose_pool (c id : Str) : ¬ ((Path.pool c id).Outside ∧ L (Path.pool c id)) := by
  rintro ⟨⟨f, hf⟩ | ⟨r, d, hf⟩, _⟩ <;> cases hf
theorem not_loose_repo (r c id : Str) : ¬ ((Path.repo r c id).Outside ∧ L (Path.repo r c id)) := by
  rintro ⟨⟨f, hf⟩ | ⟨r, d, hf⟩, _⟩ <;> cases hf
theorem not_loose_asset (r : Str) (a : Asset) : ¬ ((Path.asset r a).Outside ∧ L (Path.asset r a)) := by
  rintro ⟨⟨f, hf⟩ | ⟨r, d, hf⟩, _⟩ <;> cases hf

/-! ### Pool and repositories -/

theorem same_refEntry (h : Twin E L s t) (id : Str) : Par E L (refEntry id) s t := by
  unfold refEntry
  exact (same_poolGet h id).seq fun _ _ _ h' => same_dbWrite h' _ _

theorem same_unrefEntry (h : Twin E L s t) (k : Handle) (id : Str) : Par E L (unrefEntry k id) s t := by
  unfold unrefEntry
  refine (same_poolGet h id).seq fun e _ _ h' => ?_
  split
  · exact same_dbWrite h' _ _
  · exact (same_pathComp h' _).seq fun _ _ _ h' => (same_removeFile h' _).seq fun _ _ _ h' => same_dbWrite h' _ _

theorem same_markDeltaFailed (h : Twin E L s t) (id : Str) (d : DeltaInfo) : Par E L (markDeltaFailed id d) s t := by
  unfold markDeltaFailed
  refine .read ?_ (by rw [h.db])
  split
  · exact .pure h _
  · exact same_dbWrite h _ _

theorem same_bakeRepo (h : Twin E L s t) (r : Str) : Par E L (bakeRepo r) s t := by
  refine .step ?_
  exact ⟨h.db, h.cache, h.pend, h.clock, h.tab, h.next, by simp [h.rdir], h.idx, h.data⟩

theorem same_addCache (h : Twin E L s t) (r : Str) : Par E L (volM fun s => { s with cache := r :: s.cache }) s t :=
  .vol ⟨h.db, by simp [h.cache], h.pend, h.clock, h.tab, h.next, h.rdir, h.idx, h.data⟩

theorem same_getRepo (h : Twin E L s t) (r : Str) : Par E L (getRepo r) s t := by
  unfold getRepo
  refine .read ?_ (by rw [h.db, h.cache])
  split
  · exact .pure h _
  · split
    · exact .throw h _
    · exact (same_bakeRepo h r).seq fun _ _ _ h' => same_addCache h' r

theorem same_createRepo (h : Twin E L s t) (r : Str) : Par E L (createRepo r) s t := by
  unfold createRepo
  refine .read ?_ (by rw [(same_getRepo h r).res, h.rdir])
  split
  · exact (same_getRepo h r).seq fun _ _ _ h' => .throw h' _
  · split
    · exact .throw h _
    · exact (same_dbWrite h _ _).seq fun _ _ _ h' => (same_bakeRepo h' r).seq fun _ _ _ h' => same_addCache h' r

theorem same_removePackageInternal (h : Twin E L s t) (k : Handle) (r id : Str) :
    Par E L (removePackageInternal k r id) s t := by
  unfold removePackageInternal
  refine (same_poolGet? h id).seq fun e _ _ h' => ?_
  cases e with
  | none => exact .pure h' _
  | some e =>
    exact (same_pathComp h' _).seq fun _ _ _ h' => (same_removeFile h' _).seq fun _ _ _ h' => same_unrefEntry h' _ _

theorem same_refDelta (h : Twin E L s t) (r id : Str) : Par E L (refDelta E r id) s t := by
  unfold refDelta
  refine (same_poolGet h id).seq fun pe _ _ h' => (same_repoGet h' _ _).seq fun e _ _ h' =>
    (same_pathComp h' _).seq fun c _ _ h' => ?_
  split
  · exact .pure h' _
  · exact (same_refEntry h' _).seq fun _ _ _ h' => (same_linkOrCopy h' (h'.read (not_loose_pool _ _)) _).seq
      fun _ _ _ h' => same_repoPut h' _ _

/-- What is read alike on both sides need not count as different. -/
theorem Twin.narrow (h : Twin E L s t) {p : Path} (hp : s.fs.read p = t.fs.read p) :
    Twin E (fun q => L q ∧ q ≠ p) s t :=
  { h with
    data := fun i => by
      rcases h.data i with h' | ⟨h1, h2⟩
      · exact .inl h'
      · by_cases e : s.fs.tab p = some i
        · left
          unfold FS.read at hp; rw [← h.tab, e] at hp; simpa using hp
        · refine .inr ⟨fun q hq => ⟨(h1 q hq).1, (h1 q hq).2, ?_⟩, h2⟩
          rintro rfl; exact e hq }

theorem Twin.widen {L' : Path → Prop} (h : Twin E L s t) (hl : ∀ p, L p → L' p) : Twin E L' s t :=
  { h with
    data := fun i => by
      rcases h.data i with h' | ⟨h1, h2⟩
      · exact .inl h'
      · exact .inr ⟨fun q hq => ⟨(h1 q hq).1, hl q (h1 q hq).2⟩, h2⟩ }

theorem Par.widen {α : Type} {m : M α} {L' : Path → Prop} (h : Par E L m s t) (hl : ∀ p, L p → L' p) : Par E L' m s t :=
  ⟨h.res, h.st.widen hl⟩

/-- Taking in a package whose file reads alike on both sides. -/
theorem same_poolAddNew (h : Twin E L s t) (p : Pkg) (hp : ¬ (p.path.Outside ∧ L p.path)) (b : Bool)
    (d : Option DeltaInfo) : Par E L (poolAddInternal E p b d) s t := by
  unfold poolAddInternal
  refine (same_poolGet? h _).seq fun o s1 t1 h => ?_
  cases o with
  | some e => exact (same_dbWrite h _ _).seq fun _ _ _ h => .pure h _
  | none =>
    refine .read ?_ (by rw [h.read hp])
    cases hc : s1.fs.read p.path with
    | none => exact .throw h _
    | some c =>
      refine (same_pathComp h _).seq fun comp _ _ h => (same_linkOrCopy h (h.read hp) b).seq fun _ _ _ h =>
        (same_fileSha1 h (h.read hp)).seq fun sha _ _ h => ?_
      split
      · exact (same_removeFile h _).seq fun _ _ _ h => .throw h _
      · exact (same_dbWrite h _ _).seq fun _ _ _ h => .pure h _

/-- Taking in a package the pool has: its file is not looked at. -/
theorem same_poolAddOld (h : Twin E L s t) (p : Pkg) {e : PoolEntry} (hg : s.db.pool.get p.id = some e) (b : Bool)
    (d : Option DeltaInfo) : Par E L (poolAddInternal E p b d) s t := by
  unfold poolAddInternal
  refine (same_poolGet? h _).bind fun o s1 t1 hs _ h => ?_
  rw [poolGet?_run] at hs
  obtain rfl : some e = o := by simpa [hg] using hs
  exact (same_dbWrite h _ _).seq fun _ _ _ h => .pure h _

theorem same_poolAddDelta (h : Twin E L s t) (p : Pkg) (hp : ¬ (p.path.Outside ∧ L p.path)) (a b : Str) (c : Bool) :
    Par E L (poolAddDelta E p a b c) s t := by
  unfold poolAddDelta
  refine (same_poolGet? h _).seq fun o s1 t1 h => ?_
  cases o with
  | some e => exact (same_dbWrite h _ _).seq fun _ _ _ h => .pure h _
  | none =>
    exact (same_poolGet h _).seq fun _ _ _ h => (same_poolGet h _).seq fun _ _ _ h =>
      (same_getRelease h _).seq fun _ _ _ h => (same_getRelease h _).seq fun _ _ _ h => same_poolAddNew h p hp _ _

theorem openPkg_path {E : Env} {f : Path} {s : St} {p : Pkg} (h : (openPkg E f s).res = .ok p) :
    p.path = f ∧ p.id = f.base := by
  unfold openPkg at h
  rw [getSt_bind] at h
  cases hr : s.fs.read f with
  | none => rw [hr] at h; cases h
  | some c =>
    rw [hr] at h
    simp only at h
    cases hp : E.parse c with
    | bad => rw [hp] at h; cases h
    | crash => rw [hp] at h; cases h
    | good m => rw [hp] at h; cases h; exact ⟨rfl, rfl⟩

theorem same_addDelta (h : Twin E L s t) (r : Str) {f : Path} (hf : ¬ (f.Outside ∧ L f)) (a b : Str) :
    Par E L (addDelta E r f a b) s t := by
  unfold addDelta
  refine (same_openPkg h (by rw [h.read hf])).bind fun p _ _ hs _ h => ?_
  obtain ⟨e1, -⟩ := openPkg_path hs
  refine (same_repoGet h _ _).seq fun e _ _ h => (same_pathComp h _).seq fun c _ _ h => ?_
  split
  · exact .pure h _
  · exact (same_poolAddDelta h p (by rw [e1]; exact hf) a b false).seq fun _ _ _ h =>
      (same_linkOrCopy h (h.read (not_loose_pool _ _)) _).seq fun _ _ _ h => same_repoPut h _ _

theorem same_unrefDeltas (h : Twin E L s t) (r id : Str) (ds : List Str) : Par E L (unrefDeltas r id ds) s t := by
  unfold unrefDeltas
  refine .collectL (fun d _ _ _ h => ?_) h
  refine (same_poolGet h _).seq fun pd _ _ h => ?_
  split
  · exact .panic h
  · split
    · exact (same_removePackageInternal h _ _ _).seq fun _ _ _ h => .pure h _
    · exact .pure h _

theorem same_unrefAvail (h : Twin E L s t) (id : Str) (av : List Str) : Par E L (unrefAvail id av) s t := by
  unfold unrefAvail
  refine .foldL (fun acc d _ _ h => ?_) h
  split
  · exact .pure h _
  · refine (same_poolGet h _).seq fun pe _ _ h => (same_getRelease h _).seq fun rel _ _ h => ?_
    split <;> exact .pure h _

theorem same_unrefPackage (h : Twin E L s t) (r id : Str) : Par E L (unrefPackage r id) s t := by
  unfold unrefPackage
  refine (same_poolGet h _).seq fun pe _ _ h => (same_repoGet h _ _).seq fun e _ _ h =>
    (same_removePackageInternal h _ _ _).seq fun _ _ _ h => (same_unrefDeltas h _ _ _).seq fun ds _ _ h =>
    (same_unrefAvail h _ _).seq fun acc _ _ h => ?_
  split
  · exact same_dbWrite h _ _
  · exact same_repoPut h _ _

theorem same_buildSaneEntry (h : Twin E L s t) (r : Str) (m : Meta) (id : Str) :
    Par E L (buildSaneEntry r m id) s t := by
  unfold buildSaneEntry
  refine (same_repoGet? h _ _).seq fun o _ _ h => ?_
  cases o with
  | none => exact .pure h _
  | some e =>
    refine Par.seq ?_ fun pub _ _ h => ?_
    · refine (same_poolGet? h _).seq fun o _ _ h => ?_
      cases o with
      | none => exact .pure h _
      | some pa =>
        refine (same_getRelease h _).seq fun nr _ _ h => (same_getRelease h _).seq fun pr _ _ h => ?_
        split <;> exact .pure h _
    · split <;> exact .pure h _

theorem same_refPackage (h : Twin E L s t) (r id : Str) : Par E L (refPackage E r id) s t := by
  unfold refPackage
  refine (same_poolGet h _).seq fun pe _ _ h => (same_pathComp h _).seq fun c _ _ h =>
    (same_buildSaneEntry h _ _ _).seq fun o _ _ h => ?_
  cases o with
  | none => exact .pure h _
  | some ne =>
    exact (same_refEntry h _).seq fun _ _ _ h => (same_linkOrCopy h (h.read (not_loose_pool _ _)) _).seq
      fun _ _ _ h => same_repoPut h _ _

/-- `AddLocalPackage` of a file that reads alike on both sides. -/
theorem same_addLocalNew (h : Twin E L s t) (r : Str) (p : Pkg) (hp : ¬ (p.path.Outside ∧ L p.path)) :
    Par E L (addLocalPackage E r p) s t := by
  unfold addLocalPackage
  refine (same_pathComp h _).seq fun c _ _ h => (same_buildSaneEntry h _ _ _).seq fun o _ _ h => ?_
  cases o with
  | none => exact .pure h _
  | some ne =>
    exact (same_poolAddNew h p hp _ _).seq fun _ _ _ h => (same_linkOrCopy h (h.read (not_loose_pool _ _)) _).seq
      fun _ _ _ h => same_repoPut h _ _

/-- After code that changes nothing the states are the ones at the start. -/
theorem Par.after {α β : Type} {m : M α} {f : α → M β} (hr : Reads m) (h : Par E L m s t)
    (hf : ∀ a, (m s).res = .ok a → Par E L (f a) s t) : Par E L (m >>= f) s t := by
  have h1 := h.res
  constructor
  · rw [bind_def, bind_def]
    rcases hm : (m s).res with a | e | _
    · have hm' := hm; rw [h1] at hm'; rw [hm', hr.st, hr.st]; exact (hf a hm).res
    · have hm' := hm; rw [h1] at hm'; rw [hm']
    · have hm' := hm; rw [h1] at hm'; rw [hm']
  · rw [bind_def, bind_def]
    rcases hm : (m s).res with a | e | _
    · have hm' := hm; rw [h1] at hm'; rw [hm', hr.st, hr.st]; exact (hf a hm).st
    · have hm' := hm; rw [h1] at hm'; rw [hm']; exact h.st
    · have hm' := hm; rw [h1] at hm'; rw [hm']; exact h.st

/-- `AddLocalPackage` of a package the pool has. -/
theorem same_addLocalOld (h : Twin E L s t) (r : Str) (p : Pkg) {e : PoolEntry} (hg : s.db.pool.get p.id = some e) :
    Par E L (addLocalPackage E r p) s t := by
  unfold addLocalPackage
  refine .after (pathComp_reads _) (same_pathComp h _) fun c _ =>
    .after (buildSaneEntry_reads _ _ _) (same_buildSaneEntry h _ _ _) fun o _ => ?_
  cases o with
  | none => exact .pure h _
  | some ne =>
    exact (same_poolAddOld h p hg _ _).seq fun _ _ _ h => (same_linkOrCopy h (h.read (not_loose_pool _ _)) _).seq
      fun _ _ _ h => same_repoPut h _ _

/-- `AddPackage` of a file that reads as the same package on both sides, and has the same bytes if the pool lacks it. -/
theorem same_addPackage (h : Twin E L s t) (r f : Str) (strict : Bool)
    (hp : (s.fs.read (.ext f)).map E.parse = (t.fs.read (.ext f)).map E.parse)
    (hn : s.db.pool.get (baseName f) = none → s.fs.read (.ext f) = t.fs.read (.ext f)) :
    Par E L (addPackage E r (.ext f) strict) s t := by
  unfold addPackage
  refine .after (openPkg_reads _ _) (same_openPkg h hp) fun p hs => ?_
  obtain ⟨e1, e2⟩ := openPkg_path hs
  have key : Par E L (addLocalPackage E r p) s t := by
    cases hg : s.db.pool.get (baseName f) with
    | some e => exact same_addLocalOld h r p (e := e) (by rw [e2]; exact hg)
    | none =>
      refine (same_addLocalNew (h.narrow (hn hg)) r p ?_).widen fun _ h => h.1
      rw [e1]; exact fun x => x.2.2 rfl
  split
  · exact key
  · refine .after (repoGet?_reads _ _) (same_repoGet? h _ _) fun o _ => ?_
    cases o with
    | none => exact key
    | some l =>
      refine .after (poolGet_reads _) (same_poolGet h _) fun pub _ =>
        .after (getRelease_reads _) (same_getRelease h _) fun pr _ =>
        .after (getRelease_reads _) (same_getRelease h _) fun nr _ => ?_
      split
      · exact .throw h _
      · split
        · exact .throw h _
        · exact key

theorem same_pullAsset (h : Twin E L s t) (dst src : Str) (a : Asset) : Par E L (pullAsset dst src a) s t := by
  unfold pullAsset
  refine .read ?_ (by rw [h.tab])
  split
  · exact .pure h _
  · exact same_copyFile h (h.read (not_loose_asset _ _))

theorem same_pullAssets (h : Twin E L s t) (dst src : Str) : Par E L (pullAssets dst src) s t :=
  (same_pullAsset h _ _ _).seq fun _ _ _ h => (same_pullAsset h _ _ _).seq fun _ _ _ h => same_pullAsset h _ _ _

theorem same_cloneFrom (h : Twin E L s t) (dst src : Str) (full : Bool) : Par E L (cloneFrom E dst src full) s t :=
  (same_pullAssets h _ _).seq fun _ _ _ h => (same_repoEntries h _).seq fun es _ _ h =>
    (Par.forL (fun _ _ _ _ h => same_refPackage h _ _) h).seq fun _ _ _ h =>
    Par.forL (fun _ _ _ _ h => same_refDelta h _ _) h

theorem same_pullOne (h : Twin E L s t) (dst : Str) (e : RepoEntry) : Par E L (pullOne dst e) s t := by
  unfold pullOne
  refine (same_repoGet? h _ _).seq fun o _ _ h => ?_
  cases o with
  | none => exact .pure h _
  | some l =>
    refine (same_poolGet h _).seq fun _ _ _ h => (same_poolGet h _).seq fun _ _ _ h =>
      (same_getRelease h _).seq fun _ _ _ h => (same_getRelease h _).seq fun _ _ _ h => ?_
    split
    · exact .throw h _
    · split <;> exact .pure h _

theorem same_pullFrom (h : Twin E L s t) (dst src : Str) : Par E L (pullFrom E dst src) s t :=
  (same_pullAssets h _ _).seq fun _ _ _ h => (same_repoEntries h _).seq fun es _ _ h =>
    (Par.collectL (fun _ _ _ _ h => same_pullOne h _ _) h).seq fun todo _ _ h =>
    (Par.forL (fun _ _ _ _ h => same_refPackage h _ _) h).seq fun _ _ _ h => .pure h _

theorem same_matchingSource (h : Twin E L s t) (r source : Str) (k : Int) :
    Par E L (matchingSource r source k) s t := by
  refine (same_repoEntries h _).seq fun es _ _ h => .collectL (fun e _ _ _ h => .collectL (fun id _ _ _ h => ?_) h) h
  refine (same_poolGet h _).seq fun pe _ _ h => ?_
  split
  · exact .pure h _
  · split
    · refine (same_getRelease h _).seq fun _ _ _ h => ?_
      split <;> exact .pure h _
    · exact .pure h _

theorem same_removeSource (h : Twin E L s t) (r source : Str) (k : Int) : Par E L (removeSource r source k) s t := by
  refine (same_matchingSource h _ _ _).seq fun ids _ _ h => ?_
  split
  · exact .throw h _
  · exact .forL (fun _ _ _ _ h => same_unrefPackage h _ _) h

theorem same_copySourceFrom (h : Twin E L s t) (dst src source : Str) (k : Int) :
    Par E L (copySourceFrom E dst src source k) s t := by
  refine (same_matchingSource h _ _ _).seq fun ids _ _ h => ?_
  split
  · exact .throw h _
  · exact .forL (fun _ _ _ _ h => same_refPackage h _ _) h

theorem same_initDistribution (h : Twin E L s t) (r : Str) : Par E L (initDistribution E r) s t := by
  unfold initDistribution
  refine .read ?_ (by rw [h.read (not_loose_asset _ _)])
  split
  · exact .pure h _
  · split
    · exact .throw h _
    · exact .pure h _

theorem same_trimObsoleteScan (obs : List Str) (n : Str) (ids : List Str) :
    ∀ {s t : St}, Twin E L s t → Par E L (trimObsoleteScan obs n ids) s t := by
  induction ids with
  | nil => intro s t h; exact .pure h _
  | cons x xs ih =>
    intro s t h
    unfold trimObsoleteScan
    refine (same_poolGet h _).seq fun pe _ _ h => ?_
    split
    · split <;> exact .pure h _
    · exact ih h

theorem same_trimObsolete (h : Twin E L s t) (r : Str) : Par E L (trimObsolete E r) s t := by
  unfold trimObsolete
  refine (same_initDistribution h _).seq fun o _ _ h => ?_
  cases o with
  | none => exact .throw h _
  | some obs =>
    exact (same_repoEntries h _).seq fun es _ _ h =>
      (Par.collectL (fun _ _ _ _ h => same_trimObsoleteScan _ _ _ h) h).seq fun ids _ _ h =>
      .forL (fun _ _ _ _ h => same_unrefPackage h _ _) h

theorem same_trimScan (h : Twin E L s t) (k : Nat) (e : RepoEntry) : Par E L (trimScan E k e) s t := by
  unfold trimScan
  split
  · exact .pure h _
  · refine Par.seq (.collectL (fun id _ _ _ h => ?_) h) fun _ _ _ h => .pure h _
    refine (same_poolGet h _).seq fun pe _ _ h => Par.seq ?_ fun _ _ _ h => .pure h _
    split
    · exact same_getRelease h _
    · exact .pure h _

theorem same_trimPackages (h : Twin E L s t) (r : Str) (k : Int) : Par E L (trimPackages E r k) s t := by
  unfold trimPackages
  split
  · exact .throw h _
  · exact (same_repoEntries h _).seq fun es _ _ h =>
      (Par.collectL (fun _ _ _ _ h => same_trimScan h _ _) h).seq fun ids _ _ h =>
      .forL (fun _ _ _ _ h => same_unrefPackage h _ _) h

/-- Files and directories removed alike. -/
theorem Twin.drop (h : Twin E L s t) {tab : Path → Option Nat} {rd : Str → Bool} {ix : Str → Option Doc}
    (ht : ∀ p i, tab p = some i → s.fs.tab p = some i) :
    Twin E L (s.setFs { s.fs with tab := tab, rdir := rd, idx := ix })
      (t.setFs { t.fs with tab := tab, rdir := rd, idx := ix }) :=
  ⟨h.db, h.cache, h.pend, h.clock, rfl, h.next, rfl, rfl, fun i => by
    rcases h.data i with h' | ⟨h1, h2⟩
    · exact .inl h'
    · exact .inr ⟨fun p hp => h1 p (ht p i hp), h2⟩⟩

theorem same_rmRepoTree (h : Twin E L s t) (r : Str) : Par E L (rmRepoTree r) s t := by
  refine .step ?_
  rw [← h.tab, ← h.rdir, ← h.idx]
  refine h.drop fun p i hp => ?_
  cases p <;> first | exact hp | (simp only at hp; split at hp; cases hp; exact hp)

theorem same_rmRepoAux (h : Twin E L s t) (r : Str) : Par E L (rmRepoAux r) s t := by
  refine .step ?_
  rw [← h.tab]
  have := h.drop (tab := fun p => match p with
      | .asset r' _ => if r' = r then none else s.fs.tab p
      | .stage r' _ => if r' = r then none else s.fs.tab p
      | _ => s.fs.tab p) (rd := s.fs.rdir) (ix := s.fs.idx) (fun p i hp => by
    cases p <;> first | exact hp | (simp only at hp; split at hp; cases hp; exact hp))
  exact ⟨this.db, this.cache, this.pend, this.clock, this.tab, this.next, h.rdir, h.idx, this.data⟩

theorem same_deleteRepoBody (h : Twin E L s t) (r : Str) : Par E L (deleteRepoBody r) s t :=
  (same_repoEntries h _).seq fun es _ _ h =>
    (Par.forL (fun e _ _ _ h => (Par.forL (fun _ _ _ _ h => same_removePackageInternal h _ _ _) h).seq fun _ _ _ h =>
      (Par.forL (fun _ _ _ _ h => same_removePackageInternal h _ _ _) h).seq fun _ _ _ h => same_dbWrite h _ _) h).seq
    fun _ _ _ h => same_dbWrite h _ _

theorem same_deleteRepo (h : Twin E L s t) (r : Str) : Par E L (deleteRepo r) s t :=
  (same_getRepo h r).seq fun _ s' t' h => Par.seq
    (.vol ⟨h.db, by simp [h.cache], h.pend, h.clock, h.tab, h.next, h.rdir, h.idx, h.data⟩) fun _ _ _ h =>
    (same_dbUpdate h fun _ _ h => same_deleteRepoBody h r).seq fun _ _ _ h =>
    (same_rmRepoTree h r).seq fun _ _ _ h => same_rmRepoAux h r

/-! ### Index and API -/

theorem same_pushDeltas (h : Twin E L s t) (r : Str) (pe : PoolEntry) : Par E L (pushDeltas r pe) s t := by
  refine (same_repoGet h _ _).seq fun re _ _ h => .collectL (fun d _ _ _ h => ?_) h
  refine (same_poolGet h _).seq fun pd _ _ h => ?_
  split
  · exact .throw h _
  · refine (same_getRelease h _).seq fun _ _ _ h => ?_
    split <;> exact .pure h _

theorem same_emitPackage (h : Twin E L s t) (r : Str) (dist : Option (List Str)) (pe : PoolEntry) :
    Par E L (emitPackage r dist pe) s t := by
  unfold emitPackage
  split
  · exact .pure h _
  · exact (same_pushDeltas h _ _).seq fun _ _ _ h => .pure h _

theorem same_emitAsset (h : Twin E L s t) (p : Content → ParsedAsset) (r : Str) (a : Asset) :
    Par E L (emitAsset p r a) s t := by
  unfold emitAsset
  refine .read ?_ (by rw [h.read (not_loose_asset _ _)])
  split
  · exact .pure h _
  · split
    · exact .throw h _
    · exact .panic h
    · exact .pure h _

theorem same_emitIndex (h : Twin E L s t) (r : Str) (dist : Option (List Str)) : Par E L (emitIndex E r dist) s t :=
  (same_repoEntries h _).seq fun es _ _ h =>
    (Par.collectL (fun id _ _ _ h => (same_poolGet h _).seq fun _ _ _ h => same_emitPackage h _ _ _) h).seq
    fun _ _ _ h => (same_emitAsset h _ _ _).seq fun _ _ _ h => (same_emitAsset h _ _ _).seq fun _ _ _ h => .pure h _

theorem same_publish (h : Twin E L s t) (r : Str) (doc : Doc) :
    Par E L (stepM fun s => s.setFs { s.fs with idx := fun x => if x = r then some doc else s.fs.idx x }) s t :=
  .step ⟨h.db, h.cache, h.pend, h.clock, h.tab, h.next, h.rdir, by simp [h.idx], h.data⟩

theorem same_indexRepo (h : Twin E L s t) (r : Str) : Par E L (indexRepo E r) s t := by
  unfold indexRepo
  refine (same_initDistribution h _).seq fun dist _ _ h => (same_emitIndex h _ _).seq fun doc _ _ h =>
    .read ?_ (by rw [h.clock])
  refine Par.seq (.vol ⟨h.db, h.cache, h.pend, by simp [h.clock], h.tab, h.next, h.rdir, h.idx, h.data⟩)
    fun _ _ _ h => ?_
  split
  · exact .throw h _
  · exact same_publish h _ _
  · exact (same_publish h _ _).seq fun _ _ _ h => .throw h _

theorem same_mIndex (h : Twin E L s t) (r : Str) : Par E L (mIndex E r) s t :=
  (same_getRepo h _).seq fun _ _ _ h => same_indexRepo h r

theorem same_mCreateRepo (h : Twin E L s t) (r : Str) : Par E L (mCreateRepo E r) s t :=
  (same_createRepo h _).seq fun _ _ _ h => same_mIndex h r

theorem same_mCloneRepo (h : Twin E L s t) (a b : Str) (f : Bool) : Par E L (mCloneRepo E a b f) s t :=
  (same_getRepo h _).seq fun _ _ _ h => (same_createRepo h _).seq fun _ _ _ h =>
    (same_cloneFrom h _ _ _).seq fun _ _ _ h => same_mIndex h _

theorem same_mPullRepo (h : Twin E L s t) (a b : Str) : Par E L (mPullRepo E a b) s t :=
  (same_getRepo h _).seq fun _ _ _ h => (same_getRepo h _).seq fun _ _ _ h =>
    (same_pullFrom h _ _).seq fun _ _ _ h => (same_mIndex h _).seq fun _ _ _ h => .pure h _

theorem same_mRemoveSource (h : Twin E L s t) (r n : Str) (k : Int) : Par E L (mRemoveSource E r n k) s t :=
  (same_getRepo h _).seq fun _ _ _ h => (same_removeSource h _ _ _).seq fun _ _ _ h => same_mIndex h _

theorem same_mCopySource (h : Twin E L s t) (a b n : Str) (k : Int) (sk : Bool) :
    Par E L (mCopySource E a b n k sk) s t := by
  refine (same_getRepo h _).seq fun _ _ _ h => (same_getRepo h _).seq fun _ _ _ h =>
    (same_copySourceFrom h _ _ _ _).seq fun _ _ _ h => ?_
  split
  · exact same_mIndex h _
  · exact .pure h _

theorem same_mTrimObsolete (h : Twin E L s t) (r : Str) : Par E L (mTrimObsolete E r) s t :=
  (same_getRepo h _).seq fun _ _ _ h => (same_trimObsolete h _).seq fun _ _ _ h => same_mIndex h _

theorem same_mTrimPackages (h : Twin E L s t) (r : Str) (k : Int) : Par E L (mTrimPackages E r k) s t :=
  (same_getRepo h _).seq fun _ _ _ h => (same_trimPackages h _ _).seq fun _ _ _ h => same_mIndex h _

/-- An operation that does not take in or bring an outside file. (No code: a notion of the statements and proofs.) -/
def Op.inward : Op → Bool
  | .addPackages _ _ _ => false
  | .upload _ _ => false
  | .stage _ _ _ => false
  | _ => true

theorem same_op (h : Twin E L s t) {o : Op} (ho : o.inward = true)
    (hd : ∀ r d f k, o = .addDelta r d f k → ¬ ((Path.stage r d).Outside ∧ L (.stage r d))) : Par E L (o.run E) s t := by
  cases o with
  | create r => exact same_mCreateRepo h r
  | delete r => exact same_deleteRepo h r
  | clone a b f => exact same_mCloneRepo h a b f
  | pull a b => exact (same_mPullRepo h a b).seq fun _ _ _ h => .pure h _
  | removeSource r n k => exact same_mRemoveSource h r n k
  | copySource a b n k sk => exact same_mCopySource h a b n k sk
  | trimObsolete r => exact same_mTrimObsolete h r
  | trimPackages r k => exact same_mTrimPackages h r k
  | addPackages r fs st => cases ho
  | index r => exact same_mIndex h r
  | addDelta r d f k =>
    exact (same_getRepo h _).seq fun _ _ _ h => same_addDelta h r (hd r d f k rfl) f k
  | refDelta r d => exact (same_getRepo h _).seq fun _ _ _ h => same_refDelta h r d
  | markFailed i d => exact same_markDeltaFailed h i d
  | upload f c => cases ho
  | unlink f => exact same_removeFile h _
  | putAsset r a c =>
    refine .step ?_
    have h1 := h.setData s.fs.next c
    have h2 := h1.setTab (p := .asset r a) (some s.fs.next) (by intro j hj; cases hj; simp)
    have h3 := h2.setNext (s.fs.next + 1)
    unfold St.putFile
    rw [← h.next]; exact h3
  | stage r d c => cases ho
  | unstage r d => exact same_removeFile h _
  | restart => exact .step ⟨h.db, rfl, rfl, h.clock, h.tab, h.next, h.rdir, h.idx, h.data⟩

end Ferryd
