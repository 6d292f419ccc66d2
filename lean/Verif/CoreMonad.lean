import Verif.CoreModel
/-! # CoreMonad: equational lemmas to execute model programs, and file-system lemmas -/
namespace Ferryd

variable {α β γ : Type}

/-- Prefix a trace to an outcome. -/
def Out.pre (t : List St) (o : Out α) : Out α := ⟨o.res, o.st, t ++ o.tr⟩

@[simp] theorem Out.pre_nil (o : Out α) : o.pre [] = o := rfl
@[simp] theorem Out.pre_pre (t u : List St) (o : Out α) : (o.pre u).pre t = o.pre (t ++ u) := by
  simp [Out.pre]
@[simp] theorem Out.pre_res (t : List St) (o : Out α) : (o.pre t).res = o.res := rfl
@[simp] theorem Out.pre_st (t : List St) (o : Out α) : (o.pre t).st = o.st := rfl
@[simp] theorem Out.pre_tr (t : List St) (o : Out α) : (o.pre t).tr = t ++ o.tr := rfl
@[simp] theorem Out.pre_mk (t : List St) (r : Res α) (s : St) (u : List St) :
    Out.pre t ⟨r, s, u⟩ = ⟨r, s, t ++ u⟩ := rfl

theorem bind_def (m : M α) (f : α → M β) (s : St) : (m >>= f) s =
    match (m s).res with
    | .ok a => (f a (m s).st).pre (m s).tr
    | .err e => ⟨.err e, (m s).st, (m s).tr⟩
    | .panic => ⟨.panic, (m s).st, (m s).tr⟩ := rfl

theorem bind_ok {m : M α} {f : α → M β} {s s1 : St} {a : α} {t : List St}
    (h : m s = ⟨.ok a, s1, t⟩) : (m >>= f) s = (f a s1).pre t := by
  rw [bind_def, h]

theorem bind_err {m : M α} {f : α → M β} {s s1 : St} {e : Err} {t : List St}
    (h : m s = ⟨.err e, s1, t⟩) : (m >>= f) s = ⟨.err e, s1, t⟩ := by
  rw [bind_def, h]

theorem bind_panic {m : M α} {f : α → M β} {s s1 : St} {t : List St}
    (h : m s = ⟨.panic, s1, t⟩) : (m >>= f) s = ⟨.panic, s1, t⟩ := by
  rw [bind_def, h]

@[simp] theorem pure_run (a : α) (s : St) : (pure a : M α) s = ⟨.ok a, s, []⟩ := rfl
@[simp] theorem pure_bind_run (a : α) (f : α → M β) (s : St) : (pure a >>= f) s = f a s := rfl
@[simp] theorem getSt_run (s : St) : getSt s = ⟨.ok s, s, []⟩ := rfl
@[simp] theorem getSt_bind (f : St → M β) (s : St) : (getSt >>= f) s = f s s := rfl
@[simp] theorem throwE_run (e : Err) (s : St) : (throwE e : M α) s = ⟨.err e, s, []⟩ := rfl
@[simp] theorem throwE_bind (e : Err) (f : α → M β) (s : St) :
    (throwE e >>= f) s = ⟨.err e, s, []⟩ := rfl
@[simp] theorem panicM_run (s : St) : (panicM : M α) s = ⟨.panic, s, []⟩ := rfl
@[simp] theorem panicM_bind (f : α → M β) (s : St) : (panicM >>= f) s = ⟨.panic, s, []⟩ := rfl
@[simp] theorem stepM_run (g : St → St) (s : St) : stepM g s = ⟨.ok (), g s, [g s]⟩ := rfl
@[simp] theorem stepM_bind (g : St → St) (f : Unit → M β) (s : St) :
    (stepM g >>= f) s = (f () (g s)).pre [g s] := rfl
@[simp] theorem volM_run (g : St → St) (s : St) : volM g s = ⟨.ok (), g s, []⟩ := rfl
@[simp] theorem volM_bind (g : St → St) (f : Unit → M β) (s : St) :
    (volM g >>= f) s = f () (g s) := rfl

theorem M.bind_assoc (m : M α) (f : α → M β) (g : β → M γ) :
    (m >>= f) >>= g = m >>= fun a => f a >>= g := by
  funext s
  simp only [bind_def]
  cases h : (m s).res with
  | ok a =>
    simp only [Out.pre_res]
    cases h2 : (f a (m s).st).res <;> simp [Out.pre]
  | err e => rfl
  | panic => rfl

@[simp] theorem bind_assoc_run (m : M α) (f : α → M β) (g : β → M γ) (s : St) :
    ((m >>= f) >>= g) s = (m >>= fun a => f a >>= g) s := by rw [M.bind_assoc]

@[simp] theorem poolGet?_run (id : Str) (s : St) :
    poolGet? id s = ⟨.ok (s.db.pool.get id), s, []⟩ := rfl
@[simp] theorem poolGet?_bind (id : Str) (f : Option PoolEntry → M β) (s : St) :
    (poolGet? id >>= f) s = f (s.db.pool.get id) s := rfl

theorem poolGet_run (id : Str) (s : St) : poolGet id s =
    match s.db.pool.get id with
    | none => ⟨.err .notFound, s, []⟩
    | some e => ⟨.ok e, s, []⟩ := by
  simp only [poolGet, poolGet?_bind]
  cases s.db.pool.get id <;> rfl

theorem poolGet_some {id : Str} {s : St} {e : PoolEntry} (h : s.db.pool.get id = some e) :
    poolGet id s = ⟨.ok e, s, []⟩ := by rw [poolGet_run, h]

theorem poolGet_none {id : Str} {s : St} (h : s.db.pool.get id = none) :
    poolGet id s = ⟨.err .notFound, s, []⟩ := by rw [poolGet_run, h]

theorem poolGet_bind_some {id : Str} {s : St} {e : PoolEntry} (f : PoolEntry → M β)
    (h : s.db.pool.get id = some e) : (poolGet id >>= f) s = f e s := by
  rw [bind_ok (poolGet_some h)]; rfl

theorem poolGet_bind_none {id : Str} {s : St} (f : PoolEntry → M β)
    (h : s.db.pool.get id = none) : (poolGet id >>= f) s = ⟨.err .notFound, s, []⟩ := by
  rw [bind_err (poolGet_none h)]

@[simp] theorem repoGet?_run (r n : Str) (s : St) :
    repoGet? r n s = ⟨.ok ((s.db.ents r).get n), s, []⟩ := rfl
@[simp] theorem repoGet?_bind (r n : Str) (f : Option RepoEntry → M β) (s : St) :
    (repoGet? r n >>= f) s = f ((s.db.ents r).get n) s := rfl

theorem repoGet_bind_some {r n : Str} {s : St} {e : RepoEntry} (f : RepoEntry → M β)
    (h : (s.db.ents r).get n = some e) : (repoGet r n >>= f) s = f e s := by
  have : repoGet r n s = ⟨.ok e, s, []⟩ := by
    simp only [repoGet, repoGet?_bind, h]; rfl
  rw [bind_ok this]; rfl

theorem repoGet_bind_none {r n : Str} {s : St} (f : RepoEntry → M β)
    (h : (s.db.ents r).get n = none) : (repoGet r n >>= f) s = ⟨.err .notFound, s, []⟩ := by
  have : repoGet r n s = ⟨.err .notFound, s, []⟩ := by
    simp only [repoGet, repoGet?_bind, h]; rfl
  rw [bind_err this]

@[simp] theorem repoEntries_run (r : Str) (s : St) :
    repoEntries r s = ⟨.ok ((s.db.ents r).map Prod.snd), s, []⟩ := rfl
@[simp] theorem repoEntries_bind (r : Str) (f : List RepoEntry → M β) (s : St) :
    (repoEntries r >>= f) s = f ((s.db.ents r).map Prod.snd) s := rfl

/-- Release of the newest update, as a total function (0 without history; the code panics there). -/
def Meta.rel (m : Meta) : Int := (m.history.head?.map Update.release).getD 0

theorem getRelease_run {m : Meta} (h : m.history ≠ []) (s : St) :
    getRelease m s = ⟨.ok m.rel, s, []⟩ := by
  unfold getRelease Meta.rel
  cases hh : m.history with
  | nil => exact absurd hh h
  | cons u us => rfl

theorem getRelease_bind {m : Meta} (h : m.history ≠ []) (f : Int → M β) (s : St) :
    (getRelease m >>= f) s = f m.rel s := by
  rw [bind_ok (getRelease_run h s)]; rfl

theorem pathComp_bind {m : Meta} {c : Str} (h : pathComp? m.source = some c) (f : Str → M β) (s : St) :
    (pathComp m >>= f) s = f c s := by
  have : pathComp m s = ⟨.ok c, s, []⟩ := by
    unfold pathComp; rw [h]; rfl
  rw [bind_ok this]; rfl

theorem pathComp_bind_none {m : Meta} (h : pathComp? m.source = none) (f : Str → M β) (s : St) :
    (pathComp m >>= f) s = ⟨.panic, s, []⟩ := by
  have : pathComp m s = ⟨.panic, s, []⟩ := by
    unfold pathComp; rw [h]; rfl
  rw [bind_panic this]

theorem pathComp?_isSome {src : Str} (h : src ≠ []) : ∃ c, pathComp? src = some c := by
  unfold pathComp?
  cases src with
  | nil => exact absurd rfl h
  | cons a as =>
    simp only [lowerS, List.map_cons]
    split <;> simp_all

theorem pathComp?_none_iff (src : Str) : pathComp? src = none ↔ src = [] := by
  constructor
  · intro h
    cases src with
    | nil => rfl
    | cons a as =>
      obtain ⟨c, hc⟩ := pathComp?_isSome (src := a :: as) (by simp)
      rw [h] at hc; cases hc
  · rintro rfl; rfl

theorem dbWrite_direct {w : DbWrite} (h : reservedKey w.key = false) (s : St) :
    dbWrite .direct w s = ⟨.ok (), { s with db := w.apply s.db }, [{ s with db := w.apply s.db }]⟩ := by
  simp [dbWrite, h]

theorem dbWrite_batch {w : DbWrite} (h : reservedKey w.key = false) (s : St) :
    dbWrite .batch w s = ⟨.ok (), { s with pend := s.pend ++ [w] }, []⟩ := by
  simp [dbWrite, h]

@[simp] theorem removeFile_run (p : Path) (s : St) :
    removeFile p s = ⟨.ok (), s.setFs (s.fs.setTab p none), [s.setFs (s.fs.setTab p none)]⟩ := rfl
@[simp] theorem removeFile_bind (p : Path) (f : Unit → M β) (s : St) :
    (removeFile p >>= f) s = (f () (s.setFs (s.fs.setTab p none))).pre [s.setFs (s.fs.setTab p none)] := rfl

@[simp] theorem forL_nil (f : α → M Unit) : forL [] f = pure () := rfl
@[simp] theorem forL_cons (x : α) (xs : List α) (f : α → M Unit) :
    forL (x :: xs) f = (f x >>= fun _ => forL xs f) := rfl

theorem forL_append (l₁ l₂ : List α) (f : α → M Unit) :
    forL (l₁ ++ l₂) f = (forL l₁ f >>= fun _ => forL l₂ f) := by
  induction l₁ with
  | nil => funext s; simp
  | cons x xs ih => simp [ih, M.bind_assoc]

/-- A loop whose body only reads. -/
theorem collectL_pure {l : List α} {f : α → M (List β)} {g : α → List β} {s : St}
    (h : ∀ x ∈ l, f x s = ⟨.ok (g x), s, []⟩) : collectL l f s = ⟨.ok (l.flatMap g), s, []⟩ := by
  induction l with
  | nil => rfl
  | cons x xs ih =>
    simp only [collectL]
    rw [bind_ok (h x (by simp))]
    rw [bind_ok (ih (fun y hy => h y (by simp [hy])))]
    simp

theorem foldL_pure {l : List α} {b : β} {f : β → α → M β} {g : β → α → β} {s : St}
    (h : ∀ b, ∀ x ∈ l, f b x s = ⟨.ok (g b x), s, []⟩) :
    foldL l b f s = ⟨.ok (l.foldl g b), s, []⟩ := by
  induction l generalizing b with
  | nil => rfl
  | cons x xs ih =>
    simp only [foldL]
    rw [bind_ok (h b x (by simp))]
    rw [ih (fun b y hy => h b y (by simp [hy]))]
    rfl

/-! ## Traces -/

/-- Every durable state passed through satisfies `C`. -/
def Out.All (o : Out α) (C : St → Prop) : Prop := ∀ t ∈ o.tr, C t

@[simp] theorem Out.All_pre (t : List St) (o : Out α) (C : St → Prop) :
    (o.pre t).All C ↔ (∀ x ∈ t, C x) ∧ o.All C := by
  simp only [Out.All, Out.pre_tr, List.mem_append]
  constructor
  · intro h; exact ⟨fun x hx => h x (Or.inl hx), fun x hx => h x (Or.inr hx)⟩
  · rintro ⟨h1, h2⟩ x (hx | hx)
    · exact h1 x hx
    · exact h2 x hx

/-! ## File system -/

@[simp] theorem FS.setTab_tab (fs : FS) (p q : Path) (i : Option Nat) :
    (fs.setTab p i).tab q = if q = p then i else fs.tab q := rfl
@[simp] theorem FS.setTab_data (fs : FS) (p : Path) (i : Option Nat) : (fs.setTab p i).data = fs.data := rfl
@[simp] theorem FS.setTab_next (fs : FS) (p : Path) (i : Option Nat) : (fs.setTab p i).next = fs.next := rfl
@[simp] theorem FS.setTab_rdir (fs : FS) (p : Path) (i : Option Nat) : (fs.setTab p i).rdir = fs.rdir := rfl
@[simp] theorem FS.setTab_idx (fs : FS) (p : Path) (i : Option Nat) : (fs.setTab p i).idx = fs.idx := rfl
@[simp] theorem FS.setData_tab (fs : FS) (i : Nat) (c : Content) : (fs.setData i c).tab = fs.tab := rfl
@[simp] theorem FS.setData_data (fs : FS) (i j : Nat) (c : Content) :
    (fs.setData i c).data j = if j = i then c else fs.data j := rfl
@[simp] theorem FS.setData_next (fs : FS) (i : Nat) (c : Content) : (fs.setData i c).next = fs.next := rfl
@[simp] theorem FS.setData_rdir (fs : FS) (i : Nat) (c : Content) : (fs.setData i c).rdir = fs.rdir := rfl
@[simp] theorem FS.setData_idx (fs : FS) (i : Nat) (c : Content) : (fs.setData i c).idx = fs.idx := rfl
@[simp] theorem St.setFs_fs (s : St) (fs : FS) : (s.setFs fs).fs = fs := rfl
@[simp] theorem St.setFs_db (s : St) (fs : FS) : (s.setFs fs).db = s.db := rfl
@[simp] theorem St.setFs_cache (s : St) (fs : FS) : (s.setFs fs).cache = s.cache := rfl
@[simp] theorem St.setFs_pend (s : St) (fs : FS) : (s.setFs fs).pend = s.pend := rfl
@[simp] theorem St.setFs_clock (s : St) (fs : FS) : (s.setFs fs).clock = s.clock := rfl
@[simp] theorem St.setFs_setFs (s : St) (f g : FS) : (s.setFs f).setFs g = s.setFs g := rfl
@[simp] theorem St.setFs_self (s : St) : s.setFs s.fs = s := rfl

/-- Every directory entry points below the allocation mark. -/
def FS.Fresh (fs : FS) : Prop := ∀ p i, fs.tab p = some i → i < fs.next

/-- `dst`, which did not exist, now has the content that `src` has; nothing else changed. -/
structure FS.Linked (fs fs' : FS) (src dst : Path) : Prop where
  tab : ∀ q, q ≠ dst → fs'.tab q = fs.tab q
  data : ∀ i, i < fs.next → fs'.data i = fs.data i
  next : fs.next ≤ fs'.next
  rdir : fs'.rdir = fs.rdir
  idx : fs'.idx = fs.idx
  dst : ∃ j, fs'.tab dst = some j ∧ j < fs'.next ∧ fs.read src = some (fs'.data j) ∧
    (fs.tab src = some j ∨ fs.next ≤ j)

/-- `dst`, which did not exist, either still does not, or is a link to `src`, or is a new file being
written (a state in the middle of `LinkOrCopyFile`). -/
structure FS.Linking (fs fs' : FS) (src dst : Path) : Prop where
  tab : ∀ q, q ≠ dst → fs'.tab q = fs.tab q
  data : ∀ i, i < fs.next → fs'.data i = fs.data i
  next : fs.next ≤ fs'.next
  rdir : fs'.rdir = fs.rdir
  idx : fs'.idx = fs.idx
  dst : ∀ j, fs'.tab dst = some j → j < fs'.next ∧ (fs.tab src = some j ∨ fs.next ≤ j)

theorem FS.Linked.linking {fs fs' : FS} {src dst : Path} (h : FS.Linked fs fs' src dst) :
    FS.Linking fs fs' src dst := by
  obtain ⟨h1, h2, h3, h4, h5, j, hj, hlt, _, hor⟩ := h
  refine ⟨h1, h2, h3, h4, h5, ?_⟩
  intro k hk
  rw [hj] at hk; cases hk
  exact ⟨hlt, hor⟩

theorem FS.Fresh.linking {fs fs' : FS} {src dst : Path} (hf : fs.Fresh) (h : FS.Linking fs fs' src dst) :
    fs'.Fresh := by
  intro p i hp
  by_cases e : p = dst
  · subst e; exact (h.dst i hp).1
  · rw [h.tab p e] at hp
    exact Nat.lt_of_lt_of_le (hf p i hp) h.next

/-- Reading an old path is unaffected. -/
theorem FS.Linking.read_ne {fs fs' : FS} {src dst : Path} (hf : fs.Fresh) (h : FS.Linking fs fs' src dst)
    {q : Path} (hq : q ≠ dst) : fs'.read q = fs.read q := by
  unfold FS.read
  rw [h.tab q hq]
  cases ht : fs.tab q with
  | none => rfl
  | some i => simp [h.data i (hf q i ht)]

theorem FS.Linked.read_dst {fs fs' : FS} {src dst : Path} (h : FS.Linked fs fs' src dst) :
    fs'.read dst = fs.read src := by
  obtain ⟨j, hj, _, hr, _⟩ := h.dst
  rw [hr]; simp [FS.read, hj]

theorem copyFile_run {src dst : Path} {s : St} {i : Nat} (hi : s.fs.tab src = some i) :
    copyFile src dst s =
      ⟨.ok (), s.setFs ((s.fs.openTrunc dst).1.setData (s.fs.openTrunc dst).2 ((s.fs.openTrunc dst).1.data i)),
        [s.setFs (s.fs.openTrunc dst).1,
         s.setFs ((s.fs.openTrunc dst).1.setData (s.fs.openTrunc dst).2 ((s.fs.openTrunc dst).1.data i))]⟩ := by
  simp only [copyFile, getSt_bind, hi, stepM_bind, stepM_run, Out.pre_mk, St.setFs_fs,
      St.setFs_setFs, List.cons_append, List.nil_append]

theorem copyFile_missing {src dst : Path} {s : St} (hi : s.fs.tab src = none) :
    copyFile src dst s = ⟨.ok (), s, []⟩ := by
  simp only [copyFile, getSt_bind, hi, pure_run]

/-- A newly created empty file at `dst`. -/
def FS.create (fs : FS) (dst : Path) : FS :=
  { (fs.setTab dst (some fs.next)).setData fs.next [] with next := fs.next + 1 }

@[simp] theorem FS.create_tab (fs : FS) (dst q : Path) :
    (fs.create dst).tab q = if q = dst then some fs.next else fs.tab q := rfl
@[simp] theorem FS.create_data (fs : FS) (dst : Path) (i : Nat) :
    (fs.create dst).data i = if i = fs.next then [] else fs.data i := rfl
@[simp] theorem FS.create_next (fs : FS) (dst : Path) : (fs.create dst).next = fs.next + 1 := rfl
@[simp] theorem FS.create_rdir (fs : FS) (dst : Path) : (fs.create dst).rdir = fs.rdir := rfl
@[simp] theorem FS.create_idx (fs : FS) (dst : Path) : (fs.create dst).idx = fs.idx := rfl

theorem FS.openTrunc_none {fs : FS} {dst : Path} (h : fs.tab dst = none) :
    fs.openTrunc dst = (fs.create dst, fs.next) := by
  unfold FS.openTrunc; rw [h]; rfl

theorem FS.openTrunc_some {fs : FS} {dst : Path} {j : Nat} (h : fs.tab dst = some j) :
    fs.openTrunc dst = (fs.setData j [], j) := by
  unfold FS.openTrunc; rw [h]

theorem FS.read_eq_some {fs : FS} {p : Path} {c : Content} :
    fs.read p = some c ↔ ∃ i, fs.tab p = some i ∧ fs.data i = c := by
  simp [FS.read]

/-- The effect of copying onto a path that does not exist. -/
theorem copyFile_fresh {src dst : Path} {s : St} (hf : s.fs.Fresh) {c : Content}
    (hs : s.fs.read src = some c) (hd : s.fs.tab dst = none) :
    ∃ fs' tr, copyFile src dst s = ⟨.ok (), s.setFs fs', tr⟩ ∧ FS.Linked s.fs fs' src dst ∧
      ∀ t ∈ tr, ∃ g, t = s.setFs g ∧ FS.Linking s.fs g src dst := by
  obtain ⟨i, hi, rfl⟩ := FS.read_eq_some.1 hs
  have hne : src ≠ dst := by rintro rfl; rw [hd] at hi; cases hi
  have hlt := hf src i hi
  have hie : i ≠ s.fs.next := by omega
  have hL : FS.Linked s.fs ((s.fs.create dst).setData s.fs.next (s.fs.data i)) src dst := by
    refine ⟨?_, ?_, ?_, rfl, rfl, s.fs.next, ?_, ?_, ?_, ?_⟩
    · intro q hq; simp [hq]
    · intro k hk
      have : k ≠ s.fs.next := by omega
      simp [this]
    · simp
    · simp
    · simp
    · simp [FS.read, hi]
    · right; omega
  have hG : FS.Linking s.fs (s.fs.create dst) src dst := by
    refine ⟨?_, ?_, ?_, rfl, rfl, ?_⟩
    · intro q hq; simp [hq]
    · intro k hk
      have : k ≠ s.fs.next := by omega
      simp [this]
    · simp
    · intro j hj
      simp at hj; subst hj; simp
  rw [copyFile_run hi, FS.openTrunc_none hd]
  refine ⟨_, _, rfl, ?_, ?_⟩
  · simpa [hie] using hL
  · intro t ht
    simp only [List.mem_cons, List.not_mem_nil, or_false] at ht
    rcases ht with rfl | rfl
    · exact ⟨_, rfl, hG⟩
    · exact ⟨_, rfl, by simpa [hie] using hL.linking⟩

/-- The effect of `LinkOrCopyFile` onto a path that does not exist. -/
theorem linkOrCopy_fresh (E : Env) {src dst : Path} {s : St} (hf : s.fs.Fresh) {c : Content} (force : Bool)
    (hs : s.fs.read src = some c) (hd : s.fs.tab dst = none) :
    ∃ fs' tr, linkOrCopy E src dst force s = ⟨.ok (), s.setFs fs', tr⟩ ∧ FS.Linked s.fs fs' src dst ∧
      ∀ t ∈ tr, ∃ g, t = s.setFs g ∧ FS.Linking s.fs g src dst := by
  obtain ⟨i, hi, hc⟩ : ∃ i, s.fs.tab src = some i ∧ s.fs.data i = c := by
    unfold FS.read at hs
    cases ht : s.fs.tab src with
    | none => simp [ht] at hs
    | some i => rw [ht] at hs; exact ⟨i, rfl, by simpa using hs⟩
  unfold linkOrCopy
  cases force with
  | true => simpa using copyFile_fresh hf hs hd
  | false =>
    simp only [getSt_bind, hi, hd, Bool.false_eq_true, if_false]
    by_cases hl : E.linkOk src dst = true
    · simp only [hl, if_true, stepM_run]
      have hL : FS.Linked s.fs (s.fs.setTab dst (some i)) src dst := by
        refine ⟨?_, ?_, ?_, rfl, rfl, i, ?_, ?_, ?_, ?_⟩
        · intro q hq; simp [hq]
        · intro k hk; simp
        · simp
        · simp
        · exact hf src i hi
        · simp [FS.read, hi]
        · left; exact hi
      refine ⟨_, _, rfl, hL, ?_⟩
      intro t ht
      simp only [List.mem_cons, List.not_mem_nil, or_false] at ht
      subst ht
      exact ⟨_, rfl, hL.linking⟩
    · simp only [hl, if_false]
      exact copyFile_fresh hf hs hd

end Ferryd
