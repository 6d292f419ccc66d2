import Verif.CoreMonad
/-!
# CoreInv: the outside world and the global invariant of pool and repositories
-/
namespace Ferryd

/-- The world ferryd runs in: the environment, what the file of each name contains (files are identified
by their base name, e.g. `nano-2.8.0-70-1-x86_64.eopkg`; two different files never carry the same
name), and which names are delta packages. -/
structure World where
  E : Env
  canon : Str → Content
  isDelta : Str → Bool

/-- Metadata the code can work with: a history (else GetRelease panics), a source name (else
GetPathComponent panics), a positive release (else UnrefPackage cannot publish it), a name that is not
one of the database's reserved keys, no delta list of its own (else the index repeats it, `C122_violated`). -/
structure GoodMeta (m : Meta) : Prop where
  hist : m.history ≠ []
  src : m.source ≠ []
  rel : 1 ≤ m.rel
  nres : reservedKey m.name = false
  own : m.own = []

/-- A usable file name. -/
structure GoodId (id : Str) : Prop where
  ne : id ≠ []
  noSlash : '/' ∉ id
  nres : reservedKey id = false

/-- Assumptions about the outside world. -/
structure World.OK (W : World) : Prop where
  parse_nil : W.E.parse [] = .bad
  no_crash : ∀ id, W.E.parse (W.canon id) ≠ .crash
  comps_no_crash : ∀ c, W.E.parseComps c ≠ .crash
  groups_no_crash : ∀ c, W.E.parseGroups c ≠ .crash
  good : ∀ id m, W.E.parse (W.canon id) = .good m → GoodMeta m ∧ GoodId id

/-- The metadata inside the file of this name (a dummy when it is not a package). -/
def World.mOf (W : World) (id : Str) : Meta :=
  match W.E.parse (W.canon id) with
  | .good m => m
  | _ => ⟨[], [], [], [], [], [], 0, [], []⟩

/-- The file of this name is a readable package. -/
def World.IsPkg (W : World) (id : Str) : Prop := W.E.parse (W.canon id) = .good (W.mOf id)

theorem World.isPkg_of {W : World} {id : Str} {m : Meta} (h : W.E.parse (W.canon id) = .good m) :
    W.IsPkg id ∧ W.mOf id = m := by
  unfold World.IsPkg World.mOf; rw [h]; simp

/-- Directory of the package below pool and repository trees. -/
def World.compOf (W : World) (id : Str) : Option Str := pathComp? (W.mOf id).source

/-- The metadata stored in the pool: as in the file, with hash, size and location filled in. -/
def World.stamped (W : World) (id : Str) : Meta :=
  { W.mOf id with
    hash := W.E.sha1 (W.canon id), size := (W.canon id).length,
    uri := mkURI ((W.compOf id).getD []) id }

@[simp] theorem World.stamped_name (W : World) (id : Str) : (W.stamped id).name = (W.mOf id).name := rfl
@[simp] theorem World.stamped_source (W : World) (id : Str) : (W.stamped id).source = (W.mOf id).source := rfl
@[simp] theorem World.stamped_history (W : World) (id : Str) : (W.stamped id).history = (W.mOf id).history := rfl
@[simp] theorem World.stamped_rel (W : World) (id : Str) : (W.stamped id).rel = (W.mOf id).rel := rfl

theorem World.OK.meta {W : World} (ok : W.OK) {id : Str} (h : W.IsPkg id) : GoodMeta (W.mOf id) :=
  (ok.good id _ h).1
theorem World.OK.gid {W : World} (ok : W.OK) {id : Str} (h : W.IsPkg id) : GoodId id :=
  (ok.good id _ h).2
theorem World.OK.comp {W : World} (ok : W.OK) {id : Str} (h : W.IsPkg id) :
    ∃ c, W.compOf id = some c := pathComp?_isSome (ok.meta h).src

theorem World.OK.canon_ne {W : World} (ok : W.OK) {id : Str} (h : W.IsPkg id) : W.canon id ≠ [] := by
  intro e
  unfold World.IsPkg at h
  rw [e, ok.parse_nil] at h; cases h

/-- Who may share an inode: all copies of the file of one name; an asset file is alone. -/
def Path.owner : Path → Sum Path Str
  | .asset r a => .inl (.asset r a)
  | p => .inr p.base

def Path.isAsset : Path → Bool
  | .asset _ _ => true
  | _ => false

/-- File-level invariant: inode allocation, sharing only between copies of the same package, and content of
every package file (a delta file may have been emptied, see `Verif.CoreRough`). -/
structure FInv (W : World) (fs : FS) : Prop where
  fresh : fs.Fresh
  owner : ∀ p q i, fs.tab p = some i → fs.tab q = some i → p.owner = q.owner
  content : ∀ p c, p.isAsset = false → fs.read p = some c →
    c = W.canon p.base ∨ (W.isDelta p.base = true ∧ c = [])

/-- A repository's record for one package name. -/
structure EntOk (W : World) (s : St) (n : Str) (e : RepoEntry) : Prop where
  name : e.name = n
  nres : reservedKey n = false
  sorted : SortedS e.available
  nodup : e.available.Nodup
  avail : ∀ id ∈ e.available, W.isDelta id = false ∧ (∃ pe, s.db.pool.get id = some pe) ∧
    (W.mOf id).name = n
  pub : e.published ∈ e.available
  top : ∀ id ∈ e.available, (W.mOf id).rel ≤ (W.mOf e.published).rel
  dnodup : e.deltas.Nodup
  deltas : ∀ d ∈ e.deltas, W.isDelta d = true ∧ (∃ pe, s.db.pool.get d = some pe) ∧
    (W.mOf d).name = n

/-- Repositories listing a delta. -/
def St.dholders (s : St) (id : Str) : List Str := s.db.repos.keys.filter fun r => s.hasDelta r id

/-- The delta information stored for delta package `d` describes packages of the same name and their
releases. -/
def World.DInfoOk (W : World) (d : Str) (di : DeltaInfo) : Prop :=
  (W.mOf di.fromID).name = (W.mOf d).name ∧ (W.mOf di.toID).name = (W.mOf d).name ∧
  di.fromRelease = (W.mOf di.fromID).rel ∧ di.toRelease = (W.mOf di.toID).rel

structure PoolOk (W : World) (s : St) (id : Str) (pe : PoolEntry) : Prop where
  name : pe.name = id
  isPkg : W.IsPkg id
  pkg : pe.pkg = W.stamped id
  delta : pe.delta.isSome = W.isDelta id
  pos : 0 < pe.refCount
  count : W.isDelta id = false → pe.refCount = (s.holders id).length
  dcount : W.isDelta id = true → (s.dholders id).length ≤ pe.refCount
  dinfo : ∀ di, pe.delta = some di → W.DInfoOk id di

/-- The global invariant. -/
structure Inv (W : World) (s : St) : Prop where
  wfPool : s.db.pool.WF
  wfSkip : s.db.skip.WF
  wfRepos : s.db.repos.WF
  wfEnts : ∀ r, (s.db.ents r).WF
  noEnts : ∀ r, r ∉ s.db.repos.keys → s.db.ents r = []
  cache : ∀ r ∈ s.cache, r ∈ s.db.repos.keys
  rdir : ∀ r, s.fs.rdir r = true → r ∈ s.db.repos.keys
  repoRes : ∀ r ∈ s.db.repos.keys, reservedKey r = false
  pend : s.pend = []
  ent : ∀ r n e, (s.db.ents r).get n = some e → EntOk W s n e
  pool : ∀ id pe, s.db.pool.get id = some pe → PoolOk W s id pe
  fs : FInv W s.fs
  poolFile : ∀ id c, ((s.fs.tab (.pool c id)).isSome = true ↔
    (∃ pe, s.db.pool.get id = some pe) ∧ W.compOf id = some c)
  repoFile : ∀ r id c, W.isDelta id = false → ((s.fs.tab (.repo r c id)).isSome = true ↔
    s.has r id = true ∧ W.compOf id = some c)
  dFile : ∀ r d c, s.hasDelta r d = true → W.compOf d = some c →
    (s.fs.tab (.repo r c d)).isSome = true
  noOrphan : ∀ r c id, (s.fs.tab (.repo r c id)).isSome = true → r ∈ s.db.repos.keys

/-- No package file is emptied. -/
def CanonFS (W : World) (fs : FS) : Prop := ∀ p c, p.isAsset = false → fs.read p = some c → c = W.canon p.base

/-- What holds of deltas as long as no record has forgotten one: exact counts, no file served that is not listed, no file
emptied. -/
structure Tight (W : World) (s : St) : Prop where
  count : ∀ d pe, W.isDelta d = true → s.db.pool.get d = some pe → pe.refCount = (s.dholders d).length
  file : ∀ r c d, W.isDelta d = true → (s.fs.read (.repo r c d)).isSome = true →
    s.hasDelta r d = true ∧ W.compOf d = some c
  canon : CanonFS W s.fs

theorem FS.read_isSome (fs : FS) (p : Path) : (fs.read p).isSome = (fs.tab p).isSome := by
  unfold FS.read; cases fs.tab p <;> rfl

/-- Delta files and what concerns deltas in the database are as before. -/
theorem Tight.same {W : World} {s s' : St} (ht : Tight W s) (hfs : FInv W s'.fs)
    (hpool : ∀ d, W.isDelta d = true → s'.db.pool.get d = s.db.pool.get d)
    (hrepos : ∀ d, W.isDelta d = true → (s'.dholders d).length = (s.dholders d).length)
    (hdel : ∀ r d, W.isDelta d = true → s.hasDelta r d = true → s'.hasDelta r d = true)
    (hread : ∀ q, q.isAsset = false → W.isDelta q.base = true → s'.fs.read q = s.fs.read q) : Tight W s' where
  count d pe hd hg := by rw [hpool d hd] at hg; rw [hrepos d hd]; exact ht.count d pe hd hg
  file r c d hd hx := by
    rw [hread _ rfl (by exact hd)] at hx
    obtain ⟨h1, h2⟩ := ht.file r c d hd hx
    exact ⟨hdel r d hd h1, h2⟩
  canon p c hp hr := by
    rcases hfs.content p c hp hr with h | ⟨h, _⟩
    · exact h
    · rw [hread p hp h] at hr; exact ht.canon p c hp hr

theorem CanonFS.linked {W : World} {fs fs' : FS} {src dst : Path} (h : CanonFS W fs) (hf : fs.Fresh)
    (hl : FS.Linked fs fs' src dst) (hb : src.base = dst.base) (hsa : src.isAsset = false) : CanonFS W fs' := by
  intro p c hp hr
  by_cases e : p = dst
  · subst e
    rw [hl.read_dst] at hr
    rw [← hb]; exact h src c hsa hr
  · rw [hl.linking.read_ne hf e] at hr
    exact h p c hp hr

/-! ## has / hasDelta -/

theorem St.has_iff {s : St} {r : Str} (hw : (s.db.ents r).WF) (id : Str) :
    s.has r id = true ↔ ∃ n e, (s.db.ents r).get n = some e ∧ id ∈ e.available := by
  simp only [St.has, List.any_eq_true, Prod.exists, List.contains_iff_mem]
  constructor
  · rintro ⟨n, e, hm, hi⟩; exact ⟨n, e, KV.get_of_mem hw hm, hi⟩
  · rintro ⟨n, e, hg, hi⟩; exact ⟨n, e, KV.mem_of_get hg, hi⟩

theorem St.hasDelta_iff {s : St} {r : Str} (hw : (s.db.ents r).WF) (id : Str) :
    s.hasDelta r id = true ↔ ∃ n e, (s.db.ents r).get n = some e ∧ id ∈ e.deltas := by
  simp only [St.hasDelta, List.any_eq_true, Prod.exists, List.contains_iff_mem]
  constructor
  · rintro ⟨n, e, hm, hi⟩; exact ⟨n, e, KV.get_of_mem hw hm, hi⟩
  · rintro ⟨n, e, hg, hi⟩; exact ⟨n, e, KV.mem_of_get hg, hi⟩

theorem Inv.has_iff {W : World} {s : St} (h : Inv W s) (r id : Str) :
    s.has r id = true ↔ ∃ e, (s.db.ents r).get (W.mOf id).name = some e ∧ id ∈ e.available := by
  rw [St.has_iff (h.wfEnts r)]
  constructor
  · rintro ⟨n, e, hg, hi⟩
    have := ((h.ent r n e hg).avail id hi).2.2
    subst this; exact ⟨e, hg, hi⟩
  · rintro ⟨e, hg, hi⟩; exact ⟨_, e, hg, hi⟩

theorem Inv.hasDelta_iff {W : World} {s : St} (h : Inv W s) (r id : Str) :
    s.hasDelta r id = true ↔ ∃ e, (s.db.ents r).get (W.mOf id).name = some e ∧ id ∈ e.deltas := by
  rw [St.hasDelta_iff (h.wfEnts r)]
  constructor
  · rintro ⟨n, e, hg, hi⟩
    have := ((h.ent r n e hg).deltas id hi).2.2
    subst this; exact ⟨e, hg, hi⟩
  · rintro ⟨e, hg, hi⟩; exact ⟨_, e, hg, hi⟩

theorem Inv.has_facts {W : World} {s : St} (h : Inv W s) {r id : Str} (hh : s.has r id = true) :
    r ∈ s.db.repos.keys ∧ W.isDelta id = false ∧ (∃ pe, s.db.pool.get id = some pe) := by
  obtain ⟨e, hg, hi⟩ := (h.has_iff r id).1 hh
  have ho := (h.ent r _ e hg).avail id hi
  refine ⟨?_, ho.1, ho.2.1⟩
  apply Decidable.byContradiction
  intro hn
  rw [h.noEnts r hn] at hg; simp at hg

theorem Inv.mem_holders {W : World} {s : St} (h : Inv W s) (r id : Str) :
    r ∈ s.holders id ↔ s.has r id = true := by
  simp only [St.holders, List.mem_filter]
  exact ⟨fun x => x.2, fun x => ⟨(h.has_facts x).1, x⟩⟩

/-- Invariant facts about a pool entry. -/
theorem Inv.poolGet_eq {W : World} {s : St} (h : Inv W s) {id : Str} {pe : PoolEntry}
    (hg : s.db.pool.get id = some pe) : pe = ⟨id, pe.refCount, W.stamped id, pe.delta⟩ := by
  have := h.pool id pe hg
  obtain ⟨h1, _, h2⟩ := this
  cases pe; simp_all

theorem inv_init (W : World) : Inv W St.init where
  wfPool := KV.WF_nil
  wfSkip := KV.WF_nil
  wfRepos := KV.WF_nil
  wfEnts _ := KV.WF_nil
  noEnts _ _ := rfl
  cache _ h := by simp [St.init] at h
  rdir _ h := by simp [St.init] at h
  repoRes _ h := by simp [St.init, KV.keys] at h
  pend := rfl
  ent _ _ _ h := by simp [St.init] at h
  pool _ _ h := by simp [St.init] at h
  fs := ⟨fun p i h => by simp [St.init] at h, fun p q i h => by simp [St.init] at h,
    fun p c _ h => by simp [St.init, FS.read] at h⟩
  poolFile _ _ := by simp [St.init]
  repoFile _ _ _ _ := by simp [St.init, St.has]
  dFile _ _ _ h := by simp [St.init, St.hasDelta] at h
  noOrphan _ _ _ h := by simp [St.init] at h

/-! ## File-level preservation -/

theorem FInv.linked {W : World} {fs fs' : FS} {src dst : Path} (h : FInv W fs)
    (hl : FS.Linked fs fs' src dst) (ho : src.owner = dst.owner) (hna : dst.isAsset = false)
    (hb : src.base = dst.base) (hsa : src.isAsset = false) : FInv W fs' := by
  have hfr := h.fresh
  refine ⟨hfr.linking hl.linking, ?_, ?_⟩
  · intro p q i hp hq
    obtain ⟨j, hj, _, _, hor⟩ := hl.dst
    have key : ∀ p, p ≠ dst → fs'.tab p = some j → p.owner = dst.owner := by
      intro p hpd hp
      rw [hl.tab p hpd] at hp
      rcases hor with h1 | h1
      · rw [← ho]; exact h.owner p src j hp h1
      · exact absurd (hfr p j hp) (by omega)
    by_cases e1 : p = dst <;> by_cases e2 : q = dst
    · rw [e1, e2]
    · subst e1; rw [hj] at hp; cases hp; exact (key q e2 hq).symm
    · subst e2; rw [hj] at hq; cases hq; exact key p e1 hp
    · rw [hl.tab p e1] at hp; rw [hl.tab q e2] at hq
      exact h.owner p q i hp hq
  · intro p c hpa hr
    by_cases e : p = dst
    · subst e
      rw [hl.read_dst] at hr
      rw [← hb]; exact h.content src c hsa hr
    · rw [hl.linking.read_ne hfr e] at hr
      exact h.content p c hpa hr

/-- Removing directory entries keeps the file invariant. -/
theorem FInv.removed {W : World} {fs fs' : FS} (h : FInv W fs) (hd : fs'.data = fs.data)
    (hn : fs'.next = fs.next) (ht : ∀ p i, fs'.tab p = some i → fs.tab p = some i) : FInv W fs' := by
  refine ⟨?_, ?_, ?_⟩
  · intro p i hp; rw [hn]; exact h.fresh p i (ht p i hp)
  · intro p q i hp hq; exact h.owner p q i (ht p i hp) (ht q i hq)
  · intro p c hpa hr
    obtain ⟨i, hi, hc⟩ := FS.read_eq_some.1 hr
    apply h.content p c hpa
    rw [FS.read_eq_some]; exact ⟨i, ht p i hi, by rw [← hc, hd]⟩

/-- Overwriting (or creating) a file in place with `c`, as CopyFile does. -/
def FS.overwrite (fs : FS) (dst : Path) (c : Content) : FS :=
  (fs.openTrunc dst).1.setData (fs.openTrunc dst).2 c

theorem FS.overwrite_tab_ne (fs : FS) (dst : Path) (c : Content) {q : Path} (hq : q ≠ dst) :
    (fs.overwrite dst c).tab q = fs.tab q := by
  unfold FS.overwrite FS.openTrunc
  cases h : fs.tab dst <;> simp [hq]

theorem FS.overwrite_read_dst (fs : FS) (dst : Path) (c : Content) :
    (fs.overwrite dst c).read dst = some c := by
  unfold FS.overwrite FS.openTrunc
  cases h : fs.tab dst <;> simp [FS.read, h]

@[simp] theorem FS.overwrite_rdir (fs : FS) (dst : Path) (c : Content) :
    (fs.overwrite dst c).rdir = fs.rdir := by
  unfold FS.overwrite FS.openTrunc
  cases h : fs.tab dst <;> simp

@[simp] theorem FS.overwrite_idx (fs : FS) (dst : Path) (c : Content) :
    (fs.overwrite dst c).idx = fs.idx := by
  unfold FS.overwrite FS.openTrunc
  cases h : fs.tab dst <;> simp

theorem FS.overwrite_read_ne {fs : FS} (hf : fs.Fresh) {dst : Path} (c : Content) {q : Path} (hq : q ≠ dst)
    (hsh : ∀ i, fs.tab dst = some i → fs.tab q ≠ some i) :
    (fs.overwrite dst c).read q = fs.read q := by
  unfold FS.read
  rw [FS.overwrite_tab_ne fs dst c hq]
  cases ht : fs.tab q with
  | none => rfl
  | some i =>
    have hlt := hf q i ht
    unfold FS.overwrite FS.openTrunc
    cases hd : fs.tab dst with
    | none =>
      have : i ≠ fs.next := by omega
      simp [this]
    | some j =>
      have : i ≠ j := by
        rintro rfl; exact hsh i hd ht
      simp [this]

theorem FS.overwrite_fresh {fs : FS} (hf : fs.Fresh) (dst : Path) (c : Content) :
    (fs.overwrite dst c).Fresh := by
  intro p i hp
  unfold FS.overwrite FS.openTrunc at hp ⊢
  cases hd : fs.tab dst with
  | none =>
    simp only [hd, FS.setData_tab, FS.setData_next] at hp ⊢
    by_cases e : p = dst
    · subst e; simp at hp; omega
    · simp [e] at hp
      have := hf p i hp; omega
  | some j =>
    simp only [hd, FS.setData_tab, FS.setData_next] at hp ⊢
    exact hf p i hp

theorem FS.overwrite_tab_dst {fs : FS} (dst : Path) (c : Content) :
    (fs.overwrite dst c).tab dst = some (fs.openTrunc dst).2 := by
  unfold FS.overwrite FS.openTrunc
  cases hd : fs.tab dst <;> simp [hd]

theorem FS.overwrite_owner {fs : FS} (hf : fs.Fresh)
    (ho : ∀ p q i, fs.tab p = some i → fs.tab q = some i → p.owner = q.owner) (dst : Path) (c : Content) :
    ∀ p q i, (fs.overwrite dst c).tab p = some i → (fs.overwrite dst c).tab q = some i →
      p.owner = q.owner := by
  cases hd : fs.tab dst with
  | some j =>
    have : (fs.overwrite dst c).tab = fs.tab := by
      unfold FS.overwrite FS.openTrunc; simp [hd]
    rw [this]; exact ho
  | none =>
    have ht : ∀ q, (fs.overwrite dst c).tab q = if q = dst then some fs.next else fs.tab q := by
      intro q; unfold FS.overwrite FS.openTrunc; simp [hd]
    intro p q i hp hq
    rw [ht] at hp hq
    by_cases e1 : p = dst <;> by_cases e2 : q = dst
    · rw [e1, e2]
    · simp [e1] at hp; simp [e2] at hq
      exact absurd (hf q i hq) (by omega)
    · simp [e1] at hp; simp [e2] at hq
      exact absurd (hf p i hp) (by omega)
    · simp [e1] at hp; simp [e2] at hq
      exact ho p q i hp hq

/-- Overwriting an asset file keeps the file invariant and every other file. -/
theorem FInv.overwrite_asset {W : World} {fs : FS} (h : FInv W fs) (r : Str) (a : Asset) (c : Content) :
    FInv W (fs.overwrite (.asset r a) c) ∧
    (∀ q, q ≠ .asset r a → (fs.overwrite (.asset r a) c).read q = fs.read q) := by
  have hread : ∀ q, q ≠ .asset r a → (fs.overwrite (.asset r a) c).read q = fs.read q := by
    intro q hq
    apply FS.overwrite_read_ne h.fresh c hq
    intro i hd hq'
    have := h.owner _ _ i hd hq'
    cases q <;> simp [Path.owner] at this
    obtain ⟨rfl, rfl⟩ := this
    exact hq rfl
  refine ⟨⟨FS.overwrite_fresh h.fresh _ _, FS.overwrite_owner h.fresh h.owner _ _, ?_⟩, hread⟩
  intro p d hpa hr
  have hne : p ≠ .asset r a := by rintro rfl; simp [Path.isAsset] at hpa
  rw [hread p hne] at hr
  exact h.content p d hpa hr

/-- Overwriting a file of delta package `d` with the right bytes or with nothing. -/
theorem FInv.overwrite_delta {W : World} {fs : FS} (h : FInv W fs) {dst : Path} {c : Content}
    (hna : dst.isAsset = false) (hdl : W.isDelta dst.base = true) (hc : c = W.canon dst.base ∨ c = []) :
    FInv W (fs.overwrite dst c) := by
  refine ⟨FS.overwrite_fresh h.fresh _ _, FS.overwrite_owner h.fresh h.owner _ _, ?_⟩
  intro p e hpa hr
  by_cases hsame : (fs.overwrite dst c).tab p = (fs.overwrite dst c).tab dst
  · -- same inode: same owner, hence same base
    have hd := FS.overwrite_tab_dst (fs := fs) dst c
    have ho := FS.overwrite_owner h.fresh h.owner dst c p dst _ (hsame.trans hd) hd
    have hb : p.base = dst.base := by
      cases p <;> cases dst <;> simp_all [Path.owner, Path.isAsset]
    have : (fs.overwrite dst c).read p = (fs.overwrite dst c).read dst := by
      unfold FS.read; rw [hsame]
    rw [this, FS.overwrite_read_dst] at hr
    cases hr
    rw [hb]
    rcases hc with rfl | rfl
    · exact Or.inl rfl
    · exact Or.inr ⟨hdl, rfl⟩
  · have hne : p ≠ dst := by rintro rfl; exact hsame rfl
    have : (fs.overwrite dst c).read p = fs.read p := by
      apply FS.overwrite_read_ne h.fresh c hne
      intro i hd hp
      apply hsame
      rw [FS.overwrite_tab_ne fs dst c hne, hp, FS.overwrite_tab_dst]
      unfold FS.openTrunc; rw [hd]
    rw [this] at hr
    exact h.content p e hpa hr

theorem copyFile_overwrite {src dst : Path} {s : St} {i : Nat} (hi : s.fs.tab src = some i) :
    (copyFile src dst s).res = .ok () ∧ (copyFile src dst s).st =
      s.setFs (s.fs.overwrite dst ((s.fs.openTrunc dst).1.data i)) := by
  rw [copyFile_run hi]; exact ⟨rfl, rfl⟩

end Ferryd
