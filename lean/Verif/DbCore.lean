import Verif.PropsDb
import Verif.CoreModel
/-!
# DbCore: the tables of the package database on the flat key space (C87)

`Verif.CoreModel` keeps the package database as separate tables.  Here the same writes are carried out through the
bucket handles of `Verif.Db` on one flat LevelDB, with encoded values, as the code does; and every read and iteration is
shown to give what the tables say.
-/
namespace Ferryd.Db

/-- The gob encoding of the stored objects (libdb/transcoder.go:57-78): decoding gives back what was encoded; gob is one such encoding: `Verif.GobCodec`. -/
structure CoreCodec where
  encPool : PoolEntry → Str
  decPool : Str → Option PoolEntry
  pool : ∀ e, decPool (encPool e) = some e
  encSkip : DeltaInfo → Str
  decSkip : Str → Option DeltaInfo
  skip : ∀ e, decSkip (encSkip e) = some e
  encRepo : Str → Str
  decRepo : Str → Option Str
  repo : ∀ i, decRepo (encRepo i) = some i
  encEnt : RepoEntry → Str
  decEnt : Str → Option RepoEntry
  ent : ∀ e, decEnt (encEnt e) = some e

variable (K : CoreCodec)

/-- The bucket call that performs a write: pool.go:122-124 putEntry, 259-290 UnrefEntry (DeleteObject), 138-140
putSkipEntry; repo.go:215-220 CreateRepo (PutObject), 288 DeleteRepo; repo.go:328-330 putEntry, 285 and 572 DeleteObject. -/
def ofWrite : DbWrite → Prog Unit
  | .putPool k e => (Bkt.handle .pool).putObject k (K.encPool e)
  | .delPool k => (Bkt.handle .pool).deleteObject k
  | .putSkip k d => (Bkt.handle .deltaSkip).putObject k (K.encSkip d)
  | .putRepo k => (Bkt.handle .repo).putObject k (K.encRepo k)
  | .delRepo k => (Bkt.handle .repo).deleteObject k
  | .putEnt r k e => (Bkt.handle (.packages r)).putObject k (K.encEnt e)
  | .delEnt r k => (Bkt.handle (.packages r)).deleteObject k

/-- Several writes, within one `Update` or directly.
E.g. repo.go:215-220, pool.go:259-289 and the `Update` blocks of repo.go. -/
def ofWrites : List DbWrite → Prog Unit
  | [] => .ret ()
  | w :: ws => (ofWrite K w).bind fun _ => ofWrites ws

/-- How the code writes: directly or in one `Update`. leveldb.go:103, 115 and 178-193. -/
inductive Call
  | direct (w : DbWrite)
  | update (ws : List DbWrite)

/-- On the flat database. leveldb.go:89-116, 178-193. -/
def Call.flat (raw : Raw) : Call → DOut Unit
  | .direct w => Db.direct (ofWrite K w) raw
  | .update ws => Db.update (ofWrites K ws) raw

/-- On the tables (`dbWrite`, `dbUpdate` of `Verif.CoreModel`): a reserved key is an error, and an `Update` with an error
changes nothing. leveldb.go:89-116, 178-193. -/
def Call.tables (d : DB) : Call → DB
  | .direct w => if reservedKey w.key then d else w.apply d
  | .update ws => if ws.any fun w => reservedKey w.key then d else ws.foldl DbWrite.apply d
/-- A new database (leveldb.go:49-62). -/
def emptyTables : DB := ⟨[], [], [], fun _ => []⟩

/-- After a history of calls on a new database. leveldb.go:89-116, 178-193. -/
def flatAfter (cs : List Call) : Raw := cs.foldl (fun raw c => (c.flat K raw).raw) []
/-- The same on the tables. -/
def tablesAfter (cs : List Call) : DB := cs.foldl (fun d c => c.tables d) emptyTables

/-- The repository of a write to a package bucket. (No code: a notion of the statements and proofs.) -/
def repoOf : DbWrite → Option Str
  | .putEnt r _ _ => some r
  | .delEnt r _ => some r
  | _ => none

/-- A repository name that does not contain `-package`.
(No code: a notion of the statements and proofs.) See C47 for names that do. -/
def SafeName (r : Str) : Prop := ¬ sep <:+: r
/-- Only repositories with safe names are written to. (No code: a notion of the statements and proofs.) -/
def Call.Safe : Call → Prop
  | .direct w => ∀ r, repoOf w = some r → SafeName r
  | .update ws => ∀ w ∈ ws, ∀ r, repoOf w = some r → SafeName r

/-- The flat database says what the tables say: the same answer to every read, and every iteration visits the rows of
the table, once each, in key order. (No code: a notion of the statements and proofs.) -/
structure Agree (raw : Raw) (d : DB) : Prop where
  readPool : ∀ id, (Bkt.read .pool raw id).bind K.decPool = d.pool.get id
  readSkip : ∀ id, (Bkt.read .deltaSkip raw id).bind K.decSkip = d.skip.get id
  readRepo : ∀ id, (Bkt.read .repo raw id).bind K.decRepo = (d.repos.get id).map fun _ => id
  readEnt : ∀ r id, SafeName r → (Bkt.read (.packages r) raw id).bind K.decEnt = (d.ents r).get id
  eachPool : (Bkt.iterates .pool raw).map (fun kv => (kv.1, K.decPool kv.2)) = d.pool.map fun kv => (kv.1, some kv.2)
  eachRepo : (Bkt.iterates .repo raw).map (fun kv => (kv.1, K.decRepo kv.2)) = d.repos.map fun kv => (kv.1, some kv.1)
  eachEnt : ∀ r, SafeName r →
    (Bkt.iterates (.packages r) raw).map (fun kv => (kv.1, K.decEnt kv.2)) = (d.ents r).map fun kv => (kv.1, some kv.2)

/-! ## Proof -/

/-- A table with encoded values. (No code: used in the proofs only.) -/
def encKV {α : Type} (f : α → Str) (m : KV α) : KV Str := m.map fun kv => (kv.1, f kv.2)

theorem encKV_get {α : Type} (f : α → Str) (m : KV α) (k : Str) : (encKV f m).get k = (m.get k).map f := by
  induction m with
  | nil => rfl
  | cons kv m ih =>
    obtain ⟨k', v⟩ := kv
    simp only [encKV, List.map_cons, KV.get]
    split
    · rfl
    · exact ih

theorem encKV_put {α : Type} (f : α → Str) (m : KV α) (k : Str) (v : α) : (encKV f m).put k (f v) = encKV f (m.put k v) := by
  induction m with
  | nil => rfl
  | cons kv m ih =>
    obtain ⟨k', v'⟩ := kv
    simp only [encKV, List.map_cons, KV.put] at ih ⊢
    split
    · rfl
    · split
      · rfl
      · simp only [List.map_cons]; rw [ih]

theorem encKV_del {α : Type} (f : α → Str) (m : KV α) (k : Str) : (encKV f m).del k = encKV f (m.del k) := by
  induction m with
  | nil => rfl
  | cons kv m ih =>
    obtain ⟨k', v'⟩ := kv
    simp only [encKV, List.map_cons, KV.del] at ih ⊢
    split
    · exact ih
    · simp only [List.map_cons]; rw [ih]

/-- The same where the value is a function of the key. -/
theorem keyKV_get (f : Str → Str) (m : KV Unit) (k : Str) :
    KV.get (m.map fun kv => (kv.1, f kv.1)) k = (m.get k).map fun _ => f k := by
  induction m with
  | nil => rfl
  | cons kv m ih =>
    obtain ⟨k', v⟩ := kv
    simp only [List.map_cons, KV.get]
    split
    · rename_i e; subst e; rfl
    · exact ih

theorem keyKV_put (f : Str → Str) (m : KV Unit) (k : Str) :
    KV.put (m.map fun kv => (kv.1, f kv.1)) k (f k) = (m.put k ()).map fun kv => (kv.1, f kv.1) := by
  induction m with
  | nil => rfl
  | cons kv m ih =>
    obtain ⟨k', v'⟩ := kv
    simp only [List.map_cons, KV.put] at ih ⊢
    split
    · rfl
    · split
      · rfl
      · simp only [List.map_cons]; rw [ih]

theorem keyKV_del (f : Str → Str) (m : KV Unit) (k : Str) :
    KV.del (m.map fun kv => (kv.1, f kv.1)) k = (m.del k).map fun kv => (kv.1, f kv.1) := by
  induction m with
  | nil => rfl
  | cons kv m ih =>
    obtain ⟨k', v'⟩ := kv
    simp only [List.map_cons, KV.del] at ih ⊢
    split
    · exact ih
    · simp only [List.map_cons]; rw [ih]

/-- The encoded table of a bucket. (No code: used in the proofs only.) -/
def rows (d : DB) : Bkt → KV Str
  | .pool => encKV K.encPool d.pool
  | .deltaSkip => encKV K.encSkip d.skip
  | .repo => d.repos.map fun kv => (kv.1, K.encRepo kv.1)
  | .packages r => encKV K.encEnt (d.ents r)
/-- (No code: used in the proofs only.) -/
def SafeBkt : Bkt → Prop
  | .packages r => SafeName r
  | _ => True

theorem safe_separate {b b' : Bkt} (hb : SafeBkt b) (hb' : SafeBkt b') (h : b ≠ b') : Separate b b' := by
  cases b <;> cases b' <;> first
    | exact h
    | exact ⟨fun e => h (by rw [e]), hb, hb'⟩
/-- The relation between flat database and tables. (No code: used in the proofs only.) -/
structure Rep (raw : Raw) (d : DB) : Prop where
  wf : raw.WF
  clean : ∀ b, SafeBkt b → Clean b.handle raw
  view : ∀ b, SafeBkt b → b.handle.view raw = rows K d b
/-- The bucket of a write. (No code: used in the proofs only.) -/
def bktOf : DbWrite → Bkt
  | .putPool _ _ => .pool
  | .delPool _ => .pool
  | .putSkip _ _ => .deltaSkip
  | .putRepo _ => .repo
  | .delRepo _ => .repo
  | .putEnt r _ _ => .packages r
  | .delEnt r _ => .packages r

/-- The effect of an accepted write on the flat database. (No code: used in the proofs only.) -/
def opOf : DbWrite → BOp
  | .putPool k e => .put ((Bkt.handle .pool).realKey k) (K.encPool e)
  | .delPool k => .del ((Bkt.handle .pool).realKey k)
  | .putSkip k d => .put ((Bkt.handle .deltaSkip).realKey k) (K.encSkip d)
  | .putRepo k => .put ((Bkt.handle .repo).realKey k) (K.encRepo k)
  | .delRepo k => .del ((Bkt.handle .repo).realKey k)
  | .putEnt r k e => .put ((Bkt.handle (.packages r)).realKey k) (K.encEnt e)
  | .delEnt r k => .del ((Bkt.handle (.packages r)).realKey k)

theorem reserved_eq (k : Str) : reserved k = reservedKey k := rfl

theorem ofWrite_eq (w : DbWrite) : ofWrite K w = if reservedKey w.key then .fail .reservedKey else .write (opOf K w) (.ret ()) := by
  cases w <;> rfl

variable {K} {raw : Raw} {d : DB}

theorem Rep.put (h : Rep K raw d) {b : Bkt} (hb : SafeBkt b) (k v : Str) {d' : DB} (hself : rows K d' b = (rows K d b).put k v)
    (hother : ∀ b', b' ≠ b → rows K d' b' = rows K d b') : Rep K (raw.put (b.handle.realKey k) v) d' := by
  refine ⟨h.wf.put _ _, ?_, ?_⟩
  · intro b' hb'
    by_cases e : b' = b
    · subst e; exact (h.clean b' hb').put_self _ _
    · exact (h.clean b' hb').put_other _ ((safe_separate hb' hb e).apart.not_range _)
  · intro b' hb'
    by_cases e : b' = b
    · subst e; rw [view_put h.wf, h.view b' hb', hself]
    · rw [view_put_other h.wf _ (fun id => (safe_separate hb' hb e).apart.realKey_ne _ _), h.view b' hb', hother b' e]

theorem Rep.del (h : Rep K raw d) {b : Bkt} (hb : SafeBkt b) (k : Str) {d' : DB} (hself : rows K d' b = (rows K d b).del k)
    (hother : ∀ b', b' ≠ b → rows K d' b' = rows K d b') : Rep K (raw.del (b.handle.realKey k)) d' := by
  refine ⟨h.wf.del _, ?_, ?_⟩
  · intro b' hb'
    exact (h.clean b' hb').del _
  · intro b' hb'
    by_cases e : b' = b
    · subst e; rw [view_del h.wf, h.view b' hb', hself]
    · rw [view_del_other h.wf (fun id => (safe_separate hb' hb e).apart.realKey_ne _ _), h.view b' hb', hother b' e]

theorem setEnts_self (f : Str → KV RepoEntry) (r : Str) (m : KV RepoEntry) : setEnts f r m r = m := by simp [setEnts]

theorem Rep.apply (h : Rep K raw d) (w : DbWrite) (hs : ∀ r, repoOf w = some r → SafeName r) :
    Rep K ((opOf K w).apply raw) (w.apply d) := by
  cases w with
  | putPool k e =>
    refine h.put (b := .pool) trivial _ _ ?_ ?_
    · simp only [rows, DbWrite.apply, encKV_put]
    · intro b' hb'; cases b' <;> first | rfl | exact absurd rfl hb'
  | delPool k =>
    refine h.del (b := .pool) trivial _ ?_ ?_
    · simp only [rows, DbWrite.apply, encKV_del]
    · intro b' hb'; cases b' <;> first | rfl | exact absurd rfl hb'
  | putSkip k e =>
    refine h.put (b := .deltaSkip) trivial _ _ ?_ ?_
    · simp only [rows, DbWrite.apply, encKV_put]
    · intro b' hb'; cases b' <;> first | rfl | exact absurd rfl hb'
  | putRepo k =>
    refine h.put (b := .repo) trivial _ _ ?_ ?_
    · exact (keyKV_put K.encRepo d.repos k).symm
    · intro b' hb'; cases b' <;> first | rfl | exact absurd rfl hb'
  | delRepo k =>
    refine h.del (b := .repo) trivial _ ?_ ?_
    · exact (keyKV_del K.encRepo d.repos k).symm
    · intro b' hb'; cases b' <;> first | rfl | exact absurd rfl hb'
  | putEnt r k e =>
    refine h.put (b := .packages r) (hs r rfl) _ _ ?_ ?_
    · simp only [rows, DbWrite.apply, encKV_put, setEnts_self]
    · intro b' hb'
      cases b' with
      | packages r' =>
        have : r' ≠ r := fun e => hb' (by rw [e])
        simp only [rows, DbWrite.apply, setEnts, if_neg this]
      | _ => rfl
  | delEnt r k =>
    refine h.del (b := .packages r) (hs r rfl) _ ?_ ?_
    · simp only [rows, DbWrite.apply, encKV_del, setEnts_self]
    · intro b' hb'
      cases b' with
      | packages r' =>
        have : r' ≠ r := fun e => hb' (by rw [e])
        simp only [rows, DbWrite.apply, setEnts, if_neg this]
      | _ => rfl

theorem Rep.applyAll (ws : List DbWrite) {raw : Raw} {d : DB} (h : Rep K raw d)
    (hs : ∀ w ∈ ws, ∀ r, repoOf w = some r → SafeName r) :
    Rep K (Db.applyAll raw (ws.map (opOf K))) (ws.foldl DbWrite.apply d) := by
  induction ws generalizing raw d with
  | nil => exact h
  | cons w ws ih =>
    exact ih (h.apply w (hs w (by simp))) (fun x hx => hs x (List.mem_cons_of_mem _ hx))

theorem runTx_ofWrites (raw : Raw) (ws : List DbWrite) (b : List BOp) :
    runTx raw (ofWrites K ws) b =
      if ws.any (fun w => reservedKey w.key) then (.error .reservedKey, (runTx raw (ofWrites K ws) b).2)
      else (.ok (), b ++ ws.map (opOf K)) := by
  induction ws generalizing b with
  | nil => simp [ofWrites, runTx]
  | cons w ws ih =>
    simp only [ofWrites, ofWrite_eq, List.any_cons]
    by_cases hr : reservedKey w.key
    · simp [hr, Prog.bind, runTx]
    · simp only [hr, Prog.bind, runTx, Bool.false_or, Bool.false_eq_true, ↓reduceIte]
      rw [ih (b ++ [opOf K w])]
      split
      · rfl
      · simp

theorem Rep.call (h : Rep K raw d) (c : Call) (hs : c.Safe) :
    Rep K (c.flat K raw).raw (c.tables d) ∧ ∀ x ∈ (c.flat K raw).tr, x = raw ∨ x = (c.flat K raw).raw := by
  cases c with
  | direct w =>
    simp only [Call.flat, Call.tables, ofWrite_eq]
    split
    · exact ⟨h, by simp [Db.direct]⟩
    · exact ⟨h.apply w hs, by simp [Db.direct]⟩
  | update ws =>
    simp only [Call.flat, Call.tables, Db.update]
    rw [runTx_ofWrites]
    by_cases hh : ws.any (fun w => reservedKey w.key) = true
    · simp only [if_pos hh]
      exact ⟨h, by simp⟩
    · simp only [if_neg hh]
      exact ⟨h.applyAll ws hs, by simp⟩

theorem Rep.nil : Rep K [] emptyTables := by
  refine ⟨KV.WF_nil, fun b _ k hk _ => by simp [KV.keys] at hk, fun b _ => ?_⟩
  cases b <;> rfl

theorem decode_rows {α : Type} {enc : α → Str} {dec : Str → Option α} (h : ∀ a, dec (enc a) = some a) (m : KV α) :
    (encKV enc m).map (fun kv => (kv.1, dec kv.2)) = m.map fun kv => (kv.1, some kv.2) := by
  simp [encKV, h]

theorem decode_get {α : Type} {enc : α → Str} {dec : Str → Option α} (h : ∀ a, dec (enc a) = some a) (m : KV α) (k : Str) :
    ((encKV enc m).get k).bind dec = m.get k := by
  rw [encKV_get]; cases m.get k <;> simp [h]

theorem Rep.agree (h : Rep K raw d) : Agree K raw d := by
  have rd : ∀ b, SafeBkt b → ∀ id, b.read raw id = (rows K d b).get id := by
    intro b hb id
    rw [read_eq, ← view_get h.wf, h.view b hb]
  have it : ∀ b, SafeBkt b → b.iterates raw = rows K d b := by
    intro b hb
    rw [iterates_eq, visits_eq_view (handle_OK b) (h.clean b hb), h.view b hb]
  refine ⟨?_, ?_, ?_, ?_, ?_, ?_, ?_⟩
  · intro id; rw [rd .pool trivial]; exact decode_get K.pool _ _
  · intro id; rw [rd .deltaSkip trivial]; exact decode_get K.skip _ _
  · intro id; rw [rd .repo trivial]
    simp only [rows, keyKV_get]; cases d.repos.get id <;> simp [K.repo]
  · intro r id hr; rw [rd (.packages r) hr]; exact decode_get K.ent _ _
  · rw [it .pool trivial]; exact decode_rows K.pool _
  · rw [it .repo trivial]; simp [rows, K.repo]
  · intro r hr; rw [it (.packages r) hr]; exact decode_rows K.ent _

/-- Histories of safe calls, and any crash in the middle of the last one. -/
theorem rep_after (cs : List Call) (hs : ∀ c ∈ cs, c.Safe) : Rep K (flatAfter K cs) (tablesAfter cs) := by
  induction cs using list_snoc_induction with
  | h0 => exact Rep.nil
  | h1 cs c ih =>
    have := (ih (fun x hx => hs x (List.mem_append_left _ hx))).call c (hs c (by simp))
    simp only [flatAfter, tablesAfter, List.foldl_append, List.foldl_cons, List.foldl_nil] at this ⊢
    exact this.1

/-- **C87** For every history of writes and updates to pool, failed deltas, repositories and the repositories' packages,
with repository names that do not contain `-package`, the flat database answers every read and every iteration as separate
tables would. -/
theorem C87_tables (cs : List Call) (hs : ∀ c ∈ cs, c.Safe) : Agree K (flatAfter K cs) (tablesAfter cs) :=
  (rep_after cs hs).agree

/-- **C87** at crash points: what a restart finds after a crash in the middle of a call are the tables before it or
after it. -/
theorem C87_tables_crash (cs : List Call) (hs : ∀ c ∈ cs, c.Safe) (c : Call) (hc : c.Safe) {x : Raw}
    (hx : x ∈ (c.flat K (flatAfter K cs)).tr) :
    Agree K x (tablesAfter cs) ∨ Agree K x (c.tables (tablesAfter cs)) := by
  have h := rep_after (K := K) cs hs
  rcases (h.call c hc).2 x hx with rfl | rfl
  · exact .inl h.agree
  · exact .inr (h.call c hc).1.agree

/-- **C87** A call is refused, with an error, exactly when it names a reserved key (libdb/leveldb.go:90, 108), and then
changes nothing. -/
theorem C87_refused (c : Call) (raw : Raw) :
    ((c.flat K raw).res = .error .reservedKey ↔
      ∃ w, (c = .direct w ∨ ∃ ws, c = .update ws ∧ w ∈ ws) ∧ (bktTag <+: w.key ∨ rootTag <+: w.key)) ∧
    ((c.flat K raw).res = .ok () ∨ ((c.flat K raw).res = .error .reservedKey ∧ (c.flat K raw).raw = raw)) := by
  have hk : ∀ w : DbWrite, (bktTag <+: w.key ∨ rootTag <+: w.key) ↔ reservedKey w.key = true := by
    intro w
    rw [← reserved_eq, reserved, Bool.or_eq_true, List.isPrefixOf_iff_prefix, List.isPrefixOf_iff_prefix]
  simp only [hk]
  cases c with
  | direct w =>
    simp only [Call.flat, ofWrite_eq]
    by_cases hr : reservedKey w.key = true
    · simp [hr, Db.direct]
    · simp [hr, Db.direct]
  | update ws =>
    simp only [Call.flat, Db.update]
    rw [runTx_ofWrites]
    by_cases hh : ws.any (fun w => reservedKey w.key) = true
    · simp only [if_pos hh]
      rw [List.any_eq_true] at hh
      obtain ⟨w, hw, hwr⟩ := hh
      exact ⟨⟨fun _ => ⟨w, .inr ⟨ws, rfl, hw⟩, hwr⟩, fun _ => trivial⟩, .inr ⟨trivial, trivial⟩⟩
    · simp only [if_neg hh]
      refine ⟨?_, .inl trivial⟩
      constructor
      · intro h; cases h
      rintro ⟨w, h | ⟨ws', h, hw⟩, hwr⟩
      · cases h
      · cases h
        exact absurd (List.any_eq_true.2 ⟨w, hw, hwr⟩) hh

/-- The condition is met by, for instance, this history (with a name that merely contains "package"). -/
example : ∀ c ∈ ([.direct (.putRepo ['a']), .direct (.putPool ['p'] ⟨['p'], 1, ⟨[], [], [], [], [], [], 0, [], []⟩, none⟩),
    .update [.putEnt ['p', 'a', 'c', 'k', 'a', 'g', 'e'] ['n'] ⟨['n'], [['p']], ['p'], []⟩, .delPool ['p'],
      .delEnt ['b'] ['m']], .update [.putRepo bktTag]] : List Call), c.Safe := by
  intro c hc
  simp only [List.mem_cons, List.not_mem_nil, or_false] at hc
  rcases hc with rfl | rfl | rfl | rfl
  · intro r hr; cases hr
  · intro r hr; cases hr
  · intro w hw r hr
    simp only [List.mem_cons, List.not_mem_nil, or_false] at hw
    rcases hw with rfl | rfl | rfl
    · cases hr; unfold SafeName; decide +kernel
    · cases hr
    · cases hr; unfold SafeName; decide +kernel
  · intro w hw r hr
    simp only [List.mem_cons, List.not_mem_nil, or_false] at hw
    subst hw; cases hr

end Ferryd.Db
