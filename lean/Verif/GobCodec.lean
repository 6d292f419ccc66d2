import Verif.PropsGob
import Verif.JobsParams
import Verif.PropsListing
/-!
# GobCodec: gob as the encoding of the databases (C157)

The theorems about the queue of jobs and about the package database hold for every encoding that can be read back
(`Jobs.Codec`, `Db.CoreCodec`).  Here are such encodings that write, for every value Go can hold, exactly what gob writes.
Values that Go cannot hold (numbers without bound, strings of more than 8 GiB) get some other encoding.
-/
namespace Ferryd.Gob
open Ferryd.Jobs (JobEntry Record Timing encS decS decS_encS encN decN decN_encN)

/-! ## An encoding without limits, for the values outside Go -/

/-- An encoding. (No code: see above.) -/
structure Ser (α : Type) where
  enc : α → Str
  dec : Str → Option (α × Str)
  law : ∀ a r, dec (enc a ++ r) = some (a, r)

/-- (No code.) -/
def Ser.str : Ser Str := ⟨encS, decS, decS_encS⟩
/-- (No code.) -/
def Ser.nat : Ser Nat := ⟨encN, decN, decN_encN⟩
/-- (No code.) -/
def Ser.map {α β} (S : Ser α) (into : β → α) (of : α → β) (h : ∀ b, of (into b) = b) : Ser β where
  enc b := S.enc (into b)
  dec s := (S.dec s).map fun x => (of x.1, x.2)
  law b r := by rw [S.law]; simp [h]
/-- (No code.) -/
def Ser.pair {α β} (S : Ser α) (T : Ser β) : Ser (α × β) where
  enc x := S.enc x.1 ++ T.enc x.2
  dec s := (S.dec s).bind fun x => (T.dec x.2).map fun y => ((x.1, y.1), y.2)
  law x r := by rw [List.append_assoc, S.law, Option.bind_some, T.law]; rfl
/-- (No code.) -/
def Ser.listN {α} (S : Ser α) : Nat → Str → Option (List α × Str)
  | 0, s => some ([], s)
  | n + 1, s => (S.dec s).bind fun x => (S.listN n x.2).map fun y => (x.1 :: y.1, y.2)
/-- (No code.) -/
def Ser.list {α} (S : Ser α) : Ser (List α) where
  enc l := encN l.length ++ l.flatMap S.enc
  dec s := (decN s).bind fun x => S.listN x.1 x.2
  law l r := by
    rw [List.append_assoc, decN_encN, Option.bind_some]
    show S.listN l.length _ = _
    induction l with
    | nil => rfl
    | cons a l ih =>
      show (S.dec (S.enc a ++ l.flatMap S.enc ++ r)).bind _ = _
      rw [List.append_assoc, S.law, Option.bind_some]
      show (S.listN l.length _).map _ = _
      rw [ih]; rfl
/-- (No code.) -/
def Ser.bool : Ser Bool := Ser.nat.map (fun b => if b then 1 else 0) (· == 1) (fun b => by cases b <;> rfl)
/-- (No code.) -/
def Ser.int : Ser Int := Ser.nat.map (fun i => if i < 0 then 2 * (-i - 1).toNat + 1 else 2 * i.toNat) toInt (fun i => by
  unfold toInt
  split
  · split <;> omega
  · split <;> omega)
/-- (No code.) -/
def Ser.opt {α} (S : Ser α) : Ser (Option α) := S.list.map Option.toList List.head? (fun o => by cases o <;> rfl)

/-! ## Gob where it applies -/

/-- A byte that no stream of gob begins with. (No code.) -/
def mark : Char := Char.ofNat 256

theorem encUint_head {n : Nat} (h : n < 2 ^ 64) (r : Str) : (encUint n ++ r).head? ≠ some mark := by
  have hm : mark.toNat = 256 := by decide
  have key : ∀ k, k < 256 → byte k ≠ mark := fun k hk e => by
    have := byte_toNat hk
    rw [e, hm] at this
    omega
  unfold encUint
  split
  · next hn => simpa using key n (by omega)
  · obtain ⟨_, h1, h2⟩ : n < 256 ^ width n ∧ 1 ≤ width n ∧ width n ≤ 8 := widthN_spec 7 n (by simpa using h)
    simpa using key (256 - width n) (by omega)

section
variable {α : Type} [DecidableEq α]

/-- What gob writes if that can be read back. (No code: see above.) -/
def write (H : Header) (F : Fmt α) (S : Ser α) (a : α) : Str :=
  match encode H F a with
  | some b => if decode F F.zero b = some a ∧ b.head? ≠ some mark then b else mark :: S.enc a
  | none => mark :: S.enc a
/-- (No code: see above.) -/
def read (F : Fmt α) (S : Ser α) : Str → Option α
  | [] => none
  | c :: s => if c = mark then (S.dec s).map Prod.fst else decode F F.zero (c :: s)

omit [DecidableEq α] in
theorem decode_nil (F : Fmt α) (a : α) : decode F a [] = none := rfl

theorem read_write (H : Header) (F : Fmt α) (S : Ser α) (a : α) : read F S (write H F S a) = some a := by
  have hf : read F S (mark :: S.enc a) = some a := by
    have := S.law a []
    rw [List.append_nil] at this
    have e : read F S (mark :: S.enc a) = (S.dec (S.enc a)).map Prod.fst := by simp [read]
    rw [e, this]; rfl
  unfold write
  split
  · next b hb =>
    split
    · next h =>
      cases b with
      | nil => rw [decode_nil] at h; exact absurd h.1 (by simp)
      | cons c s =>
        have e : read F S (c :: s) = decode F F.zero (c :: s) := if_neg (by simpa using h.2)
        rw [e]
        exact h.1
    · exact hf
  · exact hf

omit [DecidableEq α] in
theorem encode_head {F : Fmt α} {H : Header} (hH : Spec.Defines H) {a : α} {b : Str} (h : encode H F a = some b) : b.head? ≠ some mark := by
  unfold encode at h
  dsimp only at h
  split at h
  · cases h
  · next hl =>
    obtain rfl := Option.some.inj h
    cases hd : H.defs with
    | nil => exact encUint_head (by unfold tooBig at hl; omega) _
    | cons c ds =>
      have := (hH.defs c (by simp [hd])).1
      show (encUint c.length ++ c ++ ds.flatMap message ++ _).head? ≠ _
      rw [List.append_assoc, List.append_assoc]
      exact encUint_head (by omega) _

/-- On the values Go can hold it is gob. -/
theorem write_eq {F : Fmt α} {ok : α → Prop} (hF : Full F ok) {S : Ser α} {H : Header} (hH : Spec.Defines H) {a : α} (ha : ok a) {b : Str}
    (h : encode H F a = some b) : write H F S a = b := by
  unfold write
  rw [h]
  exact if_pos ⟨decode_encode hF ha hH h, encode_head hH h⟩
end

/-! ## The queue of jobs -/

/-- (No code.) -/
def Ser.timing : Ser Timing :=
  (Ser.nat.pair (Ser.nat.pair Ser.nat)).map (fun t => (t.queued, t.begin_, t.end_)) (fun x => ⟨x.1, x.2.1, x.2.2⟩) (fun _ => rfl)
/-- (No code.) -/
def Ser.job : Ser JobEntry :=
  (Ser.str.pair (Ser.bool.pair (Ser.str.list.pair Ser.timing))).map (fun j => (j.type, j.claimed, j.params, j.timing))
    (fun x => ⟨x.1, x.2.1, x.2.2.1, x.2.2.2⟩) (fun _ => rfl)
/-- (No code.) -/
def Ser.record : Ser Record :=
  (Ser.str.pair (Ser.timing.pair (Ser.bool.pair Ser.str))).map (fun j => (j.description, j.timing, j.failed, j.error))
    (fun x => ⟨x.1, x.2.1, x.2.2.1, x.2.2.2⟩) (fun _ => rfl)

/-- Gob as the encoding of the job store; `J`, `R`, `I`: what the streams of the three types begin with.
jobs/store.go:134, 190, 231, 244, 267, 318; libdb/transcoder.go:57-78. -/
def jobCodec (J R I : Header) : Jobs.Codec where
  encJ := write J jobF Ser.job
  decJ := read jobF Ser.job
  encR := write R recordF Ser.record
  decR := read recordF Ser.record
  encI := write I indexF Ser.nat
  decI := read indexF Ser.nat
  lawJ := read_write J jobF Ser.job
  lawR := read_write R recordF Ser.record
  lawI := read_write I indexF Ser.nat

/-! ## The package database

The model keeps only the fields of a package's metadata that the daemon works with: the bytes are those of a package whose other
fields are empty. -/

/-- core/repo.go:86-92; the version is that of `RepoSchemaVersion`, repo.go:49. -/
def toEntry (e : Ferryd.RepoEntry) : RepoEntry := ⟨n!"1.0", e.name, e.available, e.published, e.deltas⟩
/-- (No code: forgets the version.) -/
def ofEntry (e : RepoEntry) : Ferryd.RepoEntry := ⟨e.name, e.available, e.published, e.deltas⟩
/-- core/pool.go:46-51. -/
def toDelta (d : DeltaInfo) : DeltaInformation := ⟨d.fromRelease, d.fromID, d.toRelease, d.toID⟩
/-- core/pool.go:46-51. -/
def ofDelta (d : DeltaInformation) : DeltaInfo := ⟨d.fromRelease, d.fromID, d.toRelease, d.toID⟩
/-- core/pool.go:55-59; the name of the entry is the key it is stored under, of which the model keeps only the key. -/
def toSkip (d : DeltaInfo) : DeltaSkipEntry := ⟨n!"1.0", [], toDelta d⟩
/-- (No code: forgets version and name.) -/
def ofSkip (d : DeltaSkipEntry) : DeltaInfo := ofDelta d.delta
/-- libeopkg/metadata.go:113-150: fields outside the model are empty. -/
def toPackage (m : Meta) : Xml.Package where
  name := m.name
  summary := []
  description := []
  isA := []
  partOf := []
  license := []
  dependencies := none
  conflicts := none
  replaces := none
  provides := none
  history := m.history.map fun u => ⟨u.release, [], [], u.version, [], [], [], none⟩
  buildHost := []
  distribution := []
  distributionRelease := m.distRelease
  architecture := m.arch
  installedSize := 0
  size := m.size
  hash := m.hash
  uri := m.uri
  deltas := if m.own = [] then none else some (m.own.map fun d => ⟨d.releaseFrom, d.uri, d.size, d.hash⟩)
  format := []
  source := ⟨m.source, [], ⟨[], []⟩⟩
/-- (No code: forgets the fields outside the model.) -/
def ofPackage (p : Xml.Package) : Meta where
  name := p.name
  source := p.source.name
  history := p.history.map fun u => ⟨u.release, u.version⟩
  distRelease := p.distributionRelease
  arch := p.architecture
  hash := p.hash
  size := p.size.toNat
  uri := p.uri
  own := (p.deltas.getD []).map fun d => ⟨d.releaseFrom, d.uri, d.size.toNat, d.hash⟩
/-- core/pool.go:68-74; the version is that of `PoolSchemaVersion`, pool.go:41. -/
def toPool (e : Ferryd.PoolEntry) : PoolEntry := ⟨n!"1.0", e.name, e.refCount, some (toPackage e.pkg), e.delta.map toDelta⟩
/-- (No code: forgets the fields outside the model.) -/
def ofPool (e : PoolEntry) : Ferryd.PoolEntry := ⟨e.name, e.refCount, (e.pkg.map ofPackage).getD ⟨[], [], [], [], [], [], 0, [], []⟩, e.delta.map ofDelta⟩

theorem ofEntry_toEntry (e : Ferryd.RepoEntry) : ofEntry (toEntry e) = e := rfl
theorem ofSkip_toSkip (d : DeltaInfo) : ofSkip (toSkip d) = d := rfl
theorem ofPackage_toPackage (m : Meta) : ofPackage (toPackage m) = m := by
  obtain ⟨n, s, h, dr, ar, ha, si, ur, ow⟩ := m
  unfold toPackage ofPackage
  dsimp only
  congr 1
  · rw [List.map_map]; exact List.map_id h
  · split
    · next h => rw [h]; rfl
    · show List.map _ (List.map _ ow) = _
      rw [List.map_map]; exact List.map_id ow
theorem ofPool_toPool (e : Ferryd.PoolEntry) : ofPool (toPool e) = e := by
  obtain ⟨n, r, p, d⟩ := e
  unfold ofPool toPool
  dsimp only [Option.map_some, Option.getD_some]
  rw [ofPackage_toPackage]
  cases d <;> rfl

/-- A type seen through another. (No code.) -/
def Ser.entry : Ser Ferryd.RepoEntry :=
  (Ser.str.pair (Ser.str.list.pair (Ser.str.pair Ser.str.list))).map (fun e => (e.name, e.available, e.published, e.deltas))
    (fun x => ⟨x.1, x.2.1, x.2.2.1, x.2.2.2⟩) (fun _ => rfl)
/-- (No code.) -/
def Ser.delta : Ser DeltaInfo :=
  (Ser.int.pair (Ser.str.pair (Ser.int.pair Ser.str))).map (fun e => (e.fromRelease, e.fromID, e.toRelease, e.toID))
    (fun x => ⟨x.1, x.2.1, x.2.2.1, x.2.2.2⟩) (fun _ => rfl)
/-- (No code.) -/
def Ser.pkg : Ser Meta :=
  (Ser.str.pair (Ser.str.pair ((Ser.int.pair Ser.str).list.pair (Ser.str.pair (Ser.str.pair (Ser.str.pair (Ser.nat.pair (Ser.str.pair
    (Ser.int.pair (Ser.str.pair (Ser.nat.pair Ser.str))).list)))))))).map
    (fun m => (m.name, m.source, m.history.map (fun u => (u.release, u.version)), m.distRelease, m.arch, m.hash, m.size, m.uri,
      m.own.map (fun d => (d.releaseFrom, d.uri, d.size, d.hash))))
    (fun (a, b, c, d, e, f, g, h, i) =>
      ⟨a, b, c.map (fun x => ⟨x.1, x.2⟩), d, e, f, g, h, i.map (fun x => ⟨x.1, x.2.1, x.2.2.1, x.2.2.2⟩)⟩)
    (fun m => by
      obtain ⟨n, s, h, dr, ar, ha, si, ur, ow⟩ := m
      dsimp only
      rw [List.map_map, List.map_map]
      congr 1
      · exact List.map_id h
      · exact List.map_id ow)
/-- (No code.) -/
def Ser.pool : Ser Ferryd.PoolEntry :=
  (Ser.str.pair (Ser.nat.pair (Ser.pkg.pair Ser.delta.opt))).map (fun e => (e.name, e.refCount, e.pkg, e.delta))
    (fun x => ⟨x.1, x.2.1, x.2.2.1, x.2.2.2⟩) (fun _ => rfl)

/-- A format for a type that is stored as another. (No code.) -/
def Fmt.as {α β} (F : Fmt α) (into : β → α) (of : α → β) : Fmt β where
  zero := of F.zero
  isZero b := F.isZero (into b)
  enc b := F.enc (into b)
  dec _ s := (F.dec F.zero s).map fun x => (of x.1, x.2)

theorem Full.as {α β} {F : Fmt α} {ok : α → Prop} (hF : Full F ok) {into : β → α} {of : α → β} (h : ∀ b, of (into b) = b) :
    Full (F.as into of) (fun b => ok (into b)) := by
  refine .mk' (fun b hb hz => ?_) fun b hb r => ?_
  · show b = of F.zero
    rw [← hF.zero_ (into b) hb hz, h]
  · show (F.dec F.zero (F.enc (into b) ++ r)).map _ = _
    rw [hF.back' (into b) hb]
    show some (of (into b), r) = _
    rw [h]

/-- Gob as the encoding of the package database; what the streams of the four types begin with.
core/pool.go:95-139, core/repo.go:160-330; libdb/transcoder.go:57-78. -/
def coreCodec (P S R E : Header) : Db.CoreCodec where
  encPool := write P (poolEntryF.as toPool ofPool) Ser.pool
  decPool := read (poolEntryF.as toPool ofPool) Ser.pool
  pool := read_write P _ _
  encSkip := write S (deltaSkipF.as toSkip ofSkip) Ser.delta
  decSkip := read (deltaSkipF.as toSkip ofSkip) Ser.delta
  skip := read_write S _ _
  encRepo := write R repositoryF Ser.str
  decRepo := read repositoryF Ser.str
  repo := read_write R _ _
  encEnt := write E (repoEntryF.as toEntry ofEntry) Ser.entry
  decEnt := read (repoEntryF.as toEntry ofEntry) Ser.entry
  ent := read_write E _ _

/-! ## C157 -/

/-- C157: the theorems about the queue hold of gob: there is an encoding as they ask for (`Jobs.Codec`) that writes the bytes of gob for
every job, history entry and place that Go can hold. -/
theorem C157_queue {J R I : Header} (hJ : Spec.Defines J) (hR : Spec.Defines R) (hI : Spec.Defines I) : ∃ C : Jobs.Codec,
    (∀ j b, Spec.Job j → encode J jobF j = some b → C.encJ j = b) ∧
    (∀ j b, Spec.Finished j → encode R recordF j = some b → C.encR j = b) ∧
    (∀ n b, n < 2 ^ 64 → encode I indexF n = some b → C.encI n = b) :=
  ⟨jobCodec J R I, fun _ _ h he => write_eq jobF_full hJ h he, fun _ _ h he => write_eq recordF_full hR h he,
    fun _ _ h he => write_eq indexF_full hI h he⟩

/-- C157: so do those about the package database (`Db.CoreCodec`). -/
theorem C157_database {P S R E : Header} (hP : Spec.Defines P) (hS : Spec.Defines S) (hR : Spec.Defines R) (hE : Spec.Defines E) :
    ∃ K : Db.CoreCodec,
    (∀ e b, Spec.PoolEntry (toPool e) → encode P poolEntryF (toPool e) = some b → K.encPool e = b) ∧
    (∀ d b, Spec.DeltaSkip (toSkip d) → encode S deltaSkipF (toSkip d) = some b → K.encSkip d = b) ∧
    (∀ r b, Spec.String r → encode R repositoryF r = some b → K.encRepo r = b) ∧
    (∀ e b, Spec.RepoEntry (toEntry e) → encode E repoEntryF (toEntry e) = some b → K.encEnt e = b) :=
  ⟨coreCodec P S R E, fun _ _ h he => write_eq (poolEntryF_full.as ofPool_toPool) hP h he,
    fun _ _ h he => write_eq (deltaSkipF_full.as ofSkip_toSkip) hS h he, fun _ _ h he => write_eq repositoryF_full hR h he,
    fun _ _ h he => write_eq (repoEntryF_full.as ofEntry_toEntry) hE h he⟩

/-- A concrete case: the bytes under the demo's entry are those of gob. -/
example : (coreCodec Demo.header Demo.header Demo.header Demo.header).encEnt ⟨n!"nano", [n!"nano-1", n!"nano-2"], n!"nano-2", []⟩ =
    Demo.header.defs.flatMap message ++ message (encInt 65 ++
      (byte 1 :: byte 3 :: n!"1.0" ++ byte 1 :: byte 4 :: n!"nano" ++ byte 1 :: byte 2 :: byte 6 :: n!"nano-1" ++ byte 6 :: n!"nano-2" ++
        byte 1 :: byte 6 :: n!"nano-2" ++ [byte 0])) := by decide +kernel

end Ferryd.Gob
