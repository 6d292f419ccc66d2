import Verif.CoreRough2
import Verif.PropsCore3
/-!
# PropsRough: histories with crashes and I/O errors (C108-C114)

The other modules let the daemon die once, at any point, and look at what it finds.  Here it may die, and any job may be cut short by
an I/O error, any number of times and at any points; jobs are retried or not; files caught while being copied hold a part of
their bytes.
-/
namespace Ferryd
open Spec
variable {W : World} {s : St}

/-- The state `u` of the disk when the job of `o` is stopped at `t`: everything done so far, except that a package file just emptied, to
be copied into, may hold a beginning of its bytes already (util.go:32-62: `io.Copy` writes in pieces), and an asset file of the job's own
repository anything. -/
inductive Half (W : World) (o : Op) (t : St) : St → Prop
  | whole : Half W o t t
  | package (p : Path) (i : Nat) (c : Content) (hp : p.isAsset = false) (hi : t.fs.tab p = some i) (he : t.fs.data i = [])
      (hc : c <+: W.canon p.base) : Half W o t (t.setFs (t.fs.setData i c))
  | asset (r : Str) (a : Asset) (i : Nat) (c : Content) (hr : o.target = some r) (hi : t.fs.tab (.asset r a) = some i) :
      Half W o t (t.setFs (t.fs.setData i c))

/-- A moment of the job of `o`, run in `s`. -/
def Moment (W : World) (o : Op) (s u : St) : Prop := ∃ t ∈ (o.run W.E s).tr, Half W o t u

/-- Histories in which every job may also be cut short anywhere, by the death of the daemon or by an I/O error. -/
inductive Wild (W : World) : St → Prop
  | init : Wild W St.init
  /-- the job runs to its end, successful or not -/
  | job {s : St} (h : Wild W s) (o : Op) (ho : o.Ok W) : Wild W (o.exec W.E s)
  /-- the daemon dies and is started again -/
  | dies {s u : St} (h : Wild W s) (o : Op) (ho : o.Ok W) (hm : Moment W o s u) : Wild W u.crash
  /-- an I/O error: the job returns, an open batch is dropped (libdb/leveldb.go:178-193) -/
  | fails {s u : St} (h : Wild W s) (o : Op) (ho : o.Ok W) (hm : Moment W o s u) : Wild W { u with pend := [] }

theorem Half.rough {o : Op} {t u : St} (h : Half W o t u) (ht : Rough W t) : Rough W u := by
  cases h with
  | whole => exact ht
  | package p i c hp hi he hc => exact ht.setFs (ht.fs.setData hi fun _ => hc) rfl
  | asset r a i c hr hi => exact ht.setFs (ht.fs.setData hi fun h => by cases h) rfl

theorem Half.same {o : Op} {t u : St} (h : Half W o t u) (ht : Rough W t) {r : Str} (hr : o.target ≠ some r) : Same r t u := by
  cases h with
  | whole => exact Same.refl r t
  | asset r' a i c hr' hi => exact Same.ofFs (SameFs.setData (tgt := o.target) ht.fs hi hr' hr)
  | package p i c hp hi he hc =>
    refine Same.ofFs ⟨rfl, fun _ _ => rfl, fun _ => rfl, fun _ => rfl, fun a => ?_⟩
    unfold FS.read
    simp only [FS.setData_tab]
    cases hx : t.fs.tab (.asset r a) with
    | none => rfl
    | some j =>
      simp only [Option.map_some, FS.setData_data]
      rw [if_neg]
      rintro rfl
      have ho := ht.fs.owner _ _ _ hx hi
      cases p <;> simp [Path.owner, Path.isAsset] at ho hp

theorem Moment.rough (ok : W.OK) (hz : W.NoTorn) {o : Op} (ho : o.Ok W) {u : St} (h : Moment W o s u) (hs : Rough W s) : Rough W u := by
  obtain ⟨t, ht, hu⟩ := h
  exact hu.rough ((o.keeps ok hz ho s hs).tr t ht)

theorem Wild.rough (ok : W.OK) (hz : W.NoTorn) (h : Wild W s) : Rough W s := by
  induction h with
  | init => exact rough_init W
  | job _ o ho ih => exact (o.keeps ok hz ho _ ih).fin
  | dies _ o ho hm ih => exact (hm.rough ok hz ho ih).crash
  | fails _ o ho hm ih =>
    have := hm.rough ok hz ho ih
    exact ⟨this.db, this.fs, this.idx, fun _ h => by simp at h⟩

theorem Reachable.wild (h : Reachable W s) : Wild W s := by
  obtain ⟨ops, hok, rfl⟩ := h
  have key : ∀ (ops : List Op) (s : St), (∀ o ∈ ops, o.Ok W) → Wild W s → Wild W (runAll W.E s ops) := by
    intro ops
    induction ops with
    | nil => intro s _ h; exact h
    | cons o ops ih => intro s ho h; exact ih _ (fun x hx => ho x (by simp [hx])) (h.job o (ho o (by simp)))
  exact key ops _ hok .init

/-! ## The demo: a daemon that dies while importing, and imports again -/

namespace Demo
theorem noTorn : Demo.W.NoTorn := by
  intro id c hc hne
  have hlen : (Demo.W.canon id).length = 1 := by
    simp only [Demo.W]; cases lookupId id <;> rfl
  obtain ⟨r, hr⟩ := hc
  cases c with
  | nil => rfl
  | cons x xs =>
    rw [← hr] at hlen
    simp only [List.cons_append, List.length_cons, List.length_append] at hlen
    have hrn : r = [] := List.eq_nil_of_length_eq_zero (by omega)
    rw [hrn, List.append_nil] at hr
    exact absurd hr hne

/-- `a-1` is in "u"; "v" is created. -/
def stV : St := Op.exec E (Op.exec E st6 (.addPackages (S "u") [S "/up/a-1.eopkg"] false)) (.create (S "v"))
def jobV : Op := .addPackages (S "v") [S "/up/a-1.eopkg"] false
theorem jobV_ok : jobV.Ok Demo.W := show ∀ f ∈ [S "/up/a-1.eopkg"], Demo.W.isDelta (baseName f) = false by decide +kernel
theorem wildV : Wild Demo.W stV := (reach6.wild.job (.addPackages (S "u") [S "/up/a-1.eopkg"] false)
  (show ∀ f ∈ [S "/up/a-1.eopkg"], Demo.W.isDelta (baseName f) = false by decide +kernel)).job (.create (S "v")) trivial
/-- The `i`-th durable state while the job of `o` runs in `s`. -/
def cut (o : Op) (s : St) (i : Nat) : St := ((o.run E s).tr[i]?).getD s
theorem cut_moment {o : Op} {s : St} {i : Nat} (hl : i < (o.run E s).tr.length) : Moment Demo.W o s (cut o s i) := by
  refine ⟨cut o s i, ?_, .whole⟩
  unfold cut
  rw [List.getElem?_eq_getElem hl]
  exact List.getElem_mem _
/-- The daemon dies while importing the same package into "v": referenced and linked, but not yet recorded. -/
def cutV : St := cut jobV stV 1
theorem cutV_moment : Moment Demo.W jobV stV cutV := cut_moment (by decide +kernel)
theorem wildCut : Wild Demo.W cutV.crash := wildV.dies jobV jobV_ok cutV_moment
/-- Started again, it is told to import the package into "v" once more. -/
def stR : St := jobV.exec E cutV.crash
theorem wildR : Wild Demo.W stR := wildCut.job jobV jobV_ok

/-- "unstable" with its obsolete packages, and the daemon dies while it removes "b" from it. -/
def jobB : Op := .removeSource (S "unstable") (S "b") 0
def cut4 : St := (cut jobB st4 0).crash
theorem wild4 : Wild Demo.W cut4 := reach4.wild.dies jobB trivial (cut_moment (by decide +kernel))

/-- `a-2` is in "u" and in "v"; the daemon dies while it removes it from "u": the count is down, the listing is not. -/
def hist8 : List Op := [upload "/up/a-1.eopkg", upload "/up/a-2.eopkg", .create (S "u"), .create (S "v"),
  .addPackages (S "u") [S "/up/a-2.eopkg"] false, .addPackages (S "v") [S "/up/a-2.eopkg"] false]
def st8 : St := runAll E St.init hist8
theorem hist8_ok : ∀ o ∈ hist8, o.Ok Demo.W := by
  unfold hist8
  refine List.forall_mem_cons.2 ⟨upload_ok _, List.forall_mem_cons.2 ⟨upload_ok _, List.forall_mem_cons.2 ⟨trivial,
    List.forall_mem_cons.2 ⟨trivial, List.forall_mem_cons.2 ⟨?_, List.forall_mem_cons.2 ⟨?_, by intro o ho; cases ho⟩⟩⟩⟩⟩⟩
  all_goals
    show ∀ f ∈ [S "/up/a-2.eopkg"], Demo.W.isDelta (baseName f) = false
    decide +kernel
def job8 : Op := .removeSource (S "u") (S "a") 2
def cut8 : St := (cut job8 st8 1).crash
theorem wild8 : Wild Demo.W cut8 :=
  (Reachable.wild ⟨hist8, hist8_ok, rfl⟩).dies job8 trivial (cut_moment (by decide +kernel))
/-- It is told again to remove it from "u". -/
def st8' : St := job8.exec E cut8
/-- And then to add release 1 to "v". -/
def job9 : Op := .addPackages (S "v") [S "/up/a-1.eopkg"] false
def st9 : St := job9.exec E st8'
theorem wild9 : Wild Demo.W st9 := (wild8.job job8 trivial).job job9
  (show ∀ f ∈ [S "/up/a-1.eopkg"], Demo.W.isDelta (baseName f) = false by decide +kernel)
end Demo

/-! ## C108 -/

/-- C108: whatever crashes and I/O errors went before, a job directed at one repository leaves every other one alone, at each of its own
moments (so also if it is cut short there) and at its end: existence, listings, tips, deltas, published index, asset files, and which
files are served.  The bytes of the served files are at each moment a beginning of the uploaded ones; they need not stay the same (C110). -/
theorem C108_isolation (ok : W.OK) (hz : W.NoTorn) (h : Wild W s) (o : Op) (ho : o.Ok W) (r : Str) (hr : o.target ≠ some r)
    (u : St) (hu : Moment W o s u ∨ u = o.exec W.E s) :
    (Repo u r ↔ Repo s r) ∧ (∀ n id, Lists u r n id ↔ Lists s r n id) ∧ (∀ n id, Tip u r n id ↔ Tip s r n id) ∧
    (∀ d, HasDelta u r d ↔ HasDelta s r d) ∧ u.fs.idx r = s.fs.idx r ∧
    (∀ a, u.fs.read (.asset r a) = s.fs.read (.asset r a)) ∧
    (∀ d id, u.fs.read (.repo r d id) = none ↔ s.fs.read (.repo r d id) = none) ∧
    (∀ d id c, u.fs.read (.repo r d id) = some c → c <+: W.canon id) := by
  have hs := h.rough ok hz
  have hk := o.keeps ok hz ho s hs
  have key : Same r s u ∧ Rough W u := by
    rcases hu with ⟨t, ht, hu⟩ | rfl
    · exact ⟨(hk.tsame t ht r hr).trans (hu.same (hk.tr t ht) hr), hu.rough (hk.tr t ht)⟩
    · exact ⟨hk.fsame r hr, hk.fin⟩
  obtain ⟨hsm, hru⟩ := key
  refine ⟨?_, ?_, ?_, ?_, hsm.fs.idx, hsm.fs.asset, ?_, ?_⟩
  · unfold Repo
    rw [KV.mem_keys_iff, KV.mem_keys_iff, hsm.db.repo]
  · intro n id; unfold Lists; rw [hsm.db.ents]
  · intro n id; unfold Tip; rw [hsm.db.ents]
  · intro d; unfold HasDelta; rw [hsm.db.ents]
  · intro d id
    simp only [FS.read, Option.map_eq_none_iff]
    rw [hsm.fs.file]
  · intro d id c hc
    exact hru.fs.content (.repo r d id) c rfl hc

/-- Not vacuous: the retried import into "v", after the crash, with "u" looked at. -/
example : Wild Demo.W Demo.cutV.crash ∧ Demo.jobV.target ≠ some (Demo.S "u") ∧
    (Demo.jobV.run Demo.E Demo.cutV.crash).res = .ok () ∧
    Demo.stR.availOf (Demo.S "u") (Demo.S "a") = [Demo.S "a-1.eopkg"] ∧ Demo.stR.availOf (Demo.S "v") (Demo.S "a") = [Demo.S "a-1.eopkg"] := by
  refine ⟨Demo.wildCut, ?_, ?_, ?_, ?_⟩
  · simp only [Op.target, Demo.jobV]; decide +kernel
  all_goals decide +kernel

/-! ## C109 -/

/-- C109: no job panics, and so none kills the daemon, however many crashes and I/O errors went before. -/
theorem C109_no_panic (ok : W.OK) (hz : W.NoTorn) (h : Wild W s) (o : Op) (ho : o.Ok W) : (o.run W.E s).res ≠ .panic :=
  (o.keeps ok hz ho s (h.rough ok hz)).np

/-- C109: the reference count of a pool record is never zero and never wraps around: also when counts have been lost to crashes, a record at one is
removed, not decremented. -/
theorem C109_counts (ok : W.OK) (hz : W.NoTorn) (h : Wild W s) {id : Str} {k : Nat} (hc : Count s id k) : 0 < k := by
  obtain ⟨pe, hg, rfl⟩ := hc
  exact ((h.rough ok hz).db.pool id pe hg).pos

example : Wild Demo.W Demo.stR ∧ Count Demo.stR (Demo.S "a-1.eopkg") 3 :=
  ⟨Demo.wildR, ⟨((Demo.stR.db.pool.get (Demo.S "a-1.eopkg")).get (by decide +kernel)), by decide +kernel, by decide +kernel⟩⟩

/-! ## C110 -/

/-- C110 at full strength: after any history of jobs, crashes and I/O errors, what a repository serves as a package it lists are the
uploaded bytes. -/
def C110_statement : Prop := ∀ (W : World) (s : St), W.OK → W.NoTorn → Wild W s → ∀ r id c, Has s r id → ServedAs W s r id c → c = W.canon id

/-- C110 is false of the code, for a repository nobody touched: the daemon dies while importing into "v" a package "u" already has; the
import is run again and reports success; "u" now serves an empty file.  (All places share one inode; the file in "v" exists, so the link
fails, and the copy that replaces it truncates the inode, util.go:37-75.) -/
theorem C110_violated : ¬ C110_statement := by
  intro h
  have hx : Has Demo.stR (Demo.S "u") (Demo.S "a-1.eopkg") :=
    ⟨Demo.S "a", ((Demo.stR.db.ents (Demo.S "u")).get (Demo.S "a")).get (by decide +kernel), by decide +kernel, by decide +kernel⟩
  have := h Demo.W Demo.stR Demo.ok Demo.noTorn Demo.wildR (Demo.S "u") (Demo.S "a-1.eopkg") [] hx
    ⟨Demo.S "a/a", by decide +kernel, by decide +kernel⟩
  revert this; decide +kernel

/-- C110: before the import was run again the file was whole, and the job that emptied it reported success. -/
theorem C110_violated_silently :
    Demo.cutV.crash.fs.read (.repo (Demo.S "u") (Demo.S "a/a") (Demo.S "a-1.eopkg")) = some [1] ∧
    (Demo.jobV.run Demo.E Demo.cutV.crash).res = .ok () ∧
    Demo.stR.fs.read (.repo (Demo.S "u") (Demo.S "a/a") (Demo.S "a-1.eopkg")) = some [] ∧
    Demo.stR.fs.read (.pool (Demo.S "a/a") (Demo.S "a-1.eopkg")) = some [] := by decide +kernel

/-- C110, what holds: never wrong bytes, only too few.  Every file in the pool and in every repository, in every history of jobs, crashes and
I/O errors and at every moment of the next job, is a beginning of the file uploaded under that name.  (Not shown, and false: that it is all
of it.) -/
theorem C110_prefix_partial (ok : W.OK) (hz : W.NoTorn) (h : Wild W s) (o : Op) (ho : o.Ok W) (u : St)
    (hu : u = s ∨ Moment W o s u ∨ u = o.exec W.E s) :
    (∀ r d id c, u.fs.read (.repo r d id) = some c → c <+: W.canon id) ∧ (∀ d id c, u.fs.read (.pool d id) = some c → c <+: W.canon id) := by
  have hs := h.rough ok hz
  have hr : Rough W u := by
    rcases hu with rfl | hm | rfl
    · exact hs
    · exact hm.rough ok hz ho hs
    · exact (o.keeps ok hz ho s hs).fin
  exact ⟨fun r d id c hc => hr.fs.content (.repo r d id) c rfl hc, fun d id c hc => hr.fs.content (.pool d id) c rfl hc⟩

example : Wild Demo.W Demo.cutV.crash ∧ Demo.cutV.crash.fs.read (.repo (Demo.S "v") (Demo.S "a/a") (Demo.S "a-1.eopkg")) = some [1] :=
  ⟨Demo.wildCut, by decide +kernel⟩

/-! ## C111 -/

/-- C111: in every history of jobs, crashes and I/O errors the listings stay sane: what is listed under a name is a readable package of that
name, no delta, once, in order; each name listed has exactly one tip, which is listed; listed deltas are deltas of that name. -/
theorem C111_listings (ok : W.OK) (hz : W.NoTorn) (h : Wild W s) (r n : Str) :
    (∀ id, Lists s r n id → nameOf W id = n ∧ (∃ m, W.E.parse (W.canon id) = .good m) ∧ W.isDelta id = false) ∧
    (∀ id, Tip s r n id → Lists s r n id) ∧ ((∃ id, Lists s r n id) → ∃ id, Tip s r n id) ∧
    (∀ id id', Tip s r n id → Tip s r n id' → id = id') ∧
    SortedS (s.availOf r n) ∧ (s.availOf r n).Nodup ∧
    (∀ d, HasDelta s r d → W.isDelta d = true) := by
  have hs := h.rough ok hz
  refine ⟨?_, ?_, ?_, ?_, ?_, ?_, ?_⟩
  · rintro id ⟨e, hg, hi⟩
    have := (hs.db.ent r n e hg).avail id hi
    exact ⟨this.2.2, ⟨_, this.2.1⟩, this.1⟩
  · rintro id ⟨e, hg, rfl⟩; exact ⟨e, hg, (hs.db.ent r n e hg).pub⟩
  · rintro ⟨id, e, hg, _⟩; exact ⟨_, e, hg, rfl⟩
  · rintro id id' ⟨e, hg, rfl⟩ ⟨e', hg', rfl⟩
    rw [hg] at hg'; cases hg'; rfl
  · unfold St.availOf
    cases hg : (s.db.ents r).get n with
    | none => exact List.Pairwise.nil
    | some e => exact (hs.db.ent r n e hg).sorted
  · unfold St.availOf
    cases hg : (s.db.ents r).get n with
    | none => exact List.Pairwise.nil
    | some e => exact (hs.db.ent r n e hg).nodup
  · rintro d ⟨n', e, hg, hd⟩
    exact ((hs.db.ent r n' e hg).deltas d hd).1

/-- C111: and every pool record describes the uploaded file: name, source and history of the package in it, its size and SHA-1. -/
theorem C111_pool (ok : W.OK) (hz : W.NoTorn) (h : Wild W s) {id : Str} {pe : PoolEntry} (hg : s.db.pool.get id = some pe) :
    pe.name = id ∧ (∃ m, W.E.parse (W.canon id) = .good m) ∧ pe.pkg.name = nameOf W id ∧ pe.pkg.source = sourceOf W id ∧
    pe.pkg.history = (W.mOf id).history ∧ pe.pkg.size = (W.canon id).length ∧ pe.pkg.hash = W.E.sha1 (W.canon id) ∧
    (pe.delta.isSome = true ↔ W.isDelta id = true) := by
  have hp := (h.rough ok hz).db.pool id pe hg
  refine ⟨hp.name, ⟨_, hp.isPkg⟩, ?_, ?_, ?_, ?_, ?_, by rw [hp.delta]⟩ <;> rw [hp.pkg] <;> rfl

example : Wild Demo.W Demo.stR ∧ Lists Demo.stR (Demo.S "v") (Demo.S "a") (Demo.S "a-1.eopkg") ∧
    (Demo.stR.db.pool.get (Demo.S "a-1.eopkg")).isSome = true :=
  ⟨Demo.wildR, ⟨((Demo.stR.db.ents (Demo.S "v")).get (Demo.S "a")).get (by decide +kernel), by decide +kernel, by decide +kernel⟩, by decide +kernel⟩

/-! ## C112 -/

theorem mIndex_post (ok : W.OK) (r : Str) (hs : Rough W s) : Post (mIndex W.E r) s (fun _ t => t.db.ents = s.db.ents ∧
    ∃ doc, t.fs.idx r = some doc ∧ IndexRight W t r doc ∧ IndexDeltas W t r doc) := by
  refine (((getRepo_keeps (tgt := some r) r).post hs).and (getRepo_ents r).post).bind fun _ t ht => ?_
  refine (indexRepo_post ok r ht.1.1).mono fun _ u hu => ?_
  obtain ⟨d, hd, hc, rfl⟩ := hu
  obtain ⟨h1, h2⟩ := ht.1.1.docRight ok hd hc
  refine ⟨ht.2, W.docOf t r d, by simp [St.publish], ⟨h1.obsoletes, h1.components, h1.groups, h1.sorted, h1.exact_, h1.pkgs⟩, h2⟩

theorem Op.publishes_post (ok : W.OK) (hz : W.NoTorn) (o : Op) (ho : o.Ok W) {r : Str} (hp : o.publishes = some r) (hs : Rough W s) :
    Post (o.run W.E) s (fun _ t => ∃ doc, t.fs.idx r = some doc ∧ IndexRight W t r doc ∧ IndexDeltas W t r doc) := by
  have fin : ∀ {u : St}, Rough W u → Post (mIndex W.E r) u (fun _ t => ∃ doc, t.fs.idx r = some doc ∧ IndexRight W t r doc ∧ IndexDeltas W t r doc) :=
    fun hu => (mIndex_post ok r hu).mono fun _ _ h => h.2
  cases o with
  | create x =>
    cases hp
    exact ((createRepo_keeps r).post hs).bind fun _ u hu => fin hu.1
  | clone a b f =>
    cases hp
    exact ((getRepo_keeps (tgt := some r) a).post hs).bind fun _ u hu => ((createRepo_keeps r).post hu.1).bind fun _ v hv =>
      ((cloneFrom_keeps ok r a f).post hv.1).bind fun _ w hw => fin hw.1
  | pull a b =>
    cases hp
    refine Post.bind (m := mPullRepo W.E a r) (P := fun _ t => ∃ doc, t.fs.idx r = some doc ∧ IndexRight W t r doc ∧ IndexDeltas W t r doc) ?_
      fun _ t ht => Post.pure ht
    exact ((getRepo_keeps (tgt := some r) a).post hs).bind fun _ u hu => ((getRepo_keeps (tgt := some r) r).post hu.1).bind fun _ v hv =>
      ((pullFrom_keeps ok r a).post hv.1).bind fun _ w hw => (fin hw.1).bind fun _ x hx => Post.pure hx
  | removeSource x n k =>
    cases hp
    exact ((getRepo_keeps (tgt := some r) r).post hs).bind fun _ u hu => ((removeSource_keeps ok r n k).post hu.1).bind fun _ v hv => fin hv.1
  | trimObsolete x =>
    cases hp
    exact ((getRepo_keeps (tgt := some r) r).post hs).bind fun _ u hu => ((trimObsolete_keeps ok r).post hu.1).bind fun _ v hv => fin hv.1
  | trimPackages x k =>
    cases hp
    exact ((getRepo_keeps (tgt := some r) r).post hs).bind fun _ u hu => ((trimPackages_keeps ok r k).post hu.1).bind fun _ v hv => fin hv.1
  | addPackages x fs st =>
    cases hp
    exact ((getRepo_keeps (tgt := some r) r).post hs).bind fun _ u hu =>
      ((Keeps.forL fun f hf => addPackage_keeps ok hz r (file := .ext f) rfl (ho f hf)).post hu.1).bind fun _ v hv => fin hv.1
  | index x =>
    cases hp
    exact fin hs
  | _ => cases hp

/-- C112: however many crashes and I/O errors went before, a job that ends with an index run and succeeds has published the right index: the
tips not hidden by the distribution file, exactly these, once each and in order; components and groups of the asset files; for each package
location, name, source, history, and size and SHA-1 of the uploaded file; and exactly the deltas listed that lead to it. -/
theorem C112_index (ok : W.OK) (hz : W.NoTorn) (h : Wild W s) (o : Op) (ho : o.Ok W) {r : Str} (hp : o.publishes = some r)
    (hres : (o.run W.E s).res = .ok ()) :
    ∃ doc, (o.exec W.E s).fs.idx r = some doc ∧ IndexRight W (o.exec W.E s) r doc ∧ IndexDeltas W (o.exec W.E s) r doc :=
  (o.publishes_post ok hz ho hp (h.rough ok hz)).run () hres

/-- C112: and whatever index a repository serves, at any moment of any such history, never gives a wrong size or hash: each package and each
delta in it is described as uploaded. -/
theorem C112_served_index (ok : W.OK) (hz : W.NoTorn) (h : Wild W s) (o : Op) (ho : o.Ok W) (u : St)
    (hu : u = s ∨ Moment W o s u ∨ u = o.exec W.E s) {r : Str} {doc : Doc} (hd : u.fs.idx r = some doc) :
    SortedS (doc.packages.map DocPkg.id) ∧ (doc.packages.map DocPkg.id).Nodup ∧
    ∀ p ∈ doc.packages, p.pkg.size = (W.canon p.id).length ∧ p.pkg.hash = W.E.sha1 (W.canon p.id) ∧ p.pkg.name = nameOf W p.id ∧
      ∀ x ∈ p.deltas, ∃ d, W.isDelta d = true ∧ nameOf W d = nameOf W p.id ∧ x.size = (W.canon d).length ∧ x.hash = W.E.sha1 (W.canon d) := by
  have hs := h.rough ok hz
  have hr : Rough W u := by
    rcases hu with rfl | hm | rfl
    · exact hs
    · exact hm.rough ok hz ho hs
    · exact (o.keeps ok hz ho s hs).fin
  have hdoc := hr.idx r doc hd
  refine ⟨hdoc.sorted, hdoc.nodup, fun p hp => ?_⟩
  have hpk := (hdoc.pkgs p hp).2.2
  refine ⟨by rw [hpk]; rfl, by rw [hpk]; rfl, by rw [hpk]; rfl, fun x hx => ?_⟩
  obtain ⟨d, h1, h2, _, h3, h4⟩ := hdoc.deltas p hp x hx
  exact ⟨d, h1, h2, h3, h4⟩

example : Wild Demo.W Demo.cutV.crash ∧ Demo.jobV.publishes = some (Demo.S "v") ∧ (Demo.jobV.run Demo.E Demo.cutV.crash).res = .ok () ∧
    ((Demo.stR.fs.idx (Demo.S "v")).map fun d => d.packages.map DocPkg.id) = some [Demo.S "a-1.eopkg"] :=
  ⟨Demo.wildCut, rfl, by decide +kernel, by decide +kernel⟩

/-! ## C113 -/

/-- Does `dst` publish nothing of that name, or an older release? -/
def Behind (W : World) (s : St) (dst n id : Str) : Prop := ∀ y, Tip s dst n y → relOf W y < relOf W id

theorem pullOne_reads (dst : Str) (e : RepoEntry) : Reads (pullOne dst e) := by
  refine (repoGet?_reads _ _).bind fun o => ?_
  cases o with
  | none => exact Reads.pure _
  | some l => exact (poolGet_reads _).bind fun _ => (poolGet_reads _).bind fun _ => (getRelease_reads _).bind fun _ =>
      (getRelease_reads _).bind fun _ => Reads.ite (Reads.throw _) (Reads.ite (Reads.pure _) (Reads.pure _))

open Classical in
theorem pullOne_at (ok : W.OK) {tgt : Option Str} (dst : Str) (e : RepoEntry) (hs : Rough W s) : At W tgt (pullOne dst e) s
    (fun o => o = if Behind W s dst e.name e.published then [(e.published, e.name)] else []) := by
  have h0 : At W tgt (repoGet? dst e.name) s (fun o => o = (s.db.ents dst).get e.name) := At.getSt (At.pure hs rfl)
  refine h0.read (repoGet?_reads _ _) fun o ho => ?_
  cases o with
  | none =>
    refine At.pure hs ?_
    rw [if_pos]
    rintro y ⟨e', hg, _⟩
    rw [← ho] at hg; cases hg
  | some l =>
    refine (poolGet_at e.published hs).read (poolGet_reads _) fun a ha => (poolGet_at l.published hs).read (poolGet_reads _) fun b hb => ?_
    refine (getRelease_keeps (ha.2.hist ok) s hs).read (getRelease_reads _) fun tr htr => (getRelease_keeps (hb.2.hist ok) s hs).read (getRelease_reads _) fun orl horl => ?_
    rw [ha.2.rel] at htr; rw [hb.2.rel] at horl
    have hiff : Behind W s dst e.name e.published ↔ tr > orl := by
      rw [htr, horl]
      constructor
      · intro h; exact h _ ⟨l, ho.symm, rfl⟩
      · rintro h y ⟨e', hg, rfl⟩
        rw [← ho] at hg; cases hg; exact h
    split
    · exact Keeps.throw s hs
    · split
      · rename_i hgt
        exact At.pure hs (by rw [if_pos (hiff.2 hgt)])
      · rename_i hgt
        exact At.pure hs (by rw [if_neg (fun h => hgt (hiff.1 h))])

theorem Tip.congr {r : Str} {t : St} (h : t.db.ents = s.db.ents) (n id : Str) : Tip t r n id ↔ Tip s r n id := by
  unfold Tip; rw [h]

theorem refDelta_post (new id : Str) (hs : Rough W s) : Post (refDelta W.E new id) s (fun _ t =>
    (∀ n y, Lists t new n y ↔ Lists s new n y) ∧ ∀ r', r' ≠ new → t.db.ents r' = s.db.ents r') := by
  refine (poolGet_reads id).post.bind fun pe t ht => ?_
  subst ht
  refine (repoGet_post new pe.pkg.name).bind fun e t ht => ?_
  obtain ⟨rfl, hg⟩ := ht
  refine (pathComp_reads pe.pkg).post.bind fun c t' ht => ?_
  subst ht
  split
  · exact Post.pure ⟨fun _ _ => Iff.rfl, fun _ _ => rfl⟩
  · refine (refEntry_ents id).post.bind fun _ u hu => (linkOrCopy_ents _ _ _ _).post.bind fun _ v hv => repoPut_post.mono fun _ w hw => ?_
    rw [hv, hu] at hw
    have hn : e.name = pe.pkg.name := (hs.db.ent new _ e hg).name
    refine ⟨fun n y => ?_, fun r' hr' => ?_⟩
    · have := put_lists (s := t') (n' := n) (id' := y) (e := { e with deltas := sortS (e.deltas ++ [id]) }) hw
      rw [this]
      split
      · rename_i h
        subst h
        rw [show ({ e with deltas := sortS (e.deltas ++ [id]) } : RepoEntry).name = pe.pkg.name from hn]
        exact ⟨fun h => ⟨e, hg, h⟩, fun ⟨e', hg', h⟩ => by rw [hg] at hg'; cases hg'; exact h⟩
      · rfl
    · rw [hw]; simp [setEnts, hr']

theorem forL_refDelta (ok : W.OK) (new : Str) : ∀ (ds : List Str) {s : St}, Rough W s → (∀ d ∈ ds, W.isDelta d = true) →
    Post (forL ds (refDelta W.E new)) s (fun _ t =>
      (∀ n y, Lists t new n y ↔ Lists s new n y) ∧ ∀ r', r' ≠ new → t.db.ents r' = s.db.ents r') := by
  intro ds
  induction ds with
  | nil => intro s _ _; exact Post.pure ⟨fun _ _ => Iff.rfl, fun _ _ => rfl⟩
  | cons d ds ih =>
    intro s hs hd
    refine (((refDelta_keeps ok new d (hd d (by simp))).post hs).and (refDelta_post new d hs)).bind fun _ t ht => ?_
    refine (ih ht.1.1 fun x hx => hd x (by simp [hx])).mono fun _ u hu => ?_
    exact ⟨fun n y => (hu.1 n y).trans (ht.2.1 n y), fun r' h => (hu.2 r' h).trans (ht.2.2 r' h)⟩

/-- C113: however many crashes and I/O errors went before, a job that reports success has done its work, and nothing else to any listing.
An import lists the files, besides what was listed. -/
theorem C113_import (ok : W.OK) (hz : W.NoTorn) (h : Wild W s) {r : Str} {files : List Str} {strict : Bool}
    (hd : ∀ f ∈ files, W.isDelta (baseName f) = false) (hres : (mAddPackages W.E r files strict s).res = .ok ()) :
    let t := (mAddPackages W.E r files strict s).st
    (∀ n x, Lists t r n x ↔ Lists s r n x ∨ ((∃ f ∈ files, x = baseName f) ∧ nameOf W x = n)) ∧
    (∀ r' n x, r' ≠ r → (Lists t r' n x ↔ Lists s r' n x)) := by
  have hs := h.rough ok hz
  have key : Post (mAddPackages W.E r files strict) s (fun _ t => AddsAll W r (files.map baseName) s t) := by
    refine (((getRepo_keeps (tgt := some r) r).post hs).and (getRepo_ents r).post).bind fun _ u hu => ?_
    refine (forL_adds (W := W) (r := r) (id := baseName) files hu.1.1 (fun f hf => addPackage_keeps ok hz r (file := .ext f) rfl (hd f hf))
      (fun f hf v hv => addPackage_post ok hz r (file := .ext f) rfl hv)).bind fun _ v hv => ?_
    exact (mIndex_ents W.E r).post.mono fun _ w hw => hv.2.ents hu.2 hw
  have := key.run () hres
  refine ⟨fun n x => ?_, fun r' n x hr => ?_⟩
  · rw [this.here]; simp only [List.mem_map]
    constructor
    · rintro (h | ⟨⟨f, hf, rfl⟩, h⟩)
      · exact .inl h
      · exact .inr ⟨⟨f, hf, rfl⟩, h⟩
    · rintro (h | ⟨⟨f, hf, rfl⟩, h⟩)
      · exact .inl h
      · exact .inr ⟨⟨f, hf, rfl⟩, h⟩
  · unfold Lists; rw [this.there r' hr]

/-- C113 for cloning: the new repository lists all packages of the source, or its tips. -/
theorem C113_clone (ok : W.OK) (hz : W.NoTorn) (h : Wild W s) {src new : Str} {full : Bool}
    (hres : (mCloneRepo W.E src new full s).res = .ok ()) :
    let t := (mCloneRepo W.E src new full s).st
    (∀ n x, Lists t new n x ↔ Lists s new n x ∨ (if full then Lists s src n x else Tip s src n x)) ∧
    (∀ r' n x, r' ≠ new → (Lists t r' n x ↔ Lists s r' n x)) := by
  have hs := h.rough ok hz
  have key : Post (mCloneRepo W.E src new full) s (fun _ t => (∀ n x, Lists t new n x ↔ Lists s new n x ∨ (if full then Lists s src n x else Tip s src n x)) ∧
      (∀ r', r' ≠ new → t.db.ents r' = s.db.ents r')) := by
    refine (((getRepo_keeps (tgt := some new) src).post hs).and (getRepo_ents src).post).bind fun _ u hu => ?_
    refine (((createRepo_keeps new).post hu.1.1).and (createRepo_ents new).post).bind fun _ v hv => ?_
    refine Post.bind (P := fun _ t => (∀ n x, Lists t new n x ↔ Lists s new n x ∨ (if full then Lists s src n x else Tip s src n x)) ∧
      (∀ r', r' ≠ new → t.db.ents r' = s.db.ents r')) ?_ fun _ w hw => (mIndex_ents W.E new).post.mono fun _ z hz => ?_
    · refine (((pullAssets_keeps new src).post hv.1.1).and (pullAssets_ents new src).post).bind fun _ w hw => ?_
      have hents : w.db.ents = s.db.ents := hw.2.trans (hv.2.trans hu.2)
      have hr := hw.1.1
      have he : At W (some new) (repoEntries src) w (fun es => es = (w.db.ents src).map Prod.snd) := At.getSt (At.pure hr rfl)
      refine (he.post (repoEntries_reads _)).bind fun es w' hes => ?_
      obtain ⟨rfl, rfl⟩ := hes
      have hdel : ∀ e ∈ (w'.db.ents src).map Prod.snd, REntry W e.name e := fun e he => (hr.entry he).2
      simp only
      refine (forL_adds (W := W) (r := new) (id := id) _ hr ?_ ?_).bind fun _ x hx => ?_
      · intro i hi
        refine refPackage_keeps ok new i ?_
        cases full with
        | true =>
          simp only [if_true, List.mem_flatMap] at hi
          obtain ⟨e, he, hi⟩ := hi
          exact ((hdel e he).avail i hi).1
        | false =>
          simp only [Bool.false_eq_true, if_false, List.mem_map] at hi
          obtain ⟨e, he, rfl⟩ := hi
          exact ((hdel e (by simpa using he)).avail _ (hdel e (by simpa using he)).pub).1
      · intro i _ y hy; exact refPackage_post new i hy
      · have hl : ∀ n y, Lists x new n y ↔ Lists s new n y ∨ (if full then Lists s src n y else Tip s src n y) := by
          intro n y
          rw [hx.2.here, Lists.congr hents]
          refine or_congr_right ?_
          simp only [List.map_id]
          cases full with
          | true =>
            simp only [if_true, List.mem_flatMap, List.mem_map]
            constructor
            · rintro ⟨⟨e, ⟨⟨n', e'⟩, hm, rfl⟩, hy⟩, hn⟩
              have hg := KV.get_of_mem (hr.db.wfEnts src) hm
              have := ((hr.db.ent src n' e' hg).avail y hy).2.2
              have : n' = n := this.symm.trans hn
              subst this
              rw [hents] at hg
              exact ⟨e', hg, hy⟩
            · rintro ⟨e, hg, hy⟩
              rw [← hents] at hg
              exact ⟨⟨e, ⟨(n, e), KV.mem_of_get hg, rfl⟩, hy⟩, ((hr.db.ent src n e hg).avail y hy).2.2⟩
          | false =>
            simp only [Bool.false_eq_true, if_false, List.mem_map]
            constructor
            · rintro ⟨⟨e, ⟨⟨n', e'⟩, hm, rfl⟩, rfl⟩, hn⟩
              have hg := KV.get_of_mem (hr.db.wfEnts src) hm
              have := ((hr.db.ent src n' e' hg).avail _ (hr.db.ent src n' e' hg).pub).2.2
              have : n' = n := this.symm.trans hn
              subst this
              rw [hents] at hg
              exact ⟨e', hg, rfl⟩
            · rintro ⟨e, hg, rfl⟩
              rw [← hents] at hg
              exact ⟨⟨e, ⟨(n, e), KV.mem_of_get hg, rfl⟩, rfl⟩, ((hr.db.ent src n e hg).avail _ (hr.db.ent src n e hg).pub).2.2⟩
        have ho : ∀ r', r' ≠ new → x.db.ents r' = s.db.ents r' := fun r' h => by rw [hx.2.there r' h, hents]
        have hd : ∀ d ∈ (if full then ((w'.db.ents src).map Prod.snd).flatMap RepoEntry.deltas else []), W.isDelta d = true := by
          intro d hd
          cases full with
          | true =>
            simp only [if_true, List.mem_flatMap] at hd
            obtain ⟨e, he, hi⟩ := hd
            exact ((hdel e he).deltas d hi).1
          | false => simp at hd
        exact (forL_refDelta ok new _ hx.1 hd).mono fun _ z hz => ⟨fun n y => by rw [hz.1, hl], fun r' h => by rw [hz.2 r' h, ho r' h]⟩
    · exact ⟨fun n x => by rw [Lists.congr hz]; exact hw.1 n x, fun r' h => by rw [hz, hw.2 r' h]⟩
  obtain ⟨h1, h2⟩ := key.run () hres
  exact ⟨h1, fun r' n x hr => by unfold Lists; rw [h2 r' hr]⟩


/-- C113 for pulling: the target also lists the source's tips where it publishes nothing of the name or an older release. -/
theorem C113_pull (ok : W.OK) (hz : W.NoTorn) (h : Wild W s) {src dst : Str} {changed : List Str}
    (hres : (mPullRepo W.E src dst s).res = .ok changed) :
    let t := (mPullRepo W.E src dst s).st
    (∀ n x, Lists t dst n x ↔ Lists s dst n x ∨ (Tip s src n x ∧ Behind W s dst n x)) ∧
    (∀ r' n x, r' ≠ dst → (Lists t r' n x ↔ Lists s r' n x)) ∧
    (∀ n, n ∈ changed ↔ ∃ x, Tip s src n x ∧ Behind W s dst n x) := by
  classical
  have hs := h.rough ok hz
  have key : Post (mPullRepo W.E src dst) s (fun ch t => (∀ n x, Lists t dst n x ↔ Lists s dst n x ∨ (Tip s src n x ∧ Behind W s dst n x)) ∧
      (∀ r', r' ≠ dst → t.db.ents r' = s.db.ents r') ∧ ∀ n, n ∈ ch ↔ ∃ x, Tip s src n x ∧ Behind W s dst n x) := by
    refine (((getRepo_keeps (tgt := some dst) src).post hs).and (getRepo_ents src).post).bind fun _ u hu => ?_
    refine (((getRepo_keeps (tgt := some dst) dst).post hu.1.1).and (getRepo_ents dst).post).bind fun _ v hv => ?_
    refine Post.bind (P := fun ch t => (∀ n x, Lists t dst n x ↔ Lists s dst n x ∨ (Tip s src n x ∧ Behind W s dst n x)) ∧
      (∀ r', r' ≠ dst → t.db.ents r' = s.db.ents r') ∧ ∀ n, n ∈ ch ↔ ∃ x, Tip s src n x ∧ Behind W s dst n x) ?_ fun ch w hw =>
        (mIndex_ents W.E dst).post.bind fun _ z hz => Post.pure ?_
    · refine (((pullAssets_keeps dst src).post hv.1.1).and (pullAssets_ents dst src).post).bind fun _ w hw => ?_
      have hents : w.db.ents = s.db.ents := hw.2.trans (hv.2.trans hu.2)
      have hr := hw.1.1
      have he : At W (some dst) (repoEntries src) w (fun es => es = (w.db.ents src).map Prod.snd) := At.getSt (At.pure hr rfl)
      refine (he.post (repoEntries_reads _)).bind fun es w' hes => ?_
      obtain ⟨rfl, rfl⟩ := hes
      have hdel : ∀ e ∈ (w'.db.ents src).map Prod.snd, REntry W e.name e := fun e he => (hr.entry he).2
      refine ((At.collect (tgt := some dst) hr (fun e _ => pullOne_reads dst e) (fun e _ => pullOne_at ok dst e hr)).post
        (Reads.collectL fun e _ => pullOne_reads dst e)).bind fun todo w'' ht => ?_
      obtain ⟨rfl, rfl⟩ := ht
      have hb : ∀ n x, Behind W w'' dst n x ↔ Behind W s dst n x := by
        intro n x; unfold Behind; simp only [Tip.congr hents]
      have hmem : ∀ n x, (x, n) ∈ ((w''.db.ents src).map Prod.snd).flatMap (fun e => if Behind W w'' dst e.name e.published then [(e.published, e.name)] else []) ↔
          Tip s src n x ∧ Behind W s dst n x := by
        intro n x
        rw [List.mem_flatMap]
        constructor
        · rintro ⟨e, he, hx⟩
          have hg := (hr.entry he).1
          split at hx
          · rename_i hbe
            simp only [List.mem_singleton, Prod.mk.injEq] at hx
            obtain ⟨rfl, rfl⟩ := hx
            rw [hents] at hg
            exact ⟨⟨e, hg, rfl⟩, (hb _ _).1 hbe⟩
          · simp at hx
        · rintro ⟨⟨e, hg, rfl⟩, hbe⟩
          rw [← hents] at hg
          have hn := (hr.db.ent src n e hg).name
          refine ⟨e, List.mem_map.2 ⟨(n, e), KV.mem_of_get hg, rfl⟩, ?_⟩
          rw [if_pos (by rw [hn]; exact (hb _ _).2 hbe), hn]; simp
      generalize ((w''.db.ents src).map Prod.snd).flatMap (fun e => if Behind W w'' dst e.name e.published then [(e.published, e.name)] else []) = todo at hmem
      have hnm : ∀ n x, (x, n) ∈ todo → W.isDelta x = false ∧ nameOf W x = n := by
        intro n x hx
        obtain ⟨⟨e, hg, rfl⟩, _⟩ := (hmem n x).1 hx
        rw [← hents] at hg
        have := (hr.db.ent src n e hg).avail _ (hr.db.ent src n e hg).pub
        exact ⟨this.1, this.2.2⟩
      refine (forL_adds (W := W) (r := dst) (id := id) _ hr ?_ (fun i _ y hy => refPackage_post dst i hy)).bind fun _ x hx => Post.pure ?_
      · intro i hi
        obtain ⟨⟨i', n⟩, hm, rfl⟩ := List.mem_map.1 hi
        exact refPackage_keeps ok dst _ (hnm _ _ hm).1
      · refine ⟨fun n y => ?_, fun r' h => by rw [hx.2.there r' h, hents], fun n => ?_⟩
        · rw [hx.2.here, Lists.congr hents, ← hmem n y]
          refine or_congr_right ?_
          simp only [List.map_id, List.mem_map]
          constructor
          · rintro ⟨⟨⟨i, n'⟩, hm, rfl⟩, hn⟩
            have := (hnm _ _ hm).2
            rw [show n = n' from hn.symm.trans this]; exact hm
          · intro hm; exact ⟨⟨(y, n), hm, rfl⟩, (hnm _ _ hm).2⟩
        · simp only [List.mem_map, ← hmem]
          constructor
          · rintro ⟨⟨i, n'⟩, hm, rfl⟩; exact ⟨i, hm⟩
          · rintro ⟨i, hm⟩; exact ⟨(i, n), hm, rfl⟩
    · exact ⟨fun n x => by rw [Lists.congr hz]; exact hw.1 n x, fun r' h => by rw [hz, hw.2.1 r' h], hw.2.2⟩
  obtain ⟨h1, h2, h3⟩ := key.run changed hres
  exact ⟨h1, fun r' n x hr => by unfold Lists; rw [h2 r' hr], h3⟩

theorem has_lists {r id : Str} (hs : Rough W s) : (∃ n, Lists s r n id) ↔ Lists s r (nameOf W id) id := by
  constructor
  · rintro ⟨n, e, hg, hi⟩
    have := ((hs.db.ent r n e hg).avail id hi).2.2
    rw [show nameOf W id = n from this]; exact ⟨e, hg, hi⟩
  · exact fun h => ⟨_, h⟩

theorem matches_iff (W : World) (source : Str) (rel : Int) (id : Str) : Matches W source rel id ↔ FromSource W source rel id := by
  unfold Matches FromSource
  refine and_congr_right fun _ => ?_
  by_cases h : 0 < rel
  · simp only [h, true_implies]; constructor
    · exact .inr
    · rintro (h' | h'); omega; exact h'
  · simp only [h, false_implies, true_iff]; left; omega

/-- C113 for remove-source: exactly the matching packages are gone. -/
theorem C113_remove_source (ok : W.OK) (hz : W.NoTorn) (h : Wild W s) {r source : Str} {rel : Int}
    (hres : (mRemoveSource W.E r source rel s).res = .ok ()) :
    let t := (mRemoveSource W.E r source rel s).st
    (∀ n x, Lists t r n x ↔ Lists s r n x ∧ ¬ FromSource W source rel x) ∧
    (∀ r' n x, r' ≠ r → (Lists t r' n x ↔ Lists s r' n x)) := by
  have hs := h.rough ok hz
  have key : Post (mRemoveSource W.E r source rel) s (fun _ t => ∃ ids, (∀ x, x ∈ ids ↔ Has s r x ∧ FromSource W source rel x) ∧ DropsAll r ids s t) := by
    refine (((getRepo_keeps (tgt := some r) r).post hs).and (getRepo_ents r).post).bind fun _ u hu => ?_
    refine Post.bind (m := removeSource r source rel) (P := fun _ t => ∃ ids, (∀ x, x ∈ ids ↔ Has s r x ∧ FromSource W source rel x) ∧ DropsAll r ids s t) ?_
      fun _ v ⟨ids, h1, h2⟩ => (mIndex_ents W.E r).post.mono fun _ w hw => ⟨ids, h1, h2.ents rfl hw⟩
    refine ((matchingSource_at (tgt := some r) ok r source rel hu.1.1).post (matchingSource_reads _ _ _)).bind fun ids v hv => ?_
    obtain ⟨rfl, hids⟩ := hv
    split
    · exact Post.throw
    · refine (forL_drops ok ids hu.1.1).mono fun _ w hw => ⟨ids, fun x => ?_, hw.2.ents hu.2 rfl⟩
      rw [hids]
      have : Has v r x ↔ Has s r x := by unfold Has Lists; rw [hu.2]
      rw [this, matches_iff]
  obtain ⟨ids, h1, h2⟩ := key.run () hres
  refine ⟨fun n x => ?_, fun r' n x hr => by unfold Lists; rw [h2.there r' hr]⟩
  rw [h2.here, h1]
  constructor
  · rintro ⟨⟨e, hg, hi⟩, hn⟩; exact ⟨⟨e, hg, hi⟩, fun hf => hn ⟨⟨n, e, hg, hi⟩, hf⟩⟩
  · rintro ⟨hl, hn⟩; exact ⟨hl, fun hf => hn hf.2⟩

/-- C113 for copy-source: the target also lists the matching packages of the source. -/
theorem C113_copy_source (ok : W.OK) (hz : W.NoTorn) (h : Wild W s) {src dst source : Str} {rel : Int} {skip : Bool}
    (hres : (mCopySource W.E src dst source rel skip s).res = .ok ()) :
    let t := (mCopySource W.E src dst source rel skip s).st
    (∀ n x, Lists t dst n x ↔ Lists s dst n x ∨ (Lists s src n x ∧ FromSource W source rel x)) ∧
    (∀ r' n x, r' ≠ dst → (Lists t r' n x ↔ Lists s r' n x)) := by
  have hs := h.rough ok hz
  have key : Post (mCopySource W.E src dst source rel skip) s (fun _ t => ∃ ids, (∀ x, x ∈ ids ↔ Has s src x ∧ FromSource W source rel x) ∧ AddsAll W dst ids s t) := by
    refine (((getRepo_keeps (tgt := some dst) src).post hs).and (getRepo_ents src).post).bind fun _ u hu => ?_
    refine (((getRepo_keeps (tgt := some dst) dst).post hu.1.1).and (getRepo_ents dst).post).bind fun _ v hv => ?_
    refine Post.bind (m := copySourceFrom W.E dst src source rel) (P := fun _ t => ∃ ids, (∀ x, x ∈ ids ↔ Has s src x ∧ FromSource W source rel x) ∧ AddsAll W dst ids s t) ?_
      fun _ w ⟨ids, h1, h2⟩ => ?_
    · refine ((matchingSource_at (tgt := some dst) ok src source rel hv.1.1).post (matchingSource_reads _ _ _)).bind fun ids w hw => ?_
      obtain ⟨rfl, hids⟩ := hw
      split
      · exact Post.throw
      · refine (forL_adds (W := W) (r := dst) (id := id) ids hv.1.1 (fun i hi => ?_) (fun i _ y hy => refPackage_post dst i hy)).mono fun _ x hx => ⟨ids, fun y => ?_, ?_⟩
        · obtain ⟨n, e, hg, hm⟩ := ((hids i).1 hi).1
          exact refPackage_keeps ok dst i ((hv.1.1.db.ent src n e hg).avail i hm).1
        · rw [hids]
          have : Has w src y ↔ Has s src y := by unfold Has Lists; rw [hv.2, hu.2]
          rw [this, matches_iff]
        · have := hx.2.ents (hv.2.trans hu.2) rfl
          rwa [List.map_id] at this
    · cases skip with
      | true => exact (mIndex_ents W.E dst).post.mono fun _ x hx => ⟨ids, h1, h2.ents rfl hx⟩
      | false => exact Post.pure ⟨ids, h1, h2⟩
  obtain ⟨ids, h1, h2⟩ := key.run () hres
  refine ⟨fun n x => ?_, fun r' n x hr => by unfold Lists; rw [h2.there r' hr]⟩
  rw [h2.here, h1]
  refine or_congr_right ?_
  constructor
  · rintro ⟨⟨⟨n', e, hg, hi⟩, hf⟩, hn⟩
    have := ((hs.db.ent src n' e hg).avail x hi).2.2
    rw [show n' = n from this.symm.trans hn] at hg
    exact ⟨⟨e, hg, hi⟩, hf⟩
  · rintro ⟨⟨e, hg, hi⟩, hf⟩
    exact ⟨⟨⟨n, e, hg, hi⟩, hf⟩, ((hs.db.ent src n e hg).avail x hi).2.2⟩

theorem trimScan_reads (E : Env) (k : Nat) (e : RepoEntry) : Reads (trimScan E k e) := by
  unfold trimScan
  refine Reads.ite (Reads.pure _) ((Reads.collectL fun id _ => (poolGet_reads id).bind fun pe => ?_).bind fun _ => Reads.pure _)
  exact (Reads.ite (getRelease_reads _) (Reads.pure _)).bind fun _ => Reads.pure _

theorem trimScan_at (ok : W.OK) {tgt : Option Str} (k : Nat) (e : RepoEntry) (hs : Rough W s) :
    At W tgt (trimScan W.E k e) s (fun o => o = W.trimIds k e) := by
  unfold trimScan World.trimIds
  split
  · exact At.pure hs rfl
  · refine (At.collect (g := fun id => [W.stamped id]) hs (fun id _ => ?_) (fun id _ => ?_)).read (Reads.collectL fun id _ => ?_) fun c hc => At.pure hs ?_
    · exact (poolGet_reads id).bind fun pe => (Reads.ite (getRelease_reads _) (Reads.pure _)).bind fun _ => Reads.pure _
    · refine (poolGet_at id hs).read (poolGet_reads id) fun pe hpe => ?_
      have : Keeps W tgt (if e.available.length > 1 then getRelease pe.pkg else pure 0) (fun _ => True) := by
        split
        · exact (getRelease_keeps (hpe.2.hist ok)).mono fun _ _ => trivial
        · exact Keeps.pure trivial
      exact (this s hs).read (Reads.ite (getRelease_reads _) (Reads.pure _)) fun _ _ => At.pure hs (by rw [hpe.2.pkg])
    · exact (poolGet_reads id).bind fun pe => (Reads.ite (getRelease_reads _) (Reads.pure _)).bind fun _ => Reads.pure _
    · rw [hc, ← List.map_eq_flatMap]


/-- C113 for trimming to `k` packages per name: nothing is added, every tip stays, and every package with fewer than `k` others of its name of
the same or a higher release stays. -/
theorem C113_trim (ok : W.OK) (hz : W.NoTorn) (h : Wild W s) {r : Str} {k : Int} (hres : (mTrimPackages W.E r k s).res = .ok ()) :
    let t := (mTrimPackages W.E r k s).st
    (∀ n x, Lists t r n x → Lists s r n x) ∧ (∀ n x, Tip s r n x → Lists t r n x) ∧
    (∀ n x L, Lists s r n x → Enumerates L (fun y => Lists s r n y ∧ y ≠ x ∧ relOf W x ≤ relOf W y) → (L.length : Int) < k → Lists t r n x) ∧
    (∀ n x L, Lists s r n x → ¬ Tip s r n x → Enumerates L (fun y => Lists s r n y ∧ relOf W x < relOf W y) → k ≤ L.length → ¬ Lists t r n x) ∧
    (∀ r' n x, r' ≠ r → (Lists t r' n x ↔ Lists s r' n x)) := by
  have hs := h.rough ok hz
  have key : Post (mTrimPackages W.E r k) s (fun _ t => 1 ≤ k ∧ DropsAll r (((s.db.ents r).map Prod.snd).flatMap (W.trimIds k.toNat)) s t) := by
    refine (((getRepo_keeps (tgt := some r) r).post hs).and (getRepo_ents r).post).bind fun _ u hu => ?_
    refine Post.bind (m := trimPackages W.E r k) (P := fun _ t => 1 ≤ k ∧ DropsAll r (((s.db.ents r).map Prod.snd).flatMap (W.trimIds k.toNat)) s t) ?_
      fun _ v h2 => (mIndex_ents W.E r).post.mono fun _ w hw => ⟨h2.1, h2.2.ents rfl hw⟩
    unfold trimPackages
    split
    · exact Post.throw
    · have he : At W (some r) (repoEntries r) u (fun es => es = (u.db.ents r).map Prod.snd) := At.getSt (At.pure hu.1.1 rfl)
      refine (he.post (repoEntries_reads _)).bind fun es u' hes => ?_
      obtain ⟨rfl, rfl⟩ := hes
      refine ((At.collect (tgt := some r) hu.1.1 (fun e _ => trimScan_reads _ _ e) (fun e _ => trimScan_at ok k.toNat e hu.1.1)).post
        (Reads.collectL fun e _ => trimScan_reads _ _ e)).bind fun ids v ht => ?_
      obtain ⟨rfl, rfl⟩ := ht
      refine (forL_drops ok _ hu.1.1).mono fun _ w hw => ⟨by omega, ?_⟩
      rw [← hu.2]; exact hw.2.ents hu.2 rfl
  obtain ⟨hk, hd⟩ := key.run () hres
  have hp : ∀ {n e}, (s.db.ents r).get n = some e → ∀ id ∈ e.available, W.IsPkg id := fun hg id hi => ((hs.db.ent r _ _ hg).avail id hi).2.1
  have hsub : ∀ {n e}, (s.db.ents r).get n = some e → ∀ x ∈ W.trimIds k.toNat e, x ∈ e.available := by
    intro n e hg x hx
    rw [trimIds_eq] at hx
    split at hx
    · cases hx
    · exact (ranked_spec ok (hp hg)).1.mem_iff.1 (List.mem_of_mem_drop (List.mem_filter.1 hx).1)
  have hl : ∀ n x e, (s.db.ents r).get n = some e → x ∈ e.available →
      (Lists (mTrimPackages W.E r k s).st r n x ↔ x ∉ W.trimIds k.toNat e) := by
    intro n x e hg hx
    rw [hd.here, List.mem_flatMap]
    constructor
    · rintro ⟨_, hn⟩ hm; exact hn ⟨e, List.mem_map.2 ⟨(n, e), KV.mem_of_get hg, rfl⟩, hm⟩
    · intro hn
      refine ⟨⟨e, hg, hx⟩, ?_⟩
      rintro ⟨e', he', hm⟩
      have hg' := (hs.entry he').1
      have h1 := ((hs.entry he').2.avail x (hsub hg' x hm)).2.2
      have h2 := ((hs.db.ent r n e hg).avail x hx).2.2
      rw [show e'.name = n from h1.symm.trans h2, hg] at hg'
      cases hg'; exact hn hm
  refine ⟨fun n x hx => ((hd.here n x).1 hx).1, ?_, ?_, ?_, fun r' n x hr => by unfold Lists; rw [hd.there r' hr]⟩
  · rintro n x ⟨e, hg, rfl⟩
    rw [hl n _ e hg (hs.db.ent r n e hg).pub, trimIds_eq]
    split
    · simp
    · intro hc; simpa using (List.mem_filter.1 hc).2
  · rintro n x L ⟨e, hg, hx⟩ ⟨hnd, hL⟩ hlen
    rw [hl n x e hg hx]
    intro hc
    obtain ⟨hpm, hsd⟩ := ranked_spec ok (hp hg)
    rw [trimIds_eq] at hc
    split at hc
    · cases hc
    · have hin := (List.mem_filter.1 hc).1
      have hrn : (W.ranked e).Nodup := hpm.nodup_iff.2 (hs.db.ent r n e hg).nodup
      have h1 := (hrn.sublist (List.take_sublist k.toNat _)).length_le_of_subset (l₂ := L) fun y hy => (hL y).2
        ⟨⟨e, hg, hpm.mem_iff.1 (List.mem_of_mem_take hy)⟩, pairwise_split hrn _ y hy x hin, pairwise_split hsd _ y hy x hin⟩
      rw [List.length_take, hpm.length_eq] at h1
      omega
  · rintro n x L ⟨e, hg, hx⟩ hnt ⟨hnd, hL⟩ hlen
    rw [hl n x e hg hx]
    have hne : x ≠ e.published := fun hc => hnt ⟨e, hg, hc.symm⟩
    obtain ⟨hpm, hsd⟩ := ranked_spec ok (hp hg)
    have hLa : ∀ y ∈ L, y ∈ e.available ∧ (W.mOf x).rel < (W.mOf y).rel := by
      intro y hy
      obtain ⟨⟨e', hg', hy'⟩, hlt⟩ := (hL y).1 hy
      rw [hg] at hg'; cases hg'
      exact ⟨hy', hlt⟩
    have hll : L.length ≤ e.available.length := hnd.length_le_of_subset fun y hy => (hLa y hy).1
    intro hc; apply hc
    rw [trimIds_eq, if_neg (show ¬ e.available.length < k.toNat by omega), List.mem_filter]
    refine ⟨?_, by simpa using hne⟩
    have hin : x ∈ W.ranked e := hpm.mem_iff.2 hx
    rw [← List.take_append_drop k.toNat (W.ranked e), List.mem_append] at hin
    rcases hin with hin | hin
    · exfalso
      have hsub' : ∀ y ∈ L, y ∈ ((W.ranked e).take k.toNat).erase x := by
        intro y hy
        obtain ⟨hy1, hy2⟩ := hLa y hy
        have hne : y ≠ x := by rintro rfl; omega
        rw [List.mem_erase_of_ne hne]
        have hyr := hpm.mem_iff.2 hy1
        rw [← List.take_append_drop k.toNat (W.ranked e), List.mem_append] at hyr
        rcases hyr with hyr | hyr
        · exact hyr
        · have := pairwise_split hsd _ x hin y hyr; omega
      have h1 := hnd.length_le_of_subset hsub'
      rw [List.length_erase_of_mem hin] at h1
      have h2 : ((W.ranked e).take k.toNat).length ≤ k.toNat := by rw [List.length_take]; omega
      have h3 : 0 < ((W.ranked e).take k.toNat).length := List.length_pos_of_mem hin
      omega
    · exact hin

theorem trimObsoleteScan_reads (obs : List Str) (n : Str) : ∀ l, Reads (trimObsoleteScan obs n l) := by
  intro l
  induction l with
  | nil => exact Reads.pure _
  | cons id ids ih => exact (poolGet_reads id).bind fun pe => Reads.ite (Reads.ite (Reads.pure _) (Reads.pure _)) ih

theorem trimObsoleteScan_at {tgt : Option Str} (obs : List Str) (n : Str) (hs : Rough W s) : ∀ l, At W tgt (trimObsoleteScan obs n l) s
    (fun o => o = W.obsIds obs n l) := by
  intro l
  induction l with
  | nil => exact At.pure hs rfl
  | cons id ids ih =>
    refine (poolGet_at id hs).read (poolGet_reads id) fun pe hpe => ?_
    have hn : pe.pkg.name = (W.mOf id).name := hpe.2.pname
    rw [hn]
    unfold World.obsIds
    split
    · split
      · exact At.pure hs rfl
      · exact At.pure hs rfl
    · exact ih

theorem getRepo_fs (r : Str) : Post (getRepo r) s (fun _ t => t.fs.read = s.fs.read) := by
  refine Post.getSt ?_
  split
  · exact Post.pure rfl
  · cases s.db.repos.get r with
    | none => exact Post.throw
    | some _ => exact Post.step.bind fun _ t ht => Post.vol.mono fun _ u hu => by rw [hu, ht]; rfl

/-- C113 for trimming obsolete packages: nothing is added; of a debug name of a name obsolete under the distribution file exactly one listed
package, the first in order, goes (C20 says why not all); every other name keeps all its packages. -/
theorem C113_trim_obsolete (ok : W.OK) (hz : W.NoTorn) (h : Wild W s) {r : Str} (hres : (mTrimObsolete W.E r s).res = .ok ()) :
    let t := (mTrimObsolete W.E r s).st
    ∃ obs, (s.fs.read (.asset r .distribution)).bind W.E.parseDist = some obs ∧
    (∀ n x, (¬ ∃ b ∈ obs, n = b ++ "-dbginfo".toList) → (Lists t r n x ↔ Lists s r n x)) ∧
    (∀ b ∈ obs, ∀ x, Lists t r (b ++ "-dbginfo".toList) x ↔ Lists s r (b ++ "-dbginfo".toList) x ∧
      ∃ y, Lists s r (b ++ "-dbginfo".toList) y ∧ y ≠ x ∧ strLe y x = true) ∧
    (∀ r' n x, r' ≠ r → (Lists t r' n x ↔ Lists s r' n x)) := by
  have hs := h.rough ok hz
  have key : Post (mTrimObsolete W.E r) s (fun _ t => ∃ obs, (s.fs.read (.asset r .distribution)).bind W.E.parseDist = some obs ∧
      DropsAll r (W.obsAll s r obs) s t) := by
    refine ((((getRepo_keeps (tgt := some r) r).post hs).and (getRepo_ents r).post).and (getRepo_fs r)).bind fun _ u hu => ?_
    obtain ⟨⟨⟨hr, _⟩, hue⟩, huf⟩ := hu
    refine Post.bind (m := trimObsolete W.E r) (P := fun _ t => ∃ obs, (s.fs.read (.asset r .distribution)).bind W.E.parseDist = some obs ∧
      DropsAll r (W.obsAll s r obs) s t) ?_
      fun _ v ⟨obs, h1, h3⟩ => (mIndex_ents W.E r).post.mono fun _ w hw => ⟨obs, h1, h3.ents rfl hw⟩
    have hinit : Post (initDistribution W.E r) u (fun o t => t = u ∧ ∀ obs, o = some obs → (s.fs.read (.asset r .distribution)).bind W.E.parseDist = some obs) := by
      refine Post.getSt ?_
      rw [huf]
      cases s.fs.read (.asset r .distribution) with
      | none => exact Post.pure ⟨rfl, by simp⟩
      | some c =>
        simp only [Option.bind_some]
        cases W.E.parseDist c with
        | none => exact Post.throw
        | some d => exact Post.pure ⟨rfl, by simp⟩
    refine hinit.bind fun o u' ho => ?_
    obtain ⟨rfl, ho⟩ := ho
    cases o with
    | none => exact Post.throw
    | some obs =>
      have he : At W (some r) (repoEntries r) u' (fun es => es = (u'.db.ents r).map Prod.snd) := At.getSt (At.pure hr rfl)
      refine (he.post (repoEntries_reads _)).bind fun es u'' hes => ?_
      obtain ⟨rfl, rfl⟩ := hes
      refine ((At.collect (tgt := some r) hr (fun e _ => trimObsoleteScan_reads obs e.name e.available)
        (fun e _ => trimObsoleteScan_at obs e.name hr e.available)).post
        (Reads.collectL fun e _ => trimObsoleteScan_reads _ _ _)).bind fun ids v ht => ?_
      obtain ⟨rfl, rfl⟩ := ht
      refine (forL_drops ok _ hr).mono fun _ w hw => ⟨obs, ho obs rfl, ?_⟩
      unfold World.obsAll
      rw [← hue]; exact hw.2.ents hue rfl
  obtain ⟨obs, h1, h3⟩ := key.run () hres
  have hl : ∀ n x, Lists (mTrimObsolete W.E r s).st r n x ↔ Lists s r n x ∧ ∃ e, (s.db.ents r).get n = some e ∧
      x ∉ (if stripDbg n ∈ obs ∧ stripDbg n ≠ n then e.available.take 1 else []) := by
    intro n x
    rw [h3.here]
    refine and_congr_right fun hlx => ?_
    obtain ⟨e, hg, hx⟩ := hlx
    have hiff : x ∈ W.obsAll s r obs ↔ x ∈ W.obsIds obs n e.available := by
      unfold World.obsAll
      rw [List.mem_flatMap]
      constructor
      · rintro ⟨e', he', hx'⟩
        obtain ⟨⟨n', e''⟩, hm, rfl⟩ := List.mem_map.1 he'
        have hg' := KV.get_of_mem (hs.db.wfEnts r) hm
        have h5 := ((hs.db.ent r n' _ hg').avail x ((obsIds_sub W obs _ _).1 x hx').1).2.2
        have h6 := ((hs.db.ent r n e hg).avail x hx).2.2
        rw [← h5, h6, hg] at hg'; cases hg'
        rwa [(hs.db.ent r n _ hg).name] at hx'
      · intro hx'
        exact ⟨e, List.mem_map.2 ⟨(n, e), KV.mem_of_get hg, rfl⟩, by rwa [(hs.db.ent r n _ hg).name]⟩
    rw [hiff, obsIds_entry W obs n _ fun y hy => ((hs.db.ent r n e hg).avail y hy).2.2]
    constructor
    · intro hn; exact ⟨e, hg, hn⟩
    · rintro ⟨e', hg', hn⟩; rw [hg] at hg'; cases hg'; exact hn
  refine ⟨obs, h1, fun n x hn => ?_, fun b hb x => ?_, fun r' n x hr => by unfold Lists; rw [h3.there r' hr]⟩
  · have hcond : ¬ (stripDbg n ∈ obs ∧ stripDbg n ≠ n) := by
      rintro ⟨h4, h5⟩
      rcases stripDbg_cases n with ⟨b, hb, hsb⟩ | ⟨_, hsb⟩
      · exact hn ⟨b, hsb ▸ h4, hb⟩
      · exact h5 hsb
    rw [hl]
    simp only [if_neg hcond]
    exact ⟨And.left, fun ⟨e, hg, hx⟩ => ⟨⟨e, hg, hx⟩, e, hg, by simp⟩⟩
  · have hcond : stripDbg (b ++ "-dbginfo".toList) ∈ obs ∧ stripDbg (b ++ "-dbginfo".toList) ≠ b ++ "-dbginfo".toList := by
      rw [stripDbg_append]
      refine ⟨hb, fun he => ?_⟩
      have := congrArg List.length he
      rw [List.length_append, show ("-dbginfo".toList : Str).length = 8 from rfl] at this
      omega
    rw [hl]
    simp only [if_pos hcond]
    refine and_congr_right fun hx => ?_
    obtain ⟨e, hge, hin⟩ := hx
    have he := hs.db.ent r _ e hge
    constructor
    · rintro ⟨e', hge', hni⟩
      rw [hge] at hge'; cases hge'
      cases ha : e.available with
      | nil => rw [ha] at hin; cases hin
      | cons z l =>
        rw [ha] at hni hin
        have hne : x ≠ z := by rintro rfl; exact hni (by simp)
        have hil : x ∈ l := by
          rcases List.mem_cons.1 hin with h | h
          · exact absurd h hne
          · exact h
        have hso := he.sorted
        unfold SortedS at hso
        rw [ha, List.pairwise_cons] at hso
        exact ⟨z, ⟨e, hge, by rw [ha]; simp⟩, hne.symm, hso.1 x hil⟩
    · rintro ⟨z, ⟨e', hge', hxin⟩, hne, hle⟩
      rw [hge] at hge'; cases hge'
      refine ⟨e, hge, ?_⟩
      cases ha : e.available with
      | nil => simp
      | cons y l =>
        rw [ha] at hxin hin
        intro hc
        have hiy : x = y := by simpa using hc
        subst hiy
        have hso := he.sorted
        unfold SortedS at hso
        rw [ha, List.pairwise_cons] at hso
        rcases List.mem_cons.1 hxin with h | h
        · exact hne h
        · exact hne (strLe_antisymm hle (hso.1 z h))
/-- Not vacuous, after the crash: the import into "v"; a clone of "u"; a pull from "u" into "v"; removing from and trimming "u". -/
example : Wild Demo.W Demo.cutV.crash ∧
    (mAddPackages Demo.E (Demo.S "v") [Demo.S "/up/a-1.eopkg"] false Demo.cutV.crash).res = .ok () ∧
    (mCloneRepo Demo.E (Demo.S "u") (Demo.S "w") true Demo.cutV.crash).res = .ok () ∧
    (mPullRepo Demo.E (Demo.S "u") (Demo.S "v") Demo.cutV.crash).res = .ok [Demo.S "a"] ∧
    (mRemoveSource Demo.E (Demo.S "u") (Demo.S "a") 1 Demo.cutV.crash).res = .ok () ∧
    (mCopySource Demo.E (Demo.S "u") (Demo.S "v") (Demo.S "a") 0 true Demo.cutV.crash).res = .ok () ∧
    Wild Demo.W Demo.cut4 ∧
    (mTrimPackages Demo.E (Demo.S "unstable") 1 Demo.cut4).res = .ok () ∧
    (mTrimObsolete Demo.E (Demo.S "unstable") Demo.cut4).res = .ok () := by
  refine ⟨Demo.wildCut, ?_, ?_, ?_, ?_, ?_, Demo.wild4, ?_, ?_⟩ <;> decide +kernel

/-! ## C114 -/

/-- C114: a repository can always be deleted: whatever crashes and I/O errors went before, and whatever they did to it and to the pool, deleting
an existing repository succeeds, and nothing is left of it: no record, no listing, no package files, no asset files, no index. -/
theorem C114_delete_always (ok : W.OK) (hz : W.NoTorn) (h : Wild W s) {r : Str} (hr : Repo s r) :
    let o := mDeleteRepo r s
    o.res = .ok () ∧ ¬ Repo o.st r ∧ (∀ n id, ¬ Lists o.st r n id) ∧ (∀ d, ¬ HasDelta o.st r d) ∧
    (∀ d id, o.st.fs.read (.repo r d id) = none) ∧ (∀ a, o.st.fs.read (.asset r a) = none) ∧ o.st.fs.idx r = none ∧
    (∀ r' n id, r' ≠ r → (Lists o.st r' n id ↔ Lists s r' n id)) := by
  have hs := h.rough ok hz
  have hd := deleteRepo_sure ok hs (by unfold Repo at hr; rwa [KV.mem_keys_iff] at hr)
  obtain ⟨h1, h2, h3, h4, h5, _⟩ := hd.st
  have hk := (Op.delete r).keeps ok hz trivial s hs
  refine ⟨hd.res, ?_, ?_, ?_, ?_, ?_, h5, ?_⟩
  · unfold Repo; rw [KV.mem_keys_iff]; rintro ⟨u, hu⟩
    have : (mDeleteRepo r s).st.db.repos.get r = none := h1
    rw [this] at hu; cases hu
  · rintro n id ⟨e, hg, _⟩
    have : ((mDeleteRepo r s).st.db.ents r).get n = none := h2 n
    rw [this] at hg; cases hg
  · rintro d ⟨n, e, hg, _⟩
    have : ((mDeleteRepo r s).st.db.ents r).get n = none := h2 n
    rw [this] at hg; cases hg
  · intro d id; unfold FS.read; rw [show (mDeleteRepo r s).st.fs.tab (.repo r d id) = none from h3 d id]; rfl
  · intro a; unfold FS.read; rw [show (mDeleteRepo r s).st.fs.tab (.asset r a) = none from h4 a]; rfl
  · intro r' n id hne
    have := (hk.fsame r' (fun h => hne (by cases h; rfl))).db.ents
    unfold Lists
    rw [show (mDeleteRepo r s).st.db.ents r' = s.db.ents r' from this]

/-- Not vacuous: "u" after its file has been emptied, and "v" caught half way through an import. -/
example : Wild Demo.W Demo.stR ∧ Repo Demo.stR (Demo.S "u") ∧ Wild Demo.W Demo.cutV.crash ∧ Repo Demo.cutV.crash (Demo.S "v") :=
  ⟨Demo.wildR, by unfold Repo; decide +kernel, Demo.wildCut, by unfold Repo; decide +kernel⟩

/-! ## C115 -/

/-- C115 at full strength: after any history of jobs, crashes and I/O errors, the published release of a name is the highest one listed. -/
def C115_statement : Prop := ∀ (W : World) (s : St), W.OK → W.NoTorn → Wild W s → ∀ r n t x, Tip s r n t → Lists s r n x → relOf W x ≤ relOf W t


/-- C115 is false of the code, for a repository nobody removed anything from: `a-2` is in "u" and in "v"; the daemon dies while removing it from
"u", after the reference count went down and before the listing did; the removal is run again, and the count goes down a second time, to
nothing, and with it the pool record "v" still needs; release 1 is then added to "v", whose published record has gone, and so becomes the
published one (repo.go:633-651: a missing record is taken for "nothing published"). -/
theorem C115_violated : ¬ C115_statement := by
  intro h
  have ht : Tip Demo.st9 (Demo.S "v") (Demo.S "a") (Demo.S "a-1.eopkg") :=
    ⟨((Demo.st9.db.ents (Demo.S "v")).get (Demo.S "a")).get (by decide +kernel), by decide +kernel, by decide +kernel⟩
  have hl : Lists Demo.st9 (Demo.S "v") (Demo.S "a") (Demo.S "a-2.eopkg") :=
    ⟨((Demo.st9.db.ents (Demo.S "v")).get (Demo.S "a")).get (by decide +kernel), by decide +kernel, by decide +kernel⟩
  have := h Demo.W Demo.st9 Demo.ok Demo.noTorn Demo.wild9 _ _ _ _ ht hl
  revert this; decide +kernel

/-- C115: both jobs reported success, and the index "v" serves goes from release 2 back to release 1. -/
theorem C115_violated_silently :
    (Demo.job8.run Demo.E Demo.cut8).res = .ok () ∧ (Demo.job9.run Demo.E Demo.st8').res = .ok () ∧
    ((Demo.st8'.fs.idx (Demo.S "v")).map fun d => d.packages.map DocPkg.id) = some [Demo.S "a-2.eopkg"] ∧
    ((Demo.st9.fs.idx (Demo.S "v")).map fun d => d.packages.map DocPkg.id) = some [Demo.S "a-1.eopkg"] := by decide +kernel

end Ferryd
