import Verif.PropsXmlPackage
import Verif.PropsCore3
/-!
# PropsXmlIndex: what a client reads in a published index (C156)

The packages that `CoreModel` puts into the index, as the structures of `XmlPackage`, and what a reader of the bytes gets.
-/
namespace Ferryd.Xml
open Ferryd.Escape Ferryd.Escape.Spec Ferryd.Xml.Spec Ferryd.Spec

namespace Spec
/-- The structure that is encoded is that of the package in the document; the fields that the model of the repositories does not
have are arbitrary. -/
structure Describes (p : DocPkg) (q : Package) : Prop where
  name : q.name = p.pkg.name
  source : q.source.name = p.pkg.source
  history : q.history.map (fun u => (u.release, u.version)) = p.pkg.history.map fun u => (u.release, u.version)
  distRelease : q.distributionRelease = p.pkg.distRelease
  arch : q.architecture = p.pkg.arch
  uri : q.uri = p.pkg.uri
  size : q.size = p.pkg.size
  hash : q.hash = p.pkg.hash
  deltas : (q.deltas.getD []).map (fun d => (d.releaseFrom, d.uri, d.size, d.hash)) =
    p.deltas.map fun d => (d.releaseFrom, d.uri, (d.size : Int), d.hash)

/-- One by one. -/
inductive AllDescribe : List DocPkg → List Package → Prop
  | nil : AllDescribe [] []
  | cons {p q ps qs} : Describes p q → AllDescribe ps qs → AllDescribe (p :: ps) (q :: qs)

/-- The index that is encoded is that of the document. -/
structure DescribesIndex (doc : Doc) (i : Index) : Prop where
  packages : AllDescribe doc.packages i.packages
  obsoletes : i.distribution.map (fun d => d.obsoletes) = doc.obsoletes

/-- What an entry of the index tells a client about the package `t`: its name, source, releases and versions, the place below the
repository, and size and hash of the file that is served there. -/
structure Tells (W : World) (s : St) (r t : Str) (q : Package) : Prop where
  name : q.name = nameOf W t
  source : q.source.name = sourceOf W t
  history : q.history.map (fun u => (u.release, u.version)) = (W.mOf t).history.map fun u => (u.release, u.version)
  file : ∃ d c, dirOf W t = some d ∧ q.uri = d ++ '/' :: t ∧ s.fs.read (.repo r d t) = some c ∧
    q.size = (c.length : Int) ∧ q.hash = W.E.sha1 c

/-- What an entry tells about deltas: those, and only those, that the repository lists for the name and that lead to the package's
release; each with the release it starts from, its place, size and hash. -/
def TellsDeltas (W : World) (s : St) (r t : Str) (q : Package) : Prop :=
  ∀ x : Int × Str × Int × Str, x ∈ (q.deltas.getD []).map (fun d => (d.releaseFrom, d.uri, d.size, d.hash)) ↔
    ∃ d pe di, HasDelta s r d ∧ nameOf W d = nameOf W t ∧ s.db.pool.get d = some pe ∧ pe.delta = some di ∧ di.toRelease = relOf W t ∧
      x = (di.fromRelease, (dirOf W d).getD [] ++ '/' :: d, ((W.canon d).length : Int), W.E.sha1 (W.canon d))
end Spec

/-! ## Proof -/

theorem Spec.AllDescribe.right {ps : List DocPkg} {qs : List Package} (h : AllDescribe ps qs) : ∀ q ∈ qs, ∃ p ∈ ps, Describes p q := by
  induction h with
  | nil => intro q hq; cases hq
  | @cons p q ps qs hd _ ih =>
    intro x hx
    rcases List.mem_cons.1 hx with rfl | hx
    · exact ⟨p, by simp, hd⟩
    · obtain ⟨y, hy, hd⟩ := ih x hx
      exact ⟨y, List.mem_cons_of_mem _ hy, hd⟩

theorem Spec.AllDescribe.left {ps : List DocPkg} {qs : List Package} (h : AllDescribe ps qs) : ∀ p ∈ ps, ∃ q ∈ qs, Describes p q := by
  induction h with
  | nil => intro q hq; cases hq
  | @cons p q ps qs hd _ ih =>
    intro x hx
    rcases List.mem_cons.1 hx with rfl | hx
    · exact ⟨q, by simp, hd⟩
    · obtain ⟨y, hy, hd⟩ := ih x hx
      exact ⟨y, List.mem_cons_of_mem _ hy, hd⟩

theorem Spec.AllDescribe.names {ps : List DocPkg} {qs : List Package} (h : AllDescribe ps qs) :
    qs.map (fun q => q.name) = ps.map fun p => p.pkg.name := by
  induction h with
  | nil => rfl
  | cons hd _ ih => rw [List.map_cons, List.map_cons, hd.name, ih]

/-- Replacing texts changes none of the fields concerned. -/
theorem over_describes {f : List Char → List Char} {ps : List DocPkg} {qs : List Package} (h : AllDescribe ps qs) :
    AllDescribe ps (qs.map (Package.over f)) := by
  induction h with
  | nil => exact .nil
  | cons hd _ ih =>
    refine .cons ⟨hd.name, hd.source, ?_, hd.distRelease, hd.arch, hd.uri, hd.size, hd.hash, hd.deltas⟩ ih
    rw [← hd.history]
    show (List.map (History.over f) _).map _ = _
    rw [List.map_map]
    rfl

theorem names_nodup {l : List DocPkg} (hn : (l.map DocPkg.id).Nodup)
    (h : ∀ p ∈ l, ∀ q ∈ l, p.pkg.name = q.pkg.name → p.id = q.id) : (l.map fun p => p.pkg.name).Nodup := by
  induction l with
  | nil => exact List.nodup_nil
  | cons a l ih =>
    rw [List.map_cons, List.nodup_cons] at hn ⊢
    refine ⟨?_, ih hn.2 fun p hp q hq => h p (List.mem_cons_of_mem _ hp) q (List.mem_cons_of_mem _ hq)⟩
    intro hm
    obtain ⟨b, hb, e⟩ := List.mem_map.1 hm
    exact hn.1 (List.mem_map.2 ⟨b, hb, h b (List.mem_cons_of_mem _ hb) a (by simp) e⟩)

variable {W : World} {s : St}

/-- C156: after every job that publishes a repository and reports success, whatever the other fields of its packages say: the
bytes of the index are read as an index whose packages have distinct names, which lists exactly the published packages the
distribution does not hide, and which tells of each the place, size and hash of the file served, its releases and its
deltas; and whose obsolete names are those of the distribution file. -/
theorem C156_client_reads (cls : Nat → Bool) (ok : W.OK) (h : Reachable W s) (o : Op) (ho : o.Ok W) {r : Str}
    (hp : o.publishes = some r) (hres : (o.run W.E s).res = .ok ()) :
    ∃ doc obs, (o.exec W.E s).fs.idx r = some doc ∧ Obsolete W (o.exec W.E s) r = some obs ∧
      ∀ i : Index, DescribesIndex doc i → Index.Expressible i → ∃ out j, write cls (utf8 i.text) = utf8 out ∧ readBytes out = some j ∧
        (j.packages.map fun q => q.name).Nodup ∧
        (∀ q ∈ j.packages, ∃ n t, Tip (o.exec W.E s) r n t ∧ ¬ Hidden obs n ∧ Tells W (o.exec W.E s) r t q ∧
          TellsDeltas W (o.exec W.E s) r t q) ∧
        (∀ n t, Tip (o.exec W.E s) r n t → ¬ Hidden obs n → ∃ q ∈ j.packages, Tells W (o.exec W.E s) r t q) ∧
        j.distribution.map (fun d => d.obsoletes) = ((o.exec W.E s).fs.read (.asset r .distribution)).bind W.E.parseDist := by
  have hi := (h.step o ho).inv ok
  obtain ⟨doc, h1, h2, h3⟩ := (o.fresh ok (h.inv ok) ho hp hres).correct ok hi
  obtain ⟨obs, h4, hnd, h5⟩ := h2.exact_
  refine ⟨doc, obs, h1, h4, fun i hd hx => ?_⟩
  obtain ⟨out, f, h6, _, h7⟩ := C155_all_but_languages_partial cls hx
  have hall : AllDescribe doc.packages (Index.mute (Index.over f i)).packages := over_describes hd.packages
  have htells : ∀ p ∈ doc.packages, ∀ q, Describes p q → Tells W (o.exec W.E s) r p.id q := by
    intro p hp q hq
    obtain ⟨d, c, f1, f2, f3, f4, f5, f6, f7, f8⟩ := h2.files p hp
    exact ⟨hq.name.trans f6, hq.source.trans f7, by rw [hq.history, f8], d, c, f1, hq.uri.trans f3, f2, by rw [hq.size, f4], hq.hash.trans f5⟩
  have hdeltas : ∀ p ∈ doc.packages, ∀ q, Describes p q → TellsDeltas W (o.exec W.E s) r p.id q := by
    intro p hp q hq x
    rw [hq.deltas]
    constructor
    · intro hm
      obtain ⟨y, hy, rfl⟩ := List.mem_map.1 hm
      obtain ⟨d, pe, di, g1, g2, g3, g4, g5, rfl⟩ := (h3 p hp y).1 hy
      exact ⟨d, pe, di, g1, g2, g3, g4, g5, rfl⟩
    · rintro ⟨d, pe, di, g1, g2, g3, g4, g5, rfl⟩
      exact List.mem_map.2 ⟨_, (h3 p hp _).2 ⟨d, pe, di, g1, g2, g3, g4, g5, rfl⟩, rfl⟩
  refine ⟨out, _, h6, h7, ?_, ?_, ?_, ?_⟩
  · rw [hall.names]
    refine names_nodup hnd fun p hp q hq e => ?_
    obtain ⟨n1, ht1, _⟩ := (h5 p.id).1 (List.mem_map_of_mem hp)
    obtain ⟨n2, ht2, _⟩ := (h5 q.id).1 (List.mem_map_of_mem hq)
    obtain ⟨_, _, _, _, _, _, _, e1, _⟩ := h2.files p hp
    obtain ⟨_, _, _, _, _, _, _, e2, _⟩ := h2.files q hq
    have hn : n1 = n2 := by
      rw [← hi.lists_name (hi.tip_lists ht1), ← hi.lists_name (hi.tip_lists ht2), ← e1, ← e2, e]
    subst hn
    exact tip_unique ht1 ht2
  · intro q hq
    obtain ⟨p, hp, hpq⟩ := hall.right q hq
    obtain ⟨n, ht, hh⟩ := (h5 p.id).1 (List.mem_map_of_mem hp)
    exact ⟨n, p.id, ht, hh, htells p hp q hpq, hdeltas p hp q hpq⟩
  · intro n t ht hh
    obtain ⟨p, hp, rfl⟩ := List.mem_map.1 ((h5 t).2 ⟨n, ht, hh⟩)
    obtain ⟨q, hq, hpq⟩ := hall.left p hp
    exact ⟨q, hq, htells p hp q hpq⟩
  · rw [← h2.obsoletes, ← hd.obsoletes]
    show Option.map _ (Option.map _ (Option.map _ i.distribution)) = _
    cases i.distribution <;> rfl

/-- For every document there is an index to encode. (No code: for the example.) -/
def Demo.fill (d : Doc) : Index where
  distribution := d.obsoletes.map fun o => ⟨[], [], [], [], [], o⟩
  packages := d.packages.map fun p =>
    { Demo.nano with
      name := p.pkg.name, source := ⟨p.pkg.source, [], ⟨[], []⟩⟩
      history := p.pkg.history.map fun u => ⟨u.release, [], [], u.version, [], [], [], none⟩
      distributionRelease := p.pkg.distRelease, architecture := p.pkg.arch, uri := p.pkg.uri, size := p.pkg.size, hash := p.pkg.hash
      deltas := some (p.deltas.map fun d => ⟨d.releaseFrom, d.uri, d.size, d.hash⟩) }
  components := []
  groups := []

theorem Demo.fill_describes (d : Doc) : DescribesIndex d (Demo.fill d) := by
  constructor
  · show AllDescribe d.packages (d.packages.map _)
    induction d.packages with
    | nil => exact .nil
    | cons p ps ih =>
      refine .cons ⟨rfl, rfl, ?_, rfl, rfl, rfl, rfl, rfl, ?_⟩ ih
      · show (List.map _ _).map _ = _
        rw [List.map_map]; rfl
      · show (List.map _ _).map _ = _
        rw [List.map_map]; rfl
  · show Option.map _ (Option.map _ _) = _
    cases d.obsoletes <;> rfl

/-- The demo's environment, with digests that are text. (No code: for the example.) -/
def Demo.env : Env := { Ferryd.Demo.E with sha1 := fun c => c.map fun n => Char.ofNat (97 + n % 26) }

/-- The demo's second history in that environment. (No code: for the example.) -/
def Demo.state : St := runAll Demo.env St.init Ferryd.Demo.hist4

/-- A concrete case: the demo's index job succeeds, publishes a package, and its index can be encoded. -/
example : (mIndex Demo.env (Ferryd.Demo.S "unstable") Demo.state).res = .ok () ∧
    ((mIndex Demo.env (Ferryd.Demo.S "unstable") Demo.state).st.fs.idx (Ferryd.Demo.S "unstable")).map
      (fun d => ((Demo.fill d).packages.map (fun q => q.uri),
        decide (∀ t ∈ Index.strings (Demo.fill d), ∀ c ∈ t, XmlChar c))) =
      some ([Ferryd.Demo.S "b/b/b-1.eopkg"], true) := by decide +kernel

end Ferryd.Xml
