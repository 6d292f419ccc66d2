import Verif.CoreOps
/-!
# Spec: what a user sees

Small vocabulary in which the properties of pool and repositories are stated.  It refers only to the
database contents a listing command shows (`ferryctl list pool/repos`, the repository's package list), the
files in the served tree and the published index, not to the helpers the proofs use.
-/
namespace Ferryd.Spec

variable (W : World) (s : St)

/-- The repository exists (is shown by `list repos`). -/
def Repo (r : Str) : Prop := r ∈ s.db.repos.keys

/-- Repository `r` lists package file `id` as available under package name `n`. -/
def Lists (r n id : Str) : Prop := ∃ e, (s.db.ents r).get n = some e ∧ id ∈ e.available

/-- Repository `r` lists the package file `id`. -/
def Has (r id : Str) : Prop := ∃ n, Lists s r n id

/-- `id` is the published package of name `n` in repository `r`. -/
def Tip (r n id : Str) : Prop := ∃ e, (s.db.ents r).get n = some e ∧ e.published = id

/-- Repository `r` lists the delta package `d`. -/
def HasDelta (r d : Str) : Prop := ∃ n e, (s.db.ents r).get n = some e ∧ d ∈ e.deltas

/-- The pool listing shows `id` with `k` references. -/
def Count (id : Str) (k : Nat) : Prop := ∃ pe, s.db.pool.get id = some pe ∧ pe.refCount = k

/-- The pool listing shows `id`. -/
def InPool (id : Str) : Prop := ∃ pe, s.db.pool.get id = some pe

/-- `L` enumerates, without repetition, exactly the things satisfying `P`. -/
def Enumerates (L : List Str) (P : Str → Prop) : Prop := L.Nodup ∧ ∀ x, x ∈ L ↔ P x

/-- Name, release, source of the package in the file called `id`. -/
def nameOf (id : Str) : Str := (W.mOf id).name
def sourceOf (id : Str) : Str := (W.mOf id).source
def relOf (id : Str) : Int := ((W.mOf id).history.head?.map Update.release).getD 0

/-- The directory of package `id` below the pool or a repository. -/
def dirOf (id : Str) : Option Str := pathComp? (sourceOf W id)

/-- The served file of package `id` in repository `r` has content `c`. -/
def ServedAs (r id : Str) (c : Content) : Prop :=
  ∃ d, dirOf W id = some d ∧ s.fs.read (.repo r d id) = some c

/-- The pool file of package `id` has content `c`. -/
def PooledAs (id : Str) (c : Content) : Prop :=
  ∃ d, dirOf W id = some d ∧ s.fs.read (.pool d id) = some c

/-- The names marked obsolete by the distribution file of repository `r` (`none`: no usable file). -/
def Obsolete (r : Str) : Option (List Str) :=
  match s.fs.read (.asset r .distribution) with
  | none => some []
  | some c => W.E.parseDist c

/-- `n` is hidden by the obsolete list: it is on it, or it is the debug package of a name on it. -/
def Hidden (obs : List Str) (n : Str) : Prop :=
  n ∈ obs ∨ ∃ b ∈ obs, n = b ++ "-dbginfo".toList

/-- The index carries the elements of an asset file; without the file, none. -/
def Carries (p : Content → ParsedAsset) (file : Option Content) (elements : List Str) : Prop :=
  match file with
  | none => elements = []
  | some c => p c = .good elements

/-- What a correct index of repository `r` says in state `s`: it carries the components and groups of the asset files; it lists, sorted by file name and once each, exactly the tips
whose names the distribution file does not hide; it carries the obsolete list of that file, if there is one; and for each of them location, size and hash are those of the
file served, and name, source and history those of the package in it. -/
structure IndexCorrect (W : World) (s : St) (r : Str) (doc : Doc) : Prop where
  obsoletes : doc.obsoletes = (s.fs.read (.asset r .distribution)).bind W.E.parseDist
  components : Carries W.E.parseComps (s.fs.read (.asset r .components)) doc.components
  groups : Carries W.E.parseGroups (s.fs.read (.asset r .groups)) doc.groups
  sorted : SortedS (doc.packages.map DocPkg.id)
  exact_ : ∃ obs, Obsolete W s r = some obs ∧
    Enumerates (doc.packages.map DocPkg.id) (fun id => ∃ n, Tip s r n id ∧ ¬ Hidden obs n)
  files : ∀ p ∈ doc.packages, ∃ d c, dirOf W p.id = some d ∧ s.fs.read (.repo r d p.id) = some c ∧
    p.pkg.uri = d ++ '/' :: p.id ∧ p.pkg.size = c.length ∧ p.pkg.hash = W.E.sha1 c ∧
    p.pkg.name = nameOf W p.id ∧ p.pkg.source = sourceOf W p.id ∧ p.pkg.history = (W.mOf p.id).history

/-- Every delta the index offers for a package leads to the release of that package and is one the repository lists;
every delta the repository lists for that name whose target release is the published one is offered. -/
def IndexDeltas (W : World) (s : St) (r : Str) (doc : Doc) : Prop :=
  ∀ p ∈ doc.packages, ∀ x : DocDelta, x ∈ p.deltas ↔
    ∃ d pe di, HasDelta s r d ∧ nameOf W d = nameOf W p.id ∧ s.db.pool.get d = some pe ∧ pe.delta = some di ∧
      di.toRelease = relOf W p.id ∧
      x = ⟨di.fromRelease, (dirOf W d).getD [] ++ '/' :: d, (W.canon d).length, W.E.sha1 (W.canon d)⟩

/-- Repository `r` has a published index, and it is correct. -/
def Published (W : World) (s : St) (r : Str) : Prop :=
  ∃ doc, s.fs.idx r = some doc ∧ IndexCorrect W s r doc ∧ IndexDeltas W s r doc

/-- The asset files of repository `r` that exist parse. -/
structure AssetsParse (W : World) (s : St) (r : Str) : Prop where
  dist : ∀ c, s.fs.read (.asset r .distribution) = some c → ∃ obs, W.E.parseDist c = some obs
  comps : ∀ c, s.fs.read (.asset r .components) = some c → ∃ l, W.E.parseComps c = .good l
  groups : ∀ c, s.fs.read (.asset r .groups) = some c → ∃ l, W.E.parseGroups c = .good l


/-- White space: tab, line feed, vertical tab, form feed, carriage return, space, next line, no-break space, Ogham space mark, the
spaces U+2000 to U+200A, line and paragraph separator, narrow no-break space, mathematical space, ideographic space. -/
def White (c : Char) : Prop :=
  c.toNat ∈ [9, 10, 11, 12, 13, 32, 133, 160, 5760, 8192, 8193, 8194, 8195, 8196, 8197, 8198, 8199, 8200, 8201, 8202, 8232, 8233,
    8239, 8287, 12288]

end Ferryd.Spec

namespace Ferryd
open Spec
variable {W : World} {s : St}

theorem Inv.spec_has (h : Inv W s) (r id : Str) : Has s r id ↔ s.has r id = true := by
  rw [St.has_iff (h.wfEnts r)]; rfl

theorem Inv.spec_delta (h : Inv W s) (r id : Str) : HasDelta s r id ↔ s.hasDelta r id = true := by
  rw [St.hasDelta_iff (h.wfEnts r)]; rfl

theorem Inv.lists_name (h : Inv W s) {r n id : Str} (hl : Lists s r n id) : nameOf W id = n := by
  obtain ⟨e, hg, hi⟩ := hl
  exact ((h.ent r n e hg).avail id hi).2.2

theorem Inv.lists_iff (h : Inv W s) (r n id : Str) : Lists s r n id ↔ s.has r id = true ∧ nameOf W id = n := by
  constructor
  · intro hl; exact ⟨(h.spec_has r id).1 ⟨n, hl⟩, h.lists_name hl⟩
  · rintro ⟨hh, rfl⟩; exact (h.has_iff r id).1 hh

@[simp] theorem Spec.relOf_eq (W : World) (id : Str) : relOf W id = (W.mOf id).rel := rfl

end Ferryd
