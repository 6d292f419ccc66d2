import Verif.PropsCore3
/-!
# Property C91: a job reports success exactly when its request is valid and the index can be rebuilt

`Accepts` says, per operation and in terms of what listings, files and package metadata show, when the request is
valid; `Spec.reindexed` which repository the code re-indexes at the end.
-/
namespace Ferryd
namespace Spec

/-- The file at `p` exists and parses as a package. -/
def Readable (W : World) (s : St) (p : Path) : Prop := ∃ c m, s.fs.read p = some c ∧ W.E.parse c = .good m

/-- The package in the file `f` is newer than everything `r` lists under its name. -/
def NewerThanAll (W : World) (s : St) (r f : Str) : Prop :=
  ∀ id, Lists s r (nameOf W (baseName f)) id → relOf W id < relOf W (baseName f)

/-- When a request is valid in state `s`. -/
def Accepts (W : World) (s : St) : Op → Prop
  | .create r => ¬ Repo s r ∧ reservedKey r = false
  | .delete r => Repo s r
  | .clone src new _ => Repo s src ∧ ¬ Repo s new ∧ reservedKey new = false
  | .pull src dst => Repo s src ∧ Repo s dst ∧ ¬ Newer W s dst src
  | .removeSource r source rel => Repo s r ∧ ∃ id, Has s r id ∧ FromSource W source rel id
  | .copySource src dst source rel _ =>
      Repo s src ∧ Repo s dst ∧ ∃ id, Has s src id ∧ FromSource W source rel id
  | .trimObsolete r => Repo s r ∧ ∃ c, s.fs.read (.asset r .distribution) = some c
  | .trimPackages r k => Repo s r ∧ 1 ≤ k
  | .addPackages r files false => Repo s r ∧ ∀ f ∈ files, Readable W s (.ext f)
  | .addPackages r files true => Repo s r ∧ (∀ f ∈ files, Readable W s (.ext f) ∧ NewerThanAll W s r f) ∧
      files.Pairwise fun f g => nameOf W (baseName f) = nameOf W (baseName g) →
        relOf W (baseName f) < relOf W (baseName g)
  | .index r => Repo s r
  | .addDelta r d f t => Repo s r ∧ Readable W s (.stage r d) ∧ (∃ id, Lists s r (nameOf W d) id) ∧
      (HasDelta s r d ∨ InPool s d ∨ InPool s f ∧ InPool s t)
  | .refDelta r d => Repo s r ∧ InPool s d ∧ ∃ id, Lists s r (nameOf W d) id
  | .markFailed id _ => (∃ d, s.db.skip.get id = some d) ∨ reservedKey id = false
  | _ => True

/-- The repository whose index the operation rebuilds at its end.  (CopySource: the flag is tested the wrong way
round, see C17.) -/
def reindexed : Op → Option Str
  | .create r => some r
  | .clone _ new _ => some new
  | .pull _ dst => some dst
  | .removeSource r _ _ => some r
  | .copySource _ dst _ _ true => some dst
  | .trimObsolete r => some r
  | .trimPackages r _ => some r
  | .addPackages r _ _ => some r
  | .index r => some r
  | _ => none

end Spec
open Spec
variable {W : World} {s : St}


theorem readable_iff (ok : W.OK) (h : Inv W s) {p : Path} (hna : p.isAsset = false) :
    Readable W s p ↔ s.fs.read p = some (W.canon p.base) ∧ W.IsPkg p.base := by
  rcases openPkg_run h ok hna with ⟨_, hx⟩ | ⟨_, c, hx, hb⟩ | ⟨_, hx, hp⟩
  · constructor
    · rintro ⟨c, m, hc, _⟩; rw [hx] at hc; cases hc
    · rintro ⟨hc, _⟩; rw [hx] at hc; cases hc
  · constructor
    · rintro ⟨c', m, hc, hg⟩; rw [hx] at hc; cases hc; rw [hb] at hg; cases hg
    · rintro ⟨hc, hp⟩; rw [hx] at hc; cases hc
      unfold World.IsPkg at hp; rw [hb] at hp; cases hp
  · exact ⟨fun _ => ⟨hx, hp⟩, fun _ => ⟨_, W.mOf p.base, hx, hp⟩⟩

theorem importable_iff (ok : W.OK) (h : Inv W s) (f : Str) : Readable W s (.ext f) ↔ W.Importable s f :=
  readable_iff ok h rfl

theorem strictOk_iff (ok : W.OK) (h : Inv W s) (r : Str) (files : List Str) :
    W.StrictOk s r files ↔ (∀ f ∈ files, Readable W s (.ext f) ∧ NewerThanAll W s r f) ∧
      files.Pairwise fun f g => nameOf W (baseName f) = nameOf W (baseName g) →
        relOf W (baseName f) < relOf W (baseName g) := by
  constructor
  · rintro ⟨h1, h2, h3⟩
    refine ⟨fun f hf => ⟨(importable_iff ok h f).2 (h1 f hf), ?_⟩, h3⟩
    intro id hid
    obtain ⟨ha, hb⟩ := (h.lists_iff r _ id).1 hid
    exact h2 f hf id ha hb
  · rintro ⟨h1, h3⟩
    refine ⟨fun f hf => (importable_iff ok h f).1 (h1 f hf).1, ?_, h3⟩
    intro f hf j hj hn
    exact (h1 f hf).2 j ((h.lists_iff r _ j).2 ⟨hj, hn⟩)

theorem listed_iff (h : Inv W s) (r n : Str) : (∃ id, Lists s r n id) ↔ ∃ e, (s.db.ents r).get n = some e := by
  constructor
  · rintro ⟨id, e, hg, _⟩; exact ⟨e, hg⟩
  · rintro ⟨e, hg⟩; exact ⟨_, e, hg, (h.ent r n e hg).pub⟩

theorem refDelta_needs {r d : Str} (h : Inv W s) (hok : (refDelta W.E r d s).res = .ok ()) :
    (∃ pe, s.db.pool.get d = some pe) ∧ ∃ e, (s.db.ents r).get (W.mOf d).name = some e := by
  unfold refDelta at hok
  cases hg : s.db.pool.get d with
  | none => rw [poolGet_bind_none _ hg] at hok; cases hok
  | some pe =>
    have hnm : pe.pkg.name = (W.mOf d).name := by rw [(h.pool d pe hg).pkg]; rfl
    cases hge : (s.db.ents r).get (W.mOf d).name with
    | none => rw [poolGet_bind_some _ hg, hnm, repoGet_bind_none _ hge] at hok; cases hok
    | some e => exact ⟨⟨pe, rfl⟩, e, rfl⟩

/-- The error answers: not success, whatever is claimed. -/
theorem no_ok {o : Out Unit} {e : Err} {u : St} {tr : List St} (h : o = ⟨.err e, u, tr⟩) {P Q : Prop} (hP : ¬ P) :
    o.res = .ok () ↔ P ∧ Q := by
  rw [h]; constructor
  · intro hx; cases hx
  · intro hx; exact absurd hx.1 hP

theorem job_ok {o : Out Unit} {r : Str} {k : Nat} {ro : Option Str} (hro : ro = some r)
    (h : o.res = .ok () ↔ W.Indexable o.st r k) {P : Prop} (hP : P) :
    o.res = .ok () ↔ P ∧ ∀ x, ro = some x → AssetsParse W o.st x ∧ W.E.indexIO k = .ok := by
  rw [h, indexable_iff]
  constructor
  · intro hx; refine ⟨hP, ?_⟩
    rintro x hx'; rw [hro] at hx'; cases hx'; exact hx
  · intro hx; exact hx.2 r hro

theorem job_plain {o : Out Unit} {k : Nat} (h : o.res = .ok ()) {P : Prop} (hP : P) :
    o.res = .ok () ↔ P ∧ ∀ x, (none : Option Str) = some x → AssetsParse W o.st x ∧ W.E.indexIO k = .ok :=
  ⟨fun _ => ⟨hP, fun _ hx => by cases hx⟩, fun _ => h⟩

theorem matching_iff (h : Inv W s) (r source : Str) (rel : Int) :
    (∃ id, Has s r id ∧ FromSource W source rel id) ↔ (s.ids r).filter (W.matchesSrc source rel) ≠ [] := by
  constructor
  · rintro ⟨id, hx⟩ he
    have := (mem_matching h r source rel id).2 hx
    rw [he] at this; cases this
  · intro hne
    obtain ⟨id, hid⟩ := List.exists_mem_of_ne_nil _ hne
    exact ⟨id, (mem_matching h r source rel id).1 hid⟩

/-- C91: in every reachable state every operation succeeds if and only if its request is valid (`Accepts`) and, when it
ends with rebuilding an index, the asset files then found parse and no tool of that index run fails. -/
theorem C91_succeeds_iff (ok : W.OK) (h : Reachable W s) (o : Op) (ho : o.Ok W) :
    (o.run W.E s).res = .ok () ↔ Accepts W s o ∧
      ∀ r, reindexed o = some r → AssetsParse W (o.exec W.E s) r ∧ W.E.indexIO s.clock = .ok := by
  have hi := h.inv ok
  unfold Op.exec
  cases o with
  | create r =>
    by_cases hr : r ∈ s.db.repos.keys
    · obtain ⟨tr, hrun, _⟩ := mCreateRepo_exists (W := W) hi hr
      exact no_ok hrun (fun hx => hx.1 hr)
    · cases hres : reservedKey r with
      | true => exact no_ok (mCreateRepo_reserved hi hr hres) (fun hx => by have := hx.2; rw [hres] at this; cases this)
      | false => exact job_ok rfl (mCreateRepo_run ok hi hr hres).okIff ⟨hr, hres⟩
  | delete r =>
    by_cases hr : r ∈ s.db.repos.keys
    · obtain ⟨s', tr, hrun, _⟩ := deleteRepo_run ok (hi.delReady hr)
      refine job_plain (o := (Op.delete r).run W.E s) ?_ hr
      show (deleteRepo r s).res = _
      rw [hrun]
    · exact no_ok (deleteRepo_missing hi hr) hr
  | clone src new full =>
    by_cases hs : src ∈ s.db.repos.keys
    · by_cases hb : new ∈ s.db.repos.keys ∨ reservedKey new = true
      · obtain ⟨e, u, tr, hrun, _⟩ := mCloneRepo_bad (W := W) hi hs hb full
        refine no_ok hrun ?_
        rintro ⟨_, h1, h2⟩
        rcases hb with hb | hb
        · exact h1 hb
        · rw [h2] at hb; cases hb
      · have h1 : new ∉ s.db.repos.keys := fun hx => hb (.inl hx)
        have h2 : reservedKey new = false := by
          cases hx : reservedKey new with
          | false => rfl
          | true => exact absurd (.inr hx) hb
        exact job_ok rfl (mCloneRepo_run ok hi hs h1 h2 full).okIff ⟨hs, h1, h2⟩
    · exact no_ok (mCloneRepo_missing hi hs full) (fun hx => hs hx.1)
  | pull src dst =>
    have hd : ∀ (m : M (List Str)), ((discard m) s).res = .ok () ↔ ∃ l, (m s).res = .ok l := by
      intro m
      unfold discard
      cases hx : m s with
      | mk res u tr =>
        cases res with
        | ok l => rw [bind_ok hx]; simp
        | err e => rw [bind_err hx]; simp
        | panic => rw [bind_panic hx]; simp
    have hst : ((discard (mPullRepo W.E src dst)) s).st = (mPullRepo W.E src dst s).st :=
      (discard_run (mPullRepo W.E src dst) s).1
    show ((discard (mPullRepo W.E src dst)) s).res = _ ↔ _
    rw [hd]
    by_cases hk : src ∈ s.db.repos.keys ∧ dst ∈ s.db.repos.keys
    · rcases mPullRepo_run ok hi hk.1 hk.2 with ⟨hc, hp⟩ | ⟨hc, s', tr, hrun, _⟩
      · rw [hp.okIff, indexable_iff]
        constructor
        · intro hx
          refine ⟨⟨hk.1, hk.2, by rw [newer_iff]; exact hc⟩, ?_⟩
          intro r hr; cases hr
          show AssetsParse W ((discard (mPullRepo W.E src dst)) s).st dst ∧ _
          rw [hst]; exact hx
        · intro hx
          have := hx.2 dst rfl
          rw [← hst]; exact this
      · rw [hrun]
        constructor
        · rintro ⟨l, hl⟩; cases hl
        · rintro ⟨⟨_, _, hx⟩, _⟩; rw [newer_iff] at hx; exact absurd hc hx
    · obtain ⟨u, tr, hrun, _⟩ := mPullRepo_missing (W := W) hi (src := src) (dst := dst) (by
        by_cases hx : src ∈ s.db.repos.keys
        · exact .inr (fun hy => hk ⟨hx, hy⟩)
        · exact .inl hx)
      rw [hrun]
      constructor
      · rintro ⟨l, hl⟩; cases hl
      · rintro ⟨⟨h1, h2, _⟩, _⟩; exact absurd ⟨h1, h2⟩ hk
  | removeSource r source rel =>
    by_cases hr : r ∈ s.db.repos.keys
    · rcases mRemoveSource_run ok hi hr source rel with ⟨hne, hj⟩ | ⟨hne, tr, hrun, _⟩
      · exact job_ok rfl hj.okIff ⟨hr, (matching_iff hi r source rel).2 hne⟩
      · exact no_ok hrun (fun hx => (matching_iff hi r source rel).1 hx.2 hne)
    · exact no_ok (mRemoveSource_missing hi hr source rel) (fun hx => hr hx.1)
  | copySource src dst source rel skip =>
    by_cases hk : src ∈ s.db.repos.keys ∧ dst ∈ s.db.repos.keys
    · by_cases hne : (s.ids src).filter (W.matchesSrc source rel) = []
      · obtain ⟨tr, hrun, _⟩ := mCopySource_none ok hi hk.1 hk.2 source rel skip hne
        exact no_ok hrun (fun hx => (matching_iff hi src source rel).1 hx.2.2 hne)
      · obtain ⟨o, hrun, _, _, _, h1, h2⟩ := mCopySource_run ok hi hk.1 hk.2 source rel skip hne
        have hacc : Accepts W s (.copySource src dst source rel skip) :=
          ⟨hk.1, hk.2, (matching_iff hi src source rel).2 hne⟩
        show (mCopySource W.E src dst source rel skip s).res = _ ↔ _ ∧ ∀ r, _ → AssetsParse W
          (mCopySource W.E src dst source rel skip s).st r ∧ _
        rw [hrun]
        cases skip with
        | true => exact job_ok rfl (h1 rfl).2 hacc
        | false => exact job_plain (h2 rfl).1 hacc
    · obtain ⟨u, tr, hrun, _⟩ := mCopySource_missing (W := W) hi (src := src) (dst := dst) (by
        by_cases hx : src ∈ s.db.repos.keys
        · exact .inr (fun hy => hk ⟨hx, hy⟩)
        · exact .inl hx) source rel skip
      exact no_ok hrun (fun hx => hk ⟨hx.1, hx.2.1⟩)
  | trimObsolete r =>
    by_cases hr : r ∈ s.db.repos.keys
    · cases hd : W.distOf s r with
      | none =>
        obtain ⟨e, tr, hrun, _⟩ := mTrimObsolete_err (W := W) hi hr (.inl hd)
        show (mTrimObsolete W.E r s).res = _ ↔ _ ∧ ∀ x, _ → AssetsParse W (mTrimObsolete W.E r s).st x ∧ _
        rw [hrun]
        constructor
        · intro hx; cases hx
        · rintro ⟨_, hx⟩
          obtain ⟨c, hc⟩ : ∃ c, s.fs.read (.asset r .distribution) = some c := by
            unfold World.distOf at hd
            cases hc : s.fs.read (.asset r .distribution) with
            | none => rw [hc] at hd; cases hd
            | some c => exact ⟨c, rfl⟩
          obtain ⟨obs, ho⟩ := (hx r rfl).1.dist c (by simpa using hc)
          unfold World.distOf at hd
          rw [hc] at hd; simp [ho] at hd
      | some d =>
        cases d with
        | none =>
          obtain ⟨e, tr, hrun, _⟩ := mTrimObsolete_err (W := W) hi hr (.inr hd)
          refine no_ok hrun ?_
          rintro ⟨_, c, hc⟩
          unfold World.distOf at hd
          rw [hc] at hd
          cases hp : W.E.parseDist c <;> simp [hp] at hd
        | some obs =>
          refine job_ok rfl (mTrimObsolete_run ok hi hr hd).okIff ⟨hr, ?_⟩
          unfold World.distOf at hd
          cases hc : s.fs.read (.asset r .distribution) with
          | none => rw [hc] at hd; cases hd
          | some c => exact ⟨c, rfl⟩
    · exact no_ok (mTrimObsolete_missing hi hr) (fun hx => hr hx.1)
  | trimPackages r k =>
    by_cases hr : r ∈ s.db.repos.keys
    · by_cases hk : 1 ≤ k
      · exact job_ok rfl (mTrimPackages_run ok hi hr k hk).okIff ⟨hr, hk⟩
      · obtain ⟨tr, hrun, _⟩ := mTrimPackages_small (W := W) hi hr k (by omega)
        exact no_ok hrun (fun hx => hk hx.2)
    · exact no_ok (mTrimPackages_missing hi hr k) (fun hx => hr hx.1)
  | addPackages r files strict =>
    by_cases hr : r ∈ s.db.repos.keys
    · cases strict with
      | false =>
        obtain ⟨done, rest, hsp, _, hdone, hbad, herr, _, hok⟩ := (mAddPackages_run ok hi hr files ho).spec
        cases rest with
        | nil =>
          rw [List.append_nil] at hsp; subst hsp
          exact job_ok rfl (hok rfl) ⟨hr, fun f hf => (importable_iff ok hi f).2 (hdone f hf)⟩
        | cons f rest =>
          obtain ⟨e, he⟩ := herr (by simp)
          constructor
          · intro hx
            have : (mAddPackages W.E r files false s).res = .ok () := hx
            rw [he] at this; cases this
          · rintro ⟨⟨_, hx⟩, _⟩
            exact absurd ((importable_iff ok hi f).1 (hx f (by rw [hsp]; simp))) (hbad f rest rfl)
      | true =>
        obtain ⟨done, rest, hsp, _, hdone, hbad, herr, _, hok⟩ := (mAddPackagesStrict_run ok hi hr files ho).spec
        cases rest with
        | nil =>
          rw [List.append_nil] at hsp; subst hsp
          exact job_ok rfl (hok rfl) ⟨hr, (strictOk_iff ok hi r files).1 hdone⟩
        | cons f rest =>
          obtain ⟨e, he⟩ := herr (by simp)
          constructor
          · intro hx
            have : (mAddPackages W.E r files true s).res = .ok () := hx
            rw [he] at this; cases this
          · rintro ⟨⟨_, hx⟩, _⟩
            have := (strictOk_iff ok hi r files).2 hx
            rw [hsp, show done ++ f :: rest = (done ++ [f]) ++ rest by simp] at this
            exact absurd (StrictOk.prefix this) (hbad f rest rfl)
    · cases strict <;> exact no_ok (mAddPackages_missing hi hr files _) (fun hx => hr hx.1)
  | index r =>
    by_cases hr : r ∈ s.db.repos.keys
    · exact job_ok rfl (mIndex_run ok hi hr).okIff hr
    · exact no_ok (mIndex_missing hi hr) hr
  | addDelta r d f t =>
    by_cases hr : r ∈ s.db.repos.keys
    · obtain ⟨t0, hg, _⟩ := getRepo_run hi hr
      have hgi := hi.got hr
      have hrun0 : mAddDelta W.E r (.stage r d) f t s = (addDelta W.E r (.stage r d) f t (s.got r)).pre t0 := by
        unfold mAddDelta; rw [bind_ok hg]
      have hready : W.DeltaReady (s.got r) r d f t ↔ Accepts W s (.addDelta r d f t) := by
        unfold World.DeltaReady
        simp only [St.got_read, St.got_db]
        have hrd := readable_iff ok hi (p := .stage r d) rfl
        simp only [Path.base] at hrd
        show _ ↔ Repo s r ∧ Readable W s (.stage r d) ∧ (∃ id, Lists s r (nameOf W d) id) ∧
          (HasDelta s r d ∨ InPool s d ∨ InPool s f ∧ InPool s t)
        rw [hrd, listed_iff hi]
        constructor
        · rintro ⟨h1, h2, e, h3, h4⟩
          refine ⟨hr, ⟨h1, h2⟩, ⟨e, h3⟩, ?_⟩
          rcases h4 with h4 | h4 | h4
          · exact .inl ⟨_, e, h3, h4⟩
          · exact .inr (.inl h4)
          · exact .inr (.inr h4)
        · rintro ⟨_, ⟨h1, h2⟩, ⟨e, h3⟩, h4⟩
          refine ⟨h1, h2, e, h3, ?_⟩
          rcases h4 with ⟨n, e', hg', hd'⟩ | h4 | h4
          · have := ((hi.ent r n e' hg').deltas d hd').2.2
            rw [← this] at hg'
            have : e' = e := by
              have h5 : (s.db.ents r).get (W.mOf d).name = some e := h3
              rw [h5] at hg'; cases hg'; rfl
            subst this; exact .inl hd'
          · exact .inr (.inl h4)
          · exact .inr (.inr h4)
      have hmain : (mAddDelta W.E r (.stage r d) f t s).res = .ok () ↔ Accepts W s (.addDelta r d f t) := by
        rw [hrun0, ← hready]
        constructor
        · intro hx; exact addDelta_needs ok hgi hx
        · intro hx
          rcases addDelta_run (r := r) ok hgi ho.1 ho.2.1 ho.2.2 with ⟨_, hn⟩ | ⟨hy, _⟩ |
            ⟨c, e, k, di, s', tr, hrun, _⟩
          · exact absurd hx hn
          · rw [hy]; rfl
          · rw [hrun]; rfl
      exact ⟨fun hx => ⟨hmain.1 hx, fun _ hx => by cases hx⟩, fun hx => hmain.2 hx.1⟩
    · refine no_ok (e := .notFound) (u := s) (tr := []) ?_ (fun hx => hr hx.1)
      show mAddDelta W.E r (.stage r d) f t s = _
      unfold mAddDelta; rw [bind_err (getRepo_missing hi hr)]
  | refDelta r d =>
    by_cases hr : r ∈ s.db.repos.keys
    · obtain ⟨t0, hg, _⟩ := getRepo_run hi hr
      have hgi := hi.got hr
      have hrun0 : mRefDelta W.E r d s = (refDelta W.E r d (s.got r)).pre t0 := by
        unfold mRefDelta; rw [bind_ok hg]
      have hmain : (mRefDelta W.E r d s).res = .ok () ↔ Accepts W s (.refDelta r d) := by
        rw [hrun0]
        constructor
        · intro hx
          obtain ⟨h1, h2⟩ := refDelta_needs hgi hx
          rw [St.got_db] at h1 h2
          exact ⟨hr, h1, (listed_iff hi r _).2 h2⟩
        · rintro ⟨_, ⟨pe, h1⟩, h2⟩
          obtain ⟨e, h2⟩ := (listed_iff hi r _).1 h2
          rcases refDelta_run (r := r) ok hgi ho with ⟨_, hn⟩ | ⟨hy, _⟩ | ⟨c, e, k, di, s', tr, hrun, _⟩
          · rw [St.got_db] at hn
            rcases hn with hn | hn
            · rw [h1] at hn; cases hn
            · have h2' : (s.db.ents r).get (W.mOf d).name = some e := h2
              rw [h2'] at hn; cases hn
          · rw [hy]; rfl
          · rw [hrun]; rfl
      exact ⟨fun hx => ⟨hmain.1 hx, fun _ hx => by cases hx⟩, fun hx => hmain.2 hx.1⟩
    · refine no_ok (e := .notFound) (u := s) (tr := []) ?_ (fun hx => hr hx.1)
      show mRefDelta W.E r d s = _
      unfold mRefDelta; rw [bind_err (getRepo_missing hi hr)]
  | markFailed id d =>
    have hmain : (markDeltaFailed id d s).res = .ok () ↔ Accepts W s (.markFailed id d) := by
      show _ ↔ (∃ d, s.db.skip.get id = some d) ∨ reservedKey id = false
      unfold markDeltaFailed
      rw [getSt_bind]
      cases hg : s.db.skip.get id with
      | some x => simp
      | none =>
        cases hres : reservedKey id with
        | false =>
          have := dbWrite_direct (w := .putSkip id d) (by exact hres) s
          simp [this]
        | true =>
          simp [dbWrite, DbWrite.key, hres]
    exact ⟨fun hx => ⟨hmain.1 hx, fun _ hx => by cases hx⟩, fun hx => hmain.2 hx.1⟩
  | upload f c => exact job_plain rfl trivial
  | unlink f => exact job_plain rfl trivial
  | putAsset r a c => exact job_plain rfl trivial
  | stage r d c => exact job_plain rfl trivial
  | unstage r d => exact job_plain rfl trivial
  | restart => exact job_plain rfl trivial

/-- Non-vacuity of C91: in the demo both answers occur for many kinds of request, and the theorem says which. -/
example :
    (Op.run Demo.E (.clone (Demo.S "unstable") (Demo.S "new") true) Demo.st1).res = .ok () ∧
    (Op.run Demo.E (.clone (Demo.S "nosuch") (Demo.S "new") true) Demo.st1).res = .err .notFound ∧
    (Op.run Demo.E (.removeSource (Demo.S "unstable") (Demo.S "a") 1) Demo.st1).res = .ok () ∧
    (Op.run Demo.E (.removeSource (Demo.S "unstable") (Demo.S "a") 7) Demo.st1).res = .err .noMatch ∧
    (Op.run Demo.E (.trimPackages (Demo.S "unstable") 1) Demo.st1).res = .ok () ∧
    (Op.run Demo.E (.trimPackages (Demo.S "unstable") 0) Demo.st1).res = .err .tooSmall ∧
    (Op.run Demo.E (.addPackages (Demo.S "unstable") Demo.files false) Demo.st1).res = .ok () ∧
    (Op.run Demo.E (.addPackages (Demo.S "unstable") Demo.files true) Demo.st1).res ≠ .ok () := by
  refine ⟨?_, ?_, ?_, ?_, ?_, ?_, ?_, ?_⟩ <;> decide +kernel

/-- C91 used: a full clone of the demo repository succeeds because the request is valid. -/
example : Accepts Demo.W Demo.st1 (.clone (Demo.S "unstable") (Demo.S "new") true) := by
  unfold Accepts Repo; refine ⟨?_, ?_, ?_⟩ <;> decide +kernel

/-- C23 for a whole strict upload: exactly the longest acceptable beginning of the list is added. -/
theorem C23_strict_prefix (ok : W.OK) (h : Reachable W s) {r : Str} (hr : Repo s r) (files : List Str)
    (hd : ∀ f ∈ files, W.isDelta (baseName f) = false) :
    let s' := (mAddPackages W.E r files true s).st
    ∃ done rest, files = done ++ rest ∧ Accepts W s (.addPackages r done true) ∧
      (∀ f rest', rest = f :: rest' → ¬ Accepts W s (.addPackages r (done ++ [f]) true)) ∧
      ∀ n id, Lists s' r n id ↔ Lists s r n id ∨ ∃ f ∈ done, n = nameOf W (baseName f) ∧ id = baseName f := by
  have hi := h.inv ok
  obtain ⟨done, rest, hsp, ha, hdone, hbad, _⟩ := (mAddPackagesStrict_run ok hi hr files hd).spec
  intro s'
  refine ⟨done, rest, hsp, ⟨hr, (strictOk_iff ok hi r done).1 hdone⟩, ?_, ?_⟩
  · rintro f rest' hf ⟨_, hx⟩
    exact hbad f rest' hf ((strictOk_iff ok hi r _).2 hx)
  · intro n id
    have hi' : Inv W s' := ha.inv
    rw [hi'.lists_iff, show (s'.has r id = true ↔ _) from ha.has r id, hi.lists_iff]
    simp only [true_and, List.mem_map]
    constructor
    · rintro ⟨hx | ⟨f, hf, rfl⟩, rfl⟩
      · exact .inl ⟨hx, rfl⟩
      · exact .inr ⟨f, hf, rfl, rfl⟩
    · rintro (⟨hx, rfl⟩ | ⟨f, hf, rfl, rfl⟩)
      · exact ⟨.inl hx, rfl⟩
      · exact ⟨.inr ⟨f, hf, rfl⟩, rfl⟩

end Ferryd
