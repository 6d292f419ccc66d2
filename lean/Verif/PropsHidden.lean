import Verif.PropsSync
import Verif.PropsCore3
/-!
# PropsHidden: the repositories have no state beside their listings (C139)
-/
namespace Ferryd
open Spec
variable {W : World} {s t : St}

/-- As far as packages go, `s` and `t` cannot be told apart: the same repositories, listings, published releases, pool records with their counts,
pool files and served files.  (No code: a notion of the statements.) -/
structure Spec.SamePackages (W : World) (s t : St) : Prop where
  repo : ∀ r, Repo s r ↔ Repo t r
  lists : ∀ r n id, Lists s r n id ↔ Lists t r n id
  tip : ∀ r n x, Tip s r n x → ∃ y, Tip t r n y ∧ relOf W x = relOf W y
  inPool : ∀ id, W.isDelta id = false → (InPool s id ↔ InPool t id)
  record : ∀ id, W.isDelta id = false → s.db.pool.get id = t.db.pool.get id
  poolFile : ∀ d id, W.isDelta id = false → s.fs.read (.pool d id) = t.fs.read (.pool d id)
  served : ∀ r d id, W.isDelta id = false → s.fs.read (.repo r d id) = t.fs.read (.repo r d id)

theorem Inv.pool_of_has' (h : Inv W s) {id : Str} (hdl : W.isDelta id = false) :
    s.db.pool.get id = if (s.holders id).length = 0 then none else some ⟨id, (s.holders id).length, W.stamped id, none⟩ := by
  cases hg : s.db.pool.get id with
  | none =>
    rw [if_pos]
    cases hh : s.holders id with
    | nil => rfl
    | cons r l =>
      have := (h.mem_holders r id).1 (by rw [hh]; simp)
      obtain ⟨_, _, pe, hpe⟩ := h.has_facts this
      rw [hg] at hpe; cases hpe
  | some pe =>
    have e := h.pool_eq hg hdl
    have hp := (h.pool id pe hg).pos
    rw [e] at hp
    rw [if_neg (by simp only at hp; omega), ← e]

theorem Inv.read_pool (h : Inv W s) {d id : Str} (hdl : W.isDelta id = false)
    [Decidable ((∃ pe, s.db.pool.get id = some pe) ∧ W.compOf id = some d)] : s.fs.read (.pool d id) =
      if (∃ pe, s.db.pool.get id = some pe) ∧ W.compOf id = some d then some (W.canon id) else none := by
  have := FS.read_isSome s.fs (.pool d id)
  cases hx : s.fs.read (.pool d id) with
  | none =>
    rw [hx] at this
    rw [if_neg]
    intro hc
    rw [(h.poolFile id d).2 hc] at this; cases this
  | some c =>
    rw [hx] at this
    rw [if_pos ((h.poolFile id d).1 this.symm)]
    rcases h.fs.content (.pool d id) c rfl hx with h' | ⟨h', _⟩
    · rw [h']; rfl
    · have h' : W.isDelta id = true := h'
      rw [hdl] at h'; cases h'

theorem Inv.read_repo (h : Inv W s) {r d id : Str} (hdl : W.isDelta id = false)
    [Decidable (s.has r id = true ∧ W.compOf id = some d)] : s.fs.read (.repo r d id) =
      if s.has r id = true ∧ W.compOf id = some d then some (W.canon id) else none := by
  have := FS.read_isSome s.fs (.repo r d id)
  cases hx : s.fs.read (.repo r d id) with
  | none =>
    rw [hx] at this
    rw [if_neg]
    intro hc
    rw [(h.repoFile r id d hdl).2 hc] at this; cases this
  | some c =>
    rw [hx] at this
    rw [if_pos ((h.repoFile r id d hdl).1 this.symm)]
    rcases h.fs.content (.repo r d id) c rfl hx with h' | ⟨h', _⟩
    · rw [h']; rfl
    · have h' : W.isDelta id = true := h'
      rw [hdl] at h'; cases h'

/-- C139: the repositories and their listings are all the state there is, as far as packages go.  Two daemons, whatever their histories, that have
the same repositories listing the same packages publish the same release of every package, have the same pool records with the same counts, the
same files in the pool and the same files served. -/
theorem C139_no_hidden_state (ok : W.OK) (hs : Reachable W s) (ht : Reachable W t) (hr : ∀ r, Repo s r ↔ Repo t r)
    (hl : ∀ r n id, Lists s r n id ↔ Lists t r n id) : SamePackages W s t := by
  have h := hs.inv ok
  have h' := ht.inv ok
  have hh : ∀ r id, s.has r id = t.has r id := by
    intro r id
    have e : Has s r id ↔ Has t r id := ⟨fun ⟨n, hn⟩ => ⟨n, (hl r n id).1 hn⟩, fun ⟨n, hn⟩ => ⟨n, (hl r n id).2 hn⟩⟩
    rw [h.spec_has, h'.spec_has] at e
    cases h1 : s.has r id <;> cases h2 : t.has r id <;> simp_all
  have hp : ∀ id, W.isDelta id = false → s.db.pool.get id = t.db.pool.get id := by
    intro id hd
    rw [h.pool_of_has' hd, h'.pool_of_has' hd, holders_length h h' hh]
  classical
  refine ⟨hr, hl, fun r n x hx => ?_, fun id hd => ?_, hp, fun d id hd => ?_, fun r d id hd => ?_⟩
  · obtain ⟨hx1, hx2⟩ := (C04_tip_is_highest ok hs).1 x hx
    obtain ⟨y, hy⟩ := (C04_tip_is_highest ok ht).2 x ((hl r n x).1 hx1)
    obtain ⟨hy1, hy2⟩ := (C04_tip_is_highest ok ht).1 y hy
    exact ⟨y, hy, Int.le_antisymm (hy2 x ((hl r n x).1 hx1)) (hx2 y ((hl r n y).2 hy1))⟩
  · unfold InPool; rw [hp id hd]
  · rw [h.read_pool hd, h'.read_pool hd]; simp only [hp id hd]
  · rw [h.read_repo hd, h'.read_repo hd]; simp only [hh]

/-- C139 for the index: if moreover the asset files of a repository are the same, no two packages of one name in it have the same release, and its
index is up to date in both, then the two indices advertise the same packages in the same order. -/
theorem C139_index (ok : W.OK) (hs : Reachable W s) (ht : Reachable W t) (hr : ∀ r, Repo s r ↔ Repo t r)
    (hl : ∀ r n id, Lists s r n id ↔ Lists t r n id) {r : Str} (ha : s.fs.read (.asset r .distribution) = t.fs.read (.asset r .distribution))
    (hu : ∀ n x y, Lists s r n x → Lists s r n y → relOf W x = relOf W y → x = y) (hps : Published W s r) (hpt : Published W t r) :
    ∃ d d', s.fs.idx r = some d ∧ t.fs.idx r = some d' ∧ d.packages.map DocPkg.id = d'.packages.map DocPkg.id := by
  obtain ⟨d, hd, hc, _⟩ := hps
  obtain ⟨d', hd', hc', _⟩ := hpt
  refine ⟨d, d', hd, hd', ?_⟩
  have tips : ∀ n x, Tip s r n x ↔ Tip t r n x := by
    intro n x
    constructor
    · intro hx
      obtain ⟨y, hy, he⟩ := (C139_no_hidden_state ok hs ht hr hl).tip r n x hx
      have := hu n x y ((C04_tip_is_highest ok hs).1 x hx).1 ((hl r n y).2 ((C04_tip_is_highest ok ht).1 y hy).1) he
      rw [this]; exact hy
    · intro hx
      obtain ⟨y, hy, he⟩ := (C139_no_hidden_state ok ht hs (fun r => (hr r).symm) (fun r n id => (hl r n id).symm)).tip r n x hx
      have := hu n y x ((C04_tip_is_highest ok hs).1 y hy).1 ((hl r n x).2 ((C04_tip_is_highest ok ht).1 x hx).1) he.symm
      rw [← this]; exact hy
  obtain ⟨obs, ho, hn, hm⟩ := hc.exact_
  obtain ⟨obs', ho', hn', hm'⟩ := hc'.exact_
  have e : obs = obs' := by
    unfold Obsolete at ho ho'
    rw [ha, ho'] at ho; cases ho; rfl
  subst e
  refine SortedS.ext hc.sorted hc'.sorted hn hn' fun id => ?_
  rw [hm, hm']
  simp only [tips]

/-- C139, undoing a creation: deleting a repository right after creating it leaves everything as it was. -/
theorem C139_create_delete (ok : W.OK) (h : Reachable W s) {r : Str} (hr : ¬ Repo s r) (hres : reservedKey r = false) :
    SamePackages W s (mDeleteRepo r (mCreateRepo W.E r s).st).st := by
  have h1 : Reachable W (mCreateRepo W.E r s).st := h.step (.create r) trivial
  obtain ⟨c1, c2, c3, _⟩ := C09_create ok h hr hres
  obtain ⟨_, d1, d2, _, _, _, _, _, d3⟩ := C10_delete ok h1 ((c1 r).2 (.inl rfl))
  refine C139_no_hidden_state ok h (h1.step (.delete r) trivial) (fun x => ?_) (fun x n id => ?_)
  · have := d1 x; rw [c1] at this
    refine Iff.trans ?_ this.symm
    exact ⟨fun hx => ⟨fun e => hr (e ▸ hx), .inr hx⟩, fun hx => hx.2.resolve_left hx.1⟩
  · by_cases hx : x = r
    · subst hx
      constructor
      · intro hl
        have : Lists (mCreateRepo W.E x s).st x n id := by unfold Lists at *; rw [c3]; exact hl
        exact absurd this (c2 n id)
      · rintro ⟨e, he, _⟩
        have he : ((mDeleteRepo x (mCreateRepo W.E x s).st).st.db.ents x).get n = some e := he
        rw [d2] at he; cases he
    · have : (mDeleteRepo r (mCreateRepo W.E r s).st).st.db.ents x = s.db.ents x := (d3 x hx).trans (by rw [c3])
      unfold Lists; rw [this]

/-- C139, undoing a clone: deleting the clone, complete or of tips only, leaves everything as it was. -/
theorem C139_clone_delete (ok : W.OK) (h : Reachable W s) {src new : Str} (hs : Repo s src) (hn : ¬ Repo s new) (hres : reservedKey new = false)
    (full : Bool) : SamePackages W s (mDeleteRepo new (mCloneRepo W.E src new full s).st).st := by
  have h1 : Reachable W (mCloneRepo W.E src new full s).st := h.step (.clone src new full) trivial
  have c1 : ∀ x, Repo (mCloneRepo W.E src new full s).st x ↔ x = new ∨ Repo s x := by
    cases full with
    | false => exact (C11_tip_clone ok h hs hn hres).1
    | true => exact (C12_full_clone ok h hs hn hres).1
  obtain ⟨_, d1, d2, _, _, _, _, _, d3⟩ := C10_delete ok h1 ((c1 new).2 (.inl rfl))
  refine C139_no_hidden_state ok h (h1.step (.delete new) trivial) (fun x => ?_) (fun x n id => ?_)
  · have := d1 x; rw [c1] at this
    refine Iff.trans ?_ this.symm
    exact ⟨fun hx => ⟨fun e => hn (e ▸ hx), .inr hx⟩, fun hx => hx.2.resolve_left hx.1⟩
  · by_cases hx : x = new
    · subst hx
      constructor
      · rintro ⟨e, he, _⟩
        have := (h.inv ok).noEnts x hn
        rw [this] at he; cases he
      · rintro ⟨e, he, _⟩
        have he : ((mDeleteRepo x (mCloneRepo W.E src x full s).st).st.db.ents x).get n = some e := he
        rw [d2] at he; cases he
    · obtain ⟨_, f1, _⟩ := C08_frame ok h (.clone src new full) trivial x (by intro e; cases e; exact hx rfl)
      have : (mDeleteRepo new (mCloneRepo W.E src new full s).st).st.db.ents x = (mCloneRepo W.E src new full s).st.db.ents x := d3 x hx
      rw [← f1]; unfold Lists; rw [this]; rfl

/-- Removing the packages of a source undoes whatever has added only such packages to a repository that had none. -/
theorem removeSource_undoes (ok : W.OK) (hs : Reachable W s) (ht : Reachable W t) {r source : Str} {rel : Int} (hr : Repo s r)
    (hrepo : ∀ x, Repo s x ↔ Repo t x) (hne : ∀ id, Has s r id → ¬ FromSource W source rel id)
    (hsub : ∀ n id, Lists s r n id → Lists t r n id) (hnew : ∀ n id, Lists t r n id → Lists s r n id ∨ FromSource W source rel id)
    (hoth : ∀ x n id, x ≠ r → (Lists t x n id ↔ Lists s x n id)) :
    SamePackages W s (mRemoveSource W.E r source rel t).st := by
  have hu : Reachable W (mRemoveSource W.E r source rel t).st := ht.step (.removeSource r source rel) trivial
  have hrt : Repo t r := (hrepo r).1 hr
  have key : ∀ n id, Lists (mRemoveSource W.E r source rel t).st r n id ↔ Lists t r n id ∧ ¬ FromSource W source rel id := by
    intro n id
    by_cases hm : ∃ id, Has t r id ∧ FromSource W source rel id
    · exact (C15_remove_source ok ht hrt source rel hm).1 n id
    · obtain ⟨_, e, _⟩ := C15_remove_source_none ok ht hrt source rel hm
      unfold Lists; rw [e]
      exact ⟨fun hx => ⟨hx, fun hf => hm ⟨id, ⟨n, hx⟩, hf⟩⟩, fun hx => hx.1⟩
  refine C139_no_hidden_state ok hs hu (fun x => ?_) (fun x n id => ?_)
  · by_cases hx : x = r
    · subst hx
      refine ⟨fun _ => ?_, fun _ => hr⟩
      have hi := ht.inv ok
      by_cases hm : ∃ id, Has t x id ∧ FromSource W source rel id
      · rcases mRemoveSource_run ok hi hrt source rel with ⟨_, hrun⟩ | ⟨he, _⟩
        · unfold Repo; rw [hrun.job.repos]; exact hrt
        · obtain ⟨id, h1⟩ := hm
          have := (mem_matching hi x source rel id).2 h1
          rw [he] at this; cases this
      · obtain ⟨_, e, _⟩ := C15_remove_source_none ok ht hrt source rel hm
        unfold Repo; rw [e]; exact hrt
    · have := (C08_frame ok ht (.removeSource r source rel) trivial x (by intro e; cases e; exact hx rfl)).1
      exact (hrepo x).trans this.symm
  · by_cases hx : x = r
    · subst hx
      rw [key]
      exact ⟨fun hl => ⟨hsub n id hl, hne id ⟨n, hl⟩⟩, fun hl => (hnew n id hl.1).resolve_right hl.2⟩
    · have := (C08_frame ok ht (.removeSource r source rel) trivial x (by intro e; cases e; exact hx rfl)).2.1 n id
      exact (hoth x n id hx).symm.trans this.symm

/-- C139, undoing an import: if a repository has no package of a source, importing packages of that source, strictly or not, whether or not the
import gets through all of them, and then removing the source leaves everything as it was. -/
theorem C139_import_remove (ok : W.OK) (h : Reachable W s) {r source : Str} {rel : Int} {files : List Str} (strict : Bool) (hr : Repo s r)
    (hd : ∀ f ∈ files, W.isDelta (baseName f) = false) (hf : ∀ f ∈ files, FromSource W source rel (baseName f))
    (hne : ∀ id, Has s r id → ¬ FromSource W source rel id) :
    SamePackages W s (mRemoveSource W.E r source rel (mAddPackages W.E r files strict s).st).st := by
  have hi := h.inv ok
  have ht : Reachable W (mAddPackages W.E r files strict s).st := h.step (.addPackages r files strict) hd
  have hi' := ht.inv ok
  obtain ⟨ids, hj, hin⟩ : ∃ ids, AddedJob W s (mAddPackages W.E r files strict s).st r ids ∧ ∀ x ∈ ids, ∃ f ∈ files, x = baseName f := by
    cases strict with
    | false =>
      obtain ⟨done, rest, e, hj, _⟩ := (mAddPackages_run ok hi hr files hd).spec
      refine ⟨_, hj, fun x hx => ?_⟩
      obtain ⟨f, hf, rfl⟩ := List.mem_map.1 hx
      exact ⟨f, by rw [e]; simp [hf], rfl⟩
    | true =>
      obtain ⟨done, rest, e, hj, _⟩ := (mAddPackagesStrict_run ok hi hr files hd).spec
      refine ⟨_, hj, fun x hx => ?_⟩
      obtain ⟨f, hf, rfl⟩ := List.mem_map.1 hx
      exact ⟨f, by rw [e]; simp [hf], rfl⟩
  refine removeSource_undoes ok h ht hr (fun x => by unfold Repo; rw [hj.repos]) hne (fun n id hl => ?_) (fun n id hl => ?_) (fun x n id hx => ?_)
  · rw [hi.lists_iff] at hl; rw [hi'.lists_iff]
    exact ⟨(hj.has r id).2 (.inl hl.1), hl.2⟩
  · rw [hi'.lists_iff] at hl; rw [hi.lists_iff]
    rcases (hj.has r id).1 hl.1 with h1 | ⟨_, h1⟩
    · exact .inl ⟨h1, hl.2⟩
    · obtain ⟨f, hf1, rfl⟩ := hin id h1
      exact .inr (hf f hf1)
  · exact (C08_frame ok h (.addPackages r files strict) hd x (by intro e; cases e; exact hx rfl)).2.1 n id

/-- C139, undoing a copy: if a repository has no package of a source, copying the source there and removing it again leaves everything as it was. -/
theorem C139_copy_remove (ok : W.OK) (h : Reachable W s) {src dst source : Str} {rel : Int} (skip : Bool) (hs : Repo s src) (hd : Repo s dst)
    (hne : ∀ id, Has s dst id → ¬ FromSource W source rel id) :
    SamePackages W s (mRemoveSource W.E dst source rel (mCopySource W.E src dst source rel skip s).st).st := by
  have ht : Reachable W (mCopySource W.E src dst source rel skip s).st := h.step (.copySource src dst source rel skip) trivial
  have hfr := fun x (hx : x ≠ dst) => C08_frame ok h (.copySource src dst source rel skip) trivial x (by intro e; cases e; exact hx rfl)
  have key : (∀ n id, Lists (mCopySource W.E src dst source rel skip s).st dst n id ↔
      Lists s dst n id ∨ (Lists s src n id ∧ FromSource W source rel id)) ∧ Repo (mCopySource W.E src dst source rel skip s).st dst := by
    by_cases hm : ∃ id, Has s src id ∧ FromSource W source rel id
    · refine ⟨(C16_copy_source ok h hs hd source rel skip hm).1, ?_⟩
      obtain ⟨id, ⟨n, hl⟩, hfs⟩ := hm
      have h2 := ((C16_copy_source ok h hs hd source rel skip ⟨id, ⟨n, hl⟩, hfs⟩).1 n id).2 (.inr ⟨hl, hfs⟩)
      have hi' := ht.inv ok
      exact (hi'.has_facts ((hi'.spec_has dst id).1 ⟨n, h2⟩)).1
    · obtain ⟨_, e, _⟩ := C16_copy_source_none ok h hs hd source rel skip hm
      refine ⟨fun n id => ?_, by unfold Repo; rw [e]; exact hd⟩
      unfold Lists; rw [e]
      exact ⟨.inl, fun hx => hx.elim (fun h => h) fun hx => absurd ⟨id, ⟨n, hx.1⟩, hx.2⟩ hm⟩
  refine removeSource_undoes ok h ht hd (fun x => ?_) hne (fun n id hl => (key.1 n id).2 (.inl hl)) (fun n id hl => ?_) (fun x n id hx => (hfr x hx).2.1 n id)
  · by_cases hx : x = dst
    · subst hx; exact ⟨fun _ => key.2, fun _ => hd⟩
    · exact (hfr x hx).1.symm
  · rcases (key.1 n id).1 hl with h1 | h1
    · exact .inl h1
    · exact .inr h1.2

/-- Two different histories that end with the same listings: the second one had a third repository for a while. -/
def Demo.stClone : St := runAll Demo.E Demo.st1 [.clone (Demo.S "unstable") (Demo.S "z") false, .delete (Demo.S "z")]

theorem Demo.reachClone : Reachable Demo.W Demo.stClone :=
  (Demo.reach1.step (.clone (Demo.S "unstable") (Demo.S "z") false) trivial).step (.delete (Demo.S "z")) trivial

/-- Not vacuous: the hypotheses of `C139_no_hidden_state` hold of `st1` and `stClone`, and two packages are in use there, one of them twice. -/
example : (∀ r, Repo Demo.st1 r ↔ Repo Demo.stClone r) ∧ (∀ r n id, Lists Demo.st1 r n id ↔ Lists Demo.stClone r n id) ∧
    (Demo.st1.db.pool.get (Demo.S "a-2.eopkg")).map PoolEntry.refCount = some 2 := by
  have h := C139_clone_delete Demo.ok Demo.reach1 (src := Demo.S "unstable") (new := Demo.S "z") (by unfold Repo; decide +kernel)
    (by unfold Repo; decide +kernel) (by decide +kernel) false
  exact ⟨h.repo, h.lists, by decide +kernel⟩

/-- Not vacuous: `st1` has "unstable" and no "e"; "e" may be created; then it has no package of source "b", and the file of "b" is of that source and can
be imported. -/
example : Repo Demo.st1 (Demo.S "unstable") ∧ ¬ Repo Demo.st1 (Demo.S "e") ∧ reservedKey (Demo.S "e") = false ∧
    (∀ id, Has (mCreateRepo Demo.E (Demo.S "e") Demo.st1).st (Demo.S "e") id → ¬ FromSource Demo.W (Demo.S "b") 0 id) ∧
    FromSource Demo.W (Demo.S "b") 0 (baseName (Demo.S "/up/b-1.eopkg")) ∧
    (mAddPackages Demo.E (Demo.S "e") [Demo.S "/up/b-1.eopkg"] false (mCreateRepo Demo.E (Demo.S "e") Demo.st1).st).res = .ok () := by
  have hn : ¬ Repo Demo.st1 (Demo.S "e") := by unfold Repo; decide +kernel
  refine ⟨by unfold Repo; decide +kernel, hn, by decide +kernel, ?_, ?_, by decide +kernel⟩
  · rintro id ⟨n, hl⟩
    exact absurd hl ((C09_create Demo.ok Demo.reach1 hn (by decide +kernel)).2.1 n id)
  · unfold FromSource; decide +kernel

/-- Not vacuous: after the first history both repositories have no two packages of one name and release, and an index that is up to date. -/
example : Published Demo.W Demo.st1 (Demo.S "shannon") ∧
    (Demo.st1.db.ents (Demo.S "shannon")).keys = [Demo.S "a", Demo.S "b"] ∧
    (Demo.st1.availOf (Demo.S "shannon") (Demo.S "a")).map (relOf Demo.W) = [1, 2] := by
  refine ⟨?_, by decide +kernel, by decide +kernel⟩
  · obtain ⟨h1, h2⟩ : Published Demo.W Demo.st1 (Demo.S "shannon") ∧ True := by
      refine ⟨?_, trivial⟩
      obtain ⟨d, h1, h2⟩ := C21_index_exact Demo.ok (s := runAll Demo.E St.init (Demo.hist1.take 5))
        ⟨_, fun o ho => Demo.hist1_ok o (List.mem_of_mem_take ho), rfl⟩ (.clone (Demo.S "unstable") (Demo.S "shannon") true) trivial
        (r := Demo.S "shannon") rfl (by decide +kernel)
      obtain ⟨d', h3, h4⟩ := C22_index_deltas Demo.ok (s := runAll Demo.E St.init (Demo.hist1.take 5))
        ⟨_, fun o ho => Demo.hist1_ok o (List.mem_of_mem_take ho), rfl⟩ (.clone (Demo.S "unstable") (Demo.S "shannon") true) trivial
        (r := Demo.S "shannon") rfl (by decide +kernel)
      rw [h1] at h3; cases h3
      exact ⟨d, h1, h2, h4⟩
    exact h1

end Ferryd
