import Verif.PropsCore1
/-!
# Properties C11–C17: clone, pull, remove-source, copy-source
-/
namespace Ferryd
open Spec
variable {W : World} {s : St}

/-! ## C11, C12 -/

theorem mem_cloneTips (h : Inv W s) (src j : Str) :
    j ∈ s.cloneIds src false ↔ ∃ n, Tip s src n j := by
  simp only [St.cloneIds, Bool.false_eq_true, if_false, List.mem_map]
  constructor
  · rintro ⟨e, ⟨⟨n, e'⟩, hm, rfl⟩, rfl⟩
    exact ⟨n, e', KV.get_of_mem (h.wfEnts src) hm, rfl⟩
  · rintro ⟨n, e, hg, rfl⟩
    exact ⟨e, ⟨(n, e), KV.mem_of_get hg, rfl⟩, rfl⟩



theorem Inv.tip_of_lists {r n id : Str} (hl : Lists s r n id) : ∃ t, Tip s r n t := by
  obtain ⟨e, hg, _⟩ := hl; exact ⟨_, e, hg, rfl⟩

theorem Inv.tip_top (h : Inv W s) {r n t id : Str} (ht : Tip s r n t) (hl : Lists s r n id) :
    relOf W id ≤ relOf W t := by
  obtain ⟨e, hg, rfl⟩ := ht
  obtain ⟨e', hg', hi⟩ := hl
  rw [hg] at hg'; cases hg'
  exact (h.ent r n e hg).top id hi

theorem tip_unique {r n a b : Str} (ha : Tip s r n a) (hb : Tip s r n b) : a = b := by
  obtain ⟨e, hg, rfl⟩ := ha
  obtain ⟨e', hg', rfl⟩ := hb
  rw [hg] at hg'; cases hg'; rfl

/-- C11: a tip clone creates the repository with, for each package name of the origin, exactly the origin's tip,
published as tip, no deltas, and copies of the asset files; it references each of those packages once more, and
the origin is as before. -/
theorem C11_tip_clone (ok : W.OK) (h : Reachable W s) {src new : Str} (hs : Repo s src) (hn : ¬ Repo s new)
    (hres : reservedKey new = false) :
    let s' := (mCloneRepo W.E src new false s).st
    (∀ x, Repo s' x ↔ x = new ∨ Repo s x) ∧
    (∀ n id, Lists s' new n id ↔ Tip s src n id) ∧ (∀ n id, Tip s' new n id ↔ Tip s src n id) ∧
    (∀ d, ¬ HasDelta s' new d) ∧
    s'.db.ents src = s.db.ents src ∧ (mCloneRepo W.E src new false s).res ≠ .panic := by
  have hi := h.inv ok
  have hc := mCloneRepo_run ok hi hs hn hres false
  intro s'
  have hi' : Inv W s' := hc.inv
  have hne : src ≠ new := fun e => hn (e ▸ hs)
  have hnew : ∀ j, s.has new j = false := by
    intro j
    cases hx : s.has new j with
    | false => rfl
    | true => exact absurd (hi.has_facts hx).1 hn
  have hl : ∀ n id, Lists s' new n id ↔ Tip s src n id := by
    intro n id
    rw [hi'.lists_iff, show (s'.has new id = true ↔ _) from hc.has new id, hnew]
    simp only [Bool.false_eq_true, true_and, false_or, mem_cloneTips hi]
    constructor
    · rintro ⟨⟨m, ht⟩, rfl⟩
      have := hi.lists_name (hi.tip_lists ht)
      rw [this]; exact ht
    · intro ht
      exact ⟨⟨n, ht⟩, hi.lists_name (hi.tip_lists ht)⟩
  refine ⟨?_, hl, ?_, ?_, hc.frame.ents src hne, hc.noPanic⟩
  · intro x; unfold Repo; rw [show s'.db.repos = _ from hc.repos, KV.mem_keys_put]
  · intro n id
    constructor
    · intro ht; exact (hl n id).1 (hi'.tip_lists ht)
    · intro ht
      obtain ⟨t, ht'⟩ := Inv.tip_of_lists ((hl n id).2 ht)
      have := tip_unique ((hl n t).1 (hi'.tip_lists ht')) ht
      rw [← this]; exact ht'
  · intro d hd
    have := (hc.hasDelta d).1 ((hi'.spec_delta new d).1 hd)
    cases this.1

/-- C12: a full clone lists the same names, the same available packages, tips of the same release, the same
deltas; the origin's records are as before. -/
theorem C12_full_clone (ok : W.OK) (h : Reachable W s) {src new : Str} (hs : Repo s src) (hn : ¬ Repo s new)
    (hres : reservedKey new = false) :
    let s' := (mCloneRepo W.E src new true s).st
    (∀ x, Repo s' x ↔ x = new ∨ Repo s x) ∧
    (∀ n id, Lists s' new n id ↔ Lists s src n id) ∧
    (∀ n t t', Tip s src n t → Tip s' new n t' → relOf W t = relOf W t') ∧
    (∀ d, HasDelta s' new d ↔ HasDelta s src d) ∧
    s'.db.ents src = s.db.ents src ∧ (mCloneRepo W.E src new true s).res ≠ .panic := by
  have hi := h.inv ok
  have hc := mCloneRepo_run ok hi hs hn hres true
  intro s'
  have hi' : Inv W s' := hc.inv
  have hne : src ≠ new := fun e => hn (e ▸ hs)
  have hnew : ∀ j, s.has new j = false := by
    intro j
    cases hx : s.has new j with
    | false => rfl
    | true => exact absurd (hi.has_facts hx).1 hn
  have hl : ∀ n id, Lists s' new n id ↔ Lists s src n id := by
    intro n id
    rw [hi'.lists_iff, show (s'.has new id = true ↔ _) from hc.has new id, hnew, hi.lists_iff]
    simp only [Bool.false_eq_true, true_and, false_or, St.cloneIds, if_true, hi.mem_ids]
  refine ⟨?_, hl, ?_, ?_, hc.frame.ents src hne, hc.noPanic⟩
  · intro x; unfold Repo; rw [show s'.db.repos = _ from hc.repos, KV.mem_keys_put]
  · intro n t t' ht ht'
    have h1 := hi.tip_top ht ((hl n t').1 (hi'.tip_lists ht'))
    have h2 := hi'.tip_top ht' ((hl n t).2 (hi.tip_lists ht))
    omega
  · intro d
    rw [hi'.spec_delta, hi.spec_delta, show (s'.hasDelta new d = true ↔ _) from hc.hasDelta d]
    simp

/-- Cloning copies the asset files and, when it succeeds, publishes an index of exactly the new state. -/
theorem C11_C12_assets (ok : W.OK) (h : Reachable W s) {src new : Str} (hs : Repo s src) (hn : ¬ Repo s new)
    (hres : reservedKey new = false) (full : Bool) :
    let o := mCloneRepo W.E src new full s
    (∀ a c, s.fs.read (.asset src a) = some c → o.st.fs.read (.asset new a) = some c) ∧
    (o.res = .ok () → Published W o.st new) := by
  have hc := mCloneRepo_run ok (h.inv ok) hs hn hres full
  refine ⟨?_, fun hok => (hc.fresh hok).correct ok hc.inv⟩
  intro a c ha
  have := hc.assets a
  rw [ha] at this; exact this

example : Repo Demo.st1 (Demo.S "unstable") ∧ ¬ Repo Demo.st1 (Demo.S "new") ∧
    (mCloneRepo Demo.E (Demo.S "unstable") (Demo.S "new") false Demo.st1).st.availOf (Demo.S "new") (Demo.S "a") =
      [Demo.S "a-2.eopkg"] ∧
    (mCloneRepo Demo.E (Demo.S "unstable") (Demo.S "new") true Demo.st1).st.availOf (Demo.S "new") (Demo.S "a") =
      [Demo.S "a-1.eopkg", Demo.S "a-2.eopkg"] ∧
    (mCloneRepo Demo.E (Demo.S "unstable") (Demo.S "new") true Demo.st1).res = .ok () := by
  unfold Repo; refine ⟨?_, ?_, ?_, ?_, ?_⟩ <;> decide +kernel

/-! ## C13, C14 -/

/-- The target's tip is newer than the source's for some name. -/
def Spec.Newer (W : World) (s : St) (dst src : Str) : Prop :=
  ∃ n a b, Tip s src n a ∧ Tip s dst n b ∧ relOf W a < relOf W b

theorem newer_iff (W : World) (s : St) (dst src : Str) : Newer W s dst src ↔ W.Conflict s dst src := by
  constructor
  · rintro ⟨n, a, b, ⟨e, hg, rfl⟩, ⟨l, hl, rfl⟩, hlt⟩; exact ⟨n, e, l, hg, hl, hlt⟩
  · rintro ⟨n, e, l, hg, hl, hlt⟩; exact ⟨n, _, _, ⟨e, hg, rfl⟩, ⟨l, hl, rfl⟩, hlt⟩

/-- C13: when nothing in the target is newer, pull adds exactly the source tips that are newer than the target's
tip or of a name the target lacks, removes nothing, and afterwards each target tip is at least as new as the
source's; a successful pull returns exactly the changed names and publishes the index. -/
theorem C13_pull (ok : W.OK) (h : Reachable W s) {src dst : Str} (hs : Repo s src) (hd : Repo s dst)
    (hc : ¬ Newer W s dst src) :
    let o := mPullRepo W.E src dst s
    (∀ n id, Lists o.st dst n id ↔ Lists s dst n id ∨
      (Tip s src n id ∧ ∀ t, Tip s dst n t → relOf W t < relOf W id)) ∧
    (∀ n t, Tip s src n t → ∃ t', Tip o.st dst n t' ∧ relOf W t ≤ relOf W t') ∧
    (∀ names, o.res = .ok names → Published W o.st dst ∧
      ∀ n, n ∈ names ↔ ∃ id, Tip s src n id ∧ ∀ t, Tip s dst n t → relOf W t < relOf W id) ∧
    o.res ≠ .panic := by
  have hi := h.inv ok
  rw [newer_iff] at hc
  rcases mPullRepo_run ok hi hs hd with ⟨_, hp⟩ | ⟨hx, _⟩
  · intro o
    have hi' : Inv W o.st := hp.job.inv
    have hsel : ∀ j n, (j, n) ∈ W.pullTodo s dst src ↔
        (Tip s src n j ∧ ∀ t, Tip s dst n t → relOf W t < relOf W j) := by
      intro j n
      rw [mem_pullTodo hi dst src hc]
      constructor
      · rintro ⟨e, hg, rfl, hlt⟩
        refine ⟨⟨e, hg, rfl⟩, ?_⟩
        rintro t ⟨l, hl, rfl⟩; exact hlt l hl
      · rintro ⟨⟨e, hg, rfl⟩, hlt⟩
        exact ⟨e, hg, rfl, fun l hl => hlt _ ⟨l, hl, rfl⟩⟩
    have hl : ∀ n id, Lists o.st dst n id ↔ Lists s dst n id ∨
        (Tip s src n id ∧ ∀ t, Tip s dst n t → relOf W t < relOf W id) := by
      intro n id
      rw [hi'.lists_iff, show (o.st.has dst id = true ↔ _) from hp.job.has dst id, hi.lists_iff, ← hsel]
      simp only [true_and, List.mem_map, Prod.exists, exists_and_right, exists_eq_right]
      constructor
      · rintro ⟨hx | ⟨m, hm⟩, rfl⟩
        · exact .inl ⟨hx, rfl⟩
        · right
          have := hi.lists_name (hi.tip_lists ((hsel _ _).1 hm).1)
          rw [this]; exact hm
      · rintro (⟨hx, rfl⟩ | hm)
        · exact ⟨.inl hx, rfl⟩
        · exact ⟨.inr ⟨n, hm⟩, hi.lists_name (hi.tip_lists ((hsel _ _).1 hm).1)⟩
    refine ⟨hl, ?_, ?_, hp.noPanic⟩
    · intro n t ht
      by_cases hx : ∃ b, Tip s dst n b ∧ ¬ relOf W b < relOf W t
      · obtain ⟨b, hb, hlt⟩ := hx
        have hb' := (hl n b).2 (.inl (hi.tip_lists hb))
        obtain ⟨t', ht'⟩ := Inv.tip_of_lists hb'
        refine ⟨t', ht', ?_⟩
        have := hi'.tip_top ht' hb'
        omega
      · have hnew := (hl n t).2 (.inr ⟨ht, fun b hb => Decidable.byContradiction fun hn => hx ⟨b, hb, hn⟩⟩)
        obtain ⟨t', ht'⟩ := Inv.tip_of_lists hnew
        exact ⟨t', ht', hi'.tip_top ht' hnew⟩
    · intro names hok
      obtain ⟨rfl, hf⟩ := hp.changed names hok
      refine ⟨hf.correct ok hi', ?_⟩
      intro n
      simp only [List.mem_map, Prod.exists, exists_eq_right]
      constructor
      · rintro ⟨id, hm⟩; exact ⟨id, (hsel _ _).1 hm⟩
      · rintro ⟨id, hm⟩; exact ⟨id, (hsel _ _).2 hm⟩
  · exact absurd hx hc

/-- C14: if a target tip is newer than the source's, pull fails and no database record (listing, count), no
package file and no index changes anywhere. -/
theorem C14_pull_refuses_downgrade (ok : W.OK) (h : Reachable W s) {src dst : Str} (hs : Repo s src)
    (hd : Repo s dst) (hc : Newer W s dst src) :
    let o := mPullRepo W.E src dst s
    o.res = .err .inconsistent ∧ o.st.db = s.db ∧ o.st.fs.idx = s.fs.idx ∧
    ∀ p, (∀ a, p ≠ .asset dst a) → o.st.fs.read p = s.fs.read p := by
  rw [newer_iff] at hc
  rcases mPullRepo_run ok (h.inv ok) hs hd with ⟨hx, _⟩ | ⟨_, s', tr, hrun, hdb, _, _, hr, hidx, _⟩
  · exact absurd hc hx
  · intro o
    have : o = ⟨.err .inconsistent, s', tr⟩ := hrun
    rw [this]; exact ⟨rfl, hdb, hidx, hr⟩

/-- Histories for both cases: "old" holds a-1 only; pulling from "unstable" updates it, pulling the other way is
refused. -/
def Demo.st2 : St := runAll Demo.E Demo.st1
  [.create (Demo.S "old"), .copySource (Demo.S "unstable") (Demo.S "old") (Demo.S "a") 1 true]

example : Repo Demo.st2 (Demo.S "old") ∧ Repo Demo.st2 (Demo.S "unstable") ∧
    Demo.st2.availOf (Demo.S "old") (Demo.S "a") = [Demo.S "a-1.eopkg"] ∧
    (mPullRepo Demo.E (Demo.S "unstable") (Demo.S "old") Demo.st2).res = .ok [Demo.S "a", Demo.S "b"] ∧
    (mPullRepo Demo.E (Demo.S "old") (Demo.S "unstable") Demo.st2).res = .err .inconsistent := by
  unfold Repo; refine ⟨?_, ?_, ?_, ?_, ?_⟩ <;> decide +kernel

/-! ## C15, C16, C17 -/

/-- Package `id` comes from source `src` and has release `rel` (any release if `rel` is not positive). -/
def Spec.FromSource (W : World) (src : Str) (rel : Int) (id : Str) : Prop :=
  sourceOf W id = src ∧ (rel ≤ 0 ∨ relOf W id = rel)

theorem matchesSrc_iff (W : World) (src : Str) (rel : Int) (id : Str) :
    W.matchesSrc src rel id = true ↔ FromSource W src rel id := by
  simp [World.matchesSrc, FromSource, sourceOf]

theorem mem_matching (h : Inv W s) (r src : Str) (rel : Int) (id : Str) :
    id ∈ (s.ids r).filter (W.matchesSrc src rel) ↔ Has s r id ∧ FromSource W src rel id := by
  rw [List.mem_filter, h.mem_ids, matchesSrc_iff, h.spec_has]

/-- C15: if the repository lists a matching package, remove-source drops exactly the matching packages (and
succeeds whenever the index can be written). -/
theorem C15_remove_source (ok : W.OK) (h : Reachable W s) {r : Str} (hr : Repo s r) (src : Str) (rel : Int)
    (hm : ∃ id, Has s r id ∧ FromSource W src rel id) :
    let o := mRemoveSource W.E r src rel s
    (∀ n id, Lists o.st r n id ↔ Lists s r n id ∧ ¬ FromSource W src rel id) ∧
    o.res ≠ .panic ∧ (AssetsParse W s r ∧ W.E.indexIO s.clock = .ok → o.res = .ok ()) ∧
    (o.res = .ok () → Published W o.st r) := by
  have hi := h.inv ok
  rcases mRemoveSource_run ok hi hr src rel with ⟨_, hj⟩ | ⟨he, _⟩
  · intro o
    have hi' : Inv W o.st := hj.job.inv
    refine ⟨?_, hj.noPanic, fun hc => hj.succeeds ((canIndex_iff W s r).2 hc), fun hok => (hj.fresh hok).correct ok hi'⟩
    intro n id
    rw [hi'.lists_iff, show (o.st.has r id = true ↔ _) from hj.job.has r id, mem_matching hi, hi.lists_iff,
      hi.spec_has]
    constructor
    · rintro ⟨⟨h1, h2⟩, h3⟩; exact ⟨⟨h1, h3⟩, fun hf => h2 ⟨rfl, h1, hf⟩⟩
    · rintro ⟨⟨h1, h3⟩, h2⟩; exact ⟨⟨h1, fun hf => h2 hf.2.2⟩, h3⟩
  · obtain ⟨id, h1, h2⟩ := hm
    have := (mem_matching hi r src rel id).2 ⟨h1, h2⟩
    rw [he] at this; cases this

/-- C15, second half: with no matching package it fails and nothing changes. -/
theorem C15_remove_source_none (ok : W.OK) (h : Reachable W s) {r : Str} (hr : Repo s r) (src : Str) (rel : Int)
    (hm : ¬ ∃ id, Has s r id ∧ FromSource W src rel id) :
    let o := mRemoveSource W.E r src rel s
    o.res = .err .noMatch ∧ o.st.db = s.db ∧ o.st.fs.read = s.fs.read ∧ o.st.fs.idx = s.fs.idx := by
  have hi := h.inv ok
  rcases mRemoveSource_run ok hi hr src rel with ⟨he, _⟩ | ⟨_, tr, hrun, _⟩
  · cases hx : (s.ids r).filter (W.matchesSrc src rel) with
    | nil => exact absurd hx he
    | cons id l =>
      exact absurd ⟨id, (mem_matching hi r src rel id).1 (by rw [hx]; exact List.mem_cons_self)⟩ hm
  · intro o
    have : o = ⟨.err .noMatch, s.got r, tr⟩ := hrun
    rw [this]; exact ⟨rfl, by simp, by simp, by simp⟩

example : Demo.st1.has (Demo.S "unstable") (Demo.S "a-1.eopkg") = true ∧
    (mRemoveSource Demo.E (Demo.S "unstable") (Demo.S "a") 1 Demo.st1).st.availOf (Demo.S "unstable") (Demo.S "a") =
      [Demo.S "a-2.eopkg"] ∧
    (mRemoveSource Demo.E (Demo.S "unstable") (Demo.S "a") 0 Demo.st1).st.availOf (Demo.S "unstable") (Demo.S "a") = [] ∧
    (mRemoveSource Demo.E (Demo.S "unstable") (Demo.S "a") 7 Demo.st1).res = .err .noMatch := by
  refine ⟨?_, ?_, ?_, ?_⟩ <;> decide +kernel

/-- C16: copy-source adds to the target exactly the origin's matching packages, and removes nothing. -/
theorem C16_copy_source (ok : W.OK) (h : Reachable W s) {src dst : Str} (hs : Repo s src) (hd : Repo s dst)
    (source : Str) (rel : Int) (skip : Bool) (hm : ∃ id, Has s src id ∧ FromSource W source rel id) :
    let o := mCopySource W.E src dst source rel skip s
    (∀ n id, Lists o.st dst n id ↔ Lists s dst n id ∨ (Lists s src n id ∧ FromSource W source rel id)) ∧
    o.res ≠ .panic := by
  have hi := h.inv ok
  have hne : (s.ids src).filter (W.matchesSrc source rel) ≠ [] := by
    intro he
    obtain ⟨id, hx⟩ := hm
    have := (mem_matching hi src source rel id).2 hx
    rw [he] at this; cases this
  obtain ⟨o, hrun, h1, _, hj, _⟩ := mCopySource_run ok hi hs hd source rel skip hne
  rw [hrun]
  have hi' : Inv W o.st := hj.inv
  refine ⟨?_, h1⟩
  intro n id
  rw [hi'.lists_iff, hj.has, mem_matching hi, hi.lists_iff, hi.lists_iff, hi.spec_has]
  constructor
  · rintro ⟨hx | ⟨_, h2, h3⟩, h4⟩
    · exact .inl ⟨hx, h4⟩
    · exact .inr ⟨⟨h2, h4⟩, h3⟩
  · rintro (⟨h2, h4⟩ | ⟨⟨h2, h4⟩, h3⟩)
    · exact ⟨.inl h2, h4⟩
    · exact ⟨.inr ⟨rfl, h2, h3⟩, h4⟩

/-- C16, second half: with no matching package it fails and nothing changes. -/
theorem C16_copy_source_none (ok : W.OK) (h : Reachable W s) {src dst : Str} (hs : Repo s src) (hd : Repo s dst)
    (source : Str) (rel : Int) (skip : Bool) (hm : ¬ ∃ id, Has s src id ∧ FromSource W source rel id) :
    let o := mCopySource W.E src dst source rel skip s
    o.res = .err .noMatch ∧ o.st.db = s.db ∧ o.st.fs.read = s.fs.read ∧ o.st.fs.idx = s.fs.idx := by
  have hi := h.inv ok
  have he : (s.ids src).filter (W.matchesSrc source rel) = [] := by
    cases hx : (s.ids src).filter (W.matchesSrc source rel) with
    | nil => rfl
    | cons id l =>
      exact absurd ⟨id, (mem_matching hi src source rel id).1 (by rw [hx]; exact List.mem_cons_self)⟩ hm
  obtain ⟨tr, hrun, _⟩ := mCopySource_none ok hi hs hd source rel skip he
  intro o
  have : o = ⟨.err .noMatch, (s.got src).got dst, tr⟩ := hrun
  rw [this]; exact ⟨rfl, by simp, by simp, by simp⟩

/-- C17 at full strength: a copy with `skip` leaves the index alone and one without it publishes the new state. -/
def C17_statement : Prop := ∀ (W : World) (s : St), W.OK → Reachable W s →
  ∀ src dst source rel, Repo s src → Repo s dst → (∃ id, Has s src id ∧ FromSource W source rel id) →
    (mCopySource W.E src dst source rel true s).st.fs.idx = s.fs.idx ∧
    ((mCopySource W.E src dst source rel false s).res = .ok () →
      Published W (mCopySource W.E src dst source rel false s).st dst)

/-- C17 is false of the code: the flag works the wrong way round (api.go:110-130). -/
theorem C17_violated : ¬ C17_statement := by
  intro hst
  have hr : Reachable Demo.W (runAll Demo.E Demo.st1 [.create (Demo.S "old")]) :=
    Demo.reach1.step _ trivial
  have h := (hst Demo.W _ Demo.ok hr (Demo.S "unstable") (Demo.S "old") (Demo.S "a") 1
    (by unfold Repo; decide +kernel) (by unfold Repo; decide +kernel)
    ⟨Demo.S "a-1.eopkg", ((hr.inv Demo.ok).spec_has _ _).2 (by decide +kernel), by decide +kernel, .inr (by decide +kernel)⟩).1
  have h2 := congrFun h (Demo.S "old")
  revert h2
  decide +kernel

/-- C17, what holds of the code: exactly the opposite.  With the flag the index is rebuilt, without it the
published index stays as it was. -/
theorem C17_skip_index_partial (ok : W.OK) (h : Reachable W s) {src dst : Str} (hs : Repo s src) (hd : Repo s dst)
    (source : Str) (rel : Int) (hm : ∃ id, Has s src id ∧ FromSource W source rel id) :
    ((mCopySource W.E src dst source rel true s).res = .ok () →
      Published W (mCopySource W.E src dst source rel true s).st dst) ∧
    (mCopySource W.E src dst source rel false s).res = .ok () ∧
    (mCopySource W.E src dst source rel false s).st.fs.idx = s.fs.idx := by
  have hi := h.inv ok
  have hne : (s.ids src).filter (W.matchesSrc source rel) ≠ [] := by
    intro he
    obtain ⟨id, hx⟩ := hm
    have := (mem_matching hi src source rel id).2 hx
    rw [he] at this; cases this
  obtain ⟨o, hrun, _, _, hj, h1, _⟩ := mCopySource_run ok hi hs hd source rel true hne
  obtain ⟨o', hrun', _, _, _, _, h2⟩ := mCopySource_run ok hi hs hd source rel false hne
  rw [hrun, hrun']
  exact ⟨fun hok => ((h1 rfl).1 hok).correct ok hj.inv, h2 rfl⟩

end Ferryd
