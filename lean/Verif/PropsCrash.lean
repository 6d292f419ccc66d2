import Verif.PropsCore3
/-!
# Properties C27–C30, C72, C74: crashes, and absence of panics

The trace `tr` of an operation lists every durable state the operation passes through, i.e. every state a crash
can leave behind; `St.crash` is what a daemon started afterwards finds (its caches are empty).
-/
namespace Ferryd
open Spec
variable {W : World} {s : St}

/-- Every package repository `r` lists has a referenced pool entry with the right hash, size and location, a pool file and a
served file with the uploaded bytes; and the tip of every name is listed and has the highest release. -/
structure Spec.Whole (W : World) (t : St) (r : Str) : Prop where
  listed : ∀ n id, Lists t r n id → nameOf W id = n ∧ PooledAs W t id (W.canon id) ∧ ServedAs W t r id (W.canon id) ∧
    ∃ pe, t.db.pool.get id = some pe ∧ 0 < pe.refCount ∧ pe.pkg.hash = W.E.sha1 (W.canon id) ∧
      pe.pkg.size = (W.canon id).length
  tip : ∀ n id, Lists t r n id → ∃ p, Tip t r n p ∧ Lists t r n p ∧ relOf W id ≤ relOf W p

theorem Served.whole {P : Str → Prop} {t : St} (h : Served W P t) {r : Str} (hr : P r) : Whole W t r where
  listed := by
    rintro n id ⟨e, hg, hin⟩
    obtain ⟨_, _, _, _, _, h6⟩ := h.ent r n e hr hg
    obtain ⟨_, _, h3, ⟨k, hk, hpk⟩, c, hc, hpool, hrepo⟩ := h6 id hin
    exact ⟨h3, ⟨c, hc, hpool⟩, ⟨c, hc, hrepo⟩, _, hpk, hk, rfl, rfl⟩
  tip := by
    rintro n id ⟨e, hg, hin⟩
    obtain ⟨_, _, _, h4, h5, _⟩ := h.ent r n e hr hg
    exact ⟨e.published, ⟨e, hg, rfl⟩, ⟨e, hg, h4⟩, h5 id hin⟩

theorem Spec.Whole.crash {t : St} {r : Str} (h : Whole W t r) : Whole W t.crash r := ⟨h.listed, h.tip⟩

/-- C27: at every crash point of every job that adds (create, import, copy-source, pull, clone, index, delta jobs), every
package any repository lists has a pool entry, a pool file and a served file with the right content. -/
theorem C27_crash_add (ok : W.OK) (h : Reachable W s) (o : Op) (ho : o.Ok W) (hadd : o.removesFrom = none)
    {t : St} (ht : t ∈ (o.run W.E s).tr) (r : Str) : Whole W t.crash r :=
  (((Op.sound ok (h.inv ok) o ho).served t ht).whole (r := r) (by rw [hadd]; simp)).crash

/-- Non-vacuity of C27: a clone passes through several durable states, the reference counts differing. -/
example : ((Op.clone (Demo.S "unstable") (Demo.S "second") true).run Demo.E Demo.st1).tr.length > 5 ∧
    (Op.clone (Demo.S "unstable") (Demo.S "second") true).removesFrom = none := by decide +kernel

/-! ## C28 -/

/-- C28 at full strength: if the daemon dies at any durable point of an import and the job is run again, it succeeds whenever
the uninterrupted job would have, and every imported package is served with the uploaded bytes. -/
def C28_statement : Prop := ∀ (W : World) (s : St), W.OK → Reachable W s → ∀ r, Repo s r →
  ∀ files, (∀ f ∈ files, W.isDelta (baseName f) = false) → (mAddPackages W.E r files false s).res = .ok () →
  ∀ t ∈ (mAddPackages W.E r files false s).tr,
    (mAddPackages W.E r files false t.crash).res = .ok () ∧
    ∀ f ∈ files, ServedAs W (mAddPackages W.E r files false t.crash).st r (baseName f) (W.canon (baseName f))

/-- C28 is false of the code.  When the daemon dies after linking the upload into the pool and before recording it, the retried job
finds the target of the link present, falls back to copying (util.go:67-75), and the copy opens the very same
inode with truncation: upload and pool file become empty and the job fails. -/
theorem C28_violated : ¬ C28_statement := by
  intro hst
  have h := (hst Demo.W Demo.st6 Demo.ok Demo.reach6 (Demo.S "u") (by unfold Repo; decide +kernel)
    [Demo.S "/up/a-1.eopkg"] (by decide +kernel) (by decide +kernel) (Demo.crashed6 0)
    (Demo.crashed6_mem 0 (by decide))).1
  revert h; decide +kernel

/-- C28, worse: when it dies after linking into the repository, the retried job reports success and serves an empty file,
having emptied the pool file and the upload as well. -/
theorem C28_violated_silently :
    let t := (Demo.crashed6 2).crash
    let o := mAddPackages Demo.E (Demo.S "u") [Demo.S "/up/a-1.eopkg"] false t
    Demo.crashed6 2 ∈ (mAddPackages Demo.E (Demo.S "u") [Demo.S "/up/a-1.eopkg"] false Demo.st6).tr ∧
    t.fs.read (.ext (Demo.S "/up/a-1.eopkg")) = some [1] ∧
    o.res = .ok () ∧ o.st.fs.read (.repo (Demo.S "u") (Demo.S "a/a") (Demo.S "a-1.eopkg")) = some [] ∧
    o.st.fs.read (.pool (Demo.S "a/a") (Demo.S "a-1.eopkg")) = some [] ∧
    o.st.fs.read (.ext (Demo.S "/up/a-1.eopkg")) = some [] := by
  refine ⟨Demo.crashed6_mem 2 (by decide), ?_⟩
  decide +kernel

/-- C28, what is proved: when the daemon dies between two packages of the import, running the whole job again gives the
listing the uninterrupted job would have given, with every package of every repository intact. -/
theorem C28_retry_partial (ok : W.OK) (h : Reachable W s) {r : Str} (hr : Repo s r) (done rest : List Str)
    (hd : ∀ f ∈ done ++ rest, W.isDelta (baseName f) = false)
    (hp : ∀ f ∈ done ++ rest, s.fs.read (.ext f) = some (W.canon (baseName f)) ∧ W.IsPkg (baseName f)) :
    let t := (forL done (fun f => addPackage W.E r (.ext f) false) s).st.crash
    let s' := (mAddPackages W.E r (done ++ rest) false t).st
    (∀ n id, Lists s' r n id ↔ Lists s r n id ∨ (nameOf W id = n ∧ ∃ f ∈ done ++ rest, id = baseName f)) ∧
    (∀ x, Whole W s' x) ∧ (mAddPackages W.E r (done ++ rest) false t).res ≠ .panic := by
  have hi := h.inv ok
  obtain ⟨res, s1, tr, dn, rs, hrun, hsp, ha, _, hor, _⟩ := addLoop_run (r := r) ok done hi hr
    (fun f hf => hd f (by simp [hf]))
  have himp : ∀ f ∈ done ++ rest, W.Importable s f := hp
  have hdn : dn = done := by
    rcases hor with ⟨_, rfl⟩ | ⟨e, f, rest', _, rfl, hn⟩
    · simpa using hsp.symm
    · exact absurd (himp f (by rw [hsp]; simp)) hn
  subst hdn
  intro t s'
  have ht : t = s1.crash := by show (forL _ _ s).st.crash = _; rw [hrun]
  have hi1 : Inv W s1.crash :=
    (Op.sound ok ha.inv .restart trivial).inv
  have hr1 : r ∈ s1.crash.db.repos.keys := by
    show r ∈ s1.db.repos.keys; rw [ha.repos]; exact hr
  have hm := mAddPackages_run (r := r) ok hi1 hr1 (dn ++ rest) hd
  rw [← ht] at hm
  obtain ⟨d2, r2, hsp2, hj, _, hnot, _⟩ := hm.spec
  have hiff : ∀ f, W.Importable t f ↔ W.Importable s f := by
    intro f; unfold World.Importable
    rw [ht, show s1.crash.fs = s1.fs from rfl, ha.frame.read (.ext f) rfl rfl (by simp)]
  have hd2 : d2 = dn ++ rest := by
    cases r2 with
    | nil => simpa using hsp2.symm
    | cons f r3 => exact absurd ((hiff f).2 (himp f (by rw [hsp2]; simp))) (hnot f r3 rfl)
  subst hd2
  have hi' : Inv W s' := hj.inv
  refine ⟨?_, fun x => (hi'.served ok (fun _ => True)).whole trivial, hm.noPanic⟩
  intro n id
  have hh : s'.has r id = true ↔ t.has r id = true ∨ (r = r ∧ id ∈ (dn ++ rest).map baseName) := hj.has r id
  have h1 : t.has r id = true ↔ s.has r id = true ∨ (r = r ∧ id ∈ dn.map baseName) := by
    rw [ht]; exact ha.has r id
  rw [hi'.lists_iff, hh, h1, hi.lists_iff]
  simp only [true_and, List.mem_map, List.map_append, List.mem_append]
  constructor
  · rintro ⟨(hx | ⟨f, hf, rfl⟩) | (⟨f, hf, rfl⟩ | ⟨f, hf, rfl⟩), hn⟩
    · exact .inl ⟨hx, hn⟩
    · exact .inr ⟨hn, f, .inl hf, rfl⟩
    · exact .inr ⟨hn, f, .inl hf, rfl⟩
    · exact .inr ⟨hn, f, .inr hf, rfl⟩
  · rintro (⟨hx, hn⟩ | ⟨hn, f, hf | hf, rfl⟩)
    · exact ⟨.inl (.inl hx), hn⟩
    · exact ⟨.inr (.inl ⟨f, hf, rfl⟩), hn⟩
    · exact ⟨.inr (.inr ⟨f, hf, rfl⟩), hn⟩

/-! ## C29 -/

/-- C29 at full strength: at every crash point of a removing job a later index of the repository succeeds (in a world where indexing
itself works). -/
def C29_statement : Prop := ∀ (W : World) (s : St), W.OK → Reachable W s → ∀ r, Repo s r →
  ∀ source rel, (∀ k, W.E.indexIO k = .ok) → AssetsParse W s r →
  ∀ t ∈ (mRemoveSource W.E r source rel s).tr, (mIndex W.E r t.crash).res = .ok ()

/-- C29 is false of the code: `UnrefPackage` drops the pool entry before it updates the repository's own entry
(repo.go:514-577), so a crash in between leaves a listed package without a pool entry and every later index fails. -/
theorem C29_violated : ¬ C29_statement := by
  intro hst
  have hmem : ((mRemoveSource Demo.E (Demo.S "u") (Demo.S "a") 0 (mAddPackages Demo.E (Demo.S "u") [Demo.S "/up/a-1.eopkg"] false Demo.st6).st).tr[2]?).getD
      Demo.st6 ∈ (mRemoveSource Demo.E (Demo.S "u") (Demo.S "a") 0 (mAddPackages Demo.E (Demo.S "u") [Demo.S "/up/a-1.eopkg"] false Demo.st6).st).tr := by
    have hl : 2 < (mRemoveSource Demo.E (Demo.S "u") (Demo.S "a") 0
        (mAddPackages Demo.E (Demo.S "u") [Demo.S "/up/a-1.eopkg"] false Demo.st6).st).tr.length := by decide +kernel
    rw [List.getElem?_eq_getElem hl]; exact List.getElem_mem _
  have hr := Demo.reach6.step (.addPackages (Demo.S "u") [Demo.S "/up/a-1.eopkg"] false)
    (show ∀ f ∈ [Demo.S "/up/a-1.eopkg"], Demo.W.isDelta (baseName f) = false by decide +kernel)
  have h := hst Demo.W _ Demo.ok hr (Demo.S "u") (by unfold Repo; decide +kernel) (Demo.S "a") 0 (fun _ => rfl)
    ((canIndex_iff _ _ _).1 ⟨by decide +kernel, by decide +kernel, rfl⟩).1 _ hmem
  revert h; decide +kernel

/-- C29, what is proved: at every crash point of a removing job (remove-source, both trims, delete) every *other* repository
is whole. -/
theorem C29_crash_remove_partial (ok : W.OK) (h : Reachable W s) (o : Op) (ho : o.Ok W) {r : Str}
    (hrem : o.removesFrom = some r) {t : St} (ht : t ∈ (o.run W.E s).tr) {x : Str} (hx : x ≠ r) :
    Whole W t.crash x := by
  refine (((Op.sound ok (h.inv ok) o ho).served t ht).whole (r := x) ?_).crash
  rw [hrem]; intro he; exact hx (Option.some.inj he).symm

/-! ## C30, C74: deleting a repository -/

/-- The states a daemon can find when a deletion of `r`, begun in `s`, has been interrupted any number of times. -/
inductive Spec.Interrupted (r : Str) (s : St) : St → Prop
  | start : Interrupted r s s.crash
  | again {t u : St} : Interrupted r s t → u ∈ (mDeleteRepo r t).tr → Interrupted r s u.crash

theorem Deleted.db_eq {t t' s' : St} {r : Str} (h1 : Deleted W s s' r) (h2 : Deleted W t t' r) (hdb : t.db = s.db)
    (hw : s.db.pool.WF) : t'.db = s'.db := by
  have hlist : t.listed r = s.listed r := by unfold St.listed; rw [hdb]
  have hpool : t'.db.pool = s'.db.pool := by
    refine KV.ext (h2.wfPool (by rw [hdb]; exact hw)) (h1.wfPool hw) fun j => ?_
    rw [h1.pool, h2.pool, hlist, hdb]
  have hents : t'.db.ents = s'.db.ents := by
    funext x
    by_cases hx : x = r
    · subst hx; rw [h1.entsSelf, h2.entsSelf]
    · rw [h1.entsOther x hx, h2.entsOther x hx, hdb]
  have hskip : t'.db.skip = s'.db.skip := by rw [h1.skip, h2.skip, hdb]
  have hrepos : t'.db.repos = s'.db.repos := by rw [h1.repos, h2.repos, hdb]
  revert hpool hents hskip hrepos
  rcases t' with ⟨⟨a, b, c, d⟩, _, _, _, _⟩
  rcases s' with ⟨⟨a', b', c', d'⟩, _, _, _, _⟩
  simp only
  rintro rfl rfl rfl rfl
  rfl

theorem deleteRepo_gone {t : St} {r : Str} (hc : r ∉ t.cache) (hg : t.db.repos.get r = none) :
    deleteRepo r t = ⟨.err .notFound, t, []⟩ := by
  have : getRepo r t = ⟨.err .notFound, t, []⟩ := by
    unfold getRepo
    simp only [getSt_bind, hc, if_false, hg]
    rfl
  unfold deleteRepo
  rw [bind_err this]

/-- C30: however often a deletion is interrupted by crashes at whatever points, what the daemon then finds is either the database as
before the deletion, or the database of the completed deletion; and running the deletion to its end gives the same
database as the uninterrupted deletion (reporting "not found" exactly when it was already complete). -/
theorem C30_delete_crash (ok : W.OK) (h : Reachable W s) {r : Str} (hr : Repo s r) {t : St}
    (ht : Interrupted r s t) :
    (t.db = s.db ∧ (mDeleteRepo r t).res = .ok () ∨
      t.db = (mDeleteRepo r s).st.db ∧ (mDeleteRepo r t).res = .err .notFound) ∧
    (mDeleteRepo r t).st.db = (mDeleteRepo r s).st.db := by
  have hi := h.inv ok
  have hready := hi.delReady hr
  obtain ⟨s', tr, hrun, hdel, htr⟩ := deleteRepo_run ok hready
  have hst : (mDeleteRepo r s).st = s' := by unfold mDeleteRepo; rw [hrun]
  rw [hst]
  have hgone : s'.db.repos.get r = none := by rw [hdel.repos]; exact KV.get_del_self _ _
  -- the invariant over interrupted attempts
  have key : t.cache = [] ∧ (t.db = s.db ∨ t.db = s'.db) := by
    induction ht with
    | start => exact ⟨rfl, .inl rfl⟩
    | @again t u _ hu ih =>
      refine ⟨rfl, ?_⟩
      show u.db = s.db ∨ u.db = s'.db
      obtain ⟨hc, hdb⟩ := ih
      rcases hdb with hdb | hdb
      · obtain ⟨t', tr', hrun', _, htr'⟩ := deleteRepo_run ok (hready.congr hdb)
        have hu' : u ∈ tr' := by
          have : (mDeleteRepo r t).tr = tr' := by unfold mDeleteRepo; rw [hrun']
          rw [this] at hu; exact hu
        rcases (htr' u hu').db with h1 | h1
        · exact .inl (h1.trans hdb)
        · exact .inr (hdel.toDeleted.db_eq h1 hdb hi.wfPool)
      · rw [show mDeleteRepo r t = _ from deleteRepo_gone (by rw [hc]; simp) (by rw [hdb]; exact hgone)] at hu
        cases hu
  obtain ⟨hc, hdb | hdb⟩ := key
  · obtain ⟨t', tr', hrun', hdel', _⟩ := deleteRepo_run ok (hready.congr hdb)
    have he : mDeleteRepo r t = ⟨.ok (), t', tr'⟩ := hrun'
    rw [he]
    exact ⟨.inl ⟨hdb, rfl⟩, hdel.toDeleted.db_eq hdel'.toDeleted hdb hi.wfPool⟩
  · have he : mDeleteRepo r t = ⟨.err .notFound, t, []⟩ :=
      deleteRepo_gone (by rw [hc]; simp) (by rw [hdb]; exact hgone)
    rw [he]
    exact ⟨.inr ⟨hdb, rfl⟩, hdb⟩

/-- C74 at full strength: once a deletion, interrupted by a crash, has been run again to its end, no file of the repository is
served any more and the name can be used for a new repository. -/
def C74_statement : Prop := ∀ (W : World) (s : St), W.OK → Reachable W s → ∀ r, Repo s r →
  ∀ t, Interrupted r s t → (∀ a, (mDeleteRepo r t).st.fs.read (.asset r a) = none) ∧
    ((mCreateRepo W.E r (mDeleteRepo r t).st).res ≠ .err .artifacts)

/-- C74 is false of the code: the files are removed after the database commit (repo.go:285-312), so a crash in between leaves
them behind for good: the second deletion reports "not found" and a new repository of that name is refused because of
the left-over directory (repo.go:213-218). -/
theorem C74_violated : ¬ C74_statement := by
  intro hst
  have hmem : ∃ t ∈ (mDeleteRepo (Demo.S "u") Demo.st6.crash).tr,
      (mCreateRepo Demo.E (Demo.S "u") (mDeleteRepo (Demo.S "u") t.crash).st).res = .err .artifacts := by
    decide +kernel
  obtain ⟨t, ht, hbad⟩ := hmem
  exact (hst Demo.W Demo.st6 Demo.ok Demo.reach6 (Demo.S "u") (by unfold Repo; decide +kernel) t.crash
    (.again .start ht)).2 hbad

/-- C74, what is proved: a deletion that is not interrupted removes every file of the repository and its index, and a crash before the
commit is repaired by running the deletion again. -/
theorem C74_delete_files_partial (ok : W.OK) (h : Reachable W s) {r : Str} (hr : Repo s r) {t : St}
    (hdb : t.db = s.db) :
    (∀ d id, (mDeleteRepo r t).st.fs.read (.repo r d id) = none) ∧
    (∀ a, (mDeleteRepo r t).st.fs.read (.asset r a) = none) ∧ (mDeleteRepo r t).st.fs.idx r = none ∧
    (mDeleteRepo r t).st.fs.rdir r = false := by
  have hi := h.inv ok
  obtain ⟨t', tr', hrun', hdel', _⟩ := deleteRepo_run ok ((hi.delReady hr).congr hdb)
  have he : mDeleteRepo r t = ⟨.ok (), t', tr'⟩ := hrun'
  rw [he]
  have htab : ∀ p, p.inRepo r = true → t'.fs.read p = none := by
    intro p hp
    have := hdel'.tab p
    unfold FS.read; rw [this, hp]; simp
  refine ⟨fun d id => htab _ (by simp [Path.inRepo]), fun a => htab _ (by simp [Path.inRepo]), ?_, ?_⟩
  · rw [show (Out.st ⟨.ok (), t', tr'⟩ : St) = t' from rfl, hdel'.idx]; simp
  · rw [show (Out.st ⟨.ok (), t', tr'⟩ : St) = t' from rfl, hdel'.rdir]; simp

/-! ## C72: no panics -/

/-- C72: in a world where every readable package has a name, a source and a history, no job of any history ends in a Go panic
(which would kill the daemon). -/
theorem C72_no_panic (ok : W.OK) (h : Reachable W s) (o : Op) (ho : o.Ok W) : (o.run W.E s).res ≠ .panic :=
  (Op.sound ok (h.inv ok) o ho).noPanic

/-- C72: that assumption is needed.  Importing a readable package whose metadata has no source name panics
(libeopkg/metadata.go:190-200 slices the empty string). -/
theorem C72_needs_wellformed : (mAddPackages { Demo.E with parse := fun _ => .good (Demo.mk "a" "" 1) } (Demo.S "u")
    [Demo.S "/up/a-1.eopkg"] false Demo.st6).res = .panic := by decide +kernel

/-- C72: nor may the history be missing.  Importing a package without one under a name that has packages already panics
(libeopkg/metadata.go:157-160 takes the first entry). -/
theorem C72_needs_history :
    (mAddPackages { Demo.E with parse := fun c => .good (if c = [2] then { Demo.mk "a" "a" 2 with history := [] } else Demo.mk "a" "a" 1) } (Demo.S "u")
      [Demo.S "/up/a-2.eopkg"] false
      (runAll Demo.E Demo.st6 [.addPackages (Demo.S "u") [Demo.S "/up/a-1.eopkg"] false, .upload (Demo.S "/up/a-2.eopkg") [2]])).res = .panic := by
  decide +kernel

end Ferryd
