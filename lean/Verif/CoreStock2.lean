import Verif.CoreStock
/-!
# CoreStock2: removals and deletions that come to their end
-/
namespace Ferryd
open Spec
variable {W : World} {s : St} {α β : Type} {tgt : Option Str}

/-- From `s` to `t` some pool records and their files went, and files of packages in `X` from repository `rid`. -/
structure Cut (rid : Str) (X : Str → Prop) (s t : St) : Prop where
  ents : t.db.ents = s.db.ents
  repos : t.db.repos = s.db.repos
  cache : t.cache = s.cache
  pool : ∀ j pe, t.db.pool.get j = some pe → (∃ pe', s.db.pool.get j = some pe') ∧ ∀ d, t.fs.tab (.pool d j) = s.fs.tab (.pool d j)
  repo : ∀ r d j, ¬ (r = rid ∧ X j) → t.fs.tab (.repo r d j) = s.fs.tab (.repo r d j)

theorem Cut.refl (rid : Str) (s : St) : Cut rid (fun _ => False) s s := ⟨rfl, rfl, rfl, fun _ pe h => ⟨⟨pe, h⟩, fun _ => rfl⟩, fun _ _ _ _ => rfl⟩
theorem Cut.mono {rid : Str} {X Y : Str → Prop} {t : St} (h : Cut rid X s t) (hxy : ∀ j, X j → Y j) : Cut rid Y s t :=
  ⟨h.ents, h.repos, h.cache, h.pool, fun r d j hn => h.repo r d j fun hc => hn ⟨hc.1, hxy j hc.2⟩⟩
theorem Cut.trans {rid : Str} {X Y : Str → Prop} {t u : St} (h : Cut rid X s t) (k : Cut rid Y t u) : Cut rid (fun j => X j ∨ Y j) s u where
  ents := k.ents.trans h.ents
  repos := k.repos.trans h.repos
  cache := k.cache.trans h.cache
  pool j pe hg := by
    obtain ⟨⟨pe', hg'⟩, k2⟩ := k.pool j pe hg
    obtain ⟨h1, h2⟩ := h.pool j pe' hg'
    exact ⟨h1, fun d => (k2 d).trans (h2 d)⟩
  repo r d j hn := (k.repo r d j fun hc => hn ⟨hc.1, .inr hc.2⟩).trans (h.repo r d j fun hc => hn ⟨hc.1, .inl hc.2⟩)

theorem dbWrite_cut {w : DbWrite} : Post (dbWrite .direct w) s (fun _ t => t = { s with db := w.apply s.db }) := by
  unfold dbWrite
  split
  · exact Post.throw
  · exact Post.step

theorem unrefEntry_cut (rid id : Str) (hr : Rough W s) : Post (unrefEntry .direct id) s (fun _ t => Cut rid (fun _ => False) s t) := by
  refine (At.post (poolGet_at (tgt := none) id hr) (poolGet_reads id)).bind ?_
  rintro pe t ⟨rfl, hg, hp⟩
  split
  · refine dbWrite_cut.mono fun _ u hu => ?_
    subst hu
    refine ⟨rfl, rfl, rfl, fun j pj hj => ⟨?_, fun _ => rfl⟩, fun _ _ _ _ => rfl⟩
    simp only [DbWrite.apply, KV.get_put] at hj
    split at hj
    · rename_i he; rw [hp.name] at he; subst he; exact ⟨pe, hg⟩
    · exact ⟨pj, hj⟩
  · refine (pathComp_reads _).post.bind fun c u hu => ?_
    subst hu
    refine Post.step.bind fun _ v hv => dbWrite_cut.mono fun _ w hw => ?_
    subst hw hv
    refine ⟨rfl, rfl, rfl, fun j pj hj => ?_, fun r d j _ => ?_⟩
    · simp only [DbWrite.apply, KV.get_del, St.setFs_db] at hj
      split at hj
      · cases hj
      · rename_i hne
        refine ⟨⟨pj, hj⟩, fun d => ?_⟩
        show (u.fs.setTab _ none).tab _ = _
        rw [FS.setTab_tab, if_neg (by intro hc; simp only [Path.pool.injEq] at hc; exact hne hc.2)]
    · show (u.fs.setTab _ none).tab _ = _
      rw [FS.setTab_tab, if_neg (by simp)]

theorem removePackageInternal_cut (rid id : Str) (hr : Rough W s) : Post (removePackageInternal .direct rid id) s (fun _ t => Cut rid (· = id) s t) := by
  have h0 : Post (poolGet? id) s (fun o t => t = s ∧ o = s.db.pool.get id) := ⟨fun o ho => by cases ho; exact ⟨rfl, rfl⟩⟩
  refine h0.bind ?_
  rintro o t ⟨rfl, ho⟩
  cases o with
  | none => exact Post.pure ((Cut.refl rid t).mono fun _ h => h.elim)
  | some pe =>
    have hp := hr.db.pool id pe ho.symm
    refine (pathComp_reads _).post.bind fun c u hu => ?_
    subst hu
    refine ((removeFile_keeps (tgt := some rid) (W := W) (p := .repo rid c pe.name) rfl).post hr |>.and Post.step).bind fun _ v hv => ?_
    obtain ⟨⟨hrv, _⟩, rfl⟩ := hv
    refine (unrefEntry_cut rid id hrv).mono fun _ w hw => ?_
    have h1 : Cut rid (· = id) u (u.setFs (u.fs.setTab (.repo rid c pe.name) none)) := by
      refine ⟨rfl, rfl, rfl, fun j pj hj => ⟨⟨pj, hj⟩, fun d => ?_⟩, fun r d j hn => ?_⟩
      · show (u.fs.setTab _ none).tab _ = _
        rw [FS.setTab_tab, if_neg (by simp)]
      · show (u.fs.setTab _ none).tab _ = _
        rw [FS.setTab_tab, if_neg (by
          intro hc
          simp only [Path.repo.injEq] at hc
          exact hn ⟨hc.1, hc.2.2.trans hp.name⟩)]
    exact (h1.trans hw).mono fun j hj => hj.elim (fun h => h) (fun h => h.elim)

theorem unrefDeltas_cut (ok : W.OK) (rid pkgID : Str) : ∀ (ds : List Str) {s : St}, ds.Nodup → Rough W s →
    Post (unrefDeltas rid pkgID ds) s (fun out t => Rough W t ∧ (∀ j ∈ out, j ∈ ds) ∧ Cut rid (fun j => j ∈ ds ∧ j ∉ out) s t) := by
  intro ds
  induction ds with
  | nil => intro s _ hr; exact Post.pure ⟨hr, by simp, (Cut.refl rid s).mono fun _ h => h.elim⟩
  | cons d ds ih =>
    intro s hn hr
    obtain ⟨hnd, hn'⟩ := List.nodup_cons.1 hn
    have key : Post (do
        let pd ← poolGet d
        match pd.delta with
        | none => panicM
        | some di =>
          if di.fromID = pkgID ∨ di.toID = pkgID then do
            removePackageInternal .direct rid pd.name
            pure []
          else pure [pd.name]) s (fun out t => Rough W t ∧
            ((out = [] ∧ Cut rid (· = d) s t) ∨ (out = [d] ∧ t = s))) := by
      refine (At.post (poolGet_at (tgt := none) d hr) (poolGet_reads d)).bind ?_
      rintro pe t ⟨rfl, hg, hp⟩
      cases hdl : pe.delta with
      | none => exact ⟨fun a ha => by cases ha⟩
      | some di =>
        simp only
        split
        · rw [hp.name]
          refine (((removePackageInternal_keeps ok .direct rid d).post hr).and (removePackageInternal_cut rid d hr)).bind fun _ u hu => Post.pure ?_
          exact ⟨hu.1.1, .inl ⟨rfl, hu.2⟩⟩
        · rw [hp.name]; exact Post.pure ⟨hr, .inr ⟨rfl, rfl⟩⟩
    refine Post.bind key fun o1 t ht => ?_
    obtain ⟨ht1, ht3⟩ := ht
    refine (ih (s := t) hn' ht1).bind fun o2 u hu => Post.pure ?_
    obtain ⟨hu1, hu2, hu3⟩ := hu
    rcases ht3 with ⟨rfl, h3⟩ | ⟨rfl, rfl⟩
    · refine ⟨hu1, fun j hj => by simp [hu2 j hj], (h3.trans hu3).mono ?_⟩
      rintro j (rfl | hj)
      · exact ⟨by simp, fun hj => hnd (hu2 j hj)⟩
      · exact ⟨by simp [hj.1], by simpa using hj.2⟩
    · refine ⟨hu1, fun j hj => ?_, hu3.mono ?_⟩
      · rcases List.mem_append.1 hj with hj | hj
        · simp at hj; simp [hj]
        · simp [hu2 j hj]
      · rintro j ⟨hj, hj2⟩
        refine ⟨by simp [hj], ?_⟩
        intro hc
        rcases List.mem_append.1 hc with hc | hc
        · simp only [List.mem_singleton] at hc; subst hc; exact hnd hj
        · exact hj2 hc

/-- What is left after the listing has been cut down. -/
theorem Stocked.cut {rid : Str} {X : Str → Prop} {t u : St} (h : Stocked W s) (hc : Cut rid X s t) (hp : u.db.pool = t.db.pool) (hre : u.db.repos = t.db.repos)
    (hf : u.fs = t.fs) (hca : u.cache = t.cache) (hh : ∀ r j, Holds u.db r j → Holds s.db r j ∧ ¬ (r = rid ∧ X j)) : Stocked W u where
  pool id pe hg := by
    rw [hp] at hg
    obtain ⟨⟨pe', hg'⟩, h2⟩ := hc.pool id pe hg
    obtain ⟨d, hd, ht⟩ := h.pool id pe' hg'
    exact ⟨d, hd, by rw [hf, h2]; exact ht⟩
  repo r id hd := by
    obtain ⟨h1, h2⟩ := hh r id hd
    obtain ⟨d, hd, ht⟩ := h.repo r id h1
    exact ⟨d, hd, by rw [hf, hc.repo r d id h2]; exact ht⟩
  cache r hm := by
    rw [hca, hc.cache] at hm
    rw [hre, hc.repos]; exact h.cache r hm

theorem unrefAvail_sub (pkgID : Str) (av : List Str) :
    Post (unrefAvail pkgID av) s (fun acc t => t = s ∧ ∀ x ∈ acc.2.2, x ∈ av ∧ x ≠ pkgID) := by
  have key : ∀ (l : List Str) (a : Int × Str × List Str), (∀ x ∈ a.2.2, x ∈ av ∧ x ≠ pkgID) → (∀ x ∈ l, x ∈ av) →
      Post (foldL l a fun acc id => do
        if id = pkgID then pure acc
        else do
          let pe ← poolGet id
          let rel ← getRelease pe.pkg
          if rel > acc.1 then pure (rel, id, acc.2.2 ++ [id])
          else pure (acc.1, acc.2.1, acc.2.2 ++ [id])) s (fun acc t => t = s ∧ ∀ x ∈ acc.2.2, x ∈ av ∧ x ≠ pkgID) := by
    intro l
    induction l with
    | nil => intro a ha _; exact Post.pure ⟨rfl, ha⟩
    | cons y l ih =>
      intro a ha hl
      have hstep : ∀ b : Int × Str × List Str, b.2.2 = a.2.2 ++ [y] → y ≠ pkgID → ∀ x ∈ b.2.2, x ∈ av ∧ x ≠ pkgID := by
        intro b hb hy x hx
        rw [hb] at hx
        rcases List.mem_append.1 hx with hx | hx
        · exact ha x hx
        · simp only [List.mem_singleton] at hx; subst hx; exact ⟨hl x (by simp), hy⟩
      refine Post.bind (P := fun b t => t = s ∧ ∀ x ∈ b.2.2, x ∈ av ∧ x ≠ pkgID) ?_ ?_
      · show Post (if y = pkgID then _ else _) s _
        split
        · exact Post.pure ⟨rfl, ha⟩
        · rename_i hy
          refine (poolGet_reads y).post.bind ?_
          rintro pe t rfl
          refine (getRelease_reads _).post.bind ?_
          rintro rel t rfl
          split
          · exact Post.pure ⟨rfl, hstep (rel, y, a.2.2 ++ [y]) rfl hy⟩
          · exact Post.pure ⟨rfl, hstep (a.1, a.2.1, a.2.2 ++ [y]) rfl hy⟩
      · rintro b t ⟨rfl, hb⟩
        exact ih b hb fun x hx => hl x (by simp [hx])
  exact key av _ (by simp) (fun _ h => h)

theorem unrefPackage_stock (ok : W.OK) (rid id : Str) (hr : Rough W s) (hs : Safe W s.db) (hid : W.isDelta id = false) (h : Stocked W s) :
    Post (unrefPackage rid id) s (fun _ t => Stocked W t) := by
  refine (At.post (poolGet_at (tgt := none) id hr) (poolGet_reads id)).bind ?_
  rintro pe s ⟨rfl, hg, hp⟩
  refine (At.post (repoGet_at (tgt := none) rid pe.pkg.name hr) (repoGet_reads rid _)).bind ?_
  rintro e s' ⟨rfl, heg, he⟩
  have hnm : pe.pkg.name = (W.mOf id).name := hp.pname
  refine (((removePackageInternal_keeps ok .direct rid id).post hr).and (removePackageInternal_cut rid id hr)).bind fun _ t ht => ?_
  obtain ⟨⟨hrt, _⟩, hct⟩ := ht
  refine (unrefDeltas_cut ok rid id e.deltas (hs.dnd rid _ e heg) hrt).bind fun ds u hu => ?_
  obtain ⟨hru, hsub, hcu⟩ := hu
  refine (unrefAvail_sub id e.available).bind ?_
  rintro acc v ⟨rfl, hacc⟩
  have hcut := hct.trans hcu
  have hXn : ∀ j, (j = id ∨ j ∈ e.deltas ∧ j ∉ ds) → (W.mOf j).name = pe.pkg.name := by
    rintro j (rfl | hj)
    · exact hnm.symm
    · exact (he.deltas j hj.1).2.2
  have other : ∀ x k f j, (s'.db.ents x).get k = some f → ¬ (x = rid ∧ k = pe.pkg.name) → (j ∈ f.available ∨ j ∈ f.deltas) →
      Holds s'.db x j ∧ ¬ (x = rid ∧ (j = id ∨ j ∈ e.deltas ∧ j ∉ ds)) := by
    intro x k f j hf hne hi
    refine ⟨⟨k, f, hf, hi⟩, ?_⟩
    rintro ⟨rfl, hXj⟩
    have hk := hr.db.ent x k f hf
    refine hne ⟨rfl, ?_⟩
    rw [← hXn j hXj]
    rcases hi with hi | hi
    · exact (hk.avail j hi).2.2.symm
    · exact (hk.deltas j hi).2.2.symm
  split
  · refine dbWrite_cut.mono fun _ w hw => ?_
    subst hw
    refine h.cut hcut rfl rfl rfl rfl ?_
    rintro x j ⟨k, f, hf, hi⟩
    simp only [DbWrite.apply, setEnts, hcut.ents] at hf
    split at hf
    · rename_i hx; subst hx
      rw [KV.get_del] at hf
      split at hf
      · cases hf
      · rename_i hne; exact other x k f j hf (fun hc => hne (hc.2.trans he.name.symm)) hi
    · rename_i hx; exact other x k f j hf (fun hc => hx hc.1) hi
  · refine dbWrite_cut.mono fun _ w hw => ?_
    subst hw
    refine h.cut hcut rfl rfl rfl rfl ?_
    rintro x j ⟨k, f, hf, hi⟩
    simp only [DbWrite.apply, setEnts, hcut.ents] at hf
    split at hf
    · rename_i hx; subst hx
      rw [KV.get_put] at hf
      split at hf
      · rename_i hk
        cases hf
        simp only [mem_sortS] at hi
        refine ⟨⟨_, e, heg, hi.imp (fun h => (hacc j h).1) (hsub j)⟩, ?_⟩
        rintro ⟨_, rfl | hj⟩
        · rcases hi with hi | hi
          · exact (hacc j hi).2 rfl
          · have := (he.deltas j (hsub j hi)).1
            rw [hid] at this; cases this
        · rcases hi with hi | hi
          · have := (he.deltas j hj.1).1
            rw [(he.avail j (hacc j hi).1).1] at this; cases this
          · exact hj.2 hi
      · rename_i hne; exact other x k f j hf (fun hc => hne (hc.2.trans he.name.symm)) hi
    · rename_i hx; exact other x k f j hf (fun hc => hx hc.1) hi

/-- Removing listed packages, one after the other. -/
theorem unrefAll_stock (ok : W.OK) (rid : Str) (ids : List Str) (hn : ids.Nodup) (hr : Rough W s) (hs : Safe W s.db) (hh : ∀ id ∈ ids, Has s rid id)
    (h : Stocked W s) : Wins (forL ids (unrefPackage rid)) s (fun _ t => Stocked W t) := by
  have := Wins.forL (f := unrefPackage rid) (I := fun l t => l.Nodup ∧ Rough W t ∧ Safe W t.db ∧ Stocked W t ∧ ∀ id ∈ l, Has t rid id) ids (s := s) ⟨hn, hr, hs, h, hh⟩ ?_
  · exact this.mono fun _ t ht => ht.2.2.2.1
  · intro x xs t _ ht
    obtain ⟨h1, h2, h3, h5, h4⟩ := ht
    obtain ⟨a, hw, hw2⟩ := (unrefPackage_wins ok h2 h3 (h4 x (by simp))).keeps (unrefPackage_keeps ok rid x) h2
    have hd := (unrefPackage_post ok rid x h2).run a hw
    have hxd : W.isDelta x = false := by
      obtain ⟨n, e, hg, hi⟩ := h4 x (by simp)
      exact ((h2.db.ent rid n e hg).avail x hi).1
    have hst := (unrefPackage_stock ok rid x h2 h3 hxd h5).run a hw
    obtain ⟨hx, hxs⟩ := List.nodup_cons.1 h1
    refine ⟨a, hw, hxs, hw2.1, hw2.2, hst, fun id hid => ?_⟩
    obtain ⟨n, e, hg, hi⟩ := h4 id (by simp [hid])
    obtain ⟨e', hg', hi'⟩ := (hd.here n id).2 ⟨⟨e, hg, hi⟩, fun h => hx (h ▸ hid)⟩
    exact ⟨n, e', hg', hi'⟩

/-! ## Deletion -/

/-- What the body of a deletion begun in `s` may have done: pool files go only with records whose deletion is queued. -/
structure Del (s t : St) : Prop where
  db : t.db = s.db
  put : ∀ k e, .putPool k e ∈ t.pend → ∃ pe, s.db.pool.get k = some pe ∧ dec64 pe.refCount > 0
  del : ∀ k, .delPool k ∈ t.pend → ∃ pe, s.db.pool.get k = some pe ∧ ¬ dec64 pe.refCount > 0
  file : ∀ k, .delPool k ∉ t.pend → ∀ d, t.fs.tab (.pool d k) = s.fs.tab (.pool d k)

theorem Del.queue {t : St} (h : Del s t) {w : DbWrite} (h1 : ∀ k e, w = .putPool k e → ∃ pe, s.db.pool.get k = some pe ∧ dec64 pe.refCount > 0)
    (h2 : ∀ k, w ≠ .delPool k) : Ends (Del s) (dbWrite .batch w) t (fun _ _ => True) := by
  unfold dbWrite
  split
  · exact (Ever.throw h).ends
  · refine ((Ever.vol (g := fun s => { s with pend := s.pend ++ [w] }) ⟨h.db, fun k e hm => ?_, fun k hm => ?_, fun k hm => h.file k fun hc => hm (List.mem_append.2 (.inl hc))⟩).mono
      fun _ _ _ => trivial).ends
    · rcases List.mem_append.1 hm with hm | hm
      · exact h.put k e hm
      · simp only [List.mem_singleton] at hm; exact h1 k e hm.symm
    · rcases List.mem_append.1 hm with hm | hm
      · exact h.del k hm
      · simp only [List.mem_singleton] at hm; exact absurd hm.symm (h2 k)

theorem unrefEntry_del (ok : W.OK) {t : St} (id : Str) (hr : RDb W s.db) (h : Del s t) : Ends (Del s) (unrefEntry .batch id) t (fun _ _ => True) := by
  unfold unrefEntry poolGet
  rw [M.bind_assoc]
  have h0 : Ends (Del s) (poolGet? id) t (fun o u => u = t ∧ o = t.db.pool.get id) := ⟨h, fun o ho => by cases ho; exact ⟨rfl, rfl⟩⟩
  refine h0.bind ?_
  rintro o u hu ⟨rfl, ho⟩
  cases o with
  | none => exact (Ever.throw h).ends
  | some pe =>
    rw [h.db] at ho
    have hp := hr.pool id pe ho.symm
    show Ends (Del s) (if dec64 pe.refCount > 0 then dbWrite .batch (.putPool pe.name _) else _) u _
    split
    · rename_i hpos
      refine h.queue (fun k e he => ?_) (fun k => by simp)
      simp only [DbWrite.putPool.injEq] at he
      rw [← he.1, hp.name]; exact ⟨pe, ho.symm, hpos⟩
    · rename_i hpos
      obtain ⟨c, hc⟩ := pathComp_run (s := u) (hp.src ok)
      have hres : reservedKey id = false := (ok.gid hp.isPkg).nres
      have e : (do let comp ← pathComp pe.pkg; removeFile (.pool comp id); dbWrite .batch (.delPool id) : M Unit) u =
          ⟨.ok (), { u.setFs (u.fs.setTab (.pool c id) none) with pend := u.pend ++ [.delPool id] },
            [] ++ ([u.setFs (u.fs.setTab (.pool c id) none)] ++ [])⟩ := by
        rw [bind_ok hc]
        have h1 : removeFile (.pool c id) u = ⟨.ok (), u.setFs (u.fs.setTab (.pool c id) none), [u.setFs (u.fs.setTab (.pool c id) none)]⟩ := rfl
        rw [bind_ok h1]
        have h2 : dbWrite .batch (.delPool id) (u.setFs (u.fs.setTab (.pool c id) none)) =
            ⟨.ok (), { u.setFs (u.fs.setTab (.pool c id) none) with pend := u.pend ++ [.delPool id] }, []⟩ := by
          unfold dbWrite
          rw [if_neg (by simp [DbWrite.key, hres])]; rfl
        rw [h2]; rfl
      refine ⟨?_, fun _ _ => trivial⟩
      show Del s ((do let comp ← pathComp pe.pkg; removeFile (.pool comp id); dbWrite .batch (.delPool id) : M Unit) u).st
      rw [e]
      refine ⟨h.db, fun k e hm => ?_, fun k hm => ?_, fun k hm d => ?_⟩
      · rcases List.mem_append.1 hm with hm | hm
        · exact h.put k e hm
        · simp at hm
      · rcases List.mem_append.1 hm with hm | hm
        · exact h.del k hm
        · simp only [List.mem_singleton, DbWrite.delPool.injEq] at hm
          rw [hm]; exact ⟨pe, ho.symm, hpos⟩
      · have hk : k ≠ id := by rintro rfl; exact hm (List.mem_append.2 (.inr (by simp)))
        show (u.fs.setTab _ none).tab _ = _
        rw [FS.setTab_tab, if_neg (by intro hc; simp only [Path.pool.injEq] at hc; exact hk hc.2)]
        exact h.file k (fun hc => hm (List.mem_append.2 (.inl hc))) d

theorem removePackageInternal_del (ok : W.OK) {t : St} (rid id : Str) (hr : RDb W s.db) (h : Del s t) :
    Ends (Del s) (removePackageInternal .batch rid id) t (fun _ _ => True) := by
  have h0 : Ends (Del s) (poolGet? id) t (fun o u => u = t) := ⟨h, fun o ho => rfl⟩
  refine h0.bind ?_
  rintro o u hu rfl
  cases o with
  | none => exact (Ever.pure h trivial).ends
  | some pe =>
    refine Ends.skip h (pathComp_reads _) fun c => ?_
    have h1 : Ends (Del s) (removeFile (.repo rid c pe.name)) u (fun _ _ => True) :=
      ((Ever.step (J := Del s) (g := fun s => s.setFs (s.fs.setTab (.repo rid c pe.name) none)) ⟨h.db, h.put, h.del, fun k hk d => by
        show (u.fs.setTab _ none).tab _ = _
        rw [FS.setTab_tab, if_neg (by simp)]; exact h.file k hk d⟩).mono fun _ _ _ => trivial).ends
    exact h1.bind fun _ v hv _ => unrefEntry_del ok id hr hv

theorem deleteRepoBody_del (ok : W.OK) {t : St} (rid : Str) (hr : RDb W s.db) (h : Del s t) : Ends (Del s) (deleteRepoBody rid) t (fun _ _ => True) := by
  refine Ends.skip h (repoEntries_reads rid) fun es => ?_
  refine (Ends.forL (P := fun _ => True) es h trivial fun e _ u hu _ => ?_).bind fun _ v hv _ => hv.queue (fun _ _ h => by cases h) (fun _ => by simp)
  refine (Ends.forL (P := fun _ => True) e.available hu trivial fun id _ v hv _ => removePackageInternal_del ok rid id hr hv).bind fun _ v hv _ => ?_
  refine (Ends.forL (P := fun _ => True) e.deltas hv trivial fun id _ v hv _ => removePackageInternal_del ok rid id hr hv).bind fun _ w hw _ => ?_
  exact hw.queue (fun _ _ h => by cases h) (fun _ => by simp)

/-- Writes that put only existing records: what is in the pool afterwards was there, and not deleted unless put back. -/
theorem pool_left : ∀ (ws : List DbWrite) (d : DB) {id : Str} {pe : PoolEntry}, (ws.foldl DbWrite.apply d).pool.get id = some pe →
    ((∃ pe', d.pool.get id = some pe') ∧ .delPool id ∉ ws) ∨ ∃ e, .putPool id e ∈ ws := by
  intro ws
  induction ws with
  | nil => intro d id pe h; exact .inl ⟨⟨pe, h⟩, by simp⟩
  | cons w ws ih =>
    intro d id pe h
    rcases ih (w.apply d) h with ⟨⟨pe', h1⟩, h2⟩ | ⟨e, he⟩
    · cases w with
      | putPool k v =>
        by_cases hk : id = k
        · subst hk; exact .inr ⟨v, by simp⟩
        · simp only [DbWrite.apply, KV.get_put, if_neg hk] at h1
          exact .inl ⟨⟨pe', h1⟩, by simp [h2]⟩
      | delPool k =>
        simp only [DbWrite.apply, KV.get_del] at h1
        split at h1
        · cases h1
        · rename_i hk; exact .inl ⟨⟨pe', h1⟩, by simp [h2, hk]⟩
      | putSkip k v => exact .inl ⟨⟨pe', h1⟩, by simp [h2]⟩
      | putRepo k => exact .inl ⟨⟨pe', h1⟩, by simp [h2]⟩
      | delRepo k => exact .inl ⟨⟨pe', h1⟩, by simp [h2]⟩
      | putEnt a k v => exact .inl ⟨⟨pe', h1⟩, by simp [h2]⟩
      | delEnt a k => exact .inl ⟨⟨pe', h1⟩, by simp [h2]⟩
    · exact .inr ⟨e, by simp [he]⟩

theorem Del.left {t : St} (h : Del s t) {id : Str} {pe : PoolEntry} (hg : (t.pend.foldl DbWrite.apply t.db).pool.get id = some pe) :
    (∃ pe', s.db.pool.get id = some pe') ∧ ∀ d, t.fs.tab (.pool d id) = s.fs.tab (.pool d id) := by
  rcases pool_left _ _ hg with ⟨h1, h2⟩ | ⟨e, he⟩
  · rw [h.db] at h1; exact ⟨h1, h.file id h2⟩
  · obtain ⟨pe', h1, h2⟩ := h.put id e he
    refine ⟨⟨pe', h1⟩, h.file id fun hc => ?_⟩
    obtain ⟨pe'', h3, h4⟩ := h.del id hc
    rw [h1] at h3; cases h3; exact h4 h2

/-- The pool after a successful deletion. -/
theorem deleteRepo_pool (ok : W.OK) (rid : Str) (hr : Rough W s) :
    Post (deleteRepo rid) s (fun _ t => ∀ id pe, t.db.pool.get id = some pe → (∃ pe', s.db.pool.get id = some pe') ∧
      ∀ d, t.fs.tab (.pool d id) = s.fs.tab (.pool d id)) := by
  unfold deleteRepo
  have hg : Post (getRepo rid) s (fun _ t => t.db = s.db ∧ t.fs.tab = s.fs.tab) := by
    refine Post.getSt ?_
    split
    · exact Post.pure ⟨rfl, rfl⟩
    · cases s.db.repos.get rid with
      | none => exact Post.throw
      | some u =>
        refine Post.step.bind fun _ t ht => Post.vol.mono fun _ v hv => ?_
        subst hv ht; exact ⟨rfl, rfl⟩
  refine hg.bind fun _ t ht => Post.vol.bind fun _ u hu => ?_
  have hdb : u.db = s.db := by subst hu; exact ht.1
  have hfs : u.fs.tab = s.fs.tab := by subst hu; exact ht.2
  refine Post.bind (P := fun _ v => ∀ id pe, v.db.pool.get id = some pe → (∃ pe', s.db.pool.get id = some pe') ∧
      ∀ d, v.fs.tab (.pool d id) = s.fs.tab (.pool d id)) ?_ fun _ v hv => ?_
  · have hd := (deleteRepoBody_del (s := { u with pend := [] }) (t := { u with pend := [] }) ok rid (by show RDb W u.db; rw [hdb]; exact hr.db)
      ⟨rfl, fun _ _ h => (by cases h), fun _ h => (by cases h), fun _ _ _ => rfl⟩).fin
    refine ⟨fun a ha => ?_⟩
    unfold dbUpdate at ha ⊢
    rcases hres : (deleteRepoBody rid { u with pend := [] }).res with b | e | _
    · simp only [hres]
      intro id pe hg
      have := hd.left hg
      refine ⟨?_, fun d => ?_⟩
      · have h1 : ∃ pe', u.db.pool.get id = some pe' := this.1
        rw [hdb] at h1; exact h1
      · have h2 : _ = u.fs.tab (.pool d id) := this.2 d
        rw [hfs] at h2; exact h2
    · simp only [hres] at ha; cases ha
    · simp only [hres] at ha; cases ha
  · refine Post.step.bind fun _ w hw => Post.step.mono fun _ x hx => ?_
    subst hx hw
    intro id pe hg
    obtain ⟨h1, h2⟩ := hv id pe hg
    exact ⟨h1, fun d => by rw [← h2 d]; simp⟩

theorem forL_keeps {γ : Type} {R : St → St → Prop} (hrefl : ∀ s, R s s) (htrans : ∀ s t u, R s t → R t u → R s u) {f : γ → M Unit} :
    ∀ (l : List γ), (∀ x ∈ l, ∀ s, R s (f x s).st) → ∀ s, R s (forL l f s).st := by
  intro l
  induction l with
  | nil => intro _ s; exact hrefl s
  | cons x l ih =>
    intro hf s
    show R s (M.bind' (f x) (fun _ => forL l f) s).st
    unfold M.bind'
    have h1 := hf x (by simp) s
    cases hx : (f x s).res with
    | ok a => exact htrans _ _ _ h1 (ih (fun y hy => hf y (by simp [hy])) _)
    | err e => exact h1
    | panic => exact h1

/-- The programs that leave the table of open repositories alone. -/
structure Open (m : M α) : Prop where
  st : ∀ s, (m s).st.cache = s.cache

theorem Open.bind {m : M α} {f : α → M β} (h : Open m) (hf : ∀ a, Open (f a)) : Open (m >>= f) := ⟨fun s => by
  show (M.bind' m f s).st.cache = _
  unfold M.bind'
  cases hx : (m s).res with
  | ok a => exact ((hf a).st _).trans (h.st s)
  | err e => exact h.st s
  | panic => exact h.st s⟩
theorem Reads.open {m : M α} (h : Reads m) : Open m := ⟨fun s => by rw [h.st]⟩
theorem Open.forL {γ : Type} {f : γ → M Unit} {l : List γ} (h : ∀ x ∈ l, Open (f x)) : Open (forL l f) :=
  ⟨forL_keeps (R := fun s t => t.cache = s.cache) (fun _ => rfl) (fun _ _ _ a b => b.trans a) l fun x hx s => (h x hx).st s⟩
theorem Open.ite {c : Prop} [Decidable c] {m n : M α} (h : Open m) (k : Open n) : Open (if c then m else n) := by split <;> assumption
theorem dbWrite_open (hd : Handle) (w : DbWrite) : Open (dbWrite hd w) := by
  unfold dbWrite
  refine Open.ite ⟨fun _ => rfl⟩ ?_
  cases hd <;> exact ⟨fun _ => rfl⟩
theorem removeFile_open (p : Path) : Open (removeFile p) := ⟨fun _ => rfl⟩
theorem unrefEntry_open (hd : Handle) (id : Str) : Open (unrefEntry hd id) :=
  (poolGet_reads id).open.bind fun _ => Open.ite (dbWrite_open _ _) ((pathComp_reads _).open.bind fun _ => (removeFile_open _).bind fun _ => dbWrite_open _ _)
theorem removePackageInternal_open (hd : Handle) (rid id : Str) : Open (removePackageInternal hd rid id) := by
  refine (poolGet?_reads id).open.bind fun o => ?_
  cases o with
  | none => exact (Reads.pure _).open
  | some e => exact (pathComp_reads _).open.bind fun _ => (removeFile_open _).bind fun _ => unrefEntry_open _ _
theorem deleteRepoBody_open (rid : Str) : Open (deleteRepoBody rid) :=
  (repoEntries_reads rid).open.bind fun _ => (Open.forL fun _ _ => (Open.forL fun _ _ => removePackageInternal_open _ _ _).bind fun _ =>
    (Open.forL fun _ _ => removePackageInternal_open _ _ _).bind fun _ => dbWrite_open _ _).bind fun _ => dbWrite_open _ _
theorem dbUpdate_open {b : M Unit} (h : Open b) : Open (dbUpdate b) := ⟨fun s => by
  have := h.st { s with pend := [] }
  unfold dbUpdate
  cases hx : (b { s with pend := [] }).res <;> simp only [hx] <;> exact this⟩

/-- Repositories open after a successful deletion were open before, and are not the deleted one. -/
theorem deleteRepo_open (rid : Str) : Post (deleteRepo rid) s (fun _ t => ∀ r ∈ t.cache, r ≠ rid ∧ r ∈ s.cache) := by
  unfold deleteRepo
  have hg : Post (getRepo rid) s (fun _ t => ∀ r ∈ t.cache, r = rid ∨ r ∈ s.cache) := by
    refine Post.getSt ?_
    split
    · exact Post.pure fun r hm => .inr hm
    · cases s.db.repos.get rid with
      | none => exact Post.throw
      | some u =>
        refine Post.step.bind fun _ t ht => Post.vol.mono fun _ v hv => ?_
        subst hv ht
        intro r hm
        exact List.mem_cons.1 hm
  refine hg.bind fun _ t ht => Post.vol.bind fun _ u hu => ?_
  have hu' : ∀ r ∈ u.cache, r ≠ rid ∧ r ∈ s.cache := by
    subst hu
    intro r hm
    simp only [List.mem_filter, decide_eq_true_eq] at hm
    exact ⟨hm.2, (ht r hm.1).resolve_left hm.2⟩
  refine Post.bind (P := fun _ v => v.cache = u.cache) ⟨fun _ _ => (dbUpdate_open (deleteRepoBody_open rid)).st u⟩ fun _ v hv => ?_
  refine Post.step.bind fun _ w hw => Post.step.mono fun _ x hx => ?_
  subst hx hw
  show ∀ r ∈ v.cache, _
  rw [hv]; exact hu'

theorem deleteRepo_stock (ok : W.OK) (rid : Str) (hr : Rough W s) (h : Stocked W s) : Stocked W (deleteRepo rid s).st := by
  by_cases hx : ∃ u, s.db.repos.get rid = some u
  · obtain ⟨hres, h1, h2, _⟩ := deleteRepo_sure ok hr hx
    have hpool := (deleteRepo_pool ok rid hr).run () hres
    have hop := (deleteRepo_open (s := s) rid).run () hres
    have hk := (deleteRepo_keeps ok rid s hr).fsame
    generalize (deleteRepo rid s).st = t at *
    refine ⟨fun id pe hg => ?_, fun r id hh => ?_, fun r hm => ?_⟩
    · obtain ⟨⟨pe', hg'⟩, hf⟩ := hpool id pe hg
      obtain ⟨d, hd, ht⟩ := h.pool id pe' hg'
      exact ⟨d, hd, by rw [hf]; exact ht⟩
    · obtain ⟨n, e, hg, hi⟩ := hh
      have hne : r ≠ rid := by rintro rfl; rw [h2 n] at hg; cases hg
      have hsame := hk r (by simpa using fun hc => hne hc.symm)
      rw [hsame.db.ents] at hg
      obtain ⟨d, hd, ht⟩ := h.repo r id ⟨n, e, hg, hi⟩
      exact ⟨d, hd, by rw [hsame.fs.file]; exact ht⟩
    · obtain ⟨hne, hm'⟩ := hop r hm
      have hsame := hk r (by simpa using fun hc => hne hc.symm)
      rw [hsame.db.repo]; exact h.cache r hm'
  · have hc : rid ∉ s.cache := fun hm => hx (h.cache rid hm)
    have hn : s.db.repos.get rid = none := by
      cases hg : s.db.repos.get rid with
      | none => rfl
      | some u => exact absurd ⟨u, hg⟩ hx
    have e : getRepo rid s = ⟨.err .notFound, s, []⟩ := by
      unfold getRepo
      rw [getSt_bind, if_neg hc, hn]; rfl
    unfold deleteRepo
    rw [bind_err e]
    exact h

/-! ## Removals -/

/-- A job that takes packages away and comes to its end leaves no file missing. -/
theorem Op.takes_stock (ok : W.OK) (o : Op) (hn : o.takes = true) (hr : Rough W s) (hs : Safe W s.db) (h : Stocked W s) : Stocked W (o.run W.E s).st := by
  have fin : ∀ (r : Str) {m : M Unit}, (∀ t, Rough W t → Safe W t.db → Stocked W t → Stocked W (m t).st) →
      Stocked W ((do getRepo r; m; mIndex W.E r : M Unit) s).st := by
    intro r m hm
    have hg := (((getRepo_still r).run hs).keeps (getRepo_keeps (tgt := none) r) hr)
    have hg' := (getRepo_stock r h)
    show Stocked W (M.bind' _ _ s).st
    unfold M.bind'
    cases h1 : (getRepo r s).res with
    | ok a =>
      have h2 := hm _ (hg.val a h1).1 hg.fin hg'.fin
      show Stocked W (M.bind' _ _ _).st
      unfold M.bind'
      cases h3 : (m (getRepo r s).st).res with
      | ok b => exact (mIndex_stock W.E r h2).fin
      | err e => exact h2
      | panic => exact h2
    | err e => exact hg'.fin
    | panic => exact hg'.fin
  cases o with
  | delete r => exact deleteRepo_stock ok r hr h
  | removeSource r n k =>
    refine fin r fun t ht hst hk => ?_
    obtain ⟨ids, h1, h2, h3, h4⟩ := matchingSource_wins ok r n k ht hst
    unfold Ferryd.removeSource
    show Stocked W (M.bind' _ _ t).st
    unfold M.bind'
    rw [h1]
    simp only
    rw [h2]
    split
    · exact hk
    · obtain ⟨a, _, h5⟩ := unrefAll_stock ok r ids h3 ht hst h4 hk
      exact h5
  | trimPackages r k =>
    refine fin r fun t ht hst hk => ?_
    by_cases hk1 : 1 ≤ k
    · unfold Ferryd.trimPackages
      rw [if_neg (show ¬ k < 1 by omega)]
      have hw := scan_wins (f := trimScan W.E k.toNat) (r := r) ht fun n e hg => trimScan_wins ok k.toNat ht hst hg
      have := hw.bind (f := fun ids => Ferryd.forL ids (unrefPackage r)) (R := fun _ t => Stocked W t)
        (by rintro o t ⟨rfl, h1, h2⟩; exact unrefAll_stock ok r o h1 ht hst h2 hk)
      rw [M.bind_assoc] at this
      obtain ⟨a, _, h5⟩ := this
      exact h5
    · unfold Ferryd.trimPackages
      rw [if_pos (show k < 1 by omega)]
      exact hk
  | trimObsolete r =>
    refine fin r fun t ht hst hk => ?_
    unfold Ferryd.trimObsolete
    show Stocked W (M.bind' _ _ t).st
    unfold M.bind'
    have hst' := (initDistribution_reads W.E r).st t
    cases h1 : (initDistribution W.E r t).res with
    | err e => rw [hst']; exact hk
    | panic => rw [hst']; exact hk
    | ok o =>
      rw [hst']
      cases o with
      | none => exact hk
      | some obs =>
        have hw := scan_wins (f := fun e => trimObsoleteScan obs e.name e.available) (r := r) ht fun n e hg => trimObsoleteScan_wins obs e.name e.available fun x hx => by
          obtain ⟨pe, h1, _⟩ := listed_pool ht hst hg hx
          exact ⟨pe, h1⟩
        have := hw.bind (f := fun ids => Ferryd.forL ids (unrefPackage r)) (R := fun _ t => Stocked W t)
          (by rintro o t ⟨rfl, h1, h2⟩; exact unrefAll_stock ok r o h1 ht hst h2 hk)
        rw [M.bind_assoc] at this
        obtain ⟨a, _, h5⟩ := this
        exact h5
  | _ => cases hn

end Ferryd
