import Verif.CoreFiles
import Verif.CoreFrame
import Verif.CoreUnrefs
/-!
# CoreSync: two runs of a job, from states that agree on some repositories

`Like W R s t`: the states `s` and `t`, both as histories leave them, agree on the repositories in `R`, on the uploaded files and on what the tools of
future index runs will do.  `Sync`: a piece of code run from both ends the same way and leaves states that agree again.  (No deltas: the daemon has no
handler for delta jobs.)
-/
namespace Ferryd

/-- The states agree on the repositories in `R`. (No code: a notion of the statements and proofs.) -/
structure Like (W : World) (R : Str → Prop) (s t : St) : Prop where
  inv : Inv W s
  inv' : Inv W t
  repo : ∀ r, R r → (r ∈ s.db.repos.keys ↔ r ∈ t.db.repos.keys)
  ents : ∀ r, R r → s.db.ents r = t.db.ents r
  idx : ∀ r, R r → s.fs.idx r = t.fs.idx r
  asset : ∀ r a, R r → s.fs.read (.asset r a) = t.fs.read (.asset r a)
  ext : ∀ f, s.fs.read (.ext f) = t.fs.read (.ext f)
  io : ∀ n, W.E.indexIO (s.clock + n) = W.E.indexIO (t.clock + n)

/-- The code ends the same way from both states, in states that agree. (No code: a notion of the statements and proofs.) -/
structure Sync {α : Type} (W : World) (R : Str → Prop) (m : M α) (s t : St) (P : α → St → St → Prop) : Prop where
  like : Like W R (m s).st (m t).st
  res : (∃ a, (m s).res = .ok a ∧ (m t).res = .ok a ∧ P a (m s).st (m t).st) ∨ (∃ e e', (m s).res = .err e ∧ (m t).res = .err e')

section
variable {W : World} {R : Str → Prop} {s t s' t' : St} {r : Str}

theorem Like.has (h : Like W R s t) (hr : R r) (id : Str) : s.has r id = t.has r id := by
  unfold St.has; rw [h.ents r hr]

theorem Like.ids (h : Like W R s t) (hr : R r) : s.ids r = t.ids r := by
  unfold St.ids; rw [h.ents r hr]

theorem Sync.bind {α β : Type} {m : M α} {f : α → M β} {P : α → St → St → Prop} {Q : β → St → St → Prop} (h : Sync W R m s t P)
    (hf : ∀ a s' t', Like W R s' t' → P a s' t' → Sync W R (f a) s' t' Q) : Sync W R (m >>= f) s t Q := by
  rcases hs : m s with ⟨rs, s1, trs⟩
  rcases ht : m t with ⟨rt, t1, trt⟩
  have hl := h.like
  have hr := h.res
  rw [hs, ht] at hl hr
  rcases hr with ⟨a, h1, h2, h3⟩ | ⟨e, e', h1, h2⟩
  · simp only at h1 h2 h3 hl
    subst h1; subst h2
    have := hf a s1 t1 hl h3
    refine ⟨?_, ?_⟩
    · rw [bind_ok hs, bind_ok ht]; exact this.like
    · rw [bind_ok hs, bind_ok ht]; exact this.res
  · simp only at h1 h2 hl
    subst h1; subst h2
    refine ⟨?_, ?_⟩
    · rw [bind_err hs, bind_err ht]; exact hl
    · rw [bind_err hs, bind_err ht]; exact .inr ⟨e, e', rfl, rfl⟩

theorem Sync.pure {α : Type} {a : α} {P : α → St → St → Prop} (h : Like W R s t) (hp : P a s t) : Sync W R (pure a : M α) s t P :=
  ⟨h, .inl ⟨a, rfl, rfl, hp⟩⟩

theorem Sync.throw {α : Type} {e : Err} {P : α → St → St → Prop} (h : Like W R s t) : Sync W R (throwE e : M α) s t P :=
  ⟨h, .inr ⟨e, e, rfl, rfl⟩⟩

theorem Sync.weaken {α : Type} {m : M α} {P Q : α → St → St → Prop} (h : Sync W R m s t P) (hpq : ∀ a s' t', P a s' t' → Q a s' t') :
    Sync W R m s t Q :=
  ⟨h.like, h.res.imp (fun ⟨a, h1, h2, h3⟩ => ⟨a, h1, h2, hpq _ _ _ h3⟩) id⟩

/-- Code that only reads and whose value is the same from both. -/
theorem Sync.read {α : Type} {m : M α} {a : α} (h : Like W R s t) (hs : m s = ⟨.ok a, s, []⟩) (ht : m t = ⟨.ok a, t, []⟩) :
    Sync W R m s t (fun b s' t' => b = a ∧ s' = s ∧ t' = t) :=
  ⟨by rw [hs, ht]; exact h, .inl ⟨a, by rw [hs], by rw [ht], rfl, by rw [hs], by rw [ht]⟩⟩

theorem Sync.fail {α : Type} {m : M α} {e e' : Err} {P : α → St → St → Prop} (hl : Like W R s' t') (hs : m s = ⟨.err e, s', tr⟩)
    (ht : m t = ⟨.err e', t', tr'⟩) : Sync W R m s t P :=
  ⟨by rw [hs, ht]; exact hl, .inr ⟨e, e', by rw [hs], by rw [ht]⟩⟩

theorem Sync.done {α : Type} {m : M α} {a : α} {P : α → St → St → Prop} (hl : Like W R s' t') (hs : m s = ⟨.ok a, s', tr⟩)
    (ht : m t = ⟨.ok a, t', tr'⟩) (hp : P a s' t') : Sync W R m s t P :=
  ⟨by rw [hs, ht]; exact hl, .inl ⟨a, by rw [hs], by rw [ht], by rw [hs, ht]; exact hp⟩⟩

/-- What concerns only repository `r` (and the pool) keeps the agreement if it keeps it on `r`. -/
theorem Like.step {x : Str} {dl : Prop} (h : Like W R s t) (hdl : ∀ d, W.isDelta d = false) (hi : Inv W s') (hi' : Inv W t')
    (fs : Frame W dl s s' x) (ft : Frame W dl t t' x)
    (hrep : ∀ r, R r → (r ∈ s'.db.repos.keys ↔ r ∈ t'.db.repos.keys))
    (hx : R x → s'.db.ents x = t'.db.ents x ∧ s'.fs.idx x = t'.fs.idx x ∧ ∀ a, s'.fs.read (.asset x a) = t'.fs.read (.asset x a))
    (hc : s'.clock = s.clock) (hc' : t'.clock = t.clock) : Like W R s' t' where
  inv := hi
  inv' := hi'
  repo := hrep
  ents r hr := by
    by_cases e : r = x
    · subst e; exact (hx hr).1
    · rw [fs.ents r e, ft.ents r e]; exact h.ents r hr
  idx r hr := by
    by_cases e : r = x
    · subst e; exact (hx hr).2.1
    · rw [fs.idx r e, ft.idx r e]; exact h.idx r hr
  asset r a hr := by
    by_cases e : r = x
    · subst e; exact (hx hr).2.2 a
    · rw [fs.read _ (by simp [Path.inRepo, e]) rfl (fun _ => .inl rfl), ft.read _ (by simp [Path.inRepo, e]) rfl (fun _ => .inl rfl)]
      exact h.asset r a hr
  ext f := by
    rw [fs.read _ rfl rfl (fun _ => .inr (hdl _)), ft.read _ rfl rfl (fun _ => .inr (hdl _))]
    exact h.ext f
  io n := by rw [hc, hc']; exact h.io n

theorem Like.same (h : Like W R s t) (hs : SameObs s s') (ht : SameObs t t') (hi : Inv W s') (hi' : Inv W t') (hc : s'.clock = s.clock)
    (hc' : t'.clock = t.clock) : Like W R s' t' where
  inv := hi
  inv' := hi'
  repo r hr := by rw [hs.db, ht.db]; exact h.repo r hr
  ents r hr := by rw [hs.db, ht.db]; exact h.ents r hr
  idx r hr := by rw [hs.idx, ht.idx]; exact h.idx r hr
  asset r a hr := by rw [hs.read, ht.read]; exact h.asset r a hr
  ext f := by rw [hs.read, ht.read]; exact h.ext f
  io n := by rw [hc, hc']; exact h.io n

theorem getRepo_sync (h : Like W R s t) (hr : R r) :
    Sync W R (getRepo r) s t (fun _ s' t' => s' = s.got r ∧ t' = t.got r ∧ r ∈ s'.db.repos.keys ∧ r ∈ t'.db.repos.keys) := by
  by_cases hk : r ∈ s.db.repos.keys
  · have hk' := (h.repo r hr).1 hk
    obtain ⟨tr, h1, _⟩ := getRepo_run h.inv hk
    obtain ⟨tr', h2, _⟩ := getRepo_run h.inv' hk'
    exact .done (h.same (SameObs.got s r) (SameObs.got t r) (h.inv.got hk) (h.inv'.got hk') (by simp) (by simp)) h1 h2
      ⟨rfl, rfl, by simpa using hk, by simpa using hk'⟩
  · have hk' : r ∉ t.db.repos.keys := fun x => hk ((h.repo r hr).2 x)
    exact .fail h (getRepo_missing h.inv hk) (getRepo_missing h.inv' hk')

/-! ## Adding packages -/

theorem Like.ents_put (h : Like W R s t) {x id : Str} (hx : R x) :
    (setEnts s.db.ents x ((s.db.ents x).put (W.mOf id).name (W.addedEntry s x id))) x =
    (setEnts t.db.ents x ((t.db.ents x).put (W.mOf id).name (W.addedEntry t x id))) x := by
  unfold setEnts World.addedEntry
  rw [if_pos rfl, if_pos rfl, h.ents x hx]

theorem Like.added (h : Like W R s t) (hdl : ∀ d, W.isDelta d = false) {x : Str} {l l' : List Str} (ha : AddedAll W s s' x l)
    (ha' : AddedAll W t t' x l') (he : R x → s'.db.ents x = t'.db.ents x) : Like W R s' t' :=
  h.step hdl ha.inv ha'.inv ha.frame ha'.frame (fun r hr => by rw [ha.repos, ha'.repos]; exact h.repo r hr)
    (fun hx => ⟨he hx, by rw [ha.idx, ha'.idx]; exact h.idx x hx, fun a => by rw [ha.asset, ha'.asset]; exact h.asset x a hx⟩) ha.clock ha'.clock

theorem refPackage_sync (ok : W.OK) (hdl : ∀ d, W.isDelta d = false) (h : Like W R s t) (hr : R r) (hk : r ∈ s.db.repos.keys) {id x : Str} (hx : R x)
    (hh : s.has x id = true) :
    Sync W R (refPackage W.E r id) s t (fun _ s' _ => s'.db.repos = s.db.repos ∧ ∀ x id, s.has x id = true → s'.has x id = true) := by
  have hk' := (h.repo r hr).1 hk
  obtain ⟨_, hnd, pe, hg⟩ := h.inv.has_facts hh
  have hh' : t.has x id = true := by rw [← h.has hx]; exact hh
  obtain ⟨_, _, pe', hg'⟩ := h.inv'.has_facts hh'
  cases hold : s.has r id with
  | true =>
    have hold' : t.has r id = true := by rw [← h.has hr]; exact hold
    exact .done h (refPackage_old ok h.inv hold) (refPackage_old ok h.inv' hold') ⟨rfl, fun _ _ h => h⟩
  | false =>
    have hold' : t.has r id = false := by rw [← h.has hr]; exact hold
    obtain ⟨c, s', tr, hc, hrun, ha, _⟩ := refPackage_new ok h.inv hg hnd hold
    obtain ⟨c', t', tr', hc', hrun', ha', _⟩ := refPackage_new ok h.inv' hg' hnd hold'
    have hp := (h.inv.pool id pe hg).isPkg
    have hA := ha.all ok h.inv hk hnd hp hc hold
    have hA' := ha'.all ok h.inv' hk' hnd hp hc' hold'
    refine .done (h.added hdl hA hA' fun hx => ?_) hrun hrun' ⟨hA.repos, fun y j hy => (hA.has y j).2 (.inl hy)⟩
    rw [ha.ents, ha'.ents]
    exact h.ents_put hr

theorem refLoop_sync (ok : W.OK) (hdl : ∀ d, W.isDelta d = false) (hr : R r) : ∀ (ids : List Str) {s t : St}, Like W R s t → r ∈ s.db.repos.keys →
    (∀ id ∈ ids, ∃ x, R x ∧ s.has x id = true) →
    Sync W R (forL ids (refPackage W.E r)) s t (fun _ s' _ => s'.db.repos = s.db.repos)
  | [], _, _, h, _, _ => .pure h rfl
  | id :: ids, s, t, h, hk, hids => by
    obtain ⟨x, hx, hh⟩ := hids id (by simp)
    rw [forL_cons]
    refine (refPackage_sync ok hdl h hr hk hx hh).bind fun _ s' t' hl ⟨hrep, hmono⟩ => ?_
    refine (refLoop_sync ok hdl hr ids hl (by rw [hrep]; exact hk) fun j hj => ?_).weaken fun _ _ _ e => e.trans hrep
    obtain ⟨y, hy, hyj⟩ := hids j (by simp [hj])
    exact ⟨y, hy, hmono _ _ hyj⟩

theorem addPackage_sync (ok : W.OK) (hdl : ∀ d, W.isDelta d = false) (h : Like W R s t) (hr : R r) (hk : r ∈ s.db.repos.keys) (f : Str) (strict : Bool) :
    Sync W R (addPackage W.E r (.ext f) strict) s t (fun _ s' _ => s'.db.repos = s.db.repos) := by
  have hk' := (h.repo r hr).1 hk
  have hlocal : s.fs.read (.ext f) = some (W.canon (baseName f)) → W.IsPkg (baseName f) →
      Sync W R (addLocalPackage W.E r ⟨.ext f, baseName f, W.mOf (baseName f)⟩) s t (fun _ s' _ => s'.db.repos = s.db.repos) := by
    intro hx hp
    have hx' := hx
    rw [h.ext] at hx'
    cases hold : s.has r (baseName f) with
    | true =>
      have hold' : t.has r (baseName f) = true := by rw [← h.has hr]; exact hold
      exact .done h (addLocalPackage_old ok h.inv hp hold) (addLocalPackage_old ok h.inv' hp hold') rfl
    | false =>
      have hold' : t.has r (baseName f) = false := by rw [← h.has hr]; exact hold
      obtain ⟨c, s', tr, hc, hrun, ha, _⟩ := addLocalPackage_new (p := .ext f) ok h.inv rfl ⟨f, rfl⟩ hx hp (hdl _) hold
      obtain ⟨c', t', tr', hc', hrun', ha', _⟩ := addLocalPackage_new (p := .ext f) ok h.inv' rfl ⟨f, rfl⟩ hx' hp (hdl _) hold'
      have hA := ha.all ok h.inv hk (hdl _) hp hc hold
      have hA' := ha'.all ok h.inv' hk' (hdl _) hp hc' hold'
      refine .done (h.added hdl hA hA' fun hx => ?_) hrun hrun' hA.repos
      rw [ha.ents, ha'.ents]
      exact h.ents_put hr
  unfold addPackage
  rcases openPkg_run (p := .ext f) h.inv ok rfl with ⟨ho, hx⟩ | ⟨ho, c, hx, hb⟩ | ⟨ho, hx, hp⟩
  · have ho' : openPkg W.E (.ext f) t = ⟨.err .io, t, []⟩ := by
      unfold openPkg; rw [getSt_bind, ← h.ext, hx]; rfl
    exact .fail h (bind_err ho) (bind_err ho')
  · have ho' : openPkg W.E (.ext f) t = ⟨.err .corrupt, t, []⟩ := by
      unfold openPkg; rw [getSt_bind, ← h.ext, hx]; simp [hb]
    exact .fail h (bind_err ho) (bind_err ho')
  · simp only [Path.base] at ho hx hp
    have ho' : openPkg W.E (.ext f) t = ⟨.ok ⟨.ext f, baseName f, W.mOf (baseName f)⟩, t, []⟩ := by
      rcases openPkg_run (p := .ext f) h.inv' ok rfl with ⟨_, hx'⟩ | ⟨_, c, hx', hb⟩ | ⟨ho, _⟩
      · rw [← h.ext, hx] at hx'; cases hx'
      · rw [← h.ext, hx] at hx'; cases hx'
        unfold World.IsPkg at hp; rw [hb] at hp; cases hp
      · exact ho
    refine (Sync.read h ho ho').bind fun p s1 t1 hl ⟨e1, e2, e3⟩ => ?_
    subst e1; subst e2; subst e3
    cases strict with
    | false => exact hlocal hx hp
    | true =>
      show Sync W R (repoGet? r (W.mOf (baseName f)).name >>= _) s1 t1 _
      refine (Sync.read (a := (s1.db.ents r).get (W.mOf (baseName f)).name) h (by rfl) (by rw [h.ents r hr]; rfl)).bind fun l s2 t2 _ ⟨e1, e2, e3⟩ => ?_
      subst e1; subst e2; subst e3
      cases hg : (s2.db.ents r).get (W.mOf (baseName f)).name with
      | none => exact hlocal hx hp
      | some l =>
        obtain ⟨pe, l1, l2, l3⟩ := h.inv.pubEntry ok hg
        obtain ⟨pe', l1', l2', l3'⟩ := h.inv'.pubEntry ok (by rw [← h.ents r hr]; exact hg)
        simp only
        have hm : (W.mOf (baseName f)).history ≠ [] := (ok.meta hp).hist
        have key : ∀ (u : St) (pe : PoolEntry), u.db.pool.get l.published = some pe → pe.pkg.history ≠ [] → pe.pkg.rel = (W.mOf l.published).rel →
            ∀ (k : Int → Int → M Unit), (poolGet l.published >>= fun pub => getRelease pub.pkg >>= fun pr => getRelease (W.mOf (baseName f)) >>= fun nr => k pr nr) u =
              k (W.mOf l.published).rel (W.mOf (baseName f)).rel u := by
          intro u pe h1 h2 h3 k
          rw [poolGet_bind_some _ h1, getRelease_bind h2, getRelease_bind hm, h3]
        have swap : ∀ {m m' : M Unit} {P : Unit → St → St → Prop}, m s2 = m' s2 → m t2 = m' t2 → Sync W R m' s2 t2 P → Sync W R m s2 t2 P := by
          intro m m' P e1 e2 hs
          exact ⟨by rw [e1, e2]; exact hs.like, by rw [e1, e2]; exact hs.res⟩
        refine swap (key s2 pe l1 l2 l3 _) (key t2 pe' l1' l2' l3' _) ?_
        split
        · exact .throw h
        · split
          · exact .throw h
          · exact hlocal hx hp

theorem addLoop_sync (ok : W.OK) (hdl : ∀ d, W.isDelta d = false) (hr : R r) (strict : Bool) : ∀ (fs : List Str) {s t : St}, Like W R s t →
    r ∈ s.db.repos.keys → Sync W R (forL fs (fun f => addPackage W.E r (.ext f) strict)) s t (fun _ s' _ => s'.db.repos = s.db.repos)
  | [], _, _, h, _ => .pure h rfl
  | f :: fs, s, t, h, hk => by
    rw [forL_cons]
    refine (addPackage_sync ok hdl h hr hk f strict).bind fun _ s' t' hl hrep => ?_
    exact (addLoop_sync ok hdl hr strict fs hl (by rw [hrep]; exact hk)).weaken fun _ _ _ e => e.trans hrep

/-! ## Removing packages -/

theorem Inv.noDeltas (h : Inv W s) (hdl : ∀ d, W.isDelta d = false) {x n : Str} {e : RepoEntry} (hg : (s.db.ents x).get n = some e) : e.deltas = [] := by
  match hd : e.deltas with
  | [] => rfl
  | d :: ds =>
    have := ((h.ent x n e hg).deltas d (by rw [hd]; simp)).1
    rw [hdl] at this; cases this

theorem unrefPackage_sync (ok : W.OK) (hdl : ∀ d, W.isDelta d = false) (h : Like W R s t) (hr : R r) {id : Str} (hh : s.has r id = true) :
    Sync W R (unrefPackage r id) s t
      (fun _ s' _ => s'.db.repos = s.db.repos ∧ ∀ x j, s.has x j = true → ¬ (x = r ∧ j = id) → s'.has x j = true) := by
  have hh' : t.has r id = true := by rw [← h.has hr]; exact hh
  obtain ⟨e, s', tr, hge, hin, hrun, hu, _⟩ := unrefPackage_run ok h.inv hh
  obtain ⟨e', t', tr', hge', hin', hrun', hu', _⟩ := unrefPackage_run ok h.inv' hh'
  have he : e' = e := by rw [← h.ents r hr, hge] at hge'; exact (Option.some.inj hge').symm
  subst he
  have hA := hu.all ok h.inv hge hin
  have hA' := hu'.all ok h.inv' hge' hin'
  have hd := h.inv.noDeltas hdl hge
  refine .done (h.step hdl hA.inv hA'.inv hA.frame hA'.frame (fun x hx => by rw [hA.repos, hA'.repos]; exact h.repo x hx) (fun hx => ⟨?_, ?_, ?_⟩)
    hA.clock hA'.clock) hrun hrun' ⟨hA.repos, fun x j hj hn => (hA.has x j).2 ⟨hj, by simpa using hn⟩⟩
  · rw [hu.ents, hu'.ents]
    unfold setEnts World.droppedEntry
    simp only [if_pos, h.ents r hr, hd, List.filter_nil]
  · rw [hA.idx, hA'.idx]; exact h.idx r hr
  · intro a; rw [hA.asset, hA'.asset]; exact h.asset r a hr

theorem unrefLoop_sync (ok : W.OK) (hdl : ∀ d, W.isDelta d = false) (hr : R r) : ∀ (ids : List Str) {s t : St}, Like W R s t → ids.Nodup →
    (∀ id ∈ ids, s.has r id = true) →
    Sync W R (forL ids (unrefPackage r)) s t (fun _ s' _ => s'.db.repos = s.db.repos)
  | [], _, _, h, _, _ => .pure h rfl
  | id :: ids, s, t, h, hn, hids => by
    rw [forL_cons]
    refine (unrefPackage_sync ok hdl h hr (hids id (by simp))).bind fun _ s' t' hl ⟨hrep, hmono⟩ => ?_
    refine (unrefLoop_sync ok hdl hr ids hl (List.nodup_cons.1 hn).2 fun j hj => ?_).weaken fun _ _ _ e => e.trans hrep
    exact hmono r j (hids j (by simp [hj])) fun e => (List.nodup_cons.1 hn).1 (e.2 ▸ hj)

/-! ## The index -/

theorem Like.distOf (h : Like W R s t) (hr : R r) : W.distOf s r = W.distOf t r := by
  unfold World.distOf; rw [h.asset r _ hr]

theorem Like.compsOk (h : Like W R s t) (hr : R r) : W.compsOk s r = W.compsOk t r := by
  unfold World.compsOk elementsOf; rw [h.asset r _ hr, h.asset r _ hr]

theorem Like.docOf (h : Like W R s t) (hdl : ∀ d, W.isDelta d = false) (hr : R r) (d : Option (List Str)) : W.docOf s r d = W.docOf t r d := by
  have he : W.docPkg s r = W.docPkg t r := by
    funext id
    unfold World.docPkg
    rw [← h.ents r hr]
    cases hg : (s.db.ents r).get (W.mOf id).name with
    | none => rfl
    | some e =>
      have := h.inv.noDeltas hdl hg
      simp only [World.docDeltas, this, List.filterMap_nil]
  unfold World.docOf World.docIds elementsOf
  rw [he, h.asset r _ hr, h.asset r _ hr, h.ents r hr]

/-- The state after an index run, exactly. (No code: a notion of the statements and proofs.) -/
def World.indexed (W : World) (s : St) (r : Str) (d : Option (List Str)) : St :=
  St.setFs { s with clock := s.clock + 1 } { s.fs with idx := fun r' => if r' = r then some (W.docOf s r d) else s.fs.idx r' }

theorem indexRepo_exact (ok : W.OK) (h : Inv W s) : ∃ tr, indexRepo W.E r s =
    match W.distOf s r with
    | none => ⟨.err .badAsset, s, tr⟩
    | some d => if W.compsOk s r = true then
        (match W.E.indexIO s.clock with
          | .failBefore => ⟨.err .indexIO, { s with clock := s.clock + 1 }, tr⟩
          | .ok => ⟨.ok (), W.indexed s r d, tr⟩
          | .failAfter => ⟨.err .indexIO, W.indexed s r d, tr⟩)
      else ⟨.err .badAsset, s, tr⟩ := by
  unfold indexRepo
  have hin := initDistribution_run (W := W) s r
  cases hd : W.distOf s r with
  | none => rw [hd] at hin; rw [bind_err hin]; exact ⟨[], rfl⟩
  | some d =>
    rw [hd] at hin
    rw [bind_ok hin, Out.pre_nil]
    have hem := emitIndex_run (r := r) ok h d
    by_cases hc : W.compsOk s r = true
    · rw [if_pos hc] at hem
      rw [bind_ok hem, Out.pre_nil, getSt_bind, volM_bind]
      simp only [if_pos hc]
      cases hio : W.E.indexIO s.clock with
      | failBefore => exact ⟨[], by simp only [throwE_run]⟩
      | ok => exact ⟨_, by simp only [stepM_run]; rfl⟩
      | failAfter => exact ⟨_, by simp only [stepM_bind, throwE_run, Out.pre_mk]; rfl⟩
    · rw [if_neg hc] at hem
      rw [bind_err hem]
      exact ⟨[], by simp only [if_neg hc]⟩

theorem indexed_only (W : World) (s : St) (r : Str) (d : Option (List Str)) : IdxOnly s (W.indexed s r d) r :=
  ⟨rfl, rfl, rfl, rfl, rfl, rfl, rfl, fun r' hr' => by simp [World.indexed, hr']⟩

theorem Like.tick (h : Like W R s t) : Like W R { s with clock := s.clock + 1 } { t with clock := t.clock + 1 } where
  inv := IdxOnly.inv (s := s) (r := []) ⟨rfl, rfl, rfl, rfl, rfl, rfl, rfl, fun _ _ => rfl⟩ h.inv
  inv' := IdxOnly.inv (s := t) (r := []) ⟨rfl, rfl, rfl, rfl, rfl, rfl, rfl, fun _ _ => rfl⟩ h.inv'
  repo := h.repo
  ents := h.ents
  idx := h.idx
  asset := h.asset
  ext := h.ext
  io n := by
    have := h.io (n + 1)
    show W.E.indexIO (s.clock + 1 + n) = W.E.indexIO (t.clock + 1 + n)
    rw [show s.clock + 1 + n = s.clock + (n + 1) by omega, show t.clock + 1 + n = t.clock + (n + 1) by omega]
    exact this

theorem Like.indexed (h : Like W R s t) (hdl : ∀ d, W.isDelta d = false) (hr : R r) (d : Option (List Str)) :
    Like W R (W.indexed s r d) (W.indexed t r d) where
  inv := (indexed_only W s r d).inv h.inv
  inv' := (indexed_only W t r d).inv h.inv'
  repo := h.repo
  ents := h.ents
  idx x hx := by
    show (if x = r then some (W.docOf s r d) else s.fs.idx x) = (if x = r then some (W.docOf t r d) else t.fs.idx x)
    rw [h.docOf hdl hr, h.idx x hx]
  asset r a hr := h.asset r a hr
  ext f := h.ext f
  io n := h.tick.io n

theorem indexRepo_sync (ok : W.OK) (hdl : ∀ d, W.isDelta d = false) (h : Like W R s t) (hr : R r) :
    Sync W R (indexRepo W.E r) s t (fun _ _ _ => True) := by
  obtain ⟨tr, h1⟩ := indexRepo_exact (r := r) ok h.inv
  obtain ⟨tr', h2⟩ := indexRepo_exact (r := r) ok h.inv'
  rw [← h.distOf hr, ← h.compsOk hr] at h2
  have hio := h.io 0
  simp only [Nat.add_zero] at hio
  cases hd : W.distOf s r with
  | none => rw [hd] at h1 h2; exact .fail h h1 h2
  | some d =>
    rw [hd] at h1 h2
    simp only at h1 h2
    by_cases hc : W.compsOk s r = true
    · rw [if_pos hc] at h1 h2
      rw [← hio] at h2
      cases hi : W.E.indexIO s.clock with
      | failBefore => rw [hi] at h1 h2; exact .fail h.tick h1 h2
      | ok => rw [hi] at h1 h2; exact .done (h.indexed hdl hr d) h1 h2 trivial
      | failAfter => rw [hi] at h1 h2; exact .fail (h.indexed hdl hr d) h1 h2
    · rw [if_neg hc] at h1 h2; exact .fail h h1 h2

theorem mIndex_sync (ok : W.OK) (hdl : ∀ d, W.isDelta d = false) (h : Like W R s t) (hr : R r) :
    Sync W R (mIndex W.E r) s t (fun _ _ _ => True) :=
  (getRepo_sync h hr).bind fun _ _ _ hl _ => indexRepo_sync ok hdl hl hr

/-! ## The jobs -/

theorem Sync.swap {α : Type} {m m' : M α} {P : α → St → St → Prop} (e1 : m s = m' s) (e2 : m t = m' t) (hs : Sync W R m' s t P) :
    Sync W R m s t P :=
  ⟨by rw [e1, e2]; exact hs.like, by rw [e1, e2]; exact hs.res⟩

theorem Sync.reads {α β : Type} {m : M α} {a : α} {f : α → M β} {P : β → St → St → Prop} (hs : m s = ⟨.ok a, s, []⟩) (ht : m t = ⟨.ok a, t, []⟩)
    (h : Sync W R (f a) s t P) : Sync W R (m >>= f) s t P :=
  .swap (by rw [bind_ok hs, Out.pre_nil]) (by rw [bind_ok ht, Out.pre_nil]) h

theorem mAddPackages_sync (ok : W.OK) (hdl : ∀ d, W.isDelta d = false) (h : Like W R s t) (hr : R r) (fs : List Str) (strict : Bool) :
    Sync W R (mAddPackages W.E r fs strict) s t (fun _ _ _ => True) :=
  (getRepo_sync h hr).bind fun _ _ _ hl ⟨_, _, hk, _⟩ => (addLoop_sync ok hdl hr strict fs hl hk).bind fun _ _ _ hl _ => mIndex_sync ok hdl hl hr

theorem removal_sync (ok : W.OK) (hdl : ∀ d, W.isDelta d = false) (h : Like W R s t) (hr : R r) {ids : List Str} (hn : ids.Nodup)
    (hh : ∀ id ∈ ids, s.has r id = true) : Sync W R (forL ids (unrefPackage r)) s t (fun _ _ _ => True) :=
  (unrefLoop_sync ok hdl hr ids h hn hh).weaken fun _ _ _ _ => trivial

theorem mRemoveSource_sync (ok : W.OK) (hdl : ∀ d, W.isDelta d = false) (h : Like W R s t) (hr : R r) (n : Str) (k : Int) :
    Sync W R (mRemoveSource W.E r n k) s t (fun _ _ _ => True) := by
  refine (getRepo_sync h hr).bind fun _ s t h _ => ?_
  refine Sync.bind (P := fun _ _ _ => True) ?_ fun _ _ _ hl _ => mIndex_sync ok hdl hl hr
  refine Sync.reads (matchingSource_run ok h.inv n k) (by rw [h.ids hr]; exact matchingSource_run ok h.inv' n k) ?_
  split
  · exact .throw h
  · exact removal_sync ok hdl h hr ((nodup_flat h.inv r _ fun n e he => ⟨fun _ hj => hj, (h.inv.ent r n e he).nodup⟩).filter _)
      fun id hid => (h.inv.mem_ids r id).1 (List.mem_filter.1 hid).1

theorem mTrimPackages_sync (ok : W.OK) (hdl : ∀ d, W.isDelta d = false) (h : Like W R s t) (hr : R r) (k : Int) :
    Sync W R (mTrimPackages W.E r k) s t (fun _ _ _ => True) := by
  refine (getRepo_sync h hr).bind fun _ s t h _ => ?_
  refine Sync.bind (P := fun _ _ _ => True) ?_ fun _ _ _ hl _ => mIndex_sync ok hdl hl hr
  unfold trimPackages
  by_cases hk : k < 1
  · rw [if_pos hk]; exact .throw h
  · rw [if_neg hk]
    have scan : ∀ {u : St}, Inv W u → (repoEntries r >>= fun es => collectL es (trimScan W.E k.toNat)) u = ⟨.ok (W.trimAll u r k.toNat), u, []⟩ := by
      intro u hu
      rw [repoEntries_bind]
      exact collectL_pure (g := W.trimIds k.toNat) fun e he => trimScan_run ok hu _ (mem_entries hu r he)
    have he : W.trimAll t r k.toNat = W.trimAll s r k.toNat := by unfold World.trimAll; rw [h.ents r hr]
    refine .swap (bind_assoc_run _ _ _ _).symm (bind_assoc_run _ _ _ _).symm ?_
    refine Sync.reads (scan h.inv) (by rw [← he]; exact scan h.inv') ?_
    refine removal_sync ok hdl h hr (nodup_flat h.inv r _ (fun n e he => trimIds_sub ok h.inv _ he)) ?_
    intro id hid
    obtain ⟨n, e, hg, hj⟩ := (mem_flat h.inv r _ id).1 hid
    exact (St.has_iff (h.inv.wfEnts r) id).2 ⟨n, e, hg, (trimIds_sub ok h.inv _ hg).1 id hj⟩

theorem mTrimObsolete_sync (ok : W.OK) (hdl : ∀ d, W.isDelta d = false) (h : Like W R s t) (hr : R r) :
    Sync W R (mTrimObsolete W.E r) s t (fun _ _ _ => True) := by
  refine (getRepo_sync h hr).bind fun _ s t h _ => ?_
  refine Sync.bind (P := fun _ _ _ => True) ?_ fun _ _ _ hl _ => mIndex_sync ok hdl hl hr
  unfold trimObsolete
  have h1 := initDistribution_run (W := W) s r
  have h2 := initDistribution_run (W := W) t r
  rw [← h.distOf hr] at h2
  cases hd : W.distOf s r with
  | none => rw [hd] at h1 h2; exact .fail h (bind_err h1) (bind_err h2)
  | some d =>
    rw [hd] at h1 h2
    refine Sync.reads h1 h2 ?_
    cases d with
    | none => exact .throw h
    | some obs =>
      simp only
      have scan : ∀ {u : St}, Inv W u → (repoEntries r >>= fun es => collectL es fun e => trimObsoleteScan obs e.name e.available) u =
          ⟨.ok (W.obsAll u r obs), u, []⟩ := by
        intro u hu
        rw [repoEntries_bind]
        exact collectL_pure (g := fun e => W.obsIds obs e.name e.available) fun e he =>
          trimObsoleteScan_run hu obs e.name e.available fun id hid => ((hu.ent r _ e (mem_entries hu r he)).avail id hid).2.1
      have he : W.obsAll t r obs = W.obsAll s r obs := by unfold World.obsAll; rw [h.ents r hr]
      refine .swap (bind_assoc_run _ _ _ _).symm (bind_assoc_run _ _ _ _).symm ?_
      refine Sync.reads (scan h.inv) (by rw [← he]; exact scan h.inv') ?_
      refine removal_sync ok hdl h hr (nodup_flat h.inv r _ (fun n e he => ⟨fun j hj => ((obsIds_sub W obs e.name e.available).1 j hj).1,
        (obsIds_sub W obs e.name e.available).2⟩)) ?_
      intro id hid
      obtain ⟨n, e, hg, hj⟩ := (mem_flat h.inv r _ id).1 hid
      exact (St.has_iff (h.inv.wfEnts r) id).2 ⟨n, e, hg, ((obsIds_sub W obs e.name e.available).1 id hj).1⟩

theorem mCopySource_sync (ok : W.OK) (hdl : ∀ d, W.isDelta d = false) (h : Like W R s t) {src dst : Str} (hs : R src) (hd : R dst) (n : Str) (k : Int)
    (sk : Bool) : Sync W R (mCopySource W.E src dst n k sk) s t (fun _ _ _ => True) := by
  refine (getRepo_sync h hs).bind fun _ s t h _ => ?_
  refine (getRepo_sync h hd).bind fun _ s t h ⟨_, _, hk, _⟩ => ?_
  refine Sync.bind (P := fun _ _ _ => True) ?_ fun _ s t hl _ => ?_
  · refine Sync.reads (matchingSource_run ok h.inv n k) (by rw [h.ids hs]; exact matchingSource_run ok h.inv' n k) ?_
    split
    · exact .throw h
    · exact (refLoop_sync ok hdl hd _ h hk fun id hid => ⟨src, hs, (h.inv.mem_ids src id).1 (List.mem_filter.1 hid).1⟩).weaken fun _ _ _ _ => trivial
  · cases sk with
    | true => exact mIndex_sync ok hdl hl hd
    | false => exact .pure hl trivial

theorem pullAssets_sync (hdl : ∀ d, W.isDelta d = false) (h : Like W R s t) {src dst : Str} (hs : R src) :
    Sync W R (pullAssets dst src) s t (fun _ s' t' => s'.db = s.db ∧ t'.db = t.db) := by
  obtain ⟨s1, tr, h1, hA, _, ha⟩ := pullAssets_run (W := W) h.inv.fs dst src
  obtain ⟨t1, tr', h2, hB, _, hb⟩ := pullAssets_run (W := W) h.inv'.fs dst src
  refine .done ?_ h1 h2 ⟨hA.db, hB.db⟩
  refine h.step (dl := False) hdl (hA.inv h.inv) (hB.inv h.inv') hA.frame hB.frame (fun r hr => by rw [hA.db, hB.db]; exact h.repo r hr)
    (fun hx => ⟨by rw [hA.db, hB.db]; exact h.ents dst hx, by rw [hA.idx, hB.idx]; exact h.idx dst hx, fun a => ?_⟩) hA.clock hB.clock
  by_cases e : dst = src
  · subst e
    rw [pullAssets_self h.inv.fs h1, pullAssets_self h.inv'.fs h2, h.asset dst a hx]
  · rw [ha e a, hb e a, h.asset dst a hx, h.asset src a hs]

theorem mPullRepo_sync (ok : W.OK) (hdl : ∀ d, W.isDelta d = false) (h : Like W R s t) {src dst : Str} (hs : R src) (hd : R dst) :
    Sync W R (mPullRepo W.E src dst) s t (fun _ _ _ => True) := by
  refine (getRepo_sync h hs).bind fun _ s t h _ => ?_
  refine (getRepo_sync h hd).bind fun _ s t h ⟨_, _, hk, _⟩ => ?_
  refine Sync.bind (P := fun _ _ _ => True) ?_ fun _ s t hl _ => (mIndex_sync ok hdl hl hd).bind fun _ _ _ hl _ => .pure hl trivial
  unfold pullFrom
  refine (pullAssets_sync hdl h hs).bind fun _ s' t' h' ⟨hdb, _⟩ => ?_
  have scan : ∀ {u : St}, Inv W u → (repoEntries src >>= fun es => collectL es (pullOne dst)) u =
      if (∀ x ∈ (u.db.ents src).map Prod.snd, (W.pullSel u dst x).isSome) then ⟨.ok (W.pullTodo u dst src), u, []⟩ else ⟨.err .inconsistent, u, []⟩ := by
    intro u hu
    rw [repoEntries_bind]
    exact collectL_scan fun e he => by
      rw [pullOne_run (dst := dst) ok hu (mem_entries hu src he)]
      cases W.pullSel u dst e <;> rfl
  have hsel : W.pullSel t' dst = W.pullSel s' dst := by funext e; unfold World.pullSel; rw [h'.ents dst hd]
  have htodo : W.pullTodo t' dst src = W.pullTodo s' dst src := by unfold World.pullTodo; rw [hsel, h'.ents src hs]
  have hs1 := scan h'.inv
  have hs2 := scan h'.inv'
  rw [hsel, htodo, ← h'.ents src hs] at hs2
  refine .swap (bind_assoc_run _ _ _ _).symm (bind_assoc_run _ _ _ _).symm ?_
  by_cases hc : ∀ x ∈ (s'.db.ents src).map Prod.snd, (W.pullSel s' dst x).isSome
  · rw [if_pos hc] at hs1 hs2
    refine Sync.reads hs1 hs2 ?_
    refine (refLoop_sync ok hdl hd _ h' (by rw [hdb]; exact hk) fun id hid => ⟨src, hs, ?_⟩).bind fun _ _ _ hl _ => .pure hl trivial
    obtain ⟨⟨j, n⟩, hm, rfl⟩ := List.mem_map.1 hid
    obtain ⟨e, hge, rfl, _⟩ := (mem_pullTodo h'.inv dst src ((not_conflict_iff h'.inv dst src).1 hc) j n).1 hm
    exact (St.has_iff (h'.inv.wfEnts src) _).2 ⟨n, e, hge, (h'.inv.ent src n e hge).pub⟩
  · rw [if_neg hc] at hs1 hs2
    exact .fail h' (bind_err hs1) (bind_err hs2)

theorem createRepo_sync (h : Like W R s t) (hr : R r) :
    Sync W R (createRepo r) s t (fun _ s' _ => r ∈ s'.db.repos.keys ∧ s'.db.ents = s.db.ents) := by
  by_cases hk : r ∈ s.db.repos.keys
  · have hk' := (h.repo r hr).1 hk
    obtain ⟨tr, h1, _⟩ := createRepo_exists h.inv hk
    obtain ⟨tr', h2, _⟩ := createRepo_exists h.inv' hk'
    exact .fail (h.same (SameObs.got s r) (SameObs.got t r) (h.inv.got hk) (h.inv'.got hk') (by simp) (by simp)) h1 h2
  · have hk' : r ∉ t.db.repos.keys := fun x => hk ((h.repo r hr).2 x)
    cases hres : reservedKey r with
    | true => exact .fail h (createRepo_reserved h.inv hk (h.inv.rdir_false hk) hres) (createRepo_reserved h.inv' hk' (h.inv'.rdir_false hk') hres)
    | false =>
      refine .done ?_ (createRepo_run h.inv hk (h.inv.rdir_false hk) hres) (createRepo_run h.inv' hk' (h.inv'.rdir_false hk') hres)
        ⟨(mem_created s h.inv r r).2 (.inl rfl), rfl⟩
      exact ⟨h.inv.created hk hres, h.inv'.created hk' hres, fun x hx => by rw [mem_created s h.inv, mem_created t h.inv', h.repo x hx],
        h.ents, h.idx, h.asset, h.ext, h.io⟩

theorem mCreateRepo_sync (ok : W.OK) (hdl : ∀ d, W.isDelta d = false) (h : Like W R s t) (hr : R r) :
    Sync W R (mCreateRepo W.E r) s t (fun _ _ _ => True) :=
  (createRepo_sync h hr).bind fun _ _ _ hl _ => mIndex_sync ok hdl hl hr

theorem mCloneRepo_sync (ok : W.OK) (hdl : ∀ d, W.isDelta d = false) (h : Like W R s t) {src new : Str} (hs : R src) (hd : R new) (full : Bool) :
    Sync W R (mCloneRepo W.E src new full) s t (fun _ _ _ => True) := by
  refine (getRepo_sync h hs).bind fun _ s t h _ => ?_
  refine (createRepo_sync h hd).bind fun _ s t h ⟨hk, _⟩ => ?_
  refine Sync.bind (P := fun _ _ _ => True) ?_ fun _ s t hl _ => mIndex_sync ok hdl hl hd
  unfold cloneFrom
  refine (pullAssets_sync hdl h hs).bind fun _ s' t' h' ⟨hdb, _⟩ => ?_
  refine Sync.reads (a := (s'.db.ents src).map Prod.snd) (by rfl) (by rw [h'.ents src hs]; rfl) ?_
  have hnd : (if full then ((s'.db.ents src).map Prod.snd).flatMap RepoEntry.deltas else []) = [] := by
    cases full with
    | false => rfl
    | true =>
      simp only [if_true, List.flatMap_eq_nil_iff]
      intro e he
      exact h'.inv.noDeltas hdl (mem_entries h'.inv src he)
  simp only [hnd]
  refine (refLoop_sync ok hdl hd _ h' (by rw [hdb]; exact hk) fun id hid => ⟨src, hs, ?_⟩).bind fun _ _ _ hl _ => .pure hl trivial
  exact cloneIds_facts h'.inv src full hid

theorem mDeleteRepo_sync (ok : W.OK) (h : Like W R s t) (hr : R r) : Sync W R (mDeleteRepo r) s t (fun _ _ _ => True) := by
  by_cases hk : r ∈ s.db.repos.keys
  · have hk' := (h.repo r hr).1 hk
    obtain ⟨s1, tr, h1, hA, _⟩ := deleteRepo_run ok (h.inv.delReady hk)
    obtain ⟨t1, tr', h2, hB, _⟩ := deleteRepo_run ok (h.inv'.delReady hk')
    refine .done ⟨?_, ?_, ?_, ?_, ?_, ?_, ?_, ?_⟩ h1 h2 trivial
    · have := (Op.sound ok h.inv (.delete r) trivial).inv
      rwa [show (Op.run W.E (.delete r) s) = deleteRepo r s from rfl, h1] at this
    · have := (Op.sound ok h.inv' (.delete r) trivial).inv
      rwa [show (Op.run W.E (.delete r) t) = deleteRepo r t from rfl, h2] at this
    · intro x hx
      rw [hA.toDeleted.keys h.inv, hB.toDeleted.keys h.inv', h.repo x hx]
    · intro x hx
      by_cases e : x = r
      · subst e; rw [hA.entsSelf, hB.entsSelf]
      · rw [hA.entsOther x e, hB.entsOther x e, h.ents x hx]
    · intro x hx; rw [hA.idx, hB.idx, h.idx x hx]
    · intro x a hx
      by_cases e : x = r
      · subst e
        unfold FS.read; rw [hA.tab, hB.tab]; simp [Path.inRepo]
      · have ha : s1.fs.read (.asset x a) = s.fs.read (.asset x a) := by unfold FS.read; rw [hA.tab, hA.data]; simp [rmPath, Path.inRepo, e]
        have hb : t1.fs.read (.asset x a) = t.fs.read (.asset x a) := by unfold FS.read; rw [hB.tab, hB.data]; simp [rmPath, Path.inRepo, e]
        rw [ha, hb, h.asset x a hx]
    · intro f
      have ha : s1.fs.read (.ext f) = s.fs.read (.ext f) := by unfold FS.read; rw [hA.tab, hA.data]; simp [rmPath, Path.inRepo]
      have hb : t1.fs.read (.ext f) = t.fs.read (.ext f) := by unfold FS.read; rw [hB.tab, hB.data]; simp [rmPath, Path.inRepo]
      rw [ha, hb, h.ext f]
    · intro n; rw [hA.clock, hB.clock]; exact h.io n
  · have hk' : r ∉ t.db.repos.keys := fun x => hk ((h.repo r hr).2 x)
    exact .fail h (deleteRepo_missing h.inv hk) (deleteRepo_missing h.inv' hk')

/-! ## Every operation -/

/-- The repository a job copies from (core/api.go:42, 66, 110: CloneRepo, PullRepo, CopySource). -/
def Op.source : Op → Option Str
  | .clone a _ _ => some a
  | .pull a _ => some a
  | .copySource a _ _ _ _ => some a
  | _ => none

/-- Everything but delta operations, for which the daemon has no handler (jobs/main.go:137-166). -/
def Op.plain : Op → Bool
  | .addDelta _ _ _ _ => false
  | .refDelta _ _ => false
  | .markFailed _ _ => false
  | .stage _ _ _ => false
  | .unstage _ _ => false
  | _ => true

theorem Like.refl (h : Inv W s) : Like W R s s :=
  ⟨h, h, fun _ _ => Iff.rfl, fun _ _ => rfl, fun _ _ => rfl, fun _ _ _ => rfl, fun _ => rfl, fun _ => rfl⟩

theorem Op.sync (ok : W.OK) (hdl : ∀ d, W.isDelta d = false) (h : Like W R s t) {o : Op} (ho : o.Ok W) (hp : o.plain = true)
    (ht : ∀ x, o.target = some x → R x) (hs : ∀ x, o.source = some x → R x) : Sync W R (o.run W.E) s t (fun _ _ _ => True) := by
  have i1 := (Op.sound ok h.inv o ho).inv
  have i2 := (Op.sound ok h.inv' o ho).inv
  cases o with
  | create r => exact mCreateRepo_sync ok hdl h (ht r rfl)
  | delete r => exact mDeleteRepo_sync ok h (ht r rfl)
  | clone a b f => exact mCloneRepo_sync ok hdl h (hs a rfl) (ht b rfl) f
  | pull a b => exact (mPullRepo_sync ok hdl h (hs a rfl) (ht b rfl)).bind fun _ _ _ hl _ => .pure hl trivial
  | removeSource r n k => exact mRemoveSource_sync ok hdl h (ht r rfl) n k
  | copySource a b n k sk => exact mCopySource_sync ok hdl h (hs a rfl) (ht b rfl) n k sk
  | trimObsolete r => exact mTrimObsolete_sync ok hdl h (ht r rfl)
  | trimPackages r k => exact mTrimPackages_sync ok hdl h (ht r rfl) k
  | addPackages r fs st => exact mAddPackages_sync ok hdl h (ht r rfl) fs st
  | index r => exact mIndex_sync ok hdl h (ht r rfl)
  | addDelta r d f t => cases hp
  | refDelta r d => cases hp
  | markFailed i d => cases hp
  | stage r d c => cases hp
  | unstage r d => cases hp
  | upload f c =>
    refine .done (a := ()) (s' := s.putFile (.ext f) c) (t' := t.putFile (.ext f) c) ?_ rfl rfl trivial
    refine ⟨i1, i2, h.repo, h.ents, h.idx, fun r a hr => ?_, fun g => ?_, h.io⟩
    · rw [putFile_read h.inv (by simp), putFile_read h.inv' (by simp)]; exact h.asset r a hr
    · by_cases e : g = f
      · subst e; simp [St.putFile, FS.read]
      · rw [putFile_read h.inv (by simpa using e), putFile_read h.inv' (by simpa using e)]; exact h.ext g
  | unlink f =>
    refine .done (a := ()) (s' := s.setFs (s.fs.setTab (.ext f) none)) (t' := t.setFs (t.fs.setTab (.ext f) none)) ?_ rfl rfl trivial
    refine ⟨i1, i2, h.repo, h.ents, h.idx, fun r a hr => ?_, fun g => ?_, h.io⟩
    · have := h.asset r a hr
      simpa [FS.read] using this
    · have := h.ext g
      by_cases e : g = f
      · simp [FS.read, e]
      · simpa [FS.read, e] using this
  | putAsset r a c =>
    refine .done (a := ()) (s' := s.putFile (.asset r a) c) (t' := t.putFile (.asset r a) c) ?_ rfl rfl trivial
    refine ⟨i1, i2, h.repo, h.ents, h.idx, fun x b hx => ?_, fun g => ?_, h.io⟩
    · by_cases e : (Path.asset x b) = .asset r a
      · rw [e]; simp [St.putFile, FS.read]
      · rw [putFile_read h.inv e, putFile_read h.inv' e]; exact h.asset x b hx
    · rw [putFile_read h.inv (by simp), putFile_read h.inv' (by simp)]; exact h.ext g
  | restart => exact .done (a := ()) (s' := s.crash) (t' := t.crash) ⟨i1, i2, h.repo, h.ents, h.idx, h.asset, h.ext, h.io⟩ rfl rfl trivial

/-- A job changes no upload. -/
theorem Op.keeps_ext {o : Op} {x : Str} (ht : o.target = some x) (E : Env) (s : St) (f : Str) : (o.exec E s).fs.tab (.ext f) = s.fs.tab (.ext f) := by
  have hcl : FsClosed E (fun fs => fs.tab (.ext f) = s.fs.tab (.ext f)) := by
    refine ⟨?_, ?_, ?_, ?_, ?_, ?_⟩
    · intro fs p h hp
      have : Path.ext f ≠ p := by rintro rfl; cases hp
      simpa [this] using h
    · intro fs a b i h _ _ _ hp
      have : Path.ext f ≠ b := by rintro rfl; cases hp
      simpa [this] using h
    · intro fs p h hp _
      have : Path.ext f ≠ p := by rintro rfl; cases hp
      simpa [this] using h
    · intro fs p i c h _ _; exact h
    · intro fs k h hk
      have : k (.ext f) = false := by
        cases e : k (.ext f) with
        | false => rfl
        | true => exact absurd (hk _ e) (by simp [Path.isExt])
      simp only [this]; exact h
    · intro fs a b h; exact h
  refine Always.fin (J := fun fs => fs.tab (.ext f) = s.fs.tab (.ext f)) (m := o.run E) ?_ s rfl
  exact always_job hcl o (by rw [ht]; rfl) fun fs p c h hp => by
    have : Path.ext f ≠ p := by rintro rfl; cases hp
    simpa [this] using h

theorem Inv.ext_read (hu : Inv W s) (hdl : ∀ d, W.isDelta d = false) (f : Str) :
    s.fs.read (.ext f) = if (s.fs.tab (.ext f)).isSome then some (W.canon (baseName f)) else none := by
  have := FS.read_isSome s.fs (.ext f)
  cases hr : s.fs.read (.ext f) with
  | none => rw [hr] at this; rw [← this]; rfl
  | some c =>
    rw [hr] at this
    rw [← this]
    rcases hu.fs.content (.ext f) c rfl hr with h' | ⟨h', _⟩
    · rw [h']; rfl
    · rw [hdl] at h'; cases h'

/-- A job on another repository. -/
theorem Like.skip (ok : W.OK) (hdl : ∀ d, W.isDelta d = false) (hio : ∀ m n, W.E.indexIO m = W.E.indexIO n) (h : Like W R s t) {o : Op} {x : Str}
    (ho : o.Ok W) (ht : o.target = some x) (hx : ¬ R x) : Like W R (o.exec W.E s) t := by
  have hi : Inv W (o.exec W.E s) := (Op.sound ok h.inv o ho).inv
  have hu : ∀ r, R r → Untouched W (o.addsDeltas = true) s (o.exec W.E s) r := fun r hr =>
    Op.untouched ok h.inv o ho r (by rw [ht]; rintro e; cases e; exact hx hr)
  refine ⟨hi, h.inv', fun r hr => (hu r hr).repo.trans (h.repo r hr), fun r hr => (hu r hr).ents.trans (h.ents r hr),
    fun r hr => (hu r hr).idx.trans (h.idx r hr), fun r a hr => ((hu r hr).asset a).trans (h.asset r a hr), fun f => ?_, fun n => hio _ _⟩
  rw [← h.ext f]
  have htab := Op.keeps_ext ht W.E s f
  rw [hi.ext_read hdl, h.inv.ext_read hdl, htab]

end
end Ferryd
