import Verif.SpecIndex
import Verif.CoreFrame
/-!
# CoreRough: what survives every crash and every I/O error

The invariant `Inv` of the other modules holds between jobs.  A job cut short, by the death of the daemon or by an I/O error,
leaves less; what it leaves in any case is `Rough`, which every operation preserves at each of its steps, from any such state.
-/
namespace Ferryd
variable {W : World}

/-! ## The invariant -/

/-- Package files hold a beginning of the bytes their name stands for. -/
structure RFiles (W : World) (fs : FS) : Prop where
  fresh : fs.Fresh
  owner : ∀ p q i, fs.tab p = some i → fs.tab q = some i → p.owner = q.owner
  content : ∀ p c, p.isAsset = false → fs.read p = some c → c <+: W.canon p.base

/-- A repository's record. -/
structure REntry (W : World) (n : Str) (e : RepoEntry) : Prop where
  name : e.name = n
  sorted : SortedS e.available
  nodup : e.available.Nodup
  avail : ∀ id ∈ e.available, W.isDelta id = false ∧ W.IsPkg id ∧ (W.mOf id).name = n
  pub : e.published ∈ e.available
  deltas : ∀ d ∈ e.deltas, W.isDelta d = true ∧ W.IsPkg d ∧ (W.mOf d).name = n

/-- A pool record. -/
structure RPool (W : World) (id : Str) (pe : PoolEntry) : Prop where
  name : pe.name = id
  isPkg : W.IsPkg id
  pkg : pe.pkg = W.stamped id
  delta : pe.delta.isSome = W.isDelta id
  pos : 0 < pe.refCount
  dinfo : ∀ di, pe.delta = some di → W.DInfoOk id di

/-- What an index says of one delta. -/
def RDelta (W : World) (id : Str) (x : DocDelta) : Prop :=
  ∃ d, W.isDelta d = true ∧ (W.mOf d).name = (W.mOf id).name ∧ x.uri = (W.stamped d).uri ∧
    x.size = (W.canon d).length ∧ x.hash = W.E.sha1 (W.canon d)

/-- An index document. -/
structure RDoc (W : World) (doc : Doc) : Prop where
  sorted : SortedS (doc.packages.map DocPkg.id)
  nodup : (doc.packages.map DocPkg.id).Nodup
  pkgs : ∀ p ∈ doc.packages, W.isDelta p.id = false ∧ W.IsPkg p.id ∧ p.pkg = W.stamped p.id
  deltas : ∀ p ∈ doc.packages, ∀ x ∈ p.deltas, RDelta W p.id x

/-- A write to the database. -/
def RWrite (W : World) : DbWrite → Prop
  | .putPool k e => RPool W k e
  | .putEnt _ k e => REntry W k e
  | .putRepo k => reservedKey k = false
  | _ => True

structure RDb (W : World) (d : DB) : Prop where
  wfPool : d.pool.WF
  wfRepos : d.repos.WF
  wfEnts : ∀ r, (d.ents r).WF
  pool : ∀ id pe, d.pool.get id = some pe → RPool W id pe
  ent : ∀ r n e, (d.ents r).get n = some e → REntry W n e
  resv : ∀ r u, d.repos.get r = some u → reservedKey r = false

structure Rough (W : World) (s : St) : Prop where
  db : RDb W s.db
  fs : RFiles W s.fs
  idx : ∀ r doc, s.fs.idx r = some doc → RDoc W doc
  pend : ∀ w ∈ s.pend, RWrite W w

theorem RWrite.apply {d : DB} (h : RDb W d) {w : DbWrite} (hw : RWrite W w) : RDb W (w.apply d) := by
  cases w with
  | putPool k e =>
    exact ⟨h.wfPool.put k e, h.wfRepos, h.wfEnts, fun id pe hg => by
      simp only [DbWrite.apply, KV.get_put] at hg
      split at hg
      · rename_i e'; subst e'; cases hg; exact hw
      · exact h.pool id pe hg, h.ent, h.resv⟩
  | delPool k =>
    exact ⟨h.wfPool.del k, h.wfRepos, h.wfEnts, fun id pe hg => by
      simp only [DbWrite.apply, KV.get_del] at hg
      split at hg
      · cases hg
      · exact h.pool id pe hg, h.ent, h.resv⟩
  | putSkip k d => exact ⟨h.wfPool, h.wfRepos, h.wfEnts, h.pool, h.ent, h.resv⟩
  | putRepo k =>
    exact ⟨h.wfPool, h.wfRepos.put k (), h.wfEnts, h.pool, h.ent, fun r u hg => by
      simp only [DbWrite.apply, KV.get_put] at hg
      split at hg
      · rename_i e; subst e; exact hw
      · exact h.resv r u hg⟩
  | delRepo k =>
    exact ⟨h.wfPool, h.wfRepos.del k, h.wfEnts, h.pool, h.ent, fun r u hg => by
      simp only [DbWrite.apply, KV.get_del] at hg
      split at hg
      · cases hg
      · exact h.resv r u hg⟩
  | putEnt r k e =>
    refine ⟨h.wfPool, h.wfRepos, fun x => ?_, h.pool, fun x n e' hg => ?_, h.resv⟩
    · simp only [DbWrite.apply, setEnts]; split
      · exact (h.wfEnts r).put k e
      · exact h.wfEnts x
    · simp only [DbWrite.apply, setEnts] at hg; split at hg
      · rw [KV.get_put] at hg
        split at hg
        · rename_i e2; subst e2; cases hg; exact hw
        · exact h.ent r n e' hg
      · exact h.ent x n e' hg
  | delEnt r k =>
    refine ⟨h.wfPool, h.wfRepos, fun x => ?_, h.pool, fun x n e' hg => ?_, h.resv⟩
    · simp only [DbWrite.apply, setEnts]; split
      · exact (h.wfEnts r).del k
      · exact h.wfEnts x
    · simp only [DbWrite.apply, setEnts] at hg; split at hg
      · rw [KV.get_del] at hg
        split at hg
        · cases hg
        · exact h.ent r n e' hg
      · exact h.ent x n e' hg

theorem RDb.applyAll {ws : List DbWrite} : ∀ {d : DB}, RDb W d → (∀ w ∈ ws, RWrite W w) → RDb W (ws.foldl DbWrite.apply d) := by
  induction ws with
  | nil => intro d h _; exact h
  | cons w ws ih =>
    intro d h hw
    exact ih (RWrite.apply h (hw w (by simp))) (fun x hx => hw x (by simp [hx]))

theorem Rough.entry (h : Rough W s) {r : Str} {e : RepoEntry} (he : e ∈ (s.db.ents r).map Prod.snd) :
    (s.db.ents r).get e.name = some e ∧ REntry W e.name e := by
  obtain ⟨⟨n, e'⟩, hm, rfl⟩ := List.mem_map.1 he
  have hg := KV.get_of_mem (h.db.wfEnts r) hm
  have := h.db.ent r n e' hg
  simp only
  rw [this.name]; exact ⟨hg, this⟩

theorem rough_init (W : World) : Rough W St.init where
  db := ⟨KV.WF_nil, KV.WF_nil, fun _ => KV.WF_nil, fun _ _ h => by simp [St.init] at h, fun _ _ _ h => by simp [St.init] at h, fun _ _ h => by simp [St.init] at h⟩
  fs := ⟨fun p i h => by simp [St.init] at h, fun p q i h => by simp [St.init] at h, fun p c _ h => by simp [St.init, FS.read] at h⟩
  idx _ _ h := by simp [St.init] at h
  pend _ h := by simp [St.init] at h

theorem Rough.crash (h : Rough W s) : Rough W s.crash := ⟨h.db, h.fs, h.idx, fun _ h => by simp [St.crash] at h⟩

/-! ## What a job may touch -/

/-- The write does not concern repository `r`. -/
def DbWrite.Avoids (r : Str) : DbWrite → Prop
  | .putRepo k => k ≠ r
  | .delRepo k => k ≠ r
  | .putEnt r' _ _ => r' ≠ r
  | .delEnt r' _ => r' ≠ r
  | _ => True

structure SameFs (r : Str) (f g : FS) : Prop where
  idx : g.idx r = f.idx r
  file : ∀ d id, g.tab (.repo r d id) = f.tab (.repo r d id)
  stage : ∀ id, g.tab (.stage r id) = f.tab (.stage r id)
  assetTab : ∀ a, g.tab (.asset r a) = f.tab (.asset r a)
  asset : ∀ a, g.read (.asset r a) = f.read (.asset r a)

structure SameDb (r : Str) (d e : DB) : Prop where
  repo : e.repos.get r = d.repos.get r
  ents : e.ents r = d.ents r

/-- Repository `r` has the same records, index, assets and files (the bytes in the files aside). -/
structure Same (r : Str) (s t : St) : Prop where
  db : SameDb r s.db t.db
  fs : SameFs r s.fs t.fs
  pend : (∀ w ∈ s.pend, w.Avoids r) → ∀ w ∈ t.pend, w.Avoids r

theorem SameFs.refl (r : Str) (f : FS) : SameFs r f f := ⟨rfl, fun _ _ => rfl, fun _ => rfl, fun _ => rfl, fun _ => rfl⟩
theorem SameFs.trans {r : Str} {f g h : FS} (a : SameFs r f g) (b : SameFs r g h) : SameFs r f h :=
  ⟨b.idx.trans a.idx, fun d id => (b.file d id).trans (a.file d id), fun id => (b.stage id).trans (a.stage id),
    fun x => (b.assetTab x).trans (a.assetTab x), fun x => (b.asset x).trans (a.asset x)⟩
theorem Same.refl (r : Str) (s : St) : Same r s s := ⟨⟨rfl, rfl⟩, SameFs.refl r _, fun h => h⟩
theorem Same.trans {r : Str} {s t u : St} (a : Same r s t) (b : Same r t u) : Same r s u :=
  ⟨⟨b.db.repo.trans a.db.repo, b.db.ents.trans a.db.ents⟩, a.fs.trans b.fs, fun h => b.pend (a.pend h)⟩

theorem DbWrite.Avoids.apply {r : Str} {w : DbWrite} (h : w.Avoids r) (d : DB) : SameDb r d (w.apply d) := by
  cases w with
  | putPool k e => exact ⟨rfl, rfl⟩
  | delPool k => exact ⟨rfl, rfl⟩
  | putSkip k x => exact ⟨rfl, rfl⟩
  | putRepo k => exact ⟨KV.get_put_ne _ _ (Ne.symm h), rfl⟩
  | delRepo k => exact ⟨KV.get_del_ne _ (Ne.symm h), rfl⟩
  | putEnt r' k e => exact ⟨rfl, by simp only [DbWrite.apply, setEnts]; rw [if_neg (Ne.symm h)]⟩
  | delEnt r' k => exact ⟨rfl, by simp only [DbWrite.apply, setEnts]; rw [if_neg (Ne.symm h)]⟩

theorem Avoids.applyAll {r : Str} {ws : List DbWrite} : ∀ (d : DB), (∀ w ∈ ws, w.Avoids r) → SameDb r d (ws.foldl DbWrite.apply d) := by
  induction ws with
  | nil => intro d _; exact ⟨rfl, rfl⟩
  | cons w ws ih =>
    intro d h
    have a := (h w (by simp)).apply d
    have b := ih (w.apply d) (fun x hx => h x (by simp [hx]))
    exact ⟨b.repo.trans a.repo, b.ents.trans a.ents⟩

/-! ## A logic for the programs -/

/-- From state `s` the program does not panic, keeps the invariant at each of its steps, touches no repository but `tgt`, and
its value satisfies `Q`. -/
structure At (W : World) (tgt : Option Str) {α : Type} (m : M α) (s : St) (Q : α → Prop) : Prop where
  np : (m s).res ≠ .panic
  fin : Rough W (m s).st
  fsame : ∀ r, tgt ≠ some r → Same r s (m s).st
  tr : ∀ t ∈ (m s).tr, Rough W t
  tsame : ∀ t ∈ (m s).tr, ∀ r, tgt ≠ some r → Same r s t
  val : ∀ a, (m s).res = .ok a → Q a

/-- The same from every rough state. -/
def Keeps (W : World) (tgt : Option Str) {α : Type} (m : M α) (Q : α → Prop) : Prop := ∀ s, Rough W s → At W tgt m s Q

variable {tgt : Option Str} {α β : Type}

theorem At.bind {m : M α} {f : α → M β} {s : St} {Q : α → Prop} {R : β → Prop} (h : At W tgt m s Q)
    (hf : ∀ a, Q a → (m s).res = .ok a → At W tgt (f a) (m s).st R) : At W tgt (m >>= f) s R := by
  rcases hm : (m s).res with a | e | _
  · have k := hf a (h.val a hm) hm
    have e : (m >>= f) s = ⟨(f a (m s).st).res, (f a (m s).st).st, (m s).tr ++ (f a (m s).st).tr⟩ := by
      show M.bind' m f s = _
      unfold M.bind'; rw [hm]
    refine ⟨?_, ?_, ?_, ?_, ?_, ?_⟩ <;> rw [e]
    · exact k.np
    · exact k.fin
    · intro r hr; exact (h.fsame r hr).trans (k.fsame r hr)
    · intro t ht
      rcases List.mem_append.1 ht with ht | ht
      · exact h.tr t ht
      · exact k.tr t ht
    · intro t ht r hr
      rcases List.mem_append.1 ht with ht | ht
      · exact h.tsame t ht r hr
      · exact (h.fsame r hr).trans (k.tsame t ht r hr)
    · exact k.val
  · have e : (m >>= f) s = ⟨.err e, (m s).st, (m s).tr⟩ := by
      show M.bind' m f s = _
      unfold M.bind'; rw [hm]
    refine ⟨?_, ?_, ?_, ?_, ?_, ?_⟩ <;> rw [e]
    · intro h; cases h
    · exact h.fin
    · exact h.fsame
    · exact h.tr
    · exact h.tsame
    · intro a ha; cases ha
  · exact absurd hm h.np

theorem Keeps.bind {m : M α} {f : α → M β} {Q : α → Prop} {R : β → Prop} (h : Keeps W tgt m Q)
    (hf : ∀ a, Q a → Keeps W tgt (f a) R) : Keeps W tgt (m >>= f) R :=
  fun s hs => (h s hs).bind fun a ha _ => hf a ha _ (h s hs).fin

theorem Keeps.mono {m : M α} {Q R : α → Prop} (h : Keeps W tgt m Q) (hq : ∀ a, Q a → R a) : Keeps W tgt m R :=
  fun s hs => let k := h s hs; ⟨k.np, k.fin, k.fsame, k.tr, k.tsame, fun a ha => hq a (k.val a ha)⟩

theorem At.pure {s : St} (hs : Rough W s) {a : α} {Q : α → Prop} (h : Q a) : At W tgt (pure a : M α) s Q := by
  refine ⟨?_, hs, fun r _ => Same.refl r s, ?_, ?_, ?_⟩
  · simp
  · intro t ht; simp at ht
  · intro t ht; simp at ht
  · intro b hb; simp at hb; subst hb; exact h

theorem Keeps.pure {a : α} {Q : α → Prop} (h : Q a) : Keeps W tgt (pure a : M α) Q := fun _ hs => At.pure hs h

theorem Keeps.throw {e : Err} {Q : α → Prop} : Keeps W tgt (throwE e : M α) Q := by
  intro s hs
  refine ⟨?_, hs, fun r _ => Same.refl r s, ?_, ?_, ?_⟩
  · simp
  · intro t ht; simp at ht
  · intro t ht; simp at ht
  · intro b hb; simp at hb

theorem Keeps.getSt : Keeps W tgt getSt (Rough W) := by
  intro s hs
  refine ⟨?_, hs, fun r _ => Same.refl r s, ?_, ?_, ?_⟩
  · simp
  · intro t ht; simp at ht
  · intro t ht; simp at ht
  · intro b hb; simp at hb; subst hb; exact hs

theorem At.step {g : St → St} {s : St} (hr : Rough W (g s)) (hs : ∀ r, tgt ≠ some r → Same r s (g s)) :
    At W tgt (stepM g) s (fun _ => True) := by
  refine ⟨?_, hr, hs, ?_, ?_, fun _ _ => trivial⟩
  · simp
  · intro t ht; simp at ht; subst ht; exact hr
  · intro t ht; simp at ht; subst ht; exact hs

theorem At.vol {g : St → St} {s : St} (hr : Rough W (g s)) (hs : ∀ r, tgt ≠ some r → Same r s (g s)) :
    At W tgt (volM g) s (fun _ => True) := by
  refine ⟨?_, hr, hs, ?_, ?_, fun _ _ => trivial⟩
  · simp
  · intro t ht; simp at ht
  · intro t ht; simp at ht

theorem Keeps.forL {γ : Type} {l : List γ} {f : γ → M Unit} (h : ∀ x ∈ l, Keeps W tgt (f x) (fun _ => True)) :
    Keeps W tgt (forL l f) (fun _ => True) := by
  induction l with
  | nil => exact Keeps.pure trivial
  | cons x xs ih =>
    exact (h x (by simp)).bind fun _ _ => ih fun y hy => h y (by simp [hy])

theorem Keeps.collectL {γ δ : Type} {l : List γ} {f : γ → M (List δ)} {Q : δ → Prop}
    (h : ∀ x ∈ l, Keeps W tgt (f x) (fun o => ∀ y ∈ o, Q y)) : Keeps W tgt (collectL l f) (fun o => ∀ y ∈ o, Q y) := by
  induction l with
  | nil => exact Keeps.pure (by simp)
  | cons x xs ih =>
    refine (h x (by simp)).bind fun a ha => ?_
    refine (ih fun y hy => h y (by simp [hy])).bind fun b hb => Keeps.pure ?_
    intro y hy
    rcases List.mem_append.1 hy with hy | hy
    · exact ha y hy
    · exact hb y hy

theorem Keeps.foldL {γ δ : Type} {l : List γ} {f : δ → γ → M δ} {Q : δ → Prop}
    (h : ∀ x ∈ l, ∀ b, Q b → Keeps W tgt (f b x) Q) : ∀ {b : δ}, Q b → Keeps W tgt (foldL l b f) Q := by
  induction l with
  | nil => intro b hb; exact Keeps.pure hb
  | cons x xs ih =>
    intro b hb
    exact (h x (by simp) b hb).bind fun b' hb' => ih (fun y hy => h y (by simp [hy])) hb'

/-! ## Database -/

theorem dbWrite_keeps {h : Handle} {w : DbWrite} (hw : RWrite W w) (ha : ∀ r, tgt ≠ some r → w.Avoids r) :
    Keeps W tgt (dbWrite h w) (fun _ => True) := by
  intro s hs
  unfold dbWrite
  split
  · exact Keeps.throw s hs
  · cases h with
    | direct =>
      refine At.step ?_ ?_
      · exact ⟨RWrite.apply hs.db hw, hs.fs, hs.idx, hs.pend⟩
      · intro r hr
        exact ⟨(ha r hr).apply _, SameFs.refl r _, fun h => h⟩
    | batch =>
      refine At.vol ?_ ?_
      · refine ⟨hs.db, hs.fs, hs.idx, ?_⟩
        intro x hx
        rcases List.mem_append.1 hx with hx | hx
        · exact hs.pend x hx
        · simp at hx; subst hx; exact hw
      · intro r hr
        refine ⟨⟨rfl, rfl⟩, SameFs.refl r _, fun h x hx => ?_⟩
        rcases List.mem_append.1 hx with hx | hx
        · exact h x hx
        · simp at hx; subst hx; exact ha r hr

theorem dbWrite_keeps' {h : Handle} {w : DbWrite} (hw : reservedKey w.key = false → RWrite W w) (ha : ∀ r, tgt ≠ some r → w.Avoids r) :
    Keeps W tgt (dbWrite h w) (fun _ => True) := by
  cases hk : reservedKey w.key with
  | false => exact dbWrite_keeps (hw hk) ha
  | true =>
    unfold dbWrite
    rw [if_pos hk]; exact Keeps.throw

theorem dbUpdate_keeps {body : M Unit} (h : Keeps W tgt body (fun _ => True)) : Keeps W tgt (dbUpdate body) (fun _ => True) := by
  intro s hs
  have h0 : Rough W { s with pend := [] } := ⟨hs.db, hs.fs, hs.idx, fun _ h => by simp at h⟩
  have same0 : ∀ r, Same r s { s with pend := [] } := fun r => ⟨⟨rfl, rfl⟩, SameFs.refl r _, fun _ _ h => by simp at h⟩
  have k := h _ h0
  rcases hm : (body { s with pend := [] }).res with a | e | _
  · have e : dbUpdate body s = ⟨.ok (), { (body { s with pend := [] }).st with db := (body { s with pend := [] }).st.pend.foldl DbWrite.apply (body { s with pend := [] }).st.db, pend := [] }, (body { s with pend := [] }).tr ++ [{ (body { s with pend := [] }).st with db := (body { s with pend := [] }).st.pend.foldl DbWrite.apply (body { s with pend := [] }).st.db, pend := [] }]⟩ := by
      unfold dbUpdate; simp only [hm]
    have hr : Rough W { (body { s with pend := [] }).st with db := (body { s with pend := [] }).st.pend.foldl DbWrite.apply (body { s with pend := [] }).st.db, pend := [] } :=
      ⟨k.fin.db.applyAll k.fin.pend, k.fin.fs, k.fin.idx, fun _ h => by simp at h⟩
    have hsm : ∀ r, tgt ≠ some r → Same r s { (body { s with pend := [] }).st with db := (body { s with pend := [] }).st.pend.foldl DbWrite.apply (body { s with pend := [] }).st.db, pend := [] } := by
      intro r hr
      have a := k.fsame r hr
      have av := a.pend (by simp)
      have b := Avoids.applyAll (body { s with pend := [] }).st.db av
      exact ⟨⟨b.repo.trans a.db.repo, b.ents.trans a.db.ents⟩, a.fs, fun _ _ h => by simp at h⟩
    refine ⟨?_, ?_, ?_, ?_, ?_, ?_⟩ <;> rw [e]
    · intro h; cases h
    · exact hr
    · exact hsm
    · intro t ht
      rcases List.mem_append.1 ht with ht | ht
      · exact k.tr t ht
      · simp at ht; subst ht; exact hr
    · intro t ht
      rcases List.mem_append.1 ht with ht | ht
      · intro r hr; exact (same0 r).trans (k.tsame t ht r hr)
      · simp at ht; subst ht; exact hsm
    · intro _ _; trivial
  · have e : dbUpdate body s = ⟨.err e, { (body { s with pend := [] }).st with pend := [] }, (body { s with pend := [] }).tr⟩ := by
      unfold dbUpdate; simp only [hm]
    refine ⟨?_, ?_, ?_, ?_, ?_, ?_⟩ <;> rw [e]
    · intro h; cases h
    · exact ⟨k.fin.db, k.fin.fs, k.fin.idx, fun _ h => by simp at h⟩
    · intro r hr
      have a := k.fsame r hr
      exact ⟨a.db, a.fs, fun _ _ h => by simp at h⟩
    · exact k.tr
    · intro t ht r hr; exact (same0 r).trans (k.tsame t ht r hr)
    · intro _ _; trivial
  · exact absurd hm k.np

theorem poolGet?_keeps (id : Str) : Keeps W tgt (poolGet? id) (fun o => ∀ e, o = some e → RPool W id e) :=
  Keeps.getSt.bind fun s hs => Keeps.pure fun e he => hs.db.pool id e he

theorem poolGet_keeps (id : Str) : Keeps W tgt (poolGet id) (RPool W id) := by
  refine (poolGet?_keeps id).bind fun o ho => ?_
  cases o with
  | none => exact Keeps.throw
  | some e => exact Keeps.pure (ho e rfl)

theorem repoGet?_keeps (rid n : Str) : Keeps W tgt (repoGet? rid n) (fun o => ∀ e, o = some e → REntry W n e) :=
  Keeps.getSt.bind fun s hs => Keeps.pure fun e he => hs.db.ent rid n e he

theorem repoGet_keeps (rid n : Str) : Keeps W tgt (repoGet rid n) (REntry W n) := by
  refine (repoGet?_keeps rid n).bind fun o ho => ?_
  cases o with
  | none => exact Keeps.throw
  | some e => exact Keeps.pure (ho e rfl)

theorem repoEntries_keeps (rid : Str) : Keeps W tgt (repoEntries rid) (fun l => ∀ e ∈ l, REntry W e.name e) :=
  Keeps.getSt.bind fun s hs => Keeps.pure fun e he => (hs.entry he).2

theorem repoPut_keeps {rid : Str} {e : RepoEntry} (he : REntry W e.name e) : Keeps W (some rid) (repoPut rid e) (fun _ => True) :=
  dbWrite_keeps he (fun r hr => by simp only [DbWrite.Avoids]; intro h; exact hr (by rw [h]))

/-! ## Metadata -/

theorem getRelease_keeps {m : Meta} (h : m.history ≠ []) : Keeps W tgt (getRelease m) (fun r => r = m.rel) := by
  intro s hs
  unfold getRelease
  cases hh : m.history with
  | nil => exact absurd hh h
  | cons u us => exact At.pure hs (by simp [Meta.rel, hh])

theorem pathComp_keeps {m : Meta} (h : m.source ≠ []) : Keeps W tgt (pathComp m) (fun c => pathComp? m.source = some c) := by
  intro s hs
  obtain ⟨c, hc⟩ := pathComp?_isSome h
  unfold pathComp
  rw [hc]; exact At.pure hs rfl

theorem RPool.hist (ok : W.OK) {id : Str} {pe : PoolEntry} (h : RPool W id pe) : pe.pkg.history ≠ [] := by
  rw [h.pkg]; exact (ok.meta h.isPkg).hist
theorem RPool.src (ok : W.OK) {id : Str} {pe : PoolEntry} (h : RPool W id pe) : pe.pkg.source ≠ [] := by
  rw [h.pkg]; exact (ok.meta h.isPkg).src
theorem RPool.rel {id : Str} {pe : PoolEntry} (h : RPool W id pe) : pe.pkg.rel = (W.mOf id).rel := by rw [h.pkg]; rfl
theorem RPool.pname {id : Str} {pe : PoolEntry} (h : RPool W id pe) : pe.pkg.name = (W.mOf id).name := by rw [h.pkg]; rfl

/-! ## Files -/

theorem RFiles.setData {fs : FS} (h : RFiles W fs) {dst : Path} {j : Nat} {c : Content} (hj : fs.tab dst = some j)
    (hc : dst.isAsset = false → c <+: W.canon dst.base) : RFiles W (fs.setData j c) := by
  refine ⟨fun p i hp => h.fresh p i hp, fun p q i hp hq => h.owner p q i hp hq, ?_⟩
  intro p c' hp hr
  obtain ⟨i, hi, hd⟩ := FS.read_eq_some.1 hr
  simp only [FS.setData_tab] at hi
  simp only [FS.setData_data] at hd
  by_cases e : i = j
  · subst e
    rw [if_pos rfl] at hd; subst hd
    have ho := h.owner p dst i hi hj
    have hda : dst.isAsset = false ∧ p.base = dst.base := by
      cases p <;> cases dst <;> simp_all [Path.owner, Path.isAsset]
    rw [hda.2]; exact hc hda.1
  · rw [if_neg e] at hd
    exact h.content p c' hp (FS.read_eq_some.2 ⟨i, hi, hd⟩)

/-- A new inode at `dst`, with content `c`. -/
def FS.fresh_ (fs : FS) (dst : Path) (c : Content) : FS := { (fs.setTab dst (some fs.next)).setData fs.next c with next := fs.next + 1 }

theorem RFiles.fresh_ {fs : FS} (h : RFiles W fs) {dst : Path} {c : Content}
    (hc : dst.isAsset = false → c <+: W.canon dst.base) : RFiles W (fs.fresh_ dst c) := by
  have ht : ∀ p, (fs.fresh_ dst c).tab p = if p = dst then some fs.next else fs.tab p := fun p => rfl
  have hd : ∀ i, (fs.fresh_ dst c).data i = if i = fs.next then c else fs.data i := fun i => rfl
  refine ⟨?_, ?_, ?_⟩
  · intro p i hp
    rw [ht] at hp
    show i < fs.next + 1
    split at hp
    · cases hp; omega
    · have := h.fresh p i hp; omega
  · intro p q i hp hq
    rw [ht] at hp hq
    split at hp <;> split at hq
    · rename_i a b; rw [a, b]
    · cases hp; exact absurd (h.fresh q _ hq) (by omega)
    · cases hq; exact absurd (h.fresh p _ hp) (by omega)
    · exact h.owner p q i hp hq
  · intro p c' hp hr
    obtain ⟨i, hi, hd'⟩ := FS.read_eq_some.1 hr
    rw [ht] at hi; rw [hd] at hd'
    split at hi
    · rename_i a; subst a; cases hi; rw [if_pos rfl] at hd'; subst hd'; exact hc hp
    · rw [if_neg (by have := h.fresh p i hi; omega)] at hd'
      exact h.content p c' hp (FS.read_eq_some.2 ⟨i, hi, hd'⟩)

theorem RFiles.removed {fs fs' : FS} (h : RFiles W fs) (hd : fs'.data = fs.data)
    (hn : fs'.next = fs.next) (ht : ∀ p i, fs'.tab p = some i → fs.tab p = some i) : RFiles W fs' := by
  refine ⟨?_, ?_, ?_⟩
  · intro p i hp; rw [hn]; exact h.fresh p i (ht p i hp)
  · intro p q i hp hq; exact h.owner p q i (ht p i hp) (ht q i hq)
  · intro p c hpa hr
    obtain ⟨i, hi, hc⟩ := FS.read_eq_some.1 hr
    apply h.content p c hpa
    rw [FS.read_eq_some]; exact ⟨i, ht p i hi, by rw [← hc, hd]⟩

theorem RFiles.linkTo {fs : FS} (h : RFiles W fs) {src dst : Path} {i : Nat} (hi : fs.tab src = some i)
    (ho : src.owner = dst.owner) (hb : src.base = dst.base) (ha : dst.isAsset = src.isAsset) :
    RFiles W (fs.setTab dst (some i)) := by
  refine ⟨?_, ?_, ?_⟩
  · intro p j hp
    simp only [FS.setTab_tab] at hp
    split at hp
    · cases hp; exact h.fresh src i hi
    · exact h.fresh p j hp
  · intro p q j hp hq
    simp only [FS.setTab_tab] at hp hq
    split at hp <;> split at hq
    · rename_i a b; rw [a, b]
    · rename_i a b; cases hp; rw [a, ← ho]; exact h.owner src q i hi hq
    · rename_i a b; cases hq; rw [b, ← ho]; exact h.owner p src i hp hi
    · exact h.owner p q j hp hq
  · intro p c hp hr
    obtain ⟨j, hj, hd⟩ := FS.read_eq_some.1 hr
    simp only [FS.setTab_tab] at hj
    simp only [FS.setTab_data] at hd
    split at hj
    · rename_i a; subst a; cases hj
      rw [← hb]
      exact h.content src c (by rw [← ha]; exact hp) (FS.read_eq_some.2 ⟨_, hi, hd⟩)
    · exact h.content p c hp (FS.read_eq_some.2 ⟨j, hj, hd⟩)

/-- A path inside a repository is inside that of the job. -/
def Path.inTgt (tgt : Option Str) : Path → Prop
  | .repo r _ _ => tgt = some r
  | .asset r _ => tgt = some r
  | .stage r _ => tgt = some r
  | _ => True

theorem SameFs.setData {fs : FS} (h : RFiles W fs) {dst : Path} {j : Nat} {c : Content} (hj : fs.tab dst = some j)
    (hd : dst.inTgt tgt) {r : Str} (hr : tgt ≠ some r) : SameFs r fs (fs.setData j c) := by
  refine ⟨rfl, fun _ _ => rfl, fun _ => rfl, fun _ => rfl, fun a => ?_⟩
  unfold FS.read
  simp only [FS.setData_tab]
  cases ht : fs.tab (.asset r a) with
  | none => rfl
  | some i =>
    simp only [Option.map_some, FS.setData_data]
    rw [if_neg]
    rintro rfl
    have ho := h.owner _ _ i ht hj
    cases dst <;> simp [Path.owner] at ho
    obtain ⟨rfl, -⟩ := ho
    exact hr hd

theorem SameFs.setTab {fs : FS} {dst : Path} {i : Option Nat} (hd : dst.inTgt tgt) {r : Str} (hr : tgt ≠ some r) :
    SameFs r fs (fs.setTab dst i) := by
  have key : ∀ q : Path, (∃ d id, q = .repo r d id) ∨ (∃ id, q = .stage r id) ∨ (∃ a, q = .asset r a) → q ≠ dst := by
    rintro q hq rfl
    rcases hq with ⟨d, id, rfl⟩ | ⟨id, rfl⟩ | ⟨a, rfl⟩ <;> exact hr hd
  have tab : ∀ q, q ≠ dst → (fs.setTab dst i).tab q = fs.tab q := by intro q hq; simp [hq]
  refine ⟨rfl, fun d id => tab _ (key _ (.inl ⟨d, id, rfl⟩)), fun id => tab _ (key _ (.inr (.inl ⟨id, rfl⟩))),
    fun a => tab _ (key _ (.inr (.inr ⟨a, rfl⟩))), fun a => ?_⟩
  unfold FS.read
  rw [tab _ (key _ (.inr (.inr ⟨a, rfl⟩)))]; rfl

theorem SameFs.fresh_ {fs : FS} (h : RFiles W fs) {dst : Path} {c : Content} (hd : dst.inTgt tgt) {r : Str} (hr : tgt ≠ some r) :
    SameFs r fs (fs.fresh_ dst c) := by
  have k := SameFs.setTab (fs := fs) (i := some fs.next) hd hr
  refine ⟨rfl, k.file, k.stage, k.assetTab, fun a => ?_⟩
  have ht : (fs.fresh_ dst c).tab (.asset r a) = fs.tab (.asset r a) := k.assetTab a
  unfold FS.read
  rw [ht]
  cases hi : fs.tab (.asset r a) with
  | none => rfl
  | some i =>
    simp only [Option.map_some]
    show some (if i = fs.next then c else fs.data i) = _
    rw [if_neg (by have := h.fresh _ i hi; omega)]

theorem Same.ofFs {r : Str} {s : St} {g : FS} (h : SameFs r s.fs g) : Same r s (s.setFs g) := ⟨⟨rfl, rfl⟩, h, fun h => h⟩

theorem Rough.setFs {s : St} (h : Rough W s) {g : FS} (hg : RFiles W g) (hi : g.idx = s.fs.idx) : Rough W (s.setFs g) :=
  ⟨h.db, hg, fun r doc hd => by rw [St.setFs_fs, hi] at hd; exact h.idx r doc hd, h.pend⟩

/-- May `src` be copied or linked to `dst`? -/
structure Alike (src dst : Path) : Prop where
  asset : dst.isAsset = src.isAsset
  base : src.base = dst.base

theorem Alike.owner {src dst : Path} (h : Alike src dst) (hn : dst.isAsset = false) : src.owner = dst.owner := by
  obtain ⟨ha, hb⟩ := h
  cases src <;> cases dst <;> simp_all [Path.owner, Path.isAsset]

theorem FS.openTrunc_cases (fs : FS) (dst : Path) :
    (∃ j, fs.tab dst = some j ∧ fs.openTrunc dst = (fs.setData j [], j)) ∨
    (fs.tab dst = none ∧ fs.openTrunc dst = (fs.fresh_ dst [], fs.next)) := by
  cases h : fs.tab dst with
  | none => right; exact ⟨rfl, FS.openTrunc_none h⟩
  | some j => left; exact ⟨j, rfl, FS.openTrunc_some h⟩

theorem openTrunc_rough {fs : FS} (h : RFiles W fs) {dst : Path} (hd : dst.inTgt tgt) :
    RFiles W (fs.openTrunc dst).1 ∧ (∀ r, tgt ≠ some r → SameFs r fs (fs.openTrunc dst).1) ∧
    (fs.openTrunc dst).1.idx = fs.idx ∧ (fs.openTrunc dst).1.tab dst = some (fs.openTrunc dst).2 := by
  rcases fs.openTrunc_cases dst with ⟨j, hj, e⟩ | ⟨hn, e⟩ <;> rw [e]
  · exact ⟨h.setData hj (fun _ => List.nil_prefix), fun r hr => SameFs.setData h hj hd hr, rfl, hj⟩
  · exact ⟨h.fresh_ (fun _ => List.nil_prefix), fun r hr => SameFs.fresh_ h hd hr, rfl, by simp [FS.fresh_]⟩

theorem copyFile_keeps {src dst : Path} (hl : Alike src dst) (hd : dst.inTgt tgt) :
    Keeps W tgt (copyFile src dst) (fun _ => True) := by
  intro s hs
  cases hi : s.fs.tab src with
  | none =>
    have e := copyFile_missing (dst := dst) hi
    refine ⟨?_, ?_, ?_, ?_, ?_, fun _ _ => trivial⟩ <;> rw [e]
    · intro h; cases h
    · exact hs
    · intro r _; exact Same.refl r s
    · intro t ht; simp at ht
    · intro t ht; simp at ht
  | some i =>
    obtain ⟨h1, h2, h3, h4⟩ := openTrunc_rough hs.fs hd
    have hc : dst.isAsset = false → (s.fs.openTrunc dst).1.data i <+: W.canon dst.base := by
      intro hn
      have ht : (s.fs.openTrunc dst).1.tab src = some i := by
        rcases s.fs.openTrunc_cases dst with ⟨j, hj, e⟩ | ⟨hn', e⟩ <;> rw [e]
        · exact hi
        · show (if src = dst then _ else s.fs.tab src) = _
          rw [if_neg (by rintro rfl; rw [hn'] at hi; cases hi)]; exact hi
      have := h1.content src _ (by rw [← hl.asset]; exact hn) (FS.read_eq_some.2 ⟨i, ht, rfl⟩)
      rw [hl.base] at this; exact this
    have k1 : Rough W (s.setFs (s.fs.openTrunc dst).1) := hs.setFs h1 h3
    have k2 : Rough W (s.setFs ((s.fs.openTrunc dst).1.setData (s.fs.openTrunc dst).2 ((s.fs.openTrunc dst).1.data i))) :=
      hs.setFs (h1.setData h4 hc) h3
    have m1 : ∀ r, tgt ≠ some r → Same r s (s.setFs (s.fs.openTrunc dst).1) := fun r hr => Same.ofFs (h2 r hr)
    have m2 : ∀ r, tgt ≠ some r → Same r s (s.setFs ((s.fs.openTrunc dst).1.setData (s.fs.openTrunc dst).2 ((s.fs.openTrunc dst).1.data i))) :=
      fun r hr => Same.ofFs ((h2 r hr).trans (SameFs.setData h1 h4 hd hr))
    have e := copyFile_run (dst := dst) hi
    refine ⟨?_, ?_, ?_, ?_, ?_, fun _ _ => trivial⟩ <;> rw [e]
    · intro h; cases h
    · exact k2
    · exact m2
    · intro t ht
      simp only [List.mem_cons, List.not_mem_nil, or_false] at ht
      rcases ht with rfl | rfl
      · exact k1
      · exact k2
    · intro t ht
      simp only [List.mem_cons, List.not_mem_nil, or_false] at ht
      rcases ht with rfl | rfl
      · exact m1
      · exact m2

theorem linkOrCopy_keeps {E : Env} {src dst : Path} {f : Bool} (hl : Alike src dst) (hn : dst.isAsset = false) (hd : dst.inTgt tgt) :
    Keeps W tgt (linkOrCopy E src dst f) (fun _ => True) := by
  unfold linkOrCopy
  cases f with
  | true => exact copyFile_keeps hl hd
  | false =>
    intro s hs
    simp only [Bool.false_eq_true, if_false]
    have e : ∀ k : St → M Unit, (getSt >>= k) s = k s s := fun k => rfl
    have conv : ∀ {m : M Unit}, (∀ Q, At W tgt m s Q → At W tgt (getSt >>= fun _ => m) s Q) := by
      intro m Q h
      exact ⟨h.np, h.fin, h.fsame, h.tr, h.tsame, h.val⟩
    have : At W tgt (match s.fs.tab src, s.fs.tab dst with
        | some i, none =>
          if E.linkOk src dst then stepM (fun s => s.setFs (s.fs.setTab dst (some i)))
          else copyFile src dst
        | _, _ => copyFile src dst) s (fun _ => True) := by
      cases hi : s.fs.tab src with
      | none => exact copyFile_keeps hl hd s hs
      | some i =>
        cases hj : s.fs.tab dst with
        | some j => exact copyFile_keeps hl hd s hs
        | none =>
          simp only
          split
          · refine At.step (hs.setFs (hs.fs.linkTo hi (hl.owner hn) hl.base hl.asset) rfl) ?_
            intro r hr; exact Same.ofFs (SameFs.setTab hd hr)
          · exact copyFile_keeps hl hd s hs
    exact ⟨this.np, this.fin, this.fsame, this.tr, this.tsame, this.val⟩

theorem removeFile_keeps {p : Path} (hd : p.inTgt tgt) : Keeps W tgt (removeFile p) (fun _ => True) := by
  intro s hs
  refine At.step (hs.setFs (hs.fs.removed rfl rfl ?_) rfl) ?_
  · intro q i hq
    simp only [FS.setTab_tab] at hq
    split at hq
    · cases hq
    · exact hq
  · intro r hr; exact Same.ofFs (SameFs.setTab hd hr)

/-- What is known of an opened package. -/
structure ROpen (W : World) (p : Pkg) (file : Path) : Prop where
  path : p.path = file
  id : p.id = file.base
  isPkg : W.IsPkg p.id
  pkg : p.pkg = W.mOf p.id

/-- A file that holds only a beginning of a package is not one. -/
def World.NoTorn (W : World) : Prop := ∀ id c, c <+: W.canon id → c ≠ W.canon id → W.E.parse c = .bad

theorem At.getSt {k : St → M β} {s : St} {R : β → Prop} (h : At W tgt (k s) s R) : At W tgt (getSt >>= k) s R :=
  ⟨h.np, h.fin, h.fsame, h.tr, h.tsame, h.val⟩

/-- The program changes nothing. -/
structure Reads {α : Type} (m : M α) : Prop where
  st : ∀ s, (m s).st = s
  tr : ∀ s, (m s).tr = []

theorem At.read {m : M α} {f : α → M β} {s : St} {Q : α → Prop} {R : β → Prop} (hm : Reads m) (h : At W tgt m s Q)
    (hf : ∀ a, Q a → At W tgt (f a) s R) : At W tgt (m >>= f) s R :=
  h.bind fun a ha _ => by rw [hm.st]; exact hf a ha

theorem Reads.bind {m : M α} {f : α → M β} (h : Reads m) (hf : ∀ a, Reads (f a)) : Reads (m >>= f) := ⟨fun s => by
  show (M.bind' m f s).st = s
  unfold M.bind'
  cases (m s).res with
  | ok a => simp only [h.st]; exact (hf a).st s
  | err e => exact h.st s
  | panic => exact h.st s, fun s => by
  show (M.bind' m f s).tr = []
  unfold M.bind'
  cases (m s).res with
  | ok a => simp only [h.st, h.tr, (hf a).tr, List.append_nil]
  | err e => exact h.tr s
  | panic => exact h.tr s⟩

theorem Reads.pure (a : α) : Reads (pure a : M α) := ⟨fun _ => rfl, fun _ => rfl⟩
theorem Reads.throw (e : Err) : Reads (throwE e : M α) := ⟨fun _ => rfl, fun _ => rfl⟩
theorem Reads.panic : Reads (panicM : M α) := ⟨fun _ => rfl, fun _ => rfl⟩
theorem Reads.getSt : Reads getSt := ⟨fun _ => rfl, fun _ => rfl⟩
theorem Reads.ite {c : Prop} [Decidable c] {m n : M α} (h : Reads m) (k : Reads n) : Reads (if c then m else n) := by
  split
  · exact h
  · exact k
theorem Reads.collectL {γ δ : Type} {l : List γ} {f : γ → M (List δ)} (h : ∀ x ∈ l, Reads (f x)) : Reads (collectL l f) := by
  induction l with
  | nil => exact Reads.pure _
  | cons x xs ih =>
    exact (h x (by simp)).bind fun a => (ih fun y hy => h y (by simp [hy])).bind fun b => Reads.pure _

theorem poolGet?_reads (id : Str) : Reads (poolGet? id) := Reads.getSt.bind fun _ => Reads.pure _
theorem poolGet_reads (id : Str) : Reads (poolGet id) := (poolGet?_reads id).bind fun o => by
  cases o with
  | none => exact Reads.throw _
  | some e => exact Reads.pure _
theorem repoGet?_reads (r n : Str) : Reads (repoGet? r n) := Reads.getSt.bind fun _ => Reads.pure _
theorem repoGet_reads (r n : Str) : Reads (repoGet r n) := (repoGet?_reads r n).bind fun o => by
  cases o with
  | none => exact Reads.throw _
  | some e => exact Reads.pure _
theorem repoEntries_reads (r : Str) : Reads (repoEntries r) := Reads.getSt.bind fun _ => Reads.pure _
theorem getRelease_reads (m : Meta) : Reads (getRelease m) := by
  unfold getRelease
  cases m.history with
  | nil => exact Reads.panic
  | cons u us => exact Reads.pure _
theorem pathComp_reads (m : Meta) : Reads (pathComp m) := by
  unfold pathComp
  cases pathComp? m.source with
  | none => exact Reads.panic
  | some c => exact Reads.pure _
theorem openPkg_reads (E : Env) (file : Path) : Reads (openPkg E file) := Reads.getSt.bind fun s => by
  cases s.fs.read file with
  | none => exact Reads.throw _
  | some c =>
    simp only
    cases E.parse c with
    | bad => exact Reads.throw _
    | crash => exact Reads.panic
    | good m => exact Reads.pure _

theorem openPkg_at (ok : W.OK) (hz : W.NoTorn) {file : Path} (hn : file.isAsset = false) {s : St} (hs : Rough W s) :
    At W tgt (openPkg W.E file) s (fun p => ROpen W p file ∧ s.fs.read p.path = some (W.canon p.id)) := by
  refine At.getSt ?_
  cases hr : s.fs.read file with
  | none => exact Keeps.throw _ hs
  | some c =>
    simp only
    by_cases hc : c = W.canon file.base
    · subst hc
      cases hp : W.E.parse (W.canon file.base) with
      | bad => exact Keeps.throw _ hs
      | crash => exact absurd hp (ok.no_crash _)
      | good m =>
        obtain ⟨h1, h2⟩ := World.isPkg_of hp
        exact At.pure hs ⟨⟨rfl, rfl, h1, h2.symm⟩, hr⟩
    · rw [hz _ c (hs.fs.content file c hn hr) hc]; exact Keeps.throw _ hs

/-! ## Pool -/

theorem copyFile_src {s : St} (hf : s.fs.Fresh) {src dst : Path} {c : Content} (h : s.fs.read src = some c) :
    (copyFile src dst s).st.fs.read src = some c ∨ (copyFile src dst s).st.fs.read src = some [] := by
  obtain ⟨i, hi, rfl⟩ := FS.read_eq_some.1 h
  rw [copyFile_run hi]
  simp only [St.setFs_fs]
  rcases s.fs.openTrunc_cases dst with ⟨j, hj, e⟩ | ⟨hn, e⟩ <;> rw [e] <;> simp only
  · by_cases hij : i = j
    · subst hij; right
      rw [FS.read_eq_some]; exact ⟨i, hi, by simp⟩
    · left
      rw [FS.read_eq_some]; exact ⟨i, hi, by simp [hij]⟩
  · left
    have hne : src ≠ dst := by rintro rfl; rw [hn] at hi; cases hi
    have := hf src i hi
    rw [FS.read_eq_some]
    refine ⟨i, by simp [FS.fresh_, hne, hi], ?_⟩
    have h' : i ≠ s.fs.next := by omega
    simp [FS.fresh_, h']

theorem linkOrCopy_src {E : Env} {s : St} (hf : s.fs.Fresh) {src dst : Path} {b : Bool} {c : Content} (h : s.fs.read src = some c) :
    (linkOrCopy E src dst b s).st.fs.read src = some c ∨ (linkOrCopy E src dst b s).st.fs.read src = some [] := by
  unfold linkOrCopy
  cases b with
  | true => exact copyFile_src hf h
  | false =>
    simp only [Bool.false_eq_true, if_false, getSt_bind]
    cases hi : s.fs.tab src with
    | none => exact copyFile_src hf h
    | some i =>
      cases hj : s.fs.tab dst with
      | some j => exact copyFile_src hf h
      | none =>
        simp only
        split
        · left
          simp only [stepM_run, St.setFs_fs]
          have hne : src ≠ dst := by rintro rfl; rw [hj] at hi; cases hi
          unfold FS.read at h ⊢
          simp [hne]; simpa [hi] using h
        · exact copyFile_src hf h

theorem RPool.again {id : Str} {e : PoolEntry} (h : RPool W id e) {k : Nat} (hk : 0 < k) : RPool W e.name { e with refCount := k } := by
  obtain rfl := h.name
  exact ⟨rfl, h.isPkg, h.pkg, h.delta, hk, h.dinfo⟩

theorem poolAddInternal_at (ok : W.OK) {p : Pkg} {file : Path} {cd : Bool} {delta : Option DeltaInfo} (hp : ROpen W p file)
    (hn : file.isAsset = false) (hd : delta.isSome = W.isDelta p.id) (hi : ∀ di, delta = some di → W.DInfoOk p.id di)
    {s : St} (hs : Rough W s) (hr : s.fs.read p.path = some (W.canon p.id)) :
    At W tgt (poolAddInternal W.E p cd delta) s (RPool W p.id) := by
  unfold poolAddInternal
  refine (poolGet?_keeps p.id s hs).read (poolGet?_reads _) fun o ho => ?_
  cases o with
  | some e =>
    have h := ho e rfl
    have h' : RPool W p.id { e with refCount := e.refCount + 1 } := ⟨h.name, h.isPkg, h.pkg, h.delta, Nat.succ_pos _, h.dinfo⟩
    refine ((dbWrite_keeps (w := .putPool e.name { e with refCount := e.refCount + 1 }) ?_ (fun r _ => trivial)).bind fun _ _ => Keeps.pure h') s hs
    exact RPool.again h (Nat.succ_pos _)
  | none =>
      refine At.getSt ?_
      rw [hr]
      simp only
      obtain ⟨comp, hc⟩ := ok.comp hp.isPkg
      have hc' : pathComp? p.pkg.source = some comp := by rw [hp.pkg]; exact hc
      have hal : Alike p.path (.pool comp p.id) := by
        rw [hp.path]
        exact ⟨hn.symm, hp.id.symm⟩
      have e1 : ∀ k : Str → M PoolEntry, (pathComp p.pkg >>= k) s = k comp s := fun k => pathComp_bind hc' k s
      have l1 : ∀ {k : Str → M PoolEntry} {R : PoolEntry → Prop}, At W tgt (k comp) s R → At W tgt (pathComp p.pkg >>= k) s R := by
        intro k R h
        refine ⟨?_, ?_, ?_, ?_, ?_, ?_⟩ <;> rw [e1]
        · exact h.np
        · exact h.fin
        · exact h.fsame
        · exact h.tr
        · exact h.tsame
        · exact h.val
      refine l1 ?_
      have hlc := linkOrCopy_keeps (W := W) (tgt := tgt) (E := W.E) (f := cd) hal rfl trivial s hs
      refine hlc.bind fun _ _ _ => ?_
      have hsrc := linkOrCopy_src (E := W.E) (dst := .pool comp p.id) (b := cd) hs.fs.fresh hr
      have hfin := hlc.fin
      generalize linkOrCopy W.E p.path (.pool comp p.id) cd s = o1 at hfin hsrc
      have hfs : At W tgt (fileSha1 W.E p.path) o1.st (fun sha => sha = W.E.sha1 (W.canon p.id)) := by
        unfold fileSha1
        refine At.getSt ?_
        rcases hsrc with h | h
        · rw [h]; simp only
          split
          · exact Keeps.throw _ hfin
          · exact At.pure hfin rfl
        · rw [h]; simp only [if_true]
          exact Keeps.throw _ hfin
      refine hfs.bind fun sha hsha _ => ?_
      obtain rfl := hsha
      have he : RPool W p.id { name := p.id, refCount := 1, delta := delta, pkg := { p.pkg with hash := W.E.sha1 (W.canon p.id), size := (W.canon p.id).length, uri := mkURI comp p.id } } := by
        refine ⟨rfl, hp.isPkg, ?_, hd, Nat.one_pos, hi⟩
        simp only [hp.pkg, World.stamped, hc, Option.getD_some]
      split
      · exact ((removeFile_keeps (p := .pool comp p.id) trivial).bind fun _ _ => Keeps.throw) _ hfs.fin
      · exact ((dbWrite_keeps (w := .putPool p.id _) he (fun r _ => trivial)).bind fun _ _ => Keeps.pure he) _ hfs.fin

theorem poolAddDelta_at (ok : W.OK) {p : Pkg} {file : Path} {cd : Bool} {f t : Str} (hp : ROpen W p file)
    (hn : file.isAsset = false) (hd : W.isDelta p.id = true) (hf : (W.mOf f).name = (W.mOf p.id).name)
    (ht : (W.mOf t).name = (W.mOf p.id).name) {s : St} (hs : Rough W s) (hr : s.fs.read p.path = some (W.canon p.id)) :
    At W tgt (poolAddDelta W.E p f t cd) s (RPool W p.id) := by
  unfold poolAddDelta
  refine (poolGet?_keeps p.id s hs).read (poolGet?_reads _) fun o ho => ?_
  cases o with
  | some e =>
    have h := ho e rfl
    have h' : RPool W p.id { e with refCount := e.refCount + 1 } := ⟨h.name, h.isPkg, h.pkg, h.delta, Nat.succ_pos _, h.dinfo⟩
    refine ((dbWrite_keeps (w := .putPool e.name { e with refCount := e.refCount + 1 }) ?_ (fun r _ => trivial)).bind fun _ _ => Keeps.pure h') s hs
    exact RPool.again h (Nat.succ_pos _)
  | none =>
    refine (poolGet_keeps f s hs).read (poolGet_reads _) fun a ha => (poolGet_keeps t s hs).read (poolGet_reads _) fun b hb => ?_
    refine (getRelease_keeps (hb.hist ok) s hs).read (getRelease_reads _) fun tr htr => (getRelease_keeps (ha.hist ok) s hs).read (getRelease_reads _) fun fr hfr => ?_
    refine poolAddInternal_at ok hp hn (by simp [hd]) ?_ hs hr
    intro di hdi
    cases hdi
    exact ⟨hf, ht, by rw [hfr, ha.rel], by rw [htr, hb.rel]⟩

theorem refEntry_keeps (id : Str) : Keeps W tgt (refEntry id) (fun _ => True) := by
  refine (poolGet_keeps id).bind fun e h => dbWrite_keeps ?_ (fun r _ => trivial)
  exact RPool.again h (Nat.succ_pos _)

theorem unrefEntry_keeps (ok : W.OK) (hd : Handle) (id : Str) : Keeps W tgt (unrefEntry hd id) (fun _ => True) := by
  refine (poolGet_keeps id).bind fun e h => ?_
  split
  · rename_i hpos
    refine dbWrite_keeps ?_ (fun r _ => trivial)
    exact RPool.again h hpos
  · refine (pathComp_keeps (h.src ok)).bind fun c _ => (removeFile_keeps (p := .pool c id) trivial).bind fun _ _ =>
      dbWrite_keeps (h := hd) (w := .delPool id) trivial (fun r _ => trivial)

theorem markDeltaFailed_keeps (id : Str) (d : DeltaInfo) : Keeps W tgt (markDeltaFailed id d) (fun _ => True) := by
  refine Keeps.getSt.bind fun s _ => ?_
  cases s.db.skip.get id with
  | some _ => exact Keeps.pure trivial
  | none => exact dbWrite_keeps trivial (fun r _ => trivial)

/-! ## Repositories -/

theorem bakeRepo_keeps (rid : Str) : Keeps W tgt (bakeRepo rid) (fun _ => True) := by
  intro s hs
  exact At.step (hs.setFs ⟨hs.fs.fresh, hs.fs.owner, hs.fs.content⟩ rfl)
    (fun r _ => Same.ofFs ⟨rfl, fun _ _ => rfl, fun _ => rfl, fun _ => rfl, fun _ => rfl⟩)

theorem cache_keeps (f : List Str → List Str) : Keeps W tgt (volM (fun s => { s with cache := f s.cache })) (fun _ => True) := by
  intro s hs
  exact At.vol ⟨hs.db, hs.fs, hs.idx, hs.pend⟩ (fun r _ => ⟨⟨rfl, rfl⟩, SameFs.refl r _, fun h => h⟩)

theorem getRepo_keeps (rid : Str) : Keeps W tgt (getRepo rid) (fun _ => True) := by
  refine Keeps.getSt.bind fun s _ => ?_
  split
  · exact Keeps.pure trivial
  · cases s.db.repos.get rid with
    | none => exact Keeps.throw
    | some _ => exact (bakeRepo_keeps rid).bind fun _ _ => cache_keeps (rid :: ·)

theorem createRepo_keeps (rid : Str) : Keeps W (some rid) (createRepo rid) (fun _ => True) := by
  refine Keeps.getSt.bind fun s _ => ?_
  have k : Keeps W (some rid) (if s.fs.rdir rid then throwE .artifacts
    else do
      dbWrite .direct (.putRepo rid)
      bakeRepo rid
      volM (fun s => { s with cache := rid :: s.cache })) (fun _ => True) := by
    split
    · exact Keeps.throw
    · refine (dbWrite_keeps' (w := .putRepo rid) (fun h => h) ?_).bind fun _ _ => (bakeRepo_keeps rid).bind fun _ _ => cache_keeps (rid :: ·)
      intro r hr; simp only [DbWrite.Avoids]; intro h; exact hr (by rw [h])
  cases (getRepo rid s).res with
  | ok _ => exact (getRepo_keeps rid).bind fun _ _ => Keeps.throw
  | err _ => exact k
  | panic => exact k

theorem removePackageInternal_keeps (ok : W.OK) (h : Handle) (rid id : Str) :
    Keeps W (some rid) (removePackageInternal h rid id) (fun _ => True) := by
  refine (poolGet?_keeps id).bind fun o ho => ?_
  cases o with
  | none => exact Keeps.pure trivial
  | some e =>
    exact (pathComp_keeps ((ho e rfl).src ok)).bind fun c _ => (removeFile_keeps (p := .repo rid c e.name) rfl).bind fun _ _ => unrefEntry_keeps ok h id

theorem SortedS.sortS_append {l : List Str} {x : Str} : SortedS (sortS (l ++ [x])) := sortS_sorted _

theorem refDelta_keeps (ok : W.OK) (rid id : Str) (hd : W.isDelta id = true) :
    Keeps W (some rid) (refDelta W.E rid id) (fun _ => True) := by
  refine (poolGet_keeps id).bind fun pe hpe => (repoGet_keeps rid pe.pkg.name).bind fun e he => ?_
  refine (pathComp_keeps (hpe.src ok)).bind fun c _ => ?_
  split
  · exact Keeps.pure trivial
  · refine (refEntry_keeps id).bind fun _ _ => (linkOrCopy_keeps (src := .pool c id) (dst := .repo rid c id) ⟨rfl, rfl⟩ rfl rfl).bind fun _ _ => repoPut_keeps ?_
    refine ⟨rfl, he.sorted, he.nodup, ?_, he.pub, ?_⟩
    · simp only [he.name]; exact he.avail
    · intro d hm
      simp only [mem_sortS, List.mem_append, List.mem_singleton] at hm
      simp only [he.name]
      rcases hm with hm | rfl
      · exact he.deltas d hm
      · exact ⟨hd, hpe.isPkg, hpe.pname.symm⟩

theorem addDelta_keeps (ok : W.OK) (hz : W.NoTorn) (rid : Str) {file : Path} {f t : Str} (hn : file.isAsset = false) (hd : W.isDelta file.base = true)
    (hf : (W.mOf f).name = (W.mOf file.base).name) (ht : (W.mOf t).name = (W.mOf file.base).name) :
    Keeps W (some rid) (addDelta W.E rid file f t) (fun _ => True) := by
  intro s hs
  refine (openPkg_at ok hz hn hs).read (openPkg_reads _ _) fun p hp => (repoGet_keeps rid p.pkg.name s hs).read (repoGet_reads _ _) fun e he => ?_
  obtain ⟨hp, hr⟩ := hp
  refine (pathComp_keeps (by rw [hp.pkg]; exact (ok.meta hp.isPkg).src) s hs).read (pathComp_reads _) fun c _ => ?_
  split
  · exact Keeps.pure trivial s hs
  · have hpa := poolAddDelta_at (f := f) (t := t) (tgt := some rid) (cd := false) ok hp hn (by rw [hp.id]; exact hd) (by rw [hp.id]; exact hf) (by rw [hp.id]; exact ht) hs hr
    refine hpa.bind fun _ _ _ => ?_
    refine Keeps.bind (m := linkOrCopy W.E (.pool c p.id) (.repo rid c p.id) false) (Q := fun _ => True) ?_ ?_ _ hpa.fin
    · exact linkOrCopy_keeps ⟨rfl, rfl⟩ rfl rfl
    intro _ _
    refine repoPut_keeps ?_
    refine ⟨rfl, he.sorted, he.nodup, ?_, he.pub, ?_⟩
    · simp only [he.name]; exact he.avail
    · intro d hm
      simp only [mem_sortS, List.mem_append, List.mem_singleton] at hm
      simp only [he.name]
      rcases hm with hm | rfl
      · exact he.deltas d hm
      · exact ⟨by rw [hp.id]; exact hd, hp.isPkg, by rw [hp.pkg]⟩

theorem unrefDeltas_keeps (ok : W.OK) {rid pkgID n : Str} {ds : List Str}
    (h : ∀ d ∈ ds, W.isDelta d = true ∧ W.IsPkg d ∧ (W.mOf d).name = n) :
    Keeps W (some rid) (unrefDeltas rid pkgID ds) (fun o => ∀ d ∈ o, W.isDelta d = true ∧ W.IsPkg d ∧ (W.mOf d).name = n) := by
  refine Keeps.collectL fun d hd => (poolGet_keeps d).bind fun pd hpd => ?_
  have hdel := hpd.delta
  rw [(h d hd).1] at hdel
  cases hx : pd.delta with
  | none => rw [hx] at hdel; cases hdel
  | some di =>
    simp only
    split
    · exact (removePackageInternal_keeps ok _ _ _).bind fun _ _ => Keeps.pure (by simp)
    · refine Keeps.pure ?_
      intro y hy; simp only [List.mem_singleton] at hy; subst hy
      rw [hpd.name]; exact h d hd

/-- What the loop over the available packages has found: of `seen` those other than the package, and one of them. -/
structure RAcc (W : World) (pkgID : Str) (seen : List Str) (acc : Int × Str × List Str) : Prop where
  rest : acc.2.2 = seen.filter (fun x => x ≠ pkgID)
  low : acc.2.2 = [] → acc.1 = 0
  pub : acc.2.2 ≠ [] → acc.2.1 ∈ acc.2.2 ∧ 1 ≤ acc.1

theorem unrefAvail_keeps (ok : W.OK) {pkgID : Str} : ∀ (av seen : List Str) (acc : Int × Str × List Str), RAcc W pkgID seen acc →
    (∀ id ∈ av, W.IsPkg id) →
    Keeps W tgt (foldL av acc fun acc id => do
      if id = pkgID then pure acc
      else do
        let pe ← poolGet id
        let rel ← getRelease pe.pkg
        if rel > acc.1 then pure (rel, id, acc.2.2 ++ [id])
        else pure (acc.1, acc.2.1, acc.2.2 ++ [id])) (RAcc W pkgID (seen ++ av)) := by
  intro av
  induction av with
  | nil => intro seen acc h _; rw [List.append_nil]; exact Keeps.pure h
  | cons x xs ih =>
    intro seen acc h hp
    have key : Keeps W tgt (do
      if x = pkgID then pure acc
      else do
        let pe ← poolGet x
        let rel ← getRelease pe.pkg
        if rel > acc.1 then pure (rel, x, acc.2.2 ++ [x])
        else pure (acc.1, acc.2.1, acc.2.2 ++ [x])) (RAcc W pkgID (seen ++ [x])) := by
      split
      · rename_i e
        refine Keeps.pure ⟨?_, h.low, h.pub⟩
        rw [List.filter_append, ← h.rest]; simp [e]
      · rename_i e
        refine (poolGet_keeps x).bind fun pe hpe => (getRelease_keeps (hpe.hist ok)).bind fun rel hrel => ?_
        have hr1 : 1 ≤ rel := by rw [hrel, hpe.rel]; exact (ok.meta hpe.isPkg).rel
        have hrest : acc.2.2 ++ [x] = (seen ++ [x]).filter (fun x => x ≠ pkgID) := by
          rw [List.filter_append, ← h.rest]; simp [e]
        split
        · refine Keeps.pure ⟨hrest, ?_, ?_⟩
          · intro h0; simp at h0
          · intro _; exact ⟨by simp, hr1⟩
        · rename_i hle
          refine Keeps.pure ⟨hrest, ?_, ?_⟩
          · intro h0; simp at h0
          · intro _
            by_cases h0 : acc.2.2 = []
            · have := h.low h0; omega
            · obtain ⟨h1, h2⟩ := h.pub h0
              exact ⟨by simp [h1], h2⟩
    refine Keeps.bind key fun acc' h' => ?_
    have := ih (seen ++ [x]) acc' h' (fun id hid => hp id (by simp [hid]))
    rw [List.append_assoc] at this
    exact this

theorem unrefPackage_keeps (ok : W.OK) (rid pkgID : Str) : Keeps W (some rid) (unrefPackage rid pkgID) (fun _ => True) := by
  refine (poolGet_keeps pkgID).bind fun pe hpe => (repoGet_keeps rid pe.pkg.name).bind fun e he => ?_
  refine (removePackageInternal_keeps ok _ _ _).bind fun _ _ => (unrefDeltas_keeps ok he.deltas).bind fun ds hds => ?_
  refine (unrefAvail_keeps ok e.available [] (0, [], []) ⟨rfl, fun _ => rfl, fun h => absurd rfl h⟩ (fun id hid => (he.avail id hid).2.1)).bind fun acc hacc => ?_
  split
  · refine dbWrite_keeps trivial ?_
    intro r hr; simp only [DbWrite.Avoids]; intro h; exact hr (by rw [h])
  · rename_i hlen
    have hne : acc.2.2 ≠ [] := by intro h; rw [h] at hlen; simp at hlen
    have hrest := hacc.rest
    simp only [List.nil_append] at hrest
    refine repoPut_keeps ⟨rfl, sortS_sorted _, ?_, ?_, ?_, ?_⟩
    · rw [nodup_sortS, hrest]; exact he.nodup.filter _
    · intro id hid
      simp only [mem_sortS, hrest, List.mem_filter] at hid
      simp only [he.name]; exact he.avail id hid.1
    · simp only [mem_sortS]; exact (hacc.pub hne).1
    · intro d hd
      simp only [mem_sortS] at hd
      simp only [he.name]; exact hds d hd

theorem buildSaneEntry_keeps (ok : W.OK) {rid newID : Str} {m : Meta} (hd : W.isDelta newID = false) (hp : W.IsPkg newID)
    (hm : m.name = (W.mOf newID).name) (hh : m.history ≠ []) :
    Keeps W tgt (buildSaneEntry rid m newID) (fun o => ∀ e, o = some e → REntry W e.name e) := by
  refine (repoGet?_keeps rid m.name).bind fun o ho => ?_
  cases o with
  | none =>
    refine Keeps.pure fun e he => ?_
    cases he
    exact ⟨rfl, List.pairwise_singleton _ _, by simp, by simp only [List.mem_singleton]; rintro _ rfl; exact ⟨hd, hp, hm.symm⟩, by simp, by simp⟩
  | some e =>
    have he := ho e rfl
    have key : Keeps W tgt (do
      match ← poolGet? e.published with
      | none => pure newID
      | some pa => do
        let nr ← getRelease m
        let pr ← getRelease pa.pkg
        if nr > pr then pure newID else pure e.published) (fun p => p = newID ∨ p = e.published) := by
      refine (poolGet?_keeps e.published).bind fun o ho => ?_
      cases o with
      | none => exact Keeps.pure (.inl rfl)
      | some pa =>
        refine (getRelease_keeps hh).bind fun _ _ => (getRelease_keeps ((ho pa rfl).hist ok)).bind fun _ _ => ?_
        split
        · exact Keeps.pure (.inl rfl)
        · exact Keeps.pure (.inr rfl)
    refine key.bind fun pub hpub => ?_
    split
    · exact Keeps.pure fun _ h => by cases h
    · rename_i hni
      refine Keeps.pure fun e' he' => ?_
      cases he'
      refine ⟨rfl, sortS_sorted _, ?_, ?_, ?_, by simp⟩
      · rw [nodup_sortS, List.nodup_append]
        refine ⟨he.nodup, by simp, ?_⟩
        intro a ha b hb; simp only [List.mem_singleton] at hb; subst hb
        rintro rfl; exact hni ha
      · intro id hid
        simp only [mem_sortS, List.mem_append, List.mem_singleton] at hid
        rcases hid with hid | rfl
        · exact he.avail id hid
        · exact ⟨hd, hp, hm.symm⟩
      · simp only [mem_sortS, List.mem_append, List.mem_singleton]
        rcases hpub with rfl | rfl
        · exact .inr rfl
        · exact .inl he.pub

theorem buildSaneEntry_reads (rid : Str) (m : Meta) (id : Str) : Reads (buildSaneEntry rid m id) := by
  refine (repoGet?_reads _ _).bind fun o => ?_
  cases o with
  | none => exact Reads.pure _
  | some e =>
    refine Reads.bind ?_ fun pub => Reads.ite (Reads.pure _) (Reads.pure _)
    refine (poolGet?_reads _).bind fun o => ?_
    cases o with
    | none => exact Reads.pure _
    | some pa => exact (getRelease_reads _).bind fun _ => (getRelease_reads _).bind fun _ => Reads.ite (Reads.pure _) (Reads.pure _)

theorem refPackage_keeps (ok : W.OK) (rid pkgID : Str) (hd : W.isDelta pkgID = false) :
    Keeps W (some rid) (refPackage W.E rid pkgID) (fun _ => True) := by
  refine (poolGet_keeps pkgID).bind fun pe hpe => (pathComp_keeps (hpe.src ok)).bind fun c _ => ?_
  refine (buildSaneEntry_keeps ok hd hpe.isPkg hpe.pname (hpe.hist ok)).bind fun o ho => ?_
  cases o with
  | none => exact Keeps.pure trivial
  | some ne =>
    exact (refEntry_keeps pkgID).bind fun _ _ => (linkOrCopy_keeps (src := .pool c pkgID) (dst := .repo rid c pkgID) ⟨rfl, rfl⟩ rfl rfl).bind fun _ _ => repoPut_keeps (ho ne rfl)

theorem addLocalPackage_at (ok : W.OK) (rid : Str) {p : Pkg} {file : Path} (hp : ROpen W p file) (hn : file.isAsset = false)
    (hd : W.isDelta p.id = false) {s : St} (hs : Rough W s) (hr : s.fs.read p.path = some (W.canon p.id)) :
    At W (some rid) (addLocalPackage W.E rid p) s (fun _ => True) := by
  have hg := ok.meta hp.isPkg
  refine (pathComp_keeps (by rw [hp.pkg]; exact hg.src) s hs).read (pathComp_reads _) fun c _ => ?_
  refine (buildSaneEntry_keeps ok hd hp.isPkg (by rw [hp.pkg]) (by rw [hp.pkg]; exact hg.hist) s hs).read (buildSaneEntry_reads _ _ _) fun o ho => ?_
  cases o with
  | none => exact Keeps.pure trivial s hs
  | some ne =>
    have hpa := poolAddInternal_at (tgt := some rid) (cd := false) (delta := none) ok hp hn (by simp [hd]) (by intro _ h; cases h) hs hr
    refine hpa.bind fun _ _ _ => ?_
    exact ((linkOrCopy_keeps (src := .pool c p.id) (dst := .repo rid c p.id) ⟨rfl, rfl⟩ rfl rfl).bind fun _ _ => repoPut_keeps (ho ne rfl)) _ hpa.fin

theorem addPackage_keeps (ok : W.OK) (hz : W.NoTorn) (rid : Str) {file : Path} {strict : Bool} (hn : file.isAsset = false)
    (hd : W.isDelta file.base = false) : Keeps W (some rid) (addPackage W.E rid file strict) (fun _ => True) := by
  intro s hs
  refine (openPkg_at ok hz hn hs).read (openPkg_reads _ _) fun p hp => ?_
  obtain ⟨hp, hr⟩ := hp
  have hal := addLocalPackage_at ok rid hp hn (by rw [hp.id]; exact hd) hs hr
  split
  · exact hal
  · refine (repoGet?_keeps rid p.pkg.name s hs).read (repoGet?_reads _ _) fun o _ => ?_
    cases o with
    | none => exact hal
    | some l =>
      refine (poolGet_keeps l.published s hs).read (poolGet_reads _) fun pub hpub => (getRelease_keeps (hpub.hist ok) s hs).read (getRelease_reads _) fun pr _ => ?_
      refine (getRelease_keeps (by rw [hp.pkg]; exact (ok.meta hp.isPkg).hist) s hs).read (getRelease_reads _) fun nr _ => ?_
      split
      · exact Keeps.throw s hs
      · split
        · exact Keeps.throw s hs
        · exact hal

theorem pullAsset_keeps (dst src : Str) (a : Asset) : Keeps W (some dst) (pullAsset dst src a) (fun _ => True) := by
  refine Keeps.getSt.bind fun s _ => ?_
  cases s.fs.tab (.asset src a) with
  | none => exact Keeps.pure trivial
  | some _ => exact copyFile_keeps ⟨rfl, rfl⟩ rfl

theorem pullAssets_keeps (dst src : Str) : Keeps W (some dst) (pullAssets dst src) (fun _ => True) :=
  (pullAsset_keeps dst src _).bind fun _ _ => (pullAsset_keeps dst src _).bind fun _ _ => pullAsset_keeps dst src _

theorem cloneFrom_keeps (ok : W.OK) (dst src : Str) (full : Bool) : Keeps W (some dst) (cloneFrom W.E dst src full) (fun _ => True) := by
  refine (pullAssets_keeps dst src).bind fun _ _ => (repoEntries_keeps src).bind fun es hes => ?_
  refine (Keeps.forL ?_).bind fun _ _ => Keeps.forL ?_
  · intro id hid
    refine refPackage_keeps ok dst id ?_
    cases full with
    | true =>
      simp only [if_true, List.mem_flatMap] at hid
      obtain ⟨e, he, hi⟩ := hid
      exact ((hes e he).avail id hi).1
    | false =>
      simp only [Bool.false_eq_true, if_false, List.mem_map] at hid
      obtain ⟨e, he, rfl⟩ := hid
      exact ((hes e he).avail _ (hes e he).pub).1
  · intro d hd
    refine refDelta_keeps ok dst d ?_
    cases full with
    | true =>
      simp only [if_true, List.mem_flatMap] at hd
      obtain ⟨e, he, hi⟩ := hd
      exact ((hes e he).deltas d hi).1
    | false => simp at hd

theorem pullOne_keeps (ok : W.OK) (dst : Str) {e : RepoEntry} (he : REntry W e.name e) :
    Keeps W tgt (pullOne dst e) (fun o => ∀ x ∈ o, W.isDelta x.1 = false) := by
  have hpub := (he.avail _ he.pub).1
  refine (repoGet?_keeps dst e.name).bind fun o _ => ?_
  cases o with
  | none => exact Keeps.pure (by simpa using hpub)
  | some l =>
    refine (poolGet_keeps e.published).bind fun a ha => (poolGet_keeps l.published).bind fun b hb => ?_
    refine (getRelease_keeps (ha.hist ok)).bind fun tr _ => (getRelease_keeps (hb.hist ok)).bind fun orl _ => ?_
    split
    · exact Keeps.throw
    · split
      · exact Keeps.pure (by simpa using hpub)
      · exact Keeps.pure (by simp)

theorem pullFrom_keeps (ok : W.OK) (dst src : Str) : Keeps W (some dst) (pullFrom W.E dst src) (fun _ => True) := by
  refine (pullAssets_keeps dst src).bind fun _ _ => (repoEntries_keeps src).bind fun es hes => ?_
  refine (Keeps.collectL fun e he => pullOne_keeps ok dst (hes e he)).bind fun todo ht => ?_
  refine (Keeps.forL ?_).bind fun _ _ => Keeps.pure trivial
  intro id hid
  obtain ⟨x, hx, rfl⟩ := List.mem_map.1 hid
  exact refPackage_keeps ok dst _ (ht x hx)

theorem matchingSource_keeps (ok : W.OK) (rid source : Str) (release : Int) :
    Keeps W tgt (matchingSource rid source release) (fun o => ∀ id ∈ o, W.isDelta id = false) := by
  refine (repoEntries_keeps rid).bind fun es hes => ?_
  refine Keeps.collectL fun e he => Keeps.collectL fun id hid => ?_
  have hd := ((hes e he).avail id hid).1
  refine (poolGet_keeps id).bind fun pe hpe => ?_
  split
  · exact Keeps.pure (by simp)
  · split
    · refine (getRelease_keeps (hpe.hist ok)).bind fun r _ => ?_
      split
      · exact Keeps.pure (by simp)
      · exact Keeps.pure (by simpa using hd)
    · exact Keeps.pure (by simpa using hd)

theorem removeSource_keeps (ok : W.OK) (rid source : Str) (release : Int) :
    Keeps W (some rid) (removeSource rid source release) (fun _ => True) := by
  refine (matchingSource_keeps ok rid source release).bind fun ids _ => ?_
  split
  · exact Keeps.throw
  · exact Keeps.forL fun id _ => unrefPackage_keeps ok rid id

theorem copySourceFrom_keeps (ok : W.OK) (dst src source : Str) (release : Int) :
    Keeps W (some dst) (copySourceFrom W.E dst src source release) (fun _ => True) := by
  refine (matchingSource_keeps ok src source release).bind fun ids h => ?_
  split
  · exact Keeps.throw
  · exact Keeps.forL fun id hid => refPackage_keeps ok dst id (h id hid)

theorem initDistribution_keeps (E : Env) (rid : Str) : Keeps W tgt (initDistribution E rid) (fun _ => True) := by
  refine Keeps.getSt.bind fun s _ => ?_
  cases s.fs.read (.asset rid .distribution) with
  | none => exact Keeps.pure trivial
  | some c =>
    simp only
    cases E.parseDist c with
    | none => exact Keeps.throw
    | some d => exact Keeps.pure trivial

theorem trimObsoleteScan_keeps (obs : List Str) (n : Str) : ∀ l, Keeps W tgt (trimObsoleteScan obs n l) (fun _ => True) := by
  intro l
  induction l with
  | nil => exact Keeps.pure trivial
  | cons id ids ih =>
    refine (poolGet_keeps id).bind fun pe _ => ?_
    split
    · split <;> exact Keeps.pure trivial
    · exact ih

theorem trimObsolete_keeps (ok : W.OK) (rid : Str) : Keeps W (some rid) (trimObsolete W.E rid) (fun _ => True) := by
  refine (initDistribution_keeps W.E rid).bind fun o _ => ?_
  cases o with
  | none => exact Keeps.throw
  | some obs =>
    refine (repoEntries_keeps rid).bind fun es _ => ?_
    refine (Keeps.mono (Keeps.collectL (Q := fun _ => True) fun e _ => (trimObsoleteScan_keeps obs e.name e.available).mono fun _ _ _ _ => trivial) (fun _ _ => trivial)).bind fun ids _ => ?_
    exact Keeps.forL fun id _ => unrefPackage_keeps ok rid id

theorem trimScan_keeps (ok : W.OK) (k : Nat) (e : RepoEntry) : Keeps W tgt (trimScan W.E k e) (fun _ => True) := by
  unfold trimScan
  split
  · exact Keeps.pure trivial
  · refine (Keeps.collectL (Q := fun _ => True) fun id _ => (poolGet_keeps id).bind fun pe hpe => ?_).bind fun c _ => Keeps.pure trivial
    have : Keeps W tgt (if e.available.length > 1 then getRelease pe.pkg else pure 0) (fun _ => True) := by
      split
      · exact (getRelease_keeps (hpe.hist ok)).mono fun _ _ => trivial
      · exact Keeps.pure trivial
    exact this.bind fun _ _ => Keeps.pure fun _ _ => trivial

theorem trimPackages_keeps (ok : W.OK) (rid : Str) (k : Int) : Keeps W (some rid) (trimPackages W.E rid k) (fun _ => True) := by
  unfold trimPackages
  split
  · exact Keeps.throw
  · refine (repoEntries_keeps rid).bind fun es _ => ?_
    refine (Keeps.mono (Keeps.collectL (Q := fun _ => True) fun e _ => (trimScan_keeps ok _ e).mono fun _ _ _ _ => trivial) (fun _ _ => trivial)).bind fun ids _ => ?_
    exact Keeps.forL fun id _ => unrefPackage_keeps ok rid id

theorem rmRepoTree_keeps (rid : Str) : Keeps W (some rid) (rmRepoTree rid) (fun _ => True) := by
  intro s hs
  refine At.step ?_ ?_
  · refine ⟨hs.db, hs.fs.removed rfl rfl ?_, ?_, hs.pend⟩
    · intro p i hp
      simp only [St.setFs_fs] at hp
      cases p <;> simp only at hp
      · exact hp
      · exact hp
      · split at hp
        · cases hp
        · exact hp
      · exact hp
      · exact hp
    · intro r doc hd
      simp only [St.setFs_fs] at hd
      split at hd
      · cases hd
      · exact hs.idx r doc hd
  · intro r hr
    have hne : r ≠ rid := fun h => hr (by rw [h])
    exact Same.ofFs ⟨by simp [hne], fun d id => by simp [hne], fun _ => rfl, fun _ => rfl, fun _ => rfl⟩

theorem rmRepoAux_keeps (rid : Str) : Keeps W (some rid) (rmRepoAux rid) (fun _ => True) := by
  intro s hs
  refine At.step ?_ ?_
  · refine hs.setFs (hs.fs.removed rfl rfl ?_) rfl
    intro p i hp
    cases p <;> simp only at hp
    · exact hp
    · exact hp
    · exact hp
    · split at hp
      · cases hp
      · exact hp
    · split at hp
      · cases hp
      · exact hp
  · intro r hr
    have hne : r ≠ rid := fun h => hr (by rw [h])
    exact Same.ofFs ⟨rfl, fun d id => rfl, fun _ => by simp [hne], fun _ => by simp [hne], fun _ => by simp [FS.read, hne]⟩

theorem deleteRepoBody_keeps (ok : W.OK) (rid : Str) : Keeps W (some rid) (deleteRepoBody rid) (fun _ => True) := by
  have av : ∀ r, some rid ≠ some r → rid ≠ r := fun r h e => h (by rw [e])
  refine (repoEntries_keeps rid).bind fun es hes => ?_
  refine (Keeps.forL fun e _ => ?_).bind fun _ _ => dbWrite_keeps trivial av
  exact (Keeps.forL fun id _ => removePackageInternal_keeps ok _ _ id).bind fun _ _ =>
    (Keeps.forL fun id _ => removePackageInternal_keeps ok _ _ id).bind fun _ _ => dbWrite_keeps trivial av

theorem deleteRepo_keeps (ok : W.OK) (rid : Str) : Keeps W (some rid) (deleteRepo rid) (fun _ => True) :=
  (getRepo_keeps rid).bind fun _ _ => (cache_keeps (fun l => l.filter (· ≠ rid))).bind fun _ _ =>
    (dbUpdate_keeps (deleteRepoBody_keeps ok rid)).bind fun _ _ => (rmRepoTree_keeps rid).bind fun _ _ => rmRepoAux_keeps rid

/-! ## Index -/

theorem At.mono {m : M α} {s : St} {Q R : α → Prop} (h : At W tgt m s Q) (hq : ∀ a, Q a → R a) : At W tgt m s R :=
  ⟨h.np, h.fin, h.fsame, h.tr, h.tsame, fun a ha => hq a (h.val a ha)⟩

theorem At.collect {γ δ : Type} {l : List γ} {f : γ → M (List δ)} {g : γ → List δ} {s : St} (hs : Rough W s)
    (hr : ∀ x ∈ l, Reads (f x)) (h : ∀ x ∈ l, At W tgt (f x) s (fun o => o = g x)) :
    At W tgt (collectL l f) s (fun o => o = l.flatMap g) := by
  induction l with
  | nil => exact At.pure hs rfl
  | cons x xs ih =>
    refine (h x (by simp)).read (hr x (by simp)) fun a ha => ?_
    refine (ih (fun y hy => hr y (by simp [hy])) (fun y hy => h y (by simp [hy]))).read
      (Reads.collectL fun y hy => hr y (by simp [hy])) fun b hb => At.pure hs ?_
    rw [ha, hb, List.flatMap_cons]

theorem poolGet_at (id : Str) {s : St} (hs : Rough W s) :
    At W tgt (poolGet id) s (fun pe => s.db.pool.get id = some pe ∧ RPool W id pe) := by
  have h0 : At W tgt (poolGet? id) s (fun o => o = s.db.pool.get id) := At.getSt (At.pure hs rfl)
  refine h0.read (poolGet?_reads _) fun o ho => ?_
  cases o with
  | none => exact Keeps.throw s hs
  | some e => exact At.pure hs ⟨ho.symm, hs.db.pool id e ho.symm⟩

theorem repoGet_at (rid n : Str) {s : St} (hs : Rough W s) :
    At W tgt (repoGet rid n) s (fun e => (s.db.ents rid).get n = some e ∧ REntry W n e) := by
  have h0 : At W tgt (repoGet? rid n) s (fun o => o = (s.db.ents rid).get n) := At.getSt (At.pure hs rfl)
  refine h0.read (repoGet?_reads _ _) fun o ho => ?_
  cases o with
  | none => exact Keeps.throw s hs
  | some e => exact At.pure hs ⟨ho.symm, hs.db.ent rid n e ho.symm⟩

theorem pushDeltas_reads (rid : Str) (pe : PoolEntry) : Reads (pushDeltas rid pe) := by
  refine (repoGet_reads _ _).bind fun re => Reads.collectL fun d _ => (poolGet_reads d).bind fun pd => ?_
  cases pd.delta with
  | none => exact Reads.throw _
  | some di => exact (getRelease_reads _).bind fun _ => Reads.ite (Reads.pure _) (Reads.pure _)

theorem filterMap_flat {γ δ : Type} (l : List γ) (f : γ → Option δ) : l.filterMap f = l.flatMap fun x => (f x).toList := by
  induction l with
  | nil => rfl
  | cons x xs ih => rw [List.filterMap_cons, List.flatMap_cons, ih]; cases f x <;> simp

theorem pushDeltas_at (ok : W.OK) (rid : Str) {id : Str} {pe : PoolEntry} (h : RPool W id pe) {s : St} (hs : Rough W s) :
    At W tgt (pushDeltas rid pe) s (fun o => ∃ e, (s.db.ents rid).get (W.mOf id).name = some e ∧ o = W.docDeltas s e (W.mOf id).rel) := by
  refine (repoGet_at rid pe.pkg.name hs).read (repoGet_reads _ _) fun re hre => ?_
  rw [h.pname] at hre
  refine At.mono (At.collect (g := fun d => (match s.db.pool.get d with
    | some pd => match pd.delta with
      | some di => if di.toRelease = (W.mOf id).rel then
          some (⟨di.fromRelease, (W.stamped d).uri, (W.stamped d).size, (W.stamped d).hash⟩ : DocDelta) else none
      | none => none
    | none => none).toList) hs ?_ ?_) ?_
  · intro d _
    refine (poolGet_reads d).bind fun pd => ?_
    cases pd.delta with
    | none => exact Reads.throw _
    | some di => exact (getRelease_reads _).bind fun _ => Reads.ite (Reads.pure _) (Reads.pure _)
  · intro d hd
    refine (poolGet_at d hs).read (poolGet_reads d) fun pd hpd => ?_
    rw [hpd.1]
    cases hx : pd.delta with
    | none => exact Keeps.throw s hs
    | some di =>
      refine (getRelease_keeps (h.hist ok) s hs).read (getRelease_reads _) fun rel hrel => ?_
      rw [hrel, h.rel]
      split
      · rename_i hne
        refine At.pure hs ?_
        simp only [hx]
        rw [if_neg hne]; rfl
      · rename_i heq
        refine At.pure hs ?_
        simp only [hx]
        rw [if_pos (Decidable.not_not.1 heq), hpd.2.pkg]; rfl
  · rintro o rfl
    exact ⟨re, hre.1, (filterMap_flat _ _).symm⟩

theorem emitPackage_reads (rid : Str) (dist : Option (List Str)) (pe : PoolEntry) : Reads (emitPackage rid dist pe) :=
  Reads.ite (Reads.pure _) ((pushDeltas_reads _ _).bind fun _ => Reads.pure _)

theorem emitPackage_at (ok : W.OK) (rid : Str) (dist : Option (List Str)) {id : Str} {pe : PoolEntry} (h : RPool W id pe) {s : St}
    (hs : Rough W s) : At W tgt (emitPackage rid dist pe) s
      (fun o => o = if (dist.getD []).contains (stripDbg (W.mOf id).name) then [] else [W.docPkg s rid id]) := by
  unfold emitPackage
  rw [h.pname]
  split
  · exact At.pure hs rfl
  · refine (pushDeltas_at ok rid h hs).read (pushDeltas_reads _ _) fun ds hds => At.pure hs ?_
    obtain ⟨e, he, rfl⟩ := hds
    have ho : (W.stamped id).own = [] := (ok.meta h.isPkg).own
    simp only [World.docPkg, he, h.name, h.pkg, ho]
    split
    · rename_i h0; rw [h0]
    · rfl

theorem emitAsset_reads (p : Content → ParsedAsset) (rid : Str) (a : Asset) : Reads (emitAsset p rid a) := Reads.getSt.bind fun s => by
  cases s.fs.read (.asset rid a) with
  | none => exact Reads.pure _
  | some c =>
    simp only
    cases p c with
    | bad => exact Reads.throw _
    | crash => exact Reads.panic
    | good l => exact Reads.pure _

theorem emitAsset_at (p : Content → ParsedAsset) (hp : ∀ c, p c ≠ .crash) (rid : Str) (a : Asset) {s : St} (hs : Rough W s) :
    At W tgt (emitAsset p rid a) s (fun l => elementsOf p s rid a = some l) := by
  refine At.getSt ?_
  unfold elementsOf
  cases s.fs.read (.asset rid a) with
  | none => exact At.pure hs rfl
  | some c =>
    simp only
    cases hc : p c with
    | bad => exact Keeps.throw s hs
    | crash => exact absurd hc (hp c)
    | good l => exact At.pure hs rfl

theorem initDistribution_reads (E : Env) (rid : Str) : Reads (initDistribution E rid) := Reads.getSt.bind fun s => by
  cases s.fs.read (.asset rid .distribution) with
  | none => exact Reads.pure _
  | some c =>
    simp only
    cases E.parseDist c with
    | none => exact Reads.throw _
    | some d => exact Reads.pure _

theorem initDistribution_at (rid : Str) {s : St} (hs : Rough W s) :
    At W tgt (initDistribution W.E rid) s (fun d => W.distOf s rid = some d) := by
  refine At.getSt ?_
  unfold World.distOf
  cases s.fs.read (.asset rid .distribution) with
  | none => exact At.pure hs rfl
  | some c =>
    simp only
    cases hc : W.E.parseDist c with
    | none => exact Keeps.throw s hs
    | some d => exact At.pure hs rfl

theorem flatMap_if {γ δ : Type} (l : List γ) (p : γ → Bool) (g : γ → δ) :
    (l.flatMap fun x => if p x then [] else [g x]) = (l.filter fun x => !p x).map g := by
  induction l with
  | nil => rfl
  | cons x xs ih =>
    rw [List.flatMap_cons, ih, List.filter_cons]
    cases p x <;> simp

theorem emitIndex_reads (E : Env) (rid : Str) (dist : Option (List Str)) : Reads (emitIndex E rid dist) :=
  (repoEntries_reads _).bind fun _ => (Reads.collectL fun _ _ => (poolGet_reads _).bind fun _ => emitPackage_reads _ _ _).bind fun _ =>
    (emitAsset_reads _ _ _).bind fun _ => (emitAsset_reads _ _ _).bind fun _ => Reads.pure _

/-- When the collecting succeeds, from whatever rough state, the document is the right one. -/
theorem emitIndex_at (ok : W.OK) (rid : Str) (dist : Option (List Str)) {s : St} (hs : Rough W s) :
    At W tgt (emitIndex W.E rid dist) s (fun doc => doc = W.docOf s rid dist ∧ W.compsOk s rid = true) := by
  unfold emitIndex
  have he : At W tgt (repoEntries rid) s (fun es => es = (s.db.ents rid).map Prod.snd) := At.getSt (At.pure hs rfl)
  refine he.read (repoEntries_reads _) fun es hes => ?_
  subst hes
  simp only
  refine (At.collect (g := fun id => if (dist.getD []).contains (stripDbg (W.mOf id).name) then [] else [W.docPkg s rid id]) hs
    (fun _ _ => (poolGet_reads _).bind fun _ => emitPackage_reads _ _ _) ?_).read
    (Reads.collectL fun _ _ => (poolGet_reads _).bind fun _ => emitPackage_reads _ _ _) fun pkgs hp => ?_
  · intro id _
    exact (poolGet_at id hs).read (poolGet_reads _) fun pe hpe => emitPackage_at ok rid dist hpe.2 hs
  · refine (emitAsset_at _ ok.comps_no_crash rid .components hs).read (emitAsset_reads _ _ _) fun c hc => ?_
    refine (emitAsset_at _ ok.groups_no_crash rid .groups hs).read (emitAsset_reads _ _ _) fun g hg => At.pure hs ?_
    refine ⟨?_, ?_⟩
    · unfold World.docOf World.docIds
      rw [hc, hg, hp, flatMap_if]; rfl
    · unfold World.compsOk; rw [hc, hg]; rfl

/-! ## The document, in any rough state -/

theorem Rough.nodup_pub (h : Rough W s) (r : Str) : (((s.db.ents r).map Prod.snd).map RepoEntry.published).Nodup := by
  have hk := (h.db.wfEnts r).nodup_keys
  have key : ∀ l : List (Str × RepoEntry), (l.map Prod.fst).Nodup →
      (∀ p ∈ l, (s.db.ents r).get p.1 = some p.2) → ((l.map Prod.snd).map RepoEntry.published).Nodup := by
    intro l
    induction l with
    | nil => intro _ _; simp
    | cons p ps ih =>
      intro hn hm
      simp only [List.map_cons, List.nodup_cons] at hn ⊢
      refine ⟨?_, ih hn.2 (fun q hq => hm q (by simp [hq]))⟩
      intro hmem
      simp only [List.mem_map] at hmem
      obtain ⟨e, ⟨q, hq, rfl⟩, he⟩ := hmem
      have e1 := h.db.ent r _ _ (hm p (by simp))
      have e2 := h.db.ent r _ _ (hm q (by simp [hq]))
      apply hn.1
      rw [← (e1.avail _ e1.pub).2.2, ← he, (e2.avail _ e2.pub).2.2]
      exact List.mem_map_of_mem hq
  exact key _ hk (fun p hp => KV.get_of_mem (h.db.wfEnts r) (by cases p; exact hp))

theorem Rough.nodup_docIds (h : Rough W s) (r : Str) (obs : List Str) : (W.docIds s r obs).Nodup := by
  unfold World.docIds
  refine List.Pairwise.filter _ ?_
  show (sortS _).Nodup
  rw [nodup_sortS]
  exact ((List.filter_sublist (l := (s.db.ents r).map Prod.snd) (p := fun e => !obs.contains e.name)).map RepoEntry.published).nodup (h.nodup_pub r)

open Spec in
theorem Rough.mem_docIds (h : Rough W s) (r : Str) (obs : List Str) (id : Str) :
    id ∈ W.docIds s r obs ↔ ∃ n, Tip s r n id ∧ ¬ Hidden obs n := by
  simp only [World.docIds, List.mem_filter, mem_sortS, List.mem_map]
  constructor
  · rintro ⟨⟨e, ⟨⟨p, hm, rfl⟩, ho⟩, rfl⟩, hs⟩
    obtain ⟨n, e⟩ := p
    have hge := KV.get_of_mem (h.db.wfEnts r) hm
    have he := h.db.ent r n e hge
    refine ⟨n, ⟨e, hge, rfl⟩, ?_⟩
    rw [hidden_iff]
    have hn := (he.avail _ he.pub).2.2
    rw [hn] at hs
    have hnm := he.name
    simp only [hnm] at ho
    simp_all
  · rintro ⟨n, ⟨e, hge, rfl⟩, hh⟩
    have he := h.db.ent r n e hge
    have hn := (he.avail _ he.pub).2.2
    rw [hidden_iff] at hh
    refine ⟨⟨e, ⟨⟨(n, e), KV.mem_of_get hge, rfl⟩, ?_⟩, rfl⟩, ?_⟩
    · rw [he.name]; simp_all
    · rw [hn]; simp_all

theorem Rough.doc (h : Rough W s) (r : Str) (dist : Option (List Str)) : RDoc W (W.docOf s r dist) := by
  refine ⟨?_, ?_, ?_, ?_⟩
  · show SortedS ((List.map _ _).map DocPkg.id)
    rw [map_docPkg_id]; exact sorted_docIds r _
  · show ((List.map _ _).map DocPkg.id).Nodup
    rw [map_docPkg_id]; exact h.nodup_docIds r _
  · intro p hp
    obtain ⟨id, hid, rfl⟩ := List.mem_map.1 hp
    obtain ⟨n, ⟨e, hg, rfl⟩, _⟩ := (h.mem_docIds r _ id).1 hid
    have he := h.db.ent r n e hg
    have := he.avail _ he.pub
    exact ⟨this.1, this.2.1, rfl⟩
  · intro p hp x hx
    obtain ⟨id, hid, rfl⟩ := List.mem_map.1 hp
    simp only [World.docPkg] at hx ⊢
    cases hg : (s.db.ents r).get (W.mOf id).name with
    | none => rw [hg] at hx; simp at hx
    | some e =>
      rw [hg] at hx
      simp only [World.docDeltas, List.mem_filterMap] at hx
      obtain ⟨d, hd, hm⟩ := hx
      have hde := (h.db.ent r _ e hg).deltas d hd
      refine ⟨d, hde.1, hde.2.2, ?_⟩
      cases hp : s.db.pool.get d with
      | none => rw [hp] at hm; cases hm
      | some pd =>
        rw [hp] at hm
        cases hdi : pd.delta with
        | none => simp only [hdi] at hm; cases hm
        | some di =>
          simp only [hdi] at hm
          split at hm
          · cases hm; exact ⟨rfl, rfl, rfl⟩
          · cases hm

/-- Publishing a document. -/
def St.publish (s : St) (rid : Str) (doc : Doc) : St :=
  s.setFs { s.fs with idx := fun r => if r = rid then some doc else s.fs.idx r }

theorem Rough.publish (h : Rough W s) (rid : Str) {doc : Doc} (hd : RDoc W doc) : Rough W (s.publish rid doc) := by
  refine ⟨h.db, ⟨h.fs.fresh, h.fs.owner, h.fs.content⟩, ?_, h.pend⟩
  intro r d hr
  simp only [St.publish, St.setFs_fs] at hr
  split at hr
  · cases hr; exact hd
  · exact h.idx r d hr

theorem Same.publish (s : St) {rid r : Str} (doc : Doc) (h : some rid ≠ some r) : Same r s (s.publish rid doc) := by
  have hne : r ≠ rid := fun e => h (by rw [e])
  exact Same.ofFs ⟨by simp [hne], fun _ _ => rfl, fun _ => rfl, fun _ => rfl, fun _ => rfl⟩

theorem Rough.tick (h : Rough W s) : Rough W { s with clock := s.clock + 1 } := ⟨h.db, h.fs, h.idx, h.pend⟩
theorem Same.tick (r : Str) (s : St) : Same r s { s with clock := s.clock + 1 } := ⟨⟨rfl, rfl⟩, SameFs.refl r _, fun h => h⟩

theorem indexRepo_keeps (ok : W.OK) (rid : Str) : Keeps W (some rid) (indexRepo W.E rid) (fun _ => True) := by
  intro s hs
  refine (initDistribution_at rid hs).read (initDistribution_reads _ _) fun dist _ => ?_
  refine (emitIndex_at ok rid dist hs).read (emitIndex_reads _ _ _) fun doc hdoc => ?_
  obtain ⟨rfl, _⟩ := hdoc
  refine At.getSt ?_
  have ht : At W (some rid) (volM (fun s => { s with clock := s.clock + 1 })) s (fun _ => True) := At.vol hs.tick (fun r _ => Same.tick r s)
  refine ht.bind fun _ _ _ => ?_
  have hpub : Keeps W (some rid) (stepM fun s' => s'.setFs { s'.fs with idx := fun r => if r = rid then some (W.docOf s rid dist) else s'.fs.idx r }) (fun _ => True) :=
    fun s' hs' => At.step (hs'.publish rid (hs.doc rid dist)) (fun r hr => Same.publish s' _ hr)
  cases W.E.indexIO s.clock with
  | failBefore => exact Keeps.throw _ ht.fin
  | ok => exact hpub _ ht.fin
  | failAfter => exact (hpub.bind fun _ _ => Keeps.throw) _ ht.fin

/-! ## Jobs -/

theorem mIndex_keeps (ok : W.OK) (rid : Str) : Keeps W (some rid) (mIndex W.E rid) (fun _ => True) :=
  (getRepo_keeps rid).bind fun _ _ => indexRepo_keeps ok rid

theorem Keeps.putFile {p : Path} {c : Content} (hc : p.isAsset = false → c = W.canon p.base) (hd : p.inTgt tgt) :
    Keeps W tgt (stepM fun s => s.putFile p c) (fun _ => True) := by
  intro s hs
  refine At.step (hs.setFs (hs.fs.fresh_ (dst := p) (c := c) fun h => ?_) rfl) (fun r hr => Same.ofFs (SameFs.fresh_ hs.fs hd hr))
  rw [hc h]; exact List.prefix_rfl

/-- Every operation, at each of its steps, from every rough state. -/
theorem Op.keeps (ok : W.OK) (hz : W.NoTorn) (o : Op) (ho : o.Ok W) : Keeps W o.target (o.run W.E) (fun _ => True) := by
  cases o with
  | create r => exact (createRepo_keeps r).bind fun _ _ => mIndex_keeps ok r
  | delete r => exact deleteRepo_keeps ok r
  | clone a b f =>
    exact (getRepo_keeps a).bind fun _ _ => (createRepo_keeps b).bind fun _ _ => (cloneFrom_keeps ok b a f).bind fun _ _ => mIndex_keeps ok b
  | pull a b =>
    refine Keeps.bind (Q := fun _ => True) ?_ fun _ _ => Keeps.pure trivial
    exact (getRepo_keeps a).bind fun _ _ => (getRepo_keeps b).bind fun _ _ => (pullFrom_keeps ok b a).bind fun _ _ =>
      (mIndex_keeps ok b).bind fun _ _ => Keeps.pure (Q := fun _ => True) trivial
  | removeSource r n k =>
    exact (getRepo_keeps r).bind fun _ _ => (removeSource_keeps ok r n k).bind fun _ _ => mIndex_keeps ok r
  | copySource a b n k sk =>
    refine (getRepo_keeps a).bind fun _ _ => (getRepo_keeps b).bind fun _ _ => (copySourceFrom_keeps ok b a n k).bind fun _ _ => ?_
    cases sk with
    | true => exact mIndex_keeps ok b
    | false => exact Keeps.pure trivial
  | trimObsolete r => exact (getRepo_keeps r).bind fun _ _ => (trimObsolete_keeps ok r).bind fun _ _ => mIndex_keeps ok r
  | trimPackages r k => exact (getRepo_keeps r).bind fun _ _ => (trimPackages_keeps ok r k).bind fun _ _ => mIndex_keeps ok r
  | addPackages r fs st =>
    exact (getRepo_keeps r).bind fun _ _ => (Keeps.forL fun f hf => addPackage_keeps ok hz r (file := .ext f) rfl (ho f hf)).bind fun _ _ =>
      mIndex_keeps ok r
  | index r => exact mIndex_keeps ok r
  | addDelta r d f t =>
    exact (getRepo_keeps r).bind fun _ _ => addDelta_keeps ok hz r (file := .stage r d) rfl ho.1 ho.2.1 ho.2.2
  | refDelta r d => exact (getRepo_keeps r).bind fun _ _ => refDelta_keeps ok r d ho
  | markFailed i d => exact markDeltaFailed_keeps i d
  | upload f c => exact Keeps.putFile (fun _ => ho) trivial
  | unlink f => exact removeFile_keeps trivial
  | putAsset r a c => exact Keeps.putFile (fun h => by cases h) rfl
  | stage r d c => exact Keeps.putFile (fun _ => ho) rfl
  | unstage r d => exact removeFile_keeps rfl
  | restart =>
    intro s hs
    exact At.step hs.crash fun r _ => ⟨⟨rfl, rfl⟩, SameFs.refl r _, fun _ _ h => by simp [St.crash] at h⟩

end Ferryd
