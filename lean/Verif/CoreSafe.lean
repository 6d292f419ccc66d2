import Verif.PropsRough
/-!
# CoreSafe: histories in which no removal is cut short

The invariant `Safe`: a package (or delta) that repositories list has a pool record, whose count is at least the number of those repositories,
and the published release of a name is the highest listed.  A stop at any point of a job that adds or deletes a repository keeps it (counts can only become too
high); a removal keeps it if it comes to its end.
-/
namespace Ferryd
open Spec
variable {W : World} {s t : St} {α β : Type} {tgt : Option Str}

/-- Repository `r` lists `id`, as a package or as a delta. -/
def Holds (d : DB) (r id : Str) : Prop := ∃ n e, (d.ents r).get n = some e ∧ (id ∈ e.available ∨ id ∈ e.deltas)

structure Safe (W : World) (d : DB) : Prop where
  cover : ∀ id (L : List Str), L.Nodup → (∀ r ∈ L, Holds d r id) → L ≠ [] → ∃ pe, d.pool.get id = some pe ∧ L.length ≤ pe.refCount
  top : ∀ r n e, (d.ents r).get n = some e → ∀ x ∈ e.available, (W.mOf x).rel ≤ (W.mOf e.published).rel
  dnd : ∀ r n e, (d.ents r).get n = some e → e.deltas.Nodup

theorem Holds.congr {d d' : DB} (h : d'.ents = d.ents) (r id : Str) : Holds d' r id ↔ Holds d r id := by unfold Holds; rw [h]

theorem Safe.congr {d d' : DB} (h : Safe W d) (hp : d'.pool = d.pool) (he : d'.ents = d.ents) : Safe W d' := by
  refine ⟨?_, ?_, ?_⟩
  · intro id L; simp only [Holds.congr he, hp]; exact h.cover id L
  · rw [he]; exact h.top
  · rw [he]; exact h.dnd

theorem Safe.pool (h : Safe W s.db) {r id : Str} (hh : Holds s.db r id) : ∃ pe, s.db.pool.get id = some pe ∧ 1 ≤ pe.refCount :=
  h.cover id [r] (by simp) (by simpa using hh) (by simp)

/-- One more repository may list `id`. -/
def Room (d : DB) (id r : Str) : Prop :=
  ∀ L : List Str, L.Nodup → (∀ x ∈ L, Holds d x id ∧ x ≠ r) → ∃ pe, d.pool.get id = some pe ∧ L.length + 1 ≤ pe.refCount

theorem Safe.room {d : DB} (h : Safe W d) {id r : Str} (hh : Holds d r id) : Room d id r := by
  intro L hn hL
  exact h.cover id (r :: L) (List.nodup_cons.2 ⟨fun hr => (hL r hr).2 rfl, hn⟩)
    (by rintro x (_ | ⟨_, hx⟩); exact hh; exact (hL x ‹_›).1) (by simp)

theorem Room.congr {d d' : DB} {id r : Str} (h : Room d id r) (hp : d'.pool = d.pool) (he : d'.ents = d.ents) : Room d' id r := by
  intro L hn hL
  simp only [Holds.congr he] at hL
  rw [hp]; exact h L hn hL

theorem holds_put {d d' : DB} {r x id n : Str} {e : RepoEntry} (hd : d'.ents = setEnts d.ents r ((d.ents r).put n e)) :
    Holds d' x id → Holds d x id ∨ (x = r ∧ (id ∈ e.available ∨ id ∈ e.deltas)) := by
  rintro ⟨n', e', hg, hi⟩
  rw [hd] at hg
  unfold setEnts at hg
  split at hg
  · rename_i hx
    subst hx
    rw [KV.get_put] at hg
    split at hg
    · cases hg; exact .inr ⟨rfl, hi⟩
    · exact .inl ⟨n', e', hg, hi⟩
  · exact .inl ⟨n', e', hg, hi⟩

theorem Safe.put {d d' : DB} (h : Safe W d) {r n : Str} {e : RepoEntry} (hp : d'.pool = d.pool)
    (hd : d'.ents = setEnts d.ents r ((d.ents r).put n e)) (hr : ∀ id, id ∈ e.available ∨ id ∈ e.deltas → Room d id r)
    (ht : ∀ x ∈ e.available, (W.mOf x).rel ≤ (W.mOf e.published).rel) (hn : e.deltas.Nodup) : Safe W d' := by
  have hget : ∀ x n' e', (d'.ents x).get n' = some e' → (d.ents x).get n' = some e' ∨ e' = e := by
    intro x n' e' hg
    rw [hd] at hg; unfold setEnts at hg
    split at hg
    · rename_i hx
      subst hx
      rw [KV.get_put] at hg
      split at hg
      · cases hg; exact .inr rfl
      · exact .inl hg
    · exact .inl hg
  refine ⟨?_, ?_, ?_⟩
  · intro id L hnd hL hne
    rw [hp]
    by_cases hrL : r ∈ L
    · have hroom : Room d id r := by
        rcases holds_put hd (hL r hrL) with h1 | ⟨_, h1⟩
        · exact h.room h1
        · exact hr id h1
      obtain ⟨pe, h1, h2⟩ := hroom (L.erase r) (hnd.erase r) (by
        intro x hx
        have hxr : x ≠ r := (List.Nodup.mem_erase_iff hnd).1 hx |>.1
        have hxL := List.mem_of_mem_erase hx
        rcases holds_put hd (hL x hxL) with h1 | ⟨h1, _⟩
        · exact ⟨h1, hxr⟩
        · exact absurd h1 hxr)
      refine ⟨pe, h1, ?_⟩
      have := List.length_erase_of_mem hrL
      have := List.length_pos_of_mem hrL
      omega
    · refine h.cover id L hnd (fun x hx => ?_) hne
      rcases holds_put hd (hL x hx) with h1 | ⟨h1, _⟩
      · exact h1
      · exact absurd (h1 ▸ hx) hrL
  · intro x n' e' hg
    rcases hget x n' e' hg with h1 | rfl
    · exact h.top x n' e' h1
    · exact ht
  · intro x n' e' hg
    rcases hget x n' e' hg with h1 | rfl
    · exact h.dnd x n' e' h1
    · exact hn

/-- `id` has one more reference, nothing else has fewer. -/
structure Bumped (id : Str) (d d' : DB) : Prop where
  ents : d'.ents = d.ents
  mono : ∀ j pe, d.pool.get j = some pe → ∃ pe', d'.pool.get j = some pe' ∧ pe.refCount ≤ pe'.refCount
  mine : ∃ pe', d'.pool.get id = some pe' ∧ 0 < pe'.refCount ∧ ∀ pe, d.pool.get id = some pe → pe.refCount + 1 ≤ pe'.refCount

theorem Bumped.safe {id : Str} {d d' : DB} (h : Bumped id d d') (hs : Safe W d) : Safe W d' := by
  refine ⟨?_, by rw [h.ents]; exact hs.top, by rw [h.ents]; exact hs.dnd⟩
  intro j L hn hL hne
  simp only [Holds.congr h.ents] at hL
  obtain ⟨pe, h1, h2⟩ := hs.cover j L hn hL hne
  obtain ⟨pe', h3, h4⟩ := h.mono j pe h1
  exact ⟨pe', h3, by omega⟩

theorem Bumped.room {id : Str} {d d' : DB} (h : Bumped id d d') (hs : Safe W d) (r : Str) : Room d' id r := by
  intro L hn hL
  simp only [Holds.congr h.ents] at hL
  obtain ⟨pe', h1, h2, h3⟩ := h.mine
  refine ⟨pe', h1, ?_⟩
  cases L with
  | nil => simp; omega
  | cons x xs =>
    obtain ⟨pe, h4, h5⟩ := hs.cover id (x :: xs) hn (fun y hy => (hL y hy).1) (by simp)
    have := h3 pe h4
    omega

theorem Bumped.put {id : Str} {d d' : DB} {e : PoolEntry} (he : ∀ pe, d.pool.get id = some pe → pe.refCount + 1 ≤ e.refCount) (hp : 0 < e.refCount)
    (hd : d' = (DbWrite.putPool id e).apply d) : Bumped id d d' := by
  subst hd
  refine ⟨rfl, ?_, ⟨e, by simp [DbWrite.apply, KV.get_put], hp, he⟩⟩
  intro j pe hg
  simp only [DbWrite.apply, KV.get_put]
  split
  · rename_i hj
    subst hj
    exact ⟨e, rfl, by have := he pe hg; omega⟩
  · exact ⟨pe, hg, Nat.le_refl _⟩

theorem Bumped.trans_still {id : Str} {d d' d'' : DB} (h : Bumped id d d') (hp : d''.pool = d'.pool) (he : d''.ents = d'.ents) : Bumped id d d'' :=
  ⟨he.trans h.ents, by rw [hp]; exact h.mono, by rw [hp]; exact h.mine⟩

/-! ## All points of a job -/

/-- Run in `s`, `m` passes only through safe states and ends in one. -/
structure Run (W : World) (m : M α) (s : St) (P : α → St → Prop) : Prop where
  fin : Safe W (m s).st.db
  tr : ∀ t ∈ (m s).tr, Safe W t.db
  val : ∀ a, (m s).res = .ok a → P a (m s).st

theorem Run.bind {m : M α} {f : α → M β} {P : α → St → Prop} {R : β → St → Prop} (h : Run W m s P)
    (hf : ∀ a t, Safe W t.db → P a t → Run W (f a) t R) : Run W (m >>= f) s R := by
  rcases hm : (m s).res with a | e | _
  · have k := hf a _ h.fin (h.val a hm)
    have e : (m >>= f) s = ⟨(f a (m s).st).res, (f a (m s).st).st, (m s).tr ++ (f a (m s).st).tr⟩ := by
      show M.bind' m f s = _
      unfold M.bind'; rw [hm]
    refine ⟨?_, ?_, ?_⟩ <;> rw [e]
    · exact k.fin
    · intro t ht
      rcases List.mem_append.1 ht with ht | ht
      · exact h.tr t ht
      · exact k.tr t ht
    · exact k.val
  · have e : (m >>= f) s = ⟨.err e, (m s).st, (m s).tr⟩ := by
      show M.bind' m f s = _
      unfold M.bind'; rw [hm]
    refine ⟨?_, ?_, ?_⟩ <;> rw [e]
    · exact h.fin
    · exact h.tr
    · intro a ha; cases ha
  · have e : (m >>= f) s = ⟨.panic, (m s).st, (m s).tr⟩ := by
      show M.bind' m f s = _
      unfold M.bind'; rw [hm]
    refine ⟨?_, ?_, ?_⟩ <;> rw [e]
    · exact h.fin
    · exact h.tr
    · intro a ha; cases ha

theorem Run.mono {m : M α} {P R : α → St → Prop} (h : Run W m s P) (hr : ∀ a t, P a t → R a t) : Run W m s R :=
  ⟨h.fin, h.tr, fun a ha => hr a _ (h.val a ha)⟩
theorem Run.keeps {m : M α} {Q : α → Prop} {P : α → St → Prop} (h : Run W m s P) (hk : Keeps W tgt m Q) (hs : Rough W s) :
    Run W m s (fun a t => Rough W t ∧ Q a ∧ P a t) :=
  ⟨h.fin, h.tr, fun a ha => ⟨(hk s hs).fin, (hk s hs).val a ha, h.val a ha⟩⟩
theorem Run.post {m : M α} {P R : α → St → Prop} (h : Run W m s P) (k : Post m s R) : Run W m s (fun a t => R a t ∧ P a t) :=
  ⟨h.fin, h.tr, fun a ha => ⟨k.run a ha, h.val a ha⟩⟩
theorem Run.pure (hs : Safe W s.db) {a : α} {P : α → St → Prop} (h : P a s) : Run W (pure a : M α) s P :=
  ⟨hs, fun t ht => by simp at ht, fun b hb => by cases hb; exact h⟩
theorem Run.throw (hs : Safe W s.db) {e : Err} {P : α → St → Prop} : Run W (throwE e : M α) s P :=
  ⟨hs, fun t ht => by simp at ht, fun b hb => by simp at hb⟩
theorem Run.getSt {k : St → M β} {R : β → St → Prop} (h : Run W (k s) s R) : Run W (getSt >>= k) s R :=
  ⟨h.fin, h.tr, h.val⟩
theorem Run.reads {m : M α} (hs : Safe W s.db) (h : Reads m) : Run W m s (fun _ t => t = s) :=
  ⟨by rw [h.st]; exact hs, fun t ht => by rw [h.tr] at ht; simp at ht, fun _ _ => h.st s⟩
theorem Run.read {m : M α} {f : α → M β} {Q : α → Prop} {R : β → St → Prop} (hs : Safe W s.db) (hm : Reads m) (h : At W tgt m s Q)
    (hf : ∀ a, Q a → Run W (f a) s R) : Run W (m >>= f) s R :=
  ((Run.reads hs hm).post (h.post hm)).bind fun a t _ ht => by obtain ⟨⟨rfl, hq⟩, _⟩ := ht; exact hf a hq

theorem Run.write {w : DbWrite} (hs : Safe W s.db) (hw : Safe W (w.apply s.db)) : Run W (dbWrite .direct w) s (fun _ t => t.db = w.apply s.db) := by
  unfold dbWrite
  split
  · exact Run.throw hs
  · exact ⟨hw, fun t ht => by have ht : t ∈ [_] := ht; simp only [List.mem_singleton] at ht; subst ht; exact hw, fun _ _ => rfl⟩

/-- `m` leaves pool and listings alone, at all its points. -/
structure Still (m : M α) : Prop where
  fin : ∀ s, (m s).st.db.pool = s.db.pool ∧ (m s).st.db.ents = s.db.ents
  tr : ∀ s, ∀ t ∈ (m s).tr, t.db.pool = s.db.pool ∧ t.db.ents = s.db.ents

theorem Still.run {m : M α} (h : Still m) (hs : Safe W s.db) : Run W m s (fun _ t => t.db.pool = s.db.pool ∧ t.db.ents = s.db.ents) :=
  ⟨hs.congr (h.fin s).1 (h.fin s).2, fun t ht => hs.congr (h.tr s t ht).1 (h.tr s t ht).2, fun _ _ => h.fin s⟩

theorem Still.bind {m : M α} {f : α → M β} (h : Still m) (hf : ∀ a, Still (f a)) : Still (m >>= f) := by
  have key : ∀ s, ((m >>= f) s).st.db.pool = s.db.pool ∧ ((m >>= f) s).st.db.ents = s.db.ents ∧
      ∀ t ∈ ((m >>= f) s).tr, t.db.pool = s.db.pool ∧ t.db.ents = s.db.ents := by
    intro s
    show (M.bind' m f s).st.db.pool = _ ∧ (M.bind' m f s).st.db.ents = _ ∧ ∀ t ∈ (M.bind' m f s).tr, _
    unfold M.bind'
    cases (m s).res with
    | ok a =>
      obtain ⟨h1, h2⟩ := h.fin s
      obtain ⟨h3, h4⟩ := (hf a).fin (m s).st
      refine ⟨h3.trans h1, h4.trans h2, ?_⟩
      intro t ht
      rcases List.mem_append.1 ht with ht | ht
      · exact h.tr s t ht
      · obtain ⟨h5, h6⟩ := (hf a).tr _ t ht
        exact ⟨h5.trans h1, h6.trans h2⟩
    | err e => exact ⟨(h.fin s).1, (h.fin s).2, h.tr s⟩
    | panic => exact ⟨(h.fin s).1, (h.fin s).2, h.tr s⟩
  exact ⟨fun s => ⟨(key s).1, (key s).2.1⟩, fun s => (key s).2.2⟩

theorem Reads.still {m : M α} (h : Reads m) : Still m :=
  ⟨fun s => by rw [h.st]; exact ⟨rfl, rfl⟩, fun s t ht => by rw [h.tr] at ht; simp at ht⟩
theorem Still.pure (a : α) : Still (pure a : M α) := (Reads.pure a).still
theorem Still.throw (e : Err) : Still (throwE e : M α) := (Reads.throw e).still
theorem Still.ite {c : Prop} [Decidable c] {m n : M α} (h : Still m) (k : Still n) : Still (if c then m else n) := by
  split
  · exact h
  · exact k
theorem Still.stepFs (g : St → FS) : Still (stepM fun s => s.setFs (g s)) :=
  ⟨fun _ => ⟨rfl, rfl⟩, fun s t ht => by have ht : t ∈ [_] := ht; simp only [List.mem_singleton] at ht; subst ht; exact ⟨rfl, rfl⟩⟩
theorem Still.vol {g : St → St} (hp : ∀ s, (g s).db.pool = s.db.pool) (he : ∀ s, (g s).db.ents = s.db.ents) : Still (volM g) :=
  ⟨fun s => ⟨hp s, he s⟩, fun s t ht => by simp at ht⟩
theorem Still.forL {γ : Type} {l : List γ} {f : γ → M Unit} (h : ∀ x ∈ l, Still (f x)) : Still (forL l f) := by
  induction l with
  | nil => exact Still.pure _
  | cons x xs ih => exact (h x (by simp)).bind fun _ => ih fun y hy => h y (by simp [hy])

theorem copyFile_still (src dst : Path) : Still (copyFile src dst) := by
  refine Reads.getSt.still.bind fun s => ?_
  cases s.fs.tab src with
  | none => exact Still.pure _
  | some i => exact (Still.stepFs _).bind fun _ => Still.stepFs _

theorem linkOrCopy_still (E : Env) (src dst : Path) (b : Bool) : Still (linkOrCopy E src dst b) := by
  unfold linkOrCopy
  refine Still.ite (copyFile_still _ _) (Reads.getSt.still.bind fun s => ?_)
  cases s.fs.tab src with
  | none => exact copyFile_still _ _
  | some i =>
    cases s.fs.tab dst with
    | some j => exact copyFile_still _ _
    | none => exact Still.ite (Still.stepFs _) (copyFile_still _ _)

theorem removeFile_still (p : Path) : Still (removeFile p) := Still.stepFs _
theorem bakeRepo_still (rid : Str) : Still (bakeRepo rid) := Still.stepFs _

theorem getRepo_still (rid : Str) : Still (getRepo rid) := by
  refine Reads.getSt.still.bind fun s => Still.ite (Still.pure _) ?_
  cases s.db.repos.get rid with
  | none => exact Still.throw _
  | some _ => exact (bakeRepo_still _).bind fun _ => Still.vol (fun _ => rfl) (fun _ => rfl)

theorem dbWrite_still {h : Handle} {w : DbWrite} (hp : ∀ d : DB, (w.apply d).pool = d.pool) (he : ∀ d : DB, (w.apply d).ents = d.ents) : Still (dbWrite h w) := by
  unfold dbWrite
  refine Still.ite (Still.throw _) ?_
  cases h with
  | direct => exact ⟨fun s => ⟨hp _, he _⟩, fun s t ht => by have ht : t ∈ [_] := ht; simp only [List.mem_singleton] at ht; subst ht; exact ⟨hp _, he _⟩⟩
  | batch => exact Still.vol (fun _ => rfl) (fun _ => rfl)

theorem createRepo_still (rid : Str) : Still (createRepo rid) := by
  refine Reads.getSt.still.bind fun s => ?_
  have k : Still (if s.fs.rdir rid then throwE .artifacts
    else do
      dbWrite .direct (.putRepo rid)
      bakeRepo rid
      volM (fun s => { s with cache := rid :: s.cache }) : M Unit) :=
    Still.ite (Still.throw _) ((dbWrite_still (fun _ => rfl) (fun _ => rfl)).bind fun _ => (bakeRepo_still _).bind fun _ => Still.vol (fun _ => rfl) (fun _ => rfl))
  cases (getRepo rid s).res with
  | ok _ => exact (getRepo_still rid).bind fun _ => Still.throw _
  | err _ => exact k
  | panic => exact k

theorem pullAsset_still (dst src : Str) (a : Asset) : Still (pullAsset dst src a) := by
  refine Reads.getSt.still.bind fun s => ?_
  cases s.fs.tab (.asset src a) with
  | none => exact Still.pure _
  | some _ => exact copyFile_still _ _

theorem pullAssets_still (dst src : Str) : Still (pullAssets dst src) :=
  (pullAsset_still _ _ _).bind fun _ => (pullAsset_still _ _ _).bind fun _ => pullAsset_still _ _ _

theorem indexRepo_still (E : Env) (rid : Str) : Still (indexRepo E rid) := by
  refine (initDistribution_reads _ _).still.bind fun d => (emitIndex_reads _ _ _).still.bind fun doc => Reads.getSt.still.bind fun s => ?_
  refine Still.bind (Still.vol (fun _ => rfl) (fun _ => rfl)) fun _ => ?_
  cases E.indexIO s.clock with
  | failBefore => exact Still.throw _
  | ok => exact Still.stepFs _
  | failAfter => exact (Still.stepFs _).bind fun _ => Still.throw _

theorem mIndex_still (E : Env) (rid : Str) : Still (mIndex E rid) := (getRepo_still rid).bind fun _ => indexRepo_still E rid

theorem markDeltaFailed_still (id : Str) (d : DeltaInfo) : Still (markDeltaFailed id d) := by
  refine Reads.getSt.still.bind fun s => ?_
  cases s.db.skip.get id with
  | none => exact dbWrite_still (fun _ => rfl) (fun _ => rfl)
  | some _ => exact Still.pure _

/-! ## Jobs that add -/

theorem refEntry_safe (id : Str) (hr : Rough W s) (hs : Safe W s.db) : Run W (refEntry id) s (fun _ t => Bumped id s.db t.db) := by
  refine Run.read (tgt := none) hs (poolGet_reads id) (poolGet_at id hr) fun e he => ?_
  have hb : Bumped id s.db ((DbWrite.putPool e.name { e with refCount := e.refCount + 1 }).apply s.db) := by
    have hn := he.2.name
    exact Bumped.put (e := { e with refCount := e.refCount + 1 }) (fun pe hg => by rw [he.1] at hg; cases hg; simp) (by simp) (congrArg (fun n => (DbWrite.putPool n { e with refCount := e.refCount + 1 }).apply s.db) hn)
  exact (Run.write hs (hb.safe hs)).mono fun _ t ht => by rw [ht]; exact hb

theorem poolAddInternal_safe (E : Env) (p : Pkg) (cd : Bool) (delta : Option DeltaInfo) (hr : Rough W s) (hs : Safe W s.db) :
    Run W (poolAddInternal E p cd delta) s (fun _ t => Bumped p.id s.db t.db) := by
  have h0 : At W none (poolGet? p.id) s (fun o => o = s.db.pool.get p.id) := At.getSt (At.pure hr rfl)
  refine Run.read hs (poolGet?_reads _) h0 fun o ho => ?_
  cases o with
  | some e =>
    have hb : Bumped p.id s.db ((DbWrite.putPool e.name { e with refCount := e.refCount + 1 }).apply s.db) := by
      have hn := (hr.db.pool _ e ho.symm).name
      exact Bumped.put (e := { e with refCount := e.refCount + 1 }) (fun pe hg => by rw [← ho] at hg; cases hg; simp) (by simp)
        (congrArg (fun n => (DbWrite.putPool n { e with refCount := e.refCount + 1 }).apply s.db) hn)
    exact (Run.write hs (hb.safe hs)).bind fun _ t hst ht => Run.pure hst (by rw [ht]; exact hb)
  | none =>
    refine Run.getSt ?_
    simp only
    cases s.fs.read p.path with
    | none => exact Run.throw hs
    | some c =>
      simp only
      have hst : Still (do
        let comp ← pathComp p.pkg
        linkOrCopy E p.path (.pool comp p.id) cd
        let sha ← fileSha1 E p.path
        pure (comp, sha) : M (Str × Str)) :=
        (pathComp_reads _).still.bind fun _ => (linkOrCopy_still _ _ _ _).bind fun _ => (fileSha1_reads _ _).still.bind fun _ => Still.pure _
      refine ((pathComp_reads _).still.run hs).bind fun comp t1 h1 e1 => ((linkOrCopy_still _ _ _ _).run h1).bind fun _ t2 h2 e2 =>
        ((fileSha1_reads _ _).still.run h2).bind fun sha t3 h3 e3 => ?_
      have hp : t3.db.pool = s.db.pool := e3.1.trans (e2.1.trans e1.1)
      have he : t3.db.ents = s.db.ents := e3.2.trans (e2.2.trans e1.2)
      split
      · exact ((removeFile_still _).run h3).bind fun _ t4 h4 _ => Run.throw h4
      · have hb : Bumped p.id t3.db ((DbWrite.putPool p.id
            { name := p.id, refCount := 1, delta := delta, pkg := { p.pkg with hash := sha, size := c.length, uri := mkURI comp p.id } }).apply t3.db) :=
          Bumped.put (fun pe hg => by rw [hp, ← ho] at hg; cases hg) (by simp) rfl
        refine (Run.write h3 (hb.safe h3)).bind fun _ t4 h4 e4 => Run.pure h4 ?_
        rw [e4]
        exact ⟨hb.ents.trans he, by rw [← hp]; exact hb.mono, by rw [← hp]; exact hb.mine⟩

theorem repoPut_safe {rid : Str} {e : RepoEntry} (hs : Safe W s.db) (hr : ∀ id, id ∈ e.available ∨ id ∈ e.deltas → Room s.db id rid)
    (ht : ∀ x ∈ e.available, (W.mOf x).rel ≤ (W.mOf e.published).rel) (hn : e.deltas.Nodup) : Run W (repoPut rid e) s (fun _ _ => True) :=
  (Run.write hs (hs.put (d' := (DbWrite.putEnt rid e.name e).apply s.db) rfl rfl hr ht hn)).mono fun _ _ _ => trivial

theorem buildSaneEntry_safe (ok : W.OK) (rid : Str) {m : Meta} {id : Str} (hm : m.history ≠ []) (hrel : m.rel = (W.mOf id).rel) (hr : Rough W s)
    (hs : Safe W s.db) : Post (buildSaneEntry rid m id) s (fun o _ => ∀ ne, o = some ne → ne.deltas = [] ∧
      (∀ x, x ∈ ne.available → x = id ∨ Holds s.db rid x) ∧ ∀ x ∈ ne.available, (W.mOf x).rel ≤ (W.mOf ne.published).rel) := by
  refine (repoGet?_post _ _).bind fun o t ht => ?_
  obtain ⟨rfl, ho⟩ := ht
  cases o with
  | none =>
    refine Post.pure fun ne h => ?_
    cases h
    exact ⟨rfl, by simp, by simp⟩
  | some e =>
    have he := hr.db.ent rid m.name e ho.symm
    obtain ⟨pa, hpa, _⟩ := hs.pool (r := rid) (id := e.published) ⟨_, e, ho.symm, .inl he.pub⟩
    have hrp := hr.db.pool _ _ hpa
    have key : Post (do
      match ← poolGet? e.published with
      | none => pure id
      | some pa => do
        let nr ← getRelease m
        let pr ← getRelease pa.pkg
        if nr > pr then pure id else pure e.published) t
        (fun p u => u = t ∧ (W.mOf id).rel ≤ (W.mOf p).rel ∧ (W.mOf e.published).rel ≤ (W.mOf p).rel) := by
      have h0 : At W none (poolGet? e.published) t (fun o => o = some pa) := At.getSt (At.pure hr hpa)
      refine (h0.post (poolGet?_reads _)).bind fun o u hu => ?_
      obtain ⟨rfl, rfl⟩ := hu
      refine ((getRelease_keeps (tgt := none) hm u hr).post (getRelease_reads _)).bind fun nr v hv => ?_
      obtain ⟨rfl, rfl⟩ := hv
      refine ((getRelease_keeps (tgt := none) (hrp.hist ok) v hr).post (getRelease_reads _)).bind fun pr w hw => ?_
      obtain ⟨rfl, rfl⟩ := hw
      rw [hrp.rel, hrel]
      split
      · exact Post.pure ⟨rfl, Int.le_refl _, by omega⟩
      · exact Post.pure ⟨rfl, by omega, Int.le_refl _⟩
    refine key.bind fun pub u hu => ?_
    obtain ⟨rfl, h1, h2⟩ := hu
    split
    · exact Post.pure fun _ h => by cases h
    · refine Post.pure fun ne h => ?_
      cases h
      refine ⟨rfl, ?_, ?_⟩
      · intro x hx
        simp only [mem_sortS, List.mem_append, List.mem_singleton] at hx
        rcases hx with hx | hx
        · exact .inr ⟨_, e, ho.symm, .inl hx⟩
        · exact .inl hx
      · intro x hx
        simp only [mem_sortS, List.mem_append, List.mem_singleton] at hx
        rcases hx with hx | rfl
        · exact Int.le_trans (hs.top rid _ e ho.symm x hx) h2
        · exact h1

theorem refPackage_safe (ok : W.OK) (rid id : Str) (hr : Rough W s) (hs : Safe W s.db) : Run W (refPackage W.E rid id) s (fun _ _ => True) := by
  refine Run.read (tgt := none) hs (poolGet_reads id) (poolGet_at id hr) fun pe hpe => ?_
  refine ((Run.reads hs (pathComp_reads _))).bind fun comp t hst e1 => ?_
  subst e1
  refine ((Run.reads hs (buildSaneEntry_reads rid pe.pkg id)).post
    (buildSaneEntry_safe ok rid (hpe.2.hist ok) hpe.2.rel hr hs)).bind fun o t hst e2 => ?_
  obtain ⟨h2, rfl⟩ := e2
  cases o with
  | none => exact Run.pure hs trivial
  | some ne =>
    obtain ⟨h3, h4, h5⟩ := h2 ne rfl
    refine (refEntry_safe id hr hs).bind fun _ u hu hb => ((linkOrCopy_still _ _ _ _).run hu).bind fun _ v hv e3 => ?_
    refine repoPut_safe hv (fun j hj => ?_) h5 (by rw [h3]; simp)
    have hb' := hb.trans_still e3.1 e3.2
    rw [h3] at hj
    rcases hj with hj | hj
    · rcases h4 j hj with rfl | hh
      · exact hb'.room hs rid
      · exact hv.room ((Holds.congr hb'.ents _ _).2 hh)
    · simp at hj

theorem addLocalPackage_safe (ok : W.OK) (rid : Str) {p : Pkg} {file : Path} (hp : ROpen W p file) (hr : Rough W s) (hs : Safe W s.db) :
    Run W (addLocalPackage W.E rid p) s (fun _ _ => True) := by
  have hm := ok.meta hp.isPkg
  refine ((Run.reads hs (pathComp_reads _))).bind fun comp t hst e1 => ?_
  subst e1
  refine ((Run.reads hs (buildSaneEntry_reads rid p.pkg p.id)).post
    (buildSaneEntry_safe ok rid (by rw [hp.pkg]; exact hm.hist) (by rw [hp.pkg]) hr hs)).bind fun o t hst e2 => ?_
  obtain ⟨h2, rfl⟩ := e2
  cases o with
  | none => exact Run.pure hs trivial
  | some ne =>
    obtain ⟨h3, h4, h5⟩ := h2 ne rfl
    refine (poolAddInternal_safe _ p _ _ hr hs).bind fun _ u hu hb => ((linkOrCopy_still _ _ _ _).run hu).bind fun _ v hv e3 => ?_
    refine repoPut_safe hv (fun j hj => ?_) h5 (by rw [h3]; simp)
    have hb' := hb.trans_still e3.1 e3.2
    rw [h3] at hj
    rcases hj with hj | hj
    · rcases h4 j hj with rfl | hh
      · exact hb'.room hs rid
      · exact hv.room ((Holds.congr hb'.ents _ _).2 hh)
    · simp at hj

theorem addPackage_safe (ok : W.OK) (hz : W.NoTorn) (rid : Str) {file : Path} {strict : Bool} (hn : file.isAsset = false) (hr : Rough W s)
    (hs : Safe W s.db) : Run W (addPackage W.E rid file strict) s (fun _ _ => True) := by
  refine Run.read (tgt := none) hs (openPkg_reads _ _) (openPkg_at ok hz hn hr) fun p hp => ?_
  split
  · exact addLocalPackage_safe ok rid hp.1 hr hs
  · refine (Run.reads hs (repoGet?_reads _ _)).bind fun o t _ ht => ?_
    subst ht
    cases o with
    | none => exact addLocalPackage_safe ok rid hp.1 hr hs
    | some l =>
      refine (Run.reads hs (poolGet_reads _)).bind fun pub t _ ht => ?_
      subst ht
      refine (Run.reads hs (getRelease_reads _)).bind fun pub t _ ht => ?_
      subst ht
      refine (Run.reads hs (getRelease_reads _)).bind fun pub t _ ht => ?_
      subst ht
      split
      · exact Run.throw hs
      · split
        · exact Run.throw hs
        · exact addLocalPackage_safe ok rid hp.1 hr hs

theorem putDelta_safe {rid : Str} {e : RepoEntry} {id n : Str} {d : DB} (hg : (d.ents rid).get n = some e)
    (hb : Bumped id d s.db) (hsd : Safe W d) (hs : Safe W s.db) (hni : id ∉ e.deltas) :
    Run W (repoPut rid { e with deltas := sortS (e.deltas ++ [id]) }) s (fun _ _ => True) := by
  refine repoPut_safe hs (fun j hj => ?_) (hsd.top rid n e hg) ?_
  · simp only [mem_sortS, List.mem_append, List.mem_singleton] at hj
    have hold : Holds d rid j → Room s.db j rid := fun h => hs.room ((Holds.congr hb.ents _ _).2 h)
    rcases hj with hj | hj | rfl
    · exact hold ⟨n, e, hg, .inl hj⟩
    · exact hold ⟨n, e, hg, .inr hj⟩
    · exact hb.room hsd rid
  · show (sortS (e.deltas ++ [id])).Nodup
    rw [nodup_sortS, List.nodup_append]
    refine ⟨hsd.dnd rid n e hg, by simp, ?_⟩
    intro a ha b hb; simp only [List.mem_singleton] at hb; subst hb
    rintro rfl; exact hni ha

theorem refDelta_safe (rid id : Str) (hr : Rough W s) (hs : Safe W s.db) : Run W (refDelta W.E rid id) s (fun _ _ => True) := by
  refine Run.read (tgt := none) hs (poolGet_reads id) (poolGet_at id hr) fun pe hpe => ?_
  refine ((Run.reads hs (repoGet_reads _ _)).post (repoGet_post rid pe.pkg.name)).bind fun e t _ ht => ?_
  obtain ⟨⟨_, hg⟩, rfl⟩ := ht
  refine ((Run.reads hs (pathComp_reads _))).bind fun comp t _ ht => ?_
  subst ht
  split
  · exact Run.pure hs trivial
  · rename_i hni
    refine (refEntry_safe id hr hs).bind fun _ u hu hb => ((linkOrCopy_still _ _ _ _).run hu).bind fun _ v hv e3 => ?_
    exact putDelta_safe hg (hb.trans_still e3.1 e3.2) hs hv hni

theorem poolAddDelta_safe (E : Env) (p : Pkg) (f t : Str) (cd : Bool) (hr : Rough W s) (hs : Safe W s.db) :
    Run W (poolAddDelta E p f t cd) s (fun _ t => Bumped p.id s.db t.db) := by
  have h0 : At W none (poolGet? p.id) s (fun o => o = s.db.pool.get p.id) := At.getSt (At.pure hr rfl)
  refine Run.read hs (poolGet?_reads _) h0 fun o ho => ?_
  cases o with
  | some e =>
    have hb : Bumped p.id s.db ((DbWrite.putPool e.name { e with refCount := e.refCount + 1 }).apply s.db) := by
      have hn := (hr.db.pool _ e ho.symm).name
      exact Bumped.put (e := { e with refCount := e.refCount + 1 }) (fun pe hg => by rw [← ho] at hg; cases hg; simp) (by simp)
        (congrArg (fun n => (DbWrite.putPool n { e with refCount := e.refCount + 1 }).apply s.db) hn)
    exact (Run.write hs (hb.safe hs)).bind fun _ t hst ht => Run.pure hst (by rw [ht]; exact hb)
  | none =>
    refine (Run.reads hs (poolGet_reads _)).bind fun a t _ ht => ?_
    subst ht
    refine (Run.reads hs (poolGet_reads _)).bind fun b t _ ht => ?_
    subst ht
    refine (Run.reads hs (getRelease_reads _)).bind fun _ t _ ht => ?_
    subst ht
    refine (Run.reads hs (getRelease_reads _)).bind fun _ t _ ht => ?_
    subst ht
    exact poolAddInternal_safe E p cd _ hr hs

theorem addDelta_safe (rid : Str) (file : Path) (f t : Str) (hr : Rough W s) (hs : Safe W s.db) :
    Run W (addDelta W.E rid file f t) s (fun _ _ => True) := by
  refine (Run.reads hs (openPkg_reads _ _)).bind fun p u _ hu => ?_
  subst hu
  refine ((Run.reads hs (repoGet_reads _ _)).post (repoGet_post rid p.pkg.name)).bind fun e t _ ht => ?_
  obtain ⟨⟨_, hg⟩, rfl⟩ := ht
  refine ((Run.reads hs (pathComp_reads _))).bind fun comp t _ ht => ?_
  subst ht
  split
  · exact Run.pure hs trivial
  · rename_i hni
    refine (poolAddDelta_safe _ p _ _ _ hr hs).bind fun _ u hu hb => ((linkOrCopy_still _ _ _ _).run hu).bind fun _ v hv e3 => ?_
    exact putDelta_safe hg (hb.trans_still e3.1 e3.2) hs hv hni

theorem Run.forL {γ : Type} {f : γ → M Unit} : ∀ (l : List γ) {s : St}, Rough W s → Safe W s.db →
    (∀ x ∈ l, Keeps W tgt (f x) (fun _ => True)) → (∀ x ∈ l, ∀ s, Rough W s → Safe W s.db → Run W (f x) s (fun _ _ => True)) →
    Run W (forL l f) s (fun _ t => Rough W t) := by
  intro l
  induction l with
  | nil => intro s hr hs _ _; exact Run.pure hs hr
  | cons x xs ih =>
    intro s hr hs hk h
    refine ((h x (by simp) s hr hs).keeps (hk x (by simp)) hr).bind fun _ t hst ht => ?_
    exact ih ht.1 hst (fun y hy => hk y (by simp [hy])) (fun y hy => h y (by simp [hy]))


/-! ## Removals, run to their end -/

/-- Run in `s`, `m` succeeds. -/
def Wins (m : M α) (s : St) (P : α → St → Prop) : Prop := ∃ a, (m s).res = .ok a ∧ P a (m s).st

theorem Wins.bind {m : M α} {f : α → M β} {P : α → St → Prop} {R : β → St → Prop} (h : Wins m s P)
    (hf : ∀ a t, P a t → Wins (f a) t R) : Wins (m >>= f) s R := by
  obtain ⟨a, h1, h2⟩ := h
  have e : (m >>= f) s = ⟨(f a (m s).st).res, (f a (m s).st).st, (m s).tr ++ (f a (m s).st).tr⟩ := by
    show M.bind' m f s = _
    unfold M.bind'; rw [h1]
  obtain ⟨b, h3, h4⟩ := hf a _ h2
  exact ⟨b, by rw [e]; exact h3, by rw [e]; exact h4⟩

theorem Wins.pure {a : α} {P : α → St → Prop} (h : P a s) : Wins (pure a : M α) s P := ⟨a, rfl, h⟩
theorem Wins.mono {m : M α} {P R : α → St → Prop} (h : Wins m s P) (hr : ∀ a t, P a t → R a t) : Wins m s R := by
  obtain ⟨a, h1, h2⟩ := h; exact ⟨a, h1, hr _ _ h2⟩
theorem Wins.getSt {k : St → M β} {R : β → St → Prop} (h : Wins (k s) s R) : Wins (getSt >>= k) s R := h
theorem Wins.step {g : St → St} {P : Unit → St → Prop} (h : P () (g s)) : Wins (stepM g) s P := ⟨(), rfl, h⟩
theorem Wins.keeps {m : M α} {Q : α → Prop} {P : α → St → Prop} (h : Wins m s P) (hk : Keeps W tgt m Q) (hs : Rough W s) :
    Wins m s (fun a t => Rough W t ∧ P a t) := by
  obtain ⟨a, h1, h2⟩ := h; exact ⟨a, h1, (hk s hs).fin, h2⟩
theorem Wins.forL {γ : Type} {f : γ → M Unit} {I : List γ → St → Prop} : ∀ (l : List γ) {s : St}, I l s →
    (∀ x xs t, x ∈ l → I (x :: xs) t → Wins (f x) t (fun _ u => I xs u)) → Wins (forL l f) s (fun _ t => I [] t) := by
  intro l
  induction l with
  | nil => intro s h _; exact Wins.pure h
  | cons x xs ih =>
    intro s h hf
    exact (hf x xs s (by simp) h).bind fun _ t ht => ih ht fun y ys u hy => hf y ys u (by simp [hy])

/-- The references given up are among `X`, one each. -/
structure Shed (X : Str → Prop) (d d' : DB) : Prop where
  keep : ∀ j, ¬ X j → d'.pool.get j = d.pool.get j
  less : ∀ j pe, d.pool.get j = some pe → 2 ≤ pe.refCount → ∃ pe', d'.pool.get j = some pe' ∧ pe.refCount ≤ pe'.refCount + 1

theorem Shed.refl (d : DB) : Shed (fun _ => False) d d := ⟨fun _ _ => rfl, fun _ pe h _ => ⟨pe, h, by omega⟩⟩
theorem Shed.congr {X : Str → Prop} {d d' d'' : DB} (h : Shed X d d') (hp : d''.pool = d'.pool) : Shed X d d'' :=
  ⟨by rw [hp]; exact h.keep, by rw [hp]; exact h.less⟩
theorem Shed.mono {X Y : Str → Prop} {d d' : DB} (h : Shed X d d') (hxy : ∀ j, X j → Y j) : Shed Y d d' :=
  ⟨fun j hj => h.keep j fun hx => hj (hxy j hx), h.less⟩
theorem Shed.trans {X Y : Str → Prop} {d d' d'' : DB} (h : Shed X d d') (k : Shed Y d' d'') (hxy : ∀ j, X j → ¬ Y j) :
    Shed (fun j => X j ∨ Y j) d d'' := by
  refine ⟨fun j hj => ?_, fun j pe hg h2 => ?_⟩
  · rw [k.keep j fun hy => hj (.inr hy), h.keep j fun hx => hj (.inl hx)]
  · by_cases hx : X j
    · obtain ⟨pe', h3, h4⟩ := h.less j pe hg h2
      exact ⟨pe', by rw [k.keep j (hxy j hx)]; exact h3, h4⟩
    · have := h.keep j hx
      rw [hg] at this
      exact k.less j pe this h2

theorem Shed.put {d : DB} {id : Str} {pe : PoolEntry} {k : Nat} {n : Str} (hg : d.pool.get id = some pe) (hk : pe.refCount ≤ k + 1) {e : PoolEntry}
    (he : e.refCount = k) (hn : n = id) : Shed (· = id) d ((DbWrite.putPool n e).apply d) := by
  subst hn
  refine ⟨fun j hj => ?_, fun j pe' hg' h2 => ?_⟩
  · simp only [DbWrite.apply, KV.get_put, if_neg hj]
  · simp only [DbWrite.apply, KV.get_put]
    split
    · rename_i h; subst h
      rw [hg] at hg'; cases hg'
      exact ⟨e, rfl, by omega⟩
    · exact ⟨pe', hg', by omega⟩

theorem Shed.del {d : DB} {id : Str} {pe : PoolEntry} (hg : d.pool.get id = some pe) (hk : pe.refCount ≤ 1) :
    Shed (· = id) d ((DbWrite.delPool id).apply d) := by
  refine ⟨fun j hj => ?_, fun j pe' hg' h2 => ?_⟩
  · simp only [DbWrite.apply, KV.get_del, if_neg hj]
  · simp only [DbWrite.apply, KV.get_del]
    split
    · rename_i h; subst h
      rw [hg] at hg'; cases hg'; omega
    · exact ⟨pe', hg', by omega⟩

/-- What repository `r` no longer lists has been given up at most once. -/
theorem Safe.shed {d d' : DB} {r : Str} {X : Str → Prop} (h : Safe W d) (hx : Shed X d d') (hX : ∀ j, X j → Holds d r j)
    (hh : ∀ x j, Holds d' x j → Holds d x j ∧ ¬ (x = r ∧ X j))
    (top : ∀ r n e, (d'.ents r).get n = some e → ∀ x ∈ e.available, (W.mOf x).rel ≤ (W.mOf e.published).rel)
    (dnd : ∀ r n e, (d'.ents r).get n = some e → e.deltas.Nodup) : Safe W d' := by
  refine ⟨fun j L hn hL hne => ?_, top, dnd⟩
  by_cases hj : X j
  · have hr : r ∉ L := fun hr => (hh r j (hL r hr)).2 ⟨rfl, hj⟩
    obtain ⟨pe, h1, h2⟩ := h.cover j (r :: L) (List.nodup_cons.2 ⟨hr, hn⟩)
      (by rintro x (_ | ⟨_, hx⟩); exact hX j hj; exact (hh x j (hL x ‹_›)).1) (by simp)
    have := List.length_pos_iff.2 hne
    simp only [List.length_cons] at h2
    obtain ⟨pe', h3, h4⟩ := hx.less j pe h1 (by omega)
    exact ⟨pe', h3, by omega⟩
  · rw [hx.keep j hj]
    exact h.cover j L hn (fun x hx => (hh x j (hL x hx)).1) hne

theorem poolGet_wins {id : Str} {pe : PoolEntry} (h : s.db.pool.get id = some pe) : Wins (poolGet id) s (fun a t => a = pe ∧ t = s) := by
  have h0 : poolGet? id s = ⟨.ok (some pe), s, []⟩ := by rw [← h]; rfl
  unfold poolGet
  refine Wins.bind (P := fun a t => a = some pe ∧ t = s) ⟨some pe, by rw [h0], rfl, by rw [h0]⟩ ?_
  rintro a t ⟨rfl, rfl⟩
  exact Wins.pure ⟨rfl, rfl⟩

theorem repoGet_wins {r n : Str} {e : RepoEntry} (h : (s.db.ents r).get n = some e) : Wins (repoGet r n) s (fun a t => a = e ∧ t = s) := by
  have h0 : repoGet? r n s = ⟨.ok (some e), s, []⟩ := by rw [← h]; rfl
  unfold repoGet
  refine Wins.bind (P := fun a t => a = some e ∧ t = s) ⟨some e, by rw [h0], rfl, by rw [h0]⟩ ?_
  rintro a t ⟨rfl, rfl⟩
  exact Wins.pure ⟨rfl, rfl⟩

theorem pathComp_wins {m : Meta} (h : m.source ≠ []) : Wins (pathComp m) s (fun _ t => t = s) := by
  obtain ⟨c, hc⟩ := pathComp_run (s := s) h
  exact ⟨c, by rw [hc], by rw [hc]⟩

theorem getRelease_wins {m : Meta} (h : m.history ≠ []) : Wins (getRelease m) s (fun a t => a = m.rel ∧ t = s) := by
  unfold getRelease Meta.rel
  cases hh : m.history with
  | nil => exact absurd hh h
  | cons u us => exact Wins.pure ⟨by simp, rfl⟩

theorem dbWrite_wins {w : DbWrite} (h : reservedKey w.key = false) : Wins (dbWrite .direct w) s (fun _ t => t.db = w.apply s.db) := by
  unfold dbWrite
  rw [if_neg (by rw [h]; simp)]
  exact Wins.step rfl

theorem unrefEntry_wins (ok : W.OK) {id : Str} {pe : PoolEntry} (hr : Rough W s) (hg : s.db.pool.get id = some pe) :
    Wins (unrefEntry .direct id) s (fun _ t => Shed (· = id) s.db t.db ∧ t.db.ents = s.db.ents) := by
  have hpe := hr.db.pool id pe hg
  have hres : reservedKey id = false := (ok.gid hpe.isPkg).nres
  refine (poolGet_wins hg).bind ?_
  rintro a t ⟨rfl, rfl⟩
  have hpos := hpe.pos
  have hdec : dec64 a.refCount = a.refCount - 1 := by unfold dec64; rw [if_neg (by omega)]
  split
  · refine (dbWrite_wins (w := .putPool a.name { a with refCount := dec64 a.refCount }) (by show reservedKey a.name = false; rw [hpe.name]; exact hres)).mono fun _ u hu => ?_
    rw [hu]
    exact ⟨Shed.put hg (k := dec64 a.refCount) (by omega) rfl hpe.name, rfl⟩
  · rename_i h0
    refine (pathComp_wins (hpe.src ok)).bind fun c u hu => ?_
    subst hu
    refine Wins.bind (P := fun _ v => v.db = u.db) (Wins.step rfl) fun _ v hv => ?_
    refine (dbWrite_wins (w := .delPool id) hres).mono fun _ w hw => ?_
    rw [hw, hv]
    exact ⟨Shed.del hg (by omega), rfl⟩

theorem removePackageInternal_wins (ok : W.OK) {rid id : Str} {pe : PoolEntry} (hr : Rough W s) (hg : s.db.pool.get id = some pe) :
    Wins (removePackageInternal .direct rid id) s (fun _ t => Shed (· = id) s.db t.db ∧ t.db.ents = s.db.ents) := by
  have hpe := hr.db.pool id pe hg
  have h0 : poolGet? id s = ⟨.ok (some pe), s, []⟩ := by rw [← hg]; rfl
  unfold removePackageInternal
  refine Wins.bind (P := fun a t => a = some pe ∧ t = s) ⟨some pe, by rw [h0], rfl, by rw [h0]⟩ ?_
  rintro a t ⟨rfl, rfl⟩
  refine (pathComp_wins (hpe.src ok)).bind fun c u hu => ?_
  subst hu
  refine ((Wins.step (P := fun _ v => v.db = u.db) rfl).keeps (removeFile_keeps (tgt := some rid) (p := .repo rid c pe.name) rfl) hr).bind fun _ v hv => ?_
  obtain ⟨hv1, hv2⟩ := hv
  have := unrefEntry_wins ok hv1 (id := id) (pe := pe) (by rw [hv2]; exact hg)
  rw [hv2] at this
  exact this

/-- The loop over an entry's deltas. -/
theorem unrefDeltas_wins (ok : W.OK) (rid pkgID : Str) : ∀ (ds : List Str) {s : St}, ds.Nodup → Rough W s →
    (∀ d ∈ ds, W.isDelta d = true ∧ ∃ pe, s.db.pool.get d = some pe) →
    Wins (unrefDeltas rid pkgID ds) s (fun out t => Rough W t ∧ t.db.ents = s.db.ents ∧ out.Sublist ds ∧
      ∃ X : Str → Prop, Shed X s.db t.db ∧ ∀ j, X j → j ∈ ds ∧ j ∉ out) := by
  intro ds
  induction ds with
  | nil => intro s _ hr _; exact Wins.pure ⟨hr, rfl, List.Sublist.refl _, fun _ => False, Shed.refl _, fun _ h => h.elim⟩
  | cons d ds ih =>
    intro s hn hr h
    obtain ⟨hd, pe, hg⟩ := h d (by simp)
    obtain ⟨hnd, hn'⟩ := List.nodup_cons.1 hn
    have hpe := hr.db.pool d pe hg
    have key : Wins (do
        let pd ← poolGet d
        match pd.delta with
        | none => panicM
        | some di =>
          if di.fromID = pkgID ∨ di.toID = pkgID then do
            removePackageInternal .direct rid pd.name
            pure []
          else pure [pd.name]) s (fun out t => Rough W t ∧ t.db.ents = s.db.ents ∧
            ((out = [] ∧ Shed (· = d) s.db t.db) ∨ (out = [d] ∧ t = s))) := by
      refine (poolGet_wins hg).bind ?_
      rintro a t ⟨rfl, rfl⟩
      have hs := hpe.delta
      rw [hd] at hs
      cases hdl : a.delta with
      | none => rw [hdl] at hs; cases hs
      | some di =>
        simp only
        split
        · rw [hpe.name]
          refine ((removePackageInternal_wins ok hr hg).keeps (removePackageInternal_keeps ok .direct rid d) hr).bind fun _ u hu => Wins.pure ?_
          exact ⟨hu.1, hu.2.2, .inl ⟨rfl, hu.2.1⟩⟩
        · rw [hpe.name]; exact Wins.pure ⟨hr, rfl, .inr ⟨rfl, rfl⟩⟩
    refine key.bind fun o1 t ht => ?_
    obtain ⟨ht1, ht2, ht3⟩ := ht
    have hsub : ∀ x ∈ ds, x ≠ d := fun x hx e => hnd (e ▸ hx)
    have hpool : ∀ x ∈ ds, t.db.pool.get x = s.db.pool.get x := by
      intro x hx
      rcases ht3 with ⟨_, h3⟩ | ⟨_, rfl⟩
      · exact h3.keep x (hsub x hx)
      · rfl
    refine (ih (s := t) hn' ht1 (fun x hx => by rw [hpool x hx]; exact h x (by simp [hx]))).bind fun o2 u hu => Wins.pure ?_
    obtain ⟨hu1, hu2, hu3, X, hu4, hu5⟩ := hu
    rcases ht3 with ⟨rfl, h3⟩ | ⟨rfl, rfl⟩
    · refine ⟨hu1, hu2.trans ht2, hu3.cons d, _, h3.trans hu4 (fun j hj hx => hsub j (hu5 j hx).1 hj), ?_⟩
      rintro j (rfl | hj)
      · exact ⟨by simp, fun hj => hsub j (hu3.subset hj) rfl⟩
      · exact ⟨by simp [(hu5 j hj).1], (hu5 j hj).2⟩
    · refine ⟨hu1, hu2, hu3.cons_cons d, X, hu4, fun j hj => ⟨by simp [(hu5 j hj).1], ?_⟩⟩
      intro hm
      rcases List.mem_cons.1 hm with rfl | hm
      · exact hsub j (hu5 j hj).1 rfl
      · exact (hu5 j hj).2 hm

/-- A repository's entry for a name is replaced by a smaller one, or removed. -/
theorem holds_only {r n id : Str} {e : RepoEntry} (hr : RDb W s.db) (hg : (s.db.ents r).get n = some e) (hn : (W.mOf id).name = n) :
    Holds s.db r id → id ∈ e.available ∨ id ∈ e.deltas := by
  rintro ⟨n', e', hg', hi⟩
  have he := hr.ent r n' e' hg'
  have : n' = n := by
    rcases hi with hi | hi
    · exact (he.avail id hi).2.2.symm.trans hn
    · exact (he.deltas id hi).2.2.symm.trans hn
  subst this
  rw [hg] at hg'; cases hg'; exact hi

theorem unrefPackage_wins (ok : W.OK) {rid id : Str} (hr : Rough W s) (hs : Safe W s.db) (hh : Has s rid id) :
    Wins (unrefPackage rid id) s (fun _ t => Safe W t.db) := by
  obtain ⟨n, e, hg, hid⟩ := hh
  have he := hr.db.ent rid n e hg
  obtain ⟨hidd, hip, hin⟩ := he.avail id hid
  obtain ⟨pe, hpe, _⟩ := hs.pool (r := rid) (id := id) ⟨n, e, hg, .inl hid⟩
  have hrp := hr.db.pool id pe hpe
  refine (poolGet_wins hpe).bind ?_
  rintro a t ⟨rfl, rfl⟩
  have hname : a.pkg.name = n := hrp.pname.trans hin
  rw [hname]
  refine (repoGet_wins hg).bind ?_
  rintro e' t' ⟨rfl, rfl⟩
  refine ((removePackageInternal_wins (rid := rid) ok hr hpe).keeps (removePackageInternal_keeps ok .direct rid id) hr).bind fun _ u hu => ?_
  obtain ⟨hu1, hu2, hu3⟩ := hu
  have hdne : ∀ d ∈ e'.deltas, d ≠ id := by
    rintro d hd rfl
    have := (he.deltas d hd).1
    rw [hidd] at this; cases this
  refine (unrefDeltas_wins ok rid id e'.deltas (hs.dnd rid n e' hg) hu1 (fun d hd => ⟨(he.deltas d hd).1, ?_⟩)).bind fun ds v hv => ?_
  · rw [hu2.keep d (hdne d hd)]
    obtain ⟨pd, h1, _⟩ := hs.pool (r := rid) (id := d) ⟨n, e', hg, .inr hd⟩
    exact ⟨pd, h1⟩
  obtain ⟨hv1, hv2, hv3, X, hv4, hv5⟩ := hv
  have hXid : ∀ j, j = id → ¬ X j := by
    rintro j rfl hX
    exact hdne j (hv5 j hX).1 rfl
  have hshed := hu2.trans hv4 hXid
  have hav : ∀ x ∈ e'.available, x ≠ id → ∃ pe, v.db.pool.get x = some pe ∧ pe.pkg.history ≠ [] ∧ pe.pkg.rel = (W.mOf x).rel := by
    intro x hx hne
    obtain ⟨px, h1, _⟩ := hs.pool (r := rid) (id := x) ⟨n, e', hg, .inl hx⟩
    have hxX : ¬ (x = id ∨ X x) := by
      rintro (h | h)
      · exact hne h
      · have := (he.deltas x (hv5 x h).1).1
        rw [(he.avail x hx).1] at this; cases this
    have hrx := hr.db.pool x px h1
    exact ⟨px, by rw [hshed.keep x hxX]; exact h1, hrx.hist ok, hrx.rel⟩
  have hrun := unrefAvail_run (W := W) (s := v) (id := id) e'.available hav
  refine Wins.bind (P := fun a t => a = (e'.available.filter (· ≠ id)).foldl (topStep W) ((0 : Int), ([] : Str), ([] : List Str)) ∧ t = v)
    ⟨_, by rw [hrun], rfl, by rw [hrun]⟩ ?_
  rintro acc w ⟨rfl, rfl⟩
  have hrest := topFold_rest W (e'.available.filter (· ≠ id)) ((0 : Int), ([] : Str), ([] : List Str))
  simp only [List.nil_append] at hrest
  rw [hrest]
  have hents : w.db.ents = t'.db.ents := hv2.trans hu3
  have hX : ∀ j, (j = id ∨ X j) → Holds t'.db rid j := by
    rintro j (rfl | hj)
    · exact ⟨n, e', hg, .inl hid⟩
    · exact ⟨n, e', hg, .inr (hv5 j hj).1⟩
  have hXn : ∀ j, (j = id ∨ X j) → (W.mOf j).name = n := by
    rintro j (rfl | hj)
    · exact hin
    · exact (he.deltas j (hv5 j hj).1).2.2
  have hresn : reservedKey e'.name = false := he.name_resv ok
  split
  · refine (dbWrite_wins (w := .delEnt rid e'.name) hresn).mono fun _ z hz => ?_
    rw [hz]
    have hget : ∀ x k f, (((DbWrite.delEnt rid e'.name).apply w.db).ents x).get k = some f → (t'.db.ents x).get k = some f ∧ ¬ (x = rid ∧ k = n) := by
      intro x k f hf
      simp only [DbWrite.apply, setEnts, hents] at hf
      split at hf
      · rename_i hx; subst hx
        rw [KV.get_del] at hf
        split at hf
        · cases hf
        · rename_i hne; exact ⟨hf, fun hc => hne (hc.2.trans he.name.symm)⟩
      · rename_i hx; exact ⟨hf, fun hc => hx hc.1⟩
    refine hs.shed (r := rid) (hshed.congr rfl) hX ?_ (fun x k f hf => hs.top x k f (hget x k f hf).1) (fun x k f hf => hs.dnd x k f (hget x k f hf).1)
    rintro x j ⟨k, f, hf, hi⟩
    obtain ⟨h1, h2⟩ := hget x k f hf
    refine ⟨⟨k, f, h1, hi⟩, ?_⟩
    rintro ⟨rfl, hXj⟩
    have hk := hr.db.ent x k f h1
    refine h2 ⟨rfl, ?_⟩
    rw [← hXn j hXj]
    rcases hi with hi | hi
    · exact (hk.avail j hi).2.2.symm
    · exact (hk.deltas j hi).2.2.symm
  · rename_i hlen
    have hne : e'.available.filter (· ≠ id) ≠ [] := by intro h; rw [h] at hlen; simp at hlen
    have htop := topOf_spec W hne (fun x hx => (ok.meta (he.avail x (List.mem_filter.1 hx).1).2.1).rel)
    unfold topOf at htop
    refine (dbWrite_wins (w := .putEnt rid e'.name
      { e' with deltas := sortS ds, available := sortS (e'.available.filter (· ≠ id)), published := ((e'.available.filter (· ≠ id)).foldl (topStep W) ((0 : Int), ([] : Str), ([] : List Str))).2.1 }) hresn).mono fun _ z hz => ?_
    rw [hz]
    have hget : ∀ x k f, (((DbWrite.putEnt rid e'.name
      { e' with deltas := sortS ds, available := sortS (e'.available.filter (· ≠ id)), published := ((e'.available.filter (· ≠ id)).foldl (topStep W) ((0 : Int), ([] : Str), ([] : List Str))).2.1 }).apply w.db).ents x).get k = some f →
      ((t'.db.ents x).get k = some f ∧ ¬ (x = rid ∧ k = n)) ∨ (x = rid ∧ k = n ∧ f = { e' with deltas := sortS ds, available := sortS (e'.available.filter (· ≠ id)), published := ((e'.available.filter (· ≠ id)).foldl (topStep W) ((0 : Int), ([] : Str), ([] : List Str))).2.1 }) := by
      intro x k f hf
      simp only [DbWrite.apply, setEnts, hents] at hf
      split at hf
      · rename_i hx; subst hx
        rw [KV.get_put] at hf
        split at hf
        · rename_i hk; exact .inr ⟨rfl, hk.trans he.name, (Option.some.inj hf).symm⟩
        · rename_i hne; exact .inl ⟨hf, fun hc => hne (hc.2.trans he.name.symm)⟩
      · rename_i hx; exact .inl ⟨hf, fun hc => hx hc.1⟩
    refine hs.shed (r := rid) (hshed.congr rfl) hX ?_ (fun x k f hf => ?_) (fun x k f hf => ?_)
    · rintro x j ⟨k, f, hf, hi⟩
      rcases hget x k f hf with ⟨h1, h2⟩ | ⟨rfl, rfl, rfl⟩
      · refine ⟨⟨k, f, h1, hi⟩, ?_⟩
        rintro ⟨rfl, hXj⟩
        have hk := hr.db.ent x k f h1
        refine h2 ⟨rfl, ?_⟩
        rw [← hXn j hXj]
        rcases hi with hi | hi
        · exact (hk.avail j hi).2.2.symm
        · exact (hk.deltas j hi).2.2.symm
      · simp only [mem_sortS, List.mem_filter] at hi
        refine ⟨⟨k, e', hg, hi.imp (fun h => h.1) (fun h => hv3.subset h)⟩, ?_⟩
        rintro ⟨_, rfl | hXj⟩
        · rcases hi with hi | hi
          · simp at hi
          · exact hdne j (hv3.subset hi) rfl
        · rcases hi with hi | hi
          · have := (he.deltas j (hv5 j hXj).1).1
            rw [(he.avail j hi.1).1] at this; cases this
          · exact (hv5 j hXj).2 hi
    · rcases hget x k f hf with ⟨h1, _⟩ | ⟨_, _, rfl⟩
      · exact hs.top x k f h1
      · intro y hy
        simp only [mem_sortS] at hy
        exact htop.2 y hy
    · rcases hget x k f hf with ⟨h1, _⟩ | ⟨_, _, rfl⟩
      · exact hs.dnd x k f h1
      · simp only [nodup_sortS]
        exact hv3.nodup (hs.dnd rid n e' hg)

/-- Removing listed packages, one after the other. -/
theorem unrefAll_wins (ok : W.OK) (rid : Str) (ids : List Str) (hn : ids.Nodup) (hr : Rough W s) (hs : Safe W s.db) (hh : ∀ id ∈ ids, Has s rid id) :
    Wins (forL ids (unrefPackage rid)) s (fun _ t => Safe W t.db ∧ Rough W t) := by
  have := Wins.forL (f := unrefPackage rid) (I := fun l t => l.Nodup ∧ Rough W t ∧ Safe W t.db ∧ ∀ id ∈ l, Has t rid id) ids (s := s) ⟨hn, hr, hs, hh⟩ ?_
  · exact this.mono fun _ t ht => ⟨ht.2.2.1, ht.2.1⟩
  · intro x xs t _ ht
    obtain ⟨h1, h2, h3, h4⟩ := ht
    obtain ⟨a, hw, hw2⟩ := (unrefPackage_wins ok h2 h3 (h4 x (by simp))).keeps (unrefPackage_keeps ok rid x) h2
    have hd := (unrefPackage_post ok rid x h2).run a hw
    obtain ⟨hx, hxs⟩ := List.nodup_cons.1 h1
    refine ⟨a, hw, hxs, hw2.1, hw2.2, fun id hid => ?_⟩
    obtain ⟨n, e, hg, hi⟩ := h4 id (by simp [hid])
    obtain ⟨e', hg', hi'⟩ := (hd.here n id).2 ⟨⟨e, hg, hi⟩, fun h => hx (h ▸ hid)⟩
    exact ⟨n, e', hg', hi'⟩


/-! ### The scans -/

theorem collect_wins {γ δ : Type} {P : γ → δ → Prop} {f : γ → M (List δ)} : ∀ {l : List γ}, l.Pairwise (fun x y => ∀ a, P x a → ¬ P y a) →
    (∀ x ∈ l, Wins (f x) s (fun o t => t = s ∧ o.Nodup ∧ ∀ y ∈ o, P x y)) →
    Wins (collectL l f) s (fun o t => t = s ∧ o.Nodup ∧ ∀ y ∈ o, ∃ x ∈ l, P x y) := by
  intro l
  induction l with
  | nil => intro _ _; exact Wins.pure ⟨rfl, by simp, by simp⟩
  | cons x xs ih =>
    intro hp hf
    obtain ⟨hp1, hp2⟩ := List.pairwise_cons.1 hp
    refine (hf x (by simp)).bind ?_
    rintro a t ⟨rfl, ha1, ha2⟩
    refine (ih hp2 (fun y hy => hf y (by simp [hy]))).bind ?_
    rintro b u ⟨rfl, hb1, hb2⟩
    refine Wins.pure ⟨rfl, ?_, ?_⟩
    · rw [List.nodup_append]
      refine ⟨ha1, hb1, ?_⟩
      rintro y hy z hz rfl
      obtain ⟨w, hw, hwp⟩ := hb2 y hz
      exact hp1 w hw y (ha2 y hy) hwp
    · intro y hy
      rcases List.mem_append.1 hy with hy | hy
      · exact ⟨x, by simp, ha2 y hy⟩
      · obtain ⟨w, hw, hwp⟩ := hb2 y hy
        exact ⟨w, by simp [hw], hwp⟩

/-- The entries of a repository list different packages. -/
theorem entries_disjoint (hr : Rough W s) (r : Str) :
    ((s.db.ents r).map Prod.snd).Pairwise (fun e f => ∀ a, a ∈ e.available → ¬ a ∈ f.available) := by
  have hk : (s.db.ents r).Pairwise (fun a b => a.1 ≠ b.1) := by
    have := hr.db.wfEnts r
    unfold KV.WF KV.keys at this
    exact (List.pairwise_map.1 this).imp fun h => h.2
  rw [List.pairwise_map]
  refine hk.imp_of_mem ?_
  rintro ⟨n, e⟩ ⟨m, f⟩ he hf hne a ha hb
  have h1 := (hr.db.ent r n e (KV.get_of_mem (hr.db.wfEnts r) he)).avail a ha
  have h2 := (hr.db.ent r m f (KV.get_of_mem (hr.db.wfEnts r) hf)).avail a hb
  exact hne (h1.2.2.symm.trans h2.2.2)

theorem scan_wins {r : Str} {f : RepoEntry → M (List Str)} (hr : Rough W s)
    (hf : ∀ n e, (s.db.ents r).get n = some e → Wins (f e) s (fun o t => t = s ∧ o.Nodup ∧ ∀ y ∈ o, y ∈ e.available)) :
    Wins (repoEntries r >>= fun es => collectL es f) s (fun o t => t = s ∧ o.Nodup ∧ ∀ y ∈ o, Has s r y) := by
  refine Wins.bind (P := fun a t => a = (s.db.ents r).map Prod.snd ∧ t = s) ⟨_, rfl, rfl, rfl⟩ ?_
  rintro es t ⟨rfl, rfl⟩
  refine (collect_wins (P := fun e y => y ∈ e.available) (entries_disjoint hr r) ?_).mono ?_
  · intro e he
    obtain ⟨⟨n, e'⟩, hm, rfl⟩ := List.mem_map.1 he
    exact hf n e' (KV.get_of_mem (hr.db.wfEnts r) hm)
  · rintro o u ⟨rfl, h1, h2⟩
    refine ⟨rfl, h1, fun y hy => ?_⟩
    obtain ⟨e, he, hi⟩ := h2 y hy
    obtain ⟨⟨n, e'⟩, hm, rfl⟩ := List.mem_map.1 he
    exact ⟨n, e', KV.get_of_mem (hr.db.wfEnts r) hm, hi⟩

theorem listed_pool {r n x : Str} {e : RepoEntry} (hr : Rough W s) (hs : Safe W s.db) (hg : (s.db.ents r).get n = some e) (hx : x ∈ e.available) :
    ∃ pe, s.db.pool.get x = some pe ∧ RPool W x pe := by
  obtain ⟨pe, h1, _⟩ := hs.pool (r := r) (id := x) ⟨n, e, hg, .inl hx⟩
  exact ⟨pe, h1, hr.db.pool x pe h1⟩

theorem pairwise_ne {l : List Str} (h : l.Nodup) : l.Pairwise (fun x y => ∀ a, a = x → ¬ a = y) :=
  h.imp fun hne a h1 h2 => hne (h1.symm.trans h2)

theorem matchingSource_wins (ok : W.OK) (r source : Str) (rel : Int) (hr : Rough W s) (hs : Safe W s.db) :
    Wins (matchingSource r source rel) s (fun o t => t = s ∧ o.Nodup ∧ ∀ y ∈ o, Has s r y) := by
  refine scan_wins hr fun n e hg => ?_
  have he := hr.db.ent r n e hg
  refine (collect_wins (P := fun x y => y = x) (pairwise_ne he.nodup) fun id hid => ?_).mono ?_
  · obtain ⟨pe, h1, h2⟩ := listed_pool hr hs hg hid
    refine (poolGet_wins h1).bind ?_
    rintro a t ⟨rfl, rfl⟩
    split
    · exact Wins.pure ⟨rfl, by simp, by simp⟩
    · split
      · refine (getRelease_wins (h2.hist ok)).bind ?_
        rintro k t ⟨rfl, rfl⟩
        split
        · exact Wins.pure ⟨rfl, by simp, by simp⟩
        · exact Wins.pure ⟨rfl, by simp, by simp⟩
      · exact Wins.pure ⟨rfl, by simp, by simp⟩
  · rintro o t ⟨rfl, h1, h2⟩
    refine ⟨rfl, h1, fun y hy => ?_⟩
    obtain ⟨x, hx, rfl⟩ := h2 y hy
    exact hx

theorem trimScan_wins (ok : W.OK) (k : Nat) {r n : Str} {e : RepoEntry} (hr : Rough W s) (hs : Safe W s.db) (hg : (s.db.ents r).get n = some e) :
    Wins (trimScan W.E k e) s (fun o t => t = s ∧ o.Nodup ∧ ∀ y ∈ o, y ∈ e.available) := by
  have he := hr.db.ent r n e hg
  have hw : Wins (trimScan W.E k e) s (fun _ _ => True) := by
    unfold trimScan
    split
    · exact Wins.pure trivial
    · refine Wins.bind (P := fun _ _ => True) ?_ fun _ _ _ => Wins.pure trivial
      refine (collect_wins (P := fun x y => y = W.stamped x) (l := e.available) ?_ fun id hid => ?_).mono fun _ _ _ => trivial
      · refine he.nodup.imp_of_mem ?_
        rintro x y hx hy hne a rfl h2
        have := congrArg Meta.getID h2
        rw [W.stamped_getID ok (he.avail x hx).2.1, W.stamped_getID ok (he.avail y hy).2.1] at this
        exact hne this
      · obtain ⟨pe, h1, h2⟩ := listed_pool hr hs hg hid
        refine (poolGet_wins h1).bind ?_
        rintro a t ⟨rfl, rfl⟩
        refine Wins.bind (P := fun _ u => u = t) ?_ ?_
        · split
          · exact (getRelease_wins (h2.hist ok)).mono fun _ _ h => h.2
          · exact Wins.pure rfl
        · rintro _ u rfl
          exact Wins.pure ⟨rfl, by simp, by simpa using h2.pkg⟩
  obtain ⟨a, ha, _⟩ := hw
  refine ⟨a, ha, (trimScan_reads _ _ _).st s, ?_⟩
  have hval := (trimScan_at (tgt := none) ok k e hr).val a ha
  subst hval
  have hp : ∀ id ∈ e.available, W.IsPkg id := fun id hi => (he.avail id hi).2.1
  have hpm := (ranked_spec ok hp).1
  rw [trimIds_eq]
  split
  · simp
  · refine ⟨?_, fun y hy => hpm.mem_iff.1 (List.mem_of_mem_drop (List.mem_filter.1 hy).1)⟩
    exact ((hpm.nodup_iff.2 he.nodup).sublist (List.drop_sublist _ _)).filter _

theorem trimObsoleteScan_wins (obs : List Str) (n : Str) : ∀ (l : List Str), (∀ x ∈ l, ∃ pe, s.db.pool.get x = some pe) →
    Wins (trimObsoleteScan obs n l) s (fun o t => t = s ∧ o.Nodup ∧ ∀ y ∈ o, y ∈ l) := by
  intro l
  induction l with
  | nil => intro _; exact Wins.pure ⟨rfl, by simp, by simp⟩
  | cons x xs ih =>
    intro h
    obtain ⟨pe, h1⟩ := h x (by simp)
    refine (poolGet_wins h1).bind ?_
    rintro a t ⟨rfl, rfl⟩
    split
    · split
      · exact Wins.pure ⟨rfl, by simp, by simp⟩
      · exact Wins.pure ⟨rfl, by simp, by simp⟩
    · exact (ih fun y hy => h y (by simp [hy])).mono fun o t ht => ⟨ht.1, ht.2.1, fun y hy => by simp [ht.2.2 y hy]⟩

theorem removeSource_wins (ok : W.OK) (r source : Str) (rel : Int) (hr : Rough W s) (hs : Safe W s.db) (hx : ∃ id, Has s r id ∧ Matches W source rel id) :
    Wins (removeSource r source rel) s (fun _ t => Safe W t.db ∧ Rough W t) := by
  obtain ⟨ids, h1, h2, h3, h4⟩ := matchingSource_wins ok r source rel hr hs
  have hv := (matchingSource_at (tgt := none) ok r source rel hr).val ids h1
  refine Wins.bind (P := fun o t => o = ids ∧ t = s) ⟨ids, h1, rfl, h2⟩ ?_
  rintro o t ⟨rfl, rfl⟩
  obtain ⟨id, hid, hm⟩ := hx
  have := (hv id).2 ⟨hid, hm⟩
  rw [if_neg (by intro h0; rw [List.length_eq_zero_iff] at h0; rw [h0] at this; cases this)]
  exact unrefAll_wins ok r o h3 hr hs h4

theorem trimPackages_wins (ok : W.OK) (r : Str) {k : Int} (hk : 1 ≤ k) (hr : Rough W s) (hs : Safe W s.db) :
    Wins (trimPackages W.E r k) s (fun _ t => Safe W t.db ∧ Rough W t) := by
  unfold trimPackages
  rw [if_neg (show ¬ k < 1 by omega)]
  have hw := scan_wins (f := trimScan W.E k.toNat) (r := r) hr fun n e hg => trimScan_wins ok k.toNat hr hs hg
  have := hw.bind (f := fun ids => forL ids (unrefPackage r)) (R := fun _ t => Safe W t.db ∧ Rough W t)
    (by rintro o t ⟨rfl, h1, h2⟩; exact unrefAll_wins ok r o h1 hr hs h2)
  rw [M.bind_assoc] at this
  exact this

theorem trimObsolete_scan_wins (ok : W.OK) (r : Str) (obs : List Str) (hr : Rough W s) (hs : Safe W s.db) :
    Wins (do
      let es ← repoEntries r
      let ids ← collectL es fun e => trimObsoleteScan obs e.name e.available
      forL ids (unrefPackage r)) s (fun _ t => Safe W t.db ∧ Rough W t) := by
  have hw := scan_wins (f := fun e => trimObsoleteScan obs e.name e.available) (r := r) hr fun n e hg => trimObsoleteScan_wins obs e.name e.available fun x hx => by
    obtain ⟨pe, h1, _⟩ := listed_pool hr hs hg hx
    exact ⟨pe, h1⟩
  have := hw.bind (f := fun ids => forL ids (unrefPackage r)) (R := fun _ t => Safe W t.db ∧ Rough W t)
    (by rintro o t ⟨rfl, h1, h2⟩; exact unrefAll_wins ok r o h1 hr hs h2)
  rw [M.bind_assoc] at this
  exact this


/-! ### Deletion -/

/-- Writes of the deletion of `r`, begun in `d`. -/
def DropWrite (d : DB) (r : Str) : DbWrite → Prop
  | .putPool k e => Holds d r k ∧ ∃ pe, d.pool.get k = some pe ∧ pe.refCount ≤ e.refCount + 1
  | .delPool k => Holds d r k ∧ ∃ pe, d.pool.get k = some pe ∧ pe.refCount ≤ 1
  | .delEnt r' _ => r' = r
  | .delRepo r' => r' = r
  | _ => False

theorem DropWrite.del {d : DB} {r : Str} {w : DbWrite} (h : DropWrite d r w) : DelWrite r w := by
  cases w <;> first | trivial | exact h

theorem removePackageInternal_queues (rid id : Str) {d : DB} (hr : RDb W d) (hd : s.db = d) (hh : Holds d rid id) :
    Post (removePackageInternal .batch rid id) s (fun _ t => Queued s (DropWrite d rid) [] t) := by
  subst hd
  have h0 : Post (poolGet? id) s (fun o t => t = s ∧ o = s.db.pool.get id) := ⟨fun o ho => by cases ho; exact ⟨rfl, rfl⟩⟩
  refine h0.bind ?_
  rintro o t ⟨rfl, ho⟩
  cases o with
  | none => exact Post.pure (Queued.refl _ _)
  | some e =>
    have hg := ho.symm
    have he := hr.pool id e hg
    refine ((pathComp_reads _).post).bind ?_
    rintro c t' rfl
    refine Post.bind (P := fun _ u => Queued t' (DropWrite t'.db rid) [] u) ⟨fun _ _ => Queued.refl _ _⟩ fun _ u hu => ?_
    have hud : u.db = t'.db := hu.1
    have h1 : Post (poolGet id) u (fun pe v => v = u ∧ u.db.pool.get id = some pe) := by
      have h0 : Post (poolGet? id) u (fun o t => t = u ∧ o = u.db.pool.get id) := ⟨fun o ho => by cases ho; exact ⟨rfl, rfl⟩⟩
      refine h0.bind ?_
      rintro o v ⟨rfl, ho⟩
      cases o with
      | none => exact Post.throw
      | some e => exact Post.pure ⟨rfl, ho.symm⟩
    refine h1.bind ?_
    rintro pe v ⟨rfl, hpe⟩
    rw [hud, hg] at hpe
    cases hpe
    have hpos := he.pos
    have hdec : dec64 e.refCount = e.refCount - 1 := by unfold dec64; rw [if_neg (by omega)]
    have q : ∀ {w : DbWrite} {x : St}, DropWrite t'.db rid w → Queued t' (DropWrite t'.db rid) [] x →
        Post (dbWrite .batch w) x (fun _ y => Queued t' (DropWrite t'.db rid) [] y) := by
      intro w x hw hx
      unfold dbWrite
      split
      · exact Post.throw
      · refine ⟨fun _ _ => ?_⟩
        have : Queued x (DropWrite t'.db rid) [w] { x with pend := x.pend ++ [w] } := ⟨rfl, [w], rfl, by simpa using hw, by simp⟩
        exact (hx.trans this).weaken (by simp)
    split
    · exact q (by rw [he.name]; exact ⟨hh, e, hg, by show _ ≤ dec64 e.refCount + 1; omega⟩) hu
    · refine ((pathComp_reads _).post).bind ?_
      rintro c x rfl
      refine Post.bind (P := fun _ y => Queued t' (DropWrite t'.db rid) [] y) ⟨fun _ _ => ?_⟩ fun _ y hy => q ⟨hh, e, hg, by omega⟩ hy
      obtain ⟨k1, more, k2, k3, k4⟩ := hu
      exact ⟨k1, more, k2, k3, k4⟩

theorem forL_queues {γ : Type} {ok : DbWrite → Prop} {must : γ → List DbWrite} {f : γ → M Unit} : ∀ (l : List γ) {s : St},
    (∀ x ∈ l, ∀ t, t.db = s.db → Post (f x) t (fun _ u => Queued t ok (must x) u)) → Post (forL l f) s (fun _ u => Queued s ok (l.flatMap must) u) := by
  intro l
  induction l with
  | nil => intro s _; exact Post.pure (Queued.refl s ok)
  | cons x xs ih =>
    intro s h
    refine Post.bind (h x (by simp) s rfl) fun _ t ht => ?_
    refine (ih (s := t) fun y hy u hu => h y (by simp [hy]) u (hu.trans ht.1)).mono fun _ u hu => ?_
    rw [List.flatMap_cons]; exact ht.trans hu

theorem queue_post {w : DbWrite} {ok : DbWrite → Prop} (hw : ok w) : Post (dbWrite .batch w) s (fun _ t => Queued s ok [w] t) := by
  unfold dbWrite
  split
  · exact Post.throw
  · exact ⟨fun _ _ => ⟨rfl, [w], rfl, by simpa using hw, by simp⟩⟩

theorem deleteRepoBody_queues {rid : Str} (hr : RDb W s.db) :
    Post (deleteRepoBody rid) s (fun _ t => Queued s (DropWrite s.db rid)
      (((s.db.ents rid).map Prod.snd).map (fun e => .delEnt rid e.name) ++ [.delRepo rid]) t) := by
  unfold deleteRepoBody
  refine Post.bind (P := fun a t => a = (s.db.ents rid).map Prod.snd ∧ t = s) ⟨fun _ h => by cases h; exact ⟨rfl, rfl⟩⟩ ?_
  rintro es t ⟨rfl, rfl⟩
  refine Post.bind (forL_queues (ok := DropWrite t.db rid) (must := fun e => [.delEnt rid e.name]) _ ?_) fun _ u hu => ?_
  · intro e he u hud
    obtain ⟨⟨n, e'⟩, hm, rfl⟩ := List.mem_map.1 he
    have hg := KV.get_of_mem (hr.wfEnts rid) hm
    refine Post.bind (forL_queues (ok := DropWrite t.db rid) (must := fun _ => []) _ fun id hid v hv =>
      removePackageInternal_queues rid id hr (hv.trans hud) ⟨n, e', hg, .inl hid⟩) fun _ v hv => ?_
    have hvd : v.db = t.db := hv.1.trans hud
    refine Post.bind (forL_queues (ok := DropWrite t.db rid) (must := fun _ => []) _ fun id hid w hw =>
      removePackageInternal_queues rid id hr (hw.trans hvd) ⟨n, e', hg, .inr hid⟩) fun _ w hw => ?_
    refine (queue_post (w := .delEnt rid e'.name) (ok := DropWrite t.db rid) rfl).mono fun _ x hx => ?_
    exact ((hv.trans hw).trans hx).weaken (by simp)
  · refine (queue_post (w := .delRepo rid) (ok := DropWrite t.db rid) rfl).mono fun _ v hv => ?_
    refine (hu.trans hv).weaken fun w hw => ?_
    rcases List.mem_append.1 hw with hw | hw
    · refine List.mem_append.2 (.inl ?_)
      obtain ⟨e, he, rfl⟩ := List.mem_map.1 hw
      exact List.mem_flatMap.2 ⟨e, he, by simp⟩
    · exact List.mem_append.2 (.inr hw)

theorem dropWrites_pool {d : DB} {r : Str} : ∀ (ws : List DbWrite) (d' : DB), (∀ w ∈ ws, DropWrite d r w) → Shed (Holds d r) d d' →
    (∀ x, x ≠ r → d'.ents x = d.ents x) →
    Shed (Holds d r) d (ws.foldl DbWrite.apply d') ∧ ∀ x, x ≠ r → (ws.foldl DbWrite.apply d').ents x = d.ents x := by
  intro ws
  induction ws with
  | nil => intro d' _ h1 h2; exact ⟨h1, h2⟩
  | cons w ws ih =>
    intro d' hw h1 h2
    have h0 := hw w (by simp)
    refine ih (w.apply d') (fun x hx => hw x (by simp [hx])) ?_ ?_
    · cases w with
      | putPool k e =>
        obtain ⟨hh, pe, hg, hle⟩ := h0
        refine ⟨fun j hj => ?_, fun j pj hpj h2j => ?_⟩
        · simp only [DbWrite.apply, KV.get_put]
          rw [if_neg (show ¬ j = k from fun hc => hj (hc ▸ hh))]; exact h1.keep j hj
        · simp only [DbWrite.apply, KV.get_put]
          split
          · rename_i hc; subst hc
            rw [hg] at hpj; cases hpj
            exact ⟨e, rfl, hle⟩
          · exact h1.less j pj hpj h2j
      | delPool k =>
        obtain ⟨hh, pe, hg, hle⟩ := h0
        refine ⟨fun j hj => ?_, fun j pj hpj h2j => ?_⟩
        · simp only [DbWrite.apply, KV.get_del]
          rw [if_neg (show ¬ j = k from fun hc => hj (hc ▸ hh))]; exact h1.keep j hj
        · simp only [DbWrite.apply, KV.get_del]
          split
          · rename_i hc; subst hc
            rw [hg] at hpj; cases hpj
            omega
          · exact h1.less j pj hpj h2j
      | delEnt a k => exact ⟨h1.keep, h1.less⟩
      | delRepo k => exact ⟨h1.keep, h1.less⟩
      | putSkip k v => exact h0.elim
      | putRepo k => exact h0.elim
      | putEnt a k v => exact h0.elim
    · intro x hx
      cases w with
      | putPool k e => exact h2 x hx
      | delPool k => exact h2 x hx
      | delEnt a k =>
        have : a = r := h0
        subst this
        simp only [DbWrite.apply, setEnts]
        rw [if_neg hx]; exact h2 x hx
      | delRepo k => exact h2 x hx
      | putSkip k v => exact h0.elim
      | putRepo k => exact h0.elim
      | putEnt a k v => exact h0.elim

theorem Safe.dropped {d : DB} {r : Str} (h : Safe W d) (hr : RDb W d) {ws : List DbWrite} (hw : ∀ w ∈ ws, DropWrite d r w)
    (must : ∀ e ∈ (d.ents r).map Prod.snd, .delEnt r e.name ∈ ws) : Safe W (ws.foldl DbWrite.apply d) := by
  obtain ⟨h1, h2⟩ := dropWrites_pool (d := d) (r := r) ws d hw ((Shed.refl d).mono fun _ h => h.elim) (fun _ _ => rfl)
  obtain ⟨g1, _⟩ := deleting_gone (r := r) ws d (fun w hx => (hw w hx).del)
  have none : ∀ n e, ((ws.foldl DbWrite.apply d).ents r).get n ≠ some e := by
    intro n e hg
    obtain ⟨ha, hb⟩ := g1 n e hg
    have hm := must e (List.mem_map.2 ⟨(n, e), KV.mem_of_get ha, rfl⟩)
    rw [(hr.ent r n e ha).name] at hm
    exact hb hm
  have back : ∀ x n e, ((ws.foldl DbWrite.apply d).ents x).get n = some e → x ≠ r ∧ (d.ents x).get n = some e := by
    intro x n e hg
    have hx : x ≠ r := by rintro rfl; exact none n e hg
    rw [h2 x hx] at hg
    exact ⟨hx, hg⟩
  refine h.shed (r := r) h1 (fun _ h => h) ?_ (fun x n e hg => h.top x n e (back x n e hg).2) (fun x n e hg => h.dnd x n e (back x n e hg).2)
  rintro x j ⟨n, e, hg, hi⟩
  obtain ⟨hx, hg'⟩ := back x n e hg
  exact ⟨⟨n, e, hg', hi⟩, fun hc => hx hc.1⟩

theorem unrefEntry_still (id : Str) : Still (unrefEntry .batch id) := by
  refine (poolGet_reads id).still.bind fun e => ?_
  have hb : ∀ w : DbWrite, Still (dbWrite .batch w) := fun w => by
    unfold dbWrite
    exact Still.ite (Still.throw _) (Still.vol (fun _ => rfl) (fun _ => rfl))
  exact Still.ite (hb _) ((pathComp_reads _).still.bind fun _ => (removeFile_still _).bind fun _ => hb _)

theorem batch_still (w : DbWrite) : Still (dbWrite .batch w) := by
  unfold dbWrite
  exact Still.ite (Still.throw _) (Still.vol (fun _ => rfl) (fun _ => rfl))

theorem removePackageInternal_still (rid id : Str) : Still (removePackageInternal .batch rid id) := by
  refine (poolGet?_reads id).still.bind fun o => ?_
  cases o with
  | none => exact Still.pure _
  | some e => exact (pathComp_reads _).still.bind fun _ => (removeFile_still _).bind fun _ => unrefEntry_still id

theorem deleteRepoBody_still (rid : Str) : Still (deleteRepoBody rid) := by
  refine (repoEntries_reads rid).still.bind fun es => Still.bind (Still.forL fun e _ => ?_) fun _ => batch_still _
  exact (Still.forL fun id _ => removePackageInternal_still rid id).bind fun _ =>
    (Still.forL fun id _ => removePackageInternal_still rid id).bind fun _ => batch_still _

theorem deleteRepo_safe (rid : Str) (hr : Rough W s) (hs : Safe W s.db) : Run W (deleteRepo rid) s (fun _ _ => True) := by
  unfold deleteRepo
  refine (((getRepo_still rid).run hs).keeps (getRepo_keeps (tgt := none) rid) hr).bind fun _ t hst ht => ?_
  refine ((Still.run (Still.vol (g := fun s => { s with cache := s.cache.filter (· ≠ rid) }) (fun _ => rfl) (fun _ => rfl)) hst).keeps
    (cache_keeps (tgt := none) fun l => l.filter (· ≠ rid)) ht.1).bind fun _ u hsu hu => ?_
  refine Run.bind (P := fun _ _ => True) ?_ fun _ v hv _ => ((Still.stepFs _).run hv).bind fun _ w hw _ => ((Still.stepFs _).run hw).mono fun _ _ _ => trivial
  have hstill := deleteRepoBody_still rid
  have hbf := hstill.fin { u with pend := [] }
  have hbt := hstill.tr { u with pend := [] }
  have hq := (deleteRepoBody_queues (s := { u with pend := [] }) (rid := rid) hu.1.db).run
  have hst' : ∀ t ∈ (deleteRepoBody rid { u with pend := [] }).tr, Safe W t.db := fun t ht => hsu.congr (hbt t ht).1 (hbt t ht).2
  have hfin : Safe W (deleteRepoBody rid { u with pend := [] }).st.db := hsu.congr hbf.1 hbf.2
  unfold dbUpdate
  rcases hres : (deleteRepoBody rid { u with pend := [] }).res with a | e | _
  · obtain ⟨q1, more, q2, q3, q4⟩ := hq a hres
    have key : Safe W ((deleteRepoBody rid { u with pend := [] }).st.pend.foldl DbWrite.apply (deleteRepoBody rid { u with pend := [] }).st.db) := by
      rw [q2, q1]
      simp only [List.nil_append]
      refine hsu.dropped (r := rid) hu.1.db q3 fun e he => q4 _ ?_
      exact List.mem_append.2 (.inl (List.mem_map.2 ⟨e, he, rfl⟩))
    refine ⟨?_, ?_, fun _ _ => trivial⟩
    · simp only [hres]; exact key
    · intro t ht
      simp only [hres] at ht
      rcases List.mem_append.1 ht with ht | ht
      · exact hst' t ht
      · simp only [List.mem_singleton] at ht
        subst ht; exact key
  · refine ⟨by simp only [hres]; exact hfin, fun t ht => by simp only [hres] at ht; exact hst' t ht, fun _ _ => trivial⟩
  · refine ⟨by simp only [hres]; exact hfin, fun t ht => by simp only [hres] at ht; exact hst' t ht, fun _ _ => trivial⟩

/-! ### All jobs -/

/-- Jobs that take packages out of a repository one by one. -/
def Op.removes : Op → Bool
  | .removeSource _ _ _ => true
  | .trimObsolete _ => true
  | .trimPackages _ _ => true
  | _ => false

theorem cloneFrom_safe (ok : W.OK) (dst src : Str) (full : Bool) (hr : Rough W s) (hs : Safe W s.db) : Run W (cloneFrom W.E dst src full) s (fun _ _ => True) := by
  refine (((pullAssets_still dst src).run hs).keeps (pullAssets_keeps dst src) hr).bind fun _ t hst ht => ?_
  refine Run.read (tgt := none) hst (repoEntries_reads src) (repoEntries_keeps src t ht.1) fun es hes => ?_
  refine (Run.forL (tgt := some dst) _ ht.1 hst ?_ fun id _ s hr hs => refPackage_safe ok dst id hr hs).bind fun _ u hsu hu =>
    (Run.forL (tgt := some dst) _ hu hsu ?_ fun id _ s hr hs => refDelta_safe dst id hr hs).mono fun _ _ _ => trivial
  · intro id hid
    refine refPackage_keeps ok dst id ?_
    cases full with
    | true =>
      simp only [if_true, List.mem_flatMap] at hid
      obtain ⟨e, he, hi⟩ := hid
      exact ((hes e he).avail id hi).1
    | false =>
      simp only [Bool.false_eq_true, if_false, List.mem_map] at hid
      obtain ⟨e, he, rfl⟩ := hid
      exact ((hes e he).avail _ (hes e he).pub).1
  · intro d hd
    refine refDelta_keeps ok dst d ?_
    cases full with
    | true =>
      simp only [if_true, List.mem_flatMap] at hd
      obtain ⟨e, he, hi⟩ := hd
      exact ((hes e he).deltas d hi).1
    | false => simp at hd

theorem pullFrom_safe (ok : W.OK) (dst src : Str) (hr : Rough W s) (hs : Safe W s.db) : Run W (pullFrom W.E dst src) s (fun _ _ => True) := by
  refine (((pullAssets_still dst src).run hs).keeps (pullAssets_keeps dst src) hr).bind fun _ t hst ht => ?_
  refine Run.read (tgt := none) hst (repoEntries_reads src) (repoEntries_keeps src t ht.1) fun es hes => ?_
  refine Run.read (tgt := none) hst (Reads.collectL fun e _ => pullOne_reads dst e) (Keeps.collectL (fun e he => pullOne_keeps ok dst (hes e he)) t ht.1) fun todo htd => ?_
  refine (Run.forL (tgt := some dst) _ ht.1 hst ?_ fun id _ s hr hs => refPackage_safe ok dst id hr hs).bind fun _ u hsu hu => Run.pure hsu trivial
  intro id hid
  obtain ⟨x, hx, rfl⟩ := List.mem_map.1 hid
  exact refPackage_keeps ok dst _ (htd x hx)

theorem copySourceFrom_safe (ok : W.OK) (dst src source : Str) (rel : Int) (hr : Rough W s) (hs : Safe W s.db) :
    Run W (copySourceFrom W.E dst src source rel) s (fun _ _ => True) := by
  refine Run.read (tgt := none) hs (matchingSource_reads _ _ _) (matchingSource_keeps ok src source rel s hr) fun ids h => ?_
  split
  · exact Run.throw hs
  · exact (Run.forL (tgt := some dst) _ hr hs (fun id hid => refPackage_keeps ok dst id (h id hid)) fun id _ s hr hs => refPackage_safe ok dst id hr hs).mono fun _ _ _ => trivial

theorem mIndex_safe (r : Str) (hs : Safe W s.db) : Run W (mIndex W.E r) s (fun _ _ => True) := ((mIndex_still W.E r).run hs).mono fun _ _ _ => trivial

/-- Every job but a removal keeps the invariant at all its points. -/
theorem Op.safe (ok : W.OK) (hz : W.NoTorn) (o : Op) (ho : o.Ok W) (hn : o.removes = false) (hr : Rough W s) (hs : Safe W s.db) :
    Run W (o.run W.E) s (fun _ _ => True) := by
  have get : ∀ {β : Type} (r : Str) {f : Unit → M β} {s : St}, Rough W s → Safe W s.db → (∀ t, Rough W t → Safe W t.db → Run W (f ()) t (fun _ _ => True)) →
      Run W (getRepo r >>= f) s (fun _ _ => True) := by
    intro β r f s hr hs hf
    exact (((getRepo_still r).run hs).keeps (getRepo_keeps (tgt := none) r) hr).bind fun _ t hst ht => hf t ht.1 hst
  cases o with
  | create r => exact ((createRepo_still r).run hs).bind fun _ t ht _ => mIndex_safe r ht
  | delete r => exact deleteRepo_safe r hr hs
  | clone a b f =>
    refine get a hr hs fun t ht hst => ?_
    refine (((createRepo_still b).run hst).keeps (createRepo_keeps b) ht).bind fun _ u hsu hu => ?_
    exact (cloneFrom_safe ok b a f hu.1 hsu).bind fun _ v hv _ => mIndex_safe b hv
  | pull a b =>
    refine Run.bind (P := fun _ _ => True) ?_ fun _ t ht _ => Run.pure ht trivial
    exact get a hr hs fun t ht hst => get b ht hst fun u hu hsu => (pullFrom_safe ok b a hu hsu).bind fun _ v hv _ =>
      (mIndex_safe b hv).bind fun _ w hw _ => Run.pure hw trivial
  | removeSource r n k => cases hn
  | trimObsolete r => cases hn
  | trimPackages r k => cases hn
  | copySource a b n k sk =>
    refine get a hr hs fun t ht hst => get b ht hst fun u hu hsu => (copySourceFrom_safe ok b a n k hu hsu).bind fun _ v hv _ => ?_
    cases sk with
    | true => exact mIndex_safe b hv
    | false => exact Run.pure hv trivial
  | addPackages r fs st =>
    refine get r hr hs fun t ht hst => ?_
    exact (Run.forL (tgt := some r) fs ht hst (fun f hf => addPackage_keeps ok hz r (file := .ext f) rfl (ho f hf))
      fun f hf s hr hs => addPackage_safe ok hz r (file := .ext f) rfl hr hs).bind fun _ u hsu _ => mIndex_safe r hsu
  | index r => exact mIndex_safe r hs
  | addDelta r d f t => exact get r hr hs fun u hu hsu => addDelta_safe r _ f t hu hsu
  | refDelta r d => exact get r hr hs fun u hu hsu => refDelta_safe r d hu hsu
  | markFailed i d => exact ((markDeltaFailed_still i d).run hs).mono fun _ _ _ => trivial
  | upload f c => exact ((Still.stepFs _).run hs).mono fun _ _ _ => trivial
  | unlink f => exact ((Still.stepFs _).run hs).mono fun _ _ _ => trivial
  | putAsset r a c => exact ((Still.stepFs _).run hs).mono fun _ _ _ => trivial
  | stage r d c => exact ((Still.stepFs _).run hs).mono fun _ _ _ => trivial
  | unstage r d => exact ((Still.stepFs _).run hs).mono fun _ _ _ => trivial
  | restart =>
    have : Safe W s.crash.db := hs
    exact ⟨this, fun t ht => by have ht : t ∈ [_] := ht; simp only [List.mem_singleton] at ht; subst ht; exact this, fun _ _ => trivial⟩

/-- A removal that comes to its end ends in a safe state. -/
theorem Op.removes_safe (ok : W.OK) (o : Op) (hn : o.removes = true) (hr : Rough W s) (hs : Safe W s.db) : Safe W (o.run W.E s).st.db := by
  have fin : ∀ (r : Str) {m : M Unit}, (∀ t, Rough W t → Safe W t.db → Safe W (m t).st.db) →
      Safe W ((do getRepo r; m; mIndex W.E r : M Unit) s).st.db := by
    intro r m hm
    have e : (do getRepo r; m; mIndex W.E r : M Unit) = getRepo r >>= fun _ => m >>= fun _ => mIndex W.E r := rfl
    have hg := (((getRepo_still r).run hs).keeps (getRepo_keeps (tgt := none) r) hr)
    rw [e]
    show Safe W (M.bind' _ _ s).st.db
    unfold M.bind'
    cases h1 : (getRepo r s).res with
    | ok a =>
      have h2 := hm _ (hg.val a h1).1 hg.fin
      show Safe W ((m >>= fun _ => mIndex W.E r) (getRepo r s).st).st.db
      show Safe W (M.bind' _ _ _).st.db
      unfold M.bind'
      cases h3 : (m (getRepo r s).st).res with
      | ok b => exact ((mIndex_still W.E r).run h2).fin
      | err e => exact h2
      | panic => exact h2
    | err e => exact hg.fin
    | panic => exact hg.fin
  cases o with
  | removeSource r n k =>
    refine fin r fun t ht hst => ?_
    by_cases hx : ∃ id, Has t r id ∧ Matches W n k id
    · obtain ⟨a, _, h2⟩ := removeSource_wins ok r n k ht hst hx
      exact h2.1
    · obtain ⟨ids, h1, h2, _, _⟩ := matchingSource_wins ok r n k ht hst
      have hv := (matchingSource_at (tgt := none) ok r n k ht).val ids h1
      have h0 : ids = [] := by
        cases ids with
        | nil => rfl
        | cons i is => exact absurd ⟨i, (hv i).1 (by simp)⟩ hx
      unfold Ferryd.removeSource
      show Safe W (M.bind' _ _ t).st.db
      unfold M.bind'
      rw [h1, h0]
      simp only [List.length_nil, if_true, throwE, h2]
      exact hst
  | trimPackages r k =>
    refine fin r fun t ht hst => ?_
    by_cases hk : 1 ≤ k
    · obtain ⟨a, _, h2⟩ := trimPackages_wins ok r hk ht hst
      exact h2.1
    · unfold Ferryd.trimPackages
      rw [if_pos (show k < 1 by omega)]
      exact hst
  | trimObsolete r =>
    refine fin r fun t ht hst => ?_
    unfold Ferryd.trimObsolete
    show Safe W (M.bind' _ _ t).st.db
    unfold M.bind'
    have hst' := (initDistribution_reads W.E r).st t
    cases h1 : (initDistribution W.E r t).res with
    | err e => rw [hst']; exact hst
    | panic => rw [hst']; exact hst
    | ok o =>
      rw [hst']
      cases o with
      | none => exact hst
      | some obs =>
        obtain ⟨a, _, h2⟩ := trimObsolete_scan_wins ok r obs ht hst
        exact h2.1
  | _ => cases hn

theorem safe_init (W : World) : Safe W St.init.db := by
  refine ⟨?_, ?_, ?_⟩
  · intro id L _ hL hne
    cases L with
    | nil => exact absurd rfl hne
    | cons x xs =>
      obtain ⟨n, e, hg, _⟩ := hL x (by simp)
      simp [St.init] at hg
  · intro r n e hg; simp [St.init] at hg
  · intro r n e hg; simp [St.init] at hg

end Ferryd
