import Verif.PropsSafe
import Verif.CoreLoose
import Verif.CoreWhole3
/-!
# CoreLeak: references lost to jobs that were cut short

`Leak W lost d`: the count of a package exceeds the number of repositories listing it by at most its multiplicity in `lost`.  Every job keeps this;
a job that adds packages, cut off anywhere, makes `lost` longer by at most one; any other job, cut off anywhere, keeps it.
-/
namespace Ferryd
open Spec
variable {W : World} {s t : St} {α β : Type} {tgt : Option Str} {lost : List Str}

/-- Repository `r` lists `id` as a package. (No code: a notion of the proofs.) -/
def Lst (d : DB) (r id : Str) : Prop := ∃ n e, (d.ents r).get n = some e ∧ id ∈ e.available

/-- Counts exceed the listings by no more than `lost`. (No code: a notion of the proofs.) -/
structure Leak (W : World) (lost : List Str) (d : DB) : Prop where
  le : ∀ id pe, W.isDelta id = false → d.pool.get id = some pe →
    ∃ L : List Str, L.Nodup ∧ (∀ r ∈ L, Lst d r id) ∧ pe.refCount ≤ L.length + lost.count id

/-- Counts of packages have only fallen, those of the packages in `X` by at least one. (No code: a notion of the proofs.) -/
structure Fewer (W : World) (X : Str → Prop) (d d' : DB) : Prop where
  any : ∀ j pe', W.isDelta j = false → d'.pool.get j = some pe' → ∃ pe, d.pool.get j = some pe ∧ pe'.refCount ≤ pe.refCount ∧ (X j → pe'.refCount + 1 ≤ pe.refCount)

theorem Lst.congr {d d' : DB} (h : d'.ents = d.ents) (r id : Str) : Lst d' r id ↔ Lst d r id := by unfold Lst; rw [h]

theorem Leak.congr {d d' : DB} (h : Leak W lost d) (hp : d'.pool = d.pool) (he : d'.ents = d.ents) : Leak W lost d' := by
  refine ⟨fun id pe hd hg => ?_⟩
  rw [hp] at hg
  simp only [Lst.congr he]
  exact h.le id pe hd hg

theorem Leak.weak {d : DB} (h : Leak W lost d) (x : Str) : Leak W (x :: lost) d := by
  refine ⟨fun id pe hd hg => ?_⟩
  obtain ⟨L, h1, h2, h3⟩ := h.le id pe hd hg
  refine ⟨L, h1, h2, ?_⟩
  rw [List.count_cons]
  split <;> omega

theorem Fewer.refl (d : DB) : Fewer W (fun _ => False) d d := ⟨fun _ pe _ h => ⟨pe, h, Nat.le_refl _, fun h => h.elim⟩⟩

theorem Fewer.trans {X Y : Str → Prop} {d d' d'' : DB} (h : Fewer W X d d') (k : Fewer W Y d' d'') : Fewer W X d d'' := by
  refine ⟨fun j pe'' hd hg => ?_⟩
  obtain ⟨pe', h1, h2, _⟩ := k.any j pe'' hd hg
  obtain ⟨pe, h3, h4, h5⟩ := h.any j pe' hd h1
  exact ⟨pe, h3, by omega, fun hx => by have := h5 hx; omega⟩

theorem Fewer.congr {X : Str → Prop} {d d' d'' : DB} (h : Fewer W X d d') (hp : d''.pool = d'.pool) : Fewer W X d d'' :=
  ⟨by rw [hp]; exact h.any⟩

theorem Leak.cut {X : Str → Prop} {d d' : DB} {r : Str} (h : Leak W lost d) (hf : Fewer W X d d')
    (hl : ∀ x j, W.isDelta j = false → Lst d x j → Lst d' x j ∨ (x = r ∧ X j)) : Leak W lost d' := by
  refine ⟨fun id pe' hd hg => ?_⟩
  obtain ⟨pe, h1, h2, h3⟩ := hf.any id pe' hd hg
  obtain ⟨L, h4, h5, h6⟩ := h.le id pe hd h1
  by_cases hx : X id
  · refine ⟨L.erase r, h4.erase r, fun x hx' => ?_, ?_⟩
    · have hxr : x ≠ r := (List.Nodup.mem_erase_iff h4).1 hx' |>.1
      rcases hl x id hd (h5 x (List.mem_of_mem_erase hx')) with h7 | h7
      · exact h7
      · exact absurd h7.1 hxr
    · have := h3 hx
      have : L.length ≤ (L.erase r).length + 1 := by rw [List.length_erase]; split <;> omega
      omega
  · refine ⟨L, h4, fun x hx' => ?_, by omega⟩
    rcases hl x id hd (h5 x hx') with h7 | h7
    · exact h7
    · exact absurd h7.2 hx

theorem Leak.fewer {X : Str → Prop} {d d' : DB} (h : Leak W lost d) (hf : Fewer W X d d') (he : d'.ents = d.ents) : Leak W lost d' := by
  have hf' : Fewer W (fun _ => False) d d' := ⟨fun j pe' hd hg => by
    obtain ⟨pe, h1, h2, _⟩ := hf.any j pe' hd hg
    exact ⟨pe, h1, h2, fun h => h.elim⟩⟩
  exact h.cut (r := []) hf' fun x j _ hl => .inl ((Lst.congr he x j).2 hl)

/-- One more reference of `id`. -/
theorem Leak.bump {d d' : DB} {id : Str} {e : PoolEntry} (h : Leak W lost d) (hd : d' = (DbWrite.putPool id e).apply d)
    (he : e.refCount ≤ 1 ∨ ∃ pe, d.pool.get id = some pe ∧ e.refCount ≤ pe.refCount + 1) : Leak W (id :: lost) d' := by
  subst hd
  refine ⟨fun j pe' hdj hg => ?_⟩
  simp only [DbWrite.apply, KV.get_put] at hg
  split at hg
  · rename_i hj; subst hj
    cases hg
    have hc : (j :: lost).count j = lost.count j + 1 := by simp
    rcases he with he | ⟨pe, h1, h2⟩
    · exact ⟨[], List.nodup_nil, by simp, by simp only [List.length_nil]; omega⟩
    · obtain ⟨L, h3, h4, h5⟩ := h.le j pe hdj h1
      exact ⟨L, h3, h4, by omega⟩
  · obtain ⟨L, h3, h4, h5⟩ := (h.weak id).le j pe' hdj hg
    exact ⟨L, h3, h4, h5⟩

/-- A delta more: nothing to see. -/
theorem Leak.putDelta {d d' : DB} {id : Str} {e : PoolEntry} (h : Leak W lost d) (hd : d' = (DbWrite.putPool id e).apply d)
    (hi : W.isDelta id = true) : Leak W lost d' := by
  subst hd
  refine ⟨fun j pe' hdj hg => ?_⟩
  simp only [DbWrite.apply, KV.get_put] at hg
  rw [if_neg (show ¬ j = id by rintro rfl; rw [hi] at hdj; cases hdj)] at hg
  obtain ⟨L, h3, h4, h5⟩ := h.le j pe' hdj hg
  exact ⟨L, h3, h4, h5⟩

/-- The reference is accounted for by a new listing. -/
theorem Leak.listed {d d' : DB} {id r : Str} (h : Leak W (id :: lost) d) (hp : d'.pool = d.pool) (hn : ¬ Lst d r id) (hy : Lst d' r id)
    (hl : ∀ x j, Lst d x j → Lst d' x j) : Leak W lost d' := by
  refine ⟨fun j pe hd hg => ?_⟩
  rw [hp] at hg
  obtain ⟨L, h1, h2, h3⟩ := h.le j pe hd hg
  rw [List.count_cons] at h3
  by_cases hj : id = j
  · subst hj
    refine ⟨r :: L, List.nodup_cons.2 ⟨fun hr => hn (h2 r hr), h1⟩, ?_, ?_⟩
    · rintro x (_ | ⟨_, hx⟩)
      · exact hy
      · exact hl x id (h2 x ‹_›)
    · simp only [List.length_cons]
      simp at h3
      omega
  · rw [if_neg (by simpa using hj)] at h3
    exact ⟨L, h1, fun x hx => hl x j (h2 x hx), by omega⟩

/-- Counts exceed the listings by no more than `lost` and `k` more. (No code: a notion of the proofs.) -/
def Almost (W : World) (k : Nat) (lost : List Str) (d : DB) : Prop := ∃ x : List Str, x.length ≤ k ∧ Leak W (x ++ lost) d

theorem Leak.almost {d : DB} (h : Leak W lost d) : Almost W k lost d := ⟨[], Nat.zero_le _, h⟩
theorem Leak.one {d : DB} {x : Str} (h : Leak W (x :: lost) d) : Almost W 1 lost d := ⟨[x], Nat.le_refl 1, h⟩

/-! ## Programs -/

/-- At each step at most `k` references more are lost; if the program does not succeed, none is; if it does, `P`. (No code: a notion of the proofs.) -/
structure Drip (W : World) (k : Nat) (lost : List Str) (m : M α) (s : St) (P : α → St → Prop) : Prop where
  bad : (∀ a, (m s).res ≠ .ok a) → Leak W lost (m s).st.db
  tr : ∀ t ∈ (m s).tr, Almost W k lost t.db
  val : ∀ a, (m s).res = .ok a → P a (m s).st

theorem Drip.bind {m : M α} {f : α → M β} {P : α → St → Prop} {R : β → St → Prop} (h : Drip W k lost m s P)
    (hf : ∀ a t, P a t → Drip W k lost (f a) t R) : Drip W k lost (m >>= f) s R := by
  rcases hm : (m s).res with a | e | _
  · have k := hf a _ (h.val a hm)
    have e : (m >>= f) s = ⟨(f a (m s).st).res, (f a (m s).st).st, (m s).tr ++ (f a (m s).st).tr⟩ := by
      show M.bind' m f s = _
      unfold M.bind'; rw [hm]
    refine ⟨?_, ?_, ?_⟩ <;> rw [e]
    · exact k.bad
    · intro t ht
      rcases List.mem_append.1 ht with ht | ht
      · exact h.tr t ht
      · exact k.tr t ht
    · exact k.val
  · have e : (m >>= f) s = ⟨.err e, (m s).st, (m s).tr⟩ := by
      show M.bind' m f s = _
      unfold M.bind'; rw [hm]
    refine ⟨?_, ?_, ?_⟩ <;> rw [e]
    · intro _; exact h.bad (by rw [hm]; simp)
    · exact h.tr
    · intro a ha; cases ha
  · have e : (m >>= f) s = ⟨.panic, (m s).st, (m s).tr⟩ := by
      show M.bind' m f s = _
      unfold M.bind'; rw [hm]
    refine ⟨?_, ?_, ?_⟩ <;> rw [e]
    · intro _; exact h.bad (by rw [hm]; simp)
    · exact h.tr
    · intro a ha; cases ha

theorem Drip.mono {m : M α} {P R : α → St → Prop} (h : Drip W k lost m s P) (hr : ∀ a t, P a t → R a t) : Drip W k lost m s R :=
  ⟨h.bad, h.tr, fun a ha => hr a _ (h.val a ha)⟩
theorem Drip.keeps {m : M α} {Q : α → Prop} {P : α → St → Prop} (h : Drip W k lost m s P) (hk : Keeps W tgt m Q) (hs : Rough W s) :
    Drip W k lost m s (fun a t => Rough W t ∧ Q a ∧ P a t) :=
  ⟨h.bad, h.tr, fun a ha => ⟨(hk s hs).fin, (hk s hs).val a ha, h.val a ha⟩⟩
theorem Drip.post {m : M α} {P R : α → St → Prop} (h : Drip W k lost m s P) (hk : Post m s R) : Drip W k lost m s (fun a t => R a t ∧ P a t) :=
  ⟨h.bad, h.tr, fun a ha => ⟨hk.run a ha, h.val a ha⟩⟩
theorem Drip.pure {a : α} {P : α → St → Prop} (h : P a s) : Drip W k lost (pure a : M α) s P :=
  ⟨fun hb => absurd rfl (hb a), fun t ht => by simp at ht, fun b hb => by cases hb; exact h⟩
theorem Drip.throw (hs : Leak W lost s.db) {e : Err} {P : α → St → Prop} : Drip W k lost (throwE e : M α) s P :=
  ⟨fun _ => hs, fun t ht => by simp at ht, fun b hb => by simp at hb⟩
theorem Drip.panic (hs : Leak W lost s.db) {P : α → St → Prop} : Drip W k lost (panicM : M α) s P :=
  ⟨fun _ => hs, fun t ht => by have : t ∈ ([] : List St) := ht; simp at this, fun b hb => by cases hb⟩
theorem Drip.getSt {g : St → M β} {R : β → St → Prop} (h : Drip W k lost (g s) s R) : Drip W k lost (getSt >>= g) s R :=
  ⟨h.bad, h.tr, h.val⟩
theorem Drip.reads {m : M α} (hs : Leak W lost s.db) (h : Reads m) : Drip W k lost m s (fun _ t => t = s) :=
  ⟨fun _ => by rw [h.st]; exact hs, fun t ht => by rw [h.tr] at ht; simp at ht, fun _ _ => h.st s⟩
theorem Drip.read {m : M α} {f : α → M β} {Q : α → Prop} {R : β → St → Prop} (hs : Leak W lost s.db) (hm : Reads m) (h : At W tgt m s Q)
    (hf : ∀ a, Q a → Drip W k lost (f a) s R) : Drip W k lost (m >>= f) s R :=
  ((Drip.reads hs hm).post (h.post hm)).bind fun a t ht => by obtain ⟨⟨rfl, hq⟩, _⟩ := ht; exact hf a hq
theorem Drip.write {w : DbWrite} (hs : Leak W lost s.db) (hw : Almost W k lost (w.apply s.db)) :
    Drip W k lost (dbWrite .direct w) s (fun _ t => t.db = w.apply s.db) := by
  unfold dbWrite
  split
  · exact Drip.throw hs
  · exact ⟨fun hb => absurd rfl (hb ()), fun t ht => by have ht : t ∈ [_] := ht; simp only [List.mem_singleton] at ht; subst ht; exact hw, fun _ _ => rfl⟩

theorem Still.drip {m : M α} (h : Still m) (hs : Leak W lost s.db) : Drip W k lost m s (fun _ t => t.db.pool = s.db.pool ∧ t.db.ents = s.db.ents) :=
  ⟨fun _ => hs.congr (h.fin s).1 (h.fin s).2, fun t ht => (hs.congr (h.tr s t ht).1 (h.tr s t ht).2).almost, fun _ _ => h.fin s⟩

/-- The same with the result `Leak`. -/
theorem Still.dripL {m : M α} (h : Still m) (hs : Leak W lost s.db) : Drip W k lost m s (fun _ t => Leak W lost t.db) :=
  (h.drip hs).mono fun _ _ ht => hs.congr ht.1 ht.2

theorem Drip.forL {γ : Type} {f : γ → M Unit} : ∀ (l : List γ) {s : St}, Rough W s → Leak W lost s.db → (∀ x ∈ l, Keeps W tgt (f x) (fun _ => True)) →
    (∀ x ∈ l, ∀ s, Rough W s → Leak W lost s.db → Drip W k lost (f x) s (fun _ t => Leak W lost t.db)) →
    Drip W k lost (forL l f) s (fun _ t => Rough W t ∧ Leak W lost t.db) := by
  intro l
  induction l with
  | nil => intro s hr hs _ _; exact Drip.pure ⟨hr, hs⟩
  | cons x xs ih =>
    intro s hr hs hk hf
    exact ((hf x (by simp) s hr hs).keeps (hk x (by simp)) hr).bind fun _ t ht =>
      ih ht.1 ht.2.2 (fun y hy => hk y (by simp [hy])) fun y hy => hf y (by simp [hy])

/-! ## Adding -/

theorem copyFile_wins (src dst : Path) (s : St) : (copyFile src dst s).res = .ok () := by
  unfold copyFile
  show (M.bind' getSt _ s).res = _
  simp only [M.bind', getSt]
  cases s.fs.tab src with
  | none => rfl
  | some i => rfl

theorem linkOrCopy_wins (E : Env) (src dst : Path) (b : Bool) (s : St) : (linkOrCopy E src dst b s).res = .ok () := by
  unfold linkOrCopy
  cases b with
  | true => exact copyFile_wins src dst s
  | false =>
    rw [if_neg (by simp)]
    show (M.bind' getSt _ s).res = _
    simp only [M.bind', getSt]
    cases s.fs.tab src with
    | none => exact copyFile_wins src dst s
    | some i =>
      cases s.fs.tab dst with
      | some j => exact copyFile_wins src dst s
      | none =>
        simp only
        by_cases h : E.linkOk src dst = true
        · rw [if_pos h]; rfl
        · rw [if_neg h]; exact copyFile_wins src dst s

/-- The listing of a package just counted. -/
theorem window (rid : Str) {id : Str} {ne : RepoEntry} {src dst : Path} (hs : Leak W (id :: lost) s.db) (hres : reservedKey ne.name = false)
    (hn : ¬ Lst s.db rid id) (hid : id ∈ ne.available) (hsup : ∀ e, (s.db.ents rid).get ne.name = some e → ∀ x ∈ e.available, x ∈ ne.available) :
    Drip W 1 lost (do linkOrCopy W.E src dst false; repoPut rid ne) s (fun _ t => Leak W lost t.db) := by
  have hst := linkOrCopy_still W.E src dst false
  have hres1 := linkOrCopy_wins W.E src dst false s
  refine Drip.bind (P := fun _ t => t.db.pool = s.db.pool ∧ t.db.ents = s.db.ents)
    ⟨fun hb => absurd hres1 (hb ()), fun t ht => (hs.congr (hst.tr s t ht).1 (hst.tr s t ht).2).one, fun _ _ => hst.fin s⟩ fun _ t ht => ?_
  have hlt : Leak W (id :: lost) t.db := hs.congr ht.1 ht.2
  have hfin : Leak W lost ((DbWrite.putEnt rid ne.name ne).apply t.db) := by
    refine hlt.listed (r := rid) rfl ?_ ?_ ?_
    · rw [Lst.congr ht.2]; exact hn
    · exact ⟨ne.name, ne, by simp [DbWrite.apply, setEnts], hid⟩
    · rintro x j ⟨n, e, hg, hj⟩
      by_cases hx : x = rid
      · subst hx
        by_cases hnn : n = ne.name
        · subst hnn
          rw [ht.2] at hg
          exact ⟨ne.name, ne, by simp [DbWrite.apply, setEnts], hsup e hg j hj⟩
        · exact ⟨n, e, by simp [DbWrite.apply, setEnts, KV.get_put, hnn, hg], hj⟩
      · exact ⟨n, e, by simp [DbWrite.apply, setEnts, hx, hg], hj⟩
  unfold repoPut dbWrite
  rw [if_neg (by show ¬ reservedKey ne.name = true; rw [hres]; simp)]
  refine ⟨fun hb => absurd rfl (hb ()), fun u hu => ?_, fun _ _ => hfin⟩
  have hu : u ∈ [_] := hu
  simp only [List.mem_singleton] at hu
  subst hu
  exact hfin.almost

theorem refEntry_drip (id : Str) (hr : Rough W s) (hs : Leak W lost s.db) :
    Drip W 1 lost (refEntry id) s (fun _ t => Leak W (id :: lost) t.db ∧ t.db.ents = s.db.ents) := by
  refine Drip.read (tgt := none) hs (poolGet_reads id) (poolGet_at id hr) fun e he => ?_
  have hn := he.2.name
  have hb : Leak W (id :: lost) ((DbWrite.putPool e.name { e with refCount := e.refCount + 1 }).apply s.db) :=
    hs.bump (e := { e with refCount := e.refCount + 1 }) (congrArg (fun n => (DbWrite.putPool n { e with refCount := e.refCount + 1 }).apply s.db) hn)
      (.inr ⟨e, he.1, Nat.le_refl _⟩)
  exact (Drip.write hs hb.one).mono fun _ t ht => by rw [ht]; exact ⟨hb, rfl⟩

theorem refEntry_dripD {id : Str} (hi : W.isDelta id = true) (hr : Rough W s) (hs : Leak W lost s.db) :
    Drip W k lost (refEntry id) s (fun _ t => Leak W lost t.db ∧ t.db.ents = s.db.ents) := by
  refine Drip.read (tgt := none) hs (poolGet_reads id) (poolGet_at id hr) fun e he => ?_
  have hn := he.2.name
  have hb : Leak W lost ((DbWrite.putPool e.name { e with refCount := e.refCount + 1 }).apply s.db) :=
    hs.putDelta (congrArg (fun n => (DbWrite.putPool n { e with refCount := e.refCount + 1 }).apply s.db) hn) hi
  exact (Drip.write hs hb.almost).mono fun _ t ht => by rw [ht]; exact ⟨hb, rfl⟩

/-- The result of `AddPackage` of the pool, in terms of the write it makes. -/
theorem poolAddInternal_drip (E : Env) (p : Pkg) (cd : Bool) (delta : Option DeltaInfo) (hr : Rough W s) (hs : Leak W lost s.db) {R : DB → Prop}
    (hw : ∀ d e, d.pool = s.db.pool → d.ents = s.db.ents →
      (e.refCount ≤ 1 ∨ ∃ pe, d.pool.get p.id = some pe ∧ e.refCount ≤ pe.refCount + 1) → R ((DbWrite.putPool p.id e).apply d))
    (hR : ∀ d, R d → Almost W k lost d) :
    Drip W k lost (poolAddInternal E p cd delta) s (fun _ t => R t.db ∧ t.db.ents = s.db.ents) := by
  have h0 : At W none (poolGet? p.id) s (fun o => o = s.db.pool.get p.id) := At.getSt (At.pure hr rfl)
  refine Drip.read hs (poolGet?_reads _) h0 fun o ho => ?_
  cases o with
  | some e =>
    have hn := (hr.db.pool _ e ho.symm).name
    have hb := hw s.db { e with refCount := e.refCount + 1 } rfl rfl (.inr ⟨e, ho.symm, Nat.le_refl _⟩)
    have e1 : (DbWrite.putPool e.name { e with refCount := e.refCount + 1 }).apply s.db = (DbWrite.putPool p.id { e with refCount := e.refCount + 1 }).apply s.db :=
      congrArg (fun n => (DbWrite.putPool n { e with refCount := e.refCount + 1 }).apply s.db) hn
    exact (Drip.write (w := .putPool e.name { e with refCount := e.refCount + 1 }) hs (by rw [e1]; exact hR _ hb)).bind fun _ t ht => Drip.pure (by rw [ht, e1]; exact ⟨hb, rfl⟩)
  | none =>
    refine Drip.getSt ?_
    simp only
    cases s.fs.read p.path with
    | none => exact Drip.throw hs
    | some c =>
      simp only
      refine ((pathComp_reads _).still.drip hs).bind fun comp t1 e1 => ((linkOrCopy_still _ _ _ _).drip (hs.congr e1.1 e1.2)).bind fun _ t2 e2 =>
        ((fileSha1_reads _ _).still.drip ((hs.congr e1.1 e1.2).congr e2.1 e2.2)).bind fun sha t3 e3 => ?_
      have hp : t3.db.pool = s.db.pool := e3.1.trans (e2.1.trans e1.1)
      have he : t3.db.ents = s.db.ents := e3.2.trans (e2.2.trans e1.2)
      have h3 : Leak W lost t3.db := hs.congr hp he
      split
      · exact ((removeFile_still _).drip h3).bind fun _ t4 e4 => Drip.throw (h3.congr e4.1 e4.2)
      · have hb := hw t3.db { name := p.id, refCount := 1, delta := delta, pkg := { p.pkg with hash := sha, size := c.length, uri := mkURI comp p.id } } hp he (.inl (Nat.le_refl _))
        refine (Drip.write h3 (hR _ hb)).bind fun _ t4 e4 => Drip.pure ?_
        rw [e4]
        exact ⟨hb, he⟩

theorem saneNew {rid : Str} {m : Meta} {id : Str} {ne : RepoEntry} (hr : RDb W s.db) (hm : m.name = (W.mOf id).name)
    (hnot : ∀ e, (s.db.ents rid).get m.name = some e → id ∉ e.available) : ¬ Lst s.db rid id := by
  rintro ⟨n, e, hg, hi⟩
  have hn : n = m.name := by rw [hm]; exact ((hr.ent rid n e hg).avail id hi).2.2.symm
  subst hn
  exact hnot e hg hi

/-- Of `buildSaneEntry`: the package was not listed before. -/
theorem buildSaneEntry_more (rid : Str) (m : Meta) (id : Str) :
    Post (buildSaneEntry rid m id) s (fun o t => t = s ∧ ∀ ne, o = some ne → ne.name = m.name ∧ id ∈ ne.available ∧
      (∀ e, (s.db.ents rid).get m.name = some e → id ∉ e.available) ∧
      ∀ e, (s.db.ents rid).get m.name = some e → ∀ x ∈ e.available, x ∈ ne.available) := by
  refine (repoGet?_post rid m.name).bind fun o t h => ?_
  obtain ⟨rfl, rfl⟩ := h
  cases hg : (t.db.ents rid).get m.name with
  | none => exact Post.pure ⟨rfl, fun ne h => by cases h; exact ⟨rfl, by simp, by simp, by simp⟩⟩
  | some e =>
    refine Post.bind (P := fun _ u => u = t) ?_ fun pub u hu => ?_
    · refine (Reads.bind (poolGet?_reads _) fun o => ?_).post
      cases o with
      | none => exact Reads.pure _
      | some pa => exact (getRelease_reads _).bind fun _ => (getRelease_reads _).bind fun _ => Reads.ite (Reads.pure _) (Reads.pure _)
    · subst hu
      split
      · exact Post.pure ⟨rfl, fun ne h => by cases h⟩
      · rename_i hi
        refine Post.pure ⟨rfl, fun ne h => ?_⟩
        cases h
        refine ⟨rfl, by simp [mem_sortS], ?_, ?_⟩
        · rintro e' he'; cases he'; exact hi
        · rintro e' he' x hx; cases he'; simp [mem_sortS, hx]

theorem refPackage_drip (ok : W.OK) (rid id : Str) (hr : Rough W s) (hs : Leak W lost s.db) :
    Drip W 1 lost (refPackage W.E rid id) s (fun _ t => Leak W lost t.db) := by
  refine Drip.read (tgt := none) hs (poolGet_reads id) (poolGet_at id hr) fun pe hpe => ?_
  refine ((Drip.reads hs (pathComp_reads _))).bind fun comp t e1 => ?_
  subst e1
  refine ((Drip.reads hs (buildSaneEntry_reads rid pe.pkg id)).post (buildSaneEntry_more rid pe.pkg id)).bind fun o t h2 => ?_
  obtain ⟨⟨rfl, h2⟩, _⟩ := h2
  cases o with
  | none => exact Drip.pure hs
  | some ne =>
    obtain ⟨h3, h4, h5, h6⟩ := h2 ne rfl
    have hmn : pe.pkg.name = (W.mOf id).name := hpe.2.pname
    have hnl := saneNew (ne := ne) hr.db hmn h5
    refine (refEntry_drip id hr hs).bind fun _ u hu => ?_
    refine window rid hu.1 (by rw [h3, hmn]; exact (ok.meta hpe.2.isPkg).nres) (by rw [Lst.congr hu.2]; exact hnl) h4 ?_
    rw [hu.2, h3]; exact h6

theorem addLocalPackage_drip (ok : W.OK) (rid : Str) {p : Pkg} {file : Path} (hp : ROpen W p file) (hr : Rough W s) (hs : Leak W lost s.db) :
    Drip W 1 lost (addLocalPackage W.E rid p) s (fun _ t => Leak W lost t.db) := by
  refine ((Drip.reads hs (pathComp_reads _))).bind fun comp t e1 => ?_
  subst e1
  refine ((Drip.reads hs (buildSaneEntry_reads rid p.pkg p.id)).post (buildSaneEntry_more rid p.pkg p.id)).bind fun o t h2 => ?_
  obtain ⟨⟨rfl, h2⟩, _⟩ := h2
  cases o with
  | none => exact Drip.pure hs
  | some ne =>
    obtain ⟨h3, h4, h5, h6⟩ := h2 ne rfl
    have hmn : p.pkg.name = (W.mOf p.id).name := by rw [hp.pkg]
    have hnl := saneNew (ne := ne) hr.db hmn h5
    refine (poolAddInternal_drip W.E p false none hr hs (R := Leak W (p.id :: lost)) (fun d e h1 h2 h3 => (hs.congr h1 h2).bump rfl h3)
      (fun d h => h.one)).bind fun _ u hu => ?_
    refine window rid hu.1 (by rw [h3, hmn]; exact (ok.meta hp.isPkg).nres) (by rw [Lst.congr hu.2]; exact hnl) h4 ?_
    rw [hu.2, h3]; exact h6

theorem addPackage_drip (ok : W.OK) (hz : W.NoTorn) (rid : Str) {file : Path} {strict : Bool} (hn : file.isAsset = false) (hr : Rough W s)
    (hs : Leak W lost s.db) : Drip W 1 lost (addPackage W.E rid file strict) s (fun _ t => Leak W lost t.db) := by
  refine Drip.read (tgt := none) hs (openPkg_reads _ _) (openPkg_at ok hz hn hr) fun p hp => ?_
  have add := addLocalPackage_drip ok rid hp.1 hr hs
  cases strict with
  | false => exact add
  | true =>
    refine Drip.bind (P := fun _ t => t = s) (Drip.reads hs (repoGet?_reads _ _)) ?_
    rintro o t rfl
    cases o with
    | none => exact add
    | some l =>
      refine Drip.bind (P := fun _ u => u = t) (Drip.reads hs (poolGet_reads _)) ?_
      rintro pub u rfl
      refine Drip.bind (P := fun _ v => v = u) (Drip.reads hs (getRelease_reads _)) ?_
      rintro pr v rfl
      refine Drip.bind (P := fun _ w => w = v) (Drip.reads hs (getRelease_reads _)) ?_
      rintro nr w rfl
      split
      · exact Drip.throw hs
      · split
        · exact Drip.throw hs
        · exact add

/-! ## Deltas -/

theorem putDelta_leak {d d' : DB} {rid n : Str} {e e' : RepoEntry} (h : Leak W lost d) (hg : (d.ents rid).get n = some e) (ha : e'.available = e.available)
    (hd : d' = (DbWrite.putEnt rid n e').apply d) : Leak W lost d' := by
  subst hd
  refine h.cut (r := []) (X := fun _ => False) ⟨fun j pe _ hj => ⟨pe, hj, Nat.le_refl _, fun h => h.elim⟩⟩ ?_
  rintro x j _ ⟨k, f, hf, hj⟩
  refine .inl ?_
  by_cases hx : x = rid
  · subst hx
    by_cases hk : k = n
    · subst hk
      rw [hg] at hf; cases hf
      exact ⟨k, e', by simp [DbWrite.apply, setEnts], by rw [ha]; exact hj⟩
    · exact ⟨k, f, by simp [DbWrite.apply, setEnts, KV.get_put, hk, hf], hj⟩
  · exact ⟨k, f, by simp [DbWrite.apply, setEnts, hx, hf], hj⟩

theorem refDelta_drip {rid id : Str} (hi : W.isDelta id = true) (hr : Rough W s) (hs : Leak W lost s.db) :
    Drip W k lost (refDelta W.E rid id) s (fun _ t => Leak W lost t.db) := by
  refine Drip.read (tgt := none) hs (poolGet_reads id) (poolGet_at id hr) fun pe hpe => ?_
  refine Drip.read (tgt := none) hs (repoGet_reads _ _) (repoGet_at rid pe.pkg.name hr) fun e he => ?_
  refine ((Drip.reads hs (pathComp_reads _))).bind fun comp t e1 => ?_
  subst e1
  split
  · exact Drip.pure hs
  · refine (refEntry_dripD hi hr hs).bind fun _ u hu => ((linkOrCopy_still _ _ _ _).drip hu.1).bind fun _ v hv => ?_
    have hlv : Leak W lost v.db := hu.1.congr hv.1 hv.2
    have hg : (v.db.ents rid).get e.name = some e := by rw [hv.2, hu.2, he.2.name]; exact he.1
    have := putDelta_leak (e' := { e with deltas := sortS (e.deltas ++ [id]) }) hlv hg rfl rfl
    exact (Drip.write hlv this.almost).mono fun _ w hw => by rw [hw]; exact this

theorem poolAddDelta_drip (E : Env) {p : Pkg} (hi : W.isDelta p.id = true) (f t' : Str) (cd : Bool) (hr : Rough W s) (hs : Leak W lost s.db) :
    Drip W k lost (poolAddDelta E p f t' cd) s (fun _ t => Leak W lost t.db ∧ t.db.ents = s.db.ents) := by
  unfold poolAddDelta
  have add := fun di => poolAddInternal_drip (k := k) E p cd (some di) hr hs (R := Leak W lost) (fun d e h1 h2 _ => (hs.congr h1 h2).putDelta rfl hi) (fun d h => h.almost)
  have h0 : At W none (poolGet? p.id) s (fun o => o = s.db.pool.get p.id) := At.getSt (At.pure hr rfl)
  refine Drip.read hs (poolGet?_reads _) h0 fun o ho => ?_
  cases o with
  | some e =>
    have hn := (hr.db.pool _ _ ho.symm).name
    have hb : Leak W lost ((DbWrite.putPool e.name { e with refCount := e.refCount + 1 }).apply s.db) :=
      hs.putDelta (congrArg (fun n => (DbWrite.putPool n { e with refCount := e.refCount + 1 }).apply s.db) hn) hi
    exact (Drip.write hs hb.almost).bind fun _ t ht => Drip.pure (by rw [ht]; exact ⟨hb, rfl⟩)
  | none =>
    refine Drip.bind (P := fun _ t => t = s) (Drip.reads hs (poolGet_reads _)) ?_
    rintro a t rfl
    refine Drip.bind (P := fun _ u => u = t) (Drip.reads hs (poolGet_reads _)) ?_
    rintro b u rfl
    refine Drip.bind (P := fun _ t => t = u) (Drip.reads hs (getRelease_reads _)) ?_
    rintro c v rfl
    refine Drip.bind (P := fun _ t => t = v) (Drip.reads hs (getRelease_reads _)) ?_
    rintro d w rfl
    exact add _

theorem addDelta_drip {rid : Str} {file : Path} (hi : W.isDelta file.base = true) (f t' : Str) (hr : Rough W s) (hs : Leak W lost s.db) :
    Drip W k lost (addDelta W.E rid file f t') s (fun _ t => Leak W lost t.db) := by
  have hop : Post (openPkg W.E file) s (fun p t => t = s ∧ p.id = file.base) := by
    refine ⟨fun p hp => ⟨(openPkg_reads _ _).st s, ?_⟩⟩
    exact (openPkg_path hp).2
  refine ((Drip.reads hs (openPkg_reads _ _)).post hop).bind fun p t hp => ?_
  obtain ⟨⟨rfl, hpid⟩, _⟩ := hp
  refine Drip.read (tgt := none) hs (repoGet_reads _ _) (repoGet_at rid p.pkg.name hr) fun e he => ?_
  refine ((Drip.reads hs (pathComp_reads _))).bind fun comp t e1 => ?_
  subst e1
  split
  · exact Drip.pure hs
  · refine (poolAddDelta_drip W.E (by rw [hpid]; exact hi) f t' false hr hs).bind fun _ u hu => ((linkOrCopy_still _ _ _ _).drip hu.1).bind fun _ v hv => ?_
    have hlv : Leak W lost v.db := hu.1.congr hv.1 hv.2
    have hg : (v.db.ents rid).get e.name = some e := by rw [hv.2, hu.2, he.2.name]; exact he.1
    have := putDelta_leak (e' := { e with deltas := sortS (e.deltas ++ [p.id]) }) hlv hg rfl rfl
    exact (Drip.write hlv this.almost).mono fun _ w hw => by rw [hw]; exact this

/-! ## Removing -/

theorem Fewer.put {d : DB} {id : Str} {pe e : PoolEntry} (hg : d.pool.get id = some pe) (hk : e.refCount + 1 ≤ pe.refCount) :
    Fewer W (· = id) d ((DbWrite.putPool id e).apply d) := by
  refine ⟨fun j pe' _ hj => ?_⟩
  simp only [DbWrite.apply, KV.get_put] at hj
  split at hj
  · rename_i h; subst h; cases hj
    exact ⟨pe, hg, by omega, fun _ => hk⟩
  · rename_i h; exact ⟨pe', hj, Nat.le_refl _, fun hx => absurd hx h⟩

theorem Fewer.del (d : DB) (id : Str) : Fewer W (· = id) d ((DbWrite.delPool id).apply d) := by
  refine ⟨fun j pe' _ hj => ?_⟩
  simp only [DbWrite.apply, KV.get_del] at hj
  split at hj
  · cases hj
  · rename_i h; exact ⟨pe', hj, Nat.le_refl _, fun hx => absurd hx h⟩

theorem unrefEntry_drip (id : Str) (hr : Rough W s) (hs : Leak W lost s.db) :
    Drip W k lost (unrefEntry .direct id) s (fun _ t => Fewer W (· = id) s.db t.db ∧ t.db.ents = s.db.ents) := by
  refine Drip.read (tgt := none) hs (poolGet_reads id) (poolGet_at id hr) fun e he => ?_
  have hpos := he.2.pos
  have hdec : dec64 e.refCount = e.refCount - 1 := by unfold dec64; rw [if_neg (by omega)]
  split
  · have e1 : (DbWrite.putPool e.name { e with refCount := dec64 e.refCount }).apply s.db = (DbWrite.putPool id { e with refCount := dec64 e.refCount }).apply s.db :=
      congrArg (fun n => (DbWrite.putPool n { e with refCount := dec64 e.refCount }).apply s.db) he.2.name
    have hf : Fewer W (· = id) s.db ((DbWrite.putPool id { e with refCount := dec64 e.refCount }).apply s.db) :=
      Fewer.put he.1 (by show dec64 e.refCount + 1 ≤ _; omega)
    exact (Drip.write (w := .putPool e.name { e with refCount := dec64 e.refCount }) hs (by rw [e1]; exact (hs.fewer hf rfl).almost)).mono fun _ t ht => by
      rw [ht, e1]; exact ⟨hf, rfl⟩
  · refine ((Drip.reads hs (pathComp_reads _))).bind fun comp t e1 => ?_
    subst e1
    refine ((removeFile_still _).drip hs).bind fun _ u hu => ?_
    have hlu : Leak W lost u.db := hs.congr hu.1 hu.2
    have hf := Fewer.del (W := W) u.db id
    refine (Drip.write hlu (hlu.fewer hf rfl).almost).mono fun _ v hv => ?_
    rw [hv]
    exact ⟨⟨by rw [← hu.1]; exact hf.any⟩, hu.2⟩

theorem removePackageInternal_drip (rid id : Str) (hr : Rough W s) (hs : Leak W lost s.db) :
    Drip W k lost (removePackageInternal .direct rid id) s (fun _ t => Fewer W (· = id) s.db t.db ∧ t.db.ents = s.db.ents) := by
  have h0 : At W none (poolGet? id) s (fun o => o = s.db.pool.get id) := At.getSt (At.pure hr rfl)
  refine Drip.read hs (poolGet?_reads _) h0 fun o ho => ?_
  cases o with
  | none =>
    refine Drip.pure ⟨⟨fun j pe' _ hj => ⟨pe', hj, Nat.le_refl _, ?_⟩⟩, rfl⟩
    rintro rfl
    rw [← ho] at hj; cases hj
  | some e =>
    refine ((Drip.reads hs (pathComp_reads _))).bind fun comp t e1 => ?_
    subst e1
    refine (((removeFile_still (.repo rid comp e.name)).drip hs).keeps (removeFile_keeps (tgt := some rid) (p := .repo rid comp e.name) rfl) hr).bind fun _ u hu => ?_
    obtain ⟨hu1, _, hu2, hu3⟩ := hu
    refine (unrefEntry_drip id hu1 (hs.congr hu2 hu3)).mono fun _ v hv => ?_
    exact ⟨⟨by rw [← hu2]; exact hv.1.any⟩, hv.2.trans hu3⟩

theorem unrefDeltas_drip (ok : W.OK) (rid pkgID : Str) : ∀ (ds : List Str) {s : St}, Rough W s → Leak W lost s.db →
    Drip W k lost (unrefDeltas rid pkgID ds) s (fun _ t => Rough W t ∧ Fewer W (fun _ => False) s.db t.db ∧ t.db.ents = s.db.ents) := by
  intro ds
  induction ds with
  | nil => intro s hr _; exact Drip.pure ⟨hr, Fewer.refl _, rfl⟩
  | cons d ds ih =>
    intro s hr hs
    refine Drip.bind (P := fun _ t => Rough W t ∧ Fewer W (fun _ => False) s.db t.db ∧ t.db.ents = s.db.ents) ?_ fun a t ht => ?_
    · refine Drip.read (tgt := none) hs (poolGet_reads d) (poolGet_at d hr) fun pd hpd => ?_
      cases pd.delta with
      | none => exact Drip.panic hs
      | some di =>
        simp only
        split
        · refine ((removePackageInternal_drip rid pd.name hr hs).keeps (removePackageInternal_keeps ok .direct rid pd.name) hr).bind fun _ t ht => Drip.pure ⟨ht.1, ?_, ht.2.2.2⟩
          exact ⟨fun j pe' hd hj => by obtain ⟨pe, h1, h2, _⟩ := ht.2.2.1.any j pe' hd hj; exact ⟨pe, h1, h2, fun h => h.elim⟩⟩
        · exact Drip.pure ⟨hr, Fewer.refl _, rfl⟩
    · refine (ih ht.1 (hs.fewer ht.2.1 ht.2.2)).bind fun b u hu => Drip.pure ⟨hu.1, ?_, hu.2.2.trans ht.2.2⟩
      exact ht.2.1.trans hu.2.1

theorem unrefPackage_drip (ok : W.OK) (rid pkgID : Str) (hr : Rough W s) (hs : Leak W lost s.db) :
    Drip W k lost (unrefPackage rid pkgID) s (fun _ t => Leak W lost t.db) := by
  refine Drip.read (tgt := none) hs (poolGet_reads pkgID) (poolGet_at pkgID hr) fun pe hpe => ?_
  refine Drip.read (tgt := none) hs (repoGet_reads _ _) (repoGet_at rid pe.pkg.name hr) fun e he => ?_
  refine ((removePackageInternal_drip rid pkgID hr hs).keeps (removePackageInternal_keeps ok .direct rid pkgID) hr).bind fun _ u hu => ?_
  obtain ⟨hu1, _, hu2, hu3⟩ := hu
  have hlu := hs.fewer hu2 hu3
  refine (unrefDeltas_drip ok rid pkgID e.deltas hu1 hlu).bind fun ds v hv => ?_
  obtain ⟨hv1, hv2, hv3⟩ := hv
  have hlv := hlu.fewer hv2 hv3
  have hf := hu2.trans hv2
  have hents : v.db.ents = s.db.ents := hv3.trans hu3
  have hra := (unrefAvail_keeps (tgt := some rid) ok (pkgID := pkgID) e.available [] (0, [], []) ⟨rfl, fun _ => rfl, fun h => absurd rfl h⟩
    (fun id hid => (he.2.avail id hid).2.1)).post hv1
  refine ((Drip.reads hlv (unrefAvail_reads pkgID e.available)).post hra).bind fun acc w hw => ?_
  obtain ⟨⟨_, hacc⟩, rfl⟩ := hw
  have hrest := hacc.rest
  simp only [List.nil_append] at hrest
  have key : ∀ d' : DB, d'.pool = w.db.pool → (∀ x, x ≠ rid → d'.ents x = w.db.ents x) → (∀ n, n ≠ e.name → (d'.ents rid).get n = (w.db.ents rid).get n) →
      (∀ x ∈ e.available, x ≠ pkgID → Lst d' rid x) → Leak W lost d' := by
    intro d' h1 h2 h3 h4
    refine hs.cut (r := rid) (hf.congr h1) ?_
    rintro x j _ ⟨n, f, hg, hj⟩
    by_cases hx : x = rid
    · subst hx
      by_cases hjp : j = pkgID
      · exact .inr ⟨rfl, hjp⟩
      · refine .inl ?_
        by_cases hn : n = e.name
        · subst hn
          rw [he.2.name, he.1] at hg; cases hg
          exact h4 j hj hjp
        · exact ⟨n, f, by rw [h3 n hn, hents]; exact hg, hj⟩
    · exact .inl ⟨n, f, by rw [h2 x hx, hents]; exact hg, hj⟩
  split
  · rename_i hlen
    have hnil : acc.2.2 = [] := by
      cases hl : acc.2.2 with
      | nil => rfl
      | cons a l => rw [hl] at hlen; simp at hlen
    rw [hnil] at hrest
    have : Leak W lost ((DbWrite.delEnt rid e.name).apply w.db) := by
      refine key _ rfl (fun x hx => by simp [DbWrite.apply, setEnts, hx]) (fun n hn => by simp [DbWrite.apply, setEnts, KV.get_del, hn]) ?_
      intro x hx hne
      have := List.filter_eq_nil_iff.1 hrest.symm x hx
      exact absurd hne (by simpa using this)
    exact (Drip.write hlv this.almost).mono fun _ t ht => by rw [ht]; exact this
  · have : Leak W lost ((DbWrite.putEnt rid e.name { e with deltas := sortS ds, available := sortS acc.2.2, published := acc.2.1 }).apply w.db) := by
      refine key _ rfl (fun x hx => by simp [DbWrite.apply, setEnts, hx]) (fun n hn => by simp [DbWrite.apply, setEnts, KV.get_put, hn]) ?_
      intro x hx hne
      refine ⟨e.name, _, by simp [DbWrite.apply, setEnts]; rfl, ?_⟩
      rw [mem_sortS, hrest]
      simp [hx, hne]
    exact (Drip.write hlv this.almost).mono fun _ t ht => by rw [ht]; exact this

/-! ## Deletion -/

/-- The write that gives back the reference of a listed package. (No code: a notion of the proofs.) -/
def dropOf (d : DB) (id : Str) : List DbWrite :=
  match d.pool.get id with
  | none => []
  | some pe => if dec64 pe.refCount > 0 then [.putPool id { pe with refCount := dec64 pe.refCount }] else [.delPool id]

/-- Writes of the deletion of `r`, begun in `d`. (No code: a notion of the proofs.) -/
def CutWrite (d : DB) (r : Str) : DbWrite → Prop
  | .putPool k e => ∃ pe, d.pool.get k = some pe ∧ e.refCount + 1 ≤ pe.refCount
  | .delPool _ => True
  | .delEnt r' _ => r' = r
  | .delRepo r' => r' = r
  | _ => False

/-- The write concerns the record of `j`. (No code: a notion of the proofs.) -/
def Hits (j : Str) : DbWrite → Prop
  | .putPool k _ => k = j
  | .delPool k => k = j
  | _ => False

theorem removePackageInternal_cuts (rid id : Str) {d : DB} (hr : RDb W d) (hd : s.db = d) :
    Post (removePackageInternal .batch rid id) s (fun _ t => Queued s (CutWrite d rid) (dropOf d id) t) := by
  subst hd
  have h0 : Post (poolGet? id) s (fun o t => t = s ∧ o = s.db.pool.get id) := ⟨fun o ho => by cases ho; exact ⟨rfl, rfl⟩⟩
  refine h0.bind ?_
  rintro o t ⟨rfl, ho⟩
  unfold dropOf
  cases o with
  | none => rw [← ho]; exact Post.pure (Queued.refl _ _)
  | some e =>
    have hg := ho.symm
    have he := hr.pool id e hg
    rw [hg]
    refine ((pathComp_reads _).post).bind ?_
    rintro c t' rfl
    refine Post.bind (P := fun _ u => Queued t' (CutWrite t'.db rid) [] u) ⟨fun _ _ => Queued.refl _ _⟩ fun _ u hu => ?_
    have hud : u.db = t'.db := hu.1
    have h1 : Post (poolGet id) u (fun pe v => v = u ∧ u.db.pool.get id = some pe) := by
      have h0 : Post (poolGet? id) u (fun o t => t = u ∧ o = u.db.pool.get id) := ⟨fun o ho => by cases ho; exact ⟨rfl, rfl⟩⟩
      refine h0.bind ?_
      rintro o v ⟨rfl, ho⟩
      cases o with
      | none => exact Post.throw
      | some e => exact Post.pure ⟨rfl, ho.symm⟩
    refine h1.bind ?_
    rintro pe v ⟨rfl, hpe⟩
    rw [hud, hg] at hpe
    cases hpe
    have hpos := he.pos
    have hdec : dec64 e.refCount = e.refCount - 1 := by unfold dec64; rw [if_neg (by omega)]
    have q : ∀ {w : DbWrite} {x : St}, CutWrite t'.db rid w → Queued t' (CutWrite t'.db rid) [] x →
        Post (dbWrite .batch w) x (fun _ y => Queued t' (CutWrite t'.db rid) [w] y) := by
      intro w x hw hx
      unfold dbWrite
      split
      · exact Post.throw
      · refine ⟨fun _ _ => ?_⟩
        have : Queued x (CutWrite t'.db rid) [w] { x with pend := x.pend ++ [w] } := ⟨rfl, [w], rfl, by simpa using hw, by simp⟩
        exact (hx.trans this).weaken (by simp)
    by_cases hc : dec64 e.refCount > 0
    · simp only [if_pos hc]
      have hq := q (w := .putPool id { e with refCount := dec64 e.refCount }) ⟨e, hg, by show dec64 e.refCount + 1 ≤ _; omega⟩ hu
      rw [he.name] at hq ⊢
      exact hq
    · simp only [if_neg hc]
      refine ((pathComp_reads _).post).bind ?_
      rintro c x rfl
      refine Post.bind (P := fun _ y => Queued t' (CutWrite t'.db rid) [] y) ⟨fun _ _ => ?_⟩ fun _ y hy => q (w := .delPool id) trivial hy
      obtain ⟨k1, more, k2, k3, k4⟩ := hu
      exact ⟨k1, more, k2, k3, k4⟩

theorem deleteRepoBody_cuts {rid : Str} (hr : RDb W s.db) :
    Post (deleteRepoBody rid) s (fun _ t => Queued s (CutWrite s.db rid) (((s.db.ents rid).map Prod.snd).flatMap fun e => e.available.flatMap (dropOf s.db)) t) := by
  unfold deleteRepoBody
  refine Post.bind (P := fun a t => a = (s.db.ents rid).map Prod.snd ∧ t = s) ⟨fun _ h => by cases h; exact ⟨rfl, rfl⟩⟩ ?_
  rintro es t ⟨rfl, rfl⟩
  refine Post.bind (forL_queues (ok := CutWrite t.db rid) (must := fun e => e.available.flatMap (dropOf t.db)) _ ?_) fun _ u hu => ?_
  · intro e he u hud
    refine Post.bind (forL_queues (ok := CutWrite t.db rid) (must := dropOf t.db) _ fun id hid v hv =>
      removePackageInternal_cuts rid id hr (hv.trans hud)) fun _ v hv => ?_
    have hvd : v.db = t.db := hv.1.trans hud
    refine Post.bind (forL_queues (ok := CutWrite t.db rid) (must := dropOf t.db) _ fun id hid w hw =>
      removePackageInternal_cuts rid id hr (hw.trans hvd)) fun _ w hw => ?_
    refine (queue_post (w := .delEnt rid e.name) (ok := CutWrite t.db rid) rfl).mono fun _ x hx => ?_
    exact ((hv.trans hw).trans hx).weaken fun w hw => List.mem_append.2 (.inl (List.mem_append.2 (.inl hw)))
  · refine (queue_post (w := .delRepo rid) (ok := CutWrite t.db rid) rfl).mono fun _ v hv => ?_
    exact (hu.trans hv).weaken fun w hw => List.mem_append.2 (.inl hw)

theorem cutWrites {d : DB} {r : Str} : ∀ (ws : List DbWrite) (d' : DB) (X : Str → Prop), (∀ w ∈ ws, CutWrite d r w) → Fewer W X d d' →
    (∀ x, x ≠ r → d'.ents x = d.ents x) →
    Fewer W (fun j => X j ∨ ∃ w ∈ ws, Hits j w) d (ws.foldl DbWrite.apply d') ∧ ∀ x, x ≠ r → (ws.foldl DbWrite.apply d').ents x = d.ents x := by
  intro ws
  induction ws with
  | nil =>
    intro d' X _ h1 h2
    refine ⟨⟨fun j pe' hd hj => ?_⟩, h2⟩
    obtain ⟨pe, k1, k2, k3⟩ := h1.any j pe' hd hj
    exact ⟨pe, k1, k2, fun hx => by rcases hx with hx | ⟨w, hw, _⟩; exact k3 hx; simp at hw⟩
  | cons w ws ih =>
    intro d' X hw h1 h2
    have h0 := hw w (by simp)
    obtain ⟨k1, k2⟩ := ih (w.apply d') (fun j => X j ∨ Hits j w) (fun x hx => hw x (by simp [hx])) (by
      refine ⟨fun j pe' hd hj => ?_⟩
      cases w with
      | putPool k e =>
        obtain ⟨pe, hg, hle⟩ := h0
        simp only [DbWrite.apply, KV.get_put] at hj
        split at hj
        · rename_i hc; subst hc; cases hj
          exact ⟨pe, hg, by omega, fun _ => hle⟩
        · rename_i hc
          obtain ⟨pe, g1, g2, g3⟩ := h1.any j pe' hd hj
          exact ⟨pe, g1, g2, fun hx => g3 (hx.resolve_right fun h => hc h.symm)⟩
      | delPool k =>
        simp only [DbWrite.apply, KV.get_del] at hj
        split at hj
        · cases hj
        · rename_i hc
          obtain ⟨pe, g1, g2, g3⟩ := h1.any j pe' hd hj
          exact ⟨pe, g1, g2, fun hx => g3 (hx.resolve_right fun h => hc h.symm)⟩
      | delEnt a k =>
        obtain ⟨pe, g1, g2, g3⟩ := h1.any j pe' hd hj
        exact ⟨pe, g1, g2, fun hx => g3 (hx.resolve_right fun h => h)⟩
      | delRepo k =>
        obtain ⟨pe, g1, g2, g3⟩ := h1.any j pe' hd hj
        exact ⟨pe, g1, g2, fun hx => g3 (hx.resolve_right fun h => h)⟩
      | putSkip k v => exact h0.elim
      | putRepo k => exact h0.elim
      | putEnt a k v => exact h0.elim) (by
      intro x hx
      cases w with
      | putPool k e => exact h2 x hx
      | delPool k => exact h2 x hx
      | delEnt a k =>
        have : a = r := h0
        subst this
        simp only [DbWrite.apply, setEnts]
        rw [if_neg hx]; exact h2 x hx
      | delRepo k => exact h2 x hx
      | putSkip k v => exact h0.elim
      | putRepo k => exact h0.elim
      | putEnt a k v => exact h0.elim)
    refine ⟨⟨fun j pe' hd hj => ?_⟩, k2⟩
    obtain ⟨pe, g1, g2, g3⟩ := k1.any j pe' hd hj
    refine ⟨pe, g1, g2, fun hx => g3 ?_⟩
    rcases hx with hx | ⟨w', hw', hx⟩
    · exact .inl (.inl hx)
    · rcases List.mem_cons.1 hw' with rfl | hw'
      · exact .inl (.inr hx)
      · exact .inr ⟨w', hw', hx⟩

theorem dropOf_hits {d : DB} {id : Str} {pe : PoolEntry} (h : d.pool.get id = some pe) : ∃ w ∈ dropOf d id, Hits id w := by
  unfold dropOf
  rw [h]
  simp only
  split
  · exact ⟨_, List.mem_singleton.2 rfl, rfl⟩
  · exact ⟨_, List.mem_singleton.2 rfl, rfl⟩

theorem Leak.dropped {d : DB} {r : Str} (h : Leak W lost d) {ws : List DbWrite} (hw : ∀ w ∈ ws, CutWrite d r w)
    (must : ∀ w ∈ ((d.ents r).map Prod.snd).flatMap (fun e => e.available.flatMap (dropOf d)), w ∈ ws) : Leak W lost (ws.foldl DbWrite.apply d) := by
  obtain ⟨h1, h2⟩ := cutWrites (W := W) (d := d) (r := r) ws d (fun _ => False) hw (Fewer.refl d) (fun _ _ => rfl)
  have hf : Fewer W (Lst d r) d (ws.foldl DbWrite.apply d) := by
    refine ⟨fun j pe' hd hj => ?_⟩
    obtain ⟨pe, g1, g2, g3⟩ := h1.any j pe' hd hj
    refine ⟨pe, g1, g2, fun hx => g3 (.inr ?_)⟩
    obtain ⟨n, e, hg, hj'⟩ := hx
    obtain ⟨w, hw1, hw2⟩ := dropOf_hits g1
    exact ⟨w, must w (List.mem_flatMap.2 ⟨e, List.mem_map.2 ⟨(n, e), KV.mem_of_get hg, rfl⟩, List.mem_flatMap.2 ⟨j, hj', hw1⟩⟩), hw2⟩
  refine h.cut (r := r) hf ?_
  rintro x j _ hl
  by_cases hx : x = r
  · subst hx; exact .inr ⟨rfl, hl⟩
  · left
    obtain ⟨n, e, hg, hj⟩ := hl
    exact ⟨n, e, by rw [h2 x hx]; exact hg, hj⟩

theorem deleteRepo_drip (rid : Str) (hr : Rough W s) (hs : Leak W lost s.db) : Drip W k lost (deleteRepo rid) s (fun _ t => Leak W lost t.db) := by
  unfold deleteRepo
  refine (((getRepo_still rid).dripL hs).keeps (getRepo_keeps (tgt := none) rid) hr).bind fun _ t ht => ?_
  refine ((Still.dripL (Still.vol (g := fun s => { s with cache := s.cache.filter (· ≠ rid) }) (fun _ => rfl) (fun _ => rfl)) ht.2.2).keeps
    (cache_keeps (tgt := none) fun l => l.filter (· ≠ rid)) ht.1).bind fun _ u hu => ?_
  have hsu := hu.2.2
  refine Drip.bind (P := fun _ t => Leak W lost t.db) ?_ fun _ v hv => ((Still.stepFs _).dripL hv).bind fun _ w hw => (Still.stepFs _).dripL hw
  have hstill := deleteRepoBody_still rid
  have hbf := hstill.fin { u with pend := [] }
  have hbt := hstill.tr { u with pend := [] }
  have hq := (deleteRepoBody_cuts (s := { u with pend := [] }) (rid := rid) hu.1.db).run
  have hst' : ∀ t ∈ (deleteRepoBody rid { u with pend := [] }).tr, Leak W lost t.db := fun t ht => hsu.congr (hbt t ht).1 (hbt t ht).2
  have hfin : Leak W lost (deleteRepoBody rid { u with pend := [] }).st.db := hsu.congr hbf.1 hbf.2
  unfold dbUpdate
  rcases hres : (deleteRepoBody rid { u with pend := [] }).res with a | e | _
  · obtain ⟨q1, more, q2, q3, q4⟩ := hq a hres
    have key : Leak W lost ((deleteRepoBody rid { u with pend := [] }).st.pend.foldl DbWrite.apply (deleteRepoBody rid { u with pend := [] }).st.db) := by
      rw [q2, q1]
      simp only [List.nil_append]
      exact hsu.dropped (r := rid) q3 q4
    refine ⟨?_, ?_, ?_⟩
    · simp only [hres]; intro hb; exact absurd rfl (hb a)
    · intro t ht
      simp only [hres] at ht
      rcases List.mem_append.1 ht with ht | ht
      · exact (hst' t ht).almost
      · simp only [List.mem_singleton] at ht
        subst ht; exact key.almost
    · simp only [hres]; intro _ _; exact key
  · refine ⟨by simp only [hres]; intro _; exact hfin, fun t ht => by simp only [hres] at ht; exact (hst' t ht).almost, by simp only [hres]; intro _ h; cases h⟩
  · refine ⟨by simp only [hres]; intro _; exact hfin, fun t ht => by simp only [hres] at ht; exact (hst' t ht).almost, by simp only [hres]; intro _ h; cases h⟩

/-! ## Jobs -/

theorem unrefAll_drip (ok : W.OK) (rid : Str) (ids : List Str) (hr : Rough W s) (hs : Leak W lost s.db) :
    Drip W k lost (forL ids (unrefPackage rid)) s (fun _ t => Leak W lost t.db) :=
  (Drip.forL (tgt := some rid) ids hr hs (fun id _ => unrefPackage_keeps ok rid id) fun id _ _ hr hs => unrefPackage_drip ok rid id hr hs).mono fun _ _ h => h.2

theorem removeSource_drip (ok : W.OK) (rid source : Str) (rel : Int) (hr : Rough W s) (hs : Leak W lost s.db) :
    Drip W k lost (removeSource rid source rel) s (fun _ t => Leak W lost t.db) := by
  refine (Drip.reads hs (matchingSource_reads _ _ _)).bind fun ids t e => ?_
  subst e
  split
  · exact Drip.throw hs
  · exact unrefAll_drip ok rid ids hr hs

theorem trimPackages_drip (ok : W.OK) (rid : Str) (n : Int) (hr : Rough W s) (hs : Leak W lost s.db) :
    Drip W k lost (trimPackages W.E rid n) s (fun _ t => Leak W lost t.db) := by
  unfold trimPackages
  split
  · exact Drip.throw hs
  · refine (Drip.reads hs (repoEntries_reads _)).bind fun es t e => ?_
    subst e
    refine (Drip.reads hs (Reads.collectL fun e _ => trimScan_reads W.E _ e)).bind fun ids t e => ?_
    subst e
    exact unrefAll_drip ok rid ids hr hs

theorem trimObsolete_drip (ok : W.OK) (rid : Str) (hr : Rough W s) (hs : Leak W lost s.db) :
    Drip W k lost (trimObsolete W.E rid) s (fun _ t => Leak W lost t.db) := by
  refine (Drip.reads hs (initDistribution_reads W.E rid)).bind fun o t e => ?_
  subst e
  cases o with
  | none => exact Drip.throw hs
  | some obs =>
    refine (Drip.reads hs (repoEntries_reads _)).bind fun es t e => ?_
    subst e
    refine (Drip.reads hs (Reads.collectL fun e _ => trimObsoleteScan_reads obs e.name e.available)).bind fun ids t e => ?_
    subst e
    exact unrefAll_drip ok rid ids hr hs

theorem cloneFrom_drip (ok : W.OK) (dst src : Str) (full : Bool) (hr : Rough W s) (hs : Leak W lost s.db) :
    Drip W 1 lost (cloneFrom W.E dst src full) s (fun _ t => Leak W lost t.db) := by
  refine (((pullAssets_still dst src).dripL hs).keeps (pullAssets_keeps dst src) hr).bind fun _ t ht => ?_
  refine Drip.read (tgt := none) ht.2.2 (repoEntries_reads src) (repoEntries_keeps src t ht.1) fun es hes => ?_
  refine (Drip.forL (tgt := some dst) _ ht.1 ht.2.2 ?_ fun id _ s hr hs => refPackage_drip ok dst id hr hs).bind fun _ u hu =>
    (Drip.forL (tgt := some dst) _ hu.1 hu.2 ?_ ?_).mono fun _ _ h => h.2
  · intro id hid
    refine refPackage_keeps ok dst id ?_
    cases full with
    | true =>
      simp only [if_true, List.mem_flatMap] at hid
      obtain ⟨e, he, hi⟩ := hid
      exact ((hes e he).avail id hi).1
    | false =>
      simp only [Bool.false_eq_true, if_false, List.mem_map] at hid
      obtain ⟨e, he, rfl⟩ := hid
      exact ((hes e he).avail _ (hes e he).pub).1
  all_goals
    intro d hd
    have hdd : W.isDelta d = true := by
      cases full with
      | true =>
        simp only [if_true, List.mem_flatMap] at hd
        obtain ⟨e, he, hi⟩ := hd
        exact ((hes e he).deltas d hi).1
      | false => simp at hd
  · exact refDelta_keeps ok dst d hdd
  · intro s hr hs
    exact refDelta_drip hdd hr hs

theorem pullFrom_drip (ok : W.OK) (dst src : Str) (hr : Rough W s) (hs : Leak W lost s.db) :
    Drip W 1 lost (pullFrom W.E dst src) s (fun _ t => Leak W lost t.db) := by
  refine (((pullAssets_still dst src).dripL hs).keeps (pullAssets_keeps dst src) hr).bind fun _ t ht => ?_
  refine Drip.read (tgt := none) ht.2.2 (repoEntries_reads src) (repoEntries_keeps src t ht.1) fun es hes => ?_
  refine Drip.read (tgt := none) ht.2.2 (Reads.collectL fun e _ => pullOne_reads dst e) (Keeps.collectL (fun e he => pullOne_keeps ok dst (hes e he)) t ht.1) fun todo htd => ?_
  refine (Drip.forL (tgt := some dst) _ ht.1 ht.2.2 ?_ fun id _ s hr hs => refPackage_drip ok dst id hr hs).bind fun _ u hu => Drip.pure hu.2
  intro id hid
  obtain ⟨x, hx, rfl⟩ := List.mem_map.1 hid
  exact refPackage_keeps ok dst _ (htd x hx)

theorem copySourceFrom_drip (ok : W.OK) (dst src source : Str) (rel : Int) (hr : Rough W s) (hs : Leak W lost s.db) :
    Drip W 1 lost (copySourceFrom W.E dst src source rel) s (fun _ t => Leak W lost t.db) := by
  refine Drip.read (tgt := none) hs (matchingSource_reads _ _ _) (matchingSource_keeps ok src source rel s hr) fun ids h => ?_
  split
  · exact Drip.throw hs
  · exact (Drip.forL (tgt := some dst) _ hr hs (fun id hid => refPackage_keeps ok dst id (h id hid)) fun id _ s hr hs => refPackage_drip ok dst id hr hs).mono fun _ _ h => h.2

/-- How many references a job may have in hand. (No code: a notion of the proofs.) -/
def Op.inHand (o : Op) : Nat := if o.adds then 1 else 0

theorem Op.drip (ok : W.OK) (hz : W.NoTorn) (o : Op) (ho : o.Ok W) (hr : Rough W s) (hs : Leak W lost s.db) :
    Drip W o.inHand lost (o.run W.E) s (fun _ t => Leak W lost t.db) := by
  have get : ∀ {β : Type} {k : Nat} (r : Str) {f : Unit → M β} {s : St}, Rough W s → Leak W lost s.db →
      (∀ t, Rough W t → Leak W lost t.db → Drip W k lost (f ()) t (fun _ t => Leak W lost t.db)) →
      Drip W k lost (getRepo r >>= f) s (fun _ t => Leak W lost t.db) := by
    intro β k r f s hr hs hf
    exact (((getRepo_still r).dripL hs).keeps (getRepo_keeps (tgt := none) r) hr).bind fun _ t ht => hf t ht.1 ht.2.2
  have idx : ∀ {k : Nat} (r : Str) {s : St}, Leak W lost s.db → Drip W k lost (mIndex W.E r) s (fun _ t => Leak W lost t.db) :=
    fun {_} r {_} hs => (mIndex_still W.E r).dripL hs
  cases o with
  | create r => exact ((createRepo_still r).dripL hs).bind fun _ t ht => idx r ht
  | delete r => exact deleteRepo_drip r hr hs
  | clone a b f =>
    refine get a hr hs fun t ht hst => ?_
    refine (((createRepo_still b).dripL hst).keeps (createRepo_keeps b) ht).bind fun _ u hu => ?_
    exact (cloneFrom_drip ok b a f hu.1 hu.2.2).bind fun _ v hv => idx b hv
  | pull a b =>
    refine Drip.bind (P := fun _ t => Leak W lost t.db) ?_ fun _ t ht => Drip.pure ht
    exact get a hr hs fun t ht hst => get b ht hst fun u hu hsu => (pullFrom_drip ok b a hu hsu).bind fun _ v hv =>
      (idx b hv).bind fun _ w hw => Drip.pure hw
  | removeSource r n k => exact get r hr hs fun t ht hst => (removeSource_drip ok r n k ht hst).bind fun _ v hv => idx r hv
  | trimObsolete r => exact get r hr hs fun t ht hst => (trimObsolete_drip ok r ht hst).bind fun _ v hv => idx r hv
  | trimPackages r k => exact get r hr hs fun t ht hst => (trimPackages_drip ok r k ht hst).bind fun _ v hv => idx r hv
  | copySource a b n k sk =>
    refine get a hr hs fun t ht hst => get b ht hst fun u hu hsu => (copySourceFrom_drip ok b a n k hu hsu).bind fun _ v hv => ?_
    cases sk with
    | true => exact idx b hv
    | false => exact Drip.pure hv
  | addPackages r fs st =>
    refine get r hr hs fun t ht hst => ?_
    exact (Drip.forL (tgt := some r) fs ht hst (fun f hf => addPackage_keeps ok hz r (file := .ext f) rfl (ho f hf))
      fun f hf s hr hs => addPackage_drip ok hz r (file := .ext f) rfl hr hs).bind fun _ u hu => idx r hu.2
  | index r => exact idx r hs
  | addDelta r d f t => exact get r hr hs fun u hu hsu => addDelta_drip (file := .stage r d) ho.1 f t hu hsu
  | refDelta r d => exact get r hr hs fun u hu hsu => refDelta_drip ho hu hsu
  | markFailed i d => exact (markDeltaFailed_still i d).dripL hs
  | upload f c => exact (Still.stepFs _).dripL hs
  | unlink f => exact (Still.stepFs _).dripL hs
  | putAsset r a c => exact (Still.stepFs _).dripL hs
  | stage r d c => exact (Still.stepFs _).dripL hs
  | unstage r d => exact (Still.stepFs _).dripL hs
  | restart =>
    have : Leak W lost s.crash.db := hs
    exact ⟨fun _ => this, fun t ht => by have ht : t ∈ [_] := ht; simp only [List.mem_singleton] at ht; subst ht; exact this.almost, fun _ _ => this⟩

theorem Op.leak (ok : W.OK) (hz : W.NoTorn) (o : Op) (ho : o.Ok W) (hr : Rough W s) (hs : Leak W lost s.db) : Leak W lost (o.run W.E s).st.db := by
  have h := o.drip ok hz ho hr hs
  by_cases hx : ∃ a, (o.run W.E s).res = .ok a
  · obtain ⟨a, ha⟩ := hx
    exact h.val a ha
  · exact h.bad fun a ha => hx ⟨a, ha⟩

theorem Op.leaks (ok : W.OK) (hz : W.NoTorn) (o : Op) (ho : o.Ok W) (hr : Rough W s) (hs : Leak W lost s.db) :
    ∀ t ∈ (o.run W.E s).tr, Almost W o.inHand lost t.db := (o.drip ok hz ho hr hs).tr

end Ferryd
