import Verif.CoreRetry
import Verif.PropsRebuild
/-!
# PropsRetry: running an import or a copy again

C127: exactly when an import, run in any state that crashes (of jobs that take nothing out) can leave, succeeds and serves what was uploaded.
C128: exactly when a copied source is served whole, and what a copy that was cut off by a crash does when it is run again.
-/
namespace Ferryd
open Spec
section
variable {W : World} {s : St} {α β : Type}

/-! ## Steps that touch neither the database nor any package file -/

/-- The database is as before, and every path holds what it held. (No code: what loading a repository and publishing an index leave alone.) -/
structure Plain (m : M α) : Prop where
  db : ∀ s, (m s).st.db = s.db
  tab : ∀ s, (m s).st.fs.tab = s.fs.tab
  data : ∀ s, (m s).st.fs.data = s.fs.data

theorem Plain.bind {m : M α} {f : α → M β} (h : Plain m) (hf : ∀ a, Plain (f a)) : Plain (m >>= f) := by
  have key : ∀ s, ((m >>= f) s).st.db = s.db ∧ ((m >>= f) s).st.fs.tab = s.fs.tab ∧ ((m >>= f) s).st.fs.data = s.fs.data := by
    intro s
    show (M.bind' m f s).st.db = _ ∧ (M.bind' m f s).st.fs.tab = _ ∧ (M.bind' m f s).st.fs.data = _
    unfold M.bind'
    cases (m s).res with
    | ok a => exact ⟨((hf a).db _).trans (h.db s), ((hf a).tab _).trans (h.tab s), ((hf a).data _).trans (h.data s)⟩
    | err e => exact ⟨h.db s, h.tab s, h.data s⟩
    | panic => exact ⟨h.db s, h.tab s, h.data s⟩
  exact ⟨fun s => (key s).1, fun s => (key s).2.1, fun s => (key s).2.2⟩

theorem Reads.plain {m : M α} (h : Reads m) : Plain m :=
  ⟨fun s => by rw [h.st], fun s => by rw [h.st], fun s => by rw [h.st]⟩

theorem Plain.ite {c : Prop} [Decidable c] {a b : M α} (ha : Plain a) (hb : Plain b) : Plain (if c then a else b) := by
  split
  · exact ha
  · exact hb

theorem getRepo_plain (r : Str) : Plain (getRepo r) := by
  refine Reads.getSt.plain.bind fun s => Plain.ite (Reads.pure _).plain ?_
  cases s.db.repos.get r with
  | none => exact (Reads.throw _).plain
  | some _ => exact Plain.bind ⟨fun _ => rfl, fun _ => rfl, fun _ => rfl⟩ fun _ => ⟨fun _ => rfl, fun _ => rfl, fun _ => rfl⟩

theorem indexRepo_plain (E : Env) (r : Str) : Plain (indexRepo E r) := by
  refine (initDistribution_reads _ _).plain.bind fun d => (emitIndex_reads _ _ _).plain.bind fun doc => Reads.getSt.plain.bind fun s => ?_
  refine Plain.bind ⟨fun _ => rfl, fun _ => rfl, fun _ => rfl⟩ fun _ => ?_
  have hs : Plain (stepM fun s => s.setFs { s.fs with idx := fun r' => if r' = r then some doc else s.fs.idx r' }) := ⟨fun _ => rfl, fun _ => rfl, fun _ => rfl⟩
  cases E.indexIO s.clock with
  | failBefore => exact (Reads.throw _).plain
  | ok => exact hs
  | failAfter => exact hs.bind fun _ => (Reads.throw _).plain

theorem mIndex_plain (E : Env) (r : Str) : Plain (mIndex E r) := (getRepo_plain r).bind fun _ => indexRepo_plain E r

/-- The same database and the same files under the same names. (No code: specification.) -/
structure SameStore (s t : St) : Prop where
  db : t.db = s.db
  tab : t.fs.tab = s.fs.tab
  data : t.fs.data = s.fs.data

theorem Plain.alike {m : M α} (h : Plain m) (s : St) : SameStore s (m s).st := ⟨h.db s, h.tab s, h.data s⟩
theorem SameStore.read {t : St} (h : SameStore s t) (p : Path) : t.fs.read p = s.fs.read p := by
  unfold FS.read; rw [h.tab, h.data]
theorem SameStore.ready {t : St} (h : SameStore s t) (W : World) (r f : Str) : Ready W t r f ↔ Ready W s r f := by
  unfold Ready RefReady Has Lists InPool ServedAs Spec.Linked
  simp only [h.db, h.tab, h.read]
theorem SameStore.refReady {t : St} (h : SameStore s t) (W : World) (r id : Str) : RefReady W t r id ↔ RefReady W s r id := by
  unfold RefReady Has Lists ServedAs Spec.Linked
  simp only [h.db, h.tab, h.read]
theorem SameStore.has {t : St} (h : SameStore s t) (r id : Str) : Has t r id ↔ Has s r id := by
  unfold Has Lists; rw [h.db]
theorem SameStore.served {t : St} (h : SameStore s t) (W : World) (r id : Str) (c : Content) : ServedAs W t r id c ↔ ServedAs W s r id c := by
  unfold ServedAs
  simp only [h.read]

/-! ## What putting one package in place leaves alone of another -/

theorem Landed.inPool {t : St} {r id x : Str} (h : Landed W s t r id) (hx : x ≠ id) : InPool t x ↔ InPool s x := by
  unfold InPool; rw [h.pool x hx]
theorem Landed.has_other {t : St} {r id x y : Str} (h : Landed W s t r id) (hx : y ≠ id) : Has t x y ↔ Has s x y := by
  rw [h.has]; simp [hx]
theorem Landed.inode {t : St} {r id : Str} (h : Landed W s t r id) {q : Path} (hq : q.base ≠ id) : t.fs.tab q = s.fs.tab q := h.tab q (.inr (.inl hq))
theorem Landed.linked {t : St} {r id : Str} (h : Landed W s t r id) {p q : Path} (hp : p.base ≠ id) (hq : q.base ≠ id) :
    Spec.Linked t p q ↔ Spec.Linked s p q := by
  unfold Spec.Linked; rw [h.inode hp, h.inode hq]
theorem Landed.served {t : St} {r id x y : Str} {c : Content} (h : Landed W s t r id) (hx : y ≠ id) : ServedAs W t x y c ↔ ServedAs W s x y c := by
  unfold ServedAs
  refine exists_congr fun d => and_congr_right fun _ => ?_
  rw [h.read (.repo x d y) (.inr hx)]
theorem Landed.refReady {t : St} {r id x y : Str} (h : Landed W s t r id) (hx : y ≠ id) : RefReady W t x y ↔ RefReady W s x y := by
  unfold RefReady
  rw [h.has_other hx, h.served hx]
  refine or_congr Iff.rfl (and_congr_right fun _ => exists_congr fun d => and_congr_right fun _ => ?_)
  rw [h.read (.pool d y) (.inr hx), h.read (.repo x d y) (.inr hx), h.linked (p := .pool d y) (q := .repo x d y) hx hx]
theorem Landed.ready {t : St} {r id x f : Str} (h : Landed W s t r id) (hx : baseName f ≠ id) : Ready W t x f ↔ Ready W s x f := by
  unfold Ready
  rw [h.inPool hx, h.has_other hx, h.refReady hx]
  refine or_congr Iff.rfl (and_congr_right fun _ => and_congr_right fun _ => exists_congr fun d => and_congr_right fun _ => ?_)
  rw [h.read (.pool d (baseName f)) (.inr hx), h.linked (p := .pool d (baseName f)) (q := .repo x d (baseName f)) hx hx,
    h.linked (p := .ext f) (q := .pool d (baseName f)) hx hx, h.linked (p := .ext f) (q := .repo x d (baseName f)) hx hx]

theorem Landed.repo {t : St} {r id x : Str} (h : Landed W s t r id) (hx : Repo s x) : Repo t x := by
  unfold Repo at *; rw [h.repos]; exact hx
theorem Landed.assets {t : St} {r id x : Str} (h : Landed W s t r id) (hx : AssetsParse W s x) : AssetsParse W t x := by
  have : ∀ a, t.fs.read (.asset x a) = s.fs.read (.asset x a) := fun a => h.read _ (.inl rfl)
  refine ⟨?_, ?_, ?_⟩ <;> rw [this] <;> first | exact hx.dist | exact hx.comps | exact hx.groups

theorem forL_cons_ok {f : α → M Unit} {x : α} {xs : List α} {t : St} {tr : List St} (h : f x s = ⟨.ok (), t, tr⟩) :
    (forL (x :: xs) f s).res = (forL xs f t).res ∧ (forL (x :: xs) f s).st = (forL xs f t).st := by
  have : forL (x :: xs) f s = (f x >>= fun _ => forL xs f) s := rfl
  rw [this, bind_ok h]; exact ⟨rfl, rfl⟩
theorem forL_cons_err {f : α → M Unit} {x : α} {xs : List α} {e : Err} (h : (f x s).res = .err e) : (forL (x :: xs) f s).res = .err e := by
  have : forL (x :: xs) f s = (f x >>= fun _ => forL xs f) s := rfl
  rw [this, bind_err (show f x s = ⟨.err e, (f x s).st, (f x s).tr⟩ by rw [← h])]

/-! ## Importing a list of uploads -/

/-- The uploads hold packages, whole. (No code: what C127 assumes of the files the producer names.) -/
def Spec.Uploads (W : World) (s : St) (files : List Str) : Prop :=
  ∀ f ∈ files, W.isDelta (baseName f) = false ∧ W.IsPkg (baseName f) ∧ s.fs.read (.ext f) = some (W.canon (baseName f))

theorem addAll_out (ok : W.OK) (hz : W.NoTorn) {r : Str} : ∀ (files : List Str) {s : St}, Rough W s → Safe W s.db → (files.map baseName).Nodup →
    Uploads W s files →
    (∃ e, (forL files (fun f => addPackage W.E r (.ext f) false) s).res = .err e) ∧ (∃ f ∈ files, ¬ Ready W s r f) ∨
    (forL files (fun f => addPackage W.E r (.ext f) false) s).res = .ok () ∧
      let t := (forL files (fun f => addPackage W.E r (.ext f) false) s).st
      Rough W t ∧ Safe W t.db ∧ t.clock = s.clock ∧ (∀ x, Repo s x → Repo t x) ∧ (∀ x, AssetsParse W s x → AssetsParse W t x) ∧
      (∀ x y, Has t x y ↔ Has s x y ∨ (x = r ∧ y ∈ files.map baseName)) ∧
      (∀ y, y ∉ files.map baseName → ∀ x c, ServedAs W t x y c ↔ ServedAs W s x y c) ∧
      (∀ f ∈ files, ServedAs W t r (baseName f) (W.canon (baseName f)) ↔ Ready W s r f) ∧
      ((∀ f ∈ files, Ready W s r f) → Unhurt W s t)
  | [], s, hr, hs, _, _ => .inr ⟨rfl, hr, hs, rfl, fun _ h => h, fun _ h => h, fun _ _ => by simp [forL, pure, M.pure'], fun _ _ _ _ => Iff.rfl, by simp, fun _ => Unhurt.of_fs rfl⟩
  | f :: fs, s, hr, hs, hn, hu => by
    obtain ⟨hnf, hn'⟩ := List.nodup_cons.1 hn
    obtain ⟨hd, hp, hrd⟩ := hu f (List.mem_cons_self ..)
    have hne : ∀ g ∈ fs, baseName g ≠ baseName f := fun g hg e => hnf (e ▸ List.mem_map_of_mem hg)
    rcases addPackage_out ok (r := r) hd hp hrd hr with ⟨⟨e, he⟩, h⟩ | ⟨t, tr, he, hL, hsv, hun⟩
    · exact .inl ⟨⟨e, forL_cons_err (f := fun f => addPackage W.E r (.ext f) false) he⟩, f, List.mem_cons_self .., h⟩
    · have hr' := (addPackage_keeps ok hz r (file := .ext f) (strict := false) rfl hd s hr).fin
      have hs' := (addPackage_safe ok hz r (file := .ext f) (strict := false) rfl hr hs).fin
      rw [he] at hr' hs'
      obtain ⟨e1, e2⟩ := forL_cons_ok (f := fun f => addPackage W.E r (.ext f) false) (xs := fs) he
      have hu' : Uploads W t fs := fun g hg => by
        obtain ⟨a, b, c⟩ := hu g (List.mem_cons_of_mem _ hg)
        exact ⟨a, b, by rw [hL.read (.ext g) (.inr (hne g hg))]; exact c⟩
      rw [e1, e2]
      rcases addAll_out ok hz (r := r) fs hr' hs' hn' hu' with ⟨h1, g, hg, h2⟩ | ⟨h1, k1, k2, k3, k4, k5, k6, k7, k8, k9⟩
      · exact .inl ⟨h1, g, List.mem_cons_of_mem _ hg, fun h => h2 ((hL.ready (hne g hg)).2 h)⟩
      · refine .inr ⟨h1, k1, k2, k3.trans hL.clock, fun x h => k4 x (hL.repo h), fun x h => k5 x (hL.assets h), fun x y => ?_, fun y hy x c => ?_, fun g hg => ?_, fun h => ?_⟩
        · rw [k6, hL.has, List.map_cons, List.mem_cons, or_assoc, ← and_or_left]
        · rw [List.map_cons, List.mem_cons, not_or] at hy
          rw [k7 y hy.2, hL.served hy.1]
        · rcases List.mem_cons.1 hg with rfl | hg
          · rw [k7 _ hnf]; exact hsv
          · rw [k8 g hg]; exact hL.ready (hne g hg)
        · exact (hun (h f (List.mem_cons_self ..))).trans (k9 fun g hg => (hL.ready (hne g hg)).2 (h g (List.mem_cons_of_mem _ hg)))

theorem mAdd_out (ok : W.OK) (hz : W.NoTorn) (hr : Rough W s) (hs : Safe W s.db) {r : Str} (hrep : Repo s r) (files : List Str)
    (hn : (files.map baseName).Nodup) (hu : Uploads W s files) (ha : AssetsParse W s r) (hi : W.E.indexIO s.clock = .ok) :
    (∃ e, (mAddPackages W.E r files false s).res = .err e) ∧ (∃ f ∈ files, ¬ Ready W s r f) ∨
    (mAddPackages W.E r files false s).res = .ok () ∧
      (∀ x y, Has (mAddPackages W.E r files false s).st x y ↔ Has s x y ∨ (x = r ∧ y ∈ files.map baseName)) ∧
      (∀ f ∈ files, ServedAs W (mAddPackages W.E r files false s).st r (baseName f) (W.canon (baseName f)) ↔ Ready W s r f) ∧
      ((∀ f ∈ files, Ready W s r f) → Unhurt W s (mAddPackages W.E r files false s).st) := by
  obtain ⟨_, hg, ⟨ha', hck, _⟩, hr', hs', _⟩ := getRepo_wins r hrep hr hs ha
  have hal := (getRepo_plain r).alike s
  have hrep' : Repo (getRepo r s).st r := by unfold Repo at *; rw [hal.db]; exact hrep
  have hu' : Uploads W (getRepo r s).st files := fun f hf => by rw [hal.read]; exact hu f hf
  have e0 : mAddPackages W.E r files false s = (getRepo r >>= fun _ => forL files (fun f => addPackage W.E r (.ext f) false) >>= fun _ => mIndex W.E r) s := rfl
  have eg : getRepo r s = ⟨.ok (), (getRepo r s).st, (getRepo r s).tr⟩ := by
    cases hh : getRepo r s with | mk a b c => rw [hh] at hg; cases a <;> simp_all
  rw [e0, bind_ok eg]
  rcases addAll_out ok hz (r := r) files hr' hs' hn hu' with ⟨⟨e, h1⟩, f, hf, h2⟩ | ⟨h1, k1, k2, k3, k4, k5, k6, _, k8, k9⟩
  · refine .inl ⟨⟨e, ?_⟩, f, hf, fun h => h2 ((hal.ready W r f).2 h)⟩
    rw [bind_err (show forL files (fun f => addPackage W.E r (.ext f) false) (getRepo r s).st = ⟨.err e, _, _⟩ by rw [← h1])]
    rfl
  · refine .inr ?_
    have eL : forL files (fun f => addPackage W.E r (.ext f) false) (getRepo r s).st = ⟨.ok (), (forL files (fun f => addPackage W.E r (.ext f) false) (getRepo r s).st).st, (forL files (fun f => addPackage W.E r (.ext f) false) (getRepo r s).st).tr⟩ := by rw [← h1]
    rw [bind_ok eL]
    obtain ⟨_, hx, _⟩ := mIndex_wins ok r (k4 r hrep') k1 k2 (k5 r ha') (by rw [k3, hck]; exact hi)
    have hq := (mIndex_plain W.E r).alike (forL files (fun f => addPackage W.E r (.ext f) false) (getRepo r s).st).st
    refine ⟨hx, fun x y => ?_, fun f hf => ?_, fun h => ?_⟩
    · show Has (mIndex W.E r _).st x y ↔ _
      rw [hq.has, k6, hal.has]
    · show ServedAs W (mIndex W.E r _).st r _ _ ↔ _
      rw [hq.served, k8 f hf, hal.ready]
    · exact ((Unhurt.of_fs (funext hal.read)).trans (k9 fun f hf => (hal.ready W r f).2 (h f hf))).trans (Unhurt.of_fs (funext hq.read))

/-! ## Strict imports -/

/-- A strict import lets the upload in: everything published under its name has a lower release. repo.go:718-749. -/
structure Spec.Admitted (W : World) (s : St) (r f : Str) : Prop where
  newer : ∀ tip, Tip s r (nameOf W (baseName f)) tip → relOf W tip < relOf W (baseName f)

theorem relOf_eq (W : World) (id : Str) : relOf W id = (W.mOf id).rel := rfl

/-- A strict import of one upload is the same as any other if it is admitted; if not, it fails and nothing happens. -/
theorem strict_out (ok : W.OK) (hr : Rough W s) (hs : Safe W s.db) {r f : Str} (hp : W.IsPkg (baseName f))
    (hrd : s.fs.read (.ext f) = some (W.canon (baseName f))) :
    (Admitted W s r f → addPackage W.E r (.ext f) true s = addPackage W.E r (.ext f) false s) ∧
    (¬ Admitted W s r f → ∃ e, addPackage W.E r (.ext f) true s = ⟨.err e, s, []⟩) := by
  have hopen : openPkg W.E (.ext f) s = ⟨.ok ⟨.ext f, baseName f, W.mOf (baseName f)⟩, s, []⟩ := by
    unfold openPkg
    rw [getSt_bind, hrd]
    dsimp only
    rw [show W.E.parse (W.canon (baseName f)) = .good (W.mOf (baseName f)) from hp]
    rfl
  have hg := ok.meta hp
  unfold addPackage
  rw [bind_ok hopen, bind_ok hopen]
  have h0 : (repoGet? r (W.mOf (baseName f)).name s).res = .ok ((s.db.ents r).get (W.mOf (baseName f)).name) := rfl
  simp only [Bool.not_true, Bool.not_false, Bool.false_eq_true, if_false, if_true]
  rw [bind_reads (repoGet?_reads _ _) h0]
  cases he : (s.db.ents r).get (W.mOf (baseName f)).name with
  | none =>
    refine ⟨fun _ => rfl, fun h => absurd ⟨?_⟩ h⟩
    rintro tip ⟨e, h1, _⟩
    rw [show nameOf W (baseName f) = (W.mOf (baseName f)).name from rfl, he] at h1; cases h1
  | some l =>
    obtain ⟨pe, h1, hpe⟩ := listed_pool hr hs he (hr.db.ent r _ l he).pub
    have h2 : (poolGet l.published s).res = .ok pe := by
      obtain ⟨a, h3, rfl, _⟩ := poolGet_wins h1; exact h3
    dsimp only
    rw [bind_reads (poolGet_reads _) h2, getRelease_bind (hpe.hist ok), getRelease_bind hg.hist, hpe.rel]
    have hiff : Admitted W s r f ↔ (W.mOf l.published).rel < (W.mOf (baseName f)).rel := by
      constructor
      · intro h
        have := h.newer l.published ⟨l, he, rfl⟩
        rwa [relOf_eq, relOf_eq] at this
      · intro h
        refine ⟨?_⟩
        rintro tip ⟨e, h3, rfl⟩
        rw [show nameOf W (baseName f) = (W.mOf (baseName f)).name from rfl, he] at h3
        cases h3
        rw [relOf_eq, relOf_eq]; exact h
    rw [hiff]
    constructor
    · intro h
      rw [if_neg (show ¬ (W.mOf l.published).rel > (W.mOf (baseName f)).rel by omega),
        if_neg (show ¬ (W.mOf l.published).rel = (W.mOf (baseName f)).rel by omega)]
    · intro h
      by_cases h3 : (W.mOf l.published).rel > (W.mOf (baseName f)).rel
      · rw [if_pos h3]; exact ⟨_, rfl⟩
      · rw [if_neg h3, if_pos (show (W.mOf l.published).rel = (W.mOf (baseName f)).rel by omega)]; exact ⟨_, rfl⟩

theorem Landed.admitted {t : St} {r id f : Str} (h : Landed W s t r id) (hn : nameOf W (baseName f) ≠ nameOf W id) : Admitted W t r f ↔ Admitted W s r f := by
  have : ∀ tip, Tip t r (nameOf W (baseName f)) tip ↔ Tip s r (nameOf W (baseName f)) tip := by
    intro tip; unfold Tip; rw [h.entry _ hn]
  constructor
  · rintro ⟨k⟩; exact ⟨fun tip ht => k tip ((this tip).2 ht)⟩
  · rintro ⟨k⟩; exact ⟨fun tip ht => k tip ((this tip).1 ht)⟩

theorem strictAll_out (ok : W.OK) (hz : W.NoTorn) {r : Str} : ∀ (files : List Str) {s : St}, Rough W s → Safe W s.db →
    (files.map fun f => nameOf W (baseName f)).Nodup → Uploads W s files →
    ((∀ f ∈ files, Admitted W s r f) → forL files (fun f => addPackage W.E r (.ext f) true) s = forL files (fun f => addPackage W.E r (.ext f) false) s) ∧
    ((∃ f ∈ files, ¬ Admitted W s r f) → ∃ e, (forL files (fun f => addPackage W.E r (.ext f) true) s).res = .err e)
  | [], s, _, _, _, _ => ⟨fun _ => rfl, by rintro ⟨f, hf, _⟩; cases hf⟩
  | f :: fs, s, hr, hs, hn, hu => by
    obtain ⟨hnf, hn'⟩ := List.nodup_cons.1 hn
    obtain ⟨hd, hp, hrd⟩ := hu f (List.mem_cons_self ..)
    have hne : ∀ g ∈ fs, nameOf W (baseName g) ≠ nameOf W (baseName f) := fun g hg e => hnf (List.mem_map.2 ⟨g, hg, e⟩)
    have hne' : ∀ g ∈ fs, baseName g ≠ baseName f := fun g hg e => hne g hg (by rw [e])
    obtain ⟨hyes, hno⟩ := strict_out ok hr hs (r := r) hp hrd
    have ef : ∀ b, forL (f :: fs) (fun f => addPackage W.E r (.ext f) b) s = (addPackage W.E r (.ext f) b >>= fun _ => forL fs (fun f => addPackage W.E r (.ext f) b)) s :=
      fun _ => rfl
    by_cases hadm : Admitted W s r f
    · have heq := hyes hadm
      rcases addPackage_out ok (r := r) hd hp hrd hr with ⟨⟨e, he⟩, h⟩ | ⟨t, tr, he, hL, hsv, hun⟩
      · have h1 := bind_err (f := fun _ => forL fs (fun f => addPackage W.E r (.ext f) false)) (show addPackage W.E r (.ext f) false s = ⟨.err e, _, _⟩ by rw [← he])
        have h2 := bind_err (f := fun _ => forL fs (fun f => addPackage W.E r (.ext f) true)) (show addPackage W.E r (.ext f) true s = ⟨.err e, _, _⟩ by rw [heq, ← he])
        refine ⟨fun _ => ?_, fun _ => ⟨e, ?_⟩⟩
        · rw [ef, ef, h1, h2]
        · rw [ef, h2]
      · have hr' := (addPackage_keeps ok hz r (file := .ext f) (strict := false) rfl hd s hr).fin
        have hs' := (addPackage_safe ok hz r (file := .ext f) (strict := false) rfl hr hs).fin
        rw [he] at hr' hs'
        have hu' : Uploads W t fs := fun g hg => by
          obtain ⟨a, b, c⟩ := hu g (List.mem_cons_of_mem _ hg)
          exact ⟨a, b, by rw [hL.read (.ext g) (.inr (hne' g hg))]; exact c⟩
        obtain ⟨i1, i2⟩ := strictAll_out ok hz (r := r) fs hr' hs' hn' hu'
        rw [ef, ef, bind_ok he, bind_ok (heq.trans he)]
        refine ⟨fun h => ?_, ?_⟩
        · rw [i1 fun g hg => (hL.admitted (hne g hg)).2 (h g (List.mem_cons_of_mem _ hg))]
        · rintro ⟨g, hg, h⟩
          rcases List.mem_cons.1 hg with rfl | hg
          · exact absurd hadm h
          · obtain ⟨e, he'⟩ := i2 ⟨g, hg, fun k => h ((hL.admitted (hne g hg)).1 k)⟩
            exact ⟨e, he'⟩
    · obtain ⟨e, he⟩ := hno hadm
      refine ⟨fun h => absurd (h f (List.mem_cons_self ..)) hadm, fun _ => ⟨e, ?_⟩⟩
      rw [ef, bind_err he]

theorem SameStore.admitted {t : St} (h : SameStore s t) (W : World) (r f : Str) : Admitted W t r f ↔ Admitted W s r f := by
  have : ∀ tip, Tip t r (nameOf W (baseName f)) tip ↔ Tip s r (nameOf W (baseName f)) tip := by
    intro tip; unfold Tip; rw [h.db]
  constructor
  · rintro ⟨k⟩; exact ⟨fun tip ht => k tip ((this tip).2 ht)⟩
  · rintro ⟨k⟩; exact ⟨fun tip ht => k tip ((this tip).1 ht)⟩

theorem getRepo_start (hr : Rough W s) (hs : Safe W s.db) {r : Str} (hrep : Repo s r) :
    getRepo r s = ⟨.ok (), (getRepo r s).st, (getRepo r s).tr⟩ ∧ Rough W (getRepo r s).st ∧ Safe W (getRepo r s).st.db ∧ SameStore s (getRepo r s).st := by
  have := getRepo_sure (s := s) (rid := r) (by unfold Repo at hrep; rwa [KV.mem_keys_iff] at hrep)
  exact ⟨by rw [← this.res], (getRepo_keeps (tgt := none) r s hr).fin, by rw [this.st]; exact hs, (getRepo_plain r).alike s⟩

/-- If all are admitted a strict import does what any other does; if not, it fails. -/
theorem mStrict_out (ok : W.OK) (hz : W.NoTorn) (hr : Rough W s) (hs : Safe W s.db) {r : Str} (hrep : Repo s r) (files : List Str)
    (hn : (files.map fun f => nameOf W (baseName f)).Nodup) (hu : Uploads W s files) :
    ((∀ f ∈ files, Admitted W s r f) → mAddPackages W.E r files true s = mAddPackages W.E r files false s) ∧
    ((∃ f ∈ files, ¬ Admitted W s r f) → ∃ e, (mAddPackages W.E r files true s).res = .err e) := by
  obtain ⟨eg, hr', hs', hal⟩ := getRepo_start hr hs hrep
  have e0 : ∀ b, mAddPackages W.E r files b s = (getRepo r >>= fun _ => forL files (fun f => addPackage W.E r (.ext f) b) >>= fun _ => mIndex W.E r) s := fun _ => rfl
  obtain ⟨i1, i2⟩ := strictAll_out ok hz (r := r) files hr' hs' hn fun f hf => by rw [hal.read]; exact hu f hf
  rw [e0, e0, bind_ok eg, bind_ok eg]
  refine ⟨fun h => ?_, ?_⟩
  · have : (forL files (fun f => addPackage W.E r (.ext f) true) >>= fun _ => mIndex W.E r) (getRepo r s).st =
        (forL files (fun f => addPackage W.E r (.ext f) false) >>= fun _ => mIndex W.E r) (getRepo r s).st := by
      show M.bind' _ _ _ = M.bind' _ _ _
      unfold M.bind'
      rw [i1 fun f hf => (hal.admitted W r f).2 (h f hf)]
    rw [this]
  · rintro ⟨f, hf, h⟩
    obtain ⟨e, he⟩ := i2 ⟨f, hf, fun k => h ((hal.admitted W r f).1 k)⟩
    refine ⟨e, ?_⟩
    rw [bind_err (show forL files (fun f => addPackage W.E r (.ext f) true) (getRepo r s).st = ⟨.err e, _, _⟩ by rw [← he])]
    rfl

/-- The first upload is not admitted: the import fails, and nothing happens. -/
theorem mStrict_refused (ok : W.OK) (hr : Rough W s) (hs : Safe W s.db) {r f : Str} (hrep : Repo s r) (fs : List Str) (hp : W.IsPkg (baseName f))
    (hrd : s.fs.read (.ext f) = some (W.canon (baseName f))) (h : ¬ Admitted W s r f) :
    (∃ e, (mAddPackages W.E r (f :: fs) true s).res = .err e) ∧ SameStore s (mAddPackages W.E r (f :: fs) true s).st := by
  obtain ⟨eg, hr', hs', hal⟩ := getRepo_start hr hs hrep
  obtain ⟨e, he⟩ := (strict_out ok hr' hs' (r := r) hp (by rw [hal.read]; exact hrd)).2 fun k => h ((hal.admitted W r f).1 k)
  have e0 : mAddPackages W.E r (f :: fs) true s = (getRepo r >>= fun _ => (addPackage W.E r (.ext f) true >>= fun _ => forL fs (fun f => addPackage W.E r (.ext f) true)) >>=
    fun _ => mIndex W.E r) s := rfl
  rw [e0, bind_ok eg, bind_err (bind_err he)]
  exact ⟨⟨e, rfl⟩, hal⟩

/-! ## Copying packages from one repository into another -/

theorem refAll_out (ok : W.OK) {r : Str} : ∀ (ids : List Str) {s : St}, Rough W s → Safe W s.db → ids.Nodup →
    (∀ id ∈ ids, W.isDelta id = false ∧ InPool s id) →
    (forL ids (refPackage W.E r) s).res = .ok () ∧
      let t := (forL ids (refPackage W.E r) s).st
      Rough W t ∧ Safe W t.db ∧ t.clock = s.clock ∧ (∀ x, Repo s x → Repo t x) ∧ (∀ x, AssetsParse W s x → AssetsParse W t x) ∧
      (∀ x y, Has t x y ↔ Has s x y ∨ (x = r ∧ y ∈ ids)) ∧
      (∀ y, y ∉ ids → ∀ x c, ServedAs W t x y c ↔ ServedAs W s x y c) ∧
      (∀ id ∈ ids, ServedAs W t r id (W.canon id) ↔ RefReady W s r id) ∧
      ((∀ id ∈ ids, RefReady W s r id) → Unhurt W s t)
  | [], s, hr, hs, _, _ => ⟨rfl, hr, hs, rfl, fun _ h => h, fun _ h => h, fun _ _ => by simp [forL, pure, M.pure'], fun _ _ _ _ => Iff.rfl, by simp, fun _ => Unhurt.of_fs rfl⟩
  | id :: ids, s, hr, hs, hn, hu => by
    obtain ⟨hnf, hn'⟩ := List.nodup_cons.1 hn
    obtain ⟨hd, hin⟩ := hu id (List.mem_cons_self ..)
    have hne : ∀ g ∈ ids, g ≠ id := fun g hg e => hnf (e ▸ hg)
    obtain ⟨t, tr, he, hL, hsv, hun⟩ := refPackage_out ok (r := r) hd hin hr
    have hr' := (refPackage_keeps ok r id hd s hr).fin
    have hs' := (refPackage_safe ok r id hr hs).fin
    rw [he] at hr' hs'
    obtain ⟨e1, e2⟩ := forL_cons_ok (f := refPackage W.E r) (xs := ids) he
    rw [e1, e2]
    obtain ⟨h1, k1, k2, k3, k4, k5, k6, k7, k8, k9⟩ := refAll_out ok (r := r) ids hr' hs' hn' fun g hg => by
      obtain ⟨a, b⟩ := hu g (List.mem_cons_of_mem _ hg)
      exact ⟨a, (hL.inPool (hne g hg)).2 b⟩
    refine ⟨h1, k1, k2, k3.trans hL.clock, fun x h => k4 x (hL.repo h), fun x h => k5 x (hL.assets h), fun x y => ?_, fun y hy x c => ?_, fun g hg => ?_, fun h => ?_⟩
    · rw [k6, hL.has, List.mem_cons, or_assoc, ← and_or_left]
    · rw [List.mem_cons, not_or] at hy
      rw [k7 y hy.2, hL.served hy.1]
    · rcases List.mem_cons.1 hg with rfl | hg
      · rw [k7 _ hnf]; exact hsv
      · rw [k8 g hg]; exact hL.refReady (hne g hg)
    · exact (hun (h id (List.mem_cons_self ..))).trans (k9 fun g hg => (hL.refReady (hne g hg)).2 (h g (List.mem_cons_of_mem _ hg)))

theorem mCopy_out (ok : W.OK) (hr : Rough W s) (hs : Safe W s.db) {src dst : Str} (hsrc : Repo s src) (hdst : Repo s dst) (source : Str) (rel : Int)
    {skip : Bool} (hi : skip = true → AssetsParse W s dst ∧ W.E.indexIO s.clock = .ok) (hm : ∃ id, Has s src id ∧ Matches W source rel id) :
    let o := mCopySource W.E src dst source rel skip s
    o.res = .ok () ∧ (∀ x y, Has o.st x y ↔ Has s x y ∨ (x = dst ∧ Has s src y ∧ Matches W source rel y)) ∧
      (∀ id, Has s src id → Matches W source rel id → (ServedAs W o.st dst id (W.canon id) ↔ RefReady W s dst id)) ∧
      ((∀ id, Has s src id → Matches W source rel id → RefReady W s dst id) → Unhurt W s o.st) := by
  have hget : ∀ {u : St} (r : Str), Rough W u → Safe W u.db → Repo u r →
      getRepo r u = ⟨.ok (), (getRepo r u).st, (getRepo r u).tr⟩ ∧ Rough W (getRepo r u).st ∧ Safe W (getRepo r u).st.db := by
    intro u r h1 h2 h3
    have := getRepo_sure (s := u) (rid := r) (by unfold Repo at h3; rwa [KV.mem_keys_iff] at h3)
    exact ⟨by rw [← this.res], (getRepo_keeps (tgt := none) r u h1).fin, by rw [this.st]; exact h2⟩
  obtain ⟨g1, r1, s1⟩ := hget src hr hs hsrc
  have q1 := (getRepo_plain src).alike s
  have c1 := (getRepo_calm src).st s
  generalize hs1 : (getRepo src s).st = u1 at *
  obtain ⟨g2, r2, s2⟩ := hget dst r1 s1 (by unfold Repo at *; rw [q1.db]; exact hdst)
  have q2 := (getRepo_plain dst).alike u1
  have c2 := (getRepo_calm dst).st u1
  generalize hs2 : (getRepo dst u1).st = u2 at *
  have e0 : mCopySource W.E src dst source rel skip s = (getRepo src >>= fun _ => getRepo dst >>= fun _ => copySourceFrom W.E dst src source rel >>= fun _ =>
    if skip then mIndex W.E dst else pure ()) s := rfl
  have q : SameStore s u2 := ⟨q2.db.trans q1.db, q2.tab.trans q1.tab, q2.data.trans q1.data⟩
  obtain ⟨ids, w1, w2, w3, _⟩ := matchingSource_wins ok src source rel r2 s2
  have hmem := (matchingSource_at (tgt := none) ok src source rel r2).val ids w1
  have hmem' : ∀ id, id ∈ ids ↔ Has s src id ∧ Matches W source rel id := fun id => by rw [hmem, q.has]
  obtain ⟨id0, hid0⟩ := hm
  have hne : ¬ ids.length = 0 := by
    intro h
    rw [List.length_eq_zero_iff] at h
    have := (hmem' id0).2 hid0
    rw [h] at this; cases this
  obtain ⟨h1, k1, k2, k3, k4, k5, k6, k7, k8, k9⟩ := refAll_out ok (r := dst) ids r2 s2 w3 fun id hid => by
    obtain ⟨⟨n, e, hg, ha⟩, _⟩ := (hmem id).1 hid
    obtain ⟨pe, h1, _⟩ := listed_pool r2 s2 hg ha
    exact ⟨((r2.db.ent src n e hg).avail id ha).1, pe, h1⟩
  have ec : copySourceFrom W.E dst src source rel u2 = ⟨.ok (), (forL ids (refPackage W.E dst) u2).st, (forL ids (refPackage W.E dst) u2).tr⟩ := by
    unfold copySourceFrom
    rw [bind_reads (matchingSource_reads _ _ _) w1, if_neg hne, ← h1]
  generalize forL ids (refPackage W.E dst) u2 = L at *
  have base : ∀ v, SameStore L.st v → (∀ x y, Has v x y ↔ Has s x y ∨ (x = dst ∧ Has s src y ∧ Matches W source rel y)) ∧
      (∀ id, Has s src id → Matches W source rel id → (ServedAs W v dst id (W.canon id) ↔ RefReady W s dst id)) ∧
      ((∀ id, Has s src id → Matches W source rel id → RefReady W s dst id) → Unhurt W s v) := by
    intro v hv
    refine ⟨fun x y => ?_, fun id ha hb => ?_, fun h => ?_⟩
    · rw [hv.has, k6, q.has, hmem']
    · rw [hv.served, k8 id ((hmem' id).2 ⟨ha, hb⟩), q.refReady]
    · exact ((Unhurt.of_fs (funext q.read)).trans (k9 fun id hid => (q.refReady W dst id).2 (h id ((hmem' id).1 hid).1 ((hmem' id).1 hid).2))).trans
        (Unhurt.of_fs (funext hv.read))
  cases skip with
  | false =>
    have er : mCopySource W.E src dst source rel false s = ⟨.ok (), L.st, (getRepo src s).tr ++ ((getRepo dst u1).tr ++ (L.tr ++ []))⟩ :=
      e0.trans (run_bind g1 (run_bind g2 (run_bind ec rfl)))
    rw [er]
    exact ⟨rfl, base _ ⟨rfl, rfl, rfl⟩⟩
  | true =>
    obtain ⟨ha, hio⟩ := hi rfl
    have ha2 : AssetsParse W u2 dst := by
      refine ⟨?_, ?_, ?_⟩ <;> rw [q.read] <;> first | exact ha.dist | exact ha.comps | exact ha.groups
    obtain ⟨_, hx, _⟩ := mIndex_wins ok dst (k4 dst (by unfold Repo at *; rw [q.db]; exact hdst)) k1 k2 (k5 dst ha2) (by rw [k3, c2.1, c1.1]; exact hio)
    have er : mCopySource W.E src dst source rel true s = ⟨.ok (), (mIndex W.E dst L.st).st, (getRepo src s).tr ++ ((getRepo dst u1).tr ++ (L.tr ++ (mIndex W.E dst L.st).tr))⟩ :=
      e0.trans (run_bind g1 (run_bind g2 (run_bind ec (show mIndex W.E dst L.st = ⟨.ok (), _, _⟩ by rw [← hx]))))
    rw [er]
    exact ⟨rfl, base _ ((mIndex_plain W.E dst).alike L.st)⟩

/-! ## C127, C28: importing again -/

/-- C127: in any state a history of jobs and crashes leaves (crashes of jobs that take packages out excepted: see C115), an import of whole,
readable uploads with distinct file names either fails, or succeeds and lists all of them. It succeeds and every uploaded package is served
with the uploaded bytes, if and only if every upload is `Ready`: the package is listed and its file whole; or it is not listed, and the file
the import would overwrite is not a hard link of the file it would be copied from. If all are ready, no whole package file anywhere (uploads,
pool, any repository) is damaged. -/
theorem C127_import_iff (ok : W.OK) (hz : W.NoTorn) (h : Careful W s) {r : Str} (hr : Repo s r) (files : List Str)
    (hn : (files.map baseName).Nodup) (hu : Uploads W s files) (ha : AssetsParse W s r) (hi : W.E.indexIO s.clock = .ok) :
    let o := mAddPackages W.E r files false s
    ((o.res = .ok () ∧ ∀ f ∈ files, ServedAs W o.st r (baseName f) (W.canon (baseName f))) ↔ ∀ f ∈ files, Ready W s r f) ∧
    (o.res = .ok () → (∀ x y, Has o.st x y ↔ Has s x y ∨ (x = r ∧ ∃ f ∈ files, y = baseName f)) ∧
      ∀ f ∈ files, ServedAs W o.st r (baseName f) (W.canon (baseName f)) ↔ Ready W s r f) ∧
    ((∀ f ∈ files, Ready W s r f) → Unhurt W s o.st) := by
  rcases mAdd_out ok hz (h.wild.rough ok hz) (h.safe ok hz) hr files hn hu ha hi with ⟨⟨e, he⟩, f, hf, hnr⟩ | ⟨h1, h2, h3, h4⟩
  · refine ⟨⟨?_, fun h => absurd (h f hf) hnr⟩, ?_, fun h => absurd (h f hf) hnr⟩
    · rintro ⟨h, _⟩; rw [he] at h; cases h
    · intro h; rw [he] at h; cases h
  · refine ⟨⟨fun h f hf => (h3 f hf).1 (h.2 f hf), fun h => ⟨h1, fun f hf => (h3 f hf).2 (h f hf)⟩⟩, fun _ => ⟨fun x y => ?_, h3⟩, h4⟩
    rw [h2]
    refine or_congr Iff.rfl (and_congr_right fun _ => ?_)
    rw [List.mem_map]
    exact ⟨fun ⟨f, hf, e⟩ => ⟨f, hf, e.symm⟩, fun ⟨f, hf, e⟩ => ⟨f, hf, e.symm⟩⟩

/-- C28 (partial): an import cut off at any moment and run again works, for uploads that are still whole, if and only if each of them is `Ready`
then; missing: it is not always so (`C28_violated`). -/
theorem C28_again_iff_partial (ok : W.OK) (hz : W.NoTorn) (h : Careful W s) {r : Str} (files : List Str) (hd : ∀ f ∈ files, W.isDelta (baseName f) = false)
    (hn : (files.map baseName).Nodup) (u : St) (hm : Moment W (.addPackages r files false) s u) (hr : Repo u r)
    (hu : Uploads W u files) (ha : AssetsParse W u r) (hi : ∀ k, W.E.indexIO k = .ok) :
    let o := mAddPackages W.E r files false u.crash
    (o.res = .ok () ∧ ∀ f ∈ files, ServedAs W o.st r (baseName f) (W.canon (baseName f))) ↔ ∀ f ∈ files, Ready W u r f := by
  have hc := h.dies (.addPackages r files false) hd rfl hm
  have := (C127_import_iff ok hz hc (r := r) hr files hn hu ⟨ha.dist, ha.comps, ha.groups⟩ (hi _)).1
  have hs : SameStore u u.crash := ⟨rfl, rfl, rfl⟩
  simp only [hs.ready] at this
  exact this

/-! ## C128: copying again -/

/-- C128: a copy cut off at any moment, when it is run again, serves every copied package whole, from the target and from the source. -/
def C128_statement : Prop := ∀ (W : World) (s : St), W.OK → W.NoTorn → Reachable W s → ∀ src dst source rel skip, Repo s src → Repo s dst →
  (∀ k, W.E.indexIO k = .ok) → AssetsParse W s dst → (mCopySource W.E src dst source rel skip s).res = .ok () →
  ∀ u, Moment W (.copySource src dst source rel skip) s u →
    let o := mCopySource W.E src dst source rel skip u.crash
    o.res = .ok () ∧ ∀ id, Has s src id → FromSource W source rel id →
      ServedAs W o.st dst id (W.canon id) ∧ ServedAs W o.st src id (W.canon id)

/-- C128 (partial): in any state a history of jobs and crashes leaves (crashes of jobs that take packages out excepted), a copy of packages the
source lists succeeds, lists exactly them in addition, and a copied package is served whole by the target if and only if it was `RefReady`: listed there with its file
whole, or not listed and the pool file is whole and no hard link of the target's file. If all are, no whole package file anywhere is
damaged. Missing: after a crash they need not be ready. -/
theorem C128_copy_iff_partial (ok : W.OK) (hz : W.NoTorn) (h : Careful W s) {src dst : Str} (hsrc : Repo s src) (hdst : Repo s dst) (source : Str) (rel : Int)
    (skip : Bool) (hi : skip = true → AssetsParse W s dst ∧ W.E.indexIO s.clock = .ok) (hm : ∃ id, Has s src id ∧ FromSource W source rel id) :
    let o := mCopySource W.E src dst source rel skip s
    o.res = .ok () ∧ (∀ x y, Has o.st x y ↔ Has s x y ∨ (x = dst ∧ Has s src y ∧ FromSource W source rel y)) ∧
      (∀ id, Has s src id → FromSource W source rel id → (ServedAs W o.st dst id (W.canon id) ↔ RefReady W s dst id)) ∧
      ((∀ id, Has s src id → FromSource W source rel id → RefReady W s dst id) → Unhurt W s o.st) := by
  simp only [← matches_iff] at *
  exact mCopy_out ok (h.wild.rough ok hz) (h.safe ok hz) hsrc hdst source rel hi hm

/-! ## C129: an upload that was cut off -/

/-- C129: an upload (a strict import of the packages a manifest names) that is cut off at any moment and run again, its files still there, is completed. -/
def C129_statement : Prop := ∀ (W : World) (s : St), W.OK → W.NoTorn → Reachable W s → ∀ r files, Repo s r →
  (files.map fun f => nameOf W (baseName f)).Nodup → Uploads W s files → (∀ k, W.E.indexIO k = .ok) → AssetsParse W s r →
  (mAddPackages W.E r files true s).res = .ok () → ∀ u, Moment W (.addPackages r files true) s u → Uploads W u files →
    let o := mAddPackages W.E r files true u.crash
    o.res = .ok () ∧ ∀ f ∈ files, Has o.st r (baseName f)

/-- C129 (partial): in any state a history of jobs and crashes leaves (crashes of jobs that take packages out excepted), a strict import of whole
uploads of different packages succeeds and serves all of them if and only if each is `Ready` and `Admitted`: its release is higher than
that of the published package of its name. Missing: once the first of them was listed, it is no longer admitted. -/
theorem C129_strict_iff_partial (ok : W.OK) (hz : W.NoTorn) (h : Careful W s) {r : Str} (hr : Repo s r) (files : List Str)
    (hn : (files.map fun f => nameOf W (baseName f)).Nodup) (hu : Uploads W s files) (ha : AssetsParse W s r) (hi : W.E.indexIO s.clock = .ok) :
    let o := mAddPackages W.E r files true s
    (o.res = .ok () ∧ ∀ f ∈ files, ServedAs W o.st r (baseName f) (W.canon (baseName f))) ↔ ∀ f ∈ files, Ready W s r f ∧ Admitted W s r f := by
  have hb : (files.map baseName).Nodup := by
    refine (List.pairwise_map.1 ?_).imp (fun hne e => hne (congrArg (nameOf W) e)) (S := fun a b : Str => a ≠ b) (R := fun a b : Str => nameOf W a ≠ nameOf W b)
    rw [List.map_map]; exact hn
  obtain ⟨i1, i2⟩ := mStrict_out ok hz (h.wild.rough ok hz) (h.safe ok hz) hr files hn hu
  have hiff := (C127_import_iff ok hz h hr files hb hu ha hi).1
  by_cases hall : ∀ f ∈ files, Admitted W s r f
  · dsimp only
    rw [i1 hall, hiff]
    exact ⟨fun h f hf => ⟨h f hf, hall f hf⟩, fun h f hf => (h f hf).1⟩
  · refine ⟨?_, fun h => absurd (fun f hf => (h f hf).2) hall⟩
    rintro ⟨hok, _⟩
    have : ∃ f ∈ files, ¬ Admitted W s r f := by
      refine Classical.byContradiction fun hx => hall fun f hf => ?_
      exact Classical.byContradiction fun hy => hx ⟨f, hf, hy⟩
    obtain ⟨e, he⟩ := i2 this
    rw [he] at hok; cases hok

/-- The import run `n` times more, whatever it reports. (No code: an operator who keeps trying.) -/
def Spec.tries (W : World) (r : Str) (files : List Str) (s : St) : Nat → St
  | 0 => s
  | n + 1 => (mAddPackages W.E r files true (Spec.tries W r files s n)).st

/-- C129: once the first package of an upload is published with that release, running the upload again fails, however often: nothing is ever listed
that was not, and no record and no file changes. -/
theorem C129_stuck (ok : W.OK) (hz : W.NoTorn) (h : Careful W s) {r f tip : Str} (hr : Repo s r) (fs : List Str) (hd : ∀ g ∈ f :: fs, W.isDelta (baseName g) = false)
    (hp : W.IsPkg (baseName f)) (hrd : s.fs.read (.ext f) = some (W.canon (baseName f))) (ht : Tip s r (nameOf W (baseName f)) tip)
    (hle : relOf W (baseName f) ≤ relOf W tip) (n : Nat) :
    (mAddPackages W.E r (f :: fs) true (tries W r (f :: fs) s n)).res ≠ .ok () ∧
    (tries W r (f :: fs) s n).db = s.db ∧ ∀ p, (tries W r (f :: fs) s n).fs.read p = s.fs.read p := by
  have key : Rough W (tries W r (f :: fs) s n) ∧ Safe W (tries W r (f :: fs) s n).db ∧ SameStore s (tries W r (f :: fs) s n) := by
    induction n with
    | zero => exact ⟨h.wild.rough ok hz, h.safe ok hz, rfl, rfl, rfl⟩
    | succ n ih =>
      obtain ⟨h1, h2, h3⟩ := ih
      have hna : ¬ Admitted W (tries W r (f :: fs) s n) r f := fun k => by
        have := ((h3.admitted W r f).1 k).newer tip ht
        omega
      have h4 := (mStrict_refused ok h1 h2 (r := r) (by unfold Repo at *; rw [h3.db]; exact hr) fs hp (by rw [h3.read]; exact hrd) hna).2
      refine ⟨(Op.keeps ok hz (o := .addPackages r (f :: fs) true) hd _ h1).fin, ?_, h4.db.trans h3.db, h4.tab.trans h3.tab, h4.data.trans h3.data⟩
      show Safe W (mAddPackages W.E r (f :: fs) true _).st.db
      rw [h4.db]; exact h2
  obtain ⟨h1, h2, h3⟩ := key
  refine ⟨?_, h3.db, h3.read⟩
  have hna : ¬ Admitted W (tries W r (f :: fs) s n) r f := fun k => by
    have := ((h3.admitted W r f).1 k).newer tip ht
    omega
  obtain ⟨e, he⟩ := (mStrict_refused ok h1 h2 (r := r) (by unfold Repo at *; rw [h3.db]; exact hr) fs hp (by rw [h3.read]; exact hrd) hna).1
  rw [he]; exact fun h => by cases h
end

namespace Demo
theorem reachV : Reachable Demo.W stV := (reach6.step (.addPackages (S "u") [S "/up/a-1.eopkg"] false)
  (show ∀ f ∈ [S "/up/a-1.eopkg"], Demo.W.isDelta (baseName f) = false by decide +kernel)).step (.create (S "v")) trivial
theorem assetsV : AssetsParse Demo.W stV (S "v") := by
  have : ∀ a, stV.fs.read (.asset (S "v") a) = none := by intro a; cases a <;> decide +kernel
  refine ⟨?_, ?_, ?_⟩ <;> (intro c hc; rw [this] at hc; cases hc)
theorem hasV : Has stV (S "u") (S "a-1.eopkg") := by
  have h : (((stV.db.ents (S "u")).get (S "a")).map RepoEntry.available) = some [S "a-1.eopkg"] := by decide +kernel
  obtain ⟨e, h1, h2⟩ := Option.map_eq_some_iff.1 h
  exact ⟨S "a", e, h1, by rw [h2]; simp⟩
/-- Package "a" is copied from "u" to "v". -/
def jobC : Op := .copySource (S "u") (S "v") (S "a") 0 false
end Demo

/-- C128: the daemon dies after linking the file into the target, before listing it. Run again, the copy reports success, and empties the file
in the target, in the pool and in the repository it was copied from: all three are hard links of one file, which is truncated to be copied onto itself. -/
theorem C128_damage :
    let u := Demo.cut Demo.jobC Demo.stV 1
    let o := mCopySource Demo.E (Demo.S "u") (Demo.S "v") (Demo.S "a") 0 false u.crash
    Moment Demo.W Demo.jobC Demo.stV u ∧ u.fs.read (.repo (Demo.S "u") (Demo.S "a/a") (Demo.S "a-1.eopkg")) = some [1] ∧ o.res = .ok () ∧
    o.st.fs.read (.repo (Demo.S "v") (Demo.S "a/a") (Demo.S "a-1.eopkg")) = some [] ∧
    o.st.fs.read (.pool (Demo.S "a/a") (Demo.S "a-1.eopkg")) = some [] ∧
    o.st.fs.read (.repo (Demo.S "u") (Demo.S "a/a") (Demo.S "a-1.eopkg")) = some [] :=
  ⟨Demo.cut_moment (by decide +kernel), by decide +kernel, by decide +kernel, by decide +kernel, by decide +kernel, by decide +kernel⟩

/-- C128 is false of the code: see `C128_damage`. -/
theorem C128_violated : ¬ C128_statement := by
  intro h
  have hsv := (h Demo.W Demo.stV Demo.ok Demo.noTorn Demo.reachV (Demo.S "u") (Demo.S "v") (Demo.S "a") 0 false (by unfold Repo; decide +kernel)
    (by unfold Repo; decide +kernel) (fun _ => rfl) Demo.assetsV (by decide +kernel) _ C128_damage.1).2 (Demo.S "a-1.eopkg") Demo.hasV
    ⟨by decide +kernel, .inl (by decide)⟩
  obtain ⟨d, hd, hr⟩ := hsv.1
  have hd' : dirOf Demo.W (Demo.S "a-1.eopkg") = some (Demo.S "a/a") := by decide +kernel
  rw [hd'] at hd
  obtain rfl := Option.some.inj hd
  have hx := C128_damage.2.2.2.1.symm.trans hr
  revert hx; decide +kernel

/-- Not vacuous: `a-1` in "u" but not yet in "v" can be copied. Once the copy was cut off after the link, it is not ready. -/
example : Careful Demo.W Demo.stV ∧ Has Demo.stV (Demo.S "u") (Demo.S "a-1.eopkg") ∧ FromSource Demo.W (Demo.S "a") 0 (Demo.S "a-1.eopkg") ∧
    RefReady Demo.W Demo.stV (Demo.S "v") (Demo.S "a-1.eopkg") ∧
    ¬ RefReady Demo.W (Demo.cut Demo.jobC Demo.stV 1).crash (Demo.S "v") (Demo.S "a-1.eopkg") := by
  have hd' : dirOf Demo.W (Demo.S "a-1.eopkg") = some (Demo.S "a/a") := by decide +kernel
  refine ⟨Demo.reachV.careful, Demo.hasV, ⟨by decide +kernel, .inl (by decide)⟩, .inr ⟨?_, _, hd', .inl ⟨by decide +kernel, ?_⟩⟩, ?_⟩
  · rintro ⟨n, e, hg, _⟩
    have h0 : Demo.stV.db.ents (Demo.S "v") = [] := by decide +kernel
    rw [h0] at hg; cases hg
  · rintro ⟨i, _, h2⟩
    have h0 : Demo.stV.fs.tab (.repo (Demo.S "v") (Demo.S "a/a") (Demo.S "a-1.eopkg")) = none := by decide +kernel
    rw [h0] at h2; cases h2
  · rintro (⟨⟨n, e, hg, _⟩, _⟩ | ⟨_, d, hd, h⟩)
    · have h0 : (Demo.cut Demo.jobC Demo.stV 1).crash.db.ents (Demo.S "v") = [] := by decide +kernel
      rw [h0] at hg; cases hg
    · rw [hd'] at hd
      obtain rfl := Option.some.inj hd
      rcases h with ⟨_, h⟩ | ⟨h, _⟩
      · have h0 : ((Demo.cut Demo.jobC Demo.stV 1).crash.fs.tab (.pool (Demo.S "a/a") (Demo.S "a-1.eopkg")) =
            (Demo.cut Demo.jobC Demo.stV 1).crash.fs.tab (.repo (Demo.S "v") (Demo.S "a/a") (Demo.S "a-1.eopkg"))) ∧
            ((Demo.cut Demo.jobC Demo.stV 1).crash.fs.tab (.pool (Demo.S "a/a") (Demo.S "a-1.eopkg"))).isSome = true := by decide +kernel
        obtain ⟨i, hi⟩ := Option.isSome_iff_exists.1 h0.2
        exact h ⟨i, hi, by rw [← h0.1]; exact hi⟩
      · revert h; decide +kernel

/-- Not vacuous: the import of `a-1` into "u" was cut off after the package was recorded in the pool: it is ready. -/
example : Careful Demo.W (Demo.crashed6 1).crash ∧ Repo (Demo.crashed6 1).crash (Demo.S "u") ∧
    Uploads Demo.W (Demo.crashed6 1).crash [Demo.S "/up/a-1.eopkg"] ∧
    Ready Demo.W (Demo.crashed6 1).crash (Demo.S "u") (Demo.S "/up/a-1.eopkg") := by
  have hd' : dirOf Demo.W (Demo.S "a-1.eopkg") = some (Demo.S "a/a") := by decide +kernel
  have hb : baseName (Demo.S "/up/a-1.eopkg") = Demo.S "a-1.eopkg" := by decide +kernel
  refine ⟨Demo.reach6.careful.dies (.addPackages (Demo.S "u") [Demo.S "/up/a-1.eopkg"] false)
    (show ∀ f ∈ [Demo.S "/up/a-1.eopkg"], Demo.W.isDelta (baseName f) = false by decide +kernel) rfl ⟨_, Demo.crashed6_mem 1 (by decide), .whole⟩,
    by unfold Repo; decide +kernel, ?_, ?_⟩
  · intro f hf
    rw [List.mem_singleton] at hf
    subst hf
    exact ⟨by decide +kernel, by unfold World.IsPkg; rfl, by decide +kernel⟩
  · unfold Ready
    rw [hb]
    refine .inl ⟨.inl ?_, .inr ⟨?_, _, hd', .inl ⟨by decide +kernel, ?_⟩⟩⟩
    · have h0 : ((Demo.crashed6 1).crash.db.pool.get (Demo.S "a-1.eopkg")).isSome = true := by decide +kernel
      exact Option.isSome_iff_exists.1 h0
    · rintro ⟨n, e, hg, _⟩
      have h0 : (Demo.crashed6 1).crash.db.ents (Demo.S "u") = [] := by decide +kernel
      rw [h0] at hg; cases hg
    · rintro ⟨i, _, h2⟩
      have h0 : (Demo.crashed6 1).crash.fs.tab (.repo (Demo.S "u") (Demo.S "a/a") (Demo.S "a-1.eopkg")) = none := by decide +kernel
      rw [h0] at h2; cases h2

namespace Demo
/-- Two packages are uploaded for "u". -/
def stUp : St := Op.exec E st6 (upload "/up/b-1.eopkg")
theorem reachUp : Reachable Demo.W stUp := reach6.step (upload "/up/b-1.eopkg") (upload_ok _)
def filesUp : List Str := [S "/up/a-1.eopkg", S "/up/b-1.eopkg"]
def jobUp : Op := .addPackages (S "u") filesUp true
/-- The daemon dies once the first is listed. -/
def cutUp : St := cut jobUp stUp 3
theorem cutUp_moment : Moment Demo.W jobUp stUp cutUp := cut_moment (by decide +kernel)
theorem uploadsUp (s : St) (h1 : s.fs.read (.ext (S "/up/a-1.eopkg")) = some [1]) (h2 : s.fs.read (.ext (S "/up/b-1.eopkg")) = some [4]) :
    Uploads Demo.W s filesUp := by
  intro f hf
  simp only [filesUp, List.mem_cons, List.not_mem_nil, or_false] at hf
  rcases hf with rfl | rfl
  · exact ⟨by decide +kernel, by unfold World.IsPkg; rfl, h1⟩
  · exact ⟨by decide +kernel, by unfold World.IsPkg; rfl, h2⟩
theorem assetsUp : AssetsParse Demo.W stUp (S "u") := by
  have : ∀ a, stUp.fs.read (.asset (S "u") a) = none := by intro a; cases a <;> decide +kernel
  refine ⟨?_, ?_, ?_⟩ <;> (intro c hc; rw [this] at hc; cases hc)
end Demo

/-- C129 is false of the code: the upload of `a-1` and `b-1` is cut off once `a-1` is listed; run again it is refused for `a-1`, and `b-1` never arrives. -/
theorem C129_violated : ¬ C129_statement := by
  intro h
  have := (h Demo.W Demo.stUp Demo.ok Demo.noTorn Demo.reachUp (Demo.S "u") Demo.filesUp (by unfold Repo; decide +kernel) (by decide +kernel)
    (Demo.uploadsUp _ (by decide +kernel) (by decide +kernel)) (fun _ => rfl) Demo.assetsUp (by decide +kernel) Demo.cutUp Demo.cutUp_moment
    (Demo.uploadsUp _ (by decide +kernel) (by decide +kernel))).1
  revert this
  decide +kernel

/-- Not vacuous: before the crash both files are ready and admitted (the import succeeds); after it, the first is published with its release. -/
example : Careful Demo.W Demo.stUp ∧ (mAddPackages Demo.E (Demo.S "u") Demo.filesUp true Demo.stUp).res = .ok () ∧ Careful Demo.W Demo.cutUp.crash ∧
    Repo Demo.cutUp.crash (Demo.S "u") ∧ Tip Demo.cutUp.crash (Demo.S "u") (nameOf Demo.W (baseName (Demo.S "/up/a-1.eopkg"))) (Demo.S "a-1.eopkg") ∧
    ¬ Has Demo.cutUp.crash (Demo.S "u") (Demo.S "b-1.eopkg") := by
  refine ⟨Demo.reachUp.careful, by decide +kernel, Demo.reachUp.careful.dies Demo.jobUp
    (show ∀ f ∈ Demo.filesUp, Demo.W.isDelta (baseName f) = false by decide +kernel) rfl Demo.cutUp_moment, by unfold Repo; decide +kernel, ?_, ?_⟩
  · have h : (((Demo.cutUp.crash.db.ents (Demo.S "u")).get (nameOf Demo.W (baseName (Demo.S "/up/a-1.eopkg")))).map RepoEntry.published) = some (Demo.S "a-1.eopkg") := by decide +kernel
    exact Option.map_eq_some_iff.1 h
  · rintro ⟨n, e, hg, hb⟩
    have h0 : (Demo.cutUp.crash.db.ents (Demo.S "u")).all (fun x => !x.2.available.contains (Demo.S "b-1.eopkg")) = true := by decide +kernel
    have := List.all_eq_true.1 h0 _ (KV.mem_of_get hg)
    simp [hb] at this
end Ferryd
