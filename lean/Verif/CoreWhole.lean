import Verif.CoreSafe
/-!
# CoreWhole: what survives as long as no job that adds packages is cut short

`Rough` says that package files hold a beginning of their bytes.  `Tidy` says that they hold all of them.  Every operation that does not
add packages preserves it at each of its steps; one that does preserves it if it runs to its end, successful or not.
-/
namespace Ferryd
open Spec
variable {W : World} {s : St}

/-- The pool and the repositories hold no stray package files, and those they hold are whole (delta files aside). -/
structure Tidy (W : World) (s : St) : Prop where
  pool : ∀ d id c, W.isDelta id = false → s.fs.read (.pool d id) = some c →
    c = W.canon id ∧ W.compOf id = some d ∧ ∃ pe, s.db.pool.get id = some pe
  repo : ∀ r d id c, W.isDelta id = false → s.fs.read (.repo r d id) = some c →
    c = W.canon id ∧ W.compOf id = some d ∧ s.fs.rdir r = true ∧ (∀ u, s.db.repos.get r = some u → Has s r id)
  cache : ∀ r ∈ s.cache, s.fs.rdir r = true ∧ ∃ u, s.db.repos.get r = some u
  pend : ∀ id, .delPool id ∈ s.pend → W.isDelta id = false → ∀ d, s.fs.read (.pool d id) = none

theorem tidy_init (W : World) : Tidy W St.init where
  pool _ _ _ _ h := by simp [St.init, FS.read] at h
  repo _ _ _ _ _ h := by simp [St.init, FS.read] at h
  cache _ h := by simp [St.init] at h
  pend _ h := by simp [St.init] at h

theorem Tidy.crash (h : Tidy W s) : Tidy W s.crash :=
  ⟨h.pool, h.repo, fun _ h => by simp [St.crash] at h, fun _ h => by simp [St.crash] at h⟩

theorem Tidy.dropPend (h : Tidy W s) : Tidy W { s with pend := [] } :=
  ⟨h.pool, h.repo, h.cache, fun _ h => by simp at h⟩

/-- Fewer files, the others as they were. -/
theorem Tidy.setFs (h : Tidy W s) {g : FS}
    (hp : ∀ d id c, W.isDelta id = false → g.read (.pool d id) = some c → s.fs.read (.pool d id) = some c)
    (hq : ∀ r d id c, W.isDelta id = false → g.read (.repo r d id) = some c → s.fs.read (.repo r d id) = some c)
    (hd : ∀ r, s.fs.rdir r = true → g.rdir r = true) : Tidy W (s.setFs g) := by
  refine ⟨fun d id c hi hc => h.pool d id c hi (hp d id c hi hc), fun r d id c hi hc => ?_, fun r hm => ?_, fun id hm hi d => ?_⟩
  · obtain ⟨h1, h2, h3, h4⟩ := h.repo r d id c hi (hq r d id c hi hc)
    exact ⟨h1, h2, hd r h3, h4⟩
  · exact ⟨hd r (h.cache r hm).1, (h.cache r hm).2⟩
  · cases hc : g.read (.pool d id) with
    | none => rw [St.setFs_fs]; exact hc
    | some c => have := hp d id c hi hc; rw [h.pend id hm hi d] at this; cases this

/-! ## Files of deltas and assets -/

/-- Neither a package file nor a copy of one. -/
def Off (W : World) (p : Path) : Prop := p.isAsset = true ∨ W.isDelta p.base = true

theorem Off.owner {p q : Path} (h : Off W q) (hp : p.isAsset = false) (hd : W.isDelta p.base = false) : p.owner ≠ q.owner := by
  intro e
  rcases h with h | h
  · cases q <;> simp [Path.isAsset] at h
    cases p <;> simp [Path.owner, Path.isAsset] at e hp
  · have : q.isAsset = false ∨ q.isAsset = true := by cases q.isAsset <;> simp
    rcases this with ha | ha
    · have hb : p.base = q.base := by
        cases p <;> cases q <;> simp_all [Path.owner, Path.isAsset]
      rw [hb, h] at hd; cases hd
    · cases q <;> simp [Path.isAsset] at ha
      cases p <;> simp [Path.owner, Path.isAsset] at e hp

theorem RFiles.read_setData {fs : FS} (h : RFiles W fs) {dst p : Path} {j : Nat} (c : Content) (hj : fs.tab dst = some j)
    (ho : p.owner ≠ dst.owner) : (fs.setData j c).read p = fs.read p := by
  unfold FS.read
  simp only [FS.setData_tab]
  cases hi : fs.tab p with
  | none => rfl
  | some i =>
    simp only [Option.map_some, FS.setData_data]
    rw [if_neg]
    rintro rfl; exact ho (h.owner p dst _ hi hj)

theorem FS.Fresh.read_fresh {fs : FS} (h : fs.Fresh) {dst p : Path} (c : Content) (hne : p ≠ dst) : (fs.fresh_ dst c).read p = fs.read p := by
  unfold FS.read
  have ht : (fs.fresh_ dst c).tab p = fs.tab p := by show (if p = dst then _ else _) = _; rw [if_neg hne]
  rw [ht]
  cases hi : fs.tab p with
  | none => rfl
  | some i =>
    simp only [Option.map_some]
    show some (if i = fs.next then c else fs.data i) = _
    rw [if_neg (by have := h p i hi; omega)]

theorem RFiles.read_openTrunc {fs : FS} (h : RFiles W fs) {dst p : Path} (ho : p.owner ≠ dst.owner) : (fs.openTrunc dst).1.read p = fs.read p := by
  rcases fs.openTrunc_cases dst with ⟨j, hj, e⟩ | ⟨hn, e⟩ <;> rw [e]
  · exact h.read_setData _ hj ho
  · exact h.fresh.read_fresh _ (by rintro rfl; exact ho rfl)

theorem FS.openTrunc_rdir (fs : FS) (dst : Path) : (fs.openTrunc dst).1.rdir = fs.rdir := by
  rcases fs.openTrunc_cases dst with ⟨j, hj, e⟩ | ⟨hn, e⟩ <;> rw [e] <;> rfl

/-! ## A logic -/

variable {α β : Type} {J : St → Prop} {tgt : Option Str}

/-- `J` holds at each step and at the end, and if the program succeeds, `P`. -/
structure Ever (J : St → Prop) (m : M α) (s : St) (P : α → St → Prop) : Prop where
  fin : J (m s).st
  tr : ∀ t ∈ (m s).tr, J t
  val : ∀ a, (m s).res = .ok a → P a (m s).st

/-- The same for the end only. -/
structure Ends (J : St → Prop) (m : M α) (s : St) (P : α → St → Prop) : Prop where
  fin : J (m s).st
  val : ∀ a, (m s).res = .ok a → P a (m s).st

theorem Ever.ends {m : M α} {P : α → St → Prop} (h : Ever J m s P) : Ends J m s P := ⟨h.fin, h.val⟩

theorem Ever.bind {m : M α} {f : α → M β} {P : α → St → Prop} {R : β → St → Prop} (h : Ever J m s P)
    (hf : ∀ a t, J t → P a t → Ever J (f a) t R) : Ever J (m >>= f) s R := by
  rcases hm : (m s).res with a | e | _
  · have k := hf a _ h.fin (h.val a hm)
    have e : (m >>= f) s = ⟨(f a (m s).st).res, (f a (m s).st).st, (m s).tr ++ (f a (m s).st).tr⟩ := by
      show M.bind' m f s = _
      unfold M.bind'; rw [hm]
    refine ⟨?_, ?_, ?_⟩ <;> rw [e]
    · exact k.fin
    · intro t ht
      rcases List.mem_append.1 ht with ht | ht
      · exact h.tr t ht
      · exact k.tr t ht
    · exact k.val
  · have e : (m >>= f) s = ⟨.err e, (m s).st, (m s).tr⟩ := by
      show M.bind' m f s = _
      unfold M.bind'; rw [hm]
    refine ⟨?_, ?_, ?_⟩ <;> rw [e]
    · exact h.fin
    · exact h.tr
    · intro a ha; cases ha
  · have e : (m >>= f) s = ⟨.panic, (m s).st, (m s).tr⟩ := by
      show M.bind' m f s = _
      unfold M.bind'; rw [hm]
    refine ⟨?_, ?_, ?_⟩ <;> rw [e]
    · exact h.fin
    · exact h.tr
    · intro a ha; cases ha

theorem Ends.bind {m : M α} {f : α → M β} {P : α → St → Prop} {R : β → St → Prop} (h : Ends J m s P)
    (hf : ∀ a t, J t → P a t → Ends J (f a) t R) : Ends J (m >>= f) s R := by
  rcases hm : (m s).res with a | e | _
  · have k := hf a _ h.fin (h.val a hm)
    have e : (m >>= f) s = ⟨(f a (m s).st).res, (f a (m s).st).st, (m s).tr ++ (f a (m s).st).tr⟩ := by
      show M.bind' m f s = _
      unfold M.bind'; rw [hm]
    refine ⟨?_, ?_⟩ <;> rw [e]
    · exact k.fin
    · exact k.val
  · have e : (m >>= f) s = ⟨.err e, (m s).st, (m s).tr⟩ := by
      show M.bind' m f s = _
      unfold M.bind'; rw [hm]
    refine ⟨?_, ?_⟩ <;> rw [e]
    · exact h.fin
    · intro a ha; cases ha
  · have e : (m >>= f) s = ⟨.panic, (m s).st, (m s).tr⟩ := by
      show M.bind' m f s = _
      unfold M.bind'; rw [hm]
    refine ⟨?_, ?_⟩ <;> rw [e]
    · exact h.fin
    · intro a ha; cases ha

theorem Ever.mono {m : M α} {P R : α → St → Prop} (h : Ever J m s P) (hr : ∀ a t, P a t → R a t) : Ever J m s R :=
  ⟨h.fin, h.tr, fun a ha => hr a _ (h.val a ha)⟩
theorem Ends.mono {m : M α} {P R : α → St → Prop} (h : Ends J m s P) (hr : ∀ a t, P a t → R a t) : Ends J m s R :=
  ⟨h.fin, fun a ha => hr a _ (h.val a ha)⟩
theorem Ever.post {m : M α} {P R : α → St → Prop} (h : Ever J m s P) (k : Post m s R) : Ever J m s (fun a t => R a t ∧ P a t) :=
  ⟨h.fin, h.tr, fun a ha => ⟨k.run a ha, h.val a ha⟩⟩
theorem Ends.post {m : M α} {P R : α → St → Prop} (h : Ends J m s P) (k : Post m s R) : Ends J m s (fun a t => R a t ∧ P a t) :=
  ⟨h.fin, fun a ha => ⟨k.run a ha, h.val a ha⟩⟩

theorem Ever.pure (hs : J s) {a : α} {P : α → St → Prop} (h : P a s) : Ever J (pure a : M α) s P :=
  ⟨hs, fun t ht => by simp at ht, fun b hb => by simp at hb; subst hb; exact h⟩
theorem Ever.throw (hs : J s) {e : Err} {P : α → St → Prop} : Ever J (throwE e : M α) s P :=
  ⟨hs, fun t ht => by simp at ht, fun b hb => by simp at hb⟩
theorem Ever.reads {m : M α} (hs : J s) (h : Reads m) : Ever J m s (fun _ t => t = s) :=
  ⟨by rw [h.st]; exact hs, fun t ht => (by rw [h.tr] at ht; cases ht), fun _ _ => h.st s⟩
theorem Ever.getSt {k : St → M β} {R : β → St → Prop} (h : Ever J (k s) s R) : Ever J (getSt >>= k) s R := ⟨h.fin, h.tr, h.val⟩
theorem Ends.getSt {k : St → M β} {R : β → St → Prop} (h : Ends J (k s) s R) : Ends J (getSt >>= k) s R := ⟨h.fin, h.val⟩
theorem Ever.step {g : St → St} (h : J (g s)) : Ever J (stepM g) s (fun _ t => t = g s) :=
  ⟨h, fun t ht => by simp at ht; subst ht; exact h, fun _ _ => rfl⟩
theorem Ever.vol {g : St → St} (h : J (g s)) : Ever J (volM g) s (fun _ t => t = g s) :=
  ⟨h, fun t ht => by simp at ht, fun _ _ => rfl⟩

theorem Ever.keeps {m : M α} {Q : α → Prop} {P : α → St → Prop} (h : Ever J m s P) (hk : Keeps W tgt m Q) (hs : Rough W s) :
    Ever J m s (fun a t => Rough W t ∧ Q a ∧ P a t) :=
  ⟨h.fin, h.tr, fun a ha => ⟨(hk s hs).fin, (hk s hs).val a ha, h.val a ha⟩⟩
theorem Ends.keeps {m : M α} {Q : α → Prop} {P : α → St → Prop} (h : Ends J m s P) (hk : Keeps W tgt m Q) (hs : Rough W s) :
    Ends J m s (fun a t => Rough W t ∧ Q a ∧ P a t) :=
  ⟨h.fin, fun a ha => ⟨(hk s hs).fin, (hk s hs).val a ha, h.val a ha⟩⟩

/-- A reading step, with what it found. -/
theorem Ever.read {m : M α} {f : α → M β} {Q : α → Prop} {R : β → St → Prop} (hs : J s) (hm : Reads m) (h : At W tgt m s Q)
    (hf : ∀ a, Q a → Ever J (f a) s R) : Ever J (m >>= f) s R :=
  ((Ever.reads hs hm).post ⟨fun a ha => h.val a ha⟩ : Ever J m s (fun a t => Q a ∧ t = s)).bind fun a t _ hq => by
    obtain ⟨hq, rfl⟩ := hq; exact hf a hq
theorem Ends.read {m : M α} {f : α → M β} {Q : α → Prop} {R : β → St → Prop} (hs : J s) (hm : Reads m) (h : At W tgt m s Q)
    (hf : ∀ a, Q a → Ends J (f a) s R) : Ends J (m >>= f) s R :=
  ((Ever.reads hs hm).post ⟨fun a ha => h.val a ha⟩ : Ever J m s (fun a t => Q a ∧ t = s)).ends.bind fun a t _ hq => by
    obtain ⟨hq, rfl⟩ := hq; exact hf a hq
/-- A reading step. -/
theorem Ever.skip {m : M α} {f : α → M β} {R : β → St → Prop} (hs : J s) (hm : Reads m)
    (hf : ∀ a, Ever J (f a) s R) : Ever J (m >>= f) s R :=
  (Ever.reads hs hm).bind fun a t _ hq => by subst hq; exact hf a
theorem Ends.skip {m : M α} {f : α → M β} {R : β → St → Prop} (hs : J s) (hm : Reads m)
    (hf : ∀ a, Ends J (f a) s R) : Ends J (m >>= f) s R :=
  (Ever.reads hs hm).ends.bind fun a t _ hq => by subst hq; exact hf a

theorem Ever.forL {γ : Type} {f : γ → M Unit} {P : St → Prop} : ∀ (l : List γ) {s : St}, J s → P s →
    (∀ x ∈ l, ∀ t, J t → P t → Ever J (f x) t (fun _ u => P u)) → Ever J (forL l f) s (fun _ u => P u) := by
  intro l
  induction l with
  | nil => intro s hs hp _; exact Ever.pure hs hp
  | cons x xs ih =>
    intro s hs hp h
    exact (h x (by simp) s hs hp).bind fun _ t ht hpt => ih ht hpt fun y hy => h y (by simp [hy])
theorem Ends.forL {γ : Type} {f : γ → M Unit} {P : St → Prop} : ∀ (l : List γ) {s : St}, J s → P s →
    (∀ x ∈ l, ∀ t, J t → P t → Ends J (f x) t (fun _ u => P u)) → Ends J (forL l f) s (fun _ u => P u) := by
  intro l
  induction l with
  | nil => intro s hs hp _; exact (Ever.pure hs hp).ends
  | cons x xs ih =>
    intro s hs hp h
    exact (h x (by simp) s hs hp).bind fun _ t ht hpt => ih ht hpt fun y hy => h y (by simp [hy])
theorem Ever.collectL {γ δ : Type} {f : γ → M (List δ)} {P : St → Prop} : ∀ (l : List γ) {s : St}, J s → P s →
    (∀ x ∈ l, ∀ t, J t → P t → Ever J (f x) t (fun _ u => P u)) → Ever J (collectL l f) s (fun _ u => P u) := by
  intro l
  induction l with
  | nil => intro s hs hp _; exact Ever.pure hs hp
  | cons x xs ih =>
    intro s hs hp h
    exact (h x (by simp) s hs hp).bind fun _ t ht hpt => (ih ht hpt fun y hy => h y (by simp [hy])).bind fun _ u hu hpu => Ever.pure hu hpu

/-! ## Steps -/

theorem rdir_same {g : FS} (h : g.rdir = s.fs.rdir) : ∀ r, s.fs.rdir r = true → g.rdir r = true := fun r hr => by rw [h]; exact hr

theorem removeFile_tidy (p : Path) (h : Tidy W s) : Ever (Tidy W) (removeFile p) s (fun _ t => t = s.setFs (s.fs.setTab p none)) := by
  have key : ∀ q c, (s.fs.setTab p none).read q = some c → s.fs.read q = some c := by
    intro q c hc
    obtain ⟨i, hi, rfl⟩ := FS.read_eq_some.1 hc
    simp only [FS.setTab_tab] at hi
    split at hi
    · cases hi
    · exact FS.read_eq_some.2 ⟨i, hi, rfl⟩
  exact Ever.step (h.setFs (fun d id c _ hc => key _ c hc) (fun r d id c _ hc => key _ c hc) (rdir_same rfl))

/-- Copying onto a file that is no package file. -/
theorem copyFile_tidy {src dst : Path} (hl : Alike src dst) (ho : Off W dst) (hr : Rough W s) (h : Tidy W s) :
    Ever (Tidy W) (copyFile src dst) s (fun _ t => t.db = s.db ∧ t.cache = s.cache ∧ t.pend = s.pend ∧ t.fs.rdir = s.fs.rdir ∧
      ∀ p, p.isAsset = false → W.isDelta p.base = false → t.fs.read p = s.fs.read p) := by
  cases hi : s.fs.tab src with
  | none =>
    have e := copyFile_missing (dst := dst) hi
    refine ⟨?_, ?_, ?_⟩ <;> rw [e]
    · exact h
    · intro t ht; simp at ht
    · intro _ _; exact ⟨rfl, rfl, rfl, rfl, fun _ _ _ => rfl⟩
  | some i =>
    have e := copyFile_run (dst := dst) hi
    have r1 : ∀ p, p.isAsset = false → W.isDelta p.base = false → (s.fs.openTrunc dst).1.read p = s.fs.read p :=
      fun p hp hd => hr.fs.read_openTrunc (ho.owner hp hd)
    have hot := openTrunc_rough (tgt := match dst with | .repo r _ _ => some r | .asset r _ => some r | .stage r _ => some r | _ => none)
      (W := W) hr.fs (dst := dst) (by cases dst <;> simp [Path.inTgt])
    have r2 : ∀ p, p.isAsset = false → W.isDelta p.base = false →
        ((s.fs.openTrunc dst).1.setData (s.fs.openTrunc dst).2 ((s.fs.openTrunc dst).1.data i)).read p = s.fs.read p :=
      fun p hp hd => (hot.1.read_setData _ hot.2.2.2 (ho.owner hp hd)).trans (r1 p hp hd)
    have t1 : Tidy W (s.setFs (s.fs.openTrunc dst).1) :=
      h.setFs (fun d id c hd hc => by rw [r1 (.pool d id) rfl hd] at hc; exact hc) (fun r d id c hd hc => by rw [r1 (.repo r d id) rfl hd] at hc; exact hc)
        (rdir_same (FS.openTrunc_rdir _ _))
    have t2 : Tidy W (s.setFs ((s.fs.openTrunc dst).1.setData (s.fs.openTrunc dst).2 ((s.fs.openTrunc dst).1.data i))) :=
      h.setFs (fun d id c hd hc => by rw [r2 (.pool d id) rfl hd] at hc; exact hc) (fun r d id c hd hc => by rw [r2 (.repo r d id) rfl hd] at hc; exact hc)
        (rdir_same (FS.openTrunc_rdir _ _))
    refine ⟨?_, ?_, ?_⟩ <;> rw [e]
    · exact t2
    · intro t ht
      simp only [List.mem_cons, List.not_mem_nil, or_false] at ht
      rcases ht with rfl | rfl
      · exact t1
      · exact t2
    · intro _ _; exact ⟨rfl, rfl, rfl, FS.openTrunc_rdir _ _, r2⟩

theorem linkOrCopy_tidy {E : Env} {src dst : Path} {b : Bool} (hl : Alike src dst) (ho : Off W dst) (hr : Rough W s) (h : Tidy W s) :
    Ever (Tidy W) (linkOrCopy E src dst b) s (fun _ t => t.db = s.db ∧ t.cache = s.cache) := by
  have hc : Ever (Tidy W) (copyFile src dst) s (fun _ t => t.db = s.db ∧ t.cache = s.cache) :=
    (copyFile_tidy hl ho hr h).mono fun _ _ h => ⟨h.1, h.2.1⟩
  unfold linkOrCopy
  split
  · exact hc
  · refine Ever.getSt ?_
    cases hi : s.fs.tab src with
    | none => exact hc
    | some i =>
      cases hj : s.fs.tab dst with
      | some j => exact hc
      | none =>
        simp only
        split
        · have hx : ∀ p, p.isAsset = false → W.isDelta p.base = false → (s.fs.setTab dst (some i)).read p = s.fs.read p := by
            intro p hp hd
            unfold FS.read
            simp only [FS.setTab_tab]
            rw [if_neg (by rintro rfl; exact ho.owner hp hd rfl)]; rfl
          exact (Ever.step (g := fun s => s.setFs (s.fs.setTab dst (some i))) (h.setFs (g := s.fs.setTab dst (some i))
            (fun d id c hd hc => by rw [hx (.pool d id) rfl hd] at hc; exact hc) (fun r d id c hd hc => by rw [hx (.repo r d id) rfl hd] at hc; exact hc)
            (rdir_same rfl))).mono fun _ t ht => by rw [ht]; exact ⟨rfl, rfl⟩
        · exact hc

/-- What a write to the database must respect. -/
def TWrite (W : World) (s : St) : DbWrite → Prop
  | .putPool _ _ => True
  | .delPool id => W.isDelta id = false → ∀ d, s.fs.read (.pool d id) = none
  | .putSkip _ _ => True
  | .putRepo r => s.fs.rdir r = false ∨ ∃ u, s.db.repos.get r = some u
  | .delRepo r => r ∉ s.cache
  | .putEnt r n e => ∀ d id c, W.isDelta id = false → s.fs.read (.repo r d id) = some c → (∃ e', (s.db.ents r).get n = some e' ∧ id ∈ e'.available) → id ∈ e.available
  | .delEnt r n => ∀ d id c, W.isDelta id = false → s.fs.read (.repo r d id) = some c → ¬ ∃ e', (s.db.ents r).get n = some e' ∧ id ∈ e'.available

theorem TWrite.apply (h : Tidy W s) {w : DbWrite} (hw : TWrite W s w) :
    Tidy W { s with db := w.apply s.db } := by
  cases w with
  | putPool k e =>
    refine ⟨fun d id c hi hc => ?_, h.repo, h.cache, h.pend⟩
    obtain ⟨h1, h2, pe, h3⟩ := h.pool d id c hi hc
    refine ⟨h1, h2, ?_⟩
    show ∃ pe, (s.db.pool.put k e).get id = some pe
    rw [KV.get_put]
    split
    · exact ⟨_, rfl⟩
    · exact ⟨pe, h3⟩
  | delPool k =>
    refine ⟨fun d id c hi hc => ?_, h.repo, h.cache, h.pend⟩
    obtain ⟨h1, h2, pe, h3⟩ := h.pool d id c hi hc
    refine ⟨h1, h2, pe, ?_⟩
    show (s.db.pool.del k).get id = some pe
    rw [KV.get_del, if_neg]
    · exact h3
    · rintro rfl
      have := hw hi d
      rw [this] at hc; cases hc
  | putSkip k e => exact ⟨h.pool, h.repo, h.cache, h.pend⟩
  | putRepo k =>
    refine ⟨h.pool, fun r d id c hi hc => ?_, fun r hm => ?_, h.pend⟩
    · obtain ⟨h1, h2, h3, h4⟩ := h.repo r d id c hi hc
      refine ⟨h1, h2, h3, fun u hu => ?_⟩
      change (s.db.repos.put k ()).get r = some u at hu
      rw [KV.get_put] at hu
      split at hu
      · rename_i e; subst e
        rcases hw with hw | ⟨u', hw⟩
        · rw [hw] at h3; cases h3
        · exact h4 u' hw
      · exact h4 u hu
    · refine ⟨(h.cache r hm).1, ?_⟩
      show ∃ u, (s.db.repos.put k ()).get r = some u
      rw [KV.get_put]
      split
      · exact ⟨_, rfl⟩
      · exact (h.cache r hm).2
  | delRepo k =>
    refine ⟨h.pool, fun r d id c hi hc => ?_, fun r hm => ?_, h.pend⟩
    · obtain ⟨h1, h2, h3, h4⟩ := h.repo r d id c hi hc
      refine ⟨h1, h2, h3, fun u hu => ?_⟩
      change (s.db.repos.del k).get r = some u at hu
      rw [KV.get_del] at hu
      split at hu
      · cases hu
      · exact h4 u hu
    · refine ⟨(h.cache r hm).1, ?_⟩
      show ∃ u, (s.db.repos.del k).get r = some u
      rw [KV.get_del, if_neg]
      · exact (h.cache r hm).2
      · rintro rfl; exact hw hm
  | putEnt r' k e =>
    refine ⟨h.pool, fun r d id c hi hc => ?_, h.cache, h.pend⟩
    obtain ⟨h1, h2, h3, h4⟩ := h.repo r d id c hi hc
    refine ⟨h1, h2, h3, fun u hu => ?_⟩
    obtain ⟨n, e', hg, hm⟩ := h4 u hu
    by_cases hx : r = r' ∧ n = k
    · obtain ⟨rfl, rfl⟩ := hx
      refine ⟨n, e, ?_, hw d id c hi hc ⟨e', hg, hm⟩⟩
      simp [DbWrite.apply, setEnts, KV.get_put]
    · refine ⟨n, e', ?_, hm⟩
      simp only [DbWrite.apply, setEnts]
      split
      · rename_i hr'
        rw [KV.get_put, if_neg (fun hn => hx ⟨hr', hn⟩), ← hr']; exact hg
      · exact hg
  | delEnt r' k =>
    refine ⟨h.pool, fun r d id c hi hc => ?_, h.cache, h.pend⟩
    obtain ⟨h1, h2, h3, h4⟩ := h.repo r d id c hi hc
    refine ⟨h1, h2, h3, fun u hu => ?_⟩
    obtain ⟨n, e', hg, hm⟩ := h4 u hu
    have hx : ¬ (r = r' ∧ n = k) := by
      rintro ⟨rfl, rfl⟩
      exact hw d id c hi hc ⟨e', hg, hm⟩
    refine ⟨n, e', ?_, hm⟩
    simp only [DbWrite.apply, setEnts]
    split
    · rename_i hr'
      rw [KV.get_del, if_neg (fun hn => hx ⟨hr', hn⟩), ← hr']; exact hg
    · exact hg

theorem dbWrite_tidy {w : DbWrite} (hw : TWrite W s w) (h : Tidy W s) :
    Ever (Tidy W) (dbWrite .direct w) s (fun _ t => t = { s with db := w.apply s.db }) := by
  unfold dbWrite
  split
  · exact Ever.throw h
  · exact Ever.step (TWrite.apply h hw)

theorem dbQueue_tidy {w : DbWrite} (hw : ∀ id, w = .delPool id → W.isDelta id = false → ∀ d, s.fs.read (.pool d id) = none) (h : Tidy W s) :
    Ever (Tidy W) (dbWrite .batch w) s (fun _ t => t = { s with pend := s.pend ++ [w] }) := by
  unfold dbWrite
  split
  · exact Ever.throw h
  · refine Ever.vol ⟨h.pool, h.repo, h.cache, ?_⟩
    intro id hm hi
    rcases List.mem_append.1 hm with hx | hx
    · exact h.pend id hx hi
    · simp at hx; exact hw id hx.symm hi

/-! ## Programs that only look, and publish -/

/-- Nothing of what `Tidy` is about has changed. -/
structure Quiet (s t : St) : Prop where
  db : t.db = s.db
  cache : t.cache = s.cache
  pend : t.pend = s.pend
  read : t.fs.read = s.fs.read
  rdir : t.fs.rdir = s.fs.rdir

theorem Quiet.refl (s : St) : Quiet s s := ⟨rfl, rfl, rfl, rfl, rfl⟩
theorem Quiet.tidy {t : St} (h : Quiet s t) (hs : Tidy W s) : Tidy W t := by
  refine ⟨?_, ?_, ?_, ?_⟩
  · rw [h.db, h.read]; exact hs.pool
  · unfold Has Lists; rw [h.db, h.read, h.rdir]; exact hs.repo
  · rw [h.db, h.cache, h.rdir]; exact hs.cache
  · rw [h.pend, h.read]; exact hs.pend

theorem indexRepo_tidy (E : Env) (rid : Str) (h : Tidy W s) : Ever (Tidy W) (indexRepo E rid) s (fun _ t => Quiet s t) := by
  refine Ever.skip h (initDistribution_reads _ _) fun dist => Ever.skip h (emitIndex_reads _ _ _) fun doc => Ever.getSt ?_
  have q1 : Quiet s { s with clock := s.clock + 1 } := ⟨rfl, rfl, rfl, rfl, rfl⟩
  refine (Ever.vol (g := fun s => { s with clock := s.clock + 1 }) (q1.tidy h)).bind fun _ t ht he => ?_
  subst he
  have hp : Ever (Tidy W) (stepM fun s' => s'.setFs { s'.fs with idx := fun r => if r = rid then some doc else s'.fs.idx r })
      { s with clock := s.clock + 1 } (fun _ t => Quiet s t) := by
    have q2 : Quiet s (({ s with clock := s.clock + 1 } : St).setFs { s.fs with idx := fun r => if r = rid then some doc else s.fs.idx r }) :=
      ⟨rfl, rfl, rfl, rfl, rfl⟩
    exact (Ever.step (q2.tidy h)).mono fun _ t ht => by rw [ht]; exact q2
  cases E.indexIO s.clock with
  | failBefore => exact Ever.throw ht
  | ok => exact hp
  | failAfter => exact hp.bind fun _ t ht _ => Ever.throw ht

/-! ## Repositories -/

theorem bakeRepo_tidy (rid : Str) (h : Tidy W s) :
    Ever (Tidy W) (bakeRepo rid) s (fun _ t => t.db = s.db ∧ t.cache = s.cache ∧ t.fs.rdir rid = true ∧ t.fs.read = s.fs.read) := by
  refine (Ever.step (h.setFs (g := { s.fs with rdir := fun r => if r = rid then true else s.fs.rdir r }) (fun _ _ _ _ h => h) (fun _ _ _ _ _ h => h) ?_)).mono ?_
  · intro r hr; simp only; split
    · rfl
    · exact hr
  · intro _ t ht; rw [ht]; exact ⟨rfl, rfl, by simp, rfl⟩

theorem cached_tidy {rid : Str} (h : Tidy W s) (hd : s.fs.rdir rid = true) (hr : ∃ u, s.db.repos.get rid = some u) :
    Tidy W { s with cache := rid :: s.cache } := by
  refine ⟨h.pool, h.repo, fun r hm => ?_, h.pend⟩
  rcases List.mem_cons.1 hm with rfl | hm
  · exact ⟨hd, hr⟩
  · exact h.cache r hm

theorem getRepo_tidy (rid : Str) (h : Tidy W s) : Ever (Tidy W) (getRepo rid) s (fun _ t => rid ∈ t.cache ∧ (∀ r ∈ s.cache, r ∈ t.cache) ∧ t.db = s.db ∧ t.fs.read = s.fs.read) := by
  refine Ever.getSt ?_
  split
  · rename_i hc; exact Ever.pure h ⟨hc, fun _ h => h, rfl, rfl⟩
  · cases hg : s.db.repos.get rid with
    | none => exact Ever.throw h
    | some u =>
      refine (bakeRepo_tidy rid h).bind fun _ t ht hp => ?_
      obtain ⟨h1, h2, h3, h4⟩ := hp
      refine (Ever.vol (g := fun s => { s with cache := rid :: s.cache }) (cached_tidy ht h3 (by rw [h1]; exact ⟨u, hg⟩))).mono fun _ t' he => ?_
      rw [he]; exact ⟨by simp, fun r hr => by simp [h2, hr], h1, h4⟩

theorem createRepo_tidy (rid : Str) (h : Tidy W s) : Ever (Tidy W) (createRepo rid) s (fun _ t => rid ∈ t.cache ∧ (∀ r ∈ s.cache, r ∈ t.cache)) := by
  refine Ever.getSt ?_
  have k : Ever (Tidy W) (if s.fs.rdir rid then throwE .artifacts
    else do
      dbWrite .direct (.putRepo rid)
      bakeRepo rid
      volM (fun s => { s with cache := rid :: s.cache })) s (fun _ t => rid ∈ t.cache ∧ (∀ r ∈ s.cache, r ∈ t.cache)) := by
    split
    · exact Ever.throw h
    · rename_i hd
      refine (dbWrite_tidy (w := .putRepo rid) (.inl (by simpa using hd)) h).bind fun _ t ht he => ?_
      refine (bakeRepo_tidy rid ht).bind fun _ t' ht' hp => ?_
      obtain ⟨h1, h2, h3, _⟩ := hp
      refine (Ever.vol (g := fun s => { s with cache := rid :: s.cache }) (cached_tidy ht' h3 ?_)).mono fun _ t'' he' => ?_
      · rw [h1, he]; exact ⟨(), by simp [DbWrite.apply, KV.get_put]⟩
      · rw [he']; exact ⟨by simp, fun r hr => by simp [h2, he, hr]⟩
  cases (getRepo rid s).res with
  | ok _ => exact (getRepo_tidy rid h).bind fun _ t ht _ => Ever.throw ht
  | err _ => exact k
  | panic => exact k

theorem mIndex_tidy (E : Env) (rid : Str) (h : Tidy W s) : Ever (Tidy W) (mIndex E rid) s (fun _ _ => True) :=
  (getRepo_tidy rid h).bind fun _ _ ht _ => (indexRepo_tidy E rid ht).mono fun _ _ _ => trivial

/-! ## Removing -/

/-- Files have gone, none has come or changed; listings are as they were. -/
structure Less (s t : St) : Prop where
  ents : t.db.ents = s.db.ents
  repos : t.db.repos = s.db.repos
  cache : t.cache = s.cache
  files : ∀ p c, t.fs.read p = some c → s.fs.read p = some c

theorem Less.refl (s : St) : Less s s := ⟨rfl, rfl, rfl, fun _ _ h => h⟩
theorem Less.trans {t u : St} (h : Less s t) (k : Less t u) : Less s u :=
  ⟨k.ents.trans h.ents, k.repos.trans h.repos, k.cache.trans h.cache, fun p c hc => h.files p c (k.files p c hc)⟩
theorem Less.gone {t : St} (h : Less s t) {p : Path} (hp : s.fs.read p = none) : t.fs.read p = none := by
  cases hc : t.fs.read p with
  | none => rfl
  | some c => rw [h.files p c hc] at hp; cases hp

theorem less_removed (s : St) (p : Path) : Less s (s.setFs (s.fs.setTab p none)) := by
  refine ⟨rfl, rfl, rfl, fun q c hc => ?_⟩
  obtain ⟨i, hi, rfl⟩ := FS.read_eq_some.1 hc
  simp only [St.setFs_fs, FS.setTab_tab] at hi
  split at hi
  · cases hi
  · exact FS.read_eq_some.2 ⟨i, hi, rfl⟩

theorem removed_read (s : St) (p : Path) : (s.setFs (s.fs.setTab p none)).fs.read p = none := by simp [FS.read]

theorem poolComp {id : Str} {pe : PoolEntry} (h : RPool W id pe) {c : Str} (hc : pathComp? pe.pkg.source = some c) : W.compOf id = some c := by
  rw [h.pkg] at hc; exact hc

theorem unrefEntry_tidy (ok : W.OK) (hd : Handle) (id : Str) (hr : Rough W s) (h : Tidy W s) : Ever (Tidy W) (unrefEntry hd id) s (fun _ t => Less s t) := by
  refine Ever.read (tgt := none) h (poolGet_reads id) (poolGet_at id hr) fun pe hpe => ?_
  have key : ∀ {t : St} (w : DbWrite), Less s t → Tidy W t → (∀ d : DB, (w.apply d).ents = d.ents ∧ (w.apply d).repos = d.repos) → TWrite W t w →
      (∀ id, w = .delPool id → W.isDelta id = false → ∀ d, t.fs.read (.pool d id) = none) → Ever (Tidy W) (dbWrite hd w) t (fun _ u => Less s u) := by
    intro t w hl ht hw htw hq
    cases hd with
    | direct => exact (dbWrite_tidy htw ht).mono fun _ u hu => hl.trans (by rw [hu]; exact ⟨(hw _).1, (hw _).2, rfl, fun _ _ h => h⟩)
    | batch => exact (dbQueue_tidy hq ht).mono fun _ u hu => hl.trans (by rw [hu]; exact ⟨rfl, rfl, rfl, fun _ _ h => h⟩)
  split
  · exact key _ (Less.refl s) h (fun d => ⟨rfl, rfl⟩) trivial (fun _ h => by cases h)
  · refine Ever.read (tgt := none) h (pathComp_reads _) (pathComp_keeps (hpe.2.src ok) s hr) fun c hc => ?_
    have hcomp := poolComp hpe.2 hc
    refine (removeFile_tidy (.pool c id) h).bind fun _ t ht he => ?_
    have hl : Less s t := by rw [he]; exact less_removed s _
    have hn : W.isDelta id = false → ∀ d, t.fs.read (.pool d id) = none := by
      intro hi d
      cases hx : t.fs.read (.pool d id) with
      | none => rfl
      | some c' =>
        have := (h.pool d id c' hi (hl.files _ _ hx)).2.1
        rw [hcomp] at this; cases this
        rw [he, removed_read] at hx; cases hx
    exact key (.delPool id) hl ht (fun d => ⟨rfl, rfl⟩) hn (fun i e => by cases e; exact hn)

theorem removePackageInternal_tidy (ok : W.OK) (hd : Handle) (rid id : Str) (hr : Rough W s) (h : Tidy W s) :
    Ever (Tidy W) (removePackageInternal hd rid id) s (fun _ t => Less s t ∧
      ((∃ pe, s.db.pool.get id = some pe) → W.isDelta id = false → ∀ d, t.fs.read (.repo rid d id) = none)) := by
  have hp : At W none (poolGet? id) s (fun o => o = s.db.pool.get id ∧ ∀ e, o = some e → RPool W id e) := by
    have := poolGet?_keeps (tgt := none) (W := W) id s hr
    exact ⟨this.np, this.fin, this.fsame, this.tr, this.tsame, fun a ha => ⟨by cases ha; rfl, this.val a ha⟩⟩
  refine Ever.read h (poolGet?_reads id) hp fun o ho => ?_
  cases o with
  | none => exact Ever.pure h ⟨Less.refl s, fun ⟨pe, hg⟩ => by rw [← ho.1] at hg; cases hg⟩
  | some e =>
    have hpe := ho.2 e rfl
    refine Ever.read (tgt := none) h (pathComp_reads _) (pathComp_keeps (hpe.src ok) s hr) fun c hc => ?_
    have hcomp := poolComp hpe hc
    refine ((removeFile_tidy (.repo rid c e.name) h).keeps (removeFile_keeps (tgt := some rid) (p := .repo rid c e.name) rfl) hr).bind fun _ t ht he => ?_
    obtain ⟨hrt, _, he⟩ := he
    have hl : Less s t := by rw [he]; exact less_removed s _
    refine (unrefEntry_tidy ok hd id hrt ht).mono fun _ u hu => ⟨hl.trans hu, fun _ hi d => hu.gone ?_⟩
    cases hx : t.fs.read (.repo rid d id) with
    | none => rfl
    | some c' =>
      have := (h.repo rid d id c' hi (hl.files _ _ hx)).2.1
      rw [hcomp] at this; cases this
      rw [he, hpe.name, removed_read] at hx; cases hx

theorem unrefDeltas_tidy (ok : W.OK) (rid pkgID : Str) (ds : List Str) (hr : Rough W s) (h : Tidy W s) :
    Ever (Tidy W) (unrefDeltas rid pkgID ds) s (fun _ t => Rough W t ∧ Less s t) := by
  refine Ever.collectL (P := fun t => Rough W t ∧ Less s t) ds h ⟨hr, Less.refl s⟩ fun d _ t ht hp => ?_
  refine Ever.skip ht (poolGet_reads d) fun pd => ?_
  cases pd.delta with
  | none => exact (Ever.reads ht Reads.panic).mono fun _ _ e => by rw [e]; exact hp
  | some di =>
    simp only
    split
    · refine ((removePackageInternal_tidy ok .direct rid pd.name hp.1 ht).keeps (removePackageInternal_keeps ok .direct rid pd.name) hp.1).bind fun _ u hu hq => ?_
      exact Ever.pure hu ⟨hq.1, hp.2.trans hq.2.2.1⟩
    · exact Ever.pure ht hp

theorem unrefPackage_tidy (ok : W.OK) (rid id : Str) (hr : Rough W s) (h : Tidy W s) : Ever (Tidy W) (unrefPackage rid id) s (fun _ _ => True) := by
  refine Ever.read (tgt := none) h (poolGet_reads id) (poolGet_at id hr) fun pe hpe => ?_
  refine Ever.read (tgt := none) h (repoGet_reads rid _) (repoGet_at rid _ hr) fun e he => ?_
  refine ((removePackageInternal_tidy ok .direct rid id hr h).keeps (removePackageInternal_keeps ok .direct rid id) hr).bind fun _ t ht hp => ?_
  obtain ⟨hrt, _, hl, hgone⟩ := hp
  refine (unrefDeltas_tidy ok rid id e.deltas hrt ht).bind fun ds u hu hq => ?_
  obtain ⟨hru, hl2⟩ := hq
  have hlu := hl.trans hl2
  have hav := unrefAvail_keeps (tgt := none) ok e.available [] (0, [], []) (pkgID := id) ⟨rfl, fun _ => rfl, fun h => absurd rfl h⟩ (fun x hx => (he.2.avail x hx).2.1) u hru
  refine Ever.read hu (unrefAvail_reads id e.available) hav fun acc hacc => ?_
  have hrest := hacc.rest
  simp only [List.nil_append] at hrest
  have key : ∀ d x c, W.isDelta x = false → u.fs.read (.repo rid d x) = some c →
      (∃ e', (u.db.ents rid).get e.name = some e' ∧ x ∈ e'.available) → x ∈ acc.2.2 := by
    rintro d x c hx hc ⟨e', hg, hm⟩
    rw [hlu.ents, he.2.name, he.1] at hg; cases hg
    rw [hrest, List.mem_filter]
    refine ⟨hm, by
      simp only [decide_not, Bool.not_eq_true', decide_eq_false_iff_not]
      rintro rfl
      have := hl2.gone (hgone ⟨pe, hpe.1⟩ hx d)
      rw [this] at hc; cases hc⟩
  split
  · rename_i hlen
    refine (dbWrite_tidy (w := .delEnt rid e.name) (fun d x c hx hc hm => ?_) hu).mono fun _ _ _ => trivial
    have := key d x c hx hc hm
    rw [List.length_eq_zero_iff.1 (show acc.2.2.length = 0 by omega)] at this
    cases this
  · refine (dbWrite_tidy (w := .putEnt rid e.name { e with deltas := sortS ds, available := sortS acc.2.2, published := acc.2.1 }) (fun d x c hx hc hm => ?_) hu).mono fun _ _ _ => trivial
    simp only [mem_sortS]
    exact key d x c hx hc hm


end Ferryd
