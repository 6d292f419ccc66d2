import Verif.PropsStock
/-!
# CoreRetry: what becomes of a package put into a repository, in any state a history of crashes can leave

`AddPackage` and `RefPackage` are run in an arbitrary `Rough` state.  What is served afterwards depends on which of the files involved
exist, whether they are hard links of each other, and what is recorded.
-/
namespace Ferryd
open Spec
section
variable {W : World} {s : St} {α β : Type}

/-- Two paths are hard links of one file. (No code: specification.) -/
def Spec.Linked (s : St) (p q : Path) : Prop := ∃ i, s.fs.tab p = some i ∧ s.fs.tab q = some i

/-- `dst` received what `src` held; other paths are where they were, and hold what they held, unless they are links of `dst`. (No code: specification.) -/
structure Puts (fs fs' : FS) (src dst : Path) (c : Content) : Prop where
  tab : ∀ q, q ≠ dst → fs'.tab q = fs.tab q
  got : fs'.read dst = some c
  read : ∀ q, q ≠ dst → fs'.read q = fs.read q ∨ ((∃ j, fs.tab dst = some j ∧ fs.tab q = some j) ∧ fs'.read q = some c)
  rdir : fs'.rdir = fs.rdir
  idx : fs'.idx = fs.idx

theorem linkOrCopy_onto (E : Env) {src dst : Path} {i j : Nat} (hi : s.fs.tab src = some i) (hj : s.fs.tab dst = some j) :
    ∃ tr, linkOrCopy E src dst false s = ⟨.ok (), s.setFs (s.fs.setData j (if i = j then [] else s.fs.data i)), tr⟩ := by
  have e : linkOrCopy E src dst false s = copyFile src dst s := by
    unfold linkOrCopy
    simp only [Bool.false_eq_true, if_false, getSt_bind, hi, hj]
  rw [e, copyFile_run hi]
  rw [FS.openTrunc_some hj]
  have h2 : (s.fs.setData j []).setData j ((s.fs.setData j []).data i) = s.fs.setData j (if i = j then [] else s.fs.data i) := by
    simp only [FS.setData]
    congr 1
    funext k
    by_cases hk : k = j
    · simp only [if_pos hk]
    · simp only [if_neg hk]
  simp only [h2]
  exact ⟨_, rfl⟩

theorem linkOrCopy_puts (E : Env) {src dst : Path} {c : Content} (hf : s.fs.Fresh) (hs : s.fs.read src = some c) (hn : ¬ Spec.Linked s src dst) :
    ∃ fs' tr, linkOrCopy E src dst false s = ⟨.ok (), s.setFs fs', tr⟩ ∧ Puts s.fs fs' src dst c ∧
      (∃ j, fs'.tab dst = some j ∧ (s.fs.tab dst = some j ∨ s.fs.tab dst = none ∧ (E.linkOk src dst = true ∧ s.fs.tab src = some j ∨
        E.linkOk src dst = false ∧ s.fs.next ≤ j))) := by
  obtain ⟨i, hi, rfl⟩ := FS.read_eq_some.1 hs
  cases hj : s.fs.tab dst with
  | none =>
    by_cases hl : E.linkOk src dst = true
    · refine ⟨s.fs.setTab dst (some i), [s.setFs (s.fs.setTab dst (some i))], ?_, ?_, ?_⟩
      · unfold linkOrCopy
        simp only [Bool.false_eq_true, if_false, getSt_bind, hi, hj, hl, if_true, stepM_run]
      · refine ⟨fun q hq => by simp [hq], by simp [FS.read], fun q hq => .inl (by simp [FS.read, hq]), rfl, rfl⟩
      · exact ⟨i, by simp, .inr ⟨rfl, .inl ⟨hl, hi⟩⟩⟩
    · have hl' : E.linkOk src dst = false := by simpa using hl
      have e : linkOrCopy E src dst false s = copyFile src dst s := by
        unfold linkOrCopy
        simp only [Bool.false_eq_true, if_false, getSt_bind, hi, hj, hl']
      have hlt := hf src i hi
      rw [e, copyFile_run hi, FS.openTrunc_none hj]
      have hd : ((s.fs.fresh_ dst []).data i) = s.fs.data i := by
        show (if i = s.fs.next then _ else _) = _
        rw [if_neg (by omega)]; rfl
      refine ⟨_, _, rfl, ?_, ?_⟩
      · have ht : ∀ q, q ≠ dst → (s.fs.fresh_ dst []).tab q = s.fs.tab q := by
          intro q hq
          show (if q = dst then _ else _) = _
          rw [if_neg hq]
        have htd : (s.fs.fresh_ dst []).tab dst = some s.fs.next := by
          show (if dst = dst then _ else _) = _
          rw [if_pos rfl]
        refine ⟨fun q hq => ht q hq, ?_, fun q hq => .inl ?_, rfl, rfl⟩
        · show Option.map _ ((s.fs.fresh_ dst []).tab dst) = _
          rw [htd]
          simp only [Option.map_some, FS.setData_data, if_true]
          exact congrArg some hd
        · show Option.map _ ((s.fs.fresh_ dst []).tab q) = Option.map _ (s.fs.tab q)
          rw [ht q hq]
          cases hq' : s.fs.tab q with
          | none => rfl
          | some k =>
            have := hf q k hq'
            simp only [Option.map_some, FS.setData_data]
            rw [if_neg (by omega)]
            show some (if k = s.fs.next then _ else _) = _
            rw [if_neg (by omega)]; rfl
      · refine ⟨s.fs.next, ?_, .inr ⟨rfl, .inr ⟨hl', Nat.le_refl _⟩⟩⟩
        show (if dst = dst then _ else _) = _
        rw [if_pos rfl]
  | some j =>
    obtain ⟨tr, e⟩ := linkOrCopy_onto E hi hj
    have hij : i ≠ j := by rintro rfl; exact hn ⟨i, hi, hj⟩
    rw [if_neg hij] at e
    refine ⟨_, tr, e, ⟨fun q _ => rfl, ?_, fun q _ => ?_, rfl, rfl⟩, j, hj, .inl rfl⟩
    · simp [FS.read, hj]
    · by_cases hq : s.fs.tab q = some j
      · exact .inr ⟨⟨j, hj, hq⟩, by simp [FS.read, hq]⟩
      · refine .inl ?_
        cases hq' : s.fs.tab q with
        | none => simp [FS.read, hq']
        | some k =>
          have : k ≠ j := by rintro rfl; exact hq hq'
          simp [FS.read, hq', this]

/-! ## Putting the file of a pool package into a repository and listing it -/

theorem place_out (E : Env) {r c id : Str} {ne : RepoEntry} (hres : reservedKey ne.name = false) (hf : s.fs.Fresh) :
    ∃ fs' tr, (do linkOrCopy E (.pool c id) (.repo r c id) false; repoPut r ne : M Unit) s =
      ⟨.ok (), { s.setFs fs' with db := (DbWrite.putEnt r ne.name ne).apply s.db }, tr⟩ ∧
      (s.fs.tab (.pool c id) = none ∧ fs' = s.fs ∨
       Spec.Linked s (.pool c id) (.repo r c id) ∧ fs'.read (.repo r c id) = some [] ∧ (∃ j, s.fs.tab (.repo r c id) = some j ∧ fs' = s.fs.setData j []) ∨
       ¬ Spec.Linked s (.pool c id) (.repo r c id) ∧ ∃ y, s.fs.read (.pool c id) = some y ∧ Puts s.fs fs' (.pool c id) (.repo r c id) y) := by
  have hput : ∀ t : St, repoPut r ne t = ⟨.ok (), { t with db := (DbWrite.putEnt r ne.name ne).apply t.db }, [{ t with db := (DbWrite.putEnt r ne.name ne).apply t.db }]⟩ := by
    intro t
    unfold repoPut dbWrite
    rw [if_neg (by simp [DbWrite.key, hres])]; rfl
  have fin : ∀ {fs' tr}, linkOrCopy E (.pool c id) (.repo r c id) false s = ⟨.ok (), s.setFs fs', tr⟩ →
      ∃ tr', (do linkOrCopy E (.pool c id) (.repo r c id) false; repoPut r ne : M Unit) s =
        ⟨.ok (), { s.setFs fs' with db := (DbWrite.putEnt r ne.name ne).apply s.db }, tr'⟩ := by
    intro fs' tr he
    rw [bind_ok he, hput]
    exact ⟨_, rfl⟩
  cases hi : s.fs.tab (.pool c id) with
  | none =>
    obtain ⟨tr', h⟩ := fin (fs' := s.fs) (tr := []) (linkOrCopy_missing hi)
    exact ⟨_, tr', h, .inl ⟨rfl, rfl⟩⟩
  | some i =>
    by_cases hl : Spec.Linked s (.pool c id) (.repo r c id)
    · obtain ⟨j, h1, h2⟩ := hl
      obtain ⟨tr, he⟩ := linkOrCopy_onto E h1 h2
      obtain ⟨tr', h⟩ := fin he
      exact ⟨_, tr', h, .inr (.inl ⟨⟨j, h1, h2⟩, by simp [FS.read, h2], j, h2, by rw [if_pos rfl]⟩)⟩
    · obtain ⟨fs', tr, he, hp, _⟩ := linkOrCopy_puts E hf (FS.read_eq_some.2 ⟨i, hi, rfl⟩) hl
      obtain ⟨tr', h⟩ := fin he
      exact ⟨_, tr', h, .inr (.inr ⟨hl, _, FS.read_eq_some.2 ⟨i, hi, rfl⟩, hp⟩)⟩

/-- Only the record and the files of package `id`, and what repository `r` lists, are touched, and no upload is moved. (No code: specification.) -/
structure Beside (s t : St) (r id : Str) : Prop where
  other : ∀ x, x ≠ r → t.db.ents x = s.db.ents x
  pool : ∀ y, y ≠ id → t.db.pool.get y = s.db.pool.get y
  repos : t.db.repos = s.db.repos
  tab : ∀ q, q.isAsset = true ∨ q.base ≠ id ∨ (∃ f, q = .ext f) → t.fs.tab q = s.fs.tab q
  read : ∀ q, q.isAsset = true ∨ q.base ≠ id → t.fs.read q = s.fs.read q
  clock : t.clock = s.clock

theorem Beside.refl (s : St) (r id : Str) : Beside s s r id :=
  ⟨fun _ _ => rfl, fun _ _ => rfl, rfl, fun _ _ => rfl, fun _ _ => rfl, rfl⟩
theorem Beside.trans {t u : St} {r id : Str} (h : Beside s t r id) (k : Beside t u r id) : Beside s u r id := by
  refine ⟨fun x hx => (k.other x hx).trans (h.other x hx), fun y hy => (k.pool y hy).trans (h.pool y hy), k.repos.trans h.repos,
    fun q hq => (k.tab q hq).trans (h.tab q hq), fun q hq => (k.read q hq).trans (h.read q hq), k.clock.trans h.clock⟩

/-- Repository `r` now lists `id`. (No code: specification.) -/
structure Landed (W : World) (s t : St) (r id : Str) : Prop extends Beside s t r id where
  has : ∀ x y, Has t x y ↔ Has s x y ∨ (x = r ∧ y = id)
  entry : ∀ n, n ≠ nameOf W id → (t.db.ents r).get n = (s.db.ents r).get n

/-- Whether putting package `id`, which is recorded in the pool, into repository `r` gives a whole file: it is listed already, with its file
whole; or the pool file is whole and the file in the repository, if there is one, is not a hard link of it. (If there is no pool file, a whole
file in the repository is left as it is: util.go:40-42.) -/
def Spec.RefReady (W : World) (s : St) (r id : Str) : Prop :=
  Has s r id ∧ ServedAs W s r id (W.canon id) ∨
  ¬ Has s r id ∧ ∃ d, dirOf W id = some d ∧
    (s.fs.read (.pool d id) = some (W.canon id) ∧ ¬ Spec.Linked s (.pool d id) (.repo r d id) ∨
     s.fs.read (.pool d id) = none ∧ s.fs.read (.repo r d id) = some (W.canon id))

/-- Whether importing the upload `f` into repository `r` gives a whole file. (No code: specification.) -/
def Spec.Ready (W : World) (s : St) (r f : Str) : Prop :=
  (InPool s (baseName f) ∨ Has s r (baseName f)) ∧ Spec.RefReady W s r (baseName f) ∨
  ¬ InPool s (baseName f) ∧ ¬ Has s r (baseName f) ∧ ∃ d, dirOf W (baseName f) = some d ∧
    ¬ Spec.Linked s (.ext f) (.pool d (baseName f)) ∧ ¬ Spec.Linked s (.pool d (baseName f)) (.repo r d (baseName f)) ∧
    (s.fs.read (.pool d (baseName f)) = none → W.E.linkOk (.ext f) (.pool d (baseName f)) = true →
      ¬ Spec.Linked s (.ext f) (.repo r d (baseName f)))

theorem has_putEnt {r n id : Str} {ne : RepoEntry} (hn : ne.name = n)
    (hav : ∀ x, x ∈ ne.available ↔ x = id ∨ ∃ e, (s.db.ents r).get n = some e ∧ x ∈ e.available) {t : St}
    (ht : t.db.ents = ((DbWrite.putEnt r ne.name ne).apply s.db).ents) (x y : Str) : Has t x y ↔ Has s x y ∨ (x = r ∧ y = id) := by
  unfold Has Lists
  rw [ht]
  simp only [DbWrite.apply, setEnts]
  by_cases hx : x = r
  · subst hx
    simp only [if_true, true_and]
    constructor
    · rintro ⟨m, e, hg, hy⟩
      rw [KV.get_put] at hg
      split at hg
      · cases hg
        rcases (hav y).1 hy with rfl | ⟨e, h1, h2⟩
        · exact .inr rfl
        · exact .inl ⟨n, e, h1, h2⟩
      · exact .inl ⟨m, e, hg, hy⟩
    · rintro (⟨m, e, hg, hy⟩ | rfl)
      · by_cases hm : m = n
        · subst hm
          refine ⟨ne.name, ne, by rw [KV.get_put, if_pos rfl], (hav y).2 (.inr ⟨e, hg, hy⟩)⟩
        · refine ⟨m, e, ?_, hy⟩
          rw [KV.get_put, if_neg (by rw [hn]; exact hm)]; exact hg
      · exact ⟨ne.name, ne, by rw [KV.get_put, if_pos rfl], (hav y).2 (.inl rfl)⟩
  · simp only [hx, false_and, or_false, if_false]

theorem Puts.beside {fs' : FS} {src dst : Path} {r id : Str} {y : Content} (h : Puts s.fs fs' src dst y) (hr : RFiles W s.fs) (ha : dst.isAsset = false)
    (hb : dst.base = id) (hn : ∀ f, dst ≠ .ext f) : Beside s (s.setFs fs') r id := by
  have hbase : ∀ q, (∃ j, s.fs.tab dst = some j ∧ s.fs.tab q = some j) → q.isAsset = false ∧ q.base = id := by
    rintro q ⟨j, h1, h2⟩
    have := hr.owner dst q j h1 h2
    cases dst <;> cases q <;> simp_all [Path.owner, Path.isAsset, Path.base]
  have hne : ∀ q : Path, q.isAsset = true ∨ q.base ≠ id → q ≠ dst := by
    rintro q hq rfl
    rcases hq with hq | hq
    · rw [ha] at hq; cases hq
    · exact hq hb
  refine ⟨fun _ _ => rfl, fun _ _ => rfl, rfl, fun q hq => ?_, fun q hq => ?_, rfl⟩
  · refine h.tab q ?_
    rcases hq with hq | hq | ⟨f, rfl⟩
    · exact hne q (.inl hq)
    · exact hne q (.inr hq)
    · exact (hn f).symm
  · rcases h.read q (hne q hq) with e | ⟨e, _⟩
    · exact e
    · have := hbase q e
      rcases hq with hq | hq
      · rw [this.1] at hq; cases hq
      · exact absurd this.2 hq

/-- Every file under a package's name that held the package whole still does. (No code: specification.) -/
structure Spec.Unhurt (W : World) (s t : St) : Prop where
  whole : ∀ q : Path, q.isAsset = false → s.fs.read q = some (W.canon q.base) → t.fs.read q = some (W.canon q.base)

theorem Spec.Unhurt.of_fs {t : St} (h : t.fs.read = s.fs.read) : Unhurt W s t := ⟨fun q _ hq => by rw [h]; exact hq⟩
theorem Spec.Unhurt.trans {t u : St} (h : Unhurt W s t) (k : Unhurt W t u) : Unhurt W s u := ⟨fun q hq hr => k.whole q hq (h.whole q hq hr)⟩

theorem Puts.unhurt {fs' : FS} {src dst : Path} {id : Str} (h : Puts s.fs fs' src dst (W.canon id)) (hr : RFiles W s.fs) (ha : dst.isAsset = false)
    (hb : dst.base = id) : Unhurt W s (s.setFs fs') := by
  refine ⟨fun q hq hrd => ?_⟩
  by_cases e : q = dst
  · subst e; rw [hb]; exact h.got
  · rcases h.read q e with e | ⟨⟨j, h1, h2⟩, e⟩
    · show fs'.read q = _
      rw [e]; exact hrd
    · have := hr.owner dst q j h1 h2
      have hqb : q.base = id := by
        cases dst <;> cases q <;> simp_all [Path.owner, Path.isAsset, Path.base]
      rw [hqb]; exact e

theorem putEnt_beside (r id : Str) {ne : RepoEntry} : Beside s { s with db := (DbWrite.putEnt r ne.name ne).apply s.db } r id :=
  ⟨fun x hx => by simp [DbWrite.apply, setEnts, hx], fun _ _ => rfl, rfl, fun _ _ => rfl, fun _ _ => rfl, rfl⟩

theorem emptied_beside {q0 : Path} {j : Nat} {r id : Str} (hr : RFiles W s.fs) (hj : s.fs.tab q0 = some j) (ha : q0.isAsset = false) (hb : q0.base = id) :
    Beside s (s.setFs (s.fs.setData j [])) r id := by
  refine ⟨fun _ _ => rfl, fun _ _ => rfl, rfl, fun q hq => rfl, fun q hq => ?_, rfl⟩
  have : q.owner ≠ q0.owner := by
    intro e
    cases q0 <;> cases q <;> simp_all [Path.owner, Path.isAsset, Path.base]
  exact hr.read_setData _ hj this

/-- Which file is served after the package was put in place. -/
theorem place_landed (ok : W.OK) {r c id n : Str} {ne : RepoEntry} (hc : dirOf W id = some c) (hp : W.IsPkg id) (hne : REntry W ne.name ne) (hn : ne.name = n)
    (hav : ∀ x, x ∈ ne.available ↔ x = id ∨ ∃ e, (s.db.ents r).get n = some e ∧ x ∈ e.available) (hr : Rough W s) :
    ∃ t tr, (do linkOrCopy W.E (.pool c id) (.repo r c id) false; repoPut r ne : M Unit) s = ⟨.ok (), t, tr⟩ ∧ Landed W s t r id ∧
      (ServedAs W t r id (W.canon id) ↔ s.fs.read (.pool c id) = some (W.canon id) ∧ ¬ Spec.Linked s (.pool c id) (.repo r c id) ∨
        s.fs.read (.pool c id) = none ∧ s.fs.read (.repo r c id) = some (W.canon id)) ∧
      (ServedAs W t r id (W.canon id) → Unhurt W s t) := by
  obtain ⟨fs', tr, he, hcase⟩ := place_out (s := s) W.E (r := r) (c := c) (id := id) (hne.name_resv ok) hr.fs.fresh
  have hb : Beside s (s.setFs fs') r id := by
    rcases hcase with ⟨h1, h2⟩ | ⟨h1, _, j, hj, h2⟩ | ⟨h1, y, h2, h3⟩
    · subst h2; exact Beside.refl s r id
    · subst h2; exact emptied_beside hr.fs hj rfl rfl
    · exact h3.beside hr.fs rfl rfl (by simp)
  have hentry : ∀ m, m ≠ nameOf W id → (((DbWrite.putEnt r ne.name ne).apply s.db).ents r).get m = (s.db.ents r).get m := by
    intro m hm
    have : ne.name = nameOf W id := ((hne.avail id ((hav id).2 (.inl rfl))).2.2).symm
    simp only [DbWrite.apply, setEnts, if_true]
    rw [KV.get_put, if_neg (by rw [this]; exact hm)]
  refine ⟨_, tr, he, { toBeside := hb.trans (putEnt_beside (s := s.setFs fs') r id), has := has_putEnt hn hav rfl, entry := hentry }, ⟨fun hsv => ?_, fun hyp => ⟨c, hc, ?_⟩⟩, fun hsv => ?_⟩
  · obtain ⟨d, hd, hrd⟩ := hsv
    rw [hc] at hd; cases hd
    change fs'.read _ = _ at hrd
    rcases hcase with ⟨h1, h2⟩ | ⟨h1, h2, _⟩ | ⟨h1, y, h2, h3⟩
    · subst h2
      exact .inr ⟨by simp [FS.read, h1], hrd⟩
    · rw [hrd] at h2
      have hcn := Option.some.inj h2
      unfold World.IsPkg at hp
      rw [hcn, ok.parse_nil] at hp; cases hp
    · rw [h3.got] at hrd
      exact .inl ⟨by rw [h2]; exact hrd, h1⟩
  · show fs'.read _ = _
    rcases hcase with ⟨h1, h2⟩ | ⟨h1, h2, _⟩ | ⟨h1, y, h2, h3⟩
    · subst h2
      rcases hyp with ⟨h, _⟩ | ⟨_, h⟩
      · rw [FS.read, h1] at h; cases h
      · exact h
    · rcases hyp with ⟨_, h⟩ | ⟨h, _⟩
      · exact absurd h1 h
      · obtain ⟨j, hj, _⟩ := h1
        rw [FS.read, hj] at h; cases h
    · rcases hyp with ⟨h, _⟩ | ⟨h, _⟩
      · rw [h3.got, ← h2, h]
      · rw [h2] at h; cases h
  · obtain ⟨d, hd, hrd⟩ := hsv
    rw [hc] at hd; cases hd
    change fs'.read _ = _ at hrd
    rcases hcase with ⟨h1, h2⟩ | ⟨h1, h2, _⟩ | ⟨h1, y, h2, h3⟩
    · subst h2; exact Unhurt.of_fs rfl
    · rw [hrd] at h2
      have hcn := Option.some.inj h2
      unfold World.IsPkg at hp
      rw [hcn, ok.parse_nil] at hp; cases hp
    · rw [h3.got] at hrd
      have hy := Option.some.inj hrd
      subst hy
      exact (h3.unhurt hr.fs rfl rfl).trans (Unhurt.of_fs rfl)

theorem bind_reads {m : M α} {f : α → M β} {a : α} (hm : Reads m) (h : (m s).res = .ok a) : (m >>= f) s = f a s := by
  have e : m s = ⟨(m s).res, (m s).st, (m s).tr⟩ := rfl
  rw [h, hm.st, hm.tr] at e
  rw [bind_ok e]; rfl

theorem run_bind {m : M α} {f : α → M β} {a : α} {t u : St} {x : Res β} {tr tr' : List St} (h1 : m s = ⟨.ok a, t, tr⟩) (h2 : f a t = ⟨x, u, tr'⟩) :
    (m >>= f) s = ⟨x, u, tr ++ tr'⟩ := by
  rw [bind_ok h1, h2]; rfl

theorem sane_wins (ok : W.OK) {r : Str} {m : Meta} {id : Str} (hh : m.history ≠ []) (hr : Rough W s) : ∃ o, (buildSaneEntry r m id s).res = .ok o := by
  have : Wins (buildSaneEntry r m id) s (fun _ _ => True) := by
    unfold buildSaneEntry
    refine Wins.bind (P := fun a t => a = (s.db.ents r).get m.name ∧ t = s) ⟨_, rfl, rfl, rfl⟩ ?_
    rintro a t ⟨rfl, rfl⟩
    cases (t.db.ents r).get m.name with
    | none => exact Wins.pure trivial
    | some e =>
      refine Wins.bind (P := fun _ _ => True) ?_ fun pub u _ => ?_
      · refine Wins.bind (P := fun a u => a = t.db.pool.get e.published ∧ u = t) ⟨_, rfl, rfl, rfl⟩ ?_
        rintro a u ⟨rfl, rfl⟩
        cases hg : u.db.pool.get e.published with
        | none => exact Wins.pure trivial
        | some pa =>
          refine (getRelease_wins hh).bind ?_
          rintro x v ⟨rfl, rfl⟩
          refine (getRelease_wins ((hr.db.pool _ _ hg).hist ok)).bind ?_
          rintro y w ⟨rfl, rfl⟩
          split
          · exact Wins.pure trivial
          · exact Wins.pure trivial
      · split
        · exact Wins.pure trivial
        · exact Wins.pure trivial
  obtain ⟨o, h, _⟩ := this
  exact ⟨o, h⟩

/-- What `buildSaneEntry` gives. -/
theorem sane_out (ok : W.OK) {r id : Str} {m : Meta} (hd : W.isDelta id = false) (hp : W.IsPkg id)
    (hm : m.name = (W.mOf id).name) (hh : m.history ≠ []) (hr : Rough W s) :
    (Has s r id ∧ (buildSaneEntry r m id s).res = .ok none) ∨
    (¬ Has s r id ∧ ∃ ne, (buildSaneEntry r m id s).res = .ok (some ne) ∧ REntry W ne.name ne ∧ ne.name = m.name ∧
      ∀ x, x ∈ ne.available ↔ x = id ∨ ∃ e, (s.db.ents r).get m.name = some e ∧ x ∈ e.available) := by
  obtain ⟨o, ho⟩ := sane_wins (r := r) (id := id) ok hh hr
  have hk := (buildSaneEntry_keeps (tgt := none) (rid := r) ok hd hp hm hh s hr).val o ho
  have hpost := ((buildSaneEntry_post (s := s) r m id).run o ho).2
  have hnew := (buildSaneEntry_new (s := s) r m id).run o ho
  cases o with
  | none =>
    obtain ⟨e, h1, h2⟩ := hpost
    exact .inl ⟨⟨m.name, e, h1, h2⟩, ho⟩
  | some ne => exact .inr ⟨not_has hm hr (hnew ne rfl), ne, ho, hk ne rfl, hpost.1, hpost.2⟩

theorem putPool_beside (r : Str) {id : Str} {e : PoolEntry} : Beside s { s with db := (DbWrite.putPool id e).apply s.db } r id :=
  ⟨fun _ _ => rfl, fun y hy => by simp [DbWrite.apply, KV.get_put, hy], rfl, fun _ _ => rfl, fun _ _ => rfl, rfl⟩

theorem dbWrite_run {w : DbWrite} (h : reservedKey w.key = false) (s : St) :
    dbWrite .direct w s = ⟨.ok (), { s with db := w.apply s.db }, [{ s with db := w.apply s.db }]⟩ := by
  unfold dbWrite
  rw [if_neg (by simp [h])]; rfl

/-- A package recorded in the pool is put into a repository: it always succeeds, and serves a whole file if and only if `RefReady`. -/
theorem refPackage_out (ok : W.OK) {r id : Str} (hd : W.isDelta id = false) (hin : InPool s id) (hr : Rough W s) :
    ∃ t tr, refPackage W.E r id s = ⟨.ok (), t, tr⟩ ∧ Landed W s t r id ∧ (ServedAs W t r id (W.canon id) ↔ RefReady W s r id) ∧
      (RefReady W s r id → Unhurt W s t) := by
  obtain ⟨pe, hg⟩ := hin
  have hpe := hr.db.pool id pe hg
  obtain ⟨c, hc⟩ := ok.comp hpe.isPkg
  have hc' : pathComp? pe.pkg.source = some c := by rw [hpe.pkg]; exact hc
  have h0 : (poolGet id s).res = .ok pe := by
    obtain ⟨a, h1, rfl, _⟩ := poolGet_wins hg; exact h1
  unfold refPackage
  rw [bind_reads (poolGet_reads id) h0, pathComp_bind hc']
  rcases sane_out ok hd hpe.isPkg hpe.pname (hpe.hist ok) hr (r := r) with ⟨hh, ho⟩ | ⟨hh, ne, ho, hne, hnn, hav⟩
  · rw [bind_reads (buildSaneEntry_reads _ _ _) ho]
    refine ⟨s, [], rfl, { toBeside := Beside.refl s r id, has := fun x y => ⟨.inl, by rintro (h | ⟨rfl, rfl⟩); exact h; exact hh⟩, entry := fun _ _ => rfl }, ⟨fun hsv => .inl ⟨hh, hsv⟩, ?_⟩, fun _ => Unhurt.of_fs rfl⟩
    rintro (⟨_, h⟩ | ⟨h, _⟩)
    · exact h
    · exact absurd hh h
  · rw [bind_reads (buildSaneEntry_reads _ _ _) ho]
    have hres : reservedKey pe.name = false := by rw [hpe.name]; exact (ok.gid hpe.isPkg).nres
    have he : refEntry id s = ⟨.ok (), { s with db := (DbWrite.putPool pe.name { pe with refCount := pe.refCount + 1 }).apply s.db },
        [{ s with db := (DbWrite.putPool pe.name { pe with refCount := pe.refCount + 1 }).apply s.db }]⟩ := by
      unfold refEntry
      rw [bind_reads (poolGet_reads id) h0]
      exact dbWrite_run (w := .putPool pe.name _) hres s
    have hrt := (refEntry_keeps (W := W) (tgt := none) id s hr).fin
    rw [he] at hrt
    dsimp only
    rw [bind_ok he]
    obtain ⟨t, tr, hrun, hL, h2, hun⟩ := place_landed (s := { s with db := (DbWrite.putPool pe.name { pe with refCount := pe.refCount + 1 }).apply s.db })
      ok hc hpe.isPkg (n := pe.pkg.name) (r := r) hne hnn hav hrt
    have hpb : Beside s { s with db := (DbWrite.putPool pe.name { pe with refCount := pe.refCount + 1 }).apply s.db } r id := by
      rw [hpe.name]; exact putPool_beside r
    have hback : RefReady W s r id → ServedAs W t r id (W.canon id) := by
      rintro (⟨h, _⟩ | ⟨_, d, hd', h⟩)
      · exact absurd h hh
      · rw [show dirOf W id = some c from hc] at hd'; cases hd'
        exact h2.2 h
    exact ⟨t, _, by rw [hrun]; rfl, { toBeside := hpb.trans hL.toBeside, has := hL.has, entry := hL.entry }, ⟨fun hsv => .inr ⟨hh, c, hc, h2.1 hsv⟩, hback⟩,
      fun h => ⟨fun q a b => (hun (hback h)).whole q a b⟩⟩

/-- The pool's part of an import. -/
theorem poolAddInternal_out (ok : W.OK) {p : Pkg} {f : Str} (hp : ROpen W p (.ext f)) (hd : W.isDelta p.id = false)
    (hrd : s.fs.read (.ext f) = some (W.canon p.id)) (r : Str) (hr : Rough W s) {c : Str} (hc : dirOf W p.id = some c) :
    (InPool s p.id ∧ ∃ e t tr, poolAddInternal W.E p false none s = ⟨.ok e, t, tr⟩ ∧ t.fs = s.fs ∧ t.db.ents = s.db.ents ∧ Beside s t r p.id) ∨
    (¬ InPool s p.id ∧ Spec.Linked s (.ext f) (.pool c p.id) ∧ ∃ e, (poolAddInternal W.E p false none s).res = .err e) ∨
    (¬ InPool s p.id ∧ ¬ Spec.Linked s (.ext f) (.pool c p.id) ∧ ∃ e t tr, poolAddInternal W.E p false none s = ⟨.ok e, t, tr⟩ ∧
      t.fs.read (.pool c p.id) = some (W.canon p.id) ∧ t.db.ents = s.db.ents ∧ Beside s t r p.id ∧ Unhurt W s t ∧
      (Spec.Linked t (.pool c p.id) (.repo r c p.id) ↔ Spec.Linked s (.pool c p.id) (.repo r c p.id) ∨
        s.fs.read (.pool c p.id) = none ∧ W.E.linkOk (.ext f) (.pool c p.id) = true ∧ Spec.Linked s (.ext f) (.repo r c p.id))) := by
  have hres : reservedKey p.id = false := (ok.gid hp.isPkg).nres
  have hc' : pathComp? p.pkg.source = some c := by rw [hp.pkg]; exact hc
  have hcn : W.canon p.id ≠ [] := by
    intro e
    have := hp.isPkg
    unfold World.IsPkg at this
    rw [e, ok.parse_nil] at this; cases this
  have h0 : (poolGet? p.id s).res = .ok (s.db.pool.get p.id) := rfl
  unfold poolAddInternal
  rw [bind_reads (poolGet?_reads _) h0]
  cases hg : s.db.pool.get p.id with
  | some e =>
    have hpe := hr.db.pool _ e hg
    refine .inl ⟨⟨e, hg⟩, { e with refCount := e.refCount + 1 }, { s with db := (DbWrite.putPool e.name { e with refCount := e.refCount + 1 }).apply s.db }, ?_⟩
    dsimp only
    rw [bind_ok (dbWrite_run (w := .putPool e.name { e with refCount := e.refCount + 1 }) (by rw [hpe.name] at *; exact hres) s)]
    refine ⟨_, rfl, rfl, rfl, ?_⟩
    rw [hpe.name]; exact putPool_beside r
  | none =>
    have hni : ¬ InPool s p.id := by rintro ⟨pe, h⟩; rw [hg] at h; cases h
    refine .inr ?_
    dsimp only
    rw [getSt_bind, hp.path, hrd]
    dsimp only
    rw [pathComp_bind hc']
    by_cases hl : Spec.Linked s (.ext f) (.pool c p.id)
    · refine .inl ⟨hni, hl, ?_⟩
      obtain ⟨j, h1, h2⟩ := hl
      obtain ⟨tr, he⟩ := linkOrCopy_onto W.E h1 h2
      rw [bind_ok he]
      rw [if_pos rfl]
      have hs : fileSha1 W.E (.ext f) (s.setFs (s.fs.setData j [])) = ⟨.err .io, s.setFs (s.fs.setData j []), []⟩ := by
        unfold fileSha1
        rw [getSt_bind, St.setFs_fs]
        have : (s.fs.setData j []).read (.ext f) = some [] := by simp [FS.read, h1]
        rw [this]; rfl
      rw [bind_err hs]
      exact ⟨_, rfl⟩
    · refine .inr ⟨hni, hl, ?_⟩
      obtain ⟨fs', tr, he, hput, j, hj, hjj⟩ := linkOrCopy_puts W.E hr.fs.fresh hrd hl
      have hb := hput.beside (s := s) (r := r) hr.fs rfl rfl (by simp)
      have hup : fs'.read (.ext f) = some (W.canon p.id) := by
        rcases hput.read (.ext f) (by simp) with e | ⟨_, e⟩
        · rw [e]; exact hrd
        · exact e
      have hs : fileSha1 W.E (.ext f) (s.setFs fs') = ⟨.ok (W.E.sha1 (W.canon p.id)), s.setFs fs', []⟩ := by
        unfold fileSha1
        rw [getSt_bind, St.setFs_fs, hup]
        simp only [if_neg hcn]; rfl
      obtain ⟨e, hev⟩ : ∃ e : PoolEntry, e = { name := p.id, refCount := 1, delta := none, pkg := { p.pkg with hash := W.E.sha1 (W.canon p.id), size := (W.canon p.id).length, uri := mkURI c p.id } } := ⟨_, rfl⟩
      have hrun := run_bind (f := fun _ => do
          let sha ← fileSha1 W.E (.ext f)
          let e : PoolEntry :=
            { name := p.id, refCount := 1, delta := none,
              pkg := { p.pkg with hash := sha, size := (W.canon p.id).length, uri := mkURI c p.id } }
          if reservedKey p.id then do
            removeFile (.pool c p.id)
            throwE .reserved
          else do
            dbWrite .direct (.putPool p.id e)
            pure e) he (run_bind hs (u := { s.setFs fs' with db := (DbWrite.putPool p.id e).apply s.db }) (x := .ok e)
          (tr' := [{ s.setFs fs' with db := (DbWrite.putPool p.id e).apply s.db }] ++ []) (by
          simp only [hres, Bool.false_eq_true, if_false]
          rw [← hev]
          exact run_bind (dbWrite_run (w := .putPool p.id e) hres _) rfl))
      refine ⟨_, _, _, hrun, hput.got, rfl, hb.trans (putPool_beside (s := s.setFs fs') r),
        (hput.unhurt hr.fs rfl rfl).trans (Unhurt.of_fs rfl), ?_⟩
      have htr : fs'.tab (.repo r c p.id) = s.fs.tab (.repo r c p.id) := hput.tab _ (by simp)
      constructor
      · rintro ⟨k, h1, h2⟩
        change fs'.tab _ = _ at h1
        change fs'.tab _ = _ at h2
        rw [hj] at h1; cases h1
        rw [htr] at h2
        rcases hjj with h | ⟨h, ⟨h3, h4⟩ | ⟨_, h3⟩⟩
        · exact .inl ⟨j, h, h2⟩
        · exact .inr ⟨by simp [FS.read, h], h3, j, h4, h2⟩
        · have := hr.fs.fresh _ _ h2
          omega
      · rintro (⟨k, h1, h2⟩ | ⟨h0, h3, k, h1, h2⟩)
        · rcases hjj with h | ⟨h, _⟩
          · rw [h1] at h; cases h
            exact ⟨_, hj, by rw [← h2]; exact htr⟩
          · rw [h1] at h; cases h
        · rcases hjj with h | ⟨_, ⟨_, h4⟩ | ⟨h4, _⟩⟩
          · rw [FS.read, h] at h0; cases h0
          · rw [h1] at h4; cases h4
            exact ⟨_, hj, by rw [← h2]; exact htr⟩
          · rw [h3] at h4; cases h4

/-- A readable upload is imported (without comparing releases): it succeeds and serves a whole file if and only if `Ready`. -/
theorem addPackage_out (ok : W.OK) {r f : Str} (hd : W.isDelta (baseName f) = false) (hp : W.IsPkg (baseName f))
    (hrd : s.fs.read (.ext f) = some (W.canon (baseName f))) (hr : Rough W s) :
    (∃ e, (addPackage W.E r (.ext f) false s).res = .err e) ∧ ¬ Ready W s r f ∨
    ∃ t tr, addPackage W.E r (.ext f) false s = ⟨.ok (), t, tr⟩ ∧ Landed W s t r (baseName f) ∧
      (ServedAs W t r (baseName f) (W.canon (baseName f)) ↔ Ready W s r f) ∧ (Ready W s r f → Unhurt W s t) := by
  generalize hid : baseName f = id at *
  have hopen : openPkg W.E (.ext f) s = ⟨.ok ⟨.ext f, id, W.mOf id⟩, s, []⟩ := by
    unfold openPkg
    rw [getSt_bind, hrd]
    dsimp only
    rw [show W.E.parse (W.canon id) = .good (W.mOf id) from hp]
    show (Out.mk (.ok (Pkg.mk (.ext f) (baseName f) (W.mOf id))) s [] : Out Pkg) = _
    rw [hid]
  have hro : ROpen W ⟨.ext f, id, W.mOf id⟩ (.ext f) := ⟨rfl, hid.symm, hp, rfl⟩
  have hg := ok.meta hp
  obtain ⟨c, hc⟩ := ok.comp hp
  have hc' : dirOf W id = some c := hc
  have e0 : addPackage W.E r (.ext f) false s = addLocalPackage W.E r ⟨.ext f, id, W.mOf id⟩ s := by
    unfold addPackage
    rw [bind_ok hopen]
    rfl
  rw [e0]
  unfold addLocalPackage
  rw [pathComp_bind (show pathComp? (W.mOf id).source = some c from hc)]
  unfold Ready
  rw [hid]
  rcases sane_out ok hd hp (m := W.mOf id) rfl hg.hist hr (r := r) with ⟨hh, ho⟩ | ⟨hh, ne, ho, hne, hnn, hav⟩
  · rw [bind_reads (buildSaneEntry_reads _ _ _) ho]
    refine .inr ⟨s, [], rfl, { toBeside := Beside.refl s r id, has := fun x y => ⟨.inl, by rintro (h | ⟨rfl, rfl⟩); exact h; exact hh⟩, entry := fun _ _ => rfl },
      ⟨fun hsv => .inl ⟨.inr hh, .inl ⟨hh, hsv⟩⟩, ?_⟩, fun _ => Unhurt.of_fs rfl⟩
    rintro (⟨_, ⟨_, h⟩ | ⟨h, _⟩⟩ | ⟨_, h, _⟩)
    · exact h
    · exact absurd hh h
    · exact absurd hh h
  · rw [bind_reads (buildSaneEntry_reads _ _ _) ho]
    have hfin := (poolAddInternal_at (tgt := none) (cd := false) (delta := none) ok hro rfl (by simp [hd]) (by intro _ h; cases h) hr hrd).fin
    rcases poolAddInternal_out ok hro hd hrd r hr hc' with ⟨hin, e, t, tr, he, hfs, hent, hb⟩ | ⟨hin, hl, e, he⟩ | ⟨hin, hl, e, t, tr, he, hpr, hent, hb, hunp, hlk⟩
    · rw [he] at hfin
      obtain ⟨u, tr', hrun, hL, h2, hun⟩ := place_landed (s := t) ok hc' hp (n := (W.mOf id).name) (r := r) hne hnn (by rw [hent]; exact hav) hfin
      have hcond : (t.fs.read (.pool c id) = some (W.canon id) ∧ ¬ Spec.Linked t (.pool c id) (.repo r c id) ∨
          t.fs.read (.pool c id) = none ∧ t.fs.read (.repo r c id) = some (W.canon id)) ↔
          (s.fs.read (.pool c id) = some (W.canon id) ∧ ¬ Spec.Linked s (.pool c id) (.repo r c id) ∨
          s.fs.read (.pool c id) = none ∧ s.fs.read (.repo r c id) = some (W.canon id)) := by
        unfold Spec.Linked; rw [hfs]
      rw [hcond] at h2
      rw [h2] at hun
      refine .inr ⟨u, _, run_bind (f := fun _ => do linkOrCopy W.E (.pool c id) (.repo r c id) false; repoPut r ne) he hrun,
        { toBeside := hb.trans hL.toBeside, has := fun x y => ?_, entry := fun m hm => by rw [hL.entry m hm, hent] }, ?_⟩
      · rw [hL.has]
        unfold Has Lists; rw [hent]
      · rw [h2]
        refine (fun (H : _ ↔ _) => ⟨H, fun h => (Unhurt.of_fs (by rw [hfs])).trans (hun (H.2 h))⟩) ?_
        refine ⟨fun h => .inl ⟨.inl hin, .inr ⟨hh, c, hc', h⟩⟩, ?_⟩
        rintro (⟨_, ⟨h, _⟩ | ⟨_, d, hd', h⟩⟩ | ⟨h, _⟩)
        · exact absurd h hh
        · rw [hc'] at hd'; cases hd'
          exact h
        · exact absurd hin h
    · refine .inl ⟨⟨e, ?_⟩, ?_⟩
      · dsimp only
        rw [bind_err (show poolAddInternal W.E ⟨.ext f, id, W.mOf id⟩ false none s = ⟨.err e, (poolAddInternal W.E ⟨.ext f, id, W.mOf id⟩ false none s).st,
          (poolAddInternal W.E ⟨.ext f, id, W.mOf id⟩ false none s).tr⟩ by rw [← he])]
      · rintro (⟨h | h, _⟩ | ⟨_, _, d, hd', h, _⟩)
        · exact absurd h hin
        · exact absurd h hh
        · rw [hc'] at hd'; cases hd'
          exact absurd hl h
    · rw [he] at hfin
      obtain ⟨u, tr', hrun, hL, h2, hun⟩ := place_landed (s := t) ok hc' hp (n := (W.mOf id).name) (r := r) hne hnn (by rw [hent]; exact hav) hfin
      refine .inr ⟨u, _, run_bind (f := fun _ => do linkOrCopy W.E (.pool c id) (.repo r c id) false; repoPut r ne) he hrun,
        { toBeside := hb.trans hL.toBeside, has := fun x y => ?_, entry := fun m hm => by rw [hL.entry m hm, hent] }, ?_⟩
      · rw [hL.has]
        unfold Has Lists; rw [hent]
      · rw [h2, hpr, hlk] at hun ⊢
        refine (fun (H : _ ↔ _) => ⟨H, fun h => hunp.trans (hun (H.2 h))⟩) ?_
        constructor
        · rintro (⟨_, h⟩ | ⟨h, _⟩)
          · exact .inr ⟨hin, hh, c, hc', hl, fun hx => h (.inl hx), fun ha hb' hc'' => h (.inr ⟨ha, hb', hc''⟩)⟩
          · cases h
        · rintro (⟨h | h, _⟩ | ⟨_, _, d, hd', _, h3, h4⟩)
          · exact absurd h hin
          · exact absurd h hh
          · rw [hc'] at hd'; cases hd'
            refine .inl ⟨rfl, ?_⟩
            rintro (h | ⟨ha, hb', hc''⟩)
            · exact h3 h
            · exact h4 ha hb' hc''

end
end Ferryd
