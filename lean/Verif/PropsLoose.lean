import Verif.CoreLoose2
import Verif.PropsCore3
import Verif.Demo2
/-!
# PropsLoose: C134, files of one name with different bytes
-/
namespace Ferryd
open Spec

variable {W : World} {s : St}

/-! ## C134 -/

/-- C134 in full: whatever was uploaded and imported before under whatever names, when an import of a file succeeds, the
repository serves the bytes of that file. -/
def C134_statement : Prop :=
  ∀ (W : World) (s : St) (r f : Str) (strict : Bool) (c : Content), W.OK → LooseReach W s →
    W.isDelta (baseName f) = false → s.fs.read (.ext f) = some c →
    (mAddPackages W.E r [f] strict s).res = .ok () →
    ServedAs W (mAddPackages W.E r [f] strict s).st r (baseName f) c

/-- The two versions of a state show the same repositories, packages and index. -/
theorem Twin.served {t : St} {κ : Str → Content} {L : Path → Prop} (h : Twin W.E L s t) (hA : Agrees W κ) (r id : Str)
    (c : Content) : ServedAs W s r id c ↔ ServedAs (W.as κ) t r id c := by
  unfold ServedAs dirOf sourceOf
  constructor
  · rintro ⟨d, h1, h2⟩; exact ⟨d, by rw [hA.mOf]; exact h1, by rw [← h.read (not_loose_repo _ _ _)]; exact h2⟩
  · rintro ⟨d, h1, h2⟩; exact ⟨d, by rw [hA.mOf] at h1; exact h1, by rw [h.read (not_loose_repo _ _ _)]; exact h2⟩

theorem Twin.pooled {t : St} {κ : Str → Content} {L : Path → Prop} (h : Twin W.E L s t) (hA : Agrees W κ) (id : Str)
    (c : Content) : PooledAs W s id c ↔ PooledAs (W.as κ) t id c := by
  unfold PooledAs dirOf sourceOf
  constructor
  · rintro ⟨d, h1, h2⟩; exact ⟨d, by rw [hA.mOf]; exact h1, by rw [← h.read (not_loose_pool _ _)]; exact h2⟩
  · rintro ⟨d, h1, h2⟩; exact ⟨d, by rw [hA.mOf] at h1; exact h1, by rw [h.read (not_loose_pool _ _)]; exact h2⟩

/-- What the pool record of `id` must say if the file called so holds `c`: name, location, size, hash and the package's own
metadata. (No code: a notion of the statements and proofs.) -/
def Describes (W : World) (id : Str) (pe : PoolEntry) (c : Content) : Prop :=
  pe.name = id ∧ pe.pkg.hash = W.E.sha1 c ∧ pe.pkg.size = c.length ∧ W.E.parse c = .good (W.mOf id) ∧
  pe.pkg.name = nameOf W id ∧ pe.pkg.source = sourceOf W id ∧ pe.pkg.history = (W.mOf id).history ∧
  ∃ d, dirOf W id = some d ∧ pe.pkg.uri = d ++ '/' :: id

/-- In the twin of a state. -/
theorem pooled_twin {t : St} {κ : Str → Content} {L : Path → Prop} (ok : W.OK) (hA : Agrees W κ)
    (h : Twin W.E L s t) (hi : Inv (W.as κ) t) {id : Str} {pe : PoolEntry} (hd : W.isDelta id = false)
    (hg : s.db.pool.get id = some pe) :
    PooledAs W s id (κ id) ∧ Describes W id pe (κ id) ∧ (∀ r, Has s r id → ServedAs W s r id (κ id)) ∧
    (∀ l, Enumerates l (fun r => Has s r id) → pe.refCount = l.length) := by
  rw [h.db] at hg
  have hp := hi.pool id pe hg
  have ok' := hA.ok ok
  obtain ⟨d, hdir⟩ := ok'.comp hp.isPkg
  have hdir' : dirOf W id = some d := by
    have := hdir; rw [hA.compOf] at this; exact this
  have hm := hA.mOf id
  have hhas : ∀ r, Has s r id ↔ t.has r id = true := fun r => by
    rw [← hi.spec_has]; unfold Has Lists; rw [h.db]
  refine ⟨?_, ⟨hp.name, ?_, ?_, ?_, ?_, ?_, ?_, d, hdir', ?_⟩, ?_, ?_⟩
  · rw [h.pooled hA]
    exact ⟨d, hdir, hi.poolRead hg hd hdir⟩
  · rw [hp.pkg]; rfl
  · rw [hp.pkg]; rfl
  · have := hp.isPkg; unfold World.IsPkg at this; rw [hm] at this; exact this
  · rw [hp.pkg]; simp only [World.stamped, hm]; rfl
  · rw [hp.pkg]; simp only [World.stamped, hm]; rfl
  · rw [hp.pkg]; simp only [World.stamped, hm]
  · rw [hp.pkg]; simp only [World.stamped, hdir]; rfl
  · intro r hr
    rw [h.served hA]
    exact ⟨d, hdir, hi.repoRead ((hhas r).1 hr) hd hdir⟩
  · intro l hl
    rw [hp.count hd]
    refine List.Perm.length_eq ?_
    rw [List.perm_ext_iff_of_nodup (show (t.holders id).Nodup from hi.wfRepos.nodup_keys.filter _) hl.1]
    intro r
    rw [hl.2, hi.mem_holders]; exact (hhas r).symm

/-- The loop of a request that succeeded. -/
theorem addJob_loop {E : Env} {r : Str} {files : List Str} {strict : Bool} (hok : (mAddPackages E r files strict s).res = .ok ()) :
    ∃ s1, s1.db = s.db ∧ s1.fs.tab = s.fs.tab ∧ s1.fs.data = s.fs.data ∧ s1.fs.next = s.fs.next ∧
      (forL files (fun f => addPackage E r (.ext f) strict) s1).res = .ok () := by
  unfold mAddPackages at hok
  rcases hgs : getRepo r s with ⟨res, s1, tr⟩
  rcases res with u | e | _
  · rw [bind_ok hgs, Out.pre_res] at hok
    refine ⟨s1, ?_⟩
    have hs1 : s1.db = s.db ∧ s1.fs.tab = s.fs.tab ∧ s1.fs.data = s.fs.data ∧ s1.fs.next = s.fs.next := by
      unfold getRepo at hgs
      rw [getSt_bind] at hgs
      by_cases hc : r ∈ s.cache
      · rw [if_pos hc] at hgs; cases hgs; exact ⟨rfl, rfl, rfl, rfl⟩
      · rw [if_neg hc] at hgs
        cases hx : s.db.repos.get r with
        | none => rw [hx] at hgs; cases hgs
        | some u => rw [hx] at hgs; cases hgs; exact ⟨rfl, rfl, rfl, rfl⟩
    refine ⟨hs1.1, hs1.2.1, hs1.2.2.1, hs1.2.2.2, ?_⟩
    rcases hx : forL files (fun f => addPackage E r (.ext f) strict) s1 with ⟨res, s2, tr2⟩
    rcases res with u | e | _
    · rfl
    · rw [bind_err hx] at hok; cases hok
    · rw [bind_panic hx] at hok; cases hok
  · rw [bind_err hgs] at hok; cases hok
  · rw [bind_panic hgs] at hok; cases hok

/-- C134 (part): after a successful import every file's package is listed and served, with the bytes of the pool's copy. If the
pool had a copy before, these are still its bytes, whatever the file held; if not, they are the bytes of the first file of that
name in the request. -/
theorem C134_import_partial (ok : W.OK) (h : LooseReach W s) {r : Str} {files : List Str} {strict : Bool}
    (hnd : ∀ f ∈ files, W.isDelta (baseName f) = false)
    (hok : (mAddPackages W.E r files strict s).res = .ok ()) {f : Str} (hf : f ∈ files) :
    let s' := (mAddPackages W.E r files strict s).st
    Has s' r (baseName f) ∧ ∃ c, ServedAs W s' r (baseName f) c ∧ PooledAs W s' (baseName f) c ∧
      (InPool s (baseName f) → PooledAs W s (baseName f) c) ∧
      (¬ InPool s (baseName f) → ∃ pre g post, files = pre ++ g :: post ∧ baseName g = baseName f ∧
        (∀ x ∈ pre, baseName x ≠ baseName f) ∧ s.fs.read (.ext g) = some c) := by
  intro s'
  obtain ⟨κ, t, hA, ht, hi⟩ := h.twin ok
  have hr : r ∈ s.db.repos.keys := by
    refine Classical.byContradiction fun hn => ?_
    obtain ⟨e, st, tr, hrun, _⟩ := addJob_missing ht hi hn files strict
    rw [hrun] at hok; cases hok
  -- the facts that hold whichever way the twin was chosen
  have fin : ∀ {κ' : Str → Content} {t' : St}, Went W κ κ' s (mAddPackages W.E r files strict s) t' →
      s'.has r (baseName f) = true → Has s' r (baseName f) ∧ ServedAs W s' r (baseName f) (κ' (baseName f)) ∧
        PooledAs W s' (baseName f) (κ' (baseName f)) := by
    intro κ' t' k hh
    have hh' : Has s' r (baseName f) := by
      have h1 : t'.has r (baseName f) = true := by rw [← k.twin.has]; exact hh
      have := (k.inv.spec_has r (baseName f)).2 h1
      unfold Has Lists at this ⊢
      rw [show s'.db = t'.db from k.twin.db]; exact this
    obtain ⟨pe, hpe⟩ : ∃ pe, s'.db.pool.get (baseName f) = some pe := by
      rw [show s'.db = t'.db from k.twin.db]
      exact (k.inv.has_facts (by rw [← k.twin.has]; exact hh)).2.2
    obtain ⟨a1, _, a2, _⟩ := pooled_twin ok k.agrees k.twin k.inv (hnd f hf) hpe
    exact ⟨hh', a2 r hh', a1⟩
  by_cases hin : InPool s (baseName f)
  · obtain ⟨κ', t', k, _, hd⟩ := addJob_of_loop (Q := fun _ => True) ok ht hi hr (fun s1 t1 h1 hi1 hdb _ _ _ => by
      obtain ⟨κ', t', k⟩ := addLoop_loose ok strict files hA h1 hi1 (by rw [hdb]; exact hr) hnd (fun _ _ _ h => h.elim)
      exact ⟨κ', t', k, trivial⟩)
    obtain ⟨b1, b2, b3⟩ := fin k ((hd hok).2 f hf)
    refine ⟨b1, _, b2, b3, fun _ => ?_, fun hn => absurd hin hn⟩
    obtain ⟨pe, hpe⟩ := hin
    rw [k.pooled _ pe hpe]
    exact (pooled_twin ok hA ht hi (hnd f hf) hpe).1
  · -- the first file of the name
    have hsplit : ∀ l : List Str, f ∈ l → ∃ pre g post, l = pre ++ g :: post ∧ baseName g = baseName f ∧
        ∀ x ∈ pre, baseName x ≠ baseName f := by
      intro l
      induction l with
      | nil => intro h; cases h
      | cons a l ih =>
        intro hm
        by_cases e : baseName a = baseName f
        · exact ⟨[], a, l, rfl, e, by simp⟩
        · rcases List.mem_cons.1 hm with rfl | hm
          · exact absurd rfl e
          · obtain ⟨pre, g, post, h1, h2, h3⟩ := ih hm
            refine ⟨a :: pre, g, post, by rw [h1]; rfl, h2, ?_⟩
            intro x hx
            rcases List.mem_cons.1 hx with rfl | hx
            · exact e
            · exact h3 x hx
    obtain ⟨pre, g, post, hfs, hb, hpre⟩ := hsplit files hf
    have hnone : s.db.pool.get (baseName g) = none := by
      rw [hb]
      cases hx : s.db.pool.get (baseName f) with
      | none => rfl
      | some pe => exact absurd ⟨pe, hx⟩ hin
    have hread : ∃ c, s.fs.read (.ext g) = some c ∧ W.E.parse c = W.E.parse (κ (baseName g)) := by
      have hgm : g ∈ files := by rw [hfs]; simp
      -- the loop of the request succeeds from the state after the look-up
      obtain ⟨s1, hdb, htab, hdat, hnext, hl⟩ := addJob_loop hok
      cases hx : s.fs.tab (.ext g) with
      | none =>
        exfalso
        exact addLoop_missing files strict r (by rw [htab]; exact hx) hgm hl
      | some i =>
        refine ⟨s.fs.data i, by unfold FS.read; rw [hx]; rfl, ?_⟩
        have htr : t.fs.read (.ext g) = some (t.fs.data i) := by unfold FS.read; rw [← ht.tab, hx]; rfl
        have hκ : t.fs.data i = κ (baseName g) := by
          rcases hi.fs.content (.ext g) _ rfl htr with h' | ⟨h', _⟩
          · exact h'
          · have := hnd g hgm
            rw [show (W.as κ).isDelta (Path.ext g).base = W.isDelta (baseName g) from rfl, this] at h'; cases h'
        rcases ht.data i with h' | ⟨h1, h' | h'⟩
        · rw [h', hκ]
        · rw [h', hκ]
        · exfalso
          refine addLoop_bad (E := W.E) (i := i) (g := g) files strict r h' (s := s1) (by rw [htab]; exact hx)
            (by rw [hdat]) (fun p hp => (h1 p (by rw [← htab]; exact hp)).1) ?_ hgm hl
          rw [hnext, ht.next]
          exact hi.fs.fresh (.ext g) i (by rw [← ht.tab]; exact hx)
    obtain ⟨c, hc, hpc⟩ := hread
    obtain ⟨κ', t', k, hQ, hd⟩ := addJob_of_loop (Q := fun κ' => κ' (baseName g) = c) (files := files) ok ht hi hr
      (fun s1 t1 h1 hi1 hdb htab hdat hk => by
        have := hk hok
        rw [hfs] at this ⊢
        refine addLoop_first ok strict pre g post hA h1 hi1 (by rw [hdb]; exact hr) (by rw [← hfs]; exact hnd)
          (fun x hx => by rw [hb]; exact hpre x hx) (by rw [hdb]; exact hnone) ?_ hpc this
        rw [← hc]; unfold FS.read; rw [htab, hdat])
    obtain ⟨b1, b2, b3⟩ := fin k ((hd hok).2 f hf)
    rw [← hb, hQ] at b2 b3
    rw [hb] at b2 b3
    exact ⟨b1, c, b2, b3, fun h => absurd h hin, fun _ => ⟨pre, g, post, hfs, hb, hpre, hc⟩⟩

/-- C134 (part): whatever was uploaded and imported before, a package of the pool has one content: every repository that lists the
package serves the bytes of the pool's file, and the pool's record describes these bytes and counts these repositories. -/
theorem C134_agree_partial (ok : W.OK) (h : LooseReach W s) {id : Str} {pe : PoolEntry} (hd : W.isDelta id = false)
    (hg : s.db.pool.get id = some pe) :
    ∃ c, PooledAs W s id c ∧ Describes W id pe c ∧ (∀ r, Has s r id → ServedAs W s r id c) ∧
      ∀ l, Enumerates l (fun r => Has s r id) → pe.refCount = l.length := by
  obtain ⟨κ, t, hA, ht, hi⟩ := h.twin ok
  exact ⟨_, pooled_twin ok hA ht hi hd hg⟩

/-- What a state says of a package does not depend on how the twin was chosen. -/
theorem pooledAs_unique {id : Str} {c c' : Content} (h : PooledAs W s id c) (h' : PooledAs W s id c') : c = c' := by
  obtain ⟨d, h1, h2⟩ := h
  obtain ⟨d', h1', h2'⟩ := h'
  rw [h1] at h1'; cases h1'
  rw [h2] at h2'; cases h2'; rfl

/-- C134 (part): the bytes of a package never change while the pool has it: no request, and no upload under the same name with
other bytes, changes what the pool holds or what the repositories serve for it. -/
theorem C134_stable_partial (ok : W.OK) (h : LooseReach W s) (o : Op) (ho : o.Fits W) {id : Str} {c : Content}
    (hd : W.isDelta id = false) (hin : InPool s id) (hp : PooledAs W s id c) (hin' : InPool (o.exec W.E s) id) :
    PooledAs W (o.exec W.E s) id c ∧ ∀ r, Has (o.exec W.E s) r id → ServedAs W (o.exec W.E s) r id c := by
  obtain ⟨κ, t, hA, ht, hi⟩ := h.twin ok
  obtain ⟨κ', t', k⟩ := op_loose ok hA ht hi o ho
  obtain ⟨pe, hpe⟩ := hin
  obtain ⟨pe', hpe'⟩ := hin'
  have e : c = κ' id := by
    rw [k.pooled id pe hpe]
    exact pooledAs_unique hp (pooled_twin ok hA ht hi hd hpe).1
  subst e
  obtain ⟨a, _, b, _⟩ := pooled_twin ok k.agrees k.twin k.inv hd hpe'
  exact ⟨a, b⟩

/-- The twin of a correctly published repository. -/
theorem Twin.published {t : St} {κ : Str → Content} (h : Twin W.E (looseBut W fun _ => False) s t) (hA : Agrees W κ)
    (hi : Inv (W.as κ) t) {r : Str} (hp : Published (W.as κ) t r) : Published W s r := by
  obtain ⟨doc, h1, h2, h3⟩ := hp
  have ha : ∀ a, s.fs.read (.asset r a) = t.fs.read (.asset r a) := fun a => h.read (not_loose_asset _ _)
  refine ⟨doc, by rw [h.idx]; exact h1, ⟨?_, ?_, ?_, h2.sorted, ?_, ?_⟩, ?_⟩
  · rw [ha]; exact h2.obsoletes
  · rw [ha]; exact h2.components
  · rw [ha]; exact h2.groups
  · obtain ⟨obs, a, b⟩ := h2.exact_
    refine ⟨obs, ?_, b.1, fun x => ?_⟩
    · unfold Obsolete at a ⊢; rw [ha]; exact a
    · rw [b.2]; unfold Tip; rw [h.db]
  · intro p hp
    obtain ⟨d, c, q1, q2, q3, q4, q5, q6, q7, q8⟩ := h2.files p hp
    refine ⟨d, c, ?_, ?_, q3, q4, q5, ?_, ?_, ?_⟩
    · unfold dirOf sourceOf at q1 ⊢; rw [hA.mOf] at q1; exact q1
    · rw [h.read (not_loose_repo _ _ _)]; exact q2
    · unfold nameOf at q6 ⊢; rw [hA.mOf] at q6; exact q6
    · unfold sourceOf at q7 ⊢; rw [hA.mOf] at q7; exact q7
    · rw [hA.mOf] at q8; exact q8
  · intro p hp x
    rw [h3 p hp x]
    have key : ∀ d, HasDelta t r d ↔ HasDelta s r d := fun d => by unfold HasDelta; rw [h.db]
    have hcan : ∀ d, HasDelta t r d → κ d = W.canon d := by
      rintro d ⟨n, e, hg, hm⟩
      exact hA.delta d ((hi.ent r n e hg).deltas d hm).1
    constructor
    · rintro ⟨d, pe, di, a1, a2, a3, a4, a5, a6⟩
      refine ⟨d, pe, di, (key d).1 a1, ?_, by rw [h.db]; exact a3, a4, ?_, ?_⟩
      · unfold nameOf at a2 ⊢; rw [hA.mOf, hA.mOf] at a2; exact a2
      · unfold relOf at a5 ⊢; rw [hA.mOf] at a5; exact a5
      · unfold dirOf sourceOf at a6 ⊢; rw [hA.mOf] at a6
        rw [← hcan d a1]; exact a6
    · rintro ⟨d, pe, di, a1, a2, a3, a4, a5, a6⟩
      refine ⟨d, pe, di, (key d).2 a1, ?_, by rw [← h.db]; exact a3, a4, ?_, ?_⟩
      · unfold nameOf at a2 ⊢; rw [hA.mOf, hA.mOf]; exact a2
      · unfold relOf at a5 ⊢; rw [hA.mOf]; exact a5
      · unfold dirOf sourceOf at a6 ⊢; rw [hA.mOf]
        rw [← hcan d ((key d).2 a1)] at a6; exact a6

/-- C134 (part): conflicting and damaged uploads break nothing else: no request panics, and a request that publishes a repository
and reports success leaves it with an index that is correct for the bytes actually served. -/
theorem C134_sound_partial (ok : W.OK) (h : LooseReach W s) (o : Op) (ho : o.Fits W) :
    (o.run W.E s).res ≠ .panic ∧
    ∀ r, o.publishes = some r → (o.run W.E s).res = .ok () → Published W (o.exec W.E s) r := by
  obtain ⟨κ, t, hA, ht, hi⟩ := h.twin ok
  refine ⟨?_, ?_⟩
  · obtain ⟨κ', t', k⟩ := op_loose ok hA ht hi o ho
    exact k.noPanic
  intro r hp hres
  cases hin : o.inward with
  | true =>
    have par := same_op ht hin (by
      rintro r d f k rfl
      rintro ⟨_, h2, _⟩
      simp only [Op.Fits, Op.Ok] at ho
      rw [show (Path.stage r d).base = d from rfl, ho.1] at h2; cases h2)
    have so := Op.sound (W := W.as κ) (hA.ok ok) hi o (hA.opOk hin ho)
    have fr := o.fresh (hA.ok ok) hi (hA.opOk hin ho) hp (by
      have := par.res; rw [hres] at this; exact this.symm)
    have e := (fr.correct (hA.ok ok) so.inv)
    exact par.st.published hA so.inv e
  | false =>
    cases o with
    | addPackages r' files strict =>
      obtain rfl : r' = r := by simpa [Op.publishes] using hp
      simp only [Op.run, Op.exec] at hres ⊢
      have hr : r' ∈ s.db.repos.keys := by
        refine Classical.byContradiction fun hn => ?_
        obtain ⟨e, st, tr, hrun, _⟩ := addJob_missing ht hi hn files strict
        rw [hrun] at hres; cases hres
      obtain ⟨κ', t', k, _, hd⟩ := addJob_of_loop (Q := fun _ => True) ok ht hi hr (fun s1 t1 h1 hi1 hdb _ _ _ => by
        obtain ⟨κ', t', k⟩ := addLoop_loose ok strict files hA h1 hi1 (by rw [hdb]; exact hr) ho (fun _ _ _ h => h.elim)
        exact ⟨κ', t', k, trivial⟩)
      exact k.twin.published k.agrees k.inv ((hd hres).1.correct (k.agrees.ok ok) k.inv)
    | upload f c => cases hp
    | stage r' d c => cases hp
    | _ => cases hin

end Ferryd

namespace Ferryd.Demo
open Spec

/-- Another file called `a-2.eopkg`, with other bytes that read as the same package, and a third one that is damaged, uploaded
after the first was imported; and a new repository. (No code: a case for the examples.) -/
def looseOps : List Op :=
  hist1 ++ [.upload (S "/up2/a-2.eopkg") [3], .upload (S "/up3/a-2.eopkg") [77], .create (S "edge")]

/-- The state after these. (No code: a case for the examples.) -/
def stL : St := runAll E St.init looseOps

theorem looseL : LooseReach W stL := by
  refine ⟨looseOps, ?_, rfl⟩
  intro o ho
  rcases List.mem_append.1 ho with ho | ho
  · exact (hist1_ok o ho).fits
  · simp only [List.mem_cons, List.not_mem_nil, or_false] at ho
    rcases ho with rfl | rfl | rfl
    · exact ⟨fun h => absurd h (by decide +kernel), .inl rfl⟩
    · exact ⟨fun h => absurd h (by decide +kernel), .inr rfl⟩
    · trivial

/-- The new file is imported into the new repository with success; the repository then serves the old bytes. -/
theorem looseImport : (mAddPackages E (S "edge") [S "/up2/a-2.eopkg"] false stL).res = .ok () ∧
    stL.fs.read (.ext (S "/up2/a-2.eopkg")) = some [3] ∧
    (mAddPackages E (S "edge") [S "/up2/a-2.eopkg"] false stL).st.fs.read (.repo (S "edge") (S "a/a") (S "a-2.eopkg")) =
      some [2] := by decide +kernel

theorem dir_a2 : dirOf W (baseName (S "/up2/a-2.eopkg")) = some (S "a/a") := by decide +kernel

/-- C134, refuted: a package of the pool keeps its bytes when a file of the same name with other bytes is imported; the import
reports success and the repository serves the old bytes. -/
theorem C134_violated : ¬ C134_statement := by
  intro h
  obtain ⟨d, h1, h2⟩ := h W stL (S "edge") (S "/up2/a-2.eopkg") false [3] ok looseL (by decide +kernel) looseImport.2.1
    looseImport.1
  have hd : d = S "a/a" := by rw [dir_a2] at h1; exact (Option.some.inj h1).symm
  subst hd
  rw [show baseName (S "/up2/a-2.eopkg") = S "a-2.eopkg" by decide +kernel] at h2
  rw [show (mAddPackages W.E (S "edge") [S "/up2/a-2.eopkg"] false stL).st.fs.read
    (.repo (S "edge") (S "a/a") (S "a-2.eopkg")) = some [2] from looseImport.2.2] at h2
  cases h2

/-- The hypotheses of `C134_import_partial` are met by a request with two files of one name and different bytes, the pool having
neither: here the first wins. -/
example : ∃ s, LooseReach W s ∧ ¬ InPool s (S "a-2.eopkg") ∧
    s.fs.read (.ext (S "/x/a-2.eopkg")) = some [3] ∧ s.fs.read (.ext (S "/y/a-2.eopkg")) = some [2] ∧
    (mAddPackages E (S "edge") [S "/x/a-2.eopkg", S "/y/a-2.eopkg"] false s).res = .ok () ∧
    (mAddPackages E (S "edge") [S "/x/a-2.eopkg", S "/y/a-2.eopkg"] false s).st.fs.read
      (.repo (S "edge") (S "a/a") (S "a-2.eopkg")) = some [3] := by
  refine ⟨runAll E St.init [.create (S "edge"), .upload (S "/x/a-2.eopkg") [3], .upload (S "/y/a-2.eopkg") [2]],
    ⟨_, ?_, rfl⟩, ?_, by decide +kernel, by decide +kernel, by decide +kernel, by decide +kernel⟩
  · intro o ho
    simp only [List.mem_cons, List.not_mem_nil, or_false] at ho
    rcases ho with rfl | rfl | rfl
    · trivial
    · exact ⟨fun h => absurd h (by decide +kernel), .inl rfl⟩
    · exact ⟨fun h => absurd h (by decide +kernel), .inl rfl⟩
  · rintro ⟨pe, hpe⟩
    exact absurd (show (runAll E St.init [.create (S "edge"), .upload (S "/x/a-2.eopkg") [3],
      .upload (S "/y/a-2.eopkg") [2]]).db.pool.get (S "a-2.eopkg") = none by decide +kernel) (by rw [hpe]; simp)

/-- `C134_agree_partial` and `C134_stable_partial` apply to `a-2.eopkg` in `stL`, which both repositories list, and to the uploads
of other bytes. -/
example : ∃ pe, stL.db.pool.get (S "a-2.eopkg") = some pe ∧ pe.refCount = 2 ∧ W.isDelta (S "a-2.eopkg") = false ∧
    Op.Fits W (.upload (S "/up4/a-2.eopkg") [3]) ∧ PooledAs W stL (S "a-2.eopkg") [2] := by
  obtain ⟨pe, hpe⟩ : ∃ pe, stL.db.pool.get (S "a-2.eopkg") = some pe :=
    Option.isSome_iff_exists.1 (by decide +kernel)
  have h2 : (stL.db.pool.get (S "a-2.eopkg")).map PoolEntry.refCount = some 2 := by decide +kernel
  rw [hpe] at h2
  refine ⟨pe, hpe, by simpa using h2, by decide +kernel, ⟨fun h => absurd h (by decide +kernel), .inl rfl⟩,
    S "a/a", by decide +kernel, by decide +kernel⟩

/-- `C134_sound_partial` is about requests that do publish: importing the damaged file fails, importing the other one does not. -/
example : (∃ e, (mAddPackages E (S "edge") [S "/up3/a-2.eopkg"] false stL).res = .err e) ∧
    Op.Fits W (.addPackages (S "edge") [S "/up2/a-2.eopkg"] false) ∧
    ((Op.addPackages (S "edge") [S "/up2/a-2.eopkg"] false).run E stL).res = .ok () := by
  refine ⟨⟨.corrupt, by decide +kernel⟩, ?_, looseImport.1⟩
  show ∀ f ∈ [S "/up2/a-2.eopkg"], W.isDelta (baseName f) = false
  decide +kernel

end Ferryd.Demo
