import Verif.CoreLoose
import Verif.CoreRough2
/-!
# CoreLoose2: histories with conflicting and damaged uploads
-/
namespace Ferryd

/-- The world in which the names stand for other bytes. (No code: a notion of the statements and proofs.) -/
def World.as (W : World) (κ : Str → Content) : World := { W with canon := κ }

/-- Other bytes, but the same packages, and the same delta files. (No code: a notion of the statements and proofs.) -/
structure Agrees (W : World) (κ : Str → Content) : Prop where
  parse : ∀ id, W.E.parse (κ id) = W.E.parse (W.canon id)
  delta : ∀ id, W.isDelta id = true → κ id = W.canon id

variable {W : World} {s t : St} {κ : Str → Content}

theorem Agrees.refl (W : World) : Agrees W W.canon := ⟨fun _ => rfl, fun _ _ => rfl⟩

theorem Agrees.mOf (h : Agrees W κ) (id : Str) : (W.as κ).mOf id = W.mOf id := by
  unfold World.mOf World.as; simp only; rw [h.parse]

theorem Agrees.isPkg (h : Agrees W κ) (id : Str) : (W.as κ).IsPkg id ↔ W.IsPkg id := by
  unfold World.IsPkg; rw [h.mOf]; unfold World.as; simp only; rw [h.parse]

theorem Agrees.compOf (h : Agrees W κ) (id : Str) : (W.as κ).compOf id = W.compOf id := by
  unfold World.compOf; rw [h.mOf]

theorem Agrees.ok (h : Agrees W κ) (ok : W.OK) : (W.as κ).OK where
  parse_nil := ok.parse_nil
  no_crash id := by have := ok.no_crash id; rw [← h.parse] at this; exact this
  comps_no_crash := ok.comps_no_crash
  groups_no_crash := ok.groups_no_crash
  good id m hm := ok.good id m (by rw [← h.parse]; exact hm)

theorem Agrees.set (h : Agrees W κ) {id : Str} {c : Content} (hd : W.isDelta id = false)
    (hc : W.E.parse c = W.E.parse (κ id)) : Agrees W (fun j => if j = id then c else κ j) where
  parse j := by
    by_cases e : j = id
    · subst e; simp only [if_true]; rw [hc, h.parse]
    · simp only [if_neg e]; exact h.parse j
  delta j hj := by
    by_cases e : j = id
    · subst e; rw [hd] at hj; cases hj
    · simp only [if_neg e]; exact h.delta j hj

/-! ## Changing what a name stands for while the pool does not have it -/

/-- Inode `i` holds a copy of the file called `id`. (No code: a notion of the statements and proofs.) -/
def St.copyOf (t : St) (id : Str) (i : Nat) : Prop := ∃ p, t.fs.tab p = some i ∧ p.isAsset = false ∧ p.base = id

open Classical in
/-- All copies of the file called `id` get the bytes `c`. (No code: a notion of the statements and proofs.) -/
noncomputable def St.recast (t : St) (id : Str) (c : Content) : St :=
  t.setFs { t.fs with data := fun i => if t.copyOf id i then c else t.fs.data i }

theorem recast_read (hf : FInv (W.as κ) t.fs) {id : Str} {c : Content} {p : Path} (hp : p.isAsset = false) :
    (t.recast id c).fs.read p = if p.base = id then (t.fs.read p).map (fun _ => c) else t.fs.read p := by
  unfold FS.read St.recast
  simp only [St.setFs_fs]
  cases hi : t.fs.tab p with
  | none => simp
  | some i =>
    simp only [Option.map_some]
    by_cases e : p.base = id
    · rw [if_pos e, if_pos ⟨p, hi, hp, e⟩]
    · rw [if_neg e, if_neg]
      rintro ⟨q, hq, hqa, hqb⟩
      have := hf.owner p q i hi hq
      apply e
      cases p <;> cases q <;> simp_all [Path.owner, Path.isAsset, Path.base]

theorem recast_asset (hf : FInv (W.as κ) t.fs) {id : Str} {c : Content} (r : Str) (a : Asset) :
    (t.recast id c).fs.read (.asset r a) = t.fs.read (.asset r a) := by
  unfold FS.read St.recast
  simp only [St.setFs_fs]
  cases hi : t.fs.tab (.asset r a) with
  | none => simp
  | some i =>
    simp only [Option.map_some]
    rw [if_neg]
    rintro ⟨q, hq, hqa, hqb⟩
    have := hf.owner _ q i hi hq
    cases q <;> simp_all [Path.owner, Path.isAsset]

theorem Inv.recast (hA : Agrees W κ) (h : Inv (W.as κ) t) {id : Str} {c : Content}
    (hd : W.isDelta id = false) (hn : t.db.pool.get id = none) (hc : W.E.parse c = W.E.parse (κ id)) :
    Inv (W.as fun j => if j = id then c else κ j) (t.recast id c) := by
  have hA' := hA.set hd hc
  have hm : ∀ j, (W.as fun j => if j = id then c else κ j).mOf j = (W.as κ).mOf j := fun j => by
    rw [hA.mOf, hA'.mOf]
  have hco : ∀ j, (W.as fun j => if j = id then c else κ j).compOf j = (W.as κ).compOf j := fun j => by
    rw [hA.compOf, hA'.compOf]
  have htab : (t.recast id c).fs.tab = t.fs.tab := rfl
  have hdb : (t.recast id c).db = t.db := rfl
  refine
  { wfPool := h.wfPool, wfSkip := h.wfSkip, wfRepos := h.wfRepos, wfEnts := h.wfEnts, noEnts := h.noEnts
    cache := h.cache, rdir := h.rdir, repoRes := h.repoRes, pend := h.pend
    ent := fun r n e hg => ?_
    pool := fun j pe hg => ?_
    fs := ⟨h.fs.fresh, h.fs.owner, fun p d hp hr => ?_⟩
    poolFile := fun j x => by rw [hco, htab]; exact h.poolFile j x
    repoFile := fun r j x hx => by rw [hco, htab]; exact h.repoFile r j x hx
    dFile := fun r d x hx hy => by rw [hco] at hy; rw [htab]; exact h.dFile r d x hx hy
    noOrphan := h.noOrphan }
  · have he := h.ent r n e hg
    exact ⟨he.name, he.nres, he.sorted, he.nodup, fun j hj => by rw [hm]; exact he.avail j hj, he.pub,
      fun j hj => by rw [hm, hm]; exact he.top j hj, he.dnodup, fun j hj => by rw [hm]; exact he.deltas j hj⟩
  · have hp := h.pool j pe hg
    have hj : j ≠ id := by rintro rfl; rw [show (t.recast j c).db = t.db from rfl, hn] at hg; cases hg
    refine ⟨hp.name, ?_, ?_, hp.delta, hp.pos, hp.count, hp.dcount, ?_⟩
    · rw [hA'.isPkg, ← hA.isPkg]; exact hp.isPkg
    · rw [hp.pkg]
      unfold World.stamped
      rw [hm, hco]
      simp only [World.as, if_neg hj]
    · intro di hdi
      have := hp.dinfo di hdi
      unfold World.DInfoOk at this ⊢
      simp only [hm]; exact this
  · rw [recast_read h.fs hp] at hr
    by_cases e : p.base = id
    · rw [if_pos e] at hr
      cases hx : t.fs.read p with
      | none => rw [hx] at hr; cases hr
      | some x => rw [hx] at hr; cases hr; left; simp [World.as, e]
    · rw [if_neg e] at hr
      rcases h.fs.content p d hp hr with h' | ⟨h1, h2⟩
      · left; rw [h']; simp [World.as, e]
      · exact .inr ⟨h1, h2⟩

/-- The paths under which a package that is not a delta may be found outside, except those in `X`. (No code: a notion of the
statements and proofs.) -/
def looseBut (W : World) (X : Path → Prop) (p : Path) : Prop := W.isDelta p.base = false ∧ ¬ X p

theorem Twin.recast {X : Path → Prop} (h : Twin W.E (looseBut W X) s t)
    (hi : Inv (W.as κ) t) {id : Str} {c : Content} (hd : W.isDelta id = false)
    (hn : t.db.pool.get id = none) (hc : W.E.parse c = W.E.parse (κ id)) (hX : ∀ p, X p → p.base ≠ id) :
    Twin W.E (looseBut W X) s (t.recast id c) :=
  { h with
    data := fun i => by
      by_cases hk : t.copyOf id i
      · have hdat : (t.recast id c).fs.data i = c := by simp [St.recast, hk]
        rw [hdat]
        obtain ⟨q, hq, hqa, hqb⟩ := hk
        have hbase : ∀ p, t.fs.tab p = some i → p.isAsset = false ∧ p.base = id := by
          intro p hp
          have := hi.fs.owner p q i hp hq
          cases p <;> cases q <;> simp_all [Path.owner, Path.isAsset, Path.base]
        refine .inr ⟨?_, ?_⟩
        · intro p hp
          rw [h.tab] at hp
          obtain ⟨h1, h2⟩ := hbase p hp
          refine ⟨?_, by rw [looseBut, h2]; exact ⟨hd, fun hx => hX p hx h2⟩⟩
          cases p with
          | ext f => exact .inl ⟨f, rfl⟩
          | stage r d => exact .inr ⟨r, d, rfl⟩
          | asset r a => cases h1
          | pool x j =>
            obtain rfl : j = id := h2
            obtain ⟨⟨pe, hpe⟩, _⟩ := (hi.poolFile j x).1 (by rw [hp]; rfl)
            rw [hn] at hpe; cases hpe
          | repo r x j =>
            obtain rfl : j = id := h2
            obtain ⟨hh, _⟩ := (hi.repoFile r j x hd).1 (by rw [hp]; rfl)
            obtain ⟨_, _, pe, hpe⟩ := hi.has_facts hh
            rw [hn] at hpe; cases hpe
        · -- what `t` held before
          have ht : W.E.parse (t.fs.data i) = W.E.parse (κ id) := by
            rcases hi.fs.content q (t.fs.data i) hqa (by unfold FS.read; rw [hq]; rfl) with h' | ⟨h', _⟩
            · rw [h', hqb]; rfl
            · rw [hqb] at h'; rw [show (W.as κ).isDelta id = W.isDelta id from rfl, hd] at h'; cases h'
          rcases h.data i with h' | ⟨_, h'⟩
          · left; rw [h', ht, hc]
          · rcases h' with h' | h'
            · left; rw [h', ht, hc]
            · exact .inr h'
      · have hdat : (t.recast id c).fs.data i = t.fs.data i := by simp [St.recast, hk]
        rw [hdat]; exact h.data i }

/-- Importing one file, whatever its bytes. (No code: a notion of the statements and proofs.) -/
structure TookIn (W : World) (κ κ' : Str → Content) (X : Path → Prop) (r f : Str) (s : St) (o : Out Unit) (t' : St) : Prop where
  agrees : Agrees W κ'
  twin : Twin W.E (looseBut W X) o.st t'
  inv : Inv (W.as κ') t'
  pooled : ∀ id pe, s.db.pool.get id = some pe → κ' id = κ id
  other : ∀ id, id ≠ baseName f → κ' id = κ id
  kept : X (.ext f) → κ' = κ
  noPanic : o.res ≠ .panic
  reads : ∀ g, X (.ext g) → o.st.fs.read (.ext g) = s.fs.read (.ext g)
  repos : o.st.db.repos = s.db.repos
  poolGe : ∀ id pe, s.db.pool.get id = some pe → ∃ pe', o.st.db.pool.get id = some pe'
  has : ∀ r' j, s.has r' j = true → o.st.has r' j = true
  done : o.res = .ok () → o.st.has r (baseName f) = true ∧
    ∃ c, s.fs.read (.ext f) = some c ∧ (s.db.pool.get (baseName f) = none → κ' (baseName f) = c)

theorem addPackage_bad {E : Env} {r f : Str} {b : Bool} {s : St}
    (h : s.fs.read (.ext f) = none ∨ ∃ c, s.fs.read (.ext f) = some c ∧ E.parse c = .bad) :
    ∃ e, addPackage E r (.ext f) b s = ⟨.err e, s, []⟩ := by
  unfold addPackage
  rcases h with h | ⟨c, h, hb⟩
  · exact ⟨.io, bind_err (by unfold openPkg; rw [getSt_bind, h]; rfl)⟩
  · exact ⟨.corrupt, bind_err (by unfold openPkg; rw [getSt_bind, h]; simp only; rw [hb]; rfl)⟩

theorem addPackage_loose (ok : W.OK) {X : Path → Prop} (hA : Agrees W κ) (h : Twin W.E (looseBut W X) s t)
    (hi : Inv (W.as κ) t) {r : Str} (hr : r ∈ s.db.repos.keys) (f : Str) (hnd : W.isDelta (baseName f) = false)
    (strict : Bool) (hX : (∀ p, X p → p.base ≠ baseName f) ∨ X (.ext f)) :
    ∃ κ' t', TookIn W κ κ' X r f s (addPackage W.E r (.ext f) strict s) t' := by
  have refused : (s.fs.read (.ext f) = none ∨ ∃ c, s.fs.read (.ext f) = some c ∧ W.E.parse c = .bad) →
      ∃ κ' t', TookIn W κ κ' X r f s (addPackage W.E r (.ext f) strict s) t' := by
    intro hb
    obtain ⟨e, he⟩ := addPackage_bad (r := r) (b := strict) hb
    rw [he]
    exact ⟨κ, t, hA, h, hi, fun _ _ _ => rfl, fun _ _ => rfl, fun _ => rfl, by simp, fun _ _ => rfl, rfl,
      fun _ pe hg => ⟨pe, hg⟩, fun _ _ h => h, fun h => by cases h⟩
  cases hrd : s.fs.read (.ext f) with
  | none => exact refused (.inl hrd)
  | some c =>
    by_cases hb : W.E.parse c = .bad
    · exact refused (.inr ⟨c, hrd, hb⟩)
    · -- the bytes on the other side read as the same package
      have htab : ∃ i, s.fs.tab (.ext f) = some i ∧ s.fs.data i = c := by
        unfold FS.read at hrd
        cases hx : s.fs.tab (.ext f) with
        | none => rw [hx] at hrd; cases hrd
        | some i => rw [hx] at hrd; exact ⟨i, rfl, by simpa using hrd⟩
      obtain ⟨i, hti, hdi⟩ := htab
      have htr : t.fs.read (.ext f) = some (t.fs.data i) := by unfold FS.read; rw [← h.tab, hti]; rfl
      have hκ : t.fs.data i = κ (baseName f) := by
        rcases hi.fs.content (.ext f) _ rfl htr with h' | ⟨h', _⟩
        · exact h'
        · rw [show (W.as κ).isDelta (Path.ext f).base = W.isDelta (baseName f) from rfl, hnd] at h'; cases h'
      have hpar : W.E.parse c = W.E.parse (κ (baseName f)) := by
        rcases h.data i with h' | ⟨_, h' | h'⟩
        · rw [← hdi, h', hκ]
        · rw [← hdi, h', hκ]
        · rw [hdi] at h'; exact absurd h' hb
      -- make the other side hold the same bytes if they are going to be taken in
      have hsw : ∃ κ' t0, Agrees W κ' ∧ Twin W.E (looseBut W X) s t0 ∧ Inv (W.as κ') t0 ∧
          (∀ id pe, s.db.pool.get id = some pe → κ' id = κ id) ∧ (∀ id, id ≠ baseName f → κ' id = κ id) ∧
          (X (.ext f) → κ' = κ) ∧ (∀ g, t0.fs.read (.ext g) = t.fs.read (.ext g) ∨ ¬ X (.ext g)) ∧
          t0.fs.read (.ext f) = some (κ' (baseName f)) ∧
          (s.db.pool.get (baseName f) = none → κ' (baseName f) = c) := by
        have stay : X (.ext f) ∨ (∃ pe, s.db.pool.get (baseName f) = some pe) → ∃ κ' t0, Agrees W κ' ∧ Twin W.E (looseBut W X) s t0 ∧ Inv (W.as κ') t0 ∧
          (∀ id pe, s.db.pool.get id = some pe → κ' id = κ id) ∧ (∀ id, id ≠ baseName f → κ' id = κ id) ∧
          (X (.ext f) → κ' = κ) ∧ (∀ g, t0.fs.read (.ext g) = t.fs.read (.ext g) ∨ ¬ X (.ext g)) ∧
          t0.fs.read (.ext f) = some (κ' (baseName f)) ∧
          (s.db.pool.get (baseName f) = none → κ' (baseName f) = c) := by
          intro hor
          refine ⟨κ, t, hA, h, hi, fun _ _ _ => rfl, fun _ _ => rfl, fun _ => rfl, fun _ => .inl rfl,
            by rw [htr, hκ], fun hn => ?_⟩
          rcases hor with hx | ⟨pe, hpe⟩
          · have := h.read (p := .ext f) (fun y => y.2.2 hx)
            rw [hrd, htr, hκ] at this
            exact (Option.some.inj this).symm
          · rw [hn] at hpe; cases hpe
        by_cases hx : X (.ext f)
        · exact stay (.inl hx)
        · cases hg : s.db.pool.get (baseName f) with
          | some pe => rw [hg] at stay; exact stay (.inr ⟨pe, rfl⟩)
          | none =>
            have hX' : ∀ p, X p → p.base ≠ baseName f := hX.resolve_right hx
            have hn : t.db.pool.get (baseName f) = none := by rw [← h.db]; exact hg
            refine ⟨_, t.recast (baseName f) c, hA.set hnd hpar, h.recast hi hnd hn hpar hX',
              hi.recast hA hnd hn hpar, ?_, ?_, fun y => absurd y hx, ?_, ?_, ?_⟩
            · intro id pe hpe
              rw [if_neg]; rintro rfl; rw [hg] at hpe; cases hpe
            · intro id hid; rw [if_neg hid]
            · intro g
              by_cases hxg : X (.ext g)
              · left; rw [recast_read hi.fs rfl, if_neg (hX' _ hxg)]
              · exact .inr hxg
            · rw [recast_read hi.fs rfl, if_pos (by rfl), htr]; simp
            · intro _; simp
      obtain ⟨κ', t0, hA', h0, hi0, hp0, ho0, hx0, hg0, hr0, hc0⟩ := hsw
      have hk0 : W.E.parse (κ' (baseName f)) = W.E.parse (κ (baseName f)) := by rw [hA'.parse, hA.parse]
      have par : Par W.E (looseBut W X) (addPackage W.E r (.ext f) strict) s t0 := by
        refine same_addPackage h0 r f strict ?_ ?_
        · rw [hrd, hr0]; simp only [Option.map_some]; rw [hpar, hk0]
        · intro hn; rw [hrd, hr0, hc0 hn]
      have hr' : r ∈ t0.db.repos.keys := by rw [← h0.db]; exact hr
      have fin : (∃ s' tr, addPackage W.E r (.ext f) strict t0 = ⟨.ok (), s', tr⟩ ∧
          AddedAll (W.as κ') t0 s' r [baseName f]) ∨
          (∃ e, addPackage W.E r (.ext f) strict t0 = ⟨.err e, t0, []⟩) := by
        cases strict with
        | false =>
          rcases addPackage_run (W := W.as κ') (hA'.ok ok) hi0 hr' f hnd with ⟨_, _, s', tr, h1, h2, _⟩ | ⟨_, e, h1⟩
          · exact .inl ⟨s', tr, h1, h2⟩
          · exact .inr ⟨e, h1⟩
        | true =>
          rcases addPackageStrict_run (W := W.as κ') (hA'.ok ok) hi0 hr' f hnd with ⟨_, _, s', tr, h1, h2, _⟩ | ⟨_, e, h1⟩
          · exact .inl ⟨s', tr, h1, h2⟩
          · exact .inr ⟨e, h1⟩
      have hreads : ∀ g, X (.ext g) → t0.fs.read (.ext g) = s.fs.read (.ext g) := fun g hg =>
        (h0.read (p := .ext g) (fun y => y.2.2 hg)).symm
      rcases fin with ⟨s', tr, hrun, ha⟩ | ⟨e, hrun⟩
      · have hres := par.res
        have hst := par.st
        rw [hrun] at hres hst
        refine ⟨κ', s', hA', hst, ha.inv, hp0, ho0, hx0, by rw [hres]; simp, ?_, ?_, ?_, ?_, fun _ => ⟨?_, c, hrd, hc0⟩⟩
        · intro g hg
          rw [hst.read (p := .ext g) (fun y => y.2.2 hg), ha.frame.read (.ext g) rfl rfl (by simp), hreads g hg]
        · rw [hst.db, ha.repos, ← h0.db]
        · intro id pe hpe
          rw [hst.db]; exact ha.poolGe id pe (by rw [← h0.db]; exact hpe)
        · intro r' j hj
          rw [hst.has]; rw [h0.has] at hj
          exact (ha.has r' j).2 (.inl hj)
        · rw [hst.has]; exact (ha.has r _).2 (.inr ⟨rfl, by simp⟩)
      · have hres := par.res
        have hst := par.st
        rw [hrun] at hres hst
        refine ⟨κ', t0, hA', hst, hi0, hp0, ho0, hx0, by rw [hres]; simp, ?_, by rw [hst.db, h0.db], ?_, ?_,
          fun hk => by rw [hres] at hk; cases hk⟩
        · intro g hg
          rw [hst.read (p := .ext g) (fun y => y.2.2 hg), hreads g hg]
        · intro id pe hpe; rw [hst.db, ← h0.db]; exact ⟨pe, hpe⟩
        · intro r' j hj; rw [hst.has, ← h0.has]; exact hj

/-- Importing several files, whatever their bytes. (No code: a notion of the statements and proofs.) -/
structure TookAll (W : World) (κ κ' : Str → Content) (X : Path → Prop) (r : Str) (files : List Str) (s : St) (o : Out Unit)
    (t' : St) : Prop where
  agrees : Agrees W κ'
  twin : Twin W.E (looseBut W X) o.st t'
  inv : Inv (W.as κ') t'
  pooled : ∀ id pe, s.db.pool.get id = some pe → κ' id = κ id
  other : ∀ id, (∀ f ∈ files, baseName f ≠ id) → κ' id = κ id
  noPanic : o.res ≠ .panic
  reads : ∀ g, X (.ext g) → o.st.fs.read (.ext g) = s.fs.read (.ext g)
  repos : o.st.db.repos = s.db.repos
  poolGe : ∀ id pe, s.db.pool.get id = some pe → ∃ pe', o.st.db.pool.get id = some pe'
  has : ∀ r' j, s.has r' j = true → o.st.has r' j = true
  done : o.res = .ok () → ∀ f ∈ files, o.st.has r (baseName f) = true

theorem addLoop_loose (ok : W.OK) {X : Path → Prop} {r : Str} (strict : Bool) (files : List Str) :
    ∀ {s t : St} {κ : Str → Content}, Agrees W κ → Twin W.E (looseBut W X) s t → Inv (W.as κ) t →
      r ∈ s.db.repos.keys → (∀ f ∈ files, W.isDelta (baseName f) = false) →
      (∀ f ∈ files, ∀ p, X p → p.base ≠ baseName f) →
      ∃ κ' t', TookAll W κ κ' X r files s (forL files (fun f => addPackage W.E r (.ext f) strict) s) t' := by
  induction files with
  | nil =>
    intro s t κ hA h hi _ _ _
    exact ⟨κ, t, hA, h, hi, fun _ _ _ => rfl, fun _ _ => rfl, by simp, fun _ _ => rfl, rfl, fun _ pe hg => ⟨pe, hg⟩,
      fun _ _ h => h, fun _ f hf => by cases hf⟩
  | cons f fs ih =>
    intro s t κ hA h hi hr hnd hX
    obtain ⟨κ1, t1, k1⟩ := addPackage_loose ok hA h hi hr f (hnd f (by simp)) strict (.inl (hX f (by simp)))
    rw [forL_cons]
    rcases hrun : addPackage W.E r (.ext f) strict s with ⟨res, s1, tr1⟩
    rw [hrun] at k1
    rcases res with u | e | _
    · obtain ⟨κ2, t2, k2⟩ := ih k1.agrees k1.twin k1.inv (by rw [k1.repos]; exact hr)
        (fun g hg => hnd g (by simp [hg])) (fun g hg => hX g (by simp [hg]))
      rw [bind_ok hrun]
      refine ⟨κ2, t2, k2.agrees, k2.twin, k2.inv, ?_, ?_, k2.noPanic, ?_, k2.repos.trans k1.repos, ?_, ?_, ?_⟩
      · intro id pe hg
        obtain ⟨pe', hg'⟩ := k1.poolGe id pe hg
        rw [k2.pooled id pe' hg', k1.pooled id pe hg]
      · intro id hid
        rw [k2.other id (fun g hg => hid g (by simp [hg])), k1.other id (fun e => hid f (by simp) e.symm)]
      · intro g hg
        exact (k2.reads g hg).trans (k1.reads g hg)
      · intro id pe hg
        obtain ⟨pe', hg'⟩ := k1.poolGe id pe hg
        exact k2.poolGe id pe' hg'
      · intro r' j hj; exact k2.has r' j (k1.has r' j hj)
      · intro hok g hg
        rcases List.mem_cons.1 hg with rfl | hg
        · exact k2.has _ _ (k1.done rfl).1
        · exact k2.done hok g hg
    · rw [bind_err hrun]
      exact ⟨κ1, t1, k1.agrees, k1.twin, k1.inv, k1.pooled, fun id hid => k1.other id (fun e => hid f (by simp) e.symm),
        by simp, k1.reads, k1.repos, k1.poolGe, k1.has, fun hk => by cases hk⟩
    · exact absurd rfl k1.noPanic

theorem Twin.forget {X : Path → Prop} (h : Twin W.E (looseBut W X) s t) :
    Twin W.E (looseBut W fun _ => False) s t := h.widen fun _ h => ⟨h.1, id⟩

/-- What a package new to the pool gets: the bytes of the first file of its name. -/
theorem addLoop_first (ok : W.OK) {r : Str} (strict : Bool) (pre : List Str) (g : Str) (post : List Str) {c : Content}
    (hA : Agrees W κ) (h : Twin W.E (looseBut W fun _ => False) s t) (hi : Inv (W.as κ) t)
    (hr : r ∈ s.db.repos.keys) (hnd : ∀ f ∈ pre ++ g :: post, W.isDelta (baseName f) = false)
    (hpre : ∀ f ∈ pre, baseName f ≠ baseName g) (hg : s.db.pool.get (baseName g) = none)
    (hc : s.fs.read (.ext g) = some c) (hb : W.E.parse c = W.E.parse (κ (baseName g)))
    (hok : (forL (pre ++ g :: post) (fun f => addPackage W.E r (.ext f) strict) s).res = .ok ()) :
    ∃ κ' t', TookAll W κ κ' (fun _ => False) r (pre ++ g :: post) s
        (forL (pre ++ g :: post) (fun f => addPackage W.E r (.ext f) strict) s) t' ∧ κ' (baseName g) = c := by
  have hndg := hnd g (by simp)
  -- let the name stand for these bytes from the start
  have hgt : t.db.pool.get (baseName g) = none := by rw [← h.db]; exact hg
  have h0 := h.recast hi hndg hgt hb (by simp)
  have hi0 := hi.recast hA hndg hgt hb
  have hA0 := hA.set hndg hb
  have htr : (t.recast (baseName g) c).fs.read (.ext g) = some c := by
    rw [recast_read hi.fs rfl, if_pos (by rfl)]
    have : (t.fs.tab (.ext g)).isSome = true := by
      rw [← h.tab, ← FS.read_isSome, hc]; rfl
    rw [← FS.read_isSome] at this
    cases hx : t.fs.read (.ext g) with
    | none => rw [hx] at this; cases this
    | some x => rfl
  have h0' : Twin W.E (looseBut W fun p => p = .ext g) s (t.recast (baseName g) c) :=
    (h0.narrow (p := .ext g) (by rw [hc, htr])).widen fun _ x => ⟨x.1.1, x.2⟩
  obtain ⟨κ1, t1, k1⟩ := addLoop_loose ok strict pre hA0 h0' hi0 hr (fun f hf => hnd f (by simp [hf]))
    (fun f hf p hp => by subst hp; exact fun e => hpre f hf e.symm)
  have hκ1 : κ1 (baseName g) = c := by rw [k1.other _ hpre]; simp
  rw [forL_append] at hok
  rw [forL_append]
  rcases hrun1 : forL pre (fun f => addPackage W.E r (.ext f) strict) s with ⟨res1, s1, tr1⟩
  rw [hrun1] at k1
  rcases res1 with u | e | _
  case err => rw [bind_err hrun1] at hok; cases hok
  case panic => exact absurd rfl k1.noPanic
  rw [bind_ok hrun1, forL_cons] at hok
  rw [bind_ok hrun1, forL_cons]
  obtain ⟨κ2, t2, k2⟩ := addPackage_loose ok k1.agrees k1.twin k1.inv (by rw [k1.repos]; exact hr) g hndg strict (.inr rfl)
  have hκ2 : κ2 (baseName g) = c := by rw [k2.kept rfl]; exact hκ1
  rcases hrun2 : addPackage W.E r (.ext g) strict s1 with ⟨res2, s2, tr2⟩
  rw [hrun2] at k2
  rcases res2 with u | e | _
  case err => rw [bind_err hrun2] at hok; cases hok
  case panic => exact absurd rfl k2.noPanic
  rw [bind_ok hrun2] at hok ⊢
  obtain ⟨κ3, t3, k3⟩ := addLoop_loose (X := fun _ => False) ok strict post k2.agrees k2.twin.forget k2.inv (by rw [k2.repos, k1.repos]; exact hr)
    (fun f hf => hnd f (by simp [hf])) (fun _ _ _ h => h.elim)
  have hh2 : s2.has r (baseName g) = true := (k2.done rfl).1
  obtain ⟨pe, hpe⟩ : ∃ pe, s2.db.pool.get (baseName g) = some pe := by
    have := hh2
    rw [k2.twin.has] at this
    rw [k2.twin.db]
    exact (k2.inv.has_facts this).2.2
  have hκ3 : κ3 (baseName g) = c := by rw [k3.pooled _ pe hpe]; exact hκ2
  refine ⟨κ3, t3, ⟨k3.agrees, k3.twin, k3.inv, ?_, ?_, k3.noPanic, fun _ hx => hx.elim, k3.repos.trans (k2.repos.trans k1.repos), ?_,
    ?_, ?_⟩, hκ3⟩
  · intro id pe hid
    obtain ⟨pe1, h1⟩ := k1.poolGe id pe hid
    obtain ⟨pe2, h2⟩ := k2.poolGe id pe1 h1
    rw [k3.pooled id pe2 h2, k2.pooled id pe1 h1, k1.pooled id pe hid, if_neg]
    rintro rfl; rw [hg] at hid; cases hid
  · intro id hid
    have hne : id ≠ baseName g := fun e => hid g (by simp) e.symm
    rw [k3.other id (fun f hf => hid f (by simp [hf])), k2.other id hne, k1.other id (fun f hf => hid f (by simp [hf])),
      if_neg hne]
  · intro id pe hid
    obtain ⟨pe1, h1⟩ := k1.poolGe id pe hid
    obtain ⟨pe2, h2⟩ := k2.poolGe id pe1 h1
    exact k3.poolGe id pe2 h2
  · intro r' j hj; exact k3.has r' j (k2.has r' j (k1.has r' j hj))
  · intro hk f hf
    rcases List.mem_append.1 hf with hf | hf
    · exact k3.has _ _ (k2.has _ _ (k1.done rfl f hf))
    · rcases List.mem_cons.1 hf with rfl | hf
      · exact k3.has _ _ hh2
      · exact k3.done hk f hf

/-! ## Files that are not taken in stay as they are -/

/-- `J` survives the code. (No code: a notion of the statements and proofs.) -/
structure Stays {α : Type} (J : St → Prop) (m : M α) : Prop where
  run : ∀ s, J s → J (m s).st

section Stays
variable {J : St → Prop} {α β : Type}

theorem Stays.bind {m : M α} {f : α → M β} (h : Stays J m)
    (hf : ∀ a s, (m s).res = .ok a → J s → Stays J (f a)) : Stays J (m >>= f) := ⟨fun s hs => by
  rw [bind_def]
  rcases hm : (m s).res with a | e | _
  · exact (hf a s hm hs).run _ (h.run s hs)
  · exact h.run s hs
  · exact h.run s hs⟩

theorem Stays.seq {m : M α} {f : α → M β} (h : Stays J m) (hf : ∀ a, Stays J (f a)) : Stays J (m >>= f) :=
  h.bind fun a _ _ _ => hf a

theorem Stays.reads {m : M α} (h : Reads m) : Stays J m := ⟨fun s hs => by rw [h.st]; exact hs⟩
theorem Stays.pure (a : α) : Stays J (Pure.pure a : M α) := ⟨fun _ h => h⟩
theorem Stays.throw (e : Err) : Stays J (throwE e : M α) := ⟨fun _ h => h⟩
theorem Stays.panic : Stays J (panicM : M α) := ⟨fun _ h => h⟩
theorem Stays.getSt {f : St → M α} (h : ∀ s, J s → J ((f s) s).st) : Stays J (getSt >>= f) := ⟨fun s hs => h s hs⟩

end Stays

/-- The upload `g` holds `c` in an inode that no file of pool or repositories shares, nor the upload `f`. (No code: a notion of the
statements and proofs.) -/
structure Lone (g f : Str) (i : Nat) (c : Content) (u : St) : Prop where
  at_ : u.fs.tab (.ext g) = some i
  data : u.fs.data i = c
  lone : ∀ p, u.fs.tab p = some i → p.Outside
  lt : i < u.fs.next
  ne : u.fs.tab (.ext f) ≠ some i

section Lone
variable {E : Env} {g f : Str} {i : Nat} {c : Content}

theorem Lone.setTab {u : St} (h : Lone g f i c u) {p : Path} (hp : ¬ p.Outside) {j : Option Nat} (hj : j ≠ some i) :
    Lone g f i c (u.setFs (u.fs.setTab p j)) := by
  have he : ∀ x, Path.ext x ≠ p := by rintro x rfl; exact hp (.inl ⟨x, rfl⟩)
  refine ⟨?_, h.data, ?_, h.lt, ?_⟩
  · simp only [St.setFs_fs, FS.setTab_tab, if_neg (he g)]; exact h.at_
  · intro q hq
    simp only [St.setFs_fs, FS.setTab_tab] at hq
    split at hq
    · exact absurd hq hj
    · exact h.lone q hq
  · simp only [St.setFs_fs, FS.setTab_tab, if_neg (he f)]; exact h.ne

theorem Lone.setData {u : St} (h : Lone g f i c u) {j : Nat} (hj : j ≠ i) (d : Content) :
    Lone g f i c (u.setFs (u.fs.setData j d)) :=
  ⟨h.at_, by simp only [St.setFs_fs, FS.setData_data, if_neg (Ne.symm hj)]; exact h.data, h.lone, h.lt, h.ne⟩

theorem Lone.setNext {u : St} (h : Lone g f i c u) {n : Nat} (hn : u.fs.next ≤ n) :
    Lone g f i c (u.setFs { u.fs with next := n }) :=
  ⟨h.at_, h.data, h.lone, Nat.lt_of_lt_of_le h.lt hn, h.ne⟩

theorem Lone.openTrunc {u : St} (h : Lone g f i c u) {p : Path} (hp : ¬ p.Outside) :
    (u.fs.openTrunc p).2 ≠ i ∧ Lone g f i c (u.setFs (u.fs.openTrunc p).1) := by
  unfold FS.openTrunc
  cases hx : u.fs.tab p with
  | some j =>
    have : j ≠ i := by rintro rfl; exact hp (h.lone p hx)
    exact ⟨this, h.setData this []⟩
  | none =>
    have hne : u.fs.next ≠ i := by have := h.lt; omega
    refine ⟨hne, ?_⟩
    have h1 := h.setTab hp (j := some u.fs.next) (by simpa using hne)
    have h2 := h1.setData (j := u.fs.next) hne []
    exact h2.setNext (n := u.fs.next + 1) (Nat.le_succ _)

theorem lone_copyFile {a b : Path} (hb : ¬ b.Outside) : Stays (Lone g f i c) (copyFile a b) := by
  unfold copyFile
  refine .getSt fun s hs => ?_
  cases hx : s.fs.tab a with
  | none => exact hs
  | some k =>
    obtain ⟨h1, h2⟩ := hs.openTrunc hb
    simp only [stepM_bind, stepM_run]
    exact h2.setData h1 _

theorem lone_linkOrCopy {a b : Path} (ha : a = .ext f ∨ ¬ a.Outside) (hb : ¬ b.Outside) (k : Bool) :
    Stays (Lone g f i c) (linkOrCopy E a b k) := by
  unfold linkOrCopy
  split
  · exact lone_copyFile hb
  · refine .getSt fun s hs => ?_
    have hc := (lone_copyFile (a := a) (g := g) (f := f) (i := i) (c := c) hb).run s hs
    cases hx : s.fs.tab a with
    | none => exact hc
    | some j =>
      cases hy : s.fs.tab b with
      | some j' => exact hc
      | none =>
        simp only
        split
        · simp only [stepM_run]
          refine hs.setTab hb ?_
          intro e
          obtain rfl := Option.some.inj e
          rcases ha with rfl | ha
          · exact hs.ne hx
          · exact ha (hs.lone a hx)
        · exact hc

theorem lone_dbWrite (w : DbWrite) : Stays (Lone g f i c) (dbWrite .direct w) := by
  unfold dbWrite
  split
  · exact .throw _
  · exact ⟨fun s hs => ⟨hs.at_, hs.data, hs.lone, hs.lt, hs.ne⟩⟩

theorem not_outside_pool (x id : Str) : ¬ (Path.pool x id).Outside := by
  rintro (⟨f, hf⟩ | ⟨r, d, hf⟩) <;> cases hf
theorem not_outside_repo (r x id : Str) : ¬ (Path.repo r x id).Outside := by
  rintro (⟨f, hf⟩ | ⟨r, d, hf⟩) <;> cases hf

section Imports
variable {J : St → Prop}

theorem stays_poolAdd (hl : ∀ a b k, a = .ext f ∨ ¬ a.Outside → ¬ b.Outside → Stays J (linkOrCopy E a b k))
    (hw : ∀ w, Stays J (dbWrite .direct w)) (hr : ∀ s x id, J s → J (s.setFs (s.fs.setTab (.pool x id) none)))
    (p : Pkg) (hp : p.path = .ext f) (d : Option DeltaInfo) (k : Bool) :
    Stays J (poolAddInternal E p k d) := by
  unfold poolAddInternal
  refine (Stays.reads (poolGet?_reads _)).seq fun o => ?_
  cases o with
  | some e => exact (hw _).seq fun _ => .pure _
  | none =>
    refine (Stays.reads Reads.getSt).seq fun s => ?_
    cases s.fs.read p.path with
    | none => exact .throw _
    | some x =>
      refine (Stays.reads (pathComp_reads _)).seq fun comp =>
        (hl _ _ k (.inl hp) (not_outside_pool _ _)).seq fun _ =>
        (Stays.reads (fileSha1_reads _ _)).seq fun sha => ?_
      split
      · exact Stays.seq ⟨fun s hs => hr s _ _ hs⟩ fun _ => .throw _
      · exact (hw _).seq fun _ => .pure _

theorem stays_addPackage (hl : ∀ a b k, a = .ext f ∨ ¬ a.Outside → ¬ b.Outside → Stays J (linkOrCopy E a b k))
    (hw : ∀ w, Stays J (dbWrite .direct w)) (hr : ∀ s x id, J s → J (s.setFs (s.fs.setTab (.pool x id) none)))
    (r : Str) (strict : Bool) : Stays J (addPackage E r (.ext f) strict) := by
  unfold addPackage
  refine (Stays.reads (openPkg_reads _ _)).bind fun p s hs _ => ?_
  have hp := (openPkg_path hs).1
  have key : Stays J (addLocalPackage E r p) := by
    unfold addLocalPackage
    refine (Stays.reads (pathComp_reads _)).seq fun comp => (Stays.reads (buildSaneEntry_reads _ _ _)).seq fun o => ?_
    cases o with
    | none => exact .pure _
    | some ne =>
      exact (stays_poolAdd hl hw hr p hp _ _).seq fun _ =>
        (hl _ _ _ (.inr (not_outside_pool _ _)) (not_outside_repo _ _ _)).seq fun _ => hw _
  split
  · exact key
  · refine (Stays.reads (repoGet?_reads _ _)).seq fun o => ?_
    cases o with
    | none => exact key
    | some l =>
      refine (Stays.reads (poolGet_reads _)).seq fun _ => (Stays.reads (getRelease_reads _)).seq fun _ =>
        (Stays.reads (getRelease_reads _)).seq fun _ => ?_
      split
      · exact .throw _
      · split
        · exact .throw _
        · exact key

end Imports

theorem lone_addPackage (r : Str) (strict : Bool) : Stays (Lone g f i c) (addPackage E r (.ext f) strict) :=
  stays_addPackage (fun _ _ k ha hb => lone_linkOrCopy ha hb k) lone_dbWrite
    (fun _ _ _ hs => hs.setTab (not_outside_pool _ _) (by simp)) r strict

theorem absent_copyFile {a b : Path} (hb : ¬ b.Outside) : Stays (fun u => u.fs.tab (.ext g) = none) (copyFile a b) := by
  have hne : Path.ext g ≠ b := by rintro rfl; exact hb (.inl ⟨g, rfl⟩)
  unfold copyFile
  refine .getSt fun s hs => ?_
  cases hx : s.fs.tab a with
  | none => exact hs
  | some k =>
    simp only [stepM_bind, stepM_run]
    show ((s.fs.openTrunc b).1.setData _ _).tab (.ext g) = none
    unfold FS.openTrunc
    cases hy : s.fs.tab b with
    | some j => exact hs
    | none => simp only [FS.setData, FS.setTab]; rw [if_neg hne]; exact hs

theorem absent_linkOrCopy {a b : Path} (hb : ¬ b.Outside) (k : Bool) :
    Stays (fun u => u.fs.tab (.ext g) = none) (linkOrCopy E a b k) := by
  have hne : Path.ext g ≠ b := by rintro rfl; exact hb (.inl ⟨g, rfl⟩)
  unfold linkOrCopy
  split
  · exact absent_copyFile hb
  · refine .getSt fun s hs => ?_
    have hc := (absent_copyFile (a := a) (g := g) hb).run s hs
    cases hx : s.fs.tab a with
    | none => exact hc
    | some j =>
      cases hy : s.fs.tab b with
      | some j' => exact hc
      | none =>
        simp only
        split
        · simp only [stepM_run, St.setFs_fs, FS.setTab_tab]; rw [if_neg hne]; exact hs
        · exact hc

/-- A request that names a missing file fails. -/
theorem addLoop_missing (files : List Str) (strict : Bool) (r : Str) :
    ∀ {s : St}, s.fs.tab (.ext g) = none → g ∈ files →
      (forL files (fun f => addPackage E r (.ext f) strict) s).res ≠ .ok () := by
  induction files with
  | nil => intro s _ hg; cases hg
  | cons f fs ih =>
    intro s h1 hg
    rw [forL_cons]
    by_cases hf : g = f
    · subst hf
      obtain ⟨e, he⟩ := addPackage_bad (E := E) (r := r) (b := strict) (f := g) (s := s)
        (.inl (by unfold FS.read; rw [h1]; rfl))
      rw [bind_err he]; simp
    · have hgf : g ∈ fs := by
        rcases List.mem_cons.1 hg with h | h
        · exact absurd h hf
        · exact h
      have hl := (stays_addPackage (E := E) (f := f) (J := fun u => u.fs.tab (.ext g) = none)
        (fun _ _ k _ hb => absent_linkOrCopy hb k)
        (fun w => by
          unfold dbWrite
          split
          · exact .throw _
          · exact ⟨fun s hs => hs⟩)
        (fun s x id hs => by
          simp only [St.setFs_fs, FS.setTab_tab]; rw [if_neg (by simp)]; exact hs) r strict).run s h1
      rcases hrun : addPackage E r (.ext f) strict s with ⟨res, s1, tr⟩
      rw [hrun] at hl
      rcases res with u | e | _
      · rw [bind_ok hrun]; exact ih hl hgf
      · rw [bind_err hrun]; simp
      · rw [bind_panic hrun]; simp

/-- An upload that is no package is still there, unchanged, after other uploads were taken in; so the request fails. -/
theorem addLoop_bad {g : Str} {c : Content} (files : List Str) (strict : Bool) (r : Str) (hb : E.parse c = .bad) :
    ∀ {s : St}, s.fs.tab (.ext g) = some i → s.fs.data i = c → (∀ p, s.fs.tab p = some i → p.Outside) → i < s.fs.next →
      g ∈ files → (forL files (fun f => addPackage E r (.ext f) strict) s).res ≠ .ok () := by
  induction files with
  | nil => intro s _ _ _ _ hg; cases hg
  | cons f fs ih =>
    intro s h1 h2 h3 h4 hg
    rw [forL_cons]
    have refused : s.fs.tab (.ext f) = some i →
        ((addPackage E r (.ext f) strict >>= fun _ => forL fs fun f => addPackage E r (.ext f) strict) s).res ≠ .ok () := by
      intro hf
      obtain ⟨e, he⟩ := addPackage_bad (E := E) (r := r) (b := strict) (f := f) (s := s)
        (.inr ⟨c, by unfold FS.read; rw [hf, ← h2]; rfl, hb⟩)
      rw [bind_err he]; simp
    by_cases hf : s.fs.tab (.ext f) = some i
    · exact refused hf
    · have hgf : g ∈ fs := by
        rcases List.mem_cons.1 hg with rfl | h
        · exact absurd h1 hf
        · exact h
      have hl := (lone_addPackage (E := E) (g := g) (f := f) (i := i) (c := c) r strict).run s ⟨h1, h2, h3, h4, hf⟩
      rcases hrun : addPackage E r (.ext f) strict s with ⟨res, s1, tr⟩
      rw [hrun] at hl
      rcases res with u | e | _
      · rw [bind_ok hrun]
        exact ih hl.at_ hl.data hl.lone hl.lt hgf
      · rw [bind_err hrun]; simp
      · rw [bind_panic hrun]; simp

end Lone

/-! ## Operations -/

/-- What an operation may bring along: a file called like a package may hold any bytes that read as that package, or bytes that
are no package; delta files hold the bytes their name stands for, and calls name packages and deltas as in `Op.Ok`.  (No code: a
notion of the statements and proofs.) -/
def Op.Fits (W : World) : Op → Prop
  | .upload f c => (W.isDelta (baseName f) = true → c = W.canon (baseName f)) ∧
      (W.E.parse c = W.E.parse (W.canon (baseName f)) ∨ W.E.parse c = .bad)
  | .stage _ d c => (W.isDelta d = true → c = W.canon d) ∧
      (W.E.parse c = W.E.parse (W.canon d) ∨ W.E.parse c = .bad)
  | o => o.Ok W

/-- States reachable by histories in which a name does not determine the bytes of a package. (No code: a notion of the statements
and proofs.) -/
def LooseReach (W : World) (s : St) : Prop :=
  ∃ ops : List Op, (∀ o ∈ ops, o.Fits W) ∧ s = runAll W.E St.init ops

theorem Agrees.opOk (hA : Agrees W κ) {o : Op} (hin : o.inward = true) (ho : o.Fits W) : o.Ok (W.as κ) := by
  cases o with
  | addPackages r fs b => cases hin
  | upload f c => cases hin
  | stage r d c => cases hin
  | addDelta r d f t =>
    simp only [Op.Fits, Op.Ok] at ho ⊢
    rw [hA.mOf, hA.mOf, hA.mOf]; exact ho
  | refDelta r d => exact ho
  | _ => trivial

theorem Twin.putFile (hA : Agrees W κ) (h : Twin W.E (looseBut W fun _ => False) s t) (hf : t.fs.Fresh) {p : Path}
    {c : Content} (hp : p.Outside)
    (hd : W.isDelta p.base = true → c = W.canon p.base)
    (hc : W.E.parse c = W.E.parse (W.canon p.base) ∨ W.E.parse c = .bad) :
    Twin W.E (looseBut W fun _ => False) (s.putFile p c) (t.putFile p (κ p.base)) := by
  refine ⟨h.db, h.cache, h.pend, h.clock, ?_, ?_, h.rdir, h.idx, ?_⟩
  · funext q; simp [St.putFile, h.tab, h.next]
  · show s.fs.next + 1 = t.fs.next + 1; rw [h.next]
  · intro i
    have ht : ∀ q, (s.putFile p c).fs.tab q = if q = p then some s.fs.next else s.fs.tab q := fun q => rfl
    have d1 : (s.putFile p c).fs.data i = if i = s.fs.next then c else s.fs.data i := rfl
    have d2 : (t.putFile p (κ p.base)).fs.data i = if i = s.fs.next then κ p.base else t.fs.data i := by
      rw [h.next]; rfl
    rw [d1, d2]
    by_cases e : i = s.fs.next
    · rw [if_pos e, if_pos e]
      by_cases hdd : W.isDelta p.base = true
      · left; rw [hd hdd, hA.delta _ hdd]
      · right
        refine ⟨fun q hq => ?_, by rw [hA.parse]; exact hc⟩
        rw [ht] at hq
        by_cases e' : q = p
        · subst e'; exact ⟨hp, by simpa using hdd, id⟩
        · rw [if_neg e', h.tab] at hq
          have := hf q i hq
          rw [← h.next] at this
          omega
    · rw [if_neg e, if_neg e]
      rcases h.data i with h' | ⟨h1, h2⟩
      · exact .inl h'
      · refine .inr ⟨fun q hq => ?_, h2⟩
        rw [ht] at hq
        by_cases e' : q = p
        · rw [if_pos e'] at hq; exact absurd (Option.some.inj hq).symm e
        · rw [if_neg e'] at hq; exact h1 q hq

/-- The state after a job and its twin. (No code: a notion of the statements and proofs.) -/
structure Went (W : World) (κ κ' : Str → Content) (s : St) (o : Out Unit) (t' : St) : Prop where
  agrees : Agrees W κ'
  twin : Twin W.E (looseBut W fun _ => False) o.st t'
  inv : Inv (W.as κ') t'
  pooled : ∀ id pe, s.db.pool.get id = some pe → κ' id = κ id
  noPanic : o.res ≠ .panic

/-- Looking up the repository before, rebuilding the index after. -/
theorem addJob_of_loop {Q : (Str → Content) → Prop} (ok : W.OK) (h : Twin W.E (looseBut W fun _ => False) s t)
    (hi : Inv (W.as κ) t) {r : Str} {strict : Bool} {files : List Str} (hr : r ∈ s.db.repos.keys)
    (hl : ∀ s1 t1, Twin W.E (looseBut W fun _ => False) s1 t1 → Inv (W.as κ) t1 → s1.db = s.db → s1.fs.tab = s.fs.tab →
      s1.fs.data = s.fs.data → ((mAddPackages W.E r files strict s).res = .ok () →
        (forL files (fun f => addPackage W.E r (.ext f) strict) s1).res = .ok ()) →
      ∃ κ' t', TookAll W κ κ' (fun _ => False) r files s1 (forL files (fun f => addPackage W.E r (.ext f) strict) s1) t' ∧
        Q κ') :
    ∃ κ' t', Went W κ κ' s (mAddPackages W.E r files strict s) t' ∧ Q κ' ∧
      ((mAddPackages W.E r files strict s).res = .ok () →
        (W.as κ').Fresh t' r ∧ ∀ f ∈ files, (mAddPackages W.E r files strict s).st.has r (baseName f) = true) := by
  have hr' : r ∈ t.db.repos.keys := by rw [← h.db]; exact hr
  obtain ⟨t0, hg, _⟩ := getRepo_run hi hr'
  have hgi : Inv (W.as κ) (t.got r) := hi.got hr'
  have pg := same_getRepo h r
  -- the same look-up on the other side
  rcases hgs : getRepo r s with ⟨res, s1, tr⟩
  have hres := pg.res
  have hst := pg.st
  rw [hg, hgs] at hres hst
  simp only at hres hst
  subst hres
  have hs1 : s1.db = s.db ∧ s1.fs.tab = s.fs.tab ∧ s1.fs.data = s.fs.data := by
    unfold getRepo at hgs
    rw [getSt_bind] at hgs
    by_cases hc : r ∈ s.cache
    · rw [if_pos hc] at hgs; cases hgs; exact ⟨rfl, rfl, rfl⟩
    · rw [if_neg hc] at hgs
      cases hx : s.db.repos.get r with
      | none => rw [hx] at hgs; cases hgs
      | some u => rw [hx] at hgs; cases hgs; exact ⟨rfl, rfl, rfl⟩
  have hjob : mAddPackages W.E r files strict s =
      ((forL files (fun f => addPackage W.E r (.ext f) strict) >>= fun _ => mIndex W.E r) s1).pre tr := by
    unfold mAddPackages; rw [bind_ok hgs]
  obtain ⟨κ', t', k, hQ⟩ := hl s1 (t.got r) hst hgi hs1.1 hs1.2.1 hs1.2.2 (by
    intro hok
    rw [hjob, Out.pre_res] at hok
    rcases hx : forL files (fun f => addPackage W.E r (.ext f) strict) s1 with ⟨res, s2, tr2⟩
    rcases res with u | e | _
    · rfl
    · rw [bind_err hx] at hok; cases hok
    · rw [bind_panic hx] at hok; cases hok)
  rw [hjob]
  rcases hx : forL files (fun f => addPackage W.E r (.ext f) strict) s1 with ⟨res, s2, tr2⟩
  rw [hx] at k
  have hpl : ∀ id pe, s.db.pool.get id = some pe → κ' id = κ id := fun id pe hid =>
    k.pooled id pe (by rw [hs1.1]; exact hid)
  rcases res with u | e | _
  · rw [bind_ok hx]
    have pi := same_mIndex k.twin r
    have so := Op.sound (W := W.as κ') (k.agrees.ok ok) k.inv (.index r) trivial
    refine ⟨κ', _, ⟨k.agrees, pi.st, so.inv, hpl, ?_⟩, hQ, ?_⟩
    · simp only [Out.pre_res]; rw [pi.res]; exact so.noPanic
    · intro hok
      have hrs : r ∈ t'.db.repos.keys := by rw [← k.twin.db, k.repos, hs1.1]; exact hr
      have hm := mIndex_run (W := W.as κ') (r := r) (k.agrees.ok ok) k.inv hrs
      refine ⟨hm.fresh (by simp only [Out.pre_res] at hok; rw [pi.res] at hok; exact hok), fun f hf => ?_⟩
      simp only [Out.pre_st]
      have h1 := k.done rfl f hf
      have e : (mIndex W.E r t').st.has = t'.has := St.has_congr hm.neutral.db
      rw [pi.st.has, e, ← k.twin.has]; exact h1
  · rw [bind_err hx]
    exact ⟨κ', t', ⟨k.agrees, k.twin, k.inv, hpl, by simp⟩, hQ, fun hk => by cases hk⟩
  · exact absurd rfl k.noPanic

theorem addJob_missing (h : Twin W.E (looseBut W fun _ => False) s t) (hi : Inv (W.as κ) t) {r : Str}
    (hr : r ∉ s.db.repos.keys) (files : List Str) (strict : Bool) :
    ∃ e st tr, mAddPackages W.E r files strict s = ⟨.err e, st, tr⟩ ∧ Twin W.E (looseBut W fun _ => False) st t := by
  have hg := getRepo_missing hi (r := r) (by rw [← h.db]; exact hr)
  have pg := same_getRepo h r
  rcases hgs : getRepo r s with ⟨res, s1, tr⟩
  have hres := pg.res
  have hst := pg.st
  rw [hg, hgs] at hres hst
  simp only at hres hst
  subst hres
  exact ⟨_, s1, tr, by unfold mAddPackages; rw [bind_err hgs], hst⟩

theorem op_loose (ok : W.OK) (hA : Agrees W κ) (h : Twin W.E (looseBut W fun _ => False) s t) (hi : Inv (W.as κ) t)
    (o : Op) (ho : o.Fits W) : ∃ κ' t', Went W κ κ' s (o.run W.E s) t' := by
  cases hin : o.inward with
  | true =>
    have par := same_op h hin (by
      rintro r d f k rfl
      rintro ⟨_, h2, _⟩
      simp only [Op.Fits, Op.Ok] at ho
      rw [show (Path.stage r d).base = d from rfl, ho.1] at h2; cases h2)
    have so := Op.sound (W := W.as κ) (hA.ok ok) hi o (hA.opOk hin ho)
    exact ⟨κ, _, hA, par.st, so.inv, fun _ _ _ => rfl, by rw [par.res]; exact so.noPanic⟩
  | false =>
    cases o with
    | upload f c =>
      refine ⟨κ, t.putFile (.ext f) (κ (baseName f)), hA, ?_, ?_, fun _ _ _ => rfl, by simp [Op.run]⟩
      · exact h.putFile hA hi.fs.fresh (p := .ext f) (.inl ⟨f, rfl⟩) ho.1 ho.2
      · exact inv_putFile hi (.inl ⟨f, rfl⟩) (fun _ => rfl)
    | stage r d c =>
      refine ⟨κ, t.putFile (.stage r d) (κ d), hA, ?_, ?_, fun _ _ _ => rfl, by simp [Op.run]⟩
      · exact h.putFile hA hi.fs.fresh (p := .stage r d) (.inr ⟨r, d, rfl⟩) ho.1 ho.2
      · exact inv_putFile hi (.inr (.inr ⟨r, d, rfl⟩)) (fun _ => rfl)
    | addPackages r files strict =>
      by_cases hr : r ∈ s.db.repos.keys
      · obtain ⟨κ', t', k, _, _⟩ := addJob_of_loop (Q := fun _ => True) ok h hi hr (fun s1 t1 h1 hi1 hdb _ _ _ => by
          obtain ⟨κ', t', k⟩ := addLoop_loose ok strict files hA h1 hi1 (by rw [hdb]; exact hr) ho (fun _ _ _ h => h.elim)
          exact ⟨κ', t', k, trivial⟩)
        exact ⟨κ', t', k⟩
      · obtain ⟨e, st, tr, hrun, htw⟩ := addJob_missing h hi hr files strict
        refine ⟨κ, t, hA, ?_, hi, fun _ _ _ => rfl, ?_⟩
        · simp only [Op.run]; rw [hrun]; exact htw
        · simp only [Op.run]; rw [hrun]; simp
    | _ => cases hin

/-- Every state of such a history has a twin. -/
theorem LooseReach.twin (ok : W.OK) (h : LooseReach W s) :
    ∃ κ t, Agrees W κ ∧ Twin W.E (looseBut W fun _ => False) s t ∧ Inv (W.as κ) t := by
  obtain ⟨ops, hops, rfl⟩ := h
  have key : ∀ (ops : List Op) (s t : St) (κ : Str → Content), (∀ o ∈ ops, o.Fits W) → Agrees W κ →
      Twin W.E (looseBut W fun _ => False) s t → Inv (W.as κ) t →
      ∃ κ' t', Agrees W κ' ∧ Twin W.E (looseBut W fun _ => False) (runAll W.E s ops) t' ∧ Inv (W.as κ') t' := by
    intro ops
    induction ops with
    | nil => intro s t κ _ hA h hi; exact ⟨κ, t, hA, h, hi⟩
    | cons o os ih =>
      intro s t κ hf hA h hi
      obtain ⟨κ1, t1, k⟩ := op_loose ok hA h hi o (hf o (by simp))
      exact ih _ t1 κ1 (fun x hx => hf x (by simp [hx])) k.agrees k.twin k.inv
  exact key ops _ _ _ hops (Agrees.refl W) (Twin.refl _) (inv_init _)

theorem LooseReach.step (h : LooseReach W s) (o : Op) (ho : o.Fits W) : LooseReach W (o.exec W.E s) := by
  obtain ⟨ops, hops, rfl⟩ := h
  refine ⟨ops ++ [o], ?_, by simp [runAll]⟩
  intro x hx
  rcases List.mem_append.1 hx with hx | hx
  · exact hops x hx
  · obtain rfl : x = o := by simpa using hx
    exact ho

theorem Op.Ok.fits {o : Op} (h : o.Ok W) : o.Fits W := by
  cases o with
  | upload f c => exact ⟨fun _ => h, .inl (by rw [show c = _ from h])⟩
  | stage r d c => exact ⟨fun _ => h, .inl (by rw [show c = _ from h])⟩
  | _ => exact h

theorem Reachable.loose (h : Reachable W s) : LooseReach W s := by
  obtain ⟨ops, hops, rfl⟩ := h
  exact ⟨ops, fun o ho => (hops o ho).fits, rfl⟩

end Ferryd
