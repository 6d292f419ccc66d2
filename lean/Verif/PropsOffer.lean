import Verif.CoreOffer
import Verif.PropsStock
import Verif.PropsCrash
/-!
# PropsOffer: what the published index offers can be downloaded (C131)
-/
namespace Ferryd
open Spec
section
variable {W : World} {s : St} {r : Str}

/-- Histories in which every job may be cut short anywhere, any number of times, by the death of the daemon or by an I/O error, except the jobs
that take packages away (delete, remove-source, the two trims): those come to their end, and one that took something from repository `r`
was successful. (No code: the histories C131 ranges over.) -/
inductive Diligent (W : World) (r : Str) : St → Prop
  | init : Diligent W r St.init
  | job {s : St} (h : Diligent W r s) (o : Op) (ho : o.Ok W)
      (hp : (∃ id, Has s r id ∧ ¬ Has (o.exec W.E s) r id) → (o.run W.E s).res = .ok ()) : Diligent W r (o.exec W.E s)
  | dies {s u : St} (h : Diligent W r s) (o : Op) (ho : o.Ok W) (hn : o.takes = false) (hm : Moment W o s u) : Diligent W r u.crash
  | fails {s u : St} (h : Diligent W r s) (o : Op) (ho : o.Ok W) (hn : o.takes = false) (hm : Moment W o s u) : Diligent W r { u with pend := [] }

theorem Diligent.kept (h : Diligent W r s) : Kept W s := by
  induction h with
  | init => exact .init
  | job _ o ho _ ih => exact ih.job o ho
  | dies _ o ho hn hm ih => exact ih.dies o ho hn hm
  | fails _ o ho hn hm ih => exact ih.fails o ho hn hm

theorem Half.onOffer {o : Op} {t u : St} (h : Half W o t u) (ht : OnOffer r t) : OnOffer r u := by
  cases h with
  | whole => exact ht
  | package p i c hp hi he hc => exact ht.held ⟨rfl, rfl⟩
  | asset x a i c hr hi => exact ht.held ⟨rfl, rfl⟩

theorem OnOffer.congr {t : St} (h : OnOffer r s) (hl : ∀ n id, Lists t r n id ↔ Lists s r n id) (hi : t.fs.idx r = s.fs.idx r) : OnOffer r t := by
  refine ⟨fun id ho => ?_⟩
  unfold Offers at ho
  rw [hi] at ho
  obtain ⟨n, hn⟩ := h.all id ho
  exact ⟨n, (hl n id).2 hn⟩

/-- At a moment of a job that takes nothing from `r`. -/
theorem OnOffer.moment (ok : W.OK) (hz : W.NoTorn) (hk : Kept W s) (h : OnOffer r s) {o : Op} (ho : o.Ok W) {u : St}
    (hn : o.takes = false ∨ o.target ≠ some r) (hu : Moment W o s u) : OnOffer r u := by
  by_cases ht : o.target = some r
  · have hn' : o.takes = false := hn.elim id fun h => absurd ht h
    obtain ⟨t, htr, hh⟩ := hu
    exact hh.onOffer ((o.off ok hz ho hn' (hk.wild.rough ok hz) h).tr t htr)
  · obtain ⟨_, h2, _, _, h5, _⟩ := C108_isolation ok hz hk.wild o ho r ht u (.inl hu)
    exact h.congr h2 h5

/-- At the end of a job. -/
theorem OnOffer.end (ok : W.OK) (hz : W.NoTorn) (hk : Kept W s) (h : OnOffer r s) {o : Op} (ho : o.Ok W)
    (hp : (∃ id, Has s r id ∧ ¬ Has (o.exec W.E s) r id) → (o.run W.E s).res = .ok ()) : OnOffer r (o.exec W.E s) := by
  have hr := hk.wild.rough ok hz
  by_cases ht : o.target = some r
  · cases hn : o.takes with
    | false => exact (o.off ok hz ho hn hr h).fin
    | true =>
      cases hrm : o.removes with
      | true =>
        rcases o.takes_republished ok hz ho hrm ht hr with hi | ha
        · by_cases hex : ∃ id, Has s r id ∧ ¬ Has (o.exec W.E s) r id
          · have hpub : o.publishes = some r := by cases o <;> first | exact ht | cases hrm
            obtain ⟨doc, h1, h2, _⟩ := C112_index ok hz hk.wild o ho hpub (hp hex)
            refine ⟨fun id hof => ?_⟩
            obtain ⟨doc', hd, p, hpm, rfl⟩ := hof
            rw [h1] at hd; cases hd
            obtain ⟨obs, _, hex⟩ := h2.exact_
            obtain ⟨n, htip, _⟩ := (hex.2 p.id).1 (List.mem_map.2 ⟨p, hpm, rfl⟩)
            obtain ⟨e, hg, hm, _⟩ := ((o.keeps ok hz ho s hr).fin).tip_avail htip
            exact ⟨n, e, hg, hm⟩
          · refine ⟨fun id hof => ?_⟩
            unfold Offers at hof
            rw [hi] at hof
            exact Classical.byContradiction fun hc => hex ⟨id, h.all id hof, hc⟩
        · exact ⟨ha⟩
      | false =>
        cases o with
        | delete x =>
          cases ht
          by_cases hx : Repo s r
          · obtain ⟨_, _, _, _, _, _, h7, _⟩ := C114_delete_always ok hz hk.wild hx
            refine ⟨fun id hof => ?_⟩
            obtain ⟨doc, hd, _⟩ := hof
            have : ((Op.delete r).exec W.E s).fs.idx r = none := h7
            rw [this] at hd; cases hd
          · have hst := hk.stocked ok hz
            have hc : r ∉ s.cache := fun hm => hx (by unfold Repo; rw [KV.mem_keys_iff]; exact hst.cache r hm)
            have hng : s.db.repos.get r = none := by
              cases hg : s.db.repos.get r with
              | none => rfl
              | some u => exact absurd (by unfold Repo; rw [KV.mem_keys_iff]; exact ⟨u, hg⟩) hx
            have e : getRepo r s = ⟨.err .notFound, s, []⟩ := by
              unfold getRepo
              rw [getSt_bind, if_neg hc, hng]; rfl
            have : (Op.delete r).exec W.E s = s := by
              show (deleteRepo r s).st = s
              unfold deleteRepo
              rw [bind_err e]
            rw [this]; exact h
        | _ => first | (cases hrm; done) | (cases hn; done)
  · obtain ⟨_, h2, _, _, h5, _⟩ := C108_isolation ok hz hk.wild o ho r ht _ (.inr rfl)
    exact h.congr h2 h5

theorem Diligent.onOffer (ok : W.OK) (hz : W.NoTorn) (h : Diligent W r s) : OnOffer r s := by
  induction h with
  | init => exact off_init
  | job h o ho hp ih => exact ih.end ok hz h.kept ho hp
  | dies h o ho hn hm ih => exact (ih.moment ok hz h.kept ho (.inl hn) hm).crash
  | fails h o ho hn hm ih => exact (ih.moment ok hz h.kept ho (.inl hn) hm).dropPend

/-! ## C131 -/

/-- C131 at full strength: at every moment of every job, whatever the published index of a repository offers is served there, with the size and
the hash the index gives. -/
def C131_statement : Prop := ∀ (W : World) (s : St) (o : Op) (u : St) (r : Str), W.OK → Reachable W s → o.Ok W →
  u ∈ s :: o.exec W.E s :: (o.run W.E s).tr → ∀ doc, u.fs.idx r = some doc → ∀ p ∈ doc.packages,
    ∃ d c, dirOf W p.id = some d ∧ u.fs.read (.repo r d p.id) = some c ∧ p.pkg.uri = d ++ '/' :: p.id ∧ p.pkg.size = c.length ∧ p.pkg.hash = W.E.sha1 c

/-- C131, what holds: as long as no delete, remove-source or trim is cut short, and those that took something from repository `r` reported
success, and however often any other job was cut short, wherever: at every moment of every job, those that take packages from `r` excepted,
and at their successful end, whatever the published index of `r` offers is listed and served at the place it gives, as a beginning at least of
the file whose size and hash it gives.  (Not covered, and false: the time between the removal of the first file and the publication of the new
index, `C131_violated`.) -/
theorem C131_offered_partial (ok : W.OK) (hz : W.NoTorn) (h : Diligent W r s) (o : Op) (ho : o.Ok W) (u : St)
    (hu : u = s ∨ ((o.takes = false ∨ o.target ≠ some r) ∧ Moment W o s u) ∨
      u = o.exec W.E s ∧ ((∃ id, Has s r id ∧ ¬ Has u r id) → (o.run W.E s).res = .ok ())) :
    ∀ doc, u.fs.idx r = some doc → ∀ p ∈ doc.packages, Has u r p.id ∧
      ∃ d c, dirOf W p.id = some d ∧ u.fs.read (.repo r d p.id) = some c ∧ c <+: W.canon p.id ∧
        p.pkg.uri = d ++ '/' :: p.id ∧ p.pkg.size = (W.canon p.id).length ∧ p.pkg.hash = W.E.sha1 (W.canon p.id) := by
  intro doc hd p hp
  have hk := h.kept
  have hoff := h.onOffer ok hz
  have hr := hk.wild.rough ok hz
  have hou : OnOffer r u := by
    rcases hu with rfl | ⟨hn, hm⟩ | ⟨rfl, hp⟩
    · exact hoff
    · exact hoff.moment ok hz hk ho hn hm
    · exact hoff.end ok hz hk ho hp
  have hru : Rough W u := by
    rcases hu with rfl | ⟨_, hm⟩ | ⟨rfl, _⟩
    · exact hr
    · exact hm.rough ok hz ho hr
    · exact (o.keeps ok hz ho s hr).fin
  have hhas := hou.all p.id ⟨doc, hd, p, hp, rfl⟩
  have hsv : ∃ d c, dirOf W p.id = some d ∧ u.fs.read (.repo r d p.id) = some c ∧ c <+: W.canon p.id := by
    have key : ∀ v, v = s ∨ (o.takes = false ∧ Moment W o s v) ∨ v = o.exec W.E s → Has v r p.id →
        ∃ d c, dirOf W p.id = some d ∧ v.fs.read (.repo r d p.id) = some c ∧ c <+: W.canon p.id := by
      intro v hv hh
      obtain ⟨c, ⟨d, h1, h2⟩, h3⟩ := (C121_served_partial ok hz hk o ho v hv).1 r p.id (.inl hh)
      exact ⟨d, c, h1, h2, h3⟩
    rcases hu with rfl | ⟨hn, hm⟩ | ⟨rfl, _⟩
    · exact key _ (.inl rfl) hhas
    · cases hn' : o.takes with
      | false => exact key u (.inr (.inl ⟨hn', hm⟩)) hhas
      | true =>
        have ht : o.target ≠ some r := hn.elim (fun h => by rw [hn'] at h; cases h) fun h => h
        obtain ⟨_, h2, _, _, _, _, h7, h8⟩ := C108_isolation ok hz hk.wild o ho r ht u (.inl hm)
        obtain ⟨n, hn⟩ := hhas
        obtain ⟨d, c, g1, g2, _⟩ := key s (.inl rfl) ⟨n, (h2 n p.id).1 hn⟩
        cases hrd : u.fs.read (.repo r d p.id) with
        | none => rw [(h7 d p.id).1 hrd] at g2; cases g2
        | some c' => exact ⟨d, c', g1, hrd, h8 d p.id c' hrd⟩
    · exact key _ (.inr (.inr rfl)) hhas
  obtain ⟨d, c, h1, h2, h3⟩ := hsv
  have hpk := ((hru.idx r doc hd).pkgs p hp).2.2
  refine ⟨hhas, d, c, h1, h2, h3, ?_, by rw [hpk]; rfl, by rw [hpk]; rfl⟩
  rw [hpk]
  show mkURI ((W.compOf p.id).getD []) p.id = _
  have hc : W.compOf p.id = some d := h1
  rw [hc]; rfl

/-- C131: and it is the whole file, of that size and hash, if no adding job was cut short either. -/
theorem C131_bytes_partial (ok : W.OK) (hz : W.NoTorn) (h : Diligent W r s) (o : Op) (ho : o.Ok W) (u : St)
    (hu : u = s ∨ ((o.takes = false ∨ o.target ≠ some r) ∧ Moment W o s u) ∨
      u = o.exec W.E s ∧ ((∃ id, Has s r id ∧ ¬ Has u r id) → (o.run W.E s).res = .ok ()))
    (hw : (Steady W s ∧ (u = s ∨ (o.adds = false ∧ Moment W o s u) ∨ u = o.exec W.E s)) ∨ (Reachable W s ∧ u ∈ (o.run W.E s).tr)) :
    ∀ doc, u.fs.idx r = some doc → ∀ p ∈ doc.packages,
      ∃ d c, dirOf W p.id = some d ∧ u.fs.read (.repo r d p.id) = some c ∧ p.pkg.uri = d ++ '/' :: p.id ∧ p.pkg.size = c.length ∧ p.pkg.hash = W.E.sha1 c := by
  intro doc hd p hp
  obtain ⟨hhas, d, c, h1, h2, _, h4, h5, h6⟩ := C131_offered_partial ok hz h o ho u hu doc hd p hp
  have hru : Rough W u := by
    have hr := h.kept.wild.rough ok hz
    rcases hu with rfl | ⟨_, hm⟩ | ⟨rfl, _⟩
    · exact hr
    · exact hm.rough ok hz ho hr
    · exact (o.keeps ok hz ho s hr).fin
  have hde : W.isDelta p.id = false := ((hru.idx r doc hd).pkgs p hp).1
  have hst : ∀ v, Steady W s → (v = s ∨ (o.adds = false ∧ Moment W o s v) ∨ v = o.exec W.E s) → v.fs.read (.repo r d p.id) = some c → c = W.canon p.id :=
    fun v hs hv hc => ((C110_uncut_additions_partial ok hz hs o ho v hv).1 r d p.id c hde hc).1
  have hc : c = W.canon p.id := by
    rcases hw with ⟨hs, hv⟩ | ⟨hre, htr⟩
    · exact hst u hs hv h2
    · cases ha : o.adds with
      | false => exact hst u hre.steady (.inr (.inl ⟨ha, u, htr, .whole⟩)) h2
      | true =>
        have hrf : o.removesFrom = none := by cases o <;> first | rfl | (cases ha; done)
        obtain ⟨n, hn⟩ := hhas
        obtain ⟨d', g1, g2⟩ := ((C27_crash_add ok hre o ho hrf htr r).listed n p.id hn).2.2.1
        have : d' = d := by rw [h1] at g1; cases g1; rfl
        subst this
        have g3 : u.fs.read (.repo r d' p.id) = some (W.canon p.id) := g2
        rw [g3] at h2; cases h2; rfl
  subst hc
  exact ⟨d, _, h1, h2, h4, h5, h6⟩

end

namespace Demo
/-- Removing the source of a-1 from "u", the repository that offers it, and a moment in the middle. (No code: demonstration.) -/
def jobO : Op := .removeSource (S "u") (S "a") 0
/-- A moment in the middle of `jobO`. (No code: demonstration.) -/
def cutO : St := cut jobO stV 2
theorem reachV : Reachable Demo.W stV := (reach6.step (.addPackages (S "u") [S "/up/a-1.eopkg"] false)
  (show ∀ f ∈ [S "/up/a-1.eopkg"], Demo.W.isDelta (baseName f) = false by decide +kernel)).step (.create (S "v")) trivial
theorem diligentV : Diligent Demo.W (S "u") stV := by
  refine .job (.job (.job (.job .init (upload "/up/a-1.eopkg") (upload_ok _) fun _ => ?_) (.create (S "u")) trivial fun _ => ?_)
    (.addPackages (S "u") [S "/up/a-1.eopkg"] false) (show ∀ f ∈ [S "/up/a-1.eopkg"], Demo.W.isDelta (baseName f) = false by decide +kernel) fun _ => ?_)
    (.create (S "v")) trivial fun _ => ?_
  all_goals decide +kernel
end Demo

/-- C131 is false of the code: a removal takes the files away before it publishes the new index. -/
theorem C131_violated : ¬ C131_statement := by
  intro h
  have h0 := h Demo.W Demo.stV Demo.jobO Demo.cutO (Demo.S "u") Demo.ok Demo.reachV trivial
    (by
      obtain ⟨t, ht, hh⟩ := Demo.cut_moment (o := Demo.jobO) (s := Demo.stV) (i := 2) (by decide +kernel)
      refine List.mem_cons_of_mem _ (List.mem_cons_of_mem _ ?_)
      unfold Demo.cutO Demo.cut
      rw [List.getElem?_eq_getElem (by decide +kernel)]
      exact List.getElem_mem _)
    ((Demo.cutO.fs.idx (Demo.S "u")).get (by decide +kernel)) (by simp)
    ((((Demo.cutO.fs.idx (Demo.S "u")).get (by decide +kernel)).packages[0]?).get (by decide +kernel)) (List.mem_of_getElem? (i := 0) (by simp))
  obtain ⟨d, c, hd, hc, _⟩ := h0
  have hi : ((((Demo.cutO.fs.idx (Demo.S "u")).get (by decide +kernel)).packages[0]?).get (by decide +kernel)).id = Demo.S "a-1.eopkg" := by decide +kernel
  rw [hi] at hd hc
  have hd' : dirOf Demo.W (Demo.S "a-1.eopkg") = some (Demo.S "a/a") := by decide +kernel
  rw [hd'] at hd; cases hd
  rw [show Demo.cutO.fs.read (.repo (Demo.S "u") (Demo.S "a/a") (Demo.S "a-1.eopkg")) = none by decide +kernel] at hc
  cases hc

/-- An import into "v" while "u" offers a-1; and its moments. -/
example : Diligent Demo.W (Demo.S "u") Demo.stV ∧ Offers Demo.stV (Demo.S "u") (Demo.S "a-1.eopkg") ∧
    Moment Demo.W Demo.jobV Demo.stV Demo.cutV ∧ Demo.jobV.takes = false ∧ Reachable Demo.W Demo.stV :=
  ⟨Demo.diligentV, ⟨(Demo.stV.fs.idx (Demo.S "u")).get (by decide +kernel), by decide +kernel,
    ((((Demo.stV.fs.idx (Demo.S "u")).get (by decide +kernel)).packages[0]?).get (by decide +kernel)), List.mem_of_getElem? (i := 0) (by simp), by decide +kernel⟩,
    Demo.cutV_moment, rfl, Demo.reachV⟩
/-- A removal that succeeds, after which the index offers nothing. -/
example : (Demo.jobO.run Demo.W.E Demo.stV).res = .ok () ∧ ((Demo.jobO.exec Demo.W.E Demo.stV).fs.idx (Demo.S "u")).map (fun d => d.packages.length) = some 0 := by
  decide +kernel

end Ferryd
