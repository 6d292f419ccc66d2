import Verif.CoreSync
import Verif.Demo2
/-!
# PropsSync: repositories do not interfere (C136)

A job changes one repository and reads at most one other.  So, in any history, what becomes of a group of repositories that copies from no repository
outside the group does not depend on the jobs on other repositories at all, and two jobs neither of which touches what the other reads or writes can
run in either order.  The one thing all repositories share, the pool, is covered too.
-/
namespace Ferryd
open Spec

/-- The same repository, as far as clients and operators can tell. (No code: specification.) -/
structure SameRepo (s t : St) (r : Str) : Prop where
  repo : Repo s r ↔ Repo t r
  lists : ∀ n id, Lists s r n id ↔ Lists t r n id
  tip : ∀ n id, Tip s r n id ↔ Tip t r n id
  file : ∀ d id, s.fs.read (.repo r d id) = t.fs.read (.repo r d id)
  asset : ∀ a, s.fs.read (.asset r a) = t.fs.read (.asset r a)
  index : s.fs.idx r = t.fs.idx r

/-- Without the jobs on repositories outside `R`. (No code: specification.) -/
def Op.concerns (R : Str → Bool) (o : Op) : Bool :=
  match o.target with
  | some x => R x
  | none => true

/-- A history without delta operations, whose uploads carry the content their name stands for. (No code: a notion of the statements and proofs.) -/
def PlainHist (W : World) (l : List Op) : Prop := ∀ o ∈ l, o.Ok W ∧ o.plain = true

/-- Forget which names are delta packages: without delta operations none of them is treated as one. (No code: a notion of the statements and proofs.) -/
def World.plain (W : World) : World := { W with isDelta := fun _ => false }

section
variable {W : World} {s t : St} {R : Str → Bool}

theorem World.OK.plain (ok : W.OK) : W.plain.OK := ⟨ok.parse_nil, ok.no_crash, ok.comps_no_crash, ok.groups_no_crash, ok.good⟩

theorem Op.Ok.plain {o : Op} (h : o.Ok W) (hp : o.plain = true) : o.Ok W.plain := by
  cases o with
  | addPackages r fs st => exact fun _ _ => rfl
  | addDelta r d f t => cases hp
  | refDelta r d => cases hp
  | stage r d c => cases hp
  | upload f c => exact h
  | _ => exact trivial

theorem PlainHist.inv (ok : W.OK) {l : List Op} (hl : PlainHist W l) : Inv W.plain (runAll W.E St.init l) :=
  Reachable.inv ok.plain ⟨l, fun o ho => (hl o ho).1.plain (hl o ho).2, rfl⟩

theorem PlainHist.filter {l : List Op} (h : PlainHist W l) (p : Op → Bool) : PlainHist W (l.filter p) :=
  fun o ho => h o (List.mem_filter.1 ho).1

theorem PlainHist.append {l k : List Op} (h : PlainHist W l) (h' : PlainHist W k) : PlainHist W (l ++ k) :=
  fun o ho => (List.mem_append.1 ho).elim (h o) (h' o)

theorem Like.sameRepo {P : Str → Prop} (h : Like W P s t) (hdl : ∀ d, W.isDelta d = false) {r : Str} (hr : P r) : SameRepo s t r where
  repo := h.repo r hr
  lists n id := by unfold Lists; rw [h.ents r hr]
  tip n id := by unfold Tip; rw [h.ents r hr]
  file d id := by
    have canon : ∀ {u : St}, Inv W u → u.fs.read (.repo r d id) = if u.has r id = true ∧ W.compOf id = some d then some (W.canon id) else none := by
      intro u hu
      cases hx : u.fs.read (.repo r d id) with
      | none =>
        have := FS.read_isSome u.fs (.repo r d id)
        rw [hx] at this
        rw [if_neg]
        intro hc
        rw [(hu.repoFile r id d (hdl id)).2 hc] at this; cases this
      | some c =>
        have := FS.read_isSome u.fs (.repo r d id)
        rw [hx] at this
        rw [if_pos ((hu.repoFile r id d (hdl id)).1 this.symm)]
        rcases hu.fs.content (.repo r d id) c rfl hx with h' | ⟨h', _⟩
        · rw [h']; rfl
        · rw [hdl] at h'; cases h'
    rw [canon h.inv, canon h.inv', h.has hr]
  asset a := h.asset r a hr
  index := h.idx r hr

theorem like_runAll (ok : W.OK) (hdl : ∀ d, W.isDelta d = false) (hio : ∀ m n, W.E.indexIO m = W.E.indexIO n) :
    ∀ (l : List Op) {s t : St}, (∀ o ∈ l, o.Ok W ∧ o.plain = true) → (∀ o ∈ l, o.concerns R = true → ∀ y, o.source = some y → R y = true) →
      Like W (fun r => R r = true) s t → Like W (fun r => R r = true) (runAll W.E s l) (runAll W.E t (l.filter (Op.concerns R)))
  | [], _, _, _, _, h => h
  | o :: l, s, t, hl, hR, h => by
    have ih := fun {s t : St} => like_runAll (s := s) (t := t) ok hdl hio l (fun o ho => hl o (by simp [ho])) (fun o ho => hR o (by simp [ho]))
    obtain ⟨ho, hp⟩ := hl o (by simp)
    by_cases hc : o.concerns R = true
    · rw [List.filter_cons_of_pos hc]
      refine ih (s := o.exec W.E s) (t := o.exec W.E t) (Op.sync ok hdl h ho hp ?_ (hR o (by simp) hc)).like
      intro x hx
      unfold Op.concerns at hc; rw [hx] at hc; exact hc
    · rw [List.filter_cons_of_neg hc]
      refine ih (s := o.exec W.E s) ?_
      cases ht : o.target with
      | none => unfold Op.concerns at hc; rw [ht] at hc; exact absurd rfl hc
      | some x =>
        unfold Op.concerns at hc; rw [ht] at hc
        exact h.skip ok hdl hio ho ht hc

/-- C136: in every history (of jobs, uploads, removals of uploads, edits of asset files and restarts, without delta jobs), the jobs on repositories
outside a group `R` make no difference to the repositories of `R`, provided the jobs on `R` copy from repositories of `R` only (and the tools that write
indexes behave the same on every run): each repository of `R` exists, lists, publishes and serves exactly what it would had the other jobs never run —
same packages, same published tips, same files with the same bytes, same asset files, same index. -/
theorem C136_others_make_no_difference (ok : W.OK) (hio : ∀ m n, W.E.indexIO m = W.E.indexIO n) {l : List Op} (hl : PlainHist W l)
    (hR : ∀ o ∈ l, ∀ x y, o.target = some x → R x = true → o.source = some y → R y = true) {r : Str} (hr : R r = true) :
    SameRepo (runAll W.E St.init l) (runAll W.E St.init (l.filter (Op.concerns R))) r := by
  refine (like_runAll (W := W.plain) ok.plain (fun _ => rfl) hio l (fun o ho => ⟨(hl o ho).1.plain (hl o ho).2, (hl o ho).2⟩) ?_
    (.refl (inv_init _))).sameRepo (fun _ => rfl) hr
  intro o ho hc y hy
  cases ht : o.target with
  | none => cases o <;> first | (cases ht; done) | (cases hy; done)
  | some x => exact hR o ho x y ht (by unfold Op.concerns at hc; rw [ht] at hc; exact hc) hy

/-- C136, for the results: each job on a repository of `R` succeeds exactly when it would succeed had the other jobs before it never run. -/
theorem C136_same_results (ok : W.OK) (hio : ∀ m n, W.E.indexIO m = W.E.indexIO n) {l : List Op} {o : Op} (hl : PlainHist W (l ++ [o]))
    (hR : ∀ o' ∈ l ++ [o], ∀ x y, o'.target = some x → R x = true → o'.source = some y → R y = true) {x : Str} (hx : o.target = some x) (hr : R x = true) :
    (o.run W.E (runAll W.E St.init l)).res = .ok () ↔ (o.run W.E (runAll W.E St.init (l.filter (Op.concerns R)))).res = .ok () := by
  have ho := hl o (by simp)
  have h : Like W.plain (fun r => R r = true) (runAll W.E St.init l) (runAll W.E St.init (l.filter (Op.concerns R))) := by
    refine like_runAll (W := W.plain) ok.plain (fun _ => rfl) hio l (fun o ho => ?_) ?_ (.refl (inv_init _))
    · have := hl o (by simp [ho]); exact ⟨this.1.plain this.2, this.2⟩
    · intro o ho hc y hy
      cases ht : o.target with
      | none => cases o <;> first | (cases ht; done) | (cases hy; done)
      | some x => exact hR o (by simp [ho]) x y ht (by unfold Op.concerns at hc; rw [ht] at hc; exact hc) hy
  have hs := (Op.sync ok.plain (fun _ => rfl) h (ho.1.plain ho.2) ho.2 (fun y hy => by rw [hx] at hy; cases hy; exact hr)
    (fun y hy => hR o (by simp) x y hx hr hy)).res
  rcases hs with ⟨a, h1, h2, _⟩ | ⟨e, e', h1, h2⟩
  · exact ⟨fun _ => h2, fun _ => h1⟩
  · exact ⟨fun h' => (by have h3 := h1.symm.trans h'; cases h3), fun h' => (by have h3 := h2.symm.trans h'; cases h3)⟩

/-! ## Order -/

/-- The two jobs change different repositories and neither copies from the repository the other changes. (No code: specification.) -/
structure Independent (a b : Op) : Prop where
  targets : ∃ x y, a.target = some x ∧ b.target = some y ∧ x ≠ y
  left : ∀ y, b.target = some y → a.source ≠ some y
  right : ∀ x, a.target = some x → b.source ≠ some x

/-- The same daemon: every repository, the pool (which packages, with how many references, and the files) and the uploads. (No code: specification.) -/
structure SameAll (s t : St) : Prop where
  repo : ∀ r, SameRepo s t r
  pool : ∀ id, s.db.pool.get id = t.db.pool.get id
  poolFile : ∀ d id, s.fs.read (.pool d id) = t.fs.read (.pool d id)
  upload : ∀ f, s.fs.read (.ext f) = t.fs.read (.ext f)

theorem Inv.pool_of_has (h : Inv W s) (hdl : ∀ d, W.isDelta d = false) (id : Str) :
    s.db.pool.get id = if (s.holders id).length = 0 then none else some ⟨id, (s.holders id).length, W.stamped id, none⟩ := by
  cases hg : s.db.pool.get id with
  | none =>
    rw [if_pos]
    cases hh : s.holders id with
    | nil => rfl
    | cons r l =>
      have := (h.mem_holders r id).1 (by rw [hh]; simp)
      obtain ⟨_, _, pe, hpe⟩ := h.has_facts this
      rw [hg] at hpe; cases hpe
  | some pe =>
    have e := h.pool_eq hg (hdl id)
    have hp := (h.pool id pe hg).pos
    rw [e] at hp
    rw [if_neg (by simp only at hp; omega), ← e]

theorem holders_length (h : Inv W s) (h' : Inv W t) (hh : ∀ r id, s.has r id = t.has r id) (id : Str) :
    (s.holders id).length = (t.holders id).length := by
  have nd : ∀ {u : St}, Inv W u → (u.holders id).Nodup := fun hu => (List.Pairwise.imp (fun h => h.2) hu.wfRepos).filter _
  refine Nat.le_antisymm (List.Nodup.length_le_of_subset (nd h) fun r hr => ?_) (List.Nodup.length_le_of_subset (nd h') fun r hr => ?_)
  · exact (h'.mem_holders r id).2 (by rw [← hh]; exact (h.mem_holders r id).1 hr)
  · exact (h.mem_holders r id).2 (by rw [hh]; exact (h'.mem_holders r id).1 hr)

theorem sameAll (h : Inv W s) (h' : Inv W t) (hdl : ∀ d, W.isDelta d = false) (hr : ∀ r, SameRepo s t r)
    (hx : ∀ f, s.fs.read (.ext f) = t.fs.read (.ext f)) : SameAll s t := by
  have hh : ∀ r id, s.has r id = t.has r id := by
    intro r id
    have e : Has s r id ↔ Has t r id := ⟨fun ⟨n, hn⟩ => ⟨n, ((hr r).lists n id).1 hn⟩, fun ⟨n, hn⟩ => ⟨n, ((hr r).lists n id).2 hn⟩⟩
    rw [h.spec_has, h'.spec_has] at e
    cases h1 : s.has r id <;> cases h2 : t.has r id <;> simp_all
  have hp : ∀ id, s.db.pool.get id = t.db.pool.get id := by
    intro id
    rw [h.pool_of_has hdl, h'.pool_of_has hdl, holders_length h h' hh]
  refine ⟨hr, hp, fun d id => ?_, hx⟩
  have canon : ∀ {u : St}, Inv W u → ∀ [Decidable ((∃ pe, u.db.pool.get id = some pe) ∧ W.compOf id = some d)], u.fs.read (.pool d id) =
      if (∃ pe, u.db.pool.get id = some pe) ∧ W.compOf id = some d then some (W.canon id) else none := by
    intro u hu _
    cases hx : u.fs.read (.pool d id) with
    | none =>
      have := FS.read_isSome u.fs (.pool d id)
      rw [hx] at this
      rw [if_neg]
      intro hc
      rw [(hu.poolFile id d).2 hc] at this; cases this
    | some c =>
      have := FS.read_isSome u.fs (.pool d id)
      rw [hx] at this
      rw [if_pos ((hu.poolFile id d).1 this.symm)]
      rcases hu.fs.content (.pool d id) c rfl hx with h' | ⟨h', _⟩
      · rw [h']; rfl
      · rw [hdl] at h'; cases h'
  classical
  rw [canon h, canon h']
  simp only [hp]

theorem pair_filter {a b : Op} {p : Op → Bool} (h : p a = false ∨ p b = false) : [a, b].filter p = [b, a].filter p := by
  cases ha : p a <;> cases hb : p b <;> simp_all

/-- C136, for the order: two independent jobs leave the same daemon behind in either order, after every history: every repository, the pool with its
counts and files, and the uploads. -/
theorem C136_commute (ok : W.OK) (hio : ∀ m n, W.E.indexIO m = W.E.indexIO n) {l : List Op} {a b : Op} (hl : PlainHist W (l ++ [a, b]))
    (hab : Independent a b) : SameAll (runAll W.E St.init (l ++ [a, b])) (runAll W.E St.init (l ++ [b, a])) := by
  have hl' : PlainHist W (l ++ [b, a]) := fun o ho => hl o (by simp at ho ⊢; rcases ho with h | h | h <;> simp [h])
  have hi := hl.inv ok
  have hi' := hl'.inv ok
  have h0 : Inv W.plain (runAll W.E St.init l) := PlainHist.inv ok (fun o ho => hl o (by simp [ho]))
  obtain ⟨x, y, hx, hy, hne⟩ := hab.targets
  obtain ⟨ha, ha'⟩ := hl a (by simp)
  obtain ⟨hb, hb'⟩ := hl b (by simp)
  have run : ∀ (k : List Op), runAll W.E St.init (l ++ k) = runAll W.E (runAll W.E St.init l) k := fun k => by unfold runAll; rw [List.foldl_append]
  have key : ∀ (R : Str → Bool), (∀ o ∈ [a, b], o.concerns R = true → ∀ y, o.source = some y → R y = true) →
      [a, b].filter (Op.concerns R) = [b, a].filter (Op.concerns R) →
      ∀ r, R r = true → SameRepo (runAll W.E St.init (l ++ [a, b])) (runAll W.E St.init (l ++ [b, a])) r := by
    intro R hc hf r hr
    have h1 := like_runAll (W := W.plain) (R := R) ok.plain (fun _ => rfl) hio [a, b] (by simp; exact ⟨⟨ha.plain ha', ha'⟩, hb.plain hb', hb'⟩)
      hc (.refl h0)
    have h2 := like_runAll (W := W.plain) (R := R) ok.plain (fun _ => rfl) hio [b, a] (by simp; exact ⟨⟨hb.plain hb', hb'⟩, ha.plain ha', ha'⟩)
      (fun o ho => hc o (by simp at ho ⊢; exact ho.symm)) (.refl h0)
    have e1 := h1.sameRepo (fun _ => rfl) hr
    have e2 := h2.sameRepo (fun _ => rfl) hr
    rw [hf] at e1
    rw [run, run]
    exact ⟨e1.repo.trans e2.repo.symm, fun n id => (e1.lists n id).trans (e2.lists n id).symm, fun n id => (e1.tip n id).trans (e2.tip n id).symm,
      fun d id => (e1.file d id).trans (e2.file d id).symm, fun a => (e1.asset a).trans (e2.asset a).symm, e1.index.trans e2.index.symm⟩
  refine sameAll hi hi' (fun _ => rfl) (fun r => ?_) (fun f => ?_)
  · by_cases e1 : r = x
    · have cb : b.concerns (fun z => decide (z = x ∨ a.source = some z)) = false := by
        unfold Op.concerns; rw [hy]; simp only [decide_eq_false_iff_not, not_or]; exact ⟨hne.symm, hab.left y hy⟩
      refine key (fun z => decide (z = x ∨ a.source = some z)) ?_ (pair_filter (.inr cb)) r (by simp [e1])
      intro o ho hc z hz
      rcases (by simpa using ho : o = a ∨ o = b) with rfl | rfl
      · simp [hz]
      · rw [cb] at hc; cases hc
    · by_cases e2 : r = y
      · have ca : a.concerns (fun z => decide (z = y ∨ b.source = some z)) = false := by
          unfold Op.concerns; rw [hx]; simp only [decide_eq_false_iff_not, not_or]; exact ⟨hne, hab.right x hx⟩
        refine key (fun z => decide (z = y ∨ b.source = some z)) ?_ (pair_filter (.inl ca)) r (by simp [e2])
        intro o ho hc z hz
        rcases (by simpa using ho : o = a ∨ o = b) with rfl | rfl
        · rw [ca] at hc; cases hc
        · simp [hz]
      · have ca : a.concerns (fun z => decide (z = r)) = false := by unfold Op.concerns; rw [hx]; simp; exact Ne.symm e1
        have cb : b.concerns (fun z => decide (z = r)) = false := by unfold Op.concerns; rw [hy]; simp; exact Ne.symm e2
        refine key (fun z => decide (z = r)) ?_ (pair_filter (.inl ca)) r (by simp)
        intro o ho hc z hz
        rcases (by simpa using ho : o = a ∨ o = b) with rfl | rfl
        · rw [ca] at hc; cases hc
        · rw [cb] at hc; cases hc
  · have e : ∀ (k : List Op), (∀ o ∈ k, o = a ∨ o = b) → (runAll W.E (runAll W.E St.init l) k).fs.tab (.ext f) = (runAll W.E St.init l).fs.tab (.ext f) := by
      intro k hk
      generalize runAll W.E St.init l = u
      induction k generalizing u with
      | nil => rfl
      | cons o k ih =>
        rw [show runAll W.E u (o :: k) = runAll W.E (o.exec W.E u) k from rfl, ih (fun o ho => hk o (by simp [ho]))]
        rcases hk o (by simp) with rfl | rfl
        · exact Op.keeps_ext hx _ _ _
        · exact Op.keeps_ext hy _ _ _
    rw [hi.ext_read (fun _ => rfl), hi'.ext_read (fun _ => rfl), run, run, e _ (by simp), e _ (by simp)]

end
/-! ## Concrete cases -/

namespace Demo

/-- Two releases are added to "unstable", it is cloned, a source is removed from it, and the clone and a third repository are worked on. -/
def hist136 : List Op :=
  hist1 ++ [.create (S "other"), .clone (S "shannon") (S "x") false, .removeSource (S "unstable") (S "b") 0, .pull (S "x") (S "other"), .delete (S "shannon")]

theorem plain136 : PlainHist W hist136 := by
  intro o ho
  rcases List.mem_append.1 ho with h | h
  · refine ⟨hist1_ok o h, ?_⟩
    simp only [hist1, List.mem_cons, List.not_mem_nil, or_false] at h
    rcases h with rfl | rfl | rfl | rfl | rfl | rfl <;> rfl
  · simp only [List.mem_cons, List.not_mem_nil, or_false] at h
    rcases h with rfl | rfl | rfl | rfl | rfl <;> exact ⟨trivial, rfl⟩

/-- `C136_others_make_no_difference` and `C136_same_results` apply to it with the group of "unstable" alone: five of the eleven steps drop out; "unstable"
has lost the one package and serves the others. -/
example : PlainHist W hist136 ∧ (∀ m n, W.E.indexIO m = W.E.indexIO n) ∧
    (∀ o ∈ hist136, ∀ x y, o.target = some x → (fun z => decide (z = S "unstable")) x = true → o.source = some y → (fun z => decide (z = S "unstable")) y = true) ∧
    hist136.length = 11 ∧ (hist136.filter (Op.concerns fun z => decide (z = S "unstable"))).length = 6 ∧
    (runAll W.E St.init hist136).availOf (S "unstable") (S "b") = [] ∧
    (runAll W.E St.init hist136).fs.read (.repo (S "unstable") (S "a/a") (S "a-2.eopkg")) = some [2] ∧
    (runAll W.E St.init hist136).db.repos.keys = [S "other", S "unstable", S "x"] := by
  refine ⟨plain136, fun _ _ => rfl, ?_, rfl, by decide +kernel, by decide +kernel, by decide +kernel, by decide +kernel⟩
  intro o ho x y hx hr hy
  have key : ∀ o ∈ hist136, (match o.target, o.source with | some x, some y => decide (x ≠ S "unstable" ∨ y = S "unstable") | _, _ => true) = true := by
    decide +kernel
  have := key o ho
  rw [hx, hy] at this
  simp only [decide_eq_true_eq] at hr this ⊢
  rcases this with h | h
  · exact absurd hr h
  · exact h

/-- The group must be closed: for "other" alone, which pulls from "x", the other jobs do make a difference. -/
example : (runAll W.E St.init hist136).availOf (S "other") (S "a") = [S "a-2.eopkg"] ∧
    (runAll W.E St.init (hist136.filter (Op.concerns fun z => decide (z = S "other")))).availOf (S "other") (S "a") = [] := by
  decide +kernel

/-- `C136_commute` applies to a removal from "unstable" and a clone of "shannon" after the history of `st1`; a removal from
"unstable" and a clone of "unstable" are not independent, and their order shows. -/
example : Independent (.removeSource (S "unstable") (S "b") 0) (.clone (S "shannon") (S "x") true) ∧
    PlainHist W (hist1 ++ [.removeSource (S "unstable") (S "b") 0, .clone (S "shannon") (S "x") true]) ∧
    (runAll W.E St.init (hist1 ++ [.removeSource (S "unstable") (S "b") 0, .clone (S "unstable") (S "x") true])).availOf (S "x") (S "b") = [] ∧
    (runAll W.E St.init (hist1 ++ [.clone (S "unstable") (S "x") true, .removeSource (S "unstable") (S "b") 0])).availOf (S "x") (S "b") =
      [S "b-1.eopkg"] := by
  refine ⟨⟨⟨S "unstable", S "x", rfl, rfl, by decide +kernel⟩, ?_, ?_⟩, ?_, by decide +kernel, by decide +kernel⟩
  · intro y hy; cases hy; intro e; cases e
  · intro y hy; cases hy
    show some (S "shannon") ≠ some (S "unstable")
    decide +kernel
  · intro o ho
    rcases List.mem_append.1 ho with h | h
    · exact plain136 o (List.mem_append_left _ h)
    · simp only [List.mem_cons, List.not_mem_nil, or_false] at h
      rcases h with rfl | rfl <;> exact ⟨trivial, rfl⟩

end Demo

end Ferryd
