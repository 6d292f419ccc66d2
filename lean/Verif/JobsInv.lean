import Verif.JobsSys
/-!
# JobsInv: the invariant of the job system holds in every reachable state
-/
namespace Ferryd

namespace KV
variable {α : Type}

theorem keys_del (m : KV α) (k : Str) : (m.del k).keys = m.keys.filter (fun x => x ≠ k) := by
  induction m with
  | nil => rfl
  | cons kv m ih =>
    obtain ⟨k', v⟩ := kv
    show (KV.del ((k', v) :: m) k).keys = (k' :: keys m).filter _
    unfold del
    by_cases e : k = k'
    · subst e; simp [ih]
    · rw [if_neg e, List.filter_cons, if_pos (by simpa using fun h => e h.symm), ← ih]; rfl

theorem keys_put_mem {m : KV α} (hw : m.WF) {k : Str} (hk : k ∈ m.keys) (v : α) : (m.put k v).keys = m.keys := by
  have hw' := hw.put k v
  refine SortedS.ext hw'.sorted_keys hw.sorted_keys hw'.nodup_keys hw.nodup_keys fun x => ?_
  rw [mem_keys_put]
  exact ⟨fun h => h.elim (fun e => e ▸ hk) id, .inr⟩

theorem get_append_new {m : KV α} {k : Str} (hk : k ∉ m.keys) (v : α) (x : Str) :
    get (m ++ [(k, v)]) x = if x = k then some v else get m x := by
  induction m with
  | nil => simp [get]
  | cons kv m ih =>
    obtain ⟨k', v'⟩ := kv
    have h1 : k ≠ k' := fun e => hk (by simp [keys, e])
    have h2 : k ∉ keys m := fun h => hk (by simp only [keys, List.map_cons, List.mem_cons]; exact .inr h)
    show get ((k', v') :: (m ++ [(k, v)])) x = if x = k then some v else get ((k', v') :: m) x
    unfold get
    by_cases e : x = k'
    · subst e; simp [Ne.symm h1]
    · simp only [e, if_false]; exact ih h2

theorem keys_append (m m' : KV α) : keys (m ++ m') = m.keys ++ keys m' := by simp [keys]

end KV

namespace Jobs
open Ferryd.Db

variable {C : Codec} {s : Sys} {A : AS}

theorem pending_nodup (s : Sys) (q : Queue) : (pending s q).Nodup := List.nodup_range.filter _

theorem mem_pending {s : Sys} {q : Queue} {t : Nat} :
    t ∈ pending s q ↔ (∃ r, s.reqs[t]? = some r ∧ r.queue = q) ∧ t ∉ s.done := by
  unfold pending
  simp only [List.mem_filter, List.mem_range, decide_eq_true_eq, Option.map_eq_some_iff]
  constructor
  · rintro ⟨-, h1, h2⟩; exact ⟨h1, h2⟩
  · rintro ⟨⟨r, hr, hq⟩, h2⟩
    exact ⟨(List.getElem?_eq_some_iff.1 hr).1, ⟨r, hr, hq⟩, h2⟩

theorem inj_of_nodup_map {α β : Type} {f : α → β} {l : List α} (h : (l.map f).Nodup) {a b : α} (ha : a ∈ l)
    (hb : b ∈ l) (e : f a = f b) : a = b := by
  induction l with
  | nil => cases ha
  | cons x l ih =>
    rw [List.map_cons, List.nodup_cons] at h
    rcases List.mem_cons.1 ha with h1 | h1 <;> rcases List.mem_cons.1 hb with h2 | h2
    · rw [h1, h2]
    · subst h1; exact absurd (e ▸ List.mem_map_of_mem h2) h.1
    · subst h2; exact absurd (e ▸ List.mem_map_of_mem h1) h.1
    · exact ih h.2 h1 h2

theorem SInv.tick_inj (h : SInv C s A) {q : Queue} {a b : Str} (ha : a ∈ (A.q q).keys) (hb : b ∈ (A.q q).keys)
    (e : s.ticket q a = s.ticket q b) : a = b := by
  have hn : ((A.q q).keys.map (s.ticket q)).Nodup := by rw [h.tick]; exact pending_nodup s q
  exact inj_of_nodup_map hn ha hb e

theorem SInv.tick_mem (h : SInv C s A) {q : Queue} {id : Str} (hid : id ∈ (A.q q).keys) :
    s.ticket q id ∈ pending s q := by
  rw [← h.tick]; exact List.mem_map_of_mem hid

theorem SInv.init : SInv C Sys.init ⟨fun _ => [], fun _ => [], fun _ => none⟩ where
  rel := Rel.empty C
  ids := by intro q id hid; cases hid
  tick q := rfl
  req := by intro q id j h; cases h
  fin := by intro t ht; cases ht
  once := List.nodup_nil
  time := by intro q id j h; cases h
  down _ := rfl
  shape := by intro h; cases h
  held := by intro i q id j h; simp [Sys.Runs, Sys.init] at h
  excl := by intro i i' q id j j' h; simp [Sys.Runs, Sys.init] at h
  owner := by intro h; cases h
  ringKeys := by intro b k hk; cases hk
  ring := by
    intro b l hl
    simp only [Sys.init, Option.some.injEq] at hl
    subst hl
    exact ⟨rfl, rfl, [], [], rfl, rfl, by simp⟩

/-! ### submit -/

/-- Submitting keeps the invariant and the histories. -/
theorem SInv.submit' (h : SInv C s A) (hup : s.up = true) (hN : s.reqs.length < 2 ^ 62) (r : Request) (now : Nat) :
    ∃ A', SInv C (s.submit C r now) A' ∧ A'.hist = A.hist ∧ A'.idx = A.idx := by
  obtain ⟨m, hm, hlt, hrun, hrel⟩ := push_run h.rel hN h.ids r.queue r.type r.params now
  have hnew : be8 m ∉ (A.q r.queue).keys := by
    intro hk
    obtain ⟨n, hn, e⟩ := h.ids _ _ hk
    have := hlt n hn (e ▸ hk)
    have := be8_inj (by omega) (by omega) e
    omega
  have hs : s.submit C r now = { s with
      raw := s.raw.put (r.queue.handle.realKey (be8 m)) (C.encJ ⟨r.type, false, r.params, ⟨now, 0, 0⟩⟩)
      reqs := s.reqs ++ [r]
      ticket := fun q i => if q = r.queue ∧ i = be8 m then s.reqs.length else s.ticket q i } := by
    unfold Sys.submit pushRequest
    rw [hrun]
  rw [hs]
  refine ⟨_, {
    rel := hrel, ids := ?ids, tick := ?tick, req := ?req, fin := ?fin, once := h.once, time := ?time, down := h.down
    shape := h.shape, held := ?held, excl := h.excl, owner := ?owner, ringKeys := h.ringKeys, ring := h.ring }, rfl, rfl⟩
  case ids =>
    intro q id hid
    simp only [upd_apply] at hid
    simp only [List.length_append, List.length_singleton]
    split at hid
    · rw [KV.keys_append, List.mem_append] at hid
      rcases hid with hid | hid
      · obtain ⟨n, hn, e⟩ := h.ids _ _ hid
        exact ⟨n, by omega, e⟩
      · simp only [KV.keys, List.map_cons, List.map_nil, List.mem_singleton] at hid
        exact ⟨m, by omega, hid⟩
    · obtain ⟨n, hn, e⟩ := h.ids _ _ hid
      exact ⟨n, by omega, e⟩
  case tick =>
    intro q
    have hp : pending { s with
        raw := s.raw.put (r.queue.handle.realKey (be8 m)) (C.encJ ⟨r.type, false, r.params, ⟨now, 0, 0⟩⟩)
        reqs := s.reqs ++ [r]
        ticket := fun q i => if q = r.queue ∧ i = be8 m then s.reqs.length else s.ticket q i } q
        = pending s q ++ (if q = r.queue then [s.reqs.length] else []) := by
      unfold pending
      simp only [List.length_append, List.length_singleton, List.range_succ, List.filter_append]
      congr 1
      · apply List.filter_congr
        intro t ht
        rw [List.mem_range] at ht
        rw [List.getElem?_append_left ht]
      · have h1 : s.reqs.length ∉ s.done := fun hc => by have := h.fin _ hc; omega
        by_cases e : q = r.queue
        · simp [e, h1]
        · have e' : ¬ r.queue = q := fun x => e x.symm
          simp [e, e']
    rw [hp, ← h.tick q]
    simp only [upd_apply]
    by_cases e : q = r.queue
    · subst e
      rw [if_pos rfl, if_pos rfl, KV.keys_append, List.map_append]
      congr 1
      · apply List.map_congr_left
        intro id hid
        have : id ≠ be8 m := fun e => hnew (e ▸ hid)
        simp [this]
      · simp [KV.keys]
    · rw [if_neg e, if_neg e, List.append_nil]
      apply List.map_congr_left
      intro id hid
      simp [e]
  case req =>
    intro q id j hj
    simp only [upd_apply] at hj
    have old : ∀ q, (A.q q).get id = some j → ¬ (q = r.queue ∧ id = be8 m) → ∃ r',
        (s.reqs ++ [r])[s.ticket q id]? = some r' ∧ r'.queue = q ∧ r'.type = j.type ∧ r'.params = j.params := by
      intro q hj _
      obtain ⟨r', h1, h2⟩ := h.req q id j hj
      refine ⟨r', ?_, h2⟩
      rw [List.getElem?_append_left (List.getElem?_eq_some_iff.1 h1).1]
      exact h1
    show ∃ r', (s.reqs ++ [r])[if q = r.queue ∧ id = be8 m then s.reqs.length else s.ticket q id]? = some r' ∧ _
    split at hj
    · rename_i e
      subst e
      rw [KV.get_append_new hnew] at hj
      split at hj
      · rename_i e; subst e
        simp only [Option.some.injEq] at hj
        subst hj
        exact ⟨r, by simp, rfl, rfl, rfl⟩
      · rename_i e
        rw [if_neg (fun hc => e hc.2)]
        exact old _ hj (fun hc => e hc.2)
    · rename_i e
      rw [if_neg (fun hc => e hc.1)]
      exact old _ hj (fun hc => e hc.1)
  case fin =>
    intro t ht
    have := h.fin t ht
    simp only [List.length_append, List.length_singleton]; omega
  case time =>
    intro q id j hj
    simp only [upd_apply] at hj
    split at hj
    · rw [KV.get_append_new hnew] at hj
      split at hj
      · simp only [Option.some.injEq] at hj
        subst hj; simp
      · exact h.time _ _ _ hj
    · exact h.time _ _ _ hj
  case held =>
    intro i q id j hr
    obtain ⟨h1, h2⟩ := h.held i q id j hr
    refine ⟨?_, h2⟩
    simp only [upd_apply]
    split
    · rename_i e; subst e
      rw [KV.get_append_new hnew, if_neg]
      · exact h1
      · intro e; exact hnew (e ▸ (KV.mem_keys_iff _ _).2 ⟨_, h1⟩)
    · exact h1
  case owner =>
    intro _ q id j hj hc
    simp only [upd_apply] at hj
    split at hj
    · rename_i e; subst e
      rw [KV.get_append_new hnew] at hj
      split at hj
      · simp only [Option.some.injEq] at hj
        subst hj; simp at hc
      · exact h.owner hup _ _ _ hj hc
    · exact h.owner hup _ _ _ hj hc

/-! ### claim -/

theorem firstFree_some {m : KV JobEntry} (hw : m.WF) {id : Str} {j : JobEntry} (hf : firstFree m = some (id, j)) :
    m.get id = some j ∧ j.claimed = false ∧ id ∈ m.keys := by
  have h1 : (id, j) ∈ m := List.mem_of_find?_eq_some hf
  have h2 := List.find?_some hf
  have h3 := KV.get_of_mem hw h1
  exact ⟨h3, by simpa using h2, (KV.mem_keys_iff _ _).2 ⟨_, h3⟩⟩

theorem Sys.claim_none (h : SInv C s A) {i : Nat} {q : Queue} (now : Nat) (hf : firstFree (A.q q) = none) :
    s.claim C i q now = s := by
  unfold Sys.claim
  rw [Jobs.claim_none h.rel q now hf]

theorem Sys.claim_some (h : SInv C s A) (hN : s.reqs.length < 2 ^ 62) {i : Nat} {q : Queue} (now : Nat)
    {id : Str} {j : JobEntry} (hf : firstFree (A.q q) = some (id, j)) :
    s.claim C i q now = { s with
      raw := s.raw.put (q.handle.realKey id) (C.encJ (claimedAt j now))
      workers := s.workers.set i ⟨q, some (id, claimedAt j now)⟩ } := by
  unfold Sys.claim
  rw [(Jobs.claim_some h.rel hN h.ids q now hf).1]

theorem runs_set {s : Sys} {i k : Nat} {q : Queue} {w : Worker} {id : Str} {j : JobEntry}
    (hi : ∃ x, s.workers[i]? = some x) :
    (s.workers.set i w)[k]? = some ⟨q, some (id, j)⟩ ↔
      (k = i ∧ w = ⟨q, some (id, j)⟩) ∨ (k ≠ i ∧ s.Runs k q id j) := by
  obtain ⟨x, hx⟩ := hi
  have hl := (List.getElem?_eq_some_iff.1 hx).1
  unfold Sys.Runs
  by_cases e : k = i
  · subst e; simp [List.getElem?_set_self hl]
  · rw [List.getElem?_set_ne (fun h => e h.symm)]; simp [e]

/-- Claiming keeps the invariant and the histories. -/
theorem SInv.claim' (h : SInv C s A) (hup : s.up = true) (hN : s.reqs.length < 2 ^ 62) {i : Nat} {q : Queue}
    {now : Nat} (hnow : now ≠ 0) (hi : s.Idle i q) :
    ∃ A', SInv C (s.claim C i q now) A' ∧ A'.hist = A.hist ∧ A'.idx = A.idx := by
  cases hf : firstFree (A.q q) with
  | none => exact ⟨A, by rw [Sys.claim_none h now hf]; exact h, rfl, rfl⟩
  | some x =>
    obtain ⟨id, j⟩ := x
    rw [Sys.claim_some h hN now hf]
    obtain ⟨hg, hfree, hkey⟩ := firstFree_some (h.rel.qWF q) hf
    have hkeys : ((A.q q).put id (claimedAt j now)).keys = (A.q q).keys := KV.keys_put_mem (h.rel.qWF q) hkey _
    have hgq : ∀ q' id', ((upd A.q q ((A.q q).put id (claimedAt j now))) q').get id'
        = if q' = q ∧ id' = id then some (claimedAt j now) else (A.q q').get id' := by
      intro q' id'
      rw [upd_apply]
      by_cases e : q' = q
      · subst e
        rw [if_pos rfl, KV.get_put]
        by_cases e2 : id' = id <;> simp [e2]
      · simp [e]
    have hnofree : ∀ k j', ¬ s.Runs k q id j' := by
      intro k j' hr
      obtain ⟨h1, h2⟩ := h.held _ _ _ _ hr
      rw [hg] at h1; cases h1
      rw [hfree] at h2; cases h2
    have hex : ∃ x, s.workers[i]? = some x := ⟨_, hi⟩
    refine ⟨_, {
      rel := (Jobs.claim_some h.rel hN h.ids q now hf).2, ids := ?ids, tick := ?tick, req := ?req, fin := h.fin
      once := h.once, time := ?time
      down := by intro hd; rw [show s.up = true from hup] at hd; cases hd
      shape := ?shape, held := ?held, excl := ?excl, owner := ?owner, ringKeys := h.ringKeys, ring := h.ring }, rfl, rfl⟩
    case ids =>
      intro q' id' hid
      simp only [upd_apply] at hid
      split at hid
      · rw [hkeys] at hid; exact h.ids _ _ hid
      · exact h.ids _ _ hid
    case tick =>
      intro q'
      refine Eq.trans ?_ (h.tick q')
      simp only [upd_apply]
      split
      · rename_i e; subst e; rw [hkeys]
      · rfl
    case req =>
      intro q' id' j' hj
      simp only [hgq] at hj
      split at hj
      · rename_i e
        obtain ⟨rfl, rfl⟩ := e
        simp only [Option.some.injEq] at hj
        subst hj
        obtain ⟨r, h1, h2, h3, h4⟩ := h.req _ _ _ hg
        exact ⟨r, h1, h2, h3, h4⟩
      · exact h.req _ _ _ hj
    case time =>
      intro q' id' j' hj
      simp only [hgq] at hj
      split at hj
      · simp only [Option.some.injEq] at hj
        subst hj
        simp [claimedAt, hnow]
      · exact h.time _ _ _ hj
    case shape =>
      intro _
      obtain ⟨n, hn⟩ := h.shape hup
      refine ⟨n, ?_⟩
      simp only [List.map_set]
      rw [← hn]
      have hl := (List.getElem?_eq_some_iff.1 hi).1
      have he := (List.getElem?_eq_some_iff.1 hi).2
      apply List.ext_getElem (by simp)
      intro k h1 h2
      rw [List.getElem_set]
      split
      · rename_i e; subst e; simp [he]
      · rfl
    case held =>
      intro k q' id' j' hr
      simp only [hgq]
      rcases (runs_set hex).1 hr with ⟨rfl, hw⟩ | ⟨hne, hr'⟩
      · cases hw
        simp [claimedAt]
      · obtain ⟨h1, h2⟩ := h.held _ _ _ _ hr'
        refine ⟨?_, h2⟩
        rw [if_neg]
        · exact h1
        · rintro ⟨rfl, rfl⟩; exact hnofree _ _ hr'
    case excl =>
      intro k k' q' id' j' j'' hr hr2
      rcases (runs_set hex).1 hr with ⟨rfl, hw⟩ | ⟨hne, hr'⟩ <;>
        rcases (runs_set hex).1 hr2 with ⟨rfl, hw2⟩ | ⟨hne2, hr2'⟩
      · rfl
      · cases hw; exact absurd hr2' (hnofree _ _)
      · cases hw2; exact absurd hr' (hnofree _ _)
      · exact h.excl _ _ _ _ _ _ hr' hr2'
    case owner =>
      intro _ q' id' j' hj hc
      simp only [hgq] at hj
      split at hj
      · rename_i e
        obtain ⟨rfl, rfl⟩ := e
        simp only [Option.some.injEq] at hj
        subst hj
        exact ⟨i, (runs_set hex).2 (.inl ⟨rfl, rfl⟩)⟩
      · obtain ⟨k, hk⟩ := h.owner hup _ _ _ hj hc
        refine ⟨k, (runs_set hex).2 (.inr ⟨?_, hk⟩)⟩
        rintro rfl
        unfold Sys.Runs at hk
        rw [show s.workers[k]? = _ from hi] at hk
        cases hk

/-! ### A job leaves the queue -/

theorem SInv.removed (h : SInv C s A) {i : Nat} {q : Queue} {id : Str} {j : JobEntry} (hr : s.Runs i q id j)
    {s' : Sys} {A' : AS} (hrel : Rel C s'.raw A') (hq : A'.q = upd A.q q ((A.q q).del id))
    (hreqs : s'.reqs = s.reqs) (htick : s'.ticket = s.ticket) (hdone : s'.done = s.ticket q id :: s.done)
    (hw : (s'.up = false ∧ s'.workers = []) ∨
      (s.up = true ∧ s'.up = true ∧ s'.workers = s.workers.set i ⟨q, none⟩))
    (hrk : ∀ b, ∀ k ∈ (A'.hist b).keys, ∃ n, n < 100 ∧ k = be8 n)
    (hring : ∀ b l, s'.log b = some l → Ring (A'.hist b) (A'.idx b) l) : SInv C s' A' := by
  obtain ⟨hget, hclaimed⟩ := h.held _ _ _ _ hr
  have hkey : id ∈ (A.q q).keys := (KV.mem_keys_iff _ _).2 ⟨_, hget⟩
  have hgq : ∀ q' id', (A'.q q').get id' = if q' = q ∧ id' = id then none else (A.q q').get id' := by
    intro q' id'
    rw [hq, upd_apply]
    by_cases e : q' = q
    · subst e
      rw [if_pos rfl, KV.get_del]
      by_cases e2 : id' = id <;> simp [e2]
    · simp [e]
  have hkeys : ∀ q' id', id' ∈ (A'.q q').keys → id' ∈ (A.q q').keys := by
    intro q' id' hk
    rw [KV.mem_keys_iff] at hk ⊢
    obtain ⟨v, hv⟩ := hk
    rw [hgq] at hv
    split at hv
    · cases hv
    · exact ⟨v, hv⟩
  have hold : ∀ q' id' j', (A'.q q').get id' = some j' → (A.q q').get id' = some j' := by
    intro q' id' j' hv
    rw [hgq] at hv
    split at hv
    · cases hv
    · exact hv
  have hruns : ∀ {k q' id' j'}, s'.Runs k q' id' j' → s.Runs k q' id' j' ∧ k ≠ i := by
    intro k q' id' j' hk
    rcases hw with ⟨-, hw⟩ | ⟨-, -, hw⟩
    · unfold Sys.Runs at hk; rw [hw] at hk; simp at hk
    · unfold Sys.Runs at hk; rw [hw] at hk
      rcases (runs_set ⟨_, hr⟩).1 hk with ⟨-, hc⟩ | ⟨hne, hk⟩
      · cases hc
      · exact ⟨hk, hne⟩
  refine {
    rel := hrel, ids := ?ids, tick := ?tick, req := ?req, fin := ?fin, once := ?once, time := ?time, down := ?down
    shape := ?shape, held := ?held, excl := ?excl, owner := ?owner, ringKeys := hrk, ring := hring }
  case ids =>
    intro q' id' hid
    rw [hreqs]
    exact h.ids _ _ (hkeys _ _ hid)
  case tick =>
    intro q'
    rw [htick]
    have hp : pending s' q' = (pending s q').filter (fun t => t ≠ s.ticket q id) := by
      unfold pending
      rw [hreqs, hdone, List.filter_filter]
      apply List.filter_congr
      intro t _
      simp only [List.mem_cons, not_or, ne_eq, Bool.decide_and]
      cases hd : decide (t = s.ticket q id) <;> simp_all
    rw [hp, ← h.tick q', hq, upd_apply]
    by_cases e : q' = q
    · subst e
      rw [if_pos rfl, KV.keys_del, List.filter_map]
      congr 1
      apply List.filter_congr
      intro x hx
      simp only [Function.comp_apply, ne_eq, decide_not]
      congr 1
      apply decide_eq_decide.2
      exact ⟨fun e => e ▸ rfl, fun e => h.tick_inj hx hkey e⟩
    · rw [if_neg e]
      symm
      rw [List.filter_eq_self]
      intro t ht
      simp only [decide_eq_true_eq, ne_eq]
      rintro rfl
      rw [h.tick q'] at ht
      have h1 := (mem_pending.1 ht).1
      have h2 := (mem_pending.1 (h.tick_mem hkey)).1
      obtain ⟨r1, a1, b1⟩ := h1
      obtain ⟨r2, a2, b2⟩ := h2
      rw [a1] at a2; cases a2
      exact e (b1.symm.trans b2)
  case req =>
    intro q' id' j' hj
    rw [hreqs, htick]
    exact h.req _ _ _ (hold _ _ _ hj)
  case fin =>
    intro t ht
    rw [hdone] at ht
    rw [hreqs]
    rcases List.mem_cons.1 ht with rfl | ht
    · obtain ⟨r, hr', -⟩ := h.req _ _ _ hget
      exact (List.getElem?_eq_some_iff.1 hr').1
    · exact h.fin _ ht
  case once =>
    rw [hdone, List.nodup_cons]
    exact ⟨(mem_pending.1 (h.tick_mem hkey)).2, h.once⟩
  case time =>
    intro q' id' j' hj
    exact h.time _ _ _ (hold _ _ _ hj)
  case down =>
    intro hd
    rcases hw with ⟨-, hw⟩ | ⟨-, hw, -⟩
    · exact hw
    · rw [hw] at hd; cases hd
  case shape =>
    intro hd
    rcases hw with ⟨hw, -⟩ | ⟨hup, -, hw⟩
    · rw [hw] at hd; cases hd
    · obtain ⟨n, hn⟩ := h.shape hup
      refine ⟨n, ?_⟩
      rw [hw, List.map_set, ← hn]
      have hl := (List.getElem?_eq_some_iff.1 hr).1
      have he := (List.getElem?_eq_some_iff.1 hr).2
      apply List.ext_getElem (by simp)
      intro k h1 h2
      rw [List.getElem_set]
      split
      · rename_i e; subst e; simp [he]
      · rfl
  case held =>
    intro k q' id' j' hk
    obtain ⟨hk1, hne⟩ := hruns hk
    obtain ⟨h1, h2⟩ := h.held _ _ _ _ hk1
    refine ⟨?_, h2⟩
    rw [hgq, if_neg]
    · exact h1
    · rintro ⟨rfl, rfl⟩
      exact hne (h.excl _ _ _ _ _ _ hk1 hr)
  case excl =>
    intro k k' q' id' j' j'' hk hk'
    exact h.excl _ _ _ _ _ _ (hruns hk).1 (hruns hk').1
  case owner =>
    intro hd q' id' j' hj hc
    rcases hw with ⟨hw, -⟩ | ⟨hup, -, hw⟩
    · rw [hw] at hd; cases hd
    · obtain ⟨k, hk⟩ := h.owner hup _ _ _ (hold _ _ _ hj) hc
      refine ⟨k, ?_⟩
      unfold Sys.Runs
      rw [hw]
      refine (runs_set ⟨_, hr⟩).2 (.inr ⟨?_, hk⟩)
      rintro rfl
      unfold Sys.Runs at hk hr
      rw [hr] at hk
      cases hk
      rw [hgq] at hj
      simp at hj

/-! ### The queues stay as they are -/

theorem SInv.queuesSame (h : SInv C s A) {s' : Sys} {A' : AS} (hrel : Rel C s'.raw A') (hq : A'.q = A.q)
    (hreqs : s'.reqs = s.reqs) (htick : s'.ticket = s.ticket) (hdone : s'.done = s.done)
    (hw : (s'.up = false ∧ s'.workers = []) ∨ (s'.up = s.up ∧ s'.workers = s.workers))
    (hrk : ∀ b, ∀ k ∈ (A'.hist b).keys, ∃ n, n < 100 ∧ k = be8 n)
    (hring : ∀ b l, s'.log b = some l → Ring (A'.hist b) (A'.idx b) l) : SInv C s' A' := by
  have hruns : ∀ {k q' id' j'}, s'.Runs k q' id' j' → s.Runs k q' id' j' := by
    intro k q' id' j' hk
    rcases hw with ⟨-, hw⟩ | ⟨-, hw⟩
    · unfold Sys.Runs at hk; rw [hw] at hk; simp at hk
    · unfold Sys.Runs at hk; rw [hw] at hk; exact hk
  exact {
    rel := hrel
    ids := by intro q id hid; rw [hq] at hid; rw [hreqs]; exact h.ids _ _ hid
    tick := by
      intro q
      rw [hq, htick]
      refine (h.tick q).trans ?_
      unfold pending; rw [hreqs, hdone]
    req := by rw [hq, hreqs, htick]; exact h.req
    fin := by rw [hdone, hreqs]; exact h.fin
    once := by rw [hdone]; exact h.once
    time := by rw [hq]; exact h.time
    down := by
      intro hd
      rcases hw with ⟨-, hw⟩ | ⟨hu, hw⟩
      · exact hw
      · rw [hw]; exact h.down (hu ▸ hd)
    shape := by
      intro hd
      rcases hw with ⟨hw, -⟩ | ⟨hu, hw⟩
      · rw [hw] at hd; cases hd
      · rw [hw]; exact h.shape (hu ▸ hd)
    held := by intro k q id j hk; rw [hq]; exact h.held _ _ _ _ (hruns hk)
    excl := fun _ _ _ _ _ _ hk hk' => h.excl _ _ _ _ _ _ (hruns hk) (hruns hk')
    owner := by
      intro hd q id j hj hc
      rcases hw with ⟨hw, -⟩ | ⟨hu, hw⟩
      · rw [hw] at hd; cases hd
      · rw [hq] at hj
        obtain ⟨i, hi⟩ := h.owner (hu ▸ hd) _ _ _ hj hc
        exact ⟨i, by unfold Sys.Runs; rw [hw]; exact hi⟩
    ringKeys := hrk
    ring := hring }

theorem SInv.kill (h : SInv C s A) : SInv C s.kill A :=
  h.queuesSame h.rel rfl rfl rfl rfl (.inl ⟨rfl, rfl⟩) h.ringKeys h.ring

/-! ### The history rings -/

theorem Ring.next {m : KV Record} {idx : Option Nat} {l : List Record} (h : Ring m idx l) :
    ringNext idx = l.length % 100 := by
  obtain ⟨-, h, -⟩ := h
  subst h
  unfold ringNext maxJobsStored
  by_cases e : l.length = 0
  · simp [e]
  · simp only [if_neg e]; split <;> omega

theorem ringKeys_succ (n : Nat) : ringKeys (n + 1) = ringKeys n ++ [be8 n] := by
  simp [ringKeys, List.range_succ]

theorem Ring.add {m : KV Record} (hw : m.WF) {idx : Option Nat} {l : List Record} (h : Ring m idx l)
    (x : Record) : Ring (m.put (be8 (ringNext idx)) x) (some (ringNext idx)) (l ++ [x]) := by
  have hnext := h.next
  rw [hnext]
  obtain ⟨hk, -, B, A, hv, hd, hB⟩ := h
  have hlen : m.length = min l.length 100 := by
    have := congrArg List.length hk
    simpa [KV.keys, ringKeys] using this
  by_cases hl : l.length < 100
  · rw [if_pos hl] at hB
    subst hB
    have e0 : l.length - 100 = 0 := by omega
    rw [e0] at hd
    simp only [List.drop_zero, List.append_nil, List.nil_append] at hd hv
    rw [Nat.mod_eq_of_lt hl]
    rw [show min l.length 100 = l.length by omega] at hk
    have hp : m.put (be8 l.length) x = m ++ [(be8 l.length, x)] := by
      apply put_append
      intro k' hk'
      rw [hk, ringKeys, List.mem_map] at hk'
      obtain ⟨n, hn, rfl⟩ := hk'
      rw [List.mem_range] at hn
      exact (be8_lt (by omega) (by omega)).2 hn
    rw [hp]
    refine ⟨?_, ?_, [], l ++ [x], ?_, ?_, ?_⟩
    · rw [KV.keys_append, hk, List.length_append, List.length_singleton,
        show min (l.length + 1) 100 = l.length + 1 by omega, ringKeys_succ]
      rfl
    · simp [Nat.mod_eq_of_lt hl]
    · simp [hv, hd]
    · have : (l ++ [x]).length - 100 = 0 := by simp; omega
      rw [this]; simp
    · simp only [List.length_append, List.length_singleton, List.length_nil]
      split
      · trivial
      · omega
  · rw [if_neg hl] at hB
    have hm100 : m.length = 100 := by omega
    have hAB : (B ++ A).length = 100 := by rw [← hv, List.length_map, hm100]
    rw [List.length_append] at hAB
    have hi : l.length % 100 < 100 := Nat.mod_lt _ (by omega)
    cases A with
    | nil => simp at hAB; omega
    | cons a A =>
      rw [List.length_cons] at hAB
      have hlt : B.length < m.length := by omega
      have hsplit : m = m.take B.length ++ m[B.length] :: m.drop (B.length + 1) := by
        rw [List.getElem_cons_drop, List.take_append_drop]
      have hkey : m[B.length].1 = be8 (l.length % 100) := by
        have : m.keys[B.length]? = some (be8 B.length) := by
          rw [hk, ringKeys, List.getElem?_map, List.getElem?_range (by omega)]
          rfl
        rw [KV.keys, List.getElem?_map, List.getElem?_eq_getElem hlt] at this
        simp only [Option.map_some, Option.some.injEq] at this
        rw [this, hB]
      have hput : m.put (be8 (l.length % 100)) x
          = m.take B.length ++ (be8 (l.length % 100), x) :: m.drop (B.length + 1) := by
        have hw' := hw
        rw [hsplit] at hw'
        rw [show m[B.length] = (be8 (l.length % 100), m[B.length].2) by rw [← hkey]] at hw' hsplit
        have := put_middle _ _ _ _ x hw'
        rw [← hsplit] at this
        exact this
      rw [hput]
      have hv1 : (m.take B.length).map Prod.snd = B := by
        rw [List.map_take, hv]
        simp
      have hv2 : (m.drop (B.length + 1)).map Prod.snd = A := by
        rw [List.map_drop, hv]
        have e : B ++ a :: A = (B ++ [a]) ++ A := by simp
        rw [e, List.drop_append_of_le_length (by simp)]
        simp
      have hdrop : (l ++ [x]).drop ((l ++ [x]).length - 100) = A ++ B ++ [x] := by
        rw [List.drop_append_of_le_length (by simp)]
        have e : (l ++ [x]).length - 100 = (l.length - 100) + 1 := by simp; omega
        rw [e, ← List.drop_drop, hd]
        simp
      refine ⟨?_, ?_, ?_⟩
      · have : KV.keys (m.take B.length ++ (be8 (l.length % 100), x) :: m.drop (B.length + 1)) = m.keys := by
          have e := congrArg KV.keys hsplit
          rw [e]
          simp only [KV.keys, List.map_append, List.map_cons, hkey]
        rw [this, hk]
        congr 1
        simp; omega
      · simp
      · by_cases h99 : B.length = 99
        · have hA : A = [] := List.length_eq_zero_iff.1 (by omega)
          subst hA
          refine ⟨[], B ++ [x], ?_, ?_, ?_⟩
          · simp [hv1, hv2]
          · rw [hdrop]; simp
          · rw [if_neg (by simp; omega)]
            simp; omega
        · refine ⟨B ++ [x], A, ?_, ?_, ?_⟩
          · simp [hv1, hv2]
          · rw [hdrop]; simp
          · rw [if_neg (by simp; omega)]
            simp; omega

/-! ### finish, reset, boot -/

theorem hist_put_keys {m : KV Record} (hk : ∀ k ∈ m.keys, ∃ n, n < 100 ∧ k = be8 n) {i : Nat} (hi : i < 100)
    (x : Record) : ∀ k ∈ (m.put (be8 i) x).keys, ∃ n, n < 100 ∧ k = be8 n := by
  intro k h
  rw [KV.mem_keys_put] at h
  rcases h with rfl | h
  · exact ⟨i, hi, rfl⟩
  · exact hk k h

theorem finishedOf_id (id : Str) (j : JobEntry) (now : Nat) (o : Option Str) : (finishedOf id j now o).id = id := by
  unfold finishedOf; split <;> rfl

theorem SInv.id_ok (h : SInv C s A) (hN : s.reqs.length < 2 ^ 62) {i : Nat} {q : Queue} {id : Str} {j : JobEntry}
    (hr : s.Runs i q id j) : reserved id = false := by
  obtain ⟨n, hn, rfl⟩ := h.ids q id ((KV.mem_keys_iff _ _).2 ⟨_, (h.held _ _ _ _ hr).1⟩)
  exact be8_not_reserved (by omega)

theorem SInv.finish (h : SInv C s A) (hup : s.up = true) (hN : s.reqs.length < 2 ^ 62) {i : Nat} {q : Queue}
    {id : Str} {j : JobEntry} (hr : s.Runs i q id j) (now : Nat) (outcome : Option Str) :
    SInv C (s.finish C i q id j now outcome) (retire3 A q (finishedOf id j now outcome)) := by
  obtain ⟨raw1, raw2, raw3, e, -, -, r3⟩ := retire_run h.rel q (finishedOf id j now outcome)
    (by rw [finishedOf_id]; exact h.id_ok hN hr)
  generalize hf : finishedOf id j now outcome = f at *
  have hid : f.id = id := by rw [← hf, finishedOf_id]
  refine h.removed hr (s' := s.finish C i q id j now outcome) ?_ ?_ rfl rfl rfl (.inr ⟨hup, hup, rfl⟩) ?_ ?_
  · have : (s.finish C i q id j now outcome).raw = raw3 := by
      simp only [Sys.finish, hf, e]
    rw [this]; exact r3
  · simp [retire3, retire2, retire1, hid]
  · intro b k hk
    simp only [retire3, upd_apply] at hk
    split at hk
    · exact hist_put_keys (h.ringKeys _) (ringNext_lt _) _ k hk
    · exact h.ringKeys b k hk
  · intro b l hl
    simp only [Sys.finish, hf, upd_apply] at hl
    simp only [retire3, retire2, upd_apply]
    split at hl
    · rename_i eb; subst eb
      simp only [if_pos]
      cases hlog : s.log f.failure.isSome with
      | none => rw [hlog] at hl; cases hl
      | some l0 =>
        rw [hlog] at hl
        simp only [Option.map_some, Option.some.injEq] at hl
        subst hl
        exact (h.ring _ _ hlog).add (h.rel.histWF _) _
    · rename_i eb
      rw [if_neg eb, if_neg eb]
      exact h.ring _ _ hl

theorem SInv.killRetire (h : SInv C s A) (hN : s.reqs.length < 2 ^ 62) {i : Nat} {q : Queue}
    {id : Str} {j : JobEntry} (hr : s.Runs i q id j) (now : Nat) (outcome : Option Str) {c : Raw}
    (hc : c ∈ (retire C q (finishedOf id j now outcome) s.raw).tr) :
    ∃ A', SInv C { s.kill with
      raw := c, done := s.ticket q id :: s.done
      log := upd s.log (finishedOf id j now outcome).failure.isSome none } A' := by
  obtain ⟨raw1, raw2, raw3, e, r1, r2, r3⟩ := retire_run h.rel q (finishedOf id j now outcome)
    (by rw [finishedOf_id]; exact h.id_ok hN hr)
  generalize hf : finishedOf id j now outcome = f at *
  have hid : f.id = id := by rw [← hf, finishedOf_id]
  rw [e] at hc
  simp only [List.mem_cons, List.not_mem_nil, or_false] at hc
  rcases hc with rfl | rfl | rfl
  · refine ⟨_, h.removed hr r1 (by simp [retire1, hid]) rfl rfl rfl (.inl ⟨rfl, rfl⟩) h.ringKeys ?_⟩
    intro b l hl
    simp only [upd_apply] at hl
    split at hl
    · cases hl
    · exact h.ring b l hl
  · refine ⟨_, h.removed hr r2 (by simp [retire1, retire2, hid]) rfl rfl rfl (.inl ⟨rfl, rfl⟩) h.ringKeys ?_⟩
    intro b l hl
    simp only [upd_apply] at hl
    split at hl
    · cases hl
    · rename_i eb
      simp only [retire2, upd_ne _ _ eb]
      exact h.ring b l hl
  · refine ⟨_, h.removed hr r3 (by simp [retire1, retire2, retire3, hid]) rfl rfl rfl (.inl ⟨rfl, rfl⟩) ?_ ?_⟩
    · intro b k hk
      simp only [retire3, upd_apply] at hk
      split at hk
      · exact hist_put_keys (h.ringKeys _) (ringNext_lt _) _ k hk
      · exact h.ringKeys b k hk
    · intro b l hl
      simp only [upd_apply] at hl
      split at hl
      · cases hl
      · rename_i eb
        simp only [retire3, retire2, upd_ne _ _ eb]
        exact h.ring b l hl

theorem SInv.hist_ok (h : SInv C s A) (b : Bool) : ∀ id ∈ (A.hist b).keys, reserved id = false := by
  intro id hid
  obtain ⟨n, hn, rfl⟩ := h.ringKeys b id hid
  exact be8_not_reserved (by omega)

theorem SInv.reset (h : SInv C s A) (b : Bool) : SInv C (s.reset b) (reset2 A b) := by
  obtain ⟨raw2, t, e, r2, -⟩ := reset_run h.rel b (h.hist_ok b)
  refine h.queuesSame (s' := s.reset b) ?_ rfl rfl rfl rfl (.inr ⟨rfl, rfl⟩) ?_ ?_
  · unfold Sys.reset; rw [e]; exact r2
  · intro b' k hk
    simp only [reset2, upd_apply] at hk
    split at hk
    · cases hk
    · exact h.ringKeys b' k hk
  · intro b' l hl
    simp only [Sys.reset, upd_apply] at hl
    simp only [reset2, reset1, upd_apply]
    split at hl
    · rename_i eb; subst eb
      simp only [Option.some.injEq] at hl
      subst hl
      simp only [if_pos]
      exact ⟨rfl, rfl, [], [], rfl, rfl, by simp⟩
    · rename_i eb
      rw [if_neg eb, if_neg eb]
      exact h.ring _ _ hl

theorem SInv.killReset (h : SInv C s A) (b : Bool) {c : Raw} (hc : c ∈ (Jobs.reset b s.raw).tr) :
    ∃ A', SInv C { s.kill with raw := c, log := upd s.log b none } A' := by
  obtain ⟨raw2, t, e, -, ht⟩ := reset_run h.rel b (h.hist_ok b)
  rw [e] at hc
  rcases ht c hc with r | r
  · refine ⟨_, h.queuesSame r rfl rfl rfl rfl (.inl ⟨rfl, rfl⟩) h.ringKeys ?_⟩
    intro b' l hl
    simp only [upd_apply] at hl
    split at hl
    · cases hl
    · rename_i eb
      simp only [reset1, upd_ne _ _ eb]
      exact h.ring _ _ hl
  · refine ⟨_, h.queuesSame r rfl rfl rfl rfl (.inl ⟨rfl, rfl⟩) ?_ ?_⟩
    · intro b' k hk
      simp only [reset2, upd_apply] at hk
      split at hk
      · cases hk
      · exact h.ringKeys b' k hk
    intro b' l hl
    simp only [upd_apply] at hl
    split at hl
    · cases hl
    · rename_i eb
      simp only [reset2, reset1, upd_ne _ _ eb]
      exact h.ring _ _ hl

theorem freed_claimed (j : JobEntry) : (freed j).claimed = false := by
  unfold freed; split <;> simp_all

/-- Freeing the jobs of some queues of a stopped daemon. -/
theorem SInv.freedSome (h : SInv C s A) (hup : s.up = false) {A' : AS} {raw' : Raw} (hrel : Rel C raw' A')
    (hq : ∀ q, A'.q q = A.q q ∨ A'.q q = KV.mapV freed (A.q q)) (hh : A'.hist = A.hist) (hi : A'.idx = A.idx) :
    SInv C { s with raw := raw' } A' := by
  have hkeys : ∀ q, (A'.q q).keys = (A.q q).keys := by
    intro q; rcases hq q with e | e <;> rw [e]
    rw [KV.keys_mapV]
  have hget : ∀ {q id j}, (A'.q q).get id = some j → ∃ j0, (A.q q).get id = some j0 ∧ (j = j0 ∨ j = freed j0) := by
    intro q id j hj
    rcases hq q with e | e <;> rw [e] at hj
    · exact ⟨j, hj, .inl rfl⟩
    · rw [KV.get_mapV, Option.map_eq_some_iff] at hj
      obtain ⟨j0, h1, h2⟩ := hj
      exact ⟨j0, h1, .inr h2.symm⟩
  have hw : s.workers = [] := h.down hup
  have hno : ∀ {k q id j}, ¬ Sys.Runs { s with raw := raw' } k q id j := by
    intro k q id j hk
    simp [Sys.Runs, hw] at hk
  exact {
    rel := hrel
    ids := by intro q id hid; rw [hkeys] at hid; exact h.ids _ _ hid
    tick := by intro q; rw [hkeys]; exact h.tick q
    req := by
      intro q id j hj
      obtain ⟨j0, h1, h2⟩ := hget hj
      obtain ⟨r, a, b, c, d⟩ := h.req q id j0 h1
      refine ⟨r, a, b, ?_⟩
      rcases h2 with rfl | rfl
      · exact ⟨c, d⟩
      · unfold freed; split <;> exact ⟨c, d⟩
    fin := h.fin
    once := h.once
    time := by
      intro q id j hj
      obtain ⟨j0, h1, h2⟩ := hget hj
      rcases h2 with rfl | rfl
      · exact h.time _ _ _ h1
      · have := h.time _ _ _ h1
        unfold freed; split
        · simp
        · exact this
    down := fun _ => hw
    shape := by intro hd; rw [show s.up = true from hd] at hup; cases hup
    held := fun _ _ _ _ hk => absurd hk hno
    excl := fun _ _ _ _ _ _ hk _ => absurd hk hno
    owner := by intro hd; rw [show s.up = true from hd] at hup; cases hup
    ringKeys := by rw [hh]; exact h.ringKeys
    ring := by rw [hh, hi]; exact h.ring }

theorem Sys.boot_eq (h : SInv C s A) (hN : s.reqs.length < 2 ^ 62) (n : Nat) :
    ∃ raw', s.boot C n = { s with
      raw := raw', up := true, workers := ⟨.seq, none⟩ :: List.replicate n ⟨.async, none⟩ } ∧
      Rel C raw' (freeAll A) := by
  obtain ⟨raw1, raw2, e, -, r2⟩ := setup_run h.rel hN h.ids
  refine ⟨raw2, ?_, r2⟩
  unfold Sys.boot
  rw [e]

theorem SInv.boot (h : SInv C s A) (hup : s.up = false) (hN : s.reqs.length < 2 ^ 62) (n : Nat) :
    SInv C (s.boot C n) (freeAll A) := by
  obtain ⟨raw', e, r⟩ := Sys.boot_eq h hN n
  rw [e]
  have h1 := h.freedSome hup r (fun q => .inr rfl) rfl rfl
  have hidle : ∀ {k q id j}, ¬ Sys.Runs { s with
      raw := raw', up := true, workers := ⟨.seq, none⟩ :: List.replicate n ⟨.async, none⟩ } k q id j := by
    intro k q id j hk
    unfold Sys.Runs at hk
    cases k with
    | zero => simp at hk
    | succ k =>
      simp only [List.getElem?_cons_succ, List.getElem?_replicate] at hk
      split at hk <;> simp at hk
  exact {
    rel := r, ids := h1.ids, tick := h1.tick, req := h1.req, fin := h1.fin, once := h1.once, time := h1.time
    down := by intro hd; cases hd
    shape := by intro _; exact ⟨n, by simp⟩
    held := fun _ _ _ _ hk => absurd hk hidle
    excl := fun _ _ _ _ _ _ hk _ => absurd hk hidle
    owner := by
      intro _ q id j hj hc
      have : (KV.mapV freed (A.q q)).get id = some j := hj
      rw [KV.get_mapV, Option.map_eq_some_iff] at this
      obtain ⟨j0, -, rfl⟩ := this
      rw [freed_claimed] at hc; cases hc
    ringKeys := h.ringKeys
    ring := h.ring }

theorem SInv.killBoot (h : SInv C s A) (hup : s.up = false) (hN : s.reqs.length < 2 ^ 62) {c : Raw}
    (hc : c ∈ (setup C s.raw).tr) : ∃ A', SInv C { s with raw := c } A' := by
  obtain ⟨raw1, raw2, e, r1, r2⟩ := setup_run h.rel hN h.ids
  rw [e] at hc
  simp only [List.mem_cons, List.not_mem_nil, or_false] at hc
  rcases hc with rfl | rfl
  · refine ⟨_, h.freedSome hup r1 ?_ rfl rfl⟩
    intro q
    simp only [upd_apply]
    split
    · rename_i eq; subst eq; exact .inr rfl
    · exact .inl rfl
  · exact ⟨_, h.freedSome hup r2 (fun q => .inr rfl) rfl rfl⟩

theorem SInv.submit (h : SInv C s A) (hup : s.up = true) (hN : s.reqs.length < 2 ^ 62) (r : Request) (now : Nat) :
    ∃ A', SInv C (s.submit C r now) A' := (h.submit' hup hN r now).imp fun _ h => h.1

theorem SInv.claim (h : SInv C s A) (hup : s.up = true) (hN : s.reqs.length < 2 ^ 62) {i : Nat} {q : Queue}
    {now : Nat} (hnow : now ≠ 0) (hi : s.Idle i q) : ∃ A', SInv C (s.claim C i q now) A' :=
  (h.claim' hup hN hnow hi).imp fun _ h => h.1


theorem SInv.step {poison : Str → List Str → Prop} (h : SInv C s A) (hN : s.reqs.length < 2 ^ 62) {s' : Sys}
    (hs : Step C poison s s') : ∃ A', SInv C s' A' := by
  cases hs with
  | submit r now hup => exact h.submit hup hN r now
  | claim now hup hnow hi => exact h.claim hup hN hnow hi
  | finish now outcome hup hr _ => exact ⟨_, h.finish hup hN hr now outcome⟩
  | reset b _ => exact ⟨_, h.reset b⟩
  | kill _ => exact ⟨_, h.kill⟩
  | killRetire now outcome c _ hr _ hc => exact h.killRetire hN hr now outcome hc
  | killReset b c _ hc => exact h.killReset b hc
  | boot n hup => exact ⟨_, h.boot hup hN n⟩
  | killBoot c hup hc => exact h.killBoot hup hN hc

theorem Step.reqs_le {poison : Str → List Str → Prop} {s s' : Sys} (hs : Step C poison s s') :
    s.reqs.length ≤ s'.reqs.length := by
  cases hs with
  | submit r now hup => simp [Sys.submit]
  | boot n hup => unfold Sys.boot; dsimp only; split <;> exact Nat.le_refl _
  | _ => exact Nat.le_refl _

theorem Reach.inv {poison : Str → List Str → Prop} (h : Reach C poison s) : ∃ A, SInv C s A := by
  obtain ⟨h, hN⟩ := h
  induction h with
  | refl => exact ⟨_, SInv.init⟩
  | tail _ hs ih =>
    have hle := Step.reqs_le hs
    obtain ⟨A, hA⟩ := ih (by omega)
    exact hA.step (by omega) hs

end Jobs
end Ferryd
