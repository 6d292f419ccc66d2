import Verif.JobsModel
import Verif.PropsDb
/-!
# JobsStore: the job store refines a simple abstract store

`AS` is what the six buckets of the job database hold, decoded.  Each store operation is shown to act on it
as expected, at its end and at every crash point.
-/
namespace Ferryd

namespace KV
variable {α β : Type}

/-- Map the values of a bucket. (No code: used in the proofs only.) -/
def mapV (f : α → β) (m : KV α) : KV β := m.map (fun kv => (kv.1, f kv.2))

@[simp] theorem mapV_nil (f : α → β) : mapV f ([] : KV α) = [] := rfl
@[simp] theorem keys_mapV (f : α → β) (m : KV α) : (mapV f m).keys = m.keys := by
  simp [mapV, keys, List.map_map, Function.comp_def]

theorem WF_mapV (f : α → β) (m : KV α) : (mapV f m).WF ↔ m.WF := by
  unfold WF; rw [keys_mapV]

theorem get_mapV (f : α → β) (m : KV α) (k : Str) : (mapV f m).get k = (m.get k).map f := by
  induction m with
  | nil => rfl
  | cons kv m ih =>
    obtain ⟨k', v⟩ := kv
    show (KV.get ((k', f v) :: mapV f m) k) = _
    unfold KV.get
    split
    · rfl
    · exact ih

theorem mapV_put (f : α → β) (m : KV α) (k : Str) (v : α) : mapV f (m.put k v) = (mapV f m).put k (f v) := by
  induction m with
  | nil => rfl
  | cons kv m ih =>
    obtain ⟨k', v'⟩ := kv
    show mapV f (KV.put ((k', v') :: m) k v) = KV.put ((k', f v') :: mapV f m) k (f v)
    unfold KV.put
    split
    · rfl
    · split
      · rfl
      · rw [← ih]; rfl

theorem mapV_del (f : α → β) (m : KV α) (k : Str) : mapV f (m.del k) = (mapV f m).del k := by
  induction m with
  | nil => rfl
  | cons kv m ih =>
    obtain ⟨k', v'⟩ := kv
    show mapV f (KV.del ((k', v') :: m) k) = KV.del ((k', f v') :: mapV f m) k
    unfold KV.del
    split
    · exact ih
    · rw [← ih]; rfl

end KV

namespace Jobs
open Ferryd.Db

/-- The six buckets. store.go:32-53. (No code: used in the proofs only.) -/
inductive B | q (q : Queue) | hist (b : Bool) | idx (b : Bool)
deriving DecidableEq
/-- The handle of each bucket. (No code: used in the proofs only.) -/
def B.handle : B → Handle
  | .q x => x.handle
  | .hist x => histHandle x
  | .idx x => recHandle x

theorem B.OK (b : B) : b.handle.OK := by
  cases b with
  | q x => cases x <;> rfl
  | hist x => cases x <;> rfl
  | idx x => cases x <;> rfl

theorem B.apart {b b' : B} (h : b ≠ b') : Apart b.handle b'.handle := by
  cases b with
  | q x =>
    cases b' with
    | q y => cases x <;> cases y <;> first | exact absurd rfl h | decide
    | hist y => cases x <;> cases y <;> decide
    | idx y => cases x <;> cases y <;> decide
  | hist x =>
    cases b' with
    | q y => cases x <;> cases y <;> decide
    | hist y => cases x <;> cases y <;> first | exact absurd rfl h | decide
    | idx y => cases x <;> cases y <;> decide
  | idx x =>
    cases b' with
    | q y => cases x <;> cases y <;> decide
    | hist y => cases x <;> cases y <;> decide
    | idx y => cases x <;> cases y <;> first | exact absurd rfl h | decide

/-- Abstract content of the job database.
A simpler description of the same store, related to it by `Rel`. (No code: used in the proofs only.) -/
structure AS where
  q : Queue → KV JobEntry
  hist : Bool → KV Record
  idx : Bool → Option Nat

/-- Change one component of a function. (No code.) -/
def upd {α β : Type} [DecidableEq α] (f : α → β) (a : α) (b : β) : α → β := fun x => if x = a then b else f x

@[simp] theorem upd_self {α β : Type} [DecidableEq α] (f : α → β) (a : α) (b : β) : upd f a b a = b := by
  simp [upd]
theorem upd_ne {α β : Type} [DecidableEq α] (f : α → β) {a x : α} (b : β) (h : x ≠ a) : upd f a b x = f x := by
  simp [upd, h]
theorem upd_apply {α β : Type} [DecidableEq α] (f : α → β) (a x : α) (b : β) :
    upd f a b x = if x = a then b else f x := rfl

/-- The stored form of an index record bucket. (No code: used in the proofs only.) -/
def idxKV (C : Codec) : Option Nat → KV Str
  | none => []
  | some n => [(recKey, C.encI n)]

/-- The database holds exactly the abstract content. (No code: used in the proofs only.) -/
structure Rel (C : Codec) (raw : Raw) (A : AS) : Prop where
  wf : raw.WF
  clean : ∀ b : B, Clean b.handle raw
  q : ∀ q : Queue, q.handle.view raw = KV.mapV C.encJ (A.q q)
  hist : ∀ b, (histHandle b).view raw = KV.mapV C.encR (A.hist b)
  idx : ∀ b, (recHandle b).view raw = idxKV C (A.idx b)

theorem Rel.empty (C : Codec) : Rel C [] ⟨fun _ => [], fun _ => [], fun _ => none⟩ :=
  ⟨KV.WF_nil, (fun _ k hk => by cases hk), fun _ => rfl, fun _ => rfl, fun _ => rfl⟩

variable {C : Codec} {raw : Raw} {A : AS}

theorem Rel.qWF (h : Rel C raw A) (q : Queue) : (A.q q).WF := by
  rw [← KV.WF_mapV C.encJ, ← h.q]; exact view_WF h.wf

theorem Rel.histWF (h : Rel C raw A) (b : Bool) : (A.hist b).WF := by
  rw [← KV.WF_mapV C.encR, ← h.hist]; exact view_WF h.wf

theorem view_put_ne (hw : raw.WF) {b b' : B} (h : b ≠ b') (id v : Str) :
    b.handle.view (raw.put (b'.handle.realKey id) v) = b.handle.view raw :=
  view_put_other hw _ (fun _ => (B.apart h).realKey_ne _ _)

theorem view_del_ne (hw : raw.WF) {b b' : B} (h : b ≠ b') (id : Str) :
    b.handle.view (raw.del (b'.handle.realKey id)) = b.handle.view raw :=
  view_del_other hw (fun _ => (B.apart h).realKey_ne _ _)

theorem clean_put (hc : ∀ b : B, Clean b.handle raw) (b' : B) (id v : Str) (b : B) :
    Clean b.handle (raw.put (b'.handle.realKey id) v) := by
  by_cases e : b = b'
  · subst e; exact (hc b).put_self _ _
  · exact (hc b).put_other _ ((B.apart e).not_range _)

theorem Rel.putQ (h : Rel C raw A) (q : Queue) (id : Str) (j : JobEntry) :
    Rel C (raw.put (q.handle.realKey id) (C.encJ j)) { A with q := upd A.q q ((A.q q).put id j) } where
  wf := h.wf.put _ _
  clean := clean_put h.clean (.q q) id _
  q q' := by
    by_cases e : q' = q
    · subst e
      rw [view_put h.wf, h.q]
      simp [KV.mapV_put]
    · simp only [upd_ne _ _ e]
      exact (view_put_ne (b := .q q') (b' := .q q) h.wf (by simpa using e) _ _).trans (h.q q')
  hist b := by
    exact (view_put_ne (b := .hist b) (b' := .q q) h.wf (by simp) _ _).trans (h.hist b)
  idx b := by
    exact (view_put_ne (b := .idx b) (b' := .q q) h.wf (by simp) _ _).trans (h.idx b)

theorem Rel.delQ (h : Rel C raw A) (q : Queue) (id : Str) :
    Rel C (raw.del (q.handle.realKey id)) { A with q := upd A.q q ((A.q q).del id) } where
  wf := h.wf.del _
  clean b := (h.clean b).del _
  q q' := by
    by_cases e : q' = q
    · subst e
      rw [view_del h.wf, h.q]
      simp [KV.mapV_del]
    · simp only [upd_ne _ _ e]
      exact (view_del_ne (b := .q q') (b' := .q q) h.wf (by simpa using e) _).trans (h.q q')
  hist b := by
    exact (view_del_ne (b := .hist b) (b' := .q q) h.wf (by simp) _).trans (h.hist b)
  idx b := by
    exact (view_del_ne (b := .idx b) (b' := .q q) h.wf (by simp) _).trans (h.idx b)

theorem Rel.putHist (h : Rel C raw A) (b : Bool) (id : Str) (r : Record) :
    Rel C (raw.put ((histHandle b).realKey id) (C.encR r))
      { A with hist := upd A.hist b ((A.hist b).put id r) } where
  wf := h.wf.put _ _
  clean := clean_put h.clean (.hist b) id _
  q q := by
    exact (view_put_ne (b := .q q) (b' := .hist b) h.wf (by simp) _ _).trans (h.q q)
  hist b' := by
    by_cases e : b' = b
    · subst e
      rw [view_put h.wf, h.hist]
      simp [KV.mapV_put]
    · simp only [upd_ne _ _ e]
      exact (view_put_ne (b := .hist b') (b' := .hist b) h.wf (by simpa using e) _ _).trans (h.hist b')
  idx b' := by
    exact (view_put_ne (b := .idx b') (b' := .hist b) h.wf (by simp) _ _).trans (h.idx b')

theorem Rel.delHist (h : Rel C raw A) (b : Bool) (id : Str) :
    Rel C (raw.del ((histHandle b).realKey id))
      { A with hist := upd A.hist b ((A.hist b).del id) } where
  wf := h.wf.del _
  clean b := (h.clean b).del _
  q q := by
    exact (view_del_ne (b := .q q) (b' := .hist b) h.wf (by simp) _).trans (h.q q)
  hist b' := by
    by_cases e : b' = b
    · subst e
      rw [view_del h.wf, h.hist]
      simp [KV.mapV_del]
    · simp only [upd_ne _ _ e]
      exact (view_del_ne (b := .hist b') (b' := .hist b) h.wf (by simpa using e) _).trans (h.hist b')
  idx b' := by
    exact (view_del_ne (b := .idx b') (b' := .hist b) h.wf (by simp) _).trans (h.idx b')

theorem Rel.putIdx (h : Rel C raw A) (b : Bool) (n : Nat) :
    Rel C (raw.put ((recHandle b).realKey recKey) (C.encI n)) { A with idx := upd A.idx b (some n) } where
  wf := h.wf.put _ _
  clean := clean_put h.clean (.idx b) recKey _
  q q := by
    exact (view_put_ne (b := .q q) (b' := .idx b) h.wf (by simp) _ _).trans (h.q q)
  hist b' := by
    exact (view_put_ne (b := .hist b') (b' := .idx b) h.wf (by simp) _ _).trans (h.hist b')
  idx b' := by
    by_cases e : b' = b
    · subst e
      rw [view_put h.wf, h.idx]
      simp only [upd_self]
      cases A.idx b' <;> simp [idxKV, KV.put]
    · simp only [upd_ne _ _ e]
      exact (view_put_ne (b := .idx b') (b' := .idx b) h.wf (by simpa using e) _ _).trans (h.idx b')

theorem Rel.delIdx (h : Rel C raw A) (b : Bool) :
    Rel C (raw.del ((recHandle b).realKey recKey)) { A with idx := upd A.idx b none } where
  wf := h.wf.del _
  clean b := (h.clean b).del _
  q q := by
    exact (view_del_ne (b := .q q) (b' := .idx b) h.wf (by simp) _).trans (h.q q)
  hist b' := by
    exact (view_del_ne (b := .hist b') (b' := .idx b) h.wf (by simp) _).trans (h.hist b')
  idx b' := by
    by_cases e : b' = b
    · subst e
      rw [view_del h.wf, h.idx]
      simp only [upd_self]
      cases A.idx b' <;> simp [idxKV, KV.del]
    · simp only [upd_ne _ _ e]
      exact (view_del_ne (b := .idx b') (b' := .idx b) h.wf (by simpa using e) _).trans (h.idx b')

theorem Rel.getIdx (h : Rel C raw A) (b : Bool) :
    raw.get ((recHandle b).realKey recKey) = (A.idx b).map C.encI := by
  rw [← view_get h.wf, h.idx]
  cases A.idx b <;> simp [idxKV, KV.get]

theorem Rel.visitsQ (h : Rel C raw A) (q : Queue) : q.handle.visits raw = KV.mapV C.encJ (A.q q) := by
  exact (visits_eq_view (B.OK (.q q)) (h.clean (.q q))).trans (h.q q)

theorem Rel.visitsHist (h : Rel C raw A) (b : Bool) :
    (histHandle b).visits raw = KV.mapV C.encR (A.hist b) := by
  exact (visits_eq_view (B.OK (.hist b)) (h.clean (.hist b))).trans (h.hist b)

/-- All numbers used as job ids are below `N`. (No code: used in the proofs only.) -/
def IdsBelow (A : AS) (N : Nat) : Prop := ∀ q, ∀ id ∈ (A.q q).keys, ∃ n, n < N ∧ id = be8 n

theorem runTx_forEach {α} (h : Handle) (f : List (Str × Str) → Prog α) (b : List BOp) :
    runTx raw (h.forEach f) b = runTx raw (f (h.visits raw)) b := rfl

theorem direct_forEach {α} (h : Handle) (f : List (Str × Str) → Prog α) :
    direct (h.forEach f) raw = direct (f (h.visits raw)) raw := rfl

theorem runTx_bind {α β} (p : Prog α) (f : α → Prog β) (b : List BOp) : runTx raw (p.bind f) b =
    match runTx raw p b with
    | (.ok a, b') => runTx raw (f a) b'
    | (.error e, b') => (.error e, b') := by
  induction p generalizing b with
  | ret a => rfl
  | fail e => rfl
  | get k c ih => exact ih _ b
  | range p c ih => exact ih _ b
  | write op c ih => exact ih (b ++ [op])

/-! ## push -/

theorem put_append {α} {m : KV α} {k : Str} {v : α}
    (h : ∀ k' ∈ m.keys, strLe k' k = true ∧ k' ≠ k) : m.put k v = m ++ [(k, v)] := by
  induction m with
  | nil => rfl
  | cons kv m ih =>
    obtain ⟨k', v'⟩ := kv
    have h0 := h k' (by simp [KV.keys])
    unfold KV.put
    rw [if_neg (fun e => h0.2 e.symm), if_neg]
    · rw [ih (fun x hx => h x (by simp only [KV.keys, List.map_cons, List.mem_cons]; exact .inr hx))]
      rfl
    · intro e
      exact h0.2 (strLe_antisymm h0.1 e)

theorem push_run (h : Rel C raw A) {N : Nat} (hN : N < 2 ^ 62) (hi : IdsBelow A N)
    (q : Queue) (type : Str) (params : List Str) (now : Nat) :
    ∃ m, m ≤ N ∧ (∀ n, n < N → be8 n ∈ (A.q q).keys → n < m) ∧
      let j : JobEntry := ⟨type, false, params, ⟨now, 0, 0⟩⟩
      let raw' := raw.put (q.handle.realKey (be8 m)) (C.encJ j)
      push C q type params now raw = ⟨.ok (be8 m), raw', [raw']⟩ ∧
      Rel C raw' { A with q := upd A.q q (A.q q ++ [(be8 m, j)]) } := by
  have hb : Below q.handle raw N := ⟨h.wf, h.clean (.q q), fun id hid => by
    rw [h.q, KV.keys_mapV] at hid
    exact hi q id hid⟩
  obtain ⟨m, hm, hrun, -, hlt, -⟩ := nextSequence_spec (N := N) (show q.handle.OK from B.OK (.q q)) (by omega) hb
  rw [h.q, KV.keys_mapV] at hlt
  refine ⟨m, hm, hlt, ?_, ?_⟩
  · unfold push update
    rw [hrun]
    simp [Handle.putObject, be8_not_reserved (show m < 2 ^ 62 by omega), Prog.bind, runTx, applyAll, BOp.apply]
  · have := h.putQ q (be8 m) ⟨type, false, params, ⟨now, 0, 0⟩⟩
    rwa [put_append (m := A.q q)] at this
    intro k hk
    obtain ⟨n, hn, rfl⟩ := hi q k hk
    exact (be8_lt (by omega) (by omega)).2 (hlt n hn hk)

/-! ## claim -/

/-- The first job not claimed. On the abstract store: store.go:167-184. (No code: used in the proofs only.) -/
def firstFree (m : KV JobEntry) : Option (Str × JobEntry) := m.find? (fun kv => !kv.2.claimed)

theorem firstUnclaimed_run (m : KV JobEntry) (b : List BOp) :
    runTx raw (firstUnclaimed C (KV.mapV C.encJ m)) b = (.ok (firstFree m), b) := by
  induction m with
  | nil => rfl
  | cons kv m ih =>
    obtain ⟨id, j⟩ := kv
    show runTx raw (firstUnclaimed C ((id, C.encJ j) :: KV.mapV C.encJ m)) b = _
    unfold firstUnclaimed
    rw [C.lawJ]
    simp only [firstFree, List.find?_cons]
    cases hj : j.claimed with
    | true => simpa [firstFree] using ih
    | false => simp [runTx]

/-- The claimed form of a job. On the abstract store: store.go:171-175. (No code: used in the proofs only.) -/
def claimedAt (j : JobEntry) (now : Nat) : JobEntry :=
  { j with claimed := true, timing := { j.timing with begin_ := now } }

theorem claim_none (h : Rel C raw A) (q : Queue) (now : Nat) (hf : firstFree (A.q q) = none) :
    claim C q now raw = ⟨.ok none, raw, [raw]⟩ := by
  unfold claim update
  rw [runTx_forEach, h.visitsQ, runTx_bind, firstUnclaimed_run, hf]
  rfl

theorem claim_some (h : Rel C raw A) {N : Nat} (hN : N < 2 ^ 62) (hi : IdsBelow A N)
    (q : Queue) (now : Nat) {id : Str} {j : JobEntry} (hf : firstFree (A.q q) = some (id, j)) :
    let raw' := raw.put (q.handle.realKey id) (C.encJ (claimedAt j now))
    claim C q now raw = ⟨.ok (some (id, claimedAt j now)), raw', [raw']⟩ ∧
    Rel C raw' { A with q := upd A.q q ((A.q q).put id (claimedAt j now)) } := by
  obtain ⟨n, hn, rfl⟩ := hi q id (List.mem_map_of_mem (f := Prod.fst) (List.mem_of_find?_eq_some hf))
  refine ⟨?_, h.putQ q _ _⟩
  unfold claim update
  rw [runTx_forEach, h.visitsQ, runTx_bind, firstUnclaimed_run, hf]
  simp [Handle.putObject, be8_not_reserved (show n < 2 ^ 62 by omega), Prog.bind, runTx, applyAll, BOp.apply,
    claimedAt]

/-! ## unclaim -/

/-- The unclaimed form of a job. On the abstract store: store.go:130-132. (No code: used in the proofs only.) -/
def freed (j : JobEntry) : JobEntry :=
  if j.claimed then { j with timing := { j.timing with begin_ := 0, end_ := 0 }, claimed := false } else j

/-- The writes of unclaimJobs. store.go:122-135. (No code: used in the proofs only.) -/
def unclaimOps (C : Codec) (h : Handle) (m : KV JobEntry) : List BOp :=
  (m.filter (fun kv => kv.2.claimed)).map (fun kv => .put (h.realKey kv.1) (C.encJ (freed kv.2)))

theorem unclaimLoop_run (h : Handle) (m : KV JobEntry) (hr : ∀ id ∈ m.keys, reserved id = false)
    (b : List BOp) :
    runTx raw (unclaimLoop C h (KV.mapV C.encJ m)) b = (.ok (), b ++ unclaimOps C h m) := by
  induction m generalizing b with
  | nil => simp [unclaimLoop, runTx, unclaimOps]
  | cons kv m ih =>
    obtain ⟨id, j⟩ := kv
    have hr' : ∀ id ∈ KV.keys m, reserved id = false := fun x hx =>
      hr x (by simp only [KV.keys, List.map_cons, List.mem_cons]; exact .inr hx)
    have h0 : reserved id = false := hr id (by simp [KV.keys])
    show runTx raw (unclaimLoop C h ((id, C.encJ j) :: KV.mapV C.encJ m)) b = _
    unfold unclaimLoop
    rw [C.lawJ]
    simp only
    cases hj : j.claimed with
    | true =>
      simp only [if_true, Handle.putObject, h0, Prog.bind, runTx, Bool.false_eq_true, if_false]
      rw [ih hr']
      simp [unclaimOps, freed, hj]
    | false =>
      simp only [Bool.false_eq_true, if_false]
      rw [ih hr']
      simp [unclaimOps, hj]

theorem applyAll_append (b b' : List BOp) : applyAll raw (b ++ b') = applyAll (applyAll raw b) b' := by
  simp [applyAll]

theorem put_middle {α} (a b : KV α) (k : Str) (v w : α) (hw : (a ++ (k, v) :: b).WF) :
    (a ++ (k, v) :: b).put k w = a ++ (k, w) :: b := by
  induction a with
  | nil => simp [KV.put]
  | cons kv a ih =>
    obtain ⟨k', v'⟩ := kv
    have hp := List.pairwise_cons.1 (show List.Pairwise _ (k' :: KV.keys (a ++ (k, v) :: b)) from hw)
    have hk : k ∈ KV.keys (a ++ (k, v) :: b) := by simp [KV.keys]
    have hne := hp.1 k hk
    show KV.put ((k', v') :: (a ++ (k, v) :: b)) k w = _
    unfold KV.put
    rw [if_neg (fun e => hne.2 e.symm), if_neg (fun e => hne.2 (strLe_antisymm hne.1 e)), ih hp.2]
    rfl

theorem unclaim_rel (q : Queue) (m : KV JobEntry) : ∀ (pre : KV JobEntry) {raw : Raw} {A : AS},
    Rel C raw A → A.q q = pre ++ m →
    Rel C (applyAll raw (unclaimOps C q.handle m)) { A with q := upd A.q q (pre ++ KV.mapV freed m) } := by
  induction m with
  | nil =>
    intro pre raw A h hA
    have : upd A.q q (pre ++ KV.mapV freed []) = A.q := by
      funext x
      by_cases e : x = q
      · subst e; simp [hA]
      · rw [upd_ne _ _ e]
    rw [this]
    exact h
  | cons kv m ih =>
    intro pre raw A h hA
    obtain ⟨id, j⟩ := kv
    cases hj : j.claimed with
    | false =>
      have := ih (pre ++ [(id, j)]) h (by simp [hA])
      rw [show unclaimOps C q.handle ((id, j) :: m) = unclaimOps C q.handle m by simp [unclaimOps, hj]]
      rw [show pre ++ KV.mapV freed ((id, j) :: m) = pre ++ [(id, j)] ++ KV.mapV freed m by
        simp [KV.mapV, freed, hj]]
      exact this
    | true =>
      have h1 := h.putQ q id (freed j)
      have hwf := h.qWF q
      rw [hA] at hwf
      have e1 : (A.q q).put id (freed j) = pre ++ [(id, freed j)] ++ m := by
        rw [hA, put_middle _ _ _ _ _ hwf]; simp
      rw [e1] at h1
      have := ih (pre ++ [(id, freed j)]) h1 (by simp)
      rw [show unclaimOps C q.handle ((id, j) :: m)
        = .put (q.handle.realKey id) (C.encJ (freed j)) :: unclaimOps C q.handle m by simp [unclaimOps, hj]]
      rw [show pre ++ KV.mapV freed ((id, j) :: m) = pre ++ [(id, freed j)] ++ KV.mapV freed m by
        simp [KV.mapV]]
      have e2 : upd (upd A.q q (pre ++ [(id, freed j)] ++ m)) q (pre ++ [(id, freed j)] ++ KV.mapV freed m)
          = upd A.q q (pre ++ [(id, freed j)] ++ KV.mapV freed m) := by
        funext x; simp only [upd_apply]; split <;> rfl
      simp only [e2] at this
      exact this

theorem unclaimJobs_run (h : Rel C raw A) {N : Nat} (hN : N < 2 ^ 62) (hi : IdsBelow A N) (q : Queue) :
    ∃ raw', unclaimJobs C q raw = ⟨.ok (), raw', [raw']⟩ ∧
      Rel C raw' { A with q := upd A.q q (KV.mapV freed (A.q q)) } := by
  have hr : ∀ id ∈ (A.q q).keys, reserved id = false := fun id hid => by
    obtain ⟨n, hn, rfl⟩ := hi q id hid
    exact be8_not_reserved (by omega)
  refine ⟨applyAll raw (unclaimOps C q.handle (A.q q)), ?_, unclaim_rel q (A.q q) [] h rfl⟩
  unfold unclaimJobs update
  rw [runTx_forEach, h.visitsQ, unclaimLoop_run _ _ hr]
  simp

theorem DM.bind_ok {α β} {m : DM α} {f : α → DM β} {r r1 : Raw} {a : α} {t : List Raw}
    (h : m r = ⟨.ok a, r1, t⟩) : (m >>= f) r = ⟨(f a r1).res, (f a r1).raw, t ++ (f a r1).tr⟩ := by
  show DM.bind' m f r = _
  unfold DM.bind'
  rw [h]

/-- All jobs freed. On the abstract store: store.go:114-137. (No code: used in the proofs only.) -/
def freeAll (A : AS) : AS := { A with q := fun q => KV.mapV freed (A.q q) }

theorem IdsBelow.upd {N : Nat} (hi : IdsBelow A N) (q : Queue) (m : KV JobEntry)
    (hm : ∀ id ∈ m.keys, ∃ n, n < N ∧ id = be8 n) : IdsBelow { A with q := upd A.q q m } N := by
  intro q' id hid
  simp only [upd_apply] at hid
  split at hid
  · exact hm id hid
  · exact hi q' id hid

theorem setup_run (h : Rel C raw A) {N : Nat} (hN : N < 2 ^ 62) (hi : IdsBelow A N) :
    ∃ raw1 raw2, setup C raw = ⟨.ok (), raw2, [raw1, raw2]⟩ ∧
      Rel C raw1 { A with q := upd A.q .seq (KV.mapV freed (A.q .seq)) } ∧ Rel C raw2 (freeAll A) := by
  obtain ⟨raw1, h1, r1⟩ := unclaimJobs_run h hN hi .seq
  have hi1 : IdsBelow { A with q := upd A.q .seq (KV.mapV freed (A.q .seq)) } N :=
    hi.upd _ _ (fun id hid => hi .seq id (by rwa [KV.keys_mapV] at hid))
  obtain ⟨raw2, h2, r2⟩ := unclaimJobs_run r1 hN hi1 .async
  refine ⟨raw1, raw2, ?_, r1, ?_⟩
  · unfold setup
    rw [DM.bind_ok h1, h2]
    rfl
  · have : upd (upd A.q .seq (KV.mapV freed (A.q .seq))) .async
        (KV.mapV freed (upd A.q .seq (KV.mapV freed (A.q .seq)) .async)) = (freeAll A).q := by
      funext q
      cases q <;> simp [upd, freeAll]
    simp only [this] at r2
    exact r2

/-! ## retire -/

/-- The position the next record of a history goes to.
On the abstract store: store.go:227-243. (No code: used in the proofs only.) -/
def ringNext (i : Option Nat) : Nat :=
  match i with
  | none => 0
  | some n => if (n + 1) % 2 ^ 64 ≥ maxJobsStored then 0 else (n + 1) % 2 ^ 64

theorem nextIndex_eq (i : Option Nat) : nextIndex C (i.map C.encI) = ringNext i := by
  cases i with
  | none => rfl
  | some n => simp [nextIndex, ringNext, C.lawI]

theorem ringNext_lt (i : Option Nat) : ringNext i < 100 := by
  unfold ringNext maxJobsStored
  cases i with
  | none => simp
  | some n => simp only; split <;> omega

/-- Abstract effect of the three durable steps of retiring a job.
store.go:272-299: the job leaves the queue. (No code: used in the proofs only.) -/
def retire1 (A : AS) (q : Queue) (f : Finished) : AS := { A with q := upd A.q q ((A.q q).del f.id) }
/-- store.go:245-248: the index record is written. (No code: used in the proofs only.) -/
def retire2 (A : AS) (q : Queue) (f : Finished) : AS :=
  { retire1 A q f with idx := upd A.idx f.failure.isSome (some (ringNext (A.idx f.failure.isSome))) }
/-- store.go:254-269: the record is written. (No code: used in the proofs only.) -/
def retire3 (A : AS) (q : Queue) (f : Finished) : AS :=
  { retire2 A q f with
    hist := upd A.hist f.failure.isSome
      ((A.hist f.failure.isSome).put (be8 (ringNext (A.idx f.failure.isSome))) f.record) }

theorem recKey_ok : reserved recKey = false := by decide

theorem retire_run (h : Rel C raw A) (q : Queue) (f : Finished) (hr : reserved f.id = false) :
    ∃ raw1 raw2 raw3, retire C q f raw = ⟨.ok (), raw3, [raw1, raw2, raw3]⟩ ∧
      Rel C raw1 (retire1 A q f) ∧ Rel C raw2 (retire2 A q f) ∧ Rel C raw3 (retire3 A q f) := by
  have r1 : Rel C (raw.del (q.handle.realKey f.id)) (retire1 A q f) := h.delQ q f.id
  have e1 : update (q.handle.deleteObject f.id) raw
      = ⟨.ok (), raw.del (q.handle.realKey f.id), [raw.del (q.handle.realKey f.id)]⟩ := by
    simp [update, Handle.deleteObject, hr, runTx, applyAll, BOp.apply]
  generalize hraw1 : raw.del (q.handle.realKey f.id) = raw1 at r1 e1
  have r2 := r1.putIdx f.failure.isSome (ringNext (A.idx f.failure.isSome))
  have e2 : direct ((recHandle f.failure.isSome).getObject recKey) raw1
      = ⟨.ok ((A.idx f.failure.isSome).map C.encI), raw1, []⟩ := by
    have := r1.getIdx f.failure.isSome
    simp only [Handle.getObject, direct, this]
    rfl
  have e3 : direct ((recHandle f.failure.isSome).putObject recKey
        (C.encI (ringNext (A.idx f.failure.isSome)))) raw1
      = ⟨.ok (), raw1.put ((recHandle f.failure.isSome).realKey recKey) (C.encI (ringNext (A.idx f.failure.isSome))),
          [raw1.put ((recHandle f.failure.isSome).realKey recKey) (C.encI (ringNext (A.idx f.failure.isSome)))]⟩ := by
    simp only [Handle.putObject, recKey_ok, Bool.false_eq_true, if_false, direct, BOp.apply]
  generalize hraw2 : raw1.put ((recHandle f.failure.isSome).realKey recKey)
    (C.encI (ringNext (A.idx f.failure.isSome))) = raw2 at r2 e3
  have r3 := r2.putHist f.failure.isSome (be8 (ringNext (A.idx f.failure.isSome))) f.record
  have e4 : update ((histHandle f.failure.isSome).putObject (be8 (ringNext (A.idx f.failure.isSome)))
        (C.encR f.record)) raw2
      = ⟨.ok (), raw2.put ((histHandle f.failure.isSome).realKey (be8 (ringNext (A.idx f.failure.isSome)))) (C.encR f.record),
          [raw2.put ((histHandle f.failure.isSome).realKey (be8 (ringNext (A.idx f.failure.isSome)))) (C.encR f.record)]⟩ := by
    have := be8_not_reserved (show ringNext (A.idx f.failure.isSome) < 2 ^ 62 by
      have := ringNext_lt (A.idx f.failure.isSome); omega)
    simp [update, Handle.putObject, this, runTx, applyAll, BOp.apply]
  refine ⟨raw1, raw2, _, ?_, r1, r2, r3⟩
  unfold retire markCompletion
  rw [DM.bind_ok e1]
  simp only
  rw [DM.bind_ok e2]
  simp only [nextIndex_eq]
  rw [DM.bind_ok e3, e4]
  rfl

/-! ## reset -/

theorem deleteLoop_run (h : Handle) (l : List (Str × Str)) (hr : ∀ kv ∈ l, reserved kv.1 = false)
    (b : List BOp) :
    runTx raw (deleteLoop h l) b = (.ok (), b ++ l.map (fun kv => BOp.del (h.realKey kv.1))) := by
  induction l generalizing b with
  | nil => simp [deleteLoop, runTx]
  | cons kv l ih =>
    obtain ⟨id, v⟩ := kv
    have h0 : reserved id = false := hr (id, v) (by simp)
    unfold deleteLoop
    simp only [Handle.deleteObject, h0, Bool.false_eq_true, if_false, Prog.bind, runTx]
    rw [ih (fun x hx => hr x (List.mem_cons_of_mem _ hx))]
    simp

theorem delAll_rel (b : Bool) (m : KV Record) : ∀ {raw : Raw} {A : AS}, Rel C raw A → A.hist b = m →
    Rel C (applyAll raw (m.map (fun kv => BOp.del ((histHandle b).realKey kv.1))))
      { A with hist := upd A.hist b [] } := by
  induction m with
  | nil =>
    intro raw A h hA
    have : upd A.hist b [] = A.hist := by
      funext x
      by_cases e : x = b
      · subst e; simp [hA]
      · rw [upd_ne _ _ e]
    rw [this]
    exact h
  | cons kv m ih =>
    intro raw A h hA
    obtain ⟨id, r⟩ := kv
    have h1 := h.delHist b id
    have hwf := h.histWF b
    rw [hA] at hwf
    have hnd : id ∉ KV.keys m := by
      have hp := List.pairwise_cons.1 (show List.Pairwise _ (id :: KV.keys m) from hwf)
      intro hm
      exact (hp.1 id hm).2 rfl
    have hdel : KV.del m id = m := by
      refine KV.ext (KV.WF.del ?_ _) ?_ fun k => ?_
      · exact (List.pairwise_cons.1 (show List.Pairwise _ (id :: KV.keys m) from hwf)).2
      · exact (List.pairwise_cons.1 (show List.Pairwise _ (id :: KV.keys m) from hwf)).2
      · rw [KV.get_del]
        split
        · rename_i e; subst e
          cases hg : KV.get m k with
          | none => rfl
          | some v => exact absurd ((KV.mem_keys_iff _ _).2 ⟨v, hg⟩) hnd
        · rfl
    have e1 : (A.hist b).del id = m := by
      rw [hA]
      show KV.del ((id, r) :: m) id = m
      unfold KV.del
      rw [if_pos rfl, hdel]
    rw [e1] at h1
    have := ih h1 (by simp)
    have e2 : upd (upd A.hist b m) b [] = upd A.hist b [] := by
      funext x; simp only [upd_apply]; split <;> rfl
    simp only [e2] at this
    exact this

/-- Abstract effect of the steps of a reset.
store.go:420-429: the index record goes. (No code: used in the proofs only.) -/
def reset1 (A : AS) (b : Bool) : AS := { A with idx := upd A.idx b none }
/-- store.go:431-437: the records go. (No code: used in the proofs only.) -/
def reset2 (A : AS) (b : Bool) : AS := { reset1 A b with hist := upd A.hist b [] }

theorem reset_run (h : Rel C raw A) (b : Bool) (hr : ∀ id ∈ (A.hist b).keys, reserved id = false) :
    ∃ raw2 t, reset b raw = ⟨.ok (), raw2, t⟩ ∧ Rel C raw2 (reset2 A b) ∧
      ∀ c ∈ t, Rel C c (reset1 A b) ∨ Rel C c (reset2 A b) := by
  have e1 : direct ((recHandle b).hasObject recKey) raw = ⟨.ok (A.idx b).isSome, raw, []⟩ := by
    simp only [Handle.hasObject, direct, h.getIdx, Option.isSome_map]
  unfold reset
  rw [DM.bind_ok e1]
  have fin : ∀ {raw1}, Rel C raw1 (reset1 A b) → ∃ raw2,
      update ((histHandle b).forEach (fun l => deleteLoop (histHandle b) l)) raw1 = ⟨.ok (), raw2, [raw2]⟩ ∧
      Rel C raw2 (reset2 A b) := by
    intro raw1 r1
    have r2 := delAll_rel b (A.hist b) r1 rfl
    refine ⟨_, ?_, r2⟩
    have hv : (histHandle b).visits raw1 = KV.mapV C.encR (A.hist b) := r1.visitsHist b
    unfold update
    rw [runTx_forEach, hv, deleteLoop_run _ _ (fun kv hkv => by
      refine hr kv.1 ?_
      rw [← KV.keys_mapV C.encR]
      exact List.mem_map_of_mem hkv)]
    simp [KV.mapV, List.map_map, Function.comp_def]
  cases hb : (A.idx b).isSome with
  | true =>
    have r1 : Rel C (raw.del ((recHandle b).realKey recKey)) (reset1 A b) := h.delIdx b
    have e2 : direct ((recHandle b).deleteObject recKey) raw
        = ⟨.ok (), raw.del ((recHandle b).realKey recKey), [raw.del ((recHandle b).realKey recKey)]⟩ := by
      simp only [Handle.deleteObject, recKey_ok, Bool.false_eq_true, if_false, direct, BOp.apply]
    obtain ⟨raw2, e3, r2⟩ := fin r1
    refine ⟨raw2, [raw.del ((recHandle b).realKey recKey), raw2], ?_, r2, ?_⟩
    · simp only [if_true]
      rw [DM.bind_ok e2, e3]
      rfl
    · intro c hc
      simp only [List.mem_cons, List.not_mem_nil, or_false] at hc
      rcases hc with rfl | rfl
      · exact .inl r1
      · exact .inr r2
  | false =>
    have r1 : Rel C raw (reset1 A b) := by
      have : upd A.idx b none = A.idx := by
        funext x
        by_cases e : x = b
        · subst e
          rw [upd_self]
          cases hx : A.idx x with
          | none => rfl
          | some n => rw [hx] at hb; cases hb
        · rw [upd_ne _ _ e]
      unfold reset1
      rw [this]; exact h
    obtain ⟨raw2, e3, r2⟩ := fin r1
    refine ⟨raw2, [raw2], ?_, r2, ?_⟩
    · simp only [Bool.false_eq_true, if_false]
      rw [e3]
      rfl
    · intro c hc
      exact .inr (by rw [List.mem_singleton.1 hc]; exact r2)

/-! ## Listings -/

theorem direct_bind {α β} (p : Prog α) (f : α → Prog β) : direct (p.bind f) raw =
    match (direct p raw).res with
    | .ok a => ⟨(direct (f a) (direct p raw).raw).res, (direct (f a) (direct p raw).raw).raw,
        (direct p raw).tr ++ (direct (f a) (direct p raw).raw).tr⟩
    | .error e => ⟨.error e, (direct p raw).raw, (direct p raw).tr⟩ := by
  induction p generalizing raw with
  | ret a => rfl
  | fail e => rfl
  | get k c ih => exact ih _
  | range p c ih => exact ih _
  | write op c ih =>
    have := ih (raw := op.apply raw)
    simp only [Prog.bind, direct]
    rw [this]
    cases (direct c (op.apply raw)).res <;> simp

/-- The status line of a queued job, if it has a valid handler.
store.go:360-370. (No code: used in the proofs only.) -/
def lineOf (j : JobEntry) : Option Record :=
  (newJobHandler j.type j.params).map (fun h => ⟨h.describe, j.timing, false, []⟩)

/-- All the lines, if every job has a valid handler. store.go:348-375. (No code: used in the proofs only.) -/
def linesOf : List JobEntry → Option (List Record)
  | [] => some []
  | j :: js =>
    match lineOf j with
    | none => none
    | some r => (linesOf js).map (r :: ·)

theorem currentLoop_run (m : KV JobEntry) :
    direct (currentLoop C (KV.mapV C.encJ m)) raw =
      match linesOf (m.map Prod.snd) with
      | some l => ⟨.ok l, raw, []⟩
      | none => ⟨.error (.user 0), raw, []⟩ := by
  induction m with
  | nil => rfl
  | cons kv m ih =>
    obtain ⟨id, j⟩ := kv
    show direct (currentLoop C ((id, C.encJ j) :: KV.mapV C.encJ m)) raw = _
    unfold currentLoop
    rw [C.lawJ]
    simp only [List.map_cons, linesOf, lineOf]
    cases newJobHandler j.type j.params with
    | none => rfl
    | some h =>
      simp only [Option.map_some]
      rw [direct_bind, ih]
      cases linesOf (m.map Prod.snd) <;> simp [direct]

theorem activeJobs_run (h : Rel C raw A) :
    activeJobs C raw =
      match linesOf ((A.q .seq).map Prod.snd), linesOf ((A.q .async).map Prod.snd) with
      | some a, some b => ⟨.ok (a ++ b), raw, []⟩
      | _, _ => ⟨.error (.user 0), raw, []⟩ := by
  unfold activeJobs
  have e1 := currentLoop_run (C := C) (raw := raw) (A.q .seq)
  have e2 := currentLoop_run (C := C) (raw := raw) (A.q .async)
  rw [← h.visitsQ, ← direct_forEach] at e1 e2
  cases h1 : linesOf ((A.q .seq).map Prod.snd) with
  | none =>
    rw [h1] at e1
    show DM.bind' _ _ raw = _
    unfold DM.bind'
    rw [e1]
  | some a =>
    rw [h1] at e1
    rw [DM.bind_ok e1]
    cases h2 : linesOf ((A.q .async).map Prod.snd) with
    | none =>
      rw [h2] at e2
      have e3 : (direct (Queue.async.handle.forEach (currentLoop C)) >>= fun b => pure (a ++ b)) raw
          = ⟨.error (.user 0), raw, []⟩ := by
        show DM.bind' _ _ raw = _
        unfold DM.bind'
        rw [e2]
      simp only [e3]
      rfl
    | some b =>
      rw [h2] at e2
      rw [DM.bind_ok e2]
      rfl

theorem pastLoop_run (m : KV Record) :
    direct (pastLoop C (KV.mapV C.encR m)) raw = ⟨.ok (m.map Prod.snd), raw, []⟩ := by
  induction m with
  | nil => rfl
  | cons kv m ih =>
    obtain ⟨id, r⟩ := kv
    show direct (pastLoop C ((id, C.encR r) :: KV.mapV C.encR m)) raw = _
    unfold pastLoop
    rw [C.lawR]
    simp only [List.map_cons]
    rw [direct_bind, ih]
    rfl

theorem pastJobs_run (h : Rel C raw A) (b : Bool) :
    pastJobs C b raw = ⟨.ok ((A.hist b).map Prod.snd), raw, []⟩ := by
  unfold pastJobs
  rw [direct_forEach, h.visitsHist, pastLoop_run]

end Jobs
end Ferryd
