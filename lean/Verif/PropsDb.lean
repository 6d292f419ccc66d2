import Verif.Db
/-!
# PropsDb: C46-C49, properties of the database layer

The daemon keeps two databases: the core one (pool, failed deltas, repositories, one package bucket per
repository; `src/ferryd/core/pool.go:32,35`, `repo.go:48,51`) and the job one (`src/ferryd/jobs/store.go:31-53`).
-/
namespace Ferryd.Db

/-! ## C46: updates are atomic -/

/-- What a function handed to `Update` does on a database with committed content `raw`: the writes it asks
for, in order, and how it ends.  (Independent of batches: reads always see `raw`.) -/
inductive Performs {α : Type} (raw : Raw) : Prog α → List BOp → Except DErr α → Prop
  | ret (a : α) : Performs raw (.ret a) [] (.ok a)
  | fail (e : DErr) : Performs raw (.fail e) [] (.error e)
  | get {k c log r} : Performs raw (c (raw.get k)) log r → Performs raw (.get k c) log r
  | range {p c log r} : Performs raw (c (rangeOf raw p)) log r → Performs raw (.range p c) log r
  | write {op c log r} : Performs raw c log r → Performs raw (.write op c) (op :: log) r

/-- What key `k` holds after a sequence of writes: the last write to it, else the old value. -/
def afterWrites (raw : Raw) (log : List BOp) (k : Str) : Option Str :=
  match (log.filter (fun op => op.key == k)).getLast? with
  | none => raw.get k
  | some (.put _ v) => some v
  | some (.del _) => none

theorem get_applyAll (raw : Raw) (log : List BOp) (k : Str) :
    (applyAll raw log).get k = afterWrites raw log k := by
  induction log generalizing raw with
  | nil => rfl
  | cons op log ih =>
    show (applyAll (op.apply raw) log).get k = _
    rw [ih]
    unfold afterWrites
    rw [List.filter_cons]
    by_cases hk : op.key = k
    · rw [if_pos (by simpa using hk)]
      cases hl : (log.filter (fun op => op.key == k)).getLast? with
      | none =>
        rw [List.getLast?_eq_none_iff] at hl
        rw [hl]
        subst hk
        cases op <;> simp [BOp.apply, BOp.key]
      | some o =>
        rw [List.getLast?_cons, hl]; cases o <;> rfl
    · rw [if_neg (by simpa using hk)]
      cases (log.filter (fun op => op.key == k)).getLast? with
      | none =>
        cases op with
        | put k' v => exact KV.get_put_ne _ _ (fun e => hk e.symm)
        | del k' => exact KV.get_del_ne _ (fun e => hk e.symm)
      | some o => cases o <;> rfl

theorem runTx_performs {α} (raw : Raw) (p : Prog α) : ∀ b,
    ∃ log, Performs raw p log (runTx raw p b).1 ∧ (runTx raw p b).2 = b ++ log := by
  induction p with
  | ret a => exact fun b => ⟨[], .ret a, by simp [runTx]⟩
  | fail e => exact fun b => ⟨[], .fail e, by simp [runTx]⟩
  | get k c ih =>
    intro b
    obtain ⟨log, h1, h2⟩ := ih (raw.get k) b
    exact ⟨log, .get h1, h2⟩
  | range p c ih =>
    intro b
    obtain ⟨log, h1, h2⟩ := ih (rangeOf raw p) b
    exact ⟨log, .range h1, h2⟩
  | write op c ih =>
    intro b
    obtain ⟨log, h1, h2⟩ := ih (b ++ [op])
    exact ⟨op :: log, .write h1, by simp [runTx, h2]⟩

/-- **C46** Database updates are all or nothing: whatever the function does, either it ends well and then
every key holds the last value written to it (or the old one), or it ends with an error, which is reported,
and nothing changes.  What a restart finds after a crash at any point is the old content or the complete new
content. -/
theorem C46_update_atomic {α : Type} (p : Prog α) (raw : Raw) :
    ∃ log r, Performs raw p log r ∧ (update p raw).res = r ∧
      (match r with
       | .ok _ => ∀ k, (update p raw).raw.get k = afterWrites raw log k
       | .error _ => (update p raw).raw = raw) ∧
      ∀ crash ∈ (update p raw).tr, crash = raw ∨ crash = (update p raw).raw := by
  obtain ⟨log, h1, h2⟩ := runTx_performs raw p []
  refine ⟨log, (runTx raw p []).1, h1, ?_⟩
  unfold update
  rw [List.nil_append] at h2
  generalize hr : runTx raw p [] = out at h1 h2
  obtain ⟨r, b⟩ := out
  simp only at h2
  subst h2
  cases r with
  | ok a =>
    refine ⟨rfl, fun k => get_applyAll raw b k, ?_⟩
    intro c hc
    exact .inr (List.mem_singleton.1 hc)
  | error e => exact ⟨rfl, rfl, by simp⟩

/-- The function's outcome is determined, so `C46_update_atomic` speaks about the one run. -/
theorem Performs.unique {α} {raw : Raw} {p : Prog α} {l l' r r'} (h : Performs raw p l r)
    (h' : Performs raw p l' r') : l = l' ∧ r = r' := by
  induction h generalizing l' r' with
  | ret a => cases h'; exact ⟨rfl, rfl⟩
  | fail e => cases h'; exact ⟨rfl, rfl⟩
  | get _ ih => cases h' with | get h' => exact ih h'
  | range _ ih => cases h' with | range h' => exact ih h'
  | write _ ih =>
    cases h' with
    | write h' => obtain ⟨rfl, rfl⟩ := ih h'; exact ⟨rfl, rfl⟩

section
/-- Test: an update that writes and then fails (reserved key) changes nothing; without `Update` the first
write stays. -/
private def half : Prog Unit := do
  (root.bucket ['a']).putObject ['x'] ['1']
  (root.bucket ['a']).putObject bktTag ['2']
example : (update half []).raw = [] ∧ (direct half []).raw ≠ [] := by decide
end

/-! ## C47, C49: buckets -/

/-- The buckets of the core database (pool.go:94-139, repo.go:159-330). -/
inductive Bkt | pool | deltaSkip | repo | packages (r : Str)
deriving DecidableEq

/-- Their handles, e.g. repo.go:319: `db.Bucket("repo").Bucket(r.ID).Bucket("package")`. -/
def Bkt.handle : Bkt → Handle
  | .pool => root.bucket ['p', 'o', 'o', 'l']
  | .deltaSkip => root.bucket ['d', 'e', 'l', 't', 'a', 'S', 'k', 'i', 'p']
  | .repo => root.bucket ['r', 'e', 'p', 'o']
  | .packages r => ((root.bucket ['r', 'e', 'p', 'o']).bucket r).bucket ['p', 'a', 'c', 'k', 'a', 'g', 'e']

/-- A write through a bucket: store `some v` or delete (`none`). -/
structure BWrite where
  bkt : Bkt
  id : Str
  val : Option Str

/-- Performing the write with PutObject / DeleteObject outside a transaction. -/
def BWrite.exec (w : BWrite) (raw : Raw) : Raw :=
  match w.val with
  | some v => (direct (w.bkt.handle.putObject w.id v) raw).raw
  | none => (direct (w.bkt.handle.deleteObject w.id) raw).raw

/-- The content after a history of writes on a new database. -/
def history (ws : List BWrite) : Raw := ws.foldl (fun raw w => w.exec raw) []

/-- What GetObject finds under a bucket's key. -/
def Bkt.read (b : Bkt) (raw : Raw) (id : Str) : Option Str :=
  match (direct (b.handle.getObject id) raw).res with
  | .ok v => v
  | .error _ => none

/-- What ForEach passes to its function, in order. -/
def Bkt.iterates (b : Bkt) (raw : Raw) : List (Str × Str) :=
  match (direct (b.handle.forEach .ret) raw).res with
  | .ok l => l
  | .error _ => []

/-- C47 at full strength: a write through one bucket changes neither reads nor iteration of another. -/
def C47_statement : Prop := ∀ (ws : List BWrite) (b : Bkt) (w : BWrite), w.bkt ≠ b →
  (∀ id, b.read (w.exec (history ws)) id = b.read (history ws) id) ∧
  b.iterates (w.exec (history ws)) = b.iterates (history ws)

/-- **C47 is violated**: adding a package to repository `a-package-x` makes it appear in the iteration over
the packages of repository `a`. -/
theorem C47_violated : ¬ C47_statement := by
  intro h
  have := (h [] (.packages ['a']) ⟨.packages "a-package-x".toList, ['n'], some ['v']⟩ (by decide)).2
  revert this
  decide +kernel

/-- **C47 is violated** even for single keys: package `c` of repository `a-package-b` and package
`b-package-c` of repository `a` share one database record. -/
theorem C47_violated_collision :
    (Bkt.packages "a-package-b".toList).read
      (history [⟨.packages "a".toList, "b-package-c".toList, some ['v']⟩]) ['c'] = some ['v'] := by
  decide +kernel

/-- The part of the separating text (repo.go:51) that must not occur in a repository name. -/
def sep : Str := ['-', 'p', 'a', 'c', 'k', 'a', 'g', 'e']

theorem sep_key : ∀ (u s t : Str), u ++ (sep ++ s) = sep ++ t → u = [] ∨ sep <+: u
  | [], _, _, _ => .inl rfl
  | [_], _, _, h => by simp [sep] at h
  | [_, _], _, _, h => by simp [sep] at h
  | [_, _, _], _, _, h => by simp [sep] at h
  | [_, _, _, _], _, _, h => by simp [sep] at h
  | [_, _, _, _, _], _, _, h => by simp [sep] at h
  | [_, _, _, _, _, _], _, _, h => by simp [sep] at h
  | [_, _, _, _, _, _, _], _, _, h => by simp [sep] at h
  | a :: b :: c :: d :: e :: f :: g :: i :: u, s, t, h => by
    right
    have h8 : [a, b, c, d, e, f, g, i] = sep := by
      have := congrArg (List.take 8) h
      simpa [sep] using this
    exact ⟨u, by rw [← h8]; rfl⟩

theorem sep_unique {r r' s t : Str} (hr : ¬ sep <:+: r) (hr' : ¬ sep <:+: r')
    (h : r ++ (sep ++ s) = r' ++ (sep ++ t)) : r = r' := by
  rcases prefix_comparable (a := r) (b := r') (c := r ++ (sep ++ s)) (List.prefix_append _ _)
    (by rw [h]; exact List.prefix_append _ _) with ⟨u, rfl⟩ | ⟨u, rfl⟩
  · rw [List.append_assoc] at h
    rcases sep_key u t s (List.append_cancel_left h).symm with rfl | hp
    · simp
    · exact absurd (hp.isInfix.trans (List.suffix_append r u).isInfix) hr'
  · rw [List.append_assoc] at h
    rcases sep_key u s t (List.append_cancel_left h) with rfl | hp
    · simp
    · exact absurd (hp.isInfix.trans (List.suffix_append r' u).isInfix) hr

/-- Two buckets that are certainly told apart: different buckets, and where both are package buckets, the
repository names do not contain `-package`. -/
def Separate : Bkt → Bkt → Prop
  | .packages r, .packages r' => r ≠ r' ∧ ¬ sep <:+: r ∧ ¬ sep <:+: r'
  | b, b' => b ≠ b'

theorem packages_pre (r : Str) : (Bkt.packages r).handle.pre =
    ['|', 'b', 'u', 'c', 'k', 'e', 't', '|', '-', '|', 'b', 'u', 'c', 'k', 'e', 't', '|', '-', '|', 'b', 'u', 'c', 'k', 'e', 't', '|', '-', '|', 'r', 'o', 'o', 't', 'B', 'u', 'c', 'k', 'e', 't', '|', '-', 'r', 'e', 'p', 'o', '-'] ++ (r ++ sep) := by
  simp [Bkt.handle, Handle.bucket, root, rootName, bktTag, sep]

theorem Separate.apart {b b' : Bkt} (h : Separate b b') : Apart b.handle b'.handle := by
  cases b <;> cases b' <;> first
    | exact absurd rfl h
    | decide
    | skip
  case packages.packages r r' =>
    obtain ⟨hne, h1, h2⟩ := h
    unfold Apart
    rw [packages_pre, packages_pre]
    refine ⟨?_, ?_⟩
    · rw [List.append_assoc, List.prefix_append_right_inj]
      rintro ⟨s, hs⟩
      rw [List.append_assoc, List.append_assoc] at hs
      exact hne (sep_unique h1 h2 hs)
    · rw [List.append_assoc, List.prefix_append_right_inj]
      rintro ⟨s, hs⟩
      rw [List.append_assoc, List.append_assoc] at hs
      exact hne (sep_unique (s := []) (t := '-' :: s) h1 h2 (by rw [List.append_nil]; exact hs.symm))
  all_goals
    unfold Apart
    rw [packages_pre]
    constructor <;> simp [Bkt.handle, Handle.bucket, root, rootName, bktTag]

theorem handle_OK (b : Bkt) : b.handle.OK := by cases b <;> rfl

theorem read_eq (b : Bkt) (raw : Raw) (id : Str) : b.read raw id = raw.get (b.handle.realKey id) := rfl
theorem iterates_eq (b : Bkt) (raw : Raw) : b.iterates raw = b.handle.visits raw := rfl

theorem exec_eq (w : BWrite) (raw : Raw) : w.exec raw =
    if reserved w.id then raw else
      match w.val with
      | some v => raw.put (w.bkt.handle.realKey w.id) v
      | none => raw.del (w.bkt.handle.realKey w.id) := by
  unfold BWrite.exec Handle.putObject Handle.deleteObject
  by_cases hr : reserved w.id <;> cases w.val <;> simp [hr, direct, BOp.apply]

theorem exec_WF {raw : Raw} (hw : raw.WF) (w : BWrite) : (w.exec raw).WF := by
  rw [exec_eq]
  split
  · exact hw
  · split
    · exact hw.put _ _
    · exact hw.del _

theorem history_snoc (ws : List BWrite) (w : BWrite) : history (ws ++ [w]) = w.exec (history ws) := by
  simp [history]

theorem list_snoc_induction {α} {P : List α → Prop} (h0 : P [])
    (h1 : ∀ l a, P l → P (l ++ [a])) (l : List α) : P l := by
  have : ∀ l : List α, P l.reverse := by
    intro l
    induction l with
    | nil => exact h0
    | cons a l ih => rw [List.reverse_cons]; exact h1 _ _ ih
  have h := this l.reverse
  rwa [List.reverse_reverse] at h

theorem history_WF (ws : List BWrite) : (history ws).WF := by
  induction ws using list_snoc_induction with
  | h0 => exact KV.WF_nil
  | h1 ws w ih => rw [history_snoc]; exact exec_WF ih w

theorem put_mem_filter (raw : Raw) (p : Str → Bool) (k v : Str) (h : p k = false) :
    (raw.put k v).filter (fun kv => p kv.1) = raw.filter (fun kv => p kv.1) := by
  induction raw with
  | nil => simp [KV.put, h]
  | cons kv m ih =>
    obtain ⟨k', v'⟩ := kv
    unfold KV.put
    split
    · rename_i e; subst e; simp [h]
    · split
      · simp [h]
      · rw [List.filter_cons, ih, List.filter_cons]

theorem del_mem_filter (raw : Raw) (p : Str → Bool) (k : Str) (h : p k = false) :
    (raw.del k).filter (fun kv => p kv.1) = raw.filter (fun kv => p kv.1) := by
  induction raw with
  | nil => rfl
  | cons kv m ih =>
    obtain ⟨k', v'⟩ := kv
    unfold KV.del
    split
    · rename_i e; subst e; rw [ih]; simp [h]
    · rw [List.filter_cons, ih, List.filter_cons]

/-- **C47, the part that holds**: a write through one bucket changes neither reads nor iteration of another,
unless both are package buckets and one of the repository names contains `-package`. -/
theorem C47_isolation_partial (ws : List BWrite) (b : Bkt) (w : BWrite) (h : Separate b w.bkt) :
    (∀ id, b.read (w.exec (history ws)) id = b.read (history ws) id) ∧
    b.iterates (w.exec (history ws)) = b.iterates (history ws) := by
  have ha := h.apart
  have hw := history_WF ws
  generalize history ws = raw at hw
  rw [exec_eq]
  split
  · exact ⟨fun _ => rfl, rfl⟩
  · cases w.val with
    | some v =>
      refine ⟨fun id => ?_, ?_⟩
      · rw [read_eq, read_eq]
        exact KV.get_put_ne _ _ (ha.realKey_ne _ _)
      · rw [iterates_eq, iterates_eq, Handle.visits, Handle.visits, rangeOf, rangeOf,
          put_mem_filter raw (fun k => b.handle.pre.isPrefixOf k) _ v (ha.not_range _)]
    | none =>
      refine ⟨fun id => ?_, ?_⟩
      · rw [read_eq, read_eq]
        exact KV.get_del_ne _ (ha.realKey_ne _ _)
      · rw [iterates_eq, iterates_eq, Handle.visits, Handle.visits, rangeOf, rangeOf,
          del_mem_filter raw (fun k => b.handle.pre.isPrefixOf k) _ (ha.not_range _)]

/-- Test: two ordinary repositories are told apart. -/
example : Separate (.packages "unstable".toList) (.packages "shannon".toList) := by
  refine ⟨?_, ?_, ?_⟩ <;> decide +kernel

/-- C49 at full strength. -/
def C49_statement : Prop := ∀ (ws : List BWrite) (b : Bkt),
  (b.iterates (history ws)).Pairwise (fun x y => strLe x.1 y.1 = true ∧ x.1 ≠ y.1) ∧
  ∀ id v, (id, v) ∈ b.iterates (history ws) ↔ b.read (history ws) id = some v

/-- **C49 is violated**: iterating the packages of repository `a` also visits those of `a-packages`. -/
theorem C49_violated : ¬ C49_statement := by
  intro h
  have := ((h [⟨.packages "a-packages".toList, ['n'], some ['v']⟩] (.packages ['a'])).2
    "|bucket|-|bucket|-|bucket|-|rootBucket|-repo-a-packages-package-n".toList ['v']).1 (by decide +kernel)
  revert this
  decide +kernel

theorem history_clean (b : Bkt) (ws : List BWrite) (h : ∀ w ∈ ws, w.bkt = b ∨ Separate b w.bkt) :
    Clean b.handle (history ws) := by
  induction ws using list_snoc_induction with
  | h0 => intro k hk; cases hk
  | h1 ws w ih =>
    have ih' := ih (fun x hx => h x (List.mem_append_left _ hx))
    rw [history_snoc, exec_eq]
    split
    · exact ih'
    · cases w.val with
      | none => exact ih'.del _
      | some v =>
        rcases h w (by simp) with he | he
        · rw [he]; exact ih'.put_self _ _
        · exact ih'.put_other _ (he.apart.not_range _)

/-- **C49, the part that holds**: on a database whose repository names do not contain `-package` (the
repository iterated and those written to), iteration visits every key of the bucket once, in byte order, with
the value a read of that key gives, and nothing else. -/
theorem C49_iteration_partial (ws : List BWrite) (b : Bkt)
    (h : ∀ w ∈ ws, w.bkt = b ∨ Separate b w.bkt) :
    (b.iterates (history ws)).Pairwise (fun x y => strLe x.1 y.1 = true ∧ x.1 ≠ y.1) ∧
    ∀ id v, (id, v) ∈ b.iterates (history ws) ↔ b.read (history ws) id = some v := by
  have hw := history_WF ws
  rw [iterates_eq, visits_eq_view (handle_OK b) (history_clean b ws h)]
  have hv := view_WF (h := b.handle) hw
  refine ⟨?_, fun id v => ?_⟩
  · unfold KV.WF KV.keys at hv
    rwa [List.pairwise_map] at hv
  · rw [read_eq, KV.mem_iff_get hv, view_get hw]

/-- Test: hypotheses met by a history over pool, repositories and two package buckets. -/
example : ∀ w ∈ ([⟨.pool, ['p'], some ['1']⟩, ⟨.repo, ['a'], some ['1']⟩,
    ⟨.packages ['a'], "x-package-y".toList, some ['1']⟩, ⟨.packages ['b'], ['x'], none⟩] : List BWrite),
    w.bkt = .packages ['a'] ∨ Separate (.packages ['a']) w.bkt := by
  intro w hw
  simp only [List.mem_cons, List.not_mem_nil, or_false] at hw
  rcases hw with rfl | rfl | rfl | rfl
  · right; show Bkt.packages _ ≠ _; decide
  · right; show Bkt.packages _ ≠ _; decide
  · left; rfl
  · right; refine ⟨?_, ?_, ?_⟩ <;> decide +kernel

/-- The pool, the failed deltas and the list of repositories are always isolated, whatever the names. -/
theorem C49_iteration_toplevel (ws : List BWrite) (b : Bkt) (hb : ∀ r, b ≠ .packages r) :
    (b.iterates (history ws)).Pairwise (fun x y => strLe x.1 y.1 = true ∧ x.1 ≠ y.1) ∧
    ∀ id v, (id, v) ∈ b.iterates (history ws) ↔ b.read (history ws) id = some v := by
  refine C49_iteration_partial ws b fun w _ => ?_
  by_cases e : w.bkt = b
  · exact .inl e
  · right
    cases b with
    | packages r => exact absurd rfl (hb r)
    | _ => exact fun e' => e e'.symm

/-! ## C48: sequence numbers -/

/-- One step on a queue bucket `h`: enqueue under the next sequence number (store.go:303-321), remove a job,
overwrite an existing one, or a write through an unrelated bucket. -/
inductive QStep
  | push (v : Str)
  | remove (id : Str)
  | rewrite (id v : Str)
  | other (op : BOp)

/-- Performing it on a database. -/
def QStep.exec (h : Handle) (raw : Raw) : QStep → Raw
  | .push v => (update (do let id ← h.nextSequence; h.putObject id v) raw).raw
  | .remove id => (update (h.deleteObject id) raw).raw
  | .rewrite id v => if (raw.get (h.realKey id)).isSome then (update (h.putObject id v) raw).raw else raw
  | .other op => if h.pre.isPrefixOf op.key then raw else op.apply raw

/-- The sequence number handed out next. -/
def nextOf (h : Handle) (raw : Raw) : Option Str :=
  match (direct h.nextSequence raw).res with
  | .ok id => some id
  | .error _ => none

/-- The numbers in use are below a bound. -/
def Below (h : Handle) (raw : Raw) (N : Nat) : Prop :=
  raw.WF ∧ Clean h raw ∧ ∀ id ∈ (h.view raw).keys, ∃ n, n < N ∧ id = be8 n

theorem getLast_mem {α} {l : List α} {a : α} (h : l.getLast? = some a) : a ∈ l :=
  List.mem_of_getLast? h

theorem last_is_max {l : List Str} {a : Str} (hp : l.Pairwise (fun a b => strLe a b = true ∧ a ≠ b))
    (h : l.getLast? = some a) : ∀ x ∈ l, x = a ∨ (strLe x a = true ∧ x ≠ a) := by
  intro x hx
  obtain ⟨l', rfl⟩ := List.getLast?_eq_some_iff.1 h
  rw [List.mem_append, List.mem_singleton] at hx
  rcases hx with hx | hx
  · right
    exact (List.pairwise_append.1 hp).2.2 x hx a (by simp)
  · exact .inl hx

/-- What NextSequence returns on a queue: zero if empty, else one more than the largest number in use. -/
theorem nextSequence_spec {h : Handle} {raw : Raw} {N : Nat} (hk : h.OK) (hN : N < 2 ^ 63)
    (hb : Below h raw N) :
    ∃ m, m ≤ N ∧ (∀ {α} (f : Str → Prog α) b, runTx raw (h.nextSequence.bind f) b = runTx raw (f (be8 m)) b) ∧
      nextOf h raw = some (be8 m) ∧ (∀ n, n < N → be8 n ∈ (h.view raw).keys → n < m) ∧
      (m = 0 ∨ be8 (m - 1) ∈ (h.view raw).keys) := by
  obtain ⟨hw, hc, hs⟩ := hb
  have hvis : h.visits raw = h.view raw := visits_eq_view hk hc
  have hWF : (h.view raw).WF := view_WF hw
  unfold Handle.visits at hvis
  have hlast : ((rangeOf raw h.pre).getLast?).map (fun kv => trimPrefix h.keyPre kv.1)
      = (h.view raw).keys.getLast? := by
    rw [← hvis]
    simp [KV.keys, List.map_map, Function.comp_def]
  cases hl : (rangeOf raw h.pre).getLast? with
  | none =>
    refine ⟨0, Nat.zero_le _, ?_, ?_, ?_, .inl rfl⟩
    · intro α f b
      simp [Handle.nextSequence, Prog.bind, runTx, hl]
    · simp [nextOf, Handle.nextSequence, direct, hl]
    · intro n _ hn
      rw [hl] at hlast
      rw [List.getLast?_eq_none_iff.1 hlast.symm] at hn
      cases hn
  | some kv =>
    obtain ⟨k, v⟩ := kv
    rw [hl] at hlast
    simp only [Option.map_some] at hlast
    obtain ⟨n, hn, hid⟩ := hs _ (getLast_mem hlast.symm)
    rw [hid] at hlast
    have hu : unbe (be8 n) = n := unbe_be8 (by omega)
    have hmod : (n + 1) % 2 ^ 64 = n + 1 := Nat.mod_eq_of_lt (by omega)
    refine ⟨n + 1, by omega, ?_, ?_, ?_, .inr (getLast_mem hlast.symm)⟩
    · intro α f b
      simp only [Handle.nextSequence, Prog.bind, runTx, hl, hid, hu, be8_length, hmod]
      rfl
    · simp only [nextOf, Handle.nextSequence, direct, hl, hid, hu, be8_length, hmod]
      rfl
    · intro x hx hxm
      rcases last_is_max hWF hlast.symm _ hxm with e | e
      · have := be8_inj (by omega) (by omega) e
        omega
      · have := (be8_lt (by omega) (by omega)).1 e
        omega

theorem Below.mono {h : Handle} {raw : Raw} {N M : Nat} (hb : Below h raw N) (hm : N ≤ M) :
    Below h raw M :=
  ⟨hb.1, hb.2.1, fun id hid => by
    obtain ⟨n, hn, e⟩ := hb.2.2 id hid
    exact ⟨n, by omega, e⟩⟩

theorem Below.put {h : Handle} {raw : Raw} {N m : Nat} (hb : Below h raw N) (hm : m < N) (v : Str) :
    Below h (raw.put (h.realKey (be8 m)) v) N := by
  refine ⟨hb.1.put _ _, hb.2.1.put_self _ _, fun id hid => ?_⟩
  rw [view_put hb.1, KV.mem_keys_put] at hid
  rcases hid with rfl | hid
  · exact ⟨m, hm, rfl⟩
  · exact hb.2.2 id hid

theorem Below.del {h : Handle} {raw : Raw} {N : Nat} (hb : Below h raw N) (id : Str) :
    Below h (raw.del (h.realKey id)) N := by
  refine ⟨hb.1.del _, hb.2.1.del _, fun id' hid => ?_⟩
  rw [view_del hb.1, KV.mem_keys_del] at hid
  exact hb.2.2 id' hid.2

theorem range_realKey (h : Handle) (id : Str) : h.pre.isPrefixOf (h.realKey id) = true :=
  isPrefixOf_append _ _

theorem Below.other {h : Handle} {raw : Raw} {N : Nat} (hb : Below h raw N) {op : BOp}
    (ho : h.pre.isPrefixOf op.key = false) : Below h (op.apply raw) N := by
  have hk : ∀ id, h.realKey id ≠ op.key := fun id e => by
    rw [← e, range_realKey] at ho; cases ho
  cases op with
  | put k v =>
    refine ⟨hb.1.put _ _, hb.2.1.put_other _ ho, fun id hid => ?_⟩
    change id ∈ (h.view (raw.put k v)).keys at hid
    rw [view_put_other (k := k) hb.1 _ hk] at hid
    exact hb.2.2 id hid
  | del k =>
    refine ⟨hb.1.del _, hb.2.1.del _, fun id hid => ?_⟩
    change id ∈ (h.view (raw.del k)).keys at hid
    rw [view_del_other (k := k) hb.1 hk] at hid
    exact hb.2.2 id hid

theorem QStep.below {h : Handle} (hk : h.OK) {raw : Raw} {N : Nat} (hN : N < 2 ^ 62)
    (hb : Below h raw N) (st : QStep) : Below h (st.exec h raw) (N + 1) := by
  cases st with
  | push v =>
    obtain ⟨m, hm, hrun, -⟩ := nextSequence_spec hk (by omega) hb
    have : QStep.exec h raw (.push v) = raw.put (h.realKey (be8 m)) v := by
      show (update (h.nextSequence.bind fun id => h.putObject id v) raw).raw = _
      unfold update
      rw [hrun]
      simp [Handle.putObject, be8_not_reserved (show m < 2 ^ 62 by omega), runTx, applyAll, BOp.apply]
    rw [this]
    exact (hb.mono (by omega)).put (by omega) v
  | remove id =>
    show Below h (update (h.deleteObject id) raw).raw (N + 1)
    by_cases hr : reserved id = true
    · simp only [update, Handle.deleteObject, hr, if_true, runTx]
      exact hb.mono (by omega)
    · simp only [update, Handle.deleteObject, hr, runTx, applyAll,
        List.nil_append, BOp.apply, Bool.false_eq_true, if_false, List.foldl_cons, List.foldl_nil]
      exact (hb.mono (by omega)).del id
  | rewrite id v =>
    show Below h (if (raw.get (h.realKey id)).isSome then (update (h.putObject id v) raw).raw else raw) (N + 1)
    split
    · rename_i hs
      rw [← view_get hb.1] at hs
      obtain ⟨w, hw⟩ := Option.isSome_iff_exists.1 hs
      obtain ⟨n, hn, rfl⟩ := hb.2.2 id ((KV.mem_keys_iff _ _).2 ⟨w, hw⟩)
      simp only [update, Handle.putObject, be8_not_reserved (show n < 2 ^ 62 by omega), runTx, applyAll,
        List.nil_append, BOp.apply, Bool.false_eq_true, if_false, List.foldl_cons, List.foldl_nil]
      exact (hb.mono (by omega)).put (by omega) v
    · exact hb.mono (by omega)
  | other op =>
    show Below h (if h.pre.isPrefixOf op.key then raw else op.apply raw) (N + 1)
    split
    · exact hb.mono (by omega)
    · rename_i ho
      exact (hb.mono (by omega)).other (Bool.eq_false_iff.2 ho)

theorem below_history {h : Handle} (hk : h.OK) (qs : List QStep) (hq : qs.length < 2 ^ 62) :
    Below h (qs.foldl (QStep.exec h) []) qs.length := by
  induction qs using list_snoc_induction with
  | h0 => exact ⟨KV.WF_nil, (fun k hm => by cases hm), (fun id hid => by cases hid)⟩
  | h1 qs q ih =>
    rw [List.length_append, List.length_singleton] at hq ⊢
    rw [List.foldl_append, List.foldl_cons, List.foldl_nil]
    exact QStep.below hk (by omega) (ih (by omega)) q

/-- **C48** Sequence numbers are fresh and increasing: after any history of enqueueing, removing and
rewriting jobs (fewer than 2^62 steps) the next sequence number is an eight byte number larger than every
number in use. -/
theorem C48_sequence (b : Str) (qs : List QStep) (hq : qs.length < 2 ^ 62) :
    let h := root.bucket b
    let raw := qs.foldl (QStep.exec h) []
    ∃ m, m < 2 ^ 64 ∧ nextOf h raw = some (be8 m) ∧
      ∀ n, n < 2 ^ 64 → raw.get (h.realKey (be8 n)) ≠ none →
        n < m ∧ (strLe (be8 n) (be8 m) = true ∧ be8 n ≠ be8 m) := by
  intro h raw
  have hb : Below h raw qs.length := below_history (bucket_OK root b) qs hq
  obtain ⟨m, hm, -, hn, hlt, -⟩ := nextSequence_spec (bucket_OK root b) (by omega) hb
  refine ⟨m, by omega, hn, fun n h64 hne => ?_⟩
  have hmem : be8 n ∈ (h.view raw).keys := by
    rw [KV.mem_keys_iff]
    cases hg : raw.get (h.realKey (be8 n)) with
    | none => exact absurd hg hne
    | some v => exact ⟨v, by rw [view_get hb.1, hg]⟩
  obtain ⟨n', hn', he⟩ := hb.2.2 _ hmem
  have : n = n' := be8_inj h64 (by omega) he
  subst this
  have := hlt n hn' hmem
  exact ⟨this, (be8_lt h64 (by omega)).2 this⟩

/-- Test: three jobs, the first removed: the next number is 3; all removed: the numbers start again at 0. -/
example : nextOf (root.bucket ['S'])
    ([QStep.push ['a'], .push ['b'], .push ['c'], .remove (be8 0)].foldl
      (QStep.exec (root.bucket ['S'])) []) = some (be8 3) := by decide +kernel
example : nextOf (root.bucket ['S'])
    ([QStep.push ['a'], .remove (be8 0)].foldl (QStep.exec (root.bucket ['S'])) []) = some (be8 0) := by
  decide +kernel

end Ferryd.Db
