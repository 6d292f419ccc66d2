import Verif.Listing
/-!
# PropsListing: C88, C89
-/
namespace Ferryd.Listing
open Ferryd.Db Ferryd.Jobs Ferryd.Spec

/-! ## C88: the listings of repositories and pool -/

theorem decodeAll_map {α : Type} {dec : Str → Option α} {l : List (Str × Str)} {m : List (Str × α)}
    (h : l.map (fun kv => (kv.1, dec kv.2)) = m.map fun kv => (kv.1, some kv.2)) : decodeAll dec l = some (m.map Prod.snd) := by
  induction l generalizing m with
  | nil => cases m with
    | nil => rfl
    | cons x m => cases h
  | cons x l ih => cases m with
    | nil => cases h
    | cons y m =>
      simp only [List.map_cons, List.cons.injEq, Prod.mk.injEq] at h
      simp only [decodeAll, h.1.2, ih h.2, Option.map_some, List.map_cons]

variable {W : World} {s : St} {K : CoreCodec} {raw : Raw}

/-- C88, repositories: the listing names every repository, once, and nothing else, in byte order. -/
theorem C88_list_repos (ok : W.OK) (h : Reachable W s) (ha : Agree K raw s.db) :
    ∃ L, listRepos K raw = some L ∧ Enumerates L (Repo s) ∧ SortedS L := by
  have hi := h.inv ok
  have hg : getRepos K raw = some (s.db.repos.keys) := by
    unfold getRepos
    have := ha.eachRepo
    rw [decodeAll_map (m := s.db.repos.map fun kv => (kv.1, kv.1)) (by rw [this]; simp)]
    simp [KV.keys]
  refine ⟨sortS s.db.repos.keys, by unfold listRepos; rw [hg]; rfl, ⟨nodup_sortS.2 hi.wfRepos.nodup_keys, ?_⟩, sortS_sorted _⟩
  intro r
  rw [mem_sortS]; rfl

/-- C88, pool: the listing has one line for every package in the pool, with its reference count, and no other. -/
theorem C88_list_pool (ok : W.OK) (h : Reachable W s) (ha : Agree K raw s.db) :
    ∃ L, listPool K raw = some L ∧ (L.map Prod.fst).Nodup ∧ ∀ id k, (id, k) ∈ L ↔ Count s id k := by
  have hi := h.inv ok
  have hg : listPool K raw = some ((s.db.pool.map Prod.snd).map fun e => (e.name, e.refCount)) := by
    unfold listPool getPoolItems
    rw [decodeAll_map ha.eachPool]; rfl
  have hname : ∀ kv ∈ s.db.pool, kv.2.name = kv.1 := by
    intro kv hkv
    exact (hi.pool kv.1 kv.2 (KV.get_of_mem hi.wfPool hkv)).name
  refine ⟨_, hg, ?_, ?_⟩
  · have : ((s.db.pool.map Prod.snd).map fun e => (e.name, e.refCount)).map Prod.fst = s.db.pool.keys := by
      simp only [List.map_map, KV.keys]
      exact List.map_congr_left fun kv hkv => hname kv hkv
    rw [this]; exact hi.wfPool.nodup_keys
  · intro id k
    simp only [List.mem_map, Prod.mk.injEq]
    constructor
    · rintro ⟨e, ⟨kv, hkv, rfl⟩, h1, h2⟩
      rw [hname kv hkv] at h1
      subst h1
      exact ⟨kv.2, KV.get_of_mem hi.wfPool hkv, h2⟩
    · rintro ⟨pe, hg, hk⟩
      have hm := KV.mem_of_get hg
      exact ⟨pe, ⟨(id, pe), hm, rfl⟩, hname _ hm, hk⟩

/-- C88 and C01 together: the number shown beside a package is the number of repositories listing it. -/
theorem C88_pool_counts (ok : W.OK) (h : Reachable W s) (ha : Agree K raw s.db) :
    ∃ L, listPool K raw = some L ∧ ∀ id k, W.isDelta id = false → (id, k) ∈ L →
      ∃ R, Enumerates R (fun r => Repo s r ∧ Has s r id) ∧ k = R.length := by
  obtain ⟨L, h1, _, h3⟩ := C88_list_pool ok h ha
  refine ⟨L, h1, fun id k hd hm => ?_⟩
  obtain ⟨pe, hg, hk⟩ := (h3 id k).1 hm
  have hi := h.inv ok
  refine ⟨s.holders id, ⟨hi.wfRepos.nodup_keys.filter _, ?_⟩, ?_⟩
  · intro r
    show _ ↔ Repo s r ∧ Has s r id
    rw [hi.mem_holders, hi.spec_has]
    exact ⟨fun x => ⟨(hi.has_facts x).1, x⟩, fun x => x.2⟩
  · rw [← hk]; exact (hi.pool id pe hg).count hd

/-- The hypotheses are met: after the history of `Verif.Demo`, on the flat database that the code then has. -/
example (K : CoreCodec) : ∃ raw L, Agree K raw Demo.st1.db ∧ listRepos K raw = some L ∧ Enumerates L (Repo Demo.st1) := by
  obtain ⟨cs, _, h⟩ := C87_daemon K Demo.E Demo.hist1 demo_safe
  obtain ⟨L, h1, h2, _⟩ := C88_list_repos Demo.ok Demo.reach1 h
  exact ⟨_, L, h, h1, h2⟩

/-! ## C89: the status report -/

theorem printed_all (i : Nat) (l : List Record) : printed true i l = l := by
  induction l generalizing i with
  | nil => rfl
  | cons j l ih => simp [printed, ih]

theorem printed_take (i : Nat) (l : List Record) : printed false i l = l.take (10 - i) := by
  induction l generalizing i with
  | nil => simp [printed]
  | cons j l ih =>
    have hm : maxPrintJobs = 10 := rfl
    unfold printed
    by_cases h : i ≥ maxPrintJobs
    · rw [if_pos ⟨h, by simp⟩, show 10 - i = 0 by omega]; rfl
    · rw [if_neg (fun x => h x.1), ih, show 10 - i = (10 - (i + 1)) + 1 by omega]; rfl

/-- `shown` are the first ten (all, with `all`) of the jobs `l` in the order given by `le`: in that order, and none left
out comes before one shown. -/
structure Shows (le : Record → Record → Prop) (all : Bool) (l shown : List Record) : Prop where
  ordered : shown.Pairwise le
  whole : all = true → shown.Perm l
  some : all = false → shown.length = min l.length 10 ∧
    ∃ rest, (shown ++ rest).Perm l ∧ ∀ a ∈ shown, ∀ b ∈ rest, le a b

theorem shows_printed {le : Record → Record → Prop} {l l' : List Record} (hp : l'.Perm l) (hs : l'.Pairwise le) (all : Bool) :
    Shows le all l (printed all 0 l') := by
  cases all with
  | true => rw [printed_all]; exact ⟨hs, fun _ => hp, fun h => by cases h⟩
  | false =>
    rw [printed_take]
    refine ⟨hs.sublist (List.take_sublist _ _), fun h => by (cases h), fun _ => ⟨?_, l'.drop 10, ?_, ?_⟩⟩
    · rw [List.length_take, hp.length_eq]; omega
    · rw [List.take_append_drop]; exact hp
    · intro a ha b hb
      have : (l'.take 10 ++ l'.drop 10).Pairwise le := by rw [List.take_append_drop]; exact hs
      exact (List.pairwise_append.1 this).2.2 a ha b hb

/-- C89: in every state of the job processing, whenever the report can be made it shows of the current jobs the ten queued
first (with `--all` every one), in the order they were queued, and of the failed and of the completed jobs on record the
ten queued last, last first; and a current job is shown as running exactly when a worker is executing it. -/
theorem C89_status {C : Codec} {poison : Str → List Str → Prop} {s : Jobs.Sys} (hs : Jobs.Reach C poison s)
    (hup : s.up = true) {all : Bool} {t : Status} (ht : Prints C s.raw all t) :
    ∃ a f c, List.Forall₂ (fun t line => ShowsLine s t line ∧ (shownRunning line = true ↔ ∃ i, RunsOn s i t))
        (pending s .seq ++ pending s .async) a ∧ History C s true f ∧ History C s false c ∧
      Shows (fun x y => x.timing.queued ≤ y.timing.queued) all a t.current ∧
      Shows (fun x y => y.timing.queued ≤ x.timing.queued) all f t.failed ∧
      Shows (fun x y => y.timing.queued ≤ x.timing.queued) all c t.completed := by
  obtain ⟨a, f, c, a', f', c', ha, hf, hc, sa, sf, sc, rfl⟩ := ht
  obtain ⟨A, hA⟩ := hs.inv
  have hist : ∀ (b : Bool) (l : List Record), (pastJobs C b s.raw).res = .ok l → History C s b l := by
    intro b l hl
    have h := pastJobs_run hA.rel b
    rw [h] at hl
    cases hl
    exact h
  refine ⟨a, f, c, (C69_listing hs hup ha).imp fun t line hl => ⟨hl, ?_⟩, hist _ _ hf, hist _ _ hc, shows_printed sa.1 sa.2 all, shows_printed sf.1 sf.2 all,
    shows_printed sc.1 sc.2 all⟩
  obtain ⟨r, _, _, _, h⟩ := hl
  rw [← h]; unfold shownRunning; simp

/-- With one job waiting, the report can be made, and shows it. -/
example : Jobs.Reach demoCodec Jobs.Demo.noPoison Jobs.Demo.d1 ∧ Jobs.Demo.d1.up = true ∧
    ∃ f c, Prints demoCodec Jobs.Demo.d1.raw false ⟨f, [⟨Jobs.Demo.j0.describe, ⟨5, 0, 0⟩, false, []⟩], c⟩ := by
  refine ⟨Jobs.Demo.r1, Jobs.Demo.up1, printed false 0 [], printed false 0 [],
    [⟨Jobs.Demo.j0.describe, ⟨5, 0, 0⟩, false, []⟩], [], [], _, [], [], by decide +kernel, by decide +kernel, by decide +kernel,
    ⟨.refl _, by simp⟩, ⟨.refl _, .nil⟩, ⟨.refl _, .nil⟩, rfl⟩

end Ferryd.Listing
