import Verif.PropsCore2
import Verif.Demo2
/-!
# Properties C18–C23, C70: trimming, the index, strict uploads
-/
namespace Ferryd
open Spec
variable {W : World} {s : St}

/-! ## C18, C19: trim-packages -/

theorem mem_trimAll (ok : W.OK) (h : Inv W s) {r n : Str} {e : RepoEntry} (hge : (s.db.ents r).get n = some e)
    (k : Nat) {id : Str} (hid : id ∈ e.available) : id ∈ W.trimAll s r k ↔ id ∈ W.trimIds k e := by
  unfold World.trimAll
  rw [mem_flat h]
  constructor
  · rintro ⟨n', e', hg', hi'⟩
    have h1 := ((h.ent r n' e' hg').avail id ((trimIds_sub ok h k hg').1 id hi')).2.2
    have h2 := ((h.ent r n e hge).avail id hid).2.2
    rw [← h1, h2, hge] at hg'; cases hg'; exact hi'
  · intro hi; exact ⟨n, e, hge, hi⟩

theorem pairwise_split {α : Type} {R : α → α → Prop} {l : List α} (h : l.Pairwise R) (k : Nat) :
    ∀ x ∈ l.take k, ∀ y ∈ l.drop k, R x y := by
  have := (List.take_append_drop k l) ▸ h
  rw [List.pairwise_append] at this
  exact this.2.2

theorem trimmed_small (ok : W.OK) (h : Inv W s) {r n : Str} {e : RepoEntry} (hge : (s.db.ents r).get n = some e)
    (k : Nat) {id : Str} (hid : id ∈ W.trimIds k e) :
    ∃ L : List Str, L.Nodup ∧ L.length = k ∧ ∀ x ∈ L, x ∈ e.available ∧ x ≠ id ∧ (W.mOf id).rel ≤ (W.mOf x).rel := by
  have he := h.ent r n e hge
  obtain ⟨hp, hs⟩ := ranked_spec ok (e := e) (fun id hi => EntOk.isPkg h hge hi)
  rw [trimIds_eq] at hid
  split at hid
  · cases hid
  · rename_i hk
    have hin := (List.mem_filter.1 hid).1
    have hnd : (W.ranked e).Nodup := hp.nodup_iff.2 he.nodup
    refine ⟨(W.ranked e).take k, hnd.sublist (List.take_sublist _ _), ?_, ?_⟩
    · rw [List.length_take, hp.length_eq]; omega
    · intro x hx
      refine ⟨hp.mem_iff.1 (List.mem_of_mem_take hx), ?_, pairwise_split hs k x hx id hin⟩
      exact pairwise_split hnd k x hx id hin

theorem trimmed_big (ok : W.OK) (h : Inv W s) {r n : Str} {e : RepoEntry} (hge : (s.db.ents r).get n = some e)
    {k : Nat} (hk : 1 ≤ k) {id : Str} (hid : id ∈ e.available) {L : List Str} (hnd : L.Nodup) (hl : k ≤ L.length)
    (hL : ∀ x ∈ L, x ∈ e.available ∧ (W.mOf id).rel < (W.mOf x).rel) : id ∈ W.trimIds k e := by
  have he := h.ent r n e hge
  obtain ⟨hp, hs⟩ := ranked_spec ok (e := e) (fun id hi => EntOk.isPkg h hge hi)
  have hlen : L.length ≤ e.available.length := hnd.length_le_of_subset fun x hx => (hL x hx).1
  rw [trimIds_eq, if_neg (by omega), List.mem_filter]
  have hne : id ≠ e.published := by
    rintro rfl
    cases L with
    | nil => simp at hl; omega
    | cons x l =>
      have := he.top x (hL x (by simp)).1
      have := (hL x (by simp)).2
      omega
  refine ⟨?_, by simpa using hne⟩
  have hin : id ∈ W.ranked e := hp.mem_iff.2 hid
  rw [← List.take_append_drop k (W.ranked e), List.mem_append] at hin
  rcases hin with hin | hin
  · exfalso
    -- everything in `L` ranks before `id`, inside the first `k - 1`
    have hsub : ∀ x ∈ L, x ∈ ((W.ranked e).take k).erase id := by
      intro x hx
      obtain ⟨hx1, hx2⟩ := hL x hx
      have hne : x ≠ id := by rintro rfl; omega
      rw [List.mem_erase_of_ne hne]
      have hxr := hp.mem_iff.2 hx1
      rw [← List.take_append_drop k (W.ranked e), List.mem_append] at hxr
      rcases hxr with hxr | hxr
      · exact hxr
      · have := pairwise_split hs k id hin x hxr; omega
    have h1 := hnd.length_le_of_subset hsub
    rw [List.length_erase_of_mem hin] at h1
    have h2 : ((W.ranked e).take k).length ≤ k := by rw [List.length_take]; omega
    have h3 : 0 < ((W.ranked e).take k).length := List.length_pos_of_mem hin
    omega
  · exact hin

/-- What `trim packages` leaves: at most `k` packages and the tip. -/
theorem trimmed_left (ok : W.OK) (h : Inv W s) {r n : Str} {e : RepoEntry} (hge : (s.db.ents r).get n = some e)
    (k : Nat) : ∃ K : List Str, K.length ≤ k ∧ (∀ x ∈ e.available, x ∉ W.trimIds k e → x ∈ K ∨ x = e.published) ∧
      ((∀ x ∈ e.available, (W.mOf x).rel = (W.mOf e.published).rel → x = e.published) → 1 ≤ k →
        e.published ∈ K) := by
  have he := h.ent r n e hge
  obtain ⟨hp, hs⟩ := ranked_spec ok (e := e) (fun id hi => EntOk.isPkg h hge hi)
  rw [trimIds_eq]
  split
  · rename_i hk
    exact ⟨e.available, by omega, fun x hx _ => .inl hx, fun _ _ => he.pub⟩
  · refine ⟨(W.ranked e).take k, by rw [List.length_take]; omega, ?_, ?_⟩
    · intro x hx hn
      have hxr := hp.mem_iff.2 hx
      rw [← List.take_append_drop k (W.ranked e), List.mem_append] at hxr
      rcases hxr with hxr | hxr
      · exact .inl hxr
      · right
        by_cases hpub : x = e.published
        · exact hpub
        · exact absurd (List.mem_filter.2 ⟨hxr, by simpa using hpub⟩) hn
    · intro huniq hk
      have hpr := hp.mem_iff.2 he.pub
      rw [← List.take_append_drop k (W.ranked e), List.mem_append] at hpr
      rcases hpr with hpr | hpr
      · exact hpr
      · exfalso
        have hlen : 0 < (W.ranked e).length := List.length_pos_of_mem (hp.mem_iff.2 he.pub)
        have hx : (W.ranked e)[0] ∈ (W.ranked e).take k := by
          rw [List.mem_take_iff_getElem]; exact ⟨0, by omega, rfl⟩
        have hxa : (W.ranked e)[0] ∈ e.available := hp.mem_iff.1 (List.getElem_mem _)
        have h1 := pairwise_split hs k _ hx _ hpr
        have h2 := he.top _ hxa
        have h3 := huniq _ hxa (by omega)
        have hnd : (W.ranked e).Nodup := hp.nodup_iff.2 he.nodup
        exact pairwise_split hnd k _ hx _ hpr h3

/-- C18: trimming to `k ≥ 1` packages per name only removes packages; it keeps every tip, and the published
release of every name; it keeps every
package with fewer than `k` others of its name of the same or a higher release; it removes every package with `k`
or more of its name of a higher release; and other repositories are not touched. -/
theorem C18_trim_keeps_newest (ok : W.OK) (h : Reachable W s) {r : Str} (hr : Repo s r) (k : Nat) (hk : 1 ≤ k) :
    let s' := (mTrimPackages W.E r k s).st
    (∀ n id, Lists s' r n id → Lists s r n id) ∧
    (∀ n t, Tip s r n t → Lists s' r n t ∧ ∃ t', Tip s' r n t' ∧ relOf W t' = relOf W t) ∧
    (∀ n id L, Lists s r n id → Enumerates L (fun x => Lists s r n x ∧ x ≠ id ∧ relOf W id ≤ relOf W x) →
      L.length < k → Lists s' r n id) ∧
    (∀ n id L, Lists s r n id → Enumerates L (fun x => Lists s r n x ∧ relOf W id < relOf W x) →
      k ≤ L.length → ¬ Lists s' r n id) ∧
    (∀ r', r' ≠ r → s'.db.ents r' = s.db.ents r') := by
  have hi := h.inv ok
  have hm := mTrimPackages_run ok hi hr k (by omega)
  rw [Int.toNat_natCast] at hm
  intro s'
  have hi' : Inv W s' := hm.job.inv
  have hl : ∀ n id e, (s.db.ents r).get n = some e → id ∈ e.available →
      (Lists s' r n id ↔ id ∉ W.trimIds k e) := by
    intro n id e hge hin
    rw [hi'.lists_iff, show (s'.has r id = true ↔ _) from hm.job.has r id, mem_trimAll ok hi hge k hin]
    have h1 := (hi.lists_iff r n id).1 ⟨e, hge, hin⟩
    rw [h1.1, h1.2]; simp
  have hsub : ∀ n id, Lists s' r n id → Lists s r n id := by
    intro n id hx
    obtain ⟨h1, h2⟩ := (hi'.lists_iff r n id).1 hx
    exact (hi.lists_iff r n id).2 ⟨((hm.job.has r id).1 h1).1, h2⟩
  have hkeep : ∀ n t, Tip s r n t → Lists s' r n t := by
    rintro n t ⟨e, hge, rfl⟩
    rw [hl n e.published e hge (hi.ent r n e hge).pub, trimIds_eq]
    split
    · simp
    · intro hc; simpa using (List.mem_filter.1 hc).2
  refine ⟨hsub, ?_, ?_, ?_, fun r' hne => hm.job.frame.ents r' hne⟩
  · intro n t ht
    refine ⟨hkeep n t ht, ?_⟩
    obtain ⟨t', ht'⟩ := Inv.tip_of_lists (hkeep n t ht)
    have h1 := hi'.tip_top ht' (hkeep n t ht)
    have h2 := hi.tip_top ht (hsub n t' (hi'.tip_lists ht'))
    exact ⟨t', ht', by omega⟩
  · rintro n id L ⟨e, hge, hin⟩ ⟨hnd, hL⟩ hlen
    rw [hl n id e hge hin]
    intro hc
    obtain ⟨K, hK, hKl, hKm⟩ := trimmed_small ok hi hge k hc
    have := hK.length_le_of_subset (l₂ := L) fun x hx =>
      (hL x).2 ⟨⟨e, hge, (hKm x hx).1⟩, (hKm x hx).2.1, (hKm x hx).2.2⟩
    omega
  · rintro n id L ⟨e, hge, hin⟩ ⟨hnd, hL⟩ hlen hc
    rw [hl n id e hge hin] at hc
    refine hc (trimmed_big ok hi hge hk hin hnd hlen fun x hx => ?_)
    obtain ⟨⟨e', hge', hx'⟩, hrel⟩ := (hL x).1 hx
    rw [hge] at hge'; cases hge'
    exact ⟨hx', hrel⟩

/-- C18: asking to keep fewer than one package is refused and changes nothing. -/
theorem C18_trim_refused (ok : W.OK) (h : Reachable W s) {r : Str} (hr : Repo s r) (k : Int) (hk : k < 1) :
    let o := mTrimPackages W.E r k s
    o.res = .err .tooSmall ∧ o.st.db = s.db ∧ o.st.fs.read = s.fs.read ∧ o.st.fs.idx = s.fs.idx := by
  obtain ⟨tr, hrun, _⟩ := mTrimPackages_small (h.inv ok) hr k hk
  intro o
  have : o = ⟨.err .tooSmall, s.got r, tr⟩ := hrun
  rw [this]; exact ⟨rfl, by simp, by simp, by simp⟩

/-- C19 at full strength: after trimming to `k` no name lists more than `k` packages. -/
def C19_statement : Prop := ∀ (W : World) (s : St), W.OK → Reachable W s → ∀ r, Repo s r → ∀ (k : Nat), 1 ≤ k →
  ∀ n (L : List Str), (∀ x ∈ L, Lists (mTrimPackages W.E r k s).st r n x) → L.Nodup → L.length ≤ k

/-- C19 is false of the code: with the releases 2, 2, 1 and the tip sorted second among its equals, trimming to 1
leaves two packages (the tip is skipped when it comes up for removal, repo.go:1087-1091). -/
theorem C19_violated : ¬ C19_statement := by
  intro hst
  have hi := (Demo.reach3.step (.trimPackages (Demo.S "unstable") 1) trivial).inv Demo.ok
  have := hst Demo.W Demo.st3 Demo.ok Demo.reach3 (Demo.S "unstable") (by unfold Repo; decide +kernel) 1 (by decide)
    (Demo.S "a") [Demo.S "a-2.eopkg", Demo.S "a-2b.eopkg"] (by
      intro x hx
      refine (hi.lists_iff _ _ _).2 ?_
      revert x
      decide +kernel) (by decide +kernel)
  exact absurd this (by decide)

/-- C19, what holds: at most `k + 1` packages per name are left, and at most `k` when no other package of the name
has the tip's release. -/
theorem C19_trim_bound_partial (ok : W.OK) (h : Reachable W s) {r : Str} (hr : Repo s r) (k : Nat) (hk : 1 ≤ k)
    (n : Str) (L : List Str) (hL : ∀ x ∈ L, Lists (mTrimPackages W.E r k s).st r n x) (hnd : L.Nodup) :
    L.length ≤ k + 1 ∧
    (∀ t, Tip s r n t → (∀ id, Lists s r n id → relOf W id = relOf W t → id = t) → L.length ≤ k) := by
  have hi := h.inv ok
  have hm := mTrimPackages_run ok hi hr k (by omega)
  rw [Int.toNat_natCast] at hm
  have hi' := hm.job.inv
  cases hge : (s.db.ents r).get n with
  | none =>
    have : L = [] := by
      cases L with
      | nil => rfl
      | cons x l =>
        obtain ⟨h1, h2⟩ := (hi'.lists_iff r n x).1 (hL x (by simp))
        obtain ⟨e, hg, _⟩ := (hi.lists_iff r n x).2 ⟨((hm.job.has r x).1 h1).1, h2⟩
        rw [hge] at hg; cases hg
    subst this; simp
  | some e =>
    obtain ⟨K, hKl, hK, hKp⟩ := trimmed_left ok hi hge k
    have hsub : ∀ x ∈ L, x ∈ K ∨ x = e.published := by
      intro x hx
      obtain ⟨h1, h2⟩ := (hi'.lists_iff r n x).1 (hL x hx)
      obtain ⟨h3, h4⟩ := (hm.job.has r x).1 h1
      obtain ⟨e', hg, hin⟩ := (hi.lists_iff r n x).2 ⟨h3, h2⟩
      rw [hge] at hg; cases hg
      refine hK x hin fun hc => h4 ⟨rfl, ?_⟩
      exact (mem_trimAll ok hi hge k hin).2 hc
    constructor
    · have := hnd.length_le_of_subset (l₂ := e.published :: K) fun x hx => by
        rcases hsub x hx with h | h
        · exact List.mem_cons_of_mem _ h
        · rw [h]; exact List.mem_cons_self
      simp only [List.length_cons] at this; omega
    · rintro t ⟨e', hg, rfl⟩ huniq
      rw [hge] at hg; cases hg
      have hp := hKp (fun x hx hrel => huniq x ⟨e, hge, hx⟩ hrel) hk
      have := hnd.length_le_of_subset (l₂ := K) fun x hx => by
        rcases hsub x hx with h | h
        · exact h
        · rw [h]; exact hp
      omega

/-- Non-vacuity of C18 and C19: trimming the demo repository to one package removes the older release of `a`. -/
example : let s' := (mTrimPackages Demo.E (Demo.S "unstable") 1 Demo.st1).st
    Demo.st1.availOf (Demo.S "unstable") (Demo.S "a") = [Demo.S "a-1.eopkg", Demo.S "a-2.eopkg"] ∧
    s'.availOf (Demo.S "unstable") (Demo.S "a") = [Demo.S "a-2.eopkg"] := by decide +kernel

/-! ## C20: trim-obsolete -/

/-- C20 at full strength: after trim-obsolete exactly the packages whose names are not hidden by the distribution's
obsolete list remain. -/
def C20_statement : Prop := ∀ (W : World) (s : St), W.OK → Reachable W s → ∀ r, Repo s r →
  ∀ c obs, s.fs.read (.asset r .distribution) = some c → W.E.parseDist c = some obs →
  ∀ n id, Lists (mTrimObsolete W.E r s).st r n id ↔ Lists s r n id ∧ ¬ Hidden obs n

/-- C20 is false of the code: an exactly obsolete package is never removed (repo.go:1183: the id is only recorded
when the stripped name differs from the entry's name). -/
theorem C20_violated : ¬ C20_statement := by
  intro hst
  have hi := (Demo.reach4.step (.trimObsolete (Demo.S "unstable")) trivial).inv Demo.ok
  have := (hst Demo.W Demo.st4 Demo.ok Demo.reach4 (Demo.S "unstable") (by unfold Repo; decide +kernel) [100]
    [Demo.S "o"] (by decide +kernel) (by decide +kernel) (Demo.S "o") (Demo.S "o-1.eopkg")).1
    ((hi.lists_iff _ _ _).2 (by decide +kernel))
  exact this.2 (.inl (by simp))

/-- C20, second defect: of several debug packages of one obsolete name only the first goes (repo.go:1186 `break`). -/
theorem C20_violated_dbginfo : ¬ (∀ (W : World) (s : St), W.OK → Reachable W s → ∀ r, Repo s r →
    ∀ c obs, s.fs.read (.asset r .distribution) = some c → W.E.parseDist c = some obs →
    ∀ b ∈ obs, ∀ id, ¬ Lists (mTrimObsolete W.E r s).st r (b ++ "-dbginfo".toList) id) := by
  intro hst
  have hi := (Demo.reach4.step (.trimObsolete (Demo.S "unstable")) trivial).inv Demo.ok
  exact hst Demo.W Demo.st4 Demo.ok Demo.reach4 (Demo.S "unstable") (by unfold Repo; decide +kernel) [100]
    [Demo.S "o"] (by decide +kernel) (by decide +kernel) (Demo.S "o") (by simp) (Demo.S "o-dbginfo-2.eopkg")
    ((hi.lists_iff _ _ _).2 (by decide +kernel))

theorem mem_obsAll (h : Inv W s) {r n : Str} {e : RepoEntry} (hge : (s.db.ents r).get n = some e)
    (obs : List Str) {id : Str} (hid : id ∈ e.available) :
    id ∈ W.obsAll s r obs ↔ id ∈ W.obsIds obs n e.available := by
  unfold World.obsAll
  rw [mem_flat h]
  have hn := (h.ent r n e hge).name
  constructor
  · rintro ⟨n', e', hg', hi'⟩
    have h1 := ((h.ent r n' e' hg').avail id ((obsIds_sub W obs _ _).1 id hi').1).2.2
    have h2 := ((h.ent r n e hge).avail id hid).2.2
    rw [← h1, h2, hge] at hg'; cases hg'; rw [hn] at hi'; exact hi'
  · intro hi; exact ⟨n, e, hge, by rw [hn]; exact hi⟩

/-- The scan of one entry: when all packages have the entry's name, it removes the first one if that name is a debug
name of an obsolete name, and nothing otherwise. -/
theorem obsIds_entry (W : World) (obs : List Str) (n : Str) (l : List Str) (hl : ∀ id ∈ l, (W.mOf id).name = n) :
    W.obsIds obs n l = if stripDbg n ∈ obs ∧ stripDbg n ≠ n then l.take 1 else [] := by
  induction l with
  | nil => simp [World.obsIds]
  | cons id ids ih =>
    simp only [World.obsIds, hl id (by simp)]
    by_cases h1 : stripDbg n ∈ obs
    · rw [if_pos h1]; by_cases h2 : stripDbg n = n <;> simp [h1, h2]
    · rw [if_neg h1, ih fun x hx => hl x (by simp [hx])]; simp [h1]

/-- C20, what holds of the code.  Trim-obsolete only removes packages; a name that is not the debug name of an obsolete
name keeps all its packages (so nothing that is not hidden is ever removed); of a debug name of an obsolete name exactly one
listed package, the first in order, is removed; other repositories are not touched. -/
theorem C20_trim_obsolete_partial (ok : W.OK) (h : Reachable W s) {r : Str} (hr : Repo s r) {c : Content} {obs : List Str}
    (hc : s.fs.read (.asset r .distribution) = some c) (hobs : W.E.parseDist c = some obs) :
    let s' := (mTrimObsolete W.E r s).st
    (∀ n, (¬ ∃ b ∈ obs, n = b ++ "-dbginfo".toList) → ∀ id, Lists s' r n id ↔ Lists s r n id) ∧
    (∀ b ∈ obs, ∀ id, Lists s' r (b ++ "-dbginfo".toList) id ↔ Lists s r (b ++ "-dbginfo".toList) id ∧
      ∃ x, Lists s r (b ++ "-dbginfo".toList) x ∧ x ≠ id ∧ strLe x id = true) ∧
    (∀ r', r' ≠ r → s'.db.ents r' = s.db.ents r') := by
  have hi := h.inv ok
  have hd : W.distOf s r = some (some obs) := by unfold World.distOf; rw [hc]; simp [hobs]
  have hm := mTrimObsolete_run ok hi hr hd
  intro s'
  have hi' : Inv W s' := hm.job.inv
  have hl : ∀ n id, Lists s' r n id ↔ Lists s r n id ∧ ∃ e, (s.db.ents r).get n = some e ∧
      id ∉ (if stripDbg n ∈ obs ∧ stripDbg n ≠ n then e.available.take 1 else []) := by
    intro n id
    rw [hi'.lists_iff, show (s'.has r id = true ↔ _) from hm.job.has r id]
    constructor
    · rintro ⟨⟨h1, h2⟩, h3⟩
      obtain ⟨e, hge, hin⟩ := (hi.lists_iff r n id).2 ⟨h1, h3⟩
      refine ⟨⟨e, hge, hin⟩, e, hge, fun hx => h2 ⟨rfl, ?_⟩⟩
      rw [mem_obsAll hi hge obs hin, obsIds_entry W obs n _ fun x hx => ((hi.ent r n e hge).avail x hx).2.2]
      exact hx
    · rintro ⟨⟨e, hge, hin⟩, e', hge', hx⟩
      rw [hge] at hge'; cases hge'
      obtain ⟨h1, h3⟩ := (hi.lists_iff r n id).1 ⟨e, hge, hin⟩
      refine ⟨⟨h1, fun hc => hx ?_⟩, h3⟩
      have := (mem_obsAll hi hge obs hin).1 hc.2
      rw [obsIds_entry W obs n _ fun x hx => ((hi.ent r n e hge).avail x hx).2.2] at this
      exact this
  refine ⟨?_, ?_, fun r' hne => hm.job.frame.ents r' hne⟩
  · intro n hn id
    have hcond : ¬ (stripDbg n ∈ obs ∧ stripDbg n ≠ n) := by
      rintro ⟨h1, h2⟩
      rcases stripDbg_cases n with ⟨b, hb, hs⟩ | ⟨_, hs⟩
      · rw [hs] at h1; exact hn ⟨b, h1, hb⟩
      · exact h2 hs
    simp only [hl, if_neg hcond]
    constructor
    · exact And.left
    · rintro ⟨e, hge, hin⟩
      exact ⟨⟨e, hge, hin⟩, e, hge, by simp⟩
  · intro b hb id
    have hcond : stripDbg (b ++ "-dbginfo".toList) ∈ obs ∧ stripDbg (b ++ "-dbginfo".toList) ≠ b ++ "-dbginfo".toList := by
      rw [stripDbg_append]
      refine ⟨hb, fun he => ?_⟩
      have := congrArg List.length he
      rw [List.length_append, show ("-dbginfo".toList : Str).length = 8 from rfl] at this
      omega
    simp only [hl, if_pos hcond]
    refine and_congr_right fun hx => ?_
    obtain ⟨e, hge, hin⟩ := hx
    have he := hi.ent r _ e hge
    constructor
    · rintro ⟨e', hge', hni⟩
      rw [hge] at hge'; cases hge'
      cases ha : e.available with
      | nil => rw [ha] at hin; cases hin
      | cons x l =>
        rw [ha] at hni hin
        have hne : id ≠ x := by rintro rfl; exact hni (by simp)
        have hil : id ∈ l := by
          rcases List.mem_cons.1 hin with h | h
          · exact absurd h hne
          · exact h
        have hs := he.sorted
        unfold SortedS at hs
        rw [ha, List.pairwise_cons] at hs
        exact ⟨x, ⟨e, hge, by rw [ha]; simp⟩, hne.symm, hs.1 id hil⟩
    · rintro ⟨x, ⟨e', hge', hxin⟩, hne, hle⟩
      rw [hge] at hge'; cases hge'
      refine ⟨e, hge, ?_⟩
      cases ha : e.available with
      | nil => simp
      | cons y l =>
        rw [ha] at hxin hin
        intro hc
        have hiy : id = y := by simpa using hc
        subst hiy
        have hs := he.sorted
        unfold SortedS at hs
        rw [ha, List.pairwise_cons] at hs
        rcases List.mem_cons.1 hxin with h | h
        · exact hne h
        · exact hne (strLe_antisymm hle (hs.1 x h))

/-- C20: without a usable distribution file the job fails and nothing changes. -/
theorem C20_no_distribution (ok : W.OK) (h : Reachable W s) {r : Str} (hr : Repo s r)
    (hd : s.fs.read (.asset r .distribution) = none ∨
      ∃ c, s.fs.read (.asset r .distribution) = some c ∧ W.E.parseDist c = none) :
    let o := mTrimObsolete W.E r s
    (∃ e, o.res = .err e) ∧ o.st.db = s.db ∧ o.st.fs.read = s.fs.read ∧ o.st.fs.idx = s.fs.idx := by
  have hd' : W.distOf s r = none ∨ W.distOf s r = some none := by
    unfold World.distOf
    rcases hd with h | ⟨c, h, h2⟩
    · right; rw [h]
    · left; rw [h]; simp [h2]
  obtain ⟨e, tr, hrun, _⟩ := mTrimObsolete_err (h.inv ok) hr hd'
  intro o
  have : o = ⟨.err e, s.got r, tr⟩ := hrun
  rw [this]; exact ⟨⟨e, rfl⟩, by simp, by simp, by simp⟩

/-- Non-vacuity of C20: in the demo one debug package is removed and `b` stays. -/
example : let s' := (mTrimObsolete Demo.E (Demo.S "unstable") Demo.st4).st
    Demo.st4.availOf (Demo.S "unstable") (Demo.S "o-dbginfo") = [Demo.S "o-dbginfo-1.eopkg", Demo.S "o-dbginfo-2.eopkg"] ∧
    s'.availOf (Demo.S "unstable") (Demo.S "o-dbginfo") = [Demo.S "o-dbginfo-2.eopkg"] ∧
    s'.availOf (Demo.S "unstable") (Demo.S "b") = [Demo.S "b-1.eopkg"] := by decide +kernel

/-! ## C21, C22, C70: the index -/

/-- The repository whose index a job must have written when it reports success (for copy-source see C17). -/
def Op.publishes : Op → Option Str
  | .create r => some r
  | .clone _ new _ => some new
  | .pull _ dst => some dst
  | .removeSource r _ _ => some r
  | .trimObsolete r => some r
  | .trimPackages r _ => some r
  | .addPackages r _ _ => some r
  | .index r => some r
  | _ => none

theorem discard_st {α} (m : M α) (s : St) : (discard m s).st = (m s).st := by
  unfold discard
  cases hm : m s with
  | mk res st tr =>
    cases res with
    | ok a => rw [bind_ok hm]; rfl
    | err e => rw [bind_err hm]
    | panic => rw [bind_panic hm]

theorem discard_ok {α} {m : M α} {s : St} (h : (discard m s).res = .ok ()) : ∃ a, (m s).res = .ok a := by
  unfold discard at h
  cases hm : m s with
  | mk res st tr =>
    cases res with
    | ok a => exact ⟨a, rfl⟩
    | err e => rw [bind_err hm] at h; cases h
    | panic => rw [bind_panic hm] at h; cases h

theorem Op.fresh (ok : W.OK) (h : Inv W s) (o : Op) (ho : o.Ok W) {r : Str} (hp : o.publishes = some r)
    (hres : (o.run W.E s).res = .ok ()) : W.Fresh (o.exec W.E s) r := by
  unfold Op.exec
  cases o <;> simp only [Op.publishes, reduceCtorEq, Option.some.injEq] at hp <;> subst hp <;>
    simp only [Op.run] at hres ⊢
  case create r =>
    by_cases hr : r ∈ s.db.repos.keys
    · obtain ⟨tr, hrun, _⟩ := mCreateRepo_exists (W := W) h hr
      rw [hrun] at hres; cases hres
    · cases hrs : reservedKey r with
      | true => rw [mCreateRepo_reserved h hr hrs] at hres; cases hres
      | false => exact (mCreateRepo_run ok h hr hrs).fresh hres
  case clone a b f =>
    by_cases ha : a ∈ s.db.repos.keys
    · by_cases hb : b ∈ s.db.repos.keys ∨ reservedKey b = true
      · obtain ⟨e, u, tr, hrun, _⟩ := mCloneRepo_bad (W := W) h ha hb f
        rw [hrun] at hres; cases hres
      · have hb1 : b ∉ s.db.repos.keys := fun x => hb (.inl x)
        have hb2 : reservedKey b = false := by
          cases hx : reservedKey b with
          | true => exact absurd (.inr hx) hb
          | false => rfl
        exact (mCloneRepo_run ok h ha hb1 hb2 f).fresh hres
    · rw [mCloneRepo_missing h ha] at hres; cases hres
  case pull a b =>
    by_cases hab : a ∈ s.db.repos.keys ∧ b ∈ s.db.repos.keys
    · rcases mPullRepo_run ok h hab.1 hab.2 with ⟨_, hp⟩ | ⟨_, s', tr, hrun, _⟩
      · have hst : (discard (mPullRepo W.E a b) s).st = (mPullRepo W.E a b s).st := discard_st _ _
        obtain ⟨l, hl⟩ := discard_ok hres
        rw [hst]; exact (hp.changed l hl).2
      · obtain ⟨l, hl⟩ := discard_ok hres
        rw [hrun] at hl; cases hl
    · have : a ∉ s.db.repos.keys ∨ b ∉ s.db.repos.keys := by
        by_cases ha : a ∈ s.db.repos.keys
        · exact .inr fun hb => hab ⟨ha, hb⟩
        · exact .inl ha
      obtain ⟨u, tr, hrun, _⟩ := mPullRepo_missing (W := W) h this
      obtain ⟨l, hl⟩ := discard_ok hres
      rw [hrun] at hl; cases hl
  case removeSource r a b =>
    by_cases hr : r ∈ s.db.repos.keys
    · rcases mRemoveSource_run ok h hr a b with ⟨_, hp⟩ | ⟨_, tr, hrun, _⟩
      · exact hp.fresh hres
      · rw [hrun] at hres; cases hres
    · rw [mRemoveSource_missing h hr] at hres; cases hres
  case trimObsolete r =>
    by_cases hr : r ∈ s.db.repos.keys
    · cases hd : W.distOf s r with
      | none =>
        obtain ⟨e, tr, hrun, _⟩ := mTrimObsolete_err h hr (.inl hd)
        rw [hrun] at hres; cases hres
      | some d =>
        cases d with
        | none =>
          obtain ⟨e, tr, hrun, _⟩ := mTrimObsolete_err h hr (.inr hd)
          rw [hrun] at hres; cases hres
        | some obs => exact (mTrimObsolete_run ok h hr hd).fresh hres
    · rw [mTrimObsolete_missing h hr] at hres; cases hres
  case trimPackages r k =>
    by_cases hr : r ∈ s.db.repos.keys
    · by_cases hk : 1 ≤ k
      · exact (mTrimPackages_run ok h hr k hk).fresh hres
      · obtain ⟨tr, hrun, _⟩ := mTrimPackages_small (W := W) h hr k (by omega)
        rw [hrun] at hres; cases hres
    · rw [mTrimPackages_missing h hr] at hres; cases hres
  case addPackages r fs st =>
    by_cases hr : r ∈ s.db.repos.keys
    · cases st with
      | false =>
        obtain ⟨_, _, _, _, _, _, _, hf, _⟩ := (mAddPackages_run ok h hr fs ho).spec
        exact hf hres
      | true =>
        obtain ⟨_, _, _, _, _, _, _, hf, _⟩ := (mAddPackagesStrict_run ok h hr fs ho).spec
        exact hf hres
    · rw [mAddPackages_missing h hr] at hres; cases hres
  case index r =>
    by_cases hr : r ∈ s.db.repos.keys
    · exact (mIndex_run ok h hr).fresh hres
    · rw [mIndex_missing h hr] at hres; cases hres

/-- C21: after every job that publishes a repository and reports success, the repository's index lists exactly the
tips that are not hidden by the distribution file, once each and sorted, with the location, size and hash of the
served files, and carries the components and groups of its asset files. -/
theorem C21_index_exact (ok : W.OK) (h : Reachable W s) (o : Op) (ho : o.Ok W) {r : Str}
    (hp : o.publishes = some r) (hres : (o.run W.E s).res = .ok ()) :
    ∃ doc, (o.exec W.E s).fs.idx r = some doc ∧ IndexCorrect W (o.exec W.E s) r doc := by
  obtain ⟨doc, h1, h2, _⟩ := (o.fresh ok (h.inv ok) ho hp hres).correct ok ((h.step o ho).inv ok)
  exact ⟨doc, h1, h2⟩

/-- C21: an index job that fails leaves the published index as it was, or (when the failure came after the files were
in place) correct for the current state. -/
theorem C21_index_failure (ok : W.OK) (h : Reachable W s) {r : Str} {e : Err}
    (hres : (mIndex W.E r s).res = .err e) :
    (mIndex W.E r s).st.fs.idx r = s.fs.idx r ∨
    ∃ doc, (mIndex W.E r s).st.fs.idx r = some doc ∧ IndexCorrect W (mIndex W.E r s).st r doc := by
  have hi := h.inv ok
  by_cases hr : r ∈ s.db.repos.keys
  · have hm := mIndex_run (W := W) ok hi hr
    rcases hm.err e hres with h | h
    · exact .inl h
    · obtain ⟨doc, h1, h2, _⟩ := h.correct ok hm.inv
      exact .inr ⟨doc, h1, h2⟩
  · rw [mIndex_missing hi hr]; exact .inl rfl

/-- C22: the deltas offered in a freshly published index are exactly the repository's deltas of that package leading to the
published release. -/
theorem C22_index_deltas (ok : W.OK) (h : Reachable W s) (o : Op) (ho : o.Ok W) {r : Str}
    (hp : o.publishes = some r) (hres : (o.run W.E s).res = .ok ()) :
    ∃ doc, (o.exec W.E s).fs.idx r = some doc ∧ IndexDeltas W (o.exec W.E s) r doc := by
  obtain ⟨doc, h1, _, h2⟩ := (o.fresh ok (h.inv ok) ho hp hres).correct ok ((h.step o ho).inv ok)
  exact ⟨doc, h1, h2⟩

/-- C70: in a freshly published index the tip of a name `b-dbginfo` is absent exactly when `b` or `b-dbginfo` itself is on
the obsolete list. -/
theorem C70_dbginfo_hidden (ok : W.OK) (h : Reachable W s) (o : Op) (ho : o.Ok W) {r : Str}
    (hp : o.publishes = some r) (hres : (o.run W.E s).res = .ok ()) {b t : Str}
    (ht : Tip (o.exec W.E s) r (b ++ "-dbginfo".toList) t) :
    ∃ doc obs, (o.exec W.E s).fs.idx r = some doc ∧ Obsolete W (o.exec W.E s) r = some obs ∧
      (t ∉ doc.packages.map DocPkg.id ↔ b ∈ obs ∨ b ++ "-dbginfo".toList ∈ obs) := by
  obtain ⟨doc, h1, h2⟩ := C21_index_exact ok h o ho hp hres
  obtain ⟨obs, h3, _, h4⟩ := h2.exact_
  have hi := (h.step o ho).inv ok
  refine ⟨doc, obs, h1, h3, ?_⟩
  rw [h4 t]
  constructor
  · intro hx
    have hh : Hidden obs (b ++ "-dbginfo".toList) := by
      by_cases hc : Hidden obs (b ++ "-dbginfo".toList)
      · exact hc
      · exact absurd ⟨_, ht, hc⟩ hx
    rw [hidden_iff, stripDbg_append] at hh
    exact hh.symm
  · rintro hx ⟨n, ht', hn⟩
    have : n = b ++ "-dbginfo".toList :=
      (hi.lists_name (hi.tip_lists ht')).symm.trans (hi.lists_name (hi.tip_lists ht))
    subst this
    rw [hidden_iff, stripDbg_append] at hn
    exact hn hx.symm

/-- Non-vacuity of C21, C70: the demo's index job succeeds; `o` and `o-dbginfo` are hidden and `b` is listed. -/
example : (mIndex Demo.E (Demo.S "unstable") Demo.st4).res = .ok () ∧
    ((mIndex Demo.E (Demo.S "unstable") Demo.st4).st.fs.idx (Demo.S "unstable")).map
      (fun d => d.packages.map DocPkg.id) = some [Demo.S "b-1.eopkg"] := by decide +kernel

/-! ## C23: strict uploads -/

/-- C23: a strict upload of one file either fails and changes nothing, or the file is a readable package newer than the
repository's tip of that name (if it has one) and the repository then additionally lists exactly it. -/
theorem C23_strict (ok : W.OK) (h : Reachable W s) {r : Str} (hr : Repo s r) (f : Str)
    (hd : W.isDelta (baseName f) = false) :
    let o := addPackage W.E r (.ext f) true s
    ((∀ t, Tip s r (nameOf W (baseName f)) t → relOf W t < relOf W (baseName f)) ∧ o.res = .ok () ∧
      ∀ n id, Lists o.st r n id ↔ Lists s r n id ∨ (n = nameOf W (baseName f) ∧ id = baseName f)) ∨
    ((∃ e, o.res = .err e) ∧ o.st = s) := by
  have hi := h.inv ok
  intro o
  rcases addPackageStrict_run ok hi hr f hd with ⟨_, h2, s', tr, hrun, ha, _⟩ | ⟨_, e, hrun⟩
  · left
    have ho : o = ⟨.ok (), s', tr⟩ := hrun
    rw [ho]
    refine ⟨?_, rfl, ?_⟩
    · rintro t ⟨e, hg, rfl⟩; exact h2 e hg
    · intro n id
      rw [ha.inv.lists_iff, ha.has, hi.lists_iff]
      simp only [true_and, List.mem_singleton]
      constructor
      · rintro ⟨h1 | rfl, rfl⟩
        · exact .inl ⟨h1, rfl⟩
        · exact .inr ⟨rfl, rfl⟩
      · rintro (⟨h1, h2⟩ | ⟨rfl, rfl⟩)
        · exact ⟨.inl h1, h2⟩
        · exact ⟨.inr rfl, rfl⟩
  · right
    have ho : o = ⟨.err e, s, []⟩ := hrun
    rw [ho]; exact ⟨⟨e, rfl⟩, rfl⟩

/-- C23: and a readable package newer than the tip (or of a new name) is accepted. -/
theorem C23_strict_accepts (ok : W.OK) (h : Reachable W s) {r : Str} (hr : Repo s r) (f : Str)
    (hd : W.isDelta (baseName f) = false) (hf : s.fs.read (.ext f) = some (W.canon (baseName f)))
    (hp : ∃ m, W.E.parse (W.canon (baseName f)) = .good m)
    (hnew : ∀ t, Tip s r (nameOf W (baseName f)) t → relOf W t < relOf W (baseName f)) :
    (addPackage W.E r (.ext f) true s).res = .ok () := by
  rcases addPackageStrict_run ok (h.inv ok) hr f hd with ⟨_, h2, s', tr, hrun, _⟩ | ⟨hn, e, hrun⟩
  · rw [hrun]
  · exfalso
    refine hn ⟨⟨hf, ?_⟩, fun e hg => hnew _ ⟨e, hg, rfl⟩⟩
    · obtain ⟨m, hm⟩ := hp
      unfold World.IsPkg World.mOf; rw [hm]

/-- C23: in particular a release that is not newer than the tip is refused with no change at all. -/
theorem C23_strict_refused (ok : W.OK) (h : Reachable W s) {r : Str} (hr : Repo s r) (f : Str)
    (hd : W.isDelta (baseName f) = false) {t : Str} (ht : Tip s r (nameOf W (baseName f)) t)
    (hrel : relOf W (baseName f) ≤ relOf W t) :
    (∃ e, (addPackage W.E r (.ext f) true s).res = .err e) ∧ (addPackage W.E r (.ext f) true s).st = s := by
  rcases C23_strict ok h hr f hd with ⟨h1, _⟩ | h2
  · have := h1 t ht; omega
  · exact h2

/-- C23 for a whole strict upload job: whatever is refused part-way, the tip's release of every name never decreases, and
the packages listed before are still listed. -/
theorem C23_strict_job (ok : W.OK) (h : Reachable W s) {r : Str} (hr : Repo s r) (files : List Str)
    (hd : ∀ f ∈ files, W.isDelta (baseName f) = false) :
    let s' := (mAddPackages W.E r files true s).st
    (∀ n id, Lists s r n id → Lists s' r n id) ∧
    (∀ n t, Tip s r n t → ∃ t', Tip s' r n t' ∧ relOf W t ≤ relOf W t') := by
  have hi := h.inv ok
  obtain ⟨done, rest, _, ha, _⟩ := (mAddPackagesStrict_run ok hi hr files hd).spec
  intro s'
  have hi' : Inv W s' := ha.inv
  have hl : ∀ n id, Lists s r n id → Lists s' r n id := by
    intro n id hx
    obtain ⟨h1, h2⟩ := (hi.lists_iff r n id).1 hx
    exact (hi'.lists_iff r n id).2 ⟨(ha.has r id).2 (.inl h1), h2⟩
  refine ⟨hl, ?_⟩
  intro n t ht
  have h1 := hl n t (hi.tip_lists ht)
  obtain ⟨t', ht'⟩ := Inv.tip_of_lists h1
  exact ⟨t', ht', hi'.tip_top ht' h1⟩

/-- Non-vacuity of C23: a strict upload of release 2 is refused, of release 3 accepted. -/
example : (addPackage Demo.E (Demo.S "unstable") (.ext (Demo.S "/up/a-2.eopkg")) true Demo.st1).res = .err .sameRelease ∧
    (addPackage Demo.E (Demo.S "unstable") (.ext (Demo.S "/up/a-3.eopkg")) true
      (Demo.st1.putFile (.ext (Demo.S "/up/a-3.eopkg")) [9])).res = .ok () := by decide +kernel

end Ferryd
