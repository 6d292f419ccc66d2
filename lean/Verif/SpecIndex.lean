import Verif.Spec
/-!
# SpecIndex: what the proofs know about a fresh index, in the words of `Spec`
-/
namespace Ferryd
open Spec
variable {W : World} {s : St}

theorem Inv.tip_lists (h : Inv W s) {r n id : Str} (ht : Tip s r n id) : Lists s r n id := by
  obtain ⟨e, hg, rfl⟩ := ht
  exact ⟨e, hg, (h.ent r n e hg).pub⟩

theorem stripDbg_append (b : Str) : stripDbg (b ++ "-dbginfo".toList) = b := by
  unfold stripDbg
  rw [if_pos (by rw [List.isSuffixOf_iff_suffix]; exact List.suffix_append _ _)]
  simp

theorem stripDbg_cases (n : Str) : (∃ b, n = b ++ "-dbginfo".toList ∧ stripDbg n = b) ∨
    ((¬ ∃ b, n = b ++ "-dbginfo".toList) ∧ stripDbg n = n) := by
  by_cases h : dbgSuffix.isSuffixOf n = true
  · left
    rw [List.isSuffixOf_iff_suffix] at h
    obtain ⟨b, rfl⟩ := h
    exact ⟨b, rfl, stripDbg_append b⟩
  · right
    constructor
    · rintro ⟨b, rfl⟩
      exact h (by rw [List.isSuffixOf_iff_suffix]; exact List.suffix_append _ _)
    · unfold stripDbg; rw [if_neg h]

theorem Spec.hidden_iff (obs : List Str) (n : Str) : Hidden obs n ↔ n ∈ obs ∨ stripDbg n ∈ obs := by
  unfold Hidden
  rcases stripDbg_cases n with ⟨b, hb, hs⟩ | ⟨hn, hs⟩
  · rw [hs]
    refine or_congr_right ⟨?_, fun h => ⟨b, h, hb⟩⟩
    rintro ⟨b', hb', he⟩
    have : b' = b := by
      have h1 := hb.symm.trans he
      exact (List.append_cancel_right h1).symm
    rw [← this]; exact hb'
  · rw [hs]
    constructor
    · rintro (h | ⟨b, _, he⟩)
      · exact .inl h
      · exact absurd ⟨b, he⟩ hn
    · rintro (h | h) <;> exact .inl h

theorem mem_docIds (h : Inv W s) (r : Str) (obs : List Str) (id : Str) :
    id ∈ W.docIds s r obs ↔ ∃ n, Tip s r n id ∧ ¬ Hidden obs n := by
  simp only [World.docIds, List.mem_filter, mem_sortS, List.mem_map]
  constructor
  · rintro ⟨⟨e, ⟨⟨p, hm, rfl⟩, ho⟩, rfl⟩, hs⟩
    obtain ⟨n, e⟩ := p
    have hge := KV.get_of_mem (h.wfEnts r) hm
    have he := h.ent r n e hge
    refine ⟨n, ⟨e, hge, rfl⟩, ?_⟩
    rw [hidden_iff]
    have hn := (he.avail _ he.pub).2.2
    rw [hn] at hs
    have hnm := he.name
    simp only [hnm] at ho
    simp_all
  · rintro ⟨n, ⟨e, hge, rfl⟩, hh⟩
    have he := h.ent r n e hge
    have hn := (he.avail _ he.pub).2.2
    rw [hidden_iff] at hh
    refine ⟨⟨e, ⟨⟨(n, e), KV.mem_of_get hge, rfl⟩, ?_⟩, rfl⟩, ?_⟩
    · rw [he.name]; simp_all
    · rw [hn]; simp_all

theorem nodup_docIds (h : Inv W s) (r : Str) (obs : List Str) : (W.docIds s r obs).Nodup := by
  unfold World.docIds
  refine List.Pairwise.filter _ ?_
  show (sortS _).Nodup
  rw [nodup_sortS]
  have := nodup_flat h r (fun e => if obs.contains e.name then [] else [e.published]) (by
    intro n e hg
    split
    · simp
    · have := (h.ent r n e hg).pub
      simpa using this)
  rw [show ((((s.db.ents r).map Prod.snd).filter fun e => !obs.contains e.name).map RepoEntry.published) =
    ((s.db.ents r).map Prod.snd).flatMap (fun e => if obs.contains e.name then [] else [e.published]) from ?_]
  · exact this
  · induction (s.db.ents r).map Prod.snd with
    | nil => rfl
    | cons e l ih =>
      rw [List.flatMap_cons, ← ih, List.filter_cons]
      cases obs.contains e.name <;> simp

theorem sorted_docIds (r : Str) (obs : List Str) : SortedS (W.docIds s r obs) := by
  unfold World.docIds SortedS
  exact List.Pairwise.filter _ (sortS_sorted _)

theorem obsolete_of_dist {r : Str} {d : Option (List Str)} (h : W.distOf s r = some d) :
    Obsolete W s r = some (d.getD []) := by
  unfold World.distOf at h
  unfold Obsolete
  cases hx : s.fs.read (.asset r .distribution) with
  | none => rw [hx] at h; simp only [Option.some.injEq] at h; subst h; rfl
  | some c =>
    rw [hx] at h; simp only [Option.map_eq_some_iff] at h
    obtain ⟨o, ho, rfl⟩ := h
    simpa using ho

theorem obsoletes_of_dist {r : Str} {d : Option (List Str)} (h : W.distOf s r = some d) :
    d = (s.fs.read (.asset r .distribution)).bind W.E.parseDist := by
  unfold World.distOf at h
  cases hx : s.fs.read (.asset r .distribution) with
  | none => rw [hx] at h; simp only [Option.some.injEq] at h; subst h; rfl
  | some c =>
    rw [hx] at h; simp only [Option.map_eq_some_iff] at h
    obtain ⟨o, ho, rfl⟩ := h
    simpa using ho.symm

theorem map_docPkg_id (s : St) (r : Str) (l : List Str) : (l.map (W.docPkg s r)).map DocPkg.id = l := by
  rw [List.map_map]; exact List.map_id' l

theorem carries_of {p : Content → ParsedAsset} {r : Str} {a : Asset} (h : (elementsOf p s r a).isSome = true) :
    Carries p (s.fs.read (.asset r a)) ((elementsOf p s r a).getD []) := by
  unfold elementsOf at h ⊢
  cases hr : s.fs.read (.asset r a) with
  | none => rfl
  | some c =>
    rw [hr] at h
    cases hc : p c with
    | good l => simp [Carries, hc]
    | bad => simp [hc] at h
    | crash => simp [hc] at h

theorem elements_iff {p : Content → ParsedAsset} {r : Str} {a : Asset} : (elementsOf p s r a).isSome = true ↔
    ∀ c, s.fs.read (.asset r a) = some c → ∃ l, p c = .good l := by
  unfold elementsOf
  cases hr : s.fs.read (.asset r a) with
  | none => simp
  | some c => cases hc : p c <;> simp [hc]

theorem World.Fresh.correct (ok : W.OK) (h : Inv W s) {r : Str} (hf : W.Fresh s r) :
    ∃ doc, s.fs.idx r = some doc ∧ IndexCorrect W s r doc ∧ IndexDeltas W s r doc := by
  obtain ⟨d, hd, hco, hx⟩ := hf
  refine ⟨_, hx, ⟨obsoletes_of_dist hd, carries_of (Bool.and_eq_true _ _ ▸ hco).1, carries_of (Bool.and_eq_true _ _ ▸ hco).2, ?_, ⟨d.getD [], obsolete_of_dist hd, ?_, ?_⟩, ?_⟩, ?_⟩
  · show SortedS ((List.map _ _).map DocPkg.id)
    rw [map_docPkg_id]; exact sorted_docIds r _
  · show ((List.map _ _).map DocPkg.id).Nodup
    rw [map_docPkg_id]; exact nodup_docIds h r _
  · intro id
    show id ∈ (List.map _ _).map DocPkg.id ↔ _
    rw [map_docPkg_id]; exact mem_docIds h r _ id
  · intro p hp
    obtain ⟨id, hid, rfl⟩ := List.mem_map.1 hp
    obtain ⟨n, ht, _⟩ := (mem_docIds h r _ id).1 hid
    obtain ⟨e, hg, hin⟩ := h.tip_lists ht
    obtain ⟨_, _, _, _, _, h6⟩ := (h.served ok (fun _ => True)).ent r n e trivial hg
    obtain ⟨_, _, _, _, c, hc, _, hrr⟩ := h6 id hin
    refine ⟨c, _, hc, hrr, ?_, rfl, rfl, rfl, rfl, rfl⟩
    show mkURI ((W.compOf id).getD []) id = _
    rw [hc]; rfl
  · intro p hp x
    obtain ⟨id, hid, rfl⟩ := List.mem_map.1 hp
    obtain ⟨n, ht, _⟩ := (mem_docIds h r _ id).1 hid
    have hn := h.lists_name (h.tip_lists ht)
    obtain ⟨e, hg, _⟩ := ht
    have hg' : (s.db.ents r).get (W.mOf id).name = some e := by
      rw [show (W.mOf id).name = n from hn]; exact hg
    show x ∈ (match (s.db.ents r).get (W.mOf id).name with
      | some e => W.docDeltas s e (W.mOf id).rel
      | none => []) ↔ _
    rw [hg']
    simp only [World.docDeltas, List.mem_filterMap]
    constructor
    · rintro ⟨dd, hdd, hm⟩
      cases hpg : s.db.pool.get dd with
      | none => rw [hpg] at hm; cases hm
      | some pe =>
        rw [hpg] at hm
        cases hdi : pe.delta with
        | none => simp only [hdi] at hm; cases hm
        | some di =>
          simp only [hdi] at hm
          split at hm
          · rename_i hrel
            refine ⟨dd, pe, di, ⟨n, e, hg, hdd⟩, ?_, hpg, hdi, hrel, ?_⟩
            · exact (((h.ent r n e hg).deltas dd hdd).2.2).trans hn.symm
            · simpa [World.stamped, mkURI, dirOf, World.compOf, sourceOf] using hm.symm
          · cases hm
    · rintro ⟨dd, pe, di, ⟨n', e', hg2, hdd⟩, hnm, hpg, hdi, hrel, rfl⟩
      have h1 := ((h.ent r n' e' hg2).deltas dd hdd).2.2
      have : n' = n := h1.symm.trans (hnm.trans hn)
      subst this
      rw [hg] at hg2; cases hg2
      refine ⟨dd, hdd, ?_⟩
      simp only [hpg, hdi]
      refine (if_pos hrel).trans ?_
      rfl

theorem indexable_iff (W : World) (t : St) (r : Str) (k : Nat) :
    W.Indexable t r k ↔ AssetsParse W t r ∧ W.E.indexIO k = .ok := by
  constructor
  · rintro ⟨h1, h2, h3⟩
    refine ⟨⟨?_, ?_, ?_⟩, h3⟩
    · intro c hc
      unfold World.distOf at h1; rw [hc] at h1
      cases hp : W.E.parseDist c with
      | none => simp [hp] at h1
      | some o => exact ⟨o, rfl⟩
    · unfold World.compsOk at h2; rw [Bool.and_eq_true] at h2; exact elements_iff.1 h2.1
    · unfold World.compsOk at h2; rw [Bool.and_eq_true] at h2; exact elements_iff.1 h2.2
  · rintro ⟨⟨h1, h2, h3⟩, h4⟩
    refine ⟨?_, ?_, h4⟩
    · unfold World.distOf
      cases hd : t.fs.read (.asset r .distribution) with
      | none => rfl
      | some c => obtain ⟨o, ho⟩ := h1 c hd; simp [ho]
    · unfold World.compsOk
      rw [Bool.and_eq_true]
      exact ⟨elements_iff.2 h2, elements_iff.2 h3⟩

theorem canIndex_iff (W : World) (s : St) (r : Str) :
    W.CanIndex s r ↔ AssetsParse W s r ∧ W.E.indexIO s.clock = .ok := by
  rw [← indexable_iff]
  exact ⟨fun h => ⟨h.1, h.2.1, h.2.2⟩, fun h => ⟨h.dist, h.comps, h.io⟩⟩

end Ferryd
