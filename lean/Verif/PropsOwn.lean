import Verif.PropsRough
/-!
# PropsOwn: the deltas an index advertises, whatever the uploaded metadata says (C122)

Everything here is about arbitrary environments and arbitrary states: no invariant, no assumption on the packages.
-/
namespace Ferryd

/-- The repository holds a delta that upgrades the package with metadata `m` from some older release, and the index line
`x` describes it: the delta is listed under the package's name, leads to the package's release, and `x` gives the release
it starts from and the location, size and hash the pool recorded for it. -/
def Upgrades (s : St) (r : Str) (m : Meta) (x : DocDelta) : Prop :=
  ∃ e d pd di, (s.db.ents r).get m.name = some e ∧ d ∈ e.deltas ∧ s.db.pool.get d = some pd ∧ pd.delta = some di ∧
    (∃ u l, m.history = u :: l ∧ di.toRelease = u.release) ∧
    x = ⟨di.fromRelease, pd.pkg.uri, pd.pkg.size, pd.pkg.hash⟩

section
variable {E : Env} {s : St}

theorem getRelease_post (m : Meta) : Post (getRelease m) s (fun n t => t = s ∧ ∃ u l, m.history = u :: l ∧ n = u.release) := by
  unfold getRelease
  cases h : m.history with
  | nil => exact ⟨fun _ h => by cases h⟩
  | cons u l => exact Post.pure ⟨rfl, u, l, rfl, rfl⟩

theorem poolGet_post (id : Str) : Post (poolGet id) s (fun e t => t = s ∧ s.db.pool.get id = some e) := by
  refine Post.bind (P := fun o t => t = s ∧ o = s.db.pool.get id) ⟨fun o ho => ⟨rfl, ?_⟩⟩ fun o t h => ?_
  · have : (poolGet? id s).res = .ok (s.db.pool.get id) := rfl
    rw [this] at ho; cases ho; rfl
  · obtain ⟨rfl, rfl⟩ := h
    cases hg : t.db.pool.get id with
    | none => exact Post.throw
    | some e => exact Post.pure ⟨rfl, rfl⟩

/-- Collecting from a loop that only reads. -/
theorem collectL_post {γ δ : Type} {l : List γ} {f : γ → M (List δ)} {Q : γ → List δ → Prop}
    (h : ∀ x ∈ l, Post (f x) s (fun o t => t = s ∧ Q x o)) :
    Post (collectL l f) s (fun o t => t = s ∧ (∀ y ∈ o, ∃ x ∈ l, ∃ p, Q x p ∧ y ∈ p) ∧ ∀ x ∈ l, ∃ p, Q x p ∧ ∀ y ∈ p, y ∈ o) := by
  induction l with
  | nil => exact Post.pure ⟨rfl, by simp, by simp⟩
  | cons a l ih =>
    refine (h a (by simp)).bind fun o t ht => ?_
    obtain ⟨rfl, hq⟩ := ht
    refine (ih fun x hx => h x (by simp [hx])).bind fun o' t' ht' => ?_
    obtain ⟨rfl, h1, h2⟩ := ht'
    refine Post.pure ⟨rfl, fun y hy => ?_, fun x hx => ?_⟩
    · rcases List.mem_append.1 hy with hy | hy
      · exact ⟨a, by simp, o, hq, hy⟩
      · obtain ⟨x, hx, p, hp, hyp⟩ := h1 y hy
        exact ⟨x, by simp [hx], p, hp, hyp⟩
    · rcases List.mem_cons.1 hx with rfl | hx
      · exact ⟨o, hq, fun y hy => List.mem_append.2 (.inl hy)⟩
      · obtain ⟨p, hp, hs⟩ := h2 x hx
        exact ⟨p, hp, fun y hy => List.mem_append.2 (.inr (hs y hy))⟩

theorem pushDeltas_post (r : Str) (pe : PoolEntry) :
    Post (pushDeltas r pe) s (fun ds t => t = s ∧ ∀ x, x ∈ ds ↔ Upgrades s r pe.pkg x) := by
  refine (repoGet_post r pe.pkg.name).bind fun e t ht => ?_
  obtain ⟨rfl, he⟩ := ht
  refine Post.mono (collectL_post (Q := fun d o => ∃ pd di u l, t.db.pool.get d = some pd ∧ pd.delta = some di ∧
    pe.pkg.history = u :: l ∧ o = if di.toRelease ≠ u.release then [] else
      [⟨di.fromRelease, pd.pkg.uri, pd.pkg.size, pd.pkg.hash⟩]) fun d hd => ?_) ?_
  · refine (poolGet_post d).bind fun pd t' ht' => ?_
    obtain ⟨rfl, hpd⟩ := ht'
    cases hdi : pd.delta with
    | none => exact Post.throw
    | some di =>
      refine (getRelease_post pe.pkg).bind fun n t'' ht'' => ?_
      obtain ⟨rfl, u, l, hu, rfl⟩ := ht''
      split
      · rename_i h; exact Post.pure ⟨rfl, pd, di, u, l, hpd, hdi, hu, by rw [if_pos h]⟩
      · rename_i h; exact Post.pure ⟨rfl, pd, di, u, l, hpd, hdi, hu, by rw [if_neg h]⟩
  · rintro ds t' ⟨rfl, h1, h2⟩
    refine ⟨rfl, fun x => ⟨fun hx => ?_, ?_⟩⟩
    · obtain ⟨d, hd, p, ⟨pd, di, u, l, hpd, hdi, hu, rfl⟩, hxp⟩ := h1 x hx
      split at hxp
      · cases hxp
      · rename_i h
        exact ⟨e, d, pd, di, he, hd, hpd, hdi, ⟨u, l, hu, Classical.not_not.1 h⟩, by simpa using hxp⟩
    · rintro ⟨e', d, pd, di, he', hd, hpd, hdi, ⟨u, l, hu, hr⟩, rfl⟩
      rw [he] at he'; cases he'
      obtain ⟨p, ⟨pd', di', u', l', hpd', hdi', hu', rfl⟩, hp⟩ := h2 d hd
      rw [hpd] at hpd'; cases hpd'
      rw [hdi] at hdi'; cases hdi'
      rw [hu] at hu'; cases hu'
      exact hp _ (by rw [if_neg (by simp [hr])]; simp)

/-- What C122 says of one index line: its deltas are the ones the repository holds; when there are none, those that came
with the package. -/
def LineDeltas (s : St) (r : Str) (p : DocPkg) : Prop :=
  (∀ x, Upgrades s r p.pkg x → x ∈ p.deltas) ∧
  ∀ x ∈ p.deltas, Upgrades s r p.pkg x ∨ (x ∈ p.pkg.own ∧ ∀ y, ¬ Upgrades s r p.pkg y)

theorem emitPackage_post (r : Str) (dist : Option (List Str)) (pe : PoolEntry) :
    Post (emitPackage r dist pe) s (fun o t => t = s ∧ ∀ p ∈ o, p.pkg = pe.pkg ∧ LineDeltas s r p) := by
  unfold emitPackage
  split
  · exact Post.pure ⟨rfl, by simp⟩
  · refine (pushDeltas_post r pe).bind fun ds t ht => ?_
    obtain ⟨rfl, hds⟩ := ht
    refine Post.pure ⟨rfl, fun p hp => ?_⟩
    cases List.mem_singleton.1 hp
    refine ⟨rfl, fun x hx => ?_, fun x hx => ?_⟩
    · have := (hds x).2 hx
      rw [if_neg (List.ne_nil_of_mem this)]; exact this
    · dsimp only at hx ⊢
      split at hx
      · rename_i h0
        refine .inr ⟨hx, fun y hy => ?_⟩
        have := (hds y).2 hy
        rw [h0] at this; cases this
      · exact .inl ((hds x).1 hx)

theorem emitIndex_post (r : Str) (dist : Option (List Str)) :
    Post (emitIndex E r dist) s (fun d t => t = s ∧ ∀ p ∈ d.packages, (∃ id pe, s.db.pool.get id = some pe ∧ p.pkg = pe.pkg) ∧
      LineDeltas s r p) := by
  refine (repoEntries_reads r).post.bind fun es t ht => ?_
  subst ht
  refine Post.bind (collectL_post (Q := fun id o => ∀ p ∈ o, (∃ pe, t.db.pool.get id = some pe ∧ p.pkg = pe.pkg) ∧ LineDeltas t r p)
    fun id _ => ?_) fun pkgs t' ht' => ?_
  · refine (poolGet_post id).bind fun pe u hu => ?_
    obtain ⟨rfl, hpe⟩ := hu
    refine Post.mono (emitPackage_post r dist pe) ?_
    rintro o u' ⟨rfl, h⟩
    exact ⟨rfl, fun p hp => ⟨⟨pe, hpe, (h p hp).1⟩, (h p hp).2⟩⟩
  · obtain ⟨rfl, h1, _⟩ := ht'
    refine (emitAsset_reads _ _ _).post.bind fun c u hu => ?_
    subst hu
    refine (emitAsset_reads _ _ _).post.bind fun g u' hu' => ?_
    subst hu'
    refine Post.pure ⟨rfl, fun p hp => ?_⟩
    obtain ⟨id, _, o, ho, hpo⟩ := h1 p hp
    obtain ⟨⟨pe, h2, h3⟩, h4⟩ := ho p hpo
    exact ⟨⟨id, pe, h2, h3⟩, h4⟩

/-- The published index of a repository, in terms of the daemon's own tables. -/
def Published (t : St) (r : Str) : Prop :=
  ∃ doc, t.fs.idx r = some doc ∧ ∀ p ∈ doc.packages, (∃ id pe, t.db.pool.get id = some pe ∧ p.pkg = pe.pkg) ∧ LineDeltas t r p

theorem mIndex_published (r : Str) : Post (mIndex E r) s (fun _ t => Published t r) := by
  refine Post.bind (P := fun _ _ => True) ⟨fun _ _ => trivial⟩ fun _ s1 _ => ?_
  refine (initDistribution_reads _ _).post.bind fun d t ht => ?_
  subst ht
  refine (emitIndex_post r d).bind fun doc t' ht' => ?_
  obtain ⟨rfl, hdoc⟩ := ht'
  refine Post.bind (P := fun a u => u = t' ∧ a = t') ⟨fun a ha => ⟨rfl, by cases ha; rfl⟩⟩ fun a u hu => ?_
  obtain ⟨rfl, rfl⟩ := hu
  refine Post.bind (P := fun _ v => v.db = a.db) ⟨fun _ _ => rfl⟩ fun _ v hv => ?_
  cases E.indexIO a.clock with
  | failBefore => exact Post.throw
  | failAfter => exact Post.bind (P := fun _ _ => True) ⟨fun _ _ => trivial⟩ fun _ _ _ => Post.throw
  | ok =>
    refine ⟨fun _ _ => ⟨doc, by simp [stepM, St.setFs], ?_⟩⟩
    have : (stepM (fun s => s.setFs { s.fs with idx := fun r' => if r' = r then some doc else s.fs.idx r' }) v).st.db = a.db := hv
    unfold LineDeltas Upgrades
    rw [this]
    exact hdoc

/-- Every job that publishes a repository ends by indexing it. -/
theorem Op.published (o : Op) {r : Str} (hp : o.publishes = some r) : Post (o.run E) s (fun _ t => Published t r) := by
  have tr : ∀ {α : Type} (m : M α) (s : St), Post m s (fun _ _ => True) := fun m s => ⟨fun _ _ => trivial⟩
  cases o <;> simp only [Op.publishes, Option.some.injEq, reduceCtorEq] at hp <;> subst hp <;> simp only [Op.run]
  case create r => exact (tr _ _).bind fun _ _ _ => mIndex_published r
  case clone a r f => exact (tr _ _).bind fun _ _ _ => (tr _ _).bind fun _ _ _ => (tr _ _).bind fun _ _ _ => mIndex_published r
  case pull a r =>
    refine Post.bind (P := fun _ t => Published t r) ?_ fun _ _ h => Post.pure h
    exact (tr _ _).bind fun _ _ _ => (tr _ _).bind fun _ _ _ => (tr _ _).bind fun _ _ _ => (mIndex_published r).bind fun _ _ h => Post.pure h
  case removeSource r n k => exact (tr _ _).bind fun _ _ _ => (tr _ _).bind fun _ _ _ => mIndex_published r
  case trimObsolete r => exact (tr _ _).bind fun _ _ _ => (tr _ _).bind fun _ _ _ => mIndex_published r
  case trimPackages r k => exact (tr _ _).bind fun _ _ _ => (tr _ _).bind fun _ _ _ => mIndex_published r
  case addPackages r fs st => exact (tr _ _).bind fun _ _ _ => (tr _ _).bind fun _ _ _ => mIndex_published r
  case index r => exact mIndex_published r

end

/-- C122 at full strength: after every history and every job that publishes a repository and reports success, every
delta the index advertises for a package is one the repository holds, leading to that package's release. -/
def C122_statement : Prop := ∀ (E : Env) (ops : List Op) (o : Op) (r : Str), o.publishes = some r →
  (o.run E (runAll E St.init ops)).res = .ok () → ∀ doc, (o.exec E (runAll E St.init ops)).fs.idx r = some doc →
  ∀ p ∈ doc.packages, ∀ x ∈ p.deltas, Upgrades (o.exec E (runAll E St.init ops)) r p.pkg x

/-- C122, the part that holds (for every environment, every package whatever its metadata says and every state, reachable
or not): the index advertises every applicable delta of the repository; and what it advertises is an applicable delta of
the repository, unless the repository has none for the package and the line was already in the package's own metadata.
What is missing: those lines are published without any check. -/
theorem C122_deltas_partial (E : Env) (s : St) (o : Op) {r : Str} (hp : o.publishes = some r)
    (hres : (o.run E s).res = .ok ()) : ∃ doc, (o.exec E s).fs.idx r = some doc ∧ ∀ p ∈ doc.packages,
    (∀ x, Upgrades (o.exec E s) r p.pkg x → x ∈ p.deltas) ∧
    ∀ x ∈ p.deltas, Upgrades (o.exec E s) r p.pkg x ∨ (x ∈ p.pkg.own ∧ ∀ y, ¬ Upgrades (o.exec E s) r p.pkg y) := by
  obtain ⟨doc, h1, h2⟩ := ((o.published hp).run () hres : Published (o.exec E s) r)
  exact ⟨doc, h1, fun p hp => (h2 p hp).2⟩

/-- C122, the case of packages that bring no delta list of their own (what the packaging tools produce): exactly the
repository's applicable deltas are advertised. -/
theorem C122_clean_packages_partial (E : Env) (s : St) (o : Op) {r : Str} (hp : o.publishes = some r)
    (hres : (o.run E s).res = .ok ()) (hclean : ∀ id pe, (o.exec E s).db.pool.get id = some pe → pe.pkg.own = []) :
    ∃ doc, (o.exec E s).fs.idx r = some doc ∧ ∀ p ∈ doc.packages, ∀ x, x ∈ p.deltas ↔ Upgrades (o.exec E s) r p.pkg x := by
  obtain ⟨doc, h1, h2⟩ := ((o.published hp).run () hres : Published (o.exec E s) r)
  refine ⟨doc, h1, fun p hp x => ⟨fun hx => ?_, (h2 p hp).2.1 x⟩⟩
  rcases (h2 p hp).2.2 x hx with h | ⟨h, _⟩
  · exact h
  · obtain ⟨⟨id, pe, hg, he⟩, _⟩ := h2 p hp
    rw [he, hclean id pe hg] at h; cases h

namespace Demo

/-- A package whose metadata.xml lists a delta of its own. -/
def ownLine : DocDelta := ⟨1, S "elsewhere/q.delta.eopkg", 7, S "0"⟩

/-- The demo environment, with one file more: byte 50 is a package that brings `ownLine`. -/
def Eown : Env := { E with parse := fun c => if c = [50] then .good { mk "q" "q" 1 with own := [ownLine] } else E.parse c }

def opsOwn : List Op := [.upload (S "/up/q-1.eopkg") [50], .create (S "unstable")]
def addOwn : Op := .addPackages (S "unstable") [S "/up/q-1.eopkg"] false

end Demo

/-- C122 is false of the code: a package whose metadata.xml carries a DeltaPackages section gets that section published in
the index, although the repository has never seen such a delta. -/
theorem C122_violated : ¬ C122_statement := by
  intro h
  have hd : ((Demo.addOwn.exec Demo.Eown (runAll Demo.Eown St.init Demo.opsOwn)).fs.idx (Demo.S "unstable")).map Doc.packages =
      some [⟨Demo.S "q-1.eopkg", { Demo.mk "q" "q" 1 with
        own := [Demo.ownLine], hash := Demo.S "2", size := 1, uri := Demo.S "q/q/q-1.eopkg" }, [Demo.ownLine]⟩] := by decide +kernel
  obtain ⟨doc, h1, h2⟩ := Option.map_eq_some_iff.1 hd
  have hu := h Demo.Eown Demo.opsOwn Demo.addOwn (Demo.S "unstable") rfl (by decide +kernel) doc h1
  rw [h2] at hu
  obtain ⟨e, d, pd, di, he, hmem, _⟩ := hu _ (List.mem_singleton.2 rfl) Demo.ownLine (by simp)
  have h0 : ((Demo.addOwn.exec Demo.Eown (runAll Demo.Eown St.init Demo.opsOwn)).db.ents (Demo.S "unstable")).all
      (fun e => e.2.deltas.isEmpty) = true := by decide +kernel
  rw [List.all_eq_true] at h0
  have := h0 _ (KV.mem_of_get he)
  rw [List.isEmpty_iff] at this
  rw [this] at hmem; cases hmem

/-- The hypotheses of `C122_deltas_partial` and `C122_clean_packages_partial` are met by an index run of a repository that holds a delta, which is
advertised. -/
example : (Op.index (Demo.S "unstable")).publishes = some (Demo.S "unstable") ∧
    ((Op.index (Demo.S "unstable")).run Demo.E Demo.st5).res = .ok () ∧
    ((((Op.index (Demo.S "unstable")).exec Demo.E Demo.st5).fs.idx (Demo.S "unstable")).map
      fun d => d.packages.map fun p => p.deltas.length) = some [1, 0] ∧
    ((Op.index (Demo.S "unstable")).exec Demo.E Demo.st5).db.pool.all (fun x => x.2.pkg.own.isEmpty) = true := by decide +kernel

end Ferryd
