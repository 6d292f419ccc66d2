import Verif.Layout
import Verif.CoreJobs2
/-!
# PropsLayout: C64 (package directories), C65 (bulk import), C66 (cleaning up), C81 (repository directories)
-/
namespace Ferryd.Layout
open Ferryd.Paths

/-! ## Specification -/

namespace Spec
/-- The directory of the sources with this first letter: four letters for `lib...`, otherwise one. -/
def letterDir (name : Str) : Str :=
  if ['l', 'i', 'b'] <+: name ∧ 4 ≤ name.length then name.take 4 else name.take 1

/-- `p` lies strictly below the directory `d`: the names in between are proper ones. -/
def StrictlyBelow (d p : List Str) : Prop := ∃ e, e ≠ [] ∧ (∀ c ∈ e, Normal c) ∧ p = d ++ e
end Spec
open Spec

/-! ## C64 -/

theorem lowerS_normal {s : Str} (h : '/' ∉ s) : '/' ∉ lowerS s := by
  intro hm
  obtain ⟨c, hc, he⟩ := List.mem_map.mp hm
  unfold lowerC at he
  split at he
  · rename_i hr
    have h1 : 65 ≤ c.toNat := hr.1
    have h2 : c.toNat ≤ 90 := hr.2
    have : ∀ n : Fin 26, Char.ofNat (65 + n.val + 32) ≠ '/' := by decide
    have := this ⟨c.toNat - 65, by omega⟩
    rw [show 65 + (c.toNat - 65) + 32 = c.toNat + 32 by omega] at this
    exact this he
  · subst he; exact h hc

theorem lowerC_dot {c : Char} (h : lowerC c = '.') : c = '.' := by
  unfold lowerC at h
  split at h
  · rename_i hr
    have h1 : 65 ≤ c.toNat := hr.1
    have h2 : c.toNat ≤ 90 := hr.2
    have : ∀ n : Fin 26, Char.ofNat (65 + n.val + 32) ≠ '.' := by decide
    have := this ⟨c.toNat - 65, by omega⟩
    rw [show 65 + (c.toNat - 65) + 32 = c.toNat + 32 by omega] at this
    exact absurd h this
  · exact h

/-- `Join` of two proper names. -/
theorem join_normal {a b : Str} (ha : Normal a) (hb : Normal b) : join a b = a ++ '/' :: b := by
  unfold join
  rw [if_neg ha.1, if_neg hb.1]
  have habs : isAbs (a ++ '/' :: b) = false := by
    cases a with
    | nil => exact absurd rfl ha.1
    | cons c cs =>
      have : c ≠ '/' := by rintro rfl; exact ha.2.2.2 (by simp)
      simp [isAbs, this]
  have hs : splitC (a ++ '/' :: b) = [a, b] := by
    rw [splitC_append, splitC_single ha.2.2.2, splitC_single hb.2.2.2]; rfl
  have hk := cleanL_keep false [a, b] [] [] (by simp [ha, hb])
  have hcl : cleanL false [] [a, b] = [a, b] := by simpa [cleanL] using hk
  unfold clean
  rw [habs, hs, hcl]
  have : joinS [a, b] = a ++ '/' :: b := rfl
  rw [this]
  simp

theorem take_normal {s : Str} {k : Nat} (hs : Normal s) (hd : s.head? ≠ some '.') (hk : 0 < k) : Normal (s.take k) := by
  obtain ⟨h1, h2, h3, h4⟩ := hs
  cases s with
  | nil => exact absurd rfl h1
  | cons c cs =>
    have hc : c ≠ '.' := by rintro rfl; exact hd rfl
    obtain ⟨k, rfl⟩ : ∃ j, k = j + 1 := ⟨k - 1, by omega⟩
    refine ⟨by simp, ?_, ?_, ?_⟩
    · intro h; simp [dot] at h; exact hc h.1
    · intro h; simp [dotdot] at h; exact hc h.1
    · intro h; exact h4 (List.mem_of_mem_take h)

theorem lowerS_head {s : Str} (h : s.head? ≠ some '.') : (lowerS s).head? ≠ some '.' := by
  cases s with
  | nil => simp [lowerS]
  | cons c cs =>
    intro he
    simp [lowerS] at he
    exact h (by simp [lowerC_dot he])

theorem lowerS_Normal {s : Str} (h : Normal s) (hd : s.head? ≠ some '.') : Normal (lowerS s) := by
  have hl := lowerS_head hd
  refine ⟨by simpa [lowerS] using h.1, ?_, ?_, lowerS_normal h.2.2.2⟩
  · intro he; rw [he] at hl; exact hl rfl
  · intro he; rw [he] at hl; exact hl rfl

/-- C64: every source whose name is a proper file name that does not begin with a dot lives in
`<letters>/<source>`, in lower case. -/
theorem C64_layout {source : Str} (h : Normal source) (hd : source.head? ≠ some '.') :
    pathComponent source = some (letterDir (lowerS source) ++ '/' :: lowerS source) := by
  have hn := lowerS_Normal h hd
  have hl := lowerS_head hd
  unfold pathComponent letterDir libS
  simp only [if_neg hn.1]
  by_cases hc : ['l', 'i', 'b'] <+: lowerS source ∧ 3 < (lowerS source).length
  · rw [if_pos hc, if_pos ⟨hc.1, by omega⟩, join_normal (take_normal hn hl (by omega)) hn]
  · rw [if_neg hc, if_neg (by intro h'; exact hc ⟨h'.1, by omega⟩), join_normal (take_normal hn hl (by omega)) hn]

example : Normal ['L', 'i', 'b', 'X', '1', '1'] ∧ pathComponent ['L', 'i', 'b', 'X', '1', '1'] =
    some ['l', 'i', 'b', 'x', '/', 'l', 'i', 'b', 'x', '1', '1'] := by decide +kernel

/-- The function used in the model of the core is this one. -/
theorem C64_core_model {source : Str} (h : Normal source) (hd : source.head? ≠ some '.') :
    pathComponent source = pathComp? source := by
  rw [C64_layout h hd]
  have hn := lowerS_Normal h hd
  unfold pathComp?
  split
  · rename_i he; exact absurd he hn.1
  · rename_i c rest he
    rw [he, letterDir, if_pos ⟨⟨c :: rest, rfl⟩, by simp⟩]; rfl
  · rename_i c rest hne he
    rw [he, letterDir, if_neg]
    · rfl
    · rintro ⟨⟨t, ht⟩, hlen⟩
      cases t with
      | nil => rw [← ht] at hlen; simp at hlen
      | cons d t => simp at ht; exact hne d t ht.1.symm ht.2.symm

/-- C64: the files of such a source are exactly two directories below the pool (or the repository), whichever way the
path is put together. -/
theorem C64_inside {bs : List Str} (hb : ∀ c ∈ bs, Normal c) {source comp file : Str} (h : Normal source)
    (hd : source.head? ≠ some '.') (hc : pathComponent source = some comp) (hf : Normal file) :
    packagePath (rooted bs) comp file = rooted (bs ++ [letterDir (lowerS source), lowerS source, file]) ∧
    packagePath3 (rooted bs) comp file = rooted (bs ++ [letterDir (lowerS source), lowerS source, file]) ∧
    StrictlyBelow bs (bs ++ [letterDir (lowerS source), lowerS source, file]) := by
  rw [C64_layout h hd] at hc
  cases hc
  have hn := lowerS_Normal h hd
  have hl : Normal (letterDir (lowerS source)) := by
    unfold letterDir
    split
    · exact take_normal hn (lowerS_head hd) (by omega)
    · exact take_normal hn (lowerS_head hd) (by omega)
  generalize letterDir (lowerS source) = l at *
  generalize lowerS source = n at *
  have hs : splitC (l ++ '/' :: n) = [l, n] := by
    rw [splitC_append, splitC_single hl.2.2.2, splitC_single hn.2.2.2]; rfl
  have h2 : ∀ c ∈ bs ++ [l, n], Normal c := by
    intro c hc; simp at hc; rcases hc with hc | rfl | rfl
    · exact hb c hc
    · exact hl
    · exact hn
  have k1 := cleanL_keep true [l, n] bs.reverse [] (by simp [hl, hn])
  have j1 : join (rooted bs) (l ++ '/' :: n) = rooted (bs ++ [l, n]) := by
    rw [join_rooted hb, hs]
    have : cleanL true bs.reverse [l, n] = bs ++ [l, n] := by simpa [cleanL] using k1
    rw [this]
  refine ⟨?_, ?_, [l, n, file], by simp, by simp [hl, hn, hf], rfl⟩
  · unfold packagePath
    rw [j1, join_rooted h2, splitC_single hf.2.2.2]
    have k2 := cleanL_keep true [file] (bs ++ [l, n]).reverse [] (by simp [hf])
    have : cleanL true (bs ++ [l, n]).reverse [file] = bs ++ [l, n, file] := by simpa [cleanL] using k2
    rw [this]
  · unfold packagePath3
    rw [clean_append_slash hb]
    have hs3 : splitC ((l ++ '/' :: n) ++ '/' :: file) = [l, n, file] := by
      rw [splitC_append, hs, splitC_single hf.2.2.2]; rfl
    rw [hs3]
    have k3 := cleanL_keep true [l, n, file] bs.reverse [] (by simp [hl, hn, hf])
    have : cleanL true bs.reverse [l, n, file] = bs ++ [l, n, file] := by simpa [cleanL] using k3
    rw [this]

/-- C64: two sources share a directory only if their names differ in case alone. -/
theorem C64_separate {a b : Str} (ha : Normal a) (hb : Normal b) (hda : a.head? ≠ some '.') (hdb : b.head? ≠ some '.') :
    pathComponent a = pathComponent b ↔ lowerS a = lowerS b := by
  rw [C64_layout ha hda, C64_layout hb hdb]
  constructor
  · intro h
    have h' := congrArg splitC (Option.some.inj h)
    have na := lowerS_Normal ha hda
    have nb := lowerS_Normal hb hdb
    have lt : ∀ {s : Str}, Normal s → '/' ∉ letterDir s := by
      intro s hs hm
      unfold letterDir at hm
      split at hm <;> exact hs.2.2.2 (List.mem_of_mem_take hm)
    rw [splitC_append, splitC_append, splitC_single (lt na), splitC_single (lt nb), splitC_single na.2.2.2,
      splitC_single nb.2.2.2] at h'
    simpa using (List.cons.inj h').2
  · intro h; rw [h]

/-- The full claim, for names without slashes. -/
def C64_statement : Prop :=
  ∀ (bs : List Str) (source file comp : Str), (∀ c ∈ bs, Normal c) → '/' ∉ source → Normal file →
    pathComponent source = some comp → ∃ p, packagePath (rooted bs) comp file = rooted p ∧ StrictlyBelow bs p

/-- A package of the source `..` is put beside the pool, not into it. -/
theorem C64_violated : ¬ C64_statement := by
  intro h
  obtain ⟨p, hp, e, he, hn, rfl⟩ := h [['p']] ['.', '.'] ['f'] ['.', '.'] (by decide) (by decide) (by decide) (by decide)
  have : packagePath (rooted [['p']]) ['.', '.'] ['f'] = ['/', 'f'] := by decide +kernel
  rw [this] at hp
  cases e with
  | nil => exact he rfl
  | cons x xs => simp [rooted, joinS] at hp

/-! ## C81 -/

/-- The full claim: different repositories have their own directories, below the common one, none inside another. -/
def C81_statement : Prop :=
  ∀ (bs : List Str) (a b : Str), (∀ c ∈ bs, Normal c) → a ≠ [] → b ≠ [] → '/' ∉ a → '/' ∉ b → a ≠ b →
    ∃ p q, repoDir (rooted bs) a = rooted p ∧ repoDir (rooted bs) b = rooted q ∧ (∀ c ∈ p, Normal c) ∧
      (∀ c ∈ q, Normal c) ∧ StrictlyBelow bs p ∧ StrictlyBelow bs q ∧ ¬ p <+: q ∧ ¬ q <+: p

/-- The repository `.` has all the others inside its directory. -/
theorem C81_violated : ¬ C81_statement := by
  intro h
  obtain ⟨p, q, hp, hq, hpn, hqn, ⟨e, he, hen, rfl⟩, hqb, h1, h2⟩ :=
    h [['r']] ['.'] ['x'] (by decide) (by decide) (by decide) (by decide) (by decide) (by decide)
  have : repoDir (rooted [['r']]) ['.'] = ['/', 'r'] := by decide +kernel
  rw [this] at hp
  cases e with
  | nil => exact he rfl
  | cons x xs => simp [rooted, joinS] at hp

/-- C81, for repository names other than `.` and `..`. -/
theorem C81_repo_dirs_partial {bs : List Str} (hb : ∀ c ∈ bs, Normal c) {a b : Str} (ha : Normal a) (hb' : Normal b)
    (hne : a ≠ b) :
    repoDir (rooted bs) a = rooted (bs ++ [a]) ∧ repoDir (rooted bs) b = rooted (bs ++ [b]) ∧
      ¬ (bs ++ [a]) <+: (bs ++ [b]) ∧ ¬ (bs ++ [b]) <+: (bs ++ [a]) := by
  have one : ∀ {x : Str}, Normal x → repoDir (rooted bs) x = rooted (bs ++ [x]) := by
    intro x hx
    unfold repoDir
    rw [join_rooted hb, splitC_single hx.2.2.2]
    have k := cleanL_keep true [x] bs.reverse [] (by simp [hx])
    have : cleanL true bs.reverse [x] = bs ++ [x] := by simpa [cleanL] using k
    rw [this]
  have pre : ∀ {x y : Str}, x ≠ y → ¬ (bs ++ [x]) <+: (bs ++ [y]) := by
    intro x y hxy hp
    rw [List.prefix_append_right_inj] at hp
    obtain ⟨t, ht⟩ := hp
    simp at ht; exact hxy ht.1
  exact ⟨one ha, one hb', pre hne, pre (Ne.symm hne)⟩

example : Normal ['u', 'n', 's', 't'] ∧ Normal ['s', 't'] ∧ ['u', 'n', 's', 't'] ≠ ['s', 't'] := by decide

/-! ## C66 -/

namespace Spec
/-- What is at a path. -/
def At (t : Tree) (p : Str) (k : Kind) : Prop := (p, k) ∈ t

/-- Nothing lies right below. -/
def NothingIn (t : Tree) (p : Str) : Prop := ∀ q k, At t q k → dir q = p → q = p

/-- One thing per path. -/
def Functional (t : Tree) : Prop := ∀ p j k, At t p j → At t p k → j = k
end Spec

theorem Tree.get_some {t : Tree} {p : Str} {k : Kind} (h : t.get p = some k) : At t p k := by
  unfold Tree.get at h
  cases hf : t.find? (·.1 = p) with
  | none => rw [hf] at h; cases h
  | some e =>
    rw [hf] at h; cases h
    have h1 := List.mem_of_find?_eq_some hf
    have h2 := List.find?_some hf
    simp at h2; subst h2; exact h1

theorem Tree.get_of_at {t : Tree} (hf : Functional t) {p : Str} {k : Kind} (h : At t p k) : t.get p = some k := by
  unfold Tree.get
  cases hx : t.find? (·.1 = p) with
  | none => rw [List.find?_eq_none] at hx; have := hx _ h; simp at this
  | some e =>
    have h1 := List.mem_of_find?_eq_some hx
    have h2 := List.find?_some hx
    simp at h2
    obtain ⟨q, j⟩ := e
    simp at h2; subst h2
    rw [hf _ _ _ h1 h]; rfl

theorem Tree.children_nil {t : Tree} {p : Str} : t.children p = [] ↔ NothingIn t p := by
  unfold Tree.children NothingIn At
  rw [List.filter_eq_nil_iff]
  constructor
  · intro h q k hq hd
    have := h _ hq
    simp at this; exact this hd
  · intro h e he
    simp; intro hd; exact h e.1 e.2 he hd

theorem Tree.mem_remove {t : Tree} {p q : Str} {k : Kind} : At (t.remove p) q k ↔ At t q k ∧ q ≠ p := by
  unfold Tree.remove At; simp

/-- What the loop body does. -/
theorem removeIfEmpty_spec {t u : Tree} {p : Str} (hf : Functional t) (h : removeIfEmpty t p = some u) :
    Functional u ∧ At t p .dir ∧ (∀ q k, At u q k → At t q k) ∧
    (∀ q k, At t q k → At u q k ∨ (q = p ∧ k = .dir ∧ NothingIn t p)) ∧
    (NothingIn t p → ∀ k, ¬ At u p k) ∧ (¬ NothingIn t p → u = t) := by
  unfold removeIfEmpty at h
  split at h
  · rename_i hd
    split at h
    · rename_i he
      rw [Tree.children_nil] at he
      cases h
      refine ⟨?_, Tree.get_some hd, ?_, ?_, ?_, fun h => absurd he h⟩
      · intro q j k h1 h2
        exact hf q j k (Tree.mem_remove.mp h1).1 (Tree.mem_remove.mp h2).1
      · intro q k hq; exact (Tree.mem_remove.mp hq).1
      · intro q k hq
        by_cases hqp : q = p
        · subst hqp; right; exact ⟨rfl, hf _ _ _ hq (Tree.get_some hd), he⟩
        · left; exact Tree.mem_remove.mpr ⟨hq, hqp⟩
      · intro _ k hk; exact (Tree.mem_remove.mp hk).2 rfl
    · rename_i he
      cases h
      refine ⟨hf, Tree.get_some hd, fun _ _ h => h, fun _ _ h => .inl h, ?_, fun _ => rfl⟩
      intro he'; exact absurd (Tree.children_nil.mpr he') he
  · cases h

/-- C66: whatever is on disk, cleaning up after a package file adds nothing, and the only things it may remove are the
directory of the file, if it is empty, and the one above, if nothing else was in it. -/
theorem C66_only_empty_parents {t : Tree} (hf : Functional t) (path : Str) :
    (∀ q k, At (removePackageParents t path).1 q k → At t q k) ∧
    ∀ q k, At t q k → At (removePackageParents t path).1 q k ∨
      (k = .dir ∧ ((q = dir path ∧ NothingIn t q) ∨
        (q = dir (dir path) ∧ ∀ r j, At t r j → dir r = q → r = q ∨ (r = dir path ∧ NothingIn t r)))) := by
  unfold removePackageParents
  cases h1 : removeIfEmpty t (dir path) with
  | none => exact ⟨fun _ _ h => h, fun _ _ h => .inl h⟩
  | some t1 =>
    obtain ⟨hf1, -, hsub, hsup, hrem, hsame⟩ := removeIfEmpty_spec hf h1
    cases h2 : removeIfEmpty t1 (dir (dir path)) with
    | none =>
      simp only [h2]
      refine ⟨hsub, ?_⟩
      intro q k hq
      rcases hsup q k hq with h | ⟨rfl, rfl, he⟩
      · exact .inl h
      · exact .inr ⟨rfl, .inl ⟨rfl, he⟩⟩
    | some t2 =>
      obtain ⟨hf2, -, hsub2, hsup2, hrem2, hsame2⟩ := removeIfEmpty_spec hf1 h2
      simp only [h2]
      refine ⟨fun q k h => hsub q k (hsub2 q k h), ?_⟩
      intro q k hq
      rcases hsup q k hq with h | ⟨rfl, rfl, he⟩
      · rcases hsup2 q k h with h | ⟨rfl, rfl, he⟩
        · exact .inl h
        · refine .inr ⟨rfl, .inr ⟨rfl, ?_⟩⟩
          intro r j hr hd
          rcases hsup r j hr with h' | ⟨rfl, rfl, he'⟩
          · exact .inl (he r j h' hd)
          · exact .inr ⟨rfl, he'⟩
      · exact .inr ⟨rfl, .inl ⟨rfl, he⟩⟩

/-- C66: no file is ever removed. -/
theorem C66_files_stay {t : Tree} (hf : Functional t) (path p : Str) (h : At t p .file) :
    At (removePackageParents t path).1 p .file := by
  rcases (C66_only_empty_parents hf path).2 p _ h with h | ⟨h, _⟩
  · exact h
  · cases h

/-- C66: when it succeeds, the two directories are there only if something is in them. -/
theorem C66_no_empty_left {t : Tree} (hf : Functional t) {bs : List Str} {l n f : Str}
    (hn : ∀ c ∈ bs ++ [l, n, f], Normal c)
    (hok : (removePackageParents t (rooted (bs ++ [l, n, f]))).2 = true) :
    let u := (removePackageParents t (rooted (bs ++ [l, n, f]))).1
    (∀ k, At u (rooted (bs ++ [l, n])) k → ¬ NothingIn u (rooted (bs ++ [l, n]))) ∧
    (∀ k, At u (rooted (bs ++ [l])) k → ¬ NothingIn u (rooted (bs ++ [l]))) := by
  have d1 : dir (rooted (bs ++ [l, n, f])) = rooted (bs ++ [l, n]) := by
    have := dir_rooted (cs := bs ++ [l, n]) (c := f) (by simpa using hn)
    simpa using this
  have d2 : dir (rooted (bs ++ [l, n])) = rooted (bs ++ [l]) := by
    have := dir_rooted (cs := bs ++ [l]) (c := n) (by
      intro x hx; apply hn; simp at hx ⊢; rcases hx with h | h | h <;> simp [h])
    simpa using this
  have hne : rooted (bs ++ [l]) ≠ rooted (bs ++ [l, n]) := by
    intro he
    have e1 := clean_rooted (cs := bs ++ [l]) (by intro x hx; apply hn; simp at hx ⊢; rcases hx with h | h <;> simp [h])
    unfold rooted at he
    have he' : joinS (bs ++ [l]) = joinS (bs ++ [l, n]) := (List.cons.inj he).2
    have h3 := congrArg splitC he'
    rw [splitC_joinS _ (by simp) (by intro x hx; apply (hn x _).2.2.2; simp at hx ⊢; rcases hx with h | h <;> simp [h]),
      splitC_joinS _ (by simp) (by intro x hx; apply (hn x _).2.2.2; simp at hx ⊢; rcases hx with h | h | h <;> simp [h])] at h3
    have := congrArg List.length h3
    simp at this
  have hd2 : dir (dir (rooted (bs ++ [l, n, f]))) = rooted (bs ++ [l]) := by rw [d1, d2]
  revert hok
  unfold removePackageParents
  rw [hd2, d1]
  cases h1 : removeIfEmpty t (rooted (bs ++ [l, n])) with
  | none => intro h; cases h
  | some t1 =>
    obtain ⟨hf1, -, hsub, hsup, hrem, hsame⟩ := removeIfEmpty_spec hf h1
    simp only
    cases h2 : removeIfEmpty t1 (rooted (bs ++ [l])) with
    | none => intro h; cases h
    | some t2 =>
      intro _
      obtain ⟨hf2, -, hsub2, hsup2, hrem2, hsame2⟩ := removeIfEmpty_spec hf1 h2
      refine ⟨?_, ?_⟩
      · intro k hk he
        by_cases hte : NothingIn t (rooted (bs ++ [l, n]))
        · exact hrem hte k (hsub2 _ _ hk)
        · have e1 := hsame hte
          by_cases hte1 : NothingIn t1 (rooted (bs ++ [l]))
          · -- then the source directory, which is below, would not be there
            have := hte1 _ k (hsub2 _ _ hk) d2
            exact hne this.symm
          · have e2 := hsame2 hte1
            simp only [e2, e1] at he; exact hte he
      · intro k hk he
        by_cases hte1 : NothingIn t1 (rooted (bs ++ [l]))
        · exact hrem2 hte1 k hk
        · have e2 := hsame2 hte1
          simp only [e2] at he; exact hte1 he

namespace Demo66
/-- The last package of `nano` was just removed from the pool; `vim` still has one. -/
def tree : Tree :=
  [("/p".toList, .dir), ("/p/n".toList, .dir), ("/p/n/nano".toList, .dir), ("/p/v".toList, .dir),
   ("/p/v/vim".toList, .dir), ("/p/v/vim/x".toList, .file)]

example : removePackageParents tree "/p/n/nano/y".toList =
    ([("/p".toList, .dir), ("/p/v".toList, .dir), ("/p/v/vim".toList, .dir), ("/p/v/vim/x".toList, .file)], true) := by
  decide +kernel

example : removePackageParents tree "/p/v/vim/y".toList = (tree, true) := by decide +kernel

example : Functional tree := by
  intro p j k h1 h2
  have h : ∀ e ∈ tree, ∀ g ∈ tree, e.1 = g.1 → e.2 = g.2 := by decide +kernel
  exact h _ h1 _ h2 rfl
end Demo66

/-! ## C65 -/

namespace Spec
mutual
/-- `n` is what the names lead to. -/
inductive Leads : Node → List Str → Node → Prop
  | here (t : Node) : Leads t [] t
  | down {es : Entries} {name : Str} {t n : Node} {cs : List Str} (h : Entry es name t) (hl : Leads t cs n) :
      Leads (.dir es) (name :: cs) n
/-- The directory lists `t` under this name. -/
inductive Entry : Entries → Str → Node → Prop
  | head (name : Str) (t : Node) (es : Entries) : Entry (.cons name t es) name t
  | tail {name : Str} {t : Node} {es : Entries} (m : Str) (u : Node) (h : Entry es name t) : Entry (.cons m u es) name t
end

mutual
/-- Every directory lists proper names, each once. -/
inductive ProperTree : Node → Prop
  | file : ProperTree .file
  | broken : ProperTree .broken
  | dir {es : Entries} (h : ProperEntries es) : ProperTree (.dir es)
inductive ProperEntries : Entries → Prop
  | nil : ProperEntries .nil
  | cons {name : Str} {t : Node} {es : Entries} (hn : Normal name) (hu : ∀ u, ¬ Entry es name u) (ht : ProperTree t)
      (he : ProperEntries es) : ProperEntries (.cons name t es)
end

/-- Everything below can be read. -/
def Readable (t : Node) : Prop := ∀ cs, ¬ Leads t cs .broken

/-- A package file of the tree at `base`, by the names that lead to it. -/
def IsPackage (bs : List Str) (t : Node) (cs : List Str) : Prop :=
  Leads t cs .file ∧ ∃ pre name, bs ++ cs = pre ++ [name] ∧ "x86_64.eopkg".toList <:+ name
end Spec


theorem rooted_inj {a b : List Str} (ha : ∀ c ∈ a, Normal c) (hb : ∀ c ∈ b, Normal c) (h : rooted a = rooted b) :
    a = b := by
  have hj : joinS a = joinS b := (List.cons.inj h).2
  have key : ∀ {l : List Str}, (∀ c ∈ l, Normal c) → l ≠ [] → joinS l ≠ [] := by
    intro l hl hn he
    have h1 := splitC_joinS l hn (fun c hc => (hl c hc).2.2.2)
    rw [he] at h1
    have : l = [[]] := h1.symm
    exact (hl [] (by rw [this]; simp)).1 rfl
  by_cases ha0 : a = []
  · subst ha0
    by_cases hb0 : b = []
    · exact hb0.symm
    · exact absurd hj.symm (key hb hb0)
  · by_cases hb0 : b = []
    · subst hb0; exact absurd hj (key ha ha0)
    · rw [← splitC_joinS a ha0 (fun c hc => (ha c hc).2.2.2), ← splitC_joinS b hb0 (fun c hc => (hb c hc).2.2.2), hj]

theorem base_rooted {cs : List Str} {c : Str} (hc : Normal c) : base (rooted (cs ++ [c])) = c := by
  have h1 : rooted (cs ++ [c]) = (if cs = [] then [] else rooted cs) ++ '/' :: c := rooted_concat cs c
  unfold base
  rw [h1]
  rw [if_neg (by simp)]
  have hrev : ((if cs = [] then [] else rooted cs) ++ '/' :: c).reverse.dropWhile (· = '/') =
      ((if cs = [] then [] else rooted cs) ++ '/' :: c).reverse := by
    rw [List.reverse_append, List.reverse_cons]
    cases hr : c.reverse with
    | nil => exact absurd (by simpa using hr) hc.1
    | cons x xs =>
      have hx : x ∈ c := by rw [← List.mem_reverse, hr]; simp
      have : x ≠ '/' := by rintro rfl; exact hc.2.2.2 hx
      simp [this]
  simp only [hrev, List.reverse_reverse]
  rw [if_neg (by simp)]
  exact afterSlash_append _ _ hc.2.2.2

theorem join_rooted_normal {bs : List Str} (hb : ∀ c ∈ bs, Normal c) {n : Str} (hn : Normal n) :
    join (rooted bs) n = rooted (bs ++ [n]) := by
  rw [join_rooted hb, splitC_single hn.2.2.2]
  have k := cleanL_keep true [n] bs.reverse [] (by simp [hn])
  have : cleanL true bs.reverse [n] = bs ++ [n] := by simpa [cleanL] using k
  rw [this]

theorem Spec.Leads.nil_dir {es : Entries} {cs : List Str} {n : Node} (h : Leads (.dir es) cs n) (hn : n ≠ .dir es) :
    ∃ name u cs', cs = name :: cs' ∧ Entry es name u ∧ Leads u cs' n := by
  cases h with
  | here => exact absurd rfl hn
  | down h hl => exact ⟨_, _, _, rfl, h, hl⟩

theorem entry_cons {m : Str} {t : Node} {es : Entries} {name : Str} {u : Node} :
    Entry (.cons m t es) name u ↔ (name = m ∧ u = t) ∨ Entry es name u := by
  constructor
  · intro h
    cases h with
    | head => exact .inl ⟨rfl, rfl⟩
    | tail _ _ h => exact .inr h
  · rintro (⟨rfl, rfl⟩ | h)
    · exact .head _ _ _
    · exact .tail _ _ h

theorem leads_cons {m : Str} {t : Node} {es : Entries} {cs : List Str} {n : Node} (hn : ∀ es, n ≠ .dir es) :
    Leads (.dir (.cons m t es)) cs n ↔ (∃ cs', cs = m :: cs' ∧ Leads t cs' n) ∨ Leads (.dir es) cs n := by
  constructor
  · intro h
    obtain ⟨name, u, cs', rfl, he, hl⟩ := h.nil_dir (hn _)
    rcases entry_cons.mp he with ⟨rfl, rfl⟩ | he
    · exact .inl ⟨cs', rfl, hl⟩
    · exact .inr (.down he hl)
  · rintro (⟨cs', rfl, hl⟩ | h)
    · exact .down (.head _ _ _) hl
    · obtain ⟨name, u, cs', rfl, he, hl⟩ := h.nil_dir (hn _)
      exact .down (.tail _ _ he) hl

theorem leads_leaf {t n : Node} {cs : List Str} (ht : ∀ es, t ≠ .dir es) : Leads t cs n ↔ cs = [] ∧ n = t := by
  constructor
  · intro h
    cases h with
    | here => exact ⟨rfl, rfl⟩
    | down h hl => exact absurd rfl (ht _)
  · rintro ⟨rfl, rfl⟩; exact .here _

theorem leads_nil {cs : List Str} {n : Node} (hn : ∀ es, n ≠ .dir es) : ¬ Leads (.dir .nil) cs n := by
  intro h
  obtain ⟨name, u, cs', rfl, he, hl⟩ := h.nil_dir (hn _)
  cases he

theorem readable_cons {m : Str} {t : Node} {es : Entries} :
    Readable (.dir (.cons m t es)) ↔ Readable t ∧ Readable (.dir es) := by
  constructor
  · intro h
    exact ⟨fun cs hl => h (m :: cs) ((leads_cons (by simp)).mpr (.inl ⟨cs, rfl, hl⟩)),
      fun cs hl => h cs ((leads_cons (by simp)).mpr (.inr hl))⟩
  · rintro ⟨h1, h2⟩ cs hl
    rcases (leads_cons (by simp)).mp hl with ⟨cs', rfl, hl'⟩ | hl
    · exact h1 _ hl'
    · exact h2 _ hl

theorem isPackage_cons {bs : List Str} {m : Str} {t : Node} {es : Entries} {cs : List Str} :
    IsPackage bs (.dir (.cons m t es)) cs ↔
      (∃ cs', cs = m :: cs' ∧ IsPackage (bs ++ [m]) t cs') ∨ IsPackage bs (.dir es) cs := by
  unfold IsPackage
  rw [leads_cons (by simp)]
  constructor
  · rintro ⟨⟨cs', rfl, hl⟩ | hl, hs⟩
    · left; exact ⟨cs', rfl, hl, by simpa using hs⟩
    · right; exact ⟨hl, hs⟩
  · rintro (⟨cs', rfl, hl, hs⟩ | ⟨hl, hs⟩)
    · exact ⟨.inl ⟨cs', rfl, hl⟩, by simpa using hs⟩
    · exact ⟨.inr hl, hs⟩

/-- What the walk of a tree must give. -/
structure WalkOk (bs : List Str) (t : Node) (r : List Str × Bool) : Prop where
  ok : r.2 = true ↔ Readable t
  nodup : r.1.Nodup
  sound : ∀ p ∈ r.1, ∃ cs, p = rooted (bs ++ cs) ∧ IsPackage bs t cs ∧ ∀ c ∈ cs, Normal c
  complete : r.2 = true → ∀ cs, IsPackage bs t cs → rooted (bs ++ cs) ∈ r.1

mutual
theorem getEopkgs_ok : ∀ (t : Node), ProperTree t → ∀ (bs : List Str), (∀ c ∈ bs, Normal c) → bs ≠ [] →
    WalkOk bs t (getEopkgs (rooted bs) t)
  | .broken, _, bs, hb, hne => by
    refine ⟨?_, by simp [getEopkgs], by simp [getEopkgs], by simp [getEopkgs]⟩
    simp only [getEopkgs]
    constructor
    · intro h; cases h
    · intro h; exact absurd (.here _) (h [])
  | .file, _, bs, hb, hne => by
    obtain ⟨pre, c, rfl⟩ : ∃ pre c, bs = pre ++ [c] := ⟨bs.dropLast, bs.getLast hne, (List.dropLast_concat_getLast hne).symm⟩
    have hc : Normal c := hb c (by simp)
    have hbase : base (rooted (pre ++ [c])) = c := base_rooted hc
    have hrd : Readable .file := by
      intro cs h; obtain ⟨_, h⟩ := (leads_leaf (by simp)).mp h; cases h
    simp only [getEopkgs, hbase]
    by_cases hs : suffix <:+ c
    · rw [if_pos hs]
      refine ⟨by simp [hrd], by simp, ?_, ?_⟩
      · intro p hp
        simp at hp
        exact ⟨[], by simpa using hp, ⟨.here _, pre, c, by simp, hs⟩, by simp⟩
      · intro _ cs ⟨hl, _⟩
        obtain ⟨rfl, _⟩ := (leads_leaf (by simp)).mp hl
        simp
    · rw [if_neg hs]
      refine ⟨by simp [hrd], by simp, by simp, ?_⟩
      rintro _ cs ⟨hl, pre', name, he, hs'⟩
      obtain ⟨rfl, _⟩ := (leads_leaf (by simp)).mp hl
      simp at he
      rw [he.2] at hs
      exact absurd hs' hs
  | .dir es, hp, bs, hb, hne => by
    cases hp with
    | dir hp => exact getAll_ok es hp bs hb hne
theorem getAll_ok : ∀ (es : Entries), ProperEntries es → ∀ (bs : List Str), (∀ c ∈ bs, Normal c) → bs ≠ [] →
    WalkOk bs (.dir es) (getAll (rooted bs) es)
  | .nil, _, bs, hb, hne => by
    refine ⟨?_, by simp [getAll], by simp [getAll], ?_⟩
    · simp only [getAll, true_iff]
      intro cs h; exact leads_nil (by simp) h
    · intro _ cs ⟨h, _⟩; exact absurd h (leads_nil (by simp))
  | .cons n t es, hp, bs, hb, hne => by
    cases hp with
    | cons hn hu ht he =>
      have i1 := getEopkgs_ok t ht (bs ++ [n]) (by
        intro c hc; simp at hc; rcases hc with hc | rfl
        · exact hb c hc
        · exact hn) (by simp)
      have i2 := getAll_ok es he bs hb hne
      have hpair : ∀ p, (∃ cs, p = rooted (bs ++ [n] ++ cs) ∧ ∀ c ∈ cs, Normal c) →
          ∀ q, (∃ cs, q = rooted (bs ++ cs) ∧ IsPackage bs (.dir es) cs ∧ ∀ c ∈ cs, Normal c) → p ≠ q := by
        rintro p ⟨cs, rfl, hcs⟩ q ⟨ds, rfl, ⟨hl, _⟩, hds⟩ heq
        have := rooted_inj (by
          intro c hc; simp at hc; rcases hc with hc | rfl | hc
          · exact hb c hc
          · exact hn
          · exact hcs c hc) (by
          intro c hc; simp at hc; rcases hc with hc | hc
          · exact hb c hc
          · exact hds c hc) heq
        rw [List.append_assoc] at this
        have hds' := List.append_cancel_left this
        obtain ⟨name, u, cs', rfl, hent, _⟩ := hl.nil_dir (by simp)
        simp at hds'
        exact hu u (by rw [hds'.1]; exact hent)
      simp only [getAll, join_rooted_normal hb hn]
      rcases h1 : getEopkgs (rooted (bs ++ [n])) t with ⟨fs, ok1⟩
      rcases h2 : getAll (rooted bs) es with ⟨gs, ok2⟩
      rw [h1] at i1
      rw [h2] at i2
      have snd1 : ∀ p ∈ fs, ∃ cs, p = rooted (bs ++ cs) ∧ IsPackage bs (.dir (.cons n t es)) cs ∧ ∀ c ∈ cs, Normal c := by
        intro p hp
        obtain ⟨cs, rfl, hpk, hcs⟩ := i1.sound p hp
        refine ⟨n :: cs, by simp, isPackage_cons.mpr (.inl ⟨cs, rfl, hpk⟩), ?_⟩
        intro c hc; simp at hc; rcases hc with rfl | hc
        · exact hn
        · exact hcs c hc
      have snd2 : ∀ p ∈ gs, ∃ cs, p = rooted (bs ++ cs) ∧ IsPackage bs (.dir (.cons n t es)) cs ∧ ∀ c ∈ cs, Normal c := by
        intro p hp
        obtain ⟨cs, rfl, hpk, hcs⟩ := i2.sound p hp
        exact ⟨cs, rfl, isPackage_cons.mpr (.inr hpk), hcs⟩
      cases ok1 with
      | true =>
        refine ⟨?_, ?_, ?_, ?_⟩
        · rw [readable_cons]
          have a := i1.ok; have b := i2.ok
          simp only [] at a b ⊢
          rw [← a, ← b]; simp
        · show (fs ++ gs).Nodup
          rw [List.nodup_append]
          refine ⟨i1.nodup, i2.nodup, ?_⟩
          intro p hp q hq
          obtain ⟨cs, rfl, _, hcs⟩ := i1.sound p hp
          obtain ⟨ds, rfl, hpk, hds⟩ := i2.sound q hq
          exact hpair _ ⟨cs, rfl, hcs⟩ _ ⟨ds, rfl, hpk, hds⟩
        · intro p hp
          rcases List.mem_append.mp hp with hp | hp
          · exact snd1 p hp
          · exact snd2 p hp
        · intro hok cs hpk
          rcases isPackage_cons.mp hpk with ⟨cs', rfl, hpk'⟩ | hpk
          · have := i1.complete rfl cs' hpk'
            exact List.mem_append.mpr (.inl (by simpa using this))
          · exact List.mem_append.mpr (.inr (i2.complete hok cs hpk))
      | false =>
        refine ⟨?_, i2.nodup, snd2, by intro h; cases h⟩
        rw [readable_cons]
        have a := i1.ok
        simp only [Bool.false_eq_true, false_iff] at a ⊢
        intro h; exact a h.1
end

/-- C65, one argument: a directory all of which can be read gives every package file below it exactly once and nothing
else; otherwise there is an error. -/
theorem C65_one_tree {bs : List Str} (hb : ∀ c ∈ bs, Normal c) (hne : bs ≠ []) {t : Node} (hp : ProperTree t) :
    (Readable t → ∃ files, getEopkgs (rooted bs) t = (files, true) ∧ files.Nodup ∧
      ∀ p, p ∈ files ↔ ∃ cs, IsPackage bs t cs ∧ p = rooted (bs ++ cs)) ∧
    (¬ Readable t → (getEopkgs (rooted bs) t).2 = false) := by
  have h := getEopkgs_ok t hp bs hb hne
  constructor
  · intro hr
    have hok := h.ok.mpr hr
    refine ⟨_, Prod.ext rfl hok, h.nodup, ?_⟩
    intro p
    constructor
    · intro hpm
      obtain ⟨cs, rfl, hpk, _⟩ := h.sound p hpm
      exact ⟨cs, hpk, rfl⟩
    · rintro ⟨cs, hpk, rfl⟩; exact h.complete hok cs hpk
  · intro hr
    cases hb : (getEopkgs (rooted bs) t).2 with
    | false => rfl
    | true => exact absurd (h.ok.mp hb) hr

/-- C65: no delta package is ever picked up. -/
theorem C65_no_deltas {name : Str} (h : ".delta.eopkg".toList <:+ name) : ¬ suffix <:+ name := by
  intro h2
  obtain ⟨a, ha⟩ := h
  obtain ⟨b, hb⟩ := h2
  have : ".delta.eopkg".toList = suffix := by
    have := ha.trans hb.symm
    exact List.append_inj_right' this (by decide)
  exact absurd this (by decide)

/-- The arguments of the command: absolute paths and what is there. -/
structure Arg where
  names : List Str
  tree : Node

namespace Spec
structure Arg.Proper (a : Arg) : Prop where
  names : ∀ c ∈ a.names, Normal c
  ne : a.names ≠ []
  tree : ProperTree a.tree

/-- A file to be submitted. -/
def Submitted (args : List Arg) (p : Str) : Prop :=
  ∃ a ∈ args, ∃ cs, IsPackage a.names a.tree cs ∧ p = rooted (a.names ++ cs)
end Spec

/-- The full claim. -/
def C65_statement : Prop :=
  ∀ args : List Arg, (∀ a ∈ args, Spec.Arg.Proper a) → (∀ a ∈ args, Readable a.tree) →
    ∃ files, collect (args.map fun a => (rooted a.names, a.tree)) = some files ∧ files.Nodup ∧
      ∀ p, p ∈ files ↔ Submitted args p

/-- The same directory given twice is submitted twice. -/
theorem C65_violated : ¬ C65_statement := by
  intro h
  let t : Node := .file
  let a : Arg := ⟨["a-x86_64.eopkg".toList], t⟩
  obtain ⟨files, hf, hn, _⟩ := h [a, a] (by
    intro x hx; simp at hx; subst hx
    exact ⟨by decide +kernel, by simp [a], .file⟩) (by
    intro x hx; simp at hx; subst hx
    intro cs hl; obtain ⟨_, h⟩ := (leads_leaf (by simp [a, t])).mp hl; cases h)
  have : collect ([a, a].map fun a => (rooted a.names, a.tree)) =
    some ["/a-x86_64.eopkg".toList, "/a-x86_64.eopkg".toList] := by decide +kernel
  rw [this] at hf
  cases hf
  simp at hn

/-- C65, any arguments: every package file below any of them and nothing else; each exactly once if no argument lies
within another; and if anything cannot be read nothing is submitted. -/
theorem C65_import_partial {args : List Arg} (hp : ∀ a ∈ args, Spec.Arg.Proper a) :
    ((∀ a ∈ args, Readable a.tree) →
      ∃ files, collect (args.map fun a => (rooted a.names, a.tree)) = some files ∧ (∀ p, p ∈ files ↔ Submitted args p) ∧
        (args.Pairwise (fun a b => ¬ a.names <+: b.names ∧ ¬ b.names <+: a.names) → files.Nodup)) ∧
    ((∃ a ∈ args, ¬ Readable a.tree) → collect (args.map fun a => (rooted a.names, a.tree)) = none) := by
  induction args with
  | nil => exact ⟨fun _ => ⟨[], rfl, by simp [Submitted], by simp⟩, by simp⟩
  | cons a args ih =>
    have hpa := hp a (by simp)
    have ⟨ih1, ih2⟩ := ih (fun x hx => hp x (by simp [hx]))
    have w := getEopkgs_ok a.tree hpa.tree a.names hpa.names hpa.ne
    rcases hg : getEopkgs (rooted a.names) a.tree with ⟨fs, ok⟩
    rw [hg] at w
    have hcol : collect ((a :: args).map fun a => (rooted a.names, a.tree)) =
        match (fs, ok) with
        | (fs, true) => (collect (args.map fun a => (rooted a.names, a.tree))).map (fs ++ ·)
        | (_, false) => none := by
      simp only [List.map_cons, collect, hg]
      rfl
    rw [hcol]
    constructor
    · intro hr
      obtain ⟨gs, hgs, hmem, hnd⟩ := ih1 (fun x hx => hr x (by simp [hx]))
      have hok : ok = true := w.ok.mpr (hr a (by simp))
      subst hok
      refine ⟨fs ++ gs, by simp [hgs], ?_, ?_⟩
      · intro p
        rw [List.mem_append, hmem]
        constructor
        · rintro (h | ⟨x, hx, h⟩)
          · obtain ⟨cs, rfl, hpk, _⟩ := w.sound p h
            exact ⟨a, by simp, cs, hpk, rfl⟩
          · exact ⟨x, by simp [hx], h⟩
        · rintro ⟨x, hx, cs, hpk, rfl⟩
          rcases List.mem_cons.mp hx with rfl | hx
          · exact .inl (w.complete rfl cs hpk)
          · exact .inr ⟨x, hx, cs, hpk, rfl⟩
      · intro hpw
        rw [List.pairwise_cons] at hpw
        rw [List.nodup_append]
        refine ⟨w.nodup, hnd hpw.2, ?_⟩
        rintro p hpm q hqm rfl
        obtain ⟨cs, rfl, _, hcs⟩ := w.sound p hpm
        obtain ⟨x, hx, ds, hpk, heq⟩ := (hmem _).mp hqm
        -- the names of the other file are proper too
        have wx := getEopkgs_ok x.tree (hp x (by simp [hx])).tree x.names (hp x (by simp [hx])).names (hp x (by simp [hx])).ne
        have hxr : (getEopkgs (rooted x.names) x.tree).2 = true := wx.ok.mpr (hr x (by simp [hx]))
        obtain ⟨es, hes, _, hesn⟩ := wx.sound _ (wx.complete hxr ds hpk)
        rw [hes] at heq
        have := rooted_inj (by
          intro c hc; simp at hc; rcases hc with hc | hc
          · exact hpa.names c hc
          · exact hcs c hc) (by
          intro c hc; simp at hc; rcases hc with hc | hc
          · exact (hp x (by simp [hx])).names c hc
          · exact hesn c hc) heq
        have hpre1 : a.names <+: a.names ++ cs := ⟨cs, rfl⟩
        have hpre2 : x.names <+: a.names ++ cs := ⟨es, this.symm⟩
        rcases List.prefix_or_prefix_of_prefix hpre1 hpre2 with h | h
        · exact (hpw.1 x hx).1 h
        · exact (hpw.1 x hx).2 h
    · rintro ⟨x, hx, hnr⟩
      rcases List.mem_cons.mp hx with rfl | hx
      · have hok : ok = false := by
          cases ok with
          | false => rfl
          | true => exact absurd (w.ok.mp rfl) hnr
        subst hok; rfl
      · rw [ih2 ⟨x, hx, hnr⟩]
        cases ok <;> rfl

namespace Demo65
/-- A directory with a package, a delta, and a subdirectory with another package. -/
def tree : Node :=
  .dir (.cons "a-1-x86_64.eopkg".toList .file
    (.cons "a-1-2-x86_64.delta.eopkg".toList .file
      (.cons "sub".toList (.dir (.cons "b-1-x86_64.eopkg".toList .file .nil)) .nil)))

example : collect [("/d".toList, tree)] = some ["/d/a-1-x86_64.eopkg".toList, "/d/sub/b-1-x86_64.eopkg".toList] := by
  decide +kernel

example : ProperTree tree := by
  refine .dir (.cons (by decide) ?_ .file (.cons (by decide) ?_ .file (.cons (by decide) ?_
    (.dir (.cons (by decide) ?_ .file .nil)) .nil)))
  · intro u h; rcases entry_cons.mp h with ⟨h, _⟩ | h
    · revert h; decide
    · rcases entry_cons.mp h with ⟨h, _⟩ | h
      · revert h; decide
      · cases h
  · intro u h; rcases entry_cons.mp h with ⟨h, _⟩ | h
    · revert h; decide
    · cases h
  · intro u h; cases h
  · intro u h; cases h

example : Readable tree := by
  have leaf : Readable .file := by
    intro cs h; obtain ⟨_, h⟩ := (leads_leaf (by simp)).mp h; cases h
  have nil : Readable (.dir .nil) := fun cs h => leads_nil (by simp) h
  exact readable_cons.mpr ⟨leaf, readable_cons.mpr ⟨leaf, readable_cons.mpr ⟨readable_cons.mpr ⟨leaf, nil⟩, nil⟩⟩⟩
end Demo65

end Ferryd.Layout
