import Verif.Delta
/-!
# PropsDelta2: delta packages (C57–C60)
-/
namespace Ferryd.Delta
open Ferryd.Jobs

/-! ## Specification -/

/-- The content the package installs at `path` (slashes at the end do not matter). -/
def contentAt (tar : List TarEntry) (path : Str) : Option Content :=
  (tar.find? fun t => trimSlash t.name == trimSlash path).map TarEntry.data

/-- How a client rebuilds file `f` of the new package from the delta and the old package: the file in the delta if
it is there, else the content of some file of the old package with the same hash. -/
def rebuild (old delta : Pack) (f : File) : Option Content :=
  match contentAt delta.tar f.path with
  | some c => some c
  | none => (old.files.find? fun g => g.hash == f.hash).bind fun g => contentAt old.tar g.path

/-- A package as the build tools make it: every listed file is in the archive, a hash is the hash of the content, only
regular files have content. -/
structure Sound (sha1 : Content → Str) (p : Pack) : Prop where
  there : ∀ f ∈ p.files, ∃ c, contentAt p.tar f.path = some c ∧ (f.hash ≠ [] → sha1 c = f.hash)
  reg : ∀ t ∈ p.tar, t.reg = false → t.data = []

/-! ## C57 -/

theorem mem_diffMap {old new : List File} {k : Str} : k ∈ diffMap old new ↔
    ∃ f ∈ new, trimSlash f.path = k ∧ (f.hash = [] ∨ ∀ g ∈ old, g.hash ≠ f.hash) := by
  unfold diffMap
  rw [List.mem_eraseDups, List.mem_map]
  constructor
  · rintro ⟨f, hf, rfl⟩
    rw [List.mem_filter] at hf
    refine ⟨f, hf.1, rfl, ?_⟩
    have := hf.2
    simp only [Bool.or_eq_true, Bool.not_eq_true', beq_iff_eq] at this
    rcases this with h | h
    · right
      intro g hg e
      rw [List.contains_eq_mem] at h
      simp only [decide_eq_false_iff_not, List.mem_map, not_exists, not_and] at h
      exact h g hg e
    · exact .inl h
  · rintro ⟨f, hf, rfl, h⟩
    refine ⟨f, List.mem_filter.2 ⟨hf, ?_⟩, rfl⟩
    simp only [Bool.or_eq_true, Bool.not_eq_true', beq_iff_eq]
    rcases h with h | h
    · exact .inr h
    · left
      rw [List.contains_eq_mem]
      simp only [decide_eq_false_iff_not, List.mem_map, not_exists, not_and]
      exact h

theorem contentAt_copyInstall {dm : List Str} {tar : List TarEntry} (hreg : ∀ t ∈ tar, t.reg = false → t.data = [])
    (path : Str) : contentAt (copyInstall dm tar) path =
      if trimSlash path ∈ dm then contentAt tar path else none := by
  unfold contentAt copyInstall
  induction tar with
  | nil => simp
  | cons t ts ih =>
    have ih := ih (fun x hx => hreg x (by simp [hx]))
    have hd : ∀ x : TarEntry, x ∈ t :: ts → (if x.reg then x else { x with data := [] }) = x := by
      intro x hx
      split
      · rfl
      · rename_i h
        have := hreg x hx (by simpa using h)
        cases x; simp only at this; simp [this]
    by_cases h1 : trimSlash t.name ∈ dm
    · rw [List.filter_cons_of_pos (by simpa using h1), List.map_cons, hd t (by simp), List.find?_cons, List.find?_cons]
      by_cases h2 : trimSlash t.name = trimSlash path
      · simp only [h2, BEq.rfl]
        rw [h2] at h1
        rw [if_pos h1]
      · have : (trimSlash t.name == trimSlash path) = false := by simpa using h2
        simp only [this]; exact ih
    · rw [List.filter_cons_of_neg (by simpa using h1), ih, List.find?_cons]
      by_cases h2 : trimSlash t.name = trimSlash path
      · rw [h2] at h1; rw [if_neg h1, if_neg h1]
      · have : (trimSlash t.name == trimSlash path) = false := by simpa using h2
        simp only [this]

/-- Which delta is produced. -/
theorem produce_pack {old new d : Pack} (h : produce old new = .pack d) :
    d = { pkg := new.pkg, files := new.files, tar := d.tar, zip := copyZip new.zip } ∧
    (d.tar = copyInstall (diffMap old.files new.files) new.tar ∨
      (d.tar = [] ∧ diffMap old.files new.files = [])) ∧
    (diffMap old.files new.files).length ≠ new.files.length ∧
    isDeltaPossible old.pkg new.pkg (relOf old.pkg) (relOf new.pkg) = true := by
  unfold produce at h
  split at h
  · cases h
  · rename_i hp
    unfold produceBall at h
    simp only at h
    by_cases h1 : (diffMap old.files new.files).length = new.files.length
    · rw [if_pos h1] at h; cases h
    · rw [if_neg h1] at h
      by_cases h2 : (diffMap old.files new.files).length = 0
      · rw [if_pos h2] at h
        cases h
        exact ⟨rfl, .inr ⟨rfl, List.length_eq_zero_iff.1 h2⟩, h1, by simpa using hp⟩
      · rw [if_neg h2] at h
        cases h
        exact ⟨rfl, .inl rfl, h1, by simpa using hp⟩

/-- The content of a produced delta at a path. -/
theorem delta_content {sha1 : Content → Str} {old new d : Pack} (h : produce old new = .pack d) (hn : Sound sha1 new)
    (path : Str) : contentAt d.tar path =
      if trimSlash path ∈ diffMap old.files new.files then contentAt new.tar path else none := by
  obtain ⟨_, ht, _, _⟩ := produce_pack h
  rcases ht with ht | ⟨ht, he⟩
  · rw [ht]; exact contentAt_copyInstall hn.reg path
  · rw [ht, he]; simp [contentAt]

/-- C57: every file of the new package is either in the delta, with its content, or has a hash that the old package
already holds (and is not a directory). -/
theorem C57_covered {sha1 : Content → Str} {old new d : Pack} (h : produce old new = .pack d) (hn : Sound sha1 new)
    (f : File) (hf : f ∈ new.files) :
    (∃ c, contentAt new.tar f.path = some c ∧ contentAt d.tar f.path = some c) ∨
    (f.hash ≠ [] ∧ ∃ g ∈ old.files, g.hash = f.hash) := by
  by_cases hd : trimSlash f.path ∈ diffMap old.files new.files
  · obtain ⟨c, hc, _⟩ := hn.there f hf
    exact .inl ⟨c, hc, by rw [delta_content h hn, if_pos hd, hc]⟩
  · right
    have hd' : ¬ (f.hash = [] ∨ ∀ g ∈ old.files, g.hash ≠ f.hash) := fun hx => hd (mem_diffMap.2 ⟨f, hf, rfl, hx⟩)
    simp only [not_or, Classical.not_forall, Classical.not_not] at hd'
    obtain ⟨h1, g, hg, h2⟩ := hd'
    exact ⟨h1, g, hg, h2⟩

/-- C57: whoever has the old package rebuilds every file of the new package, byte for byte, from the delta; and the
delta carries the new package's file list and metadata.  (SHA-1 is taken to be free of collisions.) -/
theorem C57_rebuild {sha1 : Content → Str} (hinj : ∀ a b, sha1 a = sha1 b → a = b) {old new d : Pack}
    (h : produce old new = .pack d) (ho : Sound sha1 old) (hn : Sound sha1 new) :
    d.files = new.files ∧ d.pkg = new.pkg ∧ ∀ f ∈ new.files, rebuild old d f = contentAt new.tar f.path := by
  obtain ⟨hd, _, _, _⟩ := produce_pack h
  refine ⟨by rw [hd], by rw [hd], ?_⟩
  intro f hf
  unfold rebuild
  rw [delta_content h hn]
  obtain ⟨c, hc, hch⟩ := hn.there f hf
  by_cases hm : trimSlash f.path ∈ diffMap old.files new.files
  · rw [if_pos hm, hc]
  · rw [if_neg hm]
    have hd' : ¬ (f.hash = [] ∨ ∀ g ∈ old.files, g.hash ≠ f.hash) := fun hx => hm (mem_diffMap.2 ⟨f, hf, rfl, hx⟩)
    simp only [not_or, Classical.not_forall, Classical.not_not] at hd'
    obtain ⟨h1, g, hg, h2⟩ := hd'
    simp only
    cases hfind : old.files.find? fun g => g.hash == f.hash with
    | none =>
      have := List.find?_eq_none.1 hfind g hg
      simp [h2] at this
    | some g' =>
      have hg' := List.mem_of_find?_eq_some hfind
      have he : g'.hash = f.hash := by simpa using List.find?_some hfind
      obtain ⟨c', hc', hch'⟩ := ho.there g' hg'
      rw [Option.bind_some, hc', hc]
      have : sha1 c' = sha1 c := by
        rw [hch' (by rw [he]; exact h1), hch h1, he]
      rw [hinj _ _ this]

/-- C57: apart from install.tar the delta has exactly the members of the new package. -/
theorem C57_members {old new d : Pack} (h : produce old new = .pack d) (m : Str × Content) :
    m ∈ d.zip ↔ m ∈ new.zip ∧ ¬ installPrefix <+: m.1 := by
  obtain ⟨hd, _⟩ := produce_pack h
  rw [hd]
  simp only [copyZip, List.mem_filter, Bool.not_eq_true', Bool.eq_false_iff, ne_eq, List.isPrefixOf_iff_prefix]

namespace DDemo
def mk (rel : Int) : Meta := ⟨['a'], ['a'], [⟨rel, ['1']⟩], ['1'], ['x'], [], 0, [], []⟩
/-- Two releases of a package: `b` is unchanged, `c` is new content, `d` moved, `e/` is a directory. -/
def oldP : Pack := ⟨mk 1, [⟨['b'], ['1']⟩, ⟨['c'], ['2']⟩], [⟨['b'], true, [49]⟩, ⟨['c'], true, [50]⟩], [(['m'], [1])]⟩
def newP : Pack := ⟨mk 2, [⟨['b'], ['1']⟩, ⟨['c'], ['3']⟩, ⟨['d'], ['2']⟩, ⟨['e'], []⟩],
  [⟨['b'], true, [49]⟩, ⟨['c'], true, [51]⟩, ⟨['d'], true, [50]⟩, ⟨['e', '/'], false, []⟩],
  [(['m'], [2]), (installPrefix ++ ['.', 'x', 'z'], [9])]⟩
def sha (c : Content) : Str := c.map Char.ofNat
theorem sound_old : Sound sha oldP := by
  refine ⟨?_, by decide⟩
  intro f hf
  simp only [oldP, List.mem_cons, List.not_mem_nil, or_false] at hf
  rcases hf with rfl | rfl
  · exact ⟨[49], by decide⟩
  · exact ⟨[50], by decide⟩
theorem sound_new : Sound sha newP := by
  refine ⟨?_, by decide⟩
  intro f hf
  simp only [newP, List.mem_cons, List.not_mem_nil, or_false] at hf
  rcases hf with rfl | rfl | rfl | rfl
  · exact ⟨[49], by decide⟩
  · exact ⟨[51], by decide⟩
  · exact ⟨[50], by decide⟩
  · exact ⟨[], by decide⟩
end DDemo

/-- Non-vacuity of C57: the delta has the changed file and the directory, not the unchanged and the moved one. -/
example : produce DDemo.oldP DDemo.newP = .pack ⟨DDemo.mk 2, DDemo.newP.files,
    [⟨['c'], true, [51]⟩, ⟨['e', '/'], false, []⟩], [(['m'], [2])]⟩ ∧
    Sound DDemo.sha DDemo.oldP ∧ Sound DDemo.sha DDemo.newP := ⟨by decide +kernel, DDemo.sound_old, DDemo.sound_new⟩

/-! ## C58 -/

theorem eraseDups_length_le : ∀ (l : List Str), l.eraseDups.length ≤ l.length := by
  intro l
  induction h : l.length using Nat.strongRecOn generalizing l with
  | ind n ih =>
    cases l with
    | nil => simp at h ⊢
    | cons x xs =>
      rw [List.eraseDups_cons]
      simp only [List.length_cons] at h ⊢
      have hlen : (xs.filter fun b => !b == x).length ≤ xs.length := List.length_filter_le _ _
      have := ih (xs.filter fun b => !b == x).length (by omega) _ rfl
      omega

theorem eraseDups_of_nodup : ∀ {l : List Str}, l.Nodup → l.eraseDups = l := by
  intro l h
  induction l with
  | nil => rfl
  | cons x xs ih =>
    rw [List.nodup_cons] at h
    rw [List.eraseDups_cons]
    have : (xs.filter fun b => !b == x) = xs := by
      rw [List.filter_eq_self]
      intro y hy
      simp only [Bool.not_eq_true', beq_eq_false_iff_ne]
      rintro rfl; exact h.1 hy
    rw [this, ih h.2]

/-- A file must be in the delta: it is a directory or the old package lacks its content. -/
def Needed (old : Pack) (f : File) : Prop := f.hash = [] ∨ ∀ g ∈ old.files, g.hash ≠ f.hash

/-- C58: between two compatible packages, delta production is refused as pointless exactly when every file of the new
package would have to be in it (the paths of a package are distinct). -/
theorem C58_refused_iff {old new : Pack}
    (hp : isDeltaPossible old.pkg new.pkg (relOf old.pkg) (relOf new.pkg) = true)
    (hd : (new.files.map fun f => trimSlash f.path).Nodup) :
    produce old new = .pointless ↔ ∀ f ∈ new.files, Needed old f := by
  have key : (diffMap old.files new.files).length = new.files.length ↔ ∀ f ∈ new.files, Needed old f := by
    let p : File → Bool := fun f => !((old.files.map File.hash).contains f.hash) || f.hash == []
    have hpf : ∀ f, p f = true ↔ Needed old f := by
      intro f
      simp only [p, Needed, Bool.or_eq_true, Bool.not_eq_true', beq_iff_eq, List.contains_eq_mem,
        decide_eq_false_iff_not, List.mem_map, not_exists, not_and]
      exact or_comm
    have hnd : ((new.files.filter p).map fun f => trimSlash f.path).Nodup :=
      hd.sublist ((List.filter_sublist (p := p)).map _)
    have hl : (diffMap old.files new.files).length = (new.files.filter p).length := by
      show (((new.files.filter p).map fun f => trimSlash f.path).eraseDups).length = _
      rw [eraseDups_of_nodup hnd, List.length_map]
    rw [hl, List.length_filter_eq_length_iff]
    exact ⟨fun h f hf => (hpf f).1 (h f hf), fun h f hf => (hpf f).2 (h f hf)⟩
  rw [← key]
  unfold produce
  rw [hp]
  simp only [Bool.not_true, Bool.false_eq_true, if_false]
  unfold produceBall
  simp only
  by_cases h1 : (diffMap old.files new.files).length = new.files.length
  · rw [if_pos h1]; exact ⟨fun _ => h1, fun _ => rfl⟩
  · rw [if_neg h1]
    refine ⟨?_, fun h => absurd h h1⟩
    by_cases h2 : (diffMap old.files new.files).length = 0
    · rw [if_pos h2]; intro h; cases h
    · rw [if_neg h2]; intro h; cases h

/-- So a produced delta always spares at least one file of the new package. -/
theorem C58_produced_spares {old new d : Pack} (h : produce old new = .pack d)
    (hd : (new.files.map fun f => trimSlash f.path).Nodup) : ∃ f ∈ new.files, ¬ Needed old f := by
  have hp := (produce_pack h).2.2.2
  apply Classical.byContradiction
  intro hn
  have : ∀ f ∈ new.files, Needed old f := by
    intro f hf; exact Classical.byContradiction fun hx => hn ⟨f, hf, hx⟩
  rw [(C58_refused_iff hp hd).2 this] at h
  cases h

/-- Without the condition on paths the check misses packages: the code compares the number of distinct paths with the
number of entries. -/
example : produce ⟨DDemo.mk 1, [], [], []⟩ ⟨DDemo.mk 2, [⟨['b'], ['1']⟩, ⟨['b'], ['1']⟩], [], []⟩ ≠ .pointless := by
  decide +kernel

/-- Non-vacuity of C58: all files new. -/
example : produce ⟨DDemo.mk 1, [⟨['b'], ['0']⟩], [], []⟩ DDemo.newP = .pointless ∧
    (DDemo.newP.files.map fun f => trimSlash f.path).Nodup := by decide +kernel

/-! ## C59 -/

theorem digit_ne_dash {k : Nat} (hk : k < 10) : digit k ≠ '-' := digit_ne hk (by decide)

theorem fmtNat_noDash (n : Nat) : '-' ∉ fmtNat n := by
  induction n using Nat.strongRecOn with
  | ind n ih =>
    unfold fmtNat
    split
    · rename_i h
      simp only [List.mem_singleton]
      exact (digit_ne_dash h).symm
    · rename_i h
      rw [List.mem_append, List.mem_singleton]
      rintro (hx | hx)
      · exact ih (n / 10) (by omega) hx
      · exact digit_ne_dash (Nat.mod_lt _ (by omega)) hx.symm

theorem fmtNat_inj {a b : Nat} (h : fmtNat a = fmtNat b) : a = b := by
  have h1 := parseDigits_fmtNat a
  rw [h, parseDigits_fmtNat b] at h1
  exact (Option.some.inj h1).symm

theorem split_at_dash {a b x y : Str} (ha : '-' ∉ a) (hb : '-' ∉ b) (h : a ++ '-' :: x = b ++ '-' :: y) :
    a = b ∧ x = y := by
  induction a generalizing b with
  | nil =>
    cases b with
    | nil => simp at h; exact ⟨rfl, h⟩
    | cons c cs =>
      simp only [List.nil_append, List.cons_append, List.cons.injEq] at h
      exact absurd h.1 (by simp only [List.mem_cons, not_or] at hb; exact hb.1)
  | cons c cs ih =>
    cases b with
    | nil =>
      simp only [List.nil_append, List.cons_append, List.cons.injEq] at h
      exact absurd h.1.symm (by simp only [List.mem_cons, not_or] at ha; exact ha.1)
    | cons d ds =>
      simp only [List.cons_append, List.cons.injEq] at h
      simp only [List.mem_cons, not_or] at ha hb
      obtain ⟨h1, h2⟩ := ih ha.2 hb.2 h.2
      exact ⟨by rw [h.1, h1], h2⟩

theorem fmtInt_split {i j : Int} {x y : Str} (h : fmtInt i ++ '-' :: x = fmtInt j ++ '-' :: y) : i = j ∧ x = y := by
  obtain ⟨ki, ti, hki, ei⟩ := fmtNat_head i.natAbs
  obtain ⟨kj, tj, hkj, ej⟩ := fmtNat_head j.natAbs
  unfold fmtInt at h
  by_cases hi : i < 0 <;> by_cases hj : j < 0
  · rw [if_pos hi, if_pos hj] at h
    simp only [List.cons_append, List.cons.injEq, true_and] at h
    obtain ⟨h1, h2⟩ := split_at_dash (fmtNat_noDash _) (fmtNat_noDash _) h
    exact ⟨by have := fmtNat_inj h1; omega, h2⟩
  · rw [if_pos hi, if_neg hj, ej] at h
    simp only [List.cons_append, List.cons.injEq] at h
    exact absurd h.1.symm (digit_ne_dash hkj)
  · rw [if_neg hi, if_pos hj, ei] at h
    simp only [List.cons_append, List.cons.injEq] at h
    exact absurd h.1 (digit_ne_dash hki)
  · rw [if_neg hi, if_neg hj] at h
    obtain ⟨h1, h2⟩ := split_at_dash (fmtNat_noDash _) (fmtNat_noDash _) h
    exact ⟨by have := fmtNat_inj h1; omega, h2⟩

/-- C59: two deltas of the same package (same name; architecture and distribution release may even differ) with the
same file name are between the same releases. -/
theorem C59_name_identifies_releases {m m' : Meta} (hn : m.name = m'.name) {o n o' n' : Int}
    (h : deltaName m o n = deltaName m' o' n') : o = o' ∧ n = n' := by
  unfold deltaName at h
  rw [hn, List.append_cancel_left_eq, List.cons.injEq] at h
  obtain ⟨h1, h2⟩ := fmtInt_split h.2
  exact ⟨h1, (fmtInt_split h2).1⟩

/-- C59: different pairs of releases of one package get different file names. -/
theorem C59_distinct_names {m m' : Meta} (hn : m.name = m'.name) {o n o' n' : Int} (h : (o, n) ≠ (o', n')) :
    deltaName m o n ≠ deltaName m' o' n' := by
  intro he
  obtain ⟨rfl, rfl⟩ := C59_name_identifies_releases hn he
  exact h rfl

/-- C59 between packages of any names on the same distribution release and architecture: the file name also
identifies the package, for the non-negative release numbers that occur. -/
theorem C59_name_identifies_package {m m' : Meta} (hd : m.distRelease = m'.distRelease) (ha : m.arch = m'.arch)
    {o n o' n' : Nat} (h : deltaName m o n = deltaName m' o' n') : m.name = m'.name ∧ o = o' ∧ n = n' := by
  unfold deltaName at h
  rw [hd, ha] at h
  have hf : ∀ k : Nat, fmtInt (k : Int) = fmtNat k := by
    intro k; unfold fmtInt; rw [if_neg (by omega)]; rfl
  simp only [hf] at h
  have h' := congrArg List.reverse h
  simp only [List.reverse_append, List.reverse_cons, List.append_assoc] at h'
  simp only [List.append_cancel_left_eq, List.cons_append, List.nil_append, List.cons.injEq, true_and] at h'
  have nd : ∀ k, '-' ∉ (fmtNat k).reverse := fun k hk => fmtNat_noDash k (by simpa using hk)
  have key := h'
  obtain ⟨h1, h2⟩ := split_at_dash (nd n) (nd n') key
  obtain ⟨h3, h4⟩ := split_at_dash (nd o) (nd o') h2
  exact ⟨List.reverse_inj.1 h4, fmtNat_inj (List.reverse_inj.1 h3), fmtNat_inj (List.reverse_inj.1 h1)⟩

/-- Without that condition names can clash: package "a-1" on distribution "1" and package "a" on distribution "3-1". -/
example : deltaName ⟨['a', '-', '1'], [], [], ['1'], ['x'], [], 0, [], []⟩ 2 3 =
    deltaName ⟨['a'], [], [], ['3', '-', '1'], ['x'], [], 0, [], []⟩ 1 2 := by decide +kernel

example : deltaName (DDemo.mk 2) 1 2 = ['a', '-', '1', '-', '2', '-', '1', '-', 'x', '.', 'd', 'e', 'l', 't', 'a', '.', 'e',
    'o', 'p', 'k', 'g'] := by decide +kernel

/-! ## C60 -/

/-- The release of a package is that of the first, newest entry of its history. -/
def Rel (m : Meta) (r : Int) : Prop := ∃ u us, m.history = u :: us ∧ u.release = r

theorem Rel.eq {m : Meta} {r : Int} (h : Rel m r) : relOf m = r := by
  obtain ⟨u, us, h1, h2⟩ := h
  simp [relOf, h1, h2]

/-- A delta is allowed from `a` to `b`. -/
def Allowed (a b : Meta) : Prop := isDeltaPossible a b (relOf a) (relOf b) = true

theorem allowed_iff (a b : Meta) : Allowed a b ↔
    relOf a < relOf b ∧ a.name = b.name ∧ a.distRelease = b.distRelease ∧ a.arch = b.arch := by
  unfold Allowed isDeltaPossible
  simp only [Bool.and_eq_true, decide_eq_true_eq, beq_iff_eq, and_assoc]

/-- C60: deltas are allowed exactly from a lower to a higher release of the same package, distribution release and
architecture. -/
theorem C60_allowed_iff {a b : Meta} {ra rb : Int} (ha : Rel a ra) (hb : Rel b rb) : Allowed a b ↔
    ra < rb ∧ a.name = b.name ∧ a.distRelease = b.distRelease ∧ a.arch = b.arch := by
  rw [allowed_iff, ha.eq, hb.eq]

/-- A chain of deltas from `a` to `b`. -/
inductive Chain : Meta → Meta → Prop
  | one {a b} : Allowed a b → Chain a b
  | more {a b c} : Allowed a b → Chain b c → Chain a c

theorem Chain.allowed {a b : Meta} (h : Chain a b) : Allowed a b := by
  induction h with
  | one h => exact h
  | more h1 _ ih =>
    rw [allowed_iff] at h1 ih ⊢
    exact ⟨by omega, h1.2.1.trans ih.2.1, h1.2.2.1.trans ih.2.2.1, h1.2.2.2.trans ih.2.2.2⟩

/-- C60: no chain of deltas, of any length, leads back to where it began, or to a release at or below it; and whatever
a chain of deltas reaches can also be reached by one delta. -/
theorem C60_no_cycles {a b : Meta} (h : Chain a b) :
    a ≠ b ∧ (∀ ra rb, Rel a ra → Rel b rb → ra < rb) ∧ Allowed a b ∧ ¬ Chain b a := by
  have h1 := h.allowed
  have h2 := (allowed_iff a b).1 h1
  refine ⟨?_, fun ra rb ha hb => by rw [← ha.eq, ← hb.eq]; exact h2.1, h1, ?_⟩
  · rintro rfl; omega
  · intro hb
    have := (allowed_iff b a).1 hb.allowed
    omega

/-- C60: a delta package is produced only for an allowed pair; otherwise the request is refused as mismatched. -/
theorem C60_produced_allowed (old new : Pack) :
    (¬ Allowed old.pkg new.pkg ↔ produce old new = .mismatched) := by
  unfold Allowed produce
  constructor
  · intro h
    rw [if_pos (by simpa using h)]
  · intro h he
    rw [he] at h
    simp only [Bool.not_true, Bool.false_eq_true, if_false] at h
    split at h <;> cases h

example : Rel (DDemo.mk 1) 1 ∧ Rel (DDemo.mk 4) 4 := ⟨⟨_, _, rfl, rfl⟩, ⟨_, _, rfl, rfl⟩⟩

example : Chain (DDemo.mk 1) (DDemo.mk 4) := .more (b := DDemo.mk 2) (by unfold Allowed; decide +kernel)
  (.one (by unfold Allowed; decide +kernel))

end Ferryd.Delta
