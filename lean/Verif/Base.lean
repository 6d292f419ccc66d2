/-!
# Base: strings, byte-wise order, sorting, sorted key/value maps

Go strings are byte strings.  `Str` is a list of characters each standing for one byte; `sort.Strings`
and LevelDB's default comparer are both byte-wise lexicographic (`strLe`).

`KV` is the content of one database bucket: LevelDB keeps keys in byte order, so a bucket is an
association list; well-formedness (strictly increasing keys) is a separate predicate.
-/
namespace Ferryd
/-- Go strings (and []byte keys), one character per byte.  Used for every string of /repo. -/
abbrev Str := List Char

/-- Go's byte-wise string comparison `a <= b` (used by sort.Strings and by LevelDB's comparer).
Modelled here for repo.go:368, 432, 542, 564, 665, repo_index.go:241 and leveldb.go:131, 203. -/
def strLe : Str → Str → Bool
  | [], _ => true
  | _ :: _, [] => false
  | a :: as, b :: bs => if a = b then strLe as bs else decide (a.val < b.val)

theorem Char.val_inj' {a b : Char} (h : a.val = b.val) : a = b := Char.ext h

@[simp] theorem strLe_refl (a : Str) : strLe a a = true := by
  induction a with
  | nil => rfl
  | cons x xs ih => simp [strLe, ih]

theorem strLe_total (a b : Str) : strLe a b = true ∨ strLe b a = true := by
  induction a generalizing b with
  | nil => simp [strLe]
  | cons x xs ih =>
    cases b with
    | nil => simp [strLe]
    | cons y ys =>
      by_cases h : x = y
      · subst h; simpa [strLe] using ih ys
      · have h' : ¬ y = x := fun e => h e.symm
        simp only [strLe, h, h', if_false, decide_eq_true_eq]
        have : x.val ≠ y.val := fun e => h (Char.val_inj' e)
        rcases UInt32.lt_or_lt_of_ne this with h1 | h1
        · exact Or.inl h1
        · exact Or.inr h1

theorem strLe_antisymm {a b : Str} (h1 : strLe a b = true) (h2 : strLe b a = true) : a = b := by
  induction a generalizing b with
  | nil => cases b with
    | nil => rfl
    | cons => simp [strLe] at h2
  | cons x xs ih =>
    cases b with
    | nil => simp [strLe] at h1
    | cons y ys =>
      by_cases h : x = y
      · subst h
        simp [strLe] at h1 h2
        rw [ih h1 h2]
      · have h' : ¬ y = x := fun e => h e.symm
        simp only [strLe, h, h', if_false, decide_eq_true_eq] at h1 h2
        exact absurd (UInt32.lt_trans h1 h2) (UInt32.lt_irrefl _)

theorem strLe_trans {a b c : Str} (h1 : strLe a b = true) (h2 : strLe b c = true) :
    strLe a c = true := by
  induction a generalizing b c with
  | nil => simp [strLe]
  | cons x xs ih =>
    cases b with
    | nil => simp [strLe] at h1
    | cons y ys =>
      cases c with
      | nil => simp [strLe] at h2
      | cons z zs =>
        by_cases hxy : x = y
        · subst hxy
          by_cases hxz : x = z
          · subst hxz
            simp [strLe] at h1 h2 ⊢
            exact ih h1 h2
          · simp only [strLe, hxz, if_false, if_true] at h1 h2 ⊢
            exact h2
        · by_cases hyz : y = z
          · subst hyz
            simp only [strLe, hxy, if_false, if_true] at h1 h2 ⊢
            exact h1
          · simp only [strLe, hxy, hyz, if_false, decide_eq_true_eq] at h1 h2
            have hlt := UInt32.lt_trans h1 h2
            have hxz : ¬ x = z := by
              intro e; subst e
              exact absurd hlt (UInt32.lt_irrefl _)
            simp only [strLe, hxz, if_false, decide_eq_true_eq]
            exact hlt

/-! ## Sorting of string lists (`sort.Strings`) -/

/-- Insertion into a sorted list of strings. Part of `sortS`. -/
def insertS (x : Str) : List Str → List Str
  | [] => [x]
  | y :: ys => if strLe x y then x :: y :: ys else y :: insertS x ys

/-- `sort.Strings`: the result of sorting a list of strings is determined (equal strings are
indistinguishable), so any sorting algorithm models it; here insertion sort.
Called at repo.go:368, 432, 542, 564, 665, repo_index.go:241, ferryctl/cmd/list_repos.go:54. -/
def sortS : List Str → List Str
  | [] => []
  | x :: xs => insertS x (sortS xs)

theorem insertS_perm (x : Str) (l : List Str) : (insertS x l).Perm (x :: l) := by
  induction l with
  | nil => exact List.Perm.refl _
  | cons y ys ih =>
    unfold insertS
    split
    · exact List.Perm.refl _
    · exact (List.Perm.cons y ih).trans (List.Perm.swap x y ys)

theorem sortS_perm (l : List Str) : (sortS l).Perm l := by
  induction l with
  | nil => exact List.Perm.refl _
  | cons x xs ih => exact (insertS_perm x _).trans (List.Perm.cons x ih)
/-- Sorted lists of strings. (No code: a notion of the statements and proofs.) -/
def SortedS (l : List Str) : Prop := l.Pairwise (fun a b => strLe a b = true)

theorem insertS_sorted {x : Str} {l : List Str} (h : SortedS l) : SortedS (insertS x l) := by
  unfold SortedS at *
  induction l with
  | nil => simp [insertS]
  | cons y ys ih =>
    unfold insertS
    rw [List.pairwise_cons] at h
    split
    · rename_i hxy
      rw [List.pairwise_cons]
      refine ⟨?_, List.pairwise_cons.2 h⟩
      intro z hz
      rcases List.mem_cons.1 hz with rfl | hz
      · exact hxy
      · exact strLe_trans hxy (h.1 z hz)
    · rename_i hxy
      rw [List.pairwise_cons]
      refine ⟨?_, ih h.2⟩
      intro z hz
      rcases List.mem_cons.1 ((insertS_perm x ys).mem_iff.1 hz) with rfl | hz
      · rcases strLe_total z y with h1 | h1
        · exact absurd h1 hxy
        · exact h1
      · exact h.1 z hz

theorem sortS_sorted (l : List Str) : SortedS (sortS l) := by
  induction l with
  | nil => exact List.Pairwise.nil
  | cons x xs ih => exact insertS_sorted ih

@[simp] theorem mem_sortS {l : List Str} {x : Str} : x ∈ sortS l ↔ x ∈ l := (sortS_perm l).mem_iff

theorem nodup_sortS {l : List Str} : (sortS l).Nodup ↔ l.Nodup := (sortS_perm l).nodup_iff

@[simp] theorem length_sortS (l : List Str) : (sortS l).length = l.length := (sortS_perm l).length_eq

theorem SortedS.ext {l₁ l₂ : List Str} (h1 : SortedS l₁) (h2 : SortedS l₂) (n1 : l₁.Nodup)
    (n2 : l₂.Nodup) (h : ∀ x, x ∈ l₁ ↔ x ∈ l₂) : l₁ = l₂ := by
  have hp : l₁.Perm l₂ := (List.perm_ext_iff_of_nodup n1 n2).2 h
  exact hp.eq_of_pairwise (fun _ _ _ _ ha hb => strLe_antisymm ha hb) h1 h2

theorem sortS_of_sorted {l : List Str} (h : SortedS l) : sortS l = l := by
  have hp := sortS_perm l
  exact hp.eq_of_pairwise (fun _ _ _ _ ha hb => strLe_antisymm ha hb) (sortS_sorted l) h

/-! ## Ordered maps -/

/-- Content of a bucket, in key order. The key order is that of the LevelDB iterator (leveldb.go:131, 203). -/
abbrev KV (α : Type) := List (Str × α)

namespace KV
variable {α : Type}

/-- Lookup. leveldb.go:76-83 `l.db.Get`. -/
def get (m : KV α) (k : Str) : Option α :=
  match m with
  | [] => none
  | (k', v) :: m => if k = k' then some v else get m k

/-- Insert or overwrite, at the key's place in the order. leveldb.go:103 `l.db.Put`. -/
def put (m : KV α) (k : Str) (v : α) : KV α :=
  match m with
  | [] => [(k, v)]
  | (k', v') :: m =>
    if k = k' then (k, v) :: m
    else if strLe k k' then (k, v) :: (k', v') :: m
    else (k', v') :: put m k v

/-- Delete (no error when absent, as in LevelDB). leveldb.go:115 `l.db.Delete`. -/
def del (m : KV α) (k : Str) : KV α :=
  match m with
  | [] => []
  | (k', v') :: m => if k = k' then del m k else (k', v') :: del m k
/-- The keys in the order of the iterator (leveldb.go:131). -/
def keys (m : KV α) : List Str := m.map Prod.fst

/-- Strictly increasing keys. This is what LevelDB maintains. (No code: a notion of the statements and proofs.) -/
def WF (m : KV α) : Prop := (keys m).Pairwise (fun a b => strLe a b = true ∧ a ≠ b)

@[simp] theorem get_nil (k : Str) : get ([] : KV α) k = none := rfl

@[simp] theorem get_put_self (m : KV α) (k : Str) (v : α) : (m.put k v).get k = some v := by
  induction m with
  | nil => simp [put, get]
  | cons p m ih =>
    obtain ⟨k', v'⟩ := p
    simp only [put]
    split
    · simp [get]
    · split
      · simp [get]
      · rename_i h _; simp [get, h, ih]

theorem get_put_ne (m : KV α) {k j : Str} (v : α) (h : j ≠ k) : (m.put k v).get j = m.get j := by
  induction m with
  | nil => simp [put, get, h]
  | cons p m ih =>
    obtain ⟨k', v'⟩ := p
    simp only [put]
    split
    · rename_i e; subst e; simp [get, h]
    · split
      · simp [get, h]
      · simp [get, ih]

theorem get_put (m : KV α) (k j : Str) (v : α) :
    (m.put k v).get j = if j = k then some v else m.get j := by
  by_cases h : j = k
  · subst h; simp
  · simp [get_put_ne m v h, h]

@[simp] theorem get_del_self (m : KV α) (k : Str) : (m.del k).get k = none := by
  induction m with
  | nil => rfl
  | cons p m ih =>
    obtain ⟨k', v'⟩ := p
    simp only [del]
    split
    · exact ih
    · rename_i h; simp [get, h, ih]

theorem get_del_ne (m : KV α) {k j : Str} (h : j ≠ k) : (m.del k).get j = m.get j := by
  induction m with
  | nil => rfl
  | cons p m ih =>
    obtain ⟨k', v'⟩ := p
    simp only [del]
    split
    · rename_i e; subst e; simp [get, h, ih]
    · simp [get, ih]

theorem get_del (m : KV α) (k j : Str) :
    (m.del k).get j = if j = k then none else m.get j := by
  by_cases h : j = k
  · subst h; simp
  · simp [get_del_ne m h, h]

theorem mem_keys_iff (m : KV α) (k : Str) : k ∈ (keys m) ↔ ∃ v, m.get k = some v := by
  induction m with
  | nil => simp [keys]
  | cons p m ih =>
    obtain ⟨k', v'⟩ := p
    simp only [keys, List.map_cons, List.mem_cons, get]
    by_cases h : k = k'
    · simp [h]
    · simp only [h, false_or, if_false]; exact ih

theorem mem_of_get {m : KV α} {k : Str} {v : α} (h : m.get k = some v) : (k, v) ∈ m := by
  induction m with
  | nil => simp at h
  | cons p m ih =>
    obtain ⟨k', v'⟩ := p
    simp only [get] at h
    split at h
    · rename_i e; subst e; cases h; simp
    · exact List.mem_cons_of_mem _ (ih h)

theorem get_of_mem {m : KV α} (hw : m.WF) {k : Str} {v : α} (h : (k, v) ∈ m) :
    m.get k = some v := by
  induction m with
  | nil => simp at h
  | cons p m ih =>
    obtain ⟨k', v'⟩ := p
    have hw' : (k' :: keys m).Pairwise (fun a b => strLe a b = true ∧ a ≠ b) := hw
    rw [List.pairwise_cons] at hw'
    rcases List.mem_cons.1 h with h | h
    · cases h; simp [get]
    · have hk : k ∈ (keys m) := List.mem_map_of_mem h
      have hne : k ≠ k' := fun e => (hw'.1 k hk).2 e.symm
      simp [get, hne, ih hw'.2 h]

theorem mem_iff_get {m : KV α} (hw : m.WF) (k : Str) (v : α) : (k, v) ∈ m ↔ m.get k = some v :=
  ⟨get_of_mem hw, mem_of_get⟩

@[simp] theorem WF_nil : WF ([] : KV α) := List.Pairwise.nil

theorem mem_keys_put (m : KV α) (k j : Str) (v : α) : j ∈ (m.put k v).keys ↔ j = k ∨ j ∈ (keys m) := by
  rw [mem_keys_iff, mem_keys_iff, get_put]
  by_cases h : j = k <;> simp [h]

theorem mem_keys_del (m : KV α) (k j : Str) : j ∈ (m.del k).keys ↔ j ≠ k ∧ j ∈ (keys m) := by
  rw [mem_keys_iff, mem_keys_iff, get_del]
  by_cases h : j = k <;> simp [h]

theorem WF.put {m : KV α} (hw : m.WF) (k : Str) (v : α) : (m.put k v).WF := by
  induction m with
  | nil => simp [KV.put, WF, keys]
  | cons p m ih =>
    obtain ⟨k', v'⟩ := p
    have hw' : (k' :: keys m).Pairwise (fun a b => strLe a b = true ∧ a ≠ b) := hw
    rw [List.pairwise_cons] at hw'
    simp only [KV.put]
    split
    · rename_i e; subst e; exact hw
    · rename_i hne
      split
      · rename_i hle
        show (k :: k' :: keys m).Pairwise _
        rw [List.pairwise_cons]
        refine ⟨?_, hw⟩
        intro j hj
        rcases List.mem_cons.1 hj with rfl | hj
        · exact ⟨hle, hne⟩
        · refine ⟨strLe_trans hle (hw'.1 j hj).1, ?_⟩
          rintro rfl
          exact hne (strLe_antisymm hle (hw'.1 k hj).1)
      · rename_i hle
        show (k' :: (KV.put m k v).keys).Pairwise _
        rw [List.pairwise_cons]
        refine ⟨?_, ih hw'.2⟩
        intro j hj
        rcases (mem_keys_put m k j v).1 hj with rfl | hj
        · refine ⟨?_, fun e => hne e.symm⟩
          rcases strLe_total k' j with h | h
          · exact h
          · exact absurd h hle
        · exact hw'.1 j hj

theorem WF.del {m : KV α} (hw : m.WF) (k : Str) : (m.del k).WF := by
  induction m with
  | nil => simp [KV.del]
  | cons p m ih =>
    obtain ⟨k', v'⟩ := p
    have hw' : (k' :: keys m).Pairwise (fun a b => strLe a b = true ∧ a ≠ b) := hw
    rw [List.pairwise_cons] at hw'
    simp only [KV.del]
    split
    · exact ih hw'.2
    · show (k' :: (KV.del m k).keys).Pairwise _
      rw [List.pairwise_cons]
      exact ⟨fun j hj => hw'.1 j ((mem_keys_del m k j).1 hj).2, ih hw'.2⟩

theorem WF.nodup_keys {m : KV α} (hw : m.WF) : (keys m).Nodup :=
  List.Pairwise.imp (fun h => h.2) hw

theorem WF.sorted_keys {m : KV α} (hw : m.WF) : SortedS (keys m) :=
  List.Pairwise.imp (fun h => h.1) hw

/-- Two well-formed maps with the same lookups are equal. -/
theorem ext {m₁ m₂ : KV α} (h1 : m₁.WF) (h2 : m₂.WF) (h : ∀ k, m₁.get k = m₂.get k) : m₁ = m₂ := by
  have hk : m₁.keys = m₂.keys := by
    apply SortedS.ext h1.sorted_keys h2.sorted_keys h1.nodup_keys h2.nodup_keys
    intro k; rw [mem_keys_iff, mem_keys_iff, h k]
  induction m₁ generalizing m₂ with
  | nil =>
    cases m₂ with
    | nil => rfl
    | cons => simp [keys] at hk
  | cons p m₁ ih =>
    cases m₂ with
    | nil => simp [keys] at hk
    | cons q m₂ =>
      obtain ⟨k, v⟩ := p
      obtain ⟨k', v'⟩ := q
      simp only [keys, List.map_cons, List.cons.injEq] at hk
      obtain ⟨rfl, hk⟩ := hk
      have hv := h k
      simp only [get, if_true, Option.some.injEq] at hv
      subst hv
      have h1' : (k :: keys m₁).Pairwise (fun a b => strLe a b = true ∧ a ≠ b) := h1
      have h2' : (k :: keys m₂).Pairwise (fun a b => strLe a b = true ∧ a ≠ b) := h2
      rw [List.pairwise_cons] at h1' h2'
      congr 1
      apply ih h1'.2 h2'.2 _ hk
      intro j
      have hj := h j
      simp only [get] at hj
      by_cases e : j = k
      · subst e
        have n1 : get m₁ j = none := by
          cases hg : get m₁ j with
          | none => rfl
          | some w => exact absurd rfl (h1'.1 j ((mem_keys_iff _ _).2 ⟨w, hg⟩)).2
        have n2 : get m₂ j = none := by
          cases hg : get m₂ j with
          | none => rfl
          | some w => exact absurd rfl (h2'.1 j ((mem_keys_iff _ _).2 ⟨w, hg⟩)).2
        rw [n1, n2]
      · simpa [e] using hj

end KV

/-! ## Counting -/

/-- Flipping a Boolean predicate from false to true at exactly one element of a duplicate-free list
raises the number of elements satisfying it by one. -/
theorem length_filter_flip {l : List Str} (hn : l.Nodup) {a : Str} (ha : a ∈ l)
    {p q : Str → Bool} (hp : p a = false) (hq : q a = true) (h : ∀ x, x ≠ a → q x = p x) :
    (l.filter q).length = (l.filter p).length + 1 := by
  induction l with
  | nil => simp at ha
  | cons x xs ih =>
    rw [List.nodup_cons] at hn
    rcases List.mem_cons.1 ha with rfl | ha'
    · have : xs.filter q = xs.filter p := by
        apply List.filter_congr
        intro y hy
        exact h y (fun e => hn.1 (e ▸ hy))
      simp [hp, hq, this]
    · have hx : x ≠ a := fun e => hn.1 (e ▸ ha')
      have := ih hn.2 ha'
      rw [List.filter_cons, List.filter_cons, h x hx]
      split <;> simp [this]

end Ferryd
