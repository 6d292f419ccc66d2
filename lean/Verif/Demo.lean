import Verif.Spec
/-!
# Demo: a concrete world and concrete histories

Used beside the theorems to show that their hypotheses are met by non-trivial cases, and to exhibit
executions that refute claims the code does not meet.
-/
namespace Ferryd.Demo

def S (x : String) : Str := x.toList

def mk (name src : String) (rel : Int) : Meta :=
  ⟨S name, S src, [⟨rel, S "1"⟩], S "Solus", S "x86_64", [], 0, [], []⟩

/-- The packages of the demo world: file name, content byte, metadata, delta flag. -/
def table : List (Str × Nat × Meta × Bool) :=
  [ (S "a-1.eopkg", 1, mk "a" "a" 1, false),
    (S "a-2.eopkg", 2, mk "a" "a" 2, false),
    (S "a-2b.eopkg", 3, mk "a" "a" 2, false),
    (S "b-1.eopkg", 4, mk "b" "b" 1, false),
    (S "o-1.eopkg", 5, mk "o" "o" 1, false),
    (S "o-dbginfo-1.eopkg", 6, mk "o-dbginfo" "o" 1, false),
    (S "o-dbginfo-2.eopkg", 7, mk "o-dbginfo" "o" 2, false),
    (S "a-1-2.delta.eopkg", 8, mk "a" "a" 2, true),
    (S "a-3.eopkg", 9, mk "a" "a" 3, false),
    (S "libx-1.eopkg", 10, mk "libx" "libx" 1, false),
    (S "a-1-2-Solus-x86_64.delta.eopkg", 11, mk "a" "a" 2, true) ]

def lookupId (id : Str) : Option (Str × Nat × Meta × Bool) := table.find? (fun e => e.1 == id)
def lookupByte (n : Nat) : Option (Str × Nat × Meta × Bool) := table.find? (fun e => e.2.1 == n)

def ins (m : Meta) : List Meta → List Meta
  | [] => [m]
  | x :: xs => if x.rel ≤ m.rel then m :: x :: xs else x :: ins m xs

def sortD : List Meta → List Meta
  | [] => []
  | x :: xs => ins x (sortD xs)

theorem ins_perm (m : Meta) (l : List Meta) : (ins m l).Perm (m :: l) := by
  induction l with
  | nil => exact List.Perm.refl _
  | cons x xs ih =>
    simp only [ins]; split
    · exact List.Perm.refl _
    · exact (List.Perm.cons x ih).trans (List.Perm.swap m x xs)

theorem sortD_perm (l : List Meta) : (sortD l).Perm l := by
  induction l with
  | nil => exact List.Perm.refl _
  | cons x xs ih => exact (ins_perm x _).trans (ih.cons x)

theorem ins_sorted (m : Meta) (l : List Meta) (h : l.Pairwise (fun a b => b.rel ≤ a.rel)) :
    (ins m l).Pairwise (fun a b => b.rel ≤ a.rel) := by
  induction l with
  | nil => simp [ins]
  | cons x xs ih =>
    simp only [ins]
    rw [List.pairwise_cons] at h
    split
    · rename_i hx
      rw [List.pairwise_cons, List.pairwise_cons]
      refine ⟨?_, h⟩
      intro y hy
      rcases List.mem_cons.1 hy with rfl | hy
      · exact hx
      · have := h.1 y hy; omega
    · rename_i hx
      rw [List.pairwise_cons]
      refine ⟨?_, ih h.2⟩
      intro y hy
      rcases List.mem_cons.1 ((ins_perm m xs).mem_iff.1 hy) with rfl | hy
      · omega
      · exact h.1 y hy

theorem sortD_sorted (l : List Meta) : (sortD l).Pairwise (fun a b => b.rel ≤ a.rel) := by
  induction l with
  | nil => simp [sortD]
  | cons x xs ih => exact ins_sorted x _ ih

/-- The demo environment: hard links always work, hashing is injective, the distribution file lists
obsolete "o" when its content is `[100]`, compressors always succeed. -/
def E : Env where
  linkOk _ _ := true
  parse c := match c with
    | [n] => match lookupByte n with
      | some e => .good e.2.2.1
      | none => .bad
    | _ => .bad
  sha1 c := c.map Char.ofNat
  sha256 c := c.map Char.ofNat
  parseDist c := if c = [100] then some [S "o"] else none
  parseComps c := if c.length = 0 then .bad else .good [c.map Char.ofNat]
  parseGroups c := if c.length = 0 then .bad else .good [c.map Char.ofNat]
  indexIO _ := .ok
  sortDesc := sortD
  sortDesc_perm := sortD_perm
  sortDesc_sorted := sortD_sorted

def W : World where
  E := E
  canon id := match lookupId id with
    | some e => [e.2.1]
    | none => [0]
  isDelta id := match lookupId id with
    | some e => e.2.2.2
    | none => false

theorem good_table : ∀ e ∈ table, GoodMeta e.2.2.1 ∧ GoodId e.1 := by
  have key : ∀ e ∈ table, (e.2.2.1.history ≠ [] ∧ e.2.2.1.source ≠ [] ∧ 1 ≤ e.2.2.1.rel ∧
      reservedKey e.2.2.1.name = false ∧ e.2.2.1.own = []) ∧ (e.1 ≠ [] ∧ '/' ∉ e.1 ∧ reservedKey e.1 = false) := by
    decide +kernel
  intro e he
  obtain ⟨⟨a, b, c, d, o⟩, x, y, z⟩ := key e he
  exact ⟨⟨a, b, c, d, o⟩, ⟨x, y, z⟩⟩

theorem byte_table : ∀ e ∈ table, lookupByte e.2.1 = some e := by decide +kernel

/-- The assumptions on the outside world are satisfiable. -/
theorem ok : W.OK where
  parse_nil := rfl
  no_crash id := by
    simp only [W, E]
    cases lookupId id with
    | none => simp [lookupByte]; split <;> simp
    | some e => simp only; split <;> simp
  comps_no_crash c := by
    simp only [W, E]; split <;> simp
  groups_no_crash c := by
    simp only [W, E]; split <;> simp
  good id m h := by
    simp only [W, E] at h
    cases hl : lookupId id with
    | none => rw [hl] at h; simp only [show lookupByte 0 = none by decide +kernel] at h; cases h
    | some e =>
      rw [hl] at h; simp only at h
      have hm : e ∈ table := List.mem_of_find?_eq_some hl
      have he : e.1 = id := by
        have := List.find?_some hl; simpa using this
      rw [byte_table e hm] at h
      simp only [Parsed.good.injEq] at h
      subst h; subst he
      exact good_table e hm

/-- A history: two repositories, packages of two releases, a clone, a pull, a trim. -/
def files : List Str := [S "/up/a-1.eopkg", S "/up/a-2.eopkg", S "/up/b-1.eopkg"]

def upload (f : String) : Op := .upload (S f) (W.canon (baseName (S f)))

def hist1 : List Op :=
  [ upload "/up/a-1.eopkg", upload "/up/a-2.eopkg", upload "/up/b-1.eopkg",
    .create (S "unstable"), .addPackages (S "unstable") files false,
    .clone (S "unstable") (S "shannon") true ]

def st1 : St := runAll E St.init hist1

theorem upload_ok (f : String) : (upload f).Ok W := rfl

theorem hist1_ok : ∀ o ∈ hist1, o.Ok W := by
  intro o ho
  simp only [hist1, List.mem_cons, List.not_mem_nil, or_false] at ho
  rcases ho with rfl | rfl | rfl | rfl | rfl | rfl
  · exact upload_ok _
  · exact upload_ok _
  · exact upload_ok _
  · trivial
  · show ∀ f ∈ files, W.isDelta (baseName f) = false
    decide +kernel
  · trivial

theorem reach1 : Reachable W st1 := ⟨hist1, hist1_ok, rfl⟩

/-- The history does what it says: both repositories list both releases of `a`, with two references. -/
example : (st1.db.repos.keys = [S "shannon", S "unstable"]) ∧
    st1.availOf (S "shannon") (S "a") = [S "a-1.eopkg", S "a-2.eopkg"] ∧
    (st1.db.pool.get (S "a-2.eopkg")).map PoolEntry.refCount = some 2 ∧
    st1.fs.read (.repo (S "shannon") (S "a/a") (S "a-2.eopkg")) = some [2] := by decide +kernel

end Ferryd.Demo
