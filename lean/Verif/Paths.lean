import Verif.CoreModel
/-!
# Paths: Go's path/filepath on Unix

`filepath.Clean`, `Join`, `Dir`, `Base`, `Abs` and `IsAbs` of the Go standard library, as documented there
("the shortest path name equivalent to path by purely lexical processing").  The library is outside /repo; it
is used by core/transit_manifest.go:84-116, libeopkg/metadata.go:190-200 and core/util.go:130-160.  Symbolic
links are not modelled (neither does the library look at them).
-/
namespace Ferryd.Paths

/-- Components between slashes: `strings.Split(p, "/")`.
Standard library; here a step of `filepath.Clean` and of httprouter's routes (server.go:92-118). -/
def splitC : Str → List Str
  | [] => [[]]
  | c :: cs => if c = '/' then [] :: splitC cs
    else match splitC cs with
      | [] => [[c]]
      | x :: xs => (c :: x) :: xs

/-- `strings.Join(l, "/")`.
Standard library; here a step of `filepath.Clean` and of the URLs of libferry/main.go:64-66. -/
def joinS : List Str → Str
  | [] => []
  | [x] => x
  | x :: y :: r => x ++ '/' :: joinS (y :: r)
/-- The component `.` of `filepath.Clean`. -/
def dot : Str := ['.']
/-- The component `..` of `filepath.Clean`. -/
def dotdot : Str := ['.', '.']

/-- The loop of `filepath.Clean` over the components, on a stack of kept components.
Standard library, used through the functions below. -/
def cleanL (rooted : Bool) : List Str → List Str → List Str
  | st, [] => st.reverse
  | st, c :: cs =>
    if c = [] ∨ c = dot then cleanL rooted st cs
    else if c = dotdot then
      match st with
      | [] => if rooted then cleanL rooted [] cs else cleanL rooted [c] cs
      | t :: st' => if t = dotdot then cleanL rooted (c :: t :: st') cs else cleanL rooted st' cs
    else cleanL rooted (c :: st) cs

/-- `filepath.IsAbs`. Standard library, used by `filepath.Abs` (below). -/
def isAbs (p : Str) : Bool := p.head? = some '/'

/-- `filepath.Clean`. Standard library, used through `filepath.Join`, `Dir` and `Abs` (below). -/
def clean (p : Str) : Str :=
  if isAbs p then '/' :: joinS (cleanL true [] (splitC p))
  else if joinS (cleanL false [] (splitC p)) = [] then dot else joinS (cleanL false [] (splitC p))

/-- `filepath.Join` of two elements: empty elements are left out.
Standard library; e.g. repo.go:201-205, transit_manifest.go:157, monitor.go:77, init.go:58-76. -/
def join (a b : Str) : Str :=
  if a = [] then (if b = [] then [] else clean b) else if b = [] then clean a else clean (a ++ '/' :: b)

/-- The path up to and including its last slash. Part of `filepath.Dir`. -/
def upToSlash : Str → Str
  | [] => []
  | c :: cs => if '/' ∈ c :: cs then c :: upToSlash cs else []

/-- `filepath.Dir`.
Standard library; called at lockfile.go:61, monitor.go:56, pool.go:202, transit_manifest.go:115, util.go:79-80. -/
def dir (p : Str) : Str := clean (upToSlash p)

/-- `filepath.Abs` in a process whose working directory is `cwd`.
Standard library; called at ferryd/main.go:65, init.go:58, transit_manifest.go:108, ferryctl/cmd/import.go:89. -/
def absP (cwd p : Str) : Str := if isAbs p then clean p else join cwd p

/-- `filepath.Base`.
Standard library; called at transit_job.go:109, monitor.go:61, transit_manifest.go:116, repo.go:860, api.go:283, metadata.go:154, package.go:60. -/
def base (p : Str) : Str :=
  if p = [] then dot
  else
    let q := (p.reverse.dropWhile (· = '/')).reverse
    if q = [] then ['/'] else afterSlash q

/-! ## Lemmas -/

/-- A proper name of a file or directory. (No code: a notion of the statements and proofs.) -/
def Normal (c : Str) : Prop := c ≠ [] ∧ c ≠ dot ∧ c ≠ dotdot ∧ '/' ∉ c

instance (c : Str) : Decidable (Normal c) := by unfold Normal; infer_instance

theorem splitC_ne_nil (p : Str) : splitC p ≠ [] := by
  cases p with
  | nil => simp [splitC]
  | cons c cs =>
    simp only [splitC]; split
    · simp
    · split <;> simp

theorem splitC_noSlash (p : Str) : ∀ c ∈ splitC p, '/' ∉ c := by
  induction p with
  | nil => simp [splitC]
  | cons c cs ih =>
    simp only [splitC]; split
    · intro x hx
      rcases List.mem_cons.1 hx with rfl | hx
      · simp
      · exact ih x hx
    · rename_i hc
      split
      · intro x hx
        simp only [List.mem_singleton] at hx; subst hx
        simp [Ne.symm hc]
      · rename_i y ys he
        rw [he] at ih
        intro x hx
        rcases List.mem_cons.1 hx with rfl | hx
        · have := ih y (by simp)
          simp only [List.mem_cons, not_or]
          exact ⟨Ne.symm hc, this⟩
        · exact ih x (by simp [hx])

theorem splitC_append (a b : Str) : splitC (a ++ '/' :: b) = splitC a ++ splitC b := by
  induction a with
  | nil => simp [splitC]
  | cons c cs ih =>
    simp only [List.cons_append, splitC]
    split
    · rw [ih]; rfl
    · rw [ih]
      cases h : splitC cs with
      | nil => exact absurd h (splitC_ne_nil cs)
      | cons x xs => rfl

theorem splitC_single {a : Str} (h : '/' ∉ a) : splitC a = [a] := by
  induction a with
  | nil => rfl
  | cons c cs ih =>
    simp only [List.mem_cons, not_or] at h
    simp only [splitC, if_neg (Ne.symm h.1), ih h.2]

theorem splitC_joinS (l : List Str) (hn : l ≠ []) (h : ∀ c ∈ l, '/' ∉ c) : splitC (joinS l) = l := by
  induction l with
  | nil => exact absurd rfl hn
  | cons x xs ih =>
    cases xs with
    | nil => simp only [joinS]; exact splitC_single (h x (by simp))
    | cons y r =>
      simp only [joinS]
      rw [splitC_append, splitC_single (h x (by simp)), ih (by simp) (fun c hc => h c (by simp [hc]))]
      rfl

theorem joinS_splitC (p : Str) : joinS (splitC p) = p := by
  induction p with
  | nil => rfl
  | cons c cs ih =>
    simp only [splitC]
    split
    · rename_i hc
      subst hc
      cases h : splitC cs with
      | nil => exact absurd h (splitC_ne_nil cs)
      | cons x xs => rw [h] at ih; simp [joinS, ih]
    · cases h : splitC cs with
      | nil => exact absurd h (splitC_ne_nil cs)
      | cons x xs =>
        rw [h] at ih
        simp only
        cases xs with
        | nil => simp only [joinS] at ih ⊢; rw [ih]
        | cons y r => simp only [joinS, List.cons_append] at ih ⊢; rw [ih]

theorem joinS_append (a b : List Str) (ha : a ≠ []) (hb : b ≠ []) :
    joinS (a ++ b) = joinS a ++ '/' :: joinS b := by
  induction a with
  | nil => exact absurd rfl ha
  | cons x xs ih =>
    cases xs with
    | nil =>
      cases b with
      | nil => exact absurd rfl hb
      | cons y ys => simp [joinS]
    | cons z zs =>
      have := ih (by simp)
      simp only [List.cons_append, joinS] at this ⊢
      rw [this]; simp

/-- What an absolute clean-up leaves: only proper names. -/
theorem cleanL_normal : ∀ (cs st : List Str), (∀ c ∈ st, Normal c) → (∀ c ∈ cs, '/' ∉ c) →
    ∀ c ∈ cleanL true st cs, Normal c
  | [], st, hs, _ => by simpa [cleanL] using hs
  | c :: cs, st, hs, hc => by
    have hc' : ∀ x ∈ cs, '/' ∉ x := fun x hx => hc x (by simp [hx])
    simp only [cleanL]
    split
    · exact cleanL_normal cs st hs hc'
    · rename_i h1
      split
      · rename_i h2
        cases st with
        | nil => exact cleanL_normal cs [] (by simp) hc'
        | cons t st' =>
          simp only
          have ht := hs t (by simp)
          rw [if_neg ht.2.2.1]
          exact cleanL_normal cs st' (fun x hx => hs x (by simp [hx])) hc'
      · rename_i h2
        refine cleanL_normal cs (c :: st) ?_ hc'
        intro x hx
        rcases List.mem_cons.1 hx with rfl | hx
        · simp only [not_or] at h1
          exact ⟨h1.1, h1.2, h2, hc x (by simp)⟩
        · exact hs x hx

/-- Proper names are kept in order. -/
theorem cleanL_keep (b : Bool) : ∀ (cs st rest : List Str), (∀ c ∈ cs, Normal c) →
    cleanL b st (cs ++ rest) = cleanL b (cs.reverse ++ st) rest
  | [], st, rest, _ => by simp
  | c :: cs, st, rest, h => by
    have hc := h c (by simp)
    simp only [List.cons_append, cleanL]
    rw [if_neg (by simp [hc.1, hc.2.1]), if_neg hc.2.2.1, cleanL_keep b cs (c :: st) rest
      (fun x hx => h x (by simp [hx]))]
    simp

/-- A path without ".." only adds its proper names. -/
theorem cleanL_noDotdot (b : Bool) : ∀ (cs st : List Str), (dotdot ∉ cs) →
    cleanL b st cs = st.reverse ++ cs.filter (fun c => decide (¬ (c = [] ∨ c = dot)))
  | [], st, _ => by simp [cleanL]
  | c :: cs, st, h => by
    have h' : dotdot ∉ cs := fun x => h (by simp [x])
    have hc : c ≠ dotdot := fun e => h (by simp [e])
    simp only [cleanL]
    by_cases h1 : c = [] ∨ c = dot
    · rw [if_pos h1, cleanL_noDotdot b cs st h', List.filter_cons_of_neg (by simp only [h1]; decide)]
    · rw [if_neg h1, if_neg hc, cleanL_noDotdot b cs (c :: st) h', List.filter_cons_of_pos (by simp only [h1]; decide)]
      simp

/-- An absolute cleaned path with these components. (No code: a notion of the statements and proofs.) -/
def rooted (cs : List Str) : Str := '/' :: joinS cs

theorem rooted_isAbs (cs : List Str) : isAbs (rooted cs) = true := rfl

theorem splitC_rooted {cs : List Str} (h : ∀ c ∈ cs, Normal c) : ∃ pre, (∀ c ∈ pre, c = []) ∧
    splitC (rooted cs) = pre ++ cs := by
  unfold rooted
  simp only [splitC, if_true]
  cases cs with
  | nil => exact ⟨[[], []], by simp, by simp [joinS, splitC]⟩
  | cons x xs =>
    rw [splitC_joinS _ (by simp) (fun c hc => (h c hc).2.2.2)]
    exact ⟨[[]], by simp, rfl⟩

theorem cleanL_skip (b : Bool) : ∀ (pre st rest : List Str), (∀ c ∈ pre, c = []) →
    cleanL b st (pre ++ rest) = cleanL b st rest
  | [], _, _, _ => rfl
  | c :: pre, st, rest, h => by
    have hc := h c (by simp)
    simp only [List.cons_append, cleanL]
    rw [if_pos (.inl hc)]
    exact cleanL_skip b pre st rest (fun x hx => h x (by simp [hx]))

theorem clean_rooted {cs : List Str} (h : ∀ c ∈ cs, Normal c) : clean (rooted cs) = rooted cs := by
  obtain ⟨pre, hp, hs⟩ := splitC_rooted h
  unfold clean
  rw [if_pos (rooted_isAbs cs), hs, cleanL_skip true pre [] cs hp]
  have := cleanL_keep true cs [] [] h
  rw [List.append_nil, List.append_nil] at this
  rw [this]; simp [cleanL, rooted]

/-- Cleaning an absolute path gives a rooted list of proper names. -/
theorem clean_abs {p : Str} (h : isAbs p = true) : ∃ cs, (∀ c ∈ cs, Normal c) ∧ clean p = rooted cs := by
  refine ⟨cleanL true [] (splitC p), cleanL_normal _ [] (by simp) (splitC_noSlash p), ?_⟩
  unfold clean; rw [if_pos h]; rfl

theorem clean_append_slash {cs : List Str} (h : ∀ c ∈ cs, Normal c) (b : Str) :
    clean (rooted cs ++ '/' :: b) = rooted (cleanL true cs.reverse (splitC b)) := by
  obtain ⟨pre, hp, hs⟩ := splitC_rooted h
  unfold clean
  rw [if_pos (show isAbs (rooted cs ++ '/' :: b) = true from rfl), splitC_append, hs, List.append_assoc, cleanL_skip true pre [] _ hp, cleanL_keep true cs [] _ h,
    List.append_nil]
  rfl

theorem join_rooted {cs : List Str} (h : ∀ c ∈ cs, Normal c) (b : Str) :
    join (rooted cs) b = rooted (cleanL true cs.reverse (splitC b)) := by
  unfold join
  rw [if_neg (by simp [rooted])]
  by_cases hb : b = []
  · subst hb
    rw [if_pos rfl, clean_rooted h]
    simp [splitC, cleanL]
  · rw [if_neg hb]; exact clean_append_slash h b

theorem absP_abs {cwd : Str} (hc : isAbs cwd = true) (p : Str) :
    ∃ cs, (∀ c ∈ cs, Normal c) ∧ absP cwd p = rooted cs := by
  unfold absP
  by_cases hp : isAbs p = true
  · rw [if_pos hp]; exact clean_abs hp
  · rw [if_neg hp]
    have hne : cwd ≠ [] := by intro e; rw [e] at hc; simp [isAbs] at hc
    unfold join
    rw [if_neg hne]
    split
    · exact clean_abs hc
    · apply clean_abs
      cases cwd with
      | nil => exact absurd rfl hne
      | cons c cs => simpa [isAbs] using hc

theorem upToSlash_append {a b : Str} (hb : '/' ∉ b) : upToSlash (a ++ '/' :: b) = a ++ ['/'] := by
  induction a with
  | nil =>
    simp only [List.nil_append, upToSlash, List.mem_cons, true_or, if_true]
    have : upToSlash b = [] := by
      cases b with
      | nil => rfl
      | cons c cs => simp only [upToSlash]; rw [if_neg hb]
    rw [this]
  | cons c cs ih =>
    simp only [List.cons_append, upToSlash]
    rw [if_pos (by simp), ih]

theorem rooted_concat (cs : List Str) (c : Str) : rooted (cs ++ [c]) = (if cs = [] then [] else rooted cs) ++ '/' :: c := by
  unfold rooted
  by_cases h : cs = []
  · subst h; simp [joinS]
  · rw [joinS_append cs [c] h (by simp), if_neg h]; simp [joinS]

/-- The directory of a cleaned absolute path drops the last name. -/
theorem dir_rooted {cs : List Str} {c : Str} (h : ∀ x ∈ cs ++ [c], Normal x) : dir (rooted (cs ++ [c])) = rooted cs := by
  have hcs : ∀ x ∈ cs, Normal x := fun x hx => h x (by simp [hx])
  have hc : Normal c := h c (by simp)
  unfold dir
  rw [rooted_concat, upToSlash_append hc.2.2.2]
  by_cases he : cs = []
  · subst he; decide
  · rw [if_neg he, clean_append_slash hcs []]
    simp [splitC, cleanL]

end Ferryd.Paths
