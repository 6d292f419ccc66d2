import Verif.Client
import Verif.JobsParams
/-!
# PropsClient: commands reach the daemon as given (C82, C83)
-/
namespace Ferryd.Client
open Ferryd.Paths Ferryd.Jobs

/-! ## Specification -/

namespace Spec
/-- What each call means. -/
def meaning : Call → Action
  | .createRepo id => .push (.createRepo id)
  | .deleteRepo id => .push (.deleteRepo id)
  | .deltaRepo id => .push (.deltaRepo id)
  | .indexRepo id => .push (.indexRepo id)
  | .importPackages r ps => .push (.bulkAdd r ps)
  | .cloneRepo r n all => .push (.cloneRepo r n all)
  | .pullRepo s t => .push (.pullRepo s t)
  | .removeSource r s n => .push (.removeSource r s n)
  | .copySource r t s n k => .push (.copySource r t s n k)
  | .trimPackages r n => .push (.trimPackages r n)
  | .trimObsolete r => .push (.trimObsolete r)
  | .resetFailed => .resetFailed
  | .resetCompleted => .resetCompleted

/-- The repository name that is put into the URL, if any. -/
def inUrl : Call → Option Str
  | .createRepo r | .deleteRepo r | .deltaRepo r | .indexRepo r | .importPackages r _ | .cloneRepo r _ _
  | .pullRepo _ r | .removeSource r _ _ | .copySource r _ _ _ _ | .trimPackages r _ | .trimObsolete r => some r
  | .resetFailed | .resetCompleted => none

/-- A character without a special meaning in an URL path. -/
def PlainChar (c : Char) : Prop := c ≠ '/' ∧ c ≠ '?' ∧ c ≠ '#' ∧ c ≠ '%' ∧ 32 ≤ c.toNat ∧ c.toNat ≠ 127

/-- A name that is safe in an URL. -/
def PlainName (s : Str) : Prop := s ≠ [] ∧ s ≠ ['.'] ∧ s ≠ ['.', '.'] ∧ ∀ c ∈ s, PlainChar c

instance (c : Char) : Decidable (PlainChar c) := by unfold PlainChar; infer_instance
instance (s : Str) : Decidable (PlainName s) := by unfold PlainName; infer_instance
end Spec
open Spec

/-! ## URLs -/

/-- Characters the parser leaves alone. -/
def Inert (c : Char) : Prop := c ≠ '?' ∧ c ≠ '#' ∧ c ≠ '%' ∧ isCtl c = false

theorem cut_absent {c : Char} : ∀ {s : Str}, c ∉ s → cut c s = (s, [])
  | [], _ => rfl
  | d :: s, h => by
    have hd : d ≠ c := by rintro rfl; exact h (by simp)
    rw [cut, if_neg hd, cut_absent (s := s) (fun hm => h (by simp [hm]))]

theorem unescape_plain : ∀ {s : Str}, '%' ∉ s → unescape s = some s
  | [], _ => rfl
  | c :: s, h => by
    have hc : c ≠ '%' := by rintro rfl; exact h (by simp)
    have ih := unescape_plain (s := s) (fun hm => h (by simp [hm]))
    unfold unescape
    split
    · rename_i heq; cases heq
    · rename_i heq; cases heq; exact absurd rfl hc
    · rename_i heq; cases heq; exact absurd rfl hc
    · rename_i heq; cases heq; rw [ih]; rfl

theorem urlPath_inert {s : Str} (h : ∀ c ∈ s, Inert c) : urlPath s = some s := by
  unfold urlPath
  have h1 : s.any isCtl = false := by
    rw [List.any_eq_false]; intro c hc; rw [(h c hc).2.2.2]; simp
  have h2 := cut_absent (c := '#') (s := s) (fun hm => (h _ hm).2.1 rfl)
  have h3 := cut_absent (c := '?') (s := s) (fun hm => (h _ hm).1 rfl)
  rw [if_neg (by rw [h1]; simp), h2]
  simp only [unescape, h3]
  exact unescape_plain (fun hm => (h _ hm).2.2.1 rfl)

theorem mem_joinS {c : Char} : ∀ {l : List Str}, c ∈ joinS l → c = '/' ∨ ∃ x ∈ l, c ∈ x
  | [], h => by simp [joinS] at h
  | [x], h => .inr ⟨x, by simp, h⟩
  | x :: y :: r, h => by
    simp only [joinS, List.mem_append, List.mem_cons] at h
    rcases h with h | h | h
    · exact .inr ⟨x, by simp, h⟩
    · exact .inl h
    · rcases mem_joinS (l := y :: r) h with h | ⟨z, hz, hc⟩
      · exact .inl h
      · exact .inr ⟨z, by simp at hz ⊢; rcases hz with rfl | hz <;> simp [*], hc⟩

theorem inert_of_plain {c : Char} (h : PlainChar c) : Inert c :=
  ⟨h.2.1, h.2.2.1, h.2.2.2.1, by
    have h1 := h.2.2.2.2.1; have h2 := h.2.2.2.2.2
    simp [isCtl]; omega⟩

theorem normal_of_plain {s : Str} (h : PlainName s) : Normal s :=
  ⟨h.1, h.2.1, h.2.2.1, fun hm => (h.2.2.2 _ hm).1 rfl⟩

theorem urlPath_uri {lead : Bool} {names : List Str} {id : Str} (hn : ∀ x ∈ names, PlainName x) (hi : PlainName id) :
    urlPath (uri lead names id) = some (uri lead names id) := by
  apply urlPath_inert
  intro c hc
  have slash : Inert '/' := ⟨by decide, by decide, by decide, by decide⟩
  unfold uri at hc
  rcases List.mem_cons.mp hc with rfl | hc
  · exact slash
  · rcases List.mem_append.mp hc with hc | hc
    · cases lead <;> simp at hc
      subst hc; exact slash
    · rcases mem_joinS hc with rfl | ⟨x, hx, hc⟩
      · exact slash
      · rcases List.mem_append.mp hx with hx | hx
        · exact inert_of_plain ((hn x hx).2.2.2 c hc)
        · rw [List.mem_singleton] at hx; rw [hx] at hc; exact inert_of_plain (hi.2.2.2 c hc)

theorem splitC_uri {lead : Bool} {names : List Str} {id : Str} (hn : ∀ x ∈ names, PlainName x) (hi : PlainName id) :
    splitC (uri lead names id) = [] :: ((if lead then [[]] else []) ++ (names ++ [id])) := by
  have hj : splitC (joinS (names ++ [id])) = names ++ [id] := splitC_joinS _ (by simp) (by
    intro c hc
    rcases List.mem_append.mp hc with hc | hc
    · exact (normal_of_plain (hn c hc)).2.2.2
    · simp at hc; subst hc; exact (normal_of_plain hi).2.2.2)
  unfold uri
  cases lead with
  | false =>
    simp [splitC, hj]
  | true =>
    have h1 := splitC_append [] ('/' :: joinS (names ++ [id]))
    have h2 := splitC_append [] (joinS (names ++ [id]))
    simp only [List.nil_append] at h1 h2
    simp only [if_true, List.cons_append, List.nil_append]
    rw [h1, h2, hj]; rfl

/-! ## Routes -/

/-- The handler of the routes with these names before the parameter. -/
def handlerOf (m : Method) (names : List Str) : Option Handler :=
  paramRoutes.findSome? (fun r => if r.1 = m ∧ r.2.1 = names then some r.2.2 else none)

theorem matchParam_concat (names ns : List Str) (id : Str) :
    matchParam names (ns ++ [id]) = if ns = names ∧ id ≠ [] then some id else none := by
  simp [matchParam]

theorem findSome_param (m : Method) (ns : List Str) {id : Str} (hi : id ≠ []) :
    ∀ l : List (Method × List Str × Handler),
      l.findSome? (fun r => if r.1 = m then (matchParam r.2.1 (ns ++ [id])).map (r.2.2, ·) else none) =
      (l.findSome? (fun r => if r.1 = m ∧ r.2.1 = ns then some r.2.2 else none)).map (·, id)
  | [] => rfl
  | r :: l => by
    have ih := findSome_param m ns hi l
    simp only [List.findSome?_cons, matchParam_concat]
    by_cases hm : r.1 = m
    · by_cases hn : ns = r.2.1
      · simp [hm, hn, hi]
      · have hn' : ¬ r.2.1 = ns := fun h => hn h.symm
        simp only [hm, hn, hn', if_true, and_false, false_and, if_false, Option.map_none]
        simpa [matchParam_concat] using ih
    · simp only [hm, if_false, false_and]
      simpa [matchParam_concat] using ih

theorem lookup_param {m : Method} {ns : List Str} {id : Str} (hi : id ≠ []) {h : Handler} (hh : handlerOf m ns = some h) :
    lookup m (ns ++ [id]) = some (h, id) := by
  unfold lookup
  rw [findSome_param m ns hi paramRoutes]
  unfold handlerOf at hh
  rw [hh]; rfl

theorem lookup_double {m : Method} {ns : List Str} {id : Str} (hi : id ≠ []) (hh : handlerOf m ([] :: ns) = none) :
    lookup m ([] :: (ns ++ [id])) = none := by
  unfold lookup
  have := findSome_param m ([] :: ns) hi paramRoutes
  rw [List.cons_append] at this
  rw [this]
  unfold handlerOf at hh
  rw [hh]
  simp only [Option.map_none]
  have : fixedRoutes.find? (fun r => decide (r.1 = m ∧ r.2.1 = [] :: (ns ++ [id]))) = none := by
    rw [List.find?_eq_none]
    intro r hr
    simp only [fixedRoutes, List.mem_cons, List.not_mem_nil, or_false] at hr
    rcases hr with rfl | rfl <;> simp [cApi]
  rw [this]; rfl

theorem route_uri {m : Method} {lead : Bool} {names : List Str} {id : Str} (hn : ∀ x ∈ names, PlainName x)
    (hi : PlainName id) {h : Handler} (hh : handlerOf m names = some h) (hd : handlerOf m ([] :: names) = none) :
    route m (uri lead names id) = some (h, id) := by
  unfold route
  rw [splitC_uri hn hi]
  cases lead with
  | false =>
    simp only [Bool.false_eq_true, if_false, List.nil_append]
    rw [lookup_param hi.1 hh]
  | true =>
    simp only [if_true, List.cons_append, List.nil_append]
    rw [lookup_double hi.1 hd]
    have hl : ([] :: (names ++ [id])).getLast? ≠ some [] := by
      rw [← List.cons_append, List.getLast?_concat]
      intro h; cases h; exact hi.1 rfl
    simp only [hl, if_false]
    have h1 := cleanL_skip true [[]] [] (names ++ [id]) (by simp)
    have h2 := cleanL_keep true (names ++ [id]) [] [] (by
      intro c hc
      rcases List.mem_append.mp hc with hc | hc
      · exact normal_of_plain (hn c hc)
      · simp at hc; subst hc; exact normal_of_plain hi)
    have h3 : cleanL true [] ([] :: (names ++ [id])) = names ++ [id] := by
      have : ([[]] : List Str) ++ (names ++ [id]) = [] :: (names ++ [id]) := rfl
      rw [← this, h1]
      simpa [cleanL] using h2
    rw [h3, lookup_param hi.1 hh]

theorem deliver_of {c : Call} {m : Method} {lead : Bool} {names : List Str} {id : Str} {b : Body} {h : Handler}
    (hr : c.request = (m, uri lead names id, b)) (hn : ∀ x ∈ names, PlainName x) (hi : PlainName id)
    (hh : handlerOf m names = some h) (hd : handlerOf m ([] :: names) = none) :
    deliver c = some (h.act id b) := by
  unfold deliver
  rw [hr]
  simp only [urlPath_uri hn hi, route_uri hn hi hh hd, Option.map_some]

/-! ## C82 -/

/-- The full claim: whatever the repository is called, the daemon does what the call says. -/
def C82_statement : Prop := ∀ c : Call, (∀ r, inUrl c = some r → r ≠ []) → deliver c = some (meaning c)

/-- Asking to delete the repository `a?b` deletes the repository `a`. -/
theorem C82_violated : ¬ C82_statement := by
  intro h
  have := h (.deleteRepo ['a', '?', 'b']) (by intro r hr; cases hr; simp)
  have h2 : deliver (.deleteRepo ['a', '?', 'b']) = some (.push (.deleteRepo ['a'])) := by decide +kernel
  rw [h2] at this
  exact absurd this (by decide)

/-- Indexing `x/../y` indexes `y`. -/
example : deliver (.indexRepo ['x', '/', '.', '.', '/', 'y']) = some (.push (.indexRepo ['y'])) := by decide +kernel

/-- C82, for repository names without characters that are special in URLs: whatever the other arguments are, the daemon
does exactly what the call says. -/
theorem C82_delivered_partial {c : Call} (hp : ∀ r, inUrl c = some r → PlainName r) : deliver c = some (meaning c) := by
  cases c with
  | createRepo id =>
    have h := deliver_of (c := .createRepo id) (h := .createRepo) rfl (by decide) (hp _ rfl) (by decide) (by decide)
    exact h
  | deleteRepo id =>
    have h := deliver_of (c := .deleteRepo id) (h := .deleteRepo) rfl (by decide) (hp _ rfl) (by decide) (by decide)
    exact h
  | deltaRepo id =>
    have h := deliver_of (c := .deltaRepo id) (h := .deltaRepo) rfl (by decide) (hp _ rfl) (by decide) (by decide)
    exact h
  | indexRepo id =>
    have h := deliver_of (c := .indexRepo id) (h := .indexRepo) rfl (by decide) (hp _ rfl) (by decide) (by decide)
    exact h
  | importPackages r ps =>
    have h := deliver_of (c := .importPackages r ps) (h := .importPackages) rfl (by decide) (hp _ rfl) (by decide) (by decide)
    exact h
  | cloneRepo r n all =>
    have h := deliver_of (c := .cloneRepo r n all) (h := .cloneRepo) rfl (by decide) (hp _ rfl) (by decide) (by decide)
    exact h
  | pullRepo s t =>
    have h := deliver_of (c := .pullRepo s t) (h := .pullRepo) rfl (by decide) (hp _ rfl) (by decide) (by decide)
    exact h
  | removeSource r s n =>
    have h := deliver_of (c := .removeSource r s n) (h := .removeSource) rfl (by decide) (hp _ rfl) (by decide) (by decide)
    exact h
  | copySource r t s n k =>
    have h := deliver_of (c := .copySource r t s n k) (h := .copySource) rfl (by decide) (hp _ rfl) (by decide) (by decide)
    exact h
  | trimPackages r n =>
    have h := deliver_of (c := .trimPackages r n) (h := .trimPackages) rfl (by decide) (hp _ rfl) (by decide) (by decide)
    exact h
  | trimObsolete r =>
    have h := deliver_of (c := .trimObsolete r) (h := .trimObsolete) rfl (by decide) (hp _ rfl) (by decide) (by decide)
    exact h
  | resetFailed => decide +kernel
  | resetCompleted => decide +kernel

example : ∀ r, inUrl (.copySource ['u', 'n'] ['s', 't'] ['f', 'o', 'o'] 12 true) = some r → PlainName r := by
  intro r hr; cases hr; decide

/-- C82: the worker that later takes the job calls the manager with these very parameters (or, for an empty import or
a number that does not fit 32 bits, refuses it). -/
theorem C82_executed_partial {c : Call} (hp : ∀ r, inUrl c = some r → PlainName r) {r : Request}
    (hm : meaning c = .push r) :
    deliver c = some (.push r) ∧ newJobHandler r.type r.params = if r.Valid then some r else none :=
  ⟨by rw [C82_delivered_partial hp, hm], newJobHandler_request r⟩

/-! ## C83 -/

namespace Spec
/-- What a command line means. -/
inductive Means : Cmd → List Str → Call → Prop
  | createRepo (r : Str) : Means .createRepo [r] (.createRepo r)
  | removeRepo (r : Str) : Means .removeRepo [r] (.deleteRepo r)
  | delta (r : Str) : Means .delta [r] (.deltaRepo r)
  | index (r : Str) : Means .index [r] (.indexRepo r)
  | clone (full : Bool) (r n : Str) : Means (.clone full) [r, n] (.cloneRepo r n full)
  | pull (s t : Str) : Means .pull [s, t] (.pullRepo s t)
  /-- no release given: all of them -/
  | removeSourceAll (r s : Str) : Means .removeSource [r, s] (.removeSource r s (-1))
  | removeSource (r s : Str) (n : Int) (h : 1 ≤ n) (h2 : n < 2 ^ 31) : Means .removeSource [r, s, fmtInt n] (.removeSource r s n)
  | copySourceAll (k : Bool) (r t s : Str) : Means (.copySource k) [r, t, s] (.copySource r t s (-1) k)
  | copySource (k : Bool) (r t s : Str) (n : Int) (h : 1 ≤ n) (h2 : n < 2 ^ 31) :
      Means (.copySource k) [r, t, s, fmtInt n] (.copySource r t s n k)
  | trimPackages (r : Str) (n : Int) (h : 1 ≤ n) (h2 : n < 2 ^ 31) : Means .trimPackages [r, fmtInt n] (.trimPackages r n)
  | trimObsolete (r : Str) : Means .trimObsolete [r] (.trimObsolete r)
  | resetFailed : Means .resetFailed [] .resetFailed
  | resetCompleted : Means .resetCompleted [] .resetCompleted
end Spec

theorem parsePositive_fmt {n : Int} (h : 1 ≤ n) (h2 : n < 2 ^ 31) : parsePositive (fmtInt n) = some n := by
  unfold parsePositive
  rw [parseInt32_fmtInt, if_pos ⟨by omega, h2⟩]
  simp only
  rw [if_neg (show ¬ n < 1 by omega)]

/-- C83: a command line makes the call it means. -/
theorem C83_command {cmd : Cmd} {args : List Str} {c : Call} (h : Means cmd args c) : cmd.call args = some c := by
  cases h with
  | removeSource r s n h h2 => simp [Cmd.call, parsePositive_fmt h h2]
  | copySource k r t s n h h2 => simp [Cmd.call, parsePositive_fmt h h2]
  | trimPackages r n h h2 => simp [Cmd.call, parsePositive_fmt h h2]
  | _ => rfl

/-- C83: no command ever asks for a release or a number of packages that is not positive, except for the one meaning
"all releases" when none was given, nor for one that the daemon would refuse. -/
theorem C83_numbers {cmd : Cmd} {args : List Str} {c : Call} (h : cmd.call args = some c) :
    (∀ r s n, c = .removeSource r s n → (1 ≤ n ∧ n < 2 ^ 31) ∨ (n = -1 ∧ args = [r, s])) ∧
    (∀ r t s n k, c = .copySource r t s n k → (1 ≤ n ∧ n < 2 ^ 31) ∨ (n = -1 ∧ args = [r, t, s])) ∧
    (∀ r n, c = .trimPackages r n → 1 ≤ n ∧ n < 2 ^ 31) := by
  have pos : ∀ {s : Str} {n : Int}, parsePositive s = some n → 1 ≤ n ∧ n < 2 ^ 31 := by
    intro s n hs
    unfold parsePositive at hs
    split at hs
    · cases hs
    · rename_i m hm
      split at hs
      · cases hs
      · cases hs
        refine ⟨by omega, ?_⟩
        unfold parseInt32 at hm
        split at hm
        · cases hm
        · split at hm
          · cases hm
          · split at hm
            · split at hm
              · cases hm; omega
              · cases hm
            · split at hm
              · cases hm; omega
              · cases hm
  unfold Cmd.call at h
  split at h <;> first
    | (cases h; done)
    | (simp only [Option.some.injEq] at h; subst h; refine ⟨?_, ?_, ?_⟩ <;> intros <;> simp_all)
    | (simp only [Option.map_eq_some_iff] at h
       obtain ⟨m, hm, rfl⟩ := h
       have := pos hm
       refine ⟨?_, ?_, ?_⟩ <;> intros <;> simp_all)

example : Cmd.call .removeSource [['u'], ['n', 'a', 'n', 'o'], ['1', '7']] = some (.removeSource ['u'] ['n', 'a', 'n', 'o'] 17) ∧
    Cmd.call .removeSource [['u'], ['n', 'a', 'n', 'o'], ['0']] = none ∧
    Cmd.call .trimPackages [['u'], ['1', 'x']] = none := by decide +kernel

end Ferryd.Client
