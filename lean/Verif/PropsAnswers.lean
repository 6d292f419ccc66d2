import Verif.Answers
import Verif.PropsClient
/-!
# PropsAnswers: what a call reports is what happened (C151, C152)
-/
namespace Ferryd.Client
open Ferryd.Paths Ferryd.Jobs Spec

namespace Spec
/-- JSON decoding refuses a text that does not begin like an object or `null` (blanks in front allowed): nothing else
can be decoded into a structure. -/
def RefusesPlain (decode : Str → Except Str Resp) : Prop :=
  ∀ c t, c ∉ ['{', 'n', ' ', '\t', '\n', '\r'] → ∃ e, decode (c :: t) = .error e
/-- A line of plain text, not mistakable for JSON and short enough to be sent in one piece. -/
def PlainLine (e : Str) : Prop := (∃ c t, e = c :: t ∧ c ∉ ['{', 'n', ' ', '\t', '\n', '\r']) ∧ e.length < 2048
/-- A command line on which some call is made. -/
def Understood (cmd : Cmd) (args : List Str) : Prop := ∃ c, cmd.call args = some c
end Spec

/-! ## Routes -/

theorem lookupAll_change {m : Method} {comps : List Str} {h : Handler} {id : Str} (hl : lookup m comps = some (h, id)) :
    lookupAll m comps = some (.change h id) := by
  unfold lookupAll; rw [hl]

theorem lookupAll_none {m : Method} {comps : List Str} (hl : lookup m comps = none)
    (hp : ∀ r ∈ pageRoutes, r.1 ≠ comps) : lookupAll m comps = none := by
  unfold lookupAll; rw [hl]
  have : pageRoutes.find? (fun r => decide (r.1 = comps)) = none := by
    rw [List.find?_eq_none]; intro r hr; simpa using hp r hr
  simp only [this]
  split <;> rfl

/-- The components of a page are no path to a change. -/
theorem page_no_change {comps : List Str} {r : List Str × Page} (hr : r ∈ pageRoutes) (hc : r.1 = comps) (m : Method) :
    lookup m comps = none ∧ (if comps.getLast? = some [] then lookup m comps.dropLast else none) = none ∧
      lookup m (cleanL true [] comps) = none ∧ lookup m (cleanL true [] (comps ++ [[]])) = none := by
  subst hc
  simp only [pageRoutes, List.mem_cons, List.not_mem_nil, or_false] at hr
  rcases hr with rfl | rfl | rfl <;> cases m <;> decide +kernel

/-- A request that reaches a change does so with the reporting routes in place. -/
theorem routeAll_of_route {m : Method} {p : Str} {h : Handler} {id : Str} (hr : route m p = some (h, id)) :
    routeAll m p = .change h id := by
  unfold route at hr
  unfold routeAll
  split at hr
  case h_2 => cases hr
  case h_1 comps hs =>
    rw [hs]
    dsimp only
    cases hl : lookup m comps with
    | some x =>
      rw [hl] at hr
      cases hr
      rw [lookupAll_change hl]
    | none =>
      rw [hl] at hr
      dsimp only at hr
      have hn1 : ∀ r ∈ pageRoutes, r.1 ≠ comps := by
        intro r hrm hc
        obtain ⟨_, h2, h3, _⟩ := page_no_change hrm hc m
        rw [h2] at hr
        dsimp only at hr
        rw [h3] at hr
        cases hr
      rw [lookupAll_none hl hn1]
      dsimp only
      by_cases hlast : comps.getLast? = some []
      · rw [if_pos hlast] at hr ⊢
        cases hl2 : lookup m comps.dropLast with
        | some x =>
          rw [hl2] at hr
          cases hr
          rw [lookupAll_change hl2]
        | none =>
          rw [hl2] at hr
          dsimp only at hr
          have hn2 : ∀ r ∈ pageRoutes, r.1 ≠ comps.dropLast := by
            intro r hrm hc
            obtain ⟨_, _, _, h4⟩ := page_no_change hrm hc m
            have e : comps.dropLast ++ [[]] = comps := by
              obtain ⟨ys, rfl⟩ := List.getLast?_eq_some_iff.mp hlast
              rw [List.dropLast_concat]
            rw [e] at h4
            rw [h4] at hr
            cases hr
          rw [lookupAll_none hl2 hn2]
          dsimp only
          rw [lookupAll_change hr]; rfl
      · rw [if_neg hlast] at hr ⊢
        dsimp only at hr ⊢
        rw [lookupAll_change hr]; rfl

/-- `deliver` is what the handler does when the store works. -/
theorem run_of_deliver {S : Srv} {decode : Str → Except Str Resp} {c : Call} {a : Action} (hd : deliver c = some a) :
    ∃ p h id, urlPath c.request.2.1 = some p ∧ routeAll c.request.1 p = .change h id ∧ h.act id c.request.2.2 = a ∧
      c.run S decode = ((S.serve c.request.2.2 (.change h id)).1,
        readAnswer decode (S.serve c.request.2.2 (.change h id)).2) := by
  unfold deliver at hd
  cases hu : urlPath c.request.2.1 with
  | none => rw [hu] at hd; cases hd
  | some p =>
    rw [hu] at hd
    dsimp only at hd
    cases hr : route c.request.1 p with
    | none => rw [hr] at hd; cases hd
    | some x =>
      rw [hr] at hd
      have he : x.1.act x.2 c.request.2.2 = a := by simpa using hd
      refine ⟨p, x.1, x.2, rfl, routeAll_of_route hr, he, ?_⟩
      unfold Call.run
      rw [hu]
      dsimp only
      rw [routeAll_of_route (h := x.1) (id := x.2) hr]

theorem read_empty {decode : Str → Except Str Resp} : readAnswer decode ⟨200, [], 0⟩ = .ok := rfl

theorem read_plain {decode : Str → Except Str Resp} (hj : RefusesPlain decode) {n : Nat} {e : Str} (he : PlainLine e) :
    ∃ t, readAnswer decode (httpError n e) = .failed t := by
  obtain ⟨⟨c, t, rfl, hc⟩, hlen⟩ := he
  obtain ⟨x, hx⟩ := hj c (t ++ ['\n']) hc
  refine ⟨x, ?_⟩
  have hl : ((c :: t) ++ ['\n']).length ≤ 2048 := by
    rw [List.length_append]; simp only [List.length_cons, List.length_nil] at hlen ⊢; omega
  unfold readAnswer httpError written
  dsimp only
  rw [if_pos hl]
  have hp : ((((c :: t) ++ ['\n']).length : Nat) : Int) > 0 := by simp; omega
  rw [if_pos hp]
  rw [List.cons_append, hx]

/-! ## C151 -/

/-- The full claim: a call returns without an error exactly if the daemon did what the call says, and otherwise the
daemon did nothing. -/
def C151_statement : Prop := ∀ (S : Srv) (decode : Str → Except Str Resp), RefusesPlain decode → ∀ c : Call,
  ((c.run S decode).2 = .ok → (c.run S decode).1 = some (meaning c)) ∧
  ((c.run S decode).2 ≠ .ok → (c.run S decode).1 = none)

namespace Demo
/-- A decoder of the objects the daemon writes. -/
def decode : Str → Except Str Resp
  | '{' :: _ => .ok {}
  | _ => .error ['j', 's', 'o', 'n']
/-- A daemon in order. -/
def good : Srv := ⟨fun _ => none, fun _ => none, fun _ => .ok ['{', '}', '\n']⟩
/-- A daemon whose job store cannot be written. -/
def full : Srv := ⟨fun _ => some ['n', 'o', ' ', 's', 'p', 'a', 'c', 'e'], fun _ => some ['f', 'u', 'l', 'l'], fun _ => .ok ['{', '}', '\n']⟩
/-- A daemon that fails with a very long text. -/
def wordy : Srv := ⟨fun _ => none, fun _ => some (List.replicate 2048 'x'), fun _ => .ok ['{', '}', '\n']⟩
theorem decode_ok : RefusesPlain decode := by
  intro c t hc
  refine ⟨['j', 's', 'o', 'n'], ?_⟩
  unfold decode
  split
  · rename_i h; cases h; simp at hc
  · rfl
end Demo

/-- The job store refuses the job: nothing is queued, and the call returns without an error (handlers.go:143-306 do not
look at the result of the push, processor.go:110-116 drops it). -/
theorem C151_violated : ¬ C151_statement := by
  intro h
  have := (h Demo.full Demo.decode Demo.decode_ok (.createRepo ['a'])).1 (by decide +kernel)
  exact absurd this (by decide +kernel)

/-- A name with dots leads the request to a page that only reports: nothing is done, and the call returns without an
error. -/
theorem C151_violated_name :
    Call.run Demo.good Demo.decode (.createRepo ['.', '.', '/', '.', '.', '/', 's', 't', 'a', 't', 'u', 's']) = (none, .ok) := by
  decide +kernel

/-- An error text too long to be sent in one piece is not read: the reset failed, and the call returns without an
error. -/
theorem C151_violated_long : Call.run Demo.wordy Demo.decode .resetFailed = (none, .ok) := by decide +kernel

/-- What holds of every call, every name, every state of the daemon and every JSON decoder: a call that returns an
error has changed nothing. -/
theorem C151_error_changes_nothing_partial (S : Srv) (decode : Str → Except Str Resp) (c : Call)
    (h : (c.run S decode).2 ≠ .ok) : (c.run S decode).1 = none := by
  unfold Call.run at h ⊢
  cases hu : urlPath c.request.2.1 with
  | none => rfl
  | some p =>
    rw [hu] at h
    dsimp only at h ⊢
    generalize routeAll c.request.1 p = x at h ⊢
    cases x with
    | nowhere => rfl
    | page p => unfold Srv.serve; dsimp only; split <;> rfl
    | change hd id =>
      unfold Srv.serve at h ⊢
      dsimp only at h ⊢
      split
      · rename_i r hr
        rw [hr] at h
        dsimp only at h
        split
        · rename_i hp; rw [hp] at h; exact absurd read_empty h
        · rfl
      · rename_i a hna
        split
        · rename_i hp
          exfalso; apply h
          split
          · rename_i r hr; exact absurd hr (hna r)
          · rw [hp]; exact read_empty
        · rfl

/-- What is missing: names without a special meaning in a URL, a job store that takes the job, and error texts that
are lines of plain text (shorter than 2048 bytes and not beginning like JSON).  Then the call returns without an error
exactly if the daemon did what the call says, and with one exactly if it did nothing. -/
theorem C151_reported_partial {S : Srv} {decode : Str → Except Str Resp} (hj : RefusesPlain decode) {c : Call}
    (hp : ∀ r, inUrl c = some r → PlainName r) (hs : ∀ r, meaning c = .push r → S.push r = none)
    (he : ∀ a e, S.reset a = some e → PlainLine e) :
    ((c.run S decode).2 = .ok ↔ (c.run S decode).1 = some (meaning c)) ∧
    ((c.run S decode).2 ≠ .ok ↔ (c.run S decode).1 = none) := by
  have hd := C82_delivered_partial hp
  obtain ⟨p, h, id, _, _, hact, hrun⟩ := run_of_deliver (S := S) (decode := decode) hd
  rw [hrun]
  unfold Srv.serve
  dsimp only
  rw [hact]
  cases hm : meaning c with
  | push r =>
    dsimp only
    rw [hs r hm]
    exact ⟨⟨fun _ => rfl, fun _ => rfl⟩, ⟨fun hx => absurd read_empty hx, fun hx => by cases hx⟩⟩
  | resetCompleted =>
    dsimp only
    cases hr : S.reset .resetCompleted with
    | none => exact ⟨⟨fun _ => rfl, fun _ => rfl⟩, ⟨fun hx => absurd read_empty hx, fun hx => by cases hx⟩⟩
    | some e =>
      obtain ⟨t, ht⟩ := read_plain hj (n := 500) (he _ _ hr)
      dsimp only
      rw [ht]
      exact ⟨⟨(fun hx => nomatch hx), (fun hx => nomatch hx)⟩, ⟨fun _ => rfl, (fun _ hx => nomatch hx)⟩⟩
  | resetFailed =>
    dsimp only
    cases hr : S.reset .resetFailed with
    | none => exact ⟨⟨fun _ => rfl, fun _ => rfl⟩, ⟨fun hx => absurd read_empty hx, fun hx => by cases hx⟩⟩
    | some e =>
      obtain ⟨t, ht⟩ := read_plain hj (n := 500) (he _ _ hr)
      dsimp only
      rw [ht]
      exact ⟨⟨(fun hx => nomatch hx), (fun hx => nomatch hx)⟩, ⟨fun _ => rfl, (fun _ hx => nomatch hx)⟩⟩

/-- A path the daemon does not know is reported as an error, whatever the call. -/
theorem C151_unknown_path_partial {S : Srv} {decode : Str → Except Str Resp} (hj : RefusesPlain decode) {c : Call}
    (h : ∀ p, urlPath c.request.2.1 = some p → routeAll c.request.1 p = .nowhere) :
    (c.run S decode).1 = none ∧ (c.run S decode).2 ≠ .ok := by
  unfold Call.run
  cases hu : urlPath c.request.2.1 with
  | none => exact ⟨rfl, fun hx => by cases hx⟩
  | some p =>
    dsimp only
    rw [h p hu]
    obtain ⟨t, ht⟩ := read_plain hj (n := 404) (e := notFound)
      ⟨⟨'4', _, rfl, by decide⟩, by decide⟩
    refine ⟨rfl, ?_⟩
    show readAnswer decode (httpError 404 notFound) ≠ .ok
    rw [ht]; intro hx; cases hx

/-- A concrete case: a call to a daemon in order, one to a full one. -/
example : (Call.run Demo.good Demo.decode (.cloneRepo ['a'] ['b'] true)) = (some (.push (.cloneRepo ['a'] ['b'] true)), .ok) ∧
    (Call.run Demo.full Demo.decode .resetCompleted) = (none, .failed ['j', 's', 'o', 'n']) ∧
    (∀ r, inUrl (.cloneRepo ['a'] ['b'] true) = some r → PlainName r) ∧
    (∀ a e, Demo.full.reset a = some e → PlainLine e) ∧
    (∀ p, urlPath (Call.createRepo ['a', '/', 'b']).request.2.1 = some p →
      routeAll (Call.createRepo ['a', '/', 'b']).request.1 p = .nowhere) := by
  refine ⟨by decide +kernel, by decide +kernel, ?_, ?_, ?_⟩
  · intro r hr; cases hr; decide
  · intro a e he; cases he; exact ⟨⟨'f', _, rfl, by decide⟩, by decide⟩
  · intro p hp
    have e : urlPath (Call.createRepo ['a', '/', 'b']).request.2.1 = some (Call.createRepo ['a', '/', 'b']).request.2.1 := by
      decide +kernel
    rw [e] at hp; cases hp; decide +kernel

/-! ## C152 -/

/-- The full claim: a command ends with the exit status 0 exactly if it was understood and its call returned without an
error. -/
def C152_statement : Prop := ∀ (S : Srv) (decode : Str → Except Str Resp) (cmd : Cmd) (args : List Str),
  (cmd.run S decode args).2.exit = 0 ↔ ∃ c, cmd.call args = some c ∧ (c.run S decode).2 = .ok

/-- A command with a word too many does nothing and ends with the status 0. -/
theorem C152_violated : ¬ C152_statement := by
  intro h
  obtain ⟨c, hc, _⟩ := (h Demo.good Demo.decode .index [['a'], ['b']]).mp (by decide +kernel)
  exact absurd hc (by simp [Cmd.call])

/-- Missing: the exit status is always 0.  What holds: the command says nothing exactly if it was understood and its
call returned without an error; it writes to standard error if the call returned one; and if it was not understood
nothing was asked of the daemon and it writes to standard error, or, for `remove repo`, shows the help text. -/
theorem C152_told_partial (S : Srv) (decode : Str → Except Str Resp) (cmd : Cmd) (args : List Str) :
    let t := (cmd.run S decode args).2
    ((t.stderr = false ∧ t.help = false) ↔ ∃ c, cmd.call args = some c ∧ (c.run S decode).2 = .ok) ∧
    (∀ c, cmd.call args = some c → (cmd.run S decode args).1 = (c.run S decode).1 ∧
      (t.stderr = true ↔ (c.run S decode).2 ≠ .ok)) ∧
    (¬ Understood cmd args → (cmd.run S decode args).1 = none ∧
      (t.stderr = true ∨ (cmd = .removeRepo ∧ t.help = true))) := by
  unfold Cmd.run Understood
  cases hc : cmd.call args with
  | none =>
    dsimp only
    refine ⟨?_, ?_, ?_⟩
    · by_cases hr : cmd = .removeRepo
      · simp [hr]
      · simp [hr]
    · intro c h; cases h
    · intro _
      by_cases hr : cmd = .removeRepo
      · rw [if_pos hr]; exact ⟨rfl, .inr ⟨hr, rfl⟩⟩
      · rw [if_neg hr]; exact ⟨rfl, .inl rfl⟩
  | some c =>
    dsimp only
    cases hx : c.run S decode with
    | mk a r =>
      cases r with
      | ok => simp [hx]
      | failed t => simp [hx]

/-- A concrete case. -/
example : Understood (.clone true) [['a'], ['b']] ∧ ¬ Understood .index [['a'], ['b']] ∧
    ((Cmd.clone true).run Demo.good Demo.decode [['a'], ['b']]).2 = ⟨false, false, 0⟩ ∧
    (Cmd.resetFailed.run Demo.full Demo.decode []).2 = ⟨true, false, 0⟩ ∧
    (Cmd.removeRepo.run Demo.good Demo.decode []).2 = ⟨false, true, 0⟩ :=
  ⟨⟨_, rfl⟩, (fun ⟨_, h⟩ => nomatch h), by decide +kernel, by decide +kernel, by decide +kernel⟩

end Ferryd.Client
