import Verif.Server
import Verif.PropsLayout
/-!
# PropsServer: uploads are noticed (C77), the daemon serves again (C84)
-/
namespace Ferryd.Server
open Ferryd.Paths Ferryd.Jobs

namespace Spec
/-- A manifest, by its file name. -/
def IsManifest (name : Str) : Prop := ∃ pre, name = pre ++ ['.', 't', 'r', 'a', 'm']

instance (name : Str) : Decidable (IsManifest name) :=
  decidable_of_iff (tram <:+ name) ⟨fun ⟨p, h⟩ => ⟨p, h.symm⟩, fun ⟨p, h⟩ => ⟨p, h.symm⟩⟩

/-- Names are proper file names. -/
def Proper : Ev → Prop
  | .written n => Normal n
  | .renamed n => Normal n
  | .below s n => Normal s ∧ Normal n
  | _ => True

instance (e : Ev) : Decidable (Proper e) := by cases e <;> unfold Proper <;> infer_instance

/-- The manifests put into the incoming directory, in order. -/
def placed : List Ev → List Str
  | [] => []
  | .written n :: h => if IsManifest n then n :: placed h else placed h
  | .renamed n :: h => if IsManifest n then n :: placed h else placed h
  | _ :: h => placed h

/-- The manifests written there while the daemon was running (`up` says whether it runs at the beginning). -/
def writtenWhileUp : Bool → List Ev → List Str
  | _, [] => []
  | _, .start :: h => writtenWhileUp true h
  | _, .stop :: h => writtenWhileUp false h
  | up, .written n :: h => if up ∧ IsManifest n then n :: writtenWhileUp up h else writtenWhileUp up h
  | up, .renamed _ :: h => writtenWhileUp up h
  | up, .below _ _ :: h => writtenWhileUp up h
end Spec
open Spec

/-- The full claim: a manifest put into the incoming directory has been queued once the daemon runs. -/
def C77_statement : Prop :=
  ∀ (bs : List Str) (h : List Ev), (∀ c ∈ bs, Normal c) → (∀ e ∈ h, Proper e) → ∀ n ∈ placed h,
    Request.transit (rooted (bs ++ [n])) ∈ (Watch.run (rooted bs) (h ++ [.start])).pushed

/-- A manifest uploaded while the daemon is down is never looked at. -/
theorem C77_violated : ¬ C77_statement := by
  intro h
  have := h [['i']] [.written ['a', '.', 't', 'r', 'a', 'm']] (by decide) (by decide) ['a', '.', 't', 'r', 'a', 'm'] (by decide)
  revert this
  decide +kernel

/-- Neither is one that is renamed into the directory while it runs. -/
theorem C77_violated_rename : ¬ C77_statement := by
  intro h
  have := h [['i']] [.start, .renamed ['a', '.', 't', 'r', 'a', 'm']] (by decide) (by decide) ['a', '.', 't', 'r', 'a', 'm'] (by decide)
  revert this
  decide +kernel

theorem tram_path {bs : List Str} {n : Str} : tram <:+ rooted (bs ++ [n]) ↔ IsManifest n := by
  rw [rooted_concat]
  generalize (if bs = [] then [] else rooted bs) = pre
  constructor
  · rintro ⟨t, ht⟩
    rcases List.append_eq_append_iff.mp ht with ⟨a, h1, h2⟩ | ⟨a, h1, h2⟩
    · have : '/' ∈ tram := by rw [h2]; simp
      exact absurd this (by decide)
    · cases a with
      | nil => simp [tram] at h2
      | cons c a =>
        simp at h2
        exact ⟨a, h2.2⟩
  · rintro ⟨p, rfl⟩
    exact ⟨pre ++ '/' :: p, by simp [tram]⟩

theorem step_written {bs : List Str} (hb : ∀ c ∈ bs, Normal c) (w : Watch) {n : Str} (hn : Normal n) :
    w.step (rooted bs) (.written n) =
      if w.up ∧ IsManifest n then { w with pushed := w.pushed ++ [.transit (rooted (bs ++ [n]))] } else w := by
  have hj := Layout.join_rooted_normal hb hn
  have hd := dir_rooted (cs := bs) (c := n) (by
    intro x hx; simp at hx; rcases hx with hx | rfl
    · exact hb x hx
    · exact hn)
  have hbase := Layout.base_rooted (cs := bs) hn
  simp only [Watch.step, event, Option.bind_some, onEvent, hj, hd, hbase, tram_path]
  by_cases hu : w.up = true
  · by_cases hm : IsManifest n
    · simp [hu, hm]
    · simp [hu, hm]
  · simp [hu]

theorem step_renamed {bs : List Str} (w : Watch) (n : Str) : w.step (rooted bs) (.renamed n) = w := by
  simp only [Watch.step, event, Option.bind_some, onEvent]
  cases w.up <;> simp

theorem step_below {bs : List Str} (hb : ∀ c ∈ bs, Normal c) (w : Watch) {s n : Str} (hs : Normal s) (hn : Normal n) :
    w.step (rooted bs) (.below s n) = w := by
  have hb' : ∀ c ∈ bs ++ [s], Normal c := by
    intro x hx; simp at hx; rcases hx with hx | rfl
    · exact hb x hx
    · exact hs
  have hj := Layout.join_rooted_normal hb hs
  have hj2 := Layout.join_rooted_normal hb' hn
  have hd := dir_rooted (cs := bs ++ [s]) (c := n) (by
    intro x hx; simp only [List.mem_append, List.mem_singleton] at hx
    rcases hx with hx | rfl
    · exact hb' x (by simpa using hx)
    · exact hn)
  have hne : rooted (bs ++ [s]) ≠ rooted bs := by
    intro h
    have := Layout.rooted_inj hb' hb h
    have := congrArg List.length this
    simp at this
  simp only [Watch.step, event, Option.bind_some, onEvent, hj, hj2, hd]
  cases w.up
  · simp
  · rw [if_pos rfl, if_pos hne]

/-- C77, for manifests written in the incoming directory while the daemon runs: each is queued, once for each time it is
written, in order; and nothing else is (nothing that is renamed there, no other file, nothing in directories below). -/
theorem C77_watch_partial {bs : List Str} (hb : ∀ c ∈ bs, Normal c) {h : List Ev} (hp : ∀ e ∈ h, Proper e) :
    (Watch.run (rooted bs) h).pushed = (writtenWhileUp false h).map (fun n => Request.transit (rooted (bs ++ [n]))) := by
  have gen : ∀ (h : List Ev) (w : Watch), (∀ e ∈ h, Proper e) →
      (h.foldl (Watch.step (rooted bs)) w).pushed =
        w.pushed ++ (writtenWhileUp w.up h).map (fun n => Request.transit (rooted (bs ++ [n]))) := by
    intro h
    induction h with
    | nil => intro w _; simp [writtenWhileUp]
    | cons e h ih =>
      intro w hp
      have hpe := hp e (by simp)
      have hph : ∀ e ∈ h, Proper e := fun x hx => hp x (by simp [hx])
      rw [List.foldl_cons, ih _ hph]
      cases e with
      | start => simp [Watch.step, writtenWhileUp]
      | stop => simp [Watch.step, writtenWhileUp]
      | written n =>
        rw [step_written hb w hpe]
        by_cases hc : w.up = true ∧ IsManifest n
        · simp [hc, writtenWhileUp]
        · rw [if_neg hc]
          simp only [writtenWhileUp, if_neg hc]
      | renamed n => rw [step_renamed]; rfl
      | below s n => rw [step_below hb w hpe.1 hpe.2]; rfl
  have := gen h Watch.init hp
  simpa [Watch.run, Watch.init] using this

/-- Two uploads while the daemon runs, one of another file, one while it is down. -/
example : (∀ e ∈ [Ev.start, .written "a.tram".toList, .written "a.eopkg".toList, .written "b.tram".toList, .stop,
      .written "c.tram".toList], Proper e) ∧
    writtenWhileUp false [Ev.start, .written "a.tram".toList, .written "a.eopkg".toList, .written "b.tram".toList, .stop,
      .written "c.tram".toList] = ["a.tram".toList, "b.tram".toList] := by decide +kernel

/-! ## C84 -/

/-- The full claim: whenever the daemon is not running it can be started. -/
def C84_statement : Prop := ∀ (systemd : Bool) (h : List SockEv), (Sock.run systemd h).up = false →
  (Sock.run systemd (h ++ [.start])).up = true

/-- After a kill (or a job that panicked) the socket file keeps the daemon from starting. -/
theorem C84_violated : ¬ C84_statement := by
  intro h
  have := h false [.start, .kill] (by decide)
  revert this
  decide

theorem Sock.run_concat (b : Bool) (h : List SockEv) (e : SockEv) : Sock.run b (h ++ [e]) = (Sock.run b h).step b e := by
  simp [Sock.run]

namespace Spec
/-- The last daemon that ran ended in good order (or none ever ran), and no start failed since; `l` is how things stood before. -/
inductive EndedWell : List SockEv → Prop
  | never : EndedWell []
  | closed {h : List SockEv} (hr : (Sock.run false h).up = true) : EndedWell (h ++ [.close])
  | idle {h : List SockEv} (hw : EndedWell h) (e : SockEv) (he : e ≠ .start) (hf : e ≠ .fail) : EndedWell (h ++ [e])
end Spec

theorem Spec.EndedWell.state {h : List SockEv} (hw : EndedWell h) : Sock.run false h = ⟨false, false⟩ := by
  induction hw with
  | never => rfl
  | closed hr => rw [Sock.run_concat]; simp [Sock.step, hr]
  | @idle h hw e he hf ih =>
    rw [Sock.run_concat, ih]
    cases e with
    | start => exact absurd rfl he
    | close => rfl
    | kill => rfl
    | fail => exact absurd rfl hf

theorem sock_file {h : List SockEv} : (Sock.run false h).up = true → (Sock.run false h).file = true := by
  suffices ∀ (l : List SockEv) (s : Sock), (s.up = true → s.file = true) →
      ((l.foldl (Sock.step false) s).up = true → (l.foldl (Sock.step false) s).file = true) from
    this h _ (by simp)
  intro l
  induction l with
  | nil => intro s hs; exact hs
  | cons e l ih =>
    intro s hs
    apply ih
    cases e with
    | start =>
      obtain ⟨f, u⟩ := s
      cases f <;> cases u <;> simp_all [Sock.step]
    | close => simp only [Sock.step]; split <;> simp_all
    | kill => simp [Sock.step]
    | fail => simp only [Sock.step]; split <;> simp_all

/-- C84, exactly: with systemd the daemon can always be started again; without it, after a good end it can, and after
being killed, or after one start that failed for any reason, it cannot, however often one tries. -/
theorem C84_restart_partial (h : List SockEv) :
    ((Sock.run true h).up = false → (Sock.run true (h ++ [.start])).up = true) ∧
    (EndedWell h → (Sock.run false (h ++ [.start])).up = true) ∧
    ((Sock.run false h).up = true → ∀ n, (Sock.run false (h ++ [.kill] ++ List.replicate n .start)).up = false) ∧
    ((Sock.run false h).up = false → ∀ n, (Sock.run false (h ++ [.fail] ++ List.replicate n .start)).up = false) := by
  refine ⟨?_, ?_, ?_, ?_⟩
  · intro hu; rw [Sock.run_concat]; simp [Sock.step, hu]
  · intro hw; rw [Sock.run_concat, hw.state]; rfl
  · intro hu n
    have hf := sock_file hu
    have : ∀ n, Sock.run false (h ++ [.kill] ++ List.replicate n .start) = ⟨true, false⟩ := by
      intro n
      induction n with
      | zero => rw [List.replicate_zero, List.append_nil, Sock.run_concat]; simp [Sock.step, hf]
      | succ n ih => rw [List.replicate_succ', ← List.append_assoc, Sock.run_concat, ih]; rfl
    rw [this n]
  · intro hu n
    have : ∀ n, Sock.run false (h ++ [.fail] ++ List.replicate n .start) = ⟨true, false⟩ := by
      intro n
      induction n with
      | zero =>
        rw [List.replicate_zero, List.append_nil, Sock.run_concat]
        cases hs : Sock.run false h with
        | mk f u => rw [hs] at hu; simp only at hu; subst hu; rfl
      | succ n ih => rw [List.replicate_succ', ← List.append_assoc, Sock.run_concat, ih]; rfl
    rw [this n]

example : (Sock.run false []).up = false ∧ (Sock.run false [.start]).up = true := by decide

example : EndedWell [.start, .close] := .closed (h := [.start]) (by decide)

end Ferryd.Server
