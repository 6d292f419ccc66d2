import Verif.PropsDelta
/-!
# PropsDelta3: C90, delta files of other repositories
-/
namespace Ferryd
open Spec
variable {W : World} {s : St}

/-- C90 at full strength: an operation leaves every file served by a repository it is not directed at as it was. -/
def C90_statement : Prop := ∀ (W : World) (s : St), W.OK → Reachable W s → ∀ o : Op, o.Ok W → ∀ r, o.target ≠ some r →
  ∀ d id, (o.exec W.E s).fs.read (.repo r d id) = s.fs.read (.repo r d id)

namespace Demo
/-- The delta is also served by a clone; an import makes `unstable` forget it (C31). -/
def st5c : St := (Op.addPackages (S "unstable") [S "/up/a-3.eopkg"] false).exec E
  ((Op.clone (S "unstable") (S "mirror") true).exec E st5)
theorem reach5c : Reachable Demo.W st5c :=
  (reach5.step (.clone (S "unstable") (S "mirror") true) trivial).step
    (.addPackages (S "unstable") [S "/up/a-3.eopkg"] false)
    (show ∀ f ∈ [S "/up/a-3.eopkg"], Demo.W.isDelta (baseName f) = false by decide +kernel)
end Demo

/-- C90 is false of the code: the pool and the repositories share one inode for a delta.  When a repository that had forgotten
the delta (C31) references it again, linking fails as its file exists, the fallback truncates that inode (util.go:37-75), and
the other repositories that list the delta serve an empty file from then on. -/
theorem C90_violated : ¬ C90_statement := by
  intro h
  have := h Demo.W Demo.st5c Demo.ok Demo.reach5c (.refDelta (Demo.S "unstable") (Demo.S "a-1-2.delta.eopkg"))
    (show Demo.W.isDelta (Demo.S "a-1-2.delta.eopkg") = true by decide +kernel) (Demo.S "mirror")
    (by simp [Op.target]; decide +kernel) (Demo.S "a/a") (Demo.S "a-1-2.delta.eopkg")
  rw [show Demo.st5c.fs.read (.repo (Demo.S "mirror") (Demo.S "a/a") (Demo.S "a-1-2.delta.eopkg")) = some [8] by decide +kernel,
    show (Op.exec Demo.W.E Demo.st5c (.refDelta (Demo.S "unstable") (Demo.S "a-1-2.delta.eopkg"))).fs.read
      (.repo (Demo.S "mirror") (Demo.S "a/a") (Demo.S "a-1-2.delta.eopkg")) = some [] by decide +kernel] at this
  cases this

/-- C90, what holds: operations that reference no deltas (all but the delta jobs and full clones) change no file of another
repository; and whatever the operation, no file of another repository appears or disappears, and each has its proper
content or is empty. -/
theorem C90_other_files_partial (ok : W.OK) (h : Reachable W s) (o : Op) (ho : o.Ok W) (r : Str) (hr : o.target ≠ some r)
    (d id : Str) :
    let s' := o.exec W.E s
    (((∀ x b, o ≠ .refDelta x b) ∧ (∀ x b f t, o ≠ .addDelta x b f t) ∧ (∀ x y, o ≠ .clone x y true)) →
      s'.fs.read (.repo r d id) = s.fs.read (.repo r d id)) ∧
    (s'.fs.read (.repo r d id) = none ↔ s.fs.read (.repo r d id) = none) ∧
    (∀ c, s'.fs.read (.repo r d id) = some c → c = W.canon id ∨ c = []) := by
  intro s'
  have hu := Op.untouched ok (h.inv ok) o ho r hr
  refine ⟨fun hn => hu.file d id ?_, ?_, ?_⟩
  · intro ha
    cases o with
    | clone x y full => cases full with
      | true => exact absurd rfl (hn.2.2 x y)
      | false => cases ha
    | refDelta x b => exact absurd rfl (hn.1 x b)
    | addDelta x b f t => exact absurd rfl (hn.2.1 x b f t)
    | _ => cases ha
  · have := hu.fileTab d id
    unfold FS.read
    cases h1 : s'.fs.tab (.repo r d id) <;> cases h2 : s.fs.tab (.repo r d id) <;>
      simp_all [s']
  · intro c hc
    have hi := (h.step o ho).inv ok
    exact (hi.fs.content _ c rfl hc).imp_right And.right

example : Demo.st5c.fs.read (.repo (Demo.S "mirror") (Demo.S "a/a") (Demo.S "a-1-2.delta.eopkg")) = some [8] ∧
    (Op.exec Demo.W.E Demo.st5c (.trimPackages (Demo.S "unstable") 1)).fs.read
      (.repo (Demo.S "mirror") (Demo.S "a/a") (Demo.S "a-1-2.delta.eopkg")) = some [8] := by decide +kernel

end Ferryd
