import Verif.Demo
/-!
# Demo2: further concrete histories

Ties between releases (`st3`), obsolete packages with their debug packages (`st4`), a repository with a delta
(`st5`).
-/
namespace Ferryd.Demo

/-- `a-2b` is added first and published; `a-2` of the same release is then only available. -/
def hist3 : List Op :=
  [ upload "/up/a-1.eopkg", upload "/up/a-2.eopkg", upload "/up/a-2b.eopkg",
    .create (S "unstable"),
    .addPackages (S "unstable") [S "/up/a-1.eopkg", S "/up/a-2b.eopkg", S "/up/a-2.eopkg"] false ]
def st3 : St := runAll E St.init hist3
theorem hist3_ok : ∀ o ∈ hist3, o.Ok W := by
  unfold hist3
  refine List.forall_mem_cons.2 ⟨upload_ok _, List.forall_mem_cons.2 ⟨upload_ok _,
    List.forall_mem_cons.2 ⟨upload_ok _, List.forall_mem_cons.2 ⟨trivial, List.forall_mem_cons.2 ⟨?_, ?_⟩⟩⟩⟩⟩
  · show ∀ f ∈ [S "/up/a-1.eopkg", S "/up/a-2b.eopkg", S "/up/a-2.eopkg"], W.isDelta (baseName f) = false
    decide +kernel
  · intro o ho; cases ho
theorem reach3 : Reachable W st3 := ⟨hist3, hist3_ok, rfl⟩

/-- A repository whose distribution file marks `o` obsolete, holding `o`, two debug packages of `o`, and `b`. -/
def hist4 : List Op :=
  [ upload "/up/o-1.eopkg", upload "/up/o-dbginfo-1.eopkg", upload "/up/o-dbginfo-2.eopkg", upload "/up/b-1.eopkg",
    .create (S "unstable"), .putAsset (S "unstable") .distribution [100],
    .addPackages (S "unstable") [S "/up/o-1.eopkg", S "/up/o-dbginfo-1.eopkg", S "/up/o-dbginfo-2.eopkg",
      S "/up/b-1.eopkg"] false ]
def st4 : St := runAll E St.init hist4
theorem hist4_ok : ∀ o ∈ hist4, o.Ok W := by
  unfold hist4
  refine List.forall_mem_cons.2 ⟨upload_ok _, List.forall_mem_cons.2 ⟨upload_ok _,
    List.forall_mem_cons.2 ⟨upload_ok _, List.forall_mem_cons.2 ⟨upload_ok _,
    List.forall_mem_cons.2 ⟨trivial, List.forall_mem_cons.2 ⟨trivial, List.forall_mem_cons.2 ⟨?_, ?_⟩⟩⟩⟩⟩⟩⟩
  · show ∀ f ∈ [S "/up/o-1.eopkg", S "/up/o-dbginfo-1.eopkg", S "/up/o-dbginfo-2.eopkg",
      S "/up/b-1.eopkg"], W.isDelta (baseName f) = false
    decide +kernel
  · intro o ho; cases ho
theorem reach4 : Reachable W st4 := ⟨hist4, hist4_ok, rfl⟩

/-- One uploaded package and an empty repository. -/
def hist6 : List Op := [upload "/up/a-1.eopkg", .create (S "u")]
def st6 : St := runAll E St.init hist6
theorem hist6_ok : ∀ o ∈ hist6, o.Ok W := by
  unfold hist6
  exact List.forall_mem_cons.2 ⟨upload_ok _, List.forall_mem_cons.2 ⟨trivial, by intro o ho; cases ho⟩⟩
theorem reach6 : Reachable W st6 := ⟨hist6, hist6_ok, rfl⟩
/-- The `i`-th durable state while that package is imported. -/
def crashed6 (i : Nat) : St := (((mAddPackages E (S "u") [S "/up/a-1.eopkg"] false st6).tr[i]?).getD st6)
theorem crashed6_mem (i : Nat) (h : i < 5) : crashed6 i ∈ (mAddPackages E (S "u") [S "/up/a-1.eopkg"] false st6).tr := by
  have hl : (mAddPackages E (S "u") [S "/up/a-1.eopkg"] false st6).tr.length = 5 := by decide +kernel
  unfold crashed6
  rw [List.getElem?_eq_getElem (by omega)]
  exact List.getElem_mem _

/-- The demo history, then a delta from `a-1` to `a-2` is produced and added to "unstable", and release 3 is uploaded. -/
def hist5 : List Op := [ .stage (S "unstable") (S "a-1-2.delta.eopkg") [8],
  .addDelta (S "unstable") (S "a-1-2.delta.eopkg") (S "a-1.eopkg") (S "a-2.eopkg"), upload "/up/a-3.eopkg" ]
def st5 : St := runAll E st1 hist5
theorem hist5_ok : ∀ o ∈ hist1 ++ hist5, o.Ok W := by
  intro o ho
  rcases List.mem_append.1 ho with ho | ho
  · exact hist1_ok o ho
  · revert ho
    unfold hist5
    refine List.forall_mem_cons.2 ⟨?_, List.forall_mem_cons.2 ⟨?_, List.forall_mem_cons.2 ⟨upload_ok _, ?_⟩⟩⟩ o
    · show [8] = W.canon (S "a-1-2.delta.eopkg")
      decide +kernel
    · show _ ∧ _ ∧ _
      decide +kernel
    · intro o ho; cases ho
theorem reach5 : Reachable W st5 := ⟨hist1 ++ hist5, hist5_ok, by
  show runAll E (runAll E St.init hist1) hist5 = runAll E St.init (hist1 ++ hist5)
  unfold runAll; rw [List.foldl_append]⟩

end Ferryd.Demo
