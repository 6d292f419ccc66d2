import Verif.Handles
import Verif.Demo2
/-!
# PropsHandles: repository jobs leave no file open (C150)
-/
namespace Ferryd
open Spec

section
variable {α β γ : Type} {E : Env}

/-- Started with `d` open beyond `b`, the function leaves `e` open beyond `b` when it succeeds and `f` when it returns an error, and
never has more than `n` files open beyond `b`. (No code: a notion of the proofs.) -/
structure Acc (d e f : List Fd) (n : Nat) (hm : HM α) : Prop where
  ok : ∀ F x b a, x.fds = d ++ b → (hm F x).res = .ok a → (hm F x).now.fds = e ++ b
  err : ∀ F x b a, x.fds = d ++ b → (hm F x).res = .err a → (hm F x).now.fds = f ++ b
  peak : ∀ F x b, x.fds = d ++ b → (hm F x).now.peak ≤ max x.peak (b.length + n)

theorem Acc.pure {d f : List Fd} {n : Nat} (a : α) : Acc d d f n (pure a : HM α) :=
  ⟨fun _ _ _ _ h _ => h, fun _ _ _ _ _ h => (by cases h), fun _ _ _ _ => Nat.le_max_left _ _⟩

theorem Acc.calm {d : List Fd} {n : Nat} (m : M α) : Acc d d d n (Ferryd.calm m) :=
  ⟨fun _ _ _ _ h _ => h, fun _ _ _ _ h _ => h, fun _ _ _ _ => Nat.le_max_left _ _⟩

theorem Acc.throw {d e : List Fd} {n : Nat} (er : Err) : Acc d e d n (Ferryd.calm (throwE er : M α)) :=
  ⟨fun _ _ _ _ _ h => (by cases h), fun _ _ _ _ h _ => h, fun _ _ _ _ => Nat.le_max_left _ _⟩

theorem Acc.panic {d e f : List Fd} {n : Nat} : Acc d e f n (Ferryd.calm (panicM : M α)) :=
  ⟨fun _ _ _ _ _ h => (by cases h), fun _ _ _ _ _ h => (by cases h), fun _ _ _ _ => Nat.le_max_left _ _⟩

theorem Acc.step {d f : List Fd} {n : Nat} (g : St → St) : Acc d d f n (Ferryd.calm (stepM g)) :=
  ⟨fun _ _ _ _ h _ => h, fun _ _ _ _ _ h => (by cases h), fun _ _ _ _ => Nat.le_max_left _ _⟩

theorem Acc.get {d f : List Fd} {n : Nat} : Acc d d f n (Ferryd.calm getSt) :=
  ⟨fun _ _ _ _ h _ => h, fun _ _ _ _ _ h => (by cases h), fun _ _ _ _ => Nat.le_max_left _ _⟩

theorem Acc.fails {d f : List Fd} {n : Nat} : Acc d d f n hfails :=
  ⟨fun _ _ _ _ h _ => h, fun _ _ _ _ _ h => (by cases h), fun _ _ _ _ => Nat.le_max_left _ _⟩

theorem Acc.open {d : List Fd} {n : Nat} (h : Fd) (hn : d.length + 1 ≤ n) : Acc d (h :: d) d n (hopen h) := by
  constructor
  · intro F x b a hx hr
    unfold hopen at hr ⊢
    split at hr
    · cases hr
    · rename_i hF
      rw [if_neg hF]
      simp [hx]
  · intro F x b a hx hr
    unfold hopen at hr ⊢
    split at hr
    · rename_i hF
      rw [if_pos hF]
      exact hx
    · cases hr
  · intro F x b hx
    unfold hopen
    split
    · exact Nat.le_max_left _ _
    · show max x.peak (x.fds.length + 1) ≤ _
      rw [hx, List.length_append]
      omega

theorem Acc.close {d f : List Fd} {n : Nat} (h : Fd) : Acc (h :: d) d f n (hclose h) := by
  refine ⟨fun F x b a hx _ => ?_, fun _ _ _ _ _ h => (by cases h), fun _ _ _ _ => Nat.le_max_left _ _⟩
  show x.fds.erase h = d ++ b
  rw [hx]; simp

theorem Acc.bind {d e f g : List Fd} {n : Nat} {hm : HM α} {hf : α → HM β} (h1 : Acc d e f n hm) (h2 : ∀ a, Acc e g f n (hf a)) :
    Acc d g f n (hm >>= hf) := by
  have e1 : ∀ F x, (hm >>= hf) F x = HM.bind' hm hf F x := fun _ _ => rfl
  constructor
  · intro F x b a hx hr
    rw [e1] at hr ⊢
    unfold HM.bind' at hr ⊢
    cases hm1 : (hm F x).res with
    | ok c => rw [hm1] at hr; exact (h2 c).ok F _ b a (h1.ok F x b c hx hm1) hr
    | err c => rw [hm1] at hr; cases hr
    | panic => rw [hm1] at hr; cases hr
  · intro F x b a hx hr
    rw [e1] at hr ⊢
    unfold HM.bind' at hr ⊢
    cases hm1 : (hm F x).res with
    | ok c => rw [hm1] at hr; exact (h2 c).err F _ b a (h1.ok F x b c hx hm1) hr
    | err c => exact h1.err F x b c hx hm1
    | panic => rw [hm1] at hr; cases hr
  · intro F x b hx
    rw [e1]
    have hp := h1.peak F x b hx
    unfold HM.bind'
    cases hm1 : (hm F x).res with
    | ok c =>
      have := (h2 c).peak F _ b (h1.ok F x b c hx hm1)
      simp only
      omega
    | err c => exact hp
    | panic => exact hp

theorem Acc.defer {d : List Fd} {n : Nat} {h : Fd} {hm : HM α} (h1 : Acc (h :: d) (h :: d) (h :: d) n hm) :
    Acc (h :: d) d d n (hdefer h hm) := by
  constructor
  · intro F x b a hx hr
    show (hm F x).now.fds.erase h = d ++ b
    rw [h1.ok F x b a hx hr]; simp
  · intro F x b a hx hr
    show (hm F x).now.fds.erase h = d ++ b
    rw [h1.err F x b a hx hr]; simp
  · intro F x b hx
    exact h1.peak F x b hx

theorem Acc.ite {c : Prop} [Decidable c] {d e f : List Fd} {n : Nat} {a b : HM α} (h1 : Acc d e f n a) (h2 : Acc d e f n b) :
    Acc d e f n (if c then a else b) := by
  split
  · exact h1
  · exact h2

theorem Acc.forL {d : List Fd} {n : Nat} {f : γ → HM Unit} (hf : ∀ x, Acc d d d n (f x)) : ∀ l : List γ, Acc d d d n (hForL l f)
  | [] => .pure ()
  | x :: xs => (hf x).bind fun _ => Acc.forL hf xs

theorem acc_mapFile {d : List Fd} {n : Nat} (hn : d.length + 1 ≤ n) (p : Path) : Acc d (.map :: d) d n (hMapFile p) := by
  refine Acc.get.bind fun s => ?_
  cases s.fs.read p with
  | none => exact .throw _
  | some c =>
    exact (Acc.open _ hn).bind fun _ => Acc.fails.bind fun b1 => .ite ((Acc.close _).bind fun _ => .throw _)
      (Acc.fails.bind fun b2 => .ite ((Acc.close _).bind fun _ => .throw _) (.pure _))

theorem acc_sha1 {d : List Fd} {n : Nat} (hn : d.length + 1 ≤ n) (p : Path) : Acc d d d n (hFileSha1 E p) :=
  (acc_mapFile hn p).bind fun _ => .defer (.pure _)

theorem acc_sha256 {d : List Fd} {n : Nat} (hn : d.length + 1 ≤ n) (p : Path) : Acc d d d n (hFileSha256 E p) :=
  (acc_mapFile hn p).bind fun _ => .defer (.pure _)

theorem acc_copyFile {d : List Fd} {n : Nat} (hn : d.length + 2 ≤ n) (p q : Path) : Acc d d d n (hCopyFile p q) := by
  refine Acc.get.bind fun s => Acc.fails.bind fun b => .ite (.pure _) ?_
  cases s.fs.tab p with
  | none => exact .pure _
  | some i =>
    exact (Acc.open _ (by omega)).bind fun _ => .defer ((Acc.open _ (by simpa using hn)).bind fun _ => (Acc.step _).bind fun _ =>
      Acc.fails.bind fun _ => .ite ((Acc.close _).bind fun _ => .throw _) ((Acc.step _).bind fun _ => .close _))

theorem acc_linkOrCopy {d : List Fd} {n : Nat} (hn : d.length + 2 ≤ n) (p q : Path) (c : Bool) : Acc d d d n (hLinkOrCopy E p q c) := by
  refine .ite (acc_copyFile hn _ _) (Acc.get.bind fun s => ?_)
  cases s.fs.tab p with
  | none => exact acc_copyFile hn _ _
  | some i =>
    cases s.fs.tab q with
    | none => exact Acc.fails.bind fun b => .ite (.step _) (acc_copyFile hn _ _)
    | some j => exact acc_copyFile hn _ _

theorem acc_hOpen {d : List Fd} {n : Nat} (hn : d.length + 1 ≤ n) (p : Path) : Acc d (.zip :: d) d n (hOpen p) := by
  refine Acc.get.bind fun s => ?_
  cases s.fs.read p with
  | none => exact .throw _
  | some c => exact (Acc.open _ hn).bind fun _ => .pure _

theorem acc_readMetadata {d : List Fd} {n : Nat} (hn : d.length + 1 ≤ n) (p : Path) (c : Content) : Acc d d d n (hReadMetadata E p c) := by
  refine (Acc.open _ hn).bind fun _ => .defer ?_
  cases E.parse c with
  | bad => exact .throw _
  | crash => exact .panic
  | good m => exact .pure _

theorem acc_writeSum {d : List Fd} {n : Nat} (hn : d.length + 1 ≤ n) : Acc d d d n hWriteSum :=
  (Acc.open _ hn).bind fun _ => Acc.fails.bind fun _ => .ite ((Acc.close _).bind fun _ => .throw _)
    ((Acc.close _).bind fun _ => (Acc.open _ hn).bind fun _ => Acc.fails.bind fun _ => (Acc.close _).bind fun _ =>
      .ite (.throw _) (.pure _))

theorem acc_poolAddInternal {d : List Fd} {n : Nat} (hn : d.length + 2 ≤ n) (p : Pkg) (c : Bool) (di : Option DeltaInfo) :
    Acc d d d n (hPoolAddInternal E p c di) := by
  refine (Acc.calm _).bind fun o => ?_
  cases o with
  | some e => exact (Acc.calm _).bind fun _ => .pure _
  | none =>
    refine (Acc.calm _).bind fun s => ?_
    cases s.fs.read p.path with
    | none => exact .throw _
    | some c =>
      exact (Acc.calm _).bind fun _ => (acc_linkOrCopy hn _ _ _).bind fun _ => (acc_sha1 (by omega) _).bind fun _ =>
        .ite ((Acc.calm _).bind fun _ => .throw _) ((Acc.calm _).bind fun _ => .pure _)

theorem acc_poolAddDelta {d : List Fd} {n : Nat} (hn : d.length + 2 ≤ n) (p : Pkg) (a b : Str) (c : Bool) :
    Acc d d d n (hPoolAddDelta E p a b c) := by
  refine (Acc.calm _).bind fun o => ?_
  cases o with
  | some e => exact (Acc.calm _).bind fun _ => .pure _
  | none =>
    exact (Acc.calm _).bind fun _ => (Acc.calm _).bind fun _ => (Acc.calm _).bind fun _ => (Acc.calm _).bind fun _ =>
      acc_poolAddInternal hn _ _ _

theorem acc_refDelta {d : List Fd} {n : Nat} (hn : d.length + 2 ≤ n) (r id : Str) : Acc d d d n (hRefDelta E r id) :=
  (Acc.calm _).bind fun _ => (Acc.calm _).bind fun _ => (Acc.calm _).bind fun _ => .ite (.pure _)
    ((Acc.calm _).bind fun _ => (acc_linkOrCopy hn _ _ _).bind fun _ => .calm _)

theorem acc_addDelta {d : List Fd} {n : Nat} (hn : d.length + 3 ≤ n) (r : Str) (p : Path) (a b : Str) :
    Acc d d d n (hAddDelta E r p a b) :=
  (acc_hOpen (by omega) p).bind fun c => .defer ((acc_readMetadata (by simp; omega) p c).bind fun _ => (Acc.calm _).bind fun _ =>
    (Acc.calm _).bind fun _ => .ite (.pure _) ((acc_poolAddDelta (by simpa using hn) _ _ _ _).bind fun _ =>
      (acc_linkOrCopy (by simpa using hn) _ _ _).bind fun _ => .calm _))

theorem acc_refPackage {d : List Fd} {n : Nat} (hn : d.length + 2 ≤ n) (r id : Str) : Acc d d d n (hRefPackage E r id) := by
  refine (Acc.calm _).bind fun _ => (Acc.calm _).bind fun _ => (Acc.calm _).bind fun o => ?_
  cases o with
  | none => exact .pure _
  | some e => exact (Acc.calm _).bind fun _ => (acc_linkOrCopy hn _ _ _).bind fun _ => .calm _

theorem acc_addLocalPackage {d : List Fd} {n : Nat} (hn : d.length + 2 ≤ n) (r : Str) (p : Pkg) :
    Acc d d d n (hAddLocalPackage E r p) := by
  refine (Acc.calm _).bind fun _ => (Acc.calm _).bind fun o => ?_
  cases o with
  | none => exact .pure _
  | some e => exact (acc_poolAddInternal hn _ _ _).bind fun _ => (acc_linkOrCopy hn _ _ _).bind fun _ => .calm _

theorem acc_addPackage {d : List Fd} {n : Nat} (hn : d.length + 3 ≤ n) (r : Str) (p : Path) (st : Bool) :
    Acc d d d n (hAddPackage E r p st) := by
  have h2 : (Fd.zip :: d).length + 2 ≤ n := by simpa using hn
  refine (acc_hOpen (by omega) p).bind fun c => .defer ((acc_readMetadata (by simp; omega) p c).bind fun q =>
    .ite (acc_addLocalPackage h2 _ _) ((Acc.calm _).bind fun o => ?_))
  cases o with
  | none => exact acc_addLocalPackage h2 _ _
  | some l =>
    exact (Acc.calm _).bind fun _ => (Acc.calm _).bind fun _ => (Acc.calm _).bind fun _ => .ite (.throw _)
      (.ite (.throw _) (acc_addLocalPackage h2 _ _))

theorem acc_pullAsset {d : List Fd} {n : Nat} (hn : d.length + 2 ≤ n) (a b : Str) (x : Asset) : Acc d d d n (hPullAsset a b x) := by
  refine Acc.get.bind fun s => ?_
  cases s.fs.tab (.asset b x) with
  | none => exact .pure _
  | some i => exact acc_copyFile hn _ _

theorem acc_pullAssets {d : List Fd} {n : Nat} (hn : d.length + 2 ≤ n) (a b : Str) : Acc d d d n (hPullAssets a b) :=
  (acc_pullAsset hn _ _ _).bind fun _ => (acc_pullAsset hn _ _ _).bind fun _ => acc_pullAsset hn _ _ _

theorem acc_cloneFrom {d : List Fd} {n : Nat} (hn : d.length + 2 ≤ n) (a b : Str) (f : Bool) : Acc d d d n (hCloneFrom E a b f) :=
  (acc_pullAssets hn _ _).bind fun _ => (Acc.calm _).bind fun _ => (Acc.forL (fun _ => acc_refPackage hn _ _) _).bind fun _ =>
    .forL (fun _ => acc_refDelta hn _ _) _

theorem acc_pullFrom {d : List Fd} {n : Nat} (hn : d.length + 2 ≤ n) (a b : Str) : Acc d d d n (hPullFrom E a b) :=
  (acc_pullAssets hn _ _).bind fun _ => (Acc.calm _).bind fun _ => (Acc.calm _).bind fun _ =>
    (Acc.forL (fun _ => acc_refPackage hn _ _) _).bind fun _ => .pure _

theorem acc_copySourceFrom {d : List Fd} {n : Nat} (hn : d.length + 2 ≤ n) (a b c : Str) (k : Int) :
    Acc d d d n (hCopySourceFrom E a b c k) :=
  (Acc.calm _).bind fun _ => .ite (.throw _) (.forL (fun _ => acc_refPackage hn _ _) _)

theorem acc_initDistribution {d : List Fd} {n : Nat} (hn : d.length + 1 ≤ n) (r : Str) : Acc d d d n (hInitDistribution E r) := by
  refine Acc.get.bind fun s => ?_
  cases s.fs.read (.asset r .distribution) with
  | none => exact .pure _
  | some c =>
    refine (Acc.open _ hn).bind fun _ => .defer ?_
    cases E.parseDist c with
    | none => exact .throw _
    | some x => exact .pure _

theorem acc_emitAsset {d : List Fd} {n : Nat} (hn : d.length + 1 ≤ n) (p : Content → ParsedAsset) (r : Str) (a : Asset) :
    Acc d d d n (hEmitAsset p r a) := by
  refine Acc.get.bind fun s => ?_
  cases s.fs.read (.asset r a) with
  | none => exact .pure _
  | some c =>
    refine (Acc.open _ hn).bind fun _ => .defer ?_
    cases p c with
    | bad => exact .throw _
    | crash => exact .panic
    | good x => exact .pure _

theorem acc_emitIndex {d : List Fd} {n : Nat} (hn : d.length + 1 ≤ n) (r : Str) (o : Option (List Str)) :
    Acc d d d n (hEmitIndex E r o) :=
  (Acc.calm _).bind fun _ => (Acc.calm _).bind fun _ => (acc_emitAsset hn _ _ _).bind fun _ => (acc_emitAsset hn _ _ _).bind fun _ =>
    .pure _

theorem acc_indexRepo {d : List Fd} {n : Nat} (hn : d.length + 2 ≤ n) (r : Str) : Acc d d d n (hIndexRepo E r) := by
  have h1 : d.length + 1 ≤ n := by omega
  refine (acc_initDistribution h1 r).bind fun o => (Acc.open .index h1).bind fun _ =>
    (Acc.defer (acc_emitIndex (by simpa using hn) r o)).bind fun doc => (acc_writeSum h1).bind fun _ => (acc_writeSum h1).bind fun _ =>
    (acc_writeSum h1).bind fun _ => (acc_writeSum h1).bind fun _ => (acc_writeSum h1).bind fun _ => (acc_writeSum h1).bind fun _ =>
    Acc.get.bind fun s => (Acc.calm _).bind fun _ => ?_
  cases E.indexIO s.clock with
  | failBefore => exact .throw _
  | ok => exact .step _
  | failAfter => exact (Acc.step _).bind fun _ => .throw _

theorem acc_mIndex {d : List Fd} {n : Nat} (hn : d.length + 2 ≤ n) (r : Str) : Acc d d d n (hmIndex E r) :=
  (Acc.calm _).bind fun _ => acc_indexRepo hn r

theorem acc_trimObsolete {d : List Fd} {n : Nat} (hn : d.length + 1 ≤ n) (r : Str) : Acc d d d n (hTrimObsolete E r) := by
  refine (acc_initDistribution hn r).bind fun o => ?_
  cases o with
  | none => exact .throw _
  | some obs => exact (Acc.calm _).bind fun _ => (Acc.calm _).bind fun _ => .calm _

theorem acc_mAddPackages {d : List Fd} {n : Nat} (hn : d.length + 3 ≤ n) (r : Str) (fs : List Str) (st : Bool) :
    Acc d d d n (hmAddPackages E r fs st) :=
  (Acc.calm _).bind fun _ => (Acc.forL (fun _ => acc_addPackage hn _ _ _) _).bind fun _ => acc_mIndex (by omega) r

theorem acc_job {d : List Fd} {n : Nat} (hn : d.length + 3 ≤ n) (o : Op) : Acc d d d n (o.hrun E) := by
  have h2 : d.length + 2 ≤ n := by omega
  cases o with
  | create r => exact (Acc.calm _).bind fun _ => acc_mIndex h2 r
  | clone a b f =>
    exact (Acc.calm _).bind fun _ => (Acc.calm _).bind fun _ => (acc_cloneFrom h2 _ _ _).bind fun _ => acc_mIndex h2 _
  | pull a b =>
    exact (Acc.calm _).bind fun _ => (Acc.calm _).bind fun _ => (acc_pullFrom h2 _ _).bind fun _ => (acc_mIndex h2 _).bind fun _ =>
      (Acc.pure _).bind fun _ => .pure _
  | removeSource r k j => exact (Acc.calm _).bind fun _ => (Acc.calm _).bind fun _ => acc_mIndex h2 _
  | copySource a b k j sk =>
    exact (Acc.calm _).bind fun _ => (Acc.calm _).bind fun _ => (acc_copySourceFrom h2 _ _ _ _).bind fun _ =>
      .ite (acc_mIndex h2 _) (.pure _)
  | trimObsolete r => exact (Acc.calm _).bind fun _ => (acc_trimObsolete (by omega) _).bind fun _ => acc_mIndex h2 _
  | trimPackages r k => exact (Acc.calm _).bind fun _ => (Acc.calm _).bind fun _ => acc_mIndex h2 _
  | addPackages r fs st => exact acc_mAddPackages hn r fs st
  | index r => exact acc_mIndex h2 r
  | addDelta r x f t => exact (Acc.calm _).bind fun _ => acc_addDelta hn _ _ _ _
  | refDelta r x => exact (Acc.calm _).bind fun _ => acc_refDelta h2 _ _
  | _ => exact .calm _

theorem acc_newManifest {d : List Fd} {n : Nat} (hn : d.length + 1 ≤ n) (T : TramEnv) (p : Str) : Acc d d d n (hNewManifest T p) :=
  (Acc.open _ hn).bind fun _ => Acc.fails.bind fun _ => (Acc.close _).bind fun _ => .ite (.throw _) (.calm _)

theorem acc_transit {d : List Fd} {n : Nat} (hn : d.length + 3 ≤ n) (T : TramEnv) (p : Str) : Acc d d d n (hTransitJob E T p) :=
  (acc_newManifest (by omega) T p).bind fun m =>
    (Acc.forL (fun _ => (acc_sha256 (by omega) _).bind fun _ => .ite (.throw _) (.pure _)) _).bind fun _ => (Acc.calm _).bind fun _ =>
      (acc_mAddPackages hn _ _ _).bind fun _ => .calm _

/-! ## Where no system call fails, the jobs are those of `Verif.CoreModel` -/

/-- Without failing system calls the function does what the one without files does. (No code: a notion of the proofs.) -/
structure Tie (hm : HM α) (m : M α) : Prop where
  res : ∀ F x, (∀ k, F k = false) → (hm F x).res = (m x.st).res
  st : ∀ F x, (∀ k, F k = false) → (hm F x).now.st = (m x.st).st

/-- Without failing system calls the step just gives `a`. (No code: a notion of the proofs.) -/
structure Mere (hm : HM α) (a : α) : Prop where
  res : ∀ F x, (∀ k, F k = false) → (hm F x).res = .ok a
  st : ∀ F x, (∀ k, F k = false) → (hm F x).now.st = x.st

theorem Tie.pure (a : α) : Tie (pure a : HM α) (Pure.pure a) := ⟨fun _ _ _ => rfl, fun _ _ _ => rfl⟩
theorem Tie.calm (m : M α) : Tie (Ferryd.calm m) m := ⟨fun _ _ _ => rfl, fun _ _ _ => rfl⟩
theorem Mere.open (h : Fd) : Mere (hopen h) () :=
  ⟨fun F x hF => by unfold hopen; rw [hF]; rfl, fun F x hF => by unfold hopen; rw [hF]; rfl⟩
theorem Mere.close (h : Fd) : Mere (hclose h) () := ⟨fun _ _ _ => rfl, fun _ _ _ => rfl⟩
theorem Mere.fails : Mere hfails false := ⟨fun F x hF => by unfold hfails; rw [hF], fun _ _ _ => rfl⟩

theorem Tie.bind {hm : HM α} {m : M α} {hf : α → HM β} {f : α → M β} (h1 : Tie hm m) (h2 : ∀ a, Tie (hf a) (f a)) :
    Tie (hm >>= hf) (m >>= f) := by
  have e1 : ∀ F x, (hm >>= hf) F x = HM.bind' hm hf F x := fun _ _ => rfl
  have e2 : ∀ s, (m >>= f) s = M.bind' m f s := fun _ => rfl
  constructor
  · intro F x hF
    have a1 := h1.res F x hF
    have a2 := h1.st F x hF
    rw [e1, e2]
    unfold HM.bind' M.bind'
    cases hr : (m x.st).res with
    | ok c => rw [a1, hr]; dsimp only; rw [(h2 c).res F _ hF, a2]
    | err c => rw [a1, hr]
    | panic => rw [a1, hr]
  · intro F x hF
    have a1 := h1.res F x hF
    have a2 := h1.st F x hF
    rw [e1, e2]
    unfold HM.bind' M.bind'
    cases hr : (m x.st).res with
    | ok c => rw [a1, hr]; dsimp only; rw [(h2 c).st F _ hF, a2]
    | err c => rw [a1, hr]; exact a2
    | panic => rw [a1, hr]; exact a2

theorem Mere.bind {hm : HM α} {a : α} {hf : α → HM β} {f : M β} (h1 : Mere hm a) (h2 : Tie (hf a) f) : Tie (hm >>= hf) f := by
  have e1 : ∀ F x, (hm >>= hf) F x = HM.bind' hm hf F x := fun _ _ => rfl
  constructor
  · intro F x hF
    rw [e1]; unfold HM.bind'; rw [h1.res F x hF]; dsimp only; rw [h2.res F _ hF, h1.st F x hF]
  · intro F x hF
    rw [e1]; unfold HM.bind'; rw [h1.res F x hF]; dsimp only; rw [h2.st F _ hF, h1.st F x hF]

theorem Tie.defer {h : Fd} {hm : HM α} {m : M α} (h1 : Tie hm m) : Tie (hdefer h hm) m :=
  ⟨fun F x hF => h1.res F x hF, fun F x hF => h1.st F x hF⟩

theorem Tie.ite {c : Prop} [Decidable c] {a b : HM α} {m n : M α} (h1 : Tie a m) (h2 : Tie b n) :
    Tie (if c then a else b) (if c then m else n) := by
  split
  · exact h1
  · exact h2

theorem Tie.forL {f : γ → HM Unit} {g : γ → M Unit} (hf : ∀ x, Tie (f x) (g x)) : ∀ l : List γ, Tie (hForL l f) (Ferryd.forL l g)
  | [] => .pure ()
  | x :: xs => (hf x).bind fun _ => Tie.forL hf xs

/-- The monad law used to compare functions that are cut at different places. (No code: a notion of the proofs.) -/
theorem Tie.assoc {hm : HM α} {hf : α → HM β} {hg : β → HM γ} {m : M γ} (h : Tie (hm >>= fun a => hf a >>= hg) m) :
    Tie ((hm >>= hf) >>= hg) m := by
  have e : ((hm >>= hf) >>= hg) = (hm >>= fun a => hf a >>= hg) := by
    funext F x
    show HM.bind' (HM.bind' hm hf) hg F x = HM.bind' hm (fun a => HM.bind' (hf a) hg) F x
    unfold HM.bind'
    cases hr : (hm F x).res <;> simp only
  rw [e]; exact h

theorem Tie.throw {hg : α → HM β} (e : Err) : Tie ((Ferryd.calm (throwE e) : HM α) >>= hg) (throwE e) :=
  ⟨fun _ _ _ => rfl, fun _ _ _ => rfl⟩

theorem Tie.pureBind {hg : α → HM β} {a : α} {m : M β} (h : Tie (hg a) m) : Tie ((Pure.pure a : HM α) >>= hg) m :=
  ⟨fun F x hF => h.res F x hF, fun F x hF => h.st F x hF⟩

theorem tie_sha {f : Content → Str} (p : Path) : Tie (hMapFile p >>= fun c => hdefer .map (Pure.pure (f c))) (do
    let s ← getSt
    match s.fs.read p with
    | none => throwE .io
    | some c => if c = [] then throwE .io else Pure.pure (f c)) := by
  refine Tie.assoc ((Tie.calm _).bind fun s => ?_)
  cases s.fs.read p with
  | none => exact .throw _
  | some c =>
    refine Tie.assoc ((Mere.open _).bind (Tie.assoc (Mere.fails.bind ?_)))
    rw [if_neg (by simp)]
    refine Tie.assoc (Mere.fails.bind ?_)
    by_cases hc : c = []
    · dsimp only
      rw [if_pos (by simp [hc]), if_pos hc]
      exact Tie.assoc ((Mere.close _).bind (.throw _))
    · dsimp only
      rw [if_neg (by simp [hc]), if_neg hc]
      exact Tie.pureBind (.defer (.pure _))

theorem tie_copyFile (p q : Path) : Tie (hCopyFile p q) (copyFile p q) := by
  refine (Tie.calm _).bind fun s => Mere.fails.bind ?_
  rw [if_neg (by simp)]
  cases s.fs.tab p with
  | none => exact .pure _
  | some i =>
    refine (Mere.open _).bind (.defer ((Mere.open _).bind ((Tie.calm _).bind fun _ => Mere.fails.bind ?_)))
    rw [if_neg (by simp)]
    have : Tie (Ferryd.calm (stepM (fun s' => s'.setFs (s'.fs.setData (s.fs.openTrunc q).2 (s'.fs.data i)))) >>= fun _ => hclose .dst)
        (stepM (fun s' => s'.setFs (s'.fs.setData (s.fs.openTrunc q).2 (s'.fs.data i)))) := ⟨fun _ _ _ => rfl, fun _ _ _ => rfl⟩
    exact this

theorem tie_linkOrCopy (p q : Path) (c : Bool) : Tie (hLinkOrCopy E p q c) (linkOrCopy E p q c) := by
  refine .ite (tie_copyFile _ _) ((Tie.calm _).bind fun s => ?_)
  cases s.fs.tab p with
  | none => exact tie_copyFile _ _
  | some i =>
    cases s.fs.tab q with
    | some j => exact tie_copyFile _ _
    | none =>
      refine Mere.fails.bind ?_
      have e : (E.linkOk p q = true ∧ (!false) = true) = (E.linkOk p q = true) := by simp
      show Tie (if E.linkOk p q = true ∧ (!false) = true then _ else _) _
      by_cases hl : E.linkOk p q = true
      · rw [if_pos (by simp [hl])]
        show Tie _ (if E.linkOk p q = true then _ else _)
        rw [if_pos hl]; exact .calm _
      · rw [if_neg (by simp [hl])]
        show Tie _ (if E.linkOk p q = true then _ else _)
        rw [if_neg hl]; exact tie_copyFile _ _

/-- Opening a package and reading its metadata, then going on. (No code: a notion of the proofs.) -/
theorem tie_open {p : Path} {hg : Pkg → HM β} {g : Pkg → M β} (h : ∀ q, Tie (hg q) (g q)) :
    Tie (hOpen p >>= fun c => hdefer .zip (hReadMetadata E p c >>= hg)) (openPkg E p >>= g) := by
  have e : (openPkg E p >>= g) = (getSt >>= fun s => (match s.fs.read p with
      | none => throwE .io
      | some c => match E.parse c with
        | .bad => throwE .corrupt
        | .crash => panicM
        | .good m => Pure.pure ⟨p, p.base, m⟩ : M Pkg) >>= g) := by
    funext s
    exact congrFun (M.bind_assoc _ _ _) s
  rw [e]
  refine Tie.assoc ((Tie.calm _).bind fun s => ?_)
  cases s.fs.read p with
  | none => exact ⟨fun _ _ _ => rfl, fun _ _ _ => rfl⟩
  | some c =>
    refine Tie.assoc ((Mere.open _).bind (Tie.pureBind (.defer (Tie.assoc ((Mere.open _).bind ?_)))))
    refine (Tie.defer ?_).bind h
    dsimp only
    cases E.parse c with
    | bad => exact .calm _
    | crash => exact .calm _
    | good m => exact .pure _

theorem tie_poolAddInternal (p : Pkg) (c : Bool) (di : Option DeltaInfo) :
    Tie (hPoolAddInternal E p c di) (poolAddInternal E p c di) := by
  refine (Tie.calm _).bind fun o => ?_
  cases o with
  | some e => exact (Tie.calm _).bind fun _ => .pure _
  | none =>
    refine (Tie.calm _).bind fun s => ?_
    dsimp only
    cases s.fs.read p.path with
    | none => exact .calm _
    | some c =>
      exact (Tie.calm _).bind fun _ => (tie_linkOrCopy _ _ _).bind fun _ => (tie_sha _).bind fun _ =>
        .ite ((Tie.calm _).bind fun _ => .calm _) ((Tie.calm _).bind fun _ => .pure _)

theorem tie_poolAddDelta (p : Pkg) (a b : Str) (c : Bool) : Tie (hPoolAddDelta E p a b c) (poolAddDelta E p a b c) := by
  refine (Tie.calm _).bind fun o => ?_
  cases o with
  | some e => exact (Tie.calm _).bind fun _ => .pure _
  | none =>
    exact (Tie.calm _).bind fun _ => (Tie.calm _).bind fun _ => (Tie.calm _).bind fun _ => (Tie.calm _).bind fun _ =>
      tie_poolAddInternal _ _ _

theorem tie_refDelta (r id : Str) : Tie (hRefDelta E r id) (refDelta E r id) :=
  (Tie.calm _).bind fun _ => (Tie.calm _).bind fun _ => (Tie.calm _).bind fun _ => .ite (.pure _)
    ((Tie.calm _).bind fun _ => (tie_linkOrCopy _ _ _).bind fun _ => .calm _)

theorem tie_addDelta (r : Str) (p : Path) (a b : Str) : Tie (hAddDelta E r p a b) (addDelta E r p a b) :=
  tie_open fun _ => (Tie.calm _).bind fun _ => (Tie.calm _).bind fun _ => .ite (.pure _) ((tie_poolAddDelta _ _ _ _).bind fun _ =>
    (tie_linkOrCopy _ _ _).bind fun _ => .calm _)

theorem tie_refPackage (r id : Str) : Tie (hRefPackage E r id) (refPackage E r id) := by
  refine (Tie.calm _).bind fun _ => (Tie.calm _).bind fun _ => (Tie.calm _).bind fun o => ?_
  cases o with
  | none => exact .pure _
  | some e => exact (Tie.calm _).bind fun _ => (tie_linkOrCopy _ _ _).bind fun _ => .calm _

theorem tie_addLocalPackage (r : Str) (p : Pkg) : Tie (hAddLocalPackage E r p) (addLocalPackage E r p) := by
  refine (Tie.calm _).bind fun _ => (Tie.calm _).bind fun o => ?_
  cases o with
  | none => exact .pure _
  | some e => exact (tie_poolAddInternal _ _ _).bind fun _ => (tie_linkOrCopy _ _ _).bind fun _ => .calm _

theorem tie_addPackage (r : Str) (p : Path) (st : Bool) : Tie (hAddPackage E r p st) (addPackage E r p st) := by
  refine tie_open fun q => .ite (tie_addLocalPackage _ _) ((Tie.calm _).bind fun o => ?_)
  cases o with
  | none => exact tie_addLocalPackage _ _
  | some l =>
    exact (Tie.calm _).bind fun _ => (Tie.calm _).bind fun _ => (Tie.calm _).bind fun _ => .ite (.calm _)
      (.ite (.calm _) (tie_addLocalPackage _ _))

theorem tie_pullAsset (a b : Str) (x : Asset) : Tie (hPullAsset a b x) (pullAsset a b x) := by
  refine (Tie.calm _).bind fun s => ?_
  cases s.fs.tab (.asset b x) with
  | none => exact .pure _
  | some i => exact tie_copyFile _ _

theorem tie_pullAssets (a b : Str) : Tie (hPullAssets a b) (pullAssets a b) :=
  (tie_pullAsset _ _ _).bind fun _ => (tie_pullAsset _ _ _).bind fun _ => tie_pullAsset _ _ _

theorem tie_cloneFrom (a b : Str) (f : Bool) : Tie (hCloneFrom E a b f) (cloneFrom E a b f) :=
  (tie_pullAssets _ _).bind fun _ => (Tie.calm _).bind fun _ => (Tie.forL (fun _ => tie_refPackage _ _) _).bind fun _ =>
    .forL (fun _ => tie_refDelta _ _) _

theorem tie_pullFrom (a b : Str) : Tie (hPullFrom E a b) (pullFrom E a b) :=
  (tie_pullAssets _ _).bind fun _ => (Tie.calm _).bind fun _ => (Tie.calm _).bind fun _ =>
    (Tie.forL (fun _ => tie_refPackage _ _) _).bind fun _ => .pure _

theorem tie_copySourceFrom (a b c : Str) (k : Int) : Tie (hCopySourceFrom E a b c k) (copySourceFrom E a b c k) :=
  (Tie.calm _).bind fun _ => .ite (.calm _) (.forL (fun _ => tie_refPackage _ _) _)

theorem tie_initDistribution (r : Str) : Tie (hInitDistribution E r) (initDistribution E r) := by
  refine (Tie.calm _).bind fun s => ?_
  cases s.fs.read (.asset r .distribution) with
  | none => exact .pure _
  | some c =>
    refine (Mere.open _).bind (.defer ?_)
    dsimp only
    cases E.parseDist c with
    | none => exact .calm _
    | some x => exact .pure _

theorem tie_emitAsset (p : Content → ParsedAsset) (r : Str) (a : Asset) : Tie (hEmitAsset p r a) (emitAsset p r a) := by
  refine (Tie.calm _).bind fun s => ?_
  cases s.fs.read (.asset r a) with
  | none => exact .pure _
  | some c =>
    refine (Mere.open _).bind (.defer ?_)
    dsimp only
    cases p c with
    | bad => exact .calm _
    | crash => exact .calm _
    | good x => exact .pure _

theorem tie_emitIndex (r : Str) (o : Option (List Str)) : Tie (hEmitIndex E r o) (emitIndex E r o) :=
  (Tie.calm _).bind fun _ => (Tie.calm _).bind fun _ => (tie_emitAsset _ _ _).bind fun _ => (tie_emitAsset _ _ _).bind fun _ =>
    .pure _

theorem mere_writeSum : Mere hWriteSum () := by
  have h : Tie hWriteSum (Pure.pure ()) := by
    refine (Mere.open _).bind (Mere.fails.bind ?_)
    rw [if_neg (by simp)]
    refine (Mere.close _).bind ((Mere.open _).bind (Mere.fails.bind ((Mere.close _).bind ?_)))
    rw [if_neg (by simp)]
    exact .pure _
  exact ⟨fun F x hF => h.res F x hF, fun F x hF => h.st F x hF⟩

theorem tie_indexRepo (r : Str) : Tie (hIndexRepo E r) (indexRepo E r) := by
  refine (tie_initDistribution r).bind fun o => (Mere.open .index).bind ((Tie.defer (tie_emitIndex r o)).bind fun doc =>
    mere_writeSum.bind (mere_writeSum.bind (mere_writeSum.bind (mere_writeSum.bind (mere_writeSum.bind (mere_writeSum.bind
      ((Tie.calm _).bind fun s => (Tie.calm _).bind fun _ => ?_)))))))
  cases E.indexIO s.clock with
  | failBefore => exact .calm _
  | ok => exact .calm _
  | failAfter => exact (Tie.calm _).bind fun _ => .calm _

theorem tie_mIndex (r : Str) : Tie (hmIndex E r) (mIndex E r) := (Tie.calm _).bind fun _ => tie_indexRepo r

theorem tie_trimObsolete (r : Str) : Tie (hTrimObsolete E r) (trimObsolete E r) := by
  refine (tie_initDistribution r).bind fun o => ?_
  cases o with
  | none => exact .calm _
  | some obs => exact (Tie.calm _).bind fun _ => (Tie.calm _).bind fun _ => .calm _

theorem tie_mAddPackages (r : Str) (fs : List Str) (st : Bool) : Tie (hmAddPackages E r fs st) (mAddPackages E r fs st) :=
  (Tie.calm _).bind fun _ => (Tie.forL (fun _ => tie_addPackage _ _ _) _).bind fun _ => tie_mIndex r

theorem tie_job (o : Op) : Tie (o.hrun E) (o.run E) := by
  cases o with
  | create r => exact (Tie.calm _).bind fun _ => tie_mIndex r
  | clone a b f => exact (Tie.calm _).bind fun _ => (Tie.calm _).bind fun _ => (tie_cloneFrom _ _ _).bind fun _ => tie_mIndex _
  | pull a b =>
    have e : discard (mPullRepo E a b) = (do getRepo a; getRepo b; let c ← pullFrom E b a; mIndex E b; let _ ← pure c; pure ()) := by
      unfold discard mPullRepo
      simp only [M.bind_assoc]
    show Tie _ (discard (mPullRepo E a b))
    rw [e]
    exact (Tie.calm _).bind fun _ => (Tie.calm _).bind fun _ => (tie_pullFrom _ _).bind fun _ => (tie_mIndex _).bind fun _ =>
      (Tie.pure _).bind fun _ => .pure _
  | removeSource r k j => exact (Tie.calm _).bind fun _ => (Tie.calm _).bind fun _ => tie_mIndex _
  | copySource a b k j sk =>
    exact (Tie.calm _).bind fun _ => (Tie.calm _).bind fun _ => (tie_copySourceFrom _ _ _ _).bind fun _ => .ite (tie_mIndex _) (.pure _)
  | trimObsolete r => exact (Tie.calm _).bind fun _ => (tie_trimObsolete _).bind fun _ => tie_mIndex _
  | trimPackages r k => exact (Tie.calm _).bind fun _ => (Tie.calm _).bind fun _ => tie_mIndex _
  | addPackages r fs st => exact tie_mAddPackages r fs st
  | index r => exact tie_mIndex r
  | addDelta r x f t => exact (Tie.calm _).bind fun _ => tie_addDelta _ _ _ _
  | refDelta r x => exact (Tie.calm _).bind fun _ => tie_refDelta _ _
  | _ => exact .calm _

theorem tie_transit (T : TramEnv) (p : Str) : Tie (hTransitJob E T p) (transitJob E T p) := by
  have hm : Tie (hNewManifest T p) (newManifest T p) := by
    refine (Mere.open _).bind (Mere.fails.bind ((Mere.close _).bind ?_))
    rw [if_neg (by simp)]
    exact .calm _
  exact hm.bind fun m => (Tie.forL (fun _ => (tie_sha _).bind fun _ => .ite (.calm _) (.pure _)) _).bind fun _ =>
    (Tie.calm _).bind fun _ => (tie_mAddPackages _ _ _).bind fun _ => .calm _

end

/-! ## C150 -/

/-- What a daemon goes through: started with no file of a job open, it does jobs and uploads, one after the other; any system call may
fail.  (A job that panics ends the daemon.) -/
inductive Serving (E : Env) (T : TramEnv) : HSt → Prop
  | start (s : St) : Serving E T ⟨s, [], 0, 0⟩
  | job {x : HSt} (h : Serving E T x) (o : Op) (F : Nat → Bool) (hp : (o.hrun E F x).res ≠ .panic) : Serving E T (o.hrun E F x).now
  | upload {x : HSt} (h : Serving E T x) (p : Str) (F : Nat → Bool) (hp : (hTransitJob E T p F x).res ≠ .panic) :
      Serving E T (hTransitJob E T p F x).now

theorem Acc.over {α : Type} {n : Nat} {hm : HM α} (h : Acc [] [] [] n hm) (F : Nat → Bool) (x : HSt) (hp : (hm F x).res ≠ .panic) :
    (hm F x).now.fds = x.fds := by
  cases hr : (hm F x).res with
  | ok a => exact h.ok F x x.fds a rfl hr
  | err e => exact h.err F x x.fds e rfl hr
  | panic => exact absurd hr hp

/-- C150: however many jobs a daemon has done, whichever of their system calls failed and however they ended, no file is open between
jobs, and never were more than three open at once. -/
theorem C150_nothing_open {E : Env} {T : TramEnv} {x : HSt} (h : Serving E T x) : x.fds = [] ∧ x.peak ≤ 3 := by
  induction h with
  | start s => exact ⟨rfl, Nat.zero_le _⟩
  | @job y h o F hp ih =>
    have hA : Acc [] [] [] 3 (o.hrun E) := acc_job (by simp) o
    have h2 := hA.peak F y y.fds rfl
    rw [ih.1] at h2
    refine ⟨by rw [hA.over F y hp, ih.1], ?_⟩
    have := ih.2
    simp only [List.length_nil] at h2
    omega
  | @upload y h p F hp ih =>
    have hA : Acc [] [] [] 3 (hTransitJob E T p) := acc_transit (by simp) T p
    have h2 := hA.peak F y y.fds rfl
    rw [ih.1] at h2
    refine ⟨by rw [hA.over F y hp, ih.1], ?_⟩
    have := ih.2
    simp only [List.length_nil] at h2
    omega

/-- C150, any one job, started with any files open: it gives back what it opened, closes nothing it did not open, and opens at most three
files at a time, however many packages it handles.  (The bound holds for a job that panics, too.) -/
theorem C150_one_job {E : Env} (o : Op) (F : Nat → Bool) (x : HSt) :
    ((o.hrun E F x).res ≠ .panic → (o.hrun E F x).now.fds = x.fds) ∧
      (o.hrun E F x).now.peak ≤ max x.peak (x.fds.length + 3) :=
  ⟨(acc_job (E := E) (d := []) (n := 3) (by simp) o).over F x, (acc_job (E := E) (d := []) (n := 3) (by simp) o).peak F x x.fds rfl⟩

/-- C150, link with the other properties: when no system call fails, a job does with the repositories and returns exactly what it does in
the model without files, and so does an upload. -/
theorem C150_same {E : Env} {T : TramEnv} (F : Nat → Bool) (hF : ∀ k, F k = false) (x : HSt) (o : Op) (p : Str) :
    ((o.hrun E F x).res = (o.run E x.st).res ∧ (o.hrun E F x).now.st = o.exec E x.st) ∧
    ((hTransitJob E T p F x).res = (transitJob E T p x.st).res ∧ (hTransitJob E T p F x).now.st = (transitJob E T p x.st).st) :=
  ⟨⟨(tie_job o).res F x hF, (tie_job o).st F x hF⟩, ⟨(tie_transit T p).res F x hF, (tie_transit T p).st F x hF⟩⟩

/-- Tells how a job ended, and the files open. (No code: for the examples.) -/
def Demo.ends (o : HOut Unit) : Bool × Bool × List Fd × Nat :=
  (match o.res with | .ok _ => true | _ => false, match o.res with | .panic => true | _ => false, o.now.fds, o.now.peak)

/-- (No code: for the examples.) A place where no hard links can be made. -/
def Demo.E2 : Env := { Demo.E with linkOk := fun _ _ => false }
/-- (No code: for the examples.) Three packages have been uploaded, the repository is there. -/
def Demo.stH : HSt := ⟨runAll Demo.E2 St.init (Demo.hist1.take 4), [], 0, 0⟩
/-- (No code: for the examples.) The import of the three packages. -/
def Demo.impH : Op := .addPackages (Demo.S "unstable") Demo.files false

/-- Non-vacuity of C150: an import of three packages where files have to be copied succeeds and has three files open at once; with a
failing system call in the middle it fails, and nothing stays open either way. -/
example : Demo.ends (Demo.impH.hrun Demo.E2 (fun _ => false) Demo.stH) = (true, false, [], 3) ∧
    Demo.ends (Demo.impH.hrun Demo.E2 (fun k => k == 20) Demo.stH) = (false, false, [], 3) := by
  constructor <;> decide +kernel

example : Serving Demo.E2 ⟨fun _ => none, Demo.S "/"⟩ (Demo.impH.hrun Demo.E2 (fun k => k == 20) Demo.stH).now :=
  .job (.start _) _ _ (by
    have h : (Demo.ends (Demo.impH.hrun Demo.E2 (fun k => k == 20) Demo.stH)).2.1 = false := by decide +kernel
    revert h
    unfold Demo.ends
    intro h hp
    rw [show (Demo.impH.hrun Demo.E2 (fun k => k == 20) Demo.stH).res = .panic from hp] at h
    cases h)

end Ferryd
