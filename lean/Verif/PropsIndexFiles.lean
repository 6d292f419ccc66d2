import Verif.IndexFiles
/-!
# PropsIndexFiles: publication of an index (C53, C54, C55, C56)
-/
namespace Ferryd.IndexFiles

/-! ## Specification -/

namespace Spec

/-- The complete content of one of the nine files for the index `w.index`. -/
def want (w : World) (f : File) : Content :=
  let data : Art → Content
    | .plain => w.index
    | .xz => w.xz w.index
    | .zst => w.zst w.index
  match f.kind with
  | .data => data f.art
  | .sha1 => w.sha1 (data f.art)
  | .sha256 => w.sha256 (data f.art)

/-- Every checksum file served is the checksum of the file served beside it. -/
def Matching (w : World) (s : FS) : Prop :=
  ∀ a c, s (.pub ⟨a, .data⟩) = some c →
    (∀ d, s (.pub ⟨a, .sha1⟩) = some d → d = w.sha1 c) ∧ (∀ d, s (.pub ⟨a, .sha256⟩) = some d → d = w.sha256 c)

/-- The order of the renames is one a map iteration can have. -/
def AnyOrder (w : World) : Prop := w.order.Perm files

/-- Nothing goes wrong outside. -/
structure NoFault (w : World) : Prop where
  dist : w.distOk = true
  step : ∀ f, w.stepOk f = true
  rename : ∀ f, w.renameOk f = true
  purge : w.purgeOk = true

end Spec
open Spec

/-! ## Steps -/

@[simp] theorem set_self (s : FS) (n : Name) (c : Option Content) : s.set n c n = c := by simp [FS.set]
theorem set_other {s : FS} {n m : Name} {c : Option Content} (h : m ≠ n) : s.set n c m = s m := by simp [FS.set, h]
@[simp] theorem set_pub (s : FS) (f g : File) (c : Option Content) : s.set (.tmp f) c (.pub g) = s (.pub g) := by
  simp [FS.set]
@[simp] theorem set_tmp (s : FS) (f g : File) (c : Option Content) :
    s.set (.tmp f) c (.tmp g) = if g = f then c else s (.tmp g) := by
  simp [FS.set]
@[simp] theorem rename_pub (s : FS) (f g : File) :
    s.rename (.tmp f) (.pub f) (.pub g) = if g = f then s (.tmp f) else s (.pub g) := by
  simp [FS.rename, FS.set]
@[simp] theorem rename_tmp (s : FS) (f g : File) :
    s.rename (.tmp f) (.pub f) (.tmp g) = if g = f then none else s (.tmp g) := by
  simp [FS.rename, FS.set]

/-- A step touches its own temporary only. -/
def Only (s : FS) (f : File) (t : FS) : Prop := ∃ c, t = s.set (.tmp f) c

theorem set_same (s : FS) (n : Name) : s.set n (s n) = s := by
  funext m; unfold FS.set; split
  · rename_i h; rw [h]
  · rfl

theorem Only.refl (s : FS) (f : File) : Only s f s := ⟨s (.tmp f), (set_same s _).symm⟩

theorem fill_only (s : FS) (f : File) (parts : List Content) (ok : Bool) (c : Content) :
    (∀ t ∈ (fill s f parts ok c).tr, Only s f t) ∧ Only s f (fill s f parts ok c).fs ∧
    ((fill s f parts ok c).res = .ok → (fill s f parts ok c).fs = s.set (.tmp f) (some c) ∧ ok = true) := by
  have h1 : ∀ t ∈ (([] :: parts).map fun p => s.set (.tmp f) (some p)), Only s f t := by
    intro t ht
    obtain ⟨p, _, rfl⟩ := List.mem_map.1 ht
    exact ⟨_, rfl⟩
  unfold fill
  cases ok with
  | true =>
    refine ⟨?_, ⟨_, rfl⟩, fun _ => ⟨rfl, rfl⟩⟩
    intro t ht
    rcases List.mem_append.1 ht with h | h
    · exact h1 t h
    · rw [List.mem_singleton.1 h]; exact ⟨_, rfl⟩
  | false =>
    refine ⟨h1, ?_, fun h => by cases h⟩
    show Only s f (Option.getD (([] :: parts).map fun p => s.set (.tmp f) (some p)).getLast? s)
    cases hl : (([] :: parts).map fun p => s.set (.tmp f) (some p)).getLast? with
    | none => exact Only.refl s f
    | some t => exact h1 t (List.mem_of_getLast? hl)

/-- What has to be there before the step of `f`. -/
def Need (w : World) (s : FS) (f : File) : Prop :=
  match f.kind, f.art with
  | .data, .plain => True
  | .data, _ => s (.tmp ⟨.plain, .data⟩) = some (want w ⟨.plain, .data⟩)
  | _, a => s (.tmp ⟨a, .data⟩) = some (want w ⟨a, .data⟩)

theorem make_only (w : World) (s : FS) (f : File) :
    (∀ t ∈ (make w s f).tr, Only s f t) ∧ Only s f (make w s f).fs := by
  have hck : (∀ t ∈ (checksum w s f).tr, Only s f t) ∧ Only s f (checksum w s f).fs := by
    unfold checksum
    split
    · exact ⟨by simp, Only.refl s f⟩
    · exact ⟨(fill_only ..).1, (fill_only ..).2.1⟩
  have hco : (∀ t ∈ (compress w s f).tr, Only s f t) ∧ Only s f (compress w s f).fs := by
    have h1 : ∀ t ∈ (([] :: w.parts f).map fun p => s.set (.tmp f) (some p)), Only s f t := by
      intro t ht
      obtain ⟨p, _, rfl⟩ := List.mem_map.1 ht
      exact ⟨_, rfl⟩
    unfold compress
    split
    · exact ⟨by simp, Only.refl s f⟩
    · exact ⟨by simp, Only.refl s f⟩
    · simp only
      split
      · refine ⟨?_, ⟨_, rfl⟩⟩
        intro t ht
        rcases List.mem_append.1 ht with h | h
        · exact h1 t h
        · rw [List.mem_singleton.1 h]; exact ⟨_, rfl⟩
      · refine ⟨?_, ⟨_, rfl⟩⟩
        intro t ht
        rcases List.mem_append.1 ht with h | h
        · exact h1 t h
        · rw [List.mem_singleton.1 h]; exact ⟨_, rfl⟩
  unfold make
  split
  · exact ⟨(fill_only ..).1, (fill_only ..).2.1⟩
  · exact hco
  · exact hck

/-- A step that succeeds makes the complete file, and did not find a stale one to refuse. -/
theorem make_ok {w : World} {s : FS} {f : File} (h : Need w s f) (hok : (make w s f).res = .ok) :
    (make w s f).fs = s.set (.tmp f) (some (want w f)) := by
  obtain ⟨a, k⟩ := f
  cases k with
  | data =>
    cases a with
    | plain => exact ((fill_only ..).2.2 hok).1
    | xz =>
      simp only [Need] at h
      have hok' : (compress w s ⟨.xz, .data⟩).res = .ok := hok
      show (compress w s ⟨.xz, .data⟩).fs = _
      unfold compress at hok' ⊢
      rw [h] at hok' ⊢
      cases hx : s (.tmp ⟨.xz, .data⟩) with
      | some c => rw [hx] at hok'; cases hok'
      | none =>
        rw [hx] at hok'
        simp only at hok' ⊢
        cases hs : w.stepOk ⟨.xz, .data⟩ with
        | false => rw [hs] at hok'; cases hok'
        | true => rfl
    | zst =>
      simp only [Need] at h
      have hok' : (compress w s ⟨.zst, .data⟩).res = .ok := hok
      show (compress w s ⟨.zst, .data⟩).fs = _
      unfold compress at hok' ⊢
      rw [h] at hok' ⊢
      cases hx : s (.tmp ⟨.zst, .data⟩) with
      | some c => rw [hx] at hok'; cases hok'
      | none =>
        rw [hx] at hok'
        simp only at hok' ⊢
        cases hs : w.stepOk ⟨.zst, .data⟩ with
        | false => rw [hs] at hok'; cases hok'
        | true => rfl
  | sha1 =>
    simp only [Need] at h
    have hok' : (checksum w s ⟨a, .sha1⟩).res = .ok := hok
    show (checksum w s ⟨a, .sha1⟩).fs = _
    unfold checksum at hok' ⊢
    simp only [h] at hok' ⊢
    rw [((fill_only ..).2.2 hok').1]
    rfl
  | sha256 =>
    simp only [Need] at h
    have hok' : (checksum w s ⟨a, .sha256⟩).res = .ok := hok
    show (checksum w s ⟨a, .sha256⟩).fs = _
    unfold checksum at hok' ⊢
    simp only [h] at hok' ⊢
    rw [((fill_only ..).2.2 hok').1]
    rfl

theorem cleanup_spec (s : FS) (l : List File) :
    (cleanup s l).res = .err ∧ (∀ f, (cleanup s l).fs (.pub f) = s (.pub f)) ∧
    (∀ f, (cleanup s l).fs (.tmp f) = if f ∈ l then none else s (.tmp f)) ∧
    (∀ t ∈ (cleanup s l).tr, ∀ f, t (.pub f) = s (.pub f)) := by
  induction l generalizing s with
  | nil => exact ⟨rfl, fun _ => rfl, fun _ => rfl, by simp [cleanup]⟩
  | cons g l ih =>
    obtain ⟨_, h2, h3, h4⟩ := ih (s.set (.tmp g) none)
    refine ⟨rfl, ?_, ?_, ?_⟩
    · intro f; exact (h2 f).trans (by simp)
    · intro f
      refine (h3 f).trans ?_
      simp only [set_tmp, List.mem_cons]
      by_cases h : f = g <;> by_cases h' : f ∈ l <;> simp [h, h']
    · intro t ht f
      rcases List.mem_cons.1 ht with rfl | ht
      · simp
      · exact (h4 t ht f).trans (by simp)

/-- Every step finds its inputs made before. -/
def Ordered (done : List File) : List File → Prop
  | [] => True
  | f :: fs =>
    (match f.kind, f.art with
      | .data, .plain => True
      | .data, _ => (⟨.plain, .data⟩ : File) ∈ done
      | _, a => (⟨a, .data⟩ : File) ∈ done) ∧ f ∉ done ∧ Ordered (done ++ [f]) fs

theorem files_ordered : Ordered [] files := by
  simp [Ordered, files]

theorem need_of {w : World} {s : FS} {done : List File} {f : File} {fs : List File} (h : Ordered done (f :: fs))
    (hd : ∀ g ∈ done, s (.tmp g) = some (want w g)) : Need w s f := by
  obtain ⟨h1, _⟩ := h
  obtain ⟨a, k⟩ := f
  cases k <;> cases a <;> simp only [Need] at * <;> first | trivial | exact hd _ h1

/-- All steps together. -/
theorem makeAll_spec (w : World) (s : FS) (done l : List File) (ho : Ordered done l)
    (hd : ∀ g ∈ done, s (.tmp g) = some (want w g)) :
    (∀ t ∈ (makeAll w s done l).tr, ∀ f, t (.pub f) = s (.pub f)) ∧
    (∀ f, (makeAll w s done l).fs (.pub f) = s (.pub f)) ∧
    ((makeAll w s done l).res = .ok → ∀ f, (makeAll w s done l).fs (.tmp f) =
      if f ∈ l then some (want w f) else s (.tmp f)) ∧
    ((makeAll w s done l).res = .err → ∀ f, (makeAll w s done l).fs (.tmp f) = none ∨
      ((makeAll w s done l).fs (.tmp f) = s (.tmp f) ∧ f ∉ done)) := by
  induction l generalizing s done with
  | nil => exact ⟨by simp [makeAll], fun _ => rfl, fun _ _ => rfl, fun h => by cases h⟩
  | cons g l ih =>
    have hneed := need_of ho hd
    obtain ⟨hm1, hm2⟩ := make_only w s g
    have pubs : ∀ t, Only s g t → ∀ f, t (.pub f) = s (.pub f) := by
      rintro t ⟨c, rfl⟩ f; simp
    simp only [makeAll]
    cases hres : (make w s g).res with
    | ok =>
      have hfs := make_ok hneed hres
      have hd' : ∀ x ∈ done ++ [g], (make w s g).fs (.tmp x) = some (want w x) := by
        intro x hx
        rw [hfs, set_tmp]
        split
        · rename_i h; rw [h]
        · rename_i h
          rcases List.mem_append.1 hx with hx | hx
          · exact hd x hx
          · exact absurd (List.mem_singleton.1 hx) h
      obtain ⟨i1, i2, i3, i4⟩ := ih (make w s g).fs (done ++ [g]) ho.2.2 hd'
      simp only
      refine ⟨?_, ?_, ?_, ?_⟩
      · intro t ht f
        rcases List.mem_append.1 ht with ht | ht
        · exact pubs t (hm1 t ht) f
        · rw [i1 t ht f]; exact pubs _ hm2 f
      · intro f; rw [i2 f]; exact pubs _ hm2 f
      · intro hr f
        rw [i3 hr f, hfs, set_tmp]
        by_cases h1 : f = g <;> by_cases h2 : f ∈ l <;> simp [h1, h2]
      · intro hr f
        rcases i4 hr f with h | ⟨h, hn⟩
        · exact .inl h
        · simp only [List.mem_append, List.mem_singleton, not_or] at hn
          right
          rw [h, hfs, set_tmp, if_neg hn.2]
          exact ⟨rfl, hn.1⟩
    | err =>
      obtain ⟨_, c2, c3, c4⟩ := cleanup_spec (make w s g).fs (done ++ [g])
      simp only
      refine ⟨?_, ?_, (fun h => by cases h), ?_⟩
      · intro t ht f
        rcases List.mem_append.1 ht with ht | ht
        · exact pubs t (hm1 t ht) f
        · rw [c4 t ht f]; exact pubs _ hm2 f
      · intro f; rw [c2 f]; exact pubs _ hm2 f
      · intro _ f
        rw [c3 f]
        split
        · exact .inl rfl
        · rename_i h
          simp only [List.mem_append, List.mem_singleton, not_or] at h
          obtain ⟨c, hc⟩ := hm2
          right
          rw [hc, set_tmp, if_neg h.2]
          exact ⟨rfl, h.1⟩

theorem mem_files (f : File) : f ∈ files := by
  obtain ⟨a, k⟩ := f
  cases a <;> cases k <;> decide

/-- The renames: a served file is the old one or the new one; after success all are new. -/
theorem renames_spec (w : World) (s : FS) (l : List File) (hn : l.Nodup) (hl : ∀ f ∈ l, s (.tmp f) = some (want w f)) :
    (∀ t ∈ (renames w s l).tr, ∀ f, t (.pub f) = s (.pub f) ∨ t (.pub f) = some (want w f)) ∧
    (∀ f, (renames w s l).fs (.pub f) = s (.pub f) ∨ (renames w s l).fs (.pub f) = some (want w f)) ∧
    ((renames w s l).res = .ok → ∀ f,
      (renames w s l).fs (.pub f) = (if f ∈ l then some (want w f) else s (.pub f)) ∧
      (renames w s l).fs (.tmp f) = (if f ∈ l then none else s (.tmp f))) ∧
    ((renames w s l).res = .err → ∀ f, (renames w s l).fs (.tmp f) = none) ∧
    ((∀ f, w.renameOk f = true) → (renames w s l).res = .ok) := by
  induction l generalizing s with
  | nil => exact ⟨by simp [renames], fun _ => .inl rfl, fun _ f => by simp [renames], (fun h => by cases h), fun _ => rfl⟩
  | cons g l ih =>
    rw [List.nodup_cons] at hn
    simp only [renames]
    cases hg : w.renameOk g with
    | false =>
      obtain ⟨_, c2, c3, c4⟩ := cleanup_spec s files
      simp only [Bool.false_eq_true, if_false]
      refine ⟨fun t ht f => .inl (c4 t ht f), fun f => .inl (c2 f), (fun h => by cases h), fun _ f => ?_, fun h => ?_⟩
      · rw [c3 f, if_pos (mem_files f)]
      · exact absurd (h g) (by rw [hg]; simp)
    | true =>
      have hl' : ∀ f ∈ l, (s.rename (.tmp g) (.pub g)) (.tmp f) = some (want w f) := by
        intro f hf
        have hne : f ≠ g := by rintro rfl; exact hn.1 hf
        rw [rename_tmp, if_neg hne]; exact hl f (by simp [hf])
      obtain ⟨i1, i2, i3, i4, i5⟩ := ih (s.rename (.tmp g) (.pub g)) hn.2 hl'
      have hp : ∀ f, (s.rename (.tmp g) (.pub g)) (.pub f) = s (.pub f) ∨
          (s.rename (.tmp g) (.pub g)) (.pub f) = some (want w f) := by
        intro f
        rw [rename_pub]
        split
        · rename_i h; right; rw [h]; exact hl g (by simp)
        · exact .inl rfl
      simp only [if_true]
      refine ⟨?_, ?_, ?_, i4, i5⟩
      · intro t ht f
        rcases List.mem_cons.1 ht with rfl | ht
        · exact hp f
        · rcases i1 t ht f with h | h
          · rw [h]; exact hp f
          · exact .inr h
      · intro f
        rcases i2 f with h | h
        · rw [h]; exact hp f
        · exact .inr h
      · intro hr f
        obtain ⟨a, b⟩ := i3 hr f
        rw [a, b, rename_pub, rename_tmp]
        by_cases h1 : f = g <;> by_cases h2 : f ∈ l <;> simp [h1, h2]
        · rw [h1] at h2; simp [h2]
        · rw [h1] at h2; simp [h2, hl g]

/-! ## The claims -/

theorem run_err_dist {w : World} (s : FS) (h : w.distOk = false) : run w s = ⟨.err, s, []⟩ := by
  unfold run; rw [h]; rfl

theorem run_err_make {w : World} {s : FS} (h : w.distOk = true) (hm : (makeAll w s [] files).res = .err) :
    run w s = makeAll w s [] files := by
  unfold run; rw [h]; simp only [Bool.not_true, Bool.false_eq_true, if_false]; rw [hm]

/-- Facts about any run. -/
theorem run_spec (w : World) (hw : AnyOrder w) (s : FS) :
    (∀ t, t ∈ (run w s).tr ∨ t = (run w s).fs → ∀ f, t (.pub f) = s (.pub f) ∨ t (.pub f) = some (want w f)) ∧
    ((run w s).res = .ok → ∀ f, (run w s).fs (.pub f) = some (want w f) ∧ (run w s).fs (.tmp f) = none) ∧
    (∀ f, (run w s).fs (.tmp f) = none ∨ (run w s).fs (.tmp f) = s (.tmp f)) := by
  cases hdist : w.distOk with
  | false =>
    rw [run_err_dist s hdist]
    exact ⟨fun t ht f => by rcases ht with h | rfl; (cases h); exact .inl rfl, (fun h => by cases h), fun f => .inr rfl⟩
  | true =>
    obtain ⟨m1, m2, m3, m4⟩ := makeAll_spec w s [] files files_ordered (by simp)
    cases hm : (makeAll w s [] files).res with
    | err =>
      rw [run_err_make hdist hm, hm]
      refine ⟨?_, (fun h => by cases h), ?_⟩
      · intro t ht f
        rcases ht with h | rfl
        · exact .inl (m1 t h f)
        · exact .inl (m2 f)
      · intro f
        rcases m4 hm f with h | ⟨h, _⟩
        · exact .inl h
        · exact .inr h
    | ok =>
      have htmp : ∀ f, (makeAll w s [] files).fs (.tmp f) = some (want w f) := by
        intro f; rw [m3 hm f, if_pos (mem_files f)]
      have hnd : w.order.Nodup := hw.nodup_iff.2 (by decide)
      obtain ⟨r1, r2, r3, r4, r5⟩ := renames_spec w (makeAll w s [] files).fs w.order hnd (fun f _ => htmp f)
      have hmem : ∀ f, f ∈ w.order := fun f => hw.mem_iff.2 (mem_files f)
      have one : ∀ t, (t ∈ (makeAll w s [] files).tr ++ (renames w (makeAll w s [] files).fs w.order).tr ∨
          t = (renames w (makeAll w s [] files).fs w.order).fs) →
          ∀ f, t (.pub f) = s (.pub f) ∨ t (.pub f) = some (want w f) := by
        intro t ht f
        rcases ht with ht | rfl
        · rcases List.mem_append.1 ht with ht | ht
          · exact .inl (m1 t ht f)
          · rcases r1 t ht f with h | h
            · left; rw [h]; exact m2 f
            · exact .inr h
        · rcases r2 f with h | h
          · left; rw [h]; exact m2 f
          · exact .inr h
      unfold run
      simp only [hdist, Bool.not_true, Bool.false_eq_true, if_false, hm]
      cases hr : (renames w (makeAll w s [] files).fs w.order).res with
      | err =>
        simp only
        exact ⟨one, (fun h => by cases h), fun f => .inl (r4 hr f)⟩
      | ok =>
        simp only
        cases hp : w.purgeOk with
        | true =>
          simp only [if_true]
          refine ⟨one, fun _ f => ?_, fun f => .inl ?_⟩
          · obtain ⟨a, b⟩ := r3 hr f
            rw [if_pos (hmem f)] at a b
            exact ⟨a, b⟩
          · rw [(r3 hr f).2, if_pos (hmem f)]
        | false =>
          simp only [Bool.false_eq_true, if_false]
          obtain ⟨_, c2, c3, c4⟩ := cleanup_spec (renames w (makeAll w s [] files).fs w.order).fs files
          refine ⟨?_, (fun h => by cases h), fun f => .inl ?_⟩
          · intro t ht f
            rcases ht with ht | rfl
            · rcases List.mem_append.1 ht with ht | ht
              · exact one t (.inl ht) f
              · rw [c4 t ht f]; exact one _ (.inr rfl) f
            · rw [c2 f]; exact one _ (.inr rfl) f
          · rw [c3 f, if_pos (mem_files f)]

/-- C53.  At every durable moment of an index run, whatever fails and in whatever order the files are renamed, each
served file is complete: the one served before, or the new one. -/
theorem C53_old_or_new (w : World) (hw : AnyOrder w) (s t : FS) (ht : t ∈ (run w s).tr ∨ t = (run w s).fs) (f : File) :
    t (.pub f) = s (.pub f) ∨ t (.pub f) = some (want w f) :=
  (run_spec w hw s).1 t ht f

/-- States of the directory after any number of index runs, each finished, failed or cut off anywhere. -/
inductive Reached : List World → FS → Prop
  | empty : Reached [] (fun _ => none)
  | run {ws : List World} {s t : FS} (w : World) (h : Reached ws s) (hw : AnyOrder w)
      (ht : t ∈ (run w s).tr ∨ t = (run w s).fs) : Reached (w :: ws) t

/-- C53.  Over any history of runs and crashes: whatever is served was completely written for one of the runs. -/
theorem C53_history {ws : List World} {s : FS} (h : Reached ws s) (f : File) (c : Content) (hc : s (.pub f) = some c) :
    ∃ w ∈ ws, c = want w f := by
  induction h generalizing c with
  | empty => cases hc
  | run w _ hw ht ih =>
    rcases C53_old_or_new w hw _ _ ht f with h | h
    · rw [h] at hc
      obtain ⟨w', hw', he⟩ := ih c hc
      exact ⟨w', by simp [hw'], he⟩
    · rw [h] at hc; cases hc
      exact ⟨w, by simp, rfl⟩

/-- C54.  A run that fails while the files are being made leaves every served file as it was at every moment, and leaves
no temporary of its own: what remains was there before, untouched. -/
theorem C54_failed_run (w : World) (s : FS) (h : (makeAll w s [] files).res = .err ∨ w.distOk = false) :
    (run w s).res = .err ∧
    (∀ t, t ∈ (run w s).tr ∨ t = (run w s).fs → ∀ f, t (.pub f) = s (.pub f)) ∧
    (∀ f, (run w s).fs (.tmp f) = none ∨ (run w s).fs (.tmp f) = s (.tmp f)) := by
  cases hdist : w.distOk with
  | false =>
    rw [run_err_dist s hdist]
    exact ⟨rfl, fun t ht f => by rcases ht with h | rfl; (cases h); rfl, fun f => .inr rfl⟩
  | true =>
    rcases h with h | h
    · obtain ⟨m1, m2, m3, m4⟩ := makeAll_spec w s [] files files_ordered (by simp)
      rw [run_err_make hdist h]
      refine ⟨h, ?_, fun f => ?_⟩
      · intro t ht f
        rcases ht with h | rfl
        · exact m1 t h f
        · exact m2 f
      · rcases m4 h f with h | ⟨h, _⟩
        · exact .inl h
        · exact .inr h
    · rw [hdist] at h; cases h

/-- The failing step: everything registered up to it is removed, the rest is untouched. -/
theorem makeAll_failed (w : World) (l : List File) (s : FS) (done : List File) (ho : Ordered done l)
    (hd : ∀ g ∈ done, s (.tmp g) = some (want w g)) (h : (makeAll w s done l).res = .err) :
    ∃ a f b, l = a ++ f :: b ∧ ∀ g, (g ∈ done ++ a ++ [f] → (makeAll w s done l).fs (.tmp g) = none) ∧
      (g ∉ done ++ a ++ [f] → (makeAll w s done l).fs (.tmp g) = s (.tmp g)) := by
  induction l generalizing s done with
  | nil => cases h
  | cons x l ih =>
    have hneed := need_of ho hd
    cases hres : (make w s x).res with
    | ok =>
      have hfs := make_ok hneed hres
      simp only [makeAll, hres] at h ⊢
      obtain ⟨a, f, b, rfl, hg⟩ := ih (make w s x).fs (done ++ [x]) ho.2.2 (by
        intro g hg
        rw [hfs, set_tmp]
        split
        · rename_i h; rw [h]
        · rename_i h
          rcases List.mem_append.1 hg with hg | hg
          · exact hd g hg
          · exact absurd (List.mem_singleton.1 hg) h) h
      refine ⟨x :: a, f, b, rfl, fun g => ?_⟩
      obtain ⟨h1, h2⟩ := hg g
      have e : done ++ [x] ++ a ++ [f] = done ++ (x :: a) ++ [f] := by simp
      rw [e] at h1 h2
      refine ⟨h1, fun hn => ?_⟩
      rw [h2 hn, hfs, set_tmp, if_neg]
      rintro rfl; exact hn (by simp)
    | err =>
      simp only [makeAll, hres] at h ⊢
      have c3 := (cleanup_spec (make w s x).fs (done ++ [x])).2.2.1
      refine ⟨[], x, l, rfl, fun g => ⟨fun hg => ?_, fun hg => ?_⟩⟩
      · rw [c3, if_pos (by simpa using hg)]
      · have hg' : g ∉ done ++ [x] := by simpa using hg
        obtain ⟨c, hc⟩ := (make_only w s x).2
        rw [c3, if_neg hg', hc, set_tmp, if_neg]
        rintro rfl; exact hg' (by simp)

/-- C54.  When the making of file `f` fails, the temporaries of all files up to and including `f` are gone. -/
theorem C54_registered_removed (w : World) (s : FS) (hd : w.distOk = true) (h : (makeAll w s [] files).res = .err) :
    ∃ a f b, files = a ++ f :: b ∧ (∀ g ∈ a ++ [f], (run w s).fs (.tmp g) = none) ∧
      ∀ g ∈ b, (run w s).fs (.tmp g) = s (.tmp g) := by
  obtain ⟨a, f, b, he, hg⟩ := makeAll_failed w files s [] files_ordered (by simp) h
  rw [run_err_make hd h]
  refine ⟨a, f, b, he, fun g hm => (hg g).1 (by simpa using hm), fun g hm => (hg g).2 ?_⟩
  have hnd : (a ++ f :: b).Nodup := by rw [← he]; decide
  rw [List.nodup_append] at hnd
  simp only [List.nil_append, List.mem_append, List.mem_singleton, not_or]
  refine ⟨fun hga => hnd.2.2 g hga g (by simp [hm]) rfl, ?_⟩
  rintro rfl
  exact (List.nodup_cons.1 hnd.2.1).1 hm

/-- C54.  A run that fails later (a rename, or telling the cache) leaves no temporary at all. -/
theorem C54_failed_publication (w : World) (hw : AnyOrder w) (s : FS) (hd : w.distOk = true)
    (hm : (makeAll w s [] files).res = .ok) (f : File) : (run w s).fs (.tmp f) = none := by
  obtain ⟨m1, m2, m3, m4⟩ := makeAll_spec w s [] files files_ordered (by simp)
  have htmp : ∀ f, (makeAll w s [] files).fs (.tmp f) = some (want w f) := by
    intro f; rw [m3 hm f, if_pos (mem_files f)]
  have hnd : w.order.Nodup := hw.nodup_iff.2 (by decide)
  obtain ⟨r1, r2, r3, r4, r5⟩ := renames_spec w (makeAll w s [] files).fs w.order hnd (fun f _ => htmp f)
  unfold run
  simp only [hd, Bool.not_true, Bool.false_eq_true, if_false, hm]
  cases hr : (renames w (makeAll w s [] files).fs w.order).res with
  | err => exact r4 hr f
  | ok =>
    simp only
    cases w.purgeOk with
    | true =>
      simp only [if_true]
      rw [(r3 hr f).2, if_pos (hw.mem_iff.2 (mem_files f))]
    | false =>
      simp only [Bool.false_eq_true, if_false]
      rw [(cleanup_spec _ files).2.2.1 f, if_pos (mem_files f)]

/-- C55, at the end of a successful run: all nine files are those of the new index, so every checksum file matches. -/
theorem C55_after_success_partial (w : World) (hw : AnyOrder w) (s : FS) (h : (run w s).res = .ok) :
    (∀ f, (run w s).fs (.pub f) = some (want w f)) ∧ Matching w (run w s).fs := by
  have h1 : ∀ f, (run w s).fs (.pub f) = some (want w f) := fun f => ((run_spec w hw s).2.1 h f).1
  refine ⟨h1, fun a c hc => ?_⟩
  rw [h1] at hc
  cases hc
  constructor
  · intro d hd; rw [h1] at hd; cases hd; cases a <;> rfl
  · intro d hd; rw [h1] at hd; cases hd; cases a <;> rfl

/-- C55, before publication begins: a crash while the files are being made leaves matching checksums matching. -/
theorem C55_before_publication_partial (w : World) (s : FS) (h : Matching w s) (t : FS)
    (ht : t ∈ (makeAll w s [] files).tr) : Matching w t := by
  have h1 := (makeAll_spec w s [] files files_ordered (by simp)).1 t ht
  intro a c hc
  rw [h1] at hc
  obtain ⟨x, y⟩ := h a c hc
  exact ⟨fun d hd => x d (by rw [← h1]; exact hd), fun d hd => y d (by rw [← h1]; exact hd)⟩

/-- C55 in full. -/
def C55_statement : Prop :=
  ∀ (w : World) (s t : FS), AnyOrder w → Matching w s → (t ∈ (run w s).tr ∨ t = (run w s).fs) → Matching w t

/-- A world whose checksum is the content itself. -/
def demo (i : Content) : World :=
  ⟨i, id, id, fun c => 1 :: c, fun c => 2 :: c, fun _ => [[7]], true, fun _ => true, fun _ => none, files, fun _ => true,
    true⟩

/-- What is served after one run. -/
def served (i : Content) : FS := (run (demo i) fun _ => none).fs

/-- C55 fails at a crash between two renames: the new index beside the checksum of the old one. -/
theorem C55_violated : ¬ C55_statement := by
  intro h
  have hs : Matching (demo [5]) (served [4]) := (C55_after_success_partial (demo [4]) (List.Perm.refl _) _ rfl).2
  have hmem : ((run (demo [5]) (served [4])).tr[27]?).getD (served [4]) ∈ (run (demo [5]) (served [4])).tr := by
    rw [List.getElem?_eq_getElem (by decide +kernel)]
    exact List.getElem_mem _
  have := h (demo [5]) (served [4]) _ (List.Perm.refl _) hs (.inl hmem) .plain [5] (by decide +kernel)
  exact absurd (this.1 [4] (by decide +kernel)) (by decide)

/-! ## Recovery -/

/-- Files made by a compressor. -/
def Packed (f : File) : Prop := f.kind = .data ∧ f.art ≠ .plain

theorem fill_clean (s : FS) (f : File) (parts : List Content) (c : Content) : (fill s f parts true c).res = .ok := rfl

theorem make_clean {w : World} (nf : NoFault w) {s : FS} {f : File} (hn : Need w s f)
    (hs : Packed f → s (.tmp f) = none) : (make w s f).res = .ok := by
  obtain ⟨a, k⟩ := f
  cases k with
  | data =>
    cases a with
    | plain =>
      show (fill s _ _ (w.stepOk _) _).res = .ok
      rw [nf.step]; rfl
    | xz =>
      show (compress w s ⟨.xz, .data⟩).res = .ok
      unfold compress
      simp only [Need] at hn
      rw [hn, hs ⟨rfl, by simp⟩]
      simp only [nf.step, if_true]
    | zst =>
      show (compress w s ⟨.zst, .data⟩).res = .ok
      unfold compress
      simp only [Need] at hn
      rw [hn, hs ⟨rfl, by simp⟩]
      simp only [nf.step, if_true]
  | sha1 =>
    show (checksum w s ⟨a, .sha1⟩).res = .ok
    unfold checksum
    simp only [Need] at hn
    simp only [hn, nf.step]; rfl
  | sha256 =>
    show (checksum w s ⟨a, .sha256⟩).res = .ok
    unfold checksum
    simp only [Need] at hn
    simp only [hn, nf.step]; rfl

theorem make_stale {w : World} {s : FS} {f : File} (hn : Need w s f) (hp : Packed f) (hs : s (.tmp f) ≠ none) :
    make w s f = ⟨.err, s, []⟩ := by
  obtain ⟨a, k⟩ := f
  obtain ⟨hk, ha⟩ := hp
  simp only at hk ha
  subst hk
  obtain ⟨c, hc⟩ := Option.ne_none_iff_exists'.1 hs
  cases a with
  | plain => exact absurd rfl ha
  | xz =>
    show compress w s ⟨.xz, .data⟩ = _
    unfold compress
    simp only [Need] at hn
    rw [hn, hc]
  | zst =>
    show compress w s ⟨.zst, .data⟩ = _
    unfold compress
    simp only [Need] at hn
    rw [hn, hc]

theorem makeAll_clean {w : World} (nf : NoFault w) (l : List File) (s : FS) (done : List File) (ho : Ordered done l)
    (hd : ∀ g ∈ done, s (.tmp g) = some (want w g)) (hs : ∀ g ∈ l, Packed g → s (.tmp g) = none) (hn : l.Nodup) :
    (makeAll w s done l).res = .ok := by
  induction l generalizing s done with
  | nil => rfl
  | cons f l ih =>
    have hneed := need_of ho hd
    have hok := make_clean nf hneed (hs f (by simp))
    have hfs := make_ok hneed hok
    rw [List.nodup_cons] at hn
    simp only [makeAll, hok]
    apply ih _ _ ho.2.2
    · intro g hg
      rw [hfs, set_tmp]
      split
      · rename_i h; rw [h]
      · rename_i h
        rcases List.mem_append.1 hg with hg | hg
        · exact hd g hg
        · exact absurd (List.mem_singleton.1 hg) h
    · intro g hg hp
      have hne : g ≠ f := by rintro rfl; exact hn.1 hg
      rw [hfs, set_tmp, if_neg hne]
      exact hs g (by simp [hg]) hp
    · exact hn.2

theorem makeAll_stop {w : World} (nf : NoFault w) (a : List File) (f : File) (b : List File) (s : FS) (done : List File)
    (ho : Ordered done (a ++ f :: b)) (hd : ∀ g ∈ done, s (.tmp g) = some (want w g))
    (hs : ∀ g ∈ a, Packed g → s (.tmp g) = none) (hn : (a ++ f :: b).Nodup) (hp : Packed f) (hf : s (.tmp f) ≠ none) :
    (makeAll w s done (a ++ f :: b)).res = .err ∧
    ∀ g, (makeAll w s done (a ++ f :: b)).fs (.tmp g) = if g ∈ done ++ a ++ [f] then none else s (.tmp g) := by
  induction a generalizing s done with
  | nil =>
    have hst := make_stale (need_of ho hd) hp hf
    simp only [List.nil_append, makeAll, hst, List.append_nil]
    refine ⟨trivial, fun g => ?_⟩
    exact (cleanup_spec s (done ++ [f])).2.2.1 g
  | cons x a ih =>
    have hneed : Need w s x := need_of (fs := a ++ f :: b) ho hd
    have hok := make_clean nf hneed (hs x (by simp))
    have hfs := make_ok hneed hok
    rw [List.cons_append, List.nodup_cons] at hn
    have hne : f ≠ x := by rintro rfl; exact hn.1 (by simp)
    simp only [List.cons_append, makeAll, hok]
    obtain ⟨h1, h2⟩ := ih (make w s x).fs (done ++ [x]) ho.2.2 (by
      intro g hg
      rw [hfs, set_tmp]
      split
      · rename_i h; rw [h]
      · rename_i h
        rcases List.mem_append.1 hg with hg | hg
        · exact hd g hg
        · exact absurd (List.mem_singleton.1 hg) h) (by
      intro g hg hp
      have hne : g ≠ x := by rintro rfl; exact hn.1 (by simp [hg])
      rw [hfs, set_tmp, if_neg hne]
      exact hs g (by simp [hg]) hp) hn.2 (by rw [hfs, set_tmp, if_neg hne]; exact hf)
    refine ⟨h1, fun g => ?_⟩
    rw [h2 g, hfs, set_tmp]
    by_cases hg : g = x
    · simp [hg]
    · simp [hg]

theorem packed_iff (f : File) : Packed f ↔ f = ⟨.xz, .data⟩ ∨ f = ⟨.zst, .data⟩ := by
  obtain ⟨a, k⟩ := f
  cases a <;> cases k <;> simp [Packed]

/-- Without faults and without stale compressed temporaries, indexing succeeds. -/
theorem run_clean {w : World} (nf : NoFault w) (hw : AnyOrder w) {s : FS} (hx : s (.tmp ⟨.xz, .data⟩) = none)
    (hz : s (.tmp ⟨.zst, .data⟩) = none) : (run w s).res = .ok := by
  have hm : (makeAll w s [] files).res = .ok := makeAll_clean nf files s [] files_ordered (by simp) (by
    intro g _ hp
    rcases (packed_iff g).1 hp with rfl | rfl
    · exact hx
    · exact hz) (by decide)
  have m3 := (makeAll_spec w s [] files files_ordered (by simp)).2.2.1 hm
  have htmp : ∀ f, (makeAll w s [] files).fs (.tmp f) = some (want w f) := by
    intro f; rw [m3 f, if_pos (mem_files f)]
  have hnd : w.order.Nodup := hw.nodup_iff.2 (by decide)
  have hr := (renames_spec w (makeAll w s [] files).fs w.order hnd (fun f _ => htmp f)).2.2.2.2 nf.rename
  unfold run
  simp only [nf.dist, Bool.not_true, Bool.false_eq_true, if_false, hm, hr, nf.purge, if_true]

theorem run_stale_xz {w : World} (nf : NoFault w) {s : FS} (hx : s (.tmp ⟨.xz, .data⟩) ≠ none) :
    (run w s).res = .err ∧ (run w s).fs (.tmp ⟨.xz, .data⟩) = none ∧
    (run w s).fs (.tmp ⟨.zst, .data⟩) = s (.tmp ⟨.zst, .data⟩) := by
  obtain ⟨h1, h2⟩ := makeAll_stop nf [⟨.plain, .data⟩, ⟨.plain, .sha1⟩, ⟨.plain, .sha256⟩] ⟨.xz, .data⟩
    [⟨.xz, .sha1⟩, ⟨.xz, .sha256⟩, ⟨.zst, .data⟩, ⟨.zst, .sha1⟩, ⟨.zst, .sha256⟩] s [] files_ordered (by simp) (by
      intro g hg hp
      rcases (packed_iff g).1 hp with rfl | rfl <;> simp at hg) (by decide) ⟨rfl, by simp⟩ hx
  rw [run_err_make nf.dist h1]
  exact ⟨h1, by rw [show files = _ from rfl]; exact (h2 _).trans rfl, (h2 _).trans rfl⟩

theorem run_stale_zst {w : World} (nf : NoFault w) {s : FS} (hx : s (.tmp ⟨.xz, .data⟩) = none)
    (hz : s (.tmp ⟨.zst, .data⟩) ≠ none) :
    (run w s).res = .err ∧ (run w s).fs (.tmp ⟨.xz, .data⟩) = none ∧ (run w s).fs (.tmp ⟨.zst, .data⟩) = none := by
  obtain ⟨h1, h2⟩ := makeAll_stop nf [⟨.plain, .data⟩, ⟨.plain, .sha1⟩, ⟨.plain, .sha256⟩, ⟨.xz, .data⟩, ⟨.xz, .sha1⟩,
    ⟨.xz, .sha256⟩] ⟨.zst, .data⟩ [⟨.zst, .sha1⟩, ⟨.zst, .sha256⟩] s [] files_ordered (by simp) (by
      intro g hg hp
      rcases (packed_iff g).1 hp with rfl | rfl
      · exact hx
      · simp at hg) (by decide) ⟨rfl, by simp⟩ hz
  rw [run_err_make nf.dist h1]
  exact ⟨h1, (h2 _).trans rfl, (h2 _).trans rfl⟩

/-- C56.  From any state of the directory whatever, hence after a crash at any point of any run: of three successive
index runs in which nothing else goes wrong, one succeeds, and then exactly the new index is served. -/
theorem C56_recovers (s : FS) (w1 w2 w3 : World) (n1 : NoFault w1) (n2 : NoFault w2) (n3 : NoFault w3)
    (o1 : AnyOrder w1) (o2 : AnyOrder w2) (o3 : AnyOrder w3) :
    (run w1 s).res = .ok ∨ (run w2 (run w1 s).fs).res = .ok ∨ (run w3 (run w2 (run w1 s).fs).fs).res = .ok := by
  by_cases hx : s (.tmp ⟨.xz, .data⟩) = none
  · by_cases hz : s (.tmp ⟨.zst, .data⟩) = none
    · exact .inl (run_clean n1 o1 hx hz)
    · obtain ⟨_, a, b⟩ := run_stale_zst n1 hx hz
      exact .inr (.inl (run_clean n2 o2 a b))
  · obtain ⟨_, a, b⟩ := run_stale_xz n1 hx
    by_cases hz : s (.tmp ⟨.zst, .data⟩) = none
    · exact .inr (.inl (run_clean n2 o2 a (b.trans hz)))
    · obtain ⟨_, a', b'⟩ := run_stale_zst n2 a (by rw [b]; exact hz)
      exact .inr (.inr (run_clean n3 o3 a' b'))

/-- C56.  A success serves exactly the new index and leaves no temporary, so later runs succeed at once. -/
theorem C56_success (w : World) (o : AnyOrder w) (s : FS) (h : (run w s).res = .ok) (f : File) :
    (run w s).fs (.pub f) = some (want w f) ∧ (run w s).fs (.tmp f) = none := (run_spec w o s).2.1 h f

/-- What an operator may expect of the daemon, which repeats an interrupted job once when it is started again: the
repeated run succeeds. -/
def C79_statement : Prop :=
  ∀ (w w' : World) (s t : FS), AnyOrder w → AnyOrder w' → NoFault w → NoFault w' →
    (∀ f, s (.tmp f) = none) → t ∈ (run w s).tr → (run w' t).res = .ok

/-- The state after the compressed file has been written. -/
def cutOff (k : Nat) : FS := ((run (demo [5]) (served [4])).tr[k]?).getD (served [4])

theorem cutOff_mem {k : Nat} (h : k < 36) : cutOff k ∈ (run (demo [5]) (served [4])).tr := by
  have hl : (run (demo [5]) (served [4])).tr.length = 36 := by decide +kernel
  unfold cutOff
  rw [List.getElem?_eq_getElem (by omega)]
  exact List.getElem_mem _

theorem demo_nofault (i : Content) : NoFault (demo i) := ⟨rfl, fun _ => rfl, fun _ => rfl, rfl⟩

/-- C79 fails: after a crash once the xz file is written, the repeated run fails; after a crash once the zstd file is
written, two runs fail (so that the bound in C56 is tight). -/
theorem C79_violated : ¬ C79_statement := by
  intro h
  have hs : ∀ f, served [4] (.tmp f) = none := fun f =>
    (C56_success (demo [4]) (List.Perm.refl _) (fun _ => none) (by decide +kernel) f).2
  have := h (demo [5]) (demo [5]) (served [4]) (cutOff 11) (List.Perm.refl _) (List.Perm.refl _) (demo_nofault _)
    (demo_nofault _) hs (cutOff_mem (by omega))
  exact absurd this (by decide +kernel)

example : (run (demo [5]) (cutOff 20)).res = .err ∧
    (run (demo [5]) (run (demo [5]) (cutOff 20)).fs).res = .err ∧
    (run (demo [5]) (run (demo [5]) (run (demo [5]) (cutOff 20)).fs).fs).res = .ok := by decide +kernel

/-- C79, the part that holds: a crash before the xz file is begun, or once both compressed files are published. -/
theorem C79_repeat_partial (w : World) (o : AnyOrder w) (n : NoFault w) (t : FS) (hx : t (.tmp ⟨.xz, .data⟩) = none)
    (hz : t (.tmp ⟨.zst, .data⟩) = none) : (run w t).res = .ok := run_clean n o hx hz

example : cutOff 8 (.tmp ⟨.xz, .data⟩) = none ∧ cutOff 8 (.tmp ⟨.zst, .data⟩) = none ∧
    cutOff 8 (.tmp ⟨.plain, .sha256⟩) = some [5] := by decide +kernel

/-- A run in which the disk fills up while the zstd file is compressed. -/
example : (makeAll { demo [5] with stepOk := fun f => f != ⟨.zst, .data⟩ } (served [4]) [] files).res = .err ∧
    AnyOrder { demo [5] with stepOk := fun f => f != ⟨.zst, .data⟩ } := ⟨by decide +kernel, List.Perm.refl _⟩

/-- A history with a crash between two renames. -/
example : Reached [demo [5], demo [4]] (cutOff 30) :=
  .run (demo [5]) (.run (demo [4]) .empty (List.Perm.refl _) (.inr rfl)) (List.Perm.refl _) (.inl (cutOff_mem (by omega)))

end Ferryd.IndexFiles
