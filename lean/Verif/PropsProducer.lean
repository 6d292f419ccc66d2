import Verif.Producer
import Verif.PropsDelta2
/-!
# PropsProducer: C97–C100, the files of delta production
-/
namespace Ferryd.Producer
open Ferryd.Delta Ferryd.Jobs

/-! ## Evaluation -/

theorem bind_eq (x : P α) (f : α → P β) (w : World) (r : Run) :
    (x >>= f) w r = match x w r with
      | (.ok a, r') => f a w r'
      | (.error e, r') => (.error e, r') := rfl

/-! ## What a computation can touch -/

/-- Files outside `touch` are the same, at the end and in every durable state on the way. -/
structure Only (touch : Path → Prop) (r r' : Run) : Prop where
  now : ∀ p, ¬ touch p → r'.disk.file p = r.disk.file p
  dirs : ∀ d, ¬ touch (.work d (.stray [])) → r'.disk.dir d = r.disk.dir d
  past : ∃ new, r'.tr = new ++ r.tr ∧ ∀ s ∈ new, ∀ p, ¬ touch p → s.file p = r.disk.file p

theorem Only.refl {t} (r : Run) : Only t r r := ⟨fun _ _ => rfl, fun _ _ => rfl, [], rfl, by simp⟩

theorem Only.trans {t} {a b c : Run} (h : Only t a b) (k : Only t b c) : Only t a c := by
  obtain ⟨n1, h1, h2⟩ := h.past
  obtain ⟨n2, k1, k2⟩ := k.past
  refine ⟨fun p hp => (k.now p hp).trans (h.now p hp), fun p hp => (k.dirs p hp).trans (h.dirs p hp), n2 ++ n1, by rw [k1, h1, List.append_assoc], ?_⟩
  intro s hs p hp
  rcases List.mem_append.1 hs with hs | hs
  · exact (k2 s hs p hp).trans (h.now p hp)
  · exact h2 s hs p hp

theorem Only.mono {t u : Path → Prop} (h : ∀ p, t p → u p) {a b : Run} (k : Only t a b) : Only u a b := by
  obtain ⟨n, k1, k2⟩ := k.past
  exact ⟨fun p hp => k.now p (fun x => hp (h p x)), fun d hd => k.dirs d (fun x => hd (h _ x)), n, k1, fun s hs p hp => k2 s hs p (fun x => hp (h p x))⟩

/-- The computation touches nothing else, whatever fails. -/
def Touch (t : Path → Prop) (x : P α) : Prop := ∀ w r, Only t r (x w r).2

theorem Touch.pure {t} (a : α) : Touch t (Pure.pure a : P α) := fun _ r => Only.refl r
theorem Touch.throw {t} (e : Err) : Touch t (P.throw e : P α) := fun _ r => Only.refl r
theorem Touch.bind {t} {x : P α} {f : α → P β} (hx : Touch t x) (hf : ∀ a, Touch t (f a)) : Touch t (x >>= f) := by
  intro w r
  rw [bind_eq]
  have := hx w r
  rcases hxr : x w r with ⟨v, r'⟩
  rw [hxr] at this
  cases v with
  | ok a => exact this.trans (hf a w r')
  | error e => exact this
theorem Touch.fin {t} {x : P α} {c : P Unit} (hx : Touch t x) (hc : Touch t c) : Touch t (P.finally_ x c) := by
  intro w r
  exact (hx w r).trans (hc w _)
theorem Touch.onErr {t} {x : P α} {c : P Unit} (hx : Touch t x) (hc : Touch t c) : Touch t (P.onErr x c) := by
  intro w r
  have := hx w r
  unfold P.onErr
  rcases hxr : x w r with ⟨v, r'⟩
  rw [hxr] at this
  cases v with
  | ok a => exact this
  | error e => exact this.trans (hc w r')
theorem Touch.ignore {t} {x : P Unit} (hx : Touch t x) : Touch t (P.ignore x) := fun w r => hx w r
theorem Touch.mono {t u : Path → Prop} (h : ∀ p, t p → u p) {x : P α} (k : Touch t x) : Touch u x :=
  fun w r => (k w r).mono h
theorem Touch.ite {t} {c : Prop} [Decidable c] {x y : P α} (hx : Touch t x) (hy : Touch t y) :
    Touch t (if c then x else y) := by split <;> assumption

theorem Touch.get {t} : Touch t get := fun _ r => Only.refl r
theorem Touch.opened {t} (h : Hnd) : Touch t (opened h) := fun _ _ => ⟨fun _ _ => rfl, fun _ _ => rfl, [], rfl, by simp⟩
theorem Touch.closed {t} (h : Hnd) : Touch t (closed h) := fun _ _ => ⟨fun _ _ => rfl, fun _ _ => rfl, [], rfl, by simp⟩
theorem Touch.step {t} : Touch t step := by
  intro w r
  unfold Producer.step
  split <;> exact ⟨fun _ _ => rfl, fun _ _ => rfl, [], rfl, by simp⟩
theorem Touch.put {t : Path → Prop} {f : Disk → Disk} (h : ∀ s p, ¬ t p → (f s).file p = s.file p)
    (h' : ∀ s d, ¬ t (.work d (.stray [])) → (f s).dir d = s.dir d) : Touch t (put f) := by
  intro w r
  exact ⟨fun p hp => h _ p hp, fun d hd => h' _ d hd, [f r.disk], rfl, fun s hs p hp => by
    rw [List.mem_singleton] at hs; rw [hs]; exact h _ p hp⟩
theorem Touch.putSet {t : Path → Prop} {q : Path} {d : Option Data} (h : t q) : Touch t (Producer.put fun s => s.set q d) :=
  Touch.put (fun s p hp => by
    show (if p = q then d else s.file p) = s.file p
    rw [if_neg]; rintro rfl; exact hp h) (fun _ _ _ => rfl)
theorem Touch.create {t : Path → Prop} {q : Path} {h : Hnd} (hq : t q) : Touch t (create q h) :=
  .bind .step fun _ => .bind .get fun _ => .ite (.bind (.putSet hq) fun _ => .opened h) (.throw _)
theorem Touch.fill {t : Path → Prop} {q : Path} {d : Data} (hq : t q) : Touch t (fill q d) :=
  .bind .step fun _ => .putSet hq
theorem Touch.remove {t : Path → Prop} {q : Path} (hq : t q) : Touch t (remove q) :=
  .bind .step fun _ => .putSet hq
theorem Touch.openPkg {t} (q : Path) (h : Hnd) : Touch t (openPkg q h) :=
  .bind .step fun _ => .bind .get fun s => by
    split
    · exact .bind (.opened h) fun _ => .pure _
    · exact .throw _
theorem Touch.readAll {t} (a : Arch) : Touch t (readAll a) := .bind .step fun _ => .ite (.pure _) (.throw _)

/-- The files of one working directory. -/
def InWork (d : Str) (p : Path) : Prop := ∃ f, p = .work d f

theorem Touch.removeAll (d : Str) : Touch (InWork d) (removeAll d) := by
  intro w r
  unfold Producer.removeAll Producer.put
  split
  · refine ⟨fun p hp => ?_, fun e he => ?_, [r.disk.rmdir d], rfl, fun s hs p hp => ?_⟩
    rotate_left
    · show (if e = d then false else _) = _
      rw [if_neg]; rintro rfl; exact he ⟨_, rfl⟩
    rotate_left
    · cases p with
      | work e f =>
        show (if e = d then none else _) = _
        rw [if_neg]; rintro rfl; exact hp ⟨f, rfl⟩
      | staged n => rfl
      | other n => rfl
    · rw [List.mem_singleton] at hs
      rw [hs]
      cases p with
      | work e f =>
        show (if e = d then none else _) = _
        rw [if_neg]; rintro rfl; exact hp ⟨f, rfl⟩
      | staged n => rfl
      | other n => rfl
  · refine ⟨fun p hp => ?_, fun _ _ => rfl, [r.disk.rmsome d w.keep], rfl, fun s hs p hp => ?_⟩
    · cases p with
      | work e f =>
        show (if e = d && !w.keep (.work e f) then none else _) = _
        rw [if_neg]
        intro h
        rw [Bool.and_eq_true, decide_eq_true_eq] at h
        exact hp ⟨f, by rw [h.1]⟩
      | staged n => rfl
      | other n => rfl
    · rw [List.mem_singleton] at hs
      rw [hs]
      cases p with
      | work e f =>
        show (if e = d && !w.keep (.work e f) then none else _) = _
        rw [if_neg]
        intro h
        rw [Bool.and_eq_true, decide_eq_true_eq] at h
        exact hp ⟨f, by rw [h.1]⟩
      | staged n => rfl
      | other n => rfl

theorem Touch.closeAll {t} : ∀ hs, Touch t (closeAll hs)
  | [] => .pure _
  | h :: hs => .bind (.closed h) fun _ => Touch.closeAll hs

theorem Touch.close (hs : List Hnd) (d : Str) : Touch (InWork d) (close hs (some d)) :=
  .bind (.closeAll hs) fun _ => .ignore (.removeAll d)
theorem Touch.close' {t} (hs : List Hnd) : Touch t (Producer.close hs none) :=
  .bind (.closeAll hs) fun _ => .pure _

theorem Touch.unxz {t : Path → Prop} {a b : Path} (ha : t a) (hb : t b) : Touch t (unxz a b) :=
  .bind .step fun _ => .bind .get fun s => by
    split
    · exact .bind (.putSet hb) fun _ => .bind (.putSet hb) fun _ => .putSet ha
    · exact .throw _
theorem Touch.xz {t : Path → Prop} {a b : Path} (ha : t a) (hb : t b) : Touch t (xz a b) :=
  .bind .step fun _ => .bind .get fun s => by
    split
    · exact .bind (.putSet hb) fun _ => .bind (.putSet hb) fun _ => .putSet ha
    · exact .throw _

theorem Touch.extractTarball (n : Arch) (d : Str) : Touch (InWork d) (extractTarball n d) :=
  .ite (.throw _) (.bind (.create ⟨_, rfl⟩) fun _ =>
    .fin (.bind (.fill ⟨_, rfl⟩) fun _ => .unxz ⟨_, rfl⟩ ⟨_, rfl⟩) (.closed _))

theorem Touch.copyInstallPartial (n : Arch) (d : Str) (dm : List Str) : Touch (InWork d) (copyInstallPartial n d dm) :=
  .bind (.extractTarball n d) fun _ => .bind .step fun _ => .bind .get fun s => by
    split
    · exact .bind (.opened _) fun _ => .fin (.fill ⟨_, rfl⟩) (.closed _)
    · exact .throw _

theorem Touch.produceInstallBall (o n : Arch) (d : Str) : Touch (InWork d) (produceInstallBall o n d) :=
  .ite (.throw _) (.ite (.pure _) (.bind (.create ⟨_, rfl⟩) fun _ => .bind (.copyInstallPartial n d _) fun _ =>
    .bind (.xz ⟨_, rfl⟩ ⟨_, rfl⟩) fun _ => .pure _))

theorem Touch.pushInstallBall {t} (d : Str) (has : Bool) : Touch t (pushInstallBall d has) :=
  .ite (.pure _) (.bind .step fun _ => .bind .get fun s => by
    split
    · exact .bind (.opened _) fun _ => .bind .step fun _ => .fin (.bind .step fun _ => .pure _) (.closed _)
    · exact .throw _)

theorem Touch.commit (o n : Arch) (d : Str) : Touch (InWork d) (commit o n d) :=
  .bind (.produceInstallBall o n d) fun has => .fin
    (.bind (.create ⟨_, rfl⟩) fun _ => .bind (.onErr (.bind .step fun _ => .bind (.pushInstallBall d has) fun _ =>
      .fill ⟨_, rfl⟩) (.ignore (.remove ⟨_, rfl⟩))) fun _ => .pure _)
    (.ite (.ignore (.remove ⟨_, rfl⟩)) (.pure _))

theorem Touch.copyFile {t : Path → Prop} {a b : Path} (hb : t b) : Touch t (copyFile a b) :=
  .bind .get fun s => by
    split
    · exact .pure _
    · exact .bind .step fun _ => .bind (.opened _) fun _ =>
        .fin (.bind (.create hb) fun _ => .fin (.fill hb) (.closed _)) (.closed _)

theorem Touch.link {t : Path → Prop} {a b : Path} (hb : t b) : Touch t (link a b) := by
  intro w r
  unfold Producer.link
  dsimp only
  split
  · split
    · rename_i c _ _ _
      have hk : ∀ p, ¬ t p → (r.disk.set b (some c)).file p = r.disk.file p := by
        intro p hp
        show (if p = b then _ else _) = _
        rw [if_neg]; rintro rfl; exact hp hb
      exact ⟨fun p hp => hk p hp, fun _ _ => rfl, [r.disk.set b (some c)], rfl, fun s hs p hp => by
        rw [List.mem_singleton] at hs; rw [hs]; exact hk p hp⟩
    · exact ⟨fun _ _ => rfl, fun _ _ => rfl, [], rfl, by simp⟩
  · exact ⟨fun _ _ => rfl, fun _ _ => rfl, [], rfl, by simp⟩

theorem Touch.linkOrCopy {t : Path → Prop} {a b : Path} (hb : t b) : Touch t (linkOrCopy a b) :=
  .bind (.link hb) fun _ => .ite (.pure _) (.copyFile hb)

/-! ## Inversion -/

theorem bind_ok {x : P α} {f : α → P β} {w r b r'} (h : (x >>= f) w r = (.ok b, r')) :
    ∃ a r1, x w r = (.ok a, r1) ∧ f a w r1 = (.ok b, r') := by
  rw [bind_eq] at h
  rcases hx : x w r with ⟨v, r1⟩
  rw [hx] at h
  cases v with
  | ok a => exact ⟨a, r1, rfl, h⟩
  | error e => cases h

theorem fin_eq {x : P α} {c : P Unit} {w r v r'} (h : P.finally_ x c w r = (v, r')) :
    ∃ r1, x w r = (v, r1) ∧ r' = (c w r1).2 := by
  unfold P.finally_ at h
  rcases hx : x w r with ⟨v1, r1⟩
  rw [hx] at h
  cases h
  exact ⟨r1, rfl, rfl⟩

theorem onErr_ok {x : P α} {c : P Unit} {w r a r'} (h : P.onErr x c w r = (.ok a, r')) : x w r = (.ok a, r') := by
  unfold P.onErr at h
  rcases hx : x w r with ⟨v1, r1⟩
  rw [hx] at h
  cases v1 with
  | ok b => exact h
  | error e => cases h

theorem step_eq (w : World) (r : Run) :
    step w r = (.ok (), { r with tick := r.tick + 1 }) ∨ step w r = (.error .io, { r with tick := r.tick + 1 }) := by
  unfold step
  split
  · exact .inr rfl
  · exact .inl rfl

theorem step_ok {w r v r'} (h : step w r = (.ok v, r')) : r' = { r with tick := r.tick + 1 } := by
  rcases step_eq w r with h' | h' <;> rw [h'] at h <;> cases h
  rfl

theorem get_ok {w r s r'} (h : get w r = (.ok s, r')) : s = r.disk ∧ r' = r := by cases h; exact ⟨rfl, rfl⟩

theorem set_self (s : Disk) (p : Path) (d : Option Data) : (s.set p d).file p = d := by
  show (if p = p then d else _) = d
  rw [if_pos rfl]
theorem set_ne (s : Disk) {p q : Path} (h : q ≠ p) (d : Option Data) : (s.set p d).file q = s.file q := by
  show (if q = p then d else _) = _
  rw [if_neg h]

theorem fill_ok {p d w r v r'} (h : fill p d w r = (.ok v, r')) :
    r'.disk = r.disk.set p (some d) ∧ r'.hs = r.hs := by
  obtain ⟨_, r1, h1, h2⟩ := bind_ok h
  have := step_ok h1
  cases h2
  subst this
  exact ⟨rfl, rfl⟩

theorem create_ok {p k w r v r'} (h : create p k w r = (.ok v, r')) :
    r.disk.hasDir p = true ∧ r'.disk = r.disk.set p (some .part) ∧ r'.hs = k :: r.hs := by
  obtain ⟨_, r1, h1, h2⟩ := bind_ok h
  have e1 := step_ok h1
  obtain ⟨s, r2, h3, h4⟩ := bind_ok h2
  obtain ⟨e2, e3⟩ := get_ok h3
  subst e1 e2 e3
  dsimp only at h4
  by_cases hd : r.disk.hasDir p = true
  · rw [if_pos hd] at h4
    obtain ⟨_, r3, h5, h6⟩ := bind_ok h4
    cases h5; cases h6
    exact ⟨hd, rfl, rfl⟩
  · rw [if_neg hd] at h4
    cases h4

theorem unxz_ok {a b w r v r'} (hab : a ≠ b) (h : unxz a b w r = (.ok v, r')) :
    ∃ t, r.disk.file a = some (.xz t) ∧ r'.disk.file b = some (.tar t) ∧ r'.hs = r.hs := by
  obtain ⟨_, r1, h1, h2⟩ := bind_ok h
  have e1 := step_ok h1
  obtain ⟨s, r2, h3, h4⟩ := bind_ok h2
  obtain ⟨e2, e3⟩ := get_ok h3
  subst e1 e2 e3
  dsimp only at h4
  by_cases hx : ∃ t, r.disk.file a = some (.xz t) ∧ r.disk.file b = none
  · obtain ⟨t, ha, hb⟩ := hx
    rw [ha, hb] at h4
    obtain ⟨_, r3, h5, h6⟩ := bind_ok h4
    obtain ⟨_, r4, h7, h8⟩ := bind_ok h6
    cases h5; cases h7; cases h8
    refine ⟨t, ha, ?_, rfl⟩
    show (Disk.set _ a none).file b = _
    rw [set_ne _ (Ne.symm hab), set_self]
  · exfalso
    rcases ha : r.disk.file a with _ | x
    · rw [ha] at h4; cases h4
    · cases x with
      | xz t =>
        rcases hb : r.disk.file b with _ | y
        · exact hx ⟨t, ha, hb⟩
        · rw [ha, hb] at h4; cases h4
      | _ => rw [ha] at h4; cases h4

theorem xz_ok {a b w r v r'} (hab : a ≠ b) (h : xz a b w r = (.ok v, r')) :
    ∃ t, r.disk.file a = some (.tar t) ∧ r'.disk.file b = some (.xz t) ∧ r'.hs = r.hs := by
  obtain ⟨_, r1, h1, h2⟩ := bind_ok h
  have e1 := step_ok h1
  obtain ⟨s, r2, h3, h4⟩ := bind_ok h2
  obtain ⟨e2, e3⟩ := get_ok h3
  subst e1 e2 e3
  dsimp only at h4
  by_cases hx : ∃ t, r.disk.file a = some (.tar t) ∧ r.disk.file b = none
  · obtain ⟨t, ha, hb⟩ := hx
    rw [ha, hb] at h4
    obtain ⟨_, r3, h5, h6⟩ := bind_ok h4
    obtain ⟨_, r4, h7, h8⟩ := bind_ok h6
    cases h5; cases h7; cases h8
    refine ⟨t, ha, ?_, rfl⟩
    show (Disk.set _ a none).file b = _
    rw [set_ne _ (Ne.symm hab), set_self]
  · exfalso
    rcases ha : r.disk.file a with _ | x
    · rw [ha] at h4; cases h4
    · cases x with
      | tar t =>
        rcases hb : r.disk.file b with _ | y
        · exact hx ⟨t, ha, hb⟩
        · rw [ha, hb] at h4; cases h4
      | _ => rw [ha] at h4; cases h4

theorem extractTarball_ok {n : Arch} {d w r v r'} (h : extractTarball n d w r = (.ok v, r')) :
    r'.disk.file (.work d .inst) = some (.tar n.pack.tar) := by
  unfold extractTarball at h
  split at h
  · cases h
  · obtain ⟨_, r1, h1, h2⟩ := bind_ok h
    obtain ⟨r2, h3, rfl⟩ := fin_eq h2
    obtain ⟨_, r3, h4, h5⟩ := bind_ok h3
    obtain ⟨t, ht, hb, _⟩ := unxz_ok (by simp) h5
    rw [(fill_ok h4).1, set_self] at ht
    cases ht
    exact hb

theorem copyInstallPartial_ok {n : Arch} {d dm w r v r'} (h : copyInstallPartial n d dm w r = (.ok v, r')) :
    r'.disk.file (.work d .ball) = some (.tar (copyInstall dm n.pack.tar)) := by
  obtain ⟨_, r1, h1, h2⟩ := bind_ok h
  have hx := extractTarball_ok h1
  obtain ⟨_, r2, h3, h4⟩ := bind_ok h2
  have e1 := step_ok h3
  obtain ⟨s, r3, h5, h6⟩ := bind_ok h4
  obtain ⟨e2, e3⟩ := get_ok h5
  subst e1 e2 e3
  rw [hx] at h6
  obtain ⟨_, r4, h7, h8⟩ := bind_ok h6
  obtain ⟨r5, h9, rfl⟩ := fin_eq h8
  show r5.disk.file _ = _
  rw [(fill_ok h9).1, set_self]

theorem produceInstallBall_ok {o n : Arch} {d w r has r'} (h : produceInstallBall o n d w r = (.ok has, r')) :
    (diffMap o.pack.files n.pack.files).length ≠ n.pack.files.length ∧
    (has = false ∧ diffMap o.pack.files n.pack.files = [] ∧ r' = r ∨
     has = true ∧ diffMap o.pack.files n.pack.files ≠ [] ∧
      r'.disk.file (.work d .ballXz) = some (.xz (copyInstall (diffMap o.pack.files n.pack.files) n.pack.tar))) := by
  unfold produceInstallBall at h
  split at h
  · cases h
  · rename_i hl
    split at h
    · rename_i h0
      cases h
      exact ⟨hl, .inl ⟨rfl, List.length_eq_zero_iff.1 h0, rfl⟩⟩
    · rename_i h0
      obtain ⟨_, r1, h1, h2⟩ := bind_ok h
      obtain ⟨_, r2, h3, h4⟩ := bind_ok h2
      obtain ⟨_, r3, h5, h6⟩ := bind_ok h4
      cases h6
      obtain ⟨t, ht, hb, _⟩ := xz_ok (by simp) h5
      rw [copyInstallPartial_ok h3] at ht
      cases ht
      exact ⟨hl, .inr ⟨rfl, fun hx => h0 (by rw [hx]; rfl), hb⟩⟩

theorem pushInstallBall_ok {d has w r es r'} (h : pushInstallBall d has w r = (.ok es, r')) :
    r'.disk = r.disk ∧
    (has = false ∧ es = [] ∨ has = true ∧ r.disk.file (.work d .ballXz) = some (.xz es)) := by
  unfold pushInstallBall at h
  split at h
  · rename_i hh
    cases h
    exact ⟨rfl, .inl ⟨by simpa using hh, rfl⟩⟩
  · rename_i hh
    obtain ⟨_, r2, h3, h4⟩ := bind_ok h
    have e1 := step_ok h3
    obtain ⟨s, r3, h5, h6⟩ := bind_ok h4
    obtain ⟨e2, e3⟩ := get_ok h5
    subst e1 e2 e3
    rcases hf : r.disk.file (.work d .ballXz) with _ | x
    · rw [hf] at h6; cases h6
    cases x with
    | xz t =>
      rw [hf] at h6
      obtain ⟨_, r4, h7, h8⟩ := bind_ok h6
      cases h7
      obtain ⟨_, r5, h9, h10⟩ := bind_ok h8
      have e4 := step_ok h9
      obtain ⟨r6, h11, rfl⟩ := fin_eq h10
      obtain ⟨_, r7, h12, h13⟩ := bind_ok h11
      have e5 := step_ok h12
      cases h13
      subst e4 e5
      exact ⟨rfl, .inr ⟨by simpa using hh, rfl⟩⟩
    | _ => rw [hf] at h6; cases h6

/-! ## Specification -/

/-- `a` is the whole delta package between `o` and `n`, as `Verif.Delta` defines it. -/
def IsDelta (o n a : Arch) : Prop :=
  produce o.pack n.pack = .pack a.pack ∧ a.readable = true ∧
    (a.hasTar = true ↔ diffMap o.pack.files n.pack.files ≠ [])

/-- Where the delta between two packages is staged. -/
def target (mo mn : Meta) : Path := .staged (deltaName mn (relOf mo) (relOf mn))

theorem commit_ok {o n : Arch} {d w r p r'}
    (hposs : isDeltaPossible o.pack.pkg n.pack.pkg (relOf o.pack.pkg) (relOf n.pack.pkg) = true)
    (h : commit o n d w r = (.ok p, r')) :
    p = .work d (.delta (deltaName n.pack.pkg (relOf o.pack.pkg) (relOf n.pack.pkg))) ∧
    ∃ a, r'.disk.file p = some (.zip a) ∧ IsDelta o n a := by
  obtain ⟨has, r1, h1, h2⟩ := bind_ok h
  obtain ⟨hl, hb⟩ := produceInstallBall_ok h1
  obtain ⟨r2, h3, h4⟩ := fin_eq h2
  obtain ⟨_, r3, h5, h6⟩ := bind_ok h3
  obtain ⟨_, r4, h7, h8⟩ := bind_ok h6
  obtain ⟨rfl, rfl⟩ : Path.work d (.delta (deltaName n.pack.pkg (relOf o.pack.pkg) (relOf n.pack.pkg))) = p ∧ r4 = r2 := by
    cases h8; exact ⟨rfl, rfl⟩
  obtain ⟨_, r5, h9, h10⟩ := bind_ok (onErr_ok h7)
  have e1 := step_ok h9
  obtain ⟨es, r6, h11, h12⟩ := bind_ok h10
  obtain ⟨e2, he⟩ := pushInstallBall_ok h11
  obtain ⟨_, hc, _⟩ := create_ok h5
  refine ⟨rfl, ⟨⟨n.pack.pkg, n.pack.files, es, copyZip n.pack.zip⟩, has, true⟩, ?_, ?_⟩
  · have : r4.disk.file (.work d (.delta (deltaName n.pack.pkg (relOf o.pack.pkg) (relOf n.pack.pkg)))) =
        some (.zip ⟨⟨n.pack.pkg, n.pack.files, es, copyZip n.pack.zip⟩, has, true⟩) := by
      rw [(fill_ok h12).1, set_self]
    rw [← this, h4]
    have ht : Touch (fun q => q = .work d .ballXz)
        (if has then P.ignore (remove (.work d .ballXz)) else (pure () : P Unit)) :=
      .ite (.ignore (.remove rfl)) (.pure _)
    exact (ht w r4).now _ (by simp)
  · have hes : es = if has then copyInstall (diffMap o.pack.files n.pack.files) n.pack.tar else [] := by
      rcases he with ⟨rfl, rfl⟩ | ⟨rfl, he⟩
      · rfl
      · rcases hb with ⟨hb, _⟩ | ⟨_, _, hb⟩
        · cases hb
        · subst e1
          have : r3.disk.file (.work d .ballXz) = r1.disk.file (.work d .ballXz) := by
            rw [hc, set_ne _ (by simp)]
          have he' : r3.disk.file (.work d .ballXz) = some (.xz es) := he
          rw [this, hb] at he'
          cases he'
          rfl
    refine ⟨?_, rfl, ?_⟩
    · unfold produce produceBall
      rw [hposs]
      dsimp only
      rw [if_neg (by simp), if_neg hl]
      rcases hb with ⟨rfl, h0, _⟩ | ⟨rfl, h0, _⟩
      · rw [if_pos (by rw [h0]; rfl)]
        dsimp only
        rw [hes]; rfl
      · rw [if_neg (fun hx => h0 (List.length_eq_zero_iff.1 hx))]
        dsimp only
        rw [hes]; rfl
    · rcases hb with ⟨rfl, h0, _⟩ | ⟨rfl, h0, _⟩
      · simp [h0]
      · simp [h0]

/-! ## The producer -/

theorem openPkg_eq (p : Path) (h : Hnd) (w : World) (r : Run) :
    (∃ a, r.disk.file p = some (.zip a) ∧
      openPkg p h w r = (.ok a, { r with tick := r.tick + 1, hs := h :: r.hs })) ∨
    (openPkg p h w r = (.error .io, { r with tick := r.tick + 1 })) := by
  unfold openPkg
  rw [bind_eq]
  rcases step_eq w r with hs | hs
  · rw [hs]
    dsimp only
    rw [bind_eq]
    dsimp only [get]
    rcases hf : r.disk.file p with _ | x
    · exact .inr rfl
    · cases x with
      | zip a => exact .inl ⟨a, rfl, rfl⟩
      | _ => exact .inr rfl
  · rw [hs]
    exact .inr rfl

theorem readAll_eq (a : Arch) (w : World) (r : Run) :
    (a.readable = true ∧ readAll a w r = (.ok (), { r with tick := r.tick + 1 })) ∨
    (∃ e, (e = .io ∨ e = .corrupted ∧ a.readable = false) ∧
      readAll a w r = (.error e, { r with tick := r.tick + 1 })) := by
  unfold readAll
  rw [bind_eq]
  rcases step_eq w r with hs | hs
  · rw [hs]
    dsimp only
    split
    · rename_i h; exact .inl ⟨h, rfl⟩
    · rename_i h; exact .inr ⟨.corrupted, .inr ⟨rfl, by simpa using h⟩, rfl⟩
  · rw [hs]
    exact .inr ⟨.io, .inl rfl, rfl⟩

/-- What `NewDeltaProducer` can do. -/
inductive Begun (pold pnew : Path) (w : World) (r : Run) : Except Err (Arch × Arch × Str) × Run → Prop
  | failed (e : Err) (r' : Run) (he : e = .io ∨ e = .corrupted) (hd : r'.disk = r.disk) (hh : r'.hs = r.hs)
      (ht : r'.tr = r.tr) : Begun pold pnew w r (.error e, r')
  | mismatch (o n : Arch) (r' : Run) (ho : r.disk.file pold = some (.zip o)) (hn : r.disk.file pnew = some (.zip n))
      (hp : isDeltaPossible o.pack.pkg n.pack.pkg (relOf o.pack.pkg) (relOf n.pack.pkg) = false)
      (hd : r'.disk = r.disk) (hh : r'.hs = .new :: .old :: r.hs) (ht : r'.tr = r.tr) :
      Begun pold pnew w r (.error .mismatched, r')
  | nodir (o n : Arch) (r' : Run) (ho : r.disk.file pold = some (.zip o)) (hn : r.disk.file pnew = some (.zip n))
      (hp : isDeltaPossible o.pack.pkg n.pack.pkg (relOf o.pack.pkg) (relOf n.pack.pkg) = true)
      (hx : ∃ r1 : Run, r1.disk = r.disk ∧ r1.hs = .new :: .old :: r.hs ∧ r1.tr = r.tr ∧
        r' = (close [.old, .new] (some (workDir o.pack.pkg n.pack.pkg)) w r1).2) :
      Begun pold pnew w r (.error .io, r')
  | ok (o n : Arch) (r' : Run) (ho : r.disk.file pold = some (.zip o)) (hn : r.disk.file pnew = some (.zip n))
      (hr : o.readable = true ∧ n.readable = true)
      (hp : isDeltaPossible o.pack.pkg n.pack.pkg (relOf o.pack.pkg) (relOf n.pack.pkg) = true)
      (hd : r'.disk = r.disk.mkdir (workDir o.pack.pkg n.pack.pkg)) (hh : r'.hs = .new :: .old :: r.hs)
      (ht : r'.tr = r.disk.mkdir (workDir o.pack.pkg n.pack.pkg) :: r.tr) :
      Begun pold pnew w r (.ok (o, n, workDir o.pack.pkg n.pack.pkg), r')

theorem newProducer_begun (pold pnew : Path) (w : World) (r : Run) :
    Begun pold pnew w r (newProducer pold pnew w r) := by
  unfold newProducer
  rw [bind_eq]
  rcases openPkg_eq pold .old w r with ⟨o, ho, h1⟩ | h1
  rotate_left
  · rw [h1]; exact .failed _ _ (.inl rfl) rfl rfl rfl
  rw [h1]
  dsimp only
  rw [bind_eq]
  dsimp only [P.onErr]
  rcases readAll_eq o w { r with tick := r.tick + 1, hs := Hnd.old :: r.hs } with ⟨hro, h2⟩ | ⟨e, he, h2⟩
  rotate_left
  · rw [h2]
    dsimp only
    exact .failed _ _ (he.imp id And.left) rfl (by simp [close, closeAll, closed, bind_eq, pure, P.pure]) rfl
  rw [h2]
  dsimp only
  rw [bind_eq]
  dsimp only [P.onErr]
  rcases openPkg_eq pnew .new w { r with tick := r.tick + 1 + 1, hs := Hnd.old :: r.hs } with ⟨n, hn, h3⟩ | h3
  rotate_left
  · rw [h3]
    dsimp only
    exact .failed _ _ (.inl rfl) rfl (by simp [close, closeAll, closed, bind_eq, pure, P.pure]) rfl
  rw [h3]
  dsimp only
  rw [bind_eq]
  dsimp only [P.onErr]
  rcases readAll_eq n w { r with tick := r.tick + 1 + 1 + 1, hs := Hnd.new :: Hnd.old :: r.hs } with
    ⟨hrn, h4⟩ | ⟨e, he, h4⟩
  rotate_left
  · rw [h4]
    dsimp only
    exact .failed _ _ (he.imp id And.left) rfl (by simp [close, closeAll, closed, bind_eq, pure, P.pure]) rfl
  rw [h4]
  dsimp only
  by_cases hp : isDeltaPossible o.pack.pkg n.pack.pkg (relOf o.pack.pkg) (relOf n.pack.pkg) = true
  rotate_left
  · rw [if_pos (by simpa using hp)]
    exact .mismatch o n _ ho hn (by simpa using hp) rfl rfl rfl
  rw [if_neg (by simpa using hp), bind_eq]
  dsimp only [P.onErr]
  rw [bind_eq]
  rcases step_eq w { r with tick := r.tick + 1 + 1 + 1 + 1, hs := Hnd.new :: Hnd.old :: r.hs } with h5 | h5
  · rw [h5]
    exact .ok o n _ ho hn ⟨hro, hrn⟩ hp rfl rfl rfl
  · rw [h5]
    exact .nodir o n _ ho hn hp ⟨⟨r.disk, .new :: .old :: r.hs, r.tr, r.tick + 5⟩, rfl, rfl, rfl, rfl⟩

/-- The body of `ProduceDelta` between opening and closing the producer. -/
def body (o n : Arch) (d : Str) (t : Path) : P Unit := do
  let p ← commit o n d
  P.finally_ (linkOrCopy p t) (P.ignore (remove p))

/-- What `CreateDelta` can do. -/
inductive Ended (mo mn : Meta) (pold pnew : Path) (w : World) (r : Run) : Except Err Path × Run → Prop
  | impossible (hp : isDeltaPossible mo mn (relOf mo) (relOf mn) = false) :
      Ended mo mn pold pnew w r (.error .mismatched, r)
  | there (hp : isDeltaPossible mo mn (relOf mo) (relOf mn) = true)
      (ht : (r.disk.file (target mo mn)).isSome = true) : Ended mo mn pold pnew w r (.ok (target mo mn), r)
  | notBegun (e : Err) (r' : Run) (ht : r.disk.file (target mo mn) = none)
      (hb : Begun pold pnew w r (.error e, r')) : Ended mo mn pold pnew w r (.error e, r')
  | tried (o n : Arch) (r1 r2 : Run) (v : Except Err Unit)
      (hp : isDeltaPossible mo mn (relOf mo) (relOf mn) = true) (ht : r.disk.file (target mo mn) = none)
      (hb : Begun pold pnew w r (.ok (o, n, workDir o.pack.pkg n.pack.pkg), r1))
      (hx : body o n (workDir o.pack.pkg n.pack.pkg) (target mo mn) w r1 = (v, r2)) :
      Ended mo mn pold pnew w r
        (v.map fun _ => target mo mn, (close [.old, .new] (some (workDir o.pack.pkg n.pack.pkg)) w r2).2)

theorem createDelta_ended (mo mn : Meta) (pold pnew : Path) (w : World) (r : Run) :
    Ended mo mn pold pnew w r (createDelta mo mn pold pnew w r) := by
  unfold createDelta
  by_cases hp : isDeltaPossible mo mn (relOf mo) (relOf mn) = true
  rotate_left
  · rw [if_pos (by simpa using hp)]
    exact .impossible (by simpa using hp)
  rw [if_neg (by simpa using hp), bind_eq]
  dsimp only [get]
  by_cases ht : (r.disk.file (target mo mn)).isSome = true
  · rw [if_pos (show (r.disk.file (Path.staged (deltaName mn (relOf mo) (relOf mn)))).isSome = true from ht)]
    exact .there hp ht
  have ht' : r.disk.file (target mo mn) = none := by simpa using ht
  rw [if_neg (show ¬ (r.disk.file (Path.staged (deltaName mn (relOf mo) (relOf mn)))).isSome = true from ht), bind_eq]
  dsimp only [produceDelta]
  rw [bind_eq]
  have hb := newProducer_begun pold pnew w r
  rcases hn : newProducer pold pnew w r with ⟨v, r1⟩
  rw [hn] at hb
  cases v with
  | error e => exact .notBegun e r1 ht' hb
  | ok ond =>
    obtain ⟨o, n, d⟩ := ond
    have hd : d = workDir o.pack.pkg n.pack.pkg := by cases hb; rfl
    subst hd
    dsimp only [P.finally_]
    rcases hx : body o n (workDir o.pack.pkg n.pack.pkg) (target mo mn) w r1 with ⟨v, r2⟩
    have hx' : (commit o n (workDir o.pack.pkg n.pack.pkg) >>= fun p =>
        P.finally_ (linkOrCopy p (.staged (deltaName mn (relOf mo) (relOf mn)))) (P.ignore (remove p))) w r1 = (v, r2) :=
      hx
    rw [hx']
    cases v with
    | ok _ => exact .tried o n r1 r2 (.ok ()) hp ht' hb hx
    | error e => exact .tried o n r1 r2 (.error e) hp ht' hb hx

theorem commit_path {o n : Arch} {d w r p r'} (h : commit o n d w r = (.ok p, r')) : InWork d p := by
  obtain ⟨has, r1, h1, h2⟩ := bind_ok h
  obtain ⟨r2, h3, h4⟩ := fin_eq h2
  obtain ⟨_, r3, h5, h6⟩ := bind_ok h3
  obtain ⟨_, r4, h7, h8⟩ := bind_ok h6
  cases h8
  exact ⟨_, rfl⟩

theorem Touch.body (o n : Arch) (d : Str) (t : Path) : Touch (fun p => InWork d p ∨ p = t) (body o n d t) := by
  intro w r
  unfold Producer.body
  rw [bind_eq]
  have h1 := (((Touch.commit o n d).mono fun _ h => .inl h) : Touch (fun p => InWork d p ∨ p = t) _) w r
  rcases hc : Producer.commit o n d w r with ⟨v, r1⟩
  rw [hc] at h1
  cases v with
  | error e => exact h1
  | ok p =>
    exact h1.trans ((Touch.fin (.linkOrCopy (.inr rfl)) (.ignore (.remove (.inl (commit_path hc))))) w r1)

theorem closeAll_eq : ∀ (hs : List Hnd) (w : World) (r : Run),
    closeAll hs w r = (.ok (), { r with hs := hs.foldl List.erase r.hs })
  | [], _, _ => rfl
  | h :: hs, w, r => by
    unfold closeAll
    rw [bind_eq]
    dsimp only [closed]
    rw [closeAll_eq hs]
    rfl

/-- After closing with a working removal the working directory is gone and nothing else has changed. -/
theorem close_disk {w : World} (hrm : w.rmOk = true) (hs : List Hnd) (d : Str) (r : Run) :
    ((close hs (some d) w r).2).disk = r.disk.rmdir d ∧
    ((close hs (some d) w r).2).tr = r.disk.rmdir d :: r.tr ∧
    ((close hs (some d) w r).2).hs = hs.foldl List.erase r.hs := by
  unfold close
  rw [bind_eq, closeAll_eq]
  dsimp only [P.ignore, removeAll]
  rw [if_pos hrm]
  exact ⟨rfl, rfl, rfl⟩

theorem rmdir_same (s : Disk) (d : Str) (h : s.dir d = false) (hf : ∀ f, s.file (.work d f) = none) :
    (∀ p, (s.rmdir d).file p = s.file p) ∧ (∀ e, (s.rmdir d).dir e = s.dir e) := by
  constructor
  · intro p
    cases p with
    | work e f =>
      show (if e = d then none else _) = _
      split
      · rename_i he; rw [he, hf f]
      · rfl
    | _ => rfl
  · intro e
    show (if e = d then false else _) = _
    split
    · rename_i he; rw [he, h]
    · rfl

/-! ## C97 -/

/-- No working directory is there. -/
def Clean (s : Disk) : Prop := ∀ d, s.dir d = false ∧ ∀ f, s.file (.work d f) = none

/-- C97: whatever step fails while a delta is produced (only the removal of directories has to work), afterwards the disk is
as before but for the staged delta: no working directory, no temporary, every other file unchanged. -/
theorem C97_nothing_left {mo mn : Meta} {pold pnew : Path} {w : World} {r r' : Run} {v : Except Err Path}
    (hrm : w.rmOk = true) (hc : Clean r.disk) (h : createDelta mo mn pold pnew w r = (v, r')) :
    Clean r'.disk ∧ ∀ p, p ≠ target mo mn → r'.disk.file p = r.disk.file p := by
  have hE := createDelta_ended mo mn pold pnew w r
  rw [h] at hE
  have key : ∀ (d : Str) (s : Disk), (∀ p, ¬ InWork d p → p ≠ target mo mn → s.file p = r.disk.file p) →
      (∀ e, e ≠ d → s.dir e = r.disk.dir e) →
      Clean (s.rmdir d) ∧ ∀ p, p ≠ target mo mn → (s.rmdir d).file p = r.disk.file p := by
    intro d s hf hdir
    have hfile : ∀ p, p ≠ target mo mn → (s.rmdir d).file p = r.disk.file p := by
      intro p hp
      cases p with
      | work e f =>
        show (if e = d then none else s.file (.work e f)) = _
        split
        · exact ((hc e).2 f).symm
        · rename_i he
          exact hf _ (by rintro ⟨g, hg⟩; cases hg; exact he rfl) hp
      | staged n => exact hf _ (by rintro ⟨g, hg⟩; cases hg) hp
      | other n => exact hf _ (by rintro ⟨g, hg⟩; cases hg) hp
    refine ⟨fun e => ⟨?_, fun f => ?_⟩, hfile⟩
    · show (if e = d then false else s.dir e) = _
      split
      · rfl
      · rename_i he; rw [hdir e he]; exact (hc e).1
    · rw [hfile _ (by unfold target; simp)]; exact (hc e).2 f
  cases hE with
  | impossible _ => exact ⟨hc, fun _ _ => rfl⟩
  | there _ _ => exact ⟨hc, fun _ _ => rfl⟩
  | notBegun e r' ht hb =>
    cases hb with
    | failed _ _ he hd _ _ => rw [hd]; exact ⟨hc, fun _ _ => rfl⟩
    | mismatch o n _ ho hn hp hd _ _ => rw [hd]; exact ⟨hc, fun _ _ => rfl⟩
    | nodir o n _ ho hn hp hx =>
      obtain ⟨r1, e1, _, _, rfl⟩ := hx
      rw [(close_disk hrm _ _ r1).1, e1]
      exact key _ _ (fun _ _ _ => rfl) (fun _ _ => rfl)
  | tried o n r1 r2 v hp ht hb hx =>
    rw [(close_disk hrm _ _ r2).1]
    have hB := Touch.body o n (workDir o.pack.pkg n.pack.pkg) (target mo mn) w r1
    rw [hx] at hB
    cases hb with
    | ok _ _ _ ho hn hr hp' hd _ _ =>
      refine key _ _ (fun p h1 h2 => ?_) (fun e he => ?_)
      · rw [hB.now p (by rintro (h | h); exact h1 h; exact h2 h), hd]; rfl
      · rw [hB.dirs e (by rintro (⟨f, h⟩ | h); cases h; exact he rfl; unfold target at h; cases h), hd]
        show (if e = _ then true else _) = _
        rw [if_neg he]

/-- C97 from any state of the disk: once the packages have been found to fit and the working directory was to be made, it is
gone afterwards, whatever it held before and whatever failed. -/
theorem C97_work_gone {mo mn : Meta} {pold pnew : Path} {w : World} {r r' : Run} {v : Except Err Path} {o n : Arch}
    (hrm : w.rmOk = true) (h : createDelta mo mn pold pnew w r = (v, r'))
    (ho : r.disk.file pold = some (.zip o)) (hn : r.disk.file pnew = some (.zip n)) :
    r'.disk = r.disk ∨ (r'.disk.dir (workDir o.pack.pkg n.pack.pkg) = false ∧
      ∀ f, r'.disk.file (.work (workDir o.pack.pkg n.pack.pkg) f) = none) := by
  have hE := createDelta_ended mo mn pold pnew w r
  rw [h] at hE
  have key : ∀ (s : Disk) (d : Str), (s.rmdir d).dir d = false ∧ ∀ f, (s.rmdir d).file (.work d f) = none := by
    intro s d
    constructor
    · show (if d = d then false else _) = _
      rw [if_pos rfl]
    · intro f
      show (if d = d then none else _) = _
      rw [if_pos rfl]
  cases hE with
  | impossible _ => exact .inl rfl
  | there _ _ => exact .inl rfl
  | notBegun e r' ht hb =>
    cases hb with
    | failed _ _ he hd _ _ => exact .inl hd
    | mismatch o n _ ho hn hp hd _ _ => exact .inl hd
    | nodir o' n' _ ho' hn' hp hx =>
      rw [ho'] at ho; rw [hn'] at hn; cases ho; cases hn
      obtain ⟨r1, e1, _, _, rfl⟩ := hx
      rw [(close_disk hrm _ _ r1).1]
      exact .inr (key _ _)
  | tried o' n' r1 r2 v hp ht hb hx =>
    cases hb with
    | ok _ _ _ ho' hn' hr hp' hd _ _ =>
      rw [ho'] at ho; rw [hn'] at hn; cases ho; cases hn
      rw [(close_disk hrm _ _ r2).1]
      exact .inr (key _ _)

/-- C97 at every moment: in no durable state of the run has a file changed that is neither the delta nor in the working
directory of these two packages. -/
theorem C97_touches_only {mo mn : Meta} {pold pnew : Path} {w : World} {r r' : Run} {v : Except Err Path} {o n : Arch}
    (h : createDelta mo mn pold pnew w r = (v, r'))
    (ho : r.disk.file pold = some (.zip o)) (hn : r.disk.file pnew = some (.zip n)) :
    Only (fun p => InWork (workDir o.pack.pkg n.pack.pkg) p ∨ p = target mo mn) r r' := by
  have hE := createDelta_ended mo mn pold pnew w r
  rw [h] at hE
  cases hE with
  | impossible _ => exact .refl _
  | there _ _ => exact .refl _
  | notBegun e r' ht hb =>
    cases hb with
    | failed _ _ he hd _ htr =>
      exact ⟨fun p _ => by rw [hd], fun p _ => by rw [hd], [], by rw [htr]; rfl, by simp⟩
    | mismatch o n _ ho hn hp hd _ htr =>
      exact ⟨fun p _ => by rw [hd], fun p _ => by rw [hd], [], by rw [htr]; rfl, by simp⟩
    | nodir o' n' _ ho' hn' hp hx =>
      rw [ho'] at ho; rw [hn'] at hn; cases ho; cases hn
      obtain ⟨r1, e1, _, e3, rfl⟩ := hx
      have h1 : Only (fun p => InWork (workDir o.pack.pkg n.pack.pkg) p ∨ p = target mo mn) r r1 :=
        ⟨fun p _ => by rw [e1], fun p _ => by rw [e1], [], by rw [e3]; rfl, by simp⟩
      exact h1.trans ((Touch.close _ _ w r1).mono fun _ h => .inl h)
  | tried o' n' r1 r2 v hp ht hb hx =>
    have hB := Touch.body o' n' (workDir o'.pack.pkg n'.pack.pkg) (target mo mn) w r1
    rw [hx] at hB
    cases hb with
    | ok _ _ _ ho' hn' hr hp' hd _ htr =>
      rw [ho'] at ho; rw [hn'] at hn; cases ho; cases hn
      have h1 : Only (fun p => InWork (workDir o.pack.pkg n.pack.pkg) p ∨ p = target mo mn) r r1 := by
        refine ⟨fun p _ => by rw [hd]; rfl, fun e he => ?_, [r.disk.mkdir (workDir o.pack.pkg n.pack.pkg)],
          by rw [htr]; rfl, fun s hs p _ => by rw [List.mem_singleton] at hs; rw [hs]; rfl⟩
        rw [hd]
        show (if e = _ then true else _) = _
        rw [if_neg]; rintro rfl; exact he (.inl ⟨_, rfl⟩)
      exact (h1.trans hB).trans ((Touch.close _ _ w r2).mono fun _ h => .inl h)

/-! ## C98 -/

theorem copyFile_ok {a b w r r'} {c : Data} (hc : r.disk.file a = some c) (h : copyFile a b w r = (.ok (), r')) :
    r'.disk.file b = some c := by
  obtain ⟨s, r1, h1, h2⟩ := bind_ok h
  obtain ⟨rfl, rfl⟩ := get_ok h1
  rw [hc] at h2
  obtain ⟨_, r2, h3, h4⟩ := bind_ok h2
  obtain ⟨_, r3, h5, h6⟩ := bind_ok h4
  obtain ⟨r4, h7, rfl⟩ := fin_eq h6
  obtain ⟨_, r5, h8, h9⟩ := bind_ok h7
  obtain ⟨r6, h10, rfl⟩ := fin_eq h9
  show r6.disk.file b = _
  rw [(fill_ok h10).1, set_self]

/-- The body of the production, seen at the place of the delta. -/
theorem body_target {o n : Arch} {d : Str} {t : Path} {w : World} {r r' : Run} {v : Except Err Unit}
    (hposs : isDeltaPossible o.pack.pkg n.pack.pkg (relOf o.pack.pkg) (relOf n.pack.pkg) = true)
    (hw : ¬ InWork d t) (ht : r.disk.file t = none) (h : body o n d t w r = (v, r')) :
    (v = .ok () → ∃ a, r'.disk.file t = some (.zip a) ∧ IsDelta o n a) ∧
    (w.linkOk = true →
      (r'.disk.file t = none ∨ ∃ a, r'.disk.file t = some (.zip a) ∧ IsDelta o n a) ∧
      ∃ new, r'.tr = new ++ r.tr ∧ ∀ s ∈ new, s.file t = none ∨ ∃ a, s.file t = some (.zip a) ∧ IsDelta o n a) := by
  unfold body at h
  rw [bind_eq] at h
  have hC := Touch.commit o n d w r
  rcases hc : commit o n d w r with ⟨v1, r1⟩
  rw [hc] at h hC
  have ht1 : r1.disk.file t = none := by rw [hC.now t hw, ht]
  obtain ⟨n1, hn1, hs1⟩ := hC.past
  cases v1 with
  | error e =>
    cases h
    refine ⟨fun hx => (by cases hx), fun _ => ⟨.inl ht1, n1, hn1, fun s hs => .inl ?_⟩⟩
    rw [hs1 s hs t hw, ht]
  | ok p =>
    obtain ⟨hp, a, ha, hia⟩ := commit_ok hposs hc
    obtain ⟨r2, h2, rfl⟩ := fin_eq h
    have hR : Only (InWork d) r2 ((P.ignore (remove p)) w r2).2 := (Touch.ignore (.remove ⟨_, hp⟩)) w r2
    have hfin : ((P.ignore (remove p)) w r2).2.disk.file t = r2.disk.file t := hR.now t hw
    rw [hfin]
    unfold linkOrCopy at h2
    rw [bind_eq] at h2
    by_cases hl : w.linkOk = true
    · have hlk : link p t w r1 = (.ok true, ⟨r1.disk.set t (some (.zip a)), r1.hs,
          r1.disk.set t (some (.zip a)) :: r1.tr, r1.tick + 1⟩) := by
        unfold link
        dsimp only
        rw [ha, ht1]
        dsimp only
        rw [if_pos hl]
      rw [hlk] at h2
      dsimp only at h2
      rw [if_pos rfl] at h2
      cases h2
      have hset : (r1.disk.set t (some (.zip a))).file t = some (.zip a) := set_self _ _ _
      obtain ⟨n2, hn2, hs2⟩ := hR.past
      refine ⟨fun _ => ⟨a, hset, hia⟩, fun _ => ⟨.inr ⟨a, hset, hia⟩, n2 ++ (r1.disk.set t (some (.zip a)) :: n1), ?_, ?_⟩⟩
      · rw [hn2]
        show n2 ++ (_ :: r1.tr) = _
        rw [hn1, List.append_assoc]; rfl
      · intro s hs
        rcases List.mem_append.1 hs with hs | hs
        · exact .inr ⟨a, by rw [hs2 s hs t hw]; exact hset, hia⟩
        · rcases List.mem_cons.1 hs with rfl | hs
          · exact .inr ⟨a, hset, hia⟩
          · exact .inl (by rw [hs1 s hs t hw, ht])
    · refine ⟨fun hv => ?_, fun h => absurd h hl⟩
      subst hv
      have hlk : link p t w r1 = (.ok false, { r1 with tick := r1.tick + 1 }) := by
        unfold link
        dsimp only
        rw [ha, ht1]
        dsimp only
        rw [if_neg hl]
      rw [hlk] at h2
      dsimp only at h2
      rw [if_neg (by simp)] at h2
      exact ⟨a, copyFile_ok (r := { r1 with tick := r1.tick + 1 }) ha h2, hia⟩

/-- A fresh attempt on a disk. -/
def start (s : Disk) : Run := ⟨s, [], [], 0⟩

/-- Disks that come out of attempts at one delta, each of which ends or is killed at any moment; with `link` only attempts in
which hard links can be made. -/
inductive Attempts (link : Bool) (mo mn : Meta) (pold pnew : Path) (s0 : Disk) : Disk → Prop
  | init : Attempts link mo mn pold pnew s0 s0
  | ended {s : Disk} (w : World) (hl : link = true → w.linkOk = true) : Attempts link mo mn pold pnew s0 s →
      Attempts link mo mn pold pnew s0 (createDelta mo mn pold pnew w (start s)).2.disk
  | killed {s t : Disk} (w : World) (hl : link = true → w.linkOk = true) : Attempts link mo mn pold pnew s0 s →
      t ∈ (createDelta mo mn pold pnew w (start s)).2.tr → Attempts link mo mn pold pnew s0 t

/-- The situation in which a delta is wanted: both packages are served, none of it has been staged. -/
structure Wanted (mo mn : Meta) (a b : Str) (o n : Arch) (s : Disk) : Prop where
  old : s.file (.other a) = some (.zip o)
  new : s.file (.other b) = some (.zip n)
  absent : s.file (target mo mn) = none

/-- C98: after any number of failed or killed attempts, when `CreateDelta` reports success the file it names is the
whole delta package. -/
def C98_statement : Prop :=
  ∀ (mo mn : Meta) (a b : Str) (o n : Arch) (s0 s : Disk), Wanted mo mn a b o n s0 →
    Attempts false mo mn (.other a) (.other b) s0 s →
    ∀ w p r', createDelta mo mn (.other a) (.other b) w (start s) = (.ok p, r') →
      ∃ x, r'.disk.file p = some (.zip x) ∧ IsDelta o n x

/-- Both packages there; the delta absent or whole. -/
def Good (mo mn : Meta) (a b : Str) (o n : Arch) (s : Disk) : Prop :=
  s.file (.other a) = some (.zip o) ∧ s.file (.other b) = some (.zip n) ∧
    (s.file (target mo mn) = none ∨ ∃ x, s.file (target mo mn) = some (.zip x) ∧ IsDelta o n x)

theorem createDelta_good {mo mn : Meta} {a b : Str} {o n : Arch} {w : World} {r r' : Run} {v : Except Err Path}
    (hl : w.linkOk = true) (hg : Good mo mn a b o n r.disk)
    (h : createDelta mo mn (.other a) (.other b) w r = (v, r')) :
    Good mo mn a b o n r'.disk ∧ (∃ new, r'.tr = new ++ r.tr ∧ ∀ s ∈ new, Good mo mn a b o n s) ∧
    (∀ p, v = .ok p → p = target mo mn ∧ ∃ x, r'.disk.file p = some (.zip x) ∧ IsDelta o n x) := by
  obtain ⟨ho, hn, ht⟩ := hg
  have hO := C97_touches_only h ho hn
  have hoth : ∀ k, ¬ (InWork (workDir o.pack.pkg n.pack.pkg) (.other k) ∨ Path.other k = target mo mn) := by
    rintro k (⟨f, hf⟩ | hf)
    · cases hf
    · unfold target at hf; cases hf
  have htw : ∀ d, ¬ InWork d (target mo mn) := by
    rintro d ⟨f, hf⟩; unfold target at hf; cases hf
  obtain ⟨new, hnew, hsn⟩ := hO.past
  -- it is enough to look at the place of the delta
  have key : ((r'.disk.file (target mo mn) = none ∨
        ∃ x, r'.disk.file (target mo mn) = some (.zip x) ∧ IsDelta o n x) ∧
      (∃ new, r'.tr = new ++ r.tr ∧ ∀ s ∈ new, s.file (target mo mn) = none ∨
        ∃ x, s.file (target mo mn) = some (.zip x) ∧ IsDelta o n x)) ∧
      (∀ p, v = .ok p → p = target mo mn ∧ ∃ x, r'.disk.file p = some (.zip x) ∧ IsDelta o n x) := by
    have hE := createDelta_ended mo mn (.other a) (.other b) w r
    rw [h] at hE
    cases hE with
    | impossible _ => exact ⟨⟨ht, [], rfl, by simp⟩, fun p hp => by cases hp⟩
    | there _ hth =>
      refine ⟨⟨ht, [], rfl, by simp⟩, fun p hp => ?_⟩
      cases hp
      refine ⟨rfl, ?_⟩
      rcases ht with ht | ht
      · rw [ht] at hth; cases hth
      · exact ht
    | notBegun e r' ht0 hb =>
      refine ⟨?_, fun p hp => by cases hp⟩
      cases hb with
      | failed _ _ he hd _ htr => rw [hd, htr]; exact ⟨ht, [], rfl, by simp⟩
      | mismatch o n _ ho hn hp hd _ htr => rw [hd, htr]; exact ⟨ht, [], rfl, by simp⟩
      | nodir o' n' _ ho' hn' hp hx =>
        obtain ⟨r1, e1, _, e3, rfl⟩ := hx
        have hcl := Touch.close [.old, .new] (workDir o'.pack.pkg n'.pack.pkg) w r1
        obtain ⟨n2, hn2, hs2⟩ := hcl.past
        rw [hcl.now _ (htw _), e1, hn2, e3]
        exact ⟨ht, n2, rfl, fun s hs => .inl (by rw [hs2 s hs _ (htw _), e1, ht0])⟩
    | tried o' n' r1 r2 v hp ht0 hb hx =>
      cases hb with
      | ok _ _ _ ho' hn' hr hp' hd _ htr =>
        rw [ho'] at ho; rw [hn'] at hn; cases ho; cases hn
        have hcl := Touch.close [.old, .new] (workDir o.pack.pkg n.pack.pkg) w r2
        obtain ⟨n2, hn2, hs2⟩ := hcl.past
        obtain ⟨hv, hlk⟩ := body_target hp' (htw _) (by rw [hd]; exact ht0) hx
        obtain ⟨hf, n1, hn1, hs1⟩ := hlk hl
        refine ⟨⟨by rw [hcl.now _ (htw _)]; exact hf,
          n2 ++ (n1 ++ [r.disk.mkdir (workDir o.pack.pkg n.pack.pkg)]), ?_, ?_⟩, ?_⟩
        · rw [hn2, hn1, htr]; simp
        · intro s hs
          rcases List.mem_append.1 hs with hs | hs
          · rw [hs2 s hs _ (htw _)]; exact hf
          · rcases List.mem_append.1 hs with hs | hs
            · exact hs1 s hs
            · rw [List.mem_singleton] at hs; rw [hs]; exact .inl ht0
        · intro p hp
          cases v with
          | error e => cases hp
          | ok u =>
            cases hp
            refine ⟨rfl, ?_⟩
            rw [hcl.now _ (htw _)]
            exact hv rfl
  refine ⟨⟨by rw [hO.now _ (hoth a), ho], by rw [hO.now _ (hoth b), hn], key.1.1⟩, ⟨new, hnew, fun s hs => ?_⟩, key.2⟩
  obtain ⟨new', hnew', hs'⟩ := key.1.2
  have : new' = new := List.append_cancel_right (hnew'.symm.trans hnew)
  subst this
  exact ⟨by rw [hsn s hs _ (hoth a), ho], by rw [hsn s hs _ (hoth b), hn], hs' s hs⟩

/-- C59 on disk: when two requests for deltas of one package (a name in all its architectures and distribution releases) end with the
same staged file, they were between the same two releases. -/
theorem C59_staged {mo mn mo' mn' : Meta} {pold pnew pold' pnew' p : Path} {w w' : World} {r r1 r' r1' : Run} {ro rn ro' rn' : Int}
    (hn : mn.name = mn'.name) (h1 : Rel mo ro) (h2 : Rel mn rn) (h1' : Rel mo' ro') (h2' : Rel mn' rn')
    (h : createDelta mo mn pold pnew w r = (.ok p, r1)) (h' : createDelta mo' mn' pold' pnew' w' r' = (.ok p, r1')) :
    ro = ro' ∧ rn = rn' := by
  have key : ∀ {mo mn : Meta} {pold pnew : Path} {w : World} {r r1 : Run}, createDelta mo mn pold pnew w r = (.ok p, r1) → p = target mo mn := by
    intro mo mn pold pnew w r r1 h
    have hE := createDelta_ended mo mn pold pnew w r
    rw [h] at hE
    generalize hvv : (Except.ok p, r1) = vv at hE
    cases hE with
    | impossible _ => cases hvv
    | there _ hth => cases hvv; rfl
    | notBegun e r' ht0 hb => cases hvv
    | tried o' n' r1 r2 v hp ht0 hb hx =>
      cases v with
      | error e => cases hvv
      | ok u => cases hvv; rfl
  have e : target mo mn = target mo' mn' := (key h).symm.trans (key h')
  unfold target at e
  rw [Path.staged.injEq] at e
  have := C59_name_identifies_releases hn e
  rwa [h1.eq, h2.eq, h1'.eq, h2'.eq] at this

/-- C98 where hard links can be made (the build directory and the staging area of a repository are in the same base
directory): then it holds, and in every durable state the staged delta is absent or whole. -/
theorem C98_linked_partial {mo mn : Meta} {a b : Str} {o n : Arch} {s0 s : Disk} (hw : Wanted mo mn a b o n s0)
    (hs : Attempts true mo mn (.other a) (.other b) s0 s) :
    (s.file (target mo mn) = none ∨ ∃ x, s.file (target mo mn) = some (.zip x) ∧ IsDelta o n x) ∧
    ∀ w p r', w.linkOk = true → createDelta mo mn (.other a) (.other b) w (start s) = (.ok p, r') →
      ∃ x, r'.disk.file p = some (.zip x) ∧ IsDelta o n x := by
  have hg : Good mo mn a b o n s := by
    induction hs with
    | init => exact ⟨hw.old, hw.new, .inl hw.absent⟩
    | ended w hl _ ih => exact (createDelta_good (r := start _) (hl rfl) ih (Prod.eta _).symm).1
    | killed w hl _ ht ih =>
      obtain ⟨_, ⟨new, hnew, hs⟩, _⟩ := createDelta_good (r := start _) (hl rfl) ih (Prod.eta _).symm
      rw [hnew] at ht
      exact hs _ (by simpa [start] using ht)
  exact ⟨hg.2.2, fun w p r' hl h => ((createDelta_good (r := start _) hl hg h).2.2 p rfl).2⟩

/-- C98 for a single attempt, with or without hard links and whatever fails: if none of the delta was staged before, success
means that all of it is. -/
theorem C98_first_partial {mo mn : Meta} {a b : Str} {o n : Arch} {s : Disk} {w : World} {p : Path} {r' : Run}
    (hw : Wanted mo mn a b o n s) (h : createDelta mo mn (.other a) (.other b) w (start s) = (.ok p, r')) :
    p = target mo mn ∧ ∃ x, r'.disk.file p = some (.zip x) ∧ IsDelta o n x := by
  have hE := createDelta_ended mo mn (.other a) (.other b) w (start s)
  rw [h] at hE
  generalize hvv : (Except.ok p, r') = vv at hE
  cases hE with
  | impossible _ => cases hvv
  | there _ hth =>
    have : (s.file (target mo mn)).isSome = true := hth
    rw [hw.absent] at this; cases this
  | notBegun e r' ht0 hb => cases hvv
  | tried o' n' r1 r2 v hp ht0 hb hx =>
    cases v with
    | error e => cases hvv
    | ok u =>
      cases hvv
      refine ⟨rfl, ?_⟩
      have htw : ∀ d, ¬ InWork d (target mo mn) := by
        rintro d ⟨f, hf⟩; unfold target at hf; cases hf
      cases hb with
      | ok _ _ _ ho' hn' hr hp' hd _ htr =>
        have ho := hw.old; have hn := hw.new
        have ho'' : s.file (.other a) = some (.zip o') := ho'
        have hn'' : s.file (.other b) = some (.zip n') := hn'
        rw [ho''] at ho; rw [hn''] at hn; cases ho; cases hn
        have hcl := Touch.close [.old, .new] (workDir o.pack.pkg n.pack.pkg) w r2
        rw [hcl.now _ (htw _)]
        exact (body_target hp' (htw _) (by rw [hd]; exact ht0) hx).1 rfl

/-! ## C99: undisturbed attempts -/

/-- Nothing fails in the run. -/
def Calm (w : World) : Prop := (∀ k, w.fail k = false) ∧ w.rmOk = true

theorem bind_run {x : P α} {f : α → P β} {w r a r1 v} (h : x w r = (.ok a, r1)) (h2 : f a w r1 = v) :
    (x >>= f) w r = v := by rw [bind_eq, h]; exact h2

theorem bind_runs {x : P α} {f : α → P β} {w r a r1 v} (h : x w r = (.ok a, r1)) (h2 : ∃ r', f a w r1 = (v, r')) :
    ∃ r', (x >>= f) w r = (v, r') := by
  obtain ⟨r', h2⟩ := h2
  exact ⟨r', bind_run h h2⟩

theorem fin_runs {x : P α} {c : P Unit} {w r v} (h : ∃ r', x w r = (v, r')) :
    ∃ r', P.finally_ x c w r = (v, r') := by
  obtain ⟨r', h⟩ := h
  exact ⟨_, by unfold P.finally_; rw [h]⟩

theorem onErr_run {x : P α} {c : P Unit} {w r a r'} (h : x w r = (.ok a, r')) : P.onErr x c w r = (.ok a, r') := by
  unfold P.onErr; rw [h]

theorem bind_fail {x : P α} {f : α → P β} {w r e r1} (h : x w r = (.error e, r1)) :
    (x >>= f) w r = (.error e, r1) := by rw [bind_eq, h]

theorem step_run {w : World} (hw : Calm w) (r : Run) : step w r = (.ok (), { r with tick := r.tick + 1 }) := by
  unfold step
  rw [hw.1]
  rfl

theorem create_run {w : World} (hw : Calm w) {p : Path} (h : Hnd) {r : Run} (hd : r.disk.hasDir p = true) :
    create p h w r = (.ok (), ⟨r.disk.set p (some .part), h :: r.hs, r.disk.set p (some .part) :: r.tr, r.tick + 1⟩) := by
  unfold create
  refine bind_run (step_run hw r) (bind_run (by rfl) ?_)
  rw [if_pos hd]
  rfl

theorem fill_run {w : World} (hw : Calm w) (p : Path) (d : Data) (r : Run) :
    fill p d w r = (.ok (), ⟨r.disk.set p (some d), r.hs, r.disk.set p (some d) :: r.tr, r.tick + 1⟩) := by
  unfold fill
  exact bind_run (step_run hw r) rfl

theorem unxz_run {w : World} (hw : Calm w) {a b : Path} {t : List TarEntry} {r : Run}
    (ha : r.disk.file a = some (.xz t)) (hb : r.disk.file b = none) : ∃ r', unxz a b w r = (.ok (), r') := by
  refine bind_runs (step_run hw r) (bind_runs rfl ?_)
  dsimp only
  rw [ha, hb]
  exact ⟨_, rfl⟩

theorem unxz_refuse {w : World} (hw : Calm w) {a b : Path} {x : Data} {r : Run}
    (hb : r.disk.file b = some x) : ∃ r', unxz a b w r = (.error .io, r') := by
  refine bind_runs (step_run hw r) (bind_runs rfl ?_)
  dsimp only
  rw [hb]
  rcases r.disk.file a with _ | y
  · exact ⟨_, rfl⟩
  · cases y <;> exact ⟨_, rfl⟩

theorem xz_run {w : World} (hw : Calm w) {a b : Path} {t : List TarEntry} {r : Run}
    (ha : r.disk.file a = some (.tar t)) (hb : r.disk.file b = none) : ∃ r', xz a b w r = (.ok (), r') := by
  refine bind_runs (step_run hw r) (bind_runs rfl ?_)
  dsimp only
  rw [ha, hb]
  exact ⟨_, rfl⟩

theorem xz_refuse {w : World} (hw : Calm w) {a b : Path} {x : Data} {r : Run}
    (hb : r.disk.file b = some x) : ∃ r', xz a b w r = (.error .io, r') := by
  refine bind_runs (step_run hw r) (bind_runs rfl ?_)
  dsimp only
  rw [hb]
  rcases r.disk.file a with _ | y
  · exact ⟨_, rfl⟩
  · cases y <;> exact ⟨_, rfl⟩

/-- The two temporaries of `ExtractTarball`. -/
def InstFiles (d : Str) (p : Path) : Prop := p = .work d .instXz ∨ p = .work d .inst

theorem Touch.extractTarball' (n : Arch) (d : Str) : Touch (InstFiles d) (Producer.extractTarball n d) :=
  .ite (.throw _) (.bind (.create (.inl rfl)) fun _ =>
    .fin (.bind (.fill (.inl rfl)) fun _ => .unxz (.inl rfl) (.inr rfl)) (.closed _))

theorem fin_run {x : P α} {c : P Unit} {w r v r1} (h : x w r = (v, r1)) :
    P.finally_ x c w r = (v, (c w r1).2) := by
  unfold P.finally_
  rw [h]

theorem extract_run {w : World} (hw : Calm w) {n : Arch} {d : Str} {r : Run} (hn : n.hasTar = true)
    (hd : r.disk.dir d = true) (hi : r.disk.file (.work d .inst) = none) :
    ∃ r', extractTarball n d w r = (.ok (), r') := by
  unfold extractTarball
  rw [if_neg (by simp [hn])]
  obtain ⟨r', h'⟩ := unxz_run hw (a := .work d .instXz) (b := .work d .inst) (t := n.pack.tar)
    (r := ⟨(r.disk.set (.work d .instXz) (some .part)).set (.work d .instXz) (some (.xz n.pack.tar)),
      .instOut :: r.hs, _, _⟩) (set_self _ _ _) (by
        show (Disk.set _ _ _).file _ = _
        rw [set_ne _ (by simp), set_ne _ (by simp)]; exact hi)
  exact bind_runs (create_run hw _ hd) (fin_runs (bind_runs (fill_run hw _ _ _) ⟨_, h'⟩))

theorem extract_refuse {w : World} (hw : Calm w) {n : Arch} {d : Str} {r : Run} {x : Data} (hn : n.hasTar = true)
    (hd : r.disk.dir d = true) (hi : r.disk.file (.work d .inst) = some x) :
    ∃ r', extractTarball n d w r = (.error .io, r') := by
  unfold extractTarball
  rw [if_neg (by simp [hn])]
  obtain ⟨r', h'⟩ := unxz_refuse hw (a := .work d .instXz) (b := .work d .inst) (x := x)
    (r := ⟨(r.disk.set (.work d .instXz) (some .part)).set (.work d .instXz) (some (.xz n.pack.tar)),
      .instOut :: r.hs, _, _⟩) (by
        show (Disk.set _ _ _).file _ = _
        rw [set_ne _ (by simp), set_ne _ (by simp)]; exact hi)
  exact bind_runs (create_run hw _ hd) (fin_runs (bind_runs (fill_run hw _ _ _) ⟨_, h'⟩))

theorem copyInstall_run {w : World} (hw : Calm w) {n : Arch} {d : Str} {dm : List Str} {r : Run} (hn : n.hasTar = true)
    (hd : r.disk.dir d = true) (hi : r.disk.file (.work d .inst) = none) :
    ∃ r', copyInstallPartial n d dm w r = (.ok (), r') := by
  obtain ⟨r1, h1⟩ := extract_run hw hn hd hi
  have hx := extractTarball_ok h1
  refine bind_runs h1 (bind_runs (step_run hw _) (bind_runs rfl ?_))
  dsimp only
  rw [hx]
  exact bind_runs rfl (fin_runs ⟨_, fill_run hw _ _ _⟩)

theorem Touch.copyInstallPartial' (n : Arch) (d : Str) (dm : List Str) :
    Touch (fun p => InstFiles d p ∨ p = .work d .ball) (Producer.copyInstallPartial n d dm) :=
  .bind ((Touch.extractTarball' n d).mono fun _ h => .inl h) fun _ => .bind .step fun _ => .bind .get fun s => by
    split
    · exact .bind (.opened _) fun _ => .fin (.fill (.inr rfl)) (.closed _)
    · exact .throw _

/-- Is the partial install.tar needed, and can it be made in the working directory as it is? -/
theorem ball_run {w : World} (hw : Calm w) {o n : Arch} {d : Str} {r : Run} (hn : n.hasTar = true)
    (hd : r.disk.dir d = true)
    (hl : (diffMap o.pack.files n.pack.files).length ≠ n.pack.files.length) :
    if diffMap o.pack.files n.pack.files = [] ∨
        (r.disk.file (.work d .inst) = none ∧ r.disk.file (.work d .ballXz) = none)
    then ∃ has r', produceInstallBall o n d w r = (.ok has, r') ∧ r'.disk.dir d = true
    else ∃ r', produceInstallBall o n d w r = (.error .io, r') := by
  unfold produceInstallBall
  rw [if_neg hl]
  by_cases h0 : diffMap o.pack.files n.pack.files = []
  · rw [if_pos (.inl h0), if_pos (by rw [h0]; rfl)]
    exact ⟨false, r, rfl, hd⟩
  rw [if_neg (show ¬ (diffMap o.pack.files n.pack.files).length = 0 from fun hx => h0 (List.length_eq_zero_iff.1 hx))]
  have hcr := create_run hw Hnd.ballOut (p := .work d .ball) (r := r) hd
  have hinst : (r.disk.set (.work d .ball) (some .part)).file (.work d .inst) = r.disk.file (.work d .inst) :=
    set_ne _ (by simp) _
  have hbx : (r.disk.set (.work d .ball) (some .part)).file (.work d .ballXz) = r.disk.file (.work d .ballXz) :=
    set_ne _ (by simp) _
  generalize hr1 : (⟨r.disk.set (.work d .ball) (some .part), Hnd.ballOut :: r.hs,
    r.disk.set (.work d .ball) (some .part) :: r.tr, r.tick + 1⟩ : Run) = r1 at hcr
  have hr1d : r1.disk = r.disk.set (.work d .ball) (some .part) := by rw [← hr1]
  have hr1dir : r1.disk.dir d = true := by rw [hr1d]; exact hd
  rcases hi : r.disk.file (.work d .inst) with _ | x
  rotate_left
  · rw [if_neg (by simp [h0])]
    obtain ⟨r2, h2⟩ := extract_refuse hw hn hr1dir (by rw [hr1d, hinst, hi])
    exact ⟨r2, bind_run hcr (bind_fail (bind_fail h2))⟩
  obtain ⟨r2, h2⟩ := copyInstall_run hw (dm := diffMap o.pack.files n.pack.files) hn hr1dir (by rw [hr1d, hinst, hi])
  have hO := Touch.copyInstallPartial' n d (diffMap o.pack.files n.pack.files) w r1
  rw [h2] at hO
  have hb2 : r2.disk.file (.work d .ballXz) = r.disk.file (.work d .ballXz) := by
    rw [hO.now _ (by simp [InstFiles]), hr1d, hbx]
  have hd2 : r2.disk.dir d = true := by rw [hO.dirs d (by simp [InstFiles])]; exact hr1dir
  rcases hx : r.disk.file (.work d .ballXz) with _ | x
  rotate_left
  · rw [if_neg (by simp [h0])]
    obtain ⟨r3, h3⟩ := xz_refuse hw (a := .work d .ball) (by rw [hb2, hx])
    exact ⟨r3, bind_run hcr (bind_run h2 (bind_fail h3))⟩
  rw [if_pos (.inr ⟨rfl, rfl⟩)]
  obtain ⟨r3, h3⟩ := xz_run hw (a := .work d .ball) (b := .work d .ballXz) (copyInstallPartial_ok h2) (by rw [hb2, hx])
  refine ⟨true, r3, bind_run hcr (bind_run h2 (bind_run h3 rfl)), ?_⟩
  have hO3 := (Touch.xz (t := fun p => p = .work d .ball ∨ p = .work d .ballXz) (.inl rfl) (.inr rfl)) w r2
  rw [h3] at hO3
  rw [hO3.dirs d (by simp)]
  exact hd2

theorem push_run {w : World} (hw : Calm w) {d : Str} {has : Bool} {r : Run}
    (h : has = true → ∃ t, r.disk.file (.work d .ballXz) = some (.xz t)) :
    ∃ es r', pushInstallBall d has w r = (.ok es, r') := by
  unfold pushInstallBall
  cases has with
  | false => exact ⟨[], r, rfl⟩
  | true =>
    obtain ⟨t, ht⟩ := h rfl
    rw [if_neg (by simp)]
    refine ⟨t, bind_runs (step_run hw _) (bind_runs rfl ?_)⟩
    dsimp only
    rw [ht]
    exact bind_runs rfl (bind_runs (step_run hw _) (fin_runs (bind_runs (step_run hw _) ⟨_, rfl⟩)))

theorem copyFile_run {w : World} (hw : Calm w) {a b : Path} {c : Data} {r : Run} (ha : r.disk.file a = some c)
    (hb : r.disk.hasDir b = true) : ∃ r', copyFile a b w r = (.ok (), r') := by
  refine bind_runs rfl ?_
  rw [ha]
  exact bind_runs (step_run hw _) (bind_runs rfl (fin_runs (bind_runs (create_run hw _ hb)
    (fin_runs ⟨_, fill_run hw _ _ _⟩))))

/-- An undisturbed production in a working directory that may hold left-overs. -/
theorem body_run {w : World} (hw : Calm w) {o n : Arch} {d k : Str} {r : Run} (hn : n.hasTar = true)
    (hd : r.disk.dir d = true) (ht : r.disk.file (.staged k) = none)
    (hposs : isDeltaPossible o.pack.pkg n.pack.pkg (relOf o.pack.pkg) (relOf n.pack.pkg) = true)
    (hl : (diffMap o.pack.files n.pack.files).length ≠ n.pack.files.length) :
    if diffMap o.pack.files n.pack.files = [] ∨
        (r.disk.file (.work d .inst) = none ∧ r.disk.file (.work d .ballXz) = none)
    then ∃ r', body o n d (.staged k) w r = (.ok (), r')
    else ∃ r', body o n d (.staged k) w r = (.error .io, r') ∧ r'.disk.file (.staged k) = none := by
  have hb := ball_run hw (o := o) hn hd hl
  split
  · rename_i hc
    rw [if_pos hc] at hb
    obtain ⟨has, r1, h1, hd1⟩ := hb
    obtain ⟨_, hbx⟩ := produceInstallBall_ok h1
    let out : Path := .work d (.delta (deltaName n.pack.pkg (relOf o.pack.pkg) (relOf n.pack.pkg)))
    have hcr := create_run hw Hnd.deltaOut (p := out) (r := r1) hd1
    obtain ⟨es, r3, h3⟩ := push_run hw (d := d) (has := has)
      (r := ⟨r1.disk.set out (some .part), .deltaOut :: r1.hs, r1.disk.set out (some .part) :: r1.tr, r1.tick + 1 + 1⟩) (by
        intro hh
        rcases hbx with ⟨h, _⟩ | ⟨_, _, h⟩
        · rw [h] at hh; cases hh
        · exact ⟨_, by show (Disk.set _ _ _).file _ = _; rw [set_ne _ (by simp [out])]; exact h⟩)
    have hcommit : ∃ r', commit o n d w r = (.ok out, r') := by
      refine bind_runs h1 (fin_runs (bind_runs hcr ?_))
      have hon := bind_run (f := fun _ => pushInstallBall d has >>= fun es => fill out
        (.zip ⟨⟨n.pack.pkg, n.pack.files, es, copyZip n.pack.zip⟩, has, true⟩)) (step_run hw ⟨r1.disk.set out (some .part),
          .deltaOut :: r1.hs, r1.disk.set out (some .part) :: r1.tr, r1.tick + 1⟩)
        (bind_run h3 (fill_run hw _ _ _))
      exact bind_runs (onErr_run hon) ⟨_, rfl⟩
    obtain ⟨r4, h4⟩ := hcommit
    obtain ⟨_, a, ha, _⟩ := commit_ok hposs h4
    have hC := Touch.commit o n d w r
    rw [h4] at hC
    have ht4 : r4.disk.file (.staged k) = none := by rw [hC.now _ (by rintro ⟨f, hf⟩; cases hf)]; exact ht
    unfold body
    by_cases hk : w.linkOk = true
    · refine bind_runs h4 (fin_runs ?_)
      refine bind_runs (a := true) (r1 := ⟨r4.disk.set (.staged k) (some (.zip a)), r4.hs,
          r4.disk.set (.staged k) (some (.zip a)) :: r4.tr, r4.tick + 1⟩) ?_ ⟨_, rfl⟩
      unfold link
      dsimp only
      rw [ha, ht4]
      dsimp only
      rw [if_pos hk]
    · obtain ⟨r5, h5⟩ := copyFile_run hw (a := out) (b := .staged k) (c := .zip a)
        (r := { r4 with tick := r4.tick + 1 }) ha rfl
      refine bind_runs h4 (fin_runs ?_)
      refine bind_runs (a := false) (r1 := { r4 with tick := r4.tick + 1 }) ?_ ⟨_, h5⟩
      unfold link
      dsimp only
      rw [ha, ht4]
      dsimp only
      rw [if_neg hk]
  · rename_i hc
    rw [if_neg hc] at hb
    obtain ⟨r1, h1⟩ := hb
    have hT := Touch.produceInstallBall o n d w r
    rw [h1] at hT
    exact ⟨r1, bind_fail (bind_fail h1), by rw [hT.now _ (by rintro ⟨f, hf⟩; cases hf)]; exact ht⟩

theorem newProducer_run {w : World} (hw : Calm w) {pold pnew : Path} {o n : Arch} {r : Run}
    (ho : r.disk.file pold = some (.zip o)) (hn : r.disk.file pnew = some (.zip n))
    (hr : o.readable = true ∧ n.readable = true)
    (hp : isDeltaPossible o.pack.pkg n.pack.pkg (relOf o.pack.pkg) (relOf n.pack.pkg) = true) :
    ∃ r', newProducer pold pnew w r = (.ok (o, n, workDir o.pack.pkg n.pack.pkg), r') := by
  have hopen : ∀ (p : Path) (a : Arch) (h : Hnd) (r : Run), r.disk.file p = some (.zip a) →
      openPkg p h w r = (.ok a, { r with tick := r.tick + 1, hs := h :: r.hs }) := by
    intro p a h r hf
    refine bind_run (step_run hw r) (bind_run rfl ?_)
    dsimp only
    rw [hf]
    rfl
  have hread : ∀ (a : Arch) (r : Run), a.readable = true → readAll a w r = (.ok (), { r with tick := r.tick + 1 }) := by
    intro a r ha
    refine bind_run (step_run hw r) ?_
    rw [if_pos ha]
    rfl
  unfold newProducer
  refine bind_runs (hopen _ _ _ _ ho) (bind_runs (onErr_run (hread _ _ hr.1))
    (bind_runs (onErr_run (hopen _ _ _ _ hn)) (bind_runs (onErr_run (hread _ _ hr.2)) ?_)))
  rw [if_neg (by simpa using hp)]
  exact bind_runs (onErr_run (bind_run (step_run hw _) rfl)) ⟨_, rfl⟩

/-- Two served packages between which a delta makes sense. -/
structure Fit (mo mn : Meta) (o n : Arch) : Prop where
  readable : o.readable = true ∧ n.readable = true
  tar : n.hasTar = true
  listed : isDeltaPossible mo mn (relOf mo) (relOf mn) = true
  possible : isDeltaPossible o.pack.pkg n.pack.pkg (relOf o.pack.pkg) (relOf n.pack.pkg) = true

/-- The working directory holds nothing that makes the compressors refuse. -/
def Unhindered (o n : Arch) (s : Disk) : Prop :=
  diffMap o.pack.files n.pack.files = [] ∨
    (s.file (.work (workDir o.pack.pkg n.pack.pkg) .inst) = none ∧
      s.file (.work (workDir o.pack.pkg n.pack.pkg) .ballXz) = none)

instance (o n : Arch) (s : Disk) : Decidable (Unhindered o n s) := by unfold Unhindered; infer_instance

/-- What an undisturbed `CreateDelta` returns, whatever the working directory holds. -/
theorem createDelta_calm {mo mn : Meta} {pold pnew : Path} {o n : Arch} {w : World} {r : Run} (hw : Calm w)
    (hf : Fit mo mn o n) (ho : r.disk.file pold = some (.zip o)) (hn : r.disk.file pnew = some (.zip n))
    (ht : r.disk.file (target mo mn) = none) :
    ∃ r', createDelta mo mn pold pnew w r =
      (if produce o.pack n.pack = .pointless then .error .pointless
       else if Unhindered o n r.disk then .ok (target mo mn) else .error .io, r') ∧
      (r'.disk.dir (workDir o.pack.pkg n.pack.pkg) = false ∧
        ∀ f, r'.disk.file (.work (workDir o.pack.pkg n.pack.pkg) f) = none) ∧
      (produce o.pack n.pack = .pointless ∨ ¬ Unhindered o n r.disk → r'.disk.file (target mo mn) = none) := by
  obtain ⟨r1, h1⟩ := newProducer_run hw ho hn hf.readable hf.possible
  have hb := newProducer_begun pold pnew w r
  rw [h1] at hb
  have hr1 : r1.disk = r.disk.mkdir (workDir o.pack.pkg n.pack.pkg) := by cases hb; assumption
  have hd1 : r1.disk.dir (workDir o.pack.pkg n.pack.pkg) = true := by
    rw [hr1]; show (if _ = _ then true else _) = _; rw [if_pos rfl]
  have hprod : (produce o.pack n.pack = .pointless) ↔
      (diffMap o.pack.files n.pack.files).length = n.pack.files.length := by
    unfold produce produceBall
    rw [hf.possible]
    dsimp only
    rw [if_neg (by simp)]
    by_cases hl : (diffMap o.pack.files n.pack.files).length = n.pack.files.length
    · rw [if_pos hl]; simp [hl]
    · rw [if_neg hl]
      split
      · rename_i h; split at h <;> cases h
      · simp [hl]
      · simp [hl]
  have hgo : ∀ (v : Except Err Unit) (r2 : Run),
      body o n (workDir o.pack.pkg n.pack.pkg) (target mo mn) w r1 = (v, r2) →
      ∃ r', createDelta mo mn pold pnew w r = (v.map fun _ => target mo mn, r') ∧
      (r'.disk.dir (workDir o.pack.pkg n.pack.pkg) = false ∧
        ∀ f, r'.disk.file (.work (workDir o.pack.pkg n.pack.pkg) f) = none) ∧
      r'.disk.file (target mo mn) = r2.disk.file (target mo mn) := by
    intro v r2 h2
    have hcd := (close_disk hw.2 [.old, .new] (workDir o.pack.pkg n.pack.pkg) r2).1
    refine ⟨(close [.old, .new] (some (workDir o.pack.pkg n.pack.pkg)) w r2).2, ?_, ?_, ?_⟩
    rotate_left
    · rw [hcd]
      constructor
      · show (if _ = _ then false else _) = _
        rw [if_pos rfl]
      · intro f
        show (if _ = _ then none else _) = _
        rw [if_pos rfl]
    · rw [hcd]; rfl
    unfold createDelta
    rw [if_neg (by simpa using hf.listed)]
    refine bind_run rfl ?_
    rw [if_neg (show ¬ (r.disk.file (Path.staged (deltaName mn (relOf mo) (relOf mn)))).isSome = true by
      have : r.disk.file (Path.staged (deltaName mn (relOf mo) (relOf mn))) = none := ht
      rw [this]; simp)]
    have hpd : produceDelta pold pnew (.staged (deltaName mn (relOf mo) (relOf mn))) w r =
        (v, (close [.old, .new] (some (workDir o.pack.pkg n.pack.pkg)) w r2).2) := by
      unfold produceDelta
      refine bind_run h1 (fin_run ?_)
      exact h2
    cases v with
    | ok u => exact bind_run hpd rfl
    | error e => exact bind_fail hpd
  have hpl : (diffMap o.pack.files n.pack.files).length = n.pack.files.length →
      body o n (workDir o.pack.pkg n.pack.pkg) (target mo mn) w r1 = (.error .pointless, r1) := by
    intro hl
    refine bind_fail (bind_fail ?_)
    unfold produceInstallBall
    rw [if_pos hl]
    rfl
  have htd : r1.disk.file (target mo mn) = none := by rw [hr1]; exact ht
  by_cases hl : (diffMap o.pack.files n.pack.files).length = n.pack.files.length
  · rw [if_pos (hprod.2 hl)]
    obtain ⟨r', h1, h2, h3⟩ := hgo _ r1 (hpl hl)
    exact ⟨r', h1, h2, fun _ => by rw [h3, htd]⟩
  · rw [if_neg (fun h => hl (hprod.1 h))]
    have hB := body_run hw (k := deltaName mn (relOf mo) (relOf mn)) hf.tar hd1 (by rw [hr1]; exact ht) hf.possible hl
    by_cases hu : Unhindered o n r.disk
    · rw [if_pos hu]
      rw [if_pos (by rw [hr1]; exact hu)] at hB
      obtain ⟨r2, hB⟩ := hB
      obtain ⟨r', h1, h2, h3⟩ := hgo _ r2 hB
      refine ⟨r', h1, h2, ?_⟩
      rintro (h | h)
      · exact absurd (hprod.1 h) hl
      · exact absurd hu h
    · rw [if_neg hu]
      rw [if_neg (by rw [hr1]; exact hu)] at hB
      obtain ⟨r2, hB, hB2⟩ := hB
      obtain ⟨r', h1, h2, h3⟩ := hgo _ r2 hB
      exact ⟨r', h1, h2, fun _ => by rw [h3]; exact hB2⟩

/-- C99: after any number of failed or killed attempts, an attempt in which nothing fails produces the delta (or finds
that it is pointless). -/
def C99_statement : Prop :=
  ∀ (mo mn : Meta) (a b : Str) (o n : Arch) (s0 s : Disk), Wanted mo mn a b o n s0 → Clean s0 → Fit mo mn o n →
    produce o.pack n.pack ≠ .pointless → Attempts true mo mn (.other a) (.other b) s0 s →
    ∀ w, Calm w → w.linkOk = true →
      ∃ r', createDelta mo mn (.other a) (.other b) w (start s) = (.ok (target mo mn), r')

/-- C99 without left-overs: from a disk without working directories an undisturbed attempt stages exactly the delta that
`Verif.Delta` defines and changes nothing else; if the delta is pointless it says so and changes nothing. -/
theorem C99_clean_partial {mo mn : Meta} {a b : Str} {o n : Arch} {s : Disk} {w : World} (hw : Calm w)
    (hwant : Wanted mo mn a b o n s) (hc : Clean s) (hf : Fit mo mn o n) :
    ∃ v r', createDelta mo mn (.other a) (.other b) w (start s) = (v, r') ∧ Clean r'.disk ∧
      (∀ p, p ≠ target mo mn → r'.disk.file p = s.file p) ∧
      match produce o.pack n.pack with
      | .pack d => v = .ok (target mo mn) ∧ ∃ x, r'.disk.file (target mo mn) = some (.zip x) ∧ x.pack = d
      | .pointless => v = .error .pointless ∧ r'.disk.file (target mo mn) = none
      | .mismatched => False := by
  obtain ⟨r', h, _, htn⟩ := createDelta_calm (r := start s) hw hf hwant.old hwant.new hwant.absent
  have hN := C97_nothing_left (r := start s) hw.2 hc h
  have hmis : produce o.pack n.pack ≠ .mismatched := by
    unfold produce
    rw [hf.possible, if_neg (by simp)]
    split <;> simp
  rcases hp : produce o.pack n.pack with _ | _ | d
  · exact absurd hp hmis
  · rw [if_pos hp] at h
    exact ⟨_, r', h, hN.1, hN.2, rfl, htn (.inl hp)⟩
  · have hu : Unhindered o n (start s).disk := .inr ⟨(hc _).2 _, (hc _).2 _⟩
    rw [if_neg (by rw [hp]; simp), if_pos hu] at h
    refine ⟨_, r', h, hN.1, hN.2, rfl, ?_⟩
    obtain ⟨_, x, hx, hd⟩ := C98_first_partial hwant h
    refine ⟨x, hx, ?_⟩
    have := hd.1
    rw [hp] at this
    cases this
    rfl

/-- C99 after an interruption: whatever the working directory holds, an undisturbed attempt succeeds, or it clears the
directory and the next undisturbed attempt succeeds.  It fails exactly if the compressors refuse to overwrite a file left
there. -/
theorem C99_second_partial {mo mn : Meta} {a b : Str} {o n : Arch} {s : Disk} {w w' : World} (hw : Calm w) (hw' : Calm w')
    (hwant : Wanted mo mn a b o n s) (hf : Fit mo mn o n) (hp : produce o.pack n.pack ≠ .pointless) :
    ((∃ r', createDelta mo mn (.other a) (.other b) w (start s) = (.ok (target mo mn), r')) ↔ Unhindered o n s) ∧
    (¬ Unhindered o n s → ∃ r', createDelta mo mn (.other a) (.other b) w (start s) = (.error .io, r') ∧
      ∃ r2, createDelta mo mn (.other a) (.other b) w' (start r'.disk) = (.ok (target mo mn), r2) ∧
        ∃ x, r2.disk.file (target mo mn) = some (.zip x) ∧ IsDelta o n x) := by
  obtain ⟨r', h, hgone, htn⟩ := createDelta_calm (r := start s) hw hf hwant.old hwant.new hwant.absent
  rw [if_neg hp] at h
  constructor
  · constructor
    · rintro ⟨r2, h2⟩
      apply Classical.byContradiction
      intro hu
      rw [if_neg (show ¬ Unhindered o n (start s).disk from hu), h2] at h
      cases h
    · intro hu
      rw [if_pos (show Unhindered o n (start s).disk from hu)] at h
      exact ⟨r', h⟩
  · intro hu
    rw [if_neg (show ¬ Unhindered o n (start s).disk from hu)] at h
    refine ⟨r', h, ?_⟩
    have hta := htn (.inr hu)
    have hO := C97_touches_only h (o := o) (n := n) hwant.old hwant.new
    have hoth : ∀ k, ¬ (InWork (workDir o.pack.pkg n.pack.pkg) (.other k) ∨ Path.other k = target mo mn) := by
      rintro k (⟨f, hf⟩ | hf)
      · cases hf
      · unfold target at hf; cases hf
    have hwant' : Wanted mo mn a b o n r'.disk :=
      ⟨by rw [hO.now _ (hoth a)]; exact hwant.old, by rw [hO.now _ (hoth b)]; exact hwant.new, hta⟩
    obtain ⟨r2, h2, _⟩ := createDelta_calm (r := start r'.disk) hw' hf hwant'.old hwant'.new hta
    have hu2 : Unhindered o n (start r'.disk).disk := .inr ⟨hgone.2 _, hgone.2 _⟩
    rw [if_neg hp, if_pos hu2] at h2
    exact ⟨r2, h2, (C98_first_partial hwant' h2).2⟩

/-! ## C100: open files -/

/-- C100: a call leaves no file open. -/
def C100_statement : Prop :=
  ∀ (mo mn : Meta) (pold pnew : Path) (w : World) (s : Disk), (createDelta mo mn pold pnew w (start s)).2.hs = []

/-- Whatever fails, the computation leaves open only files of `L` (and what was open before stays open). -/
def Leaves (L : List Hnd) (x : P α) : Prop := ∀ w r, ∃ l, (x w r).2.hs = l ++ r.hs ∧ ∀ h ∈ l, h ∈ L

theorem Leaves.same {L} {x : P α} (h : ∀ w r, (x w r).2.hs = r.hs) : Leaves L x := fun w r => ⟨[], h w r, by simp⟩
theorem Leaves.pure {L} (a : α) : Leaves L (Pure.pure a : P α) := .same fun _ _ => rfl
theorem Leaves.throw {L} (e : Err) : Leaves L (P.throw e : P α) := .same fun _ _ => rfl
theorem Leaves.get {L} : Leaves L get := .same fun _ _ => rfl
theorem Leaves.put {L} (f : Disk → Disk) : Leaves L (put f) := .same fun _ _ => rfl
theorem Leaves.step {L} : Leaves L step := .same fun w r => by
  rcases step_eq w r with h | h <;> rw [h]
theorem Leaves.bind {L} {x : P α} {f : α → P β} (hx : Leaves L x) (hf : ∀ a, Leaves L (f a)) : Leaves L (x >>= f) := by
  intro w r
  rw [bind_eq]
  obtain ⟨l, h1, h2⟩ := hx w r
  rcases hxr : x w r with ⟨v, r'⟩
  rw [hxr] at h1
  cases v with
  | error e => exact ⟨l, h1, h2⟩
  | ok a =>
    obtain ⟨l', h3, h4⟩ := hf a w r'
    refine ⟨l' ++ l, by rw [h3, h1, List.append_assoc], ?_⟩
    intro h hh
    rcases List.mem_append.1 hh with hh | hh
    · exact h4 h hh
    · exact h2 h hh
theorem Leaves.fin {L} {x : P α} {c : P Unit} (hx : Leaves L x) (hc : Leaves L c) : Leaves L (P.finally_ x c) := by
  intro w r
  obtain ⟨l, h1, h2⟩ := hx w r
  obtain ⟨l', h3, h4⟩ := hc w (x w r).2
  refine ⟨l' ++ l, ?_, ?_⟩
  · show (c w (x w r).2).2.hs = _
    rw [h3, h1, List.append_assoc]
  · intro h hh
    rcases List.mem_append.1 hh with hh | hh
    · exact h4 h hh
    · exact h2 h hh
theorem Leaves.onErr {L} {x : P α} {c : P Unit} (hx : Leaves L x) (hc : Leaves L c) : Leaves L (P.onErr x c) := by
  intro w r
  unfold P.onErr
  obtain ⟨l, h1, h2⟩ := hx w r
  rcases hxr : x w r with ⟨v, r'⟩
  rw [hxr] at h1
  cases v with
  | ok a => exact ⟨l, h1, h2⟩
  | error e =>
    obtain ⟨l', h3, h4⟩ := hc w r'
    refine ⟨l' ++ l, by show (c w r').2.hs = _; rw [h3, h1, List.append_assoc], ?_⟩
    intro h hh
    rcases List.mem_append.1 hh with hh | hh
    · exact h4 h hh
    · exact h2 h hh
theorem Leaves.ignore {L} {x : P Unit} (hx : Leaves L x) : Leaves L (P.ignore x) := fun w r => hx w r
theorem Leaves.ite {L} {c : Prop} [Decidable c] {x y : P α} (hx : Leaves L x) (hy : Leaves L y) :
    Leaves L (if c then x else y) := by split <;> assumption
/-- A file opened before `x` and closed after it. -/
theorem Leaves.scoped {L} {x : P α} {k : Hnd} (hk : k ∉ L) (hx : Leaves L x) (w : World) (r : Run) :
    ∃ l, (P.finally_ x (closed k) w { r with hs := k :: r.hs }).2.hs = l ++ r.hs ∧ ∀ h ∈ l, h ∈ L := by
  obtain ⟨l, h1, h2⟩ := hx w { r with hs := k :: r.hs }
  refine ⟨l, ?_, h2⟩
  show ((x w { r with hs := k :: r.hs }).2.hs).erase k = _
  rw [h1]
  show (l ++ k :: r.hs).erase k = _
  rw [List.erase_append_right _ (fun hm => hk (h2 k hm)), List.erase_cons_head]
theorem Leaves.openScoped {L} {x : P α} {k : Hnd} (hk : k ∉ L) (hx : Leaves L x) :
    Leaves L (opened k >>= fun _ => P.finally_ x (closed k)) := fun w r => Leaves.scoped hk hx w r
theorem create_eq (p : Path) (k : Hnd) (w : World) (r : Run) :
    (∃ e r', create p k w r = (.error e, r') ∧ r'.hs = r.hs) ∨
    (∃ r' : Run, create p k w r = (.ok (), { r' with hs := k :: r'.hs }) ∧ r'.hs = r.hs) := by
  unfold create
  rw [bind_eq]
  rcases step_eq w r with hs | hs
  · rw [hs]
    dsimp only
    rw [bind_eq]
    dsimp only [get]
    by_cases hd : r.disk.hasDir p = true
    · right
      rw [if_pos hd]
      exact ⟨⟨r.disk.set p (some .part), r.hs, r.disk.set p (some .part) :: r.tr, r.tick + 1⟩, rfl, rfl⟩
    · left
      rw [if_neg hd]
      exact ⟨_, _, rfl, rfl⟩
  · rw [hs]
    exact .inl ⟨_, _, rfl, rfl⟩
theorem Leaves.create {L} {p : Path} {k : Hnd} (hk : k ∈ L) : Leaves L (create p k) := by
  intro w r
  rcases create_eq p k w r with ⟨e, r', h, hh⟩ | ⟨r', h, hh⟩
  · rw [h]; exact ⟨[], hh, by simp⟩
  · rw [h]; exact ⟨[k], by show k :: r'.hs = _; rw [hh]; rfl, by simpa using hk⟩
theorem Leaves.createScoped {L} {x : P α} {p : Path} {k : Hnd} (hk : k ∉ L) (hx : Leaves L x) :
    Leaves L (Producer.create p k >>= fun _ => P.finally_ x (closed k)) := by
  intro w r
  rw [bind_eq]
  rcases create_eq p k w r with ⟨e, r', h, hh⟩ | ⟨r', h, hh⟩
  · rw [h]; exact ⟨[], hh, by simp⟩
  · rw [h]
    obtain ⟨l, h1, h2⟩ := Leaves.scoped hk hx w r'
    exact ⟨l, by rw [← hh]; exact h1, h2⟩
theorem Leaves.fill {L} (p : Path) (d : Data) : Leaves L (fill p d) := .bind .step fun _ => .put _
theorem Leaves.remove {L} (p : Path) : Leaves L (remove p) := .bind .step fun _ => .put _
theorem Leaves.opened {L} {k : Hnd} (hk : k ∈ L) : Leaves L (opened k) := fun _ _ => ⟨[k], rfl, by simpa using hk⟩
theorem Leaves.unxz {L} (a b : Path) : Leaves L (unxz a b) := .bind .step fun _ => .bind .get fun s => by
  split
  · exact .bind (.put _) fun _ => .bind (.put _) fun _ => .put _
  · exact .throw _
theorem Leaves.xz {L} (a b : Path) : Leaves L (xz a b) := .bind .step fun _ => .bind .get fun s => by
  split
  · exact .bind (.put _) fun _ => .bind (.put _) fun _ => .put _
  · exact .throw _

/-- The files `CreateDelta` may leave open. -/
def kept : List Hnd := [.ballOut, .deltaOut, .ballIn]

theorem Leaves.extractTarball (n : Arch) (d : Str) : Leaves [.ballOut] (extractTarball n d) :=
  .ite (.throw _) (.createScoped (by decide) (.bind (.fill _ _) fun _ => .unxz _ _))
theorem Leaves.copyInstallPartial (n : Arch) (d : Str) (dm : List Str) :
    Leaves [.ballOut] (copyInstallPartial n d dm) :=
  .bind (.extractTarball n d) fun _ => .bind .step fun _ => .bind .get fun s => by
    split
    · exact .openScoped (by decide) (.fill _ _)
    · exact .throw _
theorem Leaves.produceInstallBall (o n : Arch) (d : Str) : Leaves [.ballOut] (produceInstallBall o n d) :=
  .ite (.throw _) (.ite (.pure _) (.bind (.create (by decide)) fun _ => .bind (.copyInstallPartial n d _) fun _ =>
    .bind (.xz _ _) fun _ => .pure _))
theorem Leaves.mono {L M : List Hnd} (h : ∀ k ∈ L, k ∈ M) {x : P α} (hx : Leaves L x) : Leaves M x := fun w r => by
  obtain ⟨l, h1, h2⟩ := hx w r
  exact ⟨l, h1, fun k hk => h k (h2 k hk)⟩
/-- `pushInstallBall` leaves its input open only if examining it fails. -/
theorem Leaves.pushInstallBall (d : Str) (has : Bool) : Leaves kept (pushInstallBall d has) := by
  refine .ite (.pure _) (.bind .step fun _ => .bind .get fun s => ?_)
  split
  · intro w r
    rw [bind_eq]
    dsimp only [Producer.opened]
    rw [bind_eq]
    rcases step_eq w { r with hs := Hnd.ballIn :: r.hs } with h | h
    · rw [h]
      dsimp only
      unfold P.finally_
      rw [bind_eq]
      rcases step_eq w ⟨r.disk, Hnd.ballIn :: r.hs, r.tr, r.tick + 1⟩ with h' | h' <;> rw [h']
      · exact ⟨[], by show (Hnd.ballIn :: r.hs).erase .ballIn = _; rw [List.erase_cons_head]; rfl, by simp⟩
      · exact ⟨[], by show (Hnd.ballIn :: r.hs).erase .ballIn = _; rw [List.erase_cons_head]; rfl, by simp⟩
    · rw [h]
      exact ⟨[.ballIn], rfl, by simp [kept]⟩
  · exact .throw _
theorem Leaves.commit (o n : Arch) (d : Str) : Leaves kept (commit o n d) :=
  .bind ((Leaves.produceInstallBall o n d).mono (by decide)) fun has => .fin
    (.bind (.create (by decide)) fun _ => .bind (.onErr (.bind .step fun _ => .bind (.pushInstallBall d has) fun _ =>
      .fill _ _) (.ignore (.remove _))) fun _ => .pure _)
    (.ite (.ignore (.remove _)) (.pure _))
theorem Leaves.copyFile (a b : Path) : Leaves kept (copyFile a b) :=
  .bind .get fun s => by
    split
    · exact .pure _
    · exact .bind .step fun _ => .openScoped (by decide) (.createScoped (by decide) (.fill _ _))
theorem Leaves.link {L} (a b : Path) : Leaves L (link a b) := .same fun w r => by
  unfold Producer.link
  dsimp only
  split
  · split <;> rfl
  · rfl
theorem Leaves.body (o n : Arch) (d : Str) (t : Path) : Leaves kept (body o n d t) :=
  .bind (.commit o n d) fun _ => .fin (.bind (.link _ _) fun _ => .ite (.pure _) (.copyFile _ _)) (.ignore (.remove _))

theorem close_hs (hs : List Hnd) (d : Str) (w : World) (r : Run) :
    (close hs (some d) w r).2.hs = hs.foldl List.erase r.hs := by
  unfold close
  rw [bind_eq, closeAll_eq]
  dsimp only [P.ignore, removeAll]
  split <;> rfl

/-- C100, the part that holds: whatever fails, the only files a call can leave open are the two it writes (which `Commit` and
`produceInstallBall` never close) and, if examining it fails, the partial install.tar.xz; the two packages are closed, unless they
turn out not to belong together although the database says so. -/
theorem C100_left_partial {mo mn : Meta} {pold pnew : Path} {w : World} {s : Disk} {v : Except Err Path} {r' : Run}
    (h : createDelta mo mn pold pnew w (start s) = (v, r')) :
    (∀ k ∈ r'.hs, k = .ballOut ∨ k = .deltaOut ∨ k = .ballIn) ∨
    (r'.hs = [.new, .old] ∧ v = .error .mismatched) := by
  have hE := createDelta_ended mo mn pold pnew w (start s)
  rw [h] at hE
  cases hE with
  | impossible _ => exact .inl (by simp [start])
  | there _ _ => exact .inl (by simp [start])
  | notBegun e r' ht0 hb =>
    cases hb with
    | failed _ _ he hd hh htr => rw [hh]; exact .inl (by simp [start])
    | mismatch o n _ ho hn hp hd hh htr => exact .inr ⟨hh, rfl⟩
    | nodir o' n' _ ho' hn' hp hx =>
      obtain ⟨r1, e1, e2, e3, rfl⟩ := hx
      rw [close_hs, e2]
      exact .inl (by simp [start])
  | tried o n r1 r2 v hp ht0 hb hx =>
    cases hb with
    | ok _ _ _ ho' hn' hr hp' hd hh htr =>
      obtain ⟨l, h1, h2⟩ := Leaves.body o n (workDir o.pack.pkg n.pack.pkg) (target mo mn) w r1
      rw [hx, hh] at h1
      have h1' : r2.hs = l ++ [.new, .old] := h1
      rw [close_hs, h1']
      have ho : Hnd.old ∉ l := fun hm => absurd (h2 _ hm) (by decide)
      have hn : Hnd.new ∉ l := fun hm => absurd (h2 _ hm) (by decide)
      have : [Hnd.old, Hnd.new].foldl List.erase (l ++ [.new, .old]) = l := by
        show ((l ++ [Hnd.new, .old]).erase .old).erase .new = l
        rw [List.erase_append_right _ ho]
        show (l ++ [Hnd.new]).erase .new = l
        rw [List.erase_append_right _ hn]
        simp
      rw [this]
      exact .inl fun k hk => by simpa [kept] using h2 k hk

/-- The computation never reports that a delta is pointless. -/
def NoPt (x : P α) : Prop := ∀ w r, (x w r).1 ≠ .error .pointless

theorem NoPt.pure (a : α) : NoPt (Pure.pure a : P α) := fun _ _ h => by cases h
theorem NoPt.throw {e : Err} (he : e ≠ .pointless) : NoPt (P.throw e : P α) := fun _ _ h => by cases h; exact he rfl
theorem NoPt.get : NoPt get := fun _ _ h => by cases h
theorem NoPt.put (f : Disk → Disk) : NoPt (put f) := fun _ _ h => by cases h
theorem NoPt.opened (k : Hnd) : NoPt (opened k) := fun _ _ h => by cases h
theorem NoPt.step : NoPt step := fun w r h => by
  rcases step_eq w r with h' | h' <;> rw [h'] at h <;> cases h
theorem NoPt.bind {x : P α} {f : α → P β} (hx : NoPt x) (hf : ∀ a, NoPt (f a)) : NoPt (x >>= f) := by
  intro w r
  rw [bind_eq]
  have := hx w r
  rcases hxr : x w r with ⟨v, r'⟩
  rw [hxr] at this
  cases v with
  | ok a => exact hf a w r'
  | error e => exact fun h => this (by cases h; rfl)
theorem NoPt.fin {x : P α} {c : P Unit} (hx : NoPt x) : NoPt (P.finally_ x c) := fun w r => hx w r
theorem NoPt.onErr {x : P α} {c : P Unit} (hx : NoPt x) : NoPt (P.onErr x c) := by
  intro w r
  unfold P.onErr
  have := hx w r
  rcases hxr : x w r with ⟨v, r'⟩
  rw [hxr] at this
  cases v with
  | ok a => exact fun h => by cases h
  | error e => exact fun h => this (by cases h; rfl)
theorem NoPt.ite {c : Prop} [Decidable c] {x y : P α} (hx : NoPt x) (hy : NoPt y) : NoPt (if c then x else y) := by
  split <;> assumption
theorem NoPt.create (p : Path) (k : Hnd) : NoPt (create p k) :=
  .bind .step fun _ => .bind .get fun _ => .ite (.bind (.put _) fun _ => .opened _) (.throw (by simp))
theorem NoPt.fill (p : Path) (d : Data) : NoPt (fill p d) := .bind .step fun _ => .put _
theorem NoPt.unxz (a b : Path) : NoPt (unxz a b) := .bind .step fun _ => .bind .get fun s => by
  split
  · exact .bind (.put _) fun _ => .bind (.put _) fun _ => .put _
  · exact .throw (by simp)
theorem NoPt.xz (a b : Path) : NoPt (xz a b) := .bind .step fun _ => .bind .get fun s => by
  split
  · exact .bind (.put _) fun _ => .bind (.put _) fun _ => .put _
  · exact .throw (by simp)
theorem NoPt.extractTarball (n : Arch) (d : Str) : NoPt (extractTarball n d) :=
  .ite (.throw (by simp)) (.bind (.create _ _) fun _ => .fin (.bind (.fill _ _) fun _ => .unxz _ _))
theorem NoPt.copyInstallPartial (n : Arch) (d : Str) (dm : List Str) : NoPt (copyInstallPartial n d dm) :=
  .bind (.extractTarball n d) fun _ => .bind .step fun _ => .bind .get fun s => by
    split
    · exact .bind (.opened _) fun _ => .fin (.fill _ _)
    · exact .throw (by simp)
theorem NoPt.produceInstallBall {o n : Arch} (d : Str)
    (hl : (diffMap o.pack.files n.pack.files).length ≠ n.pack.files.length) : NoPt (produceInstallBall o n d) := by
  unfold Producer.produceInstallBall
  rw [if_neg hl]
  exact .ite (.pure _) (.bind (.create _ _) fun _ => .bind (.copyInstallPartial n d _) fun _ =>
    .bind (.xz _ _) fun _ => .pure _)
theorem NoPt.pushInstallBall (d : Str) (has : Bool) : NoPt (pushInstallBall d has) :=
  .ite (.pure _) (.bind .step fun _ => .bind .get fun s => by
    split
    · exact .bind (.opened _) fun _ => .bind .step fun _ => .fin (.bind .step fun _ => .pure _)
    · exact .throw (by simp))
theorem NoPt.body {o n : Arch} (d : Str) (t : Path)
    (hl : (diffMap o.pack.files n.pack.files).length ≠ n.pack.files.length) : NoPt (body o n d t) := by
  refine .bind (.bind (.produceInstallBall d hl) fun has => .fin (.bind (.create _ _) fun _ =>
    .bind (.onErr (.bind .step fun _ => .bind (.pushInstallBall d has) fun _ => .fill _ _)) fun _ => .pure _)) fun p => .fin ?_
  refine .bind ?_ fun _ => .ite (.pure _) ?_
  · intro w r
    unfold link
    dsimp only
    split
    · split <;> exact fun h => by cases h
    · exact fun h => by cases h
  · refine .bind .get fun s => ?_
    split
    · exact .pure _
    · exact .bind .step fun _ => .bind (.opened _) fun _ => .fin (.bind (.create _ _) fun _ => .fin (.fill _ _))

/-- C100 when there is nothing to write: a pointless delta leaves no file open. -/
theorem C100_pointless_partial {mo mn : Meta} {pold pnew : Path} {w : World} {s : Disk} {r' : Run}
    (h : createDelta mo mn pold pnew w (start s) = (.error .pointless, r')) : r'.hs = [] := by
  have hE := createDelta_ended mo mn pold pnew w (start s)
  rw [h] at hE
  generalize hvv : ((Except.error Err.pointless : Except Err Path), r') = vv at hE
  cases hE with
  | impossible _ => cases hvv
  | there _ _ => cases hvv
  | notBegun e r' ht0 hb =>
    cases hvv
    cases hb with
    | failed _ _ he => rcases he with he | he <;> cases he
  | tried o n r1 r2 v hp ht0 hb hx =>
    cases v with
    | ok u => cases hvv
    | error e =>
      cases hvv
      cases hb with
      | ok _ _ _ ho' hn' hr hp' hd hh htr =>
        by_cases hl : (diffMap o.pack.files n.pack.files).length = n.pack.files.length
        · have hpl : body o n (workDir o.pack.pkg n.pack.pkg) (target mo mn) w r1 = (.error .pointless, r1) := by
            refine bind_fail (bind_fail ?_)
            unfold produceInstallBall
            rw [if_pos hl]
            rfl
          rw [hpl] at hx
          cases hx
          rw [close_hs, hh]
          simp [start]
        · exact absurd (by rw [hx]) (NoPt.body (workDir o.pack.pkg n.pack.pkg) (target mo mn) hl w r1)

/-! ## Concrete cases, and the refutations -/

namespace Demo
/-- Two releases of a package, as served: `b` is unchanged, `c` is new. -/
def mk (rel : Int) : Meta := ⟨['a'], ['a'], [⟨rel, ['1']⟩], ['1'], ['x'], [], 0, [], []⟩
def old : Arch := ⟨⟨mk 1, [⟨['b'], ['1']⟩], [⟨['b'], true, [49]⟩], [(['m'], [1])]⟩, true, true⟩
def new : Arch := ⟨⟨mk 2, [⟨['b'], ['1']⟩, ⟨['c'], ['2']⟩], [⟨['b'], true, [49]⟩, ⟨['c'], true, [50]⟩], [(['m'], [2])]⟩,
  true, true⟩
/-- The same files under a new release: nothing to put into the delta. -/
def same : Arch := ⟨⟨mk 2, [⟨['b'], ['1']⟩], [⟨['b'], true, [49]⟩], [(['m'], [2])]⟩, true, true⟩
def delta : Arch := ⟨⟨mk 2, new.pack.files, [⟨['c'], true, [50]⟩], [(['m'], [2])]⟩, true, true⟩
/-- The repository's files. -/
def disk : Disk := ⟨fun p => if p = .other ['o'] then some (.zip old) else if p = .other ['n'] then some (.zip new)
  else none, fun _ => false⟩
/-- Nothing fails; hard links can be made, or not. -/
def calm (link : Bool) : World := ⟨fun _ => false, link, true, fun _ => false⟩
/-- Writing the copy fails (the last step). -/
def full : World := ⟨fun k => k == 22, false, true, fun _ => false⟩

theorem wanted : Wanted (mk 1) (mk 2) ['o'] ['n'] old new disk := ⟨by decide, by decide, by decide⟩
theorem clean : Clean disk := fun d => ⟨rfl, fun f => by simp [disk]⟩
theorem fit : Fit (mk 1) (mk 2) old new := ⟨by decide, by decide, by decide +kernel, by decide +kernel⟩
theorem calm_calm (l : Bool) : Calm (calm l) := ⟨fun _ => rfl, rfl⟩
theorem useful : produce old.pack new.pack = .pack delta.pack := by decide +kernel

/-- Result, staged delta and open files of an attempt. -/
def tell (w : World) (s : Disk) : Option Path × Option Data × List Hnd :=
  let x := createDelta (mk 1) (mk 2) (.other ['o']) (.other ['n']) w (start s)
  (x.1.toOption, x.2.disk.file (target (mk 1) (mk 2)), x.2.hs)
end Demo

/-- Non-vacuity of C97–C100: an undisturbed attempt stages the delta, with a hard link or a copy. -/
example : Demo.tell (Demo.calm true) Demo.disk = (some (target (Demo.mk 1) (Demo.mk 2)), some (.zip Demo.delta),
      [.deltaOut, .ballOut]) ∧
    Demo.tell (Demo.calm false) Demo.disk = (some (target (Demo.mk 1) (Demo.mk 2)), some (.zip Demo.delta),
      [.deltaOut, .ballOut]) := by decide +kernel

/-- Non-vacuity of C97: an attempt that fails in its last step, from a clean disk with a working removal of directories; the
delta is not there, and neither is the working directory. -/
example : Clean Demo.disk ∧ Demo.full.rmOk = true ∧ (Demo.tell Demo.full Demo.disk).1 = none ∧
    (createDelta (Demo.mk 1) (Demo.mk 2) (.other ['o']) (.other ['n']) Demo.full (start Demo.disk)).2.disk.dir
      (workDir (Demo.mk 1) (Demo.mk 2)) = false ∧
    10 < (createDelta (Demo.mk 1) (Demo.mk 2) (.other ['o']) (.other ['n']) Demo.full (start Demo.disk)).2.tr.length :=
  ⟨Demo.clean, rfl, by decide +kernel, by decide +kernel, by decide +kernel⟩

/-- Non-vacuity of C59_staged: the undisturbed attempt names the staged file, and both packages have a release. -/
example : (createDelta (Demo.mk 1) (Demo.mk 2) (.other ['o']) (.other ['n']) (Demo.calm true) (start Demo.disk)).1.toOption =
    some (target (Demo.mk 1) (Demo.mk 2)) ∧ Rel (Demo.mk 1) 1 ∧ Rel (Demo.mk 2) 2 :=
  ⟨by decide +kernel, ⟨_, _, rfl, rfl⟩, ⟨_, _, rfl, rfl⟩⟩

/-- C98 does not hold: where hard links cannot be made the delta is copied into the staging area under its own name; a copy
cut short (disk full, or a kill) is taken for the finished delta by the next attempt. -/
theorem C98_violated : ¬ C98_statement := by
  intro h
  have hs : Attempts false (Demo.mk 1) (Demo.mk 2) (.other ['o']) (.other ['n']) Demo.disk _ :=
    .ended Demo.full (by simp) .init
  have ht := h _ _ _ _ _ _ _ _ Demo.wanted hs (Demo.calm false) (target (Demo.mk 1) (Demo.mk 2))
    (createDelta (Demo.mk 1) (Demo.mk 2) (.other ['o']) (.other ['n']) (Demo.calm false) (start
      (createDelta (Demo.mk 1) (Demo.mk 2) (.other ['o']) (.other ['n']) Demo.full (start Demo.disk)).2.disk)).2
    (Prod.ext (by
      have : (createDelta (Demo.mk 1) (Demo.mk 2) (.other ['o']) (.other ['n']) (Demo.calm false) (start
        (createDelta (Demo.mk 1) (Demo.mk 2) (.other ['o']) (.other ['n']) Demo.full (start Demo.disk)).2.disk)).1.toOption
          = some (target (Demo.mk 1) (Demo.mk 2)) := by decide +kernel
      revert this
      rcases (createDelta (Demo.mk 1) (Demo.mk 2) (.other ['o']) (.other ['n']) (Demo.calm false) (start
        (createDelta (Demo.mk 1) (Demo.mk 2) (.other ['o']) (.other ['n']) Demo.full (start Demo.disk)).2.disk)).1 with e | p
      · intro h; cases h
      · intro h; cases h; rfl) rfl)
  obtain ⟨x, hx, _⟩ := ht
  have hp : (createDelta (Demo.mk 1) (Demo.mk 2) (.other ['o']) (.other ['n']) (Demo.calm false) (start
      (createDelta (Demo.mk 1) (Demo.mk 2) (.other ['o']) (.other ['n']) Demo.full (start Demo.disk)).2.disk)).2.disk.file
        (target (Demo.mk 1) (Demo.mk 2)) = some .part := by decide +kernel
  rw [hp] at hx
  cases hx

/-- The disk after a kill in the middle of a production (the k-th durable state from the end). -/
def Demo.cut (k : Nat) : Disk :=
  (createDelta (Demo.mk 1) (Demo.mk 2) (.other ['o']) (.other ['n']) (Demo.calm true) (start Demo.disk)).2.tr.getD k Demo.disk
/-- Killed while the partial install.tar is made. -/
def Demo.killed : Disk := Demo.cut 10

theorem Demo.cut_reach {k : Nat} (hk : k < 17) :
    Attempts true (Demo.mk 1) (Demo.mk 2) (.other ['o']) (.other ['n']) Demo.disk (Demo.cut k) := by
  refine .killed (Demo.calm true) (fun _ => rfl) .init ?_
  unfold Demo.cut
  have hlen : (createDelta (Demo.mk 1) (Demo.mk 2) (.other ['o']) (.other ['n']) (Demo.calm true)
      (start Demo.disk)).2.tr.length = 17 := by decide +kernel
  rw [List.getD_eq_getElem?_getD, List.getElem?_eq_getElem (by rw [hlen]; exact hk)]
  exact List.getElem_mem _
theorem Demo.killed_reach : Attempts true (Demo.mk 1) (Demo.mk 2) (.other ['o']) (.other ['n']) Demo.disk Demo.killed :=
  Demo.cut_reach (by decide)

/-- C99 does not hold: after a kill the working directory still has `install.tar`, `unxz` refuses to overwrite it, and the
next attempt fails although nothing is wrong. -/
theorem C99_violated : ¬ C99_statement := by
  intro h
  obtain ⟨r', hr⟩ := h _ _ _ _ _ _ _ _ Demo.wanted Demo.clean Demo.fit (by rw [Demo.useful]; simp) Demo.killed_reach
    (Demo.calm true) (Demo.calm_calm true) rfl
  have : (createDelta (Demo.mk 1) (Demo.mk 2) (.other ['o']) (.other ['n']) (Demo.calm true)
      (start Demo.killed)).1.toOption = none := by decide +kernel
  rw [hr] at this
  cases this

/-- Non-vacuity of C99_second: the killed production of `C99_violated`; the second repetition succeeds. -/
example : Wanted (Demo.mk 1) (Demo.mk 2) ['o'] ['n'] Demo.old Demo.new Demo.killed ∧
    ¬ Unhindered Demo.old Demo.new Demo.killed ∧
    (Demo.tell (Demo.calm true) (createDelta (Demo.mk 1) (Demo.mk 2) (.other ['o']) (.other ['n']) (Demo.calm true)
      (start Demo.killed)).2.disk).2.1 = some (.zip Demo.delta) :=
  ⟨⟨by decide +kernel, by decide +kernel, by decide +kernel⟩, by decide +kernel, by decide +kernel⟩

/-- Non-vacuity of C98_linked: an attempt killed after the link and before the clean-up has the whole delta staged; the next
attempt reports success. -/
example : ∃ s, Attempts true (Demo.mk 1) (Demo.mk 2) (.other ['o']) (.other ['n']) Demo.disk s ∧
    Demo.tell (Demo.calm true) s = (some (target (Demo.mk 1) (Demo.mk 2)), some (.zip Demo.delta), []) := by
  exact ⟨Demo.cut 1, Demo.cut_reach (by decide), by decide +kernel⟩

/-- C100 does not hold: a successful production leaves both files it wrote open. -/
theorem C100_violated : ¬ C100_statement := by
  intro h
  have h1 := h (Demo.mk 1) (Demo.mk 2) (.other ['o']) (.other ['n']) (Demo.calm true) Demo.disk
  have h2 : (createDelta (Demo.mk 1) (Demo.mk 2) (.other ['o']) (.other ['n']) (Demo.calm true) (start Demo.disk)).2.hs
      = [.deltaOut, .ballOut] := by decide +kernel
  rw [h1] at h2
  cases h2

/-- Non-vacuity of C100_pointless and of the pointless case of C99_clean: every file of the new package is new. -/
example : (createDelta (Demo.mk 1) (Demo.mk 2) (.other ['o']) (.other ['n']) (Demo.calm true) (start
    (Demo.disk.set (.other ['o']) (some (.zip ⟨⟨Demo.mk 1, [], [], []⟩, true, true⟩))))).1.toOption = none ∧
    produce (⟨Demo.mk 1, [], [], []⟩ : Pack) Demo.new.pack = .pointless := by decide +kernel

end Ferryd.Producer
