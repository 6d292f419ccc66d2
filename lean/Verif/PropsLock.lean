import Verif.Lock
/-!
# PropsLock: the daemon lock (C61, C62)
-/
namespace Ferryd.Lock

/-! ## Specification -/

namespace Spec
/-- States reachable by any interleaving. -/
inductive Reach : Sys → Prop
  | init : Reach Sys.init
  | step {p : Nat} {s t : Sys} (h : Reach s) (hs : Step p s t) : Reach t

/-- The process believes it holds the lock. -/
def Holds (s : Sys) (p : Nat) : Prop := ∃ i, s.pc p = .locked i ∨ s.pc p = .running i

/-- Process `p` is shutting down in this step: giving up the lock or removing the file. -/
def ShuttingDown (s : Sys) (p : Nat) : Prop := ∃ i, s.pc p = .running i ∨ s.pc p = .unlocked i

/-- States reachable when no other process is being started while one shuts down in good order. -/
inductive CalmReach : Sys → Prop
  | init : CalmReach Sys.init
  | step {p : Nat} {s t : Sys} (h : CalmReach s) (hs : Step p s t)
      (hc : ShuttingDown s p → t.alive p → ∀ q, q ≠ p → (s.pc q).fd = none) : CalmReach t
end Spec
open Spec

def C61_statement : Prop := ∀ s, Reach s → ∀ p q, Holds s p → Holds s q → p = q

@[simp] theorem setPc_pc (s : Sys) (p q : Nat) (x : PC) : (s.setPc p x).pc q = if q = p then x else s.pc q := rfl
@[simp] theorem exit_pc (s : Sys) (p q : Nat) : (s.exit p).pc q = if q = p then .dead else s.pc q := rfl
@[simp] theorem exit_path (s : Sys) (p : Nat) : (s.exit p).path = s.path := rfl
@[simp] theorem exit_content (s : Sys) (p : Nat) : (s.exit p).content = s.content := rfl
@[simp] theorem setPc_path (s : Sys) (p : Nat) (x : PC) : (s.setPc p x).path = s.path := rfl
@[simp] theorem setPc_flock (s : Sys) (p : Nat) (x : PC) : (s.setPc p x).flock = s.flock := rfl
@[simp] theorem setPc_content (s : Sys) (p : Nat) (x : PC) : (s.setPc p x).content = s.content := rfl
@[simp] theorem setPc_next (s : Sys) (p : Nat) (x : PC) : (s.setPc p x).next = s.next := rfl

/-! ## One holder per file -/

/-- Holds in every interleaving: a holder has the flock of its file; open files have been created. -/
structure LInv (s : Sys) : Prop where
  lock : ∀ p i, s.pc p = .locked i ∨ s.pc p = .running i → s.flock i = some p
  fresh : ∀ p i, (s.pc p).fd = some i → i < s.next
  pathFresh : ∀ i, s.path = some i → i < s.next

theorem LInv.init : LInv Sys.init := ⟨by simp [Sys.init], by simp [Sys.init, PC.fd], by simp [Sys.init]⟩

theorem LInv.exit {s : Sys} (h : LInv s) (p : Nat) : LInv (s.exit p) := by
  refine ⟨?_, ?_, h.pathFresh⟩
  · intro q i hq
    by_cases hqp : q = p
    · subst hqp; simp at hq
    · simp only [exit_pc, if_neg hqp] at hq
      have := h.lock q i hq
      simp only [Sys.exit, this]
      rw [if_neg (by simpa using hqp)]
  · intro q i hq
    by_cases hqp : q = p
    · subst hqp; simp [PC.fd] at hq
    · simp only [exit_pc, if_neg hqp] at hq
      exact h.fresh q i hq

theorem LInv.setPc {s : Sys} (h : LInv s) (p : Nat) (x : PC) (hx : ∀ i, x ≠ .locked i ∧ x ≠ .running i)
    (hf : ∀ i, x.fd = some i → i < s.next) : LInv (s.setPc p x) := by
  refine ⟨?_, ?_, h.pathFresh⟩
  · intro q i hq
    by_cases hqp : q = p
    · subst hqp; simp only [setPc_pc, if_true] at hq
      rcases hq with hq | hq
      · exact absurd hq (hx i).1
      · exact absurd hq (hx i).2
    · simp only [setPc_pc, if_neg hqp] at hq
      exact h.lock q i hq
  · intro q i hq
    by_cases hqp : q = p
    · subst hqp; simp only [setPc_pc, if_true] at hq; exact hf i hq
    · simp only [setPc_pc, if_neg hqp] at hq
      exact h.fresh q i hq

theorem LInv.step {p : Nat} {s t : Sys} (h : LInv s) (hs : Step p s t) : LInv t := by
  cases hs with
  | start hp hpc => exact h.setPc p _ (by simp) (by simp [PC.fd])
  | openOld hpc hi => exact h.setPc p _ (by simp) (by simp [PC.fd]; exact h.pathFresh _ hi)
  | openNew hpc hi =>
    refine ⟨?_, ?_, by simp⟩
    · intro q i hq
      by_cases hqp : q = p
      · subst hqp; simp at hq
      · simp only [setPc_pc, if_neg hqp] at hq
        have h1 := h.lock q i hq
        have h2 : i < s.next := h.fresh q i (by rcases hq with hq | hq <;> rw [hq] <;> rfl)
        show (if i = s.next then none else s.flock i) = some q
        rw [if_neg (by omega), h1]
    · intro q i hq
      show i < s.next + 1
      by_cases hqp : q = p
      · subst hqp; simp [PC.fd] at hq; omega
      · simp only [setPc_pc, if_neg hqp] at hq
        have := h.fresh q i hq; omega
  | readGone hpc hp => exact h.exit p
  | readOwned hpc hp hr hq hne ha => exact h.exit p
  | readFree hpc hp hr => exact h.setPc p _ (by simp) (by simp [PC.fd]; exact h.fresh p _ (by rw [hpc]; rfl))
  | @flockOk _ j hpc hf =>
    refine ⟨?_, ?_, h.pathFresh⟩
    · intro q i hq
      show (if i = j then some p else s.flock i) = some q
      by_cases hqp : q = p
      · subst hqp
        simp at hq; subst hq; simp
      · simp only [setPc_pc, if_neg hqp] at hq
        have h1 := h.lock q i hq
        rw [if_neg, h1]
        rintro rfl; rw [hf] at h1; cases h1
    · intro q i hq
      show i < s.next
      by_cases hqp : q = p
      · subst hqp; simp [PC.fd] at hq; subst hq; exact h.fresh q _ (by rw [hpc]; rfl)
      · simp only [setPc_pc, if_neg hqp] at hq; exact h.fresh q i hq
  | flockBusy hpc hf => exact h.exit p
  | @write _ j hpc =>
    refine ⟨?_, ?_, h.pathFresh⟩
    · intro q i hq
      by_cases hqp : q = p
      · subst hqp; simp at hq; subst hq; exact h.lock q _ (.inl hpc)
      · simp only [setPc_pc, if_neg hqp] at hq; exact h.lock q i hq
    · intro q i hq
      by_cases hqp : q = p
      · subst hqp; simp [PC.fd] at hq; subst hq; exact h.fresh q _ (by rw [hpc]; rfl)
      · simp only [setPc_pc, if_neg hqp] at hq; exact h.fresh q i hq
  | @unlock _ j hpc =>
    refine ⟨?_, ?_, h.pathFresh⟩
    · intro q i hq
      show (if i = j then none else s.flock i) = some q
      by_cases hqp : q = p
      · subst hqp; simp at hq
      · simp only [setPc_pc, if_neg hqp] at hq
        have h1 := h.lock q i hq
        rw [if_neg, h1]
        rintro rfl
        rw [h.lock p _ (.inr hpc)] at h1
        cases h1; exact hqp rfl
    · intro q i hq
      show i < s.next
      by_cases hqp : q = p
      · subst hqp; simp [PC.fd] at hq; subst hq; exact h.fresh q _ (by rw [hpc]; rfl)
      · simp only [setPc_pc, if_neg hqp] at hq; exact h.fresh q i hq
  | unlink hpc =>
    have h1 := h.setPc p .leaving (by simp) (by simp [PC.fd])
    exact ⟨h1.lock, h1.fresh, by simp⟩
  | die hpc => exact h.exit p

theorem Spec.Reach.inv {s : Sys} (h : Reach s) : LInv s := by
  induction h with
  | init => exact LInv.init
  | step _ hs ih => exact ih.step hs

/-- C61, in every interleaving: two processes that both believe they hold the lock have locked different files. -/
theorem C61_per_file_partial {s : Sys} (h : Reach s) {p q : Nat} {i : Nat}
    (hp : s.pc p = .locked i ∨ s.pc p = .running i) (hq : s.pc q = .locked i ∨ s.pc q = .running i) : p = q := by
  have h1 := h.inv.lock p i hp
  rw [h.inv.lock q i hq] at h1
  cases h1; rfl

/-! ## The violation -/

/-- Process 3 shuts down while 2 has opened the file and 1 creates a new one. -/
theorem C61_violated : ¬ C61_statement := by
  intro h
  -- states are built step by step
  let s0 := Sys.init
  have r0 : Reach s0 := .init
  have r1 := r0.step (Step.start (p := 3) (by omega) rfl)
  have r2 := r1.step (Step.openNew (p := 3) rfl rfl)
  have r3 := r2.step (Step.readFree (p := 3) (i := 0) (j := 0) rfl rfl (by intro q hq; cases hq))
  have r4 := r3.step (Step.flockOk (p := 3) (i := 0) rfl rfl)
  have r5 := r4.step (Step.write (p := 3) (i := 0) rfl)
  have r6 := r5.step (Step.start (p := 2) (by omega) rfl)
  have r7 := r6.step (Step.openOld (p := 2) (i := 0) rfl rfl)
  have r8 := r7.step (Step.unlock (p := 3) (i := 0) rfl)
  have r9 := r8.step (Step.unlink (p := 3) (i := 0) rfl)
  have r10 := r9.step (Step.start (p := 1) (by omega) rfl)
  have r11 := r10.step (Step.openNew (p := 1) rfl rfl)
  have r12 := r11.step (Step.readFree (p := 2) (i := 0) (j := 1) rfl rfl (by intro q hq; cases hq))
  have r13 := r12.step (Step.readFree (p := 1) (i := 1) (j := 1) rfl rfl (by intro q hq; cases hq))
  have r14 := r13.step (Step.flockOk (p := 2) (i := 0) rfl rfl)
  have r15 := r14.step (Step.flockOk (p := 1) (i := 1) rfl rfl)
  have r16 := r15.step (Step.write (p := 2) (i := 0) rfl)
  have r17 := r16.step (Step.write (p := 1) (i := 1) rfl)
  have := h _ r17 1 2 ⟨1, .inr rfl⟩ ⟨0, .inr rfl⟩
  exact absurd this (by decide)

/-! ## Calm executions -/

theorem Spec.CalmReach.reach {s : Sys} (h : CalmReach s) : Reach s := by
  induction h with
  | init => exact .init
  | step _ hs _ ih => exact ih.step hs

/-- In calm executions every open file is the one at the path. -/
theorem Spec.CalmReach.path {s : Sys} (h : CalmReach s) : ∀ p i, (s.pc p).fd = some i → s.path = some i := by
  induction h with
  | init => simp [Sys.init, PC.fd]
  | @step p s t _ hs hc ih =>
    have ext : ∀ q i, ((s.exit p).pc q).fd = some i → (s.exit p).path = some i := by
      intro q i hq
      by_cases hqp : q = p
      · subst hqp; simp [PC.fd] at hq
      · simp only [exit_pc, if_neg hqp] at hq; exact ih q i hq
    have same : ∀ (u : Sys) (x : PC), u.path = s.path → (∀ q, u.pc q = if q = p then x else s.pc q) →
        (∀ i, x.fd = some i → s.path = some i) → ∀ q i, (u.pc q).fd = some i → u.path = some i := by
      intro u x hu hpc hx q i hq
      rw [hu]
      rw [hpc] at hq
      by_cases hqp : q = p
      · rw [if_pos hqp] at hq; exact hx i hq
      · rw [if_neg hqp] at hq; exact ih q i hq
    cases hs with
    | start hp hpc => exact same _ _ rfl (fun _ => rfl) (by simp [PC.fd])
    | openOld hpc hi => exact same _ _ rfl (fun _ => rfl) (by simp [PC.fd, hi])
    | openNew hpc hi =>
      intro q i hq
      by_cases hqp : q = p
      · subst hqp; simp [PC.fd] at hq; subst hq; rfl
      · simp only [setPc_pc, if_neg hqp] at hq
        have := ih q i hq; rw [hi] at this; cases this
    | readGone hpc hp => exact ext
    | readOwned hpc hp hr hq hne ha => exact ext
    | readFree hpc hp hr =>
      refine same _ _ rfl (fun _ => rfl) ?_
      intro i hi; exact ih p i (by rw [hpc]; exact hi)
    | flockOk hpc hf =>
      refine same _ _ rfl (fun _ => rfl) ?_
      intro i hi; exact ih p i (by rw [hpc]; exact hi)
    | flockBusy hpc hf => exact ext
    | write hpc =>
      refine same _ _ rfl (fun _ => rfl) ?_
      intro i hi; exact ih p i (by rw [hpc]; exact hi)
    | unlock hpc =>
      refine same _ _ rfl (fun _ => rfl) ?_
      intro i hi; exact ih p i (by rw [hpc]; exact hi)
    | @unlink _ j hpc =>
      intro q i hq
      by_cases hqp : q = p
      · subst hqp; simp [PC.fd] at hq
      · simp only [setPc_pc, if_neg hqp] at hq
        have := hc ⟨j, .inr hpc⟩ (by simp [Sys.alive]) q hqp
        rw [this] at hq; cases hq
    | die hpc => exact ext

/-- C61, as long as no other daemon is being started while one shuts down in good order (starts may race each other, and
processes may be killed at any moment): at most one process holds the lock. -/
theorem C61_one_holder_partial {s : Sys} (h : CalmReach s) {p q : Nat} (hp : Holds s p) (hq : Holds s q) : p = q := by
  obtain ⟨i, hp⟩ := hp
  obtain ⟨j, hq⟩ := hq
  have h1 := h.path p i (by rcases hp with hp | hp <;> rw [hp] <;> rfl)
  have h2 := h.path q j (by rcases hq with hq | hq <;> rw [hq] <;> rfl)
  rw [h1] at h2; cases h2
  exact C61_per_file_partial h.reach hp hq

/-- Two daemons started together: the first to take the flock runs, the other is about to give up. -/
example : ∃ s, CalmReach s ∧ Holds s 7 ∧ s.pc 8 = .checked 0 := by
  have r0 : CalmReach Sys.init := .init
  have r1 := r0.step (Step.start (p := 7) (by omega) rfl) (by rintro ⟨i, h | h⟩ <;> cases h)
  have r2 := r1.step (Step.openNew (p := 7) rfl rfl) (by rintro ⟨i, h | h⟩ <;> cases h)
  have r3 := r2.step (Step.start (p := 8) (by omega) rfl) (by rintro ⟨i, h | h⟩ <;> cases h)
  have r4 := r3.step (Step.openOld (p := 8) (i := 0) rfl rfl) (by rintro ⟨i, h | h⟩ <;> cases h)
  have r5 := r4.step (Step.readFree (p := 8) (i := 0) (j := 0) rfl rfl (by intro q hq; cases hq))
    (by rintro ⟨i, h | h⟩ <;> cases h)
  have r6 := r5.step (Step.readFree (p := 7) (i := 0) (j := 0) rfl rfl (by intro q hq; cases hq))
    (by rintro ⟨i, h | h⟩ <;> cases h)
  have r7 := r6.step (Step.flockOk (p := 7) (i := 0) rfl rfl) (by rintro ⟨i, h | h⟩ <;> cases h)
  have r8 := r7.step (Step.write (p := 7) (i := 0) rfl) (by rintro ⟨i, h | h⟩ <;> cases h)
  exact ⟨_, r8, ⟨0, .inr rfl⟩, rfl⟩

/-! ## Reading the id back (C62) -/

theorem digitVal_ofNat {n : Nat} (h : n < 10) : digitVal (Char.ofNat (48 + n)) = some n := by
  have : ∀ n : Fin 10, digitVal (Char.ofNat (48 + n.val)) = some n.val := by decide
  exact this ⟨n, h⟩

theorem scan_digitsGo : ∀ (fuel n : Nat) (o : Option Nat) (acc : Str), n < fuel → o.getD 0 = 0 →
    scanGo o (digitsGo fuel n acc) = scanGo (some n) acc
  | 0, _, _, _, h, _ => by omega
  | fuel + 1, n, o, acc, h, ho => by
    unfold digitsGo
    split
    · rename_i hn
      simp only [scanGo, digitVal_ofNat hn, ho]
      congr 2; omega
    · rename_i hn
      rw [scan_digitsGo fuel (n / 10) o _ (by omega) ho]
      simp only [scanGo, digitVal_ofNat (show n % 10 < 10 by omega), Option.getD_some]
      congr 2; omega

theorem digitsGo_app : ∀ (fuel n : Nat) (acc : Str), digitsGo fuel n acc = digitsGo fuel n [] ++ acc
  | 0, _, _ => by simp [digitsGo]
  | fuel + 1, n, acc => by
    unfold digitsGo
    split
    · simp
    · rw [digitsGo_app fuel (n / 10) (_ :: acc), digitsGo_app fuel (n / 10) [_]]; simp

theorem digitsGo_head : ∀ (fuel n : Nat) (acc : Str), n < fuel →
    ∃ c cs, digitsGo fuel n acc = c :: cs ∧ (digitVal c).isSome
  | 0, _, _, h => by omega
  | fuel + 1, n, acc, h => by
    unfold digitsGo
    split
    · rename_i hn; exact ⟨_, _, rfl, by rw [digitVal_ofNat hn]; rfl⟩
    · exact digitsGo_head fuel (n / 10) _ (by omega)

theorem readPid_digits (p : Nat) (rest : Str) : readPid (digits p ++ rest) =
    match scanGo (some p) rest with
    | some n => if n < 2 ^ 63 then some n else none
    | none => none := by
  have h1 : digits p ++ rest = digitsGo (p + 1) p rest := by rw [digits, ← digitsGo_app]
  obtain ⟨c, cs, hc, hd⟩ := digitsGo_head (p + 1) p rest (by omega)
  have hsp : (c == ' ') = false := by
    apply Bool.eq_false_iff.mpr; intro h; rw [beq_iff_eq] at h; subst h; revert hd; decide
  have hpl : c ≠ '+' := by rintro rfl; revert hd; decide
  have h2 := scan_digitsGo (p + 1) p none rest (by omega) rfl
  rw [h1, ← h2, hc]
  unfold readPid
  simp only [List.dropWhile_cons, hsp]
  simp only [Bool.false_eq_true, if_false]
  have : skipPlus (c :: cs) = c :: cs := by
    unfold skipPlus
    split
    · rename_i t heq; cases heq; exact absurd rfl hpl
    · rfl
  rw [this]; rfl

theorem scanGo_ge : ∀ (cs : Str) (a : Nat), ∃ m, scanGo (some a) cs = some m ∧ a ≤ m
  | [], a => ⟨a, rfl, Nat.le_refl _⟩
  | c :: cs, a => by
    simp only [scanGo]
    cases h : digitVal c with
    | none => exact ⟨a, rfl, Nat.le_refl _⟩
    | some d =>
      obtain ⟨m, hm, hle⟩ := scanGo_ge cs ((some a).getD 0 * 10 + d)
      exact ⟨m, hm, by simp at hle; omega⟩

namespace Spec
/-- The text does not begin with a decimal digit. -/
def NoLeadingDigit (t : Str) : Prop := ∀ c cs, t = c :: cs → ¬ ('0' ≤ c ∧ c ≤ '9')
end Spec

theorem digitVal_none_iff (c : Char) : digitVal c = none ↔ ¬ ('0' ≤ c ∧ c ≤ '9') := by
  unfold digitVal
  have h1 : ('0' ≤ c) ↔ 48 ≤ c.toNat := by
    rw [Char.le_def]; exact UInt32.le_iff_toNat_le
  have h2 : (c ≤ '9') ↔ c.toNat ≤ 57 := by
    rw [Char.le_def]; exact UInt32.le_iff_toNat_le
  rw [h1, h2]
  split <;> simp_all

/-- C62, exactly: whatever the file held before, after process `p` has written its id the file reads as `p` if and only
if what is left of the old content does not begin with a digit. -/
theorem C62_readback_iff (old : Str) {p : Nat} (h0 : 0 < p) (hp : p < 2 ^ 63) :
    readPid (overwrite old (digits p)) = some p ↔ NoLeadingDigit (old.drop (digits p).length) := by
  unfold overwrite
  rw [readPid_digits]
  cases hr : old.drop (digits p).length with
  | nil => simp [scanGo, hp, NoLeadingDigit]
  | cons c cs =>
    simp only [scanGo]
    cases hd : digitVal c with
    | none =>
      simp only [hp, if_true, true_iff]
      intro c' cs' h; cases h
      exact (digitVal_none_iff c).mp hd
    | some d =>
      obtain ⟨m, hm, hle⟩ := scanGo_ge cs ((some p).getD 0 * 10 + d)
      simp only [hm]
      constructor
      · intro h
        split at h
        · cases h; simp at hle; omega
        · cases h
      · intro h
        have := (digitVal_none_iff c).mpr (h c cs rfl)
        rw [hd] at this; cases this

example : NoLeadingDigit (['1', '2', '3'].drop (digits 4567).length) := by
  intro c cs h; rw [show ['1', '2', '3'].drop (digits 4567).length = [] by decide +kernel] at h; cases h

def C62_statement : Prop :=
  ∀ s, Reach s → ∀ p i, p < 2 ^ 63 → s.pc p = .running i → ∃ j, s.path = some j ∧ readPid (s.content j) = some p

/-- Process 12345 is killed; process 99 takes over, and the file reads 99345. -/
theorem C62_violated : ¬ C62_statement := by
  intro h
  have r0 : Reach Sys.init := .init
  have r1 := r0.step (Step.start (p := 12345) (by omega) rfl)
  have r2 := r1.step (Step.openNew (p := 12345) rfl rfl)
  have r3 := r2.step (Step.readFree (p := 12345) (i := 0) (j := 0) rfl rfl (by intro q hq; cases hq))
  have r4 := r3.step (Step.flockOk (p := 12345) (i := 0) rfl rfl)
  have r5 := r4.step (Step.write (p := 12345) (i := 0) rfl)
  have r6 := r5.step (Step.die (p := 12345) (by simp))
  have r7 := r6.step (Step.start (p := 99) (by omega) rfl)
  have r8 := r7.step (Step.openOld (p := 99) (i := 0) rfl rfl)
  have r9 := r8.step (Step.readFree (p := 99) (i := 0) (j := 0) rfl rfl (by
    intro q hq _
    have : readPid (overwrite [] (digits 12345)) = some 12345 :=
      (C62_readback_iff [] (by omega) (by omega)).mpr (by intro c cs h; simp at h)
    have hq' : readPid (overwrite [] (digits 12345)) = some q := hq
    rw [this] at hq'; cases hq'
    right; simp [Sys.alive]))
  have r10 := r9.step (Step.flockOk (p := 99) (i := 0) rfl rfl)
  have r11 := r10.step (Step.write (p := 99) (i := 0) rfl)
  obtain ⟨j, hj, hr⟩ := h _ r11 99 0 (by omega) rfl
  cases hj
  have hr' : readPid (overwrite (overwrite [] (digits 12345)) (digits 99)) = some 99 := hr
  have hd : (overwrite [] (digits 12345)).drop (digits 99).length = ['3', '4', '5'] := by decide +kernel
  have := (C62_readback_iff _ (by omega) (by omega)).mp hr'
  rw [hd] at this
  exact this '3' _ rfl (by decide)

namespace Spec
/-- Calm executions in which no process takes over a file whose content is longer than its own id. -/
inductive TidyReach : Sys → Prop
  | init : TidyReach Sys.init
  | step {p : Nat} {s t : Sys} (h : TidyReach s) (hs : Step p s t)
      (hc : ShuttingDown s p → t.alive p → ∀ q, q ≠ p → (s.pc q).fd = none)
      (hw : ∀ i, s.pc p = .locked i → t.alive p → (s.content i).length ≤ (digits p).length) : TidyReach t

/-- Calm executions in which all process ids have the same number of digits. -/
inductive EvenReach (n : Nat) : Sys → Prop
  | init : EvenReach n Sys.init
  | step {p : Nat} {s t : Sys} (h : EvenReach n s) (hs : Step p s t)
      (hc : ShuttingDown s p → t.alive p → ∀ q, q ≠ p → (s.pc q).fd = none)
      (hn : (digits p).length = n) : EvenReach n t
end Spec

theorem Spec.TidyReach.calm {s : Sys} (h : TidyReach s) : CalmReach s := by
  induction h with
  | init => exact .init
  | step _ hs hc _ ih => exact ih.step hs hc

/-- What a running process wrote stays: nobody else has the flock of its file. -/
theorem Spec.TidyReach.content {s : Sys} (h : TidyReach s) : ∀ p i, s.pc p = .running i → s.content i = digits p := by
  induction h with
  | init => simp [Sys.init]
  | @step p s t h hs hc hw ih =>
    have hinv := h.calm.reach.inv
    have ext : ∀ q i, (s.exit p).pc q = .running i → (s.exit p).content i = digits q := by
      intro q i hq
      by_cases hqp : q = p
      · subst hqp; simp at hq
      · simp only [exit_pc, if_neg hqp] at hq; exact ih q i hq
    have same : ∀ (u : Sys) (x : PC), u.content = s.content → (∀ q, u.pc q = if q = p then x else s.pc q) →
        (∀ i, x ≠ .running i) → ∀ q i, u.pc q = .running i → u.content i = digits q := by
      intro u x hu hpc hx q i hq
      rw [hu]
      rw [hpc] at hq
      by_cases hqp : q = p
      · rw [if_pos hqp] at hq; exact absurd hq (hx i)
      · rw [if_neg hqp] at hq; exact ih q i hq
    cases hs with
    | start hp hpc => exact same _ _ rfl (fun _ => rfl) (by simp)
    | openOld hpc hi => exact same _ _ rfl (fun _ => rfl) (by simp)
    | openNew hpc hi =>
      intro q i hq
      by_cases hqp : q = p
      · subst hqp; simp at hq
      · simp only [setPc_pc, if_neg hqp] at hq
        have h2 : i < s.next := hinv.fresh q i (by rw [hq]; rfl)
        show (if i = s.next then [] else s.content i) = digits q
        rw [if_neg (show ¬ i = s.next by omega)]
        exact ih q i hq
    | readGone hpc hp => exact ext
    | readOwned hpc hp hr hq hne ha => exact ext
    | readFree hpc hp hr => exact same _ _ rfl (fun _ => rfl) (by simp)
    | flockOk hpc hf => exact same _ _ rfl (fun _ => rfl) (by simp)
    | flockBusy hpc hf => exact ext
    | @write _ j hpc =>
      intro q i hq
      show (if i = j then overwrite (s.content j) (digits p) else s.content i) = digits q
      by_cases hqp : q = p
      · subst hqp; simp at hq; subst hq
        have hl := hw j hpc (by simp [Sys.alive])
        rw [if_pos rfl, overwrite, List.drop_eq_nil_of_le hl, List.append_nil]
      · simp only [setPc_pc, if_neg hqp] at hq
        rw [if_neg]
        · exact ih q i hq
        · rintro rfl
          have h1 := hinv.lock q i (.inr hq)
          rw [hinv.lock p i (.inl hpc)] at h1
          cases h1; exact hqp rfl
    | unlock hpc => exact same _ _ rfl (fun _ => rfl) (by simp)
    | unlink hpc => exact same _ _ rfl (fun _ => rfl) (by simp)
    | die hpc => exact ext

/-- C62, as long as no other daemon is being started while one shuts down in good order and no process takes over a file
whose content is longer than its own id: the lock path names the running daemon. -/
theorem C62_names_holder_partial {s : Sys} (h : TidyReach s) {p i : Nat} (h0 : 0 < p) (hp : p < 2 ^ 63)
    (hr : s.pc p = .running i) : ∃ j, s.path = some j ∧ readPid (s.content j) = some p := by
  refine ⟨i, h.calm.path p i (by rw [hr]; rfl), ?_⟩
  rw [h.content p i hr]
  have := (C62_readback_iff [] h0 hp).mpr (by intro c cs h; simp at h)
  simpa [overwrite] using this

theorem Spec.EvenReach.len {n : Nat} {s : Sys} (h : EvenReach n s) : ∀ i, (s.content i).length ≤ n := by
  induction h with
  | init => simp [Sys.init]
  | @step p s t h hs hc hn ih =>
    cases hs with
    | openNew hpc hi =>
      intro i
      show (if i = s.next then [] else s.content i).length ≤ n
      split
      · simp
      · exact ih i
    | @write _ j hpc =>
      intro i
      show (if i = j then overwrite (s.content j) (digits p) else s.content i).length ≤ n
      split
      · have := ih j
        simp [overwrite]; omega
      · exact ih i
    | _ => exact ih

theorem Spec.EvenReach.tidy {n : Nat} {s : Sys} (h : EvenReach n s) : TidyReach s := by
  induction h with
  | init => exact .init
  | step h hs hc hn ih => exact ih.step hs hc (by intro i _ _; rw [hn]; exact h.len i)

/-- C62, in particular, when all process ids have the same number of digits. -/
theorem C62_same_width_partial {n : Nat} {s : Sys} (h : EvenReach n s) {p i : Nat} (h0 : 0 < p) (hp : p < 2 ^ 63)
    (hr : s.pc p = .running i) : ∃ j, s.path = some j ∧ readPid (s.content j) = some p :=
  C62_names_holder_partial h.tidy h0 hp hr

/-- Process 23 takes over from 17, which was killed. -/
example : ∃ s, EvenReach 2 s ∧ s.pc 23 = .running 0 ∧ s.pc 17 = .dead := by
  have r0 : EvenReach 2 Sys.init := .init
  have nc : ∀ {s t : Sys} {p : Nat}, (∀ i, s.pc p ≠ .running i ∧ s.pc p ≠ .unlocked i) →
      (ShuttingDown s p → t.alive p → ∀ q, q ≠ p → (s.pc q).fd = none) := by
    rintro s t p h ⟨i, hi | hi⟩
    · exact absurd hi (h i).1
    · exact absurd hi (h i).2
  have r1 := r0.step (Step.start (p := 17) (by omega) rfl) (nc (by simp [Sys.init])) (by decide +kernel)
  have r2 := r1.step (Step.openNew (p := 17) rfl rfl) (nc (by simp)) (by decide +kernel)
  have r3 := r2.step (Step.readFree (p := 17) (i := 0) (j := 0) rfl rfl (by intro q hq; cases hq)) (nc (by simp))
    (by decide +kernel)
  have r4 := r3.step (Step.flockOk (p := 17) (i := 0) rfl rfl) (nc (by simp)) (by decide +kernel)
  have r5 := r4.step (Step.write (p := 17) (i := 0) rfl) (nc (by simp)) (by decide +kernel)
  have r6 := r5.step (Step.die (p := 17) (by simp)) (by simp [Sys.alive]) (by decide +kernel)
  have r7 := r6.step (Step.start (p := 23) (by omega) rfl) (nc (by simp [Sys.init])) (by decide +kernel)
  have r8 := r7.step (Step.openOld (p := 23) (i := 0) rfl rfl) (nc (by simp)) (by decide +kernel)
  have r9 := r8.step (Step.readFree (p := 23) (i := 0) (j := 0) rfl rfl (by
    intro q hq _
    have : readPid (overwrite [] (digits 17)) = some 17 :=
      (C62_readback_iff [] (by omega) (by omega)).mpr (by intro c cs h; simp at h)
    have hq' : readPid (overwrite [] (digits 17)) = some q := hq
    rw [this] at hq'; cases hq'
    right; simp [Sys.alive])) (nc (by simp)) (by decide +kernel)
  have r10 := r9.step (Step.flockOk (p := 23) (i := 0) rfl rfl) (nc (by simp)) (by decide +kernel)
  have r11 := r10.step (Step.write (p := 23) (i := 0) rfl) (nc (by simp)) (by decide +kernel)
  exact ⟨_, r11, rfl, rfl⟩

/-! ## Starting again -/

namespace Spec
/-- Steps of process `p` alone. -/
inductive Alone (p : Nat) : Sys → Sys → Prop
  | refl (s : Sys) : Alone p s s
  | step {s t u : Sys} (h : Alone p s t) (hs : Step p t u) : Alone p s u
end Spec

theorem Spec.Reach.flockAlive {s : Sys} (h : Reach s) : ∀ i p, s.flock i = some p → s.alive p := by
  induction h with
  | init => simp [Sys.init]
  | @step p s t h hs ih =>
    have ext : ∀ i q, (s.exit p).flock i = some q → (s.exit p).alive q := by
      intro i q hq
      have hq' : (if s.flock i = some p then none else s.flock i) = some q := hq
      split at hq'
      · cases hq'
      · rename_i hne
        have hqp : q ≠ p := by rintro rfl; exact hne hq'
        simp only [Sys.alive, exit_pc, if_neg hqp]
        exact ih i q hq'
    have same : ∀ (u : Sys) (x : PC), (∀ i q, u.flock i = some q → q = p ∨ s.flock i = some q) →
        (∀ q, u.pc q = if q = p then x else s.pc q) →
        x ≠ .dead → ∀ i q, u.flock i = some q → u.alive q := by
      intro u x hu hpc hx i q hq
      simp only [Sys.alive, hpc]
      by_cases hqp : q = p
      · rw [if_pos hqp]; exact hx
      · rw [if_neg hqp]
        rcases hu i q hq with h | h
        · exact absurd h hqp
        · exact ih i q h
    cases hs with
    | readGone | readOwned | flockBusy | die => exact ext
    | start hp hpc => exact same _ _ (fun i q h => .inr h) (fun _ => rfl) (by simp)
    | openOld hpc hi => exact same _ _ (fun i q h => .inr h) (fun _ => rfl) (by simp)
    | openNew hpc hi =>
      refine same _ _ (fun i q h => .inr ?_) (fun _ => rfl) (by simp)
      simp only [] at h; split at h
      · cases h
      · exact h
    | readFree hpc hp hr => exact same _ _ (fun i q h => .inr h) (fun _ => rfl) (by simp)
    | flockOk hpc hf =>
      refine same _ _ (fun i q h => ?_) (fun _ => rfl) (by simp)
      simp only [] at h; split at h
      · cases h; exact .inl rfl
      · exact .inr h
    | write hpc => exact same _ _ (fun i q h => .inr h) (fun _ => rfl) (by simp)
    | unlock hpc =>
      refine same _ _ (fun i q h => .inr ?_) (fun _ => rfl) (by simp)
      simp only [] at h; split at h
      · cases h
      · exact h
    | unlink hpc => exact same _ _ (fun i q h => .inr h) (fun _ => rfl) (by simp)

/-- C80: whatever happened before, and however the earlier daemons ended, if none of them is alive then a new one can
start and gets the lock. -/
theorem C80_restart {s : Sys} (h : Reach s) (hd : ∀ q, ¬ s.alive q) {p : Nat} (hp : 0 < p) :
    ∃ t i, Alone p s t ∧ t.pc p = .running i ∧ t.path = some i := by
  have dead : ∀ q, s.pc q = .dead := fun q => Classical.byContradiction (hd q)
  have hfl : ∀ i, s.flock i = none := by
    intro i
    cases hf : s.flock i with
    | none => rfl
    | some q => exact absurd (h.flockAlive i q hf) (hd q)
  have a1 : Alone p s (s.setPc p .started) := .step (.refl s) (.start hp (dead p))
  obtain ⟨t, i, at_, hpc, hpath, hft, hal⟩ : ∃ t i, Alone p s t ∧ t.pc p = .opened i ∧ t.path = some i ∧
      (t.flock i = none) ∧ (∀ q, q ≠ p → t.pc q = .dead) := by
    cases hp' : s.path with
    | none =>
      refine ⟨_, _, a1.step (.openNew (by simp) (by simpa using hp')), ?_, rfl, ?_, ?_⟩
      · simp
      · simp
      · intro q hq; simp [hq, dead q]
    | some i =>
      refine ⟨_, _, a1.step (.openOld (by simp) (by simpa using hp')), ?_, hp', ?_, ?_⟩
      · simp
      · simpa using hfl i
      · intro q hq; simp [hq, dead q]
  have a3 := at_.step (.readFree hpc hpath (by
    intro q _ _
    by_cases hq : q = p
    · exact .inl hq
    · right; simp [Sys.alive, hal q hq]))
  have a4 := a3.step (.flockOk (i := i) (by simp) (by simpa using hft))
  have a5 := a4.step (.write (i := i) (by simp))
  exact ⟨_, i, a5, by simp, hpath⟩

/-- After a daemon was killed. -/
example : ∃ s, Reach s ∧ (∀ q, ¬ s.alive q) ∧ s.path = some 0 := by
  have r0 : Reach Sys.init := .init
  have r1 := r0.step (Step.start (p := 5) (by omega) rfl)
  have r2 := r1.step (Step.openNew (p := 5) rfl rfl)
  have r3 := r2.step (Step.die (p := 5) (by simp))
  refine ⟨_, r3, ?_, rfl⟩
  intro q; by_cases hq : q = 5 <;> simp [Sys.alive, hq, Sys.init]

end Ferryd.Lock
