import Verif.Json
import Verif.PropsEscape
/-!
# PropsJson: what is sent arrives (C158)
-/
namespace Ferryd.Json
open Ferryd.Escape (decodeRune encodeRune runeError decode_encode encodeRune_char char_valid)
open Ferryd.Escape.Spec (utf8)

/-! ## Specification -/

namespace Spec

/-- What becomes of a string: every byte that does not begin a character is replaced by the replacement character. -/
inductive Becomes : Bytes → Bytes → Prop
  | nil : Becomes [] []
  | char (c : Char) {s t : Bytes} : Becomes s t → Becomes (String.utf8EncodeChar c ++ s) (String.utf8EncodeChar c ++ t)
  | bad (b : UInt8) {s t : Bytes} : (∀ c : Char, ¬ String.utf8EncodeChar c <+: b :: s) → Becomes s t →
      Becomes (b :: s) ([0xEF, 0xBF, 0xBD] ++ t)

/-- UTF-8. -/
def Utf8 (s : Bytes) : Prop := ∃ cs : List Char, s = cs.flatMap String.utf8EncodeChar
/-- An `int` of Go. -/
def IsInt64 (i : Int) : Prop := -2 ^ 63 ≤ i ∧ i < 2 ^ 63

/-- Two lists of strings, element by element. -/
inductive AllBecome : List Bytes → List Bytes → Prop
  | nil : AllBecome [] []
  | cons {s t : Bytes} {l m : List Bytes} : Becomes s t → AllBecome l m → AllBecome (s :: l) (t :: m)
/-- Two listings of a pool. -/
inductive ItemsBecome : List (Bytes × Int) → List (Bytes × Int) → Prop
  | nil : ItemsBecome [] []
  | cons {s t : Bytes} {i : Int} {l m : List (Bytes × Int)} : Becomes s t → ItemsBecome l m →
      ItemsBecome ((s, i) :: l) ((t, i) :: m)

/-- The strings of a request. -/
def strings : Request → List Bytes
  | .importPackages p => p
  | .clone n _ => [n]
  | .pull s => [s]
  | .removeSource s _ => [s]
  | .copySource t s _ _ => [t, s]
  | .trimPackages _ => []
/-- The numbers of a request. -/
def numbers : Request → List Int
  | .removeSource _ r => [r]
  | .copySource _ _ r _ => [r]
  | .trimPackages n => [n]
  | _ => []
/-- The request that differs in its strings only. -/
inductive RequestBecomes : Request → Request → Prop
  | importPackages {l m : List Bytes} : AllBecome l m → RequestBecomes (.importPackages l) (.importPackages m)
  | clone {n m : Bytes} (a : Bool) : Becomes n m → RequestBecomes (.clone n a) (.clone m a)
  | pull {s t : Bytes} : Becomes s t → RequestBecomes (.pull s) (.pull t)
  | removeSource {s t : Bytes} (r : Int) : Becomes s t → RequestBecomes (.removeSource s r) (.removeSource t r)
  | copySource {a b s t : Bytes} (r : Int) (k : Bool) : Becomes a b → Becomes s t →
      RequestBecomes (.copySource a s r k) (.copySource b t r k)
  | trimPackages (n : Int) : RequestBecomes (.trimPackages n) (.trimPackages n)

/-- The strings of an answer. -/
def answerStrings : Answer → List Bytes
  | .response _ t => [t]
  | .repos l => l
  | .pool l => l.map Prod.fst
/-- The numbers of an answer. -/
def answerNumbers : Answer → List Int
  | .pool l => l.map Prod.snd
  | _ => []
/-- The answer that differs in its strings only. -/
inductive AnswerBecomes : Answer → Answer → Prop
  | response {s t : Bytes} (e : Bool) : Becomes s t → AnswerBecomes (.response e s) (.response e t)
  | repos {l m : List Bytes} : AllBecome l m → AnswerBecomes (.repos l) (.repos m)
  | pool {l m : List (Bytes × Int)} : ItemsBecome l m → AnswerBecomes (.pool l) (.pool m)

end Spec
open Spec

/-! ## Decoding -/

theorem ofNat_eq {n : Nat} {b : UInt8} (h : n = b.toNat) : UInt8.ofNat n = b := by subst h; simp

theorem charOf {r : Nat} (h : r < 0xD800 ∨ (0xDFFF < r ∧ r < 0x110000)) : ∃ c : Char, c.toNat = r :=
  ⟨Char.ofNatAux r (by unfold Nat.isValidChar; exact h), rfl⟩

/-- The first rune is an error, or a character's bytes stand at the front. -/
theorem decode_cases (b : UInt8) (s : Bytes) :
    decodeRune (b :: s) = (runeError, 1) ∨ ∃ c : Char, String.utf8EncodeChar c <+: b :: s := by
  have key : ∀ (r : Nat) (l t : Bytes), (r < 0xD800 ∨ (0xDFFF < r ∧ r < 0x110000)) → encodeRune r = l → b :: s = l ++ t →
      ∃ c : Char, String.utf8EncodeChar c <+: b :: s := by
    intro r l t hr he hs
    obtain ⟨c, hc⟩ := charOf hr
    exact ⟨c, by rw [← encodeRune_char, hc, he]; exact ⟨t, hs.symm⟩⟩
  have low : ∀ {x m k y : Nat}, 0x80 ≤ k → (if x = m then k else 0x80) ≤ y → 0x80 ≤ y ∧ (x = m → k ≤ y) := by
    intro x m k y hk h; split at h <;> omega
  have high : ∀ {x m k y : Nat}, k ≤ 0xBF → y ≤ (if x = m then k else 0xBF) → y ≤ 0xBF ∧ (x = m → y ≤ k) := by
    intro x m k y hk h; split at h <;> omega
  have hb := b.toNat_lt
  unfold decodeRune
  dsimp only
  split
  · rename_i h
    refine .inr (key b.toNat [b] s (by omega) ?_ rfl)
    unfold encodeRune
    rw [if_pos h, ofNat_eq rfl]
  · split
    · exact .inl rfl
    · split
      · rename_i h1 h2 h3
        split
        · rename_i b1 t
          split
          · rename_i h
            refine .inr (key ((b.toNat - 0xC0) * 64 + (b1.toNat - 0x80)) [b, b1] t (by omega) ?_ rfl)
            unfold encodeRune
            rw [if_neg (by omega), if_pos (by omega), ofNat_eq (b := b) (by omega), ofNat_eq (b := b1) (by omega)]
          · exact .inl rfl
        · exact .inl rfl
      · split
        · rename_i h1 h2 h3 h4
          split
          · rename_i b1 b2 t
            by_cases h : (if b.toNat = 0xE0 then 0xA0 else 0x80) ≤ b1.toNat ∧ b1.toNat ≤ (if b.toNat = 0xED then 0x9F else 0xBF) ∧
                0x80 ≤ b2.toNat ∧ b2.toNat ≤ 0xBF
            · have f1 := low (by decide) h.1
              have f2 := high (by decide) h.2.1
              have f3 := h.2.2
              refine .inr (key ((b.toNat - 0xE0) * 4096 + (b1.toNat - 0x80) * 64 + (b2.toNat - 0x80)) [b, b1, b2] t ?_ ?_ rfl)
              · omega
              · unfold encodeRune
                rw [if_neg (by omega), if_neg (by omega),
                  if_neg (by omega), if_pos (by omega),
                  ofNat_eq (b := b) (by omega),
                  ofNat_eq (b := b1) (by omega),
                  ofNat_eq (b := b2) (by omega)]
            · rw [if_neg h]; exact .inl rfl
          · exact .inl rfl
        · split
          · rename_i h1 h2 h3 h4 h5
            split
            · rename_i b1 b2 b3 t
              by_cases h : (if b.toNat = 0xF0 then 0x90 else 0x80) ≤ b1.toNat ∧ b1.toNat ≤ (if b.toNat = 0xF4 then 0x8F else 0xBF) ∧
                  0x80 ≤ b2.toNat ∧ b2.toNat ≤ 0xBF ∧ 0x80 ≤ b3.toNat ∧ b3.toNat ≤ 0xBF
              · have f1 := low (by decide) h.1
                have f2 := high (by decide) h.2.1
                have f3 := h.2.2
                refine .inr (key ((b.toNat - 0xF0) * 262144 + (b1.toNat - 0x80) * 4096 + (b2.toNat - 0x80) * 64 + (b3.toNat - 0x80))
                  [b, b1, b2, b3] t ?_ ?_ rfl)
                · omega
                · unfold encodeRune
                  rw [if_neg (by omega), if_neg (by omega),
                    if_neg (by omega), if_neg (by omega),
                    ofNat_eq (b := b) (by omega),
                    ofNat_eq (b := b1) (by omega),
                    ofNat_eq (b := b2) (by omega),
                    ofNat_eq (b := b3) (by omega)]
              · rw [if_neg h]; exact .inl rfl
            · exact .inl rfl
          · exact .inl rfl

/-! ## A string -/

theorem esc_skip (l b : Bytes) : esc l.length (l ++ b) = esc 0 b := by
  induction l with
  | nil => rfl
  | cons x l ih => simpa [esc] using ih

theorem hexVal_digit : ∀ d : Fin 16, hexVal (hexDigit d.val) = some d.val := by decide

theorem hexVal_lt {d : Nat} (h : d < 16) : hexVal (hexDigit d) = some d := hexVal_digit ⟨d, h⟩

theorem readStr_u {n r : Nat} {a b c d : UInt8} {w x y z : Nat} {X : Bytes} (h1 : hexVal a = some w) (h2 : hexVal b = some x)
    (h3 : hexVal c = some y) (h4 : hexVal d = some z) (hr : r = ((w * 16 + x) * 16 + y) * 16 + z) (hs : r < 0xD800 ∨ 0xDFFF < r) :
    readStr (n + 1) (92 :: 117 :: a :: b :: c :: d :: X) = (readStr n X).map fun q => (encodeRune r ++ q.1, q.2) := by
  have e : readU (a :: b :: c :: d :: X) = some (r, X) := by simp [readU, h1, h2, h3, h4, hr]
  conv => lhs; unfold readStr
  rw [if_neg (by decide), if_pos rfl]
  dsimp only
  rw [if_neg (by decide), if_neg (by decide), if_neg (by decide), if_neg (by decide), if_neg (by decide), if_neg (by decide),
    if_pos rfl, e]
  dsimp only
  rw [if_neg (by omega)]

theorem small_cases (b : UInt8) (h : b < 32) : ∃ k : Fin 32, b = UInt8.ofNat k.val :=
  ⟨⟨b.toNat, by simpa [UInt8.lt_iff_toNat_lt] using h⟩, by simp⟩

theorem readStr_ascii {b : UInt8} (hb : b < 128) (n : Nat) (X : Bytes) :
    readStr (n + 1) (escAscii b ++ X) = (readStr n X).map fun q => (b :: q.1, q.2) := by
  have hn : b.toNat < 128 := by simpa [UInt8.lt_iff_toNat_lt] using hb
  unfold escAscii
  split
  · rename_i h
    rcases h with rfl | rfl
    · simp [readStr]
    · simp [readStr]
  · rename_i h1
    split
    · rename_i h; subst h; simp [readStr]
    · split
      · rename_i h; subst h; simp [readStr]
      · split
        · rename_i h; subst h; simp [readStr]
        · split
          · have e := readStr_u (n := n) (r := b.toNat) (X := X) (hexVal_digit 0) (hexVal_digit 0)
              (hexVal_lt (d := b.toNat / 16) (by omega)) (hexVal_lt (d := b.toNat % 16) (by omega)) (by simp; omega) (by omega)
            have e2 : encodeRune b.toNat = [b] := by unfold encodeRune; rw [if_pos hn, ofNat_eq rfl]
            rw [e2] at e
            exact e
          · rename_i h2
            have h3 : ¬ b = 34 := fun x => h1 (.inl x)
            have h4 : ¬ b = 92 := fun x => h1 (.inr x)
            have h5 : ¬ b < 32 := fun x => h2 (.inl x)
            conv => lhs; simp only [List.cons_append, List.nil_append]; unfold readStr
            rw [if_neg h3, if_neg h4, if_neg h5, if_pos hb]

theorem enc_head (c : Char) : ∃ b l, String.utf8EncodeChar c = b :: l ∧
    ((c.toNat < 128 ∧ l = [] ∧ b = UInt8.ofNat c.toNat) ∨ (128 ≤ c.toNat ∧ ¬ b < 128 ∧ 1 ≤ l.length)) := by
  have hv := char_valid c
  rw [← encodeRune_char]
  unfold encodeRune
  split
  · exact ⟨_, _, rfl, .inl ⟨by assumption, rfl, rfl⟩⟩
  · split
    · refine ⟨_, _, rfl, .inr ⟨by omega, ?_, by simp⟩⟩
      rw [UInt8.lt_iff_toNat_lt]; simp; omega
    · split
      · omega
      · split
        · refine ⟨_, _, rfl, .inr ⟨by omega, ?_, by simp⟩⟩
          rw [UInt8.lt_iff_toNat_lt]; simp; omega
        · refine ⟨_, _, rfl, .inr ⟨by omega, ?_, by simp⟩⟩
          rw [UInt8.lt_iff_toNat_lt]; simp; omega

/-- What is written for a character, and what is read from it. -/
theorem esc_char (c : Char) (s : Bytes) : ∃ E, esc 0 (String.utf8EncodeChar c ++ s) = E ++ esc 0 s ∧ 1 ≤ E.length ∧
    ∀ n X, readStr (n + 1) (E ++ X) = (readStr n X).map fun q => (String.utf8EncodeChar c ++ q.1, q.2) := by
  have hd := decode_encode c
  obtain ⟨b, l, he, h⟩ := enc_head c
  have hdx := hd s
  rw [he] at hd hdx ⊢
  rcases h with ⟨h1, rfl, rfl⟩ | ⟨h1, h2, h3⟩
  · have hb : UInt8.ofNat c.toNat < 128 := by rw [UInt8.lt_iff_toNat_lt]; simp; omega
    refine ⟨escAscii (UInt8.ofNat c.toNat), ?_, ?_, fun n X => readStr_ascii hb n X⟩
    · simp [esc, hb]
    · unfold escAscii
      repeat' split
      all_goals simp
  · simp only [List.cons_append, List.length_cons] at hdx hd ⊢
    have hl : (c.toNat, l.length + 1).2 - 1 = l.length := by simp
    have e1 : esc 0 (b :: (l ++ s)) = if c.toNat = 0x2028 ∨ c.toNat = 0x2029 then
        [92, 117, 50, 48, 50, hexDigit (c.toNat % 16)] ++ esc 0 s else (b :: l) ++ esc 0 s := by
      conv => lhs; unfold esc
      rw [if_neg h2, hdx]
      dsimp only
      rw [if_neg (by omega), show l.length + 1 - 1 = l.length by omega, esc_skip]
      rw [show (b :: (l ++ s)).take (l.length + 1) = b :: l by simp]
    rw [e1]
    split
    · rename_i h
      refine ⟨_, rfl, by simp, fun n X => ?_⟩
      have e := readStr_u (n := n) (r := c.toNat) (X := X) (hexVal_digit 2) (hexVal_digit 0) (hexVal_digit 2)
        (hexVal_lt (d := c.toNat % 16) (by omega)) (by simp; omega) (by omega)
      rw [encodeRune_char, he] at e
      exact e
    · refine ⟨_, rfl, by simp, fun n X => ?_⟩
      have hX := hd X
      have e34 : ¬ b = 34 := by rintro rfl; exact h2 (by decide)
      have e92 : ¬ b = 92 := by rintro rfl; exact h2 (by decide)
      have e32 : ¬ b < 32 := by
        rw [UInt8.lt_iff_toNat_lt] at h2 ⊢; simp at h2 ⊢; omega
      simp only [List.cons_append]
      conv => lhs; unfold readStr
      rw [if_neg e34, if_neg e92, if_neg e32, if_neg h2, hX]
      dsimp only
      rw [encodeRune_char, he, show (b :: (l ++ X)).drop (l.length + 1) = X by simp]
      rfl

/-- A string between quotes is read as what became of it. -/
theorem readStr_esc {s t : Bytes} (h : Becomes s t) (rest : Bytes) :
    ∀ n, (esc 0 s).length < n → readStr n (esc 0 s ++ 34 :: rest) = some (t, rest) := by
  induction h with
  | nil => intro n hn; cases n with
    | zero => omega
    | succ n => simp [esc, readStr]
  | @char c s t _ ih =>
    intro n hn
    obtain ⟨E, e1, hl, e2⟩ := esc_char c s
    rw [e1, List.length_append] at hn
    cases n with
    | zero => omega
    | succ n => rw [e1, List.append_assoc, e2, ih n (by omega)]; rfl
  | @bad b s t hc _ ih =>
    intro n hn
    cases n with
    | zero => omega
    | succ n =>
      have hd := (decode_cases b s).resolve_right (fun ⟨c, h⟩ => hc c h)
      have hb : ¬ b < 128 := by
        intro hb
        have hn : b.toNat < 128 := by simpa [UInt8.lt_iff_toNat_lt] using hb
        obtain ⟨c, hcn⟩ := charOf (r := b.toNat) (by omega)
        refine hc c ?_
        rw [← encodeRune_char, hcn]
        unfold encodeRune; rw [if_pos hn, ofNat_eq rfl]
        exact ⟨s, rfl⟩
      have e : esc 0 (b :: s) = [92, 117, 102, 102, 102, 100] ++ esc 0 s := by
        conv => lhs; unfold esc
        rw [if_neg hb, hd]
        simp
      rw [e, List.append_assoc]
      have e2 := readStr_u (n := n) (r := 0xFFFD) (X := esc 0 s ++ 34 :: rest) (hexVal_digit 15) (hexVal_digit 15) (hexVal_digit 15)
        (hexVal_digit 13) rfl (by omega)
      refine (show _ = _ from e2).trans ?_
      rw [e, List.length_append] at hn
      rw [ih n (by simp at hn; omega)]
      rfl

theorem becomes_exists (s : Bytes) : ∃ t, Becomes s t := by
  generalize hn : s.length = n
  induction n using Nat.strongRecOn generalizing s with
  | ind n ih =>
    cases s with
    | nil => exact ⟨_, .nil⟩
    | cons b s =>
      by_cases h : ∃ c : Char, String.utf8EncodeChar c <+: b :: s
      · obtain ⟨c, u, hu⟩ := h
        have hl : 1 ≤ (String.utf8EncodeChar c).length := by
          obtain ⟨b, l, he, _⟩ := enc_head c; rw [he]; simp
        have hlen := congrArg List.length hu
        rw [List.length_append] at hlen
        obtain ⟨t, ht⟩ := ih u.length (by omega) u rfl
        exact ⟨_, hu ▸ Becomes.char c ht⟩
      · obtain ⟨t, ht⟩ := ih s.length (by rw [← hn]; simp) s rfl
        exact ⟨_, .bad b (fun c hc => h ⟨c, hc⟩) ht⟩

theorem becomes_unique {s t u : Bytes} (h : Becomes s t) (h' : Becomes s u) : t = u := by
  have a := readStr_esc h [] ((esc 0 s).length + 1) (by omega)
  have b := readStr_esc h' [] ((esc 0 s).length + 1) (by omega)
  rw [a] at b
  exact congrArg Prod.fst (Option.some.inj b)

theorem becomes_utf8 (cs : List Char) : Becomes (utf8 cs) (utf8 cs) := by
  induction cs with
  | nil => exact .nil
  | cons c cs ih => exact .char c ih

theorem becomes_valid {s t : Bytes} (h : Becomes s t) : ∃ cs, t = utf8 cs := by
  induction h with
  | nil => exact ⟨[], rfl⟩
  | char c _ ih => obtain ⟨cs, rfl⟩ := ih; exact ⟨c :: cs, rfl⟩
  | bad b _ _ ih =>
    obtain ⟨cs, rfl⟩ := ih
    exact ⟨'\uFFFD' :: cs, by
      rw [show utf8 ('\uFFFD' :: cs) = String.utf8EncodeChar '\uFFFD' ++ utf8 cs from rfl, show String.utf8EncodeChar '\uFFFD' = [0xEF, 0xBF, 0xBD] by decide]⟩

/-! ## A number -/

/-- No digit follows. -/
def End (s : Bytes) : Prop := ∀ b t, s = b :: t → ¬ (48 ≤ b ∧ b ≤ 57)

theorem readDigits_end {s : Bytes} (h : End s) (n : Nat) : readDigits n s = (n, s) := by
  cases s with
  | nil => rfl
  | cons b t => simp [readDigits, h b t rfl]

theorem digit_ok {d : Nat} (h : d < 10) : 48 ≤ UInt8.ofNat (48 + d) ∧ UInt8.ofNat (48 + d) ≤ 57 ∧ (UInt8.ofNat (48 + d)).toNat - 48 = d := by
  refine ⟨?_, ?_, ?_⟩
  · rw [UInt8.le_iff_toNat_le]; simp; omega
  · rw [UInt8.le_iff_toNat_le]; simp; omega
  · simp; omega

theorem readDigits_digit {d : Nat} (h : d < 10) (a : Nat) (X : Bytes) :
    readDigits a (UInt8.ofNat (48 + d) :: X) = readDigits (a * 10 + d) X := by
  obtain ⟨h1, h2, h3⟩ := digit_ok h
  conv => lhs; unfold readDigits
  rw [if_pos ⟨h1, h2⟩, h3]

theorem decGo_read (k : Nat) : ∀ (n : Nat) (acc : Bytes), 1 ≤ n → n < 10 ^ k → ∃ b ds, decGo k n acc = b :: (ds ++ acc) ∧
    49 ≤ b ∧ b ≤ 57 ∧ ∀ X, readDigits (b.toNat - 48) (ds ++ X) = readDigits n X := by
  induction k with
  | zero => intro n acc h1 h2; simp at h2; omega
  | succ k ih =>
    intro n acc h1 h2
    by_cases h : n < 10
    · refine ⟨UInt8.ofNat (48 + n), [], by simp [decGo, h], ?_, (digit_ok h).2.1, fun X => ?_⟩
      · rw [UInt8.le_iff_toNat_le]; simp; omega
      · rw [(digit_ok h).2.2]; rfl
    · obtain ⟨b, ds, e, hb1, hb2, hr⟩ := ih (n / 10) (UInt8.ofNat (48 + n % 10) :: acc) (by omega)
        (by rw [Nat.pow_succ] at h2; omega)
      refine ⟨b, ds ++ [UInt8.ofNat (48 + n % 10)], ?_, hb1, hb2, fun X => ?_⟩
      · rw [show decGo (k + 1) n acc = if n < 10 then UInt8.ofNat (48 + n) :: acc else decGo k (n / 10)
          (UInt8.ofNat (48 + n % 10) :: acc) from rfl, if_neg h, e, List.append_assoc]; rfl
      rw [List.append_assoc, hr, List.singleton_append, readDigits_digit (by omega), show n / 10 * 10 + n % 10 = n by omega]

theorem readNat_dec {n : Nat} (h : n < 10 ^ 19) {rest : Bytes} (hr : End rest) :
    (∃ b t, decGo 19 n [] = b :: t ∧ 48 ≤ b ∧ b ≤ 57) ∧ readNat (decGo 19 n [] ++ rest) = some (n, rest) := by
  by_cases h0 : n = 0
  · subst h0; exact ⟨⟨48, [], by decide, by decide, by decide⟩, rfl⟩
  · obtain ⟨b, ds, e, h1, h2, h3⟩ := decGo_read 19 n [] (by omega) h
    refine ⟨⟨b, _, e, ?_, h2⟩, ?_⟩
    · rw [UInt8.le_iff_toNat_le] at h1 ⊢; simp at h1 ⊢; omega
    · rw [e, List.append_nil, List.cons_append]
      have h48 : ¬ b = 48 := by rintro rfl; exact absurd h1 (by decide)
      simp only [readNat, if_neg h48, if_pos (And.intro h1 h2), h3, readDigits_end hr]

theorem readInt_print {i : Int} (h : i.natAbs < 10 ^ 19) {rest : Bytes} (hr : End rest) :
    (∃ b t, printInt i = b :: t ∧ (b = 45 ∨ (48 ≤ b ∧ b ≤ 57))) ∧ readInt (printInt i ++ rest) = some (i, rest) := by
  obtain ⟨⟨b, t, e, h1, h2⟩, e2⟩ := readNat_dec h hr
  unfold printInt
  split
  · refine ⟨⟨45, _, rfl, .inl rfl⟩, ?_⟩
    simp only [List.cons_append, readInt, if_pos, e2, Option.map_some]
    congr 2; omega
  · refine ⟨⟨b, t, e, .inr ⟨h1, h2⟩⟩, ?_⟩
    rw [e, List.cons_append] at e2 ⊢
    have h45 : ¬ b = 45 := by rintro rfl; exact absurd h1 (by decide)
    simp only [readInt, if_neg h45, e2, Option.map_some]
    congr 2; omega

/-! ## A value -/

mutual
/-- What becomes of a value. -/
inductive VB : Val → Val → Prop
  | null : VB .null .null
  | bool (b : Bool) : VB (.bool b) (.bool b)
  | int (i : Int) : i.natAbs < 10 ^ 19 → VB (.int i) (.int i)
  | str {s t : Bytes} : Becomes s t → VB (.str s) (.str t)
  | arr {vs ws : Vals} : VsB vs ws → VB (.arr vs) (.arr ws)
  | obj {ms ns : Members} : MsB ms ns → VB (.obj ms) (.obj ns)
/-- What becomes of values. -/
inductive VsB : Vals → Vals → Prop
  | nil : VsB .nil .nil
  | cons {v w : Val} {vs ws : Vals} : VB v w → VsB vs ws → VsB (.cons v vs) (.cons w ws)
/-- What becomes of members. -/
inductive MsB : Members → Members → Prop
  | nil : MsB .nil .nil
  | cons {n m : Bytes} {v w : Val} {ms ns : Members} : Becomes n m → VB v w → MsB ms ns → MsB (.cons n v ms) (.cons m w ns)
end

/-- Not a space and not a closing bracket. -/
def Head (b : UInt8) : Prop := ¬ (b = 32 ∨ b = 9 ∨ b = 10 ∨ b = 13) ∧ b ≠ 93 ∧ b ≠ 125

theorem ws_head {b : UInt8} {t : Bytes} (h : Head b) : ws (b :: t) = b :: t := by
  conv => lhs; unfold ws
  rw [if_neg h.1]

theorem print_head {v w : Val} (h : VB v w) : ∃ b t, v.print = b :: t ∧ Head b := by
  cases v with
  | null => exact ⟨110, _, rfl, by unfold Head; decide⟩
  | bool b => cases b
              · exact ⟨102, _, rfl, by unfold Head; decide⟩
              · exact ⟨116, _, rfl, by unfold Head; decide⟩
  | int i =>
    cases h with
    | int i hi =>
      obtain ⟨⟨b, t, e, hb⟩, -⟩ := readInt_print (rest := []) hi (fun _ _ x => nomatch x)
      refine ⟨b, t, e, ?_⟩
      unfold Head
      rcases hb with rfl | ⟨h1, h2⟩
      · decide
      · refine ⟨?_, ?_, ?_⟩
        · rintro (rfl | rfl | rfl | rfl) <;> revert h1 <;> decide
        · rintro rfl; revert h2; decide
        · rintro rfl; revert h2; decide
  | str s => exact ⟨34, _, rfl, by unfold Head; decide⟩
  | arr vs => cases vs <;> exact ⟨91, _, rfl, by unfold Head; decide⟩
  | obj ms => cases ms <;> exact ⟨123, _, rfl, by unfold Head; decide⟩

theorem readVal_int {b : UInt8} {t : Bytes} (h : b = 45 ∨ (48 ≤ b ∧ b ≤ 57)) (n : Nat) :
    readVal (n + 1) (b :: t) = (readInt (b :: t)).map fun x => (.int x.1, x.2) := by
  have hw : ws (b :: t) = b :: t := by
    conv => lhs; unfold ws
    rw [if_neg]
    rcases h with rfl | ⟨h1, h2⟩
    · decide
    · rintro (rfl | rfl | rfl | rfl) <;> revert h1 <;> decide
  have hne : ∀ c : UInt8, 57 < c → b ≠ c := by
    rintro c hc rfl
    rcases h with rfl | ⟨h1, h2⟩
    · exact absurd hc (by decide)
    · rw [UInt8.lt_iff_toNat_lt] at hc; rw [UInt8.le_iff_toNat_le] at h2; omega
  have h34 : b ≠ 34 := by
    rintro rfl
    rcases h with h | ⟨h1, h2⟩
    · exact absurd h (by decide)
    · exact absurd h1 (by decide)
  unfold readVal
  rw [hw]
  split
  · rename_i heq; exact absurd (List.cons.inj heq).1 (hne _ (by decide))
  · rename_i heq; exact absurd (List.cons.inj heq).1 (hne _ (by decide))
  · rename_i heq; exact absurd (List.cons.inj heq).1 (hne _ (by decide))
  · rename_i heq; exact absurd (List.cons.inj heq).1 h34
  · rename_i heq; exact absurd (List.cons.inj heq).1 (hne _ (by decide))
  · rename_i heq; exact absurd (List.cons.inj heq).1 (hne _ (by decide))
  · rfl

theorem end_vals (vs : Vals) (rest : Bytes) : End (vs.print ++ rest) := by
  intro b t h
  cases vs <;> simp [Vals.print] at h <;> obtain ⟨rfl, -⟩ := h <;> decide

theorem end_members (ms : Members) (rest : Bytes) : End (ms.print ++ rest) := by
  intro b t h
  cases ms <;> simp [Members.print] at h <;> obtain ⟨rfl, -⟩ := h <;> decide

theorem readStr_quote {s t : Bytes} (h : Becomes s t) (rest : Bytes) :
    readStr (esc 0 s ++ 34 :: rest).length (esc 0 s ++ 34 :: rest) = some (t, rest) :=
  readStr_esc h rest _ (by rw [List.length_append, List.length_cons]; omega)

theorem quote_append (s rest : Bytes) : quote s ++ rest = 34 :: (esc 0 s ++ 34 :: rest) := by simp [quote]

mutual
theorem readVal_print {v w : Val} (h : VB v w) (n : Nat) (hn : 2 * v.print.length ≤ n) (rest : Bytes) (hr : End rest) :
    readVal n (v.print ++ rest) = some (w, rest) := by
  obtain ⟨b0, t0, e0, -⟩ := print_head h
  cases n with
  | zero => rw [e0] at hn; simp at hn
  | succ n =>
    match v, w, h with
    | _, _, .null => simp [Val.print, readVal, ws]
    | _, _, .bool true => simp [Val.print, readVal, ws]
    | _, _, .bool false => simp [Val.print, readVal, ws]
    | _, _, .int i hi =>
      obtain ⟨⟨b, t, e, hb⟩, e2⟩ := readInt_print hi hr
      simp only [Val.print]
      rw [e, List.cons_append] at e2 ⊢
      rw [readVal_int hb, e2]; rfl
    | _, _, .str (s := s) hs =>
      simp only [Val.print]
      rw [quote_append]
      have e : readVal (n + 1) (34 :: (esc 0 s ++ 34 :: rest)) =
        (readStr (esc 0 s ++ 34 :: rest).length (esc 0 s ++ 34 :: rest)).map fun x => (.str x.1, x.2) := rfl
      rw [e, readStr_quote hs]; rfl
    | _, _, .arr .nil => rfl
    | _, _, .arr (.cons (v := v) (vs := vs) hv hvs) =>
      obtain ⟨b, t, e, hb⟩ := print_head hv
      simp only [Val.print, List.length_cons, List.length_append] at hn
      have e1 := readVal_print hv n (by omega) (vs.print ++ rest) (end_vals vs rest)
      have e2 := readVals_print hvs n (by omega) rest
      simp only [Val.print, List.cons_append, List.append_assoc]
      have e3 : readVal (n + 1) (91 :: (v.print ++ (vs.print ++ rest))) =
          match ws (v.print ++ (vs.print ++ rest)) with
          | 93 :: s => some (.arr .nil, s)
          | s => (readVal n s).bind fun x => (readVals n x.2).map fun y => (.arr (.cons x.1 y.1), y.2) := rfl
      have e4 : ws (v.print ++ (vs.print ++ rest)) = v.print ++ (vs.print ++ rest) := by
        rw [e, List.cons_append, ws_head hb]
      rw [e3, e4]
      split
      · rename_i heq; rw [e] at heq; exact absurd (List.cons.inj heq).1 hb.2.1
      · rw [e1]; simp only [Option.bind_some]; rw [e2]; rfl
    | _, _, .obj .nil => rfl
    | _, _, .obj (.cons (n := nm) (v := v) (ms := ms) hnm hv hms) =>
      simp only [Val.print, List.length_cons, List.length_append] at hn
      have e1 := readMember_print hnm hv n (by omega) (ms.print ++ rest) (end_members ms rest)
      have e2 := readMembers_print hms n (by omega) rest
      simp only [Val.print, List.cons_append, List.append_assoc]
      rw [quote_append] at e1 ⊢
      have e3 : readVal (n + 1) (123 :: 34 :: (esc 0 nm ++ 34 :: 58 :: (v.print ++ (ms.print ++ rest)))) =
          (readMember n (34 :: (esc 0 nm ++ 34 :: 58 :: (v.print ++ (ms.print ++ rest))))).bind
            fun x => (readMembers n x.2).map fun y => (.obj (.cons x.1.1 x.1.2 y.1), y.2) := rfl
      rw [e3, e1]; simp only [Option.bind_some]; rw [e2]; rfl
termination_by n
theorem readVals_print {vs ws : Vals} (h : VsB vs ws) (n : Nat) (hn : 2 * vs.print.length ≤ n) (rest : Bytes) :
    readVals n (vs.print ++ rest) = some (ws, rest) := by
  match vs, ws, h with
  | _, _, .nil =>
    cases n with
    | zero => simp [Vals.print] at hn
    | succ n => rfl
  | _, _, .cons (v := v) (vs := vs) hv hvs =>
    simp only [Vals.print, List.length_cons, List.length_append] at hn
    cases n with
    | zero => omega
    | succ n =>
      have e1 := readVal_print hv n (by omega) (vs.print ++ rest) (end_vals vs rest)
      have e2 := readVals_print hvs n (by omega) rest
      simp only [Vals.print, List.cons_append, List.append_assoc]
      have e3 : readVals (n + 1) (44 :: (v.print ++ (vs.print ++ rest))) =
        (readVal n (v.print ++ (vs.print ++ rest))).bind fun x => (readVals n x.2).map fun y => (.cons x.1 y.1, y.2) := rfl
      rw [e3, e1]; simp only [Option.bind_some]; rw [e2]; rfl
termination_by n
theorem readMember_print {nm nm' : Bytes} {v w : Val} (hnm : Becomes nm nm') (h : VB v w) (n : Nat)
    (hn : 2 * v.print.length + 2 ≤ n) (rest : Bytes) (hr : End rest) :
    readMember n (quote nm ++ 58 :: (v.print ++ rest)) = some ((nm', w), rest) := by
  cases n with
  | zero => omega
  | succ n =>
    have e1 := readVal_print h n (by omega) rest hr
    rw [quote_append]
    have e3 : readMember (n + 1) (34 :: (esc 0 nm ++ 34 :: 58 :: (v.print ++ rest))) =
      (readStr (esc 0 nm ++ 34 :: 58 :: (v.print ++ rest)).length (esc 0 nm ++ 34 :: 58 :: (v.print ++ rest))).bind fun x =>
        match Json.ws x.2 with
        | 58 :: t => (readVal n t).map fun y => ((x.1, y.1), y.2)
        | _ => none := rfl
    rw [e3, readStr_quote hnm]
    simp only [Option.bind_some]
    rw [show Json.ws (58 :: (v.print ++ rest)) = 58 :: (v.print ++ rest) from rfl]
    simp only [e1]; rfl
termination_by n
theorem readMembers_print {ms ns : Members} (h : MsB ms ns) (n : Nat) (hn : 2 * ms.print.length ≤ n) (rest : Bytes) :
    readMembers n (ms.print ++ rest) = some (ns, rest) := by
  match ms, ns, h with
  | _, _, .nil =>
    cases n with
    | zero => simp [Members.print] at hn
    | succ n => rfl
  | _, _, .cons (n := nm) (v := v) (ms := ms) hnm hv hms =>
    simp only [Members.print, List.length_cons, List.length_append] at hn
    cases n with
    | zero => omega
    | succ n =>
      have e1 := readMember_print hnm hv n (by omega) (ms.print ++ rest) (end_members ms rest)
      have e2 := readMembers_print hms n (by omega) rest
      simp only [Members.print, List.cons_append, List.append_assoc]
      have e3 : readMembers (n + 1) (44 :: (quote nm ++ 58 :: (v.print ++ (ms.print ++ rest)))) =
        (readMember n (quote nm ++ 58 :: (v.print ++ (ms.print ++ rest)))).bind fun x =>
          (readMembers n x.2).map fun y => (.cons x.1.1 x.1.2 y.1, y.2) := rfl
      rw [e3, e1]; simp only [Option.bind_some]; rw [e2]; rfl
termination_by n
end

theorem parse_print {v w : Val} (h : VB v w) : parse (printLine v) = some w := by
  unfold parse printLine
  rw [readVal_print h _ (by rw [List.length_append]; omega) [10] (by intro b t hb; cases hb; decide)]
  rfl

/-! ## The structures -/

theorem becomes_ascii {l : Bytes} (h : ∀ b ∈ l, b < 128) : Becomes l l := by
  induction l with
  | nil => exact .nil
  | cons b l ih =>
    have hb : b.toNat < 128 := by simpa [UInt8.lt_iff_toNat_lt] using h b (by simp)
    obtain ⟨c, hc⟩ := charOf (r := b.toNat) (by omega)
    have e : String.utf8EncodeChar c = [b] := by
      rw [← encodeRune_char, hc]; unfold encodeRune; rw [if_pos hb, ofNat_eq rfl]
    have := Becomes.char c (ih fun x hx => h x (List.mem_cons_of_mem _ hx))
    rwa [e] at this

theorem becomes_self {s : Bytes} : Becomes s s ↔ Utf8 s :=
  ⟨becomes_valid, fun ⟨cs, e⟩ => e ▸ becomes_utf8 cs⟩

theorem all_exists (l : List Bytes) : ∃ m, AllBecome l m := by
  induction l with
  | nil => exact ⟨_, .nil⟩
  | cons s l ih =>
    obtain ⟨m, hm⟩ := ih
    obtain ⟨t, ht⟩ := becomes_exists s
    exact ⟨_, .cons ht hm⟩

theorem all_self {l : List Bytes} : AllBecome l l ↔ ∀ s ∈ l, Utf8 s := by
  constructor
  · intro h
    generalize hm : l = m at h
    have h' : AllBecome l m := by rw [hm]; exact h
    clear h
    induction h' with
    | nil => simp
    | cons a _ ih =>
      obtain ⟨rfl, rfl⟩ := List.cons.inj hm
      intro s hs
      rcases List.mem_cons.1 hs with rfl | hs
      · exact becomes_self.1 a
      · exact ih rfl s hs
  · intro h
    induction l with
    | nil => exact .nil
    | cons s l ih => exact .cons (becomes_self.2 (h s (by simp))) (ih fun x hx => h x (List.mem_cons_of_mem _ hx))

theorem items_exists (l : List (Bytes × Int)) : ∃ m, ItemsBecome l m := by
  induction l with
  | nil => exact ⟨_, .nil⟩
  | cons s l ih =>
    obtain ⟨m, hm⟩ := ih
    obtain ⟨t, ht⟩ := becomes_exists s.1
    exact ⟨_, .cons (i := s.2) ht hm⟩

theorem items_self {l : List (Bytes × Int)} : ItemsBecome l l ↔ ∀ s ∈ l.map Prod.fst, Utf8 s := by
  constructor
  · intro h
    generalize hm : l = m at h
    have h' : ItemsBecome l m := by rw [hm]; exact h
    clear h
    induction h' with
    | nil => simp
    | cons a _ ih =>
      obtain ⟨h1, h2⟩ := List.cons.inj hm
      cases h1; subst h2
      intro s hs
      rcases List.mem_cons.1 hs with rfl | hs
      · exact becomes_self.1 a
      · exact ih rfl s hs
  · intro h
    induction l with
    | nil => exact .nil
    | cons s l ih => exact .cons (becomes_self.2 (h s.1 (by simp))) (ih fun x hx => h x (List.mem_cons_of_mem _ hx))

theorem vsb_arrOf {l m : List Bytes} (h : AllBecome l m) : VsB (arrOf l) (arrOf m) := by
  induction h with
  | nil => exact .nil
  | cons a _ ih => exact .cons (.str a) ih

theorem strings_arrOf (l : List Bytes) : strings (arrOf l) = some l := by
  induction l with
  | nil => rfl
  | cons s l ih => simp [arrOf, strings, fieldStr, ih]

theorem natAbs_lt {i : Int} (h : IsInt64 i) : i.natAbs < 10 ^ 19 := by unfold IsInt64 at h; omega

theorem vb_withResponse {e : Bool} {s t : Bytes} {ms ns : Members} (h : Becomes s t) (hm : MsB ms ns) :
    VB (withResponse e s ms) (withResponse e t ns) :=
  .obj (.cons (becomes_ascii (by decide)) (.bool _) (.cons (becomes_ascii (by decide)) (.str h) hm))

theorem request_vb {r r' : Request} (hi : ∀ i ∈ numbers r, IsInt64 i) (h : RequestBecomes r r') : VB r.val r'.val := by
  cases h with
  | importPackages a => exact vb_withResponse .nil (.cons (becomes_ascii (by decide)) (.arr (vsb_arrOf a)) .nil)
  | clone b a =>
    exact vb_withResponse .nil (.cons (becomes_ascii (by decide)) (.str a) (.cons (becomes_ascii (by decide)) (.bool _) .nil))
  | pull a => exact vb_withResponse .nil (.cons (becomes_ascii (by decide)) (.str a) .nil)
  | removeSource r a =>
    exact vb_withResponse .nil (.cons (becomes_ascii (by decide)) (.str a)
      (.cons (becomes_ascii (by decide)) (.int _ (natAbs_lt (hi r (by simp [numbers])))) .nil))
  | copySource r k a b =>
    exact vb_withResponse .nil (.cons (becomes_ascii (by decide)) (.str a) (.cons (becomes_ascii (by decide)) (.str b)
      (.cons (becomes_ascii (by decide)) (.int _ (natAbs_lt (hi r (by simp [numbers]))))
        (.cons (becomes_ascii (by decide)) (.bool _) .nil))))
  | trimPackages n =>
    exact vb_withResponse .nil (.cons (becomes_ascii (by decide)) (.int _ (natAbs_lt (hi n (by simp [numbers])))) .nil)

theorem fieldInt_ok {i : Int} (h : IsInt64 i) : fieldInt (some (.int i)) = some i := by
  unfold IsInt64 at h
  simp only [fieldInt]; rw [if_pos h]

theorem kind_becomes {r r' : Request} (h : RequestBecomes r r') : r'.kind = r.kind := by cases h <;> rfl

theorem numbers_becomes {r r' : Request} (h : RequestBecomes r r') : numbers r' = numbers r := by cases h <;> rfl

theorem receive_val {r : Request} (hi : ∀ i ∈ numbers r, IsInt64 i) {s : Bytes} (h : parse s = some r.val) :
    receive r.kind s = some r := by
  unfold receive
  rw [h]
  cases r with
  | importPackages l =>
    show (some (Val.arr (arrOf l)) |> fieldStrs).map Request.importPackages = _
    simp [fieldStrs, strings_arrOf]
  | clone n a => rfl
  | pull s => rfl
  | removeSource s i =>
    show (fieldInt (some (.int i))).map (fun r => Request.removeSource s r) = _
    rw [fieldInt_ok (hi i (by simp [numbers]))]; rfl
  | copySource t s i k =>
    show ((fieldInt (some (.int i))).bind fun r => some (Request.copySource t s r k)) = _
    rw [fieldInt_ok (hi i (by simp [numbers]))]; rfl
  | trimPackages i =>
    show (fieldInt (some (.int i))).map Request.trimPackages = _
    rw [fieldInt_ok (hi i (by simp [numbers]))]; rfl

theorem request_becomes_exists (r : Request) : ∃ r', RequestBecomes r r' := by
  cases r with
  | importPackages l => obtain ⟨m, h⟩ := all_exists l; exact ⟨_, .importPackages h⟩
  | clone n a => obtain ⟨m, h⟩ := becomes_exists n; exact ⟨_, .clone a h⟩
  | pull s => obtain ⟨m, h⟩ := becomes_exists s; exact ⟨_, .pull h⟩
  | removeSource s i => obtain ⟨m, h⟩ := becomes_exists s; exact ⟨_, .removeSource i h⟩
  | copySource t s i k =>
    obtain ⟨m, h⟩ := becomes_exists t; obtain ⟨m', h'⟩ := becomes_exists s; exact ⟨_, .copySource i k h h'⟩
  | trimPackages i => exact ⟨_, .trimPackages i⟩

theorem request_self {r : Request} : RequestBecomes r r ↔ ∀ s ∈ Spec.strings r, Utf8 s := by
  constructor
  · intro h
    cases r with
    | importPackages l => cases h; exact all_self.1 (by assumption)
    | clone n a => cases h; simp only [Spec.strings, List.mem_singleton, forall_eq]; exact becomes_self.1 (by assumption)
    | pull s => cases h; simp only [Spec.strings, List.mem_singleton, forall_eq]; exact becomes_self.1 (by assumption)
    | removeSource s i => cases h; simp only [Spec.strings, List.mem_singleton, forall_eq]; exact becomes_self.1 (by assumption)
    | copySource t s i k =>
      cases h with
      | copySource _ _ a b =>
        intro x hx
        rcases List.mem_cons.1 hx with rfl | hx
        · exact becomes_self.1 a
        · cases List.mem_singleton.1 hx; exact becomes_self.1 b
    | trimPackages i => intro s hs; cases hs
  · intro h
    cases r with
    | importPackages l => exact .importPackages (all_self.2 h)
    | clone n a => exact .clone a (becomes_self.2 (h n (by simp [Spec.strings])))
    | pull s => exact .pull (becomes_self.2 (h s (by simp [Spec.strings])))
    | removeSource s i => exact .removeSource i (becomes_self.2 (h s (by simp [Spec.strings])))
    | copySource t s i k =>
      exact .copySource i k (becomes_self.2 (h t (by simp [Spec.strings]))) (becomes_self.2 (h s (by simp [Spec.strings])))
    | trimPackages i => exact .trimPackages i

/-! ## Answers -/

theorem vsb_items {l m : List (Bytes × Int)} (hi : ∀ i ∈ l.map Prod.snd, IsInt64 i) (h : ItemsBecome l m) :
    VsB (itemsOf l) (itemsOf m) := by
  induction h with
  | nil => exact .nil
  | @cons s t i l m a _ ih =>
    exact .cons (.obj (.cons (becomes_ascii (by decide)) (.str a) (.cons (becomes_ascii (by decide))
      (.int _ (natAbs_lt (hi i (by simp)))) .nil))) (ih fun x hx => hi x (by simp at hx ⊢; exact .inr hx))

theorem vb_orNull {vs ws : Vals} (h : VsB vs ws) : VB (orNull vs) (orNull ws) := by
  cases h with
  | nil => exact .null
  | cons a b => exact .arr (.cons a b)

theorem answer_vb {a a' : Answer} (hi : ∀ i ∈ answerNumbers a, IsInt64 i) (h : AnswerBecomes a a') : VB a.val a'.val := by
  cases h with
  | response e h => exact vb_withResponse h .nil
  | repos h => exact vb_withResponse .nil (.cons (becomes_ascii (by decide)) (vb_orNull (vsb_arrOf h)) .nil)
  | pool h => exact vb_withResponse .nil (.cons (becomes_ascii (by decide)) (vb_orNull (vsb_items hi h)) .nil)

theorem readItems_of {l : List (Bytes × Int)} (hi : ∀ i ∈ l.map Prod.snd, IsInt64 i) : readItems (itemsOf l) = some l := by
  induction l with
  | nil => rfl
  | cons x l ih =>
    have e : readItem (.obj (.cons nId (.str x.1) (.cons nRefCount (.int x.2) .nil))) = some x := by
      show (fieldInt (some (.int x.2))).map (fun n => (x.1, n)) = _
      rw [fieldInt_ok (hi x.2 (by simp))]; rfl
    simp only [itemsOf, readItems]
    rw [e, ih fun i h => hi i (by simp at h ⊢; exact .inr h)]
    rfl

theorem readAnswer_val {a : Answer} (hi : ∀ i ∈ answerNumbers a, IsInt64 i) {s : Bytes} (h : parse s = some a.val) :
    readAnswer a.kind s = some a := by
  unfold readAnswer
  rw [h]
  cases a with
  | response e t => rfl
  | repos l =>
    cases l with
    | nil => rfl
    | cons x l =>
      show (fieldStrs (some (.arr (arrOf (x :: l))))).map Answer.repos = _
      simp only [fieldStrs, strings_arrOf]; rfl
  | pool l =>
    cases l with
    | nil => rfl
    | cons x l =>
      show (readItems (itemsOf (x :: l))).map Answer.pool = _
      rw [readItems_of hi]; rfl

theorem answer_becomes_exists (a : Answer) : ∃ a', AnswerBecomes a a' := by
  cases a with
  | response e t => obtain ⟨m, h⟩ := becomes_exists t; exact ⟨_, .response e h⟩
  | repos l => obtain ⟨m, h⟩ := all_exists l; exact ⟨_, .repos h⟩
  | pool l => obtain ⟨m, h⟩ := items_exists l; exact ⟨_, .pool h⟩

theorem items_numbers {l m : List (Bytes × Int)} (h : ItemsBecome l m) : m.map Prod.snd = l.map Prod.snd := by
  induction h with
  | nil => rfl
  | cons _ _ ih => simp [ih]

theorem answer_numbers {a a' : Answer} (h : AnswerBecomes a a') : answerNumbers a' = answerNumbers a := by
  cases h with
  | response _ _ => rfl
  | repos _ => rfl
  | pool h => exact items_numbers h

theorem answer_kind {a a' : Answer} (h : AnswerBecomes a a') : a'.kind = a.kind := by cases h <;> rfl

theorem answer_self {a : Answer} : AnswerBecomes a a ↔ ∀ s ∈ answerStrings a, Utf8 s := by
  constructor
  · intro h
    cases a with
    | response e t => cases h; simp only [answerStrings, List.mem_singleton, forall_eq]; exact becomes_self.1 (by assumption)
    | repos l => cases h; exact all_self.1 (by assumption)
    | pool l => cases h; exact items_self.1 (by assumption)
  · intro h
    cases a with
    | response e t => exact .response e (becomes_self.2 (h t (by simp [answerStrings])))
    | repos l => exact .repos (all_self.2 h)
    | pool l => exact .pool (items_self.2 h)

/-! ## C158 -/

/-- C158, as a user would state it: the daemon gets the request that was sent. -/
def C158_statement : Prop := ∀ r : Request, (∀ i ∈ numbers r, IsInt64 i) → receive r.kind r.write = some r

/-- C158: every request is understood, and the daemon gets it with each byte that begins no character replaced by U+FFFD; nothing else is
lost, added or changed, and nothing else is read.  Missing: such a string is not the string that was sent. -/
theorem C158_repaired_partial (r r' : Request) (hi : ∀ i ∈ numbers r, IsInt64 i) :
    receive r.kind r.write = some r' ↔ RequestBecomes r r' := by
  have fwd : ∀ q, RequestBecomes r q → receive r.kind r.write = some q := fun q h => by
    rw [← kind_becomes h]
    exact receive_val (by rw [numbers_becomes h]; exact hi) (parse_print (request_vb hi h))
  refine ⟨fun h => ?_, fwd r'⟩
  obtain ⟨q, hq⟩ := request_becomes_exists r
  rw [fwd q hq] at h
  cases h
  exact hq

/-- C158: exactly the requests whose strings are UTF-8 arrive as they were sent.  Missing: names of files and repositories are any bytes. -/
theorem C158_request_partial (r : Request) (hi : ∀ i ∈ numbers r, IsInt64 i) :
    receive r.kind r.write = some r ↔ ∀ s ∈ Spec.strings r, Utf8 s :=
  (C158_repaired_partial r r hi).trans request_self

/-- C158: what a client gets of an answer (`C158_repaired_partial` for the other direction). -/
theorem C158_answer_repaired_partial (a a' : Answer) (hi : ∀ i ∈ answerNumbers a, IsInt64 i) :
    readAnswer a.kind a.write = some a' ↔ AnswerBecomes a a' := by
  have fwd : ∀ q, AnswerBecomes a q → readAnswer a.kind a.write = some q := fun q h => by
    rw [← answer_kind h]
    exact readAnswer_val (by rw [answer_numbers h]; exact hi) (parse_print (answer_vb hi h))
  refine ⟨fun h => ?_, fwd a'⟩
  obtain ⟨q, hq⟩ := answer_becomes_exists a
  rw [fwd q hq] at h
  cases h
  exact hq

/-- C158: exactly the answers whose strings are UTF-8 are read as they were given: the error's text, the repositories, the pool's
identifiers and their counts. -/
theorem C158_answer_partial (a : Answer) (hi : ∀ i ∈ answerNumbers a, IsInt64 i) :
    readAnswer a.kind a.write = some a ↔ ∀ s ∈ answerStrings a, Utf8 s :=
  (C158_answer_repaired_partial a a hi).trans answer_self

/-- A file of a name in Latin-1, `/a\xE9`. (No code: an example.) -/
def latin1 : Bytes := [47, 97, 0xE9]

theorem latin1_not : ¬ Utf8 latin1 := by
  intro h
  have h := (C158_request_partial (.importPackages [latin1]) (by simp [numbers])).2 (by simpa [Spec.strings] using h)
  revert h
  decide +kernel

/-- C158 is false of this code: ferryctl asks for the import of `/a\xE9`, which exists, and the daemon is told to import `/a\uFFFD`; it
cannot tell. (libferry/main.go:118-125) -/
theorem C158_violated : ¬ C158_statement := fun h =>
  latin1_not ((C158_request_partial (.importPackages [latin1]) (by simp [numbers])).1 (h _ (by simp [numbers])) latin1
    (by simp [Spec.strings]))

/-- What the daemon is told. -/
theorem C158_violated_shown :
    receive .importPackages (Request.importPackages [latin1]).write = some (.importPackages [[47, 97, 0xEF, 0xBF, 0xBD]]) := by
  decide +kernel

/-- A request of every kind of character: quotes, control characters, `<&>`, two to four bytes, U+2028, a negative release. -/
def sample : Request := .copySource (utf8 ['"', '\\', '\n', '\x01', '<', '&', '>', 'é', '\u2028', '😀']) (utf8 ['n', 'a', 'n', 'o']) (-1) true

example : (∀ i ∈ numbers sample, IsInt64 i) ∧ receive sample.kind sample.write = some sample := by
  have hi : ∀ i ∈ numbers sample, IsInt64 i := by simp [numbers, sample, IsInt64]
  refine ⟨hi, (C158_request_partial sample hi).2 ?_⟩
  intro s hs
  rcases List.mem_cons.1 hs with rfl | hs
  · exact ⟨_, rfl⟩
  · cases List.mem_singleton.1 hs; exact ⟨_, rfl⟩

example : receive sample.kind sample.write = some sample := by decide +kernel

example : readAnswer .pool (Answer.pool [([97], 2), ([98], -9223372036854775808)]).write =
    some (.pool [([97], 2), ([98], -9223372036854775808)]) := by decide +kernel

example : readAnswer .repos (Answer.repos []).write = some (.repos []) := by decide +kernel

end Ferryd.Json
