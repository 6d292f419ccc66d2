import Verif.JobsModel
/-!
# JobsParams: writing and reading job parameters; a concrete codec
-/
namespace Ferryd.Jobs
open Ferryd.Db

/-! ## Decimal numbers -/

theorem digit_toNat {n : Nat} (h : n < 10) : (digit n).toNat = 48 + n := by
  match n, h with
  | 0, _ => rfl
  | 1, _ => rfl
  | 2, _ => rfl
  | 3, _ => rfl
  | 4, _ => rfl
  | 5, _ => rfl
  | 6, _ => rfl
  | 7, _ => rfl
  | 8, _ => rfl
  | 9, _ => rfl
  | n + 10, h => exact absurd h (by omega)

theorem digitVal_digit {n : Nat} (h : n < 10) : digitVal (digit n) = some n := by
  unfold digitVal
  rw [digit_toNat h, if_pos (by omega)]
  simp

theorem parseDigits_append (a b : Str) (acc : Nat) :
    parseDigits (a ++ b) acc = (parseDigits a acc).bind (parseDigits b) := by
  induction a generalizing acc with
  | nil => rfl
  | cons c a ih =>
    simp only [List.cons_append, parseDigits]
    cases digitVal c with
    | none => rfl
    | some d => exact ih _

theorem parseDigits_fmtNat (n : Nat) : parseDigits (fmtNat n) 0 = some n := by
  induction n using Nat.strongRecOn with
  | _ n ih =>
    unfold fmtNat
    split
    · rename_i h
      simp [parseDigits, digitVal_digit h]
    · rename_i h
      rw [parseDigits_append, ih (n / 10) (by omega)]
      have hd : n % 10 < 10 := Nat.mod_lt _ (by omega)
      simp only [Option.bind_some, parseDigits, digitVal_digit hd]
      congr 1
      omega

theorem fmtNat_head (n : Nat) : ∃ k t, k < 10 ∧ fmtNat n = digit k :: t := by
  induction n using Nat.strongRecOn with
  | _ n ih =>
    unfold fmtNat
    split
    · rename_i h; exact ⟨n, [], h, rfl⟩
    · rename_i h
      obtain ⟨k, t, hk, e⟩ := ih (n / 10) (by omega)
      exact ⟨k, t ++ [digit (n % 10)], hk, by rw [e]; rfl⟩

theorem digit_ne {k : Nat} (hk : k < 10) {c : Char} (hc : c.toNat < 48) : digit k ≠ c := by
  intro e
  have := digit_toNat hk
  rw [e] at this
  omega

/-- Numbers in the range of int32 are read back, all others refused. -/
theorem parseInt32_fmtInt (i : Int) : parseInt32 (fmtInt i) =
    if -(2 ^ 31 : Int) ≤ i ∧ i < 2 ^ 31 then some i else none := by
  unfold fmtInt
  by_cases h : i < 0
  · rw [if_pos h]
    obtain ⟨k, t, hk, e⟩ := fmtNat_head i.natAbs
    have hne : fmtNat i.natAbs ≠ [] := by rw [e]; simp
    have hs : splitSign ('-' :: fmtNat i.natAbs) = (fmtNat i.natAbs, true) := by simp [splitSign]
    unfold parseInt32
    rw [hs]
    simp only [if_neg hne, parseDigits_fmtNat, if_true]
    have hi : (i.natAbs : Int) = -i := by omega
    by_cases hr : i.natAbs ≤ 2 ^ 31
    · rw [if_pos hr, if_pos (by omega), hi]; simp
    · rw [if_neg hr, if_neg (by omega)]
  · rw [if_neg h]
    obtain ⟨k, t, hk, e⟩ := fmtNat_head i.natAbs
    have hd := parseDigits_fmtNat i.natAbs
    have hne : fmtNat i.natAbs ≠ [] := by rw [e]; simp
    have h1 : digit k ≠ '-' := digit_ne hk (by decide)
    have h2 : digit k ≠ '+' := digit_ne hk (by decide)
    have hs : splitSign (fmtNat i.natAbs) = (fmtNat i.natAbs, false) := by rw [e]; simp [splitSign, h1, h2]
    unfold parseInt32
    rw [hs]
    simp only [if_neg hne, hd, Bool.false_eq_true, if_false]
    have hi : (i.natAbs : Int) = i := by omega
    by_cases hr : i.natAbs < 2 ^ 31
    · rw [if_pos hr, if_pos (by omega), hi]
    · rw [if_neg hr, if_neg (by omega)]

theorem parseBool_fmtBool (b : Bool) : parseBool (fmtBool b) = some b := by
  cases b <;> decide

/-- The requests whose parameters the handlers accept. -/
def Request.Valid : Request → Prop
  | .bulkAdd _ ps => ps ≠ []
  | .copySource _ _ _ n _ => -(2 ^ 31 : Int) ≤ n ∧ n < 2 ^ 31
  | .removeSource _ _ n => -(2 ^ 31 : Int) ≤ n ∧ n < 2 ^ 31
  | .trimPackages _ n => -(2 ^ 31 : Int) ≤ n ∧ n < 2 ^ 31
  | .delta .. => False
  | .deltaIndex .. => False
  | _ => True

instance (r : Request) : Decidable r.Valid := by
  cases r <;> unfold Request.Valid <;> infer_instance

theorem newJobHandler_request (r : Request) :
    newJobHandler r.type r.params = if r.Valid then some r else none := by
  cases r with
  | bulkAdd repo pkgs =>
    cases pkgs with
    | nil => rfl
    | cons p ps => rfl
  | copySource repo target source release skipIndex =>
    show (match parseInt32 (fmtInt release) with
      | none => none
      | some rel =>
        match parseBool (fmtBool skipIndex) with
        | none => none
        | some si => some (Request.copySource repo target source rel si)) = _
    rw [parseInt32_fmtInt, parseBool_fmtBool]
    by_cases hv : -(2 ^ 31 : Int) ≤ release ∧ release < 2 ^ 31
    · rw [if_pos hv, if_pos (show Request.Valid (.copySource repo target source release skipIndex) from hv)]
    · rw [if_neg hv, if_neg (show ¬ Request.Valid (.copySource repo target source release skipIndex) from hv)]
  | cloneRepo repo newClone all => cases all <;> rfl
  | removeSource repo source release =>
    show (match parseInt32 (fmtInt release) with
      | none => none
      | some rel => some (Request.removeSource repo source rel)) = _
    rw [parseInt32_fmtInt]
    by_cases hv : -(2 ^ 31 : Int) ≤ release ∧ release < 2 ^ 31
    · rw [if_pos hv, if_pos (show Request.Valid (.removeSource repo source release) from hv)]
    · rw [if_neg hv, if_neg (show ¬ Request.Valid (.removeSource repo source release) from hv)]
  | trimPackages repo maxKeep =>
    show (match parseInt32 (fmtInt maxKeep) with
      | none => none
      | some rel => some (Request.trimPackages repo rel)) = _
    rw [parseInt32_fmtInt]
    by_cases hv : -(2 ^ 31 : Int) ≤ maxKeep ∧ maxKeep < 2 ^ 31
    · rw [if_pos hv, if_pos (show Request.Valid (.trimPackages repo maxKeep) from hv)]
    · rw [if_neg hv, if_neg (show ¬ Request.Valid (.trimPackages repo maxKeep) from hv)]
  | delta repo pkg => rfl
  | deltaIndex repo pkg => rfl
  | createRepo repo => rfl
  | deleteRepo repo => rfl
  | deltaRepo repo => rfl
  | indexRepo repo => rfl
  | pullRepo source target => rfl
  | transit path => rfl
  | trimObsolete repo => rfl

/-! ## A concrete codec

Only used to run examples: it shows that the laws assumed of gob are satisfiable. -/

def encS : Str → Str
  | [] => ['y']
  | c :: s => 'x' :: c :: encS s

def decS : Str → Option (Str × Str)
  | 'y' :: r => some ([], r)
  | 'x' :: c :: s =>
    match decS s with
    | none => none
    | some (t, r) => some (c :: t, r)
  | _ => none

theorem decS_encS (s r : Str) : decS (encS s ++ r) = some (s, r) := by
  induction s with
  | nil => rfl
  | cons c s ih =>
    show (match decS (encS s ++ r) with
      | none => none
      | some (t, r) => some (c :: t, r)) = _
    rw [ih]

def encN (n : Nat) : Str := encS (List.replicate n 'x')
def decN (s : Str) : Option (Nat × Str) := (decS s).map (fun x => (x.1.length, x.2))

theorem decN_encN (n : Nat) (r : Str) : decN (encN n ++ r) = some (n, r) := by
  simp [decN, encN, decS_encS]

def encL : List Str → Str
  | [] => ['y']
  | s :: l => 'x' :: (encS s ++ encL l)

def decL : Nat → Str → Option (List Str × Str)
  | 0, _ => none
  | _ + 1, 'y' :: r => some ([], r)
  | n + 1, 'x' :: s =>
    match decS s with
    | none => none
    | some (t, r) =>
      match decL n r with
      | none => none
      | some (l, r') => some (t :: l, r')
  | _, _ => none

theorem decL_encL (l : List Str) (r : Str) (n : Nat) (hn : l.length < n) : decL n (encL l ++ r) = some (l, r) := by
  induction l generalizing n with
  | nil => cases n with
    | zero => cases hn
    | succ n => rfl
  | cons s l ih =>
    cases n with
    | zero => cases hn
    | succ n =>
      have e : encL (s :: l) ++ r = 'x' :: (encS s ++ (encL l ++ r)) := by
        simp [encL]
      rw [e]
      show (match decS (encS s ++ (encL l ++ r)) with
        | none => none
        | some (t, r) =>
          match decL n r with
          | none => none
          | some (l, r') => some (t :: l, r')) = _
      rw [decS_encS]
      simp only
      rw [ih n (by simp at hn; omega)]

theorem encL_length (l : List Str) : l.length < (encL l).length := by
  induction l with
  | nil => decide
  | cons s l ih => simp only [encL, List.length_cons, List.length_append]; omega

def encB (b : Bool) : Str := if b then ['x'] else ['y']

def demoEncJ (j : JobEntry) : Str :=
  encB j.claimed ++ (encS j.type ++ (encN j.timing.queued ++ (encN j.timing.begin_ ++ (encN j.timing.end_ ++
    encL j.params))))

def demoDecJ (s : Str) : Option JobEntry :=
  match s with
  | c :: s => do
    let (ty, s) ← decS s
    let (a, s) ← decN s
    let (b, s) ← decN s
    let (e, s) ← decN s
    let (ps, _) ← decL s.length s
    some ⟨ty, c == 'x', ps, ⟨a, b, e⟩⟩
  | [] => none

def demoEncR (r : Record) : Str :=
  encB r.failed ++ (encS r.description ++ (encN r.timing.queued ++ (encN r.timing.begin_ ++ (encN r.timing.end_ ++
    encS r.error))))

def demoDecR (s : Str) : Option Record :=
  match s with
  | c :: s => do
    let (d, s) ← decS s
    let (a, s) ← decN s
    let (b, s) ← decN s
    let (e, s) ← decN s
    let (er, _) ← decS s
    some ⟨d, ⟨a, b, e⟩, c == 'x', er⟩
  | [] => none

/-- A codec. -/
def demoCodec : Codec where
  encJ := demoEncJ
  decJ := demoDecJ
  encR := demoEncR
  decR := demoDecR
  encI := encN
  decI s := (decN s).map Prod.fst
  lawJ j := by
    obtain ⟨ty, cl, ps, ⟨a, b, e⟩⟩ := j
    have h := decL_encL ps [] (encL ps).length (encL_length ps)
    rw [List.append_nil] at h
    cases cl <;> simp [demoEncJ, demoDecJ, encB, decS_encS, decN_encN, h]
  lawR r := by
    obtain ⟨d, ⟨a, b, e⟩, f, er⟩ := r
    have h := decS_encS er []
    rw [List.append_nil] at h
    cases f <;> simp [demoEncR, demoDecR, encB, decS_encS, decN_encN, h]
  lawI n := by
    have h := decN_encN n []
    rw [List.append_nil] at h
    simp [h]

end Ferryd.Jobs
