import Verif.Base
/-!
# Db: the bucket layer of `src/libdb/leveldb.go` over a flat LevelDB

LevelDB itself (an ordered map of byte strings with atomic batch writes) is trusted and modelled by the
sorted association list `KV Str`; values are the encoded bytes of the stored objects.  I/O errors of
LevelDB are not modelled.
-/
namespace Ferryd.Db

/-- The flat content of the LevelDB database: real key ↦ encoded value. leveldb.go:38 `db *leveldb.DB`. -/
abbrev Raw := KV Str

/-- `|rootBucket|` (leveldb.go:56). -/
def rootName : Str := ['|', 'r', 'o', 'o', 't', 'B', 'u', 'c', 'k', 'e', 't', '|']
/-- `rootBucketPrefix` (leveldb.go:29). -/
def rootTag : Str := ['|', 'r', 'o', 'o', 't', 'B', 'u', 'c', 'k', 'e', 't', '|', '-']
/-- `bucketPrefix` (leveldb.go:30). -/
def bktTag : Str := ['|', 'b', 'u', 'c', 'k', 'e', 't', '|']

/-- levelDbHandle (leveldb.go:34-41): the fields that matter; `prefixBytes` is
`util.BytesPrefix(prefix)`, i.e. the range of all keys starting with `prefix`, see `range`. -/
structure Handle where
  pre : Str
  keyPre : Str
deriving DecidableEq, Repr

/-- newLevelDBHandle (leveldb.go:49-62; libdb/main.go:111-114 `Open`): the root handle. -/
def root : Handle := ⟨rootName, rootTag⟩

/-- Bucket (leveldb.go:149-165).  `l.prefix != nil` always holds: every handle comes from
`newLevelDBHandle` or `Bucket`. -/
def Handle.bucket (h : Handle) (id : Str) : Handle :=
  let p := bktTag ++ '-' :: (h.pre ++ '-' :: id)
  ⟨p, p ++ ['-']⟩

/-- getRealKey (leveldb.go:72-74). -/
def Handle.realKey (h : Handle) (id : Str) : Str := h.pre ++ '-' :: id

/-- The check of PutObject and DeleteObject (leveldb.go:90, 108). -/
def reserved (id : Str) : Bool := bktTag.isPrefixOf id || rootTag.isPrefixOf id

/-- `bytes.TrimPrefix`. Standard library; called at leveldb.go:140, 209. -/
def trimPrefix (p s : Str) : Str := if p.isPrefixOf s then s.drop p.length else s

/-- Errors of the database layer: `leveldb.ErrNotFound`, the reserved key error, an undecodable value and
any error returned by the caller's function. leveldb.go:78, 91, 109, 120-126, 188-192. -/
inductive DErr | notFound | reservedKey | decode | user (code : Nat)
deriving DecidableEq, Repr

/-- One entry of a LevelDB batch. leveldb.go:100, 112 (`batch.Put`, `batch.Delete`). -/
inductive BOp | put (k v : Str) | del (k : Str)
deriving DecidableEq, Repr
/-- The real key a write concerns (leveldb.go:100, 103, 112, 115). -/
def BOp.key : BOp → Str
  | .put k _ => k
  | .del k => k

/-- The effect of one write on the flat database. leveldb.go:103, 115. -/
def BOp.apply (raw : Raw) : BOp → Raw
  | .put k v => raw.put k v
  | .del k => raw.del k

/-- `leveldb.DB.Write(batch)`: the writes of the batch in order (as one atomic step). leveldb.go:193. -/
def applyAll (raw : Raw) (b : List BOp) : Raw := b.foldl BOp.apply raw

/-- The iterator over `prefixBytes` (leveldb.go:131, 203): all pairs whose key starts with `p`, in key
order. -/
def rangeOf (raw : Raw) (p : Str) : List (Str × Str) := raw.filter (fun kv => p.isPrefixOf kv.1)

/-- A function using a database handle: any finite program of reads, iterations and writes, ending in a
result or an error.  Reads and iterations go to the committed database (leveldb.go:77, 85, 131: `l.db`). -/
inductive Prog (α : Type) : Type
  | ret (a : α)
  | fail (e : DErr)
  | get (k : Str) (cont : Option Str → Prog α)
  | range (p : Str) (cont : List (Str × Str) → Prog α)
  | write (op : BOp) (cont : Prog α)

namespace Prog
/-- Sequencing of calls on a handle (Go statements in order, an error returned at once). -/
def bind {α β} : Prog α → (α → Prog β) → Prog β
  | ret a, f => f a
  | fail e, _ => fail e
  | get k c, f => get k (fun v => (c v).bind f)
  | range p c, f => range p (fun v => (c v).bind f)
  | write op c, f => write op (c.bind f)

instance : Monad Prog where
  pure := ret
  bind := bind
end Prog

/-- Running a function inside `Update` (leveldb.go:178-193): writes are collected in the batch, reads see
the committed database. -/
def runTx {α} (raw : Raw) : Prog α → List BOp → Except DErr α × List BOp
  | .ret a, b => (.ok a, b)
  | .fail e, b => (.error e, b)
  | .get k c, b => runTx raw (c (raw.get k)) b
  | .range p c, b => runTx raw (c (rangeOf raw p)) b
  | .write op c, b => runTx raw c (b ++ [op])

/-- Result of an operation on the database: result, final content, and the durable contents passed through
(what a restart after a crash at that point finds), oldest first.
Models no line of its own: the effect of the calls in leveldb.go:76-193. -/
structure DOut (α : Type) where
  res : Except DErr α
  raw : Raw
  tr : List Raw

/-- Operations on the database: transactions and direct calls in sequence.
The Go statements of store.go and of the core that call the database in order. -/
def DM (α : Type) := Raw → DOut α

namespace DM
/-- A computation without database calls. -/
def pure' {α} (a : α) : DM α := fun r => ⟨.ok a, r, []⟩
/-- Go statements in order; an error is returned at once. -/
def bind' {α β} (m : DM α) (f : α → DM β) : DM β := fun r =>
  match (m r).res with
  | .ok a => ⟨(f a (m r).raw).res, (f a (m r).raw).raw, (m r).tr ++ (f a (m r).raw).tr⟩
  | .error e => ⟨.error e, (m r).raw, (m r).tr⟩
instance : Monad DM where
  pure := pure'
  bind := bind'
end DM

/-- Update (leveldb.go:178-193): on an error of the function the batch is dropped and the error returned,
otherwise the whole batch is written at once. -/
def update {α} (p : Prog α) : DM α := fun raw =>
  match runTx raw p [] with
  | (.ok a, b) => ⟨.ok a, applyAll raw b, [applyAll raw b]⟩
  | (.error e, _) => ⟨.error e, raw, []⟩

/-- Calls on a handle without a batch (`l.batch == nil`): each write goes to the database at once
(leveldb.go:103, 115). -/
def direct {α} : Prog α → DM α
  | .ret a => fun raw => ⟨.ok a, raw, []⟩
  | .fail e => fun raw => ⟨.error e, raw, []⟩
  | .get k c => fun raw => direct (c (raw.get k)) raw
  | .range p c => fun raw => direct (c (rangeOf raw p)) raw
  | .write op c => fun raw =>
    let o := direct c (op.apply raw)
    ⟨o.res, o.raw, op.apply raw :: o.tr⟩

/-! ## The calls of a handle -/

/-- GetObject (leveldb.go:76-83), decoding left to the caller: `none` when there is no such key. -/
def Handle.getObject (h : Handle) (id : Str) : Prog (Option Str) := .get (h.realKey id) .ret

/-- HasObject (leveldb.go:85-87). -/
def Handle.hasObject (h : Handle) (id : Str) : Prog Bool := .get (h.realKey id) (fun v => .ret v.isSome)

/-- PutObject (leveldb.go:89-104). -/
def Handle.putObject (h : Handle) (id v : Str) : Prog Unit :=
  if reserved id then .fail .reservedKey else .write (.put (h.realKey id) v) (.ret ())

/-- DeleteObject (leveldb.go:106-116). -/
def Handle.deleteObject (h : Handle) (id : Str) : Prog Unit :=
  if reserved id then .fail .reservedKey else .write (.del (h.realKey id)) (.ret ())

/-- What ForEach passes to its function (leveldb.go:128-147): each pair in the range of `prefix` (without
the trailing dash of `keyPrefix`), with `keyPrefix` trimmed from the key. -/
def Handle.visits (h : Handle) (raw : Raw) : List (Str × Str) :=
  (rangeOf raw h.pre).map (fun kv => (trimPrefix h.keyPre kv.1, kv.2))

/-- ForEach (leveldb.go:128-147): the visited pairs, handed to the caller (which folds its function over
them and stops at its first error). -/
def Handle.forEach {α} (h : Handle) (f : List (Str × Str) → Prog α) : Prog α :=
  .range h.pre (fun l => f (l.map (fun kv => (trimPrefix h.keyPre kv.1, kv.2))))

/-- `binary.BigEndian.PutUint64`, generalised to `n` bytes; one character per byte.
Used at leveldb.go:217-218, store.go:251-252. -/
def be : Nat → Nat → Str
  | 0, _ => []
  | n + 1, x => Char.ofNat (x / 256 ^ n % 256) :: be n x

/-- `binary.BigEndian.PutUint64`. leveldb.go:217-218, store.go:251-252. -/
def be8 (x : Nat) : Str := be 8 x

/-- `binary.BigEndian.Uint64`. leveldb.go:214. -/
def unbe (s : Str) : Nat := s.foldl (fun a c => a * 256 + c.toNat) 0

/-- NextSequence (leveldb.go:197-220): one more (in 64 bits) than the last key in the range if that has
eight bytes, else 0. -/
def Handle.nextSequence (h : Handle) : Prog Str :=
  .range h.pre (fun l =>
    match l.getLast? with
    | none => .ret (be8 0)
    | some (k, _) =>
      if (trimPrefix h.keyPre k).length ≠ 8 then .ret (be8 0)
      else .ret (be8 ((unbe (trimPrefix h.keyPre k) + 1) % 2 ^ 64)))

/-! ## Prefixes -/

theorem isPrefixOf_append (p s : Str) : p.isPrefixOf (p ++ s) = true := by
  rw [List.isPrefixOf_iff_prefix]; exact List.prefix_append _ _

/-- Two keyspaces do not overlap: nothing written through `q` is in the iteration range of `p`.
(No code: a notion of the statements and proofs.) -/
def Apart (p q : Handle) : Prop :=
  ¬ p.pre <+: q.pre ++ ['-'] ∧ ¬ q.pre ++ ['-'] <+: p.pre

instance (p q : Handle) : Decidable (Apart p q) := by unfold Apart; exact inferInstance

theorem realKey_eq (h : Handle) (id : Str) : h.realKey id = (h.pre ++ ['-']) ++ id := by
  simp [Handle.realKey]

theorem prefix_comparable {a b c : Str} (h1 : a <+: c) (h2 : b <+: c) : a <+: b ∨ b <+: a := by
  by_cases hl : a.length ≤ b.length
  · exact .inl (List.prefix_of_prefix_length_le h1 h2 hl)
  · exact .inr (List.prefix_of_prefix_length_le h2 h1 (by omega))

theorem Apart.not_range {p q : Handle} (h : Apart p q) (id : Str) :
    p.pre.isPrefixOf (q.realKey id) = false := by
  rw [Bool.eq_false_iff]
  intro hp
  rw [List.isPrefixOf_iff_prefix] at hp
  rcases prefix_comparable hp (by rw [realKey_eq]; exact List.prefix_append _ _) with h1 | h1
  · exact h.1 h1
  · exact h.2 h1

theorem Apart.realKey_ne {p q : Handle} (h : Apart p q) (a b : Str) : p.realKey a ≠ q.realKey b := by
  intro e
  have := h.not_range b
  rw [← e, Handle.realKey, isPrefixOf_append] at this
  cases this

theorem realKey_inj {h : Handle} {a b : Str} : h.realKey a = h.realKey b ↔ a = b := by
  simp [Handle.realKey]

/-- Well-formed handles: keyPrefix is prefix plus a dash (leveldb.go:56-57, 158-159). -/
def Handle.OK (h : Handle) : Prop := h.keyPre = h.pre ++ ['-']

theorem root_OK : root.OK := by unfold Handle.OK; decide
theorem bucket_OK (h : Handle) (id : Str) : (h.bucket id).OK := rfl

theorem trim_realKey {h : Handle} (hk : h.OK) (id : Str) : trimPrefix h.keyPre (h.realKey id) = id := by
  rw [hk, realKey_eq, trimPrefix, if_pos (isPrefixOf_append _ _), List.drop_left]

/-! ## The view of one bucket -/

/-- Every key of the database in the range of `h` was written through `h`.
(No code: a notion of the statements and proofs.) -/
def Clean (h : Handle) (raw : Raw) : Prop :=
  ∀ k ∈ raw.keys, h.pre.isPrefixOf k = true → ∃ id, k = h.realKey id

/-- The content of bucket `h`: the pairs stored under its keys. (No code: a notion of the statements and proofs.) -/
def Handle.view (h : Handle) (raw : Raw) : KV Str :=
  (raw.filter (fun kv => (h.pre ++ ['-']).isPrefixOf kv.1)).map
    (fun kv => (kv.1.drop (h.pre.length + 1), kv.2))

@[simp] theorem strLe_append (p a b : Str) : strLe (p ++ a) (p ++ b) = strLe a b := by
  induction p with
  | nil => rfl
  | cons c p ih => simp [strLe, ih]

theorem mem_view {h : Handle} {raw : Raw} {id v : Str} :
    (id, v) ∈ h.view raw ↔ (h.realKey id, v) ∈ raw := by
  simp only [Handle.view, List.mem_map, List.mem_filter, List.isPrefixOf_iff_prefix, Prod.mk.injEq]
  constructor
  · rintro ⟨⟨k, w⟩, ⟨hm, t, rfl⟩, rfl, rfl⟩
    simp only [realKey_eq]
    rw [show h.pre.length + 1 = (h.pre ++ ['-']).length by simp, List.drop_left]
    exact hm
  · intro hm
    refine ⟨_, ⟨hm, ⟨id, (realKey_eq h id).symm⟩⟩, ?_, rfl⟩
    rw [realKey_eq, show h.pre.length + 1 = (h.pre ++ ['-']).length by simp, List.drop_left]

theorem view_keys (h : Handle) (raw : Raw) :
    (h.view raw).keys = (raw.keys.filter (fun k => (h.pre ++ ['-']).isPrefixOf k)).map
      (fun k => k.drop (h.pre.length + 1)) := by
  simp [Handle.view, KV.keys, List.filter_map, List.map_map, Function.comp_def]

theorem view_WF {h : Handle} {raw : Raw} (hw : raw.WF) : (h.view raw).WF := by
  unfold KV.WF at *
  rw [view_keys, List.pairwise_map]
  refine List.Pairwise.imp_of_mem ?_ (hw.filter _)
  intro a b ha hb hab
  simp only [List.mem_filter, List.isPrefixOf_iff_prefix] at ha hb
  obtain ⟨-, ta, rfl⟩ := ha
  obtain ⟨-, tb, rfl⟩ := hb
  rw [show h.pre.length + 1 = (h.pre ++ ['-']).length by simp, List.drop_left, List.drop_left]
  rw [strLe_append] at hab
  exact ⟨hab.1, fun e => hab.2 (by rw [e])⟩

theorem view_get {h : Handle} {raw : Raw} (hw : raw.WF) (id : Str) :
    (h.view raw).get id = raw.get (h.realKey id) := by
  cases hg : raw.get (h.realKey id) with
  | some v => exact KV.get_of_mem (view_WF hw) (mem_view.2 (KV.mem_of_get hg))
  | none =>
    cases hv : (h.view raw).get id with
    | none => rfl
    | some v =>
      rw [KV.get_of_mem hw (mem_view.1 (KV.mem_of_get hv))] at hg
      cases hg

theorem view_put {h : Handle} {raw : Raw} (hw : raw.WF) (id v : Str) :
    h.view (raw.put (h.realKey id) v) = (h.view raw).put id v := by
  refine KV.ext (view_WF (hw.put _ _)) ((view_WF hw).put _ _) fun j => ?_
  rw [view_get (hw.put _ _), KV.get_put, KV.get_put, view_get hw]
  simp only [realKey_inj]

theorem view_del {h : Handle} {raw : Raw} (hw : raw.WF) (id : Str) :
    h.view (raw.del (h.realKey id)) = (h.view raw).del id := by
  refine KV.ext (view_WF (hw.del _)) ((view_WF hw).del _) fun j => ?_
  rw [view_get (hw.del _), KV.get_del, KV.get_del, view_get hw]
  simp only [realKey_inj]

theorem view_put_other {h : Handle} {raw : Raw} (hw : raw.WF) {k : Str} (v : Str)
    (hk : ∀ id, h.realKey id ≠ k) : h.view (raw.put k v) = h.view raw := by
  refine KV.ext (view_WF (hw.put _ _)) (view_WF hw) fun j => ?_
  rw [view_get (hw.put _ _), view_get hw, KV.get_put, if_neg (hk j)]

theorem view_del_other {h : Handle} {raw : Raw} (hw : raw.WF) {k : Str}
    (hk : ∀ id, h.realKey id ≠ k) : h.view (raw.del k) = h.view raw := by
  refine KV.ext (view_WF (hw.del _)) (view_WF hw) fun j => ?_
  rw [view_get (hw.del _), view_get hw, KV.get_del, if_neg (hk j)]

/-- Where the range of a bucket holds only its own keys, ForEach visits exactly its content. -/
theorem visits_eq_view {h : Handle} {raw : Raw} (hk : h.OK) (hc : Clean h raw) :
    h.visits raw = h.view raw := by
  unfold Handle.visits Handle.view rangeOf
  have : raw.filter (fun kv => h.pre.isPrefixOf kv.1)
      = raw.filter (fun kv => (h.pre ++ ['-']).isPrefixOf kv.1) := by
    refine List.filter_congr fun kv hkv => ?_
    rw [Bool.eq_iff_iff, List.isPrefixOf_iff_prefix, List.isPrefixOf_iff_prefix]
    constructor
    · intro hp
      obtain ⟨id, e⟩ := hc kv.1 (List.mem_map_of_mem hkv) (List.isPrefixOf_iff_prefix.2 hp)
      exact ⟨id, by rw [e, realKey_eq]⟩
    · exact fun hp => (List.prefix_append _ _).trans hp
  rw [this]
  refine List.map_congr_left fun kv hkv => ?_
  have hp := (List.mem_filter.1 hkv).2
  rw [trimPrefix, hk, if_pos hp]
  simp

theorem Clean.put_self {h : Handle} {raw : Raw} (hc : Clean h raw) (id v : Str) :
    Clean h (raw.put (h.realKey id) v) := by
  intro k hm hp
  rcases (KV.mem_keys_put _ _ _ _).1 hm with rfl | hm
  · exact ⟨_, rfl⟩
  · exact hc k hm hp

theorem Clean.put_other {h : Handle} {raw : Raw} (hc : Clean h raw) {k' : Str} (v : Str)
    (hk : h.pre.isPrefixOf k' = false) : Clean h (raw.put k' v) := by
  intro k hm hp
  rcases (KV.mem_keys_put _ _ _ _).1 hm with rfl | hm
  · rw [hk] at hp; cases hp
  · exact hc k hm hp

theorem Clean.del {h : Handle} {raw : Raw} (hc : Clean h raw) (k' : Str) : Clean h (raw.del k') := by
  intro k hm hp
  exact hc k ((KV.mem_keys_del _ _ _).1 hm).2 hp

/-! ## Writes in order -/

theorem applyAll_WF {raw : Raw} (hw : raw.WF) (b : List BOp) : (applyAll raw b).WF := by
  induction b generalizing raw with
  | nil => exact hw
  | cons op b ih =>
    refine ih ?_
    cases op with
    | put k v => exact hw.put _ _
    | del k => exact hw.del _

/-! ## Big-endian numbers -/

theorem be_length (n x : Nat) : (be n x).length = n := by
  induction n with
  | zero => rfl
  | succ n ih => simp [be, ih]

theorem byteChar_toNat {d : Nat} (h : d < 256) : (Char.ofNat d).toNat = d := by
  have hv : d.isValidChar := Or.inl (by omega)
  unfold Char.ofNat
  rw [dif_pos hv]
  simp [Char.toNat, Char.ofNatAux]

theorem byteChar_val {d : Nat} (h : d < 256) : (Char.ofNat d).val.toNat = d := byteChar_toNat h

theorem be_mod (n x : Nat) : be n (x % 256 ^ n) = be n x := by
  suffices H : ∀ m, n ≤ m → be n (x % 256 ^ m) = be n x from H n (Nat.le_refl _)
  induction n with
  | zero => intros; rfl
  | succ n ih =>
    intro m hm
    simp only [be]
    rw [ih m (by omega)]
    congr 2
    obtain ⟨k, rfl⟩ : ∃ k, m = n + 1 + k := ⟨m - (n + 1), by omega⟩
    rw [show (256:Nat) ^ (n + 1 + k) = 256 ^ n * (256 * 256 ^ k) by
      rw [Nat.pow_add, Nat.pow_succ, Nat.mul_assoc]]
    rw [Nat.mod_mul_right_div_self, Nat.mod_mul_right_mod]

theorem unbe_go (s : Str) (a : Nat) :
    s.foldl (fun a c => a * 256 + c.toNat) a = a * 256 ^ s.length + unbe s := by
  unfold unbe
  induction s generalizing a with
  | nil => simp
  | cons c s ih =>
    simp only [List.foldl_cons, List.length_cons]
    rw [ih, ih (0 * 256 + c.toNat)]
    rw [Nat.add_mul, Nat.pow_succ, Nat.mul_assoc, Nat.mul_comm 256 (256 ^ s.length), Nat.zero_mul,
      Nat.zero_add, Nat.add_assoc]

theorem unbe_be (n x : Nat) : unbe (be n x) = x % 256 ^ n := by
  induction n with
  | zero => simp [be, unbe, Nat.mod_one]
  | succ n ih =>
    have h256 : x / 256 ^ n % 256 < 256 := Nat.mod_lt _ (by decide)
    rw [be]
    unfold unbe
    rw [List.foldl_cons, unbe_go, ih, byteChar_toNat h256, be_length, Nat.zero_mul, Nat.zero_add]
    rw [Nat.pow_succ, Nat.mod_mul, Nat.mul_comm, Nat.add_comm]

theorem strLe_be (n x y : Nat) (h : x % 256 ^ n < y % 256 ^ n) : strLe (be n x) (be n y) = true := by
  induction n with
  | zero => simp [Nat.mod_one] at h
  | succ n ih =>
    simp only [be, strLe]
    have hx : x / 256 ^ n % 256 < 256 := Nat.mod_lt _ (by decide)
    have hy : y / 256 ^ n % 256 < 256 := Nat.mod_lt _ (by decide)
    rw [Nat.pow_succ, Nat.mod_mul, Nat.mod_mul] at h
    have hxm : x % 256 ^ n < 256 ^ n := Nat.mod_lt _ (Nat.pow_pos (by decide))
    have hym : y % 256 ^ n < 256 ^ n := Nat.mod_lt _ (Nat.pow_pos (by decide))
    split
    · rename_i he
      have he' : x / 256 ^ n % 256 = y / 256 ^ n % 256 := by
        have := congrArg Char.toNat he
        rwa [byteChar_toNat hx, byteChar_toNat hy] at this
      rw [he'] at h
      exact ih (by omega)
    · rename_i he
      have hne : x / 256 ^ n % 256 ≠ y / 256 ^ n % 256 := fun e => he (by rw [e])
      rw [decide_eq_true_iff, UInt32.lt_iff_toNat_lt, byteChar_val hx, byteChar_val hy]
      rcases Nat.lt_or_gt_of_ne hne with hlt | hgt
      · exact hlt
      · exfalso
        have := Nat.mul_le_mul_left (256 ^ n) (show y / 256 ^ n % 256 + 1 ≤ x / 256 ^ n % 256 from hgt)
        rw [Nat.mul_add] at this
        omega

theorem be8_length (x : Nat) : (be8 x).length = 8 := be_length 8 x

theorem unbe_be8 {x : Nat} (h : x < 2 ^ 64) : unbe (be8 x) = x := by
  unfold be8
  rw [unbe_be]
  exact Nat.mod_eq_of_lt (by simpa using h)

theorem be8_inj {x y : Nat} (hx : x < 2 ^ 64) (hy : y < 2 ^ 64) (h : be8 x = be8 y) : x = y := by
  rw [← unbe_be8 hx, ← unbe_be8 hy, h]

theorem be8_lt {x y : Nat} (hx : x < 2 ^ 64) (hy : y < 2 ^ 64) :
    (strLe (be8 x) (be8 y) = true ∧ be8 x ≠ be8 y) ↔ x < y := by
  have hx' : x % 256 ^ 8 = x := Nat.mod_eq_of_lt (by simpa using hx)
  have hy' : y % 256 ^ 8 = y := Nat.mod_eq_of_lt (by simpa using hy)
  constructor
  · rintro ⟨h1, h2⟩
    rcases Nat.lt_trichotomy x y with h | h | h
    · exact h
    · subst h; exact absurd rfl h2
    · have : strLe (be8 y) (be8 x) = true := strLe_be 8 y x (by omega)
      exact absurd (strLe_antisymm h1 this) h2
  · intro h
    exact ⟨strLe_be 8 x y (by omega), fun e => by
      have := be8_inj hx hy e; omega⟩

theorem reserved_cons {c : Char} (h : c ≠ '|') (t : Str) : reserved (c :: t) = false := by
  have hne' : ('|' == c) = false := by
    rw [beq_eq_false_iff_ne]; exact fun e => h e.symm
  unfold reserved
  rw [show bktTag = '|' :: ['b', 'u', 'c', 'k', 'e', 't', '|'] from rfl, show rootTag = '|' :: ['r', 'o', 'o', 't', 'B', 'u', 'c', 'k', 'e', 't', '|', '-'] from rfl,
    List.isPrefixOf, List.isPrefixOf, hne']
  rfl

theorem be8_not_reserved {x : Nat} (h : x < 2 ^ 62) : reserved (be8 x) = false := by
  have hx : x / 256 ^ 7 < 64 := Nat.div_lt_of_lt_mul (by
    rw [show (256:Nat) ^ 7 * 64 = 2 ^ 62 by decide]; exact h)
  have hd : x / 256 ^ 7 % 256 = x / 256 ^ 7 := Nat.mod_eq_of_lt (by omega)
  rw [be8, be]
  refine reserved_cons ?_ _
  rw [hd]
  intro e
  have := congrArg Char.toNat e
  rw [byteChar_toNat (by omega)] at this
  have h2 : '|'.toNat = 124 := rfl
  omega

end Ferryd.Db
