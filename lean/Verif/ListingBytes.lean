import Verif.PropsListing
import Verif.ClientBytes
/-!
# ListingBytes: what `ferryctl list` shows, through the bytes of the answers (C88)

`Listing` takes the encoding of the answers to be lossless.  Here the answer is the text that encoding/json writes (`Json`).
Characters stand for bytes.
-/
namespace Ferryd.Listing
open Ferryd.Db Ferryd.Spec
open Ferryd.Client (toBytes ofBytes ofBytes_toBytes ofBytes_list)
open Ferryd.Client.Spec (Utf8Text)
open Ferryd.Json.Spec (Becomes AllBecome ItemsBecome IsInt64)

/-- handlers.go:102-117: the body of the answer. -/
def reposAnswer (K : CoreCodec) (raw : Raw) : Option Json.Bytes := (getRepos K raw).map fun l => (Json.Answer.repos (l.map toBytes)).write
/-- handlers.go:120-143: the body of the answer. -/
def poolAnswer (K : CoreCodec) (raw : Raw) : Option Json.Bytes :=
  (getPoolItems K raw).map fun l => (Json.Answer.pool (l.map fun x => (toBytes x.1, (x.2 : Int)))).write
/-- libferry/main.go:75-143, ferryctl/cmd/list_repos.go:42-64: the names printed, in order. -/
def shownRepos (b : Json.Bytes) : Option (List Str) := match Json.readAnswer .repos b with
  | some (.repos l) => some (sortS (l.map ofBytes))
  | _ => none
/-- libferry/main.go:75-143, ferryctl/cmd/list_pool.go:38-60: the lines printed, in order. -/
def shownPool (b : Json.Bytes) : Option (List (Str × Int)) := match Json.readAnswer .pool b with
  | some (.pool l) => some (l.map fun x => (ofBytes x.1, x.2))
  | _ => none
/-- The whole way. handlers.go:102-117, ferryctl/cmd/list_repos.go:42-64. -/
def listReposBytes (K : CoreCodec) (raw : Raw) : Option (List Str) := (reposAnswer K raw).bind shownRepos
/-- The whole way. handlers.go:120-143, ferryctl/cmd/list_pool.go:38-60. -/
def listPoolBytes (K : CoreCodec) (raw : Raw) : Option (List (Str × Int)) := (poolAnswer K raw).bind shownPool

variable {W : World} {s : St} {K : CoreCodec} {raw : Raw}

/-- C88, as a user would state it of the listing of repositories that reaches the terminal. -/
def C88_statement (K : CoreCodec) : Prop := ∀ (W : World) (s : St) (raw : Raw), W.OK → Reachable W s → Agree K raw s.db →
  (∀ r, Repo s r → ∀ c ∈ r, c.toNat < 256) → ∃ L, listReposBytes K raw = some L ∧ Enumerates L (Repo s)

theorem all_mem {l m : List Json.Bytes} (h : AllBecome l m) {x : Json.Bytes} (hx : x ∈ l) : ∃ y ∈ m, Becomes x y := by
  induction h with
  | nil => cases hx
  | cons a _ ih =>
    rcases List.mem_cons.1 hx with rfl | hx
    · exact ⟨_, List.mem_cons_self .., a⟩
    · obtain ⟨y, hy, h⟩ := ih hx; exact ⟨y, List.mem_cons_of_mem _ hy, h⟩

theorem all_valid {l m : List Json.Bytes} (h : AllBecome l m) {y : Json.Bytes} (hy : y ∈ m) : Json.Spec.Utf8 y := by
  induction h with
  | nil => cases hy
  | cons a _ ih =>
    rcases List.mem_cons.1 hy with rfl | hy
    · exact Json.becomes_valid a
    · exact ih hy

theorem toBytes_ofBytes (b : Json.Bytes) : toBytes (ofBytes b) = b := by
  induction b with
  | nil => rfl
  | cons x b ih =>
    have hx : (Char.ofNat x.toNat).toNat = x.toNat := Ferryd.Escape.toNat_ofNat (by have := x.toNat_lt; omega)
    show UInt8.ofNat (Char.ofNat x.toNat).toNat :: toBytes (ofBytes b) = x :: b
    rw [ih, hx]; simp

theorem getRepos_keys (ha : Agree K raw s.db) : getRepos K raw = some s.db.repos.keys := by
  unfold getRepos
  have := ha.eachRepo
  rw [decodeAll_map (m := s.db.repos.map fun kv => (kv.1, kv.1)) (by rw [this]; simp)]
  simp [KV.keys]

/-- C88, repositories, with the bytes of the answer: of the repositories whose names are bytes, exactly those with a name in UTF-8 are
listed under their name.  Missing: the others are listed under another name. -/
theorem C88_wire_partial (ha : Agree K raw s.db) (hb : ∀ r, Repo s r → ∀ c ∈ r, c.toNat < 256) :
    ∃ L, listReposBytes K raw = some L ∧ SortedS L ∧ ∀ r, Repo s r → (r ∈ L ↔ Utf8Text r) := by
  have hg := getRepos_keys ha
  obtain ⟨m, hm⟩ := Json.all_exists (s.db.repos.keys.map toBytes)
  have hr := (Json.C158_answer_repaired_partial (.repos (s.db.repos.keys.map toBytes)) (.repos m) (by simp [Json.Spec.answerNumbers])).2
    (.repos hm)
  have hk : ∀ r, r ∈ s.db.repos.keys ↔ Repo s r := fun r => Iff.rfl
  refine ⟨sortS (m.map ofBytes), ?_, sortS_sorted _, fun r h => ?_⟩
  · have hr' : Json.readAnswer .repos (Json.Answer.repos (s.db.repos.keys.map toBytes)).write = some (.repos m) := hr
    simp [listReposBytes, reposAnswer, hg, shownRepos, hr']
  · rw [mem_sortS]
    constructor
    · intro hx
      obtain ⟨y, hy, rfl⟩ := List.mem_map.1 hx
      refine ⟨hb _ h, ?_⟩
      show Json.Spec.Utf8 (toBytes (ofBytes y))
      rw [toBytes_ofBytes]
      exact all_valid hm hy
    · intro hu
      obtain ⟨y, hy, he⟩ := all_mem hm (List.mem_map.2 ⟨r, (hk r).2 h, rfl⟩)
      have : y = toBytes r := Json.becomes_unique he (Json.becomes_self.2 hu.2)
      subst this
      exact List.mem_map.2 ⟨_, hy, ofBytes_toBytes (hb r h)⟩

/-- C88, repositories, with the bytes of the answer: if all names are UTF-8, the listing is the one of `C88_list_repos`. -/
theorem C88_wire_repos_partial (ok : W.OK) (h : Reachable W s) (ha : Agree K raw s.db) (hu : ∀ r, Repo s r → Utf8Text r) :
    ∃ L, listReposBytes K raw = some L ∧ Enumerates L (Repo s) ∧ SortedS L := by
  obtain ⟨L, h1, h2, h3⟩ := C88_list_repos ok h ha
  refine ⟨L, ?_, h2, h3⟩
  rw [← h1]
  have hg := getRepos_keys ha
  have hr := (Json.C158_answer_partial (.repos (s.db.repos.keys.map toBytes)) (by simp [Json.Spec.answerNumbers])).2 (by
    intro x hx
    obtain ⟨r, hr, rfl⟩ := List.mem_map.1 hx
    exact (hu r hr).2)
  have hr' : Json.readAnswer .repos (Json.Answer.repos (s.db.repos.keys.map toBytes)).write =
    some (.repos (s.db.repos.keys.map toBytes)) := hr
  have e := ofBytes_list (l := s.db.repos.keys) fun r hr => (hu r hr).1
  simp only [listReposBytes, reposAnswer, hg, shownRepos, hr', listRepos, Option.map_some, Option.bind_some, e]

/-- C88, pool, with the bytes of the answer: the identifiers of packages are UTF-8 and no count reaches 2^63, then the lines are those of
`C88_list_pool`. -/
theorem C88_wire_pool_partial (ok : W.OK) (h : Reachable W s) (ha : Agree K raw s.db)
    (hu : ∀ id k, Count s id k → Utf8Text id ∧ k < 2 ^ 63) :
    ∃ L, listPoolBytes K raw = some L ∧ (L.map Prod.fst).Nodup ∧
      ∀ id (k : Int), (id, k) ∈ L ↔ ∃ n : Nat, k = n ∧ Count s id n := by
  obtain ⟨L, h1, h2, h3⟩ := C88_list_pool ok h ha
  have hr := (Json.C158_answer_partial (.pool (L.map fun x => (toBytes x.1, (x.2 : Int)))) (by
    intro i hi
    simp only [Json.Spec.answerNumbers, List.map_map, List.mem_map, Function.comp] at hi
    obtain ⟨⟨id, k⟩, hx, rfl⟩ := hi
    have := (hu id k ((h3 id k).1 hx)).2
    unfold IsInt64; dsimp only; omega)).2 (by
    intro x hx
    simp only [Json.Spec.answerStrings, List.map_map, List.mem_map, Function.comp] at hx
    obtain ⟨⟨id, k⟩, hx, rfl⟩ := hx
    exact (hu id k ((h3 id k).1 hx)).1.2)
  have hr' : Json.readAnswer .pool (Json.Answer.pool (L.map fun x => (toBytes x.1, (x.2 : Int)))).write =
    some (.pool (L.map fun x => (toBytes x.1, (x.2 : Int)))) := hr
  have e : (L.map fun x => (toBytes x.1, (x.2 : Int))).map (fun x => (ofBytes x.1, x.2)) = L.map fun x => (x.1, (x.2 : Int)) := by
    rw [List.map_map]
    refine List.map_congr_left fun x hx => ?_
    show (ofBytes (toBytes x.1), _) = _
    rw [ofBytes_toBytes (hu x.1 x.2 ((h3 x.1 x.2).1 hx)).1.1]
  refine ⟨L.map fun x => (x.1, (x.2 : Int)), ?_, ?_, ?_⟩
  · have h1' : getPoolItems K raw = some L := h1
    simp only [listPoolBytes, poolAnswer, h1', Option.map_some, Option.bind_some, shownPool, hr', e]
  · rw [List.map_map]; exact h2
  · intro id k
    simp only [List.mem_map, Prod.mk.injEq]
    constructor
    · rintro ⟨⟨a, n⟩, hx, rfl, rfl⟩; exact ⟨n, rfl, (h3 a n).1 hx⟩
    · rintro ⟨n, rfl, hc⟩; exact ⟨(id, n), (h3 id n).2 hc, rfl, rfl⟩

/-- `ferryctl create-repo` with a name in Latin-1. (No code: an example.) -/
def latin1 : List Op := [.create ['a', '\xE9']]

theorem latin1_reach : Reachable Demo.W (runAll Demo.E St.init latin1) :=
  ⟨latin1, by intro o ho; cases List.mem_singleton.1 ho; exact trivial, rfl⟩

theorem latin1_repo : (runAll Demo.E St.init latin1).db.repos.keys = [['a', '\xE9']] := by decide +kernel

theorem latin1_notUtf8 : ¬ Utf8Text ['a', '\xE9'] := by
  rintro ⟨-, h⟩
  have h := (Json.C158_request_partial (.pull [97, 0xE9]) (by simp [Json.Spec.numbers])).2
    (by intro s hs; cases List.mem_singleton.1 hs; exact h)
  revert h
  decide +kernel

/-- C88 is false of the bytes, whatever the encoding of the database: a repository called `a\xE9` is listed under another name.
(handlers.go:111) -/
theorem C88_wire_violated (K : CoreCodec) : ¬ C88_statement K := by
  intro h
  obtain ⟨cs, _, ha⟩ := C87_daemon K Demo.E latin1 (by decide +kernel)
  have hb : ∀ r, Repo (runAll Demo.E St.init latin1) r → ∀ c ∈ r, c.toNat < 256 := by
    intro r hr
    have hr : r ∈ (runAll Demo.E St.init latin1).db.repos.keys := hr
    rw [latin1_repo] at hr
    cases List.mem_singleton.1 hr
    decide
  obtain ⟨L, h1, h2⟩ := h Demo.W _ _ Demo.ok latin1_reach ha hb
  obtain ⟨L', h1', -, h3⟩ := C88_wire_partial ha hb
  cases h1.symm.trans h1'
  have hr : Repo (runAll Demo.E St.init latin1) ['a', '\xE9'] := by
    show _ ∈ (runAll Demo.E St.init latin1).db.repos.keys
    rw [latin1_repo]; simp
  exact latin1_notUtf8 ((h3 _ hr).1 ((h2.2 _).2 hr))

/-- The hypotheses are met after the history of `Verif.Demo`. -/
example (K : CoreCodec) : ∃ raw L, Agree K raw Demo.st1.db ∧ listReposBytes K raw = some L ∧ Enumerates L (Repo Demo.st1) := by
  obtain ⟨cs, _, h⟩ := C87_daemon K Demo.E Demo.hist1 demo_safe
  obtain ⟨L, h1, h2, _⟩ := C88_wire_repos_partial Demo.ok Demo.reach1 h (by
    have hc : ∀ r ∈ Demo.st1.db.repos.keys, (∀ c ∈ r, c.toNat < 256) ∧ (r.map fun c => UInt8.ofNat c.toNat) =
      r.flatMap String.utf8EncodeChar := by decide +kernel
    intro r hr
    exact ⟨(hc r hr).1, r, (hc r hr).2⟩)
  exact ⟨_, L, h, h1, h2⟩

end Ferryd.Listing
