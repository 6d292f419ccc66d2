import Verif.PropsClient
import Verif.PropsJson
/-!
# ClientBytes: commands reach the daemon as given, through the bytes of their requests (C82)

`Client` models a body by its fields.  Here the body is the text that encoding/json writes (`Json`), and the handler that the route
leads to reads it as its own type.  Characters stand for bytes, as in `Client`.
-/
namespace Ferryd.Client
open Ferryd.Paths Ferryd.Jobs

/-- (No code: characters stand for bytes.) -/
def toBytes (s : Str) : Json.Bytes := s.map fun c => UInt8.ofNat c.toNat
/-- (No code: characters stand for bytes.) -/
def ofBytes (b : Json.Bytes) : Str := b.map fun x => Char.ofNat x.toNat

/-- The structure that a call encodes: libferry/main.go:157-226. -/
def Call.json : Call → Option Json.Request
  | .importPackages _ ps => some (.importPackages (ps.map toBytes))
  | .cloneRepo _ n all => some (.clone (toBytes n) all)
  | .pullRepo s _ => some (.pull (toBytes s))
  | .removeSource _ s n => some (.removeSource (toBytes s) n)
  | .copySource _ t s n k => some (.copySource (toBytes t) (toBytes s) n k)
  | .trimPackages _ n => some (.trimPackages n)
  | _ => none
/-- libferry/main.go:118-125: the bytes of the body. -/
def Call.bytes (c : Call) : Json.Bytes := match c.json with
  | some r => r.write
  | none => []

/-- handlers.go:181-295: the type a handler reads the body into; other handlers do not read it. -/
def Handler.kind : Handler → Option Json.Kind
  | .importPackages => some .importPackages
  | .cloneRepo => some .clone
  | .pullRepo => some .pull
  | .removeSource => some .removeSource
  | .copySource => some .copySource
  | .trimPackages => some .trimPackages
  | _ => none
/-- What a handler has read. handlers.go:181-295. -/
def fields : Json.Request → Body
  | .importPackages ps => { path := some (ps.map ofBytes) }
  | .clone n all => { cloneName := some (ofBytes n), copyAll := some all }
  | .pull s => { source := some (ofBytes s) }
  | .removeSource s n => { source := some (ofBytes s), relno := some n }
  | .copySource t s n k => { target := some (ofBytes t), source := some (ofBytes s), relno := some n, skipIndex := some k }
  | .trimPackages n => { maxPackages := some n }
/-- handlers.go:143-319: the handler with a body; `none` if the body is refused with 500. -/
def Handler.serve (id : Str) (b : Json.Bytes) (h : Handler) : Option Action :=
  match h.kind with
  | none => some (h.act id {})
  | some k => (Json.receive k b).map fun r => h.act id (fields r)

/-- The whole way with the bytes of the body. libferry/main.go:75-252, server.go:92-118, handlers.go:143-319. -/
def deliverBytes (c : Call) : Option Action :=
  match urlPath c.request.2.1 with
  | none => none
  | some p => (route c.request.1 p).bind fun x => x.1.serve x.2 c.bytes

/-! ## Specification -/

namespace Spec
/-- The strings of a body. -/
def texts : Call → List Str
  | .importPackages _ ps => ps
  | .cloneRepo _ n _ => [n]
  | .pullRepo s _ => [s]
  | .removeSource _ s _ => [s]
  | .copySource _ t s _ _ => [t, s]
  | _ => []
/-- The numbers of a body. -/
def numbers : Call → List Int
  | .removeSource _ _ n => [n]
  | .copySource _ _ _ n _ => [n]
  | .trimPackages _ n => [n]
  | _ => []
/-- The characters are bytes, and the bytes are UTF-8. -/
def Utf8Text (s : Str) : Prop := (∀ c ∈ s, c.toNat < 256) ∧ Json.Spec.Utf8 (s.map fun c => UInt8.ofNat c.toNat)
end Spec
open Spec

/-! ## Proofs -/

theorem ofBytes_toBytes {s : Str} (h : ∀ c ∈ s, c.toNat < 256) : ofBytes (toBytes s) = s := by
  induction s with
  | nil => rfl
  | cons c s ih =>
    have hc := h c (by simp)
    have e : Char.ofNat (UInt8.ofNat c.toNat).toNat = c := by
      rw [show (UInt8.ofNat c.toNat).toNat = c.toNat by simp; omega]
      simp
    show Char.ofNat (UInt8.ofNat c.toNat).toNat :: ofBytes (toBytes s) = c :: s
    rw [e, ih fun d hd => h d (List.mem_cons_of_mem _ hd)]

theorem ofBytes_list {l : List Str} (h : ∀ s ∈ l, ∀ c ∈ s, c.toNat < 256) : (l.map toBytes).map ofBytes = l := by
  induction l with
  | nil => rfl
  | cons s l ih =>
    simp only [List.map_cons]
    rw [ofBytes_toBytes (h s (by simp)), ih fun x hx => h x (List.mem_cons_of_mem _ hx)]

/-- A body is parsed as what was written. -/
theorem parse_bytes {c : Call} {r : Json.Request} (hj : c.json = some r) (ht : ∀ s ∈ texts c, Utf8Text s)
    (hn : ∀ i ∈ Spec.numbers c, Json.Spec.IsInt64 i) : Json.parse r.write = some r.val := by
  have hs : ∀ s ∈ Json.Spec.strings r, Json.Spec.Utf8 s := by
    cases c <;> cases hj <;> intro s hs <;> simp only [Json.Spec.strings, List.mem_map, List.mem_cons, List.not_mem_nil, or_false] at hs
    case importPackages r ps => obtain ⟨p, hp, rfl⟩ := hs; exact (ht p hp).2
    case cloneRepo r n a => subst hs; exact (ht n (by simp [texts])).2
    case pullRepo s t => subst hs; exact (ht s (by simp [texts])).2
    case removeSource r s n => subst hs; exact (ht s (by simp [texts])).2
    case copySource r t s n k =>
      rcases hs with rfl | rfl
      · exact (ht t (by simp [texts])).2
      · exact (ht s (by simp [texts])).2
  have hi : ∀ i ∈ Json.Spec.numbers r, Json.Spec.IsInt64 i := by
    cases c <;> cases hj <;> exact hn
  exact Json.parse_print (Json.request_vb hi (Json.request_self.2 hs))

/-- Every handler that reads a body gets from it what the fields say, whichever call it was written for. -/
theorem serve_bytes {c : Call} {r : Json.Request} (hj : c.json = some r) (ht : ∀ s ∈ texts c, Utf8Text s)
    (hn : ∀ i ∈ Spec.numbers c, Json.Spec.IsInt64 i) (h : Handler) (id : Str) :
    h.serve id r.write = some (h.act id c.request.2.2) := by
  have hp := parse_bytes hj ht hn
  unfold Handler.serve
  cases hk : h.kind with
  | none => cases h <;> first | (cases hk; done) | rfl
  | some k =>
    show (Json.receive k r.write).map (fun r => h.act id (fields r)) = _
    unfold Json.receive
    rw [hp]
    cases c with
    | createRepo | deleteRepo | deltaRepo | indexRepo | trimObsolete | resetFailed | resetCompleted => cases hj
    | importPackages rp ps =>
      cases hj
      have e := ofBytes_list (l := ps) fun s hs => (ht s hs).1
      have e2 := Json.strings_arrOf (ps.map toBytes)
      cases h with
      | createRepo | deleteRepo | deltaRepo | indexRepo | trimObsolete | resetFailed | resetCompleted => cases hk
      | importPackages =>
        cases hk
        show ((Json.strings (Json.arrOf (ps.map toBytes))).map Json.Request.importPackages).map _ = _
        rw [e2]
        show some (Action.push (.bulkAdd id ((ps.map toBytes).map ofBytes))) = _
        rw [e]; rfl
      | cloneRepo | pullRepo | removeSource | copySource | trimPackages => cases hk; rfl
    | cloneRepo rp n a =>
      cases hj
      have e := ofBytes_toBytes (ht n (by simp [texts])).1
      cases h with
      | createRepo | deleteRepo | deltaRepo | indexRepo | trimObsolete | resetFailed | resetCompleted => cases hk
      | cloneRepo =>
        cases hk
        show some (Action.push (.cloneRepo id (ofBytes (toBytes n)) a)) = _
        rw [e]; rfl
      | importPackages | pullRepo | removeSource | copySource | trimPackages => cases hk; rfl
    | pullRepo s t =>
      cases hj
      have e := ofBytes_toBytes (ht s (by simp [texts])).1
      cases h with
      | createRepo | deleteRepo | deltaRepo | indexRepo | trimObsolete | resetFailed | resetCompleted => cases hk
      | pullRepo =>
        cases hk
        show some (Action.push (.pullRepo (ofBytes (toBytes s)) id)) = _; rw [e]; rfl
      | removeSource =>
        cases hk
        show some (Action.push (.removeSource id (ofBytes (toBytes s)) 0)) = _; rw [e]; rfl
      | copySource =>
        cases hk
        show some (Action.push (.copySource id [] (ofBytes (toBytes s)) 0 false)) = _; rw [e]; rfl
      | importPackages | cloneRepo | trimPackages => cases hk; rfl
    | removeSource rp s n =>
      cases hj
      have e := ofBytes_toBytes (ht s (by simp [texts])).1
      have ei := Json.fieldInt_ok (hn n (by simp [Spec.numbers]))
      cases h with
      | createRepo | deleteRepo | deltaRepo | indexRepo | trimObsolete | resetFailed | resetCompleted => cases hk
      | pullRepo =>
        cases hk
        show some (Action.push (.pullRepo (ofBytes (toBytes s)) id)) = _; rw [e]; rfl
      | removeSource =>
        cases hk
        show ((Json.fieldInt (some (.int n))).map fun r => Json.Request.removeSource (toBytes s) r).map _ = _
        rw [ei]
        show some (Action.push (.removeSource id (ofBytes (toBytes s)) n)) = _; rw [e]; rfl
      | copySource =>
        cases hk
        show ((Json.fieldInt (some (.int n))).bind fun r => some (Json.Request.copySource [] (toBytes s) r false)).map _ = _
        rw [ei]
        show some (Action.push (.copySource id [] (ofBytes (toBytes s)) n false)) = _; rw [e]; rfl
      | importPackages | cloneRepo | trimPackages => cases hk; rfl
    | copySource rp t s n kx =>
      cases hj
      have e := ofBytes_toBytes (ht s (by simp [texts])).1
      have et := ofBytes_toBytes (ht t (by simp [texts])).1
      have ei := Json.fieldInt_ok (hn n (by simp [Spec.numbers]))
      cases h with
      | createRepo | deleteRepo | deltaRepo | indexRepo | trimObsolete | resetFailed | resetCompleted => cases hk
      | pullRepo =>
        cases hk
        show some (Action.push (.pullRepo (ofBytes (toBytes s)) id)) = _; rw [e]; rfl
      | removeSource =>
        cases hk
        show ((Json.fieldInt (some (.int n))).map fun r => Json.Request.removeSource (toBytes s) r).map _ = _
        rw [ei]
        show some (Action.push (.removeSource id (ofBytes (toBytes s)) n)) = _; rw [e]; rfl
      | copySource =>
        cases hk
        show ((Json.fieldInt (some (.int n))).bind fun r => some (Json.Request.copySource (toBytes t) (toBytes s) r kx)).map _ = _
        rw [ei]
        show some (Action.push (.copySource id (ofBytes (toBytes t)) (ofBytes (toBytes s)) n kx)) = _; rw [e, et]; rfl
      | importPackages | cloneRepo | trimPackages => cases hk; rfl
    | trimPackages rp n =>
      cases hj
      have ei := Json.fieldInt_ok (hn n (by simp [Spec.numbers]))
      cases h with
      | createRepo | deleteRepo | deltaRepo | indexRepo | trimObsolete | resetFailed | resetCompleted => cases hk
      | trimPackages =>
        cases hk
        show ((Json.fieldInt (some (.int n))).map Json.Request.trimPackages).map _ = _
        rw [ei]; rfl
      | importPackages | cloneRepo | pullRepo | removeSource | copySource => cases hk; rfl

/-- A route of GET does not read a body. -/
theorem route_get {p : Str} {x : Handler × Str} (h : route .get p = some x) : x.1.kind = none := by
  have hl : ∀ comps y, lookup .get comps = some y → y.1.kind = none := by
    intro comps y hy
    unfold lookup at hy
    split at hy
    · rename_i z hz
      cases hy
      obtain ⟨r, hr, he⟩ := List.exists_of_findSome?_eq_some hz
      split at he
      · rename_i hm
        obtain ⟨w, -, rfl⟩ := Option.map_eq_some_iff.1 he
        simp only [paramRoutes, List.mem_cons, List.not_mem_nil, or_false] at hr
        rcases hr with rfl | rfl | rfl | rfl | rfl | rfl | rfl | rfl | rfl | rfl | rfl <;> first | rfl | cases hm
      · cases he
    · obtain ⟨r, hr, rfl⟩ := Option.map_eq_some_iff.1 hy
      have hr := List.mem_of_find?_eq_some hr
      simp only [fixedRoutes, List.mem_cons, List.not_mem_nil, or_false] at hr
      rcases hr with rfl | rfl <;> rfl
  unfold route at h
  split at h
  · split at h
    · rename_i hx; cases h; exact hl _ _ hx
    · split at h
      · rename_i hx
        cases h
        split at hx
        · exact hl _ _ hx
        · cases hx
      · exact hl _ _ h
  · cases h

/-- C82: what the bytes of a request do is what its fields say, whatever the URL leads to.  Missing: strings that are not UTF-8 (C158). -/
theorem C82_bytes_partial {c : Call} (ht : ∀ s ∈ texts c, Utf8Text s) (hn : ∀ i ∈ Spec.numbers c, Json.Spec.IsInt64 i) :
    deliverBytes c = deliver c := by
  unfold deliverBytes deliver
  cases urlPath c.request.2.1 with
  | none => rfl
  | some p =>
    dsimp only
    cases hr : route c.request.1 p with
    | none => rfl
    | some x =>
      simp only [Option.bind_some, Option.map_some]
      cases hj : c.json with
      | some r =>
        have e : c.bytes = r.write := by simp [Call.bytes, hj]
        rw [e]; exact serve_bytes hj ht hn x.1 x.2
      | none =>
        have hg : c.request.1 = .get ∧ c.request.2.2 = {} := by
          cases c <;> first | (cases hj; done) | exact ⟨rfl, rfl⟩
        rw [hg.1] at hr
        unfold Handler.serve
        rw [route_get hr, hg.2]

/-- C82, with the bytes on the wire: a call with a plain repository name, and UTF-8 in the other strings, makes the daemon do exactly what
the call says. -/
theorem C82_wire_partial {c : Call} (hp : ∀ r, inUrl c = some r → PlainName r) (ht : ∀ s ∈ texts c, Utf8Text s)
    (hn : ∀ i ∈ Spec.numbers c, Json.Spec.IsInt64 i) : deliverBytes c = some (meaning c) := by
  rw [C82_bytes_partial ht hn, C82_delivered_partial hp]

/-- The paths of an import that ferryctl sends, in UTF-8: `/é.eopkg`. -/
example : let c : Call := .importPackages ['u'] [['/', '\xC3', '\xA9', '.', 'e']]
    (∀ r, inUrl c = some r → PlainName r) ∧ (∀ s ∈ texts c, Utf8Text s) ∧ (∀ i ∈ Spec.numbers c, Json.Spec.IsInt64 i) ∧
    deliverBytes c = some (.push (.bulkAdd ['u'] [['/', '\xC3', '\xA9', '.', 'e']])) := by
  refine ⟨by intro r hr; cases hr; decide, ?_, by simp [Spec.numbers], by decide +kernel⟩
  intro s hs
  cases List.mem_singleton.1 hs
  exact ⟨by decide, ['/', 'é', '.', 'e'], by decide⟩

/-- C82 is false of the bytes for another reason, too: of the import of `/\xE9`, which is not UTF-8, another path is left (C158). -/
theorem C82_wire_violated : deliverBytes (.importPackages ['u'] [['/', '\xE9']]) =
    some (.push (.bulkAdd ['u'] [['/', '\xEF', '\xBF', '\xBD']])) := by decide +kernel

end Ferryd.Client
