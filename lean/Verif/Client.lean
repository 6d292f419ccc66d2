import Verif.Paths
import Verif.JobsModel
/-!
# Client: from the ferryctl command line to the job queue

ferryctl/cmd/*.go (arguments), libferry/main.go (requests), net/url and httprouter (routing), ferryd/server.go:92-118
(routes) and ferryd/handlers.go (jobs).

Outside /repo and taken from their documentation: `net/url` (fragment, query, percent escapes, control characters),
httprouter 1.3.0 (exact match, then redirect without the trailing slash, then redirect to the cleaned path; redirects
are followed by the client with the same method and body).  Characters stand for bytes.  httprouter's case-insensitive
lookup of the fixed part of a path is simplified to an exact one.  Bodies are JSON: written and read by the same struct
types, so a body is modelled by its fields; strings are taken to be valid UTF-8.
-/
namespace Ferryd.Client
open Ferryd.Paths Ferryd.Jobs

/-- The exported methods of libferry.Client that change something (libferry/main.go:145-226,243-252). -/
inductive Call
  | createRepo (id : Str)
  | deleteRepo (id : Str)
  | deltaRepo (id : Str)
  | indexRepo (id : Str)
  | importPackages (repo : Str) (pkgs : List Str)
  | cloneRepo (repo newClone : Str) (all : Bool)
  | pullRepo (source target : Str)
  | removeSource (repo source : Str) (release : Int)
  | copySource (repo target source : Str) (release : Int) (skipIndex : Bool)
  | trimPackages (repo : Str) (maxKeep : Int)
  | trimObsolete (repo : Str)
  | resetFailed
  | resetCompleted
deriving DecidableEq, Repr
/-- libferry/main.go:75-143: the HTTP methods used. -/
inductive Method | get | post
deriving DecidableEq, Repr

/-- libferry/types.go:31-95: the fields of the request bodies.  An absent field is decoded as the zero value. -/
structure Body where
  path : Option (List Str) := none
  cloneName : Option Str := none
  copyAll : Option Bool := none
  source : Option Str := none
  relno : Option Int := none
  target : Option Str := none
  skipIndex : Option Bool := none
  maxPackages : Option Int := none
deriving DecidableEq, Repr
/-- A component of the routes of server.go:92-118. -/
def cApi : Str := ['a', 'p', 'i']
/-- A component of the routes of server.go:92-118. -/
def cV1 : Str := ['v', '1']
/-- A component of the routes of server.go:92-118. -/
def cCreate : Str := ['c', 'r', 'e', 'a', 't', 'e']
/-- A component of the routes of server.go:92-118. -/
def cRepo : Str := ['r', 'e', 'p', 'o']
/-- A component of the routes of server.go:92-118. -/
def cRemove : Str := ['r', 'e', 'm', 'o', 'v', 'e']
/-- A component of the routes of server.go:92-118. -/
def cDelta : Str := ['d', 'e', 'l', 't', 'a']
/-- A component of the routes of server.go:92-118. -/
def cIndex : Str := ['i', 'n', 'd', 'e', 'x']
/-- A component of the routes of server.go:92-118. -/
def cImport : Str := ['i', 'm', 'p', 'o', 'r', 't']
/-- A component of the routes of server.go:92-118. -/
def cClone : Str := ['c', 'l', 'o', 'n', 'e']
/-- A component of the routes of server.go:92-118. -/
def cPull : Str := ['p', 'u', 'l', 'l']
/-- A component of the routes of server.go:92-118. -/
def cSource : Str := ['s', 'o', 'u', 'r', 'c', 'e']
/-- A component of the routes of server.go:92-118. -/
def cCopy : Str := ['c', 'o', 'p', 'y']
/-- A component of the routes of server.go:92-118. -/
def cTrim : Str := ['t', 'r', 'i', 'm']
/-- A component of the routes of server.go:92-118. -/
def cPackages : Str := ['p', 'a', 'c', 'k', 'a', 'g', 'e', 's']
/-- A component of the routes of server.go:92-118. -/
def cObsoletes : Str := ['o', 'b', 's', 'o', 'l', 'e', 't', 'e', 's']
/-- A component of the routes of server.go:92-118. -/
def cReset : Str := ['r', 'e', 's', 'e', 't']
/-- A component of the routes of server.go:92-118. -/
def cFailed : Str := ['f', 'a', 'i', 'l', 'e', 'd']
/-- A component of the routes of server.go:92-118. -/
def cCompleted : Str := ['c', 'o', 'm', 'p', 'l', 'e', 't', 'e', 'd']

/-- The text of an URL after `http://localhost.localdomain:0` (libferry/main.go:64-66), for an argument that begins with
these names and goes on with `id`; `lead` says whether the argument has a slash in front. -/
def uri (lead : Bool) (names : List Str) (id : Str) : Str :=
  '/' :: ((if lead then ['/'] else []) ++ joinS (names ++ [id]))

/-- libferry/main.go:145-252: method, URL and body of each call. -/
def Call.request : Call → Method × Str × Body
  | .createRepo id => (.get, uri true [cApi, cV1, cCreate, cRepo] id, {})
  | .deleteRepo id => (.get, uri true [cApi, cV1, cRemove, cRepo] id, {})
  | .deltaRepo id => (.get, uri true [cApi, cV1, cDelta, cRepo] id, {})
  | .indexRepo id => (.get, uri true [cApi, cV1, cIndex, cRepo] id, {})
  | .importPackages r ps => (.post, uri false [cApi, cV1, cImport] r, { path := some ps })
  | .cloneRepo r n all => (.post, uri false [cApi, cV1, cClone] r, { cloneName := some n, copyAll := some all })
  | .pullRepo s t => (.post, uri false [cApi, cV1, cPull] t, { source := some s })
  | .removeSource r s n => (.post, uri false [cApi, cV1, cRemove, cSource] r, { source := some s, relno := some n })
  | .copySource r t s n k => (.post, uri false [cApi, cV1, cCopy, cSource] r,
      { target := some t, source := some s, relno := some n, skipIndex := some k })
  | .trimPackages r n => (.post, uri false [cApi, cV1, cTrim, cPackages] r, { maxPackages := some n })
  | .trimObsolete r => (.get, uri true [cApi, cV1, cTrim, cObsoletes] r, {})
  | .resetFailed => (.get, uri true [cApi, cV1, cReset] cFailed, {})
  | .resetCompleted => (.get, uri true [cApi, cV1, cReset] cCompleted, {})

/-! ## net/url -/

/-- The text before the first `c`, and what follows it.
Part of net/url, used by http.NewRequest and Get (libferry/main.go:75-143). -/
def cut (c : Char) : Str → Str × Str
  | [] => ([], [])
  | d :: s => if d = c then ([], s) else (d :: (cut c s).1, (cut c s).2)
/-- Part of net/url: a digit of a percent escape. -/
def hexVal (c : Char) : Option Nat :=
  if '0' ≤ c ∧ c ≤ '9' then some (c.toNat - 48)
  else if 'a' ≤ c ∧ c ≤ 'f' then some (c.toNat - 87)
  else if 'A' ≤ c ∧ c ≤ 'F' then some (c.toNat - 55)
  else none

/-- Percent decoding; `none` for a bad escape. Part of net/url. -/
def unescape : Str → Option Str
  | [] => some []
  | '%' :: a :: b :: s =>
    match hexVal a, hexVal b with
    | some x, some y => (unescape s).map (Char.ofNat (16 * x + y) :: ·)
    | _, _ => none
  | '%' :: _ => none
  | c :: s => (unescape s).map (c :: ·)
/-- Part of net/url: the control characters it refuses. -/
def isCtl (c : Char) : Bool := c.toNat < 32 || c.toNat = 127

/-- `url.Parse` by the client: the decoded path, or the error the call returns. Used at libferry/main.go:75-143. -/
def urlPath (s : Str) : Option Str :=
  if s.any isCtl then none
  else
    match unescape (cut '#' s).2 with
    | none => none
    | some _ => unescape (cut '?' (cut '#' s).1).1

/-! ## Routing -/
/-- server.go:92-118, handlers.go:143-319: the handlers that change something. -/
inductive Handler
  | createRepo | deleteRepo | deltaRepo | indexRepo | importPackages | cloneRepo | copySource | pullRepo
  | removeSource | trimPackages | trimObsolete | resetCompleted | resetFailed
deriving DecidableEq, Repr

/-- server.go:95-109, the routes with a parameter. -/
def paramRoutes : List (Method × List Str × Handler) :=
  [(.get, [cApi, cV1, cCreate, cRepo], .createRepo), (.get, [cApi, cV1, cRemove, cRepo], .deleteRepo),
   (.get, [cApi, cV1, cDelta, cRepo], .deltaRepo), (.get, [cApi, cV1, cIndex, cRepo], .indexRepo),
   (.post, [cApi, cV1, cImport], .importPackages), (.post, [cApi, cV1, cClone], .cloneRepo),
   (.post, [cApi, cV1, cCopy, cSource], .copySource), (.post, [cApi, cV1, cPull], .pullRepo),
   (.post, [cApi, cV1, cRemove, cSource], .removeSource), (.post, [cApi, cV1, cTrim, cPackages], .trimPackages),
   (.get, [cApi, cV1, cTrim, cObsoletes], .trimObsolete)]

/-- server.go:113-114. -/
def fixedRoutes : List (Method × List Str × Handler) :=
  [(.get, [cApi, cV1, cReset, cCompleted], .resetCompleted), (.get, [cApi, cV1, cReset, cFailed], .resetFailed)]

/-- A path, by its components after the first slash, against a route.  A parameter is not empty.
Part of httprouter (server.go:95-109). -/
def matchParam (names : List Str) (comps : List Str) : Option Str :=
  if comps.dropLast = names ∧ comps.getLast?.getD [] ≠ [] then comps.getLast? else none
/-- Part of httprouter: a path against the routes of server.go:92-118. -/
def lookup (m : Method) (comps : List Str) : Option (Handler × Str) :=
  match paramRoutes.findSome? (fun r => if r.1 = m then (matchParam r.2.1 comps).map (r.2.2, ·) else none) with
  | some x => some x
  | none => (fixedRoutes.find? (fun r => r.1 = m ∧ r.2.1 = comps)).map (fun r => (r.2.2, []))

/-- httprouter: exact, without the trailing slash, cleaned. Used at server.go:63, 67, 92-118. -/
def route (m : Method) (path : Str) : Option (Handler × Str) :=
  match splitC path with
  | [] :: comps =>
    match lookup m comps with
    | some x => some x
    | none =>
      match (if comps.getLast? = some [] then lookup m comps.dropLast else none) with
      | some x => some x
      | none => lookup m (cleanL true [] comps)
  | _ => none

/-- What the daemon does. handlers.go:143-319. -/
inductive Action
  | push (r : Request)
  | resetCompleted
  | resetFailed
deriving DecidableEq, Repr

/-- handlers.go:144-319. -/
def Handler.act (id : Str) (b : Body) : Handler → Action
  | .createRepo => .push (.createRepo id)
  | .deleteRepo => .push (.deleteRepo id)
  | .deltaRepo => .push (.deltaRepo id)
  | .indexRepo => .push (.indexRepo id)
  | .importPackages => .push (.bulkAdd id (b.path.getD []))
  | .cloneRepo => .push (.cloneRepo id (b.cloneName.getD []) (b.copyAll.getD false))
  | .pullRepo => .push (.pullRepo (b.source.getD []) id)
  | .removeSource => .push (.removeSource id (b.source.getD []) (b.relno.getD 0))
  | .copySource => .push (.copySource id (b.target.getD []) (b.source.getD []) (b.relno.getD 0) (b.skipIndex.getD false))
  | .trimPackages => .push (.trimPackages id (b.maxPackages.getD 0))
  | .trimObsolete => .push (.trimObsolete id)
  | .resetCompleted => .resetCompleted
  | .resetFailed => .resetFailed

/-- The whole way: what the daemon does for a call; `none` if it does nothing (`Answers` has what the call returns).
libferry/main.go:145-252, server.go:92-118, handlers.go:143-319. -/
def deliver (c : Call) : Option Action :=
  match urlPath c.request.2.1 with
  | none => none
  | some p => (route c.request.1 p).map (fun x => x.1.act x.2 c.request.2.2)

/-! ## The command line -/

/-- The subcommands of ferryctl that change something. ferryctl/cmd/*.go. -/
inductive Cmd
  | createRepo | removeRepo | delta | index | clone (full : Bool) | pull | removeSource | copySource (skipIndex : Bool)
  | trimPackages | trimObsolete | resetFailed | resetCompleted
deriving DecidableEq, Repr

/-- copy_source.go:64-72, remove_source.go:55-63 and trim_packages.go:46-55. -/
def parsePositive (s : Str) : Option Int :=
  match parseInt32 s with
  | none => none
  | some n => if n < 1 then none else some n

/-- clone_repo.go:44-57, copy_source.go:45-86, pull_repo.go:39-52, remove_source.go:40-77, trim_packages.go:40-66,
remove_repo.go:39-52, create_repo.go:39-52, delta.go:39-52, index.go:39-52, trim_obsolete.go:39-52, reset_completed.go:39-52,
reset_failed.go:39-52: the call made, `none` if only a
message is printed. -/
def Cmd.call : Cmd → List Str → Option Call
  | .createRepo, [r] => some (.createRepo r)
  | .removeRepo, [r] => some (.deleteRepo r)
  | .delta, [r] => some (.deltaRepo r)
  | .index, [r] => some (.indexRepo r)
  | .clone full, [r, n] => some (.cloneRepo r n full)
  | .pull, [s, t] => some (.pullRepo s t)
  | .removeSource, [r, s] => some (.removeSource r s (-1))
  | .removeSource, [r, s, n] => (parsePositive n).map (.removeSource r s ·)
  | .copySource k, [r, t, s] => some (.copySource r t s (-1) k)
  | .copySource k, [r, t, s, n] => (parsePositive n).map (.copySource r t s · k)
  | .trimPackages, [r, n] => (parsePositive n).map (.trimPackages r ·)
  | .trimObsolete, [r] => some (.trimObsolete r)
  | .resetFailed, [] => some .resetFailed
  | .resetCompleted, [] => some .resetCompleted
  | _, _ => none

end Ferryd.Client
