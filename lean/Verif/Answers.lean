import Verif.Client
/-!
# Answers: what a call of the client library reports

libferry/main.go:95-143 (reading an answer), ferryd/handlers.go:65-319 (writing it), ferryctl/cmd/*.go (telling the
user).  Continues `Client`, which stops at the action the daemon takes.

Outside /repo and taken from its documentation: an answer of `net/http` carries its length if everything was written
before the handler returned and is at most 2048 bytes long, and is sent in chunks of unstated length otherwise;
`http.Error` writes the text and a line feed in one piece; httprouter answers an unknown path with the text
`404 page not found` and a wrong method with `Method Not Allowed`.  A call that gets no answer at all (no daemon, a
broken connection, the limit of 60 seconds at libferry/main.go:53) is not modelled.
-/
namespace Ferryd.Client
open Ferryd.Paths Ferryd.Jobs

/-- The handlers that only report: handlers.go:66-141. -/
inductive Page | status | repos | pool
deriving DecidableEq, Repr
/-- A component of the routes of server.go:92-118. -/
def cStatus : Str := ['s', 't', 'a', 't', 'u', 's']
/-- A component of the routes of server.go:92-118. -/
def cList : Str := ['l', 'i', 's', 't']
/-- A component of the routes of server.go:92-118. -/
def cRepos : Str := ['r', 'e', 'p', 'o', 's']
/-- A component of the routes of server.go:92-118. -/
def cPool : Str := ['p', 'o', 'o', 'l']
/-- server.go:92, 117-118: the routes of the handlers that only report. -/
def pageRoutes : List (List Str × Page) :=
  [([cApi, cV1, cStatus], .status), ([cApi, cV1, cList, cRepos], .repos), ([cApi, cV1, cList, cPool], .pool)]

/-- Where a request ends up. server.go:92-118. -/
inductive Reached
  | change (h : Handler) (id : Str)
  | page (p : Page)
  /-- no such path, or not with this method -/
  | nowhere
deriving DecidableEq, Repr

/-- httprouter, one attempt: a path against all the routes of server.go:92-118. -/
def lookupAll (m : Method) (comps : List Str) : Option Reached :=
  match lookup m comps with
  | some (h, id) => some (.change h id)
  | none => if m = .get then (pageRoutes.find? (fun r => r.1 = comps)).map (fun r => .page r.2) else none

/-- httprouter: exact, without the trailing slash, cleaned (as `route`, with the routes that only report).
server.go:63, 67, 92-118. -/
def routeAll (m : Method) (path : Str) : Reached :=
  match splitC path with
  | [] :: comps =>
    match lookupAll m comps with
    | some x => x
    | none =>
      match (if comps.getLast? = some [] then lookupAll m comps.dropLast else none) with
      | some x => x
      | none => (lookupAll m (cleanL true [] comps)).getD .nowhere
  | _ => .nowhere

/-- An answer of the daemon as the client sees it: `length` is `resp.ContentLength` (-1: not stated).
libferry/main.go:97-113. -/
structure Answer where
  status : Nat
  body : Str
  length : Int
deriving DecidableEq, Repr

/-- Part of net/http: an answer written in one piece, `s.Write(buf)` or `http.Error` (handlers.go:62, 73-102). -/
def written (status : Nat) (body : Str) : Answer :=
  ⟨status, body, if body.length ≤ 2048 then body.length else -1⟩

/-- Part of net/http: `http.Error` (handlers.go:73, 80, 87, 94, …). -/
def httpError (status : Nat) (text : Str) : Answer := written status (text ++ ['\n'])

/-- `404 page not found`, from httprouter and net/http. -/
def notFound : Str := ['4', '0', '4', ' ', 'p', 'a', 'g', 'e', ' ', 'n', 'o', 't', ' ', 'f', 'o', 'u', 'n', 'd']

/-- What the handlers meet: the job store and the listings, each of which may fail with a text.
handlers.go:65-319, store.go:303-330 (the push), store.go:416-447 (the resets). -/
structure Srv where
  /-- the error of `PushSequentialJob` or `PushAsyncJob` -/
  push : Request → Option Str
  /-- the error of `ResetCompleted` or `ResetFailed` -/
  reset : Action → Option Str
  /-- the JSON text of a listing, or the error -/
  page : Page → Except Str Str

/-- processor.go:110-116: PushJob drops the error; handlers.go:143-306: nothing is written, so the answer is 200 with no
body.  handlers.go:308-319: the resets answer with the error.  handlers.go:65-141: the listings.  The result is what the
daemon did, and its answer.  A wrong method (405) is answered like an unknown path: with a line of plain text. -/
def Srv.serve (S : Srv) (b : Body) : Reached → Option Action × Answer
  | .change h id =>
    match h.act id b with
    | .push r =>
      match S.push r with
      | none => (some (.push r), ⟨200, [], 0⟩)
      | some _ => (none, ⟨200, [], 0⟩)
    | a =>
      match S.reset a with
      | none => (some a, ⟨200, [], 0⟩)
      | some e => (none, httpError 500 e)
  | .page p =>
    match S.page p with
    | .ok t => (none, written 200 t)
    | .error e => (none, httpError 500 e)
  | .nowhere => (none, httpError 404 notFound)

/-- libferry/types.go:24-29: what a call looks at in an answer. -/
structure Resp where
  error : Bool := false
  errorString : Str := []
deriving DecidableEq, Repr

/-- What a call of the client library returns. -/
inductive Result | ok | failed (text : Str)
deriving DecidableEq, Repr

/-- libferry/main.go:97-113, 117-143: reading an answer.  `decode` is `json.NewDecoder(..).Decode` into a `Response`:
the first JSON value of the text, or an error.  The status is not looked at. -/
def readAnswer (decode : Str → Except Str Resp) (a : Answer) : Result :=
  let fc : Except Str Resp := if a.length > 0 then decode a.body else .ok {}
  match fc with
  | .error e => .failed e
  | .ok fc => if !fc.error then .ok else .failed fc.errorString

/-- The error of `url.Parse` (its text does not matter). Used at libferry/main.go:75-143. -/
def badUrl : Str := ['p', 'a', 'r', 's', 'e']

/-- A call of the client library from beginning to end: what the daemon did, and what the call returns.
libferry/main.go:95-252. -/
def Call.run (S : Srv) (decode : Str → Except Str Resp) (c : Call) : Option Action × Result :=
  match urlPath c.request.2.1 with
  | none => (none, .failed badUrl)
  | some p =>
    let x := S.serve c.request.2.2 (routeAll c.request.1 p)
    (x.1, readAnswer decode x.2)

/-! ## The command line -/

/-- What a command of ferryctl leaves behind. -/
structure Told where
  /-- something was written to standard error -/
  stderr : Bool
  /-- the help text was written to standard output -/
  help : Bool
  exit : Nat
deriving DecidableEq, Repr

/-- ferryctl/cmd/*.go: a command line that is not understood, or whose call fails, gets a message on standard error and
an ordinary return (remove_repo.go:40-43: the help text instead, on standard output); ferryctl/main.go:35-39: the exit
status is 1 only if cobra itself refuses the command.  The result is what the daemon did, and what the user gets. -/
def Cmd.run (S : Srv) (decode : Str → Except Str Resp) (cmd : Cmd) (args : List Str) : Option Action × Told :=
  match cmd.call args with
  | none => (none, if cmd = .removeRepo then ⟨false, true, 0⟩ else ⟨true, false, 0⟩)
  | some c =>
    match c.run S decode with
    | (a, .ok) => (a, ⟨false, false, 0⟩)
    | (a, .failed _) => (a, ⟨true, false, 0⟩)

end Ferryd.Client
