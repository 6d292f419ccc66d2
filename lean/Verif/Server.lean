import Verif.Paths
import Verif.JobsModel
/-!
# Server: the watcher of the incoming directory and the life of the socket

ferryd/monitor.go and ferryd/server.go:137-250, ferryd/main.go:58-116.
-/
namespace Ferryd.Server
open Ferryd.Paths Ferryd.Jobs

/-! ## The watcher -/

/-- core/transit_manifest.go:31 -/
def tram : Str := ['.', 't', 'r', 'a', 'm']

/-- An event of the notification library (outside /repo): the path, whether it is an `Update` (a file open for writing
was closed), and whether a regular file is found there when the event is handled (monitor.go:77-86). -/
structure Event where
  name : Str
  update : Bool
  regular : Bool
deriving DecidableEq, Repr

/-- monitor.go:53-62,73-95: the job pushed for an event. -/
def onEvent (incoming : Str) (e : Event) : Option Request :=
  if dir e.name ≠ incoming then none
  else if e.update ∧ tram <:+ e.name then
    if e.regular then some (.transit (join incoming (base e.name))) else none
  else none

/-- What happens to the incoming directory. monitor.go:38-66. -/
inductive Ev
  /-- the daemon is started: server.go:182-185,216 sets up the watch, nothing is read -/
  | start
  /-- the daemon ends, in whatever way -/
  | stop
  /-- a file is written and closed in the incoming directory -/
  | written (name : Str)
  /-- a complete file is renamed into the incoming directory: the event is a `Create` -/
  | renamed (name : Str)
  /-- a file is written in a directory below -/
  | below (sub name : Str)
deriving DecidableEq, Repr
/-- monitor.go:30-66. -/
structure Watch where
  up : Bool
  /-- jobs pushed, oldest first -/
  pushed : List Request
deriving DecidableEq, Repr
/-- (No code: nothing has happened.) -/
def Watch.init : Watch := ⟨false, []⟩

/-- The event the watcher sees while it runs.  Events are taken to be handled before the file is touched again.
monitor.go:53-62. -/
def event (incoming : Str) : Ev → Option Event
  | .written n => some ⟨join incoming n, true, true⟩
  | .renamed n => some ⟨join incoming n, false, true⟩
  | .below s n => some ⟨join (join incoming s) n, true, true⟩
  | _ => none
/-- monitor.go:30-95, server.go:182-185, 216. -/
def Watch.step (incoming : Str) (w : Watch) (e : Ev) : Watch :=
  match e with
  | .start => { w with up := true }
  | .stop => { w with up := false }
  | e =>
    if w.up then
      match (event incoming e).bind (onEvent incoming) with
      | some r => { w with pushed := w.pushed ++ [r] }
      | none => w
    else w
/-- (No code: a history.) -/
def Watch.run (incoming : Str) (h : List Ev) : Watch := h.foldl (Watch.step incoming) Watch.init

/-! ## The socket -/
/-- server.go:137-250. -/
inductive SockEv
  | start
  /-- server.go:230-250: an orderly end -/
  | close
  /-- killed, or a panic in a job -/
  | kill
  /-- a start that fails after the socket has been made: server.go:170-201 (the databases cannot be opened, the incoming directory
  cannot be watched, or the socket's owner or mode cannot be set) -/
  | fail
deriving DecidableEq, Repr
/-- server.go:141-168, 246-249. -/
structure Sock where
  /-- a file at the socket path -/
  file : Bool
  up : Bool
deriving DecidableEq, Repr

/-- server.go:137-203: without systemd `net.Listen` creates the socket file and fails if there is one already
(EADDRINUSE; the library does not remove it); main.go:96-103 then ends the process, and since `running` is not yet set
`Close` (server.go:230-232) does nothing; the same after a later failure in `Bind` (server.go:170-201), when the file stays.  server.go:246-249: `Close` removes the file. -/
def Sock.step (systemd : Bool) (s : Sock) (e : SockEv) : Sock :=
  match e with
  | .start =>
    if s.up then s
    else if systemd then { s with up := true }
    else if s.file then s
    else ⟨true, true⟩
  | .close => if s.up then (if systemd then { s with up := false } else ⟨false, false⟩) else s
  | .kill => { s with up := false }
  | .fail => if s.up ∨ systemd then s else { s with file := true }
/-- (No code: a history.) -/
def Sock.run (systemd : Bool) (h : List SockEv) : Sock := h.foldl (Sock.step systemd) ⟨false, false⟩

end Ferryd.Server
