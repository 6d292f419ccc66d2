/-!
# Lock: ferryd/lockfile.go and its use in ferryd/server.go

Any number of processes on one lock path.  A process that is started opens the file, reads it, takes the flock, writes
its id, runs, and either shuts down (unlock, then close and unlink) or is killed at any point, which releases its flock.
-/
namespace Ferryd.Lock
/-- Content of the lock file, one character per byte (lockfile.go:149-184). -/
abbrev Str := List Char

/-- Decimal digits of a number (`%d`), lockfile.go:180. -/
def digitsGo : Nat → Nat → Str → Str
  | 0, _, acc => acc
  | fuel + 1, n, acc =>
    if n < 10 then Char.ofNat (48 + n) :: acc else digitsGo fuel (n / 10) (Char.ofNat (48 + n % 10) :: acc)
/-- `%d`, lockfile.go:180. -/
def digits (n : Nat) : Str := digitsGo (n + 1) n []

/-- Value of a decimal digit. Part of `fmt.Fscanf("%d")`, lockfile.go:163. -/
def digitVal (c : Char) : Option Nat := if 48 ≤ c.toNat ∧ c.toNat ≤ 57 then some (c.toNat - 48) else none

/-- The number at the head of the text, if any. Part of `fmt.Fscanf("%d")`, lockfile.go:163. -/
def scanGo : Option Nat → Str → Option Nat
  | acc, [] => acc
  | acc, c :: cs => match digitVal c with
    | some d => scanGo (some (acc.getD 0 * 10 + d)) cs
    | none => acc

/-- The optional sign of `fmt.Fscanf("%d")`. lockfile.go:163. -/
def skipPlus : Str → Str
  | '+' :: t => t
  | c => c

/-- lockfile.go:149-171 `readPID`, on the content of the file: `fmt.Fscanf("%d")` skips spaces, takes an optional sign
and digits.  A negative number, or one that does not fit 63 bits, is never the id of a process and is `none` here, as is
no number at all. -/
def readPid (c : Str) : Option Nat :=
  match scanGo none (skipPlus (c.dropWhile (· == ' '))) with
  | some n => if n < 2 ^ 63 then some n else none
  | none => none

/-- lockfile.go:174-184 `writePID`: written at offset 0, nothing is truncated. -/
def overwrite (old new : Str) : Str := new ++ old.drop new.length

/-- Where a process is in NewLockFile / Lock / Unlock / Clean (server.go:77-90,230-237). -/
inductive PC
  | dead
  /-- about to call NewLockFile -/
  | started
  /-- lockfile.go:69-74: has opened the file -/
  | opened (i : Nat)
  /-- lockfile.go:96-114: has read the file and found no live owner -/
  | checked (i : Nat)
  /-- lockfile.go:119-124: has the flock, `owner` is set -/
  | locked (i : Nat)
  /-- lockfile.go:129: has written its id; the daemon runs -/
  | running (i : Nat)
  /-- lockfile.go:142: has given up the flock -/
  | unlocked (i : Nat)
  /-- lockfile.go:196: has unlinked the path; the daemon is on its way out -/
  | leaving
deriving DecidableEq, Repr
/-- lockfile.go:69-74: the open file of a process. -/
def PC.fd : PC → Option Nat
  | .opened i | .checked i | .locked i | .running i | .unlocked i => some i
  | _ => none
/-- The lock file (lockfile.go:40-47), the kernel's flocks and the processes. -/
structure Sys where
  /-- the file at the lock path -/
  path : Option Nat
  content : Nat → Str
  /-- holder of the exclusive flock -/
  flock : Nat → Option Nat
  next : Nat
  pc : Nat → PC
/-- (No code: nothing there yet.) -/
def Sys.init : Sys := ⟨none, fun _ => [], fun _ => none, 0, fun _ => .dead⟩
/-- (No code.) -/
def Sys.setPc (s : Sys) (p : Nat) (x : PC) : Sys := { s with pc := fun q => if q = p then x else s.pc q }
/-- lockfile.go:104-114: signal 0 reaches it. -/
def Sys.alive (s : Sys) (p : Nat) : Prop := s.pc p ≠ .dead

/-- The process is gone: its flock with it. (No code: what the kernel does.) -/
def Sys.exit (s : Sys) (p : Nat) : Sys :=
  { s.setPc p .dead with flock := fun i => if s.flock i = some p then none else s.flock i }

/-- Steps of process `p`. lockfile.go:50-199, server.go:77-90, 230-237. -/
inductive Step : Nat → Sys → Sys → Prop
  | start {p : Nat} {s : Sys} (hp : 0 < p) (h : s.pc p = .dead) : Step p s (s.setPc p .started)
  /-- lockfile.go:69 `OpenFile(O_RDWR|O_CREATE)`, the file exists -/
  | openOld {p : Nat} {s : Sys} {i : Nat} (h : s.pc p = .started) (hi : s.path = some i) : Step p s (s.setPc p (.opened i))
  /-- lockfile.go:69, the file is created -/
  | openNew {p : Nat} {s : Sys} (h : s.pc p = .started) (hi : s.path = none) :
      Step p s { s.setPc p (.opened s.next) with
        path := some s.next, next := s.next + 1, content := fun i => if i = s.next then [] else s.content i,
        flock := fun i => if i = s.next then none else s.flock i }
  /-- lockfile.go:96-101 the path cannot be opened any more: Lock fails and the process ends -/
  | readGone {p : Nat} {s : Sys} {i : Nat} (h : s.pc p = .opened i) (hp : s.path = none) : Step p s (s.exit p)
  /-- lockfile.go:104-114 the path names another live process -/
  | readOwned {p q : Nat} {s : Sys} {i j : Nat} (h : s.pc p = .opened i) (hp : s.path = some j)
      (hr : readPid (s.content j) = some q) (hq : 0 < q) (hne : q ≠ p) (ha : s.alive q) : Step p s (s.exit p)
  /-- lockfile.go:104-114 no live owner is named -/
  | readFree {p : Nat} {s : Sys} {i j : Nat} (h : s.pc p = .opened i) (hp : s.path = some j)
      (hr : ∀ q, readPid (s.content j) = some q → 0 < q → q = p ∨ ¬ s.alive q) : Step p s (s.setPc p (.checked i))
  /-- lockfile.go:119 -/
  | flockOk {p : Nat} {s : Sys} {i : Nat} (h : s.pc p = .checked i) (hf : s.flock i = none) :
      Step p s { s.setPc p (.locked i) with flock := fun j => if j = i then some p else s.flock j }
  /-- lockfile.go:119-122 EWOULDBLOCK -/
  | flockBusy {p : Nat} {s : Sys} {i : Nat} (h : s.pc p = .checked i) (hf : s.flock i ≠ none) : Step p s (s.exit p)
  /-- lockfile.go:129,174-184 -/
  | write {p : Nat} {s : Sys} {i : Nat} (h : s.pc p = .locked i) :
      Step p s { s.setPc p (.running i) with
        content := fun j => if j = i then overwrite (s.content i) (digits p) else s.content j }
  /-- lockfile.go:137-146, server.go:235 -/
  | unlock {p : Nat} {s : Sys} {i : Nat} (h : s.pc p = .running i) :
      Step p s { s.setPc p (.unlocked i) with flock := fun j => if j = i then none else s.flock j }
  /-- lockfile.go:187-199, server.go:236: whatever file is at the path is removed -/
  | unlink {p : Nat} {s : Sys} {i : Nat} (h : s.pc p = .unlocked i) : Step p s { s.setPc p .leaving with path := none }
  /-- the process ends, or is killed anywhere -/
  | die {p : Nat} {s : Sys} (h : s.pc p ≠ .dead) : Step p s (s.exit p)

end Ferryd.Lock
