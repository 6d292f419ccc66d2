import Verif.JobsStore
/-!
# JobsSys: the daemon's job processing as a transition system

The state is the job database (bytes), whether the daemon runs, and what each worker goroutine holds.  The
remaining fields are ghosts: they record the history and never influence a step.  Every step is one call of
the store made by a client handler or by a worker (worker.go:109-160); calls are serialised by `modMut`.
Kills may fall between any two steps and between any two durable writes of one call.
-/
namespace Ferryd.Jobs
open Ferryd.Db

/-- A worker goroutine (worker.go:43-54): the queue it serves and the job it is executing. -/
structure Worker where
  queue : Queue
  job : Option (Str × JobEntry)
deriving DecidableEq

/-- The daemon and its job database.
server.go:36-58, store.go:62-65, processor.go:30-37: the parts that matter for jobs. -/
structure Sys where
  raw : Raw
  up : Bool
  workers : List Worker
  /-- ghost: every job ever submitted, in order; a job's number is its position here -/
  reqs : List Request
  /-- ghost: the number of the job stored under an id -/
  ticket : Queue → Str → Nat
  /-- ghost: the numbers of the jobs executed to their end, last first -/
  done : List Nat
  /-- ghost: what was recorded in a history since it was last cleared; `none` once a kill has fallen in the
  middle of recording or clearing -/
  log : Bool → Option (List Record)

/-- Worker `i` serves queue `q` and is waiting for a job. worker.go:115-121. -/
def Sys.Idle (s : Sys) (i : Nat) (q : Queue) : Prop := s.workers[i]? = some ⟨q, none⟩

/-- Worker `i` is executing the job `j` stored under `id` in queue `q`. worker.go:138-144. -/
def Sys.Runs (s : Sys) (i : Nat) (q : Queue) (id : Str) (j : JobEntry) : Prop :=
  s.workers[i]? = some ⟨q, some (id, j)⟩

/-- Fresh installation, daemon not running. (No code: the state before the first start.) -/
def Sys.init : Sys := ⟨[], false, [], [], fun _ _ => 0, [], fun _ => some []⟩

variable (C : Codec)

/-- A client request (or the daemon itself) submits a job: PushJob (processor.go:110-116), which ignores the
store's error. -/
def Sys.submit (s : Sys) (r : Request) (now : Nat) : Sys :=
  let o := pushRequest C r now s.raw
  { s with
    raw := o.raw
    reqs := s.reqs ++ [r]
    ticket := match o.res with
      | .ok id => fun q i => if q = r.queue ∧ i = id then s.reqs.length else s.ticket q i
      | .error _ => s.ticket }

/-- Worker `i` polls its queue (worker.go:121-135). -/
def Sys.claim (s : Sys) (i : Nat) (q : Queue) (now : Nat) : Sys :=
  let o := Jobs.claim C q now s.raw
  { s with
    raw := o.raw
    workers := match o.res with
      | .ok (some (id, j)) => s.workers.set i ⟨q, some (id, j)⟩
      | _ => s.workers }

/-- processJob (worker.go:174-204) and the end time (worker.go:141): what is retired.  `outcome` is the
error of Execute, if any. -/
def finishedOf (id : Str) (j : JobEntry) (now : Nat) (outcome : Option Str) : Finished :=
  match newJobHandler j.type j.params with
  | none => ⟨id, { j.timing with end_ := now }, [], some "no handler".toList⟩
  | some h => ⟨id, { j.timing with end_ := now }, h.describe, outcome⟩

/-- A worker finishes its job and retires it (worker.go:138-157); it becomes free even if retiring fails. -/
def Sys.finish (s : Sys) (i : Nat) (q : Queue) (id : Str) (j : JobEntry) (now : Nat) (outcome : Option Str) :
    Sys :=
  let f := finishedOf id j now outcome
  let o := retire C q f s.raw
  { s with
    raw := o.raw
    workers := s.workers.set i ⟨q, none⟩
    done := s.ticket q id :: s.done
    log := upd s.log f.failure.isSome ((s.log f.failure.isSome).map (· ++ [f.record])) }

/-- A client clears a history (handlers.go: ResetCompleted, ResetFailed). -/
def Sys.reset (s : Sys) (b : Bool) : Sys :=
  { s with raw := (Jobs.reset b s.raw).raw, log := upd s.log b (some []) }

/-- The process dies (or is stopped). (No code: a signal, a power failure, or a panic.) -/
def Sys.kill (s : Sys) : Sys := { s with up := false, workers := [] }

/-- The daemon starts: NewStore's setup (store.go:73-109), then one sequential and `n` asynchronous workers
(processor.go:74-78).  When setup fails the daemon does not start. -/
def Sys.boot (s : Sys) (n : Nat) : Sys :=
  let o := setup C s.raw
  match o.res with
  | .ok _ => { s with raw := o.raw, up := true, workers := ⟨.seq, none⟩ :: List.replicate n ⟨.async, none⟩ }
  | .error _ => { s with raw := o.raw }

/-- One step.  `poison` are the jobs whose execution never returns because it brings the process down.
worker.go:109-160, store.go, handlers.go, server.go:137-227; see each definition above. -/
inductive Step (poison : Str → List Str → Prop) : Sys → Sys → Prop
  | submit {s : Sys} (r now) : s.up = true → Step poison s (s.submit C r now)
  | claim {s : Sys} {i : Nat} {q : Queue} (now) : s.up = true → now ≠ 0 → s.Idle i q →
      Step poison s (s.claim C i q now)
  | finish {s : Sys} {i : Nat} {q : Queue} {id : Str} {j : JobEntry} (now outcome) : s.up = true → s.Runs i q id j →
      ¬ poison j.type j.params → Step poison s (s.finish C i q id j now outcome)
  | reset {s : Sys} (b) : s.up = true → Step poison s (s.reset b)
  | kill {s : Sys} : s.up = true → Step poison s s.kill
  | killRetire {s : Sys} {i : Nat} {q : Queue} {id : Str} {j : JobEntry} (now outcome c) : s.up = true → s.Runs i q id j →
      ¬ poison j.type j.params → c ∈ (retire C q (finishedOf id j now outcome) s.raw).tr →
      Step poison s { s.kill with
        raw := c, done := s.ticket q id :: s.done
        log := upd s.log (finishedOf id j now outcome).failure.isSome none }
  | killReset {s : Sys} (b c) : s.up = true → c ∈ (Jobs.reset b s.raw).tr →
      Step poison s { s.kill with raw := c, log := upd s.log b none }
  | boot {s : Sys} (n) : s.up = false → Step poison s (s.boot C n)
  | killBoot {s : Sys} (c) : s.up = false → c ∈ (setup C s.raw).tr → Step poison s { s with raw := c }

/-- Any number of steps. Go's scheduler, clients and kills choose. -/
inductive Steps (poison : Str → List Str → Prop) : Sys → Sys → Prop
  | refl {s : Sys} : Steps poison s s
  | tail {s s' s'' : Sys} : Steps poison s s' → Step C poison s' s'' → Steps poison s s''

/-- The states the daemon can be in, as long as fewer than 2^62 jobs were submitted (job ids are 64-bit
counters). (No code: a notion of the statements and proofs.) -/
def Reach (poison : Str → List Str → Prop) (s : Sys) : Prop :=
  Steps C poison Sys.init s ∧ s.reqs.length < 2 ^ 62

/-! ## Invariant -/

/-- The numbers of the jobs of one queue that are not finished, in the order of submission.
(No code: a notion of the statements and proofs.) -/
def pending (s : Sys) (q : Queue) : List Nat :=
  (List.range s.reqs.length).filter (fun t => (s.reqs[t]?.map Request.queue) = some q ∧ t ∉ s.done)

/-- The keys of a history holding `n` entries. (No code: used in the proofs only.) -/
def ringKeys (n : Nat) : List Str := (List.range n).map be8

/-- The layout of a history ring after the records `l`. store.go:227-267. (No code: used in the proofs only.) -/
def Ring (m : KV Record) (idx : Option Nat) (l : List Record) : Prop :=
  m.keys = ringKeys (min l.length 100) ∧
  idx = (if l.length = 0 then none else some ((l.length - 1) % 100)) ∧
  ∃ B A, m.map Prod.snd = B ++ A ∧ l.drop (l.length - 100) = A ++ B ∧
    (if l.length < 100 then B = [] else B.length = l.length % 100)
/-- The invariant of the job system. (No code: used in the proofs only.) -/
structure SInv (s : Sys) (A : AS) : Prop where
  rel : Rel C s.raw A
  ids : IdsBelow A s.reqs.length
  tick : ∀ q, (A.q q).keys.map (s.ticket q) = pending s q
  req : ∀ q id j, (A.q q).get id = some j →
    ∃ r, s.reqs[s.ticket q id]? = some r ∧ r.queue = q ∧ r.type = j.type ∧ r.params = j.params
  fin : ∀ t ∈ s.done, t < s.reqs.length
  once : s.done.Nodup
  time : ∀ q id j, (A.q q).get id = some j → (j.timing.begin_ ≠ 0 ↔ j.claimed = true)
  down : s.up = false → s.workers = []
  shape : s.up = true → ∃ n, s.workers.map Worker.queue = .seq :: List.replicate n .async
  held : ∀ i q id j, s.Runs i q id j → (A.q q).get id = some j ∧ j.claimed = true
  excl : ∀ i i' q id j j', s.Runs i q id j → s.Runs i' q id j' →
    i = i'
  owner : s.up = true → ∀ q id j, (A.q q).get id = some j → j.claimed = true →
    ∃ i, s.Runs i q id j
  ringKeys : ∀ b, ∀ k ∈ (A.hist b).keys, ∃ n, n < 100 ∧ k = be8 n
  ring : ∀ b l, s.log b = some l → Ring (A.hist b) (A.idx b) l

end Ferryd.Jobs
