# Formal model of getsolus/ferryd — design

## Method

Everything is Lean 4 under `lean/Verif`.  Model modules transcribe the Go code function by function, each definition citing
file and lines of /repo; `Props*` modules state and prove the properties of `properties.jsonl`, with concrete cases beside
them (`Demo`, `Demo2` and `namespace Demo` in the `Props*` files) that meet the hypotheses.  A theorem `Cxx_…` belongs to
property Cxx; `MANIFEST.json` lists them (generated by `tools/manifest.py`, the notes are the docstrings).

When the code does not have a property the full claim is kept as `def Cxx_statement : Prop`, `theorem Cxx_violated :
¬ Cxx_statement` refutes it with an execution of the model, and `Cxx_…_partial` proves the strongest part found to hold.

The style of modelling differs with the question asked:

* **Core** (pool, repositories, manager, index document): an effect monad over database + file system with inodes (hard
  links alias) + repository cache.  It records every durable intermediate state, so "at every crash point" is a quantifier
  over that trace.  One global invariant (`Inv`) is preserved by every operation; per-operation lemmas give the exact
  post-state.  Properties are stated with the vocabulary of `Spec.lean`, over `Reachable` states (any history).
* **Jobs**: byte-level job database, workers and submissions as a labelled transition system, kill at any store write,
  restart.  Proved by a refinement to an abstract store (`JobsStore`) and an invariant over all interleavings (`JobsInv`).
* **Daemon**: the product of the two: a worker that finishes a job has executed it on the repositories.
* **Db / DbCore / DbRefine**: the bucket layer on one flat ordered key space, and the proof that the tables used by Core are
  what the flat database holds, at crash points too.
* **IndexFiles, Lock, Server, Escape, Delta, DeltaJob, Producer, Eopkg, Transit, Paths, Layout, Client, Listing**: self-contained pieces.

## Modules

| modules | models | properties |
|---|---|---|
| Base, Paths | strings as byte lists, `sort.Strings`, sorted maps; path/filepath | – |
| CoreModel, CoreMonad, CoreInv, CoreAdd, CoreRemove, CoreRepo, CoreDelta, CoreIndex, CoreLoops, CoreUnrefs, CoreJobs(2,3), CoreOps, CoreTight, CoreFrame, Spec, SpecIndex, Demo(2) | ferryd/core/{pool,repo,repo_index,util,api,manager}.go | C01–C23, C27–C33, C67, C70–C75, C90, C91, C96 (PropsCore1–3, PropsCrash, PropsDelta, PropsDelta3, PropsSuccess) |
| Db, PropsDb | libdb/leveldb.go | C46–C49 |
| DbCore, DbRefine | the core's buckets on libdb | C87 |
| JobsModel, JobsStore, JobsSys, JobsInv, JobsOrder, JobsParams, PropsJobs | ferryd/jobs/{store,main,worker,processor}.go and the job constructors | C35–C45, C68, C69, C76 |
| Daemon, PropsDaemon | the jobs' Execute methods on the core | C85, C86 |
| Transit, PropsTransit | core/transit_manifest.go, jobs/transit_job.go | C24–C26, C63, C78 |
| Delta, PropsDelta2; DeltaJob, PropsDeltaJob | libeopkg/delta.go; jobs/delta.go | C57–C60; C34 |
| Producer, PropsProducer | delta production on disk: libeopkg/{delta,package,util}.go, core/util.go ProduceDelta, repo.go CreateDelta | C97–C100 |
| Escape, PropsEscape | core/escape.go | C50–C52 |
| IndexFiles, PropsIndexFiles | file handling of core/repo_index.go | C53–C56, C79 |
| Lock, PropsLock | ferryd/lockfile.go | C61, C62, C80 |
| Layout, PropsLayout | metadata.go path components, RemovePackageParents, ferryctl import.go | C64–C66, C81 |
| Client, PropsClient | ferryctl/cmd, libferry/main.go, routes and handlers | C82, C83 |
| Server, PropsServer | ferryd/{monitor,server,main}.go | C77, C84 |
| Listing, PropsListing, PropsTime | list repos/pool, status; when the clock is read | C88, C89, C120 |
| CoreRough, CoreRough2, PropsRough | the same functions as CoreModel, run from any state that crashes and I/O errors can lead to | C108–C115 |
| PropsDaemon2 | the same as Daemon; with crashes and I/O errors in the middle of repository jobs and of copying a file | C43, C117–C119, C130 |
| CoreSafe, PropsSafe | the same functions, run from states in which every listed package is counted; jobs other than remove-source and trims may stop anywhere | C115, C116 |
| CoreWhole(2,3), PropsWhole | the same functions, run in histories in which adding jobs run to their end and every other job may stop anywhere | C110 |
| CoreStock(2), PropsStock | the same functions, run in histories in which deletions and removals run to their end and every other job may stop anywhere | C121 |
| CoreOffer, PropsOffer | the same functions, run in histories in which what takes packages away comes to its end and every other job may stop anywhere | C131 |
| PropsOwn | the index run of CoreModel from arbitrary states | C122 |
| PropsStatus | GetStatus as four separate reads among the steps of JobsSys | C123, C124 |
| PropsLive | infinite runs of JobsSys | C125 |
| PropsDaemon3 | infinite runs of Daemon | C132 |
| PropsDaemon4 | steps of Daemon, what a set of allowed operations keeps (`Closure`) | C143, C144, C140 (daemon) |
| PropsRepos | repository records at every moment of every job, and of Daemon | C145 |
| PropsDone | finishing steps of Daemon, each kind of request | C146 |
| CoreLax, PropsLax | all of CoreModel, with no assumption on the outside world | C147, C72 |
| Mutexes, PropsMutex | the mutexes of core/repo.go, core/repo_index.go, jobs/store.go and libdb/leveldb.go; which functions hold them, in which order, and what goroutines blocked on them do | C148, C149 |
| Handles, PropsHandles | the files opened and closed by core/util.go, core/mmap.go, core/pool.go, core/repo.go, core/repo_index.go, core/transit_manifest.go and libeopkg's readers, with any system call failing | C150 |
| Answers, PropsAnswers | handlers.go:65-319 (the answers), libferry/main.go:95-143 (reading them), ferryctl/main.go and cmd/*.go (telling the user) | C151, C152 |
| XmlText, PropsXmlText, XmlDoc, PropsXmlDoc, XmlPackage, PropsXmlPackage, PropsXmlIndex | core/repo_index.go:218-283 with the text, attribute, CDATA and indentation parts of `encoding/xml`'s printer; the structures of libeopkg (metadata.go:25-150, main.go, distribution.go, components.go, groups.go) as trees of elements | C153, C154, C155, C156 |
| Gob, PropsGob, GobCodec | libdb/transcoder.go:57-78, leveldb.go:76-124 with Go's `encoding/gob`; the stored structures of core, jobs, libferry and libeopkg | C157 |
| Json, PropsJson | libferry/main.go:75-143, types.go:25-92, ferryd/handlers.go:47-63, 104-143, 181-295 with Go's `encoding/json` | C158 |
| ClientBytes | libferry/main.go:118-226, ferryd/handlers.go:143-319: calls and handlers with the bytes of the bodies | C82 (`C82_bytes_partial`, `C82_wire_partial`) |
| ListingBytes | ferryd/handlers.go:102-143, ferryctl/cmd/list_repos.go, list_pool.go: the listings with the bytes of the answers | C88 (`C88_wire_*`) |
| PropsCommand | joins Client, ClientBytes, the job store, the daemon and the repository operations | C159 |
| Rfc3339, PropsReport | ferryd/handlers.go:66-100, libferry/types.go:98-102, 125, 141-161, main.go:229-240 with Go's `time` (the proleptic Gregorian calendar, RFC 3339 with nanoseconds) and `encoding/json` | C160 |
| PropsDuration | ferryctl/cmd/status.go:66-77, 102-108, 133-139, libferry/types.go:105-127 with Go's `Duration.String` and `Time.Format` | C161 |
| PropsScreen | handlers.go:49-96 over jobs/store.go's reads, client.go GetStatus, ferryctl/cmd/status.go:47-182 joined | C162 |
| PropsWatch | as PropsScreen, with jobs/store.go's times of submission through claims, crashes and restarts | C163 |
| PropsRecords | jobs/store.go's histories under every step of the daemon, with core/api.go's operations; status.go:118-142 | C164 |
| PropsTold | the whole way of one command: libferry/main.go, handlers.go, core/api.go, jobs/store.go, jobs/worker.go, status.go | C165 |
| PropsRefused | jobs/store.go's history of failed jobs under every step of the daemon; status.go:83-112 | C166 |
| CoreRepeat, PropsRepeat | the same functions, run a second time | C133 |
| CoreLoose(2), PropsLoose | the same functions, in histories where one file name can hold different bytes | C134 |
| CoreFiles, PropsAlias | the effects of the same functions on files, from any state | C135 |
| CoreSync, PropsSync | pairs of runs of the same functions, from states that agree on a group of repositories | C136 |
| CoreLeak, CoreReal, PropsLeak | the same functions cut short anywhere: counts against listings, listings against repositories | C137, C138 |
| PropsHidden | two histories of the same functions, compared | C139 |
| CoreProv, PropsProv | the same functions cut short anywhere: listings and tips before and after, provenance of listings | C140–C142 |
| PropsRebuild | index after crashes; points of a removal | C126, C29 (index) |
| CoreRetry | AddPackage and RefPackage in an arbitrary state a crash can leave: which file is served, which are damaged | |
| PropsRetry | imports, strict imports and copies run again after crashes | C127, C128, C129, C28 (again) |
| Eopkg, PropsEopkg | libeopkg/{package,metadata,files,components,groups,main}.go, core/purge_cloudflare.go | C101–C107 |
| Shutdown, PropsShutdown | the orderly end: server.go Close, processor.go Close, worker.go Start/Stop, store.go Close | C92–C95 |

## How the properties are proved

| ids | proof |
|---|---|
| C01–C06, C08–C16, C18, C21–C23, C32, C33 | preservation of `Inv` by every operation, induction over histories; exact post-states |
| C07 | abstract effect of an import on the listing; permutation induction |
| C17, C19, C20, C31, C67, C73, C75, C90, C96 | witness execution for the negation; post-states for the part that holds. C73, C75, C90, C96 are proved at full strength for histories in which no step forgets a delta (second invariant `Tight`, PropsDelta4), and C31_forget_only says exactly which steps can |
| C24–C26, C63, C78 | induction over the manifest's files on top of the import lemmas |
| C27–C30, C72, C74 | invariants of every trace state; a second execution from the crashed state |
| C34 | induction over the loops of the delta job |
| C35–C45, C69, C76, C89 | invariants over all interleavings, refinement to the abstract store |
| C46–C49, C87 | byte-level lemmas on key prefixes; simulation of every call |
| C50–C52 | induction over the input, UTF-8 codec from scratch |
| C53–C56, C79 | invariants over the trace for every order of the renames |
| C57–C60 | reasoning over file lists; injectivity of the name format |
| C97–C100 | what each computation touches and leaves open, for every choice of failing steps; inversion of successful runs; evaluation of undisturbed runs |
| C61, C62, C80 | invariants of the process system; explicit schedules for the negations |
| C64–C66, C81–C84, C88 | structural induction on trees, paths, strings |
| C91 | the result of every operation computed from the specification of its request, in every reachable state |
| C92, C93, C95 | invariants of the product of job system, worker loops and closing goroutine |
| C94 | a lexicographic measure that decreases along every fair schedule |
| C108–C115 | an invariant (`Rough`) weak enough to survive a stop at any point of any job, and a Hoare logic over it for every function; histories `Wild` by induction |
| C115, C116 | an invariant (`Safe`: every listed package counted at least as often as listed, the tip the highest release), kept at all points of the adding jobs and of deletion and at the end of removals; histories `Careful` by induction |
| C110 | besides `Rough`, an invariant (`Tidy`: every file is whole and the copy of the file its name stands for), kept at all points of the jobs that add nothing and at the end of the jobs that add; histories `Steady` by induction |
| C121 | besides `Rough` and `Safe`, an invariant (`Stocked`: every record and every listing has its file), kept at all points of the jobs that take nothing away and at the end of the others; histories `Kept` by induction |
| C131 | besides `Stocked`, an invariant (`OnOffer`: whatever the published index offers is listed), kept at all points of the jobs that take nothing away and at the successful end of the others; histories `Diligent` by induction |
| C122 | a Hoare logic without any invariant: arbitrary states, arbitrary metadata |
| C125 | infinite runs with fairness of polling and returning; well-founded descent on the number of waiting jobs submitted earlier |
| C132 | the job queue of an infinite run of the daemon is one of C125; the step at which a job gets finished inverted by C118 |
| C133 | every operation's exact effect (the `…_run` lemmas) makes its second run idle: nothing to add, nothing to remove, an index that is already the current one; the two trims need `Op.Settles` |
| C134 | a relation between two runs: every state of a history with conflicting uploads has a *twin*, a state with the same database and directories that satisfies the invariant of a world in which each name stands for the bytes the pool has; every function takes twins to twins (`Par`, `same_*`), an import of a name the pool does not have chooses the bytes |
| C135 | `always_op`: a property of the files that is kept by six kinds of steps holds at all durable points of all jobs from any state; instance `Apart` (no file shares its inode with an upload), over histories with crashes; ownership of inodes by name (`Rough`) for the rest |
| C136 | `Like`: two states agree on a group of repositories, on the uploads and on what future index runs will do (pool counts and everything else may differ). `Sync`: a piece of code ends the same way from both and leaves agreeing states; proved function by function from the exact run lemmas (what is written depends only on the group, since the pool entry of a listed package is determined by its name). `Like.skip`: a job outside the group keeps the agreement (frame theorem of C08, plus: no job changes an upload). Induction over the history gives the comparison with the purged history; commutation by purging each order to the same single job for every repository, and the pool from the repositories by the exact counts. |
| C137 | `Leak lost`: the count of each package is at most the number of repositories listing it plus its multiplicity in `lost`. `Drip k lost`: a piece of code ends with `Leak lost` again, successful or not, and at its durable points `lost` is longer by at most `k`; function by function, with `k` = 1 for the code that counts a reference before it writes the listing, and 0 for everything else (removals give the reference back before they unlist; a deletion is one transaction). Induction over histories with cuts. Deltas are excluded: for them see C31, C75, C96. |
| C138 | `Real`: what is cached or listed belongs to an existing repository; `Thru`: kept at every durable point of every function that writes only pool records and listings of one existing repository; creation and deletion by hand (the deletion is one batch, whose writes are known). Induction over histories with crashes. |
| C139 | `Inv` determines tips, counts, pool and served files from the listings; the undo pairs follow from C08–C12, C15, C16 and the exact effect of an import |
| C140, C142 | `Rises`: every listing of the start kept and (where no cut removal has spoilt the counts, `Safe`) the published release not below; kept by every durable step of every adding function; false in general after a cut removal |
| C141 | `Within H`: every listing satisfies `H`; kept by every durable step of every function when `H` has what the job brings; histories with their jobs on record (`Ran`) by induction |
| C143, C144 | `Closure`: a set of states closed under the allowed operations, their cuts and failures is closed under the steps of the daemon whose unfinished and future requests are allowed; C141 and C142 give the two closures |
| C145 | `Thru (Repo · r ↔ P)` for every function but deletion (no write of a repository record), a creation with `P` true; deletion of a missing repository is refused since what is cached exists (`Real`); daemon by `Closure` |
| C146 | C118 gives the outcome of the step, C119 the history, C112 to C114 what success means; the upload job by its two halves |
| C147 | every database write is built from values read before it: an invariant of the database alone, which no file content can break; the same induction excludes panics when metadata have a history and a source (C72) |
| C148 | the jobs are written again with the mutexes they take; a simulation shows that the mutexes never matter to one goroutine, given that a repository has nothing newer than itself to pull and that a job cannot create the repository it just looked up |
| C149 | an order on the mutexes that every goroutine follows, strictly but for the one sequential worker; whoever waits, waits in the end for someone who can go on; every step uses up an event, so there are no infinite runs |
| C150 | accounting rules for open, close, defer, error returns and loops, applied to every job; a second set of rules shows that without failing calls the jobs are those of CoreModel |
| C151, C152 | case analysis over where a request ends up, with C82 for the routing of plain names; violations as evaluated calls |
| C153, C154 | a reader of XML (texts, references, CDATA sections, line ends, attributes, names, tags, nesting) written from the standard and independent of the printer; induction over the tree with the printer's state, the text proofs per character through both escapers |
| C155 | a reader that goes by the names of elements and attributes, written down without the printer; one lemma for each structure (children grouped by name), then C154 |
| C156 | C18/C21/C24 (the document of a successful job is correct for the state) through C155: `Describes` relates an entry of the document to the structure that is encoded, the fields the document leaves out being arbitrary |
| C157 | each type is put together from formats (number, string, slice, pointer, structure); one lemma for each way of putting together says that what is read is what was written; the messages of a stream by induction. `GobCodec`: hence the parameters `Jobs.Codec` and `Db.CoreCodec` can be gob |
| C158 | by induction over a string: what is written for a character is read as that character, what is written for another byte as U+FFFD; mutual induction over values with enough fuel; then field by field. What is read is what `Becomes` relates to what was written, and nothing else |
| C159 | C83 (the command line), C82/C158 (the bytes), C38 (stored until retired), a search for the step in which the submission is retired, C146 (completed means done) and C132 (fair runs retire it), composed |
| C160 | the date computed is the one reached by counting days through the calendar (years by linear arithmetic, months by a table that the kernel evaluates for each day of a year, uniqueness by monotonicity); digits by induction; the report as for C158 |
| C161 | the printed parts sum to the duration (arithmetic); a text stands for one duration only, because digits, dots and units can be split in one way; dates as in C160 |
| C162 | composition of C123 (schedules of the four reads), C160 (bytes), C161 (rows) and permutations of the sorted tables |
| C163 | invariant of every step, crashes included (the stored time of submission of a given job does not change), then C123's argument for that job and the rows of C162 |
| C164 | invariant of every step of the daemon, crashes included (each completed record comes from the end of a job without failure), and C146's argument that such a job has done what was asked |
| C165 | C82, C163 and C164 put together, over an induction on the executions in which the daemon stays up (each carries the records made on the way, and for a success the step that did the work) |
| C166 | the invariant of C164 for the other history: each record comes from the end of a job with a failure |
| C126 | equivalence for the read-only part of the index run, step by step; invariant over all points of a removal |
| C127, C28 (again), C128, C129 | exact outcome of one package (case split on which paths exist and share an inode), induction over the list, packages of other names framed |
| C123, C124 | induction over the steps between the reads: the slot of the ring each new record is in; records never outnumber finished jobs |
| C101–C107 | inversion of the readers for arbitrary decoders; sorting; composition with the index run of Core |
| C85, C86 | simulation of the product system by a sequential history, induction over schedules |
| C120 | what happens is written down beside the job system; an invariant relates the stored times to it |
| C117–C119, C130 | inversion of the step that finishes a job; C85's serial history mapped to histories with crashes (`Wild`, `Careful`, `Kept`, `Steady`, by which requests were cut short) |

No property of the list was found inexpressible.

## Disagreements between the properties and the code

Each is a theorem `Cxx_violated`; the execution is in its proof.

| id | what goes wrong | where |
|---|---|---|
| C17 | the skip-index flag is inverted | core/api.go:110-130 |
| C19 | with equal releases trimming to k can leave k+1 | repo.go:1087-1091 (the tip is skipped) |
| C20 | exactly obsolete names are never trimmed; of several debug packages only one is | repo.go:1166-1196 |
| C28 | a crash between link and record makes the retried import empty upload and pool file; one crash point does so with success reported | util.go:67-75, repo.go AddLocalPackage |
| C128 | a copy cut off between link and listing and run again reports success and empties the file in the target, the pool and the source repository | util.go:37-75, repo.go RefPackage |
| C129 | an upload cut off after its first package was listed can never be completed: every retry is refused because that package is "already included" | repo.go:735-746, transit_job.go:75 |
| C29 | pool entry dropped before the repository entry is updated: a crash leaves a repository that can never be indexed again | repo.go:501-577 |
| C31, C75, C73, C90, C96 | an import, pull or copy of a new package forgets the deltas of the name (and a removal of the last package of a name forgets the deltas not from or to it): pool reference and served file leak, and referencing the delta again empties the inode shared by pool and all repositories | repo.go:620-668, util.go:37-75 |
| C35, C43 | no handler for delta jobs: they always fail and break the status listing while queued | jobs/main.go, store.go |
| C42 | retirement deletes the job before recording it | jobs/store.go |
| C45 | a job that panics is executed again at every start and blocks the queue for ever | jobs/worker.go |
| C47, C49 | repository names containing `-package` collide in the key space; iteration over `a` visits `a-packages…` | libdb/leveldb.go |
| C52 | a character cut by the 4096-byte buffer is destroyed | core/escape.go |
| C55 | a crash between the renames leaves a checksum of another index | repo_index.go |
| C61, C62 | unlink on close lets two daemons run; the pid is written without truncation | lockfile.go |
| C63 | `..` in a manifest leaves the upload directory, imports and deletes foreign files | transit_manifest.go, transit_job.go |
| C64, C81 | source name `..`, repository names `.` and `..` | metadata.go:176-200, repo.go bakeRepo |
| C65 | overlapping arguments are submitted twice | ferryctl/cmd/import.go |
| C67 | pulling a repository into itself empties its asset files | repo.go pullAssets, util.go CopyFile |
| C68 | a request of one worker starts one per CPU | jobs/processor.go |
| C74 | a crash after the commit of a deletion leaves files for ever and blocks the name | repo.go:285-312 |
| C77 | manifests present at start, or renamed into place, are never queued | monitor.go |
| C78 | a failing upload leaves the packages imported before the failure, and its corrected version is refused | transit_job.go |
| C79 | left-over `.new.xz`/`.new.zst` make up to two repeated runs fail | repo_index.go |
| C82 | repository names are not escaped in URLs: deleting `a?b` deletes `a` | libferry/main.go |
| C84 | the socket file of a killed daemon, or of a start that failed after `net.Listen` (databases, watch), keeps the next one from starting | server.go:137-203, 230-250 |
| C88 | a repository may be created with a name that is not UTF-8 (the name travels in the URL, percent-encoded); `list repos` shows it under another name | ferryd/handlers.go:111 |
| C93 | between `db.Close` and the clearing of the pointer a submission fails, `PushJob` drops the error, and the client is told that it succeeded | store.go:85-93, processor.go:110-116 |
| C95 | `Close` unlocks and removes the lock file first and waits for the workers later | server.go:229-250 |
| C98 | without hard links the delta is copied under its final name; a copy cut short is taken for the finished delta | repo.go:812-815, util.go:66-75 |
| C99 | `install.tar` left by a killed production makes `unxz` refuse: the next attempt fails (and cleans up; the one after succeeds) | libeopkg/package.go:168-190, delta.go:199-206 |
| C100 | the tar and the delta written are never closed; on mismatched packages neither input is (`err` is nil in 80) | libeopkg/delta.go:79-81,172,330 |
| C102 | a package whose metadata have no summary or no description panics the import | libeopkg/main.go:49-57, package.go:113-125 |
| C103 | the set-uid, set-gid and sticky bits are lost: the number is cast to Go's os.FileMode, which has other bits for them | libeopkg/files.go:56-63 |
| C105 | a component or group without a local name, summary or description panics the job that rebuilds the index | libeopkg/components.go:81-86, groups.go:69-72 |
| C110 | the daemon dies between linking a package into a repository and recording it; the import is run again: it reports success and has emptied the inode that the pool and *every other* repository with that package share | util.go:32-75, repo.go:670-720 |
| C115 | the daemon dies in a removal after the count went down and before the listing did; run again, the count goes down twice, another repository's pool record vanishes, and an older release added there is published in place of the newer one | repo.go:501-577, 633-651 |
| C140 | after the same history the import of an older release lowers what the repository publishes | repo.go:501-577, 633-651 |
| C121 | a deletion or removal is cut after the pool file went and before its record did; a later import of that package into another repository finds the record and links from a file that is not there, which is no error: it reports success, and lists and indexes a package it does not have | util.go:37-42, repo.go:239-315, pool.go:259-289 |
| C131 | remove-source and the trims take the files away first and publish the new index last: in between (and for good if the index run then fails) the published index offers files that are not there | repo.go:1024-1060, 1142-1260, core/api.go:96-160 (index after the removal) |
| C133 | trim-obsolete removes only the first debug package of an obsolete name, so each repetition removes one more; the same can happen in trim-packages with several packages of the tip's release, as Go's sort is not stable | repo.go:1186, 1251 |
| C134 | a file name the pool already has is never looked at again: importing other bytes under that name only counts up and links the old bytes, reporting success | pool.go:187-236 |
| C135 | an import hard-links the upload into the pool (`LinkOrCopyFile` with `forceCopy` false), and a bulk import leaves the upload where it was: writing into it later changes the served package under the published hash | util.go:66-74, repo.go:691-692 (whose comment says "Always copy"), bulk_add.go:55 |
| C147 | with packages of release 0 (a history entry without the attribute) or less left under a name, a removal leaves the name listed with nothing published, and the repository cannot be indexed any more | repo.go:502, 560-563, repo_index.go:257-261 |
| C122 | a DeltaPackages section in the metadata.xml of an uploaded package is published in the index when the repository has no delta of its own for the package | repo_index.go:160-163 |
| C124 | a job that finishes while a status report is taken is listed both as running and as completed or failed (the lock is released between the reads) | handlers.go:66-96, store.go:334-412 |
| C107 | `Errors[0]` of a refusal without messages | core/purge_cloudflare.go:72 |
| C151 | a job store that cannot be written is answered like success; an error text of 2048 bytes or more is not read (a body of unstated length) and the HTTP status is not looked at; a name like `../../status` is led by httprouter's redirect to a page that only reports, whose JSON passes for success | handlers.go:143-306, processor.go:110-116, libferry/main.go:97-143 |
| C152 | commands print a message and return: every failure has the exit status 0 (and `remove repo` with a wrong number of words shows the help text on standard output) | ferryctl/cmd/*.go, ferryctl/main.go:35-39 |
| C153 | summaries, descriptions, comments and names of people are written as CDATA sections, and the escaping writer behind the encoder replaces symbols, control characters and blanks beyond ASCII by references there too, where they mean nothing: `™` is shown as `&#x2122;`; carriage returns become line feeds | core/escape.go, libeopkg/main.go:43, metadata.go:74-77, distribution.go:30 |
| C155 | the `lang` attribute of the distribution's descriptions has no namespace in its tag: `xml:lang` is read and `lang` written, so readers find no language | libeopkg/distribution.go:29-32 |
| C158 | a name that is not UTF-8 (any bytes may stand in a file's name) becomes another name on the way: ferryctl asks for `/a\xE9`, the daemon is told `/a\uFFFD`, and cannot tell | libferry/main.go:118-125 |

Also found while modelling, and part of the models: `GetRelease`/`GetVersion` index an empty history, `GetPathComponent` an
empty source name, `FixMissingLocalLanguage` an empty list: each panics and takes the daemon down (C72 states the condition
under which no job does; C45 what follows).  A delta entry without delta information panics in `UnrefPackage`.

## Trusted base

* Lean's kernel.  The theorems depend on no axioms other than `propext`, `Classical.choice` and `Quot.sound` (checked for
  every property theorem with `#print axioms`, as `vcheck` does).  No axioms are declared, nothing rests on compiled code.
* Faithfulness of the definitions to the Go text they cite.  Simplifications are stated in their comments; in summary:

**General.** Strings are lists of characters, each one byte (in `Transit` one Unicode character).  `strings.ToLower` is
ASCII.  Machine integers are unbounded except where wrap-around matters (reference counts `dec64`, job parameters, sequence
numbers: fewer than 2^62 submissions).  No I/O errors other than those named as parameters; LevelDB batches are atomic and
durable; gob decodes what it encoded (`Codec`, `CoreCodec` are parameters with that law; C157 shows that gob, modelled after Go's source, has it).  Symlinks are not modelled.

**Core.** `Env` makes parameters of package parsing, SHA-1/SHA-256, success of hard links, the order sort.Sort gives to
equals, parsing of asset files, and the outside conditions of an index run.  The histories of `Op.Ok` assume one file name always stands for the same
content (`canon`; C134 drops this for packages: `Op.Fits`), that a delta's name tells that it is one, and well-formed packages (history and source not empty, no delta list of their own, see C122) and complete asset files (see C102, C105 for others); repository
names are single path components (see C81).  Tables are separate in CoreModel; C87 proves that this is what the flat database holds if no
repository name contains `-package` (otherwise C47).  The nine index files are condensed to one document (IndexFiles has the files).  Removal of a
directory tree is one step.  In the histories `Wild` (C108–C115) a job stops at any of its durable steps, dying or failing; a package file being copied then holds a beginning of its
bytes (`Half`), an asset file anything; `NoTorn` assumes that a proper beginning of a package file is not itself a readable package (its zip directory is
at the end).  RemovePackageParents is left out of Core (it removes only empty directories, C66).

**Jobs, Daemon.** Go's scheduler is any interleaving of the steps; mutexes make store operations atomic towards each other but
not towards a kill.  The clock is an arbitrary number per step (for C120 it does not go back, and submissions and ends read it before they take the store's lock).  In `Daemon` outside changes (uploads, assets) fall between jobs,
and the asynchronous submissions of a delta-repo job are put at its end.

**Mutexes.** One pair of mutexes for each repository name (the cache of GetRepo keeps the object; it is dropped only when the repository is deleted).  A job's
mutexes are those it takes when run alone, which is how the sequential worker runs it; the unlocking of `defer` is atomic.  The lock file's own RWMutex and the `closable` mutex of the
database are not modelled (taken by one goroutine, at start and stop).

**Handles.** Counted are the files the code opens itself; not the descriptors of databases, log, lock file, directory reading, child processes and the cache purge.  A copy that fails half-way leaves an empty destination.

**Transit.** The TOML decoder and SHA-256 are parameters.  **Delta.** Archive formats are lists of members; SHA-1 without
collisions where C57_rebuild says so.  **Escape.** The Unicode class table is a parameter; bufio passes on chunks of 4096 bytes.
**Eopkg.** The zip reader, the XML decoders and Cloudflare's answers are parameters.
**Producer.** Any step may
fail; a failed or cut write leaves a truncated file; xz and unxz refuse to overwrite and are atomic otherwise (they remove what they wrote
when they fail); the Go finaliser that may close a forgotten file later is not modelled.  **IndexFiles.** xz and zstd refuse to overwrite.  **Lock.** flock per inode; signal 0 sees exactly the live daemons (a foreign
process with a reused id is not modelled).  **Client.** net/url and httprouter as documented; JSON bodies as records in `Client`, as bytes in `ClientBytes`.  **Answers.** net/http states the length of an answer of at most 2048 bytes; calls that get no answer are left out.  **Xml.** The printer of `encoding/xml` as in Go's source; strings are lists of characters (valid UTF-8); names of elements are ASCII.  **Gob.** `encoding/gob` as in Go's source on 64-bit machines; the messages that define types are a parameter, and the decoder is taken to find the fields of the type it was given.  **Json.** `encoding/json` as in Go's source for the values that are written; numbers with fractions are not read.  **Rfc3339.** Go's `time` as in its source, in UTC and from the year 1 on; of the texts that are no output of it, some that Go reads are errors.  **Server.**
The fsnotify fork reports `Update` when a written file is closed, and only `Create` for a rename.  **Listing.** table layout is left out.  **Shutdown.** A worker told to stop gets no new tick (its timer is stopped, and reset only for two seconds or more,
while the exit token is ready at once); C94 assumes weak fairness of the scheduler and that running jobs end.

Not modelled: logging, the systemd notification protocol, TLS/HTTP transport, cobra's flag parser beyond the flags used, the
build system, reading of XML by the daemon (packages' metadata, assets), eopkg and tar/zip formats.

## Wrong programs

`tools/mutate.py` applies the mutations of `seeded/mutations.json` (made by `seeded/gen.py`) to a scratch copy, cuts every proof that
breaks, and reports which property theorems can no longer be proved as they stand.  Results, one line per attempt, in
`seeded/LOG.jsonl`.  `tools/probe.py` does the same for executable transcriptions of the core statements (`seeded/Probe.lean.txt`):
it evaluates them on all short histories of a small world under the mutated program, which tells a statement that the wrong program
refutes from one whose proof merely broke.
