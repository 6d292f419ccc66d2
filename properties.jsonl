{"id": "C01", "title": "Pool reference count equals the number of repositories holding the package", "statement": "After any history of jobs the reference count shown for a package by the pool listing equals the number of repositories in which that package is available.", "quantifier": "every finite history of completed repository jobs (create, delete, clone, pull, import, remove-source, copy-source, trim, index) from an empty daemon", "why_tests_cant": "Quantifies over every history of jobs; a unit test fixes one short history.", "anchors": ["src/ferryd/core/pool.go: addPackageInternal, RefEntry, UnrefEntry, GetPoolItems", "src/ferryd/core/repo.go: AddLocalPackage, RefPackage, UnrefPackage, DeleteRepo"]}
{"id": "C02", "title": "A package stays in the pool exactly while some repository uses it", "statement": "Removing a package from one repository never deletes it from the pool while another repository lists it, and removing it from the last repository does delete the pool entry and the pool file.", "quantifier": "every finite history of completed repository jobs (create, delete, clone, pull, import, remove-source, copy-source, trim, index) from an empty daemon; every package id", "why_tests_cant": "Quantifies over every history of jobs; a unit test fixes one short history.", "anchors": ["src/ferryd/core/pool.go: UnrefEntry", "src/ferryd/core/repo.go: UnrefPackage, DeleteRepo"]}
{"id": "C03", "title": "Reference counts never underflow", "statement": "No job ever decrements the reference count of a package whose count is already zero (the unsigned count never wraps around).", "quantifier": "every finite history of completed repository jobs (create, delete, clone, pull, import, remove-source, copy-source, trim, index) from an empty daemon", "why_tests_cant": "A wrap needs an unbalanced history; tests only try balanced ones.", "anchors": ["src/ferryd/core/pool.go: UnrefEntry"]}
{"id": "C04", "title": "The tip of every package is its highest available release", "statement": "In every repository and for every package name listed, the published (tip) package is one of the available packages and has the highest release number among them.", "quantifier": "every finite history of completed repository jobs (create, delete, clone, pull, import, remove-source, copy-source, trim, index) from an empty daemon; every repository and package name", "why_tests_cant": "Quantifies over every history of jobs; a unit test fixes one short history.", "anchors": ["src/ferryd/core/repo.go: buildSaneEntry, UnrefPackage"]}
{"id": "C05", "title": "Every listed package is served, with the uploaded bytes, hash and size", "statement": "For every package a repository lists, the file in the repository's public tree exists, has exactly the bytes uploaded for that package, and the SHA-1 and size in its metadata are those of that file.", "quantifier": "every finite history of completed repository jobs (create, delete, clone, pull, import, remove-source, copy-source, trim, index) from an empty daemon; every listed package", "why_tests_cant": "File contents depend on the whole interleaving of link, copy and remove operations.", "anchors": ["src/ferryd/core/pool.go: addPackageInternal", "src/ferryd/core/util.go: LinkOrCopyFile", "src/ferryd/core/repo.go: AddLocalPackage, RefPackage"]}
{"id": "C06", "title": "Importing the same package again changes nothing", "statement": "Importing a package that the repository already lists succeeds and leaves pool, repository listing and files unchanged.", "quantifier": "every reachable state, every repository, every package it lists", "why_tests_cant": "Idempotence has to hold in every reachable state.", "anchors": ["src/ferryd/core/repo.go: AddLocalPackage", "src/ferryd/core/pool.go: addPackageInternal"]}
{"id": "C07", "title": "The order in which packages are imported does not matter", "statement": "Importing the same packages in any order leaves the same available lists, the same reference counts and (for distinct release numbers) the same tip for every package name.", "quantifier": "every list of packages and every permutation of it, from any reachable state", "why_tests_cant": "n! orders.", "anchors": ["src/ferryd/core/repo.go: buildSaneEntry, AddLocalPackage", "src/ferryd/core/api.go: AddPackages"]}
{"id": "C08", "title": "A job touches only the repository it names", "statement": "Any job on one repository leaves the package lists, tips, delta lists, index, assets and served package files of every other repository unchanged (for its delta files see C90).", "quantifier": "every reachable state, every job, every other repository", "why_tests_cant": "Needs all pairs of jobs and bystander repositories in all states.", "anchors": ["src/ferryd/core/repo.go", "src/ferryd/core/api.go"]}
{"id": "C09", "title": "Creating a repository", "statement": "Creating a repository with an unused name adds exactly that, empty, repository; creating one whose name exists fails and changes nothing.", "quantifier": "every reachable state and every name", "why_tests_cant": "All states and names.", "anchors": ["src/ferryd/core/repo.go: CreateRepo", "src/ferryd/core/api.go: CreateRepo"]}
{"id": "C10", "title": "Deleting a repository", "statement": "Deleting a repository removes it from the listing together with every package record and served file of it, releases exactly one reference per package it listed, and leaves the other repositories unchanged; deleting an unknown repository fails and changes nothing.", "quantifier": "every reachable state and every repository name", "why_tests_cant": "All states.", "anchors": ["src/ferryd/core/repo.go: DeleteRepo", "src/ferryd/core/api.go: DeleteRepo"]}
{"id": "C11", "title": "Tip clone", "statement": "Cloning a repository without the full flag creates a new repository that lists, for each package name of the origin, exactly the origin's tip, published as tip; the origin is unchanged.", "quantifier": "every reachable state, every origin and new name", "why_tests_cant": "All states.", "anchors": ["src/ferryd/core/repo.go: CloneFrom", "src/ferryd/core/api.go: CloneRepo"]}
{"id": "C12", "title": "Full clone", "statement": "Cloning with the full flag creates a repository with the same names, the same available packages and a tip of the same release for each; the origin is unchanged.", "quantifier": "every reachable state, every origin and new name", "why_tests_cant": "All states.", "anchors": ["src/ferryd/core/repo.go: CloneFrom", "src/ferryd/core/api.go: CloneRepo"]}
{"id": "C13", "title": "Pull brings the target up to date", "statement": "A successful pull adds to the target exactly those source tips whose name the target lacks or whose release is newer than the target's own tip, never removes a package from the target, and afterwards the target's tip of each source name is at least as new as the source's.", "quantifier": "every reachable state, every pair of distinct repositories", "why_tests_cant": "All states and pairs.", "anchors": ["src/ferryd/core/repo.go: PullFrom", "src/ferryd/core/api.go: PullRepo"]}
{"id": "C14", "title": "Pull refuses to downgrade, before changing anything", "statement": "If for some package the target's tip is newer than the source's tip, pull fails and no package list, reference count or package file changes.", "quantifier": "every reachable state, every pair of repositories", "why_tests_cant": "The check must precede every effect in every state.", "anchors": ["src/ferryd/core/repo.go: PullFrom"]}
{"id": "C15", "title": "Remove-source removes exactly the matching packages", "statement": "Removing a source at a release drops exactly those available packages whose source name and release match (every release of the source when the release given is not positive), keeps all others, and fails when nothing matches.", "quantifier": "every reachable state, source name and release", "why_tests_cant": "All states.", "anchors": ["src/ferryd/core/repo.go: RemoveSource"]}
{"id": "C16", "title": "Copy-source copies exactly the matching packages", "statement": "Copying a source adds to the target exactly the available packages of the origin with that source name and release (any release when the release given is not positive) and removes nothing.", "quantifier": "every reachable state, pair of repositories, source name and release", "why_tests_cant": "All states.", "anchors": ["src/ferryd/core/repo.go: CopySourceFrom"]}
{"id": "C17", "title": "The skip-index flag of copy-source", "statement": "Copy-source rebuilds the target index exactly when the caller did not ask to skip it.", "quantifier": "both flag values, every state", "why_tests_cant": "The effect is only visible in the published index.", "anchors": ["src/ferryd/core/api.go: CopySource"]}
{"id": "C18", "title": "Trim-packages keeps the newest", "statement": "Trimming to k ≥ 1 packages keeps, for each name, k packages of the highest releases, removes all the others from the listing, keeps the release of the tip, and touches no other name or repository; k < 1 is refused.", "quantifier": "every reachable state, every k", "why_tests_cant": "All states and k.", "anchors": ["src/ferryd/core/repo.go: TrimPackages"]}
{"id": "C19", "title": "Trim-packages keeps at most max(k,1) packages per name", "statement": "After trimming to k no name lists more than max(k,1) packages.", "quantifier": "every reachable state, every k, every outcome of the unstable sort", "why_tests_cant": "The sort is unstable; ties are scheduled by the runtime.", "anchors": ["src/ferryd/core/repo.go: TrimPackages"]}
{"id": "C20", "title": "Trim-obsolete removes every obsolete package", "statement": "After trim-obsolete the repository lists no package whose name the distribution file marks obsolete, including its -dbginfo companion, and every other package is kept.", "quantifier": "every reachable state and every distribution file", "why_tests_cant": "All states and all obsolete lists.", "anchors": ["src/ferryd/core/repo.go: TrimObsolete", "src/libeopkg/distribution.go: IsObsolete"]}
{"id": "C21", "title": "The index lists exactly the non-obsolete tips, sorted", "statement": "The package section of a freshly generated index contains, for each package name of the repository that is not obsolete, exactly its tip, once, in the order of the package file names; and each entry gives the location, size and hash of the file served.", "quantifier": "every reachable state and distribution file", "why_tests_cant": "All states.", "anchors": ["src/ferryd/core/repo_index.go: emitIndex, emitIndexPackage", "src/libeopkg/main.go: PackageSet"]}
{"id": "C22", "title": "Delta packages offered in the index lead to the tip", "statement": "Every delta listed for a package in the index targets the release being published, and every stored delta targeting it is listed.", "quantifier": "every reachable state", "why_tests_cant": "All states.", "anchors": ["src/ferryd/core/repo_index.go: pushDeltaPackages"]}
{"id": "C23", "title": "Strict uploads cannot go backwards", "statement": "In strict import mode a package whose release is not newer than the tip is refused, with no change at all to pool or repository.", "quantifier": "every reachable state and package", "why_tests_cant": "All states.", "anchors": ["src/ferryd/core/repo.go: AddPackage"]}
{"id": "C24", "title": "An upload with any bad checksum imports nothing", "statement": "If any file of an upload manifest is missing or its SHA-256 differs from the manifest, no package of that upload enters the pool or any repository.", "quantifier": "every manifest and file system content", "why_tests_cant": "All positions of the bad file.", "anchors": ["src/ferryd/jobs/transit_job.go: Execute", "src/ferryd/core/transit_manifest.go: ValidatePayload"]}
{"id": "C25", "title": "Only well-formed manifests are accepted", "statement": "A manifest is accepted exactly when its (trimmed) version is 1.0, it has a non-blank target, at least one file, and each file has a non-blank .eopkg path and a non-blank hash.", "quantifier": "every decoded manifest", "why_tests_cant": "Infinite input space.", "anchors": ["src/ferryd/core/transit_manifest.go: NewTransitManifest"]}
{"id": "C26", "title": "A successful upload clears the upload directory", "statement": "After a successful upload job the manifest and all its payload files are gone from the incoming directory, and a failed one leaves them in place.", "quantifier": "every manifest and state", "why_tests_cant": "All manifests.", "anchors": ["src/ferryd/jobs/transit_job.go: Execute"]}
{"id": "C27", "title": "A crash while adding leaves no dangling listing", "statement": "At every crash point of create, import, copy, pull or clone, every package any repository lists has a pool entry, a pool file and a served file with the right content.", "quantifier": "every reachable state, every job of those kinds, every crash point", "why_tests_cant": "Every intermediate durable state of every operation.", "anchors": ["src/ferryd/core/repo.go: AddLocalPackage, RefPackage", "src/ferryd/core/pool.go: addPackageInternal"]}
{"id": "C28", "title": "Retrying an import after a crash repairs it", "statement": "If the daemon dies during an import and the job is run again after restart, the imported package is served with the uploaded bytes.", "quantifier": "every crash point of an import", "why_tests_cant": "Every crash point.", "anchors": ["src/ferryd/core/pool.go: addPackageInternal", "src/ferryd/core/util.go: LinkOrCopyFile, CopyFile", "src/ferryd/jobs/store.go: unclaimJobs"]}
{"id": "C29", "title": "A crash while removing leaves the repository usable", "statement": "At every crash point of a removing job, a later index of the repository still succeeds.", "quantifier": "every crash point of remove-source and the trims", "why_tests_cant": "Every crash point.", "anchors": ["src/ferryd/core/repo.go: UnrefPackage"]}
{"id": "C30", "title": "Deleting a repository survives a crash", "statement": "If the daemon dies at any point while deleting a repository, running the deletion again either finds it already gone from the database or deletes it, and the final package database is the same as without the crash.", "quantifier": "every crash point of repository deletion", "why_tests_cant": "Every crash point.", "anchors": ["src/ferryd/core/repo.go: DeleteRepo", "src/libdb/leveldb.go: Update"]}
{"id": "C31", "title": "Adding a package keeps the deltas of that name", "statement": "Importing a package leaves the stored delta packages of the same package name in the repository.", "quantifier": "every reachable state", "why_tests_cant": "All states.", "anchors": ["src/ferryd/core/repo.go: buildSaneEntry"]}
{"id": "C32", "title": "Removing a package removes the deltas that need it", "statement": "After removing a package no delta from or to it is listed in that repository, and deltas between other packages are kept.", "quantifier": "every state, every delta list", "why_tests_cant": "All delta lists.", "anchors": ["src/ferryd/core/repo.go: UnrefPackage"]}
{"id": "C33", "title": "A pointless delta is not attempted again", "statement": "Once a delta between two packages has been recorded as impossible it is reported as such after any further history of jobs.", "quantifier": "every history", "why_tests_cant": "Unbounded histories.", "anchors": ["src/ferryd/core/pool.go: MarkDeltaFailed, GetDeltaFailed"]}
{"id": "C34", "title": "Delta generation covers every older release of the tip once", "statement": "A delta run for a package considers exactly each (older available release, newest listed file) pair, skips the pairs recorded as impossible, and afterwards every other pair has its delta listed or has been recorded as impossible.", "quantifier": "every repository state", "why_tests_cant": "All states.", "anchors": ["src/ferryd/jobs/delta.go: executeInternal"]}
{"id": "C35", "title": "The status listing always works", "statement": "Asking for the queued jobs succeeds whatever is in the queue.", "quantifier": "every queue content", "why_tests_cant": "Every queue.", "anchors": ["src/ferryd/jobs/store.go: ActiveJobs, cloneCurrentJobs", "src/ferryd/jobs/main.go: NewJobHandler"]}
{"id": "C36", "title": "Jobs start in the order they were submitted", "statement": "Among the jobs of one queue, a claim always takes the pending job submitted first that is not yet claimed.", "quantifier": "every interleaving of pushes, claims and retirements", "why_tests_cant": "All schedules.", "anchors": ["src/ferryd/jobs/store.go: claimJobInternal, pushJobInternal"]}
{"id": "C37", "title": "No job is run by two workers, and repository jobs never overlap", "statement": "A job is never claimed while another worker has it, and at most one sequential (repository-modifying) job runs at any time.", "quantifier": "every schedule of workers", "why_tests_cant": "All schedules.", "anchors": ["src/ferryd/jobs/store.go", "src/ferryd/jobs/worker.go", "src/ferryd/jobs/processor.go"]}
{"id": "C38", "title": "No submitted job is lost across crashes", "statement": "Every acknowledged job is, at any later moment including after any number of crashes and restarts, either still queued, or was executed to its end.", "quantifier": "every schedule with crashes and restarts", "why_tests_cant": "All schedules and crash points.", "anchors": ["src/ferryd/jobs/store.go: setup, unclaimJobs, RetireSequentialJob"]}
{"id": "C39", "title": "The history keeps the most recent 100 jobs", "statement": "After n retirements (none of them cut short by the death of the daemon) the completed (or failed) history consists of exactly the last min(n,100) retired jobs.", "quantifier": "every number of retirements", "why_tests_cant": "Wrap-around at every length.", "anchors": ["src/ferryd/jobs/store.go: markCompletion"]}
{"id": "C40", "title": "Resetting a history clears just that history", "statement": "Reset-completed empties the completed history, reset-failed the failed one, nothing else changes, and later retirements are recorded as from an empty history.", "quantifier": "every state", "why_tests_cant": "All states.", "anchors": ["src/ferryd/jobs/store.go: ResetCompleted, ResetFailed, resetInternal"]}
{"id": "C41", "title": "A finished job appears in exactly one history", "statement": "Retiring a job removes it from the queue and records it in the failed history when it has an error and in the completed history otherwise, and not in the other one.", "quantifier": "every state and outcome", "why_tests_cant": "All states.", "anchors": ["src/ferryd/jobs/store.go: RetireSequentialJob, RetireAsyncJob, markCompletion"]}
{"id": "C42", "title": "A finished job is recorded even if the daemon dies", "statement": "At every crash point of retiring a job the job is still queued or is in a history.", "quantifier": "every crash point of retirement", "why_tests_cant": "Every crash point.", "anchors": ["src/ferryd/jobs/store.go: RetireSequentialJob, markCompletion"]}
{"id": "C43", "title": "Delta jobs", "statement": "Requesting deltas for a package or repository eventually produces them (a delta job can be executed).", "quantifier": "every delta job", "why_tests_cant": "All job parameters.", "anchors": ["src/ferryd/jobs/main.go: NewJobHandler", "src/ferryd/handlers.go: DeltaRepo"]}
{"id": "C44", "title": "Job parameters survive the queue", "statement": "The parameters of a job read back by the worker are those given by the user when the job was created, or the job is refused; they are never altered.", "quantifier": "every parameter value of every job kind", "why_tests_cant": "Infinite input space (all strings, all integers).", "anchors": ["src/ferryd/jobs/*.go: New*Job, New*JobHandler"]}
{"id": "C45", "title": "One bad job does not stop the queue", "statement": "A job that fails or crashes the daemon does not prevent later jobs from running.", "quantifier": "every job, including those that crash the process", "why_tests_cant": "Needs a crash-restart history.", "anchors": ["src/ferryd/jobs/worker.go: processJob", "src/ferryd/jobs/store.go: unclaimJobs"]}
{"id": "C46", "title": "Database updates are all or nothing", "statement": "A group of writes made in one update either all become visible, when the update function succeeds, or none does, when it fails or the process dies.", "quantifier": "every list of writes and every point of failure", "why_tests_cant": "All lists and points.", "anchors": ["src/libdb/leveldb.go: Update"]}
{"id": "C47", "title": "Buckets are isolated", "statement": "Writing a key in one repository's (or other) bucket never changes what is read or iterated in a different bucket.", "quantifier": "every pair of bucket paths and keys", "why_tests_cant": "All strings as names and keys.", "anchors": ["src/libdb/leveldb.go: Bucket, getRealKey, ForEach"]}
{"id": "C48", "title": "Queue sequence numbers are fresh and increasing", "statement": "The next sequence number of a queue is larger than every number in use in it.", "quantifier": "every queue content", "why_tests_cant": "All contents, byte-level ordering.", "anchors": ["src/libdb/leveldb.go: NextSequence"]}
{"id": "C49", "title": "Iteration visits every key once in order", "statement": "Iterating a bucket calls the function once for each key of that bucket, in byte order, with its value.", "quantifier": "every database content", "why_tests_cant": "All contents.", "anchors": ["src/libdb/leveldb.go: ForEach"]}
{"id": "C50", "title": "Escaping leaves ASCII alone", "statement": "Any ASCII text written through the index escaper is written unchanged.", "quantifier": "every ASCII byte string", "why_tests_cant": "Infinite input space.", "anchors": ["src/ferryd/core/escape.go"]}
{"id": "C51", "title": "Escaped text is ASCII-safe and reads back", "statement": "Decoding the character references of the escaper's output gives what decoding those of the original text gives; in particular text without references reads back.", "quantifier": "every sequence of Unicode scalar values", "why_tests_cant": "Infinite input space.", "anchors": ["src/ferryd/core/escape.go"]}
{"id": "C52", "title": "Escaping does not depend on how the text is split into writes", "statement": "Writing the text in pieces gives the same output as writing it at once.", "quantifier": "every text and every way of cutting it", "why_tests_cant": "All cut positions.", "anchors": ["src/ferryd/core/escape.go", "src/ferryd/core/repo_index.go: Index"]}
{"id": "C53", "title": "A published index file is always complete", "statement": "At every moment during an index run, including any crash point, each served index file has either its complete previous content or its complete new content.", "quantifier": "every crash point and every order of the final renames", "why_tests_cant": "All crash points and map orders.", "anchors": ["src/ferryd/core/repo_index.go: Index"]}
{"id": "C54", "title": "A failed index run leaves the published index as it was", "statement": "If index generation fails before publication all served index files are unchanged, and no temporary file registered by that run remains.", "quantifier": "every failure point", "why_tests_cant": "All failure points.", "anchors": ["src/ferryd/core/repo_index.go: Index"]}
{"id": "C55", "title": "Checksum files match the index they stand beside", "statement": "After a successful index run each .sha1sum file is the checksum of the file it accompanies, and this holds at every crash point.", "quantifier": "every state, every crash point", "why_tests_cant": "All crash points.", "anchors": ["src/ferryd/core/repo_index.go: Index"]}
{"id": "C56", "title": "Indexing recovers after any crash", "statement": "After a crash at any point of an index run, repeating the index job succeeds after finitely many attempts (at most three).", "quantifier": "every crash point", "why_tests_cant": "All crash points.", "anchors": ["src/ferryd/core/repo_index.go: Index", "src/libeopkg/util.go: XzFile, ZstdFile"]}
{"id": "C57", "title": "A delta plus the old package rebuilds the new one", "statement": "Every file of the new package is either in the delta archive or has content (hash) already in the old package.", "quantifier": "every pair of file lists", "why_tests_cant": "All file lists.", "anchors": ["src/libeopkg/delta.go: produceInstallBall, copyInstallPartial"]}
{"id": "C58", "title": "Useless deltas are refused", "statement": "Delta production is refused exactly when the archive would contain every file of the new package.", "quantifier": "every pair of packages whose file lists name each path once", "why_tests_cant": "All file lists.", "anchors": ["src/libeopkg/delta.go: produceInstallBall"]}
{"id": "C59", "title": "Delta file names identify the pair of packages", "statement": "Two different (old, new) pairs of releases of the same package never get the same delta file name.", "quantifier": "every pair of packages", "why_tests_cant": "All names and numbers.", "anchors": ["src/libeopkg/util.go: ComputeDeltaName"]}
{"id": "C60", "title": "Deltas go only forward within one package", "statement": "Deltas are allowed only between two packages of the same name, distribution release and architecture, from a lower to a higher release; the relation has no cycles.", "quantifier": "every pair (and chain) of packages", "why_tests_cant": "All chains.", "anchors": ["src/libeopkg/util.go: IsDeltaPossible"]}
{"id": "C61", "title": "At most one daemon runs per base directory", "statement": "At most one process at a time believes it holds the daemon lock.", "quantifier": "every interleaving of starts, stops and crashes of any number of processes", "why_tests_cant": "All schedules.", "anchors": ["src/ferryd/lockfile.go"]}
{"id": "C62", "title": "The lock file names the process holding it", "statement": "While a daemon runs, reading the lock file gives its process id.", "quantifier": "every stale content and process id", "why_tests_cant": "All contents.", "anchors": ["src/ferryd/lockfile.go: writePID, readPID"]}
{"id": "C63", "title": "An upload manifest can only refer to its own directory", "statement": "The files named by an accepted manifest lie in the incoming directory that holds the manifest.", "quantifier": "every manifest path string", "why_tests_cant": "All path strings.", "anchors": ["src/ferryd/core/transit_manifest.go: GetPaths"]}
{"id": "C64", "title": "Package directory layout", "statement": "Packages of a source live in <first letter>/<source>, lower-cased, with lib-prefixed sources in lib<letter>; the result never escapes the pool for a name without slashes.", "quantifier": "every source name", "why_tests_cant": "All strings.", "anchors": ["src/libeopkg/metadata.go: GetPathComponent"]}
{"id": "C65", "title": "Bulk import finds every package file", "statement": "Importing directories submits every regular file below them ending in x86_64.eopkg exactly once and nothing else.", "quantifier": "every directory tree", "why_tests_cant": "All trees.", "anchors": ["src/ferryctl/cmd/import.go: GetEopkgs"]}
{"id": "C66", "title": "Cleaning up directories never removes data", "statement": "After removing a package, only empty parent directories up to two levels are removed.", "quantifier": "every directory state", "why_tests_cant": "All directory states.", "anchors": ["src/ferryd/core/util.go: RemovePackageParents"]}
{"id": "C67", "title": "Pulling keeps the asset files intact", "statement": "After a pull each asset file of the target has the source's complete content, and the source's is unchanged.", "quantifier": "every pair of repositories, including equal ones", "why_tests_cant": "Includes the aliasing case.", "anchors": ["src/ferryd/core/repo.go: pullAssets", "src/ferryd/core/util.go: CopyFile"]}
{"id": "C68", "title": "Number of background workers", "statement": "The number of asynchronous workers is that requested when at least one is given, and otherwise derived from the number of CPUs, always at least one.", "quantifier": "every requested number and CPU count", "why_tests_cant": "All integers.", "anchors": ["src/ferryd/jobs/processor.go: NewProcessor"]}
{"id": "C69", "title": "Running jobs are shown as running", "statement": "In the status listing a job is shown as running exactly when a worker has claimed it.", "quantifier": "every queue state", "why_tests_cant": "All schedules.", "anchors": ["src/ferryd/jobs/store.go: ActiveJobs", "src/libferry/types.go"]}
{"id": "C70", "title": "Debug packages of obsolete packages are hidden", "statement": "A -dbginfo package is left out of the index exactly when its base package or itself is obsolete.", "quantifier": "every package name and obsolete list", "why_tests_cant": "All strings.", "anchors": ["src/ferryd/core/repo_index.go: emitIndexPackage"]}
{"id": "C71", "title": "The index describes the files served", "statement": "Every package entry of a freshly generated index names a file that the repository serves, with its exact size and SHA-1.", "quantifier": "every reachable state", "why_tests_cant": "All histories.", "anchors": ["src/ferryd/core/repo_index.go: emitIndex", "src/ferryd/core/repo.go"]}
{"id": "C72", "title": "No repository job panics on well-formed packages", "statement": "While every package has a history and a source name, no repository job ends in a panic.", "quantifier": "every reachable state, every job and parameters", "why_tests_cant": "All histories and parameters.", "anchors": ["src/ferryd/core"]}
{"id": "C73", "title": "Listed deltas are served", "statement": "Every delta a repository lists is in its public tree with the bytes of the produced delta file.", "quantifier": "every history of jobs", "why_tests_cant": "All histories.", "anchors": ["src/ferryd/core/repo.go: AddDelta, RefDelta, UnrefPackage"]}
{"id": "C74", "title": "A deleted repository leaves nothing behind, even after a crash", "statement": "If a repository's deletion was cut short and it is gone from the database, its name can be created again and no file of the old one is served.", "quantifier": "every crash point of repository deletion", "why_tests_cant": "All crash points.", "anchors": ["src/ferryd/core/manager.go: DeleteRepo", "src/ferryd/core/repo.go: DeleteRepo"]}
{"id": "C75", "title": "Delta reference counts are exact", "statement": "The reference count of a delta in the pool is the number of repositories that list it.", "quantifier": "every history of jobs", "why_tests_cant": "All histories.", "anchors": ["src/ferryd/core/pool.go", "src/ferryd/core/repo.go: AddDelta, RefDelta, UnrefPackage"]}
{"id": "C76", "title": "Repository jobs run once, in the order of submission", "statement": "Repository-modifying jobs finish in the order in which they were submitted and none is finished twice.", "quantifier": "every schedule with crashes and restarts", "why_tests_cant": "All schedules.", "anchors": ["src/ferryd/jobs/store.go", "src/ferryd/jobs/worker.go"]}
{"id": "C77", "title": "Every uploaded manifest is processed", "statement": "A manifest put into the incoming directory is queued for import, once for each time it is put there, and nothing else in that directory is.", "quantifier": "every history of uploads, starts and stops of the daemon", "why_tests_cant": "All histories and timings.", "anchors": ["src/ferryd/monitor.go", "src/ferryd/server.go: Bind, Serve"]}
{"id": "C78", "title": "An upload is all or nothing", "statement": "If an upload job fails, no package of that upload has entered the target repository.", "quantifier": "every manifest, every state", "why_tests_cant": "All manifests and states.", "anchors": ["src/ferryd/jobs/transit_job.go"]}
{"id": "C79", "title": "Repeating an interrupted index job succeeds", "statement": "After a crash at any point of an index run the very next index run succeeds.", "quantifier": "every crash point", "why_tests_cant": "All crash points.", "anchors": ["src/ferryd/core/repo_index.go: Index, writeIndex"]}
{"id": "C80", "title": "A daemon that died does not keep the next one from starting", "statement": "However earlier daemons ended, when none is alive a new one gets the lock.", "quantifier": "every interleaving of starts, stops and crashes", "why_tests_cant": "All schedules.", "anchors": ["src/ferryd/lockfile.go: NewLockFile, Lock"]}
{"id": "C81", "title": "Every repository has a directory of its own", "statement": "The directories of different repositories lie below the common one and none contains another.", "quantifier": "every pair of repository names without slashes", "why_tests_cant": "All names.", "anchors": ["src/ferryd/core/repo.go: bakeRepo, CreateRepo"]}
{"id": "C82", "title": "A command acts on the repository it names", "statement": "The request a client sends for a repository name leads the daemon to run the named action on exactly that repository, with exactly the other parameters given.", "quantifier": "every command, repository names and parameters", "why_tests_cant": "All strings.", "anchors": ["src/libferry/main.go", "src/ferryd/server.go: Bind (routes)", "src/ferryd/handlers.go"]}
{"id": "C83", "title": "Command-line arguments mean what they say", "statement": "ferryctl sends the daemon the repositories, releases, paths and numbers it was given, each in its role, or refuses the command line.", "quantifier": "every command line", "why_tests_cant": "All argument vectors.", "anchors": ["src/ferryctl/cmd"]}
{"id": "C84", "title": "The daemon can serve again after a crash", "statement": "Whenever the daemon is not running it can be started and will listen on its socket.", "quantifier": "every history of starts, failed starts, orderly ends and kills", "why_tests_cant": "All histories.", "anchors": ["src/ferryd/server.go: Bind, Close", "src/ferryd/main.go"]}
{"id": "C85", "title": "The repositories are what the submitted jobs make of them, in order", "statement": "At any moment the repositories are as if the finished repository jobs had been executed one after another, each exactly once and in the order of submission, with nothing else in between than changes made from outside, restarts, and attempts at the next job that were cut short, at any point and also in the middle of copying a file, by the death of the daemon; a job that an I/O error ended early counts as executed up to that error.", "quantifier": "every schedule of submissions, workers, crashes and restarts", "why_tests_cant": "All schedules and crash points of the whole daemon.", "anchors": ["src/ferryd/jobs/worker.go: processJob", "src/ferryd/jobs/store.go", "src/ferryd/core/api.go"]}
{"id": "C86", "title": "The daemon as a whole keeps the repositories consistent", "statement": "While the daemon has not died in the middle of a repository job, whatever has been submitted and however the workers interleaved, reference counts equal the number of listing repositories, listed packages are served with the uploaded bytes, tips are the highest releases, and no job brings the daemon down.", "quantifier": "every schedule, well-formed packages", "why_tests_cant": "All schedules of the whole daemon.", "anchors": ["src/ferryd/jobs", "src/ferryd/core"]}
{"id": "C87", "title": "The package database behaves as separate tables", "statement": "For repository names that do not contain '-package', every read of and every iteration over the pool, the failed deltas, the repositories and each repository's packages gives what was last written to that table, as if each were stored on its own; also after a crash in the middle of a job.", "quantifier": "every history of jobs, every crash point, every encoding that can be decoded", "why_tests_cant": "All histories, keys and crash points.", "anchors": ["src/libdb/leveldb.go", "src/ferryd/core/pool.go", "src/ferryd/core/repo.go", "src/ferryd/core/manager.go"]}
{"id": "C88", "title": "The listings of repositories and pool are exact", "statement": "The list of repositories names every repository once, in byte order, and nothing else; the list of the pool has exactly one line for each package in the pool, showing the number of repositories that list it.", "quantifier": "every history of jobs", "why_tests_cant": "All histories.", "anchors": ["src/ferryd/core/repo.go: GetRepos", "src/ferryd/core/pool.go: GetPoolItems", "src/ferryd/handlers.go: GetRepos, GetPoolItems", "src/ferryctl/cmd/list_repos.go", "src/ferryctl/cmd/list_pool.go"]}
{"id": "C89", "title": "The status report shows the right jobs", "statement": "When the status report can be made it shows the ten current jobs queued first, and the ten failed and ten completed jobs queued last (all of them on request), in that order, and marks as running exactly the jobs being executed.", "quantifier": "every schedule of submissions, executions, crashes and restarts", "why_tests_cant": "All schedules.", "anchors": ["src/ferryctl/cmd/status.go", "src/libferry/types.go: JobSet", "src/ferryd/jobs/store.go: ActiveJobs, FailedJobs, CompletedJobs"]}
{"id": "C90", "title": "Files served by other repositories stay as they are", "statement": "A job on one repository leaves every file, delta packages included, that another repository serves unchanged.", "quantifier": "every history of jobs followed by any job", "why_tests_cant": "All histories.", "anchors": ["src/ferryd/core/util.go: CopyFile, LinkOrCopyFile", "src/ferryd/core/repo.go: RefDelta, AddDelta"]}
{"id": "C91", "title": "A job succeeds exactly when its request is valid", "statement": "Every repository job reports success if and only if its request is valid (the repositories named exist, or do not for create and the new one of a clone; there is something to remove or copy; every file to import is a readable package, and in a strict upload newer than all of its name before it; nothing in the target of a pull is newer; the number to keep is at least one; there is a distribution file for trim-obsolete) and, when it ends by rebuilding an index, the asset files found then parse and no tool of that index run fails.", "quantifier": "every reachable state, every operation and parameters", "why_tests_cant": "All histories and parameters.", "anchors": ["src/ferryd/core/manager.go", "src/ferryd/core/api.go", "src/ferryd/core/repo.go", "src/ferryd/core/repo_index.go"]}
{"id": "C92", "title": "An orderly stop cuts no job short", "statement": "When the daemon is told to stop, every job being executed is executed to its end and retired before the databases are closed; a daemon that is only ever stopped that way begins no job twice, over any number of restarts.", "quantifier": "every schedule of clients, workers and the stopping goroutine", "why_tests_cant": "All schedules and times of the signal.", "anchors": ["src/ferryd/server.go: Close, killHandler", "src/ferryd/jobs/processor.go: Close", "src/ferryd/jobs/worker.go: Start, Stop", "src/ferryd/jobs/store.go: Close"]}
{"id": "C93", "title": "A request answered without an error is queued", "statement": "Every request the daemon answers without an error has become a job that is queued or has been executed, also while the daemon stops.", "quantifier": "every schedule of clients, workers, signals and crashes", "why_tests_cant": "All schedules.", "anchors": ["src/ferryd/jobs/processor.go: PushJob", "src/ferryd/jobs/store.go: Close, pushJobInternal", "src/ferryd/server.go: Close"]}
{"id": "C94", "title": "An orderly stop comes to an end", "statement": "After the signal the daemon ends once the jobs being executed have ended, whatever clients submit meanwhile; it is never stuck.", "quantifier": "every fair schedule", "why_tests_cant": "All infinite schedules.", "anchors": ["src/ferryd/server.go: Close", "src/ferryd/jobs/processor.go: Close", "src/ferryd/jobs/worker.go: Start, Stop, setTime"]}
{"id": "C95", "title": "The lock is held as long as the daemon works", "statement": "As long as the daemon executes a job, it holds the lock that keeps a second daemon from starting.", "quantifier": "every schedule", "why_tests_cant": "All schedules and times of the signal.", "anchors": ["src/ferryd/server.go: Close", "src/ferryd/lockfile.go"]}
{"id": "C96", "title": "Served deltas are listed", "statement": "Every delta file in the public tree of a repository is of a delta that the repository lists, and lies in the directory of its source.", "quantifier": "every history of jobs", "why_tests_cant": "All histories.", "anchors": ["src/ferryd/core/repo.go: AddDelta, RefDelta, UnrefPackage, buildSaneEntry"]}
{"id": "C97", "title": "Producing a delta leaves nothing behind but the delta", "statement": "However the production of a delta ends, afterwards there is no working directory and no temporary file, and no file has changed except that the delta may have appeared in the staging area; while it goes on nothing is touched outside the working directory and the place of the delta.", "quantifier": "every pair of packages, every combination of failing steps (the removal of directories works)", "why_tests_cant": "All combinations of failures.", "anchors": ["src/libeopkg/delta.go: NewDeltaProducer, Close, Commit", "src/ferryd/core/util.go: ProduceDelta", "src/ferryd/core/repo.go: CreateDelta"]}
{"id": "C98", "title": "A staged delta is whole", "statement": "When CreateDelta reports success, the file it names is the whole delta package, whatever attempts failed or were killed before.", "quantifier": "every history of attempts, failing steps and kills", "why_tests_cant": "All crash points and failures.", "anchors": ["src/ferryd/core/repo.go: CreateDelta", "src/ferryd/core/util.go: ProduceDelta, LinkOrCopyFile, CopyFile"]}
{"id": "C99", "title": "Repeating an interrupted delta production succeeds", "statement": "After any number of failed or killed attempts an attempt in which nothing fails stages exactly the delta (or reports that it is pointless) and changes nothing else.", "quantifier": "every history of attempts, failing steps and kills", "why_tests_cant": "All crash points and failures.", "anchors": ["src/libeopkg/delta.go: produceInstallBall, copyInstallPartial", "src/libeopkg/package.go: ExtractTarball", "src/libeopkg/util.go: XzFile, UnxzFile"]}
{"id": "C100", "title": "Delta production leaves no file open", "statement": "When CreateDelta returns, every file it opened is closed.", "quantifier": "every pair of packages, every combination of failing steps", "why_tests_cant": "All combinations of failures.", "anchors": ["src/libeopkg/delta.go: NewDeltaProducer, Close, produceInstallBall, pushInstallBall, Commit", "src/ferryd/core/util.go: CopyFile"]}
{"id": "C101", "title": "A package says what its metadata file says", "statement": "When reading a package succeeds, its metadata are those of the first member called metadata.xml, with the texts of summary and description trimmed and the first text tagged as English if it has no language; a reading that fails leaves the package object as it was.", "quantifier": "every archive and every decoding of its members", "why_tests_cant": "All archives.", "anchors": ["src/libeopkg/package.go: Open, FindFile, ReadMetadata, ReadAll", "src/libeopkg/metadata.go", "src/libeopkg/main.go: FixMissingLocalLanguage"]}
{"id": "C102", "title": "Reading a package never brings the daemon down", "statement": "Whatever an archive contains, reading it returns a result or an error.", "quantifier": "every archive and every decoding of its members", "why_tests_cant": "All archives.", "anchors": ["src/libeopkg/package.go: ReadMetadata", "src/libeopkg/main.go: FixMissingLocalLanguage", "src/ferryd/core/repo.go: AddLocalPackage"]}
{"id": "C103", "title": "File modes are read exactly", "statement": "The file list of a package is read exactly if all its modes are octal numbers of 32 bits, and then each file has the permission, set-uid, set-gid and sticky bits of its mode.", "quantifier": "every archive, every mode string", "why_tests_cant": "All strings.", "anchors": ["src/libeopkg/files.go: initFileMode, FileMode, IsSetuid, IsSetgid, IsSticky", "src/libeopkg/package.go: ReadFiles"]}
{"id": "C104", "title": "The index carries the repository's components and groups", "statement": "Whenever a job has published an index, it carries the components and groups of the asset files as they then are, each once, sorted by name, the first text of each kind tagged as English if it has no language; none if there is no file. The order within the file does not matter.", "quantifier": "every reachable state, every publishing job, every asset file", "why_tests_cant": "All histories and files.", "anchors": ["src/libeopkg/components.go", "src/libeopkg/groups.go", "src/ferryd/core/repo_index.go: emitIndex"]}
{"id": "C105", "title": "No asset file brings the daemon down", "statement": "Whatever components.xml and groups.xml contain, rebuilding an index returns a result or an error.", "quantifier": "every asset file, every state", "why_tests_cant": "All files.", "anchors": ["src/libeopkg/components.go: NewComponents", "src/libeopkg/groups.go: NewGroups", "src/libeopkg/main.go: FixMissingLocalLanguage"]}
{"id": "C106", "title": "The cache is purged of exactly the listed files", "statement": "With a token and a zone configured, an index run asks the cache to purge exactly the non-empty lines of the repository's list, in order and in one request, and otherwise asks nothing; the run reports success exactly if there was nothing to ask or the request succeeded.", "quantifier": "every configuration, list and answer", "why_tests_cant": "All lists and answers.", "anchors": ["src/ferryd/core/purge_cloudflare.go"]}
{"id": "C107", "title": "No answer of the cache brings the daemon down", "statement": "Whatever the cache answers, the purge returns.", "quantifier": "every answer", "why_tests_cant": "All answers.", "anchors": ["src/ferryd/core/purge_cloudflare.go"]}
{"id": "C108", "title": "Isolation after any number of crashes", "statement": "Whatever crashes and I/O errors went before, a job directed at one repository leaves every other one alone, also if it is itself cut short: existence, listings, tips, deltas, published index, asset files and which files are served.", "quantifier": "every history of jobs in which the daemon may die, and any job may be cut short by an I/O error, any number of times and at any points, then every job and every moment of it", "why_tests_cant": "Unboundedly many crash points in one history.", "anchors": ["src/ferryd/core/repo.go", "src/ferryd/core/pool.go", "src/ferryd/core/manager.go", "src/ferryd/core/repo_index.go", "src/ferryd/core/util.go", "src/libdb/leveldb.go"]}
{"id": "C109", "title": "No panic and no zero count after any number of crashes", "statement": "However many crashes and I/O errors went before, no job panics on well-formed packages and no reference count is zero or wraps around.", "quantifier": "every history of jobs in which the daemon may die, and any job may be cut short by an I/O error, any number of times and at any points", "why_tests_cant": "Unboundedly many crash points in one history.", "anchors": ["src/ferryd/core/repo.go", "src/ferryd/core/pool.go", "src/ferryd/core/manager.go", "src/ferryd/core/repo_index.go", "src/ferryd/core/util.go", "src/libdb/leveldb.go"]}
{"id": "C110", "title": "Served bytes are right after any number of crashes", "statement": "After any history of jobs, crashes and I/O errors, what a repository serves as a package it lists are the uploaded bytes.", "quantifier": "every history of jobs in which the daemon may die, and any job may be cut short by an I/O error, any number of times and at any points", "why_tests_cant": "Unboundedly many crash points in one history.", "anchors": ["src/ferryd/core/repo.go", "src/ferryd/core/pool.go", "src/ferryd/core/manager.go", "src/ferryd/core/repo_index.go", "src/ferryd/core/util.go", "src/libdb/leveldb.go"]}
{"id": "C111", "title": "Listings and pool records stay sane after any number of crashes", "statement": "After any history of jobs, crashes and I/O errors, what is listed under a name are readable packages of that name, each once and in order, with exactly one tip, which is listed; and every pool record describes the uploaded file.", "quantifier": "every history of jobs in which the daemon may die, and any job may be cut short by an I/O error, any number of times and at any points", "why_tests_cant": "Unboundedly many crash points in one history.", "anchors": ["src/ferryd/core/repo.go", "src/ferryd/core/pool.go", "src/ferryd/core/manager.go", "src/ferryd/core/repo_index.go", "src/ferryd/core/util.go", "src/libdb/leveldb.go"]}
{"id": "C112", "title": "A published index is right after any number of crashes", "statement": "However many crashes and I/O errors went before, a job that ends with an index run and succeeds has published the right index; and no index ever served gives a wrong size or hash.", "quantifier": "every history of jobs in which the daemon may die, and any job may be cut short by an I/O error, any number of times and at any points", "why_tests_cant": "Unboundedly many crash points in one history.", "anchors": ["src/ferryd/core/repo.go", "src/ferryd/core/pool.go", "src/ferryd/core/manager.go", "src/ferryd/core/repo_index.go", "src/ferryd/core/util.go", "src/libdb/leveldb.go"]}
{"id": "C113", "title": "A successful job has done its work, after any number of crashes", "statement": "However many crashes and I/O errors went before, an import, clone, pull, remove-source, copy-source or trim that reports success has changed the listings exactly as it should.", "quantifier": "every history of jobs in which the daemon may die, and any job may be cut short by an I/O error, any number of times and at any points", "why_tests_cant": "Unboundedly many crash points in one history.", "anchors": ["src/ferryd/core/repo.go", "src/ferryd/core/pool.go", "src/ferryd/core/manager.go", "src/ferryd/core/repo_index.go", "src/ferryd/core/util.go", "src/libdb/leveldb.go"]}
{"id": "C114", "title": "A repository can always be deleted", "statement": "Whatever crashes and I/O errors went before, deleting an existing repository succeeds and leaves nothing of it.", "quantifier": "every history of jobs in which the daemon may die, and any job may be cut short by an I/O error, any number of times and at any points", "why_tests_cant": "Unboundedly many crash points in one history.", "anchors": ["src/ferryd/core/repo.go", "src/ferryd/core/pool.go", "src/ferryd/core/manager.go", "src/ferryd/core/repo_index.go", "src/ferryd/core/util.go", "src/libdb/leveldb.go"]}
{"id": "C115", "title": "The published release is the newest, after any number of crashes", "statement": "After any history of jobs, crashes and I/O errors, the published release of a name is the highest one its repository lists.", "quantifier": "every history of jobs in which the daemon may die, and any job may be cut short by an I/O error, any number of times and at any points", "why_tests_cant": "Unboundedly many crash points in one history.", "anchors": ["src/ferryd/core/repo.go", "src/ferryd/core/pool.go", "src/ferryd/core/manager.go", "src/ferryd/core/repo_index.go", "src/ferryd/core/util.go", "src/libdb/leveldb.go"]}
{"id": "C116", "title": "Cut imports, clones, pulls and deletions cost nobody a package", "statement": "As long as no remove-source or trim job is cut short, whatever a repository lists is in the pool, with a count of at least the number of repositories listing it, and every valid index, remove-source or trim request succeeds if the asset files parse and the index tools work.", "quantifier": "every history of jobs in which every job other than remove-source and the trims may be cut short at any point by a crash or an I/O error, any number of times", "why_tests_cant": "Unboundedly many crash points in one history.", "anchors": ["src/ferryd/core/repo.go", "src/ferryd/core/pool.go", "src/ferryd/core/manager.go", "src/ferryd/core/repo_index.go", "src/ferryd/core/util.go", "src/libdb/leveldb.go"]}
{"id": "C117", "title": "A delta-repository job asks for the deltas of every package", "statement": "Executing a delta-repository job on an existing repository submits exactly one delta job for each name the repository lists, in byte order, and leaves the repositories alone; for an unknown repository it fails and submits nothing.", "quantifier": "every reachable state, every repository name", "why_tests_cant": "All histories.", "anchors": ["src/ferryd/jobs/delta_repo.go: Execute", "src/ferryd/core/repo.go: GetPackageNames"]}
{"id": "C118", "title": "The recorded outcome of a job is the outcome of its execution", "statement": "When a job gets finished, its request has been carried out on the repositories, exactly then; it is recorded as failed if its parameters are bad or carrying it out failed and as completed otherwise; the jobs it asked for have been submitted; and if an I/O error ended it early, it is recorded as failed and has submitted nothing.", "quantifier": "every state and every step of the daemon, every job", "why_tests_cant": "All schedules, crashes and histories.", "anchors": ["src/ferryd/jobs/main.go: NewJobHandler", "src/ferryd/jobs/worker.go: Start, processJob", "src/ferryd/jobs/store.go: RetireJob, markCompletion", "src/ferryd/jobs/*.go: Execute"]}
{"id": "C119", "title": "The daemon survives its crashes", "statement": "Whatever has been submitted and however often the daemon died or a job met an I/O error, also in the middle of copying a file, its repositories are those of a history of operations with crashes; so no job brings it down, counts are positive, listings and tips are sane, served files are beginnings of the uploaded ones, and no published index gives a wrong size or hash.", "quantifier": "every schedule of clients, workers, crashes and I/O errors", "why_tests_cant": "Unboundedly many crash points in one history.", "anchors": ["src/ferryd/jobs/main.go: NewJobHandler", "src/ferryd/jobs/worker.go: Start, processJob", "src/ferryd/jobs/store.go: RetireJob, markCompletion", "src/ferryd/jobs/*.go: Execute", "src/ferryd/core/repo.go", "src/ferryd/core/pool.go", "src/ferryd/core/manager.go", "src/ferryd/core/repo_index.go", "src/ferryd/core/util.go", "src/libdb/leveldb.go"]}
{"id": "C120", "title": "The times of jobs are right", "statement": "If the clock is not set back: the record of a finished job carries the times of its submission, of the start of the execution that ended and of its end, in this order, also if the daemon died and executed the job again; an active job carries the time of its submission and, exactly if it is running, of its last start; and the durations the status report prints are the differences of these times and never negative.", "quantifier": "every schedule of clients, workers and crashes under a clock that does not go back", "why_tests_cant": "All schedules and crash points.", "anchors": ["src/ferryd/jobs/store.go: pushJobInternal, claimJobInternal, unclaimJobs, markCompletion", "src/ferryd/jobs/worker.go: Start", "src/libferry/types.go: QueuedSince, ExecutionTime, QueuedTime, TotalTime", "src/ferryctl/cmd/status.go"]}
{"id": "C121", "title": "A successful import leaves its packages served", "statement": "After any history of jobs, crashes and I/O errors, an import, pull, copy or clone that reports success leaves every package it put into the listing of its repository served there.", "quantifier": "every history of jobs in which the daemon may die, and any job may be cut short by an I/O error, any number of times and at any points, then every import, pull, copy or clone", "why_tests_cant": "Unboundedly many crash points in one history.", "anchors": ["src/ferryd/core/repo.go", "src/ferryd/core/pool.go", "src/ferryd/core/manager.go", "src/ferryd/core/repo_index.go", "src/ferryd/core/util.go", "src/libdb/leveldb.go"]}
{"id": "C122", "title": "An index advertises only deltas the repository has", "statement": "After every job that publishes a repository and reports success, every delta that the index advertises for a package is one the repository holds and leads to that package's release, whatever the metadata of the uploaded packages say; and every such delta is advertised.", "quantifier": "every environment, every package metadata, every state and history, every publishing job", "why_tests_cant": "All metadata and histories.", "anchors": ["src/ferryd/core/repo_index.go: pushDeltaPackages, emitIndexPackage", "src/libeopkg/metadata.go: MetaPackage.DeltaPackages"]}
{"id": "C123", "title": "A status report misses no job", "statement": "A status report is put together from four reads of the job store, between which jobs are submitted, claimed and finished.  Still every job that was not finished when the report began is in it: as waiting or running, or, if it finished in the meantime, with its outcome in the list of failed or of completed jobs (as long as nobody clears the histories and at most a hundred jobs finish meanwhile).", "quantifier": "every history, every schedule of the four reads among the steps of the other clients and workers", "why_tests_cant": "All schedules.", "anchors": ["src/ferryd/handlers.go: GetStatus", "src/ferryd/jobs/store.go: ActiveJobs, cloneCurrentJobs, FailedJobs, CompletedJobs, clonePastJobs, markCompletion"]}
{"id": "C124", "title": "A status report shows no job twice", "statement": "A status report has at most one line for every job ever submitted.", "quantifier": "every history, every schedule of the four reads among the steps of the other clients and workers", "why_tests_cant": "All schedules.", "anchors": ["src/ferryd/handlers.go: GetStatus", "src/ferryd/jobs/store.go: ActiveJobs, cloneCurrentJobs, FailedJobs, CompletedJobs, clonePastJobs, markCompletion"]}
{"id": "C125", "title": "Every job is eventually executed", "statement": "From any moment on, as long as the daemon stays up, every job that was ever submitted (also before earlier crashes) and is not finished is eventually executed to its end, however many other jobs are submitted meanwhile; when nothing more is submitted the queues run empty.  Waiting workers poll again and executions return.", "quantifier": "every history, every infinite fair schedule of clients and workers", "why_tests_cant": "Infinite executions.", "anchors": ["src/ferryd/jobs/worker.go: Start, setTime", "src/ferryd/jobs/store.go: claimJobInternal, RetireSequentialJob, RetireAsyncJob, pushJobInternal", "src/ferryd/jobs/processor.go: Begin"]}
{"id": "C126", "title": "When an index can be rebuilt after crashes", "statement": "After any history of jobs, crashes and I/O errors, indexing an existing repository succeeds exactly if its asset files parse, the tools work, and the pool has a record of the published package of every name that is not on the obsolete list and of every delta of a name that list does not hide; and a remove-source or trim job that is cut short leaves at most one package, with deltas of its name, listed without a record.", "quantifier": "every history of jobs in which the daemon may die, and any job may be cut short by an I/O error, any number of times and at any points, every repository; for the second part histories in which no removal was cut short before", "why_tests_cant": "Unboundedly many crash points in one history.", "anchors": ["src/ferryd/core/repo.go", "src/ferryd/core/pool.go", "src/ferryd/core/manager.go", "src/ferryd/core/repo_index.go", "src/ferryd/core/util.go", "src/libdb/leveldb.go"]}
{"id": "C127", "title": "When an import works after crashes", "statement": "After any history of jobs, crashes and I/O errors in which no removal was cut short, an import of whole uploads with distinct file names succeeds and serves every uploaded package with the uploaded bytes exactly if for each of them the file that would be overwritten (in the pool, if the package has no record there; in the repository, if it is not listed there) is not a hard link of the file it would be copied from, and an already listed package has its file whole; in that case no whole package file anywhere is damaged.", "quantifier": "every history of jobs in which the daemon may die, and any job may be cut short by an I/O error, any number of times and at any points, every repository, every list of uploads", "why_tests_cant": "Unboundedly many crash points in one history; the damage depends on which paths share an inode.", "anchors": ["src/ferryd/core/repo.go", "src/ferryd/core/pool.go", "src/ferryd/core/manager.go", "src/ferryd/core/repo_index.go", "src/ferryd/core/util.go", "src/libdb/leveldb.go"]}
{"id": "C128", "title": "A copy that was cut off can be run again", "statement": "A copy of a source from one repository to another that is cut off by a crash at any moment, when run again, leaves every copied package served whole from the target and from the repository it was copied from.", "quantifier": "every reachable state, every pair of repositories, every source and release, every crash point", "why_tests_cant": "The crash point must fall between two particular writes.", "anchors": ["src/ferryd/core/repo.go", "src/ferryd/core/pool.go", "src/ferryd/core/manager.go", "src/ferryd/core/repo_index.go", "src/ferryd/core/util.go", "src/libdb/leveldb.go"]}
{"id": "C129", "title": "An upload that was cut off can be completed", "statement": "An upload (the strict import of the packages a manifest names) that is cut off by a crash at any moment, when run again with its files still there, succeeds and lists every package of the manifest.", "quantifier": "every reachable state, every manifest, every crash point, any number of retries", "why_tests_cant": "The crash point must fall after the first package and before the last.", "anchors": ["src/ferryd/core/repo.go", "src/ferryd/core/pool.go", "src/ferryd/core/manager.go", "src/ferryd/core/repo_index.go", "src/ferryd/core/util.go", "src/libdb/leveldb.go", "src/ferryd/jobs/transit_job.go: Execute"]}
{"id": "C130", "title": "What the daemon was doing when it died decides what can be damaged", "statement": "If no remove-source or trim job was cut short by a crash or an I/O error, the published package of a name is the newest one listed, everything listed is in the pool with a sufficient count, and valid index, remove-source and trim jobs succeed if the asset files parse and the tools work; if no deletion was cut short either, everything listed is served, as a beginning of the uploaded file at least; if no job that puts packages into a repository was cut short, every file served is the uploaded one, whole, and its package is listed.", "quantifier": "every schedule of clients, workers, crashes and I/O errors", "why_tests_cant": "Unboundedly many crash points in one history.", "anchors": ["src/ferryd/jobs/main.go: NewJobHandler", "src/ferryd/jobs/worker.go: Start, processJob", "src/ferryd/jobs/store.go: RetireJob, markCompletion", "src/ferryd/jobs/*.go: Execute", "src/ferryd/core/repo.go", "src/ferryd/core/pool.go", "src/ferryd/core/manager.go", "src/ferryd/core/repo_index.go", "src/ferryd/core/util.go", "src/libdb/leveldb.go"]}
{"id": "C131", "title": "What the published index offers can be downloaded", "statement": "At every moment of every job, whatever package the published index of a repository offers is served in that repository at the place the index gives, with the size and the hash the index gives.", "quantifier": "every history of jobs, every job, every moment of it, every repository and every package of its published index", "why_tests_cant": "A client may fetch the index and its packages at any moment; tests look only between jobs, and only after those jobs they run.", "anchors": ["src/ferryd/core/repo.go", "src/ferryd/core/pool.go", "src/ferryd/core/manager.go", "src/ferryd/core/repo_index.go", "src/ferryd/core/util.go", "src/libdb/leveldb.go"]}
{"id": "C132", "title": "Every accepted request is eventually carried out on the repositories", "statement": "As long as the daemon stays up, every accepted request is carried out on the repositories at exactly one later moment, after all requests for the repositories accepted before it; its outcome is then recorded and the jobs it asks for are submitted. An I/O error ends it early, and it is recorded as failed.", "quantifier": "every infinite schedule of clients, workers, outside changes and I/O errors, from every state crashes can lead to, in which waiting workers poll again and running jobs return", "why_tests_cant": "Liveness over infinite schedules; a test sees finite runs of a few jobs.", "anchors": ["src/ferryd/jobs/main.go: NewJobHandler", "src/ferryd/jobs/worker.go: Start, processJob", "src/ferryd/jobs/store.go: RetireJob, markCompletion", "src/ferryd/jobs/*.go: Execute"]}
{"id": "C133", "title": "Repeating a job that succeeded changes nothing", "statement": "Running a job again right after it succeeded, in the same daemon or in a restarted one, changes nothing: not the database, not what can be read from any file, not a published index, whatever the repetition reports. (The daemon does repeat a job when it is stopped between the job's last effect and the retirement of its record.)", "quantifier": "every operation, every argument, every state reachable by histories of jobs and outside events, every behaviour of the compressors and tools during the repetition", "why_tests_cant": "Needs all states and all jobs; the repetition only happens after a crash in a small window.", "anchors": ["src/ferryd/jobs/store.go:UnclaimSequential", "src/ferryd/jobs/worker.go:processJob", "src/ferryd/core/repo.go", "src/ferryd/core/pool.go", "src/ferryd/core/manager.go", "src/ferryd/core/repo_index.go", "src/ferryd/core/util.go", "src/libdb/leveldb.go"]}
{"id": "C134", "title": "An import that succeeds serves the imported bytes", "statement": "Files of one name need not have the same bytes: a package may be rebuilt and uploaded again, or an upload may be damaged. When an import of a file succeeds, the repository serves the bytes of that file.", "quantifier": "every history of jobs and outside events in which files of one name hold any bytes that read as the package of that name, or bytes that are no package; every repository, file list and mode of import", "why_tests_cant": "Needs every history of uploads and imports under conflicting names; tests use one file per name.", "anchors": ["src/ferryd/core/pool.go:addPackageInternal", "src/ferryd/core/repo.go:AddPackage", "src/ferryd/core/repo.go:AddLocalPackage", "src/ferryd/core/util.go:LinkOrCopyFile"]}
{"id": "C135", "title": "Writing into an uploaded file does not change what is served", "statement": "Once a file has been imported, whatever its owner does with it, writing other bytes into it included, the repositories go on serving the imported bytes.", "quantifier": "every history of jobs and outside events (with crashes and I/O errors for the parts that hold), every uploaded file, whatever is written into it, every repository and package", "why_tests_cant": "Needs every history of imports and of what happens to the uploads; on one file system the import is a hard link, which tests with copies do not show.", "anchors": ["src/ferryd/core/util.go:LinkOrCopyFile", "src/ferryd/core/pool.go:addPackageInternal", "src/ferryd/core/repo.go:AddLocalPackage", "src/ferryd/jobs/bulk_add.go:Execute", "src/ferryd/jobs/transit_job.go:Execute"]}
{"id": "C136", "title": "Repositories do not interfere", "statement": "What becomes of a group of repositories that copies from no repository outside the group does not depend on the jobs on other repositories: each of its jobs succeeds exactly when it would have without them, and each of its repositories exists, lists, publishes and serves exactly the same, index and asset files included. Two jobs on different repositories, neither of which copies from the repository the other changes, leave the same repositories, pool (with counts) and files behind in either order.", "quantifier": "every history of jobs, uploads, asset edits and restarts (no delta jobs, index tools that behave the same on every run), every group of repositories, every job", "why_tests_cant": "Compares two executions of every history: with and without the other jobs, and in both orders, while all repositories share one pool of counted files.", "anchors": ["src/ferryd/core/repo.go:CloneFrom", "src/ferryd/core/repo.go:PullFrom", "src/ferryd/core/pool.go:UnrefEntry", "src/ferryd/core/repo.go:DeleteRepo", "src/ferryd/core/repo.go", "src/ferryd/core/pool.go", "src/ferryd/core/manager.go", "src/ferryd/core/repo_index.go", "src/ferryd/core/util.go", "src/libdb/leveldb.go"]}
{"id": "C137", "title": "A crash costs at most one reference", "statement": "If k imports, clones, pulls and copies were cut short by crashes or I/O errors (and any number of other jobs), the reference counts of all packages together exceed what existing repositories list by at most k: at most k packages are left in the pool that no repository lists. If no addition was cut short, none is.", "quantifier": "every history of jobs in which the daemon may die, and any job may be cut short by an I/O error, any number of times and at any points; every k", "why_tests_cant": "A bound over all histories and all crash points, on the sum over all packages; a test crashes one job at one point.", "anchors": ["src/ferryd/core/repo.go:AddLocalPackage", "src/ferryd/core/repo.go:RefPackage", "src/ferryd/core/pool.go:UnrefEntry", "src/ferryd/core/repo.go", "src/ferryd/core/pool.go", "src/ferryd/core/manager.go", "src/ferryd/core/repo_index.go", "src/ferryd/core/util.go", "src/libdb/leveldb.go"]}
{"id": "C138", "title": "Only existing repositories list anything", "statement": "However many crashes and I/O errors went before, and at every moment of a job, nothing is listed under the name of a repository that does not exist: a repository just created is empty, and a clone lists exactly what its source does, also when one of the same name was deleted before.", "quantifier": "every history of jobs in which the daemon may die, and any job may be cut short by an I/O error, any number of times and at any points; every moment of every job", "why_tests_cant": "Ranges over all histories with crashes at all points, including inside the deletion of a repository of the same name.", "anchors": ["src/ferryd/core/repo.go:CreateRepo", "src/ferryd/core/repo.go:DeleteRepo", "src/ferryd/core/repo.go:CloneFrom", "src/ferryd/core/repo.go", "src/ferryd/core/pool.go", "src/ferryd/core/manager.go", "src/ferryd/core/repo_index.go", "src/ferryd/core/util.go", "src/libdb/leveldb.go"]}
{"id": "C139", "title": "Repositories have no hidden state", "statement": "Two daemons, whatever their histories, that have the same repositories listing the same packages publish the same releases, count the same references, and hold and serve the same package files; so deleting a repository just created or cloned, and removing a source just imported or copied, leaves everything about packages as it was before.", "quantifier": "every two histories of jobs, uploads, asset edits and restarts that end with the same listings", "why_tests_cant": "Compares arbitrary pairs of histories; a test compares two chosen ones.", "anchors": ["src/ferryd/core/repo.go:CloneFrom", "src/ferryd/core/repo.go:RemoveSource", "src/ferryd/core/repo.go:DeleteRepo", "src/ferryd/core/pool.go:UnrefEntry", "src/ferryd/core/repo.go", "src/ferryd/core/pool.go", "src/ferryd/core/manager.go", "src/ferryd/core/repo_index.go", "src/ferryd/core/util.go", "src/libdb/leveldb.go"]}
{"id": "C140", "title": "No downgrade", "statement": "After any history of jobs, crashes and I/O errors, only removing packages from a repository can lower the release it publishes under a name: any other job, at any of its moments and at its end, leaves a release published that is at least as new.", "quantifier": "every history of jobs in which the daemon may die, and any job may be cut short by an I/O error, any number of times and at any points; every job, every moment of it, every repository and name", "why_tests_cant": "Ranges over all histories with crashes at all points and over all moments of the next job.", "anchors": ["src/ferryd/core/repo.go:buildSaneEntry", "src/ferryd/core/repo.go", "src/ferryd/core/pool.go", "src/ferryd/core/manager.go", "src/ferryd/core/repo_index.go", "src/ferryd/core/util.go", "src/libdb/leveldb.go"]}
{"id": "C141", "title": "Where listed packages come from", "statement": "However many crashes and I/O errors went before, what a repository lists at any moment was in it before, or was imported into it under its file name, or was listed in the repository that is being cloned, pulled or copied from (a pull and a partial clone: published there; a copy: of the source and release asked for). So nothing is ever listed that no import named, and it got where it is by clones, pulls and copies from repositories that had it.", "quantifier": "every history of jobs in which the daemon may die, and any job may be cut short by an I/O error, any number of times and at any points; every job and every moment of it", "why_tests_cant": "An invariant over all histories and all crash points, tracing every listing back to an import.", "anchors": ["src/ferryd/core/repo.go:AddPackage", "src/ferryd/core/repo.go:CloneFrom", "src/ferryd/core/repo.go:PullFrom", "src/ferryd/core/repo.go:CopySourceFrom", "src/ferryd/core/repo.go", "src/ferryd/core/pool.go", "src/ferryd/core/manager.go", "src/ferryd/core/repo_index.go", "src/ferryd/core/util.go", "src/libdb/leveldb.go"]}
{"id": "C142", "title": "Additions only add", "statement": "However many crashes and I/O errors went before, a job that does not take packages out of a repository keeps everything the repository lists, and goes on publishing some release of every name it published, at every moment of the job and at its end.", "quantifier": "every history of jobs in which the daemon may die, and any job may be cut short by an I/O error, any number of times and at any points; every job, every moment of it, every repository and name", "why_tests_cant": "Ranges over all histories with crashes at all points and over all moments of the next job.", "anchors": ["src/ferryd/core/repo.go:buildSaneEntry", "src/ferryd/core/repo.go:AddDelta", "src/ferryd/core/repo.go", "src/ferryd/core/pool.go", "src/ferryd/core/manager.go", "src/ferryd/core/repo_index.go", "src/ferryd/core/util.go", "src/libdb/leveldb.go"]}
{"id": "C143", "title": "Only what was submitted gets listed", "statement": "Whatever has been submitted, however often the daemon died or met I/O errors: each package that some repository lists was named in a bulk import that was submitted, or in the manifest of an upload that was submitted; nothing else puts a package into a repository.", "quantifier": "every sequence of submissions and daemon steps, with the daemon dying and I/O errors occurring any number of times at any points, also in the middle of jobs; every repository and package", "why_tests_cant": "Ranges over all daemon histories with crashes and failures at all points.", "anchors": ["src/ferryd/jobs/store.go", "src/ferryd/jobs/transit_job.go: Execute", "src/ferryd/jobs/bulk_add.go: Execute", "src/ferryd/jobs/main.go: NewJobHandler", "src/ferryd/jobs/worker.go: Start, processJob", "src/ferryd/jobs/store.go: RetireJob, markCompletion", "src/ferryd/jobs/*.go: Execute", "src/ferryd/core/repo.go", "src/ferryd/core/pool.go", "src/ferryd/core/manager.go", "src/ferryd/core/repo_index.go", "src/ferryd/core/util.go", "src/libdb/leveldb.go"]}
{"id": "C144", "title": "A repository nobody is told to shrink keeps its packages", "statement": "As long as no request that takes packages out of a repository (a deletion, a source removal, a trim) is unfinished or gets submitted, the repository keeps everything it lists and goes on publishing some release of every name, at all times, whatever else is submitted, however often the daemon dies and whatever I/O errors it meets.", "quantifier": "every sequence of submissions and daemon steps, with the daemon dying and I/O errors occurring any number of times at any points, also in the middle of jobs; every repository, name and package", "why_tests_cant": "Ranges over all continuations of all daemon histories with crashes and failures at all points.", "anchors": ["src/ferryd/jobs/store.go", "src/ferryd/jobs/main.go: NewJobHandler", "src/ferryd/jobs/worker.go: Start, processJob", "src/ferryd/jobs/store.go: RetireJob, markCompletion", "src/ferryd/jobs/*.go: Execute", "src/ferryd/core/repo.go", "src/ferryd/core/pool.go", "src/ferryd/core/manager.go", "src/ferryd/core/repo_index.go", "src/ferryd/core/util.go", "src/libdb/leveldb.go"]}
{"id": "C145", "title": "Repositories come and go only on request", "statement": "A repository comes into being only by a job that creates it or clones another into it, and ceases to be only by a job that deletes it, at every moment of every job; so each repository there is was asked for in a submitted request, stays as long as no request to delete it is unfinished or gets submitted, and does not appear while none asks for it.", "quantifier": "every sequence of submissions and daemon steps, with the daemon dying and I/O errors occurring any number of times at any points, also in the middle of jobs; every job, every moment of it, every repository", "why_tests_cant": "Ranges over all histories with crashes and failures at all points and over all continuations.", "anchors": ["src/ferryd/core/repo.go: CreateRepo, DeleteRepo, GetRepo", "src/ferryd/core/api.go", "src/ferryd/jobs/main.go: NewJobHandler", "src/ferryd/jobs/worker.go: Start, processJob", "src/ferryd/jobs/store.go: RetireJob, markCompletion", "src/ferryd/jobs/*.go: Execute"]}
{"id": "C146", "title": "A job recorded as completed has been carried out", "statement": "When a job is recorded as completed, its request has been carried out: the repositories named existed (or, for a creation, did not), the listings have changed exactly as the request asks (import, upload, clone, pull, copy, removal, trim, creation, deletion) and not otherwise, an upload's files are gone, and the repository serves the right index of its listing. Jobs cut short by an I/O error, and delta jobs, are never recorded as completed.", "quantifier": "every sequence of submissions and daemon steps, with the daemon dying and I/O errors occurring any number of times at any points, also in the middle of jobs; every job that is finished, of each kind", "why_tests_cant": "Ranges over all daemon histories with crashes and failures at all points, and over all requests.", "anchors": ["src/ferryd/core/api.go", "src/ferryd/jobs/worker.go: processJob", "src/ferryd/jobs/transit_job.go: Execute", "src/ferryd/jobs/main.go: NewJobHandler", "src/ferryd/jobs/worker.go: Start, processJob", "src/ferryd/jobs/store.go: RetireJob, markCompletion", "src/ferryd/jobs/*.go: Execute", "src/ferryd/core/repo.go", "src/ferryd/core/pool.go", "src/ferryd/core/manager.go", "src/ferryd/core/repo_index.go", "src/ferryd/core/util.go", "src/libdb/leveldb.go"]}
{"id": "C147", "title": "The catalogue stays well formed, whatever the files contain", "statement": "Whatever bytes the uploads carry under whatever names, whatever happens to the files behind the daemon's back, whichever jobs are asked for and wherever they are cut short: a name shown in a repository has at least one package listed, its published package is one of those, the listings and delta lists are in order and show nothing twice, and the pool shows nothing with no references.", "quantifier": "every behaviour of the package reader, every sequence of requests with any arguments, every crash point and I/O error, every change of any file at any time between steps", "why_tests_cant": "Ranges over all file contents, also damaged and malicious ones, and all histories.", "anchors": ["src/ferryd/core/repo.go: UnrefPackage, buildSaneEntry", "src/ferryd/core/pool.go: addPackageInternal, UnrefEntry", "src/ferryd/core/repo.go", "src/ferryd/core/pool.go", "src/ferryd/core/manager.go", "src/ferryd/core/repo_index.go", "src/ferryd/core/util.go", "src/libdb/leveldb.go"]}
{"id": "C148", "title": "No job blocks on a lock of its own", "statement": "A repository job never waits for a mutex that it is itself holding: it comes to its end (or panics, C72), with the outcome it would have without locks, and holds none afterwards. This includes pulling a repository from itself, and jobs that index after trimming.", "quantifier": "every job, every argument, every state reachable by any sequence of jobs, crashes, I/O errors and changes of files", "why_tests_cant": "Go's mutexes are not re-entrant; whether a nested lock is hit depends on the arguments and the repositories' contents.", "anchors": ["src/ferryd/core/repo.go: CreateRepo, DeleteRepo, RefDelta, AddLocalDelta, removePackageInternal, RefPackage, AddLocalPackage, CloneFrom, PullFrom, TrimObsolete", "src/ferryd/core/repo_index.go: Index"]}
{"id": "C149", "title": "The daemon does not deadlock", "statement": "The goroutines of the daemon never block each other for good: whenever one has something left to do, one can go on, and all calls return under every scheduler. This holds because one worker carries out the repository jobs; two that pulled in opposite directions could block each other for ever.", "quantifier": "every sequence of jobs and job-store calls of the sequential worker, every number of other goroutines with any calls, every schedule", "why_tests_cant": "Ranges over all interleavings of all goroutines.", "anchors": ["src/ferryd/core/repo.go", "src/ferryd/core/repo_index.go: Index", "src/ferryd/jobs/store.go", "src/ferryd/jobs/worker.go: Start", "src/libdb/leveldb.go: NextSequence"]}
{"id": "C150", "title": "Repository jobs leave no file open", "statement": "Whatever jobs and uploads the daemon has carried out, whichever of their system calls failed and however the jobs ended (short of a panic), no file stays open, and a job never has more than three files open at a time, however many packages it handles.", "quantifier": "every environment, every sequence of jobs and uploads, every choice of failing system calls, every state of repositories and disk", "why_tests_cant": "Descriptor leaks show on error paths and after long histories; the error paths are as many as the system calls of a job.", "anchors": ["src/ferryd/core/util.go: CopyFile, LinkOrCopyFile, FileSha1sum, FileSha256sum", "src/ferryd/core/mmap.go", "src/ferryd/core/pool.go: addPackageInternal", "src/ferryd/core/repo.go", "src/ferryd/core/repo_index.go: Index", "src/libeopkg/package.go: Open, ReadMetadata, Close", "src/libeopkg/distribution.go", "src/libeopkg/components.go", "src/libeopkg/groups.go"]}
{"id": "C151", "title": "A call the client library reports as successful has been accepted", "statement": "A call of the client library returns without an error exactly if the daemon did what the call says (put the job into its queue, or reset the log); if it returns an error the daemon did nothing.", "quantifier": "every call with any names and parameters, every state of the job store and of the listings, every text of an error, every JSON decoder that refuses plain text", "why_tests_cant": "The names are unbounded and the answer passes through URL parsing, routing, the handler, the length limits of HTTP and JSON decoding; no finite set of calls covers their combinations.", "anchors": ["src/libferry/main.go: getBasicResponse, postBasicResponse", "src/ferryd/handlers.go", "src/ferryd/server.go: NewServer (routes)", "src/ferryd/jobs/processor.go: PushJob"]}
{"id": "C152", "title": "The exit status of ferryctl tells whether the command was carried out", "statement": "ferryctl ends with the exit status 0 exactly if the command line was understood and the daemon accepted the request.", "quantifier": "every command line, every state of the daemon", "why_tests_cant": "Command lines are unbounded and the outcome depends on the daemon.", "anchors": ["src/ferryctl/main.go: main", "src/ferryctl/cmd/*.go", "src/libferry/main.go"]}
{"id": "C153", "title": "Texts in the index read back", "statement": "Whatever the text of a name, a release, a summary, a description, a comment or any other field that gets into the index, a reader of XML reads exactly this text from the bytes written for it.", "quantifier": "every text of characters XML allows, every table of symbols, control characters and blanks", "why_tests_cant": "Texts are unbounded; two escapers work one after the other, on pieces that may cut characters.", "anchors": ["src/ferryd/core/repo_index.go: emitIndex, emitIndexPackage, emitDistribution, emitComponents, emitGroups", "src/ferryd/core/escape.go", "src/libeopkg/metadata.go", "src/libeopkg/main.go: LocalisedField", "src/libeopkg/distribution.go", "src/libeopkg/components.go", "src/libeopkg/groups.go"]}
{"id": "C154", "title": "The index is one well-formed document", "statement": "Whatever the distribution, the packages, the components and the groups, the bytes written to the index are one well-formed XML document, in which a reader sees, under the element PISI, exactly these elements in exactly this order, each with its name, its attributes, its text and its child elements.", "quantifier": "every list of elements, of any depth and number, with any texts and attributes XML can carry", "why_tests_cant": "Documents are unbounded in depth, number and texts.", "anchors": ["src/ferryd/core/repo_index.go: emitIndex, emitIndexPackage, emitDistribution, emitComponents, emitGroups", "src/ferryd/core/escape.go", "src/libeopkg/metadata.go", "src/libeopkg/main.go: LocalisedField", "src/libeopkg/distribution.go", "src/libeopkg/components.go", "src/libeopkg/groups.go"]}
{"id": "C155", "title": "The index says everything about its packages", "statement": "From the bytes of the index a reader gets back, for every package, component and group and for the distribution, every field: names, releases, sizes, hashes, places, licences, dependencies with their conditions, conflicts, history, deltas, source, languages of texts.", "quantifier": "every index: any number of packages with any values of their fields, any components and groups, any distribution, with texts XML can carry (for texts in CDATA sections see C153)", "why_tests_cant": "Documents are unbounded, and one structure tag per field, of about sixty, decides whether the field survives.", "anchors": ["src/ferryd/core/repo_index.go: emitIndex, emitIndexPackage, emitDistribution, emitComponents, emitGroups", "src/ferryd/core/escape.go", "src/libeopkg/metadata.go", "src/libeopkg/main.go: LocalisedField", "src/libeopkg/distribution.go", "src/libeopkg/components.go", "src/libeopkg/groups.go"]}
{"id": "C156", "title": "What a client reads in the index", "statement": "After every job that publishes a repository and reports success, the bytes of the index, read as XML, give an index whose packages have distinct names and are exactly the published packages that the distribution does not hide; the entry of each gives the name, source and releases of the package, and the place, size and hash of the very file the repository serves there, and exactly the deltas the repository lists that lead to its release, with place, size and hash; the obsolete names are those of the distribution file.", "quantifier": "every reachable state, every publishing job, every further content of the packages' metadata that XML can carry", "why_tests_cant": "Every history of the daemon and every text of every field: the property joins the state of the repository to the bytes on disk.", "anchors": ["src/ferryd/core/repo_index.go: emitIndex, emitIndexPackage, emitDistribution, emitComponents, emitGroups", "src/ferryd/core/escape.go", "src/libeopkg/metadata.go", "src/libeopkg/main.go: LocalisedField", "src/libeopkg/distribution.go", "src/libeopkg/components.go", "src/libeopkg/groups.go", "src/ferryd/core/repo_index.go: EmitIndex, writeIndex"]}
{"id": "C157", "title": "What is stored is read back", "statement": "A job, an entry of the job history, the position of the history, the name of a repository, a repository's entry, a delta found impossible, and an entry of the pool with every field of the package's metadata: whatever is put into the databases is read back exactly, although zero values are not written; nothing is refused that takes less than 8 GiB.", "quantifier": "every value of the stored types that Go can hold (slices of up to 8 GiB, no pointer to an empty list)", "why_tests_cant": "Seven types, one of them with more than sixty fields nested five deep; every number, length and combination of fields left out.", "anchors": ["src/libdb/transcoder.go: EncodeType, DecodeType", "src/libdb/leveldb.go: PutObject, GetObject, Decode", "src/ferryd/jobs/main.go: JobEntry", "src/ferryd/jobs/store.go: IndexRecord, markCompletion", "src/ferryd/core/pool.go: PoolEntry, DeltaSkipEntry", "src/ferryd/core/repo.go: RepoEntry, Repository", "src/libeopkg/metadata.go: MetaPackage"]}
{"id": "C158", "title": "What is sent arrives", "statement": "The daemon gets the request that was sent: the paths of an import, the names, the release, the flags and the number of packages to keep, whatever characters they contain; and the client reads the answer that was given: the error's text, the repositories, the pool's identifiers and counts.", "quantifier": "every request and answer with a body: any number of strings, every string of bytes in them, every int", "why_tests_cant": "Strings of every length and encoding, quotes, control characters and text that looks like JSON, with a writer and a reader that each have a dozen special cases.", "anchors": ["src/libferry/types.go: Response, ImportRequest, CloneRepoRequest, PullRepoRequest, RemoveSourceRequest, CopySourceRequest, TrimPackagesRequest", "src/libferry/main.go: postBasicResponse, getBasicResponse", "src/ferryd/handlers.go: ImportPackages, CloneRepo, PullRepo, RemoveSource, CopySource, TrimPackages, GetRepos, GetPoolItems"]}
{"id": "C159", "title": "A command, followed to its end", "statement": "A ferryctl command (with a repository name free of URL characters, and the other names in UTF-8) makes the daemon submit the one job it means; whatever else is submitted meanwhile and however often the daemon dies and is started again, that job stays stored with its parameters until it is retired; if its outcome is recorded as completed, what the command asks for had been done to the repositories by that very job. If every worker gets its turn, the job is retired.", "quantifier": "every command line, every history of the daemon before it, every execution after it with other jobs, crashes, I/O errors and restarts", "why_tests_cant": "It joins the command line, the bytes on the socket, the job database, the workers and the repositories over an unbounded execution with crashes.", "anchors": ["src/ferryctl/cmd: the commands", "src/libferry/main.go: Client methods, postBasicResponse", "src/ferryd/handlers.go: request handlers", "src/ferryd/jobs: JobStore, Worker, Processor, NewJobHandler and the job types", "src/ferryd/core: Manager operations"]}
{"id": "C160", "title": "The status report arrives, with its times to the nanosecond", "statement": "When the daemon's status report can be written (exactly when all its times are in the years 1 to 9999), ferryctl reads from it the same moment of the daemon's start and the same failed, current and completed jobs in the same order, each with its times to the nanosecond and whether it failed; texts that are UTF-8 are the same, and in the others each byte that begins no character becomes U+FFFD. Each time is written as the date and time of day that the calendar gives it in UTC.", "quantifier": "every report: every number of jobs, every instant from the year 1 to the year 9999, every description and error", "why_tests_cant": "It needs a calendar of ten thousand years, every length of a fraction of a second, and every text.", "anchors": ["src/ferryd/handlers.go:GetStatus", "src/libferry/types.go:TimingInformation, Job, StatusRequest", "src/libferry/main.go:GetStatus"]}
{"id": "C161", "title": "What status shows of a job's times is exact", "statement": "In the tables of ferryctl status, a failed job's row shows the second in which it ended and how long it ran, a completed job's row also the time from its submission to its end, and a current job's row whether it has begun, the second of its submission and the time since; each duration's text stands for that number of nanoseconds and no other, and each moment is the calendar's date and time of day in UTC.", "quantifier": "every job of a report, every instant from the year 1 to 9999, every duration of less than 292 years, positive or negative", "why_tests_cant": "Durations and calendar dates range over too many values and formats (units, fractions, months, leap years) to be tried.", "anchors": ["src/ferryctl/cmd/status.go:printActiveJobs, printFailedJobs, printCompletedJobs", "src/libferry/types.go:QueuedSince, ExecutionTime, QueuedTime, TotalTime"]}
{"id": "C162", "title": "Every unfinished job is on the screen", "statement": "ferryctl status -a prints a row for every job that is not finished when the daemon begins to put its report together: a row of its state (queued or running, the moment of its submission, how long ago that is, its description) or, if it finishes meanwhile, a row of its outcome (failed or success, the moment of its end, the durations, its description and error); there is one row for each job of the report and no other, at most ten in each table without -a; and a report whose times are in the years 1 to 9999 always arrives and is printed.", "quantifier": "every history of the daemon and its job store before and during the report, every schedule of workers and requests while its four lists are read (at most a hundred jobs finishing meanwhile, histories not cleared), every description, error and time", "why_tests_cant": "It joins the schedule of the daemon's workers, the store's four separate reads, the bytes of the answer and the client's formatting; a test sees one schedule and one job.", "anchors": ["src/ferryd/jobs/store.go:ActiveJobs, FailedJobs, CompletedJobs", "src/ferryd/handlers.go:getStatus", "src/libferry/client.go:GetStatus", "src/ferryctl/cmd/status.go:getStatus, printActiveJobs, printFailedJobs, printCompletedJobs"]}
{"id": "C163", "title": "A command stays on the screen", "statement": "From the moment the daemon has taken a job, ferryctl status -a shows it: as long as it is not finished, whatever is submitted, executed or crashes meanwhile, with its own description (UTF-8), the very moment of its submission, the exact time since, and as running only if it is being executed; when it finishes while the daemon stays up, with its recorded outcome, until a hundred jobs have finished after it was submitted or somebody clears the histories.", "quantifier": "every history before the submission, every execution after it with deaths and restarts, every schedule of the report's four reads, every job", "why_tests_cant": "It ranges over all executions between the submission and the report, with crashes; the time of submission is stored, rewritten at each claim, after each crash and at the end, and written and read as text on the way.", "anchors": ["src/ferryd/jobs/store.go: pushJobInternal, claimJobInternal, unclaimJobs, markCompletion", "src/ferryd/handlers.go:getStatus", "src/ferryctl/cmd/status.go"]}
{"id": "C164", "title": "A success row on the screen means it was done", "statement": "Every record in the history of completed jobs, and so every row of the completed table of ferryctl status, is that of a job which had carried out its request: the listings had changed exactly as asked and not otherwise and the repository served the right index of them; also when the daemon died while it was making the record, and however long ago that was.", "quantifier": "every history of submissions, executions, I/O errors, deaths and restarts (also in the middle of retiring a job or of clearing a history), every report read from it", "why_tests_cant": "All histories: a record may be written by a step that the daemon does not survive, overwritten in the ring, cleared, and read much later.", "anchors": ["src/ferryd/jobs/store.go: markCompletion, ResetCompleted", "src/ferryd/jobs/worker.go: processJob", "src/ferryd/core/api.go", "src/ferryctl/cmd/status.go: printCompletedJobs"]}
{"id": "C165", "title": "What ferryctl tells of a command is true", "statement": "A command given to ferryctl reaches the daemon as meant; from then on every ferryctl status -a shows that very command, as waiting or running with the exact time since its submission, or with its outcome; and if the outcome shown is a success, then exactly what the command asked for had been done to the repositories, by that job and after the command was given; if it is a failure, then that job could not carry it out on the repositories as they were, or an I/O error cut it short.", "quantifier": "every daemon state that can be reached, every sound command, every later execution in which the daemon stays up, nobody clears a history and at most a hundred jobs finish, with any other jobs and changes in between, and every moment at which the status is read (also between the reads of the three tables)", "why_tests_cant": "The truth of a screen depends on everything that happened since the command was given, in three processes' worth of code: client, worker and report.", "anchors": ["src/ferryctl/cmd: all commands", "src/ferryctl/cmd/status.go", "src/libferry/main.go", "src/ferryd/core/api.go", "src/ferryd/jobs/store.go", "src/ferryd/jobs/worker.go: processJob", "src/ferryd/handlers.go: GetStatus"]}
{"id": "C166", "title": "A failure row on the screen means it failed", "statement": "Every record in the history of failed jobs, and so every row of the failed table of ferryctl status, is that of a job whose request could not be carried out in the repositories as they were when it was executed, or that an I/O error cut short; it shows that request's description and the recorded error; also when the daemon died while it was making the record, and however long ago that was. As long as no job was cut short, a job is there only if its parameters were bad, or it was a delta job or one for the deltas of a repository that did not exist, or its request was not valid for the repositories as they were, or it was an upload without a valid manifest, an intact payload and files that the repository takes, or the index of its repository could not be made.", "quantifier": "every history of submissions, executions, I/O errors, deaths and restarts (also in the middle of retiring a job or of clearing a history), every report read from it", "why_tests_cant": "All histories: a record may be written by a step that the daemon does not survive, overwritten in the ring, cleared, and read much later.", "anchors": ["src/ferryd/jobs/store.go: markCompletion, ResetFailed", "src/ferryd/jobs/worker.go: processJob", "src/ferryd/core/api.go", "src/ferryctl/cmd/status.go: printFailedJobs"]}
