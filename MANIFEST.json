{
 "claims": [
  {
   "property": "C01",
   "status": "proved",
   "theorems": [
    "Ferryd.C01_refcount",
    "Ferryd.C01_delta_refcount_ge"
   ],
   "note": "C01_refcount: the pool's count of a package is the number of repositories that list it. C01_delta_refcount_ge: for delta packages: the count never falls below the number of repositories listing the delta (it may exceed it, see `C31`)."
  },
  {
   "property": "C02",
   "status": "proved",
   "theorems": [
    "Ferryd.C02_pool_iff_used",
    "Ferryd.C02_after_any_job"
   ],
   "note": "C02_pool_iff_used: a package is in the pool exactly while some repository lists it, and its pool file is there, with the uploaded bytes, exactly then. C02_after_any_job: the step form: after any further operation, a package still listed somewhere is still pooled, and one listed nowhere has left the pool, entry and file."
  },
  {
   "property": "C03",
   "status": "proved",
   "theorems": [
    "Ferryd.C03_no_underflow"
   ],
   "note": "C03_no_underflow: in every durable state any operation passes through every stored count is positive; the counter is therefore never decremented at zero, and its decrement never wraps around."
  },
  {
   "property": "C04",
   "status": "proved",
   "theorems": [
    "Ferryd.C04_tip_is_highest",
    "Ferryd.C04_tip_at_crash_points"
   ],
   "note": "C04_tip_is_highest: the tip is listed and no listed package of that name has a higher release; every listed name has a tip. C04_tip_at_crash_points: at every crash point of every operation, for the repositories it does not remove packages from."
  },
  {
   "property": "C05",
   "status": "proved",
   "theorems": [
    "Ferryd.C05_served_bytes",
    "Ferryd.C05_only_listed_served"
   ],
   "note": "C05_served_bytes: every listed package is served with the bytes of the uploaded file, and the recorded SHA-1, size and location are those of that file. C05_only_listed_served: Nothing else is served: a package file in a repository's tree belongs to a listed package."
  },
  {
   "property": "C06",
   "status": "proved",
   "theorems": [
    "Ferryd.C06_reimport"
   ],
   "note": "C06_reimport: importing packages that the repository already lists leaves the database (pool counts, listings) and all package and asset files exactly as they were, and succeeds whenever the index can be written."
  },
  {
   "property": "C07",
   "status": "proved",
   "theorems": [
    "Ferryd.C07_order_independent"
   ],
   "note": "C07_order_independent: importing the same uploads in two orders gives the same lists of available packages, the same pool entries (counts included), and tips of the same release; the very same tip when releases are distinct."
  },
  {
   "property": "C08",
   "status": "proved",
   "theorems": [
    "Ferryd.C08_frame"
   ],
   "note": "C08_frame: an operation leaves every repository it is not directed at alone: its existence, its listings (available packages, tips, deltas), its published index, its asset files and its served package files. (Served *delta* files are only shown unchanged for operations that add no deltas; see `C73`.)"
  },
  {
   "property": "C09",
   "status": "proved",
   "theorems": [
    "Ferryd.C09_create",
    "Ferryd.C09_create_refused"
   ],
   "note": "C09_create: creating a repository under an unused (and not reserved) name adds exactly that repository, empty; the pool and every other repository's records are unchanged. C09_create_refused: second half: creating a repository whose name exists, or is reserved, fails and changes nothing."
  },
  {
   "property": "C10",
   "status": "proved",
   "theorems": [
    "Ferryd.C10_delete",
    "Ferryd.C10_delete_unknown"
   ],
   "note": "C10_delete: deleting a repository succeeds; afterwards it is not listed, has no records, no served files, assets or index; every package and delta it listed has lost exactly one reference (leaving the pool when that was the last), other pool entries are unchanged, other repositories are unchanged. C10_delete_unknown: second half: deleting an unknown repository fails and changes nothing at all."
  },
  {
   "property": "C11",
   "status": "proved",
   "theorems": [
    "Ferryd.C11_tip_clone",
    "Ferryd.C11_C12_assets"
   ],
   "note": "C11_tip_clone: a tip clone creates the repository with, for each package name of the origin, exactly the origin's tip, published as tip, no deltas, and copies of the asset files; it references each of those packages once more, and the origin is as before. C11_C12_assets: Cloning copies the asset files and, when it succeeds, publishes an index of exactly the new state."
  },
  {
   "property": "C12",
   "status": "proved",
   "theorems": [
    "Ferryd.C12_full_clone",
    "Ferryd.C11_C12_assets"
   ],
   "note": "C12_full_clone: a full clone lists the same names, the same available packages, tips of the same release, the same deltas; the origin's records are as before. C11_C12_assets: Cloning copies the asset files and, when it succeeds, publishes an index of exactly the new state."
  },
  {
   "property": "C13",
   "status": "proved",
   "theorems": [
    "Ferryd.C13_pull"
   ],
   "note": "C13_pull: when nothing in the target is newer, pull adds exactly the source tips that are newer than the target's tip or of a name the target lacks, removes nothing, and afterwards each target tip is at least as new as the source's; a successful pull returns exactly the changed names and publishes the index."
  },
  {
   "property": "C14",
   "status": "proved",
   "theorems": [
    "Ferryd.C14_pull_refuses_downgrade"
   ],
   "note": "C14_pull_refuses_downgrade: if a target tip is newer than the source's, pull fails and no database record (listing, count), no package file and no index changes anywhere."
  },
  {
   "property": "C15",
   "status": "proved",
   "theorems": [
    "Ferryd.C15_remove_source",
    "Ferryd.C15_remove_source_none"
   ],
   "note": "C15_remove_source: if the repository lists a matching package, remove-source drops exactly the matching packages (and succeeds whenever the index can be written). C15_remove_source_none: second half: with no matching package it fails and nothing changes."
  },
  {
   "property": "C16",
   "status": "proved",
   "theorems": [
    "Ferryd.C16_copy_source",
    "Ferryd.C16_copy_source_none"
   ],
   "note": "C16_copy_source: copy-source adds to the target exactly the origin's matching packages, and removes nothing. C16_copy_source_none: second half: with no matching package it fails and nothing changes."
  },
  {
   "property": "C17",
   "status": "partial",
   "theorems": [
    "Ferryd.C17_violated",
    "Ferryd.C17_skip_index_partial"
   ],
   "note": "The full statement (as a definition C17_statement) is false of the code and its negation is proved; the _partial theorems prove what holds. C17_violated: is false of the code: the flag works the wrong way round (api.go:110-130). C17_skip_index_partial: what holds of the code: exactly the opposite. With the flag the index is rebuilt, without it the published index stays as it was."
  },
  {
   "property": "C18",
   "status": "proved",
   "theorems": [
    "Ferryd.C18_trim_keeps_newest",
    "Ferryd.C18_trim_refused"
   ],
   "note": "C18_trim_keeps_newest: trimming to `k ≥ 1` packages per name only removes packages; it keeps every tip, and the published release of every name; it keeps every package with fewer than `k` others of its name of the same or a higher release; it removes every package with `k` or more of its name of a higher release; and other repositories are not touched. C18_trim_refused: asking to keep fewer than one package is refused and changes nothing."
  },
  {
   "property": "C19",
   "status": "partial",
   "theorems": [
    "Ferryd.C19_violated",
    "Ferryd.C19_trim_bound_partial"
   ],
   "note": "The full statement (as a definition C19_statement) is false of the code and its negation is proved; the _partial theorems prove what holds. C19_violated: is false of the code: with the releases 2, 2, 1 and the tip sorted second among its equals, trimming to 1 leaves two packages (the tip is skipped when it comes up for removal, repo.go:1087-1091). C19_trim_bound_partial: what holds: at most `k + 1` packages per name are left, and at most `k` when no other package of the name has the tip's release."
  },
  {
   "property": "C20",
   "status": "partial",
   "theorems": [
    "Ferryd.C20_violated",
    "Ferryd.C20_violated_dbginfo",
    "Ferryd.C20_trim_obsolete_partial",
    "Ferryd.C20_no_distribution"
   ],
   "note": "The full statement (as a definition C20_statement) is false of the code and its negation is proved; the _partial theorems prove what holds. C20_violated: is false of the code: an exactly obsolete package is never removed (repo.go:1183: the id is only recorded when the stripped name differs from the entry's name). C20_violated_dbginfo: second defect: of several debug packages of one obsolete name only the first goes (repo.go:1186 `break`). C20_trim_obsolete_partial: what holds of the code. Trim-obsolete only removes packages; a name that is not the debug name of an obsolete name keeps all its packages (so nothing that is not hidden is ever removed); of a debug name of an obsolete name exactly one listed package, the first in order, is removed; other repositories are not touched. C20_no_distribution: without a usable distribution file the job fails and nothing changes."
  },
  {
   "property": "C21",
   "status": "proved",
   "theorems": [
    "Ferryd.C21_index_exact",
    "Ferryd.C21_index_failure"
   ],
   "note": "C21_index_exact: after every job that publishes a repository and reports success, the repository's index lists exactly the tips that are not hidden by the distribution file, once each and sorted, with the location, size and hash of the served files, and carries the components and groups of its asset files. C21_index_failure: an index job that fails leaves the published index as it was, or (when the failure came after the files were in place) correct for the current state."
  },
  {
   "property": "C22",
   "status": "proved",
   "theorems": [
    "Ferryd.C22_index_deltas"
   ],
   "note": "C22_index_deltas: the deltas offered in a freshly published index are exactly the repository's deltas of that package leading to the published release."
  },
  {
   "property": "C23",
   "status": "proved",
   "theorems": [
    "Ferryd.C23_strict",
    "Ferryd.C23_strict_accepts",
    "Ferryd.C23_strict_refused",
    "Ferryd.C23_strict_job",
    "Ferryd.C23_strict_prefix",
    "Ferryd.C23_upload"
   ],
   "note": "C23_strict: a strict upload of one file either fails and changes nothing, or the file is a readable package newer than the repository's tip of that name (if it has one) and the repository then additionally lists exactly it. C23_strict_accepts: and a readable package newer than the tip (or of a new name) is accepted. C23_strict_refused: in particular a release that is not newer than the tip is refused with no change at all. C23_strict_job: for a whole strict upload job: whatever is refused part-way, the tip's release of every name never decreases, and the packages listed before are still listed. C23_strict_prefix: for a whole strict upload: exactly the longest acceptable beginning of the list is added. C23_upload: for uploads: whatever an upload job adds to the listing of its target, also when it fails part-way, is newer than everything the repository listed under that name before; and if the job succeeds, every package of the payload was newer."
  },
  {
   "property": "C24",
   "status": "proved",
   "theorems": [
    "Ferryd.C24_bad_checksum_imports_nothing",
    "Ferryd.C24_malformed_imports_nothing"
   ],
   "note": "C24_bad_checksum_imports_nothing: if any file of an upload is missing, empty, or does not have the checksum the manifest announces, the upload job fails and changes nothing at all: no pool entry, no repository, no file, at no time. (For every state and every environment, no assumption on either.) C24_malformed_imports_nothing: A malformed manifest imports nothing either."
  },
  {
   "property": "C25",
   "status": "proved",
   "theorems": [
    "Ferryd.C25_accepted_iff"
   ],
   "note": "C25_accepted_iff: a manifest is accepted exactly when it is well formed; what is then used is its target and its files' paths and hashes without surrounding white space. Loading never changes the state."
  },
  {
   "property": "C26",
   "status": "proved",
   "theorems": [
    "Ferryd.C26_history",
    "Ferryd.C26_success_clears",
    "Ferryd.C26_failure_keeps"
   ],
   "note": "C26_history: Histories with upload jobs: the state after an upload job is again the state after a history of operations, so every theorem about reachable states also covers daemons that process uploads. C26_success_clears: success: after a successful upload job the manifest and every payload file are gone, every payload package is listed in the target repository, and no other file outside ferryd's directories has changed. C26_failure_keeps: failure: an upload job that does not succeed leaves every uploaded file in place, with its content."
  },
  {
   "property": "C27",
   "status": "proved",
   "theorems": [
    "Ferryd.C27_crash_add"
   ],
   "note": "C27_crash_add: at every crash point of every job that adds (create, import, copy-source, pull, clone, index, delta jobs), every package any repository lists has a pool entry, a pool file and a served file with the right content."
  },
  {
   "property": "C28",
   "status": "partial",
   "theorems": [
    "Ferryd.C28_violated",
    "Ferryd.C28_violated_silently",
    "Ferryd.C28_retry_partial",
    "Ferryd.C28_again_iff_partial"
   ],
   "note": "The full statement (as a definition C28_statement) is false of the code and its negation is proved; the _partial theorems prove what holds. C28_violated: is false of the code. When the daemon dies after linking the upload into the pool and before recording it, the retried job finds the target of the link present, falls back to copying (util.go:67-75), and the copy opens the very same inode with truncation: upload and pool file become empty and the job fails. C28_violated_silently: worse: when it dies after linking into the repository, the retried job reports success and serves an empty file, having emptied the pool file and the upload as well. C28_retry_partial: what is proved: when the daemon dies between two packages of the import, running the whole job again gives the listing the uninterrupted job would have given, with every package of every repository intact. C28_again_iff_partial: (partial): an import cut off at any moment and run again works, for uploads that are still whole, if and only if each of them is `Ready` then; missing: it is not always so (`C28_violated`)."
  },
  {
   "property": "C29",
   "status": "partial",
   "theorems": [
    "Ferryd.C29_violated",
    "Ferryd.C29_crash_remove_partial",
    "Ferryd.C29_index_iff_partial"
   ],
   "note": "The full statement (as a definition C29_statement) is false of the code and its negation is proved; the _partial theorems prove what holds. C29_violated: is false of the code: `UnrefPackage` drops the pool entry before it updates the repository's own entry (repo.go:514-577), so a crash in between leaves a listed package without a pool entry and every later index fails. C29_crash_remove_partial: what is proved: at every crash point of a removing job (remove-source, both trims, delete) every *other* repository is whole. C29_index_iff_partial: what is proved of the repository itself: when a remove-source or trim job is cut short at any point (and none was before), there is one name such that a later index succeeds (if the asset files parse and no tool of the index run fails) if and only if the published package of that name and its deltas are still recorded in the pool, unless the obsolete list hides them."
  },
  {
   "property": "C30",
   "status": "proved",
   "theorems": [
    "Ferryd.C30_delete_crash"
   ],
   "note": "C30_delete_crash: however often a deletion is interrupted by crashes at whatever points, what the daemon then finds is either the database as before the deletion, or the database of the completed deletion; and running the deletion to its end gives the same database as the uninterrupted deletion (reporting \"not found\" exactly when it was already complete)."
  },
  {
   "property": "C31",
   "status": "partial",
   "theorems": [
    "Ferryd.C31_violated",
    "Ferryd.C31_import_deltas_partial",
    "Ferryd.C31_forget_only_partial"
   ],
   "note": "The full statement (as a definition C31_statement) is false of the code and its negation is proved; the _partial theorems prove what holds. C31_violated: is false of the code: the entry rebuilt for a new package starts with an empty delta list (repo.go:620-668). C31_import_deltas_partial: what holds: an import keeps every delta of every name for which it brings no package the repository does not list already, and every delta of every other repository; and it never adds one. C31_forget_only_partial: which steps forget deltas: a delta is forgotten only by an import, pull or copy that brings the repository a package of the delta's name it did not list, or by a removal that leaves the repository no package of that name. No other operation makes a repository forget a delta."
  },
  {
   "property": "C32",
   "status": "proved",
   "theorems": [
    "Ferryd.C32_delta_gc"
   ],
   "note": "C32_delta_gc: after a job that removes packages from a repository (remove-source, either trim), no delta from or to a removed package is listed there; deltas whose packages both were not removed stay listed as long as the package name has any package left; and no delta is added."
  },
  {
   "property": "C33",
   "status": "proved",
   "theorems": [
    "Ferryd.C33_failed_delta_permanent",
    "Ferryd.C33_mark_failed"
   ],
   "note": "C33_failed_delta_permanent: recording a delta as impossible succeeds for every unreserved name, and from then on it stays recorded through every further history of operations, restarts included. C33_mark_failed: Recording a delta as impossible makes it reported as such."
  },
  {
   "property": "C34",
   "status": "proved",
   "theorems": [
    "Ferryd.C34_delta_job"
   ],
   "note": "C34_delta_job: . A delta job never panics, changes no package listing, and lists no delta twice. It stops without touching any delta (nothing recorded, at most one package file listed), or it picks a listed package file of the newest release, and then every delta it lists or marks belongs to a pair (other listed package, that tip): only pairs not marked before are listed, only pairs whose delta is pointless are marked, and nothing is dropped. If it reports success, each such pair for which a delta is possible ends up marked or listed."
  },
  {
   "property": "C35",
   "status": "partial",
   "theorems": [
    "Ferryd.Jobs.C35_violated",
    "Ferryd.Jobs.C35_listing_partial",
    "Ferryd.Jobs.C35_listing_fails_iff_partial"
   ],
   "note": "The full statement (as a definition C35_statement) is false of the code and its negation is proved; the _partial theorems prove what holds. C35_violated: It does not: one queued delta job (or an import of no files, or a number beyond 32 bits) is enough. C35_listing_partial: When the handlers accept every unfinished submission, the listing works and consists of one line per unfinished submission, sequential jobs first, in the order of submission. (Missing for C35: states with a submission the handlers refuse.) C35_listing_fails_iff_partial: Exactly which states break the listing: those with an unfinished submission the handlers refuse."
  },
  {
   "property": "C36",
   "status": "proved",
   "theorems": [
    "Ferryd.Jobs.C36_claims_earliest",
    "Ferryd.Jobs.C36_sequential_order"
   ],
   "note": "C36_claims_earliest: A polling worker takes the earliest waiting submission of its queue, and nothing when none waits. C36_sequential_order: Repository jobs are executed in the order of submission: when one is finished, so is every repository job submitted before it, and when one is executing, every one submitted before it is finished."
  },
  {
   "property": "C37",
   "status": "proved",
   "theorems": [
    "Ferryd.Jobs.C37_one_worker_per_job",
    "Ferryd.Jobs.C37_one_repository_job"
   ],
   "note": "C37_one_worker_per_job: No submission executes on two workers. C37_one_repository_job: At most one repository job executes at any time."
  },
  {
   "property": "C38",
   "status": "proved",
   "theorems": [
    "Ferryd.Jobs.C38_queued_or_done",
    "Ferryd.Jobs.C38_done_once",
    "Ferryd.Jobs.C38_restart",
    "Ferryd.Jobs.C38_submissions_kept"
   ],
   "note": "C38_queued_or_done: Every submission is, at any moment, in exactly one of: the database, executed to its end. C38_done_once: No submission is executed to its end twice. C38_restart: After a restart the daemon runs again and every unfinished submission waits to be executed. C38_submissions_kept: Submissions are never forgotten."
  },
  {
   "property": "C39",
   "status": "proved",
   "theorems": [
    "Ferryd.Jobs.C39_last_hundred",
    "Ferryd.Jobs.C39_history_bounded"
   ],
   "note": "C39_last_hundred: The history shows exactly the last min(n,100) of the n records made since it was last cleared, unless a kill has fallen in the middle of recording or clearing since. C39_history_bounded: The histories always show something, and never more than a hundred records."
  },
  {
   "property": "C40",
   "status": "proved",
   "theorems": [
    "Ferryd.Jobs.C40_reset"
   ],
   "note": "C40_reset: Resetting a history empties it; the other history, the queues and the running jobs stay; later records are made as from an empty history (with `C39_last_hundred`)."
  },
  {
   "property": "C41",
   "status": "proved",
   "theorems": [
    "Ferryd.Jobs.C41_finish"
   ],
   "note": "C41_finish: Finishing a job removes exactly it from the queues and records it in the failed history when it failed, otherwise in the completed one; the other history is unchanged."
  },
  {
   "property": "C42",
   "status": "partial",
   "theorems": [
    "Ferryd.Jobs.C42_violated",
    "Ferryd.Jobs.C42_ends_partial"
   ],
   "note": "The full statement (as a definition C42_statement) is false of the code and its negation is proved; the _partial theorems prove what holds. C42_violated: It does not hold: a kill right after the job is removed from the queue leaves no trace of it. C42_ends_partial: What holds: before the first write of the retirement the job is in the database, and after the last one in a history. Between them there are exactly two crash points, and at both the job is in neither place. (Missing: those two crash points.)"
  },
  {
   "property": "C43",
   "status": "partial",
   "theorems": [
    "Ferryd.Daemon.C43_daemon",
    "Ferryd.Jobs.C43_violated",
    "Ferryd.Jobs.C43_delta_always_fails"
   ],
   "note": "The full statement (as a definition C43_statement) is false of the code and its negation is proved; the _partial theorems prove what holds. C43_daemon: and so executing a delta job, however it was submitted, is recorded as a failure and changes nothing. C43_violated: It cannot: no handler is registered for the delta job types (jobs/main.go:134-166). C43_delta_always_fails: Whatever happens, a delta job that is executed ends up recorded as failed."
  },
  {
   "property": "C44",
   "status": "proved",
   "theorems": [
    "Ferryd.Jobs.C44_parameters",
    "Ferryd.Jobs.C44_worker_executes_request"
   ],
   "note": "C44_parameters: The worker executes exactly the request that was made, or refuses it: it never executes another one. The refused ones are delta jobs, imports of no files, and numbers beyond 32 bits. C44_worker_executes_request: In the running system: what a worker does for submission `t` is what was asked for."
  },
  {
   "property": "C45",
   "status": "partial",
   "theorems": [
    "Ferryd.Jobs.C45_violated",
    "Ferryd.Jobs.C45_failures_do_not_block_partial"
   ],
   "note": "The full statement (as a definition C45_statement) is false of the code and its negation is proved; the _partial theorems prove what holds. C45_violated: It does not hold: a repository job that brings the daemon down is executed again after every restart, and nothing submitted after it is ever executed. C45_failures_do_not_block_partial: What holds: jobs that merely fail do not block the queue. With the repository worker free and no crashing job up to submission `t`, `t` gets executed without any restart, whatever the outcomes of the jobs before it. (Missing: jobs that bring the process down.)"
  },
  {
   "property": "C46",
   "status": "proved",
   "theorems": [
    "Ferryd.Db.C46_update_atomic"
   ],
   "note": "C46_update_atomic: Database updates are all or nothing: whatever the function does, either it ends well and then every key holds the last value written to it (or the old one), or it ends with an error, which is reported, and nothing changes. What a restart finds after a crash at any point is the old content or the complete new content."
  },
  {
   "property": "C47",
   "status": "partial",
   "theorems": [
    "Ferryd.Db.C47_violated",
    "Ferryd.Db.C47_violated_collision",
    "Ferryd.Db.C47_isolation_partial"
   ],
   "note": "The full statement (as a definition C47_statement) is false of the code and its negation is proved; the _partial theorems prove what holds. C47_violated: is violated**: adding a package to repository `a-package-x` makes it appear in the iteration over the packages of repository `a`. C47_violated_collision: is violated** even for single keys: package `c` of repository `a-package-b` and package `b-package-c` of repository `a` share one database record. C47_isolation_partial: the part that holds**: a write through one bucket changes neither reads nor iteration of another, unless both are package buckets and one of the repository names contains `-package`."
  },
  {
   "property": "C48",
   "status": "proved",
   "theorems": [
    "Ferryd.Db.C48_sequence"
   ],
   "note": "C48_sequence: Sequence numbers are fresh and increasing: after any history of enqueueing, removing and rewriting jobs (fewer than 2^62 steps) the next sequence number is an eight byte number larger than every number in use."
  },
  {
   "property": "C49",
   "status": "partial",
   "theorems": [
    "Ferryd.Db.C49_violated",
    "Ferryd.Db.C49_iteration_partial",
    "Ferryd.Db.C49_iteration_toplevel"
   ],
   "note": "The full statement (as a definition C49_statement) is false of the code and its negation is proved; the _partial theorems prove what holds. C49_violated: is violated**: iterating the packages of repository `a` also visits those of `a-packages`. C49_iteration_partial: the part that holds**: on a database whose repository names do not contain `-package` (the repository iterated and those written to), iteration visits every key of the bucket once, in byte order, with the value a read of that key gives, and nothing else. C49_iteration_toplevel: The pool, the failed deltas and the list of repositories are always isolated, whatever the names."
  },
  {
   "property": "C50",
   "status": "proved",
   "theorems": [
    "Ferryd.Escape.C50_ascii_unchanged"
   ],
   "note": "C50_ascii_unchanged: . ASCII bytes pass unchanged."
  },
  {
   "property": "C51",
   "status": "proved",
   "theorems": [
    "Ferryd.Escape.C51_reads_back",
    "Ferryd.Escape.C51_injective"
   ],
   "note": "C51_reads_back: . For every text, the escaper writes the UTF-8 bytes of a text that reads, as XML, like the original, and that has no character above ASCII of the escaped classes (other than the replacement character). C51_injective: . Distinct texts without references of their own are never written alike."
  },
  {
   "property": "C52",
   "status": "partial",
   "theorems": [
    "Ferryd.Escape.C52_violated",
    "Ferryd.Escape.C52_index_violated",
    "Ferryd.Escape.C52_between_characters_partial",
    "Ferryd.Escape.C52_ascii_partial"
   ],
   "note": "The full statement (as a definition C52_statement) is false of the code and its negation is proved; the _partial theorems prove what holds. C52_violated: fails: `é` cut in two is written as two replacement characters. C52_index_violated: fails for an index: the XML encoder writes through a buffer of 4096 bytes, and a letter that happens to lie across its end is lost although each write of the encoder is a complete text. C52_between_characters_partial: the part that holds: cuts between characters make no difference, whatever is written last. C52_ascii_partial: the part that holds: for ASCII text every cut is harmless, so that an ASCII index is written as encoded whatever the buffer does."
  },
  {
   "property": "C53",
   "status": "proved",
   "theorems": [
    "Ferryd.IndexFiles.C53_old_or_new",
    "Ferryd.IndexFiles.C53_history"
   ],
   "note": "C53_old_or_new: . At every durable moment of an index run, whatever fails and in whatever order the files are renamed, each served file is complete: the one served before, or the new one. C53_history: . Over any history of runs and crashes: whatever is served was completely written for one of the runs."
  },
  {
   "property": "C54",
   "status": "proved",
   "theorems": [
    "Ferryd.IndexFiles.C54_failed_run",
    "Ferryd.IndexFiles.C54_registered_removed",
    "Ferryd.IndexFiles.C54_failed_publication"
   ],
   "note": "C54_failed_run: . A run that fails while the files are being made leaves every served file as it was at every moment, and leaves no temporary of its own: what remains was there before, untouched. C54_registered_removed: . When the making of file `f` fails, the temporaries of all files up to and including `f` are gone. C54_failed_publication: . A run that fails later (a rename, or telling the cache) leaves no temporary at all."
  },
  {
   "property": "C55",
   "status": "partial",
   "theorems": [
    "Ferryd.IndexFiles.C55_after_success_partial",
    "Ferryd.IndexFiles.C55_before_publication_partial",
    "Ferryd.IndexFiles.C55_violated"
   ],
   "note": "The full statement (as a definition C55_statement) is false of the code and its negation is proved; the _partial theorems prove what holds. C55_after_success_partial: at the end of a successful run: all nine files are those of the new index, so every checksum file matches. C55_before_publication_partial: before publication begins: a crash while the files are being made leaves matching checksums matching. C55_violated: fails at a crash between two renames: the new index beside the checksum of the old one."
  },
  {
   "property": "C56",
   "status": "proved",
   "theorems": [
    "Ferryd.IndexFiles.C56_recovers",
    "Ferryd.IndexFiles.C56_success"
   ],
   "note": "C56_recovers: . From any state of the directory whatever, hence after a crash at any point of any run: of three successive index runs in which nothing else goes wrong, one succeeds, and then exactly the new index is served. C56_success: . A success serves exactly the new index and leaves no temporary, so later runs succeed at once."
  },
  {
   "property": "C57",
   "status": "proved",
   "theorems": [
    "Ferryd.Delta.C57_covered",
    "Ferryd.Delta.C57_rebuild",
    "Ferryd.Delta.C57_members"
   ],
   "note": "C57_covered: every file of the new package is either in the delta, with its content, or has a hash that the old package already holds (and is not a directory). C57_rebuild: whoever has the old package rebuilds every file of the new package, byte for byte, from the delta; and the delta carries the new package's file list and metadata. (SHA-1 is taken to be free of collisions.) C57_members: apart from install.tar the delta has exactly the members of the new package."
  },
  {
   "property": "C58",
   "status": "proved",
   "theorems": [
    "Ferryd.Delta.C58_refused_iff",
    "Ferryd.Delta.C58_produced_spares"
   ],
   "note": "C58_refused_iff: between two compatible packages, delta production is refused as pointless exactly when every file of the new package would have to be in it (the paths of a package are distinct). C58_produced_spares: So a produced delta always spares at least one file of the new package."
  },
  {
   "property": "C59",
   "status": "proved",
   "theorems": [
    "Ferryd.Delta.C59_name_identifies_releases",
    "Ferryd.Delta.C59_distinct_names",
    "Ferryd.Delta.C59_name_identifies_package",
    "Ferryd.Producer.C59_staged"
   ],
   "note": "C59_name_identifies_releases: two deltas of the same package (same name; architecture and distribution release may even differ) with the same file name are between the same releases. C59_distinct_names: different pairs of releases of one package get different file names. C59_name_identifies_package: between packages of any names on the same distribution release and architecture: the file name also identifies the package, for the non-negative release numbers that occur. C59_staged: on disk: when two requests for deltas of one package (a name in all its architectures and distribution releases) end with the same staged file, they were between the same two releases."
  },
  {
   "property": "C60",
   "status": "proved",
   "theorems": [
    "Ferryd.Delta.C60_allowed_iff",
    "Ferryd.Delta.C60_no_cycles",
    "Ferryd.Delta.C60_produced_allowed"
   ],
   "note": "C60_allowed_iff: deltas are allowed exactly from a lower to a higher release of the same package, distribution release and architecture. C60_no_cycles: no chain of deltas, of any length, leads back to where it began, or to a release at or below it; and whatever a chain of deltas reaches can also be reached by one delta. C60_produced_allowed: a delta package is produced only for an allowed pair; otherwise the request is refused as mismatched."
  },
  {
   "property": "C61",
   "status": "partial",
   "theorems": [
    "Ferryd.Lock.C61_per_file_partial",
    "Ferryd.Lock.C61_violated",
    "Ferryd.Lock.C61_one_holder_partial"
   ],
   "note": "The full statement (as a definition C61_statement) is false of the code and its negation is proved; the _partial theorems prove what holds. C61_per_file_partial: in every interleaving: two processes that both believe they hold the lock have locked different files. C61_violated: Process 3 shuts down while 2 has opened the file and 1 creates a new one. C61_one_holder_partial: as long as no other daemon is being started while one shuts down in good order (starts may race each other, and processes may be killed at any moment): at most one process holds the lock."
  },
  {
   "property": "C62",
   "status": "partial",
   "theorems": [
    "Ferryd.Lock.C62_readback_iff",
    "Ferryd.Lock.C62_violated",
    "Ferryd.Lock.C62_names_holder_partial",
    "Ferryd.Lock.C62_same_width_partial"
   ],
   "note": "The full statement (as a definition C62_statement) is false of the code and its negation is proved; the _partial theorems prove what holds. C62_readback_iff: exactly: whatever the file held before, after process `p` has written its id the file reads as `p` if and only if what is left of the old content does not begin with a digit. C62_violated: Process 12345 is killed; process 99 takes over, and the file reads 99345. C62_names_holder_partial: as long as no other daemon is being started while one shuts down in good order and no process takes over a file whose content is longer than its own id: the lock path names the running daemon. C62_same_width_partial: in particular, when all process ids have the same number of digits."
  },
  {
   "property": "C63",
   "status": "partial",
   "theorems": [
    "Ferryd.C63_violated",
    "Ferryd.C63_violated_job",
    "Ferryd.C63_below_partial"
   ],
   "note": "The full statement (as a definition C63_statement) is false of the code and its negation is proved; the _partial theorems prove what holds. C63_violated: does not hold: a path with \"..\" leaves the directory. C63_violated_job: What this does on a running daemon: the upload in \"/in\" imports a package of another user's directory, and deletes it there. C63_below_partial: for manifests whose paths have no \"..\" component: then every file is below the manifest's directory. (Missing: nothing in the code refuses the other manifests.)"
  },
  {
   "property": "C64",
   "status": "partial",
   "theorems": [
    "Ferryd.Layout.C64_layout",
    "Ferryd.Layout.C64_core_model",
    "Ferryd.Layout.C64_inside",
    "Ferryd.Layout.C64_separate",
    "Ferryd.Layout.C64_violated"
   ],
   "note": "The full statement (as a definition C64_statement) is false of the code and its negation is proved; the _partial theorems prove what holds. C64_layout: every source whose name is a proper file name that does not begin with a dot lives in `<letters>/<source>`, in lower case. C64_core_model: The function used in the model of the core is this one. C64_inside: the files of such a source are exactly two directories below the pool (or the repository), whichever way the path is put together. C64_separate: two sources share a directory only if their names differ in case alone. C64_violated: A package of the source `..` is put beside the pool, not into it."
  },
  {
   "property": "C65",
   "status": "partial",
   "theorems": [
    "Ferryd.Layout.C65_one_tree",
    "Ferryd.Layout.C65_no_deltas",
    "Ferryd.Layout.C65_violated",
    "Ferryd.Layout.C65_import_partial"
   ],
   "note": "The full statement (as a definition C65_statement) is false of the code and its negation is proved; the _partial theorems prove what holds. C65_one_tree: one argument: a directory all of which can be read gives every package file below it exactly once and nothing else; otherwise there is an error. C65_no_deltas: no delta package is ever picked up. C65_violated: The same directory given twice is submitted twice. C65_import_partial: any arguments: every package file below any of them and nothing else; each exactly once if no argument lies within another; and if anything cannot be read nothing is submitted."
  },
  {
   "property": "C66",
   "status": "proved",
   "theorems": [
    "Ferryd.Layout.C66_only_empty_parents",
    "Ferryd.Layout.C66_files_stay",
    "Ferryd.Layout.C66_no_empty_left"
   ],
   "note": "C66_only_empty_parents: whatever is on disk, cleaning up after a package file adds nothing, and the only things it may remove are the directory of the file, if it is empty, and the one above, if nothing else was in it. C66_files_stay: no file is ever removed. C66_no_empty_left: when it succeeds, the two directories are there only if something is in them."
  },
  {
   "property": "C67",
   "status": "partial",
   "theorems": [
    "Ferryd.C67_violated",
    "Ferryd.C67_pull_assets_partial"
   ],
   "note": "The full statement (as a definition C67_statement) is false of the code and its negation is proved; the _partial theorems prove what holds. C67_violated: is false of the code when a repository is pulled into itself: nothing forbids it, and each asset file is copied onto itself, which empties it (util.go:37-64 opens the target with truncation before reading). C67_pull_assets_partial: what holds: between two different repositories, a pull that finds no downgrade copies every asset file of the source completely and leaves the source's alone; files the source lacks stay as they were."
  },
  {
   "property": "C68",
   "status": "partial",
   "theorems": [
    "Ferryd.Jobs.C68_violated",
    "Ferryd.Jobs.C68_worker_count_partial",
    "Ferryd.Jobs.C68_workers"
   ],
   "note": "The full statement (as a definition C68_statement) is false of the code and its negation is proved; the _partial theorems prove what holds. C68_violated: A request of one worker is treated as the number of CPUs (processor.go). C68_worker_count_partial: A request of two or more is honoured; one or zero are treated as the number of CPUs, a negative number as half of it, or all of it when that is below two; always at least one worker. (Missing: a request of one.) C68_workers: The daemon has exactly one repository worker and the computed number of background workers."
  },
  {
   "property": "C69",
   "status": "proved",
   "theorems": [
    "Ferryd.Jobs.C69_begun_iff_running",
    "Ferryd.Jobs.C69_listing"
   ],
   "note": "C69_begun_iff_running: A stored job is marked as begun exactly when a worker is executing it. C69_listing: Every line of a successful listing is marked as begun exactly when the submission it is for is executing."
  },
  {
   "property": "C70",
   "status": "proved",
   "theorems": [
    "Ferryd.C70_dbginfo_hidden"
   ],
   "note": "C70_dbginfo_hidden: in a freshly published index the tip of a name `b-dbginfo` is absent exactly when `b` or `b-dbginfo` itself is on the obsolete list."
  },
  {
   "property": "C71",
   "status": "proved",
   "theorems": [
    "Ferryd.C21_index_exact"
   ],
   "note": "C21_index_exact: after every job that publishes a repository and reports success, the repository's index lists exactly the tips that are not hidden by the distribution file, once each and sorted, with the location, size and hash of the served files, and carries the components and groups of its asset files."
  },
  {
   "property": "C72",
   "status": "proved",
   "theorems": [
    "Ferryd.C72_no_panic",
    "Ferryd.C72_needs_wellformed",
    "Ferryd.C72_needs_history",
    "Ferryd.C72_any_files",
    "Ferryd.C72_needs_apart"
   ],
   "note": "C72_no_panic: in a world where every readable package has a name, a source and a history, no job of any history ends in a Go panic (which would kill the daemon). C72_needs_wellformed: that assumption is needed. Importing a readable package whose metadata has no source name panics (libeopkg/metadata.go:190-200 slices the empty string). C72_needs_history: nor may the history be missing. Importing a package without one under a name that has packages already panics (libeopkg/metadata.go:157-160 takes the first entry). C72_any_files: without any assumption on which bytes a file holds: if every readable package has a history and a source name and reading files does not panic, no job panics, in any history of requests in which file names of deltas (`D`) and of packages are not confused, whatever happens to the files. C72_needs_apart: that condition is needed. A file with the name of a delta, imported as a package and then referenced as a delta, panics the removal of the package (core/repo.go:529-534 uses the delta information, and there is none)."
  },
  {
   "property": "C73",
   "status": "partial",
   "theorems": [
    "Ferryd.C73_violated",
    "Ferryd.C73_delta_file_partial",
    "Ferryd.C73_careful_partial"
   ],
   "note": "The full statement (as a definition C73_statement) is false of the code and its negation is proved; the _partial theorems prove what holds. C73_violated: is false of the code: a delta forgotten by an import (C31) leaves its served file behind; when a later delta job references it again, linking fails as the file exists, and the fallback copies the file onto itself, emptying it (and the pool's). C73_delta_file_partial: what holds: the delta is in the pool and a file is served for it at the location the index gives. C73_careful_partial: for histories that forget no delta: every listed delta is served, with the bytes its pool entry and so the index describe."
  },
  {
   "property": "C74",
   "status": "partial",
   "theorems": [
    "Ferryd.C74_violated",
    "Ferryd.C74_delete_files_partial"
   ],
   "note": "The full statement (as a definition C74_statement) is false of the code and its negation is proved; the _partial theorems prove what holds. C74_violated: is false of the code: the files are removed after the database commit (repo.go:285-312), so a crash in between leaves them behind for good: the second deletion reports \"not found\" and a new repository of that name is refused because of the left-over directory (repo.go:213-218). C74_delete_files_partial: what is proved: a deletion that is not interrupted removes every file of the repository and its index, and a crash before the commit is repaired by running the deletion again."
  },
  {
   "property": "C75",
   "status": "partial",
   "theorems": [
    "Ferryd.C75_violated",
    "Ferryd.C75_delta_refs_partial",
    "Ferryd.C75_careful_partial"
   ],
   "note": "The full statement (as a definition C75_statement) is false of the code and its negation is proved; the _partial theorems prove what holds. C75_violated: is false of the code: the delta forgotten by an import (C31) keeps its reference, pool entry and files for ever. C75_delta_refs_partial: what holds: the count never falls below the number of repositories listing the delta, so no delta a repository lists is ever removed from the pool. C75_careful_partial: exact counts: as long as no step of the history forgets a delta, the pool's count of every delta package is the number of repositories listing it, so one that no repository lists is out of the pool."
  },
  {
   "property": "C76",
   "status": "proved",
   "theorems": [
    "Ferryd.Jobs.C36_sequential_order",
    "Ferryd.Jobs.C38_done_once"
   ],
   "note": "C36_sequential_order: Repository jobs are executed in the order of submission: when one is finished, so is every repository job submitted before it, and when one is executing, every one submitted before it is finished. C38_done_once: No submission is executed to its end twice."
  },
  {
   "property": "C77",
   "status": "partial",
   "theorems": [
    "Ferryd.Server.C77_violated",
    "Ferryd.Server.C77_violated_rename",
    "Ferryd.Server.C77_watch_partial"
   ],
   "note": "The full statement (as a definition C77_statement) is false of the code and its negation is proved; the _partial theorems prove what holds. C77_violated: A manifest uploaded while the daemon is down is never looked at. C77_violated_rename: Neither is one that is renamed into the directory while it runs. C77_watch_partial: for manifests written in the incoming directory while the daemon runs: each is queued, once for each time it is written, in order; and nothing else is (nothing that is renamed there, no other file, nothing in directories below)."
  },
  {
   "property": "C78",
   "status": "partial",
   "theorems": [
    "Ferryd.C78_violated",
    "Ferryd.C78_violated_retry",
    "Ferryd.C78_failed_upload_partial"
   ],
   "note": "The full statement (as a definition C78_statement) is false of the code and its negation is proved; the _partial theorems prove what holds. C78_violated: does not hold: when the second file of an upload is not a package, the first one is imported all the same; and because uploads are strict, repeating the upload after replacing the broken file is refused for ever. C78_violated_retry: ... and the repaired upload (now with the right second package) can never be accepted. C78_failed_upload_partial: What does hold of a failed upload: the packages listed before are still listed, only payload packages of the target repository may be new, and no tip goes back."
  },
  {
   "property": "C79",
   "status": "partial",
   "theorems": [
    "Ferryd.IndexFiles.C79_violated",
    "Ferryd.IndexFiles.C79_repeat_partial"
   ],
   "note": "The full statement (as a definition C79_statement) is false of the code and its negation is proved; the _partial theorems prove what holds. C79_violated: fails: after a crash once the xz file is written, the repeated run fails; after a crash once the zstd file is written, two runs fail (so that the bound in C56 is tight). C79_repeat_partial: the part that holds: a crash before the xz file is begun, or once both compressed files are published."
  },
  {
   "property": "C80",
   "status": "proved",
   "theorems": [
    "Ferryd.Lock.C80_restart"
   ],
   "note": "C80_restart: whatever happened before, and however the earlier daemons ended, if none of them is alive then a new one can start and gets the lock."
  },
  {
   "property": "C81",
   "status": "partial",
   "theorems": [
    "Ferryd.Layout.C81_violated",
    "Ferryd.Layout.C81_repo_dirs_partial"
   ],
   "note": "The full statement (as a definition C81_statement) is false of the code and its negation is proved; the _partial theorems prove what holds. C81_violated: The repository `.` has all the others inside its directory. C81_repo_dirs_partial: for repository names other than `.` and `..`."
  },
  {
   "property": "C82",
   "status": "partial",
   "theorems": [
    "Ferryd.Client.C82_bytes_partial",
    "Ferryd.Client.C82_wire_partial",
    "Ferryd.Client.C82_wire_violated",
    "Ferryd.Client.C82_violated",
    "Ferryd.Client.C82_delivered_partial",
    "Ferryd.Client.C82_executed_partial"
   ],
   "note": "The full statement (as a definition C82_statement) is false of the code and its negation is proved; the _partial theorems prove what holds. C82_bytes_partial: what the bytes of a request do is what its fields say, whatever the URL leads to. Missing: strings that are not UTF-8 (C158). C82_wire_partial: with the bytes on the wire: a call with a plain repository name, and UTF-8 in the other strings, makes the daemon do exactly what the call says. C82_wire_violated: is false of the bytes for another reason, too: of the import of `/\\xE9`, which is not UTF-8, another path is left (C158). C82_violated: Asking to delete the repository `a?b` deletes the repository `a`. C82_delivered_partial: for repository names without characters that are special in URLs: whatever the other arguments are, the daemon does exactly what the call says. C82_executed_partial: the worker that later takes the job calls the manager with these very parameters (or, for an empty import or a number that does not fit 32 bits, refuses it)."
  },
  {
   "property": "C83",
   "status": "proved",
   "theorems": [
    "Ferryd.Client.C83_command",
    "Ferryd.Client.C83_numbers"
   ],
   "note": "C83_command: a command line makes the call it means. C83_numbers: no command ever asks for a release or a number of packages that is not positive, except for the one meaning \"all releases\" when none was given, nor for one that the daemon would refuse."
  },
  {
   "property": "C84",
   "status": "partial",
   "theorems": [
    "Ferryd.Server.C84_violated",
    "Ferryd.Server.C84_restart_partial"
   ],
   "note": "The full statement (as a definition C84_statement) is false of the code and its negation is proved; the _partial theorems prove what holds. C84_violated: After a kill (or a job that panicked) the socket file keeps the daemon from starting. C84_restart_partial: exactly: with systemd the daemon can always be started again; without it, after a good end it can, and after being killed, or after one start that failed for any reason, it cannot, however often one tries."
  },
  {
   "property": "C85",
   "status": "proved",
   "theorems": [
    "Ferryd.Daemon.C85_serial"
   ],
   "note": "C85_serial: at any moment, whatever has been submitted when and however often the daemon died, the repositories are as if the finished repository jobs had been executed one after another, each exactly once, in the order of their submission, except that before a job attempts at that same job may have been cut short by the death of the daemon, and that a job may have been ended early by an I/O error. `K` has the jobs with which this happened; it is empty if the daemon never died in the middle of a repository job and no I/O error occurred."
  },
  {
   "property": "C86",
   "status": "proved",
   "theorems": [
    "Ferryd.Daemon.C86_histories",
    "Ferryd.Daemon.C86_consistent",
    "Ferryd.Daemon.C86_no_panic",
    "Ferryd.Daemon.C86_progress"
   ],
   "note": "C86_histories: the repositories of a running daemon that has not died in the middle of a repository job are those of a history of repository operations, so that everything proved of such histories holds of the daemon as a whole, whatever is submitted, claimed and finished when and whenever else it was stopped. C86_consistent: then, in particular, the reference count of every package in the pool is the number of repositories listing it, every package listed is served with the bytes of the upload, and the published package of each name is listed and has the highest release. C86_no_panic: and no job brings the daemon down. C86_progress: every repository job gets executed. With the repository worker free, whatever is pending before job `t` (delta repository jobs aside), the daemon can go on, without any restart, until `t` is finished."
  },
  {
   "property": "C87",
   "status": "proved",
   "theorems": [
    "Ferryd.Db.C87_tables",
    "Ferryd.Db.C87_tables_crash",
    "Ferryd.Db.C87_refused",
    "Ferryd.Db.C87_daemon",
    "Ferryd.Db.C87_daemon_crash"
   ],
   "note": "C87_tables: For every history of writes and updates to pool, failed deltas, repositories and the repositories' packages, with repository names that do not contain `-package`, the flat database answers every read and every iteration as separate tables would. C87_tables_crash: at crash points: what a restart finds after a crash in the middle of a call are the tables before it or after it. C87_refused: A call is refused, with an error, exactly when it names a reserved key (libdb/leveldb.go:90, 108), and then changes nothing. C87_daemon: for the daemon: after any history of operations with repository names that do not contain `-package`, the tables are those of a history of bucket calls, and the flat database after these calls says the same. C87_daemon_crash: for the daemon at crash points: also what an operation leaves when it is cut short is what a history of bucket calls leaves."
  },
  {
   "property": "C88",
   "status": "partial",
   "theorems": [
    "Ferryd.Listing.C88_wire_partial",
    "Ferryd.Listing.C88_wire_repos_partial",
    "Ferryd.Listing.C88_wire_pool_partial",
    "Ferryd.Listing.C88_wire_violated",
    "Ferryd.Listing.C88_list_repos",
    "Ferryd.Listing.C88_list_pool",
    "Ferryd.Listing.C88_pool_counts"
   ],
   "note": "The full statement (as a definition C88_statement) is false of the code and its negation is proved; the _partial theorems prove what holds. C88_wire_partial: repositories, with the bytes of the answer: of the repositories whose names are bytes, exactly those with a name in UTF-8 are listed under their name. Missing: the others are listed under another name. C88_wire_repos_partial: repositories, with the bytes of the answer: if all names are UTF-8, the listing is the one of `C88_list_repos`. C88_wire_pool_partial: pool, with the bytes of the answer: the identifiers of packages are UTF-8 and no count reaches 2^63, then the lines are those of `C88_list_pool`. C88_wire_violated: is false of the bytes, whatever the encoding of the database: a repository called `a\\xE9` is listed under another name. (handlers.go:111) C88_list_repos: repositories: the listing names every repository, once, and nothing else, in byte order. C88_list_pool: pool: the listing has one line for every package in the pool, with its reference count, and no other. C88_pool_counts: and C01 together: the number shown beside a package is the number of repositories listing it."
  },
  {
   "property": "C89",
   "status": "proved",
   "theorems": [
    "Ferryd.Listing.C89_status"
   ],
   "note": "C89_status: in every state of the job processing, whenever the report can be made it shows of the current jobs the ten queued first (with `--all` every one), in the order they were queued, and of the failed and of the completed jobs on record the ten queued last, last first; and a current job is shown as running exactly when a worker is executing it."
  },
  {
   "property": "C90",
   "status": "partial",
   "theorems": [
    "Ferryd.C90_violated",
    "Ferryd.C90_other_files_partial",
    "Ferryd.C90_careful_partial"
   ],
   "note": "The full statement (as a definition C90_statement) is false of the code and its negation is proved; the _partial theorems prove what holds. C90_violated: is false of the code: the pool and the repositories share one inode for a delta. When a repository that had forgotten the delta (C31) references it again, linking fails as its file exists, the fallback truncates that inode (util.go:37-75), and the other repositories that list the delta serve an empty file from then on. C90_other_files_partial: what holds: operations that reference no deltas (all but the delta jobs and full clones) change no file of another repository; and whatever the operation, no file of another repository appears or disappears, and each has its proper content or is empty. C90_careful_partial: for histories that forget no delta: whatever operation comes next, every file served by a repository it is not directed at is as it was."
  },
  {
   "property": "C91",
   "status": "proved",
   "theorems": [
    "Ferryd.C91_succeeds_iff"
   ],
   "note": "C91_succeeds_iff: in every reachable state every operation succeeds if and only if its request is valid (`Accepts`) and, when it ends with rebuilding an index, the asset files then found parse and no tool of that index run fails."
  },
  {
   "property": "C92",
   "status": "proved",
   "theorems": [
    "Ferryd.Shutdown.C92_open_while_running",
    "Ferryd.Shutdown.C92_nothing_cut",
    "Ferryd.Shutdown.C92_begun_once"
   ],
   "note": "C92_open_while_running: as long as a worker executes a job, the daemon keeps the job database (and with it the repositories' database) open. C92_nothing_cut: once an orderly end has closed the job database, no job is executing and no stored job is marked as taken: whatever was begun has been executed to its end and retired. C92_begun_once: a daemon that is only ever stopped in an orderly way begins no job twice, over any number of restarts; and whenever it is down, every job it began has been executed to its end."
  },
  {
   "property": "C93",
   "status": "partial",
   "theorems": [
    "Ferryd.Shutdown.C93_accepted_partial",
    "Ferryd.Shutdown.C93_violated"
   ],
   "note": "The full statement (as a definition C93_statement) is false of the code and its negation is proved; the _partial theorems prove what holds. C93_accepted_partial: the part that holds: unless a request is answered in the short time between the closing of the job database and the end of `JobStore.Close`, every accepted request is a job, queued or executed. Missing: that window (`C93_violated`). C93_violated: It is not so: a request answered between the closing of the database and the end of `JobStore.Close` is lost."
  },
  {
   "property": "C94",
   "status": "proved",
   "theorems": [
    "Ferryd.Shutdown.C94_never_stuck",
    "Ferryd.Shutdown.C94_stop_ends"
   ],
   "note": "C94_never_stuck: an orderly end is never stuck: until the process is gone, the closing goroutine or a worker can make a step. C94_stop_ends: after the signal the daemon ends, under every fair schedule in which the jobs being executed come to an end: clients may go on submitting as they like."
  },
  {
   "property": "C95",
   "status": "partial",
   "theorems": [
    "Ferryd.Shutdown.C95_lock_held_partial",
    "Ferryd.Shutdown.C95_violated"
   ],
   "note": "The full statement (as a definition C95_statement) is false of the code and its negation is proved; the _partial theorems prove what holds. C95_lock_held_partial: the part that holds: until it is told to stop. Missing: the time from the signal until the last job is finished (`C95_violated`). C95_violated: It is not so: `Close` gives up the lock first and waits for the workers later (server.go:233-239)."
  },
  {
   "property": "C96",
   "status": "partial",
   "theorems": [
    "Ferryd.C96_violated",
    "Ferryd.C96_careful_partial"
   ],
   "note": "The full statement (as a definition C96_statement) is false of the code and its negation is proved; the _partial theorems prove what holds. C96_violated: is false of the code: a delta forgotten by an import (C31) stays in the public tree. C96_careful_partial: what holds: as long as no step of the history forgets a delta, every delta file served is of a listed delta, in the directory of its source."
  },
  {
   "property": "C97",
   "status": "proved",
   "theorems": [
    "Ferryd.Producer.C97_nothing_left",
    "Ferryd.Producer.C97_work_gone",
    "Ferryd.Producer.C97_touches_only"
   ],
   "note": "C97_nothing_left: whatever step fails while a delta is produced (only the removal of directories has to work), afterwards the disk is as before but for the staged delta: no working directory, no temporary, every other file unchanged. C97_work_gone: from any state of the disk: once the packages have been found to fit and the working directory was to be made, it is gone afterwards, whatever it held before and whatever failed. C97_touches_only: at every moment: in no durable state of the run has a file changed that is neither the delta nor in the working directory of these two packages."
  },
  {
   "property": "C98",
   "status": "partial",
   "theorems": [
    "Ferryd.Producer.C98_linked_partial",
    "Ferryd.Producer.C98_first_partial",
    "Ferryd.Producer.C98_violated"
   ],
   "note": "The full statement (as a definition C98_statement) is false of the code and its negation is proved; the _partial theorems prove what holds. C98_linked_partial: where hard links can be made (the build directory and the staging area of a repository are in the same base directory): then it holds, and in every durable state the staged delta is absent or whole. C98_first_partial: for a single attempt, with or without hard links and whatever fails: if none of the delta was staged before, success means that all of it is. C98_violated: does not hold: where hard links cannot be made the delta is copied into the staging area under its own name; a copy cut short (disk full, or a kill) is taken for the finished delta by the next attempt."
  },
  {
   "property": "C99",
   "status": "partial",
   "theorems": [
    "Ferryd.Producer.C99_clean_partial",
    "Ferryd.Producer.C99_second_partial",
    "Ferryd.Producer.C99_violated"
   ],
   "note": "The full statement (as a definition C99_statement) is false of the code and its negation is proved; the _partial theorems prove what holds. C99_clean_partial: without left-overs: from a disk without working directories an undisturbed attempt stages exactly the delta that `Verif.Delta` defines and changes nothing else; if the delta is pointless it says so and changes nothing. C99_second_partial: after an interruption: whatever the working directory holds, an undisturbed attempt succeeds, or it clears the directory and the next undisturbed attempt succeeds. It fails exactly if the compressors refuse to overwrite a file left there. C99_violated: does not hold: after a kill the working directory still has `install.tar`, `unxz` refuses to overwrite it, and the next attempt fails although nothing is wrong."
  },
  {
   "property": "C100",
   "status": "partial",
   "theorems": [
    "Ferryd.Producer.C100_left_partial",
    "Ferryd.Producer.C100_pointless_partial",
    "Ferryd.Producer.C100_violated"
   ],
   "note": "The full statement (as a definition C100_statement) is false of the code and its negation is proved; the _partial theorems prove what holds. C100_left_partial: the part that holds: whatever fails, the only files a call can leave open are the two it writes (which `Commit` and `produceInstallBall` never close) and, if examining it fails, the partial install.tar.xz; the two packages are closed, unless they turn out not to belong together although the database says so. C100_pointless_partial: when there is nothing to write: a pointless delta leaves no file open. C100_violated: does not hold: a successful production leaves both files it wrote open."
  },
  {
   "property": "C101",
   "status": "proved",
   "theorems": [
    "Ferryd.Eopkg.C101_read",
    "Ferryd.Eopkg.C101_unchanged"
   ],
   "note": "C101_read: when reading succeeds the metadata are those of the first member called metadata.xml, with the summary and description texts trimmed and their languages completed, and nothing else of the package has changed. C101_unchanged: a reading that reports an error leaves the package as it was; so does one after a success."
  },
  {
   "property": "C102",
   "status": "partial",
   "theorems": [
    "Ferryd.Eopkg.C102_panics_iff_partial",
    "Ferryd.Eopkg.C102_import_partial",
    "Ferryd.Eopkg.C102_violated",
    "Ferryd.Eopkg.C102_violated_import"
   ],
   "note": "The full statement (as a definition C102_statement) is false of the code and its negation is proved; the _partial theorems prove what holds. C102_panics_iff_partial: what holds: reading a package panics exactly if its metadata decode and have no summary or no description; in all other cases it returns. C102_import_partial: what the repositories see (`Env.parse`): the package of the first metadata.xml, an error, or the panic. C102_violated: fails: a package without a summary panics. C102_violated_import: ... and so does the job that imports it."
  },
  {
   "property": "C103",
   "status": "partial",
   "theorems": [
    "Ferryd.Eopkg.C103_files_partial",
    "Ferryd.Eopkg.C103_special_bits_partial",
    "Ferryd.Eopkg.C103_violated"
   ],
   "note": "The full statement (as a definition C103_statement) is false of the code and its negation is proved; the _partial theorems prove what holds. C103_files_partial: what holds: the file list of a package is read exactly if the first member called files.xml decodes and every file in it has an octal mode of at most 32 bits; then it is that list, in its order, each file with the number of its mode, and so with the right permission bits. (Missing: set-uid, set-gid and sticky bits, see `C103_violated`.) C103_special_bits_partial: what goes wrong, in general: a file with an ordinary Unix mode (below 2^16) is never reported as set-uid, set-gid or sticky, whatever its record says. C103_violated: fails: the set-uid bit of `04755` is lost (bit 11 of the number is not the bit Go's os.FileMode has for it)."
  },
  {
   "property": "C104",
   "status": "proved",
   "theorems": [
    "Ferryd.Eopkg.C104_components",
    "Ferryd.Eopkg.C104_order",
    "Ferryd.Eopkg.C104_order_groups"
   ],
   "note": "C104_components: whenever a job has published a repository's index, the index carries the components and the groups of the asset files of the repository, ordered by name, each as it is in the file but for the language of its first texts; and none when there is no such file. C104_order: the order in which the asset file lists its components does not matter, if no two have the same name. C104_order_groups: the same for groups."
  },
  {
   "property": "C105",
   "status": "partial",
   "theorems": [
    "Ferryd.Eopkg.C105_panics_iff_partial",
    "Ferryd.Eopkg.C105_complete_partial",
    "Ferryd.Eopkg.C105_violated"
   ],
   "note": "The full statement (as a definition C105_statement) is false of the code and its negation is proved; the _partial theorems prove what holds. C105_panics_iff_partial: what holds: loading an asset file panics exactly if it decodes and one of its components lacks a local name, a summary or a description, or one of its groups a local name. C105_complete_partial: what holds: with complete asset files, and packages that are complete, no job of any history panics. C105_violated: fails: a component without a description in components.xml panics the job that rebuilds the index."
  },
  {
   "property": "C106",
   "status": "proved",
   "theorems": [
    "Ferryd.Eopkg.C106_requests",
    "Ferryd.Eopkg.C106_result"
   ],
   "note": "C106_requests: the cache is asked to purge exactly the non-empty lines of the repository's list, in their order and in one request for the configured zone, if a token, a zone and a readable list are there (and a client can be made); in all other cases nothing is sent. C106_result: the index run reports success exactly if there was nothing to purge or the purge succeeded."
  },
  {
   "property": "C107",
   "status": "partial",
   "theorems": [
    "Ferryd.Eopkg.C107_answers_partial",
    "Ferryd.Eopkg.C107_violated"
   ],
   "note": "The full statement (as a definition C107_statement) is false of the code and its negation is proved; the _partial theorems prove what holds. C107_answers_partial: what holds: only a refusal without any message does. C107_violated: fails: Cloudflare's `errors` list is indexed without looking whether it is empty."
  },
  {
   "property": "C108",
   "status": "proved",
   "theorems": [
    "Ferryd.C108_isolation"
   ],
   "note": "C108_isolation: whatever crashes and I/O errors went before, a job directed at one repository leaves every other one alone, at each of its own moments (so also if it is cut short there) and at its end: existence, listings, tips, deltas, published index, asset files, and which files are served. The bytes of the served files are at each moment a beginning of the uploaded ones; they need not stay the same (C110)."
  },
  {
   "property": "C109",
   "status": "proved",
   "theorems": [
    "Ferryd.C109_no_panic",
    "Ferryd.C109_counts"
   ],
   "note": "C109_no_panic: no job panics, and so none kills the daemon, however many crashes and I/O errors went before. C109_counts: the reference count of a pool record is never zero and never wraps around: also when counts have been lost to crashes, a record at one is removed, not decremented."
  },
  {
   "property": "C110",
   "status": "partial",
   "theorems": [
    "Ferryd.C110_violated",
    "Ferryd.C110_violated_silently",
    "Ferryd.C110_prefix_partial",
    "Ferryd.C110_uncut_additions_partial"
   ],
   "note": "The full statement (as a definition C110_statement) is false of the code and its negation is proved; the _partial theorems prove what holds. C110_violated: is false of the code, for a repository nobody touched: the daemon dies while importing into \"v\" a package \"u\" already has; the import is run again and reports success; \"u\" now serves an empty file. (All places share one inode; the file in \"v\" exists, so the link fails, and the copy that replaces it truncates the inode, util.go:37-75.) C110_violated_silently: before the import was run again the file was whole, and the job that emptied it reported success. C110_prefix_partial: what holds: never wrong bytes, only too few. Every file in the pool and in every repository, in every history of jobs, crashes and I/O errors and at every moment of the next job, is a beginning of the file uploaded under that name. (Not shown, and false: that it is all of it.) C110_uncut_additions_partial: in full, for histories in which jobs that add packages come to their end: whatever else is cut short, wherever and however often, and at every moment of the next such job, every package file in a repository and in the pool is the whole file uploaded under that name (deltas aside); a file in an existing repository is one the repository lists, and a pool file has its record. (Not covered, and false: histories with a cut import, `C110_violated`.)"
  },
  {
   "property": "C111",
   "status": "proved",
   "theorems": [
    "Ferryd.C111_listings",
    "Ferryd.C111_pool"
   ],
   "note": "C111_listings: in every history of jobs, crashes and I/O errors the listings stay sane: what is listed under a name is a readable package of that name, no delta, once, in order; each name listed has exactly one tip, which is listed; listed deltas are deltas of that name. C111_pool: and every pool record describes the uploaded file: name, source and history of the package in it, its size and SHA-1."
  },
  {
   "property": "C112",
   "status": "proved",
   "theorems": [
    "Ferryd.C112_index",
    "Ferryd.C112_served_index"
   ],
   "note": "C112_index: however many crashes and I/O errors went before, a job that ends with an index run and succeeds has published the right index: the tips not hidden by the distribution file, exactly these, once each and in order; components and groups of the asset files; for each package location, name, source, history, and size and SHA-1 of the uploaded file; and exactly the deltas listed that lead to it. C112_served_index: and whatever index a repository serves, at any moment of any such history, never gives a wrong size or hash: each package and each delta in it is described as uploaded."
  },
  {
   "property": "C113",
   "status": "proved",
   "theorems": [
    "Ferryd.C113_import",
    "Ferryd.C113_clone",
    "Ferryd.C113_pull",
    "Ferryd.C113_remove_source",
    "Ferryd.C113_copy_source",
    "Ferryd.C113_trim",
    "Ferryd.C113_trim_obsolete"
   ],
   "note": "C113_import: however many crashes and I/O errors went before, a job that reports success has done its work, and nothing else to any listing. An import lists the files, besides what was listed. C113_clone: for cloning: the new repository lists all packages of the source, or its tips. C113_pull: for pulling: the target also lists the source's tips where it publishes nothing of the name or an older release. C113_remove_source: for remove-source: exactly the matching packages are gone. C113_copy_source: for copy-source: the target also lists the matching packages of the source. C113_trim: for trimming to `k` packages per name: nothing is added, every tip stays, and every package with fewer than `k` others of its name of the same or a higher release stays. C113_trim_obsolete: for trimming obsolete packages: nothing is added; of a debug name of a name obsolete under the distribution file exactly one listed package, the first in order, goes (C20 says why not all); every other name keeps all its packages."
  },
  {
   "property": "C114",
   "status": "proved",
   "theorems": [
    "Ferryd.C114_delete_always"
   ],
   "note": "C114_delete_always: a repository can always be deleted: whatever crashes and I/O errors went before, and whatever they did to it and to the pool, deleting an existing repository succeeds, and nothing is left of it: no record, no listing, no package files, no asset files, no index."
  },
  {
   "property": "C115",
   "status": "partial",
   "theorems": [
    "Ferryd.C115_violated",
    "Ferryd.C115_violated_silently",
    "Ferryd.C115_newest_partial"
   ],
   "note": "The full statement (as a definition C115_statement) is false of the code and its negation is proved; the _partial theorems prove what holds. C115_violated: is false of the code, for a repository nobody removed anything from: `a-2` is in \"u\" and in \"v\"; the daemon dies while removing it from \"u\", after the reference count went down and before the listing did; the removal is run again, and the count goes down a second time, to nothing, and with it the pool record \"v\" still needs; release 1 is then added to \"v\", whose published record has gone, and so becomes the published one (repo.go:633-651: a missing record is taken for \"nothing published\"). C115_violated_silently: both jobs reported success, and the index \"v\" serves goes from release 2 back to release 1. C115_newest_partial: what is proved: as long as no remove-source or trim job is cut short (every other job, imports, clones, pulls, copies and deletions of repositories included, may be, anywhere, any number of times, by crashes or I/O errors), the published release of a name is the highest one its repository lists. Missing: histories in which a remove-source or trim is cut, where it is false (`C115_violated`)."
  },
  {
   "property": "C116",
   "status": "proved",
   "theorems": [
    "Ferryd.C116_counted",
    "Ferryd.C116_succeeds",
    "Ferryd.C116_needs_whole_removals"
   ],
   "note": "C116_counted: references: as long as no remove-source or trim job is cut short, whatever several repositories list, as package or as delta, the pool has, with a count of at least the number of those repositories; so no removal elsewhere takes away what a repository needs. This also holds at every moment of a job other than a removal. C116_succeeds: the jobs: as long as no remove-source or trim job is cut short, every valid index, remove-source or trim request succeeds, whatever else was cut short before, if the asset files parse and no tool of the index run fails. C116_needs_whole_removals: The condition on removals is needed: after the removal from \"u\" was cut short and run again, \"v\" lists `a-2`, the pool does not have it, and indexing \"v\" fails."
  },
  {
   "property": "C117",
   "status": "proved",
   "theorems": [
    "Ferryd.Daemon.C117_delta_repo",
    "Ferryd.Daemon.C117_submitted"
   ],
   "note": "C117_delta_repo: executing a delta-repository job on an existing repository submits one delta job for each name the repository lists, in byte order and no other job, and leaves the repositories alone; for an unknown repository it fails and submits nothing. C117_submitted: at the daemon: whatever crashes and I/O errors there were before, when a delta-repository job for an existing repository gets finished (the daemon is not stopped at that moment and no I/O error ended the job early), one delta job for each name the repository lists has been submitted behind all others, in byte order, and nothing else; the job is recorded as completed."
  },
  {
   "property": "C118",
   "status": "proved",
   "theorems": [
    "Ferryd.Daemon.C118_outcome"
   ],
   "note": "C118_outcome: when a job gets finished (and the daemon is not stopped at that moment), its request has been carried out on the repositories; a record of it is added to the failed history if its parameters are bad or carrying it out failed, otherwise to the completed history, and the other history stays as it was; and what has been submitted besides are the jobs it asked for. If it was cut short by an I/O error (the second case) the repositories are as at a moment of its execution, an open batch dropped; it is recorded as failed and nothing is submitted."
  },
  {
   "property": "C119",
   "status": "proved",
   "theorems": [
    "Ferryd.Daemon.C119_histories",
    "Ferryd.Daemon.C119_survives"
   ],
   "note": "C119_histories: whatever has been submitted and however often the daemon died or met I/O errors, also in the middle of repository jobs and of copying files, its repositories are those of a history of repository operations with crashes and I/O errors, so that all that is proved of such histories (C108 to C114) holds of the daemon as a whole. C119_survives: in particular, no job brings the daemon down, reference counts are positive, what is listed under a name is a readable package of that name, a name listed has exactly one published package, which is listed, the files served are beginnings of the uploaded ones, and a published index never gives a wrong size or hash."
  },
  {
   "property": "C120",
   "status": "proved",
   "theorems": [
    "Ferryd.Jobs.C120_past",
    "Ferryd.Jobs.C120_active",
    "Ferryd.Jobs.C120_status"
   ],
   "note": "C120_past: the record of a finished job in either history has the times of its submission, of the beginning of the execution that ended, and of its end; they are in this order and not in the future. (If the clock does not go back.) C120_active: an active job is shown with the time of its submission; if it is shown as running, with the time of its last start as well, and if not, with none; and it has not ended. C120_status: what `ferryctl status` prints, asked at a time `now`: for a completed job its end, the time from its submission to its end and the time its last execution took; for a failed one its end and the time the execution took; for an active one its submission and how long ago that was; and none of these durations is negative."
  },
  {
   "property": "C121",
   "status": "partial",
   "theorems": [
    "Ferryd.C121_served_partial",
    "Ferryd.C121_violated"
   ],
   "note": "The full statement (as a definition C121_statement) is false of the code and its negation is proved; the _partial theorems prove what holds. C121_served_partial: what holds: as long as no delete, remove-source or trim is cut short, and however often any other job is, wherever: at every moment of the next such job, and at the end of every job, successful or not, every package or delta a repository lists has its file there, and everything in the pool has its pool file, each with a beginning of the uploaded bytes; and with all of them if no adding job was cut short either (deltas aside). (Not covered, and false: histories in which a removal or deletion was cut short, `C121_violated`.) C121_violated: is false of the code: the deletion of repository \"u\", the only one with package a-1, is cut short after it removed the pool file; the pool record is still there, since the transaction was not committed. Importing a-1 into \"v\" then finds the record, asks for a link to the missing pool file, and copying a missing file is not an error (util.go:37-42): the import reports success, \"v\" lists and indexes the package and does not have it."
  },
  {
   "property": "C122",
   "status": "partial",
   "theorems": [
    "Ferryd.C122_deltas_partial",
    "Ferryd.C122_clean_packages_partial",
    "Ferryd.C122_violated"
   ],
   "note": "The full statement (as a definition C122_statement) is false of the code and its negation is proved; the _partial theorems prove what holds. C122_deltas_partial: the part that holds (for every environment, every package whatever its metadata says and every state, reachable or not): the index advertises every applicable delta of the repository; and what it advertises is an applicable delta of the repository, unless the repository has none for the package and the line was already in the package's own metadata. What is missing: those lines are published without any check. C122_clean_packages_partial: the case of packages that bring no delta list of their own (what the packaging tools produce): exactly the repository's applicable deltas are advertised. C122_violated: is false of the code: a package whose metadata.xml carries a DeltaPackages section gets that section published in the index, although the repository has never seen such a delta."
  },
  {
   "property": "C123",
   "status": "proved",
   "theorems": [
    "Ferryd.Jobs.C123_finished",
    "Ferryd.Jobs.C123_report_misses_no_job"
   ],
   "note": "C123_finished: What finished shows up in the history that is read next, as long as it is among the last hundred. C123_report_misses_no_job: A job that is not finished when the report begins is shown: with a line for its state when its queue is read, or, if it finished before that, with its result in the history it belongs to (unless more than a hundred jobs finish while the report is taken)."
  },
  {
   "property": "C124",
   "status": "partial",
   "theorems": [
    "Ferryd.Jobs.C124_lines_partial",
    "Ferryd.Jobs.C124_quiet_partial",
    "Ferryd.Jobs.C124_violated"
   ],
   "note": "The full statement (as a definition C124_statement) is false of the code and its negation is proved; the _partial theorems prove what holds. C124_lines_partial: A report has at most as many lines as jobs were submitted, and one more for every job that finished while it was taken. (Missing for C124: a job that finishes between two of the reads can be shown twice.) C124_quiet_partial: So a report taken while no job finishes shows no job twice: it has at most one line per job. C124_violated: A job that finishes while the report is taken is shown as running and as completed."
  },
  {
   "property": "C125",
   "status": "proved",
   "theorems": [
    "Ferryd.Jobs.C125_every_job_is_executed",
    "Ferryd.Jobs.C125_sequential",
    "Ferryd.Jobs.C125_drains"
   ],
   "note": "C125_every_job_is_executed: Every job that was submitted and is not finished is eventually finished, if some worker serves its queue. C125_sequential: There are always such workers: a daemon that is up has one for the sequential queue, and those for the other queue stay. C125_drains: So if no more jobs are submitted, all queues run empty and stay empty (with at least one worker for deltas, see C68)."
  },
  {
   "property": "C126",
   "status": "proved",
   "theorems": [
    "Ferryd.C126_index_iff",
    "Ferryd.C126_one_package"
   ],
   "note": "C126_index_iff: after any history of jobs, crashes and I/O errors, indexing an existing repository succeeds if and only if its asset files parse, no tool of the index run fails, and the pool has a record of the published package of every name that is not on the obsolete list and of every delta of a name that list does not hide. C126_one_package: as long as no removal was cut short before, at whatever point a remove-source or trim job is cut short, at most one package, with deltas of its name, is listed in its repository without a record in the pool."
  },
  {
   "property": "C127",
   "status": "proved",
   "theorems": [
    "Ferryd.C127_import_iff"
   ],
   "note": "C127_import_iff: in any state a history of jobs and crashes leaves (crashes of jobs that take packages out excepted: see C115), an import of whole, readable uploads with distinct file names either fails, or succeeds and lists all of them. It succeeds and every uploaded package is served with the uploaded bytes, if and only if every upload is `Ready`: the package is listed and its file whole; or it is not listed, and the file the import would overwrite is not a hard link of the file it would be copied from. If all are ready, no whole package file anywhere (uploads, pool, any repository) is damaged."
  },
  {
   "property": "C128",
   "status": "partial",
   "theorems": [
    "Ferryd.C128_copy_iff_partial",
    "Ferryd.C128_damage",
    "Ferryd.C128_violated"
   ],
   "note": "The full statement (as a definition C128_statement) is false of the code and its negation is proved; the _partial theorems prove what holds. C128_copy_iff_partial: (partial): in any state a history of jobs and crashes leaves (crashes of jobs that take packages out excepted), a copy of packages the source lists succeeds, lists exactly them in addition, and a copied package is served whole by the target if and only if it was `RefReady`: listed there with its file whole, or not listed and the pool file is whole and no hard link of the target's file. If all are, no whole package file anywhere is damaged. Missing: after a crash they need not be ready. C128_damage: the daemon dies after linking the file into the target, before listing it. Run again, the copy reports success, and empties the file in the target, in the pool and in the repository it was copied from: all three are hard links of one file, which is truncated to be copied onto itself. C128_violated: is false of the code: see `C128_damage`."
  },
  {
   "property": "C129",
   "status": "partial",
   "theorems": [
    "Ferryd.C129_strict_iff_partial",
    "Ferryd.C129_stuck",
    "Ferryd.C129_violated"
   ],
   "note": "The full statement (as a definition C129_statement) is false of the code and its negation is proved; the _partial theorems prove what holds. C129_strict_iff_partial: (partial): in any state a history of jobs and crashes leaves (crashes of jobs that take packages out excepted), a strict import of whole uploads of different packages succeeds and serves all of them if and only if each is `Ready` and `Admitted`: its release is higher than that of the published package of its name. Missing: once the first of them was listed, it is no longer admitted. C129_stuck: once the first package of an upload is published with that release, running the upload again fails, however often: nothing is ever listed that was not, and no record and no file changes. C129_violated: is false of the code: the upload of `a-1` and `b-1` is cut off once `a-1` is listed; run again it is refused for `a-1`, and `b-1` never arrives."
  },
  {
   "property": "C130",
   "status": "proved",
   "theorems": [
    "Ferryd.Daemon.C130_damage",
    "Ferryd.Daemon.C130_succeeds"
   ],
   "note": "C130_damage: what the daemon was doing when it died or met an I/O error decides what can be damaged. If no remove-source or trim job was cut short, the published package of a name is the newest one listed, and every package listed is in the pool, with a count of at least the number of repositories listing it; if no deletion either, every package listed is served, as a beginning of the uploaded file at least; if no job that puts packages into a repository, every package file served is the uploaded file, whole, and its package is listed; and if both, every package listed is served with the uploaded bytes. C130_succeeds: and as long as no remove-source or trim job was cut short, a valid index, remove-source or trim job that is executed succeeds if the asset files of its repository parse and the index tools work."
  },
  {
   "property": "C131",
   "status": "partial",
   "theorems": [
    "Ferryd.C131_offered_partial",
    "Ferryd.C131_bytes_partial",
    "Ferryd.C131_violated"
   ],
   "note": "The full statement (as a definition C131_statement) is false of the code and its negation is proved; the _partial theorems prove what holds. C131_offered_partial: what holds: as long as no delete, remove-source or trim is cut short, and those that took something from repository `r` reported success, and however often any other job was cut short, wherever: at every moment of every job, those that take packages from `r` excepted, and at their successful end, whatever the published index of `r` offers is listed and served at the place it gives, as a beginning at least of the file whose size and hash it gives. (Not covered, and false: the time between the removal of the first file and the publication of the new index, `C131_violated`.) C131_bytes_partial: and it is the whole file, of that size and hash, if no adding job was cut short either. C131_violated: is false of the code: a removal takes the files away before it publishes the new index."
  },
  {
   "property": "C132",
   "status": "proved",
   "theorems": [
    "Ferryd.Daemon.C132_carried_out",
    "Ferryd.Daemon.C132_in_order",
    "Ferryd.Daemon.C132_never_stuck"
   ],
   "note": "C132_carried_out: Every request that was submitted and is not finished yet (as number `t`; some worker serves its queue) is finished at exactly one later moment `m`. At this moment it is carried out on the repositories as they are then, its outcome is recorded, and the jobs it asks for have been submitted; or (the second case) an I/O error ends it early and it is recorded as failed. C132_in_order: requests for the repositories always have a worker, and when one is carried out all those submitted before it have been. C132_never_stuck: and nothing but a scheduler that never runs its worker, or a function of the library or the kernel that never returns, stands in the way: with well-formed packages a running job never panics, so its worker can always finish it."
  },
  {
   "property": "C133",
   "status": "partial",
   "theorems": [
    "Ferryd.C133_violated",
    "Ferryd.C133_repeat_partial",
    "Ferryd.C133_repeat_restarted_partial"
   ],
   "note": "The full statement (as a definition C133_statement) is false of the code and its negation is proved; the _partial theorems prove what holds. C133_violated: is false of the code: trim-obsolete removes only the first debug package of an obsolete name (repo.go:1186 `break`), so each repetition removes one more. C133_repeat_partial: what holds: running an operation again right after it succeeded changes nothing, for every operation; the two trimming jobs need what `Op.Settles` says. C133_repeat_restarted_partial: the case of a daemon stopped after the job's last effect and before the job was retired: the job runs again on the restarted daemon and changes nothing."
  },
  {
   "property": "C134",
   "status": "partial",
   "theorems": [
    "Ferryd.C134_import_partial",
    "Ferryd.C134_agree_partial",
    "Ferryd.C134_stable_partial",
    "Ferryd.C134_sound_partial",
    "Ferryd.C134_violated"
   ],
   "note": "The full statement (as a definition C134_statement) is false of the code and its negation is proved; the _partial theorems prove what holds. C134_import_partial: (part): after a successful import every file's package is listed and served, with the bytes of the pool's copy. If the pool had a copy before, these are still its bytes, whatever the file held; if not, they are the bytes of the first file of that name in the request. C134_agree_partial: (part): whatever was uploaded and imported before, a package of the pool has one content: every repository that lists the package serves the bytes of the pool's file, and the pool's record describes these bytes and counts these repositories. C134_stable_partial: (part): the bytes of a package never change while the pool has it: no request, and no upload under the same name with other bytes, changes what the pool holds or what the repositories serve for it. C134_sound_partial: (part): conflicting and damaged uploads break nothing else: no request panics, and a request that publishes a repository and reports success leaves it with an index that is correct for the bytes actually served. C134_violated: refuted: a package of the pool keeps its bytes when a file of the same name with other bytes is imported; the import reports success and the repository serves the old bytes."
  },
  {
   "property": "C135",
   "status": "partial",
   "theorems": [
    "Ferryd.C135_nolink_partial",
    "Ferryd.C135_name_partial",
    "Ferryd.C135_replace_partial",
    "Ferryd.C135_transit_partial",
    "Ferryd.C135_violated"
   ],
   "note": "The full statement (as a definition C135_statement) is false of the code and its negation is proved; the _partial theorems prove what holds. C135_nolink_partial: (part): where an upload cannot be hard-linked into the pool (it is on another file system), writing into it never changes what is pooled or served, after any history of jobs, crashes and I/O errors. C135_name_partial: (part): writing into an upload can only change what is pooled and served under the name of the uploaded file, after any history of jobs, crashes and I/O errors. C135_replace_partial: (part): putting a new file in the place of an upload, instead of writing into it, is safe: neither that nor writing into the new file changes what is pooled or served. C135_transit_partial: (part): an upload by a manifest that was taken in is safe: its files are gone from their places afterwards, so nobody can write into a served package through them. C135_violated: refuted: an import hard-links the upload into pool and repository where it can, so whoever writes into the uploaded file afterwards changes the served package, with a published index that still gives the old hash."
  },
  {
   "property": "C136",
   "status": "proved",
   "theorems": [
    "Ferryd.C136_others_make_no_difference",
    "Ferryd.C136_same_results",
    "Ferryd.C136_commute"
   ],
   "note": "C136_others_make_no_difference: in every history (of jobs, uploads, removals of uploads, edits of asset files and restarts, without delta jobs), the jobs on repositories outside a group `R` make no difference to the repositories of `R`, provided the jobs on `R` copy from repositories of `R` only (and the tools that write indexes behave the same on every run): each repository of `R` exists, lists, publishes and serves exactly what it would had the other jobs never run — same packages, same published tips, same files with the same bytes, same asset files, same index. C136_same_results: for the results: each job on a repository of `R` succeeds exactly when it would succeed had the other jobs before it never run. C136_commute: for the order: two independent jobs leave the same daemon behind in either order, after every history: every repository, the pool with its counts and files, and the uploads."
  },
  {
   "property": "C137",
   "status": "proved",
   "theorems": [
    "Ferryd.C137_bounded",
    "Ferryd.C137_stale",
    "Ferryd.C137_nothing_left"
   ],
   "note": "C137_bounded: if `k` imports, clones, pulls and copies were cut short, then the reference counts of all packages together exceed what the existing repositories account for by at most `k`: there is a list of at most `k` package names such that every package is counted at most once for each existing repository that lists it and once for each occurrence in that list. However many other jobs were cut short. C137_stale: packages left in the pool that no repository lists, or whose repositories are gone: after `k` interrupted additions there are at most `k` of them. C137_nothing_left: crashes and I/O errors during any jobs other than imports, clones, pulls and copies (deletions of repositories, removals, trims, index runs, deltas) leave nothing behind: every package in the pool is listed by an existing repository, and counted at most once for each."
  },
  {
   "property": "C138",
   "status": "proved",
   "theorems": [
    "Ferryd.C138_no_ghosts",
    "Ferryd.C138_created_empty",
    "Ferryd.C138_cloned"
   ],
   "note": "C138_no_ghosts: whatever crashes and I/O errors went before, and at every moment of every job, only existing repositories list anything: nothing is listed, as package or delta, under a name that `list repos` does not show. C138_created_empty: whatever went before, a repository just created is empty, and was not there; in particular one of the same name, deleted before, maybe in a deletion that was cut short, has left nothing behind in it. C138_cloned: whatever went before, a successful clone lists exactly what the source does: everything, or the tips."
  },
  {
   "property": "C139",
   "status": "proved",
   "theorems": [
    "Ferryd.C139_no_hidden_state",
    "Ferryd.C139_index",
    "Ferryd.C139_create_delete",
    "Ferryd.C139_clone_delete",
    "Ferryd.C139_import_remove",
    "Ferryd.C139_copy_remove"
   ],
   "note": "C139_no_hidden_state: the repositories and their listings are all the state there is, as far as packages go. Two daemons, whatever their histories, that have the same repositories listing the same packages publish the same release of every package, have the same pool records with the same counts, the same files in the pool and the same files served. C139_index: for the index: if moreover the asset files of a repository are the same, no two packages of one name in it have the same release, and its index is up to date in both, then the two indices advertise the same packages in the same order. C139_create_delete: undoing a creation: deleting a repository right after creating it leaves everything as it was. C139_clone_delete: undoing a clone: deleting the clone, complete or of tips only, leaves everything as it was. C139_import_remove: undoing an import: if a repository has no package of a source, importing packages of that source, strictly or not, whether or not the import gets through all of them, and then removing the source leaves everything as it was. C139_copy_remove: undoing a copy: if a repository has no package of a source, copying the source there and removing it again leaves everything as it was."
  },
  {
   "property": "C140",
   "status": "partial",
   "theorems": [
    "Ferryd.Daemon.C140_daemon_partial",
    "Ferryd.C140_violated",
    "Ferryd.C140_no_downgrade_partial"
   ],
   "note": "The full statement (as a definition C140_statement) is false of the code and its negation is proved; the _partial theorems prove what holds. C140_daemon_partial: at the daemon: as long as no request that takes packages out of a repository is unfinished or gets submitted, the releases it publishes never fall, at any time, whatever else is submitted, however often the daemon dies and whatever I/O errors it meets; provided no remove-source or trim job (of any repository) is ever cut short. Missing: that case, where it is false (`C140_violated`). C140_violated: is false of the code after a removal that was cut short and run again (the history of `C115_violated`): importing release 1 into \"v\", which publishes release 2, makes it publish release 1, because the pool record of release 2 has gone (repo.go:633-651). C140_no_downgrade_partial: for histories in which jobs that remove packages from existing repositories were not cut short (all others may be, any number of times, by crashes and by I/O errors): a job that does not take packages out of a repository never lowers the release published there under a name, at any of its moments (so also if it is cut short there) or at its end. Missing: histories with a cut removal, where it is false (`C140_violated`)."
  },
  {
   "property": "C141",
   "status": "proved",
   "theorems": [
    "Ferryd.C141_provenance",
    "Ferryd.C141_origin",
    "Ferryd.C141_imported"
   ],
   "note": "C141_provenance: after any history of jobs, crashes and I/O errors, what a repository lists at any moment of a job, or after it, it listed before the job, or the job is an import into it of a file of that name, or a clone of / pull from / copy from a repository that listed it before the job (a clone that is not full and a pull: published it; a copy: it is of the source and release asked for). C141_origin: over whole histories: a package a repository lists was once imported under its name, and got where it is by clones, pulls and copies of the history, each of them run when the package was (by the same rule) in its source. C141_imported: in particular nothing is ever listed that was not named in an import of the history."
  },
  {
   "property": "C142",
   "status": "proved",
   "theorems": [
    "Ferryd.C142_additions_keep"
   ],
   "note": "C142_additions_keep: after any history of jobs, crashes and I/O errors, a job that does not take packages out of a repository keeps all its listings, at every one of its moments and at its end; and what it publishes names for it goes on publishing something for."
  },
  {
   "property": "C143",
   "status": "proved",
   "theorems": [
    "Ferryd.Daemon.C143_submitted"
   ],
   "note": "C143_submitted: whatever has been submitted, however often the daemon died or met I/O errors, also in the middle of jobs: each package that a repository lists was named in a bulk import that was submitted, or in the manifest of an upload that was."
  },
  {
   "property": "C144",
   "status": "proved",
   "theorems": [
    "Ferryd.Daemon.C144_kept"
   ],
   "note": "C144_kept: as long as no request that takes packages out of a repository (a deletion, a removal of a source, a trim of it) is unfinished or gets submitted, the repository keeps everything it lists and goes on publishing some release of every name, at all times, whatever else is submitted, however often the daemon dies and whatever I/O errors it meets."
  },
  {
   "property": "C145",
   "status": "proved",
   "theorems": [
    "Ferryd.C145_repositories",
    "Ferryd.C145_asked",
    "Ferryd.C145_stays"
   ],
   "note": "C145_repositories: however many crashes and I/O errors went before, a repository comes into being only by a job that creates it or clones into it, and ceases to be only by a job that deletes it; at the end of the job as at any moment of it. C145_asked: at the daemon: each repository there is was asked for, by a request to create it or to clone another into it; whatever has been submitted, however often the daemon died and whatever I/O errors it met. C145_stays: at the daemon: as long as no request to delete a repository is unfinished or gets submitted, the repository stays; and as long as no request to found it is, none of that name appears."
  },
  {
   "property": "C146",
   "status": "proved",
   "theorems": [
    "Ferryd.Daemon.C146_completed"
   ],
   "note": "C146_completed: whatever has been submitted and however often the daemon died or met I/O errors, when a job is recorded as completed, its request has been carried out: the listings have changed as the request asks and not otherwise, and the repository serves the right index of them. (Delta jobs are never recorded as completed.)"
  },
  {
   "property": "C147",
   "status": "partial",
   "theorems": [
    "Ferryd.C147_published_partial",
    "Ferryd.C147_shape",
    "Ferryd.C147_violated",
    "Ferryd.C147_violated_index"
   ],
   "note": "The full statement (as a definition C147_statement) is false of the code and its negation is proved; the _partial theorems prove what holds. C147_published_partial: a name that a repository shows has its published package among those listed, after every history, whatever the files contain, provided that every package that can be read has a positive release. Missing: packages with release zero or less (`C147_violated`). C147_shape: in the same histories, without any condition on the packages, no name is shown with nothing listed under it; the listing of a name is in order and shows nothing twice, nor do its deltas; and the pool shows nothing with no references. C147_violated: fails: after the removal of release 2, release 0 is still listed but nothing is published, because the search for the highest release starts at zero and demands more (core/repo.go:502, 560-563). C147_violated_index: worse, the repository can then not be indexed any more (core/repo_index.go:232, 257-261 looks up the published package of every name); the removal itself already reports that failure."
  },
  {
   "property": "C148",
   "status": "proved",
   "theorems": [
    "Ferryd.C148_no_self_deadlock"
   ],
   "note": "C148_no_self_deadlock: from every state, whatever jobs ran before, were cut off or failed, and whatever the files contain, a job that takes the mutexes as the code does never waits for one that it holds itself; it does exactly what the job does without mutexes, and it holds none when it is over. While a mutex of an index is held those of package lists are taken, never the other way round."
  },
  {
   "property": "C149",
   "status": "proved",
   "theorems": [
    "Ferryd.C149_no_deadlock",
    "Ferryd.C149_all_return",
    "Ferryd.C149_needs_one_worker"
   ],
   "note": "C149_no_deadlock: the goroutines of the daemon — the sequential worker with its jobs and its calls of the job store, and any number of others that submit, list, claim, retire and reset jobs or include deltas — never block one another for good: whenever one of them has not finished, one of them can go on. C149_all_return: the calls of finitely many goroutines all return, whatever the scheduler does: there is no infinite run, and a run that cannot be continued has brought every goroutine to its end. C149_needs_one_worker: rests on there being one sequential worker: two that pulled in opposite directions could block each other for ever."
  },
  {
   "property": "C150",
   "status": "proved",
   "theorems": [
    "Ferryd.C150_nothing_open",
    "Ferryd.C150_one_job",
    "Ferryd.C150_same"
   ],
   "note": "C150_nothing_open: however many jobs a daemon has done, whichever of their system calls failed and however they ended, no file is open between jobs, and never were more than three open at once. C150_one_job: any one job, started with any files open: it gives back what it opened, closes nothing it did not open, and opens at most three files at a time, however many packages it handles. (The bound holds for a job that panics, too.) C150_same: link with the other properties: when no system call fails, a job does with the repositories and returns exactly what it does in the model without files, and so does an upload."
  },
  {
   "property": "C151",
   "status": "partial",
   "theorems": [
    "Ferryd.Client.C151_violated",
    "Ferryd.Client.C151_violated_name",
    "Ferryd.Client.C151_violated_long",
    "Ferryd.Client.C151_error_changes_nothing_partial",
    "Ferryd.Client.C151_reported_partial",
    "Ferryd.Client.C151_unknown_path_partial"
   ],
   "note": "The full statement (as a definition C151_statement) is false of the code and its negation is proved; the _partial theorems prove what holds. C151_violated: The job store refuses the job: nothing is queued, and the call returns without an error (handlers.go:143-306 do not look at the result of the push, processor.go:110-116 drops it). C151_violated_name: A name with dots leads the request to a page that only reports: nothing is done, and the call returns without an error. C151_violated_long: An error text too long to be sent in one piece is not read: the reset failed, and the call returns without an error. C151_error_changes_nothing_partial: What holds of every call, every name, every state of the daemon and every JSON decoder: a call that returns an error has changed nothing. C151_reported_partial: What is missing: names without a special meaning in a URL, a job store that takes the job, and error texts that are lines of plain text (shorter than 2048 bytes and not beginning like JSON). Then the call returns without an error exactly if the daemon did what the call says, and with one exactly if it did nothing. C151_unknown_path_partial: A path the daemon does not know is reported as an error, whatever the call."
  },
  {
   "property": "C152",
   "status": "partial",
   "theorems": [
    "Ferryd.Client.C152_violated",
    "Ferryd.Client.C152_told_partial"
   ],
   "note": "The full statement (as a definition C152_statement) is false of the code and its negation is proved; the _partial theorems prove what holds. C152_violated: A command with a word too many does nothing and ends with the status 0. C152_told_partial: Missing: the exit status is always 0. What holds: the command says nothing exactly if it was understood and its call returned without an error; it writes to standard error if the call returned one; and if it was not understood nothing was asked of the daemon and it writes to standard error, or, for `remove repo`, shows the help text."
  },
  {
   "property": "C153",
   "status": "partial",
   "theorems": [
    "Ferryd.Xml.C153_plain_partial",
    "Ferryd.Xml.C153_cdata_partial",
    "Ferryd.Xml.C153_violated",
    "Ferryd.Xml.C153_violated_shown"
   ],
   "note": "The full statement (as a definition C153_statement) is false of the code and its negation is proved; the _partial theorems prove what holds. C153_plain_partial: Elements and attributes of type string: every text reads back. C153_cdata_partial: Summaries, descriptions, comments and names of people: always well formed, and read back exactly if they contain no carriage return and no symbol, control character or blank beyond ASCII. (Missing: all the other texts, which are shown with the reference in place of the character.) C153_violated: The trade mark sign in a summary is shown as the eight characters `&#x2122;`, since character references mean nothing in a CDATA section. C153_violated_shown: What a reader sees instead."
  },
  {
   "property": "C154",
   "status": "proved",
   "theorems": [
    "Ferryd.Xml.C154_well_formed"
   ],
   "note": "C154_well_formed: Whatever the distribution, the packages, the components and the groups: the bytes written are one well-formed XML document, in which a reader sees the element `PISI` with exactly those elements in exactly that order, each with its name, its attributes, its text and its child elements (for texts in CDATA sections see C153)."
  },
  {
   "property": "C155",
   "status": "partial",
   "theorems": [
    "Ferryd.Xml.C155_all_but_languages_partial",
    "Ferryd.Xml.C155_violated"
   ],
   "note": "The full statement (as a definition C155_statement) is false of the code and its negation is proved; the _partial theorems prove what holds. C155_all_but_languages_partial: What holds: of every package everything (names, releases, sizes, hashes, places, dependencies, deltas, history, …), of every component and group everything, and of the distribution everything but the languages of its descriptions, is read back. (Missing: those languages, see `C155_violated`.) C155_violated: The language of the distribution's description is read with whatever prefix and written without: a reader that looks for `xml:lang`, as everywhere else in the index, finds none."
  },
  {
   "property": "C156",
   "status": "proved",
   "theorems": [
    "Ferryd.Xml.C156_client_reads"
   ],
   "note": "C156_client_reads: after every job that publishes a repository and reports success, whatever the other fields of its packages say: the bytes of the index are read as an index whose packages have distinct names, which lists exactly the published packages the distribution does not hide, and which tells of each the place, size and hash of the file served, its releases and its deltas; and whose obsolete names are those of the distribution file."
  },
  {
   "property": "C157",
   "status": "proved",
   "theorems": [
    "Ferryd.Gob.C157_queue",
    "Ferryd.Gob.C157_database",
    "Ferryd.Gob.C157_jobs",
    "Ferryd.Gob.C157_finished",
    "Ferryd.Gob.C157_index",
    "Ferryd.Gob.C157_repository",
    "Ferryd.Gob.C157_entry",
    "Ferryd.Gob.C157_skip",
    "Ferryd.Gob.C157_pool",
    "Ferryd.Gob.C157_refused"
   ],
   "note": "C157_queue: the theorems about the queue hold of gob: there is an encoding as they ask for (`Jobs.Codec`) that writes the bytes of gob for every job, history entry and place that Go can hold. C157_database: so do those about the package database (`Db.CoreCodec`). C157_jobs: a job put into a queue is read back as it was: into a fresh `JobEntry`. C157_finished: so is an entry of the history of jobs, C157_index: and the place in the history where the next one goes, C157_repository: and the name of a repository, C157_entry: and what a repository holds under a name, C157_skip: and a delta found impossible, C157_pool: and an entry of the pool, with every field of the package's metadata. C157_refused: a value is refused only if its encoding, without the definitions of types, has 8 GiB or more."
  },
  {
   "property": "C158",
   "status": "partial",
   "theorems": [
    "Ferryd.Json.C158_repaired_partial",
    "Ferryd.Json.C158_request_partial",
    "Ferryd.Json.C158_answer_repaired_partial",
    "Ferryd.Json.C158_answer_partial",
    "Ferryd.Json.C158_violated",
    "Ferryd.Json.C158_violated_shown"
   ],
   "note": "The full statement (as a definition C158_statement) is false of the code and its negation is proved; the _partial theorems prove what holds. C158_repaired_partial: every request is understood, and the daemon gets it with each byte that begins no character replaced by U+FFFD; nothing else is lost, added or changed, and nothing else is read. Missing: such a string is not the string that was sent. C158_request_partial: exactly the requests whose strings are UTF-8 arrive as they were sent. Missing: names of files and repositories are any bytes. C158_answer_repaired_partial: what a client gets of an answer (`C158_repaired_partial` for the other direction). C158_answer_partial: exactly the answers whose strings are UTF-8 are read as they were given: the error's text, the repositories, the pool's identifiers and their counts. C158_violated: is false of this code: ferryctl asks for the import of `/a\\xE9`, which exists, and the daemon is told to import `/a\\uFFFD`; it cannot tell. (libferry/main.go:118-125) C158_violated_shown: What the daemon is told."
  },
  {
   "property": "C159",
   "status": "proved",
   "theorems": [
    "Ferryd.Daemon.C159_call",
    "Ferryd.Daemon.C159_command",
    "Ferryd.Daemon.C159_fair"
   ],
   "note": "C159_call: a call of the client library whose arguments arrive unharmed makes the daemon submit the one job it means; from then on, whatever else is submitted and however often the daemon dies and is started again, the job is stored, with its parameters, until it is retired; and when it is retired as completed, what the call asks for has been done to the repositories, by that very job. C159_command: for a command line of `ferryctl`: it makes the call it means, and what C159 says of that call. C159_fair: in a run in which every worker gets its turn: the call is carried out. If the client's call reaches the daemon at moment `n`, there is one later moment `m` at which the job is retired; then the outcome is recorded, under the right description, and if it is \"completed\" then what the call asks for has been done to the repositories at that moment."
  },
  {
   "property": "C160",
   "status": "proved",
   "theorems": [
    "Ferryd.Json.C160_written",
    "Ferryd.Json.C160_arrives",
    "Ferryd.Json.C160_same",
    "Ferryd.Json.C160_stamp"
   ],
   "note": "C160_written: a report can be written exactly when all its times are in the years 1 to 9999. C160_arrives: what ferryctl gets of the report that the daemon wrote: when the daemon was started, and the failed, current and completed jobs, in their order, each with its times to the nanosecond and whether it failed; of the texts, each byte that begins no character becomes U+FFFD, and nothing else. C160_same: exactly the reports whose texts are UTF-8 arrive as they were given. C160_stamp: the text of a time is the date and the time of day that the calendar gives it, in UTC."
  },
  {
   "property": "C161",
   "status": "proved",
   "theorems": [
    "Ferryd.Json.C161_duration",
    "Ferryd.Json.C161_injective",
    "Ferryd.Json.C161_moment",
    "Ferryd.Json.C161_failed_row",
    "Ferryd.Json.C161_completed_row",
    "Ferryd.Json.C161_active_row"
   ],
   "note": "C161_duration: the text of a duration, an `int64` of nanoseconds, stands for that duration and for no other. C161_injective: two durations that look the same are the same. C161_moment: the text of a moment is the date and the time of day that the calendar gives to its second, in UTC. C161_failed_row: the row of a failed job: the second in which it ended, how long it ran, its description and its error. C161_completed_row: the row of a completed job: the second in which it ended, the time from its submission to its end, how long it ran, and its description. C161_active_row: the row of a current job: whether it has begun, the second in which it was submitted, the time since, and its description."
  },
  {
   "property": "C162",
   "status": "proved",
   "theorems": [
    "Ferryd.Listing.C162_on_screen",
    "Ferryd.Listing.C162_counts",
    "Ferryd.Listing.C162_always"
   ],
   "note": "C162_on_screen: `ferryctl status -a` prints a row for every job that is not finished when the daemon begins to put the report together: a row of its state, or, if it finishes meanwhile, a row of its outcome (at most a hundred jobs finish meanwhile, and nobody clears the histories); the row gives the moment of its submission or of its end in UTC, the exact durations, and its description and error. C162_counts: the screen has no other rows: one for each job of the lists that the daemon read, and without `-a` at most ten in each table. C162_always: the daemon's report cannot fail to arrive: whenever its times are in the years 1 to 9999, it is written and read, and something is printed for it."
  },
  {
   "property": "C163",
   "status": "proved",
   "theorems": [
    "Ferryd.Jobs.C163_unfinished",
    "Ferryd.Jobs.C163_kept"
   ],
   "note": "C163_unfinished: a job is submitted, and whatever happens then (other submissions, deaths and restarts of the daemon), as long as it is not finished, `ferryctl status -a` shows it: with the very description of what was asked for, the moment of its submission and the exact time since, as running if it is being executed and as queued otherwise; or with its outcome, if it finishes while the report is put together. C163_kept: and when the daemon stays up, finished or not: until a hundred jobs have finished after it was submitted (or somebody clears the histories), `ferryctl status -a` shows it."
  },
  {
   "property": "C164",
   "status": "proved",
   "theorems": [
    "Ferryd.Daemon.C164_completed",
    "Ferryd.Daemon.C164_screen"
   ],
   "note": "C164_completed: every record in the history of completed jobs (whatever was submitted, and however often the daemon died, also while it was making that record) is that of a job that had done what was asked for: the listings had changed as requested and not otherwise, and the repository served the right index of them. C164_screen: so every row of the table of completed jobs on `ferryctl status`'s screen (with or without `-a`) is about a request that had been carried out before the report was read; its description is the request's."
  },
  {
   "property": "C165",
   "status": "proved",
   "theorems": [
    "Ferryd.Daemon.C165_told"
   ],
   "note": "C165_told: a command reaches the daemon, which from then on stays up; less than a hundred jobs finish and nobody clears the histories. Then whenever `ferryctl status -a` is run, it shows that very command: as waiting or running, with the moment of its submission and the exact time since, or with its outcome; and if that outcome is a success, then what the command asked for had been done to the repositories, by that job and since it was submitted; if it is a failure, then that job could not carry it out on the repositories as they then were, or an I/O error cut it short."
  },
  {
   "property": "C166",
   "status": "proved",
   "theorems": [
    "Ferryd.Daemon.C166_failed",
    "Ferryd.Daemon.C166_screen",
    "Ferryd.Daemon.C166_deserved"
   ],
   "note": "C166_failed: every record in the history of failed jobs (whatever was submitted, and however often the daemon died, also while it was making that record) is that of a job that could not be carried out in the repositories as they were, or was cut short by an I/O error. C166_screen: so every row of the table of failed jobs on `ferryctl status`'s screen (with or without `-a`) is about such a job; its description is the request's and its error the recorded one. C166_deserved: as long as no job was cut short (by an I/O error or by the death of the daemon) every record in the history of failed jobs is deserved: the parameters were bad, or it is a delta job, or one for the deltas of a repository that did not exist, or a request that was not valid for the repositories as they were (`Accepts`, see C91), or an upload without a valid manifest, an intact payload and files that the repository takes, or the index of the repository could not be made (its asset files did not parse, or a tool failed)."
  }
 ]
}