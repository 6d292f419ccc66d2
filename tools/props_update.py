#!/usr/bin/env python3
"""Applied once to properties.jsonl: sharper wording found while proving, and further properties."""
import json
P='properties.jsonl'
rows=[json.loads(l) for l in open(P)]
by={r['id']:r for r in rows}
def st(i,s=None,q=None,t=None):
    if s: by[i]['statement']=s
    if q: by[i]['quantifier']=q
    if t: by[i]['title']=t
st('C13',"A successful pull adds to the target exactly those source tips whose name the target lacks or whose release is newer than the target's own tip, never removes a package from the target, and afterwards the target's tip of each source name is at least as new as the source's.")
st('C15',"Removing a source at a release drops exactly those available packages whose source name and release match (every release of the source when the release given is not positive), keeps all others, and fails when nothing matches.")
st('C18',"Trimming to k ≥ 1 packages keeps, for each name, k packages of the highest releases, removes all the others from the listing, keeps the release of the tip, and touches no other name or repository; k < 1 is refused.")
st('C21',"The package section of a freshly generated index contains, for each package name of the repository that is not obsolete, exactly its tip, once, in the order of the package file names; and each entry gives the location, size and hash of the file served.")
st('C34',"A delta run for a package considers exactly each (older available release, newest listed file) pair, skips the pairs recorded as impossible, and afterwards every other pair has its delta listed or has been recorded as impossible.")
st('C39',"After n retirements (none of them cut short by the death of the daemon) the completed (or failed) history consists of exactly the last min(n,100) retired jobs.")
st('C44',"The parameters of a job read back by the worker are those given by the user when the job was created, or the job is refused; they are never altered.")
st('C51',"Decoding the character references of the escaper's output gives what decoding those of the original text gives; in particular text without references reads back.")
st('C54',"If index generation fails before publication all served index files are unchanged, and no temporary file registered by that run remains.")
st('C58',"Delta production is refused exactly when the archive would contain every file of the new package.",q="every pair of packages whose file lists name each path once")
def add(i,t,s,q,w,a):
    if i in by: rows.remove(by[i])
    r=dict(id=i,title=t,statement=s,quantifier=q,why_tests_cant=w,anchors=a); by[i]=r; rows.append(r)
add('C71',"The index describes the files served","Every package entry of a freshly generated index names a file that the repository serves, with its exact size and SHA-1.","every reachable state","All histories.",["src/ferryd/core/repo_index.go: emitIndex","src/ferryd/core/repo.go"])
add('C72',"No repository job panics on well-formed packages","While every package has a history and a source name, no repository job ends in a panic.","every reachable state, every job and parameters","All histories and parameters.",["src/ferryd/core"])
add('C73',"Listed deltas are served","Every delta a repository lists is in its public tree with the bytes of the produced delta file.","every history of jobs","All histories.",["src/ferryd/core/repo.go: AddDelta, RefDelta, UnrefPackage"])
add('C74',"A deleted repository leaves nothing behind, even after a crash","If a repository's deletion was cut short and it is gone from the database, its name can be created again and no file of the old one is served.","every crash point of repository deletion","All crash points.",["src/ferryd/core/manager.go: DeleteRepo","src/ferryd/core/repo.go: DeleteRepo"])
add('C75',"Delta reference counts are exact","The reference count of a delta in the pool is the number of repositories that list it.","every history of jobs","All histories.",["src/ferryd/core/pool.go","src/ferryd/core/repo.go: AddDelta, RefDelta, UnrefPackage"])
add('C76',"Repository jobs run once, in the order of submission","Repository-modifying jobs finish in the order in which they were submitted and none is finished twice.","every schedule with crashes and restarts","All schedules.",["src/ferryd/jobs/store.go","src/ferryd/jobs/worker.go"])
add('C78',"An upload is all or nothing","If an upload job fails, no package of that upload has entered the target repository.","every manifest, every state","All manifests and states.",["src/ferryd/jobs/transit_job.go"])
add('C79',"Repeating an interrupted index job succeeds","After a crash at any point of an index run the very next index run succeeds.","every crash point","All crash points.",["src/ferryd/core/repo_index.go: Index, writeIndex"])
add('C80',"A daemon that died does not keep the next one from starting","However earlier daemons ended, when none is alive a new one gets the lock.","every interleaving of starts, stops and crashes","All schedules.",["src/ferryd/lockfile.go: NewLockFile, Lock"])
add('C81',"Every repository has a directory of its own","The directories of different repositories lie below the common one and none contains another.","every pair of repository names without slashes","All names.",["src/ferryd/core/repo.go: bakeRepo, CreateRepo"])
add('C77',"Every uploaded manifest is processed","A manifest put into the incoming directory is queued for import, once for each time it is put there, and nothing else in that directory is.","every history of uploads, starts and stops of the daemon","All histories and timings.",["src/ferryd/monitor.go","src/ferryd/server.go: Bind, Serve"])
add('C82',"A command acts on the repository it names","The request a client sends for a repository name leads the daemon to run the named action on exactly that repository, with exactly the other parameters given.","every command, repository names and parameters","All strings.",["src/libferry/main.go","src/ferryd/server.go: Bind (routes)","src/ferryd/handlers.go"])
add('C83',"Command-line arguments mean what they say","ferryctl sends the daemon the repositories, releases, paths and numbers it was given, each in its role, or refuses the command line.","every command line","All argument vectors.",["src/ferryctl/cmd"])
add('C84',"The daemon can serve again after a crash","Whenever the daemon is not running it can be started and will listen on its socket.","every history of starts, failed starts, orderly ends and kills","All histories.",["src/ferryd/server.go: Bind, Close","src/ferryd/main.go"])
add('C85',"The repositories are what the submitted jobs make of them, in order","At any moment the repositories are as if the finished repository jobs had been executed one after another, each exactly once and in the order of submission, with nothing else in between than changes made from outside, restarts, and attempts at the next job that were cut short, at any point and also in the middle of copying a file, by the death of the daemon; a job that an I/O error ended early counts as executed up to that error.","every schedule of submissions, workers, crashes and restarts","All schedules and crash points of the whole daemon.",["src/ferryd/jobs/worker.go: processJob","src/ferryd/jobs/store.go","src/ferryd/core/api.go"])
add('C86',"The daemon as a whole keeps the repositories consistent","While the daemon has not died in the middle of a repository job, whatever has been submitted and however the workers interleaved, reference counts equal the number of listing repositories, listed packages are served with the uploaded bytes, tips are the highest releases, and no job brings the daemon down.","every schedule, well-formed packages","All schedules of the whole daemon.",["src/ferryd/jobs","src/ferryd/core"])
add('C87',"The package database behaves as separate tables","For repository names that do not contain '-package', every read of and every iteration over the pool, the failed deltas, the repositories and each repository's packages gives what was last written to that table, as if each were stored on its own; also after a crash in the middle of a job.","every history of jobs, every crash point, every encoding that can be decoded","All histories, keys and crash points.",["src/libdb/leveldb.go","src/ferryd/core/pool.go","src/ferryd/core/repo.go","src/ferryd/core/manager.go"])
add('C88',"The listings of repositories and pool are exact","The list of repositories names every repository once, in byte order, and nothing else; the list of the pool has exactly one line for each package in the pool, showing the number of repositories that list it.","every history of jobs","All histories.",["src/ferryd/core/repo.go: GetRepos","src/ferryd/core/pool.go: GetPoolItems","src/ferryd/handlers.go: GetRepos, GetPoolItems","src/ferryctl/cmd/list_repos.go","src/ferryctl/cmd/list_pool.go"])
add('C89',"The status report shows the right jobs","When the status report can be made it shows the ten current jobs queued first, and the ten failed and ten completed jobs queued last (all of them on request), in that order, and marks as running exactly the jobs being executed.","every schedule of submissions, executions, crashes and restarts","All schedules.",["src/ferryctl/cmd/status.go","src/libferry/types.go: JobSet","src/ferryd/jobs/store.go: ActiveJobs, FailedJobs, CompletedJobs"])
add('C90',"Files served by other repositories stay as they are","A job on one repository leaves every file, delta packages included, that another repository serves unchanged.","every history of jobs followed by any job","All histories.",["src/ferryd/core/util.go: CopyFile, LinkOrCopyFile","src/ferryd/core/repo.go: RefDelta, AddDelta"])
add('C91',"A job succeeds exactly when its request is valid","Every repository job reports success if and only if its request is valid (the repositories named exist, or do not for create and the new one of a clone; there is something to remove or copy; every file to import is a readable package, and in a strict upload newer than all of its name before it; nothing in the target of a pull is newer; the number to keep is at least one; there is a distribution file for trim-obsolete) and, when it ends by rebuilding an index, the asset files found then parse and no tool of that index run fails.","every reachable state, every operation and parameters","All histories and parameters.",["src/ferryd/core/manager.go","src/ferryd/core/api.go","src/ferryd/core/repo.go","src/ferryd/core/repo_index.go"])
add('C92',"An orderly stop cuts no job short","When the daemon is told to stop, every job being executed is executed to its end and retired before the databases are closed; a daemon that is only ever stopped that way begins no job twice, over any number of restarts.","every schedule of clients, workers and the stopping goroutine","All schedules and times of the signal.",["src/ferryd/server.go: Close, killHandler","src/ferryd/jobs/processor.go: Close","src/ferryd/jobs/worker.go: Start, Stop","src/ferryd/jobs/store.go: Close"])
add('C93',"A request answered without an error is queued","Every request the daemon answers without an error has become a job that is queued or has been executed, also while the daemon stops.","every schedule of clients, workers, signals and crashes","All schedules.",["src/ferryd/jobs/processor.go: PushJob","src/ferryd/jobs/store.go: Close, pushJobInternal","src/ferryd/server.go: Close"])
add('C94',"An orderly stop comes to an end","After the signal the daemon ends once the jobs being executed have ended, whatever clients submit meanwhile; it is never stuck.","every fair schedule","All infinite schedules.",["src/ferryd/server.go: Close","src/ferryd/jobs/processor.go: Close","src/ferryd/jobs/worker.go: Start, Stop, setTime"])
add('C95',"The lock is held as long as the daemon works","As long as the daemon executes a job, it holds the lock that keeps a second daemon from starting.","every schedule","All schedules and times of the signal.",["src/ferryd/server.go: Close","src/ferryd/lockfile.go"])
add('C96',"Served deltas are listed","Every delta file in the public tree of a repository is of a delta that the repository lists, and lies in the directory of its source.","every history of jobs","All histories.",["src/ferryd/core/repo.go: AddDelta, RefDelta, UnrefPackage, buildSaneEntry"])
add('C97',"Producing a delta leaves nothing behind but the delta","However the production of a delta ends, afterwards there is no working directory and no temporary file, and no file has changed except that the delta may have appeared in the staging area; while it goes on nothing is touched outside the working directory and the place of the delta.","every pair of packages, every combination of failing steps (the removal of directories works)","All combinations of failures.",["src/libeopkg/delta.go: NewDeltaProducer, Close, Commit","src/ferryd/core/util.go: ProduceDelta","src/ferryd/core/repo.go: CreateDelta"])
add('C98',"A staged delta is whole","When CreateDelta reports success, the file it names is the whole delta package, whatever attempts failed or were killed before.","every history of attempts, failing steps and kills","All crash points and failures.",["src/ferryd/core/repo.go: CreateDelta","src/ferryd/core/util.go: ProduceDelta, LinkOrCopyFile, CopyFile"])
add('C99',"Repeating an interrupted delta production succeeds","After any number of failed or killed attempts an attempt in which nothing fails stages exactly the delta (or reports that it is pointless) and changes nothing else.","every history of attempts, failing steps and kills","All crash points and failures.",["src/libeopkg/delta.go: produceInstallBall, copyInstallPartial","src/libeopkg/package.go: ExtractTarball","src/libeopkg/util.go: XzFile, UnxzFile"])
add('C100',"Delta production leaves no file open","When CreateDelta returns, every file it opened is closed.","every pair of packages, every combination of failing steps","All combinations of failures.",["src/libeopkg/delta.go: NewDeltaProducer, Close, produceInstallBall, pushInstallBall, Commit","src/ferryd/core/util.go: CopyFile"])
add('C101',"A package says what its metadata file says","When reading a package succeeds, its metadata are those of the first member called metadata.xml, with the texts of summary and description trimmed and the first text tagged as English if it has no language; a reading that fails leaves the package object as it was.","every archive and every decoding of its members","All archives.",["src/libeopkg/package.go: Open, FindFile, ReadMetadata, ReadAll","src/libeopkg/metadata.go","src/libeopkg/main.go: FixMissingLocalLanguage"])
add('C102',"Reading a package never brings the daemon down","Whatever an archive contains, reading it returns a result or an error.","every archive and every decoding of its members","All archives.",["src/libeopkg/package.go: ReadMetadata","src/libeopkg/main.go: FixMissingLocalLanguage","src/ferryd/core/repo.go: AddLocalPackage"])
add('C103',"File modes are read exactly","The file list of a package is read exactly if all its modes are octal numbers of 32 bits, and then each file has the permission, set-uid, set-gid and sticky bits of its mode.","every archive, every mode string","All strings.",["src/libeopkg/files.go: initFileMode, FileMode, IsSetuid, IsSetgid, IsSticky","src/libeopkg/package.go: ReadFiles"])
add('C104',"The index carries the repository's components and groups","Whenever a job has published an index, it carries the components and groups of the asset files as they then are, each once, sorted by name, the first text of each kind tagged as English if it has no language; none if there is no file. The order within the file does not matter.","every reachable state, every publishing job, every asset file","All histories and files.",["src/libeopkg/components.go","src/libeopkg/groups.go","src/ferryd/core/repo_index.go: emitIndex"])
add('C105',"No asset file brings the daemon down","Whatever components.xml and groups.xml contain, rebuilding an index returns a result or an error.","every asset file, every state","All files.",["src/libeopkg/components.go: NewComponents","src/libeopkg/groups.go: NewGroups","src/libeopkg/main.go: FixMissingLocalLanguage"])
add('C106',"The cache is purged of exactly the listed files","With a token and a zone configured, an index run asks the cache to purge exactly the non-empty lines of the repository's list, in order and in one request, and otherwise asks nothing; the run reports success exactly if there was nothing to ask or the request succeeded.","every configuration, list and answer","All lists and answers.",["src/ferryd/core/purge_cloudflare.go"])
add('C107',"No answer of the cache brings the daemon down","Whatever the cache answers, the purge returns.","every answer","All answers.",["src/ferryd/core/purge_cloudflare.go"])
ROUGH=["src/ferryd/core/repo.go","src/ferryd/core/pool.go","src/ferryd/core/manager.go","src/ferryd/core/repo_index.go","src/ferryd/core/util.go","src/libdb/leveldb.go"]
HIST="every history of jobs in which the daemon may die, and any job may be cut short by an I/O error, any number of times and at any points"
add('C108',"Isolation after any number of crashes","Whatever crashes and I/O errors went before, a job directed at one repository leaves every other one alone, also if it is itself cut short: existence, listings, tips, deltas, published index, asset files and which files are served.",HIST+", then every job and every moment of it","Unboundedly many crash points in one history.",ROUGH)
add('C109',"No panic and no zero count after any number of crashes","However many crashes and I/O errors went before, no job panics on well-formed packages and no reference count is zero or wraps around.",HIST,"Unboundedly many crash points in one history.",ROUGH)
add('C110',"Served bytes are right after any number of crashes","After any history of jobs, crashes and I/O errors, what a repository serves as a package it lists are the uploaded bytes.",HIST,"Unboundedly many crash points in one history.",ROUGH)
add('C111',"Listings and pool records stay sane after any number of crashes","After any history of jobs, crashes and I/O errors, what is listed under a name are readable packages of that name, each once and in order, with exactly one tip, which is listed; and every pool record describes the uploaded file.",HIST,"Unboundedly many crash points in one history.",ROUGH)
add('C112',"A published index is right after any number of crashes","However many crashes and I/O errors went before, a job that ends with an index run and succeeds has published the right index; and no index ever served gives a wrong size or hash.",HIST,"Unboundedly many crash points in one history.",ROUGH)
add('C113',"A successful job has done its work, after any number of crashes","However many crashes and I/O errors went before, an import, clone, pull, remove-source, copy-source or trim that reports success has changed the listings exactly as it should.",HIST,"Unboundedly many crash points in one history.",ROUGH)
add('C114',"A repository can always be deleted","Whatever crashes and I/O errors went before, deleting an existing repository succeeds and leaves nothing of it.",HIST,"Unboundedly many crash points in one history.",ROUGH)
add('C115',"The published release is the newest, after any number of crashes","After any history of jobs, crashes and I/O errors, the published release of a name is the highest one its repository lists.",HIST,"Unboundedly many crash points in one history.",ROUGH)
add('C116',"Cut imports, clones, pulls and deletions cost nobody a package","As long as no remove-source or trim job is cut short, whatever a repository lists is in the pool, with a count of at least the number of repositories listing it, and every valid index, remove-source or trim request succeeds if the asset files parse and the index tools work.","every history of jobs in which every job other than remove-source and the trims may be cut short at any point by a crash or an I/O error, any number of times","Unboundedly many crash points in one history.",ROUGH)
DAEM=["src/ferryd/jobs/main.go: NewJobHandler","src/ferryd/jobs/worker.go: Start, processJob","src/ferryd/jobs/store.go: RetireJob, markCompletion","src/ferryd/jobs/*.go: Execute"]
add('C117',"A delta-repository job asks for the deltas of every package","Executing a delta-repository job on an existing repository submits exactly one delta job for each name the repository lists, in byte order, and leaves the repositories alone; for an unknown repository it fails and submits nothing.","every reachable state, every repository name","All histories.",["src/ferryd/jobs/delta_repo.go: Execute","src/ferryd/core/repo.go: GetPackageNames"])
add('C118',"The recorded outcome of a job is the outcome of its execution","When a job gets finished, its request has been carried out on the repositories, exactly then; it is recorded as failed if its parameters are bad or carrying it out failed and as completed otherwise; the jobs it asked for have been submitted; and if an I/O error ended it early, it is recorded as failed and has submitted nothing.","every state and every step of the daemon, every job","All schedules, crashes and histories.",DAEM)
add('C119',"The daemon survives its crashes","Whatever has been submitted and however often the daemon died or a job met an I/O error, also in the middle of copying a file, its repositories are those of a history of operations with crashes; so no job brings it down, counts are positive, listings and tips are sane, served files are beginnings of the uploaded ones, and no published index gives a wrong size or hash.","every schedule of clients, workers, crashes and I/O errors","Unboundedly many crash points in one history.",DAEM+ROUGH)
add('C120',"The times of jobs are right","If the clock is not set back: the record of a finished job carries the times of its submission, of the start of the execution that ended and of its end, in this order, also if the daemon died and executed the job again; an active job carries the time of its submission and, exactly if it is running, of its last start; and the durations the status report prints are the differences of these times and never negative.","every schedule of clients, workers and crashes under a clock that does not go back","All schedules and crash points.",["src/ferryd/jobs/store.go: pushJobInternal, claimJobInternal, unclaimJobs, markCompletion","src/ferryd/jobs/worker.go: Start","src/libferry/types.go: QueuedSince, ExecutionTime, QueuedTime, TotalTime","src/ferryctl/cmd/status.go"])
add('C121',"A successful import leaves its packages served","After any history of jobs, crashes and I/O errors, an import, pull, copy or clone that reports success leaves every package it put into the listing of its repository served there.",HIST+", then every import, pull, copy or clone","Unboundedly many crash points in one history.",ROUGH)
add('C122',"An index advertises only deltas the repository has","After every job that publishes a repository and reports success, every delta that the index advertises for a package is one the repository holds and leads to that package's release, whatever the metadata of the uploaded packages say; and every such delta is advertised.","every environment, every package metadata, every state and history, every publishing job","All metadata and histories.",["src/ferryd/core/repo_index.go: pushDeltaPackages, emitIndexPackage","src/libeopkg/metadata.go: MetaPackage.DeltaPackages"])
STAT=["src/ferryd/handlers.go: GetStatus","src/ferryd/jobs/store.go: ActiveJobs, cloneCurrentJobs, FailedJobs, CompletedJobs, clonePastJobs, markCompletion"]
add('C123',"A status report misses no job","A status report is put together from four reads of the job store, between which jobs are submitted, claimed and finished.  Still every job that was not finished when the report began is in it: as waiting or running, or, if it finished in the meantime, with its outcome in the list of failed or of completed jobs (as long as nobody clears the histories and at most a hundred jobs finish meanwhile).","every history, every schedule of the four reads among the steps of the other clients and workers","All schedules.",STAT)
add('C124',"A status report shows no job twice","A status report has at most one line for every job ever submitted.","every history, every schedule of the four reads among the steps of the other clients and workers","All schedules.",STAT)
add('C125',"Every job is eventually executed","From any moment on, as long as the daemon stays up, every job that was ever submitted (also before earlier crashes) and is not finished is eventually executed to its end, however many other jobs are submitted meanwhile; when nothing more is submitted the queues run empty.  Waiting workers poll again and executions return.","every history, every infinite fair schedule of clients and workers","Infinite executions.",["src/ferryd/jobs/worker.go: Start, setTime","src/ferryd/jobs/store.go: claimJobInternal, RetireSequentialJob, RetireAsyncJob, pushJobInternal","src/ferryd/jobs/processor.go: Begin"])
add('C126',"When an index can be rebuilt after crashes","After any history of jobs, crashes and I/O errors, indexing an existing repository succeeds exactly if its asset files parse, the tools work, and the pool has a record of the published package of every name that is not on the obsolete list and of every delta of a name that list does not hide; and a remove-source or trim job that is cut short leaves at most one package, with deltas of its name, listed without a record.",HIST+", every repository; for the second part histories in which no removal was cut short before","Unboundedly many crash points in one history.",ROUGH)
add('C127',"When an import works after crashes","After any history of jobs, crashes and I/O errors in which no removal was cut short, an import of whole uploads with distinct file names succeeds and serves every uploaded package with the uploaded bytes exactly if for each of them the file that would be overwritten (in the pool, if the package has no record there; in the repository, if it is not listed there) is not a hard link of the file it would be copied from, and an already listed package has its file whole; in that case no whole package file anywhere is damaged.",HIST+", every repository, every list of uploads","Unboundedly many crash points in one history; the damage depends on which paths share an inode.",ROUGH)
add('C128',"A copy that was cut off can be run again","A copy of a source from one repository to another that is cut off by a crash at any moment, when run again, leaves every copied package served whole from the target and from the repository it was copied from.","every reachable state, every pair of repositories, every source and release, every crash point","The crash point must fall between two particular writes.",ROUGH)
add('C129',"An upload that was cut off can be completed","An upload (the strict import of the packages a manifest names) that is cut off by a crash at any moment, when run again with its files still there, succeeds and lists every package of the manifest.","every reachable state, every manifest, every crash point, any number of retries","The crash point must fall after the first package and before the last.",ROUGH+["src/ferryd/jobs/transit_job.go: Execute"])
add('C130',"What the daemon was doing when it died decides what can be damaged","If no remove-source or trim job was cut short by a crash or an I/O error, the published package of a name is the newest one listed, everything listed is in the pool with a sufficient count, and valid index, remove-source and trim jobs succeed if the asset files parse and the tools work; if no deletion was cut short either, everything listed is served, as a beginning of the uploaded file at least; if no job that puts packages into a repository was cut short, every file served is the uploaded one, whole, and its package is listed.","every schedule of clients, workers, crashes and I/O errors","Unboundedly many crash points in one history.",DAEM+ROUGH)
add('C131',"What the published index offers can be downloaded","At every moment of every job, whatever package the published index of a repository offers is served in that repository at the place the index gives, with the size and the hash the index gives.","every history of jobs, every job, every moment of it, every repository and every package of its published index","A client may fetch the index and its packages at any moment; tests look only between jobs, and only after those jobs they run.",ROUGH)
add('C132',"Every accepted request is eventually carried out on the repositories","As long as the daemon stays up, every accepted request is carried out on the repositories at exactly one later moment, after all requests for the repositories accepted before it; its outcome is then recorded and the jobs it asks for are submitted. An I/O error ends it early, and it is recorded as failed.","every infinite schedule of clients, workers, outside changes and I/O errors, from every state crashes can lead to, in which waiting workers poll again and running jobs return","Liveness over infinite schedules; a test sees finite runs of a few jobs.",DAEM)
add('C133',"Repeating a job that succeeded changes nothing","Running a job again right after it succeeded, in the same daemon or in a restarted one, changes nothing: not the database, not what can be read from any file, not a published index, whatever the repetition reports. (The daemon does repeat a job when it is stopped between the job's last effect and the retirement of its record.)","every operation, every argument, every state reachable by histories of jobs and outside events, every behaviour of the compressors and tools during the repetition","Needs all states and all jobs; the repetition only happens after a crash in a small window.",["src/ferryd/jobs/store.go:UnclaimSequential","src/ferryd/jobs/worker.go:processJob"]+ROUGH)
add('C134',"An import that succeeds serves the imported bytes","Files of one name need not have the same bytes: a package may be rebuilt and uploaded again, or an upload may be damaged. When an import of a file succeeds, the repository serves the bytes of that file.","every history of jobs and outside events in which files of one name hold any bytes that read as the package of that name, or bytes that are no package; every repository, file list and mode of import","Needs every history of uploads and imports under conflicting names; tests use one file per name.",["src/ferryd/core/pool.go:addPackageInternal","src/ferryd/core/repo.go:AddPackage","src/ferryd/core/repo.go:AddLocalPackage","src/ferryd/core/util.go:LinkOrCopyFile"])
add('C135',"Writing into an uploaded file does not change what is served","Once a file has been imported, whatever its owner does with it, writing other bytes into it included, the repositories go on serving the imported bytes.","every history of jobs and outside events (with crashes and I/O errors for the parts that hold), every uploaded file, whatever is written into it, every repository and package","Needs every history of imports and of what happens to the uploads; on one file system the import is a hard link, which tests with copies do not show.",["src/ferryd/core/util.go:LinkOrCopyFile","src/ferryd/core/pool.go:addPackageInternal","src/ferryd/core/repo.go:AddLocalPackage","src/ferryd/jobs/bulk_add.go:Execute","src/ferryd/jobs/transit_job.go:Execute"])
add('C136',"Repositories do not interfere","What becomes of a group of repositories that copies from no repository outside the group does not depend on the jobs on other repositories: each of its jobs succeeds exactly when it would have without them, and each of its repositories exists, lists, publishes and serves exactly the same, index and asset files included. Two jobs on different repositories, neither of which copies from the repository the other changes, leave the same repositories, pool (with counts) and files behind in either order.","every history of jobs, uploads, asset edits and restarts (no delta jobs, index tools that behave the same on every run), every group of repositories, every job","Compares two executions of every history: with and without the other jobs, and in both orders, while all repositories share one pool of counted files.",["src/ferryd/core/repo.go:CloneFrom","src/ferryd/core/repo.go:PullFrom","src/ferryd/core/pool.go:UnrefEntry","src/ferryd/core/repo.go:DeleteRepo"]+ROUGH)
add('C137',"A crash costs at most one reference","If k imports, clones, pulls and copies were cut short by crashes or I/O errors (and any number of other jobs), the reference counts of all packages together exceed what existing repositories list by at most k: at most k packages are left in the pool that no repository lists. If no addition was cut short, none is.","every history of jobs in which the daemon may die, and any job may be cut short by an I/O error, any number of times and at any points; every k","A bound over all histories and all crash points, on the sum over all packages; a test crashes one job at one point.",["src/ferryd/core/repo.go:AddLocalPackage","src/ferryd/core/repo.go:RefPackage","src/ferryd/core/pool.go:UnrefEntry"]+ROUGH)
add('C138',"Only existing repositories list anything","However many crashes and I/O errors went before, and at every moment of a job, nothing is listed under the name of a repository that does not exist: a repository just created is empty, and a clone lists exactly what its source does, also when one of the same name was deleted before.","every history of jobs in which the daemon may die, and any job may be cut short by an I/O error, any number of times and at any points; every moment of every job","Ranges over all histories with crashes at all points, including inside the deletion of a repository of the same name.",["src/ferryd/core/repo.go:CreateRepo","src/ferryd/core/repo.go:DeleteRepo","src/ferryd/core/repo.go:CloneFrom"]+ROUGH)
add('C139',"Repositories have no hidden state","Two daemons, whatever their histories, that have the same repositories listing the same packages publish the same releases, count the same references, and hold and serve the same package files; so deleting a repository just created or cloned, and removing a source just imported or copied, leaves everything about packages as it was before.","every two histories of jobs, uploads, asset edits and restarts that end with the same listings","Compares arbitrary pairs of histories; a test compares two chosen ones.",["src/ferryd/core/repo.go:CloneFrom","src/ferryd/core/repo.go:RemoveSource","src/ferryd/core/repo.go:DeleteRepo","src/ferryd/core/pool.go:UnrefEntry"]+ROUGH)
add('C140',"No downgrade","After any history of jobs, crashes and I/O errors, only removing packages from a repository can lower the release it publishes under a name: any other job, at any of its moments and at its end, leaves a release published that is at least as new.",HIST+"; every job, every moment of it, every repository and name","Ranges over all histories with crashes at all points and over all moments of the next job.",["src/ferryd/core/repo.go:buildSaneEntry"]+ROUGH)
add('C141',"Where listed packages come from","However many crashes and I/O errors went before, what a repository lists at any moment was in it before, or was imported into it under its file name, or was listed in the repository that is being cloned, pulled or copied from (a pull and a partial clone: published there; a copy: of the source and release asked for). So nothing is ever listed that no import named, and it got where it is by clones, pulls and copies from repositories that had it.",HIST+"; every job and every moment of it","An invariant over all histories and all crash points, tracing every listing back to an import.",["src/ferryd/core/repo.go:AddPackage","src/ferryd/core/repo.go:CloneFrom","src/ferryd/core/repo.go:PullFrom","src/ferryd/core/repo.go:CopySourceFrom"]+ROUGH)
add('C142',"Additions only add","However many crashes and I/O errors went before, a job that does not take packages out of a repository keeps everything the repository lists, and goes on publishing some release of every name it published, at every moment of the job and at its end.",HIST+"; every job, every moment of it, every repository and name","Ranges over all histories with crashes at all points and over all moments of the next job.",["src/ferryd/core/repo.go:buildSaneEntry","src/ferryd/core/repo.go:AddDelta"]+ROUGH)
DQ="every sequence of submissions and daemon steps, with the daemon dying and I/O errors occurring any number of times at any points, also in the middle of jobs"
add('C143',"Only what was submitted gets listed","Whatever has been submitted, however often the daemon died or met I/O errors: each package that some repository lists was named in a bulk import that was submitted, or in the manifest of an upload that was submitted; nothing else puts a package into a repository.",DQ+"; every repository and package","Ranges over all daemon histories with crashes and failures at all points.",["src/ferryd/jobs/store.go","src/ferryd/jobs/transit_job.go: Execute","src/ferryd/jobs/bulk_add.go: Execute"]+DAEM+ROUGH)
add('C144',"A repository nobody is told to shrink keeps its packages","As long as no request that takes packages out of a repository (a deletion, a source removal, a trim) is unfinished or gets submitted, the repository keeps everything it lists and goes on publishing some release of every name, at all times, whatever else is submitted, however often the daemon dies and whatever I/O errors it meets.",DQ+"; every repository, name and package","Ranges over all continuations of all daemon histories with crashes and failures at all points.",["src/ferryd/jobs/store.go"]+DAEM+ROUGH)
add('C145',"Repositories come and go only on request","A repository comes into being only by a job that creates it or clones another into it, and ceases to be only by a job that deletes it, at every moment of every job; so each repository there is was asked for in a submitted request, stays as long as no request to delete it is unfinished or gets submitted, and does not appear while none asks for it.",DQ+"; every job, every moment of it, every repository","Ranges over all histories with crashes and failures at all points and over all continuations.",["src/ferryd/core/repo.go: CreateRepo, DeleteRepo, GetRepo","src/ferryd/core/api.go"]+DAEM)
add('C146',"A job recorded as completed has been carried out","When a job is recorded as completed, its request has been carried out: the repositories named existed (or, for a creation, did not), the listings have changed exactly as the request asks (import, upload, clone, pull, copy, removal, trim, creation, deletion) and not otherwise, an upload's files are gone, and the repository serves the right index of its listing. Jobs cut short by an I/O error, and delta jobs, are never recorded as completed.",DQ+"; every job that is finished, of each kind","Ranges over all daemon histories with crashes and failures at all points, and over all requests.",["src/ferryd/core/api.go","src/ferryd/jobs/worker.go: processJob","src/ferryd/jobs/transit_job.go: Execute"]+DAEM+ROUGH)
add('C147',"The catalogue stays well formed, whatever the files contain","Whatever bytes the uploads carry under whatever names, whatever happens to the files behind the daemon's back, whichever jobs are asked for and wherever they are cut short: a name shown in a repository has at least one package listed, its published package is one of those, the listings and delta lists are in order and show nothing twice, and the pool shows nothing with no references.","every behaviour of the package reader, every sequence of requests with any arguments, every crash point and I/O error, every change of any file at any time between steps","Ranges over all file contents, also damaged and malicious ones, and all histories.",["src/ferryd/core/repo.go: UnrefPackage, buildSaneEntry","src/ferryd/core/pool.go: addPackageInternal, UnrefEntry"]+ROUGH)
add('C148',"No job blocks on a lock of its own","A repository job never waits for a mutex that it is itself holding: it comes to its end (or panics, C72), with the outcome it would have without locks, and holds none afterwards. This includes pulling a repository from itself, and jobs that index after trimming.","every job, every argument, every state reachable by any sequence of jobs, crashes, I/O errors and changes of files","Go's mutexes are not re-entrant; whether a nested lock is hit depends on the arguments and the repositories' contents.",["src/ferryd/core/repo.go: CreateRepo, DeleteRepo, RefDelta, AddLocalDelta, removePackageInternal, RefPackage, AddLocalPackage, CloneFrom, PullFrom, TrimObsolete","src/ferryd/core/repo_index.go: Index"])
add('C149',"The daemon does not deadlock","The goroutines of the daemon never block each other for good: whenever one has something left to do, one can go on, and all calls return under every scheduler. This holds because one worker carries out the repository jobs; two that pulled in opposite directions could block each other for ever.","every sequence of jobs and job-store calls of the sequential worker, every number of other goroutines with any calls, every schedule","Ranges over all interleavings of all goroutines.",["src/ferryd/core/repo.go","src/ferryd/core/repo_index.go: Index","src/ferryd/jobs/store.go","src/ferryd/jobs/worker.go: Start","src/libdb/leveldb.go: NextSequence"])
add('C150',"Repository jobs leave no file open","Whatever jobs and uploads the daemon has carried out, whichever of their system calls failed and however the jobs ended (short of a panic), no file stays open, and a job never has more than three files open at a time, however many packages it handles.","every environment, every sequence of jobs and uploads, every choice of failing system calls, every state of repositories and disk","Descriptor leaks show on error paths and after long histories; the error paths are as many as the system calls of a job.",["src/ferryd/core/util.go: CopyFile, LinkOrCopyFile, FileSha1sum, FileSha256sum","src/ferryd/core/mmap.go","src/ferryd/core/pool.go: addPackageInternal","src/ferryd/core/repo.go","src/ferryd/core/repo_index.go: Index","src/libeopkg/package.go: Open, ReadMetadata, Close","src/libeopkg/distribution.go","src/libeopkg/components.go","src/libeopkg/groups.go"])
add('C151',"A call the client library reports as successful has been accepted","A call of the client library returns without an error exactly if the daemon did what the call says (put the job into its queue, or reset the log); if it returns an error the daemon did nothing.","every call with any names and parameters, every state of the job store and of the listings, every text of an error, every JSON decoder that refuses plain text","The names are unbounded and the answer passes through URL parsing, routing, the handler, the length limits of HTTP and JSON decoding; no finite set of calls covers their combinations.",["src/libferry/main.go: getBasicResponse, postBasicResponse","src/ferryd/handlers.go","src/ferryd/server.go: NewServer (routes)","src/ferryd/jobs/processor.go: PushJob"])
add('C152',"The exit status of ferryctl tells whether the command was carried out","ferryctl ends with the exit status 0 exactly if the command line was understood and the daemon accepted the request.","every command line, every state of the daemon","Command lines are unbounded and the outcome depends on the daemon.",["src/ferryctl/main.go: main","src/ferryctl/cmd/*.go","src/libferry/main.go"])
XMLA=["src/ferryd/core/repo_index.go: emitIndex, emitIndexPackage, emitDistribution, emitComponents, emitGroups","src/ferryd/core/escape.go","src/libeopkg/metadata.go","src/libeopkg/main.go: LocalisedField","src/libeopkg/distribution.go","src/libeopkg/components.go","src/libeopkg/groups.go"]
add('C153',"Texts in the index read back","Whatever the text of a name, a release, a summary, a description, a comment or any other field that gets into the index, a reader of XML reads exactly this text from the bytes written for it.","every text of characters XML allows, every table of symbols, control characters and blanks","Texts are unbounded; two escapers work one after the other, on pieces that may cut characters.",XMLA)
add('C154',"The index is one well-formed document","Whatever the distribution, the packages, the components and the groups, the bytes written to the index are one well-formed XML document, in which a reader sees, under the element PISI, exactly these elements in exactly this order, each with its name, its attributes, its text and its child elements.","every list of elements, of any depth and number, with any texts and attributes XML can carry","Documents are unbounded in depth, number and texts.",XMLA)
add('C155',"The index says everything about its packages","From the bytes of the index a reader gets back, for every package, component and group and for the distribution, every field: names, releases, sizes, hashes, places, licences, dependencies with their conditions, conflicts, history, deltas, source, languages of texts.","every index: any number of packages with any values of their fields, any components and groups, any distribution, with texts XML can carry (for texts in CDATA sections see C153)","Documents are unbounded, and one structure tag per field, of about sixty, decides whether the field survives.",XMLA)
add('C156',"What a client reads in the index","After every job that publishes a repository and reports success, the bytes of the index, read as XML, give an index whose packages have distinct names and are exactly the published packages that the distribution does not hide; the entry of each gives the name, source and releases of the package, and the place, size and hash of the very file the repository serves there, and exactly the deltas the repository lists that lead to its release, with place, size and hash; the obsolete names are those of the distribution file.","every reachable state, every publishing job, every further content of the packages' metadata that XML can carry","Every history of the daemon and every text of every field: the property joins the state of the repository to the bytes on disk.",XMLA+["src/ferryd/core/repo_index.go: EmitIndex, writeIndex"])
add('C157',"What is stored is read back","A job, an entry of the job history, the position of the history, the name of a repository, a repository's entry, a delta found impossible, and an entry of the pool with every field of the package's metadata: whatever is put into the databases is read back exactly, although zero values are not written; nothing is refused that takes less than 8 GiB.","every value of the stored types that Go can hold (slices of up to 8 GiB, no pointer to an empty list)","Seven types, one of them with more than sixty fields nested five deep; every number, length and combination of fields left out.",["src/libdb/transcoder.go: EncodeType, DecodeType","src/libdb/leveldb.go: PutObject, GetObject, Decode","src/ferryd/jobs/main.go: JobEntry","src/ferryd/jobs/store.go: IndexRecord, markCompletion","src/ferryd/core/pool.go: PoolEntry, DeltaSkipEntry","src/ferryd/core/repo.go: RepoEntry, Repository","src/libeopkg/metadata.go: MetaPackage"])
add('C158',"What is sent arrives","The daemon gets the request that was sent: the paths of an import, the names, the release, the flags and the number of packages to keep, whatever characters they contain; and the client reads the answer that was given: the error's text, the repositories, the pool's identifiers and counts.","every request and answer with a body: any number of strings, every string of bytes in them, every int","Strings of every length and encoding, quotes, control characters and text that looks like JSON, with a writer and a reader that each have a dozen special cases.",["src/libferry/types.go: Response, ImportRequest, CloneRepoRequest, PullRepoRequest, RemoveSourceRequest, CopySourceRequest, TrimPackagesRequest","src/libferry/main.go: postBasicResponse, getBasicResponse","src/ferryd/handlers.go: ImportPackages, CloneRepo, PullRepo, RemoveSource, CopySource, TrimPackages, GetRepos, GetPoolItems"])
add('C159',"A command, followed to its end","A ferryctl command (with a repository name free of URL characters, and the other names in UTF-8) makes the daemon submit the one job it means; whatever else is submitted meanwhile and however often the daemon dies and is started again, that job stays stored with its parameters until it is retired; if its outcome is recorded as completed, what the command asks for had been done to the repositories by that very job. If every worker gets its turn, the job is retired.","every command line, every history of the daemon before it, every execution after it with other jobs, crashes, I/O errors and restarts","It joins the command line, the bytes on the socket, the job database, the workers and the repositories over an unbounded execution with crashes.",["src/ferryctl/cmd: the commands","src/libferry/main.go: Client methods, postBasicResponse","src/ferryd/handlers.go: request handlers","src/ferryd/jobs: JobStore, Worker, Processor, NewJobHandler and the job types","src/ferryd/core: Manager operations"])
add('C160',"The status report arrives, with its times to the nanosecond","When the daemon's status report can be written (exactly when all its times are in the years 1 to 9999), ferryctl reads from it the same moment of the daemon's start and the same failed, current and completed jobs in the same order, each with its times to the nanosecond and whether it failed; texts that are UTF-8 are the same, and in the others each byte that begins no character becomes U+FFFD. Each time is written as the date and time of day that the calendar gives it in UTC.","every report: every number of jobs, every instant from the year 1 to the year 9999, every description and error","It needs a calendar of ten thousand years, every length of a fraction of a second, and every text.",["src/ferryd/handlers.go:GetStatus","src/libferry/types.go:TimingInformation, Job, StatusRequest","src/libferry/main.go:GetStatus"])
add('C161',"What status shows of a job's times is exact","In the tables of ferryctl status, a failed job's row shows the second in which it ended and how long it ran, a completed job's row also the time from its submission to its end, and a current job's row whether it has begun, the second of its submission and the time since; each duration's text stands for that number of nanoseconds and no other, and each moment is the calendar's date and time of day in UTC.","every job of a report, every instant from the year 1 to 9999, every duration of less than 292 years, positive or negative","Durations and calendar dates range over too many values and formats (units, fractions, months, leap years) to be tried.",["src/ferryctl/cmd/status.go:printActiveJobs, printFailedJobs, printCompletedJobs","src/libferry/types.go:QueuedSince, ExecutionTime, QueuedTime, TotalTime"])
add('C162',"Every unfinished job is on the screen","ferryctl status -a prints a row for every job that is not finished when the daemon begins to put its report together: a row of its state (queued or running, the moment of its submission, how long ago that is, its description) or, if it finishes meanwhile, a row of its outcome (failed or success, the moment of its end, the durations, its description and error); there is one row for each job of the report and no other, at most ten in each table without -a; and a report whose times are in the years 1 to 9999 always arrives and is printed.","every history of the daemon and its job store before and during the report, every schedule of workers and requests while its four lists are read (at most a hundred jobs finishing meanwhile, histories not cleared), every description, error and time","It joins the schedule of the daemon's workers, the store's four separate reads, the bytes of the answer and the client's formatting; a test sees one schedule and one job.",["src/ferryd/jobs/store.go:ActiveJobs, FailedJobs, CompletedJobs","src/ferryd/handlers.go:getStatus","src/libferry/client.go:GetStatus","src/ferryctl/cmd/status.go:getStatus, printActiveJobs, printFailedJobs, printCompletedJobs"])
add('C163',"A command stays on the screen","From the moment the daemon has taken a job, ferryctl status -a shows it: as long as it is not finished, whatever is submitted, executed or crashes meanwhile, with its own description (UTF-8), the very moment of its submission, the exact time since, and as running only if it is being executed; when it finishes while the daemon stays up, with its recorded outcome, until a hundred jobs have finished after it was submitted or somebody clears the histories.","every history before the submission, every execution after it with deaths and restarts, every schedule of the report's four reads, every job","It ranges over all executions between the submission and the report, with crashes; the time of submission is stored, rewritten at each claim, after each crash and at the end, and written and read as text on the way.",["src/ferryd/jobs/store.go: pushJobInternal, claimJobInternal, unclaimJobs, markCompletion","src/ferryd/handlers.go:getStatus","src/ferryctl/cmd/status.go"])
add('C164',"A success row on the screen means it was done","Every record in the history of completed jobs, and so every row of the completed table of ferryctl status, is that of a job which had carried out its request: the listings had changed exactly as asked and not otherwise and the repository served the right index of them; also when the daemon died while it was making the record, and however long ago that was.","every history of submissions, executions, I/O errors, deaths and restarts (also in the middle of retiring a job or of clearing a history), every report read from it","All histories: a record may be written by a step that the daemon does not survive, overwritten in the ring, cleared, and read much later.",["src/ferryd/jobs/store.go: markCompletion, ResetCompleted","src/ferryd/jobs/worker.go: processJob","src/ferryd/core/api.go","src/ferryctl/cmd/status.go: printCompletedJobs"])
add('C165',"What ferryctl tells of a command is true","A command given to ferryctl reaches the daemon as meant; from then on every ferryctl status -a shows that very command, as waiting or running with the exact time since its submission, or with its outcome; and if the outcome shown is a success, then exactly what the command asked for had been done to the repositories, by that job and after the command was given; if it is a failure, then that job could not carry it out on the repositories as they were, or an I/O error cut it short.","every daemon state that can be reached, every sound command, every later execution in which the daemon stays up, nobody clears a history and at most a hundred jobs finish, with any other jobs and changes in between, and every moment at which the status is read (also between the reads of the three tables)","The truth of a screen depends on everything that happened since the command was given, in three processes' worth of code: client, worker and report.",["src/ferryctl/cmd: all commands","src/ferryctl/cmd/status.go","src/libferry/main.go","src/ferryd/core/api.go","src/ferryd/jobs/store.go","src/ferryd/jobs/worker.go: processJob","src/ferryd/handlers.go: GetStatus"])
add('C166',"A failure row on the screen means it failed","Every record in the history of failed jobs, and so every row of the failed table of ferryctl status, is that of a job whose request could not be carried out in the repositories as they were when it was executed, or that an I/O error cut short; it shows that request's description and the recorded error; also when the daemon died while it was making the record, and however long ago that was. As long as no job was cut short, a job is there only if its parameters were bad, or it was a delta job or one for the deltas of a repository that did not exist, or its request was not valid for the repositories as they were, or it was an upload without a valid manifest, an intact payload and files that the repository takes, or the index of its repository could not be made.","every history of submissions, executions, I/O errors, deaths and restarts (also in the middle of retiring a job or of clearing a history), every report read from it","All histories: a record may be written by a step that the daemon does not survive, overwritten in the ring, cleared, and read much later.",["src/ferryd/jobs/store.go: markCompletion, ResetFailed","src/ferryd/jobs/worker.go: processJob","src/ferryd/core/api.go","src/ferryctl/cmd/status.go: printFailedJobs"])
for r in rows:
    if r['id']=='C08': r['statement']="Any job on one repository leaves the package lists, tips, delta lists, index, assets and served package files of every other repository unchanged (for its delta files see C90)."
rows.sort(key=lambda r:int(r['id'][1:]))
open(P,'w').write(''.join(json.dumps(r,ensure_ascii=False)+'\n' for r in rows))
