# Design of the formal model of go-fsys-helper

The code in `/repo` is read as text, never built or run.  `/verif/lean` holds a Lean 4
model of it, written function by function, and theorems about that model.

## Layout

* `Verif/Common/*` — byte strings, slices, int64 wrap-around, a model of the Go
  standard `path` functions (`Clean`, `Join`, `IsLocal`, `Split`).
* For each area there is a `Model` file (definitions, every one citing file and lines of
  `/repo`), a `Lemmas` file when helpers are many, and a `Props` file that holds only
  specification predicates, property theorems, counterexample theorems and the
  non-vacuity `example`s.
* Theorem naming: property theorems start with the property id (`C01_...`).  A theorem
  whose name ends in `_partial` proves less than the English property, and its doc comment
  says what is missing.  A theorem whose name contains `_counterexample` proves the negation of
  the English property on a concrete witness: the code as written violates the property.

## Trusted base

* Lean's kernel (4.33.0). No axioms are added. `#print axioms` of every theorem in `MANIFEST.json` lists a
  subset of `propext`, `Classical.choice`, `Quot.sound` and nothing else. No `sorry`, `native_decide`, `bv_decide`,
  `implemented_by`, `unsafe`, and no Mathlib module is imported.
* The reading of the Go code: the theorems are about the model, the link to the code is the
  line citations on every definition.
* The modelled environment: the Go standard library functions that the code calls, operating
  system file operations, HTTP servers, SQLite and the SFTP server are either modelled by
  small definitions (cited "std") or left as arbitrary parameters over which
  the theorems quantify (oracles: every short read, every error, every answer of a server, every schedule).
* Integers are unbounded `Nat`/`Int` unless the property is about overflow, in which case
  the int64 wrap-around is explicit (`wrap64`, `BitVec`).
* Crash points: effects reach the disk in program order, each elementary filesystem call is atomic. Reordering by caches is
  out of scope (that is what the sync hooks of the code are for), except in C138, C139 and C141, where power is lost.
* Unix separators and Unix error codes; the Windows branches are not modelled, except the lock conversion of C64.
* A `Char` of the model's `Str` stands for one byte where the code works on bytes.

## What is modelled

| code | Lean | modelled |
|------|------|----------|
| stream/multi_read_at_closer.go | Stream/Multi*.lean | construction, search, `ReadAt`, `Read`, `Seek` (lines 21-299) and `Close`; not: error texts |
| stream/seq_reader_at.go, repeat.go, cancellable.go, multi_read_closer.go, internal/serr/gathered.go | Stream/Small*.lean | seq_reader_at.go 17-131, repeat.go, cancellable.go 8-54, multi_read_closer.go 33-39, gathered.go 27-66 and 120-145; not: error texts, formatting |
| stream/fileserver/chunk.go, client.go | Stream/Chunk*.lean | chunk arithmetic, `ChunkedSource`, `ChunkedSink`, `Client.Get` decision logic; URLs and headers of requests (FileUrl.lean), the sink on the client (Upload.lean), the source on the client with failures (Download.lean), both below fsutil's `Push` and `Pull` (Transfer.lean), `Get`, `Stat` and `Put` against a truthful server (FileClient.lean); concurrent uploads (ChunkConc.lean); not: redirects, requests that cannot be built |
| stream/httprange/content_range.go, range.go, httprange.go, reader_at.go, stream.go, probe.go | Http/*.lean | parsing, views, pinning, bounded reads, the stream lane as a step machine (LaneModel; for honest servers LaneProps, for any server LaneSafe); what error texts tell of a URL (Redact.lean, also fileserver/client.go 114-142); requests and their headers (Request.lean); not: contexts |
| fsutil/safe_write.go, open_random.go | Fsutil/Safe*.lean, Temp*.lean | safe_write.go 57-223 (`Write`, `Copy`, `safeOperation`), 255-504 (policies, with `WalkFunc`), open_random.go 28-137; `CopyFs` runs the model of copy_fs.go on the temporary directory; panics of hooks (SafePanic.lean); concurrent safe writes (SafeConc*.lean); sweeps (Sweep*.lean) |
| fsutil/resumable.go, resumable_fs.go | Fsutil/Pull*.lean, PushProps.lean | `Pull`, `Push`, `FsSink`, `FsSource`; three-file disk, and several Pulls at once on files kept apart from their names (PullConc.lean, no ETags) |
| fsutil/resolve_symlink.go | Fsutil/Resolve*.lean | lines 16 and 40-208 (Unix) |
| fsutil/copy_fs.go | Fsutil/Copy*.lean | `CopyAll`, `CopyPath`, `copyEntry` (CopyModel, CopyPathModel; over a destination whose calls follow symlinks and deny access, CopyFollowModel; theorems in CopyProps, CopyOver, CopyPathProps, CopyPathOk, CopyFollow, CopyFollowSame, CopyUser); not: a source looked up through symlinks, symlinks of the destination with absolute targets (refused), entries of other users |
| fsutil/chmod_mask.go, wrap_path_err.go, pathutil/head_tail.go, truncate_utf8.go | Fsutil/Chmod, WrapErr, HeadTail, Utf8 | all functions; also vroot/internal/paths/head_tail.go |
| tarfs/* | Tarfs/*.lean | header collection, tree building, lookup, links, sparse maps and reads, numeric fields; the readers of sparse maps in all formats, the sections of an archive, handles of directories; not: archive/tar itself |
| vroot/readonly.go, iofs_to.go, iofs_from.go, pathnormalizer.go, pathprefix.go, walk.go, funcs.go (`ReadFile`, `WriteFile`), internal flag.go | Vroot/*.lean | forwarding and names of every method; `Sub` of funcs.go and widen.go: SubWiden.lean; `Fd` of funcs.go is not modelled (thin wrappers) |
| vroot/osfs/fs.go, root.go, lock_unix.go, fsutil/lock.go | Vroot/Osfs.lean, Flock.lean | the names of every call of `Fs`, the translation of errors of `Root`, locks; not: what the operating system does with a name, lock_windows.go |
| fsutil/internal/bufpool, aferofs/internal/bufpool, overlayfs copyup.go 222-241 | Fsutil/BufPool.lean | the pools of byte slices and io.CopyBuffer over them; not: the pools of bytes.Buffer, which nothing uses |
| vroot/synthfs/view_bytes.go | Synth/BytesView.lean | open, read, seek, size, refused writes; not: times |
| vroot/synthfs/* | Synth/*.lean | node tree, every tree operation, memory files, handles, ranged views, directory paging, AddFile/AddFS, what is shown of entries (Meta.lean: names, sizes, modes, times); not: owners |
| vroot-adapter/sftpfs/sftpfs.go | Sftp/*.lean | names, the requests of every call, `RemoveAll`, directory paging, translation of errors, `Sync`, `O_APPEND`; `Client.Remove` is one request, `MkdirAll` of the client library is one request; not: `Truncate` of file handles, servers other than these two kinds |
| vroot-adapter/overlayfs/state.go, merged.go, copyup.go, write.go, open.go, remove.go, mkdir.go, rename.go, link.go, chmod.go, resolve.go, datasource.go (names), file.go | Overlay/*.lean | lookup, listing, copy-up, every operation from the path given on (resolution over the merged view, then the resolved name), marks, handle tracker, names; not: owners and times (the constructors and the sweeping of `work/` are in Construct.lean) |
| vroot-adapter/overlayfs: attributes | Overlay/Attrs.lean | copy-up and the calls that set attributes, with modes, modification times and owners (trusted: what a Unix filesystem does to them); not: marks, several lower layers, access times, groups, symlinks on the way |
| vroot-adapter/overlayfs/copyup.go 121-164, 223-241, reflink_*.go | Overlay/Staging.lean | copying the bytes of a file up, one step per call of a backend, concurrent copies; trusted: FICLONE copies all or nothing, rename is atomic; not: attributes (C133), parents (C57), loss of power |
| fsutil/safe_write.go 28-36, 57-223: loss of power | Fsutil/PowerLoss.lean | `safeOperation` on a volume with a cache; trusted: `Sync` makes the bytes of one file safe, every name found was there at some moment; not: torn directories, reused inodes |
| fsutil/resumable.go 268-446: loss of power | Fsutil/PullPower.lean | the model of `Pull` (PullModel.lean) on a disk that may spoil what was not flushed; trusted: bytes flushed by a hook are kept or lost as a whole with their name |
| fsutil/resumable.go `Push`, resumable_fs.go `FsSink`: loss of power | Fsutil/PushPower.lean | the model of `Push` (PullModel.lean) on a disk that may spoil what was written; nothing is flushed, so nothing is trusted to be kept |
| aferofs/observable.go, observable.*.generate.go | Afero/Observable.lean | a call below is one step; answers are numbers; no timestamps |
| vroot-adapter/overlayfs: the identity of files | Overlay/Files.lean, FilesProps.lean | hard links and handles of the regular files of one directory (the models above give every name a content of its own); not: failing layers, symlinks, directories |
| vroot-adapter/overlayfs/metadatastore*.go, internal/sqlvfs | Overlay/Store.lean, MarkNames.lean, Lock.lean, SqlVfs*.lean, SqlPower.lean, Construct.lean | the store as a table with failing calls, the range delete, changes and questions by path string (state.go 96-332), the lock levels, the names and the file methods of the VFS, making, opening and closing layers, the URI of a database (Dsn.lean: net/url, SQLite's reading of URIs and the driver's are modelled from their documentation); not: SQLite itself, `Sync` |
| aferofs/synth/fs.go, fs_link.go, dir.go, dirent.go, file.go, fd.go, flag.go | Afero/*.lean | the tree, every call, the questions asked of views and their failures; calls one after the other, and calls at once at the granularity of the critical sections (Concurrent*.lean; there with all permissions and views that do not fail); what is shown of entries (Meta.lean: names, sizes, modes, times); not: owners, symlinks (there are none) |
| the locks of vroot/synthfs, overlayfs, sftpfs, tarfs, httprange, aferofs | Locks/*.lean | which locks each call takes, in which order, and what it calls into meanwhile; what is done between is left out. aferofs (Locks/Afero.lean): the locks of directories on top of the model of C105. Not: the database of an overlay's layer, which counts as code called into |
| aferofs/synth/impl_inmem.go, impl_inmem_file.go | Afero/MemFile.lean | contents, handles, capacities left by the runtime, memory limits; concurrent appends at the granularity of the critical sections; not: times |
| aferofs/synth/dir_handle.go, dir.go `ListFileInfo` | Afero/DirHandle.lean | paging, seeking, the listing and failing views; sizes and times of entries left out |
| aferofs/internal/closable | Afero/Closable.lean | the look at `closed`, the setting of it and the call below as separate steps of goroutines |
| aferofs/synth/impl_fslink.go, impl_tmpdir.go | Afero/Views.lean | ranged views (the section reader is that of Synth/Ranged.lean), temporary views over a filesystem whose calls may fail; not: the plain view of an fs.FS (forwards) |
| aferofs/valid_path.go, valid_path.validpathfs.generate.go | Afero/ValidPath.lean | the conversion of names on Unix; every forwarded call |
| aferofs/synth/fs_link.go `MapFsIter`, `Copy` | Afero/CopyModel.lean | the walk over a source tree whose listings and views may fail; sources that change while walked are not modelled |
| aferofs/iofs.go, operation.go | Afero/IoFs.lean | both adapters over any filesystem and files with any of the optional methods; of a listing only the names; not: ReadFile and Sub of IoFs (afero's own code) |
| aferofs/* (the rest) | — | clock, cmd/implwrapper (the generator; what it generated is read as code): not modelled |
| fsutil/testhelper/setup.go | Testhelper/*.lean | the lines (52-94), sorting and setting up (14-26, 96-260); not: lines with Windows separators, removing what failed |
| fsutil/testhelper/context.go 94-126, context_fsys.go | Testhelper/Context.lean | recording, expecting and reporting, for all methods alike; not: what fmt makes of modes, times and numbers, escapes for Unicode that is not printable |
| acceptancetest, the rest of testhelper, cmd/implwrapper, examples | — | not modelled (test support, code generator) |

## Plan per property

| id | what is modelled | how it is proved |
|----|------------------|------------------|
| C01 | multi reader constructor, search, `readAt`, `ReadAt` loop with fuel; segment readers are arbitrary oracles indexed by call number | loop invariant: bytes so far are the slice of the concatenation |
| C02 | `Read`, `Seek` | simulation with a cursor over one byte string, induction over the history |
| C03 | linear and binary search | loop invariant of binary search; uniqueness of the containing segment |
| C04 | same functions, dishonest segments | loop invariant over the declared layout; counterexample for a short last segment |
| C05 | `seqReaderAt.ReadAt` with stream state | invariant: open stream delivers content from the recorded offset |
| C06 | repeater | direct |
| C07 | cancellable `Read` with a cancellation oracle | induction over history |
| C08 | `io.MultiReader` (std) + Close + Gather | induction over parts |
| C09 | chunk arithmetic | `Nat` division lemmas |
| C10 | `ChunkedSource.Open` | slices of chunks |
| C11 | sink state machine over a chunk store | invariant over histories of interrupted appends; what one successful append means on any store |
| C12 | `Client.Get` decision logic | case analysis |
| C13 | Content-Range parser over character lists | round trip and inversion |
| C14 | `ReaderAt.ReadAt` with an adversarial server oracle | case analysis; which bytes of which answer are handed over is stated for any server, and that they are the content for a truthful one |
| C15 | pinned metadata as atomic cell, threads as step machines | invariant over all interleavings; a variant bounds the races a call can lose |
| C16 | range views with int64 arithmetic | inequalities on wrap-around |
| C17 | lane state machine | invariant over all interleavings: one stream, exclusive use, no leak and death are for any server, exact content for a truthful one |
| C18–C20 | `safeOperation` over a tree with modes, as a sequence of filesystem calls with a fault oracle and a log of calls and outcomes | the calls made are a prefix of a plan stated separately, each with its effect and outcome; induction over hooks, attempts and writes |
| C21–C24 | temp policies, random open, UTF-8 truncation on byte lists | string lemmas, induction |
| C25–C27 | `Pull`/`Push` and `FsSink` over a small disk model with crash points | invariant over histories of interrupted runs |
| C28–C29 | `ResolvePath` over a tree with links | fuel bound; the calls made explain every outcome; simulation of the kernel's walk in both directions, with the number of links as the measure (ResolveComplete.lean); counterexample for lexical joins |
| C30 | masks on 32-bit modes | `BitVec` facts |
| C31 | head/tail iterators | induction on components |
| C32 | `CopyFs` as a fold over the walk | induction on the tree |
| C33–C35 | sparse maps, section readers, numeric fields | induction on fragments/bytes |
| C36–C37 | tar tree builder and lookup | induction over headers; counterexamples for panics |
| C38–C39 | read-only wrapper, open flags | every call case; bit vectors |
| C40–C41 | prefix view | path lemmas; counterexample for `Remove(".")` |
| C42–C43 | `walkDir_` over a tree with faults and identities, `ReadDir`'s sorting | induction on the tree; the visits are given by a relation (`Seen`: names listed, links followed with their budget, no directory on its own way) and the calls are its only list in lexical order; counterexample for skipped siblings |
| C44 | path validity | component characterisation |
| C45–C47 | memory buffer with explicit backing array, handle | refinement to a byte array; schedule counterexample for append |
| C48–C51 | node heap, tree operations | invariant over histories; counterexample for rename into itself. C51 is stated from the place the name leads to (the relation `Parents`: which directories are made, and where) and from what of the source is found there afterwards, for each policy. C49 also says with which error a name is refused (`Fails`, `Chases`) |
| C52 | ranged view | slices |
| C53–C59 | layers as trees, marks as per-layer sets, operations as sequences of elementary effects | view function lemmas, crash prefix quantification |
| C60–C61 | mark store mirror, byte-wise range delete | invariant over histories; lexicographic order on byte lists |
| C62 | handle tracker | counting invariant; counterexample after rename |
| C63 | names | path lemmas |
| C64 | lock level machine | invariant over histories with faults |
| C65 | sftp names | path lemmas |
| C66 | name conversion wrappers | path lemmas |
| C67 | sftp open and mkdirAll over a small server model | case analysis; counterexamples for the extra chmod |
| C68 | the overlay operations as in C53–C59 | Hoare triples with an invariant for the crash points |
| C69 | `CopyAll` over an arbitrary destination disk | Hoare triples for confinement; for success, the final disk is computed as a fold over the entries and read off at each place |
| C70 | `CopyPath` with std `filepath.Rel` and the sorted directory set | as C69, with path lemmas for the directories above an entry; that it succeeds: parents sort before what is in them, and directories stay directories |
| C71 | tar lookup as in C37, with `Lstat`, `ReadLink`, `Sub` | a POSIX resolution relation over the entries, and the lookup loop shown to compute it; counterexamples for targets that cleaning changes |
| C72 | histories of overlay calls with crash points | an invariant (every layer a finite tree) kept by every elementary step |
| C73 | the same histories | an invariant (every opaque mark on a directory of the top) kept by every call but a rename cut short; counterexample there |
| C74 | every sftp call as the requests it sends to an arbitrary server | case analysis against a separate table of requests |
| C75 | `removeAll` against a server holding a tree, with refused requests, lost answers and partial listings | induction on the recursion with what is on the server after each request |
| C76 | `sftpFile` paging, the lock and the lazily loaded listing as a step machine | invariant over all interleavings |
| C77 | every call of synthfs against the entries of all directories before and after | the place of a name by a relation on links (`Place`, `LeadsTo`), each call by cases; `RemoveAll` by induction on the recursion |
| C78 | the list of closed views in the model of synthfs | invariant over histories: closed views are those of unreachable files |
| C79 | `resolve.go` over the merged view itself and the first lines of every method (Overlay/Paths.lean), on top of the operations of C53–C59 and C68 | the resolution finds names with no symlink above them (PathProps.lean), where the operations do what C55–C59 and C68 say; the walk is the independent `Walk` of C29 over the merged view (PathCalls.lean); the converse uses the completeness of the resolution (C29) with the merged view as the filesystem that answers (PathFound.lean) |
| C80 | the same, with the base of the sub-root | consequence of C79 for a base that shows as a directory, then induction over the calls (SubRoot.lean) |
| C81 | `renameSubtree` on path strings with any of its store calls failing (Overlay/Store.lean) | the marks after any failing prefix of the four passes, computed from the sets before (MarkNames.lean) |
| C82 | state.go 96-332 twice: on path strings, as the code is written, and on names as lists of components, as the operations of C53–C59 use it | a relation between the two, kept by every change; the questions by induction on the components (MarkNames.lean) |
| C83 | resumable.go `Pull` with hooks that judge the bytes of the part file | the relation between start disk, session and every later disk used for C25/C26 (PullLemmas.lean), with the hooks' verdicts; completion as for C26 (PullHooks.lean) |
| C84 | the overlay calls from the resolved name on (Ops.lean), with what they answer | each call's answer is computed along its run: copy-up and parent creation succeed in the states C72/C73 describe (CopyProps.lean, FreshProps.lean), lookups in a directory that shows fail only as missing, and the answer is compared with one read off the merged view (Answers.lean); calls by path answer the same for the place their path leads to (PathFound.lean) |
| C85 | the handle of an open overlay directory (file.go 113-355) with its position, listing and layer handles, in a world where the overlay may become anything between two calls | invariant of the handle since the last rewind: no listing yet, or the listing taken and the number of entries delivered; what the listing holds comes from C53 |
| C86 | the tree as an inductive type, directories as lists of named entries; `find` and `findParent` function by function | `walk`, a four-line specification, is shown equal to `find` by induction on the path; permission bits through `Nat.testBit`; distinct names are an invariant of all calls, by induction on histories |
| C87 | `mkdir`, `mkdirAll` with its loop | places: what the tree shows at every path before and after; induction on the path for the loop |
| C88 | `removeFromParent`, `removeAllFrom` as a function on entries | mutual induction on tree and entries: what is left are exactly the directories that had something in them |
| C89 | `rename` with its tests in order | the tree after is described at every place (`Lands`); the prefix test on strings is shown to be the prefix relation of places |
| C90 | `openFile`, `addFile` with every question to a view and its answer | as C87; an arbitrary answer per question |
| C91 | all calls, histories | counting: for every view, occurrences in the tree plus closes are conserved by every call, by induction on the history |
| C92 | in-memory file and handles, every flag and call | refinement against a POSIX descriptor table over one byte list, by induction on the calls; the spare capacity is an invariant (`Holds`) |
| C93 | writers as goroutines, `Len` and `WriteAt` as separate steps | invariant over schedules: the handle's lock is held between the two; counterexample with two handles |
| C94 | the handle's snapshot and position, views that fail | refinement against a list of entries still to come, by induction on the calls |
| C95 | goroutines, three steps per call | invariants over schedules on the log of events |
| C96 | section reader over any reader; temporary view over a failing filesystem | the reader theorems of Synth/Ranged.lean for the section; induction on histories for the files |
| C97 | cleaning and trimming of names | an independent interpreter of names (`leadsTo`), induction on the elements |
| C98 | the walk and one AddFile per regular file | induction on the source tree with `Filled`: what a list of additions does to a tree |
| C99 | the adapters over an arbitrary filesystem with state | whatever an observer sees of the state below is unchanged, by induction on the history |
| C100 | readers of the three map formats over a reader that gives arbitrary pieces and may fail; the search for the header block | each format as a relation between bytes and map; induction on the blocks, lines and extension headers |
| C101 | the loop of `Sections` over what archive/tar reports; layout of an archive as a list of members | induction on the members, with C100 for the holes and C34 for the reads |
| C102 | every VFS call over a store of files with faults at every call; names walked from the root | refinement of a disk keyed by places, invariant that every file has one name, frame |
| C103 | the constructors and `Close` over a tree with faults at every call, arbitrary effects of sqlite on its files | frame lemmas for every step, sweeping by induction over the listing, equivalence for success |
| C104 | net/url `Parse` and `String` as far as they take a text apart and put it together, the redaction, trees of wrapped errors | the text of a URL is shown equal to that of the same URL without secrets; counterexamples |
| C105 | calls of aferofs/synth as programs of locked steps, goroutines interleaved by any schedule | invariants over schedules: predicates on the programs left to run; a comparison of two runs for separate directories; counterexamples |
| C106 | `sync.Mutex` and `sync.RWMutex`; every call as the nested locks it takes, with the code of views and layers as a parameter | a rank for each lock; the holder of the highest lock, or a writer waiting for a free lock, can go on; every effective attempt uses something up; for aferofs the rank is the height in the tree as it is at the time; counterexamples |
| C107 | calls as programs of reads, writes, `Lock`, `RLock`, unlock, in any small steps, interleaved | invariant: the calls made so far replayed in the order of their unlocking give the state without the running writer's changes; counted: how often each call of C106 locks; counterexample |
| C108 | errors of the server as a code and a text, the quoting of the text as a parameter, `errors.Is`, `errors.Join` | a word without a certain character occurs in a text only on one side of that character; cases; counterexamples |
| C109 | one file, any number of handles with an offset each; one step function for a local file, for sftpfs over a server that appends and over one that does not | simulation of the local file; invariant: the offset of the append handle is the length of the file; counterexamples |
| C110 | a memory of errors, each pointing to its cause; both functions as changes of it | what is reached by unwrapping is kept by changing names and by adding an error; texts of errors that do not share it; counterexample |
| C111 | a line as a list of characters, cut at the first occurrence; `strconv.Unquote` is a parameter | each outcome characterised by occurrences of the separators; writing down and reading back; counterexamples |
| C112 | a table of names with directories, files, links, modes and times; sorting, then each call | invariant: the tree is the one described by what was set up so far; sorting by kind and depth keeps what comes later from being in the way; counterexamples |
| C113–C114 | every method of `osfs.Fs` as one call of package os with other names; an error as a chain | the path lemmas of C40; the chain by induction; counterexample for `Remove(".")` |
| C115 | handles on one file, each with the lock the kernel keeps, the call under way and what the user was told; flock(2) as in its manual | invariant over all events |
| C116 | any number of copies, each a loop of io.CopyBuffer over a buffer from a sync.Pool that hands out any of its buffers, makes new ones and loses some; buffers keep what was in them | invariant: buffers in use are distinct, not in the pool, of full size; what a copy has read, has in its buffer and has written make up its source |
| C117 | handles of a byte view: the handle of the tree over bytes.Reader, int64 positions | invariant over histories of calls; a run with overlapping reads as the counterexample |
| C118 | the programs of C69 and C70 over a destination whose calls follow symlinks and deny access | simulation: where no link is on the way and the directories are useable, both destinations go through the same states; Hoare triples for confinement with any access |
| C119 | any number of safe writes as step functions over one disk of names and inodes, every schedule, random names and failures left open | invariant: every call's temporary and inode are its own, its content is what was written so far; everything else follows from it |
| C120 | std `fs.WalkDir` over a tree with the `WalkFunc` of both policies, every call may fail | mutual induction over the tree, for any walk function that removes what a predicate says; string lemmas for the two policies |
| C121 | the top layer as a table of names and a table of files, handles on files, copy-up making a new file | simulation of one POSIX directory, with a map from files of the top layer to files of the directory; counterexamples |
| C122 | the loop of `io.ReadAll` on an arbitrary handle with a growing buffer; the states of the disk during `WriteFile` | induction on the reads; case analysis of the failures |
| C123 | files apart from their names, any number of Pulls as processes whose steps are single calls | invariant of all schedules in which opening the part file is calm; closed witnesses for the rest |
| C124 | synthfs nodes with their metadata, contents shared by links, every call that changes them | invariant of all histories; the fields an entry shows as a function of the last call that set them; counterexamples |
| C125 | entries of aferofs/synth with the mode and time they keep, views that may not be there yet or change by themselves | invariant of all histories (an entry that has taken its mode and time has a view that is there); counterexamples |
| C126 | the wrappers of vroot as a tree of values over any filesystem; `Sub` and `Widen` between them; a client that holds any number of them | induction over the ways taken, with C40 for one step; every wrapper over a read-only one preserves content |
| C127 | handles and counts of synthfs over the tree of C48, with failing allocators and views | invariant over histories: the count of a node is the number of its open handles; the rest from C77 |
| C128 | `DSN` byte by byte with the escaping of net/url, and two readers of it: SQLite's and the driver's | tokens of an escaped string are its bytes (induction), each reader run over them gives back path and parameters; sorting keys is a permutation; counterexamples for zero bytes and the root |
| C129 | headers as maps with the canonicalisation of net/http, request building of httprange | a name lookup that ignores case commutes with Set and Del on canonical headers; the plan of a read (C11) gives the numbers in the Range; counterexample for other spellings |
| C130 | `objectURL` byte by byte, where net/url ends path and query, `applyHeaders` | an escaped name has no delimiter and reads back (C128), induction over `Header.Add`; counterexamples for bases with query or fragment, for ".." and for a configured Range |
| C131 | requests and answers of `Get`, `Stat`, `Put`; a server given only by what its answers may say | the request addresses the name (C130) and asks from the offset (unique reading of a Range), the total is read back; induction over histories of calls; counterexamples for empty objects and unannounced lengths |
| C132 | uploaders that each make one call of the client at a time, on one store | invariant: chunks below the position of an uploader are right, right chunks stay; a measure for the number of calls; counterexamples for torn writes and short readers |
| C133 | copy-up and the attribute calls on entries with mode, time and owner, over a Unix filesystem as top | induction on the depth of the name: the tree after the first k directories in closed form; counterexamples for owners, special bits, times of directories and links, and directories that may not be written |
| C134 | the sink of C11 on the HTTP client of C131: runs of State and Append made of requests and answers | refinement: every run is one of C11 for some outcomes; composition with C09, C11, C131; a note that equal names of chunks lose progress |
| C135 | the chunk readers of C05, the concatenation of C02 and the client of C131 in one state machine; oracle for answers, pieces of bodies and closes | invariant: an open body is the rest of its chunk from the reader's offset; the position only moves over bytes delivered; a note on bodies that seem to end early |
| C136 | `Push` on the sink of C134, `Pull` of C26 on the source of C135, through an adapter that hands the calls on | refinement: every push is an attempt of C134 or changes nothing, the stream of C135 is a steady source of C26; counterexample for empty files |
| C137 | `Overlay/Staging.lean`: any number of `copyRegular` calls sharing a counter, one step per backend call (open, number, create exclusively, clone, read, write, close, rename, remove), each of which may fail; invariant over all schedules, and a measure for completion. |
| C138 | `Fsutil/PowerLoss.lean`: a volume with a cache (names of every moment, bytes synced or not); what may be found after a loss of power is a relation; proved for every volume a safe write with `SyncHook` goes through; counterexamples for `CopyFs` and for writes that returned. |
| C139 | resumable.go `Pull` on a disk that may lose power: part file and sidecar are found in any state, the rename may be undone, the destination's bytes are kept only if a hook flushed them | the results of C83 hold from every disk, so the invariant "destination absent or the content" passes through pulls, kills and losses; completion in two pulls (the first one resumes or is rejected and cleans up); concrete runs for the failures (PullPower.lean) |
| C140 | `Afero/Observable.lean`: the generated methods as three steps (record, call, record) of any number of goroutines over any filesystem and a memory of buffers | invariant over all schedules relating history, trace of events and the state below; replay of the trace; concrete runs for what the history does not say |
| C141 | resumable.go `Push` to the `FsSink` of resumable_fs.go on a disk that may lose power: losses of the end of files only, and arbitrary ones | the invariant of C27 (partial is a beginning, committed is the file) passes through losses of ends; for arbitrary losses the relation between the disk found and every later disk (C27) gives what is committed; concrete runs for the failures (PushPower.lean) |
| C142 | testhelper/context.go and context_fsys.go: tests as trees whose calls depend on the answers, over any filesystem; the text of entries and reports | induction on the test, with the filesystem watched; strconv.Quote is a prefix code, so entries are injective and have one line (Testhelper/Context.lean) |
| C143 | `addWalk`, `addFS`, `addFile` with an arbitrary callback | two callbacks that agree on the paths and kinds of the entries of the source (listed by a separate function) lead to the same state and answer; a refusal for any entry is a failure. By mutual induction over the source |
| C144 | the VFS of C102 over a filesystem with a cache: `Sync`, `Delete` with its dropped `syncDir`, names of every moment before, files with unsynced changes | invariants over the calls of a history and over the phases of transactions with any writes, whole or failing part way, alone and in sequence; two counterexamples. The order of calls in a transaction is that of sqlite (journal voided under exclusive locking, deleted otherwise) and is an assumption |


Why some are only partial: either the code violates the property (then a `_counterexample` theorem proves it on a concrete
witness and the `_partial` theorem proves the property outside that case), or the environment would have to be assumed
honest (then the hypothesis is in the theorem). The `note` of each claim in `MANIFEST.json` says which.

## Findings (code disagrees with the property)

Each is a `_counterexample` or `_note` theorem of the claim:

* C04 (`C04_*counterexample*`): a last segment that is shorter than declared ends in a plain `io.EOF`; surplus bytes of a segment are counted.
* C09: `chunkCount` overflows for sizes near the int64 limit.
* C11: `ChunkedSink.Append` with a source that ends early returns nil.
* C12: `Client.Get` never compares the start of the range answered with the one asked for.
* C18: the default temporary name can be the target's own name when the target's name is longer than 240 bytes.
* C19: `MkdirRandom` leaves its directory behind when opening it fails.
* C22: with "." or "/" as the directory, the temp-dir policy does not recognise its own files.
* C24: on invalid input `TruncateUTF8` can return more than its documentation promises.
* C19 also: errors of the cleanup are dropped.
* C25: an existing target is accepted by its size alone (documented); a source without ETag that changes between attempts is committed as a mixture; a stale sidecar is trusted.
* C27: pushing an empty file to a fresh `FsSink` always fails; pushing an empty file over a stale partial commits the partial; `FsSink.Append` rewrites the
  sidecar on resume, so that a kill followed by a changed file commits a mixture.
  A file shortened between `Stat` and the last read is committed short (`C27_counterexample_shrinks`): nobody counts what was sent. Without ETags a partial of another file with as many bytes is committed
  as it is (`C27_counterexample_same_length`). As documented, a complete target is not compared (`C27_note_complete`).
* C28: a link that leaves the root gives the loop error instead of the escape error if it is the 40th (`C28_counterexample_limit`). Exactly 40 links that end at a file are refused with ELOOP, although the
  documentation of `ResolveSymlink` speaks of "more times than maxResolution" (`C28_note_forty`); Linux follows 40.
* C29: `ResolvePath` is wrong for several ".." in a row after a link, for targets stepping up from a link, and for names stepping up from a link.
* C31: `PathFromTail("/")` yields "/" twice.
* C32: modes of files that already exist are not updated.
* C35: octal fields wider than 21 digits wrap around (not reachable with real header widths).
* C36: directories that have no header make `ReadDir` of their parent panic; a file "a" followed by "a/b" is replaced with a stale listing; names beginning with ".." are
  dropped; absolute names are unreachable and make the root listing panic; a file named "a/." is listed as "."; a member called "." that is not a directory
  makes `Stat(".")` say that the root is no directory, though it can be listed.
* C37: a symlink to ".." panics on open; a hard link to a hard link panics; a hard link through itself recurses for ever; a symlink target "." drops the components after it.
* C41: `Remove(".")` and `Rename(".")` of the prefix view reach the base directory itself.
* C42: in `WalkDir`, when the Lstat of a listed child fails and the callback answers nil, the remaining siblings are skipped; answering SkipDir also hides the
  grandparent's remaining entries.
* C42: a filesystem with a `ReadDir` of its own (sftpfs) is listed and walked in the order it gives, which is not lexical (`C42_counterexample_native`).
* C45 (note): `WriteAt` far beyond the end panics.
* C47: two append handles on one memory file overwrite each other.
* C48: renaming a directory into its own subtree is accepted; the directory is lost, contains itself, and `RemoveAll` does not end.
* C50: removing an entry already delivered makes paging skip another; a huge batch size panics. Seek to any position from the start goes to the
  first entry and answers 0, and so does asking for the position (`C50_note_seek_position`).
* C51: `MergeKeep` with an incoming directory replaces an existing file; a dangling symlink in the place of a parent is replaced under every policy.
* C52 (note): a ranged view is not checked against the size of the backing file.
* C52: a range whose end overflows int64 is accepted; the view then reports another length than its handles.
* C77 (note): OpenFile with O_CREATE on a dangling symbolic link fails with "does not exist"; POSIX creates the target.
* C77: `OpenFile` with O_CREATE puts the new file into the tree before it opens the view; when the view refuses, the call fails and the file stays (`C77_counterexample_failed_open`).
* C127 (note): with `DisableOpenFileRemoval`, `RemoveAll`, `Rename` over the entry and `AddFile` still take away what is open (`C127_note_others`). Handles are counted per name: a file open under one hard link
  can be removed under the other, which closes the view of both (`C127_note_hard_link`).
* C78: removing one of two hard links closes the view the other still uses, and removing the second closes it again; renaming a file onto itself closes its view; AddFile over a directory
  (the default MergeOverwrite does so) and MergeKeep with a directory over a file never close the views of the files that are lost.
* C79: a symlink to a path that goes through another symlink into another layer cannot be followed: with `m` → "d" and `l` → "m/x" in the top and `d/x` in a lower layer, `Stat("m/x")` works and
  `Stat("l")` does not (`resolveSymlink` asks for the target as a whole, and a layer follows symlinks within itself). `C79_counterexample_links_across_layers`.
* C84: `MkdirAll` of a symlink to an existing directory answers ENOTDIR (`C84_counterexample_mkdirAll_link`); os.MkdirAll succeeds. Creating through a dangling symlink asks the top layer alone: where only a
  lower layer has the directory of the target, it answers "does not exist" (`C84_counterexample_create_through_link`).
* C80: `OpenFile` with `O_CREATE` through a sub-root creates files outside it: `m` → "../e", `l` → "m/x", `e/x` missing; opening `l` fails to resolve with "does not exist", goes on with the symlink itself
  and leaves following it to the top layer. resolve.go 28-32 says such a link is refused. `C80_counterexample_open_through_links`. A sub-root whose directory was replaced by a symlink works on what that
  leads to (`C80_counterexample_base_replaced`); one whose directory was removed makes it again on `Mkdir(".")` (`C80_note_mkdir_dot`).
* C53: a lower layer's own symlink in the middle of a path is followed by lookups and not by listings.
* C56, C57: an interrupted rename leaves an opaque mark; a later copy-up clears it and hidden lower children show again. Copy-up creates the
  parents with the permission bits of the layer the file came from, not with those shown.
* C59: a crash after the top's rename shows a lower file under both names; a crash after the target's marks are cleared brings a removed lower file back.
* C62 (note): handle counts stay with the old name after a rename.
* C63: the root of a plain layer is addressed as "", which is no clean path.
* C64: a failed unlock leaves the lock held with a lowered level; a conversion that drops the lock leaves the level SHARED.
* C65 (note): a server listing names with separators steers `removeAll` out of the directory.
* C66: names that are not valid UTF-8 reach the io/fs filesystem.
* C69: `CopyAll` of a directory onto an existing file swallows the `ErrExist` of Mkdir, then changes the mode of the file and reports success.
* C69, C70: `CopyAll` and `CopyPath` open files with O_TRUNC, and chmod directories, through symlinks of the destination. A symlink in the place of a file of the source stays, and the file it leads to gets the content
  (`C69_counterexample_through_link`, `C70_counterexample_through_link`); one in the place of a directory stays, and the directory it leads to gets the mode and the entries (`C69_counterexample_through_linked_dir`).
* C118: `CopyAll` and `CopyPath` set the mode of a directory before they make its entries. A source with a directory like 0555 with something in it cannot be copied by anyone but the superuser
  (`C118_counterexample_readonly_dir`); what was copied before stays.
* C19: when a hook or the writer function panics, the deferred cleanup sees `err == nil` and does nothing: the temporary is neither closed nor removed (`C19_counterexample_panic`). The target is
  untouched (`C18_panic`).
* C121: hard links of a lower layer come apart: writing through one name copies it up, and the other name keeps the old content (`C121_counterexample_lower_links`). A handle opened
  for reading on a file of a lower layer keeps showing the lower file after the file is written through the overlay (`C121_counterexample_reader`; kernel overlayfs has the same two
  deviations). `Chmod` through a handle opened for reading works on files of the top layer and is refused on others (`C121_counterexample_chmod_reader`).
* C123: two Pulls of one name at the same time can spoil the destination. The second asks for the size of the part file, the first commits, the second opens the part file, which is made
  anew, writes behind the size it knows and commits: both have returned nil and the destination begins with zeros (`C123_counterexample_zeros`, no call fails). Or the second, starting
  at 0, cuts the part file that the first is about to rename: the first returns nil and the destination is empty (`C123_counterexample_empty`). The documentation of `FsSink` says that it
  must not be used concurrently; that of `Pull` says nothing. A lock file, or opening the part before asking for its size through the handle and with `O_EXCL`, would help.
* C124: synthfs: listings give files made through the filesystem the size 0; writing a file or adding an entry to a directory does not change ModTime, although the documentation of `Option.Clock` speaks of
  "newly created or modified nodes"; `Chmod` of one hard link is not seen under another; type bits in the permissions given to `OpenFile` are kept, so that a file can say it is a directory. Owners set by
  `Chown` are never visible.
* C125: aferofs: `Chmod(file, ModeDir|0o755)` makes a file say it is a directory (file.go 143 keeps the type bits of the caller). `AddFile` of a source that is not there yet, then `Chmod` or `Chtimes`, then the
  first open: what was set is replaced by what the source says (file.go 88-89). Writing never changes the time shown: the time of the memory file is hidden by the one taken at creation. After `Rename` the
  entry still says its old name (see C89).
* C119: `safeOperation` renames its temporary by name, not by handle. If somebody sweeps temporaries with `WalkFunc` while safe writes are under way, and the random name of a swept temporary comes up
  again, a destination gets the unfinished content of another write, and nil is returned (`C119_counterexample_sweep_and_reuse`). Without the coincidence a sweep only makes the writes under way fail
  (`C119_counterexample_sweep_fails_call`). A destination named like a temporary of another write does the same (`C119_counterexample_named_like_temporary`).
* C120: with `NewTempFilePolicyDir(".")` a sweep returns nil and leaves every temporary (`C120_counterexample_root`); the random policy's sweep removes any file named like one of its temporaries, whoever
  made it (`C120_note_foreign_file`).
* C70: `CopyPath` with a root of two or more components never succeeds: for the directories above the root it asks the source for "..", which io/fs refuses.
  The first directory of the root stays behind. The repository's tests use the root ".".
* C71: a tar symlink's target is cleaned as text before it is followed, so "a/../g" never looks at a; `Lstat` of a directory without a header panics. See C37 for the others.
* C85: `Readdir` of an overlay directory fails when one entry of the page has vanished since the listing was taken, and the other entries of that page are never delivered (`os.File` leaves the vanished
  entry out); a page size that overflows when added to the position panics; `Seek` is accepted after `Close`; a directory that was renamed is listed under its old name.
* C86: `Chmod` of an afero file with the directory bit set is accepted, and the file then reports itself as a directory (`C86_note_chmodDir`).
* C87: aferofs: `Mkdir` validates only the parent of its name: `Mkdir("..")`, `Mkdir("a/..")` and names of 256 bytes succeed and leave entries that no name reaches (and that keep the parent from being
  removed); `Mkdir("a/")` makes a/a. `MkdirAll` makes directories in directories that may not be written. `MkdirAll(name, 0600)` makes the directory and returns EACCES, every time.
* C88: aferofs: `RemoveAll` of a non-empty directory returns nil but leaves it: after its entries have been removed it is not tried again (fs.go 452-458).
* C89: aferofs: `Rename` adds the entry under its old last element (`dirent.name` is never changed): `Rename("a", "b")` returns nil and does nothing; `Rename("a/x", "b/y")` replaces the unrelated b/x;
  `Rename("x/x", "y")` replaces the directory x with all that is in it.
* C90: aferofs: the umask is not applied to created files; `AddFile(".", v)` puts an entry "." into the root; `OpenFile(".", O_RDWR|O_EXCL|O_TRUNC)` succeeds.
* C91: aferofs: `AddDirent` always returns nil, so a view replaced by `Rename` is never closed (fs.go 549-551 never run); `Reallocate` closes the old view twice; a view whose content could not be copied, or
* C92: aferofs in-memory files: `O_RDONLY|O_TRUNC` cuts the file (fs.go 338-348 does not look at the access mode); a write or truncation far beyond the end panics instead of failing; a read of zero bytes at the end reports io.EOF; access bits 3 count as read-only here but as read-write in vroot's flag helper.
* C93: aferofs: two handles opened for appending overwrite each other: `Write` takes the length and writes in two critical sections (impl_inmem_file.go 122-125).
* C94: aferofs: `Seek` on a directory rewinds also when it is refused (dir_handle.go 87-89) or goes to the end; a page shares the array of the snapshot, so appending to it changes the next entry; one view whose Stat fails hides the whole directory, also from `Readdirnames`.
* C95: aferofs closable: two concurrent `Close` calls both pass the check (file.go 25-35) and close the file below twice; a call let through can reach the file after `Close` returned.
* C96: aferofs: `Stat` of a ranged view reports `n - off`, which may be negative, its handle reports `n` (impl_fslink.go 141); `sectionFile.Close` does not close the file opened below, nor does `Open` when its Stat fails; `NewRangedFileView` refuses empty files (it probes one byte); `tmpDirFileView.Close` sets the path to "" and then removes "" (impl_tmpdir.go 51-52): the file stays, Close fails, the next use makes a new empty file.
* C97: aferofs: `toFsPath("/")` is "" (not "."), so the root given the afero way is refused; "../a" is handed through although "/../a" becomes "a".
* C98: aferofs: `Copy` loses empty directories and everything that is not a regular file without saying so, copies nothing when srcRoot is a file, and leaves what it added when it fails half way.
* C99: aferofs: `FsFile.Readdir` asks for the method `Readdir`, which files of io/fs do not have (they have `ReadDir`): embed.FS, fstest.MapFS, zip and so on cannot be listed through `NewIoFsAdapter`; its `readonly` argument is ignored; `IoFs.ReadDir` drops the entries read before an error; `IoFs.Stat` is the promoted one and hands invalid names on.
* C101: tarfs: a contiguous file (typeflag 7) is taken to have no stored bytes although archive/tar gives it `Size` of them, so the next member's `HeaderStart` lies in them and its sparse map may be read from them (witness: the next member reads as zeros only). `Sections` drops the error of `reconstructSparse`: a read error there makes a sparse member read as the wrong bytes without an error.
  which could not be opened after its allocation, is never closed.
* C104: credentials reach error texts in four ways. `httprange.New("http://user:hunter2/x@example.com/")` (a slash in the password) fails with
  `parse "[redacted url]": invalid port ":hunter2" after host`, since the cause of the parse error is passed on. `http:user:hunter2@example.com/`
  and `user:hunter2@example.com/` (slashes or scheme forgotten) are opaque URLs, which `redactURL` prints whole. `redactURLError` redacts only the
  first `url.Error` of a tree, not one in its cause. The copy in fileserver prints a URL that does not parse as it is, against its stated
  guarantee (`C104_counterexample_*`). Also, errors joined beside the `url.Error` or wrapped around it are lost (`C104_note_siblings`).
* C105: aferofs synthetic filesystems lock single directories, not calls. Two `OpenFile(name, O_CREATE|O_EXCL)` can both succeed, with different
  files; `MkdirAll("a/b")` beside `MkdirAll("a/c")` can lose one of them, both reporting success; two `Rename`s of directories into each other detach
  both from the tree; during `Rename` the file is at neither place; `RemoveAll` dereferences nil when the directory is removed by another goroutine
  between its failed removal and the second lookup (`C105_counterexample_*`).
* C106: synthfs `OpenFile` with `O_TRUNC` on a view that opens but cannot be truncated closes the handle under the lock of the tree, and `Close` takes that lock (open.go 61-68, handle.go 45-58): the
  call never returns, nor does any later call on the tree (`C106_counterexample_truncate`, `C106_counterexample_truncate_all`). Views and `AddFS` callbacks run under that lock too, so one that asks the
  tree itself waits for itself (`C106_counterexample_reenter`); for `Stat` only when a writer comes in between (`C106_counterexample_reread`). The documentation does not say so.
  In aferofs `Remove` locks what it removes and everything below (dir.go 47-53). Two moves made at once can put directories into each other (C105), and a `Remove` that found one of them empty before then
  locks it, the other, and waits for the first (`C106_counterexample_afero`).
* C107: synthfs `ReadDir` and `Readdir` read the metadata of the entries after the lock of the tree is released (handle_dir.go 121-172): a data race with `Chmod`, and a listing can show a later change
  without an earlier one (`C107_counterexample_readdir`).
* C108: sftpfs looks for "file exists" in a text that holds the path: creating a file of that name on a full disk reports `fs.ErrExist` (`C108_counterexample_name`). `Link` and `Rename` do not report
  `fs.ErrExist` at all (`C108_counterexample_link`), since only `OpenFile`, `Mkdir` and `Symlink` look.
* C109: sftpfs carries out `O_APPEND` by one seek at opening. Over the stock server, two handles lose each other's writes (`C109_counterexample_two`) and a seek makes writes overwrite
  (`C109_counterexample_seek`). Over every server a file opened for reading and appending reads from its end (`C109_counterexample_read`), and `WriteAt` is not refused (`C109_counterexample_writeAt`).
* C110: `WrapPathErr` and `WrapLinkErr` write through the pointer given. An error kept elsewhere changes with it, here "open a: …" into "stat b: …" (`C110_counterexample_shared`); errors that are
  cached and wrapped again, or wrapped by two goroutines, are affected.
* C73: a rename cut short after the move leaves an opaque mark on a name the top no longer has (the cause of the C56 and C57 findings).
* C67: `Create`, `OpenFile` with O_CREATE and `MkdirAll` on sftp change the permission bits of what already exists.
* C111: `ParseSetupProcLine` looks for " -> " in the whole line first. `a: "x -> y"` is a link named `a: "x` (`C111_counterexample_arrow`), `a: x/` a directory named `a: x`
  (`C111_counterexample_slash`).
* C112: `Setup` finishes directories, with their times and modes, before it makes what lies in them. The time is lost (`C112_counterexample_mtime`), and a directory without the write bit makes the rest fail
  for anyone but the superuser (`C112_counterexample_mode`).
* C113: `osfs.Fs.Remove(".")` passes the directory itself to `os.Remove`, for every spelling of "." (`C113_counterexample_remove`), although `RemoveAll` refuses it.
* C117: `bytesHandle.Read` (and `rangedHandle.Read`) move an offset without a lock, and `fileHandle` holds none over the call. Two goroutines that read from one handle can both be given the same bytes,
  and the bytes after them are given to nobody (`C117_counterexample_shared`). The acceptance tests ask that `Read` from several goroutines runs clean under the race detector; the handles of in-memory files hold a lock.
* C128: a metadata store opened at a name with a zero byte uses the database named by what precedes the byte (SQLite ends the path at %00; `C128_counterexample_zero`), and one opened at ".", "" or any
  other name of the root succeeds on a database in memory that is gone after Close, since `FullPathname` answers the empty name, which `Open` takes for a temporary (`C128_counterexample_root`).
* C129: `httprange.Config.Header` says that Range, If-Range and Accept-Encoding are overwritten. A header configured under another spelling, such as "range" in a map literal, is not: it is sent besides the own one, and the server finds two Ranges (`C129_counterexample_spelling`).
* C130: `HTTPClient` appends the object name to the text of the base URL. If the base has a query (a signature, say) the name ends up in the query and every object is the same path (`C130_counterexample_query`). If it has a fragment, all names give the same request, so that a `Put` of one object replaces every other (`C130_counterexample_fragment`). The name ".." is not escaped and leads above the base on servers that resolve paths (`C130_counterexample_dots`). A configured Range is sent with a `Get` at offset 0, and the part that is answered is taken for the object (`C130_counterexample_range`).
* C131: `Put` with the size 0 sets `ContentLength` to 0, which net/http takes for unknown when there is a body: the request has no Content-Length, although `Put` and `ChunkedSink` promise one, and servers that require it refuse empty objects (`C131_counterexample_empty`). `Get` of a whole object gives the total size -1 when the server does not announce it, for instance because net/http decompresses (`C131_counterexample_total`).
* C132: because `Append` accepts a reader that ends early in the last chunk (C11), a client with a truncated local copy can tear an object that another client has stored completely, and is told that it succeeded (`C132_counterexample_short`).
* C134 (note): if equal chunks have the same name, a local reader that ends early in the last chunk damages a chunk stored before, and `Append` returns nil (`C134_note_shared`; compare C11).
* C133: copying up takes away the owner and the setuid, setgid and sticky bits (copyup.go 102, 135, 217: `Mode().Perm()`, no `Chown`), of the entry and of the directories above it: after `Chtimes` of a file in a
  sticky directory of another user everybody may delete in it (`C133_counterexample_file`). The times of the directories above are set before the entry is put into them, which changes them again (same).
  Symlinks get a new time (`C133_counterexample_link`, documented at copyup.go 112-114). A directory is copied with its mode before anything is put into it, so below a directory without write permission nothing can be
  changed except by the superuser, although changing a file needs no permission on its directory (`C133_counterexample_readonly`).
* C135 (note): a body of the last chunk that seems to end early (one of unknown length that ends with its connection) ends the stream of `ChunkedSource` with io.EOF and without the missing bytes, although the size is known; in any other chunk the next read asks for the missing bytes, and with no byte at all the error is io.ErrUnexpectedEOF (`C135_note_early` for the first two).
* C136: `Push` of an empty file to a chunked sink never stores anything: State says offset 0 and incomplete, 0 is the size of the file, so `Push` calls `Commit`, which does nothing, and returns nil. The chunk 0 that `ChunkedSink` documents for empty objects is never there, and every later State says incomplete (`C136_counterexample_empty`, `C136_counterexample_empty_nil`; compare C27 for `FsSink`).
* C138: `SyncHook` syncs the handle it is given. With `CopyFs` that is the new directory, so that the files copied into it are not synced before the rename, and a loss of power can
  leave the target with empty files (`C138_counterexample_copyfs`). The directory of the target is never synced, so that a write which returned nil can be undone by a loss of power
  (`C138_counterexample_returned`). `FsSink.Commit` and the copy-up of overlayfs publish by rename without any `Sync` (`C138_counterexample_unsynced` is that shape).
* C139: `Pull` never flushes and its filesystem interface offers no way to. After a loss of power it resumes behind bytes that never reached the disk and returns nil over a file the source never had (the ETag in the sidecar only says whose bytes were meant), or takes a destination of the right length for complete. A pre-commit hook that flushes and verifies closes this. Also without any loss: a part file longer than the content makes every pull fail with `io.ErrUnexpectedEOF` when the caller states no size; nothing removes it.
* C140: an entry of `ObservableFs`'s history does not say which file or goroutine it belongs to, and keeps the caller's buffer (`slices.Clone` copies the slice of arguments, not the bytes), so a recorded `Write` or `Read` shows whatever the buffer holds later.
* C141: `FsSink` never flushes and its filesystem interface offers no way to. Where a file's length reaches the disk before its bytes, a push after a loss resumes behind bytes that were never stored and returns nil; where the rename does, an empty committed file is reported as complete and every later push returns nil and sends nothing. The size of a committed file is never compared with that of the pushed one.
* C144: `Sync` of a new journal does not sync its directory and `Delete` drops `syncDir` (sqlite's own VFS does both). After a loss of power in the transaction that makes the journal, the synced journal
  can be missing while the database is half written. Later transactions are safe, because under locking_mode=exclusive sqlite voids the journal instead of deleting it; where it does delete it, a loss can bring it
  back, so that a committed transaction is undone. The comment in sqlvfs.go 109 that osfs orders the unlink itself is not borne out by osfs, which only calls unlink.

Seen while reading, not proved: `Fd()` escapes the read-only wrapper; aferofs: `ObservableFs` has no constructor, no exported field and nothing reads `history`, so that it cannot
be used from outside, and its entries keep the caller's buffers (`slices.Clone` of the argument list is shallow).

## Statements that were reworded

`properties.jsonl` was written before the proofs. These entries were changed afterwards.

Narrowed when the code turned out to violate them, and for a time listed as proved in that narrower form. The first wording is restored, and
the claims are partial:

* C18 had gained "the temporary must not be nested with the target; names of up to 240 bytes".
* C25 had gained "from a source that identifies its versions by ETags". The API allows an empty ETag.
* C35 had its quantifier cut to octal fields of up to 21 bytes.
* C65 had gained "as long as the server lists plain names".
* C19 had "the error returned includes every failure" replaced by what the code does.

Found in the same review to assume more than their statement says, and now partial: C14 (truthful server), C28 (loop error instead of escape error),
C52 (end of the range fits int64, and every other range with its length cut), C66 (valid UTF-8).

Changed because the first wording misread the code, and left in the new wording:

* C06 spoke of `Seek`, which the byte repeater does not have.
* C16 first said that a range whose end overflows is rejected, that the view reads exactly the corresponding bytes and that nested views compose. The comment
  in `NewRange` says it follows `io.NewSectionReader`, which clamps; there are no nested views. What the bytes are is C14.
* C30 first said that masking never adds bits. The documentation of the Windows mask says it sets uniform permission bits.
* C18 was extended: on success no temporary is left and nothing else changed (a wrong program that kept the temporary's name had passed).
* C44 first said that exactly the names invalid for io/fs are rejected. The comment in `validFsPath` says a NUL is rejected too. "Hides every write method"
  became "gives no way to write".

## Wrong programs

`seeded/LOG.jsonl` records the edits of the model that were tried in a scratch copy, the claim each breaks and the theorems that
failed. An edit that breaks the proof of a lemma does not show that the property theorem above it excludes the edit: the lemma may say more
than the property. Where only lemmas failed the entry says so; some of these were examined by hand and the entry says which. Three of those
examined were gaps in the property theorem, closed since.
