{"id": "C01", "title": "Multi ReadAt equals the concatenation", "statement": "Given segments whose readers hold exactly their declared sizes, ReadAt(p, off) on the virtual concatenation returns the bytes content[off:off+len(p)] clipped to the end, with a nil error when all of p was filled and io.EOF when the end cut the read short; no byte is ever taken from the wrong segment.", "quantifier": "every list of segments (including zero-size ones and more than 32), every buffer length, every offset including negative ones and those at or past the end, every pattern of short reads by the underlying readers", "why_tests_cant": "segment boundaries x offsets x lengths x short-read patterns are unbounded; tests pick a few splits", "anchors": ["stream/multi_read_at_closer.go: NewMultiReadAtSeekCloser, ReadAt, readAt, search"]}
{"id": "C02", "title": "Multi Read/Seek is a cursor over the concatenation", "statement": "Any history of Read and Seek calls on the virtual concatenation observes the same bytes, counts, positions and EOFs as a single cursor over the concatenated content; a rejected Seek leaves the cursor where it was.", "quantifier": "every finite history of Read and Seek with every whence/offset, over every segment list and every short-read pattern", "why_tests_cant": "histories and short-read schedules are unbounded", "anchors": ["stream/multi_read_at_closer.go: Read, Seek"]}
{"id": "C03", "title": "Segment search is exact, linear or binary", "statement": "The segment chosen for an offset is the one whose half-open byte range contains it, whichever search strategy (linear for few segments, binary for many) is used; both strategies agree, and an offset is 'not found' exactly when it lies outside the concatenation.", "quantifier": "every segment list with arbitrary sizes (zero included) and every offset", "why_tests_cant": "the binary search is only reached with more than 32 segments, so boundary cases multiply beyond enumeration", "anchors": ["stream/multi_read_at_closer.go: search, binarySearch"]}
{"id": "C04", "title": "A segment that disagrees with its declared size is reported", "statement": "When a reader holds fewer bytes than declared, a read crossing the missing bytes returns the correct prefix and a non-EOF error (io.ErrUnexpectedEOF); when it holds more, the surplus is never returned and ErrInvalidSize is reported; bytes never shift into the wrong position.", "quantifier": "every segment list, every position and amount of shortfall or surplus, every read window", "why_tests_cant": "the combinations of dishonest segment, offset and buffer length are unbounded", "anchors": ["stream/multi_read_at_closer.go: Read, readAt, ReadAt"]}
{"id": "C05", "title": "Sequential ReaderAt adapter returns the right bytes", "statement": "A ReaderAt built over an opener that can only start a stream at an offset returns content[off:off+len(p)] for any order of ReadAt calls, and re-opens the underlying stream only when a call does not continue where the previous one stopped.", "quantifier": "every history of ReadAt calls with arbitrary offsets and lengths", "why_tests_cant": "cached stream position makes results depend on the whole call history", "anchors": ["stream/seq_reader_at.go"]}
{"id": "C06", "title": "Byte repeater is a constant infinite stream", "statement": "Read and ReadAt on a byte repeater always fill the whole buffer with the repeated byte and never fail for a non-negative offset.", "quantifier": "every buffer length, offset and history", "why_tests_cant": "unbounded buffers and offsets", "anchors": ["stream/repeat.go"]}
{"id": "C07", "title": "Cancellable reader stops at the first failure and stays stopped", "statement": "After the cancellable reader returned an error (its own or the cancellation cause) no later Read touches the underlying reader and each returns the same error; before that, the bytes delivered are exactly the prefix the underlying reader produced.", "quantifier": "every history of reads and every point at which the context gets cancelled, including during a read", "why_tests_cant": "the cancellation point races with every read", "anchors": ["stream/cancellable.go"]}
{"id": "C08", "title": "Sequential multi read closer concatenates and closes all", "statement": "Reading to the end yields the concatenation of the parts in order; Close closes every part exactly once even when some Close calls fail, and reports nil exactly when all closes succeeded.", "quantifier": "every list of parts, every short-read pattern, every set of failing closers", "why_tests_cant": "unbounded part lists and failure subsets", "anchors": ["stream/multi_read_closer.go", "stream/internal/serr/gathered.go", "stream/internal/serr/prefix.go"]}
{"id": "C09", "title": "Chunk arithmetic partitions the object", "statement": "For every total size and positive chunk size, the chunk count and the expected size of each chunk partition the object: sizes are positive, at most the chunk size, only the last may be short, and they add up to the total.", "quantifier": "every total and every positive chunk size", "why_tests_cant": "arithmetic over unbounded integers with boundary at every multiple", "anchors": ["stream/fileserver/chunk.go: chunkCount, expectedChunkSize"]}
{"id": "C10", "title": "Chunked source streams the object from any offset", "statement": "Opening a chunked source at an offset yields exactly the object's bytes from that offset to the end, for an object stored as its chunks; an offset past the end yields an empty stream or an error, never misplaced bytes.", "quantifier": "every object, chunk size and offset", "why_tests_cant": "offset/chunk boundary combinations are unbounded", "anchors": ["stream/fileserver/chunk.go: ChunkedSource.Open"]}
{"id": "C11", "title": "Chunked upload converges under interruption", "statement": "After any history of interrupted uploads of one object, the reported resume offset never exceeds what is stored correctly, resuming from it and finishing makes the stored chunks concatenate to exactly the object, and a complete state is reported only when they do. An append reports success only for a chunk boundary, with every chunk from there on holding its byte range of what the local reader delivered and nothing below it touched.", "quantifier": "every object, chunk size and every sequence of interruption points between chunk uploads", "why_tests_cant": "crash points and their sequences are unbounded", "anchors": ["stream/fileserver/chunk.go: ChunkedSink.State, Append, Commit"]}
{"id": "C12", "title": "A ranged GET never delivers bytes from the wrong offset", "statement": "A body is handed to the caller for an offset request only when the server confirmed it starts at that offset (partial content) or the caller asked from zero; other statuses become errors or empty streams as documented.", "quantifier": "every status code, every Content-Range header and every requested offset", "why_tests_cant": "server behaviour is adversarial and unbounded", "anchors": ["stream/fileserver/client.go: Get, parseTotalFromContentRange"]}
{"id": "C13", "title": "Content-Range parsing is exact", "statement": "The header parser accepts exactly the strings 'bytes S-E/T' (or '*' total, or unsatisfied form where applicable) with non-negative decimal fields that fit 64 bits and S<=E<T, and returns those numbers; formatting then parsing is the identity.", "quantifier": "every header string and every number", "why_tests_cant": "string space is unbounded; overflow and sign corner cases", "anchors": ["stream/httprange/content_range.go"]}
{"id": "C14", "title": "HTTP ReadAt returns only bytes of the requested range", "statement": "ReadAt(p, off) over HTTP returns nil error only if it filled p with the object's bytes at [off, off+len(p)), io.EOF only when the object's end cut it short, and never accepts a response whose range, total or validators disagree with the pinned object.", "quantifier": "every buffer, every offset, every sequence of (possibly hostile) server responses", "why_tests_cant": "the server's answers are arbitrary; only a proof covers all of them", "anchors": ["stream/httprange/reader_at.go: ReadAt, checkPartial, mismatch"]}
{"id": "C15", "title": "Metadata pinning is write-once under every schedule", "statement": "Once some read has pinned the object's size or validators, no later read changes them, and all concurrent successful reads were checked against the same pinned values.", "quantifier": "every interleaving of any number of concurrent reads and every set of server responses", "why_tests_cant": "lock-free compare-and-swap schedules cannot be enumerated by tests", "anchors": ["stream/httprange/reader_at.go", "stream/httprange/httprange.go"]}
{"id": "C16", "title": "Range views are overflow-safe sections", "statement": "A range view [off, off+n) over a ReaderAt translates offsets exactly, cuts reads at its end and answers nothing at or past it; a negative off is rejected, and a negative n or an end past the largest 64-bit offset means 'to the last offset': no sum ever wraps around.", "quantifier": "every 64-bit offset and length", "why_tests_cant": "64-bit corner cases", "anchors": ["stream/httprange/range.go"]}
{"id": "C17", "title": "The stream lane serves sequential reads from one stream safely", "statement": "Reads served by the shared sequential stream return the same bytes as independent range requests, at most one stream is open per reader, and a stream is never used by two reads at once or after it failed.", "quantifier": "every schedule of concurrent reads and closes", "why_tests_cant": "concurrency schedules", "anchors": ["stream/httprange/stream.go"]}
{"id": "C18", "title": "Safe write is atomic", "statement": "A safe write leaves the target path with either its previous content or the complete new content after any crash or any failure of any step; it returns nil exactly when the new content is in place, and then no temporary is left and nothing else changed.", "quantifier": "every crash point and every combination of failing steps, any prior state of the target", "why_tests_cant": "crash points and fault combinations", "anchors": ["fsutil/safe_write.go: safeOperation"]}
{"id": "C19", "title": "Safe write cleans up its temporary", "statement": "If a safe write fails, the temporary file or directory it created is removed (unless the removal itself fails) and nothing else in the filesystem changed; the error returned includes every failure.", "quantifier": "every combination of failing steps", "why_tests_cant": "fault combinations", "anchors": ["fsutil/safe_write.go: safeOperation"]}
{"id": "C20", "title": "Safe write runs hooks in order, before publication", "statement": "Pre hooks run before content is copied, post hooks run after the content is written and before the rename publishes it, each hook at most once and none after one failed.", "quantifier": "every hook list and every failure position", "why_tests_cant": "unbounded hook lists and failures", "anchors": ["fsutil/safe_write.go: safeOperation"]}
{"id": "C21", "title": "Random temp names fit a file name and are recognised", "statement": "Every temporary name generated for a target is at most 255 bytes, sits in the same directory as the target, is recognised by the policy's matcher, and keeps a valid UTF-8 base when the target is valid UTF-8.", "quantifier": "every target path and every random number", "why_tests_cant": "string lengths and contents are unbounded", "anchors": ["fsutil/safe_write.go: TempFilePolicyRandom", "fsutil/truncate_utf8.go"]}
{"id": "C22", "title": "Temp-directory policy recognises its own files", "statement": "Every temporary path a temp-directory policy generates is recognised by that policy's matcher, whatever directory it was configured with.", "quantifier": "every configured directory and target", "why_tests_cant": "string space", "anchors": ["fsutil/safe_write.go: TempFilePolicyDir"]}
{"id": "C23", "title": "Random open never reuses an existing file", "statement": "Opening a random file either creates a file that did not exist before, with a name matching the pattern, or fails; it retries on name collisions a bounded number of times and stops at once on any other error.", "quantifier": "every set of existing files and every sequence of random numbers and open outcomes", "why_tests_cant": "collision sequences unbounded", "anchors": ["fsutil/open_random.go"]}
{"id": "C24", "title": "UTF-8 truncation keeps the longest valid prefix", "statement": "Truncating a string to n bytes returns a prefix of at most n bytes; for valid UTF-8 input the result is valid UTF-8 and is the longest such prefix.", "quantifier": "every string and every n", "why_tests_cant": "all byte strings", "anchors": ["fsutil/truncate_utf8.go"]}
{"id": "C25", "title": "Resumable pull commits only the source's content", "statement": "A pull returns success only when the target holds the source's complete content as of one source version, and at every crash point or failure the target holds its old content or that complete content.", "quantifier": "every source, every prior partial/sidecar state, every crash point, every source change between calls", "why_tests_cant": "crash points x source changes", "anchors": ["fsutil/resumable.go: Pull"]}
{"id": "C26", "title": "Interrupted pulls resume without losing or duplicating bytes", "statement": "After any number of interruptions of pulls of an unchanged source, the partial file is always a prefix of the source and the final successful pull commits exactly the source.", "quantifier": "every history of interruption points", "why_tests_cant": "unbounded histories", "anchors": ["fsutil/resumable.go: Pull"]}
{"id": "C27", "title": "Resumable push converges to the source", "statement": "A push returns success only when the sink committed the source's complete content; after any history of interruptions it resumes from the sink's offset and converges.", "quantifier": "every source and interruption history", "why_tests_cant": "unbounded histories", "anchors": ["fsutil/resumable.go: Push", "fsutil/resumable_fs.go"]}
{"id": "C28", "title": "Path resolution terminates and never escapes", "statement": "Resolving a path with symlinks always terminates, follows at most 40 links, and a returned path is always local (no absolute path, no leading '..'); any link that would leave the root yields an escape error.", "quantifier": "every filesystem tree with arbitrary links, including cycles, and every path", "why_tests_cant": "cyclic link graphs", "anchors": ["fsutil/resolve_symlink.go: ResolvePath"]}
{"id": "C29", "title": "A resolved path names the same file as the original", "statement": "The path returned by resolution contains no symlinks and denotes the same file as the original path does in the filesystem.", "quantifier": "every filesystem tree and path", "why_tests_cant": "link graphs unbounded", "anchors": ["fsutil/resolve_symlink.go: ResolvePath, ResolveSymlink"]}
{"id": "C30", "title": "Chmod mask keeps only portable bits", "statement": "Masking is idempotent. On Unix and Plan 9 the result has exactly those bits of the mode that chmod supports there; on Windows every flag is kept and the permission bits become the uniform read-write or read-only pattern of the owner's write bit.", "quantifier": "every 32-bit mode", "why_tests_cant": "2^32 modes", "anchors": ["fsutil/chmod_mask.go"]}
{"id": "C31", "title": "Head and tail path iteration enumerate all prefixes", "statement": "Iterating a clean path from its head yields exactly its non-empty prefixes ending at component boundaries, shortest first, and from its tail the same set, longest first.", "quantifier": "every path and every early stop", "why_tests_cant": "unbounded depth", "anchors": ["fsutil/pathutil/head_tail.go", "vroot/internal/paths/head_tail.go"]}
{"id": "C32", "title": "Copying a filesystem reproduces it", "statement": "Copying a tree into an empty destination reproduces every directory, file content and mode (masked), or stops at the first error with a prefix of the walk copied.", "quantifier": "every finite tree and every failure position", "why_tests_cant": "unbounded trees", "anchors": ["fsutil/copy_fs.go"]}
{"id": "C33", "title": "Sparse maps partition the file", "statement": "The data fragments and hole fragments of a valid sparse map are disjoint, ordered, cover exactly [0,size), and inverting a map twice gives back the canonical map.", "quantifier": "every valid sparse map and size", "why_tests_cant": "unbounded fragment lists", "anchors": ["tarfs/copied_go_std.go: invertSparseEntries"]}
{"id": "C34", "title": "Sparse member reads reconstruct the file", "statement": "Reading a sparse member yields, at every offset, the stored byte inside a data fragment and zero inside a hole, and exactly the logical size in total.", "quantifier": "every sparse map, stored body, offset and buffer", "why_tests_cant": "unbounded maps and windows", "anchors": ["tarfs/reader.go: makeReader"]}
{"id": "C35", "title": "Tar numeric fields decode exactly", "statement": "A header numeric field decodes to the value it encodes in octal or base-256 (two's complement), and a value that does not fit 64 bits is rejected rather than wrapped.", "quantifier": "every byte string of any field width", "why_tests_cant": "all byte strings", "anchors": ["tarfs/copied_go_std.go: parseNumeric, parseOctal"]}
{"id": "C36", "title": "Tar tree lookup follows the archive", "statement": "After loading an archive, a name opens the last regular entry recorded for it, directories list exactly the names recorded beneath them, and names that leave the root are not reachable.", "quantifier": "every sequence of tar headers", "why_tests_cant": "header sequences unbounded", "anchors": ["tarfs/fs.go", "tarfs/entdir.go: addChild, openChild"]}
{"id": "C37", "title": "Tar symlink resolution is confined and total", "statement": "Opening any path in any archive terminates without panic and never resolves outside the archive root.", "quantifier": "every sequence of headers and every path", "why_tests_cant": "link graphs unbounded", "anchors": ["tarfs/entdir.go: openChildResolve", "tarfs/enthardlink.go", "tarfs/entsymlink.go"]}
{"id": "C38", "title": "Read-only wrapper never mutates", "statement": "No sequence of calls on a read-only filesystem, root or any file or sub-root obtained from it changes the wrapped filesystem; every mutating call fails.", "quantifier": "every history of calls, every open flag", "why_tests_cant": "all histories and flag words", "anchors": ["vroot/readonly.go"]}
{"id": "C39", "title": "Open flag classification", "statement": "For every flag word, the helper predicates agree with the access mode: a flag is refused as a write exactly when it asks for write access or create/truncate/append, and readable/writable match the access mode.", "quantifier": "every flag word", "why_tests_cant": "all integers", "anchors": ["vroot/internal/openflag/flag.go"]}
{"id": "C40", "title": "Path-prefix view stays under its prefix", "statement": "Every path a prefixed view passes to the underlying filesystem is the prefix or lies beneath it, different clean names map to different paths, and names that leave the view are refused.", "quantifier": "every prefix and every name", "why_tests_cant": "string space", "anchors": ["vroot/pathprefix.go: resolvePath"]}
{"id": "C41", "title": "A prefixed view cannot destroy its own base", "statement": "Removing or renaming '.' in a prefixed view is refused, like RemoveAll('.') is.", "quantifier": "every operation spelled with any name that cleans to '.'", "why_tests_cant": "spellings unbounded", "anchors": ["vroot/pathprefix.go: Remove, Rename, RemoveAll"]}
{"id": "C42", "title": "WalkDir visits every entry unless told to skip", "statement": "WalkDir calls the function exactly once per reachable entry in lexical order, unless the function returns SkipDir/SkipAll/an error; an entry reported with an error for which the function returns nil does not hide its siblings.", "quantifier": "every tree, every failure set, every callback", "why_tests_cant": "unbounded trees and callbacks", "anchors": ["vroot/walk.go: walkDir_"]}
{"id": "C43", "title": "WalkDir never loops on symlink cycles", "statement": "With symlink following on, a directory is never descended into while it is already an ancestor on the current path, so the walk terminates on every finite filesystem.", "quantifier": "every finite filesystem with arbitrary links", "why_tests_cant": "cyclic graphs", "anchors": ["vroot/walk.go: recordVisited, removeVisited"]}
{"id": "C44", "title": "io/fs adapter accepts exactly valid paths", "statement": "The io/fs view rejects exactly the names io/fs declares invalid (and names with a NUL, which no Unix file has), passing others unchanged, answers calls on open files as the files themselves do, and gives no way to write.", "quantifier": "every name string", "why_tests_cant": "string space", "anchors": ["vroot/iofs_to.go: validFsPath", "vroot/iofs_from.go"]}
{"id": "C45", "title": "Memory file behaves as a byte array", "statement": "Any history of reads, writes, truncates and extends on an in-memory file observes a plain byte array where gaps read as zeros; bytes cut off by a truncate never reappear.", "quantifier": "every history of ReadAt/WriteAt/Truncate with arbitrary offsets and lengths", "why_tests_cant": "capacity reuse makes stale bytes possible; histories unbounded", "anchors": ["vroot/synthfs/view_mem_buf.go: readAt, writeAt, truncate, grow"]}
{"id": "C46", "title": "File handle cursor semantics", "statement": "Read, Write and Seek on a memory-file handle move one cursor as on a POSIX file, append handles write at the end, access-mode violations and closed handles are refused without effect.", "quantifier": "every history of handle operations", "why_tests_cant": "histories unbounded", "anchors": ["vroot/synthfs/view_mem_buf.go: memHandle", "vroot/synthfs/handle.go"]}
{"id": "C47", "title": "Appends never overwrite each other", "statement": "Bytes written through append-mode handles are never overwritten by another append-mode write, under any schedule.", "quantifier": "every schedule of concurrent appends", "why_tests_cant": "schedules", "anchors": ["vroot/synthfs/view_mem_buf.go: memHandle.Write"]}
{"id": "C48", "title": "Synthetic tree stays a tree", "statement": "After any history of operations each directory lists each child once, listing and lookup agree, every node is reachable from the root by one path of directories, and no directory is its own ancestor.", "quantifier": "every history of Mkdir, create, Link, Symlink, Remove, RemoveAll, Rename, AddFile, AddFS", "why_tests_cant": "histories unbounded", "anchors": ["vroot/synthfs/node.go", "vroot/synthfs/rename.go", "vroot/synthfs/mkdir.go", "vroot/synthfs/remove.go"]}
{"id": "C49", "title": "Synthetic path resolution is confined and terminates", "statement": "Resolving any name against a root or sub-root ends after at most 40 links, and the node found lies under that root's directory; absolute or parent-escaping links are refused.", "quantifier": "every tree, every sub-root and every name", "why_tests_cant": "link graphs unbounded", "anchors": ["vroot/synthfs/tree.go: resolve, resolveParent", "vroot/synthfs/root.go: OpenRoot"]}
{"id": "C50", "title": "Directory handle pagination", "statement": "Repeated ReadDir(n) on one open directory returns each entry of a directory that does not change exactly once, in order, then io.EOF; and entries are not skipped when others are removed meanwhile.", "quantifier": "every directory, every batch-size sequence, every removal schedule", "why_tests_cant": "schedules and batch sequences", "anchors": ["vroot/synthfs/handle_dir.go: readEntries"]}
{"id": "C51", "title": "Merge decisions keep what they promise", "statement": "Adding a filesystem with a keep policy never changes an existing entry; with overwrite the added entries win; with fail-on-conflict nothing conflicting is replaced.", "quantifier": "every existing tree and every added tree", "why_tests_cant": "pairs of trees", "anchors": ["vroot/synthfs/add.go", "vroot/synthfs/add_decision.go"]}
{"id": "C52", "title": "Ranged file view is a section", "statement": "A file added as a byte range of a backing file reads exactly that range, reports its length, and never reads outside it.", "quantifier": "every range, offset and buffer", "why_tests_cant": "64-bit arithmetic", "anchors": ["vroot/synthfs/view_fs.go: rangedView"]}
{"id": "C53", "title": "Overlay lookup and listing agree", "statement": "A name is listed in a merged directory exactly when looking it up succeeds, and both come from the same layer.", "quantifier": "every stack of layers, every set of whiteout/opaque marks, every name", "why_tests_cant": "layer stacks and mark sets are unbounded", "anchors": ["vroot-adapter/overlayfs/merged.go: lookupFrom, readDir", "vroot-adapter/overlayfs/state.go: cutFrom, childCut"]}
{"id": "C54", "title": "Overlay never writes a lower layer", "statement": "No overlay operation changes any lower layer.", "quantifier": "every history of operations", "why_tests_cant": "histories unbounded", "anchors": ["vroot-adapter/overlayfs/write.go", "vroot-adapter/overlayfs/copyup.go", "vroot-adapter/overlayfs/rename.go"]}
{"id": "C55", "title": "Removed names stay removed", "statement": "After a successful Remove or RemoveAll the name and everything beneath it is absent from the merged view, and every other name is unchanged; at every crash point of the removal no lower content hidden before becomes visible.", "quantifier": "every layer stack, mark set, name and crash point", "why_tests_cant": "crash points x layer stacks", "anchors": ["vroot-adapter/overlayfs/remove.go: remove, removeAll, unlink"]}
{"id": "C56", "title": "A new directory is empty", "statement": "After Mkdir succeeds on an absent name the merged directory is empty, whatever the lower layers hold beneath that name; at every crash point no lower content hidden before becomes visible.", "quantifier": "every layer stack, mark set, name and crash point", "why_tests_cant": "crash points x layer stacks", "anchors": ["vroot-adapter/overlayfs/mkdir.go: mkdirOne"]}
{"id": "C57", "title": "Copy-up does not change the merged view", "statement": "Copying a name up into the top layer leaves the merged view (existence, type, content, mode, listing) of every name unchanged.", "quantifier": "every layer stack, mark set and name", "why_tests_cant": "layer stacks unbounded", "anchors": ["vroot-adapter/overlayfs/copyup.go", "vroot-adapter/overlayfs/write.go: copyUp"]}
{"id": "C58", "title": "Overlay rename moves exactly the subtree", "statement": "After a successful rename the merged view at the new name is what the old name showed, the old name is absent and all other names are unchanged.", "quantifier": "every layer stack, mark set and pair of names", "why_tests_cant": "layer stacks unbounded", "anchors": ["vroot-adapter/overlayfs/rename.go: rename"]}
{"id": "C59", "title": "Overlay rename is crash safe", "statement": "At every crash point of a rename, the merged view is the one before or the one after; hidden lower content never becomes visible.", "quantifier": "every crash point and layer stack", "why_tests_cant": "crash points", "anchors": ["vroot-adapter/overlayfs/rename.go: rename", "vroot-adapter/overlayfs/state.go: renameSubtree"]}
{"id": "C60", "title": "Reopening an overlay shows the same view", "statement": "The marks held in memory equal the marks in the metadata store after every operation, even when the store fails, so closing and reopening gives the same merged view.", "quantifier": "every history of mark changes and store failures", "why_tests_cant": "histories and faults", "anchors": ["vroot-adapter/overlayfs/state.go", "vroot-adapter/overlayfs/metadatastore_sqlite.go"]}
{"id": "C61", "title": "Subtree deletion in the store hits exactly the subtree", "statement": "The range delete used to drop marks under a name removes exactly the names strictly beneath it.", "quantifier": "every name and every stored path", "why_tests_cant": "string space", "anchors": ["vroot-adapter/overlayfs/metadatastore_sqlite.go: deleteSubtree"]}
{"id": "C62", "title": "Open-file removal guard counts handles exactly", "statement": "With open-file removal disabled, a name is refused for removal exactly while a handle opened under it (or beneath it) is still open.", "quantifier": "every history of opens, closes, removes and renames", "why_tests_cant": "histories", "anchors": ["vroot-adapter/overlayfs/file.go: handleTracker", "vroot-adapter/overlayfs/remove.go"]}
{"id": "C63", "title": "Overlay names never leave the root", "statement": "Every name handed to a layer is clean, relative and stays under the overlay's (or sub-root's) base.", "quantifier": "every input string and sub-root nesting", "why_tests_cant": "string space", "anchors": ["vroot-adapter/overlayfs/resolve.go: name", "vroot-adapter/overlayfs/metadatastore.go: cleanName"]}
{"id": "C64", "title": "SQLite VFS lock levels map to file locks", "statement": "For every sequence of SQLite lock and unlock requests, the file lock held is none, shared or exclusive exactly as the lock level requires, and a failed request leaves level and lock consistent.", "quantifier": "every request sequence and every lock failure", "why_tests_cant": "histories and faults", "anchors": ["vroot-adapter/overlayfs/internal/sqlvfs/file.go: Lock, Unlock"]}
{"id": "C65", "title": "SFTP adapter confinement", "statement": "Every remote path sent by the SFTP filesystem lies under its root; names that leave it are refused.", "quantifier": "every root and name", "why_tests_cant": "string space", "anchors": ["vroot-adapter/sftpfs/sftpfs.go: resolvePath, isLocalSlash"]}
{"id": "C66", "title": "Names are converted between OS form and io/fs form exactly", "statement": "The path normalizing and localizing wrappers pass the clean form of a name and nothing else; the io/fs-backed filesystem refuses exactly the names that leave its root, passes only names io/fs declares valid, keeps the place they denote, and passes valid io/fs names unchanged.", "quantifier": "every name string (Unix separators)", "why_tests_cant": "string space", "anchors": ["vroot/pathnormalizer.go: cleanToSlash, cleanFromSlash", "vroot/iofs_from.go: resolvePath"]}
{"id": "C67", "title": "Opening for creation does not change an existing file's mode", "statement": "On the SFTP filesystem, Create, OpenFile with O_CREATE and MkdirAll on a name that already exists leave its permission bits as they were.", "quantifier": "every name, flag and permission, every state of the server", "why_tests_cant": "needs every prior state of the remote tree", "anchors": ["vroot-adapter/sftpfs/sftpfs.go: OpenFile, MkdirAll"]}
{"id": "C68", "title": "Overlay writes change only the name they are made on", "statement": "After a successful Chmod, OpenFile for writing, Symlink or Link through the overlay the name it was made on shows exactly the new permission bits, content or entry, and every other name shows what it showed (permission bits of directories on the way excepted); this also holds at every crash point, where the name itself shows its old or its new state, and a failed call changes nothing.", "quantifier": "every layer stack, mark set, name, flag set and crash point", "why_tests_cant": "layer stacks and crash points are unbounded", "anchors": ["vroot-adapter/overlayfs/write.go: mutate, ensureParent", "vroot-adapter/overlayfs/open.go: openWrite", "vroot-adapter/overlayfs/link.go: symlink, link", "vroot-adapter/overlayfs/chmod.go"]}
{"id": "C69", "title": "Copying onto an existing tree changes only what the source names", "statement": "CopyAll onto a destination that already holds entries changes nothing at a place the source does not name, at every crash point and with every failure; when it succeeds, every directory of the source is there with its masked mode, every file holds the source's bytes (an existing file keeps its mode), every symlink is there with its target, and the rest is as it was.", "quantifier": "every source tree, every destination, every ignore list, failure and crash point", "why_tests_cant": "destination states, faults and crash points are unbounded", "anchors": ["fsutil/copy_fs.go: CopyAll, copyEntry, copySymlink"]}
{"id": "C70", "title": "CopyPath copies the named entries and the directories above them", "statement": "CopyPath touches only the named entries, the directories between the root and them, and the root with what is above it, at every crash point and with every failure; when it succeeds every named entry is copied to its place under the root and every directory between has the masked mode of the source's; it succeeds whenever every call it makes succeeds and every name is in the source.", "quantifier": "every source tree, destination, root, list of names, failure and crash point", "why_tests_cant": "string space, tree shapes, faults and crash points are unbounded", "anchors": ["fsutil/copy_fs.go: CopyPath"]}
{"id": "C71", "title": "Names in a tar filesystem lead where the archive's links say", "statement": "Open, Stat, Lstat, ReadLink and Sub resolve a name as POSIX does: a directory is entered, the target of a symbolic link is resolved from the directory that holds the link and what remains of the name after it, a hard link stands for the file it names, at most 40 links are followed, and a view rooted in a directory refuses to step out of it; the entry opened or described is the one led to, a name that leads nowhere is an error, and names in a Sub view lead where the joined names lead in the whole.", "quantifier": "every archive, every name, every subtree, rooted or not", "why_tests_cant": "link graphs and names are unbounded", "anchors": ["tarfs/entdir.go: openChildResolve", "tarfs/fs.go: Open, Lstat, ReadLink, Sub, findFile", "tarfs/entsymlink.go", "tarfs/enthardlink.go"]}
{"id": "C72", "title": "The layers of an overlay stay file trees", "statement": "Whatever sequence of calls is made on an overlay, with whatever names, and wherever the process dies, every layer remains a tree of finitely many entries: its root is a directory and every entry lies in a directory of the same layer.", "quantifier": "every overlay of trees, every sequence of calls on it, every crash point, any number of restarts", "why_tests_cant": "histories and crash points are unbounded", "anchors": ["vroot-adapter/overlayfs/write.go: copyUp, ensureParent", "vroot-adapter/overlayfs/remove.go: Remove, RemoveAll", "vroot-adapter/overlayfs/mkdir.go: Mkdir, MkdirAll", "vroot-adapter/overlayfs/rename.go: Rename", "vroot-adapter/overlayfs/copyup.go: CopyUp"]}
{"id": "C73", "title": "No mark outlives the directory it is on", "statement": "At every point of every history of an overlay, each record saying that a directory of the top hides what the lower layers have beneath it is on a directory the top really has: no such record is left behind by something that was removed, replaced or moved away, where a later operation could meet it.", "quantifier": "every overlay, every sequence of calls on it, every crash point, any number of restarts", "why_tests_cant": "histories and crash points are unbounded", "anchors": ["vroot-adapter/overlayfs/store.go: setOpaque, clearSubtree, renameSubtree", "vroot-adapter/overlayfs/rename.go: Rename", "vroot-adapter/overlayfs/remove.go: unlink", "vroot-adapter/overlayfs/mkdir.go: mkdirOne"]}
{"id": "C74", "title": "Every SFTP call sends the request it stands for", "statement": "A call on an SFTP filesystem with a name that is absolute or steps above the base fails with nothing sent. Any other call sends the request it stands for about the place its name denotes below the base, with both names of a link or rename in their places and the flags of an open unchanged; then, when appending, one for the size, and after success the permission asked for; and it fails exactly when the server answers the request (or the size) with an error.", "quantifier": "every server, base directory, call, name, flag and history of requests", "why_tests_cant": "names, flags and server behaviour are unbounded", "anchors": ["vroot-adapter/sftpfs/sftpfs.go: resolvePath, Chmod, Chown, Chtimes, Create, Lchown, Link, Lstat, Mkdir, MkdirAll, Open, OpenFile, ReadLink, Remove, Rename, Stat, Symlink"]}
{"id": "C75", "title": "SFTP RemoveAll removes what it can and nothing else", "statement": "RemoveAll on an SFTP filesystem changes nothing outside the named subtree and only removes things inside it, whichever requests fail, lose their answers or list only some names; if it reports success nothing is left at or below the name; it ends on every finite tree; and when the server only refuses the removal of some things, everything else but the directories that hold them is removed and a failure is reported exactly if there was such a thing.", "quantifier": "every tree on the server, every pattern of failing requests, every listing order", "why_tests_cant": "trees and fault patterns are unbounded", "anchors": ["vroot-adapter/sftpfs/sftpfs.go: RemoveAll, removeAll"]}
{"id": "C76", "title": "SFTP directory handles page through one listing", "statement": "However Readdir, ReadDir and Readdirnames calls from any number of goroutines on one open SFTP directory interleave, the server is asked for the listing at most once; if that failed every call fails; otherwise the results are successive parts of that listing, each entry once and in order, with io.EOF exactly when a batch is asked for and nothing is left.", "quantifier": "every listing, every number of goroutines, every interleaving, every batch size", "why_tests_cant": "schedules and listings are unbounded", "anchors": ["vroot-adapter/sftpfs/sftpfs.go: sftpFile.loadDir, Readdir, ReadDir, Readdirnames"]}
{"id": "C77", "title": "Each call on a synthetic tree does exactly what it stands for", "statement": "Mkdir, MkdirAll, Create/OpenFile, Symlink, Link, Remove, RemoveAll and Rename on an in-memory tree change exactly the entries their names denote: a creating call on a free place adds one entry of the right kind, mode and target at the end of its directory and nothing else; on a taken place it fails; Remove takes away one entry, refusing a directory with content; RemoveAll takes away one entry, empties what was beneath it and closes the views of the files there; Rename moves one entry under its new name, replacing at most one; MkdirAll makes exactly the missing directories; a call that fails changes nothing. Names are resolved through links, the last element of a name that is created, removed or renamed is not followed.", "quantifier": "every tree reached by any history of calls through any roots, every name and mode", "why_tests_cant": "histories, trees and link graphs are unbounded", "anchors": ["vroot/synthfs/mkdir.go: Mkdir, MkdirAll", "vroot/synthfs/open.go: OpenFile", "vroot/synthfs/link.go: Symlink, Link", "vroot/synthfs/remove.go: Remove, RemoveAll", "vroot/synthfs/rename.go: Rename", "vroot/synthfs/tree.go: resolve, resolveParent"]}
{"id": "C78", "title": "A file's view is closed once, when the file leaves the tree", "statement": "The view behind a file of an in-memory tree is closed when the file is removed, replaced or lost with a removed directory, and at no other time: at every point of a history a file's view is closed exactly if the file can be reached from no root, and none is closed twice.", "quantifier": "every history of calls through any number of roots", "why_tests_cant": "histories are unbounded; views leak or close early only in particular sequences of calls", "anchors": ["vroot/synthfs/view.go: FileView, FileViewAllocator", "vroot/synthfs/remove.go: Remove, RemoveAll, removeSubtree", "vroot/synthfs/rename.go: Rename", "vroot/synthfs/add.go: AddFile, AddFS, materializeDir", "vroot/synthfs/link.go: Link"]}
{"id": "C79", "title": "Overlay calls act on what their path denotes", "statement": "A call on the overlay, or on a sub-root of it, acts on the file its path denotes in the merged view: walking the path there, symlinks followed (the last one only where the call follows it), leads to the file that is removed, made, moved, opened or reported, the call has its effect at that place, and nothing else changes, also when the process dies during the call.", "quantifier": "every path, every history of calls through the overlay and its sub-roots, every point at which the process may die", "why_tests_cant": "paths, symlinks across layers and histories are unbounded; a wrong step shows only in particular combinations of symlinks and layers", "anchors": ["vroot-adapter/overlayfs/resolve.go: Fs.resolve, resolver, locate", "vroot-adapter/overlayfs/remove.go: Remove, RemoveAll", "vroot-adapter/overlayfs/mkdir.go: Mkdir, MkdirAll, mkdirAllName", "vroot-adapter/overlayfs/rename.go: Rename", "vroot-adapter/overlayfs/link.go: Link, Symlink", "vroot-adapter/overlayfs/open.go: openWrite", "vroot-adapter/overlayfs/write.go: Chmod, Chown, Chtimes", "fsutil/resolve_symlink.go: ResolvePath"]}
{"id": "C80", "title": "A sub-root of the overlay stays inside its directory", "statement": "Whatever calls are made through a sub-root of the overlay, with whatever paths and symlinks, nothing outside its directory changes and the directory itself stays a directory, also when the process dies during a call.", "quantifier": "every sub-root, every sequence of calls through it, every path and content of the layers", "why_tests_cant": "paths, symlinks and histories are unbounded; one escaping combination is enough", "anchors": ["vroot-adapter/overlayfs/fs.go: OpenRoot", "vroot-adapter/overlayfs/resolve.go: Fs.name, resolver, Fs.resolve", "vroot-adapter/overlayfs/open.go: openWrite"]}
{"id": "C81", "title": "Moving a directory's deletion marks loses none", "statement": "When a directory of the overlay is renamed and its deletion marks are moved with it, then whatever mark-store calls fail on the way, every mark that was beneath the old name is still there under the old name or has arrived under the new one, and no mark outside the two directories has changed; so a failed rename never lets a deleted file reappear in both places.", "quantifier": "every set of marks, every pair of directories neither of which is inside the other, every pattern of failing store calls", "why_tests_cant": "the failing call can be any of unboundedly many, and the order of the steps matters only then", "anchors": ["vroot-adapter/overlayfs/state.go: renameSubtree, maskedUnder, setWhiteout, clearWhiteout, setOpaque, clearOpaque"]}
{"id": "C82", "title": "Deletion marks kept by path string mean what marks by name mean", "statement": "The overlay keeps its marks as path strings in a table and in memory; every change (setting, clearing, clearing or moving a subtree) and every question (which layers a name is cut off from, whether a directory hides what is below, whether a name lies beneath a deleted one) has the answer it has when marks belong to names as lists of components: no name is confused with another that merely begins with the same characters.", "quantifier": "every history of mark changes, every table found when opening, every name and layer", "why_tests_cant": "names and histories are unbounded; prefixes of strings are not prefixes of paths", "anchors": ["vroot-adapter/overlayfs/state.go: maskedUnder, clearSubtree, renameSubtree, cutFrom, childCut, whiteoutAbove", "vroot-adapter/overlayfs/metadatastore.go: MetadataStore"]}
{"id": "C83", "title": "A pull commits only what the hooks accepted and the caller's size allows", "statement": "Whatever the source, the disk and the process do, a destination that a pull creates holds bytes that every pre-commit hook has accepted; a hook's rejection commits nothing and discards the part file and its sidecar; a pull that returns nil leaves a destination of the expected size and neither part file nor sidecar; and a destination that was there is never touched, the pull returning nil exactly when its size is the expected one. A partial that is too large or recorded as another version does not stop a pull from completing.", "quantifier": "every source, content of the three files, pattern of failing calls, set of hooks, expected size and crash point", "why_tests_cant": "the content the hooks see is put together from several runs, and any call on the way can fail", "anchors": ["fsutil/resumable.go: Pull, removePartFiles"]}
{"id": "C84", "title": "Overlay calls answer what the merged view says", "statement": "A modifying call on the overlay succeeds exactly when the merged view allows it, whichever layers hold the files: Mkdir and Symlink where the name is free; opening for writing on a file (unless exclusive creation is asked for) or, with O_CREATE, on a free name; Chmod on whatever shows; Remove on anything but a directory in which something shows; RemoveAll always; MkdirAll when nothing but directories is on the way; Link from a file to a free name; Rename when the target may be replaced and the directory moved is not one a lower layer contributes to. Otherwise it fails with the error for that reason.", "quantifier": "every content of the layers, every history of calls, every name in a directory that shows", "why_tests_cant": "layers, marks and histories are unbounded; a call that wrongly fails or wrongly succeeds shows only for particular combinations of them", "anchors": ["vroot-adapter/overlayfs/write.go: copyUp, ensureParent", "vroot-adapter/overlayfs/mkdir.go: Mkdir, MkdirAll, mkdirOne", "vroot-adapter/overlayfs/open.go: openWrite", "vroot-adapter/overlayfs/remove.go: Remove, RemoveAll, unlink", "vroot-adapter/overlayfs/link.go: Link, Symlink", "vroot-adapter/overlayfs/rename.go: Rename, renameDirCheck, renameTargetCheck", "vroot-adapter/overlayfs/chmod.go"]}
{"id": "C85", "title": "An open overlay directory delivers one listing, page by page", "statement": "Reading an open directory of the overlay page by page, with any sizes, while the overlay changes arbitrarily in between, delivers exactly the entries the merged view had in that directory when the first read took its listing: each once, in order, io.EOF exactly at the end; a rewind takes a fresh listing, a seek to the end leaves nothing to read. After Close nothing is read and nothing is changed through the handle, and every layer handle it held has been closed exactly once, also those it was moved away from by a change of the mode.", "quantifier": "every content of the layers, every history of calls on the handle, every change of the overlay between them, all page sizes", "why_tests_cant": "the sizes of directory and pages, the calls and the changes in between are unbounded", "anchors": ["vroot-adapter/overlayfs/file.go: mergedDir.load, mergedDir.readEntries, mergedDir.ReadDir, mergedDir.Readdir, mergedDir.Readdirnames, mergedDir.Seek, mergedDir.Close, mergedDir.mutate"]}
{"id": "C86", "title": "A name of the afero filesystem is found by walking to it", "statement": "Stat, Chmod and every other call of the synthetic afero filesystem accept exactly the valid names (valid UTF-8; \".\" or proper elements only; a last element of at most 255 bytes) and refuse all others with nothing changed. They find exactly what walking from the root gives, passing only directories that may be searched, or fail with the reason walking fails. Stat changes nothing; Chmod changes the mode of what is there and nothing else. After every history the root is a directory, a directory lists exactly the names that can be found in it, and none twice.", "quantifier": "all trees, names, modes and histories of calls", "why_tests_cant": "depth and breadth of trees, names and histories are unbounded", "anchors": ["aferofs/synth/fs.go: validatePath, findParent, find, Stat, Chmod", "aferofs/synth/dirent.go: IsSearchableDir, hasPerm", "aferofs/synth/dir.go"]}
{"id": "C87", "title": "Mkdir and MkdirAll of the afero filesystem make what they are asked for", "statement": "Mkdir makes exactly the named directory, empty, with the permission bits that the umask leaves, when its parent can be walked to, may be written and searched and has no such entry; otherwise it changes nothing and says why. MkdirAll adds only directories on the path, in directories that may be written, and changes nothing that is there; if it succeeds the name and its parents are directories, and it succeeds when the existing ones can be passed. A directory that was made can be reached under the name it was made with.", "quantifier": "all trees, names, permissions, umasks", "why_tests_cant": "trees and paths are unbounded", "anchors": ["aferofs/synth/fs.go: Mkdir, mkdir, MkdirAll, mkdirAll, findWritableDir, maskPerm"]}
{"id": "C88", "title": "Remove and RemoveAll of the afero filesystem take away what they are asked for", "statement": "Remove takes away exactly the named file or empty directory, when its directory may be written and searched, and otherwise changes nothing and says why. RemoveAll touches nothing but the name and what is below it, and adds nothing; if it succeeds nothing is left at the name.", "quantifier": "all trees reachable by any history of calls, all names", "why_tests_cant": "trees and histories are unbounded", "anchors": ["aferofs/synth/fs.go: Remove, removeFromParent, RemoveAll, removeAll, removeAllFrom"]}
{"id": "C89", "title": "Rename of the afero filesystem moves", "statement": "Rename of one name to another moves everything at and below the old name to the new name, replacing a file or an empty directory there, leaves nothing at the old name and all else as it was. It succeeds exactly when both directories may be changed and the replacement is of the right kind; a name is not moved below itself; a Rename that fails changes nothing.", "quantifier": "all trees, all pairs of names", "why_tests_cant": "trees and names are unbounded", "anchors": ["aferofs/synth/fs.go: Rename, rename", "aferofs/synth/dir.go: AddDirent, RemoveName", "aferofs/synth/dirent.go: newDirDirent, newFileDirent"]}
{"id": "C90", "title": "OpenFile and AddFile of the afero filesystem open and create what they are asked for", "statement": "Opening a name at which there is something changes no entry: O_EXCL refuses it, the access must be permitted, a directory can only be read, and a file is cut and opened through its own view. With O_CREATE a free name in a directory that may be changed becomes a new file with the permission bits that the umask leaves, and nothing else changes. AddFile puts the view at the name, makes its missing parents, takes away what was there; if it fails nothing is taken away. A file that was added can be reached under the name it was added with.", "quantifier": "all trees, names, flags, permissions, views and answers of views", "why_tests_cant": "trees, names and the failures of views are unbounded", "anchors": ["aferofs/synth/fs.go: OpenFile, openFile", "aferofs/synth/fs_link.go: AddFile, addFile", "aferofs/synth/flag.go", "aferofs/synth/fd.go"]}
{"id": "C91", "title": "A file view of the afero filesystem is told exactly once that it has left the tree", "statement": "In every history of calls a view that was added to the filesystem is in the tree at one place and has not been closed, or it is in the tree no more and has been closed exactly once; a view that was never added is not closed.", "quantifier": "all histories of calls, all answers of views", "why_tests_cant": "histories are unbounded, and a view lost or closed twice shows only for particular ones", "anchors": ["aferofs/synth/fs.go: removeFromParent, removeAllFrom, rename, openFile", "aferofs/synth/fs_link.go: addFile, Reallocate", "aferofs/synth/dirent.go: notifyClose", "aferofs/synth/dir.go: notifyClose, AddDirent"]}
{"id": "C92", "title": "Handles on an in-memory file of the afero filesystem behave as file descriptors", "statement": "Whatever handles are opened on an in-memory file of the synthetic afero filesystem, with whatever flags, and whatever reads, writes, truncations, seeks and closes follow on them, every answer is the one POSIX descriptors on one file would give: each handle has its own position, appending handles write at the end, gaps read as zeros, also where the file was cut before, access is as the flags say, and a closed handle refuses everything. The only exception is a write or truncation that needs more memory than there is, which panics.", "quantifier": "all sequences of opens and calls, all flags, bytes, offsets, sizes and capacities the runtime picks", "why_tests_cant": "sequences, offsets and what the runtime leaves in spare capacity are unbounded", "anchors": ["aferofs/synth/impl_inmem_file.go: memFile, memFileHandle", "aferofs/synth/impl_inmem.go", "aferofs/synth/flag.go", "aferofs/internal/closable/file.go"]}
{"id": "C93", "title": "Concurrent appends to an in-memory file of the afero filesystem do not overwrite each other", "statement": "When any number of goroutines write to an in-memory file through handles opened for appending, every write ends up whole in the file: the content is what was there, followed by what was written, in some order.", "quantifier": "all numbers of goroutines and handles, all writes, all schedules", "why_tests_cant": "a lost append shows only for particular schedules", "anchors": ["aferofs/synth/impl_inmem_file.go: memFileHandle.Write, memFile.Len, memFile.WriteAt"]}
{"id": "C94", "title": "Reading an open directory of the afero filesystem in pages gives every entry once", "statement": "Readdir on an open directory takes one listing, with every entry of the directory, and hands it out in pages of the sizes asked for, in order, each entry once, with io.EOF exactly when entries are asked for and none is left, whatever changes in the directory in between and whatever the caller does with the pages; only a successful Seek to the start begins anew.", "quantifier": "all directories, page sizes, histories of calls and failures of views", "why_tests_cant": "sizes of directories and pages and the calls in between are unbounded", "anchors": ["aferofs/synth/dir_handle.go: Readdir, Readdirnames, Seek", "aferofs/synth/dir.go: ListFileInfo"]}
{"id": "C95", "title": "A closed afero file refuses calls, and the file below is closed once", "statement": "When goroutines use a file of the synthetic afero filesystem at the same time, a call that starts after Close has returned is refused with fs.ErrClosed and never reaches the file below, no call is refused before some Close has begun, the file below is closed at most once, and it is not used after it was closed.", "quantifier": "all numbers of goroutines, all calls, all schedules", "why_tests_cant": "a double close or a use after close shows only for particular schedules", "anchors": ["aferofs/internal/closable/file.go: beforeEach", "aferofs/internal/closable/file.closable[t].generate.go"]}
{"id": "C96", "title": "The ready-made views of the afero filesystem show what they are asked for and clean up", "statement": "A ranged view shows exactly the bytes [off, off+n) of the view below that exist: every sequence of reads and seeks on it answers as on a file with that content, and Stat reports its size. Closing its handles closes what they opened. A view in a directory for temporary files is one file from the first use until it is closed, and closing it removes the file.", "quantifier": "all contents, ranges, sequences of calls and failures of the filesystem below", "why_tests_cant": "contents, ranges and sequences are unbounded", "anchors": ["aferofs/synth/impl_fslink.go: NewRangedFileView, rangedFileView, sectionFile", "aferofs/synth/impl_tmpdir.go: tmpDirFileView"]}
{"id": "C97", "title": "ValidPathFs turns afero names into valid fs.FS names of the same place", "statement": "The filesystem that converts names hands every call to the filesystem below, the same method with the same other arguments, with every name converted: the converted name is valid for io/fs, leads to the same place as the name given (. and empty elements stay, .. goes up, no further than the root), is the one canonical name of it, and converting again changes nothing.", "quantifier": "all names (byte strings), all calls", "why_tests_cant": "the names are unbounded; a wrong corner shows only for particular slashes and dots", "anchors": ["aferofs/valid_path.go: toFsPath", "aferofs/valid_path.validpathfs.generate.go"]}
{"id": "C98", "title": "Copying a filesystem into the afero tree adds its regular files and touches nothing else", "statement": "When Copy succeeds every regular file below the source root is at the same place below the destination root, showing the mode and the contents of the source view; nothing outside those files changed except for missing directories above them; it succeeds whenever names are allowed, views can be made and no file is in the way; it tells when something was not copied. Mapping a sequence of views does the same for the names it gives, stops at the first failure, and a failure leaves nothing behind.", "quantifier": "all source trees, source and destination roots, states of the destination and failures of the source", "why_tests_cant": "trees are of unbounded size and depth and sources may fail at any entry", "anchors": ["aferofs/synth/fs_link.go: MapFsIter, Copy"]}
{"id": "C99", "title": "An io/fs filesystem used through the afero adapter cannot be changed, and reads as before", "statement": "Through the adapter from io/fs to afero nothing can be changed: every call on it or on a file it hands out that could change something is refused with EROFS and does not reach the filesystem below, and no sequence of calls changes what is below. Everything that can be read below can be read through it, directories can be listed, and only names valid for io/fs go below. The other way around an afero filesystem is one of io/fs: only valid names go below and listings are handed on with what was read before an error.", "quantifier": "all filesystems and files below, whatever optional methods they have and however they answer; all histories of calls", "why_tests_cant": "histories and the combinations of methods below are unbounded", "anchors": ["aferofs/iofs.go: IoFsAdapter, FsFile, IoFs", "aferofs/operation.go"]}
{"id": "C100", "title": "The map of a sparse member is read as its format says", "statement": "For a member of a tar archive the map of its data fragments is the one its headers say: in the old GNU format the chain of tables in the header block and the blocks behind it, in format 0.x the comma separated record, in format 1.0 the lines before the data. Which format there is follows from the typeflag and the records. Whatever pieces the reader below gives, a map that is read is that map; if reading does not fail it is read; maps of any length written in a format are read back; anything else is an error. The holes are what the map leaves out.", "quantifier": "all archives, maps of any length, any extension headers before the member, all ways of the reader to give bytes and to fail", "why_tests_cant": "maps, chains of blocks and the pieces in which bytes arrive are unbounded", "anchors": ["tarfs/headers.go: reconstructSparse, handleSparseFile, readOldGNUSparseMap, readGNUSparsePAXHeaders", "tarfs/copied_go_std.go: readGNUSparseMap1x0, readGNUSparseMap0x1, tryReadFull"]}
{"id": "C101", "title": "The sections of a tar archive are where its members are", "statement": "For every archive the sections tell, in order, where the headers of each member begin and end, where its stored bytes end, and its holes. Read through its section, every member gives its contents: the stored bytes, or for a sparse member the stored bytes inside the fragments of its map and zeros elsewhere. A failure to read is reported and never changes contents.", "quantifier": "all archives of any number of members with any extension headers, maps, sizes and padding; all read and seek histories; all failures", "why_tests_cant": "the place of each member depends on all before it", "anchors": ["tarfs/headers.go: Sections, Section", "tarfs/reader.go: makeReader"]}
{"id": "C102", "title": "A database inside a filesystem has its files to itself and finds them again", "statement": "Sqlite's calls on a database opened inside a filesystem act as on a disk whose files lie at the places their names lead to: every name, however written, leads inside the filesystem; two names share their bytes exactly when they lead to the same place; the journal lies beside the database; a file is created, opened for writing or refused as the flags say; a short read, and only that, ends with the end-of-file error sqlite knows; a temporary file goes away when closed; closing releases the lock, ends the file and tells every failure; no other file changes. Databases that failed to open or were closed leave nothing registered.", "quantifier": "all histories of calls on any number of open files, all names, all contents of the filesystem, any failures of it with any part of the bytes moved", "why_tests_cant": "names, contents and histories are unbounded and failures come at any call", "anchors": ["vroot-adapter/overlayfs/internal/sqlvfs/sqlvfs.go: Open, Delete, Access, FullPathname, cleanPath", "vroot-adapter/overlayfs/internal/sqlvfs/file.go: Close, ReadAt, WriteAt, Truncate, Size", "vroot-adapter/overlayfs/internal/sqlvfs/open.go: open, Close"]}
{"id": "C103", "title": "Opening and closing an overlay keeps what its layers hold", "statement": "Making a canonical layer changes nothing in its filesystem but its own two directories and its database, refuses a filesystem where a file stands in their place, and becomes read-only exactly when the database cannot be written but can be read. Opening an overlay needs a canonical writable top and no missing lower, masks exactly what each layer's store says, and leaves nothing staged by an earlier process; whether it succeeds or fails, at whatever call, everything outside the staging directory stays. Closing closes every store and every layer once, the store first, whatever fails, and tells every failure; an overlay opened from another closes nothing.", "quantifier": "all contents of the layers, all tables of the stores, any number of layers, any failures with any part of a removal done", "why_tests_cant": "contents, leftovers of a crash and failures are unbounded", "anchors": ["vroot-adapter/overlayfs/datasource.go: NewDataSource, NewDataSourceCanonical, ensureCanonical, openStore, sweepWork, close", "vroot-adapter/overlayfs/fs.go: New, Close", "vroot-adapter/overlayfs/state.go: newState"]}
{"id": "C104", "title": "Error texts tell no credentials of a URL", "statement": "Whatever a ranged reader or the file server client reports about a URL names it by scheme, host and path only: the text is the one the same URL without user, query and fragment would give, or says only that the URL was left out. The cause of a failed request can still be found in the error. Whether a URL is accepted does not depend on its user, query and fragment.", "quantifier": "all URLs made of any parts, all errors whatever they wrap, all behaviours of the escaping of single parts", "why_tests_cant": "the texts are unbounded and a leak shows only for particular ones", "anchors": ["stream/httprange/redact.go: redactURL, redactRawURL, redactURLError", "stream/httprange/httprange.go: validateURL", "stream/fileserver/client.go: redactURLError"]}
{"id": "C105", "title": "Concurrent calls on a synthetic afero filesystem", "statement": "Goroutines may call one synthetic filesystem at once. No directory ever holds a name twice. Every call ends if it gets the locks it waits for often enough (see C106), whatever the others do. An entry that no running call takes away stays, and every call naming it finds it. Goroutines that work beneath separate directories report, and leave behind, what each would alone. Of exclusive creations of one name one succeeds; what a call reported as made is there until someone removes it.", "quantifier": "all trees, all numbers of goroutines each making any calls, all interleavings of their critical sections", "why_tests_cant": "the race detector sees no data race since every access is locked; only particular interleavings of the locked steps lose anything", "anchors": ["aferofs/synth/fs.go: findParent, mkdir, mkdirAll, openFile, Remove, removeAll, removeAllFrom, rename, Stat", "aferofs/synth/dir.go: lookup, AddDirent, RemoveName, ListName"]}
{"id": "C106", "title": "Calls never wait for each other for good", "statement": "Goroutines may call synthetic trees (of synthfs and of aferofs), overlays, tar and sftp files and ranged readers at once, and stack them: layers and views may be filesystems that lock themselves. As long as no layer or view leads back to the filesystem above it, every call returns, under every schedule that holds no goroutine back for good; at no time is everyone waiting for someone else. While a call works under the lock of a tree or an overlay for writing, no other call is under that lock.", "quantifier": "all numbers of goroutines, all sequences of calls of each, all stackings of filesystems, all schedules, all choices of a reader-writer lock between waiting readers and writers", "why_tests_cant": "a deadlock needs a particular interleaving and leaves no trace in runs without it", "anchors": ["vroot/synthfs: add.go, handle.go, handle_dir.go, inspect.go, link.go, mkdir.go, open.go, remove.go, rename.go, root.go, view_mem_buf.go", "vroot-adapter/overlayfs: file.go, fs.go, link.go, mkdir.go, open.go, remove.go, rename.go, write.go", "vroot-adapter/sftpfs/sftpfs.go: sftpFile.loadDir, Readdir", "tarfs/entdir.go: openDir", "tarfs/entfile.go: openFile", "stream/httprange/stream.go: kill, killDetached, streamReadAt", "aferofs/synth: dir.go, dirent.go, fs.go"]}
{"id": "C107", "title": "Calls on a synthetic tree or an overlay take effect at once", "statement": "When goroutines call one synthetic tree, or one overlay, at the same time, each call has a moment between the time it is made and the time it returns at which it takes effect: making the calls one after the other in the order of their moments gives every call the same result, and leaves the same tree or overlay.", "quantifier": "all numbers of goroutines, all sequences of calls of each, all divisions of a call into reads and writes of the shared state, all interleavings of these", "why_tests_cant": "there are unboundedly many interleavings, and a wrong one shows only in the results of several calls together", "anchors": ["vroot/synthfs: add.go, handle.go, handle_dir.go, inspect.go, link.go, mkdir.go, open.go, remove.go, rename.go, root.go, chmod.go", "vroot-adapter/overlayfs: file.go, fs.go, link.go, mkdir.go, open.go, remove.go, rename.go, write.go, state.go"]}
{"id": "C108", "title": "Errors over sftp can be told apart", "statement": "When a call on an sftp filesystem fails on the server, the error is fs.ErrNotExist exactly when something was missing and fs.ErrPermission exactly when it was refused, whatever the names involved. OpenFile, Mkdir and Symlink report fs.ErrExist exactly when the name was taken. What the client library reported stays in the error. Sync of a file succeeds exactly when the server's did, or when the server has no such operation.", "quantifier": "all calls, all paths, all texts and causes of errors of the server, all errors of the client library whatever they wrap", "why_tests_cant": "the decision is a search for words in a text that holds a path, so it can go wrong for particular paths only", "anchors": ["vroot-adapter/sftpfs/sftpfs.go: mapSftpErr, isSftpNotExist, Mkdir, OpenFile, Symlink, Link, Rename, Sync"]}
{"id": "C109", "title": "Appending to a file over sftp", "statement": "A file opened with O_APPEND over sftp behaves like a local one: every write adds to the end of the file, whatever other handles do in between, and all results are the same. Over a server that appends itself this holds as long as such handles are only written; over the stock server as long as, in addition, nobody else changes the length of the file while the handle is open and the handle is not moved.", "quantifier": "all histories of opening, writing, reading and moving any number of handles on a file with any contents, writes being cut short anywhere", "why_tests_cant": "what goes wrong depends on how the writes of several handles follow each other", "anchors": ["vroot-adapter/sftpfs/sftpfs.go: OpenFile"]}
{"id": "C110", "title": "Naming the operation and path in an error", "statement": "Giving an error an operation and a path (or two, for links) keeps nil nil, and otherwise gives an error with these names in which everything that could be found in the original can still be found, and nothing else. Doing it twice replaces the names and adds no second layer; names left empty stay as they were. Errors that were handed out before are not changed.", "quantifier": "all errors and everything they wrap, all names, all errors held elsewhere", "why_tests_cant": "whether an error held elsewhere changes depends on what it shares with the one given", "anchors": ["fsutil/wrap_path_err.go: WrapPathErr, WrapLinkErr"]}
{"id": "C111", "title": "Lines describing a tree for a test", "statement": "A line ending in a slash asks for a directory, a name with an arrow and a target for a symbolic link, and a name with a colon and a content for a file; each line asks for exactly what was written down, whatever the name and the content are.", "quantifier": "all names, targets and contents, all quotings", "why_tests_cant": "the separators can occur anywhere in a name or a content; tests try ordinary ones", "anchors": ["fsutil/testhelper/setup.go: ParseSetupProcLine, C.SetupLines"]}
{"id": "C112", "title": "Setting up a tree for a test", "statement": "Setting up a description that fits together (every name once, nothing below a file or link, hard links to files described) in an empty directory does not fail and gives exactly the tree described: every file with its content, mode and time, every link, every directory with its mode and time, the directories above them, and nothing else. The order in which the parts are given makes no difference.", "quantifier": "all descriptions, in every order", "why_tests_cant": "parts depend on each other through the order in which they are made; tests set up a few trees", "anchors": ["fsutil/testhelper/setup.go: C.Setup, compareSetupProc, pathDepth, mkdirParent, CreateDir, CreateFile, CreateLink, CreateSymlink"]}
{"id": "C113", "title": "A filesystem of the operating system stays below its directory by name", "statement": "Every call of an osfs.Fs that reaches the operating system is the same call with full paths at or below the directory it was made for, whatever the names and the working directory; names that are absolute or step above the directory are refused and reported as escaping, and nothing else is. The directory itself is not removed or moved.", "quantifier": "all directories, working directories, calls and names", "why_tests_cant": "names can be written in unboundedly many ways", "anchors": ["vroot/osfs/fs.go: NewFs, resolvePath, endsWithDot, every method of Fs"]}
{"id": "C114", "title": "Escaping from an os.Root is recognisable", "statement": "An error of an osfs.Root says vroot.ErrPathEscapes exactly when package os said that the path escapes, keeping operation and names; every other error stays as it is, and success stays success.", "quantifier": "all errors, wrapped in any way", "why_tests_cant": "the decision looks at the end of a chain of wrapped errors of any length", "anchors": ["vroot/osfs/root.go: translateEscape, every method of Root"]}
{"id": "C115", "title": "Locks on open files", "statement": "While a handle of an osfs file holds the exclusive lock, no other handle on that file holds any; handles can share the shared lock; Unlock releases the lock; levels other than these are refused and a held lock is kept; interrupted calls are not seen.", "quantifier": "all histories of Lock and Unlock on any number of handles, interleaved in every way, interrupted or failing anywhere", "why_tests_cant": "what can go wrong depends on the interleaving", "anchors": ["vroot/osfs/lock_unix.go: File.Lock, File.Unlock, File.flock", "fsutil/lock.go: LockLevel"]}
{"id": "C116", "title": "Copies that run at the same time do not mix", "statement": "However many copies run at the same time over the shared pools of buffers, what a destination has received is always the beginning of its own source, a copy that ends without an error has copied everything, and none panics: no buffer is in use by two copies.", "quantifier": "any number of copies of any contents, all interleavings of their steps, all short reads, partial writes and failures, the pool handing out or losing whatever it likes", "why_tests_cant": "what a copy finds in its buffer depends on every copy before and beside it", "anchors": ["fsutil/internal/bufpool/pool.go: GetBytes, PutBytes", "aferofs/internal/bufpool/bytes.go", "vroot-adapter/overlayfs/copyup.go: copyData", "fsutil/safe_write.go: Copy", "fsutil/copy_fs.go", "aferofs/synth/fs_link.go: Reallocate"]}
{"id": "C117", "title": "A file bound from bytes", "statement": "A file made of a byte slice can be opened for reading only; every handle reads the bytes in order from where it is, none twice and none left out, until it is told io.EOF; ReadAt gives the bytes at its offset, Stat their number, Seek leads where it says; every attempt to write fails. This holds whatever other handles do, and for handles that several goroutines share.", "quantifier": "all byte slices, all histories of calls on any number of handles", "why_tests_cant": "positions, sizes and offsets are unbounded and the calls can come in any order", "anchors": ["vroot/synthfs/view_bytes.go: NewBytesView, bytesView, bytesHandle", "vroot/synthfs/handle.go: fileHandle", "vroot/synthfs/open.go: OpenFile"]}
{"id": "C118", "title": "An ordinary user can copy a tree", "statement": "CopyAll of a tree to an empty place succeeds for a user who is not the superuser and reproduces the tree, whatever the modes of its entries, if no call fails for another reason than its modes and the destination is the user's; CopyPath of named entries likewise.", "quantifier": "every source tree and its modes, every destination, root, list of names and mask", "why_tests_cant": "tree shapes and combinations of modes are unbounded, and tests often run as the superuser, who is denied nothing", "anchors": ["fsutil/copy_fs.go: CopyAll, CopyPath, copyEntry"]}
{"id": "C119", "title": "Safe writes made at the same time do not disturb each other", "statement": "However many safe writes run at the same time on one filesystem, in goroutines or processes, every destination holds at every moment what it held before or everything the last safe write to it that returned nil was given, never a part or a mixture; who has opened it reads that to the end; a safe write returns nil exactly when it put its content in place; none touches the temporary of another, nor makes another fail; and temporaries removed by a sweep meanwhile change nothing of this but that their safe writes fail.", "quantifier": "any number of safe writes of any contents to any destinations, all interleavings of their steps, all failures, crashes and sequences of random names", "why_tests_cant": "schedules, crash points and collisions of random names are unbounded", "anchors": ["fsutil/safe_write.go: SafeWriteOption.Write, Copy, CopyFs, safeOperation, TempFilePolicyRandom, TempFilePolicyDir", "fsutil/open_random.go: OpenFileRandom, MkdirRandom"]}
{"id": "C120", "title": "A sweep removes the leftover temporaries and nothing else", "statement": "Walking a filesystem with the WalkFunc of a temporary-file policy removes every temporary that the policy has made and that was left behind, with everything below, and changes nothing that does not have a temporary's name in a temporary's place, even if some of its calls fail; it returns nil only if all of them are gone.", "quantifier": "every tree, every configured directory, every combination of failing calls", "why_tests_cant": "tree shapes, names and fault combinations are unbounded", "anchors": ["fsutil/safe_write.go: TempFilePolicyRandom.WalkFunc, TempFilePolicyDir.WalkFunc, Match"]}
{"id": "C121", "title": "Hard links and open handles of an overlay are on files, not on names", "statement": "Through an overlay, Link makes two names of one file: what is written under one is seen under the other until one is taken away. An open handle stays with its file whatever becomes of its names, sees what is written later by others, and Rename between two names of one file does nothing, as POSIX says. This holds in whichever layer the file lay before.", "quantifier": "all contents of the layers with any whiteouts, all histories of calls by name and through any number of handles, any changes made through them", "why_tests_cant": "histories mix copying up, linking, renaming, removing and handles in unbounded ways", "anchors": ["vroot-adapter/overlayfs/link.go: Link", "vroot-adapter/overlayfs/open.go: openWrite", "vroot-adapter/overlayfs/fs.go: OpenFile", "vroot-adapter/overlayfs/rename.go: Rename", "vroot-adapter/overlayfs/remove.go: Remove, unlink", "vroot-adapter/overlayfs/write.go: copyUp", "vroot-adapter/overlayfs/file.go: trackedFile"]}
{"id": "C122", "title": "ReadFile and WriteFile move all the bytes", "statement": "ReadFile returns without an error exactly the bytes of the file, however few each Read delivers, and with an error the bytes read until then; it ends if every Read delivers or reports something. WriteFile returns nil only if the file then holds exactly the data, otherwise the first error; at every moment the file is as it was or holds a beginning of the data. The handle opened is closed exactly once on every path.", "quantifier": "all contents, all lengths of the single reads and writes, all growth of the buffer, all failures, all crash points", "why_tests_cant": "sizes, fragmentations and fault points are unbounded", "anchors": ["vroot/funcs.go: ReadFile, WriteFile"]}
{"id": "C123", "title": "Pulls of one name at the same time", "statement": "However many Pulls of one name from an unchanged source run at the same time, in goroutines or processes, failing or dying anywhere: the destination, if it is there, holds exactly the content of the source; it is there once a Pull has returned nil; what is left to resume from is a beginning of the content.", "quantifier": "any number of Pulls, all contents, all interleavings of their calls, all lengths of the single writes, all failures and crash points", "why_tests_cant": "schedules, sizes and crash points are unbounded", "anchors": ["fsutil/resumable.go: ResumableCopyOption.Pull"]}
{"id": "C124", "title": "What synthfs shows of an entry", "statement": "Stat, Lstat, Stat of a handle and a listing say the same of an entry: the name it was last given, the number of bytes reading it gives, the mode it was made with or Chmod last set, and the time of its last modification or the one Chtimes set since. The kind shown is always right. Nothing done to other entries changes any of it, except that names of one file share its bytes.", "quantifier": "all histories of calls on any entries, all umasks and masks for Chmod, all readings of the clock", "why_tests_cant": "histories, contents and modes are unbounded", "anchors": ["vroot/synthfs/node.go: metadata, toStat, newDir", "vroot/synthfs/inspect.go: Stat, Lstat, statNode", "vroot/synthfs/handle.go: Stat, Chmod, Chown", "vroot/synthfs/handle_dir.go: Stat, ReadDir, Readdir", "vroot/synthfs/chmod.go: Chmod, Chown, Lchown, Chtimes", "vroot/synthfs/tree.go: statFromFileView, chmodApply", "vroot/synthfs/option.go: Option"]}
{"id": "C125", "title": "What the synthetic filesystem of aferofs shows of an entry", "statement": "Stat, Stat of a handle and Readdir say the same of an entry: its name, the number of bytes reading it gives, whether it is a directory, the permissions it was made with or Chmod last set, and the time of its last modification or the one Chtimes set since.", "quantifier": "all histories of calls on any entries, all modes and times, all sources of files, including ones that are not there until first opened and ones that change by themselves", "why_tests_cant": "histories, contents, modes and the moments a source appears are unbounded", "anchors": ["aferofs/synth/file.go: virtualFileData, init, Open, Stat, StatFile, Chmod, Chtimes", "aferofs/synth/dir.go: newDirData, ListFileInfo, Stat, Chmod, Chtimes", "aferofs/synth/dirent.go: newFileDirent, stat, chmod, chtimes, notifyRename", "aferofs/synth/fs.go: Chmod, Chtimes, Mkdir, OpenFile, Rename, Stat", "aferofs/synth/fs_link.go: AddFile", "aferofs/synth/impl_inmem_file.go: newMemFile, Truncate, WriteAt"]}
{"id": "C126", "title": "Sub-filesystems, widened and read-only filesystems on top of each other", "statement": "Sub of Sub, with Widen at any point, is the same as one view at the directories joined: a call with a name that leads out is refused without asking, every other call is made on the underlying filesystem below that directory, with everything else unchanged. Sub succeeds exactly when Stat says directory, and a directory outside cannot be entered. Starting from a read-only filesystem, no combination of Sub, Widen and further wrapping gives a way to change anything.", "quantifier": "all filesystems below, all sequences of Sub, Widen and read-only wrapping of any depth, all names, calls and histories", "why_tests_cant": "wrappers can be stacked without bound and in any order", "anchors": ["vroot/funcs.go: Sub, SubFs", "vroot/widen.go: Widen, widenedFs", "vroot/pathprefix.go: NewPathPrefixFs, PathPrefixFs", "vroot/readonly.go: NewReadOnlyFs"]}
{"id": "C127", "title": "Open entries of a synthetic tree cannot be removed where that is disabled", "statement": "Where removal of open entries is disabled, Remove of a file, link or empty directory answers with the sharing violation and changes nothing exactly when a handle on it is open, under whatever name and through whatever root it was opened, and however often it was moved since; when the last handle is closed it can be removed. Where it is not disabled, Remove never asks. Opening gives one new handle on what the name leads to, a failed open leaves none, and closing a handle twice counts once.", "quantifier": "every history of calls through any roots, with allocators and views that fail, any number of handles on any entries", "why_tests_cant": "the count depends on the whole history of opens, failed opens, truncations, closes and renames", "anchors": ["vroot/synthfs/open.go: OpenFile, openFileNode", "vroot/synthfs/remove.go: Remove", "vroot/synthfs/handle.go: Close", "vroot/synthfs/handle_dir.go: Close", "vroot/synthfs/option.go: DisableOpenFileRemoval"]}
{"id": "C128", "title": "The URI under which a metadata database is opened names that file and those parameters", "statement": "A metadata store opened at a name inside a filesystem uses the file that lies where the name leads there, whatever characters the name has: SQLite, reading the URI that was made of the name, opens that file and no other, through the VFS of that filesystem. SQLite and its driver find in the URI exactly the parameters asked for, the values of a key in their order: exclusive locking, then a rollback journal, then the pragmas of the caller; or, for reading only, a read-only database that does not change.", "quantifier": "all names and parameters, every character", "why_tests_cant": "the names and characters are unboundedly many, and escaping errors show only for some of them", "anchors": ["vroot-adapter/overlayfs/internal/sqlvfs/sqlvfs.go: FS.DSN, FS.Open, FS.FullPathname, cleanPath", "vroot-adapter/overlayfs/internal/sqlvfs/open.go: Open, OpenReadOnly", "vroot-adapter/overlayfs/metadatastore_sqlite.go: NewMetadataStoreSQLite"]}
{"id": "C129", "title": "Requests of an HTTP range reader", "statement": "Every request asks for exactly the bytes it is for: a read for as many bytes as fit its buffer, its view and what is known of the object, from where its offset leads; a stream for its view from the first byte on; the probe for the first byte. A server finds one Range, the If-Range of the pinned object if there is a validator and none otherwise, and no encoding but identity, whatever headers were configured under these names; everything else that was configured is sent unchanged.", "quantifier": "all configured headers, offsets, lengths, views and validators", "why_tests_cant": "offsets and lengths up to the limits of int64, and header names in any spelling", "anchors": ["stream/httprange/httprange.go: Config.Header, New, newRequest", "stream/httprange/reader_at.go: ReadAt", "stream/httprange/probe.go: probe", "stream/httprange/stream.go: open"]}
{"id": "C130", "title": "Requests of the HTTP client of fileserver", "statement": "Every object name, whatever bytes it has, is one path segment below the base URL that reads as that name, so that different names are different objects and none lies outside the base. The configured headers are sent with every request under their names. A Get at an offset asks for everything from there on, a Get at offset 0 has no Range.", "quantifier": "all base URLs, names, offsets and configured headers", "why_tests_cant": "names and base URLs with any characters; escaping errors show only for some of them", "anchors": ["stream/fileserver/client.go: HTTPClient, objectURL, applyHeaders, Get, Stat, Put"]}
{"id": "C131", "title": "The HTTP client of fileserver against a truthful server", "statement": "Get hands out exactly the bytes of the object from the offset on, with the size of the object; Stat gives its size; both say that it does not exist only when it does not. When Put returns nil exactly the bytes of the reader are stored under the name, and their number was announced; when it fails they are or nothing changed, never a part of them. No call touches another object, so that what was put is got back after any history of calls on other names.", "quantifier": "all base URLs without query, names, offsets, contents and histories of calls; every answer a truthful server may give, including failures, lost answers and ignored ranges", "why_tests_cant": "answers, contents and histories are unbounded", "anchors": ["stream/fileserver/client.go: HTTPClient.Get, Stat, Put, parseTotalFromContentRange"]}
{"id": "C132", "title": "Concurrent uploads of one object in chunks", "statement": "When several clients upload the same object at once, each asking for the state and appending what is missing, then once one of them is told that the object is complete or that its append succeeded, the stored chunks are exactly the object and stay so whatever the others still do. Chunks stored right are never lost, and a client whose own calls succeed is through after a number of calls bounded by the number of chunks.", "quantifier": "any number of clients, every interleaving of their calls, every combination of failing calls and lost answers, whatever earlier attempts left behind", "why_tests_cant": "interleavings and failure combinations are unbounded", "anchors": ["stream/fileserver/chunk.go: ChunkedSink.State, ChunkedSink.Append", "stream/fileserver/client.go: Client"]}
{"id": "C133", "title": "Modes, times and owners in an overlay", "statement": "Chmod, Chown, Lchown and Chtimes of an entry of a lower layer change exactly what they are to change: its content and its other attributes (permissions and the setuid, setgid and sticky bits, modification time, owner) show as before, and so do all attributes of all other entries, among them those of the directories above. They succeed whenever they would on the entry itself. The same holds of the copying that comes before any other change.", "quantifier": "all entries, names of any depth, attributes, contents of the top, umasks, users and times", "why_tests_cant": "attributes are lost only for some entries, depths, and states of the top", "anchors": ["vroot-adapter/overlayfs/copyup.go: CopyUpPolicyWork.CopyUp, copyRegular, materializeParents, copyAttrs", "vroot-adapter/overlayfs/chmod.go: Chmod, Chown, Chtimes, Lchown", "vroot-adapter/overlayfs/write.go: copyUp, mutateTop"]}
{"id": "C134", "title": "Chunked objects over HTTP, end to end", "statement": "With chunk names that differ, an HTTP client on a base URL without query and fragment, and a server that answers truthfully or not at all: after any history of interrupted uploads of an object, the offset State reports is a chunk boundary below which the server keeps the right bytes under the right names, and a complete state, or nil from an Append of the rest, means that it keeps the whole object. Chunks once right stay right and no other object of the server is touched. Every Get of a chunk then hands out the bytes of the object at the place asked for, and none says that the chunk does not exist.", "quantifier": "all objects, chunk sizes, names, base URLs, configured headers, local readers that end or fail anywhere, histories of attempts, and answers", "why_tests_cant": "histories, answers, names and sizes are unbounded, and the layers are tested apart", "anchors": ["stream/fileserver/chunk.go: ChunkedSink.State, ChunkedSink.Append, ChunkedSource.Open", "stream/fileserver/client.go: HTTPClient.Get, Stat, Put"]}
{"id": "C135", "title": "Reading a chunked object over HTTP, with failures", "statement": "While a truthful server keeps the chunks of an object, a stream opened at any offset inside it gives, to reads of any lengths, the bytes of the object from that offset on, in order, none left out and none twice, whichever requests, reads of bodies and closes fail in between: a read after an error goes on where the bytes ended. A read without an error gives at least a byte, the end is reported only with or after the last byte, no read panics or hangs, and when nothing fails no read fails. (A body that is cut short is seen as an error, as net/http does when the length is known.)", "quantifier": "all objects, chunk sizes, names, offsets, sequences of read lengths, answers of a truthful server, short reads, and patterns of failures", "why_tests_cant": "failure patterns, short reads and read lengths are unbounded, and the layers are tested apart", "anchors": ["stream/fileserver/chunk.go: ChunkedSource.Open", "stream/seq_reader_at.go: seqReaderAt.ReadAt", "stream/multi_read_at_closer.go: multiReadAtSeekCloser.Read", "stream/fileserver/client.go: HTTPClient.Get"]}
{"id": "C136", "title": "Pushing and pulling files to and from a chunked object on an HTTP server", "statement": "When a push of a file to the chunked sink returns nil the server keeps every chunk of the file, also after any number of interrupted pushes; a push never spoils a chunk that was right and never touches another object. While the server keeps the object, interrupted pulls leave a beginning of it in the part file, a pull that returns nil has made exactly the file that was pushed, and a pull during which nothing fails returns nil. With nothing failing the stream of the source ends after at most one read per byte and one more.", "quantifier": "all files, chunk sizes, histories of pushes and pulls killed or failed anywhere, answers of a truthful server, short reads, and disks", "why_tests_cant": "histories of failures over two packages are unbounded, and the packages are tested apart", "anchors": ["fsutil/resumable.go: Push, Pull, ctxCopy", "stream/fileserver/chunk.go: ChunkedSink, ChunkedSource", "stream/fileserver/client.go: HTTPClient"]}
{"id": "C137", "title": "Copying a file's bytes up to the top layer is all or nothing", "statement": "When an overlay copies a regular file up, the name in the top layer holds, at every moment and so after a crash of the process at any moment, either what it held before or all the bytes of the file, never a part: whether the bytes are cloned or copied piece by piece, with reads and writes of any length, and whichever of the calls to the backends fail (a rename may even report an error after it happened). Copies that run at the same time and share one policy, over one top or several, never share a staged file. A staged file that was there before is never written or removed. When all calls have answered, no staged file of theirs is left, unless the backend refused to remove it. A copy that meets no failure answers without error after a bounded number of steps, whatever the others do.", "quantifier": "all files, all numbers of concurrent copies, all schedules, all lengths of reads and writes, all failures, all crash points", "why_tests_cant": "a test fails one call at one place in one order; the claim is about every interleaving of the steps of any number of copies and every place to stop", "anchors": ["vroot-adapter/overlayfs/copyup.go: CopyUpPolicyWork, copyRegular, copyData", "vroot-adapter/overlayfs/reflink_linux.go: reflinkFile", "vroot-adapter/overlayfs/reflink_other.go: reflinkFile"]}
{"id": "C138", "title": "A safe write survives a loss of power", "statement": "With SyncHook among the hooks run after writing (and no hook that writes after it), a loss of power at any moment of a safe write leaves at the target either what was there before or all that was written, and changes no other file; this holds for Write, Copy and CopyFs. Once the call has returned nil, the new content is not lost.", "quantifier": "all contents, all hooks, all failures, all moments of losing power, all ways in which names and unsynced bytes may or may not have reached the disk", "why_tests_cant": "a test cannot cut the power between two steps of the code, and what then is on the disk is for the filesystem to choose", "anchors": ["fsutil/safe_write.go: SyncHook, SafeWriteOption.Write, SafeWriteOption.Copy, SafeWriteOption.CopyFs, safeOperation"]}
{"id": "C139", "title": "A resumed download survives losses of power", "statement": "Whoever downloads with the resumable pull, is killed, loses power and pulls again, any number of times, finds at the destination nothing or exactly the content of the source; a pull that returns nil leaves the content there, also after a later loss of power; and once nothing fails any more, a bounded number of pulls gets there.", "quantifier": "all histories of pulls, kills at any step and losses of power at any moment, all contents and ETags, all states in which a loss can leave what was never flushed", "why_tests_cant": "a loss of power cannot be staged in a unit test, and what the disk keeps of unflushed writes differs from run to run", "anchors": ["fsutil/resumable.go: ResumableCopyOption.Pull, PreCommitHooks, resumableFsys, resumableFile"]}
{"id": "C140", "title": "The recording wrapper changes nothing and tells what happened", "statement": "A filesystem wrapped for recording behaves exactly as without the wrapper, also when goroutines use it at once; its history has one entry for the beginning and one for the end of every call, every call takes effect between its two entries, and from the history one can tell which call was made on which file, with which bytes, and how it was answered.", "quantifier": "all filesystems, all programs of any number of goroutines, all schedules, all uses of the buffers passed", "why_tests_cant": "the order of entries depends on the schedule; what an entry shows depends on what the program does with its buffers later", "anchors": ["aferofs/observable.go: ObservableFs, ObservableFile, recordOp, beforeEach, afterEach, modifyFile", "aferofs/observable.observablefs.generate.go", "aferofs/observable.observablefile.generate.go"]}
{"id": "C141", "title": "Pushes to a filesystem that loses power", "statement": "Whatever pushes of a file to a filesystem sink were made, killed and cut short by losses of power, a push that returns nil leaves exactly the file there, a committed file is never touched, and one undisturbed push is enough to recover. Whatever a loss has made of the partial, what a push commits has the file's length and differs from it only where the partial did; a push that starts over commits the file.", "quantifier": "all files, sinks, ETags, local readers, failures, kill points and histories of pushes and losses of power", "why_tests_cant": "no test cuts the power; crash points x what reached the disk x histories", "anchors": ["fsutil/resumable.go: Push", "fsutil/resumable_fs.go: FsSink.State, FsSink.Append, FsSink.Commit"]}
{"id": "C142", "title": "A test through the recording test context", "statement": "A test that uses the context of the test helpers makes exactly its own calls on the filesystem, each once and in order, up to the first one that is not answered as wanted (success, or an error for the methods that want one), and passes exactly when there is none. Otherwise it ends there, a file opened against what was wanted is closed, and the report begins with the failing call and lists every call the filesystem got, in order; the list can be read back whatever the error's text and the names are, and an entry tells method, names and arguments.", "quantifier": "all filesystems, all tests (what is called may depend on the answers), all names and error texts, including quotes and line feeds", "why_tests_cant": "it is about every test that is written with it, and about names that make reports ambiguous", "anchors": ["fsutil/testhelper/context.go: C, record, ReportFailf", "fsutil/testhelper/context_fsys.go: C.Chmod ... C.SymlinkE"]}
{"id": "C143", "title": "The merge callback is asked about each added entry by its path", "statement": "The callback of AddFS and AddFile is asked only about entries that are added, each under its slash-separated path from the root it is added to, with no leading dot, and with the kind of the entry; and unless it leaves a directory out it is asked about every entry: if it refuses one, AddFS fails.", "quantifier": "every tree, every source, every place, every callback", "why_tests_cant": "callbacks and sources are unbounded; a test sees the paths of one source", "anchors": ["vroot/synthfs/add.go AddFS addFSWalk descend slashJoin AddFile", "vroot/synthfs/add_decision.go AddFunc"]}
{"id": "C144", "title": "The database of an overlay survives a loss of power", "statement": "When the power fails at any moment of a transaction on the metadata database, the database is afterwards as it was before the transaction, or the whole rollback journal is there to take it back, or the transaction is complete; what was synced is found again, and a journal whose deletion was reported stays deleted.", "quantifier": "every history of calls of sqlite, every transaction, every moment of the loss, everything a volume may have kept back", "why_tests_cant": "no test can cut the power between two effects of a volume, and what a volume keeps back is arbitrary", "anchors": ["vroot-adapter/overlayfs/internal/sqlvfs/file.go Sync", "vroot-adapter/overlayfs/internal/sqlvfs/sqlvfs.go Delete Open", "vroot-adapter/overlayfs/internal/sqlvfs/open.go Open"]}
