{
 "claims": [
  {
   "property": "C01",
   "status": "proved",
   "theorems": [
    "Verif.Stream.C01_readAt_is_concatenation"
   ],
   "note": "honest parts with arbitrary short reads; termination included"
  },
  {
   "property": "C02",
   "status": "proved",
   "theorems": [
    "Verif.Stream.C02_history_is_cursor",
    "Verif.Stream.C02_read_all"
   ],
   "note": "every history of Read/Seek, int64 wrap-around of Seek sums included"
  },
  {
   "property": "C03",
   "status": "proved",
   "theorems": [
    "Verif.Stream.C03_search_exact",
    "Verif.Stream.C03_search_total"
   ],
   "note": ""
  },
  {
   "property": "C04",
   "status": "partial",
   "theorems": [
    "Verif.Stream.C04_size_mismatch_partial",
    "Verif.Stream.C04_counterexample_short_last",
    "Verif.Stream.C04_counterexample_surplus"
   ],
   "note": "the code violates the full property: a short last part yields a plain EOF, and surplus bytes are counted"
  },
  {
   "property": "C05",
   "status": "proved",
   "theorems": [
    "Verif.Stream.C05_history_correct",
    "Verif.Stream.C05_reopen_only_on_jump"
   ],
   "note": "every history of ReadAt calls, arbitrary short reads and failures"
  },
  {
   "property": "C06",
   "status": "proved",
   "theorems": [
    "Verif.Stream.C06_repeater"
   ],
   "note": ""
  },
  {
   "property": "C07",
   "status": "proved",
   "theorems": [
    "Verif.Stream.C07_sticky"
   ],
   "note": ""
  },
  {
   "property": "C08",
   "status": "proved",
   "theorems": [
    "Verif.Stream.C08_reads_concatenation",
    "Verif.Stream.C08_reaches_eof",
    "Verif.Stream.C08_close_all",
    "Verif.Stream.C08_gather"
   ],
   "note": ""
  },
  {
   "property": "C09",
   "status": "partial",
   "theorems": [
    "Verif.Stream.Chunk.C09_chunks_partition",
    "Verif.Stream.Chunk.C09_int64_exact_partial",
    "Verif.Stream.Chunk.C09_counterexample_overflow"
   ],
   "note": "proved whenever total+chunkSize-1 fits in int64; the code overflows beyond that (counterexample)"
  },
  {
   "property": "C10",
   "status": "proved",
   "theorems": [
    "Verif.Stream.Chunk.C10_source_streams_tail"
   ],
   "note": "chunk readers with arbitrary short reads; faults of chunk readers are the subject of C04/C05"
  },
  {
   "property": "C100",
   "status": "proved",
   "theorems": [
    "Verif.Tarfs.Map.C100_pax0_exact",
    "Verif.Tarfs.Map.C100_pax0_roundtrip",
    "Verif.Tarfs.Map.C100_pax1_read",
    "Verif.Tarfs.Map.C100_pax1_total",
    "Verif.Tarfs.Map.C100_pax1_reads",
    "Verif.Tarfs.Map.C100_old_roundtrip",
    "Verif.Tarfs.Map.C100_holes",
    "Verif.Tarfs.Map.C100_holes_found"
   ],
   "note": "for headers whose extension headers have sizes from 0 to 2^62, which archive/tar checks before"
  },
  {
   "property": "C101",
   "status": "partial",
   "theorems": [
    "Verif.Tarfs.Map.C101_sections_partial",
    "Verif.Tarfs.Map.C101_contents_partial",
    "Verif.Tarfs.Map.C101_open_partial",
    "Verif.Tarfs.Map.C101_open_link_partial",
    "Verif.Tarfs.Map.C101_readlink",
    "Verif.Tarfs.Map.C101_open_dir",
    "Verif.Tarfs.Map.C101_left_out",
    "Verif.Tarfs.Map.C101_counterexample_fault",
    "Verif.Tarfs.Map.C101_counterexample_contiguous"
   ],
   "note": "the code violates the full property: stored bytes of contiguous files are not skipped, so the map of the next member is looked for in them, and errors while a map is read are dropped (counterexamples). Proved for all archives without such members and readers that do not fail; what tar.Reader.Next reports is trusted"
  },
  {
   "property": "C102",
   "status": "proved",
   "theorems": [
    "Verif.Overlay.SqlVfs.C102_names",
    "Verif.Overlay.SqlVfs.C102_beside",
    "Verif.Overlay.SqlVfs.C102_store",
    "Verif.Overlay.SqlVfs.C102_write_bytes",
    "Verif.Overlay.SqlVfs.C102_truncate_bytes",
    "Verif.Overlay.SqlVfs.C102_frame",
    "Verif.Overlay.SqlVfs.C102_local",
    "Verif.Overlay.SqlVfs.C102_shared",
    "Verif.Overlay.SqlVfs.C102_registry"
   ],
   "note": "the filesystem below is trusted to be a store of files under clean names that refuses the empty name; directories, Sync and the URL given to the driver are left out; the locks are C64"
  },
  {
   "property": "C103",
   "status": "proved",
   "theorems": [
    "Verif.Overlay.Construct.C103_layout",
    "Verif.Overlay.Construct.C103_made",
    "Verif.Overlay.Construct.C103_readonly",
    "Verif.Overlay.Construct.C103_opened",
    "Verif.Overlay.Construct.C103_kept",
    "Verif.Overlay.Construct.C103_opens",
    "Verif.Overlay.Construct.C103_close"
   ],
   "note": "the filesystem of a layer is trusted to be a tree; what sqlite does to its own files is arbitrary; a listing that claims the staging directory is absent while it is there is ruled out for the sweeping clause"
  },
  {
   "property": "C104",
   "status": "partial",
   "theorems": [
    "Verif.Http.Redact.C104_url",
    "Verif.Http.Redact.C104_names",
    "Verif.Http.Redact.C104_error",
    "Verif.Http.Redact.C104_validate",
    "Verif.Http.Redact.C104_fileserver_partial",
    "Verif.Http.Redact.C104_counterexample_port",
    "Verif.Http.Redact.C104_counterexample_opaque",
    "Verif.Http.Redact.C104_counterexample_nested",
    "Verif.Http.Redact.C104_counterexample_fileserver",
    "Verif.Http.Redact.C104_note_siblings"
   ],
   "note": "the code tells credentials of URLs that do not parse (in the cause of the parse error; in fileserver the whole URL), of URLs without // and of a second URL inside the cause; what net/url does with each part on its own is left open, how it takes a URL apart is modelled"
  },
  {
   "property": "C105",
   "status": "partial",
   "theorems": [
    "Verif.Afero.Concurrent.C105_distinct",
    "Verif.Afero.Concurrent.C105_stays",
    "Verif.Afero.Concurrent.C105_finishes",
    "Verif.Afero.Concurrent.C105_apart",
    "Verif.Afero.Concurrent.C105_counterexample_exclusive",
    "Verif.Afero.Concurrent.C105_counterexample_mkdirAll",
    "Verif.Afero.Concurrent.C105_counterexample_rename",
    "Verif.Afero.Concurrent.C105_counterexample_gap",
    "Verif.Afero.Concurrent.C105_counterexample_crash"
   ],
   "note": "the code violates the part about exclusive creation and about entries made (counterexamples); RemoveAll can crash beside other removals, and is excluded from C105_stays (a RemoveAll of a directory may remove any name); permissions all granted, views never fail; C105_finishes counts the steps of a call, waiting for locks is C106"
  },
  {
   "property": "C106",
   "status": "partial",
   "theorems": [
    "Verif.Locks.C106_returns_partial",
    "Verif.Locks.C106_never_stuck_partial",
    "Verif.Locks.C106_excludes",
    "Verif.Locks.C106_counterexample_truncate",
    "Verif.Locks.C106_counterexample_truncate_all",
    "Verif.Locks.C106_counterexample_reenter",
    "Verif.Locks.C106_counterexample_reread",
    "Verif.AferoLocks.C106_afero_never_stuck_partial",
    "Verif.AferoLocks.C106_afero_returns_partial",
    "Verif.AferoLocks.C106_afero_returns",
    "Verif.AferoLocks.C106_counterexample_afero"
   ],
   "note": "the code violates it where a view opened with O_TRUNC cannot be truncated (synthfs OpenFile waits for itself), which the theorems leave out, and in aferofs, where concurrent moves can put two directories into each other and Remove then waits for itself; the theorems on aferofs need that no directory lies within itself, which is proved when nobody moves anything"
  },
  {
   "property": "C107",
   "status": "partial",
   "theorems": [
    "Verif.Locks.Atomic.C107_moments_partial",
    "Verif.Locks.Atomic.C107_once",
    "Verif.Locks.Atomic.C107_counterexample_readdir"
   ],
   "note": "ReadDir and Readdir of a synthetic directory read the metadata of entries after the lock is released (counterexample); Chmod and Chown of an open overlay directory lock twice; proved for every call under one lock, with whatever it does there, as long as calls under the read lock change nothing; the count of open handles of an overlay is kept under a lock of its own and is not part of the state"
  },
  {
   "property": "C108",
   "status": "partial",
   "theorems": [
    "Verif.Sftp.Errors.C108_exist_partial",
    "Verif.Sftp.Errors.C108_missing",
    "Verif.Sftp.Errors.C108_kept",
    "Verif.Sftp.Errors.C108_sync",
    "Verif.Sftp.Errors.C108_counterexample_name",
    "Verif.Sftp.Errors.C108_counterexample_link"
   ],
   "note": "fs.ErrExist is decided by searching a text that holds the path, so a path that says \"file exists\" gives it for any failure (counterexample), hence the condition on the path; Link and Rename never report it (counterexample); status codes and texts are as in pkg/sftp, which is trusted"
  },
  {
   "property": "C109",
   "status": "partial",
   "theorems": [
    "Verif.Sftp.Append.C109_honours_partial",
    "Verif.Sftp.Append.C109_alone_partial",
    "Verif.Sftp.Append.C109_os",
    "Verif.Sftp.Append.C109_counterexample_two",
    "Verif.Sftp.Append.C109_counterexample_seek",
    "Verif.Sftp.Append.C109_counterexample_read",
    "Verif.Sftp.Append.C109_counterexample_writeAt"
   ],
   "note": "over the stock server two append handles overwrite each other and a seek makes a write overwrite; over every server reading from an append handle starts at the end and WriteAt is carried out (counterexamples); proved for append handles that are only written, and over the stock server while nobody else changes the length"
  },
  {
   "property": "C11",
   "status": "proved",
   "theorems": [
    "Verif.Stream.Chunk.C11_state_sound",
    "Verif.Stream.Chunk.C11_progress_kept",
    "Verif.Stream.Chunk.C11_converges",
    "Verif.Stream.Chunk.C11_append_success",
    "Verif.Stream.Chunk.C11_counterexample_short_source"
   ],
   "note": "every history of interrupted attempts, including torn PUTs; C11_append_success says what a nil from Append means for any offset and any reader; the counterexample is a side finding about Append returning nil"
  },
  {
   "property": "C110",
   "status": "partial",
   "theorems": [
    "Verif.Fsutil.WrapErr.C110_nil",
    "Verif.Fsutil.WrapErr.C110_names",
    "Verif.Fsutil.WrapErr.C110_link_names",
    "Verif.Fsutil.WrapErr.C110_causes",
    "Verif.Fsutil.WrapErr.C110_link_causes",
    "Verif.Fsutil.WrapErr.C110_once",
    "Verif.Fsutil.WrapErr.C110_others_partial",
    "Verif.Fsutil.WrapErr.C110_link_others_partial",
    "Verif.Fsutil.WrapErr.C110_counterexample_shared"
   ],
   "note": "an error that is a PathError already is changed in place, and so is every error that wraps it (counterexample; the documentation says fields are overwritten); proved for errors that do not share it"
  },
  {
   "property": "C111",
   "status": "partial",
   "theorems": [
    "Verif.Testhelper.C111_link",
    "Verif.Testhelper.C111_dir",
    "Verif.Testhelper.C111_file",
    "Verif.Testhelper.C111_write_dir",
    "Verif.Testhelper.C111_write_link",
    "Verif.Testhelper.C111_write_plain",
    "Verif.Testhelper.C111_write_quoted_partial",
    "Verif.Testhelper.C111_counterexample_arrow",
    "Verif.Testhelper.C111_counterexample_slash",
    "Verif.Testhelper.C111_counterexample_name"
   ],
   "note": "what each line asks for is characterised exactly; a quoted content with an arrow in it is read as a link, an unquoted one that ends in a slash as a directory, and a name ending in an arrow loses it (counterexamples); everything else that is written down is read back"
  },
  {
   "property": "C112",
   "status": "partial",
   "theorems": [
    "Verif.Testhelper.Setup.C112_describes_partial",
    "Verif.Testhelper.Setup.C112_order",
    "Verif.Testhelper.Setup.C112_counterexample_mtime",
    "Verif.Testhelper.Setup.C112_counterexample_mode"
   ],
   "note": "the time of a directory with something below it is lost, and a directory asked for without the write bit makes setting up what lies below it fail, because directories are finished first (counterexamples); proved in all other respects"
  },
  {
   "property": "C113",
   "status": "partial",
   "theorems": [
    "Verif.Vroot.Osfs.C113_forwarded",
    "Verif.Vroot.Osfs.C113_refused",
    "Verif.Vroot.Osfs.C113_escapes",
    "Verif.Vroot.Osfs.C113_accepted",
    "Verif.Vroot.Osfs.C113_stays_partial",
    "Verif.Vroot.Osfs.C113_counterexample_remove"
   ],
   "note": "Unix separators. Remove(\".\") removes the directory itself when it is empty, and Rename passes it on (counterexample); proved in all other respects. Where links lead is the kernel's matter (the documentation says that they can lead out)"
  },
  {
   "property": "C114",
   "status": "proved",
   "theorems": [
    "Verif.Vroot.Osfs.C114_nil",
    "Verif.Vroot.Osfs.C114_recognised",
    "Verif.Vroot.Osfs.C114_names",
    "Verif.Vroot.Osfs.C114_once"
   ],
   "note": "the text compared is that of package os"
  },
  {
   "property": "C115",
   "status": "proved",
   "theorems": [
    "Verif.Vroot.Flock.C115_exclusive",
    "Verif.Vroot.Flock.C115_levels",
    "Verif.Vroot.Flock.C115_granted",
    "Verif.Vroot.Flock.C115_interrupts",
    "Verif.Vroot.Flock.C115_unlock",
    "Verif.Vroot.Flock.C115_note_conversion"
   ],
   "note": "over flock(2) as its manual describes it, conversions not being atomic (C115_note_conversion); Unix"
  },
  {
   "property": "C116",
   "status": "proved",
   "theorems": [
    "Verif.Fsutil.BufPool.C116_own",
    "Verif.Fsutil.BufPool.C116_whole",
    "Verif.Fsutil.BufPool.C116_exclusive",
    "Verif.Fsutil.BufPool.C116_total"
   ],
   "note": "for buffers of any positive size; a Read fills the buffer in one step; WriterTo and ReaderFrom, which go around the buffer, are the backend's own"
  },
  {
   "property": "C117",
   "status": "partial",
   "theorems": [
    "Verif.Synth.BytesView.C117_opens",
    "Verif.Synth.BytesView.C117_answers",
    "Verif.Synth.BytesView.C117_sequence_partial",
    "Verif.Synth.BytesView.C117_seek",
    "Verif.Synth.BytesView.C117_reached",
    "Verif.Synth.BytesView.C117_counterexample_shared"
   ],
   "note": "calls that overlap on one handle are given the same bytes twice and others not at all, because nothing locks the position (counterexample; handles of in-memory files do lock it); proved for calls on a handle that do not overlap, with any number of handles"
  },
  {
   "property": "C118",
   "status": "partial",
   "theorems": [
    "Verif.Fsutil.Copy.C118_copyAll_partial",
    "Verif.Fsutil.Copy.C118_copyPath_partial",
    "Verif.Fsutil.Copy.C118_counterexample_readonly_dir"
   ],
   "note": "the code violates the full property: a directory gets its mode before its entries are made, so that a directory that its owner may not write cannot be copied with its entries by anyone but the superuser (counterexample); proved when the directories of the source let their owner write and search after masking"
  },
  {
   "property": "C119",
   "status": "partial",
   "theorems": [
    "Verif.Fsutil.SafeConc.C119_content_partial",
    "Verif.Fsutil.SafeConc.C119_outcome",
    "Verif.Fsutil.SafeConc.C119_reader_partial",
    "Verif.Fsutil.SafeConc.C119_leftovers_partial",
    "Verif.Fsutil.SafeConc.C119_no_interference_partial",
    "Verif.Fsutil.SafeConc.C119_succeeds",
    "Verif.Fsutil.SafeConc.C119_random_policy_apart",
    "Verif.Fsutil.SafeConc.C119_dir_policy_apart",
    "Verif.Fsutil.SafeConc.C119_counterexample_sweep_and_reuse",
    "Verif.Fsutil.SafeConc.C119_counterexample_sweep_fails_call",
    "Verif.Fsutil.SafeConc.C119_counterexample_named_like_temporary"
   ],
   "note": "proved for any number of writers and every schedule, when no destination is named like a temporary, and no random name comes up twice if temporaries are swept meanwhile; the code violates the property otherwise (counterexamples; a name that comes up twice has a probability of 2^-32 per attempt). A sweep makes the safe writes fail that are under way (counterexample). Destinations nested in each other are left out"
  },
  {
   "property": "C12",
   "status": "partial",
   "theorems": [
    "Verif.Stream.Chunk.C12_get_partial",
    "Verif.Stream.Chunk.C12_counterexample_start_ignored"
   ],
   "note": "the code violates the full property: the start offset in Content-Range is never compared"
  },
  {
   "property": "C120",
   "status": "partial",
   "theorems": [
    "Verif.Fsutil.Sweep.C120_random",
    "Verif.Fsutil.Sweep.C120_dir_partial",
    "Verif.Fsutil.Sweep.C120_finds_random",
    "Verif.Fsutil.Sweep.C120_finds_dir",
    "Verif.Fsutil.Sweep.C120_counterexample_root",
    "Verif.Fsutil.Sweep.C120_note_foreign_file"
   ],
   "note": "proved for both policies, every tree and every combination of failing calls; the policy with a directory only if that is below the root of the walk: with the root itself the temporaries stay (counterexample, the consequence of C22)"
  },
  {
   "property": "C121",
   "status": "partial",
   "theorems": [
    "Verif.Overlay.Files.C121_files_partial",
    "Verif.Overlay.Files.C121_exact_partial",
    "Verif.Overlay.Files.C121_linked",
    "Verif.Overlay.Files.C121_counterexample_lower_links",
    "Verif.Overlay.Files.C121_counterexample_reader",
    "Verif.Overlay.Files.C121_counterexample_chmod_reader"
   ],
   "note": "the code violates the full property: hard links of a lower layer come apart when one name is copied up, a handle opened for reading on a file of a lower layer does not see what is written later, and Chmod through such a handle is refused although it works for files of the top layer (counterexamples); proved otherwise, for the regular files of one directory and layers that do not fail"
  },
  {
   "property": "C122",
   "status": "proved",
   "theorems": [
    "Verif.Vroot.Funcs.C122_readFile",
    "Verif.Vroot.Funcs.C122_readFile_ends",
    "Verif.Vroot.Funcs.C122_writeFile",
    "Verif.Vroot.Funcs.C122_writeFile_crash",
    "Verif.Vroot.Funcs.C122_roundtrip",
    "Verif.Vroot.Funcs.C122_note_not_atomic"
   ],
   "note": "proved for every handle that keeps to the contracts of io.Reader and io.Writer; native ReadFile implementations, to which ReadFile forwards, are outside"
  },
  {
   "property": "C123",
   "status": "partial",
   "theorems": [
    "Verif.Fsutil.PullConc.C123_together_partial",
    "Verif.Fsutil.PullConc.C123_succeeds",
    "Verif.Fsutil.PullConc.C123_counterexample_zeros",
    "Verif.Fsutil.PullConc.C123_counterexample_empty"
   ],
   "note": "the code violates the full property: the part file has the same name for every Pull and nothing locks it, so that two Pulls can both return nil and leave a destination with zeros in it, or an empty one (counterexamples without any failure of a call); proved if nothing comes between asking for the size of the part file and opening it and none starts anew while another has it open"
  },
  {
   "property": "C124",
   "status": "partial",
   "theorems": [
    "Verif.Synth.Meta.C124_size",
    "Verif.Synth.Meta.C124_bytes",
    "Verif.Synth.Meta.C124_kind",
    "Verif.Synth.Meta.C124_mode",
    "Verif.Synth.Meta.C124_time_partial",
    "Verif.Synth.Meta.C124_name",
    "Verif.Synth.Meta.C124_made",
    "Verif.Synth.Meta.C124_listing_partial",
    "Verif.Synth.Meta.C124_counterexample_listing",
    "Verif.Synth.Meta.C124_counterexample_write",
    "Verif.Synth.Meta.C124_counterexample_dir",
    "Verif.Synth.Meta.C124_counterexample_link",
    "Verif.Synth.Meta.C124_counterexample_type"
   ],
   "note": "the code violates the full property: listings give files made through the filesystem the size 0, writing a file or putting an entry into a directory does not change the time, Chmod of one name of a file is not seen under another, and type bits in the permissions given to OpenFile are kept (counterexamples); proved otherwise, for every history"
  },
  {
   "property": "C125",
   "status": "partial",
   "theorems": [
    "Verif.Afero.Meta.C125_size",
    "Verif.Afero.Meta.C125_dir",
    "Verif.Afero.Meta.C125_kind_partial",
    "Verif.Afero.Meta.C125_mode_partial",
    "Verif.Afero.Meta.C125_time_partial",
    "Verif.Afero.Meta.C125_made",
    "Verif.Afero.Meta.C125_write",
    "Verif.Afero.Meta.C125_note_write",
    "Verif.Afero.Meta.C125_counterexample_type",
    "Verif.Afero.Meta.C125_counterexample_mode",
    "Verif.Afero.Meta.C125_counterexample_time",
    "Verif.Afero.Meta.C125_counterexample_name"
   ],
   "note": "the code violates the full property: Chmod keeps type bits, so that a file can say it is a directory; Chmod and Chtimes of a file whose source is not there yet are lost at its first open; writing never changes the time shown; the name stays the old one after a rename (counterexamples); proved otherwise, for every history"
  },
  {
   "property": "C126",
   "status": "proved",
   "theorems": [
    "Verif.Vroot.SubWiden.C126_sub",
    "Verif.Vroot.SubWiden.C126_sub_checks",
    "Verif.Vroot.SubWiden.C126_readonly"
   ],
   "note": "proved for every filesystem below that has no Sub of its own (none in the repository has, except the widened one, which is modelled); a file returned together with an error is not modelled"
  },
  {
   "property": "C127",
   "status": "proved",
   "theorems": [
    "Verif.Synth.Tree.C127_remove",
    "Verif.Synth.Tree.C127_stays",
    "Verif.Synth.Tree.C127_open",
    "Verif.Synth.Tree.C127_close",
    "Verif.Synth.Tree.C127_note_others",
    "Verif.Synth.Tree.C127_note_hard_link"
   ],
   "note": "RemoveAll, Rename and AddFile do not ask (C127_note_others), as documented: the option speaks of Remove only"
  },
  {
   "property": "C128",
   "status": "partial",
   "theorems": [
    "Verif.Overlay.Dsn.C128_file_partial",
    "Verif.Overlay.Dsn.C128_parameters",
    "Verif.Overlay.Dsn.C128_opening",
    "Verif.Overlay.Dsn.C128_counterexample_zero",
    "Verif.Overlay.Dsn.C128_counterexample_root"
   ],
   "note": "the code violates the full property: a name with a zero byte opens the database named by what precedes it, and a name of the root opens a database in memory that is lost (counterexamples); proved for all other names. net/url, the reading of URIs by SQLite and the driver are modelled from their documentation"
  },
  {
   "property": "C129",
   "status": "partial",
   "theorems": [
    "Verif.Http.Request.C129_fields_partial",
    "Verif.Http.Request.C129_read",
    "Verif.Http.Request.C129_stream",
    "Verif.Http.Request.C129_probe_partial",
    "Verif.Http.Request.C129_counterexample_spelling"
   ],
   "note": "the code violates the full property: a Range or Accept-Encoding configured under a name that is not in canonical form is sent besides the own one (counterexample); proved for headers in canonical form. http.Header is modelled from its documentation"
  },
  {
   "property": "C13",
   "status": "proved",
   "theorems": [
    "Verif.Http.C13_parse_exact",
    "Verif.Http.C13_roundtrip"
   ],
   "note": "exact language of the parser over all strings"
  },
  {
   "property": "C130",
   "status": "partial",
   "theorems": [
    "Verif.Stream.FileUrl.C130_place_partial",
    "Verif.Stream.FileUrl.C130_apart_partial",
    "Verif.Stream.FileUrl.C130_headers",
    "Verif.Stream.FileUrl.C130_range",
    "Verif.Stream.FileUrl.C130_counterexample_query",
    "Verif.Stream.FileUrl.C130_counterexample_fragment",
    "Verif.Stream.FileUrl.C130_counterexample_dots",
    "Verif.Stream.FileUrl.C130_counterexample_range"
   ],
   "note": "the code violates the full property: with a query or a fragment in the base URL the name does not reach the path, the name \"..\" leads out of the base, and a configured Range goes with a Get at offset 0 (counterexamples); proved otherwise. net/url and http.Header are modelled from their documentation"
  },
  {
   "property": "C131",
   "status": "partial",
   "theorems": [
    "Verif.Stream.FileClient.C131_get_partial",
    "Verif.Stream.FileClient.C131_stat",
    "Verif.Stream.FileClient.C131_put_partial",
    "Verif.Stream.FileClient.C131_roundtrip_partial",
    "Verif.Stream.FileClient.C131_counterexample_empty",
    "Verif.Stream.FileClient.C131_counterexample_total"
   ],
   "note": "the code violates the full property: the length of an empty object is not announced, and a Get of a whole object whose length the server does not announce gives the size -1 (counterexamples); proved otherwise. What net/http sends for a request is modelled from its documentation"
  },
  {
   "property": "C132",
   "status": "partial",
   "theorems": [
    "Verif.Stream.Chunk.Conc.C132_complete_partial",
    "Verif.Stream.Chunk.Conc.C132_progress_partial",
    "Verif.Stream.Chunk.Conc.C132_finishes",
    "Verif.Stream.Chunk.Conc.C132_counterexample_torn",
    "Verif.Stream.Chunk.Conc.C132_counterexample_short"
   ],
   "note": "the code violates the full property: a local object that ends early in its last chunk is uploaded with success over what another client has stored (counterexample); proved when local objects are there in full or fail, and the server keeps the contract of Client that partial writes do not become visible (without it: counterexample)"
  },
  {
   "property": "C133",
   "status": "partial",
   "theorems": [
    "Verif.Overlay.Attrs.C133_copyup_partial",
    "Verif.Overlay.Attrs.C133_calls_partial",
    "Verif.Overlay.Attrs.C133_counterexample_file",
    "Verif.Overlay.Attrs.C133_counterexample_link",
    "Verif.Overlay.Attrs.C133_counterexample_readonly"
   ],
   "note": "the code violates the full property: owners and the setuid, setgid and sticky bits are not copied, directories above get the time of the call, symlinks lose their time, and a directory that may not be written makes the call fail (counterexamples); everything else is shown as before, and the theorems say exactly what is. Proved for a backend whose Chmod and Chtimes succeed (the code drops their failures); one lower layer, no marks"
  },
  {
   "property": "C134",
   "status": "proved",
   "theorems": [
    "Verif.Stream.Upload.C134_upload",
    "Verif.Stream.Upload.C134_append",
    "Verif.Stream.Upload.C134_read",
    "Verif.Stream.Upload.C134_note_shared"
   ],
   "note": "the sink is run on the requests and answers of the client of C131 and refines the model of C11; that the names of the chunks differ is needed (note)"
  },
  {
   "property": "C135",
   "status": "proved",
   "theorems": [
    "Verif.Stream.Download.C135_download",
    "Verif.Stream.Download.C135_complete",
    "Verif.Stream.Download.C135_note_early"
   ],
   "note": "the chunk readers, their concatenation and the client of C131 with their states; every request, read and close may fail. A body that seems to end early in the last chunk ends the stream without its bytes (note), which the claim excludes"
  },
  {
   "property": "C136",
   "status": "partial",
   "theorems": [
    "Verif.Stream.Transfer.C136_push_partial",
    "Verif.Stream.Transfer.C136_push_completes",
    "Verif.Stream.Transfer.C136_counterexample_empty",
    "Verif.Stream.Transfer.C136_counterexample_empty_nil",
    "Verif.Stream.Transfer.C136_pull",
    "Verif.Stream.Transfer.C136_drains",
    "Verif.Stream.Transfer.C136_completes",
    "Verif.Stream.Transfer.C136_roundtrip_partial"
   ],
   "note": "the code violates the full property: a push of an empty file returns nil without ever storing the chunk that stands for the empty object, and the sink stays incomplete (counterexample); proved for files that are not empty. The adapter between the packages, which is not in the repository, is assumed to hand the calls on"
  },
  {
   "property": "C137",
   "status": "proved",
   "theorems": [
    "Verif.Staging.C137_whole",
    "Verif.Staging.C137_ok",
    "Verif.Staging.C137_untouched",
    "Verif.Staging.C137_foreign",
    "Verif.Staging.C137_swept",
    "Verif.Staging.C137_apart",
    "Verif.Staging.C137_completes",
    "Verif.Staging.C137_note_descriptor"
   ],
   "note": "Any number of copies over any number of tops under any schedule; every backend call may fail. Sources are honest: a file with a descriptor reads what the descriptor is of (the code puts others out of scope; C137_note_descriptor shows the hypothesis is needed). Process crashes only: the code does not sync before the rename. Attributes are C133."
  },
  {
   "property": "C138",
   "status": "partial",
   "theorems": [
    "Verif.Fsutil.Power.C138_synced_partial",
    "Verif.Fsutil.Power.C138_counterexample_unsynced",
    "Verif.Fsutil.Power.C138_counterexample_returned",
    "Verif.Fsutil.Power.C138_counterexample_copyfs"
   ],
   "note": "Proved for Write and Copy: the old or all of the new content, at every moment. Not true of the code: after nil the old content can come back, since no directory is synced (C138_counterexample_returned); CopyFs with SyncHook syncs the new directory only, not the files in it (C138_counterexample_copyfs). C138_counterexample_unsynced shows the hook is needed; FsSink.Commit and the copy-up of overlayfs never sync either."
  },
  {
   "property": "C139",
   "status": "partial",
   "theorems": [
    "Verif.Fsutil.Pull.C139_verified_partial",
    "Verif.Fsutil.Pull.C139_recovers_partial",
    "Verif.Fsutil.Pull.C139_ends_partial",
    "Verif.Fsutil.Pull.C139_counterexample_resumed",
    "Verif.Fsutil.Pull.C139_counterexample_unflushed",
    "Verif.Fsutil.Pull.C139_counterexample_gone",
    "Verif.Fsutil.Pull.C139_counterexample_stuck"
   ],
   "note": "Proved for pulls with a pre-commit hook that flushes and verifies the part file: for every history of pulls, kills and losses the destination is absent or holds the content, success means the content, and two failure-free pulls with a stated size suffice. The code asks for no flush itself: without such a hook a pull returns nil over spoiled bytes (resumed part file, or an existing destination of the right length), and what it committed may be gone again. A part file longer than the content blocks every pull whose caller does not state the size."
  },
  {
   "property": "C14",
   "status": "partial",
   "theorems": [
    "Verif.Http.C14_only_requested_bytes",
    "Verif.Http.C14_eof_only_at_end",
    "Verif.Http.C14_history_exact_partial",
    "Verif.Http.C14_working_server_served",
    "Verif.Http.C14_probe_accepts",
    "Verif.Http.C14_prior_knowledge",
    "Verif.Http.C14_if_range_strong",
    "Verif.Http.C14_whole_answer"
   ],
   "note": "for any server: the range, the total, the validators and EOF; that the bytes are the object's only for a truthful server (C14_history_exact_partial), since a hostile one may send any body under a right header"
  },
  {
   "property": "C140",
   "status": "partial",
   "theorems": [
    "Verif.Afero.Observable.C140_transparent",
    "Verif.Afero.Observable.C140_complete_partial",
    "Verif.Afero.Observable.C140_bracketed",
    "Verif.Afero.Observable.C140_counterexample_which_file",
    "Verif.Afero.Observable.C140_counterexample_whose",
    "Verif.Afero.Observable.C140_counterexample_buffers"
   ],
   "note": "Transparency, one entry per beginning and end, and the bracketing of effects are proved for every filesystem, program and schedule. The entries do not say which file or whose call they belong to, and keep the buffers of the caller instead of copies."
  },
  {
   "property": "C141",
   "status": "partial",
   "theorems": [
    "Verif.Fsutil.Pull.C141_history_partial",
    "Verif.Fsutil.Pull.C141_recovers_partial",
    "Verif.Fsutil.Pull.C141_patched_partial",
    "Verif.Fsutil.Pull.C141_restarted",
    "Verif.Fsutil.Pull.C141_counterexample_part",
    "Verif.Fsutil.Pull.C141_counterexample_committed",
    "Verif.Fsutil.Pull.C141_counterexample_gone"
   ],
   "note": "The sink never flushes, so the full property fails on filesystems where lengths or names reach the disk before bytes (counterexamples). Proved for filesystems that lose only the end of files; for every filesystem the committed file has the right length and is right wherever the partial was."
  },
  {
   "property": "C142",
   "status": "proved",
   "theorems": [
    "Verif.Testhelper.Context.C142_calls",
    "Verif.Testhelper.Context.C142_report",
    "Verif.Testhelper.Context.C142_report_reads_back",
    "Verif.Testhelper.Context.C142_entry_tells"
   ],
   "note": "arguments other than names are taken as the text fmt makes of them (two modes that print alike have the same entry); Fatalf is trusted to end the test"
  },
  {
   "property": "C143",
   "status": "proved",
   "theorems": [
    "Verif.Synth.Tree.C143_addFS_asks",
    "Verif.Synth.Tree.C143_addFS_refused",
    "Verif.Synth.Tree.C143_addFile_asks"
   ],
   "note": "callbacks that agree on the questions named do the same to every tree; entries at the top of a source added at the root must have proper names, as fs.ReadDir gives them"
  },
  {
   "property": "C144",
   "status": "partial",
   "theorems": [
    "Verif.Overlay.SqlVfs.C144_synced_partial",
    "Verif.Overlay.SqlVfs.C144_names_partial",
    "Verif.Overlay.SqlVfs.C144_exclusive_partial",
    "Verif.Overlay.SqlVfs.C144_transaction_partial",
    "Verif.Overlay.SqlVfs.C144_counterexample_journal",
    "Verif.Overlay.SqlVfs.C144_counterexample_delete"
   ],
   "note": "The directory is never synced: in the transaction that makes the journal, the synced journal can be missing after a loss while the database is half written, and where sqlite deletes the journal (it does not under exclusive locking), it can come back and undo a committed transaction (counterexamples). Proved: every later sequence of transactions under exclusive locking, at every moment, on every filesystem; transactions that delete the journal where names reach the disk at once; synced bytes under names that did not change, for every history. sqlite itself is not modelled, only the order of its calls, which is an assumption"
  },
  {
   "property": "C15",
   "status": "proved",
   "theorems": [
    "Verif.Http.C15_write_once",
    "Verif.Http.C15_all_checked_against_same",
    "Verif.Http.C15_retries_bounded"
   ],
   "note": "every schedule of any number of concurrent calls"
  },
  {
   "property": "C16",
   "status": "proved",
   "theorems": [
    "Verif.Http.C16_newRange_section",
    "Verif.Http.C16_locate_exact"
   ],
   "note": "all int64 values"
  },
  {
   "property": "C17",
   "status": "proved",
   "theorems": [
    "Verif.Http.C17_served_reads_exact",
    "Verif.Http.C17_at_end",
    "Verif.Http.C17_one_stream_exclusive",
    "Verif.Http.C17_dead_forever",
    "Verif.Http.C17_no_leak"
   ],
   "note": "every interleaving of reads, closes and other requests; one stream, exclusive use, death after the first failure and closing of the body hold for any server; that the bytes are the object's needs a truthful server, as for range requests (C14); the section is non-empty (otherwise there is no stream)"
  },
  {
   "property": "C18",
   "status": "partial",
   "theorems": [
    "Verif.Fsutil.Safe.C18_atomic_partial",
    "Verif.Fsutil.Safe.C18_succeeds",
    "Verif.Fsutil.Safe.C18_copy_partial",
    "Verif.Fsutil.Safe.C18_copy_succeeds",
    "Verif.Fsutil.Safe.C18_copyfs_partial",
    "Verif.Fsutil.Safe.C18_random_policy_apart_partial",
    "Verif.Fsutil.Safe.C18_counterexample_temp_is_target",
    "Verif.Fsutil.Safe.C18_panic"
   ],
   "note": "every crash point and fault combination, for Write, Copy and CopyFs; on success the temporary is gone and nothing else changed; without failures the write succeeds. Missing: the temporary must lie apart from the target, which the default policy guarantees only for names of up to 240 bytes (the counterexample shows the temporary being the target); hooks and the operation must keep to the temporary, as documented"
  },
  {
   "property": "C19",
   "status": "partial",
   "theorems": [
    "Verif.Fsutil.Safe.C19_cleanup_partial",
    "Verif.Fsutil.Safe.C19_counterexample_mkdir_leak",
    "Verif.Fsutil.Safe.C19_counterexample_errors_dropped",
    "Verif.Fsutil.Safe.C19_counterexample_panic"
   ],
   "note": "proved for every failure after the temporary was created, under the conditions of C18 (that the handle is closed exactly once is part of C20_order). Fails: MkdirRandom leaks its directory when opening it fails; errors of the cleanup are dropped; when a hook or the writer function panics the temporary is neither closed nor removed (three counterexamples)"
  },
  {
   "property": "C20",
   "status": "proved",
   "theorems": [
    "Verif.Fsutil.Safe.C20_order",
    "Verif.Fsutil.Safe.C20_plan"
   ],
   "note": ""
  },
  {
   "property": "C21",
   "status": "proved",
   "theorems": [
    "Verif.Fsutil.C21_match_exact",
    "Verif.Fsutil.C21_accepts",
    "Verif.Fsutil.C21_temp_names",
    "Verif.Fsutil.C21_distinct",
    "Verif.Fsutil.C21_valid_utf8"
   ],
   "note": "every target string and 32-bit random number"
  },
  {
   "property": "C22",
   "status": "partial",
   "theorems": [
    "Verif.Fsutil.C22_recognises_partial",
    "Verif.Fsutil.C22_match_sound",
    "Verif.Fsutil.C22_counterexample_dot_and_root"
   ],
   "note": "the code never recognises its own files when the directory is \".\" or \"/\""
  },
  {
   "property": "C23",
   "status": "proved",
   "theorems": [
    "Verif.Fsutil.C23_opened",
    "Verif.Fsutil.C23_failures"
   ],
   "note": "others may create and remove names between attempts"
  },
  {
   "property": "C24",
   "status": "proved",
   "theorems": [
    "Verif.Fsutil.C24_prefix",
    "Verif.Fsutil.C24_longest_valid",
    "Verif.Fsutil.C24_counterexample_invalid_input"
   ],
   "note": "the counterexample is about the stronger promise of the doc comment"
  },
  {
   "property": "C25",
   "status": "partial",
   "theorems": [
    "Verif.Fsutil.Pull.C25_never_a_mixture_partial",
    "Verif.Fsutil.Pull.C25_success_is_complete_partial",
    "Verif.Fsutil.Pull.C25_expected_version_partial",
    "Verif.Fsutil.Pull.C25_crash_points_partial",
    "Verif.Fsutil.Pull.C25_counterexample_without_etags",
    "Verif.Fsutil.Pull.C25_counterexample_stale_sidecar",
    "Verif.Fsutil.Pull.C25_counterexample_existing_target"
   ],
   "note": "proved for a source that always reports ETags, starting without target and partial, over every history of pulls with kills at any point. Fails: without ETags, or with ETags only sometimes (the API allows an empty ETag), a mixture is committed; a target that already exists is accepted by its size alone, whatever it holds (counterexamples)"
  },
  {
   "property": "C26",
   "status": "proved",
   "theorems": [
    "Verif.Fsutil.Pull.C26_partial_is_prefix",
    "Verif.Fsutil.Pull.C26_success_is_source",
    "Verif.Fsutil.Pull.C26_no_loss",
    "Verif.Fsutil.Pull.C26_completes"
   ],
   "note": ""
  },
  {
   "property": "C27",
   "status": "partial",
   "theorems": [
    "Verif.Fsutil.Pull.C27_history_partial",
    "Verif.Fsutil.Pull.C27_success_partial",
    "Verif.Fsutil.Pull.C27_converges_partial",
    "Verif.Fsutil.Pull.C27_versions_partial",
    "Verif.Fsutil.Pull.C27_append",
    "Verif.Fsutil.Pull.C27_append_succeeds",
    "Verif.Fsutil.Pull.C27_counterexample_empty_file",
    "Verif.Fsutil.Pull.C27_counterexample_empty_over_partial",
    "Verif.Fsutil.Pull.C27_counterexample_sidecar_rewrite",
    "Verif.Fsutil.Pull.C27_counterexample_shrinks",
    "Verif.Fsutil.Pull.C27_counterexample_same_length",
    "Verif.Fsutil.Pull.C27_note_complete"
   ],
   "note": "the code violates the full property: empty files, files shortened while they are pushed, partials of other files without ETags, and kills during the rewrite of the sidecar followed by a changed file. C27_append covers one append on any disk at any offset"
  },
  {
   "property": "C28",
   "status": "partial",
   "theorems": [
    "Verif.Fsutil.Resolve.C28_terminates",
    "Verif.Fsutil.Resolve.C28_never_escapes",
    "Verif.Fsutil.Resolve.C28_escape_is_error_partial",
    "Verif.Fsutil.Resolve.C28_errors",
    "Verif.Fsutil.Resolve.C28_counterexample_limit",
    "Verif.Fsutil.Resolve.C28_note_forty"
   ],
   "note": "also for filesystems that change during the resolution; the other errors are failed calls and 40 links read, nothing else. Missing: a link that leaves the root gives the loop error instead of the escape error when it is the one reaching the limit (counterexample)"
  },
  {
   "property": "C29",
   "status": "partial",
   "theorems": [
    "Verif.Fsutil.Resolve.C29_no_symlinks",
    "Verif.Fsutil.Resolve.C29_same_file_partial",
    "Verif.Fsutil.Resolve.C29_same_parent_partial",
    "Verif.Fsutil.Resolve.C29_resolves_partial",
    "Verif.Fsutil.Resolve.C29_resolves_parent_partial",
    "Verif.Fsutil.Resolve.C29_counterexample_chained_ascent",
    "Verif.Fsutil.Resolve.C29_counterexample_ascent_from_link",
    "Verif.Fsutil.Resolve.C29_counterexample_name_ascends"
   ],
   "note": "absence of symlinks is proved in full; same file, and that what the kernel reaches through fewer than 40 links is resolved, are proved unless \"..\" is applied after a link, where the code answers wrongly (counterexamples)"
  },
  {
   "property": "C30",
   "status": "proved",
   "theorems": [
    "Verif.Fsutil.C30_unix",
    "Verif.Fsutil.C30_plan9",
    "Verif.Fsutil.C30_windows",
    "Verif.Fsutil.C30_idempotent",
    "Verif.Fsutil.C30_unix_keeps"
   ],
   "note": "bit by bit, all 2^32 modes"
  },
  {
   "property": "C31",
   "status": "partial",
   "theorems": [
    "Verif.Fsutil.C31_from_head",
    "Verif.Fsutil.C31_from_tail_partial",
    "Verif.Fsutil.C31_counterexample_root_twice",
    "Verif.Fsutil.C31_vroot_iterators"
   ],
   "note": "the tail iteration yields the root twice for \"/\""
  },
  {
   "property": "C32",
   "status": "proved",
   "theorems": [
    "Verif.Fsutil.Copy.C32_reproduces",
    "Verif.Fsutil.Copy.C32_prefix",
    "Verif.Fsutil.Copy.C32_succeeds",
    "Verif.Fsutil.Copy.C32_counterexample_existing_file_mode"
   ],
   "note": "CopyAll into an empty destination with IgnoreErr unset, every crash point and every failing call; the counterexample shows what happens to files that exist"
  },
  {
   "property": "C33",
   "status": "proved",
   "theorems": [
    "Verif.Tarfs.C33_valid_iff",
    "Verif.Tarfs.C33_partition",
    "Verif.Tarfs.C33_canonical_unique",
    "Verif.Tarfs.C33_inverse_valid",
    "Verif.Tarfs.C33_twice_canonical"
   ],
   "note": "inverting twice is canonical up to an empty last fragment"
  },
  {
   "property": "C34",
   "status": "proved",
   "theorems": [
    "Verif.Tarfs.C34_sparse_reads",
    "Verif.Tarfs.C34_body_end",
    "Verif.Tarfs.C34_plain_reads"
   ],
   "note": "the reader over the archive is assumed to fill the buffer unless it meets the end"
  },
  {
   "property": "C35",
   "status": "partial",
   "theorems": [
    "Verif.Tarfs.C35_base256_exact",
    "Verif.Tarfs.C35_numeric_exact_partial",
    "Verif.Tarfs.C35_counterexample_wide_octal"
   ],
   "note": "base-256 of any width; octal only up to 21 bytes (header fields have 8 or 12). Fails: 22 octal digits wrap (counterexample)"
  },
  {
   "property": "C36",
   "status": "partial",
   "theorems": [
    "Verif.Tarfs.C36_tree_exact",
    "Verif.Tarfs.C36_open_file",
    "Verif.Tarfs.C36_open_dir",
    "Verif.Tarfs.C36_open_root",
    "Verif.Tarfs.C36_root_header",
    "Verif.Tarfs.C36_counterexample_root_file",
    "Verif.Tarfs.C36_absent",
    "Verif.Tarfs.C36_invalid",
    "Verif.Tarfs.C36_only_archive",
    "Verif.Tarfs.C36_listing_partial",
    "Verif.Tarfs.C36_handle_partial",
    "Verif.Tarfs.C36_counterexample_implicit_dir",
    "Verif.Tarfs.C36_counterexample_shadowed",
    "Verif.Tarfs.C36_counterexample_dotdot_name",
    "Verif.Tarfs.C36_counterexample_absolute_name",
    "Verif.Tarfs.C36_counterexample_listed_name"
   ],
   "note": "the code violates the full property: implicit directories, a file with entries beneath it, names beginning with two dots, absolute names, a root recorded as a file; proved otherwise"
  },
  {
   "property": "C37",
   "status": "partial",
   "theorems": [
    "Verif.Tarfs.C37_terminates_partial",
    "Verif.Tarfs.C37_no_panic_partial",
    "Verif.Tarfs.C37_confined",
    "Verif.Tarfs.C37_counterexample_dotdot_target",
    "Verif.Tarfs.C37_counterexample_hardlink_twice",
    "Verif.Tarfs.C37_counterexample_diverges",
    "Verif.Tarfs.C37_counterexample_dot_target"
   ],
   "note": "the code violates the full property: a link to \"..\" panics, hard links to hard links panic, a hard link through itself recurses for ever; proved for archives whose hard links name regular files"
  },
  {
   "property": "C38",
   "status": "proved",
   "theorems": [
    "Verif.Vroot.C38_never_changes",
    "Verif.Vroot.C38_mutating_refused",
    "Verif.Vroot.C38_reads_transparent"
   ],
   "note": "every wrapped filesystem whose reading calls only read; the raw descriptor from Fd is outside the model"
  },
  {
   "property": "C39",
   "status": "proved",
   "theorems": [
    "Verif.Vroot.C39_writeOp",
    "Verif.Vroot.C39_access",
    "Verif.Vroot.C39_not_writeOp"
   ],
   "note": ""
  },
  {
   "property": "C40",
   "status": "proved",
   "theorems": [
    "Verif.Vroot.C40_forwarded",
    "Verif.Vroot.C40_refused",
    "Verif.Vroot.C40_accepted",
    "Verif.Vroot.C40_injective",
    "Verif.Vroot.C40_nested"
   ],
   "note": ""
  },
  {
   "property": "C41",
   "status": "partial",
   "theorems": [
    "Verif.Vroot.C41_removeAll_partial",
    "Verif.Vroot.C41_only_base_partial",
    "Verif.Vroot.C41_counterexample_remove_base"
   ],
   "note": "the code refuses only RemoveAll; Remove and Rename of \".\" reach the base directory (counterexample for every prefix)"
  },
  {
   "property": "C42",
   "status": "partial",
   "theorems": [
    "Verif.Vroot.Walk.C42_exactly_partial",
    "Verif.Vroot.Walk.C42_no_root",
    "Verif.Vroot.Walk.C42_listing",
    "Verif.Vroot.Walk.C42_visits_partial",
    "Verif.Vroot.Walk.C42_tree_complete_partial",
    "Verif.Vroot.Walk.C42_once",
    "Verif.Vroot.Walk.C42_counterexample_hidden_sibling",
    "Verif.Vroot.Walk.C42_counterexample_skip_too_much",
    "Verif.Vroot.Walk.C42_counterexample_native"
   ],
   "note": "the code violates the full property when the Lstat of a listed entry fails, and in its order where a filesystem lists for itself; proved otherwise, for every callback, with and without following links"
  },
  {
   "property": "C43",
   "status": "proved",
   "theorems": [
    "Verif.Vroot.Walk.C43_no_reentry",
    "Verif.Vroot.Walk.C43_terminates",
    "Verif.Vroot.Walk.C43_terminates_real"
   ],
   "note": ""
  },
  {
   "property": "C44",
   "status": "proved",
   "theorems": [
    "Verif.Vroot.C44_valid_exact",
    "Verif.Vroot.C44_refused",
    "Verif.Vroot.C44_forwarded",
    "Verif.Vroot.C44_never_changes",
    "Verif.Vroot.C44_file_answers"
   ],
   "note": ""
  },
  {
   "property": "C45",
   "status": "proved",
   "theorems": [
    "Verif.Synth.C45_byte_array",
    "Verif.Synth.C45_cut_is_gone",
    "Verif.Synth.C45_note_sparse_write_panics"
   ],
   "note": "every history, every allocator; the note shows the panic when the allocator refuses a huge extension"
  },
  {
   "property": "C46",
   "status": "proved",
   "theorems": [
    "Verif.Synth.C46_handles_are_posix",
    "Verif.Synth.C46_refused_without_effect"
   ],
   "note": "every history of calls on every number of handles"
  },
  {
   "property": "C47",
   "status": "partial",
   "theorems": [
    "Verif.Synth.C47_one_handle_partial",
    "Verif.Synth.C47_counterexample"
   ],
   "note": "the code violates the property with two append handles: reading the length and writing are separate critical sections"
  },
  {
   "property": "C48",
   "status": "partial",
   "theorems": [
    "Verif.Synth.Tree.C48_listing",
    "Verif.Synth.Tree.C48_one_path",
    "Verif.Synth.Tree.C48_rename_partial",
    "Verif.Synth.Tree.C48_acyclic_partial",
    "Verif.Synth.Tree.C48_removeAll_ends_partial",
    "Verif.Synth.Tree.C48_counterexample_rename_into_itself"
   ],
   "note": "the code accepts a rename of a directory into its own subtree (counterexample: the directory is lost and contains itself, and RemoveAll through another root never ends); proved for every history without such a rename"
  },
  {
   "property": "C49",
   "status": "proved",
   "theorems": [
    "Verif.Synth.Tree.C49_resolve_exact",
    "Verif.Synth.Tree.C49_refused",
    "Verif.Synth.Tree.C49_confined",
    "Verif.Synth.Tree.C49_openRoot",
    "Verif.Synth.Tree.C49_changes_confined"
   ],
   "note": "every history of calls through every number of roots"
  },
  {
   "property": "C50",
   "status": "partial",
   "theorems": [
    "Verif.Synth.DirPage.C50_pages_partial",
    "Verif.Synth.DirPage.C50_unchanged_partial",
    "Verif.Synth.DirPage.C50_never_twice",
    "Verif.Synth.DirPage.C50_counterexample_removal",
    "Verif.Synth.DirPage.C50_note_huge_batch_panics",
    "Verif.Synth.DirSeek.C50_seek_partial",
    "Verif.Synth.DirSeek.C50_rewind",
    "Verif.Synth.DirSeek.C50_end_partial",
    "Verif.Synth.DirSeek.C50_closed",
    "Verif.Synth.DirSeek.C50_note_seek_position"
   ],
   "note": "the code violates the full property: removing an entry that was already delivered makes later reads skip others; proved for histories in which entries are only added"
  },
  {
   "property": "C51",
   "status": "partial",
   "theorems": [
    "Verif.Synth.Tree.C51_keep_partial",
    "Verif.Synth.Tree.C51_failOnConflict",
    "Verif.Synth.Tree.C51_addFile_keeps",
    "Verif.Synth.Tree.C51_keep_fills_partial",
    "Verif.Synth.Tree.C51_overwrite_partial",
    "Verif.Synth.Tree.C51_failOnConflict_lands_partial",
    "Verif.Synth.Tree.C51_addFile",
    "Verif.Synth.Tree.C51_addFile_policies",
    "Verif.Synth.Tree.C51_addFS_succeeds",
    "Verif.Synth.Tree.C51_counterexample_keep_replaces_file",
    "Verif.Synth.Tree.C51_counterexample_dangling_parent"
   ],
   "note": "the code violates the full property: with MergeKeep a source directory replaces an existing file, and a dangling link in the place of a parent is replaced under every policy (counterexamples); proved otherwise: what is kept, what is found afterwards at which place, which parents are made, and when the calls succeed. Not stated: what a custom callback that replaces directories by directories leads to"
  },
  {
   "property": "C52",
   "status": "partial",
   "theorems": [
    "Verif.Synth.Ranged.C52_section_partial",
    "Verif.Synth.Ranged.C52_every_range",
    "Verif.Synth.Ranged.C52_accepts",
    "Verif.Synth.Ranged.C52_exact",
    "Verif.Synth.Ranged.C52_nests_partial",
    "Verif.Synth.Ranged.C52_counterexample_length_overflow",
    "Verif.Synth.Ranged.C52_note_range_beyond_end"
   ],
   "note": "the code violates the full property for ranges whose end overflows int64, which the constructor does not check: view and handle report different lengths (counterexample); the bytes read are right for every range (C52_every_range). A range reaching past the backing file announces its full length but reads only what exists (note)"
  },
  {
   "property": "C53",
   "status": "partial",
   "theorems": [
    "Verif.Overlay.Stack.C53_lookup_partial",
    "Verif.Overlay.Stack.C53_listing_partial",
    "Verif.Overlay.Stack.C53_lists_directories",
    "Verif.Overlay.Stack.C53_counterexample_lower_link"
   ],
   "note": "the code violates the full property: a lower layer that holds a symlink where the merged view has a directory answers lookups through its own symlink but is not listed; proved when no layer that can contribute keeps a symlink on the way"
  },
  {
   "property": "C54",
   "status": "proved",
   "theorems": [
    "Verif.Overlay.Stack.C54_lower_unchanged"
   ],
   "note": "every history of calls, of changes through handles and of crashes"
  },
  {
   "property": "C55",
   "status": "proved",
   "theorems": [
    "Verif.Overlay.Stack.C55_remove",
    "Verif.Overlay.Stack.C55_removeAll",
    "Verif.Overlay.Stack.C55_everywhere",
    "Verif.Overlay.Stack.C55_nonempty_refused_partial"
   ],
   "note": "every crash point, for layers that are trees (a parent of every entry is a directory) and names whose directory is shown as one, as resolved names are; every history keeps the layers trees (C72), so this holds at every point of every history (C55_everywhere). The refusal of a non-empty directory is an extra, proved for contents that are listed (see C53)"
  },
  {
   "property": "C56",
   "status": "partial",
   "theorems": [
    "Verif.Overlay.Stack.C56_mkdir_partial",
    "Verif.Overlay.Stack.C56_listing_partial",
    "Verif.Overlay.Stack.C56_mkdirAll_partial",
    "Verif.Overlay.Stack.C56_everywhere_partial",
    "Verif.Overlay.Stack.C56_exists",
    "Verif.Overlay.Stack.C56_counterexample_stale_opaque"
   ],
   "note": "the code violates the full property when an interrupted rename left an opaque mark on a parent the top no longer holds (counterexample); proved otherwise, in particular at every point of a history without a rename cut short (C73)"
  },
  {
   "property": "C57",
   "status": "partial",
   "theorems": [
    "Verif.Overlay.Stack.C57_copyUp_partial",
    "Verif.Overlay.Stack.C57_exact_partial",
    "Verif.Overlay.Stack.C57_one_lower",
    "Verif.Overlay.Stack.C57_everywhere_partial",
    "Verif.Overlay.Stack.C57_counterexample_modes",
    "Verif.Overlay.Stack.C57_counterexample_stale_opaque"
   ],
   "note": "the code violates the full property: directories above the name get the permission bits of the layer the file came from, and a left-over opaque mark is cleared (counterexamples); proved otherwise, in particular at every point of a history without a rename cut short (C73)"
  },
  {
   "property": "C58",
   "status": "partial",
   "theorems": [
    "Verif.Overlay.Stack.C58_rename_partial",
    "Verif.Overlay.Stack.C58_failed_partial",
    "Verif.Overlay.Stack.C58_everywhere_partial",
    "Verif.Overlay.Stack.C58_same_name",
    "Verif.Overlay.Stack.C58_refused",
    "Verif.Overlay.Stack.C58_nonempty_target_refused_partial"
   ],
   "note": "exact under both names; other names up to permission bits of directories that copy-up creates (C57) and when no interrupted rename left an opaque mark behind, which no other call does (C73)"
  },
  {
   "property": "C59",
   "status": "partial",
   "theorems": [
    "Verif.Overlay.Stack.C59_atomic_partial",
    "Verif.Overlay.Stack.C59_no_loss_partial",
    "Verif.Overlay.Stack.C59_others_partial",
    "Verif.Overlay.Stack.C59_everywhere_partial",
    "Verif.Overlay.Stack.C59_counterexample_old_resurfaces",
    "Verif.Overlay.Stack.C59_counterexample_removed_resurfaces"
   ],
   "note": "the code violates the full property: a crash after the move shows a lower file under both names, or brings back a removed lower file beneath the target (counterexamples); atomic when the lower layers hold nothing for the names, and in every case nothing is lost and no other name changes"
  },
  {
   "property": "C60",
   "status": "proved",
   "theorems": [
    "Verif.Overlay.C60_reopen_same_marks",
    "Verif.Overlay.C60_store_well_kept"
   ],
   "note": "every history of mark changes and every pattern of store failures"
  },
  {
   "property": "C61",
   "status": "proved",
   "theorems": [
    "Verif.Overlay.C61_range_delete_exact",
    "Verif.Overlay.C61_range_delete_bytes",
    "Verif.Overlay.Stack.C61_clear_subtree",
    "Verif.Overlay.Stack.C61_rename_subtree"
   ],
   "note": ""
  },
  {
   "property": "C62",
   "status": "proved",
   "theorems": [
    "Verif.Overlay.Handles.C62_remove_guard",
    "Verif.Overlay.Handles.C62_removeAll_guard",
    "Verif.Overlay.Handles.C62_guard_off",
    "Verif.Overlay.Handles.C62_close_twice",
    "Verif.Overlay.Handles.C62_note_rename_moves_no_handle"
   ],
   "note": "the name a handle was opened under is what counts; the note shows that a rename moves no handle"
  },
  {
   "property": "C63",
   "status": "partial",
   "theorems": [
    "Verif.Overlay.Names.C63_name",
    "Verif.Overlay.Names.C63_resolve",
    "Verif.Overlay.Names.C63_probes",
    "Verif.Overlay.Names.C63_subroot",
    "Verif.Overlay.Names.C63_mkdirAll",
    "Verif.Overlay.Names.C63_above",
    "Verif.Overlay.Names.C63_layer_path_partial",
    "Verif.Overlay.Names.C63_staging",
    "Verif.Overlay.Names.C63_counterexample_plain_root"
   ],
   "note": "the root of a plain layer is addressed as the empty string, which is not a clean path (counterexample); proved for every other name; the merged view answering the resolution is arbitrary"
  },
  {
   "property": "C64",
   "status": "partial",
   "theorems": [
    "Verif.Overlay.Lock.C64_exact_partial",
    "Verif.Overlay.Lock.C64_never_less_partial",
    "Verif.Overlay.Lock.C64_exclusion_partial",
    "Verif.Overlay.Lock.C64_failed_lock_keeps_partial",
    "Verif.Overlay.Lock.C64_readonly",
    "Verif.Overlay.Lock.C64_counterexample_failed_unlock",
    "Verif.Overlay.Lock.C64_counterexample_dropped_upgrade"
   ],
   "note": "the code violates the full property: a failed unlock lowers the level while the lock is still held, and a conversion that drops the lock leaves the level (counterexamples); proved when neither happens"
  },
  {
   "property": "C65",
   "status": "partial",
   "theorems": [
    "Verif.Sftp.C65_resolve",
    "Verif.Sftp.C65_confined_partial",
    "Verif.Sftp.C65_removeAll_base",
    "Verif.Sftp.C65_counterexample_hostile_names"
   ],
   "note": "names and every call for servers that list plain names. Fails: a server listing names with separators steers the recursive removal out of the root (counterexample)"
  },
  {
   "property": "C66",
   "status": "partial",
   "theorems": [
    "Verif.Vroot.C66_normalizer",
    "Verif.Vroot.C66_from_valid_partial",
    "Verif.Vroot.C66_from_place",
    "Verif.Vroot.C66_round_trip",
    "Verif.Vroot.C66_counterexample_invalid_utf8"
   ],
   "note": "Unix separators. Missing: only for names that are valid UTF-8 are the names passed on valid; others are passed on although io/fs declares them invalid (counterexample)"
  },
  {
   "property": "C67",
   "status": "partial",
   "theorems": [
    "Verif.Sftp.C67_open_keeps_mode_partial",
    "Verif.Sftp.C67_counterexample_create_chmods",
    "Verif.Sftp.C67_counterexample_mkdirAll_chmods"
   ],
   "note": "the code violates the property"
  },
  {
   "property": "C68",
   "status": "partial",
   "theorems": [
    "Verif.Overlay.Stack.C68_chmod_partial",
    "Verif.Overlay.Stack.C68_open_partial",
    "Verif.Overlay.Stack.C68_create_partial",
    "Verif.Overlay.Stack.C68_open_missing",
    "Verif.Overlay.Stack.C68_symlink_partial",
    "Verif.Overlay.Stack.C68_link_partial",
    "Verif.Overlay.Stack.C68_everywhere_partial"
   ],
   "note": "proved for resolved names when no interrupted rename left an opaque mark behind (see C57), in particular at every point of a history without a rename cut short (C73)"
  },
  {
   "property": "C69",
   "status": "partial",
   "theorems": [
    "Verif.Fsutil.Copy.C69_only_named_partial",
    "Verif.Fsutil.Copy.C69_overwrites_partial",
    "Verif.Fsutil.Copy.C69_counterexample_dir_onto_file",
    "Verif.Fsutil.Copy.C69_follow_only_named_partial",
    "Verif.Fsutil.Copy.C69_follow_overwrites_partial",
    "Verif.Fsutil.Copy.C69_counterexample_through_link",
    "Verif.Fsutil.Copy.C69_counterexample_through_linked_dir"
   ],
   "note": "the code violates the full property: a symlink of the destination in the place of a file or directory of the source is written through, so that a place the source does not name changes; a source directory copied onto an existing file reports success, leaves the file and gives it the mode of the directory (counterexamples); proved when no symlink is on the way and no file stands where the source has a directory"
  },
  {
   "property": "C70",
   "status": "partial",
   "theorems": [
    "Verif.Fsutil.Copy.C70_only_named_partial",
    "Verif.Fsutil.Copy.C70_copies_partial",
    "Verif.Fsutil.Copy.C70_succeeds",
    "Verif.Fsutil.Copy.C70_counterexample_nested_root",
    "Verif.Fsutil.Copy.C70_follow_only_named_partial",
    "Verif.Fsutil.Copy.C70_follow_copies_partial",
    "Verif.Fsutil.Copy.C70_counterexample_through_link"
   ],
   "note": "the code violates the full property: a symlink of the destination on the way is written through (counterexample), with a root of two or more components the call never succeeds (counterexample), and a file in the place of a directory stays as in C69; with every other root it succeeds when nothing fails and the places are free (C70_succeeds)"
  },
  {
   "property": "C71",
   "status": "partial",
   "theorems": [
    "Verif.Tarfs.C71_open_partial",
    "Verif.Tarfs.C71_lstat_partial",
    "Verif.Tarfs.C71_sub_partial",
    "Verif.Tarfs.C71_sub_agrees",
    "Verif.Tarfs.C71_counterexample_lexical",
    "Verif.Tarfs.C71_counterexample_lstat_implicit",
    "Verif.Tarfs.C37_counterexample_dot_target",
    "Verif.Tarfs.C37_counterexample_dotdot_target",
    "Verif.Tarfs.C37_counterexample_hardlink_twice"
   ],
   "note": "the code violates the full property: a target with \"..\" after a name is cleaned as text, a target of \".\" or \"..\" loses the rest of the name or panics, a hard link to a hard link panics, and Lstat of a directory without a header panics (counterexamples); proved for hard links that name files and symbolic links that are absolute (refused) or steps up followed by names"
  },
  {
   "property": "C72",
   "status": "proved",
   "theorems": [
    "Verif.Overlay.Stack.C72_layers_stay_trees"
   ],
   "note": "any names, resolved or not; a write through a handle may change content and attributes of the node, not its kind; the top lists its directories completely in every state it can be in"
  },
  {
   "property": "C73",
   "status": "partial",
   "theorems": [
    "Verif.Overlay.Stack.C73_marks_held_partial",
    "Verif.Overlay.Stack.C73_by_path_partial",
    "Verif.Overlay.Stack.C73_counterexample_rename_cut_short"
   ],
   "note": "the code violates the full property: a process dying in a rename between the move and the update of the records leaves the record on a name that is gone (counterexample); proved for histories in which the process does not die inside a rename, for calls on names whose directory shows as one"
  },
  {
   "property": "C74",
   "status": "proved",
   "theorems": [
    "Verif.Sftp.C74_requests"
   ],
   "note": "every call but RemoveAll (C75), OpenRoot, Close and Name, which send nothing of their own; Lchown sends the chown that follows links, as its comment says"
  },
  {
   "property": "C75",
   "status": "proved",
   "theorems": [
    "Verif.Sftp.C75_whatever_fails",
    "Verif.Sftp.C75_ends",
    "Verif.Sftp.C75_complete"
   ],
   "note": "the server as a tree whose paths lead through no links; listings hold plain names (C65 has the counterexample for other names)"
  },
  {
   "property": "C76",
   "status": "proved",
   "theorems": [
    "Verif.Sftp.Paging.C76_pages",
    "Verif.Sftp.Paging.C76_each_once"
   ],
   "note": ""
  },
  {
   "property": "C77",
   "status": "partial",
   "theorems": [
    "Verif.Synth.Tree.C77_mkdir",
    "Verif.Synth.Tree.C77_mkdirAll",
    "Verif.Synth.Tree.C77_symlink",
    "Verif.Synth.Tree.C77_link",
    "Verif.Synth.Tree.C77_open",
    "Verif.Synth.Tree.C77_remove",
    "Verif.Synth.Tree.C77_removeAll_partial",
    "Verif.Synth.Tree.C77_rename",
    "Verif.Synth.Tree.C77_note_create_through_dangling_link",
    "Verif.Synth.Tree.C77_counterexample_failed_open"
   ],
   "note": "an open that fails in the view leaves the file it made. RemoveAll is covered when it ends; it does not when a directory was moved into itself (C48_counterexample_rename_into_itself). AddFile and AddFS are C51; times and owners are not modelled"
  },
  {
   "property": "C78",
   "status": "partial",
   "theorems": [
    "Verif.Synth.Tree.C78_views_partial",
    "Verif.Synth.Tree.C78_counterexample_hard_link",
    "Verif.Synth.Tree.C78_counterexample_rename_onto_itself",
    "Verif.Synth.Tree.C78_counterexample_file_over_directory",
    "Verif.Synth.Tree.C78_counterexample_keep_replaces_file"
   ],
   "note": "the code violates the full property (counterexamples: hard links, a rename onto itself, AddFile or AddFS over a directory, MergeKeep with a directory over a file); proved for every history of Mkdir, MkdirAll, Create, Symlink, Remove, RemoveAll, Rename, AddFile, AddFS and OpenRoot without those, with views that are not shared by the caller; AddFS under MergeOverwrite, FailOnConflict or any policy that does not keep, without a file or link over a directory"
  },
  {
   "property": "C79",
   "status": "partial",
   "theorems": [
    "Verif.Overlay.Stack.C79_plain",
    "Verif.Overlay.Stack.C79_remove_partial",
    "Verif.Overlay.Stack.C79_removeAll_partial",
    "Verif.Overlay.Stack.C79_mkdir_partial",
    "Verif.Overlay.Stack.C79_mkdirAll_partial",
    "Verif.Overlay.Stack.C79_symlink_partial",
    "Verif.Overlay.Stack.C79_link_partial",
    "Verif.Overlay.Stack.C79_rename_partial",
    "Verif.Overlay.Stack.C79_chmod_partial",
    "Verif.Overlay.Stack.C79_attr_partial",
    "Verif.Overlay.Stack.C79_open_partial",
    "Verif.Overlay.Stack.C79_stat_partial",
    "Verif.Overlay.Stack.C79_found_partial",
    "Verif.Overlay.Stack.C79_found_mkdirAll_partial",
    "Verif.Overlay.Stack.C79_counterexample_links_across_layers"
   ],
   "note": "proved: paths without symlinks on the way mean what they say (C79_plain, all calls); with symlinks, at every point of a history of calls by path in which no rename is cut short, every call has its effect at one name at or below the root used, with no symlink above it, which is the one walking the path leads to when the symlinks lead through real directories and the path has no \"..\" (C29 shows the code differs otherwise). Conversely what walking reaches through fewer than 40 symlinks is found, under the same conditions (C79_found). Missing: that for other symlinks; the code violates it (counterexample: a symlink to a path through a symlink into another layer). MkdirAll and OpenFile on a symlink that cannot be followed are C80"
  },
  {
   "property": "C80",
   "status": "partial",
   "theorems": [
    "Verif.Overlay.Stack.C80_confined_partial",
    "Verif.Overlay.Stack.C80_history_partial",
    "Verif.Overlay.Stack.C80_counterexample_open_through_links",
    "Verif.Overlay.Stack.C80_counterexample_base_replaced",
    "Verif.Overlay.Stack.C80_note_mkdir_dot"
   ],
   "note": "the code violates the full property: OpenFile with O_CREATE on a symlink that cannot be followed lets the top layer follow it out of the sub-root, and a sub-root whose directory was replaced by a symlink works on the directory that leads to (counterexamples); proved for all other calls by path, for a sub-root whose directory is there at the start, and for every sequence of such calls. Writes through open handles are not included"
  },
  {
   "property": "C81",
   "status": "proved",
   "theorems": [
    "Verif.Overlay.Stack.C81_no_mark_lost"
   ],
   "note": "for moves to a name that is neither inside the moved directory nor around it, which is what Rename asks for"
  },
  {
   "property": "C82",
   "status": "proved",
   "theorems": [
    "Verif.Overlay.Stack.C82_changes",
    "Verif.Overlay.Stack.C82_history",
    "Verif.Overlay.Stack.C82_opened",
    "Verif.Overlay.Stack.C82_questions"
   ],
   "note": "names are clean paths below the root; the store calls do not fail (what failures leave is C60 and C81)"
  },
  {
   "property": "C83",
   "status": "proved",
   "theorems": [
    "Verif.Fsutil.Pull.C83_committed_means_accepted",
    "Verif.Fsutil.Pull.C83_rejected_is_discarded",
    "Verif.Fsutil.Pull.C83_success_leaves_nothing",
    "Verif.Fsutil.Pull.C83_existing_target",
    "Verif.Fsutil.Pull.C83_expected_size",
    "Verif.Fsutil.Pull.C83_foreign_partial_recovers"
   ],
   "note": "hooks judge the bytes of the part file and do not write to it; removals that fail are left out where things must be gone"
  },
  {
   "property": "C84",
   "status": "partial",
   "theorems": [
    "Verif.Overlay.Stack.C84_new_partial",
    "Verif.Overlay.Stack.C84_open_partial",
    "Verif.Overlay.Stack.C84_chmod_partial",
    "Verif.Overlay.Stack.C84_remove_partial",
    "Verif.Overlay.Stack.C84_removeAll_partial",
    "Verif.Overlay.Stack.C84_mkdirAll_partial",
    "Verif.Overlay.Stack.C84_link_partial",
    "Verif.Overlay.Stack.C84_rename_partial",
    "Verif.Overlay.Stack.C84_by_path_new_partial",
    "Verif.Overlay.Stack.C84_by_path_open_partial",
    "Verif.Overlay.Stack.C84_by_path_remove_partial",
    "Verif.Overlay.Stack.C84_by_path_move_partial",
    "Verif.Overlay.Stack.C84_counterexample_mkdirAll_link",
    "Verif.Overlay.Stack.C84_counterexample_create_through_link"
   ],
   "note": "the code violates it for MkdirAll of a symlink to a directory and for creating through a dangling symlink. Proved: at every point of a history without a rename cut short (C73), for names whose directory shows as one; and for paths that lead there (C79_found: symlinks that lead straight to their targets, no \"..\"); the layers do not fail, and the path resolution of a lower layer fails only by components that are missing or no directories. Left out: devices, opening or chmod of a symlink, and for Remove of a directory and Rename onto one the case of symlinks in the place of a directory on the way (the listing of C53)"
  },
  {
   "property": "C85",
   "status": "partial",
   "theorems": [
    "Verif.Overlay.DirHandle.C85_pages_partial",
    "Verif.Overlay.DirHandle.C85_whole_partial",
    "Verif.Overlay.DirHandle.C85_end",
    "Verif.Overlay.DirHandle.C85_readdir_partial",
    "Verif.Overlay.DirHandle.C85_readdir_error",
    "Verif.Overlay.DirHandle.C85_closed",
    "Verif.Overlay.DirHandle.C85_counterexample_readdir_loses_entries",
    "Verif.Overlay.DirHandle.C85_counterexample_huge_size"
   ],
   "note": "the code violates the full property: Readdir loses a whole page when one of its entries has vanished, and a page size that overflows when added to the position panics (counterexamples); proved for ReadDir and Readdirnames with sizes that do not overflow, with any history of other changes. The listing belongs to the name the directory was opened under, also when the directory has been moved since"
  },
  {
   "property": "C86",
   "status": "proved",
   "theorems": [
    "Verif.Afero.C86_valid",
    "Verif.Afero.C86_invalid_refused",
    "Verif.Afero.C86_stat",
    "Verif.Afero.C86_listing",
    "Verif.Afero.C86_chmod",
    "Verif.Afero.C86_listed_once",
    "Verif.Afero.C86_note_chmodDir"
   ],
   "note": "Mkdir is the exception to the names (C87)"
  },
  {
   "property": "C87",
   "status": "partial",
   "theorems": [
    "Verif.Afero.C87_mkdir_partial",
    "Verif.Afero.C87_mkdir_fails",
    "Verif.Afero.C87_mkdirAll",
    "Verif.Afero.C87_mkdirAll_ok",
    "Verif.Afero.C87_counterexample_dotdot",
    "Verif.Afero.C87_counterexample_slash",
    "Verif.Afero.C87_counterexample_long",
    "Verif.Afero.C87_counterexample_readOnly",
    "Verif.Afero.C87_counterexample_search"
   ],
   "note": "the code violates the full property (counterexamples): Mkdir checks only the parent of the name, so Mkdir(\"..\") and names of 256 bytes leave entries no name reaches and Mkdir(\"a/\") makes a/a; MkdirAll does not ask for write permission, and with a permission without the search bit it makes the directory and then fails. Mkdir is proved for valid names with valid parents"
  },
  {
   "property": "C88",
   "status": "partial",
   "theorems": [
    "Verif.Afero.C88_remove",
    "Verif.Afero.C88_remove_fails",
    "Verif.Afero.C88_removeAll_partial",
    "Verif.Afero.C88_removeAll_root",
    "Verif.Afero.C88_counterexample_removeAll"
   ],
   "note": "the code violates the full property: RemoveAll of a directory in which there is something returns nil and leaves it, and every non-empty directory below (counterexample). Proved: what is left is exactly those"
  },
  {
   "property": "C89",
   "status": "partial",
   "theorems": [
    "Verif.Afero.C89_succeeds_partial",
    "Verif.Afero.C89_fails",
    "Verif.Afero.C89_into_itself",
    "Verif.Afero.C89_lands",
    "Verif.Afero.C89_same_base_partial",
    "Verif.Afero.C89_counterexample_name",
    "Verif.Afero.C89_counterexample_other",
    "Verif.Afero.C89_counterexample_dir"
   ],
   "note": "the code violates the full property: the entry keeps its old last element, so Rename(a, b) leaves a, and Rename(a/x, b/y) replaces b/x (counterexamples). Proved: exactly where it lands; it is a move when the last elements are equal"
  },
  {
   "property": "C90",
   "status": "partial",
   "theorems": [
    "Verif.Afero.C90_open_existing",
    "Verif.Afero.C90_open_create_partial",
    "Verif.Afero.C90_open_fails",
    "Verif.Afero.C90_addFile_partial",
    "Verif.Afero.C90_addFile_fails",
    "Verif.Afero.C90_counterexample_umask",
    "Verif.Afero.C90_counterexample_dot",
    "Verif.Afero.C90_counterexample_root"
   ],
   "note": "the code violates the full property: the umask is not applied to files, AddFile(\".\") leaves an entry no name reaches, and the root is opened whatever the flags (counterexamples)"
  },
  {
   "property": "C91",
   "status": "partial",
   "theorems": [
    "Verif.Afero.C91_conserved_partial",
    "Verif.Afero.C91_told_once_partial",
    "Verif.Afero.C91_counterexample_rename",
    "Verif.Afero.C91_counterexample_reallocate",
    "Verif.Afero.C91_counterexample_copy",
    "Verif.Afero.C91_note_create"
   ],
   "note": "the code violates the full property: what a Rename replaces is never closed, Reallocate closes the old view twice and leaks the new one when copying fails (counterexamples). Proved for histories without these"
  },
  {
   "property": "C92",
   "status": "proved",
   "theorems": [
    "Verif.Afero.Mem.C92_handles",
    "Verif.Afero.Mem.C92_panics",
    "Verif.Afero.Mem.C92_closed",
    "Verif.Afero.Mem.C92_note_readonly_truncates",
    "Verif.Afero.Mem.C92_note_panics",
    "Verif.Afero.Mem.C92_note_empty_read"
   ],
   "note": "calls one after the other (C93 for concurrent appends); the access bits O_RDONLY|O_TRUNC cut the file, as POSIX leaves open, and a read of nothing at the end reports io.EOF (notes)"
  },
  {
   "property": "C93",
   "status": "partial",
   "theorems": [
    "Verif.Afero.Mem.C93_one_handle_partial",
    "Verif.Afero.Mem.C93_counterexample"
   ],
   "note": "the code violates the full property: taking the length and writing are two critical sections of the file, so appends through two handles overwrite each other (counterexample). Proved for any number of goroutines on one handle"
  },
  {
   "property": "C94",
   "status": "partial",
   "theorems": [
    "Verif.Afero.C94_pages_partial",
    "Verif.Afero.C94_each_once_partial",
    "Verif.Afero.C94_listing",
    "Verif.Afero.C94_counterexample_shared",
    "Verif.Afero.C94_counterexample_seek",
    "Verif.Afero.C94_counterexample_seekEnd",
    "Verif.Afero.C94_note_one_view"
   ],
   "note": "the code violates the full property: pages share the memory of the listing, so a caller that appends to one changes the next entry, and Seek begins anew also when it is refused or goes to the end (counterexamples). Proved for callers that do not append to pages; the specification of Seek in the theorem is what the code does"
  },
  {
   "property": "C95",
   "status": "partial",
   "theorems": [
    "Verif.Afero.Closable.C95_refused_after_close",
    "Verif.Afero.Closable.C95_refused_only_after_close",
    "Verif.Afero.Closable.C95_closed_once_partial",
    "Verif.Afero.Closable.C95_counterexample_twice",
    "Verif.Afero.Closable.C95_counterexample_use_after_close"
   ],
   "note": "the code violates the full property: two concurrent Close calls both reach the file below, and a call that was let through can reach it after Close returned (counterexamples). Closed once is proved when one goroutine does the closing"
  },
  {
   "property": "C96",
   "status": "partial",
   "theorems": [
    "Verif.Afero.Views.C96_range_partial",
    "Verif.Afero.Views.C96_accepts",
    "Verif.Afero.Views.C96_size_partial",
    "Verif.Afero.Views.C96_counterexample_size",
    "Verif.Afero.Views.C96_never_closed",
    "Verif.Afero.Views.C96_counterexample_leak",
    "Verif.Afero.Views.C96_same_file_partial",
    "Verif.Afero.Views.C96_never_removed",
    "Verif.Afero.Views.C96_counterexample_tmp"
   ],
   "note": "the code violates the full property: Stat of a ranged view reports n - off, what its handles open is never closed, and closing a temporary view forgets the path before removing it, so no temporary file is ever removed (counterexamples; the last two are proved for every history). Proved: the bytes shown, for ranges that do not overflow int64, and one file until the first close"
  },
  {
   "property": "C97",
   "status": "partial",
   "theorems": [
    "Verif.Afero.ValidPath.C97_same_place",
    "Verif.Afero.ValidPath.C97_valid_partial",
    "Verif.Afero.ValidPath.C97_canonical",
    "Verif.Afero.ValidPath.C97_idempotent",
    "Verif.Afero.ValidPath.C97_calls",
    "Verif.Afero.ValidPath.C97_counterexample_root",
    "Verif.Afero.ValidPath.C97_counterexample_up"
   ],
   "note": "the code violates the full property: \"/\" becomes the empty name, \"\" stays empty, and relative names that climb above the root are handed through, all of them invalid (counterexamples); C97_valid_partial says exactly for which names the result is valid. The place, the canonical form, idempotence and the forwarding of the calls are proved for every name"
  },
  {
   "property": "C98",
   "status": "partial",
   "theorems": [
    "Verif.Afero.C98_map_partial",
    "Verif.Afero.C98_map_fails",
    "Verif.Afero.C98_copy_told",
    "Verif.Afero.C98_copy_partial",
    "Verif.Afero.C98_copy_succeeds",
    "Verif.Afero.C98_counterexample_lost",
    "Verif.Afero.C98_counterexample_file",
    "Verif.Afero.C98_counterexample_half"
   ],
   "note": "the code violates the full property: empty directories and files that are not regular are left out silently, a source root that is a file copies nothing without an error, and after a failure what was added stays (counterexamples). What success means, when it is certain and where a failing mapping stops are proved; the destination name \".\" is left out of the mapping (C90_counterexample_dot)"
  },
  {
   "property": "C99",
   "status": "partial",
   "theorems": [
    "Verif.Afero.IoFs.C99_readonly",
    "Verif.Afero.IoFs.C99_refused",
    "Verif.Afero.IoFs.C99_open",
    "Verif.Afero.IoFs.C99_file_partial",
    "Verif.Afero.IoFs.C99_readdirnames",
    "Verif.Afero.IoFs.C99_counterexample_listing",
    "Verif.Afero.IoFs.C99_io_open",
    "Verif.Afero.IoFs.C99_counterexample_dropped",
    "Verif.Afero.IoFs.C99_io_readDir_partial"
   ],
   "note": "the code violates the full property: directories of io/fs, which have ReadDir and not Readdir, cannot be listed through the adapter, and entries read before an error are dropped by ReadDir (counterexamples). That nothing changes is proved for every history; the readonly argument of NewIoFsAdapter is ignored"
  }
 ]
}