{"id": "C01", "title": "Object IDs print and parse without loss", "statement": "Printing an object ID and parsing the text gives the same ID back; any text that parses as an ID is exactly the text that ID prints as, so no two texts name one object and no two objects share a text. IDs sort the same way as text and as bytes.", "quantifier": "every 28-byte ID and every byte string offered as an ID", "why_tests_cant": "There are 2^224 IDs and unboundedly many candidate strings; the last symbol carries a padding bit that only some inputs exercise.", "anchors": ["src/hashing.rs: ObjectId Display/FromStr, BASE32"]}
{"id": "C02", "title": "Pack manifests survive the trip to disk", "statement": "Serialising a pack manifest and reading it back yields the same list of (kind, length, id), whatever bytes follow it; the bytes agree with the checked-in reference file.", "quantifier": "every manifest whose lengths fit in 32 bits and whose IDs are 28 bytes", "why_tests_cant": "Every list length and integer-width boundary of CBOR has its own encoding branch.", "anchors": ["src/pack.rs: PackManifestEntry, serialize_and_hash, manifest_from_reader"]}
{"id": "C03", "title": "Index files survive the trip to disk", "statement": "Serialising an index (superseded IDs and pack manifests) and reading it back yields the same index.", "quantifier": "every index", "why_tests_cant": "Unbounded nested maps and lists; examples exercise one shape.", "anchors": ["src/index.rs: Index, to_file, from_reader"]}
{"id": "C04", "title": "Directory trees survive the trip to disk", "statement": "Serialising a directory tree and decoding it yields the same names, contents kinds, chunk lists, subtree IDs, link targets and POSIX or Windows metadata, provided timestamps are within the 64-bit nanosecond range. Outside that range timestamps are silently changed.", "quantifier": "every tree", "why_tests_cant": "Unbounded maps with optional fields and untagged variants; the timestamp overflow needs dates past 2262.", "anchors": ["src/tree.rs: Node, NodeContents, NodeMetadata, serialize_and_hash", "src/prettify.rs: instant, instant_option"]}
{"id": "C05", "title": "Snapshot files survive the trip to disk", "statement": "Serialising a snapshot in the current format and loading it yields the same time, zone, author, tags, paths and root tree. A snapshot file of the older format, whose time is text, is read as what it says, and files of any other format are refused.", "quantifier": "every snapshot", "why_tests_cant": "All tag/path lists and author presence combinations.", "anchors": ["src/snapshot.rs: Snapshot, SnapshotV2, to_file, from_reader"]}
{"id": "C06", "title": "A written pack file can be read back", "statement": "For any non-empty sequence of blobs, the pack file the packer writes passes verification, yields its own manifest and ID when only the tail is read, and yields each blob's exact bytes when asked for by ID.", "quantifier": "every non-empty sequence of blobs and every way the compressor may cut its frame", "why_tests_cant": "Offsets depend on all earlier blob lengths and on the compressor's output size.", "anchors": ["src/pack.rs: PackfileWriter::write_blob, finalize, verify, manifest_from_reader, load_manifest, extract_blob"]}
{"id": "C07", "title": "Reads never return bytes that do not hash to the requested ID", "statement": "Whatever bytes the backend returns for a pack, a successful blob extraction, tree load or chunk read yields bytes whose hash is the requested ID; successful verification means every manifest entry's bytes hash to its ID.", "quantifier": "every byte string a backend could return, every manifest, every ID", "why_tests_cant": "Corruptions are arbitrary byte strings.", "anchors": ["src/pack.rs: verify, extract_blob, append_to_forest", "src/read.rs: load_pack", "src/tree.rs: Cache::read", "src/index.rs: load", "src/snapshot.rs: load"]}
{"id": "C08", "title": "Packing loses, duplicates and reorders nothing", "statement": "The packs a packer produces contain exactly the blobs it was given, each once and in order, no pack is empty, and each pack's ID is the hash of its manifest, whatever sizes the compressor reports.", "quantifier": "every sequence of non-empty blobs, every pack size target, every sequence of compressed-size measurements", "why_tests_cant": "The cut points depend on compressed sizes and a floating-point estimate.", "anchors": ["src/pack.rs: pack, PackfileWriter"]}
{"id": "C09", "title": "Packs stop growing once they reach the target size", "statement": "A packer writes at most the pack-size target's worth of uncompressed data, as scaled by the best compression ratio seen, past a size check, and never adds a blob to a pack whose measured compressed size has reached the target.", "quantifier": "every sequence of blobs and compressed-size measurements", "why_tests_cant": "Depends on the history of flushes and the re-estimation of when to check next.", "anchors": ["src/pack.rs: pack (check_size, flush_and_check_size, bytes_before_next_check)"]}
{"id": "C10", "title": "Chunks concatenate to the file", "statement": "Concatenating a file's chunks in order gives the file's bytes; every chunk is non-empty, at most the maximum size, and all but the last are at least the minimum size; each chunk's ID is the hash of its bytes.", "quantifier": "every file content and every cut-point function that respects the chunker's contract", "why_tests_cant": "File contents are unbounded and cut points are content-dependent.", "anchors": ["src/chunk.rs: chunk_file, ChunkIterator, MIN_SIZE, MAX_SIZE"]}
{"id": "C11", "title": "Threaded chunking gives the same chunks as simple chunking", "statement": "For large files the chunking/hashing pipeline hands its consumer the same blobs in the same order as the single-threaded path, in every interleaving, and cannot deadlock while the consumer keeps reading.", "quantifier": "every file and every schedule of the two threads", "why_tests_cant": "Interleavings.", "anchors": ["src/chunk.rs: chunk_file threaded path"]}
{"id": "C12", "title": "Indexes never precede their packs", "statement": "During a backup, copy, filter or prune, in every interleaving of the main thread, two packers, indexer and uploader, and at every instant the process might die, each index the command has placed in the repository lists only packs that are already in the repository.", "quantifier": "every schedule, every crash point, every blob sequence, every pack cut", "why_tests_cant": "Thread schedules and crash points.", "anchors": ["src/backup.rs: backup_master_thread", "src/pack.rs: pack", "src/index.rs: index", "src/upload.rs: upload"]}
{"id": "C13", "title": "Snapshots appear only once their data is there", "statement": "At every instant of a backup or copy, a snapshot visible in the repository has its whole tree and every file chunk available through the repository's indexes.", "quantifier": "every schedule, every crash point, every file tree", "why_tests_cant": "Thread schedules and crash points.", "anchors": ["src/ui/backup.rs: run", "src/ui/copy.rs: run", "src/backup.rs: Backup::join"]}
{"id": "C14", "title": "An interrupted backup can always be resumed", "statement": "Whenever a backup dies, every pack listed in the work-in-progress index is in the working directory or the repository, so the next backup accepts it instead of refusing to start.", "quantifier": "every schedule and crash point", "why_tests_cant": "Crash points between the upload, the indexing and the rename of a pack.", "anchors": ["src/backup.rs: find_resumable, find_cwd_packfiles, upload_cwd_packfiles", "src/index.rs: index, to_temp_file", "src/backend.rs: CachedBackend::write"]}
{"id": "C15", "title": "A finished backup pipeline indexed exactly what it was given", "statement": "When the pipeline finishes, the index it uploaded lists the starting packs plus new packs whose blobs are exactly those sent, each once; when nothing was sent and the starting index was empty no index is uploaded.", "quantifier": "every schedule", "why_tests_cant": "Interleavings of two packers with one indexer.", "anchors": ["src/backup.rs: backup_master_thread, Backup::join", "src/index.rs: index"]}
{"id": "C16", "title": "The backup pipeline cannot hang", "statement": "Once the command stops sending blobs, the pipeline's threads can always run to completion; and before that the command is never blocked forever on a send. (False on machines with fewer than four physical cores, where threads are started through a core-count semaphore.)", "quantifier": "every schedule, every number of physical cores", "why_tests_cant": "Deadlocks depend on schedules and on hardware.", "anchors": ["src/backup.rs: backup_master_thread", "src/concurrently.rs: named_concurrently", "src/semaphored.rs"]}
{"id": "C17", "title": "The master index is the union of all live indexes", "statement": "Loading the repository's indexes gives exactly the packs of the indexes that no index supersedes, independent of the order in which concurrent loads finish.", "quantifier": "every set of indexes and every completion order", "why_tests_cant": "Completion orders are factorial in the number of indexes.", "anchors": ["src/index.rs: build_master_index"]}
{"id": "C18", "title": "Blob lookup is exact or refuses", "statement": "Looking a blob up gives a pack whose manifest lists that blob, every listed blob can be looked up, sizes agree with the manifest, and the lookup table is refused exactly when some blob is listed twice.", "quantifier": "every master index", "why_tests_cant": "Unbounded maps.", "anchors": ["src/index.rs: blob_to_pack_map, blob_id_set, blob_to_size_map"]}
{"id": "C19", "title": "Backup stores each blob once and only if it is new", "statement": "A backup sends each blob at most once, never sends a blob the repository or resumed index already lists, and every chunk and tree the snapshot needs is either already listed or sent (the empty directory excepted).", "quantifier": "every file tree, parent snapshot, skip filter and set of already-packed blobs", "why_tests_cant": "Depends on all repeated contents in the tree.", "anchors": ["src/ui/backup.rs: backup_tree", "src/fs_tree.rs: walk_fs"]}
{"id": "C20", "title": "What was backed up is what is in the snapshot", "statement": "After a backup, reading the snapshot back yields the file tree that was walked: same names, structure, symlink targets, metadata and file bytes, leaving out exactly the skipped paths and unsupported file types.", "quantifier": "every file tree, skip filter, chunker and repository", "why_tests_cant": "Unbounded trees and content.", "anchors": ["src/ui/backup.rs: backup_tree", "src/fs_tree.rs: walk_fs", "src/tree.rs"]}
{"id": "C21", "title": "Incremental backup equals full backup", "statement": "If every file whose type, size and modification time match the parent snapshot really has the parent's contents, a backup against a parent gives the same snapshot tree as a backup without one; a file whose type, size or mtime differs is always re-read.", "quantifier": "every file tree and parent snapshot", "why_tests_cant": "All combinations of changed and unchanged files at all depths.", "anchors": ["src/fs_tree.rs: file_changed, walk_fs", "src/ui/backup.rs: backup_tree, parent_snapshot"]}
{"id": "C22", "title": "The parent snapshot is the newest one of the same paths", "statement": "The parent used for an incremental backup covers exactly the requested paths and no later snapshot does; when no snapshot covers them there is no parent.", "quantifier": "every chronological snapshot list and path set", "why_tests_cant": "Unbounded histories.", "anchors": ["src/ui/backup.rs: parent_snapshot"]}
{"id": "C23", "title": "The reachable forest is exactly what the root reaches", "statement": "Loading a snapshot's forest terminates and yields exactly the trees reachable from its root; a repository whose trees form a cycle is refused rather than looped on.", "quantifier": "every store of trees, cyclic or not", "why_tests_cant": "Graph shapes are unbounded.", "anchors": ["src/tree.rs: forest_from_root, append_tree, chunks_in_tree"]}
{"id": "C24", "title": "Prune keeps everything snapshots need, at every instant", "statement": "At every instant of a prune, and after it, every blob reachable from any snapshot is listed by the live indexes in a pack that is present.", "quantifier": "every repository whose snapshots are intact, every schedule, every crash point", "why_tests_cant": "Crash points and the choice of packs to rewrite.", "anchors": ["src/ui/prune.rs: run", "src/repack.rs: walk_snapshots", "src/index.rs: index"]}
{"id": "C25", "title": "Prune resumed from a work-in-progress index keeps everything snapshots need", "statement": "A prune that picks up a work-in-progress index keeps every blob reachable from any snapshot. (True if nothing but prunes ran since; false in general: a leftover index from a prune before a forget, or from `rebuild-index --dry-run`, makes prune delete packs its own index still lists.)", "quantifier": "every repository, every history of interrupted commands", "why_tests_cant": "Needs a particular history of interrupted commands.", "anchors": ["src/ui/prune.rs: run (resume check)", "src/backup.rs: find_resumable", "src/ui/rebuild_index.rs: run"]}
{"id": "C26", "title": "Prune leaves nothing unreachable", "statement": "After a prune every blob the live index lists is reachable from some snapshot and listed once, no listed pack is missing, and pruning again finds nothing to do.", "quantifier": "every intact repository", "why_tests_cant": "All sharing patterns between packs and snapshots.", "anchors": ["src/ui/prune.rs: run, reachable_blobs, partition_reusable_packs"]}
{"id": "C27", "title": "An interrupted command never harms the next one's data", "statement": "Starting a backup, copy or prune after any earlier command was interrupted leaves every existing snapshot readable. (False for a backup after an interrupted prune: it adopts the prune's list of superseded indexes without its unfinished packs.)", "quantifier": "every history of interrupted commands", "why_tests_cant": "Needs a particular interruption followed by a particular command.", "anchors": ["src/ui/backup.rs: run", "src/backup.rs: find_resumable", "src/index.rs: build_master_index"]}
{"id": "C28", "title": "Rebuilding the index makes every pack findable and loses nothing", "statement": "At every instant of rebuild-index each blob findable before is still findable and afterwards every blob in every pack is listed. The result is usable by other commands exactly when no blob is stored in two packs.", "quantifier": "every repository, every crash point, every pack reading order", "why_tests_cant": "Crash points and leftover packs.", "anchors": ["src/ui/rebuild_index.rs: run", "src/index.rs: index, blob_to_pack_map"]}
{"id": "C29", "title": "Forget removes only what it is told to", "statement": "Forget removes exactly the named snapshots and no pack or index; forgetting duplicates keeps the first of every run of snapshots with equal trees, so every tree that was reachable still is.", "quantifier": "every snapshot list and argument list", "why_tests_cant": "Unbounded histories with repeated trees.", "anchors": ["src/ui/forget.rs"]}
{"id": "C30", "title": "Copy reproduces snapshots exactly", "statement": "Copying with no skips puts in the destination a snapshot with the same ID and the same tree ID whose whole contents are readable there; with skips, the copied tree is the original without the skipped paths.", "quantifier": "every source and destination repository and skip filter", "why_tests_cant": "Unbounded trees and all prior destination contents.", "anchors": ["src/ui/copy.rs: run", "src/repack.rs: walk_snapshots, walk_tree, repack_chunk"]}
{"id": "C31", "title": "Filtering a snapshot removes exactly the skipped paths", "statement": "The filtered snapshot's tree is the original without the skipped paths, everything else is unchanged down to the IDs of untouched subtrees, the original snapshot is untouched, and filtering nothing makes no new snapshot.", "quantifier": "every snapshot and filter", "why_tests_cant": "Unbounded trees.", "anchors": ["src/ui/filter_snapshot.rs: run, walk_tree"]}
{"id": "C32", "title": "A clean check means every snapshot is readable", "statement": "If check --read-packs reports no problem, every tree and chunk of every snapshot can be read and hashes to its ID; and if all snapshots are intact and all packs sound check reports no problem.", "quantifier": "every repository state, including corrupted ones", "why_tests_cant": "Corruptions are arbitrary.", "anchors": ["src/ui/check.rs"]}
{"id": "C33", "title": "Chunk reads are right whatever is cached", "statement": "Reading a chunk returns the stored bytes regardless of earlier reads and evictions, never fails because the chunk was just evicted, and the cache never holds more than twice the largest pack.", "quantifier": "every sequence of reads over every repository, with a strictly increasing clock", "why_tests_cant": "Depends on the whole read history.", "anchors": ["src/read.rs: ChunkReader::read_blob, load_pack, ChunkCache"]}
{"id": "C34", "title": "Size accounting adds up", "statement": "For each snapshot, introduced plus reused bytes is the total size of the tree; summed over all snapshots, introduced bytes is the total size of the distinct reachable blobs.", "quantifier": "every set of snapshots and visiting order", "why_tests_cant": "All sharing patterns.", "anchors": ["src/tree.rs: forest_sizes, tree_size, node_size", "src/ui/usage.rs", "src/ui/snapshots.rs"]}
{"id": "C35", "title": "Size accounting works on every backed-up snapshot", "statement": "usage and snapshot sizes succeed for every snapshot a backup can create. (False: any empty directory makes them fail, because the empty tree is never packed.)", "quantifier": "every file tree", "why_tests_cant": "Only trees with empty directories show it.", "anchors": ["src/tree.rs: tree_size", "src/ui/backup.rs: backup_tree"]}
{"id": "C36", "title": "Snapshot names resolve to the right snapshot", "statement": "LAST~N resolves to the Nth newest, a full ID to itself, and a prefix of at least four characters to the only snapshot it matches; ambiguous, short or unknown names are errors, never a wrong snapshot.", "quantifier": "every snapshot list and name", "why_tests_cant": "All lists and strings.", "anchors": ["src/snapshot.rs: find"]}
{"id": "C37", "title": "Snapshot argument lists are chronological and free of repeats", "statement": "A list of snapshot names resolves to the named snapshots in time order, each once, when timestamps differ. (With equal timestamps repeats can survive.)", "quantifier": "every snapshot list and argument list", "why_tests_cant": "Sorting and de-duplication over all lists.", "anchors": ["src/snapshot.rs: from_args_list, load_chronologically"]}
{"id": "C38", "title": "Diff reports exactly the differences", "statement": "Comparing two trees reports a path as added, removed, changed or retyped exactly when it is, reports nothing for equal trees, and swapping sides swaps additions and removals.", "quantifier": "every pair of trees and forests", "why_tests_cant": "Unbounded trees.", "anchors": ["src/diff.rs: compare_trees, compare_nodes"]}
{"id": "C39", "title": "Restore with --delete reproduces the snapshot", "statement": "After restore --delete, the destination contains exactly the snapshot's files, directories and symlinks with the snapshot's contents, provided files matching in size and mtime already match in content.", "quantifier": "every destination tree and snapshot", "why_tests_cant": "All pairs of trees.", "anchors": ["src/ui/restore.rs", "src/diff.rs", "src/fs_tree.rs: forest_from_fs"]}
{"id": "C40", "title": "Restore without --delete removes nothing extra", "statement": "Without --delete no path absent from the snapshot is removed and no directory is replaced, and every snapshot path not in conflict with an existing directory has the snapshot's contents afterwards.", "quantifier": "every destination tree and snapshot", "why_tests_cant": "All pairs of trees.", "anchors": ["src/ui/restore.rs: Callbacks"]}
{"id": "C41", "title": "Dry runs change nothing", "statement": "With --dry-run, restore changes no file and backup, copy, prune, filter-snapshot, forget and rebuild-index change nothing in the repository. (The working directory's work-in-progress index is nonetheless deleted.)", "quantifier": "every state and schedule", "why_tests_cant": "Schedules and all states.", "anchors": ["src/upload.rs: upload", "src/ui/backup.rs: run", "src/ui/prune.rs: run", "src/ui/copy.rs: run", "src/ui/filter_snapshot.rs: run", "src/ui/forget.rs: forget_snapshot", "src/ui/rebuild_index.rs: run", "src/ui/restore.rs: run", "src/backup.rs: Backup::join"]}
{"id": "C42", "title": "Restore writes only where it should", "statement": "Every path a restore touches is one of the restored paths, or below it, or below --output when given.", "quantifier": "every snapshot with single-component names and every path mapping", "why_tests_cant": "All paths.", "anchors": ["src/ui/restore.rs: translate_path, load_fs_tree_and_mapping"]}
{"id": "C43", "title": "ls lists every entry once", "statement": "Listing a snapshot recursively prints each path in it exactly once, parents before children, siblings in name order.", "quantifier": "every tree", "why_tests_cant": "Unbounded trees.", "anchors": ["src/ls.rs"]}
{"id": "C44", "title": "dump prints the file at the given path", "statement": "dump prints the contents of exactly the entry the path names, and fails when the path names nothing. (False when a component is a symlink: lookup continues beside the link.)", "quantifier": "every tree and path", "why_tests_cant": "All trees and paths.", "anchors": ["src/ui/dump.rs: run"]}
{"id": "C45", "title": "The on-disk cache is invisible", "statement": "Reads through the cached backend return what the backend holds for content-addressed names, a removed object cannot be read, and listing shows the backend's objects, whatever the cache holds or has evicted.", "quantifier": "every sequence of reads, writes, removals and evictions", "why_tests_cant": "Operation histories.", "anchors": ["src/backend.rs: CachedBackend", "src/backend/cache.rs"]}
{"id": "C46", "title": "The cache stays within its size limit and evicts the oldest", "statement": "Pruning the cache keeps the most recently used entries, drops the rest, and what is kept exceeds the limit by less than one entry. (With equal timestamps the database can keep rows of deleted files.)", "quantifier": "every cache state and limit", "why_tests_cant": "All access histories.", "anchors": ["src/backend/cache.rs: prune, try_read, insert"]}
{"id": "C47", "title": "Filesystem writes are all-or-nothing for readers", "statement": "If the process dies during a write to a filesystem backend, each object is afterwards absent, the old contents, or the complete new contents, and a listing never shows a partial object.", "quantifier": "every content and crash point", "why_tests_cant": "Crash points.", "anchors": ["src/file_util.rs: safe_copy_to_file, move_opened", "src/backend/fs.rs"]}
{"id": "C48", "title": "The counting semaphore limits concurrency", "statement": "Never more than N holders at once, and the count never goes below zero or above N.", "quantifier": "every number of threads and every schedule", "why_tests_cant": "Schedules.", "anchors": ["src/semaphored.rs", "src/concurrently.rs", "src/backend/semaphored.rs"]}
{"id": "C49", "title": "A semaphore waiter is woken when a slot is free", "statement": "Whenever a slot is free and a thread waits for it, the thread is or will be woken. (True with one waiter; false with two: a wakeup can be lost and the waiter sleeps forever.)", "quantifier": "every schedule", "why_tests_cant": "Schedules.", "anchors": ["src/semaphored.rs: dec, Drop"]}
{"id": "C50", "title": "Backend paths and IDs correspond", "statement": "Each object name maps to one place in the repository according to its kind, names of different kinds or IDs never collide, and the ID recovered from a listed name is the ID it was stored under.", "quantifier": "every ID", "why_tests_cant": "2^224 IDs.", "anchors": ["src/backend.rs: destination, id_from_path, list_*"]}
{"id": "C51", "title": "B2 listings are complete and uploads carry their hash", "statement": "Listing returns every matching file whatever the page size; the upload body is the contents followed by the hex digest of the contents for every read-buffer size; a successful put stored the whole contents.", "quantifier": "every bucket contents, page size and read pattern", "why_tests_cant": "All paginations and buffer splits.", "anchors": ["b2/src/lib.rs", "src/backend/backblaze.rs"]}
{"id": "C52", "title": "Transient B2 failures are retried to success", "statement": "If the service eventually accepts requests, an upload eventually succeeds with the whole contents. (False once a failed attempt has consumed part of the reader: retries resend only the remainder.)", "quantifier": "every pattern of failures", "why_tests_cant": "Failure histories.", "anchors": ["src/backend/backblaze.rs: retry, write"]}
{"id": "C53", "title": "Skip patterns accumulate and settings override", "statement": "The skips in force are those given on the command line together with those of the configuration, which are the local configuration's if there is one, else the global one's; flags given on the command line beat any configuration. (False in one case: a local configuration is ignored altogether when there is no global one.)", "quantifier": "every combination of configuration sources", "why_tests_cant": "All combinations.", "anchors": ["src/config.rs", "src/ui.rs"]}
{"id": "C54", "title": "Metadata comparison misses nothing", "statement": "The change letter shown for metadata is absent exactly when the two are equal, so every metadata difference is reported.", "quantifier": "every pair of metadata", "why_tests_cant": "All field combinations.", "anchors": ["src/tree.rs: meta_diff_char, Node::kind, posix_kind"]}
{"id": "C55", "title": "An object removed from B2 is gone", "statement": "A successful removal from B2 removes exactly the named object, and removing an object that is there eventually succeeds if the service answers, however often it was uploaded. (False: an object uploaded twice has two versions, and removing it is retried forever.)", "quantifier": "every bucket contents and pattern of failures", "why_tests_cant": "Depends on the history of the bucket and on failures.", "anchors": ["b2/src/lib.rs: Session::delete", "src/backend/backblaze.rs: retry, remove"]}
{"id": "C56", "title": "Backing up and then restoring gives back the same files", "statement": "A backup of some paths that finishes, followed by a restore of its snapshot to an empty directory by any later process, succeeds and leaves at every path below the destination what was at the corresponding path when it was backed up: the same files with the same bytes, the same directories and symlinks, with the same permissions and, for files, modification times when these are restored; except for skipped paths and special files, for which it leaves nothing. Nothing outside the destination is touched.", "quantifier": "every file tree and set of paths, skip rule, chunking, repository in good order before the backup, leftover of an interrupted backup, schedule of the backup's threads, restore flags and empty destination", "why_tests_cant": "The claim is end to end over all file trees and all thread schedules, and rests on no two of the objects involved having one hash.", "anchors": ["src/ui/backup.rs: run", "src/backup.rs", "src/ui/restore.rs: run", "src/fs_tree.rs: walk_fs"]}
{"id": "C57", "title": "A filtered read gives all of the object or fails", "statement": "Reading an object through an unfilter program either fails or gives exactly what the program, run on all of the stored bytes, writes before exiting successfully. If the program undoes the filter, that is the object that was written. It is never cut short in silence: not if the program fails, is killed, or stops reading early because of an error of the store.", "quantifier": "every program, stored object, pipe size, size of single reads and writes, schedule of the program, the copying thread and the reader, and errors of the store", "why_tests_cant": "The cuts, pipe sizes and schedules are chosen by the system; the dangerous ones are rare.", "anchors": ["src/backend/filter.rs: UnfilterRead"]}
{"id": "C58", "title": "A filtered read ends, in success or in an error", "statement": "Reading an object through a program that always ends comes to an end, with all of the object or with an error: no schedule deadlocks or goes on for ever, and nothing panics. (False: a program that has exited while the copying thread has not yet been marked finished makes the reader panic.)", "quantifier": "every program that always ends, object, pipe size, size of single reads and writes and schedule", "why_tests_cant": "Deadlock freedom and termination range over all schedules.", "anchors": ["src/backend/filter.rs: UnfilterRead::read"]}
{"id": "C59", "title": "A filtered write stores exactly what the filter makes of the object, or nothing", "statement": "Writing an object through a filter program stores under its name either nothing or exactly what the program, given all of the object, writes before exiting successfully, with its right length; and it reports success only if it was stored.", "quantifier": "every program, object, pipe size, size of single reads and writes, schedule, and errors of the source, of the temporary file and of the store", "why_tests_cant": "The cuts, pipe sizes, schedules and failures are chosen by the system.", "anchors": ["src/backend/filter.rs: BackendFilter::write"]}
{"id": "C60", "title": "A filtered write ends, in success or in an error", "statement": "Writing an object through a program that always ends comes to an end, in success or in an error, whatever fails. (False: if writing the temporary file fails while the program still has output, the writer waits for the copying thread, which waits for the program, which waits for somebody to read its output.)", "quantifier": "every program that always ends, object, pipe size, size of single reads and writes, schedule and errors", "why_tests_cant": "Deadlock freedom and termination range over all schedules and failures.", "anchors": ["src/backend/filter.rs: BackendFilter::write"]}
{"id": "C61", "title": "A repository behind a filter is the same repository", "statement": "A repository whose objects go through a filter, with an unfilter that undoes it, answers every read as the same repository without a filter would: reads give what was written, objects that are listed can be read, and the store only ever holds what the filter made.", "quantifier": "every filter and unfilter that undoes it, cache, sequence of reads, writes and removals, and interruption", "why_tests_cant": "Ranges over all histories of requests and all filters.", "anchors": ["src/backend/filter.rs", "src/backend/cache.rs", "src/backend.rs: open"]}
{"id": "C62", "title": "A repository that was made can be opened, as it was made, and making it harms nothing", "statement": "A repository made by init opens with the configuration it was made with, filter included; init only adds files and directories, and refuses a directory with anything in it. One that was not finished does not open.", "quantifier": "every configuration, file tree, destination and point of interruption", "why_tests_cant": "Ranges over all file trees, configurations and interruptions.", "anchors": ["src/ui/init.rs: run", "src/backend.rs: open, read_config, write_config", "src/backend/fs.rs: initialize"]}
{"id": "C63", "title": "snapshots shows the named snapshots in order, each with how it differs from the one before", "statement": "`snapshots` shows exactly the snapshots that were named (all of them if none were), oldest first or newest first. With --stat each comes with the lines diff prints for it and the snapshot before it in time, named or not; the first one with everything in it, as new. With --sizes each comes with what it would need if it were alone and what it adds to those before it.", "quantifier": "every repository whose snapshots can be read, list of names and combination of options", "why_tests_cant": "Ranges over all histories of snapshots and all choices of which to show, and the snapshot compared with is often one that is not shown.", "anchors": ["src/ui/snapshots.rs: run, print_snapshots, tree_diff", "src/diff.rs: compare_trees, PrintDiffs", "src/tree.rs: forest_sizes"]}
{"id": "C64", "title": "cat prints the object asked for, whole, or nothing", "statement": "`cat` prints a chunk as its bytes, and a tree, pack, index or snapshot as JSON that any reader can read, that has no key twice, and that is printed for no other object. What is printed hashes to the ID that was asked for (or is read from bytes that do), whatever is in the repository; in a repository in good order every object can be printed, and an ID of no blob is an error.", "quantifier": "every repository, damaged or not, every ID and name, every byte a name or path can have", "why_tests_cant": "Ranges over all objects and all strings in them, and over all damage.", "anchors": ["src/ui/cat.rs: run", "src/prettify.rs: instant, instant_option", "src/hashing.rs: ObjectId::serialize", "src/pack.rs: extract_blob, load_manifest", "src/index.rs: load", "src/snapshot.rs: load_chronologically, find"]}
{"id": "C65", "title": "Backups made at the same time do not harm one another", "statement": "Any number of backups may run against one repository at the same time, each reading it when it starts and writing as it goes. At every instant the repository opens, every snapshot that was there can be read, and each backup that has finished has its snapshot, whole.", "quantifier": "every repository in good order, every number of backups with any arguments and leftovers, started at any time, every order of their steps, every one of them possibly killed", "why_tests_cant": "Ranges over all ways to interleave the steps of any number of processes.", "anchors": ["src/ui/backup.rs: run, backup_tree", "src/index.rs: build_master_index, blob_to_pack_map, index", "src/backup.rs: spawn_backup_threads", "src/upload.rs: upload"]}
{"id": "C66", "title": "A prune beside backups loses nothing that a snapshot needs", "statement": "A prune may run while backups do; nothing locks a repository. At every instant every index that counts refers only to packs that are there, every snapshot there was when the prune began can be read, and each backup that has finished has its snapshot, whole.", "quantifier": "every repository in good order, every number of backups with any arguments and leftovers, and a prune, each started at any time, every order of their steps, every one of them possibly killed", "why_tests_cant": "Ranges over all ways to interleave the steps of any number of processes; the losing windows are a few instructions wide.", "anchors": ["src/ui/prune.rs: run, walk_snapshots", "src/ui/backup.rs: run, backup_tree", "src/index.rs: build_master_index, index", "src/upload.rs: upload"]}
{"id": "C67", "title": "A rebuild-index beside backups: indexes never refer to missing packs and nothing is lost", "statement": "While rebuild-index runs, backups may start, write and finish. At every instant every index that counts refers only to packs that are there, the repository opens, and every snapshot there was can be read. A backup that has finished has its snapshot, whole, even if the rebuild finished before or after it; a rebuild that has finished has replaced every index there was when it all began by one that lists every pack there was; and nothing the backups do stops it.", "quantifier": "every repository in good order all of whose packs are listed (see C28 for leftover packs), every number of backups no two of which add the same new blob (see C65) with any arguments, started at any time, every order of their steps and those of one rebuild-index, every one of them possibly killed", "why_tests_cant": "Ranges over all ways to interleave the steps of any number of processes; the source says only 'I hope'.", "anchors": ["src/ui/rebuild_index.rs: run", "src/ui/backup.rs: run, backup_tree", "src/index.rs: build_master_index, index", "src/upload.rs: upload"]}
{"id": "C68", "title": "One cache used by many at once: what is read is right", "statement": "When several threads and processes use the same cache directory at the same time, every read that succeeds gives what belongs under the name it asked for. If nothing is removed from the repository, then whenever no request is under way every file in the cache is noted in its table with its size, so that pruning the cache accounts for it; and no read of an object that is there fails because of another thread of the same process. (Between processes a read can fail with 'database is locked'; a killed process can leave a file that no prune of the cache finds; an object removed meanwhile can come back to the cache.)", "quantifier": "every repository, every size limit, every assignment of any number of threads to any number of processes, every list of requests of each, every order of their steps - each use of the cache's directory, its database and the backend is one step - and each possibly killed after any of them", "why_tests_cant": "Ranges over all interleavings of file operations and database statements, and over database transactions that fail only when another process wrote in between.", "anchors": ["src/backend.rs: CachedBackend, read, write, remove", "src/backend/cache.rs: Cache, try_read, insert, prune, evict"]}
{"id": "C69", "title": "Backing up what has not changed adds nothing", "statement": "If the latest snapshot of the same paths holds exactly the file tree a backup walks, the backup sends no blob, and a snapshot it makes names the same tree. If that snapshot is the last of all, with the same author and tags, the backup makes none, succeeds, and at no instant has changed anything in the repository or the working directory. The assertions that check this never fail.", "quantifier": "every file tree, skip filter, chunker, repository in good order and leftovers of interrupted commands, and every schedule of the backup's threads", "why_tests_cant": "Depends on the whole file tree, on how the earlier backup cut its files, and on what other commands left behind.", "anchors": ["src/ui/backup.rs: run, parent_snapshot, backup_tree", "src/fs_tree.rs: walk_fs, file_changed", "src/index.rs: index"]}
{"id": "C70", "title": "An ID is the hash of exactly the bytes that went through", "statement": "A reader or writer that hashes what goes through it passes everything on unchanged, and when asked gives the hash of exactly the bytes its user was given or whose writing was reported, in order: whatever sizes of reads and writes are used, however few bytes each call deals with, and whichever calls fail. Counting bytes neither changes what is passed on nor counts anything else. Reading to the end, or writing everything, therefore gives the hash of the whole.", "quantifier": "every reader and writer underneath (any state, any short reads and writes, any errors), every program using them, every hash function", "why_tests_cant": "Short reads and writes and errors in the middle depend on what is underneath; tests use files and buffers that deal with everything at once.", "anchors": ["src/hashing.rs: HashingReader, HashingWriter, finalize", "src/progress.rs: AtomicCountRead, AtomicCountWrite"]}
{"id": "C71", "title": "Showing progress does not hold up a command, and ends with the final figures", "statement": "While a command shows its progress, lines are drawn in order, never with figures that have not been reached; what the drawing thread does cannot keep the command from ending; after the work is done it draws at most a few more times and the last drawn shows the final figures. An error while drawing does no harm. (If nobody reads the output any more, drawing panics, and a backup then panics after its work and before it stores its snapshot.)", "quantifier": "every course of the counters, every order of steps of the two threads, every outcome of every drawing", "why_tests_cant": "A race between the worker's end, the flag, parking and unparking.", "anchors": ["src/progress.rs: ProgressThread, spawn, join", "src/ui/backup.rs: run"]}
{"id": "C72", "title": "What a backup cannot read it finds out before it opens the repository", "statement": "A backup goes on to open the repository if and only if every path has a name, no two paths have the same name, and everything under the paths that is not skipped can be read. On a filesystem that stays as it is, nothing it needs to read fails after that, whatever earlier snapshot it compares to. What cannot be read and is skipped, or is in a skipped directory, does no harm. The bytes counted are the sizes of all files that are not skipped. Trouble reading never makes a backup store something else. (The whole filesystem / cannot be backed up: it panics.)", "quantifier": "every file tree, skip filter and set of paths, every choice of system calls and paths that fail, every earlier snapshot", "why_tests_cant": "Ranges over which of all files cannot be read, and how the check's walk and the backup's compare.", "anchors": ["src/ui/backup.rs: run, reject_matching_directories, check_paths, backup_tree", "src/fs_tree.rs: walk_fs"]}
{"id": "C73", "title": "init accepts a filter exactly if it can be undone on a text, and says so", "statement": "When a repository is made with a filter and an unfilter, a text is piped through both first. If init accepts them, the first program made something of the text from which the second made the same text, and both exited with success. If the two are such programs and read all they are given, init never refuses them, and it always comes to an end and accepts them if what the first makes of the text, or what the second writes, fits in a pipe. (For programs that do not undo one another init may wait for ever instead of refusing.)", "quantifier": "every pair of programs, every size of pipe, every order in which the programs and init read and write, in pieces of any size", "why_tests_cant": "Ranges over all programs and all interleavings of three processes on bounded pipes.", "anchors": ["src/ui/init.rs: run, round_trip_filter_test"]}
{"id": "C74", "title": "A restore that was cut short can be finished by restoring again", "statement": "A restore that is killed or fails at any moment, even midway through filling a file or removing a directory, leaves no file that looks unmodified but has other bytes than the snapshot. So restoring the same snapshot again with --delete succeeds and leaves exactly what the snapshot has, if the destinations are still there. A destination that is a directory and is to be one stays one throughout, so it is there. (In place, a destination of another kind is removed before it is made anew; cut short between the two, every further restore in place fails.)", "quantifier": "every snapshot, every file tree it is restored over, every moment at which the restore is cut short, every clock", "why_tests_cant": "Ranges over all moments at which a program can be killed and all contents of the disk before.", "anchors": ["src/ui/restore.rs: run, RestoreCallbacks", "src/diff.rs: compare_trees", "src/fs_tree.rs: forest_from_fs"]}
{"id": "C75", "title": "Work done on several threads is all done, or the program fails and stops its children", "statement": "When a command does several pieces of work on threads of their own and carries on, each piece was done once and succeeded, and the results are theirs. The program ends with an error only if a piece of work failed, and panics only if one did. At most as many threads run at a time as there are cores, and if each piece of work ends the whole does. A program that fails signals every child process that is in its list when it begins to stop, if that child still runs, and in runs in which no child is waited for before it is taken off the list it signals nobody else. (It may signal a stranger that has got the number of a child waited for already, and may leave behind a child that it had started but not put on its list.)", "quantifier": "every number of pieces of work, every number of cores, every order in which threads begin, end and are waited for, every sequence of starts and ends of processes", "why_tests_cant": "Ranges over all interleavings of threads and processes.", "anchors": ["src/concurrently.rs: concurrently", "src/lib.rs: ChildGuard, fatal", "src/backend/filter.rs: spawn_with_redirects"]}
{"id": "C76", "title": "A value that is being replaced can be read safely", "statement": "The value that one thread publishes for others to read, over and over, is read safely: whoever has borrowed it has a value that was published, whose memory has not been given back, for as long as they hold it and the place it is published in lives. What is borrowed is the value published last. No memory is given back twice; once the place is dropped and what was put off is done all of it has been given back, and once nobody has a value what was put off can be done. (Nothing stops a borrowed value from outliving the place, and then its memory is given back all the same.)", "quantifier": "every sequence of publications, every number of readers, every interleaving of their steps, every time at which memory put off is given back", "why_tests_cant": "Ranges over all interleavings of lock-free code; a use after free need not show.", "anchors": ["src/rcu.rs: Rcu, Borrow", "src/fs_tree.rs", "src/progress.rs"]}
{"id": "C77", "title": "A path that is shown fits the line and ends as the path does", "statement": "A path that fits the terminal's width is shown whole. A longer one is cut to just that width, with three dots and the end of its file name last: all of the file name if there is room for it and the dots, and as much of its end as there is room for otherwise. Nothing wider than the terminal is shown. (A build that checks its arithmetic panics instead for names that would fit but for the dots; a path without a file name panics in all builds.)", "quantifier": "every path, every width of the terminal, both kinds of builds", "why_tests_cant": "Ranges over all lengths of paths, names and lines; the failing ones are three lengths out of all.", "anchors": ["src/progress.rs: truncate_path"]}
{"id": "C78", "title": "Packs that no index lists stay until rebuild-index and prune", "statement": "No command, interrupted or not, removes a pack that no index lists; a prune removes only packs that some index lists. A command that runs to its end leaves no pack of its own unlisted. So packs that an interrupted command left behind, and whose directory is lost, take up space for ever, also if the repository is pruned; but once rebuild-index and then prune have run to their end every pack that is left is listed and holds only blobs that some snapshot needs. (Only if no two packs share a blob; else rebuild-index makes the repository unusable, C28.)", "quantifier": "every repository, every history of backups, copies, filter-snapshots, forgets, rebuild-indexes and prunes, each stopped anywhere", "why_tests_cant": "Ranges over all histories and all moments at which commands are stopped.", "anchors": ["src/ui/prune.rs: run", "src/ui/rebuild_index.rs: run", "src/index.rs: build_master_index", "src/backup.rs: spawn_backup_threads"]}
{"id": "C79", "title": "What is stored already is not stored again, wherever it is now", "statement": "A backup stores a chunk only if it is a chunk of a file it walks and no index that counts lists it. So if every file it walks has the bytes of a file whose chunks are listed, wherever that was and whatever it was called, it stores directories and nothing else; after a finished backup this is so of all files it walked. If in one file a part was replaced by y, and the old and the new file are cut into chunks at the same place k bytes after it, then the chunks that the backup stores hold less than 8 MiB more than y and those k bytes, however long the file is: all chunks before and after are the old ones. (If the files are never again cut at the same place, everything after the change is stored again; the sizes of chunks alone do not rule that out.)", "quantifier": "all files, all parts replaced, all chunkers that keep the sizes and look no further than the largest chunk, all healthy repositories, all file trees", "why_tests_cant": "Ranges over all contents, positions of the change and chunkers; a test sees a few files.", "anchors": ["src/chunk.rs: chunk_file, new_cdc", "src/ui/backup.rs: backup_tree", "docs/src/intro.md"]}
{"id": "C80", "title": "No more connections to B2 at once than configured", "statement": "A B2 repository set up with n concurrent connections never has more than n connections to B2 open at once, however many threads call it, however often requests fail and are made again; and with at least one connection every call gets its turn. (Both are false: a download is still going on when its slot has been given back, so as many downloads go on as there are threads; and with two connections a thread can be left asleep with both free. True: never more than n requests await their answer; with one connection nobody is left asleep; with as many connections as threads nobody waits; with none, which is accepted, nothing is ever requested.)", "quantifier": "all numbers of connections and threads, all calls, all interleavings of the threads' steps, all numbers of failing requests", "why_tests_cant": "Ranges over all interleavings; a test with a server sees a few, and a server slow enough to show overlap is not in the tests.", "anchors": ["src/backend/semaphored.rs: Semaphored", "src/backend.rs: open", "src/semaphored.rs: dec, SemaphoreGuard::drop", "src/backend/backblaze.rs: retry, BackblazeBackend::read", "src/ui/init.rs: Command::Backblaze"]}
{"id": "C81", "title": "Usage shows unused data exactly when there is something to prune", "statement": "Whenever usage shows its figures, the data in packs is the data unique to snapshots and the unused data together, and the unused data is zero exactly if prune finds nothing to do. Once a prune has finished, usage works (even if it failed before because of an empty directory), shows no unused data, and, if it worked before, as much data unique to snapshots as before: the packs have got smaller by just what was shown as unused.", "quantifier": "all healthy repositories, all snapshots, all blobs and packs, all schedules of the prune's threads", "why_tests_cant": "Relates two commands over every repository state: which packs hold used and unused blobs side by side, which trees are stored, and what the prune repacks; a test fixes one.", "anchors": ["src/ui/usage.rs: run", "src/ui/prune.rs: run", "src/tree.rs: forest_sizes", "src/repack.rs: walk_snapshots"]}
{"id": "C82", "title": "Copying again copies what is missing and no more", "statement": "A copy sends the destination each blob once, and none that is there. Once a copy has finished, copying the same snapshots again, with the same skips, sends nothing and leaves destination and working directory at every instant just as they are. A copy may be cut short at any instant, any number of times: the destination's own snapshots stay readable, the next copy can start, and once one finishes every snapshot is copied. (Missing: as for C30, no two blobs of different kinds may have the same bytes.)", "quantifier": "all sources, destinations, snapshots and skips, all schedules of the threads, all instants at which copies are cut short, any number of them", "why_tests_cant": "Ranges over all interruption points of all schedules, repeatedly, and over all contents of both repositories.", "anchors": ["src/ui/copy.rs: run", "src/repack.rs: walk_snapshots", "src/backup.rs: find_resumable, upload_cwd_packfiles, spawn_backup_threads"]}
{"id": "C83", "title": "Prunes at the same time", "statement": "Nothing locks a repository, so several prunes may run on it at once, or be stopped anywhere. At every instant all snapshots are there and hold what they held, and what the indexes that count list is there. Once one prune has stored its index all that is listed is needed, so a prune that starts then finds nothing to do; once one has finished no index of before is left; and the repository can be opened. (The last is false: two prunes that cut their packs at different places leave the same blobs in two packs, and every command that must know where blobs are refuses. True: it is in good order if no blob is listed twice, so at least until two different indexes have been stored.)", "quantifier": "all healthy repositories, any number of prunes starting at any time, all interleavings of the steps of their threads and removals, all instants at which they are stopped", "why_tests_cant": "Ranges over all interleavings of several processes on one repository; the tests run one command at a time.", "anchors": ["src/ui/prune.rs: run", "src/index.rs: build_master_index, blob_to_pack_map", "src/backup.rs: spawn_backup_threads", "src/pack.rs: pack"]}
{"id": "C84", "title": "A prune that reads while others write", "statement": "A prune reads the indexes, then the snapshots and all their trees, and then lists the indexes again to know which its own replaces. Whatever backups store meanwhile, the snapshots it has read keep what they hold at every instant; a prune that sees a snapshot without having read the index that lists its data stops before it writes; and the snapshots of backups that finish meanwhile stay readable. (The last is false: an index stored between the two listings is replaced and removed though its packs are not in the new one, so a backup that runs from start to finish in between, both commands succeeding, leaves a snapshot that cannot be read. Its packs stay, unlisted. True: if no snapshot has been stored since the prune read them, the repository is in good order at every instant.)", "quantifier": "all repositories in good order at each of the three moments, anything added in between, all thread interleavings of the prune and all instants at which it is stopped", "why_tests_cant": "Ranges over all moments at which other processes write between the reads of one command, and over all thread schedules; the tests run one command at a time.", "anchors": ["src/ui/prune.rs: run", "src/index.rs: build_master_index", "src/snapshot.rs: load_chronologically", "src/repack.rs: load_forests, walk_snapshots"]}
{"id": "C85", "title": "A damaged repository gives no wrong files", "statement": "Whatever has happened to the packs and indexes of a repository - bit rot, truncation, files exchanged or put there on purpose - a command that reads it and succeeds does exactly what it would have done before the damage, unless somebody found other bytes with the same SHA-224 hash: ls and diff list the same, dump prints the same (and prints nothing wrong before it fails), restore leaves the same files on disk, and copy stores the same in the destination. If only packs are damaged, the same goes for snapshots --stat and --sizes, usage, backup and prune. A snapshot file that loads under an ID is the snapshot of that ID.", "quantifier": "all repositories, all damaged sources of packs, indexes and lookup tables that serve no second preimage, all snapshots, paths, restore arguments, file systems, cache behaviours, filters of a copy", "why_tests_cant": "Ranges over all ways a repository can be damaged and over all repositories; a test can only flip bytes it chooses.", "anchors": ["src/read.rs: ChunkReader::read_blob, load_pack", "src/pack.rs: extract_blob, append_to_forest", "src/tree.rs: Cache::read, forest_from_root", "src/snapshot.rs: load", "src/ui/restore.rs: run", "src/ui/dump.rs: run", "src/ui/copy.rs: run"]}
{"id": "C86", "title": "What rebuild-index repairs", "statement": "Whatever has become of the indexes of a repository - lost, removed, replaced by one that does not list everything - once rebuild-index has finished, exactly what is in the packs can be found, every snapshot whose data is in packs is as it was, and the repository can be used again. (The last is false if some blob is in two packs: then no command that reads the indexes starts, and no sequence of commands, rebuild-index included, ever changes that; two prunes at the same time can cause it, and so can rebuild-index itself when a stray pack repeats what another holds. The way out is to remove a pack by hand.) In particular a backup that a prune has lost (C84) is brought back, if what it shares with older data was in use.", "quantifier": "all repositories, whatever their indexes list; all states a prune beside other writers leaves; all sequences of commands, complete or cut short", "why_tests_cant": "Ranges over all ways of losing indexes and over all sequences of commands; that nothing ever helps can only be proved.", "anchors": ["src/ui/rebuild_index.rs: run", "src/index.rs: blob_to_pack_map, blob_id_set, build_master_index", "src/ui/prune.rs: run", "src/ui/copy.rs: run"]}
{"id": "C87", "title": "Reading while others write", "statement": "Nothing locks a repository: while a command reads it, one file after another, others may store and remove packs, indexes and snapshots. A command that reads and succeeds gives what the snapshot holds, whatever came and went meanwhile: ls and diff list it, dump prints it, restore reproduces it. Loading the indexes one by one gives the index of the moment they were listed, or fails because one is gone. And a repository that is in good order all the time, to which others only add, can be read. (The last is false for commands that load the indexes before the snapshots: a snapshot stored in between makes restore, diff, usage, filter-snapshot, copy, prune, the next backup of the same paths, and check fail. True: it holds for ls and dump, which load the snapshot first, and for every snapshot that was there when the indexes were listed.)", "quantifier": "all repositories, all ways packs and indexes come and go between the reads of a command (a name standing for the same bytes throughout), all snapshots, paths, restore arguments, file systems, cache behaviours", "why_tests_cant": "Ranges over all moments at which other processes write between the reads of one command; the tests run one command at a time.", "anchors": ["src/index.rs: build_master_index_with_sizes", "src/ui/restore.rs: run", "src/ui/ls.rs: run", "src/ui/dump.rs: run", "src/ui/diff.rs: run", "src/ui/check.rs: run, map_chunks_to_snapshots", "src/ui/usage.rs: run", "src/ui/backup.rs: run", "src/tree.rs: forest_from_root"]}
{"id": "C88", "title": "Files that change during a backup", "statement": "Files may be written, replaced and deleted while a backup reads them. A backup that finishes has stored a snapshot that can be restored, and leaves the repository in good order. What the snapshot has for a file was in the file: each byte at its place, at some moment while it was read; and if the file did not change from the moment its metadata was read, exactly what was in it. A file written to while it was read is not taken for unmodified by the next backup. (False for files of 10 MiB and more: they are mapped, hashed from the mapping, and packed from it again later. If such a file changes in between, a pack gets a chunk whose bytes are not those of its ID. From then on no chunk of that pack can be read, also those of files that did not change, and no later backup stores them again. True: all of it holds if no file of 10 MiB or more changes once it is opened.)", "quantifier": "all histories of the filesystem during a backup, all schedules of its system calls and threads, all repositories in good order, filters, parents, chunkers within their contract", "why_tests_cant": "Ranges over all moments at which other processes write to the files being read; the tests back up files that stand still.", "anchors": ["src/file_util.rs: read_file", "src/chunk.rs: chunk_file", "src/pack.rs: pack, write_blob", "src/fs_tree.rs: walk_fs", "src/ui/backup.rs: backup_tree", "src/read.rs: ChunkReader::load_pack"]}
{"id": "C89", "title": "Mending a repository that has lost packs", "statement": "When packs of a repository in good order are lost, rebuild-index makes it usable again: commands can open it, exactly what is left can be found, and a snapshot can be read, as it was, exactly if nothing it needs is lost. Forgetting the snapshots that cannot be read leaves a repository in good order. A backup of files that still have the lost bytes stores them again, and the snapshots that needed only those can be read again; the backup's own snapshot can be read. (False: a file that looks unmodified since the parent snapshot is not read; its chunks are taken over from the parent whether they can be found or not. So a backup of the very files that were lost sends nothing and succeeds with a snapshot that cannot be read either. If a tree of the parent is lost, no backup of those paths succeeds at all. And as long as the index has not been rebuilt, what is lost is never sent. True if every file that looks unmodified has chunks that can be found.)", "quantifier": "all repositories in good order, all sets of packs lost from them, whatever became of the index files, all backups that follow, all schedules and instants", "why_tests_cant": "Ranges over all sets of lost packs, file trees and later backups; no test removes a pack from a repository.", "anchors": ["src/ui/rebuild_index.rs: run", "src/ui/backup.rs: backup_tree", "src/fs_tree.rs: walk_fs", "src/ui/forget.rs: run", "src/tree.rs: forest_from_root"]}
{"id": "C90", "title": "Several rebuild-indexes at once", "statement": "Any number of backups and rebuild-indexes run against one repository, in any interleaving, and any of them may stop for good at any point. If every pack was listed at first and no two backups add the same new blob, the repository is in good order at every instant: every live index lists packs that are there, each blob once, every snapshot can be read, what was there at first is there, and a backup that has finished has its snapshot. Every pack there was before a rebuild listed the packs is listed by a live index once that rebuild has stored its index, whatever the other rebuilds store and remove. A rebuild can always go on to its end, or until an index that it is to remove has been removed by another: then it fails, with its index stored and nothing lost.", "quantifier": "all numbers of backups and rebuild-indexes, all schedules and all instants, all repositories in good order whose packs are all listed", "why_tests_cant": "Ranges over all interleavings of any number of processes; no test runs two rebuilds at once.", "anchors": ["src/ui/rebuild_index.rs: run", "src/index.rs: build_master_index", "src/backend/fs.rs: remove", "src/ui/backup.rs: run"]}
{"id": "C91", "title": "What the program does around a command", "statement": "The standard output of cat, diff, dump and ls is exactly what the command prints, and that of every other command is that and its INFO messages, in order, whatever -v says; with more -v all that was said on the standard error with less is said there in the same order, and warnings and errors are always there. The program ends with 0 exactly if the command ran and did not fail, and else says why. -C dir is the same as changing to dir first. What a command counted is logged, with -vv, as the sums of what its threads counted, in whatever order they did.", "quantifier": "all commands (whatever they print, say, count and however they end), all arguments, configurations and directories, all orders in which threads count", "why_tests_cant": "Ranges over all commands, messages, configurations and directories; the tests call the commands' functions, or compare the output of single runs.", "anchors": ["src/main.rs: main, run, init_logger", "src/config.rs: load, load_cwd", "src/counters.rs: add, log_counts", "src/lib.rs: fatal"]}
{"id": "C92", "title": "Modification times of directories and symlinks after a restore", "statement": "After restore --times every directory and symlink of the snapshot has the modification time recorded for it, as every file has.", "quantifier": "all snapshots, all contents of the destination before the restore, all clocks", "why_tests_cant": "Which times are right depends on what of the destination is made, removed and replaced, and in which order with the setting of times; tests compare a handful of trees, restored into empty directories.", "anchors": ["src/ui/restore.rs: add_node, change_node_contents, set_metadata", "src/diff.rs: compare_nodes, compare_trees"]}
{"id": "C93", "title": "Times survive a backup and a restore", "statement": "Whatever modification time the system reports for a file, directory or link, a backup can store it, a later backup of the unchanged file takes it for unchanged, and restore --times gives it back to the nanosecond.", "quantifier": "all times a filesystem can report: any number of seconds before or after 1970 and any nanoseconds", "why_tests_cant": "It depends on the signs and ranges of seconds and nanoseconds in four representations; tests use the current time.", "anchors": ["src/tree.rs: get_metadata", "src/prettify.rs: instant", "src/ui/restore.rs: to_timespec, set_metadata", "src/fs_tree.rs: file_changed"]}
{"id": "C94", "title": "What ls and diff print tells what there is", "statement": "From the text ls prints one can tell every path in the snapshot, what is there and where a symlink leads; from the text diff prints, what has been added, removed and changed; snapshots --stat prints for each snapshot what diff prints for it and the one before, each line after a space. Two snapshots with the same listing have the same paths, kinds and targets.", "quantifier": "all snapshots and pairs of snapshots of repositories in good order, whatever the names and targets in them", "why_tests_cant": "It is about all pairs of listings; tests print listings of tame names and look at few of them.", "anchors": ["src/ls.rs: printer, print_tree, print_node, has_trailing_slash", "src/ui/ls.rs: run", "src/ui/diff.rs: PrintDiffs", "src/ui/snapshots.rs: PrintDiffs"]}
{"id": "C95", "title": "Diff of a snapshot with its paths tells what has changed since", "statement": "Given one snapshot, diff prints for each path exactly the sign called for by what the snapshot has there and what is there on disk: + for what is new or has become another thing, - for what is gone or was another thing, C for a file with other bytes, and with --metadata a letter for what differs only in metadata. It prints nothing exactly if nothing has changed. Given two snapshots, it does so for what the two have.", "quantifier": "all repositories in good order, snapshots, contents of their paths on disk and chunkings", "why_tests_cant": "It ranges over all pairs of file trees and depends on which files are not opened because they look unmodified; tests compare a few trees that change in ways that show.", "anchors": ["src/ui/diff.rs: run, load_snapshot2_or_paths", "src/fs_tree.rs: forest_from_fs", "src/diff.rs: compare_trees"]}
{"id": "C96", "title": "The ID of a snapshot's tree tells what was backed up", "statement": "Two snapshots, of one repository or of two, have the same tree ID exactly if they hold the same files. So backing up the same files gives the same ID into any repository, against any parent and after any interrupted backup; filtering a snapshot gives the ID it would have had if the backup had skipped those files as well; and copying a snapshot keeps its ID, or gives the one its files less what is skipped have.", "quantifier": "all repositories in good order whose files were cut by the chunker in use, all file trees, parents, filters and arguments, given that no two of the chunks and trees concerned hash alike", "why_tests_cant": "It compares what any two histories lead to; tests run one history and compare with what it gave before.", "anchors": ["src/ui/backup.rs: run", "src/fs_tree.rs: walk_fs", "src/chunk.rs: chunk_file", "src/ui/filter_snapshot.rs: run", "src/ui/copy.rs: run", "src/tree.rs: Tree, serialize_and_hash", "src/repack.rs: walk_snapshots, walk_tree"]}
{"id": "C97", "title": "A snapshot gives back what was backed up, whatever has been done since", "statement": "After a backup has finished, let anything be done: more backups, copies into the repository, filter-snapshot, forgetting other snapshots, rebuild-index and prunes, each of them stopped anywhere or run to its end. Unless the snapshot itself is forgotten, it is still there and holds exactly what it held; restoring it to an empty directory succeeds and gives back what was backed up. So does restoring it from another repository it was copied to, whatever has been done to that one since. (False if a backup follows a prune that was interrupted, or makes again the very index a prune has replaced: see C27.)", "quantifier": "all repositories in good order, all file trees and backups of them, all sequences of any number of commands with any arguments, all instants to stop each of them at, all restores to an empty directory", "why_tests_cant": "It ranges over all histories of a repository; tests run a few commands after one another.", "anchors": ["src/ui/backup.rs: run", "src/ui/prune.rs: run", "src/ui/forget.rs: run", "src/ui/copy.rs: run", "src/ui/filter_snapshot.rs: run", "src/ui/rebuild_index.rs: run", "src/ui/restore.rs: run"]}
{"id": "C98", "title": "A repository is the same on a disk, at Backblaze and in memory", "statement": "Whatever objects are written to a repository, read, removed and listed, one after another: each store answers as a table of what was last written under each name would. A listing has each object of the kind once, with its length, and nothing else. If the program is killed in the middle, the object is all there or not there at all, and everything else is as it was. So a repository on a disk and one at Backblaze that hold the same answer alike and go on holding the same, as long as neither fails. They differ in what fails: removing an object that is not there succeeds in memory, fails on a disk and never ends at Backblaze; and at Backblaze removing an object that was written twice never ends.", "quantifier": "all sequences of requests by one program at a time, all contents of a repository, all failures of the network and of the disk, all instants the program may be killed at", "why_tests_cant": "The tests keep most repositories in memory; what they show holds for disks and Backblaze only if every sequence of requests is answered alike.", "anchors": ["src/backend.rs: Backend, destination", "src/backend/fs.rs: FilesystemBackend", "src/backend/backblaze.rs: BackblazeBackend", "src/backend/memory.rs: MemoryBackend", "src/file_util.rs: safe_copy_to_file, move_opened", "b2/src/lib.rs: list, get, put, delete"]}
{"id": "C99", "title": "Commands agree with one another", "statement": "Comparing a snapshot with what filter-snapshot made of it prints one removal for every path the filter leaves out and nothing else, with or without metadata; comparing the other way round prints the same lines as additions; and ls of the new snapshot lists the paths of the old one that the filter lets through. Filtering twice gives the tree that filtering once with both filters gives, and filtering a copy, copying what was filtered, or doing both at once leave the same files. After a restore in place with --delete, comparing the snapshot with its paths prints nothing.", "quantifier": "all repositories in good order, all snapshots, all filters, all file systems, all interleavings of the threads of each command", "why_tests_cant": "Each test runs one command and looks at its result; whether two commands mean the same by a path, a filter or a difference is a statement about all pairs of inputs.", "anchors": ["src/ui/filter_snapshot.rs: run, walk_snapshot, walk_tree", "src/ui/diff.rs: run", "src/diff.rs: compare_trees", "src/ui/ls.rs: run", "src/ui/copy.rs: run", "src/ui/restore.rs: run", "src/ls.rs: print_tree"]}
{"id": "C100", "title": "What the system reports of a path is what a snapshot says of it", "statement": "Directories, regular files and symbolic links are told apart as the system does, by the type bits of the mode, and nothing else - a socket, a pipe, a device - is taken for one of them. Mode, owner, group, both times and, for a regular file, the size that the system reports are what is read back from the repository, for times from 1677 to 2262. A later backup reads a regular file again exactly if its parent has no regular file there, or one of another size or modification time.", "quantifier": "all modes, owners, sizes and times a system can report, all names and contents", "why_tests_cant": "Tests look at the files of the machine they run on; the claim is about every mode and every time.", "anchors": ["src/tree.rs: posix_kind, get_metadata, NodeMetadata", "src/prettify.rs: instant", "src/fs_tree.rs: file_changed"]}
{"id": "C101", "title": "A restore brings back paths that were deleted", "statement": "If some or all of the paths of a snapshot are gone, restoring it brings them back to where they were. A restore that cannot do this says so and leaves everything as it is.", "quantifier": "all repositories in good order, all snapshots and sets of paths, everything that may be at the paths", "why_tests_cant": "Tests restore over a directory they have made; which of its paths have to be there, and whether something in their place will do, is about all snapshots and all states of the disk.", "anchors": ["src/ui/restore.rs: run, load_fs_tree_and_mapping", "src/fs_tree.rs: walk_fs, forest_from_fs"]}
{"id": "C102", "title": "Prune does what it says it will do", "statement": "Before it writes anything, dry run or not, prune prints how many packs it will keep, rewrite and drop, the size of the data in each kind, and how many indexes it will replace; or that all is in use. It says the latter just if it does nothing. The packs it says it keeps are those of which snapshots use everything, it drops those of which they use nothing and rewrites the rest; the numbers and sizes add up to all that is listed. Once it has finished, just the packs it said it would keep are left of those that were listed, and hold what they held; one index is in place of the others; and what is stored has become less by the size it said it would drop and the unused part of what it said it would rewrite. (It grows by the empty tree if a snapshot has an empty directory and the empty tree was not stored.)", "quantifier": "all repositories in good order, whatever an interrupted prune left, every interleaving of the threads of the prune", "why_tests_cant": "The numbers are about all packs and all snapshots at once, and what is there afterwards depends on how the prune packs, resumes and interleaves.", "anchors": ["src/ui/prune.rs: run, partition_reusable_packs, partition_droppable_packs, packs_blob_size"]}
{"id": "C103", "title": "What a backup shows as new and as reused adds up", "statement": "The bytes a backup shows as packed and as reused are together the bytes of all the files it goes through and of their directories' trees; backing up what has not changed shows all of it as reused; and the check that a backup of nothing has reused nothing does not fail.", "quantifier": "all file trees, filters, parents, repositories and leftovers of earlier commands", "why_tests_cant": "Tests look at what is stored, not at the counts; that every byte is counted once, as one or the other, is about all trees, duplicates among them, and all sets of known blobs.", "anchors": ["src/ui/backup.rs: run, backup_tree, WalkStatistics", "src/progress.rs: print_backup_lines", "src/fs_tree.rs: walk_fs"]}
{"id": "C104", "title": "When a backup makes a snapshot", "statement": "A backup that runs to its end makes a snapshot, except in a dry run, if there is nothing to back up and --allow-empty is not given, or if the last snapshot is the same and --allow-repeat is not given.", "quantifier": "all repositories in good order, all file trees, filters, authors, tags and paths, all interleavings", "why_tests_cant": "Whether a snapshot is the same as the last depends on the whole file tree and on every snapshot there is; tests try a few.", "anchors": ["src/ui/backup.rs: run, Args"]}
{"id": "C105", "title": "What a copy or a prune shows as new and as reused adds up", "statement": "When the walk of a copy or a prune has ended, the bytes shown as packed and those shown as reused are together the bytes of the files of the snapshots gone through, less what was skipped, and of the trees of the new snapshots, each as often as it occurs.", "quantifier": "all repositories in good order, copied from and to or pruned, all snapshots, all filters, whatever an interrupted run has left", "why_tests_cant": "Which blobs count as reused depends on both repositories, on what was interrupted and on what came before in the walk; tests fix a few.", "anchors": ["src/repack.rs: walk_snapshots, walk_tree, WalkStatistics", "src/repack/ui.rs: print_progress", "src/ui/copy.rs: run", "src/ui/prune.rs: run"]}
{"id": "C106", "title": "What dump writes, and what it leaves in the file given with --output", "statement": "dump writes the bytes of the file at the path, to standard output or to the file given with --output, which is left with exactly what would have been printed. If it fails it has printed the start of that, and a file given is left with the start of that or as it was.", "quantifier": "all repositories in good order, also with their packs damaged in any way, all snapshots and paths, all earlier contents of the file", "why_tests_cant": "What is written before a failure depends on which chunk of which file is damaged and on what the cache of chunks holds; tests do not damage packs.", "anchors": ["src/ui/dump.rs: run, dump_file, dump_dir, dump_symlink, open_writer"]}
{"id": "C107", "title": "Forget removes what it says, and a dry run says what forget will remove", "statement": "The snapshots forget says it removes, the same with --dry-run and without, are exactly those that are gone afterwards, as far as the storage removed them; and the command succeeds exactly if its dry run does, unless the storage fails.", "quantifier": "all repositories, all lists of arguments, all failures of the storage to remove", "why_tests_cant": "Which snapshots are said depends on every argument and on the whole list of snapshots, and what is left on which removals fail; tests fix a few.", "anchors": ["src/ui/forget.rs: run, forget_duplicate_snapshots, forget_snapshot_list, forget_snapshot", "src/snapshot.rs: find"]}
{"id": "C108", "title": "A backup succeeds unless something is amiss", "statement": "A backup of paths with different names, of which the system reports what they are, into a repository in good order and whatever an interrupted backup has left, succeeds; if two of the paths have one name it fails.", "quantifier": "all file trees, all skips, all repositories in good order, all leftovers of interrupted backups, all parents, all schedules of the threads", "why_tests_cant": "Every tree, file and parent could be the one on which an assertion or an error ends the backup; tests back up a few.", "anchors": ["src/ui/backup.rs: run, backup_tree", "src/fs_tree.rs: walk_fs, file_changed", "src/tree.rs: forest_from_root, Node::kind", "src/backup.rs: find_resumable"]}
{"id": "C109", "title": "Check finds nothing wrong with what commands leave", "statement": "Whatever commands have run on a repository in good order, and wherever they were stopped, check, with or without --read-packs, finds nothing wrong with the files they leave; also at every instant while backups, or a rebuild-index beside them, run. If check passes, every other command can open the repository.", "quantifier": "all repositories in good order, all histories of commands and points at which they stop, all interleavings of concurrent backups, all orders in which the storage lists files", "why_tests_cant": "A test checks after a few commands that ran to their end; false alarms would come from particular instants of particular interleavings.", "anchors": ["src/ui/check.rs: run", "src/ui/backup.rs: run", "src/ui/prune.rs: run", "src/ui/rebuild_index.rs: run"]}
