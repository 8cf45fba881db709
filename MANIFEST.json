{"claims": [
 {"property": "C01", "status": "proved", "theorems": ["Backpak.C01.parse_display", "Backpak.C01.parse_canonical", "Backpak.C01.display_shape", "Backpak.C01.display_injective", "Backpak.C01.display_order"], "note": "data_encoding's base32 modelled arithmetically"},
 {"property": "C02", "status": "proved", "theorems": ["Backpak.C02.manifest_round_trip", "Backpak.C02.manifest_prefix_free"], "note": "ciborium modelled as canonical CBOR writer and a reader with its nesting limit; reference file reproduced"},
 {"property": "C03", "status": "proved", "theorems": ["Backpak.C03.index_round_trip", "Backpak.C03.index_bytes_injective"], "note": "the zstd layer around the CBOR is C06's frame relation"},
 {"property": "C04", "status": "proved", "theorems": ["Backpak.C04.tree_round_trip", "Backpak.C04.tree_bytes_injective", "Backpak.C04.tree_round_trip_any_times", "Backpak.C04.tree_round_trip_false_out_of_range", "Backpak.C04.said_once"], "note": "range hypothesis is necessary: witness given"},
 {"property": "C05", "status": "proved", "theorems": ["Backpak.C05.snapshot_round_trip", "Backpak.C05.snapshot_bytes_injective", "Backpak.C05.other_magic_refused", "Backpak.C05.old_snapshot_read", "Backpak.C05.other_version_refused", "Backpak.C05.dry_run_hashes_other_bytes"], "note": "version 2, and reading of version 1 with the text of its time as a parameter; reference file reproduced; times within 64-bit nanoseconds as CBOR integers; a dry run prints the ID of other bytes than a backup stores (dry_run_hashes_other_bytes)"},
 {"property": "C06", "status": "proved", "theorems": ["Backpak.C06.tail_gives_manifest", "Backpak.C06.load_manifest_written", "Backpak.C06.written_verifies", "Backpak.C06.written_extracts", "Backpak.C06.written_loads_chunks", "Backpak.C06.written_loads_trees", "Backpak.C06.a_file_is_written"], "note": "Every reader over every file the packer can write, for any zstd satisfying the frame laws. Hash collisions excluded only where stated."},
 {"property": "C07", "status": "proved", "theorems": ["Backpak.C07.extract_hashes", "Backpak.C07.load_pack_hashes", "Backpak.C07.append_hashes", "Backpak.C07.load_manifest_hashes", "Backpak.C07.verified_hashes", "Backpak.C07.verified_extracts", "Backpak.C07.verified_manifest"], "note": "For arbitrary file bytes."},
 {"property": "C08", "status": "proved", "theorems": ["Backpak.C08.packs_partition", "Backpak.C08.packs_partition_any", "Backpak.C08.run_succeeds", "Backpak.C08.manifests_partition"], "note": "Trailing zero-length blobs are excluded; the program never produces them (chunks are non-empty by C10, trees serialise to at least one byte)."},
 {"property": "C09", "status": "proved", "theorems": ["Backpak.C09.never_writes_past_target", "Backpak.C09.writes_within_budget", "Backpak.C09.incompressible_overshoot"], "note": ""},
 {"property": "C10", "status": "proved", "theorems": ["Backpak.C10.chunks_concat", "Backpak.C10.chunk_bounds", "Backpak.C10.chunk_minimum", "Backpak.C10.empty_file"], "note": "FastCDC is any cut function obeying its size contract."},
 {"property": "C11", "status": "proved", "theorems": ["Backpak.C11.received_prefix", "Backpak.C11.finished_same", "Backpak.C11.no_deadlock", "Backpak.C11.step_decreases", "Backpak.C11.always_finishes"], "note": "All schedules of cutter, hasher and consumer with bounded channels."},
 {"property": "C12", "status": "proved", "theorems": ["Backpak.C12.index_after_packs", "Backpak.C12.packs_stay", "Backpak.C12.all_indexes", "Backpak.C12.index_matches_packs", "Backpak.C12.dry_run_untouched"], "note": "Every reachable state of the pipeline transition system, every interleaving. index_matches_packs assumes no two packs of the run have manifests with one hash."},
 {"property": "C13", "status": "partial", "theorems": ["Backpak.C13.always_readable_partial", "Backpak.C13.next_can_start", "Backpak.C13.failing_readable_partial"], "note": "For backups (copies: C30), at every instant of every run, dry or live, resumed or not, finished or failing. Partial because of the hypothesis NoClash: no two blobs with one ID (which fails without a hash collision when a file holds the encoding of a directory, see C20.chunk_like_tree) and the new index does not have the ID of a superseded one (see C27)."},
 {"property": "C14", "status": "partial", "theorems": ["Backpak.C14.accepted_iff", "Backpak.C14.resumes_from", "Backpak.C14.always_resumable_partial", "Backpak.C14.resumable_chain_partial", "Backpak.C14.dry_run_blocks_resume"], "note": "Proved for live runs at every instant. False for dry runs: dry_run_blocks_resume is a reachable dry-run state from which every later command refuses to start."},
 {"property": "C15", "status": "proved", "theorems": ["Backpak.C15.finished_exact", "Backpak.C15.finished_contents"], "note": "Assumes the blobs sent are non-empty (the packer drops trailing zero-length blobs; no caller sends one). finished_contents assumes no two packs of the run collide."},
 {"property": "C16", "status": "partial", "theorems": ["Backpak.C16.never_stuck_partial", "Backpak.C16.runs_end", "Backpak.C16.start_cost", "Backpak.C16.finishes_partial", "Backpak.C16.never_aborts", "Backpak.C16.few_cores_hang"], "note": "Proved for four or more physical cores. False with three or fewer: few_cores_hang shows that then no backup with a new non-empty chunk and a new non-empty tree finishes under any schedule."},
 {"property": "C17", "status": "proved", "theorems": ["Backpak.C17.succeeds_iff", "Backpak.C17.supersedes_iff", "Backpak.C17.packs_sound", "Backpak.C17.packs_complete", "Backpak.C17.packs_exact", "Backpak.C17.order_irrelevant"], "note": "For every list of index files in every completion order."},
 {"property": "C18", "status": "proved", "theorems": ["Backpak.C18.refused_iff", "Backpak.C18.lookup_iff", "Backpak.C18.size_iff", "Backpak.C18.ids_iff"], "note": ""},
 {"property": "C19", "status": "proved", "theorems": ["Backpak.C19.sends_new_once", "Backpak.C19.nothing_missing", "Backpak.C19.command_sends_new_once"], "note": "for every tree, parent, filter and set of known blobs; no hash assumption"},
 {"property": "C20", "status": "partial", "theorems": ["Backpak.C20.snapshot_holds_partial", "Backpak.C20.reads_back_partial", "Backpak.C20.makes_snapshot_partial", "Backpak.C20.earlier_stay_partial", "Backpak.C20.finishes", "Backpak.C20.chunk_like_tree"], "note": "Every finished backup's snapshot holds and reads back as exactly the walked tree, and earlier snapshots stay as they were. Partial because of the hypothesis NoClash; chunk_like_tree proves that it can fail without a hash collision, leaving an unreadable snapshot."},
 {"property": "C21", "status": "proved", "theorems": ["Backpak.C21.incremental_is_full", "Backpak.C21.incremental_is_full_of_parent", "Backpak.C21.parent_made", "Backpak.C21.second_backup", "Backpak.C21.modified_reread"], "note": "iff with a full backup, incl. failure; parent may come from an earlier backup via repository and forest loading"},
 {"property": "C22", "status": "proved", "theorems": ["Backpak.C22.parent_is_last", "Backpak.C22.parent_newest", "Backpak.C22.no_parent"], "note": "For every load order; ties in time go to whichever of the tied snapshots loaded last."},
 {"property": "C23", "status": "proved", "theorems": ["Backpak.C23.never_overflows", "Backpak.C23.forest_exact", "Backpak.C23.succeeds_iff", "Backpak.C23.cycle_refused", "Backpak.C23.opens_honest"], "note": "Loading a forest terminates within the model's fuel for every repository (never_overflows), succeeds exactly when every reachable tree can be read and no tree reaches itself (succeeds_iff), and then holds exactly the reachable trees (forest_exact). For repositories whose listed packs are present and whose blobs hash to their IDs."},
 {"property": "C24", "status": "partial", "theorems": ["Backpak.C24.always_readable_partial", "Backpak.C24.needed_listed_partial", "Backpak.C24.plans", "Backpak.C24.finishes", "Backpak.C24.leaves_nothing", "Backpak.C24.empty_tree_hides_chunk", "Backpak.C24.failing_prune_loses"], "note": "Proved for every instant of a prune that does not fail, whether or not it resumes an interrupted one (C25 says when what it finds to resume is fit for that), on a repository with no chunk of the empty tree's bytes, under explicit no-collision hypotheses on the packs and index it writes. False without the proviso on the empty tree (empty_tree_hides_chunk: a one-byte file 0xA0 is lost) and false for a prune that fails part way (failing_prune_loses)."},
 {"property": "C25", "status": "partial", "theorems": ["Backpak.C25.resumed_keeps_partial", "Backpak.C25.resumed_finished_partial", "Backpak.C25.resumed_prune_loses", "Backpak.C25.dry_rebuild_then_prune_loses"], "note": "Proved: prunes that follow one another, each stopped at any instant and the next resuming what it left, keep every snapshot, and the last leaves what C26 says. False as stated: the other two theorems show a prune that destroys a snapshot's data, the first after an interrupted prune and a forget, the second after nothing but a dry run of rebuild-index."},
 {"property": "C26", "status": "partial", "theorems": ["Backpak.C26.only_needed_partial", "Backpak.C26.once_and_there_partial", "Backpak.C26.cleans_up_partial", "Backpak.C26.exactly_partial", "Backpak.C26.nothing_iff", "Backpak.C26.again_partial"], "note": "For every healthy repository and every schedule of a finished prune, which may resume interrupted ones (PruneLeft): what the index lists afterwards is exactly what snapshots need, each blob once, in packs that are there; no old index or dropped pack is left; a second prune finds nothing to do. Missing: a prune after an interrupted prune and a forget (C25), and repositories where a chunk has the empty tree's bytes."},
 {"property": "C27", "status": "partial", "theorems": ["Backpak.C27.history_partial", "Backpak.C27.prune_may_follow", "Backpak.C27.backup_after_prune_loses", "Backpak.C27.superseded_adds_nothing", "Backpak.C27.pruned_then_backed_up_loses"], "note": "Every history of backups, copies and filter-snapshots (each stopped at any instant or finished; backups also failing), forgets, rebuild-index (dry or not, stopped at any instant or finished, of a repository no blob of which is in two packs) and prunes (any number stopped at any instant, then one that finishes; not after a rebuild-index that did not finish, see C25) leaves every snapshot readable, given no hash clashes. The claim as stated is false: a backup after an interrupted prune makes existing snapshots unreadable, and (found while proving) backing up again what was pruned makes the new snapshot unreadable, with no interruption."},
 {"property": "C28", "status": "proved", "theorems": ["Backpak.C28.findable_stays", "Backpak.C28.readable_stays", "Backpak.C28.next_can_start", "Backpak.C28.all_listed", "Backpak.C28.usable_iff", "Backpak.C28.dry_nothing", "Backpak.C28.finishes", "Backpak.C28.leaves_wip", "Backpak.C28.dry_leaves_wip", "Backpak.C28.orphan_bricks"], "note": "For every repository and every order in which the packs are read. The new index's ID must not already be in use (it would be a hash of itself). next_can_start: what is left at any instant a backup can resume from, if no blob is in two packs. orphan_bricks shows that 'exactly when no blob is stored in two packs' has force: a readable repository with a leftover pack cannot be opened after its index was rebuilt. Outside: two rebuilds at the same time; for backups at the same time see C67."},
 {"property": "C29", "status": "proved", "theorems": ["Backpak.C29.only_named", "Backpak.C29.exactly_named", "Backpak.C29.dry_nothing", "Backpak.C29.only_repeats", "Backpak.C29.trees_stay", "Backpak.C29.stays_healthy"], "note": "For every list of snapshots and arguments and whatever removals fail. A name that makes the lookup panic counts as failing here."},
 {"property": "C30", "status": "partial", "theorems": ["Backpak.C30.always_healthy_partial", "Backpak.C30.copied_partial", "Backpak.C30.only_copied", "Backpak.C30.plans", "Backpak.C30.finishes", "Backpak.C30.empty_tree_hides_chunk", "Backpak.C30.command_copies_partial"], "note": "Proved, at every instant and at the end, for a copy that starts afresh or resumes an interrupted backup or copy, and whose source has no chunk of the empty tree's bytes, under explicit no-collision hypotheses on the blobs, packs, index and snapshots it writes. False without the proviso on the empty tree (empty_tree_hides_chunk)."},
 {"property": "C31", "status": "partial", "theorems": ["Backpak.C31.others_untouched_partial", "Backpak.C31.filtered_partial", "Backpak.C31.subtrees_untouched_partial", "Backpak.C31.plans", "Backpak.C31.finishes", "Backpak.C31.chunk_like_tree", "Backpak.C31.no_missing_chunks", "Backpak.C31.next_can_start"], "note": "Proved, at every instant and at the end, under explicit no-collision hypotheses on the blobs, packs, index and snapshot written, including that no chunk has the bytes of a new tree; chunk_like_tree proves it can fail without that one though nothing collides."},
 {"property": "C32", "status": "partial", "theorems": ["Backpak.C32.clean_sound_partial", "Backpak.C32.quick_sound", "Backpak.C32.clean_extracts", "Backpak.C32.clean_loads", "Backpak.C32.complete", "Backpak.C32.damage_found", "Backpak.C32.kinds_unchecked", "Backpak.C32.names_unchecked"], "note": "For files that can be any bytes: after a clean check --read-packs every snapshot decodes under its own hash and all its trees and chunks are in listed packs as bytes that hash to their IDs (clean_sound_partial); cat extracts every listed blob (clean_extracts) and packs of chunks load (clean_loads). Without --read-packs the same for trees, presence only for chunks (quick_sound). The files of any healthy repository pass (complete). Partial: 'can be read' fails as stated, since check ignores kinds: kinds_unchecked is a repository that passes although reading a file panics. Nor does it look at names: names_unchecked is a pack under a wrong name, which passes although its manifest cannot be loaded."},
 {"property": "C33", "status": "proved", "theorems": ["Backpak.C33.read_ok", "Backpak.C33.reads_right", "Backpak.C33.size_right", "Backpak.C33.reads_verified", "Backpak.C33.tie_panics", "Backpak.C33.oldest_min"], "note": "For strictly increasing clock readings. tie_panics shows the hypothesis is needed: with equal readings a chunk just loaded can be evicted before it is used."},
 {"property": "C34", "status": "proved", "theorems": ["Backpak.C34.sizes", "Backpak.C34.usage_right"], "note": "Whenever sizes are shown (see C35 for when). What trees and files come to is stated on the file tree and the stored blobs, not by the accounting itself."},
 {"property": "C35", "status": "partial", "theorems": ["Backpak.C35.works_iff_partial", "Backpak.C35.fails_after_backup", "Backpak.C35.sizes_fail"], "note": "The claim is false: sizes fail after any backup with an empty directory (fails_after_backup, with a concrete run in sizes_fail). works_iff_partial says exactly when they work."},
 {"property": "C36", "status": "proved", "theorems": ["Backpak.C36.full_id", "Backpak.C36.unknown_id", "Backpak.C36.last_name", "Backpak.C36.last_too_far", "Backpak.C36.unique_prefix", "Backpak.C36.never_wrong", "Backpak.C36.ambiguous", "Backpak.C36.short_name", "Backpak.C36.panics_iff"], "note": "Snapshot IDs are distinct, as file names are. LAST~N with N at or above 2^64 panics, and nothing else does (panics_iff)."},
 {"property": "C37", "status": "proved", "theorems": ["Backpak.C37.args_list", "Backpak.C37.succeeds_iff", "Backpak.C37.ties_keep_repeats"], "note": "ties_keep_repeats shows the parenthesis: equal times let a repeat survive."},
 {"property": "C38", "status": "proved", "theorems": ["Backpak.C38.exactly", "Backpak.C38.equal_silent", "Backpak.C38.swapped", "Backpak.C38.snapshots", "Backpak.C38.exactly_if", "Backpak.C38.complete"], "note": "Two snapshots. What is reported at each path is stated by entries of the two directory contents, separately from the comparison. File contents are compared by chunk lists, as the code does."},
 {"property": "C39", "status": "proved", "theorems": ["Backpak.C39.reproduces", "Backpak.C39.metadata"], "note": "RestoreOk (Spec/Restore.lean) lists what the restore needs: the snapshot is readable, destinations exist, hold no special files, are not reached through symlinks, files equal in size and mtime to the snapshot's have its contents, no hash collisions among the trees and chunks involved. Ownership, access times and directory modification times are not claimed. With --times the snapshot's times must be such that the system accepts them (C93)."},
 {"property": "C40", "status": "proved", "theorems": ["Backpak.C40.removes_nothing"], "note": "Same assumptions as C39, without --delete."},
 {"property": "C41", "status": "proved", "theorems": ["Backpak.C41.unchanged", "Backpak.C41.backup", "Backpak.C41.prune", "Backpak.C41.copy", "Backpak.C41.filterSnapshot", "Backpak.C41.forget", "Backpak.C28.dry_nothing", "Backpak.C41.restore", "Backpak.C41.restore_prints", "Backpak.C41.forgets_resume"], "note": "Every instant of every schedule; a dry restore makes no call that changes anything and prints what a real one prints."},
 {"property": "C42", "status": "partial", "theorems": ["Backpak.C42.paths", "Backpak.C42.outside_partial", "Backpak.C42.stays", "Backpak.C42.escapes"], "note": "The statement as written is false if symlinks count: with --output, several snapshot paths and a dangling symlink of one's name in the output, contents are written through the symlink (escapes). paths: every call's path is inside; outside_partial: nothing outside changes but mtimes of parent directories, for calls that do not go through symlinks; stays: under RestoreOk no call goes through a symlink."},
 {"property": "C43", "status": "proved", "theorems": ["Backpak.C43.lists", "Backpak.C43.parent_first", "Backpak.C43.siblings_in_order"], "note": "For snapshots of healthy repositories."},
 {"property": "C44", "status": "partial", "theorems": ["Backpak.C44.prints_partial", "Backpak.C44.through_symlink"], "note": "Proved for paths no proper prefix of which is a symlink; the claim is false through symlinks (through_symlink): dump carries on in the symlink's own directory."},
 {"property": "C45", "status": "partial", "theorems": ["Backpak.C45.true_reads", "Backpak.C45.can_read", "Backpak.C45.reads_iff_partial", "Backpak.C45.always_reads", "Backpak.C45.others", "Backpak.C45.written", "Backpak.C45.removed", "Backpak.C45.listed", "Backpak.C45.shared_cache"], "note": "For every sequence of requests, each cut short after any step. reads_iff_partial: with a cache of its own a read gives exactly what the backend holds. true_reads: with any sharing it gives what belongs under the name. Missing because false: shared_cache shows that an object no longer in a repository can be read through the cache once another repository with the same object was used. Requests of several threads and processes at the same time: see C68."},
 {"property": "C46", "status": "proved", "theorems": ["Backpak.C46.prunes", "Backpak.C46.no_limit", "Backpak.C46.ties_keep_rows", "Backpak.C46.over_limit"], "note": "prunes: with distinct times the entries kept are the most recently used ones, all but one of them together are below the limit, no more is dropped than needed, and files and rows agree. no_limit, ties_keep_rows and over_limit show what happens at the edges: a limit of 0 deletes files but not rows and fails, with equal times a row may outlive its file, and the last entry kept may be of any size."},
 {"property": "C47", "status": "proved", "theorems": ["Backpak.C47.atomic", "Backpak.C47.listed", "Backpak.C47.shown", "Backpak.C47.finished", "Backpak.C47.not_lost", "Backpak.C47.synced_survives", "Backpak.C47.power_loss_tears"], "note": "For any number of programs writing, moving and removing objects at the same time, each stopped anywhere or failing: every name but those of temporary files has what it had or the whole of what a job was to put there; a listing shows only whole objects; a moved file is never lost. Beyond the claim: synced_survives and power_loss_tears say what a power failure does: the file gets its name before it is synced, so in between part of an object may be found."},
 {"property": "C48", "status": "proved", "theorems": ["Backpak.C48.limited"], "note": "For every number of permits and threads and every interleaving; threads may be any number."},
 {"property": "C49", "status": "partial", "theorems": ["Backpak.C49.lost_wakeup", "Backpak.C49.one_waiter_partial", "Backpak.C49.wakes_it", "Backpak.C49.one_slot_partial"], "note": "The claim is false as it stands: lost_wakeup reaches a state with a free permit in which a task waits that nobody will wake (two permits, two waiters). one_waiter_partial and one_slot_partial: it is true if at most one task waits at a time, or with one permit and what is said there."},
 {"property": "C50", "status": "proved", "theorems": ["Backpak.C50.placed", "Backpak.C50.apart", "Backpak.C50.names_apart", "Backpak.C50.read_back", "Backpak.C50.only_ids", "Backpak.C50.probe"], "note": "std::path's and camino's file_name/extension/file_stem modelled on bytes."},
 {"property": "C51", "status": "proved", "theorems": ["Backpak.C51.lists_all", "Backpak.C51.lists_while_changing", "Backpak.C51.body_is", "Backpak.C51.empty_buffer", "Backpak.C51.put_accepts", "Backpak.C51.put_stores", "Backpak.C51.put_never_pads"], "note": "The service's contract (Page, Accepts) is what B2 documents. lists_all: every pagination gives exactly the uploaded files with the prefix. lists_while_changing: also for a bucket that changes meanwhile. body_is: for all buffer sizes and short reads the body is the contents and then their digest; empty_buffer shows why buffers must not be empty. put_stores: success means exactly the contents were stored."},
 {"property": "C52", "status": "partial", "theorems": ["Backpak.C52.retried_partial", "Backpak.C52.never_wrong", "Backpak.C52.returns_iff", "Backpak.C52.stuck_after_one", "Backpak.C52.afresh"], "note": "False as stated: stuck_after_one (one failure after the first byte was read, and the upload never returns). returns_iff says exactly when it does. never_wrong: nothing but the whole contents is ever stored. retried_partial: failures before the first byte are retried to success. afresh: reads, listings and removals are."},
 {"property": "C53", "status": "partial", "theorems": ["Backpak.C53.together_partial", "Backpak.C53.skipped", "Backpak.C53.both", "Backpak.C53.global_only", "Backpak.C53.local_ignored", "Backpak.C53.global_skips_replaced", "Backpak.C53.flags"], "note": "False as first conceived: a local configuration replaces the global skips (by design, per a comment) and is ignored without a global one (local_ignored). TOML and regular expressions are parameters."},
 {"property": "C54", "status": "proved", "theorems": ["Backpak.C54.absent_iff", "Backpak.C54.letters", "Backpak.C54.across", "Backpak.C54.reported", "Backpak.C54.contents_hide_metadata"], "note": "A path whose metadata differs is always printed; if its contents differ too, with C or +/- instead of a letter."},
 {"property": "C55", "status": "partial", "theorems": ["Backpak.C55.removes", "Backpak.C55.can_iff", "Backpak.C55.ends_iff_partial", "Backpak.C55.uploaded_twice"], "note": "removes and ends_iff_partial hold for every bucket and failure pattern; the liveness part is false for objects uploaded twice (uploaded_twice)."},
 {"property": "C56", "status": "partial", "theorems": ["Backpak.C56.restored", "Backpak.C56.round_trip_partial"], "note": "Partial for the same reason as C20: a chunk whose bytes are the encoding of a tree backed up with it would be taken for it (C20), so the theorem assumes no two blobs involved have one hash whatever their kind. A single path that is not a directory, restored to an existing directory, needs --delete: otherwise the program leaves the directory alone. As in C39, with --times the snapshot's times must be settable (C93)."},
 {"property": "C57", "status": "proved", "theorems": ["Backpak.C57.complete", "Backpak.C57.complete_computes", "Backpak.C57.rejected", "Backpak.C57.round_trip"], "note": "Reader, copying thread and child process as a transition system with one step per system call."},
 {"property": "C58", "status": "partial", "theorems": ["Backpak.C58.not_stuck", "Backpak.C58.ends", "Backpak.C58.comes_to_an_end_partial", "Backpak.C58.failed_for_a_reason", "Backpak.C58.panics"], "note": "No deadlock and no endless run. The claim that nothing panics is false: panics exhibits the race on is_finished."},
 {"property": "C59", "status": "proved", "theorems": ["Backpak.C59.stored", "Backpak.C59.success", "Backpak.C59.stored_computes", "Backpak.C59.rejected"], "note": "As C57, with the temporary file and the store."},
 {"property": "C60", "status": "partial", "theorems": ["Backpak.C60.not_stuck_partial", "Backpak.C60.ends", "Backpak.C60.comes_to_an_end_partial", "Backpak.C60.full_disk_hangs"], "note": "Holds unless writing the temporary file fails; then full_disk_hangs, for every pipe size."},
 {"property": "C61", "status": "proved", "theorems": ["Backpak.C61.true_reads", "Backpak.C61.reads_iff", "Backpak.C61.listed_can_be_read", "Backpak.C61.written", "Backpak.C61.only_filtered"], "note": "By refinement to the unfiltered repository of C45. The programs are taken as the functions they compute, by C57 and C59."},
 {"property": "C62", "status": "proved", "theorems": ["Backpak.C62.config_round_trip", "Backpak.C62.config_read", "Backpak.C62.filter_kept", "Backpak.C62.harms_nothing", "Backpak.C62.refuses", "Backpak.C62.can_make", "Backpak.C62.made_opens", "Backpak.C62.unfinished", "Backpak.C62.cannot_be_finished", "Backpak.C62.opened_has"], "note": "TOML is a parameter with a round-trip law. cannot_be_finished: an init cut short has to be cleared by hand."},
 {"property": "C63", "status": "proved", "theorems": ["Backpak.C63.stat", "Backpak.C63.sizes_stat", "Backpak.C63.sizes_files", "Backpak.C63.sizes_needed", "Backpak.C63.command_stat", "Backpak.C63.removed_has_sizes", "Backpak.C63.all_or_nothing"], "note": "for snapshots that can be read; with ties in time 'before' is the order they were loaded in"},
 {"property": "C64", "status": "proved", "theorems": ["Backpak.C64.tree_lossless", "Backpak.C64.manifest_lossless", "Backpak.C64.index_lossless", "Backpak.C64.snapshot_lossless", "Backpak.C64.blob_sound", "Backpak.C64.pack_sound", "Backpak.C64.index_sound", "Backpak.C64.snapshot_sound", "Backpak.C64.blob_written", "Backpak.C64.blob_missing", "Backpak.C64.pack_written", "Backpak.C64.index_written", "Backpak.C64.snapshot_written", "Backpak.C64.snapshot_by_id"], "note": "times as text are a parameter, assumed different for different times where losslessness needs it"},
 {"property": "C65", "status": "partial", "theorems": ["Backpak.C65.always_healthy_partial", "Backpak.C65.finished_holds_partial", "Backpak.C65.twice_refused", "Backpak.C65.common_data_refused"], "note": "True of any number of backups no two of which add the same blob (and no two objects have one ID): at every instant the repository is in good order and finished backups are whole. False in general: two backups at the same time of directories with a new file in common leave a repository that cannot be opened (common_data_refused); twice_refused says so of any repository with a blob in two listed packs."},
 {"property": "C66", "status": "partial", "theorems": ["Backpak.C66.always_orderly_partial", "Backpak.C66.before_prune_partial", "Backpak.C66.finished_holds_partial", "Backpak.C66.beside_holds_partial", "Backpak.C66.prune_in_window_loses", "Backpak.C66.prune_takes_what_backup_found", "Backpak.C66.prune_removes_new_pack"], "note": "True of any number of backups and one prune if no two add the same new blob and no backup makes a pack that the prune removes: the repository is in order at every instant, what was there when it all began and when the prune began stays readable, and a finished backup is whole if no prune stored its index since, or if what it found when it began is still there and the prune found none of what it adds. False in general: the three counterexamples each break one of these conditions."},
 {"property": "C67", "status": "proved", "theorems": ["Backpak.C67.always_healthy", "Backpak.C67.finished_holds", "Backpak.C67.rebuilt", "Backpak.C67.completes", "Backpak.C67.prune_beside_misleads"], "note": "Hypotheses beside those of the quantifier: no two objects have one ID; a backup that resumes does so from packs not listed yet; no backup stores anew an index superseded at first (see C27). One rebuild; C90 has any number. prune_beside_misleads: with a prune in place of the backup it is false; a live index then lists a pack that is not there."},
 {"property": "C68", "status": "partial", "theorems": ["Backpak.C68.true_reads", "Backpak.C68.accounted_partial", "Backpak.C68.never_fails_partial", "Backpak.C68.busy_fails", "Backpak.C68.uncounted", "Backpak.C68.read_when_gone"], "note": "true_reads holds for every interleaving and every kill. accounted_partial: nothing removed and nobody in the midst of a request; uncounted shows that a killed process can leave a file without a row. never_fails_partial: threads of one process; busy_fails shows that between two processes a read of an object that is there can fail, since prune's transaction reads before it writes. read_when_gone: an object removed meanwhile comes back to the cache and is read. SQLite in WAL mode is a versioned table; waits with a timeout are taken to succeed."},
 {"property": "C69", "status": "partial", "theorems": ["Backpak.C69.unchanged_sends_nothing", "Backpak.C69.unchanged_adds_nothing_partial", "Backpak.C69.unchanged_dry_run", "Backpak.C69.unchanged_resumed_panics", "Backpak.C69.panics_only_if_resumed", "Backpak.C69.panics_after_rebuild"], "note": "Proved when there is no work-in-progress index to resume (or on a dry run). False otherwise: then the assertions panic (unchanged_resumed_panics; a concrete history in panics_after_rebuild). panics_only_if_resumed shows that this is the only way they fail, given that no two blobs share an ID."},
 {"property": "C70", "status": "proved", "theorems": ["Backpak.C70.reader", "Backpak.C70.writer", "Backpak.C70.reads_beginning", "Backpak.C70.writes_added", "Backpak.C70.read_to_end", "Backpak.C70.write_each", "Backpak.C70.toEnd_lift", "Backpak.C70.counted_read", "Backpak.C70.counted_write", "Backpak.C70.counted_whole"], "note": "any reader and writer underneath, any program of calls; a counter is exact until it passes 64 bits; a hasher is a fold over bytes"},
 {"property": "C71", "status": "partial", "theorems": ["Backpak.C71.last_is_final", "Backpak.C71.numbered", "Backpak.C71.never_stuck_partial", "Backpak.C71.steps_count", "Backpak.C71.waits_little", "Backpak.C71.then_goes_on", "Backpak.C71.errors_do_no_harm", "Backpak.C71.closed_output_panics"], "note": "the two threads as a transition system; false if the output is closed: println! panics, and the command with it after its work (closed_output_panics)"},
 {"property": "C72", "status": "proved", "theorems": ["Backpak.C72.whole", "Backpak.C72.check_iff", "Backpak.C72.backup_after_check", "Backpak.C72.backup_or_fails", "Backpak.C72.accepted_iff", "Backpak.C72.root_panics", "Backpak.C72.walk_untroubled", "Backpak.C72.walk_or_fails"], "note": "on a filesystem that stays as it is; whether a call fails is a function of the call and the path; reading what was opened does not fail; making paths canonical is not modelled"},
 {"property": "C73", "status": "partial", "theorems": ["Backpak.C73.accepted", "Backpak.C73.accepted_computes", "Backpak.C73.good_never_refused", "Backpak.C73.not_stuck_partial", "Backpak.C73.ends", "Backpak.C73.good_accepted", "Backpak.C73.wrong_pair_hangs"], "note": "For all pairs of programs and pipe sizes. False for programs that do not undo one another: wrong_pair_hangs. A program that stops reading early may be refused although it gives the text back (the pipe breaks)."},
 {"property": "C74", "status": "partial", "theorems": ["Backpak.C74.again", "Backpak.C74.finishes_partial", "Backpak.C74.directory_stays", "Backpak.C74.lost", "Backpak.C74.not_finished"], "note": "Partial: the code does not have it for a destination of another kind than in the snapshot, which can be lost (not_finished). The second restore needs that what it finds has no special files, fits the format and does not collide (FoundOk), as any restore does; the sizes the filesystem reports are the lengths of the files. finishes_partial is for --delete; again covers both. As in C39, with --times the snapshot's times must be settable (C93)."},
 {"property": "C75", "status": "partial", "theorems": ["Backpak.C75.all_done", "Backpak.C75.blamed", "Backpak.C75.limit", "Backpak.C75.ends", "Backpak.C75.goes_on", "Backpak.C75.signals", "Backpak.C75.only_ours_partial", "Backpak.C75.kills_stranger", "Backpak.C75.leaves_child"], "note": "That a failing program signals only its own children, and all of them, is false: kills_stranger and leaves_child give the runs. only_ours_partial holds for runs in which no child is waited for while its number is still on the list."},
 {"property": "C76", "status": "partial", "theorems": ["Backpak.C76.safe_partial", "Backpak.C76.latest", "Backpak.C76.freed_once", "Backpak.C76.collectable", "Backpak.C76.outlived"], "note": "safe_partial needs the Rcu to be alive; nothing in its interface ensures that (outlived). crossbeam_epoch by its contract, memory sequentially consistent."},
 {"property": "C77", "status": "proved", "theorems": ["Backpak.C77.whole", "Backpak.C77.fits", "Backpak.C77.never_wider", "Backpak.C77.checked_panics_iff"], "note": "A line is measured in graphemes, as in the code. checked_panics_iff says exactly when a build that checks its arithmetic panics."},
 {"property": "C78", "status": "partial", "theorems": ["Backpak.C78.stays", "Backpak.C78.stays_on", "Backpak.C78.prune_lists", "Backpak.C78.nothing_more", "Backpak.C78.regained_partial", "Backpak.C78.stray_stays", "Backpak.C78.stray_goes"], "note": "regained_partial needs that no two packs share a blob; without that it is false, by C28.orphan_bricks."},
 {"property": "C79", "status": "proved", "theorems": ["Backpak.C79.sends_new_chunks", "Backpak.C79.moved", "Backpak.C79.same_before", "Backpak.C79.same_after", "Backpak.C79.near_the_change", "Backpak.C79.changed", "Backpak.C79.known_after", "Backpak.C79.all_again"], "note": "The cut function is any that keeps the sizes (Chunk.Contract) and depends on no more than the next 8 MiB (LooksAhead). all_again: with the sizes alone one byte in front can change every chunk."},
 {"property": "C80", "status": "partial", "theorems": ["Backpak.C80.requests_limited_partial", "Backpak.C80.downloads_unlimited", "Backpak.C80.claim_iff", "Backpak.C80.zero_waits", "Backpak.C80.enough", "Backpak.C80.one_connection", "Backpak.C80.left_asleep"], "note": "False in the code: claim_iff shows that the claim holds only if there are no more threads than connections (or none), downloads_unlimited that any number of downloads go on at once with one connection. requests_limited_partial is what holds: at most n requests await their answer. left_asleep: a thread can be left asleep with all connections free; one_connection and enough say when not. Full statement: C80.Claim."},
 {"property": "C81", "status": "proved", "theorems": ["Backpak.C81.unused_iff", "Backpak.C81.unused_zero", "Backpak.C81.packed_all", "Backpak.C81.after_prune", "Backpak.C81.countable_iff"], "note": "EmptyOwn: no stored blob other than the empty tree has its ID (no-collision hypothesis)"},
 {"property": "C82", "status": "partial", "theorems": ["Backpak.C82.sends_new", "Backpak.C82.again_partial", "Backpak.C82.cut_short_partial", "Backpak.C82.finished_after_cuts_partial"], "note": "false without CopyNoClash.blobs (see C30): a chunk with the bytes of a tree's encoding may hide the tree or be hidden"},
 {"property": "C83", "status": "partial", "theorems": ["Backpak.C83.nothing_lost", "Backpak.C83.nothing_new", "Backpak.C83.only_needed", "Backpak.C83.no_more", "Backpak.C83.old_gone", "Backpak.C83.healthy_partial", "Backpak.C83.healthy_one_partial", "Backpak.C83.unopenable"], "note": "false as stated: two prunes that cut packs differently leave blobs listed twice (unopenable); all else holds at every instant"},
 {"property": "C84", "status": "partial", "theorems": ["Backpak.C84.read_kept", "Backpak.C84.healthy_partial", "Backpak.C84.unread_gone", "Backpak.C84.unread_unreadable", "Backpak.C84.unread_packs_stay", "Backpak.C84.half_read_stops", "Backpak.C84.finished_backup_lost"], "note": "False for backups that finish between the two listings of the indexes (finished_backup_lost; unread_gone and unread_unreadable in general). healthy_partial: in good order at every instant if no snapshot was stored since the prune read them. The working directory of the prune has nothing to resume, and others write only between its reads."},
 {"property": "C85", "status": "proved", "theorems": ["Backpak.C85.trees_same", "Backpak.C85.ls_same", "Backpak.C85.diff_same", "Backpak.C85.dump_same", "Backpak.C85.restore_same", "Backpak.C85.restores", "Backpak.C85.same_files", "Backpak.C85.copy_same", "Backpak.C85.snapshot_same", "Backpak.C85.stat_same", "Backpak.C85.sizes_same", "Backpak.C85.usage_same", "Backpak.C85.prune_same", "Backpak.C85.backup_same"], "note": "For every source of packs, indexes and lookup tables that serves no second preimage of a stored blob (NoForgery). restores is C39 for a damaged repository. sizes_same, usage_same, prune_same and backup_same are for damaged packs beside undamaged indexes, since these commands print sizes out of the indexes, or decide by them what is stored."},
 {"property": "C86", "status": "partial", "theorems": ["Backpak.C86.found_iff", "Backpak.C86.brings_back", "Backpak.C86.indexes_expendable", "Backpak.C86.used_kept", "Backpak.C86.lost_brought_back_partial", "Backpak.C86.shut_for_ever", "Backpak.C86.rebuild_shuts", "Backpak.C86.prunes_shut_for_ever", "Backpak.C86.by_hand"], "note": "All parts are proved but that the repository can then be used, which is false in the code if a blob is in two packs: shut_for_ever and prunes_shut_for_ever prove that no sequence of commands ever helps. When no blob is in two packs it is true (C28.usable_iff)."},
 {"property": "C87", "status": "partial", "theorems": ["Backpak.C87.ls_right", "Backpak.C87.diff_right", "Backpak.C87.dump_right", "Backpak.C87.restore_right", "Backpak.C87.index_right", "Backpak.C87.index_loads_iff", "Backpak.C87.opens_listed", "Backpak.C87.as_at_listing", "Backpak.C87.ls_succeeds", "Backpak.C87.dump_succeeds", "Backpak.C87.restore_succeeds_partial", "Backpak.C87.late_of_absent", "Backpak.C87.late_fails", "Backpak.C87.late_fails_over", "Backpak.C87.late_stops", "Backpak.C87.checkOver_still", "Backpak.C87.check_late_fails", "Backpak.C87.finished_backup_in_the_way", "Backpak.C87.check_in_the_way", "Backpak.C87.stat_right", "Backpak.C87.sizes_right", "Backpak.C87.usage_right", "Backpak.C87.stat_succeeds"], "note": "Proved: commands as programs that read one pack after another, each at another moment; what ls, diff, dump, snapshots --stat and --sizes, usage and restore --delete give when they succeed; loading the indexes one by one; success while others only add, for ls, dump and snapshots --stat (snapshot first) and for restore of a snapshot that was there when the indexes were listed. False as stated for commands that load the indexes first and then a snapshot stored meanwhile: late_fails, late_stops, check_late_fails in general, finished_backup_in_the_way and check_in_the_way on repositories in good order. Names stand for the same bytes throughout (a hypothesis). Not covered over time: what dump prints before it fails."},
 {"property": "C88", "status": "partial", "theorems": ["Backpak.C88.snapshot_holds_found_partial", "Backpak.C88.found_bytes_were_there_partial", "Backpak.C88.next_is_faithful", "Backpak.C88.torn_chunk_spoils_pack", "Backpak.C88.torn_chunk_stays", "Backpak.C88.torn_happens"], "note": "False for files of 10 MiB and more, which are mapped and read twice (torn_happens, torn_chunk_spoils_pack, torn_chunk_stays). snapshot_holds_found_partial and found_bytes_were_there_partial assume that no such file changes once it is opened (LargeStay); next_is_faithful does not. Missing: a file that gets shorter while mapped may kill the process; that is not modelled as an outcome."},
 {"property": "C89", "status": "partial", "theorems": ["Backpak.C89.rebuilt", "Backpak.C89.readable_iff", "Backpak.C89.forgetting_mends", "Backpak.C89.backup_adds_partial", "Backpak.C89.regains", "Backpak.C89.reuse_no_parent", "Backpak.C89.reuse_touched", "Backpak.C89.unmodified_sends_nothing", "Backpak.C89.unmodified_stays_lost", "Backpak.C89.lost_tree_refuses", "Backpak.C89.still_opens", "Backpak.C89.still_listed_stays_lost"], "note": "Rebuilding the index, and forgetting what cannot be read, mends a repository that has lost packs. The rest is false: unmodified_stays_lost, lost_tree_refuses and still_listed_stays_lost. backup_adds_partial needs the chunks of files that look unmodified to be found (Mend.Over.reuse)."},
 {"property": "C90", "status": "proved", "theorems": ["Backpak.C90.always_healthy", "Backpak.C90.finished_holds", "Backpak.C90.rebuilt", "Backpak.C90.goes_on", "Backpak.C90.second_fails"], "note": "Any number of backups and rebuild-indexes. That no index written was superseded in the repository at first, and that IDs tell the objects involved apart, are hypotheses (as in C67). Prunes among them: C67.prune_beside_misleads. Backends on which removing a missing file succeeds only have more runs that end well; the step model is of the filesystem backend."},
 {"property": "C91", "status": "partial", "theorems": ["Backpak.C91.only_what_is_printed", "Backpak.C91.printed_and_info", "Backpak.C91.nothing_printed", "Backpak.C91.verbose_same", "Backpak.C91.more_verbose", "Backpak.C91.said_on_stderr", "Backpak.C91.only_grave", "Backpak.C91.succeeds_iff", "Backpak.C91.fails", "Backpak.C91.in_directory", "Backpak.C91.as_if_gone_partial", "Backpak.C91.not_as_if_gone", "Backpak.C91.config_not_from_there", "Backpak.C91.no_such_dir", "Backpak.C91.info_twice", "Backpak.C91.counted", "Backpak.C91.any_order", "Backpak.C91.counts_shown", "Backpak.C91.counts_only"], "note": "Proved for arbitrary commands but for -C: the configuration is read before the directory is changed, so the claim that -C dir is the same as going to dir first is false (not_as_if_gone, config_not_from_there) and is proved where .backpak is the same in both directories and --config is absolute or absent (as_if_gone_partial)."},
 {"property": "C92", "status": "partial", "theorems": ["Backpak.C92.directory_partial", "Backpak.C92.old_link", "Backpak.C92.new_link", "Backpak.C92.stale_link", "Backpak.C92.settled", "Backpak.C92.twice", "Backpak.C92.stale_directory"], "note": "Partial: the code does not have it. A directory whose own metadata is right, but in which something is made or removed, keeps the time of the restore (stale_directory); so does a symlink the restore has to make (new_link, stale_link). All other directories and links have the snapshot's time (directory_partial, old_link), and after a second restore all have (twice, with --delete and FoundOk as in C74). Special files are left out. As in C39, with --times the snapshot's times must be settable (C93)."},
 {"property": "C93", "status": "partial", "theorems": ["Backpak.C93.survives_iff", "Backpak.C93.survives_partial", "Backpak.C93.read_ok", "Backpak.C93.read_panics", "Backpak.C93.comes_back", "Backpak.C93.set_iff", "Backpak.C93.before_1970", "Backpak.C93.wrong_time", "Backpak.C93.restore_fails", "Backpak.C93.old_file", "Backpak.C93.unchanged_iff"], "note": "Partial: the code does not have it. survives_iff says exactly which modification times survive: those from 1970 to April 2262, and those from 1677 on of whole seconds, as far as the access time does not get in the way. Others make the restore fail (before_1970, restore_fails, old_file), come back wrong (wrong_time; such a file is also never taken for unchanged, unchanged_iff) or make the backup panic (read_panics). jiff's range and utimensat's EINVAL are modelled from their documentation."},
 {"property": "C94", "status": "partial", "theorems": ["Backpak.C94.ls_tells_partial", "Backpak.C94.diff_tells_partial", "Backpak.C94.ls_does_not_tell", "Backpak.C94.diff_does_not_tell", "Backpak.C94.stat_is_diff", "Backpak.C94.stat_tells_partial"], "note": "The code does not have the full claim: names and targets are printed as they are, so a file called 'a -> b' and a symlink a to b give the same line (ls_does_not_tell), and newlines in names make lines (diff_does_not_tell). Proved for names that are not empty, have no slash, newline or arrow, and targets without newlines; for ls, in both directions. stat_is_diff: for any names snapshots --stat prints diff's lines after a space; with --file-sizes its lines are padded and have sizes after them, which is not covered here (C63)."},
 {"property": "C95", "status": "partial", "theorems": ["Backpak.C95.exactly", "Backpak.C95.changes_partial", "Backpak.C95.silent_partial", "Backpak.C95.snapshots", "Backpak.C95.snapshots_silent", "Backpak.C95.made", "Backpak.C95.after_backup", "Backpak.C95.followed_shown", "Backpak.C95.gone", "Backpak.C95.missed", "Backpak.C95.command_partial", "Backpak.C95.command_two"], "note": "For one snapshot the full claim is false of the code: a changed file with the size and modification time it had is not shown (missed) and a path that is gone makes it fail (gone). exactly states what is printed in all cases where the paths are there; changes_partial and silent_partial give the claim if no file is changed in that way and nothing is a special file. For two snapshots whose files are cut alike the claim holds (snapshots, snapshots_silent)."},
 {"property": "C96", "status": "proved", "theorems": ["Backpak.C96.tree_id", "Backpak.C96.same_tree_iff", "Backpak.C96.planned", "Backpak.C96.same_files_same_tree", "Backpak.C96.finished_cut_partial", "Backpak.C96.alike_partial", "Backpak.C96.filter_tree", "Backpak.C96.filter_is_skip", "Backpak.C96.copy_tree", "Backpak.C96.stays", "Backpak.C96.stays_added", "Backpak.C96.history_matters"], "note": "Given that chunks and trees do not hash alike (same_tree_iff) and that the parent is cut by the chunker in use (planned); history_matters shows the latter is needed, alike_partial that backups maintain it, given as in C13 that no two packs, indexes or blobs hash alike."},
 {"property": "C97", "status": "partial", "theorems": ["Backpak.C97.step_partial", "Backpak.C97.history_partial", "Backpak.C97.pruning_partial", "Backpak.C97.copied_partial", "Backpak.C97.round_trip_partial", "Backpak.C97.copied_round_trip_partial"], "note": "Given, as in C27, that blobs, packs, indexes and snapshots do not hash alike, and that an interrupted prune is followed by prunes until one has finished; C27 has the cases in which that fails."},
 {"property": "C98", "status": "proved", "theorems": ["Backpak.C98.memory_right", "Backpak.C98.disk_right", "Backpak.C98.disk_cut", "Backpak.C98.remote_right", "Backpak.C98.remote_cut", "Backpak.C98.memory", "Backpak.C98.disk", "Backpak.C98.remote", "Backpak.C98.alike", "Backpak.C98.alike_memory", "Backpak.C98.memory_answers", "Backpak.C98.disk_writes", "Backpak.C98.disk_lists", "Backpak.C98.disk_removes", "Backpak.C98.remote_answers", "Backpak.C98.remote_removes_iff", "Backpak.C98.absent_differs", "Backpak.C98.twice_differs"], "note": "A table of objects is refined by each store: memory, disk (on the file operations of C47), Backblaze (on pages, uploads with retries and versions of C51, C52, C55). disk and remote are about any sequence of requests with kills in between; alike and alike_memory compare stores; *_answers, disk_writes, disk_lists, disk_removes, remote_removes_iff say when there is an answer. absent_differs and twice_differs are where stores differ. The cache and filters are put on any such table by C45 and C61; requests at the same time are in C47 and C68."},
 {"property": "C99", "status": "partial", "theorems": ["Backpak.C99.filter_diff_partial", "Backpak.C99.filter_ls_partial", "Backpak.C99.filter_twice_partial", "Backpak.C99.copy_filter_partial", "Backpak.C99.filter_copy_partial", "Backpak.C99.restore_diff_partial", "Backpak.C99.restore_diff_metadata"], "note": "Proved for runs that finish and no two blobs that an ID cannot tell apart (FilterNoClash, CopyNoClash; without them a chunk that looks like a tree breaks the new snapshot, C31.chunk_like_tree). The last sentence is false with --metadata (restore_diff_metadata): restore leaves the times of some directories; proved without it. It asks that names are distinct, files are cut by the same chunker and hashes do not collide among the trees compared (DiffOk)."},
 {"property": "C100", "status": "proved", "theorems": ["Backpak.C100.kinds", "Backpak.C100.stored", "Backpak.C100.again_iff"], "note": "POSIX. Times outside 1677 to 2262 are C93's."},
 {"property": "C101", "status": "partial", "theorems": ["Backpak.C101.needs", "Backpak.C101.missing_fails", "Backpak.C101.output_missing_fails", "Backpak.C101.works_iff"], "note": "False as stated: in a repository in good order, restoring in place fails, before any change, if one path of the snapshot is not there (missing_fails), and so does restoring a snapshot of one path to an output that is not there (output_missing_fails). Whatever runs has found something at each place (needs), and where all else is as C39 assumes, something at each path is enough for everything to come back (works_iff). Snapshots of several paths restored with --output need none of them (C56.restored)."},
 {"property": "C102", "status": "proved", "theorems": ["Backpak.C102.all_in_use", "Backpak.C102.right", "Backpak.C102.adds_up", "Backpak.C102.tells_iff", "Backpak.C102.does", "Backpak.C102.frees", "Backpak.C102.frees_empty", "Backpak.C102.frees_some"], "note": "Sizes as numbers, not as the rounded text. Assumptions as for C24 and C26: the repository is in good order, no chunk has the bytes of an empty tree, and no two packs or indexes that take part have one ID. frees: if the empty tree is stored or not needed; frees_empty: if it is needed and not stored."},
 {"property": "C103", "status": "proved", "theorems": ["Backpak.C103.counts", "Backpak.C103.fails", "Backpak.C103.adds_up", "Backpak.C103.all_reused", "Backpak.C103.nothing"], "note": "The walk with its counter sends what the walk without it sends (counts, fails). Sizes in the files' metadata are taken to be those of the files (SizesRight), as reused files are counted by them. Trees are identified by their hash; the last theorem names the collision it excludes. Counters have no upper bound; the rounding to units (nice_size) is not modelled."},
 {"property": "C104", "status": "partial", "theorems": ["Backpak.C104.makes_iff_partial", "Backpak.C104.afterwards", "Backpak.C104.none_if_empty", "Backpak.C104.none_if_same", "Backpak.C104.none_if_dry", "Backpak.C104.earlier_repeats", "Backpak.C104.repeat_ignored", "Backpak.C104.repeat_refused"], "note": "False as stated: --allow-repeat is not looked at, so that a backup of what the last snapshot holds never makes one (repeat_ignored, repeat_refused). Proved: exactly when a snapshot is made otherwise, and what the snapshots are afterwards."},
 {"property": "C105", "status": "proved", "theorems": ["Backpak.C105.copy_counts", "Backpak.C105.copy_fails", "Backpak.C105.copy_adds_up", "Backpak.C105.prune_counts", "Backpak.C105.prune_adds_up"], "note": "copy_adds_up, prune_adds_up: the sum is as GoneThrough says, for any repositories in good order; copy_counts, copy_fails, prune_counts: the counting walk is the walk of the plan. How the numbers are rounded to be shown, and the numbers while the walk runs, are left out."},
 {"property": "C106", "status": "partial", "theorems": ["Backpak.C106.file_written_partial", "Backpak.C106.link_written_partial", "Backpak.C106.dir_written", "Backpak.C106.none_written_partial", "Backpak.C106.output_same_partial", "Backpak.C106.as_printed", "Backpak.C106.output_is_last", "Backpak.C106.damaged_stdout", "Backpak.C106.damaged_output_partial", "Backpak.C106.output_is_less", "Backpak.C106.failed_empties"], "note": "The _partial theorems are for paths with no symlink on the way; with one, the full claim is false for --output (output_is_less) though not for standard output (damaged_stdout has no such condition). as_printed ties the bytes to C44 for any path. Whether the output can be opened and written to is not modelled."},
 {"property": "C107", "status": "partial", "theorems": ["Backpak.C107.removes_told", "Backpak.C107.dry_ok_iff", "Backpak.C107.ok_iff", "Backpak.C107.told_loaded", "Backpak.C107.same_outcome_partial", "Backpak.C107.duplicates_succeed", "Backpak.C107.named_twice"], "note": "What is said is what is gone, for all arguments and failures. That the command succeeds exactly if its dry run does is false of the code if two arguments name one snapshot (named_twice); it is proved if none do, and always for DUPLICATES."},
 {"property": "C108", "status": "partial", "theorems": ["Backpak.C108.starts", "Backpak.C108.succeeds_partial", "Backpak.C108.same_name_fails", "Backpak.C108.parent_kinds", "Backpak.C108.kinds_stay", "Backpak.C108.dry_succeeds_partial"], "note": "A backup always gets as far as starting its threads. That it then succeeds is false of the code with three cores or fewer (C16.few_cores_hang) and if it resumes and makes no snapshot (C69.unchanged_resumed_panics); it is proved with four cores, nothing to resume and no two IDs alike."},
 {"property": "C109", "status": "partial", "theorems": ["Backpak.C109.history_partial", "Backpak.C109.pruning_partial", "Backpak.C109.backing_up_partial", "Backpak.C109.rebuilding_partial", "Backpak.C109.passes_opens", "Backpak.C109.rebuilt_fails", "Backpak.C109.rebuild_breaks"], "note": "After any history C27 allows, at every instant of prunes that resume one another, of any number of backups at once, and of backups beside a rebuild-index, the files pass both kinds of check. Partial: false of rebuild-index where a blob is in two packs (rebuild_breaks: check passes, rebuild-index succeeds, check then fails), and the cases C25, C27 and C65 leave out."}
]}
