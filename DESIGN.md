# Formal model of backpak

Lean 4 model of `mrkline/backpak` (source read as text from `/repo`), with machine-checked proofs of
the properties in `properties.jsonl`.

## Layout

* `lean/Verif/Model/*.lean` - the model. Every definition cites the file and lines it models and says
  what it simplifies.
* `lean/Verif/Spec/*.lean` - small specifications written without the model's helpers: what a readable
  snapshot is, what a tree reaches, what an entry at a path is, what a diff has to say.
* `lean/Verif/Lemmas/*.lean` - supporting lemmas, and the demonstration repositories used by examples.
* `lean/Verif/Props/*.lean` - the property theorems, one file per property, each with an `example` that
  meets its hypotheses.
* `seeded/LOG.jsonl` - mutation-testing log: one wrong program per line and the theorems that fail.
* `MANIFEST.json` - property -> theorem names and status.

## Trusted base

* Lean 4.33.0's kernel and three standard axioms. No other axioms, no `sorry`, no `native_decide`, no
  `bv_decide`. Examples on concrete data use `decide` and `decide +kernel`, which the kernel checks.
* That the model says what the Rust says. The model is hand-written from the source; where it
  simplifies, the comment beside the definition says so.
* Parameters, never axioms:
  * SHA-224 is an arbitrary function. Where a theorem needs things not to collide it says which, as a
    hypothesis about the finitely many things at hand (`NoClash`, `NewName`, `DisjointIds`, ...). It is
    never assumed injective, which would be inconsistent.
  * zstd is a `structure Zstd`: a relation "this is a frame for that content" and a reader that gives the
    content of a frame, whatever follows it, and a prefix of it for a truncated one. Laws are structure
    fields, and `Spec/Toy.lean` has an instance.
  * FastCDC is any cut function obeying its size contract; C79 also assumes that where a chunk ends depends on no
    more than the next 8 MiB.
  * Regular expressions are arbitrary predicates; TOML is a parser given as a parameter.
  * The clock is an arbitrary sequence of readings; the host decides modes of new files.
  * Counting graphemes is a function with the laws in `Graphemes` (no more for two strings together than for
    both apart; at least one for a string that is not empty).
  * `jiff` prints times somehow (`Clock`); where it matters, different times differently (`Exact`).
  * The B2 service does what it documents (`Page`, `Accepts`).

### Axioms of each theorem

As printed by `#print axioms` for every theorem in `MANIFEST.json`:

* `Quot.sound`, `propext`: C01 (parse_display, parse_canonical, display_shape, display_injective); C08 (packs_partition, packs_partition_any, run_succeeds, manifests_partition); C10 (chunks_concat, chunk_bounds, chunk_minimum, empty_file); C106 (output_is_last); C11 (received_prefix, finished_same, no_deadlock, step_decreases, always_finishes); C12 (dry_run_untouched); C14 (accepted_iff, resumes_from, dry_run_blocks_resume); C16 (runs_end, start_cost); C22 (parent_is_last); C23 (opens_honest); C33 (tie_panics); C41 (unchanged, forgets_resume); C48 (limited); C49 (lost_wakeup, one_slot_partial); C50 (only_ids); C51 (body_is, put_accepts, put_stores, put_never_pads); C52 (retried_partial, never_wrong, returns_iff, stuck_after_one, afresh); C55 (can_iff, ends_iff_partial); C58 (not_stuck, panics); C60 (not_stuck_partial, full_disk_hangs); C70 (write_each, counted_read, counted_write, counted_whole); C71 (last_is_final, numbered, never_stuck_partial, steps_count, waits_little, errors_do_no_harm); C72 (check_iff, walk_untroubled, walk_or_fails); C75 (ends, kills_stranger); C77 (whole, fits, never_wider, checked_panics_iff); C91 (any_order); C93 (read_ok).
* `propext`: C09 (never_writes_past_target, writes_within_budget); C49 (one_waiter_partial, wakes_it); C53 (both, global_only, local_ignored); C54 (absent_iff, letters, across); C57 (complete, complete_computes, rejected, round_trip); C58 (failed_for_a_reason); C59 (stored, success, stored_computes, rejected); C62 (config_round_trip, config_read, filter_kept); C70 (reader, writer, reads_beginning, writes_added, read_to_end, toEnd_lift); C73 (accepted, accepted_computes, good_never_refused); C75 (signals, only_ours_partial, leaves_child); C76 (outlived); C89 (reuse_no_parent, reuse_touched); C91 (counted).
* none: C43 (parent_first); C51 (empty_buffer); C53 (flags); C71 (then_goes_on, closed_output_panics); C76 (collectable).
* `propext`, `Classical.choice`, `Quot.sound`: every other theorem named in `MANIFEST.json`.

## What is modelled, what is not

| Code in `/repo` | Model | Not represented |
|---|---|---|
| `src/hashing.rs` (IDs: text form, order) | `Model/Hashing`; `Model/Streams` (`HashingReader`, `HashingWriter`, and the counting ones of `src/progress.rs`) | the hash function; elsewhere hashing is of "the bytes that went through", which C70 is about |
| `src/blob.rs`, `src/pack.rs:45-130,250-460` (formats, readers) | `Model/Types`, `Model/Cbor`, `Model/Serde`, `Model/Pack` | memory allocation limits |
| `src/pack.rs:132-250` (packer) | `Model/Packer` | temporary file names |
| `src/chunk.rs` | `Model/Chunk`, `Model/Changing` | a mapping of a file that becomes shorter (the process is killed, or sees the rest of a page: `ShownAt` allows any bytes) |
| `src/index.rs` (indexer, master index, tables, resume) | `Model/Index`, `Model/Resume`, `Model/Pipeline` | |
| `src/upload.rs`, `src/backup.rs`, `src/concurrently.rs` | `Model/Pipeline` (transition system: main thread, two packers, indexer, uploader, spawn permits, rendezvous channels) | progress counters |
| `src/fs_tree.rs`, `src/ui/backup.rs` | `Model/Dir`, `Model/Walk`, `Model/Backup`; `Model/Reused` (the count of reused bytes); `Model/Checked` (the checks before a backup, and walks in which calls fail) | special files (skipped by the walk), reading of an opened file failing, hard links, making paths canonical |
| `src/concurrently.rs`, `src/lib.rs` (children, `fatal`) | `Model/Concurrent` (transition systems: threads, permits, results; processes and their numbers) | unwinding, and what a signal does to a child |
| `src/rcu.rs` | `Model/Rcu` (transition system: pinned threads, the published cell, deferred frees) | `crossbeam_epoch` by its contract; weak memory |
| `src/progress.rs` (`truncate_path`) | `Model/Truncate` | graphemes are symbols of any type |
| `src/progress.rs` (the thread that draws) | `Model/Progress` (transition system: worker, drawing thread, flag, parking) | what is drawn |
| `src/tree.rs` (cache, forest loading, sizes, metadata) | `Model/Source`, `Model/Sizes`, `Model/Diff` | Windows |
| `src/read.rs` | `Model/ChunkCache` | |
| `src/snapshot.rs` | `Model/Snapshots`, `Model/Serde` | what the text of a time in a version-1 file says is a function (`OldTime`) |
| `src/repack.rs`, `src/ui/{copy,prune,filter_snapshot}.rs` | `Model/Repack`, `Model/Reused`, `Model/Copy`, `Model/Prune`, `Model/FilterSnapshot` | messages, except what prune says it will do |
| `src/ui/{forget,rebuild_index,check}.rs` | `Model/Forget`, `Model/ForgetTold`, `Model/Rebuild`, `Model/Check`, `Model/Moving` | messages, except which snapshots forget says it removes |
| `src/ls.rs`, `src/ui/{ls,dump,diff,usage,snapshots}.rs`, `src/diff.rs` | `Model/Ls`, `Model/Dump`, `Model/DumpOut`, `Model/Diff`, `Model/Sizes`, `Model/Text` (what `ls`, `diff` and `snapshots --stat` write; for `dump`, `Model/DumpOut`), `Model/DiffPaths` (`diff` with the paths of a snapshot) | other text formatting |
| `src/ui/restore.rs` | `Model/Restore` (calls made, and a filesystem they act on), `Model/RestoreCut` (some of them, or one of them in part), `Model/Times` (`get_metadata` of `src/tree.rs`) | ownership, access times, hard links, errors of the system other than those caused by what is there |
| `src/backend.rs`, `src/backend/cache.rs` | `Model/Names`, `Model/Cache`; `Model/SharedCache` (threads and processes using one cache at once) | SQLite is a table of rows, with a version that a transaction compares before its first write; waiting for a lock (5 s) always succeeds |
| `src/file_util.rs`, `src/backend/fs.rs` | `Model/Files` | |
| `src/semaphored.rs` | `Model/Semaphore` (atomics and futex as single steps, sequentially consistent) | weak memory |
| `src/backend/semaphored.rs`, opened by `src/backend.rs:402-410` | `Model/Semaphored` (threads, guards, requests, retries, streams; on `Model/Semaphore`) | what is asked and answered |
| `b2/src/lib.rs`, `src/backend/backblaze.rs` | `Model/B2` | HTTP, TLS, JSON, logging in |
| `src/backend/filter.rs` | `Model/Pipes` (transition system: main thread, copying thread, child process, two pipes; one step per system call), `Model/Filtered` (in the stack of backends) | the shell; signals other than as exit codes; killing the child when a reader is dropped |
| `src/backend/memory.rs`; `src/backend/fs.rs` and `src/backend/backblaze.rs` as stores | `Model/Stores` (on `Model/Files` and `Model/B2`) | requests of several threads at the same time (`Model/Files` and `Model/SharedCache` have those) |
| `src/ui/init.rs`, `src/backend.rs:40-110,372-445`, `src/backend/fs.rs` (initialize) | `Model/Init`; `Model/Trial` (the trial run of the filter) | making a repository on B2 |
| `src/ui/snapshots.rs` | `Model/Stat` | sizes as text (`nice_size`); times as text |
| `src/ui/cat.rs`, `src/prettify.rs` | `Model/Cat`, `Model/Json` (`serde_json`'s compact writer) | times as text are functions (`Clock`) |
| several processes and one repository | `Model/Shared` (each with its own pipeline and working directory, over one repository), `Model/Rebuilding` (a rebuild-index among them, which lists indexes and packs at different times), `Model/Rebuilds` (any number of them) | a command reads the repository, when it starts, in one instant (a prune in three, `Lemmas/PrunePieces`, C84; but then with no other process writing after); an object is stored in one step |
| `src/config.rs`, `src/filter.rs` | `Model/Config` | TOML and regular expressions |
| `src/main.rs`, `src/counters.rs`, `fatal` in `src/lib.rs` | `Model/Main` (around an arbitrary command) | argument parsing; the form of lines on the standard error |

Not modelled at all: argument parsing.

Two levels meet in C32: the repository as typed packs, indexes and snapshots (most properties), and the
repository as files of arbitrary bytes (`Model/Check`). `Spec/Written` says when files are what a typed
repository looks like on disk, and `Lemmas/Written` proves that opening those files gives what opening the
typed repository gives.

## Method per property

| ID | Model | Method |
|----|-------|--------|
| C01 | base32 over bits, MSB first, 45 symbols | round trip both ways by bit-list algebra |
| C02-C05 | CBOR values, encoder, decoder; serde mapping per type | structural induction; reference files checked by evaluation |
| C06 | pack file = magic + frame + manifest frame + length | round trip through every reader |
| C07 | every reader on arbitrary bytes | case analysis of the reader loop |
| C08, C09 | packer loop with oracle sizes | induction over the blob list |
| C10 | cut loop with oracle cut function | strong induction on remaining bytes |
| C11 | two threads and bounded FIFO channels as a transition system | invariant; progress by cases |
| C12-C16 | pipeline transition system; working directory and repository as shared state | invariants over reachable states; decreasing measure for termination; deadlock theorem for fewer than four cores |
| C17, C18 | sorted maps, loads in any order | permutation invariance; fold induction |
| C19-C21 | recursive walk over a file tree with shared packed set | structural induction; `Holds` as the specification |
| C22 | search of chronological list | list lemmas |
| C23 | fuel-bounded recursion with stack set, fuel proved sufficient | pigeonhole on stack |
| C24-C27 | prune and backup as plans run by the pipeline | invariant at every reachable state; counterexample histories |
| C28 | rebuild-index as steps | invariant over steps; what is left feeds the histories of C27; counterexample for duplicate blobs |
| C29 | forget loops | list induction |
| C30, C31 | repack walk | structural induction to `Holds` |
| C32 | check on files of arbitrary bytes | soundness, and completeness through `Written` |
| C33 | chunk cache with stamps | invariant over read sequences |
| C34, C35 | size walk with visited set | induction; counterexample with an empty directory |
| C36, C37 | name resolution, sort, dedup | list lemmas; counterexample with tied times |
| C38 | compare_trees as event list | soundness and completeness per path |
| C39-C42 | restore as calls on a filesystem | induction over the comparison with a per-path invariant |
| C43, C44 | ls walk, dump lookup | induction; counterexample through symlink |
| C45, C46 | cache table and files over a backend map | invariant over prefixes of operations; counterexamples with ties and sharing |
| C47 | small-step filesystem writes | invariant over steps |
| C48, C49 | futex semaphore transition system | invariants; explicit lost-wakeup run |
| C50 | destination / id_from_path on strings | case analysis |
| C51, C52, C55 | B2 pages, hash-appending reader, retry, deletion | induction; counterexamples |
| C56 | backup, then restore to an empty directory | composition of C20 and C39 with a lemma on what is kept at each path |
| C53, C54 | decision logic | case analysis |
| C57-C60 | pipes, child process and copying thread as a transition system | invariant; progress by cases; decreasing measure; explicit deadlock for every pipe size |
| C61 | filtered backend under the cache | refinement to the unfiltered one of C45 |
| C62 | init and open as calls on a filesystem | invariant over prefixes of the calls |
| C63 | snapshots --stat, --sizes, --file-sizes over the models of diff and sizes | comparisons as event lists; equality with `diff` per pair |
| C64 | cat on files of arbitrary bytes; JSON printer; a JSON reader as specification | reader inverts printer, by induction on fuel; injectivity per type; C06, C07, `Written` |
| C65 | any number of pipelines over one repository | invariant: the repository is the union of what each process would have made of it alone; C13 for each; counterexample by evaluation |
| C66 | any number of backups and one prune over one repository | invariant in two phases, before and after the index of the prune is stored; counterexamples by evaluation |
| C67 | any number of backups and one rebuild-index over one repository | invariant with a clause for each phase of the rebuild; progress by induction on what is left to read; counterexample with a prune by evaluation |
| C68 | any number of threads in any number of processes over one cache and backend | invariants over all interleavings; counterexamples by explicit runs |
| C69 | walk and plan of a backup over what its parent holds; the pipeline when idle | induction on file trees; invariant over all schedules; counterexample after rebuild-index |
| C70 | readers and writers as state machines, users as programs of calls | induction on programs and on runs to the end |
| C71 | worker and drawing thread | invariant; a rank that falls with each step once the worker waits; counterexample with closed output |
| C72 | walks with failing calls, the checks of a backup | induction on file trees against an inductive account of the calls needed |
| C73 | `init`, one program after another, pipes of any size | invariant, measure; a circle of waiting for two programs and any size |
| C74 | a restore cut short anywhere, then the same restore again | order of the calls (no call undoes an earlier one), then C39 |
| C75 | threads, permits and results; child processes | invariants, a rank that falls; runs that show what is false |
| C76 | readers and publishers of one value | invariant: every cell is in just one place |
| C77 | `truncate_path`, any path and width | calculation |
| C78 | all commands, stopped anywhere, and histories of them | invariant: a stored pack was there before, or is in the index or on its way there; C26 and C28 |
| C79 | `chunkFile`, `backupPlan`, all files | recursion on what remains of the file; C10, C19, C21 |
| C80 | threads calling the limiting backend | invariant over C48's; explicit runs by induction on the threads |
| C81 | usage before and after a prune | C26 and C34 put together; the prune leaves every tree stored |
| C82 | copies one after another, each cut short anywhere | what is offered does not depend on the destination; induction over the copies |
| C83 | shared repository, any number of prunes | invariant: each process beside the repository it would have made alone; witness run in which two prunes cut their packs differently |
| C84 | prune with its reads at three moments | reduction to the repository the prune has seen; a walk that succeeds has found all it needs; witness with a whole backup in between |
| C85 | `forestFromRoot`, the chunk reader, `dump`, `restore` and its calls, `copyPlan` over an arbitrary source of packs | every tree and chunk read has the hash it was asked for, so it is the one that was stored; relational induction over the two runs (damaged, undamaged). Each pack gives one content for the whole run; a failing dump is said to print a prefix of whole entries, a file being one entry; by bytes in C106 |
| C86 | `Rebuild`, after anything; sequences of commands | what is listed afterwards is what is in the packs; invariant over sequences of commands, in which a command that has to read the indexes first may do anything once it got in; witness from C83 |
| C87 | commands as trees of reads (`Spec/Reading`), every read at another moment; `Moving` | each command is shown to be such a tree; what succeeds over time is what happens on packs that stay, then C85, C39, C43, C44; the converse for a late root by what a tree cache can hold; witness from C84, and files for check |
| C88 | every system call of the walk at its own moment of a `History`; three moments per chunk of a mapped file; `Changing` | the plan is that of a filesystem that stands still and holds what was found, then C20; induction on the walk for what was found and for `Faithful`; the packs that count after a run whose blobs need not hash to their IDs; a 10 MiB file overwritten in time as witness |
| C89 | any part of the packs of a repository in good order, any index files, then `Rebuild`, `forget`, `backupPlan` and `Pipeline` | what is left is a part of a sound ledger, so C28's new index lists a sound repository; a run never looks at the snapshots, so C20's run lemma holds though some cannot be read; a backup of unmodified files sends nothing (C69), and whatever can be found later was on disk or was sent; a repository without one pack as witness |
| C90 | `Many`: `Shared` and any number of `Rebuilder`s | indexes numbered in the order they are first made: what a rebuild's index supersedes was made earlier and lists no more, so following superseders upwards ends at a live index; a removed index leaves one made no earlier that lists what it listed; every pack there was is on the list of a rebuild that lists packs later; a run in which one rebuild removes what another is to remove as example |
| C91 | `Main.main` around an arbitrary command | case analysis; by the lists of what is said; the counters as a fold of a commutative operation; two directories with different `.backpak` as the refutation of the claim about `-C` |
| C92 | the calls a restore makes | which calls touch a node: by induction over the comparison, a directory's time is set after everything in it, or no call changes its entries; two disks as refutations; a second restore by C74 |
| C93 | what the system reports, the stored bytes, the calls of a restore | arithmetic of the four representations of a time, put together through the CBOR round trip (C04); the calls of C92 contain the one the system refuses |
| C94 | the text `ls`, `diff` and `snapshots --stat` print | the text can be read back: lines end at the first newline, links at the first arrow, names at slashes; with C43 and C38 |
| C95 | `diff` of one snapshot | hashing what is there gives the tree a snapshot of it would have, with old bytes for files that look unmodified; with C38 on what chunk lists stand for |
| C96 | IDs of trees | the ID a file tree has as a function of the tree (`Spec.idOf`), to which backup, filtering and copying each lead; injective where nothing hashes alike |
| C97 | histories, end to end | induction over histories of `C27`, each step keeping what a snapshot holds, between `C20` at one end and `C56` at the other |
| C98 | the stores | refinement: each store holds a table, and every answer and every interrupted request is the table's; counterexamples |
| C99 | commands after one another | composition of the theorems on each command; one relation between a forest and the filtered one; counterexample |
| C100 | what `stat(2)` reports, the stored bytes, whether a file is read again | bits of the mode as arithmetic; through the CBOR round trip (C93, C04) |
| C101 | `restore` up to its first change | inversion of what ran without error; evaluation of the failing walk; C39 for the other direction |
| C102 | `prune`, what it prints | each number is that of a Nodup list of listed packs; blobs before and after as permutations of lists |
| C103 | `Model/Reused`, the walk with its counter | projection of the counting walk to the plain one; induction over the file tree |
| C104 | `backup` after its walk | the walk of nothing; C69 for what has not changed, C20 for the rest |
| C105 | `repack::walk_snapshots` with its counter | the counter changes nothing else; induction over the trees as read |
| C106 | `dump` writing chunk by chunk, standard output and `--output` | C44 for what is written; relational induction (damaged, undamaged) as in C85; counterexamples through a symlink and with a damaged chunk |
| C107 | `forget` and what it says | forget is one removal after another of what it says; induction over that list |
| C108 | `backupPlan`, the pipeline and what follows it | induction over the file tree: no step of the walk fails; C14, C16, C18, C23 and C69 for the rest |
| C109 | `check` of the files of any repository that C25, C27, C65 and C67 reach | their invariants, and C32's completeness; a check that passes has opened the index |

## Findings (where the code disagrees with the property)

With a theorem that exhibits it:

1. A prune resuming a work-in-progress index deletes data a snapshot needs: after an interrupted prune
   and a forget (`C25.resumed_prune_loses`), or after a dry run of rebuild-index, which leaves its
   work-in-progress file behind (`C25.dry_rebuild_then_prune_loses`).
2. A backup started after an interrupted prune picks up the prune's work-in-progress index, which
   supersedes indexes still needed (`C27.backup_after_prune_loses`).
3. Backing up again what was pruned can make an index with the ID of a superseded one, which is then
   ignored (`C27.pruned_then_backed_up_loses`, `C27.superseded_adds_nothing`). Nothing is interrupted.
4. A prune that fails part way still uploads an index that supersedes all others
   (`C24.failing_prune_loses`).
5. rebuild-index after an interrupted backup or prune can list a blob in two packs; every command then
   refuses to open the repository (`C28.orphan_bricks`). It never removes its work-in-progress file
   (`C28.leaves_wip`, `C28.dry_leaves_wip`).
6. Chunks and trees share one space of IDs. A file with the bytes of a directory's encoding makes the
   snapshot unreadable (`C20.chunk_like_tree`, `C31.chunk_like_tree`). A one-byte file `0xA0`, the empty
   directory's encoding, is lost by prune and copy (`C24.empty_tree_hides_chunk`,
   `C30.empty_tree_hides_chunk`).
7. The pipeline hangs for ever with fewer than four physical cores (`C16.few_cores_hang`).
8. A dry run killed at the wrong time blocks all later commands (`C14.dry_run_blocks_resume`); dry runs
   delete the work-in-progress file of an interrupted command (`C41.forgets_resume`).
9. `usage` and `snapshots --sizes` fail on any snapshot with an empty directory
   (`C35.fails_after_backup`, `C35.sizes_fail`). A prune that has something to do stores the empty tree, after which they
   work (`C81.after_prune`).
10. Chunk cache: equal clock readings can evict the chunk just loaded, and reading panics
    (`C33.tie_panics`).
11. The semaphore loses a wakeup (`C49.lost_wakeup`: two permits, two waiters).
12. `from_args_list` keeps a repeated snapshot if another has the same time (`C37.ties_keep_repeats`).
13. Times outside 64-bit nanoseconds do not survive (`C04.tree_round_trip_false_out_of_range`).
14. `check` ignores the kinds of blobs: a repository passes although reading a file panics
    (`C32.kinds_unchecked`). Damage to chunks is only found with `--read-packs` (`C32.damage_found`).
15. Restore with `--output`, several paths and a dangling symlink in the output writes through the symlink
    (`C42.escapes`).
16. `dump` through a symlink carries on in the directory of the symlink (`C44.through_symlink`).
17. `diff --metadata` shows only `C` if contents and metadata both differ (`C54.contents_hide_metadata`).
18. The cache is shared by repositories: an object removed from one may still be read
    (`C45.shared_cache`). Cache pruning with equal times keeps rows of deleted files
    (`C46.ties_keep_rows`); the total may exceed the limit by one entry of any size (`C46.over_limit`); a
    limit of zero deletes files, keeps rows and fails (`C46.no_limit`).
19. An object gets its name before it is synced; a power failure in between leaves part of it
    (`C47.power_loss_tears`).
20. B2: a retried upload continues with what is left of the reader, so after one failure past the first
    byte, or one lost answer, it never returns (`C52.stuck_after_one`, `C52.returns_iff`); it never stores
    anything wrong (`C52.never_wrong`). Removing an object that was uploaded twice retries for ever
    (`C55.uploaded_twice`). A read into an empty buffer would end the body early (`C51.empty_buffer`).
21. `.backpak` is ignored if there is no global configuration (`C53.local_ignored`); its skips replace the
    global ones (`C53.global_skips_replaced`).
22. A filtered read can panic although everything went right: the program has exited, but the thread that
    fed it is not yet marked finished (`C58.panics`).
23. A filtered write hangs for ever if writing its temporary file fails while the program has output left,
    for instance on a full disk (`C60.full_disk_hangs`).
24. An `init` cut short after its first directory leaves something that neither opens nor can be made again
    (`C62.unfinished`, `C62.cannot_be_finished`).
25. `snapshots --stat --file-sizes`: where a file replaces a directory or symlink, the `-` line about what was
    removed shows the sizes of the new file (`C63.removed_has_sizes`).
26. Two backups at the same time that have new data in common put it in two packs; from then on no command can
    open the repository (`C65.common_data_refused`, `C65.twice_refused`), though no ID clashes and both backups
    end well.
27. A prune that starts when a backup has stored its index and not yet its snapshot takes the backup's packs for
    unused, and removes them; both end well and the new snapshot cannot be read (`C66.prune_in_window_loses`).
28. A backup does not store again a chunk that an index lists, though no snapshot uses it; a prune that started
    before the backup stored its snapshot removes it (`C66.prune_takes_what_backup_found`).
29. "Indexes never refer to missing packs. (I hope...)" (`src/ui/prune.rs:214-218`): a backup that starts between a
    prune storing its index and removing its packs may make a pack anew which the prune then removes
    (`C66.prune_removes_new_pack`).
30. A rebuild-index that has read a pack which a prune then removes stores an index that lists it; the index counts,
    and the pack is gone (`C67.prune_beside_misleads`). Beside backups alone the hope holds (`C67.always_healthy`).
31. Two processes with one cache directory: a prune of the cache reads the table, then writes to it; if another process
    wrote in between SQLite refuses at once, and the read of an object that is there fails (`C68.busy_fails`). A process
    killed between dropping a row and noting it anew leaves a file that no prune of the cache finds
    (`C68.uncounted`). An object that is removed while another thread fetches it comes back to the cache, and can be
    read from there (`C68.read_when_gone`).
32. "We really did nothing, huh?" (`src/ui/backup.rs:213-222,250-260`): a backup that finds nothing new but resumes a
    work-in-progress index uploads that index, and then its assertions panic (`C69.unchanged_resumed_panics`). Since
    rebuild-index always leaves such a file (finding above), the backup after a rebuild-index panics if nothing has
    changed (`C69.panics_after_rebuild`); the repository is in good order then. Otherwise the assertions hold
    (`C69.panics_only_if_resumed`).
33. A backup's dry run prints the ID of the snapshot it would make, but hashes the record of format version 1, while
    version 2 is stored: other bytes, so the ID is another unless the hash clashes
    (`src/ui/backup.rs:277-284`, `C05.dry_run_hashes_other_bytes`).
34. If nobody reads its output any more (`backpak backup ... | head`), drawing panics, and the command at its join with
    the drawing thread: a backup does all its work and stores no snapshot (`C71.closed_output_panics`,
    `src/progress.rs:94-105`, `src/ui/backup.rs:209-211`).
35. `backpak backup /` panics with "empty path" (`C72.root_panics`, `src/ui/backup.rs:336-348`).
36. `init` with a filter writes all of the filter's output to the unfilter before it reads any: two programs that do not
    undo one another can make it wait for ever (`C73.wrong_pair_hangs`); two that do cannot, if the unfilter writes only
    the text, which is short (`C73.good_accepted`).
37. A restore in place removes a destination that is of another kind than in the snapshot before it makes the new one.
    Cut short between the two it leaves nothing there, and every further restore in place fails, since each destination
    has to exist (`C74.not_finished`).
38. A program that fails sends a signal to every process on its list of children. A child that was waited for stays on
    the list while what it wrote is stored, so by then its number may be a stranger's, who is signalled
    (`C75.kills_stranger`). A child is put on the list after it is started, so one started just before may be left running
    (`C75.leaves_child`).
39. `Borrow` of `src/rcu.rs` has no lifetime, so safe code may keep it after the `Rcu` is dropped and read memory that was
    given back (`C76.outlived`). The program does not.
40. `truncate_path` computes `back.len() - w + 3`, which panics in a build that checks arithmetic if the file name is one, two
    or three symbols shorter than the line, and the path longer (`C77.checked_panics_iff`).
41. Prune finds packs to remove only by the indexes. A pack that was stored by a command that was then stopped and whose
    directory was lost is never removed (`C78.stays`, `C78.stray_stays`); rebuild-index and
    prune together do remove it (`C78.stray_goes`), if it shares no blob with another.
42. `concurrent_connections` limits requests, not connections: `read` gives its slot back when it returns the stream, before
    the object is downloaded, so any number of threads download at once (`C80.downloads_unlimited`, `C80.claim_iff`).
    Zero is accepted and makes every command wait for ever (`C80.zero_waits`). The lost wakeup (finding of C49) can leave a
    command waiting for ever with all connections free (`C80.left_asleep`); not if there is one connection or as many as
    threads (`C80.one_connection`, `C80.enough`).
43. Two prunes at once lose nothing (`C83.nothing_lost`), but both count the other's new index as well as their own. If they
    cut their packs at different places (the compressor's threads decide when a pack is full, `src/pack.rs` 136-160, 222)
    the same blobs are in two packs and no command can open the repository (`C83.unopenable`); rebuild-index lists both again. On a
    file system the second then fails, for the index it removes first is gone; the model does not fail there, and
    covers the failure as a process that takes no more steps.
44. A prune lists the indexes twice: to read them (`src/ui/prune.rs` 47), and, after all the trees of all snapshots have
    been loaded, to know which it replaces (`src/ui/prune.rs` 83-88). An index stored in between is replaced and removed
    though nothing of it was read. So a backup that runs from start to finish in that time is lost until rebuild-index,
    and both commands succeed (`C84.finished_backup_lost`; `C84.unread_gone`, `C84.unread_unreadable` in general; its
    packs stay, `C84.unread_packs_stay`). Taking the list from the first reading would avoid it.
45. A blob in two listed packs is refused by every command that reads the indexes (`src/index.rs` 268-291, 294-308; the
    comments there wonder whether to warn only), and rebuild-index lists both packs again. So a repository that two prunes
    at the same time have left so (finding 43) can never be used again by any sequence of commands
    (`C86.shut_for_ever`, `C86.prunes_shut_for_ever`), though all its data is there and intact; and rebuild-index itself
    brings this about when a stray pack repeats a blob (`C86.rebuild_shuts`). Removing a pack by hand helps (`C86.by_hand`).
46. Most commands load the indexes and then the snapshots (`src/ui/restore.rs` 102-105, `src/ui/check.rs` 53 and 203,
    `src/ui/backup.rs` 121-125, `src/ui/diff.rs`, `src/ui/usage.rs`, `src/ui/copy.rs`, `src/ui/filter_snapshot.rs`,
    `src/ui/prune.rs`). A backup that finishes in between leaves a snapshot whose root is in no index that was loaded.
    The command fails, though the repository is in good order all the time: check reports damage
    (`C87.check_in_the_way`), and a backup of the same paths, which takes that snapshot for its parent, stops
    (`C87.finished_backup_in_the_way`). `ls`, `dump` and `snapshots` load the snapshots first and have no such trouble
    (`C87.ls_succeeds`, `C87.dump_succeeds`).
47. Files of 10 MiB and more are mapped (`src/file_util.rs:43-60`). A chunk's ID is computed from the mapping when the
    file is cut (`src/chunk.rs:162-176`), and the packer reads the mapping again later (`src/pack.rs:230-243`). If the
    file is written to in between, the pack holds a chunk that does not match its ID (`C88.torn_happens`). Reading any
    chunk reads and checks its whole pack, so no chunk of that pack can be read, also those of other files
    (`C88.torn_chunk_spoils_pack`). The IDs are in the index, so no later backup stores the chunks again
    (`C88.torn_chunk_stays`).
48. A file that looks unmodified since the parent snapshot is not read: its chunk IDs are taken over from the parent
    without looking whether they can be found (`src/ui/backup.rs:458-467`). So once packs are lost, backing up again the
    files that are still on disk does not bring the lost bytes back: the backup sends nothing and succeeds with a
    snapshot that cannot be read (`C89.unmodified_stays_lost`). If a tree of the parent is lost, every backup of those
    paths fails (`C89.lost_tree_refuses`); forgetting the parent helps. Without rebuild-index, the lost IDs stay listed,
    so nothing lost is ever sent (`C89.still_listed_stays_lost`).
49. Of two rebuild-indexes at once, one may fail: it removes the indexes it listed, and stops with an error at the first
    that the other has removed (`src/ui/rebuild_index.rs:96-98`; `C90.second_fails`). Its own index is stored by then, so
    nothing is lost and nothing is left to do; the error says only that a file could not be removed.
50. `-C` is documented as "Change to the given directory before doing anything else", but the configuration is read first
    (`src/main.rs:82-86`): a relative `--config` and, more gravely, `.backpak` are those of the directory the program was
    started in. `backpak -C /p backup` does not skip what `/p/.backpak` says to skip (`C91.not_as_if_gone`,
    `C91.config_not_from_there`). A directory that is not there is a panic rather than an error (`C91.no_such_dir`), and
    with `-v` every `INFO` message of a command that is not quiet is shown on both streams (`C91.info_twice`).
51. `restore --times` does not restore all times. A directory whose own metadata is as in the snapshot is left alone after
    its entries have been made, replaced or deleted, which sets its time to that of the restore (`src/diff.rs:122-143`,
    `C92.stale_directory`). A symlink that had to be made never gets the snapshot's time (`src/ui/restore.rs:404-406`,
    `C92.new_link`, `C92.stale_link`), although one that was there and differs only in its time does (`C92.old_link`).
    Running the same restore again mends both (`C92.twice`).
52. Not all times survive (`C93.survives_iff`). A time before 1970 with a fraction of a second is handed to `utimensat`
    with negative nanoseconds (`to_timespec`, `src/ui/restore.rs:282-288`), which the system refuses: one such file makes
    `restore --times` fail (`C93.restore_fails`, `C93.old_file`). A time before 1677 or after April 2262 is stored cut to 64 bits
    (`src/prettify.rs:46`): it comes back as another (`C93.wrong_time`), and the file is read again by every backup
    (`C93.unchanged_iff`). A time before -9999 or after 9999 makes a backup panic (`src/tree.rs:241-242`, `C93.read_panics`).
53. Listings cannot be told apart when names are not tame: `ls` prints the same for a file called `a -> b` and a symlink `a`
    to `b` (`C94.ls_does_not_tell`), and a newline in a name makes lines of its own: adding one file prints the removal of
    another (`C94.diff_does_not_tell`). Names and targets are printed as they are (`printer`, `src/ls.rs:21-35`).
54. `diff` of a snapshot with its paths does not always tell what has changed. A file with other bytes and the size and
    modification time it had is not shown (`C95.missed`). If one of the paths is gone, it fails rather than print its
    removal (`C95.gone`). Right after a backup it shows all that the backup was told to skip as added
    (`C95.after_backup`), and after a backup that follows symlinks, every symlink as replaced (`C95.followed_shown`).
55. A file that looks unmodified keeps the chunks its parent has. In a repository that was written with another chunker,
    which a change to the constants in `src/chunk.rs` would amount to, the same files then have another tree ID than
    elsewhere (`C96.history_matters`). The other theorems of C96 ask that the parent be cut by the chunker in use, which
    backups maintain (`C96.alike_partial`).
56. The stores differ where something is not there: removing such an object succeeds in memory, where the tests run, fails on
    a disk, and at Backblaze is tried again for ever, as is reading it (`C98.absent_differs`): a repository at Backblaze
    that lacks a pack makes `check --read-packs` and `restore` hang instead of reporting it. Writing an object again is
    harmless on a disk; at Backblaze the object can be read and listed but no longer removed (`C98.twice_differs`).
57. Because of finding 51, `diff --metadata` of a snapshot with its paths, right after it was restored with `--times`,
    `--permissions` and `--delete`, prints directories (`C99.restore_diff_metadata`). Without `--metadata` it prints
    nothing (`C99.restore_diff_partial`).
58. `check --read-packs` passes a pack that is stored under a name which is not the hash of its manifest: `verify` throws
    the hash away (`src/pack.rs:334`). `rebuild-index` and `cat pack` fail on it (`C32.names_unchecked`).
59. Without `--output`, restore fails if any path of the snapshot is gone, and with `--output` if the snapshot has one path
    and the output is not there (`C101.missing_fails`, `C101.output_missing_fails`); so it does not bring back a deleted
    directory until something, an empty directory will do, is put in its place (`C101.works_iff`).
60. `backup --allow-repeat` has no effect: a backup that gives the same as the last snapshot makes none, with it or
    without (`C104.repeat_ignored`, `C104.repeat_refused`), while the program says to pass it.
61. `dump --output FILE` of a path through a symlink leaves in FILE only the last of what would be printed
    (`C106.output_is_less`).
62. `dump --output FILE` that fails on the first chunk of a file has emptied FILE (`C106.failed_empties`).
63. `forget --dry-run` with two arguments that name one snapshot succeeds; without `--dry-run` the snapshot is removed, removing
    it again fails, and the command fails (`C107.named_twice`). The list of arguments is not freed of repetitions
    (`src/ui/forget.rs:82-102`).

Noticed while reading, without a theorem: `verify`
does not notice bytes after a pack's manifest; a local
`[backup] dereference` is ignored; `copy --skip` matches paths inside snapshots; restore never restores
ownership though it prints `O`, skips
special files; `b2::Error::Io` is never made, so retrying never gives up;
reading
on after the end of a filtered object panics; the local cache and the working directory hold unfiltered data.
