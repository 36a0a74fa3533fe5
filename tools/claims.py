"""(property, status, theorems, note) for every claim."""
CLAIMS = [
 ('C01', 'proved', ['C01_get_last_write', 'C01_every_history_runs'],
  'Every history of adds, updates, deletes, saves and reloads; any layer function and any collision-free block hash.'),
 ('C02', 'proved', ['C02_add', 'C02_update', 'C02_delete'],
  'Success condition, error kind and unchanged tree for each operation, on every reachable tree.'),
 ('C03', 'partial', ['C03_history_independent_partial', 'C03_history_dependent', 'C03_history_dependent_sha256'],
  'False as stated: deleting the last key of a tree above layer 0 keeps the cached layer. Proved for histories that never empty such a tree; negation witnessed.'),
 ('C04', 'partial', ['C04_structure', 'C04_root_not_redundant_partial', 'C04_redundant_root'],
  'All structural clauses proved on every reachable tree, except root minimality, which fails after emptying a tree (witness).'),
 ('C05', 'proved', ['C05_root_commits', 'C05_histories', 'C05_eq'],
  'Equal root CIDs give equal contents or an explicit hash collision.'),
 ('C06', 'partial', ['C06_persist_reload', 'C06_same_root_partial'],
  'Contents and all later reads survive persist and reload in every case. That later edits give the same root is proved for histories that never empty the tree (the C03 defect).'),
 ('C07', 'proved', ['C07_round_trip', 'C07_injective', 'C07_adjacent_refused', 'C07_total'], ''),
 ('C08', 'proved', ['C08_leaves', 'C08_walk_leaves_from', 'C08_list', 'C08_list_with_prefix'], ''),
 ('C09', 'proved', ['C09_leading_zeros', 'C09_layer'],
  'SHA-256 is modelled concretely (FIPS 180-4).'),
 ('C10', 'proved', ['C10_ensure_valid_key', 'C10_ascii', 'C10_add_update'], ''),
 ('C11', 'proved', ['C11_diff', 'C11_null_diff'],
  'Any two reachable trees over one store, any cache state; termination included.'),
 ('C12', 'proved', ['C12_cids', 'C12_null_cids'],
  'Node CIDs are those reachable from the root block in any store that holds both trees. Assumes record CIDs are not node CIDs.'),
 ('C13', 'proved', ['C13_walk', 'C13_step_over'],
  'Compared with the depth-first sequence defined on the stored blocks.'),
 ('C14', 'partial', ['C14_compose_applies', 'C14_compose_partial', 'C14_compose_false', 'C14_blocks', 'C14_removed_false'],
  'False as stated (add/update then update, update then delete); the composed diff still leads from a to c, and is the exact diff at every other key. It lists every new block (C14_blocks), but not the blocks that the second diff removes (C14_removed_false).'),
 ('C15', 'proved', ['C15_chain', 'C15_sufficient'],
  'Sufficiency assumes a record CID is never a node CID.'),
 ('C16', 'partial', ['C16_nodes', 'C16_lookup', 'C16_invert_records', 'C16_invert_root_partial', 'C16_invert_empty_false'],
  'The blocks suffice, for every valid tree and operations, to look up each key and to undo all operations, down to a tree with the previous records. The root CID is then the previous one if no operation but the last leaves the tree empty; otherwise that is false (C16_invert_empty_false), since an emptied tree remembers its layer (C03).'),
 ('C17', 'partial', ['Xrpc.C17_export_partial', 'Xrpc.C17_since_partial', 'Xrpc.C17_export_datastore',
   'Xrpc.C17_since_datastore', 'Xrpc.C17_gate', 'Xrpc.C17_diff_false', 'Xrpc.C17_memory_false'],
  'Exact contents of the CAR, for DatastoreStorage in every reachable state. False for MemoryStorage after a commit that failed in the middle (C17_memory_false), proved there for the rest. Finding: the export since a rev omits blocks that left the repo and came back after it (C17_diff_false). Exports since a rev are for histories without imports: imported blocks have the sequence number 0.'),
 ('C18', 'proved', ['C18_round_trip', 'C18_rejects', 'C18_bad_length', 'C18_bad_chars', 'C18_inverse', 'C18_bytes_raise',
   'C18_negative'],
  'Findings: tid_to_int raises TypeError on the bytes its docstring asks for; negative integers encode like zero.'),
 ('C19', 'proved', ['C19_order', 'C19_order_any_clock', 'C19_revs'], ''),
 ('C20', 'proved', ['C20_monotone', 'C20_succeeds', 'C20_concurrent_false'],
  'Monotone for sequential calls; next_tid takes no lock, and C20_concurrent_false shows two threads can return one TID.'),
 ('C21', 'proved', ['C21_sign', 'C21_rejects_length', 'C21_accepts_iff', 'C21_jwt', 'C21_high_s_accepted'],
  'ECDSA is textbook ECDSA over an abstract group of prime order. Finding: verify_sig accepts high-S signatures.'),
 ('C22', 'proved', ['C22_round_trip', 'C22_round_trip_general', 'C22_rejects', 'C22_rejects_empty',
   'C22_injective', 'C22_query_cut'], ''),
 ('C23', 'partial', ['Store.C23_effect_partial', 'Store.C23_effect_datastore', 'Store.C23_outcome_partial',
   'Store.C23_refinement_partial', 'Store.C23_history_partial', 'Store.C23_history_datastore', 'Store.C23_memory_false'],
  'Proved for DatastoreStorage in every history. For MemoryStorage histories with an earlier failed multi-write commit are excluded: there it is false (C23_memory_false).'),
 ('C24', 'partial', ['Store.C24_unchanged_partial', 'Store.C24_records_datastore_partial', 'Store.C24_memory_false',
   'Store.C24_datastore_false', 'Store.C24_callback_false'],
  'Records, head and repo rows are unchanged by a failed commit, except in the three ways witnessed: torn MemoryStorage trees, leftover Datastore blocks, and a raising callback after the commit is stored.'),
 ('C25', 'proved', ['Store.C25_commit', 'Store.C25_chain', 'Store.C25_chain_since', 'Store.C25_head', 'Store.C25_history',
   'Store.C25_history_since', 'Store.C25_recreate'],
  'Every history of both backends. In histories with imports the chain leads back to the imported head (the theorems with _since); that head comes from elsewhere, and the commit before it need not be stored (C46). Finding: Repo.create on an existing DID starts a second chain (C25_recreate).'),
 ('C26', 'partial', ['Store.C26_immutable', 'Store.C26_addressed', 'Store.C26_closed_partial',
   'Store.C26_heads_partial', 'Store.C26_closed_datastore', 'Store.C26_memory_false'],
  'Immutability and content addressing hold in every history of both backends. Closure is proved for DatastoreStorage; on MemoryStorage it is false after a failed multi-write commit (C26_memory_false). The prev of an imported head is excepted.'),
 ('C27', 'partial', ['Store.C27_returned_partial', 'Store.C27_stored_partial', 'Store.C27_datastore'],
  'Proved for DatastoreStorage in every history, and for MemoryStorage histories without an earlier failed multi-write commit. Imported commits have no ops.'),
 ('C28', 'partial', ['Store.C28_sequential', 'Store.C28_rejects', 'Store.C28_datastore_concurrent',
   'Store.C28_datastore_unique', 'Store.C28_memory_threads_false'],
  'Proved for sequential callers of both backends and for concurrent DatastoreSequences transactions. False for threads sharing MemorySequences, see C28_memory_threads_false.'),
 ('C29', 'partial', ['Store.C29_reported_once', 'Store.C29_failure_reported', 'Store.C29_accounted_partial',
   'Store.C29_silent_false', 'Store.C29_raising_false',
   'Store.C29_retry_false', 'Store.C29_store_false'],
  'False without restrictions: the four counterexamples are repos without a callback, raising callbacks, retried Datastore transactions and store_repo failures.'),
 ('C30', 'partial', ['Store.C30_log_partial', 'Store.C30_resume_partial', 'Store.C30_memory_blocks',
   'Store.C30_retry_false', 'Store.C30_lookalike_false', 'Store.C30_write_false'],
  'Every history of both backends, except those in which the Datastore fails after blocks have been written, and records that look like events or commits; counterexamples show why. With imports, for reading from sequence number 1 on (C46_events_false).'),
 ('C31', 'partial', ['Store.C31_partial', 'Store.C31_rejected', 'Store.C31_stays', 'Store.C31_handle',
   'Store.C31_loadedStatus', 'Store.C31_answered', 'Store.C31_stale_false', 'Store.C31_copy_false'],
  'Every history of both backends, for the handle that deactivated the repo and handles loaded since. False for handles loaded before (C31_stale_false) and for a MemoryStorage repo deactivated through a Repo.load copy (C31_copy_false).'),
 ('C32', 'partial', ['Store.C32_partial', 'Store.C32_false'],
  'False of the code: activate_repo activates tombstoned repos. Everything except activate_repo, deactivate_repo and Repo.create for the DID leaves a repo tombstoned.'),
 ('C33', 'proved', ['Store.C33_stored', 'Store.C33_rejected', 'Store.C33_many', 'Store.C33_large'],
  'Every history of both backends. The exception is ValueError for an active stored repo; an inactive one raises InactiveRepo first. Imports are not commits, and the size of imported records is not checked.'),
 ('C34', 'proved', ['Store.C34_scan', 'Store.C34_exact'],
  'Any number of context losses, any order within a sequence number, storage growing meanwhile.'),
 ('C35', 'partial', ['Mc.C35_partial', 'Mc.C35_one_process_partial', 'Mc.C35_double_wipe_false',
   'Mc.C35_stale_init_false', 'Mc.C35_failed_batch_false'],
  'Any number of processes, threads and crashes, when the counter is lost at harmless moments. False otherwise: a second loss before the first call has completed, a stale initialization by another process, and a batch transaction that fails to commit.'),
 ('C36', 'partial', ['Fire.C36_order_partial', 'Fire.C36_queue_partial', 'Fire.C36_emitted', 'Fire.C36_merge_false'],
  'Every interleaving of the collector, any number of subscribers, storage and garbage collection. False when two subscribers read events before the rollback window at the same time and one merges them into the window.'),
 ('C37', 'partial', ['Fire.C37_live_partial', 'Fire.C37_no_cursor_partial', 'Fire.C37_handing_partial', 'Fire.C37_only', 'Fire.C37_gc_false'],
  'Every interleaving. False when the garbage collector closes a forgotten subscriber on the collector thread while it loops over the subscribers.'),
 ('C38', 'partial', ['Fire.C38_no_gap_partial', 'Fire.C38_once_partial', 'Fire.C38_older_partial',
   'Fire.C38_evict_false', 'Fire.C38_empty_false', 'Fire.C38_slow_false', 'Fire.C38_below_cursor'],
  'Every interleaving in which nothing is evicted from the window while the subscriber catches up. False otherwise, see the counterexamples.'),
 ('C39', 'partial', ['Fire.C39_skips', 'Fire.C39_emits', 'Fire.C39_order', 'Fire.C39_accounted', 'Fire.C39_missing', 'Fire.C39_complete', 'Fire.C39_gone',
   'Fire.C39_quiet_false', 'Fire.C39_crash_false'],
  'The rule as coded, in every execution. The delay counts from the last emission, so after a quiet period the collector does not wait at all (C39_quiet_false); a crash between taking and emitting an event loses it (C39_crash_false).'),
 ('C40', 'proved', ['Fire.C40_future', 'Fire.C40_outdated', 'Fire.C40_valid', 'Fire.C40_refuses'],
  'What follows the notice is C38.'),
 ('C41', 'partial', ['Xrpc.C41_get', 'Xrpc.C41_put', 'Xrpc.C41_create', 'Xrpc.C41_delete', 'Xrpc.C41_race',
  'Xrpc.C41_sequence_partial', 'Xrpc.C41_put_until_partial', 'Xrpc.C41_create_until_partial',
  'Xrpc.C41_delete_until_partial', 'Xrpc.C41_empty_false', 'Xrpc.C41_create_overwrites'],
  'False for empty records, which getRecord reports as missing (C41_empty_false). The rest is proved for every sequence of requests in which storage and signing do not fail and no earlier failure tore a tree of MemoryStorage. createRecord with an existing key overwrites.'),
 ('C42', 'partial', ['Xrpc.C42_page', 'Xrpc.C42_crawl_partial', 'Xrpc.C42_terminates_partial', 'Xrpc.C42_one_false', 'Xrpc.C42_zero'],
  'Proved for every repo, except repos of MemoryStorage that an earlier failed commit left with a torn tree, and whatever happens between the pages. With limit 1 the client never gets past the first record (C42_one_false), with limit 0 it gets IndexError (C42_zero).'),
 ('C43', 'proved', ['Xrpc.C43_page', 'Xrpc.C43_crawl', 'Xrpc.C43_terminates', 'Xrpc.C43_zero'],
  'For every limit of at least 1 and whatever happens between the pages; limit 0 raises IndexError (C43_zero). The rev in the list is that of the head, except for imported repos (C64_list_false).'),
 ('C44', 'proved', ['Xrpc.C44_refused', 'Xrpc.C44_unimplemented', 'Xrpc.C44_accepted', 'Xrpc.C44_no_flask'],
  'With flask, which serves the requests. Without it the token is not compared with anything (C44_no_flask).'),
 ('C45', 'partial', ['Xrpc.C45_missing', 'Xrpc.C45_contents_partial', 'Xrpc.C45_proof_partial',
   'Xrpc.C45_proof_datastore_partial', 'Xrpc.C45_false'],
  'Every CAR has the record, the signed head commit and only blocks of the repo. It has the whole path of tree nodes to the record when no other record path lies between the collection name and the path of the record. In general it does not, since the method covers the collection name instead of the path (C45_false).'),
 ('C46', 'partial', ['Xrpc.C46_refused', 'Xrpc.C46_imported', 'Xrpc.C46_records_partial', 'Xrpc.C46_others',
   'Xrpc.C46_firehose_partial', 'Xrpc.C46_incomplete_false', 'Xrpc.C46_events_false', 'Xrpc.C46_rev_false'],
  'For every CAR whose block CIDs are right (carbox checks them). The records are proved for CARs that are complete; an incomplete CAR is accepted and gives an unreadable repo (C46_incomplete_false). The event log is the same from sequence number 1 on; reading it from 0 raises AssertionError after an import (C46_events_false). Finding: revs can go back after an import (C46_rev_false).'),
 ('C47', 'partial', ['Lease.C47_exclusive_partial', 'Lease.C47_release_partial', 'Lease.C47_refused_partial',
   'Lease.C47_expires_partial', 'Lease.C47_attempts', 'Lease.C47_coarse_false', 'Lease.C47_latency_false',
   'Lease.C47_fraction_false', 'Lease.C47_month_false', 'Lease.C47_evict_false', 'Lease.C47_release_false',
   'Lease.C47_subsecond_false'],
  'False as stated. Any number of leases, any interleaving, any clocks: leases that are used and released early enough before expires_at exclude each other, if memcached loses nothing.'),
 ('C48', 'proved', ['C48_did_key', 'C48_doc', 'C48_write_plc', 'C48_refuses', 'C48_signing_key',
   'C48_rotation', 'C48_handle'],
  'Assumes base58 and point compression decode what they encode.'),
 ('C49', 'proved', ['C49_rollback', 'C49_rollback_refuses', 'C49_rollback_posts', 'C49_update',
   'C49_rollback_nullified', 'C49_update_drops'],
  'Findings: nullified audit-log entries count as operations; update_plc drops other services and verification methods.'),
 ('C50', 'proved', ['C50_dispatch', 'C50_bare_host', 'C50_path', 'C50_port', 'C50_userinfo'],
  'Finding: the host part is not validated, see C50_userinfo.'),
 ('C51', 'proved', ['C51_validate', 'C51_refetch', 'C51_no_fetch', 'C51_fetch', 'C51_failed', 'C51_get_or_create',
   'C51_interrupted', 'C51_stale_duration', 'C51_max_size_zero'],
  'Findings: an interrupted first download is never retried and yields a blob without a CID; a stale duration survives a refetch; maxSize 0 means no limit.'),
 ('C52', 'proved', ['Xrpc.C52_unknown', 'Xrpc.C52_inactive', 'Xrpc.C52_active', 'Xrpc.C52_did', 'Xrpc.C52_hijack_false'],
  'For the modelled methods. Finding: with MemoryStorage a repo whose handle is the DID of another repo can answer in its place (C52_hijack_false).'),
 ('C53', 'partial', ['Xrpc.C53_round_trip_partial', 'Xrpc.C53_round_trip_datastore'],
  'From DatastoreStorage in every reachable state; from MemoryStorage unless a commit failed in the middle there, see C17_memory_false.'),
 ('C54', 'partial', ['Xrpc.C54_refused_partial', 'Xrpc.C54_granted', 'Xrpc.C54_false', 'Xrpc.C54_attack_false'],
  'False: createSession ignores the password and gives the token to every client that names a repo (C54_false, for every server and repo; C54_attack_false shows a write with it). getSession and refreshSession do require the token.'),
 ('C55', 'partial', ['Blob.C55_crawl', 'Blob.C55_exact', 'Blob.C55_terminates', 'Blob.C55_answers',
   'Blob.C55_repos_partial', 'Blob.C55_listed_partial', 'Blob.C55_zero', 'Blob.C55_concurrent_false'],
  'Pagination is proved whatever happens between the pages, for every limit of at least 1 (limit 0 raises IndexError). Which blobs belong to a repo is proved for calls that do not overlap; concurrent calls for one URL can drop a repo from it (C55_concurrent_false).'),
 ('C56', 'partial', ['Blob.C56_answer', 'Blob.C56_origin_partial', 'Blob.C56_changed_false', 'Blob.C56_long_false',
   'Blob.C56_oversized_false', 'Blob.C56_get_or_create'],
  'Exact answers, and every redirect goes to a URL that has served that CID, in every execution with URLs of at most 1500 characters. False: the method redirects to content that it has just seen to have another CID; longer URLs collide; a blob that has become too long hides others. The DID in the request is ignored.'),
 ('C57', 'partial', ['Store.C57_messages_partial', 'Store.C57_prev_commit', 'Store.C57_root_false', 'Store.C57_undo_false'],
  'Every message of every history without a commit that failed in the middle, and without records that look like events (C30). That undoing gives prevData is proved for canonical trees and operations that leave records after each; C57_root_false and C57_undo_false show why.'),
 ('C58', 'proved', ['Store.C58_serial', 'Store.C58_acknowledged', 'Store.C58_seqs', 'Store.C58_status', 'Store.C58_alone', 'Store.C58_order_false', 'Store.C58_immutable_false', 'Store.C58_memory_false'],
  'Proved for DatastoreStorage. Three things that one might expect besides do not hold: revs need not increase along prev (C58_order_false), a stored block can get another seq and repo (C58_immutable_false), and MemoryStorage shared by threads loses updates (C58_memory_false).'),
 ('C59', 'partial', ['C59_accepts', 'C59_rejects', 'C59_requests', 'C59_host', 'C59_resolves_partial', 'C59_fallback', 'C59_sound', 'C59_cache', 'C59_strings_false', 'C59_conflict_false', 'C59_garbage_false', 'C59_length_false'],
  'That the published DID is returned is proved for TXT records of one plain string each. With several strings in a record the result is garbage (C59_strings_false); contradicting records are not noticed (C59_conflict_false); the DID is not validated (C59_garbage_false); handles over 253 characters are accepted (C59_length_false).'),
 ('C60', 'partial', ['Store.C60_mirror_partial', 'Store.C60_from_start_partial', 'Store.C60_create_false'],
  'Every history without a commit that failed in the middle, without callbacks that raise and without records that look like events (C30). If a callback raises in Repo.create, the mirror has a repo that the server does not have (C60_create_false). Imported repos are not on the firehose (C64_mirror_false).'),
 ('C61', 'proved', ['Cbor.C61_same_bytes', 'Cbor.C61_round_trip', 'Cbor.C61_canonical', 'Cbor.C61_cid', 'Cbor.C61_same_cid', 'Cbor.C61_blocks', 'Cbor.C61_signed', 'Cbor.C61_car', 'Cbor.C61_refuses_integer'],
  'The dag_cbor and carbox packages are not in the repository; modelled are the DAG-CBOR and CARv1 formats. Records are dicts with a $type that is not that of an event.'),
 ('C62', 'partial', ['Store.C62_signed_partial', 'Store.C62_since', 'Store.C62_key', 'Store.C62_created', 'Xrpc.C62_import', 'Xrpc.C62_import_false'],
  'Proved for every history of Repo.create, commits, status changes, events and loads, with all failures (also torn trees and retried transactions). False for imported repos: import_repo stores the head that the old PDS signed together with a new key, and makes no commit, although a comment says so (counterexample). In histories with imports all commits after the import are signed with the new key (C62_since).'),
 ('C63', 'partial', ['Xrpc.C63_snapshot_partial', 'Xrpc.C63_snapshot_datastore', 'Xrpc.C63_reads'],
  'Proved for all histories with DatastoreStorage. For MemoryStorage the tree must not have been torn by a failed commit before the request (C17_memory_false). The other requests are served one at a time between the reads; loading the repo is one step. Two commits that race with each other can change the seq of a block (C58_immutable_false), which is not covered.'),
 ('C64', 'partial', ['Xrpc.C64_histories_partial', 'Xrpc.C64_move_partial', 'Xrpc.C64_export_again_partial', 'Xrpc.C64_list_false', 'Xrpc.C64_mirror_false'],
  'For complete CAR files whose commits are not such that this server will make. Two things do not work for imported repos: listRepos gives a wrong rev (C64_list_false), and their records are not on the firehose (C64_mirror_false).'),
 ('C65', 'partial', ['Xrpc.C65_at_uri', 'Xrpc.C65_latest', 'Xrpc.C65_agree', 'Xrpc.C65_blocks_partial', 'Xrpc.C65_other_false'],
  'Every history of both backends. getBlocks serves the blocks of all repos, also deactivated ones, under the name of any active one (C65_other_false).'),
 ('C66', 'partial', ['Store.C66_mirror_partial', 'Store.C66_messages_partial', 'Fire.C66_log_partial', 'Fire.C66_window_false', 'Store.C66_concurrent_false'],
  'The requests are served one after the other, while the firehose runs; each of them may write several events, which become visible one by one. Excluded: what C60 excludes, subscribers for which events were evicted from the window or merged into it while they connected (C36, C38), exceptions while an event is handed out (C39), and servers that preload nothing although there are events (C66_window_false). Commits to the same repo that are made at the same time get sequence numbers in another order than they take effect, and leave the mirror wrong for good (C66_concurrent_false).'),
 ('C67', 'partial', ['Store.C67_messages_partial', 'Store.C67_commits_partial', 'Store.C67_events_partial', 'Store.C67_mirror_partial', 'Store.C67_retry_false'],
  'Datastore. Excluded: schedules in which a call is aborted or fails after it has written its blocks, since the blocks of the attempt stay in the log (C67_retry_false); records that look like events or commits (C30); for the mirror, transactions that commit in another order than that of their sequence numbers (C66_concurrent_false).'),
 ('C68', 'proved', ['Xrpc.C68_request', 'Xrpc.C68_empty', 'Xrpc.C68_history', 'Xrpc.C68_unique', 'Xrpc.C68_same', 'Xrpc.C68_head_false'],
  'For requests one after another, when storage, signing and callbacks do not fail (C69 is about failures) and sequence numbers are left, with flask. New repos get DIDs and handles that are neither DIDs nor empty; for the answers to be unique, every handle is given to one DID only. CIDs of commits are not part of the answers of these methods; they do depend on the storage (C68_head_false).'),
 ('C69', 'proved', ['Xrpc.C69_answer', 'Xrpc.C69_acknowledged', 'Xrpc.C69_killed', 'Xrpc.C69_history', 'Xrpc.C69_again', 'Xrpc.C69_repeat', 'Xrpc.C69_event', 'Xrpc.C69_event_false', 'Xrpc.C69_create_false'],
  'For requests one after another with the Datastore. A transaction that raises has not been applied (unlike a process that is killed, or a lost response); if Google reports a failure for a transaction that it did apply, the request may have been done although it raised. Two things do not hold: a process that is killed between the status and its event leaves a status that the log does not have, until it is set again (C69_event_false), and createRecord without an rkey stores the record twice if it is repeated (C69_create_false).'),
 ('C70', 'proved', ['Xrpc.C70_linearizable', 'Xrpc.C70_served', 'Xrpc.C70_completes', 'Xrpc.C70_conflict_false', 'Xrpc.C70_handle_false', 'Xrpc.C70_late_false'],
  'Linearizability, with the reference server of C68. Repos are made, and made anew, at the same time; a DID keeps its handle then, which is needed (C70_handle_false). Reading is one step, since blocks are immutable and the repo is read first. Overlapping requests for one record may fail with ValueError although each order of them succeeds (C70_conflict_false), so the exception for them is needed. The order is not that in which the storage changed: a record may be written to a repo, and be in the log, after a request to deactivate it has been answered (C70_late_false).'),
 ('C71', 'proved', ['Xrpc.C71_start', 'Xrpc.C71_starts', 'Xrpc.C71_killed', 'Xrpc.C71_history', 'Xrpc.C71_restart', 'Xrpc.C71_forever', 'Xrpc.C71_first', 'Xrpc.C71_race_false'],
  'Starts are modelled with the failures and crash points of C69, against a table of accounts. One after another: processes that are started at the same time both make the repo, and the second one loses what was written meanwhile (C71_race_false).'),
 ('C72', 'partial', ['Fire.C72_collector', 'Fire.C72_passes', 'Fire.C72_emitted', 'Fire.C72_subscriber', 'Fire.C72_serves', 'Fire.C72_pull', 'Store.C72_log_partial', 'Store.C72_lookalike_false', 'Store.C72_forged_false'],
  'Progress of the collector and the subscribers is proved in full for the model in which read_events_by_seq and process_event may raise at any time. That they do not raise (C72_log_partial) holds of the logs of C57. It is false of a log with a record whose $type is that of an event: any client can write one, and then the collector raises in every pass, for ever, and emits nothing any more (C72_lookalike_false); if the record brings a seq of its own, all real events up to that number are skipped (C72_forged_false).'),
 ('C73', 'partial', ['C73_tree', 'C73_steps', 'Store.C73_commit_partial', 'Store.C73_growth_partial', 'Store.C73_seq_partial', 'Store.C73_message_partial', 'Xrpc.C73_get_record_partial'],
  'Proved in full for trees. For commits and answers, MemoryStorage after a commit that failed in the middle is excluded, since what it wrote stays in the tree and is part of the next commit (C23); for sequence numbers and messages, also commits that failed after blocks were written, or were retried, since the blocks of every attempt are stored with the same number (C30).'),
 ('C74', 'partial', ['Fire.C74_session_partial', 'Store.C74_log_partial', 'Store.C74_complete_partial', 'Store.C74_mirror_partial', 'Store.C74_messages_partial', 'Store.C74_start_partial', 'Store.C74_replay_partial', 'Fire.C74_inflight_false', 'Store.C74_replay_false', 'Store.C74_start_false'],
  'Excluded: connections for which events were evicted from the rollback window, or merged into it, while they were connecting (C38, C36); requests that are served while the collector starts, whose events are never emitted (C74_inflight_false); collectors that start with an empty window although there are events (C66_window_false); exceptions while an event is handed out; imports; and for mirrors what C60 excludes. With a record that looks like an event, subscribers with a cursor fail after a restart (C74_replay_false), or the collector does not start (C74_start_false).'),
 ('C75', 'partial', ['Store.C75_log', 'Store.C75_others', 'Store.C75_messages_partial', 'Store.C75_pass_partial', 'Store.C75_mirror_partial', 'Store.C75_own_false'],
  'C75_log and C75_others hold for every history of both backends. Excluded from the others: MemoryStorage after a commit that failed in the middle (torn, see C23), and records that look like events (C30, C72). The mirror of a repo whose own commit failed while it was stored can have records that the repo does not have (C75_own_false); one whose transaction was retried until it was committed is right (C75_mirror_partial).'),
 ('C76', 'partial', ['Store.C76_log', 'Store.C76_pass', 'Store.C76_attempts', 'Store.C76_mirror_partial', 'Store.C76_retried_partial', 'Store.C76_stale_false'],
  'Datastore; every schedule, at every moment. Excluded from C76_log and C76_pass: records that look like events or commits (C30, C72). C76_mirror_partial is for a repo whose own calls are not aborted after they have written their blocks, and whose transactions commit in the order of their numbers; C76_retried_partial allows that they are aborted and retried, if they have no updates and return; C67_retry_false, C76_stale_false and C66_concurrent_false show that its mirror can be wrong otherwise.'),
 ('C77', 'partial', ['Entity.C77_names', 'Entity.C77_block', 'Entity.C77_write', 'Entity.C77_create', 'Entity.C77_commit', 'Entity.C77_time', 'Entity.C77_memory_time_partial', 'Entity.C77_repo'],
  'Proved in full for DatastoreStorage, for DIDs of at most 1500 bytes. With MemoryStorage the time in the message is wrong for a Block that was made with a time in another time zone (C77_memory_time_false); arroba itself makes none. A block that was read can not be written (C77_copy_false). PEM is taken as given.'),
 ('C78', 'proved', ['Fire.C78_bound', 'Fire.C78_woken', 'Fire.C78_gaps', 'Fire.C78_lost_wakeup', 'Xrpc.C78_no_wakeup'],
  'Assumed: a thread that can go on does so within a given time, and one pass takes at most a given time. For the newest event in the log at any moment. C78_lost_wakeup and C78_no_wakeup show why the timeout is part of the bound: a wake-up is lost when the collector is not waiting, and requests that are served from the Datastore send none.'),
 ('C79', 'partial', ['Fire.Starting.C79_one', 'Fire.Starting.C79_ready', 'Fire.Starting.C79_goes_on_partial', 'Fire.Starting.C79_reset', 'Fire.Starting.C79_failed_false', 'Fire.Starting.C79_failed_reached', 'Fire.Starting.C79_early_false', 'Fire.Starting.C79_reset_false'],
  'Missing: that nobody waits in vain after loading has failed; this is false, see C79_failed_false. At most one collector at a time, in every execution with resets; without them, the rest of the claim as long as loading does not fail. C79_early_false: a call of start may return before the window is loaded. C79_reset_false: a call of reset that raises has stopped new subscribers all the same.'),
 ('C80', 'partial', ['Store.C80_download_partial', 'Store.C80_log_partial', 'Store.C80_firehose_partial', 'Store.C80_checked_partial', 'Store.C80_import_false', 'Store.C80_concurrent_false', 'Store.C80_failed_false'],
  'Missing: imported repos (their revs come from another server; false, see C80_import_false), commits to the same repo at the same time (false, see C80_concurrent_false: the consumer refuses a message), commits that fail when their blocks are stored (false, see C80_failed_false: the consumer gets a record that the server does not have) or in the callback; for subscribers, what C66 excludes. C80_checked_partial needs neither completeness nor order of the messages, nor working callbacks.'),
 ('C81', 'proved', ['C81_get', 'C81_calls', 'C81_root', 'C81_same_root', 'C81_store'],
  'On a model in which node objects are shared and their caches are written in place (Mst/Heap.lean), for programs as in Mst/HeapExec.lean. The hash is assumed to have no collisions, as in C01-C05.'),
 ('C82', 'proved', ['C82_get', 'C82_list', 'C82_prefix', 'C82_calls', 'C82_operations', 'C82_accepts', 'Xrpc.C82_repo', 'C82_undo_false', 'C82_malformed_false'],
  'The hash is assumed to have no collisions. C82_undo_false: checking that the operations can be undone, without looking at their CIDs, is not enough. C82_malformed_false: the root has to be that of a tree that was made with the API; if whoever signed the commit is malicious, blocks with true CIDs can make a record show in listings that get does not find.'),
 ('C83', 'partial', ['Store.C83_message_partial', 'Store.C83_relay_partial', 'Store.C83_current_partial', 'Store.C83_accepts_partial', 'Store.C83_sent_partial', 'Store.C83_unchecked_false', 'Store.C83_accepts_false'],
  'The hash is assumed to have no collisions, and signatures cannot be forged (Unforged). Excluded: failed commits that leave a modified tree behind (C23); for the current rev also commits that fail in the middle and imports. C83_unchecked_false: without the check, a relay can leave out an operation unnoticed. C83_accepts_false: the server makes messages that fail the check, if a commit leaves the repo empty on the way.'),
 ('C84', 'proved', ['C84_get', 'C84_list', 'C84_list_with_prefix', 'C84_enough', 'C84_write', 'Xrpc.C84_page'],
  'The number of layers is what get_layer says: that of the highest record, or more if the tree was emptied before (C03); at most 128 with SHA-256. Counted are reads of tree nodes; a node that is in memory already is not read again. The record blocks of a page are read in addition, one per record. For writes the theorem gives a set of blocks that is enough, rather than counting reads; the bound is three nodes per layer and the root.'),
 ('C85', 'proved', ['C85_yields', 'C85_next', 'C85_ends', 'C85_versions', 'C85_list', 'C85_list_with_prefix', 'C85_leaves'],
  'In the object model of C81: nodes are objects that versions share, with caches that are written in place. A step of an iterator yields a record or goes into one node, so next() is one or more steps. Blocks are never removed from the store, as in C81. list, list_with_prefix and leaves are loops over these generators; list_records consumes one in one go, too. walk() also yields the nodes, which is not recorded.'),
]
