{
 "claims": [
  {
   "property": "C01",
   "status": "proved",
   "theorems": [
    "Arroba.C01_get_last_write",
    "Arroba.C01_every_history_runs"
   ],
   "note": "Every history of adds, updates, deletes, saves and reloads; any layer function and any collision-free block hash."
  },
  {
   "property": "C02",
   "status": "proved",
   "theorems": [
    "Arroba.C02_add",
    "Arroba.C02_update",
    "Arroba.C02_delete"
   ],
   "note": "Success condition, error kind and unchanged tree for each operation, on every reachable tree."
  },
  {
   "property": "C03",
   "status": "partial",
   "theorems": [
    "Arroba.C03_history_independent_partial",
    "Arroba.C03_history_dependent",
    "Arroba.C03_history_dependent_sha256"
   ],
   "note": "False as stated: deleting the last key of a tree above layer 0 keeps the cached layer. Proved for histories that never empty such a tree; negation witnessed."
  },
  {
   "property": "C04",
   "status": "partial",
   "theorems": [
    "Arroba.C04_structure",
    "Arroba.C04_root_not_redundant_partial",
    "Arroba.C04_redundant_root"
   ],
   "note": "All structural clauses proved on every reachable tree, except root minimality, which fails after emptying a tree (witness)."
  },
  {
   "property": "C05",
   "status": "proved",
   "theorems": [
    "Arroba.C05_root_commits",
    "Arroba.C05_histories",
    "Arroba.C05_eq"
   ],
   "note": "Equal root CIDs give equal contents or an explicit hash collision."
  },
  {
   "property": "C06",
   "status": "partial",
   "theorems": [
    "Arroba.C06_persist_reload",
    "Arroba.C06_same_root_partial"
   ],
   "note": "Contents and all later reads survive persist and reload in every case. That later edits give the same root is proved for histories that never empty the tree (the C03 defect)."
  },
  {
   "property": "C07",
   "status": "proved",
   "theorems": [
    "Arroba.C07_round_trip",
    "Arroba.C07_injective",
    "Arroba.C07_adjacent_refused",
    "Arroba.C07_total"
   ],
   "note": ""
  },
  {
   "property": "C08",
   "status": "proved",
   "theorems": [
    "Arroba.C08_leaves",
    "Arroba.C08_walk_leaves_from",
    "Arroba.C08_list",
    "Arroba.C08_list_with_prefix"
   ],
   "note": ""
  },
  {
   "property": "C09",
   "status": "proved",
   "theorems": [
    "Arroba.C09_leading_zeros",
    "Arroba.C09_layer"
   ],
   "note": "SHA-256 is modelled concretely (FIPS 180-4)."
  },
  {
   "property": "C10",
   "status": "proved",
   "theorems": [
    "Arroba.C10_ensure_valid_key",
    "Arroba.C10_ascii",
    "Arroba.C10_add_update"
   ],
   "note": ""
  },
  {
   "property": "C11",
   "status": "proved",
   "theorems": [
    "Arroba.C11_diff",
    "Arroba.C11_null_diff"
   ],
   "note": "Any two reachable trees over one store, any cache state; termination included."
  },
  {
   "property": "C12",
   "status": "proved",
   "theorems": [
    "Arroba.C12_cids",
    "Arroba.C12_null_cids"
   ],
   "note": "Node CIDs are those reachable from the root block in any store that holds both trees. Assumes record CIDs are not node CIDs."
  },
  {
   "property": "C13",
   "status": "proved",
   "theorems": [
    "Arroba.C13_walk",
    "Arroba.C13_step_over"
   ],
   "note": "Compared with the depth-first sequence defined on the stored blocks."
  },
  {
   "property": "C14",
   "status": "partial",
   "theorems": [
    "Arroba.C14_compose_applies",
    "Arroba.C14_compose_partial",
    "Arroba.C14_compose_false",
    "Arroba.C14_blocks",
    "Arroba.C14_removed_false"
   ],
   "note": "False as stated (add/update then update, update then delete); the composed diff still leads from a to c, and is the exact diff at every other key. It lists every new block (C14_blocks), but not the blocks that the second diff removes (C14_removed_false)."
  },
  {
   "property": "C15",
   "status": "proved",
   "theorems": [
    "Arroba.C15_chain",
    "Arroba.C15_sufficient"
   ],
   "note": "Sufficiency assumes a record CID is never a node CID."
  },
  {
   "property": "C16",
   "status": "partial",
   "theorems": [
    "Arroba.C16_nodes",
    "Arroba.C16_lookup",
    "Arroba.C16_invert_records",
    "Arroba.C16_invert_root_partial",
    "Arroba.C16_invert_empty_false"
   ],
   "note": "The blocks suffice, for every valid tree and operations, to look up each key and to undo all operations, down to a tree with the previous records. The root CID is then the previous one if no operation but the last leaves the tree empty; otherwise that is false (C16_invert_empty_false), since an emptied tree remembers its layer (C03)."
  },
  {
   "property": "C17",
   "status": "partial",
   "theorems": [
    "Arroba.Xrpc.C17_export_partial",
    "Arroba.Xrpc.C17_since_partial",
    "Arroba.Xrpc.C17_export_datastore",
    "Arroba.Xrpc.C17_since_datastore",
    "Arroba.Xrpc.C17_gate",
    "Arroba.Xrpc.C17_diff_false",
    "Arroba.Xrpc.C17_memory_false"
   ],
   "note": "Exact contents of the CAR, for DatastoreStorage in every reachable state. False for MemoryStorage after a commit that failed in the middle (C17_memory_false), proved there for the rest. Finding: the export since a rev omits blocks that left the repo and came back after it (C17_diff_false). Exports since a rev are for histories without imports: imported blocks have the sequence number 0."
  },
  {
   "property": "C18",
   "status": "proved",
   "theorems": [
    "Arroba.C18_round_trip",
    "Arroba.C18_rejects",
    "Arroba.C18_bad_length",
    "Arroba.C18_bad_chars",
    "Arroba.C18_inverse",
    "Arroba.C18_bytes_raise",
    "Arroba.C18_negative"
   ],
   "note": "Findings: tid_to_int raises TypeError on the bytes its docstring asks for; negative integers encode like zero."
  },
  {
   "property": "C19",
   "status": "proved",
   "theorems": [
    "Arroba.C19_order",
    "Arroba.C19_order_any_clock",
    "Arroba.C19_revs"
   ],
   "note": ""
  },
  {
   "property": "C20",
   "status": "proved",
   "theorems": [
    "Arroba.C20_monotone",
    "Arroba.C20_succeeds",
    "Arroba.C20_concurrent_false"
   ],
   "note": "Monotone for sequential calls; next_tid takes no lock, and C20_concurrent_false shows two threads can return one TID."
  },
  {
   "property": "C21",
   "status": "proved",
   "theorems": [
    "Arroba.C21_sign",
    "Arroba.C21_rejects_length",
    "Arroba.C21_accepts_iff",
    "Arroba.C21_jwt",
    "Arroba.C21_high_s_accepted"
   ],
   "note": "ECDSA is textbook ECDSA over an abstract group of prime order. Finding: verify_sig accepts high-S signatures."
  },
  {
   "property": "C22",
   "status": "proved",
   "theorems": [
    "Arroba.C22_round_trip",
    "Arroba.C22_round_trip_general",
    "Arroba.C22_rejects",
    "Arroba.C22_rejects_empty",
    "Arroba.C22_injective",
    "Arroba.C22_query_cut"
   ],
   "note": ""
  },
  {
   "property": "C23",
   "status": "partial",
   "theorems": [
    "Arroba.Store.C23_effect_partial",
    "Arroba.Store.C23_effect_datastore",
    "Arroba.Store.C23_outcome_partial",
    "Arroba.Store.C23_refinement_partial",
    "Arroba.Store.C23_history_partial",
    "Arroba.Store.C23_history_datastore",
    "Arroba.Store.C23_memory_false"
   ],
   "note": "Proved for DatastoreStorage in every history. For MemoryStorage histories with an earlier failed multi-write commit are excluded: there it is false (C23_memory_false)."
  },
  {
   "property": "C24",
   "status": "partial",
   "theorems": [
    "Arroba.Store.C24_unchanged_partial",
    "Arroba.Store.C24_records_datastore_partial",
    "Arroba.Store.C24_memory_false",
    "Arroba.Store.C24_datastore_false",
    "Arroba.Store.C24_callback_false"
   ],
   "note": "Records, head and repo rows are unchanged by a failed commit, except in the three ways witnessed: torn MemoryStorage trees, leftover Datastore blocks, and a raising callback after the commit is stored."
  },
  {
   "property": "C25",
   "status": "proved",
   "theorems": [
    "Arroba.Store.C25_commit",
    "Arroba.Store.C25_chain",
    "Arroba.Store.C25_chain_since",
    "Arroba.Store.C25_head",
    "Arroba.Store.C25_history",
    "Arroba.Store.C25_history_since",
    "Arroba.Store.C25_recreate"
   ],
   "note": "Every history of both backends. In histories with imports the chain leads back to the imported head (the theorems with _since); that head comes from elsewhere, and the commit before it need not be stored (C46). Finding: Repo.create on an existing DID starts a second chain (C25_recreate)."
  },
  {
   "property": "C26",
   "status": "partial",
   "theorems": [
    "Arroba.Store.C26_immutable",
    "Arroba.Store.C26_addressed",
    "Arroba.Store.C26_closed_partial",
    "Arroba.Store.C26_heads_partial",
    "Arroba.Store.C26_closed_datastore",
    "Arroba.Store.C26_memory_false"
   ],
   "note": "Immutability and content addressing hold in every history of both backends. Closure is proved for DatastoreStorage; on MemoryStorage it is false after a failed multi-write commit (C26_memory_false). The prev of an imported head is excepted."
  },
  {
   "property": "C27",
   "status": "partial",
   "theorems": [
    "Arroba.Store.C27_returned_partial",
    "Arroba.Store.C27_stored_partial",
    "Arroba.Store.C27_datastore"
   ],
   "note": "Proved for DatastoreStorage in every history, and for MemoryStorage histories without an earlier failed multi-write commit. Imported commits have no ops."
  },
  {
   "property": "C28",
   "status": "partial",
   "theorems": [
    "Arroba.Store.C28_sequential",
    "Arroba.Store.C28_rejects",
    "Arroba.Store.C28_datastore_concurrent",
    "Arroba.Store.C28_datastore_unique",
    "Arroba.Store.C28_memory_threads_false"
   ],
   "note": "Proved for sequential callers of both backends and for concurrent DatastoreSequences transactions. False for threads sharing MemorySequences, see C28_memory_threads_false."
  },
  {
   "property": "C29",
   "status": "partial",
   "theorems": [
    "Arroba.Store.C29_reported_once",
    "Arroba.Store.C29_failure_reported",
    "Arroba.Store.C29_accounted_partial",
    "Arroba.Store.C29_silent_false",
    "Arroba.Store.C29_raising_false",
    "Arroba.Store.C29_retry_false",
    "Arroba.Store.C29_store_false"
   ],
   "note": "False without restrictions: the four counterexamples are repos without a callback, raising callbacks, retried Datastore transactions and store_repo failures."
  },
  {
   "property": "C30",
   "status": "partial",
   "theorems": [
    "Arroba.Store.C30_log_partial",
    "Arroba.Store.C30_resume_partial",
    "Arroba.Store.C30_memory_blocks",
    "Arroba.Store.C30_retry_false",
    "Arroba.Store.C30_lookalike_false",
    "Arroba.Store.C30_write_false"
   ],
   "note": "Every history of both backends, except those in which the Datastore fails after blocks have been written, and records that look like events or commits; counterexamples show why. With imports, for reading from sequence number 1 on (C46_events_false)."
  },
  {
   "property": "C31",
   "status": "partial",
   "theorems": [
    "Arroba.Store.C31_partial",
    "Arroba.Store.C31_rejected",
    "Arroba.Store.C31_stays",
    "Arroba.Store.C31_handle",
    "Arroba.Store.C31_loadedStatus",
    "Arroba.Store.C31_answered",
    "Arroba.Store.C31_stale_false",
    "Arroba.Store.C31_copy_false"
   ],
   "note": "Every history of both backends, for the handle that deactivated the repo and handles loaded since. False for handles loaded before (C31_stale_false) and for a MemoryStorage repo deactivated through a Repo.load copy (C31_copy_false)."
  },
  {
   "property": "C32",
   "status": "partial",
   "theorems": [
    "Arroba.Store.C32_partial",
    "Arroba.Store.C32_false"
   ],
   "note": "False of the code: activate_repo activates tombstoned repos. Everything except activate_repo, deactivate_repo and Repo.create for the DID leaves a repo tombstoned."
  },
  {
   "property": "C33",
   "status": "proved",
   "theorems": [
    "Arroba.Store.C33_stored",
    "Arroba.Store.C33_rejected",
    "Arroba.Store.C33_many",
    "Arroba.Store.C33_large"
   ],
   "note": "Every history of both backends. The exception is ValueError for an active stored repo; an inactive one raises InactiveRepo first. Imports are not commits, and the size of imported records is not checked."
  },
  {
   "property": "C34",
   "status": "proved",
   "theorems": [
    "Arroba.Store.C34_scan",
    "Arroba.Store.C34_exact"
   ],
   "note": "Any number of context losses, any order within a sequence number, storage growing meanwhile."
  },
  {
   "property": "C35",
   "status": "partial",
   "theorems": [
    "Arroba.Mc.C35_partial",
    "Arroba.Mc.C35_one_process_partial",
    "Arroba.Mc.C35_double_wipe_false",
    "Arroba.Mc.C35_stale_init_false",
    "Arroba.Mc.C35_failed_batch_false"
   ],
   "note": "Any number of processes, threads and crashes, when the counter is lost at harmless moments. False otherwise: a second loss before the first call has completed, a stale initialization by another process, and a batch transaction that fails to commit."
  },
  {
   "property": "C36",
   "status": "partial",
   "theorems": [
    "Arroba.Fire.C36_order_partial",
    "Arroba.Fire.C36_queue_partial",
    "Arroba.Fire.C36_emitted",
    "Arroba.Fire.C36_merge_false"
   ],
   "note": "Every interleaving of the collector, any number of subscribers, storage and garbage collection. False when two subscribers read events before the rollback window at the same time and one merges them into the window."
  },
  {
   "property": "C37",
   "status": "partial",
   "theorems": [
    "Arroba.Fire.C37_live_partial",
    "Arroba.Fire.C37_no_cursor_partial",
    "Arroba.Fire.C37_handing_partial",
    "Arroba.Fire.C37_only",
    "Arroba.Fire.C37_gc_false"
   ],
   "note": "Every interleaving. False when the garbage collector closes a forgotten subscriber on the collector thread while it loops over the subscribers."
  },
  {
   "property": "C38",
   "status": "partial",
   "theorems": [
    "Arroba.Fire.C38_no_gap_partial",
    "Arroba.Fire.C38_once_partial",
    "Arroba.Fire.C38_older_partial",
    "Arroba.Fire.C38_evict_false",
    "Arroba.Fire.C38_empty_false",
    "Arroba.Fire.C38_slow_false",
    "Arroba.Fire.C38_below_cursor"
   ],
   "note": "Every interleaving in which nothing is evicted from the window while the subscriber catches up. False otherwise, see the counterexamples."
  },
  {
   "property": "C39",
   "status": "partial",
   "theorems": [
    "Arroba.Fire.C39_skips",
    "Arroba.Fire.C39_emits",
    "Arroba.Fire.C39_order",
    "Arroba.Fire.C39_accounted",
    "Arroba.Fire.C39_missing",
    "Arroba.Fire.C39_complete",
    "Arroba.Fire.C39_gone",
    "Arroba.Fire.C39_quiet_false",
    "Arroba.Fire.C39_crash_false"
   ],
   "note": "The rule as coded, in every execution. The delay counts from the last emission, so after a quiet period the collector does not wait at all (C39_quiet_false); a crash between taking and emitting an event loses it (C39_crash_false)."
  },
  {
   "property": "C40",
   "status": "proved",
   "theorems": [
    "Arroba.Fire.C40_future",
    "Arroba.Fire.C40_outdated",
    "Arroba.Fire.C40_valid",
    "Arroba.Fire.C40_refuses"
   ],
   "note": "What follows the notice is C38."
  },
  {
   "property": "C41",
   "status": "partial",
   "theorems": [
    "Arroba.Xrpc.C41_get",
    "Arroba.Xrpc.C41_put",
    "Arroba.Xrpc.C41_create",
    "Arroba.Xrpc.C41_delete",
    "Arroba.Xrpc.C41_race",
    "Arroba.Xrpc.C41_sequence_partial",
    "Arroba.Xrpc.C41_put_until_partial",
    "Arroba.Xrpc.C41_create_until_partial",
    "Arroba.Xrpc.C41_delete_until_partial",
    "Arroba.Xrpc.C41_empty_false",
    "Arroba.Xrpc.C41_create_overwrites"
   ],
   "note": "False for empty records, which getRecord reports as missing (C41_empty_false). The rest is proved for every sequence of requests in which storage and signing do not fail and no earlier failure tore a tree of MemoryStorage. createRecord with an existing key overwrites."
  },
  {
   "property": "C42",
   "status": "partial",
   "theorems": [
    "Arroba.Xrpc.C42_page",
    "Arroba.Xrpc.C42_crawl_partial",
    "Arroba.Xrpc.C42_terminates_partial",
    "Arroba.Xrpc.C42_one_false",
    "Arroba.Xrpc.C42_zero"
   ],
   "note": "Proved for every repo, except repos of MemoryStorage that an earlier failed commit left with a torn tree, and whatever happens between the pages. With limit 1 the client never gets past the first record (C42_one_false), with limit 0 it gets IndexError (C42_zero)."
  },
  {
   "property": "C43",
   "status": "proved",
   "theorems": [
    "Arroba.Xrpc.C43_page",
    "Arroba.Xrpc.C43_crawl",
    "Arroba.Xrpc.C43_terminates",
    "Arroba.Xrpc.C43_zero"
   ],
   "note": "For every limit of at least 1 and whatever happens between the pages; limit 0 raises IndexError (C43_zero). The rev in the list is that of the head, except for imported repos (C64_list_false)."
  },
  {
   "property": "C44",
   "status": "proved",
   "theorems": [
    "Arroba.Xrpc.C44_refused",
    "Arroba.Xrpc.C44_unimplemented",
    "Arroba.Xrpc.C44_accepted",
    "Arroba.Xrpc.C44_no_flask"
   ],
   "note": "With flask, which serves the requests. Without it the token is not compared with anything (C44_no_flask)."
  },
  {
   "property": "C45",
   "status": "partial",
   "theorems": [
    "Arroba.Xrpc.C45_missing",
    "Arroba.Xrpc.C45_contents_partial",
    "Arroba.Xrpc.C45_proof_partial",
    "Arroba.Xrpc.C45_proof_datastore_partial",
    "Arroba.Xrpc.C45_false"
   ],
   "note": "Every CAR has the record, the signed head commit and only blocks of the repo. It has the whole path of tree nodes to the record when no other record path lies between the collection name and the path of the record. In general it does not, since the method covers the collection name instead of the path (C45_false)."
  },
  {
   "property": "C46",
   "status": "partial",
   "theorems": [
    "Arroba.Xrpc.C46_refused",
    "Arroba.Xrpc.C46_imported",
    "Arroba.Xrpc.C46_records_partial",
    "Arroba.Xrpc.C46_others",
    "Arroba.Xrpc.C46_firehose_partial",
    "Arroba.Xrpc.C46_incomplete_false",
    "Arroba.Xrpc.C46_events_false",
    "Arroba.Xrpc.C46_rev_false"
   ],
   "note": "For every CAR whose block CIDs are right (carbox checks them). The records are proved for CARs that are complete; an incomplete CAR is accepted and gives an unreadable repo (C46_incomplete_false). The event log is the same from sequence number 1 on; reading it from 0 raises AssertionError after an import (C46_events_false). Finding: revs can go back after an import (C46_rev_false)."
  },
  {
   "property": "C47",
   "status": "partial",
   "theorems": [
    "Arroba.Lease.C47_exclusive_partial",
    "Arroba.Lease.C47_release_partial",
    "Arroba.Lease.C47_refused_partial",
    "Arroba.Lease.C47_expires_partial",
    "Arroba.Lease.C47_attempts",
    "Arroba.Lease.C47_coarse_false",
    "Arroba.Lease.C47_latency_false",
    "Arroba.Lease.C47_fraction_false",
    "Arroba.Lease.C47_month_false",
    "Arroba.Lease.C47_evict_false",
    "Arroba.Lease.C47_release_false",
    "Arroba.Lease.C47_subsecond_false"
   ],
   "note": "False as stated. Any number of leases, any interleaving, any clocks: leases that are used and released early enough before expires_at exclude each other, if memcached loses nothing."
  },
  {
   "property": "C48",
   "status": "proved",
   "theorems": [
    "Arroba.C48_did_key",
    "Arroba.C48_doc",
    "Arroba.C48_write_plc",
    "Arroba.C48_refuses",
    "Arroba.C48_signing_key",
    "Arroba.C48_rotation",
    "Arroba.C48_handle"
   ],
   "note": "Assumes base58 and point compression decode what they encode."
  },
  {
   "property": "C49",
   "status": "proved",
   "theorems": [
    "Arroba.C49_rollback",
    "Arroba.C49_rollback_refuses",
    "Arroba.C49_rollback_posts",
    "Arroba.C49_update",
    "Arroba.C49_rollback_nullified",
    "Arroba.C49_update_drops"
   ],
   "note": "Findings: nullified audit-log entries count as operations; update_plc drops other services and verification methods."
  },
  {
   "property": "C50",
   "status": "proved",
   "theorems": [
    "Arroba.C50_dispatch",
    "Arroba.C50_bare_host",
    "Arroba.C50_path",
    "Arroba.C50_port",
    "Arroba.C50_userinfo"
   ],
   "note": "Finding: the host part is not validated, see C50_userinfo."
  },
  {
   "property": "C51",
   "status": "proved",
   "theorems": [
    "Arroba.C51_validate",
    "Arroba.C51_refetch",
    "Arroba.C51_no_fetch",
    "Arroba.C51_fetch",
    "Arroba.C51_failed",
    "Arroba.C51_get_or_create",
    "Arroba.C51_interrupted",
    "Arroba.C51_stale_duration",
    "Arroba.C51_max_size_zero"
   ],
   "note": "Findings: an interrupted first download is never retried and yields a blob without a CID; a stale duration survives a refetch; maxSize 0 means no limit."
  },
  {
   "property": "C52",
   "status": "proved",
   "theorems": [
    "Arroba.Xrpc.C52_unknown",
    "Arroba.Xrpc.C52_inactive",
    "Arroba.Xrpc.C52_active",
    "Arroba.Xrpc.C52_did",
    "Arroba.Xrpc.C52_hijack_false"
   ],
   "note": "For the modelled methods. Finding: with MemoryStorage a repo whose handle is the DID of another repo can answer in its place (C52_hijack_false)."
  },
  {
   "property": "C53",
   "status": "partial",
   "theorems": [
    "Arroba.Xrpc.C53_round_trip_partial",
    "Arroba.Xrpc.C53_round_trip_datastore"
   ],
   "note": "From DatastoreStorage in every reachable state; from MemoryStorage unless a commit failed in the middle there, see C17_memory_false."
  },
  {
   "property": "C54",
   "status": "partial",
   "theorems": [
    "Arroba.Xrpc.C54_refused_partial",
    "Arroba.Xrpc.C54_granted",
    "Arroba.Xrpc.C54_false",
    "Arroba.Xrpc.C54_attack_false"
   ],
   "note": "False: createSession ignores the password and gives the token to every client that names a repo (C54_false, for every server and repo; C54_attack_false shows a write with it). getSession and refreshSession do require the token."
  },
  {
   "property": "C55",
   "status": "partial",
   "theorems": [
    "Arroba.Blob.C55_crawl",
    "Arroba.Blob.C55_exact",
    "Arroba.Blob.C55_terminates",
    "Arroba.Blob.C55_answers",
    "Arroba.Blob.C55_repos_partial",
    "Arroba.Blob.C55_listed_partial",
    "Arroba.Blob.C55_zero",
    "Arroba.Blob.C55_concurrent_false"
   ],
   "note": "Pagination is proved whatever happens between the pages, for every limit of at least 1 (limit 0 raises IndexError). Which blobs belong to a repo is proved for calls that do not overlap; concurrent calls for one URL can drop a repo from it (C55_concurrent_false)."
  },
  {
   "property": "C56",
   "status": "partial",
   "theorems": [
    "Arroba.Blob.C56_answer",
    "Arroba.Blob.C56_origin_partial",
    "Arroba.Blob.C56_changed_false",
    "Arroba.Blob.C56_long_false",
    "Arroba.Blob.C56_oversized_false",
    "Arroba.Blob.C56_get_or_create"
   ],
   "note": "Exact answers, and every redirect goes to a URL that has served that CID, in every execution with URLs of at most 1500 characters. False: the method redirects to content that it has just seen to have another CID; longer URLs collide; a blob that has become too long hides others. The DID in the request is ignored."
  },
  {
   "property": "C57",
   "status": "partial",
   "theorems": [
    "Arroba.Store.C57_messages_partial",
    "Arroba.Store.C57_prev_commit",
    "Arroba.Store.C57_root_false",
    "Arroba.Store.C57_undo_false"
   ],
   "note": "Every message of every history without a commit that failed in the middle, and without records that look like events (C30). That undoing gives prevData is proved for canonical trees and operations that leave records after each; C57_root_false and C57_undo_false show why."
  },
  {
   "property": "C58",
   "status": "proved",
   "theorems": [
    "Arroba.Store.C58_serial",
    "Arroba.Store.C58_acknowledged",
    "Arroba.Store.C58_seqs",
    "Arroba.Store.C58_status",
    "Arroba.Store.C58_alone",
    "Arroba.Store.C58_order_false",
    "Arroba.Store.C58_immutable_false",
    "Arroba.Store.C58_memory_false"
   ],
   "note": "Proved for DatastoreStorage. Three things that one might expect besides do not hold: revs need not increase along prev (C58_order_false), a stored block can get another seq and repo (C58_immutable_false), and MemoryStorage shared by threads loses updates (C58_memory_false)."
  },
  {
   "property": "C59",
   "status": "partial",
   "theorems": [
    "Arroba.C59_accepts",
    "Arroba.C59_rejects",
    "Arroba.C59_requests",
    "Arroba.C59_host",
    "Arroba.C59_resolves_partial",
    "Arroba.C59_fallback",
    "Arroba.C59_sound",
    "Arroba.C59_cache",
    "Arroba.C59_strings_false",
    "Arroba.C59_conflict_false",
    "Arroba.C59_garbage_false",
    "Arroba.C59_length_false"
   ],
   "note": "That the published DID is returned is proved for TXT records of one plain string each. With several strings in a record the result is garbage (C59_strings_false); contradicting records are not noticed (C59_conflict_false); the DID is not validated (C59_garbage_false); handles over 253 characters are accepted (C59_length_false)."
  },
  {
   "property": "C60",
   "status": "partial",
   "theorems": [
    "Arroba.Store.C60_mirror_partial",
    "Arroba.Store.C60_from_start_partial",
    "Arroba.Store.C60_create_false"
   ],
   "note": "Every history without a commit that failed in the middle, without callbacks that raise and without records that look like events (C30). If a callback raises in Repo.create, the mirror has a repo that the server does not have (C60_create_false). Imported repos are not on the firehose (C64_mirror_false)."
  },
  {
   "property": "C61",
   "status": "proved",
   "theorems": [
    "Arroba.Cbor.C61_same_bytes",
    "Arroba.Cbor.C61_round_trip",
    "Arroba.Cbor.C61_canonical",
    "Arroba.Cbor.C61_cid",
    "Arroba.Cbor.C61_same_cid",
    "Arroba.Cbor.C61_blocks",
    "Arroba.Cbor.C61_signed",
    "Arroba.Cbor.C61_car",
    "Arroba.Cbor.C61_refuses_integer"
   ],
   "note": "The dag_cbor and carbox packages are not in the repository; modelled are the DAG-CBOR and CARv1 formats. Records are dicts with a $type that is not that of an event."
  },
  {
   "property": "C62",
   "status": "partial",
   "theorems": [
    "Arroba.Store.C62_signed_partial",
    "Arroba.Store.C62_since",
    "Arroba.Store.C62_key",
    "Arroba.Store.C62_created",
    "Arroba.Xrpc.C62_import",
    "Arroba.Xrpc.C62_import_false"
   ],
   "note": "Proved for every history of Repo.create, commits, status changes, events and loads, with all failures (also torn trees and retried transactions). False for imported repos: import_repo stores the head that the old PDS signed together with a new key, and makes no commit, although a comment says so (counterexample). In histories with imports all commits after the import are signed with the new key (C62_since)."
  },
  {
   "property": "C63",
   "status": "partial",
   "theorems": [
    "Arroba.Xrpc.C63_snapshot_partial",
    "Arroba.Xrpc.C63_snapshot_datastore",
    "Arroba.Xrpc.C63_reads"
   ],
   "note": "Proved for all histories with DatastoreStorage. For MemoryStorage the tree must not have been torn by a failed commit before the request (C17_memory_false). The other requests are served one at a time between the reads; loading the repo is one step. Two commits that race with each other can change the seq of a block (C58_immutable_false), which is not covered."
  },
  {
   "property": "C64",
   "status": "partial",
   "theorems": [
    "Arroba.Xrpc.C64_histories_partial",
    "Arroba.Xrpc.C64_move_partial",
    "Arroba.Xrpc.C64_export_again_partial",
    "Arroba.Xrpc.C64_list_false",
    "Arroba.Xrpc.C64_mirror_false"
   ],
   "note": "For complete CAR files whose commits are not such that this server will make. Two things do not work for imported repos: listRepos gives a wrong rev (C64_list_false), and their records are not on the firehose (C64_mirror_false)."
  },
  {
   "property": "C65",
   "status": "partial",
   "theorems": [
    "Arroba.Xrpc.C65_at_uri",
    "Arroba.Xrpc.C65_latest",
    "Arroba.Xrpc.C65_agree",
    "Arroba.Xrpc.C65_blocks_partial",
    "Arroba.Xrpc.C65_other_false"
   ],
   "note": "Every history of both backends. getBlocks serves the blocks of all repos, also deactivated ones, under the name of any active one (C65_other_false)."
  },
  {
   "property": "C66",
   "status": "partial",
   "theorems": [
    "Arroba.Store.C66_mirror_partial",
    "Arroba.Store.C66_messages_partial",
    "Arroba.Fire.C66_log_partial",
    "Arroba.Fire.C66_window_false",
    "Arroba.Store.C66_concurrent_false"
   ],
   "note": "The requests are served one after the other, while the firehose runs; each of them may write several events, which become visible one by one. Excluded: what C60 excludes, subscribers for which events were evicted from the window or merged into it while they connected (C36, C38), exceptions while an event is handed out (C39), and servers that preload nothing although there are events (C66_window_false). Commits to the same repo that are made at the same time get sequence numbers in another order than they take effect, and leave the mirror wrong for good (C66_concurrent_false)."
  },
  {
   "property": "C67",
   "status": "partial",
   "theorems": [
    "Arroba.Store.C67_messages_partial",
    "Arroba.Store.C67_commits_partial",
    "Arroba.Store.C67_events_partial",
    "Arroba.Store.C67_mirror_partial",
    "Arroba.Store.C67_retry_false"
   ],
   "note": "Datastore. Excluded: schedules in which a call is aborted or fails after it has written its blocks, since the blocks of the attempt stay in the log (C67_retry_false); records that look like events or commits (C30); for the mirror, transactions that commit in another order than that of their sequence numbers (C66_concurrent_false)."
  },
  {
   "property": "C68",
   "status": "proved",
   "theorems": [
    "Arroba.Xrpc.C68_request",
    "Arroba.Xrpc.C68_empty",
    "Arroba.Xrpc.C68_history",
    "Arroba.Xrpc.C68_unique",
    "Arroba.Xrpc.C68_same",
    "Arroba.Xrpc.C68_head_false"
   ],
   "note": "For requests one after another, when storage, signing and callbacks do not fail (C69 is about failures) and sequence numbers are left, with flask. New repos get DIDs and handles that are neither DIDs nor empty; for the answers to be unique, every handle is given to one DID only. CIDs of commits are not part of the answers of these methods; they do depend on the storage (C68_head_false)."
  },
  {
   "property": "C69",
   "status": "proved",
   "theorems": [
    "Arroba.Xrpc.C69_answer",
    "Arroba.Xrpc.C69_acknowledged",
    "Arroba.Xrpc.C69_killed",
    "Arroba.Xrpc.C69_history",
    "Arroba.Xrpc.C69_again",
    "Arroba.Xrpc.C69_repeat",
    "Arroba.Xrpc.C69_event",
    "Arroba.Xrpc.C69_event_false",
    "Arroba.Xrpc.C69_create_false"
   ],
   "note": "For requests one after another with the Datastore. A transaction that raises has not been applied (unlike a process that is killed, or a lost response); if Google reports a failure for a transaction that it did apply, the request may have been done although it raised. Two things do not hold: a process that is killed between the status and its event leaves a status that the log does not have, until it is set again (C69_event_false), and createRecord without an rkey stores the record twice if it is repeated (C69_create_false)."
  },
  {
   "property": "C70",
   "status": "proved",
   "theorems": [
    "Arroba.Xrpc.C70_linearizable",
    "Arroba.Xrpc.C70_served",
    "Arroba.Xrpc.C70_completes",
    "Arroba.Xrpc.C70_conflict_false",
    "Arroba.Xrpc.C70_handle_false",
    "Arroba.Xrpc.C70_late_false"
   ],
   "note": "Linearizability, with the reference server of C68. Repos are made, and made anew, at the same time; a DID keeps its handle then, which is needed (C70_handle_false). Reading is one step, since blocks are immutable and the repo is read first. Overlapping requests for one record may fail with ValueError although each order of them succeeds (C70_conflict_false), so the exception for them is needed. The order is not that in which the storage changed: a record may be written to a repo, and be in the log, after a request to deactivate it has been answered (C70_late_false)."
  },
  {
   "property": "C71",
   "status": "proved",
   "theorems": [
    "Arroba.Xrpc.C71_start",
    "Arroba.Xrpc.C71_starts",
    "Arroba.Xrpc.C71_killed",
    "Arroba.Xrpc.C71_history",
    "Arroba.Xrpc.C71_restart",
    "Arroba.Xrpc.C71_forever",
    "Arroba.Xrpc.C71_first",
    "Arroba.Xrpc.C71_race_false"
   ],
   "note": "Starts are modelled with the failures and crash points of C69, against a table of accounts. One after another: processes that are started at the same time both make the repo, and the second one loses what was written meanwhile (C71_race_false)."
  },
  {
   "property": "C72",
   "status": "partial",
   "theorems": [
    "Arroba.Fire.C72_collector",
    "Arroba.Fire.C72_passes",
    "Arroba.Fire.C72_emitted",
    "Arroba.Fire.C72_subscriber",
    "Arroba.Fire.C72_serves",
    "Arroba.Fire.C72_pull",
    "Arroba.Store.C72_log_partial",
    "Arroba.Store.C72_lookalike_false",
    "Arroba.Store.C72_forged_false"
   ],
   "note": "Progress of the collector and the subscribers is proved in full for the model in which read_events_by_seq and process_event may raise at any time. That they do not raise (C72_log_partial) holds of the logs of C57. It is false of a log with a record whose $type is that of an event: any client can write one, and then the collector raises in every pass, for ever, and emits nothing any more (C72_lookalike_false); if the record brings a seq of its own, all real events up to that number are skipped (C72_forged_false)."
  },
  {
   "property": "C73",
   "status": "partial",
   "theorems": [
    "Arroba.C73_tree",
    "Arroba.C73_steps",
    "Arroba.Store.C73_commit_partial",
    "Arroba.Store.C73_growth_partial",
    "Arroba.Store.C73_seq_partial",
    "Arroba.Store.C73_message_partial",
    "Arroba.Xrpc.C73_get_record_partial"
   ],
   "note": "Proved in full for trees. For commits and answers, MemoryStorage after a commit that failed in the middle is excluded, since what it wrote stays in the tree and is part of the next commit (C23); for sequence numbers and messages, also commits that failed after blocks were written, or were retried, since the blocks of every attempt are stored with the same number (C30)."
  },
  {
   "property": "C74",
   "status": "partial",
   "theorems": [
    "Arroba.Fire.C74_session_partial",
    "Arroba.Store.C74_log_partial",
    "Arroba.Store.C74_complete_partial",
    "Arroba.Store.C74_mirror_partial",
    "Arroba.Store.C74_messages_partial",
    "Arroba.Store.C74_start_partial",
    "Arroba.Store.C74_replay_partial",
    "Arroba.Fire.C74_inflight_false",
    "Arroba.Store.C74_replay_false",
    "Arroba.Store.C74_start_false"
   ],
   "note": "Excluded: connections for which events were evicted from the rollback window, or merged into it, while they were connecting (C38, C36); requests that are served while the collector starts, whose events are never emitted (C74_inflight_false); collectors that start with an empty window although there are events (C66_window_false); exceptions while an event is handed out; imports; and for mirrors what C60 excludes. With a record that looks like an event, subscribers with a cursor fail after a restart (C74_replay_false), or the collector does not start (C74_start_false)."
  },
  {
   "property": "C75",
   "status": "partial",
   "theorems": [
    "Arroba.Store.C75_log",
    "Arroba.Store.C75_others",
    "Arroba.Store.C75_messages_partial",
    "Arroba.Store.C75_pass_partial",
    "Arroba.Store.C75_mirror_partial",
    "Arroba.Store.C75_own_false"
   ],
   "note": "C75_log and C75_others hold for every history of both backends. Excluded from the others: MemoryStorage after a commit that failed in the middle (torn, see C23), and records that look like events (C30, C72). The mirror of a repo whose own commit failed while it was stored can have records that the repo does not have (C75_own_false); one whose transaction was retried until it was committed is right (C75_mirror_partial)."
  },
  {
   "property": "C76",
   "status": "partial",
   "theorems": [
    "Arroba.Store.C76_log",
    "Arroba.Store.C76_pass",
    "Arroba.Store.C76_attempts",
    "Arroba.Store.C76_mirror_partial",
    "Arroba.Store.C76_retried_partial",
    "Arroba.Store.C76_stale_false"
   ],
   "note": "Datastore; every schedule, at every moment. Excluded from C76_log and C76_pass: records that look like events or commits (C30, C72). C76_mirror_partial is for a repo whose own calls are not aborted after they have written their blocks, and whose transactions commit in the order of their numbers; C76_retried_partial allows that they are aborted and retried, if they have no updates and return; C67_retry_false, C76_stale_false and C66_concurrent_false show that its mirror can be wrong otherwise."
  },
  {
   "property": "C77",
   "status": "partial",
   "theorems": [
    "Arroba.Entity.C77_names",
    "Arroba.Entity.C77_block",
    "Arroba.Entity.C77_write",
    "Arroba.Entity.C77_create",
    "Arroba.Entity.C77_commit",
    "Arroba.Entity.C77_time",
    "Arroba.Entity.C77_memory_time_partial",
    "Arroba.Entity.C77_repo"
   ],
   "note": "Proved in full for DatastoreStorage, for DIDs of at most 1500 bytes. With MemoryStorage the time in the message is wrong for a Block that was made with a time in another time zone (C77_memory_time_false); arroba itself makes none. A block that was read can not be written (C77_copy_false). PEM is taken as given."
  },
  {
   "property": "C78",
   "status": "proved",
   "theorems": [
    "Arroba.Fire.C78_bound",
    "Arroba.Fire.C78_woken",
    "Arroba.Fire.C78_gaps",
    "Arroba.Fire.C78_lost_wakeup",
    "Arroba.Xrpc.C78_no_wakeup"
   ],
   "note": "Assumed: a thread that can go on does so within a given time, and one pass takes at most a given time. For the newest event in the log at any moment. C78_lost_wakeup and C78_no_wakeup show why the timeout is part of the bound: a wake-up is lost when the collector is not waiting, and requests that are served from the Datastore send none."
  },
  {
   "property": "C79",
   "status": "partial",
   "theorems": [
    "Arroba.Fire.Starting.C79_one",
    "Arroba.Fire.Starting.C79_ready",
    "Arroba.Fire.Starting.C79_goes_on_partial",
    "Arroba.Fire.Starting.C79_reset",
    "Arroba.Fire.Starting.C79_failed_false",
    "Arroba.Fire.Starting.C79_failed_reached",
    "Arroba.Fire.Starting.C79_early_false",
    "Arroba.Fire.Starting.C79_reset_false"
   ],
   "note": "Missing: that nobody waits in vain after loading has failed; this is false, see C79_failed_false. At most one collector at a time, in every execution with resets; without them, the rest of the claim as long as loading does not fail. C79_early_false: a call of start may return before the window is loaded. C79_reset_false: a call of reset that raises has stopped new subscribers all the same."
  },
  {
   "property": "C80",
   "status": "partial",
   "theorems": [
    "Arroba.Store.C80_download_partial",
    "Arroba.Store.C80_log_partial",
    "Arroba.Store.C80_firehose_partial",
    "Arroba.Store.C80_checked_partial",
    "Arroba.Store.C80_import_false",
    "Arroba.Store.C80_concurrent_false",
    "Arroba.Store.C80_failed_false"
   ],
   "note": "Missing: imported repos (their revs come from another server; false, see C80_import_false), commits to the same repo at the same time (false, see C80_concurrent_false: the consumer refuses a message), commits that fail when their blocks are stored (false, see C80_failed_false: the consumer gets a record that the server does not have) or in the callback; for subscribers, what C66 excludes. C80_checked_partial needs neither completeness nor order of the messages, nor working callbacks."
  },
  {
   "property": "C81",
   "status": "proved",
   "theorems": [
    "Arroba.C81_get",
    "Arroba.C81_calls",
    "Arroba.C81_root",
    "Arroba.C81_same_root",
    "Arroba.C81_store"
   ],
   "note": "On a model in which node objects are shared and their caches are written in place (Mst/Heap.lean), for programs as in Mst/HeapExec.lean. The hash is assumed to have no collisions, as in C01-C05."
  },
  {
   "property": "C82",
   "status": "proved",
   "theorems": [
    "Arroba.C82_get",
    "Arroba.C82_list",
    "Arroba.C82_prefix",
    "Arroba.C82_calls",
    "Arroba.C82_operations",
    "Arroba.C82_accepts",
    "Arroba.Xrpc.C82_repo",
    "Arroba.C82_undo_false",
    "Arroba.C82_malformed_false"
   ],
   "note": "The hash is assumed to have no collisions. C82_undo_false: checking that the operations can be undone, without looking at their CIDs, is not enough. C82_malformed_false: the root has to be that of a tree that was made with the API; if whoever signed the commit is malicious, blocks with true CIDs can make a record show in listings that get does not find."
  },
  {
   "property": "C83",
   "status": "partial",
   "theorems": [
    "Arroba.Store.C83_message_partial",
    "Arroba.Store.C83_relay_partial",
    "Arroba.Store.C83_current_partial",
    "Arroba.Store.C83_accepts_partial",
    "Arroba.Store.C83_sent_partial",
    "Arroba.Store.C83_unchecked_false",
    "Arroba.Store.C83_accepts_false"
   ],
   "note": "The hash is assumed to have no collisions, and signatures cannot be forged (Unforged). Excluded: failed commits that leave a modified tree behind (C23); for the current rev also commits that fail in the middle and imports. C83_unchecked_false: without the check, a relay can leave out an operation unnoticed. C83_accepts_false: the server makes messages that fail the check, if a commit leaves the repo empty on the way."
  },
  {
   "property": "C84",
   "status": "proved",
   "theorems": [
    "Arroba.C84_get",
    "Arroba.C84_list",
    "Arroba.C84_list_with_prefix",
    "Arroba.C84_enough",
    "Arroba.C84_write",
    "Arroba.Xrpc.C84_page"
   ],
   "note": "The number of layers is what get_layer says: that of the highest record, or more if the tree was emptied before (C03); at most 128 with SHA-256. Counted are reads of tree nodes; a node that is in memory already is not read again. The record blocks of a page are read in addition, one per record. For writes the theorem gives a set of blocks that is enough, rather than counting reads; the bound is three nodes per layer and the root."
  },
  {
   "property": "C85",
   "status": "proved",
   "theorems": [
    "Arroba.C85_yields",
    "Arroba.C85_next",
    "Arroba.C85_ends",
    "Arroba.C85_versions",
    "Arroba.C85_list",
    "Arroba.C85_list_with_prefix",
    "Arroba.C85_leaves"
   ],
   "note": "In the object model of C81: nodes are objects that versions share, with caches that are written in place. A step of an iterator yields a record or goes into one node, so next() is one or more steps. Blocks are never removed from the store, as in C81. list, list_with_prefix and leaves are loops over these generators; list_records consumes one in one go, too. walk() also yields the nodes, which is not recorded."
  }
 ]
}
