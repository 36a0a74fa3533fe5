#!/usr/bin/env python3
"""Regenerates /verif/properties.jsonl from the list below (documentation tool only)."""
import json, os
P = []
def p(title, statement, quantifier, why, anchors):
    P.append(dict(id=f"C{len(P)+1:02d}", title=title, statement=statement,
                  quantifier=quantifier, why_tests_cant=why, anchors=anchors))

p("MST behaves as a map",
  "Starting from an empty tree, after any sequence of successful MST.add / update / delete calls, MST.get(k) returns exactly the value most recently added or updated at k and not since deleted, and None for every other key.",
  "every finite sequence of operations, every key, every SHA-256 layer assignment, every cache / lazy-load state of the nodes",
  "unit tests only try a few thousand random keys; splits, merges and multi-layer pushes happen at arbitrary depth and position",
  ["arroba/mst.py: MST.add, MST.get, MST.update, MST.delete, MST.split_around, MST.append_merge, MST.trim_top"])
p("MST error contract",
  "MST.add raises ValueError exactly when the key is invalid or already present; MST.update raises ValueError on an invalid key and KeyError exactly when the key is absent; MST.delete raises KeyError exactly when the key is absent; no other exception is possible on a well-formed tree.",
  "every well-formed tree, every string key",
  "absence of internal failures (assertions in append_merge, adjacent-subtree errors in serialisation) must hold for every tree shape",
  ["arroba/mst.py: MST.add, MST.update, MST.delete, MST.append_merge, serialize_node_data, ensure_valid_key"])
p("MST is history independent",
  "Two MSTs holding the same key/value contents have the same structure and the same root CID, whatever sequences of add / update / delete produced them.",
  "all pairs of operation sequences that lead to the same contents",
  "quantifies over all pairs of histories; tests shuffle one insertion order",
  ["arroba/mst.py: MST.add, MST.delete, MST.trim_top, MST.get_layer, MST.new_tree, MST.get_pointer"])
p("MST structural invariant",
  "Every tree reachable through the API is a valid ATProto MST: keys strictly sorted, each key on the layer given by its hash, every subtree exactly one layer below its parent and non-empty, no two neighbouring subtrees, and no root that merely points at one subtree.",
  "every reachable tree",
  "needs induction over all operation sequences and recursion depths",
  ["arroba/mst.py: MST, layer_for_entries, MST.split_around, MST.append_merge, MST.create_parent, MST.create_child"])
p("Root CID commits to the whole content",
  "If two valid MSTs have the same root CID then they contain exactly the same keys and values (assuming no hash collision among their own node blocks).",
  "all pairs of valid trees",
  "a merkle commitment is a statement about all pairs of trees",
  ["arroba/mst.py: MST.get_pointer, cid_for_entries, serialize_node_data"])
p("Persist and reload",
  "After the blocks returned by MST.get_unstored_blocks are written to storage, loading a fresh MST from the returned root CID yields a tree with the same contents, on which every operation (get, add, update, delete, listing) gives the same result as on the in-memory tree.",
  "every tree, every storage content consistent with it, every mixture of loaded and unloaded nodes",
  "lazy loading makes any node of the tree loaded or unloaded; tests exercise a couple of mixtures",
  ["arroba/mst.py: MST.get_unstored_blocks, MST.load, MST.get_entries, deserialize_node_data, MST.attempt_get_layer"])
p("Node serialisation round-trips",
  "Deserialising the serialised form of any valid node gives back the same leaves and subtree pointers in the same order; serialisation of two adjacent subtrees is refused; distinct nodes serialise differently.",
  "every node with any number of entries and any valid keys (prefix compression included)",
  "prefix compression has to be right for all neighbouring key pairs",
  ["arroba/mst.py: serialize_node_data, deserialize_node_data, common_prefix_len"])
p("Listings are exact, sorted and complete",
  "MST.leaves, walk_leaves_from(k), list(after, before) and list_with_prefix(p) return exactly the leaves in the documented key range, in ascending key order, with no duplicates.",
  "every valid tree, every bound / prefix string",
  "range boundaries interact with tree shape at every depth",
  ["arroba/mst.py: MST.walk, MST.leaves, MST.walk_leaves_from, MST.list, MST.list_with_prefix"])
p("Layer function is leading zero bit pairs",
  "The layer computed for a key is the number of complete leading zero 2-bit pairs of the SHA-256 digest of the key.",
  "every digest (all byte strings)",
  "the digest space is 2^256",
  ["arroba/mst.py: leading_zeros_on_hash"])
p("Key grammar",
  "MST.add / update accept a key if and only if it has at most 256 characters and consists of two non-empty parts over [a-zA-Z0-9_:.-] separated by exactly one slash; every accepted key is pure ASCII.",
  "every string",
  "all strings over all of Unicode",
  ["arroba/mst.py: ensure_valid_key, _VALID_KEY_RE"])
p("mst_diff reports exactly the changed records",
  "mst_diff(cur, prev) reports as adds exactly the keys only in cur, as deletes exactly the keys only in prev, and as updates exactly the keys in both with different values, each with the right CIDs; with no prev it reports everything in cur as added.",
  "all pairs of valid trees, regardless of which nodes have their layer attribute cached",
  "the two walkers interleave in unboundedly many ways",
  ["arroba/diff.py: mst_diff, null_diff, Diff.record_add, Diff.record_update, Diff.record_delete", "arroba/mst.py: Walker"])
p("mst_diff reports exactly the changed blocks",
  "mst_diff(cur, prev).new_cids restricted to MST nodes is exactly the set of node CIDs in cur and not in prev, and removed_cids exactly the set of node CIDs in prev and not in cur.",
  "all pairs of valid trees",
  "cancellation between new and removed CIDs depends on visiting order",
  ["arroba/diff.py: Diff.record_new_cid, Diff.record_removed_cid, mst_diff"])
p("Walker enumerates the tree",
  "Repeatedly calling Walker.advance from a fresh walker visits every node and leaf exactly once in depth-first key order and then reports done; step_over skips exactly one subtree.",
  "every valid tree",
  "explicit stack manipulation over arbitrary depth",
  ["arroba/mst.py: Walker.advance, Walker.step_into, Walker.step_over"])
p("Composing diffs",
  "Diff.add_diff turns the diff a->b followed by the diff b->c into the diff a->c (same adds, updates with the original prev, deletes with the original CID; every block of c that is not in a is listed as new, every block of a that is not in c as removed).",
  "all triples of contents",
  "all combinations of per-key histories",
  ["arroba/diff.py: Diff.add_diff"])
p("Path proof",
  "MST.cids_for_path(k) is a chain of CIDs from the root in which every CID is the address of a block that links to the next one; if k is present the chain ends with its value, otherwise it ends at the node that proves absence.",
  "every valid tree and key",
  "arbitrary depth",
  ["arroba/mst.py: MST.cids_for_path"])
p("Covering proofs are sufficient",
  "The blocks that add_covering_proofs collects for a commit suffice, on their own, to look up each operation's key in the new tree and to invert each operation (re-derive the previous root), as sync v1.1 requires.",
  "every valid tree, every operation list",
  "needs to hold for every tree shape around the touched key",
  ["arroba/mst.py: MST.add_covering_proofs", "arroba/firehose.py: process_event"])
p("Repo export is complete",
  "MST.load_all / getRepo yields every MST node block and every record block reachable from the repo's root, each once, and with `since` yields at least every such block whose sequence number is at least `since`.",
  "every stored tree, every start sequence number",
  "pruning by sequence number is only right if an invariant holds over all histories",
  ["arroba/mst.py: MST.load_all", "arroba/xrpc_sync.py: get_repo"])
p("TID round trip",
  "tid_to_int(int_to_tid(n, clock_id)) == n, TIDs have exactly 13 characters over the sortable base32 alphabet, and int_to_tid rejects integers that do not fit. tid_to_int accepts every string of 13 such characters, and raises ValueError for other lengths and other characters.",
  "every non-negative integer below 32^11 and every clock id 0..31",
  "2^55 values",
  ["arroba/util.py: s32encode, s32decode, int_to_tid, tid_to_int"])
p("TIDs sort like the integers they encode",
  "For a fixed clock id, m < n if and only if int_to_tid(m) sorts before int_to_tid(n) as a string; hence commit revs sort in sequence order.",
  "all pairs of integers below 32^11",
  "all pairs",
  ["arroba/util.py: int_to_tid, S32_CHARS", "arroba/storage.py: Storage._commit"])
p("next_tid is strictly monotone",
  "Successive next_tid() results are strictly increasing strings no matter how the system clock behaves, including going backwards.",
  "every sequence of clock readings",
  "every clock behaviour",
  ["arroba/util.py: next_tid"])
p("Signatures are low-S and verify",
  "sign() stores a 64-byte signature whose s is at most half the group order, and verify_sig accepts it under the matching public key; verify_sig rejects any signature that is not 64 bytes.",
  "every object, key and ECDSA signature (r, s)",
  "all r, s values",
  ["arroba/util.py: sign, apply_low_s_mitigation, verify_sig, service_jwt"])
p("at:// URIs round-trip",
  "parse_at_uri(at_uri(did, collection, rkey)) == (did, collection, rkey) for DIDs, collections and rkeys over the ATProto character sets; non-at:// input raises ValueError.",
  "all such strings",
  "all strings",
  ["arroba/util.py: at_uri, parse_at_uri"])
p("Commit applies exactly the requested writes",
  "After a successful Storage.commit the repo's records are the previous records with the writes applied in order, and they can be read back through Repo.get_record / get_contents.",
  "every repo state and write list",
  "all write lists over all trees",
  ["arroba/storage.py: Storage._commit", "arroba/repo.py: Repo.get_record, Repo.get_contents"])
p("Failed commits change nothing",
  "If Storage.commit raises, the repo's records, head and stored blocks are what they were before the call.",
  "every repo state, every write list, every point of failure",
  "failure can strike after any prefix of the writes",
  ["arroba/storage.py: Storage.commit, Storage._commit, MemoryStorage.load_repo", "arroba/datastore_storage.py: DatastoreStorage._commit"])
p("Commit chain integrity",
  "Each commit stores version 3, the repo's DID, the previous head's CID as prev, the root CID of the new MST as data, and the TID of its sequence number as rev; along a repo's history revs and seqs strictly increase and prev links lead back to the first commit.",
  "every history of commits",
  "induction over histories",
  ["arroba/storage.py: Storage._commit, Storage.commit", "arroba/repo.py: Repo.create"])
p("Referential integrity of storage",
  "In every reachable state every block reachable from every repo's head (commit, MST nodes, records) is present in storage under the CID of its content, and a stored block is never replaced or re-sequenced.",
  "every history of API calls",
  "induction over histories; only unstored blocks are written",
  ["arroba/storage.py: Storage._commit, MemoryStorage.write_blocks, MemoryStorage.write", "arroba/mst.py: MST.get_unstored_blocks"])
p("Commit operations describe the commit",
  "The ops recorded in a commit are one per effective write, in order, with the path, the new CID (none for deletes) and the previous CID (none for creates) that were really in the tree at that point; updates that change nothing are omitted.",
  "every repo state and write list",
  "all write lists",
  ["arroba/storage.py: Storage._commit, CommitOp"])
p("Sequence numbers are unique and increasing",
  "Sequences.allocate returns 1, 2, 3, ... for each NSID independently, never the same number twice, and last() is the highest number allocated or None.",
  "every interleaving of allocate calls over any NSIDs",
  "all histories",
  ["arroba/storage.py: MemorySequences", "arroba/datastore_storage.py: DatastoreSequences"])
p("Every allocated sequence number is accounted for",
  "Every sequence number allocated by commit is either carried by exactly one stored commit or reported to the repo callback as lost exactly once, whatever happens in between.",
  "every commit attempt and failure point",
  "every failure point",
  ["arroba/storage.py: Storage.commit"])
p("Event log is ordered and complete",
  "read_events_by_seq(start) yields exactly the commits and other events with seq >= start, each once, in strictly ascending seq order, every commit together with its commit block, its record blocks and its MST root; resuming from any seq yields the corresponding suffix.",
  "every storage state reachable through the API, every start",
  "all histories",
  ["arroba/storage.py: Storage.read_events_by_seq, MemoryStorage.read_blocks_by_seq"])
p("Inactive repos reject commits",
  "Once a repo is deactivated or tombstoned every later commit to it raises InactiveRepo and changes nothing, until it is activated again.",
  "every history, every Repo handle",
  "all histories",
  ["arroba/storage.py: Storage._commit, Storage.deactivate_repo, Storage.tombstone_repo, Storage.activate_repo"])
p("Tombstoning is final",
  "activate_repo does nothing if the repo is tombstoned (as its documentation says).",
  "every history",
  "all histories",
  ["arroba/storage.py: Storage.activate_repo, Storage.tombstone_repo"])
p("Commit size limits",
  "A commit with more than 200 writes or with a record larger than 1,000,000 bytes is rejected with ValueError and is never stored.",
  "every write list",
  "all write lists",
  ["arroba/storage.py: Storage._commit, MAX_OPERATIONS_PER_COMMIT, MAX_RECORD_SIZE_BYTES"])
p("Datastore block scan survives lost contexts",
  "DatastoreStorage.read_blocks_by_seq yields every block with seq >= start exactly once, in ascending seq order, no matter how often and where the ndb context is lost and the query restarted.",
  "every schedule of context losses, every per-seq block order the query may return",
  "every crash point",
  ["arroba/datastore_storage.py: DatastoreStorage.read_blocks_by_seq"])
p("Memcache sequence numbers are never reissued",
  "MemcacheSequences.allocate never returns a number it returned before, even if memcache is wiped at arbitrary moments and many threads allocate concurrently, provided fewer than MEMCACHE_SEQUENCE_BUFFER allocations are in flight.",
  "every interleaving of threads and memcache losses",
  "interleavings and crash points",
  ["arroba/datastore_storage.py: MemcacheSequences.allocate"])
p("Firehose order",
  "Every subscriber receives events with strictly increasing sequence numbers: no duplicates, nothing out of order, across cursor replay, rollback window and live events.",
  "every interleaving of the collector, commits and subscribers",
  "all thread schedules",
  ["arroba/firehose.py: subscribe, Collector._collect, Collector.run"])
p("Live subscribers miss nothing",
  "A subscriber that connects without a cursor receives every event the collector emits from then on.",
  "every interleaving",
  "all thread schedules",
  ["arroba/firehose.py: subscribe, Collector._collect"])
p("Cursor replay has no gaps",
  "A subscriber that connects with cursor c receives every event with seq >= c that the collector has emitted or emits, exactly once.",
  "every interleaving, every cursor, every rollback window size",
  "all thread schedules; hand-off between storage, rollback window and live queue",
  ["arroba/firehose.py: subscribe"])
p("The collector only skips what it may skip",
  "The collector emits an event past a missing sequence number only if every missing number is marked lost, or it has waited longer than the skip delay, or it is further behind the newest number than the skip window; it never emits a number twice or out of order. It never skips an event that was stored when it began to read, and a pass without exceptions emits every event that was stored when it began and comes before the first missing number.",
  "every storage state, lost set and clock",
  "all schedules and clocks",
  ["arroba/firehose.py: Collector._collect, mark_seq_lost"])
p("Cursor validation",
  "subscribeRepos answers a cursor above the current sequence number with a FutureCursor error and nothing else, a cursor older than the rollback window with an OutdatedCursor notice followed by events from the window start, and any other cursor without a notice.",
  "every cursor and current sequence number",
  "all integers",
  ["arroba/xrpc_sync.py: subscribe_repos"])
p("Record CRUD over XRPC",
  "After putRecord/createRecord succeeds, getRecord returns that record with its CID until it is overwritten or deleted; after deleteRecord, getRecord raises RecordNotFound; deleting a missing record is a no-op; other records are unaffected.",
  "every repo state and request sequence",
  "all request sequences",
  ["arroba/xrpc_repo.py: create_record, put_record, get_record, delete_record"])
p("listRecords pagination is complete",
  "Following the cursor of listRecords with a constant limit of at least 2 visits every record of the collection in order, repeating only the cursor record itself; records of other collections never appear.",
  "every repo, collection and limit",
  "all sizes",
  ["arroba/xrpc_repo.py: list_records"])
p("listRepos pagination is complete",
  "Following the cursor of listRepos with any limit >= 1 lists every repo exactly once in DID order and terminates.",
  "every set of repos, every limit",
  "all sizes",
  ["arroba/xrpc_sync.py: list_repos", "arroba/storage.py: MemoryStorage.load_repos"])
p("Writes require the token",
  "No XRPC write method (createRecord, putRecord, deleteRecord, importRepo, applyWrites, uploadBlob) changes anything unless REPO_TOKEN is configured and the request carries it.",
  "every request and state",
  "all requests",
  ["arroba/server.py: auth", "arroba/xrpc_repo.py"])
p("sync.getRecord returns a proof of the record",
  "The CAR returned by com.atproto.sync.getRecord contains the head commit, the record and every MST node on the path from the commit's data root to the record.",
  "every repo and record",
  "all tree shapes",
  ["arroba/xrpc_sync.py: get_record"])
p("Import preserves content",
  "importRepo refuses a CAR whose head is missing, whose signature does not verify or whose DID already has a repo; otherwise the new repo is deactivated, has the imported head and exactly the records of the CAR, and the firehose is unaffected.",
  "every CAR",
  "all CARs",
  ["arroba/xrpc_repo.py: import_repo"])
p("Lease mutual exclusion",
  "Two Lease objects for the same key never both believe they hold the lease, and release never removes a lease someone else acquired.",
  "every interleaving, clock and latency",
  "all interleavings",
  ["arroba/memcache.py: Lease.acquire, Lease.release"])
p("DID document round trip",
  "The DID document produced for a PLC operation yields, through get_handle and get_signing_key, the handle and the signing key the operation was created with; decode_did_key inverts encode_did_key.",
  "every operation / key",
  "all keys and handles",
  ["arroba/did.py: plc_operation_to_did_doc, get_handle, get_signing_key, encode_did_key, decode_did_key, write_plc"])
p("PLC rollback restores the earlier state",
  "rollback_plc(did, key, n) submits an operation equal to the n-th previous operation of the audit log apart from prev (the current head's CID) and sig, and refuses when the log is too short or the key is not a current rotation key; update_plc chains to the latest operation and keeps the handle and aliases unless told otherwise.",
  "every audit log",
  "all logs",
  ["arroba/did.py: rollback_plc, update_plc, write_plc_operation"])
p("did:web URL",
  "resolve_web fetches https://HOST/.well-known/did.json for a bare host and https://HOST/PATH/did.json when the DID has path segments; resolve dispatches by method prefix and rejects everything else with ValueError.",
  "every DID string",
  "all strings",
  ["arroba/did.py: resolve, resolve_web, resolve_plc"])
p("Blob limits",
  "AtpRemoteBlob.validate accepts a blob exactly when its size is within BLOB_MAX_BYTES and the lexicon maxSize and its duration is at most three minutes; maybe_fetch refetches exactly when never fetched, or of a refetchable type and older than the refetch age.",
  "every blob and clock",
  "all values",
  ["arroba/datastore_storage.py: AtpRemoteBlob.validate, AtpRemoteBlob.maybe_fetch"])
p("Repo visibility",
  "Every read method that goes through server.load_repo raises RepoNotFound for an unknown repo and RepoDeactivated for an inactive one; getRepoStatus reports active exactly for active repos.",
  "every state and identifier",
  "all states",
  ["arroba/server.py: load_repo", "arroba/xrpc_sync.py: get_repo_status"])
p("Moving a repo between servers",
  "The CAR that sync.getRepo returns for an active repo is accepted by repo.importRepo on any server that has no repo for its DID, whatever storage the two servers use; the imported repo has the same head and exactly the same records, and the other repos there keep theirs.",
  "every repo and history on the exporting server, every state of the importing server",
  "all trees, histories and combinations of storage",
  ["arroba/xrpc_sync.py: get_repo", "arroba/xrpc_repo.py: import_repo", "arroba/mst.py: MST.load_all"])
p("Sessions need credentials",
  "No XRPC session method (createSession, getSession, refreshSession) gives a session, and with it the token that authorises writes, to a client that presents neither the token nor a right password.",
  "every server state, client and request",
  "tests try a few requests; the claim is about every request a client without credentials could make",
  ["arroba/xrpc_server.py: create_session, get_session, refresh_session", "arroba/server.py: auth"])
p("listBlobs lists exactly the blobs of a repo",
  "Following the cursor of com.atproto.sync.listBlobs with any limit >= 1 lists, once per URL and in the order of the URLs, the CIDs of exactly those blobs that AtpRemoteBlob.get_or_create was called with for the repo, and terminates; what changes between pages affects only the blobs that change.",
  "every sequence of get_or_create and getBlob calls, every limit, everything that may happen between pages",
  "all page sizes, histories and interleavings",
  ["arroba/xrpc_sync.py: list_blobs", "arroba/datastore_storage.py: AtpRemoteBlob.get_or_create, maybe_fetch"])
p("getBlob redirects to where the blob is",
  "com.atproto.sync.getBlob redirects to the URL of the most recently updated active blob with the CID, skipping those that are due to be fetched again and fail; a redirect only goes to a URL that serves content with that CID; if there is none it raises ValueError.",
  "every table of blobs, every execution of concurrent get_or_create and getBlob calls, every behaviour of the web servers",
  "depends on histories of fetches, refetches and answers of other servers",
  ["arroba/xrpc_sync.py: get_blob", "arroba/datastore_storage.py: AtpRemoteBlob"])

p("A firehose message is enough to check its commit",
  "Every commit in the event log is announced by one #commit message with its repo, commit CID, rev and seq, operations that truthfully describe the step from the previous commit, the previous commit's tree root as prevData, and a CAR file that has everything stored with the commit, the operations' records, and nothing from outside the repo's commit. With the CAR file alone a consumer can look up each operation's path in the new tree, and undo the operations to get back to prevData. Other events are announced with their type.",
  "every history of either backend, every commit, any point in time from which the log is read, and processing at any later time",
  "any history of commits, any tree shape and any list of operations",
  ["arroba/firehose.py: process_event", "arroba/storage.py: Storage.read_events_by_seq", "arroba/mst.py: MST.add_covering_proofs"])

p("Concurrent commits to one repo are serialised",
  "When any number of Storage.commit calls run concurrently against one Datastore, in any threads or processes, while transactions are aborted and retried, calls fail, statuses change and events are written, then the repo's history is that of the successful calls applied one after the other: each is based on the one before it (its prev), no acknowledged write is lost or applied twice, a call that fails has no effect on the repo, and each commit reports the operations that it made to the state it was based on. Each has a sequence number of its own. The status is what it was set to last.",
  "every schedule of the steps of any number of calls, aborts, failures, status changes and events, from every reachable state",
  "all interleavings; the tests run one call at a time",
  ["arroba/storage.py: Storage.commit, _commit", "arroba/datastore_storage.py: DatastoreStorage._commit, write_blocks, _set_repo_status, AtpRepo", "arroba/storage.py: MemoryStorage"])

p("Handles resolve to the DID that is published for them",
  "resolve_handle returns the DID in the TXT record of _atproto.<handle> or, if there is none, that on the handle's well-known page, or None; whatever the answers are, it returns a DID only if one of the two says so, and only for an answer for exactly this name. Strings that are not handles raise ValueError before any request is made. No other requests are made, and the host that is asked is the handle. Cached results are at most six hours old.",
  "every string, every answer of DNS and web servers, every schedule of concurrent calls and evictions",
  "all strings and all answers, including hostile ones",
  ["arroba/did.py: resolve_handle, HANDLE_RE, CACHE_TTL"])

p("The firehose is enough to mirror all repos",
  "A consumer that applies the #commit messages of the firehose in order, to an empty mirror from the first sequence number on or to a mirror that was right up to some sequence number from the next one on, ends up with exactly the server's repos and exactly their records, and needs nothing but the messages.",
  "every history of either backend, every two points in time, every order in which the backend may return blocks of one commit",
  "any history of any number of repos, commits, re-created repos, events and lost sequence numbers",
  ["arroba/storage.py: Storage.commit, write_event, read_events_by_seq", "arroba/firehose.py: process_event", "arroba/repo.py: Repo.create"])

p("Bytes, CIDs and signatures identify content",
  "The bytes of a block determine its content, and the content its bytes: the order in which dict keys were inserted makes no difference, and nothing else is dropped. Decoding gives back what was encoded, and a block made from bytes keeps its bytes and its CID when it is decoded and encoded again. So two blocks with the same CID, be they MST nodes, records, commits or events, are the same block, unless SHA-256 collides; what a commit's signature covers determines the repo, rev, tree, previous commit and version; and a CAR file is read back with the roots and blocks it was written from.",
  "all values that can be stored (nested to any depth, any Unicode text, any integers that fit), all blocks that arroba makes, all CAR files",
  "all pairs of values; a test sees the CIDs of a few",
  ["arroba/storage.py: Block.cid, Block.encoded, Block.decoded", "arroba/util.py: dag_cbor_cid, sign, verify_sig", "arroba/mst.py: serialize_node_data, cid_for_entries", "arroba/repo.py: Repo.create"])

p("All commits of a repo are signed with its key",
  "The head commit of every repo, and every commit before it back to the repo's first one, carries a signature that was made with the signing key that load_repo gives for this repo, over the commit without its signature. The key is the one that Repo.create got, and no call but Repo.create for the same DID changes it, whatever key Repo.load is called with.",
  "every history of either backend, including failed and retried transactions, and every repo; imported repos",
  "any history of commits by objects that were loaded in different ways, and failures in between",
  ["arroba/storage.py: Storage._commit, Storage.load_repo", "arroba/datastore_storage.py: DatastoreStorage.store_repo, load_repo", "arroba/repo.py: Repo.create, Repo.load", "arroba/xrpc_repo.py: import_repo"])

p("An export is a snapshot",
  "getRepo reads a repo's blocks bit by bit while it writes the CAR file. Whatever other requests are served in between, be it commits to the same repo, its deactivation or an import, the CAR file is the one of the repo at the time of the request: nothing is missing, nothing of a later commit is in it. A loaded repo shows the same records later on.",
  "all repos in every history, all requests between any two reads, whether they succeed or fail, every order in which the Datastore returns blocks, every since",
  "any interleaving of an export with other requests",
  ["arroba/xrpc_sync.py: get_repo", "arroba/mst.py: MST.load_all", "arroba/storage.py: Storage.read_many_raw, write_blocks", "arroba/datastore_storage.py: read_many_raw, write_blocks"])

p("Repos can be moved to another server and used there",
  "A repo that is exported from one server with getRepo and imported on another with importRepo has the same head and the same records there. From then on it works like any other repo: reads, commits, the guarantees about commits and storage, listing, mirroring and exports, which give the same blocks as on the old server until there is a new commit.",
  "all repos in every history of the one server, every state of the other, either backend, all later histories",
  "any history before, and any number of calls of any kind after the import",
  ["arroba/xrpc_repo.py: import_repo", "arroba/xrpc_sync.py: get_repo, list_repos", "arroba/repo.py: Repo.load, Repo.apply_writes", "arroba/firehose.py: process_event"])

p("The sync methods agree about the head, and serve blocks by CID",
  "getLatestCommit and getHead give the CID and rev of the repo's head commit; the same CID is the root of what getRepo and getBlocks answer, and is what listRepos has for the repo. getBlocks answers with exactly the blocks asked for, in that order, each hashing to its CID, and with BlockNotFound if one of them is not stored in the repo.",
  "all repos in every history of either backend, by DID, handle or at:// URI, all lists of CIDs",
  "any history of any number of repos; any list of CIDs",
  ["arroba/xrpc_sync.py: get_head, get_latest_commit, get_blocks, get_repo, list_repos", "arroba/storage.py: Storage.read_many", "arroba/server.py: load_repo"])

p("A subscriber's mirror is right, end to end",
  "A consumer whose copy of all repos is right at some time, and that connects to subscribeRepos with the next sequence number as its cursor (or an earlier one), and applies the messages it gets, has an exact copy of all repos, with exactly their records, whenever it has got everything that was logged up to some later time. It gets, in order and once, exactly the events of the log from its cursor on, including those that were logged before the server was started, while it connected, and since, while requests are served, events are collected and other subscribers come and go.",
  "every execution of requests, the collector and any number of subscribers, either backend, all cursors, all windows, messages made at any time",
  "any interleaving of requests, collector and subscribers; any history before the server is started",
  ["arroba/firehose.py: subscribe, Collector.run, Collector._collect, process_event", "arroba/storage.py: Storage.read_events_by_seq, Storage.commit, Storage.write_event", "arroba/repo.py: Repo.create"])

p("The log is right when commits are made at the same time",
  "While any number of calls commit at the same time, to the same or different repos, with transactions that are retried on contention, and other events are written in between, the log that subscribers read has exactly the commits of the calls that succeeded and the other events, each once, with distinct sequence numbers, and each message says what that commit changed. If each repo's commits take effect in the order of their sequence numbers, a consumer's mirror is right afterwards.",
  "every history before, any number of concurrent commits and events, every interleaving of their steps",
  "any interleaving of any number of concurrent transactions",
  ["arroba/storage.py: Storage.commit, Storage._commit, Storage.write_event, Storage.read_events_by_seq", "arroba/datastore_storage.py: DatastoreStorage._commit, write_blocks, read_blocks_by_seq", "arroba/firehose.py: process_event"])

p("The server answers like a table of accounts, with either storage",
  "From an empty storage on, every list of requests (reading, listing, writing and deleting records, describing repos and asking for their status, creating repos, activating, deactivating and tombstoning them) is answered exactly as by a table of accounts with a handle, a status and records each: the same results, URIs, CIDs, pages and cursors, and the same errors. So the answers don't depend on the storage, nor on signing keys, nonces, callbacks and times.",
  "every list of requests with any input, both storages, all keys, nonces and times",
  "an equivalence for every list of requests of any length",
  ["arroba/xrpc_repo.py: create_record, get_record, put_record, delete_record, list_records, describe_repo", "arroba/xrpc_sync.py: get_repo_status", "arroba/server.py: load_repo, auth", "arroba/repo.py: Repo.create", "arroba/storage.py: MemoryStorage, activate_repo, deactivate_repo, tombstone_repo", "arroba/datastore_storage.py: DatastoreStorage"])

p("Requests are done completely or not at all, whatever fails",
  "With the Datastore, signatures, writes, transactions and callbacks may fail, transactions may be retried, and the process may be killed between any two writes, any number of times. A request that is answered without an exception has been done, and its answer is the right one; one that raises because something failed hasn't been done at all; one without an answer has been done completely or not at all. All later answers are those of a table of accounts. A client that repeats a request with the same rkey until it is answered gets what it would have got if it had made it once, and a change of an account's status that is answered has an event in the log.",
  "every list of requests, all failures, retries and stops in each of them",
  "needs every combination of failures and stops in every request of every list",
  ["arroba/xrpc_repo.py: create_record, put_record, delete_record", "arroba/server.py: load_repo", "arroba/repo.py: Repo.create", "arroba/storage.py: Storage.commit, activate_repo, deactivate_repo, tombstone_repo, write_event", "arroba/datastore_storage.py: DatastoreStorage._commit, set_repo_status, create_repo, load_repo"])

p("Requests made at the same time are answered as if made one after the other",
  "Any number of clients make requests to servers with one Datastore at the same time. The answers are those of a table of accounts that is given the requests one after the other, in an order in which a request that was answered before another one was made comes first; and what is stored agrees with the table. The only exception is that a request to write a record may fail, and then has done nothing, if its commit raises, if there are no sequence numbers left, or if another request has written the same record, or made its repo anew, in the meantime. Repos are made at the same time, too. No request waits for another: if the others stop, wherever they are, it is answered.",
  "every history before, any number of overlapping requests, including those that make repos (a DID keeps its handle), every interleaving of their steps, with aborted transactions and commits that fail",
  "any interleaving of any number of concurrent requests, and the existence of an order",
  ["arroba/xrpc_repo.py: create_record, put_record, delete_record, get_record, list_records, describe_repo", "arroba/xrpc_sync.py: get_repo_status", "arroba/server.py: load_repo", "arroba/storage.py: Storage.commit, activate_repo, deactivate_repo, tombstone_repo, write_event", "arroba/datastore_storage.py: DatastoreStorage._commit, set_repo_status, load_repo, create_repo", "arroba/repo.py: Repo.create"])

p("Restarting the server loses nothing",
  "However often the server is started, killed while it starts, or stopped by an exception, one after another, and whatever requests it serves in between with anything going wrong: a start makes a repo without records if the server has none, and otherwise succeeds and leaves the Datastore exactly as it was, including the log and the sequence numbers. Once there is a repo there always is one. If starts failed or were killed before, then one start where nothing fails is enough to make the repo.",
  "every history of starts and requests, all failures and crash points in them, every REPO_DID that is a DID and REPO_HANDLE that is not",
  "any number of restarts at any crash points, between any requests",
  ["app.py: module level (start of the server)", "arroba/repo.py: Repo.create", "arroba/datastore_storage.py: DatastoreStorage.load_repo, create_repo"])

p("The firehose does not get stuck",
  "Whatever subscribers, writers and the collector do at the same time: there is always a next step the collector can make, each of its passes over the log ends after as many steps as there are events and subscribers to go through, and an event that is stored but not yet emitted is emitted after a bounded number of passes in which nothing goes wrong, even if numbers before it are missing for ever. A new subscriber gets to the live events after a bounded number of its own steps, and only ever waits while one event is handed out. Reading the log and making the messages raises no exception in the collector.",
  "every execution: all interleavings of the collector, any number of subscribers, and writers; exceptions in passes in between; every log",
  "progress: a statement about all schedules, and about every future of the log",
  ["arroba/firehose.py: Collector._collect, Collector.run, subscribe, process_event", "arroba/storage.py: Storage.read_events_by_seq"])

p("Commits, messages and proofs stay small, however large the repo",
  "How much a commit costs depends on the number of its writes and the depth of the tree, not on the number of records in the repo: of two versions of a repo, all but a bounded number of tree nodes for each changed path are the same and are not written again. A commit of n writes stores at most n record blocks, 2*Z tree nodes for each write, the root and the commit block (Z bounds the depth: 128 for SHA-256); no sequence number, and hence no #commit message on the firehose with its proofs, gets more than a constant number of blocks; and com.atproto.sync.getRecord answers with at most 3*Z+3 blocks.",
  "every tree and every later tree; every history of the storage, both backends; every commit, message and answer; no bound on the number of records",
  "a bound that has to hold for repos of every size, and every shape of the tree; tests use small trees",
  ["arroba/mst.py: MST.get_unstored_blocks, MST.add, MST.update, MST.delete, MST.add_covering_proofs", "arroba/storage.py: Storage.commit", "arroba/firehose.py: process_event", "arroba/xrpc_sync.py: get_record"])

p("A firehose consumer that connects again misses nothing",
  "A consumer of com.atproto.sync.subscribeRepos that is cut off, at any time and as often as it happens, and connects again with the last sequence number it has as its cursor (or any earlier one, or the next), and leaves out what it has already, has in order and once exactly the log from where it first started up to the last event it got, also if the server, and with it the collector, was restarted in between. A mirror of the repos that it keeps is right whenever it has all events. When the collector starts, it makes the right message for each of the last events without raising, and a subscriber can replay them.",
  "every history of requests, both backends; any number of connections, to any number of collectors started at any time; every interleaving; every moment at which a connection ends",
  "the cut can be at any line of the subscriber's generator, and the windows of the collectors before and after the restart differ; tests connect once to one collector",
  ["arroba/firehose.py: subscribe, start, Collector.run, Collector._collect, process_event", "arroba/storage.py: Storage.read_events_by_seq", "arroba/xrpc_sync.py: subscribe_repos"])

p("A failure while a commit is stored damages nothing else",
  "Whatever raises while a commit is being stored, and however often a transaction is retried, the log of events can still be read: reading it raises nothing and gives, in order, one right message for each sequence number that was used. The firehose goes on with it. Commits to other repos leave a repo alone, whatever fails, and a mirror of a repo that a firehose consumer keeps stays right as long as no call for that repo itself fails part of the way.",
  "every history of requests, both backends; every place where storing can fail; every number of retries; every number of repos",
  "a failure leaves blocks behind that no head refers to, and whether they get in the way depends on which numbers and repos they carry; tests do not make storage fail in the middle",
  ["arroba/storage.py: Storage.commit, Storage._commit, Storage.read_events_by_seq", "arroba/datastore_storage.py: DatastoreStorage.commit, DatastoreStorage.write_blocks, DatastoreStorage.store_repo, DatastoreStorage.read_blocks_by_seq", "arroba/firehose.py: Collector._collect, process_event"])

p("The firehose goes on when commits run at the same time and fail",
  "However the steps of any number of concurrent commits, status changes and events are interleaved, and wherever transactions are aborted or calls raise, also after they have written their blocks: at any moment the log of events can be read, reading it raises nothing and gives, in order, one right message for each sequence number that was used, and a pass of the firehose collector emits all of them. Each commit in it is an attempt of one of the calls, applied to an earlier state of its repo; every number belongs to one call, and the number of each call that has returned is there. A consumer's mirror of a repo is right whatever happens to calls for other repos.",
  "every number of concurrent calls, repos, retries and failures, every interleaving, every moment",
  "the interleavings and the places where calls can fail are unboundedly many; concurrent attempts overwrite each other's blocks, and leave blocks that no head refers to",
  ["arroba/datastore_storage.py: DatastoreStorage.commit, DatastoreStorage.write_blocks, DatastoreStorage.read_blocks_by_seq", "arroba/storage.py: Storage._commit, Storage.write_event, Storage.read_events_by_seq", "arroba/firehose.py: Collector._collect, process_event"])

p("The Datastore gives back what was stored, and messages have the right time",
  "A block that is written to the Datastore is read back with the same CID, bytes and sequence number and the same operations in the same order; a block that is there already stays as it is; different CIDs never share an entity. No block of a commit is refused by the checks that the Datastore client makes. The time in a commit's firehose message is in UTC and is the moment at which the commit was made. A repo is loaded with the DID, handle, head, status and keys that were stored.",
  "all blocks, CIDs, operations, times and time zones; all commits in all reachable states",
  "every combination of fields has to survive the conversion; a test sees a few blocks, and runs in one time zone",
  ["arroba/datastore_storage.py: AtpBlock.create, AtpBlock.to_block, AtpBlock.from_block, DatastoreStorage.read, DatastoreStorage.write_blocks, DatastoreStorage.create_repo, DatastoreStorage.load_repo, DatastoreStorage.store_repo", "arroba/storage.py: Block", "arroba/firehose.py: process_event"])

p("New events are on the firehose within a bounded time",
  "An event that has been stored is emitted in bounded time, however often wake-ups are missed: if no sequence number before it is missing, within two passes of the collector, one pause, one timeout and the time a thread needs to go on; if numbers are missing, within a fixed time per number. If the collector is waiting when it is told of the event, it emits it in the next pass.",
  "all executions without exceptions in the collector's thread: all orders and times of storing, waking up, reading, subscribing and waiting, all settings of the delays, all missing and lost numbers",
  "whether a wake-up arrives depends on the moment; tests wait until the collector is ready, and missing one costs two minutes",
  ["arroba/firehose.py: send_events, Collector._collect, Collector.run, SUBSCRIBE_REPOS_BATCH_DELAY, SUBSCRIBE_REPOS_SKIPPED_SEQ_DELAY", "arroba/storage.py: Storage.commit, Storage.write_event", "arroba/datastore_storage.py: DatastoreStorage.load_repo", "app.py: repo_callback"])

p("Starting the firehose from several threads",
  "Any number of threads may start the firehose and subscribe to it at the same time. At most one collector is alive at any time; a subscriber goes on only when the rollback window has been loaded; nobody waits in vain. If loading fails, starting again helps.",
  "all interleavings of any number of calls of start, subscribe and reset, with the collector failing at any point",
  "which thread makes the collector, and which wait for it, depends on the moment; tests start the firehose from one thread and reset it afterwards",
  ["arroba/firehose.py: start, reset, subscribe, Collector.run, lock, started, collector, rollback"])

p("Download a repo, then follow the firehose",
  "A consumer downloads a repo with getRepo, then applies the messages of the firehose to its copy: it skips those whose rev is not newer than its own, and checks that the others follow it by prevData. Every message follows, and the copy has exactly the rev, root and records of the repo. If messages are missing, repeated or out of order, the consumer notices or its copy is still that of a commit of the repo.",
  "all histories of the server, all requests during the download, all times of the download and of the messages, both backends",
  "tests look at single messages; whether a download and a stream fit together depends on what happens between and during them",
  ["arroba/xrpc_sync.py: get_repo, subscribe_repos", "arroba/firehose.py: subscribe, process_event, _collect", "arroba/storage.py: CommitData, Storage.read_events_by_seq", "arroba/storage.py: Storage.commit"])

p("Versions of a tree do not disturb each other",
  "add, update and delete return a new MST and leave the old one as it was: a program may keep any number of versions, make new ones from any of them, and read, store and load any of them, in any order. Every version always has exactly the contents that the calls which made it say, its calls succeed or raise accordingly, and its root CID never changes, though versions share nodes and even reading writes the caches of the nodes in place.",
  "all programs with any number of versions, all interleavings of calls on them, all block stores that grow meanwhile, all keys and values",
  "whether a cache written through one version is visible, and right, in another depends on which nodes they share and which caches were filled before; the cases are unbounded",
  ["arroba/mst.py: MST.new_tree, MST.add, MST.update, MST.delete, MST.get, MST.get_entries, MST.get_pointer, MST.get_layer, MST.get_unstored_blocks, MST.load"])

p("Blocks from strangers",
  "A consumer that knows a commit's CID can read the repo from blocks that anyone has sent, as long as each block has the CID it is under (as carbox checks): get_record, get_contents and the tree's get, list and changes give what the commit really has, including that a record is absent, or AttributeError since blocks are missing; never anything else. And it can check a list of operations: if each agrees with the tree it leads to and can be undone with the blocks, and undoing all gives the previous root, they are exactly how the records changed. True operations pass that check with the blocks that a commit event has, unless the repo is emptied on the way.",
  "all trees made with the API, all commits of all reachable servers, all sets of blocks with true CIDs, complete or not, all keys, all lists of operations",
  "the sender may be malicious, so the blocks range over everything that can be sent; tests only send what an honest server makes",
  ["arroba/repo.py: Repo.load, Repo.get_record, Repo.get_contents", "arroba/mst.py: MST.load, MST.get, MST.list, MST.add, MST.update, MST.delete, MST.get_pointer, MST.add_covering_proofs"])

p("Relays need not be trusted",
  "A consumer that has a copy of a repo can follow its commit messages without trusting whoever passes them on. It checks the signature, that the rev is larger, that each operation agrees with the tree in the message's blocks, and that undoing the operations gives the root it has. Whatever messages it gets - changed, made up, repeated, out of order, or left out - it then always has exactly the records of a commit that the server has stored for that repo, and never goes back to a smaller rev; if it has the server's rev, it has the repo. The messages that the server makes pass the check if they follow the copy, unless the repo is emptied on the way.",
  "all reachable server states, all sequences of messages whose blocks have true CIDs and in which nobody but the server has signed commits, all copies of stored commits",
  "the relay may be malicious, so the messages range over everything that can be sent; tests only send what an honest server makes",
  ["arroba/firehose.py: process_event", "arroba/mst.py: MST.add_covering_proofs, MST.get, MST.add, MST.update, MST.delete, MST.get_pointer", "arroba/storage.py: Storage.commit"])

p("Lookups, listings and writes need only a small part of the repo",
  "Looking up a record reads at most one node of the tree per layer. Listing records from a key on, between two keys or with a prefix, or a page of listRecords, reads at most one node per layer to get to the start, and one per layer for each record that is returned (and up to two that end the listing). Each add, update or delete that succeeds needs at most three nodes per layer, and the root. So a page or a write costs the same in a repo of ten million records as in a small one with as many layers. Nothing else is needed: whatever other blocks are missing from storage, or different, the results are the same.",
  "all trees that can be made with the API, all stores and partial stores, all bounds, prefixes, limits and cursors, all sequences of writes",
  "the bound is over trees of all sizes and shapes, and that no other block matters is a statement about all stores that agree on the blocks which are read",
  ["arroba/mst.py: MST.walk_leaves_from, MST.list, MST.list_with_prefix, MST.get, MST.get_entries, MST.add, MST.update, MST.delete", "arroba/xrpc_repo.py: list_records"])

p("Iterating over a tree while it is changed gives the tree as it was",
  "A program may go through the records of a tree (walk_leaves_from, or walk) and, between two of them, add, update and delete records of that tree, for instance each record that it meets, take root CIDs, store and load versions, and go through this or other versions with other iterators. Each iterator yields exactly the records that its version has from the start key on, in order, each once; it never raises, it ends after a fixed number of steps even if the program adds a record for each one it meets, and it doesn't change what any version contains. leaves, list and list_with_prefix of any version, at any time, return exactly its records in the range.",
  "all programs that create, change, read, store and load versions and step any number of iterators, in any order; all start keys",
  "the interleavings of iterators with calls that share and cache nodes are unbounded, and a mistake shows only when a node that an iterator is in is rewritten in place",
  ["arroba/mst.py: MST.walk_leaves_from, MST.walk, MST.leaves, MST.list, MST.list_with_prefix, MST.get_entries, MST.add, MST.update, MST.delete, MST.get_pointer"])

out = os.path.join(os.path.dirname(os.path.abspath(__file__)), '..', 'properties.jsonl')
with open(out, 'w') as f:
    for x in P: f.write(json.dumps(x, ensure_ascii=False) + '\n')
print(len(P))
