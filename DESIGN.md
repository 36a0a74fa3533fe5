# Formal model of snarfed/arroba in Lean 4

Contents: approach, trusted base, what is modelled and what is not, the plan per property, findings,
theorems and their axioms. `properties.jsonl` has the properties in English, `MANIFEST.json` the theorems
that belong to each, `seeded/LOG.jsonl` the wrong programs the theorems were tested against.

## Approach

The models are executable functions that mirror the Python functions branch by branch, with exceptions
as values (`Except Err α`). Each definition cites the file and lines of `/repo` it models; the comment at
the top of each file lists its simplifications. Where several threads or processes are involved, the
model is a transition system with one atomic step per lock section, memcache command or Datastore
transaction, and the theorems are about every interleaving.

* `lean/Verif/Mst`, `Storage`, `Xrpc`, `Firehose`, `Memcache`, `Did`, `Blob`, `Util`: models (`Model`,
  `Cover`, `Diff`, `Events`, `Import`, …), specifications (`*Spec`, `Exec`), helper lemmas (`*Proofs` and
  the rest).
* `lean/Verif/Props/Cnn.lean`: the theorems for property Cnn, with examples that meet their hypotheses.
* Specifications do not use the model's helpers. They are written on plain maps, sorted lists, pure trees
  and sets of stored blocks. Where a property is about one API method in terms of another ("what
  `get_record` returns after `commit`"), the statement uses the modelled API methods.

A theorem name ending in `_partial` proves less than the English property; its docstring says what is
missing. A name ending in `_false` is a counterexample in the model: the property, or the part of it left
out of the `_partial` theorem, does not hold of the code.

## Trusted base

* Lean 4.33.0's kernel. No axioms were added; there is no `sorry`, `native_decide` or `bv_decide`. The
  axioms each theorem depends on are listed at the end; they are at most `propext`, `Classical.choice` and
  `Quot.sound`.
* The reading of the Python code: each definition against the lines it cites. Nothing was executed.
* The specifications, and the statements of the theorems.
* The following idealisations, which are parameters or hypotheses of the theorems:
  * *Hashing* (`dag_cbor`, SHA-256, CIDs). In the MST development a hash is an arbitrary function `H` on
    node blocks; theorems that need it assume no collisions, either globally (`Env.inj`) or as the
    alternative "or here is a collision" (C05). The storage model (`Lib.OK`) assumes one injective hash
    on all decoded blocks, so a record can't have the CID of a node or commit. C61 shows that this is no
    more than that SHA-256 does not collide: the encoding itself loses nothing. SHA-256 is
    written out in `Sha256.lean` only to evaluate layers of concrete keys (C09 and the examples).
  * *Key layers*: an arbitrary function in all theorems about trees.
  * *Python's recursion limit*: functions get fuel, and theorems assume enough of it for the tree at hand
    (`Lib.OK`: a bound on the layers of keys). Keys hash to at most 128 layers.
  * *ECDSA*: textbook ECDSA over an abstract group of prime order (C21); elsewhere, `sign` is a function
    that may raise. DER is the pair `(r, s)`.
  * *Datastore / ndb*: a transaction is atomic and isolated; it may be retried, and it may fail before or
    after its callbacks have run; then it isn't applied (Google may in fact report a failure of a transaction
    that it applies). `get_or_insert` is atomic. Queries ordered by `seq` return ties in any
    order; a query may lose its context at any point (C34). The ndb context cache is not modelled.
    Transient errors inside a transaction are retried. `write_blocks` writes all its blocks or none (one
    transaction).
  * *Killed processes* (storage): a call can stop between any two of its writes to the Datastore. Histories
    have such calls as steps of their own (`Step.allocate`, `setStatus`, `importBlocks`, and `Luck` for
    commits; `Allow.partway`). The objects of a killed process stay in the modelled heap but need not be
    used again, so a restart needs no step.
  * *memcache*: single commands are atomic; the server can lose any key at any time (C35, C47); it
    expires keys by its own clock, in whole seconds.
  * *CPython*: `deque.append`, dict and list operations and attribute reads are atomic; a garbage
    collection may run at any allocation, on any thread (C37).
  * *Clocks*: arbitrary integers that may go backwards, unless a theorem says otherwise.
  * *Libraries*: `urllib.parse.urlparse` from CPython's source (C22, C50), `base58`, point compression
    (decode inverts encode: C48), `dag_cbor` and `carbox` (they implement the strict DAG-CBOR and CARv1
    formats: C61; `carbox` checks block CIDs: C46), lexicon validation (an arbitrary
    predicate), MediaInfo and HTTP responses (arbitrary), JSON and DAG-JSON round trips (identity).
* Python integers are `Int` or `Nat`; strings are lists of code points, ordered as Python orders them;
  dicts are association lists in insertion order; object identity is an index into a heap where it
  matters (live `Repo` objects).

## What is modelled and what is not

| file | modelled | not modelled |
|------|----------|--------------|
| `mst.py` | all of `MST`: creation, lazy loading, caches, get/add/update/delete, splitting, merging, trimming, serialisation, `get_unstored_blocks`, walks, listings, `load_all`, `cids_for_path`, `add_covering_proofs`, `Walker`, key validation, `leading_zeros_on_hash` | `__repr__`/`__str__`, `all_nodes`-style debugging helpers that nothing uses |
| `diff.py` | all: `mst_diff`, `null_diff`, `Diff` and its `add_diff` | `__str__` |
| `repo.py` | `create`, `load`, `apply_writes`, `get_record`, `get_contents`, properties | logging |
| `storage.py` | `Block`, `CommitData`, `Storage.commit` with callbacks and size limits, `read_events_by_seq`, `write_event`, activate/deactivate/tombstone, `MemoryStorage`, `MemorySequences`; `commit` as interleaved steps (C58) | key generation (opaque), `Block.__hash__` etc. |
| `datastore_storage.py` | `DatastoreStorage` (create/load/store repo, read/write blocks, `read_blocks_by_seq` with lost contexts, `_commit` in a retried transaction), `DatastoreSequences`, `MemcacheSequences`, `AtpRemoteBlob`, the entities `AtpBlock` and `AtpRepo` and their checks | limits for whole entities and transactions, WSGI helpers, PEM and key encryption |
| `firehose.py` | `start`, `reset`, `send_events`, waiting and timeouts, `subscribe`, `_collect`, `process_event` (headers and payloads), rollback window, lost sequence numbers | log messages, the encoding of frames |
| `memcache.py` | `Lease` | client construction |
| `util.py` | TIDs, `at_uri`, `parse_at_uri`, `sign`, `apply_low_s_mitigation`, `verify_sig`, `service_jwt`, `dag_cbor_cid` (as an abstract hash; in C61 down to the bytes) | `new_key`, datetime formatting |
| `did.py` | `create_plc`, `update_plc`, `rollback_plc`, `write_plc`, `plc_operation_to_did_doc`, `encode_did_key`, `decode_did_key`, `get_handle`, `get_signing_key`, `resolve`, `resolve_plc`, `resolve_web`, `resolve_handle`, the caches | DNS and HTTP themselves |
| `server.py`, `xrpc_repo.py`, `xrpc_sync.py` | `auth`, `load_repo`, getRecord, listRecords, createRecord, putRecord, deleteRecord, describeRepo, importRepo, applyWrites, uploadBlob, getBlocks, getHead, getLatestCommit, getRepo, getRepoStatus, listRepos, sync.getRecord, getBlob, listBlobs, subscribeRepos' cursor handling | getCheckout (calls getRepo), the lexicon checks lexrpc makes around a handler |
| `xrpc_server.py` | createSession, getSession, refreshSession | describeServer, getAccountInviteCodes, listAppPasswords (constants) |
| `vis.py` | nothing | a drawing tool |

## Plan per property

| id | modelled as | proof method |
|----|-------------|--------------|
| C01 C02 C04 | lazy MST nodes (`entries`, `pointer`, `layer`, `outdated` caches), operations with Python slices and indices | simulation: every operation on any node that represents a valid tree gives a node that represents the tree with the expected leaves; induction over histories that include cache writes, saves and reloads |
| C03 | same | uniqueness of the valid tree with given contents; counterexample for emptied trees |
| C05 C07 | `serialize_node_data` | injectivity, by induction on the tree |
| C06 | the representation relation covers every mixture of loaded and unloaded nodes | corollary of the simulation and closure of `get_unstored_blocks` |
| C08 C13 C15 | `walk_leaves_from` as a generator with early stops (Mst/Lazy.lean), other generators as lists, `Walker`, paths | induction on the tree |
| C09 C10 C18 C19 C22 | pure functions | algebra, induction on digits and strings |
| C11 C12 C14 | the loop of two walkers | loop invariant with a termination measure |
| C16 | `add_covering_proofs` | the blocks extend a tree whose other parts are unknown; undoing stays inside the known part |
| C17 C45 C53 | block-level walks over storage | the blocks reached are those of the tree; corollary of C26 |
| C20 | a global with one read and one write per call | invariant; interleaved counterexample |
| C21 | textbook ECDSA | field algebra in `ZMod q` |
| C23-C27 C29-C33 | one world with blocks, live objects, tables, callbacks; every method a function on it | one inductive invariant over all histories, failures and cache writes; a second, stronger one for Datastore |
| C28 | allocate as read and write steps | invariant over interleavings; counterexample for threads |
| C34 | restartable scan with an adversarial schedule | induction on the schedule |
| C35 | processes × threads × memcache × Datastore | inductive invariant over all interleavings |
| C36-C40 | collector, subscribers, storage, clock, garbage collector | inductive invariants over all interleavings |
| C41-C44 C46 C52 | XRPC handlers on top of the storage model | composition of the storage theorems; induction over requests and pages |
| C47 | any number of leases with their own clocks, memcached's clock | inductive invariant |
| C48-C50 | pure models of `did.py` | computation on association lists |
| C51 | `maybe_fetch`, `validate`, `get_or_create` | case analysis; induction over calls |
| C54 | session handlers | composition with C44 and C52; counterexample |
| C55 C56 | the table of `AtpRemoteBlob` entities, entities in the memory of concurrent calls | inductive invariant over interleavings; induction over pages and rows |
| C57 | `process_event` on what the event log yields | composition of C30, C27 and C16: the blocks sent extend the new tree |
| C58 | the steps of `commit` between which other calls can intervene; `AtpRepo` transactions, `write_blocks`, `_set_repo_status`; `MemoryStorage` in threads | invariant over all schedules: every call holds a snapshot that some commit justified, and only a call whose snapshot is current can commit; alone, the steps make up the sequential `commit` |
| C59 | `resolve_handle`, `HANDLE_RE` as a regular expression, dnspython's text form of TXT records, `str.strip`, the TTL cache | derivatives decide the language of the expression, which is the grammar of handles; escaping and stripping analysed on lists; invariant of the cache |
| C60 | a consumer that applies the messages of C57 one after the other | every API call stores no commit or one that becomes the head of its repo, so the log in order is the history of the heads; C57 for each message |
| C61 | DAG-CBOR (`dag_cbor.encode`, `decode`), CIDs, CARv1, and the dicts of nodes, commits and events (`Cbor/`) | a decoder, and that it inverts the encoder from both sides; sorting by key is canonical; the dicts of different kinds of blocks have different keys or `$type`s |
| C62 | as C27 ff.; `import_repo` as in C46 | invariant over histories: the chain of commits of each stored head is signed with the stored key; each API call keeps the keys of live objects and stored repos; counterexample for imports |
| C63 | `get_repo` and `load_all` as in C17, each read in its own world (Xrpc/Overlap.lean) | stored blocks never change (every API call and `import_repo` only add blocks), and all that the export reads is reachable from the head and stored when it starts; induction over the layers |
| C64 | imports as a step of the histories (`Step.import`) | every invariant for this step too, with sequence number 0 marking what was imported; the tree below a head is determined by its CID, so exports are the same |
| C65 | `get_latest_commit`, `get_blocks`; the others as in C17 and C43 | `load_repo` finds the stored head by any name of the repo; blocks are addressed by content; counterexample for blocks of other repos |
| C66 | the storage and the firehose together (`Joint`): requests, the collector and subscribers in any interleaving | the log is written in order, so the collector leaves no gap (`Gapless`) and a subscriber keeps what is older than the window (`Old`); messages stay right as the storage grows, and lead from heads to heads (C60) |
| C67 | the interleaved commits of C58, and the log that subscribers read afterwards | every block in the log comes from one call or event (`LInv`), so messages are those of C57; per repo the commits form a chain of heads, and chains of different repos can be interleaved |
| C68 | all record methods, `describeRepo`, `getRepoStatus`, `Repo.create` and the status methods as one function `serve` on the storage; the reference server `Serves` has a table of accounts instead | refinement: the storage holds the accounts of the table (`Keeping`), which every request preserves with the same answer; the reference server's answers are unique |
| C69 | `serve` of C68 with all failures, and what a request leaves behind when it stops between two writes (`Leaves`), Datastore | refinement of the reference server that may skip unanswered requests (`Manages`); doing a request twice changes the accounts as doing it once |
| C70 | the requests of C68 as interleaved steps: createRecord loads the repo twice, requests that write read the repo and then commit with the steps of C58, changes of a status are two steps, and `Repo.create` is eight (`TState.act`) | linearizability by an invariant with the order as ghost state (`TInv`): a write is put into the order when its transaction succeeds, before later changes of the status and reads that saw them (`Path.insert`); every stage of a request has a bound on the steps that are left |
| C71 | the module level of app.py: `load_repo`, and `Repo.create` if there is none (`start`), killed or failing anywhere, between the requests of C69 | refinement to a table of accounts with starts (`Lives`), with C69 for the first start; later ones only load |
| C72 | the interleavings of C36-C39, with good and bad passes (`Round`, `Rounds`); one pass of `_collect` over the log, with the exceptions it raises (`collectPass`) | enabledness from the invariant that scans read what is stored; measures that each step of the collector, and of a subscriber, lowers; induction over passes: a good one gets ahead, none passes over a stored event; C57 for the messages; for the counterexample, an invariant of the scan |
| C73 | `get_unstored_blocks`, `_commit`, `process_event`, `add_covering_proofs` and `get_record` as before; nothing new is modelled | a node is determined by its layer and the stretch of records under it (uniqueness of trees), and a stretch that touches no changed path is there in both trees, so each layer has at most two other nodes for each changed path; induction over histories for the blocks of a sequence number; for proofs, the number of blocks that each loop of `add_covering_proofs` loads |
| C74 | `Consumed` (Firehose/Sessions.lean): a consumer over any number of connections, each to a `Joint` execution (C66) and ended anywhere; `preload` and `replayWindow` (Firehose/Preload.lean): `Collector.run` up to `started.set()`, and the loop over the handoff | the invariant of each location of a subscriber gives that what it has yielded is closed downwards in the log; induction over the connections, since what is logged later has a larger number; the mirror as for C66; the preload from C30 and C57, with the pre-fetched previous commits |
| C75 | the histories `Reach` with failures part of the way and retries (`Allow.partway`); nothing new is modelled | `Grouped` (Storage/GroupProofs.lean): the blocks with a number are of one repo, and have a commit or event among them, or none of them is in the log; it is kept by every step; reading the log follows the groups. For mirrors, the commits of one repo since some time lead from its head then to its head now (`follow_reach`), by induction over the steps; all commits that the attempts of one transaction store have the same predecessor and the same records (Storage/RetryProofs.lean), so it does not matter which of them is in the log |
| C76 | the concurrent calls of C58 and C67, without the restriction `Tidy`; nothing new is modelled | invariant `UInv` (Storage/UntidyProofs.lean) with the list of all attempts that ever wrote their blocks: each stored block was there at the start, belongs to one of these attempts, or is an event with a number of its own; each number belongs to one call. The commit of each attempt is stored, maybe with what another attempt of the same call wrote beside it. Reading the log then follows the groups, as for C75; for mirrors, `RepoChain` of C67 for one repo; for retried calls (C76Retried.lean), the operations of creates and deletes do not depend on the records that the attempt found |
| C77 | `AtpBlock`, `CommitOp` and `AtpRepo` entities, `to_block`, `from_block`, `create`, `read`, `write_blocks`, `create_repo`, `load_repo`, `store_repo` with the checks of ndb; base32; `datetime` as wall clock and offset (Datastore/Entity.lean) | base32 decoding inverts encoding for all byte strings, by induction over bits; the conversions field by field; paths of operations are valid keys by C27 |
| C78 | the firehose model with a clock: `new_events.wait` with its timeout, `time.sleep`, `send_events`; limits for the delay of a thread and the duration of a pass are parameters (Firehose/Wake.lean) | the latest time at which the next pass is over never grows (invariant), with C39 for what a pass emits; induction on the distance to the event if numbers are missing; for the handlers, that they load repos without a callback |
| C79 | threads in `start`, `subscribe`, `reset` and `Collector.run` up to `started.set()`, as interleaved steps; the lock, the event `started`, whether `rollback` is loaded (Firehose/Start.lean) | invariants over all interleavings; for "nobody waits in vain", a path from every reachable state; for what is false, an invariant of all continuations |
| C80 | `getRepo` with other requests between its reads, then the messages of the firehose; the consumer sees the CAR file and the messages only (Firehose/Backfill.lean) | induction over the messages: the copy is that of the newest commit so far; old messages are skipped since revs are ordered like sequence numbers (C25), new ones follow since commits are linked (C66) |
| C81 | mst.py once more, with a heap: nodes are objects with identity, shared between versions, and `get_entries`, `get_pointer`, `get_layer` write their caches in place (Mst/Heap.lean); programs that keep any versions (Mst/HeapExec.lean) | each object is given the tree it stands for; no write changes it (HeapProofs). The methods on objects are simulated step by step by those on values (HeapSim, HeapSim2), for which C01 holds |
| C82 | the tree and repo readers over any partial block map whose blocks have true CIDs (Mst/Untrusted.lean); a consumer's check of operations is specification (`checkOps`) | with fewer blocks, every method gives the same or AttributeError (Mst/SoundProofs.lean, one lemma per method); any such block map can be completed to one that has the tree, since the hash is injective |
| C83 | `process_event` (C57) on the server; the consumer that checks messages is specification (`Copy.verify`, Firehose/Relay.lean), and so is what a malicious relay can do (`Unforged`) | a checked list of operations leads from the records of the old root to those of the new one (C82), the root determines the records; induction on the messages. Acceptance: the covering proofs are enough for the check (`checkOps_covering`) |
| C84 | `walk_leaves_from` as a generator, with the blocks it reads, and its consumers, which stop early (Mst/Lazy.lean) | a walk's trace is bounded in every prefix (`Bounded`), since in a well-formed tree a leaf comes before each subtree but the first; induction on layers. That no other block matters: two stores give the same trace up to the first read where they differ (`Follows`). Writes: the covering blocks (C16) of the written keys are enough, and there are few of them (C73) |
| C85 | the generators `walk_leaves_from` and `walk` as a list of what remains of its loops, next to the versions of C81 (Mst/HeapWalk.lean) | each entry of that list is a leaf or an object that stands for a fixed tree (`Pending`); objects keep what they stand for in every step (`Ext` of C81), so what remains to be yielded is fixed, too; the number of remaining steps goes down |

Every property could be expressed. What could not be proved is false of the code, or holds with
restrictions that the `_partial` theorems state; the reasons are in the notes below.

## Findings

Where a property is false of the code, the counterexample is a theorem. Line numbers are those of `/repo`.

**Trees**

* C03, C04, C06, C16: deleting the last key of a tree above layer 0 leaves an empty root that keeps its
  cached `layer`, so keys added to it later sit under redundant roots and the root CID depends on the
  history (`C03_history_dependent`, with real SHA-256 layers `C03_history_dependent_sha256`;
  `C04_redundant_root`; `C16_invert_empty_false`).
* C14: `Diff.add_diff` gets an update of an added or updated key wrong, and a delete of an updated one
  (`C14_compose_false`), and forgets the blocks that the second diff removes (`C14_removed_false`). The result
  still leads from the first tree to the last.

**TIDs, signatures, URIs**

* C18: `tid_to_int` raises TypeError on the `bytes` its docstring asks for (`C18_bytes_raise`); negative
  integers encode like zero (`C18_negative`).
* C20: `next_tid` takes no lock; two threads can get the same TID (`C20_concurrent_false`).
* C21: `verify_sig` accepts high-S signatures (`C21_high_s_accepted`).
* C22: `parse_at_uri` cuts an rkey at `?` (`C22_query_cut`).

**Commits and storage**

* C23, C24, C26: on MemoryStorage a commit whose n-th write fails keeps the blocks and the tree of the
  first n-1, with the old head (`C23_memory_false`, `C24_memory_false`, `C26_memory_false`). On Datastore
  failing leaves blocks behind (`C24_datastore_false`). A callback that raises makes a stored commit look
  failed (`C24_callback_false`).
* C25: `Repo.create` for an existing DID starts a second chain (`C25_recreate`).
* C28: `MemorySequences.allocate` isn't thread safe (`C28_memory_threads_false`).
* C29: four ways to lose a sequence number without a report: no callback, a raising callback, a retried
  transaction, a failing `store_repo` (`C29_silent_false`, `C29_raising_false`, `C29_retry_false`,
  `C29_store_false`).
* C30: a retried Datastore transaction leaves an orphaned commit that the event log delivers
  (`C30_retry_false`); records that look like events or commits are delivered as such
  (`C30_lookalike_false`); blocks written with `Storage.write` are delivered as part of whatever commit has
  their number (`C30_write_false`).
* C31: a `Repo` object loaded before `deactivate_repo` still commits (`C31_stale_false`); deactivating a
  `Repo.load` copy has no effect on the repo MemoryStorage holds (`C31_copy_false`).
* C32: `activate_repo` activates tombstoned repos (`C32_false`).
* C35: three ways to get a number twice: memcache wiped twice in a row, a stale `add` by another process,
  a failed batch transaction (`C35_*_false`).
* C58: `seq` is allocated before the transaction begins, so with concurrent commits a commit can have a
  smaller `seq` and `rev` than its `prev` (`C58_order_false`). `write_blocks` looks for existing blocks and
  then puts the others; when two calls write the same block at once, the later one replaces the `seq` and
  repo of the block that the other has stored and announced (`C58_immutable_false`). Threads that share a
  `MemoryStorage` lose updates (`C58_memory_false`).
* C17: `getRepo` with `since` omits blocks that left the repo and came back after it (`C17_diff_false`); on
  MemoryStorage the export raises after a torn commit (`C17_memory_false`).

**Firehose**

* C36: two subscribers that catch up at once can both merge old events into the window; later subscribers
  get them twice (`C36_merge_false`).
* C37: the garbage collector can close a forgotten subscriber on the collector's thread, inside its loop
  over the subscribers, which then skips one (`C37_gc_false`).
* C38: events evicted from the window while a subscriber catches up are missing (`C38_evict_false`); an
  empty window raises IndexError (`C38_empty_false`); a slow subscriber fails an assertion
  (`C38_slow_false`); events below the cursor can be delivered (`C38_below_cursor`).
* C39: the delay before skipping counts from the last emission, so after a quiet period the collector
  doesn't wait at all (`C39_quiet_false`); a crash between taking and emitting loses the event
  (`C39_crash_false`).
* C57: a commit that deletes the last record above layer 0 and creates others is announced with a root that
  is not canonical (`C57_root_false`); undoing operations that empty the repo on the way, with this code
  base's `MST`, need not give `prevData` (`C57_undo_false`). Both are consequences of C03. `since` is always
  null and `blobs` always empty.

**XRPC**

* C41: a stored empty record `{}` is reported as RecordNotFound (`C41_empty_false`); createRecord with an
  existing rkey overwrites (`C41_create_overwrites`).
* C42: the cursor is inclusive, so with limit 1 a client never gets past the first record
  (`C42_one_false`); limit 0 raises IndexError (`C42_zero`, `C43_zero`).
* C44: without flask the token isn't compared with anything (`C44_no_flask`).
* C45: sync.getRecord covers the collection name, not the path of the record, so the proof can lack the
  record's node (`C45_false`).
* C46: an incomplete CAR is accepted and makes an unreadable repo (`C46_incomplete_false`); after an import
  the event log can't be read from 0 (`C46_events_false`); revs can go back (`C46_rev_false`).
* C64: `listRepos` gives imported repos the rev of sequence number 0 until their first commit (`C64_list_false`);
  imported records are never on the firehose, not even when the repo is activated (`C64_mirror_false`).
* C65: `getBlocks` serves blocks of any repo, including deactivated ones, to who asks in the name of an active one
  (`C65_other_false`).
* C66: if none of the last PRELOAD_WINDOW sequence numbers is in the log, the collector starts with an empty window, and a
  subscriber with a cursor can miss older events: if the first event is emitted between its looking at the window and its
  copying it (`C66_window_false`).
* C66: a commit's sequence number is allocated before the transaction that makes it the head, so two calls that commit to one
  repo at the same time can get numbers in one order and take effect in the other. Both succeed, and all messages are
  emitted, but a consumer that applies them in order ends up with the loser's records (`C66_concurrent_false`).
* C67: blocks are written outside the transaction that makes a commit the head, so if that is aborted because of contention,
  the attempt's commit stays in the log, with its sequence number. If the call then fails, subscribers get a commit that
  never took effect (`C67_retry_false`).
* C68: after the same requests, with the same keys, nonces and times, the two storages can have different heads for the same
  records: once a repo has been emptied, `MemoryStorage` goes on with another tree than the Datastore (`C68_head_false`;
  the cause is that of C03). Simplification: the Datastore stores no handle if it is empty; here it stores the empty one, so
  `Proper` excludes empty handles.
* C69: the status of a repo and its event are two writes. A process that is killed between them leaves an account that is
  reported as deactivated and about which the firehose says nothing (`C69_event_false`). createRecord isn't idempotent: a
  client whose response is lost and who repeats the request has the record twice (`C69_create_false`).
* C70: put_record and delete_record read the record, decide whether it is to be created or updated, and then commit in a
  transaction that loads the repo again. If another request has created the record in the meantime, the commit fails with
  `ValueError`, although the request would succeed before or after the other one (`C70_conflict_false`). The status is
  checked in the `Repo` object that was loaded first, so a record can be written after the repo has been deactivated, and
  its commit comes after the `#account` event (`C70_late_false`). Likewise a request that found the repo by its handle
  writes to it after the repo has got another handle (`C70_handle_false`).
* C71: app.py loads its repo, and calls `Repo.create` if there is none. `create_repo` puts the `AtpRepo` entity without
  looking whether there is one by now, so when two processes are started at the same time on an empty Datastore, the one
  that is slower makes the repo anew, without the records that were written meanwhile (`C71_race_false`).
* C72: nothing checks a record's `$type` against the collection, or at all. A record whose `$type` begins with
  `com.atproto.sync.subscribeRepos#` is yielded by `read_events_by_seq` as an event. If it has no `seq`, line 287 of
  firehose.py raises KeyError; the collector logs it, starts over, and raises again: the firehose is stuck for all repos
  and for ever (`C72_lookalike_false`, for every such log and all its futures). If it has one, the record is emitted under that
  number, and all events up to it are then skipped as non-monotonic (`C72_forged_false`). The client has to be authorized to
  write to some repo on the server; whether lexrpc's validation of the input, which is not modelled, lets the record pass is
  not known from this code.
* C74: the collector waits for numbers that are missing, but not when it starts: if the event for a number is stored a moment
  after the collector has preloaded a later one, for instance because another process was serving a request while this one
  started, it is never emitted to live subscribers, and subscribers with a cursor in the rollback window do not get it either
  (`C74_inflight_false`).
* C74: a record that looks like an event (C30) and is in the preloaded window ends every subscriber with a cursor with a
  KeyError (`C74_replay_false`); if it is the first in the window, the log line after the preload raises, the collector's
  thread ends before `started` is set, and `firehose.start` waits for ever (`C74_start_false`).
* C75: a commit whose `store_repo` raises is on the firehose all the same, since its blocks were written before. The caller gets
  an exception, the repo does not have the records, and mirrors of the repo do (`C75_own_false`). Other repos are not affected
  (`C75_others`, `C75_mirror_partial`), and the log stays readable (`C75_log`). When a transaction is retried and then committed,
  the firehose may announce the commit of an abandoned attempt, whose CID the repo never has as its head; it has the same
  records, so mirrors are right (`C75_mirror_partial`), but a consumer that compares commit CIDs sees a difference.
* C76: when two calls for one repo run at the same time and one of them has to be retried after it has written its blocks, the message
  with its number may be for the first attempt. An update that changes nothing is no operation, so if the first attempt had nothing to
  change and the second one had, the change is never announced: all calls return, everything is in order, and mirrors are wrong
  (`C76_stale_false`).
* C77: `process_event` replaces the time zone of `Block.time` by UTC instead of converting it. That is right for what the Datastore
  gives, which is UTC without a time zone, but wrong for a `Block` in MemoryStorage with a time in another time zone
  (`C77_memory_time_false`). `to_block` puts an ndb key into `Block.repo`, which `from_block` can't take, so blocks that were read can't be
  written to another storage (`C77_copy_false`).
* C78: `send_events` only wakes a collector that is waiting; if it is called while the collector reads or sleeps between two passes, nothing
  remembers it, and the event stays in the log for up to SUBSCRIBE_REPOS_SKIPPED_SEQ_DELAY, 120 s by default (`C78_lost_wakeup`, for all settings).
  With the Datastore, the callback that `app.py` sets on its `Repo` object is not on the objects that the XRPC handlers load, so no request
  calls it (`C78_no_wakeup`): nothing wakes the collector, and the sequence numbers of failed commits are not marked as lost, so that the next
  events wait for them as well.
* C79: if the collector's thread raises before `started.set()`, e.g. because the store cannot be read, the thread dies but `collector` stays
  set: the call of `start` that began it and all subscribers wait for ever, and further calls of `start` return at once without doing anything
  (`C79_failed_false`). `reset` clears `started`, `subscribers` and `new_events` before it asserts that no collector is alive, so that a call
  that raises AssertionError still cuts off everybody (`C79_reset_false`).
* C80: a consumer that downloads an imported repo skips all later messages, since the revs of this server are smaller than the imported one
  (`C80_import_false`). With commits to the same repo at the same time, a message does not follow the copy (`C80_concurrent_false`).
  After a commit that failed when its blocks were stored, the consumer takes its message for a new commit, and has a record that
  the server does not have (`C80_failed_false`).
* C82: `MST` does not check that a node it loads is well-formed (keys in order, layers right, prefixes in range). Blocks with
  true CIDs under a root that a malicious signer made can make `list` show a record that `get` does not find. And undoing a
  commit's operations does not check the CIDs of what they created; a consumer has to compare these with the tree.
* C83: a commit that leaves the repo empty on the way (deletes the last record, then creates others) may get a message that
  consumers which check it as sync v1.1 says refuse, although it is genuine (same cause as C03 and C57).
* C62: an imported repo gets a new signing key, but its head stays the commit that the old PDS signed, until
  the next commit (`C62_import_false`); the comment in `import_repo` says that a new commit is made.
* C52: with MemoryStorage a repo whose handle is another repo's DID can answer in its place
  (`C52_hijack_false`).

* C54: createSession ignores the password and gives `REPO_TOKEN`, which authorises all writes, to every
  client that names a repo (`C54_false`, `C54_attack_false`).
* C55: limit 0 raises IndexError (`C55_zero`). `maybe_fetch` puts the entity outside the transaction that
  added the repo to it, so two concurrent `get_or_create` calls for one URL can lose a repo
  (`C55_concurrent_false`).
* C56: getBlob redirects to a URL even if it has just seen that it serves another CID
  (`C56_changed_false`). URLs are told apart by their first 1500 characters only: `get_or_create` returns
  the CID of another URL's content (`C56_long_false`). A blob that has become too long hides others with the
  same CID (`C56_oversized_false`). The `did` parameter is ignored, so blobs of deactivated repos are served.

**Leases, DIDs, blobs**

* C47: leases overlap when clocks are coarse, when the answer is slow, when the expiration has a
  fraction, exceeds 30 days (memcached then takes it as a date), or when memcached evicts the key; a late release
  removes another holder's lease; an expiration below one second never expires (`C47_*_false`).
* C49: nullified audit log entries count as operations (`C49_rollback_nullified`); `update_plc` drops other
  services and verification methods (`C49_update_drops`).
* C50: the host of a did:web isn't validated (`C50_userinfo`).
* C59: a TXT record of several strings resolves to garbage (`C59_strings_false`); contradicting records
  resolve to whichever comes first (`C59_conflict_false`); what is returned is not checked to be a DID
  (`C59_garbage_false`); handles of more than 253 characters are accepted (`C59_length_false`). That a handle
  can't be resolved is cached for six hours, too.
* C60: if a callback raises while a repo is being created, its first commit stays in the log although the
  repo does not exist, so consumers have a repo that the server does not have (`C60_create_false`). That
  messages reach a subscriber without gaps is C36-C38; here they are taken from the log.
* C51: a first download that breaks off is never retried, and the blob has no CID (`C51_interrupted`); a
  stale duration survives a refetch (`C51_stale_duration`); `maxSize` 0 means no limit
  (`C51_max_size_zero`).

Seen while modelling, not stated as theorems: `getRepoStatus` always reports `deactivated`, also for
tombstoned repos; `uploadBlob` always raises ValueError; `rollback_plc` returns None; an event that
`process_event` can't process is retried forever; `AtpBlock.repo` is an ndb key where `Block.repo` is
documented as a string; `MAX_COMMIT_BLOCKS_BYTES` isn't enforced.

## Theorems and their axioms

<!-- generated by tools/mkdesign.py -->

`p` is `propext`, `c` is `Classical.choice`, `q` is `Quot.sound`. Names are relative to `Arroba`.

| property | status | theorems (axioms) | note |
|---|---|---|---|
| C01 | proved | `C01_get_last_write` (pcq), `C01_every_history_runs` (pcq) | Every history of adds, updates, deletes, saves and reloads; any layer function and any collision-free block hash. |
| C02 | proved | `C02_add` (pcq), `C02_update` (pcq), `C02_delete` (pcq) | Success condition, error kind and unchanged tree for each operation, on every reachable tree. |
| C03 | partial | `C03_history_independent_partial` (pcq), `C03_history_dependent` (pcq), `C03_history_dependent_sha256` (pcq) | False as stated: deleting the last key of a tree above layer 0 keeps the cached layer. Proved for histories that never empty such a tree; negation witnessed. |
| C04 | partial | `C04_structure` (pcq), `C04_root_not_redundant_partial` (pcq), `C04_redundant_root` (pcq) | All structural clauses proved on every reachable tree, except root minimality, which fails after emptying a tree (witness). |
| C05 | proved | `C05_root_commits` (pcq), `C05_histories` (pcq), `C05_eq` (pcq) | Equal root CIDs give equal contents or an explicit hash collision. |
| C06 | partial | `C06_persist_reload` (pcq), `C06_same_root_partial` (pcq) | Contents and all later reads survive persist and reload in every case. That later edits give the same root is proved for histories that never empty the tree (the C03 defect). |
| C07 | proved | `C07_round_trip` (pq), `C07_injective` (pq), `C07_adjacent_refused` (p), `C07_total` (pcq) |  |
| C08 | proved | `C08_leaves` (pcq), `C08_walk_leaves_from` (pcq), `C08_list` (pcq), `C08_list_with_prefix` (pcq) |  |
| C09 | proved | `C09_leading_zeros` (pcq), `C09_layer` (pcq) | SHA-256 is modelled concretely (FIPS 180-4). |
| C10 | proved | `C10_ensure_valid_key` (pcq), `C10_ascii` (pcq), `C10_add_update` (pcq) |  |
| C11 | proved | `C11_diff` (pcq), `C11_null_diff` (pcq) | Any two reachable trees over one store, any cache state; termination included. |
| C12 | proved | `C12_cids` (pcq), `C12_null_cids` (pcq) | Node CIDs are those reachable from the root block in any store that holds both trees. Assumes record CIDs are not node CIDs. |
| C13 | proved | `C13_walk` (pcq), `C13_step_over` (pcq) | Compared with the depth-first sequence defined on the stored blocks. |
| C14 | partial | `C14_compose_applies` (pq), `C14_compose_partial` (pq), `C14_compose_false` (pq), `C14_blocks` (pq), `C14_removed_false` (pq) | False as stated (add/update then update, update then delete); the composed diff still leads from a to c, and is the exact diff at every other key. It lists every new block (C14_blocks), but not the blocks that the second diff removes (C14_removed_false). |
| C15 | proved | `C15_chain` (pcq), `C15_sufficient` (pcq) | Sufficiency assumes a record CID is never a node CID. |
| C16 | partial | `C16_nodes` (pcq), `C16_lookup` (pcq), `C16_invert_records` (pcq), `C16_invert_root_partial` (pcq), `C16_invert_empty_false` (pcq) | The blocks suffice, for every valid tree and operations, to look up each key and to undo all operations, down to a tree with the previous records. The root CID is then the previous one if no operation but the last leaves the tree empty; otherwise that is false (C16_invert_empty_false), since an emptied tree remembers its layer (C03). |
| C17 | partial | `Xrpc.C17_export_partial` (pcq), `Xrpc.C17_since_partial` (pcq), `Xrpc.C17_export_datastore` (pcq), `Xrpc.C17_since_datastore` (pcq), `Xrpc.C17_gate` (pcq), `Xrpc.C17_diff_false` (pcq), `Xrpc.C17_memory_false` (pcq) | Exact contents of the CAR, for DatastoreStorage in every reachable state. False for MemoryStorage after a commit that failed in the middle (C17_memory_false), proved there for the rest. Finding: the export since a rev omits blocks that left the repo and came back after it (C17_diff_false). Exports since a rev are for histories without imports: imported blocks have the sequence number 0. |
| C18 | proved | `C18_round_trip` (pcq), `C18_rejects` (pcq), `C18_bad_length` (pcq), `C18_bad_chars` (pcq), `C18_inverse` (pcq), `C18_bytes_raise` (pcq), `C18_negative` (pcq) | Findings: tid_to_int raises TypeError on the bytes its docstring asks for; negative integers encode like zero. |
| C19 | proved | `C19_order` (pcq), `C19_order_any_clock` (pcq), `C19_revs` (pcq) |  |
| C20 | proved | `C20_monotone` (pcq), `C20_succeeds` (pcq), `C20_concurrent_false` (none) | Monotone for sequential calls; next_tid takes no lock, and C20_concurrent_false shows two threads can return one TID. |
| C21 | proved | `C21_sign` (pcq), `C21_rejects_length` (pcq), `C21_accepts_iff` (pcq), `C21_jwt` (pcq), `C21_high_s_accepted` (pcq) | ECDSA is textbook ECDSA over an abstract group of prime order. Finding: verify_sig accepts high-S signatures. |
| C22 | proved | `C22_round_trip` (pcq), `C22_round_trip_general` (pcq), `C22_rejects` (pcq), `C22_rejects_empty` (pcq), `C22_injective` (pcq), `C22_query_cut` (pcq) |  |
| C23 | partial | `Store.C23_effect_partial` (pcq), `Store.C23_effect_datastore` (pcq), `Store.C23_outcome_partial` (pcq), `Store.C23_refinement_partial` (pcq), `Store.C23_history_partial` (pcq), `Store.C23_history_datastore` (pcq), `Store.C23_memory_false` (pcq) | Proved for DatastoreStorage in every history. For MemoryStorage histories with an earlier failed multi-write commit are excluded: there it is false (C23_memory_false). |
| C24 | partial | `Store.C24_unchanged_partial` (pcq), `Store.C24_records_datastore_partial` (pcq), `Store.C24_memory_false` (pcq), `Store.C24_datastore_false` (pcq), `Store.C24_callback_false` (pcq) | Records, head and repo rows are unchanged by a failed commit, except in the three ways witnessed: torn MemoryStorage trees, leftover Datastore blocks, and a raising callback after the commit is stored. |
| C25 | proved | `Store.C25_commit` (pcq), `Store.C25_chain` (pcq), `Store.C25_chain_since` (pcq), `Store.C25_head` (pcq), `Store.C25_history` (pcq), `Store.C25_history_since` (pcq), `Store.C25_recreate` (pcq) | Every history of both backends. In histories with imports the chain leads back to the imported head (the theorems with _since); that head comes from elsewhere, and the commit before it need not be stored (C46). Finding: Repo.create on an existing DID starts a second chain (C25_recreate). |
| C26 | partial | `Store.C26_immutable` (pcq), `Store.C26_addressed` (pcq), `Store.C26_closed_partial` (pcq), `Store.C26_heads_partial` (pcq), `Store.C26_closed_datastore` (pcq), `Store.C26_memory_false` (pcq) | Immutability and content addressing hold in every history of both backends. Closure is proved for DatastoreStorage; on MemoryStorage it is false after a failed multi-write commit (C26_memory_false). The prev of an imported head is excepted. |
| C27 | partial | `Store.C27_returned_partial` (pcq), `Store.C27_stored_partial` (pcq), `Store.C27_datastore` (pcq) | Proved for DatastoreStorage in every history, and for MemoryStorage histories without an earlier failed multi-write commit. Imported commits have no ops. |
| C28 | partial | `Store.C28_sequential` (pcq), `Store.C28_rejects` (p), `Store.C28_datastore_concurrent` (pcq), `Store.C28_datastore_unique` (pcq), `Store.C28_memory_threads_false` (pcq) | Proved for sequential callers of both backends and for concurrent DatastoreSequences transactions. False for threads sharing MemorySequences, see C28_memory_threads_false. |
| C29 | partial | `Store.C29_reported_once` (pcq), `Store.C29_failure_reported` (pcq), `Store.C29_accounted_partial` (pcq), `Store.C29_silent_false` (pcq), `Store.C29_raising_false` (pcq), `Store.C29_retry_false` (pcq), `Store.C29_store_false` (pcq) | False without restrictions: the four counterexamples are repos without a callback, raising callbacks, retried Datastore transactions and store_repo failures. |
| C30 | partial | `Store.C30_log_partial` (pcq), `Store.C30_resume_partial` (pcq), `Store.C30_memory_blocks` (pcq), `Store.C30_retry_false` (pcq), `Store.C30_lookalike_false` (pcq), `Store.C30_write_false` (pcq) | Every history of both backends, except those in which the Datastore fails after blocks have been written, and records that look like events or commits; counterexamples show why. With imports, for reading from sequence number 1 on (C46_events_false). |
| C31 | partial | `Store.C31_partial` (pcq), `Store.C31_rejected` (pcq), `Store.C31_stays` (pcq), `Store.C31_handle` (pcq), `Store.C31_loadedStatus` (pcq), `Store.C31_answered` (pcq), `Store.C31_stale_false` (pcq), `Store.C31_copy_false` (pcq) | Every history of both backends, for the handle that deactivated the repo and handles loaded since. False for handles loaded before (C31_stale_false) and for a MemoryStorage repo deactivated through a Repo.load copy (C31_copy_false). |
| C32 | partial | `Store.C32_partial` (pcq), `Store.C32_false` (pcq) | False of the code: activate_repo activates tombstoned repos. Everything except activate_repo, deactivate_repo and Repo.create for the DID leaves a repo tombstoned. |
| C33 | proved | `Store.C33_stored` (pcq), `Store.C33_rejected` (pcq), `Store.C33_many` (pcq), `Store.C33_large` (pcq) | Every history of both backends. The exception is ValueError for an active stored repo; an inactive one raises InactiveRepo first. Imports are not commits, and the size of imported records is not checked. |
| C34 | proved | `Store.C34_scan` (pcq), `Store.C34_exact` (pcq) | Any number of context losses, any order within a sequence number, storage growing meanwhile. |
| C35 | partial | `Mc.C35_partial` (pcq), `Mc.C35_one_process_partial` (pcq), `Mc.C35_double_wipe_false` (pq), `Mc.C35_stale_init_false` (pq), `Mc.C35_failed_batch_false` (pq) | Any number of processes, threads and crashes, when the counter is lost at harmless moments. False otherwise: a second loss before the first call has completed, a stale initialization by another process, and a batch transaction that fails to commit. |
| C36 | partial | `Fire.C36_order_partial` (pcq), `Fire.C36_queue_partial` (pcq), `Fire.C36_emitted` (pcq), `Fire.C36_merge_false` (pq) | Every interleaving of the collector, any number of subscribers, storage and garbage collection. False when two subscribers read events before the rollback window at the same time and one merges them into the window. |
| C37 | partial | `Fire.C37_live_partial` (pcq), `Fire.C37_no_cursor_partial` (pcq), `Fire.C37_handing_partial` (pcq), `Fire.C37_only` (pcq), `Fire.C37_gc_false` (pq) | Every interleaving. False when the garbage collector closes a forgotten subscriber on the collector thread while it loops over the subscribers. |
| C38 | partial | `Fire.C38_no_gap_partial` (pcq), `Fire.C38_once_partial` (pcq), `Fire.C38_older_partial` (pcq), `Fire.C38_evict_false` (pq), `Fire.C38_empty_false` (pq), `Fire.C38_slow_false` (pq), `Fire.C38_below_cursor` (pq) | Every interleaving in which nothing is evicted from the window while the subscriber catches up. False otherwise, see the counterexamples. |
| C39 | partial | `Fire.C39_skips` (pq), `Fire.C39_emits` (pq), `Fire.C39_order` (pcq), `Fire.C39_accounted` (pcq), `Fire.C39_missing` (pq), `Fire.C39_complete` (pcq), `Fire.C39_gone` (pq), `Fire.C39_quiet_false` (pq), `Fire.C39_crash_false` (pq) | The rule as coded, in every execution. The delay counts from the last emission, so after a quiet period the collector does not wait at all (C39_quiet_false); a crash between taking and emitting an event loses it (C39_crash_false). |
| C40 | proved | `Fire.C40_future` (none), `Fire.C40_outdated` (pcq), `Fire.C40_valid` (pq), `Fire.C40_refuses` (none) | What follows the notice is C38. |
| C41 | partial | `Xrpc.C41_get` (pcq), `Xrpc.C41_put` (pcq), `Xrpc.C41_create` (pcq), `Xrpc.C41_delete` (pcq), `Xrpc.C41_race` (pcq), `Xrpc.C41_sequence_partial` (pcq), `Xrpc.C41_put_until_partial` (pcq), `Xrpc.C41_create_until_partial` (pcq), `Xrpc.C41_delete_until_partial` (pcq), `Xrpc.C41_empty_false` (pcq), `Xrpc.C41_create_overwrites` (pcq) | False for empty records, which getRecord reports as missing (C41_empty_false). The rest is proved for every sequence of requests in which storage and signing do not fail and no earlier failure tore a tree of MemoryStorage. createRecord with an existing key overwrites. |
| C42 | partial | `Xrpc.C42_page` (pcq), `Xrpc.C42_crawl_partial` (pcq), `Xrpc.C42_terminates_partial` (pcq), `Xrpc.C42_one_false` (pcq), `Xrpc.C42_zero` (pcq) | Proved for every repo, except repos of MemoryStorage that an earlier failed commit left with a torn tree, and whatever happens between the pages. With limit 1 the client never gets past the first record (C42_one_false), with limit 0 it gets IndexError (C42_zero). |
| C43 | proved | `Xrpc.C43_page` (pcq), `Xrpc.C43_crawl` (pcq), `Xrpc.C43_terminates` (pcq), `Xrpc.C43_zero` (pcq) | For every limit of at least 1 and whatever happens between the pages; limit 0 raises IndexError (C43_zero). The rev in the list is that of the head, except for imported repos (C64_list_false). |
| C44 | proved | `Xrpc.C44_refused` (pcq), `Xrpc.C44_unimplemented` (pcq), `Xrpc.C44_accepted` (pcq), `Xrpc.C44_no_flask` (pcq) | With flask, which serves the requests. Without it the token is not compared with anything (C44_no_flask). |
| C45 | partial | `Xrpc.C45_missing` (pcq), `Xrpc.C45_contents_partial` (pcq), `Xrpc.C45_proof_partial` (pcq), `Xrpc.C45_proof_datastore_partial` (pcq), `Xrpc.C45_false` (pcq) | Every CAR has the record, the signed head commit and only blocks of the repo. It has the whole path of tree nodes to the record when no other record path lies between the collection name and the path of the record. In general it does not, since the method covers the collection name instead of the path (C45_false). |
| C46 | partial | `Xrpc.C46_refused` (pcq), `Xrpc.C46_imported` (pcq), `Xrpc.C46_records_partial` (pcq), `Xrpc.C46_others` (pcq), `Xrpc.C46_firehose_partial` (pcq), `Xrpc.C46_incomplete_false` (pcq), `Xrpc.C46_events_false` (pcq), `Xrpc.C46_rev_false` (pcq) | For every CAR whose block CIDs are right (carbox checks them). The records are proved for CARs that are complete; an incomplete CAR is accepted and gives an unreadable repo (C46_incomplete_false). The event log is the same from sequence number 1 on; reading it from 0 raises AssertionError after an import (C46_events_false). Finding: revs can go back after an import (C46_rev_false). |
| C47 | partial | `Lease.C47_exclusive_partial` (pcq), `Lease.C47_release_partial` (pcq), `Lease.C47_refused_partial` (pcq), `Lease.C47_expires_partial` (pq), `Lease.C47_attempts` (pq), `Lease.C47_coarse_false` (pq), `Lease.C47_latency_false` (pq), `Lease.C47_fraction_false` (pq), `Lease.C47_month_false` (pq), `Lease.C47_evict_false` (pq), `Lease.C47_release_false` (pq), `Lease.C47_subsecond_false` (pq) | False as stated. Any number of leases, any interleaving, any clocks: leases that are used and released early enough before expires_at exclude each other, if memcached loses nothing. |
| C48 | proved | `C48_did_key` (pcq), `C48_doc` (pcq), `C48_write_plc` (pcq), `C48_refuses` (pcq), `C48_signing_key` (pcq), `C48_rotation` (pcq), `C48_handle` (pcq) | Assumes base58 and point compression decode what they encode. |
| C49 | proved | `C49_rollback` (pcq), `C49_rollback_refuses` (pcq), `C49_rollback_posts` (pcq), `C49_update` (pcq), `C49_rollback_nullified` (pcq), `C49_update_drops` (pcq) | Findings: nullified audit-log entries count as operations; update_plc drops other services and verification methods. |
| C50 | proved | `C50_dispatch` (pcq), `C50_bare_host` (pcq), `C50_path` (pcq), `C50_port` (pcq), `C50_userinfo` (pcq) | Finding: the host part is not validated, see C50_userinfo. |
| C51 | proved | `C51_validate` (pcq), `C51_refetch` (pq), `C51_no_fetch` (p), `C51_fetch` (p), `C51_failed` (pcq), `C51_get_or_create` (pcq), `C51_interrupted` (pcq), `C51_stale_duration` (pcq), `C51_max_size_zero` (pcq) | Findings: an interrupted first download is never retried and yields a blob without a CID; a stale duration survives a refetch; maxSize 0 means no limit. |
| C52 | proved | `Xrpc.C52_unknown` (pcq), `Xrpc.C52_inactive` (pcq), `Xrpc.C52_active` (pcq), `Xrpc.C52_did` (pcq), `Xrpc.C52_hijack_false` (pcq) | For the modelled methods. Finding: with MemoryStorage a repo whose handle is the DID of another repo can answer in its place (C52_hijack_false). |
| C53 | partial | `Xrpc.C53_round_trip_partial` (pcq), `Xrpc.C53_round_trip_datastore` (pcq) | From DatastoreStorage in every reachable state; from MemoryStorage unless a commit failed in the middle there, see C17_memory_false. |
| C54 | partial | `Xrpc.C54_refused_partial` (pcq), `Xrpc.C54_granted` (pcq), `Xrpc.C54_false` (pcq), `Xrpc.C54_attack_false` (pcq) | False: createSession ignores the password and gives the token to every client that names a repo (C54_false, for every server and repo; C54_attack_false shows a write with it). getSession and refreshSession do require the token. |
| C55 | partial | `Blob.C55_crawl` (pcq), `Blob.C55_exact` (pcq), `Blob.C55_terminates` (pcq), `Blob.C55_answers` (pcq), `Blob.C55_repos_partial` (pcq), `Blob.C55_listed_partial` (pcq), `Blob.C55_zero` (pcq), `Blob.C55_concurrent_false` (pcq) | Pagination is proved whatever happens between the pages, for every limit of at least 1 (limit 0 raises IndexError). Which blobs belong to a repo is proved for calls that do not overlap; concurrent calls for one URL can drop a repo from it (C55_concurrent_false). |
| C56 | partial | `Blob.C56_answer` (pq), `Blob.C56_origin_partial` (pcq), `Blob.C56_changed_false` (pcq), `Blob.C56_long_false` (pcq), `Blob.C56_oversized_false` (pcq), `Blob.C56_get_or_create` (pcq) | Exact answers, and every redirect goes to a URL that has served that CID, in every execution with URLs of at most 1500 characters. False: the method redirects to content that it has just seen to have another CID; longer URLs collide; a blob that has become too long hides others. The DID in the request is ignored. |
| C57 | partial | `Store.C57_messages_partial` (pcq), `Store.C57_prev_commit` (pcq), `Store.C57_root_false` (pcq), `Store.C57_undo_false` (pcq) | Every message of every history without a commit that failed in the middle, and without records that look like events (C30). That undoing gives prevData is proved for canonical trees and operations that leave records after each; C57_root_false and C57_undo_false show why. |
| C58 | proved | `Store.C58_serial` (pcq), `Store.C58_acknowledged` (pcq), `Store.C58_seqs` (pcq), `Store.C58_status` (pcq), `Store.C58_alone` (pcq), `Store.C58_order_false` (pcq), `Store.C58_immutable_false` (pcq), `Store.C58_memory_false` (pcq) | Proved for DatastoreStorage. Three things that one might expect besides do not hold: revs need not increase along prev (C58_order_false), a stored block can get another seq and repo (C58_immutable_false), and MemoryStorage shared by threads loses updates (C58_memory_false). |
| C59 | partial | `C59_accepts` (pcq), `C59_rejects` (pcq), `C59_requests` (pcq), `C59_host` (pcq), `C59_resolves_partial` (pcq), `C59_fallback` (pcq), `C59_sound` (pcq), `C59_cache` (pcq), `C59_strings_false` (pcq), `C59_conflict_false` (pcq), `C59_garbage_false` (pcq), `C59_length_false` (pcq) | That the published DID is returned is proved for TXT records of one plain string each. With several strings in a record the result is garbage (C59_strings_false); contradicting records are not noticed (C59_conflict_false); the DID is not validated (C59_garbage_false); handles over 253 characters are accepted (C59_length_false). |
| C60 | partial | `Store.C60_mirror_partial` (pcq), `Store.C60_from_start_partial` (pcq), `Store.C60_create_false` (pcq) | Every history without a commit that failed in the middle, without callbacks that raise and without records that look like events (C30). If a callback raises in Repo.create, the mirror has a repo that the server does not have (C60_create_false). Imported repos are not on the firehose (C64_mirror_false). |
| C61 | proved | `Cbor.C61_same_bytes` (pcq), `Cbor.C61_round_trip` (pcq), `Cbor.C61_canonical` (pcq), `Cbor.C61_cid` (pcq), `Cbor.C61_same_cid` (pcq), `Cbor.C61_blocks` (pcq), `Cbor.C61_signed` (pcq), `Cbor.C61_car` (pcq), `Cbor.C61_refuses_integer` (pcq) | The dag_cbor and carbox packages are not in the repository; modelled are the DAG-CBOR and CARv1 formats. Records are dicts with a $type that is not that of an event. |
| C62 | partial | `Store.C62_signed_partial` (pcq), `Store.C62_since` (pcq), `Store.C62_key` (pcq), `Store.C62_created` (pcq), `Xrpc.C62_import` (pcq), `Xrpc.C62_import_false` (pcq) | Proved for every history of Repo.create, commits, status changes, events and loads, with all failures (also torn trees and retried transactions). False for imported repos: import_repo stores the head that the old PDS signed together with a new key, and makes no commit, although a comment says so (counterexample). In histories with imports all commits after the import are signed with the new key (C62_since). |
| C63 | partial | `Xrpc.C63_snapshot_partial` (pcq), `Xrpc.C63_snapshot_datastore` (pcq), `Xrpc.C63_reads` (pcq) | Proved for all histories with DatastoreStorage. For MemoryStorage the tree must not have been torn by a failed commit before the request (C17_memory_false). The other requests are served one at a time between the reads; loading the repo is one step. Two commits that race with each other can change the seq of a block (C58_immutable_false), which is not covered. |
| C64 | partial | `Xrpc.C64_histories_partial` (pcq), `Xrpc.C64_move_partial` (pcq), `Xrpc.C64_export_again_partial` (pcq), `Xrpc.C64_list_false` (pcq), `Xrpc.C64_mirror_false` (pcq) | For complete CAR files whose commits are not such that this server will make. Two things do not work for imported repos: listRepos gives a wrong rev (C64_list_false), and their records are not on the firehose (C64_mirror_false). |
| C65 | partial | `Xrpc.C65_at_uri` (pcq), `Xrpc.C65_latest` (pcq), `Xrpc.C65_agree` (pcq), `Xrpc.C65_blocks_partial` (pcq), `Xrpc.C65_other_false` (pcq) | Every history of both backends. getBlocks serves the blocks of all repos, also deactivated ones, under the name of any active one (C65_other_false). |
| C66 | partial | `Store.C66_mirror_partial` (pcq), `Store.C66_messages_partial` (pcq), `Fire.C66_log_partial` (pcq), `Fire.C66_window_false` (pq), `Store.C66_concurrent_false` (pcq) | The requests are served one after the other, while the firehose runs; each of them may write several events, which become visible one by one. Excluded: what C60 excludes, subscribers for which events were evicted from the window or merged into it while they connected (C36, C38), exceptions while an event is handed out (C39), and servers that preload nothing although there are events (C66_window_false). Commits to the same repo that are made at the same time get sequence numbers in another order than they take effect, and leave the mirror wrong for good (C66_concurrent_false). |
| C67 | partial | `Store.C67_messages_partial` (pcq), `Store.C67_commits_partial` (pcq), `Store.C67_events_partial` (pcq), `Store.C67_mirror_partial` (pcq), `Store.C67_retry_false` (pcq) | Datastore. Excluded: schedules in which a call is aborted or fails after it has written its blocks, since the blocks of the attempt stay in the log (C67_retry_false); records that look like events or commits (C30); for the mirror, transactions that commit in another order than that of their sequence numbers (C66_concurrent_false). |
| C68 | proved | `Xrpc.C68_request` (pcq), `Xrpc.C68_empty` (pcq), `Xrpc.C68_history` (pcq), `Xrpc.C68_unique` (pcq), `Xrpc.C68_same` (pcq), `Xrpc.C68_head_false` (pcq) | For requests one after another, when storage, signing and callbacks do not fail (C69 is about failures) and sequence numbers are left, with flask. New repos get DIDs and handles that are neither DIDs nor empty; for the answers to be unique, every handle is given to one DID only. CIDs of commits are not part of the answers of these methods; they do depend on the storage (C68_head_false). |
| C69 | proved | `Xrpc.C69_answer` (pcq), `Xrpc.C69_acknowledged` (pcq), `Xrpc.C69_killed` (pcq), `Xrpc.C69_history` (pcq), `Xrpc.C69_again` (pcq), `Xrpc.C69_repeat` (pcq), `Xrpc.C69_event` (pcq), `Xrpc.C69_event_false` (pcq), `Xrpc.C69_create_false` (pcq) | For requests one after another with the Datastore. A transaction that raises has not been applied (unlike a process that is killed, or a lost response); if Google reports a failure for a transaction that it did apply, the request may have been done although it raised. Two things do not hold: a process that is killed between the status and its event leaves a status that the log does not have, until it is set again (C69_event_false), and createRecord without an rkey stores the record twice if it is repeated (C69_create_false). |
| C70 | proved | `Xrpc.C70_linearizable` (pcq), `Xrpc.C70_served` (pcq), `Xrpc.C70_completes` (pcq), `Xrpc.C70_conflict_false` (pcq), `Xrpc.C70_handle_false` (pcq), `Xrpc.C70_late_false` (pcq) | Linearizability, with the reference server of C68. Repos are made, and made anew, at the same time; a DID keeps its handle then, which is needed (C70_handle_false). Reading is one step, since blocks are immutable and the repo is read first. Overlapping requests for one record may fail with ValueError although each order of them succeeds (C70_conflict_false), so the exception for them is needed. The order is not that in which the storage changed: a record may be written to a repo, and be in the log, after a request to deactivate it has been answered (C70_late_false). |
| C71 | proved | `Xrpc.C71_start` (pcq), `Xrpc.C71_starts` (pcq), `Xrpc.C71_killed` (pcq), `Xrpc.C71_history` (pcq), `Xrpc.C71_restart` (pcq), `Xrpc.C71_forever` (pcq), `Xrpc.C71_first` (pcq), `Xrpc.C71_race_false` (pcq) | Starts are modelled with the failures and crash points of C69, against a table of accounts. One after another: processes that are started at the same time both make the repo, and the second one loses what was written meanwhile (C71_race_false). |
| C72 | partial | `Fire.C72_collector` (pcq), `Fire.C72_passes` (pq), `Fire.C72_emitted` (pcq), `Fire.C72_subscriber` (pcq), `Fire.C72_serves` (pcq), `Fire.C72_pull` (p), `Store.C72_log_partial` (pcq), `Store.C72_lookalike_false` (pcq), `Store.C72_forged_false` (pcq) | Progress of the collector and the subscribers is proved in full for the model in which read_events_by_seq and process_event may raise at any time. That they do not raise (C72_log_partial) holds of the logs of C57. It is false of a log with a record whose $type is that of an event: any client can write one, and then the collector raises in every pass, for ever, and emits nothing any more (C72_lookalike_false); if the record brings a seq of its own, all real events up to that number are skipped (C72_forged_false). |
| C73 | partial | `C73_tree` (pcq), `C73_steps` (pcq), `Store.C73_commit_partial` (pcq), `Store.C73_growth_partial` (pcq), `Store.C73_seq_partial` (pcq), `Store.C73_message_partial` (pcq), `Xrpc.C73_get_record_partial` (pcq) | Proved in full for trees. For commits and answers, MemoryStorage after a commit that failed in the middle is excluded, since what it wrote stays in the tree and is part of the next commit (C23); for sequence numbers and messages, also commits that failed after blocks were written, or were retried, since the blocks of every attempt are stored with the same number (C30). |
| C74 | partial | `Fire.C74_session_partial` (pcq), `Store.C74_log_partial` (pcq), `Store.C74_complete_partial` (pcq), `Store.C74_mirror_partial` (pcq), `Store.C74_messages_partial` (pcq), `Store.C74_start_partial` (pcq), `Store.C74_replay_partial` (pcq), `Fire.C74_inflight_false` (pq), `Store.C74_replay_false` (pcq), `Store.C74_start_false` (pcq) | Excluded: connections for which events were evicted from the rollback window, or merged into it, while they were connecting (C38, C36); requests that are served while the collector starts, whose events are never emitted (C74_inflight_false); collectors that start with an empty window although there are events (C66_window_false); exceptions while an event is handed out; imports; and for mirrors what C60 excludes. With a record that looks like an event, subscribers with a cursor fail after a restart (C74_replay_false), or the collector does not start (C74_start_false). |
| C75 | partial | `Store.C75_log` (pcq), `Store.C75_others` (pcq), `Store.C75_messages_partial` (pcq), `Store.C75_pass_partial` (pcq), `Store.C75_mirror_partial` (pcq), `Store.C75_own_false` (pcq) | C75_log and C75_others hold for every history of both backends. Excluded from the others: MemoryStorage after a commit that failed in the middle (torn, see C23), and records that look like events (C30, C72). The mirror of a repo whose own commit failed while it was stored can have records that the repo does not have (C75_own_false); one whose transaction was retried until it was committed is right (C75_mirror_partial). |
| C76 | partial | `Store.C76_log` (pcq), `Store.C76_pass` (pcq), `Store.C76_attempts` (pcq), `Store.C76_mirror_partial` (pcq), `Store.C76_retried_partial` (pcq), `Store.C76_stale_false` (pcq) | Datastore; every schedule, at every moment. Excluded from C76_log and C76_pass: records that look like events or commits (C30, C72). C76_mirror_partial is for a repo whose own calls are not aborted after they have written their blocks, and whose transactions commit in the order of their numbers; C76_retried_partial allows that they are aborted and retried, if they have no updates and return; C67_retry_false, C76_stale_false and C66_concurrent_false show that its mirror can be wrong otherwise. |
| C77 | partial | `Entity.C77_names` (pcq), `Entity.C77_block` (pcq), `Entity.C77_write` (pcq), `Entity.C77_create` (pcq), `Entity.C77_commit` (pcq), `Entity.C77_time` (pcq), `Entity.C77_memory_time_partial` (p), `Entity.C77_repo` (pcq) | Proved in full for DatastoreStorage, for DIDs of at most 1500 bytes. With MemoryStorage the time in the message is wrong for a Block that was made with a time in another time zone (C77_memory_time_false); arroba itself makes none. A block that was read can not be written (C77_copy_false). PEM is taken as given. |
| C78 | proved | `Fire.C78_bound` (pcq), `Fire.C78_woken` (pcq), `Fire.C78_gaps` (pcq), `Fire.C78_lost_wakeup` (pcq), `Xrpc.C78_no_wakeup` (pcq) | Assumed: a thread that can go on does so within a given time, and one pass takes at most a given time. For the newest event in the log at any moment. C78_lost_wakeup and C78_no_wakeup show why the timeout is part of the bound: a wake-up is lost when the collector is not waiting, and requests that are served from the Datastore send none. |
| C79 | partial | `Fire.Starting.C79_one` (pq), `Fire.Starting.C79_ready` (pq), `Fire.Starting.C79_goes_on_partial` (pcq), `Fire.Starting.C79_reset` (pcq), `Fire.Starting.C79_failed_false` (pq), `Fire.Starting.C79_failed_reached` (p), `Fire.Starting.C79_early_false` (p), `Fire.Starting.C79_reset_false` (pq) | Missing: that nobody waits in vain after loading has failed; this is false, see C79_failed_false. At most one collector at a time, in every execution with resets; without them, the rest of the claim as long as loading does not fail. C79_early_false: a call of start may return before the window is loaded. C79_reset_false: a call of reset that raises has stopped new subscribers all the same. |
| C80 | partial | `Store.C80_download_partial` (pcq), `Store.C80_log_partial` (pcq), `Store.C80_firehose_partial` (pcq), `Store.C80_checked_partial` (pcq), `Store.C80_import_false` (pcq), `Store.C80_concurrent_false` (pcq), `Store.C80_failed_false` (pcq) | Missing: imported repos (their revs come from another server; false, see C80_import_false), commits to the same repo at the same time (false, see C80_concurrent_false: the consumer refuses a message), commits that fail when their blocks are stored (false, see C80_failed_false: the consumer gets a record that the server does not have) or in the callback; for subscribers, what C66 excludes. C80_checked_partial needs neither completeness nor order of the messages, nor working callbacks. |
| C81 | proved | `C81_get` (pcq), `C81_calls` (pcq), `C81_root` (pcq), `C81_same_root` (pcq), `C81_store` (pcq) | On a model in which node objects are shared and their caches are written in place (Mst/Heap.lean), for programs as in Mst/HeapExec.lean. The hash is assumed to have no collisions, as in C01-C05. |
| C82 | proved | `C82_get` (pcq), `C82_list` (pcq), `C82_prefix` (pcq), `C82_calls` (pcq), `C82_operations` (pcq), `C82_accepts` (pcq), `Xrpc.C82_repo` (pcq), `C82_undo_false` (pcq), `C82_malformed_false` (pcq) | The hash is assumed to have no collisions. C82_undo_false: checking that the operations can be undone, without looking at their CIDs, is not enough. C82_malformed_false: the root has to be that of a tree that was made with the API; if whoever signed the commit is malicious, blocks with true CIDs can make a record show in listings that get does not find. |
| C83 | partial | `Store.C83_message_partial` (pcq), `Store.C83_relay_partial` (pcq), `Store.C83_current_partial` (pcq), `Store.C83_accepts_partial` (pcq), `Store.C83_sent_partial` (pcq), `Store.C83_unchecked_false` (pcq), `Store.C83_accepts_false` (pcq) | The hash is assumed to have no collisions, and signatures cannot be forged (Unforged). Excluded: failed commits that leave a modified tree behind (C23); for the current rev also commits that fail in the middle and imports. C83_unchecked_false: without the check, a relay can leave out an operation unnoticed. C83_accepts_false: the server makes messages that fail the check, if a commit leaves the repo empty on the way. |
| C84 | proved | `C84_get` (pcq), `C84_list` (pcq), `C84_list_with_prefix` (pcq), `C84_enough` (pcq), `C84_write` (pcq), `Xrpc.C84_page` (pcq) | The number of layers is what get_layer says: that of the highest record, or more if the tree was emptied before (C03); at most 128 with SHA-256. Counted are reads of tree nodes; a node that is in memory already is not read again. The record blocks of a page are read in addition, one per record. For writes the theorem gives a set of blocks that is enough, rather than counting reads; the bound is three nodes per layer and the root. |
| C85 | proved | `C85_yields` (pcq), `C85_next` (pcq), `C85_ends` (pcq), `C85_versions` (pcq), `C85_list` (pcq), `C85_list_with_prefix` (pcq), `C85_leaves` (pcq) | In the object model of C81: nodes are objects that versions share, with caches that are written in place. A step of an iterator yields a record or goes into one node, so next() is one or more steps. Blocks are never removed from the store, as in C81. list, list_with_prefix and leaves are loops over these generators; list_records consumes one in one go, too. walk() also yields the nodes, which is not recorded. |
