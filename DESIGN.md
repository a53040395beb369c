# Formal model of khonsulabs/bonsaidb — design

Lean 4.33.0 project in `lean/`. One directory per area under `lean/Verif/`; in each: a `Model` file (definitions, each citing /repo file:lines), a small `Spec` file (what the English property means, independent of the model), `Lemmas` (helpers) and `Props` (property theorems with non-vacuity examples beside them).

## Plan per property

- **C01 Unsigned integer keys sort numerically** — Model `to_be_bytes`/`from_be_bytes` for width w on Nat < 256^w; prove lexicographic order iff `<`, round trip, length, rejection. Module Key/.
- **C02 Signed integer keys sort numerically** — Same model on two's complement. The code violates it: prove the negation with a witness for every width and `_partial` (order holds within one sign).
- **C03 Every primitive key type round-trips** — Deep embedding of key types (inductive `KTy`, values `KVal`) with `enc`/`dec`; induction over the type.
- **C04 Composite keys sort field by field** — Encoder model over a list of (fixed|variable) encoded fields; order theorem by induction over fields. Violated for EscapeNullBytes when one field is a proper prefix of the other followed by 0x00: negation + exact `_partial`.
- **C05 Composite keys round-trip** — Encoder and decoder as functions over byte lists with explicit error/panic results; round trip by induction (length trailer read backwards).
- **C06 Decoding untrusted composite key bytes never panics** — Panic is an explicit result in the decoder model; violated: negation with witness, `_partial` for bytes produced by an encoder.
- **C07 Byte prefix queries return exactly the keys with the prefix** — `next_byte_sequence` on byte lists; prove interval membership iff prefix.
- **C08 String prefix queries return exactly the strings with the prefix** — Strings as lists of scalar values; order of code points equals order of UTF-8 (proved for the UTF-8 encoder model); prove interval membership iff prefix.
- **C09 Generated ids move strictly forward** — `next_value` for ints/NonZero on bounded Nat/Int.
- **C10 Duration keys sort chronologically** — Duration packed as secs<<30|nanos; var-int codec is an external crate: parameter with order-preserving/injective assumption (structure, instantiated by a concrete witness codec).
- **C11 Limited-resolution time values convert consistently** — Exact integer model of each resolution; violated at i64::MIN and for sub-second negatives at coarse resolutions: negations + partial.
- **C12 Key-value timestamps stay normalised** — Exact model of Add/Sub with u64/u32 saturation; violated at nanos == 1e9: negation + partial.
- **C13 Timestamp text form round-trips** — Decimal printer/parser model; round-trip by induction on digits.
- **C14 Document id text form round-trips** — Printer/parser on byte lists; violated for printable ids containing '$': negation + iff-partial.
- **C15 Escaped names are unambiguous** — Name escape/unescape on byte lists; split on '.'.
- **C16 Permission resource names identify one resource** — Resource name = list of identifiers; violated for dotted collection names: negation + partial.
- **C17 Legacy (V1) key encodings still decode** — V1 encoders/decoders on byte lists.
- **C18 Key-value namespaces and pubsub databases are isolated** — full_key/split_key and database_topic on byte lists; violated for namespaces with NUL/empty: negation + partial.
- **C19 Query key ranges survive serialization** — QueryKey (de)serialisation; violated for ranges (end deserialised from start): negation + partial.
- **C20 Transactions are all-or-nothing** — State machine of the document engine with nebari transaction as snapshot+commit (trusted).
- **C21 A write based on a stale revision is rejected** — Same engine model.
- **C22 Insert never overwrites and automatic ids are fresh** — Same engine model, id generator over ordered keys; signed primary keys violated.
- **C23 Revisions count content changes** — Same engine model, history induction.
- **C24 A header identifies one version of one document** — Violated by delete+reinsert (ABA): negation + partial for histories without delete of that id.
- **C25 The transaction log is a faithful history** — Log model, listing with limit; induction on history.
- **C26 The document store behaves like a map** — Refinement to a map spec.
- **C27 A transaction is checked for permission before anything happens** — Permission predicate as a parameter.
- **C28 Concurrent modify() calls lose no update** — Interleaving model of read/modify/CAS loop.
- **C29 View entries are exactly the map of the current documents** — Mapper model: documents, document_map, view entries, invalidated set; invariant.
- **C30 Unique views never hold two documents per key** — Eager mapper inside the transaction; invariant of uniqueness.
- **C31 Queries see every transaction committed before them** — Concurrent transition system: writers commit, mapper reads tid then maps, query waits.
- **C32 Reindexing loses no invalidation** — Transition system of scan vs commits; violated: trace witness + partial for the scan without interleaving.
- **C33 Reduced values equal reducing the raw mappings** — Reduce over entries with a law hypothesis on the user's reduce.
- **C34 Query order, range and limit are honoured** — Iterator model; violated for limit with several mappings/Matches/Multiple: negation + partial.
- **C35 delete_docs deletes exactly the matching documents** — Violated for docs with several mappings: negation + partial.
- **C36 Listing documents honours range, order and limit** — Sorted list model of range scans.
- **C37 The key-value store behaves like a map** — Three-layer KV state refines a map spec under arbitrary persistence steps.
- **C38 Keys expire exactly at their expiration** — Expiration queue invariant + refinement with clock.
- **C39 Numeric increments saturate or wrap as requested** — Int64/UInt64 arithmetic on Int with clamp/mod; floats are whole numbers of 2^-1074, so that a sum is an integer sum and one rounding (to nearest, ties to even), proved nearest.
- **C40 Key-value persistence is crash consistent** — Disk history invariant.
- **C41 A clean shutdown persists every acknowledged key-value write** — Violated when a persist is in flight: trace witness + partial.
- **C42 Expirations survive restart** — Violated race: trace witness + partial.
- **C43 Lazy persistence thresholds are honoured** — Rule evaluation over sorted rules.
- **C44 A keyed job runs at most once at a time and answers everyone** — Job manager state machine invariant.
- **C45 Stored bytes are read back unchanged** — Envelope model; crypto/compression as parameters with round-trip laws; violated for 'trv' payloads.
- **C46 Database names confine storage to their own directory** — validate_name + path model; violated for delete.
- **C47 Adding and removing a user's roles and groups are inverse and idempotent** — Membership list functions; add_role resolves in wrong collection.
- **C48 An assumed identity never exceeds its grants** — Statement evaluation model (actionable crate is external: parameter) + session counter.
- **C49 Backup then restore reproduces the data** — Backup as key/value objects; violated by '$' ids and '._key._' namespaces, zero-collection schemas.
- **C50 File contents are the concatenation of appended data** — Block list model; induction over operations.
- **C51 Reading a file from any position returns its bytes** — Reader state machine; refinement to (bytes, position); violations for empty buffer, post-EOF seek.
- **C52 Directory listings return exactly the files below the path** — Byte-level path keys; ranges proven exact.
- **C53 File creation and deletion are atomic** — Two-transaction model; violated: traces + partial.
- **C54 Each client request gets its own response** — Client state machine with outstanding map.
- **C55 The server never processes more requests per client than its limit** — Counter state machine.
- **C56 A recreated database starts empty** — Violated via stale view status: trace + partial.
- **C57 Vault master keys survive** — initialisation as a step machine over files, crash after every write.
- **C59 Authentication tokens: challenge/response**, **C60 Passwords**, **C61 Sessions end** — storage-level state machine (see `Verif/Identity`).
- **C62 One client cannot stop the server from answering the others** — Worker pool with a shared queue (`Verif/Net/Workers`): progress under benign schedules; violated by error payloads and panics.
- **C63 A graceful shutdown answers the requests being processed** — Shutdown in the connection machine of C55; holds on WebSockets, violated on QUIC.
- **C64 Compaction finishes and does not block the storage** — The job machine of C44 with a bounded number of workers and jobs that wait for jobs (`Verif/Tasks/Compact`): measure decreasing with every step, progress while fewer compactions than workers; violated otherwise (deadlock traces).
- **C65 Compaction keeps the data and its encryption** — Chunks rewritten through the compactor's vault instead of the collection's (`Verif/Vault/C65`): round trip and encryption for storages with a default key; violated without one.
- **C58 Permissions decide what a session can do** — every call of the API as a function of session and state (`Verif/Access/Model`), over the models of documents, views and keys; the documented permissions as a separate table; a denied call is the identity on the state, a permitted one equals that of an unrestricted handle, and effects over histories by frame lemmas.
- **C66 A remote request runs as a session of its own connection** — the server's connections, their session tables and the waiting requests as a transition system over the storage's sessions (`Verif/Remote/Model`); an inductive invariant ties every held and every waiting session to a login of the same connection; after a reconnect or a restart: violated, by concrete executions.
- **C67** `Pubsub`: one transition system of the storage's subscribers, the server's forwarding tasks, the connections and the clients' subscriber maps. Specification `wanted`: the messages of a history of events, computed without the system. Local: received ++ waiting = wanted. Remote: given is a prefix of wanted; given ++ on the wire ++ waiting = wanted while the connection is up. Invariants by induction over executions.
- **C68** `Identity/Calls`, `C68`, `C68b`: the calls of a storage as steps, every access to the admin database a step of its own, composed with the model of the databases (`Storage`). Specification `Authorised`: every difference between two states has its permission. Invariant: a call under way was checked for the user it will change.
- **C69** `Views/Entry`, `C69`–`C69d`: callers of `execute` as processes, every access to the database one step, between them any transaction or background step (`VStep`). Specification: what the step changes in the documents, how often which step occurs, and whether the name stays taken or free (`NamedBy`, `NameFree`, in terms of what the view's map emits). Uses C29/C30 for the view and C23 for inserts.
- **C70** `Wire/Model`, `C70`, `Witness`: what each method of a client's handles sends, the names, registration and lookup of handlers, what each handler calls, the answer's way back. Specification: `localCall`, the same call on `perform` of `Access/Model` in the server's process; histories as sequences of such calls. `Witness` shows that an encoding as assumed exists.
- **C71** `Typed/Model`, `Spec`, `Core`, `Writes`, `Reads`, `Refine`, `C71`: the conversions between keys, ids, contents and documents and every typed call over the transactions and reads of `Store`. Specification: `TSpec`, a partial map from keys to (revision number, contents) that knows no ids, bytes or trees; refinement by induction over the history.
- **C72** `Typed/Modify`, `C72`, `C72b`: the loop of `modify` as steps of one database call each, any number of tasks, any typed call in between. Specification: `WSpec`, in which a successful `modify` is one step `Modified` on the map of C71; refinement by an invariant on the phase of each task (the document given to the modifier has the digest of its contents).
- **C73** `Typed/Tx`, `C73`: the constructors of operations and the `…_in_transaction` methods over `applyToRoots`, for a family of collections. Specification: `TOpSpec` per operation on a map, `TxSpec` in sequence, `AtomicSpec` all or nothing.
- **C74** `Typed/Views`, `C74Core`, `C74` … `C74e`: the `View` builder, the typed calls over the raw ones, erasure of a typed view to a raw one (`ViewInstance`), `MappedDocuments` with its panic. Executions: typed transactions on the collection, anything else elsewhere. Specification: `TEmits` (typed map function), `SelectsBy`, `get` of C71. Proved by decoding the raw results of C29, C31, C33–C35.
- **C75** `Views/Wait`, `WaitInv`, `C75` … `C75f`: the wait loop of `update_view_if_needed` step by step for any number of calls, on top of the mapping jobs of C29 and the job manager of C44 with its workers. Invariant (`QInv`): a call that waits for its second job waits for one that started after the call read the transaction id. Every step is a step of the smaller system of C29 or invisible in it, so C31 and C74 apply, without their assumption that the wait was long enough. Liveness: from every reachable state an execution of the workers and the call alone ends the call.
- **C76** `KV/Api`, `KV/C76` … `C76e`: the builders as a request and an interpretation of the answer, executed on the store of C37 in any reachable state; between two calls there is any execution of the store. Conversions are compared with the exact number in units of 2^-1074. The lock and ticket theorems are invariants over all executions in which the other callers only read, try or increment.
- **C77** `Files/Buffered`, `Files/C77` … `C77c`: the writers as state machines over the modelled `append`; an execution is any sequence of calls (polls) and steps of others. The invariant splits the accepted bytes into appended pieces, the pieces of a flush under way and the buffer. The allocator may provide more than was requested; futures of the asynchronous writer may execute their transaction at any moment and complete at any poll.
- **C78** `Schema/Model`, `Schema/C78`: the maps of a `Schematic` as lists of pairs, the user's definitions as nested calls, flattened by mutual recursion; one invariant describes the maps after any calls. `C78_schema_partial` connects the schematic with the `Schema` of the transaction and view models and provides the distinct names they assume.
- **C79** `Store/Compat`, `Store/C79`: the version dispatch and the conversion of old records over abstract codecs (`pot`, `bincode`, version header); induction over the changes with the invariant that the collections so far are distinct and every index is valid. The page that is decoded is that of C25.
- **C80** `Views/Upgrade`, `Views/C80`: transition system of a database under changing schemas with the scan in its single writes, and restarts anywhere. Invariant: either trees of the view were deleted and the stored version is not that of a program that may be started, or the view is as the version that is stored as current leaves it (C29's invariant for that version's map).
- **C81** `Net/Shutdown`, `Net/C81`: transition system of the `watch` channel with its versions, the calls of `shutdown` in their single steps, the signal loop and time; invariants over histories. Listeners as functions of what they meet.
- **C82** `Net/Clients`, `Net/ClientsInv`, `Net/C82`: transition system of the map of clients, the tasks of connections, the disconnection in its single steps and the handlers between changing a client's sessions and calling the backend; invariants, and conditions on the calls made so far for each call.
- **C83** `Identity/Argon`, `Identity/C83`, `Identity/C83b`: the calibration as a relation over the measured durations, the default configuration as arithmetic, the pool of threads as a transition system over an abstract Argon2 whose text form can be read back; invariants.
- **C84** `Net/Certs`, `Net/C84`: the calls as transition systems over the stored document, the key in memory and the pinned file, interleaved with each other and with restarts; invariants over every execution; the renewal loop over an abstract time-until-renewal.
- **C85** `Async/Model`, `Async/C85`: calls handed to blocking threads as a transition system over any state machine for the storage, with a log of what is seen; linearizability by an invariant over every execution.
- **C86** `Storage/Lock`, `Storage/C86`: openings of one directory as a transition system with the file, its lock, shares of the lock in key-value workers, and crashes; invariants over every execution.
- **C87** `Vault/Stores`, `Vault/C87`: the two key storages over maps of files or objects with every outcome of a call; histories of calls; openings of any number of storages that share a key storage, on top of C57.
- **C88** `Views/Emit`, `Views/C88`: `Mappings` with its two representations and its iterators as state machines; programs that build mappings as a tree; induction over the program.
- **C89** `Key/Describe`, `Key/C89`: key types as a tree, the visits their `describe` makes, `KeyDescriber` as a stack machine with the capacity of its vectors; induction over the type: the visits of a type amount to recording its structure; for enums an exact condition. **C90** `Schema/Summary`, `Schema/C90`: the loop that builds a summary from a schematic (C78), and the listing.
- **C91** `Views/Pipeline`, `Views/PipeInv`, `Views/C91`: the three threads and their channels as a transition system; an invariant (27 clauses) over all interleavings gives soundness of success, the only causes of panics and of waiting forever; a decreasing measure bounds every execution; the violations are concrete executions.
- **C92** `Cli/Password`, `Cli/C92`: the byte loop of the prompt against a specification of editing a line of characters; induction over the keys; an exact condition for texts through the length of their UTF-8 encoding.
- **C93** `Tasks/JobError`, `Tasks/C93`: the clones of the shared error as slots of a transition system, the reference count as their sum; invariant: who has the error itself is the only one with a reference; the conversions as functions between the error types.
- **C94** `Net/Browser`, `Net/C94`: where the responder of each request is (client's channel, opening a connection, connection's channel, sent, used) as the state of a transition system over all connections; an inductive invariant; `Lost` is an absorbing set, and every made request outside of it can be answered, so the requests that never are answered are exactly the lost ones.
- **C95** `Store/OpenTrees`, `Store/C95`: the registration of views and the opening of trees as folds, with tree names as their bytes (C15); the opened trees are exactly the needed ones (an independent inductive set), so every lookup succeeds; vaults as in C65.
- **C96** `Cli/Commands`, `Cli/C96`: the output as a function of the summaries (C90) and the argument bytes (parsers of C15); the steps of `Args::execute` with an arbitrary outcome for each; `serve` as a transition system.
- **C97** `Net/Callbacks`, `Net/C97`: a transition system of requests, payloads and callbacks, with the workers' wait for each callback (or a task for each payload in browsers); invariant over all executions; executions in which nobody gives up for progress and for the deadlock.
- **C98** `Net/Handshake`, `Net/C98`: the handshake as a function of the request's header lines (bytes; `split` and `trim` proved to find exactly the items of a comma-separated list), the client's reading of the answer, and the routes of TCP connections as a function of the service.
- **C99** `Storage/Registry`, `Storage/C99`: schemas as numbers with names that may coincide; the registry after any history is compared with the plain list of the types given under a name.
- **C100** `Net/Acme`, `Net/C100`: `write_account` as a look at the unique view and a later update or push, with any interleaving of writers; the accounts are compared with the list of writes that succeeded.
- **C101** `Identity/Tokens`, `Identity/C101`: creation of tokens and users on the state of `Identity/Model`; histories of operations; authentication is the model of C59.
- **C102** `Identity/Groups`, `Identity/C102`: histories of groups and memberships on the admin database of `Identity/Model`; permissions before and after a group is created are compared.

## Trusted base

* Lean's kernel (4.33.0). No axioms of our own. Every theorem named in MANIFEST.json depends at most on `propext`, `Classical.choice` and `Quot.sound`; no compiled evaluation is used in any proof.
* That the definitions under `lean/Verif` say what the Rust code does. They were written by reading /repo; each cites the file and lines it models. Nothing was extracted automatically. A build without overflow checks wraps where the model panics.
* The parts of the English → Lean step: the specification definitions next to each theorem.

### What is modelled, what is assumed

| Area (directory) | Modelled | Assumed or left out |
|---|---|---|
| Keys (`Key`) | integer, string, byte, bool, unit, option, result, array, uuid, composite keys: encoders, decoders (errors and panics explicit), prefix ranges, next ids, V1 formats | `ordered-varint` is an order preserving, injective codec (structure with laws, instantiated); integer widths are parameters |
| Time (`Time`) | Duration keys, limited resolution time, KV timestamps and their text | `SystemTime` and `Duration` as exact integers |
| Names (`Names`) | document id text, escaped names, resource names, namespaces and topics, query key serialization, V1 tuples | serde framing |
| Documents (`Store`) | transactions: insert, update, overwrite, delete, check; revisions; transaction log; listing; permissions; modify loops | nebari: a transaction is a snapshot that commits atomically, trees are ordered maps, `scan`, `get_multiple` and `reduce` do what their names say; SHA-256 is an arbitrary function, stated where collisions matter; `compare_swap` is modelled as stopping at the first error (the code goes on, the outcome is the same failure) |
| Views (`Views`) | mapping, eager and unique views, invalidation, mapper jobs, integrity scans, queries, reductions, delete_docs; all interleavings of commits, mappers, scanners and queries | nebari's last transaction id is that of the last *committed* transaction in commit order; tree reads are atomic; user `map`/`reduce` are pure functions, `map` emits for its own document |
| Key-value store (`KV`) | operations, expirations, arithmetic, persistence thresholds, background worker, persisting thread, crash, shutdown, expiration loader | `f64` as IEEE binary64 with exact rounding (`KV/F64`; the store itself is parametric in it), all NaNs alike; clocks arbitrary; bincode and disk read errors not modelled |
| Jobs (`Tasks`) | keyed job table, workers, handles, panicking jobs; compaction jobs spawning and awaiting one job per tree on a bounded pool | fewer than 2^64 events |
| Vault and envelopes (`Vault`) | all four feature combinations, master key files, crash between writes, chunks rewritten by compaction | cipher, LZ4, HPKE, bincode laws (`LawfulCrypto`, `LawfulHpke`); payloads below 2^32 bytes |
| Storage (`Storage`) | create, open, delete, names, paths as lists of components | no symbolic links; nebari touches only the directory it is given; stale handles to deleted databases |
| Identity (`Identity`) | users, groups, roles, passwords, tokens, sessions, restricted handles | `actionable` statements as lists; Argon2 and BLAKE3 abstract (`Hashes`); subscribers; fewer than 2^64 sessions |
| Backup (`Backup`) | backup and restore of documents and entries, directory locations | `pot` lawful; a location behaves as its trait documents; names of any length; unrestricted handle |
| Files (`Files`) | blocks, append, truncate, lengths, blocking and asynchronous readers; path keys, builders, move and rename, list, recursive list, load; creation and deletion as two transactions each, interleaved with everything and crashes | view-value and file codecs lawful (exhibited in C52d);  file ids below 2^32; 64-bit `usize` |
| Network (`Net`) | the client's worker for both transports (ids, channel, map of outstanding requests, first request, reader, loss of the connection, kept error), the server's request loop, limit, notifications, responses, graceful shutdown, the pool of request workers | the server answers only requests it received on that connection; transports deliver whole messages; handlers are arbitrary; timeouts of callers, messages without an id, sessions |
| Access (`Access`) | permission checks of every call of a database handle, with the view updates and shared mapping jobs a call starts | calls run one after the other, mapping jobs in between; a job maps all documents in one batch; sessions are arbitrary predicates on resource names and actions (how permissions of users, groups and roles become one is C47/C48) |
| Remote sessions (`Remote`) | the server's table of sessions per connection, the lookup of a request's session, logins and logouts by the workers, disconnections, restarts, the session id a client handle sends | connection ids never reused; a worker runs a request in one step; backends' own authentication |
| Publish/subscribe (`Pubsub`) | `create_subscriber`, `subscribe_to`, `unsubscribe_from`, `publish`, `publish_to_all`, `Receiver`, the server's subscriber requests and forwarding tasks, the client's subscriber map with loss of connections, drop of subscribers, server restart | `circulate::Relay` by its contract; publication is one step; a connection delivers in order until lost; ids do not wrap; permissions are in `Access` |
| Storage calls (`Identity/Calls`) | permission checks and effects of every call of `StorageConnection`, with the interleavings of calls about users | Argon2 and BLAKE3 by their outputs; `create_database` and `delete_database` are one step here (their crashes are in `Storage`) |
| Entry API (`Views/Entry`) | `load`, `entry(..).execute()` of named collections, sync and async, with every interleaving | updates and inserts on serialized contents; decode errors, permissions and lost connections not modelled |
| Calls through a client (`Wire`) | requests, API names, both kinds of client handles, registration and dispatch, all handlers, answers and errors | the encoding is any one from which everything is read back; storage calls up to the call in the server's process; one call is one step of the server |
| Typed collections (`Typed`) | typed calls of `SerializedCollection`, `CollectionDocument`, `Collection` and their lists, conversions of ids, headers, contents and ranges, `push_all` pairing | blocking variants only (the asynchronous ones are the same statements); local connection without session; a document updated in place is returned |
| `modify`, `refresh` (`Typed`) | the retry loop, its errors, reload, tasks interleaved call by call, dropped calls | the modifier is a function of the number of its call and the document |
| Typed transactions (`Typed`) | all constructors of `Operation`, building and applying a `Transaction`, several collections | as for typed collections |
| Typed views (`Typed`) | builder, `query`, `query_with_docs`, `query_with_collection_docs`, `reduce`, `reduce_grouped`, `delete_docs`, iteration over mapped documents, erasure of types | view over a serialized collection (`CollectionMapReduce`), source of a mapping is the mapped document; the access policy only decides which state is read |
| Waiting for views (`Views/Wait`) | `update_view_if_needed`, view status, lookups and results through the job manager, workers, panics, restarts | integrity checks are complete (C32); only mapping jobs; fewer than 2^64 jobs and handles in a process |
| Typed key-value calls (`KV/Api`) | set, get, increment, decrement, delete builders, strict and lossy conversions, `expire_in`/`expire_at`, nested namespaces | `pot` reads back what it wrote; asynchronous builders are the same code around an `await` |
| Buffered writers (`Files/Buffered`) | `write`, `flush`, `set_buffer_size`, `drop` of both writers, std's `write_all` | `io::Error` is the error of the append; a future is its transaction and whether its result was returned; a spawned task or a dropped future executes its append later or never |
| Schematics (`Schema`) | `from_schema`, `define_collection`, `define_view_with_schema` and all lookups | type ids and key descriptions are numbers; the order of a `HashMap` is that of insertion and nothing proved about `views` or `collections` uses more than their members |
| Records of earlier versions (`Store/Compat`) | `compat.rs`, `deserialize_document`, iterating over `DocumentChanges`, decoding in `list_executed_transactions` | the formats are functions; assumed: what is written is read |
| View versions and changing programs (`Views/Upgrade`) | `ViewVersion`, the scan step by step, the gate of eager views, restarts with another schema | `pot` for `ViewVersion` is a function that reads what it wrote; a scan that is started twice is one scan |
| Shutdown, signals, listeners (`Net/Shutdown`) | `shutdown.rs`, `shutdown`, `listen_for_shutdown`, the loops of the three listeners | `tokio::sync::watch` and `timeout` by their documentation; what the tasks do when told is C63 |
| Clients and callbacks (`Net/Clients`) | `initialize_client`, `disconnect_client`, `broadcast`, `connected_clients`, `ConnectedClient`'s sessions, three handlers | subscribers (C67), client data, permissions and the making of sessions (C47, C48); errors of callbacks are only logged |
| Hashing passwords (`Identity/Argon`) | `Hasher`, `HashingThread`, the calibration, the default configuration | Argon2, salts, the text form of hashes (`argon2`, `password-hash`); memory blocks; debug builds' `ram_per_hasher` |
| Certificates (`Net/Certs`) | `install_certificate`, `install_self_signed_certificate`, `refresh_certified_key`, `resolve`, `update_acme_certificates` | X.509, rustls, `async_acme`; the database transaction is a step; partially written files |
| Asynchronous calls (`Async`) | handing calls to `spawn_blocking`, calls done on the spot, dropped futures, runtime shutdown, runtimes of derived handles | Tokio by its documentation; blocking calls are single steps (C20, C26, C37); which blocking call each asynchronous one makes was read, not modelled |
| Storage id and lock (`Storage/Lock`) | finding, creating, locking, reading and writing the id file; the shares of the lock; closing; crashes at any step, also in the middle of writing | `flock` as documented; no file system errors; the choice between `server-id` and `storage-id` is one file |
| Vault key storages (`Vault/Stores`) | file and object names, storing with failure and crash points, reading; `Vault::initialize` over shared key storages; choice of runtime and region | bincode of key pairs (`Codec`, lawful); S3 puts are atomic; an opening is one step (openings at different places commute) |
| Emitted mappings (`Views/Emit`) | `Mappings`, its iterators, `Emit`, serialization of entries | headers, keys and values are any types; which operations a map function applies is a tree of them |
| Key descriptions and schema summaries (`Key/Describe`, `Schema/Summary`) | `KeyDescriber`, every `describe`, the ones `derive(Key)` generates, `SchemaSummary::from`, `list_available_schemas` | `Vec` capacity grows as in std; integer attribute values are one constructor; permission checks of the listing are C68's |
| The update of a view (`Views/Pipeline`) | `DocumentRequest::map` with `generate_batches`, `map_batches`, `save_mappings`; the division of the ids | a worker takes and maps a document in one step; saving one batch is one step (its content is C16's and C82's); `flume` channels and `Parallel::run` as documented; thread creation does not fail |
| The password prompt (`Cli/Password`) | `read_password_loop`, `read_password_from_stdin`, the `create` and `set-password` commands | the terminal's output, its errors and raw mode are not modelled; the storage is a list of users with passwords |
| The error of a job (`Tasks/JobError`) | `job_completed`, `Handle::receive`, the conversions of errors in the three crates | errors are kinds or texts; `Arc::try_unwrap` is atomic; a job that panics is not modelled |
| The browser client (`Net/Browser`) | `wasm_websocket_worker.rs`, the browser part of `send_request_async` | channels are sets; serialization does not fail; responses are given to the request with their id (C54); the timers are nondeterministic |
| The trees of a transaction (`Store/OpenTrees`) | `open_trees.rs`, the lookups of `database.rs`, `define_view_with_schema` | what operations do to documents is an arbitrary outcome; `transaction()` of nebari locks the trees it is given; encryption feature enabled |
| The command line (`Cli/Commands`) | `cli/schema.rs`, bonsaidb `cli.rs`, server `cli/serve.rs` | clap's parsing of options; the text of versions and policies; what listeners do once they listen (C81); features `websockets`, `acme`, `password-hashing`, `token-authentication` enabled |
| Messages out of band (`Net/Callbacks`) | `client.rs` 861-970, client `builder.rs`, the workers' handling of payloads | the end of connections (C54, C94); what a callback waits for other than requests of its own client; decoding (C70) |
| Connecting (`Net/Handshake`) | `client.rs` 344-371, client `error.rs` 117-134, connecting in the workers, `websockets.rs` 24-90 and 239-268, `tcp.rs` 139-170 and 303-337 | TLS, QUIC and WebSocket framing; crate `url`; assumed of dependencies: ALPN connects exactly with a common protocol, `tungstenite` 0.20 takes any 101, browsers only one that selects a protocol asked for |
| Registered schemas (`Storage/Registry`) | local `config.rs` 138-146, `storage.rs` 442-452, 498-513, 684-722, 983-1015, 1060-1073, `server.rs` 162 | whether a schematic builds (C78), files, permissions, deletion |
| ACME accounts (`Net/Acme`) | server `acme.rs` 15-81, 121-127 | encryption; deletion of accounts; failures of the database; the protocol itself (crate `async-acme`) |
| Creating tokens (`Identity/Tokens`) | `authentication_token.rs` 31-83, `connection.rs` 3839-3844, `storage.rs` 1076-1094, ids of new documents (`database.rs` 585-596) | randomness (draws are arguments); `nebari`'s `last_key` is the last document that exists, as in C22; tokens of roles |
| Permission groups (`Identity/Groups`) | creating, changing, deleting groups, memberships by reference (`storage.rs` 726-753), ids of new documents | who may do it (C68); writers at the same time (C24); new roles |

Not modelled: network transports and TLS, the command line, macros, the HTTP/ACME server, relay internals, nebari, serde formats.

## Findings

Properties marked *partial* in MANIFEST.json because the code violates them carry a theorem named `…_violated_…` proving the negation in the model:

- signed keys out of order (C02).
- null-escaped fields (C04).
- decoder panics (C06).
- time edge cases (C11, C12).
- `$` in ids (C14).
- dotted collection names (C16).
- NUL in namespaces (C18).
- range end deserialized from start (C19).
- ABA headers (C24).
- lost invalidation during integrity scans (C32).
- query limits (C34).
- delete_docs with two mappings (C35).
- mixed-type saturation (C39).
- lost writes at shutdown (C41).
- expiration loader races (C42).
- panicking jobs (C44).
- `trv` payloads (C45).
- deleting unvalidated database names (C46).
- roles resolved as groups (C47, C48).
- sessions that never end (C61).
- lossy backups (C49).
- stale view status after recreation (C56).
- crash while writing master keys (C57).
- refused token responses ending sessions (C59).
- readers and empty buffers, seeks after the end, deleted blocks, cancelled async reads (C51).
- recursive listings of long paths, NULs, double slashes (C52).
- files created or deleted in two transactions, data appended during deletion shown by a new file (C53).
- responses that overtake the first QUIC request, closed WebSockets, ids after 2^32 requests (C54).
- panicking handlers keeping their slot (C55).
- error payloads ending the server's workers (C62).
- QUIC responses dropped by a graceful shutdown (C63).
- compactions that wait for each other (C64).
- compactions that write encrypted collections in the clear (C65).
- delete_docs without permission for the view, queries and inserts that need an undocumented permission, mapping jobs run with another session's permissions, the unchecked last transaction id of async handles (C58).
- client handles that act unauthenticated after a reconnect, or as another user after a restart of the server (C66).
- remote subscribers on QUIC are not told of a lost connection, and one entered after the loss is not told on WebSockets either; after a restart of the server dropping an old subscriber ends a new one; subscribers of disconnected clients stay subscribed until a send fails (C67).
- `delete_user` and `set_user_password` look the username up again after the permission check, so another user can be deleted or given a password; calls naming users, roles or groups tell a caller without any permission whether these exist (C68).
- `entry(..)` reads the name view and the documents separately: when a name passes from one document to another it returns nothing (or a unique violation when inserting), and it can update a document that has just lost the name; `or_insert_with` is ignored when the document disappears during the call (`None` on a retry, `DocumentNotFound` on the first attempt), and two callers that insert concurrently do not agree on one document (C69).
- a server compiled with token authentication but without passwords never registers the `Authenticate` API, so no client can log in with a token (`ApiNotFound`); a client gets the last transaction id without the permission its session would need in the server's process (C70).
- an insert or overwrite with a `DocumentId` that is no encoding of the primary key answers an error although it stored the document; from then on typed listings and pushes of the collection fail (C71).
- **C74** `query_with_docs` reads the view and the documents at two times and `MappedDocuments::get` and its iterator `expect` every document: if one was deleted in between, or with `NoUpdate` on a stale view, iterating panics (`C74_violated_missing_document`, `C74_violated_stale_documents`). Reducing a view without reduce function does not answer `ReduceUnimplemented` but decodes empty byte strings (`C74_violated_reduce_unimplemented`).
- **C75** A mapping job that panics (for example in the user's `map`) is never reported and keeps its key: every query of the view, then and later, waits forever, and the worker thread is lost; with no worker left queries of every view wait forever (`C75_violated_panic_blocks_view`, `C75_violated_no_worker_left`). A mapping job commits, which makes the transaction it reports old: the next query of the same view goes through the job system again although the view is up to date, against the comment at tasks.rs:69-71 (`C75_violated_up_to_date_view_mapped_again`).
- **C76** `into_i64` answers `i64::MAX` (`MIN`) for floats beyond the range and for infinities, `into_u64` answers `u64::MAX` for floats of 2^64 or more and 0 for positive floats below `f64::EPSILON`, although both promise an error when data would be lost; `into_u64` refuses `-0.0`. `expire_in` panics when the time is not representable (for example `Duration::MAX`) and `expire_at` panics for times before 1970. A key with a NUL reaches into a nested namespace. `only_if_vacant().returning_previous()` answers `None` whether the key was taken or not (`C76_violated_…`).
- **C77** With `BLOCK_SIZE` over a megabyte the default buffer has no capacity: `write` answers `Ok(0)` for ever and `write_all` fails. The asynchronous writer keeps a future that completed within its first poll, so that the next call polls it again and panics (a drop panics too and loses the buffer); an error throws the buffered bytes away and the next flush answers `Ok`; dropping it appends in the background, after later appends; dropping it during a flush can lose the bytes silently, the assertion meant for this case does not see it (`C77_violated_…`).
- **C78** View names belong to instances, views are stored by type: two instances of a view type with different names are both accepted, the first is lost, its name answers the second, its policy stays in force for the second, and the collection lists the second twice. A view of a collection that the schema does not define is accepted (`C78_violated_…`).
- **C79** A record of an earlier version with more than 65,536 collections makes `list_executed_transactions` panic (`unwrap` of `u16::try_from`; `C79_violated_too_many_collections`). Not modelled: `LegacyDocumentId` is an untagged enum, which `bincode` does not support decoding, so the `bincode` branch can presumably read only records without documents.
- **C80** Two kinds of history leave a view that is checked, has nothing to map and misses documents for good: an upgrade that ends after the scan deleted data and before it stored the new version, followed by the old program (`C80_violated_interrupted_upgrade`: data are deleted outside the transaction that stores the version), and a program that leaves the view out for a while (`C80_violated_removed_view`: marks are made only for the views of the running program, and the stored version is kept).
- **C81** One interrupt forces the shutdown 300 ms later: the flag is never cleared, so the next look at it counts as the second interrupt (`C81_violated_one_interrupt`). `listen_for_shutdown` never returns after a shutdown that ended with nobody watching, because `send` then changes nothing, or after a graceful one that succeeded (`C81_violated_unnoticed_shutdown`). A later graceful shutdown takes a forced one back (`C81_violated_forced_taken_back`). The TLS listener ends with the first connection that cannot be accepted and ignores the shutdown (`C81_violated_secure_listener_fails`, `C81_violated_secure_listener_stays`). Not modelled: `listen_on` and WebSocket connections `expect` a watcher and panic after a shutdown; the receive loop of a WebSocket connection ignores a graceful shutdown and keeps its watcher, so that a connected WebSocket client uses up the whole timeout.
- **C82** `disconnect_client` announces the sessions but leaves them in the client, and requests still being handled keep the client: a log-out handled late announces a session's end a second time, after `client_disconnected` (`C82_violated_ended_twice`), and a log-in handled late is announced after it and its end never (`C82_violated_authenticated_after_disconnect`). Every client, also a rejected one, has the end of an unauthenticated session announced (`C82_violated_unauthenticated_session_ends`). The first half of a token log-in is announced as an authentication though the session has no identity (`C82_violated_challenge_announced`).
- **C83** `verify` ignores the user's id though hashes are made with it as associated data: a hash copied to another user works there (`C83_violated_user_not_checked`). The calibration divides by the measured time of an iteration, converts with `unwrap` and adds `u32`s: a panic ends the hashing thread for good, and with one hasher every later call fails with `InternalCommunication` (`C83_violated_panic`) while calls waiting in the channel never return (`C83_violated_waits_forever`). The default memory is a thirty-second of at most 4 GiB, not a sixteenth of the system's (`C83_violated_default_ram`). The documentation of the lanes is swapped (`default()` says 4 and has 1, `default_for` says 1 and has 4); with zero reported cores `default_for` divides by zero.
- **C84** An install with a key that is not ECDSA (RSA, Ed25519) returns an error after the stored document was replaced, so the next start has no certificate (`C84_violated_failed_install`). Two installs at once can leave TLS presenting the one that is not stored (`C84_violated_two_installs`); two self-signed ones without overwrite can both succeed (`C84_violated_both_succeed`); a crash between the writes leaves the old leaf pinned (`C84_violated_crash`). One failed ACME order ends renewal until the server is restarted (`C84_violated_renewal_ends`), and a certificate installed while the loop waits is not looked at (`C84_violated_installed_ignored`). Not modelled: the QUIC listener keeps the certificate it was started with; ACME contacts are joined with `;` into one key.
- **C85** Dropping the future of a call (timeout, `select!`) does not stop it: a write given up can overwrite a later one that succeeded (`C85_violated_dropped`), or never happen if the runtime ends (`C85_violated_dropped_lost`). `AsyncStorage::admin` makes its handle after the `await`, with `Handle::current()`: it belongs to the caller's runtime and panics outside Tokio (`C85_violated_admin`); it also unwraps the join error.
- **C86** The file is created before it is locked, and truncated when it is created: two first openings at the same time run with different ids, and the next may run with a mixture of both (`C86_violated_two_first`); an opening between creation and lock reads nothing and panics (`C86_violated_race_panic`); a crash between creation and writing leaves an empty file, with which no opening ever runs again (`C86_violated_crash`). A configured id is persisted when the storage is new, contrary to the comment (`C86_violated_configured`).
- **C87** `set_vault_key_for` overwrites without asking: a second storage with the same id (configured, or copied) makes the first impossible to open, which then panics (`C87_violated_same_id`); in the local directory it truncates before it writes (`C87_violated_local_cut`). `S3VaultKeyStorage::new` panics outside a runtime though it is said to create one (`C87_violated_new`); its `region` is ignored unless an endpoint is set (`C87_violated_region`).
