{"id": "C01", "title": "Unsigned integer keys sort numerically", "statement": "For each fixed-width unsigned integer key type (u8..u128) the byte string produced by as_ord_bytes compares (memcmp) exactly as the integers compare, has the declared LENGTH, and from_ord_bytes recovers the value; byte strings of any other length are rejected with an error.", "quantifier": "every width and every pair of values of that width", "why_tests_cant": "2^128 values and all pairs; a test samples a few", "anchors": ["crates/bonsaidb-core/src/key.rs: impl_key_for_primitive!, Key for u8..u128"]}
{"id": "C02", "title": "Signed integer keys sort numerically", "statement": "For each fixed-width signed integer key type (i8..i128) the byte string produced by as_ord_bytes compares (memcmp) exactly as the integers compare. (Range queries and ordered listing rely on this.)", "quantifier": "every width and every pair of values", "why_tests_cant": "all pairs across the sign boundary", "anchors": ["crates/bonsaidb-core/src/key.rs: impl_key_for_primitive!, Key for i8..i128"]}
{"id": "C03", "title": "Every primitive key type round-trips", "statement": "from_ord_bytes(as_ord_bytes(k)) = k and distinct keys have distinct encodings for bool, unit, byte strings, strings, fixed arrays, Option, Result, NonZero integers and nested combinations; decoders reject encodings of the wrong length / zero for NonZero.", "quantifier": "every value of every key type built from these constructors, to any nesting depth", "why_tests_cant": "unbounded nesting and lengths", "anchors": ["crates/bonsaidb-core/src/key.rs: impls for bool, (), String, Vec<u8>, [u8;N], Option<T>, Result<T,E>, NonZero*"]}
{"id": "C04", "title": "Composite keys sort field by field", "statement": "For keys made of several fields (tuples and derived Key structs/enums) the encoded byte strings compare (memcmp) exactly as the field tuples compare lexicographically, provided each field's own encoding is order preserving.", "quantifier": "all lists of field types (fixed and variable length), all pairs of value tuples, each null handling mode", "why_tests_cant": "unbounded number/length of fields and adversarial contents (null bytes, prefixes)", "anchors": ["crates/bonsaidb-core/src/key.rs: CompositeKeyEncoder::encode/finish, EscapeNullBytes, impl_key_for_tuple!", "crates/bonsaidb-macros/src/lib.rs: key_derive"]}
{"id": "C05", "title": "Composite keys round-trip", "statement": "Whenever encoding a composite key succeeds, decoding the bytes with the same field types yields the original fields and consumes the whole input; encoding fails exactly when a variable-length field is longer than 65535 bytes after escaping (or contains a null under DenyNullBytes).", "quantifier": "all lists of field types and values, all three null modes", "why_tests_cant": "unbounded field counts/lengths, all length-prefix widths (1-3 bytes)", "anchors": ["crates/bonsaidb-core/src/key.rs: CompositeKeyEncoder, CompositeKeyDecoder, encode/decode_nulls"]}
{"id": "C06", "title": "Decoding untrusted composite key bytes never panics", "statement": "For every byte string, decoding it as a composite key returns a value or an error; it never aborts the process (view keys and document ids arrive from clients).", "quantifier": "every byte string and every list of field types", "why_tests_cant": "arbitrary adversarial input", "anchors": ["crates/bonsaidb-core/src/key.rs: CompositeKeyDecoder::decode/finish, EscapeNullBytes::decode_nulls"]}
{"id": "C07", "title": "Byte prefix queries return exactly the keys with the prefix", "statement": "The range produced by to_prefix_range for byte-string keys contains a key iff the key starts with the prefix.", "quantifier": "every prefix and every key", "why_tests_cant": "unbounded strings, carry over 0xFF", "anchors": ["crates/bonsaidb-core/src/key.rs: next_byte_sequence, IntoPrefixRange for bytes"]}
{"id": "C08", "title": "String prefix queries return exactly the strings with the prefix", "statement": "The range produced by to_prefix_range for String keys contains a string iff the string starts with the prefix (surrogate gap and char::MAX included).", "quantifier": "every prefix string and every string", "why_tests_cant": "unbounded strings and all code points", "anchors": ["crates/bonsaidb-core/src/key.rs: IntoPrefixRange for String/str", "crates/bonsaidb-utils/src/lib.rs: next_string_sequence"]}
{"id": "C09", "title": "Generated ids move strictly forward", "statement": "next_value of an integer or NonZero key is the least larger valid value; at the maximum an error is returned, never a wrapped value. first_value is the minimum the generator starts from.", "quantifier": "every width, every value", "why_tests_cant": "boundary at every width", "anchors": ["crates/bonsaidb-core/src/key.rs: Key::first_value/next_value", "crates/bonsaidb-core/src/schema/schematic.rs: KeyIdGenerator::next_id"]}
{"id": "C10", "title": "Duration keys sort chronologically", "statement": "Encoding a Duration as a key preserves order and decoding recovers it exactly (given the order-preserving variable-length integer codec); out-of-range durations are rejected.", "quantifier": "every pair of durations", "why_tests_cant": "2^94 values", "anchors": ["crates/bonsaidb-core/src/key/time.rs: Duration, SystemTime KeyEncoding"]}
{"id": "C11", "title": "Limited-resolution time values convert consistently", "statement": "Converting a representation (count of units) to a signed duration and back gives the same representation, and converting a signed duration to a resolution rounds consistently towards negative infinity (never a value more than one unit away, monotone in the input).", "quantifier": "every resolution (ns..weeks), every representation and every signed duration", "why_tests_cant": "full i64/i32 and u64 seconds range incl. extremes", "anchors": ["crates/bonsaidb-core/src/key/time.rs: TimeResolution impls, LimitedResolutionDuration"]}
{"id": "C12", "title": "Key-value timestamps stay normalised", "statement": "Adding a Duration to a Timestamp yields seconds+nanoseconds with nanoseconds < 1e9 denoting exactly the sum (saturating at the maximum), subtraction returns the exact difference or None if negative, and the 12-byte key encoding sorts chronologically.", "quantifier": "all timestamps and durations", "why_tests_cant": "boundary where nanoseconds sum to exactly one second", "anchors": ["crates/bonsaidb-core/src/keyvalue/timestamp.rs: Timestamp, Add, Sub, KeyEncoding"]}
{"id": "C13", "title": "Timestamp text form round-trips", "statement": "Parsing the displayed text of a limited-resolution timestamp gives back the same timestamp.", "quantifier": "every timestamp of every sub-second resolution", "why_tests_cant": "all values, all zero-padding patterns", "anchors": ["crates/bonsaidb-core/src/key/time.rs: LimitedResolutionTimestamp Display / FromStr"]}
{"id": "C14", "title": "Document id text form round-trips", "statement": "Parsing the displayed text of a document id gives the same id, so that distinct ids have distinct texts (backups name files by this text).", "quantifier": "every byte string up to the maximum id length", "why_tests_cant": "arbitrary bytes, printable and not", "anchors": ["crates/bonsaidb-core/src/document/id.rs: Display, FromStr"]}
{"id": "C15", "title": "Escaped names are unambiguous", "statement": "encoded() of a schema, collection or view name parses back to the same name; distinct names have distinct encodings, so storage trees of distinct collections/views never share a name; parse_encoded rejects malformed escapes.", "quantifier": "all authority/name strings incl. non-ASCII and '.', '_'", "why_tests_cant": "unbounded strings", "anchors": ["crates/bonsaidb-core/src/schema/names.rs: Name, QualifiedName, ViewName", "crates/bonsaidb-local/src/views/mod.rs, database.rs: tree names"]}
{"id": "C16", "title": "Permission resource names identify one resource", "statement": "Two different collections, views, documents, topics or keys never have the same permission resource name, so a grant on one does not apply to another.", "quantifier": "all database, collection, view, document, key names", "why_tests_cant": "unbounded strings, adversarial separators", "anchors": ["crates/bonsaidb-core/src/permissions/bonsai.rs"]}
{"id": "C17", "title": "Legacy (V1) key encodings still decode", "statement": "Keys written by the deprecated V1 tuple and option encodings decode to the original values; V1 documents the known order defect.", "quantifier": "all tuples and values", "why_tests_cant": "unbounded lengths", "anchors": ["crates/bonsaidb-core/src/key/deprecated.rs"]}
{"id": "C18", "title": "Key-value namespaces and pubsub databases are isolated", "statement": "An operation on (namespace, key) never reads or changes another (namespace, key); a message published to (database, topic) reaches exactly subscribers of that database and topic.", "quantifier": "all namespaces (None/Some), keys, database names and topics", "why_tests_cant": "adversarial strings containing the separator", "anchors": ["crates/bonsaidb-local/src/database/keyvalue.rs: full_key, split_key", "crates/bonsaidb-core/src/pubsub.rs: database_topic"]}
{"id": "C19", "title": "Query key ranges survive serialization", "statement": "Serializing a query key (match, range or list) and deserializing it gives the same query.", "quantifier": "all key ranges and bounds", "why_tests_cant": "start/end with different bounds and values", "anchors": ["crates/bonsaidb-core/src/connection.rs: QueryKey::serialized, SerializedQueryKey::deserialized, Range::deserialize"]}
{"id": "C20", "title": "Transactions are all-or-nothing", "statement": "If any operation of a transaction fails, no document, view, id counter or transaction-log entry changes; if all succeed, the effects are those of executing the operations in order and become visible together.", "quantifier": "every transaction, every starting state, every failing position", "why_tests_cant": "any length and failing point", "anchors": ["crates/bonsaidb-local/src/database.rs: apply_transaction_to_roots, execute_operation, execute_insert/update/delete/check"]}
{"id": "C21", "title": "A write based on a stale revision is rejected", "statement": "An update or delete carrying a header whose revision is not the document's current revision fails with a conflict and changes nothing; with the current revision it succeeds.", "quantifier": "every document state, every header", "why_tests_cant": "all interleavings of writers", "anchors": ["crates/bonsaidb-local/src/database.rs: execute_update, execute_delete", "crates/bonsaidb-core/src/document/revision.rs"]}
{"id": "C22", "title": "Insert never overwrites and automatic ids are fresh", "statement": "An insert with an existing id fails and leaves the stored document untouched; an insert without an id stores the document under an id no existing document has, larger than all existing ids.", "quantifier": "every collection content, signed and unsigned primary keys", "why_tests_cant": "all collection states", "anchors": ["crates/bonsaidb-local/src/database.rs: execute_insert", "crates/bonsaidb-core/src/schema/schematic.rs: next_id"]}
{"id": "C23", "title": "Revisions count content changes", "statement": "A document starts at revision 0; every update that changes the contents increases the revision by exactly one, an update with identical contents leaves the document and its revision unchanged; the header returned to the caller is the stored one.", "quantifier": "every sequence of updates", "why_tests_cant": "all histories", "anchors": ["crates/bonsaidb-core/src/document/revision.rs: next_revision", "crates/bonsaidb-local/src/database.rs: execute_update"]}
{"id": "C24", "title": "A header identifies one version of one document", "statement": "If a header obtained earlier is still accepted by an update, the document has not been changed since the header was read.", "quantifier": "every history of transactions between read and update", "why_tests_cant": "all histories, including delete and re-insert", "anchors": ["crates/bonsaidb-local/src/database.rs: execute_update, execute_insert", "crates/bonsaidb-core/src/document/revision.rs: Revision::new"]}
{"id": "C25", "title": "The transaction log is a faithful history", "statement": "Each committed transaction gets a larger id than all earlier ones and records exactly the documents it changed, with the collection, id and deleted flag, in operation order; listing pages through committed transactions in order from any starting id without gaps or repeats; failed transactions appear nowhere.", "quantifier": "every history, starting id and page limit", "why_tests_cant": "all histories and pagings", "anchors": ["crates/bonsaidb-local/src/database.rs: ChangedDocumentsTracker, apply_transaction_to_roots, list_executed_transactions"]}
{"id": "C26", "title": "The document store behaves like a map", "statement": "For every sequence of operations (insert, overwrite, update, delete, check, get), the results equal those of a simple map from (collection, id) to (revision, contents).", "quantifier": "every operation sequence", "why_tests_cant": "all histories", "anchors": ["crates/bonsaidb-local/src/database.rs: execute_operation, get, get_multiple"]}
{"id": "C27", "title": "A transaction is checked for permission before anything happens", "statement": "If the session lacks permission for any operation of the transaction, it fails and nothing changes; no effect is ever produced by an operation that was not permitted.", "quantifier": "every session permission set and transaction", "why_tests_cant": "all permission sets", "anchors": ["crates/bonsaidb-local/src/database.rs: apply_transaction (LowLevelConnection)", "crates/bonsaidb-core/src/connection/has_session.rs"]}
{"id": "C28", "title": "Concurrent modify() calls lose no update", "statement": "Every successful CollectionDocument::modify applied its modifier to the latest contents: the final contents are the modifiers of the successful calls composed in commit order.", "quantifier": "any number of concurrent callers and every interleaving", "why_tests_cant": "all schedules", "anchors": ["crates/bonsaidb-core/src/document/collection.rs: modify"]}
{"id": "C29", "title": "View entries are exactly the map of the current documents", "statement": "Once all invalidated documents have been mapped, the view contains, for every key, exactly the entries emitted by map for the current documents, and none for deleted or changed ones.", "quantifier": "every map function, history of transactions and batching of mapping", "why_tests_cant": "all histories and chunkings", "anchors": ["crates/bonsaidb-local/src/views/mapper.rs: map_view, DocumentRequest::map, update_document_map, ViewEntryUpdater"]}
{"id": "C30", "title": "Unique views never hold two documents per key", "statement": "A transaction whose result would give two documents the same key in a unique view fails and changes nothing; otherwise it is not rejected for uniqueness.", "quantifier": "every history and transaction", "why_tests_cant": "all histories", "anchors": ["crates/bonsaidb-local/src/views/mapper.rs: compare_swap_view_entry (unique check)", "crates/bonsaidb-local/src/database.rs: update_eager_views"]}
{"id": "C31", "title": "Queries see every transaction committed before them", "statement": "A query with the default access policy returns results reflecting at least all transactions committed before the query started, whatever other writers and mapping jobs do meanwhile.", "quantifier": "every interleaving of writers, mappers and queries", "why_tests_cant": "all schedules", "anchors": ["crates/bonsaidb-local/src/tasks.rs: update_view_if_needed", "crates/bonsaidb-local/src/views/mapper.rs: Mapper::execute"]}
{"id": "C32", "title": "Reindexing loses no invalidation", "statement": "When a view's stored version is outdated, rebuilding it while transactions commit concurrently still leaves every changed document marked for mapping.", "quantifier": "every interleaving of the integrity scan with committing transactions", "why_tests_cant": "all schedules", "anchors": ["crates/bonsaidb-local/src/views/integrity_scanner.rs: IntegrityScan::execute"]}
{"id": "C33", "title": "Reduced values equal reducing the raw mappings", "statement": "reduce() over a key or key range equals the schema's reduce of all mappings in the range (for reduce functions where re-reducing partial results is consistent); reduce_grouped returns one value per key, in key order.", "quantifier": "every view content, every lawful reduce function, every range", "why_tests_cant": "all groupings", "anchors": ["crates/bonsaidb-local/src/database.rs: reduce_by_name, reduce_grouped_by_name", "crates/bonsaidb-local/src/views/mapper.rs: reduce of mappings"]}
{"id": "C34", "title": "Query order, range and limit are honoured", "statement": "A view query returns exactly the mappings whose key is in the requested range, ascending or descending by key, and at most `limit` mappings.", "quantifier": "every view content, range, order and limit", "why_tests_cant": "all combinations", "anchors": ["crates/bonsaidb-local/src/database.rs: query_by_name, create_view_iterator"]}
{"id": "C35", "title": "delete_docs deletes exactly the matching documents", "statement": "delete_docs on a view query deletes every document with a mapping in the range, nothing else, and reports how many documents were deleted.", "quantifier": "every view content incl. documents emitting several keys", "why_tests_cant": "documents with several mappings in the range", "anchors": ["crates/bonsaidb-local/src/database.rs: delete_docs_by_name"]}
{"id": "C36", "title": "Listing documents honours range, order and limit", "statement": "list/list_headers return the documents with id in the range in id order (or reverse), truncated to limit; count equals the number of documents in the range; get_multiple returns exactly the existing requested ids.", "quantifier": "every collection, range, sort, limit", "why_tests_cant": "all combinations", "anchors": ["crates/bonsaidb-local/src/database.rs: list_from_collection, list_headers_from_collection, count_from_collection, get_multiple_from_collection"]}
{"id": "C37", "title": "The key-value store behaves like a map", "statement": "Results of set (with checks and options), get, delete, increment and decrement equal those of a simple map with expirations, no matter when background persistence stages, writes and finishes.", "quantifier": "every operation sequence and every schedule of persistence", "why_tests_cant": "all schedules", "anchors": ["crates/bonsaidb-local/src/database/keyvalue.rs: KeyValueState perform_kv_operation, get, set, replace, remove, stage_dirty_keys, persist_keys"]}
{"id": "C38", "title": "Keys expire exactly at their expiration", "statement": "After its expiration a key is never returned; before it, a key is not removed by expiration; updating or clearing an expiration replaces the previous one.", "quantifier": "every sequence of operations and clock readings", "why_tests_cant": "all histories", "anchors": ["crates/bonsaidb-local/src/database/keyvalue.rs: update_key_expiration, remove_expired_keys"]}
{"id": "C39", "title": "Numeric increments saturate or wrap as requested", "statement": "increment/decrement on integers yields the exact mathematical result when representable, saturates or wraps per the flag otherwise, converts the stored value to the operand's type, and never stores NaN; on floats it yields the f64 nearest to the exact sum or difference (ties to even), or an infinity when that is too large.", "quantifier": "all stored values, amounts and flags", "why_tests_cant": "full 64-bit ranges", "anchors": ["crates/bonsaidb-local/src/database/keyvalue.rs: increment, decrement, execute_numeric_operation", "crates/bonsaidb-core/src/keyvalue.rs: Numeric"]}
{"id": "C40", "title": "Key-value persistence is crash consistent", "statement": "At every crash point the keys on disk equal the store's contents at some earlier moment (whole batches, in order), no committed batch is lost, and the logged changed keys are exactly the keys that changed on disk.", "quantifier": "every operation sequence, schedule and crash point", "why_tests_cant": "all crash points", "anchors": ["crates/bonsaidb-local/src/database/keyvalue.rs: stage_dirty_keys, persist_keys"]}
{"id": "C41", "title": "A clean shutdown persists every acknowledged key-value write", "statement": "When the last handle to a database is dropped and the drop returns, every acknowledged write is on disk.", "quantifier": "every history and persistence schedule before the drop", "why_tests_cant": "all schedules", "anchors": ["crates/bonsaidb-local/src/database/keyvalue.rs: shutdown, persist_keys", "crates/bonsaidb-local/src/database.rs: Drop for ContextData"]}
{"id": "C42", "title": "Expirations survive restart", "statement": "After reopening, keys with an expiration on disk expire at that time, and a key overwritten after reopening without expiration does not expire.", "quantifier": "every interleaving of the expiration loader with operations", "why_tests_cant": "all schedules", "anchors": ["crates/bonsaidb-local/src/database/keyvalue.rs: ExpirationLoader"]}
{"id": "C43", "title": "Lazy persistence thresholds are honoured", "statement": "Changes are committed as soon as some threshold has both its change count met and its duration elapsed, and not before; the background worker is woken no later than the earliest pending expiration or commit.", "quantifier": "every rule list, change count, elapsed time", "why_tests_cant": "all rule sets", "anchors": ["crates/bonsaidb-local/src/config.rs: KeyValuePersistence", "crates/bonsaidb-local/src/database/keyvalue.rs: update_background_worker_target, needs_commit"]}
{"id": "C44", "title": "A keyed job runs at most once at a time and answers everyone", "statement": "Two jobs with the same key are never queued or running together; every handle for a key receives the result of the job it joined, exactly once, and the job's result is not lost.", "quantifier": "every interleaving of enqueue, lookup and completion", "why_tests_cant": "all schedules", "anchors": ["crates/bonsaidb-local/src/tasks/manager.rs", "crates/bonsaidb-local/src/tasks/manager/jobs.rs"]}
{"id": "C45", "title": "Stored bytes are read back unchanged", "statement": "With compression and/or encryption at rest enabled, reading a stored value returns the bytes written, for every payload.", "quantifier": "every payload, key and configuration", "why_tests_cant": "payloads that look like the envelope", "anchors": ["crates/bonsaidb-local/src/storage.rs: TreeVault", "crates/bonsaidb-local/src/vault.rs"]}
{"id": "C46", "title": "Database names confine storage to their own directory", "statement": "Creating, opening or deleting a database with any name only touches that database's own directory, invalid names are rejected, and a failed delete changes nothing.", "quantifier": "every name string", "why_tests_cant": "adversarial names", "anchors": ["crates/bonsaidb-local/src/storage.rs: validate_name, create_database_with_schema, delete_database"]}
{"id": "C47", "title": "Adding and removing a user's roles and groups are inverse and idempotent", "statement": "After add (any number of times) the user has exactly the requested role/group in addition, after remove it does not, other memberships are unchanged, and names resolve to the right kind of record.", "quantifier": "every membership list and sequence of operations", "why_tests_cant": "all histories", "anchors": ["crates/bonsaidb-local/src/storage.rs: add_role_to_user, add_permission_group_to_user, update_user_with_named_id"]}
{"id": "C48", "title": "An assumed identity never exceeds its grants", "statement": "A session may do an action iff one of its statements allows it (default deny); unauthenticated local access is unrestricted; assuming an identity gives only the permissions of the identity's groups and roles, requires permission to do so, and each new session gets a fresh id.", "quantifier": "every permission set, identity and sequence of assumptions", "why_tests_cant": "all permission combinations", "anchors": ["crates/bonsaidb-local/src/storage.rs: assume_session, assume_user, assume_role", "crates/bonsaidb-core/src/connection/has_session.rs"]}
{"id": "C49", "title": "Backup then restore reproduces the data", "statement": "Restoring a backup into an empty storage reproduces every document (id and contents) of every collection and every key-value entry of every database.", "quantifier": "every database content", "why_tests_cant": "all ids, names and key strings", "anchors": ["crates/bonsaidb-local/src/storage/backup.rs: backup_database, restore_database"]}
{"id": "C50", "title": "File contents are the concatenation of appended data", "statement": "Appending splits data into blocks of at most BLOCK_SIZE and the file's contents become old contents followed by the data; truncation keeps a suffix/prefix whose length is at least the requested length and less than one block more; truncating to 0 empties the file; len equals the number of bytes.", "quantifier": "every sequence of appends and truncations, every block size", "why_tests_cant": "all histories and sizes", "anchors": ["crates/bonsaidb-files/src/schema/block.rs: Block::append, for_file", "crates/bonsaidb-files/src/schema/file.rs: create_truncate_transaction"]}
{"id": "C51", "title": "Reading a file from any position returns its bytes", "statement": "Reading sequentially with any buffer sizes and any internal buffering returns exactly the file's bytes from the current position; seek moves to the requested position (clamped to the end) and reports it; no read or seek panics or hangs.", "quantifier": "every file, buffer size and sequence of reads and seeks", "why_tests_cant": "all interleavings of reads and seeks", "anchors": ["crates/bonsaidb-files/src/direct.rs: Contents, Read, Seek, load_blocks, next_blocks"]}
{"id": "C52", "title": "Directory listings return exactly the files below the path", "statement": "list returns exactly the files directly inside the path, list_recursive exactly those below it; load finds the file created with that path; moving and renaming give the documented path.", "quantifier": "all sets of files and all paths", "why_tests_cant": "adversarial path strings", "anchors": ["crates/bonsaidb-files/src/schema/file.rs: FileKey, find, list_path_contents, list_recursive_path_contents", "crates/bonsaidb-files/src/direct.rs: FileBuilder::new, update_document_for_move"]}
{"id": "C53", "title": "File creation and deletion are atomic", "statement": "A file is created with all its contents or not at all, deletion removes all blocks, and a new file never shows data of another file, under concurrent use and crashes.", "quantifier": "every interleaving and crash point", "why_tests_cant": "all schedules", "anchors": ["crates/bonsaidb-files/src/schema/file.rs: create_file", "crates/bonsaidb-files/src/direct.rs: File::delete"]}
{"id": "C54", "title": "Each client request gets its own response", "statement": "A response delivered to a caller is the server's response to that caller's request; each request is answered at most once; on disconnect every outstanding request is answered with an error.", "quantifier": "every interleaving of requests, responses and disconnections", "why_tests_cant": "all schedules", "anchors": ["crates/bonsaidb-client/src/client.rs: send_request_without_confirmation, process_response_payload, disconnect_pending_requests", "crates/bonsaidb-client/src/client/tungstenite_worker.rs, quic_worker.rs"]}
{"id": "C55", "title": "The server never processes more requests per client than its limit", "statement": "At any time the number of requests of one client being processed is at most the configured limit, and a finished request frees its slot.", "quantifier": "every interleaving of arrivals and completions", "why_tests_cant": "all schedules", "anchors": ["crates/bonsaidb-server/src/server.rs: handle_client_requests"]}
{"id": "C56", "title": "A recreated database starts empty", "statement": "After deleting a database and creating one with the same name, queries, key-value reads and listings show exactly the data written to the new database: nothing of the old one, and nothing of the new one missing.", "quantifier": "every history before deletion and after recreation", "why_tests_cant": "all histories", "anchors": ["crates/bonsaidb-local/src/storage.rs: delete_database", "crates/bonsaidb-local/src/tasks.rs: statuses"]}
{"id": "C57", "title": "The vault's master keys survive restarts and crashes", "statement": "Once a storage was opened with certain master keys, every later opening yields the same keys; a crash or failure during the very first opening leaves a storage that can be opened again; a missing vault key is an error.", "quantifier": "every history of openings, failures and crashes at any point", "why_tests_cant": "all crash points", "anchors": ["crates/bonsaidb-local/src/vault.rs: Vault::initialize, initialize_vault_key_storage, unseal"]}
{"id": "C59", "title": "Token authentication admits only token holders, once per challenge", "statement": "A session authenticated by a token is given only to a caller whose response to the storage's challenge is the one computed from that token's secret; a challenge session permits nothing by itself; a challenge is answered at most once; a token holder with a clock off by at most 300 seconds is let in as the token's identity; a failed attempt changes nothing else.", "quantifier": "every state, every response, every sequence of authentication events", "why_tests_cant": "adversarial inputs and orders", "anchors": ["crates/bonsaidb-local/src/storage/token_authentication.rs: begin_token_authentication, finish_token_authentication"]}
{"id": "C60", "title": "Password authentication succeeds exactly with the user's password", "statement": "Authenticating as a user with a password succeeds iff the user exists, the caller may authenticate as it, a password is set and the given password verifies against it; the session is then that user's with its permissions. After a successful set-password, the new password is accepted.", "quantifier": "every state, user reference and password", "why_tests_cant": "all inputs", "anchors": ["crates/bonsaidb-local/src/storage.rs: authenticate_inner, set_user_password"]}
{"id": "C61", "title": "Sessions end with their last handle", "statement": "When the last handle of an authenticated session is dropped, the session ends: its id can no longer be assumed.", "quantifier": "every history of authentications, clones and drops", "why_tests_cant": "all histories", "anchors": ["crates/bonsaidb-local/src/storage.rs: AuthenticatedSession::drop, assume_session"]}
{"id": "C62", "title": "One client cannot stop the server from answering the others", "statement": "Whatever requests a client sends, well-formed or not, and however its own requests fail, the server goes on answering the requests of every other client.", "quantifier": "every history of requests of any number of clients, every number of workers", "why_tests_cant": "all histories, including hostile ones", "anchors": ["crates/bonsaidb-server/src/server.rs: CustomServer::open (request workers)", "crates/bonsaidb-core/src/networking.rs: Payload"]}
{"id": "C63", "title": "A graceful shutdown answers the requests being processed", "statement": "After shutdown(Some(timeout)) the requests that are already being processed are still answered, as long as the timeout has not elapsed; none is answered twice or forgotten.", "quantifier": "every interleaving of requests, handlers and the shutdown, both transports", "why_tests_cant": "all schedules", "anchors": ["crates/bonsaidb-server/src/server.rs: shutdown, handle_stream, handle_client_requests", "crates/bonsaidb-server/src/server/shutdown.rs", "crates/bonsaidb-server/src/server/websockets.rs"]}
{"id": "C64", "title": "Compaction finishes and does not block the storage", "statement": "Every call of compact, compact_collection or compact_key_value_store that is left alone returns after finitely many steps, whatever the schedule of the background workers and however many such calls and other background jobs are pending, and every other caller waiting for a background job gets its result; a reported success means every tree of the database or collection was compacted.", "quantifier": "every history of calls, every schedule, every number of workers, every schema", "why_tests_cant": "all schedules; a deadlock appears only in some of them", "anchors": ["crates/bonsaidb-local/src/tasks/compactor.rs: Compactor::execute, Target", "crates/bonsaidb-local/src/tasks.rs: compact_collection, compact_key_value_store, compact_database", "crates/bonsaidb-local/src/tasks/manager.rs: Manager::spawn_worker"]}
{"id": "C65", "title": "Compaction keeps the data and its encryption", "statement": "After any number of compactions every stored chunk of every collection is still read back unchanged, and what was stored encrypted is still encrypted on disk.", "quantifier": "every payload, key, storage configuration, collection encryption key and number of compactions", "why_tests_cant": "all payloads, configurations and histories", "anchors": ["crates/bonsaidb-local/src/tasks/compactor.rs: Target::compact", "crates/bonsaidb-local/src/vault.rs: TreeVault", "crates/bonsaidb-local/src/storage.rs: tree_vault"]}
{"id": "C58", "title": "Permissions decide what a session can do", "statement": "A call of the database API made with a session that lacks one of the permissions documented for it fails with a permission error, whatever the database holds, and changes nothing; a session that has them gets exactly what an unrestricted handle gets. Over every history of calls by any sessions, whatever document, message, key, subscription or compaction is different at the end was in reach of a calling session that holds the permission for it.", "quantifier": "every schema, session, database content, call (transactions, gets, lists, counts, queries, reductions, delete_docs, key-value operations, publish/subscribe, compactions, transaction log) and history", "why_tests_cant": "all permission sets, all contents and all histories of several sessions", "anchors": ["crates/bonsaidb-local/src/database.rs: Connection, LowLevelConnection", "crates/bonsaidb-local/src/database/keyvalue.rs: execute_key_operation", "crates/bonsaidb-local/src/database/pubsub.rs", "crates/bonsaidb-local/src/tasks.rs: update_view_if_needed", "crates/bonsaidb-local/src/async.rs: last_transaction_id", "crates/bonsaidb-core/src/permissions/bonsai.rs: DatabaseAction", "crates/bonsaidb-core/src/connection/has_session.rs"]}
{"id": "C66", "title": "A remote request runs as a session of its own connection", "statement": "Whatever clients send and in whatever order the server's workers run it, a request runs either unauthenticated with the default permissions, or with exactly the identity and permissions of a session that the same connection obtained by logging in and whose id the request carries. After logging in, all requests of that handle run as its session until it is logged out; afterwards they run with the default permissions. No client can use a session of another connection, and a handle's requests are never run as another identity.", "quantifier": "every interleaving of connections, disconnections, logins (password, token, identity), logouts, requests with arbitrary session ids, late and reordered execution by workers, changes of users, and restarts of the server", "why_tests_cant": "all interleavings of several clients, workers and restarts, with adversarial session ids", "anchors": ["crates/bonsaidb-server/src/server.rs: handle_request_through_worker, initialize_client, disconnect_client", "crates/bonsaidb-server/src/server/connected_client.rs: logged_in_as, log_out, session", "crates/bonsaidb-server/src/dispatch.rs: Authenticate, AssumeIdentity, LogOutSession", "crates/bonsaidb-client/src/client.rs: send_request_without_confirmation, session_is_current", "crates/bonsaidb-local/src/storage.rs: assume_session"]}
{"id": "C67", "title": "Subscribers receive exactly the messages of their topics", "statement": "A subscriber, local or of a remote client, receives one message for each publication in its database to a topic it is subscribed to at that moment, in the order of the publications, and nothing else: no message of another database, topic or subscriber, none twice, none out of order. A remote subscriber whose connection is lost is told so (its receiver ends) rather than waiting forever, a subscriber ends only when it is dropped, logged out or disconnected, and a subscriber of a client that is gone ends.", "quantifier": "every history of creating, subscribing, unsubscribing and dropping subscribers, publications, logouts, connections, losses of connections, reconnections and restarts of the server, by any number of clients and callers in any interleaving", "why_tests_cant": "needs all interleavings of publishers, forwarding tasks, connections and requests, and losses at every point", "anchors": ["crates/bonsaidb-local/src/database/pubsub.rs", "crates/bonsaidb-local/src/storage/pubsub.rs", "crates/bonsaidb-core/src/pubsub.rs: Receiver, database_topic", "crates/bonsaidb-server/src/server/connected_client.rs: register_subscriber, forward_notifications_for, subscribe_by_id, unregister_subscriber_by_id", "crates/bonsaidb-client/src/client.rs: SubscriberMap, register_subscriber, unregister_subscriber", "crates/bonsaidb-client/src/client/quic_worker.rs, tungstenite_worker.rs"]}
{"id": "C68", "title": "Storage-level calls act only with permission", "statement": "On a handle with a session, every call of a storage (creating and deleting databases and users, setting passwords, changing a user's groups and roles, listing, assuming identities and authenticating) changes only what the session is permitted to change: no user, password, membership, database or database file is changed by a caller without the documented permission for that very user or database, whatever other callers do meanwhile. A call without its permission is an error, changes nothing and reveals nothing about what is stored; with its permission it behaves as for a caller without a session.", "quantifier": "every call, session, set of permissions, state of the storage, reference to a user, role or group, and interleaving of any number of callers", "why_tests_cant": "needs all combinations of permissions and calls and all interleavings of the separate reads and writes of the admin database", "anchors": ["crates/bonsaidb-local/src/storage.rs: impl StorageConnection for Storage, update_user_with_named_id, delete_user, set_user_password, create_database_with_schema, delete_database", "crates/bonsaidb-core/src/permissions/bonsai.rs", "crates/bonsaidb-core/src/connection.rs: HasSession, check_permission"]}
{"id": "C69", "title": "The entry API finds, updates or inserts the one document with the name", "statement": "A call of `entry(name).update_with(..).or_insert_with(..).retry_limit(n).execute()` writes at most once: it applies the update to exactly the contents the document has at the moment of the write, or inserts the given document, or writes nothing and returns an error, the document it read, or nothing. It is refused only if somebody else wrote the document since it was read, retries at most n times and always ends. If the same one document has the name from the call's start to its end, the call returns or updates that document and never inserts; if no document has the name from the call's start until its own insert or its end, the call never updates, returns nothing only if it has nothing to insert, and a document it returns is the one it inserted, the only one with the name; no two documents ever have the same name.", "quantifier": "every collection with a unique name view, number of concurrent callers, update functions, other transactions and background mapping in between, and every interleaving", "why_tests_cant": "needs all interleavings of the view read, the document read, the attempts and the writes of others", "anchors": ["crates/bonsaidb-core/src/schema/collection.rs: NamedCollection::load_document, Entry::execute, AsyncEntry::execute", "crates/bonsaidb-core/src/document/collection.rs: CollectionDocument::update", "crates/bonsaidb-local/src/database.rs: query_with_docs, apply_transaction_to_roots"]}
{"id": "C70", "title": "A call through a client is the same call on the server", "statement": "Every call of a database handle of a client (documents, views, transactions, key-value store, PubSub), asynchronous or blocking, that is answered returns the value or the error the same call with the same arguments returns in the server's process on the database of that name with the session the client presented, and leaves all databases as that call does. A call that fails because the connection or the time ran out was made once or not at all. Every call of a client as a storage and every call of a subscriber reaches the server's storage or the subscriber with the same arguments. Handlers the server's backend registers change none of this.", "quantifier": "every call, all arguments, session, server configuration, custom handlers, state of the databases, and every history of calls by any number of clients", "why_tests_cant": "needs all calls with all arguments against all states, on both kinds of handle", "anchors": ["crates/bonsaidb-core/src/networking.rs: Api impls, Payload", "crates/bonsaidb-client/src/client.rs: AsyncClient, send_api_request", "crates/bonsaidb-client/src/client/remote_database.rs: AsyncRemoteDatabase", "crates/bonsaidb-client/src/client/sync.rs: BlockingClient, BlockingRemoteDatabase", "crates/bonsaidb-server/src/dispatch.rs: register_api_handlers, dispatch_api_request, ServerDispatcher", "crates/bonsaidb-server/src/api.rs: AnyWrapper::handle", "crates/bonsaidb-local/src/async.rs: AsyncDatabase"]}
{"id": "C71", "title": "A typed collection is a map from primary keys to contents", "statement": "Seen through its typed calls (push, push_all, insert, overwrite, update, delete, get, get_multiple, list, list headers, count), a collection is a map from primary keys to contents with a revision number that starts empty. Every call answers, in terms of keys and contents, what that map answers and changes it as its name says: insert and push fail with a conflict on a key in use, update and delete only succeed with the revision now stored, push takes the natural id or the successor of the largest key, push_all stores all items in order under different keys or none, listings show exactly the entries within the range in key order up to the limit. Calls that answer an error change nothing, no call ends in a panic, and calls on other collections do not matter.", "quantifier": "every history of typed calls with any keys and contents, interleaved with transactions on other collections, every key type and contents format that is lossless", "why_tests_cant": "needs all histories of calls over all keys and contents", "anchors": ["crates/bonsaidb-core/src/connection/lowlevel.rs: LowLevelConnection insert, update, overwrite, get, list, delete", "crates/bonsaidb-core/src/schema/collection.rs: SerializedCollection push, push_all, insert, overwrite, get, get_multiple, List", "crates/bonsaidb-core/src/document/collection.rs: CollectionDocument", "crates/bonsaidb-core/src/document/header.rs: CollectionHeader, Header", "crates/bonsaidb-core/src/connection.rs: Collection, List, Bound, RangeRef"]}
{"id": "C72", "title": "modify never loses an update", "statement": "However many tasks call modify on documents they hold (unedited since they were read or written), with modifiers that edit the contents, and whatever other typed calls run between the calls each of them makes: a modify that returns successfully has applied its modifier to the contents stored at one moment and stored the result in that same moment, and the caller's document shows it. So a counter incremented by concurrent modify calls ends up larger by the number of calls that returned successfully. A modify that fails changes nothing, never fails with a conflict, and says why; it goes round its loop only if the document changed between its reload and its update; left alone it returns after at most three calls. refresh shows the document as get does.", "quantifier": "every number of tasks, every interleaving of their calls with other calls, every modifier and document, dropped modify calls", "why_tests_cant": "lost updates only show under particular interleavings of the retry loop with other writers", "anchors": ["crates/bonsaidb-core/src/document/collection.rs: CollectionDocument::modify, update, refresh", "crates/bonsaidb-core/src/schema/collection.rs: SerializedCollection::get"]}
{"id": "C73", "title": "Typed transactions are all or nothing across collections", "statement": "A transaction made of typed operations (push, insert with or without a key, overwrite, update, delete, check that a document exists or is current), on any number of collections, acts on the maps from keys to contents of these collections at once: all its operations in their order, each seeing what the ones before it did, answered with one result each; or, with an error that names the first operation that cannot be done, nothing at all. A relation between documents of several collections that every transaction preserves as a whole holds at all times. A transaction with a check that does not hold does nothing.", "quantifier": "every history of transactions of any length over any family of collections with lossless key and contents formats", "why_tests_cant": "needs all combinations of operations, failures at every position and all earlier histories", "anchors": ["crates/bonsaidb-core/src/transaction.rs: Transaction, Operation", "crates/bonsaidb-core/src/schema/collection.rs: push_in_transaction, insert_in_transaction, overwrite_in_transaction", "crates/bonsaidb-core/src/document/collection.rs: update_in_transaction, delete_in_transaction"]}
{"id": "C74", "title": "Typed view queries return what the typed documents emit", "statement": "A typed query of a view (everything, one key, several keys or a range; any order and limit) returns, decoded, exactly the mappings the map function of the view emits for the documents of the collection, each with the header of its document, under the keys asked for in the order of the key type; never one document twice under a key; in the order asked for; with a limit, the first results. If the view is updated first, every document is seen as of some committed state between the start of the query and its end. `reduce` and `reduce_grouped` are the reduce function applied to the results of the query, and an error for a view without reduce function. A query with documents pairs every result with its document. `delete_docs` deletes exactly the documents of the results of the query.", "quantifier": "every execution of typed transactions on the collection, any transactions on others, mapping jobs, failures and restarts; every view with lossless key and value formats; every query", "why_tests_cant": "needs all histories, all schedules of mapping jobs and all views", "anchors": ["crates/bonsaidb-core/src/connection/lowlevel.rs: query, query_with_docs, query_with_collection_docs, reduce, reduce_grouped, delete_docs", "crates/bonsaidb-core/src/connection.rs: View", "crates/bonsaidb-core/src/schema/view/map.rs: MappedDocuments, Map", "crates/bonsaidb-core/src/schema/schematic.rs: ViewInstance", "crates/bonsaidb-core/src/schema/view.rs: CollectionMapReduce"]}
{"id": "C75", "title": "A query that updates its view first waits long enough, and not forever", "statement": "A query with the default access policy returns only after a mapping job has covered the last transaction committed before the query began, whatever other writers, queries, mapping jobs, failures and restarts do meanwhile: for every document it reads the mappings of the document as of a state committed at or after its start; if nobody else writes it reads exactly the map of the committed documents. It asks for at most two mapping jobs however many transactions commit meanwhile; it always can return; a view that is up to date is not mapped again.", "quantifier": "every number of queries, writers, workers and mapping jobs, every interleaving of their steps, every failure, panic and restart", "why_tests_cant": "the wait loop races with commits and with jobs other callers started; unit tests see a handful of schedules", "anchors": ["crates/bonsaidb-local/src/tasks.rs: update_view_if_needed, mark_view_updated", "crates/bonsaidb-local/src/views/mapper.rs: Mapper::execute", "crates/bonsaidb-local/src/tasks/manager.rs, tasks/manager/jobs.rs, tasks/manager/managed_job.rs", "crates/bonsaidb-local/src/database.rs: for_each_in_view"]}
{"id": "C76", "title": "The typed key-value calls: what is set comes back, strict conversions are exact, locks exclude, tickets are unique", "statement": "What set_key, set_binary_key or set_numeric_key stored is what get_key answers until another command writes the key or it expires; the status of a set tells truthfully whether the key was absent, present or left alone, and returning_previous answers what a read would have answered. into_u64, into_i64 and into_f64 answer exactly the stored number or an error. After only_if_vacant answered Inserted no other only_if_vacant answers Inserted until the key is deleted, overwritten or expires. increment_key_by(key, 1) never answers the same number twice and loses no increment. increments answer in the amount's type. No call panics. Nested namespaces are separate.", "quantifier": "all stores, histories and interleavings of other operations and background work, all values, numbers, keys, namespaces, times and durations", "why_tests_cant": "the conversions range over all 64-bit integers and floats; locks and counters are about every interleaving of callers", "anchors": ["crates/bonsaidb-core/src/keyvalue.rs: KeyValue, Value, Numeric, PendingValue", "crates/bonsaidb-core/src/keyvalue/implementation/set.rs", "crates/bonsaidb-core/src/keyvalue/implementation/get.rs", "crates/bonsaidb-core/src/keyvalue/implementation/increment.rs", "crates/bonsaidb-core/src/keyvalue/implementation/namespaced.rs", "crates/bonsaidb-core/src/keyvalue/timestamp.rs"]}
{"id": "C77", "title": "A buffered writer appends exactly the bytes it accepted", "statement": "Whatever sequence of write, write_all, flush, set_buffer_size and drop is called on File::append_buffered, and whatever others do to the database meanwhile, the file receives exactly the bytes write accepted, once and in order: after a successful flush (or drop of the writer while the file exists) the file is its former contents followed by everything accepted so far; before that only a tail accepted since the last successful flush may be missing; an error loses nothing that was accepted, and a later flush does not succeed without it. write takes at least one byte of nonempty data, write_all takes all of it while the file exists. When several writers append to a file, each one's bytes keep their order. No call panics. The same for the asynchronous writer under every schedule.", "quantifier": "all sequences of calls and polls, all data, buffer and block sizes, allocator answers, interleavings with other clients, failures and cancellations", "why_tests_cant": "buffers split the data at arbitrary points, futures complete at arbitrary polls and other clients interleave arbitrarily", "anchors": ["crates/bonsaidb-files/src/direct.rs: BufferedAppend, AsyncBufferedAppend, File::append_buffered", "crates/bonsaidb-files/src/schema/block.rs: Block::append, append_async"]}
{"id": "C78", "title": "A schema knows exactly the collections and views it defines", "statement": "Building a schematic from a schema succeeds exactly when no two of the defined collections and no two of the defined views have the same name, however definitions are nested; otherwise the error tells which kind (for a view, which name) was defined twice. The schematic then lists exactly the defined collections, each with its own key description, encryption key and id generator, and exactly the defined views, each under its name and type and, in order of definition, in its collection; the eager views are those whose policy is Eager or Unique. Unknown names and types are not found, and every view belongs to a collection of the schema.", "quantifier": "all nested sequences of define_collection and define_view calls with arbitrary names, types, keys and policies", "why_tests_cant": "schemas are user code: any nesting, order, name collision or number of definitions can occur", "anchors": ["crates/bonsaidb-core/src/schema/schematic.rs: Schematic::from_schema, define_collection, define_view_with_schema, view_by_name, views_in_collection, eager_views_in_collection, encryption_key_for_collection"]}
{"id": "C79", "title": "The log and the documents of earlier versions read as what they recorded", "statement": "list_executed_transactions returns, for every stored record of the requested page, the changes that were recorded: a record of this version as it was written; a record of an earlier version as the same changed documents (collection, id, deletion; numeric ids in their big-endian form) in the same order, with every collection listed once, or as the same changed keys. A record that cannot be read or has an unknown version makes the call fail; it is never skipped, altered or answered by a panic. Iterating over the changes of a record, by reference or draining, yields every change once with its collection. A document stored by an earlier version reads with its revision, contents and numeric id.", "quantifier": "all records of either version with any number of changes, collections and ids; all logs and pages", "why_tests_cant": "the data of earlier versions is arbitrary; tests contain two small databases", "anchors": ["crates/bonsaidb-local/src/database/compat.rs: deserialize_executed_transaction_changes, serialize_executed_transaction_changes, TryFrom<ChangesV0> for Changes", "crates/bonsaidb-local/src/database.rs: list_executed_transactions, deserialize_document", "crates/bonsaidb-core/src/transaction.rs: DocumentChanges::get, iter, into_iter"]}
{"id": "C80", "title": "Views follow the running program through upgrades, downgrades and crashes", "statement": "A database is used by one program after another, in which a view may have another version, map function or policy; a program may end at any moment, also in the middle of the integrity scan or of a mapping job. Provided that equal versions mean equal map functions, once the running program has checked a view, the view shows of every document not marked for mapping what the running program's map function makes of it, and with no document marked it holds exactly the mappings of all documents. A stored version counts as current only if it is what the library writes now for that version of the view.", "quantifier": "all histories of programs, transactions, scans and mapping jobs of several views, ending at any point; all stored versions, including missing, older and unreadable ones", "why_tests_cant": "upgrades, downgrades and crash points combine without bound", "anchors": ["crates/bonsaidb-local/src/views/integrity_scanner.rs: IntegrityScan::execute, ViewVersion", "crates/bonsaidb-local/src/tasks.rs: spawn_integrity_check, view_integrity_checked, mark_integrity_check_complete", "crates/bonsaidb-local/src/database.rs: apply_transaction", "crates/bonsaidb-core/src/schema/view.rs: version"]}
{"id": "C81", "title": "Shutting down: only when asked, told to everybody, forced only after the timeout; listeners work until then", "statement": "A server shuts down only when the application or a signal asks for it. Once a call of shutdown waits or has returned, no listener or connection starts watching any more and every one that watches has been told or is told as soon as it looks; the server is never running again. With shutdown(Some(timeout)), or a single interrupt (30 seconds), nobody is told of a forced shutdown before the timeout has passed; a forced shutdown stays forced; listen_for_shutdown returns once the server has shut down. Every listener accepts connections until the shutdown, whatever connections fail, and ends with it.", "quantifier": "all histories of calls, signals, listeners and connections, at any times; all sequences of accepted and failed connections", "why_tests_cant": "signal timing and the order of calls, listeners and connections are unbounded; tests shut down once", "anchors": ["crates/bonsaidb-server/src/server/shutdown.rs: Shutdown, ShutdownStateWatcher", "crates/bonsaidb-server/src/server.rs: shutdown, listen_for_shutdown, listen_on", "crates/bonsaidb-server/src/server/tcp.rs: listen_for_tcp_on, listen_for_secure_tcp_on"]}
{"id": "C82", "title": "Connected clients: the list is exact, broadcasts reach it, and the backend hears of each client and session in order", "statement": "connected_clients lists exactly the clients whose connection was let in and whose end has not been processed, each once, with distinct ids and connected() true; a broadcast reaches each of them once and nobody else. The backend is told of every client: client_connected first and once, client_disconnected at most once and then nothing more of that client; client_authenticated is called for sessions with an identity, once each, while the client is there; each session that was authenticated is announced as ended exactly once, at the log-out or before client_disconnected, and no other session is. When connecting is not permitted, or the backend rejects the client, no session of it is ever announced. A connection gets an id as long as one is free.", "quantifier": "all histories of connections, callbacks, log-ins, log-outs, disconnections, broadcasts and their interleavings; all values of the id counter", "why_tests_cant": "the handlers of a client's requests run concurrently with the end of its connection; the order of the callbacks depends on the schedule, and the id counter wraps after 2^32 connections", "anchors": ["crates/bonsaidb-server/src/server.rs: connected_clients, broadcast, initialize_client, disconnect_client", "crates/bonsaidb-server/src/server/connected_client.rs: ConnectedClient, OwnedClient", "crates/bonsaidb-server/src/dispatch.rs: Authenticate, AssumeIdentity, LogOutSession", "crates/bonsaidb-server/src/backend.rs: Backend"]}
{"id": "C83", "title": "Hashing passwords: every call gets its own answer, at the strength configured, from a pool that keeps working", "statement": "Hashing a password gives a hash that this password, and no other, verifies against; verifying says whether the password fits the saved hash of that user; each call gets the answer to its own request, whatever else is hashed at the same time. With timed parameters every hash has the configured memory and lanes and a cost of at least 2 that was measured to take the minimum duration; the measurement ends, and finds the least such cost on a machine of constant speed. The default configuration gives each hasher the documented share of memory, at least 19 MiB, and together no more than there is. The hashing threads keep working: every call is answered.", "quantifier": "all passwords, users, saved hashes, numbers of hashers, schedules of threads and measured durations; all core counts and memory sizes", "why_tests_cant": "durations and schedules are the machine's; the panics of the calibration need clocks and costs no test meets, and concurrent callers need every interleaving", "anchors": ["crates/bonsaidb-local/src/storage/argon.rs: Hasher, HashingThread, initialize_builder_template, ceil_divide", "crates/bonsaidb-local/src/config/argon.rs: ArgonConfiguration, TimedArgonParams"]}
{"id": "C84", "title": "Certificates: what is installed is stored and presented, and renewed in time", "statement": "Installing a certificate stores it, gives it to TLS connections from then on and after every restart, and removes the pinned file; installing a self-signed one does the same with its leaf pinned, and without overwrite leaves a certificate that is there alone. An install that fails changes nothing. Whatever runs at once, TLS connections are given only certificates that were installed, with a usable key; the one given is the stored one. Challenge certificates go only to clients that ask for the ACME protocol. The ACME loop orders a new certificate within an hour of the current one coming within 14 days of its renewal, never earlier, and goes on doing so.", "quantifier": "all certificates, interleavings of installs, listener starts and restarts; all handshakes; all functions from certificates and times to the time left, all outcomes of orders", "why_tests_cant": "races between installs, restarts between two writes and renewals months apart are schedules no test drives", "anchors": ["crates/bonsaidb-server/src/server.rs: install_certificate, install_self_signed_certificate, refresh_certified_key", "crates/bonsaidb-server/src/server/tcp.rs: ResolvesServerCert::resolve, listen_for_secure_tcp_on", "crates/bonsaidb-server/src/server/acme.rs: update_acme_certificates"]}
{"id": "C85", "title": "Asynchronous calls are the blocking calls: each takes effect once, between call and return", "statement": "A call on AsyncStorage or AsyncDatabase does what the same call on the blocking type does, with the same session: it takes effect once, after it was made and before it returns, and its result is that of its own request; calls made at the same time behave as if made one after another, in an order that respects which returned before which was made. A call that fails because of the runtime either panicked or never takes effect. A call whose future was dropped does not take effect afterwards. Handles made from a handle run on its runtime.", "quantifier": "all blocking storages seen as state machines, all requests, schedules of blocking threads, drops of futures and shutdowns of runtimes", "why_tests_cant": "the order of blocking threads, the moment a future is dropped and the moment a runtime ends are schedules", "anchors": ["crates/bonsaidb-local/src/async.rs: AsyncStorage, AsyncDatabase", "crates/bonsaidb-local/src/storage.rs: into_async", "crates/bonsaidb-local/src/database.rs: into_async", "crates/bonsaidb-local/src/error.rs: TaskJoin"]}
{"id": "C86", "title": "A storage directory is open once at a time, with the same id every time", "statement": "However many times a directory is opened, in one process or in several, at most one opening can change the data at any moment, also while the last keys of a storage that was dropped are still being persisted; the lock is given up when an opening ends, however it ends, and another can then be made. The id of the storage is settled when it is first opened and is the same for every later opening, except one that configures an id, whose id is its own and is not persisted.", "quantifier": "all numbers of openings, configured and random ids, schedules of their steps, open databases, and crash points", "why_tests_cant": "the interleaving of openings and the crash point are schedules over several processes", "anchors": ["crates/bonsaidb-local/src/storage.rs: StorageInstance::lookup_or_create_id, StorageLock, LockData", "crates/bonsaidb-local/src/database.rs: Context::new, Drop for ContextData", "crates/bonsaidb-local/src/database/keyvalue.rs: background_worker"]}
{"id": "C87", "title": "A vault key storage gives back the key stored for a storage id, and no other", "statement": "Both provided key storages, the local directory and S3 with a path prefix, give for a storage id the key last stored for it, whatever is done for other ids or other prefixes; a key given was given to be stored for that id; no key is reported only if none was stored; a call that stores a key and is cut off leaves the old key or the new. Storages that share a key storage do not disturb each other: once opened with certain master keys, a storage is opened with the same, whatever happens to the others. The S3 key storage uses the current runtime, or makes one, and the region and endpoint that were set.", "quantifier": "all ids, prefixes, key pairs, histories of calls with failures and crashes, and numbers of storages sharing a key storage", "why_tests_cant": "the histories, crash points and the 2^64 ids times all prefixes cannot be tried", "anchors": ["crates/bonsaidb-local/src/vault.rs: LocalVaultKeyStorage, Vault::initialize, unseal", "crates/bonsaidb-keystorage-s3/src/lib.rs: S3VaultKeyStorage, path_for_id, client, new", "crates/bonsaidb-local/src/storage.rs: Display for StorageId"]}
{"id": "C88", "title": "A view is given exactly what the map function emits, in order and as often", "statement": "However a map function puts its result together, with emit functions, push, and, extend, or by collecting entries or results, iterating over it gives exactly the entries it emitted, in order and each as often; len and is_empty agree. The indexer gets these with their keys and values encoded, each with its source, or an error if one cannot be encoded, never a part. emit_if emits exactly if the condition holds; a header that cannot be encoded is an error.", "quantifier": "all ways of building a result, of any size and nesting, all keys, values, headers and encodings that may fail", "why_tests_cant": "the ways of building results are an unbounded tree of operations", "anchors": ["crates/bonsaidb-core/src/schema/view/map.rs: Map, Mappings, MappingsIntoIter, MappingsIter", "crates/bonsaidb-core/src/document/header.rs: Emit", "crates/bonsaidb-core/src/schema/schematic.rs: ViewInstance::map"]}
{"id": "C89", "title": "Every key type can be described, by its structure", "statement": "KeyDescription::for_key never panics and returns the structure of the key type: basic kinds for primitives, and for tuples, Option, Result, library wrappers and derived structs a composite with exactly the descriptions of their fields in order; derived enums are described so that their encoding can be told from it.", "quantifier": "all key types built from primitives, tuples, options, results, wrappers with attributes, derived structs and derived enums, of any width and nesting", "why_tests_cant": "types nest without bound and the describer is a state machine over the visits of a whole tree", "anchors": ["crates/bonsaidb-core/src/key.rs: KeyDescription::for_key, KeyDescriber, KeyVisitor, describe", "crates/bonsaidb-macros/src/lib.rs: key_derive_impl", "crates/bonsaidb-core/src/key/time.rs: describe", "crates/bonsaidb-core/src/key/varint.rs: describe"]}
{"id": "C90", "title": "Listing the available schemas is complete and exact", "statement": "list_available_schemas returns exactly one summary for each schema registered with the storage; a summary has exactly the collections defined in the schema, with the description of their primary keys, and exactly their views with the description of their keys, their update policies and versions.", "quantifier": "all schemas, whatever collections and views they define in whatever order, all sets of registered schemas and databases", "why_tests_cant": "schemas are defined by arbitrary programs and databases share schemas arbitrarily", "anchors": ["crates/bonsaidb-core/src/schema/summary.rs: SchemaSummary", "crates/bonsaidb-local/src/storage.rs: list_available_schemas", "crates/bonsaidb-core/src/connection.rs: StorageConnection::list_available_schemas"]}
{"id": "C91", "title": "Updating a view ends, with everything saved or an error", "statement": "Updating a view ends for every set of invalidated documents. If nothing fails it succeeds, and every invalidated document was mapped and its mappings saved exactly once. If a map or reduce function fails, a unique key is violated or a document cannot be read, the update returns an error to those who wait for it: it never waits forever, never panics, and never reports success.", "quantifier": "all sets of invalidated documents, numbers of workers, failing documents, batches and reads, and all interleavings of the reading, mapping and saving threads", "why_tests_cant": "three threads and their workers communicate through bounded channels; deadlocks and panics depend on the schedule and on which document fails, and need more than 2048 documents", "anchors": ["crates/bonsaidb-local/src/views/mapper.rs: DocumentRequest::map, generate_batches, map_batches, save_mappings, map_view"]}
{"id": "C92", "title": "A password read from the terminal is the one that was typed", "statement": "The command line's password prompts return exactly the line that was typed and edited with backspace and Ctrl-U, up to Enter or Ctrl-D; Escape or Ctrl-C cancels. A password that is asked for twice is used only if both lines are equal. A command that is cancelled or not confirmed changes nothing, and creating a user with a password creates the user with this password or changes nothing.", "quantifier": "all sequences of keys, texts, and states of the storage", "why_tests_cant": "the input is any sequence of keys and characters of any language", "anchors": ["crates/bonsaidb-local/src/cli.rs: read_password_from_stdin, read_sensitive_input_from_stdin, read_password_loop", "crates/bonsaidb-local/src/cli/admin.rs: Command::execute"]}
{"id": "C93", "title": "Those who wait for a background job that fails see its error", "statement": "When a background job (a view update, an integrity check, a compaction) fails, every call that waits for it returns the error of the failure, with its kind (for example UniqueKeyViolation) and text, however many wait and in whatever order they are woken; the error keeps its kind through the local, server and client crates.", "quantifier": "all numbers of waiters, interleavings of the job's thread and the waiters, waiters that stop waiting, and errors", "why_tests_cant": "whether a waiter gets the error or a wrapped one depends on the schedule of the threads that share it", "anchors": ["crates/bonsaidb-local/src/tasks/manager/jobs.rs: Jobs::job_completed", "crates/bonsaidb-local/src/tasks/handle.rs: Handle::receive", "crates/bonsaidb-local/src/error.rs: From<Arc<Error>>, From<Error> for bonsaidb_core::Error", "crates/bonsaidb-server/src/error.rs: From<Error> for bonsaidb_core::Error", "crates/bonsaidb-client/src/error.rs: From<Error> for bonsaidb_core::Error"]}
{"id": "C94", "title": "In a browser each request is answered, and no request is lost", "statement": "A client in a browser answers each request by its response, once, or with an error when its connection cannot be made or ends; no request is lost, none fails because of an earlier connection whose error was already reported, and a request times out only when its timeout passed.", "quantifier": "all numbers of requests, and all interleavings of calls, tasks and events of the sockets (open, message, error, connect timeout, close)", "why_tests_cant": "which of the callbacks and tasks takes a request depends on the order of the events", "anchors": ["crates/bonsaidb-client/src/client/wasm_websocket_worker.rs: create_websocket, forward_request_with_shutdown, on_open_callback, send_request, on_message_callback, connect_timeout_callback, on_error_callback, on_close_callback", "crates/bonsaidb-client/src/client.rs: Client::send_request_async, disconnect_pending_requests"]}
{"id": "C95", "title": "A transaction finds every tree it uses, holds only its own, and encrypts what it stores", "statement": "Applying a transaction never panics because storage it needs was not opened: it ends with CollectionNotFound, with the first error, or done; it locks exactly the trees of its collections and their views, each once; and everything it stores about a collection with an encryption key is encrypted with that key, through the vault that readers use.", "quantifier": "all schemas (collections, keys, views in any order and with any update policies), transactions, outcomes of their operations, and storage configurations", "why_tests_cant": "the trees that are needed depend on the combination of the schema and the operations of the transaction", "anchors": ["crates/bonsaidb-local/src/open_trees.rs: OpenTrees", "crates/bonsaidb-local/src/database.rs: open_trees_for_transaction, apply_transaction_to_roots, update_eager_views, invalidate_changed_documents, collection_tree", "crates/bonsaidb-core/src/schema/schematic.rs: define_view_with_schema, views_in_collection, eager_views_in_collection"]}
{"id": "C96", "title": "The command line shows exactly what is stored, runs commands where it was told to, and serves until it is asked to stop", "statement": "`schema` prints each schema, collection or view name exactly once, in order, whatever order the storage gives them in, or says what is missing; a name that it prints can be given back to it. A command runs only after every step before it succeeded, on the storage and as the users its options name, and success is reported exactly if it ran; options that do not apply are refused. `serve` ends only when it is asked to, always then, and does not keep running when it cannot listen.", "quantifier": "all sets of schemas, names and argument texts; all options and outcomes of the steps; all interleavings of the listeners, certificates, signals and calls", "why_tests_cant": "names, map orders, failures and signals are unbounded", "anchors": ["crates/bonsaidb-local/src/cli/schema.rs: Command, CollectionOrView", "crates/bonsaidb/src/cli.rs: Command::execute, Args::execute", "crates/bonsaidb-server/src/cli/serve.rs: Serve::execute_with", "crates/bonsaidb-core/src/schema/names.rs: Display, FromStr"]}
{"id": "C97", "title": "Messages sent out of band reach their callbacks, and a callback may use its client", "statement": "Each message that the server sends to a client out of band is given to the callback registered for its API, once, in the order sent, one at a time; a callback may make requests of the same client, and these, like those of others, are given their responses.", "quantifier": "all sets of registrations; all sequences of requests, responses and messages; all interleavings; callbacks that make any number of requests", "why_tests_cant": "orders of arrival, callbacks and requests are unbounded", "anchors": ["crates/bonsaidb-client/src/client.rs: process_response_payload, ApiCallback", "crates/bonsaidb-client/src/builder.rs: with_api, with_api_callback", "crates/bonsaidb-client/src/client/quic_worker.rs: process", "crates/bonsaidb-client/src/client/tungstenite_worker.rs: response_processor", "crates/bonsaidb-client/src/client/wasm_websocket_worker.rs: on_message_callback"]}
{"id": "C98", "title": "A client and a server speak exactly if they speak the same version of the protocol", "statement": "A client is connected exactly if the server speaks its version of the protocol, whatever the transport and however the connection reached the server, and otherwise is told that the versions differ; the server finds its version among those that a client offers. A client uses the transport, host and port that its address names. A TCP connection is the service's, or the server's if the service does not take it, or a challenge that neither sees.", "quantifier": "all versions, header lines, addresses, services and negotiated protocols", "why_tests_cant": "header lists, versions and services are unbounded", "anchors": ["crates/bonsaidb-client/src/client.rs: new_from_parts", "crates/bonsaidb-client/src/error.rs: From<WebSocketError>", "crates/bonsaidb-client/src/client/tungstenite_worker.rs: reconnecting_client_loop", "crates/bonsaidb-client/src/client/quic_worker.rs: connect", "crates/bonsaidb-server/src/server/websockets.rs: VersionChecker, upgrade_websocket", "crates/bonsaidb-server/src/server/tcp.rs: handle_tcp_connection, StandardTcpProtocols"]}
{"id": "C99", "title": "A schema that was registered, and no other, is the one by which databases of its name work", "statement": "A database opens as a schema exactly if it was created with that schema's name and the name was registered, and the handle then works by the schema that the caller named, whatever was registered or created in between. A second registration of a name is refused and changes nothing. Creating a database needs a registered schema, and its schema never changes. The storage lists exactly the schemas that are registered with it.", "quantifier": "all schemas, also several of one name, configurations, stored databases and histories of registrations and creations", "why_tests_cant": "schemas and histories are unbounded", "anchors": ["crates/bonsaidb-local/src/config.rs: StorageConfiguration::register_schema", "crates/bonsaidb-local/src/storage.rs: Storage::register_schema, create_admin_database_if_needed, database_without_schema, create_database_with_schema, list_available_schemas, StorageSchemaOpener", "crates/bonsaidb-server/src/config.rs: with_schema", "crates/bonsaidb-server/src/server.rs: ServerConfiguration with Hosted"]}
{"id": "C100", "title": "What is read for ACME contacts is what was last written for them", "statement": "After any history of writers, also at once, the account that is read for a list of contacts has the data last written for these contacts, and there is one account for them. A write fails only if another for the same contacts came since its writer looked, and then changes nothing.", "quantifier": "all lists of contacts, data, and interleavings of any number of writers", "why_tests_cant": "writers, contacts and histories are unbounded", "anchors": ["crates/bonsaidb-server/src/server/acme.rs: AcmeAccount, AcmeAccountByContacts, read_account, write_account, update_acme_certificates"]}
{"id": "C101", "title": "A token is new, and its holder is let in as the user it was made for and nobody else", "statement": "A token that is created has an id that no token had, a secret that was drawn, and the identity that the caller's reference denoted; it replaces no other token. From then on, whatever happens to users and tokens, whoever has it is let in as that user, until the token or the user is deleted; then it lets in as nobody.", "quantifier": "all storages, references, random draws, and histories of creating, changing and deleting users and tokens", "why_tests_cant": "histories and draws are unbounded", "anchors": ["crates/bonsaidb-core/src/admin/authentication_token.rs: AuthenticationToken::random, create, create_async", "crates/bonsaidb-core/src/connection.rs: IdentityReference::resolve", "crates/bonsaidb-local/src/storage.rs: create_user, delete_user", "crates/bonsaidb-local/src/storage/token_authentication.rs", "crates/bonsaidb-local/src/database.rs: execute_insert"]}
{"id": "C102", "title": "Nobody gets the permissions of a group without being added to it", "statement": "Whatever groups, users and memberships were created, changed and deleted, creating a permission group changes the permissions of no user and no role; deleting one takes its permissions from everybody.", "quantifier": "all admin databases, groups, references and histories of operations on groups, users, roles and memberships", "why_tests_cant": "histories and memberships are unbounded", "anchors": ["crates/bonsaidb-core/src/admin/group.rs: PermissionGroup", "crates/bonsaidb-core/src/admin/user.rs: User::effective_permissions", "crates/bonsaidb-core/src/admin/role.rs: Role::effective_permissions", "crates/bonsaidb-local/src/storage.rs: update_user_with_named_id", "crates/bonsaidb-local/src/database.rs: execute_insert"]}
