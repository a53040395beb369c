{
 "claims": [
  {
   "property": "C01",
   "status": "proved",
   "theorems": [
    "Bonsai.C01_unsigned_keys",
    "Bonsai.C01_order_explicit"
   ],
   "note": ""
  },
  {
   "property": "C02",
   "status": "partial",
   "theorems": [
    "Bonsai.C02_signed_keys_partial",
    "Bonsai.C02_violated",
    "Bonsai.C02_never_sorts",
    "Bonsai.C02_mixed_signs_reversed",
    "Bonsai.C02_signed_round_trip"
   ],
   "note": "The code violates the property: to_be_bytes of signed integers puts negatives after positives. Negation proved with a witness for every width; same-sign order and round trip proved."
  },
  {
   "property": "C03",
   "status": "proved",
   "theorems": [
    "Bonsai.C03_round_trip",
    "Bonsai.C03_rejections",
    "Bonsai.C03_encoding_succeeds",
    "Bonsai.C03_declared_length"
   ],
   "note": "All key types incl. nested composites; ordered_varint is an assumed parameter (LawfulVarint)."
  },
  {
   "property": "C04",
   "status": "partial",
   "theorems": [
    "Bonsai.C04_composite_order_partial",
    "Bonsai.C04_composite_order_deny",
    "Bonsai.C04_composite_order_fixed",
    "Bonsai.C04_enum_order_partial",
    "Bonsai.C04_field_types",
    "Bonsai.C04_violated"
   ],
   "note": "The code violates the property when one variable-length field is the other plus a null byte; negation proved. Proved for all other values, in full for deny mode and for fixed-width fields."
  },
  {
   "property": "C05",
   "status": "partial",
   "theorems": [
    "Bonsai.C05_composite_round_trip",
    "Bonsai.C05_encoding_failure",
    "Bonsai.C05_no_unread_bytes",
    "Bonsai.C05_enum_no_unread_bytes",
    "Bonsai.C05_violated_option_field"
   ],
   "note": "Proved for all field types with honest LENGTH; violated for Option of a fixed-width type inside a composite (negation proved)."
  },
  {
   "property": "C06",
   "status": "partial",
   "theorems": [
    "Bonsai.C06_no_panic_partial",
    "Bonsai.C06_violated_slice",
    "Bonsai.C06_violated_todo"
   ],
   "note": "The code panics on crafted input (negation proved); panic freedom proved for primitives and fixed-width composites."
  },
  {
   "property": "C07",
   "status": "proved",
   "theorems": [
    "Bonsai.C07_bytes_prefix_range"
   ],
   "note": ""
  },
  {
   "property": "C08",
   "status": "proved",
   "theorems": [
    "Bonsai.C08_string_prefix_range"
   ],
   "note": ""
  },
  {
   "property": "C09",
   "status": "proved",
   "theorems": [
    "Bonsai.C09_next_unsigned",
    "Bonsai.C09_next_signed",
    "Bonsai.C09_next_nonzero_unsigned",
    "Bonsai.C09_next_nonzero_signed"
   ],
   "note": ""
  },
  {
   "property": "C10",
   "status": "partial",
   "theorems": [
    "Bonsai.Time.C10_duration_keys",
    "Bonsai.Time.C10_out_of_range_rejected",
    "Bonsai.Time.C10_violated_decode_panics",
    "Bonsai.Time.C10_decode_panics_only_at_max",
    "Bonsai.Time.C10_system_time_keys_partial",
    "Bonsai.Time.C10_violated_before_epoch"
   ],
   "note": "Order and round trip proved for every Duration. Violated: crafted bytes with u64::MAX seconds panic in Duration::new, and SystemTime before 1970 panics; both negations proved. ordered_varint is a parameter assumed lawful."
  },
  {
   "property": "C100",
   "status": "partial",
   "theorems": [
    "Bonsai.Acme.C100_read_partial",
    "Bonsai.Acme.C100_read",
    "Bonsai.Acme.C100_server",
    "Bonsai.Acme.C100_one",
    "Bonsai.Acme.C100_succeeds",
    "Bonsai.Acme.C100_fails",
    "Bonsai.Acme.C100_violated_join"
   ],
   "note": "Proved for every interleaving: what is read is the last write under the joined contacts, for plain contacts (and those the server itself uses) the last for the same contacts; one account for each; when a write succeeds and what a failure leaves. Violated: contacts with a semicolon share an account with other lists, and replace it; no contacts and one empty contact too."
  },
  {
   "property": "C101",
   "status": "partial",
   "theorems": [
    "Bonsai.Ident.C101_create",
    "Bonsai.Ident.C101_when",
    "Bonsai.Ident.C101_secret",
    "Bonsai.Ident.C101_kept",
    "Bonsai.Ident.C101_deleted",
    "Bonsai.Ident.C101_user_partial",
    "Bonsai.Ident.C101_user_new",
    "Bonsai.Ident.C101_violated_key",
    "Bonsai.Ident.C101_violated_reissue"
   ],
   "note": "Proved: tokens are new and replace none, secrets differ with the choices drawn, a token stays until deleted and lets in as its user while that user exists. Violated: a token is created for the key of a user that does not exist, and lets in as whoever is created with that id; tokens of deleted users remain, ids are given again, and the token lets in as the new user."
  },
  {
   "property": "C102",
   "status": "partial",
   "theorems": [
    "Bonsai.Ident.C102_create_partial",
    "Bonsai.Ident.C102_names",
    "Bonsai.Ident.C102_delete",
    "Bonsai.Ident.C102_violated_reissue",
    "Bonsai.Ident.C102_violated_key"
   ],
   "note": "Proved for every history in which members are added to groups that exist (by name they always do) and only groups without members are deleted: a new group changes nobody's permissions; deletion takes them away. Violated otherwise: memberships of deleted groups remain, ids are given again, and the new group's permissions are the old members'; a member may be added by the key of a group that does not exist yet."
  },
  {
   "property": "C11",
   "status": "partial",
   "theorems": [
    "Bonsai.Time.C11_to_duration_exact_partial",
    "Bonsai.Time.C11_violated_min",
    "Bonsai.Time.C11_round_trip_partial",
    "Bonsai.Time.C11_floor_partial",
    "Bonsai.Time.C11_violated_floor",
    "Bonsai.Time.C11_violated_days_saturates",
    "Bonsai.Time.C11_violated_overflow",
    "Bonsai.Time.C11_within_one_unit",
    "Bonsai.Time.C11_monotone",
    "Bonsai.Time.C11_error_only_out_of_range",
    "Bonsai.Time.C11_sum_exact_partial",
    "Bonsai.Time.C11_sum_succeeds"
   ],
   "note": "The code violates the property for i64::MIN (us/ms/s), for negative fractions at minutes and coarser, for Days saturation and for u64 overflow; negations proved, everything else proved."
  },
  {
   "property": "C12",
   "status": "partial",
   "theorems": [
    "Bonsai.Time.C12_add_exact_partial",
    "Bonsai.Time.C12_add_denotes_sum",
    "Bonsai.Time.C12_violated_exact_second",
    "Bonsai.Time.C12_violated_always",
    "Bonsai.Time.C12_violated_saturation",
    "Bonsai.Time.C12_sub",
    "Bonsai.Time.C12_key",
    "Bonsai.Time.C12_key_chronological",
    "Bonsai.Time.C12_add_saturates",
    "Bonsai.Time.C12_key_rejects"
   ],
   "note": "Addition violates normalisation when nanoseconds sum to exactly one second, and saturation is not monotone; negations proved, the rest proved."
  },
  {
   "property": "C13",
   "status": "partial",
   "theorems": [
    "Bonsai.Time.C13_round_trip_partial",
    "Bonsai.Time.C13_fallback_refused",
    "Bonsai.Time.C13_violated_before_unix_epoch"
   ],
   "note": "Round trip proved for every timestamp that has a Unix time; others display a text that is always refused."
  },
  {
   "property": "C14",
   "status": "partial",
   "theorems": [
    "Bonsai.DocId.C14_text_round_trip_partial",
    "Bonsai.DocId.C14_text_injective_partial",
    "Bonsai.DocId.C14_u64_ids_round_trip",
    "Bonsai.DocId.C14_violated_dollar",
    "Bonsai.DocId.C14_violated_collision",
    "Bonsai.DocId.C14_violated_unparsable",
    "Bonsai.DocId.C14_violated_length",
    "Bonsai.DocId.C14_length_checked_partial"
   ],
   "note": "Proved for every legal id except printable ids containing '$'; for those the code violates the property (F11). Parsing also skips the length limit when no zero count is given (F40)."
  },
  {
   "property": "C15",
   "status": "proved",
   "theorems": [
    "Bonsai.Names.C15_name_round_trip",
    "Bonsai.Names.C15_encoding_alphabet",
    "Bonsai.Names.C15_qualified_round_trip",
    "Bonsai.Names.C15_view_round_trip",
    "Bonsai.Names.C15_encoded_injective",
    "Bonsai.Names.C15_tree_names_distinct",
    "Bonsai.Names.C15_malformed_rejected",
    "Bonsai.Names.C15_dot_count"
   ],
   "note": "All names, all strings."
  },
  {
   "property": "C16",
   "status": "partial",
   "theorems": [
    "Bonsai.Names.C16_resource_names_injective_partial",
    "Bonsai.Names.C16_violated_dotted_authority",
    "Bonsai.Names.C16_violated_reserved_database",
    "Bonsai.Names.C16_violated_empty_namespace",
    "Bonsai.Names.C16_violated_master_key"
   ],
   "note": "Injective for plain resources; the code violates the property for dotted authorities (F26), databases named like a server-level resource kind (F41), the empty namespace, and a key id _master."
  },
  {
   "property": "C17",
   "status": "proved",
   "theorems": [
    "Bonsai.Legacy.C17_tuple_v1_decodes",
    "Bonsai.Legacy.C17_option_v1_decodes",
    "Bonsai.Legacy.C17_trailing_bytes_rejected",
    "Bonsai.Legacy.C17_option_v1_sorts",
    "Bonsai.Legacy.C17_v1_order_defect",
    "Bonsai.Legacy.C17_violated_option_in_tuple"
   ],
   "note": "Relative to a lawful external varint codec. Members must have the LENGTH they declare: OptionKeyV1 of a fixed-width type inside a V1 tuple does not decode (C17_violated_option_in_tuple)."
  },
  {
   "property": "C18",
   "status": "partial",
   "theorems": [
    "Bonsai.Names.C18_kv_keys_distinct_partial",
    "Bonsai.Names.C18_split_full_key_partial",
    "Bonsai.Names.C18_pubsub_isolated",
    "Bonsai.Names.C18_violated_null_namespace",
    "Bonsai.Names.C18_violated_empty_namespace"
   ],
   "note": "Pub/sub isolation proved for all histories with valid database names. Key-value isolation holds for namespaces that are absent or non-empty and NUL-free; violated otherwise (F18)."
  },
  {
   "property": "C19",
   "status": "partial",
   "theorems": [
    "Bonsai.Query.C19_query_key_round_trip_partial",
    "Bonsai.Query.C19_range_start_survives",
    "Bonsai.Query.C19_serializing_succeeds",
    "Bonsai.Query.C19_violated_range_end_lost"
   ],
   "note": "Match and multiple-key queries proved; Range::deserialize reads the start bound twice, so every range with different bounds is changed (F25)."
  },
  {
   "property": "C20",
   "status": "proved",
   "theorems": [
    "Bonsai.Store.C20_failure_changes_nothing",
    "Bonsai.Store.C20_all_or_nothing",
    "Bonsai.Store.C20_success_commits",
    "Bonsai.Store.C20_concurrent_transactions_are_atomic"
   ],
   "note": "Any interleaving of any number of transactions, with crashes: equivalent to committed transactions one at a time. Assumes nebari's tree locks, private working copies and atomic commit."
  },
  {
   "property": "C21",
   "status": "proved",
   "theorems": [
    "Bonsai.Store.C21_stale_update_rejected",
    "Bonsai.Store.C21_stale_delete_rejected",
    "Bonsai.Store.C21_stale_update_single",
    "Bonsai.Store.C21_stale_delete_single",
    "Bonsai.Store.C21_current_update_succeeds",
    "Bonsai.Store.C21_current_delete_succeeds"
   ],
   "note": "At every position of every transaction. Success with the current revision is stated for collections without eager views (a view may reject)."
  },
  {
   "property": "C22",
   "status": "partial",
   "theorems": [
    "Bonsai.Store.C22_insert_existing_rejected",
    "Bonsai.Store.C22_insert_is_fresh",
    "Bonsai.Store.C22_auto_id_larger",
    "Bonsai.Store.C22_unsigned_auto_id_larger",
    "Bonsai.Store.C22_unsigned_push_succeeds",
    "Bonsai.Store.C22_signed_nonnegative_partial",
    "Bonsai.Store.C22_violated_signed_push_conflicts",
    "Bonsai.Store.C22_violated_signed_not_larger"
   ],
   "note": "Never overwrites: proved always. Larger ids: proved for order-preserving primary keys; violated for signed keys with negative ids (F8), negation proved."
  },
  {
   "property": "C23",
   "status": "proved",
   "theorems": [
    "Bonsai.Store.C23_revision_step",
    "Bonsai.Store.C23_insert_starts_at_zero",
    "Bonsai.Store.C23_revision_counts_changes"
   ],
   "note": "For contents without SHA-256 collisions."
  },
  {
   "property": "C24",
   "status": "partial",
   "theorems": [
    "Bonsai.Store.C24_accepted_header_unchanged_partial",
    "Bonsai.Store.C24_header_determines_contents_partial",
    "Bonsai.Store.C24_violated_by_recreation"
   ],
   "note": "The code violates the property: delete + insert of the same contents yields the same header (F9), negation proved. Without a delete in between, and for contents in every case, it is proved."
  },
  {
   "property": "C25",
   "status": "partial",
   "theorems": [
    "Bonsai.Store.C25_log_records_operations",
    "Bonsai.Store.C25_log_is_complete",
    "Bonsai.Store.C25_ids_increase",
    "Bonsai.Store.C25_listing",
    "Bonsai.Store.C25_paging",
    "Bonsai.Store.C25_violated_noop_recorded"
   ],
   "note": "Everything proved except exactness: a no-op write is recorded as a change (F42), negation proved. Increasing ids are nebari's guarantee, taken as hypothesis."
  },
  {
   "property": "C26",
   "status": "proved",
   "theorems": [
    "Bonsai.Store.C26_store_is_a_map",
    "Bonsai.Store.C26_exact_without_eager_views",
    "Bonsai.Store.C26_view_error_means_view_failed",
    "Bonsai.Store.C26_harmless_views_never_reject",
    "Bonsai.Store.SpecRun_deterministic"
   ],
   "note": "For contents without SHA-256 collisions; all request sequences."
  },
  {
   "property": "C27",
   "status": "proved",
   "theorems": [
    "Bonsai.Store.C27_denied_changes_nothing",
    "Bonsai.Store.C27_effects_need_permission",
    "Bonsai.Store.C27_required_matches",
    "Bonsai.Store.C27_permitted_runs"
   ],
   "note": ""
  },
  {
   "property": "C28",
   "status": "proved",
   "theorems": [
    "Bonsai.Store.C28_modify_applies_to_latest",
    "Bonsai.Store.C28_modifiers_compose",
    "Bonsai.Store.C28_failed_attempts_change_nothing"
   ],
   "note": "Any number of callers, any interleaving with each other and other transactions."
  },
  {
   "property": "C29",
   "status": "partial",
   "theorems": [
    "Bonsai.Store.C29_view_is_map_of_documents",
    "Bonsai.Store.C29_exact_when_emitting_once_partial",
    "Bonsai.Store.C29_eager_view_always_current",
    "Bonsai.Store.C29_violated_duplicate_key"
   ],
   "note": "For every interleaving of transactions, mapping jobs and crashes. A document emitting one key twice keeps only the last value in the view (F43), negation proved; multiset equality is proved when each document emits a key at most once."
  },
  {
   "property": "C30",
   "status": "partial",
   "theorems": [
    "Bonsai.Store.C30_unique_keys",
    "Bonsai.Store.C30_duplicates_rejected",
    "Bonsai.Store.C30_rejection_means_duplicate_partial",
    "Bonsai.Store.C30_violated_transient_duplicate",
    "Bonsai.Store.C30_violated_before_first_mapping"
   ],
   "note": "Proved from an up-to-date view. Violated when a unique view is added to existing data (F44); swapping keys inside a transaction is refused though the result is unique (F45). Negations proved."
  },
  {
   "property": "C31",
   "status": "proved",
   "theorems": [
    "Bonsai.Store.C31_query_sees_earlier_commits"
   ],
   "note": "Assumes nebari's last transaction id is that of the last committed transaction, in commit order."
  },
  {
   "property": "C32",
   "status": "partial",
   "theorems": [
    "Bonsai.Store.C32_existing_documents_stay_marked_partial",
    "Bonsai.Store.C32_quiet_read_loses_nothing_partial",
    "Bonsai.Store.C32_violated_insert_during_scan",
    "Bonsai.Store.C32_violated_view_misses_document"
   ],
   "note": "The code violates the property: a document inserted between the scanner's read of the ids and its deletion of the marks is lost from the view; negation proved."
  },
  {
   "property": "C33",
   "status": "proved",
   "theorems": [
    "Bonsai.Store.C33_reduce_is_reduce_of_query",
    "Bonsai.Store.C33_grouped",
    "Bonsai.Store.C33_grouped_once"
   ],
   "note": "For every reachable state, every query key, every reduce function that is consistent under re-reduction."
  },
  {
   "property": "C34",
   "status": "partial",
   "theorems": [
    "Bonsai.Store.C34_query_exact",
    "Bonsai.Store.C34_query_returns_what_documents_emit",
    "Bonsai.Store.C34_scan_order",
    "Bonsai.Store.C34_ascending_order_partial",
    "Bonsai.Store.C34_limit_counts_keys_partial",
    "Bonsai.Store.C34_limit_partial",
    "Bonsai.Store.C34_query_with_docs",
    "Bonsai.Store.C34_violated_limit",
    "Bonsai.Store.C34_violated_limit_ignored",
    "Bonsai.Store.C34_violated_multiple_descending"
   ],
   "note": "Contents and scan order proved. The code violates the limit (it counts keys, F6; key and multi-key queries ignore it) and descending order for multi-key queries; negations proved."
  },
  {
   "property": "C35",
   "status": "partial",
   "theorems": [
    "Bonsai.Store.C35_success_deletes_exactly",
    "Bonsai.Store.C35_succeeds_partial",
    "Bonsai.Store.C35_violated_two_keys"
   ],
   "note": "Whenever delete_docs succeeds it deleted exactly the matching documents. It fails, deleting nothing, when a document has two matching mappings (F7); negation proved."
  },
  {
   "property": "C36",
   "status": "proved",
   "theorems": [
    "Bonsai.Store.C36_list_exact",
    "Bonsai.Store.C36_list_sorted",
    "Bonsai.Store.C36_list_limit",
    "Bonsai.Store.C36_list_headers",
    "Bonsai.Store.C36_count",
    "Bonsai.Store.C36_get_multiple"
   ],
   "note": ""
  },
  {
   "property": "C37",
   "status": "proved",
   "theorems": [
    "Bonsai.KV.C37_answers_are_those_of_a_map",
    "Bonsai.KV.C37_background_work_is_invisible",
    "Bonsai.KV.C37_operations_always_possible"
   ],
   "note": "All operation sequences, all clocks, all interleavings with the background worker, persisting thread and shutdown."
  },
  {
   "property": "C38",
   "status": "proved",
   "theorems": [
    "Bonsai.KV.C38_expired_key_is_never_returned",
    "Bonsai.KV.C38_unexpired_key_is_returned",
    "Bonsai.KV.C38_kept_expiration_expires"
   ],
   "note": "For any sequence of clock readings."
  },
  {
   "property": "C39",
   "status": "partial",
   "theorems": [
    "Bonsai.KV.C39_wrapping_increment",
    "Bonsai.KV.C39_wrapping_decrement",
    "Bonsai.KV.C39_saturating_increment_partial",
    "Bonsai.KV.C39_saturating_decrement_partial",
    "Bonsai.KV.C39_saturating_increment_general",
    "Bonsai.KV.C39_violated_saturating_mixed_types",
    "Bonsai.KV.C39_result_has_the_amounts_type",
    "Bonsai.KV.C39_never_stores_nan",
    "Bonsai.KV.F64.C39_float_add",
    "Bonsai.KV.F64.C39_float_nan",
    "Bonsai.KV.C39_float_increment",
    "Bonsai.KV.C39_float_decrement",
    "Bonsai.KV.C39_float_from_integer",
    "Bonsai.KV.C39_float_from_unsigned"
   ],
   "note": "Wrapping arithmetic proved for all types. Saturating arithmetic is exact-then-clamped when stored value and amount have one type; with mixed types the stored value is clamped first (F46), negation proved. f64 arithmetic is IEEE binary64; integers up to 2^53 become floats exactly."
  },
  {
   "property": "C40",
   "status": "proved",
   "theorems": [
    "Bonsai.KV.C40_crash_recovers_an_earlier_moment",
    "Bonsai.KV.C40_quiescent_crash_loses_nothing",
    "Bonsai.KV.C40_logged_keys_are_the_changed_keys"
   ],
   "note": "A crash at any point of any execution."
  },
  {
   "property": "C41",
   "status": "partial",
   "theorems": [
    "Bonsai.KV.C41_clean_shutdown_persists_partial",
    "Bonsai.KV.C41_violated_batch_in_flight"
   ],
   "note": "The code violates the property: shutdown with a batch in flight returns at once and dirty keys are lost (F19), negation proved; proved when no batch is in flight."
  },
  {
   "property": "C42",
   "status": "partial",
   "theorems": [
    "Bonsai.KV.C42_expirations_after_loading_partial",
    "Bonsai.KV.C42_disk_expiration_is_honoured_partial",
    "Bonsai.KV.C42_violated_expired_key_readable",
    "Bonsai.KV.C42_violated_overwritten_key_expires"
   ],
   "note": "The code violates the property before and during loading (F22), negations proved; proved after loading without concurrent writes."
  },
  {
   "property": "C43",
   "status": "proved",
   "theorems": [
    "Bonsai.KV.C43_commit_iff_threshold_met",
    "Bonsai.KV.C43_immediate",
    "Bonsai.KV.C43_time_until_commit",
    "Bonsai.KV.C43_staged_exactly_when_due",
    "Bonsai.KV.C43_worker_is_woken_in_time"
   ],
   "note": "After a failed persisting thread nothing is committed again (F20)."
  },
  {
   "property": "C44",
   "status": "partial",
   "theorems": [
    "Bonsai.Jobs.C44_one_job_per_key",
    "Bonsai.Jobs.C44_lookup_joins_or_starts",
    "Bonsai.Jobs.C44_handle_receives_its_jobs_result",
    "Bonsai.Jobs.C44_fresh_handle_waits",
    "Bonsai.Jobs.C44_everyone_is_answered_partial",
    "Bonsai.Jobs.C44_no_step_blocks",
    "Bonsai.Jobs.C44_violated_panic_blocks_key"
   ],
   "note": "Every interleaving of fewer than 2^64 events. A panicking job (user map/reduce code) never completes: its handles and all later handles for its key wait forever (F47), negation proved."
  },
  {
   "property": "C45",
   "status": "partial",
   "theorems": [
    "Bonsai.Vault.C45_encrypted_read_back",
    "Bonsai.Vault.C45_compressed_read_back",
    "Bonsai.Vault.C45_plain_read_back_partial",
    "Bonsai.Vault.C45_violated_trv_prefix",
    "Bonsai.Vault.C45_violated_panic_on_read",
    "Bonsai.Vault.C45_named_keys_panic",
    "Bonsai.Vault.C45_stored_through_the_cipher",
    "Bonsai.Vault.C45_readers_and_writers_agree",
    "Bonsai.Vault.C45_configuration_may_change",
    "Bonsai.Vault.C45_adding_a_feature",
    "Bonsai.Vault.C45_removing_compression_returns_envelope"
   ],
   "note": "Encrypted data and compressed data (128 bytes and more): proved for all payloads, relative to lawful cipher and LZ4. Short unencrypted payloads that look like an envelope are misread or panic (F14), negations proved."
  },
  {
   "property": "C46",
   "status": "partial",
   "theorems": [
    "Bonsai.Storage.C46_invalid_names_rejected",
    "Bonsai.Storage.C46_valid_names",
    "Bonsai.Storage.C46_create_confined",
    "Bonsai.Storage.C46_create_existing",
    "Bonsai.Storage.C46_open_and_use_confined_partial",
    "Bonsai.Storage.C46_open_iff",
    "Bonsai.Storage.C46_delete_confined_partial",
    "Bonsai.Storage.C46_directories_disjoint",
    "Bonsai.Storage.C46_violated_delete_unknown",
    "Bonsai.Storage.C46_violated_delete_escapes",
    "Bonsai.Storage.C46_violated_empty_name",
    "Bonsai.Storage.C46_violated_reserved_names"
   ],
   "note": "Proved for valid, nonempty, non-reserved names. The code violates it: deleting an unknown or unvalidated name removes a directory although it returns an error, and the empty name and the storage's own file names are accepted (F49); negations proved."
  },
  {
   "property": "C47",
   "status": "partial",
   "theorems": [
    "Bonsai.Ident.C47_memberships_are_the_completed_operations",
    "Bonsai.Ident.C47_inverse_and_idempotent",
    "Bonsai.Ident.C47_undisturbed",
    "Bonsai.Ident.C47_right_kind_partial",
    "Bonsai.Ident.C47_violated_add_role_by_name"
   ],
   "note": "Memberships are the completed operations in order, under every interleaving. add_role_to_user resolves the role's name among the permission groups (F15), negation proved."
  },
  {
   "property": "C48",
   "status": "partial",
   "theorems": [
    "Bonsai.Ident.C48_default_deny",
    "Bonsai.Ident.C48_assume_identity",
    "Bonsai.Ident.C48_assume_requires_permission",
    "Bonsai.Ident.C48_role_permissions",
    "Bonsai.Ident.C48_user_permissions_partial",
    "Bonsai.Ident.C48_user_permissions_bounded_partial",
    "Bonsai.Ident.C48_assume_session",
    "Bonsai.Ident.C48_session_ids_are_fresh",
    "Bonsai.Ident.C48_violated_roles_ignored",
    "Bonsai.Ident.C48_violated_foreign_role",
    "Bonsai.Ident.C48_violated_database_handles",
    "Bonsai.Ident.C48_violated_restricted_handle"
   ],
   "note": "Proved except where the code violates it: a user's roles are looked up by its group ids (F51), database::<DB>() and admin() drop the session (F53), a restricted handle may assume an unregistered session with any permissions (F54); negations proved."
  },
  {
   "property": "C49",
   "status": "partial",
   "theorems": [
    "Bonsai.Backup.C49_backup_restore_partial",
    "Bonsai.Backup.C49_restore_succeeds_partial",
    "Bonsai.Backup.C49_path_location_partial",
    "Bonsai.Backup.splitMarker_iff",
    "Bonsai.Backup.C49_other_files_ignored",
    "Bonsai.Backup.C49_other_documents_ignored",
    "Bonsai.Backup.C49_violated_dollar",
    "Bonsai.Backup.C49_violated_no_collections",
    "Bonsai.Backup.C49_violated_namespace",
    "Bonsai.Backup.C49_violated_empty_database",
    "Bonsai.Backup.C49_violated_kv_database",
    "Bonsai.Backup.C49_violated_path_escape",
    "Bonsai.Backup.C49_violated_path_slash"
   ],
   "note": "Proved for any lawful location and for directories, for data whose names the backup can express. The code loses the rest: ids containing $ (F23), key-value entries of schemas without collections (F24), namespaces containing the marker, empty databases (F58), a database named _kv (F56), and slashes in ids with a directory (F57); negations proved."
  },
  {
   "property": "C50",
   "status": "proved",
   "theorems": [
    "Bonsai.Files.C50_append",
    "Bonsai.Files.C50_append_succeeds",
    "Bonsai.Files.C50_truncate",
    "Bonsai.Files.C50_len",
    "Bonsai.Files.C50_history",
    "Bonsai.Files.forFile_eq",
    "Bonsai.Files.current_of_exec"
   ],
   "note": "Every history of appends, truncations and other transactions, every block size; the view-value codec (pot) is assumed lawful. truncate acts on the block list read before its transaction: with a concurrent append in between the file keeps the appended data (F66)."
  },
  {
   "property": "C51",
   "status": "partial",
   "theorems": [
    "Bonsai.Files.C51_open",
    "Bonsai.Files.C51_read",
    "Bonsai.Files.C51_next",
    "Bonsai.Files.C51_seek",
    "Bonsai.Files.C51_session",
    "Bonsai.Files.C51_read_to_end",
    "Bonsai.Files.C51_blocks",
    "Bonsai.Files.C51_poll_read",
    "Bonsai.Files.C51_poll_next",
    "Bonsai.Files.C51_poll_complete",
    "Bonsai.Files.C51_buffer_bound",
    "Bonsai.Files.C51_async_into_vec_partial",
    "Bonsai.Files.C51_violated_empty_read",
    "Bonsai.Files.C51_violated_seek_after_end",
    "Bonsai.Files.C51_violated_seek_before_start",
    "Bonsai.Files.C51_violated_hang",
    "Bonsai.Files.C51_violated_deleted_block",
    "Bonsai.Files.C51_violated_async_into_vec",
    "Bonsai.Files.C51_violated_pending",
    "Bonsai.Files.C51_violated_cancelled_read"
   ],
   "note": "Proved for every session of reads with nonempty buffers, seeks, iterations, clones and buffer sizes while the file's blocks stay stored. The code violates the rest: empty reads move to the end (F27), relative seeks at the end and seeks before the start panic (F28), deleted blocks make reads hang (F31) or return wrong bytes (F63), async into_vec after a partial read fails (F32), cancelled async reads mislabel blocks (F64), pending polls lose bytes (F65); negations proved."
  },
  {
   "property": "C52",
   "status": "partial",
   "theorems": [
    "Bonsai.Files.C52_list_exact",
    "Bonsai.Files.C52_list_partial",
    "Bonsai.Files.C52_list_recursive_exact",
    "Bonsai.Files.C52_list_recursive_partial",
    "Bonsai.Files.C52_names_stay_valid",
    "Bonsai.Files.C52_created_path_partial",
    "Bonsai.Files.C52_moved_path_partial",
    "Bonsai.Files.C52_renamed_path",
    "Bonsai.Files.C52_find_exact",
    "Bonsai.Files.C52_load",
    "Bonsai.Files.C52_view_current",
    "Bonsai.Files.C52_create_then_load",
    "Bonsai.Files.C52_create_succeeds",
    "Bonsai.Files.C52_move_then_load",
    "Bonsai.Files.C52_rename_then_load_partial",
    "Bonsai.Files.C52_violated_recursive_misses",
    "Bonsai.Files.C52_violated_recursive_extra",
    "Bonsai.Files.C52_violated_null_listed",
    "Bonsai.Files.C52_violated_null_missing",
    "Bonsai.Files.C52_violated_recursive_empty",
    "Bonsai.Files.C52_violated_double_slash",
    "Bonsai.Files.C52_violated_empty_name"
   ],
   "note": "What list and list_recursive return is proved exactly, byte for byte, for every set of files and every path; they are the documented listings for paths without NUL whose key length stays clear of the names (the _partial theorems). The code violates the rest: long directories miss files or list a neighbour's (F61), NULs in paths (F67, F68), the empty path (F69), double slashes and empty names (F62); negations proved. Creating, moving and renaming followed by load: proved on every reachable database."
  },
  {
   "property": "C53",
   "status": "partial",
   "theorems": [
    "Bonsai.Files.C53_no_orphans_partial",
    "Bonsai.Files.C53_new_file_is_empty_partial",
    "Bonsai.Files.C53_created_with_its_contents_partial",
    "Bonsai.Files.C53_deleted_partial",
    "Bonsai.Files.C53_delete_spares_others",
    "Bonsai.Files.C53_create_partial",
    "Bonsai.Files.C53_delete_partial",
    "Bonsai.Files.C53_violated_crash_create",
    "Bonsai.Files.C53_violated_crash_delete",
    "Bonsai.Files.C53_violated_stale_handle",
    "Bonsai.Files.C53_violated_new_file_shows_old_data"
   ],
   "note": "Proved for every interleaving and crash as long as nothing is appended to a file while it is being deleted. The code violates the rest: create and delete are two transactions each (F29), delete with an outdated handle loses the contents (F70), data appended during a deletion is shown by a new file with the same id (F30); negations proved."
  },
  {
   "property": "C54",
   "status": "partial",
   "theorems": [
    "Bonsai.Net.C54_own_response",
    "Bonsai.Net.C54_own_response_modulo",
    "Bonsai.Net.C54_at_most_once",
    "Bonsai.Net.C54_only_requests",
    "Bonsai.Net.C54_never_lost",
    "Bonsai.Net.C54_disconnect_answers",
    "Bonsai.Net.C54_awaits_response",
    "Bonsai.Net.C54_delivered",
    "Bonsai.Net.C54_violated_quic_first",
    "Bonsai.Net.C54_violated_websocket_close",
    "Bonsai.Net.C54_violated_wrap"
   ],
   "note": "Proved for every interleaving: own response (up to 2^32 requests), at most once, never lost, errors on loss. Violated: response to the first QUIC request processed before the request is registered; WebSocket closed by the server leaves requests unanswered; ids wrap after 2^32 requests."
  },
  {
   "property": "C55",
   "status": "partial",
   "theorems": [
    "Bonsai.Net.C55_limit",
    "Bonsai.Net.C55_limit_receiving",
    "Bonsai.Net.C55_slot_freed",
    "Bonsai.Net.C55_answered_once",
    "Bonsai.Net.C55_violated_panic"
   ],
   "note": "Limit, slot release without lost notifications and single answers proved for every interleaving. Violated: a panicking handler keeps its slot and its request is never answered; a limit of 0 accepts nothing."
  },
  {
   "property": "C56",
   "status": "partial",
   "theorems": [
    "Bonsai.Storage.C56_no_files_left",
    "Bonsai.Storage.C56_listed_iff_recreated",
    "Bonsai.Store.C56_same_data_as_brand_new",
    "Bonsai.Store.C56_views_hold_only_new_documents",
    "Bonsai.Store.C56_query_partial",
    "Bonsai.Store.C56_after_restart",
    "Bonsai.Store.C56_violated_query"
   ],
   "note": "No old data survives: proved. But the view status of the old database is kept in memory under the database's name, so a query of the recreated database can skip mapping and miss new documents (F13); negation proved."
  },
  {
   "property": "C57",
   "status": "partial",
   "theorems": [
    "Bonsai.Vault.C57_master_keys_survive",
    "Bonsai.Vault.C57_can_be_opened_partial",
    "Bonsai.Vault.C57_violated_crash_while_writing",
    "Bonsai.Vault.C57_wrong_vault_key"
   ],
   "note": "Same keys for ever after the first successful opening: proved. A crash while master-keys is being written makes the storage unopenable (F48), negation proved."
  },
  {
   "property": "C58",
   "status": "partial",
   "theorems": [
    "Bonsai.Access.C58_denied_partial",
    "Bonsai.Access.C58_permitted_plain",
    "Bonsai.Access.C58_permitted_partial",
    "Bonsai.Access.C58_effects_need_permission",
    "Bonsai.Access.C58_history_authorised",
    "Bonsai.Access.C58_documents_need_permission",
    "Bonsai.Access.C58_violated_delete_docs_unchecked",
    "Bonsai.Access.C58_violated_delete_docs_reveals",
    "Bonsai.Access.C58_violated_query_needs_last_id",
    "Bonsai.Access.C58_violated_insert_needs_last_id",
    "Bonsai.Access.C58_violated_shared_job",
    "Bonsai.Access.C58_violated_async_last_id"
   ],
   "note": "Effects need permission: proved for every call and history. Denial: proved for every call but delete_docs, which checks no permission of the view. Documented permissions suffice: proved for sessions that also hold GetLastId while no session without it has queued a mapping job; violated otherwise (F84-F86)."
  },
  {
   "property": "C59",
   "status": "partial",
   "theorems": [
    "Bonsai.Ident.C59_challenge_is_powerless",
    "Bonsai.Ident.C59_success_requires_response",
    "Bonsai.Ident.C59_single_use",
    "Bonsai.Ident.C59_token_holder_succeeds",
    "Bonsai.Ident.C59_violated_failed_attempt"
   ],
   "note": "A refused response from an identity session ends that session (F55), negation proved. BLAKE3 abstract."
  },
  {
   "property": "C60",
   "status": "proved",
   "theorems": [
    "Bonsai.Ident.C60_password_authentication",
    "Bonsai.Ident.C60_session_is_the_users",
    "Bonsai.Ident.C60_set_then_authenticate"
   ],
   "note": "Argon2 verification abstract."
  },
  {
   "property": "C61",
   "status": "partial",
   "theorems": [
    "Bonsai.Ident.C61_violated_sessions_never_end"
   ],
   "note": "Violated for every identity session: the sessions map keeps a strong reference, so no session of an identity ever ends (F52). What is proved is the negation, for every history."
  },
  {
   "property": "C62",
   "status": "partial",
   "theorems": [
    "Bonsai.Net.C62_all_answered_partial",
    "Bonsai.Net.C62_no_request_lost_partial",
    "Bonsai.Net.C62_violated_poison",
    "Bonsai.Net.C62_violated_panic"
   ],
   "note": "Proved when no handler panics and no payload is an error value. Violated: an unauthenticated client ends all request workers with error payloads (server.rs:150)."
  },
  {
   "property": "C63",
   "status": "partial",
   "theorems": [
    "Bonsai.Net.C63_websocket_tracked",
    "Bonsai.Net.C63_websocket_answers",
    "Bonsai.Net.C63_violated_quic"
   ],
   "note": "Proved for WebSockets. Violated on QUIC: the writer stops at the start of a graceful shutdown."
  },
  {
   "property": "C64",
   "status": "partial",
   "theorems": [
    "Bonsai.Jobs.C64_compaction_terminates_partial",
    "Bonsai.Jobs.C64_compaction_can_finish",
    "Bonsai.Jobs.C64_success_means_every_tree",
    "Bonsai.Jobs.C64_violated_deadlock",
    "Bonsai.Jobs.C64_violated_one_worker"
   ],
   "note": "Proved for every schedule while fewer compactions of databases or collections are pending than there are workers. Violated otherwise: such a job waits, on a worker, for jobs in the same queue; with as many of them as workers nothing ever ends again, and with one worker a single compaction hangs (F76)."
  },
  {
   "property": "C65",
   "status": "partial",
   "theorems": [
    "Bonsai.Vault.C65_compaction_keeps_data_encrypted_partial",
    "Bonsai.Vault.C65_compaction_keeps_plain_data",
    "Bonsai.Vault.C65_violated_compaction_decrypts",
    "Bonsai.Vault.C65_violated_plaintext_on_disk",
    "Bonsai.Vault.C65_violated_compaction_reads_boxes"
   ],
   "note": "Proved for storages with a default encryption key, and for storages and collections without keys. Violated by collections with a key of their own in a storage without a default key: compaction opens the tree without that key and writes plaintext (F78)."
  },
  {
   "property": "C66",
   "status": "partial",
   "theorems": [
    "Bonsai.Remote.C66_runs_as_own_session",
    "Bonsai.Remote.C66_session_kept_partial",
    "Bonsai.Remote.C66_logged_out",
    "Bonsai.Remote.C66_violated_after_reconnect",
    "Bonsai.Remote.C66_violated_after_restart"
   ],
   "note": "Proved for every interleaving per connection. Violated across connections: after a reconnect a client handle goes on sending its session id and the server runs its requests with the default permissions instead of refusing them; after a restart of the server ids are given out again from 1, so an old handle can act as another identity that logged in on the client's new connection."
  },
  {
   "property": "C67",
   "status": "partial",
   "theorems": [
    "Bonsai.Pubsub.C67_local",
    "Bonsai.Pubsub.C67_remote_only_wanted",
    "Bonsai.Pubsub.C67_remote_complete_partial",
    "Bonsai.Pubsub.C67_told_partial",
    "Bonsai.Pubsub.C67_violated_quic_not_told",
    "Bonsai.Pubsub.C67_violated_webSocket_not_told",
    "Bonsai.Pubsub.C67_violated_restart",
    "Bonsai.Pubsub.C67_violated_outlives_connection",
    "Bonsai.Pubsub.C67_violated_orphan"
   ],
   "note": "Delivery proved: exactly the wanted messages for local subscribers, a gap-free prefix of them for remote ones, all of them while the connection is up. Violated: the end of a connection is not always reported (QUIC never, WebSockets in a race), a restart of the server confuses old and new subscribers, subscribers of lost connections stay subscribed, a subscriber created during a logout does not exist."
  },
  {
   "property": "C68",
   "status": "partial",
   "theorems": [
    "Bonsai.Ident.C68_effects_partial",
    "Bonsai.Ident.C68_denied",
    "Bonsai.Ident.C68_alone",
    "Bonsai.Ident.C68_permitted_user",
    "Bonsai.Ident.C68_permitted",
    "Bonsai.Ident.C68_reveals_nothing_partial",
    "Bonsai.Ident.C68_violated_reveals_users",
    "Bonsai.Ident.C68_violated_password_race",
    "Bonsai.Ident.C68_violated_delete_race"
   ],
   "note": "Effects need their permission: proved for every interleaving when users to delete or to give a password are named by id, and for undisturbed calls by any reference. Denied calls change nothing and are errors: proved for every call and state. Violated: with usernames the name is looked up again after the check (another user can be deleted or given a password); calls naming users, roles or groups reveal their existence before the permission is checked."
  },
  {
   "property": "C69",
   "status": "proved",
   "theorems": [
    "Bonsai.Store.C69_update_applies",
    "Bonsai.Store.C69_insert_fresh",
    "Bonsai.Store.C69_otherwise_unchanged",
    "Bonsai.Store.C69_at_most_one_write",
    "Bonsai.Store.C69_terminates",
    "Bonsai.Store.C69_one_document",
    "Bonsai.Store.C69_conflict_only_if_changed",
    "Bonsai.Store.C69_finds_the_document",
    "Bonsai.Store.C69_by_id",
    "Bonsai.Store.C69_inserts_if_free",
    "Bonsai.Store.C69_violated_missed",
    "Bonsai.Store.C69_violated_renamed",
    "Bonsai.Store.C69_violated_deleted_on_retry",
    "Bonsai.Store.C69_violated_deleted",
    "Bonsai.Store.C69_violated_concurrent_insert"
   ],
   "note": "Proved as stated, for any number of callers, update functions and interleavings with other transactions and background mapping. The five _violated_ theorems show that the conditions of the statement are needed: nothing of the kind holds when the name passes from one document to another, or the document disappears, between the steps of a call, and for concurrent inserts (the five counterexamples)."
  },
  {
   "property": "C70",
   "status": "partial",
   "theorems": [
    "Bonsai.Wire.C70_names_distinct",
    "Bonsai.Wire.C70_registered",
    "Bonsai.Wire.C70_own_handler",
    "Bonsai.Wire.C70_custom_handler",
    "Bonsai.Wire.C70_same_database_call",
    "Bonsai.Wire.C70_same_storage_call",
    "Bonsai.Wire.C70_same_subscriber_call",
    "Bonsai.Wire.C70_session",
    "Bonsai.Wire.C70_remote_is_local_partial",
    "Bonsai.Wire.C70_only_named_database",
    "Bonsai.Wire.C70_blocking_is_async",
    "Bonsai.Wire.C70_history_partial",
    "Bonsai.Wire.C70_timeout_may_have_executed",
    "Bonsai.Wire.C70_violated_last_transaction_id",
    "Bonsai.Wire.C70_violated_remote_is_local",
    "Bonsai.Wire.C70_violated_token_only",
    "Bonsai.Wire.C70_violated_custom_shadowed",
    "Bonsai.Wire.exists_lawful_codec"
   ],
   "note": "Proved for every call and argument, every history, session, configuration and state, but for one call: the last transaction id is given to clients whose session would be denied it in the server's process. Also violated: a server with tokens and without passwords does not know `Authenticate`. Storage calls: up to the call the server makes."
  },
  {
   "property": "C71",
   "status": "partial",
   "theorems": [
    "Bonsai.Typed.C71_typed_map",
    "Bonsai.Typed.C71_calls_are_safe",
    "Bonsai.Typed.C71_list_in_key_order",
    "Bonsai.Typed.C71_push_all_pairs",
    "Bonsai.Typed.run_refines",
    "Bonsai.Typed.runAll_refines",
    "Bonsai.Typed.other_refines",
    "Bonsai.Typed.C71_violated_signed_range",
    "Bonsai.Typed.C71_violated_get_multiple_order",
    "Bonsai.Typed.C71_violated_raw_id",
    "Bonsai.Typed.C71_violated_raw_id_breaks_collection"
   ],
   "note": "Proved for every history, every lossless key type and contents format (digests collision-free on what is stored). Violated where keys sort wrongly (signed integers: ranges and order of listings follow the encoding), by the order of get_multiple, and by raw DocumentIds, which are accepted without being a key."
  },
  {
   "property": "C72",
   "status": "proved",
   "theorems": [
    "Bonsai.Typed.C72_modify_is_atomic",
    "Bonsai.Typed.C72_no_conflict",
    "Bonsai.Typed.C72_counter",
    "Bonsai.Typed.C72_retry_only_after_change",
    "Bonsai.Typed.C72_uncontended",
    "Bonsai.Typed.C72_refresh",
    "Bonsai.Typed.exec_refines",
    "Bonsai.Typed.stepModify_refines",
    "Bonsai.Typed.C72_violated_edited_document"
   ],
   "note": "For modifiers that edit contents only, on documents not edited before (the documentation asks for this; C72_violated_edited_document shows what happens otherwise). Digests are assumed collision-free on the contents written."
  },
  {
   "property": "C73",
   "status": "proved",
   "theorems": [
    "Bonsai.Typed.C73_transactions",
    "Bonsai.Typed.C73_invariant",
    "Bonsai.Typed.C73_checks",
    "Bonsai.Typed.applyTx_refines",
    "Bonsai.Typed.runTxs_refines",
    "Bonsai.Typed.op_refines"
   ],
   "note": "For typed operations of collections whose formats are lossless; digests are assumed collision-free on the contents written."
  },
  {
   "property": "C74",
   "status": "partial",
   "theorems": [
    "Bonsai.Typed.C74_query",
    "Bonsai.Typed.C74_query_own_order",
    "Bonsai.Typed.C74_query_bad_key",
    "Bonsai.Typed.C74_order_partial",
    "Bonsai.Typed.C74_limit_is_prefix",
    "Bonsai.Typed.C74_limit_partial",
    "Bonsai.Typed.C74_query_update_before",
    "Bonsai.Typed.C74_reduce",
    "Bonsai.Typed.C74_reduce_grouped",
    "Bonsai.Typed.C74_with_docs",
    "Bonsai.Typed.C74_iterate",
    "Bonsai.Typed.C74_documents_partial",
    "Bonsai.Typed.C74_delete_docs",
    "Bonsai.Typed.C74_no_duplicates",
    "Bonsai.Typed.C74_builder",
    "Bonsai.Typed.C74_delete_succeeds_partial",
    "Bonsai.Typed.C74_violated_missing_document",
    "Bonsai.Typed.C74_violated_stale_documents",
    "Bonsai.Typed.C74_violated_limit_and_order",
    "Bonsai.Typed.C74_violated_reduce_unimplemented",
    "Bonsai.Typed.C74_violated_delete_two_keys",
    "Bonsai.Typed.C74_violated_signed_range"
   ],
   "note": "Contents, freshness, reductions, deletion and absence of duplicates hold in full; the code violates the statement for limits with several mappings per key or keys given, descending order of several keys, documents deleted between the two reads, views without reduce function, deletion of documents with two selected mappings and keys that do not sort like their encoding."
  },
  {
   "property": "C75",
   "status": "partial",
   "theorems": [
    "Bonsai.Store.Wait.C75_query_waits_long_enough",
    "Bonsai.Store.Wait.C75_quiet_query_is_exact",
    "Bonsai.Store.Wait.C75_at_most_two_jobs",
    "Bonsai.Store.Wait.C75_two_jobs_needed",
    "Bonsai.Store.Wait.C75_mapper_finds_a_transaction",
    "Bonsai.Store.Wait.C75_status_never_goes_back",
    "Bonsai.Store.Wait.C75_waiting_query_has_a_job_partial",
    "Bonsai.Store.Wait.C75_query_can_finish_partial",
    "Bonsai.Store.Wait.C75_violated_panic_blocks_view",
    "Bonsai.Store.Wait.C75_violated_no_worker_left",
    "Bonsai.Store.Wait.C75_violated_up_to_date_view_mapped_again",
    "Bonsai.Typed.C75_typed_query_sees_earlier_commits",
    "Bonsai.Typed.C75_typed_read_your_writes"
   ],
   "note": "Freshness, the bound of two jobs and absence of deadlock hold in full while no job panics; the code violates the statement after a panic (the view, and without workers every view, is blocked until restart), and an up-to-date view is mapped again after an effective mapping job."
  },
  {
   "property": "C76",
   "status": "partial",
   "theorems": [
    "Bonsai.KV.C76_set_status",
    "Bonsai.KV.C76_returning_previous",
    "Bonsai.KV.C76_vacant_returning_previous_tells_nothing",
    "Bonsai.KV.C76_set_then_get",
    "Bonsai.KV.C76_serialized_value_comes_back",
    "Bonsai.KV.C76_change_answers",
    "Bonsai.KV.C76_no_panic",
    "Bonsai.KV.C76_lock_excludes",
    "Bonsai.KV.C76_lock_released",
    "Bonsai.KV.C76_tickets",
    "Bonsai.KV.C76_tickets_after_set",
    "Bonsai.KV.C76_calls_touch_one_key",
    "Bonsai.KV.C76_strict_i64_is_exact_partial",
    "Bonsai.KV.C76_strict_i64_refuses_only_what_it_must",
    "Bonsai.KV.C76_violated_strict_i64_too_large",
    "Bonsai.KV.C76_violated_strict_i64_infinite",
    "Bonsai.KV.C76_strict_u64_is_exact_partial",
    "Bonsai.KV.C76_strict_u64_refuses_only_what_it_must_partial",
    "Bonsai.KV.C76_violated_strict_u64_too_large",
    "Bonsai.KV.C76_violated_strict_u64_tiny",
    "Bonsai.KV.C76_violated_strict_u64_negative_zero",
    "Bonsai.KV.C76_strict_f64_is_exact",
    "Bonsai.KV.C76_strict_f64_accepts",
    "Bonsai.KV.C76_lossy_float",
    "Bonsai.KV.C76_read_leaves_and_delete_removes",
    "Bonsai.KV.C76_into_i64_partial",
    "Bonsai.KV.C76_into_u64_partial",
    "Bonsai.KV.C76_into_f64",
    "Bonsai.KV.C76_expire_in_partial",
    "Bonsai.KV.C76_violated_expire_in_panics",
    "Bonsai.KV.C76_expire_at_partial",
    "Bonsai.KV.C76_violated_expire_at_panics",
    "Bonsai.KV.C76_nested_namespaces_are_separate_partial",
    "Bonsai.KV.C76_violated_key_reaches_nested_namespace"
   ],
   "note": "Sets, locks, tickets and integers hold in full; the code violates the statement for strict conversions of some floats, for expirations outside of the representable times (panic) and for keys with NULs in nested namespaces."
  },
  {
   "property": "C77",
   "status": "partial",
   "theorems": [
    "Bonsai.Files.C77_writer",
    "Bonsai.Files.C77_contents",
    "Bonsai.Files.C77_flushed",
    "Bonsai.Files.C77_dropped",
    "Bonsai.Files.C77_shared_file",
    "Bonsai.Files.C77_default_capacity",
    "Bonsai.Files.C77_write_takes_something_partial",
    "Bonsai.Files.C77_write_all_partial",
    "Bonsai.Files.C77_violated_large_blocks",
    "Bonsai.Files.C77_flush_fails_again",
    "Bonsai.Files.C77_async_order",
    "Bonsai.Files.C77_async_contents_partial",
    "Bonsai.Files.C77_async_flushed_partial",
    "Bonsai.Files.C77_async_no_panic_partial",
    "Bonsai.Files.C77_violated_async_panic",
    "Bonsai.Files.C77_violated_async_error_loses_bytes",
    "Bonsai.Files.C77_violated_async_drop_reorders",
    "Bonsai.Files.C77_violated_async_drop_during_flush",
    "Bonsai.Files.C77_violated_async_drop_panics"
   ],
   "note": "In full for the blocking writer with blocks of up to a megabyte. The asynchronous writer never duplicates, invents or reorders bytes, but loses them after errors and drops, and panics when an append completes within its first poll; larger blocks make the default buffer useless."
  },
  {
   "property": "C78",
   "status": "partial",
   "theorems": [
    "Bonsai.Schm.C78_accepted_iff",
    "Bonsai.Schm.C78_error",
    "Bonsai.Schm.C78_collections",
    "Bonsai.Schm.C78_unknown_view",
    "Bonsai.Schm.C78_views_partial",
    "Bonsai.Schm.C78_schema_partial",
    "Bonsai.Schm.C78_violated_same_type_twice",
    "Bonsai.Schm.C78_violated_view_without_collection"
   ],
   "note": "In full for names and collections; the lookups of views when no view type is defined twice. A type defined twice under different names and views of undefined collections are accepted."
  },
  {
   "property": "C79",
   "status": "partial",
   "theorems": [
    "Bonsai.Store.C79_written_is_read",
    "Bonsai.Store.C79_legacy_documents_partial",
    "Bonsai.Store.C79_legacy_keys",
    "Bonsai.Store.C79_nothing_invented",
    "Bonsai.Store.C79_unknown_version",
    "Bonsai.Store.C79_listing",
    "Bonsai.Store.C79_listing_of_own_log",
    "Bonsai.Store.C79_iteration",
    "Bonsai.Store.C79_document_written_is_read",
    "Bonsai.Store.C79_legacy_document",
    "Bonsai.Store.C79_violated_too_many_collections",
    "Bonsai.Store.C79_too_many_exists"
   ],
   "note": "In full except that old records with more than 65,536 collections panic. The external formats are assumed to read what they wrote."
  },
  {
   "property": "C80",
   "status": "partial",
   "theorems": [
    "Bonsai.Store.C80_current_iff",
    "Bonsai.Store.C80_checked_view_partial",
    "Bonsai.Store.C80_checked_version_partial",
    "Bonsai.Store.C80_violated_interrupted_upgrade",
    "Bonsai.Store.C80_violated_removed_view"
   ],
   "note": "For histories in which the view is never left out, an upgrade whose scan was interrupted is not taken back before a scan has finished, and no transaction commits in the window of C32; the first two are violations, proved as such. That pot reads what it wrote is assumed."
  },
  {
   "property": "C81",
   "status": "partial",
   "theorems": [
    "Bonsai.Net.C81_unasked",
    "Bonsai.Net.C81_told",
    "Bonsai.Net.C81_never_running_again",
    "Bonsai.Net.C81_forced_only_after_timeout_partial",
    "Bonsai.Net.C81_listener",
    "Bonsai.Net.C81_secure_listener_partial",
    "Bonsai.Net.C81_violated_one_interrupt",
    "Bonsai.Net.C81_violated_unnoticed_shutdown",
    "Bonsai.Net.C81_violated_forced_taken_back",
    "Bonsai.Net.C81_violated_secure_listener_fails",
    "Bonsai.Net.C81_violated_secure_listener_stays"
   ],
   "note": "The timeout is honoured for calls by the application; single interrupts, the return of listen_for_shutdown, repeated calls and the TLS listener violate the statement, proved as negations."
  },
  {
   "property": "C82",
   "status": "partial",
   "theorems": [
    "Bonsai.Net.C82_connected_clients",
    "Bonsai.Net.C82_broadcast",
    "Bonsai.Net.C82_order",
    "Bonsai.Net.C82_sessions_end_partial",
    "Bonsai.Net.C82_ended_was_authenticated_partial",
    "Bonsai.Net.C82_disconnected",
    "Bonsai.Net.C82_rejected",
    "Bonsai.Net.C82_not_allowed",
    "Bonsai.Net.C82_gets_id",
    "Bonsai.Net.C82_can_finish",
    "Bonsai.Net.C82_violated_unauthenticated_session_ends",
    "Bonsai.Net.C82_violated_ended_twice",
    "Bonsai.Net.C82_violated_authenticated_after_disconnect",
    "Bonsai.Net.C82_violated_challenge_announced"
   ],
   "note": "List, broadcast, ids and the order of connected/disconnected are proved; requests handled after the end of the connection, the unauthenticated session and token challenges violate the rest, proved as negations."
  },
  {
   "property": "C83",
   "status": "partial",
   "theorems": [
    "Bonsai.Argon.C83_answers",
    "Bonsai.Argon.C83_roundtrip",
    "Bonsai.Argon.C83_strength",
    "Bonsai.Argon.C83_same_params",
    "Bonsai.Argon.C83_explicit_params",
    "Bonsai.Argon.C83_progress",
    "Bonsai.Argon.C83_calibration",
    "Bonsai.Argon.C83_calibration_ends",
    "Bonsai.Argon.C83_calibration_no_panic_partial",
    "Bonsai.Argon.C83_calibration_least",
    "Bonsai.Argon.C83_default_memory",
    "Bonsai.Argon.C83_violated_user_not_checked",
    "Bonsai.Argon.C83_violated_panic",
    "Bonsai.Argon.C83_violated_waits_forever",
    "Bonsai.Argon.C83_violated_default_ram"
   ],
   "note": "Answers, strength and the calibration are proved; that the saved hash is that user's, that the pool survives a calibration with very short runs, and the documented memory share are violated, proved as negations."
  },
  {
   "property": "C84",
   "status": "partial",
   "theorems": [
    "Bonsai.Net.C84_install",
    "Bonsai.Net.C84_self_signed",
    "Bonsai.Net.C84_self_signed_refused",
    "Bonsai.Net.C84_refresh",
    "Bonsai.Net.C84_failed_call_partial",
    "Bonsai.Net.C84_presented",
    "Bonsai.Net.C84_stored",
    "Bonsai.Net.C84_pinned",
    "Bonsai.Net.C84_no_overwrite",
    "Bonsai.Net.C84_calls_end",
    "Bonsai.Net.C84_handshake",
    "Bonsai.Net.C84_not_early",
    "Bonsai.Net.C84_in_time",
    "Bonsai.Net.C84_only_then",
    "Bonsai.Net.C84_renewal_can_end",
    "Bonsai.Net.C84_violated_renewal_ends",
    "Bonsai.Net.C84_violated_installed_ignored",
    "Bonsai.Net.C84_violated_failed_install",
    "Bonsai.Net.C84_violated_two_installs",
    "Bonsai.Net.C84_violated_both_succeed",
    "Bonsai.Net.C84_violated_crash"
   ],
   "note": "Single calls, what every interleaving keeps, the handshake and the timing of renewal are proved; that a failed install changes nothing, that the presented certificate is the stored one under concurrency, that the pinned file survives crashes and that renewal goes on are violated, proved as negations."
  },
  {
   "property": "C85",
   "status": "partial",
   "theorems": [
    "Bonsai.Asyn.C85_sequential",
    "Bonsai.Asyn.C85_result",
    "Bonsai.Asyn.C85_join",
    "Bonsai.Asyn.C85_real_time",
    "Bonsai.Asyn.C85_progress",
    "Bonsai.Asyn.C85_runtime_kept_partial",
    "Bonsai.Asyn.C85_violated_dropped",
    "Bonsai.Asyn.C85_violated_dropped_lost",
    "Bonsai.Asyn.C85_violated_admin"
   ],
   "note": "Linearizability of the calls is proved for every storage and schedule; that a dropped call has no later effect and that admin() keeps the runtime are violated, proved as negations."
  },
  {
   "property": "C86",
   "status": "partial",
   "theorems": [
    "Bonsai.Lock.C86_exclusive",
    "Bonsai.Lock.C86_release",
    "Bonsai.Lock.C86_id_kept",
    "Bonsai.Lock.C86_first",
    "Bonsai.Lock.C86_same_id",
    "Bonsai.Lock.C86_reopen",
    "Bonsai.Lock.C86_violated_crash",
    "Bonsai.Lock.C86_violated_two_first",
    "Bonsai.Lock.C86_violated_race_panic",
    "Bonsai.Lock.C86_violated_configured"
   ],
   "note": "Exclusion, release and stability of the id after a first opening made alone are proved; first openings made at once, a crash in the first, and the persisted configured id violate the statement, proved as negations."
  },
  {
   "property": "C87",
   "status": "partial",
   "theorems": [
    "Bonsai.Vault.C87_places",
    "Bonsai.Vault.C87_given_back",
    "Bonsai.Vault.C87_nothing_made_up",
    "Bonsai.Vault.C87_absent",
    "Bonsai.Vault.C87_missing",
    "Bonsai.Vault.C87_s3_atomic",
    "Bonsai.Vault.C87_shared",
    "Bonsai.Vault.C87_opens_again",
    "Bonsai.Vault.C87_replaced",
    "Bonsai.Vault.C87_violated_same_id",
    "Bonsai.Vault.C87_violated_local_cut",
    "Bonsai.Vault.C87_violated_new",
    "Bonsai.Vault.C87_violated_region"
   ],
   "note": "Round trip, isolation and sharing are proved for every history; atomicity holds for S3 only; two storages with one id, new() outside a runtime and the region setting are violated, proved as negations."
  },
  {
   "property": "C88",
   "status": "proved",
   "theorems": [
    "Bonsai.Emit.C88_built",
    "Bonsai.Emit.C88_and_assoc",
    "Bonsai.Emit.C88_emit",
    "Bonsai.Emit.C88_indexed",
    "Bonsai.Emit.C88_error"
   ],
   "note": ""
  },
  {
   "property": "C89",
   "status": "partial",
   "theorems": [
    "Bonsai.Describe.C89_described_partial",
    "Bonsai.Describe.C89_enum_iff",
    "Bonsai.Describe.C89_silent",
    "Bonsai.Describe.C89_violated_two_fields",
    "Bonsai.Describe.C89_violated_empty_variant",
    "Bonsai.Describe.C89_violated_empty_struct",
    "Bonsai.Describe.C89_violated_discriminant"
   ],
   "note": "Proved for all types without empty derived structs and whose enums with data have as many fields as variants; violated otherwise: derive(Key) reports the number of variants but visits every field, so for_key panics (an exact condition is proved), which makes define_collection and list_available_schemas panic; the description of an enum does not mention its discriminant."
  },
  {
   "property": "C90",
   "status": "partial",
   "theorems": [
    "Bonsai.Schm.C90_summary_partial",
    "Bonsai.Schm.C90_listed_partial",
    "Bonsai.Schm.C90_panic",
    "Bonsai.Schm.C90_violated_unused",
    "Bonsai.Schm.C90_violated_panic"
   ],
   "note": "Violated as documented: registered schemas that no database uses are not listed, and one view key that cannot be described makes the listing panic; views registered twice with one type are C78's violation."
  },
  {
   "property": "C91",
   "status": "partial",
   "theorems": [
    "Bonsai.Pipe.C91_ok_sound",
    "Bonsai.Pipe.C91_clean",
    "Bonsai.Pipe.C91_clean_ends",
    "Bonsai.Pipe.C91_bounded",
    "Bonsai.Pipe.C91_ends_partial",
    "Bonsai.Pipe.C91_panic_only",
    "Bonsai.Pipe.C91_eager",
    "Bonsai.Pipe.C91_documents",
    "Bonsai.Pipe.C91_all_divided",
    "Bonsai.Pipe.C91_hang_forever",
    "Bonsai.Pipe.C91_violated_hang_map",
    "Bonsai.Pipe.C91_violated_hang_save",
    "Bonsai.Pipe.C91_violated_panic_send",
    "Bonsai.Pipe.C91_violated_panic_read",
    "Bonsai.Pipe.C91_violated_zero_workers"
   ],
   "note": "Proved: success is sound and complete, every execution is bounded, updates of at most two batches (2048 documents) never wait forever, and panics have only three causes. Violated: with three batches a failing map (or save) leaves generate_batches (or map_batches) waiting forever, because the receivers of the channels are only borrowed by the closures; a failing map can make the reading thread panic in send().unwrap(); a failing read always makes the saving thread panic; so do zero workers."
  },
  {
   "property": "C92",
   "status": "partial",
   "theorems": [
    "Bonsai.Cli.C92_read_partial",
    "Bonsai.Cli.C92_text_iff",
    "Bonsai.Cli.C92_confirm",
    "Bonsai.Cli.C92_unchanged",
    "Bonsai.Cli.C92_set",
    "Bonsai.Cli.C92_violated_utf8",
    "Bonsai.Cli.C92_violated_backspace",
    "Bonsai.Cli.C92_violated_half_created"
   ],
   "note": "Proved for ASCII; the exact condition is proved: a text is read as typed iff it is ASCII, because each byte of its UTF-8 encoding becomes a character. Backspace removes a byte, and creating a user with a password is not atomic."
  },
  {
   "property": "C93",
   "status": "partial",
   "theorems": [
    "Bonsai.JobErr.C93_everyone_partial",
    "Bonsai.JobErr.C93_at_most_one",
    "Bonsai.JobErr.C93_who",
    "Bonsai.JobErr.C93_goes_on",
    "Bonsai.JobErr.C93_layers",
    "Bonsai.JobErr.C93_server",
    "Bonsai.JobErr.C93_violated_single",
    "Bonsai.JobErr.C93_violated_neither",
    "Bonsai.JobErr.C93_violated_two"
   ],
   "note": "Proved: every waiter sees the error or Other with its text, nobody waits forever, core errors keep their kind through all layers. Violated: at most one waiter can see the error itself (Arc::try_unwrap), with two waiters possibly none, and even a single waiter sees Other if it is woken while the job's thread holds its reference."
  },
  {
   "property": "C94",
   "status": "partial",
   "theorems": [
    "Bonsai.Browser.C94_once",
    "Bonsai.Browser.C94_response",
    "Bonsai.Browser.C94_close",
    "Bonsai.Browser.C94_error",
    "Bonsai.Browser.C94_one",
    "Bonsai.Browser.C94_lost",
    "Bonsai.Browser.C94_progress",
    "Bonsai.Browser.C94_served",
    "Bonsai.Browser.C94_result",
    "Bonsai.Browser.C94_stale_once",
    "Bonsai.Browser.C94_violated_lost",
    "Bonsai.Browser.C94_violated_after_close",
    "Bonsai.Browser.C94_violated_stale",
    "Bonsai.Browser.C94_violated_worker"
   ],
   "note": "Proved: answered once, by a response only to what was sent on an open connection, with errors only when there is no connection or it ends; exactly the lost requests cannot be answered. Violated: requests given to a connection that is never opened, or that has ended, are lost (until the request's timeout); after a failed connection the next request fails with its error without a new attempt; without a window every request times out at once."
  },
  {
   "property": "C95",
   "status": "partial",
   "theorems": [
    "Bonsai.Open.C95_trees",
    "Bonsai.Open.C95_own",
    "Bonsai.Open.C95_ends_partial",
    "Bonsai.Open.C95_encrypted",
    "Bonsai.Open.C95_log_partial",
    "Bonsai.Open.C95_violated_policy",
    "Bonsai.Open.C95_violated_log"
   ],
   "note": "Proved: the opened trees are exactly the needed ones, once, with the readers' vaults; the collection's key encrypts them; a transaction never panics if the policy is fixed by the view type. Violated: two registered instances of one view type with different policies make every change panic; the ids of changed documents of a collection with its own key are in the log in the clear when the storage has no default key."
  },
  {
   "property": "C96",
   "status": "partial",
   "theorems": [
    "Bonsai.Cli.C96_summaries",
    "Bonsai.Cli.C96_schemas",
    "Bonsai.Cli.C96_collections",
    "Bonsai.Cli.C96_views",
    "Bonsai.Cli.C96_view",
    "Bonsai.Cli.C96_missing",
    "Bonsai.Cli.C96_order",
    "Bonsai.Cli.C96_arguments",
    "Bonsai.Cli.C96_printed_partial",
    "Bonsai.Cli.C96_steps",
    "Bonsai.Cli.C96_external",
    "Bonsai.Cli.C96_server",
    "Bonsai.Cli.C96_success",
    "Bonsai.Cli.C96_serve",
    "Bonsai.Cli.C96_serve_ends",
    "Bonsai.Cli.C96_violated_printed",
    "Bonsai.Cli.C96_violated_credentials",
    "Bonsai.Cli.C96_violated_certificate",
    "Bonsai.Cli.C96_violated_bind",
    "Bonsai.Cli.C96_violated_waiting"
   ],
   "note": "Proved: the output of `schema` is exact, sorted and independent of map orders; encoded arguments are unambiguous; commands run only after all steps succeeded, where and as whom the options say; serve ends only when asked. Violated: printed names with `_` or `.` are refused or taken as something else; credentials and pinned certificates that do not apply are ignored silently; serve keeps running when nothing can be bound; while it waits for a certificate a shutdown has no effect and a signal kills it."
  },
  {
   "property": "C97",
   "status": "partial",
   "theorems": [
    "Bonsai.Callbacks.C97_messages",
    "Bonsai.Callbacks.C97_one_at_a_time",
    "Bonsai.Callbacks.C97_answers",
    "Bonsai.Callbacks.C97_progress_partial",
    "Bonsai.Callbacks.C97_callback",
    "Bonsai.Callbacks.C97_violated_callback",
    "Bonsai.Callbacks.C97_violated_overlap",
    "Bonsai.Callbacks.C97_violated_with_api"
   ],
   "note": "Proved: each message is given to its callback once, in order; natively one at a time; responses are final and genuine; in a browser, or if callbacks make no requests, everything can always be handled; the last registration of a name counts. Violated: natively a request made by a callback of the same client is never given its response and blocks all responses until it times out; in browsers callbacks overlap; with_api after with_api_callback removes the callback."
  },
  {
   "property": "C98",
   "status": "partial",
   "theorems": [
    "Bonsai.Hand.C98_listener",
    "Bonsai.Hand.C98_version_partial",
    "Bonsai.Hand.C98_upgrade",
    "Bonsai.Hand.C98_address",
    "Bonsai.Hand.C98_routes",
    "Bonsai.Hand.C98_violated_upgrade",
    "Bonsai.Hand.C98_violated_browser",
    "Bonsai.Hand.C98_violated_lines",
    "Bonsai.Hand.C98_violated_upgrade_to",
    "Bonsai.Hand.C98_violated_host",
    "Bonsai.Hand.C98_violated_other"
   ],
   "note": "Proved: at the server's own listeners the version decides, on every transport, for all header lists; addresses and routes of connections. Violated: upgrade_websocket checks no version (any native client connects, no browser can); a browser is not told of a mismatch; versions in a second header line are not seen; any Upgrade is taken for a WebSocket; the Host header lacks the port; StandardTcpProtocols::Other panics."
  },
  {
   "property": "C99",
   "status": "partial",
   "theorems": [
    "Bonsai.Registry.C99_registered",
    "Bonsai.Registry.C99_open",
    "Bonsai.Registry.C99_register",
    "Bonsai.Registry.C99_handle_partial",
    "Bonsai.Registry.C99_created",
    "Bonsai.Registry.C99_listed_partial",
    "Bonsai.Registry.C99_violated_register",
    "Bonsai.Registry.C99_violated_configure",
    "Bonsai.Registry.C99_violated_listed"
   ],
   "note": "Proved for every history: which type is used for a name, when a registration is refused and when a database opens, that a database keeps its schema, what is listed. Violated: a registration that is refused takes effect all the same; the configuration replaces silently, also a program's schema by the server's own; registered schemas that no database has are not listed."
  }
 ]
}