{
 "claims": [
  {
   "property": "C01",
   "status": "proved",
   "theorems": [
    "Notatin.checksum_spec",
    "Notatin.checksum_short",
    "Notatin.checksum_never_trivial",
    "Notatin.checksum_prefix_only",
    "Notatin.checksum_detects_dword"
   ],
   "note": ""
  },
  {
   "property": "C02",
   "status": "proved",
   "theorems": [
    "Notatin.header_rewrite",
    "Notatin.updateHeader_ok"
   ],
   "note": ""
  },
  {
   "property": "C03",
   "status": "proved",
   "theorems": [
    "Notatin.entry_effect"
   ],
   "note": ""
  },
  {
   "property": "C04",
   "status": "partial",
   "theorems": [
    "Notatin.applied_run_partial",
    "Notatin.applied_run_violated"
   ],
   "note": "Proved for every log when the hive's secondary number is not 0 and no entry carries 2^32-1; for secondary number 0 the code applies non-consecutive entries (witness)."
  },
  {
   "property": "C05",
   "status": "proved",
   "theorems": [
    "Notatin.log_order",
    "Notatin.build_log_order"
   ],
   "note": ""
  },
  {
   "property": "C06",
   "status": "partial",
   "theorems": [
    "Notatin.unreadable_logs_skipped_partial",
    "Notatin.unreadable_log_violated"
   ],
   "note": "Proved for all files without a log entry of size below 40; such an entry panics (witness)."
  },
  {
   "property": "C07",
   "status": "partial",
   "theorems": [
    "Notatin.header_seq_partial",
    "Notatin.header_seq_violated"
   ],
   "note": "Proved for any number of sound logs; three ways the code breaks it for damaged logs are shown as witnesses."
  },
  {
   "property": "C08",
   "status": "partial",
   "theorems": [
    "Notatin.iteration_ends_partial",
    "Notatin.iteration_total_partial",
    "Notatin.iteration_aborts",
    "Notatin.iteration_violated"
   ],
   "note": "For every file the iteration ends and yields no live cell twice, but the end may be an abort: a sub-key list that lists itself exhausts the stack (witness); without such lists it always completes."
  },
  {
   "property": "C09",
   "status": "proved",
   "theorems": [
    "Notatin.iteration_preorder"
   ],
   "note": ""
  },
  {
   "property": "C10",
   "status": "partial",
   "theorems": [
    "Notatin.iteration_postorder_partial",
    "Notatin.post_perm_pre",
    "Notatin.postorder_example",
    "Notatin.postorder_violated"
   ],
   "note": "Proved without recovered keys; with a recovered key, keys are yielded before their sub-keys (witness)."
  },
  {
   "property": "C11",
   "status": "partial",
   "theorems": [
    "Notatin.filter_listing_partial",
    "Notatin.key_path_segments",
    "Notatin.segments_added",
    "Notatin.filter_root_missed",
    "Notatin.filter_root_shown",
    "Notatin.filter_root_flag_violated",
    "Notatin.pattern_lowered_violated",
    "Notatin.filter_violated"
   ],
   "note": "Proved for the keys below the root, when no cell below the root carries the root flag. The root is never compared with the filter, root-flagged cells below it pass every filter, and patterns are lower-cased before they are compiled (witnesses)."
  },
  {
   "property": "C12",
   "status": "partial",
   "theorems": [
    "Notatin.lookup_path",
    "Notatin.sub_key_by_path",
    "Notatin.get_key_partial",
    "Notatin.sub_key_by_names",
    "Notatin.asks_for",
    "Notatin.asks_once",
    "Notatin.get_key_any_partial",
    "Notatin.first_at_walk",
    "Notatin.get_key_root_ends_violated",
    "Notatin.get_key_backslash_violated",
    "Notatin.get_key_twins_violated"
   ],
   "note": "The result is the first key in listing order whose names are the given ones, none iff there is none; with distinct names among sub-keys that is the segment-by-segment walk. Holds for every path without the root, empty segments and backslashes at both ends included (get_key_any_partial). With the root in the path, two or more backslashes after its name and nothing else find nothing, although one finds the root (witness). A key whose name contains a backslash is found under two segments, and below a repeated name the search goes on in the later keys (witnesses)."
  },
  {
   "property": "C13",
   "status": "partial",
   "theorems": [
    "Notatin.nk_decode_ascii",
    "Notatin.nk_decode_utf16",
    "Notatin.nk_accepts_iff",
    "Notatin.nk_inside_partial",
    "Notatin.nk_inside_violated"
   ],
   "note": "Exact decoding and the acceptance condition proved for every cell; the cell-boundary half is false in the code when the size field is smaller than header plus name (witness), and proved otherwise."
  },
  {
   "property": "C14",
   "status": "partial",
   "theorems": [
    "Notatin.vk_decode_ascii",
    "Notatin.vk_decode_utf16",
    "Notatin.vk_accepts_iff",
    "Notatin.data_type_decode",
    "Notatin.vk_inside_partial",
    "Notatin.vk_inside_violated"
   ],
   "note": "Exact decoding and the acceptance condition proved for every cell; a name longer than the cell is read from the next cell (witness)."
  },
  {
   "property": "C15",
   "status": "partial",
   "theorems": [
    "Notatin.value_data_partial",
    "Notatin.value_data_truncated_violated",
    "Notatin.value_data_db_violated"
   ],
   "note": "Exact bytes proved for all three storage forms and every size, under the stated side conditions; the full claim is false: fixed-length types are cut, and plain data beginning with \"db\" is misread."
  },
  {
   "property": "C16",
   "status": "partial",
   "theorems": [
    "Notatin.sub_key_list_partial",
    "Notatin.sub_key_list_rejected",
    "Notatin.hashed_list_far",
    "Notatin.plain_list_far",
    "Notatin.sub_key_list_violated",
    "Notatin.sub_key_list_cycle_violated"
   ],
   "note": "Every well-formed list of any nesting depth is read in order; unknown list kinds are rejected; overflowing offsets are left out of lh lists and crash on lf and li lists (for all items), and self-referencing index roots overflow the stack (witnesses)."
  },
  {
   "property": "C17",
   "status": "proved",
   "theorems": [
    "Notatin.content_number",
    "Notatin.content_number_short",
    "Notatin.content_text",
    "Notatin.content_text_total",
    "Notatin.content_texts_total",
    "Notatin.content_raw",
    "Notatin.content_absent",
    "Notatin.content_total"
   ],
   "note": ""
  },
  {
   "property": "C18",
   "status": "proved",
   "theorems": [
    "Notatin.utf16_decode_pieces",
    "Notatin.utf16_roundtrip",
    "Notatin.utf16_total"
   ],
   "note": "All texts, all byte strings, incl. unpaired surrogates and odd trailing byte."
  },
  {
   "property": "C19",
   "status": "partial",
   "theorems": [
    "Notatin.multi_sz_roundtrip_partial",
    "Notatin.multi_sz_violated",
    "Notatin.multi_sz_blank_violated",
    "Notatin.multi_sz_total"
   ],
   "note": "Round trip proved for non-blank BMP strings; the full claim is false in the code (witness: a string with an astral character; a blank string)."
  },
  {
   "property": "C20",
   "status": "partial",
   "theorems": [
    "Notatin.filetime_exact_iff_partial",
    "Notatin.filetime_monotone_partial",
    "Notatin.filetime_violated"
   ],
   "note": "Exact iff the instant fits i64 nanoseconds; full claim false (FILETIME 0)."
  },
  {
   "property": "C21",
   "status": "proved",
   "theorems": [
    "Notatin.rot13_pointwise",
    "Notatin.rot13_involution"
   ],
   "note": ""
  },
  {
   "property": "C22",
   "status": "proved",
   "theorems": [
    "Notatin.hex_form",
    "Notatin.hex_roundtrip",
    "Notatin.hex_injective"
   ],
   "note": ""
  },
  {
   "property": "C23",
   "status": "proved",
   "theorems": [
    "Notatin.escape_plain",
    "Notatin.escape_read_field",
    "Notatin.escape_row_roundtrip",
    "Notatin.escape_injective"
   ],
   "note": "Stated for tab and comma separators."
  },
  {
   "property": "C24",
   "status": "partial",
   "theorems": [
    "Notatin.lznt1_split",
    "Notatin.dispBits_least",
    "Notatin.lznt1_roundtrip",
    "Notatin.lznt1_panics",
    "Notatin.lznt1_never_err"
   ],
   "note": "Round trip proved for every stream; the robustness half is false: malformed input panics."
  },
  {
   "property": "C25",
   "status": "proved",
   "theorems": [
    "Notatin.root_prefix_stripped",
    "Notatin.root_prefix_absent",
    "Notatin.root_prefix_in_bounds"
   ],
   "note": ""
  },
  {
   "property": "C26",
   "status": "partial",
   "theorems": [
    "Notatin.recover_terminates_partial",
    "Notatin.recover_sound_partial",
    "Notatin.recover_overflow_violated"
   ],
   "note": "Proved for every file when the stack has room for one call per 24 bytes of the file; cells nested in the slack of cells, 24 bytes per level, overflow any stack (witness for every depth)."
  },
  {
   "property": "C27",
   "status": "partial",
   "theorems": [
    "Notatin.deleted_values_recorded",
    "Notatin.modified_recorded",
    "Notatin.deleted_keys_recorded_partial",
    "Notatin.deleted_keys_violated"
   ],
   "note": "Removing the last deleted key below a path drops everything recorded below that key (witness)."
  },
  {
   "property": "C28",
   "status": "partial",
   "theorems": [
    "Notatin.security_ring_partial",
    "Notatin.security_ring_only",
    "Notatin.security_ring_violated"
   ],
   "note": "Every well-formed ring of any length is read in order, and nothing else is returned; a list that re-enters at another cell than its start never terminates (witness)."
  },
  {
   "property": "C29",
   "status": "proved",
   "theorems": [
    "Notatin.marvin_word_change",
    "Notatin.entry_valid_iff",
    "Notatin.corruption_detected"
   ],
   "note": ""
  },
  {
   "property": "C30",
   "status": "partial",
   "theorems": [
    "Notatin.compare_reported_partial",
    "Notatin.hives_compared_partial",
    "Notatin.compare_same",
    "Notatin.compare_self",
    "Notatin.total_changes",
    "Notatin.compare_backslash_violated",
    "Notatin.compare_case_violated",
    "Notatin.compare_root_violated"
   ],
   "note": "Proved: comparing equal listings reports nothing (any hive, any filter); a base hive with a tree of keys with distinct names free of backslashes, opened without recovery and listed without filter, against any hive: exactly the differences are reported; the total is their number. Missing: names with backslashes panic, names that differ only in case are mixed up, another root cell than the first panics (witnesses)."
  },
  {
   "property": "C31",
   "status": "partial",
   "theorems": [
    "Notatin.diff_hunks_partial",
    "Notatin.diff_newline_violated"
   ],
   "note": "Proved for all outputs whose rows have no line feed. Names with line feeds are printed as they are and break the hunks (witness)."
  },
  {
   "property": "C32",
   "status": "partial",
   "theorems": [
    "Notatin.common_totals",
    "Notatin.common_finishes_partial",
    "Notatin.common_opened_partial",
    "Notatin.common_hive_partial",
    "Notatin.common_default_violated"
   ],
   "note": "Whenever the export finishes the totals are right; it finishes for every listing of every file of a known type, opened with or without recovery and whatever logs are replayed (fewer than 2^32 items), and for every listing whose paths begin with a backslash. For a file that is no hive the listing is a made-up key without a path and the export panics (witness)."
  },
  {
   "property": "C33",
   "status": "partial",
   "theorems": [
    "Notatin.tsv_rows",
    "Notatin.tsv_recovered_sublist",
    "Notatin.recovered_only_partial",
    "Notatin.recovered_only_xlsx_partial",
    "Notatin.recovered_only_violated"
   ],
   "note": "Rows of every listing, with and without recovered-only; the columns after the index are parameters. That recovered-only gives the items README names is proved for listings in which every key that contains a changed value is changed itself; otherwise violated: an unchanged key that contains a deleted or modified value has no row."
  },
  {
   "property": "C34",
   "status": "partial",
   "theorems": [
    "Notatin.key_flags_decode",
    "Notatin.access_flags_decode",
    "Notatin.value_flags_decode_partial",
    "Notatin.value_flags_violated",
    "Notatin.file_type_decode"
   ],
   "note": "Key and access flags proved; a value cell with an undocumented bit loses all flags (witness)."
  },
  {
   "property": "C35",
   "status": "partial",
   "theorems": [
    "Notatin.log_entry_roundtrip",
    "Notatin.log_entries_roundtrip",
    "Notatin.log_file_roundtrip",
    "Notatin.unreadable_log_violated"
   ],
   "note": "Round trip proved for every list of entries followed by any non-entry bytes; a malformed entry with size below 40 panics instead of ending the list."
  },
  {
   "property": "C36",
   "status": "proved",
   "theorems": [
    "Notatin.get_value_first",
    "Notatin.get_value_none",
    "Notatin.get_value_default"
   ],
   "note": ""
  },
  {
   "property": "C37",
   "status": "partial",
   "theorems": [
    "Notatin.analysis_starts",
    "Notatin.analysis_continues",
    "Notatin.analysis_latest",
    "Notatin.analysis_modified_keys",
    "Notatin.analysis_modified_values",
    "Notatin.analysis_deleted_values",
    "Notatin.analysis_deleted_keys_partial",
    "Notatin.analysis_lost_violated",
    "Notatin.analysis_recovered_violated",
    "Notatin.analysis_unchanged_violated",
    "Notatin.analysis_stale_violated"
   ],
   "note": "Proved for every pair of states with unique paths and names: exactly the changed and the missing items are recorded, with both sequence numbers, and the items carried on describe the file. Missing: the deletion of keys below one that turns up again is lost, keys recovered from the primary file drop out, same-named sub-keys give false modifications, and after an unreadable state stale items are kept (witnesses)."
  },
  {
   "property": "C38",
   "status": "partial",
   "theorems": [
    "Notatin.log_files_partial",
    "Notatin.paths_taken_apart",
    "Notatin.log_files_violated",
    "Notatin.log_files_case_violated"
   ],
   "note": "Proved where case does not matter, and where it does for logs spelled like the primary or, for NTUSER.DAT and UsrClass.DAT, as Windows spells them. On a case-sensitive file system NTUSER.DAT.LOG1 beside NTUSER.DAT is not found, nor is a .log1 in lower case (witnesses). The list of files is proved without conditions on the decoration."
  },
  {
   "property": "C39",
   "status": "partial",
   "theorems": [
    "Notatin.read_values_partial",
    "Notatin.read_values_violated"
   ],
   "note": "Proved for keys whose value list and cells are readable; a value list outside the file gives no values and no warning (witness)."
  },
  {
   "property": "C40",
   "status": "proved",
   "theorems": [
    "Notatin.ascii_decode",
    "Notatin.ascii_injective",
    "Notatin.name_decode_choice"
   ],
   "note": ""
  },
  {
   "property": "C41",
   "status": "partial",
   "theorems": [
    "Notatin.open_clean",
    "Notatin.open_unsupported",
    "Notatin.open_no_logs",
    "Notatin.bad_checksum_header",
    "Notatin.recovered_header_violated"
   ],
   "note": "Decision proved in every case; the header taken over from a log is not itself checked (witness)."
  },
  {
   "property": "C42",
   "status": "partial",
   "theorems": [
    "Notatin.attached_all",
    "Notatin.attach_ends",
    "Notatin.attach_partial",
    "Notatin.attach_root_violated",
    "Notatin.attach_loops_violated"
   ],
   "note": "Proved for keys that are not root-flagged. The root looks under the empty path, so what is recorded under its own path is never attached; two recorded root keys make attaching recurse without end (witnesses)."
  },
  {
   "property": "C43",
   "status": "partial",
   "theorems": [
    "Notatin.get_sub_key_partial",
    "Notatin.get_sub_key_root_none",
    "Notatin.get_sub_key_root_panics",
    "Notatin.get_sub_key_violated"
   ],
   "note": "Proved below the root when no sub-key carries the root flag. On the root key nothing is ever found, and after any comparison with a filter the call panics (witnesses)."
  },
  {
   "property": "C44",
   "status": "partial",
   "theorems": [
    "Notatin.sub_key_by_index_partial",
    "Notatin.sub_key_by_index_none",
    "Notatin.next_sub_key_partial",
    "Notatin.sub_key_by_index_violated"
   ],
   "note": "Missing: lists whose reader does not return (C16; witness: a list that lists itself) and recovery states whose attachment does not end (C42)."
  },
  {
   "property": "C45",
   "status": "partial",
   "theorems": [
    "Notatin.incomplete_data_partial",
    "Notatin.incomplete_data_violated"
   ],
   "note": "Proved for plain data cells; a big data record that is short is returned without a warning (witness)."
  },
  {
   "property": "C46",
   "status": "partial",
   "theorems": [
    "Notatin.data_offsets_partial",
    "Notatin.data_offsets_violated"
   ],
   "note": "Proved for inline and plain data; big data segments are reported relative to the hive bins (witness)."
  },
  {
   "property": "C47",
   "status": "partial",
   "theorems": [
    "Notatin.decode_content_partial",
    "Notatin.decode_content_utf16",
    "Notatin.decode_content_rot13",
    "Notatin.decode_content_violated"
   ],
   "note": "Proved for the formats that do not decompress or skip; LZNT1 and a positive offset with MULTI_SZ panic (witnesses)."
  },
  {
   "property": "C48",
   "status": "partial",
   "theorems": [
    "Notatin.postorder_filter_partial",
    "Notatin.filteredPost_perm",
    "Notatin.postorder_filter_example",
    "Notatin.postorder_filter_violated"
   ],
   "note": "Proved when ancestors are asked for; when they are not, the keys on the way are returned all the same (witness)."
  },
  {
   "property": "C49",
   "status": "partial",
   "theorems": [
    "Notatin.recover_complete_partial",
    "Notatin.recover_misses_last_bins",
    "Notatin.recover_misses_last_bins_violated"
   ],
   "note": "Proved for the bins whose file offset is below the size of the bins data. The bins of the last 4096 bytes are never scanned, so a hive of one bin yields nothing (witness)."
  },
  {
   "property": "C50",
   "status": "partial",
   "theorems": [
    "Notatin.outputs_partial",
    "Notatin.outputs_dot_violated",
    "Notatin.outputs_underscore_violated"
   ],
   "note": "Proved for folder names without dots and underscores, with no two hives in a folder that differ in case only. With a dot in a folder name all hives below it go to one file; underscores collide with separators (witnesses)."
  },
  {
   "property": "C51",
   "status": "partial",
   "theorems": [
    "Notatin.hives_taken_partial",
    "Notatin.hives_compared_pairs",
    "Notatin.hives_taken_violated"
   ],
   "note": "Proved for every tree without Amcache.hve or amcache, on file systems where case does not matter (logs). Amcache.hve is never taken (witness)."
  },
  {
   "property": "C52",
   "status": "proved",
   "theorems": [
    "Notatin.tsv_read_back",
    "Notatin.tsv_plain"
   ],
   "note": "For the texts the export really has (times, flags, types); the texts of log entries are parameters, in quotes."
  },
  {
   "property": "C53",
   "status": "partial",
   "theorems": [
    "Notatin.xlsx_rows",
    "Notatin.xlsx_plain",
    "Notatin.xlsx_short",
    "Notatin.xlsx_rows_tell_partial",
    "Notatin.xlsx_finishes_texts_partial",
    "Notatin.xlsx_finishes_partial",
    "Notatin.xlsx_row_limit",
    "Notatin.xlsx_row_limit_violated"
   ],
   "note": "Whenever the export finishes every item is shown, long texts completely. It finishes for fewer than 1048576 items, at most 1048576 logs and at most 65530 long texts; with more items it fails with an error (witness). Numbers, formats and the writing library are simplified: what the library refuses is modelled."
  },
  {
   "property": "C54",
   "status": "partial",
   "theorems": [
    "Notatin.sanitize_cleaned",
    "Notatin.xlsx_legal",
    "Notatin.xlsx_legal_texts"
   ],
   "note": "Proved when the texts of the parser-level logs have only such characters: they are written as they are. Which characters Debug prints as they are is a parameter, assumed to be ones XML allows."
  },
  {
   "property": "C55",
   "status": "partial",
   "theorems": [
    "Notatin.jsonl_read_back_partial",
    "Notatin.jsonl_texts_told_partial",
    "Notatin.jsonl_versions_violated"
   ],
   "note": "Proved for every listing: one line per key, which a JSON reader turns into the key with its values and logs; the interpretations of times and flags beside the stored numbers are right. Earlier versions of keys are left out of the export (witness: no reader can tell them)."
  },
  {
   "property": "C56",
   "status": "partial",
   "theorems": [
    "Notatin.fields_placed_partial"
   ],
   "note": "Proved for all allocated keys and values of every iteration, on every file. Missing: recovered items and versions (their place may hold something else by now), the name of a key (no place is given) and the names of values with undocumented flags."
  },
  {
   "property": "C57",
   "status": "partial",
   "theorems": [
    "Notatin.common_read_back_partial",
    "Notatin.common_times_told_partial",
    "Notatin.common_key_path_violated",
    "Notatin.common_type_violated"
   ],
   "note": "Proved for every listing whose export finishes. The rows of values have the name of the key where the heading says path, and data types that are not documented are all exported as 999 (witnesses)."
  },
  {
   "property": "C58",
   "status": "partial",
   "theorems": [
    "Notatin.times_told_partial",
    "Notatin.times_violated"
   ],
   "note": "Proved for the times that fit 64-bit nanoseconds (1677 to 2262). Times outside are written as another time: FILETIME 0 as a date in 2185 (witness)."
  },
  {
   "property": "C59",
   "status": "partial",
   "theorems": [
    "Notatin.keyFlags_named",
    "Notatin.keyAccess_named",
    "Notatin.valueFlags_named_partial",
    "Notatin.tsv_rows_tell_partial",
    "Notatin.xlsx_rows_tell_partial",
    "Notatin.jsonl_texts_told_partial",
    "Notatin.access_bits_violated"
   ],
   "note": "The names are right in all three exports, and JSONL notes bits without a name. In the TSV export bits of the access flags without a name leave no trace (witness: two keys with different bits have the same row)."
  },
  {
   "property": "C60",
   "status": "proved",
   "theorems": [
    "Notatin.content_read_back",
    "Notatin.tsv_rows_tell_partial"
   ],
   "note": "For every content; a row of the TSV export has the two texts under their headings. Which characters Debug prints as they are is a parameter; the theorem holds for any choice."
  },
  {
   "property": "C61",
   "status": "partial",
   "theorems": [
    "Notatin.jsonl_ill_formed_marked",
    "Notatin.tsv_ill_formed_violated"
   ],
   "note": "JSONL has one warning per unpaired surrogate. The TSV export drops the warnings of decoding: a text with an unpaired surrogate has the same row as one with U+FFFD in its place (witness)."
  },
  {
   "property": "C62",
   "status": "partial",
   "theorems": [
    "Notatin.open_clean_lists",
    "Notatin.open_dirty_lists_partial",
    "Notatin.applyAll_effect",
    "Notatin.root_cell_violated"
   ],
   "note": "From the bytes of the files to the keys listed: proved for every clean hive and, for dirty ones, for logs as Windows writes them (sound logs, intact header), with the root key in the first cell of the first bin. Elsewhere it is not found although the header names its place (root_cell_violated). Other logs give the disagreements of C07 and C41. Whoever reads the trees: a key cell used twice or a tree deeper than the call stack is excluded by the hypothesis on the tree."
  },
  {
   "property": "C63",
   "status": "partial",
   "theorems": [
    "Notatin.recovery_only_adds_partial",
    "Notatin.recovery_same_in_use_partial",
    "Notatin.recovery_only_adds_violated"
   ],
   "note": "Proved for all bytes: if opening with recovery succeeds then opening without does, with the same file content and header; and whenever a listing with recovery comes to its end, with any filter, the listing without does, and its keys are the keys in use listed with recovery, in the same order, with the same fields and values in use; a path leads to the same key with and without. Missing: listings with recovery that crash (C42), the other order. Opening with recovery fails for hives that open without: eight zero bytes behind the last cell (witness)."
  },
  {
   "property": "C64",
   "status": "partial",
   "theorems": [
    "Notatin.builder_filter_violated"
   ],
   "note": "The builder stores the filter and never uses it: for every filter and every clean hive all keys are listed. Partial in that only the violation is proved; the filter given to the iterator does work (C11)."
  },
  {
   "property": "C65",
   "status": "partial",
   "theorems": [
    "Notatin.parent_found_partial",
    "Notatin.withParent_pre",
    "Notatin.parent_violated"
   ],
   "note": "Proved for every listed key of every tree whose names have no backslash and whose parent fields are right, in any recovery state, with any filter. A name with a backslash gives the parent a wrong path, and the root key, which has no parent, gives an error (or whatever its parent field names) instead of none (witnesses)."
  },
  {
   "property": "C66",
   "status": "partial",
   "theorems": [
    "Notatin.python_dates_partial",
    "Notatin.python_dates_violated"
   ],
   "note": "Proved for every time between 1677 and 2262; other times are already wrong in the Rust library (C20, C58; witness). Field order is proved to be the order of instants."
  },
  {
   "property": "C67",
   "status": "partial",
   "theorems": [
    "Notatin.python_lists",
    "Notatin.python_list_eq",
    "Notatin.python_opens",
    "Notatin.python_loops",
    "Notatin.python_iteration_violated"
   ],
   "note": "Proved: the loop over the keys gives the keys of a clean hive in pre-order; any number of lookups by path answers each time as the hive is; loops over values, sub-keys and versions give every item once. Once a loop over the keys has begun the object answers None to every lookup and a second loop raises (shown for every parser object)."
  },
  {
   "property": "C68",
   "status": "partial",
   "theorems": [
    "Notatin.builds_again_partial",
    "Notatin.builds_again_violated"
   ],
   "note": "Proved for files given by name. File objects are read from where they stand, so a second build silently drops the logs, or fails (witness)."
  },
  {
   "property": "C69",
   "status": "partial",
   "theorems": [
    "Notatin.python_content",
    "Notatin.python_text_violated"
   ],
   "note": "Proved for every type and all data; warnings are dropped, so ill-formed text cannot be told from well-formed text (witness)."
  },
  {
   "property": "C70",
   "status": "partial",
   "theorems": [
    "Notatin.opened_tells",
    "Notatin.open_clean_tells",
    "Notatin.open_dirty_tells_partial",
    "Notatin.opened_filter_tells_partial",
    "Notatin.opened_lookup_partial"
   ],
   "note": "Proved for every hive opened without recovery: the unfiltered listing shows exactly the stored keys, each with exactly its stored values (names, types, data, in order, no warning). Partial in the filtered listing and the lookup (names without backslash, the conditions of C11 and C12) and in what counts as stored: values whose data is longer than its type and long data beginning with \"db\" are wrong, see C15."
  },
  {
   "property": "C71",
   "status": "partial",
   "theorems": [
    "Notatin.dump_clean_partial",
    "Notatin.dump_dirty_partial",
    "Notatin.dump_tells_partial",
    "Notatin.dump_filter_tells_partial",
    "Notatin.openLogs_found",
    "Notatin.dump_filter_violated"
   ],
   "note": "From the bytes on the disk to the text or workbook written, for all four formats: proved for clean hives, and for dirty ones with logs as Windows writes them. Partial: without recovery; the workbook and the common format only when the export finishes (limits of the format; dates before 1677 or after 2262 are told only within the range); ill-formed text is left open (C61); the common format names the key of a value without its path (C57). With -f and the path as the exports print it, backslash in front, the output is always empty (proved for every hive)."
  },
  {
   "property": "C72",
   "status": "partial",
   "theorems": [
    "Notatin.buffered_file",
    "Notatin.buffered_complete",
    "Notatin.dump_complete_partial",
    "Notatin.compare_complete_partial",
    "Notatin.buffered_violated",
    "Notatin.dump_success_violated",
    "Notatin.folder_success_violated",
    "Notatin.compare_success_violated"
   ],
   "note": "Proved: what is in the file is always the beginning of the export, and is all of it if there is room; if the program succeeds, at most one buffer (8192 bytes) is missing. Violated: errors on the last flush (when the buffer is dropped) are lost, so on a full volume small exports succeed with an empty file; runs over folders drop or only print the errors of single hives. The workbook library is a parameter."
  },
  {
   "property": "C73",
   "status": "partial",
   "theorems": [
    "Notatin.dump_only_output",
    "Notatin.folder_inputs_unchanged",
    "Notatin.folder_exports_partial",
    "Notatin.compare_only_output",
    "Notatin.compare_inputs_unchanged",
    "Notatin.compare_destroys_violated",
    "Notatin.dump_replaces_violated"
   ],
   "note": "Proved: no file but the output changes; in runs over folders the outputs never have the name of a hive or log, so all inputs stay as they are and every hive is exported as it would be alone (when the output names differ, see C50). Violated: the output may be given as one of the inputs; reg_compare then empties the hive before reading it."
  },
  {
   "property": "C74",
   "status": "partial",
   "theorems": [
    "Notatin.compare_tells_partial",
    "Notatin.reported_stored",
    "Notatin.report_lines",
    "Notatin.shown_read_back",
    "Notatin.compare_flags_violated"
   ],
   "note": "From the bytes of two hives on the disk to what a reader finds in the report or diff: proved for every two hives that open, with any logs. Partial: no filter (with a filter: C81); first hive with its root cell where Windows puts it (elsewhere: C12); no backslashes or line feeds in names and no coinciding names (otherwise: C30, C31); hash without collisions between the two hives. Values of which only the flags of the cell differ are counted as modified (witness: the same name stored in one byte or two bytes per character)."
  },
  {
   "property": "C75",
   "status": "partial",
   "theorems": [
    "Notatin.lost_keys_listed_partial",
    "Notatin.lost_keys_listed_violated",
    "Notatin.deleted_by_log_violated",
    "Notatin.lost_for_good_violated",
    "Notatin.lost_anywhere_violated"
   ],
   "note": "From the bytes of the hive and the logs to the listing, for any number of entries: what is marked as recovered is exactly the keys lost in some step that have a survivor other than the root above them, and no path is listed twice. Violated: keys lost directly below the root, and everything below them, are never listed. Violated as well without anything being deleted by a log: free-space keys of the hive are reported as deleted by the second of two log entries that change nothing. Violated when keys come back: what was lost below such a key is forgotten. Violated when a key moves to the place of its former sub-key. Missing besides: hives that already hold deleted items."
  },
  {
   "property": "C76",
   "status": "partial",
   "theorems": [
    "Notatin.overwritten_told_partial",
    "Notatin.root_tells_past_violated",
    "Notatin.removed_values_versions_violated"
   ],
   "note": "From the bytes of the hive and the logs to the listing, for any number of entries: every listed key but the root tells exactly what the entries have changed of it and of its values and which values they have removed, with the numbers of the entries. Violated: the root tells nothing of its past; of a removed value only the last contents are told. A removal that is taken back by putting the same value there again is not told; a value that comes back changed is. Missing besides: as for C75, hashes that collide."
  },
  {
   "property": "C77",
   "status": "partial",
   "theorems": [
    "Notatin.deleted_listed_partial",
    "Notatin.deleted_listed_violated",
    "Notatin.deleted_forgotten_violated",
    "Notatin.deleted_stale_violated"
   ],
   "note": "From the bytes of a clean hive to the listing: proved for all bins that start more than 4096 bytes before the end of the bins, for every chain of cells and every stored tree, provided the stack has room for one call per 24 bytes of the file (C26). Violated: the last 4096 bytes of bins are not searched; for dirty hives the scan comes before the logs: keys found are dropped from the listing by the first log entry applied, whatever it writes, and values whose cells the logs put to use again are still listed as deleted."
  },
  {
   "property": "C78",
   "status": "partial",
   "theorems": [
    "Notatin.dump_tells_past_partial",
    "Notatin.dump_json_past_partial"
   ],
   "note": "From the bytes of the files to the table or the lines read back, no key twice, for every history of C75 and C76 (hash tells contents apart, no key that is lost comes back, log entries keep to the layout of C75). Not covered: the spreadsheet may be refused (C53), the root tells no past (root_tells_past_violated, C76; keys lost directly below the root: lost_keys_listed_violated, C75), former contents of keys are not in JSONL (jsonl_versions_violated, C55)."
  },
  {
   "property": "C79",
   "status": "partial",
   "theorems": [
    "Notatin.dump_free_partial",
    "Notatin.deleted_values_marked_violated",
    "Notatin.deleted_values_written_violated"
   ],
   "note": "From the bytes of a clean hive on the disk to the table, the records or the lines read back, in all four formats: the stored keys and values as without recovery (C71), the cells found in free space as in C77. Violated for the values of deleted keys: they are marked as allocated, and left out with --recovered-only. Not covered: bins in the last 4096 bytes (deleted_listed_violated), filters, times outside the range of C58; spreadsheets and the common format only when they are finished (C53, C57)."
  },
  {
   "property": "C80",
   "status": "partial",
   "theorems": [
    "Notatin.tables_agree_partial",
    "Notatin.tables_differ_violated"
   ],
   "note": "From the bytes on the disk to both exports read back, for every file, option and filter with which both exports are finished: the same rows and the same log. Partial: the statement about the sheet is up to characters XML does not allow, which become replacement characters (violated: two hives with different TSV exports and one and the same spreadsheet); an XLSX export need not finish (C53)."
  },
  {
   "property": "C81",
   "status": "partial",
   "theorems": [
    "Notatin.compare_filter_tells_partial",
    "Notatin.compare_filter_violated"
   ],
   "note": "As C74, with a filter path: proved for every two hives and every path of names without backslashes, with any number of backslashes behind. Partial: the conditions of C74, hive entry flag only at the root (as in C11). Violated for a path as reports print it, with a backslash in front: no change is counted whatever the hives."
  },
  {
   "property": "C82",
   "status": "partial",
   "theorems": [
    "Notatin.opening_told",
    "Notatin.unclean_told",
    "Notatin.left_out_told_partial",
    "Notatin.dump_log_told",
    "Notatin.damaged_entry_violated",
    "Notatin.dump_silent_violated"
   ],
   "note": "For every file and all logs, with and without recovery: opening is silent only for clean, intact hives opened without logs; a hive that needs recovery has a warning about its header; no warning about logs means that every entry of every log was applied; all of it is in the TSV and XLSX exports. Partial: header with a right checksum, entries up to the first bytes that do not begin like an entry. Violated: entries behind a damaged signature are left out in silence (for every hive and log); JSONL and common exports have no log at all (witness: a dirty hive without its logs is exported like the clean one)."
  },
  {
   "property": "C83",
   "status": "partial",
   "theorems": [
    "Notatin.open_safe_partial",
    "Notatin.list_safe_partial",
    "Notatin.post_list_safe_partial",
    "Notatin.dump_safe_partial",
    "Notatin.dump_common_safe_partial",
    "Notatin.self_list_violated",
    "Notatin.dump_self_list_violated",
    "Notatin.tiny_entry_violated",
    "Notatin.last_number_violated",
    "Notatin.dump_common_violated"
   ],
   "note": "For every file, without recovery: opening ends with a parser or an error; listing with any filter ends, in either order, without an error (in pre-order no key twice); reg_dump in JSONL, TSV and XLSX ends, not by a panic, and in the common format too if the header tells a known file type and fewer than 2^32 items are listed. Partial: log entries tell a size of at least 40 and not the number 2^32-1, the sub-key lists do not nest deeper than the stack has room for and their offsets fit into 32 bits. Violated without that: a 4222-byte hive whose list lists itself crashes every listing and export at every stack size; a log entry of size 32 crashes opening of every hive; an entry numbered 2^32-1 crashes opening (checked arithmetic); the common export crashes on an unknown file type."
  },
  {
   "property": "C84",
   "status": "partial",
   "theorems": [
    "Notatin.get_key_safe_partial",
    "Notatin.key_safe_partial",
    "Notatin.root_cell_crash_violated",
    "Notatin.parent_crash_violated",
    "Notatin.get_key_self_violated"
   ],
   "note": "For every file, without recovery: looking up any path ends with a key or the answer that there is none; from every key obtained in any way, its sub-keys by index, one after the other, all at once or by a path, and its parent, are read without a panic. Partial: root and parent offsets are not negative, sub-key lists as in C83, the stack has room for as many calls as the path has segments. Violated without: a header with the root at -1 crashes every lookup, a key with its parent at -1 crashes get_parent_key, a list listing itself crashes the lookup. get_sub_key is not part of it (C43)."
  },
  {
   "property": "C85",
   "status": "partial",
   "theorems": [
    "Notatin.count_stored",
    "Notatin.count_filter_partial",
    "Notatin.count_recovered_partial",
    "Notatin.count_past_partial",
    "Notatin.counted_apart_violated"
   ],
   "note": "Without recovery the counts are those of the stored keys and values (with a filter: of the keys asked for, under the conditions of C11). With recovery, clean files: stored ones and those found in free space, as listed by C77; the values of a deleted key are counted as if they were there (witness). With recovery and logs, for the histories of C75 and C76: stored ones, lost ones and removed values, with the former contents; partial in the root, which tells nothing of its past, and the keys lost directly below it (C75, C76). Not proved: a filter together with recovery."
  },
  {
   "property": "C86",
   "status": "partial",
   "theorems": [
    "Notatin.recover_open_partial",
    "Notatin.recover_list_partial",
    "Notatin.recover_get_key_partial",
    "Notatin.recover_key_partial",
    "Notatin.recover_dump_partial",
    "Notatin.recover_dump_common_partial",
    "Notatin.logs_open_partial",
    "Notatin.logs_list_partial",
    "Notatin.logs_dump_partial",
    "Notatin.logs_dump_common_partial",
    "Notatin.logs_get_key_partial",
    "Notatin.logs_key_partial",
    "Notatin.open_nested_violated",
    "Notatin.open_two_roots_violated"
   ],
   "note": "For every file, with recovery, no log entry being applied (no logs, or a header that tells all is written): opening ends with a hive or an error; listing with any filter ends, no key of the tree twice; looking up any path, and the sub-keys and the parent of any key obtained, recovered keys among them, ends without a panic; so does reg_dump, in the common format if the header tells a known file type and fewer than 2^32 items are listed. Partial: logs and sub-key lists as in C83 and C84, root and parent offsets not negative, and the stack has room for one call per 24 bytes of the file. Violated with 4210 bytes more than that: a clean hive with one key that is opened and listed without recovery crashes the opening with recovery. While log entries are applied: opening ends with a hive or an error, the hive can be listed, and reg_dump ends, if in each state the entries can make of the file only the root has the mark of a root, no key name has a backslash, and the stack has room for a call per byte. So are lookups of any path after that, and from any key obtained its sub-keys all at once or by a path and its parent; by index and one after the other for keys in use. Not proved: sub-keys by index of keys a log has taken away, whose list is looked for where it was before. Violated when log entries are applied: with two former root keys in free space and two entries that change nothing, opening never ends on any stack tried, here of a million calls."
  },
  {
   "property": "C87",
   "status": "partial",
   "theorems": [
    "Notatin.pretty_path",
    "Notatin.path_back_partial",
    "Notatin.pretty_path_root_violated",
    "Notatin.python_back"
   ],
   "note": "From the bytes of the hive and its logs, opened without recovery: the path of every listed key, looked up with the root in it, and the pretty path of every listed key but the root lead back to that key, before and after other lookups; the pretty path is computed without a panic for every key. Partial: names that are not empty, without backslash and distinct among sub-keys (otherwise: C12), root cell where Windows puts it. Violated for the root of every hive: its pretty path still contains the name of the root and leads to another key or nowhere; in Python the path of a key given to open never leads to that key."
  },
  {
   "property": "C88",
   "status": "partial",
   "theorems": [
    "Notatin.ways_agree_partial",
    "Notatin.ways_agree_whole_partial",
    "Notatin.deleted_ways_violated",
    "Notatin.many_ways_violated",
    "Notatin.damaged_ways_violated"
   ],
   "note": "For every file and everything on record, of every key in use that says to have at most 1048576 sub-keys: all at once gives what is given by index, in the same order and with the same contents, but for the mark of the filter; one after the other gives the same up to the first sub-key that cannot be read, so all of it if there is no such gap. Violated otherwise: a deleted key has no sub-keys all at once but has some by index, which are told to be in use although a log has taken them away; a key that says to have more than 1048576 sub-keys has none but by index; a damaged sub-key hides all behind it when asked for one after the other."
  },
  {
   "property": "C89",
   "status": "partial",
   "theorems": [
    "Notatin.reach_listed_partial",
    "Notatin.reach_recovered_partial",
    "Notatin.both_orders_partial",
    "Notatin.post_order_ends_partial",
    "Notatin.all_listed_partial",
    "Notatin.all_recovered_partial",
    "Notatin.broken_leaf_violated"
   ],
   "note": "For all bytes, every filter and all options of the pre-order listing; the post-order listing ends for all bytes and, without a filter and recovery, holds the same keys. Reachability is written from the file format (Spec/Reach.lean). Missing: lists of which only a part is in order (broken_leaf_violated: one damaged leaf hides the keys of all leaves), listings that crash (C08), filters in post-order (C48), and recovery with logs that leave a disorderly state."
  },
  {
   "property": "C90",
   "status": "partial",
   "theorems": [
    "Notatin.open_again_partial",
    "Notatin.open_again_plain",
    "Notatin.reject_again_plain",
    "Notatin.dump_again_partial",
    "Notatin.dump_again_plain",
    "Notatin.in_use_again",
    "Notatin.hash_order_violated",
    "Notatin.dump_order_violated"
   ],
   "note": "For all files: two openings that succeed open the same hive with the same items recovered and answer every listing and lookup the same, two finished runs of reg_dump write the same, whatever the room on the stacks and the time; without recovery also whatever the order of hash maps, and a file opened once is never rejected as broken; with recovery the keys in use are listed the same whatever that order. Missing: the order of hash maps with recovery, for what is recovered. Violated there: keys that one log entry takes away are listed and exported in the order in which a randomly seeded hash map is walked."
  },
  {
   "property": "C91",
   "status": "partial",
   "theorems": [
    "Notatin.log_twice_partial",
    "Notatin.log_twice_violated",
    "Notatin.oldest_twice_violated"
   ],
   "note": "For every hive, with and without recovery: giving one of the logs once more, in any place, changes nothing but the warnings, when the logs have different numbers and the entries of that log are numbered from the number in its header on, and, if the checksum of the hive is wrong, the log is not the oldest of several. Violated by a log with an entry numbered 2^32-1: given once the hive opens, given twice opening crashes where arithmetic is checked. Violated by the oldest of two logs beside a wrong checksum: one copy is set aside, the other is applied, and another key is listed. Missing besides: logs with entries numbered below their header."
  }
 ]
}