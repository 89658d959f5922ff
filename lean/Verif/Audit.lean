import Verif.Props.Text
import Verif.Props.Util
import Verif.Props.Lznt1
import Verif.Props.Header
import Verif.Props.Replay
import Verif.Props.TxLog
import Verif.Props.Cells
import Verif.Props.ValueData
import Verif.Props.Content
import Verif.Props.Lists
import Verif.Props.KeyReading
import Verif.Props.StateMaps
import Verif.Props.Termination
import Verif.Props.Order
import Verif.Props.Filter
import Verif.Props.Lookup
import Verif.Props.SubKey
import Verif.Props.Attach
import Verif.Props.Recover
import Verif.Props.Analyzer
import Verif.Props.AnalyzerFile
import Verif.Props.Compare
import Verif.Props.CompareFile
import Verif.Props.Diff
import Verif.Props.Writers
import Verif.Props.Cli
import Verif.Props.TsvText
import Verif.Props.Xlsx
import Verif.Props.XlsxFile
import Verif.Props.XlsxEnds
import Verif.Props.Json
import Verif.Props.Fields
import Verif.Props.Common
import Verif.Props.Time
import Verif.Props.Texts
import Verif.Props.Rows
import Verif.Props.Open
import Verif.Props.Parent
import Verif.Props.Python
import Verif.Props.Values
import Verif.Props.Dump
import Verif.Props.Files
import Verif.Props.CompareText
import Verif.Props.CompareTells
import Verif.Props.LookupNames
import Verif.Props.History
import Verif.Props.Overwritten
import Verif.Props.Recovered
import Verif.Props.RecoveredOnly
import Verif.Props.DumpPast
import Verif.Props.JsonPast
import Verif.Props.DumpFree
import Verif.Props.CompareFilter
import Verif.Props.SameTables
import Verif.Props.OpenTold
import Verif.Props.DumpTold
import Verif.Props.Safe
import Verif.Props.SafeLookup
import Verif.Props.Count
import Verif.Props.CountPast
import Verif.Props.SafeRecover
import Verif.Props.SafeCommon
import Verif.Props.FreedLogs
import Verif.Props.Returned
import Verif.Props.PathBack
import Verif.Props.SafeLogs
import Verif.Props.LookupLogs
import Verif.Props.Ways
import Verif.Props.Reach
import Verif.Props.SafePost
import Verif.Props.ListsFar
import Verif.Props.Repeat
import Verif.Props.InUse
import Verif.Props.AnyPath
import Verif.Props.LogTwice
/-
Prints the axioms of every theorem listed in MANIFEST.json (generated).
-/
#print axioms Notatin.checksum_spec
#print axioms Notatin.checksum_short
#print axioms Notatin.checksum_never_trivial
#print axioms Notatin.checksum_prefix_only
#print axioms Notatin.checksum_detects_dword
#print axioms Notatin.header_rewrite
#print axioms Notatin.updateHeader_ok
#print axioms Notatin.entry_effect
#print axioms Notatin.applied_run_partial
#print axioms Notatin.applied_run_violated
#print axioms Notatin.log_order
#print axioms Notatin.build_log_order
#print axioms Notatin.unreadable_logs_skipped_partial
#print axioms Notatin.unreadable_log_violated
#print axioms Notatin.header_seq_partial
#print axioms Notatin.header_seq_violated
#print axioms Notatin.iteration_ends_partial
#print axioms Notatin.iteration_total_partial
#print axioms Notatin.iteration_aborts
#print axioms Notatin.iteration_violated
#print axioms Notatin.iteration_preorder
#print axioms Notatin.iteration_postorder_partial
#print axioms Notatin.post_perm_pre
#print axioms Notatin.postorder_example
#print axioms Notatin.postorder_violated
#print axioms Notatin.filter_listing_partial
#print axioms Notatin.key_path_segments
#print axioms Notatin.segments_added
#print axioms Notatin.filter_root_missed
#print axioms Notatin.filter_root_shown
#print axioms Notatin.filter_root_flag_violated
#print axioms Notatin.pattern_lowered_violated
#print axioms Notatin.filter_violated
#print axioms Notatin.lookup_path
#print axioms Notatin.sub_key_by_path
#print axioms Notatin.get_key_partial
#print axioms Notatin.sub_key_by_names
#print axioms Notatin.asks_for
#print axioms Notatin.asks_once
#print axioms Notatin.get_key_any_partial
#print axioms Notatin.first_at_walk
#print axioms Notatin.get_key_root_ends_violated
#print axioms Notatin.get_key_backslash_violated
#print axioms Notatin.get_key_twins_violated
#print axioms Notatin.nk_decode_ascii
#print axioms Notatin.nk_decode_utf16
#print axioms Notatin.nk_accepts_iff
#print axioms Notatin.nk_inside_partial
#print axioms Notatin.nk_inside_violated
#print axioms Notatin.vk_decode_ascii
#print axioms Notatin.vk_decode_utf16
#print axioms Notatin.vk_accepts_iff
#print axioms Notatin.data_type_decode
#print axioms Notatin.vk_inside_partial
#print axioms Notatin.vk_inside_violated
#print axioms Notatin.value_data_partial
#print axioms Notatin.value_data_truncated_violated
#print axioms Notatin.value_data_db_violated
#print axioms Notatin.sub_key_list_partial
#print axioms Notatin.sub_key_list_rejected
#print axioms Notatin.hashed_list_far
#print axioms Notatin.plain_list_far
#print axioms Notatin.sub_key_list_violated
#print axioms Notatin.sub_key_list_cycle_violated
#print axioms Notatin.content_number
#print axioms Notatin.content_number_short
#print axioms Notatin.content_text
#print axioms Notatin.content_text_total
#print axioms Notatin.content_texts_total
#print axioms Notatin.content_raw
#print axioms Notatin.content_absent
#print axioms Notatin.content_total
#print axioms Notatin.utf16_decode_pieces
#print axioms Notatin.utf16_roundtrip
#print axioms Notatin.utf16_total
#print axioms Notatin.multi_sz_roundtrip_partial
#print axioms Notatin.multi_sz_violated
#print axioms Notatin.multi_sz_blank_violated
#print axioms Notatin.multi_sz_total
#print axioms Notatin.filetime_exact_iff_partial
#print axioms Notatin.filetime_monotone_partial
#print axioms Notatin.filetime_violated
#print axioms Notatin.rot13_pointwise
#print axioms Notatin.rot13_involution
#print axioms Notatin.hex_form
#print axioms Notatin.hex_roundtrip
#print axioms Notatin.hex_injective
#print axioms Notatin.escape_plain
#print axioms Notatin.escape_read_field
#print axioms Notatin.escape_row_roundtrip
#print axioms Notatin.escape_injective
#print axioms Notatin.lznt1_split
#print axioms Notatin.dispBits_least
#print axioms Notatin.lznt1_roundtrip
#print axioms Notatin.lznt1_panics
#print axioms Notatin.lznt1_never_err
#print axioms Notatin.root_prefix_stripped
#print axioms Notatin.root_prefix_absent
#print axioms Notatin.root_prefix_in_bounds
#print axioms Notatin.recover_terminates_partial
#print axioms Notatin.recover_sound_partial
#print axioms Notatin.recover_overflow_violated
#print axioms Notatin.deleted_values_recorded
#print axioms Notatin.modified_recorded
#print axioms Notatin.deleted_keys_recorded_partial
#print axioms Notatin.deleted_keys_violated
#print axioms Notatin.security_ring_partial
#print axioms Notatin.security_ring_only
#print axioms Notatin.security_ring_violated
#print axioms Notatin.marvin_word_change
#print axioms Notatin.entry_valid_iff
#print axioms Notatin.corruption_detected
#print axioms Notatin.compare_reported_partial
#print axioms Notatin.hives_compared_partial
#print axioms Notatin.compare_same
#print axioms Notatin.compare_self
#print axioms Notatin.total_changes
#print axioms Notatin.compare_backslash_violated
#print axioms Notatin.compare_case_violated
#print axioms Notatin.compare_root_violated
#print axioms Notatin.diff_hunks_partial
#print axioms Notatin.diff_newline_violated
#print axioms Notatin.common_totals
#print axioms Notatin.common_finishes_partial
#print axioms Notatin.common_opened_partial
#print axioms Notatin.common_hive_partial
#print axioms Notatin.common_default_violated
#print axioms Notatin.tsv_rows
#print axioms Notatin.tsv_recovered_sublist
#print axioms Notatin.recovered_only_partial
#print axioms Notatin.recovered_only_xlsx_partial
#print axioms Notatin.recovered_only_violated
#print axioms Notatin.key_flags_decode
#print axioms Notatin.access_flags_decode
#print axioms Notatin.value_flags_decode_partial
#print axioms Notatin.value_flags_violated
#print axioms Notatin.file_type_decode
#print axioms Notatin.log_entry_roundtrip
#print axioms Notatin.log_entries_roundtrip
#print axioms Notatin.log_file_roundtrip
#print axioms Notatin.get_value_first
#print axioms Notatin.get_value_none
#print axioms Notatin.get_value_default
#print axioms Notatin.analysis_starts
#print axioms Notatin.analysis_continues
#print axioms Notatin.analysis_latest
#print axioms Notatin.analysis_modified_keys
#print axioms Notatin.analysis_modified_values
#print axioms Notatin.analysis_deleted_values
#print axioms Notatin.analysis_deleted_keys_partial
#print axioms Notatin.analysis_lost_violated
#print axioms Notatin.analysis_recovered_violated
#print axioms Notatin.analysis_unchanged_violated
#print axioms Notatin.analysis_stale_violated
#print axioms Notatin.log_files_partial
#print axioms Notatin.paths_taken_apart
#print axioms Notatin.log_files_violated
#print axioms Notatin.log_files_case_violated
#print axioms Notatin.read_values_partial
#print axioms Notatin.read_values_violated
#print axioms Notatin.ascii_decode
#print axioms Notatin.ascii_injective
#print axioms Notatin.name_decode_choice
#print axioms Notatin.open_clean
#print axioms Notatin.open_unsupported
#print axioms Notatin.open_no_logs
#print axioms Notatin.bad_checksum_header
#print axioms Notatin.recovered_header_violated
#print axioms Notatin.attached_all
#print axioms Notatin.attach_ends
#print axioms Notatin.attach_partial
#print axioms Notatin.attach_root_violated
#print axioms Notatin.attach_loops_violated
#print axioms Notatin.get_sub_key_partial
#print axioms Notatin.get_sub_key_root_none
#print axioms Notatin.get_sub_key_root_panics
#print axioms Notatin.get_sub_key_violated
#print axioms Notatin.sub_key_by_index_partial
#print axioms Notatin.sub_key_by_index_none
#print axioms Notatin.next_sub_key_partial
#print axioms Notatin.sub_key_by_index_violated
#print axioms Notatin.incomplete_data_partial
#print axioms Notatin.incomplete_data_violated
#print axioms Notatin.data_offsets_partial
#print axioms Notatin.data_offsets_violated
#print axioms Notatin.decode_content_partial
#print axioms Notatin.decode_content_utf16
#print axioms Notatin.decode_content_rot13
#print axioms Notatin.decode_content_violated
#print axioms Notatin.postorder_filter_partial
#print axioms Notatin.filteredPost_perm
#print axioms Notatin.postorder_filter_example
#print axioms Notatin.postorder_filter_violated
#print axioms Notatin.recover_complete_partial
#print axioms Notatin.recover_misses_last_bins
#print axioms Notatin.recover_misses_last_bins_violated
#print axioms Notatin.outputs_partial
#print axioms Notatin.outputs_dot_violated
#print axioms Notatin.outputs_underscore_violated
#print axioms Notatin.hives_taken_partial
#print axioms Notatin.hives_compared_pairs
#print axioms Notatin.hives_taken_violated
#print axioms Notatin.tsv_read_back
#print axioms Notatin.tsv_plain
#print axioms Notatin.xlsx_rows
#print axioms Notatin.xlsx_plain
#print axioms Notatin.xlsx_short
#print axioms Notatin.xlsx_rows_tell_partial
#print axioms Notatin.xlsx_finishes_texts_partial
#print axioms Notatin.xlsx_finishes_partial
#print axioms Notatin.xlsx_row_limit
#print axioms Notatin.xlsx_row_limit_violated
#print axioms Notatin.sanitize_cleaned
#print axioms Notatin.xlsx_legal
#print axioms Notatin.xlsx_legal_texts
#print axioms Notatin.jsonl_read_back_partial
#print axioms Notatin.jsonl_texts_told_partial
#print axioms Notatin.jsonl_versions_violated
#print axioms Notatin.fields_placed_partial
#print axioms Notatin.common_read_back_partial
#print axioms Notatin.common_times_told_partial
#print axioms Notatin.common_key_path_violated
#print axioms Notatin.common_type_violated
#print axioms Notatin.times_told_partial
#print axioms Notatin.times_violated
#print axioms Notatin.keyFlags_named
#print axioms Notatin.keyAccess_named
#print axioms Notatin.valueFlags_named_partial
#print axioms Notatin.tsv_rows_tell_partial
#print axioms Notatin.access_bits_violated
#print axioms Notatin.content_read_back
#print axioms Notatin.jsonl_ill_formed_marked
#print axioms Notatin.tsv_ill_formed_violated
#print axioms Notatin.open_clean_lists
#print axioms Notatin.open_dirty_lists_partial
#print axioms Notatin.applyAll_effect
#print axioms Notatin.root_cell_violated
#print axioms Notatin.recovery_only_adds_partial
#print axioms Notatin.recovery_same_in_use_partial
#print axioms Notatin.recovery_only_adds_violated
#print axioms Notatin.builder_filter_violated
#print axioms Notatin.parent_found_partial
#print axioms Notatin.withParent_pre
#print axioms Notatin.parent_violated
#print axioms Notatin.python_dates_partial
#print axioms Notatin.python_dates_violated
#print axioms Notatin.python_lists
#print axioms Notatin.python_list_eq
#print axioms Notatin.python_opens
#print axioms Notatin.python_loops
#print axioms Notatin.python_iteration_violated
#print axioms Notatin.builds_again_partial
#print axioms Notatin.builds_again_violated
#print axioms Notatin.python_content
#print axioms Notatin.python_text_violated
#print axioms Notatin.opened_tells
#print axioms Notatin.open_clean_tells
#print axioms Notatin.open_dirty_tells_partial
#print axioms Notatin.opened_filter_tells_partial
#print axioms Notatin.opened_lookup_partial
#print axioms Notatin.dump_clean_partial
#print axioms Notatin.dump_dirty_partial
#print axioms Notatin.dump_tells_partial
#print axioms Notatin.dump_filter_tells_partial
#print axioms Notatin.openLogs_found
#print axioms Notatin.dump_filter_violated
#print axioms Notatin.buffered_file
#print axioms Notatin.buffered_complete
#print axioms Notatin.dump_complete_partial
#print axioms Notatin.compare_complete_partial
#print axioms Notatin.buffered_violated
#print axioms Notatin.dump_success_violated
#print axioms Notatin.folder_success_violated
#print axioms Notatin.compare_success_violated
#print axioms Notatin.dump_only_output
#print axioms Notatin.folder_inputs_unchanged
#print axioms Notatin.folder_exports_partial
#print axioms Notatin.compare_only_output
#print axioms Notatin.compare_inputs_unchanged
#print axioms Notatin.compare_destroys_violated
#print axioms Notatin.dump_replaces_violated
#print axioms Notatin.compare_tells_partial
#print axioms Notatin.reported_stored
#print axioms Notatin.report_lines
#print axioms Notatin.shown_read_back
#print axioms Notatin.compare_flags_violated
#print axioms Notatin.lost_keys_listed_partial
#print axioms Notatin.lost_keys_listed_violated
#print axioms Notatin.deleted_by_log_violated
#print axioms Notatin.lost_for_good_violated
#print axioms Notatin.lost_anywhere_violated
#print axioms Notatin.overwritten_told_partial
#print axioms Notatin.root_tells_past_violated
#print axioms Notatin.removed_values_versions_violated
#print axioms Notatin.deleted_listed_partial
#print axioms Notatin.deleted_listed_violated
#print axioms Notatin.deleted_forgotten_violated
#print axioms Notatin.deleted_stale_violated
#print axioms Notatin.dump_tells_past_partial
#print axioms Notatin.dump_json_past_partial
#print axioms Notatin.dump_free_partial
#print axioms Notatin.deleted_values_marked_violated
#print axioms Notatin.deleted_values_written_violated
#print axioms Notatin.tables_agree_partial
#print axioms Notatin.tables_differ_violated
#print axioms Notatin.compare_filter_tells_partial
#print axioms Notatin.compare_filter_violated
#print axioms Notatin.opening_told
#print axioms Notatin.unclean_told
#print axioms Notatin.left_out_told_partial
#print axioms Notatin.dump_log_told
#print axioms Notatin.damaged_entry_violated
#print axioms Notatin.dump_silent_violated
#print axioms Notatin.open_safe_partial
#print axioms Notatin.list_safe_partial
#print axioms Notatin.post_list_safe_partial
#print axioms Notatin.dump_safe_partial
#print axioms Notatin.dump_common_safe_partial
#print axioms Notatin.self_list_violated
#print axioms Notatin.dump_self_list_violated
#print axioms Notatin.tiny_entry_violated
#print axioms Notatin.last_number_violated
#print axioms Notatin.dump_common_violated
#print axioms Notatin.get_key_safe_partial
#print axioms Notatin.key_safe_partial
#print axioms Notatin.root_cell_crash_violated
#print axioms Notatin.parent_crash_violated
#print axioms Notatin.get_key_self_violated
#print axioms Notatin.count_stored
#print axioms Notatin.count_filter_partial
#print axioms Notatin.count_recovered_partial
#print axioms Notatin.count_past_partial
#print axioms Notatin.counted_apart_violated
#print axioms Notatin.recover_open_partial
#print axioms Notatin.recover_list_partial
#print axioms Notatin.recover_get_key_partial
#print axioms Notatin.recover_key_partial
#print axioms Notatin.recover_dump_partial
#print axioms Notatin.recover_dump_common_partial
#print axioms Notatin.logs_open_partial
#print axioms Notatin.logs_list_partial
#print axioms Notatin.logs_dump_partial
#print axioms Notatin.logs_dump_common_partial
#print axioms Notatin.logs_get_key_partial
#print axioms Notatin.logs_key_partial
#print axioms Notatin.open_nested_violated
#print axioms Notatin.open_two_roots_violated
#print axioms Notatin.pretty_path
#print axioms Notatin.path_back_partial
#print axioms Notatin.pretty_path_root_violated
#print axioms Notatin.python_back
#print axioms Notatin.ways_agree_partial
#print axioms Notatin.ways_agree_whole_partial
#print axioms Notatin.deleted_ways_violated
#print axioms Notatin.many_ways_violated
#print axioms Notatin.damaged_ways_violated
#print axioms Notatin.reach_listed_partial
#print axioms Notatin.reach_recovered_partial
#print axioms Notatin.both_orders_partial
#print axioms Notatin.post_order_ends_partial
#print axioms Notatin.all_listed_partial
#print axioms Notatin.all_recovered_partial
#print axioms Notatin.broken_leaf_violated
#print axioms Notatin.open_again_partial
#print axioms Notatin.open_again_plain
#print axioms Notatin.reject_again_plain
#print axioms Notatin.dump_again_partial
#print axioms Notatin.dump_again_plain
#print axioms Notatin.in_use_again
#print axioms Notatin.hash_order_violated
#print axioms Notatin.dump_order_violated
#print axioms Notatin.log_twice_partial
#print axioms Notatin.log_twice_violated
#print axioms Notatin.oldest_twice_violated
